import Verif.Props.FloatLin

/-!
# Property C87 for the convolution layers
-/

namespace Verif.Props

open Verif Finset Linear Gen Conv _root_.Verif.Float
open Verif.Spec (IsF32)

/-- The windows of an array of binary32 numbers consist of such numbers. -/
theorem windowRow_isF32 (g : Geo) (N C H W : ℕ) (img : ℕ → ℕ → ℕ → ℕ → ℚ)
    (h : ∀ n c y x, n < N → c < C → y < H → x < W → IsF32 (img n c y x)) (n y x : ℕ) (hn : n < N) (q : Fin (C * g.kh * g.kw)) :
    IsF32 (Spec.windowRow g C H W 0 img n y x q) := by
  have z : IsF32 0 := ⟨0, 0, by norm_num, by norm_num, by simp⟩
  show IsF32 (Spec.tap _ _ _ _ _ _ _ _ _)
  unfold Spec.tap
  split_ifs with hc
  · exact h n _ _ _ hn (flat_lt q.2).2.2 (by omega) (by omega)
  · exact z

/-- The convolution pipeline when the layer function has exactly one possible result on every window. -/
theorem convF_spec {O : ℕ} (hO : 0 < O) (g : Geo) (N C H W : ℕ) (hN : 0 < N) (hg : Spec.GeoOK g H W)
    (bias : Option (Fin O → ℚ)) (img : ℕ → ℕ → ℕ → ℕ → ℚ) (R : (Fin (C * g.kh * g.kw) → ℚ) → Fin O → ℚ → Prop)
    (f : (Fin (C * g.kh * g.kw) → ℚ) → Fin O → ℚ)
    (hR : ∀ n y x o, n < N → R (Spec.windowRow g C H W 0 img n y x) o (f (Spec.windowRow g C H W 0 img n y x) o) ∧
      ∀ v, R (Spec.windowRow g C H W 0 img n y x) o v → v = f (Spec.windowRow g C H W 0 img n y x) o) :
    (∃ r, ConvF g N C H W bias img R r) ∧
    ∀ r, ConvF g N C H W bias img R r → ∃ F, r = .ok F ∧
      ∀ (n : ℕ) (o : Fin O) (y x : ℕ), n < N → y < Spec.outH g H → x < Spec.outW g W →
        F n o y x = addBiasF (f (Spec.windowRow g C H W 0 img n y x) o) (bias.map fun b => b o) := by
  obtain ⟨rows, os, F, e1, e2, e3, e4⟩ := C52_pipeline hO g N C H W hN hg (0:ℚ) img f
  have mem : ∀ row ∈ rows, ∃ n y x, n < N ∧ row = Spec.windowRow g C H W 0 img n y x := by
    rw [im2col_ok g N C H W hg 0 img] at e1
    rw [← Except.ok.inj e1]
    intro row hrow
    rw [List.mem_ofFn] at hrow
    obtain ⟨r, rfl⟩ := hrow
    refine ⟨_, _, _, ?_, rfl⟩
    have hr := r.2
    exact Nat.div_lt_of_lt_mul (lt_of_lt_of_eq hr (Nat.mul_comm _ _))
  have row : ∀ row ∈ rows, ∀ o, R row o (f row o) ∧ ∀ v, R row o v → v = f row o := by
    intro row hrow o
    obtain ⟨n, y, x, hn, rfl⟩ := mem row hrow
    exact hR n y x o hn
  have ex : List.Forall₂ (fun row (y : Fin O → ℚ) => ∀ o, R row o (y o)) rows (rows.map f) := by
    clear e1 e3 mem
    induction rows with
    | nil => exact .nil
    | cons a l ih =>
        exact .cons (fun o => (row a (by simp) o).1) (ih fun b hb => row b (List.mem_cons_of_mem _ hb))
  have un : ∀ mm, List.Forall₂ (fun row (y : Fin O → ℚ) => ∀ o, R row o (y o)) rows mm → mm = rows.map f := by
    intro mm hmm
    clear e1 e3 mem ex
    induction hmm with
    | nil => rfl
    | @cons a b l l' hab _ ih =>
        rw [List.map_cons, ih fun b hb => row b (List.mem_cons_of_mem _ hb)]
        congr 1
        funext o
        exact (row a (by simp) o).2 _ (hab o)
  unfold ConvF
  rw [e1, e2]
  refine ⟨⟨_, _, ex, rfl⟩, ?_⟩
  rintro r ⟨mm, hmm, rfl⟩
  rw [un mm hmm, e3]
  refine ⟨addBias4F bias F, rfl, fun n o y x hn hy hx => ?_⟩
  rw [← e4 n o y x hn hy hx]
  cases bias with
  | none => rfl
  | some b => simp [addBias4F, addBiasF]

theorem addBiasF_eq {z : ℚ} {b : Option ℚ} (hz : IsF32 z) : addBiasF z b = fl (z + b.getD 0) := by
  cases b with
  | none => simp [addBiasF, fl_of_isF32 hz]
  | some b => rfl

/-- A `FXPConv2d` call for measured scales `s`, `t`. -/
theorem conv_fixed_any {O : ℕ} (hO : 0 < O) (g : Geo) (B C H V : ℕ) (hB : 0 < B) (hg : Spec.GeoOK g H V)
    (lg : ℚ → ℚ) (δ : ℝ) (hδ : δ ≤ 1 / 2) (wi ww : ℕ) (h1 : 1 ≤ wi) (h2 : 1 ≤ ww) (hww : wi + ww ≤ 25)
    (hI : ((C * g.kh * g.kw : ℕ):ℤ) * ((2 ^ wi - 1) * (2 ^ ww - 1)) ≤ 2 ^ 24) (rounding : String)
    (hr : rounding.toLower ∈ ["round", "ceil", "floor"])
    (w : ℕ → ℕ → ℕ → ℕ → ℚ) (bias : Option (Fin O → ℚ)) (img : ℕ → ℕ → ℕ → ℕ → ℚ)
    (qi qw : ℚ)
    (sc : List ℚ → ℚ → Except PyErr ℚ) (s t : ℚ) (bs : (2:ℚ) ^ (-50:ℤ) ≤ s ∧ s ≤ (2:ℚ) ^ (50:ℤ)) (bt : (2:ℚ) ^ (-50:ℤ) ≤ t ∧ t ≤ (2:ℚ) ^ (50:ℤ))
    (es : sc ((entries B C H V img).flatMap List.ofFn) qi = .ok s)
    (et : sc ((List.ofFn (viewWeight g C O w)).flatMap List.ofFn) qw = .ok t)
    (M N : ℚ) (hx : Spec.MaxAbs4 M B C H V img) (hw : Spec.MaxAbs4 N O C g.kh g.kw w)
    (fx : ∀ n c y x, n < B → c < C → y < H → x < V → IsF32 (img n c y x)) (fw : ∀ o c i j, IsF32 (w o c i j))
    (hls : |((lg s : ℚ) : ℝ) - Real.logb 2 s| ≤ δ) (hlt : |((lg t : ℚ) : ℝ) - Real.logb 2 t| ≤ δ) :
    ∃ im wm, Spec.PickedNear δ rounding.toLower im s ∧ Spec.PickedNear δ rounding.toLower wm t ∧
      (∃ r, FxpConvF lg g B C H V wi ww qi qw rounding w bias img r sc) ∧
      ∀ r, FxpConvF lg g B C H V wi ww qi qw rounding w bias img r sc → ∃ F, r = .ok F ∧
        ∀ (n : ℕ) (o : Fin O) (y x : ℕ), n < B → y < Spec.outH g H → x < Spec.outW g V → ∀ dx dw : ℚ,
          dx = Spec.opErr (2 ^ wi - 1) ((2:ℚ) ^ (im - (wi - 1))) M →
          dw = Spec.opErr (2 ^ ww - 1) ((2:ℚ) ^ (wm - (ww - 1))) N →
          ∃ z, F n o y x = fl z ∧
            |z - (Spec.conv g C H V id id img w n o y x + (bias.map fun b => b o).getD 0)| ≤
              (C * g.kh * g.kw : ℕ) * (M * dw + N * dx + dx * dw) := by
  have hM0 : 0 < s := lt_of_lt_of_le (two_zpow_pos _) bs.1
  have hN0 : 0 < t := lt_of_lt_of_le (two_zpow_pos _) bt.1
  have hMn : 0 ≤ M := by obtain ⟨n, c, y, x, h⟩ := hx.2; rw [← h.2.2.2.2]; exact abs_nonneg _
  obtain ⟨im, wm, p1, p2, hs⟩ := shifts_any lg δ (entries B C H V img) (viewWeight g C O w) ((wi:ℤ) - 1) ((ww:ℤ) - 1)
    rounding.toLower hr qi qw sc s t hM0 hN0 es et hls hlt
  have b1 := picked_bounds hδ p1 bs.1 bs.2
  have b2 := picked_bounds hδ p2 bt.1 bt.2
  rw [abs_le] at b1 b2
  set rsi : ℤ := im - ((wi:ℤ) - 1) with hrsi
  set rsw : ℤ := wm - ((ww:ℤ) - 1) with hrsw
  have one : ∀ k : ℕ, (1:ℤ) ≤ 2 ^ k := fun k => one_le_pow₀ (by norm_num)
  have rb : ∀ (k : ℕ) (rs : ℤ) (a : ℚ), |fxpRound (2 ^ k) rs a| ≤ 2 ^ k - 1 := fun k rs a => by
    unfold fxpRound clamp
    have := one k
    generalize (2:ℤ) ^ k = A at *
    generalize roundHE (a / (2:ℚ) ^ rs) = q
    rw [abs_le]; omega
  have fwv : ∀ (o : Fin O) q, IsF32 (viewWeight g C O w o q) := fun o q => by rw [weight_eq]; exact fw _ _ _ _
  have out1 : ∀ n y x (o : Fin O), n < B → _ := fun n y x o hn => C87_fixed_output wi ww (by omega) (by omega) rsi rsw (by omega) (by omega)
    (by rw [abs_le]; omega) (Spec.windowRow g C H V 0 img n y x) (viewWeight g C O w o) (windowRow_isF32 g B C H V img fx n y x hn)
    (fwv o) none (by
      refine (sum_le_sum (g := fun _ => ((2:ℤ) ^ wi - 1) * (2 ^ ww - 1)) fun i _ => ?_).trans ?_
      · rw [abs_mul]
        exact mul_le_mul (rb _ _ _) (rb _ _ _) (abs_nonneg _) (by linarith [one wi])
      · rw [sum_const, card_univ, Fintype.card_fin, nsmul_eq_mul]; exact hI)
  obtain ⟨c1, c2⟩ := convF_spec hO g B C H V hB hg bias img
    (fun row o y => FxpOut rsi rsw (0 - rsi - rsw) (2 ^ wi) (2 ^ ww) row (viewWeight g C O w o) none y)
    (fun row o => fxpForward rsi rsw (0 - rsi - rsw) (2 ^ wi) (2 ^ ww) row (viewWeight g C O w o) none)
    (fun n y x o hn => by
      obtain ⟨⟨v, hv⟩, h⟩ := out1 n y x o hn
      refine ⟨?_, fun v hv => (h v hv).2 rfl⟩
      rw [← (h v hv).2 rfl]; exact hv)
  refine ⟨im, wm, p1, p2, by unfold FxpConvF; rw [hs]; exact c1, fun r hr' => ?_⟩
  unfold FxpConvF at hr'
  rw [hs] at hr'
  obtain ⟨F, e1, e2⟩ := c2 r hr'
  refine ⟨F, e1, fun n o y x hn hy hx' dx dw hdx hdw => ?_⟩
  obtain ⟨⟨v, hv⟩, h⟩ := out1 n y x o hn
  have F0 : IsF32 (fxpForward rsi rsw (0 - rsi - rsw) (2 ^ wi) (2 ^ ww) (Spec.windowRow g C H V 0 img n y x) (viewWeight g C O w o) none) := by
    rw [← (h v hv).2 rfl, (h v hv).1]; exact fl_isF32 _
  refine ⟨_, by rw [e2 n o y x hn hy hx', addBiasF_eq F0], ?_⟩
  obtain ⟨qx, qw, q1, q2, q3⟩ := fxp_row wi ww rsi rsw
  rw [q3, Option.getD_none, add_zero, add_sub_add_right_eq_sub, ← row_dot]
  have hxb := windowRow_bound g B C H V M hMn img hx.1 n y x hn
  have hwb : ∀ q, |viewWeight g C O w o q| ≤ N := fun q =>
    (maxAbs_entries hw).1 _ (by simp only [List.mem_flatMap, List.mem_ofFn]; exact ⟨_, ⟨o, rfl⟩, q, rfl⟩)
  have cast : ∀ k : ℕ, (2:ℤ) ^ k - 1 = ((2 ^ k - 1 : ℕ) : ℤ) := fun k => by
    rw [Nat.cast_sub Nat.one_le_two_pow]; push_cast; rfl
  rw [cast] at q1 q2
  exact dot_err _ _ (fun i => qx (Spec.windowRow g C H V 0 img n y x i)) (fun i => qw (viewWeight g C O w o i)) M N dx dw hxb hwb
    (fun i => hdx ▸ Spec.Nearest.opErr (q1 _) (zpow_pos (by norm_num) _) (hxb i))
    (fun i => hdw ▸ Spec.Nearest.opErr (q2 _) (zpow_pos (by norm_num) _) (hwb i))

/-- C87: a whole `FXPConv2d` call in binary32, with quantile one, the logarithm good to `δ ≤ 1/2`, magnitudes between `2^-50` and `2^50`, and
`C kh kw (2^wi - 1)(2^ww - 1) ≤ 2^24`: it gives a result, and every output is one rounding of a number `z` within the bilinear bound of
exact convolution. -/
theorem C87_conv_fixed {O : ℕ} (hO : 0 < O) (g : Geo) (B C H V : ℕ) (hB : 0 < B) (hg : Spec.GeoOK g H V)
    (lg : ℚ → ℚ) (δ : ℝ) (hδ : δ ≤ 1 / 2) (wi ww : ℕ) (h1 : 1 ≤ wi) (h2 : 1 ≤ ww) (hww : wi + ww ≤ 25)
    (hI : ((C * g.kh * g.kw : ℕ):ℤ) * ((2 ^ wi - 1) * (2 ^ ww - 1)) ≤ 2 ^ 24) (rounding : String)
    (hr : rounding.toLower ∈ ["round", "ceil", "floor"])
    (w : ℕ → ℕ → ℕ → ℕ → ℚ) (bias : Option (Fin O → ℚ)) (img : ℕ → ℕ → ℕ → ℕ → ℚ)
    (M N : ℚ) (hM : (2:ℚ) ^ (-50:ℤ) ≤ M ∧ M ≤ (2:ℚ) ^ (50:ℤ)) (hN : (2:ℚ) ^ (-50:ℤ) ≤ N ∧ N ≤ (2:ℚ) ^ (50:ℤ))
    (hx : Spec.MaxAbs4 M B C H V img) (hw : Spec.MaxAbs4 N O C g.kh g.kw w)
    (fx : ∀ n c y x, n < B → c < C → y < H → x < V → IsF32 (img n c y x)) (fw : ∀ o c i j, IsF32 (w o c i j))
    (hlM : |((lg M : ℚ) : ℝ) - Real.logb 2 M| ≤ δ) (hlN : |((lg N : ℚ) : ℝ) - Real.logb 2 N| ≤ δ) :
    ∃ im wm, Spec.PickedNear δ rounding.toLower im M ∧ Spec.PickedNear δ rounding.toLower wm N ∧
      (∃ r, FxpConvF lg g B C H V wi ww 1 1 rounding w bias img r) ∧
      ∀ r, FxpConvF lg g B C H V wi ww 1 1 rounding w bias img r → ∃ F, r = .ok F ∧
        ∀ (n : ℕ) (o : Fin O) (y x : ℕ), n < B → y < Spec.outH g H → x < Spec.outW g V → ∀ dx dw : ℚ,
          dx = Spec.opErr (2 ^ wi - 1) ((2:ℚ) ^ (im - (wi - 1))) M →
          dw = Spec.opErr (2 ^ ww - 1) ((2:ℚ) ^ (wm - (ww - 1))) N →
          ∃ z, F n o y x = fl z ∧
            |z - (Spec.conv g C H V id id img w n o y x + (bias.map fun b => b o).getD 0)| ≤
              (C * g.kh * g.kw : ℕ) * (M * dw + N * dx + dx * dw) :=
  conv_fixed_any hO g B C H V hB hg lg δ hδ wi ww h1 h2 hww hI rounding hr w bias img 1 1 qscale M N hM hN
    (qscale_full (maxAbs_entries hx)) (qscale_full (maxAbs_entries hw)) M N hx hw fx fw hlM hlN

/-- A `HUBConv2d` call for measured scales `s`, `t`. -/
theorem conv_hybrid_any {O : ℕ} (hO : 0 < O) (g : Geo) (B C H V : ℕ) (hB : 0 < B) (hg : Spec.GeoOK g H V)
    (lg : ℚ → ℚ) (δ : ℝ) (hδ : δ ≤ 1 / 2) (envi envw : Env) (W : ℕ) (hW : 1 ≤ W) (hW' : W ≤ 24)
    (hI : ((C * g.kh * g.kw : ℕ):ℤ) * 2 ^ W ≤ 2 ^ 24) (rngi rngw : String) (cycle : ℕ) (hc : 1 ≤ cycle)
    (rounding : String) (hr : rounding.toLower ∈ ["round", "ceil", "floor"])
    (ht : ¬ (Spec.TemporalName rngi ∧ Spec.TemporalName rngw))
    (li lw : List ℤ) (hli : rng envi W rngi = .ok li) (hlw : rng envw W rngw = .ok lw)
    (hpi : Verif.Spec.IsPermSeq W li) (hpw : Verif.Spec.IsPermSeq W lw)
    (hs : if Spec.TemporalName rngw then Spec.SobolOk envi rngi W else Spec.SobolOk envw rngw W)
    (w : ℕ → ℕ → ℕ → ℕ → ℚ) (bias : Option (Fin O → ℚ)) (img : ℕ → ℕ → ℕ → ℕ → ℚ)
    (qi qw : ℚ) (hqi : 0 < qi ∧ qi ≤ 1) (hqw : 0 < qw ∧ qw ≤ 1)
    (sc : List ℚ → ℚ → Except PyErr ℚ) (s t : ℚ) (bs : (2:ℚ) ^ (-50:ℤ) ≤ s ∧ s ≤ (2:ℚ) ^ (50:ℤ)) (bt : (2:ℚ) ^ (-50:ℤ) ≤ t ∧ t ≤ (2:ℚ) ^ (50:ℤ))
    (es : sc ((entries B C H V img).flatMap List.ofFn) qi = .ok s)
    (et : sc ((List.ofFn (viewWeight g C O w)).flatMap List.ofFn) qw = .ok t)
    (M N : ℚ) (hx : Spec.MaxAbs4 M B C H V img) (hw : Spec.MaxAbs4 N O C g.kh g.kw w)
    (fx : ∀ n c y x, n < B → c < C → y < H → x < V → IsF32 (img n c y x)) (fw : ∀ o c i j, IsF32 (w o c i j))
    (hls : |((lg s : ℚ) : ℝ) - Real.logb 2 s| ≤ δ) (hlt : |((lg t : ℚ) : ℝ) - Real.logb 2 t| ≤ δ) :
    ∃ h im wm, Spec.PickedNear δ rounding.toLower im s ∧ Spec.PickedNear δ rounding.toLower wm t ∧
      mkHub envi envw (W + 1) rngi qi (W + 1) rngw qw (some cycle) rounding true = .ok h ∧
      (∃ r, HubConvF lg h g B C H V w bias img r sc) ∧
      ∀ r, HubConvF lg h g B C H V w bias img r sc → ∃ F, r = .ok F ∧
        ∀ (n : ℕ) (o : Fin O) (y x : ℕ), n < B → y < Spec.outH g H → x < Spec.outW g V → ∀ dx dw : ℚ,
          dx = Spec.opErr (min cycle (2 ^ W) - 1) ((2:ℚ) ^ (im - W)) M →
          dw = Spec.opErr (min cycle (2 ^ W) - 1) ((2:ℚ) ^ (wm - W)) N →
          ∃ z, F n o y x = fl z ∧
            |z - (Spec.conv g C H V id id img w n o y x + (bias.map fun b => b o).getD 0)| ≤
              (C * g.kh * g.kw : ℕ) * (W * (2:ℚ) ^ (im + wm - W) + (M * dw + N * dx + dx * dw)) := by
  have hM0 : 0 < s := lt_of_lt_of_le (two_zpow_pos _) bs.1
  have hN0 : 0 < t := lt_of_lt_of_le (two_zpow_pos _) bt.1
  have hMn : 0 ≤ M := by obtain ⟨n, c, y, x, h⟩ := hx.2; rw [← h.2.2.2.2]; exact abs_nonneg _
  obtain ⟨h, h1, hcy, h3, h4, h5, h6, h7, hT, hA⟩ := hub_built envi envw W hW rngi rngw qi qw hqi hqw cycle
    rounding hr ht li lw hli hlw hpi hpw hs
  obtain ⟨im, wm, p1, p2, hsh⟩ := shifts_any lg δ (entries B C H V img) (viewWeight g C O w) W W
    rounding.toLower hr qi qw sc s t hM0 hN0 es et hls hlt
  rw [max_self] at hsh
  have b1 := picked_bounds hδ p1 bs.1 bs.2
  have b2 := picked_bounds hδ p2 bt.1 bt.2
  rw [abs_le] at b1 b2
  have hcm : hubCycleMax h.widthi h.widthw = 2 ^ W := by unfold hubCycleMax; rw [h3, h4, max_self, Nat.add_sub_cancel]
  have hsh' : rshiftF lg (entries B C H V img) (viewWeight g C O w) ((h.widthi : ℤ) - 1) ((h.widthw : ℤ) - 1) h.rounding
      h.quantilei h.quantilew sc = .ok (im - W, wm - W, W - im - wm) := by
    rw [h3, h4, h5, h6, h7, ← hsh]; push_cast; rw [add_sub_cancel_right]
  have fwv : ∀ (o : Fin O) q, IsF32 (viewWeight g C O w o q) := fun o q => by rw [weight_eq]; exact fw _ _ _ _
  have out1 : ∀ n y x (o : Fin O), n < B → _ := fun n y x o hn => C87_hybrid_output (im - W) (wm - W) (W - im - wm) (by omega) (by omega)
    (by rw [abs_le]; omega) (2 ^ W) h.cycle (by positivity) h.table (2 ^ W) hA hI (Spec.windowRow g C H V 0 img n y x)
    (viewWeight g C O w o) (windowRow_isF32 g B C H V img fx n y x hn) (fwv o) none
  obtain ⟨c1, c2⟩ := convF_spec hO g B C H V hB hg bias img
    (fun row o y => HubOut (im - W) (wm - W) (W - im - wm) (2 ^ W) h.cycle h.table row (viewWeight g C O w o) none y)
    (fun row o => hubForward (im - W) (wm - W) (W - im - wm) (2 ^ W) h.cycle h.table row (viewWeight g C O w o) none)
    (fun n y x o hn => by
      obtain ⟨⟨v, hv⟩, h⟩ := out1 n y x o hn
      refine ⟨?_, fun v hv => (h v hv).2 rfl⟩
      rw [← (h v hv).2 rfl]; exact hv)
  refine ⟨h, im, wm, p1, p2, h1, by unfold HubConvF; rw [hsh', hcm]; exact c1, fun r hr' => ?_⟩
  unfold HubConvF at hr'
  rw [hsh', hcm] at hr'
  obtain ⟨F, e1, e2⟩ := c2 r hr'
  refine ⟨F, e1, fun n o y x hn hy hx' dx dw hdx hdw => ?_⟩
  obtain ⟨⟨v, hv⟩, hh⟩ := out1 n y x o hn
  have F0 : IsF32 (hubForward (im - W) (wm - W) (W - im - wm) (2 ^ W) h.cycle h.table (Spec.windowRow g C H V 0 img n y x)
      (viewWeight g C O w o) none) := by
    rw [← (hh v hv).2 rfl, (hh v hv).1]; exact fl_isF32 _
  refine ⟨_, by rw [e2 n o y x hn hy hx', addBiasF_eq F0], ?_⟩
  have hc1 : 1 ≤ h.cycle := by rw [hcy]; have := Nat.one_le_two_pow (n := W); omega
  obtain ⟨qx, qw, q1, q2, q3⟩ := hub_row (2 ^ W) h.cycle hc1 (by rw [hcy]; omega) h.table W W hT im wm
  have hb := q3 (Spec.windowRow g C H V 0 img n y x) (viewWeight g C O w o) none
  rw [add_sub_add_right_eq_sub, ← row_dot]
  have hxb := windowRow_bound g B C H V M hMn img hx.1 n y x hn
  have hwb : ∀ q, |viewWeight g C O w o q| ≤ N := fun q =>
    (maxAbs_entries hw).1 _ (by simp only [List.mem_flatMap, List.mem_ofFn]; exact ⟨_, ⟨o, rfl⟩, q, rfl⟩)
  have hce : ((h.cycle : ℤ) - 1) = ((min cycle (2 ^ W) - 1 : ℕ) : ℤ) := by rw [← hcy]; omega
  rw [hce] at q1 q2
  have hd := dot_err _ _ (fun i => qx (Spec.windowRow g C H V 0 img n y x i)) (fun i => qw (viewWeight g C O w o i)) M N dx dw hxb hwb
    (fun i => hdx ▸ Spec.Nearest.opErr (q1 _) (zpow_pos (by norm_num) _) (hxb i))
    (fun i => hdw ▸ Spec.Nearest.opErr (q2 _) (zpow_pos (by norm_num) _) (hwb i))
  simp only [id] at hd ⊢
  rw [Option.getD_none, add_zero] at hb
  generalize hubForward (im - W) (wm - W) (W - im - wm) (2 ^ W) h.cycle h.table (Spec.windowRow g C H V 0 img n y x)
      (viewWeight g C O w o) none = z at hb ⊢
  generalize (∑ i, qx (Spec.windowRow g C H V 0 img n y x i) * qw (viewWeight g C O w o i)) = p at hb hd
  generalize (∑ i, Spec.windowRow g C H V 0 img n y x i * viewWeight g C O w o i) = q at hd ⊢
  have tri : |z - q| ≤ |z - p| + |p - q| := by
    refine le_trans (le_of_eq ?_) (abs_add_le _ _)
    congr 1; ring
  refine le_trans tri (le_trans (add_le_add hb hd) (le_of_eq ?_))
  push_cast
  ring

/-- C87: a whole `HUBConv2d` call in binary32. -/
theorem C87_conv_hybrid {O : ℕ} (hO : 0 < O) (g : Geo) (B C H V : ℕ) (hB : 0 < B) (hg : Spec.GeoOK g H V)
    (lg : ℚ → ℚ) (δ : ℝ) (hδ : δ ≤ 1 / 2) (envi envw : Env) (W : ℕ) (hW : 1 ≤ W) (hW' : W ≤ 24)
    (hI : ((C * g.kh * g.kw : ℕ):ℤ) * 2 ^ W ≤ 2 ^ 24) (rngi rngw : String) (cycle : ℕ) (hc : 1 ≤ cycle)
    (rounding : String) (hr : rounding.toLower ∈ ["round", "ceil", "floor"])
    (ht : ¬ (Spec.TemporalName rngi ∧ Spec.TemporalName rngw))
    (li lw : List ℤ) (hli : rng envi W rngi = .ok li) (hlw : rng envw W rngw = .ok lw)
    (hpi : Verif.Spec.IsPermSeq W li) (hpw : Verif.Spec.IsPermSeq W lw)
    (hs : if Spec.TemporalName rngw then Spec.SobolOk envi rngi W else Spec.SobolOk envw rngw W)
    (w : ℕ → ℕ → ℕ → ℕ → ℚ) (bias : Option (Fin O → ℚ)) (img : ℕ → ℕ → ℕ → ℕ → ℚ)
    (M N : ℚ) (hM : (2:ℚ) ^ (-50:ℤ) ≤ M ∧ M ≤ (2:ℚ) ^ (50:ℤ)) (hN : (2:ℚ) ^ (-50:ℤ) ≤ N ∧ N ≤ (2:ℚ) ^ (50:ℤ))
    (hx : Spec.MaxAbs4 M B C H V img) (hw : Spec.MaxAbs4 N O C g.kh g.kw w)
    (fx : ∀ n c y x, n < B → c < C → y < H → x < V → IsF32 (img n c y x)) (fw : ∀ o c i j, IsF32 (w o c i j))
    (hlM : |((lg M : ℚ) : ℝ) - Real.logb 2 M| ≤ δ) (hlN : |((lg N : ℚ) : ℝ) - Real.logb 2 N| ≤ δ) :
    ∃ h im wm, Spec.PickedNear δ rounding.toLower im M ∧ Spec.PickedNear δ rounding.toLower wm N ∧
      mkHub envi envw (W + 1) rngi 1 (W + 1) rngw 1 (some cycle) rounding true = .ok h ∧
      (∃ r, HubConvF lg h g B C H V w bias img r) ∧
      ∀ r, HubConvF lg h g B C H V w bias img r → ∃ F, r = .ok F ∧
        ∀ (n : ℕ) (o : Fin O) (y x : ℕ), n < B → y < Spec.outH g H → x < Spec.outW g V → ∀ dx dw : ℚ,
          dx = Spec.opErr (min cycle (2 ^ W) - 1) ((2:ℚ) ^ (im - W)) M →
          dw = Spec.opErr (min cycle (2 ^ W) - 1) ((2:ℚ) ^ (wm - W)) N →
          ∃ z, F n o y x = fl z ∧
            |z - (Spec.conv g C H V id id img w n o y x + (bias.map fun b => b o).getD 0)| ≤
              (C * g.kh * g.kw : ℕ) * (W * (2:ℚ) ^ (im + wm - W) + (M * dw + N * dx + dx * dw)) :=
  conv_hybrid_any hO g B C H V hB hg lg δ hδ envi envw W hW hW' hI rngi rngw cycle hc rounding hr ht li lw hli hlw hpi hpw hs w bias img
    1 1 (by norm_num) (by norm_num) qscale M N hM hN (qscale_full (maxAbs_entries hx)) (qscale_full (maxAbs_entries hw)) M N hx hw fx fw
    hlM hlN

/-- Non-vacuity: a 2x2 image, a 2x2 filter with padding 1 and an exact logarithm at the two magnitudes. -/
example : ∃ g : Geo, (g.kh, g.kw, Spec.outH g 2, Spec.outW g 2) = (2, 2, 3, 3) ∧ ∃ r, FxpConvF (O := 1) (fun s => if s = 2 then 1 else 0) g 1 1 2 2 8 8 1 1 "round"
    (fun _ _ _ _ => 1) none (fun _ _ y x => if y = x then -2 else 1 / 4) r := by
  have F : ∀ (n : ℤ) (e : ℤ), |n| ≤ 2 ^ 24 → -149 ≤ e → IsF32 (n * (2:ℚ) ^ e) := fun n e h1 h2 => ⟨n, e, h1, h2, rfl⟩
  have f1 : IsF32 1 := by have := F 1 0 (by norm_num) (by norm_num); norm_num at this ⊢; exact this
  have f2 : IsF32 (-2) := by have := F (-1) 1 (by norm_num) (by norm_num); norm_num at this ⊢; exact this
  have f4 : IsF32 (1/4) := by have := F 1 (-2) (by norm_num) (by norm_num); norm_num at this ⊢; exact this
  refine ⟨⟨2, 2, 1, 1, 1, 1, 1, 1⟩, by decide, ?_⟩
  obtain ⟨im, wm, p1, p2, h, -⟩ := C87_conv_fixed (O := 1) (by norm_num) ⟨2, 2, 1, 1, 1, 1, 1, 1⟩ 1 1 2 2 (by norm_num) (by unfold Spec.GeoOK Spec.AxisOK; decide)
    (fun s => if s = 2 then 1 else 0) 0 (by norm_num) 8 8 (by norm_num) (by norm_num) (by norm_num) (by norm_num) "round"
    (by decide +kernel) (fun _ _ _ _ => 1) none (fun _ _ y x => if y = x then -2 else 1 / 4) 2 1 (by norm_num) (by norm_num)
    ⟨by intro n c y x _ _ _ _; beta_reduce; split_ifs <;> norm_num [abs_div], 0, 0, 0, 0, by norm_num⟩
    ⟨by intro n c y x _ _ _ _; norm_num, 0, 0, 0, 0, by norm_num⟩
    (by intro n c y x _ _ _ _; beta_reduce; split_ifs <;> assumption)
    (by intro o c i j; exact f1)
    (by simp only [if_pos]; push_cast; rw [Real.logb_self_eq_one (by norm_num)]; norm_num)
    (by rw [if_neg (by norm_num)]; push_cast; rw [Real.logb_one]; norm_num)
  exact h

end Verif.Props
