import Verif.Props.FloatTlut
import Verif.Props.FloatConv

/-!
# Property C90 for the look-up convolution layer
-/

namespace Verif.Props

open Verif Finset Linear Gen Conv _root_.Verif.Float
open Verif.Spec (IsF32)

/-- `M` is the largest magnitude in a window of the image (pixels that no window reaches do not count, padding counts as nought). -/
def Spec.MaxReached (M : ℚ) (g : Geo) (N C H W : ℕ) (img : ℕ → ℕ → ℕ → ℕ → ℚ) : Prop :=
  (∀ n c y x i j, n < N → c < C → y < Spec.outH g H → x < Spec.outW g W → i < g.kh → j < g.kw →
    |Spec.tap g H W 0 (img n c) y x i j| ≤ M) ∧
  ∃ n c y x i j, n < N ∧ c < C ∧ y < Spec.outH g H ∧ x < Spec.outW g W ∧ i < g.kh ∧ j < g.kw ∧
    |Spec.tap g H W 0 (img n c) y x i j| = M

/-- The windows, row by row. -/
def windows (g : Geo) (N C H W : ℕ) (img : ℕ → ℕ → ℕ → ℕ → ℚ) : List (Fin (C * g.kh * g.kw) → ℚ) :=
  List.ofFn fun r : Fin (N * (Spec.outH g H * Spec.outW g W)) =>
    Spec.windowRow g C H W 0 img (r / (Spec.outH g H * Spec.outW g W))
      (r % (Spec.outH g H * Spec.outW g W) / Spec.outW g W) (r % (Spec.outH g H * Spec.outW g W) % Spec.outW g W)

private theorem windows_get (g : Geo) (N C H W : ℕ) (img : ℕ → ℕ → ℕ → ℕ → ℚ) {n y x : ℕ} (hn : n < N) (hy : y < Spec.outH g H)
    (hx : x < Spec.outW g W) : ∃ k : Fin (N * (Spec.outH g H * Spec.outW g W)),
      k.1 = n * (Spec.outH g H * Spec.outW g W) + (y * Spec.outW g W + x) ∧
      (windows g N C H W img)[k.1]? = some (Spec.windowRow g C H W 0 img n y x) := by
  have hl : y * Spec.outW g W + x < Spec.outH g H * Spec.outW g W := by
    have : (y + 1) * Spec.outW g W ≤ Spec.outH g H * Spec.outW g W := Nat.mul_le_mul_right _ hy
    rw [add_mul, one_mul] at this; omega
  have hr : n * (Spec.outH g H * Spec.outW g W) + (y * Spec.outW g W + x) < N * (Spec.outH g H * Spec.outW g W) := by
    have : (n + 1) * (Spec.outH g H * Spec.outW g W) ≤ N * (Spec.outH g H * Spec.outW g W) := Nat.mul_le_mul_right _ hn
    rw [add_mul, one_mul] at this; omega
  refine ⟨⟨_, hr⟩, rfl, ?_⟩
  obtain ⟨a1, a2⟩ := split_idx (Spec.outH g H * Spec.outW g W) n (y * Spec.outW g W + x) hl
  obtain ⟨a3, a4⟩ := split_idx (Spec.outW g W) y x hx
  unfold windows
  rw [List.getElem?_ofFn, dif_pos hr]
  simp only [a1, a2, a3, a4]

theorem windows_max {M : ℚ} {g : Geo} {N C H W : ℕ} {img : ℕ → ℕ → ℕ → ℕ → ℚ} (h : Spec.MaxReached M g N C H W img) :
    Spec.MaxAbs M ((windows g N C H W img).flatMap List.ofFn) := by
  obtain ⟨h1, n, c, y, x, i, j, hn, hc, hy, hx, hi, hj, hm⟩ := h
  constructor
  · intro a ha
    simp only [windows, List.mem_flatMap, List.mem_ofFn] at ha
    obtain ⟨_, ⟨r, rfl⟩, q, rfl⟩ := ha
    obtain ⟨p1, p2, p3⟩ := pos_lt r
    obtain ⟨ha, hb, hc⟩ := flat_lt q.2
    exact h1 _ _ _ _ _ _ p1 hc p2 p3 (Nat.mod_lt _ ha) (Nat.mod_lt _ hb)
  · obtain ⟨k, hk, hk'⟩ := windows_get g N C H W img hn hy hx
    have hlt : (c * g.kh + i) * g.kw + j < C * g.kh * g.kw := by
      have a1 : c * g.kh + i + 1 ≤ C * g.kh := by
        have : (c + 1) * g.kh ≤ C * g.kh := Nat.mul_le_mul_right _ hc
        rw [add_mul, one_mul] at this; omega
      have : (c * g.kh + i + 1) * g.kw ≤ C * g.kh * g.kw := Nat.mul_le_mul_right _ a1
      rw [add_mul, one_mul] at this; omega
    refine ⟨_, ?_, hm⟩
    rw [List.mem_flatMap]
    refine ⟨_, List.mem_of_getElem? hk', ?_⟩
    rw [List.mem_ofFn]
    refine ⟨⟨_, hlt⟩, ?_⟩
    obtain ⟨a1, a2⟩ := split_idx g.kw (c * g.kh + i) j hj
    obtain ⟨a3, a4⟩ := split_idx g.kh c i hi
    show Spec.tap g H W 0 (img n (_ / (g.kh * g.kw))) y x (_ / g.kw % g.kh) (_ % g.kw) = _
    rw [Nat.mul_comm g.kh g.kw, ← Nat.div_div_eq_div_mul]
    simp only [a1, a2, a3, a4]

/-- A look-up convolution is the look-up layer on the windows. -/
theorem conv_linear {O : ℕ} (hO : 0 < O) (g : Geo) (N C H W : ℕ) (hN : 0 < N) (hg : Spec.GeoOK g H W) (lg : ℚ → ℚ) (cfg : Tlut)
    (w : ℕ → ℕ → ℕ → ℕ → ℚ) (bias : Option (Fin O → ℚ)) (img : ℕ → ℕ → ℕ → ℕ → ℚ)
    (sc : List ℚ → ℚ → Except PyErr ℚ) :
    ((∃ r, TlutLinearF lg cfg (viewWeight g C O w) bias (windows g N C H W img) r sc) →
      ∃ r, TlutConvF lg cfg g N C H W w bias img r sc) ∧
    ∀ r, TlutConvF lg cfg g N C H W w bias img r sc →
      ∃ r', TlutLinearF lg cfg (viewWeight g C O w) bias (windows g N C H W img) r' sc ∧
        (∀ out, r' = .ok out → ∃ F, r = .ok F ∧
          ∀ (n : ℕ) (o : Fin O) (y x : ℕ), n < N → y < Spec.outH g H → x < Spec.outW g W →
            ∃ (k : ℕ) (v : Fin O → ℚ), (windows g N C H W img)[k]? = some (Spec.windowRow g C H W 0 img n y x) ∧ out[k]? = some v ∧ F n o y x = v o) ∧
        ∀ e, r' = .error e → r = .error e := by
  have e1 : im2col g N C H W 0 img = .ok (windows g N C H W img) := im2col_ok g N C H W hg 0 img
  have e2 := C52_size g H W hg
  unfold TlutConvF
  rw [e1, e2]
  dsimp only
  generalize hrw : windows g N C H W img = rows
  have hlen : rows.length = N * (Spec.outH g H * Spec.outW g W) := by rw [← hrw]; exact List.length_ofFn
  unfold TlutLinearF
  cases hop : tlutOperandsF lg cfg (viewWeight g C O w) rows sc with
  | error e =>
      refine ⟨fun _ => ⟨_, _, rfl, rfl⟩, ?_⟩
      rintro r ⟨mm, rfl, rfl⟩
      exact ⟨_, rfl, fun out h => (by cases h), fun e' h => by cases h; rfl⟩
  | ok p =>
      obtain ⟨fi, fw⟩ := p
      dsimp only
      constructor
      · rintro ⟨_, out, rfl, h⟩
        obtain ⟨mm, hmm⟩ := forall2_exists (R := fun row (y : Fin O → ℚ) => ∀ o, ∃ v,
            FDot (List.ofFn fun i => (fi (row i), fw (viewWeight g C O w o i))) v ∧ y o = addBiasF v (Option.map (fun b : Fin O → ℚ => b o) none)) rows
          (fun row _ => by
            choose v hv using fun o => fdot_exists (List.ofFn fun i => (fi (row i), fw (viewWeight g C O w o i)))
            exact ⟨v, fun o => ⟨v o, hv o, rfl⟩⟩)
        exact ⟨_, _, ⟨mm, rfl, hmm⟩, rfl⟩
      · rintro r ⟨_, ⟨mm, rfl, hmm⟩, rfl⟩
        obtain ⟨hl, hget⟩ := forall2_get hmm
        refine ⟨.ok (mm.map fun v o => addBiasF (v o) (bias.map fun b => b o)), ⟨_, rfl, ?_⟩, ?_, fun e h => by cases h⟩
        · rw [List.forall₂_map_right_iff]
          refine hmm.imp fun row v h o => ?_
          obtain ⟨a, h1, h2⟩ := h o
          refine ⟨a, h1, ?_⟩
          show addBiasF (v o) _ = _
          rw [h2]; rfl
        · intro out ho
          have ho := Except.ok.inj ho
          subst ho
          have hmm' : mm = List.ofFn fun r : Fin (N * (Spec.outH g H * Spec.outW g W)) => mm[r.1]'(by rw [hl, hlen]; exact r.2) := by
            apply List.ext_getElem
            · rw [List.length_ofFn, hl, hlen]
            · intro i h1 h2; rw [List.getElem_ofFn]
          obtain ⟨F, f1, f2⟩ := col2im_ok (α := ℚ) N (Spec.outH g H) (Spec.outW g W) hN hO
            (fun r : Fin (N * (Spec.outH g H * Spec.outW g W)) => mm[r.1]'(by rw [hl, hlen]; exact r.2))
          rw [← hmm'] at f1
          refine ⟨addBias4F bias F, by show (col2im N _ mm).map _ = _; rw [f1]; rfl, fun n o y x hn hy hx => ?_⟩
          obtain ⟨k, hk, hk'⟩ := windows_get g N C H W img hn hy hx
          rw [hrw] at hk'
          have hk2 : k.1 < mm.length := by rw [hl, hlen]; exact k.2
          refine ⟨k.1, fun o => addBiasF ((mm[k.1]'hk2) o) (bias.map fun b => b o), hk', by rw [List.getElem?_map, List.getElem?_eq_getElem hk2]; rfl, ?_⟩
          have e := f2 n o y x hn hy hx k hk
          cases bias with
          | none => exact e
          | some b =>
              show fadd (F n o y x) (if h : o.1 < O then b ⟨o, h⟩ else 0) = _
              rw [dif_pos o.2, e]; rfl

/-- What the windows and the flattened filters consist of. -/
theorem rows_f32 (g : Geo) (N C H W : ℕ) {P : ℚ → Prop} (h0 : P 0) (img : ℕ → ℕ → ℕ → ℕ → ℚ)
    (h : ∀ n c y x, n < N → c < C → y < H → x < W → P (img n c y x)) : ∀ row ∈ windows g N C H W img, ∀ i, P (row i) := by
  intro row hrow i
  unfold windows at hrow
  rw [List.mem_ofFn] at hrow
  obtain ⟨r, rfl⟩ := hrow
  show P (Spec.tap _ _ _ _ _ _ _ _ _)
  unfold Spec.tap
  split_ifs with hc
  · exact h _ _ _ _ (pos_lt r).1 (flat_lt i.2).2.2 (by omega) (by omega)
  · exact h0

theorem filters_f32 {g : Geo} {C O : ℕ} {P : ℚ → Prop} {w : ℕ → ℕ → ℕ → ℕ → ℚ}
    (h : ∀ o c i j, o < O → c < C → i < g.kh → j < g.kw → P (w o c i j)) (o : Fin O) (q : Fin (C * g.kh * g.kw)) :
    P (viewWeight g C O w o q) := by
  obtain ⟨ha, hb, hc⟩ := flat_lt q.2
  rw [weight_eq]
  exact h _ _ _ _ o.2 hc (Nat.mod_lt _ ha) (Nat.mod_lt _ hb)

private theorem isF32_zero : IsF32 0 := ⟨0, 0, by norm_num, by norm_num, by simp⟩

/-- A fixed-point look-up convolution for measured scales `s`, `t`. -/
theorem tlut_conv_fixed_any {O : ℕ} (hO : 0 < O) (g : Geo) (B C H W : ℕ) (hB : 0 < B) (hg : Spec.GeoOK g H W)
    (lg : ℚ → ℚ) (δ : ℝ) (hδ : δ ≤ 1 / 2) (cfg : Tlut) (hfi : cfg.formati = .fxp) (hfw : cfg.formatw = .fxp)
    (ht : 1 ≤ cfg.t) (ht' : cfg.t ≤ 24) (c : ℕ) (hc : 1 ≤ c)
    (hcyc : c = (match cfg.cycle with | none => 2 ^ cfg.t | some k => min k (2 ^ cfg.t)))
    (a b : ℕ) (ha : cfg.widthi = a + 1) (hb : cfg.widthw = b + 1) (ha' : a ≤ 24) (hb' : b ≤ 24)
    (hr : cfg.rounding ∈ ["round", "ceil", "floor"])
    (w : ℕ → ℕ → ℕ → ℕ → ℚ) (bias : Option (Fin O → ℚ)) (img : ℕ → ℕ → ℕ → ℕ → ℚ) 
    (sc : List ℚ → ℚ → Except PyErr ℚ) (s t : ℚ) (bs : (2:ℚ) ^ (-50:ℤ) ≤ s ∧ s ≤ (2:ℚ) ^ (50:ℤ)) (bt : (2:ℚ) ^ (-50:ℤ) ≤ t ∧ t ≤ (2:ℚ) ^ (50:ℤ))
    (es : sc ((windows g B C H W img).flatMap List.ofFn) cfg.quantilei = .ok s)
    (et : sc ((List.ofFn (viewWeight g C O w)).flatMap List.ofFn) cfg.quantilew = .ok t)
    (fx : ∀ n c y x, n < B → c < C → y < H → x < W → IsF32 (img n c y x))
    (fw : ∀ o c i j, o < O → c < C → i < g.kh → j < g.kw → IsF32 (w o c i j))
    (hls : |((lg s : ℚ) : ℝ) - Real.logb 2 s| ≤ δ) (hlt : |((lg t : ℚ) : ℝ) - Real.logb 2 t| ≤ δ) :
    ∃ (im wm : ℤ) (qx qw : ℚ → ℚ), Spec.PickedNear δ cfg.rounding im s ∧ Spec.PickedNear δ cfg.rounding wm t ∧
      (∀ v, Spec.LutOperand cfg.temporalI cfg.t c a ((2:ℚ) ^ (im - a)) v (qx v)) ∧
      (∀ v, Spec.LutOperand (!cfg.temporalI) cfg.t c b ((2:ℚ) ^ (wm - b)) v (qw v)) ∧
      (∃ r, TlutConvF lg cfg g B C H W w bias img r sc) ∧
      ∀ r, TlutConvF lg cfg g B C H W w bias img r sc → ∃ F, r = .ok F ∧
        ∀ (n : ℕ) (o : Fin O) (y x : ℕ), n < B → y < Spec.outH g H → x < Spec.outW g W →
          Spec.NearDot (fun q => qx (Spec.windowRow g C H W 0 img n y x q))
            (fun q : Fin (C * g.kh * g.kw) => qw (w o (q / (g.kh * g.kw)) (q / g.kw % g.kh) (q % g.kw))) (bias.map fun b => b o) (F n o y x) ∧
          (((C * g.kh * g.kw : ℕ):ℤ) * ((2 ^ a - 1) * (2 ^ b - 1)) ≤ 2 ^ 24 →
            F n o y x = fl (Spec.conv g C H W qx qw img w n o y x + (bias.map fun b => b o).getD 0) ∧
            (bias = none → F n o y x = Spec.conv g C H W qx qw img w n o y x)) := by
  obtain ⟨im, wm, qx, qw, p1, p2, p3, p4, ex, all⟩ := tlut_fixed_any lg δ hδ cfg hfi hfw ht ht' c hc hcyc a b ha hb ha' hb' hr
    (viewWeight g C O w) bias (windows g B C H W img) sc s t bs bt es et
    (rows_f32 g B C H W isF32_zero img fx) (fun o q => filters_f32 fw o q) hls hlt
  obtain ⟨c1, c2⟩ := conv_linear hO g B C H W hB hg lg cfg w bias img sc
  refine ⟨im, wm, qx, qw, p1, p2, p3, p4, c1 ex, fun r hr' => ?_⟩
  obtain ⟨r', h1, h2, -⟩ := c2 r hr'
  obtain ⟨out, rfl, -, h3⟩ := all r' h1
  obtain ⟨F, rfl, h4⟩ := h2 out rfl
  refine ⟨F, rfl, fun n o y x hn hy hx' => ?_⟩
  obtain ⟨k, v, k1, k2, k3⟩ := h4 n o y x hn hy hx'
  obtain ⟨y', k4, k5⟩ := h3 k _ k1
  rw [k2] at k4
  obtain rfl := Option.some.inj k4
  have := k5 o
  rw [row_dot] at this
  simp only [weight_eq] at this
  rw [k3]
  exact this

/-- C90: a fixed-point look-up convolution in binary32, under the conditions of the linear layer (the scale of the input is that of the
windows): it gives a result; whatever the order of the additions, the operands are exactly those of exact arithmetic, their products
are added over the window within the usual bound of exactly, and exactly while they fit 24 bits; then the bias is added and rounded. -/
theorem C90_conv_fixed {O : ℕ} (hO : 0 < O) (g : Geo) (B C H W : ℕ) (hB : 0 < B) (hg : Spec.GeoOK g H W)
    (lg : ℚ → ℚ) (δ : ℝ) (hδ : δ ≤ 1 / 2) (cfg : Tlut) (hfi : cfg.formati = .fxp) (hfw : cfg.formatw = .fxp)
    (ht : 1 ≤ cfg.t) (ht' : cfg.t ≤ 24) (c : ℕ) (hc : 1 ≤ c)
    (hcyc : c = (match cfg.cycle with | none => 2 ^ cfg.t | some k => min k (2 ^ cfg.t)))
    (a b : ℕ) (ha : cfg.widthi = a + 1) (hb : cfg.widthw = b + 1) (ha' : a ≤ 24) (hb' : b ≤ 24)
    (hqi : cfg.quantilei = 1) (hqw : cfg.quantilew = 1) (hr : cfg.rounding ∈ ["round", "ceil", "floor"])
    (w : ℕ → ℕ → ℕ → ℕ → ℚ) (bias : Option (Fin O → ℚ)) (img : ℕ → ℕ → ℕ → ℕ → ℚ) (M N : ℚ)
    (hM : (2:ℚ) ^ (-50:ℤ) ≤ M ∧ M ≤ (2:ℚ) ^ (50:ℤ)) (hN : (2:ℚ) ^ (-50:ℤ) ≤ N ∧ N ≤ (2:ℚ) ^ (50:ℤ))
    (hx : Spec.MaxReached M g B C H W img) (hw : Spec.MaxAbs4 N O C g.kh g.kw w)
    (fx : ∀ n c y x, n < B → c < C → y < H → x < W → IsF32 (img n c y x))
    (fw : ∀ o c i j, o < O → c < C → i < g.kh → j < g.kw → IsF32 (w o c i j))
    (hlM : |((lg M : ℚ) : ℝ) - Real.logb 2 M| ≤ δ) (hlN : |((lg N : ℚ) : ℝ) - Real.logb 2 N| ≤ δ) :
    ∃ (im wm : ℤ) (qx qw : ℚ → ℚ), Spec.PickedNear δ cfg.rounding im M ∧ Spec.PickedNear δ cfg.rounding wm N ∧
      (∀ v, Spec.LutOperand cfg.temporalI cfg.t c a ((2:ℚ) ^ (im - a)) v (qx v)) ∧
      (∀ v, Spec.LutOperand (!cfg.temporalI) cfg.t c b ((2:ℚ) ^ (wm - b)) v (qw v)) ∧
      (∃ r, TlutConvF lg cfg g B C H W w bias img r) ∧
      ∀ r, TlutConvF lg cfg g B C H W w bias img r → ∃ F, r = .ok F ∧
        ∀ (n : ℕ) (o : Fin O) (y x : ℕ), n < B → y < Spec.outH g H → x < Spec.outW g W →
          Spec.NearDot (fun q => qx (Spec.windowRow g C H W 0 img n y x q))
            (fun q : Fin (C * g.kh * g.kw) => qw (w o (q / (g.kh * g.kw)) (q / g.kw % g.kh) (q % g.kw))) (bias.map fun b => b o) (F n o y x) ∧
          (((C * g.kh * g.kw : ℕ):ℤ) * ((2 ^ a - 1) * (2 ^ b - 1)) ≤ 2 ^ 24 →
            F n o y x = fl (Spec.conv g C H W qx qw img w n o y x + (bias.map fun b => b o).getD 0) ∧
            (bias = none → F n o y x = Spec.conv g C H W qx qw img w n o y x)) :=
  tlut_conv_fixed_any hO g B C H W hB hg lg δ hδ cfg hfi hfw ht ht' c hc hcyc a b ha hb ha' hb' hr w bias img qscale M N hM hN
    (by rw [hqi]; exact qscale_full (windows_max hx)) (by rw [hqw]; exact qscale_full (maxAbs_entries hw)) fx fw hlM hlN

/-- A mixed-format look-up convolution for measured scales `s`, `t`. -/
theorem tlut_conv_mixed_any {O : ℕ} (hO : 0 < O) (g : Geo) (B C H W : ℕ) (hB : 0 < B) (hg : Spec.GeoOK g H W)
    (lg : ℚ → ℚ) (δ : ℝ) (hδ : δ ≤ 1 / 2) (cfg : Tlut) (hmix : (cfg.formati = .fxp) ≠ (cfg.formatw = .fxp))
    (ht : 1 ≤ cfg.t) (ht' : cfg.t ≤ 24) (c : ℕ) (hc : 1 ≤ c)
    (hcyc : c = (match cfg.cycle with | none => 2 ^ cfg.t | some k => min k (2 ^ cfg.t)))
    (width : ℕ) (hwd : width = if cfg.temporalI then Spec.sigBits cfg.formati cfg.widthi else Spec.sigBits cfg.formatw cfg.widthw)
    (hw24 : width ≤ 24)
    (hr : cfg.rounding ∈ ["round", "ceil", "floor"])
    (w : ℕ → ℕ → ℕ → ℕ → ℚ) (bias : Option (Fin O → ℚ)) (img : ℕ → ℕ → ℕ → ℕ → ℚ) 
    (sc : List ℚ → ℚ → Except PyErr ℚ) (s t : ℚ) (bs : (2:ℚ) ^ (-50:ℤ) ≤ s ∧ s ≤ (2:ℚ) ^ (50:ℤ)) (bt : (2:ℚ) ^ (-50:ℤ) ≤ t ∧ t ≤ (2:ℚ) ^ (50:ℤ))
    (es : sc ((windows g B C H W img).flatMap List.ofFn) cfg.quantilei = .ok s)
    (et : sc ((List.ofFn (viewWeight g C O w)).flatMap List.ofFn) cfg.quantilew = .ok t)
    (fx : ∀ n c y x, n < B → c < C → y < H → x < W → IsF32 (img n c y x))
    (fw : ∀ o c i j, o < O → c < C → i < g.kh → j < g.kw → IsF32 (w o c i j))
    (hls : |((lg s : ℚ) : ℝ) - Real.logb 2 s| ≤ δ) (hlt : |((lg t : ℚ) : ℝ) - Real.logb 2 t| ≤ δ) :
    ∃ (m : ℤ) (q : ℚ → ℚ), Spec.PickedNear δ cfg.rounding m (if cfg.temporalI then s else t) ∧
      (∀ v, Spec.LutOperand true cfg.t c width ((2:ℚ) ^ (m - width)) v (q v)) ∧
      (∃ r, TlutConvF lg cfg g B C H W w bias img r sc) ∧
      ∀ r, TlutConvF lg cfg g B C H W w bias img r sc → ∃ F, r = .ok F ∧
        ∀ (n : ℕ) (o : Fin O) (y x : ℕ), n < B → y < Spec.outH g H → x < Spec.outW g W →
          Spec.NearDot
            (fun i => if cfg.temporalI then q (Spec.windowRow g C H W 0 img n y x i) else Spec.windowRow g C H W 0 img n y x i)
            (fun i : Fin (C * g.kh * g.kw) => if cfg.temporalI then w o (i / (g.kh * g.kw)) (i / g.kw % g.kh) (i % g.kw)
              else q (w o (i / (g.kh * g.kw)) (i / g.kw % g.kh) (i % g.kw))) (bias.map fun b => b o) (F n o y x) := by
  obtain ⟨m, q, p1, p2, ex, all⟩ := tlut_mixed_any lg δ hδ cfg hmix ht ht' c hc hcyc width hwd hw24 hr
    (viewWeight g C O w) bias (windows g B C H W img) sc s t bs bt es et
    (rows_f32 g B C H W isF32_zero img fx) (fun o q => filters_f32 fw o q) hls hlt
  obtain ⟨c1, c2⟩ := conv_linear hO g B C H W hB hg lg cfg w bias img sc
  refine ⟨m, q, p1, p2, c1 ex, fun r hr' => ?_⟩
  obtain ⟨r', h1, h2, -⟩ := c2 r hr'
  obtain ⟨out, rfl, -, h3⟩ := all r' h1
  obtain ⟨F, rfl, h4⟩ := h2 out rfl
  refine ⟨F, rfl, fun n o y x hn hy hx' => ?_⟩
  obtain ⟨k, v, k1, k2, k3⟩ := h4 n o y x hn hy hx'
  obtain ⟨y', k4, k5⟩ := h3 k _ k1
  rw [k2] at k4
  obtain rfl := Option.some.inj k4
  have := k5 o
  simp only [weight_eq] at this
  rw [k3]
  exact this

/-- C90: a mixed-format look-up convolution in binary32. -/
theorem C90_conv_mixed {O : ℕ} (hO : 0 < O) (g : Geo) (B C H W : ℕ) (hB : 0 < B) (hg : Spec.GeoOK g H W)
    (lg : ℚ → ℚ) (δ : ℝ) (hδ : δ ≤ 1 / 2) (cfg : Tlut) (hmix : (cfg.formati = .fxp) ≠ (cfg.formatw = .fxp))
    (ht : 1 ≤ cfg.t) (ht' : cfg.t ≤ 24) (c : ℕ) (hc : 1 ≤ c)
    (hcyc : c = (match cfg.cycle with | none => 2 ^ cfg.t | some k => min k (2 ^ cfg.t)))
    (width : ℕ) (hwd : width = if cfg.temporalI then Spec.sigBits cfg.formati cfg.widthi else Spec.sigBits cfg.formatw cfg.widthw)
    (hw24 : width ≤ 24)
    (hqi : cfg.quantilei = 1) (hqw : cfg.quantilew = 1) (hr : cfg.rounding ∈ ["round", "ceil", "floor"])
    (w : ℕ → ℕ → ℕ → ℕ → ℚ) (bias : Option (Fin O → ℚ)) (img : ℕ → ℕ → ℕ → ℕ → ℚ) (M N : ℚ)
    (hM : (2:ℚ) ^ (-50:ℤ) ≤ M ∧ M ≤ (2:ℚ) ^ (50:ℤ)) (hN : (2:ℚ) ^ (-50:ℤ) ≤ N ∧ N ≤ (2:ℚ) ^ (50:ℤ))
    (hx : Spec.MaxReached M g B C H W img) (hw : Spec.MaxAbs4 N O C g.kh g.kw w)
    (fx : ∀ n c y x, n < B → c < C → y < H → x < W → IsF32 (img n c y x))
    (fw : ∀ o c i j, o < O → c < C → i < g.kh → j < g.kw → IsF32 (w o c i j))
    (hlM : |((lg M : ℚ) : ℝ) - Real.logb 2 M| ≤ δ) (hlN : |((lg N : ℚ) : ℝ) - Real.logb 2 N| ≤ δ) :
    ∃ (m : ℤ) (q : ℚ → ℚ), Spec.PickedNear δ cfg.rounding m (if cfg.temporalI then M else N) ∧
      (∀ v, Spec.LutOperand true cfg.t c width ((2:ℚ) ^ (m - width)) v (q v)) ∧
      (∃ r, TlutConvF lg cfg g B C H W w bias img r) ∧
      ∀ r, TlutConvF lg cfg g B C H W w bias img r → ∃ F, r = .ok F ∧
        ∀ (n : ℕ) (o : Fin O) (y x : ℕ), n < B → y < Spec.outH g H → x < Spec.outW g W →
          Spec.NearDot
            (fun i => if cfg.temporalI then q (Spec.windowRow g C H W 0 img n y x i) else Spec.windowRow g C H W 0 img n y x i)
            (fun i : Fin (C * g.kh * g.kw) => if cfg.temporalI then w o (i / (g.kh * g.kw)) (i / g.kw % g.kh) (i % g.kw)
              else q (w o (i / (g.kh * g.kw)) (i / g.kw % g.kh) (i % g.kw))) (bias.map fun b => b o) (F n o y x) :=
  tlut_conv_mixed_any hO g B C H W hB hg lg δ hδ cfg hmix ht ht' c hc hcyc width hwd hw24 hr w bias img qscale M N hM hN
    (by rw [hqi]; exact qscale_full (windows_max hx)) (by rw [hqw]; exact qscale_full (maxAbs_entries hw)) fx fw hlM hlN

/-- C90: a floating-point look-up convolution in binary32. -/
theorem C90_conv_float {O : ℕ} (hO : 0 < O) (g : Geo) (B C H W : ℕ) (hB : 0 < B) (hg : Spec.GeoOK g H W)
    (lg : ℚ → ℚ) (cfg : Tlut) (hfi : cfg.formati ≠ .fxp) (hfw : cfg.formatw ≠ .fxp) (ht : 1 ≤ cfg.t)
    (ht' : cfg.t ≤ 24) (c : ℕ) (hc : 1 ≤ c) (hcyc : c = (match cfg.cycle with | none => 2 ^ cfg.t | some k => min k (2 ^ cfg.t)))
    (w : ℕ → ℕ → ℕ → ℕ → ℚ) (bias : Option (Fin O → ℚ)) (img : ℕ → ℕ → ℕ → ℕ → ℚ)
    (fx : cfg.temporalI = true → ∀ n c y x, n < B → c < C → y < H → x < W →
      IsF32 (img n c y x) ∧ (img n c y x = 0 ∨ (2:ℚ) ^ (-126:ℤ) ≤ |img n c y x|))
    (fw : cfg.temporalI = false → ∀ o c i j, o < O → c < C → i < g.kh → j < g.kw →
      IsF32 (w o c i j) ∧ (w o c i j = 0 ∨ (2:ℚ) ^ (-126:ℤ) ≤ |w o c i j|)) :
    ∃ (width : ℕ) (q : ℚ → ℚ), width = Spec.sigBits (if cfg.temporalI then cfg.formati else cfg.formatw) 0 ∧
      (∀ a, Spec.FitsBits width a → ∃ e : ℤ, Spec.Truncated (2 ^ width - 1) ((2:ℚ) ^ e) a a ∧
        Spec.Temporal cfg.t c (Spec.digits width cfg.t) (2 ^ width - 1) ((2:ℚ) ^ e) a (q a)) ∧
      (c = 2 ^ cfg.t → ∀ a, (Spec.FitsBits width a → q a = a) ∧ (a ≠ 0 → |q a - a| < (2:ℚ) ^ (1 - width : ℤ) * |a|)) ∧
      (∃ r, TlutConvF lg cfg g B C H W w bias img r) ∧
      ∀ r, TlutConvF lg cfg g B C H W w bias img r → ∃ F, r = .ok F ∧
        ∀ (n : ℕ) (o : Fin O) (y x : ℕ), n < B → y < Spec.outH g H → x < Spec.outW g W →
          Spec.NearDot
            (fun i => if cfg.temporalI then q (Spec.windowRow g C H W 0 img n y x i) else Spec.windowRow g C H W 0 img n y x i)
            (fun i : Fin (C * g.kh * g.kw) => if cfg.temporalI then w o (i / (g.kh * g.kw)) (i / g.kw % g.kh) (i % g.kw)
              else q (w o (i / (g.kh * g.kw)) (i / g.kw % g.kh) (i % g.kw))) (bias.map fun b => b o) (F n o y x) := by
  obtain ⟨width, q, p1, p2, p3, ex, all⟩ := C90_float lg cfg hfi hfw ht ht' c hc hcyc
    (viewWeight g C O w) bias (windows g B C H W img)
    (fun hT => rows_f32 g B C H W (P := fun v => IsF32 v ∧ (v = 0 ∨ (2:ℚ) ^ (-126:ℤ) ≤ |v|)) ⟨isF32_zero, .inl rfl⟩ img (fx hT))
    (fun hT o q => filters_f32 (P := fun v => IsF32 v ∧ (v = 0 ∨ (2:ℚ) ^ (-126:ℤ) ≤ |v|)) (fw hT) o q)
  obtain ⟨c1, c2⟩ := conv_linear hO g B C H W hB hg lg cfg w bias img qscale
  refine ⟨width, q, p1, p2, p3, c1 ex, fun r hr' => ?_⟩
  obtain ⟨r', h1, h2, -⟩ := c2 r hr'
  obtain ⟨out, rfl, -, h3⟩ := all r' h1
  obtain ⟨F, rfl, h4⟩ := h2 out rfl
  refine ⟨F, rfl, fun n o y x hn hy hx' => ?_⟩
  obtain ⟨k, v, k1, k2, k3⟩ := h4 n o y x hn hy hx'
  obtain ⟨y', k4, k5⟩ := h3 k _ k1
  rw [k2] at k4
  obtain rfl := Option.some.inj k4
  have := k5 o
  simp only [weight_eq] at this
  rw [k3]
  exact this

/-! ## Non-vacuity -/

private theorem f_quarters (n : ℤ) (h : |n| ≤ 2 ^ 24) : IsF32 (n / 4) :=
  ⟨n, -2, h, by norm_num, by norm_num [zpow_neg]; ring⟩

/-- A 2x2 filter moved by two over a 3x3 image: the last row and column, though larger, do not count. -/
example : ∃ (lg : ℚ → ℚ) (im wm : ℤ) (qx : ℚ → ℚ), Spec.PickedNear 0 "ceil" im 1 ∧ Spec.PickedNear 0 "ceil" wm 1 ∧
    (∀ v, Spec.LutOperand true 4 10 7 ((2:ℚ) ^ (im - (7:ℕ))) v (qx v)) ∧
    ∃ r, TlutConvF lg ⟨true, 4, .fxp, 8, 1, .fxp, 8, 1, some 10, "ceil"⟩ ⟨2, 2, 2, 2, 0, 0, 1, 1⟩ 1 1 3 3
      (fun _ _ i j => if i = j then 1 else ((-3 : ℤ) : ℚ) / 4) (some fun _ : Fin 1 => 1 / 3)
      (fun _ _ y x => if y = 2 ∨ x = 2 then ((36 : ℤ) : ℚ) / 4 else if y = x then ((4 : ℤ) : ℚ) / 4 else ((-1 : ℤ) : ℚ) / 4) r := by
  obtain ⟨im, wm, qx, qw, p1, p2, h1, -, h, -⟩ := C90_conv_fixed (O := 1) (by norm_num) ⟨2, 2, 2, 2, 0, 0, 1, 1⟩ 1 1 3 3 (by norm_num)
    (by simp [Spec.GeoOK, Spec.AxisOK]) (fun _ => 0) 0 (by norm_num)
    ⟨true, 4, .fxp, 8, 1, .fxp, 8, 1, some 10, "ceil"⟩ rfl rfl (by norm_num) (by norm_num) 10 (by norm_num) (by norm_num) 7 7 rfl rfl
    (by norm_num) (by norm_num) rfl rfl (by decide) (fun _ _ i j => if i = j then 1 else ((-3 : ℤ) : ℚ) / 4) (some fun _ : Fin 1 => 1 / 3)
    (fun _ _ y x => if y = 2 ∨ x = 2 then ((36 : ℤ) : ℚ) / 4 else if y = x then ((4 : ℤ) : ℚ) / 4 else ((-1 : ℤ) : ℚ) / 4)
    1 1 (by norm_num) (by norm_num)
    ⟨by intro n c y x i j hn hc hy hx hi hj
        simp [Spec.outH, Spec.outW, Spec.outLen] at hy hx hi hj
        subst hy hx
        unfold Spec.tap
        dsimp only
        split_ifs <;> first | omega | norm_num [abs_div],
      0, 0, 0, 0, 0, 0, by norm_num, by norm_num, by simp [Spec.outH, Spec.outLen], by simp [Spec.outW, Spec.outLen], by norm_num,
      by norm_num, by simp [Spec.tap]⟩
    ⟨by intro n c y x hn hc hy hx
        dsimp only
        split_ifs <;> norm_num [abs_div], 0, 0, 0, 0, by norm_num, by norm_num, by norm_num, by norm_num, by simp⟩
    (by intro n c y x _ _ _ _
        split_ifs <;> exact f_quarters _ (by norm_num))
    (by intro o c i j _ _ _ _
        split_ifs
        · exact ⟨1, 0, by norm_num, by norm_num, by norm_num⟩
        · exact f_quarters _ (by norm_num))
    (by push_cast; rw [Real.logb_one]; norm_num) (by push_cast; rw [Real.logb_one]; norm_num)
  exact ⟨_, im, wm, qx, p1, p2, h1, h⟩

/-- A convolution of half-precision numbers. -/
example (lg : ℚ → ℚ) : ∃ (width : ℕ) (q : ℚ → ℚ), width = 11 ∧ (∀ a, Spec.FitsBits width a → q a = a) ∧
    ∃ r, TlutConvF lg ⟨true, 4, .float16, 16, 1, .float16, 16, 1, none, "ceil"⟩ ⟨2, 2, 1, 1, 1, 1, 1, 1⟩ 1 1 3 3
      (fun _ _ _ _ => 1 / 3) (none : Option (Fin 1 → ℚ)) (fun _ _ y x => if y = x then 0 else ((-5 : ℤ) : ℚ) / 4) r := by
  obtain ⟨width, q, h1, -, h2, h3, -⟩ := C90_conv_float (O := 1) (by norm_num) ⟨2, 2, 1, 1, 1, 1, 1, 1⟩ 1 1 3 3 (by norm_num)
    (by simp [Spec.GeoOK, Spec.AxisOK]) lg ⟨true, 4, .float16, 16, 1, .float16, 16, 1, none, "ceil"⟩ (by simp) (by simp) (by norm_num)
    (by norm_num) 16 (by norm_num) (by norm_num) (fun _ _ _ _ => 1 / 3) (none : Option (Fin 1 → ℚ))
    (fun _ _ y x => if y = x then 0 else ((-5 : ℤ) : ℚ) / 4)
    (by intro _ n c y x _ _ _ _
        split_ifs
        · exact ⟨isF32_zero, .inl rfl⟩
        · exact ⟨f_quarters _ (by norm_num), .inr (by
            have : (2:ℚ) ^ (-126:ℤ) ≤ 1 := zpow_le_one_of_nonpos₀ (by norm_num) (by norm_num)
            refine this.trans ?_
            norm_num [abs_div])⟩)
    (by intro h; cases h)
  exact ⟨width, q, h1, fun a ha => (h2 rfl a).1 ha, h3⟩

end Verif.Props
