import Verif.Props.FloatQuant
import Verif.Props.ConvSym

/-!
# Property C95: layers whose scales are quantiles measured in binary32
-/

namespace Verif.Props

open Verif Finset Linear Gen Conv _root_.Verif.Float
open Verif.Spec (IsF32)

/-- A layer measures some scale. -/
private theorem measured {sc : List ℚ → ℚ → Except PyErr ℚ} (hsc : Measures sc) (data : List ℚ) (hne : data ≠ [])
    (hl : data.length ≤ 2 ^ 24) (hf : ∀ x ∈ data, IsF32 x) (q : ℚ) (hq : 0 < q ∧ q ≤ 1) :
    ∃ s, sc data q = .ok s ∧ 0 ≤ s ∧ Spec.ScaleNear q data s ∧ ∀ M, Spec.MaxAbs M data → s ≤ M := by
  obtain ⟨M, hM⟩ : ∃ M, Spec.MaxAbs M data := by
    clear hf hl
    induction data with
    | nil => exact absurd rfl hne
    | cons a l ih =>
      rcases eq_or_ne l [] with rfl | h
      · exact ⟨|a|, by simp [Spec.MaxAbs]⟩
      · obtain ⟨M, h1, x, hx, h2⟩ := ih h
        refine ⟨max |a| M, fun y hy => ?_, ?_⟩
        · rcases List.mem_cons.1 hy with rfl | hy
          · exact le_max_left _ _
          · exact (h1 y hy).trans (le_max_right _ _)
        · rcases max_choice |a| M with h | h
          · exact ⟨a, List.mem_cons_self, h.symm⟩
          · exact ⟨x, List.mem_cons_of_mem _ hx, by rw [h, h2]⟩
  obtain ⟨s, e, -, h0, h1, h2, -⟩ := (C95_scale data hl hf q hq M hM).2 _ (hsc data q)
  refine ⟨s, e, h0, h2, fun M' hM' => ?_⟩
  obtain ⟨x, hx, e'⟩ := hM.2
  exact h1.trans (e' ▸ hM'.1 x hx)

/-- A measured scale of zero. -/
private theorem rshift_zero {I J O : ℕ} (lg : ℚ → ℚ) (x : List (Fin I → ℚ)) (w : Fin O → Fin J → ℚ) (wi ww : ℤ) (r : String)
    (hr : r ∈ ["round", "ceil", "floor"]) (qi qw : ℚ) (sc : List ℚ → ℚ → Except PyErr ℚ) (s t : ℚ) (hs : 0 ≤ s) (ht : 0 ≤ t)
    (es : sc (x.flatMap List.ofFn) qi = .ok s) (et : sc ((List.ofFn w).flatMap List.ofFn) qw = .ok t) (h : s = 0 ∨ t = 0) :
    rshiftF lg x w wi ww r qi qw sc = .error .nonfinite := by
  unfold rshiftF Linear.flat
  rw [es, et]
  rcases hs.eq_or_lt with h0 | h0
  · subst h0; rfl
  · have h1 : t = 0 := h.resolve_left h0.ne'
    subst h1
    obtain ⟨m, hm⟩ : ∃ m, log2RoundedF lg r s = .ok m := by
      unfold log2RoundedF
      rw [if_neg (not_le.2 h0)]
      simp only [List.mem_cons, List.not_mem_nil, or_false] at hr
      rcases hr with rfl | rfl | rfl
      · exact ⟨_, if_pos rfl⟩
      · exact ⟨_, by rw [if_neg (by decide +kernel), if_neg (by decide +kernel), if_pos rfl]⟩
      · exact ⟨_, by rw [if_neg (by decide +kernel), if_pos rfl]⟩
    show (log2RoundedF lg r s >>= _) = _
    rw [hm]; rfl

private theorem length_rows {I : ℕ} (x : List (Fin I → ℚ)) : (x.flatMap List.ofFn).length = x.length * I := by
  induction x with
  | nil => simp
  | cons a l ih => rw [List.flatMap_cons, List.length_append, ih]; simp; ring

private theorem ne_of_length {l : List ℚ} (h : 0 < l.length) : l ≠ [] := by rintro rfl; simp at h

private theorem mem_rows {I : ℕ} {x : List (Fin I → ℚ)} {P : ℚ → Prop} (h : ∀ row ∈ x, ∀ i, P (row i)) : ∀ v ∈ x.flatMap List.ofFn, P v := by
  intro v hv
  obtain ⟨row, h1, h2⟩ := List.mem_flatMap.1 hv
  obtain ⟨i, rfl⟩ := List.mem_ofFn.1 h2
  exact h row h1 i

private theorem rows_mem {I : ℕ} {x : List (Fin I → ℚ)} {P : ℚ → Prop} (h : ∀ v ∈ x.flatMap List.ofFn, P v) : ∀ row ∈ x, ∀ i, P (row i) :=
  fun row hr i => h _ (List.mem_flatMap.2 ⟨row, hr, List.mem_ofFn.2 ⟨i, rfl⟩⟩)

private theorem tlut_zero {I O : ℕ} (lg : ℚ → ℚ) (cfg : Tlut) (w : Fin O → Fin I → ℚ) (bias : Option (Fin O → ℚ)) (x : List (Fin I → ℚ))
    (sc : List ℚ → ℚ → Except PyErr ℚ) (s t : ℚ) (hs : 0 ≤ s) (ht : 0 ≤ t) (es : sc (x.flatMap List.ofFn) cfg.quantilei = .ok s)
    (et : sc ((List.ofFn w).flatMap List.ofFn) cfg.quantilew = .ok t) (h : s = 0 ∨ t = 0) (hr : cfg.rounding ∈ ["round", "ceil", "floor"])
    (hf : ¬ (cfg.formati ≠ .fxp ∧ cfg.formatw ≠ .fxp)) (r : Except PyErr (List (Fin O → ℚ))) (hrr : TlutLinearF lg cfg w bias x r sc) :
    r = .error .nonfinite := by
  unfold TlutLinearF at hrr
  have e : tlutOperandsF lg cfg w x sc = .error .nonfinite := by
    unfold tlutOperandsF
    dsimp only
    split_ifs
    · rw [rshift_zero lg _ _ _ _ _ hr _ _ sc s t hs ht es et h]; rfl
    · rw [rshift_zero lg _ _ _ _ _ hr _ _ sc s t hs ht es et h]; rfl
    · rw [rshift_zero lg _ _ _ _ _ hr _ _ sc s t hs ht es et h]; rfl
    · rw [rshift_zero lg _ _ _ _ _ hr _ _ sc s t hs ht es et h]; rfl
  rw [e] at hrr
  exact hrr

private theorem mixed_fxp {cfg : Tlut} (h : (cfg.formati = .fxp) ≠ (cfg.formatw = .fxp)) : ¬ (cfg.formati ≠ .fxp ∧ cfg.formatw ≠ .fxp) := by
  rintro ⟨h1, h2⟩
  exact h (by simp [h1, h2])

private theorem geo_pos {g : Geo} {H W : ℕ} (hg : Spec.GeoOK g H W) : (0 < g.kh ∧ 0 < g.kw) ∧ 0 < Spec.outH g H * Spec.outW g W :=
  ⟨⟨hg.1.1, hg.2.1⟩, Nat.mul_pos (Nat.succ_pos _) (Nat.succ_pos _)⟩

/-! ## Linear layers -/

/-- C95: a fixed-point linear layer at quantiles whose scales are measured in binary32: the scales are values near the two quantile positions and at most the largest magnitudes; a scale of zero leaves no finite result, and with scales of ordinary size the output is the rounding of a value within the usual bound of the exact one. -/
theorem C95_fixed {I O : ℕ} (lg : ℚ → ℚ) (δ : ℝ) (hδ : δ ≤ 1 / 2) (wi ww : ℕ) (h1 : 1 ≤ wi) (h2 : 1 ≤ ww) (hww : wi + ww ≤ 25)
    (hI : (I:ℤ) * ((2 ^ wi - 1) * (2 ^ ww - 1)) ≤ 2 ^ 24) (rounding : String)
    (hr : rounding.toLower ∈ ["round", "ceil", "floor"]) (w : Fin O → Fin I → ℚ) (bias : Option (Fin O → ℚ))
    (x : List (Fin I → ℚ)) (qi qw : ℚ)
    (fx : ∀ row ∈ x, ∀ i, IsF32 (row i)) (fw : ∀ o i, IsF32 (w o i))
    (sc : List ℚ → ℚ → Except PyErr ℚ) (hsc : Measures sc) (hqi : 0 < qi ∧ qi ≤ 1) (hqw : 0 < qw ∧ qw ≤ 1)
    (sx : x.length * I ≤ 2 ^ 24) (sw : O * I ≤ 2 ^ 24)
    (M N : ℚ) (hx : Spec.MaxAbs M (x.flatMap List.ofFn)) (hw : Spec.MaxAbs N ((List.ofFn w).flatMap List.ofFn)) :
    ∃ s t, Spec.ScaleNear qi (x.flatMap List.ofFn) s ∧ Spec.ScaleNear qw ((List.ofFn w).flatMap List.ofFn) t ∧ 0 ≤ s ∧ s ≤ M ∧ 0 ≤ t ∧ t ≤ N ∧
    (s = 0 ∨ t = 0 → ∀ r, FxpLinearF lg wi ww qi qw rounding w bias x r sc → r = .error .nonfinite) ∧
    ((2:ℚ) ^ (-50:ℤ) ≤ s → s ≤ (2:ℚ) ^ (50:ℤ) → (2:ℚ) ^ (-50:ℤ) ≤ t → t ≤ (2:ℚ) ^ (50:ℤ) →
      |((lg s : ℚ) : ℝ) - Real.logb 2 s| ≤ δ → |((lg t : ℚ) : ℝ) - Real.logb 2 t| ≤ δ →
    ∃ im wm, Spec.PickedNear δ rounding.toLower im s ∧ Spec.PickedNear δ rounding.toLower wm t ∧
      (∃ r, FxpLinearF lg wi ww qi qw rounding w bias x r sc) ∧
      ∀ r, FxpLinearF lg wi ww qi qw rounding w bias x r sc → ∃ out, r = .ok out ∧ out.length = x.length ∧
        ∀ (n : ℕ) (row : Fin I → ℚ), x[n]? = some row → ∃ y, out[n]? = some y ∧ ∀ o, ∀ dx dw : ℚ,
          dx = Spec.opErr (2 ^ wi - 1) ((2:ℚ) ^ (im - (wi - 1))) M →
          dw = Spec.opErr (2 ^ ww - 1) ((2:ℚ) ^ (wm - (ww - 1))) N →
          ∃ z, y o = fl z ∧
            |z - (∑ i, row i * w o i + (bias.map fun b => b o).getD 0)| ≤ I * (M * dw + N * dx + dx * dw)) := by
  have nex : x.flatMap List.ofFn ≠ [] := by obtain ⟨v, hv, -⟩ := hx.2; exact List.ne_nil_of_mem hv
  have new : (List.ofFn w).flatMap List.ofFn ≠ [] := by obtain ⟨v, hv, -⟩ := hw.2; exact List.ne_nil_of_mem hv
  obtain ⟨s, es, s0, s1, s2⟩ := measured hsc _ nex (by rw [length_rows]; exact sx) (mem_rows fx) _ hqi
  obtain ⟨t, et, t0, t1, t2⟩ := measured hsc _ new (by rw [length_rows, List.length_ofFn]; exact sw)
    (mem_rows fun row h i => by obtain ⟨o, rfl⟩ := List.mem_ofFn.1 h; exact fw o i) _ hqw
  refine ⟨s, t, s1, t1, s0, s2 M (hx), t0, t2 N (hw), fun h r hrr => by
    unfold FxpLinearF at hrr
    rw [rshift_zero lg _ _ _ _ _ hr qi qw sc s t s0 t0 es et h] at hrr
    exact hrr, fun a1 a2 a3 a4 a5 a6 => ?_⟩
  exact fixed_any lg δ hδ wi ww h1 h2 hww hI rounding hr w bias x qi qw sc s t ⟨a1, a2⟩ ⟨a3, a4⟩ es et M N (rows_mem hx.1) (fun o => rows_mem hw.1 _ (List.mem_ofFn.2 ⟨o, rfl⟩)) fx fw a5 a6

/-- C95: a hybrid linear layer at quantiles whose scales are measured in binary32: the scales are values near the two quantile positions and at most the largest magnitudes; a scale of zero leaves no finite result, and with scales of ordinary size the output is the rounding of a value within the usual bound of the exact one. -/
theorem C95_hybrid {I O : ℕ} (lg : ℚ → ℚ) (δ : ℝ) (hδ : δ ≤ 1 / 2) (envi envw : Env) (W : ℕ) (hW : 1 ≤ W) (hW' : W ≤ 24)
    (hI : (I:ℤ) * 2 ^ W ≤ 2 ^ 24) (rngi rngw : String) (cycle : ℕ) (hc : 1 ≤ cycle)
    (rounding : String) (hr : rounding.toLower ∈ ["round", "ceil", "floor"])
    (htm : ¬ (Spec.TemporalName rngi ∧ Spec.TemporalName rngw))
    (li lw : List ℤ) (hli : rng envi W rngi = .ok li) (hlw : rng envw W rngw = .ok lw)
    (hpi : Verif.Spec.IsPermSeq W li) (hpw : Verif.Spec.IsPermSeq W lw)
    (hsob : if Spec.TemporalName rngw then Spec.SobolOk envi rngi W else Spec.SobolOk envw rngw W)
    (w : Fin O → Fin I → ℚ) (bias : Option (Fin O → ℚ)) (x : List (Fin I → ℚ))
    (qi qw : ℚ) (hqi : 0 < qi ∧ qi ≤ 1) (hqw : 0 < qw ∧ qw ≤ 1)
    (fx : ∀ row ∈ x, ∀ i, IsF32 (row i)) (fw : ∀ o i, IsF32 (w o i))
    (sc : List ℚ → ℚ → Except PyErr ℚ) (hsc : Measures sc)
    (sx : x.length * I ≤ 2 ^ 24) (sw : O * I ≤ 2 ^ 24)
    (M N : ℚ) (hx : Spec.MaxAbs M (x.flatMap List.ofFn)) (hw : Spec.MaxAbs N ((List.ofFn w).flatMap List.ofFn)) :
    ∃ s t, Spec.ScaleNear qi (x.flatMap List.ofFn) s ∧ Spec.ScaleNear qw ((List.ofFn w).flatMap List.ofFn) t ∧ 0 ≤ s ∧ s ≤ M ∧ 0 ≤ t ∧ t ≤ N ∧
    (s = 0 ∨ t = 0 → ∀ h, mkHub envi envw (W + 1) rngi qi (W + 1) rngw qw (some cycle) rounding true = .ok h → ∀ r, HubLinearF lg h w bias x r sc → r = .error .nonfinite) ∧
    ((2:ℚ) ^ (-50:ℤ) ≤ s → s ≤ (2:ℚ) ^ (50:ℤ) → (2:ℚ) ^ (-50:ℤ) ≤ t → t ≤ (2:ℚ) ^ (50:ℤ) →
      |((lg s : ℚ) : ℝ) - Real.logb 2 s| ≤ δ → |((lg t : ℚ) : ℝ) - Real.logb 2 t| ≤ δ →
    ∃ h im wm, Spec.PickedNear δ rounding.toLower im s ∧ Spec.PickedNear δ rounding.toLower wm t ∧
      mkHub envi envw (W + 1) rngi qi (W + 1) rngw qw (some cycle) rounding true = .ok h ∧
      (∃ r, HubLinearF lg h w bias x r sc) ∧
      ∀ r, HubLinearF lg h w bias x r sc → ∃ out, r = .ok out ∧ out.length = x.length ∧
        ∀ (n : ℕ) (row : Fin I → ℚ), x[n]? = some row → ∃ y, out[n]? = some y ∧ ∀ o, ∀ dx dw : ℚ,
          dx = Spec.opErr (min cycle (2 ^ W) - 1) ((2:ℚ) ^ (im - W)) M →
          dw = Spec.opErr (min cycle (2 ^ W) - 1) ((2:ℚ) ^ (wm - W)) N →
          ∃ z, y o = fl z ∧
            |z - (∑ i, row i * w o i + (bias.map fun b => b o).getD 0)| ≤
              I * (W * (2:ℚ) ^ (im + wm - W) + (M * dw + N * dx + dx * dw))) := by
  have nex : x.flatMap List.ofFn ≠ [] := by obtain ⟨v, hv, -⟩ := hx.2; exact List.ne_nil_of_mem hv
  have new : (List.ofFn w).flatMap List.ofFn ≠ [] := by obtain ⟨v, hv, -⟩ := hw.2; exact List.ne_nil_of_mem hv
  obtain ⟨s, es, s0, s1, s2⟩ := measured hsc _ nex (by rw [length_rows]; exact sx) (mem_rows fx) _ hqi
  obtain ⟨t, et, t0, t1, t2⟩ := measured hsc _ new (by rw [length_rows, List.length_ofFn]; exact sw)
    (mem_rows fun row h i => by obtain ⟨o, rfl⟩ := List.mem_ofFn.1 h; exact fw o i) _ hqw
  refine ⟨s, t, s1, t1, s0, s2 M (hx), t0, t2 N (hw), fun h u hu r hrr => by
    obtain ⟨u', h1, -, -, -, h5, h6, h7, -⟩ := mkHub_ok envi envw (W + 1) (by omega) rngi rngw qi qw hqi hqw cycle rounding hr htm li lw
      hli hlw hpi hpw
    rw [hu] at h1
    obtain rfl := Except.ok.inj h1
    unfold HubLinearF at hrr
    rw [h5, h6, h7, rshift_zero lg _ _ _ _ _ hr qi qw sc s t s0 t0 es et h] at hrr
    exact hrr, fun a1 a2 a3 a4 a5 a6 => ?_⟩
  exact hybrid_any lg δ hδ envi envw W hW hW' hI rngi rngw cycle hc rounding hr htm li lw hli hlw hpi hpw hsob w bias x qi qw hqi hqw sc s t ⟨a1, a2⟩ ⟨a3, a4⟩ es et M N (rows_mem hx.1) (fun o => rows_mem hw.1 _ (List.mem_ofFn.2 ⟨o, rfl⟩)) fx fw a5 a6

/-- C95: a fixed-point look-up layer at quantiles measured in binary32: its operands are exactly those of exact arithmetic for some scales near the quantile positions. -/
theorem C95_lookup_fixed {I O : ℕ} (lg : ℚ → ℚ) (δ : ℝ) (hδ : δ ≤ 1 / 2) (cfg : Tlut) (hfi : cfg.formati = .fxp) (hfw : cfg.formatw = .fxp)
    (ht : 1 ≤ cfg.t) (ht' : cfg.t ≤ 24) (c : ℕ) (hc : 1 ≤ c)
    (hcyc : c = (match cfg.cycle with | none => 2 ^ cfg.t | some k => min k (2 ^ cfg.t)))
    (a b : ℕ) (ha : cfg.widthi = a + 1) (hb : cfg.widthw = b + 1) (ha' : a ≤ 24) (hb' : b ≤ 24)
    (hr : cfg.rounding ∈ ["round", "ceil", "floor"])
    (w : Fin O → Fin I → ℚ) (bias : Option (Fin O → ℚ)) (x : List (Fin I → ℚ))
    (fx : ∀ row ∈ x, ∀ i, IsF32 (row i)) (fw : ∀ o i, IsF32 (w o i))
    (sc : List ℚ → ℚ → Except PyErr ℚ) (hsc : Measures sc) (hqi : 0 < cfg.quantilei ∧ cfg.quantilei ≤ 1) (hqw : 0 < cfg.quantilew ∧ cfg.quantilew ≤ 1)
    (sx : x.length * I ≤ 2 ^ 24) (sw : O * I ≤ 2 ^ 24)
    (nx : 0 < x.length) (nI : 0 < I) (nO : 0 < O) :
    ∃ s t, Spec.ScaleNear cfg.quantilei (x.flatMap List.ofFn) s ∧ Spec.ScaleNear cfg.quantilew ((List.ofFn w).flatMap List.ofFn) t ∧ 0 ≤ s ∧ 0 ≤ t ∧
    (s = 0 ∨ t = 0 → ∀ r, TlutLinearF lg cfg w bias x r sc → r = .error .nonfinite) ∧
    ((2:ℚ) ^ (-50:ℤ) ≤ s → s ≤ (2:ℚ) ^ (50:ℤ) → (2:ℚ) ^ (-50:ℤ) ≤ t → t ≤ (2:ℚ) ^ (50:ℤ) →
      |((lg s : ℚ) : ℝ) - Real.logb 2 s| ≤ δ → |((lg t : ℚ) : ℝ) - Real.logb 2 t| ≤ δ →
    ∃ (im wm : ℤ) (qx qw : ℚ → ℚ), Spec.PickedNear δ cfg.rounding im s ∧ Spec.PickedNear δ cfg.rounding wm t ∧
      (∀ v, Spec.LutOperand cfg.temporalI cfg.t c a ((2:ℚ) ^ (im - a)) v (qx v)) ∧
      (∀ v, Spec.LutOperand (!cfg.temporalI) cfg.t c b ((2:ℚ) ^ (wm - b)) v (qw v)) ∧
      (∃ r, TlutLinearF lg cfg w bias x r sc) ∧
      ∀ r, TlutLinearF lg cfg w bias x r sc → ∃ out, r = .ok out ∧ out.length = x.length ∧
        ∀ (n : ℕ) (row : Fin I → ℚ), x[n]? = some row → ∃ y, out[n]? = some y ∧ ∀ o,
          Spec.NearDot (fun i => qx (row i)) (fun i => qw (w o i)) (bias.map fun b => b o) (y o) ∧
          ((I:ℤ) * ((2 ^ a - 1) * (2 ^ b - 1)) ≤ 2 ^ 24 →
            y o = fl (∑ i, qx (row i) * qw (w o i) + (bias.map fun b => b o).getD 0) ∧
            (bias = none → y o = ∑ i, qx (row i) * qw (w o i)))) := by
  have nex : x.flatMap List.ofFn ≠ [] := ne_of_length (by rw [length_rows]; positivity)
  have new : (List.ofFn w).flatMap List.ofFn ≠ [] := ne_of_length (by rw [length_rows, List.length_ofFn]; positivity)
  obtain ⟨s, es, s0, s1, s2⟩ := measured hsc _ nex (by rw [length_rows]; exact sx) (mem_rows fx) _ hqi
  obtain ⟨t, et, t0, t1, t2⟩ := measured hsc _ new (by rw [length_rows, List.length_ofFn]; exact sw)
    (mem_rows fun row h i => by obtain ⟨o, rfl⟩ := List.mem_ofFn.1 h; exact fw o i) _ hqw
  refine ⟨s, t, s1, t1, s0, t0, fun h r hrr => tlut_zero lg cfg w bias x sc s t s0 t0 es et h hr (by simp [hfi]) r hrr, fun a1 a2 a3 a4 a5 a6 => ?_⟩
  exact tlut_fixed_any lg δ hδ cfg hfi hfw ht ht' c hc hcyc a b ha hb ha' hb' hr w bias x sc s t ⟨a1, a2⟩ ⟨a3, a4⟩ es et fx fw a5 a6

/-- C95: the same with one floating-point operand. -/
theorem C95_lookup_mixed {I O : ℕ} (lg : ℚ → ℚ) (δ : ℝ) (hδ : δ ≤ 1 / 2) (cfg : Tlut) (hmix : (cfg.formati = .fxp) ≠ (cfg.formatw = .fxp))
    (ht : 1 ≤ cfg.t) (ht' : cfg.t ≤ 24) (c : ℕ) (hc : 1 ≤ c)
    (hcyc : c = (match cfg.cycle with | none => 2 ^ cfg.t | some k => min k (2 ^ cfg.t)))
    (width : ℕ) (hwd : width = if cfg.temporalI then Spec.sigBits cfg.formati cfg.widthi else Spec.sigBits cfg.formatw cfg.widthw)
    (hw24 : width ≤ 24)
    (hr : cfg.rounding ∈ ["round", "ceil", "floor"])
    (w : Fin O → Fin I → ℚ) (bias : Option (Fin O → ℚ)) (x : List (Fin I → ℚ))
    (fx : ∀ row ∈ x, ∀ i, IsF32 (row i)) (fw : ∀ o i, IsF32 (w o i))
    (sc : List ℚ → ℚ → Except PyErr ℚ) (hsc : Measures sc) (hqi : 0 < cfg.quantilei ∧ cfg.quantilei ≤ 1) (hqw : 0 < cfg.quantilew ∧ cfg.quantilew ≤ 1)
    (sx : x.length * I ≤ 2 ^ 24) (sw : O * I ≤ 2 ^ 24)
    (nx : 0 < x.length) (nI : 0 < I) (nO : 0 < O) :
    ∃ s t, Spec.ScaleNear cfg.quantilei (x.flatMap List.ofFn) s ∧ Spec.ScaleNear cfg.quantilew ((List.ofFn w).flatMap List.ofFn) t ∧ 0 ≤ s ∧ 0 ≤ t ∧
    (s = 0 ∨ t = 0 → ∀ r, TlutLinearF lg cfg w bias x r sc → r = .error .nonfinite) ∧
    ((2:ℚ) ^ (-50:ℤ) ≤ s → s ≤ (2:ℚ) ^ (50:ℤ) → (2:ℚ) ^ (-50:ℤ) ≤ t → t ≤ (2:ℚ) ^ (50:ℤ) →
      |((lg s : ℚ) : ℝ) - Real.logb 2 s| ≤ δ → |((lg t : ℚ) : ℝ) - Real.logb 2 t| ≤ δ →
    ∃ (m : ℤ) (q : ℚ → ℚ), Spec.PickedNear δ cfg.rounding m (if cfg.temporalI then s else t) ∧
      (∀ v, Spec.LutOperand true cfg.t c width ((2:ℚ) ^ (m - width)) v (q v)) ∧
      (∃ r, TlutLinearF lg cfg w bias x r sc) ∧
      ∀ r, TlutLinearF lg cfg w bias x r sc → ∃ out, r = .ok out ∧ out.length = x.length ∧
        ∀ (n : ℕ) (row : Fin I → ℚ), x[n]? = some row → ∃ y, out[n]? = some y ∧ ∀ o,
          Spec.NearDot (fun i => if cfg.temporalI then q (row i) else row i) (fun i => if cfg.temporalI then w o i else q (w o i))
            (bias.map fun b => b o) (y o)) := by
  have nex : x.flatMap List.ofFn ≠ [] := ne_of_length (by rw [length_rows]; positivity)
  have new : (List.ofFn w).flatMap List.ofFn ≠ [] := ne_of_length (by rw [length_rows, List.length_ofFn]; positivity)
  obtain ⟨s, es, s0, s1, s2⟩ := measured hsc _ nex (by rw [length_rows]; exact sx) (mem_rows fx) _ hqi
  obtain ⟨t, et, t0, t1, t2⟩ := measured hsc _ new (by rw [length_rows, List.length_ofFn]; exact sw)
    (mem_rows fun row h i => by obtain ⟨o, rfl⟩ := List.mem_ofFn.1 h; exact fw o i) _ hqw
  refine ⟨s, t, s1, t1, s0, t0, fun h r hrr => tlut_zero lg cfg w bias x sc s t s0 t0 es et h hr (mixed_fxp hmix) r hrr, fun a1 a2 a3 a4 a5 a6 => ?_⟩
  exact tlut_mixed_any lg δ hδ cfg hmix ht ht' c hc hcyc width hwd hw24 hr w bias x sc s t ⟨a1, a2⟩ ⟨a3, a4⟩ es et fx fw a5 a6

/-! ## Convolutions -/

/-- C95: a fixed-point convolution; the scales are measured over all pixels and all weights. -/
theorem C95_conv_fixed {O : ℕ} (hO : 0 < O) (g : Geo) (B C H V : ℕ) (hB : 0 < B) (hg : Spec.GeoOK g H V)
    (lg : ℚ → ℚ) (δ : ℝ) (hδ : δ ≤ 1 / 2) (wi ww : ℕ) (h1 : 1 ≤ wi) (h2 : 1 ≤ ww) (hww : wi + ww ≤ 25)
    (hI : ((C * g.kh * g.kw : ℕ):ℤ) * ((2 ^ wi - 1) * (2 ^ ww - 1)) ≤ 2 ^ 24) (rounding : String)
    (hr : rounding.toLower ∈ ["round", "ceil", "floor"])
    (w : ℕ → ℕ → ℕ → ℕ → ℚ) (bias : Option (Fin O → ℚ)) (img : ℕ → ℕ → ℕ → ℕ → ℚ)
    (qi qw : ℚ)
    (fx : ∀ n c y x, n < B → c < C → y < H → x < V → IsF32 (img n c y x)) (fw : ∀ o c i j, IsF32 (w o c i j))
    (sc : List ℚ → ℚ → Except PyErr ℚ) (hsc : Measures sc) (hqi : 0 < qi ∧ qi ≤ 1) (hqw : 0 < qw ∧ qw ≤ 1)
    (sx : B * (C * H * V) ≤ 2 ^ 24) (sw : O * (C * g.kh * g.kw) ≤ 2 ^ 24)
    (M N : ℚ) (hx : Spec.MaxAbs4 M B C H V img) (hw : Spec.MaxAbs4 N O C g.kh g.kw w) :
    ∃ s t, Spec.ScaleNear qi (Spec.pixels B C H V img) s ∧ Spec.ScaleNear qw (Spec.pixels O C g.kh g.kw w) t ∧ 0 ≤ s ∧ s ≤ M ∧ 0 ≤ t ∧ t ≤ N ∧
    (s = 0 ∨ t = 0 → ∀ r, FxpConvF lg g B C H V wi ww qi qw rounding w bias img r sc → r = .error .nonfinite) ∧
    ((2:ℚ) ^ (-50:ℤ) ≤ s → s ≤ (2:ℚ) ^ (50:ℤ) → (2:ℚ) ^ (-50:ℤ) ≤ t → t ≤ (2:ℚ) ^ (50:ℤ) →
      |((lg s : ℚ) : ℝ) - Real.logb 2 s| ≤ δ → |((lg t : ℚ) : ℝ) - Real.logb 2 t| ≤ δ →
    ∃ im wm, Spec.PickedNear δ rounding.toLower im s ∧ Spec.PickedNear δ rounding.toLower wm t ∧
      (∃ r, FxpConvF lg g B C H V wi ww qi qw rounding w bias img r sc) ∧
      ∀ r, FxpConvF lg g B C H V wi ww qi qw rounding w bias img r sc → ∃ F, r = .ok F ∧
        ∀ (n : ℕ) (o : Fin O) (y x : ℕ), n < B → y < Spec.outH g H → x < Spec.outW g V → ∀ dx dw : ℚ,
          dx = Spec.opErr (2 ^ wi - 1) ((2:ℚ) ^ (im - (wi - 1))) M →
          dw = Spec.opErr (2 ^ ww - 1) ((2:ℚ) ^ (wm - (ww - 1))) N →
          ∃ z, F n o y x = fl z ∧
            |z - (Spec.conv g C H V id id img w n o y x + (bias.map fun b => b o).getD 0)| ≤
              (C * g.kh * g.kw : ℕ) * (M * dw + N * dx + dx * dw)) := by
  have ex : (entries B C H V img).flatMap List.ofFn = Spec.pixels B C H V img := flat_entries B C H V img
  have ew : (List.ofFn (viewWeight g C O w)).flatMap List.ofFn = Spec.pixels O C g.kh g.kw w := flat_weight g C O w
  have nex : (entries B C H V img).flatMap List.ofFn ≠ [] := by
    obtain ⟨v, hv, -⟩ := (maxAbs_entries hx).2; exact List.ne_nil_of_mem hv
  have new : (List.ofFn (viewWeight g C O w)).flatMap List.ofFn ≠ [] := by
    obtain ⟨v, hv, -⟩ := (maxAbs_entries hw).2; exact List.ne_nil_of_mem hv
  obtain ⟨s, es, s0, s1, s2⟩ := measured hsc _ nex (by rw [length_rows]; unfold entries; rw [List.length_ofFn]; exact sx)
    (mem_rows fun row h i => by
      obtain ⟨n, rfl⟩ := List.mem_ofFn.1 h
      beta_reduce
      rw [view_flat4 _ _ _ _ _ _ i.2]
      have hV : 0 < V := by rcases Nat.eq_zero_or_pos V with rfl | h; · exact absurd i.2 (by simp)
                            · exact h
      have hH : 0 < H := by rcases Nat.eq_zero_or_pos H with rfl | h; · exact absurd i.2 (by simp)
                            · exact h
      exact fx _ _ _ _ n.2 (Nat.div_lt_of_lt_mul (lt_of_lt_of_eq i.2 (by ring))) (Nat.mod_lt _ hH) (Nat.mod_lt _ hV)) _ hqi
  obtain ⟨t, et, t0, t1, t2⟩ := measured hsc _ new (by rw [length_rows, List.length_ofFn]; exact sw)
    (mem_rows fun row h i => by obtain ⟨o, rfl⟩ := List.mem_ofFn.1 h; exact filters_f32 (fun o c i j _ _ _ _ => fw o c i j) o i) _ hqw
  refine ⟨s, t, ex ▸ s1, ew ▸ t1, s0, s2 M (maxAbs_entries hx), t0, t2 N (maxAbs_entries hw), fun h r hrr => by
    unfold FxpConvF at hrr
    rw [rshift_zero lg _ _ _ _ _ hr qi qw sc s t s0 t0 es et h] at hrr
    exact hrr, fun a1 a2 a3 a4 a5 a6 => ?_⟩
  exact conv_fixed_any hO g B C H V hB hg lg δ hδ wi ww h1 h2 hww hI rounding hr w bias img qi qw sc s t ⟨a1, a2⟩ ⟨a3, a4⟩ es et M N hx hw fx fw a5 a6

/-- C95: a hybrid convolution; the scales are measured over all pixels and all weights. -/
theorem C95_conv_hybrid {O : ℕ} (hO : 0 < O) (g : Geo) (B C H V : ℕ) (hB : 0 < B) (hg : Spec.GeoOK g H V)
    (lg : ℚ → ℚ) (δ : ℝ) (hδ : δ ≤ 1 / 2) (envi envw : Env) (W : ℕ) (hW : 1 ≤ W) (hW' : W ≤ 24)
    (hI : ((C * g.kh * g.kw : ℕ):ℤ) * 2 ^ W ≤ 2 ^ 24) (rngi rngw : String) (cycle : ℕ) (hc : 1 ≤ cycle)
    (rounding : String) (hr : rounding.toLower ∈ ["round", "ceil", "floor"])
    (ht : ¬ (Spec.TemporalName rngi ∧ Spec.TemporalName rngw))
    (li lw : List ℤ) (hli : rng envi W rngi = .ok li) (hlw : rng envw W rngw = .ok lw)
    (hpi : Verif.Spec.IsPermSeq W li) (hpw : Verif.Spec.IsPermSeq W lw)
    (hs : if Spec.TemporalName rngw then Spec.SobolOk envi rngi W else Spec.SobolOk envw rngw W)
    (w : ℕ → ℕ → ℕ → ℕ → ℚ) (bias : Option (Fin O → ℚ)) (img : ℕ → ℕ → ℕ → ℕ → ℚ)
    (qi qw : ℚ) (hqi : 0 < qi ∧ qi ≤ 1) (hqw : 0 < qw ∧ qw ≤ 1)
    (fx : ∀ n c y x, n < B → c < C → y < H → x < V → IsF32 (img n c y x)) (fw : ∀ o c i j, IsF32 (w o c i j))
    (sc : List ℚ → ℚ → Except PyErr ℚ) (hsc : Measures sc)
    (sx : B * (C * H * V) ≤ 2 ^ 24) (sw : O * (C * g.kh * g.kw) ≤ 2 ^ 24)
    (M N : ℚ) (hx : Spec.MaxAbs4 M B C H V img) (hw : Spec.MaxAbs4 N O C g.kh g.kw w) :
    ∃ s t, Spec.ScaleNear qi (Spec.pixels B C H V img) s ∧ Spec.ScaleNear qw (Spec.pixels O C g.kh g.kw w) t ∧ 0 ≤ s ∧ s ≤ M ∧ 0 ≤ t ∧ t ≤ N ∧
    (s = 0 ∨ t = 0 → ∀ h, mkHub envi envw (W + 1) rngi qi (W + 1) rngw qw (some cycle) rounding true = .ok h → ∀ r, HubConvF lg h g B C H V w bias img r sc → r = .error .nonfinite) ∧
    ((2:ℚ) ^ (-50:ℤ) ≤ s → s ≤ (2:ℚ) ^ (50:ℤ) → (2:ℚ) ^ (-50:ℤ) ≤ t → t ≤ (2:ℚ) ^ (50:ℤ) →
      |((lg s : ℚ) : ℝ) - Real.logb 2 s| ≤ δ → |((lg t : ℚ) : ℝ) - Real.logb 2 t| ≤ δ →
    ∃ h im wm, Spec.PickedNear δ rounding.toLower im s ∧ Spec.PickedNear δ rounding.toLower wm t ∧
      mkHub envi envw (W + 1) rngi qi (W + 1) rngw qw (some cycle) rounding true = .ok h ∧
      (∃ r, HubConvF lg h g B C H V w bias img r sc) ∧
      ∀ r, HubConvF lg h g B C H V w bias img r sc → ∃ F, r = .ok F ∧
        ∀ (n : ℕ) (o : Fin O) (y x : ℕ), n < B → y < Spec.outH g H → x < Spec.outW g V → ∀ dx dw : ℚ,
          dx = Spec.opErr (min cycle (2 ^ W) - 1) ((2:ℚ) ^ (im - W)) M →
          dw = Spec.opErr (min cycle (2 ^ W) - 1) ((2:ℚ) ^ (wm - W)) N →
          ∃ z, F n o y x = fl z ∧
            |z - (Spec.conv g C H V id id img w n o y x + (bias.map fun b => b o).getD 0)| ≤
              (C * g.kh * g.kw : ℕ) * (W * (2:ℚ) ^ (im + wm - W) + (M * dw + N * dx + dx * dw))) := by
  have ex : (entries B C H V img).flatMap List.ofFn = Spec.pixels B C H V img := flat_entries B C H V img
  have ew : (List.ofFn (viewWeight g C O w)).flatMap List.ofFn = Spec.pixels O C g.kh g.kw w := flat_weight g C O w
  have nex : (entries B C H V img).flatMap List.ofFn ≠ [] := by
    obtain ⟨v, hv, -⟩ := (maxAbs_entries hx).2; exact List.ne_nil_of_mem hv
  have new : (List.ofFn (viewWeight g C O w)).flatMap List.ofFn ≠ [] := by
    obtain ⟨v, hv, -⟩ := (maxAbs_entries hw).2; exact List.ne_nil_of_mem hv
  obtain ⟨s, es, s0, s1, s2⟩ := measured hsc _ nex (by rw [length_rows]; unfold entries; rw [List.length_ofFn]; exact sx)
    (mem_rows fun row h i => by
      obtain ⟨n, rfl⟩ := List.mem_ofFn.1 h
      beta_reduce
      rw [view_flat4 _ _ _ _ _ _ i.2]
      have hV : 0 < V := by rcases Nat.eq_zero_or_pos V with rfl | h; · exact absurd i.2 (by simp)
                            · exact h
      have hH : 0 < H := by rcases Nat.eq_zero_or_pos H with rfl | h; · exact absurd i.2 (by simp)
                            · exact h
      exact fx _ _ _ _ n.2 (Nat.div_lt_of_lt_mul (lt_of_lt_of_eq i.2 (by ring))) (Nat.mod_lt _ hH) (Nat.mod_lt _ hV)) _ hqi
  obtain ⟨t, et, t0, t1, t2⟩ := measured hsc _ new (by rw [length_rows, List.length_ofFn]; exact sw)
    (mem_rows fun row h i => by obtain ⟨o, rfl⟩ := List.mem_ofFn.1 h; exact filters_f32 (fun o c i j _ _ _ _ => fw o c i j) o i) _ hqw
  refine ⟨s, t, ex ▸ s1, ew ▸ t1, s0, s2 M (maxAbs_entries hx), t0, t2 N (maxAbs_entries hw), fun h u hu r hrr => by
    obtain ⟨u', h1, -, -, -, h5, h6, h7, -⟩ := mkHub_ok envi envw (W + 1) (by omega) rngi rngw qi qw hqi hqw cycle rounding hr ht li lw
      hli hlw hpi hpw
    rw [hu] at h1
    obtain rfl := Except.ok.inj h1
    unfold HubConvF at hrr
    rw [h5, h6, h7, rshift_zero lg _ _ _ _ _ hr qi qw sc s t s0 t0 es et h] at hrr
    exact hrr, fun a1 a2 a3 a4 a5 a6 => ?_⟩
  exact conv_hybrid_any hO g B C H V hB hg lg δ hδ envi envw W hW hW' hI rngi rngw cycle hc rounding hr ht li lw hli hlw hpi hpw hs w bias img qi qw hqi hqw sc s t ⟨a1, a2⟩ ⟨a3, a4⟩ es et M N hx hw fx fw a5 a6

/-- C95: a fixed-point look-up convolution; the scale of the input is measured over the windows, each pixel counting as often as windows hold it. -/
theorem C95_conv_lookup_fixed {O : ℕ} (hO : 0 < O) (g : Geo) (B C H W : ℕ) (hB : 0 < B) (hg : Spec.GeoOK g H W)
    (lg : ℚ → ℚ) (δ : ℝ) (hδ : δ ≤ 1 / 2) (cfg : Tlut) (hfi : cfg.formati = .fxp) (hfw : cfg.formatw = .fxp)
    (ht : 1 ≤ cfg.t) (ht' : cfg.t ≤ 24) (c : ℕ) (hc : 1 ≤ c)
    (hcyc : c = (match cfg.cycle with | none => 2 ^ cfg.t | some k => min k (2 ^ cfg.t)))
    (a b : ℕ) (ha : cfg.widthi = a + 1) (hb : cfg.widthw = b + 1) (ha' : a ≤ 24) (hb' : b ≤ 24)
    (hr : cfg.rounding ∈ ["round", "ceil", "floor"])
    (w : ℕ → ℕ → ℕ → ℕ → ℚ) (bias : Option (Fin O → ℚ)) (img : ℕ → ℕ → ℕ → ℕ → ℚ)
    (fx : ∀ n c y x, n < B → c < C → y < H → x < W → IsF32 (img n c y x))
    (fw : ∀ o c i j, o < O → c < C → i < g.kh → j < g.kw → IsF32 (w o c i j))
    (sc : List ℚ → ℚ → Except PyErr ℚ) (hsc : Measures sc) (hqi : 0 < cfg.quantilei ∧ cfg.quantilei ≤ 1) (hqw : 0 < cfg.quantilew ∧ cfg.quantilew ≤ 1)
    (hC : 0 < C) (sx : B * (Spec.outH g H * Spec.outW g W) * (C * g.kh * g.kw) ≤ 2 ^ 24) (sw : O * (C * g.kh * g.kw) ≤ 2 ^ 24) :
    ∃ s t, Spec.ScaleNear cfg.quantilei ((windows g B C H W img).flatMap List.ofFn) s ∧ Spec.ScaleNear cfg.quantilew (Spec.pixels O C g.kh g.kw w) t ∧ 0 ≤ s ∧ 0 ≤ t ∧
    (s = 0 ∨ t = 0 → ∀ r, TlutConvF lg cfg g B C H W w bias img r sc → r = .error .nonfinite) ∧
    ((2:ℚ) ^ (-50:ℤ) ≤ s → s ≤ (2:ℚ) ^ (50:ℤ) → (2:ℚ) ^ (-50:ℤ) ≤ t → t ≤ (2:ℚ) ^ (50:ℤ) →
      |((lg s : ℚ) : ℝ) - Real.logb 2 s| ≤ δ → |((lg t : ℚ) : ℝ) - Real.logb 2 t| ≤ δ →
    ∃ (im wm : ℤ) (qx qw : ℚ → ℚ), Spec.PickedNear δ cfg.rounding im s ∧ Spec.PickedNear δ cfg.rounding wm t ∧
      (∀ v, Spec.LutOperand cfg.temporalI cfg.t c a ((2:ℚ) ^ (im - a)) v (qx v)) ∧
      (∀ v, Spec.LutOperand (!cfg.temporalI) cfg.t c b ((2:ℚ) ^ (wm - b)) v (qw v)) ∧
      (∃ r, TlutConvF lg cfg g B C H W w bias img r sc) ∧
      ∀ r, TlutConvF lg cfg g B C H W w bias img r sc → ∃ F, r = .ok F ∧
        ∀ (n : ℕ) (o : Fin O) (y x : ℕ), n < B → y < Spec.outH g H → x < Spec.outW g W →
          Spec.NearDot (fun q => qx (Spec.windowRow g C H W 0 img n y x q))
            (fun q : Fin (C * g.kh * g.kw) => qw (w o (q / (g.kh * g.kw)) (q / g.kw % g.kh) (q % g.kw))) (bias.map fun b => b o) (F n o y x) ∧
          (((C * g.kh * g.kw : ℕ):ℤ) * ((2 ^ a - 1) * (2 ^ b - 1)) ≤ 2 ^ 24 →
            F n o y x = fl (Spec.conv g C H W qx qw img w n o y x + (bias.map fun b => b o).getD 0) ∧
            (bias = none → F n o y x = Spec.conv g C H W qx qw img w n o y x))) := by
  have ew : (List.ofFn (viewWeight g C O w)).flatMap List.ofFn = Spec.pixels O C g.kh g.kw w := flat_weight g C O w
  obtain ⟨⟨pk1, pk2⟩, ph⟩ := geo_pos hg
  have lx : ((windows g B C H W img).flatMap List.ofFn).length = B * (Spec.outH g H * Spec.outW g W) * (C * g.kh * g.kw) := by
    rw [length_rows]; unfold windows; rw [List.length_ofFn]
  have nex : (windows g B C H W img).flatMap List.ofFn ≠ [] := ne_of_length (by rw [lx]; positivity)
  have new : (List.ofFn (viewWeight g C O w)).flatMap List.ofFn ≠ [] := ne_of_length (by rw [length_rows, List.length_ofFn]; positivity)
  obtain ⟨s, es, s0, s1, s2⟩ := measured hsc _ nex (by rw [lx]; exact sx) (mem_rows (rows_f32 g B C H W ⟨0, 0, by norm_num, by norm_num, by simp⟩ img fx)) _ hqi
  obtain ⟨t, et, t0, t1, t2⟩ := measured hsc _ new (by rw [length_rows, List.length_ofFn]; exact sw)
    (mem_rows fun row h i => by obtain ⟨o, rfl⟩ := List.mem_ofFn.1 h; exact filters_f32 fw o i) _ hqw
  refine ⟨s, t, s1, ew ▸ t1, s0, t0, fun h r hrr => by
    obtain ⟨r', h1, -, h2⟩ := (conv_linear hO g B C H W hB hg lg cfg w bias img sc).2 r hrr
    exact h2 _ (tlut_zero lg cfg _ bias _ sc s t s0 t0 es et h hr (by simp [hfi]) r' h1), fun a1 a2 a3 a4 a5 a6 => ?_⟩
  exact tlut_conv_fixed_any hO g B C H W hB hg lg δ hδ cfg hfi hfw ht ht' c hc hcyc a b ha hb ha' hb' hr w bias img sc s t ⟨a1, a2⟩ ⟨a3, a4⟩ es et fx fw a5 a6

/-- C95: the same with one floating-point operand. -/
theorem C95_conv_lookup_mixed {O : ℕ} (hO : 0 < O) (g : Geo) (B C H W : ℕ) (hB : 0 < B) (hg : Spec.GeoOK g H W)
    (lg : ℚ → ℚ) (δ : ℝ) (hδ : δ ≤ 1 / 2) (cfg : Tlut) (hmix : (cfg.formati = .fxp) ≠ (cfg.formatw = .fxp))
    (ht : 1 ≤ cfg.t) (ht' : cfg.t ≤ 24) (c : ℕ) (hc : 1 ≤ c)
    (hcyc : c = (match cfg.cycle with | none => 2 ^ cfg.t | some k => min k (2 ^ cfg.t)))
    (width : ℕ) (hwd : width = if cfg.temporalI then Spec.sigBits cfg.formati cfg.widthi else Spec.sigBits cfg.formatw cfg.widthw)
    (hw24 : width ≤ 24)
    (hr : cfg.rounding ∈ ["round", "ceil", "floor"])
    (w : ℕ → ℕ → ℕ → ℕ → ℚ) (bias : Option (Fin O → ℚ)) (img : ℕ → ℕ → ℕ → ℕ → ℚ)
    (fx : ∀ n c y x, n < B → c < C → y < H → x < W → IsF32 (img n c y x))
    (fw : ∀ o c i j, o < O → c < C → i < g.kh → j < g.kw → IsF32 (w o c i j))
    (sc : List ℚ → ℚ → Except PyErr ℚ) (hsc : Measures sc) (hqi : 0 < cfg.quantilei ∧ cfg.quantilei ≤ 1) (hqw : 0 < cfg.quantilew ∧ cfg.quantilew ≤ 1)
    (hC : 0 < C) (sx : B * (Spec.outH g H * Spec.outW g W) * (C * g.kh * g.kw) ≤ 2 ^ 24) (sw : O * (C * g.kh * g.kw) ≤ 2 ^ 24) :
    ∃ s t, Spec.ScaleNear cfg.quantilei ((windows g B C H W img).flatMap List.ofFn) s ∧ Spec.ScaleNear cfg.quantilew (Spec.pixels O C g.kh g.kw w) t ∧ 0 ≤ s ∧ 0 ≤ t ∧
    (s = 0 ∨ t = 0 → ∀ r, TlutConvF lg cfg g B C H W w bias img r sc → r = .error .nonfinite) ∧
    ((2:ℚ) ^ (-50:ℤ) ≤ s → s ≤ (2:ℚ) ^ (50:ℤ) → (2:ℚ) ^ (-50:ℤ) ≤ t → t ≤ (2:ℚ) ^ (50:ℤ) →
      |((lg s : ℚ) : ℝ) - Real.logb 2 s| ≤ δ → |((lg t : ℚ) : ℝ) - Real.logb 2 t| ≤ δ →
    ∃ (m : ℤ) (q : ℚ → ℚ), Spec.PickedNear δ cfg.rounding m (if cfg.temporalI then s else t) ∧
      (∀ v, Spec.LutOperand true cfg.t c width ((2:ℚ) ^ (m - width)) v (q v)) ∧
      (∃ r, TlutConvF lg cfg g B C H W w bias img r sc) ∧
      ∀ r, TlutConvF lg cfg g B C H W w bias img r sc → ∃ F, r = .ok F ∧
        ∀ (n : ℕ) (o : Fin O) (y x : ℕ), n < B → y < Spec.outH g H → x < Spec.outW g W →
          Spec.NearDot
            (fun i => if cfg.temporalI then q (Spec.windowRow g C H W 0 img n y x i) else Spec.windowRow g C H W 0 img n y x i)
            (fun i : Fin (C * g.kh * g.kw) => if cfg.temporalI then w o (i / (g.kh * g.kw)) (i / g.kw % g.kh) (i % g.kw)
              else q (w o (i / (g.kh * g.kw)) (i / g.kw % g.kh) (i % g.kw))) (bias.map fun b => b o) (F n o y x)) := by
  have ew : (List.ofFn (viewWeight g C O w)).flatMap List.ofFn = Spec.pixels O C g.kh g.kw w := flat_weight g C O w
  obtain ⟨⟨pk1, pk2⟩, ph⟩ := geo_pos hg
  have lx : ((windows g B C H W img).flatMap List.ofFn).length = B * (Spec.outH g H * Spec.outW g W) * (C * g.kh * g.kw) := by
    rw [length_rows]; unfold windows; rw [List.length_ofFn]
  have nex : (windows g B C H W img).flatMap List.ofFn ≠ [] := ne_of_length (by rw [lx]; positivity)
  have new : (List.ofFn (viewWeight g C O w)).flatMap List.ofFn ≠ [] := ne_of_length (by rw [length_rows, List.length_ofFn]; positivity)
  obtain ⟨s, es, s0, s1, s2⟩ := measured hsc _ nex (by rw [lx]; exact sx) (mem_rows (rows_f32 g B C H W ⟨0, 0, by norm_num, by norm_num, by simp⟩ img fx)) _ hqi
  obtain ⟨t, et, t0, t1, t2⟩ := measured hsc _ new (by rw [length_rows, List.length_ofFn]; exact sw)
    (mem_rows fun row h i => by obtain ⟨o, rfl⟩ := List.mem_ofFn.1 h; exact filters_f32 fw o i) _ hqw
  refine ⟨s, t, s1, ew ▸ t1, s0, t0, fun h r hrr => by
    obtain ⟨r', h1, -, h2⟩ := (conv_linear hO g B C H W hB hg lg cfg w bias img sc).2 r hrr
    exact h2 _ (tlut_zero lg cfg _ bias _ sc s t s0 t0 es et h hr (mixed_fxp hmix) r' h1), fun a1 a2 a3 a4 a5 a6 => ?_⟩
  exact tlut_conv_mixed_any hO g B C H W hB hg lg δ hδ cfg hmix ht ht' c hc hcyc width hwd hw24 hr w bias img sc s t ⟨a1, a2⟩ ⟨a3, a4⟩ es et fx fw a5 a6

private theorem q32 (n e : ℤ) (h1 : |n| ≤ 2 ^ 24) (h2 : -149 ≤ e) {v : ℚ} (h : v = n * (2:ℚ) ^ e) : IsF32 v := ⟨n, e, h1, h2, h⟩

/-- Non-vacuity: some function measures scales, some function is near the logarithm everywhere, and a layer with quantiles 1/2 and 3/4. -/
example : ∃ (sc : List ℚ → ℚ → Except PyErr ℚ) (lg : ℚ → ℚ), Measures sc ∧ (∀ s : ℚ, |((lg s : ℚ) : ℝ) - Real.logb 2 s| ≤ 1 / 8) ∧
    ∃ s t, Spec.ScaleNear (1/2) [2, -1/4] s ∧ Spec.ScaleNear (3/4) [1/2, -1] t ∧ 0 ≤ s ∧ s ≤ 2 ∧ 0 ≤ t ∧ t ≤ 1 ∧
      ((2:ℚ) ^ (-50:ℤ) ≤ s → (2:ℚ) ^ (-50:ℤ) ≤ t →
        ∃ r, FxpLinearF lg 8 8 (1/2) (3/4) "round" (fun _ : Fin 1 => ![(1:ℚ)/2, -1]) (some fun _ => 1 / 3) [![(2:ℚ), -1/4]] r sc) := by
  obtain ⟨sc, hsc⟩ := measures_exists
  have hlg : ∀ s : ℚ, ∃ q : ℚ, |((q : ℚ) : ℝ) - Real.logb 2 s| ≤ 1 / 8 := fun s => by
    obtain ⟨q, h1, h2⟩ := exists_rat_btwn (show Real.logb 2 s < Real.logb 2 s + 1 / 8 by linarith)
    exact ⟨q, by rw [abs_le]; constructor <;> linarith⟩
  choose lg hlg using hlg
  have f1 : IsF32 (1/2) := q32 1 (-1) (by norm_num) (by norm_num) (by norm_num)
  have f2 : IsF32 (-1) := q32 (-1) 0 (by norm_num) (by norm_num) (by norm_num)
  have f3 : IsF32 2 := q32 1 1 (by norm_num) (by norm_num) (by norm_num)
  have f4 : IsF32 (-1/4) := q32 (-1) (-2) (by norm_num) (by norm_num) (by norm_num)
  refine ⟨sc, lg, hsc, hlg, ?_⟩
  obtain ⟨s, t, h1, h2, h3, h4, h5, h6, -, h7⟩ := C95_fixed lg (1 / 8) (by norm_num) 8 8 (by norm_num) (by norm_num)
    (by norm_num) (by norm_num) "round" (by decide +kernel) (fun _ : Fin 1 => ![(1:ℚ)/2, -1]) (some fun _ => 1 / 3) [![(2:ℚ), -1/4]]
    (1/2) (3/4)
    (by intro row hrow i
        rw [List.mem_singleton] at hrow; subst hrow
        revert i; rw [Fin.forall_fin_two]
        exact ⟨f3, f4⟩)
    (by intro o; rw [Fin.forall_fin_two]; exact ⟨f1, f2⟩) sc hsc (by norm_num) (by norm_num) (by norm_num) (by norm_num) 2 1
    ⟨by intro a ha
        simp [List.ofFn_succ] at ha
        rcases ha with rfl | rfl <;> norm_num [abs_div],
      2, by simp [List.ofFn_succ], by norm_num⟩
    ⟨by intro a ha
        simp [List.ofFn_succ] at ha
        rcases ha with rfl | rfl <;> norm_num [abs_div],
      -1, by simp [List.ofFn_succ], by norm_num⟩
  refine ⟨s, t, h1, h2, h3, h4, h5, h6, fun a b => ?_⟩
  obtain ⟨im, wm, -, -, h, -⟩ := h7 a (h4.trans (by norm_num)) b (h6.trans (by norm_num)) (hlg s) (hlg t)
  exact h

end Verif.Props
