import Verif.Props.Metric
import Verif.Props.Utils
import Verif.Props.Tlut
import Verif.Props.RtlGen
import Verif.Props.RtlOldAdd
import Verif.Props.FloatLin

/-!
# Consequences of C16, C17, C41, C46, C50, C58, C78, C80 and C88 for what the modules return
-/

namespace Verif.Props

open Verif Finset Verif.Metric Linear Gen

/-- C16: after any interleaving of observations and reports, if only bits were observed, the reported value is in the range of
the mode and the reported error is at most two. -/
theorem C16_report_range (source scale : ℚ) (m : Mode) (mode : String) (s0 : PE)
    (hm : parseMode mode = .ok m) (hs : scale ≠ 0) (hi : PE.init source scale mode = .ok s0)
    (ops : List PEOp) (hne : observed ops ≠ []) (hb : ∀ x ∈ observed ops, IsBit x) :
    ∃ s' v e, (peRun s0 ops).forward = .ok (s', v, e) ∧ (if m = .unipolar then 0 else -1) ≤ v ∧ v ≤ 1 ∧ |e| ≤ 2 := by
  obtain ⟨s', h⟩ := C16_report source scale m mode s0 hm hs hi ops hne
  obtain ⟨h1, h2, h3⟩ := C16_range m (observed ops) hne hb
  refine ⟨s', _, _, h, ?_, ?_, h3 _⟩
  · cases m
    · rw [if_pos rfl]; exact (h1 rfl).1
    · rw [if_neg (by decide)]; exact (h2 rfl).1
  · cases m
    · exact (h1 rfl).2
    · exact (h2 rfl).2

/-- C17: the reported stability is between `0` and `1 - 1/n`, and `0` exactly if the last observation violated the threshold or
was the only one. -/
theorem C17_report_range (source scale thr : ℚ) (m : Mode) (mode : String) (s0 : Stab)
    (hm : parseMode mode = .ok m) (hs : scale ≠ 0)
    (hi : Stab.init source scale mode thr = .ok s0) (x : ℕ → ℚ) (n : ℕ) (hn : 0 < n) :
    ∃ s v, stabRun s0 x n = .ok s ∧ s.forward = .ok v ∧ 0 ≤ v ∧ v ≤ 1 - 1 / n ∧
      (v = 0 ↔ Spec.lastUnstable m (clamp (-1) 1 (source / scale)) thr x n = n ∨ n = 1) := by
  obtain ⟨s, h1, h2⟩ := C17_report source scale thr m mode s0 hm hs hi x n hn
  exact ⟨s, _, h1, h2, C17_range _ n (lastUnstable_le _ _ _ _ _) hn⟩

/-- C17: once no further violation occurs the reported stability never decreases. -/
theorem C17_report_grows (source scale thr : ℚ) (m : Mode) (mode : String) (s0 : Stab)
    (hm : parseMode mode = .ok m) (hs : scale ≠ 0)
    (hi : Stab.init source scale mode thr = .ok s0) (x : ℕ → ℚ) (n k : ℕ) (hn : 0 < n)
    (h : ∀ j, n < j → j ≤ n + k → |Spec.progErr m (clamp (-1) 1 (source / scale)) x j| ≤ thr) :
    ∃ s s' v v', stabRun s0 x n = .ok s ∧ stabRun s0 x (n + k) = .ok s' ∧ s.forward = .ok v ∧ s'.forward = .ok v' ∧
      v ≤ v' := by
  obtain ⟨s, h1, h2⟩ := C17_report source scale thr m mode s0 hm hs hi x n hn
  obtain ⟨s', h3, h4⟩ := C17_report source scale thr m mode s0 hm hs hi x (n + k) (by omega)
  exact ⟨s, s', _, _, h1, h3, h2, h4, C17_grows m _ thr x n k hn h⟩

/-- C41: the gradient of `Round` (that of the identity) predicts the change of a loss with derivative `g` up to `|g|`
times one grid step as long as the inputs are in range; above the range the result is constant and the gradient is passed on all the same. -/
theorem C41_gradient (i f : ℤ) (h : 0 ≤ i + f) (g x y : ℚ) :
    (|x| ≤ (2:ℚ) ^ i - 1 / (2:ℚ) ^ f → |y| ≤ (2:ℚ) ^ i - 1 / (2:ℚ) ^ f →
      |g * (Utils.round i f y - Utils.round i f x) - (Utils.roundSTEBackward g).1 * (y - x)| ≤ |g| / (2:ℚ) ^ f) ∧
    ((2:ℚ) ^ i - 1 / (2:ℚ) ^ f ≤ x → x ≤ y → Utils.round i f y = Utils.round i f x ∧
      (g ≠ 0 → (Utils.roundSTEBackward g).1 ≠ 0)) := by
  have hp : (0:ℚ) < (2:ℚ) ^ f := zpow_pos (by norm_num) f
  constructor
  · intro hx hy
    have a := (C41_half_unit i f h x hx).1
    have b := (C41_half_unit i f h y hy).1
    show |g * (Utils.round i f y - Utils.round i f x) - g * (y - x)| ≤ _
    have e : g * (Utils.round i f y - Utils.round i f x) - g * (y - x)
        = g * ((Utils.round i f y - y) - (Utils.round i f x - x)) := by ring
    rw [e, abs_mul]
    have c : |(Utils.round i f y - y) - (Utils.round i f x - x)| ≤ 1 / (2:ℚ) ^ f := by
      refine (abs_sub _ _).trans ?_
      have : 1 / (2 * (2:ℚ) ^ f) + 1 / (2 * (2:ℚ) ^ f) = 1 / (2:ℚ) ^ f := by field_simp; norm_num
      linarith
    calc |g| * |(Utils.round i f y - y) - (Utils.round i f x - x)| ≤ |g| * (1 / (2:ℚ) ^ f) :=
          mul_le_mul_of_nonneg_left c (abs_nonneg g)
      _ = |g| / (2:ℚ) ^ f := by ring
  · intro hx hxy
    have hM1 : (1:ℚ) ≤ (2:ℚ) ^ (i + f) := one_le_zpow₀ (by norm_num) h
    have hM : Spec.Representable i f ((2:ℚ) ^ i - 1 / (2:ℚ) ^ f) := by
      lift i + f to ℕ using h with n hn
      refine ⟨2 ^ n - 1, ?_, ?_⟩
      · push_cast
        rw [← zpow_natCast, hn, zpow_add₀ (by norm_num)]; field_simp
      · rw [← hn]
        rw [zpow_natCast] at hM1 ⊢
        push_cast
        rw [abs_of_nonneg (by linarith)]
    have key : ∀ z, (2:ℚ) ^ i - 1 / (2:ℚ) ^ f ≤ z → Utils.round i f z = (2:ℚ) ^ i - 1 / (2:ℚ) ^ f := by
      intro z hz
      apply le_antisymm
      · obtain ⟨k, e, hk⟩ := C41_representable i f h z
        rw [e, div_le_iff₀ hp]
        have e2 : ((2:ℚ) ^ i - 1 / (2:ℚ) ^ f) * (2:ℚ) ^ f = (2:ℚ) ^ (i + f) - 1 := by
          rw [zpow_add₀ (by norm_num)]; field_simp
        rw [e2]
        exact (le_abs_self _).trans hk
      · have := (C41_monotone_odd i f h _ z).1 hz
        rwa [(C41_idempotent i f h).1 _ hM] at this
    exact ⟨by rw [key x hx, key y (hx.trans hxy)], fun hg => hg⟩

/-- C46: the products that the table of an HUB layer stores: none for a zero operand, at most the smaller operand, and one more
step of an operand changes the product by zero or one. -/
theorem C46_table_shape (envi envw : Env) (wd : ℕ) (hwd : 2 ≤ wd) (rngi rngw : String) (qi qw : ℚ)
    (hqi : 0 < qi ∧ qi ≤ 1) (hqw : 0 < qw ∧ qw ≤ 1) (cycle : ℕ) (rounding : String)
    (hr : rounding.toLower ∈ ["round", "ceil", "floor"])
    (ht : ¬ (Spec.TemporalName rngi ∧ Spec.TemporalName rngw)) (li lw : List ℤ) (hli : rng envi (wd - 1) rngi = .ok li)
    (hlw : rng envw (wd - 1) rngw = .ok lw) (hpi : Verif.Spec.IsPermSeq (wd - 1) li)
    (hpw : Verif.Spec.IsPermSeq (wd - 1) lw) :
    ∃ h, mkHub envi envw wd rngi qi wd rngw qw (some cycle) rounding true = .ok h ∧
      ∀ i v : ℕ, i < h.cycle → h.table 0 v = 0 ∧ h.table i 0 = 0 ∧ h.table i v ≤ min i v ∧
        (i + 1 < h.cycle → h.table i v ≤ h.table (i + 1) v ∧ h.table (i + 1) v ≤ h.table i v + 1) ∧
        h.table i v ≤ h.table i (v + 1) ∧ h.table i (v + 1) ≤ h.table i v + 1 := by
  obtain ⟨h, h1, h2, h3⟩ := C46_table envi envw wd hwd rngi rngw qi qw hqi hqw cycle rounding hr ht li lw hli hlw hpi hpw
  refine ⟨h, h1, fun i v hi => ?_⟩
  have hp : Verif.Spec.IsPermSeq (wd - 1) (if Spec.TemporalName rngw then li else lw) := by split_ifs <;> assumption
  have hi' : i < 2 ^ (wd - 1) := by rw [h2] at hi; exact lt_of_lt_of_le hi (min_le_right _ _)
  obtain ⟨a, b, c, d, e⟩ := C46_shape hp i v hi'
  have h0 : 0 < h.cycle := by omega
  rw [h3 0 v h0, h3 i 0 hi, h3 i v hi, h3 i (v + 1) hi]
  refine ⟨by exact_mod_cast a, by exact_mod_cast b, by exact_mod_cast c, fun hi1 => ?_, by exact_mod_cast e⟩
  rw [h3 (i + 1) v hi1]
  exact_mod_cast d

/-- C50: the layer of fixed point operands multiplies operands of the same sign and of no larger magnitude; the temporal coded
one is the truncated one less at most `(2^t - c) (2^(tD) - 1) / (2^t - 1)` units, and nothing less with all cycles. -/
theorem C50_layer_operands {I O : ℕ} (cfg : Tlut) (hfi : cfg.formati = .fxp) (hfw : cfg.formatw = .fxp) (ht : 1 ≤ cfg.t)
    (c : ℕ) (hc : 1 ≤ c) (hcyc : c = (match cfg.cycle with | none => 2 ^ cfg.t | some k => min k (2 ^ cfg.t)))
    (w : Fin O → Fin I → ℚ) (bias : Option (Fin O → ℚ)) (x : List (Fin I → ℚ)) (rsi rsw rso : ℤ)
    (hs : rshift x w ((cfg.widthi : ℤ) - 1) ((cfg.widthw : ℤ) - 1) cfg.rounding cfg.quantilei cfg.quantilew = .ok (rsi, rsw, rso)) :
    ∃ qx qw : ℚ → ℚ,
      cfg.forward w bias x = .ok (x.map fun row o => ∑ i, qx (row i) * qw (w o i) + (bias.map fun b => b o).getD 0) ∧
      (∀ a, 0 ≤ qx a * a ∧ |qx a| ≤ |a|) ∧ (∀ a, 0 ≤ qw a * a ∧ |qw a| ≤ |a|) ∧
      ∀ a, ∃ y0, Spec.Truncated (2 ^ ((if cfg.temporalI then cfg.widthi else cfg.widthw) - 1) - 1)
          ((2:ℚ) ^ (if cfg.temporalI then rsi else rsw)) a y0 ∧
        |y0 - (if cfg.temporalI then qx else qw) a| * (2 ^ cfg.t - 1) ≤
          (2 ^ cfg.t - c) * (2 ^ (cfg.t * Spec.digits ((if cfg.temporalI then cfg.widthi else cfg.widthw) - 1) cfg.t) - 1)
            * (2:ℚ) ^ (if cfg.temporalI then rsi else rsw) ∧
        (c = 2 ^ cfg.t → (if cfg.temporalI then qx else qw) a = y0) := by
  obtain ⟨qx, qw, h1, h2, h3⟩ := C50_fxpfxp cfg hfi hfw ht c hc hcyc w bias x rsi rsw rso hs
  have hct : c ≤ 2 ^ cfg.t := by
    rw [hcyc]
    split
    · exact le_refl _
    · exact min_le_right _ _
  have hu : ∀ k : ℤ, (0:ℚ) < 2 ^ k := fun k => zpow_pos (by norm_num) k
  have tr : ∀ (m : ℤ) (u a b : ℚ), Spec.Truncated m u a b → 0 ≤ b * a ∧ |b| ≤ |a| := by
    rintro m u a b ⟨k, -, -, p, q, -⟩; exact ⟨p, q⟩
  refine ⟨qx, qw, h1, fun a => ?_, fun a => ?_, fun a => ?_⟩
  · have := h2 a
    split_ifs at this
    · have := C50_operand _ _ _ ht hc hct _ _ _ (hu _) this; exact ⟨this.1, this.2.1⟩
    · exact tr _ _ _ _ this
  · have := h3 a
    split_ifs at this
    · exact tr _ _ _ _ this
    · have := C50_operand _ _ _ ht hc hct _ _ _ (hu _) this; exact ⟨this.1, this.2.1⟩
  · have e2 := h2 a
    have e3 := h3 a
    cases hT : cfg.temporalI
    · simp only [hT, Bool.false_eq_true, if_false] at e3 ⊢
      exact (C50_operand _ _ _ ht hc hct _ _ _ (hu _) e3).2.2
    · simp only [hT, if_true] at e2 ⊢
      exact (C50_operand _ _ _ ht hc hct _ _ _ (hu _) e2).2.2

/-- C58: the shift of the input that `rshift_offset` returns puts the largest magnitude `M` at most at `2^width` (`ceil`), below
`√2 · 2^width` (`round`) or below `2 · 2^width` (`floor`); and the shifts are the only result. -/
theorem C58_shift_covers {I J O : ℕ} (x : List (Fin I → ℚ)) (w : Fin O → Fin J → ℚ) (wi ww : ℤ) (r : String)
    (hr : r ∈ ["round", "ceil", "floor"]) (M N : ℚ) (hM : 0 < M) (hN : 0 < N)
    (hx : Spec.MaxAbs M (x.flatMap List.ofFn)) (hw : Spec.MaxAbs N ((List.ofFn w).flatMap List.ofFn)) :
    ∃ a b c, rshift x w wi ww r 1 1 = .ok (a, b, c) ∧ c = max wi ww - (a + wi) - (b + ww) ∧
      (r = "ceil" → M ≤ (2:ℚ) ^ (a + wi) ∧ N ≤ (2:ℚ) ^ (b + ww)) ∧
      (r = "round" → M ^ 2 < 2 * ((2:ℚ) ^ (a + wi)) ^ 2 ∧ N ^ 2 < 2 * ((2:ℚ) ^ (b + ww)) ^ 2) ∧
      M < 2 * (2:ℚ) ^ (a + wi) ∧ N < 2 * (2:ℚ) ^ (b + ww) := by
  obtain ⟨im, wm, h1, h2, h3⟩ := C58_full x w wi ww r hr M N hM hN hx hw
  obtain ⟨a1, a2, a3⟩ := C58_overshoot r im M hM.le h1
  obtain ⟨b1, b2, b3⟩ := C58_overshoot r wm N hN.le h2
  refine ⟨_, _, _, h3, by ring, ?_⟩
  rw [sub_add_cancel, sub_add_cancel]
  exact ⟨fun h => ⟨a1 h, b1 h⟩, fun h => ⟨a2 h, b2 h⟩, a3, b3⟩

/-- C78: both extremes of the approximate counter show at its output: eight ones at rest give seven per period, one one in each
of the first three pairs gives six instead of three. -/
theorem C78_apc_extremes (x : ℕ → BitVec 8) (r : ℕ → BitVec 3) (hr : ∀ t, (r t).toNat = Spec.hwSobol 3 t) (p : ℕ) :
    ((∀ j < 8, x (p * 8 + 7 + j) = 0xff#8) →
      ∑ j ∈ range 8, Spec.num (outAt Rtl.apcAddStep 0 (fun t => (x t, r t)) ((p + 1) * 8 + j)) = 7) ∧
    ((∀ j < 8, x (p * 8 + 7 + j) = 0x15#8) →
      ∑ j ∈ range 8, Spec.num (outAt Rtl.apcAddStep 0 (fun t => (x t, r t)) ((p + 1) * 8 + j)) = 6) :=
  ⟨fun h => (C78_apc_period x r hr _ p h).trans (by decide +kernel),
    fun h => (C78_apc_period x r hr _ p h).trans (by decide +kernel)⟩

/-- C80: in every aligned block of `b^m` consecutive cycles the output of `HaltonSeq3`/`HaltonSeq5` is exactly once in each of the
`b^m` equal intervals of the range. -/
theorem C80_halton_stratified {b L k sw m : ℕ} (hb : 2 ≤ b) (hL : b ≤ 2 ^ L) (hsw : b ^ k ≤ 2 ^ sw) (hm : m ≤ k) (q c : ℕ)
    (hc : c < b ^ m) :
    ∃! t, q * b ^ m ≤ t ∧ t < (q + 1) * b ^ m ∧
      c * b ^ (k - m) ≤ (outAt (Rtl.haltonStep b (L := L) k sw) (fun _ => 0, 0) (fun _ => ()) (t + 1)).toNat ∧
      (outAt (Rtl.haltonStep b (L := L) k sw) (fun _ => 0, 0) (fun _ => ()) (t + 1)).toNat < (c + 1) * b ^ (k - m) := by
  simp only [C80_halton hb hL hsw]
  exact C80_stratified hb hm q c hc

/-- C80: likewise `HaltonSeq2`. -/
theorem C80_halton2_stratified {k m : ℕ} (hm : m ≤ k) (q c : ℕ) (hc : c < 2 ^ m) :
    ∃! t, q * 2 ^ m ≤ t ∧ t < (q + 1) * 2 ^ m ∧
      c * 2 ^ (k - m) ≤ (outAt (Rtl.halton2Step k) (fun _ => 0) (fun _ => ()) t).toNat ∧
      (outAt (Rtl.halton2Step k) (fun _ => 0) (fun _ => ()) t).toNat < (c + 1) * 2 ^ (k - m) := by
  simp only [C80_halton2]
  exact C80_stratified (le_refl 2) hm q c hc

/-- C88: with an inexact logarithm (error below one half) each returned shift differs by at most one from the one of exact
arithmetic, and by none unless the logarithm of the largest magnitude is within the error of a boundary. -/
theorem C88_shift_agree {I J O : ℕ} (lg : ℚ → ℚ) (δ : ℝ) (hδ : δ < 1 / 2) (x : List (Fin I → ℚ)) (w : Fin O → Fin J → ℚ)
    (wi ww : ℤ) (r : String) (hr : r ∈ ["round", "ceil", "floor"]) (M N : ℚ) (hM : 0 < M) (hN : 0 < N)
    (hx : Spec.MaxAbs M (x.flatMap List.ofFn)) (hw : Spec.MaxAbs N ((List.ofFn w).flatMap List.ofFn))
    (hlM : |((lg M : ℚ) : ℝ) - Real.logb 2 M| ≤ δ) (hlN : |((lg N : ℚ) : ℝ) - Real.logb 2 N| ≤ δ) :
    ∃ a b c a' b' c', Float.rshiftF lg x w wi ww r 1 1 = .ok (a, b, c) ∧ rshift x w wi ww r 1 1 = .ok (a', b', c') ∧
      |a - a'| ≤ 1 ∧ |b - b'| ≤ 1 ∧
      (a ≠ a' → ∃ j : ℤ, |Real.logb 2 M - (j + if r = "round" then 1 / 2 else 0)| ≤ δ) ∧
      (b ≠ b' → ∃ j : ℤ, |Real.logb 2 N - (j + if r = "round" then 1 / 2 else 0)| ≤ δ) := by
  obtain ⟨im, wm, h1, h2, h3⟩ := C88_shifts lg δ x w wi ww r hr M N hM hN hx hw hlM hlN
  obtain ⟨im', wm', g1, g2, g3⟩ := C58_full x w wi ww r hr M N hM hN hx hw
  obtain ⟨p1, p2⟩ := C88_agree δ hδ r M hM im im' h1 g1
  obtain ⟨q1, q2⟩ := C88_agree δ hδ r N hN wm wm' h2 g2
  refine ⟨_, _, _, _, _, _, h3, g3, ?_, ?_, fun h => p2 fun e => h (by rw [e]), fun h => q2 fun e => h (by rw [e])⟩
  · rwa [sub_sub_sub_cancel_right]
  · rwa [sub_sub_sub_cancel_right]

/-! Non-vacuity. -/

example : (PE.init 1 2 "bipolar").toBool = true ∧ observed [PEOp.mon 1, PEOp.fwd, PEOp.mon 0] = [1, 0] := by
  decide +kernel
example : (2:ℕ) ≤ 3 ∧ 3 ≤ 2 ^ 2 ∧ 3 ^ 4 ≤ 2 ^ 7 ∧ 1 ≤ 4 ∧ 2 < 3 ^ 1 := by decide
example : Spec.MaxAbs 3 ([(fun _ : Fin 1 => (-3:ℚ)), fun _ => 2].flatMap List.ofFn) := by
  norm_num [Spec.MaxAbs]

end Verif.Props
