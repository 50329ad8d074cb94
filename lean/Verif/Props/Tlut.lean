import Verif.Spec
import Verif.Model.Linear
import Verif.Props.Hub
import Mathlib.Algebra.BigOperators.Field

/-!
# Properties C49–C51: temporal look-up table layers and gradients
-/

namespace Verif.Props

open Verif Finset Linear

/-! ## Specification -/

/-- `y` is `x` truncated towards zero to a multiple of `u` with at most `m` units. -/
def Spec.Truncated (m : ℤ) (u x y : ℚ) : Prop :=
  ∃ k : ℤ, |k| ≤ m ∧ y = k * u ∧ 0 ≤ y * x ∧ |y| ≤ |x| ∧ (|k| = m ∨ |x| < (|k| + 1 : ℤ) * u)

/-- The `k`-th digit of `m` in base `2^t`. -/
def Spec.digit (t m k : ℕ) : ℕ := m / 2 ^ (t * k) % 2 ^ t

/-- `m` with its `D` lowest base-`2^t` digits limited to `c - 1` and the others dropped. -/
def Spec.limited (t c D m : ℕ) : ℕ := ∑ k ∈ range D, min (Spec.digit t m k) (c - 1) * 2 ^ (t * k)

/-! ## Facts about digits -/

private theorem digit_succ (t m k : ℕ) : Spec.digit t m (k + 1) = Spec.digit t (m / 2 ^ t) k := by
  unfold Spec.digit
  rw [Nat.div_div_eq_div_mul, ← pow_add, mul_add, mul_one, add_comm]

private theorem digits_sum (t : ℕ) : ∀ (D m : ℕ), m < 2 ^ (t * D) →
    ∑ k ∈ range D, Spec.digit t m k * 2 ^ (t * k) = m := by
  intro D
  induction D with
  | zero => intro m hm; simp at hm; simp [hm]
  | succ D ih =>
    intro m hm
    rw [sum_range_succ']
    have h1 : ∀ k ∈ range D, Spec.digit t m (k + 1) * 2 ^ (t * (k + 1)) =
        2 ^ t * (Spec.digit t (m / 2 ^ t) k * 2 ^ (t * k)) := by
      intro k _
      rw [digit_succ, mul_add, mul_one, pow_add]; ring
    rw [sum_congr rfl h1, ← mul_sum, ih]
    · unfold Spec.digit
      simp only [mul_zero, pow_zero, Nat.div_one, mul_one]
      exact Nat.div_add_mod m (2 ^ t)
    · rw [Nat.div_lt_iff_lt_mul (by positivity), ← pow_add]
      rwa [mul_add, mul_one] at hm

/-! ## The digit loop -/

private theorem truncZ_signed (s : ℚ) (hs : s = 1 ∨ s = -1) (z : ℚ) (hz : 0 ≤ z) : (truncZ (s * z) : ℚ) = s * ⌊z⌋ := by
  rcases hs with rfl | rfl
  · unfold truncZ
    rw [one_mul, if_pos hz, one_mul]
  · unfold truncZ
    split_ifs with h
    · have : z = 0 := by linarith
      rw [this]; simp
    · rw [show -1 * z = -z by ring, Int.ceil_neg]; push_cast; ring

private theorem clamp_signed (s : ℚ) (hs : s = 1 ∨ s = -1) (m z : ℚ) (hz : 0 ≤ z) (hm : 0 ≤ m) :
    clamp (-m) m (s * z) = s * min z m := by
  unfold clamp
  rcases hs with rfl | rfl
  · rw [one_mul, one_mul, max_eq_left (by linarith)]
  · rw [show -1 * z = -z by ring, neg_one_mul]
    rcases le_total z m with h | h
    · rw [min_eq_left h, max_eq_left (by linarith), min_eq_left (by linarith)]
    · rw [min_eq_right h, max_eq_right (by linarith), min_eq_left (by linarith)]

private theorem floor_natdiv (m n : ℕ) : ⌊(m : ℚ) / (n : ℚ)⌋ = ((m / n : ℕ) : ℤ) := by
  rw [Rat.floor_natCast_div_natCast]; rfl

private theorem loop_nat (t c : ℕ) (hc : 1 ≤ c) (s : ℚ) (hs : s = 1 ∨ s = -1) : ∀ (n m : ℕ) (p : ℚ),
    (tlutLoop t c n (s * m, p)).2 = (s * (Spec.limited t c n m : ℚ) + p) / 2 ^ (t * n) := by
  intro n
  induction n with
  | zero => intro m p; simp [tlutLoop, Spec.limited]
  | succ n ih =>
    intro m p
    have hP : (0:ℚ) < 2 ^ t := by positivity
    have e0 : s * (m:ℚ) / 2 ^ t = s * ((m:ℚ) / 2 ^ t) := by ring
    have e1 : (truncZ (s * (m:ℚ) / 2 ^ t) : ℚ) = s * ((m / 2 ^ t : ℕ) : ℚ) := by
      rw [e0, truncZ_signed s hs _ (by positivity)]
      have := floor_natdiv m (2 ^ t)
      push_cast at this
      rw [this]; rfl
    have e2 : frac (s * (m:ℚ) / 2 ^ t) * 2 ^ t = s * ((m % 2 ^ t : ℕ) : ℚ) := by
      unfold frac
      rw [e1]
      have h : ((2 ^ t * (m / 2 ^ t) + m % 2 ^ t : ℕ) : ℚ) = m := by rw [Nat.div_add_mod]
      rw [sub_mul, e0, show s * ((m:ℚ) / 2 ^ t) * 2 ^ t = s * m by field_simp]
      push_cast at h ⊢
      rw [← h]; ring
    have e3 : clamp (-(c : ℚ) + 1) ((c : ℚ) - 1) (frac (s * (m:ℚ) / 2 ^ t) * 2 ^ t) =
        s * ((min (m % 2 ^ t) (c - 1) : ℕ) : ℚ) := by
      have hc' : (1:ℚ) ≤ c := by exact_mod_cast hc
      rw [e2, show -(c:ℚ) + 1 = -((c:ℚ) - 1) by ring, clamp_signed s hs _ _ (by positivity) (by linarith)]
      push_cast [hc]; rfl
    show (tlutLoop t c n ((truncZ (s * (m:ℚ) / 2 ^ t) : ℚ),
      clamp (-(c : ℚ) + 1) ((c : ℚ) - 1) (frac (s * (m:ℚ) / 2 ^ t) * 2 ^ t) / 2 ^ t + p / 2 ^ t)).2 = _
    rw [e1, e3, ih]
    have e4 : Spec.limited t c (n + 1) m = 2 ^ t * Spec.limited t c n (m / 2 ^ t) + min (m % 2 ^ t) (c - 1) := by
      unfold Spec.limited
      rw [sum_range_succ', mul_sum]
      congr 1
      · apply sum_congr rfl
        intro k _
        rw [digit_succ, mul_add, mul_one, pow_add]; ring
      · unfold Spec.digit; simp
    rw [e4, mul_add, mul_one, pow_add]
    push_cast
    field_simp
    ring

private theorem loop_int (t c : ℕ) (hc : 1 ≤ c) (n : ℕ) (v : ℤ) :
    (tlutLoop t c n (v, 0)).2 = (if v < 0 then -1 else 1) * (Spec.limited t c n v.natAbs : ℚ) / 2 ^ (t * n) := by
  have hv : (v : ℚ) = (if v < 0 then -1 else 1 : ℚ) * (v.natAbs : ℚ) := by
    have : v = (if v < 0 then -1 else 1) * (v.natAbs : ℤ) := by split_ifs <;> omega
    have := congrArg (fun z : ℤ => (z:ℚ)) this
    simpa using this
  conv_lhs => rw [hv]
  rw [loop_nat t c hc _ (by split_ifs <;> simp), add_zero]

/-! ## C49 -/

/-- C49: the number of digits covers the width and leaves less than one digit unused. -/
theorem C49_degree (width t : ℕ) (ht : 1 ≤ t) :
    (tlutDegree width t * t : ℤ) = width + tlutDelta width t ∧ 0 ≤ tlutDelta width t ∧ tlutDelta width t < t := by
  have htq : (0:ℚ) < t := by exact_mod_cast ht
  have h0 : 0 ≤ ⌈(width : ℚ) / t⌉ := Int.ceil_nonneg (by positivity)
  have h1 : (tlutDegree width t : ℤ) = ⌈(width : ℚ) / t⌉ := Int.toNat_of_nonneg h0
  have h2 := Int.le_ceil ((width : ℚ) / t)
  have h3 := Int.ceil_lt_add_one ((width : ℚ) / t)
  rw [← h1] at h2 h3
  rw [div_le_iff₀ htq] at h2
  have h4 : (((tlutDegree width t : ℤ) : ℚ) - 1) * t < width := by
    rw [← lt_div_iff₀ htq]; linarith
  have h5 : (width : ℤ) ≤ tlutDegree width t * t := by exact_mod_cast h2
  have h6 : ((tlutDegree width t : ℤ) - 1) * t < width := by exact_mod_cast h4
  unfold tlutDelta
  refine ⟨by ring, by linarith, by nlinarith⟩

/-- Number of digits of `t` bits that cover `width` bits. -/
def Spec.digits (width t : ℕ) : ℕ := (width + t - 1) / t

/-- C49: the number of digits is the width over the digit size, rounded up. -/
theorem C49_digits (width t : ℕ) (ht : 1 ≤ t) : tlutDegree width t = Spec.digits width t := by
  obtain ⟨h1, h2, h3⟩ := C49_degree width t ht
  unfold Spec.digits
  generalize tlutDegree width t = D at *
  generalize tlutDelta width t = d at *
  lift d to ℕ using h2
  have h1' : D * t = width + d := by exact_mod_cast h1
  have h3' : d < t := by exact_mod_cast h3
  symm
  rw [Nat.div_eq_iff (by omega)]
  constructor
  · omega
  · omega

theorem quant_trunc (width : ℕ) (rs : ℤ) (x : ℚ) :
    Spec.Truncated (2 ^ width - 1) ((2:ℚ) ^ rs) x ((tlutQuant width rs x : ℚ) * (2:ℚ) ^ rs) ∧
      |tlutQuant width rs x| ≤ 2 ^ width - 1 := by
  have hu : (0:ℚ) < (2:ℚ) ^ rs := zpow_pos (by norm_num) rs
  have hm : (0:ℚ) ≤ 2 ^ width - 1 := by
    have : (1:ℚ) ≤ 2 ^ width := one_le_pow₀ (by norm_num)
    linarith
  have hmz : (0:ℤ) ≤ 2 ^ width - 1 := by exact_mod_cast hm
  obtain ⟨s, hs, z, hz, hx⟩ : ∃ s : ℚ, (s = 1 ∨ s = -1) ∧ ∃ z : ℚ, 0 ≤ z ∧ x / (2:ℚ) ^ rs = s * z := by
    rcases le_total 0 x with h | h
    · exact ⟨1, Or.inl rfl, x / (2:ℚ) ^ rs, div_nonneg h hu.le, by ring⟩
    · exact ⟨-1, Or.inr rfl, -(x / (2:ℚ) ^ rs), by rw [neg_nonneg]; exact div_nonpos_of_nonpos_of_nonneg h hu.le, by ring⟩
  have hx' : x = s * z * (2:ℚ) ^ rs := by rw [← hx]; field_simp
  have hss : s * s = 1 := by rcases hs with rfl | rfl <;> norm_num
  have hsa : |s| = 1 := by rcases hs with rfl | rfl <;> norm_num
  have hk : (tlutQuant width rs x : ℚ) = s * ⌊min z (2 ^ width - 1)⌋ := by
    unfold tlutQuant
    rw [hx, show -(2:ℚ) ^ width + 1 = -((2:ℚ) ^ width - 1) by ring, clamp_signed s hs _ _ hz hm,
      truncZ_signed s hs _ (le_min hz hm)]
  set f := ⌊min z ((2:ℚ) ^ width - 1)⌋ with hf
  have hf0 : 0 ≤ f := Int.floor_nonneg.2 (le_min hz hm)
  have hfq : (0:ℚ) ≤ f := by exact_mod_cast hf0
  have hfle : (f:ℚ) ≤ min z (2 ^ width - 1) := Int.floor_le _
  have hfz : (f:ℚ) ≤ z := le_trans hfle (min_le_left _ _)
  have hfm : f ≤ 2 ^ width - 1 := by
    have := le_trans hfle (min_le_right _ _); exact_mod_cast this
  have habs : |tlutQuant width rs x| = f := by
    have : ((|tlutQuant width rs x| : ℤ) : ℚ) = f := by
      rw [Int.cast_abs, hk, abs_mul, hsa, one_mul, abs_of_nonneg hfq]
    exact_mod_cast this
  refine ⟨⟨tlutQuant width rs x, by rw [habs]; exact hfm, rfl, ?_, ?_, ?_⟩, by rw [habs]; exact hfm⟩
  · rw [hk, hx', show s * (f:ℚ) * (2:ℚ) ^ rs * (s * z * (2:ℚ) ^ rs) = (s * s) * (f * z * ((2:ℚ) ^ rs * (2:ℚ) ^ rs)) by ring, hss]
    positivity
  · rw [hk, hx', abs_mul, abs_mul, abs_mul, abs_mul, hsa, abs_of_nonneg hfq, abs_of_nonneg hz, abs_of_pos hu]
    nlinarith
  · rw [habs]
    rcases le_total z (2 ^ width - 1) with h | h
    · right
      rw [hx', abs_mul, abs_mul, hsa, one_mul, abs_of_nonneg hz, abs_of_pos hu]
      have : z < f + 1 := by
        have := Int.lt_floor_add_one (min z ((2:ℚ) ^ width - 1))
        rw [← hf, min_eq_left h] at this; exact this
      push_cast
      exact mul_lt_mul_of_pos_right this hu
    · left
      rw [hf, min_eq_right h]
      have : ((2:ℚ) ^ width - 1) = ((2 ^ width - 1 : ℤ) : ℚ) := by push_cast; rfl
      rw [this, Int.floor_intCast]

/-- `y` is `x` truncated to a multiple `k u`, whose magnitude then has its digits limited by the cycle count. -/
def Spec.Temporal (t c D : ℕ) (m : ℤ) (u x y : ℚ) : Prop :=
  ∃ k : ℤ, Spec.Truncated m u x (k * u) ∧ |k| ≤ m ∧
    y = (if k < 0 then -1 else 1) * (Spec.limited t c D k.natAbs : ℚ) * u

theorem tlutFxp_temporal (width t c : ℕ) (ht : 1 ≤ t) (hc : 1 ≤ c) (rs : ℤ) (x : ℚ) :
    Spec.Temporal t c (tlutDegree width t) (2 ^ width - 1) ((2:ℚ) ^ rs) x (tlutFxp width t c rs x) := by
  obtain ⟨h1, h2⟩ := quant_trunc width rs x
  refine ⟨tlutQuant width rs x, h1, h2, ?_⟩
  unfold tlutFxp
  rw [loop_int t c hc]
  have e := (C49_degree width t ht).1
  have e2 : tlutDelta width t + width + rs = ((t * tlutDegree width t : ℕ) : ℤ) + rs := by push_cast; linarith
  rw [e2, zpow_add₀ (by norm_num), zpow_natCast]
  field_simp

/-- C50 and C49: the fixed-point layer is the exact linear layer on truncated operands, the temporal coded one of
which has its digits limited by the cycle count. -/
theorem C50_fxpfxp {I O : ℕ} (cfg : Tlut) (hfi : cfg.formati = .fxp) (hfw : cfg.formatw = .fxp) (ht : 1 ≤ cfg.t)
    (c : ℕ) (hc : 1 ≤ c) (hcyc : c = (match cfg.cycle with | none => 2 ^ cfg.t | some k => min k (2 ^ cfg.t)))
    (w : Fin O → Fin I → ℚ) (bias : Option (Fin O → ℚ)) (x : List (Fin I → ℚ)) (rsi rsw rso : ℤ)
    (hs : rshift x w ((cfg.widthi : ℤ) - 1) ((cfg.widthw : ℤ) - 1) cfg.rounding cfg.quantilei cfg.quantilew = .ok (rsi, rsw, rso)) :
    ∃ qx qw : ℚ → ℚ,
      cfg.forward w bias x = .ok (x.map fun row o => ∑ i, qx (row i) * qw (w o i) + (bias.map fun b => b o).getD 0) ∧
      (∀ a, if cfg.temporalI then Spec.Temporal cfg.t c (Spec.digits (cfg.widthi - 1) cfg.t) (2 ^ (cfg.widthi - 1) - 1) ((2:ℚ) ^ rsi) a (qx a)
        else Spec.Truncated (2 ^ (cfg.widthi - 1) - 1) ((2:ℚ) ^ rsi) a (qx a)) ∧
      (∀ a, if cfg.temporalI then Spec.Truncated (2 ^ (cfg.widthw - 1) - 1) ((2:ℚ) ^ rsw) a (qw a)
        else Spec.Temporal cfg.t c (Spec.digits (cfg.widthw - 1) cfg.t) (2 ^ (cfg.widthw - 1) - 1) ((2:ℚ) ^ rsw) a (qw a)) := by
  simp only [← C49_digits _ _ ht]
  have hcy : tlutCycle cfg.t cfg.cycle = c := hcyc.symm
  cases hT : cfg.temporalI
  · refine ⟨tlutPlain (cfg.widthi - 1) rsi, tlutFxp (cfg.widthw - 1) cfg.t c rsw, ?_, fun a => ?_, fun a => ?_⟩
    · unfold Tlut.forward Tlut.operands
      simp only [hfi, hfw, hT, hs, hcy, and_self, if_true]; rfl
    · rw [if_neg (by simp)]; exact (quant_trunc _ _ _).1
    · rw [if_neg (by simp)]; exact tlutFxp_temporal _ _ _ ht hc _ _
  · refine ⟨tlutFxp (cfg.widthi - 1) cfg.t c rsi, tlutPlain (cfg.widthw - 1) rsw, ?_, fun a => ?_, fun a => ?_⟩
    · unfold Tlut.forward Tlut.operands
      simp only [hfi, hfw, hT, hs, hcy, and_self, if_true]; rfl
    · rw [if_pos rfl]; exact tlutFxp_temporal _ _ _ ht hc _ _
    · rw [if_pos rfl]; exact (quant_trunc _ _ _).1

/-- C50: digit limiting never increases a magnitude, loses at most `(2^t - c) (2^(tD) - 1) / (2^t - 1)` units, and
loses nothing exactly when every digit is below the cycle count. -/
theorem C50_limited (t c D m : ℕ) (hc : 1 ≤ c) (hct : c ≤ 2 ^ t) (hm : m < 2 ^ (t * D)) :
    Spec.limited t c D m ≤ m ∧
    (m - Spec.limited t c D m) * (2 ^ t - 1) ≤ (2 ^ t - c) * (2 ^ (t * D) - 1) ∧
    (Spec.limited t c D m = m ↔ ∀ k < D, Spec.digit t m k < c) := by
  have hsum := digits_sum t D m hm
  have hterm : ∀ k ∈ range D, min (Spec.digit t m k) (c - 1) * 2 ^ (t * k) ≤ Spec.digit t m k * 2 ^ (t * k) :=
    fun k _ => Nat.mul_le_mul_right _ (min_le_left _ _)
  have hle : Spec.limited t c D m ≤ m := by
    conv_rhs => rw [← hsum]
    exact sum_le_sum hterm
  refine ⟨hle, ?_, ?_⟩
  · have h1 : m ≤ Spec.limited t c D m + (2 ^ t - c) * ∑ k ∈ range D, 2 ^ (t * k) := by
      conv_lhs => rw [← hsum]
      unfold Spec.limited
      rw [mul_sum, ← sum_add_distrib]
      apply sum_le_sum
      intro k _
      rw [← add_mul]
      apply Nat.mul_le_mul_right
      have : Spec.digit t m k < 2 ^ t := Nat.mod_lt _ (by positivity)
      omega
    have hg : (∑ k ∈ range D, 2 ^ (t * k)) * (2 ^ t - 1) = 2 ^ (t * D) - 1 := by
      clear hsum hterm hle h1 hm
      induction D with
      | zero => simp
      | succ D ih =>
        rw [sum_range_succ, add_mul, ih, mul_add, mul_one, pow_add, Nat.mul_sub_one]
        have a1 : 1 ≤ 2 ^ (t * D) := Nat.one_le_two_pow
        have a2 : 2 ^ (t * D) ≤ 2 ^ (t * D) * 2 ^ t := Nat.le_mul_of_pos_right _ (by positivity)
        omega
    have h2 : m - Spec.limited t c D m ≤ (2 ^ t - c) * ∑ k ∈ range D, 2 ^ (t * k) := by omega
    calc _ ≤ ((2 ^ t - c) * ∑ k ∈ range D, 2 ^ (t * k)) * (2 ^ t - 1) := Nat.mul_le_mul_right _ h2
      _ = _ := by rw [mul_assoc, hg]
  · constructor
    · intro h k hk
      by_contra hcon
      have : Spec.limited t c D m < m := by
        conv_rhs => rw [← hsum]
        refine sum_lt_sum hterm ⟨k, mem_range.2 hk, ?_⟩
        apply Nat.mul_lt_mul_of_pos_right _ (by positivity)
        omega
      omega
    · intro h
      conv_rhs => rw [← hsum]
      unfold Spec.limited
      apply sum_congr rfl
      intro k hk
      have := h k (mem_range.1 hk)
      rw [min_eq_left (by omega)]

/-- C50: consequences for the operand: sign kept, magnitude not increased, and the bound in units. -/
theorem C50_operand (width t c : ℕ) (ht : 1 ≤ t) (hc : 1 ≤ c) (hct : c ≤ 2 ^ t) (u x y : ℚ) (hu : 0 < u)
    (h : Spec.Temporal t c (Spec.digits width t) (2 ^ width - 1) u x y) :
    0 ≤ y * x ∧ |y| ≤ |x| ∧
    ∃ y0, Spec.Truncated (2 ^ width - 1) u x y0 ∧
      |y0 - y| * (2 ^ t - 1) ≤ (2 ^ t - c) * (2 ^ (t * Spec.digits width t) - 1) * u ∧ (c = 2 ^ t → y = y0) := by
  rw [← C49_digits _ _ ht] at h ⊢
  obtain ⟨k, h1, h2, rfl⟩ := h
  have hw : k.natAbs < 2 ^ (t * tlutDegree width t) := by
    have e := C49_degree width t ht
    have : width ≤ t * tlutDegree width t := by
      have : (width : ℤ) ≤ t * tlutDegree width t := by linarith [e.1, e.2.1]
      exact_mod_cast this
    have h3 : (2:ℕ) ^ width ≤ 2 ^ (t * tlutDegree width t) := Nat.pow_le_pow_right (by norm_num) this
    have h4 : (k.natAbs : ℤ) < ((2 ^ width : ℕ) : ℤ) := by push_cast; omega
    have : k.natAbs < 2 ^ width := by exact_mod_cast h4
    omega
  obtain ⟨l1, l2, l3⟩ := C50_limited t c _ _ hc hct hw
  generalize hL : Spec.limited t c (tlutDegree width t) k.natAbs = L at l1 l2 l3 ⊢
  obtain ⟨k', -, ek, hsgn, habs, -⟩ := id h1
  have hkk : (k:ℚ) = (if k < 0 then -1 else 1) * (k.natAbs : ℚ) := by
    have : (k:ℤ) = (if k < 0 then -1 else 1) * (k.natAbs : ℤ) := by split_ifs <;> omega
    have := congrArg (fun z : ℤ => (z:ℚ)) this
    simpa using this
  generalize hs : (if k < 0 then -1 else 1 : ℚ) = s at hkk ⊢
  have hsv : s = 1 ∨ s = -1 := by rw [← hs]; split_ifs <;> simp
  have hss : |s| = 1 := by rcases hsv with rfl | rfl <;> norm_num
  have hLq : (L:ℚ) ≤ k.natAbs := by exact_mod_cast l1
  have hL0 : (0:ℚ) ≤ L := by positivity
  have hle : |s * (L:ℚ) * u| ≤ |(k:ℚ) * u| := by
    rw [hkk, abs_mul, abs_mul, abs_mul, abs_mul, hss, abs_of_pos hu, abs_of_nonneg hL0, abs_of_nonneg (by positivity : (0:ℚ) ≤ (k.natAbs:ℚ))]
    nlinarith
  refine ⟨?_, le_trans hle habs, k * u, h1, ?_, ?_⟩
  · rw [hkk] at hsgn
    have e1 : s * (L:ℚ) * u * x = (L * u) * (s * x) := by ring
    have e2 : s * (k.natAbs:ℚ) * u * x = (k.natAbs * u) * (s * x) := by ring
    rw [e2] at hsgn
    rw [e1]
    rcases Nat.eq_zero_or_pos L with h0 | h0
    · rw [h0]; simp
    · have hpos : (0:ℚ) < (k.natAbs:ℚ) * u := by
        have : (0:ℚ) < k.natAbs := by exact_mod_cast (by omega : 0 < k.natAbs)
        positivity
      have : 0 ≤ s * x := nonneg_of_mul_nonneg_right hsgn hpos
      positivity
  · rw [hkk, ← sub_mul, ← mul_sub, abs_mul, abs_mul, hss, abs_of_pos hu, abs_of_nonneg (by linarith)]
    have l2' : ((k.natAbs - L : ℕ) : ℚ) * ((2 ^ t - 1 : ℕ) : ℚ) ≤ ((2 ^ t - c : ℕ) : ℚ) * ((2 ^ (t * tlutDegree width t) - 1 : ℕ) : ℚ) := by
      exact_mod_cast l2
    rw [Nat.cast_sub l1, Nat.cast_sub Nat.one_le_two_pow, Nat.cast_sub hct, Nat.cast_sub Nat.one_le_two_pow] at l2'
    push_cast at l2'
    nlinarith
  · intro hcc
    have : L = k.natAbs := l3.2 fun j _ => by
      rw [hcc]; exact Nat.mod_lt _ (by positivity)
    rw [hkk, this]

/-- C49: without early termination the fixed-point layer is exactly the linear layer on truncated operands. -/
theorem C49_lossless {I O : ℕ} (cfg : Tlut) (hfi : cfg.formati = .fxp) (hfw : cfg.formatw = .fxp) (ht : 1 ≤ cfg.t)
    (hcyc : ∀ k, cfg.cycle = some k → 2 ^ cfg.t ≤ k)
    (w : Fin O → Fin I → ℚ) (bias : Option (Fin O → ℚ)) (x : List (Fin I → ℚ)) (rsi rsw rso : ℤ)
    (hs : rshift x w ((cfg.widthi : ℤ) - 1) ((cfg.widthw : ℤ) - 1) cfg.rounding cfg.quantilei cfg.quantilew = .ok (rsi, rsw, rso)) :
    ∃ qx qw : ℚ → ℚ,
      cfg.forward w bias x = .ok (x.map fun row o => ∑ i, qx (row i) * qw (w o i) + (bias.map fun b => b o).getD 0) ∧
      (∀ a, Spec.Truncated (2 ^ (cfg.widthi - 1) - 1) ((2:ℚ) ^ rsi) a (qx a)) ∧
      (∀ a, Spec.Truncated (2 ^ (cfg.widthw - 1) - 1) ((2:ℚ) ^ rsw) a (qw a)) := by
  have hc : 2 ^ cfg.t = (match cfg.cycle with | none => 2 ^ cfg.t | some k => min k (2 ^ cfg.t)) := by
    cases h : cfg.cycle with
    | none => rfl
    | some k => have := hcyc k h; simp [this]
  obtain ⟨qx, qw, h1, h2, h3⟩ := C50_fxpfxp cfg hfi hfw ht (2 ^ cfg.t) Nat.one_le_two_pow hc w bias x rsi rsw rso hs
  have key : ∀ width u a b, 0 < u → Spec.Temporal cfg.t (2 ^ cfg.t) (Spec.digits width cfg.t) (2 ^ width - 1) u a b →
      Spec.Truncated (2 ^ width - 1) u a b := by
    intro width u a b hu h
    obtain ⟨-, -, y0, a1, -, a2⟩ := C50_operand width cfg.t (2 ^ cfg.t) ht Nat.one_le_two_pow (le_refl _) u a b hu h
    rw [a2 rfl]; exact a1
  refine ⟨qx, qw, h1, fun a => ?_, fun a => ?_⟩
  · have := h2 a
    split_ifs at this
    · exact key _ _ _ _ (zpow_pos (by norm_num) _) this
    · exact this
  · have := h3 a
    split_ifs at this
    · exact this
    · exact key _ _ _ _ (zpow_pos (by norm_num) _) this

/-- What truncation costs: at most one unit up to one unit above the range. -/
theorem Spec.Truncated.err {m : ℤ} {u x y : ℚ} (h : Spec.Truncated m u x y) (hu : 0 < u)
    (hx : |x| ≤ (m + 1) * u) : |y - x| ≤ u := by
  obtain ⟨k, hk, rfl, hs, ha, hb⟩ := h
  have h1 : |x| ≤ (|(k:ℚ)| + 1) * u := by
    rcases hb with h | h
    · have : (|(k:ℚ)|) = m := by exact_mod_cast h
      rw [this]; exact hx
    · push_cast at h; exact h.le
  have h2 : |(k:ℚ) * u| = |(k:ℚ)| * u := by rw [abs_mul, abs_of_pos hu]
  have h3 : |(k:ℚ) * u - x| = |x| - |(k:ℚ) * u| := by
    rcases le_total 0 x with h0 | h0
    · have hk0 : 0 ≤ (k:ℚ) * u := by
        by_contra hcon
        push Not at hcon
        have hx0 : x = 0 := by
          by_contra hne
          have : 0 < x := lt_of_le_of_ne h0 (Ne.symm hne)
          nlinarith
        rw [hx0, abs_zero] at ha
        have := abs_nonpos_iff.1 ha
        linarith
      rw [abs_of_nonneg hk0, abs_of_nonneg h0] at ha ⊢
      rw [abs_of_nonpos (by linarith)]; ring
    · have hk0 : (k:ℚ) * u ≤ 0 := by
        by_contra hcon
        push Not at hcon
        have hx0 : x = 0 := by
          by_contra hne
          have : x < 0 := lt_of_le_of_ne h0 hne
          nlinarith
        rw [hx0, abs_zero] at ha
        have := abs_nonpos_iff.1 ha
        linarith
      rw [abs_of_nonpos hk0, abs_of_nonpos h0] at ha ⊢
      rw [abs_of_nonneg (by linarith)]; ring
  rw [h3, h2]; linarith

/-- C49, end to end: with rounding `ceil`, quantiles one and no early termination, the fixed-point layer deviates from
the exact linear layer by at most the bilinear bound with one unit on each operand. -/
theorem C49_error {I O : ℕ} (cfg : Tlut) (hfi : cfg.formati = .fxp) (hfw : cfg.formatw = .fxp) (ht : 1 ≤ cfg.t)
    (hcyc : ∀ k, cfg.cycle = some k → 2 ^ cfg.t ≤ k) (hwi : 1 ≤ cfg.widthi) (hww : 1 ≤ cfg.widthw)
    (hr : cfg.rounding = "ceil") (hqi : cfg.quantilei = 1) (hqw : cfg.quantilew = 1)
    (w : Fin O → Fin I → ℚ) (bias : Option (Fin O → ℚ)) (x : List (Fin I → ℚ)) (M N : ℚ) (hM : 0 < M) (hN : 0 < N)
    (hx : Spec.MaxAbs M (x.flatMap List.ofFn)) (hw : Spec.MaxAbs N ((List.ofFn w).flatMap List.ofFn)) :
    ∃ im wm, Spec.PickedPow "ceil" im M ∧ Spec.PickedPow "ceil" wm N ∧
      ∃ out, cfg.forward w bias x = .ok out ∧ out.length = x.length ∧
      ∀ (n : ℕ) (row : Fin I → ℚ), x[n]? = some row → ∃ y, out[n]? = some y ∧ ∀ o (dx dw : ℚ),
        dx = (2:ℚ) ^ (im - ((cfg.widthi:ℤ) - 1)) → dw = (2:ℚ) ^ (wm - ((cfg.widthw:ℤ) - 1)) →
        |y o - (∑ i, row i * w o i + (bias.map fun b => b o).getD 0)| ≤ I * (M * dw + N * dx + dx * dw) := by
  obtain ⟨im, wm, p1, p2, hs⟩ := C58_full x w ((cfg.widthi:ℤ) - 1) ((cfg.widthw:ℤ) - 1) "ceil" (by simp) M N hM hN hx hw
  obtain ⟨qx, qw, f1, f3, f4⟩ := C49_lossless cfg hfi hfw ht hcyc w bias x _ _ _ (by rw [hr, hqi, hqw]; exact hs)
  refine ⟨im, wm, p1, p2, _, f1, by simp, fun n row hrow => ⟨_, by rw [List.getElem?_map, hrow]; rfl, fun o dx dw hdx hdw => ?_⟩⟩
  have er : ∀ i, |row i| ≤ M := fun i => hx.1 _ (by
    rw [List.mem_flatMap]; exact ⟨row, List.mem_of_getElem? hrow, by rw [List.mem_ofFn]; exact ⟨i, rfl⟩⟩)
  have ew : ∀ i, |w o i| ≤ N := fun i => hw.1 _ (by
    rw [List.mem_flatMap]; exact ⟨w o, by rw [List.mem_ofFn]; exact ⟨o, rfl⟩, by rw [List.mem_ofFn]; exact ⟨i, rfl⟩⟩)
  have fit : ∀ (wd : ℕ), 1 ≤ wd → ∀ (m : ℤ) (S a b : ℚ), 0 ≤ S → Spec.PickedPow "ceil" m S → |a| ≤ S →
      Spec.Truncated (2 ^ (wd - 1) - 1) ((2:ℚ) ^ (m - ((wd:ℤ) - 1))) a b → |b - a| ≤ (2:ℚ) ^ (m - ((wd:ℤ) - 1)) := by
    intro wd hwd m S a b hS hp ha ht
    refine Spec.Truncated.err ht (zpow_pos (by norm_num) _) ?_
    push_cast
    rw [sub_add_cancel, ← zpow_natCast, ← zpow_add₀ (by norm_num)]
    have : (((wd - 1 : ℕ) : ℤ) + (m - ((wd:ℤ) - 1))) = m := by omega
    rw [this]
    exact le_trans ha ((C58_overshoot "ceil" m S hS hp).1 rfl)
  show |(∑ i, qx (row i) * qw (w o i) + (bias.map fun b => b o).getD 0) - _| ≤ _
  rw [add_sub_add_right_eq_sub]
  refine dot_err row (w o) (fun i => qx (row i)) (fun i => qw (w o i)) M N dx dw er ew (fun i => ?_) (fun i => ?_)
  · rw [hdx]; exact fit _ hwi _ _ _ _ hM.le p1 (er i) (f3 _)
  · rw [hdw]; exact fit _ hww _ _ _ _ hN.le p2 (ew i) (f4 _)

/-! ## Floating-point operands -/

/-- `a` is representable with `width` significant bits. -/
def Spec.FitsBits (width : ℕ) (a : ℚ) : Prop := ∃ k e : ℤ, |k| < 2 ^ width ∧ a = k * (2:ℚ) ^ e

/-- First loop round on a rational. -/
private theorem loop_rat (t c : ℕ) (hc : 1 ≤ c) (s : ℚ) (hs : s = 1 ∨ s = -1) (n : ℕ) (z : ℚ) (hz : 0 ≤ z) (m : ℕ)
    (hm : ⌊z⌋ = (m : ℤ)) :
    (tlutLoop t c (n + 1) (s * z, 0)).2 =
      s * (2 ^ t * (Spec.limited t c n (m / 2 ^ t) : ℚ) + min (((m % 2 ^ t : ℕ) : ℚ) + (z - m)) (c - 1)) / 2 ^ (t * (n + 1)) := by
  have hP : (0:ℚ) < 2 ^ t := by positivity
  have e0 : s * z / 2 ^ t = s * (z / 2 ^ t) := by ring
  have hfl : ⌊z / 2 ^ t⌋ = ((m / 2 ^ t : ℕ) : ℤ) := by
    have : ⌊z / ((2 ^ t : ℕ) : ℚ)⌋ = ⌊z⌋ / ((2 ^ t : ℕ) : ℤ) := Int.floor_div_natCast z (2 ^ t)
    push_cast at this
    rw [this, hm]; push_cast; rfl
  have e1 : (truncZ (s * z / 2 ^ t) : ℚ) = s * ((m / 2 ^ t : ℕ) : ℚ) := by
    rw [e0, truncZ_signed s hs _ (by positivity), hfl]; rfl
  have hzm : (m:ℚ) ≤ z := by
    have := Int.floor_le z; rw [hm] at this; exact_mod_cast this
  have e2 : frac (s * z / 2 ^ t) * 2 ^ t = s * (((m % 2 ^ t : ℕ) : ℚ) + (z - m)) := by
    unfold frac
    rw [e1]
    have h : ((2 ^ t * (m / 2 ^ t) + m % 2 ^ t : ℕ) : ℚ) = m := by rw [Nat.div_add_mod]
    rw [sub_mul, e0, show s * (z / 2 ^ t) * 2 ^ t = s * z by field_simp]
    push_cast at h ⊢
    rw [← h]; ring
  have e3 : clamp (-(c : ℚ) + 1) ((c : ℚ) - 1) (frac (s * z / 2 ^ t) * 2 ^ t) =
      s * min (((m % 2 ^ t : ℕ) : ℚ) + (z - m)) (c - 1) := by
    have hc' : (1:ℚ) ≤ c := by exact_mod_cast hc
    have : (0:ℚ) ≤ ((m % 2 ^ t : ℕ) : ℚ) := by positivity
    rw [e2, show -(c:ℚ) + 1 = -((c:ℚ) - 1) by ring, clamp_signed s hs _ _ (by linarith) (by linarith)]
  show (tlutLoop t c n ((truncZ (s * z / 2 ^ t) : ℚ),
    clamp (-(c : ℚ) + 1) ((c : ℚ) - 1) (frac (s * z / 2 ^ t) * 2 ^ t) / 2 ^ t + 0 / 2 ^ t)).2 = _
  rw [e1, e3, loop_nat t c hc s hs, show t * (n + 1) = t * n + t by ring, pow_add]
  field_simp
  ring

theorem frexp_spec (a : ℚ) (ha : a ≠ 0) : ∃ e : ℤ, frexp a = (a / (2:ℚ) ^ e, e) ∧ (2:ℚ) ^ (e - 1) ≤ |a| ∧ |a| < (2:ℚ) ^ e := by
  refine ⟨Int.log 2 |a| + 1, by unfold frexp; rw [if_neg ha], ?_, ?_⟩
  · have := Int.zpow_log_le_self (b := 2) (R := ℚ) (by norm_num) (abs_pos.2 ha)
    rw [add_sub_cancel_right]; exact_mod_cast this
  · have := Int.lt_zpow_succ_log_self (b := 2) (R := ℚ) (by norm_num) |a|
    exact_mod_cast this

private theorem limited_zero (t c n : ℕ) : Spec.limited t c n 0 = 0 := by
  unfold Spec.limited Spec.digit; simp

theorem tlutFp_zero (width t c : ℕ) (hc : 1 ≤ c) : tlutFp width t c 0 = 0 := by
  unfold tlutFp frexp
  rw [if_pos rfl]
  show (tlutLoop t c _ (0 * 2 ^ width, 0)).2 * _ * _ = _
  have := loop_nat t c hc 1 (Or.inl rfl) (tlutDegree width t) 0 0
  rw [limited_zero] at this
  rw [show (0:ℚ) * 2 ^ width = 1 * ((0:ℕ):ℚ) by simp, this]; simp

/-- The value of a temporal coded floating-point operand that fits the width. -/
private theorem tlutFp_fits (width t c : ℕ) (ht : 1 ≤ t) (hc : 1 ≤ c) (a : ℚ) (hf : Spec.FitsBits width a) :
    ∃ k e : ℤ, |k| < 2 ^ width ∧ a = k * (2:ℚ) ^ e ∧
      tlutFp width t c a = (if k < 0 then -1 else 1) * (Spec.limited t c (tlutDegree width t) k.natAbs : ℚ) * (2:ℚ) ^ e := by
  by_cases ha : a = 0
  · refine ⟨0, 0, by positivity, by simp [ha], ?_⟩
    rw [ha, tlutFp_zero width t c hc, Int.natAbs_zero, limited_zero]; simp
  · obtain ⟨e, h1, h2, h3⟩ := frexp_spec a ha
    obtain ⟨k0, e0, hk0, hka⟩ := hf
    have hint : ∃ k : ℤ, a / (2:ℚ) ^ e * 2 ^ width = k := by
      have hle : e - width ≤ e0 := by
        by_contra hcon
        push Not at hcon
        have h4 : |a| = |(k0:ℚ)| * (2:ℚ) ^ e0 := by
          rw [hka, abs_mul, abs_of_pos (zpow_pos (by norm_num : (0:ℚ) < 2) e0)]
        have h5 : |(k0:ℚ)| + 1 ≤ 2 ^ width := by exact_mod_cast hk0
        have h6 : (2:ℚ) ^ (e - 1) ≥ 2 ^ width * (2:ℚ) ^ e0 := by
          rw [← zpow_natCast, ← zpow_add₀ (by norm_num)]
          exact zpow_le_zpow_right₀ (by norm_num) (by omega)
        have h7 : (0:ℚ) < (2:ℚ) ^ e0 := zpow_pos (by norm_num) _
        rw [h4] at h2
        nlinarith
      obtain ⟨d, hd⟩ := Int.eq_ofNat_of_zero_le (sub_nonneg.2 hle)
      refine ⟨k0 * 2 ^ d, ?_⟩
      have e0' : e0 = e - width + d := by linarith
      rw [hka, e0', zpow_add₀ (by norm_num), zpow_sub₀ (by norm_num), zpow_natCast, zpow_natCast]
      push_cast
      field_simp
    obtain ⟨k, hk⟩ := hint
    have hka' : a = k * (2:ℚ) ^ (e - width) := by
      rw [← hk, zpow_sub₀ (by norm_num), zpow_natCast]; field_simp
    refine ⟨k, e - width, ?_, hka', ?_⟩
    · have hp : (0:ℚ) < (2:ℚ) ^ (e - width) := zpow_pos (by norm_num) _
      have : |(k:ℚ)| * (2:ℚ) ^ (e - width) < 2 ^ width * (2:ℚ) ^ (e - width) := by
        rw [← abs_of_pos hp, ← abs_mul, ← hka', abs_of_pos hp, ← zpow_natCast, ← zpow_add₀ (by norm_num)]
        rw [show (width:ℤ) + (e - width) = e by ring]; exact h3
      have := lt_of_mul_lt_mul_right this hp.le
      exact_mod_cast this
    · unfold tlutFp
      rw [h1]
      show (tlutLoop t c _ (a / (2:ℚ) ^ e * 2 ^ width, 0)).2 * _ * _ = _
      rw [hk, loop_int t c hc]
      have ed := (C49_degree width t ht).1
      have : (2:ℚ) ^ tlutDelta width t * (2:ℚ) ^ e = 2 ^ (t * tlutDegree width t) * (2:ℚ) ^ (e - width) := by
        rw [← zpow_natCast, ← zpow_add₀ (by norm_num), ← zpow_add₀ (by norm_num)]
        congr 1; push_cast; linarith
      rw [mul_assoc, this]
      field_simp

private theorem fits_truncated (width : ℕ) (k e : ℤ) (hk : |k| < 2 ^ width) :
    Spec.Truncated (2 ^ width - 1) ((2:ℚ) ^ e) (k * (2:ℚ) ^ e) (k * (2:ℚ) ^ e) := by
  have hp : (0:ℚ) < (2:ℚ) ^ e := zpow_pos (by norm_num) _
  refine ⟨k, by omega, rfl, mul_self_nonneg _, le_refl _, Or.inr ?_⟩
  rw [abs_mul, abs_of_pos hp]
  push_cast
  nlinarith

/-- Magnitude bits of an operand: the width less the sign for fixed point, the significand (with its hidden bit) for
floating point. -/
def Spec.sigBits (f : Fmt) (width : ℕ) : ℕ := match f with
  | .fxp => width - 1
  | .bfloat16 => 8
  | .float16 => 11
  | .float32 => 24

theorem sig_eq (f : Fmt) (w : ℕ) : Spec.sigBits f w = tlutWidth f w := by cases f <;> rfl

/-- A temporal coded floating-point operand that fits the width has the digits of its integer mantissa limited. -/
theorem tlutFp_temporal (width t c : ℕ) (ht : 1 ≤ t) (hc : 1 ≤ c) (a : ℚ) : Spec.FitsBits width a →
    ∃ e : ℤ, Spec.Truncated (2 ^ width - 1) ((2:ℚ) ^ e) a a ∧
      Spec.Temporal t c (tlutDegree width t) (2 ^ width - 1) ((2:ℚ) ^ e) a (tlutFp width t c a) := by
  intro ha
  obtain ⟨k, e, h1, h2, h3⟩ := tlutFp_fits width t c ht hc a ha
  have := fits_truncated width k e h1
  rw [← h2] at this
  exact ⟨e, this, k, by rw [← h2]; exact this, by omega, h3⟩

/-- C50 (floating-point layer): the temporal coded operand, if it fits the width, has the digits of its integer mantissa
limited by the cycle count; the other operand is used unchanged. -/
theorem C50_fpfp {I O : ℕ} (cfg : Tlut) (hfi : cfg.formati ≠ .fxp) (hfw : cfg.formatw ≠ .fxp) (ht : 1 ≤ cfg.t)
    (c : ℕ) (hc : 1 ≤ c) (hcyc : c = (match cfg.cycle with | none => 2 ^ cfg.t | some k => min k (2 ^ cfg.t)))
    (w : Fin O → Fin I → ℚ) (bias : Option (Fin O → ℚ)) (x : List (Fin I → ℚ)) :
    ∃ (width : ℕ) (q : ℚ → ℚ), width = Spec.sigBits (if cfg.temporalI then cfg.formati else cfg.formatw) 0 ∧
      cfg.forward w bias x = .ok (x.map fun row o => ∑ i, (if cfg.temporalI then q (row i) * w o i else row i * q (w o i)) +
        (bias.map fun b => b o).getD 0) ∧
      ∀ a, Spec.FitsBits width a → ∃ e : ℤ, Spec.Truncated (2 ^ width - 1) ((2:ℚ) ^ e) a a ∧
        Spec.Temporal cfg.t c (Spec.digits width cfg.t) (2 ^ width - 1) ((2:ℚ) ^ e) a (q a) := by
  simp only [← C49_digits _ _ ht]
  simp only [sig_eq] at *
  have hcy : tlutCycle cfg.t cfg.cycle = c := hcyc.symm
  have hw' : ∀ f : Fmt, f ≠ .fxp → ∀ n, tlutWidth f n = tlutWidth f 0 := by
    intro f hf n; cases f <;> first | rfl | exact absurd rfl hf
  have key := fun width a => tlutFp_temporal width cfg.t c ht hc a
  cases hT : cfg.temporalI
  · refine ⟨_, tlutFp (tlutWidth cfg.formatw 0) cfg.t c, rfl, ?_, key _⟩
    unfold Tlut.forward Tlut.operands
    simp [hfi, hfw, hT, hcy, hw' _ hfw cfg.widthw]
  · refine ⟨_, tlutFp (tlutWidth cfg.formati 0) cfg.t c, rfl, ?_, key _⟩
    unfold Tlut.forward Tlut.operands
    simp [hfi, hfw, hT, hcy, hw' _ hfi cfg.widthi]

/-- Without early termination a temporal coded floating-point operand is exact if it fits the width, and off by less than `2^(1-width)`
relative otherwise. -/
theorem tlutFp_error (width t : ℕ) (ht : 1 ≤ t) (hwd : 1 ≤ width) (a : ℚ) : (Spec.FitsBits width a → tlutFp width t (2 ^ t) a = a) ∧
    (a ≠ 0 → |tlutFp width t (2 ^ t) a - a| < (2:ℚ) ^ (1 - width : ℤ) * |a|) := by
  have hD := C49_degree width t ht
  have hwD : width ≤ t * tlutDegree width t := by
    have : (width : ℤ) ≤ t * tlutDegree width t := by linarith [hD.1, hD.2.1]
    exact_mod_cast this
  constructor
  · intro hf
    obtain ⟨k, e, h1, h2, h3⟩ := tlutFp_fits width t _ ht Nat.one_le_two_pow a hf
    have hlim : Spec.limited t (2 ^ t) (tlutDegree width t) k.natAbs = k.natAbs := by
      refine (C50_limited t (2 ^ t) _ _ Nat.one_le_two_pow (le_refl _) ?_).2.2.2
        fun j _ => Nat.mod_lt _ (by positivity)
      have h4 : (k.natAbs : ℤ) < ((2 ^ width : ℕ) : ℤ) := by push_cast; omega
      have h5 : k.natAbs < 2 ^ width := by exact_mod_cast h4
      exact lt_of_lt_of_le h5 (Nat.pow_le_pow_right (by norm_num) hwD)
    rw [h3, hlim, h2]
    congr 1
    have : (if k < 0 then -1 else 1) * (k.natAbs : ℤ) = k := by split_ifs <;> omega
    have := congrArg (fun z : ℤ => (z:ℚ)) this
    simpa using this
  · intro ha
    obtain ⟨e, h1, h2, h3⟩ := frexp_spec a ha
    have hpe : (0:ℚ) < (2:ℚ) ^ e := zpow_pos (by norm_num) _
    obtain ⟨s, hs, hsa⟩ : ∃ s : ℚ, (s = 1 ∨ s = -1) ∧ a = s * |a| := by
      rcases le_total 0 a with h | h
      · exact ⟨1, Or.inl rfl, by rw [abs_of_nonneg h]; ring⟩
      · exact ⟨-1, Or.inr rfl, by rw [abs_of_nonpos h]; ring⟩
    set z := |a| / (2:ℚ) ^ e * 2 ^ width with hz
    have hz0 : 0 ≤ z := by positivity
    have hzlt : z < 2 ^ width := by
      rw [hz]
      have : |a| / (2:ℚ) ^ e < 1 := by rw [div_lt_one hpe]; exact h3
      have hp : (0:ℚ) < 2 ^ width := by positivity
      nlinarith
    obtain ⟨m, hm⟩ := Int.eq_ofNat_of_zero_le (Int.floor_nonneg.2 hz0)
    have hmz : (m:ℚ) ≤ z := by have := Int.floor_le z; rw [hm] at this; exact_mod_cast this
    have hzm : z < m + 1 := by have := Int.lt_floor_add_one z; rw [hm] at this; exact_mod_cast this
    have hmlt : m < 2 ^ width := by
      have : (m:ℚ) < 2 ^ width := lt_of_le_of_lt hmz hzlt
      exact_mod_cast this
    obtain ⟨n, hn⟩ : ∃ n, tlutDegree width t = n + 1 := by
      refine ⟨tlutDegree width t - 1, ?_⟩
      have : tlutDegree width t ≠ 0 := fun h => by rw [h] at hwD; simp at hwD; omega
      omega
    have hl := loop_rat t (2 ^ t) Nat.one_le_two_pow s hs n z hz0 m hm
    have hlim : Spec.limited t (2 ^ t) n (m / 2 ^ t) = m / 2 ^ t := by
      refine (C50_limited t (2 ^ t) _ _ Nat.one_le_two_pow (le_refl _) ?_).2.2.2
        fun j _ => Nat.mod_lt _ (by positivity)
      rw [Nat.div_lt_iff_lt_mul (by positivity), ← pow_add]
      refine lt_of_lt_of_le hmlt (Nat.pow_le_pow_right (by norm_num) ?_)
      rw [hn] at hwD
      calc width ≤ t * (n + 1) := hwD
        _ = _ := by ring
    rw [hlim] at hl
    have hdm : (2:ℚ) ^ t * ((m / 2 ^ t : ℕ) : ℚ) + ((m % 2 ^ t : ℕ) : ℚ) = m := by
      have := Nat.div_add_mod m (2 ^ t)
      exact_mod_cast this
    have hmod : ((m % 2 ^ t : ℕ) : ℚ) ≤ 2 ^ t - 1 := by
      have h : m % 2 ^ t + 1 ≤ 2 ^ t := Nat.mod_lt _ (by positivity)
      have : ((m % 2 ^ t : ℕ) : ℚ) + 1 ≤ 2 ^ t := by exact_mod_cast h
      linarith
    set v := 2 ^ t * ((m / 2 ^ t : ℕ) : ℚ) + min (((m % 2 ^ t : ℕ) : ℚ) + (z - m)) (((2 ^ t : ℕ) : ℚ) - 1) with hv
    have hv1 : (m:ℚ) ≤ v := by
      rw [hv]
      have : ((m % 2 ^ t : ℕ) : ℚ) ≤ min (((m % 2 ^ t : ℕ) : ℚ) + (z - m)) (((2 ^ t : ℕ) : ℚ) - 1) := by
        apply le_min
        · linarith
        · push_cast; exact hmod
      linarith
    have hv2 : v ≤ z := by
      have := min_le_left (((m % 2 ^ t : ℕ) : ℚ) + (z - m)) (((2 ^ t : ℕ) : ℚ) - 1)
      rw [hv]; linarith
    have hy : tlutFp width t (2 ^ t) a = s * v * (2:ℚ) ^ (e - width) := by
      unfold tlutFp
      rw [h1]
      show (tlutLoop t _ _ (a / (2:ℚ) ^ e * 2 ^ width, 0)).2 * _ * _ = _
      rw [show a / (2:ℚ) ^ e * 2 ^ width = s * z by rw [hz]; conv_lhs => rw [hsa]
                                                    ring, hn, hl]
      have : (2:ℚ) ^ tlutDelta width t * (2:ℚ) ^ e = 2 ^ (t * (n + 1)) * (2:ℚ) ^ (e - width) := by
        rw [← hn, ← zpow_natCast, ← zpow_add₀ (by norm_num), ← zpow_add₀ (by norm_num)]
        congr 1; push_cast; linarith [hD.1]
      rw [mul_assoc, this]
      field_simp
    have ha' : a = s * z * (2:ℚ) ^ (e - width) := by
      rw [hz, zpow_sub₀ (by norm_num), zpow_natCast]
      field_simp
      exact hsa
    have hpu : (0:ℚ) < (2:ℚ) ^ (e - width) := zpow_pos (by norm_num) _
    have hss : |s| = 1 := by rcases hs with rfl | rfl <;> norm_num
    have hu2 : (2:ℚ) ^ (e - width) ≤ (2:ℚ) ^ (1 - width : ℤ) * |a| := by
      rw [show (e - width : ℤ) = (1 - width) + (e - 1) by ring, zpow_add₀ (by norm_num)]
      exact mul_le_mul_of_nonneg_left h2 (zpow_pos (by norm_num) _).le
    refine lt_of_lt_of_le ?_ hu2
    rw [hy]
    conv_lhs => rw [ha']
    rw [← sub_mul, ← mul_sub, abs_mul, abs_mul, hss, one_mul, abs_of_pos hpu, abs_of_nonpos (by linarith)]
    have : -(v - z) < 1 := by linarith
    nlinarith

/-- C49 (floating-point layer): without early termination the layer is the exact linear layer whenever the temporal coded
operand fits the significand width (8, 11 or 24 bits), and in general the operand is off by less than
`2^(1-width)` relative. -/
theorem C49_fpfp {I O : ℕ} (cfg : Tlut) (hfi : cfg.formati ≠ .fxp) (hfw : cfg.formatw ≠ .fxp) (ht : 1 ≤ cfg.t)
    (hcyc : ∀ k, cfg.cycle = some k → 2 ^ cfg.t ≤ k)
    (w : Fin O → Fin I → ℚ) (bias : Option (Fin O → ℚ)) (x : List (Fin I → ℚ)) :
    ∃ (width : ℕ) (q : ℚ → ℚ), width = Spec.sigBits (if cfg.temporalI then cfg.formati else cfg.formatw) 0 ∧
      cfg.forward w bias x = .ok (x.map fun row o => ∑ i, (if cfg.temporalI then q (row i) * w o i else row i * q (w o i)) +
        (bias.map fun b => b o).getD 0) ∧
      ∀ a, (Spec.FitsBits width a → q a = a) ∧ (a ≠ 0 → |q a - a| < (2:ℚ) ^ (1 - width : ℤ) * |a|) := by
  simp only [sig_eq] at *
  have hcy : tlutCycle cfg.t cfg.cycle = 2 ^ cfg.t := by
    unfold tlutCycle
    cases h : cfg.cycle with
    | none => rfl
    | some k => exact min_eq_right (hcyc k h)
  have hw' : ∀ f : Fmt, f ≠ .fxp → ∀ n, tlutWidth f n = tlutWidth f 0 ∧ 1 ≤ tlutWidth f 0 := by
    intro f hf n; cases f <;> first | exact ⟨rfl, by decide⟩ | exact absurd rfl hf
  have key := fun width hwd a => tlutFp_error width cfg.t ht hwd a
  cases hT : cfg.temporalI
  · refine ⟨_, tlutFp (tlutWidth cfg.formatw 0) cfg.t (2 ^ cfg.t), rfl, ?_, key _ (hw' _ hfw 0).2⟩
    unfold Tlut.forward Tlut.operands
    simp [hfi, hfw, hT, hcy, (hw' _ hfw cfg.widthw).1]
  · refine ⟨_, tlutFp (tlutWidth cfg.formati 0) cfg.t (2 ^ cfg.t), rfl, ?_, key _ (hw' _ hfi 0).2⟩
    unfold Tlut.forward Tlut.operands
    simp [hfi, hfw, hT, hcy, (hw' _ hfi cfg.widthi).1]

/-- C50 (mixed formats): the temporal coded operand is treated as fixed point with the width of its format, even when that
format is a floating-point one; the other operand is used unchanged. -/
theorem C50_mixed {I O : ℕ} (cfg : Tlut) (hmix : (cfg.formati = .fxp) ≠ (cfg.formatw = .fxp)) (ht : 1 ≤ cfg.t)
    (c : ℕ) (hc : 1 ≤ c) (hcyc : c = (match cfg.cycle with | none => 2 ^ cfg.t | some k => min k (2 ^ cfg.t)))
    (w : Fin O → Fin I → ℚ) (bias : Option (Fin O → ℚ)) (x : List (Fin I → ℚ)) (width : ℕ)
    (hw : width = if cfg.temporalI then Spec.sigBits cfg.formati cfg.widthi else Spec.sigBits cfg.formatw cfg.widthw)
    (rsi rsw rso : ℤ)
    (hs : rshift x w width width cfg.rounding cfg.quantilei cfg.quantilew = .ok (rsi, rsw, rso)) :
    ∃ q : ℚ → ℚ,
      cfg.forward w bias x = .ok (x.map fun row o => ∑ i, (if cfg.temporalI then q (row i) * w o i else row i * q (w o i)) +
        (bias.map fun b => b o).getD 0) ∧
      ∀ a, Spec.Temporal cfg.t c (Spec.digits width cfg.t) (2 ^ width - 1)
        ((2:ℚ) ^ (if cfg.temporalI then rsi else rsw)) a (q a) := by
  simp only [← C49_digits _ _ ht]
  simp only [sig_eq] at *
  have hcy : tlutCycle cfg.t cfg.cycle = c := hcyc.symm
  have n1 : ¬ (cfg.formati = .fxp ∧ cfg.formatw = .fxp) := fun h => hmix (by rw [eq_true h.1, eq_true h.2])
  have n2 : ¬ (cfg.formati ≠ .fxp ∧ cfg.formatw ≠ .fxp) := fun h => hmix (by rw [eq_false h.1, eq_false h.2])
  cases hT : cfg.temporalI
  · rw [hT] at hw
    simp only [Bool.false_eq_true, if_false] at hw
    refine ⟨tlutFxp width cfg.t c rsw, ?_, fun a => by simpa using tlutFxp_temporal _ _ _ ht hc _ _⟩
    unfold Tlut.forward Tlut.operands
    simp only [if_neg n1, if_neg n2, hT, hcy, Bool.false_eq_true, if_false, ← hw, hs]; rfl
  · rw [hT] at hw
    simp only [if_true] at hw
    refine ⟨tlutFxp width cfg.t c rsi, ?_, fun a => by simpa using tlutFxp_temporal _ _ _ ht hc _ _⟩
    unfold Tlut.forward Tlut.operands
    simp only [if_neg n1, if_neg n2, hT, hcy, if_true, ← hw, hs]; rfl

/-- Non-vacuity: 182 = 0b10110110 has digits 6 and 11 in base 16; ten cycles limit the high digit. -/
example : Spec.digit 4 182 0 = 6 ∧ Spec.digit 4 182 1 = 11 ∧ Spec.limited 4 10 2 182 = 150 ∧
    Spec.limited 4 16 2 182 = 182 := by decide +kernel
example : Spec.Truncated 127 (1/4) (-11/8) (-5/4) :=
  ⟨-5, by norm_num, by norm_num, by norm_num, by norm_num [abs_of_neg], Or.inr (by norm_num [abs_of_neg])⟩
example : Spec.FitsBits 8 (-3/32) := ⟨-3, -5, by norm_num, by norm_num⟩
example : ∃ cfg : Tlut, cfg.formati = .fxp ∧ cfg.formatw = .fxp ∧ 1 ≤ cfg.t ∧ cfg.cycle = some 10 :=
  ⟨⟨true, 4, .fxp, 8, 1, .fxp, 8, 1, some 10, "round"⟩, rfl, rfl, by decide, rfl⟩

/-! ## C51 -/

/-- The exact linear layer contracted with an output gradient. -/
def Spec.linLoss {B I O : ℕ} (g : Fin B → Fin O → ℚ) (x : Fin B → Fin I → ℚ) (w : Fin O → Fin I → ℚ) (b : Fin O → ℚ) : ℚ :=
  ∑ n, ∑ o, g n o * (∑ i, x n i * w o i + b o)

/-- C51: the returned gradients are the first-order change of the exact layer in every direction; the remainder is
the product of the two perturbations. -/
theorem C51_gradient {B I O : ℕ} (x dx : Fin B → Fin I → ℚ) (w dw : Fin O → Fin I → ℚ) (b db : Fin O → ℚ) (g : Fin B → Fin O → ℚ) :
    ∃ gi gw gb, backward x w true (true, true, true) g = ⟨some gi, some gw, some gb⟩ ∧
      Spec.linLoss g (x + dx) (w + dw) (b + db) - Spec.linLoss g x w b =
        (∑ n, ∑ i, gi n i * dx n i) + (∑ o, ∑ i, gw o i * dw o i) + (∑ o, gb o * db o) +
        Spec.linLoss g dx dw 0 := by
  refine ⟨_, _, _, rfl, ?_⟩
  unfold Spec.linLoss
  have e1 : ∑ n, ∑ i, (∑ o, g n o * w o i) * dx n i = ∑ n, ∑ o, g n o * ∑ i, dx n i * w o i := by
    apply sum_congr rfl; intro n _
    simp_rw [sum_mul, mul_sum]
    rw [sum_comm]
    apply sum_congr rfl; intro o _
    apply sum_congr rfl; intro i _
    ring
  have e2 : ∑ o, ∑ i, (∑ n, g n o * x n i) * dw o i = ∑ n, ∑ o, g n o * ∑ i, x n i * dw o i := by
    rw [sum_comm (s := univ) (t := univ) (f := fun n o => g n o * ∑ i, x n i * dw o i)]
    apply sum_congr rfl; intro o _
    simp_rw [sum_mul, mul_sum]
    rw [sum_comm]
    apply sum_congr rfl; intro n _
    apply sum_congr rfl; intro i _
    ring
  have e3 : ∑ o, (∑ n, g n o) * db o = ∑ n, ∑ o, g n o * db o := by
    rw [sum_comm]
    apply sum_congr rfl; intro o _
    rw [sum_mul]
  rw [e1, e2, e3, ← sum_sub_distrib, ← sum_add_distrib, ← sum_add_distrib, ← sum_add_distrib]
  apply sum_congr rfl; intro n _
  rw [← sum_sub_distrib, ← sum_add_distrib, ← sum_add_distrib, ← sum_add_distrib]
  apply sum_congr rfl; intro o _
  have : ∑ i, (x + dx) n i * (w + dw) o i = ∑ i, x n i * w o i + ∑ i, dx n i * w o i + ∑ i, x n i * dw o i + ∑ i, dx n i * dw o i := by
    rw [← sum_add_distrib, ← sum_add_distrib, ← sum_add_distrib]
    apply sum_congr rfl; intro i _
    show (x n i + dx n i) * (w o i + dw o i) = _
    ring
  rw [this]
  show _ * (_ + (b o + db o)) - _ = _ + _ + _ + _ * (_ + 0)
  ring

/-- C51: no other gradients have this property, so the code's are the ones of the exact layer, not of the quantised
one. -/
theorem C51_unique {B I O : ℕ} (x : Fin B → Fin I → ℚ) (w : Fin O → Fin I → ℚ) (b : Fin O → ℚ) (g : Fin B → Fin O → ℚ)
    (gi : Fin B → Fin I → ℚ) (gw : Fin O → Fin I → ℚ) (gb : Fin O → ℚ)
    (h : ∀ dx dw db, Spec.linLoss g (x + dx) (w + dw) (b + db) - Spec.linLoss g x w b =
        (∑ n, ∑ i, gi n i * dx n i) + (∑ o, ∑ i, gw o i * dw o i) + (∑ o, gb o * db o) + Spec.linLoss g dx dw 0) :
    backward x w true (true, true, true) g = ⟨some gi, some gw, some gb⟩ := by
  have key : ∀ (dx : Fin B → Fin I → ℚ) (dw : Fin O → Fin I → ℚ) (db : Fin O → ℚ), (∑ n, ∑ i, gi n i * dx n i) + (∑ o, ∑ i, gw o i * dw o i) + (∑ o, gb o * db o) =
      (∑ n, ∑ i, (∑ o, g n o * w o i) * dx n i) + (∑ o, ∑ i, (∑ n, g n o * x n i) * dw o i) + (∑ o, (∑ n, g n o) * db o) := by
    intro dx dw db
    obtain ⟨gi', gw', gb', hb, hg⟩ := C51_gradient x dx w dw b db g
    unfold backward at hb
    simp only [if_true, Bool.and_self, Grads.mk.injEq, Option.some.injEq] at hb
    obtain ⟨rfl, rfl, rfl⟩ := hb
    have := h dx dw db
    rw [hg] at this
    linarith
  unfold backward
  simp only [if_true, Bool.and_self, Grads.mk.injEq, Option.some.injEq]
  refine ⟨?_, ?_, ?_⟩
  · funext n i
    have := key (fun n' i' => if n' = n then if i' = i then 1 else 0 else 0) 0 0
    simpa [sum_ite_eq, Finset.sum_ite_irrel] using this.symm
  · funext o i
    have := key 0 (fun o' i' => if o' = o then if i' = i then 1 else 0 else 0) 0
    simpa [sum_ite_eq, Finset.sum_ite_irrel] using this.symm
  · funext o
    have := key 0 0 (fun o' => if o' = o then 1 else 0)
    simpa [sum_ite_eq] using this.symm

/-- C51: gradients not asked for, and the bias gradient of a layer without bias, are absent; the others do not depend
on what else is asked for. -/
theorem C51_needs {B I O : ℕ} (x : Fin B → Fin I → ℚ) (w : Fin O → Fin I → ℚ) (hb a1 a2 a3 : Bool) (g : Fin B → Fin O → ℚ) :
    let r := backward x w hb (a1, a2, a3) g
    let full := backward x w true (true, true, true) g
    r.input = (if a1 then full.input else none) ∧ r.weight = (if a2 then full.weight else none) ∧
      r.bias = (if a3 ∧ hb then full.bias else none) := by
  cases a1 <;> cases a2 <;> cases a3 <;> cases hb <;> refine ⟨rfl, rfl, rfl⟩

/-- Non-vacuity: a one-by-one layer, whose loss is `g (x w + b)`. -/
example : Spec.linLoss (fun (_ _ : Fin 1) => 3) (fun (_ _ : Fin 1) => 2) (fun (_ _ : Fin 1) => 5) (fun _ => 7) = 51 := by
  simp [Spec.linLoss]; norm_num

end Verif.Props
