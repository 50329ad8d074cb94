import Verif.Model.RtlOld
import Verif.Props.RtlMul
import Verif.Props.Hub

/-!
# Property C77: what the multipliers of `hw/kernel/old` compute
-/

namespace Verif.Props

open Verif Finset Gen

/-- Cycle `0` loads the operands `a` and `b`, no later cycle loads anything. -/
def Spec.loaded2 {w : ℕ} (a b : BitVec w) (i : ℕ → Rtl.TwoIn w) : Prop :=
  (i 0).loadA = true ∧ (i 0).loadB = true ∧ (i 0).iA = a ∧ (i 0).iB = b ∧
    ∀ t, (i (t + 1)).loadA = false ∧ (i (t + 1)).loadB = false

/-- Ones of the output `o` in period `p` of `2^w` cycles. -/
def Spec.periodOnes (w : ℕ) (o : ℕ → Bool) (p : ℕ) : ℤ := ∑ r ∈ range (2 ^ w), Spec.num (o (p * 2 ^ w + r))

/-! ## The Gaines multipliers: both operands are compared with the same numbers -/

theorem gmul_state {w : ℕ} {a b : BitVec w} {i : ℕ → Rtl.TwoIn w} {step : Rtl.GMul w → Rtl.TwoIn w → Rtl.GMul w × Bool}
    (hs : ∀ s i, (step s i).1 = Rtl.gmulNext s i) (h : Spec.loaded2 a b i) (n : ℕ) :
    stateAt step (Rtl.gmulInit w) i n
      = ⟨if n = 0 then 0 else a, if n = 0 then 0 else b, sobolIter w n, sobolIter w n⟩ := by
  obtain ⟨h1, h2, h3, h4, h5⟩ := h
  induction n with
  | zero => rfl
  | succ n ih =>
      rw [stateAt_succ, hs, ih]
      unfold Rtl.gmulNext
      cases n with
      | zero => simp [h1, h2, h3, h4, sobolIter_succ]
      | succ n => simp [(h5 n).1, (h5 n).2, sobolIter_succ]

theorem sobol_ult {w : ℕ} (b : BitVec w) (k : ℕ) :
    (sobolIter w k).out.ult b = decide (Spec.hwSobol w k < b.toNat) := rfl

/-- C77: the output of `gMUL_uni` after the load. -/
theorem C77_gaines_uni_bit {w : ℕ} {a b : BitVec w} {i : ℕ → Rtl.TwoIn w} (h : Spec.loaded2 a b i) (t : ℕ) (ht : 1 ≤ t) :
    outAt Rtl.gmulUniStep (Rtl.gmulInit w) i t = true ↔ Spec.hwSobol w t < min a.toNat b.toNat := by
  show (Rtl.gmulUniStep (stateAt Rtl.gmulUniStep (Rtl.gmulInit w) i t) (i t)).2 = true ↔ _
  rw [gmul_state (fun _ _ => rfl) h t]
  simp only [Rtl.gmulUniStep, sobol_ult, if_neg (show ¬ t = 0 by omega), Bool.and_eq_true, decide_eq_true_eq, lt_min_iff]

/-- C77: the output of `gMUL_bi` after the load. -/
theorem C77_gaines_bi_bit {w : ℕ} {a b : BitVec w} {i : ℕ → Rtl.TwoIn w} (h : Spec.loaded2 a b i) (t : ℕ) (ht : 1 ≤ t) :
    outAt Rtl.gmulBiStep (Rtl.gmulInit w) i t = true ↔ (Spec.hwSobol w t < a.toNat ↔ Spec.hwSobol w t < b.toNat) := by
  show (Rtl.gmulBiStep (stateAt Rtl.gmulBiStep (Rtl.gmulInit w) i t) (i t)).2 = true ↔ _
  rw [gmul_state (fun _ _ => rfl) h t]
  simp only [Rtl.gmulBiStep, sobol_ult, if_neg (show ¬ t = 0 by omega)]
  by_cases h1 : Spec.hwSobol w t < a.toNat <;> by_cases h2 : Spec.hwSobol w t < b.toNat <;> simp [h1, h2]

theorem periodOnes_eq {w : ℕ} (o : ℕ → Bool) (f : ℕ → ℤ) (p : ℕ)
    (h : ∀ r < 2 ^ w, Spec.num (o (p * 2 ^ w + r)) = f (p * 2 ^ w + r)) :
    Spec.periodOnes w o p = ∑ r ∈ range (2 ^ w), f (p * 2 ^ w + r) :=
  sum_congr rfl fun r hr => h r (mem_range.1 hr)

theorem num_ind {o : Bool} {P : Prop} [Decidable P] (h : o = true ↔ P) : Spec.num o = ind P := by
  unfold Spec.num ind
  by_cases hp : P
  · simp [hp, h.2 hp]
  · have : o = false := by
      cases o
      · rfl
      · exact absurd (h.1 rfl) hp
    simp [hp, this]

/-- C77: `gMUL_uni` outputs `min a b` ones in every whole period after the load. -/
theorem C77_gaines_uni {w : ℕ} (hw : 1 ≤ w) {a b : BitVec w} {i : ℕ → Rtl.TwoIn w} (h : Spec.loaded2 a b i) (p : ℕ)
    (hp : 1 ≤ p) : Spec.periodOnes w (outAt Rtl.gmulUniStep (Rtl.gmulInit w) i) p = min a.toNat b.toNat := by
  have hpos : 1 ≤ 2 ^ w := Nat.one_le_two_pow
  rw [periodOnes_eq _ (fun t => ind (((min a.toNat b.toNat : ℕ) : ℤ) > Spec.hwSobol w t)) p fun r _ => by
    refine num_ind ((C77_gaines_uni_bit h _ ?_).trans ?_)
    · nlinarith
    · push_cast; omega, hw_period hw _ p (by have := a.isLt; omega)]

/-- C77: `gMUL_bi` outputs `2^w - |a - b|` ones in every whole period after the load. -/
theorem C77_gaines_bi {w : ℕ} (hw : 1 ≤ w) {a b : BitVec w} {i : ℕ → Rtl.TwoIn w} (h : Spec.loaded2 a b i) (p : ℕ)
    (hp : 1 ≤ p) :
    Spec.periodOnes w (outAt Rtl.gmulBiStep (Rtl.gmulInit w) i) p = 2 ^ w - |(a.toNat : ℤ) - b.toNat| := by
  have hpos : 1 ≤ 2 ^ w := Nat.one_le_two_pow
  have ha := a.isLt
  have hb := b.isLt
  rw [periodOnes_eq _ (fun t => 1 - ind (((max a.toNat b.toNat : ℕ) : ℤ) > Spec.hwSobol w t)
      + ind (((min a.toNat b.toNat : ℕ) : ℤ) > Spec.hwSobol w t)) p fun r _ => by
    have e := num_ind (C77_gaines_bi_bit h (p * 2 ^ w + r) (by nlinarith))
    rw [e]
    generalize Spec.hwSobol w (p * 2 ^ w + r) = s
    have e1 : (((max a.toNat b.toNat : ℕ) : ℤ) > s) ↔ s < a.toNat ∨ s < b.toNat := by push_cast; omega
    have e2 : (((min a.toNat b.toNat : ℕ) : ℤ) > s) ↔ s < a.toNat ∧ s < b.toNat := by push_cast; omega
    simp only [e1, e2, ind]
    by_cases h1 : s < a.toNat <;> by_cases h2 : s < b.toNat <;> simp [h1, h2],
    sum_add_distrib, sum_sub_distrib, hw_period hw _ p (by omega), hw_period hw _ p (by omega)]
  simp only [sum_const, card_range, nsmul_eq_mul, mul_one]
  push_cast
  rcases le_total a.toNat b.toNat with hle | hle
  · rw [abs_of_nonpos (by omega), max_eq_right (by exact_mod_cast hle), min_eq_left (by exact_mod_cast hle)]; ring
  · rw [abs_of_nonneg (by omega), max_eq_left (by exact_mod_cast hle), min_eq_right (by exact_mod_cast hle)]; ring

private theorem min_eq_product {N x y : ℕ} (ha : x < N) (hb : y < N) : min x y * N = x * y ↔ x = 0 ∨ y = 0 := by
  constructor
  · intro hh
    rcases le_total x y with hle | hle
    · rw [min_eq_left hle] at hh
      left
      by_contra hx
      have := Nat.eq_of_mul_eq_mul_left (Nat.pos_of_ne_zero hx) hh
      omega
    · rw [min_eq_right hle, mul_comm x] at hh
      right
      by_contra hx
      have := Nat.eq_of_mul_eq_mul_left (Nat.pos_of_ne_zero hx) hh
      omega
  · rintro (rfl | rfl) <;> simp

/-- C77: the ones of `gMUL_uni` represent the product only when an operand is zero. -/
theorem C77_gaines_uni_not_product {w : ℕ} (hw : 1 ≤ w) {a b : BitVec w} {i : ℕ → Rtl.TwoIn w} (h : Spec.loaded2 a b i)
    (p : ℕ) (hp : 1 ≤ p) :
    (Spec.periodOnes w (outAt Rtl.gmulUniStep (Rtl.gmulInit w) i) p / 2 ^ w : ℚ) = (a.toNat / 2 ^ w) * (b.toNat / 2 ^ w)
      ↔ a = 0 ∨ b = 0 := by
  have hN : (0:ℚ) < 2 ^ w := by positivity
  rw [C77_gaines_uni hw h p hp, bv_zero, bv_zero, ← min_eq_product a.isLt b.isLt, div_mul_div_comm,
    div_eq_div_iff (by positivity) (by positivity), ← mul_assoc, mul_left_inj' hN.ne']
  norm_cast

/-- C77: the ones of `gMUL_bi` represent the product, each operand `x` standing for `2 x / 2^w - 1`, only when an operand is
zero. -/
theorem C77_gaines_bi_not_product {w : ℕ} (hw : 1 ≤ w) {a b : BitVec w} {i : ℕ → Rtl.TwoIn w} (h : Spec.loaded2 a b i)
    (p : ℕ) (hp : 1 ≤ p) :
    (2 * (Spec.periodOnes w (outAt Rtl.gmulBiStep (Rtl.gmulInit w) i) p / 2 ^ w) - 1 : ℚ)
        = (2 * (a.toNat / 2 ^ w) - 1) * (2 * (b.toNat / 2 ^ w) - 1)
      ↔ a = 0 ∨ b = 0 := by
  have hN : (0:ℚ) < 2 ^ w := by positivity
  rw [C77_gaines_bi hw h p hp, bv_zero, bv_zero, ← min_eq_product a.isLt b.isLt]
  have e : |(a.toNat : ℤ) - b.toNat| = a.toNat + b.toNat - 2 * (min a.toNat b.toNat : ℕ) := by
    rcases le_total a.toNat b.toNat with hle | hle
    · rw [abs_of_nonpos (by omega), min_eq_left hle]; ring
    · rw [abs_of_nonneg (by omega), min_eq_right hle]; ring
  rw [e]
  have e2 : (min a.toNat b.toNat * 2 ^ w = a.toNat * b.toNat) ↔ ((min a.toNat b.toNat : ℕ) : ℚ) * 2 ^ w = a.toNat * b.toNat := by
    norm_cast
  rw [e2]
  generalize ((min a.toNat b.toNat : ℕ)) = m
  push_cast
  generalize (a.toNat : ℚ) = x
  generalize (b.toNat : ℚ) = y
  generalize (2:ℚ) ^ w = N at *
  have hN' := hN.ne'
  constructor
  · intro hh
    field_simp at hh
    nlinarith
  · intro hh
    field_simp
    nlinarith

/-! ## The deterministic multipliers: the second generator hardly ever advances -/

/-- Numbers shown by the second generator of `dMUL` before cycle `t`. -/
def Spec.slowIndex (w t : ℕ) : ℕ :=
  t / 4 ^ w * 2 ^ w + if t / 2 ^ w % 2 ^ w = 2 ^ w - 1 then t % 2 ^ w else 0

theorem slow_succ (w t : ℕ) :
    Spec.slowIndex w (t + 1) = Spec.slowIndex w t + if t / 2 ^ w % 2 ^ w = 2 ^ w - 1 then 1 else 0 := by
  unfold Spec.slowIndex
  have h4 : (4 : ℕ) ^ w = 2 ^ w * 2 ^ w := by rw [← mul_pow]; norm_num
  have hN : 0 < 2 ^ w := by positivity
  rw [h4, ← Nat.div_div_eq_div_mul, ← Nat.div_div_eq_div_mul]
  generalize 2 ^ w = N at *
  by_cases hr : t % N + 1 < N
  · have e1 : (t + 1) / N = t / N := by
      rw [Nat.succ_div, if_neg]; · rfl
      intro hd
      have := Nat.mod_eq_zero_of_dvd hd
      rw [Nat.add_mod, Nat.mod_eq_of_lt (show 1 < N by omega), Nat.mod_eq_of_lt hr] at this
      omega
    have e2 : (t + 1) % N = t % N + 1 := by
      rw [Nat.add_mod, Nat.mod_eq_of_lt (show 1 < N by omega), Nat.mod_eq_of_lt hr]
    rw [e1, e2]
    split_ifs <;> omega
  · have hlt := Nat.mod_lt t hN
    have hr' : t % N = N - 1 := by omega
    have e0 := Nat.div_add_mod t N
    have e : t + 1 = N * (t / N + 1) := by rw [Nat.mul_succ]; omega
    have e1 : (t + 1) / N = t / N + 1 := by rw [e, Nat.mul_div_cancel_left _ hN]
    have e2 : (t + 1) % N = 0 := by rw [e, Nat.mul_mod_right]
    rw [e1, e2, hr']
    generalize t / N = q
    by_cases hq : q % N = N - 1
    · have e3 := Nat.div_add_mod q N
      have e4 : q + 1 = N * (q / N + 1) := by rw [Nat.mul_succ]; omega
      have e5 : (q + 1) / N = q / N + 1 := by rw [e4, Nat.mul_div_cancel_left _ hN]
      rw [e5, if_pos hq, if_pos hq]
      rw [Nat.succ_mul]
      split_ifs <;> omega
    · have hq2 := Nat.mod_lt q hN
      have e5 : (q + 1) / N = q / N := by
        rw [Nat.succ_div, if_neg]; · rfl
        intro hd
        have h0 := Nat.mod_eq_zero_of_dvd hd
        rw [Nat.add_mod, Nat.mod_eq_of_lt (show 1 < N by omega), Nat.mod_eq_of_lt (by omega)] at h0
        omega
      rw [e5, if_neg hq, if_neg hq]
      split_ifs <;> omega

theorem cntA_eq (w n : ℕ) : (BitVec.ofNat w n) + 1 = BitVec.ofNat w (n + 1) := by
  apply BitVec.eq_of_toNat_eq
  simp

theorem cntB_eq (w n : ℕ) :
    BitVec.ofNat w (n / 2 ^ w) + Rtl.bv w (decide (BitVec.ofNat w n = BitVec.allOnes w)) = BitVec.ofNat w ((n + 1) / 2 ^ w) := by
  have hN : 0 < 2 ^ w := by positivity
  rw [Nat.succ_div]
  have : (BitVec.ofNat w n = BitVec.allOnes w) ↔ 2 ^ w ∣ n + 1 := by
    rw [bv_full, BitVec.toNat_ofNat]
    have hlt := Nat.mod_lt n hN
    have e0 := Nat.div_add_mod n (2 ^ w)
    constructor
    · intro h
      exact ⟨n / 2 ^ w + 1, by rw [Nat.mul_succ]; omega⟩
    · rintro ⟨k, hk⟩
      obtain ⟨j, rfl⟩ : ∃ j, k = j + 1 := ⟨k - 1, by
        rcases Nat.eq_zero_or_pos k with h | h
        · subst h; simp at hk
        · omega⟩
      have : n = 2 ^ w * j + (2 ^ w - 1) := by rw [Nat.mul_succ] at hk; omega
      rw [this, Nat.mul_add_mod, Nat.mod_eq_of_lt (by omega)]
  by_cases h : 2 ^ w ∣ n + 1
  · rw [if_pos h, decide_eq_true (this.2 h)]
    exact cntA_eq w _
  · rw [if_neg h, decide_eq_false (fun hh => h (this.1 hh))]
    simp [Rtl.bv]

private theorem dmul_state {w : ℕ} {a b : BitVec w} {i : ℕ → Rtl.TwoIn w} {step : Rtl.DMul w → Rtl.TwoIn w → Rtl.DMul w × Bool}
    (hs : ∀ s i, (step s i).1 = Rtl.dmulNext s i) (h : Spec.loaded2 a b i) (n : ℕ) :
    stateAt step (Rtl.dmulInit w) i n
      = ⟨if n = 0 then 0 else a, if n = 0 then 0 else b, sobolIter w n, sobolIter w (Spec.slowIndex w n),
          BitVec.ofNat w n, BitVec.ofNat w (n / 2 ^ w)⟩ := by
  obtain ⟨h1, h2, h3, h4, h5⟩ := h
  have hN : 0 < 2 ^ w := by positivity
  induction n with
  | zero =>
      have e : Spec.slowIndex w 0 = 0 := by simp [Spec.slowIndex]
      rw [e, Nat.zero_div]; rfl
  | succ n ih =>
      rw [stateAt_succ, hs, ih]
      unfold Rtl.dmulNext
      have eR : Rtl.sobolNext (sobolIter w (Spec.slowIndex w n)) (decide (BitVec.ofNat w (n / 2 ^ w) = BitVec.allOnes w))
          = sobolIter w (Spec.slowIndex w (n + 1)) := by
        rw [slow_succ]
        have : (BitVec.ofNat w (n / 2 ^ w) = BitVec.allOnes w) ↔ n / 2 ^ w % 2 ^ w = 2 ^ w - 1 := by
          rw [bv_full, BitVec.toNat_ofNat]
        by_cases hh : n / 2 ^ w % 2 ^ w = 2 ^ w - 1
        · rw [if_pos hh, decide_eq_true (this.2 hh), sobolIter_succ]
        · rw [if_neg hh, decide_eq_false (fun h' => hh (this.1 h')), sobolNext_false, add_zero]
      simp only [eR, cntA_eq, cntB_eq]
      cases n with
      | zero => simp [h1, h2, h3, h4, sobolIter_succ]
      | succ n => simp [(h5 n).1, (h5 n).2, sobolIter_succ]

/-- C77: the outputs of `dMUL_uni` and `dMUL_bi` after the load. -/
theorem C77_deterministic_bit {w : ℕ} {a b : BitVec w} {i : ℕ → Rtl.TwoIn w} (h : Spec.loaded2 a b i) (t : ℕ) (ht : 1 ≤ t) :
    (outAt Rtl.dmulUniStep (Rtl.dmulInit w) i t = true ↔
      Spec.hwSobol w t < a.toNat ∧ Spec.hwSobol w (Spec.slowIndex w t) < b.toNat) ∧
    (outAt Rtl.dmulBiStep (Rtl.dmulInit w) i t = true ↔
      (Spec.hwSobol w t < a.toNat ↔ Spec.hwSobol w (Spec.slowIndex w t) < b.toNat)) := by
  constructor
  · show (Rtl.dmulUniStep (stateAt Rtl.dmulUniStep (Rtl.dmulInit w) i t) (i t)).2 = true ↔ _
    rw [dmul_state (fun _ _ => rfl) h t]
    simp only [Rtl.dmulUniStep, sobol_ult, if_neg (show ¬ t = 0 by omega), Bool.and_eq_true, decide_eq_true_eq]
  · show (Rtl.dmulBiStep (stateAt Rtl.dmulBiStep (Rtl.dmulInit w) i t) (i t)).2 = true ↔ _
    rw [dmul_state (fun _ _ => rfl) h t]
    simp only [Rtl.dmulBiStep, sobol_ult, if_neg (show ¬ t = 0 by omega)]
    by_cases h1 : Spec.hwSobol w t < a.toNat <;> by_cases h2 : Spec.hwSobol w (Spec.slowIndex w t) < b.toNat <;> simp [h1, h2]

/-- The number the second generator of `dMUL` shows throughout period `p`, unless `p` is the last of `2^w` periods. -/
def Spec.slowNumber (w p : ℕ) : ℕ := if p / 2 ^ w % 2 = 1 then 1 ^^^ 2 ^ (w - 1) else 0

theorem slow_period {w : ℕ} (hw : 1 ≤ w) {p : ℕ} (hp : p % 2 ^ w ≠ 2 ^ w - 1) {r : ℕ} (hr : r < 2 ^ w) :
    Spec.hwSobol w (Spec.slowIndex w (p * 2 ^ w + r)) = Spec.slowNumber w p := by
  have h4 : (4 : ℕ) ^ w = 2 ^ w * 2 ^ w := by rw [← mul_pow]; norm_num
  have hN : 0 < 2 ^ w := by positivity
  have e : (p * 2 ^ w + r) / 2 ^ w = p := by
    rw [mul_comm, Nat.mul_add_div hN, Nat.div_eq_of_lt hr, add_zero]
  unfold Spec.slowIndex
  rw [h4, ← Nat.div_div_eq_div_mul, e, if_neg hp, add_zero, hwSobol_start hw]
  rfl

/-- C77: in every period but one in `2^w`, `dMUL_uni` repeats its first operand if the second exceeds one of two constants
(zero in the first `2^w` periods), and is silent otherwise. -/
theorem C77_deterministic_uni {w : ℕ} (hw : 1 ≤ w) {a b : BitVec w} {i : ℕ → Rtl.TwoIn w} (h : Spec.loaded2 a b i) (p : ℕ)
    (hp : 1 ≤ p) (hl : p % 2 ^ w ≠ 2 ^ w - 1) :
    Spec.periodOnes w (outAt Rtl.dmulUniStep (Rtl.dmulInit w) i) p
      = if Spec.slowNumber w p < b.toNat then (a.toNat : ℤ) else 0 := by
  have hpos : 1 ≤ 2 ^ w := Nat.one_le_two_pow
  have hb := a.isLt
  rw [periodOnes_eq _ (fun t => ind ((a.toNat : ℤ) > Spec.hwSobol w t) * if Spec.slowNumber w p < b.toNat then 1 else 0) p fun r hr => by
    have e := num_ind (C77_deterministic_bit h (p * 2 ^ w + r) (by nlinarith)).1
    rw [e, slow_period hw hl hr]
    unfold ind
    by_cases h1 : Spec.hwSobol w (p * 2 ^ w + r) < a.toNat <;> by_cases h2 : Spec.slowNumber w p < b.toNat <;> simp [h1, h2],
    ← sum_mul, hw_period hw _ p (by omega)]
  split_ifs <;> simp

/-- C77: likewise `dMUL_bi` repeats its first operand or its complement. -/
theorem C77_deterministic_bi {w : ℕ} (hw : 1 ≤ w) {a b : BitVec w} {i : ℕ → Rtl.TwoIn w} (h : Spec.loaded2 a b i) (p : ℕ)
    (hp : 1 ≤ p) (hl : p % 2 ^ w ≠ 2 ^ w - 1) :
    Spec.periodOnes w (outAt Rtl.dmulBiStep (Rtl.dmulInit w) i) p
      = if Spec.slowNumber w p < b.toNat then (a.toNat : ℤ) else 2 ^ w - a.toNat := by
  have hpos : 1 ≤ 2 ^ w := Nat.one_le_two_pow
  have hb := a.isLt
  rw [periodOnes_eq _ (fun t => if Spec.slowNumber w p < b.toNat then ind ((a.toNat : ℤ) > Spec.hwSobol w t)
      else 1 - ind ((a.toNat : ℤ) > Spec.hwSobol w t)) p fun r hr => by
    have e := num_ind (C77_deterministic_bit h (p * 2 ^ w + r) (by nlinarith)).2
    rw [e, slow_period hw hl hr]
    unfold ind
    by_cases h1 : Spec.hwSobol w (p * 2 ^ w + r) < a.toNat <;> by_cases h2 : Spec.slowNumber w p < b.toNat <;> simp [h1, h2]]
  split_ifs
  · rw [hw_period hw _ p (by omega)]
  · rw [sum_sub_distrib, hw_period hw _ p (by omega)]; simp

/-! ## The temporal multipliers -/

theorem stateAt_agree {S I O : Type} {step : S → I → S × O} {s0 : S} {x x' : ℕ → I} {n : ℕ} (h : ∀ t < n, x t = x' t) :
    stateAt step s0 x n = stateAt step s0 x' n := by
  induction n with
  | zero => rfl
  | succ n ih => rw [stateAt_succ, stateAt_succ, ih fun t ht => h t (by omega), h n (by omega)]


/-- Numbers shown by the generator of `tMUL` before cycle `t`, when the first operand is `a`. -/
def Spec.tempIndex (free : Bool) (a t : ℕ) : ℕ := if free then t else min (t - 2) a

theorem tmul_state {w : ℕ} {a b : BitVec w} {i : ℕ → Rtl.TwoIn w} (free : Bool)
    {step : Rtl.TMul w → Rtl.TwoIn w → Rtl.TMul w × Bool}
    (hs : ∀ s i, (step s i).1 = Rtl.tmulNext free s i) (h : Spec.loaded2 a b i) (x y : BitVec w) (k n : ℕ) :
    stateAt step ⟨x, y, true, sobolIter w k⟩ i n
      = ⟨if n = 0 then x else BitVec.ofNat w (a.toNat - (n - 1)), if n = 0 then y else b,
          decide (¬ (2 ≤ n ∧ n ≤ a.toNat + 1)), sobolIter w (k + Spec.tempIndex free a.toNat n)⟩ := by
  obtain ⟨h1, h2, h3, h4, h5⟩ := h
  have ha := a.isLt
  induction n with
  | zero => cases free <;> rfl
  | succ n ih =>
      rw [stateAt_succ, hs, ih]
      unfold Rtl.tmulNext
      have eR : Rtl.sobolNext (sobolIter w (k + Spec.tempIndex free a.toNat n)) (free || !decide (¬ (2 ≤ n ∧ n ≤ a.toNat + 1)))
          = sobolIter w (k + Spec.tempIndex free a.toNat (n + 1)) := by
        unfold Spec.tempIndex
        cases free
        · by_cases hh : 2 ≤ n ∧ n ≤ a.toNat + 1
          · have : min (n + 1 - 2) a.toNat = min (n - 2) a.toNat + 1 := by omega
            simp only [Bool.false_eq_true, if_false, this, ← Nat.add_assoc, sobolIter_succ]
            simp [hh]
          · have : min (n + 1 - 2) a.toNat = min (n - 2) a.toNat := by omega
            simp only [hh, Bool.false_or, not_false_eq_true, decide_true, Bool.not_true, sobolNext_false, Bool.false_eq_true, if_false, this]
        · simp [← Nat.add_assoc, sobolIter_succ]
      simp only [eR]
      cases n with
      | zero => simp [h1, h2, h3, h4]
      | succ n =>
          simp only [(h5 n).1, (h5 n).2, Bool.false_eq_true, if_false, Nat.add_sub_cancel, Nat.succ_ne_zero]
          have hz : (BitVec.ofNat w (a.toNat - n) ≠ 0) ↔ n < a.toNat := by
            rw [Ne, bv_zero, BitVec.toNat_ofNat, Nat.mod_eq_of_lt (by omega)]; omega
          by_cases hn : n < a.toNat
          · rw [if_pos (hz.2 hn), if_pos (hz.2 hn)]
            have e1 : BitVec.ofNat w (a.toNat - n) - 1 = BitVec.ofNat w (a.toNat - (n + 1)) := by
              apply BitVec.eq_of_toNat_eq
              rw [bv_dec, BitVec.toNat_ofNat, BitVec.toNat_ofNat, Nat.mod_eq_of_lt (by omega), Nat.mod_eq_of_lt (by omega)]
              · omega
              · rw [BitVec.toNat_ofNat, Nat.mod_eq_of_lt (by omega)]; omega
            rw [e1]
            have e2 : decide (¬ (2 ≤ n + 1 + 1 ∧ n + 1 + 1 ≤ a.toNat + 1)) = false := by
              rw [decide_eq_false_iff_not]; omega
            rw [e2]
          · rw [if_neg (fun h' => hn (hz.1 h')), if_neg (fun h' => hn (hz.1 h'))]
            have e1 : a.toNat - n = a.toNat - (n + 1) := by omega
            have e2 : decide (¬ (2 ≤ n + 1 + 1 ∧ n + 1 + 1 ≤ a.toNat + 1)) = true := by
              rw [decide_eq_true_iff]; omega
            rw [e2, e1]

/-- C77: the outputs of `tMUL_uni` and `tMUL_bi` after the load: the first operand `a` is the length of a burst of cycles
`2 .. a + 1`. -/
theorem C77_temporal_bit {w : ℕ} {a b : BitVec w} {i : ℕ → Rtl.TwoIn w} (free : Bool) (h : Spec.loaded2 a b i) (t : ℕ)
    (ht : 1 ≤ t) :
    (outAt (Rtl.tmulUniStep free) (Rtl.tmulInit w) i t = true ↔
      (2 ≤ t ∧ t ≤ a.toNat + 1) ∧ Spec.hwSobol w (Spec.tempIndex free a.toNat t) < b.toNat) ∧
    (outAt (Rtl.tmulBiStep free) (Rtl.tmulInit w) i t = true ↔
      ((2 ≤ t ∧ t ≤ a.toNat + 1) ↔ Spec.hwSobol w (Spec.tempIndex free a.toNat t) < b.toNat)) := by
  constructor
  · show (Rtl.tmulUniStep free (stateAt (Rtl.tmulUniStep free) (Rtl.tmulInit w) i t) (i t)).2 = true ↔ _
    rw [show Rtl.tmulInit w = ⟨0, 0, true, sobolIter w 0⟩ from rfl, tmul_state free (fun _ _ => rfl) h, Nat.zero_add]
    simp only [Rtl.tmulUniStep, sobol_ult, if_neg (show ¬ t = 0 by omega), Bool.and_eq_true, decide_eq_true_eq]
    by_cases hh : 2 ≤ t ∧ t ≤ a.toNat + 1 <;> simp [hh]
  · show (Rtl.tmulBiStep free (stateAt (Rtl.tmulBiStep free) (Rtl.tmulInit w) i t) (i t)).2 = true ↔ _
    rw [show Rtl.tmulInit w = ⟨0, 0, true, sobolIter w 0⟩ from rfl, tmul_state free (fun _ _ => rfl) h, Nat.zero_add]
    simp only [Rtl.tmulBiStep, sobol_ult, if_neg (show ¬ t = 0 by omega)]
    by_cases h1 : 2 ≤ t ∧ t ≤ a.toNat + 1 <;> by_cases h2 : Spec.hwSobol w (Spec.tempIndex free a.toNat t) < b.toNat <;>
      simp [h1, h2]

private theorem burst_sum (f : ℕ → ℤ) (a n : ℕ) (hn : a + 2 ≤ n) (h0 : ∀ t, ¬ (2 ≤ t ∧ t ≤ a + 1) → f t = 0) :
    Verif.Spec.ones f n = ∑ r ∈ range a, f (r + 2) := by
  obtain ⟨m, rfl⟩ : ∃ m, n = 2 + a + m := ⟨n - (2 + a), by omega⟩
  show ∑ t ∈ range (2 + a + m), f t = _
  rw [sum_range_add, sum_range_add, show range 2 = {0, 1} by rfl]
  have e : ∑ x ∈ range m, f (2 + a + x) = 0 := sum_eq_zero fun x _ => h0 _ (by omega)
  rw [e, sum_pair (by norm_num), h0 0 (by omega), h0 1 (by omega), add_zero, zero_add, zero_add]
  exact sum_congr rfl fun r _ => by rw [add_comm]

/-- C77: the ones of `tMUL_uni`, once its burst is over, are the first `a` numbers below `b`: precisely the entry `(a, b)` of
the table the Python simulation of hybrid unary-binary layers uses (first Sobol dimension). -/
theorem C77_temporal_uni {env : Env} {w : ℕ} (henv : env.sobolM = fun _ => 1) (hw0 : 1 ≤ w) (hw : w ≤ env.maxbit) {l : List ℤ}
    (hl : rng env w "sobol" = .ok l) {a b : BitVec w} {i : ℕ → Rtl.TwoIn w} (h : Spec.loaded2 a b i) (n : ℕ)
    (hn : a.toNat + 2 ≤ n) :
    Verif.Spec.ones (Spec.nums (outAt (Rtl.tmulUniStep false) (Rtl.tmulInit w) i)) n
      = Spec.firstBelow l a.toNat b.toNat := by
  have hbit := fun t => (C77_temporal_bit false h t)
  have ha := a.isLt
  rw [burst_sum _ a.toNat n hn]
  · unfold Spec.firstBelow
    rw [card_filter]; push_cast
    refine sum_congr rfl fun r hr => ?_
    have hr := mem_range.1 hr
    have h1 := num_ind (hbit (r + 2) (by omega)).1
    show Spec.num _ = _
    rw [h1]
    have e : Spec.tempIndex false a.toNat (r + 2) = 0 * 2 ^ w + r := by
      show min (r + 2 - 2) a.toNat = _
      omega
    have h2 := C66_sequence henv hw0 hw hl 0 r (by omega)
    have hnn : 0 ≤ l.getD r 0 := (py_nonneg henv hw hl (by omega : r < 2 ^ w))
    rw [e, h2]
    simp only [Nat.zero_mod, Nat.zero_ne_one, if_false, Nat.xor_zero, ind]
    have e3 : ((2 ≤ r + 2 ∧ r + 2 ≤ a.toNat + 1) ∧ (l.getD r 0).toNat < b.toNat) ↔ l.getD r 0 < (b.toNat : ℤ) := by omega
    by_cases h3 : l.getD r 0 < (b.toNat : ℤ)
    · rw [if_pos (e3.2 h3), if_pos h3]
    · rw [if_neg (fun h' => h3 (e3.1 h')), if_neg h3]
  · intro t ht
    show Spec.num _ = 0
    rcases Nat.eq_zero_or_pos t with h0 | h0
    · subst h0
      rfl
    · rw [num_ind (hbit t h0).1]
      unfold ind
      rw [if_neg (fun h' => ht h'.1)]

/-- C77: so they represent the product within `w` ones out of `2^w`. -/
theorem C77_temporal_error {w : ℕ} (hw0 : 1 ≤ w) {a b : BitVec w} {i : ℕ → Rtl.TwoIn w} (h : Spec.loaded2 a b i) (n : ℕ)
    (hn : a.toNat + 2 ≤ n) :
    |(Verif.Spec.ones (Spec.nums (outAt (Rtl.tmulUniStep false) (Rtl.tmulInit w) i)) n : ℚ)
      - a.toNat * b.toNat / 2 ^ w| ≤ w := by
  obtain ⟨l, hl, he⟩ := C46_sobol ⟨w, fun _ => 1, fun _ _ => false, []⟩ w "sobol" (by decide +kernel) dirOne (le_refl w)
  rw [C77_temporal_uni rfl hw0 (le_refl w) hl h n hn]
  exact he _ _ a.isLt.le b.isLt.le

/-- C77: a second multiplication, loaded at cycle `T` after the first has ended, takes the numbers from where the first
stopped: the generator is not restarted. -/
theorem C77_temporal_reload {w : ℕ} {a b a' b' : BitVec w} {i i' : ℕ → Rtl.TwoIn w} (h : Spec.loaded2 a b i)
    (h' : Spec.loaded2 a' b' i') (T : ℕ) (hT : a.toNat + 2 ≤ T) (n : ℕ) (hn : a'.toNat + 2 ≤ n) :
    ∑ t ∈ range n, Spec.num (outAt (Rtl.tmulUniStep false) (Rtl.tmulInit w) (fun t => if t < T then i t else i' (t - T)) (T + t))
      = ∑ r ∈ range a'.toNat, ind ((b'.toNat : ℤ) > Spec.hwSobol w (a.toNat + r)) := by
  have hst : stateAt (Rtl.tmulUniStep false) (Rtl.tmulInit w) (fun t => if t < T then i t else i' (t - T)) T
      = ⟨BitVec.ofNat w (a.toNat - (T - 1)), b, true, sobolIter w a.toNat⟩ := by
    rw [stateAt_agree (x' := i) (fun t ht => if_pos ht), show Rtl.tmulInit w = ⟨0, 0, true, sobolIter w 0⟩ from rfl,
      tmul_state false (fun _ _ => rfl) h, Nat.zero_add, if_neg (by omega), if_neg (by omega)]
    have e1 : decide (¬ (2 ≤ T ∧ T ≤ a.toNat + 1)) = true := by rw [decide_eq_true_iff]; omega
    have e2 : Spec.tempIndex false a.toNat T = a.toNat := by
      show min (T - 2) a.toNat = _
      omega
    rw [e1, e2]
  have hbit : ∀ t, Spec.num (outAt (Rtl.tmulUniStep false) (Rtl.tmulInit w) (fun t => if t < T then i t else i' (t - T)) (T + t))
      = if 2 ≤ t ∧ t ≤ a'.toNat + 1 then ind ((b'.toNat : ℤ) > Spec.hwSobol w (a.toNat + (t - 2))) else 0 := by
    intro t
    show Spec.num (Rtl.tmulUniStep false (stateAt (Rtl.tmulUniStep false) (Rtl.tmulInit w)
      (fun t => if t < T then i t else i' (t - T)) (T + t)) _).2 = _
    rw [stateAt_add, hst]
    have e : (fun t => (fun t => if t < T then i t else i' (t - T)) (T + t)) = i' := by
      funext t; simp
    rw [e, tmul_state false (fun _ _ => rfl) h']
    simp only [Rtl.tmulUniStep, sobol_ult]
    by_cases hh : 2 ≤ t ∧ t ≤ a'.toNat + 1
    · have e2 : Spec.tempIndex false a'.toNat t = t - 2 := by
        show min (t - 2) a'.toNat = _
        omega
      rw [if_neg (show ¬ t = 0 by omega), e2, if_pos hh]
      simp [hh, ind, Spec.num]
    · rw [if_neg hh]
      simp [hh, Spec.num]
  rw [sum_congr rfl fun t _ => hbit t]
  have := burst_sum (fun t => if 2 ≤ t ∧ t ≤ a'.toNat + 1 then ind ((b'.toNat : ℤ) > Spec.hwSobol w (a.toNat + (t - 2))) else 0)
    a'.toNat n hn (fun t ht => if_neg ht)
  refine Eq.trans this (sum_congr rfl fun r hr => ?_)
  have := mem_range.1 hr
  show (if _ then _ else _) = _
  rw [if_pos (by omega), Nat.add_sub_cancel]

/-- C77: after the burst the generator of `tMUL_bi` stands still, so its output is constant from then on, whatever `b`. -/
theorem C77_temporal_bi_stuck {w : ℕ} {a b : BitVec w} {i : ℕ → Rtl.TwoIn w} (h : Spec.loaded2 a b i) (t : ℕ)
    (ht : a.toNat + 2 ≤ t) :
    outAt (Rtl.tmulBiStep false) (Rtl.tmulInit w) i t = decide (b.toNat ≤ Spec.hwSobol w a.toNat) := by
  have h1 := (C77_temporal_bit false h t (by omega)).2
  have e : Spec.tempIndex false a.toNat t = a.toNat := by
    show min (t - 2) a.toNat = _
    omega
  rw [e] at h1
  rw [Bool.eq_iff_iff, h1, decide_eq_true_eq]
  have : ¬ (2 ≤ t ∧ t ≤ a.toNat + 1) := by omega
  simp only [this, false_iff]; omega

/-! ## Examples -/

/-- Operands loaded in cycle 0. -/
private def ld (w a b : ℕ) : ℕ → Rtl.TwoIn w := fun t => ⟨BitVec.ofNat w a, BitVec.ofNat w b, decide (t = 0), decide (t = 0)⟩

private theorem ld_loaded (w a b : ℕ) : Spec.loaded2 (BitVec.ofNat w a) (BitVec.ofNat w b) (ld w a b) :=
  ⟨rfl, rfl, rfl, rfl, fun _ => ⟨rfl, rfl⟩⟩

/-- Three bits, operands 4/8 and 4/8: the Gaines multiplier gives 4 ones in 8 cycles instead of 2. -/
example : Spec.periodOnes 3 (outAt Rtl.gmulUniStep (Rtl.gmulInit 3) (ld 3 4 4)) 1 = 4 :=
  C77_gaines_uni (by norm_num) (ld_loaded 3 4 4) 1 (le_refl 1)

/-- Bipolar 0 times 0: 8 ones in 8 cycles, the value 1. -/
example : Spec.periodOnes 3 (outAt Rtl.gmulBiStep (Rtl.gmulInit 3) (ld 3 4 4)) 1 = 8 := by
  rw [C77_gaines_bi (by norm_num) (ld_loaded 3 4 4) 1 (le_refl 1)]; decide

example : ¬ ((Spec.periodOnes 3 (outAt Rtl.gmulUniStep (Rtl.gmulInit 3) (ld 3 4 4)) 1 / 2 ^ 3 : ℚ)
    = ((BitVec.ofNat 3 4).toNat / 2 ^ 3) * ((BitVec.ofNat 3 4).toNat / 2 ^ 3)) := by
  rw [C77_gaines_uni_not_product (by norm_num) (ld_loaded 3 4 4) 1 (le_refl 1)]; decide

example : ¬ ((2 * (Spec.periodOnes 3 (outAt Rtl.gmulBiStep (Rtl.gmulInit 3) (ld 3 4 4)) 1 / 2 ^ 3) - 1 : ℚ)
    = (2 * ((BitVec.ofNat 3 4).toNat / 2 ^ 3) - 1) * (2 * ((BitVec.ofNat 3 4).toNat / 2 ^ 3) - 1)) := by
  rw [C77_gaines_bi_not_product (by norm_num) (ld_loaded 3 4 4) 1 (le_refl 1)]; decide

/-- 5/8 times 1/8 with the deterministic multiplier: 5 ones in 8 cycles. -/
example : Spec.periodOnes 3 (outAt Rtl.dmulUniStep (Rtl.dmulInit 3) (ld 3 5 1)) 2 = 5 := by
  rw [C77_deterministic_uni (by norm_num) (ld_loaded 3 5 1) 2 (by norm_num) (by norm_num)]; decide

/-- In the second round of 8 periods the same operands give none (the constant is 5). -/
example : Spec.periodOnes 3 (outAt Rtl.dmulUniStep (Rtl.dmulInit 3) (ld 3 5 1)) 9 = 0 := by
  rw [C77_deterministic_uni (by norm_num) (ld_loaded 3 5 1) 9 (by norm_num) (by norm_num)]; decide

example : Spec.periodOnes 3 (outAt Rtl.dmulBiStep (Rtl.dmulInit 3) (ld 3 5 0)) 2 = 3 := by
  rw [C77_deterministic_bi (by norm_num) (ld_loaded 3 5 0) 2 (by norm_num) (by norm_num)]; decide

/-- 5/8 times 4/8 with the temporal multiplier: 3 ones (2.5 expected). -/
example : Verif.Spec.ones (Spec.nums (outAt (Rtl.tmulUniStep false) (Rtl.tmulInit 3) (ld 3 5 4))) 7 = 3 := by decide +kernel

example : |(Verif.Spec.ones (Spec.nums (outAt (Rtl.tmulUniStep false) (Rtl.tmulInit 3) (ld 3 5 4))) 7 : ℚ)
    - (BitVec.ofNat 3 5).toNat * (BitVec.ofNat 3 4).toNat / 2 ^ 3| ≤ ((3 : ℕ) : ℚ) :=
  C77_temporal_error (by norm_num) (ld_loaded 3 5 4) 7 (by decide)

/-- The same product `1 * 1` twice: one one the first time (number 0), none the second time (number 4). -/
example : ∑ t ∈ range 3, Spec.num (outAt (Rtl.tmulUniStep false) (Rtl.tmulInit 3)
      (fun t => if t < 3 then ld 3 1 1 t else ld 3 1 1 (t - 3)) (3 + t)) = 0 ∧
    Verif.Spec.ones (Spec.nums (outAt (Rtl.tmulUniStep false) (Rtl.tmulInit 3) (ld 3 1 1))) 3 = 1 := by
  rw [C77_temporal_reload (ld_loaded 3 1 1) (ld_loaded 3 1 1) 3 (by decide) 3 (by decide)]
  exact ⟨by decide +kernel, by decide +kernel⟩

/-- Bipolar operands `2/8` and `5/8`: from cycle 4 on the output is the constant one or zero. -/
example (t : ℕ) (ht : 4 ≤ t) : outAt (Rtl.tmulBiStep false) (Rtl.tmulInit 3) (ld 3 2 5) t = true :=
  (C77_temporal_bi_stuck (ld_loaded 3 2 5) t ht).trans (by decide +kernel)

end Verif.Props
