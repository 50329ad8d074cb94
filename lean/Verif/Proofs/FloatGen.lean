import Verif.Model.FloatGen
import Verif.Proofs.Float

/-!
# Rounding to any precision
-/

namespace Verif.Spec

/-- The numbers of a floating-point type (and their continuation beyond the largest). -/
def IsFloat (P : Float.Prec) (v : ℚ) : Prop := ∃ m e : ℤ, |m| ≤ 2 ^ (P.p + 1) ∧ P.emin ≤ e ∧ v = m * (2:ℚ) ^ e

end Verif.Spec

namespace Verif.Float.Prec

open Verif Spec

variable {P : Prec}

theorem exp_ge (P : Prec) (x : ℚ) : P.emin ≤ P.exp x := le_max_right _ _

/-- Size of the scaled argument. -/
theorem rd_scaled_lt (P : Prec) (x : ℚ) : |x / (2:ℚ) ^ P.exp x| < 2 ^ (P.p + 1) := by
  have hp := two_zpow_pos (P.exp x)
  rw [abs_div, abs_of_pos hp, div_lt_iff₀ hp]
  have h1 := Int.lt_zpow_succ_log_self (b := 2) (by norm_num) |x|
  refine lt_of_lt_of_le h1 ?_
  rw [show ((2:ℚ) ^ (P.p + 1)) = (2:ℚ) ^ ((P.p + 1 : ℕ) : ℤ) from (zpow_natCast _ _).symm, ← zpow_add₀ (by norm_num)]
  apply zpow_le_zpow_right₀ (by norm_num)
  have := le_max_left (Int.log 2 |x| - P.p) (P.emin)
  unfold Prec.exp; omega

/-- If the exponent is not the least one, the argument has full size. -/
theorem rd_scaled_ge {x : ℚ} (hx : x ≠ 0) (h : P.exp x ≠ P.emin) : (2:ℚ) ^ P.p * (2:ℚ) ^ P.exp x ≤ |x| := by
  have he : P.exp x = Int.log 2 |x| - P.p := by
    unfold Prec.exp at h ⊢
    rcases le_total (Int.log 2 |x| - P.p) (P.emin) with h' | h'
    · exact absurd (max_eq_right h') h
    · exact max_eq_left h'
  rw [he, show ((2:ℚ) ^ P.p) = (2:ℚ) ^ ((P.p : ℕ) : ℤ) from (zpow_natCast _ _).symm, ← zpow_add₀ (by norm_num), add_sub_cancel]
  exact Int.zpow_log_le_self (by norm_num) (abs_pos.2 hx)

theorem rd_isF (P : Prec) (x : ℚ) : Spec.IsFloat P (P.rd x) := by
  refine ⟨roundHE (x / (2:ℚ) ^ P.exp x), P.exp x, ?_, exp_ge P x, rfl⟩
  have h := rd_scaled_lt P x
  rw [abs_lt] at h
  rw [abs_le]
  constructor
  · have := roundHE_mono (le_of_lt h.1)
    rw [show (-(2:ℚ) ^ (P.p + 1)) = ((-2 ^ (P.p + 1) : ℤ) : ℚ) by norm_num, roundHE_of_int] at this
    exact this
  · have := roundHE_mono (le_of_lt h.2)
    rw [show ((2:ℚ) ^ (P.p + 1)) = ((2 ^ (P.p + 1) : ℤ) : ℚ) by norm_num, roundHE_of_int] at this
    exact this

/-- A number with `|v| ≤ 2^(24+e)` on the grid `2^e` is rounded to itself. -/
theorem rd_grid {v : ℚ} {m e : ℤ} (hm : |m| ≤ 2 ^ (P.p + 1)) (he : P.emin ≤ e) (hv : v = m * (2:ℚ) ^ e) : P.rd v = v := by
  by_cases h0 : m = 0
  · subst h0; rw [hv]; unfold Prec.rd; simp [roundHE]
  -- the scaled argument is an integer
  suffices h : ∃ k : ℤ, v / (2:ℚ) ^ P.exp v = k by
    obtain ⟨k, hk⟩ := h
    have hp := two_zpow_pos (P.exp v)
    unfold Prec.rd
    rw [hk, roundHE_of_int, ← hk]
    field_simp
  have hle : P.exp v ≤ e ∨ |m| = 2 ^ (P.p + 1) := by
    by_cases hM : |m| = 2 ^ (P.p + 1)
    · exact Or.inr hM
    left
    have hlt : |m| < 2 ^ (P.p + 1) := lt_of_le_of_ne hm hM
    unfold Prec.exp
    refine max_le ?_ he
    have hvpos : 0 < |v| := by
      rw [hv, abs_pos]; exact mul_ne_zero (by exact_mod_cast h0) (ne_of_gt (two_zpow_pos e))
    have : |v| < (2:ℚ) ^ (((P.p + 1 : ℕ) : ℤ) + e) := by
      rw [hv, abs_mul, abs_of_pos (two_zpow_pos e), zpow_add₀ (by norm_num)]
      apply mul_lt_mul_of_pos_right _ (two_zpow_pos e)
      have : ((|m| : ℤ) : ℚ) < ((2 ^ (P.p + 1) : ℤ) : ℚ) := by exact_mod_cast hlt
      rw [Int.cast_abs] at this
      exact lt_of_lt_of_le this (by rw [zpow_natCast]; push_cast; exact le_refl _)
    have := (Int.lt_zpow_iff_log_lt (b := 2) (by norm_num) hvpos).1 (by exact_mod_cast this)
    omega
  have hexp : P.exp v ≤ e + 1 ∧ (|m| = 2 ^ (P.p + 1) ∨ P.exp v ≤ e) := by
    rcases hle with h | h
    · exact ⟨by omega, Or.inr h⟩
    · refine ⟨?_, Or.inl h⟩
      unfold Prec.exp
      refine max_le ?_ (by omega)
      have : |v| = (2:ℚ) ^ (((P.p + 1 : ℕ) : ℤ) + e) := by
        rw [hv, abs_mul, abs_of_pos (two_zpow_pos e), zpow_add₀ (by norm_num), ← Int.cast_abs, h, zpow_natCast]
        push_cast; rfl
      rw [this]
      have := Int.log_zpow (R := ℚ) (b := 2) (by norm_num) (((P.p + 1 : ℕ) : ℤ) + e)
      have h2 : Int.log 2 ((2:ℚ) ^ (((P.p + 1 : ℕ) : ℤ) + e)) = ((P.p + 1 : ℕ) : ℤ) + e := by exact_mod_cast this
      rw [h2]; omega
  have key : ∀ d : ℕ, e = P.exp v + d → ∃ k : ℤ, v / (2:ℚ) ^ P.exp v = k := by
    intro d hd
    refine ⟨m * 2 ^ d, ?_⟩
    rw [div_eq_iff (ne_of_gt (two_zpow_pos _))]
    conv_lhs => rw [hv, hd, zpow_add₀ (by norm_num)]
    push_cast
    rw [zpow_natCast]; ring
  rcases hexp with ⟨h1, h2 | h2⟩
  · by_cases h3 : P.exp v ≤ e
    · exact key (e - P.exp v).toNat (by omega)
    · have h4 : P.exp v = e + 1 := by omega
      have : (2:ℤ) ∣ m := by
        rw [← dvd_abs, h2]; exact dvd_pow_self _ (Nat.succ_ne_zero _)
      obtain ⟨k, hk⟩ := this
      refine ⟨k, ?_⟩
      rw [div_eq_iff (ne_of_gt (two_zpow_pos _)), h4, zpow_add₀ (by norm_num)]
      conv_lhs => rw [hv, hk]
      push_cast; ring
  · exact key (e - P.exp v).toNat (by omega)

theorem rd_of_isF {v : ℚ} (h : Spec.IsFloat P v) : P.rd v = v := by
  obtain ⟨m, e, hm, he, hv⟩ := h
  exact rd_grid hm he hv

theorem rd_idem (P : Prec) (x : ℚ) : P.rd (P.rd x) = P.rd x := rd_of_isF (rd_isF P x)

theorem isF_iff (v : ℚ) : Spec.IsFloat P v ↔ P.rd v = v := ⟨rd_of_isF, fun h => h ▸ rd_isF P v⟩

theorem isF_int (hP : P.emin ≤ 0) {n : ℤ} (h : |n| ≤ 2 ^ (P.p + 1)) : Spec.IsFloat P n := ⟨n, 0, h, hP, by simp⟩

theorem rd_int (hP : P.emin ≤ 0) {n : ℤ} (h : |n| ≤ 2 ^ (P.p + 1)) : P.rd n = n := rd_of_isF (isF_int hP h)

theorem isF_neg {v : ℚ} (h : Spec.IsFloat P v) : Spec.IsFloat P (-v) := by
  obtain ⟨m, e, hm, he, hv⟩ := h
  exact ⟨-m, e, by rwa [abs_neg], he, by rw [hv]; push_cast; ring⟩

theorem exp_neg (P : Prec) (x : ℚ) : P.exp (-x) = P.exp x := by unfold Prec.exp; rw [abs_neg]

theorem rd_neg (P : Prec) (x : ℚ) : P.rd (-x) = - P.rd x := by
  unfold Prec.rd
  rw [exp_neg, neg_div, roundHE_neg]; push_cast; ring

@[simp] theorem rd_zero (P : Prec) : P.rd 0 = 0 := by unfold rd; simp [roundHE]

theorem isF_zero (P : Prec) : Spec.IsFloat P 0 := ⟨0, P.emin, by simp, le_refl _, by simp⟩

/-- The error is at most half a unit in the last place. -/
theorem rd_error (P : Prec) (x : ℚ) : |P.rd x - x| ≤ (2:ℚ) ^ P.exp x / 2 := by
  have hp := two_zpow_pos (P.exp x)
  have h := roundHE_sub_le (x / (2:ℚ) ^ P.exp x)
  have e : P.rd x - x = (roundHE (x / (2:ℚ) ^ P.exp x) - x / (2:ℚ) ^ P.exp x) * (2:ℚ) ^ P.exp x := by
    unfold Prec.rd
    field_simp
  rw [e, abs_mul, abs_of_pos hp]
  calc _ ≤ (1/2) * (2:ℚ) ^ P.exp x := mul_le_mul_of_nonneg_right h (le_of_lt hp)
    _ = _ := by ring

/-- A representable upper bound stays an upper bound. -/
theorem rd_le {x v : ℚ} (hv : Spec.IsFloat P v) (h : x ≤ v) : P.rd x ≤ v := by
  by_cases hx : x = 0
  · rw [hx, rd_zero, ← hx]; exact h
  obtain ⟨m, e, hm, he, rfl⟩ := hv
  have hp := two_zpow_pos (P.exp x)
  rcases le_or_gt (P.exp x) e with h1 | h1
  · -- the bound is on the grid
    have : ((m : ℚ) * (2:ℚ) ^ e) = ((m * 2 ^ (e - P.exp x).toNat : ℤ) : ℚ) * (2:ℚ) ^ P.exp x := by
      have : e = ((e - P.exp x).toNat : ℤ) + P.exp x := by omega
      conv_lhs => rw [this, zpow_add₀ (by norm_num), zpow_natCast]
      push_cast; ring
    rw [this] at h ⊢
    unfold Prec.rd
    apply mul_le_mul_of_nonneg_right _ (le_of_lt hp)
    have h2 := roundHE_mono ((div_le_iff₀ hp).2 h)
    rw [roundHE_of_int] at h2
    exact_mod_cast h2
  · have hne : P.exp x ≠ P.emin := by omega
    have hbig := rd_scaled_ge hx hne
    have hvle : |(m:ℚ) * (2:ℚ) ^ e| ≤ (2:ℚ) ^ P.p * (2:ℚ) ^ P.exp x := by
      rw [abs_mul, abs_of_pos (two_zpow_pos e)]
      have h3 : (|m| : ℚ) ≤ 2 ^ (P.p + 1) := by rw [← Int.cast_abs]; exact_mod_cast hm
      have h4 : (2:ℚ) ^ (e + 1) ≤ (2:ℚ) ^ P.exp x := zpow_le_zpow_right₀ (by norm_num) (by omega)
      rw [zpow_add₀ (by norm_num), zpow_one] at h4
      calc |(m:ℚ)| * (2:ℚ) ^ e ≤ 2 ^ (P.p + 1) * (2:ℚ) ^ e := mul_le_mul_of_nonneg_right h3 (le_of_lt (two_zpow_pos e))
        _ = 2 ^ P.p * ((2:ℚ) ^ e * 2) := by ring
        _ ≤ _ := mul_le_mul_of_nonneg_left h4 (by norm_num)
    rcases le_or_gt 0 x with h0 | h0
    · -- then `x` is the bound itself
      rw [abs_of_nonneg h0] at hbig
      have : x = m * (2:ℚ) ^ e := le_antisymm h ((le_abs_self _).trans (hvle.trans hbig))
      rw [← this, rd_grid hm he this]
    · rw [abs_of_neg h0] at hbig
      have h2 : x / (2:ℚ) ^ P.exp x ≤ ((-2 ^ P.p : ℤ) : ℚ) := by
        rw [div_le_iff₀ hp]; push_cast; linarith
      have h3 := roundHE_mono h2
      rw [roundHE_of_int] at h3
      have h4 : (roundHE (x / (2:ℚ) ^ P.exp x) : ℚ) ≤ -2 ^ P.p := by
        have : ((roundHE (x / (2:ℚ) ^ P.exp x) : ℤ) : ℚ) ≤ ((-2 ^ P.p : ℤ) : ℚ) := by exact_mod_cast h3
        exact this.trans (by norm_num)
      calc P.rd x ≤ -2 ^ P.p * (2:ℚ) ^ P.exp x := mul_le_mul_of_nonneg_right h4 (le_of_lt hp)
        _ ≤ _ := by have := neg_abs_le ((m:ℚ) * (2:ℚ) ^ e); linarith

theorem le_rd {x v : ℚ} (hv : Spec.IsFloat P v) (h : v ≤ x) : v ≤ P.rd x := by
  have := rd_le (isF_neg hv) (neg_le_neg h)
  rw [rd_neg] at this
  linarith

theorem isF_two_zpow {k : ℤ} (h : P.emin ≤ k) : Spec.IsFloat P ((2:ℚ) ^ k) := ⟨1, k, by rw [abs_one]; exact one_le_pow₀ (by norm_num), h, by simp⟩

theorem rd_mono_nonneg {x y : ℚ} (h0 : 0 ≤ x) (h : x ≤ y) : P.rd x ≤ P.rd y := by
  rcases eq_or_lt_of_le h0 with rfl | hx
  · rw [rd_zero]; exact le_rd (isF_zero P) h
  have hy : 0 < y := lt_of_lt_of_le hx h
  have hl : Int.log 2 x ≤ Int.log 2 y := Int.log_mono_right hx h
  by_cases he : P.exp x = P.exp y
  · unfold Prec.rd
    rw [he]
    have hp := two_zpow_pos (P.exp y)
    apply mul_le_mul_of_nonneg_right _ (le_of_lt hp)
    exact_mod_cast roundHE_mono (div_le_div_of_nonneg_right h (le_of_lt hp))
  · -- a power of two lies between the two numbers
    have hlt : Int.log 2 x < Int.log 2 y := by
      rcases lt_or_eq_of_le hl with h' | h'
      · exact h'
      · exact absurd (by unfold Prec.exp; rw [abs_of_pos hx, abs_of_pos hy, h']) he
    have hk : P.emin ≤ Int.log 2 y := by
      by_contra hc
      apply he
      unfold Prec.exp
      rw [abs_of_pos hx, abs_of_pos hy, max_eq_right (by omega), max_eq_right (by omega)]
    have h1 : x ≤ (2:ℚ) ^ Int.log 2 y := by
      have := (Int.lt_zpow_iff_log_lt (b := 2) (by norm_num) hx).2 hlt
      exact le_of_lt (by exact_mod_cast this)
    have h2 : (2:ℚ) ^ Int.log 2 y ≤ y := by
      have := Int.zpow_log_le_self (b := 2) (by norm_num) hy
      exact_mod_cast this
    exact (rd_le (isF_two_zpow hk) h1).trans (le_rd (isF_two_zpow hk) h2)

theorem rd_mono {x y : ℚ} (h : x ≤ y) : P.rd x ≤ P.rd y := by
  rcases le_total 0 x with h0 | h0
  · exact rd_mono_nonneg (P := P) h0 h
  rcases le_total 0 y with h1 | h1
  · have z : Spec.IsFloat P 0 := (isF_zero P)
    exact (rd_le z h0).trans (le_rd z h1)
  · have := rd_mono_nonneg (P := P) (neg_nonneg.2 h1) (neg_le_neg h)
    rw [rd_neg, rd_neg] at this
    linarith

/-- Relative error `2^-24`, absolute error `2^-150` in the subnormal range. -/
theorem rd_error_rel (P : Prec) (x : ℚ) : |P.rd x - x| ≤ max (|x| / 2 ^ (P.p + 1)) ((2:ℚ) ^ (P.emin - 1)) := by
  by_cases hx : x = 0
  · subst hx; simp
  refine (rd_error P x).trans ?_
  by_cases h : P.exp x = P.emin
  · refine le_trans (le_of_eq ?_) (le_max_right _ _)
    rw [h, zpow_sub₀ (by norm_num), zpow_one]
  · refine le_trans ?_ (le_max_left _ _)
    have := rd_scaled_ge hx h
    rw [div_le_div_iff₀ (by norm_num) (by positivity), pow_succ]
    linarith

end Verif.Float.Prec
