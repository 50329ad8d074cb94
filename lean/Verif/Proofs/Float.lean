import Verif.Model.Float

/-!
# Binary32 rounding
-/

namespace Verif.Spec

/-- The finite binary32 numbers (and their continuation beyond `2^128`). -/
def IsF32 (v : ℚ) : Prop := ∃ m e : ℤ, |m| ≤ 2 ^ 24 ∧ -149 ≤ e ∧ v = m * (2:ℚ) ^ e

end Verif.Spec

namespace Verif.Float

open Verif Spec

theorem two_zpow_pos (e : ℤ) : (0:ℚ) < (2:ℚ) ^ e := zpow_pos (by norm_num) _

theorem flExp_ge (x : ℚ) : -149 ≤ flExp x := le_max_right _ _

/-- Size of the scaled argument. -/
theorem fl_scaled_lt (x : ℚ) : |x / (2:ℚ) ^ flExp x| < 2 ^ 24 := by
  have hp := two_zpow_pos (flExp x)
  rw [abs_div, abs_of_pos hp, div_lt_iff₀ hp]
  have h1 := Int.lt_zpow_succ_log_self (b := 2) (by norm_num) |x|
  refine lt_of_lt_of_le h1 ?_
  rw [show ((2:ℚ) ^ 24) = (2:ℚ) ^ (24:ℤ) by norm_num, ← zpow_add₀ (by norm_num)]
  apply zpow_le_zpow_right₀ (by norm_num)
  have := le_max_left (Int.log 2 |x| - 23) (-149)
  unfold flExp; omega

/-- If the exponent is not the least one, the argument has full size. -/
theorem fl_scaled_ge {x : ℚ} (hx : x ≠ 0) (h : flExp x ≠ -149) : (2:ℚ) ^ 23 * (2:ℚ) ^ flExp x ≤ |x| := by
  have he : flExp x = Int.log 2 |x| - 23 := by
    unfold flExp at h ⊢
    rcases le_total (Int.log 2 |x| - 23) (-149) with h' | h'
    · exact absurd (max_eq_right h') h
    · exact max_eq_left h'
  rw [he, show ((2:ℚ) ^ 23) = (2:ℚ) ^ (23:ℤ) by norm_num, ← zpow_add₀ (by norm_num), add_sub_cancel]
  exact Int.zpow_log_le_self (by norm_num) (abs_pos.2 hx)

theorem fl_isF32 (x : ℚ) : IsF32 (fl x) := by
  refine ⟨roundHE (x / (2:ℚ) ^ flExp x), flExp x, ?_, flExp_ge x, rfl⟩
  have h := fl_scaled_lt x
  rw [abs_lt] at h
  rw [abs_le]
  constructor
  · have := roundHE_mono (le_of_lt h.1)
    rw [show (-(2:ℚ) ^ 24) = ((-2 ^ 24 : ℤ) : ℚ) by norm_num, roundHE_of_int] at this
    exact this
  · have := roundHE_mono (le_of_lt h.2)
    rw [show ((2:ℚ) ^ 24) = ((2 ^ 24 : ℤ) : ℚ) by norm_num, roundHE_of_int] at this
    exact this

/-- A number with `|v| ≤ 2^(24+e)` on the grid `2^e` is rounded to itself. -/
theorem fl_grid {v : ℚ} {m e : ℤ} (hm : |m| ≤ 2 ^ 24) (he : -149 ≤ e) (hv : v = m * (2:ℚ) ^ e) : fl v = v := by
  by_cases h0 : m = 0
  · subst h0; rw [hv]; unfold fl; simp [roundHE]
  -- the scaled argument is an integer
  suffices h : ∃ k : ℤ, v / (2:ℚ) ^ flExp v = k by
    obtain ⟨k, hk⟩ := h
    have hp := two_zpow_pos (flExp v)
    unfold fl
    rw [hk, roundHE_of_int, ← hk]
    field_simp
  have hle : flExp v ≤ e ∨ |m| = 2 ^ 24 := by
    by_cases hM : |m| = 2 ^ 24
    · exact Or.inr hM
    left
    have hlt : |m| < 2 ^ 24 := lt_of_le_of_ne hm hM
    unfold flExp
    refine max_le ?_ he
    have hvpos : 0 < |v| := by
      rw [hv, abs_pos]; exact mul_ne_zero (by exact_mod_cast h0) (ne_of_gt (two_zpow_pos e))
    have : |v| < (2:ℚ) ^ (24 + e) := by
      rw [hv, abs_mul, abs_of_pos (two_zpow_pos e), zpow_add₀ (by norm_num)]
      apply mul_lt_mul_of_pos_right _ (two_zpow_pos e)
      have : ((|m| : ℤ) : ℚ) < ((2 ^ 24 : ℤ) : ℚ) := by exact_mod_cast hlt
      rw [Int.cast_abs] at this
      exact lt_of_lt_of_le this (by norm_num)
    have := (Int.lt_zpow_iff_log_lt (b := 2) (by norm_num) hvpos).1 (by exact_mod_cast this)
    omega
  have hexp : flExp v ≤ e + 1 ∧ (|m| = 2 ^ 24 ∨ flExp v ≤ e) := by
    rcases hle with h | h
    · exact ⟨by omega, Or.inr h⟩
    · refine ⟨?_, Or.inl h⟩
      unfold flExp
      refine max_le ?_ (by omega)
      have : |v| = (2:ℚ) ^ (24 + e) := by
        rw [hv, abs_mul, abs_of_pos (two_zpow_pos e), zpow_add₀ (by norm_num), ← Int.cast_abs, h]
        norm_num
      rw [this]
      have := Int.log_zpow (R := ℚ) (b := 2) (by norm_num) (24 + e)
      have h2 : Int.log 2 ((2:ℚ) ^ (24 + e)) = 24 + e := by exact_mod_cast this
      rw [h2]; omega
  have key : ∀ d : ℕ, e = flExp v + d → ∃ k : ℤ, v / (2:ℚ) ^ flExp v = k := by
    intro d hd
    refine ⟨m * 2 ^ d, ?_⟩
    rw [div_eq_iff (ne_of_gt (two_zpow_pos _))]
    conv_lhs => rw [hv, hd, zpow_add₀ (by norm_num)]
    push_cast
    rw [zpow_natCast]; ring
  rcases hexp with ⟨h1, h2 | h2⟩
  · by_cases h3 : flExp v ≤ e
    · exact key (e - flExp v).toNat (by omega)
    · have h4 : flExp v = e + 1 := by omega
      have : (2:ℤ) ∣ m := by
        rw [← dvd_abs, h2]; norm_num
      obtain ⟨k, hk⟩ := this
      refine ⟨k, ?_⟩
      rw [div_eq_iff (ne_of_gt (two_zpow_pos _)), h4, zpow_add₀ (by norm_num)]
      conv_lhs => rw [hv, hk]
      push_cast; ring
  · exact key (e - flExp v).toNat (by omega)

theorem fl_of_isF32 {v : ℚ} (h : IsF32 v) : fl v = v := by
  obtain ⟨m, e, hm, he, hv⟩ := h
  exact fl_grid hm he hv

theorem fl_idem (x : ℚ) : fl (fl x) = fl x := fl_of_isF32 (fl_isF32 x)

theorem isF32_iff (v : ℚ) : IsF32 v ↔ fl v = v := ⟨fl_of_isF32, fun h => h ▸ fl_isF32 v⟩

theorem isF32_int {n : ℤ} (h : |n| ≤ 2 ^ 24) : IsF32 n := ⟨n, 0, h, by norm_num, by simp⟩

theorem fl_int {n : ℤ} (h : |n| ≤ 2 ^ 24) : fl n = n := fl_of_isF32 (isF32_int h)

theorem isF32_neg {v : ℚ} (h : IsF32 v) : IsF32 (-v) := by
  obtain ⟨m, e, hm, he, hv⟩ := h
  exact ⟨-m, e, by rwa [abs_neg], he, by rw [hv]; push_cast; ring⟩

theorem flExp_neg (x : ℚ) : flExp (-x) = flExp x := by unfold flExp; rw [abs_neg]

theorem fl_neg (x : ℚ) : fl (-x) = - fl x := by
  unfold fl
  rw [flExp_neg, neg_div, roundHE_neg]; push_cast; ring

@[simp] theorem fl_zero : fl 0 = 0 := by simpa using fl_int (n := 0) (by norm_num)

/-- The error is at most half a unit in the last place. -/
theorem fl_error (x : ℚ) : |fl x - x| ≤ (2:ℚ) ^ flExp x / 2 := by
  have hp := two_zpow_pos (flExp x)
  have h := roundHE_sub_le (x / (2:ℚ) ^ flExp x)
  have e : fl x - x = (roundHE (x / (2:ℚ) ^ flExp x) - x / (2:ℚ) ^ flExp x) * (2:ℚ) ^ flExp x := by
    unfold fl
    field_simp
  rw [e, abs_mul, abs_of_pos hp]
  calc _ ≤ (1/2) * (2:ℚ) ^ flExp x := mul_le_mul_of_nonneg_right h (le_of_lt hp)
    _ = _ := by ring

/-- A representable upper bound stays an upper bound. -/
theorem fl_le {x v : ℚ} (hv : IsF32 v) (h : x ≤ v) : fl x ≤ v := by
  by_cases hx : x = 0
  · rw [hx, fl_zero, ← hx]; exact h
  obtain ⟨m, e, hm, he, rfl⟩ := hv
  have hp := two_zpow_pos (flExp x)
  rcases le_or_gt (flExp x) e with h1 | h1
  · -- the bound is on the grid
    have : ((m : ℚ) * (2:ℚ) ^ e) = ((m * 2 ^ (e - flExp x).toNat : ℤ) : ℚ) * (2:ℚ) ^ flExp x := by
      have : e = ((e - flExp x).toNat : ℤ) + flExp x := by omega
      conv_lhs => rw [this, zpow_add₀ (by norm_num), zpow_natCast]
      push_cast; ring
    rw [this] at h ⊢
    unfold fl
    apply mul_le_mul_of_nonneg_right _ (le_of_lt hp)
    have h2 := roundHE_mono ((div_le_iff₀ hp).2 h)
    rw [roundHE_of_int] at h2
    exact_mod_cast h2
  · have hne : flExp x ≠ -149 := by omega
    have hbig := fl_scaled_ge hx hne
    have hvle : |(m:ℚ) * (2:ℚ) ^ e| ≤ (2:ℚ) ^ 23 * (2:ℚ) ^ flExp x := by
      rw [abs_mul, abs_of_pos (two_zpow_pos e)]
      have h3 : (|m| : ℚ) ≤ 2 ^ 24 := by rw [← Int.cast_abs]; exact_mod_cast hm
      have h4 : (2:ℚ) ^ (e + 1) ≤ (2:ℚ) ^ flExp x := zpow_le_zpow_right₀ (by norm_num) (by omega)
      rw [zpow_add₀ (by norm_num), zpow_one] at h4
      calc |(m:ℚ)| * (2:ℚ) ^ e ≤ 2 ^ 24 * (2:ℚ) ^ e := mul_le_mul_of_nonneg_right h3 (le_of_lt (two_zpow_pos e))
        _ = 2 ^ 23 * ((2:ℚ) ^ e * 2) := by ring
        _ ≤ _ := mul_le_mul_of_nonneg_left h4 (by norm_num)
    rcases le_or_gt 0 x with h0 | h0
    · -- then `x` is the bound itself
      rw [abs_of_nonneg h0] at hbig
      have : x = m * (2:ℚ) ^ e := le_antisymm h ((le_abs_self _).trans (hvle.trans hbig))
      rw [← this, fl_grid hm he this]
    · rw [abs_of_neg h0] at hbig
      have h2 : x / (2:ℚ) ^ flExp x ≤ ((-2 ^ 23 : ℤ) : ℚ) := by
        rw [div_le_iff₀ hp]; push_cast; linarith
      have h3 := roundHE_mono h2
      rw [roundHE_of_int] at h3
      have h4 : (roundHE (x / (2:ℚ) ^ flExp x) : ℚ) ≤ -2 ^ 23 := by
        have : ((roundHE (x / (2:ℚ) ^ flExp x) : ℤ) : ℚ) ≤ ((-2 ^ 23 : ℤ) : ℚ) := by exact_mod_cast h3
        exact this.trans (by norm_num)
      calc fl x ≤ -2 ^ 23 * (2:ℚ) ^ flExp x := mul_le_mul_of_nonneg_right h4 (le_of_lt hp)
        _ ≤ _ := by have := neg_abs_le ((m:ℚ) * (2:ℚ) ^ e); linarith

theorem le_fl {x v : ℚ} (hv : IsF32 v) (h : v ≤ x) : v ≤ fl x := by
  have := fl_le (isF32_neg hv) (neg_le_neg h)
  rw [fl_neg] at this
  linarith

theorem isF32_two_zpow {k : ℤ} (h : -149 ≤ k) : IsF32 ((2:ℚ) ^ k) := ⟨1, k, by norm_num, h, by simp⟩

theorem fl_mono_nonneg {x y : ℚ} (h0 : 0 ≤ x) (h : x ≤ y) : fl x ≤ fl y := by
  rcases eq_or_lt_of_le h0 with rfl | hx
  · rw [fl_zero]; exact le_fl ⟨0, 0, by norm_num, by norm_num, by simp⟩ h
  have hy : 0 < y := lt_of_lt_of_le hx h
  have hl : Int.log 2 x ≤ Int.log 2 y := Int.log_mono_right hx h
  by_cases he : flExp x = flExp y
  · unfold fl
    rw [he]
    have hp := two_zpow_pos (flExp y)
    apply mul_le_mul_of_nonneg_right _ (le_of_lt hp)
    exact_mod_cast roundHE_mono (div_le_div_of_nonneg_right h (le_of_lt hp))
  · -- a power of two lies between the two numbers
    have hlt : Int.log 2 x < Int.log 2 y := by
      rcases lt_or_eq_of_le hl with h' | h'
      · exact h'
      · exact absurd (by unfold flExp; rw [abs_of_pos hx, abs_of_pos hy, h']) he
    have hk : -149 ≤ Int.log 2 y := by
      by_contra hc
      apply he
      unfold flExp
      rw [abs_of_pos hx, abs_of_pos hy, max_eq_right (by omega), max_eq_right (by omega)]
    have h1 : x ≤ (2:ℚ) ^ Int.log 2 y := by
      have := (Int.lt_zpow_iff_log_lt (b := 2) (by norm_num) hx).2 hlt
      exact le_of_lt (by exact_mod_cast this)
    have h2 : (2:ℚ) ^ Int.log 2 y ≤ y := by
      have := Int.zpow_log_le_self (b := 2) (by norm_num) hy
      exact_mod_cast this
    exact (fl_le (isF32_two_zpow hk) h1).trans (le_fl (isF32_two_zpow hk) h2)

theorem fl_mono {x y : ℚ} (h : x ≤ y) : fl x ≤ fl y := by
  rcases le_total 0 x with h0 | h0
  · exact fl_mono_nonneg h0 h
  rcases le_total 0 y with h1 | h1
  · have z : IsF32 0 := ⟨0, 0, by norm_num, by norm_num, by simp⟩
    exact (fl_le z h0).trans (le_fl z h1)
  · have := fl_mono_nonneg (neg_nonneg.2 h1) (neg_le_neg h)
    rw [fl_neg, fl_neg] at this
    linarith

/-- No binary32 number is nearer than `fl x`. -/
theorem fl_nearest (x : ℚ) {v : ℚ} (hv : IsF32 v) : |fl x - x| ≤ |v - x| := by
  by_cases hx : x = 0
  · subst hx; simp
  obtain ⟨m, e, hm, he, rfl⟩ := hv
  have hp := two_zpow_pos (flExp x)
  have hgrid : ∀ k : ℤ, |fl x - x| ≤ |(k:ℚ) * (2:ℚ) ^ flExp x - x| := by
    intro k
    have e1 : fl x - x = (roundHE (x / (2:ℚ) ^ flExp x) - x / (2:ℚ) ^ flExp x) * (2:ℚ) ^ flExp x := by
      unfold fl; field_simp
    have e2 : (k:ℚ) * (2:ℚ) ^ flExp x - x = (k - x / (2:ℚ) ^ flExp x) * (2:ℚ) ^ flExp x := by
      field_simp
    rw [e1, e2, abs_mul, abs_mul]
    apply mul_le_mul_of_nonneg_right _ (abs_nonneg _)
    generalize x / (2:ℚ) ^ flExp x = t
    have hr := roundHE_sub_le t
    rcases eq_or_ne k (roundHE t) with rfl | hne
    · exact le_refl _
    · have h1 : (1:ℚ) ≤ |(k:ℚ) - roundHE t| := by
        have : 1 ≤ |k - roundHE t| := Int.one_le_abs (sub_ne_zero.2 hne)
        have : (1:ℚ) ≤ ((|k - roundHE t| : ℤ) : ℚ) := by exact_mod_cast this
        push_cast at this; exact this
      have h2 := abs_sub_abs_le_abs_sub ((k:ℚ) - roundHE t) (t - roundHE t)
      have h3 : (k:ℚ) - roundHE t - (t - roundHE t) = k - t := by ring
      rw [h3] at h2
      rw [abs_sub_comm] at hr
      rw [abs_sub_comm (roundHE t : ℚ)]
      linarith
  rcases le_or_gt (flExp x) e with h1 | h1
  · have : ((m : ℚ) * (2:ℚ) ^ e) = ((m * 2 ^ (e - flExp x).toNat : ℤ) : ℚ) * (2:ℚ) ^ flExp x := by
      have : e = ((e - flExp x).toNat : ℤ) + flExp x := by omega
      conv_lhs => rw [this, zpow_add₀ (by norm_num), zpow_natCast]
      push_cast; ring
    rw [this]; exact hgrid _
  · -- smaller than the power of two below `x`, which is on the grid
    have hne : flExp x ≠ -149 := by omega
    have hbig := fl_scaled_ge hx hne
    have hvle : |(m:ℚ) * (2:ℚ) ^ e| ≤ (2:ℚ) ^ 23 * (2:ℚ) ^ flExp x := by
      rw [abs_mul, abs_of_pos (two_zpow_pos e)]
      have h3 : (|m| : ℚ) ≤ 2 ^ 24 := by rw [← Int.cast_abs]; exact_mod_cast hm
      have h4 : (2:ℚ) ^ (e + 1) ≤ (2:ℚ) ^ flExp x := zpow_le_zpow_right₀ (by norm_num) (by omega)
      rw [zpow_add₀ (by norm_num), zpow_one] at h4
      calc |(m:ℚ)| * (2:ℚ) ^ e ≤ 2 ^ 24 * (2:ℚ) ^ e := mul_le_mul_of_nonneg_right h3 (le_of_lt (two_zpow_pos e))
        _ = 2 ^ 23 * ((2:ℚ) ^ e * 2) := by ring
        _ ≤ _ := mul_le_mul_of_nonneg_left h4 (by norm_num)
    rw [abs_le] at hvle
    rcases le_or_gt 0 x with h0 | h0
    · rw [abs_of_nonneg h0] at hbig
      refine (hgrid (2 ^ 23)).trans ?_
      push_cast
      rw [abs_sub_comm, abs_sub_comm _ x, abs_of_nonneg (by linarith), abs_of_nonneg (by linarith)]
      linarith
    · rw [abs_of_neg h0] at hbig
      refine (hgrid (-2 ^ 23)).trans ?_
      push_cast
      rw [abs_of_nonneg (by linarith), abs_of_nonneg (by linarith)]
      linarith

/-- Relative error `2^-24`, absolute error `2^-150` in the subnormal range. -/
theorem fl_error_rel (x : ℚ) : |fl x - x| ≤ max (|x| / 2 ^ 24) ((2:ℚ) ^ (-150:ℤ)) := by
  by_cases hx : x = 0
  · subst hx; simp
  refine (fl_error x).trans ?_
  by_cases h : flExp x = -149
  · refine le_trans (le_of_eq ?_) (le_max_right _ _)
    rw [h]; norm_num
  · refine le_trans ?_ (le_max_left _ _)
    have := fl_scaled_ge hx h
    rw [div_le_div_iff₀ (by norm_num) (by norm_num)]
    linarith

/-- Error of a result of size at most `2^k`. -/
theorem fl_error_of_le {x : ℚ} {k : ℤ} (hk : -125 ≤ k) (h : |x| ≤ (2:ℚ) ^ k) : |fl x - x| ≤ (2:ℚ) ^ (k - 25) := by
  by_cases hx : x = 0
  · subst hx; simp; exact le_of_lt (two_zpow_pos _)
  rcases eq_or_lt_of_le h with h | h
  · have : fl x = x := by
      rcases abs_eq (le_of_lt (two_zpow_pos k)) |>.1 h with rfl | rfl
      · exact fl_of_isF32 (isF32_two_zpow (by omega))
      · exact fl_of_isF32 (isF32_neg (isF32_two_zpow (by omega)))
    rw [this, sub_self, abs_zero]
    exact le_of_lt (two_zpow_pos _)
  · refine (fl_error x).trans ?_
    have : flExp x ≤ k - 24 := by
      have := (Int.lt_zpow_iff_log_lt (b := 2) (by norm_num) (abs_pos.2 hx)).1 (by exact_mod_cast h)
      unfold flExp; omega
    calc (2:ℚ) ^ flExp x / 2 ≤ (2:ℚ) ^ (k - 24) / 2 :=
          div_le_div_of_nonneg_right (zpow_le_zpow_right₀ (by norm_num) this) (by norm_num)
      _ = _ := by
        rw [show k - 24 = (k - 25) + 1 by ring, zpow_add₀ (by norm_num)]; ring

/-! ## Grids -/

/-- Multiples of `2^g`. -/
def OnGrid (g : ℤ) (x : ℚ) : Prop := ∃ m : ℤ, x = m * (2:ℚ) ^ g

theorem OnGrid.add {g : ℤ} {x y : ℚ} (hx : OnGrid g x) (hy : OnGrid g y) : OnGrid g (x + y) := by
  obtain ⟨m, rfl⟩ := hx; obtain ⟨n, rfl⟩ := hy
  exact ⟨m + n, by push_cast; ring⟩

theorem OnGrid.neg {g : ℤ} {x : ℚ} (hx : OnGrid g x) : OnGrid g (-x) := by
  obtain ⟨m, rfl⟩ := hx
  exact ⟨-m, by push_cast; ring⟩

theorem OnGrid.sub {g : ℤ} {x y : ℚ} (hx : OnGrid g x) (hy : OnGrid g y) : OnGrid g (x - y) := by
  rw [sub_eq_add_neg]; exact hx.add hy.neg

theorem OnGrid.int_mul {g : ℤ} {x : ℚ} (n : ℤ) (hx : OnGrid g x) : OnGrid g (n * x) := by
  obtain ⟨m, rfl⟩ := hx
  exact ⟨n * m, by push_cast; ring⟩

theorem OnGrid.half {g : ℤ} {x : ℚ} (hx : OnGrid (g + 1) x) : OnGrid g (x / 2) := by
  obtain ⟨m, rfl⟩ := hx
  exact ⟨m, by rw [zpow_add₀ (by norm_num)]; ring⟩

theorem OnGrid.mono {g h : ℤ} (hgh : g ≤ h) {x : ℚ} (hx : OnGrid h x) : OnGrid g x := by
  obtain ⟨m, rfl⟩ := hx
  refine ⟨m * 2 ^ (h - g).toNat, ?_⟩
  have : h = ((h - g).toNat : ℤ) + g := by omega
  conv_lhs => rw [this, zpow_add₀ (by norm_num), zpow_natCast]
  push_cast; ring

theorem onGrid_zero (g : ℤ) : OnGrid g 0 := ⟨0, by simp⟩

theorem onGrid_pow {g k : ℤ} (h : g ≤ k) : OnGrid g ((2:ℚ) ^ k) := OnGrid.mono h ⟨1, by simp⟩

theorem onGrid_int {g : ℤ} (h : g ≤ 0) (n : ℤ) : OnGrid g n := OnGrid.mono h ⟨n, by simp⟩

theorem OnGrid.clamp {g : ℤ} {lo hi x : ℚ} (h1 : OnGrid g lo) (h2 : OnGrid g hi) (hx : OnGrid g x) :
    OnGrid g (Verif.clamp lo hi x) := by
  unfold Verif.clamp
  rcases min_choice (max x lo) hi with h | h <;> rw [h]
  · rcases max_choice x lo with h' | h' <;> rw [h'] <;> assumption
  · exact h2

/-- Multiples of `2^g` of size up to `2^(24+g)` are binary32 numbers. -/
theorem fl_onGrid {g : ℤ} {x : ℚ} (hg : -149 ≤ g) (hx : OnGrid g x) (h : |x| ≤ 2 ^ 24 * (2:ℚ) ^ g) : fl x = x := by
  obtain ⟨m, rfl⟩ := hx
  refine fl_grid (m := m) (e := g) ?_ hg rfl
  have hp := two_zpow_pos g
  rw [abs_mul, abs_of_pos hp] at h
  have := le_of_mul_le_mul_right h hp
  rw [← Int.cast_abs] at this
  exact_mod_cast this

theorem OnGrid.list_sum {g : ℤ} {l : List ℚ} (h : ∀ x ∈ l, OnGrid g x) : OnGrid g l.sum := by
  induction l with
  | nil => exact onGrid_zero g
  | cons a l ih =>
      rw [List.sum_cons]
      exact (h a List.mem_cons_self).add (ih fun x hx => h x (List.mem_cons_of_mem _ hx))

theorem list_abs_sum_le (l : List ℚ) : |l.sum| ≤ (l.map abs).sum := by
  induction l with
  | nil => simp
  | cons a l ih =>
      rw [List.sum_cons, List.map_cons, List.sum_cons]
      exact (abs_add_le _ _).trans (by linarith)

theorem list_abs_sum_nonneg (l : List ℚ) : 0 ≤ (l.map abs).sum := (abs_nonneg _).trans (list_abs_sum_le l)

/-- Whatever the order of the additions, a sum of grid values that stays in range is exact. -/
theorem FSum.exact {g : ℤ} (hg : -149 ≤ g) {l : List ℚ} {v : ℚ} (h : FSum l v) :
    (∀ x ∈ l, OnGrid g x) → (l.map abs).sum ≤ 2 ^ 24 * (2:ℚ) ^ g → v = l.sum := by
  induction h with
  | nil => intro _ _; simp
  | one x => intro _ _; simp
  | @perm l l' v h _ ih =>
      intro h1 h2
      rw [← h.sum_eq]
      exact ih (fun x hx => h1 x (h.mem_iff.1 hx)) (by rw [(h.map _).sum_eq]; exact h2)
  | @add l l' v v' _ _ ih ih' =>
      intro h1 h2
      rw [List.map_append, List.sum_append] at h2
      have n1 := list_abs_sum_nonneg l
      have n2 := list_abs_sum_nonneg l'
      have e1 := ih (fun x hx => h1 x (List.mem_append_left _ hx)) (by linarith)
      have e2 := ih' (fun x hx => h1 x (List.mem_append_right _ hx)) (by linarith)
      rw [e1, e2, List.sum_append]
      unfold fadd
      apply fl_onGrid hg
      · rw [← List.sum_append]; exact OnGrid.list_sum h1
      · exact (abs_add_le _ _).trans (by linarith [list_abs_sum_le l, list_abs_sum_le l'])

end Verif.Float
