import Verif.Model.FloatQuant
import Verif.Proofs.FloatGen
import Verif.Props.Float
import Verif.Props.RawScale
import Verif.Props.FloatConv
import Verif.Props.FloatTlutConv

/-!
# Property C95: quantiles in binary32
-/

namespace Verif.Props

open Verif Finset Linear Gen Conv _root_.Verif.Float
open Verif.Spec (IsF32)

/-! ## Interpolation -/

theorem IsF32.onGrid {x : ℚ} (h : IsF32 x) : OnGrid (-149) x := by
  obtain ⟨m, e, -, he, rfl⟩ := h
  exact OnGrid.mono he ⟨m, rfl⟩

/-- The difference of two binary32 numbers has a relative error of at most `2^-24`, whatever its size. -/
theorem fsub_rel {a b : ℚ} (ha : IsF32 a) (hb : IsF32 b) : |fsub b a - (b - a)| ≤ |b - a| / 2 ^ 24 := by
  unfold fsub
  rcases le_or_gt |b - a| (2 ^ 24 * (2:ℚ) ^ (-149:ℤ)) with h | h
  · rw [fl_onGrid le_rfl ((IsF32.onGrid hb).sub (IsF32.onGrid ha)) h, sub_self, abs_zero]
    positivity
  · refine (fl_error_rel _).trans (max_le le_rfl ?_)
    rw [le_div_iff₀ (by positivity)]
    refine le_trans ?_ h.le
    rw [mul_comm]
    exact mul_le_mul_of_nonneg_left (zpow_le_zpow_right₀ (by norm_num) (by norm_num)) (by norm_num)

private theorem part_bounds {a b : ℚ} (ha : IsF32 a) (hb : IsF32 b) (hab : a ≤ b) {u : ℚ} (hu0 : 0 ≤ u) (hu : u ≤ 1/2) :
    0 ≤ fsub b a ∧ 0 ≤ u * fsub b a ∧ u * fsub b a ≤ b - a ∧ 0 ≤ fl (u * fsub b a) ∧ fl (u * fsub b a) ≤ b - a ∧
      |fl (u * fsub b a) - u * (b - a)| ≤ (b - a) / 2 ^ 23 + (2:ℚ) ^ (-150:ℤ) ∧ |u * fsub b a - u * (b - a)| ≤ (b - a) / 2 ^ 23 := by
  have hD : 0 ≤ b - a := by linarith
  have hd0 : 0 ≤ fsub b a := by
    unfold fsub; exact le_fl ⟨0, 0, by norm_num, by norm_num, by simp⟩ hD
  have hr := fsub_rel ha hb
  rw [abs_of_nonneg hD] at hr
  have hr' := abs_le.1 hr
  have hy0 : 0 ≤ u * fsub b a := mul_nonneg hu0 hd0
  have hy : u * fsub b a ≤ b - a := by nlinarith
  have ey : |u * fsub b a - u * (b - a)| ≤ (b - a) / 2 ^ 23 := by
    rw [← mul_sub, abs_mul, abs_of_nonneg hu0]
    have := abs_nonneg (fsub b a - (b - a))
    calc u * |fsub b a - (b - a)| ≤ 1 * ((b - a) / 2 ^ 24) := mul_le_mul (by linarith) hr (abs_nonneg _) (by norm_num)
      _ ≤ _ := by rw [one_mul]; exact div_le_div_of_nonneg_left hD (by norm_num) (by norm_num)
  have er := fl_error_rel (u * fsub b a)
  rw [abs_of_nonneg hy0] at er
  have hf0 : 0 ≤ fl (u * fsub b a) := le_fl ⟨0, 0, by norm_num, by norm_num, by simp⟩ hy0
  have hp := two_zpow_pos (-150)
  refine ⟨hd0, hy0, hy, hf0, ?_, ?_, ey⟩
  · rcases le_or_gt (b - a) (2 ^ 24 * (2:ℚ) ^ (-149:ℤ)) with h | h
    · have hd : fsub b a = b - a := by
        unfold fsub
        exact fl_onGrid le_rfl ((IsF32.onGrid hb).sub (IsF32.onGrid ha)) (by rwa [abs_of_nonneg hD])
      refine fl_le ?_ hy
      rw [← hd]; unfold fsub; exact fl_isF32 _
    · have h2 : (2:ℚ) ^ (-150:ℤ) ≤ (b - a) / 4 := by
        rw [show (2:ℚ) ^ (-149:ℤ) = 2 * (2:ℚ) ^ (-150:ℤ) by norm_num] at h
        generalize (2:ℚ) ^ (-150:ℤ) = η at *
        linarith
      have h3 : u * fsub b a / 2 ^ 24 ≤ (b - a) / 4 := by
        rw [div_le_div_iff₀ (by norm_num) (by norm_num)]; nlinarith
      have h4 := er.trans (max_le h3 h2)
      rw [abs_le] at h4
      nlinarith
  · have h3 : u * fsub b a / 2 ^ 24 ≤ (b - a) / 2 ^ 24 := div_le_div_of_nonneg_right hy (by norm_num)
    have h4 : |fl (u * fsub b a) - u * fsub b a| ≤ (b - a) / 2 ^ 24 + (2:ℚ) ^ (-150:ℤ) := by
      refine er.trans (max_le (by linarith) ?_)
      have : 0 ≤ (b - a) / 2 ^ 24 := by positivity
      linarith
    have h5 : |u * fsub b a - u * (b - a)| ≤ (b - a) / 2 ^ 24 := by
      rw [← mul_sub, abs_mul, abs_of_nonneg hu0]
      calc u * |fsub b a - (b - a)| ≤ 1 * ((b - a) / 2 ^ 24) := mul_le_mul (by linarith) hr (abs_nonneg _) (by norm_num)
        _ = _ := one_mul _
    have h6 : |fl (u * fsub b a) - u * (b - a)| ≤ |fl (u * fsub b a) - u * fsub b a| + |u * fsub b a - u * (b - a)| := by
      refine le_trans (le_of_eq ?_) (abs_add_le _ _); congr 1; ring
    have h7 : (b - a) / 2 ^ 23 = (b - a) / 2 ^ 24 + (b - a) / 2 ^ 24 := by ring
    rw [h7]
    linarith

/-- Interpolation between two binary32 numbers stays between them and is accurate. -/
theorem lerp_bounds {a b w v : ℚ} (ha : IsF32 a) (hb : IsF32 b) (hab : a ≤ b) (hw0 : 0 ≤ w) (hw1 : w ≤ 1) (h : LerpF a b w v) :
    IsF32 v ∧ a ≤ v ∧ v ≤ b ∧ |v - (a + w * (b - a))| ≤ max |a| |b| / 2 ^ 21 + (2:ℚ) ^ (-148:ℤ) := by
  have hD : 0 ≤ b - a := by linarith
  have hK0 : 0 ≤ max |a| |b| := le_max_of_le_left (abs_nonneg _)
  have hDK : b - a ≤ 2 * max |a| |b| := by
    have := neg_abs_le a; have := le_abs_self b; have := le_max_left |a| |b|; have := le_max_right |a| |b|
    linarith
  have hη := two_zpow_pos (-150)
  have eη : (2:ℚ) ^ (-148:ℤ) = 4 * (2:ℚ) ^ (-150:ℤ) := by norm_num
  -- the last rounding
  have fin : ∀ z e : ℚ, a ≤ z → z ≤ b → |z - (a + w * (b - a))| ≤ e → e ≤ 3 * (b - a) / 2 ^ 24 + (2:ℚ) ^ (-150:ℤ) →
      IsF32 (fl z) ∧ a ≤ fl z ∧ fl z ≤ b ∧ |fl z - (a + w * (b - a))| ≤ max |a| |b| / 2 ^ 21 + (2:ℚ) ^ (-148:ℤ) := by
    intro z e h1 h2 h3 h4
    refine ⟨fl_isF32 _, le_fl ha h1, fl_le hb h2, ?_⟩
    have hz : |z| ≤ max |a| |b| := by
      rw [abs_le]
      have := neg_abs_le a; have := le_abs_self b; have := le_max_left |a| |b|; have := le_max_right |a| |b|
      constructor <;> linarith
    have h5 := fl_error_rel z
    have h6 : |fl z - z| ≤ max |a| |b| / 2 ^ 24 + (2:ℚ) ^ (-150:ℤ) := by
      refine h5.trans (max_le ?_ ?_)
      · have : |z| / 2 ^ 24 ≤ max |a| |b| / 2 ^ 24 := div_le_div_of_nonneg_right hz (by norm_num)
        linarith
      · have : 0 ≤ max |a| |b| / 2 ^ 24 := by positivity
        linarith
    have h7 : |fl z - (a + w * (b - a))| ≤ |fl z - z| + |z - (a + w * (b - a))| := by
      refine le_trans (le_of_eq ?_) (abs_add_le _ _); congr 1; ring
    rw [eη]
    generalize (2:ℚ) ^ (-150:ℤ) = η at *
    generalize max |a| |b| = K at *
    have e1 : 3 * (b - a) / 2 ^ 24 ≤ 6 * K / 2 ^ 24 := div_le_div_of_nonneg_right (by linarith) (by norm_num)
    have e2 : K / 2 ^ 21 = 6 * K / 2 ^ 24 + K / 2 ^ 24 + K / 2 ^ 24 := by ring
    have e3 : 0 ≤ K / 2 ^ 24 := by positivity
    linarith
  have e23 : (b - a) / 2 ^ 23 = 2 * (b - a) / 2 ^ 24 := by ring
  have e3 : 3 * (b - a) / 2 ^ 24 = 2 * (b - a) / 2 ^ 24 + (b - a) / 2 ^ 24 := by ring
  have e4 : 0 ≤ (b - a) / 2 ^ 24 := by positivity
  unfold LerpF at h
  split_ifs at h with hw
  · obtain ⟨-, m0, m1, f0, f1, r1, r2⟩ := part_bounds ha hb hab hw0 hw.le
    have c : ∀ m : ℚ, a + m - (a + w * (b - a)) = m - w * (b - a) := fun m => by ring
    rcases h with rfl | rfl
    · exact fin (a + fmul w (fsub b a)) ((b - a) / 2 ^ 23 + (2:ℚ) ^ (-150:ℤ)) (by unfold fmul; linarith) (by unfold fmul; linarith) (by rw [c]; exact r1) (by linarith)
    · exact fin _ ((b - a) / 2 ^ 23) (by linarith) (by linarith) (by rw [c]; exact r2) (by linarith)
  · rw [not_lt] at hw
    have u0 : 0 ≤ fsub 1 w := by unfold fsub; exact le_fl ⟨0, 0, by norm_num, by norm_num, by simp⟩ (by linarith)
    have u1 : fsub 1 w ≤ 1/2 := by
      unfold fsub
      exact fl_le ⟨1, -1, by norm_num, by norm_num, by norm_num⟩ (by linarith)
    have u2 : |fsub 1 w - (1 - w)| ≤ 1 / 2 ^ 24 := by
      unfold fsub
      refine (fl_error_of_le (k := 0) (by norm_num) (by rw [abs_le]; constructor <;> linarith)).trans ?_
      norm_num
    obtain ⟨-, m0, m1, f0, f1, r1, r2⟩ := part_bounds ha hb hab u0 u1
    have c : ∀ m E : ℚ, |m - fsub 1 w * (b - a)| ≤ E → |b - m - (a + w * (b - a))| ≤ E + (b - a) / 2 ^ 24 := fun m E h => by
      have h2 : |fsub 1 w - (1 - w)| * (b - a) ≤ 1 / 2 ^ 24 * (b - a) := mul_le_mul_of_nonneg_right u2 hD
      have h3 : |(fsub 1 w - (1 - w)) * (b - a)| = |fsub 1 w - (1 - w)| * (b - a) := by rw [abs_mul, abs_of_nonneg hD]
      have h4 : |b - m - (a + w * (b - a))| ≤ |m - fsub 1 w * (b - a)| + |(fsub 1 w - (1 - w)) * (b - a)| := by
        rw [← abs_neg]
        refine le_trans (le_of_eq ?_) (abs_add_le _ _); congr 1; ring
      linarith
    have k := mul_comm (fsub b a) (fsub 1 w)
    rcases h with rfl | rfl
    · unfold fmul
      rw [k]
      exact fin (b - fl (fsub 1 w * fsub b a)) _ (by linarith) (by linarith) (c _ _ r1) (by linarith)
    · rw [k]
      exact fin _ _ (by linarith) (by linarith) (c _ _ r2) (by linarith)

/-! ## Quantiles -/

/-- `v` is the value at position `p` of the sorted data `S`, interpolated between neighbouring positions: a data value if `p` is a
position, otherwise between the two neighbours and within `2^-21` of the larger magnitude (and `2^-148`) of exact interpolation. -/
def Spec.NearPos (S : List ℚ) (p v : ℚ) : Prop :=
  ∃ (k : ℕ) (a : ℚ), S[k]? = some a ∧
    (p = k ∧ v = a ∨ ∃ b, S[k + 1]? = some b ∧ (k : ℚ) < p ∧ p < k + 1 ∧ a ≤ v ∧ v ≤ b ∧
      |v - (a + (p - k) * (b - a))| ≤ max |a| |b| / 2 ^ 21 + (2:ℚ) ^ (-148:ℤ))

/-- `v` is the value at a position of the sorted data that is within `2^-22 (n-1)` of the relative position `p`. -/
def Spec.QuantileNear (p : ℚ) (data : List ℚ) (v : ℚ) : Prop :=
  ∃ (S : List ℚ) (pos : ℚ), S.Perm data ∧ S.Pairwise (· ≤ ·) ∧ |pos - p * ((data.length : ℚ) - 1)| ≤ ((data.length : ℚ) - 1) / 2 ^ 22 ∧
    Spec.NearPos S pos v

/-- The fraction of a nonnegative binary32 number is one. -/
theorem fract_f32 {r : ℚ} (h : IsF32 r) (h0 : 0 ≤ r) : fsub r ⌊r⌋ = r - ⌊r⌋ := by
  obtain ⟨m, e, hm, he, rfl⟩ := h
  unfold fsub
  rcases le_or_gt 0 e with h | h
  · have : (m:ℚ) * (2:ℚ) ^ e = ((m * 2 ^ e.toNat : ℤ) : ℚ) := by
      push_cast
      rw [← zpow_natCast, Int.toNat_of_nonneg h]
    rw [this, Int.floor_intCast, sub_self, fl_zero]
  · have hf := Int.floor_nonneg.2 h0
    have hfq : (0:ℚ) ≤ ⌊(m:ℚ) * (2:ℚ) ^ e⌋ := by exact_mod_cast hf
    refine fl_onGrid he (OnGrid.sub ⟨m, rfl⟩ (onGrid_int h.le _)) ?_
    rw [abs_of_nonneg (by linarith [Int.floor_le ((m:ℚ) * (2:ℚ) ^ e)])]
    have hp := two_zpow_pos e
    have hm' : (m:ℚ) ≤ 2 ^ 24 := by
      have : m ≤ 2 ^ 24 := (le_abs_self m).trans hm
      exact_mod_cast this
    calc _ ≤ (m:ℚ) * (2:ℚ) ^ e := by linarith
      _ ≤ _ := mul_le_mul_of_nonneg_right hm' hp.le

/-- The position `torch.quantile` computes. -/
private def rankF (n : ℕ) (p : ℚ) : ℚ := fmul (fl p) (fl ((n : ℚ) - 1))

private theorem rank_bounds (n : ℕ) (hn : 1 ≤ n) (hn' : n ≤ 2 ^ 24) (p : ℚ) (h0 : 0 ≤ p) (h1 : p ≤ 1) :
    IsF32 (rankF n p) ∧ 0 ≤ rankF n p ∧ rankF n p ≤ (n : ℚ) - 1 ∧ |rankF n p - p * ((n : ℚ) - 1)| ≤ ((n : ℚ) - 1) / 2 ^ 23 := by
  have z : IsF32 0 := ⟨0, 0, by norm_num, by norm_num, by simp⟩
  have o : IsF32 1 := ⟨1, 0, by norm_num, by norm_num, by simp⟩
  have en : fl ((n : ℚ) - 1) = (n : ℚ) - 1 := by
    have := fl_int (n := (n:ℤ) - 1) (by rw [abs_le]; constructor <;> omega)
    push_cast at this; exact this
  have fn : IsF32 ((n : ℚ) - 1) := by rw [← en]; exact fl_isF32 _
  have n0 : (0:ℚ) ≤ (n : ℚ) - 1 := by
    have : (1:ℚ) ≤ n := by exact_mod_cast hn
    linarith
  have f0 : 0 ≤ fl p := le_fl z h0
  have f1 : fl p ≤ 1 := fl_le o h1
  have fe : |fl p - p| ≤ 1 / 2 ^ 25 := by
    refine (fl_error_of_le (k := 0) (by norm_num) (by rw [abs_of_nonneg h0]; simpa using h1)).trans ?_
    norm_num
  unfold rankF fmul
  rw [en]
  have y0 : 0 ≤ fl p * ((n : ℚ) - 1) := mul_nonneg f0 n0
  have y1 : fl p * ((n : ℚ) - 1) ≤ (n : ℚ) - 1 := by nlinarith
  refine ⟨fl_isF32 _, le_fl z y0, fl_le fn y1, ?_⟩
  rcases eq_or_lt_of_le hn with rfl | hn
  · norm_num
  have n1 : (1:ℚ) ≤ (n : ℚ) - 1 := by
    have : ((2:ℕ):ℚ) ≤ n := by exact_mod_cast hn
    push_cast at this
    linarith
  have er := fl_error_rel (fl p * ((n : ℚ) - 1))
  rw [abs_of_nonneg y0] at er
  have e1 : |fl (fl p * ((n : ℚ) - 1)) - fl p * ((n : ℚ) - 1)| ≤ ((n : ℚ) - 1) / 2 ^ 24 := by
    refine er.trans (max_le (div_le_div_of_nonneg_right y1 (by norm_num)) ?_)
    rw [le_div_iff₀ (by norm_num)]
    refine le_trans ?_ n1
    norm_num
  have e2 : |fl p * ((n : ℚ) - 1) - p * ((n : ℚ) - 1)| ≤ 1 / 2 ^ 25 * ((n : ℚ) - 1) := by
    rw [← sub_mul, abs_mul, abs_of_nonneg n0]
    exact mul_le_mul_of_nonneg_right fe n0
  have e3 : |fl (fl p * ((n : ℚ) - 1)) - p * ((n : ℚ) - 1)| ≤ |fl (fl p * ((n : ℚ) - 1)) - fl p * ((n : ℚ) - 1)| + |fl p * ((n : ℚ) - 1) - p * ((n : ℚ) - 1)| := by
    refine le_trans (le_of_eq ?_) (abs_add_le _ _)
    congr 1; ring
  generalize (n : ℚ) - 1 = k at *
  have e4 : k / 2 ^ 23 = k / 2 ^ 24 + 1 / 2 ^ 25 * k + 1 / 2 ^ 25 * k := by ring
  rw [e4]
  have : 0 ≤ 1 / 2 ^ 25 * k := by positivity
  linarith

private theorem sort_sorted (raw : List ℚ) : (raw.mergeSort (fun x y => decide (x ≤ y))).Pairwise (· ≤ ·) :=
  (List.pairwise_mergeSort (le := fun x y => decide (x ≤ y)) (fun a b c h1 h2 => by simp at *; linarith)
      (fun a b => by simp; exact le_total a b) raw).imp fun h => by simpa using h

/-- What a computed quantile is, in terms of the sorted data. -/
theorem quantileF_spec (raw : List ℚ) (hne : raw ≠ []) (hl : raw.length ≤ 2 ^ 24) (hf : ∀ x ∈ raw, IsF32 x) (p : ℚ) (h0 : 0 ≤ p)
    (h1 : p ≤ 1) :
    (∃ r, QuantileF raw p r) ∧
    ∀ r, QuantileF raw p r → ∃ v, r = .ok v ∧ IsF32 v ∧ srt raw ⌊rankF raw.length p⌋.toNat ≤ v ∧ v ≤ srt raw ⌈rankF raw.length p⌉.toNat ∧
      Spec.NearPos (raw.mergeSort (fun x y => decide (x ≤ y))) (rankF raw.length p) v := by
  have hpos : 0 < raw.length := List.length_pos_iff.2 hne
  obtain ⟨rf, r0, r1, -⟩ := rank_bounds raw.length hpos hl p h0 h1
  have hn : ¬ (raw = [] ∨ 2 ^ 24 < raw.length) := by rintro (h | h); exacts [hne h, by omega]
  have hlen : (raw.mergeSort (fun x y => decide (x ≤ y))).length = raw.length := List.length_mergeSort _
  have get : ∀ i < raw.length, (raw.mergeSort (fun x y => decide (x ≤ y)))[i]? = some (srt raw i) := by
    intro i hi
    unfold srt
    rw [min_eq_left (by omega), List.getD_eq_getElem _ _ (by omega), List.getElem?_eq_getElem (by omega)]
  have getD : ∀ i < raw.length, (raw.mergeSort (fun x y => decide (x ≤ y))).getD i 0 = srt raw i := by
    intro i hi
    unfold srt
    rw [min_eq_left (by omega)]
  have key : ∀ r, QuantileF raw p r ↔ ∃ v, LerpF ((raw.mergeSort (fun x y => decide (x ≤ y))).getD ⌊rankF raw.length p⌋.toNat 0)
      ((raw.mergeSort (fun x y => decide (x ≤ y))).getD ⌈rankF raw.length p⌉.toNat 0)
      (fsub (rankF raw.length p) ⌊rankF raw.length p⌋) v ∧ r = Except.ok v := fun r => by
    unfold QuantileF; rw [if_neg hn]; rfl
  simp only [key]
  rw [fract_f32 rf r0]
  clear key
  generalize rankF raw.length p = t at *
  have hp1 : t ≤ ((raw.length - 1 : ℤ) : ℚ) := by push_cast; exact r1
  have hc : ⌈t⌉ ≤ (raw.length - 1 : ℤ) := Int.ceil_le.2 hp1
  have hfc := Int.floor_le_ceil t
  have hf0 := Int.floor_nonneg.2 r0
  rw [getD _ (by omega), getD _ (by omega)]
  have w0 : 0 ≤ t - ⌊t⌋ := by linarith [Int.floor_le t]
  have w1 : t - ⌊t⌋ < 1 := by linarith [Int.lt_floor_add_one t]
  refine ⟨?_, ?_⟩
  · unfold LerpF
    split_ifs
    · exact ⟨_, _, Or.inl rfl, rfl⟩
    · exact ⟨_, _, Or.inl rfl, rfl⟩
  rintro r ⟨v, hv, rfl⟩
  have fa := hf _ (srt_in (raw := raw) ⌊t⌋.toNat (by omega))
  have fb := hf _ (srt_in (raw := raw) ⌈t⌉.toNat (by omega))
  have hab := srt_mono raw (Int.toNat_le_toNat hfc)
  obtain ⟨b1, b2, b3, b4⟩ := lerp_bounds fa fb hab w0 w1.le hv
  refine ⟨v, rfl, b1, b2, b3, ⌊t⌋.toNat, _, get _ (by omega), ?_⟩
  have hk : ((⌊t⌋.toNat : ℕ) : ℤ) = ⌊t⌋ := Int.toNat_of_nonneg hf0
  have hkq : ((⌊t⌋.toNat : ℕ) : ℚ) = (⌊t⌋ : ℚ) := by exact_mod_cast congrArg (fun z : ℤ => (z : ℚ)) hk
  rw [hkq]
  by_cases hp : t = ⌊t⌋
  · left
    refine ⟨hp, ?_⟩
    have : ⌈t⌉ = ⌊t⌋ := by rw [hp, Int.ceil_intCast, Int.floor_intCast]
    rw [this] at b3
    exact le_antisymm b3 b2
  · right
    have hlt : (⌊t⌋ : ℚ) < t := lt_of_le_of_ne (Int.floor_le t) (Ne.symm hp)
    have hc' : ⌈t⌉ = ⌊t⌋ + 1 := by
      rw [Int.ceil_eq_iff]; push_cast
      exact ⟨by linarith, (Int.lt_floor_add_one t).le⟩
    have hcn : ⌈t⌉.toNat = ⌊t⌋.toNat + 1 := by omega
    exact ⟨srt raw ⌈t⌉.toNat, by rw [← hcn]; exact get _ (by omega), hlt, Int.lt_floor_add_one t, b2, b3, b4⟩

/-- C95: a quantile computed in binary32 is the value at a position of the sorted data within `2^-22 (n-1)` of the exact one,
interpolated within `2^-21` of exactly and always between the neighbouring data; tensors of no or more than `2^24` elements are refused. -/
theorem C95_quantile (raw : List ℚ) (hf : ∀ x ∈ raw, IsF32 x) (p : ℚ) (h0 : 0 ≤ p) (h1 : p ≤ 1) :
    (∃ r, QuantileF raw p r) ∧
    ∀ r, QuantileF raw p r →
      (raw = [] ∨ 2 ^ 24 < raw.length → r = .error .runtime) ∧
      (raw ≠ [] → raw.length ≤ 2 ^ 24 → ∃ v, r = .ok v ∧ IsF32 v ∧ Spec.QuantileNear p raw v ∧
        (p = 0 → v ∈ raw ∧ ∀ x ∈ raw, v ≤ x) ∧ (p = 1 → v ∈ raw ∧ ∀ x ∈ raw, x ≤ v)) := by
  by_cases hbad : raw = [] ∨ 2 ^ 24 < raw.length
  · refine ⟨⟨_, by unfold QuantileF; rw [if_pos hbad]⟩, fun r hr => ⟨fun _ => ?_, fun a b => ?_⟩⟩
    · unfold QuantileF at hr; rwa [if_pos hbad] at hr
    · rcases hbad with h | h
      · exact absurd h a
      · omega
  · rw [not_or, not_lt] at hbad
    obtain ⟨ex, all⟩ := quantileF_spec raw hbad.1 hbad.2 hf p h0 h1
    refine ⟨ex, fun r hr => ⟨fun h => absurd h (by rw [not_or, not_lt]; exact hbad), fun hne hl => ?_⟩⟩
    have hpos : 0 < raw.length := List.length_pos_iff.2 hne
    obtain ⟨v, rfl, fv, v1, v2, hv⟩ := all r hr
    obtain ⟨-, -, -, hb⟩ := rank_bounds raw.length hpos hl p h0 h1
    have n0 : (0:ℚ) ≤ (raw.length : ℚ) - 1 := by
      have : (1:ℚ) ≤ raw.length := by exact_mod_cast hpos
      linarith
    refine ⟨v, rfl, fv, ⟨_, _, List.mergeSort_perm _ _, sort_sorted raw, hb.trans ?_, hv⟩, ?_, ?_⟩
    · exact div_le_div_of_nonneg_left n0 (by norm_num) (by norm_num)
    · rintro rfl
      have e : rankF raw.length 0 = 0 := by unfold rankF fmul; rw [fl_zero, zero_mul, fl_zero]
      rw [e] at v1 v2
      simp only [Int.floor_zero, Int.ceil_zero, Int.toNat_zero] at v1 v2
      have : v = srt raw 0 := le_antisymm v2 v1
      rw [this]
      exact ⟨srt_in 0 hpos, fun x hx => by obtain ⟨i, -, rfl⟩ := srt_mem hx; exact srt_mono raw (Nat.zero_le _)⟩
    · rintro rfl
      have e : rankF raw.length 1 = (((raw.length : ℤ) - 1 : ℤ) : ℚ) := by
        have en := fl_int (n := (raw.length:ℤ) - 1) (by rw [abs_le]; constructor <;> omega)
        have e1 := fl_int (n := 1) (by norm_num)
        push_cast at en e1 ⊢
        unfold rankF fmul; rw [e1, one_mul, en, en]
      rw [e, Int.floor_intCast] at v1
      rw [e, Int.ceil_intCast] at v2
      have : v = srt raw ((raw.length : ℤ) - 1).toNat := le_antisymm v2 v1
      rw [this]
      exact ⟨srt_in _ (by omega), fun x hx => by obtain ⟨i, hi, rfl⟩ := srt_mem hx; exact srt_mono raw (by omega)⟩

/-! ## The scales -/

private theorem pos_bounds (q : ℚ) (hq : 0 < q ∧ q ≤ 1) :
    (0 ≤ posLower q ∧ posLower q ≤ 1/2 ∧ |posLower q - (1 - q) / 2| ≤ 1 / 2 ^ 50) ∧
    (1/2 ≤ posUpper q ∧ posUpper q ≤ 1 ∧ |posUpper q - (1 + q) / 2| ≤ 1 / 2 ^ 50) := by
  have z := Prec.isF_zero double
  have hf : Verif.Spec.IsFloat double (1/2) := ⟨1, -1, by norm_num [double], by norm_num [double], by norm_num⟩
  have o : Verif.Spec.IsFloat double 1 := ⟨1, 0, by norm_num [double], by norm_num [double], by norm_num⟩
  have err : ∀ x : ℚ, |x| ≤ 1 → |double.rd x - x| ≤ 1 / 2 ^ 53 := fun x hx => by
    refine (Prec.rd_error_rel double x).trans (max_le ?_ ?_)
    · exact div_le_div_of_nonneg_right hx (by positivity)
    · show (2:ℚ) ^ ((-1074:ℤ) - 1) ≤ _
      calc (2:ℚ) ^ ((-1074:ℤ) - 1) ≤ (2:ℚ) ^ (-53:ℤ) := zpow_le_zpow_right₀ (by norm_num) (by norm_num)
        _ = _ := by norm_num
  obtain ⟨q0, q1⟩ := hq
  have c0 : 0 ≤ double.rd (q / 2) := Prec.le_rd z (by linarith)
  have c1 : double.rd (q / 2) ≤ 1/2 := Prec.rd_le hf (by linarith)
  have c2 := err (q / 2) (by rw [abs_le]; constructor <;> linarith)
  have l2 := err (1/2 - double.rd (q / 2)) (by rw [abs_le]; constructor <;> linarith)
  have u2 := err (1/2 + double.rd (q / 2)) (by rw [abs_le]; constructor <;> linarith)
  unfold posLower posUpper
  refine ⟨⟨Prec.le_rd z (by linarith), Prec.rd_le hf (by linarith), ?_⟩, Prec.le_rd hf (by linarith), Prec.rd_le o (by linarith), ?_⟩
  · rw [abs_le] at *
    constructor <;> linarith
  · rw [abs_le] at *
    constructor <;> linarith

private theorem pos_one : posLower 1 = 0 ∧ posUpper 1 = 1 := by
  have hf : Verif.Spec.IsFloat double (1/2) := ⟨1, -1, by norm_num [double], by norm_num [double], by norm_num⟩
  have o : Verif.Spec.IsFloat double 1 := ⟨1, 0, by norm_num [double], by norm_num [double], by norm_num⟩
  unfold posLower posUpper
  rw [Prec.rd_of_isF hf, sub_self, show (1:ℚ)/2 + 1/2 = 1 by norm_num]
  exact ⟨Prec.rd_zero double, Prec.rd_of_isF o⟩

/-- Moving the exact position by the rounding of the positions. -/
private theorem near_pos {n : ℚ} (hn : 0 ≤ n) {pos p p' : ℚ} (h : |pos - p * n| ≤ n / 2 ^ 23) (hp : |p - p'| ≤ 1 / 2 ^ 50) :
    |pos - p' * n| ≤ n / 2 ^ 22 := by
  have h2 : |(p - p') * n| ≤ 1 / 2 ^ 50 * n := by rw [abs_mul, abs_of_nonneg hn]; exact mul_le_mul_of_nonneg_right hp hn
  have h3 : |pos - p' * n| ≤ |pos - p * n| + |(p - p') * n| := by
    refine le_trans (le_of_eq ?_) (abs_add_le _ _); congr 1; ring
  have e : n / 2 ^ 22 = n / 2 ^ 23 + n / 2 ^ 23 := by ring
  have e2 : 1 / 2 ^ 50 * n ≤ n / 2 ^ 23 := by
    rw [div_mul_eq_mul_div, one_mul]; exact div_le_div_of_nonneg_left hn (by norm_num) (by norm_num)
  linarith

/-- `s` is the larger magnitude of the values near the relative positions `(1-q)/2` and `(1+q)/2` of the sorted data. -/
def Spec.ScaleNear (q : ℚ) (data : List ℚ) (s : ℚ) : Prop :=
  ∃ l u, Spec.QuantileNear ((1 - q) / 2) data l ∧ Spec.QuantileNear ((1 + q) / 2) data u ∧ s = max |l| |u|

private theorem bounds_spec (raw : List ℚ) (hne : raw ≠ []) (hl : raw.length ≤ 2 ^ 24) (hf : ∀ x ∈ raw, IsF32 x) (q : ℚ)
    (hq : 0 < q ∧ q ≤ 1) (rl ru : Except PyErr ℚ) (h1 : QuantileF raw (posLower q) rl) (h2 : QuantileF raw (posUpper q) ru) :
    ∃ l u, rl = .ok l ∧ ru = .ok u ∧ IsF32 l ∧ IsF32 u ∧ Spec.QuantileNear ((1 - q) / 2) raw l ∧ Spec.QuantileNear ((1 + q) / 2) raw u ∧
      (∃ a ∈ raw, ∃ b ∈ raw, a ≤ l ∧ l ≤ b) ∧ (∃ a ∈ raw, ∃ b ∈ raw, a ≤ u ∧ u ≤ b) ∧
      (q = 1 → l ∈ raw ∧ u ∈ raw ∧ ∀ x ∈ raw, l ≤ x ∧ x ≤ u) ∧
      ∃ a b : ℕ, b < raw.length ∧ l ≤ srt raw a ∧ srt raw b ≤ u ∧
        q * ((raw.length : ℚ) - 1) - 1 - ((raw.length : ℚ) - 1) / 2 ^ 21 < (b : ℚ) + 1 - a := by
  obtain ⟨⟨pl0, pl1, pl2⟩, pu0, pu1, pu2⟩ := pos_bounds q hq
  have hpos : 0 < raw.length := List.length_pos_iff.2 hne
  have n0 : (0:ℚ) ≤ (raw.length : ℚ) - 1 := by
    have : (1:ℚ) ≤ raw.length := by exact_mod_cast hpos
    linarith
  obtain ⟨l, rfl, fl', l1, l2, l3⟩ := (quantileF_spec raw hne hl hf _ pl0 (by linarith)).2 rl h1
  obtain ⟨u, rfl, fu, u1, u2, u3⟩ := (quantileF_spec raw hne hl hf _ (by linarith) pu1).2 ru h2
  obtain ⟨rl1, rl2, rl3, rl4⟩ := rank_bounds raw.length hpos hl _ pl0 (by linarith)
  obtain ⟨ru1, ru2, ru3, ru4⟩ := rank_bounds raw.length hpos hl _ (show 0 ≤ posUpper q by linarith) pu1
  have nl := near_pos n0 rl4 pl2
  have nu := near_pos n0 ru4 pu2
  have lt : ∀ t : ℚ, 0 ≤ t → t ≤ (raw.length : ℚ) - 1 → ⌊t⌋.toNat < raw.length ∧ ⌈t⌉.toNat < raw.length := fun t h0 h1 => by
    have hp1 : t ≤ ((raw.length - 1 : ℤ) : ℚ) := by push_cast; exact h1
    have hc : ⌈t⌉ ≤ (raw.length - 1 : ℤ) := Int.ceil_le.2 hp1
    have hfc := Int.floor_le_ceil t
    have := Int.floor_nonneg.2 h0
    omega
  obtain ⟨ll1, ll2⟩ := lt _ rl2 rl3
  obtain ⟨lu1, lu2⟩ := lt _ ru2 ru3
  refine ⟨l, u, rfl, rfl, fl', fu, ⟨_, _, List.mergeSort_perm _ _, sort_sorted raw, nl, l3⟩,
    ⟨_, _, List.mergeSort_perm _ _, sort_sorted raw, nu, u3⟩, ⟨_, srt_in _ ll1, _, srt_in _ ll2, l1, l2⟩,
    ⟨_, srt_in _ lu1, _, srt_in _ lu2, u1, u2⟩, ?_, ?_⟩
  · rintro rfl
    rw [pos_one.1] at h1
    rw [pos_one.2] at h2
    obtain ⟨v, e1, -, -, hv, -⟩ := ((C95_quantile raw hf 0 le_rfl (by norm_num)).2 _ h1).2 hne hl
    obtain ⟨v', e2, -, -, -, hv'⟩ := ((C95_quantile raw hf 1 (by norm_num) le_rfl).2 _ h2).2 hne hl
    obtain rfl := Except.ok.inj e1
    obtain rfl := Except.ok.inj e2
    exact ⟨(hv rfl).1, (hv' rfl).1, fun x hx => ⟨(hv rfl).2 x hx, (hv' rfl).2 x hx⟩⟩
  · refine ⟨_, _, lu1, l2, u1, ?_⟩
    generalize rankF raw.length (posLower q) = x at *
    generalize rankF raw.length (posUpper q) = y at *
    have a1 : ((⌈x⌉.toNat : ℕ) : ℚ) < x + 1 := by
      have : ((⌈x⌉.toNat : ℤ) : ℚ) < x + 1 := by rw [Int.toNat_of_nonneg (Int.ceil_nonneg rl2)]; exact Int.ceil_lt_add_one _
      exact_mod_cast this
    have b1 : y < ((⌊y⌋.toNat : ℕ) : ℚ) + 1 := by
      have : y < ((⌊y⌋.toNat : ℤ) : ℚ) + 1 := by rw [Int.toNat_of_nonneg (Int.floor_nonneg.2 ru2)]; exact Int.lt_floor_add_one _
      exact_mod_cast this
    rw [abs_le] at nl nu
    generalize (raw.length : ℚ) - 1 = n at *
    have e : n / 2 ^ 21 = n / 2 ^ 22 + n / 2 ^ 22 := by ring
    have e2 : (1 + q) / 2 * n - (1 - q) / 2 * n = q * n := by ring
    linarith

/-- Some function can be the one that measures the scales. -/
theorem measures_exists : ∃ sc, Measures sc := by
  have ex : ∀ data p, ∃ r, QuantileF data p r := fun data p => by
    unfold QuantileF
    split_ifs
    · exact ⟨_, rfl⟩
    · dsimp only
      unfold LerpF
      split_ifs
      · exact ⟨_, _, Or.inl rfl, rfl⟩
      · exact ⟨_, _, Or.inl rfl, rfl⟩
  choose f hf using ex
  exact ⟨fun data q => f data (posUpper q) >>= fun a => f data (posLower q) >>= fun b => pure (max |a| |b|),
    fun data q => ⟨_, _, hf _ _, hf _ _, rfl⟩⟩

/-- C95: the scale measured in binary32 at a quantile: the larger magnitude of two computed quantiles; it never exceeds the largest
magnitude of the data, and with quantile one it is that magnitude. -/
theorem C95_scale (data : List ℚ) (hl : data.length ≤ 2 ^ 24) (hf : ∀ x ∈ data, IsF32 x) (q : ℚ) (hq : 0 < q ∧ q ≤ 1) (M : ℚ)
    (hM : Spec.MaxAbs M data) :
    (∃ r, QScaleF data q r) ∧
    ∀ r, QScaleF data q r → ∃ s, r = .ok s ∧ IsF32 s ∧ 0 ≤ s ∧ s ≤ M ∧ Spec.ScaleNear q data s ∧ (q = 1 → s = M) := by
  obtain ⟨hM1, x0, hx0, hM2⟩ := hM
  have hne : data ≠ [] := List.ne_nil_of_mem hx0
  refine ⟨by obtain ⟨sc, h⟩ := measures_exists; exact ⟨_, h data q⟩, ?_⟩
  rintro r ⟨lo, hi, h1, h2, rfl⟩
  obtain ⟨l, u, rfl, rfl, fl', fu, nl, nu, ⟨a, ha, b, hb, h3, h4⟩, ⟨c, hc, d, hd, h5, h6⟩, hone, -⟩ := bounds_spec data hne hl hf q hq _ _ h2 h1
  have abs_f : ∀ x, IsF32 x → IsF32 |x| := fun x hx => by
    rcases abs_choice x with h | h <;> rw [h]
    · exact hx
    · exact isF32_neg hx
  have hB : ∀ x a b : ℚ, a ∈ data → b ∈ data → a ≤ x → x ≤ b → |x| ≤ M := fun x a b ha hb h1 h2 => by
    have p1 := hM1 a ha; have p2 := hM1 b hb
    rw [abs_le] at *
    constructor <;> linarith
  refine ⟨max |u| |l|, rfl, ?_, le_max_of_le_left (abs_nonneg _), max_le (hB u c d hc hd h5 h6) (hB l a b ha hb h3 h4),
    ⟨l, u, nl, nu, max_comm _ _⟩, fun h => ?_⟩
  · rcases max_choice |u| |l| with h | h <;> rw [h]
    · exact abs_f u fu
    · exact abs_f l fl'
  · obtain ⟨-, -, hin⟩ := hone h
    refine le_antisymm (max_le (hB u c d hc hd h5 h6) (hB l a b ha hb h3 h4)) ?_
    rw [← hM2]
    obtain ⟨k1, k2⟩ := hin x0 hx0
    rcases le_total 0 x0 with h | h
    · rw [abs_of_nonneg h]; exact le_max_of_le_left (le_trans k2 (le_abs_self u))
    · rw [abs_of_nonpos h]; exact le_max_of_le_right (le_trans (by linarith) (neg_le_abs l))

/-- The sorted positions `a..b` survive clipping. -/
private theorem kept (raw : List ℚ) (l u : ℚ) (a b : ℕ) (hbn : b < raw.length) (hl : l ≤ srt raw a) (hu : srt raw b ≤ u) :
    b + 1 - a ≤ (raw.filter fun x => decide (l ≤ x ∧ x ≤ u)).length := by
  have hp := List.mergeSort_perm raw (fun x y => decide (x ≤ y))
  rw [← (hp.filter _).length_eq]
  set S := raw.mergeSort (fun x y => decide (x ≤ y)) with hS
  have hSl : S.length = raw.length := hp.length_eq
  have hsub : ((S.drop a).take (b + 1 - a)).Sublist S := (List.take_sublist _ _).trans (List.drop_sublist _ _)
  have hf : ((S.drop a).take (b + 1 - a)).filter (fun x => decide (l ≤ x ∧ x ≤ u)) = (S.drop a).take (b + 1 - a) := by
    rw [List.filter_eq_self]
    intro x hx
    obtain ⟨i, hi, rfl⟩ := List.getElem_of_mem hx
    have hi' : i < b + 1 - a ∧ a + i < S.length := by simp at hi; omega
    have hval : ((S.drop a).take (b + 1 - a))[i] = srt raw (a + i) := by
      unfold srt
      rw [← hS, min_eq_left (by omega), List.getD_eq_getElem _ _ hi'.2]
      simp
    rw [hval]
    simp only [decide_eq_true_eq]
    exact ⟨hl.trans (srt_mono raw (by omega)), le_trans (srt_mono raw (by omega)) hu⟩
  have := (hsub.filter (fun x => decide (l ≤ x ∧ x ≤ u))).length_le
  rw [hf, List.length_take, List.length_drop] at this
  omega

/-- C95: `RawScale` in binary32: quantiles outside `(0, 1]` and tensors of no or more than `2^24` elements are refused; otherwise one
monotone function clips to two computed quantiles and divides by the larger magnitude with one rounding, the results are binary32
numbers in [-1, 1], nearly the share `q` of the data is not clipped, and only two quantiles of zero leave no finite result. -/
theorem C95_rawscale (q : ℚ) (raw : List ℚ) (hf : ∀ x ∈ raw, IsF32 x) :
    (∃ r, RawScaleF q raw r) ∧
    ∀ r, RawScaleF q raw r →
      (¬ (0 < q ∧ q ≤ 1) → r = .error .assertion) ∧
      (0 < q ∧ q ≤ 1 → (raw = [] ∨ 2 ^ 24 < raw.length) → r = .error .runtime) ∧
      (0 < q ∧ q ≤ 1 → raw ≠ [] → raw.length ≤ 2 ^ 24 →
        ∃ l u, Spec.QuantileNear ((1 - q) / 2) raw l ∧ Spec.QuantileNear ((1 + q) / 2) raw u ∧
          (q = 1 → ∀ x ∈ raw, l ≤ x ∧ x ≤ u) ∧
          (l = 0 ∧ u = 0 → r = .error .nonfinite) ∧
          (¬ (l = 0 ∧ u = 0) → ∃ f : ℚ → ℚ, r = .ok (raw.map f) ∧ Monotone f ∧
            (∀ x, IsF32 (f x) ∧ |f x| ≤ 1 ∧ f x = fl (min (max x l) u / max |l| |u|) ∧
              |f x - min (max x l) u / (max |l| |u|)| ≤ 1 / 2 ^ 25) ∧
            q * ((raw.length : ℚ) - 1) - 1 - ((raw.length : ℚ) - 1) / 2 ^ 21 < (raw.filter fun x => decide (l ≤ x ∧ x ≤ u)).length)) := by
  constructor
  · unfold RawScaleF
    by_cases h : ¬ (0 < q ∧ q ≤ 1)
    · simp only [if_pos h]; exact ⟨_, rfl⟩
    · simp only [if_neg h]
      have ex : ∀ p, ∃ r, QuantileF raw p r := fun p => by
        unfold QuantileF
        split_ifs
        · exact ⟨_, rfl⟩
        · dsimp only
          unfold LerpF
          split_ifs
          · exact ⟨_, _, Or.inl rfl, rfl⟩
          · exact ⟨_, _, Or.inl rfl, rfl⟩
      choose f hf using ex
      exact ⟨_, _, _, hf _, hf _, rfl⟩
  intro r hr
  unfold RawScaleF at hr
  refine ⟨fun h => by rwa [if_pos h] at hr, fun hq hbad => ?_, fun hq hne hl => ?_⟩
  · rw [if_neg (not_not.2 hq)] at hr
    obtain ⟨lo, hi, h1, -, rfl⟩ := hr
    unfold QuantileF at h1
    rw [if_pos hbad] at h1
    subst h1; rfl
  · rw [if_neg (not_not.2 hq)] at hr
    obtain ⟨lo, hi, h1, h2, rfl⟩ := hr
    obtain ⟨l, u, rfl, rfl, fl', fu, nl, nu, -, -, hone, a, b, hb, k1, k2, k3⟩ := bounds_spec raw hne hl hf q hq _ _ h1 h2
    have e : ∀ (F : Except PyErr (List ℚ)), (Except.ok l >>= fun lower : ℚ => Except.ok u >>= fun upper : ℚ =>
      if max |lower| |upper| = 0 then (.error .nonfinite : Except PyErr (List ℚ)) else .ok (raw.map (Float.rawScale lower upper))) =
        if max |l| |u| = 0 then .error .nonfinite else .ok (raw.map (Float.rawScale l u)) := fun _ => rfl
    rw [e (.ok [])]
    have hz : max |l| |u| = 0 ↔ l = 0 ∧ u = 0 := by
      constructor
      · intro h
        have h1 := le_max_left |l| |u|
        have h2 := le_max_right |l| |u|
        rw [h] at h1 h2
        exact ⟨abs_eq_zero.1 (le_antisymm h1 (abs_nonneg _)), abs_eq_zero.1 (le_antisymm h2 (abs_nonneg _))⟩
      · rintro ⟨rfl, rfl⟩; simp
    refine ⟨l, u, nl, nu, fun h => (hone h).2.2, fun h => by rw [if_pos (hz.2 h)], fun h => ?_⟩
    have hs : max |l| |u| ≠ 0 := fun e => h (hz.1 e)
    have hpos : 0 < max |l| |u| := lt_of_le_of_ne (le_max_of_le_left (abs_nonneg _)) (Ne.symm hs)
    have mem : ∀ x, |min (max x l) u / (max |l| |u|)| ≤ 1 := fun x => by
      rw [abs_div, abs_of_pos hpos, div_le_one hpos, abs_le]
      have h3 := neg_abs_le l
      have h4 := le_abs_self u
      have h3' := neg_abs_le u
      have h5 := le_max_left |l| |u|
      have h6 := le_max_right |l| |u|
      exact ⟨le_min (le_max_of_le_right (by linarith)) (by linarith), min_le_of_right_le (by linarith)⟩
    have o : IsF32 1 := ⟨1, 0, by norm_num, by norm_num, by simp⟩
    refine ⟨Float.rawScale l u, by rw [if_neg hs], ?_, fun x => ⟨fl_isF32 _, ?_, rfl, ?_⟩, ?_⟩
    · intro x y hxy
      exact fl_mono (div_le_div_of_nonneg_right (clamp_mono hxy) hpos.le)
    · have := mem x
      rw [abs_le] at this ⊢
      exact ⟨le_fl (isF32_neg o) this.1, fl_le o this.2⟩
    · refine (fl_error_of_le (k := 0) (x := min (max x l) u / max |l| |u|) (by norm_num) (by simpa using mem x)).trans (by norm_num)
    · have hk := kept raw l u a b hb k1 k2
      rcases Nat.lt_or_ge (b + 1) a with hlt | hge
      · have h1 : (b:ℚ) + 1 + 1 ≤ a := by exact_mod_cast hlt
        have h2 : (0:ℚ) ≤ (raw.filter fun x => decide (l ≤ x ∧ x ≤ u)).length := by positivity
        linarith
      · have h1 : ((b + 1 - a : ℕ) : ℚ) ≤ (raw.filter fun x => decide (l ≤ x ∧ x ≤ u)).length := by exact_mod_cast hk
        rw [Nat.cast_sub hge] at h1; push_cast at h1
        linarith

private theorem q32 (n e : ℤ) (h1 : |n| ≤ 2 ^ 24) (h2 : -149 ≤ e) {v : ℚ} (h : v = n * (2:ℚ) ^ e) : fl v = v := fl_of_isF32 ⟨n, e, h1, h2, h⟩

/-- Non-vacuity: the quartiles of four numbers lie between neighbours; the scale is the larger magnitude. -/
example : QScaleF [0, 1, 3, -2] (1/2) (.ok (3/2)) ∧ Spec.ScaleNear (1/2) [0, 1, 3, -2] (3/2) := by
  have hl : posLower (1/2) = 1/4 := by
    unfold posLower
    have h1 : double.rd (1/2/2) = 1/4 := by
      rw [show (1:ℚ)/2/2 = 1/4 by norm_num]
      exact Prec.rd_of_isF ⟨1, -2, by norm_num [double], by norm_num [double], by norm_num⟩
    rw [h1, show (1:ℚ)/2 - 1/4 = 1/4 by norm_num]
    exact Prec.rd_of_isF ⟨1, -2, by norm_num [double], by norm_num [double], by norm_num⟩
  have hu : posUpper (1/2) = 3/4 := by
    unfold posUpper
    have h1 : double.rd (1/2/2) = 1/4 := by
      rw [show (1:ℚ)/2/2 = 1/4 by norm_num]
      exact Prec.rd_of_isF ⟨1, -2, by norm_num [double], by norm_num [double], by norm_num⟩
    rw [h1, show (1:ℚ)/2 + 1/4 = 3/4 by norm_num]
    exact Prec.rd_of_isF ⟨3, -2, by norm_num [double], by norm_num [double], by norm_num⟩
  have hsort : List.mergeSort [(0:ℚ), 1, 3, -2] (fun x y => decide (x ≤ y)) = [-2, 0, 1, 3] :=
    ((List.mergeSort_perm _ _).trans (show List.Perm [(0:ℚ), 1, 3, -2] [-2, 0, 1, 3] by decide +kernel)).eq_of_pairwise' (sort_sorted _)
      (by norm_num)
  have hQ : QScaleF [0, 1, 3, -2] (1/2) (.ok (3/2)) := by
    refine ⟨.ok (3/2), .ok (-1/2), ?_, ?_, ?_⟩
    · unfold QuantileF
      rw [if_neg (by simp), hu, hsort]
      have e : fmul (fl (3/4)) (fl ((([(0:ℚ), 1, 3, -2].length : ℕ) : ℚ) - 1)) = 9/4 := by
        unfold fmul
        rw [q32 3 (-2) (by norm_num) (by norm_num) (v := 3/4) (by norm_num), show ((([(0:ℚ), 1, 3, -2].length : ℕ) : ℚ) - 1) = 3 by norm_num,
          q32 3 0 (by norm_num) (by norm_num) (v := 3) (by norm_num), show (3:ℚ)/4 * 3 = 9/4 by norm_num]
        exact q32 9 (-2) (by norm_num) (by norm_num) (by norm_num)
      dsimp only
      rw [e, show ⌊(9:ℚ)/4⌋ = 2 by rw [Int.floor_eq_iff]; norm_num, show ⌈(9:ℚ)/4⌉ = 3 by rw [Int.ceil_eq_iff]; norm_num]
      refine ⟨3/2, ?_, rfl⟩
      have w : fsub (9/4) ((2:ℤ):ℚ) = 1/4 := by
        unfold fsub; rw [show (9:ℚ)/4 - ((2:ℤ):ℚ) = 1/4 by norm_num]; exact q32 1 (-2) (by norm_num) (by norm_num) (by norm_num)
      unfold LerpF
      rw [w, if_pos (by norm_num)]
      left
      show (3:ℚ)/2 = fadd 1 (fmul (1/4) (fsub 3 1))
      unfold fadd fmul fsub
      rw [q32 1 1 (by norm_num) (by norm_num) (v := 3 - 1) (by norm_num), q32 1 (-1) (by norm_num) (by norm_num) (v := 1/4 * (3 - 1)) (by norm_num),
        q32 3 (-1) (by norm_num) (by norm_num) (v := 1 + 1/4 * (3 - 1)) (by norm_num)]
      norm_num
    · unfold QuantileF
      rw [if_neg (by simp), hl, hsort]
      have e : fmul (fl (1/4)) (fl ((([(0:ℚ), 1, 3, -2].length : ℕ) : ℚ) - 1)) = 3/4 := by
        unfold fmul
        rw [q32 1 (-2) (by norm_num) (by norm_num) (v := 1/4) (by norm_num), show ((([(0:ℚ), 1, 3, -2].length : ℕ) : ℚ) - 1) = 3 by norm_num,
          q32 3 0 (by norm_num) (by norm_num) (v := 3) (by norm_num), show (1:ℚ)/4 * 3 = 3/4 by norm_num]
        exact q32 3 (-2) (by norm_num) (by norm_num) (by norm_num)
      dsimp only
      rw [e, show ⌊(3:ℚ)/4⌋ = 0 by rw [Int.floor_eq_iff]; norm_num, show ⌈(3:ℚ)/4⌉ = 1 by rw [Int.ceil_eq_iff]; norm_num]
      refine ⟨-1/2, ?_, rfl⟩
      have w : fsub (3/4) ((0:ℤ):ℚ) = 3/4 := by
        unfold fsub; rw [show (3:ℚ)/4 - ((0:ℤ):ℚ) = 3/4 by norm_num]; exact q32 3 (-2) (by norm_num) (by norm_num) (by norm_num)
      unfold LerpF
      rw [w, if_neg (by norm_num)]
      left
      show (-1:ℚ)/2 = fsub 0 (fmul (fsub 0 (-2)) (fsub 1 (3/4)))
      unfold fmul fsub
      rw [q32 1 1 (by norm_num) (by norm_num) (v := 0 - (-2)) (by norm_num), q32 1 (-2) (by norm_num) (by norm_num) (v := 1 - 3/4) (by norm_num),
        q32 1 (-1) (by norm_num) (by norm_num) (v := (0 - (-2)) * (1 - 3/4)) (by norm_num),
        q32 (-1) (-1) (by norm_num) (by norm_num) (v := 0 - (0 - (-2)) * (1 - 3/4)) (by norm_num)]
      norm_num
    · show _ = Except.ok _
      norm_num [abs_div]
  refine ⟨hQ, ?_⟩
  obtain ⟨s, e, -, -, -, h, -⟩ := (C95_scale [0, 1, 3, -2] (by norm_num) (by
      intro x hx
      simp only [List.mem_cons, List.not_mem_nil, or_false] at hx
      rcases hx with rfl | rfl | rfl | rfl
      · exact ⟨0, 0, by norm_num, by norm_num, by norm_num⟩
      · exact ⟨1, 0, by norm_num, by norm_num, by norm_num⟩
      · exact ⟨3, 0, by norm_num, by norm_num, by norm_num⟩
      · exact ⟨-2, 0, by norm_num, by norm_num, by norm_num⟩) (1/2) (by norm_num) 3
    ⟨by intro x hx
        simp only [List.mem_cons, List.not_mem_nil, or_false] at hx
        rcases hx with rfl | rfl | rfl | rfl <;> norm_num, 3, by simp, by norm_num⟩).2 _ hQ
  obtain rfl := Except.ok.inj e
  exact h

end Verif.Props
