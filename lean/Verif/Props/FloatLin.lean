import Verif.Model.FloatLin
import Verif.Props.Float
import Verif.Props.HubMore
import Mathlib.Analysis.SpecialFunctions.Log.Base

/-!
# Properties C87, C88: quantised layers and shift selection in binary32
-/

namespace Verif.Props

open Verif Finset Linear Gen _root_.Verif.Float
open Verif.Spec (IsF32)

/-! ## Helper lemmas -/

/-- Whatever the order, grouping and fusing, a dot product of integers that stays in range is exact. -/
theorem FDot.exact {l : List (ℚ × ℚ)} {v : ℚ} (h : FDot l v) :
    (∀ p ∈ l, ∃ a b : ℤ, p = ((a:ℚ), (b:ℚ))) → (l.map fun p => |p.1 * p.2|).sum ≤ 2 ^ 24 →
      v = (l.map fun p => p.1 * p.2).sum := by
  have grid : ∀ p : ℚ × ℚ, (∃ a b : ℤ, p = ((a:ℚ), (b:ℚ))) → OnGrid 0 (p.1 * p.2) := by
    rintro p ⟨a, b, rfl⟩
    exact ⟨a * b, by push_cast; simp⟩
  have bound : ∀ l : List (ℚ × ℚ), |(l.map fun p => p.1 * p.2).sum| ≤ (l.map fun p => |p.1 * p.2|).sum := by
    intro l
    have := list_abs_sum_le (l.map fun p => p.1 * p.2)
    rwa [List.map_map] at this
  have nn : ∀ l : List (ℚ × ℚ), 0 ≤ (l.map fun p => |p.1 * p.2|).sum := fun l => (abs_nonneg _).trans (bound l)
  have gl : ∀ l : List (ℚ × ℚ), (∀ p ∈ l, ∃ a b : ℤ, p = ((a:ℚ), (b:ℚ))) → OnGrid 0 (l.map fun p => p.1 * p.2).sum := by
    intro l hl
    apply OnGrid.list_sum
    intro x hx
    obtain ⟨p, hp, rfl⟩ := List.mem_map.1 hx
    exact grid p (hl p hp)
  have go : ∀ x : ℚ, OnGrid 0 x → |x| ≤ 2 ^ 24 → fl x = x := fun x hx hb => fl_onGrid (by norm_num) hx (by simpa using hb)
  induction h with
  | nil => intro _ _; simp
  | one p =>
      intro h1 h2
      simp only [List.map_cons, List.map_nil, List.sum_cons, List.sum_nil, add_zero] at h2 ⊢
      exact go _ (grid p (h1 p (by simp))) h2
  | @perm l l' v h _ ih =>
      intro h1 h2
      rw [← (h.map _).sum_eq]
      exact ih (fun p hp => h1 p (h.mem_iff.1 hp)) (by rw [(h.map _).sum_eq]; exact h2)
  | @add l l' v v' _ _ ih ih' =>
      intro h1 h2
      rw [List.map_append, List.sum_append] at h2
      have e1 := ih (fun p hp => h1 p (List.mem_append_left _ hp)) (by linarith [nn l'])
      have e2 := ih' (fun p hp => h1 p (List.mem_append_right _ hp)) (by linarith [nn l])
      rw [List.map_append, List.sum_append, e1, e2]
      unfold fadd
      apply go
      · rw [← List.sum_append, ← List.map_append]; exact gl _ h1
      · exact (abs_add_le _ _).trans (by linarith [bound l, bound l'])
  | @fma l v p _ ih =>
      intro h1 h2
      rw [List.map_cons, List.sum_cons] at h2 ⊢
      have e1 := ih (fun q hq => h1 q (List.mem_cons_of_mem _ hq)) (by linarith [abs_nonneg (p.1 * p.2)])
      rw [e1]
      apply go
      · exact (grid p (h1 p (by simp))).add (gl _ fun q hq => h1 q (List.mem_cons_of_mem _ hq))
      · exact (abs_add_le _ _).trans (by linarith [bound l])

/-- A matrix product always has some result. -/
theorem fdot_exists (l : List (ℚ × ℚ)) : ∃ v, FDot l v := by
  induction l with
  | nil => exact ⟨0, .nil⟩
  | cons p l ih => obtain ⟨v, hv⟩ := ih; exact ⟨_, .fma p hv⟩

/-- Rounding a shifted binary32 number to an integer is not affected by the rounding of the shift. -/
theorem roundHE_shiftF {x : ℚ} (hx : IsF32 x) {b : ℤ} (hb : -149 ≤ b) :
    roundHE (shiftF x b) = roundHE (x / (2:ℚ) ^ b) := by
  unfold shiftF fdiv
  rw [fl_of_isF32 (isF32_two_zpow hb)]
  obtain ⟨m, e, hm, he, rfl⟩ := hx
  have hy : (m:ℚ) * (2:ℚ) ^ e / (2:ℚ) ^ b = m * (2:ℚ) ^ (e - b) := by rw [zpow_sub₀ (by norm_num)]; ring
  rw [hy]
  rcases le_or_gt (-149) (e - b) with h | h
  · rw [fl_grid hm h rfl]
  have h3 : |(m:ℚ)| ≤ 2 ^ 24 := by rw [← Int.cast_abs]; exact_mod_cast hm
  have small : |(m:ℚ) * (2:ℚ) ^ (e - b)| ≤ (2:ℚ) ^ (-126:ℤ) := by
    rw [abs_mul, abs_of_pos (two_zpow_pos _)]
    have h4 : (2:ℚ) ^ (e - b) ≤ (2:ℚ) ^ (-150:ℤ) := zpow_le_zpow_right₀ (by norm_num) (by omega)
    calc |(m:ℚ)| * (2:ℚ) ^ (e - b) ≤ 2 ^ 24 * (2:ℚ) ^ (-150:ℤ) := mul_le_mul h3 h4 (two_zpow_pos _).le (by norm_num)
      _ = _ := by norm_num
  have half : (2:ℚ) ^ (-126:ℤ) < 1/2 := by norm_num
  have F : IsF32 ((2:ℚ) ^ (-126:ℤ)) := isF32_two_zpow (by norm_num)
  generalize (m:ℚ) * (2:ℚ) ^ (e - b) = y at small
  generalize (2:ℚ) ^ (-126:ℤ) = q at *
  rw [abs_le] at small
  have u := fl_le F small.2
  have l := le_fl (isF32_neg F) small.1
  rw [roundHE_eq_of_lt (n := 0) (by push_cast; rw [sub_zero, abs_lt]; constructor <;> linarith),
    roundHE_eq_of_lt (n := 0) (by push_cast; rw [sub_zero, abs_lt]; constructor <;> linarith)]

/-- Shifting a small integer is exact. -/
theorem shiftF_int {n : ℤ} (hn : |n| ≤ 2 ^ 24) {b : ℤ} (hb : -149 ≤ b) (hb' : b ≤ 149) :
    shiftF n b = n / (2:ℚ) ^ b ∧ IsF32 ((n:ℚ) / (2:ℚ) ^ b) := by
  have F : IsF32 ((n:ℚ) / (2:ℚ) ^ b) := ⟨n, -b, hn, by omega, by rw [zpow_neg, div_eq_mul_inv]⟩
  refine ⟨?_, F⟩
  unfold shiftF fdiv
  rw [fl_of_isF32 (isF32_two_zpow hb), fl_of_isF32 F]

theorem fxpRoundF_eq {wd : ℕ} (hwd : wd ≤ 24) {rs : ℤ} (hrs : -149 ≤ rs) {x : ℚ} (hx : IsF32 x) :
    fxpRoundF (2 ^ wd) rs x = fxpRound (2 ^ wd) rs x := by
  unfold fxpRoundF fxpRound
  rw [roundHE_shiftF hx hrs]
  have h1 : (1:ℤ) ≤ 2 ^ wd := one_le_pow₀ (by norm_num)
  have h2 : (2:ℤ) ^ wd ≤ 2 ^ 24 := pow_le_pow_right₀ (by norm_num) hwd
  rw [fl_int (by rw [abs_le]; constructor <;> linarith), fl_int (by rw [abs_le]; constructor <;> linarith)]
  unfold clamp
  push_cast
  rfl

/-- What follows the matrix product. -/
private theorem tail_eq {n : ℤ} (hn : |n| ≤ 2 ^ 24) {b : ℤ} (hb : -149 ≤ b) (hb' : b ≤ 149) (bias : Option ℚ) :
    addBiasF (shiftF n b) bias = fl (n / (2:ℚ) ^ b + bias.getD 0) := by
  obtain ⟨h1, h2⟩ := shiftF_int hn hb hb'
  cases bias with
  | none =>
      show shiftF n b = _
      rw [h1, Option.getD_none, add_zero, fl_of_isF32 h2]
  | some c =>
      show fadd (shiftF n b) c = _
      rw [h1]; rfl

/-! ## C87: one output -/

/-- C87: an output of a fixed-point layer computed in binary32, with the products added in any order, grouping and fused or not, is the
exact result rounded once (without bias, the exact result), as long as the sum of the magnitudes of the integer products is at most `2^24`. -/
theorem C87_fixed_output {I : ℕ} (wi ww : ℕ) (hwi : wi ≤ 24) (hww : ww ≤ 24) (rsi rsw : ℤ) (hi : -149 ≤ rsi) (hw : -149 ≤ rsw)
    (ho : |rsi + rsw| ≤ 149) (x w : Fin I → ℚ) (hx : ∀ i, IsF32 (x i)) (hwt : ∀ i, IsF32 (w i)) (bias : Option ℚ)
    (hs : ∑ i, |fxpRound (2 ^ wi) rsi (x i) * fxpRound (2 ^ ww) rsw (w i)| ≤ 2 ^ 24) :
    (∃ y, FxpOut rsi rsw (0 - rsi - rsw) (2 ^ wi) (2 ^ ww) x w bias y) ∧
    ∀ y, FxpOut rsi rsw (0 - rsi - rsw) (2 ^ wi) (2 ^ ww) x w bias y →
      y = fl (fxpForward rsi rsw (0 - rsi - rsw) (2 ^ wi) (2 ^ ww) x w bias) ∧
      (bias = none → y = fxpForward rsi rsw (0 - rsi - rsw) (2 ^ wi) (2 ^ ww) x w none) := by
  refine ⟨by obtain ⟨v, hv⟩ := fdot_exists (List.ofFn fun i => (fxpRoundF (2 ^ wi) rsi (x i), fxpRoundF (2 ^ ww) rsw (w i)));
             exact ⟨_, v, hv, rfl⟩, ?_⟩
  rintro y ⟨v, hv, rfl⟩
  have e : (List.ofFn fun i => (fxpRoundF (2 ^ wi) rsi (x i), fxpRoundF (2 ^ ww) rsw (w i))) =
      List.ofFn fun i => (((fxpRound (2 ^ wi) rsi (x i) : ℤ) : ℚ), ((fxpRound (2 ^ ww) rsw (w i) : ℤ) : ℚ)) := by
    congr 1; funext i; rw [fxpRoundF_eq hwi hi (hx i), fxpRoundF_eq hww hw (hwt i)]
  rw [e] at hv
  have ev := FDot.exact hv (by intro p hp; rw [List.mem_ofFn] at hp; obtain ⟨i, rfl⟩ := hp; exact ⟨_, _, rfl⟩) (by
    rw [List.map_ofFn, List.sum_ofFn]
    simp only [Function.comp_def]
    exact_mod_cast hs)
  rw [List.map_ofFn, List.sum_ofFn] at ev
  simp only [Function.comp_def] at ev
  have ev' : v = ((∑ i, fxpRound (2 ^ wi) rsi (x i) * fxpRound (2 ^ ww) rsw (w i) : ℤ) : ℚ) := by rw [ev]; push_cast; rfl
  have hn : |∑ i, fxpRound (2 ^ wi) rsi (x i) * fxpRound (2 ^ ww) rsw (w i)| ≤ 2 ^ 24 := (abs_sum_le_sum_abs _ _).trans hs
  rw [abs_le] at ho
  have T := tail_eq hn (b := 0 - rsi - rsw) (by omega) (by omega) bias
  have P := (shiftF_int hn (b := 0 - rsi - rsw) (by omega) (by omega)).1
  rw [ev']
  refine ⟨by rw [T]; unfold fxpForward; push_cast; rfl, fun hb => ?_⟩
  subst hb
  show shiftF _ _ = _
  rw [P]
  unfold fxpForward
  push_cast
  rw [Option.getD_none, add_zero]

/-- C87: the same for a hybrid layer, whose table entries are at most `A`. -/
theorem C87_hybrid_output {I : ℕ} (rsi rsw rso : ℤ) (hi : -149 ≤ rsi) (hw : -149 ≤ rsw) (ho : |rso| ≤ 149) (cm cycle : ℕ)
    (hcm : 0 < cm) (table : ℕ → ℕ → ℤ) (A : ℤ) (hA : ∀ i v, i < cm → |table i v| ≤ A) (hIA : I * A ≤ 2 ^ 24)
    (x w : Fin I → ℚ) (hx : ∀ i, IsF32 (x i)) (hwt : ∀ i, IsF32 (w i)) (bias : Option ℚ) :
    (∃ y, HubOut rsi rsw rso cm cycle table x w bias y) ∧
    ∀ y, HubOut rsi rsw rso cm cycle table x w bias y → y = fl (hubForward rsi rsw rso cm cycle table x w bias) ∧
      (bias = none → y = hubForward rsi rsw rso cm cycle table x w none) := by
  refine ⟨by obtain ⟨v, hv⟩ := fdot_exists (List.ofFn fun i => (sgn (x i),
      fmul (fl (table (pyIdx cm (hubMagF cycle rsi (x i))) (pyIdx cm (hubMagF cycle rsw (w i))))) (sgn (w i))));
             exact ⟨_, v, hv, rfl⟩, ?_⟩
  rintro y ⟨v, hv, rfl⟩
  have sg : ∀ a : ℚ, ∃ n : ℤ, sgn a = n ∧ |n| ≤ 1 := by
    intro a; unfold sgn; split_ifs
    · exact ⟨1, by simp, by norm_num⟩
    · exact ⟨-1, by simp, by norm_num⟩
    · exact ⟨0, by simp, by norm_num⟩
  choose s hs1 hs2 using sg
  have hA0 : 0 ≤ A := (abs_nonneg _).trans (hA 0 0 hcm)
  have hidx : ∀ k : ℤ, pyIdx cm k < cm := fun k => by
    unfold pyIdx
    have h1 := Int.emod_nonneg k (b := (cm:ℤ)) (by omega)
    have h2 := Int.emod_lt_of_pos k (b := (cm:ℤ)) (by omega)
    omega
  have mag : ∀ (rs : ℤ) (a : ℚ), -149 ≤ rs → IsF32 a → hubMagF cycle rs a = hubMag cycle rs a := fun rs a h1 h2 => by
    unfold hubMagF hubMag; rw [roundHE_shiftF h2 h1]
  set T : Fin I → ℤ := fun i => table (pyIdx cm (hubMag cycle rsi (x i))) (pyIdx cm (hubMag cycle rsw (w i))) with hT
  have hTA : ∀ i, |T i| ≤ A := fun i => hA _ _ (hidx _)
  have prod : ∀ i, |T i * s (w i)| ≤ A := fun i => by
    rw [abs_mul]
    have := hs2 (w i); have := hTA i; have := abs_nonneg (T i); have := abs_nonneg (s (w i))
    nlinarith
  have prod2 : ∀ i, |s (x i) * (T i * s (w i))| ≤ A := fun i => by
    rw [abs_mul]
    have := hs2 (x i); have := prod i; have := abs_nonneg (T i * s (w i)); have := abs_nonneg (s (x i))
    nlinarith
  have hI : ∀ _ : Fin I, A ≤ 2 ^ 24 := fun i => by
    have : (1:ℤ) ≤ I := by exact_mod_cast Nat.succ_le_of_lt (lt_of_le_of_lt (Nat.zero_le _) i.2)
    nlinarith
  have e : (List.ofFn fun i => (sgn (x i),
      fmul (fl (table (pyIdx cm (hubMagF cycle rsi (x i))) (pyIdx cm (hubMagF cycle rsw (w i))))) (sgn (w i)))) =
      List.ofFn fun i => (((s (x i) : ℤ) : ℚ), ((T i * s (w i) : ℤ) : ℚ)) := by
    congr 1; funext i
    rw [mag _ _ hi (hx i), mag _ _ hw (hwt i), hs1, hs1]
    show (_, fmul (fl (T i)) _) = _
    rw [fl_int ((hTA i).trans (hI i))]
    unfold fmul
    rw [← Int.cast_mul, fl_int ((prod i).trans (hI i))]
  rw [e] at hv
  have tot : ∑ i, |s (x i) * (T i * s (w i))| ≤ 2 ^ 24 := by
    refine (sum_le_sum fun i _ => prod2 i).trans ?_
    rw [sum_const, card_univ, Fintype.card_fin, nsmul_eq_mul]
    exact hIA
  have ev := FDot.exact hv (by intro p hp; rw [List.mem_ofFn] at hp; obtain ⟨i, rfl⟩ := hp; exact ⟨_, _, rfl⟩) (by
    rw [List.map_ofFn, List.sum_ofFn]
    simp only [Function.comp_def]
    exact_mod_cast tot)
  rw [List.map_ofFn, List.sum_ofFn] at ev
  simp only [Function.comp_def] at ev
  have ev' : v = ((∑ i, s (x i) * (T i * s (w i)) : ℤ) : ℚ) := by rw [ev]; push_cast; rfl
  have hn : |∑ i, s (x i) * (T i * s (w i))| ≤ 2 ^ 24 := (abs_sum_le_sum_abs _ _).trans tot
  rw [abs_le] at ho
  have TT := tail_eq hn (b := rso) (by omega) (by omega) bias
  have P := (shiftF_int hn (b := rso) (by omega) (by omega)).1
  have eS : ∑ i, sgn (x i) * ((table (pyIdx cm (hubMag cycle rsi (x i))) (pyIdx cm (hubMag cycle rsw (w i))) : ℚ) * sgn (w i)) =
      ((∑ i, s (x i) * (T i * s (w i)) : ℤ) : ℚ) := by
    push_cast
    apply sum_congr rfl
    intro i _
    rw [hs1, hs1]
  rw [ev']
  refine ⟨by rw [TT]; unfold hubForward; rw [eS], fun hb => ?_⟩
  subst hb
  show shiftF _ _ = _
  rw [P]
  unfold hubForward
  rw [eS, Option.getD_none, add_zero]

/-! ## C88: the picked powers -/

/-- `2^m` is the power of two picked for the scale `s` when its logarithm is known up to `δ`. -/
def Spec.PickedNear (δ : ℝ) (rounding : String) (m : ℤ) (s : ℚ) : Prop :=
  (rounding = "floor" ∧ (m:ℝ) ≤ Real.logb 2 s + δ ∧ Real.logb 2 s - δ < m + 1) ∨
  (rounding = "ceil" ∧ Real.logb 2 s - δ ≤ m ∧ (m:ℝ) < Real.logb 2 s + δ + 1) ∨
  (rounding = "round" ∧ |(m:ℝ) - Real.logb 2 s| ≤ 1 / 2 + δ)

theorem log2RoundedF_ok (lg : ℚ → ℚ) (δ : ℝ) (r : String) (hr : r ∈ ["round", "ceil", "floor"]) (s : ℚ) (hs : 0 < s)
    (hl : |((lg s : ℚ) : ℝ) - Real.logb 2 s| ≤ δ) : ∃ m, log2RoundedF lg r s = .ok m ∧ Spec.PickedNear δ r m s := by
  unfold log2RoundedF
  rw [if_neg (by linarith)]
  rw [abs_le] at hl
  simp only [List.mem_cons, List.not_mem_nil, or_false] at hr
  rcases hr with rfl | rfl | rfl
  · refine ⟨_, if_pos rfl, Or.inr (Or.inr ⟨rfl, ?_⟩)⟩
    have h : |((roundHE (lg s) : ℤ) : ℝ) - ((lg s : ℚ) : ℝ)| ≤ 1 / 2 := by
      have := roundHE_sub_le (lg s)
      have h2 : ((|((roundHE (lg s) : ℤ) : ℚ) - lg s| : ℚ) : ℝ) ≤ ((1 / 2 : ℚ) : ℝ) := by exact_mod_cast this
      push_cast at h2
      exact h2
    rw [abs_le] at h ⊢
    constructor <;> linarith
  · refine ⟨_, by rw [if_neg (by decide), if_neg (by decide), if_pos rfl], Or.inr (Or.inl ⟨rfl, ?_, ?_⟩)⟩
    · have h : ((lg s : ℚ) : ℝ) ≤ ((⌈lg s⌉ : ℤ) : ℝ) := by exact_mod_cast Int.le_ceil (lg s)
      linarith
    · have h : ((⌈lg s⌉ : ℤ) : ℝ) < ((lg s : ℚ) : ℝ) + 1 := by exact_mod_cast Int.ceil_lt_add_one (lg s)
      linarith
  · refine ⟨_, by rw [if_neg (by decide), if_pos rfl], Or.inl ⟨rfl, ?_, ?_⟩⟩
    · have h : ((⌊lg s⌋ : ℤ) : ℝ) ≤ ((lg s : ℚ) : ℝ) := by exact_mod_cast Int.floor_le (lg s)
      linarith
    · have h : ((lg s : ℚ) : ℝ) < ((⌊lg s⌋ : ℤ) : ℝ) + 1 := by exact_mod_cast Int.lt_floor_add_one (lg s)
      linarith

/-- The shifts for scales that have been measured. -/
theorem shifts_any {I J O : ℕ} (lg : ℚ → ℚ) (δ : ℝ) (x : List (Fin I → ℚ)) (w : Fin O → Fin J → ℚ) (wi ww : ℤ) (r : String)
    (hr : r ∈ ["round", "ceil", "floor"]) (qi qw : ℚ) (sc : List ℚ → ℚ → Except PyErr ℚ) (s t : ℚ) (hs : 0 < s) (ht : 0 < t)
    (es : sc (x.flatMap List.ofFn) qi = .ok s) (et : sc ((List.ofFn w).flatMap List.ofFn) qw = .ok t)
    (hls : |((lg s : ℚ) : ℝ) - Real.logb 2 s| ≤ δ) (hlt : |((lg t : ℚ) : ℝ) - Real.logb 2 t| ≤ δ) :
    ∃ im wm, Spec.PickedNear δ r im s ∧ Spec.PickedNear δ r wm t ∧
      rshiftF lg x w wi ww r qi qw sc = .ok (im - wi, wm - ww, max wi ww - im - wm) := by
  obtain ⟨im, e1, h1⟩ := log2RoundedF_ok lg δ r hr s hs hls
  obtain ⟨wm, e2, h2⟩ := log2RoundedF_ok lg δ r hr t ht hlt
  refine ⟨im, wm, h1, h2, ?_⟩
  have a1 : sc (flat x) qi = .ok s := es
  have a2 : sc (flat (List.ofFn w)) qw = .ok t := et
  unfold rshiftF
  rw [a1, a2]
  show (do let im ← log2RoundedF lg r s
           let wm ← log2RoundedF lg r t
           pure (im - wi, wm - ww, max wi ww - im - wm)) = _
  rw [e1, e2]; rfl

/-- C88: with quantile one, whatever accuracy `δ` the logarithm function has at the two scales, the shifts are those of powers picked
for the largest magnitudes with logarithms known up to `δ`. -/
theorem C88_shifts {I J O : ℕ} (lg : ℚ → ℚ) (δ : ℝ) (x : List (Fin I → ℚ)) (w : Fin O → Fin J → ℚ) (wi ww : ℤ) (r : String)
    (hr : r ∈ ["round", "ceil", "floor"]) (M N : ℚ) (hM : 0 < M) (hN : 0 < N)
    (hx : Spec.MaxAbs M (x.flatMap List.ofFn)) (hw : Spec.MaxAbs N ((List.ofFn w).flatMap List.ofFn))
    (hlM : |((lg M : ℚ) : ℝ) - Real.logb 2 M| ≤ δ) (hlN : |((lg N : ℚ) : ℝ) - Real.logb 2 N| ≤ δ) :
    ∃ im wm, Spec.PickedNear δ r im M ∧ Spec.PickedNear δ r wm N ∧
      rshiftF lg x w wi ww r 1 1 = .ok (im - wi, wm - ww, max wi ww - im - wm) :=
  shifts_any lg δ x w wi ww r hr 1 1 qscale M N hM hN (qscale_full hx) (qscale_full hw) hlM hlN

private theorem logb_zpow (k : ℤ) : Real.logb 2 ((((2:ℚ) ^ k : ℚ)) : ℝ) = k := by
  push_cast
  rw [← Real.rpow_intCast, Real.logb_rpow (by norm_num) (by norm_num)]

private theorem logb_le {a b : ℚ} (ha : 0 < a) (h : a ≤ b) : Real.logb 2 (a:ℝ) ≤ Real.logb 2 (b:ℝ) :=
  Real.logb_le_logb_of_le (by norm_num) (by exact_mod_cast ha) (by exact_mod_cast h)

private theorem logb_lt {a b : ℚ} (ha : 0 < a) (h : a < b) : Real.logb 2 (a:ℝ) < Real.logb 2 (b:ℝ) :=
  Real.logb_lt_logb (by norm_num) (by exact_mod_cast ha) (by exact_mod_cast h)

/-- The power picked with exact logarithms, in terms of logarithms. -/
theorem pickedPow_log {r : String} {k : ℤ} {s : ℚ} (hs : 0 < s) (h : Spec.PickedPow r k s) : Spec.PickedNear 0 r k s := by
  rcases h with ⟨rfl, h1, h2⟩ | ⟨rfl, h1, h2⟩ | ⟨rfl, -, h1, h2⟩
  · have a := logb_le (two_zpow_pos k) h1
    have b := logb_lt hs h2
    rw [logb_zpow] at a b
    push_cast at b
    exact Or.inl ⟨rfl, by linarith, by linarith⟩
  · have a := logb_lt (two_zpow_pos (k - 1)) h1
    have b := logb_le hs h2
    rw [logb_zpow] at a b
    push_cast at a
    exact Or.inr (Or.inl ⟨rfl, by linarith, by linarith⟩)
  · have a := logb_le (two_zpow_pos _) h1
    have b := logb_lt (by positivity) h2
    rw [logb_zpow] at a b
    push_cast at a b
    rw [Real.logb_pow] at a b
    push_cast at a b
    refine Or.inr (Or.inr ⟨rfl, ?_⟩)
    rw [abs_le]; constructor <;> linarith

/-- C88: an inexact logarithm (error below one half) picks the same power as the exact one unless the logarithm of the scale is within
the error of a boundary: an integer, or half-way between two for `round`; and then the neighbouring power at worst. -/
theorem C88_agree (δ : ℝ) (hδ : δ < 1 / 2) (r : String) (s : ℚ) (hs : 0 < s) (m k : ℤ) (hm : Spec.PickedNear δ r m s)
    (hk : Spec.PickedPow r k s) :
    |m - k| ≤ 1 ∧ (m ≠ k → ∃ j : ℤ, |Real.logb 2 s - (j + if r = "round" then 1 / 2 else 0)| ≤ δ) := by
  have hk := pickedPow_log hs hk
  have lift : ∀ a b : ℤ, (a:ℝ) < b + 1 → a ≤ b := fun a b h => by
    have : (a:ℤ) < b + 1 := by exact_mod_cast h
    omega
  rcases hm with ⟨rfl, m1, m2⟩ | ⟨rfl, m1, m2⟩ | ⟨rfl, m1⟩ <;> rcases hk with ⟨e, k1, k2⟩ | ⟨e, k1, k2⟩ | ⟨e, k1⟩ <;>
    first | exact absurd e (by decide) | skip
  · have a1 := lift m (k + 1) (by push_cast; linarith)
    have a2 := lift k (m + 1) (by push_cast; linarith)
    refine ⟨by rw [abs_le]; omega, fun hne => ?_⟩
    rw [if_neg (by decide)]
    rcases lt_or_gt_of_ne hne with h | h
    · obtain rfl : k = m + 1 := by omega
      push_cast at k1 k2
      exact ⟨m + 1, by push_cast; rw [abs_le]; constructor <;> linarith⟩
    · obtain rfl : m = k + 1 := by omega
      push_cast at m1 m2
      exact ⟨k + 1, by push_cast; rw [abs_le]; constructor <;> linarith⟩
  · have a1 := lift m (k + 1) (by push_cast; linarith)
    have a2 := lift k (m + 1) (by push_cast; linarith)
    refine ⟨by rw [abs_le]; omega, fun hne => ?_⟩
    rw [if_neg (by decide)]
    rcases lt_or_gt_of_ne hne with h | h
    · obtain rfl : k = m + 1 := by omega
      push_cast at k1 k2
      exact ⟨m, by rw [abs_le]; constructor <;> linarith⟩
    · obtain rfl : m = k + 1 := by omega
      push_cast at m1 m2
      exact ⟨k, by rw [abs_le]; constructor <;> linarith⟩
  · rw [abs_le] at m1 k1
    have a1 := lift m (k + 1) (by push_cast; linarith)
    have a2 := lift k (m + 1) (by push_cast; linarith)
    refine ⟨by rw [abs_le]; omega, fun hne => ?_⟩
    rw [if_pos rfl]
    rcases lt_or_gt_of_ne hne with h | h
    · obtain rfl : k = m + 1 := by omega
      push_cast at k1
      exact ⟨m, by rw [abs_le]; constructor <;> linarith⟩
    · obtain rfl : m = k + 1 := by omega
      push_cast at m1
      exact ⟨k, by rw [abs_le]; constructor <;> linarith⟩

/-- C88: how far the picked power can be from the scale. -/
theorem C88_range (δ : ℝ) (r : String) (s : ℚ) (m : ℤ) (hm : Spec.PickedNear δ r m s) :
    |(m:ℝ) - Real.logb 2 s| ≤ 1 + δ := by
  rw [abs_le]
  rcases hm with ⟨-, m1, m2⟩ | ⟨-, m1, m2⟩ | ⟨-, m1⟩
  · constructor <;> linarith
  · constructor <;> linarith
  · rw [abs_le] at m1; constructor <;> linarith

theorem picked_bounds {δ : ℝ} (hδ : δ ≤ 1 / 2) {r : String} {s : ℚ} {m : ℤ} (hm : Spec.PickedNear δ r m s) {k : ℤ}
    (h1 : (2:ℚ) ^ (-k) ≤ s) (h2 : s ≤ (2:ℚ) ^ k) : |m| ≤ k + 1 := by
  have a := logb_le (two_zpow_pos _) h1
  have b := logb_le (lt_of_lt_of_le (two_zpow_pos _) h1) h2
  rw [logb_zpow] at a b
  have c := C88_range δ r s m hm
  rw [abs_le] at c ⊢
  push_cast at a
  constructor
  · have : ((-(k + 1) - 1 : ℤ) : ℝ) < (m:ℝ) := by push_cast; linarith
    have : -(k + 1) - 1 < m := by exact_mod_cast this
    omega
  · have : (m:ℝ) < ((k + 1 + 1 : ℤ) : ℝ) := by push_cast; linarith
    have : m < k + 1 + 1 := by exact_mod_cast this
    omega

/-! ## C87: whole layers -/

theorem forall2_exists {α β : Type} {R : α → β → Prop} (l : List α) (h : ∀ a ∈ l, ∃ b, R a b) :
    ∃ l', List.Forall₂ R l l' := by
  induction l with
  | nil => exact ⟨[], .nil⟩
  | cons a l ih =>
      obtain ⟨b, hb⟩ := h a (by simp)
      obtain ⟨l', hl⟩ := ih fun a ha => h a (List.mem_cons_of_mem _ ha)
      exact ⟨b :: l', .cons hb hl⟩

theorem forall2_get {α β : Type} {R : α → β → Prop} {l : List α} {l' : List β} (h : List.Forall₂ R l l') :
    l'.length = l.length ∧ ∀ (n : ℕ) (a : α), l[n]? = some a → ∃ b, l'[n]? = some b ∧ R a b := by
  induction h with
  | nil => exact ⟨rfl, fun n a h => by simp at h⟩
  | @cons a b l l' hab _ ih =>
      refine ⟨by simp [ih.1], fun n c hc => ?_⟩
      cases n with
      | zero => simp at hc; subst hc; exact ⟨b, by simp, hab⟩
      | succ n => simpa using ih.2 n c (by simpa using hc)

/-- A `FXPLinear` call for measured scales `s`, `t` of data bounded by `M`, `N`. -/
theorem fixed_any {I O : ℕ} (lg : ℚ → ℚ) (δ : ℝ) (hδ : δ ≤ 1 / 2) (wi ww : ℕ) (h1 : 1 ≤ wi) (h2 : 1 ≤ ww) (hww : wi + ww ≤ 25)
    (hI : (I:ℤ) * ((2 ^ wi - 1) * (2 ^ ww - 1)) ≤ 2 ^ 24) (rounding : String)
    (hr : rounding.toLower ∈ ["round", "ceil", "floor"]) (w : Fin O → Fin I → ℚ) (bias : Option (Fin O → ℚ))
    (x : List (Fin I → ℚ)) (qi qw : ℚ)
    (sc : List ℚ → ℚ → Except PyErr ℚ) (s t : ℚ)
    (bs : (2:ℚ) ^ (-50:ℤ) ≤ s ∧ s ≤ (2:ℚ) ^ (50:ℤ))
    (bt : (2:ℚ) ^ (-50:ℤ) ≤ t ∧ t ≤ (2:ℚ) ^ (50:ℤ))
    (es : sc (x.flatMap List.ofFn) qi = .ok s) (et : sc ((List.ofFn w).flatMap List.ofFn) qw = .ok t)
    (M N : ℚ) (hx : ∀ row ∈ x, ∀ i, |row i| ≤ M) (hw : ∀ o i, |w o i| ≤ N)
    (fx : ∀ row ∈ x, ∀ i, IsF32 (row i)) (fw : ∀ o i, IsF32 (w o i))
    (hls : |((lg s : ℚ) : ℝ) - Real.logb 2 s| ≤ δ) (hlt : |((lg t : ℚ) : ℝ) - Real.logb 2 t| ≤ δ) :
    ∃ im wm, Spec.PickedNear δ rounding.toLower im s ∧ Spec.PickedNear δ rounding.toLower wm t ∧
      (∃ r, FxpLinearF lg wi ww qi qw rounding w bias x r sc) ∧
      ∀ r, FxpLinearF lg wi ww qi qw rounding w bias x r sc → ∃ out, r = .ok out ∧ out.length = x.length ∧
        ∀ (n : ℕ) (row : Fin I → ℚ), x[n]? = some row → ∃ y, out[n]? = some y ∧ ∀ o, ∀ dx dw : ℚ,
          dx = Spec.opErr (2 ^ wi - 1) ((2:ℚ) ^ (im - (wi - 1))) M →
          dw = Spec.opErr (2 ^ ww - 1) ((2:ℚ) ^ (wm - (ww - 1))) N →
          ∃ z, y o = fl z ∧
            |z - (∑ i, row i * w o i + (bias.map fun b => b o).getD 0)| ≤ I * (M * dw + N * dx + dx * dw) := by
  have hM0 : 0 < s := lt_of_lt_of_le (two_zpow_pos _) bs.1
  have hN0 : 0 < t := lt_of_lt_of_le (two_zpow_pos _) bt.1
  obtain ⟨im, wm, p1, p2, hs⟩ := shifts_any lg δ x w ((wi:ℤ) - 1) ((ww:ℤ) - 1) rounding.toLower hr qi qw sc s t hM0 hN0 es et hls hlt
  have b1 := picked_bounds hδ p1 bs.1 bs.2
  have b2 := picked_bounds hδ p2 bt.1 bt.2
  rw [abs_le] at b1 b2
  set rsi : ℤ := im - ((wi:ℤ) - 1) with hrsi
  set rsw : ℤ := wm - ((ww:ℤ) - 1) with hrsw
  have one : ∀ k : ℕ, (1:ℤ) ≤ 2 ^ k := fun k => one_le_pow₀ (by norm_num)
  have rb : ∀ (k : ℕ) (rs : ℤ) (a : ℚ), |fxpRound (2 ^ k) rs a| ≤ 2 ^ k - 1 := fun k rs a => by
    unfold fxpRound clamp
    have := one k
    generalize (2:ℤ) ^ k = A at *
    generalize roundHE (a / (2:ℚ) ^ rs) = q
    rw [abs_le]; omega
  have out1 : ∀ row ∈ x, ∀ o, _ := fun row hrow o => C87_fixed_output wi ww (by omega) (by omega) rsi rsw (by omega) (by omega)
    (by rw [abs_le]; omega) row (w o) (fx row hrow) (fw o) (bias.map fun b => b o) (by
      refine (sum_le_sum (g := fun _ => ((2:ℤ) ^ wi - 1) * (2 ^ ww - 1)) fun i _ => ?_).trans ?_
      · rw [abs_mul]
        exact mul_le_mul (rb _ _ _) (rb _ _ _) (abs_nonneg _) (by linarith [one wi])
      · rw [sum_const, card_univ, Fintype.card_fin, nsmul_eq_mul]; exact hI)
  refine ⟨im, wm, p1, p2, ?_, ?_⟩
  · obtain ⟨out, ho⟩ := forall2_exists (R := fun row (y : Fin O → ℚ) =>
        ∀ o, FxpOut rsi rsw (0 - rsi - rsw) (2 ^ wi) (2 ^ ww) row (w o) (bias.map fun b => b o) (y o)) x (fun row hrow => by
      choose y hy using fun o => (out1 row hrow o).1
      exact ⟨y, hy⟩)
    refine ⟨.ok out, ?_⟩
    unfold FxpLinearF
    rw [hs]
    exact ⟨out, rfl, ho⟩
  · intro r hrr
    unfold FxpLinearF at hrr
    rw [hs] at hrr
    obtain ⟨out, rfl, ho⟩ := hrr
    obtain ⟨hl, hg⟩ := forall2_get ho
    refine ⟨out, rfl, hl, fun n row hrow => ?_⟩
    obtain ⟨y, hy, hR⟩ := hg n row hrow
    refine ⟨y, hy, fun o dx dw hdx hdw => ⟨_, ((out1 row (List.mem_of_getElem? hrow) o).2 _ (hR o)).1, ?_⟩⟩
    obtain ⟨qx, qw, e1, e2, e3⟩ := fxp_row wi ww rsi rsw
    rw [e3 row (w o)]
    have er : ∀ i, |row i| ≤ M := hx row (List.mem_of_getElem? hrow)
    have ew : ∀ i, |w o i| ≤ N := hw o
    have cast : ∀ k : ℕ, (2:ℤ) ^ k - 1 = ((2 ^ k - 1 : ℕ) : ℤ) := fun k => by
      rw [Nat.cast_sub Nat.one_le_two_pow]; push_cast; rfl
    rw [cast] at e1 e2
    have hd := dot_err row (w o) (fun i => qx (row i)) (fun i => qw (w o i)) M N dx dw er ew
      (fun i => hdx ▸ Spec.Nearest.opErr (e1 (row i)) (zpow_pos (by norm_num) _) (er i))
      (fun i => hdw ▸ Spec.Nearest.opErr (e2 (w o i)) (zpow_pos (by norm_num) _) (ew i))
    rw [add_sub_add_right_eq_sub]
    exact hd

/-- C87: a whole `FXPLinear` call in binary32 with quantile one, the logarithm good to `δ ≤ 1/2`, magnitudes `M`, `N` between `2^-50` and
`2^50`, and `I (2^wi - 1)(2^ww - 1) ≤ 2^24`: it gives a result, whatever the order of the additions every output is one rounding of a
number `z` that is within the bilinear bound of the exact linear layer. -/
theorem C87_fixed {I O : ℕ} (lg : ℚ → ℚ) (δ : ℝ) (hδ : δ ≤ 1 / 2) (wi ww : ℕ) (h1 : 1 ≤ wi) (h2 : 1 ≤ ww) (hww : wi + ww ≤ 25)
    (hI : (I:ℤ) * ((2 ^ wi - 1) * (2 ^ ww - 1)) ≤ 2 ^ 24) (rounding : String)
    (hr : rounding.toLower ∈ ["round", "ceil", "floor"]) (w : Fin O → Fin I → ℚ) (bias : Option (Fin O → ℚ))
    (x : List (Fin I → ℚ)) (M N : ℚ) (hM : (2:ℚ) ^ (-50:ℤ) ≤ M ∧ M ≤ (2:ℚ) ^ (50:ℤ))
    (hN : (2:ℚ) ^ (-50:ℤ) ≤ N ∧ N ≤ (2:ℚ) ^ (50:ℤ))
    (hx : Spec.MaxAbs M (x.flatMap List.ofFn)) (hw : Spec.MaxAbs N ((List.ofFn w).flatMap List.ofFn))
    (fx : ∀ row ∈ x, ∀ i, IsF32 (row i)) (fw : ∀ o i, IsF32 (w o i))
    (hlM : |((lg M : ℚ) : ℝ) - Real.logb 2 M| ≤ δ) (hlN : |((lg N : ℚ) : ℝ) - Real.logb 2 N| ≤ δ) :
    ∃ im wm, Spec.PickedNear δ rounding.toLower im M ∧ Spec.PickedNear δ rounding.toLower wm N ∧
      (∃ r, FxpLinearF lg wi ww 1 1 rounding w bias x r) ∧
      ∀ r, FxpLinearF lg wi ww 1 1 rounding w bias x r → ∃ out, r = .ok out ∧ out.length = x.length ∧
        ∀ (n : ℕ) (row : Fin I → ℚ), x[n]? = some row → ∃ y, out[n]? = some y ∧ ∀ o, ∀ dx dw : ℚ,
          dx = Spec.opErr (2 ^ wi - 1) ((2:ℚ) ^ (im - (wi - 1))) M →
          dw = Spec.opErr (2 ^ ww - 1) ((2:ℚ) ^ (wm - (ww - 1))) N →
          ∃ z, y o = fl z ∧
            |z - (∑ i, row i * w o i + (bias.map fun b => b o).getD 0)| ≤ I * (M * dw + N * dx + dx * dw) :=
  fixed_any lg δ hδ wi ww h1 h2 hww hI rounding hr w bias x 1 1 qscale M N hM hN (qscale_full hx) (qscale_full hw) M N
    (fun row hrow i => hx.1 _ (by
      rw [List.mem_flatMap]; exact ⟨row, hrow, by rw [List.mem_ofFn]; exact ⟨i, rfl⟩⟩))
    (fun o i => hw.1 _ (by
      rw [List.mem_flatMap]; exact ⟨w o, by rw [List.mem_ofFn]; exact ⟨o, rfl⟩, by rw [List.mem_ofFn]; exact ⟨i, rfl⟩⟩)) fx fw hlM hlN

/-- A `HUBLinear` call for measured scales `s`, `t` of data bounded by `M`, `N`. -/
theorem hybrid_any {I O : ℕ} (lg : ℚ → ℚ) (δ : ℝ) (hδ : δ ≤ 1 / 2) (envi envw : Env) (W : ℕ) (hW : 1 ≤ W) (hW' : W ≤ 24)
    (hI : (I:ℤ) * 2 ^ W ≤ 2 ^ 24) (rngi rngw : String) (cycle : ℕ) (hc : 1 ≤ cycle)
    (rounding : String) (hr : rounding.toLower ∈ ["round", "ceil", "floor"])
    (htm : ¬ (Spec.TemporalName rngi ∧ Spec.TemporalName rngw))
    (li lw : List ℤ) (hli : rng envi W rngi = .ok li) (hlw : rng envw W rngw = .ok lw)
    (hpi : Verif.Spec.IsPermSeq W li) (hpw : Verif.Spec.IsPermSeq W lw)
    (hsob : if Spec.TemporalName rngw then Spec.SobolOk envi rngi W else Spec.SobolOk envw rngw W)
    (w : Fin O → Fin I → ℚ) (bias : Option (Fin O → ℚ)) (x : List (Fin I → ℚ))
    (qi qw : ℚ) (hqi : 0 < qi ∧ qi ≤ 1) (hqw : 0 < qw ∧ qw ≤ 1)
    (sc : List ℚ → ℚ → Except PyErr ℚ) (s t : ℚ)
    (bs : (2:ℚ) ^ (-50:ℤ) ≤ s ∧ s ≤ (2:ℚ) ^ (50:ℤ)) (bt : (2:ℚ) ^ (-50:ℤ) ≤ t ∧ t ≤ (2:ℚ) ^ (50:ℤ))
    (es : sc (x.flatMap List.ofFn) qi = .ok s) (et : sc ((List.ofFn w).flatMap List.ofFn) qw = .ok t)
    (M N : ℚ) (hx : ∀ row ∈ x, ∀ i, |row i| ≤ M) (hw : ∀ o i, |w o i| ≤ N)
    (fx : ∀ row ∈ x, ∀ i, IsF32 (row i)) (fw : ∀ o i, IsF32 (w o i))
    (hls : |((lg s : ℚ) : ℝ) - Real.logb 2 s| ≤ δ) (hlt : |((lg t : ℚ) : ℝ) - Real.logb 2 t| ≤ δ) :
    ∃ h im wm, Spec.PickedNear δ rounding.toLower im s ∧ Spec.PickedNear δ rounding.toLower wm t ∧
      mkHub envi envw (W + 1) rngi qi (W + 1) rngw qw (some cycle) rounding true = .ok h ∧
      (∃ r, HubLinearF lg h w bias x r sc) ∧
      ∀ r, HubLinearF lg h w bias x r sc → ∃ out, r = .ok out ∧ out.length = x.length ∧
        ∀ (n : ℕ) (row : Fin I → ℚ), x[n]? = some row → ∃ y, out[n]? = some y ∧ ∀ o, ∀ dx dw : ℚ,
          dx = Spec.opErr (min cycle (2 ^ W) - 1) ((2:ℚ) ^ (im - W)) M →
          dw = Spec.opErr (min cycle (2 ^ W) - 1) ((2:ℚ) ^ (wm - W)) N →
          ∃ z, y o = fl z ∧
            |z - (∑ i, row i * w o i + (bias.map fun b => b o).getD 0)| ≤
              I * (W * (2:ℚ) ^ (im + wm - W) + (M * dw + N * dx + dx * dw)) := by
  have hM0 : 0 < s := lt_of_lt_of_le (two_zpow_pos _) bs.1
  have hN0 : 0 < t := lt_of_lt_of_le (two_zpow_pos _) bt.1
  obtain ⟨h, h1, hcy, h3, h4, h5, h6, h7, hT, hA⟩ := hub_built envi envw W hW rngi rngw qi qw hqi hqw cycle
    rounding hr htm li lw hli hlw hpi hpw hsob
  obtain ⟨im, wm, p1, p2, hsh⟩ := shifts_any lg δ x w W W rounding.toLower hr qi qw sc s t hM0 hN0 es et hls hlt
  rw [max_self] at hsh
  have b1 := picked_bounds hδ p1 bs.1 bs.2
  have b2 := picked_bounds hδ p2 bt.1 bt.2
  rw [abs_le] at b1 b2
  have hcm : hubCycleMax h.widthi h.widthw = 2 ^ W := by unfold hubCycleMax; rw [h3, h4, max_self, Nat.add_sub_cancel]
  have hsh' : rshiftF lg x w ((h.widthi : ℤ) - 1) ((h.widthw : ℤ) - 1) h.rounding h.quantilei h.quantilew sc =
      .ok (im - W, wm - W, W - im - wm) := by
    rw [h3, h4, h5, h6, h7, ← hsh]; push_cast; rw [add_sub_cancel_right]
  have out1 : ∀ row ∈ x, ∀ o, _ := fun row hrow o => C87_hybrid_output (im - W) (wm - W) (W - im - wm) (by omega) (by omega)
    (by rw [abs_le]; omega) (2 ^ W) h.cycle (by positivity) h.table (2 ^ W) hA hI row (w o) (fx row hrow) (fw o)
    (bias.map fun b => b o)
  refine ⟨h, im, wm, p1, p2, h1, ?_, ?_⟩
  · obtain ⟨out, ho⟩ := forall2_exists (R := fun row (y : Fin O → ℚ) =>
        ∀ o, HubOut (im - W) (wm - W) (W - im - wm) (2 ^ W) h.cycle h.table row (w o) (bias.map fun b => b o) (y o)) x
        (fun row hrow => by
      choose y hy using fun o => (out1 row hrow o).1
      exact ⟨y, hy⟩)
    refine ⟨.ok out, ?_⟩
    unfold HubLinearF
    rw [hsh', hcm]
    exact ⟨out, rfl, ho⟩
  · intro r hrr
    unfold HubLinearF at hrr
    rw [hsh', hcm] at hrr
    obtain ⟨out, rfl, ho⟩ := hrr
    obtain ⟨hl, hg⟩ := forall2_get ho
    refine ⟨out, rfl, hl, fun n row hrow => ?_⟩
    obtain ⟨y, hy, hR⟩ := hg n row hrow
    refine ⟨y, hy, fun o dx dw hdx hdw => ⟨_, ((out1 row (List.mem_of_getElem? hrow) o).2 _ (hR o)).1, ?_⟩⟩
    have hc1 : 1 ≤ h.cycle := by rw [hcy]; have := Nat.one_le_two_pow (n := W); omega
    obtain ⟨qx, qw, e1, e2, e3⟩ := hub_row (2 ^ W) h.cycle hc1 (by rw [hcy]; omega) h.table W W hT im wm
    have hb := e3 row (w o) (bias.map fun b => b o)
    have er : ∀ i, |row i| ≤ M := hx row (List.mem_of_getElem? hrow)
    have ew : ∀ i, |w o i| ≤ N := hw o
    have hce : ((h.cycle : ℤ) - 1) = ((min cycle (2 ^ W) - 1 : ℕ) : ℤ) := by rw [← hcy]; omega
    rw [hce] at e1 e2
    have hd := dot_err row (w o) (fun i => qx (row i)) (fun i => qw (w o i)) M N dx dw er ew
      (fun i => hdx ▸ Spec.Nearest.opErr (e1 (row i)) (zpow_pos (by norm_num) _) (er i))
      (fun i => hdw ▸ Spec.Nearest.opErr (e2 (w o i)) (zpow_pos (by norm_num) _) (ew i))
    generalize hubForward (im - W) (wm - W) (W - im - wm) (2 ^ W) h.cycle h.table row (w o) (bias.map fun b => b o) = z at hb ⊢
    generalize (bias.map fun b => b o).getD 0 = b at hb ⊢
    have tri : |z - (∑ i, row i * w o i + b)| ≤ |z - (∑ i, qx (row i) * qw (w o i) + b)| +
        |∑ i, qx (row i) * qw (w o i) - ∑ i, row i * w o i| := by
      refine le_trans (le_of_eq ?_) (abs_add_le _ _)
      congr 1; ring
    refine le_trans tri (le_trans (add_le_add hb hd) (le_of_eq ?_))
    ring

/-- C87: a whole `HUBLinear` call in binary32: a layer as in C85, `I 2^W ≤ 2^24`, the logarithm good to `δ ≤ 1/2` and magnitudes between
`2^-50` and `2^50`: it gives a result, and whatever the order of the additions every output is one rounding of a number `z` within the
bound of C85 of the exact linear layer. -/
theorem C87_hybrid {I O : ℕ} (lg : ℚ → ℚ) (δ : ℝ) (hδ : δ ≤ 1 / 2) (envi envw : Env) (W : ℕ) (hW : 1 ≤ W) (hW' : W ≤ 24)
    (hI : (I:ℤ) * 2 ^ W ≤ 2 ^ 24) (rngi rngw : String) (cycle : ℕ) (hc : 1 ≤ cycle)
    (rounding : String) (hr : rounding.toLower ∈ ["round", "ceil", "floor"])
    (ht : ¬ (Spec.TemporalName rngi ∧ Spec.TemporalName rngw))
    (li lw : List ℤ) (hli : rng envi W rngi = .ok li) (hlw : rng envw W rngw = .ok lw)
    (hpi : Verif.Spec.IsPermSeq W li) (hpw : Verif.Spec.IsPermSeq W lw)
    (hs : if Spec.TemporalName rngw then Spec.SobolOk envi rngi W else Spec.SobolOk envw rngw W)
    (w : Fin O → Fin I → ℚ) (bias : Option (Fin O → ℚ)) (x : List (Fin I → ℚ))
    (M N : ℚ) (hM : (2:ℚ) ^ (-50:ℤ) ≤ M ∧ M ≤ (2:ℚ) ^ (50:ℤ)) (hN : (2:ℚ) ^ (-50:ℤ) ≤ N ∧ N ≤ (2:ℚ) ^ (50:ℤ))
    (hx : Spec.MaxAbs M (x.flatMap List.ofFn)) (hw : Spec.MaxAbs N ((List.ofFn w).flatMap List.ofFn))
    (fx : ∀ row ∈ x, ∀ i, IsF32 (row i)) (fw : ∀ o i, IsF32 (w o i))
    (hlM : |((lg M : ℚ) : ℝ) - Real.logb 2 M| ≤ δ) (hlN : |((lg N : ℚ) : ℝ) - Real.logb 2 N| ≤ δ) :
    ∃ h im wm, Spec.PickedNear δ rounding.toLower im M ∧ Spec.PickedNear δ rounding.toLower wm N ∧
      mkHub envi envw (W + 1) rngi 1 (W + 1) rngw 1 (some cycle) rounding true = .ok h ∧
      (∃ r, HubLinearF lg h w bias x r) ∧
      ∀ r, HubLinearF lg h w bias x r → ∃ out, r = .ok out ∧ out.length = x.length ∧
        ∀ (n : ℕ) (row : Fin I → ℚ), x[n]? = some row → ∃ y, out[n]? = some y ∧ ∀ o, ∀ dx dw : ℚ,
          dx = Spec.opErr (min cycle (2 ^ W) - 1) ((2:ℚ) ^ (im - W)) M →
          dw = Spec.opErr (min cycle (2 ^ W) - 1) ((2:ℚ) ^ (wm - W)) N →
          ∃ z, y o = fl z ∧
            |z - (∑ i, row i * w o i + (bias.map fun b => b o).getD 0)| ≤
              I * (W * (2:ℚ) ^ (im + wm - W) + (M * dw + N * dx + dx * dw)) :=
  hybrid_any lg δ hδ envi envw W hW hW' hI rngi rngw cycle hc rounding hr ht li lw hli hlw hpi hpw hs w bias x 1 1 (by norm_num)
    (by norm_num) qscale M N hM hN (qscale_full hx) (qscale_full hw) M N
    (fun row hrow i => hx.1 _ (by
      rw [List.mem_flatMap]; exact ⟨row, hrow, by rw [List.mem_ofFn]; exact ⟨i, rfl⟩⟩))
    (fun o i => hw.1 _ (by
      rw [List.mem_flatMap]; exact ⟨w o, by rw [List.mem_ofFn]; exact ⟨o, rfl⟩, by rw [List.mem_ofFn]; exact ⟨i, rfl⟩⟩)) fx fw hlM hlN

/-- C87, finding: beyond `2^24` the output depends on the order of the additions, here already when the sum of the products is
`2^24 + 2`. -/
theorem C87_order (lg : ℚ → ℚ) (hl : lg 4096 = 12) (rounding : String) (hr : rounding.toLower ∈ ["round", "ceil", "floor"]) :
    let x : Fin 3 → ℚ := ![4096, 1, 1]
    FxpLinearF lg 13 13 1 1 rounding (fun (_ : Fin 1) => x) none [x] (.ok [fun _ => 2 ^ 24 + 2]) ∧
    FxpLinearF lg 13 13 1 1 rounding (fun (_ : Fin 1) => x) none [x] (.ok [fun _ => 2 ^ 24]) := by
  intro x
  have hmax : Spec.MaxAbs 4096 ([x].flatMap List.ofFn) := by
    have e : [x].flatMap List.ofFn = [4096, 1, 1] := by simp [x, List.ofFn_succ]
    rw [e]
    refine ⟨?_, 4096, by simp, by norm_num⟩
    intro a ha
    simp only [List.mem_cons, List.not_mem_nil, or_false] at ha
    rcases ha with rfl | rfl | rfl <;> norm_num
  have a1 : qscale (flat [x]) 1 = .ok 4096 := qscale_full hmax
  have a2 : qscale (flat (List.ofFn fun (_ : Fin 1) => x)) 1 = .ok 4096 := qscale_full (by simpa [flat] using hmax)
  have lr : log2RoundedF lg rounding.toLower 4096 = .ok 12 := by
    unfold log2RoundedF
    rw [if_neg (by norm_num), hl]
    simp only [List.mem_cons, List.not_mem_nil, or_false] at hr
    have c12 : (12:ℚ) = ((12:ℤ) : ℚ) := by norm_num
    rcases hr with h | h | h <;> rw [h]
    · rw [if_pos rfl, c12, roundHE_of_int]
    · rw [if_neg (by decide), if_neg (by decide), if_pos rfl, c12, Int.ceil_intCast]
    · rw [if_neg (by decide), if_pos rfl, c12, Int.floor_intCast]
  have hs : rshiftF lg [x] (fun (_ : Fin 1) => x) (((13:ℕ):ℤ) - 1) (((13:ℕ):ℤ) - 1) rounding.toLower 1 1 = .ok (0, 0, -12) := by
    unfold rshiftF
    rw [a1, a2]
    show (do let im ← log2RoundedF lg rounding.toLower 4096
             let wm ← log2RoundedF lg rounding.toLower 4096
             pure (im - (((13:ℕ):ℤ) - 1), wm - (((13:ℕ):ℤ) - 1), max (((13:ℕ):ℤ) - 1) (((13:ℕ):ℤ) - 1) - im - wm)) = _
    rw [lr]
    rfl
  have F : ∀ n : ℤ, |n| ≤ 4096 → fxpRoundF (2 ^ 13) 0 n = n := fun n hn => by
    rw [fxpRoundF_eq (by norm_num) (by norm_num) (isF32_int (by omega))]
    unfold fxpRound
    rw [zpow_zero, div_one, roundHE_of_int]
    congr 1
    rw [abs_le] at hn
    unfold clamp; omega
  have el : (List.ofFn fun i => (fxpRoundF (2 ^ 13) 0 (x i), fxpRoundF (2 ^ 13) 0 (x i))) = [(4096, 4096), (1, 1), (1, 1)] := by
    have f1 := F 4096 (by norm_num)
    have f2 := F 1 (by norm_num)
    push_cast at f1 f2
    simp [x, List.ofFn_succ, f1, f2]
  have b24 : fl ((2:ℚ) ^ 24) = 2 ^ 24 := by
    have := fl_int (n := 2 ^ 24) (by norm_num); push_cast at this; exact this
  have odd : fl ((2:ℚ) ^ 24 + 1) = 2 ^ 24 := by
    rw [fl_eq 1 (by norm_num) (by norm_num [abs_of_pos]) (by norm_num [abs_of_pos])]; norm_num [roundHE]
  have even : fl ((2:ℚ) ^ 24 + 2) = 2 ^ 24 + 2 := by
    rw [fl_eq 1 (by norm_num) (by norm_num [abs_of_pos]) (by norm_num [abs_of_pos])]; norm_num [roundHE]
  have two : fl (2:ℚ) = 2 := by have := fl_int (n := 2) (by norm_num); push_cast at this; exact this
  have one : fl (1:ℚ) = 1 := by have := fl_int (n := 1) (by norm_num); push_cast at this; exact this
  have sh : ∀ v : ℚ, fl v = v → shiftF v 0 = v := fun v hv => by
    unfold shiftF fdiv; rw [zpow_zero, one, div_one, hv]
  have fin : ∀ v, FDot [((4096:ℚ), (4096:ℚ)), (1, 1), (1, 1)] v → fl v = v →
      FxpLinearF lg 13 13 1 1 rounding (fun (_ : Fin 1) => x) none [x] (.ok [fun _ => v]) := by
    intro v hv hf
    unfold FxpLinearF
    rw [hs]
    refine ⟨_, rfl, .cons (fun o => ⟨v, ?_, ?_⟩) .nil⟩
    · show FDot (List.ofFn fun i => (fxpRoundF (2 ^ 13) 0 (x i), fxpRoundF (2 ^ 13) 0 (x i))) v
      rw [el]; exact hv
    · show v = shiftF v 0
      rw [sh v hf]
  constructor
  · apply fin _ _ even
    have h1 := FDot.one (1, 1)
    have h2 := FDot.fma (4096, 4096) (FDot.fma (1, 1) h1)
    have e : fl ((4096:ℚ) * 4096 + fl (1 * 1 + fmul 1 1)) = 2 ^ 24 + 2 := by
      unfold fmul
      rw [show (1:ℚ) * 1 = 1 by norm_num, one, show (1:ℚ) + 1 = 2 by norm_num, two,
        show (4096:ℚ) * 4096 + 2 = 2 ^ 24 + 2 by norm_num, even]
    rw [← e]; exact h2
  · apply fin _ _ b24
    have h1 := FDot.one (4096, 4096)
    have h2 := FDot.fma (1, 1) (FDot.fma (1, 1) h1)
    have e : fl ((1:ℚ) * 1 + fl (1 * 1 + fmul 4096 4096)) = 2 ^ 24 := by
      unfold fmul
      rw [show (4096:ℚ) * 4096 = 2 ^ 24 by norm_num, b24, show (1:ℚ) * 1 + 2 ^ 24 = 2 ^ 24 + 1 by norm_num, odd,
        show (1:ℚ) * 1 + 2 ^ 24 = 2 ^ 24 + 1 by norm_num, odd]
    rw [← e]
    refine FDot.perm ?_ h2
    exact (List.Perm.swap _ _ _).trans (List.Perm.cons _ (List.Perm.swap _ _ _)) |>.trans (List.Perm.swap _ _ _)

/-- Non-vacuity of C87 (and of C88): a width-8 layer with two inputs and a logarithm function that is off by up to 1/16. -/
example : ∃ lg : ℚ → ℚ, lg 2 = 17 / 16 ∧ ∃ im wm, Spec.PickedNear (1 / 8) "round" im 2 ∧ Spec.PickedNear (1 / 8) "round" wm 1 ∧
    (∃ r, FxpLinearF lg 8 8 1 1 "round" (fun _ : Fin 1 => ![(1:ℚ)/2, -1]) (some fun _ => 1 / 3) [![(2:ℚ), -1/4]] r) := by
  have F : ∀ (n : ℤ) (e : ℤ), |n| ≤ 2 ^ 24 → -149 ≤ e → IsF32 (n * (2:ℚ) ^ e) := fun n e h1 h2 => ⟨n, e, h1, h2, rfl⟩
  have f1 : IsF32 (1/2) := by have := F 1 (-1) (by norm_num) (by norm_num); norm_num at this ⊢; exact this
  have f2 : IsF32 (-1) := by have := F (-1) 0 (by norm_num) (by norm_num); norm_num at this ⊢; exact this
  have f3 : IsF32 2 := by have := F 1 1 (by norm_num) (by norm_num); norm_num at this ⊢; exact this
  have f4 : IsF32 (-1/4) := by have := F (-1) (-2) (by norm_num) (by norm_num); norm_num at this ⊢; exact this
  obtain ⟨im, wm, p1, p2, h, -⟩ := C87_fixed (fun s => if s = 2 then 17 / 16 else 0) (1 / 8) (by norm_num) 8 8 (by norm_num) (by norm_num)
    (by norm_num) (by norm_num) "round" (by decide +kernel) (fun _ : Fin 1 => ![(1:ℚ)/2, -1]) (some fun _ => 1 / 3) [![(2:ℚ), -1/4]]
    2 1 (by norm_num) (by norm_num)
    ⟨by intro a ha
        simp [List.ofFn_succ] at ha
        rcases ha with rfl | rfl <;> norm_num [abs_div],
      2, by simp [List.ofFn_succ], by norm_num⟩
    ⟨by intro a ha
        simp [List.ofFn_succ] at ha
        rcases ha with rfl | rfl <;> norm_num [abs_div],
      -1, by simp [List.ofFn_succ], by norm_num⟩
    (by intro row hrow i
        rw [List.mem_singleton] at hrow; subst hrow
        revert i; rw [Fin.forall_fin_two]; exact ⟨f3, f4⟩)
    (by intro o i; revert i; rw [Fin.forall_fin_two]; exact ⟨f1, f2⟩)
    (by simp only [if_pos]; push_cast; rw [Real.logb_self_eq_one (by norm_num)]; norm_num)
    (by rw [if_neg (by norm_num)]; push_cast; rw [Real.logb_one]; norm_num)
  have e : "round".toLower = "round" := by decide +kernel
  rw [e] at p1 p2
  exact ⟨_, by norm_num, im, wm, p1, p2, h⟩

/-- At a power of two an inexact logarithm can pick the neighbouring power, as C88 allows. -/
example : Spec.PickedNear (1 / 4) "floor" 2 8 ∧ Spec.PickedPow "floor" 3 8 := by
  have h : Real.logb 2 ((8:ℚ):ℝ) = 3 := by
    have := logb_zpow 3
    norm_num at this ⊢
    exact this
  refine ⟨Or.inl ⟨rfl, ?_, ?_⟩, Or.inl ⟨rfl, by norm_num, by norm_num⟩⟩ <;> rw [h] <;> norm_num

end Verif.Props
