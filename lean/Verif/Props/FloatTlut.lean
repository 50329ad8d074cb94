import Verif.Model.FloatTlut
import Verif.Props.FloatLin
import Verif.Props.Tlut

/-!
# Property C90: matrix products, look-up layers and gradients in binary32
-/

namespace Verif.Props

open Verif Finset Linear Gen _root_.Verif.Float
open Verif.Spec (IsF32)

/-- The usual bound on the error of a product of `n` roundings with unit roundoff `2^-24` on numbers of total magnitude `A`, and what
gradual underflow adds. -/
def Spec.roundErr (n : ℕ) (A : ℚ) : ℚ :=
  ((1 + (2:ℚ) ^ (-24:ℤ)) ^ n - 1) * A + 2 * n * (1 + (2:ℚ) ^ (-24:ℤ)) ^ n * (2:ℚ) ^ (-150:ℤ)

private theorem fl_err {s S A E : ℚ} (h : |s - S| ≤ E) (hA : |S| ≤ A) :
    |fl s - S| ≤ (1 + (2:ℚ) ^ (-24:ℤ)) * E + (2:ℚ) ^ (-24:ℤ) * A + (2:ℚ) ^ (-150:ℤ) := by
  have h1 := fl_error_rel s
  have h2 : max (|s| / 2 ^ 24) ((2:ℚ) ^ (-150:ℤ)) ≤ (2:ℚ) ^ (-24:ℤ) * |s| + (2:ℚ) ^ (-150:ℤ) := by
    have e : |s| / 2 ^ 24 = (2:ℚ) ^ (-24:ℤ) * |s| := by rw [zpow_neg]; norm_num; ring
    rw [e]
    have a1 : 0 ≤ (2:ℚ) ^ (-24:ℤ) * |s| := mul_nonneg (two_zpow_pos _).le (abs_nonneg _)
    have a2 := (two_zpow_pos (-150)).le
    exact max_le (by linarith) (by linarith)
  have h3 : |s| ≤ E + A := by
    have := abs_add_le (s - S) S
    rw [sub_add_cancel] at this; linarith
  have h4 := abs_add_le (fl s - s) (s - S)
  rw [sub_add_sub_cancel] at h4
  have h5 := mul_le_mul_of_nonneg_left h3 (two_zpow_pos (-24)).le
  generalize (2:ℚ) ^ (-24:ℤ) = u at *
  generalize (2:ℚ) ^ (-150:ℤ) = η at *
  linarith

theorem fdot_isF32 {l : List (ℚ × ℚ)} {v : ℚ} (h : FDot l v) : IsF32 v := by
  induction h with
  | nil => exact ⟨0, 0, by norm_num, by norm_num, by simp⟩
  | one p => exact fl_isF32 _
  | perm _ _ ih => exact ih
  | add _ _ _ _ => exact fl_isF32 _
  | fma _ _ _ => exact fl_isF32 _

private theorem fdot_nil {l : List (ℚ × ℚ)} {v : ℚ} (h : FDot l v) : l = [] → v = 0 := by
  induction h with
  | nil => intro _; rfl
  | one p => intro h; cases h
  | perm hp _ ih => intro h; subst h; exact ih (List.perm_nil.1 hp)
  | add _ _ ih ih' =>
      intro h
      rw [List.append_eq_nil_iff] at h
      rw [ih h.1, ih' h.2]; unfold fadd; rw [add_zero, fl_zero]
  | fma _ _ _ => intro h; cases h

private theorem err_step {u η A B E F : ℚ} {n m N : ℕ} (hu : 0 ≤ u) (hη : 0 ≤ η) (hA : 0 ≤ A) (hB : 0 ≤ B) (hn : n + 1 ≤ N) (hm : m + 1 ≤ N)
    {p q r : ℚ} (hp : 0 ≤ p) (hq : 0 ≤ q) (hr : p + q + 1 ≤ r)
    (hE : E ≤ ((1 + u) ^ n - 1) * A + p * (1 + u) ^ n * η) (hF : F ≤ ((1 + u) ^ m - 1) * B + q * (1 + u) ^ m * η) :
    (1 + u) * (E + F) + u * (A + B) + η ≤ ((1 + u) ^ N - 1) * (A + B) + r * (1 + u) ^ N * η := by
  have one : (1:ℚ) ≤ 1 + u := by linarith
  have hP : ∀ k, k + 1 ≤ N → (1 + u) * (1 + u) ^ k ≤ (1 + u) ^ N := fun k hk => by
    rw [← pow_succ']; exact pow_le_pow_right₀ one hk
  have h1 := hP n hn
  have h2 := hP m hm
  have h0 : 1 ≤ (1 + u) ^ N := one_le_pow₀ one
  generalize (1 + u) ^ N = R at *
  have e1 : (1 + u) * E ≤ ((1 + u) * (1 + u) ^ n - (1 + u)) * A + p * ((1 + u) * (1 + u) ^ n) * η := by
    have := mul_le_mul_of_nonneg_left hE (by linarith : 0 ≤ 1 + u)
    linarith
  have e2 : (1 + u) * F ≤ ((1 + u) * (1 + u) ^ m - (1 + u)) * B + q * ((1 + u) * (1 + u) ^ m) * η := by
    have := mul_le_mul_of_nonneg_left hF (by linarith : 0 ≤ 1 + u)
    linarith
  generalize (1 + u) * (1 + u) ^ n = X at *
  generalize (1 + u) * (1 + u) ^ m = Y at *
  have a1 := mul_le_mul_of_nonneg_right h1 hA
  have a2 := mul_le_mul_of_nonneg_right h2 hB
  have a3 := mul_le_mul_of_nonneg_right h1 (mul_nonneg hp hη)
  have a4 := mul_le_mul_of_nonneg_right h2 (mul_nonneg hq hη)
  have a5 : η ≤ R * η := le_mul_of_one_le_left hη h0
  have a6 := mul_le_mul_of_nonneg_right hr (mul_nonneg (by linarith : 0 ≤ R) hη)
  nlinarith

/-- C90: whatever order, grouping or fusing a matrix product uses, its result is within the usual bound of the exact one. -/
theorem C90_product {l : List (ℚ × ℚ)} {v : ℚ} (h : FDot l v) :
    |v - (l.map fun p => p.1 * p.2).sum| ≤ Spec.roundErr l.length (l.map fun p => |p.1 * p.2|).sum := by
  have bound : ∀ l : List (ℚ × ℚ), |(l.map fun p => p.1 * p.2).sum| ≤ (l.map fun p => |p.1 * p.2|).sum := by
    intro l
    have := list_abs_sum_le (l.map fun p => p.1 * p.2)
    rwa [List.map_map] at this
  have nn : ∀ l : List (ℚ × ℚ), 0 ≤ (l.map fun p => |p.1 * p.2|).sum := fun l => (abs_nonneg _).trans (bound l)
  have hu := (two_zpow_pos (-24)).le
  have hη := (two_zpow_pos (-150)).le
  have key : ∀ {l : List (ℚ × ℚ)} {v : ℚ}, FDot l v → l ≠ [] → |v - (l.map fun p => p.1 * p.2).sum| ≤
      ((1 + (2:ℚ) ^ (-24:ℤ)) ^ l.length - 1) * (l.map fun p => |p.1 * p.2|).sum +
        (2 * l.length - 1) * (1 + (2:ℚ) ^ (-24:ℤ)) ^ l.length * (2:ℚ) ^ (-150:ℤ) := by
    intro l v h
    have single : ∀ p : ℚ × ℚ, |fl (p.1 * p.2) - p.1 * p.2| ≤ ((1 + (2:ℚ) ^ (-24:ℤ)) ^ 1 - 1) * |p.1 * p.2| +
        (2 * 1 - 1) * (1 + (2:ℚ) ^ (-24:ℤ)) ^ 1 * (2:ℚ) ^ (-150:ℤ) := fun p => by
      have := fl_err (s := p.1 * p.2) (S := p.1 * p.2) (A := |p.1 * p.2|) (E := 0) (by simp) le_rfl
      generalize (2:ℚ) ^ (-24:ℤ) = u at *
      generalize (2:ℚ) ^ (-150:ℤ) = η at *
      nlinarith [mul_nonneg hu hη]
    induction h with
    | nil => intro h; exact absurd rfl h
    | one p => intro _; unfold fmul; simpa using single p
    | perm hp _ ih =>
        intro h
        have := ih (fun k => h (by subst k; exact List.perm_nil.1 hp.symm))
        rwa [(hp.map _).sum_eq, (hp.map _).sum_eq, hp.length_eq] at this
    | @add l l' v v' h h' ih ih' =>
        intro _
        rcases eq_or_ne l [] with rfl | hl
        · rcases eq_or_ne l' [] with rfl | hl'
          · exact absurd rfl ‹_›
          · rw [fdot_nil h rfl]; unfold fadd; rw [zero_add, fl_of_isF32 (fdot_isF32 h')]; exact ih' hl'
        rcases eq_or_ne l' [] with rfl | hl'
        · rw [fdot_nil h' rfl, List.append_nil]; unfold fadd; rw [add_zero, fl_of_isF32 (fdot_isF32 h)]; exact ih hl
        have i1 := ih hl
        have i2 := ih' hl'
        have n1 : 1 ≤ l.length := List.length_pos_iff.2 hl
        have n2 : 1 ≤ l'.length := List.length_pos_iff.2 hl'
        have q1 : (1:ℚ) ≤ l.length := by exact_mod_cast n1
        have q2 : (1:ℚ) ≤ l'.length := by exact_mod_cast n2
        rw [List.map_append, List.sum_append, List.map_append, List.sum_append, List.length_append]
        have e := abs_add_le (v - (l.map fun p => p.1 * p.2).sum) (v' - (l'.map fun p => p.1 * p.2).sum)
        rw [show v - (l.map fun p => p.1 * p.2).sum + (v' - (l'.map fun p => p.1 * p.2).sum) =
          v + v' - ((l.map fun p => p.1 * p.2).sum + (l'.map fun p => p.1 * p.2).sum) by ring] at e
        refine (fl_err e ((abs_add_le _ _).trans (add_le_add (bound l) (bound l')))).trans ?_
        exact err_step hu hη (nn l) (nn l') (by omega) (by omega) (by linarith) (by linarith) (by push_cast; linarith) i1 i2
    | @fma l v p h ih =>
        intro _
        rcases eq_or_ne l [] with rfl | hl
        · rw [fdot_nil h rfl, add_zero]; simpa using single p
        have i1 := ih hl
        have n1 : 1 ≤ l.length := List.length_pos_iff.2 hl
        have q1 : (1:ℚ) ≤ l.length := by exact_mod_cast n1
        rw [List.map_cons, List.sum_cons, List.map_cons, List.sum_cons, List.length_cons]
        have e : |p.1 * p.2 + v - (p.1 * p.2 + (l.map fun p => p.1 * p.2).sum)| ≤ 0 + |v - (l.map fun p => p.1 * p.2).sum| := by
          rw [zero_add, add_sub_add_left_eq_sub]
        refine (fl_err e ((abs_add_le _ _).trans (add_le_add le_rfl (bound l)))).trans ?_
        exact err_step (n := 0) (p := 0) hu hη (abs_nonneg _) (nn l) (by omega) (by omega) le_rfl (by linarith) (by push_cast; linarith)
          (by simp) i1
  unfold Spec.roundErr
  rcases eq_or_ne l [] with rfl | hl
  · rw [fdot_nil h rfl]; simp
  · refine (key h hl).trans (add_le_add_right ?_ _)
    refine mul_le_mul_of_nonneg_right (mul_le_mul_of_nonneg_right (by linarith) ?_) hη
    exact pow_nonneg (by linarith) _

/-! ## Exact steps -/

theorem shiftF_grid {g b : ℤ} {x : ℚ} (hx : OnGrid g x) (h : |x| ≤ 2 ^ 24 * (2:ℚ) ^ g) (hb : -149 ≤ b) (hg : -149 ≤ g - b) :
    shiftF x b = x / (2:ℚ) ^ b ∧ OnGrid (g - b) (x / (2:ℚ) ^ b) ∧ |x / (2:ℚ) ^ b| ≤ 2 ^ 24 * (2:ℚ) ^ (g - b) := by
  have G : OnGrid (g - b) (x / (2:ℚ) ^ b) := by
    obtain ⟨m, rfl⟩ := hx
    exact ⟨m, by rw [zpow_sub₀ (by norm_num)]; ring⟩
  have B : |x / (2:ℚ) ^ b| ≤ 2 ^ 24 * (2:ℚ) ^ (g - b) := by
    rw [abs_div, abs_of_pos (two_zpow_pos b), zpow_sub₀ (by norm_num), ← mul_div_assoc]
    exact div_le_div_of_nonneg_right h (two_zpow_pos b).le
  refine ⟨?_, G, B⟩
  unfold shiftF fdiv
  rw [fl_of_isF32 (isF32_two_zpow hb), fl_onGrid hg G B]

theorem lshiftF_grid {g b : ℤ} {x : ℚ} (hx : OnGrid g x) (h : |x| ≤ 2 ^ 24 * (2:ℚ) ^ g) (hb : -149 ≤ b) (hg : -149 ≤ g + b) :
    lshiftF x b = x * (2:ℚ) ^ b ∧ OnGrid (g + b) (x * (2:ℚ) ^ b) ∧ |x * (2:ℚ) ^ b| ≤ 2 ^ 24 * (2:ℚ) ^ (g + b) := by
  have G : OnGrid (g + b) (x * (2:ℚ) ^ b) := by
    obtain ⟨m, rfl⟩ := hx
    exact ⟨m, by rw [zpow_add₀ (by norm_num)]; ring⟩
  have B : |x * (2:ℚ) ^ b| ≤ 2 ^ 24 * (2:ℚ) ^ (g + b) := by
    rw [abs_mul, abs_of_pos (two_zpow_pos b), zpow_add₀ (by norm_num), ← mul_assoc]
    exact mul_le_mul_of_nonneg_right h (two_zpow_pos b).le
  refine ⟨?_, G, B⟩
  unfold lshiftF fmul
  rw [fl_of_isF32 (isF32_two_zpow hb), fl_onGrid hg G B]

/-- Integer part and fraction have the sign of the number. -/
private theorem trunc_split (x : ℚ) : |(truncZ x : ℚ)| + |frac x| = |x| := by
  unfold frac truncZ
  split_ifs with h
  · have h1 := Int.floor_le x
    have h2 : (0:ℚ) ≤ ⌊x⌋ := by exact_mod_cast Int.floor_nonneg.2 h
    rw [abs_of_nonneg h2, abs_of_nonneg (by linarith), abs_of_nonneg h]; ring
  · have h1 := Int.le_ceil x
    have h2 : ((⌈x⌉:ℤ):ℚ) ≤ 0 := by
      have : ⌈x⌉ ≤ 0 := Int.ceil_le.2 (by push_cast; linarith)
      exact_mod_cast this
    rw [abs_of_nonpos h2, abs_of_nonpos (by linarith), abs_of_nonpos (by linarith)]; ring

private theorem clamp_abs_le {c x : ℚ} (hc : 0 ≤ c) : |clamp (-c) c x| ≤ |x| := by
  unfold clamp
  rcases le_total x (-c) with h | h
  · rw [max_eq_right h, min_eq_left (by linarith), abs_neg, abs_of_nonneg hc]
    rw [abs_of_nonpos (by linarith)]; linarith
  · rw [max_eq_left h]
    rcases le_total x c with h' | h'
    · rw [min_eq_left h']
    · rw [min_eq_right h', abs_of_nonneg hc, abs_of_nonneg (by linarith)]; exact h'

/-- The digit loop in binary32 is exact on a number of at most 24 significant bits, and never increases a magnitude. -/
private theorem loopF_eq (t cyc : ℕ) (ht : t ≤ 24) (hc : 1 ≤ cyc) (hct : cyc ≤ 2 ^ t) (g : ℤ) (hg : -24 ≤ g) (hg0 : g ≤ 0) (V : ℚ)
    (hV : V ≤ 2 ^ 24 * (2:ℚ) ^ g) : ∀ (n j : ℕ) (p : ℚ × ℚ), j + t * n ≤ 100 → OnGrid g p.1 → OnGrid g (p.2 * 2 ^ j) →
      |p.2| * 2 ^ j + |p.1| * 2 ^ j ≤ V →
      tlutLoopF t cyc n p = tlutLoop t cyc n p ∧ OnGrid g ((tlutLoop t cyc n p).2 * 2 ^ (j + t * n)) ∧
        |(tlutLoop t cyc n p).2| * 2 ^ (j + t * n) ≤ V := by
  intro n
  induction n with
  | zero =>
      rintro j ⟨v, a⟩ _ _ h2 h3
      refine ⟨rfl, by show OnGrid g (a * 2 ^ j); exact h2, ?_⟩
      have : 0 ≤ |v| * 2 ^ j := by positivity
      show |a| * 2 ^ j ≤ V
      simp only at h3
      linarith
  | succ n ih =>
      rintro j ⟨v, a⟩ hj h1 h2 h3
      simp only at h1 h2 h3
      rw [Nat.mul_succ] at hj
      have cz : ∀ k : ℕ, (2:ℚ) ^ (k:ℤ) = 2 ^ k := fun k => zpow_natCast _ _
      have J1 : (1:ℚ) ≤ 2 ^ j := one_le_pow₀ (by norm_num)
      have T0 : (0:ℚ) < 2 ^ t := by positivity
      have av : |v| ≤ V := by
        have : |v| ≤ |v| * 2 ^ j := le_mul_of_one_le_right (abs_nonneg _) J1
        have : 0 ≤ |a| * 2 ^ j := by positivity
        linarith
      have aa : |a| * 2 ^ j ≤ V := by
        have : 0 ≤ |v| * 2 ^ j := by positivity
        linarith
      -- value >> t
      obtain ⟨s1, s2, s3⟩ := shiftF_grid h1 (av.trans hV) (b := t) (by omega) (by omega)
      rw [cz] at s1 s2 s3
      -- frac
      have tr := trunc_split (v / 2 ^ t)
      have f2 : OnGrid (g - t) (frac (v / 2 ^ t)) := by
        unfold frac; exact s2.sub (onGrid_int (by omega) _)
      have f3 : |frac (v / 2 ^ t)| ≤ |v / 2 ^ t| := by linarith [abs_nonneg ((truncZ (v / 2 ^ t) : ℤ) : ℚ)]
      have f1 : fsub (v / 2 ^ t) (truncZ (v / 2 ^ t)) = frac (v / 2 ^ t) := by
        unfold fsub
        exact fl_onGrid (g := g - t) (by omega) f2 (f3.trans s3)
      -- frac << t
      obtain ⟨l1, l2, -⟩ := lshiftF_grid f2 (f3.trans s3) (b := t) (by omega) (by omega)
      rw [cz, sub_add_cancel] at l2
      rw [cz] at l1
      -- clamp
      have c24 : (cyc:ℤ) ≤ 2 ^ 24 := by
        have : 2 ^ t ≤ 2 ^ 24 := Nat.pow_le_pow_right (by norm_num) ht
        exact_mod_cast hct.trans this
      have c1 : (1:ℤ) ≤ cyc := by exact_mod_cast hc
      have b1 : fl (-(cyc:ℚ) + 1) = -((cyc:ℚ) - 1) := by
        have := fl_int (n := -((cyc:ℤ) - 1)) (by rw [abs_le]; constructor <;> linarith)
        push_cast at this
        rw [show -(cyc:ℚ) + 1 = -((cyc:ℚ) - 1) by ring]; exact this
      have b2 : fl ((cyc:ℚ) - 1) = (cyc:ℚ) - 1 := by
        have := fl_int (n := (cyc:ℤ) - 1) (by rw [abs_le]; constructor <;> linarith)
        push_cast at this
        exact this
      have c0 : (0:ℚ) ≤ (cyc:ℚ) - 1 := by
        have : (1:ℚ) ≤ cyc := by exact_mod_cast hc
        linarith
      set f := clamp (-((cyc:ℚ) - 1)) ((cyc:ℚ) - 1) (frac (v / 2 ^ t) * 2 ^ t) with hf
      have fg : OnGrid g f := by
        have i1 : OnGrid g ((cyc:ℚ) - 1) := by
          have := onGrid_int hg0 ((cyc:ℤ) - 1); push_cast at this; exact this
        exact OnGrid.clamp i1.neg i1 l2
      have fa : |f| ≤ |frac (v / 2 ^ t)| * 2 ^ t := by
        refine (clamp_abs_le c0).trans ?_
        rw [abs_mul, abs_of_pos T0]
      have tv : (|((truncZ (v / 2 ^ t) : ℤ) : ℚ)| + |frac (v / 2 ^ t)|) * 2 ^ t = |v| := by
        rw [tr, abs_div, abs_of_pos T0, div_mul_cancel₀ _ T0.ne']
      have fv : |f| ≤ |v| := by
        have : 0 ≤ |((truncZ (v / 2 ^ t) : ℤ) : ℚ)| * 2 ^ t := by positivity
        rw [add_mul] at tv; linarith
      -- the two shifts and the addition
      obtain ⟨x1, -, -⟩ := shiftF_grid fg ((fv.trans av).trans hV) (b := t) (by omega) (by omega)
      rw [cz] at x1
      have zj : ∀ (k : ℕ) (h : ℤ), (2:ℚ) ^ (h - k) = (2:ℚ) ^ h / 2 ^ k := fun k h => by
        rw [zpow_sub₀ (by norm_num), zpow_natCast]
      have ag : OnGrid (g - j) a := by
        obtain ⟨m, hm⟩ := h2
        exact ⟨m, by rw [zj, ← mul_div_assoc, ← hm]; field_simp⟩
      have ab : |a| ≤ 2 ^ 24 * (2:ℚ) ^ (g - j) := by
        rw [zj, ← mul_div_assoc, le_div_iff₀ (by positivity)]; exact aa.trans hV
      obtain ⟨y1, -, -⟩ := shiftF_grid ag ab (b := t) (by omega) (by omega)
      rw [cz] at y1
      have n2 : OnGrid g ((f / 2 ^ t + a / 2 ^ t) * 2 ^ (j + t)) := by
        have e : (f / 2 ^ t + a / 2 ^ t) * 2 ^ (j + t) = ((2 ^ j : ℤ) : ℚ) * f + a * 2 ^ j := by
          rw [pow_add]; push_cast; field_simp
        rw [e]
        exact (fg.int_mul _).add h2
      have key : |f| * 2 ^ j + |((truncZ (v / 2 ^ t) : ℤ) : ℚ)| * 2 ^ t * 2 ^ j ≤ |v| * 2 ^ j := by
        rw [← add_mul]
        refine mul_le_mul_of_nonneg_right ?_ (by positivity)
        rw [add_mul] at tv; linarith
      have n3 : |f / 2 ^ t + a / 2 ^ t| * 2 ^ (j + t) ≤ |f| * 2 ^ j + |a| * 2 ^ j := by
        rw [← add_div, abs_div, abs_of_pos T0, pow_add, div_mul_eq_mul_div, div_le_iff₀ T0]
        have := mul_le_mul_of_nonneg_right (abs_add_le f a) (by positivity : (0:ℚ) ≤ 2 ^ j * 2 ^ t)
        linarith
      have n4 : |f / 2 ^ t + a / 2 ^ t| * 2 ^ (j + t) + |((truncZ (v / 2 ^ t) : ℤ) : ℚ)| * 2 ^ (j + t) ≤ V := by
        have e : |((truncZ (v / 2 ^ t) : ℤ) : ℚ)| * 2 ^ (j + t) = |((truncZ (v / 2 ^ t) : ℤ) : ℚ)| * 2 ^ t * 2 ^ j := by
          rw [pow_add]; ring
        rw [e]; linarith
      have z1 : fadd (f / 2 ^ t) (a / 2 ^ t) = f / 2 ^ t + a / 2 ^ t := by
        unfold fadd
        refine fl_onGrid (g := g - (j + t : ℕ)) (by push_cast; omega) ?_ ?_
        · obtain ⟨m, hm⟩ := n2
          exact ⟨m, by rw [zj, ← mul_div_assoc, ← hm]; field_simp⟩
        · rw [zj, ← mul_div_assoc, le_div_iff₀ (by positivity)]
          have : 0 ≤ |((truncZ (v / 2 ^ t) : ℤ) : ℚ)| * 2 ^ (j + t) := by positivity
          linarith
      have stepF : tlutLoopF t cyc (n + 1) (v, a) = tlutLoopF t cyc n ((truncZ (v / 2 ^ t) : ℚ), f / 2 ^ t + a / 2 ^ t) := by
        show tlutLoopF t cyc n ((truncZ (shiftF v t) : ℚ), fadd (shiftF (clamp (fl (-(cyc : ℚ) + 1)) (fl ((cyc : ℚ) - 1))
          (lshiftF (fsub (shiftF v t) (truncZ (shiftF v t))) t)) t) (shiftF a t)) = _
        rw [s1, f1, l1, b1, b2, ← hf, x1, y1, z1]
      have step : tlutLoop t cyc (n + 1) (v, a) = tlutLoop t cyc n ((truncZ (v / 2 ^ t) : ℚ), f / 2 ^ t + a / 2 ^ t) := by
        show tlutLoop t cyc n ((truncZ (v / 2 ^ t) : ℚ), clamp (-(cyc : ℚ) + 1) ((cyc : ℚ) - 1) (frac (v / 2 ^ t) * 2 ^ t) / 2 ^ t + a / 2 ^ t) = _
        rw [show -(cyc:ℚ) + 1 = -((cyc:ℚ) - 1) by ring]
      rw [stepF, step]
      obtain ⟨r1, r2, r3⟩ := ih (j + t) (((truncZ (v / 2 ^ t) : ℤ) : ℚ), f / 2 ^ t + a / 2 ^ t) (by omega) (onGrid_int hg0 _) n2 n4
      rw [show j + t * (n + 1) = j + t + t * n by rw [Nat.mul_succ]; omega]
      exact ⟨r1, r2, r3⟩

/-! ## Operands -/

private theorem one_pow (w : ℕ) : (1:ℤ) ≤ 2 ^ w := one_le_pow₀ (by norm_num)

private theorem pow24 {w : ℕ} (hw : w ≤ 24) : (2:ℤ) ^ w ≤ 2 ^ 24 := pow_le_pow_right₀ (by norm_num) hw

private theorem truncZ_small {y : ℚ} (h : |y| < 1) : truncZ y = 0 := by
  rw [abs_lt] at h
  unfold truncZ
  split_ifs with h0
  · rw [Int.floor_eq_iff]; push_cast; constructor <;> linarith
  · rw [Int.ceil_eq_iff]; push_cast; constructor <;> linarith

private theorem tlutQuantF_eq {width : ℕ} (hw : width ≤ 24) {rs : ℤ} (hrs : -149 ≤ rs) {x : ℚ} (hx : IsF32 x) :
    tlutQuantF width rs x = tlutQuant width rs x := by
  have h1 := one_pow width
  have h2 := pow24 hw
  unfold tlutQuantF tlutQuant shiftF fdiv
  rw [fl_of_isF32 (isF32_two_zpow hrs)]
  have b1 : fl (-(2:ℚ) ^ width + 1) = -((2:ℚ) ^ width - 1) := by
    have := fl_int (n := -((2:ℤ) ^ width - 1)) (by rw [abs_le]; constructor <;> linarith)
    push_cast at this
    rw [show -(2:ℚ) ^ width + 1 = -((2:ℚ) ^ width - 1) by ring]; exact this
  have b2 : fl ((2:ℚ) ^ width - 1) = (2:ℚ) ^ width - 1 := by
    have := fl_int (n := (2:ℤ) ^ width - 1) (by rw [abs_le]; constructor <;> linarith)
    push_cast at this
    exact this
  have c0 : (0:ℚ) ≤ (2:ℚ) ^ width - 1 := by
    have : (1:ℚ) ≤ 2 ^ width := by exact_mod_cast h1
    linarith
  rw [b1, b2, show -(2:ℚ) ^ width + 1 = -((2:ℚ) ^ width - 1) by ring]
  obtain ⟨m, e, hm, he, rfl⟩ := hx
  have hy : (m:ℚ) * (2:ℚ) ^ e / (2:ℚ) ^ rs = m * (2:ℚ) ^ (e - rs) := by rw [zpow_sub₀ (by norm_num)]; ring
  rw [hy]
  rcases le_or_gt (-149) (e - rs) with h | h
  · rw [fl_grid hm h rfl]
  have h3 : |(m:ℚ)| ≤ 2 ^ 24 := by rw [← Int.cast_abs]; exact_mod_cast hm
  have small : |(m:ℚ) * (2:ℚ) ^ (e - rs)| ≤ (2:ℚ) ^ (-126:ℤ) := by
    rw [abs_mul, abs_of_pos (two_zpow_pos _)]
    have h4 : (2:ℚ) ^ (e - rs) ≤ (2:ℚ) ^ (-150:ℤ) := zpow_le_zpow_right₀ (by norm_num) (by omega)
    calc |(m:ℚ)| * (2:ℚ) ^ (e - rs) ≤ 2 ^ 24 * (2:ℚ) ^ (-150:ℤ) := mul_le_mul h3 h4 (two_zpow_pos _).le (by norm_num)
      _ = _ := by norm_num
  have half : (2:ℚ) ^ (-126:ℤ) < 1 := by norm_num
  have F : IsF32 ((2:ℚ) ^ (-126:ℤ)) := isF32_two_zpow (by norm_num)
  generalize (m:ℚ) * (2:ℚ) ^ (e - rs) = y at small
  generalize (2:ℚ) ^ (-126:ℤ) = q at *
  have small' := small
  rw [abs_le] at small'
  have u := fl_le F small'.2
  have l := le_fl (isF32_neg F) small'.1
  rw [truncZ_small (lt_of_le_of_lt ((clamp_abs_le c0).trans (abs_le.2 ⟨l, u⟩)) half),
    truncZ_small (lt_of_le_of_lt ((clamp_abs_le c0).trans small) half)]

private theorem tlutQuant_le {width : ℕ} (hw : width ≤ 24) (rs : ℤ) (x : ℚ) : |((tlutQuant width rs x : ℤ) : ℚ)| ≤ 2 ^ 24 := by
  have h := (quant_trunc width rs x).2
  have h2 := pow24 hw
  have h3 : |tlutQuant width rs x| ≤ 2 ^ 24 := by linarith
  rw [← Int.cast_abs]
  exact_mod_cast h3

/-- The plain fixed-point operand is exact. -/
private theorem tlutPlainF_eq {width : ℕ} (hw : width ≤ 24) {rs : ℤ} (hrs : -149 ≤ rs) {x : ℚ} (hx : IsF32 x) :
    tlutPlainF width rs x = tlutPlain width rs x := by
  unfold tlutPlainF tlutPlain
  rw [tlutQuantF_eq hw hrs hx]
  refine (lshiftF_grid (g := 0) (onGrid_int le_rfl _) ?_ hrs (by omega)).1
  rw [zpow_zero, mul_one]
  exact tlutQuant_le hw rs x

/-- The temporal fixed-point operand is exact. -/
private theorem tlutFxpF_eq {width t cyc : ℕ} (hw : width ≤ 24) (ht : 1 ≤ t) (ht' : t ≤ 24) (hc : 1 ≤ cyc) (hct : cyc ≤ 2 ^ t) {rs : ℤ}
    (hrs : -149 ≤ rs) {x : ℚ} (hx : IsF32 x) : tlutFxpF width t cyc rs x = tlutFxp width t cyc rs x := by
  unfold tlutFxpF tlutFxp
  rw [tlutQuantF_eq hw hrs hx]
  obtain ⟨d1, d2, d3⟩ := C49_degree width t ht
  have dn : t * tlutDegree width t < 48 := by
    have : ((t * tlutDegree width t : ℕ) : ℤ) < 48 := by push_cast; rw [mul_comm]; omega
    exact_mod_cast this
  have hV := tlutQuant_le hw rs x
  obtain ⟨l1, l2, l3⟩ := loopF_eq t cyc ht' hc hct 0 (by norm_num) le_rfl (2 ^ 24) (by norm_num) (tlutDegree width t) 0
    ((tlutQuant width rs x : ℚ), 0) (by omega) (onGrid_int le_rfl _) ⟨0, by simp⟩ (by simpa using hV)
  rw [l1]
  rw [zero_add] at l2 l3
  generalize (tlutLoop t cyc (tlutDegree width t) ((tlutQuant width rs x : ℚ), 0)).2 = a at *
  have P : (0:ℚ) < 2 ^ (t * tlutDegree width t) := by positivity
  have e : ((t * tlutDegree width t : ℕ) : ℤ) = tlutDelta width t + width := by push_cast; linarith
  have z : (2:ℚ) ^ (0 - ((t * tlutDegree width t : ℕ):ℤ)) = 1 / 2 ^ (t * tlutDegree width t) := by
    rw [zero_sub, zpow_neg, zpow_natCast, one_div]
  refine (lshiftF_grid (g := 0 - ((t * tlutDegree width t : ℕ):ℤ)) ?_ ?_ (by omega) (by omega)).1
  · obtain ⟨m, hm⟩ := l2
    refine ⟨m, ?_⟩
    rw [z]
    rw [zpow_zero, mul_one] at hm
    rw [← hm]; field_simp
  · rw [z, ← mul_div_assoc, mul_one, le_div_iff₀ P]; exact l3

/-- The mantissa of a binary32 number has 24 binary digits. -/
private theorem mantissa_grid {x : ℚ} (hx : IsF32 x) {e : ℤ} (he : (2:ℚ) ^ (e - 1) ≤ |x|) : OnGrid (-24) (x / (2:ℚ) ^ e) := by
  obtain ⟨k, f, hk, hf, rfl⟩ := hx
  have e1 : (k:ℚ) * (2:ℚ) ^ f / (2:ℚ) ^ e = k * (2:ℚ) ^ (f - e) := by rw [zpow_sub₀ (by norm_num)]; ring
  rw [e1]
  rcases le_or_gt (-24) (f - e) with h | h
  · exact OnGrid.mono h ⟨k, rfl⟩
  · rw [abs_mul, abs_of_pos (two_zpow_pos f)] at he
    have hk' : |(k:ℚ)| ≤ 2 ^ 24 := by rw [← Int.cast_abs]; exact_mod_cast hk
    have h1 : (2:ℚ) ^ (e - 1) ≤ (2:ℚ) ^ (24 + f) := by
      rw [zpow_add₀ (by norm_num)]
      exact he.trans (mul_le_mul_of_nonneg_right (by exact_mod_cast hk') (two_zpow_pos f).le)
    have h2 : e - 1 ≤ 24 + f := (zpow_le_zpow_iff_right₀ (by norm_num : (1:ℚ) < 2)).1 h1
    obtain rfl : e = f + 25 := by omega
    have h3 : (2:ℚ) ^ 24 ≤ |(k:ℚ)| := by
      rw [show f + 25 - 1 = 24 + f by ring, zpow_add₀ (by norm_num)] at he
      have := le_of_mul_le_mul_right he (two_zpow_pos f)
      exact_mod_cast this
    have h4 : |k| = 2 ^ 24 := by
      have : (2:ℤ) ^ 24 ≤ |k| := by
        rw [← Int.cast_abs] at h3; exact_mod_cast h3
      omega
    rw [show f - (f + 25) = -24 - 1 by ring]
    rcases abs_choice k with h5 | h5
    · rw [h5] at h4; subst h4
      exact ⟨2 ^ 23, by norm_num⟩
    · have : k = -2 ^ 24 := by omega
      subst this
      exact ⟨-2 ^ 23, by norm_num⟩

/-- The temporal floating-point operand is exact on nought and normal numbers. -/
private theorem tlutFpF_eq {width t cyc : ℕ} (hw : width ≤ 24) (ht : 1 ≤ t) (ht' : t ≤ 24) (hc : 1 ≤ cyc) (hct : cyc ≤ 2 ^ t)
    {x : ℚ} (hx : IsF32 x) (hn : x = 0 ∨ (2:ℚ) ^ (-126:ℤ) ≤ |x|) : tlutFpF width t cyc x = tlutFp width t cyc x := by
  obtain ⟨d1, d2, d3⟩ := C49_degree width t ht
  have dn : t * tlutDegree width t < 48 := by
    have : ((t * tlutDegree width t : ℕ) : ℤ) < 48 := by push_cast; rw [mul_comm]; omega
    exact_mod_cast this
  obtain ⟨m, e, hme, hg, hm1, he⟩ : ∃ m e, frexp x = (m, e) ∧ OnGrid (-24) m ∧ |m| ≤ 1 ∧ -125 ≤ e := by
    by_cases h0 : x = 0
    · subst h0
      exact ⟨0, 0, by unfold frexp; rw [if_pos rfl], onGrid_zero _, by simp, by norm_num⟩
    · obtain ⟨e, h1, h2, h3⟩ := frexp_spec x h0
      refine ⟨_, e, h1, mantissa_grid hx h2, ?_, ?_⟩
      · rw [abs_div, abs_of_pos (two_zpow_pos e), div_le_one (two_zpow_pos e)]; exact h3.le
      · have : (2:ℚ) ^ (-126:ℤ) < (2:ℚ) ^ e := lt_of_le_of_lt (hn.resolve_left h0) h3
        have := (zpow_lt_zpow_iff_right₀ (by norm_num : (1:ℚ) < 2)).1 this
        omega
  unfold tlutFpF tlutFp
  rw [hme]
  show lshiftF (lshiftF (tlutLoopF t cyc (tlutDegree width t) (lshiftF m width, 0)).2 (tlutDelta width t)) e =
    (tlutLoop t cyc (tlutDegree width t) (m * 2 ^ width, 0)).2 * (2:ℚ) ^ tlutDelta width t * (2:ℚ) ^ e
  have one : (2:ℚ) ^ 24 * (2:ℚ) ^ (-24:ℤ) = 1 := by norm_num
  obtain ⟨s1, s2, -⟩ := lshiftF_grid hg (by rw [one]; exact hm1) (b := width) (by omega) (by omega)
  rw [zpow_natCast] at s1 s2
  rw [s1]
  have hP : (0:ℚ) < 2 ^ width := by positivity
  have hV : (2:ℚ) ^ width = 2 ^ 24 * (2:ℚ) ^ (-24 + (width:ℤ)) := by
    rw [zpow_add₀ (by norm_num), ← mul_assoc, one, one_mul, zpow_natCast]
  have hb : |m * 2 ^ width| ≤ 2 ^ width := by
    rw [abs_mul, abs_of_pos hP]; exact mul_le_of_le_one_left hP.le hm1
  obtain ⟨l1, l2, l3⟩ := loopF_eq t cyc ht' hc hct (-24 + (width:ℤ)) (by omega) (by omega) (2 ^ width) hV.le (tlutDegree width t) 0
    (m * 2 ^ width, 0) (by omega) s2 ⟨0, by simp⟩ (by simpa using hb)
  rw [l1]
  rw [zero_add] at l2 l3
  generalize (tlutLoop t cyc (tlutDegree width t) (m * 2 ^ width, 0)).2 = a at *
  have P : (0:ℚ) < 2 ^ (t * tlutDegree width t) := by positivity
  have ed : ((t * tlutDegree width t : ℕ) : ℤ) = tlutDelta width t + width := by push_cast; linarith
  have z : (2:ℚ) ^ (-24 + (width:ℤ) - ((t * tlutDegree width t : ℕ):ℤ)) = (2:ℚ) ^ (-24 + (width:ℤ)) / 2 ^ (t * tlutDegree width t) := by
    rw [zpow_sub₀ (by norm_num), zpow_natCast]
  obtain ⟨r1, r2, r3⟩ := lshiftF_grid (x := a) (g := -24 + (width:ℤ) - ((t * tlutDegree width t : ℕ):ℤ)) (b := tlutDelta width t)
    (by
      obtain ⟨k, hk⟩ := l2
      exact ⟨k, by rw [z, ← mul_div_assoc, ← hk]; field_simp⟩)
    (by rw [z, ← mul_div_assoc, le_div_iff₀ P, ← hV]; exact l3) (by omega) (by omega)
  rw [r1]
  exact (lshiftF_grid r2 r3 (b := e) (by omega) (by omega)).1

/-! ## Whole calls -/

/-- `y` is the product of `a` and `b` in some order of floating-point additions, within the usual bound of the exact product, with the
bias added and rounded. -/
def Spec.NearDot {I : ℕ} (a b : Fin I → ℚ) (bias : Option ℚ) (y : ℚ) : Prop :=
  ∃ v, |v - ∑ i, a i * b i| ≤ Spec.roundErr I (∑ i, |a i * b i|) ∧ y = bias.elim v fun c => fl (v + c)

private theorem near {I : ℕ} {a b : Fin I → ℚ} {v : ℚ} (h : FDot (List.ofFn fun i => (a i, b i)) v) :
    |v - ∑ i, a i * b i| ≤ Spec.roundErr I (∑ i, |a i * b i|) := by
  have := C90_product h
  rw [List.map_ofFn, List.map_ofFn, List.sum_ofFn, List.sum_ofFn, List.length_ofFn] at this
  exact this

private theorem bias_eq (v : ℚ) (bias : Option ℚ) : addBiasF v bias = bias.elim v fun c => fl (v + c) := by cases bias <;> rfl

/-- Products on a common grid that stay in range are exact. -/
theorem fdot_grid {g : ℤ} (hg : -149 ≤ g) {l : List (ℚ × ℚ)} {v : ℚ} (h : FDot l v) :
    (∀ p ∈ l, OnGrid g (p.1 * p.2)) → (l.map fun p => |p.1 * p.2|).sum ≤ 2 ^ 24 * (2:ℚ) ^ g →
      v = (l.map fun p => p.1 * p.2).sum := by
  have bound : ∀ l : List (ℚ × ℚ), |(l.map fun p => p.1 * p.2).sum| ≤ (l.map fun p => |p.1 * p.2|).sum := by
    intro l
    have := list_abs_sum_le (l.map fun p => p.1 * p.2)
    rwa [List.map_map] at this
  have nn : ∀ l : List (ℚ × ℚ), 0 ≤ (l.map fun p => |p.1 * p.2|).sum := fun l => (abs_nonneg _).trans (bound l)
  have gl : ∀ l : List (ℚ × ℚ), (∀ p ∈ l, OnGrid g (p.1 * p.2)) → OnGrid g (l.map fun p => p.1 * p.2).sum := by
    intro l hl
    apply OnGrid.list_sum
    intro x hx
    obtain ⟨p, hp, rfl⟩ := List.mem_map.1 hx
    exact hl p hp
  have go : ∀ x : ℚ, OnGrid g x → |x| ≤ 2 ^ 24 * (2:ℚ) ^ g → fl x = x := fun x hx hb => fl_onGrid hg hx hb
  induction h with
  | nil => intro _ _; simp
  | one p =>
      intro h1 h2
      simp only [List.map_cons, List.map_nil, List.sum_cons, List.sum_nil, add_zero] at h2 ⊢
      exact go _ (h1 p (by simp)) h2
  | @perm l l' v h _ ih =>
      intro h1 h2
      rw [← (h.map _).sum_eq]
      exact ih (fun p hp => h1 p (h.mem_iff.1 hp)) (by rw [(h.map _).sum_eq]; exact h2)
  | @add l l' v v' _ _ ih ih' =>
      intro h1 h2
      rw [List.map_append, List.sum_append] at h2
      have e1 := ih (fun p hp => h1 p (List.mem_append_left _ hp)) (by linarith [nn l'])
      have e2 := ih' (fun p hp => h1 p (List.mem_append_right _ hp)) (by linarith [nn l])
      rw [List.map_append, List.sum_append, e1, e2]
      unfold fadd
      apply go
      · rw [← List.sum_append, ← List.map_append]; exact gl _ h1
      · exact (abs_add_le _ _).trans (by linarith [bound l, bound l'])
  | @fma l v p _ ih =>
      intro h1 h2
      rw [List.map_cons, List.sum_cons] at h2 ⊢
      have e1 := ih (fun q hq => h1 q (List.mem_cons_of_mem _ hq)) (by linarith [abs_nonneg (p.1 * p.2)])
      rw [e1]
      apply go
      · exact (h1 p (by simp)).add (gl _ fun q hq => h1 q (List.mem_cons_of_mem _ hq))
      · exact (abs_add_le _ _).trans (by linarith [bound l])

/-- What a call gives once the two operand maps are known. -/
private theorem call {I O : ℕ} {lg : ℚ → ℚ} {cfg : Tlut} {w : Fin O → Fin I → ℚ} {bias : Option (Fin O → ℚ)} {x : List (Fin I → ℚ)}
    {sc : List ℚ → ℚ → Except PyErr ℚ} {fi fw gi gw : ℚ → ℚ} (h : tlutOperandsF lg cfg w x sc = .ok (fi, fw)) (hi : ∀ row ∈ x, ∀ i, fi (row i) = gi (row i))
    (hw : ∀ o i, fw (w o i) = gw (w o i)) :
    (∃ r, TlutLinearF lg cfg w bias x r sc) ∧
    ∀ r, TlutLinearF lg cfg w bias x r sc → ∃ out, r = .ok out ∧ out.length = x.length ∧
      ∀ (n : ℕ) (row : Fin I → ℚ), x[n]? = some row → ∃ y, out[n]? = some y ∧
        ∀ o, ∃ v, FDot (List.ofFn fun i => (gi (row i), gw (w o i))) v ∧ y o = (bias.map fun b => b o).elim v fun c => fl (v + c) := by
  unfold TlutLinearF
  rw [h]
  constructor
  · obtain ⟨out, ho⟩ := forall2_exists (R := fun row (y : Fin O → ℚ) => ∀ o, ∃ v, FDot (List.ofFn fun i => (fi (row i), fw (w o i))) v ∧
        y o = addBiasF v (bias.map fun b => b o)) x (fun row _ => by
      choose v hv using fun o => fdot_exists (List.ofFn fun i => (fi (row i), fw (w o i)))
      exact ⟨fun o => addBiasF (v o) (bias.map fun b => b o), fun o => ⟨v o, hv o, rfl⟩⟩)
    exact ⟨_, out, rfl, ho⟩
  · rintro r ⟨out, rfl, ho⟩
    obtain ⟨hl, hg⟩ := forall2_get ho
    refine ⟨out, rfl, hl, fun n row hrow => ?_⟩
    obtain ⟨y, hy, hR⟩ := hg n row hrow
    refine ⟨y, hy, fun o => ?_⟩
    obtain ⟨v, hv, e⟩ := hR o
    have hm := List.mem_of_getElem? hrow
    refine ⟨v, ?_, by rw [e, bias_eq]⟩
    convert hv using 3 with i
    rw [hi row hm, hw]

/-- A fixed-point operand of a look-up layer in units of `u`: truncated to `width` bits, and with its digits limited if it is the
temporal coded one. -/
def Spec.LutOperand (temporal : Bool) (t c width : ℕ) (u a b : ℚ) : Prop :=
  if temporal then Spec.Temporal t c (Spec.digits width t) (2 ^ width - 1) u a b else Spec.Truncated (2 ^ width - 1) u a b

private theorem lut_int {temporal : Bool} {t c width : ℕ} (ht : 1 ≤ t) (hc : 1 ≤ c) (hct : c ≤ 2 ^ t) {u a b : ℚ}
    (h : Spec.LutOperand temporal t c width u a b) : ∃ n : ℤ, b = n * u ∧ |n| ≤ 2 ^ width - 1 := by
  unfold Spec.LutOperand at h
  split_ifs at h
  · rw [← C49_digits _ _ ht] at h
    obtain ⟨k, h1, h2, rfl⟩ := h
    have e := C49_degree width t ht
    have hwD : width ≤ t * tlutDegree width t := by
      have : (width : ℤ) ≤ t * tlutDegree width t := by linarith [e.1, e.2.1]
      exact_mod_cast this
    have hk : k.natAbs < 2 ^ width := by
      have h1 : (k.natAbs : ℤ) < ((2 ^ width : ℕ) : ℤ) := by push_cast; omega
      exact_mod_cast h1
    have h3 := (C50_limited t c (tlutDegree width t) k.natAbs hc hct
      (lt_of_lt_of_le hk (Nat.pow_le_pow_right (by norm_num) hwD))).1
    refine ⟨(if k < 0 then -1 else 1) * (Spec.limited t c (tlutDegree width t) k.natAbs : ℤ), by push_cast; rfl, ?_⟩
    have h4 : (Spec.limited t c (tlutDegree width t) k.natAbs : ℤ) ≤ k.natAbs := by exact_mod_cast h3
    rw [abs_mul, abs_of_nonneg (by positivity : (0:ℤ) ≤ (Spec.limited t c (tlutDegree width t) k.natAbs : ℤ))]
    have h5 : |(if k < 0 then -1 else 1 : ℤ)| = 1 := by split_ifs <;> simp
    rw [h5, one_mul]
    rw [Int.natCast_natAbs] at h4
    exact h4.trans h2
  · obtain ⟨k, h1, rfl, -⟩ := h
    exact ⟨k, rfl, h1⟩

/-- A fixed-point look-up layer for measured scales `s`, `t`. -/
theorem tlut_fixed_any {I O : ℕ} (lg : ℚ → ℚ) (δ : ℝ) (hδ : δ ≤ 1 / 2) (cfg : Tlut) (hfi : cfg.formati = .fxp) (hfw : cfg.formatw = .fxp)
    (ht : 1 ≤ cfg.t) (ht' : cfg.t ≤ 24) (c : ℕ) (hc : 1 ≤ c)
    (hcyc : c = (match cfg.cycle with | none => 2 ^ cfg.t | some k => min k (2 ^ cfg.t)))
    (a b : ℕ) (ha : cfg.widthi = a + 1) (hb : cfg.widthw = b + 1) (ha' : a ≤ 24) (hb' : b ≤ 24)
    (hr : cfg.rounding ∈ ["round", "ceil", "floor"])
    (w : Fin O → Fin I → ℚ) (bias : Option (Fin O → ℚ)) (x : List (Fin I → ℚ)) 
    (sc : List ℚ → ℚ → Except PyErr ℚ) (s t : ℚ) (bs : (2:ℚ) ^ (-50:ℤ) ≤ s ∧ s ≤ (2:ℚ) ^ (50:ℤ)) (bt : (2:ℚ) ^ (-50:ℤ) ≤ t ∧ t ≤ (2:ℚ) ^ (50:ℤ))
    (es : sc (x.flatMap List.ofFn) cfg.quantilei = .ok s) (et : sc ((List.ofFn w).flatMap List.ofFn) cfg.quantilew = .ok t)
    (fx : ∀ row ∈ x, ∀ i, IsF32 (row i)) (fw : ∀ o i, IsF32 (w o i))
    (hls : |((lg s : ℚ) : ℝ) - Real.logb 2 s| ≤ δ) (hlt : |((lg t : ℚ) : ℝ) - Real.logb 2 t| ≤ δ) :
    ∃ (im wm : ℤ) (qx qw : ℚ → ℚ), Spec.PickedNear δ cfg.rounding im s ∧ Spec.PickedNear δ cfg.rounding wm t ∧
      (∀ v, Spec.LutOperand cfg.temporalI cfg.t c a ((2:ℚ) ^ (im - a)) v (qx v)) ∧
      (∀ v, Spec.LutOperand (!cfg.temporalI) cfg.t c b ((2:ℚ) ^ (wm - b)) v (qw v)) ∧
      (∃ r, TlutLinearF lg cfg w bias x r sc) ∧
      ∀ r, TlutLinearF lg cfg w bias x r sc → ∃ out, r = .ok out ∧ out.length = x.length ∧
        ∀ (n : ℕ) (row : Fin I → ℚ), x[n]? = some row → ∃ y, out[n]? = some y ∧ ∀ o,
          Spec.NearDot (fun i => qx (row i)) (fun i => qw (w o i)) (bias.map fun b => b o) (y o) ∧
          ((I:ℤ) * ((2 ^ a - 1) * (2 ^ b - 1)) ≤ 2 ^ 24 →
            y o = fl (∑ i, qx (row i) * qw (w o i) + (bias.map fun b => b o).getD 0) ∧
            (bias = none → y o = ∑ i, qx (row i) * qw (w o i))) := by
  have hM0 : 0 < s := lt_of_lt_of_le (two_zpow_pos _) bs.1
  have hN0 : 0 < t := lt_of_lt_of_le (two_zpow_pos _) bt.1
  obtain ⟨im, wm, p1, p2, hs⟩ := shifts_any lg δ x w (a:ℤ) (b:ℤ) cfg.rounding hr cfg.quantilei cfg.quantilew sc s t hM0 hN0 es et hls hlt
  have b1 := picked_bounds hδ p1 bs.1 bs.2
  have b2 := picked_bounds hδ p2 bt.1 bt.2
  rw [abs_le] at b1 b2
  have hcy : tlutCycle cfg.t cfg.cycle = c := hcyc.symm
  have hct : c ≤ 2 ^ cfg.t := by
    rw [← hcy]; unfold tlutCycle; cases cfg.cycle with
    | none => exact le_rfl
    | some k => exact min_le_right _ _
  have main : ∃ (fi fw' gi gw : ℚ → ℚ), tlutOperandsF lg cfg w x sc = .ok (fi, fw') ∧ (∀ v, IsF32 v → fi v = gi v) ∧
      (∀ v, IsF32 v → fw' v = gw v) ∧ (∀ v, Spec.LutOperand cfg.temporalI cfg.t c a ((2:ℚ) ^ (im - a)) v (gi v)) ∧
      (∀ v, Spec.LutOperand (!cfg.temporalI) cfg.t c b ((2:ℚ) ^ (wm - b)) v (gw v)) := by
    have hsub : ((cfg.widthi:ℤ) - 1) = a ∧ ((cfg.widthw:ℤ) - 1) = b ∧ cfg.widthi - 1 = a ∧ cfg.widthw - 1 = b := by
      rw [ha, hb]; push_cast; omega
    cases hT : cfg.temporalI
    · refine ⟨tlutPlainF a (im - a), tlutFxpF b cfg.t c (wm - b), tlutPlain a (im - a), tlutFxp b cfg.t c (wm - b), ?_,
        fun v hv => tlutPlainF_eq ha' (by omega) hv, fun v hv => tlutFxpF_eq hb' ht ht' hc hct (by omega) hv, fun v => ?_, fun v => ?_⟩
      · unfold tlutOperandsF
        simp only [hfi, hfw, hT, hcy, and_self, if_true, hsub, hs]; rfl
      · exact (quant_trunc _ _ _).1
      · have := tlutFxp_temporal b cfg.t c ht hc (wm - b) v
        rw [C49_digits _ _ ht] at this
        exact this
    · refine ⟨tlutFxpF a cfg.t c (im - a), tlutPlainF b (wm - b), tlutFxp a cfg.t c (im - a), tlutPlain b (wm - b), ?_,
        fun v hv => tlutFxpF_eq ha' ht ht' hc hct (by omega) hv, fun v hv => tlutPlainF_eq hb' (by omega) hv, fun v => ?_, fun v => ?_⟩
      · unfold tlutOperandsF
        simp only [hfi, hfw, hT, hcy, and_self, if_true, hsub, hs]; rfl
      · have := tlutFxp_temporal a cfg.t c ht hc (im - a) v
        rw [C49_digits _ _ ht] at this
        exact this
      · exact (quant_trunc _ _ _).1
  obtain ⟨fi, fw', gi, gw, m1, m2, m3, m4, m5⟩ := main
  obtain ⟨c1, c2⟩ := call (bias := bias) m1 (fun row hrow i => m2 _ (fx row hrow i)) (fun o i => m3 _ (fw o i))
  refine ⟨im, wm, gi, gw, p1, p2, m4, m5, c1, fun r hrr => ?_⟩
  obtain ⟨out, h1, h2, h3⟩ := c2 r hrr
  refine ⟨out, h1, h2, fun n row hrow => ?_⟩
  obtain ⟨y, hy, hR⟩ := h3 n row hrow
  refine ⟨y, hy, fun o => ?_⟩
  obtain ⟨v, hv, e⟩ := hR o
  refine ⟨⟨v, near hv, e⟩, fun hI => ?_⟩
  have grid : ∀ i, ∃ k : ℤ, gi (row i) * gw (w o i) = k * (2:ℚ) ^ (im - a + (wm - b)) ∧ |k| ≤ (2 ^ a - 1) * (2 ^ b - 1) := fun i => by
    obtain ⟨k1, e1, l1⟩ := lut_int ht hc hct (m4 (row i))
    obtain ⟨k2, e2, l2⟩ := lut_int ht hc hct (m5 (w o i))
    refine ⟨k1 * k2, by rw [e1, e2, zpow_add₀ (by norm_num)]; push_cast; ring, ?_⟩
    rw [abs_mul]
    exact mul_le_mul l1 l2 (abs_nonneg _) (by have := one_pow a; linarith)
  choose k hk1 hk2 using grid
  have U := two_zpow_pos (im - a + (wm - b))
  have tot : ∑ i, |k i| ≤ 2 ^ 24 := by
    refine (sum_le_sum fun i _ => hk2 i).trans ?_
    rw [sum_const, card_univ, Fintype.card_fin, nsmul_eq_mul]; exact hI
  have totq : ∑ i, |((k i : ℤ) : ℚ)| ≤ 2 ^ 24 := by
    have : ((∑ i, |k i| : ℤ) : ℚ) ≤ ((2 ^ 24 : ℤ) : ℚ) := by exact_mod_cast tot
    push_cast at this; exact this
  have habs : ∑ i, |gi (row i) * gw (w o i)| = (∑ i, |((k i : ℤ) : ℚ)|) * (2:ℚ) ^ (im - a + (wm - b)) := by
    rw [sum_mul]
    refine sum_congr rfl fun i _ => ?_
    rw [hk1, abs_mul, abs_of_pos U]
  have ev : v = ∑ i, gi (row i) * gw (w o i) := by
    rcases Nat.eq_zero_or_pos I with rfl | hI0
    · rw [fdot_nil hv (by simp)]; simp
    have hu : -149 ≤ im - a + (wm - b) := by
      by_contra hcon
      obtain rfl : a = 24 := by omega
      obtain rfl : b = 24 := by omega
      have : (1:ℤ) ≤ I := by exact_mod_cast hI0
      norm_num at hI
      omega
    have ev := fdot_grid hu hv (by
      intro p hp; rw [List.mem_ofFn] at hp; obtain ⟨i, rfl⟩ := hp; exact ⟨k i, hk1 i⟩) (by
      rw [List.map_ofFn, List.sum_ofFn]
      simp only [Function.comp_def]
      rw [habs]
      exact mul_le_mul_of_nonneg_right totq U.le)
    rw [List.map_ofFn, List.sum_ofFn] at ev
    exact ev
  subst ev
  refine ⟨?_, fun hb => ?_⟩
  · rw [e]
    cases bias with
    | some b => rfl
    | none =>
        show _ = fl (_ + 0)
        rw [add_zero, fl_of_isF32 (fdot_isF32 hv)]
        rfl
  · rw [e]; subst hb; rfl

/-- C90: a fixed-point look-up layer in binary32, with quantile one, the logarithm good to `δ ≤ 1/2`, magnitudes between `2^-50` and `2^50`,
at most 25 bits per operand and 24 per digit: it gives a result; whatever the order of the additions, the operands are exactly those of
the layer in exact arithmetic, their products are added within the usual bound of exactly, and exactly while they fit 24 bits; then the
bias is added and rounded. -/
theorem C90_fixed {I O : ℕ} (lg : ℚ → ℚ) (δ : ℝ) (hδ : δ ≤ 1 / 2) (cfg : Tlut) (hfi : cfg.formati = .fxp) (hfw : cfg.formatw = .fxp)
    (ht : 1 ≤ cfg.t) (ht' : cfg.t ≤ 24) (c : ℕ) (hc : 1 ≤ c)
    (hcyc : c = (match cfg.cycle with | none => 2 ^ cfg.t | some k => min k (2 ^ cfg.t)))
    (a b : ℕ) (ha : cfg.widthi = a + 1) (hb : cfg.widthw = b + 1) (ha' : a ≤ 24) (hb' : b ≤ 24)
    (hqi : cfg.quantilei = 1) (hqw : cfg.quantilew = 1) (hr : cfg.rounding ∈ ["round", "ceil", "floor"])
    (w : Fin O → Fin I → ℚ) (bias : Option (Fin O → ℚ)) (x : List (Fin I → ℚ)) (M N : ℚ)
    (hM : (2:ℚ) ^ (-50:ℤ) ≤ M ∧ M ≤ (2:ℚ) ^ (50:ℤ)) (hN : (2:ℚ) ^ (-50:ℤ) ≤ N ∧ N ≤ (2:ℚ) ^ (50:ℤ))
    (hx : Spec.MaxAbs M (x.flatMap List.ofFn)) (hw : Spec.MaxAbs N ((List.ofFn w).flatMap List.ofFn))
    (fx : ∀ row ∈ x, ∀ i, IsF32 (row i)) (fw : ∀ o i, IsF32 (w o i))
    (hlM : |((lg M : ℚ) : ℝ) - Real.logb 2 M| ≤ δ) (hlN : |((lg N : ℚ) : ℝ) - Real.logb 2 N| ≤ δ) :
    ∃ (im wm : ℤ) (qx qw : ℚ → ℚ), Spec.PickedNear δ cfg.rounding im M ∧ Spec.PickedNear δ cfg.rounding wm N ∧
      (∀ v, Spec.LutOperand cfg.temporalI cfg.t c a ((2:ℚ) ^ (im - a)) v (qx v)) ∧
      (∀ v, Spec.LutOperand (!cfg.temporalI) cfg.t c b ((2:ℚ) ^ (wm - b)) v (qw v)) ∧
      (∃ r, TlutLinearF lg cfg w bias x r) ∧
      ∀ r, TlutLinearF lg cfg w bias x r → ∃ out, r = .ok out ∧ out.length = x.length ∧
        ∀ (n : ℕ) (row : Fin I → ℚ), x[n]? = some row → ∃ y, out[n]? = some y ∧ ∀ o,
          Spec.NearDot (fun i => qx (row i)) (fun i => qw (w o i)) (bias.map fun b => b o) (y o) ∧
          ((I:ℤ) * ((2 ^ a - 1) * (2 ^ b - 1)) ≤ 2 ^ 24 →
            y o = fl (∑ i, qx (row i) * qw (w o i) + (bias.map fun b => b o).getD 0) ∧
            (bias = none → y o = ∑ i, qx (row i) * qw (w o i))) :=
  tlut_fixed_any lg δ hδ cfg hfi hfw ht ht' c hc hcyc a b ha hb ha' hb' hr w bias x qscale M N hM hN
    (by rw [hqi]; exact qscale_full hx) (by rw [hqw]; exact qscale_full hw) fx fw hlM hlN

/-- A mixed-format look-up layer for measured scales `s`, `t`. -/
theorem tlut_mixed_any {I O : ℕ} (lg : ℚ → ℚ) (δ : ℝ) (hδ : δ ≤ 1 / 2) (cfg : Tlut) (hmix : (cfg.formati = .fxp) ≠ (cfg.formatw = .fxp))
    (ht : 1 ≤ cfg.t) (ht' : cfg.t ≤ 24) (c : ℕ) (hc : 1 ≤ c)
    (hcyc : c = (match cfg.cycle with | none => 2 ^ cfg.t | some k => min k (2 ^ cfg.t)))
    (width : ℕ) (hwd : width = if cfg.temporalI then Spec.sigBits cfg.formati cfg.widthi else Spec.sigBits cfg.formatw cfg.widthw)
    (hw24 : width ≤ 24)
    (hr : cfg.rounding ∈ ["round", "ceil", "floor"])
    (w : Fin O → Fin I → ℚ) (bias : Option (Fin O → ℚ)) (x : List (Fin I → ℚ)) 
    (sc : List ℚ → ℚ → Except PyErr ℚ) (s t : ℚ) (bs : (2:ℚ) ^ (-50:ℤ) ≤ s ∧ s ≤ (2:ℚ) ^ (50:ℤ)) (bt : (2:ℚ) ^ (-50:ℤ) ≤ t ∧ t ≤ (2:ℚ) ^ (50:ℤ))
    (es : sc (x.flatMap List.ofFn) cfg.quantilei = .ok s) (et : sc ((List.ofFn w).flatMap List.ofFn) cfg.quantilew = .ok t)
    (fx : ∀ row ∈ x, ∀ i, IsF32 (row i)) (fw : ∀ o i, IsF32 (w o i))
    (hls : |((lg s : ℚ) : ℝ) - Real.logb 2 s| ≤ δ) (hlt : |((lg t : ℚ) : ℝ) - Real.logb 2 t| ≤ δ) :
    ∃ (m : ℤ) (q : ℚ → ℚ), Spec.PickedNear δ cfg.rounding m (if cfg.temporalI then s else t) ∧
      (∀ v, Spec.LutOperand true cfg.t c width ((2:ℚ) ^ (m - width)) v (q v)) ∧
      (∃ r, TlutLinearF lg cfg w bias x r sc) ∧
      ∀ r, TlutLinearF lg cfg w bias x r sc → ∃ out, r = .ok out ∧ out.length = x.length ∧
        ∀ (n : ℕ) (row : Fin I → ℚ), x[n]? = some row → ∃ y, out[n]? = some y ∧ ∀ o,
          Spec.NearDot (fun i => if cfg.temporalI then q (row i) else row i) (fun i => if cfg.temporalI then w o i else q (w o i))
            (bias.map fun b => b o) (y o) := by
  have hM0 : 0 < s := lt_of_lt_of_le (two_zpow_pos _) bs.1
  have hN0 : 0 < t := lt_of_lt_of_le (two_zpow_pos _) bt.1
  obtain ⟨im, wm, p1, p2, hs⟩ := shifts_any lg δ x w (width:ℤ) (width:ℤ) cfg.rounding hr cfg.quantilei cfg.quantilew sc s t hM0 hN0 es et hls hlt
  have b1 := picked_bounds hδ p1 bs.1 bs.2
  have b2 := picked_bounds hδ p2 bt.1 bt.2
  rw [abs_le] at b1 b2
  have hcy : tlutCycle cfg.t cfg.cycle = c := hcyc.symm
  have hct : c ≤ 2 ^ cfg.t := by
    rw [← hcy]; unfold tlutCycle; cases cfg.cycle with
    | none => exact le_rfl
    | some k => exact min_le_right _ _
  have n1 : ¬ (cfg.formati = .fxp ∧ cfg.formatw = .fxp) := fun h => hmix (by rw [eq_true h.1, eq_true h.2])
  have n2 : ¬ (cfg.formati ≠ .fxp ∧ cfg.formatw ≠ .fxp) := fun h => hmix (by rw [eq_false h.1, eq_false h.2])
  simp only [sig_eq] at hwd
  have spec : ∀ (m : ℤ) (v : ℚ), Spec.LutOperand true cfg.t c width ((2:ℚ) ^ (m - width)) v (tlutFxp width cfg.t c (m - width) v) := by
    intro m v
    have := tlutFxp_temporal width cfg.t c ht hc (m - width) v
    rw [C49_digits _ _ ht] at this
    exact this
  cases hT : cfg.temporalI
  · rw [hT] at hwd
    simp only [Bool.false_eq_true, if_false] at hwd
    have op : tlutOperandsF lg cfg w x sc = .ok (id, tlutFxpF width cfg.t c (wm - width)) := by
      unfold tlutOperandsF
      simp only [if_neg n1, if_neg n2, hT, hcy, Bool.false_eq_true, if_false, ← hwd, hs]; rfl
    obtain ⟨c1, c2⟩ := call (bias := bias) (gi := id) (gw := tlutFxp width cfg.t c (wm - width)) op (fun _ _ _ => rfl)
      (fun o i => tlutFxpF_eq hw24 ht ht' hc hct (by omega) (fw o i))
    refine ⟨wm, tlutFxp width cfg.t c (wm - width), by simpa using p2, spec wm, c1, fun r hrr => ?_⟩
    obtain ⟨out, h1, h2, h3⟩ := c2 r hrr
    refine ⟨out, h1, h2, fun n row hrow => ?_⟩
    obtain ⟨y, hy, hR⟩ := h3 n row hrow
    refine ⟨y, hy, fun o => ?_⟩
    obtain ⟨v, hv, e⟩ := hR o
    exact ⟨v, near hv, e⟩
  · rw [hT] at hwd
    simp only [if_true] at hwd
    have op : tlutOperandsF lg cfg w x sc = .ok (tlutFxpF width cfg.t c (im - width), id) := by
      unfold tlutOperandsF
      simp only [if_neg n1, if_neg n2, hT, hcy, if_true, ← hwd, hs]; rfl
    obtain ⟨c1, c2⟩ := call (bias := bias) (gi := tlutFxp width cfg.t c (im - width)) (gw := id) op
      (fun row hrow i => tlutFxpF_eq hw24 ht ht' hc hct (by omega) (fx row hrow i)) (fun _ _ => rfl)
    refine ⟨im, tlutFxp width cfg.t c (im - width), by simpa using p1, spec im, c1, fun r hrr => ?_⟩
    obtain ⟨out, h1, h2, h3⟩ := c2 r hrr
    refine ⟨out, h1, h2, fun n row hrow => ?_⟩
    obtain ⟨y, hy, hR⟩ := h3 n row hrow
    refine ⟨y, hy, fun o => ?_⟩
    obtain ⟨v, hv, e⟩ := hR o
    exact ⟨v, near hv, e⟩

/-- C90: a mixed-format look-up layer in binary32, under the same conditions: the temporal coded operand is exactly that of the layer in
exact arithmetic, the other operand is unchanged, and the products are added within the usual bound of exactly. -/
theorem C90_mixed {I O : ℕ} (lg : ℚ → ℚ) (δ : ℝ) (hδ : δ ≤ 1 / 2) (cfg : Tlut) (hmix : (cfg.formati = .fxp) ≠ (cfg.formatw = .fxp))
    (ht : 1 ≤ cfg.t) (ht' : cfg.t ≤ 24) (c : ℕ) (hc : 1 ≤ c)
    (hcyc : c = (match cfg.cycle with | none => 2 ^ cfg.t | some k => min k (2 ^ cfg.t)))
    (width : ℕ) (hwd : width = if cfg.temporalI then Spec.sigBits cfg.formati cfg.widthi else Spec.sigBits cfg.formatw cfg.widthw)
    (hw24 : width ≤ 24)
    (hqi : cfg.quantilei = 1) (hqw : cfg.quantilew = 1) (hr : cfg.rounding ∈ ["round", "ceil", "floor"])
    (w : Fin O → Fin I → ℚ) (bias : Option (Fin O → ℚ)) (x : List (Fin I → ℚ)) (M N : ℚ)
    (hM : (2:ℚ) ^ (-50:ℤ) ≤ M ∧ M ≤ (2:ℚ) ^ (50:ℤ)) (hN : (2:ℚ) ^ (-50:ℤ) ≤ N ∧ N ≤ (2:ℚ) ^ (50:ℤ))
    (hx : Spec.MaxAbs M (x.flatMap List.ofFn)) (hw : Spec.MaxAbs N ((List.ofFn w).flatMap List.ofFn))
    (fx : ∀ row ∈ x, ∀ i, IsF32 (row i)) (fw : ∀ o i, IsF32 (w o i))
    (hlM : |((lg M : ℚ) : ℝ) - Real.logb 2 M| ≤ δ) (hlN : |((lg N : ℚ) : ℝ) - Real.logb 2 N| ≤ δ) :
    ∃ (m : ℤ) (q : ℚ → ℚ), Spec.PickedNear δ cfg.rounding m (if cfg.temporalI then M else N) ∧
      (∀ v, Spec.LutOperand true cfg.t c width ((2:ℚ) ^ (m - width)) v (q v)) ∧
      (∃ r, TlutLinearF lg cfg w bias x r) ∧
      ∀ r, TlutLinearF lg cfg w bias x r → ∃ out, r = .ok out ∧ out.length = x.length ∧
        ∀ (n : ℕ) (row : Fin I → ℚ), x[n]? = some row → ∃ y, out[n]? = some y ∧ ∀ o,
          Spec.NearDot (fun i => if cfg.temporalI then q (row i) else row i) (fun i => if cfg.temporalI then w o i else q (w o i))
            (bias.map fun b => b o) (y o) :=
  tlut_mixed_any lg δ hδ cfg hmix ht ht' c hc hcyc width hwd hw24 hr w bias x qscale M N hM hN
    (by rw [hqi]; exact qscale_full hx) (by rw [hqw]; exact qscale_full hw) fx fw hlM hlN

/-- C90: a floating-point look-up layer in binary32 whose temporal coded operand holds noughts and normal numbers: that operand is exactly
the one of the layer in exact arithmetic (digits of the integer mantissa limited by the cycle count if it fits the significand; without
early termination the number itself, or within `2^(1-width)` of it if it does not fit), and the products are added within the usual bound
of exactly. -/
theorem C90_float {I O : ℕ} (lg : ℚ → ℚ) (cfg : Tlut) (hfi : cfg.formati ≠ .fxp) (hfw : cfg.formatw ≠ .fxp) (ht : 1 ≤ cfg.t)
    (ht' : cfg.t ≤ 24) (c : ℕ) (hc : 1 ≤ c) (hcyc : c = (match cfg.cycle with | none => 2 ^ cfg.t | some k => min k (2 ^ cfg.t)))
    (w : Fin O → Fin I → ℚ) (bias : Option (Fin O → ℚ)) (x : List (Fin I → ℚ))
    (fx : cfg.temporalI = true → ∀ row ∈ x, ∀ i, IsF32 (row i) ∧ (row i = 0 ∨ (2:ℚ) ^ (-126:ℤ) ≤ |row i|))
    (fw : cfg.temporalI = false → ∀ o i, IsF32 (w o i) ∧ (w o i = 0 ∨ (2:ℚ) ^ (-126:ℤ) ≤ |w o i|)) :
    ∃ (width : ℕ) (q : ℚ → ℚ), width = Spec.sigBits (if cfg.temporalI then cfg.formati else cfg.formatw) 0 ∧
      (∀ a, Spec.FitsBits width a → ∃ e : ℤ, Spec.Truncated (2 ^ width - 1) ((2:ℚ) ^ e) a a ∧
        Spec.Temporal cfg.t c (Spec.digits width cfg.t) (2 ^ width - 1) ((2:ℚ) ^ e) a (q a)) ∧
      (c = 2 ^ cfg.t → ∀ a, (Spec.FitsBits width a → q a = a) ∧ (a ≠ 0 → |q a - a| < (2:ℚ) ^ (1 - width : ℤ) * |a|)) ∧
      (∃ r, TlutLinearF lg cfg w bias x r) ∧
      ∀ r, TlutLinearF lg cfg w bias x r → ∃ out, r = .ok out ∧ out.length = x.length ∧
        ∀ (n : ℕ) (row : Fin I → ℚ), x[n]? = some row → ∃ y, out[n]? = some y ∧ ∀ o,
          Spec.NearDot (fun i => if cfg.temporalI then q (row i) else row i) (fun i => if cfg.temporalI then w o i else q (w o i))
            (bias.map fun b => b o) (y o) := by
  have hcy : tlutCycle cfg.t cfg.cycle = c := hcyc.symm
  have hct : c ≤ 2 ^ cfg.t := by
    rw [← hcy]; unfold tlutCycle; cases cfg.cycle with
    | none => exact le_rfl
    | some k => exact min_le_right _ _
  have hw' : ∀ f : Fmt, f ≠ .fxp → ∀ n, tlutWidth f n = tlutWidth f 0 ∧ 1 ≤ tlutWidth f 0 ∧ tlutWidth f 0 ≤ 24 := by
    intro f hf n; cases f <;> first | exact ⟨rfl, by decide, by decide⟩ | exact absurd rfl hf
  have n1 : ¬ (cfg.formati = .fxp ∧ cfg.formatw = .fxp) := fun h => hfi h.1
  have n2 : cfg.formati ≠ .fxp ∧ cfg.formatw ≠ .fxp := ⟨hfi, hfw⟩
  have s1 : ∀ width a, Spec.FitsBits width a → ∃ e : ℤ, Spec.Truncated (2 ^ width - 1) ((2:ℚ) ^ e) a a ∧
      Spec.Temporal cfg.t c (Spec.digits width cfg.t) (2 ^ width - 1) ((2:ℚ) ^ e) a (tlutFp width cfg.t c a) := by
    intro width a h
    rw [← C49_digits _ _ ht]
    exact tlutFp_temporal width cfg.t c ht hc a h
  have s2 : ∀ width, 1 ≤ width → c = 2 ^ cfg.t → ∀ a, (Spec.FitsBits width a → tlutFp width cfg.t c a = a) ∧
      (a ≠ 0 → |tlutFp width cfg.t c a - a| < (2:ℚ) ^ (1 - width : ℤ) * |a|) := by
    rintro width hwd rfl a
    exact tlutFp_error width cfg.t ht hwd a
  simp only [sig_eq]
  cases hT : cfg.temporalI
  · obtain ⟨w1, w2, w3⟩ := hw' _ hfw cfg.widthw
    have op : tlutOperandsF lg cfg w x = .ok (id, tlutFpF (tlutWidth cfg.formatw 0) cfg.t c) := by
      unfold tlutOperandsF
      simp only [if_neg n1, if_pos n2, hT, hcy, Bool.false_eq_true, if_false, w1]
    obtain ⟨c1, c2⟩ := call (bias := bias) (gi := id) (gw := tlutFp (tlutWidth cfg.formatw 0) cfg.t c) op (fun _ _ _ => rfl)
      (fun o i => tlutFpF_eq w3 ht ht' hc hct (fw hT o i).1 (fw hT o i).2)
    refine ⟨_, tlutFp (tlutWidth cfg.formatw 0) cfg.t c, rfl, s1 _, s2 _ w2, c1, fun r hrr => ?_⟩
    obtain ⟨out, h1, h2, h3⟩ := c2 r hrr
    refine ⟨out, h1, h2, fun n row hrow => ?_⟩
    obtain ⟨y, hy, hR⟩ := h3 n row hrow
    refine ⟨y, hy, fun o => ?_⟩
    obtain ⟨v, hv, e⟩ := hR o
    exact ⟨v, near hv, e⟩
  · obtain ⟨w1, w2, w3⟩ := hw' _ hfi cfg.widthi
    have op : tlutOperandsF lg cfg w x = .ok (tlutFpF (tlutWidth cfg.formati 0) cfg.t c, id) := by
      unfold tlutOperandsF
      simp only [if_neg n1, if_pos n2, hT, hcy, if_true, w1]
    obtain ⟨c1, c2⟩ := call (bias := bias) (gi := tlutFp (tlutWidth cfg.formati 0) cfg.t c) (gw := id) op
      (fun row hrow i => tlutFpF_eq w3 ht ht' hc hct (fx hT row hrow i).1 (fx hT row hrow i).2) (fun _ _ => rfl)
    refine ⟨_, tlutFp (tlutWidth cfg.formati 0) cfg.t c, rfl, s1 _, s2 _ w2, c1, fun r hrr => ?_⟩
    obtain ⟨out, h1, h2, h3⟩ := c2 r hrr
    refine ⟨out, h1, h2, fun n row hrow => ?_⟩
    obtain ⟨y, hy, hR⟩ := h3 n row hrow
    refine ⟨y, hy, fun o => ?_⟩
    obtain ⟨v, hv, e⟩ := hR o
    exact ⟨v, near hv, e⟩

/-! ## Gradients -/

private theorem fsum_fdot {l : List ℚ} {v : ℚ} (h : FSum l v) : (∀ a ∈ l, IsF32 a) → FDot (l.map fun a => (a, 1)) v := by
  induction h with
  | nil => intro _; exact .nil
  | one a =>
      intro h
      have : FDot [(a, (1:ℚ))] (fmul a 1) := .one (a, 1)
      unfold fmul at this
      rw [mul_one, fl_of_isF32 (h a (by simp))] at this
      exact this
  | perm hp _ ih => intro h; exact .perm (hp.map _) (ih fun a ha => h a (hp.mem_iff.1 ha))
  | add _ _ ih ih' =>
      intro h
      rw [List.map_append]
      exact .add (ih fun a ha => h a (List.mem_append_left _ ha)) (ih' fun a ha => h a (List.mem_append_right _ ha))

/-- C90: the gradients computed in binary32, in any order of the additions, are within the usual bound of the exact ones; those not asked
for are missing. -/
theorem C90_gradient {B I O : ℕ} (x : Fin B → Fin I → ℚ) (w : Fin O → Fin I → ℚ) (hasBias : Bool) (needs : Bool × Bool × Bool)
    (g : Fin B → Fin O → ℚ) (hg : ∀ n o, IsF32 (g n o)) (r : Grads B I O) (h : BackwardF x w hasBias needs g r) :
    (needs.1 = true → ∃ G, r.input = some G ∧ ∀ n i, |G n i - ∑ o, g n o * w o i| ≤ Spec.roundErr O (∑ o, |g n o * w o i|)) ∧
    (needs.2.1 = true → ∃ G, r.weight = some G ∧ ∀ o i, |G o i - ∑ n, g n o * x n i| ≤ Spec.roundErr B (∑ n, |g n o * x n i|)) ∧
    (hasBias = true → needs.2.2 = true → ∃ G, r.bias = some G ∧ ∀ o, |G o - ∑ n, g n o| ≤ Spec.roundErr B (∑ n, |g n o|)) ∧
    (needs.1 = false → r.input = none) ∧ (needs.2.1 = false → r.weight = none) ∧
    (hasBias = false ∨ needs.2.2 = false → r.bias = none) := by
  obtain ⟨h1, h2, h3⟩ := h
  refine ⟨fun k => ?_, fun k => ?_, fun k k' => ?_, fun k => ?_, fun k => ?_, fun k => ?_⟩
  · rw [if_pos k] at h1
    obtain ⟨G, e, hG⟩ := h1
    exact ⟨G, e, fun n i => near (hG n i)⟩
  · rw [if_pos k] at h2
    obtain ⟨G, e, hG⟩ := h2
    exact ⟨G, e, fun o i => near (hG o i)⟩
  · rw [if_pos (by rw [k, k']; rfl)] at h3
    obtain ⟨G, e, hG⟩ := h3
    refine ⟨G, e, fun o => ?_⟩
    have := fsum_fdot (hG o) (by intro a ha; rw [List.mem_ofFn] at ha; obtain ⟨n, rfl⟩ := ha; exact hg n o)
    rw [List.map_ofFn] at this
    have := near (a := fun n => g n o) (b := fun _ => 1) this
    simpa using this
  · rw [if_neg (by rw [k]; simp)] at h1; exact h1
  · rw [if_neg (by rw [k]; simp)] at h2; exact h2
  · rw [if_neg (by rcases k with k | k <;> rw [k] <;> simp)] at h3; exact h3

/-! ## Non-vacuity -/

/-- A sum that is not exact: `2^24 + 1` is returned as `2^24`. -/
example : FDot [((2:ℚ) ^ 24, 1), (1, 1)] (2 ^ 24) := by
  have h : FDot [((2:ℚ) ^ 24, 1), (1, 1)] (fl ((2:ℚ) ^ 24 * 1 + fmul 1 1)) := .fma ((2:ℚ) ^ 24, 1) (.one (1, 1))
  have e1 : fmul 1 1 = 1 := by
    unfold fmul; rw [mul_one]; have := fl_int (n := 1) (by norm_num); push_cast at this; exact this
  have e2 : fl ((2:ℚ) ^ 24 + 1) = 2 ^ 24 := by
    have := fl_count (2 ^ 24) (by norm_num) le_rfl
    push_cast at this
    norm_num at this ⊢
    exact this
  rw [mul_one, e1, e2] at h
  exact h

private theorem f32 (n e : ℤ) (h1 : |n| ≤ 2 ^ 24) (h2 : -149 ≤ e) : IsF32 (n * (2:ℚ) ^ e) := ⟨n, e, h1, h2, rfl⟩

private theorem f_half : IsF32 (1/2) := by have := f32 1 (-1) (by norm_num) (by norm_num); norm_num at this ⊢; exact this
private theorem f_neg : IsF32 (-1) := by have := f32 (-1) 0 (by norm_num) (by norm_num); norm_num at this ⊢; exact this
private theorem f_two : IsF32 2 := by have := f32 1 1 (by norm_num) (by norm_num); norm_num at this ⊢; exact this
private theorem f_quarter : IsF32 (-1/4) := by have := f32 (-1) (-2) (by norm_num) (by norm_num); norm_num at this ⊢; exact this

/-- A fixed-point layer of width 8 with digits of four bits stopped after ten cycles. -/
example : ∃ (lg : ℚ → ℚ) (im wm : ℤ) (qx : ℚ → ℚ), Spec.PickedNear 0 "ceil" im 2 ∧ Spec.PickedNear 0 "ceil" wm 1 ∧
    (∀ v, Spec.LutOperand true 4 10 7 ((2:ℚ) ^ (im - (7:ℕ))) v (qx v)) ∧
    ∃ r, TlutLinearF lg ⟨true, 4, .fxp, 8, 1, .fxp, 8, 1, some 10, "ceil"⟩ (fun _ : Fin 1 => ![(1:ℚ)/2, -1]) (some fun _ => 1 / 3)
      [![(2:ℚ), -1/4]] r := by
  obtain ⟨im, wm, qx, qw, p1, p2, h1, -, h, -⟩ := C90_fixed (fun s => if s = 2 then 1 else 0) 0 (by norm_num)
    ⟨true, 4, .fxp, 8, 1, .fxp, 8, 1, some 10, "ceil"⟩ rfl rfl (by norm_num) (by norm_num) 10 (by norm_num) (by norm_num) 7 7 rfl rfl
    (by norm_num) (by norm_num) rfl rfl (by decide) (fun _ : Fin 1 => ![(1:ℚ)/2, -1]) (some fun _ => 1 / 3) [![(2:ℚ), -1/4]]
    2 1 (by norm_num) (by norm_num)
    ⟨by intro a ha
        simp [List.ofFn_succ] at ha
        rcases ha with rfl | rfl <;> norm_num [abs_div],
      2, by simp [List.ofFn_succ], by norm_num⟩
    ⟨by intro a ha
        simp [List.ofFn_succ] at ha
        rcases ha with rfl | rfl <;> norm_num [abs_div],
      -1, by simp [List.ofFn_succ], by norm_num⟩
    (by intro row hrow i
        rw [List.mem_singleton] at hrow; subst hrow
        revert i; rw [Fin.forall_fin_two]; exact ⟨f_two, f_quarter⟩)
    (by intro o i; revert i; rw [Fin.forall_fin_two]; exact ⟨f_half, f_neg⟩)
    (by simp only [if_pos]; push_cast; rw [Real.logb_self_eq_one (by norm_num)]; norm_num)
    (by rw [if_neg (by norm_num)]; push_cast; rw [Real.logb_one]; norm_num)
  exact ⟨_, im, wm, qx, p1, p2, h1, h⟩

/-- A mixed layer whose temporal coded weight is in half precision: it is treated as fixed point of 11 bits. -/
example : ∃ (lg : ℚ → ℚ) (m : ℤ) (q : ℚ → ℚ), Spec.PickedNear 0 "ceil" m 1 ∧
    (∀ v, Spec.LutOperand true 4 16 11 ((2:ℚ) ^ (m - (11:ℕ))) v (q v)) ∧
    ∃ r, TlutLinearF lg ⟨false, 4, .fxp, 8, 1, .float16, 16, 1, none, "ceil"⟩ (fun _ : Fin 1 => ![(1:ℚ)/2, -1]) none
      [![(2:ℚ), -1/4]] r := by
  obtain ⟨m, q, p1, h1, h, -⟩ := C90_mixed (fun s => if s = 2 then 1 else 0) 0 (by norm_num)
    ⟨false, 4, .fxp, 8, 1, .float16, 16, 1, none, "ceil"⟩ (by simp) (by norm_num) (by norm_num) 16 (by norm_num) (by norm_num) 11 rfl
    (by norm_num) rfl rfl (by decide) (fun _ : Fin 1 => ![(1:ℚ)/2, -1]) none [![(2:ℚ), -1/4]]
    2 1 (by norm_num) (by norm_num)
    ⟨by intro a ha
        simp [List.ofFn_succ] at ha
        rcases ha with rfl | rfl <;> norm_num [abs_div],
      2, by simp [List.ofFn_succ], by norm_num⟩
    ⟨by intro a ha
        simp [List.ofFn_succ] at ha
        rcases ha with rfl | rfl <;> norm_num [abs_div],
      -1, by simp [List.ofFn_succ], by norm_num⟩
    (by intro row hrow i
        rw [List.mem_singleton] at hrow; subst hrow
        revert i; rw [Fin.forall_fin_two]; exact ⟨f_two, f_quarter⟩)
    (by intro o i; revert i; rw [Fin.forall_fin_two]; exact ⟨f_half, f_neg⟩)
    (by simp only [if_pos]; push_cast; rw [Real.logb_self_eq_one (by norm_num)]; norm_num)
    (by rw [if_neg (by norm_num)]; push_cast; rw [Real.logb_one]; norm_num)
  exact ⟨_, m, q, p1, h1, h⟩

/-- A brain-float layer: `-1/4` fits eight bits, so the exact operand is used. -/
example : ∃ q : ℚ → ℚ, q (-1/4) = -1/4 ∧
    ∃ r, TlutLinearF (fun _ => 0) ⟨true, 4, .bfloat16, 16, 1, .float32, 32, 1, none, "ceil"⟩ (fun _ : Fin 1 => ![(1:ℚ)/2, -1]) none
      [![(2:ℚ), -1/4]] r := by
  obtain ⟨width, q, hw, -, h2, h, -⟩ := C90_float (fun _ => 0) ⟨true, 4, .bfloat16, 16, 1, .float32, 32, 1, none, "ceil"⟩
    (by decide) (by decide) (by norm_num) (by norm_num) 16 (by norm_num) (by norm_num) (fun _ : Fin 1 => ![(1:ℚ)/2, -1]) none
    [![(2:ℚ), -1/4]]
    (by intro _ row hrow i
        rw [List.mem_singleton] at hrow; subst hrow
        revert i; rw [Fin.forall_fin_two]
        exact ⟨⟨f_two, Or.inr (by norm_num)⟩, ⟨f_quarter, Or.inr (by norm_num [abs_div])⟩⟩)
    (by simp)
  refine ⟨q, (h2 (by norm_num) _).1 ?_, h⟩
  rw [hw]
  exact ⟨-1, -2, by decide +kernel, by norm_num⟩

/-- Gradients of a layer with two outputs. -/
example : ∃ r : Grads 1 1 2, BackwardF (fun _ _ => 2) (fun o _ => if o = 0 then 1 / 2 else -1) true (true, true, false) (fun _ _ => 1 / 2) r ∧
    (∀ n o, IsF32 ((fun (_ : Fin 1) (_ : Fin 2) => (1:ℚ) / 2) n o)) ∧ r.bias = none := by
  choose v hv using fun l => fdot_exists l
  exact ⟨⟨some fun _ _ => v _, some fun _ _ => v _, none⟩, ⟨⟨_, rfl, fun _ _ => hv _⟩, ⟨_, rfl, fun _ _ => hv _⟩, rfl⟩, fun _ _ => f_half, rfl⟩

end Verif.Props
