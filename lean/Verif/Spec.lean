import Verif.Basic

/-!
# Specification vocabulary

Small definitions, written without reference to the model, in which the properties are stated.
-/

namespace Verif.Spec

open Finset

/-- Number of ones among the first `n` elements of a bitstream (their sum). -/
def ones (x : ℕ → ℤ) (n : ℕ) : ℤ := ∑ t ∈ range n, x t

/-- A stream of bits. -/
def BitStream (x : ℕ → ℤ) : Prop := ∀ t, IsBit (x t)

/-- `#1 - #0` of the first `n` bits. -/
def walk (x : ℕ → ℤ) (n : ℕ) : ℤ := ∑ t ∈ range n, (2 * x t - 1)

/-- Unipolar value of the first `n` bits. -/
def uniValue (x : ℕ → ℤ) (n : ℕ) : ℚ := (ones x n : ℚ) / n

/-- Bipolar value of the first `n` bits. -/
def biValue (x : ℕ → ℤ) (n : ℕ) : ℚ := 2 * ((ones x n : ℚ) / n) - 1

/-- A number sequence of length `2^w` containing each of `0 … 2^w - 1` exactly once. -/
def IsPermSeq (w : ℕ) (rng : List ℤ) : Prop :=
  rng.length = 2 ^ w ∧ ∀ v : ℤ, 0 ≤ v → v < 2 ^ w → rng.count v = 1

theorem ones_succ (x : ℕ → ℤ) (n : ℕ) : ones x (n + 1) = ones x n + x n := sum_range_succ _ _
@[simp] theorem ones_zero (x : ℕ → ℤ) : ones x 0 = 0 := rfl
theorem walk_succ (x : ℕ → ℤ) (n : ℕ) : walk x (n + 1) = walk x n + (2 * x n - 1) :=
  sum_range_succ _ _
@[simp] theorem walk_zero (x : ℕ → ℤ) : walk x 0 = 0 := rfl

theorem walk_eq (x : ℕ → ℤ) (n : ℕ) : walk x n = 2 * ones x n - n := by
  induction n with
  | zero => simp
  | succ n ih => rw [walk_succ, ones_succ, ih]; push_cast; ring

theorem ones_nonneg {x : ℕ → ℤ} (h : BitStream x) (n : ℕ) : 0 ≤ ones x n :=
  sum_nonneg fun t _ => (h t).nonneg

theorem ones_le {x : ℕ → ℤ} (h : BitStream x) (n : ℕ) : ones x n ≤ n := by
  induction n with
  | zero => simp
  | succ n ih => rw [ones_succ]; have := (h n).le_one; push_cast; omega

end Verif.Spec

namespace Verif.Spec

/-- Equidistribution of a number sequence of length `2^w` in elementary intervals: every aligned
block of `2^j` positions visits each of the `2^j` intervals of length `2^(w-j)` exactly once. -/
def DyadicNet (w : ℕ) (rng : List ℤ) : Prop :=
  rng.length = 2 ^ w ∧
  ∀ j ≤ w, ∀ a < 2 ^ (w - j), ∀ c : ℤ, 0 ≤ c → c < 2 ^ j →
    ∃! r, r < 2 ^ j ∧ c * 2 ^ (w - j) ≤ rng.getD (a * 2 ^ j + r) 0 ∧
      rng.getD (a * 2 ^ j + r) 0 < (c + 1) * 2 ^ (w - j)

end Verif.Spec

namespace Verif.Spec

/-- Running maximum of the walk, at least `0`. -/
def runMax (x : ℕ → ℤ) : ℕ → ℤ
  | 0 => 0
  | n + 1 => max (runMax x n) (walk x (n + 1))

/-- A walk with increments `d` kept between `-B` and `0`: what would rise above `0` is counted in
the second component, what would fall below `-B` is lost. -/
def regulated (B : ℤ) (d : ℕ → ℤ) : ℕ → ℤ × ℤ
  | 0 => (0, 0)
  | n + 1 =>
      let y := (regulated B d n).1 + d n
      (max (-B) (min y 0), (regulated B d n).2 + max y 0)

theorem runMax_nonneg (x : ℕ → ℤ) (n : ℕ) : 0 ≤ runMax x n := by
  induction n with
  | zero => exact le_refl _
  | succ n ih => exact le_trans ih (le_max_left _ _)

theorem walk_le_runMax (x : ℕ → ℤ) {m n : ℕ} (h : m ≤ n) : walk x m ≤ runMax x n := by
  induction n with
  | zero => have : m = 0 := by omega
            subst this; exact le_refl _
  | succ n ih =>
      rcases Nat.lt_or_eq_of_le h with h | rfl
      · exact le_trans (ih (by omega)) (le_max_left _ _)
      · exact le_max_right _ _

theorem runMax_attained (x : ℕ → ℤ) (n : ℕ) : ∃ m ≤ n, runMax x n = walk x m := by
  induction n with
  | zero => exact ⟨0, le_refl _, rfl⟩
  | succ n ih =>
      obtain ⟨m, hm, he⟩ := ih
      rcases le_total (runMax x n) (walk x (n + 1)) with h | h
      · exact ⟨n + 1, le_refl _, max_eq_right h⟩
      · exact ⟨m, by omega, by rw [← he]; exact max_eq_left h⟩

end Verif.Spec
