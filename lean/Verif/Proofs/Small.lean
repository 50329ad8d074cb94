import Verif.Spec
import Verif.Model.Small

/-!
# Lemmas about the shift register
-/

namespace Verif.Small

open Verif Finset

theorem srInit_length (e : ℕ) : (srInit e).length = e := by simp [srInit]

theorem srInit_getD (e i : ℕ) (h : i < e) : (srInit e).getD i 0 = ((i % 2 : ℕ) : ℤ) := by
  simp [srInit, List.getD_eq_getElem?_getD, h]

theorem srShift_none (cells : List ℤ) (h : cells ≠ []) (x : ℤ) :
    srShift cells x none = cells.drop 1 ++ [x] := by
  cases cells with
  | nil => exact absurd rfl h
  | cons a l => simp [srShift, List.rotate_cons_succ]

theorem srShift_length (cells : List ℤ) (x : ℤ) (m : Option ℤ) : (srShift cells x m).length = cells.length := by
  cases m <;> simp [srShift]

theorem srShift_one (cells : List ℤ) (x : ℤ) : srShift cells x (some 1) = srShift cells x none := by
  simp only [srShift]
  apply List.ext_getElem
  · simp
  · intro i h1 h2; simp

theorem srShift_zero (cells : List ℤ) (x : ℤ) : srShift cells x (some 0) = cells := by
  simp only [srShift]
  apply List.ext_getElem
  · simp
  · intro i h1 h2; simp

/-- Register content after a list of pushes. -/
theorem srShift_foldl (cells : List ℤ) (h : cells ≠ []) (l : List ℤ) :
    l.foldl (fun c x => srShift c x none) cells = (cells ++ l).drop l.length := by
  induction l generalizing cells with
  | nil => simp
  | cons x l ih =>
      rw [List.foldl_cons, ih _ (by rw [srShift_none _ h]; simp), srShift_none _ h]
      cases cells with
      | nil => exact absurd rfl h
      | cons a l' => simp

end Verif.Small
