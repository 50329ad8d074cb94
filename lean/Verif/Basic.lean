import Mathlib.Data.Rat.Floor
import Mathlib.Algebra.BigOperators.Group.Finset.Basic
import Mathlib.Algebra.BigOperators.Intervals
import Mathlib.Algebra.BigOperators.Ring.Finset
import Mathlib.Data.Rat.BigOperators
import Mathlib.Algebra.Order.BigOperators.Group.Finset
import Mathlib.Algebra.Ring.Parity
import Mathlib.Algebra.Order.Floor.Ring
import Mathlib.Algebra.Order.Field.Rat
import Mathlib.Tactic.Linarith
import Mathlib.Tactic.Ring
import Mathlib.Tactic.FieldSimp
import Mathlib.Tactic.Positivity
import Mathlib.Tactic.NormNum
import Mathlib.Tactic.IntervalCases
import Mathlib.Tactic.Push
import Mathlib.Tactic.GCongr

/-!
# Common vocabulary of the model

Python exceptions as values, bits, `torch.clamp`, rounding primitives, and the
generic "module called once per cycle" machine.
-/

namespace Verif

open Finset

/-- Python level failures that the model makes explicit. `nonfinite` stands for a
computation whose floating point result is `nan`/`inf` (for example `0/0`). -/
inductive PyErr where
  | assertion
  | index
  | attribute
  | type
  | value
  | key
  | runtime
  | nonfinite
  | unbound
  | zeroDivision
  deriving DecidableEq, Repr

/-- A numeric value that is `0` or `1`. -/
def IsBit {α : Type*} [Zero α] [One α] (x : α) : Prop := x = 0 ∨ x = 1

/-- `(cond).type(float)` of a comparison. -/
def ind {α : Type*} [Zero α] [One α] (p : Prop) [Decidable p] : α := if p then 1 else 0

/-- `torch.clamp(x, lo, hi)`: `min(max(x, lo), hi)`. -/
def clamp {α : Type*} [Min α] [Max α] (lo hi x : α) : α := min (max x lo) hi

/-- `torch.round`: nearest integer, ties to the even integer. -/
def roundHE (x : ℚ) : ℤ :=
  let f := ⌊x⌋
  let d := x - f
  if d < 1/2 then f
  else if 1/2 < d then f + 1
  else if f % 2 = 0 then f else f + 1

/-- `torch.trunc`: toward zero. -/
def truncZ (x : ℚ) : ℤ := if 0 ≤ x then ⌊x⌋ else ⌈x⌉

/-- `torch.sign`. -/
def sgn (x : ℚ) : ℚ := if 0 < x then 1 else if x < 0 then -1 else 0

/-- State before call number `t` of a module whose call is `step`. -/
def stateAt {S I O : Type} (step : S → I → S × O) (s0 : S) (x : ℕ → I) : ℕ → S
  | 0 => s0
  | t + 1 => (step (stateAt step s0 x t) (x t)).1

/-- Result of call number `t` (counting from `0`). -/
def outAt {S I O : Type} (step : S → I → S × O) (s0 : S) (x : ℕ → I) (t : ℕ) : O :=
  (step (stateAt step s0 x t) (x t)).2

/-- Same for a module whose call may raise: the state before call `t`, or the first error. -/
def stateAtE {S I O : Type} (step : S → I → Except PyErr (S × O)) (s0 : S) (x : ℕ → I) :
    ℕ → Except PyErr S
  | 0 => .ok s0
  | t + 1 => do
      let s ← stateAtE step s0 x t
      let r ← step s (x t)
      pure r.1

/-- Result of call number `t` of a module whose call may raise. -/
def outAtE {S I O : Type} (step : S → I → Except PyErr (S × O)) (s0 : S) (x : ℕ → I) (t : ℕ) :
    Except PyErr O := do
  let s ← stateAtE step s0 x t
  let r ← step s (x t)
  pure r.2

/-- The two data representations; configuration strings are parsed by `parseMode`. -/
inductive Mode where
  | unipolar
  | bipolar
  deriving DecidableEq, Repr

/-- `mode = hwcfg["mode"].lower(); assert mode in ["unipolar", "bipolar"]`, the check shared by
`stream/gen.py:131-134`, `metric/metric.py:78-81,119-121`, `kernel/add.py:33-35`,
`kernel/mul.py:46-48` and others. -/
def parseMode (s : String) : Except PyErr Mode :=
  if s.toLower = "unipolar" then .ok .unipolar
  else if s.toLower = "bipolar" then .ok .bipolar
  else .error .assertion

section lemmas

theorem stateAtE_succ_ok {S I O : Type} {step : S → I → Except PyErr (S × O)} {s0 : S} {x : ℕ → I} {t : ℕ}
    {s s' : S} {o : O} (h : stateAtE step s0 x t = .ok s) (h' : step s (x t) = .ok (s', o)) :
    stateAtE step s0 x (t + 1) = .ok s' := by
  simp only [stateAtE]; rw [h]; show (step s (x t) >>= fun r => pure r.1) = _; rw [h']; rfl

theorem outAtE_ok {S I O : Type} {step : S → I → Except PyErr (S × O)} {s0 : S} {x : ℕ → I} {t : ℕ}
    {s s' : S} {o : O} (h : stateAtE step s0 x t = .ok s) (h' : step s (x t) = .ok (s', o)) :
    outAtE step s0 x t = .ok o := by
  simp only [outAtE]; rw [h]; show (step s (x t) >>= fun r => pure r.2) = _; rw [h']; rfl

theorem outAtE_error {S I O : Type} {step : S → I → Except PyErr (S × O)} {s0 : S} {x : ℕ → I} {t : ℕ}
    {s : S} {e : PyErr} (h : stateAtE step s0 x t = .ok s) (h' : step s (x t) = .error e) :
    outAtE step s0 x t = .error e := by
  simp only [outAtE]; rw [h]; show (step s (x t) >>= fun r => pure r.2) = _; rw [h']; rfl

@[simp] theorem stateAt_zero {S I O : Type} (step : S → I → S × O) (s0 : S) (x : ℕ → I) :
    stateAt step s0 x 0 = s0 := rfl

theorem stateAt_succ {S I O : Type} (step : S → I → S × O) (s0 : S) (x : ℕ → I) (t : ℕ) :
    stateAt step s0 x (t + 1) = (step (stateAt step s0 x t) (x t)).1 := rfl

/-- An invariant of `step` holds in every reachable state. -/
theorem stateAt_inv {S I O : Type} {step : S → I → S × O} {s0 : S} {x : ℕ → I} (P : S → Prop)
    (h0 : P s0) (hs : ∀ s t, P s → P (step s (x t)).1) (n : ℕ) : P (stateAt step s0 x n) := by
  induction n with
  | zero => exact h0
  | succ n ih => exact hs _ n ih

/-- The state after `m + n` calls is the state after `n` more calls from the state after `m`. -/
theorem stateAt_add {S I O : Type} (step : S → I → S × O) (s0 : S) (x : ℕ → I) (m n : ℕ) :
    stateAt step s0 x (m + n) = stateAt step (stateAt step s0 x m) (fun t => x (m + t)) n := by
  induction n with
  | zero => rfl
  | succ n ih => rw [← Nat.add_assoc, stateAt_succ, stateAt_succ, ih]

theorem IsBit.nonneg {x : ℤ} (h : IsBit x) : 0 ≤ x := by rcases h with h | h <;> omega
theorem IsBit.le_one {x : ℤ} (h : IsBit x) : x ≤ 1 := by rcases h with h | h <;> omega

theorem isBit_ind (p : Prop) [Decidable p] : IsBit (ind p : ℤ) := by
  unfold ind IsBit; split <;> simp

theorem isBit_ind' {α : Type*} [Zero α] [One α] (p : Prop) [Decidable p] : IsBit (ind p : α) := by
  unfold ind IsBit; split <;> simp

@[simp] theorem ind_true {α : Type*} [Zero α] [One α] {p : Prop} [Decidable p] (h : p) :
    (ind p : α) = 1 := if_pos h

@[simp] theorem ind_false {α : Type*} [Zero α] [One α] {p : Prop} [Decidable p] (h : ¬ p) :
    (ind p : α) = 0 := if_neg h

theorem clamp_le {α : Type*} [LinearOrder α] (lo hi x : α) : clamp lo hi x ≤ hi :=
  min_le_right _ _

theorem le_clamp {α : Type*} [LinearOrder α] {lo hi x : α} (h : lo ≤ hi) : lo ≤ clamp lo hi x :=
  le_min (le_max_right _ _) h

theorem clamp_of_mem {α : Type*} [LinearOrder α] {lo hi x : α} (h1 : lo ≤ x) (h2 : x ≤ hi) :
    clamp lo hi x = x := by
  unfold clamp; rw [max_eq_left h1, min_eq_left h2]

theorem clamp_mono {α : Type*} [LinearOrder α] {lo hi x y : α} (h : x ≤ y) :
    clamp lo hi x ≤ clamp lo hi y :=
  min_le_min_right _ (max_le_max_right _ h)

theorem clamp_of_le {α : Type*} [LinearOrder α] {lo hi x : α} (h : lo ≤ hi) (hx : x ≤ lo) :
    clamp lo hi x = lo := by
  unfold clamp; rw [max_eq_right hx, min_eq_left h]

theorem clamp_of_ge {α : Type*} [LinearOrder α] {lo hi x : α} (hx : hi ≤ x) :
    clamp lo hi x = hi := by
  unfold clamp; exact min_eq_right (le_trans hx (le_max_left _ _))

/-! ### Half-to-even rounding -/

theorem roundHE_sub_le (x : ℚ) : |(roundHE x : ℚ) - x| ≤ 1/2 := by
  have h0 := Int.floor_le x
  have h1 := Int.lt_floor_add_one x
  unfold roundHE
  simp only
  rw [abs_le]
  split_ifs <;> push_cast <;> constructor <;> linarith

theorem roundHE_of_int (n : ℤ) : roundHE n = n := by
  unfold roundHE; simp

/-- `roundHE x` is the nearest integer whenever that is unique. -/
theorem roundHE_eq_of_lt {x : ℚ} {n : ℤ} (h : |x - n| < 1/2) : roundHE x = n := by
  have h0 := roundHE_sub_le x
  rw [abs_lt] at h
  rw [abs_le] at h0
  have h1 : ((roundHE x - n : ℤ) : ℚ) < 1 := by push_cast; linarith
  have h2 : (-1 : ℚ) < ((roundHE x - n : ℤ) : ℚ) := by push_cast; linarith
  have h1' : roundHE x - n < 1 := by exact_mod_cast h1
  have h2' : -1 < roundHE x - n := by exact_mod_cast h2
  omega

/-- Ties go to the even neighbour. -/
theorem roundHE_tie (n : ℤ) : roundHE (n + 1/2) = if n % 2 = 0 then n else n + 1 := by
  have hf : ⌊((n:ℚ) + 1/2)⌋ = n := by
    rw [Int.floor_eq_iff]; constructor <;> linarith
  unfold roundHE
  simp only [hf]
  have e : (n:ℚ) + 1/2 - n = 1/2 := by ring
  rw [e]; simp

/-- A rounded tie is even. -/
theorem roundHE_even {x : ℚ} (h : |(roundHE x : ℚ) - x| = 1/2) : roundHE x % 2 = 0 := by
  rcases abs_eq (by norm_num : (0:ℚ) ≤ 1/2) |>.1 h with h1 | h1
  · have e : x = ((roundHE x - 1 : ℤ) : ℚ) + 1/2 := by push_cast; linarith
    have t := roundHE_tie (roundHE x - 1)
    rw [← e] at t
    split_ifs at t <;> omega
  · have e : x = ((roundHE x : ℤ) : ℚ) + 1/2 := by linarith
    have t := roundHE_tie (roundHE x)
    rw [← e] at t
    split_ifs at t <;> omega

theorem roundHE_mono {x y : ℚ} (h : x ≤ y) : roundHE x ≤ roundHE y := by
  rcases eq_or_lt_of_le h with rfl | hlt
  · exact le_refl _
  have hf := Int.floor_le_floor h
  have hx0 := Int.floor_le x
  have hx1 := Int.lt_floor_add_one x
  have hy0 := Int.floor_le y
  have hy1 := Int.lt_floor_add_one y
  rcases eq_or_lt_of_le hf with he | hl
  · unfold roundHE
    simp only [he]
    rw [he] at hx0 hx1
    split_ifs <;> first | omega | (exfalso; linarith)
  · have a : roundHE x ≤ ⌊x⌋ + 1 := by
      unfold roundHE; simp only; split_ifs <;> omega
    have b : ⌊y⌋ ≤ roundHE y := by
      unfold roundHE; simp only; split_ifs <;> omega
    omega

theorem roundHE_neg (x : ℚ) : roundHE (-x) = - roundHE x := by
  by_cases hx : ∃ n : ℤ, x = n + 1/2
  · obtain ⟨n, rfl⟩ := hx
    have e : -((n:ℚ) + 1/2) = ((-n-1 : ℤ) : ℚ) + 1/2 := by push_cast; ring
    rw [e, roundHE_tie, roundHE_tie]
    split_ifs <;> omega
  · have h0 := roundHE_sub_le x
    have hne : |x - roundHE x| < 1/2 := by
      rw [abs_sub_comm]
      refine lt_of_le_of_ne h0 ?_
      intro he
      apply hx
      rcases abs_eq (by norm_num : (0:ℚ) ≤ 1/2) |>.1 he with h | h
      · exact ⟨roundHE x - 1, by push_cast; linarith⟩
      · exact ⟨roundHE x, by linarith⟩
    apply roundHE_eq_of_lt
    push_cast
    rw [show -x - -(roundHE x : ℚ) = -(x - roundHE x) by ring, abs_neg]
    exact hne

end lemmas

end Verif
