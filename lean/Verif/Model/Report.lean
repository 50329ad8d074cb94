import Verif.Basic
import Verif.Model.Metric
import Mathlib.Analysis.Real.Sqrt

/-!
# Model of the reports of `kernel/utils.py`

The numbers that are printed, not their formatting.  Arithmetic is exact (the sums of `torch.mean` do
not overflow or round).
-/

namespace Verif.Report

open Verif

/-- `tensor.min().item()`; a tensor without elements raises. -/
def minOf : List ℚ → Except PyErr ℚ
  | [] => .error .runtime
  | x :: xs => .ok (xs.foldl min x)

/-- `tensor.max().item()`. -/
def maxOf : List ℚ → Except PyErr ℚ
  | [] => .error .runtime
  | x :: xs => .ok (xs.foldl max x)

/-- `torch.mean`. -/
def mean (xs : List ℚ) : ℚ := xs.sum / xs.length

/-- `torch.std_mean(x)[0]`: the square root of the sum of squared deviations over one less than the
number of elements; `nan` (here `none`) for a single element. -/
noncomputable def std (xs : List ℚ) : Option ℝ :=
  if xs.length ≤ 1 then none
  else some (Real.sqrt (((xs.map fun x => (x - mean xs) ^ 2).sum / (xs.length - 1) : ℚ) : ℝ))

/-- `torch.sqrt(torch.mean(torch.square(x)))`. -/
noncomputable def rmse (xs : List ℚ) : ℝ := Real.sqrt ((mean (xs.map fun x => x ^ 2) : ℚ) : ℝ)

/-- `tensor_unary_outlier`, `kernel/utils.py:119-127`, on the elements of a tensor: minimum, maximum and the
printed percentage. -/
def outlier (xs : List ℚ) : Except PyErr (ℚ × ℚ × ℚ) := do
  let lo ← minOf xs                                                              -- line 120
  let hi ← maxOf xs                                                              -- line 121
  let out : ℚ := (xs.map fun x => (ind (x > 1) : ℚ)).sum + (xs.map fun x => (ind (x < -1) : ℚ)).sum  -- line 122
  let ratio := out / xs.length                                                   -- line 123
  pure (lo, hi, ratio * 100)                                                     -- lines 124-127

/-- One printed line: range, standard deviation, mean, root mean square. -/
structure Line where
  lo : ℚ
  hi : ℚ
  std : Option ℝ
  mean : ℚ
  rmse : ℝ

/-- The numbers of one line, `kernel/utils.py:148-156`. -/
noncomputable def line (xs : List ℚ) : Except PyErr Line := do
  let lo ← minOf xs
  let hi ← maxOf xs
  pure ⟨lo, hi, std xs, mean xs, rmse xs⟩

/-- The largest binary32 number. -/
def maxFloat : ℚ := (2 - 1 / 2 ^ 23) * 2 ^ 127

/-- One element of `torch.nan_to_num(a/b)`, `kernel/utils.py:159`: `0/0` gives zero, another number over zero
the largest number of its sign. -/
def relative (a b : ℚ) : ℚ :=
  if b = 0 then (if a = 0 then 0 else if a > 0 then maxFloat else -maxFloat) else a / b

/-- The attributes `ProgError.__init__` sets, `metric/metric.py:69-85`. -/
def progErrorAttrs : List String :=
  ["hwcfg", "scale", "mode", "source", "cycle", "one_cnt", "pp", "pe"]

/-- Reading an attribute of a `ProgError`. -/
def attr (name : String) : Except PyErr Unit :=
  if name ∈ progErrorAttrs then .ok () else .error .attribute

/-- `progerror_report`, `kernel/utils.py:130-168`, on a `ProgError` with one element per entry of `lanes`; result:
its state, the line of absolute and the line of relative errors (the lines of values come only after line 133 and are left
out). -/
noncomputable def report (lanes : List Metric.PE) (value rel : Bool) :
    Except PyErr (List Metric.PE × Line × Option Line) := do
  if value then attr "in_value"                                                  -- lines 131-132
  let r ← lanes.mapM Metric.PE.forward                                           -- line 148
  let lanes := r.map (·.1)
  let pp := r.map (·.2.1)
  let pe := r.map (·.2.2)
  let a ← line pe                                                                -- lines 148-156
  if rel then
    let b ← line (List.zipWith relative pe pp)                                   -- lines 159-168
    pure (lanes, a, some b)
  else pure (lanes, a, none)

end Verif.Report
