import Verif.Basic
import Mathlib.Data.Int.Bitwise

/-!
# Model of `kernel/shiftreg.py`, `kernel/jkff.py`, `kernel/signabs.py`, `kernel/relu.py`,
`kernel/tanh.py` and the hybrid part of `kernel/sigmoid.py` (one lane)

Bitwise operators on `int8` tensors are `Int.land`, `Int.lor`, `Int.xor`.
-/

namespace Verif.Small

open Verif

/-! ## ShiftReg -/

/-- Initial cells `[x % 2 for x in range(entry)]`, `kernel/shiftreg.py:26`; the first call rebuilds the same
pattern for the shape of its input (`kernel/shiftreg.py:30-36`), so per lane nothing changes. -/
def srInit (entry : ℕ) : List ℤ := (List.range entry).map fun x : ℕ => ((x % 2 : ℕ) : ℤ)

/-- The register after a call: `torch.roll(sr, -1, 0)` with the last cell overwritten, blended with
the old content by the mask if there is one.  `kernel/shiftreg.py:43-52`. -/
def srShift (cells : List ℤ) (input : ℤ) (mask : Option ℤ) : List ℤ :=
  let shifted := (cells.rotate 1).set (cells.length - 1) input
  match mask with
  | none => shifted                                                     -- lines 43-45
  | some m => List.zipWith (fun s n => m * s + (1 - m) * n) shifted cells  -- lines 48-52

/-- One call of `ShiftReg`: `(out, cnt)` are read before the shift.  `kernel/shiftreg.py:29-53`. An
index outside the register raises (`kernel/shiftreg.py:40`), as does writing into an empty register. -/
def srStep (cells : List ℤ) (i : ℤ × Option ℤ × ℕ) : Except PyErr (List ℤ × (ℤ × ℤ)) :=
  if i.2.2 < cells.length then
    .ok (srShift cells i.1 i.2.1, (cells.getD i.2.2 0, cells.sum))
  else .error .index

/-! ## JKFF -/

/-- One call of `JKFF` with state and result `jkff`, `kernel/jkff.py:19-31`. -/
def jkStep (q : ℤ) (i : ℚ × ℚ) : ℤ × ℤ :=
  let j0 : ℤ := ind (i.1 = 0)
  let j1 := 1 - j0
  let k0 : ℤ := ind (i.2 = 0)
  let k1 := 1 - k0
  let j0k0 := Int.land j0 k0
  let j1k0 := Int.land j1 k0
  let j0k1 := Int.land j0 k1
  let j1k1 := Int.land j1 k1
  let q' := j0k0 * q + j1k0 * 1 + j0k1 * 0 + j1k1 * (1 - q)
  (q', q')

/-! ## FSUSignAbs -/

/-- Initial counter of `FSUSignAbs` and `FSUReLU`: half, `kernel/signabs.py:32`, `kernel/relu.py:31`. -/
def accHalf (depth : ℤ) : ℚ := (2 : ℚ) ^ (depth - 1)

/-- `2**depth - 1`, `kernel/signabs.py:30`, `kernel/relu.py:29`. -/
def accMax (depth : ℤ) : ℚ := (2 : ℚ) ^ depth - 1

/-- One call of `FSUSignAbs`: `(sign, abs)`, `kernel/signabs.py:34-40`. -/
def signAbsStep (depth : ℤ) (acc : ℚ) (input : ℤ) : ℚ × (ℤ × ℤ) :=
  let acc' := clamp 0 (accMax depth) (acc + ((input : ℚ) * 2 - 1))
  let sign : ℤ := ind (acc' < accHalf depth)
  (acc', (sign, Int.xor sign input))

/-! ## ReLU -/

/-- One call of `FSUReLU`, `kernel/relu.py:33-40`. -/
def reluStep (depth : ℤ) (acc : ℚ) (input : ℤ) : ℚ × ℤ :=
  let flag : ℤ := ind (acc ≥ accHalf depth)
  let out := Int.lor input (1 - flag)
  (clamp 0 (accMax depth) (acc + ((out : ℚ) * 2 - 1)), out)

/-- `HUBReLU`: `Hardtanh(0, scale)`, `kernel/relu.py:43-48`. -/
def hubReLU (scale x : ℚ) : ℚ := clamp 0 scale x

/-- `FSUHardtanh`: `Identity`, `kernel/tanh.py:3-8`. -/
def fsuHardtanh (x : ℤ) : ℤ := x

/-- `HUBHardtanh`: `Hardtanh()`, i.e. clamp to `[-1, 1]`, `kernel/tanh.py:11-17`. -/
def hubHardtanh (x : ℚ) : ℚ := clamp (-1) 1 x

/-- `torch.nn.Hardsigmoid`: `relu6(x + 3) / 6`. -/
def hardsigmoid (x : ℚ) : ℚ := clamp 0 6 (x + 3) / 6

/-- `HUBHardsigmoid(scale)`, `kernel/sigmoid.py:47-56`; the default scale is `3`. -/
def hubHardsigmoid (scale x : ℚ) : ℚ := hardsigmoid (x * scale)

end Verif.Small
