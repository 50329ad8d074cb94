import Verif.Basic
import Mathlib.Data.Int.Log

/-!
# Binary floating point of any precision

The number types a module can be configured with (`swcfg`: `rtype`, `btype`, `stype`) besides `torch.float`, and the doubles of
Python.  As in `Verif.Model.Float` (binary32), overflow is not modelled.
-/

namespace Verif.Float

open Verif

/-- A binary floating-point type: `p + 1` significant bits, last place of the subnormal numbers `2^emin`. -/
structure Prec where
  p : ℕ
  emin : ℤ

/-- `torch.float16`. -/
def half : Prec := ⟨10, -24⟩

/-- `torch.bfloat16`. -/
def bfloat : Prec := ⟨7, -133⟩

/-- `torch.float`. -/
def single : Prec := ⟨23, -149⟩

/-- `torch.float64` and the floats of Python. -/
def double : Prec := ⟨52, -1074⟩

/-- Exponent of the last place of a result of the size of `x`. -/
def Prec.exp (P : Prec) (x : ℚ) : ℤ := max (Int.log 2 |x| - P.p) P.emin

/-- Rounding to nearest, ties to even. -/
def Prec.rd (P : Prec) (x : ℚ) : ℚ := roundHE (x / (2:ℚ) ^ P.exp x) * (2:ℚ) ^ P.exp x

end Verif.Float
