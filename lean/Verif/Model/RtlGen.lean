import Verif.Model.Rtl
import Mathlib.Algebra.BigOperators.Fin

/-!
# Model of the number generators of `hw/stream/old`

`grayCode`, `HaltonSeq2`, `HaltonSeq3`, `HaltonSeq5`.  Base, number of digits and register widths, macros in the source, are
parameters.  The `SobolRNGDim1` family is in `Model/Rtl.lean`.
-/

namespace Verif.Rtl

/-- `grayCode`, `hw/stream/old/GrayCode/grayCode.sv:3-24` and `hw/stream/old/Sobol8bit/grayCode.sv:3-24`: a free running counter
and its Gray code. -/
def grayStep (w : ℕ) (cnt : BitVec w) (_ : Unit) : BitVec w × BitVec w := (cnt + 1, (cnt >>> 1) ^^^ cnt)

/-- `cout` of `ModCnt2/3/5`, `hw/stream/old/HaltonSeq3/ModCnt3.sv:14-15`. -/
def modCout (b : ℕ) {L : ℕ} (cnt : BitVec L) (cin : Bool) : Bool := decide (cnt.toNat = b - 1) && cin

/-- Next `cnt` of `ModCnt2/3/5`, `hw/stream/old/HaltonSeq3/ModCnt3.sv:22`.  (`cnt == 0`, sic: the comparison is false whenever
it is used.) -/
def modNext (b : ℕ) {L : ℕ} (cnt : BitVec L) (cin : Bool) : BitVec L :=
  if modCout b cnt cin then bv L (decide (cnt = 0)) else cnt + bv L cin

/-- `mccin`, the carries between the digits, `hw/stream/old/HaltonSeq3/HaltonSeq3.sv:22-31`. -/
def modCin (b : ℕ) {L : ℕ} (s : ℕ → BitVec L) : ℕ → Bool
  | 0 => true
  | j + 1 => modCout b (s j) (modCin b s j)

/-- The `k` digits after a clock edge, `hw/stream/old/HaltonSeq3/HaltonSeq3.sv:32-41`.  (Digits beyond `k` stay zero; the module has
none.) -/
def digitsNext (b : ℕ) {L : ℕ} (k : ℕ) (s : ℕ → BitVec L) : ℕ → BitVec L :=
  fun j => if j < k then modNext b (s j) (modCin b s j) else s j

/-- `out` of `HaltonSeq2`, `out[i] = mcout[k-1-i]`, `hw/stream/old/HaltonSeq2/HaltonSeq2.sv:32-39`: the digits side by side, digit
`0` most significant. -/
def halton2Out (s : ℕ → BitVec 1) : (k : ℕ) → BitVec k
  | 0 => 0
  | k + 1 => BitVec.concat (halton2Out s k) ((s k).getLsbD 0)

/-- `HaltonSeq2`, `hw/stream/old/HaltonSeq2/HaltonSeq2.sv:2-41`, with `k` digits: the digits, reversed. -/
def halton2Step (k : ℕ) (s : ℕ → BitVec 1) (_ : Unit) : (ℕ → BitVec 1) × BitVec k :=
  (digitsNext 2 k s, halton2Out s k)

/-- `HaltonSeq3`, `HaltonSeq5`, `hw/stream/old/HaltonSeq3/HaltonSeq3.sv:2-58`, `hw/stream/old/HaltonSeq5/HaltonSeq5.sv:2-55`, for
base `b`, `k` digits and an output register of `sw` bits: registers are the digits and `out`. -/
def haltonStep (b : ℕ) {L : ℕ} (k sw : ℕ) (s : (ℕ → BitVec L) × BitVec sw) (_ : Unit) :
    ((ℕ → BitVec L) × BitVec sw) × BitVec sw :=
  ((digitsNext b k s.1,
    BitVec.ofNat sw (∑ j ∈ Finset.range k, (BitVec.ofNat sw ((s.1 j).toNat * b ^ (k - 1 - j))).toNat)), s.2)

end Verif.Rtl
