import Verif.Model.FloatGen
import Verif.Model.Gen
import Verif.Model.Shuffle
import Verif.Model.Small
import Verif.Model.Add
import Verif.Model.Linear

/-!
# Number types

What the configurable types (`swcfg`: `rtype`, `btype`, `stype`) change: values are converted to the type, and arithmetic on tensors of
a type rounds (floating point) or wraps (integers).  Values beyond the range of a floating-point type are not modelled, nor is the
conversion of a number to an integer type that cannot hold it.
-/

namespace Verif.Typed

open Verif Float Shuffle Small

/-- A number type: floating point, signed or unsigned integers of some bits (`torch.int8` is `sint 8`, `torch.uint8` is `uint 8`). -/
inductive NumType
  | fp (P : Prec)
  | sint (bits : ℕ)
  | uint (bits : ℕ)

/-- `.type(τ)`, and the last step of an operation in the type: round, or keep the low bits. -/
def NumType.put : NumType → ℚ → ℚ
  | .fp P, x => P.rd x
  | .sint b, x => (((truncZ x + 2 ^ (b - 1)) % 2 ^ b - 2 ^ (b - 1) : ℤ) : ℚ)
  | .uint b, x => ((truncZ x % 2 ^ b : ℤ) : ℚ)

/-! ## Bitstream generation -/

/-- `RNG` with `rtype`, `stream/gen.py:71`. -/
def rngT (τ : NumType) (seq : List ℤ) : List ℚ := seq.map fun n : ℤ => τ.put n

/-- `BinGen` with `rtype`, `stream/gen.py:141`. -/
def binGenT (τ : NumType) (mode : Mode) (width : ℕ) (source : ℚ) : ℚ := τ.put (Gen.binGenM mode width source)

/-- `BSGen.forward` on such numbers, `stream/gen.py:174-175`. -/
def bsGenT (rng : List ℚ) (binary : ℚ) (cycle : ℤ) : ℤ := ind (binary > rng.getD (cycle % rng.length).toNat 0)

/-! ## SkewedSync -/

/-- State of `SkewedSync`, `stream/shuffle.py:30`. -/
structure SST where
  shape : List ℕ
  cnt : ℚ

/-- One call of `SkewedSync` with `stype` and input tensors of type `σ`, `btype` `β`, `stream/shuffle.py:29,32-42`. -/
def ssStepT (σ β : NumType) (depth : ℕ) (s : SST) (i : List ℕ × ℤ × ℤ) : SST × (ℚ × ℚ) :=
  let upper : ℚ := β.put (2 ^ depth - 1)                                                   -- line 29
  let in1 : ℚ := i.2.1
  let in2 : ℚ := i.2.2
  let sum := σ.put (in1 + in2)                                                             -- line 34
  let cnt := if s.shape ≠ i.1 then 0 else s.cnt                                            -- lines 35-36
  let notMin : ℚ := (ind (cnt ≠ 0) : ℤ)                                                    -- line 37
  let notMax : ℚ := (ind (cnt ≠ upper) : ℤ)                                                -- line 38
  let one : ℚ := (ind (sum = 1) : ℤ)
  let out1 := σ.put (in1 + σ.put (one * σ.put (σ.put (notMin * σ.put (1 - in1)) + σ.put (σ.put (0 - notMax) * in1))))  -- line 40
  let cnt' := clamp 0 upper (β.put (cnt + β.put (one * β.put (σ.put (σ.put (in1 * 2) - 1)))))  -- line 41
  (⟨i.1, cnt'⟩, (out1, in2))                                                               -- line 42

/-! ## Bi2Uni, Uni2Bi -/

/-- One call of `Bi2Uni` with `btype` `β`, `stream/shuffle.py:76-82`. -/
def bi2uniStepT (β : NumType) (depth : ℤ) (acc : ℚ) (input : ℤ) : ℚ × ℤ :=
  let a := clamp (-accBound depth) (accBound depth) (β.put (acc + β.put (β.put (β.put input * 2) - 1)))  -- line 79
  let out : ℤ := ind (a ≥ 1)                                                               -- line 80
  (β.put (a - out), out)                                                                   -- lines 81-82

/-- The type of `torch.sum` of a tensor: integers are summed in `torch.int64`. -/
def NumType.wide : NumType → NumType
  | .fp P => .fp P
  | _ => .sint 64

/-- One call of `Uni2Bi` with `btype` `β`, `stream/shuffle.py:116-123`; adding the sum makes the accumulator of its type. -/
def uni2biStepT (β : NumType) (depth : ℤ) (acc : ℚ) (input : ℤ) : ℚ × ℤ :=
  let γ := β.wide
  let a := clamp (-accBound depth) (accBound depth) (γ.put (acc + γ.put (β.put input + β.put 1)))  -- lines 119-120
  let out : ℤ := ind (a ≥ 2)                                                               -- line 121
  (γ.put (a - β.put (out * 2)), out)                                                       -- lines 122-123

/-! ## FSUSignAbs, FSUReLU -/

/-- Initial counter of `FSUSignAbs` and `FSUReLU`, `kernel/signabs.py:32`, `kernel/relu.py:31`. -/
def accInitT (β : NumType) (depth : ℤ) : ℚ := β.put (accHalf depth)

/-- One call of `FSUSignAbs` with input tensors of type `σ` and `btype` `β`, `kernel/signabs.py:30-31,34-40`. -/
def signAbsStepT (σ β : NumType) (depth : ℤ) (acc : ℚ) (input : ℤ) : ℚ × (ℤ × ℤ) :=
  let acc' := clamp 0 (β.put (accMax depth)) (β.put (acc + β.put (σ.put (σ.put (input * 2) - 1))))
  let sign : ℤ := ind (acc' < β.put (accHalf depth))
  (acc', (sign, Int.xor sign input))

/-- The type of the counter of an `FSUReLU` configured with `btype` and `stype`: the two are exchanged, `kernel/relu.py:25-26`. -/
def reluAccType (_btype stype : NumType) : NumType := stype

/-- One call of `FSUReLU`, `kernel/relu.py:25-40`; the output is computed in `torch.int8`. -/
def reluStepT (btype stype : NumType) (depth : ℤ) (acc : ℚ) (input : ℤ) : ℚ × ℤ :=
  let β := reluAccType btype stype
  let flag : ℤ := ind (acc ≥ accHalf depth)
  let out := Int.lor input (1 - flag)
  (clamp 0 (accMax depth) (β.put (acc + β.put ((NumType.sint 8).put ((NumType.sint 8).put (out * 2) - 1)))), out)

/-! ## FSUAdd -/

/-- `torch.sum(input.type(btype), dima)`, `kernel/add.py:95`: floating-point sums are accumulated in a wider type and rounded once,
integer sums are taken in `torch.int64`. -/
def sumT : NumType → List ℚ → ℚ
  | .fp P, xs => P.rd xs.sum
  | _, xs => xs.sum

/-- The accumulation part of a call, `kernel/add.py:95-99`; offset and accumulator are `torch.float` whatever `btype`. -/
def accumulateT (β : NumType) (cfg : Adder.Cfg) (s : Adder.St) (a : Adder.Arg) : Adder.St × ℤ :=
  let b := accBound cfg.depth
  let delta := sumT β (a.xs.map β.put) - s.offset
  let acc1 := clamp (-b) b (s.acc + delta)
  let out : ℤ := ind (acc1 ≥ s.scaleCarry)
  let acc2 := clamp (-b) b (acc1 - out * s.scaleCarry)
  ({ s with acc := acc2 }, out)

/-- `FSUAdd.forward` with `btype` `β`, `kernel/add.py:61-99`. -/
def addStepT (β : NumType) (cfg : Adder.Cfg) (s : Adder.St) (a : Adder.Arg) : Adder.St × ℤ :=
  accumulateT β cfg (Adder.configure cfg s a) a

/-! ## FSULinearPC -/

/-- `FSULinearPC.forward` with `stype` `σ`, `kernel/linear.py:268-275`: the counts are formed in `torch.float` and then converted.  (`FSULinear`
and `FSUConv2d` insist on `torch.float` for all types, lines 65-70 and `kernel/conv.py:61-66`.)  The weight bits are the same whenever `rtype`
holds the sequence, see `bsGenT`. -/
def stepPCT (σ : NumType) {I O : ℕ} (c : Linear.PC I O) (s : Linear.PCSt I O) (input : List (Fin I → ℤ)) :
    Except PyErr (Linear.PCSt I O × List (Fin O → ℚ)) := do
  let r ← Linear.stepPC c s input
  pure (r.1, r.2.map fun (n : Fin O → ℤ) (o : Fin O) => σ.put (n o))

end Verif.Typed
