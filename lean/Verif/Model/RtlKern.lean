import Verif.Model.RtlMore

/-!
# Model of the remaining kernels of `hw/kernel/old`

`relu`, `sqrt`, `sqrtJK`, `jkdivbisqrt`, `gdiv4b/5b`, `gsqrt4b/5b`, `skewedSync`, `cordiv`, `iscbdiv`, `iscbdivbisqrt`, `cordivall`,
`exp`, `MAC16/bMAC_SIMD/data_buf`.  Conventions as in `Model/Rtl.lean`.  Register widths are parameters.
-/

namespace Verif.Rtl

/-- The counter of `relu` and `sqrt`, `hw/kernel/old/relu/relu.sv:21-27`, `hw/kernel/old/sqrt/sqrt.sv:18-24`: the downward branch
asks for `~|cnt`, that is for an empty counter. -/
def upOnly {n : ℕ} (cnt : BitVec n) (inc dec : Bool) : BitVec n :=
  if inc && !dec && !decide (cnt = BitVec.allOnes n) then cnt + 1
  else if !inc && dec && decide (cnt = 0) then cnt - 1
  else cnt

/-- Reset value of `relu`, `hw/kernel/old/relu/relu.sv:19`: `{1,{(DEPTH-1){1'b0}}}` in a register of `DEPTH+1` bits. -/
def reluInit (d : ℕ) : BitVec (d + 1) := BitVec.twoPow (d + 1) (d - 1)

/-- `relu`, `hw/kernel/old/relu/relu.sv:1-35`. -/
def reluStep (d : ℕ) (cnt : BitVec (d + 1)) (x : Bool) : BitVec (d + 1) × Bool :=
  (upOnly cnt x (!x), if cnt.getLsbD (d - 1) then x else false)

/-- `sqrt`, `hw/kernel/old/sqrt/sqrt.sv:1-40`: state `(cnt, out_d1)`, inputs `(randNum, in)`. -/
def sqrtOldStep (d : ℕ) (s : BitVec d × Bool) (i : BitVec d × Bool) : (BitVec d × Bool) × Bool :=
  let out : Bool := i.1.ule s.1
  ((upOnly s.1 i.2 (out && s.2), out), out)

/-- `gdiv4b`, `gdiv5b`, `hw/kernel/old/gdiv/gdiv4b.sv:1-38`: state `cnt`, inputs `(randNum, dividend, divisor)`. -/
def gdivOldStep (d : ℕ) (cnt : BitVec d) (i : BitVec d × Bool × Bool) : BitVec d × Bool :=
  let q : Bool := i.1.ule cnt
  (upDown d cnt i.2.1 (q && i.2.2), q)

/-- `gsqrt4b`, `gsqrt5b`, `hw/kernel/old/gsqrt/gsqrt4b.sv:1-45`: state `(cnt, out_d1)`, inputs `(randNum, in)`. -/
def gsqrtOldStep (d : ℕ) (s : BitVec d × Bool) (i : BitVec d × Bool) : (BitVec d × Bool) × Bool :=
  let out : Bool := i.1.ule s.1
  ((upDown d s.1 i.2 (out && s.2), out), out)

/-- `skewedSync`, `hw/kernel/old/iscbdiv/skewedSync.sv:1-41` and `hw/stream/old/skewedSync/skewedSync.sv:1-41`: inputs
`(in[0], in[1])`, output `out[0]` (`out[1]` is `in[1]`).  The counter only ever rises. -/
def skewedOldStep (d : ℕ) (cnt : BitVec d) (i : Bool × Bool) : BitVec d × Bool :=
  let full : Bool := decide (cnt = BitVec.allOnes d)
  let empty : Bool := decide (cnt = 0)
  (if full then cnt else cnt + bv d i.1,
    if i.1 = i.2 then i.1 else if i.1 then (if full then true else false) else if empty then false else true)

/-- `cordiv`, `hw/kernel/old/cordiv/cordiv.sv:1-36`: state `(shiftReg[0], shiftReg[1])`, inputs `(srSel, dividend, divisor)`,
outputs `(quotient, srOut)`. -/
def cordivOldStep (s : Bool × Bool) (i : Bool × Bool × Bool) : (Bool × Bool) × (Bool × Bool) :=
  let srOut : Bool := if i.1 then s.2 else s.1
  let q : Bool := if i.2.2 then i.2.1 else srOut
  (if i.2.2 then (q, s.1) else s, (q, srOut))

/-- `iscbdiv`, `hw/kernel/old/iscbdiv/iscbdiv.sv:4-42`: inputs `(sel, dividend, divisor)`. -/
def iscbdivOldStep (d : ℕ) (s : BitVec d × (Bool × Bool)) (i : Bool × Bool × Bool) : (BitVec d × (Bool × Bool)) × Bool :=
  let (c, o) := skewedOldStep d s.1 i.2
  let (sr, q) := cordivOldStep s.2 (i.1, o, i.2.2)
  ((c, sr), q.1)

/-- `sqrtJK`, `hw/kernel/old/sqrt/sqrtJK.sv:1-29`, and `jkdivbisqrt`, `hw/kernel/old/jkdivbisqrt/jkdivbisqrt.sv:1-29` (the same
module); the reset value is one. -/
def sqrtJkOldStep (q : Bool) (x : Bool) : Bool × Bool :=
  let out : Bool := if q then x else true
  (if out then !q else true, out)

/-- `iscbdivbisqrt`, `hw/kernel/old/iscbdivbisqrt/iscbdivbisqrt.sv:3-42`: state `(dff, shiftReg)`, inputs `(sel, in)`. -/
def isSqrtOldStep (s : Bool × (Bool × Bool)) (i : Bool × Bool) : (Bool × (Bool × Bool)) × Bool :=
  let srOut : Bool := if i.1 then s.2.2 else s.2.1
  let out : Bool := if srOut then i.2 else true
  ((!s.1, (cordivOldStep s.2 (i.1, s.1, (!s.1 && out) || s.1)).1), out)

/-- `cordivall`, `hw/kernel/old/cordivall/cordivall.sv:3-53`: state the two counters and the register, inputs
`(randNum, sel, dividend, divisor)`. -/
def cordivAllStep (w : ℕ) (s : BitVec w × BitVec w × (Bool × Bool)) (i : BitVec w × Bool × Bool × Bool) :
    (BitVec w × BitVec w × (Bool × Bool)) × Bool :=
  let (sr, q) := cordivOldStep s.2.2 (i.2.1, i.1.ule s.1, i.1.ule s.2.1)
  ((isCount w s.1 i.2.2.1, isCount w s.2.1 i.2.2.2, sr), q.1)

/-- `exp`, `hw/kernel/old/exp/exp.sv:1-54`: state `(d[0], d[1], d[2])`, inputs `(randBit[0], randBit[1], randBit[2], in)`. -/
def expStep (s : Bool × Bool × Bool) (i : Bool × Bool × Bool × Bool) : (Bool × Bool × Bool) × Bool :=
  let add0 : Bool := if i.1 then false else i.2.2.2
  let add1 : Bool := if i.2.1 then true else add0
  let add2 : Bool := if i.1 then true else i.2.2.2
  let mul0 : Bool := s.1 && add0
  let mul1 : Bool := s.2.1 && add1
  ((i.2.2.2, mul0, mul1), if i.2.2.1 then s.2.2 else add2)

/-- `data_buf`, `hw/kernel/old/MAC16/bMAC_SIMD/data_buf.sv:3-31`, with `2^a` rows of `n` bits: inputs
`(rd_addr, wr_en, wr_addr, iData)`; `rd_en` is not used. -/
def dataBufStep {a n : ℕ} (m : BitVec a → BitVec n) (i : BitVec a × Bool × BitVec a × BitVec n) :
    (BitVec a → BitVec n) × BitVec n :=
  (fun r => if i.2.1 && decide (r = i.2.2.1) then i.2.2.2 else m r, m i.1)

end Verif.Rtl
