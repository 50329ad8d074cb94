import Verif.Model.Rtl

/-!
# The remaining current SystemVerilog kernels (hw/kernel/div, hw/kernel/sqrt)
-/

namespace Verif.Rtl

/-- The saturating up/down counter of the counter based dividers and square roots, `hw/kernel/div/GDIV_B.sv:24-39`,
`hw/kernel/sqrt/GSQRT_B.sv:19-34`. -/
def upDown (dep : ℕ) (cnt : BitVec dep) (inc dec : Bool) : BitVec dep :=
  if inc && !dec && !decide (cnt = BitVec.allOnes dep) then cnt + 1
  else if !inc && dec && !decide (cnt = 0) then cnt - 1
  else cnt

/-- `GDIV_B`, `hw/kernel/div/GDIV_B.sv:1-60`: state `(cnt, divisor_d)`, inputs `(randNum, dividend, divisor)`. -/
def gdivBStep (dep : ℕ) (s : BitVec dep × Bool) (i : BitVec dep × Bool × Bool) : (BitVec dep × Bool) × Bool :=
  let q : Bool := i.1.ult s.1                                                     -- line 41
  let x0 : Bool := !(i.2.2 ^^ s.2)                                                -- line 54
  let x1 : Bool := !(i.2.2 ^^ i.2.1)                                              -- line 55
  let x2 : Bool := !(x0 ^^ !q)                                                    -- line 56
  ((upDown dep s.1 (x1 && x2) (!x1 && !x2), i.2.2), q)                            -- lines 43-52,58-59

/-- `GSQRT_B`, `hw/kernel/sqrt/GSQRT_B.sv:1-48`: state `(cnt, out_d1)`, inputs `(randNum, in)`. -/
def gsqrtBStep (dep : ℕ) (s : BitVec dep × Bool) (i : BitVec dep × Bool) : (BitVec dep × Bool) × Bool :=
  let out : Bool := i.1.ult s.1                                                   -- line 36
  ((upDown dep s.1 i.2 (!(out ^^ s.2)), out), out)                                -- lines 38-47

/-- The input counters of the in-stream dividers, `hw/kernel/div/CORDIV_kernel_IS_U.sv:22-36`: up for a one, down for a zero, wrapping. -/
def isCount (bw : ℕ) (c : BitVec bw) (b : Bool) : BitVec bw := if b then c + 1 else c - 1

/-- Registers of the in-stream dividers: the two counters and the register of the kernel. -/
structure IsSt (bw : ℕ) where
  num : BitVec bw
  den : BitVec bw
  sr : List Bool

/-- Reset values, `hw/kernel/div/CORDIV_kernel_IS_U.sv:24,32` and `CORDIV_kernel.sv:26-28`. -/
def isInit (bw dep : ℕ) : IsSt bw := ⟨0, 0, corInit dep⟩

/-- `CORDIV_kernel_IS_U`, `hw/kernel/div/CORDIV_kernel_IS_U.sv:3-53`: inputs `(randNum, randNumKernel, dividend, divisor)`. -/
def corIsUStep (bw : ℕ) (s : IsSt bw) (i : BitVec bw × ℕ × Bool × Bool) : IsSt bw × Bool :=
  let n : Bool := i.1.ult s.num                                                   -- line 38
  let d : Bool := i.1.ult s.den                                                   -- line 39
  let (sr, q) := corStep s.sr (i.2.1, n, d)                                       -- lines 41-51
  (⟨isCount bw s.num i.2.2.1, isCount bw s.den i.2.2.2, sr⟩, q)

/-- Sign and magnitude of a counter, `hw/kernel/div/CORDIV_kernel_IS_B.sv:36-37,48-49`. -/
def isSign (bw : ℕ) (c : BitVec bw) : Bool := !c.msb
def isAbs (bw : ℕ) (c : BitVec bw) : BitVec bw := if isSign bw c then 0 - c else c

/-- `CORDIV_kernel_IS_B`, `hw/kernel/div/CORDIV_kernel_IS_B.sv:3-66`: inputs `(randNum, randNumKernel, dividend, divisor)`. -/
def corIsBStep (bw : ℕ) (s : IsSt bw) (i : BitVec bw × ℕ × Bool × Bool) : IsSt bw × Bool :=
  let n : Bool := i.1.ult (isAbs bw s.num)                                        -- line 38
  let d : Bool := i.1.ult (isAbs bw s.den)                                        -- line 50
  let (sr, q) := corStep s.sr (i.2.1, n, d)                                       -- lines 52-62
  (⟨isCount bw s.num i.2.2.1, isCount bw s.den i.2.2.2, sr⟩, q ^^ isSign bw s.num ^^ isSign bw s.den)  -- line 64

/-- Registers of `BISQRT_S_IS_U`. -/
structure SqrtIs where
  dff : Bool
  out : Bool
  sr : List Bool

/-- Reset values, `hw/kernel/sqrt/BISQRT_S_IS_U.sv:29,39`. -/
def sqrtIsInit (dep : ℕ) : SqrtIs := ⟨false, false, corInit dep⟩

/-- `BISQRT_S_IS_U`, `hw/kernel/sqrt/BISQRT_S_IS_U.sv:3-62`: inputs `(randNum, in)`; the output is registered. -/
def sqrtIsUStep (s : SqrtIs) (i : ℕ × Bool) : SqrtIs × Bool :=
  let dividend : Bool := !s.dff && s.out                                          -- line 47
  let divisor : Bool := s.dff || dividend                                         -- line 48
  let (sr, q) := corStep s.sr (i.1, dividend, divisor)                            -- lines 50-60
  (⟨!s.dff, if q then true else i.2, sr⟩, s.out)                                  -- lines 25-46

/-- `BISQRT_S_IS_B`, `hw/kernel/sqrt/BISQRT_S_IS_B.sv:4-67`: state `(dff, sr, Bi2Uni)`, inputs `(randNum, in)`; the output is not
registered and the converter is driven by `in`. -/
def sqrtIsBStep (s : Bool × List Bool × BitVec 3) (i : ℕ × Bool) : (Bool × List Bool × BitVec 3) × Bool :=
  let (acc, uni) := bi2uniStep 3 s.2.2 i.2                                        -- lines 58-65
  let dividend : Bool := !s.1 && uni                                              -- line 43
  let divisor : Bool := s.1 || dividend                                           -- line 44
  let (sr, q) := corStep s.2.1 (i.1, dividend, divisor)                           -- lines 46-56
  ((!s.1, sr, acc), if q then true else i.2)                                      -- lines 27-42

/-- `BISQRT_O_U`, `hw/kernel/sqrt/BISQRT_O_U.sv:1-53` (with the missing commas between the parameters): state `(diff_acc, sr)`, inputs
`(randNum, in)`.  Only the cells below `DEP` are ever written; the others hold unknown values `unk`. -/
def sqrtOStep (dep : ℕ) (unk : ℕ → Bool) (s : BitVec dep × List Bool) (i : ℕ × Bool) : (BitVec dep × List Bool) × Bool :=
  let out : Bool := s.1.msb && decide (s.1 ≠ half dep)                            -- line 52
  let emit : Bool := out && s.2.getD i.1 (unk i.1)                                      -- lines 23,38
  ((s.1 + (bv dep i.2 + bv dep emit) - bv dep out, s.2.tail ++ [!out]), out)      -- lines 25-36,41-49

/-- `BISQRT_O_B`, `hw/kernel/sqrt/BISQRT_O_B.sv:3-65`: as `BISQRT_O_U`, the emitted bit is gated by a converted output. -/
def sqrtOBStep (dep : ℕ) (unk : ℕ → Bool) (s : (BitVec dep × List Bool) × BitVec 3) (i : ℕ × Bool) :
    ((BitVec dep × List Bool) × BitVec 3) × Bool :=
  let out : Bool := s.1.1.msb && decide (s.1.1 ≠ half dep)                        -- line 64
  let (acc, uni) := bi2uniStep 3 s.2 out                                          -- lines 41-48
  let emit : Bool := uni && s.1.2.getD i.1 (unk i.1)                                    -- lines 26,50
  (((s.1.1 + (bv dep i.2 + bv dep emit) - bv dep out, s.1.2.tail ++ [!out]), acc), out)  -- lines 28-39,53-61

/-- Registers of `ISCBDIV_B`. -/
structure DivB (depAbs depSync : ℕ) where
  absN : BitVec depAbs
  absD : BitVec depAbs
  uniN : BitVec 3
  uniD : BitVec 3
  div : BitVec depSync × List Bool
  bi : BitVec 2

/-- Reset values. -/
def divBInit (depAbs depSync dep : ℕ) : DivB depAbs depSync :=
  ⟨half depAbs, half depAbs, half 3, half 3, (ssInit depSync, corInit dep), 0⟩

/-- `ISCBDIV_B`, `hw/kernel/div/ISCBDIV_B.sv:6-91`: inputs `(randNum, dividend, divisor)`. -/
def divBStep (depAbs depSync : ℕ) (s : DivB depAbs depSync) (i : ℕ × Bool × Bool) : DivB depAbs depSync × Bool :=
  let (an, sn, vn) := absStep depAbs s.absN i.2.1                                 -- lines 31-39
  let (ad, sd, vd) := absStep depAbs s.absD i.2.2                                 -- lines 41-49
  let (un, bn) := bi2uniStep 3 s.uniN vn                                          -- lines 51-58
  let (ud, bd) := bi2uniStep 3 s.uniD vd                                          -- lines 60-67
  let (dv, q) := iscbdivStep depSync s.div (i.1, bn, bd)                          -- lines 69-80
  let (b, qb) := uni2biStep s.bi q                                                -- lines 82-87
  (⟨an, ad, un, ud, dv, b⟩, qb ^^ sn ^^ sd)                                       -- line 89

end Verif.Rtl
