import Verif.Model.RtlMore

/-!
# Model of the remaining arithmetic modules of `hw/kernel/old`

The designs UnarySim's own ones are compared with: multipliers `gMUL`, `dMUL`, `tMUL`, adders `muxADD`, `dADD`, `orADD`,
`apcADD`, `add/*`, binary `bADD`, `bMUL`, `mac`, and the units of `MAC16` built from them.  Conventions as in `Model/Rtl.lean`:
registers are the state, one step is one clock cycle after the reset, asynchronous resets during operation are not modelled.
Widths that are macros in the source (`INWD`, `INUM`, `LOGINUM`) are parameters.
-/

namespace Verif.Rtl

/-! ## Multipliers -/

/-- Inputs of the multipliers with two binary operands. -/
structure TwoIn (w : ℕ) where
  iA : BitVec w
  iB : BitVec w
  loadA : Bool
  loadB : Bool

/-- Registers of `gMUL_uni`, `gMUL_bi`: operand buffers and two Sobol generators. -/
structure GMul (w : ℕ) where
  a : BitVec w
  b : BitVec w
  ra : Sobol w
  rb : Sobol w

/-- Reset state. -/
def gmulInit (w : ℕ) : GMul w := ⟨0, 0, sobolInit w, sobolInit w⟩

/-- Next state of `gMUL_uni`/`gMUL_bi`, `hw/kernel/old/gMUL_uni/gMUL_uni.sv:19-55` (the two files agree but for line 58). -/
def gmulNext {w : ℕ} (s : GMul w) (i : TwoIn w) : GMul w :=
  ⟨if i.loadA then i.iA else s.a, if i.loadB then i.iB else s.b, sobolNext s.ra true, sobolNext s.rb true⟩

/-- `gMUL_uni`, `hw/kernel/old/gMUL_uni/gMUL_uni.sv:57-59`. -/
def gmulUniStep {w : ℕ} (s : GMul w) (i : TwoIn w) : GMul w × Bool :=
  (gmulNext s i, s.ra.out.ult s.a && s.rb.out.ult s.b)

/-- `gMUL_bi`, `hw/kernel/old/gMUL_bi/gMUL_bi.sv:57-59`. -/
def gmulBiStep {w : ℕ} (s : GMul w) (i : TwoIn w) : GMul w × Bool :=
  (gmulNext s i, !(s.ra.out.ult s.a ^^ s.rb.out.ult s.b))

/-- Registers of `dMUL_uni`, `dMUL_bi`: as `gMUL`, and the two counters meant to slow down the second generator. -/
structure DMul (w : ℕ) where
  a : BitVec w
  b : BitVec w
  ra : Sobol w
  rb : Sobol w
  cntA : BitVec w
  cntB : BitVec w

/-- Reset state. -/
def dmulInit (w : ℕ) : DMul w := ⟨0, 0, sobolInit w, sobolInit w, 0, 0⟩

/-- Next state of `dMUL_uni`/`dMUL_bi`, `hw/kernel/old/dMUL_uni/dMUL_uni.sv:21-73`: `cntB` counts the overflows of `cntA`, and
the second generator is enabled as long as `cntB` is all ones (line 71). -/
def dmulNext {w : ℕ} (s : DMul w) (i : TwoIn w) : DMul w :=
  ⟨if i.loadA then i.iA else s.a, if i.loadB then i.iB else s.b, sobolNext s.ra true,
   sobolNext s.rb (decide (s.cntB = BitVec.allOnes w)), s.cntA + 1, s.cntB + bv w (decide (s.cntA = BitVec.allOnes w))⟩

/-- `dMUL_uni`, `hw/kernel/old/dMUL_uni/dMUL_uni.sv:75-77`. -/
def dmulUniStep {w : ℕ} (s : DMul w) (i : TwoIn w) : DMul w × Bool :=
  (dmulNext s i, s.ra.out.ult s.a && s.rb.out.ult s.b)

/-- `dMUL_bi`, `hw/kernel/old/dMUL_bi/dMUL_bi.sv:75-77`. -/
def dmulBiStep {w : ℕ} (s : DMul w) (i : TwoIn w) : DMul w × Bool :=
  (dmulNext s i, !(s.ra.out.ult s.a ^^ s.rb.out.ult s.b))

/-- Registers of `tMUL_uni`, `tMUL_bi`: the down counter, the second operand, `stop` and one generator. -/
structure TMul (w : ℕ) where
  a : BitVec w
  b : BitVec w
  stop : Bool
  rng : Sobol w

/-- Reset state (`tMUL_uni.sv:21-22`). -/
def tmulInit (w : ℕ) : TMul w := ⟨0, 0, true, sobolInit w⟩

/-- Next state of `tMUL_uni`/`tMUL_bi`, `hw/kernel/old/tMUL_uni/tMUL_uni.sv:19-56`.  `free` tells the variant of the `MAC16`
directories, whose generator is always enabled (`hw/kernel/old/MAC16/tMAC_bi_scaled/tMUL_bi.sv:53-54`). -/
def tmulNext {w : ℕ} (free : Bool) (s : TMul w) (i : TwoIn w) : TMul w :=
  ⟨if i.loadA then i.iA else if s.a ≠ 0 then s.a - 1 else s.a, if i.loadB then i.iB else s.b,
   if i.loadA then true else if s.a ≠ 0 then false else true, sobolNext s.rng (free || !s.stop)⟩

/-- `tMUL_uni`, `hw/kernel/old/tMUL_uni/tMUL_uni.sv:58-60`. -/
def tmulUniStep {w : ℕ} (free : Bool) (s : TMul w) (i : TwoIn w) : TMul w × Bool :=
  (tmulNext free s i, !s.stop && s.rng.out.ult s.b)

/-- `tMUL_bi`, `hw/kernel/old/tMUL_bi/tMUL_bi.sv:58-60`. -/
def tmulBiStep {w : ℕ} (free : Bool) (s : TMul w) (i : TwoIn w) : TMul w × Bool :=
  (tmulNext free s i, !(!s.stop ^^ s.rng.out.ult s.b))

/-! ## Adders -/

/-- `muxADD`, `hw/kernel/old/muxADD/muxADD.sv:4-19`: a registered multiplexer; inputs `(in, sel)`.  The register is the
output.  `add16` and `add2` (`hw/kernel/old/add`) are the same without the register. -/
def muxAddStep {w : ℕ} (out : Bool) (i : BitVec (2 ^ w) × BitVec w) : Bool × Bool := (i.1.getLsbD i.2.toNat, out)

/-- `muxADD_rng`, `hw/kernel/old/muxADD/muxADD_rng.sv:4-26`: the multiplexer driven by a free running generator. -/
def muxRngStep {w : ℕ} (s : Sobol w × Bool) (i : BitVec (2 ^ w)) : (Sobol w × Bool) × Bool :=
  let r := muxAddStep s.2 (i, s.1.out)
  ((sobolNext s.1 true, r.1), r.2)

/-- `dADD`, `hw/kernel/old/dADD/dADD.sv:4-36`: the generator advances when the cycle counter is one (line 25). -/
def daddStep {w : ℕ} (s : BitVec w × Sobol w × Bool) (i : BitVec (2 ^ w)) : (BitVec w × Sobol w × Bool) × Bool :=
  let r := muxAddStep s.2.2 (i, s.2.1.out)
  ((s.1 + 1, sobolNext s.2.1 (decide (s.1 = 1)), r.1), r.2)

/-- `orADD`, `hw/kernel/old/orADD/orADD.sv:3-16`: the registered disjunction. -/
def orAddStep {n : ℕ} (out : Bool) (i : BitVec n) : Bool × Bool := (decide (i ≠ 0), out)

/-- `apcADD` (eight inputs), `hw/kernel/old/apcADD/apcADD.sv:4-64`: register `sum`, inputs `(in, randNum)`.  The sum of three
bits fits `tempSum`, two bits. -/
def apcAddStep (sum : BitVec 3) (i : BitVec 8 × BitVec 3) : BitVec 3 × Bool :=
  let t : ℕ → Bool := fun k => i.1.getLsbD (2 * k) || i.1.getLsbD (2 * k + 1)     -- lines 48-51
  let tempSum : BitVec 2 := fa (t 0) (t 1) (t 2)                                  -- line 53
  (cat3 tempSum false + bv 3 (t 3), i.2.ult sum)                                  -- lines 59, 63

/-- `apcadd16`, `hw/kernel/old/add/apcadd16.sv:3-62`, combinational: the count `cnt` of input `in`.  (The loop of lines 14-20 is
read as continuous assignments; as written it is not legal in a generate block.) -/
def apcAdd16Cnt (i : BitVec 16) : BitVec 4 :=
  let o : ℕ → Bool := fun k => i.getLsbD (4 * k) || i.getLsbD (4 * k + 1)         -- line 17
  let a : ℕ → Bool := fun k => i.getLsbD (4 * k + 2) && i.getLsbD (4 * k + 3)     -- line 18
  let f0 := fa (o 0) (a 0) (o 1)
  let f1 := fa (a 1) (o 2) (a 2)
  let f2 := fa (f0.getLsbD 0) (f1.getLsbD 0) (o 3)
  let f3 := fa (f0.getLsbD 1) (f1.getLsbD 1) (f2.getLsbD 1)
  (f3 ++ BitVec.ofBool (f2.getLsbD 0)) ++ BitVec.ofBool (a 3)                     -- lines 59-62

/-- Output of `apcadd16`, `apcadd16.sv:64`. -/
def apcAdd16 (i : BitVec 16) (r : BitVec 4) : Bool := r.ule (apcAdd16Cnt i)

/-! ## Binary units -/

/-- `bADD`, `hw/kernel/old/bADD/bADD.sv:3-24`: registers `(iA_buf, iB_buf, oC)`.  `fixed_point_add16bit` is the same without
the input registers. -/
def baddStep (w : ℕ) (s : BitVec w × BitVec w × BitVec (w + 1)) (i : BitVec w × BitVec w) :
    (BitVec w × BitVec w × BitVec (w + 1)) × BitVec (w + 1) :=
  ((i.1, i.2, s.1.setWidth (w + 1) + s.2.1.setWidth (w + 1)), s.2.2)

/-- `bMUL`, `hw/kernel/old/bMUL/bMUL.sv:3-24`. -/
def bmulStep (w : ℕ) (s : BitVec w × BitVec w × BitVec (w * 2)) (i : BitVec w × BitVec w) :
    (BitVec w × BitVec w × BitVec (w * 2)) × BitVec (w * 2) :=
  ((i.1, i.2, s.1.setWidth (w * 2) * s.2.1.setWidth (w * 2)), s.2.2)

/-- `mac`, `hw/kernel/old/MAC16/bMAC_SIMD/mac.sv:3-33`: register `oC` of `2 w + 4` bits, inputs `(iA, iB, iC, acc_en)`. -/
def macStep (w : ℕ) (oC : BitVec (2 * w + 4)) (i : BitVec w × BitVec w × BitVec (2 * w + 4) × Bool) :
    BitVec (2 * w + 4) × BitVec (2 * w + 4) :=
  (i.1.setWidth (2 * w + 4) * i.2.1.setWidth (2 * w + 4) + (if i.2.2.2 then oC else i.2.2.1), oC)

/-! ## Units of sixteen multipliers (`hw/kernel/old/MAC16`) -/

/-- Inputs of the units with two binary operands per lane. -/
structure Mac2In (w : ℕ) where
  iA : Fin 16 → BitVec w
  iB : Fin 16 → BitVec w
  loadA : Bool
  loadB : Bool

/-- Lane `k` of the inputs. -/
def Mac2In.lane {w : ℕ} (i : Mac2In w) (k : Fin 16) : TwoIn w := ⟨i.iA k, i.iB k, i.loadA, i.loadB⟩

/-- `gainMAC_uni_scaled`, `gainMAC_bi_scaled`, `hw/kernel/old/MAC16/gainMAC_uni_scaled/gainMAC_uni_scaled.sv:6-65`, for a lane
multiplier `mul`: sixteen multipliers and `muxADD` selected by a free running four bit generator.  (All lanes have generators
of their own; they are part of the lane state.)  `tMAC_uni_scaled`, `tMAC_bi_scaled` are built in the same way from `tMUL`. -/
def scaledMacStep {σ : Type} {w : ℕ} (mul : σ → TwoIn w → σ × Bool) (s : (Fin 16 → σ) × Sobol 4 × Bool) (i : Mac2In w) :
    ((Fin 16 → σ) × Sobol 4 × Bool) × Bool :=
  let r := fun k => mul (s.1 k) (i.lane k)
  ((fun k => (r k).1, sobolNext s.2.1 true, (r s.2.1.out.toFin).2), s.2.2)

/-- `gainMAC_uni_nonscaled`, `hw/kernel/old/MAC16/gainMAC_uni_nonscaled/gainMAC_uni_nonscaled.sv:5-55`, for a lane multiplier
`mul`: sixteen multipliers and `orADD`. -/
def orMacStep {σ : Type} {w : ℕ} (mul : σ → TwoIn w → σ × Bool) (s : (Fin 16 → σ) × Bool) (i : Mac2In w) :
    ((Fin 16 → σ) × Bool) × Bool :=
  let r := fun k => mul (s.1 k) (i.lane k)
  ((fun k => (r k).1, decide (∃ k, (r k).2 = true)), s.2)

/-- Registers of the units built from `dMUL`: one pair of generators and of counters for all lanes. -/
structure DMac (w : ℕ) where
  a : Fin 16 → BitVec w
  b : Fin 16 → BitVec w
  ra : Sobol w
  rb : Sobol w
  sel : Sobol 4
  cntA : BitVec w
  cntB : BitVec w
  out : Bool

/-- Reset state. -/
def dmacInit (w : ℕ) : DMac w := ⟨fun _ => 0, fun _ => 0, sobolInit w, sobolInit w, sobolInit 4, 0, 0, false⟩

/-- Step of a unit of `dMUL`s for the gate `g` of the lanes (`&` or XNOR) and the adder `add` with select input `sel`,
`hw/kernel/old/MAC16/dMAC_uni_scaled/dMAC_uni_scaled.sv:15-82` (`dMAC_bi_scaled` and `dMAC_uni_nonscaled` differ in the gate
and in the adder; the latter has no select generator, which does not matter). -/
def dmacStep {w : ℕ} (g : Bool → Bool → Bool) (add : BitVec 4 → (Fin 16 → Bool) → Bool) (s : DMac w) (i : Mac2In w) :
    DMac w × Bool :=
  let en := decide (s.cntB = BitVec.allOnes w)                                                             -- lines 47, 72
  let mulC := fun k => g (s.ra.out.ult (s.a k)) (s.rb.out.ult (s.b k))
  (⟨fun k => if i.loadA then i.iA k else s.a k, fun k => if i.loadB then i.iB k else s.b k, sobolNext s.ra true,
    sobolNext s.rb en, sobolNext s.sel en, s.cntA + 1, s.cntB + bv w (decide (s.cntA = BitVec.allOnes w)),
    add s.sel.out mulC⟩, s.out)

/-- The multiplexer `muxADD` of sixteen inputs, without its register. -/
def muxSel (sel : BitVec 4) (x : Fin 16 → Bool) : Bool := x sel.toFin

/-- `orADD` of sixteen inputs, without its register. -/
def orAll (_ : BitVec 4) (x : Fin 16 → Bool) : Bool := decide (∃ k, x k = true)

/-- `uNSADD16` with `OFFSET` 0, `hw/kernel/old/MAC16/uMAC_uni_nonscaled/uNSADD16.sv:2,13-54`. -/
def unsadd16UStep (s : BitVec 10 × BitVec 10) (x : Fin 16 → Bool) : (BitVec 10 × BitVec 10) × Bool :=
  let less := parallelCnt15 fun i => x ⟨i, by omega⟩
  let temp : BitVec 5 := less.setWidth 5 + bv 5 (x 15)
  let out : Bool := s.2.ult s.1                                                   -- line 54
  ((s.1 + ((temp.setWidth 10) <<< 1) - 0, s.2 + (bv 10 out <<< 1)), out)          -- lines 42,50

/-- `uMAC_uni_nonscaled`, `hw/kernel/old/MAC16/uMAC_uni_nonscaled/uMAC_uni_nonscaled.sv:4-34`, and `uMAC_bi_nonscaled`, for a
lane multiplier `mul` and an adder `add` (`unsadd16UStep`, resp. `unsadd16Step`). -/
def umacNsStep {w : ℕ} (mul : Mul w → MulIn w → Mul w × Bool)
    (add : BitVec 10 × BitVec 10 → (Fin 16 → Bool) → (BitVec 10 × BitVec 10) × Bool)
    (s : (Fin 16 → Mul w) × (BitVec 10 × BitVec 10)) (i : MacIn w) : ((Fin 16 → Mul w) × (BitVec 10 × BitVec 10)) × Bool :=
  let r := fun k => mul (s.1 k) ⟨i.iA k, i.iB k, i.loadB⟩
  let o := add s.2 fun k => (r k).2
  ((fun k => (r k).1, o.1), o.2)

/-- `tMAC_uni_nonscaled`, `hw/kernel/old/MAC16/tMAC_uni_nonscaled/tMAC_uni_nonscaled.sv:4-84`: per lane a multiplier (its number
read from one shared free running generator, here one per lane) and an eight bit counter of its ones, two pipelined eight bit
sums, and a comparator with another generator. -/
structure TMac where
  lane : Fin 16 → TMul 8
  rng : Sobol 8
  cnt : Fin 16 → BitVec 8
  sum0 : Fin 4 → BitVec 8
  sum : BitVec 8

/-- Reset state. -/
def tmacInit : TMac := ⟨fun _ => tmulInit 8, sobolInit 8, fun _ => 0, fun _ => 0, 0⟩

/-- Step of `tMAC_uni_nonscaled`. -/
def tmacStep (s : TMac) (i : Mac2In 8) : TMac × Bool :=
  let r := fun k => tmulUniStep true (s.lane k) (i.lane k)
  (⟨fun k => (r k).1, sobolNext s.rng true, fun k => s.cnt k + bv 8 (r k).2,                               -- lines 50-56
    fun j => s.cnt ⟨4 * j, by omega⟩ + s.cnt ⟨4 * j + 1, by omega⟩ + s.cnt ⟨4 * j + 2, by omega⟩
      + s.cnt ⟨4 * j + 3, by omega⟩,                                                                       -- lines 60-71
    s.sum0 0 + s.sum0 1 + s.sum0 2 + s.sum0 3⟩,                                                            -- lines 74-80
   s.rng.out.ult s.sum)                                                                                    -- line 82

end Verif.Rtl
