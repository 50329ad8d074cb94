import Verif.Basic
import Mathlib.Data.Nat.Bitwise

/-!
# Model of the hardware in `hw/` (SystemVerilog) that the Python modules simulate

Wires are `Bool`, registers are `BitVec n` with wrap-around arithmetic, as in SystemVerilog.  A clocked module is a step function:
the outputs of a cycle are combinational in the registers and the inputs of the cycle, the new registers are what the
`always_ff` blocks load at the end of the cycle.  The initial state is the one after reset; reset during operation is not
modelled.
-/

namespace Verif.Rtl

open Verif

/-! ## hw/stream/shuffle -/

/-- `SkewedSync`, `hw/stream/shuffle/SkewedSync.sv:12-53`: state `cnt`, inputs `(in0, in1)`, outputs `(out0, out1)`. -/
def ssStep (dep : ℕ) (cnt : BitVec dep) (i : Bool × Bool) : BitVec dep × (Bool × Bool) :=
  let full : Bool := decide (cnt = BitVec.allOnes dep)                            -- line 17
  let empty : Bool := decide (cnt = 0)                                            -- line 18
  let ne : Bool := i.1 ^^ i.2                                                     -- line 19
  let cnt' : BitVec dep := if ne then                                             -- lines 25-34
      (if (if i.1 then full else empty) then cnt else cnt + (if i.1 then 1 else -1))
    else cnt
  let out0 : Bool := if ne then (if i.1 then full else !empty) else i.1           -- lines 40-50
  (cnt', (out0, i.2))                                                             -- line 52

/-- Reset value of `cnt`, `hw/stream/shuffle/SkewedSync.sv:23`. -/
def ssInit (dep : ℕ) : BitVec dep := 0

/-- `{1'b1, {{DEP-1}{1'b0}}}`, the reset value in the middle of the range. -/
def half (dep : ℕ) : BitVec dep := BitVec.twoPow dep (dep - 1)

/-- A bit added to a register. -/
def bv (n : ℕ) (b : Bool) : BitVec n := if b then 1 else 0

/-- `Bi2Uni`, `hw/stream/shuffle/Bi2Uni.sv:11-25`. -/
def bi2uniStep (dep : ℕ) (acc : BitVec dep) (input : Bool) : BitVec dep × Bool :=
  let out : Bool := acc.msb && decide (acc ≠ half dep)                            -- line 25
  let pc : BitVec dep := if input then 2 else 0                                   -- line 14
  (acc + pc - 1 - bv dep out, out)                                                -- line 20

/-- `Uni2Bi`, `hw/stream/shuffle/Uni2Bi.sv:9-24`. -/
def uni2biStep (acc : BitVec 2) (input : Bool) : BitVec 2 × Bool :=
  let pc : BitVec 2 := bv 2 input + 1                                             -- line 12
  let low : BitVec 2 := bv 2 (acc.getLsbD 0)
  (low + pc, acc.getLsbD 1)                                                       -- lines 18,23

/-! ## hw/kernel -/

/-- `JKFF`, `hw/kernel/jkff/JKFF.sv:9-20`. -/
def jkStep (q : Bool) (i : Bool × Bool) : Bool × Bool :=
  let q' : Bool := match i with
    | (false, false) => q
    | (true, false) => true
    | (false, true) => false
    | (true, true) => !q
  (q', q)

/-- The saturating counter shared by `Abs` and `Sign`, `hw/kernel/abs/Abs.sv:15-29`, `hw/kernel/sign/Sign.sv:14-28`. -/
def satCount (dep : ℕ) (cnt : BitVec dep) (value : Bool) : BitVec dep :=
  if value && !decide (cnt = BitVec.allOnes dep) then cnt + 1
  else if !value && !decide (cnt = 0) then cnt - 1
  else cnt

/-- `Abs`, `hw/kernel/abs/Abs.sv:11-33` (and `Sign`, which is its first output): `(sign, abs)`. -/
def absStep (dep : ℕ) (cnt : BitVec dep) (value : Bool) : BitVec dep × (Bool × Bool) :=
  let sign : Bool := !cnt.msb                                                     -- line 32
  (satCount dep cnt value, (sign, value ^^ sign))                                 -- line 33

/-- `BISQRT_S_JK_U`, `hw/kernel/sqrt/BISQRT_S_JK_U.sv:10-33`. -/
def sqrtJkStep (q : Bool) (input : Bool) : Bool × Bool :=
  let out : Bool := if q then true else input                                     -- lines 18-23
  ((jkStep q (out, true)).1, out)                                                 -- lines 24-33

/-- `BISQRT_S_JK_B`, `hw/kernel/sqrt/BISQRT_S_JK_B.sv:12-46`: the converter is driven by `in`. -/
def sqrtJkBiStep (dep : ℕ) (s : Bool × BitVec dep) (input : Bool) : (Bool × BitVec dep) × Bool :=
  let out : Bool := if s.1 then true else input
  let (acc, uni) := bi2uniStep dep s.2 input
  (((jkStep s.1 (uni, true)).1, acc), out)

/-- `CORDIV_kernel`, `hw/kernel/div/CORDIV_kernel.sv:13-35`: state `sr` (cell `i` at position `i`), inputs
`(randNum, dividend, divisor)`.  An index outside the register reads as `0` here; `randNum` has `log2 DEP` bits. -/
def corStep (sr : List Bool) (i : ℕ × Bool × Bool) : List Bool × Bool :=
  let q : Bool := if i.2.2 then i.2.1 else sr.getD i.1 false                      -- lines 18-22
  (sr.tail ++ [q], q)                                                             -- lines 30-33

/-- Reset value of `sr`, `hw/kernel/div/CORDIV_kernel.sv:26-28`. -/
def corInit (dep : ℕ) : List Bool := (List.range dep).map fun i => decide (i % 2 = 1)

/-- `ISCBDIV_U`, `hw/kernel/div/ISCBDIV_U.sv:15-44`: synchroniser and kernel; inputs `(randNum, dividend, divisor)`. -/
def iscbdivStep (depSync : ℕ) (s : BitVec depSync × List Bool) (i : ℕ × Bool × Bool) :
    (BitVec depSync × List Bool) × Bool :=
  let (c, o) := ssStep depSync s.1 i.2
  let (sr, q) := corStep s.2 (i.1, o)
  ((c, sr), q)

/-- `GDIV_U`, `hw/kernel/div/GDIV_U.sv:12-39`: state `cnt`, inputs `(randNum, dividend, divisor)`. -/
def gdivStep (dep : ℕ) (cnt : BitVec dep) (i : BitVec dep × Bool × Bool) : BitVec dep × Bool :=
  let q : Bool := i.1.ult cnt                                                     -- line 36
  let inc : Bool := i.2.1                                                         -- line 38
  let dec : Bool := q && i.2.2                                                    -- line 39
  let cnt' := if inc && !dec && !decide (cnt = BitVec.allOnes dep) then cnt + 1   -- lines 26-32
    else if !inc && dec && !decide (cnt = 0) then cnt - 1
    else cnt
  (cnt', q)

/-- `GSQRT_U`, `hw/kernel/sqrt/GSQRT_U.sv:11-47`: state `(cnt, out_d1)`, inputs `(randNum, in)`. -/
def gsqrtStep (dep : ℕ) (s : BitVec dep × Bool) (i : BitVec dep × Bool) : (BitVec dep × Bool) × Bool :=
  let out : Bool := i.1.ult s.1                                                   -- line 36
  let inc : Bool := i.2                                                           -- line 46
  let dec : Bool := out && s.2                                                    -- line 47
  let cnt' := if inc && !dec && !decide (s.1 = BitVec.allOnes dep) then s.1 + 1   -- lines 26-32
    else if !inc && dec && !decide (s.1 = 0) then s.1 - 1
    else s.1
  ((cnt', out), out)

/-! ## The Sobol generator and the multipliers (hw/kernel/old/uMUL_uni, uMUL_bi) -/

/-- `inacc`, `LSZ.sv:13-18`: some bit up to position `i` is zero. -/
def inacc {w : ℕ} (x : BitVec w) : ℕ → Bool
  | 0 => !x.getLsbD 0
  | i + 1 => inacc x i || !x.getLsbD (i + 1)

/-- `outoh`, `LSZ.sv:20-25`: bit `i` of the one-hot vector. -/
def outoh {w : ℕ} (x : BitVec w) : ℕ → Bool
  | 0 => inacc x 0
  | i + 1 => inacc x i ^^ inacc x (i + 1)

/-- `lszIdx`, `LSZ.sv:27-141`: the position of the single one of `outoh`, or `0` by the `default` branch. -/
def lszIdx {w : ℕ} (x : BitVec w) : ℕ :=
  ((List.range w).find? fun i => decide (∀ j < w, outoh x j = decide (j = i))).getD 0

/-- Registers of `SobolRNGDim1`: the counter (`cntWithEn.sv:10-18`) and the number (`SobolRNG.sv:12-22`). -/
structure Sobol (w : ℕ) where
  cnt : BitVec w
  out : BitVec w

/-- `SobolRNGDim1`, `SobolRNGDim1.sv:13-131` with `SobolRNG.sv:17` and `cntWithEn.sv:16`; `dirVec[i] = 2^(w-1-i)`. -/
def sobolNext {w : ℕ} (s : Sobol w) (enable : Bool) : Sobol w :=
  ⟨s.cnt + bv w enable,
   if enable then s.out ^^^ BitVec.twoPow w (w - 1 - lszIdx s.cnt) else s.out⟩

/-- Reset values. -/
def sobolInit (w : ℕ) : Sobol w := ⟨0, 0⟩

/-- Registers of `uMUL_uni`. -/
structure Mul (w : ℕ) where
  buf : BitVec w
  rng : Sobol w
  rngInv : Sobol w

/-- Inputs of the multipliers. -/
structure MulIn (w : ℕ) where
  iA : Bool
  iB : BitVec w
  loadB : Bool

/-- Reset state. -/
def mulInit (w : ℕ) : Mul w := ⟨0, sobolInit w, sobolInit w⟩

/-- `uMUL_uni`, `hw/kernel/old/uMUL_uni/uMUL_uni.sv:13-36` (the third register is not used). -/
def umulUniStep {w : ℕ} (s : Mul w) (i : MulIn w) : Mul w × Bool :=
  (⟨if i.loadB then i.iB else s.buf, sobolNext s.rng i.iA, s.rngInv⟩,
   i.iA && s.rng.out.ult s.buf)

/-- `uMUL_bi`, `hw/kernel/old/uMUL_bi/uMUL_bi.sv:13-45`. -/
def umulBiStep {w : ℕ} (s : Mul w) (i : MulIn w) : Mul w × Bool :=
  (⟨if i.loadB then i.iB else s.buf, sobolNext s.rng i.iA, sobolNext s.rngInv !i.iA⟩,
   (i.iA && s.rng.out.ult s.buf) || (!i.iA && s.buf.ule s.rngInv.out))

/-! ## Adders (hw/kernel/old/uSADD, uNSADD, parallelCnt) -/

/-- Two-bit sum of three bits (a full adder). -/
def fa (a b c : Bool) : BitVec 2 := bv 2 a + bv 2 b + bv 2 c

/-- `{hi, lo}` for a two-bit `hi` and a bit `lo`. -/
def cat3 (hi : BitVec 2) (lo : Bool) : BitVec 3 := hi ++ BitVec.ofBool lo

/-- `parallelCnt7`, `hw/kernel/old/parallelCnt/parallelCnt7.sv:1-14`. -/
def parallelCnt7 (x : Fin 7 → Bool) : BitVec 3 :=
  let t0 := fa (x 0) (x 1) (x 2)
  let t1 := fa (x 3) (x 4) (x 5)
  let t2 := fa (x 6) (t0.getLsbD 0) (t1.getLsbD 0)
  let t3 := fa (t0.getLsbD 1) (t1.getLsbD 1) (t2.getLsbD 1)
  cat3 t3 (t2.getLsbD 0)

/-- `parallelCnt15`, `hw/kernel/old/parallelCnt/parallelCnt15.sv:3-27`. -/
def parallelCnt15 (x : Fin 15 → Bool) : BitVec 4 :=
  let a := parallelCnt7 fun i => x ⟨i, by omega⟩
  let b := parallelCnt7 fun i => x ⟨7 + i, by omega⟩
  let t0 := fa (x 14) (a.getLsbD 0) (b.getLsbD 0)
  let t1 := fa (t0.getLsbD 1) (a.getLsbD 1) (b.getLsbD 1)
  let t2 := fa (t1.getLsbD 1) (a.getLsbD 2) (b.getLsbD 2)
  (t2 ++ BitVec.ofBool (t1.getLsbD 0)) ++ BitVec.ofBool (t0.getLsbD 0)

/-- `uSADD8`, `hw/kernel/old/uSADD/uSADD8.sv:10-33`. -/
def usadd8Step (acc : BitVec 3) (x : Fin 8 → Bool) : BitVec 3 × Bool :=
  let less := parallelCnt7 fun i => x ⟨i, by omega⟩                               -- lines 15-18
  let temp : BitVec 4 := less.setWidth 4 + bv 4 (x 7)                             -- line 20
  let accum : BitVec 4 := acc.setWidth 4 + (temp.setWidth 3).setWidth 4           -- line 22
  (accum.setWidth 3, if temp.getLsbD 3 then temp.getLsbD 3 else accum.getLsbD 3)  -- lines 28,32

/-- `uSADD16`, `hw/kernel/old/uSADD/uSADD16.sv:10-33`. -/
def usadd16Step (acc : BitVec 4) (x : Fin 16 → Bool) : BitVec 4 × Bool :=
  let less := parallelCnt15 fun i => x ⟨i, by omega⟩
  let temp : BitVec 5 := less.setWidth 5 + bv 5 (x 15)
  let accum : BitVec 5 := acc.setWidth 5 + (temp.setWidth 4).setWidth 5
  (accum.setWidth 4, if temp.getLsbD 4 then temp.getLsbD 4 else accum.getLsbD 4)

/-- `uNSADD16`, `hw/kernel/old/uNSADD/uNSADD16.sv:12-54` with `OFFSET` 15: state `(theoryOneBuf, actualOneBuf)`. -/
def unsadd16Step (s : BitVec 10 × BitVec 10) (x : Fin 16 → Bool) : (BitVec 10 × BitVec 10) × Bool :=
  let less := parallelCnt15 fun i => x ⟨i, by omega⟩
  let temp : BitVec 5 := less.setWidth 5 + bv 5 (x 15)
  let out : Bool := s.2.ult s.1                                                   -- line 54
  ((s.1 + ((temp.setWidth 10) <<< 1) - 15, s.2 + (bv 10 out <<< 1)), out)         -- lines 42,50

/-- `uNSADD8`, `hw/kernel/old/uNSADD/uNSADD8.sv:12-54`, also with `OFFSET` 15. -/
def unsadd8Step (s : BitVec 10 × BitVec 10) (x : Fin 8 → Bool) : (BitVec 10 × BitVec 10) × Bool :=
  let less := parallelCnt7 fun i => x ⟨i, by omega⟩
  let temp : BitVec 4 := less.setWidth 4 + bv 4 (x 7)
  let out : Bool := s.2.ult s.1
  ((s.1 + ((temp.setWidth 10) <<< 1) - 15, s.2 + (bv 10 out <<< 1)), out)

/-- Registers of `uMAC_uni_scaled` and `uMAC_bi_scaled`: sixteen multipliers and the adder. -/
structure Mac (w : ℕ) where
  muls : Fin 16 → Mul w
  acc : BitVec 4

/-- Inputs: sixteen bits, sixteen numbers, one load signal. -/
structure MacIn (w : ℕ) where
  iA : Fin 16 → Bool
  iB : Fin 16 → BitVec w
  loadB : Bool

/-- `uMAC_uni_scaled` (its generator `SobolRNGDim1_8b.sv` is the one above with width 8 in one file), `hw/kernel/old/MAC16/uMAC_uni_scaled/uMAC_uni_scaled.sv:4-34`. -/
def umacUniStep {w : ℕ} (s : Mac w) (i : MacIn w) : Mac w × Bool :=
  let r := fun k => umulUniStep (s.muls k) ⟨i.iA k, i.iB k, i.loadB⟩
  let (acc, out) := usadd16Step s.acc fun k => (r k).2
  (⟨fun k => (r k).1, acc⟩, out)

/-- `uMAC_bi_scaled`, `hw/kernel/old/MAC16/uMAC_bi_scaled/uMAC_bi_scaled.sv:4-34`. -/
def umacBiStep {w : ℕ} (s : Mac w) (i : MacIn w) : Mac w × Bool :=
  let r := fun k => umulBiStep (s.muls k) ⟨i.iA k, i.iB k, i.loadB⟩
  let (acc, out) := usadd16Step s.acc fun k => (r k).2
  (⟨fun k => (r k).1, acc⟩, out)

/-- Reset state. -/
def macInit (w : ℕ) : Mac w := ⟨fun _ => mulInit w, 0⟩

/-! ## hw/stream/shuffle_int -/

/-- `SkewedSyncInt`, `hw/stream/shuffle_int/SkewedSyncInt.sv:14-53`: `sum_overflow` selects `DEP-1` ones (the repetition
count is `DEP-1`), and the register loads `sum`, not `sum_res` (line 35). -/
def ssIntStep (dep bwin : ℕ) (cnt : BitVec dep) (i : BitVec bwin × Bool) : BitVec dep × (BitVec dep × Bool) :=
  let sum : BitVec (dep + 1) := cnt.setWidth (dep + 1) + i.1.setWidth (dep + 1)   -- line 29
  let ones : BitVec dep := (BitVec.allOnes (dep - 1)).setWidth dep
  let sumClip : BitVec dep := if sum.getLsbD dep then ones else sum.setWidth dep  -- lines 30-31
  let out0 : BitVec dep := if i.2 then sumClip else 0                             -- lines 46-50
  let sumRes : BitVec (dep + 1) := sum - out0.setWidth (dep + 1)                  -- line 33
  let sumResClip : BitVec dep := if sumRes.getLsbD dep then ones else sum.setWidth dep  -- lines 34-35
  (sumResClip, (out0, i.2))

end Verif.Rtl
