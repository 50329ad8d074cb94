import Verif.Basic
import Verif.Model.Shuffle
import Verif.Model.Add
import Verif.Model.Metric
import Verif.Model.Small
import Mathlib.Data.Int.Log

/-!
# Binary32 arithmetic and the code executed in it

Tensors are `torch.float` by default (`swcfg` of every module).  `fl x` is the binary32 number nearest to `x`, ties to even, with
gradual underflow; every arithmetic operation returns `fl` of the exact result.  Overflow (results of `2^128` and more) is not
modelled.
-/

namespace Verif.Float

open Verif Shuffle

/-- Exponent of the last place of a result of the size of `x`. -/
def flExp (x : ℚ) : ℤ := max (Int.log 2 |x| - 23) (-149)

/-- Rounding to binary32. -/
def fl (x : ℚ) : ℚ := roundHE (x / (2:ℚ) ^ flExp x) * (2:ℚ) ^ flExp x

def fadd (x y : ℚ) : ℚ := fl (x + y)
def fsub (x y : ℚ) : ℚ := fl (x - y)
def fmul (x y : ℚ) : ℚ := fl (x * y)
def fdiv (x y : ℚ) : ℚ := fl (x / y)

/-- A result `torch.sum` may return for the entries `l`: the additions are done in some order and grouping. -/
inductive FSum : List ℚ → ℚ → Prop
  | nil : FSum [] 0
  | one (x : ℚ) : FSum [x] x
  | perm {l l' : List ℚ} {v : ℚ} (h : l.Perm l') (hl : FSum l v) : FSum l' v
  | add {l l' : List ℚ} {v v' : ℚ} (h : FSum l v) (h' : FSum l' v') : FSum (l ++ l') (fadd v v')

/-! ## Streaming modules -/

/-- `Bi2Uni.forward` in binary32, `stream/shuffle.py:76-82`. -/
def bi2uniStep (depth : ℤ) (acc : ℚ) (input : ℤ) : ℚ × ℤ :=
  let a := clamp (-accBound depth) (accBound depth) (fadd acc (fsub (fmul input 2) 1))
  let out : ℤ := ind (a ≥ 1)
  (fsub a out, out)

/-- `Uni2Bi.forward` in binary32, `stream/shuffle.py:116-123`. -/
def uni2biStep (depth : ℤ) (acc : ℚ) (input : ℤ) : ℚ × ℤ :=
  let a := clamp (-accBound depth) (accBound depth) (fadd acc (fadd input 1))
  let out : ℤ := ind (a ≥ 2)
  (fsub a (fmul out 2), out)

/-- The counter of `SkewedSync` in binary32, `stream/shuffle.py:29-41`, for bits and a fixed shape: `(cnt', (out1, in2))`. -/
def ssStep (depth : ℕ) (cnt : ℚ) (i : ℤ × ℤ) : ℚ × (ℚ × ℚ) :=
  let upper : ℚ := fl (2 ^ depth - 1)                                                     -- line 29
  let in1 : ℚ := i.1
  let in2 : ℚ := i.2
  let sum := fadd in1 in2                                                                 -- line 34
  let notMin : ℚ := ind (cnt ≠ 0)                                                         -- line 37
  let notMax : ℚ := ind (cnt ≠ upper)                                                     -- line 38
  let out1 := fadd in1 (fmul (ind (sum = 1))
    (fadd (fmul notMin (fsub 1 in1)) (fmul (fsub 0 notMax) in1)))                         -- line 40
  let cnt' := clamp 0 upper (fadd cnt (fmul (ind (sum = 1)) (fsub (fmul in1 2) 1)))       -- line 41
  (cnt', (out1, in2))

/-- The counter of `FSUSignAbs` in binary32, `kernel/signabs.py:30-40`, started at `signAbsInit`. -/
def signAbsInit (depth : ℤ) : ℚ := fl ((2:ℚ) ^ (depth - 1))

def signAbsStep (depth : ℤ) (acc : ℚ) (input : ℤ) : ℚ × (ℤ × ℤ) :=
  let a := clamp 0 (fl ((2:ℚ) ^ depth - 1)) (fadd acc (fsub (fmul input 2) 1))            -- line 36
  let sign : ℤ := ind (a < fl ((2:ℚ) ^ (depth - 1)))                                      -- line 37
  (a, (sign, Int.xor sign input))                                                         -- lines 38-40

/-- The configuration part of a call of `FSUAdd` in binary32, `kernel/add.py:62-93`: the scale is stored in a tensor, the entry
converted when subtracted from one. -/
def addConfigure (cfg : Adder.Cfg) (s : Adder.St) (a : Adder.Arg) : Adder.St :=
  if s.first then                                                                         -- line 62
    let entry : ℚ := match a.entry with                                                   -- lines 63-73
      | some e => e
      | none => match s.entry with
        | none => a.xs.length
        | some e => e
    let sc : ℚ := fl (match a.scale with                                                  -- lines 75-85
      | some c => c
      | none => match cfg.scale with
        | none => entry
        | some c => c)
    let off : ℚ := match cfg.mode with                                                    -- lines 87-88
      | .bipolar => fdiv (fsub (fl entry) sc) 2
      | .unipolar => s.offset
    { first := false, entry := some entry, scaleCarry := sc, offset := off, acc := s.acc }
  else s                                                                                  -- lines 92-93

/-- The accumulation part in binary32, `kernel/add.py:95-99`; `v` is what `torch.sum` returned. -/
def addAccumulate (cfg : Adder.Cfg) (s : Adder.St) (v : ℚ) : Adder.St × ℤ :=
  let b := accBound cfg.depth                                                             -- lines 47-49
  let delta := fsub v s.offset                                                            -- line 95
  let acc1 := clamp (-b) b (fadd s.acc delta)                                             -- line 96
  let out : ℤ := ind (acc1 ≥ s.scaleCarry)                                                -- line 97
  let acc2 := clamp (-b) b (fsub acc1 (fmul out s.scaleCarry))                            -- line 98
  ({ s with acc := acc2 }, out)                                                           -- line 99

/-- `out` are the outputs an `FSUAdd` may give on the calls `a` when executed in binary32. -/
def AddRun (cfg : Adder.Cfg) (a : ℕ → Adder.Arg) (out : ℕ → ℤ) : Prop :=
  ∃ st : ℕ → Adder.St, st 0 = Adder.init cfg ∧
    ∀ t, ∃ v, FSum (a t).xs v ∧ addAccumulate cfg (addConfigure cfg (st t) (a t)) v = (st (t + 1), out t)

/-! ## Number generation -/

/-- `BinGen` in binary32, `stream/gen.py:112-118`, for a binary32 source. -/
def binGen (mode : Mode) (width : ℕ) (source : ℚ) : ℤ :=
  let b : ℚ := match mode with
    | .unipolar => source
    | .bipolar => fdiv (fadd source 1) 2
  roundHE (fmul b (2 ^ width))

/-- The last step of `RawScale.forward` in binary32, `stream/gen.py:87-88`, for given quantiles. -/
def rawScale (lower upper raw : ℚ) : ℚ := fdiv (clamp lower upper raw) (max |lower| |upper|)

/-! ## Metrics -/

/-- Counters of `ProgError`: `(one_cnt, cycle)`, `metric/metric.py:87-89`. -/
def peMonitor (s : ℚ × ℚ) (x : ℚ) : ℚ × ℚ := (fadd s.1 x, fadd s.2 1)

/-- Progressive value of `ProgError.forward`, `metric/metric.py:91-94`. -/
def peValue (mode : Mode) (s : ℚ × ℚ) : ℚ :=
  match mode with
  | .bipolar => fsub (fmul (fdiv s.1 s.2) 2) 1
  | .unipolar => fdiv s.1 s.2

/-- `Correlation.Monitor` in binary32, `metric/metric.py:18-30`. -/
def corrMonitor (s : Metric.Corr) (in1 : ℚ) (in2? : Option ℚ) : Metric.Corr :=
  let in2 := match in2? with                                                              -- lines 19-21
    | none => s.in1d
    | some y => y
  let in1d := match in2? with
    | none => in1
    | some _ => s.in1d
  let i10 : ℚ := ind (in1 = 0)                                                            -- lines 22-25
  let i11 := fsub 1 i10
  let i20 : ℚ := ind (in2 = 0)
  let i21 := fsub 1 i20
  { d := fadd s.d (fmul i10 i20)                                                          -- lines 26-30
    c := fadd s.c (fmul i10 i21)
    b := fadd s.b (fmul i11 i20)
    a := fadd s.a (fmul i11 i21)
    len := fadd s.len 1
    in1d := in1d }

/-- `Correlation.forward` in binary32, `metric/metric.py:32-53`. -/
def corrForward (s : Metric.Corr) : ℚ :=
  let adbc := fsub (fmul s.a s.d) (fmul s.b s.c)                                          -- line 33
  let gt : ℚ := ind (adbc > 0)                                                            -- line 34
  let le := fsub 1 gt                                                                     -- line 35
  let ab := fadd s.a s.b                                                                  -- lines 36-38
  let ac := fadd s.a s.c
  let amd := fsub s.a s.d
  let corrGt := fdiv adbc (max (fsub (fmul (min ab ac) s.len) (fmul ab ac)) 1)            -- lines 41-46
  let corrLe := fdiv adbc (max (fsub (fmul ab ac) (fmul (max amd 0) s.len)) 1)            -- lines 47-52
  fadd (fmul gt corrGt) (fmul le corrLe)                                                  -- line 53

end Verif.Float
