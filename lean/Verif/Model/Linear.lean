import Verif.Model.Gen
import Verif.Model.Add
import Verif.Model.Utils

/-!
# Model of `kernel/linear.py`

A tensor of shape `(batch, features)` is a list (one entry per batch row) of functions on `Fin`.
Products of bits are exact integers, real data exact rationals (the code uses binary32, and binary16
matrix products under CUDA autocast).
-/

namespace Verif.Linear

open Verif Gen

/-! ## FSULinearPC -/

/-- The names of temporal codings, `kernel/linear.py:156,318-319` and `kernel/conv.py:178,401-402`. -/
def isTemporal (rngName : String) : Bool :=
  decide (rngName.toLower ∈ ["race", "tc", "race10", "tc10"])

/-- A constructed `FSULinearPC`: mode, sequence, integer weight and bias, and whether the weight is
temporal coded, `kernel/linear.py:142-189`. -/
structure PC (I O : ℕ) where
  mode : Mode
  rng : List ℤ
  weight : Fin O → Fin I → ℤ
  bias : Option (Fin O → ℤ)
  wtc : Bool

/-- `FSULinearPC.__init__`, `kernel/linear.py:130-189`, with `weight_ext` given (without it the layer
keeps random real weights, which is not modelled).  `bias` without `bias_ext` fails because `brng` was
never assigned (lines 167-183). -/
def mkPC {I O : ℕ} (env : Env) (mode : String) (width : ℕ) (rngName : String) (weightExt : Fin O → Fin I → ℚ)
    (bias : Bool) (biasExt : Option (Fin O → ℚ)) : Except PyErr (PC I O) := do
  let m ← parseMode mode                                                       -- lines 142-144
  let r ← rng env width rngName                                                -- line 155
  let w := fun o i => binGenM m width (weightExt o i)                          -- line 165
  let r1 ← bsGenInit r                                                         -- line 180
  let b ← match bias, biasExt with                                             -- lines 167-177, 182-183
    | false, _ => pure none
    | true, none => Except.error .attribute
    | true, some be => pure (some fun o => binGenM m width (be o))
  pure ⟨m, r1, w, b, isTemporal rngName⟩

/-- State: the sequence positions `wrdx_i1`, `wrdx_i0` (first dimension: batch) and `brdx`,
`kernel/linear.py:181,184,189`. -/
structure PCSt (I O : ℕ) where
  wrdx1 : List (Fin O → Fin I → ℤ)
  wrdx0 : List (Fin O → Fin I → ℤ)
  brdx : Fin O → ℤ

/-- State after construction, `kernel/linear.py:181,184,189`. -/
def PCSt.init (I O : ℕ) : PCSt I O := ⟨[fun _ _ => 0], [fun _ _ => 0], fun _ => 0⟩

/-- `if t.size()[0] != batch: t = torch.cat(batch*[t], 0)`, `kernel/linear.py:198-200,219-221,238-240`. -/
def expand {α : Type} (batch : ℕ) (l : List α) : List α :=
  if l.length ≠ batch then (List.replicate batch l).flatten else l

/-- An element-wise operation on the batch dimension with PyTorch broadcasting (the second operand
may have batch size one); used for `torch.add(wrdx, input.unsqueeze(1))` and for the batch dimension of
`torch.matmul`, `kernel/linear.py:201,205`.  Sizes that do not match raise. -/
def zipBatch {α β γ : Type} (f : α → β → γ) (a : List α) (b : List β) : Except PyErr (List γ) :=
  if a.length = b.length then .ok (List.zipWith f a b)
  else match b with
    | [x] => .ok (a.map fun m => f m x)
    | _ => .error .runtime

/-- `wrdx + input.unsqueeze(1)` for one batch row. -/
def addRow {I O : ℕ} (m : Fin O → Fin I → ℤ) (x : Fin I → ℤ) : Fin O → Fin I → ℤ := fun o i => m o i + x i

/-- `matmul(input.unsqueeze(1), wbit.transpose(1, 2)).squeeze(1)` for one batch row. -/
def mulRow {I O : ℕ} (w : Fin O → Fin I → ℤ) (x : Fin I → ℤ) : Fin O → ℤ := fun o => ∑ i, x i * w o i

/-- `obin_i1 + obin_i0` for one batch row, `kernel/linear.py:229,264`. -/
def addCounts {O : ℕ} (a b : Fin O → ℤ) : Fin O → ℤ := fun o => a o + b o

/-- The bias bits and the advance of `brdx`, `kernel/linear.py:208-211,248-251`. -/
def addBias {O : ℕ} (rng : List ℤ) (bias : Option (Fin O → ℤ)) (brdx : Fin O → ℤ) (obin : List (Fin O → ℤ)) :
    List (Fin O → ℤ) × (Fin O → ℤ) := match bias with
  | none => (obin, brdx)
  | some b => (obin.map fun (r : Fin O → ℤ) (o : Fin O) => r o + bsGen rng (b o) (brdx o), fun o => brdx o + 1)

/-- `FSULinear_PC_wrc` and `FSULinear_PC_wtc`, `kernel/linear.py:191-264` (an empty batch makes
`torch.cat` fail). -/
def stepPC {I O : ℕ} (c : PC I O) (s : PCSt I O) (input : List (Fin I → ℤ)) :
    Except PyErr (PCSt I O × List (Fin O → ℤ)) :=
  let batch := input.length                                                     -- lines 194,234
  if batch = 0 then .error .runtime else do
    let gen := fun (m : Fin O → Fin I → ℤ) (o : Fin O) (i : Fin I) => bsGen c.rng (c.weight o i) (m o i)
    let wbit1 := expand batch (s.wrdx1.map gen)                                 -- lines 197-199, 237-239
    let wrdx1 := expand batch s.wrdx1                                           -- lines 200, 240
    let wrdx1' ← zipBatch addRow wrdx1 (if c.wtc then input.map fun _ _ => (1:ℤ) else input) -- lines 201, 241
    let obin1 ← zipBatch mulRow wbit1 input                                     -- lines 203-206, 243-246
    let ob := addBias c.rng c.bias s.brdx obin1                                 -- lines 208-211, 248-251
    match c.mode with
    | .unipolar => pure (⟨wrdx1', s.wrdx0, ob.2⟩, ob.1)                       -- lines 213-214, 253-254
    | .bipolar =>
        let inv := input.map fun (x : Fin I → ℤ) (i : Fin I) => 1 - x i                                 -- lines 224, 259
        if c.wtc then do
          let obin0 ← zipBatch mulRow (wbit1.map fun (w : Fin O → Fin I → ℤ) (o : Fin O) (i : Fin I) => 1 - w o i) inv      -- lines 258-262
          pure (⟨wrdx1', s.wrdx0, ob.2⟩, List.zipWith addCounts ob.1 obin0)  -- line 264
        else do
          let wbit0 := expand batch (s.wrdx0.map fun (m : Fin O → Fin I → ℤ) (o : Fin O) (i : Fin I) => 1 - gen m o i)      -- lines 218-220
          let wrdx0 := expand batch s.wrdx0                                     -- line 221
          let wrdx0' ← zipBatch addRow wrdx0 inv                                -- line 222
          let obin0 ← zipBatch mulRow wbit0 inv                                 -- lines 224-227
          pure (⟨wrdx1', wrdx0', ob.2⟩, List.zipWith addCounts ob.1 obin0)  -- line 229

/-! ## FSULinear -/

/-- `FSULinear.__init__`, `kernel/linear.py:47-93`: the parallel counter and the accumulator
configuration (`entry = in_features + bias`, `scale` defaulting to it).  Temporal coded bipolar weights
are refused with another scale. -/
def mkLinear {I O : ℕ} (env : Env) (mode : String) (width : ℕ) (rngName : String) (depth : ℤ) (scale : Option ℚ)
    (weightExt : Fin O → Fin I → ℚ) (bias : Bool) (biasExt : Option (Fin O → ℚ)) :
    Except PyErr (PC I O × Adder.Cfg) :=
  let entry : ℚ := I + (if bias then 1 else 0)
  if mode.toLower = "bipolar" ∧ (scale.isSome ∧ scale ≠ some entry) ∧ isTemporal rngName = true then  -- lines 61-63
    .error .assertion
  else do
    let pc ← mkPC env mode width rngName weightExt bias biasExt                 -- lines 72-79
    let cfg ← Adder.mk mode (some (scale.getD entry)) (some entry) depth        -- lines 81-93
    pure (pc, cfg)

/-- Element-wise operation with broadcasting of a batch of size one on either side. -/
def zipLanes {α β γ : Type} (f : α → β → γ) (a : List α) (b : List β) : Except PyErr (List γ) :=
  if a.length = b.length then .ok (List.zipWith f a b)
  else match a with
    | [x] => .ok (b.map fun y => f x y)
    | _ => match b with
      | [y] => .ok (a.map fun x => f x y)
      | _ => .error .runtime

/-- The arguments of `FSULinear.forward(input, scale=None, entry=None)`, `kernel/linear.py:96`. -/
structure LinArg (I : ℕ) where
  input : List (Fin I → ℤ)
  scale : Option ℚ := none
  entry : Option ℚ := none

/-- One row of the accumulator: `self.ACC(pc.unsqueeze(0), scale, entry)`, `kernel/linear.py:98`.  `FSUAdd`
works element-wise on the non-summed dimensions, so every output has its own lane. -/
def laneRow {O : ℕ} (cfg : Adder.Cfg) (scale entry : Option ℚ) (a : Fin O → Adder.St) (p : Fin O → ℤ) :
    Fin O → Adder.St × ℤ := fun o => Adder.step cfg (a o) { xs := [(p o : ℚ)], scale := scale, entry := entry }

/-- `FSULinear.forward`, `kernel/linear.py:95-99`.  The accumulator starts as a scalar and takes the batch
size of the first result by broadcasting. -/
def stepLinear {I O : ℕ} (m : PC I O × Adder.Cfg) (s : PCSt I O × List (Fin O → Adder.St)) (a : LinArg I) :
    Except PyErr ((PCSt I O × List (Fin O → Adder.St)) × List (Fin O → ℤ)) := do
  let (p, pc) ← stepPC m.1 s.1 a.input                                          -- line 97
  let rows ← zipLanes (laneRow m.2 a.scale a.entry) s.2 pc                      -- line 98
  pure ((p, rows.map fun (r : Fin O → Adder.St × ℤ) (o : Fin O) => (r o).1),
    rows.map fun (r : Fin O → Adder.St × ℤ) (o : Fin O) => (r o).2)

/-- State of `FSULinear` after construction, `kernel/linear.py:72-93`. -/
def initLinear {I O : ℕ} (m : PC I O × Adder.Cfg) : PCSt I O × List (Fin O → Adder.St) :=
  (PCSt.init I O, [fun _ => Adder.init m.2])

/-! ## HUBLinear -/

/-- `2**(max(widthi, widthw) - signmag)` with `signmag = True`, `kernel/linear.py:316,337`. -/
def hubCycleMax (widthi widthw : ℕ) : ℕ := 2 ^ (max widthi widthw - 1)

/-- One comparison matrix `torch.gt(cycle_ctlerval, rng.unsqueeze(0))`, `kernel/linear.py:395-397,404`:
entry `(v, j)` is `v > rng[j]`, broadcast when the sequence has length one; other length mismatches
raise. -/
def gtTable (cm : ℕ) (rng : List ℤ) : Except PyErr (ℕ → ℕ → ℤ) :=
  if rng.length = cm then .ok fun v j => ind ((v : ℤ) > rng.getD j 0)
  else if rng.length = 1 then .ok fun v _ => ind ((v : ℤ) > rng.getD 0 0)
  else .error .runtime

/-- `mapctler` and `mapctlee`, `kernel/linear.py:393-406`: for controller index `c` and controllee index
`v`, the number of `j` below `mapctler[c]` (and below the table width) with `v > rngctlee[j]`. -/
def hubTable (cm : ℕ) (ctler ctlee : List ℤ) : Except PyErr (ℕ → ℕ → ℤ) := do
  if cm = 1 then Except.error PyErr.index      -- `squeeze_` leaves a 0-dimensional tensor, indexed in line 406
  let g1 ← gtTable cm ctler
  let mapctler := fun c => ∑ j ∈ Finset.range cm, g1 c j                         -- line 398
  let g2 ← gtTable cm ctlee
  pure fun c v => ∑ j ∈ Finset.range (min (mapctler c).toNat cm), g2 v j         -- lines 405-406

/-- A constructed `HUBLinear`: actual cycles and the product table. -/
structure Hub where
  cycle : ℕ
  table : ℕ → ℕ → ℤ
  widthi : ℕ
  widthw : ℕ
  quantilei : ℚ
  quantilew : ℚ
  rounding : String

/-- `HUBLinear.__init__`, `kernel/linear.py:306-410` (and `HUBConv2d.__init__`, `kernel/conv.py:381-494`) with
`signmag = True`.  `cycle = None` fails in `min` (line 316).  `env` supplies the external sequences of both
operands (dimension 1 for both).  Widths of zero are outside the model. -/
def mkHub (envi envw : Env) (widthi : ℕ) (rngi : String) (quantilei : ℚ) (widthw : ℕ) (rngw : String)
    (quantilew : ℚ) (cycle : Option ℕ) (rounding : String) (signmag : Bool) : Except PyErr Hub := do
  let cyc ← match cycle with                                                    -- line 316
    | none => Except.error PyErr.type
    | some c => pure (min c (hubCycleMax widthi widthw))
  if isTemporal rngi && isTemporal rngw then .error .assertion else               -- lines 318-322
  if ¬ (0 < quantilei ∧ quantilei ≤ 1) then .error .assertion else                -- lines 324-325
  if ¬ (0 < quantilew ∧ quantilew ≤ 1) then .error .assertion else                -- lines 327-328
  if ¬ rounding.toLower ∈ ["round", "ceil", "floor"] then .error .assertion else    -- lines 330-331
  if signmag = false then .error .assertion else do                             -- lines 333-334
    let irng ← rng envi (widthi - 1) rngi                                       -- lines 363-368
    let wrng ← rng envw (widthw - 1) rngw                                       -- lines 369-374
    let (ctler, ctlee) := if !isTemporal rngi && isTemporal rngw then (wrng, irng) else (irng, wrng)  -- lines 376-388
    let tab ← hubTable (hubCycleMax widthi widthw) ctler ctlee                  -- lines 393-406
    pure ⟨min cyc (hubCycleMax widthi widthw), tab, widthi, widthw, quantilei, quantilew, rounding.toLower⟩

/-- `torch.abs((x >> rshift).round().type(long))` clamped to `[0, cycle-1]`, `kernel/linear.py:447-448,460-461`.
`x >> r` on floats is `x / 2^r`. -/
def hubMag (cycle : ℕ) (rshift : ℤ) (x : ℚ) : ℤ := clamp 0 ((cycle : ℤ) - 1) |roundHE (x / (2:ℚ) ^ rshift)|

/-- Row of a tensor of `n` rows addressed by `i` with `-n ≤ i < n`: negative indices count from the end.  (`cycle = 0` clamps
every magnitude to -1.) -/
def pyIdx (n : ℕ) (i : ℤ) : ℕ := (i % (n : ℤ)).toNat

/-- `HUBLinearFunction.forward` for one batch row and output, `kernel/linear.py:446-480`; the table has `cm` rows and columns. -/
def hubForward {I : ℕ} (rsi rsw rso : ℤ) (cm cycle : ℕ) (table : ℕ → ℕ → ℤ) (x w : Fin I → ℚ) (bias : Option ℚ) : ℚ :=
  (∑ i, sgn (x i) * ((table (pyIdx cm (hubMag cycle rsi (x i))) (pyIdx cm (hubMag cycle rsw (w i))) : ℚ) * sgn (w i)))  -- 471-474
    / (2:ℚ) ^ rso + bias.getD 0                                                 -- lines 476-479

/-- All elements of a batch of rows (`torch.quantile` flattens). -/
def flat {I : ℕ} (x : List (Fin I → ℚ)) : List ℚ := x.flatMap List.ofFn

/-- `scale_i`, `scale_w` of `rshift_offset`, `kernel/utils.py:214-218,221-225`: the larger magnitude of the two
quantile bounds (the names `upper`/`lower` are exchanged in the code, which does not matter). -/
def qscale (data : List ℚ) (q : ℚ) : Except PyErr ℚ := do
  let lo ← quantile data (1/2 + q/2)
  let hi ← quantile data (1/2 - q/2)
  pure (max |lo| |hi|)

/-- `rshift_offset(input, weight, widthi, widthw, rounding, quantilei, quantilew)`, `kernel/utils.py:209-242`. -/
def rshift {I J O : ℕ} (x : List (Fin I → ℚ)) (w : Fin O → Fin J → ℚ) (widthi widthw : ℤ) (rounding : String)
    (qi qw : ℚ) : Except PyErr (ℤ × ℤ × ℤ) := do
  let si ← qscale (flat x) qi
  let sw ← qscale (flat (List.ofFn w)) qw
  Utils.rshiftOffset si sw widthi widthw rounding

/-- `HUBLinear.forward`, `kernel/linear.py:413-420`. -/
def Hub.forward {I O : ℕ} (h : Hub) (w : Fin O → Fin I → ℚ) (bias : Option (Fin O → ℚ)) (x : List (Fin I → ℚ)) :
    Except PyErr (List (Fin O → ℚ)) := do
  let (rsi, rsw, rso) ← rshift x w ((h.widthi : ℤ) - 1) ((h.widthw : ℤ) - 1) h.rounding h.quantilei h.quantilew
  pure (x.map fun row o => hubForward rsi rsw rso (hubCycleMax h.widthi h.widthw) h.cycle h.table row (w o) (bias.map fun b => b o))

/-! ## FXPLinear -/

/-- `clamp(round(x >> rshift), 1 - max_abs, max_abs - 1)`, `kernel/linear.py:584-588,594-598`. -/
def fxpRound (maxAbs : ℤ) (rshift : ℤ) (x : ℚ) : ℤ := clamp (1 - maxAbs) (maxAbs - 1) (roundHE (x / (2:ℚ) ^ rshift))

/-- `FXPLinearFunction.forward` for one batch row and output, `kernel/linear.py:572-606`. -/
def fxpForward {I : ℕ} (rsi rsw rso maxi maxw : ℤ) (x w : Fin I → ℚ) (bias : Option ℚ) : ℚ :=
  (∑ i, (fxpRound maxi rsi (x i) : ℚ) * fxpRound maxw rsw (w i)) / (2:ℚ) ^ rso + bias.getD 0

/-- `FXPLinear.forward`, `kernel/linear.py:529-563`. -/
def fxpLinear {I O : ℕ} (widthi widthw : ℕ) (qi qw : ℚ) (rounding : String) (w : Fin O → Fin I → ℚ)
    (bias : Option (Fin O → ℚ)) (x : List (Fin I → ℚ)) : Except PyErr (List (Fin O → ℚ)) := do
  let (rsi, rsw, _) ← rshift x w ((widthi : ℤ) - 1) ((widthw : ℤ) - 1) rounding.toLower qi qw   -- lines 559-560
  let rso := 0 - rsi - rsw                                                                    -- line 561
  pure (x.map fun row o => fxpForward rsi rsw rso (2 ^ widthi) (2 ^ widthw) row (w o) (bias.map fun b => b o))

/-! ## TLUTLinear -/

/-- `torch.frac`: the part after the decimal point, with the sign of `x`. -/
def frac (x : ℚ) : ℚ := x - truncZ x

/-- The digit loop, `kernel/linear.py:789-794,857-862,933-938`: `degree` iterations on `(value, new)`;
`cyc` is `cycle_act`. -/
def tlutLoop (t cyc : ℕ) : ℕ → ℚ × ℚ → ℚ × ℚ
  | 0, p => p
  | n + 1, p =>
      let v1 := p.1 / 2 ^ t                                                      -- value >> widtht
      let f := clamp (-(cyc : ℚ) + 1) ((cyc : ℚ) - 1) (frac v1 * 2 ^ t)            -- clamp(frac << widtht)
      tlutLoop t cyc n ((truncZ v1 : ℚ), f / 2 ^ t + p.2 / 2 ^ t)

/-- `degree` and `delta`, `kernel/linear.py:749-750`. -/
def tlutDegree (width t : ℕ) : ℕ := ⌈(width : ℚ) / t⌉.toNat

/-- See `tlutDegree`. -/
def tlutDelta (width t : ℕ) : ℤ := (tlutDegree width t : ℤ) * t - width

/-- `trunc((x >> rshift).clamp(-2**width+1, 2**width-1))`, `kernel/linear.py:784-785,856`. -/
def tlutQuant (width : ℕ) (rshift : ℤ) (x : ℚ) : ℤ :=
  truncZ (clamp (-(2:ℚ) ^ width + 1) ((2:ℚ) ^ width - 1) (x / (2:ℚ) ^ rshift))

/-- The value of a temporal coded fixed-point operand used in the product,
`kernel/linear.py:788-795,798-806,854-863`. -/
def tlutFxp (width t cyc : ℕ) (rshift : ℤ) (x : ℚ) : ℚ :=
  (tlutLoop t cyc (tlutDegree width t) ((tlutQuant width rshift x : ℚ), 0)).2
    * (2:ℚ) ^ (tlutDelta width t + width + rshift)

/-- The value of the other fixed-point operand, `kernel/linear.py:785,796,805`. -/
def tlutPlain (width : ℕ) (rshift : ℤ) (x : ℚ) : ℚ := (tlutQuant width rshift x : ℚ) * (2:ℚ) ^ rshift

/-- Sign and exponent of `torch.frexp`: `x = mantissa * 2^e` with `1/2 ≤ |mantissa| < 1`, or both zero. -/
def frexp (x : ℚ) : ℚ × ℤ := if x = 0 then (0, 0) else
  let e := Int.log 2 |x| + 1
  (x / (2:ℚ) ^ e, e)

/-- The value of a temporal coded floating-point operand, `kernel/linear.py:921-947`. -/
def tlutFp (width t cyc : ℕ) (x : ℚ) : ℚ :=
  let (m, e) := frexp x
  (tlutLoop t cyc (tlutDegree width t) (m * 2 ^ width, 0)).2 * (2:ℚ) ^ tlutDelta width t * (2:ℚ) ^ e

/-- `cycle_act`, `kernel/linear.py:719-725`. -/
def tlutCycle (t : ℕ) (cycle : Option ℕ) : ℕ := match cycle with
  | none => 2 ^ t
  | some c => min c (2 ^ t)

/-- Number formats, `kernel/linear.py:682-686,733-747`. -/
inductive Fmt where
  | fxp
  | bfloat16
  | float16
  | float32
  deriving DecidableEq, Repr

/-- `self.width`, `kernel/linear.py:730-747`, from the format and `hwcfg` width of the temporal operand. -/
def tlutWidth (f : Fmt) (w : ℕ) : ℕ := match f with
  | .fxp => w - 1
  | .bfloat16 => 8
  | .float16 => 11
  | .float32 => 24

/-- A validated `TLUTLinear` configuration, `kernel/linear.py:665-698`; `temporalI` says that the input (not
the weight) is temporal coded. -/
structure Tlut where
  temporalI : Bool
  t : ℕ
  formati : Fmt
  widthi : ℕ
  quantilei : ℚ
  formatw : Fmt
  widthw : ℕ
  quantilew : ℚ
  cycle : Option ℕ
  rounding : String

/-- The operand values multiplied by `TLUTLinear.forward`, `kernel/linear.py:752-764` with lines 782-806, 851-876 and
919-947: the pair of functions applied to each input and weight element. -/
def Tlut.operands {I O : ℕ} (c : Tlut) (w : Fin O → Fin I → ℚ) (x : List (Fin I → ℚ)) :
    Except PyErr ((ℚ → ℚ) × (ℚ → ℚ)) :=
  let width := if c.temporalI then tlutWidth c.formati c.widthi else tlutWidth c.formatw c.widthw
  let cyc := tlutCycle c.t c.cycle
  if c.formati = .fxp ∧ c.formatw = .fxp then do                                              -- fxpfxp
    let (rsi, rsw, _) ← rshift x w ((c.widthi : ℤ) - 1) ((c.widthw : ℤ) - 1) c.rounding c.quantilei c.quantilew
    if c.temporalI then
      pure (tlutFxp (c.widthi - 1) c.t cyc rsi, tlutPlain (c.widthw - 1) rsw)
    else
      pure (tlutPlain (c.widthi - 1) rsi, tlutFxp (c.widthw - 1) c.t cyc rsw)
  else if c.formati ≠ .fxp ∧ c.formatw ≠ .fxp then                                            -- fpfp
    if c.temporalI then .ok (tlutFp width c.t cyc, id) else .ok (id, tlutFp width c.t cyc)
  else do                                                                                    -- fxpfp
    let (rsi, rsw, _) ← rshift x w width width c.rounding c.quantilei c.quantilew
    if c.temporalI then pure (tlutFxp width c.t cyc rsi, id) else pure (id, tlutFxp width c.t cyc rsw)

/-- `TLUTLinear.forward`, `kernel/linear.py:752-764,808-812,878-882,949-953`. -/
def Tlut.forward {I O : ℕ} (c : Tlut) (w : Fin O → Fin I → ℚ) (bias : Option (Fin O → ℚ)) (x : List (Fin I → ℚ)) :
    Except PyErr (List (Fin O → ℚ)) := do
  let (fi, fw) ← c.operands w x
  pure (x.map fun row o => ∑ i, fi (row i) * fw (w o i) + (bias.map fun b => b o).getD 0)

/-! ## Gradients -/

/-- The three gradients returned by every `backward`, `kernel/linear.py:497-504,623-630,829-836,899-906,970-977`;
entries not needed are `None`. -/
structure Grads (B I O : ℕ) where
  input : Option (Fin B → Fin I → ℚ)
  weight : Option (Fin O → Fin I → ℚ)
  bias : Option (Fin O → ℚ)

/-- `backward`, `kernel/linear.py:484-504`: `needs` is `ctx.needs_input_grad[0..2]`; `hasBias` says that the
forward call got a bias. -/
def backward {B I O : ℕ} (x : Fin B → Fin I → ℚ) (w : Fin O → Fin I → ℚ) (hasBias : Bool)
    (needs : Bool × Bool × Bool) (g : Fin B → Fin O → ℚ) : Grads B I O where
  input := if needs.1 then some fun n i => ∑ o, g n o * w o i else none          -- line 498
  weight := if needs.2.1 then some fun o i => ∑ n, g n o * x n i else none        -- line 500
  bias := if hasBias && needs.2.2 then some fun o => ∑ n, g n o else none         -- line 502

end Verif.Linear
