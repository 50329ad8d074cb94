import Verif.Basic
import Mathlib.Data.Int.Log

/-!
# Model of `kernel/utils.py`

Tensors are lists of rationals (the code uses binary32).  Integer/float divisions of Python are
exact rational divisions.  Not modelled: `tensor_unary_outlier` (119-127) and `progerror_report`
(130-168), which only print.
-/

namespace Verif.Utils

open Verif

/-! ## Shapes -/

/-- A Python argument that is an `int` or a pair of `int`. -/
inductive Num2 where
  | num (n : ℤ)
  | tup (a b : ℤ)

/-- `num2tuple`, `kernel/utils.py:62-63`. -/
def num2tuple : Num2 → ℤ × ℤ
  | .num n => (n, n)
  | .tup a b => (a, b)

/-- A `pad` argument: an `int`, or a pair whose components are `int` or pairs. -/
inductive Pad where
  | num (n : ℤ)
  | tup (a b : Num2)

/-- `num2tuple(pad)` followed by `num2tuple(pad[0]), num2tuple(pad[1])`, `kernel/utils.py:68-69,79-80`. -/
def padTuple : Pad → (ℤ × ℤ) × (ℤ × ℤ)
  | .num n => (num2tuple (.num n), num2tuple (.num n))
  | .tup a b => (num2tuple a, num2tuple b)

/-- One axis of `conv2d_output_shape`, `kernel/utils.py:71-72`. -/
def convOutAxis (size : ℤ) (pad : ℤ × ℤ) (k s d : ℤ) : Except PyErr ℤ :=
  if s = 0 then .error .zeroDivision
  else .ok ⌊((size + (pad.1 + pad.2) - d * (k - 1) - 1 : ℤ) : ℚ) / s + 1⌋

/-- `conv2d_output_shape`, `kernel/utils.py:66-74`. -/
def conv2dOutputShape (hw k s : Num2) (pad : Pad) (d : Num2) : Except PyErr (ℤ × ℤ) := do
  let h ← convOutAxis (num2tuple hw).1 (padTuple pad).1 (num2tuple k).1 (num2tuple s).1 (num2tuple d).1
  let w ← convOutAxis (num2tuple hw).2 (padTuple pad).2 (num2tuple k).2 (num2tuple s).2 (num2tuple d).2
  pure (h, w)

/-- One axis of `convtransp2d_output_shape`, `kernel/utils.py:82-83`. -/
def convtOutAxis (size : ℤ) (pad : ℤ × ℤ) (k s d op : ℤ) : ℤ :=
  (size - 1) * s - (pad.1 + pad.2) + d * (k - 1) + op + 1

/-- `convtransp2d_output_shape`, `kernel/utils.py:77-85`. -/
def convtransp2dOutputShape (hw k s : Num2) (pad : Pad) (d op : Num2) : ℤ × ℤ :=
  (convtOutAxis (num2tuple hw).1 (padTuple pad).1 (num2tuple k).1 (num2tuple s).1 (num2tuple d).1 (num2tuple op).1,
   convtOutAxis (num2tuple hw).2 (padTuple pad).2 (num2tuple k).2 (num2tuple s).2 (num2tuple d).2 (num2tuple op).2)

/-- `(math.floor(p/2), math.ceil(p/2))`, `kernel/utils.py:95,105`. -/
def splitPad (p : ℚ) : ℤ × ℤ := (⌊p / 2⌋, ⌈p / 2⌉)

/-- One axis of `conv2d_get_padding`, `kernel/utils.py:92-93`. -/
def convPadAxis (inp out k s d : ℤ) : ℤ := (out - 1) * s - inp + d * (k - 1) + 1

/-- `conv2d_get_padding`, `kernel/utils.py:88-95`. -/
def conv2dGetPadding (hwIn hwOut k s d : Num2) : (ℤ × ℤ) × (ℤ × ℤ) :=
  (splitPad (convPadAxis (num2tuple hwIn).1 (num2tuple hwOut).1 (num2tuple k).1 (num2tuple s).1 (num2tuple d).1),
   splitPad (convPadAxis (num2tuple hwIn).2 (num2tuple hwOut).2 (num2tuple k).2 (num2tuple s).2 (num2tuple d).2))

/-- One axis of `convtransp2d_get_padding`, `kernel/utils.py:102-103` (halved here, and again by
`splitPad`). -/
def convtPadAxis (inp out k s d op : ℤ) : ℚ :=
  -((out - 1 - op - d * (k - 1) - (inp - 1) * s : ℤ) : ℚ) / 2

/-- `convtransp2d_get_padding`, `kernel/utils.py:98-105`. -/
def convtransp2dGetPadding (hwIn hwOut k s d op : Num2) : (ℤ × ℤ) × (ℤ × ℤ) :=
  (splitPad (convtPadAxis (num2tuple hwIn).1 (num2tuple hwOut).1 (num2tuple k).1 (num2tuple s).1 (num2tuple d).1
    (num2tuple op).1),
   splitPad (convtPadAxis (num2tuple hwIn).2 (num2tuple hwOut).2 (num2tuple k).2 (num2tuple s).2 (num2tuple d).2
    (num2tuple op).2))

/-- The result of the padding functions used as a `pad` argument. -/
def Pad.ofPair (p : (ℤ × ℤ) × (ℤ × ℤ)) : Pad := .tup (.tup p.1.1 p.1.2) (.tup p.2.1 p.2.2)

/-! ## Round -/

/-- `RoundSTE.forward`, `kernel/utils.py:181-182`; shifts of float tensors scale by powers of two. -/
def roundSTE (x : ℚ) (f : ℤ) (lo hi : ℚ) : ℚ := clamp lo hi (roundHE (x * (2 : ℚ) ^ f) : ℚ) / (2 : ℚ) ^ f

/-- `Round(intwidth, fracwidth).forward`, `kernel/utils.py:195-206`, elementwise. -/
def round (i f : ℤ) (x : ℚ) : ℚ := roundSTE x f (1 - (2 : ℚ) ^ (i + f)) ((2 : ℚ) ^ (i + f) - 1)

/-- `Round.forward` on an optional tensor, `kernel/utils.py:202-206`. -/
def roundT (i f : ℤ) : Option (List ℚ) → Option (List ℚ)
  | none => none
  | some l => some (l.map (round i f))

/-- `RoundSTE.backward`, `kernel/utils.py:186-188`: gradients of the four arguments. -/
def roundSTEBackward (g : ℚ) : ℚ × Option ℚ × Option ℚ × Option ℚ := (g, none, none, none)

/-! ## NN_SC_Weight_Clipper -/

/-- `torch.min` / `torch.max` of a tensor (an error on an empty one). -/
def tmin (w : List ℚ) : Except PyErr ℚ := match w.min? with
  | some m => .ok m
  | none => .error .runtime

/-- See `tmin`. -/
def tmax (w : List ℚ) : Except PyErr ℚ := match w.max? with
  | some m => .ok m
  | none => .error .runtime

/-- `w.sub_(torch.min(w)).div_(torch.max(w) - torch.min(w))`, `kernel/utils.py:39,49`.  The
subtraction happens in place before the divisor is evaluated.  A zero divisor gives `0/0`. -/
def normalise (w : List ℚ) : Except PyErr (List ℚ) := do
  let m ← tmin w
  let w1 := w.map (· - m)
  let hi ← tmax w1
  let lo ← tmin w1
  if hi - lo = 0 then .error .nonfinite else pure (w1.map (· / (hi - lo)))

/-- `mul_(s).round_().clamp_(lo, s).div_(s)`, `kernel/utils.py:40,43,50,53`. -/
def quant (lo s x : ℚ) : ℚ := clamp lo s (roundHE (x * s) : ℚ) / s

/-- `NN_SC_Weight_Clipper.clipping`, `kernel/utils.py:36-59`, with `scale = 2 ** bitwidth` (line 17). -/
def clipping (mode method : String) (bw : ℕ) (w : List ℚ) : Except PyErr (List ℚ) :=
  let scale : ℚ := 2 ^ bw
  if mode = "unipolar" then
    if method = "norm" then do
      let v ← normalise w
      pure (v.map (quant 0 scale))
    else if method = "clip" then .ok ((w.map (clamp 0 1)).map (quant 0 scale))
    else .error .type
  else if mode = "bipolar" then
    if method = "norm" then do
      let v ← normalise w
      pure ((v.map fun x => x * 2 - 1).map (quant (-scale / 2) (scale / 2)))
    else if method = "clip" then .ok ((w.map (clamp (-1) 1)).map (quant (-scale / 2) (scale / 2)))
    else .error .type
  else .error .type

/-- The attributes of a module the clipper looks at: a `weight` tensor or no such attribute; a
`bias` that is missing, `None`, or a tensor. -/
structure Mod where
  weight : Option (List ℚ)
  bias : Option (Option (List ℚ))

/-- Clipper object, `kernel/utils.py:11-17`. -/
structure Clipper where
  frequency : ℤ
  mode : String
  method : String
  bw : ℕ

/-- `NN_SC_Weight_Clipper.__call__`, `kernel/utils.py:19-34`.  When the call raises, the model drops
the partial in-place effect on the weight. -/
def Clipper.call (c : Clipper) (m : Mod) : Except PyErr (Clipper × Mod) := do
  let method := if c.frequency > 1 then "clip" else "norm"                -- lines 21-24
  let w ← match m.weight with                                             -- lines 26-28
    | none => pure none
    | some w => some <$> clipping c.mode method c.bw w
  let b ← match m.bias with                                               -- lines 30-32
    | none => pure none
    | some none => .error .attribute
    | some (some b) => (some ∘ some) <$> clipping c.mode method c.bw b
  pure ({ c with method := method, frequency := c.frequency + 1 }, ⟨w, b⟩)

/-- `model.apply(clipper)` over a list of modules, in order. -/
def Clipper.run (c : Clipper) : List Mod → Except PyErr (Clipper × List Mod)
  | [] => .ok (c, [])
  | m :: ms => do
      let (c1, m1) ← c.call m
      let (c2, ms2) ← Clipper.run c1 ms
      pure (c2, m1 :: ms2)

/-! ## truncated_normal -/

/-- `cond` of `kernel/utils.py:111` for one element. -/
def tnOut (mean std x : ℚ) : Prop := x < mean - 2 * std ∨ x > mean + 2 * std

instance (mean std x : ℚ) : Decidable (tnOut mean std x) := by unfold tnOut; infer_instance

/-- `t` before iteration `k` of the loop, `kernel/utils.py:109-113`: `draws j` is the tensor of the
`j`-th call of `normal_`. -/
def tnIter (mean std : ℚ) (draws : ℕ → List ℚ) : ℕ → List ℚ
  | 0 => draws 0
  | k + 1 => List.zipWith (fun x z => if tnOut mean std x then z else x) (tnIter mean std draws k) (draws (k + 1))

/-- `truncated_normal` returns `r` after `k` redraws, `kernel/utils.py:110-116`: every earlier
iteration found an element out of range, iteration `k` finds none. -/
def tnReturns (mean std : ℚ) (draws : ℕ → List ℚ) (k : ℕ) (r : List ℚ) : Prop :=
  (∀ j < k, ∃ x ∈ tnIter mean std draws j, tnOut mean std x) ∧
  (∀ x ∈ tnIter mean std draws k, ¬ tnOut mean std x) ∧ r = tnIter mean std draws k

/-! ## rshift_offset -/

/-- `scale.log2()` followed by the rounding named by `rounding`, `kernel/utils.py:219,226-236`, for a
positive scale.  The logarithm of a rational is never half-way between integers unless it is an
integer, so `round` is the integer nearest to `log2 x`, i.e. half the (floored) logarithm of `2 x²`.
An unknown `rounding` string leaves the logarithm unrounded: not modelled (`value` error). -/
def log2Rounded (rounding : String) (x : ℚ) : Except PyErr ℤ :=
  if x ≤ 0 then .error .nonfinite
  else if rounding = "round" then .ok (Int.log 2 (2 * x ^ 2) / 2)
  else if rounding = "floor" then .ok (Int.log 2 x)
  else if rounding = "ceil" then .ok (Int.clog 2 x)
  else .error .value

/-- `rshift_offset`, `kernel/utils.py:209-242`, from the two scales (the largest magnitude of the
quantile bounds, see `Gen.quantile`). -/
def rshiftOffset (scaleI scaleW : ℚ) (widthi widthw : ℤ) (rounding : String) : Except PyErr (ℤ × ℤ × ℤ) := do
  let im ← log2Rounded rounding scaleI
  let wm ← log2Rounded rounding scaleW
  pure (im - widthi, wm - widthw, max widthi widthw - im - wm)

end Verif.Utils
