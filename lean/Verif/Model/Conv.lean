import Verif.Model.Linear

/-!
# Model of `kernel/conv.py`

A tensor of shape `(N, C, H, W)` is a function of four natural indices together with its sizes; entries outside
the sizes are never read.  `reshape` and `view` keep the row-major storage order, which is modelled by going
through the flat index.  As in `kernel/linear.py`, data are exact rationals and bits exact integers.
-/

namespace Verif.Conv

open Verif Gen Linear

/-- Geometry of a layer: kernel, stride, padding and dilation of both axes (`num2tuple` of the constructor arguments),
`kernel/conv.py:19-29,117-127`. -/
structure Geo where
  kh : ℕ
  kw : ℕ
  sh : ℕ
  sw : ℕ
  ph : ℕ
  pw : ℕ
  dh : ℕ
  dw : ℕ

/-! ## Index arithmetic of `torch` -/

/-- Entry of an image at possibly negative coordinates, `v` outside: what `unfold` with padding (`v = 0`) and
`ConstantPad2d` (`v` constant) read. -/
def padGet {α : Type} (H W : ℕ) (v : α) (img : ℕ → ℕ → α) (y x : ℤ) : α :=
  if 0 ≤ y ∧ y < H ∧ 0 ≤ x ∧ x < W then img y.toNat x.toNat else v

/-- Number of sliding blocks of one axis in `torch.nn.functional.unfold`. -/
def blocks (size k s p d : ℕ) : ℤ := ((size : ℤ) + 2 * p - d * ((k : ℤ) - 1) - 1) / s + 1

/-- `torch.nn.functional.unfold(input, kernel_size, dilation, padding, stride)`, used in `kernel/conv.py:231,293,506,596,755`:
entry `(n, q, l)` of the result of shape `(N, C*kh*kw, OH*OW)`. -/
def unfold {α : Type} (g : Geo) (H W OW : ℕ) (v : α) (img : ℕ → ℕ → ℕ → ℕ → α) (n q l : ℕ) : α :=
  padGet H W v (img n (q / (g.kh * g.kw)))
    (((l / OW : ℕ) : ℤ) * g.sh + ((q / g.kw % g.kh : ℕ) : ℤ) * g.dh - g.ph)
    (((l % OW : ℕ) : ℤ) * g.sw + ((q % g.kw : ℕ) : ℤ) * g.dw - g.pw)

/-- `t.transpose(1, 2)`. -/
def transpose12 {α : Type} (f : ℕ → ℕ → ℕ → α) : ℕ → ℕ → ℕ → α := fun a b c => f a c b

/-- Row-major storage of a contiguous tensor of shape `(_, d1, d2)`. -/
def flat3 {α : Type} (d1 d2 : ℕ) (f : ℕ → ℕ → ℕ → α) : ℕ → α := fun i => f (i / (d1 * d2)) (i / d2 % d1) (i % d2)

/-- Row-major storage of a contiguous tensor of shape `(_, d1)`. -/
def flat2 {α : Type} (d1 : ℕ) (f : ℕ → ℕ → α) : ℕ → α := fun i => f (i / d1) (i % d1)

/-- Row-major storage of a contiguous tensor of shape `(_, d1, d2, d3)`. -/
def flat4 {α : Type} (d1 d2 d3 : ℕ) (f : ℕ → ℕ → ℕ → ℕ → α) : ℕ → α :=
  fun i => f (i / (d1 * d2 * d3)) (i / (d2 * d3) % d1) (i / d3 % d2) (i % d3)

/-- View of a storage as shape `(_, d1)`. -/
def view2 {α : Type} (d1 : ℕ) (s : ℕ → α) : ℕ → ℕ → α := fun r k => s (r * d1 + k)

/-- View of a storage as shape `(_, d1, d2)`. -/
def view3 {α : Type} (d1 d2 : ℕ) (s : ℕ → α) : ℕ → ℕ → ℕ → α := fun a b c => s ((a * d1 + b) * d2 + c)

/-- `unfold(...)`, `transpose(1, 2)`, `reshape(-1, input_transpose.size()[-1])`, `kernel/conv.py:231-233,293-295,506-508,596-598,755-757`:
the rows, one per batch entry and block.  `unfold` raises when there is no block. -/
def im2col {α : Type} (g : Geo) (N C H W : ℕ) (v : α) (img : ℕ → ℕ → ℕ → ℕ → α) :
    Except PyErr (List (Fin (C * g.kh * g.kw) → α)) :=
  let oh := blocks H g.kh g.sh g.ph g.dh
  let ow := blocks W g.kw g.sw g.pw g.dw
  if oh < 1 ∨ ow < 1 then .error .runtime else
    let K := C * g.kh * g.kw
    let L := oh.toNat * ow.toNat
    let m := view2 K (flat3 L K (transpose12 (unfold g H W ow.toNat v img)))
    .ok (List.ofFn fun (r : Fin (N * L)) (q : Fin K) => m r q)

/-- `reshape(N, -1, O)`, `transpose(1, 2)`, `fold(..., output_size, (1, 1))`, `kernel/conv.py:250-252,312-314,512-514,602-604,772-774`:
the output tensor.  The last step raises when the number of blocks is not that of `output_size`. -/
def col2im {α : Type} [Inhabited α] {O : ℕ} (N : ℕ) (outSize : ℤ × ℤ) (rows : List (Fin O → α)) :
    Except PyErr (ℕ → ℕ → ℕ → ℕ → α) :=
  if N = 0 ∨ O = 0 ∨ rows.length % N ≠ 0 then .error .runtime else
    let L := rows.length / N
    if (L : ℤ) ≠ outSize.1 * outSize.2 then .error .runtime else
      let m := fun (r o : ℕ) => if h : o < O then ((rows[r]?).map fun row => row ⟨o, h⟩).getD default else default
      let t := transpose12 (view3 L O (flat2 O m))
      .ok fun n o y x => t n o (y * outSize.2.toNat + x)

/-- `self.weight.view(self.weight.size()[0], -1)`, `kernel/conv.py:202,510,600,759`. -/
def viewWeight {α : Type} (g : Geo) (C O : ℕ) (w : ℕ → ℕ → ℕ → ℕ → α) : Fin O → Fin (C * g.kh * g.kw) → α :=
  fun o q => view2 (C * g.kh * g.kw) (flat4 C g.kh g.kw w) o q

/-- All entries of an input tensor, as rows of one batch entry each (`rshift_offset` only looks at the collection of
values). -/
def entries {α : Type} (N C H W : ℕ) (img : ℕ → ℕ → ℕ → ℕ → α) : List (Fin (C * H * W) → α) :=
  List.ofFn fun (n : Fin N) (q : Fin (C * H * W)) => view2 (C * H * W) (flat4 C H W img) n q

/-- `conv2d_output_shape((input.size()[2], input.size()[3]), ...)`, `kernel/conv.py:220,282,504,593,752`, with integer (or
per-axis) padding. -/
def outSize (g : Geo) (H W : ℕ) : Except PyErr (ℤ × ℤ) :=
  Utils.conv2dOutputShape (.tup H W) (.tup g.kh g.kw) (.tup g.sh g.sw) (.tup (.num g.ph) (.num g.pw)) (.tup g.dh g.dw)

/-- `output + self.bias.view([1, O, 1, 1])`, `kernel/conv.py:516-519,606-609,776-779`. -/
def addBias4 {O : ℕ} (bias : Option (Fin O → ℚ)) (f : ℕ → ℕ → ℕ → ℕ → ℚ) : ℕ → ℕ → ℕ → ℕ → ℚ := match bias with
  | none => f
  | some b => fun n o y x => f n o y x + (if h : o < O then b ⟨o, h⟩ else 0)

/-! ## FXPConv2d, HUBConv2d, TLUTConv2d -/

/-- `FXPConv2d.forward`, `kernel/conv.py:584-609`. -/
def fxpConv {O : ℕ} (g : Geo) (N C H W widthi widthw : ℕ) (qi qw : ℚ) (rounding : String) (w : ℕ → ℕ → ℕ → ℕ → ℚ)
    (bias : Option (Fin O → ℚ)) (img : ℕ → ℕ → ℕ → ℕ → ℚ) : Except PyErr (ℕ → ℕ → ℕ → ℕ → ℚ) := do
  let wt : Fin O → Fin (C * g.kh * g.kw) → ℚ := viewWeight g C O w
  let (rsi, rsw, _) ← rshift (entries N C H W img) wt ((widthi : ℤ) - 1) ((widthw : ℤ) - 1) rounding.toLower qi qw  -- 587-588
  let rso := 0 - rsi - rsw                                                                          -- line 589
  let os ← outSize g H W                                                                            -- line 593
  let rows ← im2col g N C H W 0 img                                                                 -- lines 596-598
  let mm := rows.map fun row (o : Fin O) => fxpForward rsi rsw rso (2 ^ widthi) (2 ^ widthw) row (wt o) none  -- line 601
  let out ← col2im N os mm                                                                          -- lines 602-604
  pure (addBias4 bias out)                                                                          -- lines 606-609

/-- `HUBConv2d.forward`, `kernel/conv.py:496-519`. -/
def hubConv {O : ℕ} (h : Hub) (g : Geo) (N C H W : ℕ) (w : ℕ → ℕ → ℕ → ℕ → ℚ)
    (bias : Option (Fin O → ℚ)) (img : ℕ → ℕ → ℕ → ℕ → ℚ) : Except PyErr (ℕ → ℕ → ℕ → ℕ → ℚ) := do
  let wt : Fin O → Fin (C * g.kh * g.kw) → ℚ := viewWeight g C O w
  let (rsi, rsw, rso) ← rshift (entries N C H W img) wt ((h.widthi : ℤ) - 1) ((h.widthw : ℤ) - 1) h.rounding
    h.quantilei h.quantilew                                                                         -- lines 499-500
  let os ← outSize g H W                                                                            -- line 504
  let rows ← im2col g N C H W 0 img                                                                 -- lines 506-508
  let mm := rows.map fun row (o : Fin O) => hubForward rsi rsw rso (hubCycleMax h.widthi h.widthw) h.cycle h.table row (wt o) none  -- line 511
  let out ← col2im N os mm                                                                          -- lines 512-514
  pure (addBias4 bias out)                                                                          -- lines 516-519

/-- `TLUTConv2d.forward`, `kernel/conv.py:749-779`: unlike the two layers above, the shifts are computed from the unfolded
rows. -/
def tlutConv {O : ℕ} (c : Tlut) (g : Geo) (N C H W : ℕ) (w : ℕ → ℕ → ℕ → ℕ → ℚ)
    (bias : Option (Fin O → ℚ)) (img : ℕ → ℕ → ℕ → ℕ → ℚ) : Except PyErr (ℕ → ℕ → ℕ → ℕ → ℚ) := do
  let wt : Fin O → Fin (C * g.kh * g.kw) → ℚ := viewWeight g C O w                                  -- line 759
  let os ← outSize g H W                                                                            -- line 752
  let rows ← im2col g N C H W 0 img                                                                 -- lines 755-757
  let mm ← c.forward wt none rows                                                                   -- lines 761-771
  let out ← col2im N os mm                                                                          -- lines 772-774
  pure (addBias4 bias out)                                                                          -- lines 776-779

/-! ## FSUConv2dPC and FSUConv2d -/

/-- The `padding` argument as given: an integer or a pair. -/
inductive PadArg where
  | num (p : ℕ)
  | pair (a b : ℕ)

/-- The image size after `ConstantPad2d(padding, value)`, `kernel/conv.py:215-216`: an integer pads all four sides, a pair
only the left and right sides (`F.pad` consumes pairs from the last dimension). -/
def PadArg.sides : PadArg → (ℕ × ℕ) × (ℕ × ℕ)
  | .num p => ((p, p), (p, p))
  | .pair a b => ((0, 0), (a, b))

/-- `ConstantPad2d(padding, v)(input)` as a tensor of the enlarged size. -/
def constPad {α : Type} (p : PadArg) (H W : ℕ) (v : α) (img : ℕ → ℕ → ℕ → ℕ → α) : ℕ → ℕ → ℕ → ℕ → α :=
  fun n c y x => padGet H W v (img n c) ((y : ℤ) - p.sides.1.1) ((x : ℤ) - p.sides.2.1)

/-- `num2tuple(padding)` as used by `conv2d_output_shape`, `kernel/conv.py:220`. -/
def PadArg.perAxis : PadArg → ℕ × ℕ
  | .num p => (p, p)
  | .pair a b => (a, b)

/-- `FSUConv2dPC.__init__`, `kernel/conv.py:134-217`: the row counter of the flattened weight (`BinGen` is element-wise, so
it commutes with `view`). -/
def mkConvPC {O : ℕ} (env : Env) (g : Geo) (C : ℕ) (mode : String) (width : ℕ) (rngName : String) (w : ℕ → ℕ → ℕ → ℕ → ℚ)
    (bias : Bool) (biasExt : Option (Fin O → ℚ)) : Except PyErr (PC (C * g.kh * g.kw) O) :=
  mkPC env mode width rngName (viewWeight g C O w) bias biasExt

/-- Padding and unfolding, a row operation with state `σ`, and folding, `kernel/conv.py:220-233,250-252` and
`282-295,312-314`.  The `Bool` is `even_cycle_flag`: padding bit 0 when it is set, else 1; it becomes
`bipolar_mode ^ even_cycle_flag`. -/
def convWrap {σ : Type} {O : ℕ} (g : Geo) (p : PadArg) (N C H W : ℕ) (mode : Mode)
    (inner : σ → List (Fin (C * g.kh * g.kw) → ℤ) → Except PyErr (σ × List (Fin O → ℤ)))
    (s : σ × Bool) (img : ℕ → ℕ → ℕ → ℕ → ℤ) : Except PyErr ((σ × Bool) × (ℕ → ℕ → ℕ → ℕ → ℤ)) := do
  let os ← outSize { g with ph := p.perAxis.1, pw := p.perAxis.2 } H W                          -- line 220
  let v : ℤ := if s.2 then 0 else 1                                                             -- lines 222-225
  let even' := decide (mode = .bipolar) ^^ s.2                                                  -- line 228
  let rows ← im2col { g with ph := 0, pw := 0 } N C (H + p.sides.1.1 + p.sides.1.2) (W + p.sides.2.1 + p.sides.2.2) 0
    (constPad p H W v img)                                                                      -- lines 231-233
  let (s', out) ← inner s.1 rows
  let f ← col2im N os out                                                                       -- lines 250-252
  pure ((s', even'), f)

/-- `FSUConv2dPC.forward`, `kernel/conv.py:219-343`, both codings: the row products and the bias are those of
`FSULinearPC` with one row per batch entry and block (the bias is added after folding, which is the same). -/
def stepConvPC {O : ℕ} (g : Geo) (p : PadArg) (N C H W : ℕ) (c : PC (C * g.kh * g.kw) O)
    (s : PCSt (C * g.kh * g.kw) O × Bool) (img : ℕ → ℕ → ℕ → ℕ → ℤ) :
    Except PyErr ((PCSt (C * g.kh * g.kw) O × Bool) × (ℕ → ℕ → ℕ → ℕ → ℤ)) :=
  convWrap g p N C H W c.mode (stepPC c) s img

/-- State after construction, `kernel/conv.py:200-217`: the flag starts `True`. -/
def initConvPC (K O : ℕ) : PCSt K O × Bool := (PCSt.init K O, true)

/-- `FSUConv2d.__init__`, `kernel/conv.py:46-95`: as `FSULinear` with `prod(kernel_size) * in_channels` inputs. -/
def mkConv {O : ℕ} (env : Env) (g : Geo) (C : ℕ) (mode : String) (width : ℕ) (rngName : String) (depth : ℤ) (scale : Option ℚ)
    (w : ℕ → ℕ → ℕ → ℕ → ℚ) (bias : Bool) (biasExt : Option (Fin O → ℚ)) :
    Except PyErr (PC (C * g.kh * g.kw) O × Adder.Cfg) :=
  mkLinear env mode width rngName depth scale (viewWeight g C O w) bias biasExt

/-- Arguments of `FSUConv2d.forward`, `kernel/conv.py:98`. -/
structure ConvArg where
  img : ℕ → ℕ → ℕ → ℕ → ℤ
  scale : Option ℚ := none
  entry : Option ℚ := none

/-- `FSUConv2d.forward`, `kernel/conv.py:97-101`.  `FSUAdd` is element-wise on the folded counts, so it is applied to the
rows before folding. -/
def stepConv {O : ℕ} (g : Geo) (p : PadArg) (N C H W : ℕ) (m : PC (C * g.kh * g.kw) O × Adder.Cfg)
    (s : (PCSt (C * g.kh * g.kw) O × List (Fin O → Adder.St)) × Bool) (a : ConvArg) :
    Except PyErr (((PCSt (C * g.kh * g.kw) O × List (Fin O → Adder.St)) × Bool) × (ℕ → ℕ → ℕ → ℕ → ℤ)) :=
  convWrap g p N C H W m.1.mode (fun s rows => stepLinear m s ⟨rows, a.scale, a.entry⟩) s a.img

/-- State after construction, `kernel/conv.py:62-95`. -/
def initConv {K O : ℕ} (m : PC K O × Adder.Cfg) : (PCSt K O × List (Fin O → Adder.St)) × Bool := (initLinear m, true)

end Verif.Conv
