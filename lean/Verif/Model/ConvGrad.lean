import Verif.Model.Conv

/-!
# Gradients of the convolution layers of `kernel/conv.py`

`HUBConv2d`, `FXPConv2d` and `TLUTConv2d` wrap the `backward` of `kernel/linear.py` between `unfold`, `transpose`, `reshape`,
`view` and `fold`, which `torch` differentiates itself.  Those steps copy or add entries, and their derivative is taken
to be the adjoint index map (`torch` is not part of /repo).
-/

namespace Verif.Conv

open Verif Linear

/-- Derivative of `fold(·, output_size, (1, 1))`, `transpose(1, 2)` and `reshape(N, -1, O)`, `kernel/conv.py:512-514,602-604,772-774`:
the gradient of the rows for an output gradient `G`. -/
def gradRows (O L OW : ℕ) (G : ℕ → ℕ → ℕ → ℕ → ℚ) : ℕ → ℕ → ℚ :=
  view2 O (flat3 L O (transpose12 fun n o l => G n o (l / OW) (l % OW)))

/-- Derivative of `reshape(-1, K)` and `transpose(1, 2)`, `kernel/conv.py:507-508,597-598,756-757`: from rows to shape
`(N, K, L)`. -/
def gradBlocks (L K : ℕ) (gi : ℕ → ℕ → ℚ) : ℕ → ℕ → ℕ → ℚ := transpose12 (view3 L K (flat2 K gi))

/-- Derivative of `unfold(input, kernel_size, dilation, padding, stride)`, `kernel/conv.py:506,596,755`: every pixel
collects the entries of all blocks that were copied from it. -/
def gradUnfold (g : Geo) (K L OW : ℕ) (gb : ℕ → ℕ → ℕ → ℚ) (n c y x : ℕ) : ℚ :=
  ∑ l ∈ Finset.range L, ∑ q ∈ Finset.range K,
    if q / (g.kh * g.kw) = c ∧ (y : ℤ) = ((l / OW : ℕ) : ℤ) * g.sh + ((q / g.kw % g.kh : ℕ) : ℤ) * g.dh - g.ph ∧
      (x : ℤ) = ((l % OW : ℕ) : ℤ) * g.sw + ((q % g.kw : ℕ) : ℤ) * g.dw - g.pw then gb n q l else 0

/-- The gradients that arrive at the input, `self.weight` and `self.bias`; `None` where none is asked for. -/
structure ConvGrads (O : ℕ) where
  input : Option (ℕ → ℕ → ℕ → ℕ → ℚ)
  weight : Option (ℕ → ℕ → ℕ → ℕ → ℚ)
  bias : Option (Fin O → ℚ)

/-- Backward pass of `HUBConv2d.forward`, `FXPConv2d.forward` and `TLUTConv2d.forward`, `kernel/conv.py:496-519,584-609,749-779`, for an
output gradient `G` of shape `(N, O, OH, OW)`.  The linear function gets no bias (lines 511, 601, 761-771); the bias is added by
broadcasting at the end (lines 516-519, 606-609, 776-779), whose derivative sums over the other axes. -/
def convBackward {O : ℕ} (g : Geo) (N C H W : ℕ) (w img : ℕ → ℕ → ℕ → ℕ → ℚ) (hasBias : Bool) (needs : Bool × Bool × Bool)
    (G : ℕ → ℕ → ℕ → ℕ → ℚ) : Except PyErr (ConvGrads O) := do
  let os ← outSize g H W
  let rows ← im2col g N C H W 0 img
  let K := C * g.kh * g.kw
  let OH := os.1.toNat
  let OW := os.2.toNat
  let L := OH * OW
  let r := backward (B := rows.length) (fun i => rows.get i) (viewWeight g C O w) false (needs.1, needs.2.1, false)
    (fun i o => gradRows O L OW G i o)                                              -- `backward` of `kernel/linear.py`
  pure {
    input := r.input.map fun gi => gradUnfold g K L OW (gradBlocks L K fun i q =>
      if h : i < rows.length ∧ q < K then gi ⟨i, h.1⟩ ⟨q, h.2⟩ else 0)
    weight := r.weight.map fun gw => fun o c i j =>                                 -- derivative of `view(O, -1)`
      let s := flat2 K fun o q => if h : o < O ∧ q < K then gw ⟨o, h.1⟩ ⟨q, h.2⟩ else 0
      s (((o * C + c) * g.kh + i) * g.kw + j)
    bias := if hasBias && needs.2.2 then
      some fun o => ∑ n ∈ Finset.range N, ∑ y ∈ Finset.range OH, ∑ x ∈ Finset.range OW, G n o y x else none }

end Verif.Conv
