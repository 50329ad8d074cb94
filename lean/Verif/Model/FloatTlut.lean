import Verif.Model.FloatLin

/-!
# Look-up layers and gradients executed in binary32

`TLUTLinear`, `TLUTConv2d` and the `backward` functions of `Verif.Model.Linear` with the arithmetic of `Verif.Model.Float`; conventions as in
`Verif.Model.FloatLin`.  `.type(dtype)` is the identity for float tensors, the only ones modelled.
-/

namespace Verif.Float

open Verif Linear

/-- `x << b` on floats: multiplication by the float `2**b`. -/
def lshiftF (x : ℚ) (b : ℤ) : ℚ := fmul x (fl ((2:ℚ) ^ b))

/-- The digit loop, `kernel/linear.py:789-794,799-804,857-862,869-874,933-938`; `torch.frac` subtracts the integer part. -/
def tlutLoopF (t cyc : ℕ) : ℕ → ℚ × ℚ → ℚ × ℚ
  | 0, p => p
  | n + 1, p =>
      let v1 := shiftF p.1 t                                                        -- value >> widtht
      let fr := fsub v1 (truncZ v1)                                                 -- torch.frac
      let f := clamp (fl (-(cyc : ℚ) + 1)) (fl ((cyc : ℚ) - 1)) (lshiftF fr t)      -- clamp(frac << widtht)
      tlutLoopF t cyc n ((truncZ v1 : ℚ), fadd (shiftF f t) (shiftF p.2 t))

/-- `trunc((x >> rshift).clamp(-2**width+1, 2**width-1))`, `kernel/linear.py:784-785,856,868`. -/
def tlutQuantF (width : ℕ) (rs : ℤ) (x : ℚ) : ℤ :=
  truncZ (clamp (fl (-(2:ℚ) ^ width + 1)) (fl ((2:ℚ) ^ width - 1)) (shiftF x rs))

/-- A temporal coded fixed-point operand, `kernel/linear.py:788-795,798-806,854-863,865-875`. -/
def tlutFxpF (width t cyc : ℕ) (rs : ℤ) (x : ℚ) : ℚ :=
  lshiftF (tlutLoopF t cyc (tlutDegree width t) ((tlutQuantF width rs x : ℚ), 0)).2 (tlutDelta width t + width + rs)

/-- The other fixed-point operand, `kernel/linear.py:785,796,805`. -/
def tlutPlainF (width : ℕ) (rs : ℤ) (x : ℚ) : ℚ := lshiftF (tlutQuantF width rs x) rs

/-- A temporal coded floating-point operand, `kernel/linear.py:921-947`; `torch.frexp` is exact, and `torch.ldexp(m, e)` multiplies by
the float `2**e` (which overflows for magnitudes from `2^127` on; overflow is not modelled). -/
def tlutFpF (width t cyc : ℕ) (x : ℚ) : ℚ :=
  let (m, e) := frexp x
  lshiftF (lshiftF (tlutLoopF t cyc (tlutDegree width t) (lshiftF m width, 0)).2 (tlutDelta width t)) e

/-- The operands of the product, `kernel/linear.py:752-764` with lines 782-806, 851-876 and 919-947. -/
def tlutOperandsF {I O : ℕ} (lg : ℚ → ℚ) (c : Tlut) (w : Fin O → Fin I → ℚ) (x : List (Fin I → ℚ))
    (sc : List ℚ → ℚ → Except PyErr ℚ := qscale) :
    Except PyErr ((ℚ → ℚ) × (ℚ → ℚ)) :=
  let width := if c.temporalI then tlutWidth c.formati c.widthi else tlutWidth c.formatw c.widthw
  let cyc := tlutCycle c.t c.cycle
  if c.formati = .fxp ∧ c.formatw = .fxp then do                                              -- fxpfxp
    let (rsi, rsw, _) ← rshiftF lg x w ((c.widthi : ℤ) - 1) ((c.widthw : ℤ) - 1) c.rounding c.quantilei c.quantilew sc
    if c.temporalI then
      pure (tlutFxpF (c.widthi - 1) c.t cyc rsi, tlutPlainF (c.widthw - 1) rsw)
    else
      pure (tlutPlainF (c.widthi - 1) rsi, tlutFxpF (c.widthw - 1) c.t cyc rsw)
  else if c.formati ≠ .fxp ∧ c.formatw ≠ .fxp then                                            -- fpfp
    if c.temporalI then .ok (tlutFpF width c.t cyc, id) else .ok (id, tlutFpF width c.t cyc)
  else do                                                                                    -- fxpfp
    let (rsi, rsw, _) ← rshiftF lg x w width width c.rounding c.quantilei c.quantilew sc
    if c.temporalI then pure (tlutFxpF width c.t cyc rsi, id) else pure (id, tlutFxpF width c.t cyc rsw)

/-- `r` is a result `TLUTLinear.forward` may give, `kernel/linear.py:752-764,808-812,878-882,949-953`. -/
def TlutLinearF {I O : ℕ} (lg : ℚ → ℚ) (c : Tlut) (w : Fin O → Fin I → ℚ) (bias : Option (Fin O → ℚ)) (x : List (Fin I → ℚ))
    (r : Except PyErr (List (Fin O → ℚ))) (sc : List ℚ → ℚ → Except PyErr ℚ := qscale) : Prop :=
  match tlutOperandsF lg c w x sc with
  | .error e => r = .error e
  | .ok (fi, fw) => ∃ out, r = .ok out ∧
      List.Forall₂ (fun row (y : Fin O → ℚ) => ∀ o, ∃ v, FDot (List.ofFn fun i => (fi (row i), fw (w o i))) v ∧
        y o = addBiasF v (bias.map fun b => b o)) x out

/-- `r` is a result `TLUTConv2d.forward` may give, `kernel/conv.py:749-779`. -/
def TlutConvF {O : ℕ} (lg : ℚ → ℚ) (c : Tlut) (g : Conv.Geo) (N C H W : ℕ) (w : ℕ → ℕ → ℕ → ℕ → ℚ)
    (bias : Option (Fin O → ℚ)) (img : ℕ → ℕ → ℕ → ℕ → ℚ) (r : Except PyErr (ℕ → ℕ → ℕ → ℕ → ℚ))
    (sc : List ℚ → ℚ → Except PyErr ℚ := qscale) : Prop :=
  match Conv.outSize g H W with                                                               -- line 752
  | .error e => r = .error e
  | .ok os => match Conv.im2col g N C H W 0 img with                                          -- lines 755-757
    | .error e => r = .error e
    | .ok rows => ∃ mm, TlutLinearF lg c (Conv.viewWeight g C O w) none rows mm sc ∧          -- lines 759-771
        r = mm >>= fun m => (Conv.col2im N os m).map (addBias4F bias)                         -- lines 772-779

/-- `r` are gradients `backward` may give, `kernel/linear.py:484-504,610-630,816-836,886-906,957-977`. -/
def BackwardF {B I O : ℕ} (x : Fin B → Fin I → ℚ) (w : Fin O → Fin I → ℚ) (hasBias : Bool)
    (needs : Bool × Bool × Bool) (g : Fin B → Fin O → ℚ) (r : Grads B I O) : Prop :=
  (if needs.1 then ∃ G, r.input = some G ∧ ∀ n i, FDot (List.ofFn fun o => (g n o, w o i)) (G n i) else r.input = none) ∧
  (if needs.2.1 then ∃ G, r.weight = some G ∧ ∀ o i, FDot (List.ofFn fun n => (g n o, x n i)) (G o i) else r.weight = none) ∧
  (if hasBias && needs.2.2 then ∃ G, r.bias = some G ∧ ∀ o, FSum (List.ofFn fun n => g n o) (G o) else r.bias = none)

end Verif.Float
