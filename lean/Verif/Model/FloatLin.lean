import Verif.Model.Float
import Verif.Model.Linear
import Verif.Model.Conv

/-!
# Quantised layers executed in binary32

`FXPLinear`, `HUBLinear`, `FXPConv2d` and `HUBConv2d` of `Verif.Model.Linear` and `Verif.Model.Conv` with the arithmetic of `Verif.Model.Float`.  `torch.matmul` may add the products in
any order and grouping and may fuse a product with an addition, so results are given by relations.  `torch.log2` is a library function
without a guarantee of its last bits: it is the parameter `lg`.  The scale measured on the data is the function `sc`; it defaults to the
exact quantile, and `Verif.Model.FloatQuant` says which scales binary32 may measure (at quantile one, only the exact one).
-/

namespace Verif.Float

open Verif Linear

/-- A result `torch.matmul` may return for one row and one column, given as the list of their pairs of entries. -/
inductive FDot : List (ℚ × ℚ) → ℚ → Prop
  | nil : FDot [] 0
  | one (p : ℚ × ℚ) : FDot [p] (fmul p.1 p.2)
  | perm {l l' : List (ℚ × ℚ)} {v : ℚ} (h : l.Perm l') (hl : FDot l v) : FDot l' v
  | add {l l' : List (ℚ × ℚ)} {v v' : ℚ} (h : FDot l v) (h' : FDot l' v') : FDot (l ++ l') (fadd v v')
  | fma {l : List (ℚ × ℚ)} {v : ℚ} (p : ℚ × ℚ) (h : FDot l v) : FDot (p :: l) (fl (p.1 * p.2 + v))

/-- `x >> b` on floats: division by the float `2**b`. -/
def shiftF (x : ℚ) (b : ℤ) : ℚ := fdiv x (fl ((2:ℚ) ^ b))

/-- `output += bias` if there is one, `kernel/linear.py:478-479,604-605`. -/
def addBiasF (y : ℚ) : Option ℚ → ℚ
  | none => y
  | some b => fadd y b

/-! ## rshift_offset -/

/-- `scale.log2()` and the rounding named by `rounding`, `kernel/utils.py:219,226-236`. -/
def log2RoundedF (lg : ℚ → ℚ) (rounding : String) (s : ℚ) : Except PyErr ℤ :=
  if s ≤ 0 then .error .nonfinite
  else if rounding = "round" then .ok (roundHE (lg s))
  else if rounding = "floor" then .ok ⌊lg s⌋
  else if rounding = "ceil" then .ok ⌈lg s⌉
  else .error .value

/-- `rshift_offset`, `kernel/utils.py:209-242`; the shifts are small integers, so the subtractions are exact. -/
def rshiftF {I J O : ℕ} (lg : ℚ → ℚ) (x : List (Fin I → ℚ)) (w : Fin O → Fin J → ℚ) (widthi widthw : ℤ) (rounding : String)
    (qi qw : ℚ) (sc : List ℚ → ℚ → Except PyErr ℚ := qscale) : Except PyErr (ℤ × ℤ × ℤ) := do
  let si ← sc (flat x) qi
  let sw ← sc (flat (List.ofFn w)) qw
  let im ← log2RoundedF lg rounding si
  let wm ← log2RoundedF lg rounding sw
  pure (im - widthi, wm - widthw, max widthi widthw - im - wm)

/-! ## FXPLinear -/

/-- `clamp(round(x >> rshift), 1 - max_abs, max_abs - 1)`, `kernel/linear.py:584-588,594-598`. -/
def fxpRoundF (maxAbs : ℤ) (rs : ℤ) (x : ℚ) : ℚ :=
  clamp (fl ((1 - maxAbs : ℤ) : ℚ)) (fl ((maxAbs - 1 : ℤ) : ℚ)) ((roundHE (shiftF x rs) : ℤ) : ℚ)

/-- `y` is an output `FXPLinearFunction.forward` may give, `kernel/linear.py:572-606`. -/
def FxpOut {I : ℕ} (rsi rsw rso maxi maxw : ℤ) (x w : Fin I → ℚ) (bias : Option ℚ) (y : ℚ) : Prop :=
  ∃ v, FDot (List.ofFn fun i => (fxpRoundF maxi rsi (x i), fxpRoundF maxw rsw (w i))) v ∧
    y = addBiasF (shiftF v rso) bias                                                      -- lines 602-605

/-- `r` is a result `FXPLinear.forward` may give, `kernel/linear.py:557-563`. -/
def FxpLinearF {I O : ℕ} (lg : ℚ → ℚ) (widthi widthw : ℕ) (qi qw : ℚ) (rounding : String) (w : Fin O → Fin I → ℚ)
    (bias : Option (Fin O → ℚ)) (x : List (Fin I → ℚ)) (r : Except PyErr (List (Fin O → ℚ)))
    (sc : List ℚ → ℚ → Except PyErr ℚ := qscale) : Prop :=
  match rshiftF lg x w ((widthi : ℤ) - 1) ((widthw : ℤ) - 1) rounding.toLower qi qw sc with
  | .error e => r = .error e
  | .ok (rsi, rsw, _) => ∃ out, r = .ok out ∧
      List.Forall₂ (fun row (y : Fin O → ℚ) =>
        ∀ o, FxpOut rsi rsw (0 - rsi - rsw) (2 ^ widthi) (2 ^ widthw) row (w o) (bias.map fun b => b o) (y o)) x out

/-! ## HUBLinear -/

/-- Magnitude of an operand, `kernel/linear.py:447-448,460-461`: the rounding is done in floats, the rest in integers. -/
def hubMagF (cycle : ℕ) (rs : ℤ) (x : ℚ) : ℤ := clamp 0 ((cycle : ℤ) - 1) |roundHE (shiftF x rs)|

/-- `y` is an output `HUBLinearFunction.forward` may give, `kernel/linear.py:446-480`. -/
def HubOut {I : ℕ} (rsi rsw rso : ℤ) (cm cycle : ℕ) (table : ℕ → ℕ → ℤ) (x w : Fin I → ℚ) (bias : Option ℚ) (y : ℚ) : Prop :=
  ∃ v, FDot (List.ofFn fun i => (sgn (x i),
      fmul (fl (table (pyIdx cm (hubMagF cycle rsi (x i))) (pyIdx cm (hubMagF cycle rsw (w i))))) (sgn (w i)))) v ∧
    y = addBiasF (shiftF v rso) bias

/-- `r` is a result `HUBLinear.forward` may give, `kernel/linear.py:413-420`. -/
def HubLinearF {I O : ℕ} (lg : ℚ → ℚ) (h : Hub) (w : Fin O → Fin I → ℚ) (bias : Option (Fin O → ℚ)) (x : List (Fin I → ℚ))
    (r : Except PyErr (List (Fin O → ℚ))) (sc : List ℚ → ℚ → Except PyErr ℚ := qscale) : Prop :=
  match rshiftF lg x w ((h.widthi : ℤ) - 1) ((h.widthw : ℤ) - 1) h.rounding h.quantilei h.quantilew sc with
  | .error e => r = .error e
  | .ok (rsi, rsw, rso) => ∃ out, r = .ok out ∧
      List.Forall₂ (fun row (y : Fin O → ℚ) =>
        ∀ o, HubOut rsi rsw rso (hubCycleMax h.widthi h.widthw) h.cycle h.table row (w o) (bias.map fun b => b o) (y o)) x out

/-! ## FXPConv2d, HUBConv2d -/

/-- `output + self.bias.view([1, O, 1, 1])`, `kernel/conv.py:516-519,606-609`. -/
def addBias4F {O : ℕ} (bias : Option (Fin O → ℚ)) (f : ℕ → ℕ → ℕ → ℕ → ℚ) : ℕ → ℕ → ℕ → ℕ → ℚ := match bias with
  | none => f
  | some b => fun n o y x => fadd (f n o y x) (if h : o < O then b ⟨o, h⟩ else 0)

/-- The steps common to both: unfold, some result of the layer function, fold (which only copies, the kernel being 1x1) and bias,
`kernel/conv.py:504-519,593-609`. -/
def ConvF {O : ℕ} (g : Conv.Geo) (N C H W : ℕ) (bias : Option (Fin O → ℚ)) (img : ℕ → ℕ → ℕ → ℕ → ℚ)
    (R : (Fin (C * g.kh * g.kw) → ℚ) → Fin O → ℚ → Prop) (r : Except PyErr (ℕ → ℕ → ℕ → ℕ → ℚ)) : Prop :=
  match Conv.outSize g H W with
  | .error e => r = .error e
  | .ok os => match Conv.im2col g N C H W 0 img with
    | .error e => r = .error e
    | .ok rows => ∃ mm, List.Forall₂ (fun row (y : Fin O → ℚ) => ∀ o, R row o (y o)) rows mm ∧
        r = (Conv.col2im N os mm).map (addBias4F bias)

/-- `r` is a result `FXPConv2d.forward` may give, `kernel/conv.py:584-609`. -/
def FxpConvF {O : ℕ} (lg : ℚ → ℚ) (g : Conv.Geo) (N C H W widthi widthw : ℕ) (qi qw : ℚ) (rounding : String)
    (w : ℕ → ℕ → ℕ → ℕ → ℚ) (bias : Option (Fin O → ℚ)) (img : ℕ → ℕ → ℕ → ℕ → ℚ)
    (r : Except PyErr (ℕ → ℕ → ℕ → ℕ → ℚ)) (sc : List ℚ → ℚ → Except PyErr ℚ := qscale) : Prop :=
  match rshiftF lg (Conv.entries N C H W img) (Conv.viewWeight g C O w) ((widthi : ℤ) - 1) ((widthw : ℤ) - 1) rounding.toLower qi qw sc with
  | .error e => r = .error e
  | .ok (rsi, rsw, _) => ConvF g N C H W bias img (fun row o y =>
      FxpOut rsi rsw (0 - rsi - rsw) (2 ^ widthi) (2 ^ widthw) row (Conv.viewWeight g C O w o) none y) r

/-- `r` is a result `HUBConv2d.forward` may give, `kernel/conv.py:496-519`. -/
def HubConvF {O : ℕ} (lg : ℚ → ℚ) (h : Hub) (g : Conv.Geo) (N C H W : ℕ) (w : ℕ → ℕ → ℕ → ℕ → ℚ)
    (bias : Option (Fin O → ℚ)) (img : ℕ → ℕ → ℕ → ℕ → ℚ) (r : Except PyErr (ℕ → ℕ → ℕ → ℕ → ℚ))
    (sc : List ℚ → ℚ → Except PyErr ℚ := qscale) : Prop :=
  match rshiftF lg (Conv.entries N C H W img) (Conv.viewWeight g C O w) ((h.widthi : ℤ) - 1) ((h.widthw : ℤ) - 1) h.rounding
      h.quantilei h.quantilew sc with
  | .error e => r = .error e
  | .ok (rsi, rsw, rso) => ConvF g N C H W bias img (fun row o y =>
      HubOut rsi rsw rso (hubCycleMax h.widthi h.widthw) h.cycle h.table row (Conv.viewWeight g C O w o) none y) r

end Verif.Float
