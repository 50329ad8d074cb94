import Verif.Model.Linear

/-!
# Constructor checks of the binary and hybrid layers

Tensor shapes are lists of sizes.  `torch.nn.Linear`/`Conv2d` constructors and the data types are not modelled.
-/

namespace Verif.Config

open Verif Linear

/-- `x.size()[k]` for a tensor of shape `s` (`k ≥ 0`): `IndexError` beyond the rank. -/
def sizeAt (s : List ℕ) (k : ℕ) : Except PyErr ℕ := match s[k]? with
  | some n => .ok n
  | none => .error .index

/-- The check of `weight_ext` in linear layers, `kernel/linear.py:162-164,346-348,538-540,701-703`. -/
def checkWeight2 (w : Option (List ℕ)) (outF inF : ℕ) : Except PyErr Unit := match w with
  | none => .ok ()
  | some s => do
      let a ← sizeAt s 0
      let b ← sizeAt s 1
      if (a, b) = (outF, inF) then .ok () else .error .assertion

/-- The check of `weight_ext` in convolutions, `kernel/conv.py:184-186,430-432,566-568,698-700`. -/
def checkWeight4 (w : Option (List ℕ)) (outC inC kh kw : ℕ) : Except PyErr Unit := match w with
  | none => .ok ()
  | some s => do
      let a ← sizeAt s 0
      let b ← sizeAt s 1
      let c ← sizeAt s 2
      let d ← sizeAt s 3
      if (a, b, c, d) = (outC, inC, kh, kw) then .ok () else .error .assertion

/-- The check of `bias_ext`, `kernel/linear.py:167-169,351-353,543-545,706-708` and
`kernel/conv.py:189-191,435-437,571-573,703-705`. -/
def checkBias (bias : Bool) (b : Option (List ℕ)) (outF : ℕ) : Except PyErr Unit := match bias, b with
  | true, some s => do
      let a ← sizeAt s 0
      if a = outF then .ok () else .error .assertion
  | _, _ => .ok ()

/-- The `hwcfg` dictionary of `TLUTLinear`/`TLUTConv2d`. -/
structure TlutArgs where
  temporal : String
  widtht : ℕ
  formati : String
  widthi : ℕ
  quantilei : ℚ
  formatw : String
  widthw : ℕ
  quantilew : ℚ
  cycle : Option ℕ
  rounding : String
  signmag : Bool

/-- A format name after `.lower()`, `kernel/linear.py:682-686`. -/
def parseFmt (s : String) : Except PyErr Fmt :=
  if s.toLower = "fxp" then .ok .fxp
  else if s.toLower = "bfloat16" then .ok .bfloat16
  else if s.toLower = "float16" then .ok .float16
  else if s.toLower = "float32" then .ok .float32
  else .error .assertion

/-- `TLUTLinear.__init__`, `kernel/linear.py:665-750`, without the shape checks in the middle; `checks` are these
(`kernel/linear.py:701-708`).  `widthi`, `widthw` of zero are outside the model. -/
def mkTlut (checks : Except PyErr Unit) (a : TlutArgs) : Except PyErr Tlut :=
  if ¬ a.temporal.toLower ∈ ["i", "w", "input", "weight"] then .error .assertion else do       -- lines 679-680
  let fi ← parseFmt a.formati                                                                -- lines 682-683
  let fw ← parseFmt a.formatw                                                                -- lines 685-686
  if ¬ (0 < a.quantilei ∧ a.quantilei ≤ 1) then .error .assertion else                         -- lines 688-689
  if ¬ (0 < a.quantilew ∧ a.quantilew ≤ 1) then .error .assertion else                         -- lines 691-692
  if ¬ a.rounding.toLower ∈ ["round", "ceil", "floor"] then .error .assertion else             -- lines 694-695
  if a.signmag = false then .error .assertion else do                                        -- lines 697-698
  checks                                                                                     -- lines 701-709
  if a.widtht = 0 then .error .zeroDivision else                                             -- line 749
  .ok ⟨decide (a.temporal.toLower ∈ ["i", "input"]), a.widtht, fi, a.widthi, a.quantilei, fw, a.widthw, a.quantilew, a.cycle,
    a.rounding.toLower⟩

/-- `TLUTLinear.__init__` with shapes. -/
def tlutLinear (inF outF : ℕ) (bias : Bool) (w b : Option (List ℕ)) (a : TlutArgs) : Except PyErr Tlut :=
  mkTlut (do checkWeight2 w outF inF; checkBias bias b outF) a

/-- `TLUTConv2d.__init__`, `kernel/conv.py:661-747`: `groups` and `padding_mode` first. -/
def tlutConv (inC outC kh kw groups : ℕ) (paddingMode : String) (bias : Bool) (w b : Option (List ℕ)) (a : TlutArgs) :
    Except PyErr Tlut :=
  if groups ≠ 1 then .error .assertion else
  if paddingMode ≠ "zeros" then .error .assertion else
  mkTlut (do checkWeight4 w outC inC kh kw; checkBias bias b outC) a

/-- `FXPLinear.__init__`, `kernel/linear.py:523-558`: only the shapes are checked. -/
def fxpLinear (inF outF : ℕ) (bias : Bool) (w b : Option (List ℕ)) : Except PyErr Unit := do
  checkWeight2 w outF inF
  checkBias bias b outF

/-- `FXPConv2d.__init__`, `kernel/conv.py:556-582`. -/
def fxpConv (inC outC kh kw groups : ℕ) (paddingMode : String) (bias : Bool) (w b : Option (List ℕ)) : Except PyErr Unit :=
  if groups ≠ 1 then .error .assertion else
  if paddingMode ≠ "zeros" then .error .assertion else do
  checkWeight4 w outC inC kh kw
  checkBias bias b outC

/-- The check of one weight of `FSUMGUCell.__init__`, `kernel/rnn.py:62-63`: it is required, `None` has no `size`. -/
def needWeight (w : Option (List ℕ)) (outF inF : ℕ) : Except PyErr Unit :=
  if w = none then .error .attribute else checkWeight2 w outF inF

/-- The check of one bias of `FSUMGUCell.__init__`, `kernel/rnn.py:65-66`. -/
def needBias (b : Option (List ℕ)) (outF : ℕ) : Except PyErr Unit :=
  if b = none then .error .attribute else checkBias true b outF

/-- The shape checks of `FSUMGUCell.__init__`, `kernel/rnn.py:62-66`. -/
def mguShapes (inS hS : ℕ) (bias : Bool) (wf wn bf bn : Option (List ℕ)) : Except PyErr Unit := do
  needWeight wf hS (hS + inS)                                                                -- line 62
  needWeight wn hS (hS + inS)                                                                -- line 63
  if bias = true then do                                                                     -- lines 64-66
    needBias bf hS
    needBias bn hS
  else .ok ()

/-- `check_forward_input` and `check_forward_hidden`, `kernel/rnn.py:116-124,128-129`. -/
def mguForwardShapes (inS hS : ℕ) (input hx : List ℕ) : Except PyErr Unit := do
  if (← sizeAt input 1) ≠ inS then .error .runtime else do
  if (← sizeAt input 0) ≠ (← sizeAt hx 0) then .error .runtime else do
  if (← sizeAt hx 1) ≠ hS then .error .runtime else .ok ()

end Verif.Config
