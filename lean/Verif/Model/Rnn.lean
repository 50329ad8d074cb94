import Verif.Model.Linear
import Verif.Model.Mul
import Verif.Model.Metric
import Verif.Model.Utils
import Mathlib.Analysis.SpecialFunctions.Sigmoid
import Mathlib.Analysis.Complex.Trigonometric

/-!
# Model of `kernel/rnn.py`

A batch is a list of rows (dimension 0); `torch.cat((a, b), 1)` of rows is `Fin.append`.  The numeric cells are generic in
the ordered field of data, so that the hard version can be used with rationals (rounding) and the soft version with reals.
-/

namespace Verif.Rnn

open Verif Gen Linear

/-! ## HardMGUCell -/

/-- Parameters of a cell, `kernel/rnn.py:249-256`. -/
structure Params (K : Type) (I H : ℕ) where
  wf : Fin H → Fin (H + I) → K
  wn : Fin H → Fin (H + I) → K
  bf : Option (Fin H → K)
  bn : Option (Fin H → K)

section
variable {K : Type} [Field K] [LinearOrder K]

/-- `HUBHardtanh()`, `kernel/tanh.py:11-17`, over any ordered field. -/
def hardtanh (x : K) : K := clamp (-1) 1 x

/-- `HUBHardsigmoid()`, `kernel/sigmoid.py:47-56` with the default scale 3: `relu6(3 x + 3) / 6`. -/
def hardsigm (x : K) : K := clamp 0 6 (x * 3 + 3) / 6

/-- `F.linear(x, w, b)` on one row. -/
def lin {J H : ℕ} (w : Fin H → Fin J → K) (b : Option (Fin H → K)) (x : Fin J → K) : Fin H → K :=
  fun o => (∑ i, x i * w o i) + (b.map fun v => v o).getD 0

/-- The attributes and the result of one call on one row. -/
structure Trace (K : Type) (H : ℕ) where
  fgIn : Fin H → K
  fg : Fin H → K
  fgHx : Fin H → K
  ng : Fin H → K
  fgNg : Fin H → K
  fgNgInv : Fin H → K
  hy : Fin H → K

/-- `HardMGUCell.forward` on one row, `kernel/rnn.py:268-282`; `sig` and `tanh` are the two activations of lines
242-247. -/
def cellRow {I H : ℕ} (sig tanh : K → K) (p : Params K I H) (x : Fin I → K) (hx : Fin H → K) : Trace K H :=
  let fgIn : Fin H → K := fun o => hardtanh (lin p.wf p.bf (Fin.append hx x) o)                     -- lines 269-270
  let fg : Fin H → K := fun o => sig (fgIn o)                                                       -- line 271
  let fgHx : Fin H → K := fun o => fg o * hx o                                                      -- line 274
  let ng : Fin H → K := fun o => tanh (lin p.wn p.bn (Fin.append fgHx x) o)                         -- lines 275-276
  let fgNg : Fin H → K := fun o => fg o * ng o                                                      -- line 279
  let fgNgInv : Fin H → K := fun o => 0 - fgNg o                                                    -- line 280
  ⟨fgIn, fg, fgHx, ng, fgNg, fgNgInv, fun o => hardtanh (ng o + fgNgInv o + fgHx o)⟩                -- line 281

/-- `HardMGUCell.forward(input, hx=None)` on a batch, `kernel/rnn.py:264-282`: `torch.cat` raises when the numbers of rows
differ. -/
def forward {I H : ℕ} (cell : (Fin I → K) → (Fin H → K) → Trace K H) (x : List (Fin I → K)) (hx : Option (List (Fin H → K))) :
    Except PyErr (List (Trace K H)) :=
  let h := hx.getD (x.map fun _ _ => 0)                                                             -- lines 265-266
  if x.length ≠ h.length then .error .runtime else .ok (List.zipWith cell x h)

end

/-- `HardMGUCell(hard=True).forward`. -/
def hardCell {K : Type} [Field K] [LinearOrder K] {I H : ℕ} (p : Params K I H) (x : Fin I → K) (hx : Fin H → K) : Trace K H :=
  cellRow hardsigm hardtanh p x hx

/-- `HardMGUCell(hard=False).forward`, with exact `nn.Sigmoid` and `nn.Tanh`. -/
noncomputable def softCell {I H : ℕ} (p : Params ℝ I H) (x : Fin I → ℝ) (hx : Fin H → ℝ) : Trace ℝ H :=
  cellRow Real.sigmoid Real.tanh p x hx

/-! ## HardMGUCellFXP -/

/-- `HardMGUCellFXP.forward` on one row, `kernel/rnn.py:329-343`, for any activations on rationals; `tr` is `self.trunc` of
line 301, which passes `None` through. -/
def fxpRow {I H : ℕ} (i f : ℤ) (sig tanh : ℚ → ℚ) (p : Params ℚ I H) (x : Fin I → ℚ) (hx : Fin H → ℚ) : Trace ℚ H :=
  let tr := Utils.round i f
  let trv := fun {n : ℕ} (v : Fin n → ℚ) (k : Fin n) => tr (v k)
  let trw := fun (w : Fin H → Fin (H + I) → ℚ) (o : Fin H) (k : Fin (H + I)) => tr (w o k)
  let trb := fun (b : Option (Fin H → ℚ)) => b.map fun v (o : Fin H) => tr (v o)
  let fgUgIn := Fin.append (trv hx) (trv x)                                                         -- line 330
  let fgIn : Fin H → ℚ := fun o => hardtanh (lin (trw p.wf) (trb p.bf) (trv fgUgIn) o)              -- line 331
  let fg : Fin H → ℚ := fun o => sig (tr (fgIn o))                                                  -- line 332
  let fgHx : Fin H → ℚ := fun o => tr (fg o) * tr (hx o)                                            -- line 335
  let ngUgIn := Fin.append (trv fgHx) (trv x)                                                       -- line 336
  let ng : Fin H → ℚ := fun o => tanh (tr (lin (trw p.wn) (trb p.bn) (trv ngUgIn) o))               -- line 337
  let fgNg : Fin H → ℚ := fun o => tr (fg o) * tr (ng o)                                            -- line 340
  let fgNgInv : Fin H → ℚ := fun o => 0 - tr (fgNg o)                                               -- line 341
  ⟨fgIn, fg, fgHx, ng, fgNg, fgNgInv, fun o => hardtanh (tr (ng o) + tr (fgNgInv o) + tr (fgHx o))⟩ -- line 342

/-- `HardMGUCellFXP(hard=True)`. -/
def fxpCell {I H : ℕ} (i f : ℤ) (p : Params ℚ I H) (x : Fin I → ℚ) (hx : Fin H → ℚ) : Trace ℚ H :=
  fxpRow i f hardsigm hardtanh p x hx

/-! ## FSUMGUCell -/

/-- Configuration of a constructed `FSUMGUCell` for a batch of `B` rows, `kernel/rnn.py:60-114`: the two linear layers,
the adders of the gate and of the output, the two multipliers. -/
structure Fsu (B I H : ℕ) where
  mode : Mode
  f : PC (H + I) H × Adder.Cfg
  n : PC (H + I) H × Adder.Cfg
  sigm : Adder.Cfg
  hxRng : List ℤ
  hxBin : Fin B → Fin H → ℤ
  ngWidth : ℕ
  ngRng : List ℤ
  out : Adder.Cfg

/-- `FSUMGUCell.__init__`, `kernel/rnn.py:25-114`.  The weight shapes are those checked in lines 63-67.  `hxBuffer` has one
row per batch entry; a buffer of one row that is broadcast is not modelled. -/
def mkFsu {B I H : ℕ} (env : Env) (mode : String) (width depthIsmul : ℕ) (rngName : String) (depth : ℤ)
    (wf wn : Fin H → Fin (H + I) → ℚ) (bias : Bool) (bf bn : Option (Fin H → ℚ)) (hxBuffer : Option (Fin B → Fin H → ℚ)) :
    Except PyErr (Fsu B I H) :=
  if mode.toLower ≠ "bipolar" then .error .assertion                                                -- lines 60-61
  else if bias = true ∧ (bf = none ∨ bn = none) then .error .attribute                              -- lines 65-67
  else do
    let f ← mkLinear env mode width rngName depth (some 1) wf bias bf                               -- lines 69-79
    let n ← mkLinear env mode width rngName depth (some 1) wn bias bn                               -- lines 80-82
    let sigm ← Adder.mk mode none none depth                                                        -- lines 83-90
    let m ← parseMode mode
    let r ← rng env width rngName                                                                   -- lines 91-98, `kernel/mul.py:46-60`
    match hxBuffer with
    | none => .error .assertion
    | some hb =>
        let r' ← bsGenInit r
        let rn ← rng env depthIsmul rngName                                                         -- lines 99-106
        let out ← Adder.mk mode (some 1) (some 3) depth                                             -- lines 107-114
        pure ⟨m, f, n, sigm, r', fun b o => binGenM m width (hb b o), depthIsmul, rn, out⟩

/-- State of an `FSUMGUCell`. -/
structure FsuSt (B I H : ℕ) where
  f : PCSt (H + I) H × List (Fin H → Adder.St)
  sigm : Fin B → Fin H → Adder.St
  hx : Fin B → Fin H → Multiplier.St
  n : PCSt (H + I) H × List (Fin H → Adder.St)
  ng : Fin B → Fin H → Multiplier.St
  out : Fin B → Fin H → Adder.St

/-- State after construction. -/
def Fsu.init {B I H : ℕ} (c : Fsu B I H) : FsuSt B I H :=
  ⟨initLinear c.f, fun _ _ => Adder.init c.sigm, fun _ _ => Multiplier.init c.ngWidth, initLinear c.n,
    fun _ _ => Multiplier.init c.ngWidth, fun _ _ => Adder.init c.out⟩

/-- The bits of one call: the attributes `fg_in`, `fg`, `fg_hx`, `ng`, `fg_ng` and the result. -/
structure Bits (B H : ℕ) where
  fgIn : Fin B → Fin H → ℤ
  fg : Fin B → Fin H → ℤ
  fgHx : Fin B → Fin H → ℤ
  ng : Fin B → Fin H → ℤ
  fgNg : Fin B → Fin H → ℤ
  hy : Fin B → Fin H → ℤ

/-- A list of rows as a function of the row number (`B` rows). -/
def rowsOf {B H : ℕ} (l : List (Fin H → ℤ)) : Fin B → Fin H → ℤ := fun b => l.getD b (fun _ => 0)

/-- `FSUMGUCell.forward(input, hx)`, `kernel/rnn.py:126-145`; the row and column numbers agree as checked in lines
116-124.  Adders and multipliers work element-wise. -/
def Fsu.step {B I H : ℕ} (c : Fsu B I H) (s : FsuSt B I H) (a : (Fin B → Fin I → ℤ) × (Fin B → Fin H → ℤ)) :
    Except PyErr (FsuSt B I H × Bits B H) := do
  let (sf, fgInL) ← stepLinear c.f s.f { input := List.ofFn fun b => Fin.append (a.2 b) (a.1 b) }   -- lines 132-133
  let fgIn : Fin B → Fin H → ℤ := rowsOf fgInL
  let sg := fun b o => Adder.step c.sigm (s.sigm b o) { xs := [(fgIn b o : ℚ), 1] }                 -- line 134
  let fg := fun b o => (sg b o).2
  let sh := fun b o => Multiplier.stepStatic c.mode c.hxRng (c.hxBin b o) (s.hx b o) (fg b o)       -- line 137
  let fgHx := fun b o => (sh b o).2
  let (sn, ngL) ← stepLinear c.n s.n { input := List.ofFn fun b => Fin.append (fgHx b) (a.1 b) }    -- lines 138-139
  let ng : Fin B → Fin H → ℤ := rowsOf ngL
  let sm := fun b o => Multiplier.stepStream c.mode c.ngWidth c.ngRng (s.ng b o) (fg b o, ng b o)   -- line 142
  let fgNg := fun b o => (sm b o).2
  let so := fun b o => Adder.step c.out (s.out b o)
    { xs := [(ng b o : ℚ), 1 - (fgNg b o : ℚ), (fgHx b o : ℚ)] }                                    -- lines 143-144
  pure (⟨sf, fun b o => (sg b o).1, fun b o => (sh b o).1, sn, fun b o => (sm b o).1, fun b o => (so b o).1⟩,
    ⟨fgIn, fg, fgHx, ng, fgNg, fun b o => (so b o).2⟩)

/-! ## HUBMGUCell -/

/-- The loop of `HUBMGUCell.forward`, `kernel/rnn.py:213-221`, after `T` rounds: the input and the state are generated by
`BSGen` with the round number as index, the cell is called once, and the monitor counts its result. -/
def hubLoop {B I H : ℕ} (c : Fsu B I H) (l : List ℤ) (xb : Fin B → Fin I → ℤ) (hb : Fin B → Fin H → ℤ)
    (pe : Fin B → Fin H → Metric.PE) : ℕ → Except PyErr (FsuSt B I H × (Fin B → Fin H → Metric.PE))
  | 0 => .ok (c.init, pe)
  | t + 1 => do
      let (s, p) ← hubLoop c l xb hb pe t
      let (s', r) ← c.step s (fun b i => bsGen l (xb b i) t, fun b o => bsGen l (hb b o) t)
      pure (s', fun b o => (p b o).monitor (r.hy b o))

/-- `HUBMGUCell.forward(input, hx)`, `kernel/rnn.py:192-224`; the monitor has source 0 and scale 1 (lines 189-190, 210). -/
def hubMGU {B I H : ℕ} (env : Env) (mode : String) (width depthIsmul : ℕ) (rngName : String) (depth : ℤ)
    (wf wn : Fin H → Fin (H + I) → ℚ) (bias : Bool) (bf bn : Option (Fin H → ℚ))
    (x : Fin B → Fin I → ℚ) (hx? : Option (Fin B → Fin H → ℚ)) : Except PyErr (Fin B → Fin H → ℚ) := do
  let hx := hx?.getD fun _ _ => 0                                                                   -- lines 194-195
  let c ← mkFsu env mode width depthIsmul rngName depth wf wn bias bf bn (some hx)                  -- lines 197-200
  let m ← parseMode mode                                                                            -- lines 202,206
  let r ← rng env width rngName                                                                     -- lines 203,207
  let l ← bsGenInit r                                                                               -- lines 204,208
  let pe ← Metric.PE.init 0 1 mode                                                                  -- lines 210-211
  let (_, p) ← hubLoop c l (fun b i => binGenM m width (x b i)) (fun b o => binGenM m width (hx b o)) (fun _ _ => pe) (2 ^ width)
  pure fun b o => match (p b o).forward with                                                        -- line 223
    | .ok r => r.2.1
    | .error _ => 0

end Verif.Rnn
