import Verif.Model.Tensor
import Verif.Model.Linear
import Verif.Model.Conv

/-!
# Checkpoints: `state_dict` and `load_state_dict`

The modules inherit both functions from `torch.nn.Module`.  A checkpoint holds the attributes that are `torch.nn.Parameter`
objects; plain attributes (flags, Python numbers, tensors derived from a parameter) are not in it.  `load_state_dict` copies
each saved tensor into the parameter of the same name if the two have the same shape; if some shape differs it leaves that
parameter, copies the others, and raises `RuntimeError` at the end.  (PyTorch documentation of `Module.load_state_dict`; its
special treatment of parameters without dimensions is left out, since a new module has none.)  A checkpoint is a copy, as
written by `torch.save`.

A `load…` function below takes the new module and the saved one and gives the module after loading and whether loading
succeeded.  The two have the same configuration, so constants (`upper`, `buf_max`, `buf_half`, number sequences of the divider)
agree.
-/

namespace Verif.Tens

open Verif Shuffle Small

/-- Loading one parameter. -/
def loadP {α : Type} (p saved : Tensor α) : Tensor α × Bool := if p.shape = saved.shape then (saved, true) else (p, false)

/-- `Bi2Uni` and `Uni2Bi`: `Parameter(torch.zeros(1)).type(btype)` is the parameter itself for `torch.float`, otherwise a plain
tensor, which is not saved, `stream/shuffle.py:70,110`. -/
def loadConv (isFloat : Bool) (p saved : Tensor ℚ) : Tensor ℚ × Bool := if isFloat then loadP p saved else (p, true)

/-- A static `FSUMul`: number sequence, multiplier and indices, `kernel/mul.py:50,58,62,67`. -/
structure MulMod where
  rng : List ℤ
  binary : Tensor ℤ
  st : MulSt

/-- Static `FSUMul`: the sequence and the multiplier are parameters too (`stream/gen.py:52,134`); `rng_idx_inv` exists in bipolar
mode, `kernel/mul.py:50-67`. -/
def loadMul (mode : Mode) (m saved : MulMod) : MulMod × Bool :=
  let r : List ℤ × Bool := if m.rng.length = saved.rng.length then (saved.rng, true) else (m.rng, false)
  let b := loadP m.binary saved.binary
  let i := loadP m.st.idx saved.st.idx
  let j := match mode with
    | .unipolar => (m.st.idxInv, true)
    | .bipolar => loadP m.st.idxInv saved.st.idxInv
  (⟨r.1, b.1, i.1, j.1⟩, r.2 && b.2 && i.2 && j.2)

/-- `FSUAdd`: `scale_carry`, `offset`, `accumulator` are parameters, `first` and `entry` are not, `kernel/add.py:44,54-59`. -/
def loadAdd (s saved : AddSt) : AddSt × Bool :=
  let a := loadP s.acc saved.acc
  (⟨s.first, s.entry, saved.scaleCarry, saved.offset, a.1⟩, a.2)

/-- `ShiftReg`: `sr` is a parameter, `first` is not, `kernel/shiftreg.py:26-27`.  (Registers of one length have the same shape
exactly if their rows have.) -/
def loadSr (s saved : SrSt) : SrSt × Bool :=
  let c := loadP s.cells saved.cells
  (⟨s.first, c.1⟩, c.2)

/-- In-stream `FSUMul`, `kernel/mul.py:73-76`. -/
def loadMulStream (mode : Mode) (s saved : MulStreamSt) : MulStreamSt × Bool :=
  let i := loadP s.idx saved.idx
  let j := match mode with
    | .unipolar => (s.idxInv, true)
    | .bipolar => loadP s.idxInv saved.idxInv
  let r := loadSr s.sr saved.sr
  (⟨i.1, j.1, r.1⟩, i.2 && j.2 && r.2)

/-- `CORDIV_kernel`, `kernel/div.py:33,43,45`. -/
def loadCor (s saved : CorSt) : CorSt × Bool :=
  let r := loadSr s.sr saved.sr
  let h := loadP s.historicQ saved.historicQ
  (⟨r.1, saved.idx, h.1⟩, r.2 && h.2)

/-- `FSUDiv`, `kernel/div.py:106-131`; the converters and sign detectors exist in bipolar mode. -/
def loadDiv (mode : Mode) (isFloat : Bool) (s saved : DivSt) : DivSt × Bool :=
  let k := loadP s.ss saved.ss
  let c := loadCor s.cor saved.cor
  match mode with
  | .unipolar => ({ s with ss := k.1, cor := c.1 }, k.2 && c.2)
  | .bipolar =>
      let a1 := loadP s.accDividend saved.accDividend
      let a2 := loadP s.accDivisor saved.accDivisor
      let b1 := loadConv isFloat s.b2uDividend saved.b2uDividend
      let b2 := loadConv isFloat s.b2uDivisor saved.b2uDivisor
      let u := loadConv isFloat s.u2b saved.u2b
      (⟨a1.1, a2.1, b1.1, b2.1, u.1, k.1, c.1⟩, a1.2 && a2.2 && b1.2 && b2.2 && u.2 && k.2 && c.2)

/-- `FSUSqrt`, `kernel/sqrt.py:59-127`: only the parts that the configuration creates exist. -/
def loadSqrt (cfg : Sqrt.Cfg) (isFloat : Bool) (s saved : SqrtSt) : SqrtSt × Bool :=
  let b := match cfg.mode with
    | .unipolar => (s.b2u, true)
    | .bipolar => loadConv isFloat s.b2u saved.b2u
  if cfg.emit then
    let e := loadP s.emitOut saved.emitOut
    let a := loadAdd s.nsadd saved.nsadd
    let r := loadSr s.sr saved.sr
    ({ s with emitOut := e.1, nsadd := a.1, sr := r.1, idx := saved.idx, b2u := b.1 }, e.2 && a.2 && r.2 && b.2)
  else
    let t := loadP s.trace saved.trace
    if cfg.jkTrace then
      let q := loadP s.jk saved.jk
      ({ s with trace := t.1, b2u := b.1, jk := q.1 }, t.2 && b.2 && q.2)
    else
      let c := loadCor s.cor saved.cor
      let d := loadP s.dff saved.dff
      ({ s with trace := t.1, b2u := b.1, cor := c.1, dff := d.1 }, t.2 && b.2 && c.2 && d.2)

/-- `Correlation`, `metric/metric.py:11-16`. -/
def loadCorr (s saved : CorrSt) : CorrSt × Bool :=
  let d := loadP s.d saved.d
  let c := loadP s.c saved.c
  let b := loadP s.b saved.b
  let a := loadP s.a saved.a
  let l := loadP s.len saved.len
  let i := loadP s.in1d saved.in1d
  (⟨d.1, c.1, b.1, a.1, l.1, i.1⟩, d.2 && c.2 && b.2 && a.2 && l.2 && i.2)

/-- One element of `Stability`: the counters of the progressive error are parameters, `cycle_to_stable`, the source and the
threshold are not, `metric/metric.py:78,82-85,122-129`. -/
def loadStab (s saved : Metric.Stab) : Metric.Stab :=
  { s with progerr := { s.progerr with
      cycle := saved.progerr.cycle, oneCnt := saved.progerr.oneCnt, pp := saved.progerr.pp, pe := saved.progerr.pe } }

/-- One element of `FSUAdd` (for run-time arguments), `kernel/add.py:44,54-59`. -/
def loadAdder (s saved : Adder.St) : Adder.St := { s with scaleCarry := saved.scaleCarry, offset := saved.offset, acc := saved.acc }

/-- `FSULinearPC`: `wrdx_i1` and `wrdx_i0` are `Parameter(…).unsqueeze(0)`, plain tensors; `brdx` is a parameter (of constant
shape), `kernel/linear.py:181,184,189`.  Loading always succeeds. -/
def loadPC {I O : ℕ} (s saved : Linear.PCSt I O) : Linear.PCSt I O := { s with brdx := saved.brdx }

/-- `pc.unsqueeze(0)`, `kernel/linear.py:98`: the counts of a batch as a tensor of shape `[1, batch, out_features]`
(shapes and indices are written last dimension first, see `Tensor`). -/
def countsT {O : ℕ} (rows : List (Fin O → ℤ)) : Tensor ℤ :=
  ⟨[O, rows.length, 1], fun i => if h : i.getD 0 0 < O then rows.getD (i.getD 1 0) (fun _ => 0) ⟨i.getD 0 0, h⟩ else 0⟩

/-- `FSULinear.forward` without run-time arguments, `kernel/linear.py:96-99`: the counter, then the adder with `dima` 0 (lines
89-93).  `cfg` is the adder's configuration, for which lines 81-88 give scale and number of addends. -/
def linT {I O : ℕ} (c : Linear.PC I O) (cfg : Adder.Cfg) (s : Linear.PCSt I O × AddSt) (x : List (Fin I → ℤ)) :
    Except PyErr ((Linear.PCSt I O × AddSt) × Tensor ℤ) := do
  let r ← Linear.stepPC c s.1 x                                                          -- line 97
  let o ← addT cfg 0 s.2 (countsT r.2)                                                   -- line 98
  pure ((r.1, o.1), o.2)

/-- `FSULinear`: the parameters of its counter and of its adder. -/
def loadLin {I O : ℕ} (s saved : Linear.PCSt I O × AddSt) : (Linear.PCSt I O × AddSt) × Bool :=
  let a := loadAdd s.2 saved.2
  ((loadPC s.1 saved.1, a.1), a.2)

/-- An image batch as given to a convolution: number of images, height, width and bits. -/
structure ImageIn where
  N : ℕ
  H : ℕ
  W : ℕ
  img : ℕ → ℕ → ℕ → ℕ → ℤ

/-- `pc.unsqueeze(0)`, `kernel/conv.py:100`: counts of shape `[1, N, out_channels, height, width]` (written last dimension
first). -/
def imageT (N O : ℕ) (os : ℤ × ℤ) (f : ℕ → ℕ → ℕ → ℕ → ℤ) : Tensor ℤ :=
  ⟨[os.2.toNat, os.1.toNat, O, N, 1], fun i => f (i.getD 3 0) (i.getD 2 0) (i.getD 1 0) (i.getD 0 0)⟩

/-- `FSUConv2d.forward` without run-time arguments, `kernel/conv.py:97-101`: the counter, then the adder with `dima` 0 (line
92).  The first line is only the size of the counts, which the counter computes itself (`kernel/conv.py:220`). -/
def convT {O C : ℕ} (g : Conv.Geo) (p : Conv.PadArg) (c : Linear.PC (C * g.kh * g.kw) O) (cfg : Adder.Cfg)
    (s : (Linear.PCSt (C * g.kh * g.kw) O × Bool) × AddSt) (x : ImageIn) :
    Except PyErr (((Linear.PCSt (C * g.kh * g.kw) O × Bool) × AddSt) × Tensor ℤ) := do
  let os ← Conv.outSize { g with ph := p.perAxis.1, pw := p.perAxis.2 } x.H x.W
  let r ← Conv.stepConvPC g p x.N C x.H x.W c s.1 x.img                                  -- line 99
  let o ← addT cfg 0 s.2 (imageT x.N O os r.2)                                           -- line 100
  pure ((r.1, o.1), o.2)

/-- `FSUConv2d`: the counter's parameters are `brdx` and `even_cycle_flag` (besides constants; `wrdx_i1` and `wrdx_i0` are
views), `kernel/conv.py:203,206,211,214`, and those of the adder. -/
def loadConv2d {K O : ℕ} (s saved : (Linear.PCSt K O × Bool) × AddSt) : ((Linear.PCSt K O × Bool) × AddSt) × Bool :=
  let a := loadAdd s.2 saved.2
  (((loadPC s.1.1 saved.1.1, saved.1.2), a.1), a.2)

end Verif.Tens
