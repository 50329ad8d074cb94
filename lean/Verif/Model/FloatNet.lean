import Verif.Model.Float
import Verif.Model.FloatLin
import Verif.Model.Net
import Verif.Model.ImgNet

/-!
# Stream layers and networks executed in binary32

As `Verif.Model.Net` and `Verif.Model.ImgNet`, with the counts, accumulators and stored numbers in `torch.float`.  `torch.matmul` may add in any order, so
a module is a relation: which states and results a call may lead to.  Index tensors (`torch.long`) are exact.
-/

namespace Verif.FloatNet

open Verif Linear Conv
open Verif.Float (fl fadd fsub fmul FDot addConfigure addAccumulate)

/-- An object with a state, of which a call may have several results. -/
structure RMachine (α β : Type) where
  S : Type
  init : S
  step : S → α → S → β → Prop

/-- `out` are results the object may give when called with `x`, one call after the other. -/
def RMachine.Run {α β : Type} (m : RMachine α β) (x : ℕ → α) (out : ℕ → β) : Prop :=
  ∃ st : ℕ → m.S, st 0 = m.init ∧ ∀ t, m.step (st t) (x t) (st (t + 1)) (out t)

/-- `torch.nn.Sequential` of two modules. -/
def RMachine.comp {α β γ : Type} (f : RMachine α β) (g : RMachine β γ) : RMachine α γ where
  S := f.S × g.S
  init := (f.init, g.init)
  step := fun s a s' c => ∃ b, f.step s.1 a s'.1 b ∧ g.step s.2 b s'.2 c

/-- A module whose results are determined; a call that raises has none. -/
def RMachine.ofMachine {α β : Type} (m : Net.Machine α β) : RMachine α β := ⟨m.S, m.init, fun s a s' b => m.step s a = .ok (s', b)⟩

/-! ## FSULinear -/

/-- One addend of a product: `torch.matmul(ibit, wbit.transpose(1, 2))` for some rows, `kernel/linear.py:203-206,224-227`.  The rows of bits are
paired as in `zipBatch`. -/
def Products {I O : ℕ} (wbit : List (Fin O → Fin I → ℚ)) (ibit : List (Fin I → ℚ)) (y : List (Fin O → ℚ)) : Prop :=
  ∃ prs, zipBatch Prod.mk wbit ibit = .ok prs ∧
    List.Forall₂ (fun (p : (Fin O → Fin I → ℚ) × (Fin I → ℚ)) (r : Fin O → ℚ) => ∀ o, FDot (List.ofFn fun i => (p.2 i, p.1 o i)) (r o)) prs y

/-- The bias bits of one row, `kernel/linear.py:208-211,248-251`. -/
def biasRow {O : ℕ} (rng : List ℤ) (bias : Option (Fin O → ℤ)) (brdx : Fin O → ℤ) (r : Fin O → ℚ) : Fin O → ℚ := match bias with
  | none => r
  | some b => fun o => fadd (r o) (Gen.bsGen rng (b o) (brdx o))

/-- The counts in binary32, `kernel/linear.py:191-264`: the weight bits, products with the input bits, the bias bit, and in bipolar mode the products of the
inverted bits. -/
def Counts {I O : ℕ} (c : PC I O) (s : PCSt I O) (input : List (Fin I → ℤ)) (y : List (Fin O → ℚ)) : Prop :=
  let batch := input.length                                                                        -- lines 194,234
  let bits := fun (m : Fin O → Fin I → ℤ) (o : Fin O) (i : Fin I) => (Gen.bsGen c.rng (c.weight o i) (m o i) : ℚ)
  let wbit1 := expand batch (s.wrdx1.map bits)                                                      -- lines 197-199, 237-239
  let ibit1 := input.map fun (x : Fin I → ℤ) (i : Fin I) => (x i : ℚ)                               -- lines 203, 243
  ∃ obin1, Products wbit1 ibit1 obin1 ∧
    let ob := obin1.map (biasRow c.rng c.bias s.brdx)                                               -- lines 208-211, 248-251
    match c.mode with
    | .unipolar => y = ob                                                                           -- lines 213-214, 253-254
    | .bipolar =>
        let wbit0 := if c.wtc then wbit1.map fun (w : Fin O → Fin I → ℚ) (o : Fin O) (i : Fin I) => fsub 1 (w o i)     -- line 258
          else expand batch (s.wrdx0.map fun (m : Fin O → Fin I → ℤ) (o : Fin O) (i : Fin I) => fsub 1 (bits m o i))   -- lines 218-220
        let ibit0 := ibit1.map fun (x : Fin I → ℚ) (i : Fin I) => fsub 1 (x i)                      -- lines 224, 259
        ∃ obin0, Products wbit0 ibit0 obin0 ∧
          y = List.zipWith (fun (a b : Fin O → ℚ) (o : Fin O) => fadd (a o) (b o)) ob obin0         -- lines 229, 264

/-- One element of the accumulator, `kernel/linear.py:98`: `torch.sum` over the new dimension of size one returns its element. -/
def laneF (cfg : Adder.Cfg) (s : Adder.St) (p : ℚ) : Adder.St × ℤ := addAccumulate cfg (addConfigure cfg s { xs := [p] }) p

/-- `FSULinear.forward`, `kernel/linear.py:95-99`: the positions in the sequences advance as in `stepPC`. -/
def linear {I O : ℕ} (m : PC I O × Adder.Cfg) : RMachine (List (Fin I → ℤ)) (List (Fin O → ℤ)) where
  S := PCSt I O × List (Fin O → Adder.St)
  init := initLinear m
  step := fun s rows s' out => ∃ y r, (∃ n, stepPC m.1 s.1 rows = .ok (s'.1, n)) ∧ Counts m.1 s.1 rows y ∧
    zipLanes (fun (a : Fin O → Adder.St) (p : Fin O → ℚ) (o : Fin O) => laneF m.2 (a o) (p o)) s.2 y = .ok r ∧
    s'.2 = r.map (fun (q : Fin O → Adder.St × ℤ) (o : Fin O) => (q o).1) ∧ out = r.map fun (q : Fin O → Adder.St × ℤ) (o : Fin O) => (q o).2

/-- A number sequence in `torch.float`, `stream/gen.py:56-74`; an integer that is rounded is an integer. -/
def seq (l : List ℤ) : List ℤ := l.map fun n : ℤ => ⌊fl n⌋

/-- `FSULinear.__init__`, `kernel/linear.py:47-93`, with `BinGen` executed in binary32 (`stream/gen.py:112-118`). -/
def mkLinear {I O : ℕ} (env : Gen.Env) (mode : String) (width : ℕ) (rngName : String) (depth : ℤ) (scale : Option ℚ)
    (weightExt : Fin O → Fin I → ℚ) (bias : Bool) (biasExt : Option (Fin O → ℚ)) : Except PyErr (PC I O × Adder.Cfg) :=
  match Linear.mkLinear env mode width rngName depth scale weightExt bias biasExt with
  | .error e => .error e
  | .ok m => .ok ({ m.1 with
      rng := seq m.1.rng
      weight := fun o i => Float.binGen m.1.mode width (weightExt o i)
      bias := if bias then biasExt.map fun (b : Fin O → ℚ) (o : Fin O) => Float.binGen m.1.mode width (b o) else none }, m.2)

/-! ## Activations -/

/-- `FSUReLU.forward` in binary32, `kernel/relu.py:33-41`; the output is computed in `torch.int8`. -/
def reluStep (depth : ℤ) (acc : ℚ) (input : ℤ) : ℚ × ℤ :=
  let flag : ℤ := ind (acc ≥ fl ((2:ℚ) ^ (depth - 1)))                                            -- line 35
  let output := Int.lor input (1 - flag)                                                          -- line 37
  (clamp 0 (fl ((2:ℚ) ^ depth - 1)) (fadd acc ((output * 2 - 1 : ℤ) : ℚ)), output)                -- lines 39-40

/-- `FSUReLU` on a tensor, `kernel/relu.py:8-41`. -/
def relu (I : ℕ) (depth : ℤ) : Net.Machine (List (Fin I → ℤ)) (List (Fin I → ℤ)) :=
  ⟨_, [fun _ => fl ((2:ℚ) ^ (depth - 1))], Net.lanes (reluStep depth)⟩

/-- One element of `FSUHardsigmoid`, `kernel/sigmoid.py:43-44`: the input stacked with a one. -/
def hardsigmoidStep (cfg : Adder.Cfg) (s : Adder.St) (x : ℤ) : Adder.St × ℤ :=
  addAccumulate cfg (addConfigure cfg s { xs := [(x : ℚ), 1] }) (fadd x 1)

/-- `FSUHardsigmoid` on a tensor, `kernel/sigmoid.py:4-44`. -/
def hardsigmoid (I : ℕ) (cfg : Adder.Cfg) : Net.Machine (List (Fin I → ℤ)) (List (Fin I → ℤ)) :=
  ⟨_, [fun _ => Adder.init cfg], Net.lanes (hardsigmoidStep cfg)⟩

/-! ## Chains -/

/-- Building a chain of layers that is executed in binary32. -/
def build (env : Gen.Env) {I O : ℕ} : Net.Layers I O → Except PyErr (RMachine (List (Fin I → ℤ)) (List (Fin O → ℤ)))
  | .done => .ok (RMachine.ofMachine (Net.Machine.id _))
  | .linear mode width rng depth scale weight bias biasExt rest =>
      match mkLinear env mode width rng depth scale weight bias biasExt with
      | .error e => .error e
      | .ok m => match build env rest with
        | .error e => .error e
        | .ok r => .ok ((linear m).comp r)
  | .relu depth rest => match build env rest with
      | .error e => .error e
      | .ok r => .ok ((RMachine.ofMachine (relu _ depth)).comp r)
  | .hardtanh rest => match build env rest with
      | .error e => .error e
      | .ok r => .ok ((RMachine.ofMachine (Net.Machine.id _)).comp r)
  | .hardsigmoid mode depth rest =>
      match Adder.hardsigmoidMk mode depth with
      | .error e => .error e
      | .ok c => match build env rest with
        | .error e => .error e
        | .ok r => .ok ((RMachine.ofMachine (hardsigmoid _ c)).comp r)

/-! ## Images -/

/-- `FSUConv2d` with integer padding, called with its input only, `kernel/conv.py:97-101,219-343`: padding and unfolding as in `convWrap`, the rows as in
`linear` (the bias and the second products are added after folding, to the same numbers). -/
def conv {O : ℕ} (g : Geo) (p N C H W : ℕ) (m : PC (C * g.kh * g.kw) O × Adder.Cfg) : RMachine Net.Img Net.Img where
  S := (linear m).S × Bool
  init := ((linear m).init, true)
  step := fun s img s' out => ∃ os rows r,
    outSize { g with ph := p, pw := p } H W = .ok os ∧                                              -- line 220
    im2col { g with ph := 0, pw := 0 } N C (H + p + p) (W + p + p) 0
      (constPad (.num p) H W (if s.2 then 0 else 1) img) = .ok rows ∧                               -- lines 222-233
    s'.2 = (decide (m.1.mode = .bipolar) ^^ s.2) ∧                                                  -- line 228
    (linear m).step s.1 rows s'.1 r ∧ col2im N os r = .ok out                                       -- lines 235-252

/-- `FSUReLU` on an image batch. -/
def reluImg (depth : ℤ) : Net.Machine Net.Img Net.Img := ⟨_, fun _ _ _ _ => fl ((2:ℚ) ^ (depth - 1)), Net.pixels (reluStep depth)⟩

/-- `FSUHardsigmoid` on an image batch. -/
def hardsigmoidImg (cfg : Adder.Cfg) : Net.Machine Net.Img Net.Img := ⟨_, fun _ _ _ _ => Adder.init cfg, Net.pixels (hardsigmoidStep cfg)⟩

/-- Building a convolutional chain that is executed in binary32, for batches of `N` images. -/
def buildImg (env : Gen.Env) (N : ℕ) {C H W O : ℕ} : Net.ImgLayers C H W O → Except PyErr (RMachine Net.Img (List (Fin O → ℤ)))
  | .flatten rest => match build env rest with
      | .error e => .error e
      | .ok r => .ok ((RMachine.ofMachine (Net.flatten N C H W)).comp r)
  | .conv g p _ _ _ mode width rng depth scale weight bias biasExt rest =>
      match mkLinear env mode width rng depth scale (viewWeight g C _ weight) bias biasExt with
      | .error e => .error e
      | .ok m => match buildImg env N rest with
        | .error e => .error e
        | .ok r => .ok ((conv g p N C H W m).comp r)
  | .relu depth rest => match buildImg env N rest with
      | .error e => .error e
      | .ok r => .ok ((RMachine.ofMachine (reluImg depth)).comp r)
  | .hardtanh rest => match buildImg env N rest with
      | .error e => .error e
      | .ok r => .ok ((RMachine.ofMachine (Net.Machine.id _)).comp r)
  | .hardsigmoid mode depth rest =>
      match Adder.hardsigmoidMk mode depth with
      | .error e => .error e
      | .ok c => match buildImg env N rest with
        | .error e => .error e
        | .ok r => .ok ((RMachine.ofMachine (hardsigmoidImg c)).comp r)

end Verif.FloatNet
