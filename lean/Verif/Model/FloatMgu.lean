import Verif.Model.FloatNet
import Verif.Model.Rnn

/-!
# `FSUMGUCell` and `HUBMGUCell` executed in binary32

As in `Verif.Model.Rnn`, with sums, accumulators, stored numbers and the monitor in `torch.float`.  The decorator `autocast` acts on CUDA devices only and is
taken to do nothing.
-/

namespace Verif.FloatNet

open Verif Linear
open Verif.Float (fl fadd fsub FSum addConfigure addAccumulate peMonitor peValue)
open Verif.Rnn (Fsu FsuSt Bits rowsOf)

/-- `FSUMGUCell.__init__`, `kernel/rnn.py:25-114`, as `Rnn.mkFsu` with number sequences and `BinGen` in binary32. -/
def mkFsu {B I H : ℕ} (env : Gen.Env) (mode : String) (width depthIsmul : ℕ) (rngName : String) (depth : ℤ)
    (wf wn : Fin H → Fin (H + I) → ℚ) (bias : Bool) (bf bn : Option (Fin H → ℚ)) (hxBuffer : Option (Fin B → Fin H → ℚ)) :
    Except PyErr (Fsu B I H) :=
  if mode.toLower ≠ "bipolar" then .error .assertion                                                -- lines 60-61
  else if bias = true ∧ (bf = none ∨ bn = none) then .error .attribute                              -- lines 65-67
  else do
    let f ← mkLinear env mode width rngName depth (some 1) wf bias bf                               -- lines 69-79
    let n ← mkLinear env mode width rngName depth (some 1) wn bias bn                               -- lines 80-82
    let sigm ← Adder.mk mode none none depth                                                        -- lines 83-90
    let m ← parseMode mode
    let r ← Gen.rng env width rngName                                                               -- lines 91-98, `kernel/mul.py:46-60`
    match hxBuffer with
    | none => .error .assertion
    | some hb =>
        let r' ← Gen.bsGenInit r
        let rn ← Gen.rng env depthIsmul rngName                                                     -- lines 99-106
        let out ← Adder.mk mode (some 1) (some 3) depth                                             -- lines 107-114
        pure ⟨m, f, n, sigm, seq r', fun b o => Float.binGen m width (hb b o), depthIsmul, seq rn, out⟩

/-- One element of `FSUAdd.forward` in binary32, `kernel/add.py:58-99`: the addends are summed in some order. -/
def AddStep (cfg : Adder.Cfg) (s : Adder.St) (xs : List ℚ) (s' : Adder.St) (out : ℤ) : Prop :=
  ∃ v, FSum xs v ∧ addAccumulate cfg (addConfigure cfg s { xs := xs }) v = (s', out)

/-- One call of an in-stream multiplier for a given sum of its register, `kernel/mul.py:94-105`. -/
def streamStep (mode : Mode) (width : ℕ) (rng : List ℤ) (source : ℚ) (s : Multiplier.St) (i : ℤ × ℤ) : Multiplier.St × ℤ :=
  let in0 := i.1
  let sr' := Small.srShift s.sr i.2 none
  let path := Int.land in0 (ind (source > (Multiplier.rngAt rng s.idx : ℚ)))                        -- line 95
  let idx' := (s.idx + in0) % (2 ^ width)                                                           -- line 96
  match mode with
  | .unipolar => (⟨idx', s.idxInv, sr'⟩, path)                                                      -- lines 98-99
  | .bipolar =>
      let pathInv := Int.land (1 - in0) (1 - ind (source > (Multiplier.rngAt rng s.idxInv : ℚ)))    -- line 102
      let idxInv' := (s.idxInv + (1 - in0)) % (2 ^ width)                                           -- line 104
      (⟨idx', idxInv', sr'⟩, Int.lor path pathInv)                                                  -- line 105

/-- One call of an in-stream multiplier in binary32: the register is summed in some order (`kernel/shiftreg.py:41`). -/
def StreamMul (mode : Mode) (width : ℕ) (rng : List ℤ) (s : Multiplier.St) (i : ℤ × ℤ) (s' : Multiplier.St) (out : ℤ) : Prop :=
  ∃ source, FSum (s.sr.map fun n : ℤ => (n : ℚ)) source ∧ streamStep mode width rng source s i = (s', out)

/-- `FSUMGUCell.forward(input, hx)` in binary32, `kernel/rnn.py:126-145`; the static product works on integers. -/
def fsu {B I H : ℕ} (c : Fsu B I H) : RMachine ((Fin B → Fin I → ℤ) × (Fin B → Fin H → ℤ)) (Bits B H) where
  S := FsuSt B I H
  init := c.init
  step := fun s a s' r => ∃ fgInL ngL : List (Fin H → ℤ),
    (linear c.f).step s.f (List.ofFn fun b => Fin.append (a.2 b) (a.1 b)) s'.f fgInL ∧ r.fgIn = rowsOf fgInL ∧               -- lines 132-133
    (∀ b o, AddStep c.sigm (s.sigm b o) [(r.fgIn b o : ℚ), 1] (s'.sigm b o) (r.fg b o)) ∧                                    -- line 134
    (∀ b o, Multiplier.stepStatic c.mode c.hxRng (c.hxBin b o) (s.hx b o) (r.fg b o) = (s'.hx b o, r.fgHx b o)) ∧            -- line 137
    (linear c.n).step s.n (List.ofFn fun b => Fin.append (r.fgHx b) (a.1 b)) s'.n ngL ∧ r.ng = rowsOf ngL ∧                  -- lines 138-139
    (∀ b o, StreamMul c.mode c.ngWidth c.ngRng (s.ng b o) (r.fg b o, r.ng b o) (s'.ng b o) (r.fgNg b o)) ∧                   -- line 142
    ∀ b o, AddStep c.out (s.out b o) [(r.ng b o : ℚ), fsub 1 (r.fgNg b o), (r.fgHx b o : ℚ)] (s'.out b o) (r.hy b o)         -- lines 143-144

/-- `y` is a result that `HUBMGUCell.forward(input, hx)` may have in binary32, `kernel/rnn.py:192-224`: a cell is built, called `2**width` times on the
streams of input and state, and the outputs are counted. -/
def HubMgu {B I H : ℕ} (env : Gen.Env) (mode : String) (width depthIsmul : ℕ) (rngName : String) (depth : ℤ)
    (wf wn : Fin H → Fin (H + I) → ℚ) (bias : Bool) (bf bn : Option (Fin H → ℚ))
    (x : Fin B → Fin I → ℚ) (hx? : Option (Fin B → Fin H → ℚ)) (y : Fin B → Fin H → ℚ) : Prop :=
  let hx := hx?.getD fun _ _ => 0                                                                   -- lines 194-195
  ∃ c m r l, mkFsu env mode width depthIsmul rngName depth wf wn bias bf bn (some hx) = .ok c ∧     -- lines 197-200
    parseMode mode = .ok m ∧ Gen.rng env width rngName = .ok r ∧ Gen.bsGenInit r = .ok l ∧          -- lines 202-208
    ∃ (st : ℕ → FsuSt B I H) (pe : ℕ → Fin B → Fin H → ℚ × ℚ),
      st 0 = c.init ∧ (pe 0 = fun _ _ => (0, 0)) ∧                                                  -- lines 210-211
      (∀ t < 2 ^ width, ∃ q, (fsu c).step (st t)                                                    -- lines 213-220
          (fun b i => Gen.bsGen (seq l) (Float.binGen m width (x b i)) t, fun b o => Gen.bsGen (seq l) (Float.binGen m width (hx b o)) t)
          (st (t + 1)) q ∧
        pe (t + 1) = fun b o => peMonitor (pe t b o) (q.hy b o)) ∧                                  -- line 221
      y = fun b o => peValue m (pe (2 ^ width) b o)                                                 -- line 223

end Verif.FloatNet
