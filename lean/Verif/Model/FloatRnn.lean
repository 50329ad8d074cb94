import Verif.Model.FloatTlut
import Verif.Model.Rnn

/-!
# Recurrent cells executed in binary32

`HardMGUCell(hard=True)` and `HardMGUCellFXP(hard=True)` of `Verif.Model.Rnn` with the arithmetic of `Verif.Model.Float`.  The soft
activations (`torch.nn.Sigmoid`, `torch.nn.Tanh`) have no specified rounding and are not modelled.
-/

namespace Verif.Float

open Verif Linear Rnn

/-- `v` is a result `F.linear(x, w, b)` may give for one row and one output: the products and the bias are added in any order and
grouping, with or without fusing. -/
def LinF {J H : ℕ} (w : Fin H → Fin J → ℚ) (b : Option (Fin H → ℚ)) (x : Fin J → ℚ) (o : Fin H) (v : ℚ) : Prop :=
  FDot ((b.elim [] fun c => [(c o, 1)]) ++ List.ofFn fun i => (x i, w o i)) v

/-- `HUBHardsigmoid()`, `kernel/sigmoid.py:47-56`: `torch.nn.Hardsigmoid()(x * 3)`, which is `relu6(y + 3) / 6`. -/
def hardsigmF (x : ℚ) : ℚ := fdiv (clamp 0 6 (fadd (fmul x 3) 3)) 6

/-- `t` are attributes and result one call of `HardMGUCell(hard=True).forward` may give for one row, `kernel/rnn.py:264-282`. -/
def HardCellF {I H : ℕ} (p : Params ℚ I H) (x : Fin I → ℚ) (hx : Fin H → ℚ) (t : Trace ℚ H) : Prop :=
  (∀ o, ∃ v, LinF p.wf p.bf (Fin.append hx x) o v ∧ t.fgIn o = hardtanh v) ∧                          -- lines 269-270
  (∀ o, t.fg o = hardsigmF (t.fgIn o)) ∧                                                              -- line 271
  (∀ o, t.fgHx o = fmul (t.fg o) (hx o)) ∧                                                            -- line 274
  (∀ o, ∃ v, LinF p.wn p.bn (Fin.append t.fgHx x) o v ∧ t.ng o = hardtanh v) ∧                        -- lines 275-276
  (∀ o, t.fgNg o = fmul (t.fg o) (t.ng o)) ∧                                                          -- line 279
  (∀ o, t.fgNgInv o = fsub 0 (t.fgNg o)) ∧                                                            -- line 280
  (∀ o, t.hy o = hardtanh (fadd (fadd (t.ng o) (t.fgNgInv o)) (t.fgHx o)))                            -- line 281

/-- `Round(i, f)` on a float, `kernel/utils.py:181-182,195-206`. -/
def roundF (i f : ℤ) (x : ℚ) : ℚ :=
  shiftF (clamp (fl (1 - (2 : ℚ) ^ (i + f))) (fl ((2 : ℚ) ^ (i + f) - 1)) (roundHE (lshiftF x f) : ℚ)) f

/-- `t` are attributes and result one call of `HardMGUCellFXP(hard=True).forward` may give for one row, `kernel/rnn.py:325-343`. -/
def FxpCellF {I H : ℕ} (i f : ℤ) (p : Params ℚ I H) (x : Fin I → ℚ) (hx : Fin H → ℚ) (t : Trace ℚ H) : Prop :=
  let tr := roundF i f
  let trw := fun (w : Fin H → Fin (H + I) → ℚ) (o : Fin H) (k : Fin (H + I)) => tr (w o k)
  let trb := fun (b : Option (Fin H → ℚ)) => b.map fun v (o : Fin H) => tr (v o)
  let cat := fun (h : Fin H → ℚ) (k : Fin (H + I)) => tr (Fin.append (fun o => tr (h o)) (fun k => tr (x k)) k)
  (∀ o, ∃ v, LinF (trw p.wf) (trb p.bf) (cat hx) o v ∧ t.fgIn o = hardtanh v) ∧                       -- lines 330-331
  (∀ o, t.fg o = hardsigmF (tr (t.fgIn o))) ∧                                                         -- line 332
  (∀ o, t.fgHx o = fmul (tr (t.fg o)) (tr (hx o))) ∧                                                  -- line 335
  (∀ o, ∃ v, LinF (trw p.wn) (trb p.bn) (cat t.fgHx) o v ∧ t.ng o = hardtanh (tr v)) ∧                -- lines 336-337
  (∀ o, t.fgNg o = fmul (tr (t.fg o)) (tr (t.ng o))) ∧                                                -- line 340
  (∀ o, t.fgNgInv o = fsub 0 (tr (t.fgNg o))) ∧                                                       -- line 341
  (∀ o, t.hy o = hardtanh (fadd (fadd (tr (t.ng o)) (tr (t.fgNgInv o))) (tr (t.fgHx o))))             -- line 342

/-- `r` is a result `forward(input, hx)` may give on a batch, `kernel/rnn.py:264-282,325-343`: `torch.cat` raises when the numbers of
rows differ. -/
def ForwardF {I H : ℕ} (cell : (Fin I → ℚ) → (Fin H → ℚ) → Trace ℚ H → Prop) (x : List (Fin I → ℚ)) (hx : Option (List (Fin H → ℚ)))
    (r : Except PyErr (List (Trace ℚ H))) : Prop :=
  let h := hx.getD (x.map fun _ _ => 0)
  if x.length ≠ h.length then r = .error .runtime
  else ∃ out, r = .ok out ∧ List.Forall₂ (fun (a : (Fin I → ℚ) × (Fin H → ℚ)) t => cell a.1 a.2 t) (x.zip h) out

end Verif.Float
