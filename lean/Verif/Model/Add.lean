import Verif.Basic
import Verif.Model.Shuffle

/-!
# Model of `kernel/add.py` (one lane: one position of the non-summed dimensions)
-/

namespace Verif.Adder

open Verif Shuffle

/-- `FSUAdd` configuration after the mode check, `kernel/add.py:33-50`. -/
structure Cfg where
  mode : Mode
  scale : Option ℚ
  entry : Option ℚ
  depth : ℤ

/-- `FSUAdd` state, `kernel/add.py:44,54-59`. -/
structure St where
  first : Bool
  entry : Option ℚ
  scaleCarry : ℚ
  offset : ℚ
  acc : ℚ

/-- Arguments of one call: the entries along the summed dimension and the optional runtime
`scale` and `entry`, `kernel/add.py:61`. -/
structure Arg where
  xs : List ℚ
  scale : Option ℚ := none
  entry : Option ℚ := none

/-- `FSUAdd.__init__`, `kernel/add.py:54-59`. -/
def init (cfg : Cfg) : St := ⟨true, cfg.entry, 1, 0, 0⟩

/-- `FSUAdd.__init__` with the mode check of `kernel/add.py:33-35`. -/
def mk (mode : String) (scale entry : Option ℚ) (depth : ℤ) : Except PyErr Cfg := do
  let m ← parseMode mode
  pure ⟨m, scale, entry, depth⟩

/-- The configuration part of a call, `kernel/add.py:62-93`. -/
def configure (cfg : Cfg) (s : St) (a : Arg) : St :=
  if s.first then                                           -- line 62
    let entry : ℚ := match a.entry with                     -- lines 63-73
      | some e => e
      | none => match s.entry with
        | none => a.xs.length
        | some e => e
    let sc : ℚ := match a.scale with                        -- lines 75-85
      | some c => c
      | none => match cfg.scale with
        | none => entry
        | some c => c
    let off : ℚ := match cfg.mode with                      -- lines 87-88
      | .bipolar => (entry - sc) / 2
      | .unipolar => s.offset
    { first := false, entry := some entry, scaleCarry := sc, offset := off, acc := s.acc }
  else s                                                    -- lines 92-93

/-- The accumulation part of a call, `kernel/add.py:95-99`. -/
def accumulate (cfg : Cfg) (s : St) (a : Arg) : St × ℤ :=
  let b := accBound cfg.depth                                                 -- lines 47-49
  let delta := a.xs.sum - s.offset                                            -- line 95
  let acc1 := clamp (-b) b (s.acc + delta)                                    -- line 96
  let out : ℤ := ind (acc1 ≥ s.scaleCarry)                                    -- line 97
  let acc2 := clamp (-b) b (acc1 - out * s.scaleCarry)                        -- line 98
  ({ s with acc := acc2 }, out)                                               -- line 99

/-- `FSUAdd.forward`, `kernel/add.py:61-99`. -/
def step (cfg : Cfg) (s : St) (a : Arg) : St × ℤ :=
  accumulate cfg (configure cfg s a) a

/-! ## FSUHardsigmoid -/

/-- The adder inside `FSUHardsigmoid`: scale `2`, entry `None`, `kernel/sigmoid.py:31-41`. -/
def hardsigmoidMk (mode : String) (depth : ℤ) : Except PyErr Cfg := mk mode (some 2) none depth

/-- One call of `FSUHardsigmoid`: the input stacked with a one, `kernel/sigmoid.py:43-44`. -/
def hardsigmoidStep (cfg : Cfg) (s : St) (x : ℤ) : St × ℤ := step cfg s { xs := [(x : ℚ), 1] }

end Verif.Adder
