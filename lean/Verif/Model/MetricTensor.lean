import Verif.Model.Tensor

/-!
# `ProgError` and `Stability` on tensors

As in `Model/Tensor.lean`: shapes list the last dimension first, every tensor operation is written out with broadcasting.  The
source is a tensor of floating-point type; its values and the observations are exact numbers.
-/

namespace Verif.Tens

open Verif

/-- `ProgError` on tensors, `metric/metric.py:77-85`; `pp` and `pe` are overwritten by every report before they are read. -/
structure PET where
  mode : Mode
  source : Tensor ℚ
  cycle : Tensor ℚ
  oneCnt : Tensor ℚ

/-- `ProgError.__init__`, `metric/metric.py:62-85`, for a scale other than zero (zero gives infinities or nan). -/
def peInitT (source : Tensor ℚ) (scale : ℚ) (mode : String) : Except PyErr PET := do
  let m ← parseMode mode                                                                 -- lines 78,80-81
  if scale = 0 then .error .nonfinite
  else pure ⟨m, map1 (fun v => clamp (-1) 1 (v / scale)) source, one 0, one 0⟩           -- lines 79,82-85

/-- `ProgError.Monitor`, `metric/metric.py:87-89`. -/
def PET.monitor (s : PET) (x : Tensor ℚ) : Except PyErr (PET × Unit) := do
  let c ← map2 (· + ·) s.oneCnt x                                                        -- line 88
  pure ({ s with oneCnt := c, cycle := map1 (fun v : ℚ => v + 1) s.cycle }, ())          -- line 89

/-- `ProgError.forward`, `metric/metric.py:91-96`; `0/0` before the first observation. -/
def PET.forward (s : PET) : Except PyErr (Tensor ℚ × Tensor ℚ) :=
  if s.cycle.at' [0] = 0 then .error .nonfinite
  else do
    let pp ← map2 (· / ·) s.oneCnt s.cycle                                               -- line 92
    let pp := match s.mode with                                                          -- lines 93-94
      | .bipolar => map1 (fun v : ℚ => v * 2 - 1) pp
      | .unipolar => pp
    let pe ← map2 (· - ·) pp s.source                                                    -- line 95
    pure (pp, pe)                                                                        -- line 96

/-- `Stability` on tensors, `metric/metric.py:119-129`. -/
structure StabT where
  threshold : ℚ
  cts : Tensor ℚ
  progerr : PET

/-- `Stability.__init__`, `metric/metric.py:105-129`: `cycle_to_stable` has the shape of the source. -/
def stabInitT (source : Tensor ℚ) (scale : ℚ) (mode : String) (threshold : ℚ) : Except PyErr StabT := do
  let p ← peInitT source scale mode
  pure ⟨threshold, map1 (fun _ => 0) source, p⟩                                          -- line 127

/-- `Stability.Monitor`, `metric/metric.py:131-135`: `mul_` and `add_` work in place. -/
def StabT.monitor (s : StabT) (x : Tensor ℚ) : Except PyErr (StabT × Unit) := do
  let (p, _) ← s.progerr.monitor x                                                       -- line 132
  let (_, pe) ← p.forward                                                                -- line 134
  let g : Tensor ℚ := map1 (fun v : ℚ => ind (|v| > s.threshold)) pe                     -- line 135
  let d ← map2 (· - ·) p.cycle s.cts
  let u ← map2In (· * ·) g d
  let cts ← map2In (· + ·) s.cts u
  pure ({ s with cts := cts, progerr := p }, ())

/-- `Stability.forward`, `metric/metric.py:137-139`. -/
def StabT.forward (s : StabT) : Except PyErr (Tensor ℚ) :=
  let n := s.progerr.cycle.at' [0]
  if n = 0 then .error .nonfinite
  else do
    let r ← map2 (· / ·) (map1 (clamp 1 n) s.cts) s.progerr.cycle
    pure (map1 (fun v : ℚ => 1 - v) r)

end Verif.Tens
