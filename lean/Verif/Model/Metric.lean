import Verif.Basic

/-!
# Model of `metric/metric.py` (one lane)
-/

namespace Verif.Metric

open Verif

/-! ## Correlation -/

/-- `Correlation` state, `metric/metric.py:11-16`. -/
structure Corr where
  d : ℚ
  c : ℚ
  b : ℚ
  a : ℚ
  len : ℚ
  in1d : ℚ
  deriving DecidableEq

def Corr.init : Corr := ⟨0, 0, 0, 0, 0, 0⟩

/-- `Correlation.Monitor` on one-element tensors, `metric/metric.py:18-30`. -/
def Corr.monitor (s : Corr) (in1 : ℚ) (in2? : Option ℚ) : Corr :=
  let in2 := match in2? with                                -- lines 19-21
    | none => s.in1d
    | some y => y
  let in1d := match in2? with
    | none => in1
    | some _ => s.in1d
  let i10 : ℚ := ind (in1 = 0)                              -- lines 22-25
  let i11 := 1 - i10
  let i20 : ℚ := ind (in2 = 0)
  let i21 := 1 - i20
  { d := s.d + i10 * i20                                    -- lines 26-30
    c := s.c + i10 * i21
    b := s.b + i11 * i20
    a := s.a + i11 * i21
    len := s.len + 1
    in1d := in1d }

/-- `Correlation.forward`, `metric/metric.py:32-53`. -/
def Corr.forward (s : Corr) : ℚ :=
  let adbc := s.a * s.d - s.b * s.c                         -- line 33
  let gt : ℚ := ind (adbc > 0)                              -- line 34
  let le := 1 - gt                                          -- line 35
  let ab := s.a + s.b
  let ac := s.a + s.c
  let amd := s.a - s.d
  let corrGt := adbc / max (min ab ac * s.len - ab * ac) 1  -- lines 41-46
  let corrLe := adbc / max (ab * ac - max amd 0 * s.len) 1  -- lines 47-52
  gt * corrGt + le * corrLe                                 -- line 53

/-! ## ProgError -/

/-- `ProgError` state, `metric/metric.py:77-85`. -/
structure PE where
  mode : Mode
  source : ℚ
  cycle : ℚ
  oneCnt : ℚ
  pp : ℚ
  pe : ℚ

/-- `torch.clamp(source/scale, -1, 1)`, `metric/metric.py:79`.  Division by a zero scale gives
`±inf`, which clamps to `±1`, and `0/0` gives `nan`. -/
def scaledSource (source scale : ℚ) : Except PyErr ℚ :=
  if scale = 0 then
    if source > 0 then .ok 1 else if source < 0 then .ok (-1) else .error .nonfinite
  else .ok (clamp (-1) 1 (source / scale))

/-- `ProgError.__init__`, `metric/metric.py:62-85`.  (A `nan` source is only reported once it is
used; the model reports it at construction.) -/
def PE.init (source scale : ℚ) (mode : String) : Except PyErr PE := do
  let m ← parseMode mode                                     -- lines 78,80-81
  let s ← scaledSource source scale                          -- line 79
  pure ⟨m, s, 0, 0, 0, 0⟩

/-- `ProgError.Monitor`, `metric/metric.py:87-89`. -/
def PE.monitor (s : PE) (x : ℚ) : PE := { s with oneCnt := s.oneCnt + x, cycle := s.cycle + 1 }

/-- `ProgError.forward`, `metric/metric.py:91-96`.  With no observation it divides `0/0`. -/
def PE.forward (s : PE) : Except PyErr (PE × ℚ × ℚ) :=
  if s.cycle = 0 then .error .nonfinite
  else
    let pp := s.oneCnt / s.cycle                             -- line 92
    let pp := match s.mode with                              -- lines 93-94
      | .bipolar => pp * 2 - 1
      | .unipolar => pp
    let pe := pp - s.source                                  -- line 95
    .ok ({ s with pp := pp, pe := pe }, pp, pe)              -- line 96

/-! ## Stability -/

/-- `Stability` state, `metric/metric.py:119-129`. -/
structure Stab where
  threshold : ℚ
  cts : ℚ
  progerr : PE

/-- `Stability.__init__`, `metric/metric.py:105-129`. -/
def Stab.init (source scale : ℚ) (mode : String) (threshold : ℚ) : Except PyErr Stab := do
  let p ← PE.init source scale mode
  pure ⟨threshold, 0, p⟩

/-- `Stability.Monitor`, `metric/metric.py:131-135`. -/
def Stab.monitor (s : Stab) (x : ℚ) : Except PyErr Stab := do
  let p := s.progerr.monitor x                               -- line 132
  let cycle := p.cycle                                       -- line 133
  let (p, _, pe) ← p.forward                                 -- line 134
  let cts := s.cts + ind (|pe| > s.threshold) * (cycle - s.cts)  -- line 135
  pure { s with cts := cts, progerr := p }

/-- `Stability.forward`, `metric/metric.py:137-139`.  Before any observation it divides by zero
(`self.cycle` still is the zero of line 125). -/
def Stab.forward (s : Stab) : Except PyErr ℚ :=
  if s.progerr.cycle = 0 then .error .nonfinite
  else .ok (1 - clamp 1 s.progerr.cycle s.cts / s.progerr.cycle)

end Verif.Metric
