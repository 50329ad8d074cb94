import Verif.Model.Div
import Verif.Model.Add

/-!
# Model of `kernel/sqrt.py` (one lane)
-/

namespace Verif.Sqrt

open Verif Gen Small Shuffle Divider

/-- `FSUSqrt` configuration, `kernel/sqrt.py:46-57`. -/
structure Cfg where
  mode : Mode
  jkTrace : Bool
  emit : Bool
  entryKn : ℕ
  entrySr : ℕ

/-- Constructor checks, `kernel/sqrt.py:46-57`: the mode, and both entries a power of two (`log2(0)` raises). -/
def mk (mode : String) (jkTrace emit : Bool) (entryKn entrySr : ℕ) : Except PyErr Cfg := do
  let m ← parseMode mode
  if entryKn = 0 then .error .value
  else if 2 ^ Nat.log2 entryKn ≠ entryKn then .error .assertion
  else if entrySr = 0 then .error .value
  else if 2 ^ Nat.log2 entrySr ≠ entrySr then .error .assertion
  else pure ⟨m, jkTrace, emit, entryKn, entrySr⟩

/-- `FSUSqrt` state; the parts unused by a configuration keep their initial value.
`kernel/sqrt.py:59-127`.  `idx` (line 91) is never written after construction. -/
structure St where
  emitOut : ℤ
  nsadd : Adder.St
  sr : List ℤ
  idx : ℕ
  b2u : ℚ
  trace : ℤ
  jk : ℤ
  cor : Cor
  dff : ℤ

/-- Configuration of the internal non-scaled adder, `kernel/sqrt.py:62-73`. -/
def addCfg : Adder.Cfg := ⟨.unipolar, some 1, none, 10⟩

/-- `FSUSqrt.__init__`. -/
def init (cfg : Cfg) : St :=
  { emitOut := 0, nsadd := Adder.init addCfg, sr := srInit cfg.entrySr, idx := 0, b2u := 0, trace := 0,
    jk := 0, cor := corInit 4, dff := 0 }

/-- `unipolar_trace`, `kernel/sqrt.py:135-153`. -/
def unipolarTrace (cfg : Cfg) (rng : List ℤ) (s : St) (output : ℤ) : Except PyErr (St × ℤ) :=
  if cfg.jkTrace then                                             -- lines 137-139
    let (q, t) := jkStep s.jk ((output : ℚ), 1)
    .ok ({ s with jk := q }, t)
  else do                                                         -- lines 140-152
    let dividend := Int.land (1 - s.dff) output
    let divisor := s.dff + dividend
    let (cor, t) ← corStep 4 rng s.cor (dividend, divisor)
    pure ({ s with cor := cor, dff := 1 - s.dff }, t)

/-- `bipolar_trace`, `kernel/sqrt.py:129-133`. -/
def bipolarTrace (cfg : Cfg) (rng : List ℤ) (s : St) (output : ℤ) : Except PyErr (St × ℤ) :=
  let (b, out) := bi2uniStep 3 s.b2u output
  unipolarTrace cfg rng { s with b2u := b } out

/-- `unipolar_emit`, `kernel/sqrt.py:155-159`. -/
def unipolarEmit (cfg : Cfg) (s : St) (output : ℤ) : Except PyErr (St × ℤ) := do
  let inv := 1 - output
  let (sr, (scrambled, _)) ← srStep s.sr (inv, none, s.idx % cfg.entrySr)
  pure ({ s with sr := sr }, Int.land scrambled output)

/-- `bipolar_emit`, `kernel/sqrt.py:161-166`. -/
def bipolarEmit (cfg : Cfg) (s : St) (output : ℤ) : Except PyErr (St × ℤ) := do
  let inv := 1 - output
  let (sr, (scrambled, _)) ← srStep s.sr (inv, none, s.idx % cfg.entrySr)
  let (b, uni) := bi2uniStep 3 s.b2u output
  pure ({ s with sr := sr, b2u := b }, Int.land scrambled uni)

/-- `FSUSqrt.forward`, `kernel/sqrt.py:168-184`, for a history of constant shape (line 170-171 then only
replaces the initial zero by zeros).  `rng` is the number sequence configured by the user: the
emitting variant builds it (line 90) but never reads it. -/
def step (cfg : Cfg) (rng : List ℤ) (s : St) (input : ℤ) : Except PyErr (St × ℤ) :=
  if cfg.emit then do
    let (add, output) := Adder.step addCfg s.nsadd { xs := [(input : ℚ), (s.emitOut : ℚ)] }  -- lines 172-173
    let s1 := { s with nsadd := add }
    let (s2, e) ← match cfg.mode with                              -- lines 174-177
      | .bipolar => bipolarEmit cfg s1 output
      | .unipolar => unipolarEmit cfg s1 output
    pure ({ s2 with emitOut := e }, output)
  else do
    let output := Int.land (1 - s.trace) input + s.trace           -- line 179
    let (s2, t) ← match cfg.mode with                              -- lines 180-183
      | .bipolar => bipolarTrace cfg rng s output
      | .unipolar => unipolarTrace cfg rng s output
    pure ({ s2 with trace := t }, output)

end Verif.Sqrt
