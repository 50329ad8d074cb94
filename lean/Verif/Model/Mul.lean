import Verif.Model.Gen
import Verif.Model.Small

/-!
# Model of `kernel/mul.py` (one lane)
-/

namespace Verif.Multiplier

open Verif Gen Small

/-- `FSUMul` state: `rng_idx`, `rng_idx_inv` (`kernel/mul.py:62,67,74,76`) and the shift register
(line 73). -/
structure St where
  idx : ℤ
  idxInv : ℤ
  sr : List ℤ

/-- Constructor state, `kernel/mul.py:53-76`: `entry = 2**width` (line 41). -/
def init (width : ℕ) : St := ⟨0, 0, srInit (2 ^ width)⟩

/-- Constructor of the static multiplier, `kernel/mul.py:46-60`: mode check, then the generator, then
`in_1_prob` is required, then binary conversion.  Result: parsed mode, number sequence, integer
multiplier. -/
def mkStatic (env : Env) (mode : String) (width : ℕ) (rngName : String) (prob : Option ℚ) :
    Except PyErr (Mode × List ℤ × ℤ) := do
  let m ← parseMode mode                                  -- lines 46-48
  let r ← rng env width rngName                           -- line 51
  match prob with                                         -- lines 55-57
  | none => .error .assertion
  | some p =>
      let b ← binGen mode width p                         -- line 59
      let r' ← bsGenInit r                                -- lines 60,66
      pure (m, r', b)

/-- One call of a static multiplier, `kernel/mul.py:79-92`. -/
def stepStatic (mode : Mode) (rng : List ℤ) (binary : ℤ) (s : St) (in0 : ℤ) : St × ℤ :=
  let path := Int.land in0 (bsGen rng binary s.idx)                          -- line 81
  let idx' := s.idx + in0                                                     -- line 83
  match mode with
  | .unipolar => ({ s with idx := idx' }, path)                               -- lines 85-86
  | .bipolar =>
      let pathInv := Int.land (1 - in0) (1 - bsGen rng binary s.idxInv)       -- line 89
      let idxInv' := s.idxInv + (1 - in0)                                     -- line 91
      ({ s with idx := idx', idxInv := idxInv' }, Int.lor path pathInv)       -- line 92

/-- `self.rng[self.rng_idx]` with an index already reduced modulo the length. -/
def rngAt (rng : List ℤ) (idx : ℤ) : ℤ := rng.getD idx.toNat 0

/-- One call of an in-stream multiplier, `kernel/mul.py:94-105`; `entry = 2**width`. -/
def stepStream (mode : Mode) (width : ℕ) (rng : List ℤ) (s : St) (i : ℤ × ℤ) : St × ℤ :=
  let in0 := i.1
  let source := s.sr.sum                                                      -- line 94
  let sr' := srShift s.sr i.2 none
  let path := Int.land in0 (ind (source > rngAt rng s.idx))                   -- line 95
  let idx' := (s.idx + in0) % (2 ^ width)                                     -- line 96
  match mode with
  | .unipolar => (⟨idx', s.idxInv, sr'⟩, path)                                -- lines 98-99
  | .bipolar =>
      let pathInv := Int.land (1 - in0) (1 - ind (source > rngAt rng s.idxInv))  -- line 102
      let idxInv' := (s.idxInv + (1 - in0)) % (2 ^ width)                     -- line 104
      (⟨idx', idxInv', sr'⟩, Int.lor path pathInv)                            -- line 105

end Verif.Multiplier
