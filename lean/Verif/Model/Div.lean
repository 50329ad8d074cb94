import Verif.Model.Gen
import Verif.Model.Small
import Verif.Model.Shuffle

/-!
# Model of `kernel/div.py` (one lane)
-/

namespace Verif.Divider

open Verif Gen Small Shuffle

/-- `CORDIV_kernel` state, `kernel/div.py:33,43,45`. -/
structure Cor where
  cells : List ℤ
  idx : ℕ
  historicQ : ℤ

/-- `CORDIV_kernel.__init__`, `kernel/div.py:32-45`. -/
def corInit (entry : ℕ) : Cor := ⟨srInit entry, 0, 1⟩

/-- Width of the generator, `int(math.log2(entry))`, `kernel/div.py:35`. -/
def corWidth (entry : ℕ) : ℕ := Nat.log2 entry

/-- `CORDIV_kernel.__init__`, `kernel/div.py:34-42`: the number sequence of a kernel; `log2(0)` raises. -/
def corMk (env : Env) (entry : ℕ) (rngName : String) : Except PyErr (List ℤ) :=
  if entry = 0 then .error .value else rng env (corWidth entry) rngName

/-- One call of `CORDIV_kernel`, `kernel/div.py:47-59`.  `rng` has length `2^corWidth entry`; reading it or the
register out of range raises `IndexError`. -/
def corStep (entry : ℕ) (rng : List ℤ) (s : Cor) (i : ℤ × ℤ) : Except PyErr (Cor × ℤ) :=
  let eq1 : ℤ := ind (i.2 = 1)                                            -- line 50
  match rng[s.idx % entry]? with                                          -- line 51
  | none => .error .index
  | some r =>
    match s.cells[r.toNat]? with
    | none => .error .index
    | some hq =>
      let q := eq1 * i.1 + (1 - eq1) * hq                                 -- line 54
      .ok (⟨srShift s.cells q (some eq1), s.idx + 1, hq⟩, q)              -- lines 52,57,59

/-- `FSUDiv` state, `kernel/div.py:106-131`. -/
structure St where
  accDividend : ℚ
  accDivisor : ℚ
  b2uDividend : ℚ
  b2uDivisor : ℚ
  u2b : ℚ
  ss : SS
  cor : Cor

/-- `FSUDiv.__init__`. -/
def init (depthSa : ℤ) (entryKn : ℕ) : St :=
  ⟨accHalf depthSa, accHalf depthSa, 0, 0, 0, ssInit, corInit entryKn⟩

/-- Constructor checks of `FSUDiv` and the sequence of its kernel, `kernel/div.py:94-96,126-131`. -/
def mk (env : Env) (mode : String) (entryKn : ℕ) (rngName : String) : Except PyErr (Mode × List ℤ) := do
  let m ← parseMode mode                                                  -- lines 94-96
  let r ← corMk env entryKn rngName                                       -- line 131
  pure (m, r)

/-- `FSUDiv.unipolar_forward`, `kernel/div.py:143-146`, for a lane of a tensor of shape `shape`. -/
def uniStep (depthSs entryKn : ℕ) (rng : List ℤ) (shape : List ℕ) (s : St) (i : ℤ × ℤ) :
    Except PyErr (St × ℤ) := do
  let (ss, o) := ssStep depthSs s.ss (shape, i)                           -- line 144
  let (cor, q) ← corStep entryKn rng s.cor o                              -- line 145
  pure ({ s with ss := ss, cor := cor }, q)

/-- `FSUDiv.bipolar_forward`, `kernel/div.py:133-141`. -/
def biStep (depthSa : ℤ) (depthSs entryKn : ℕ) (rng : List ℤ) (shape : List ℕ) (s : St) (i : ℤ × ℤ) :
    Except PyErr (St × ℤ) := do
  let (a1, (sg1, ab1)) := signAbsStep depthSa s.accDividend i.1           -- line 134
  let (a2, (sg2, ab2)) := signAbsStep depthSa s.accDivisor i.2            -- line 135
  let (b1, u1) := bi2uniStep 3 s.b2uDividend ab1                          -- line 136
  let (b2, u2) := bi2uniStep 3 s.b2uDivisor ab2                           -- line 137
  let (s', q) ← uniStep depthSs entryKn rng shape
    { s with accDividend := a1, accDivisor := a2, b2uDividend := b1, b2uDivisor := b2 } (u1, u2)  -- line 138
  let (u, bq) := uni2biStep 4 s'.u2b q                                    -- line 139
  pure ({ s' with u2b := u }, Int.xor (Int.xor sg1 sg2) bq)               -- lines 140-141

/-- `FSUDiv.forward`, `kernel/div.py:148-153`. -/
def step (mode : Mode) (depthSa : ℤ) (depthSs entryKn : ℕ) (rng : List ℤ) (shape : List ℕ) (s : St)
    (i : ℤ × ℤ) : Except PyErr (St × ℤ) :=
  match mode with
  | .bipolar => biStep depthSa depthSs entryKn rng shape s i
  | .unipolar => uniStep depthSs entryKn rng shape s i

end Verif.Divider
