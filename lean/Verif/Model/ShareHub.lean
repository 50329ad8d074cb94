import Verif.Model.ShareLayer

/-!
# Model of tensor objects, storages and sharing: a cell that makes another in every call
-/

namespace Verif.Share

/-- What `HUBMGUCell` computes (`kernel/rnn.py:197-223`), left open: the tensors of the cell it makes from the tensors
given (`init`), the bits
of input and state in each cycle (`ibs`, `hbs`), and the result
from the tensors given and the bits the cell returned (`res`). -/
structure HubNums where
  init : List Vec → List Vec
  ibs : List Vec → ℕ → Vec
  hbs : List Vec → ℕ → Vec
  res : List Vec → List Vec → Vec

/-- The cycles of `HUBMGUCell.forward`, `kernel/rnn.py:213-221`: the bits of the input, the bits of the state, the call of the
cell on both; `n` tensors are given. -/
def hubCycles (N : HubNums) (vs : List Vec) (n batch cycles : ℕ) : List (Deed ℕ Vec) :=
  (List.range cycles).flatMap fun c =>
    [.make (N.ibs vs c), .make (N.hbs vs c), .call batch [n + 3 * c, n + 3 * c + 1]]

/-- `HUBMGUCell.forward`, `kernel/rnn.py:192-224`, on the tensors it was built with followed by the input and the state
(no state given: the zeros made in line 195 are part of what is computed).  A call makes a `FSUMGUCell`, whose constructor
copies (C106), runs it for `cycles` cycles and makes the result.  The generators and the error metric are made in the call and
are part of what is computed. -/
def hubCall (wtc hasBias : Bool) (cycles : ℕ) (N : HubNums) (F : ℕ × Bool → ℕ → Nums) (al : ℕ × Bool → ℕ → ℕ → Bool)
    (h : Mem) (batch : ℕ) (args : List ℕ) : Mem × ℕ :=
  let vs := args.map h.vec
  let r := h.params ((N.init vs).map .own)
  let w := (hubCycles N vs args.length batch cycles).foldl
    (World.actV (progModule r.2 (fsuMguProg wtc hasBias) F al)) ⟨(1, true), r.1, args⟩
  w.h.new (N.res vs ((List.range cycles).map fun c => (w.held.map w.h.vec).getD (args.length + 3 * c + 2) 0))

/-- `HUBMGUCell`: it keeps the objects `ext` it was built with, `kernel/rnn.py:184-187`, and nothing else that a call
changes. -/
def hubMguModule (ext : List ℕ) (wtc hasBias : Bool) (cycles : ℕ) (N : HubNums) (F : ℕ × Bool → ℕ → Nums)
    (al : ℕ × Bool → ℕ → ℕ → Bool) : Module Unit ℕ where
  ps := []
  call := fun _ h batch xs =>
    let t := hubCall wtc hasBias cycles N F al h batch (ext ++ xs)
    ((), t.1, [t.2])

end Verif.Share
