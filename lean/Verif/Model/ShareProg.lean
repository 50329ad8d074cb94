import Verif.Model.ShareDeep

/-!
# Model of tensor objects, storages and sharing: layers

The layers are written as lists of tensor operations.  What an operation computes is left open (any
function of the elements); what matters is which object it makes, which storage it writes and which
storage a parameter gets.
-/

namespace Verif.Share

/-- The elements of a storage. -/
abbrev Vec := ℕ → ℚ

/-- All elements of the storage of an object. -/
def Mem.vec (h : Mem) (o : ℕ) : Vec := h.cell (h.st o)

/-- Writing all elements in place: `add_`, `+=`, `out=`. -/
def Mem.fill (h : Mem) (o : ℕ) (v : Vec) : Mem := ⟨h.obj, Function.update h.cell (h.st o) v, h.next⟩

/-- What each operation of a call computes, by its number. -/
abbrev Nums := ℕ → List Vec → Vec

/-- One tensor operation.  Operands are positions in the list of all tensors of the call: the parameters,
the arguments, then what the call has made.  `op` is the number of the operation.
* `new`: an operation that makes a tensor (`+`, `>>`, `matmul`, `cat`, `gt`, `unfold`, `clone`, …);
* `view`: another object on the same storage (`unsqueeze`, `view`, `transpose`, `expand_as`, `detach`);
* `like`: an operation that may or may not copy (`type`, `reshape`): another object on the same storage, or
  a tensor of its own;
* `write`: an operation in place (`add_`, `+=`, `out=`), the target being an operand only if listed;
* `assign`: `p.data = t`, also `self.p = t` for a parameter the caller cannot reach. -/
inductive Ins where
  | new (op : ℕ) (srcs : List ℕ)
  | view (src : ℕ)
  | like (op : ℕ) (src : ℕ)
  | write (dst : ℕ) (op : ℕ) (srcs : List ℕ)
  | assign (dst src : ℕ)

/-- One operation in memory.  `al`: whether an operation that may copy does not. -/
def Ins.exec (F : Nums) (al : ℕ → Bool) (w : Mem × List ℕ) : Ins → Mem × List ℕ
  | .new op srcs => let t := w.1.new (F op (srcs.map fun i => w.1.vec (w.2.getD i 0))); (t.1, w.2 ++ [t.2])
  | .view s => let t := w.1.view (w.2.getD s 0) 0; (t.1, w.2 ++ [t.2])
  | .like op s =>
    if al op then let t := w.1.view (w.2.getD s 0) 0; (t.1, w.2 ++ [t.2])
    else let t := w.1.new (F op [w.1.vec (w.2.getD s 0)]); (t.1, w.2 ++ [t.2])
  | .write d op srcs => (w.1.fill (w.2.getD d 0) (F op (srcs.map fun i => w.1.vec (w.2.getD i 0))), w.2)
  | .assign d s => (w.1.setData (w.2.getD d 0) (w.2.getD s 0), w.2)

/-- The operations of a call and the positions of its results; they may depend on attributes that are not
tensors, on the method and its arguments that are not tensors, shapes included, and on the number of
tensors given. -/
abbrev Prog (L τ : Type) := L → τ → ℕ → L × List Ins × List ℕ

/-- The module with these parameters and operations. -/
def progModule {L τ : Type} (ps : List ℕ) (prog : Prog L τ) (F : L → τ → Nums) (al : L → τ → ℕ → Bool) :
    Module L τ where
  ps := ps
  call := fun l h t args =>
    let p := prog l t args.length
    let r := p.2.1.foldl (Ins.exec (F l t) (al l t)) (h, ps ++ args)
    (p.1, r.1, p.2.2.map fun i => r.2.getD i 0)

/-! ## The caller -/

/-- One deed on whole tensors. -/
def World.actV {L τ : Type} (m : Module L τ) (w : World L) : Deed τ Vec → World L
  | .make v => let t := w.h.new v; ⟨w.l, t.1, w.held ++ [t.2]⟩
  | .poke k v => match w.held[k]? with
    | some o => ⟨w.l, w.h.fill o v, w.held⟩
    | none => w
  | .call t ks =>
    let r := m.call w.l w.h t (ks.filterMap fun k => w.held[k]?)
    ⟨r.1, r.2.1, w.held ++ r.2.2⟩

/-- What the caller reads in the tensors it holds after a list of deeds. -/
def World.readV {L τ : Type} (m : Module L τ) (w : World L) (ds : List (Deed τ Vec)) : List Vec :=
  let w' := ds.foldl (World.actV m) w
  w'.held.map w'.h.vec

end Verif.Share
