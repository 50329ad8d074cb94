import Verif.Model.Linear
import Verif.Model.Small

/-!
# Model of layers chained one after the other

The repository has no container of its own: users chain its layers with `torch.nn.Sequential` or in the `forward` of their
own module.  Every cycle the input bits go through all layers in order.
-/

namespace Verif.Net

open Verif Linear

/-- An object with a state that is called once per cycle. -/
structure Machine (α β : Type) where
  S : Type
  init : S
  step : S → α → Except PyErr (S × β)

/-- Result of call `t`. -/
def Machine.out {α β : Type} (m : Machine α β) (x : ℕ → α) (t : ℕ) : Except PyErr β := outAtE m.step m.init x t

/-- `torch.nn.Sequential` of two modules: the second one is called with the result of the first one. -/
def Machine.comp {α β γ : Type} (f : Machine α β) (g : Machine β γ) : Machine α γ where
  S := f.S × g.S
  init := (f.init, g.init)
  step := fun s a => do
    let r ← f.step s.1 a
    let q ← g.step s.2 r.2
    pure ((r.1, q.1), q.2)

/-- No module: `torch.nn.Identity`, in particular `FSUHardtanh`, `kernel/tanh.py:3-8`. -/
def Machine.id (α : Type) : Machine α α := ⟨Unit, (), fun _ a => .ok ((), a)⟩

/-- A module that treats all elements of a `(batch, features)` tensor alike.  Its state starts as a tensor with one element and
takes the shape of the first input by broadcasting: `FSUReLU.acc`, `kernel/relu.py:31,39`, `FSUAdd.accumulator`,
`kernel/add.py:54,95-99`.  The number of features is fixed by the type. -/
def lanes {σ : Type} {I : ℕ} (step : σ → ℤ → σ × ℤ) (s : List (Fin I → σ)) (rows : List (Fin I → ℤ)) :
    Except PyErr (List (Fin I → σ) × List (Fin I → ℤ)) := do
  let r ← zipLanes (fun (a : Fin I → σ) (x : Fin I → ℤ) (i : Fin I) => step (a i) (x i)) s rows
  pure (r.map fun (q : Fin I → σ × ℤ) (i : Fin I) => (q i).1, r.map fun (q : Fin I → σ × ℤ) (i : Fin I) => (q i).2)

/-- `FSUReLU` on a tensor, `kernel/relu.py:8-40`. -/
def relu (I : ℕ) (depth : ℤ) : Machine (List (Fin I → ℤ)) (List (Fin I → ℤ)) :=
  ⟨_, [fun _ => Small.accHalf depth], lanes (Small.reluStep depth)⟩

/-- `FSUHardsigmoid` on a tensor, `kernel/sigmoid.py:4-44`. -/
def hardsigmoid (I : ℕ) (cfg : Adder.Cfg) : Machine (List (Fin I → ℤ)) (List (Fin I → ℤ)) :=
  ⟨_, [fun _ => Adder.init cfg], lanes (Adder.hardsigmoidStep cfg)⟩

/-- `FSULinear`, called with its input only, `kernel/linear.py:95-99`. -/
def linear {I O : ℕ} (m : PC I O × Adder.Cfg) : Machine (List (Fin I → ℤ)) (List (Fin O → ℤ)) :=
  ⟨_, initLinear m, fun s rows => stepLinear m s { input := rows }⟩

/-- The arguments from which a chain of layers is built. -/
inductive Layers : ℕ → ℕ → Type
  | done {I : ℕ} : Layers I I
  | linear {I J O : ℕ} (mode : String) (width : ℕ) (rng : String) (depth : ℤ) (scale : Option ℚ) (weight : Fin J → Fin I → ℚ)
      (bias : Bool) (biasExt : Option (Fin J → ℚ)) (rest : Layers J O) : Layers I O
  | relu {I O : ℕ} (depth : ℕ) (rest : Layers I O) : Layers I O
  | hardtanh {I O : ℕ} (rest : Layers I O) : Layers I O
  | hardsigmoid {I O : ℕ} (mode : String) (depth : ℤ) (rest : Layers I O) : Layers I O

/-- Building the chain; the first constructor that raises stops it. -/
def build (env : Gen.Env) {I O : ℕ} : Layers I O → Except PyErr (Machine (List (Fin I → ℤ)) (List (Fin O → ℤ)))
  | .done => .ok (Machine.id _)
  | .linear mode width rng depth scale weight bias biasExt rest =>
      match mkLinear env mode width rng depth scale weight bias biasExt with
      | .error e => .error e
      | .ok m => match build env rest with
        | .error e => .error e
        | .ok r => .ok ((linear m).comp r)
  | .relu depth rest => match build env rest with
      | .error e => .error e
      | .ok r => .ok ((relu _ depth).comp r)
  | .hardtanh rest => match build env rest with
      | .error e => .error e
      | .ok r => .ok ((Machine.id _).comp r)
  | .hardsigmoid mode depth rest =>
      match Adder.hardsigmoidMk mode depth with
      | .error e => .error e
      | .ok c => match build env rest with
        | .error e => .error e
        | .ok r => .ok ((hardsigmoid _ c).comp r)

end Verif.Net
