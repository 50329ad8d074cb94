import Verif.Model.Net
import Verif.Model.Conv

/-!
# Model of convolutional layers chained one after the other

As `Model/Net.lean`, for image batches of shape `(N, C, H, W)`: convolutions and activations, then `torch.flatten(x, 1)` and a
chain of linear layers.
-/

namespace Verif.Net

open Verif Linear Conv

/-- A batch of images of bits. -/
abbrev Img := ℕ → ℕ → ℕ → ℕ → ℤ

/-- A module that treats all elements of an image batch alike; its state takes the shape of the first input by
broadcasting. -/
def pixels {σ : Type} (step : σ → ℤ → σ × ℤ) (s : ℕ → ℕ → ℕ → ℕ → σ) (x : Img) : Except PyErr ((ℕ → ℕ → ℕ → ℕ → σ) × Img) :=
  .ok (fun n c i j => (step (s n c i j) (x n c i j)).1, fun n c i j => (step (s n c i j) (x n c i j)).2)

/-- `FSUReLU` on an image batch, `kernel/relu.py:8-40`. -/
def reluImg (depth : ℤ) : Machine Img Img := ⟨_, fun _ _ _ _ => Small.accHalf depth, pixels (Small.reluStep depth)⟩

/-- `FSUHardsigmoid` on an image batch, `kernel/sigmoid.py:4-44`. -/
def hardsigmoidImg (cfg : Adder.Cfg) : Machine Img Img := ⟨_, fun _ _ _ _ => Adder.init cfg, pixels (Adder.hardsigmoidStep cfg)⟩

/-- `FSUConv2d` with integer padding, called with its input only, `kernel/conv.py:97-101`. -/
def conv {O : ℕ} (g : Geo) (p N C H W : ℕ) (m : PC (C * g.kh * g.kw) O × Adder.Cfg) : Machine Img Img :=
  ⟨_, initConv m, fun s x => stepConv g (.num p) N C H W m s { img := x }⟩

/-- `torch.flatten(x, 1)` of a batch of shape `(N, C, H, W)`. -/
def flatten (N C H W : ℕ) : Machine Img (List (Fin (C * H * W) → ℤ)) :=
  ⟨Unit, (), fun _ x => .ok ((), entries N C H W x)⟩

/-- The arguments from which a convolutional chain is built; `H'`, `W'` is the size of the images that come out of a
convolution. -/
inductive ImgLayers : ℕ → ℕ → ℕ → ℕ → Type
  | flatten {C H W O : ℕ} (rest : Layers (C * H * W) O) : ImgLayers C H W O
  | conv {C H W O : ℕ} (g : Geo) (p C' H' W' : ℕ) (mode : String) (width : ℕ) (rng : String) (depth : ℤ) (scale : Option ℚ)
      (weight : ℕ → ℕ → ℕ → ℕ → ℚ) (bias : Bool) (biasExt : Option (Fin C' → ℚ)) (rest : ImgLayers C' H' W' O) : ImgLayers C H W O
  | relu {C H W O : ℕ} (depth : ℕ) (rest : ImgLayers C H W O) : ImgLayers C H W O
  | hardtanh {C H W O : ℕ} (rest : ImgLayers C H W O) : ImgLayers C H W O
  | hardsigmoid {C H W O : ℕ} (mode : String) (depth : ℤ) (rest : ImgLayers C H W O) : ImgLayers C H W O

/-- Building the chain for batches of `N` images. -/
def buildImg (env : Gen.Env) (N : ℕ) {C H W O : ℕ} : ImgLayers C H W O → Except PyErr (Machine Img (List (Fin O → ℤ)))
  | .flatten rest => match build env rest with
      | .error e => .error e
      | .ok r => .ok ((flatten N C H W).comp r)
  | .conv g p _ _ _ mode width rng depth scale weight bias biasExt rest =>
      match mkConv env g C mode width rng depth scale weight bias biasExt with
      | .error e => .error e
      | .ok m => match buildImg env N rest with
        | .error e => .error e
        | .ok r => .ok ((conv g p N C H W m).comp r)
  | .relu depth rest => match buildImg env N rest with
      | .error e => .error e
      | .ok r => .ok ((reluImg depth).comp r)
  | .hardtanh rest => match buildImg env N rest with
      | .error e => .error e
      | .ok r => .ok ((Machine.id _).comp r)
  | .hardsigmoid mode depth rest =>
      match Adder.hardsigmoidMk mode depth with
      | .error e => .error e
      | .ok c => match buildImg env N rest with
        | .error e => .error e
        | .ok r => .ok ((hardsigmoidImg c).comp r)

end Verif.Net
