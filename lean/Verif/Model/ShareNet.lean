import Verif.Model.ShareLayer
import Mathlib.Data.List.FinRange

/-!
# Model of tensor objects, storages and sharing: several modules in one process
-/

namespace Verif.Share

/-- Modules used side by side: a call names the module it goes to.  Each module has its own attributes and
its own parameters; the memory is common. -/
def netModule {n : ℕ} {L : Fin n → Type} {τ : Type} (m : ∀ i, Module (L i) τ) : Module (∀ i, L i) (Fin n × τ) where
  ps := (List.finRange n).flatMap fun i => (m i).ps
  call := fun l h t args =>
    let r := (m t.1).call (l t.1) h t.2 args
    (Function.update l t.1 r.1, r.2.1, r.2.2)

/-- Modules made one after the other. -/
def Mem.layers (h : Mem) : List (List Origin) → Mem × List (List ℕ)
  | [] => (h, [])
  | os :: rest =>
    let t := h.params os
    let r := t.1.layers rest
    (r.1, t.2 :: r.2)

/-- A module of this package made without tensors of the caller, with its options. -/
inductive Layer where
  /-- `FSULinearPC`, `kernel/linear.py:102-274`. -/
  | linearPC (c : PCOptions)
  /-- `FSULinear`, `kernel/linear.py:8-99`. -/
  | linear (c : PCOptions)
  /-- `FSUConv2dPC`, `kernel/conv.py:104-343`. -/
  | convPC (c : PCOptions)
  /-- `FSUConv2d`, `kernel/conv.py:12-102`. -/
  | conv (c : PCOptions)
  /-- `FSUAdd`, `kernel/add.py:3-100`. -/
  | add (bipolar : Bool)
  /-- `HUBLinear`, `kernel/linear.py:277-505`. -/
  | hubLinear (hasBias : Bool)
  /-- `FXPLinear`, `kernel/linear.py:507-631`. -/
  | fxpLinear (hasBias : Bool)
  /-- `HUBConv2d`, `kernel/conv.py:346-520`. -/
  | hubConv (hasBias : Bool)
  /-- `FXPConv2d`, `kernel/conv.py:522-611`. -/
  | fxpConv (hasBias : Bool)
  /-- `TLUTLinear`, `kernel/linear.py:633-978`; `deg`: the number of rounds. -/
  | tlutLinear (mode : TLUTMode) (tin hasBias : Bool) (deg : ℕ)
  /-- `TLUTConv2d`, `kernel/conv.py:613-780`. -/
  | tlutConv (mode : TLUTMode) (tin hasBias : Bool) (deg : ℕ)
  /-- `HardMGUCell`, `kernel/rnn.py:227-283`. -/
  | mgu
  /-- `HardMGUCellFXP`, `kernel/rnn.py:285-344`. -/
  | mguFxp
  /-- `FSUMGUCell`, `kernel/rnn.py:18-146`. -/
  | fsuMgu (wtc hasBias : Bool)
  /-- `HUBReLU(inplace=False)`, `kernel/relu.py:43-52`. -/
  | relu

/-- The attributes that are not tensors: the batch size the layer last saw, whether the adder has yet to see its first call. -/
def Layer.Attr : Layer → Type
  | .linearPC _ | .convPC _ => ℕ
  | .linear _ | .conv _ | .fsuMgu _ _ => ℕ × Bool
  | .add _ => Bool
  | _ => Unit

/-- The number of tensors. -/
def Layer.size : Layer → ℕ
  | .linearPC _ => 7
  | .linear _ => 10
  | .convPC _ => 9
  | .conv _ => 12
  | .add _ => 3
  | .hubLinear _ | .hubConv _ => 3
  | .fxpLinear _ | .fxpConv _ | .tlutLinear _ _ _ _ | .tlutConv _ _ _ _ => 2
  | .mgu | .mguFxp => 4
  | .fsuMgu _ _ => 34
  | .relu => 0

/-- The operations of a call, `t` being the batch size. -/
def Layer.prog : (y : Layer) → Prog y.Attr ℕ
  | .linearPC c => linearPCProg c
  | .linear c => linearProg c
  | .convPC c => convPCProg c
  | .conv c => convProg c
  | .add b => addProg b
  | .hubLinear b => hubLinearProg (L := Unit) b
  | .fxpLinear b => fxpLinearProg (L := Unit) b
  | .hubConv b => hubConvProg (L := Unit) b
  | .fxpConv b => fxpConvProg (L := Unit) b
  | .tlutLinear m a b d => tlutLinearProg (L := Unit) m a b d
  | .tlutConv m a b d => tlutConvProg (L := Unit) m a b d
  | .mgu => mguProg (L := Unit)
  | .mguFxp => mguFxpProg (L := Unit)
  | .fsuMgu a b => fsuMguProg a b
  | .relu => reluProg (L := Unit) false

/-- The tensors that are weights, biases, tables or random numbers. -/
def Layer.weights : Layer → List ℕ
  | .linearPC _ | .linear _ => [0, 1, 4, 5]
  | .convPC _ | .conv _ => [0, 1, 4, 5, 8]
  | .hubLinear _ | .hubConv _ => [0, 1, 2]
  | .fxpLinear _ | .fxpConv _ | .tlutLinear _ _ _ _ | .tlutConv _ _ _ _ => [0, 1]
  | .mgu | .mguFxp => [0, 1, 2, 3]
  | .fsuMgu _ _ => [0, 1, 4, 5, 10, 11, 14, 15, 23, 24, 28]
  | .add _ | .relu => []

/-- The same deeds without the other modules: where one of them is called, the caller makes the tensors it
returned. -/
def World.solo {n : ℕ} {L : Fin n → Type} {τ : Type} (m : ∀ i, Module (L i) τ) (i : Fin n) :
    World (∀ i, L i) → List (Deed (Fin n × τ) Vec) → List (Deed τ Vec)
  | _, [] => []
  | w, d :: ds =>
    let w' := World.actV (netModule m) w d
    let rest := World.solo m i w' ds
    match d with
    | .make v => .make v :: rest
    | .poke k v => .poke k v :: rest
    | .call t ks =>
      if t.1 = i then .call t.2 ks :: rest
      else ((w'.held.drop w.held.length).map fun o => .make (w'.h.vec o)) ++ rest

end Verif.Share
