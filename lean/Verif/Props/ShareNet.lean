import Verif.Proofs.ShareNet

/-!
# C107: several layers and cells in one process
-/

namespace Verif.Props

open Verif.Share

/-- Any number of layers and cells, called in any order, with results of one given to another, kept,
written into and given again: the caller reads what it would read if tensors were values and each call changed
the state of the layer called and nothing else. -/
theorem C107_net {n : ℕ} (ys : Fin n → Layer) (F : ∀ i, (ys i).Attr → ℕ → Nums) (al : ∀ i, (ys i).Attr → ℕ → ℕ → Bool)
    (vs : Fin n → List Vec) (hk : ∀ i, (vs i).length = (ys i).size) (h : Mem) (held : List ℕ) (hh : Apart h held)
    (l : ∀ i, (ys i).Attr) (ds : List (Deed (Fin n × ℕ) Vec)) :
    World.readV (netModule fun i : Fin n => progModule ((h.layers (List.ofFn fun i => (vs i).map .own)).2.getD i [])
        (ys i).prog (F i) (al i)) ⟨l, (h.layers (List.ofFn fun i => (vs i).map .own)).1, held⟩ ds =
      Verif.Spec.valueRead (Verif.Spec.netStep fun i => Verif.Spec.valueProg (ys i).prog (F i) (al i))
        (fun i => (l i, vs i), held.map h.vec) ds :=
  net_run (fun i => (ys i).prog) F al vs (fun i => by rw [hk i]; exact chk_layer (ys i)) h held hh l ds

/-- A layer does not notice the others: if it is made alone and the calls to the others are replaced by
making the tensors they returned, the caller reads the same. -/
theorem C107_alone {n : ℕ} (ys : Fin n → Layer) (F : ∀ i, (ys i).Attr → ℕ → Nums) (al : ∀ i, (ys i).Attr → ℕ → ℕ → Bool)
    (vs : Fin n → List Vec) (hk : ∀ i, (vs i).length = (ys i).size) (h : Mem) (held : List ℕ) (hh : Apart h held)
    (l : ∀ i, (ys i).Attr) (ds : List (Deed (Fin n × ℕ) Vec)) (i : Fin n) :
    let r := h.layers (List.ofFn fun i => (vs i).map .own)
    let net := fun i : Fin n => progModule (r.2.getD i []) (ys i).prog (F i) (al i)
    let one := h.params ((vs i).map .own)
    World.readV (netModule net) ⟨l, r.1, held⟩ ds =
      World.readV (progModule one.2 (ys i).prog (F i) (al i)) ⟨l i, one.1, held⟩ (World.solo net i ⟨l, r.1, held⟩ ds) :=
  net_solo (fun i => (ys i).prog) F al vs (fun i => by rw [hk i]; exact chk_layer (ys i)) h held hh l ds i

/-- Weights, biases, tables and random numbers of a layer never change, whatever is done with it, with the other layers
and with the tensors the caller holds. -/
theorem C107_weights {n : ℕ} (ys : Fin n → Layer) (F : ∀ i, (ys i).Attr → ℕ → Nums) (al : ∀ i, (ys i).Attr → ℕ → ℕ → Bool)
    (vs : Fin n → List Vec) (hk : ∀ i, (vs i).length = (ys i).size) (h : Mem) (held : List ℕ) (hh : Apart h held)
    (l : ∀ i, (ys i).Attr) (ds : List (Deed (Fin n × ℕ) Vec)) (i : Fin n) (j : ℕ) (hj : j ∈ (ys i).weights) :
    let r := h.layers (List.ofFn fun i => (vs i).map .own)
    (ds.foldl (World.actV (netModule fun i : Fin n => progModule (r.2.getD i []) (ys i).prog (F i) (al i)))
      ⟨l, r.1, held⟩).h.vec ((r.2.getD i []).getD j 0) = (vs i).getD j 0 :=
  net_keep (fun i => (ys i).prog) F al vs (fun i => by rw [hk i]; exact chk_layer (ys i)) h held hh l ds i j
    (by rw [hk i]; exact weights_lt (ys i) j hj) fun l t n => List.all_eq_true.mp (kp_layer (ys i) l t n) j hj

/-! ## Examples -/

private def netMem : Mem := ((Mem.empty.new 7).1.new 3).1

private theorem netApart : Apart netMem [0, 1] := ⟨by decide, by decide⟩

/-- A layer with a table, an adder, an activation and a second layer. -/
private def exNet : Fin 4 → Layer
  | 0 => .hubLinear true
  | 1 => .add true
  | 2 => .relu
  | 3 => .linearPC ⟨true, true, true⟩

private def exAttr : ∀ i, (exNet i).Attr
  | 0 => ()
  | 1 => true
  | 2 => ()
  | 3 => (1 : ℕ)

private def exVals (i : Fin 4) : List Vec := List.replicate (exNet i).size 1

/-- Through the four layers, a write into a tensor between them, and once more. -/
private def exRun : List (Deed (Fin 4 × ℕ) Vec) :=
  [.call (0, 1) [0], .call (1, 1) [2], .call (2, 1) [3], .call (3, 1) [4], .poke 3 100, .poke 0 5,
   .call (0, 1) [0], .call (1, 1) [3], .call (2, 1) [4], .call (3, 1) [4]]

private def exNums : Nums := fun op vs => fun i => (vs.map (· i)).sum + op

example : Apart netMem [0, 1] := netApart

example : ∀ i, (exVals i).length = (exNet i).size := fun i => by simp [exVals]

example : (World.readV (netModule fun i : Fin 4 => progModule
    ((netMem.layers (List.ofFn fun i => (exVals i).map .own)).2.getD i []) (exNet i).prog (fun _ _ => exNums) (fun _ _ _ => true))
    ⟨exAttr, (netMem.layers (List.ofFn fun i => (exVals i).map .own)).1, [0, 1]⟩ exRun).map (fun v : Vec => v 0) =
    [5, 3, 357, 100, 391, 963, 349, 925, 391, 1791] := by
  rw [C107_net exNet (fun _ _ _ => exNums) (fun _ _ _ _ => true) exVals (fun i => by simp [exVals]) netMem [0, 1] netApart exAttr exRun]
  rw [show ([0, 1] : List ℕ).map netMem.vec = [7, 3] from rfl]
  decide +kernel

example : (2 : ℕ) ∈ (exNet 0).weights ∧ (5 : ℕ) ∈ (exNet 3).weights := by decide

end Verif.Props
