import Verif.Proofs.ShareHub

/-!
# C108: the hybrid recurrent cell is a function of its present tensors
-/

namespace Verif.Props

open Verif.Share

/-- Calls of a `HUBMGUCell` built with tensors the caller holds (at `ext`) and goes on using: the caller reads what it would
read if tensors were values and every call took the present values of the tensors at `ext`, of the input and of the state, made
an `FSUMGUCell` from them and ran it. -/
theorem C108_hub_mgu (wtc hasBias : Bool) (cycles : ℕ) (N : HubNums) (F : ℕ × Bool → ℕ → Nums)
    (al : ℕ × Bool → ℕ → ℕ → Bool) (hN : ∀ vs, (N.init vs).length = 34) (h : Mem) (held : List ℕ) (hh : Apart h held)
    (ext : List ℕ) (he : ∀ k ∈ ext, k < held.length) (ds : List (Deed ℕ Vec)) :
    World.readV (hubMguModule (ext.filterMap fun k => held[k]?) wtc hasBias cycles N F al) ⟨(), h, held⟩ ds =
      Verif.Spec.valueRead (Verif.Spec.hubStep wtc hasBias cycles N F al) ((), held.map h.vec) (ds.map (Deed.given ext)) :=
  hub_run wtc hasBias cycles N F al hN h held hh ext he ds

/-- After whatever was done before, a call returns a fixed function of what the caller then reads in the tensors the cell was
built with and in the arguments; everything the caller holds is unchanged by it. -/
theorem C108_present (wtc hasBias : Bool) (cycles : ℕ) (N : HubNums) (F : ℕ × Bool → ℕ → Nums)
    (al : ℕ × Bool → ℕ → ℕ → Bool) (hN : ∀ vs, (N.init vs).length = 34) :
    ∃ G : ℕ → List Vec → Vec, ∀ (h : Mem) (held : List ℕ), Apart h held → ∀ ext : List ℕ, (∀ k ∈ ext, k < held.length) →
      ∀ (ds : List (Deed ℕ Vec)) (t : ℕ) (ks : List ℕ),
        let read := World.readV (hubMguModule (ext.filterMap fun k => held[k]?) wtc hasBias cycles N F al) ⟨(), h, held⟩
        read (ds ++ [.call t ks]) = read ds ++ [G t ((ext ++ ks).filterMap fun k => (read ds)[k]?)] := by
  refine ⟨Verif.Spec.hubMgu wtc hasBias cycles N F al, fun h held hh ext he ds t ks => ?_⟩
  dsimp only
  rw [hub_run wtc hasBias cycles N F al hN h held hh ext he, hub_run wtc hasBias cycles N F al hN h held hh ext he,
    List.map_append]
  simp only [Verif.Spec.valueRead, List.foldl_append, List.map_cons, List.map_nil, List.foldl_cons, List.foldl_nil,
    Deed.given, Verif.Spec.valueAct]

/-- A write into a tensor the caller holds changes that tensor and no other, whether the cell was built with it or not. -/
theorem C108_write (wtc hasBias : Bool) (cycles : ℕ) (N : HubNums) (F : ℕ × Bool → ℕ → Nums)
    (al : ℕ × Bool → ℕ → ℕ → Bool) (hN : ∀ vs, (N.init vs).length = 34) (h : Mem) (held : List ℕ) (hh : Apart h held)
    (ext : List ℕ) (he : ∀ k ∈ ext, k < held.length) (ds : List (Deed ℕ Vec)) (k : ℕ) (v : Vec) :
    let read := World.readV (hubMguModule (ext.filterMap fun k => held[k]?) wtc hasBias cycles N F al) ⟨(), h, held⟩
    read (ds ++ [.poke k v]) = (read ds).set k v := by
  dsimp only
  rw [hub_run wtc hasBias cycles N F al hN h held hh ext he, hub_run wtc hasBias cycles N F al hN h held hh ext he,
    List.map_append]
  simp only [Verif.Spec.valueRead, List.foldl_append, List.map_cons, List.map_nil, List.foldl_cons, List.foldl_nil,
    Deed.given, Verif.Spec.valueAct]

private def hubMem : Mem := (((Mem.empty.new 7).1.new 3).1.new 2).1

private theorem hubApart : Apart hubMem [0, 1, 2] := ⟨by decide, by decide⟩

/-- The tensors of the cell all hold the first tensor given. -/
private def hubNums : HubNums where
  init := fun vs => List.replicate 34 (vs.getD 0 0)
  ibs := fun vs c => fun i => vs.getD 1 0 i + c
  hbs := fun vs c => fun i => vs.getD 2 0 i - c
  res := fun _ os => fun i => (os.map (· i)).sum

private def hubOps : Nums := fun op vs => if op % 4 = 0 then fun i => (vs.map (· i)).sum else vs.headD 0

/-- What the caller writes into a tensor the cell was built with shows in the next result: the cell copies when called, not
when built. -/
theorem C108_write_shows :
    ∃ (N : HubNums) (F : ℕ × Bool → ℕ → Nums) (al : ℕ × Bool → ℕ → ℕ → Bool) (h : Mem) (held : List ℕ) (v : Vec),
      (∀ vs, (N.init vs).length = 34) ∧ Apart h held ∧ held.length = 3 ∧
      let read := World.readV (hubMguModule ([0].filterMap fun k => held[k]?) true true 1 N F al) ⟨(), h, held⟩
      (read [.poke 0 v, .call 1 [1, 2]]).drop 3 ≠ (read [.call 1 [1, 2]]).drop 3 := by
  refine ⟨hubNums, fun _ _ => hubOps, fun _ _ _ => true, hubMem, [0, 1, 2], 8, fun _ => List.length_replicate, hubApart, rfl,
    fun he => ?_⟩
  rw [C108_hub_mgu true true 1 hubNums (fun _ _ => hubOps) (fun _ _ _ => true) (fun _ => List.length_replicate) hubMem
    [0, 1, 2] hubApart [0] (by decide), C108_hub_mgu true true 1 hubNums (fun _ _ => hubOps) (fun _ _ _ => true)
    (fun _ => List.length_replicate) hubMem [0, 1, 2] hubApart [0] (by decide),
    show ([0, 1, 2] : List ℕ).map hubMem.vec = [7, 3, 2] from rfl] at he
  refine absurd (congrArg (List.map fun v : Vec => v 0) he) ?_
  decide +kernel

/-! ## Examples -/

/-- Two calls with the same arguments, a write into the weight between the second and a third. -/
private def hubRun : List (Deed ℕ Vec) :=
  [.call 1 [1, 2], .poke 3 100, .call 1 [1, 2], .poke 0 8, .call 1 [1, 2], .poke 0 7, .call 1 [1, 2]]

example : ∀ vs, (hubNums.init vs).length = 34 := fun _ => List.length_replicate

example : Apart hubMem [0, 1, 2] ∧ ∀ k ∈ [0], k < [0, 1, 2].length := ⟨hubApart, by decide⟩

example : (World.readV (hubMguModule ([0].filterMap fun k => [0, 1, 2][k]?) true true 1 hubNums (fun _ _ => hubOps)
    (fun _ _ _ => true)) ⟨(), hubMem, [0, 1, 2]⟩ hubRun).map (fun v : Vec => v 0) =
    [7, 3, 2, 100, 14, 16, 14] := by
  rw [C108_hub_mgu true true 1 hubNums (fun _ _ => hubOps) (fun _ _ _ => true) (fun _ => List.length_replicate) hubMem
    [0, 1, 2] hubApart [0] (by decide)]
  rw [show ([0, 1, 2] : List ℕ).map hubMem.vec = [7, 3, 2] from rfl]
  decide +kernel

end Verif.Props
