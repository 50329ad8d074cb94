import Verif.Model.Gen
import Verif.Spec
import Mathlib.Data.List.Perm.Subperm
import Mathlib.Data.List.Nodup
import Mathlib.Data.List.Range
import Mathlib.Data.List.Count
import Mathlib.Algebra.BigOperators.Group.List.Basic

namespace Verif.Gen

open Verif Finset Spec

theorem sum_getD (f : ℤ → ℤ) (l : List ℤ) :
    ∑ t ∈ range l.length, f (l.getD t 0) = (l.map f).sum := by
  induction l with
  | nil => simp
  | cons a l ih =>
      rw [List.length_cons, sum_range_succ', List.map_cons, List.sum_cons]
      simp only [List.getD_cons_succ, List.getD_cons_zero]
      rw [ih]; ring

theorem sum_map_range (f : ℕ → ℤ) (n : ℕ) : ((List.range n).map f).sum = ∑ t ∈ range n, f t := by
  induction n with
  | zero => simp
  | succ n ih => rw [List.range_succ, List.map_append, List.sum_append, ih, sum_range_succ]; simp

theorem IsPermSeq.perm {w : ℕ} {rng : List ℤ} (h : IsPermSeq w rng) :
    rng.Perm ((List.range (2 ^ w)).map (fun x : ℕ => (x : ℤ))) := by
  have hnd : ((List.range (2 ^ w)).map (fun x : ℕ => (x : ℤ))).Nodup :=
    List.Nodup.map (fun a b h => by exact_mod_cast h) List.nodup_range
  have hsub : ((List.range (2 ^ w)).map (fun x : ℕ => (x : ℤ))) ⊆ rng := by
    intro v hv
    simp only [List.mem_map, List.mem_range] at hv
    obtain ⟨a, ha, rfl⟩ := hv
    have := h.2 a (by positivity) (by exact_mod_cast ha)
    exact List.count_pos_iff.1 (by omega)
  have := List.subperm_of_subset hnd hsub
  exact (this.perm_of_length_le (by simp [h.1])).symm

theorem isPermSeq_of_perm {w : ℕ} {rng : List ℤ}
    (h : rng.Perm ((List.range (2 ^ w)).map (fun x : ℕ => (x : ℤ)))) : IsPermSeq w rng := by
  refine ⟨by simpa using h.length_eq, fun v h0 h1 => ?_⟩
  rw [h.count_eq]
  have hnd : ((List.range (2 ^ w)).map (fun x : ℕ => (x : ℤ))).Nodup :=
    List.Nodup.map (fun a b h => by exact_mod_cast h) List.nodup_range
  apply List.count_eq_one_of_mem hnd
  simp only [List.mem_map, List.mem_range]
  refine ⟨v.toNat, ?_, by omega⟩
  have : (v.toNat : ℤ) < (2:ℤ) ^ w := by omega
  exact_mod_cast this

/-- A list given by an injective function into `[0, 2^w)` is a permutation sequence. -/
theorem isPermSeq_of_injOn {w : ℕ} (f : ℕ → ℤ) (hr : ∀ i < 2 ^ w, 0 ≤ f i ∧ f i < 2 ^ w)
    (hi : ∀ i < 2 ^ w, ∀ j < 2 ^ w, f i = f j → i = j) :
    IsPermSeq w ((List.range (2 ^ w)).map f) := by
  apply isPermSeq_of_perm
  have hnd : ((List.range (2 ^ w)).map f).Nodup :=
    List.Nodup.map_on (fun a ha b hb h => hi a (List.mem_range.1 ha) b (List.mem_range.1 hb) h)
      List.nodup_range
  have hsub : ((List.range (2 ^ w)).map f) ⊆ ((List.range (2 ^ w)).map (fun x : ℕ => (x : ℤ))) := by
    intro v hv
    simp only [List.mem_map, List.mem_range] at hv ⊢
    obtain ⟨a, ha, rfl⟩ := hv
    refine ⟨(f a).toNat, ?_, by have := (hr a ha).1; omega⟩
    have : ((f a).toNat : ℤ) < (2:ℤ) ^ w := by have := hr a ha; omega
    exact_mod_cast this
  exact (List.subperm_of_subset hnd hsub).perm_of_length_le (by simp)

theorem sum_ind_range (L : ℕ) (b : ℤ) :
    ∑ v ∈ range L, (ind (b > (v : ℤ)) : ℤ) = clamp 0 (L : ℤ) b := by
  induction L with
  | zero => simp [clamp]
  | succ L ih =>
      rw [sum_range_succ, ih]
      unfold clamp ind
      push_cast
      split_ifs <;> omega

/-- Ones carried by one pass over a permutation sequence. -/
theorem sum_period {w : ℕ} {rng : List ℤ} (h : IsPermSeq w rng) (b : ℤ) :
    ∑ t ∈ range (2 ^ w), (ind (b > rng.getD t 0) : ℤ) = clamp 0 (2 ^ w) b := by
  have h1 := sum_getD (fun v => (ind (b > v) : ℤ)) rng
  rw [h.1] at h1
  rw [h1]
  have h2 : (rng.map (fun v => (ind (b > v) : ℤ))).sum
      = (((List.range (2 ^ w)).map (fun x : ℕ => (x : ℤ))).map (fun v => (ind (b > v) : ℤ))).sum :=
    ((IsPermSeq.perm h).map _).sum_eq
  rw [h2, List.map_map]
  have h3 := sum_ind_range (2 ^ w) b
  push_cast at h3
  rw [← h3, sum_map_range]
  rfl

theorem bsGen_isBit (rng : List ℤ) (b c : ℤ) : IsBit (bsGen rng b c) := isBit_ind _

theorem bsGen_period (rng : List ℤ) (b c : ℤ) : bsGen rng b (c + rng.length) = bsGen rng b c := by
  unfold bsGen; simp

/-- Sliding a window over a periodic integer function does not change its sum. -/
theorem window_sum_periodic (f : ℤ → ℤ) (L : ℕ) (hf : ∀ c, f (c + L) = f c) (c : ℤ) :
    ∑ t ∈ range L, f (c + t) = ∑ t ∈ range L, f t := by
  have step : ∀ c : ℤ, ∑ t ∈ range L, f (c + 1 + t) = ∑ t ∈ range L, f (c + t) := by
    intro c
    have h1 := sum_range_succ' (fun t : ℕ => f (c + t)) L
    have h2 := sum_range_succ (fun t : ℕ => f (c + t)) L
    rw [h2] at h1
    simp only [Nat.cast_zero, add_zero, hf] at h1
    have h3 : ∑ t ∈ range L, f (c + 1 + t) = ∑ t ∈ range L, f (c + ((t + 1 : ℕ) : ℤ)) := by
      apply sum_congr rfl; intro t _; congr 1; push_cast; ring
    rw [h3]; linarith
  induction c using Int.induction_on with
  | zero => simp
  | succ n ih => rw [step, ih]
  | pred n ih =>
      have := step (-(n:ℤ) - 1)
      rw [← ih, ← this]
      apply sum_congr rfl; intro t _; congr 1; ring

theorem bsGen_nat (rng : List ℤ) (b : ℤ) {t : ℕ} (h : t < rng.length) :
    bsGen rng b t = ind (b > rng.getD t 0) := by
  unfold bsGen
  have : ((t : ℤ) % (rng.length : ℤ)).toNat = t := by
    rw [Int.emod_eq_of_lt (by positivity) (by exact_mod_cast h)]; simp
  rw [this]

theorem bsGen_natMod (rng : List ℤ) (b : ℤ) (t : ℕ) :
    bsGen rng b t = ind (b > rng.getD (t % rng.length) 0) := by
  unfold bsGen
  have : ((t : ℤ) % (rng.length : ℤ)).toNat = t % rng.length := by
    rw [← Int.natCast_mod, Int.toNat_natCast]
  rw [this]

end Verif.Gen
