import Verif.Proofs.Gen

namespace Verif.Gen

open Verif Finset Spec

theorem lfsrValue_succ (w : ℕ) (s : ℕ → Bool) :
    lfsrValue (w + 1) s = 2 * lfsrValue w s + (if s w then 1 else 0) := by
  unfold lfsrValue
  rw [sum_range_succ, mul_sum]
  congr 1
  · apply sum_congr rfl
    intro j hj
    have hj := mem_range.1 hj
    rw [show w + 1 - 1 - j = (w - 1 - j) + 1 by omega, pow_succ]; ring
  · simp

theorem lfsrValue_range (w : ℕ) (s : ℕ → Bool) : 0 ≤ lfsrValue w s ∧ lfsrValue w s < 2 ^ w := by
  induction w with
  | zero => simp [lfsrValue]
  | succ w ih =>
      rw [lfsrValue_succ, pow_succ]
      split <;> omega

theorem lfsrValue_inj {w : ℕ} {s s' : ℕ → Bool} (h : lfsrValue w s = lfsrValue w s') :
    ∀ j < w, s j = s' j := by
  induction w with
  | zero => intro j hj; omega
  | succ w ih =>
      rw [lfsrValue_succ, lfsrValue_succ] at h
      have h1 : lfsrValue w s = lfsrValue w s' := by split_ifs at h <;> omega
      have h2 : s w = s' w := by
        cases hs : s w <;> cases hs' : s' w <;> simp [hs, hs'] at h <;> first | rfl | omega
      intro j hj
      rcases Nat.lt_succ_iff_lt_or_eq.1 hj with hj | rfl
      · exact ih h1 j hj
      · exact h2

theorem lfsrValue_pos {w : ℕ} {s : ℕ → Bool} (h : ∃ j < w, s j = true) : 0 < lfsrValue w s := by
  rcases lt_or_eq_of_le (lfsrValue_range w s).1 with h1 | h1
  · exact h1
  · exfalso
    have h0 : lfsrValue w (fun _ => false) = 0 := by simp [lfsrValue]
    obtain ⟨j, hj, hs⟩ := h
    have := lfsrValue_inj (h0.trans h1) j hj
    simp [hs] at this

/-- The history of a maximal-length register of `w` cells: never the zero state, pairwise
distinct states for `2^w - 1` steps, then back to the first state. -/
structure MaxLength (w : ℕ) (states : ℕ → ℕ → Bool) : Prop where
  nonzero : ∀ t, ∃ j < w, states t j = true
  distinct : ∀ s t, s < t → t < 2 ^ w - 1 → ∃ j < w, states s j ≠ states t j
  wraps : ∀ j < w, states (2 ^ w - 1) j = states 0 j

theorem lfsrValue_congr {w : ℕ} {s s' : ℕ → Bool} (h : ∀ j < w, s j = s' j) :
    lfsrValue w s = lfsrValue w s' := by
  unfold lfsrValue
  exact sum_congr rfl fun j hj => by rw [h j (mem_range.1 hj)]

theorem lfsrSeq_split (w : ℕ) (st : ℕ → ℕ → Bool) (h : MaxLength w st) :
    lfsrSeq w st = (List.range (2 ^ w - 1)).map (fun i => lfsrValue w (st i)) ++ [lfsrValue w (st 0)] := by
  have hp : 0 < 2 ^ w := by positivity
  have e : 2 ^ w = (2 ^ w - 1) + 1 := by omega
  unfold lfsrSeq
  conv_lhs => rw [e]
  rw [List.range_succ, List.map_append, List.map_singleton, lfsrValue_congr h.wraps]

theorem lfsr_perm (w : ℕ) (st : ℕ → ℕ → Bool) (h : MaxLength w st) :
    IsPermSeq w ((List.range (2 ^ w - 1)).map (fun i => lfsrValue w (st i)) ++ [0]) := by
  have hp : 0 < 2 ^ w := by positivity
  have e : 2 ^ w = (2 ^ w - 1) + 1 := by omega
  have key := isPermSeq_of_injOn (w := w) (fun i => if i < 2 ^ w - 1 then lfsrValue w (st i) else 0)
    (fun i hi => by
      split
      · exact lfsrValue_range w _
      · exact ⟨le_refl _, by positivity⟩)
    (fun i hi j hj hij => by
      have inj : ∀ i j, i < 2 ^ w - 1 → j < 2 ^ w - 1 → i < j → lfsrValue w (st i) ≠ lfsrValue w (st j) := by
        intro i j hi hj hlt heq
        obtain ⟨k, hk, hne⟩ := h.distinct i j hlt hj
        exact hne (lfsrValue_inj heq k hk)

      split_ifs at hij with h1 h2 h2
      · rcases Nat.lt_trichotomy i j with hl | hl | hl
        · exact absurd hij (inj i j h1 h2 hl)
        · exact hl
        · exact absurd hij.symm (inj j i h2 h1 hl)
      · have := lfsrValue_pos (h.nonzero i); omega
      · have := lfsrValue_pos (h.nonzero j); omega
      · omega)
  have e2 : (List.range (2 ^ w)).map (fun i => if i < 2 ^ w - 1 then lfsrValue w (st i) else 0)
      = (List.range (2 ^ w - 1)).map (fun i => lfsrValue w (st i)) ++ [0] := by
    conv_lhs => rw [e]
    rw [List.range_succ, List.map_append, List.map_singleton]
    congr 1
    · apply List.map_congr_left
      intro i hi
      have := List.mem_range.1 hi
      simp; omega
    · simp
  rw [e2] at key
  exact key

end Verif.Gen
