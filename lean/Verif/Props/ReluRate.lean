import Verif.Props.Rate
import Verif.Props.Small

/-!
# Property C72, first part: activations on steady streams
-/

namespace Verif.Props

open Verif Finset Small

private theorem half_pow' (d : ℕ) (hd : 1 ≤ d) : accHalf d = ((2 ^ (d - 1) : ℤ) : ℚ) ∧ accMax d = ((2 * 2 ^ (d - 1) - 1 : ℤ) : ℚ) := by
  obtain ⟨k, rfl⟩ : ∃ k, d = k + 1 := ⟨d - 1, by omega⟩
  unfold accHalf accMax
  have e : ((k + 1 : ℕ) : ℤ) - 1 = (k : ℤ) := by push_cast; ring
  rw [e, zpow_natCast, zpow_natCast]
  push_cast
  exact ⟨by simp, by simp; ring⟩

private theorem relu_out (depth : ℤ) (x : ℕ → ℤ) (hx : Verif.Spec.BitStream x) (t : ℕ) :
    reluOut depth x t = if stateAt (reluStep depth) (accHalf depth) x t ≥ accHalf depth then x t else 1 := by
  have e : reluOut depth x t = Int.lor (x t) (1 - ind (stateAt (reluStep depth) (accHalf depth) x t ≥ accHalf depth)) := rfl
  rw [e]
  split_ifs with h
  · rw [ind_true h]
    rcases hx t with h | h <;> rw [h] <;> decide
  · rw [ind_false h]
    rcases hx t with h | h <;> rw [h] <;> decide

/-- The counter of a fresh `FSUReLU` relative to the middle of its range. -/
private theorem relu_lane (d : ℕ) (hd : 1 ≤ d) (x : ℕ → ℤ) (hx : Verif.Spec.BitStream x) :
    ∃ a : ℕ → ℤ, a 0 = 0 ∧ (∀ t, -1 ≤ a t ∧ a t ≤ 2 ^ (d - 1) - 1) ∧
      (∀ t, a (t + 1) = min (a t + (2 * reluOut d x t - 1)) (2 ^ (d - 1) - 1)) ∧
      ∀ t, reluOut d x t = if 0 ≤ a t then x t else 1 := by
  obtain ⟨h1, h2⟩ := half_pow' d hd
  have hp : (1:ℤ) ≤ 2 ^ (d - 1) := one_le_pow₀ (by norm_num)
  generalize (2:ℤ) ^ (d - 1) = S at *
  have key : ∀ n, ∃ a : ℤ, stateAt (reluStep d) (accHalf d) x n = ((S + a : ℤ) : ℚ) ∧ -1 ≤ a ∧ a ≤ S - 1 := by
    intro n
    induction n with
    | zero => exact ⟨0, by rw [stateAt_zero, h1]; simp, by omega, by omega⟩
    | succ n ih =>
        obtain ⟨a, e, l, u⟩ := ih
        have ho := relu_out d x hx n
        rw [e, h1] at ho
        simp only [ge_iff_le, Int.cast_le] at ho
        have hb := hx n
        have es : stateAt (reluStep d) (accHalf d) x (n + 1) = clamp 0 (accMax d) (((S + a : ℤ) : ℚ) + ((reluOut d x n : ℚ) * 2 - 1)) := by
          rw [← e]; rfl
        refine ⟨min (a + (2 * reluOut d x n - 1)) (S - 1), ?_, ?_, min_le_right _ _⟩
        · rw [es, h2]
          have hge : -1 ≤ a + (2 * reluOut d x n - 1) := by
            split_ifs at ho <;> rcases hb with hb | hb <;> omega
          generalize reluOut d x n = o at *
          have e2 : ((S + a : ℤ) : ℚ) + ((o:ℚ) * 2 - 1) = ((S + (a + (2 * o - 1)) : ℤ) : ℚ) := by push_cast; ring
          rw [e2]
          unfold clamp
          rw [max_eq_left (by exact_mod_cast (by omega : (0:ℤ) ≤ S + (a + (2 * o - 1))))]
          rcases le_total (a + (2 * o - 1)) (S - 1) with h | h
          · rw [min_eq_left h, min_eq_left (by exact_mod_cast (by omega))]
          · rw [min_eq_right h, min_eq_right (by exact_mod_cast (by omega))]
            push_cast; ring
        · split_ifs at ho <;> rcases hb with hb | hb <;> omega
  choose a ha using key
  have hout : ∀ t, reluOut d x t = if 0 ≤ a t then x t else 1 := by
    intro t
    have ho := relu_out d x hx t
    rw [(ha t).1, h1] at ho
    simp only [ge_iff_le, Int.cast_le] at ho
    rw [ho]
    by_cases h : 0 ≤ a t
    · rw [if_pos h, if_pos (by omega)]
    · rw [if_neg h, if_neg (by omega)]
  refine ⟨a, ?_, fun t => (ha t).2, fun t => ?_, hout⟩
  · have := (ha 0).1
    rw [stateAt_zero, h1] at this
    have : S = S + a 0 := by exact_mod_cast this
    omega
  · have es : stateAt (reluStep d) (accHalf d) x (t + 1) = clamp 0 (accMax d) (((S + a t : ℤ) : ℚ) + ((reluOut d x t : ℚ) * 2 - 1)) := by
      rw [← (ha t).1]; rfl
    rw [(ha (t + 1)).1, h2] at es
    have ho := hout t
    obtain ⟨l, u⟩ := (ha t).2
    have hb := hx t
    have hge : -1 ≤ a t + (2 * reluOut d x t - 1) := by
      split_ifs at ho <;> rcases hb with hb | hb <;> omega
    generalize reluOut d x t = o at *
    have e2 : ((S + a t : ℤ) : ℚ) + ((o:ℚ) * 2 - 1) = ((S + (a t + (2 * o - 1)) : ℤ) : ℚ) := by push_cast; ring
    rw [e2] at es
    unfold clamp at es
    rw [max_eq_left (by exact_mod_cast (by omega : (0:ℤ) ≤ S + (a t + (2 * o - 1))))] at es
    have es' : S + a (t + 1) = min (S + (a t + (2 * o - 1))) (2 * S - 1) := by exact_mod_cast es
    omega

/-- C72: the ReLU on a stream of steady value `v` puts out a stream of steady value `max 0 v`.  The counter must have more
room than the deviation of the input; the deviation then grows by one bit only, or, if the input has a slack `ε` per cycle,
to at most half of the counter range. -/
theorem C72_relu (d : ℕ) (hd : 1 ≤ d) {x : ℕ → ℤ} (hx : Verif.Spec.BitStream x) {v ε K : ℚ} (hε : 0 ≤ ε)
    (h : Spec.Tracks x v ε K) (hK : K + 1 ≤ 2 ^ (d - 1)) :
    Spec.Tracks (reluOut d x) (max 0 v) ε (2 ^ (d - 1)) ∧ (ε = 0 → Spec.Tracks (reluOut d x) (max 0 v) 0 (K + 1)) := by
  obtain ⟨a, a0, hab, hstep, hout⟩ := relu_lane d hd x hx
  have hp : (1:ℤ) ≤ 2 ^ (d - 1) := one_le_pow₀ (by norm_num)
  have hSq : ((2 ^ (d - 1) : ℤ) : ℚ) = 2 ^ (d - 1) := by push_cast; rfl
  rw [← hSq] at hK ⊢
  generalize (2:ℤ) ^ (d - 1) = S at *
  set o : ℕ → ℤ := fun t => reluOut d x t with ho
  have hob : ∀ t, x t ≤ o t ∧ (o t = 0 ∨ o t = 1) := by
    intro t
    have := hout t
    have hb := hx t
    show x t ≤ reluOut d x t ∧ _
    simp only [ho]
    split_ifs at this <;> rcases hb with hb | hb <;> omega
  have hK0 : 0 ≤ K := by have := h 0 0; simpa using this
  set X : ℕ → ℕ → ℚ := fun s n => ∑ t ∈ range n, (2 * (x (s + t) : ℚ) - 1) with hX
  have hXsucc : ∀ s n, X s (n + 1) = X s n + (2 * (x (s + n) : ℚ) - 1) := fun s n => sum_range_succ _ _
  have hXb : ∀ s n, X s n ≤ v * n + ε * n + K := fun s n => by
    have := (abs_le.1 (h s n)).2; linarith
  set r : ℚ := max 0 v + ε with hr
  have hr0 : 0 ≤ r := add_nonneg (le_max_left _ _) hε
  have hXr : ∀ s n, X s n ≤ r * n + K := fun s n => by
    have h1 := hXb s n
    have h2 : v * n ≤ max 0 v * n := mul_le_mul_of_nonneg_right (le_max_right _ _) (Nat.cast_nonneg _)
    rw [hr]; linarith
  -- the upper bound
  have up : ∀ m n : ℕ, ∑ t ∈ range n, (2 * (o (m + t) : ℚ) - 1) ≤ r * n + K + 1 := by
    intro m
    have key : ∀ n : ℕ, (∑ t ∈ range n, (2 * (o (m + t) : ℚ) - 1) - a (m + n) ≤ r * n + 1) ∧
        ∃ s k : ℕ, s + k = n ∧ ∑ t ∈ range n, (2 * (o (m + t) : ℚ) - 1) ≤ r * s + 1 + X (m + s) k := by
      intro n
      induction n with
      | zero =>
          refine ⟨?_, 0, 0, rfl, by simp [hX]⟩
          have h1 : ((-1 : ℤ) : ℚ) ≤ (a (m + 0) : ℚ) := by exact_mod_cast (hab (m + 0)).1
          push_cast at h1
          simp only [range_zero, sum_empty]; push_cast; linarith
      | succ n ih =>
          obtain ⟨iA, s, k, hsk, iB⟩ := ih
          rw [sum_range_succ]
          generalize (∑ t ∈ range n, (2 * (o (m + t) : ℚ) - 1)) = D at *
          have hs := hstep (m + n)
          have ho' := hout (m + n)
          obtain ⟨l, u⟩ := hab (m + n)
          have hb := hx (m + n)
          have hbo := hob (m + n)
          change a (m + n + 1) = min (a (m + n) + (2 * o (m + n) - 1)) (S - 1) at hs
          change o (m + n) = _ at ho'
          have hB : 0 ≤ a (m + n) → D + (2 * (o (m + n) : ℚ) - 1) ≤ r * s + 1 + X (m + s) (k + 1) := by
            intro h0
            rw [hXsucc, show m + s + k = m + n by omega]
            rw [if_pos h0] at ho'
            rw [ho']; linarith
          have hA : D + (2 * (o (m + n) : ℚ) - 1) - a (m + n + 1) ≤ r * ((n + 1 : ℕ) : ℚ) + 1 := by
            push_cast
            by_cases hl : a (m + n) + (2 * o (m + n) - 1) ≤ S - 1
            · rw [min_eq_left hl] at hs
              rw [hs]; push_cast; linarith
            · rw [min_eq_right (by omega)] at hs
              have h2 := hB (by omega)
              have h3 := hXr (m + s) (k + 1)
              have e : (n:ℚ) + 1 = s + ((k + 1 : ℕ) : ℚ) := by rw [← hsk]; push_cast; ring
              rw [hs, e]; push_cast at h3 ⊢; linarith
          refine ⟨hA, ?_⟩
          by_cases h0 : 0 ≤ a (m + n)
          · exact ⟨s, k + 1, by omega, hB h0⟩
          · refine ⟨n + 1, 0, rfl, ?_⟩
            have : a (m + n + 1) = 0 ∨ (a (m + n + 1) ≤ 0) := by
              rw [if_neg h0] at ho'
              right; rw [hs]; omega
            have h1 : (a (m + n + 1) : ℚ) ≤ 0 := by exact_mod_cast (by omega : a (m + n + 1) ≤ 0)
            simp only [hX, range_zero, sum_empty]
            linarith
    intro n
    obtain ⟨-, s, k, hsk, hB⟩ := key n
    have h3 := hXr (m + s) k
    have e : (n:ℚ) = s + k := by rw [← hsk]; push_cast; ring
    rw [e]; linarith
  -- the lower bounds
  have lowx : ∀ m n : ℕ, X m n ≤ ∑ t ∈ range n, (2 * (o (m + t) : ℚ) - 1) := by
    intro m n
    refine sum_le_sum fun t _ => ?_
    have : (x (m + t) : ℚ) ≤ o (m + t) := by exact_mod_cast (hob (m + t)).1
    linarith
  have lowa : ∀ m n : ℕ, (a (m + n) : ℚ) - a m ≤ ∑ t ∈ range n, (2 * (o (m + t) : ℚ) - 1) := by
    intro m n
    induction n with
    | zero => simp
    | succ n ih =>
        rw [sum_range_succ]
        have : a (m + n + 1) ≤ a (m + n) + (2 * o (m + n) - 1) := by
          have := hstep (m + n)
          change a (m + n + 1) = min (a (m + n) + (2 * o (m + n) - 1)) (S - 1) at this
          rw [this]; exact min_le_left _ _
        have h2 : (a (m + n + 1) : ℚ) ≤ a (m + n) + (2 * o (m + n) - 1) := by exact_mod_cast this
        rw [← Nat.add_assoc]; linarith
  have amax : ∀ m : ℕ, ∃ s k : ℕ, s + k = m ∧ (a m : ℚ) ≤ X s k := by
    intro m
    induction m with
    | zero => exact ⟨0, 0, rfl, by rw [a0]; simp [hX]⟩
    | succ m ih =>
        obtain ⟨s, k, hsk, h1⟩ := ih
        have hs := hstep m
        have ho' := hout m
        change a (m + 1) = min (a m + (2 * o m - 1)) (S - 1) at hs
        change o m = _ at ho'
        obtain ⟨l, u⟩ := hab m
        by_cases h0 : 0 ≤ a m
        · refine ⟨s, k + 1, by omega, ?_⟩
          rw [hXsucc, hsk]
          have h2 : a (m + 1) ≤ a m + (2 * o m - 1) := by rw [hs]; exact min_le_left _ _
          rw [ho', if_pos h0] at h2
          have h3 : (a (m + 1) : ℚ) ≤ a m + (2 * x m - 1) := by exact_mod_cast h2
          linarith
        · refine ⟨m + 1, 0, rfl, ?_⟩
          rw [if_neg h0] at ho'
          have : (a (m + 1) : ℚ) ≤ 0 := by exact_mod_cast (by rw [hs]; omega : a (m + 1) ≤ 0)
          simpa [hX] using this
  have lown : ∀ m n : ℕ, (-1 : ℚ) - a m ≤ ∑ t ∈ range n, (2 * (o (m + t) : ℚ) - 1) := by
    intro m n
    have h1 := lowa m n
    have h2 : (-1 : ℚ) ≤ a (m + n) := by exact_mod_cast (hab (m + n)).1
    linarith
  constructor
  · intro m n
    have hn : (0:ℚ) ≤ n := Nat.cast_nonneg n
    have hen := mul_nonneg hε hn
    have hU := up m n
    show |∑ t ∈ range n, (2 * (o (m + t) : ℚ) - 1) - _| ≤ _
    rw [abs_le]
    constructor
    · rcases le_total 0 v with hv | hv
      · rw [max_eq_right hv]
        have h1 := lowx m n
        have h2 := (abs_le.1 (h m n)).1
        change -(ε * n + K) ≤ X m n - v * n at h2
        linarith
      · rw [max_eq_left hv]
        have h1 := lown m n
        have h2 : (a m : ℚ) ≤ S - 1 := by exact_mod_cast (hab m).2
        linarith
    · rw [hr] at hU; linarith
  · intro h0
    subst h0
    intro m n
    have hU := up m n
    show |∑ t ∈ range n, (2 * (o (m + t) : ℚ) - 1) - _| ≤ _
    rw [abs_le]
    constructor
    · rcases le_total 0 v with hv | hv
      · rw [max_eq_right hv]
        have h1 := lowx m n
        have h2 := (abs_le.1 (h m n)).1
        change -(0 * n + K) ≤ X m n - v * n at h2
        linarith
      · rw [max_eq_left hv]
        have h1 := lown m n
        obtain ⟨s, k, -, h2⟩ := amax m
        have h3 := hXb s k
        have h4 : v * k ≤ 0 := mul_nonpos_of_nonpos_of_nonneg hv (Nat.cast_nonneg _)
        linarith
    · rw [hr] at hU; linarith

/-- Non-vacuity: a stream of value 1/2 with deviation 12 (`C61_source`) through a ReLU of depth 5, and a stream of value -1/2. -/
example (l : List ℤ) (h : Verif.Spec.DyadicNet 3 l) : Spec.Tracks (reluOut 5 fun t => Gen.bsGen l 6 t) (1/2) 0 13 ∧
    Spec.Tracks (reluOut 5 fun t => Gen.bsGen l 2 t) 0 0 13 := by
  have b : ∀ k : ℤ, Verif.Spec.BitStream fun t => Gen.bsGen l k t := fun k t => isBit_ind _
  have h1 := (C61_source h (b := 6) (by norm_num) (by norm_num)).2
  have h2 := (C61_source h (b := 2) (by norm_num) (by norm_num)).2
  have k1 := (C72_relu 5 (by norm_num) (b 6) (le_refl _) h1 (by norm_num)).2 rfl
  have k2 := (C72_relu 5 (by norm_num) (b 2) (le_refl _) h2 (by norm_num)).2 rfl
  norm_num at k1 k2
  exact ⟨k1, k2⟩

/-- `4S` ones followed by `2S` zeros, periodically. -/
private def bursts (S : ℕ) (t : ℕ) : ℤ := if t % (6 * S) < 4 * S then 1 else 0

private theorem bursts_sum (S k : ℕ) (hS : 1 ≤ S) : Verif.Spec.ones (bursts S) (6 * S * k) = 4 * S * k := by
  induction k with
  | zero => simp [Verif.Spec.ones]
  | succ k ih =>
      have e : ∀ n ≤ 6 * S, Verif.Spec.ones (bursts S) (6 * S * k + n) = Verif.Spec.ones (bursts S) (6 * S * k) + (min n (4 * S) : ℕ) := by
        intro n
        induction n with
        | zero => simp
        | succ n ihn =>
            intro hn
            rw [← Nat.add_assoc, Verif.Spec.ones_succ, ihn (by omega)]
            unfold bursts
            rw [Nat.mul_add_mod, Nat.mod_eq_of_lt (by omega)]
            split_ifs <;> push_cast <;> omega
      have := e (6 * S) (le_refl _)
      rw [Nat.mul_succ, this, ih, min_eq_right (by omega)]; push_cast; ring

/-- C72: the condition on the counter is needed.  For every depth there is a stream of value 1/3 (bursts longer than the
counter) whose ReLU has at least value 1/2, however long the stream. -/
theorem C72_relu_shallow (d : ℕ) (hd : 1 ≤ d) : ∃ x : ℕ → ℤ, Verif.Spec.BitStream x ∧ ∀ k : ℕ, 0 < k →
    Verif.Spec.biValue x (6 * 2 ^ (d - 1) * k) = 1 / 3 ∧ 1 / 2 ≤ Verif.Spec.biValue (reluOut d x) (6 * 2 ^ (d - 1) * k) := by
  have hS : 1 ≤ 2 ^ (d - 1) := Nat.one_le_two_pow
  have hx : Verif.Spec.BitStream (bursts (2 ^ (d - 1))) := by
    intro t; unfold bursts IsBit; split_ifs <;> simp
  refine ⟨bursts (2 ^ (d - 1)), hx, fun k hk => ?_⟩
  obtain ⟨a, -, hab, hstep, hout⟩ := relu_lane d hd _ hx
  have hc : ((2 ^ (d - 1) : ℕ) : ℤ) = 2 ^ (d - 1) := by push_cast; rfl
  rw [← hc] at hab hstep
  generalize 2 ^ (d - 1) = S at *
  have hSq : (0:ℚ) < S := by exact_mod_cast hS
  have hkq : (0:ℚ) < k := by exact_mod_cast hk
  set x := bursts S with hxd
  -- ones of the output, period by period
  have per : ∀ k, 9 * (S:ℤ) * k ≤ 2 * Verif.Spec.ones (reluOut d x) (6 * S * k) := by
    intro k
    induction k with
    | zero => simp [Verif.Spec.ones]
    | succ k ih =>
        have one : ∀ n ≤ 4 * S, Verif.Spec.ones (reluOut d x) (6 * S * k + n) = Verif.Spec.ones (reluOut d x) (6 * S * k) + n := by
          intro n
          induction n with
          | zero => simp
          | succ n ihn =>
              intro hn
              rw [← Nat.add_assoc, Verif.Spec.ones_succ, ihn (by omega), hout]
              have : x (6 * S * k + n) = 1 := by
                rw [hxd]; unfold bursts
                rw [Nat.mul_add_mod, Nat.mod_eq_of_lt (by omega), if_pos (by omega)]
              rw [this]; push_cast; simp; ring
        have zero : ∀ n, 2 * Verif.Spec.ones (reluOut d x) (6 * S * k + 4 * S) + n + (a (6 * S * k + 4 * S + n) - a (6 * S * k + 4 * S))
            ≤ 2 * Verif.Spec.ones (reluOut d x) (6 * S * k + 4 * S + n) := by
          intro n
          induction n with
          | zero => simp
          | succ n ihn =>
              have h1 := hstep (6 * S * k + 4 * S + n)
              have h2 : a (6 * S * k + 4 * S + n + 1) ≤ a (6 * S * k + 4 * S + n) + (2 * reluOut d x (6 * S * k + 4 * S + n) - 1) := by
                rw [h1]; exact min_le_left _ _
              rw [← Nat.add_assoc (6 * S * k + 4 * S), Verif.Spec.ones_succ]
              push_cast at ihn ⊢; linarith
        have z := zero (2 * S)
        rw [one (4 * S) (le_refl _), show 6 * S * k + 4 * S + 2 * S = 6 * S * (k + 1) by ring] at z
        have l1 := (hab (6 * S * k + 4 * S)).2
        have l2 := (hab (6 * S * (k + 1))).1
        have e : 9 * (S:ℤ) * ((k + 1 : ℕ) : ℤ) = 9 * (S:ℤ) * k + 9 * S := by push_cast; ring
        push_cast at z
        rw [e]; linarith
  have p := per k
  have pq : 9 * (S:ℚ) * k ≤ 2 * Verif.Spec.ones (reluOut d x) (6 * S * k) := by exact_mod_cast p
  unfold Verif.Spec.biValue
  rw [hxd, bursts_sum S k hS]
  push_cast
  constructor
  · field_simp; norm_num
  · rw [← hxd]
    have h6 : (0:ℚ) < 6 * S * k := by positivity
    have : 3 / 4 ≤ (Verif.Spec.ones (reluOut d x) (6 * S * k) : ℚ) / (6 * S * k) := by
      rw [le_div_iff₀ h6]; linarith
    linarith

/-- C72: the hard sigmoid on a stream of steady value `v` puts out a stream of steady value `(v + 1) / 2`. -/
theorem C72_hardsigmoid (mode : String) (depth : ℤ) (hd : 4 ≤ depth) (cfg : Adder.Cfg)
    (hc : Adder.hardsigmoidMk mode depth = .ok cfg) {x : ℕ → ℤ} (hx : Verif.Spec.BitStream x) {v ε K : ℚ}
    (h : Spec.Tracks x v ε K) :
    Spec.Tracks (hardsigmoidOut cfg x) ((v + 1) / 2) (ε / 2) (K / 2 + 1) := by
  intro m n
  have h1 := C32_sigmoid_exact mode depth hd cfg hc x hx m
  have h2 := C32_sigmoid_exact mode depth hd cfg hc x hx (m + n)
  have h3 := h m n
  rw [bi_win] at h3 ⊢
  have a1 : 2 * Verif.Spec.ones (hardsigmoidOut cfg x) m ≤ m + Verif.Spec.ones x m := by omega
  have a2 : m + Verif.Spec.ones x m - 1 ≤ 2 * Verif.Spec.ones (hardsigmoidOut cfg x) m := by omega
  have b1 : 2 * Verif.Spec.ones (hardsigmoidOut cfg x) (m + n) ≤ m + n + Verif.Spec.ones x (m + n) := by push_cast at h2; omega
  have b2 : m + n + Verif.Spec.ones x (m + n) - 1 ≤ 2 * Verif.Spec.ones (hardsigmoidOut cfg x) (m + n) := by push_cast at h2; omega
  have a1q : 2 * (Verif.Spec.ones (hardsigmoidOut cfg x) m : ℚ) ≤ m + Verif.Spec.ones x m := by exact_mod_cast a1
  have a2q : (m:ℚ) + Verif.Spec.ones x m - 1 ≤ 2 * Verif.Spec.ones (hardsigmoidOut cfg x) m := by exact_mod_cast a2
  have b1q : 2 * (Verif.Spec.ones (hardsigmoidOut cfg x) (m + n) : ℚ) ≤ m + n + Verif.Spec.ones x (m + n) := by exact_mod_cast b1
  have b2q : (m:ℚ) + n + Verif.Spec.ones x (m + n) - 1 ≤ 2 * Verif.Spec.ones (hardsigmoidOut cfg x) (m + n) := by exact_mod_cast b2
  rw [abs_le] at h3 ⊢
  constructor <;> linarith [h3.1, h3.2]

end Verif.Props
