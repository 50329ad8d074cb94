import Verif.Props.RtlOld
import Verif.Props.RtlAdd

/-!
# Property C78: what the adders of `hw/kernel/old` compute
-/

namespace Verif.Props

open Verif Finset Gen Adder Shuffle

/-! ## Multiplexers -/

private theorem muxRng_state {w : ℕ} (x : ℕ → BitVec (2 ^ w)) (n : ℕ) :
    (stateAt Rtl.muxRngStep (Rtl.sobolInit w, false) x n).1 = sobolIter w n := by
  induction n with
  | zero => rfl
  | succ n ih => rw [stateAt_succ, sobolIter_succ, ← ih]; rfl

/-- C78: `muxADD_rng` samples the input named by its generator. -/
theorem C78_mux_rng_bit {w : ℕ} (x : ℕ → BitVec (2 ^ w)) (t : ℕ) :
    outAt Rtl.muxRngStep (Rtl.sobolInit w, false) x (t + 1) = (x t).getLsbD (Spec.hwSobol w t) := by
  have h : outAt Rtl.muxRngStep (Rtl.sobolInit w, false) x (t + 1)
      = (x t).getLsbD (stateAt Rtl.muxRngStep (Rtl.sobolInit w, false) x t).1.out.toNat := rfl
  rw [h, muxRng_state]; rfl

theorem perm_surj {w : ℕ} (hw : 1 ≤ w) (p : ℕ) {k : ℕ} (hk : k < 2 ^ w) :
    ∃ r < 2 ^ w, Spec.hwSobol w (p * 2 ^ w + r) = k := by
  obtain ⟨h1, h2⟩ := C66_permutation hw p
  have himg : (range (2 ^ w)).image (fun r => Spec.hwSobol w (p * 2 ^ w + r)) = range (2 ^ w) := by
    apply Finset.eq_of_subset_of_card_le
    · intro v hv
      obtain ⟨r, hr, rfl⟩ := mem_image.1 hv
      exact mem_range.2 (h1 r (mem_range.1 hr))
    · rw [card_image_of_injOn]
      intro r hr r' hr' h
      exact h2 r (by simpa using hr) r' (by simpa using hr') h
  have := mem_range.2 hk
  rw [← himg] at this
  obtain ⟨r, hr, e⟩ := mem_image.1 this
  exact ⟨r, mem_range.1 hr, e⟩

/-- In every period each number occurs at one time; a sum over times is a sum over numbers. -/
theorem perm_sum {w : ℕ} (hw : 1 ≤ w) (p : ℕ) :
    ∃ τ : ℕ → ℕ, (∀ k < 2 ^ w, τ k < 2 ^ w ∧ Spec.hwSobol w (p * 2 ^ w + τ k) = k) ∧
      ∀ f : ℕ → ℕ → ℤ, ∑ r ∈ range (2 ^ w), f r (Spec.hwSobol w (p * 2 ^ w + r)) = ∑ k ∈ range (2 ^ w), f (τ k) k := by
  obtain ⟨h1, h2⟩ := C66_permutation hw p
  have hex : ∀ k, ∃ r, k < 2 ^ w → r < 2 ^ w ∧ Spec.hwSobol w (p * 2 ^ w + r) = k := fun k => by
    by_cases hk : k < 2 ^ w
    · obtain ⟨r, hr, e⟩ := perm_surj hw p hk
      exact ⟨r, fun _ => ⟨hr, e⟩⟩
    · exact ⟨0, fun h => absurd h hk⟩
  choose τ hτ using hex
  refine ⟨τ, hτ, fun f => ?_⟩
  refine sum_nbij (fun r => Spec.hwSobol w (p * 2 ^ w + r)) ?_ ?_ ?_ ?_
  · exact fun r hr => mem_range.2 (h1 r (mem_range.1 hr))
  · intro r hr r' hr' h
    exact h2 r (by simpa using hr) r' (by simpa using hr') h
  · intro k hk
    obtain ⟨r, hr, e⟩ := perm_surj hw p (k := k) (by simpa using hk)
    exact ⟨r, by simpa using hr, e⟩
  · intro r hr
    have hr := mem_range.1 hr
    have h3 := hτ _ (h1 r hr)
    have h4 := h2 _ h3.1 r hr h3.2
    show f r _ = f (τ _) _
    rw [h4]

/-- C78: in a period `muxADD_rng` samples every input exactly once. -/
theorem C78_mux_rng {w : ℕ} (hw : 1 ≤ w) (x : ℕ → BitVec (2 ^ w)) (p : ℕ) :
    ∃ τ : ℕ → ℕ, (∀ k < 2 ^ w, τ k < 2 ^ w) ∧ (∀ k < 2 ^ w, ∀ k' < 2 ^ w, τ k = τ k' → k = k') ∧
      ∑ r ∈ range (2 ^ w), Spec.num (outAt Rtl.muxRngStep (Rtl.sobolInit w, false) x (p * 2 ^ w + r + 1))
        = ∑ k ∈ range (2 ^ w), Spec.num ((x (p * 2 ^ w + τ k)).getLsbD k) := by
  obtain ⟨τ, h1, h2⟩ := perm_sum hw p
  refine ⟨τ, fun k hk => (h1 k hk).1, fun k hk k' hk' e => ?_, ?_⟩
  · rw [← (h1 k hk).2, ← (h1 k' hk').2, e]
  · have := h2 fun r k => Spec.num ((x (p * 2 ^ w + r)).getLsbD k)
    rw [← this]
    exact sum_congr rfl fun r _ => by rw [C78_mux_rng_bit]

/-- C78: for inputs that do not change during the period the scaled sum is exact. -/
theorem C78_mux_rng_constant {w : ℕ} (hw : 1 ≤ w) (x : ℕ → BitVec (2 ^ w)) (p : ℕ) (c : BitVec (2 ^ w))
    (hc : ∀ r < 2 ^ w, x (p * 2 ^ w + r) = c) :
    ∑ r ∈ range (2 ^ w), Spec.num (outAt Rtl.muxRngStep (Rtl.sobolInit w, false) x (p * 2 ^ w + r + 1))
      = ∑ k ∈ range (2 ^ w), Spec.num (c.getLsbD k) := by
  obtain ⟨τ, h1, -, h3⟩ := C78_mux_rng hw x p
  rw [h3]
  exact sum_congr rfl fun k hk => by rw [hc _ (h1 k (mem_range.1 hk))]

/-- C78: but correlated inputs can make it as wrong as possible: each of these inputs is one in all cycles of a period but one,
and the output is zero for ever. -/
theorem C78_mux_rng_correlated {w : ℕ} (hw : 1 ≤ w) :
    ∃ x : ℕ → BitVec (2 ^ w),
      (∀ p, ∀ k < 2 ^ w, ∑ r ∈ range (2 ^ w), Spec.num ((x (p * 2 ^ w + r)).getLsbD k) = 2 ^ w - 1) ∧
      ∀ t, outAt Rtl.muxRngStep (Rtl.sobolInit w, false) x t = false := by
  have hlt : ∀ t, Spec.hwSobol w t < 2 ^ w := fun t => BitVec.isLt _
  have hbit : ∀ t, ∀ k < 2 ^ w, (~~~ BitVec.twoPow (2 ^ w) (Spec.hwSobol w t)).getLsbD k = decide (k ≠ Spec.hwSobol w t) := by
    intro t k hk
    simp [hk]
  refine ⟨fun t => ~~~ BitVec.twoPow (2 ^ w) (Spec.hwSobol w t), fun p k hk => ?_, fun t => ?_⟩
  · obtain ⟨h1, h2⟩ := C66_permutation hw p
    obtain ⟨r0, hr0, e0⟩ := perm_surj hw p hk
    have : ∀ r ∈ range (2 ^ w), Spec.num ((~~~ BitVec.twoPow (2 ^ w) (Spec.hwSobol w (p * 2 ^ w + r))).getLsbD k)
        = 1 - if r = r0 then 1 else 0 := by
      intro r hr
      rw [hbit _ k hk]
      by_cases h : r = r0
      · subst h; simp [e0, Spec.num]
      · have : k ≠ Spec.hwSobol w (p * 2 ^ w + r) := fun hk' => h (h2 r (mem_range.1 hr) r0 hr0 (by rw [e0, ← hk']))
        simp [this, h, Spec.num]
    show ∑ r ∈ range (2 ^ w), Spec.num ((~~~ BitVec.twoPow (2 ^ w) (Spec.hwSobol w (p * 2 ^ w + r))).getLsbD k) = _
    rw [sum_congr rfl this, sum_sub_distrib, sum_ite_eq' (range (2 ^ w)) r0]
    simp [hr0]
  · cases t with
    | zero => rfl
    | succ t =>
        rw [C78_mux_rng_bit, hbit t _ (hlt t)]; simp

/-! ## `dADD` -/

/-- Numbers shown by the generator of `dADD` before cycle `t`. -/
def Spec.daddIndex (w t : ℕ) : ℕ := (t + 2 ^ w - 2) / 2 ^ w

private theorem dadd_state {w : ℕ} (hw : 1 ≤ w) (x : ℕ → BitVec (2 ^ w)) (n : ℕ) :
    (stateAt Rtl.daddStep (0, Rtl.sobolInit w, false) x n).1 = BitVec.ofNat w n ∧
    (stateAt Rtl.daddStep (0, Rtl.sobolInit w, false) x n).2.1 = sobolIter w (Spec.daddIndex w n) := by
  have hN : 2 ≤ 2 ^ w := by
    calc 2 = 2 ^ 1 := by norm_num
      _ ≤ 2 ^ w := Nat.pow_le_pow_right (by norm_num) hw
  induction n with
  | zero =>
      refine ⟨rfl, ?_⟩
      have : Spec.daddIndex w 0 = 0 := Nat.div_eq_of_lt (by omega)
      rw [this]; rfl
  | succ n ih =>
      obtain ⟨h1, h2⟩ := ih
      rw [stateAt_succ]
      constructor
      · show (stateAt Rtl.daddStep (0, Rtl.sobolInit w, false) x n).1 + 1 = _
        rw [h1]
        apply BitVec.eq_of_toNat_eq
        simp
      · show Rtl.sobolNext (stateAt Rtl.daddStep (0, Rtl.sobolInit w, false) x n).2.1
          (decide ((stateAt Rtl.daddStep (0, Rtl.sobolInit w, false) x n).1 = 1)) = _
        rw [h1, h2]
        have e1 : (BitVec.ofNat w n = 1) ↔ n % 2 ^ w = 1 := by
          rw [← BitVec.toNat_inj, BitVec.toNat_ofNat]
          show _ = 1 % 2 ^ w ↔ _
          rw [Nat.mod_eq_of_lt (show 1 < 2 ^ w by omega)]
        have e2 : Spec.daddIndex w (n + 1) = Spec.daddIndex w n + if n % 2 ^ w = 1 then 1 else 0 := by
          unfold Spec.daddIndex
          rw [show n + 1 + 2 ^ w - 2 = (n + 2 ^ w - 2) + 1 by omega, Nat.succ_div]
          congr 1
          have : (2 ^ w ∣ n + 2 ^ w - 2 + 1) ↔ n % 2 ^ w = 1 := by
            clear h1 h2 e1 x
            generalize 2 ^ w = N at *
            have h0 := Nat.div_add_mod n N
            have hlt := Nat.mod_lt n (show 0 < N by omega)
            constructor
            · rintro ⟨k, hk⟩
              obtain ⟨j, rfl⟩ : ∃ j, k = j + 1 := ⟨k - 1, by
                rcases Nat.eq_zero_or_pos k with h | h
                · subst h; simp at hk
                · omega⟩
              have : n = N * j + 1 := by rw [Nat.mul_succ] at hk; omega
              rw [this, Nat.mul_add_mod, Nat.mod_eq_of_lt (by omega)]
            · intro h
              exact ⟨n / N + 1, by rw [Nat.mul_succ]; omega⟩
          simp only [this]
        rw [e2]
        by_cases h : n % 2 ^ w = 1
        · rw [if_pos h, decide_eq_true (e1.2 h), sobolIter_succ]
        · rw [if_neg h, decide_eq_false (fun h' => h (e1.1 h')), sobolNext_false, add_zero]

/-- C78: `dADD` samples one input for `2^w` cycles, then the next number's. -/
theorem C78_dadd_bit {w : ℕ} (hw : 1 ≤ w) (x : ℕ → BitVec (2 ^ w)) (t : ℕ) :
    outAt Rtl.daddStep (0, Rtl.sobolInit w, false) x (t + 1) = (x t).getLsbD (Spec.hwSobol w (Spec.daddIndex w t)) := by
  have h : outAt Rtl.daddStep (0, Rtl.sobolInit w, false) x (t + 1)
      = (x t).getLsbD (stateAt Rtl.daddStep (0, Rtl.sobolInit w, false) x t).2.1.out.toNat := rfl
  rw [h, (dadd_state hw x t).2]; rfl

private theorem periodic_window {f : ℕ → ℤ} {N : ℕ} (hf : ∀ t, f (t + N) = f t) (s : ℕ) :
    ∑ r ∈ range N, f (s + r) = ∑ r ∈ range N, f r := by
  induction s with
  | zero => simp
  | succ s ih =>
      rw [← ih]
      have h1 := sum_range_succ (fun r => f (s + r)) N
      have h2 := sum_range_succ' (fun r => f (s + r)) N
      rw [h2] at h1
      have e : ∀ r, f (s + (r + 1)) = f (s + 1 + r) := fun r => by rw [show s + (r + 1) = s + 1 + r by omega]
      simp only [e, hf, add_zero] at h1
      linarith

/-- C78: so for inputs that repeat every `2^w` cycles, `dADD` is exact over `4^w` cycles (counted from the beginning of a
period of its generator): the output has as many ones as all the inputs together have in `2^w` cycles. -/
theorem C78_dadd {w : ℕ} (hw : 1 ≤ w) (x : ℕ → BitVec (2 ^ w)) (hx : ∀ t, x (t + 2 ^ w) = x t) (q : ℕ) :
    ∑ p ∈ range (2 ^ w), ∑ r ∈ range (2 ^ w),
        Spec.num (outAt Rtl.daddStep (0, Rtl.sobolInit w, false) x (((q + 1) * 2 ^ w + p - 1) * 2 ^ w + 2 + r + 1))
      = ∑ k ∈ range (2 ^ w), ∑ r ∈ range (2 ^ w), Spec.num ((x r).getLsbD k) := by
  have hN : 2 ≤ 2 ^ w := by
    calc 2 = 2 ^ 1 := by norm_num
      _ ≤ 2 ^ w := Nat.pow_le_pow_right (by norm_num) hw
  obtain ⟨τ, h1, h2⟩ := perm_sum hw (q + 1)
  rw [← h2 fun _ k => ∑ r ∈ range (2 ^ w), Spec.num ((x r).getLsbD k)]
  refine sum_congr rfl fun p _ => ?_
  have hidx : ∀ r < 2 ^ w, Spec.daddIndex w (((q + 1) * 2 ^ w + p - 1) * 2 ^ w + 2 + r) = (q + 1) * 2 ^ w + p := by
    intro r hr
    unfold Spec.daddIndex
    obtain ⟨m, hm⟩ : ∃ m, (q + 1) * 2 ^ w + p = m + 1 := ⟨(q + 1) * 2 ^ w + p - 1, by
      have : 0 < (q + 1) * 2 ^ w := by positivity
      omega⟩
    rw [hm, Nat.add_sub_cancel, show m * 2 ^ w + 2 + r + 2 ^ w - 2 = 2 ^ w * (m + 1) + r by rw [Nat.mul_succ, mul_comm m]; omega,
      Nat.mul_add_div (by omega), Nat.div_eq_of_lt hr, add_zero]
  have := periodic_window (f := fun t => Spec.num ((x t).getLsbD (Spec.hwSobol w ((q + 1) * 2 ^ w + p))))
    (N := 2 ^ w) (fun t => by rw [hx]) (((q + 1) * 2 ^ w + p - 1) * 2 ^ w + 2)
  rw [← this]
  refine sum_congr rfl fun r hr => ?_
  rw [C78_dadd_bit hw, hidx r (mem_range.1 hr)]

/-! ## `orADD` -/

private theorem bv_ne_zero {n : ℕ} (x : BitVec n) : x ≠ 0 ↔ ∃ k < n, x.getLsbD k = true := by
  constructor
  · intro h
    by_contra hc
    push Not at hc
    apply h
    apply BitVec.eq_of_getLsbD_eq
    intro k hk
    have := hc k hk
    simp at this
    simpa using this
  · rintro ⟨k, -, hk⟩ rfl
    simp at hk

/-- C78: `orADD` saturates: its ones are at least those of any input and at most those of all inputs, and the latter exactly
when no two inputs were ever one together. -/
theorem C78_or {n : ℕ} (x : ℕ → BitVec n) (o : Bool) (m : ℕ) :
    (∀ k < n, ∑ t ∈ range m, Spec.num ((x t).getLsbD k) ≤ ∑ t ∈ range m, Spec.num (outAt Rtl.orAddStep o x (t + 1))) ∧
    ∑ t ∈ range m, Spec.num (outAt Rtl.orAddStep o x (t + 1)) ≤ ∑ k ∈ range n, ∑ t ∈ range m, Spec.num ((x t).getLsbD k) ∧
    (∑ t ∈ range m, Spec.num (outAt Rtl.orAddStep o x (t + 1)) = ∑ k ∈ range n, ∑ t ∈ range m, Spec.num ((x t).getLsbD k) ↔
      ∀ t < m, ∀ k < n, ∀ k' < n, (x t).getLsbD k = true → (x t).getLsbD k' = true → k = k') := by
  have hout : ∀ t, outAt Rtl.orAddStep o x (t + 1) = decide (x t ≠ 0) := fun _ => rfl
  have hnn : ∀ t k, 0 ≤ Spec.num ((x t).getLsbD k) := fun t k => (num_isBit _).nonneg
  have hout1 : ∀ t, x t ≠ 0 → Spec.num (decide (x t ≠ 0)) = 1 := fun t h => by rw [decide_eq_true h]; rfl
  have hout0 : ∀ t, ¬ x t ≠ 0 → Spec.num (decide (x t ≠ 0)) = 0 := fun t h => by rw [decide_eq_false h]; rfl
  have hle : ∀ t, ∀ k < n, Spec.num ((x t).getLsbD k) ≤ Spec.num (outAt Rtl.orAddStep o x (t + 1)) := by
    intro t k hk
    rw [hout]
    by_cases h : (x t).getLsbD k = true
    · have : x t ≠ 0 := (bv_ne_zero _).2 ⟨k, hk, h⟩
      rw [hout1 t this, h]; exact le_refl _
    · rw [Bool.not_eq_true] at h
      rw [h]; exact (num_isBit _).nonneg
  have hsum : ∀ t, Spec.num (outAt Rtl.orAddStep o x (t + 1)) ≤ ∑ k ∈ range n, Spec.num ((x t).getLsbD k) := by
    intro t
    rw [hout]
    by_cases h : x t ≠ 0
    · obtain ⟨k, hk, h1⟩ := (bv_ne_zero _).1 h
      have : Spec.num ((x t).getLsbD k) ≤ _ := single_le_sum (f := fun k => Spec.num ((x t).getLsbD k))
        (fun k _ => hnn t k) (mem_range.2 hk)
      rw [h1] at this
      rw [hout1 t h]; exact this
    · rw [hout0 t h]; exact sum_nonneg fun k _ => hnn t k
  have heq : ∀ t, Spec.num (outAt Rtl.orAddStep o x (t + 1)) = ∑ k ∈ range n, Spec.num ((x t).getLsbD k) ↔
      ∀ k < n, ∀ k' < n, (x t).getLsbD k = true → (x t).getLsbD k' = true → k = k' := by
    intro t
    constructor
    · intro h k hk k' hk' h1 h2
      by_contra hne
      have hle2 : Spec.num ((x t).getLsbD k) + Spec.num ((x t).getLsbD k') ≤ ∑ k ∈ range n, Spec.num ((x t).getLsbD k) := by
        rw [← sum_pair (f := fun k => Spec.num ((x t).getLsbD k)) hne]
        refine sum_le_sum_of_subset_of_nonneg ?_ fun j _ _ => hnn t j
        intro j hj
        rcases mem_insert.1 hj with h | h
        · subst h; exact mem_range.2 hk
        · rw [mem_singleton.1 h]; exact mem_range.2 hk'
      rw [← h, h1, h2] at hle2
      have := (num_isBit (outAt Rtl.orAddStep o x (t + 1))).le_one
      have e : Spec.num true = 1 := rfl
      rw [e] at hle2
      omega
    · intro h
      rw [hout]
      by_cases hz : x t ≠ 0
      · obtain ⟨k, hk, h1⟩ := (bv_ne_zero _).1 hz
        rw [sum_eq_single k]
        · rw [hout1 t hz, h1]; rfl
        · intro j hj hne
          have : (x t).getLsbD j ≠ true := fun h2 => hne (h j (mem_range.1 hj) k hk h2 h1)
          rw [Bool.eq_false_of_not_eq_true this]; rfl
        · intro hk'; exact absurd (mem_range.2 hk) hk'
      · have hz' : x t = 0 := not_not.1 hz
        rw [hz']
        simp [Spec.num]
  refine ⟨fun k hk => sum_le_sum fun t _ => hle t k hk, ?_, ?_⟩
  · rw [sum_comm]; exact sum_le_sum fun t _ => hsum t
  · rw [sum_comm, sum_eq_sum_iff_of_le fun t _ => hsum t]
    constructor
    · exact fun h t ht => (heq t).1 (h t (mem_range.2 ht))
    · exact fun h t ht => (heq t).2 (h t (mem_range.1 ht))

/-! ## Approximate parallel counters -/

/-- Number of ones of a word. -/
def Spec.popcount {n : ℕ} (x : BitVec n) : ℤ := ∑ k ∈ range n, Spec.num (x.getLsbD k)

/-- What `apcADD` counts: two per nonempty pair of the first three, one for the fourth. -/
def Spec.apcCount (x : BitVec 8) : ℤ :=
  2 * Spec.num (x.getLsbD 0 || x.getLsbD 1) + 2 * Spec.num (x.getLsbD 2 || x.getLsbD 3)
    + 2 * Spec.num (x.getLsbD 4 || x.getLsbD 5) + Spec.num (x.getLsbD 6 || x.getLsbD 7)

/-- C78: the output of `apcADD`; its count is between one less and three more than the number of ones. -/
theorem C78_apc (x : ℕ → BitVec 8) (r : ℕ → BitVec 3) (t : ℕ) :
    (outAt Rtl.apcAddStep 0 (fun t => (x t, r t)) (t + 1) = true ↔ ((r (t + 1)).toNat : ℤ) < Spec.apcCount (x t)) ∧
    Spec.popcount (x t) - 1 ≤ Spec.apcCount (x t) ∧ Spec.apcCount (x t) ≤ Spec.popcount (x t) + 3 := by
  have hcnt : ∀ (x : BitVec 8) (r : BitVec 3) (s : BitVec 3), (((Rtl.apcAddStep s (x, r)).1).toNat : ℤ) = Spec.apcCount x := by
    intro x r s
    unfold Rtl.apcAddStep Spec.apcCount
    have key : ∀ a b c d : Bool, ((Rtl.cat3 (Rtl.fa a b c) false + Rtl.bv 3 d).toNat : ℤ)
        = 2 * Spec.num a + 2 * Spec.num b + 2 * Spec.num c + Spec.num d := by decide
    exact key _ _ _ _
  refine ⟨?_, ?_⟩
  · show ((r (t + 1)).ult (Rtl.apcAddStep (stateAt Rtl.apcAddStep 0 (fun t => (x t, r t)) t) (x t, r t)).1) = true ↔ _
    rw [← hcnt (x t) (r t) (stateAt Rtl.apcAddStep 0 (fun t => (x t, r t)) t)]
    show decide (_ < _) = true ↔ _
    rw [decide_eq_true_eq]; omega
  · generalize x t = y
    revert y
    have key : ∀ a b c d e f g h : Bool,
        Spec.num a + Spec.num b + Spec.num c + Spec.num d + Spec.num e + Spec.num f + Spec.num g + Spec.num h - 1
          ≤ 2 * Spec.num (a || b) + 2 * Spec.num (c || d) + 2 * Spec.num (e || f) + Spec.num (g || h) ∧
        2 * Spec.num (a || b) + 2 * Spec.num (c || d) + 2 * Spec.num (e || f) + Spec.num (g || h)
          ≤ Spec.num a + Spec.num b + Spec.num c + Spec.num d + Spec.num e + Spec.num f + Spec.num g + Spec.num h + 3 := by decide
    intro y
    unfold Spec.popcount Spec.apcCount
    simp only [sum_range_succ, range_zero, sum_empty, zero_add]
    exact key _ _ _ _ _ _ _ _

/-- C78: both extremes occur: all ones count seven, one one in each of the first three pairs counts double. -/
theorem C78_apc_tight : Spec.apcCount 0xff#8 = Spec.popcount 0xff#8 - 1 ∧ Spec.apcCount 0x15#8 = Spec.popcount 0x15#8 + 3 := by
  decide +kernel

/-- C78: so for an input at rest, against the numbers of a three bit generator, the output has in a period as many ones as that
count. -/
theorem C78_apc_period (x : ℕ → BitVec 8) (r : ℕ → BitVec 3) (hr : ∀ t, (r t).toNat = Spec.hwSobol 3 t) (c : BitVec 8) (p : ℕ)
    (hc : ∀ j < 8, x (p * 8 + 7 + j) = c) :
    ∑ j ∈ range 8, Spec.num (outAt Rtl.apcAddStep 0 (fun t => (x t, r t)) ((p + 1) * 8 + j)) = Spec.apcCount c := by
  have hb : ∀ c : BitVec 8, 0 ≤ Spec.apcCount c ∧ Spec.apcCount c ≤ 7 := by
    have key : ∀ a b c d : Bool, 0 ≤ 2 * Spec.num a + 2 * Spec.num b + 2 * Spec.num c + Spec.num d ∧
        2 * Spec.num a + 2 * Spec.num b + 2 * Spec.num c + Spec.num d ≤ 7 := by decide
    exact fun c => key _ _ _ _
  obtain ⟨b0, b1⟩ := hb c
  have h := hw_period (w := 3) (by norm_num) (Spec.apcCount c).toNat (p + 1) (by omega)
  rw [Int.toNat_of_nonneg b0] at h
  rw [← h]
  refine sum_congr rfl fun j hj => ?_
  have hj := mem_range.1 hj
  have h1 := (C78_apc x r (p * 8 + 7 + j)).1
  rw [hc j (by omega), hr, show p * 8 + 7 + j + 1 = (p + 1) * 8 + j by ring] at h1
  show Spec.num _ = ind (Spec.apcCount c > Spec.hwSobol 3 ((p + 1) * 8 + j))
  unfold ind Spec.num
  by_cases hh : ((Spec.hwSobol 3 ((p + 1) * 8 + j) : ℕ) : ℤ) < Spec.apcCount c
  · rw [if_pos (h1.2 hh), if_pos hh]
  · rw [if_neg (fun h' => hh (h1.1 h')), if_neg hh]

/-- C78: the count of `apcadd16` is within four of the number of ones, and its output is one when the random number does not
exceed it (so one time in sixteen for no ones at all). -/
theorem C78_apc16 (x : BitVec 16) (r : BitVec 4) :
    |((Rtl.apcAdd16Cnt x).toNat : ℤ) - Spec.popcount x| ≤ 4 ∧ (Rtl.apcAdd16 x r = true ↔ r.toNat ≤ (Rtl.apcAdd16Cnt x).toNat) := by
  refine ⟨?_, ?_⟩
  · have key : ∀ o0 o1 o2 o3 a0 a1 a2 a3 : Bool,
        (((Rtl.fa ((Rtl.fa o0 a0 o1).getLsbD 1) ((Rtl.fa a1 o2 a2).getLsbD 1)
              ((Rtl.fa ((Rtl.fa o0 a0 o1).getLsbD 0) ((Rtl.fa a1 o2 a2).getLsbD 0) o3).getLsbD 1)
            ++ BitVec.ofBool ((Rtl.fa ((Rtl.fa o0 a0 o1).getLsbD 0) ((Rtl.fa a1 o2 a2).getLsbD 0) o3).getLsbD 0))
            ++ BitVec.ofBool a3 : BitVec 4).toNat : ℤ)
          = 2 * (Spec.num o0 + Spec.num a0 + Spec.num o1 + Spec.num a1 + Spec.num o2 + Spec.num a2 + Spec.num o3) + Spec.num a3 := by
      decide +kernel
    have h4 : ∀ a b c d : Bool, -1 ≤ 2 * Spec.num (a || b) + 2 * Spec.num (c && d) - (Spec.num a + Spec.num b + Spec.num c + Spec.num d)
        ∧ 2 * Spec.num (a || b) + 2 * Spec.num (c && d) - (Spec.num a + Spec.num b + Spec.num c + Spec.num d) ≤ 1 := by decide
    have h5 : ∀ a b c d : Bool, -1 ≤ 2 * Spec.num (a || b) + Spec.num (c && d) - (Spec.num a + Spec.num b + Spec.num c + Spec.num d)
        ∧ 2 * Spec.num (a || b) + Spec.num (c && d) - (Spec.num a + Spec.num b + Spec.num c + Spec.num d) ≤ 1 := by decide
    unfold Rtl.apcAdd16Cnt Spec.popcount
    simp only [sum_range_succ, range_zero, sum_empty, zero_add]
    rw [key]
    have e0 := h4 (x.getLsbD 0) (x.getLsbD 1) (x.getLsbD 2) (x.getLsbD 3)
    have e1 := h4 (x.getLsbD 4) (x.getLsbD 5) (x.getLsbD 6) (x.getLsbD 7)
    have e2 := h4 (x.getLsbD 8) (x.getLsbD 9) (x.getLsbD 10) (x.getLsbD 11)
    have e3 := h5 (x.getLsbD 12) (x.getLsbD 13) (x.getLsbD 14) (x.getLsbD 15)
    norm_num at e0 e1 e2 e3 ⊢
    rw [abs_le]
    constructor <;> linarith
  · show decide (_ ≤ _) = true ↔ _
    rw [decide_eq_true_eq]

/-! ## Binary units -/

/-- C78: `bADD` and `bMUL` return the exact sum and product two cycles later. -/
theorem C78_binary (w : ℕ) (a b : ℕ → BitVec w) (s : BitVec w × BitVec w × BitVec (w + 1))
    (s' : BitVec w × BitVec w × BitVec (w * 2)) (t : ℕ) :
    (outAt (Rtl.baddStep w) s (fun t => (a t, b t)) (t + 2)).toNat = (a t).toNat + (b t).toNat ∧
    (outAt (Rtl.bmulStep w) s' (fun t => (a t, b t)) (t + 2)).toNat = (a t).toNat * (b t).toNat := by
  have ha := (a t).isLt
  have hb := (b t).isLt
  constructor
  · show ((a t).setWidth (w + 1) + (b t).setWidth (w + 1)).toNat = _
    have h2 : 2 ^ (w + 1) = 2 * 2 ^ w := by rw [pow_succ]; ring
    rw [BitVec.toNat_add, BitVec.toNat_setWidth, BitVec.toNat_setWidth, Nat.mod_eq_of_lt (a := (a t).toNat) (by omega),
      Nat.mod_eq_of_lt (a := (b t).toNat) (by omega), Nat.mod_eq_of_lt (by omega)]
  · show ((a t).setWidth (w * 2) * (b t).setWidth (w * 2)).toNat = _
    have h2 : 2 ^ (w * 2) = 2 ^ w * 2 ^ w := by rw [pow_mul]; ring
    have hle : 2 ^ w ≤ 2 ^ (w * 2) := Nat.pow_le_pow_right (by norm_num) (by omega)
    have hm : (a t).toNat * (b t).toNat < 2 ^ (w * 2) := by rw [h2]; exact Nat.mul_lt_mul'' ha hb
    rw [BitVec.toNat_mul, BitVec.toNat_setWidth, BitVec.toNat_setWidth, Nat.mod_eq_of_lt (a := (a t).toNat) (by omega),
      Nat.mod_eq_of_lt (a := (b t).toNat) (by omega), Nat.mod_eq_of_lt hm]

/-- C78: `mac`, started from zero, accumulates sixteen products without overflow: after `n ≤ 16` cycles with `acc_en` it holds
their exact sum. -/
theorem C78_mac (w : ℕ) (a b : ℕ → BitVec w) (c : ℕ → BitVec (2 * w + 4)) (n : ℕ) (hn : n ≤ 16) :
    (outAt (Rtl.macStep w) 0 (fun t => (a t, b t, c t, true)) n).toNat = ∑ t ∈ range n, (a t).toNat * (b t).toNat := by
  have h2 : 2 ^ (2 * w + 4) = 16 * (2 ^ w * 2 ^ w) := by rw [pow_add, two_mul, pow_add]; ring
  have hprod : ∀ t, (a t).toNat * (b t).toNat < 2 ^ w * 2 ^ w := fun t => Nat.mul_lt_mul'' (a t).isLt (b t).isLt
  have hw : 2 ^ w ≤ 2 ^ (2 * w + 4) := Nat.pow_le_pow_right (by norm_num) (by omega)
  have hP : 0 < 2 ^ w * 2 ^ w := by positivity
  have hbound : ∀ m, ∑ t ∈ range m, (a t).toNat * (b t).toNat ≤ m * (2 ^ w * 2 ^ w - 1) := by
    intro m
    calc ∑ t ∈ range m, (a t).toNat * (b t).toNat ≤ ∑ _t ∈ range m, (2 ^ w * 2 ^ w - 1) :=
          sum_le_sum fun t _ => by have := hprod t; omega
      _ = m * (2 ^ w * 2 ^ w - 1) := by simp
  show (stateAt (Rtl.macStep w) 0 (fun t => (a t, b t, c t, true)) n).toNat = _
  induction n with
  | zero => rfl
  | succ n ih =>
      have ih := ih (by omega)
      rw [stateAt_succ]
      show ((a n).setWidth (2 * w + 4) * (b n).setWidth (2 * w + 4)
        + stateAt (Rtl.macStep w) 0 (fun t => (a t, b t, c t, true)) n).toNat = _
      have ha := (a n).isLt
      have hb := (b n).isLt
      have hp := hprod n
      have h3 := hbound (n + 1)
      have h4 : (n + 1) * (2 ^ w * 2 ^ w - 1) < 2 ^ (2 * w + 4) := by
        rw [h2]
        calc (n + 1) * (2 ^ w * 2 ^ w - 1) ≤ 16 * (2 ^ w * 2 ^ w - 1) := Nat.mul_le_mul_right _ hn
          _ < 16 * (2 ^ w * 2 ^ w) := by omega
      rw [sum_range_succ] at h3 ⊢
      rw [BitVec.toNat_add, BitVec.toNat_mul, BitVec.toNat_setWidth, BitVec.toNat_setWidth,
        Nat.mod_eq_of_lt (a := (a n).toNat) (by omega), Nat.mod_eq_of_lt (a := (b n).toNat) (by omega),
        Nat.mod_eq_of_lt (a := (a n).toNat * (b n).toNat) (by omega), ih, Nat.mod_eq_of_lt (by omega)]
      ring

/-! ## The non-scaled unipolar adder -/

/-- Ones of all inputs in the first `n` cycles. -/
def Spec.total (x : ℕ → Fin 16 → Bool) (n : ℕ) : ℤ := ∑ t ∈ range n, Spec.high (x t)

private theorem total_succ (x : ℕ → Fin 16 → Bool) (n : ℕ) : Spec.total x (n + 1) = Spec.total x n + Spec.high (x n) :=
  sum_range_succ _ _

private theorem total_nonneg (x : ℕ → Fin 16 → Bool) (n : ℕ) : 0 ≤ Spec.total x n := sum_nonneg fun t _ => (high_le (x t)).1

private theorem total_mono (x : ℕ → Fin 16 → Bool) {m n : ℕ} (h : m ≤ n) : Spec.total x m ≤ Spec.total x n := by
  induction h with
  | refl => exact le_refl _
  | @step k _ ih => rw [total_succ]; linarith [(high_le (x k)).1]

private theorem ns16u {s : BitVec 10 × BitVec 10} {T A : ℤ} (hT : (s.1.toNat : ℤ) = 2 * T) (hA : (s.2.toNat : ℤ) = 2 * A)
    (x : Fin 16 → Bool) (h1 : T + Spec.high x ≤ 511) :
    ((Rtl.unsadd16UStep s x).1.1.toNat : ℤ) = 2 * (T + Spec.high x) ∧
    ((Rtl.unsadd16UStep s x).1.2.toNat : ℤ) = 2 * (A + ind (A < T)) ∧
    Spec.num (Rtl.unsadd16UStep s x).2 = ind (A < T) := by
  obtain ⟨a, b⟩ := s
  have ht := temp16 x
  obtain ⟨hl, hh⟩ := high_le x
  generalize hH : Spec.high x = H at *
  unfold Rtl.unsadd16UStep
  simp only
  generalize (Rtl.parallelCnt15 fun i : Fin 15 => x ⟨i, by omega⟩).setWidth 5 + Rtl.bv 5 (x 15) = c at *
  have ha := a.isLt
  have hb := b.isLt
  have hc := c.isLt
  have hult : b.ult a = decide (A < T) := by
    show decide (b.toNat < a.toNat) = _
    rw [decide_eq_decide]; simp only at hT hA; omega
  rw [hult]
  simp only at hT hA
  refine ⟨?_, ?_, ?_⟩
  · have : (a + BitVec.setWidth 10 c <<< 1 - 0).toNat = a.toNat + 2 * c.toNat := by
      rw [BitVec.toNat_sub, BitVec.toNat_add, BitVec.toNat_shiftLeft, BitVec.toNat_setWidth, Nat.shiftLeft_eq]
      show (2 ^ 10 - 0 + _) % 2 ^ 10 = _
      omega
    rw [this]; omega
  · by_cases h : A < T
    · have : (b + Rtl.bv 10 (decide (A < T)) <<< 1).toNat = b.toNat + 2 := by
        rw [decide_eq_true h, BitVec.toNat_add]
        show (b.toNat + 2) % 2 ^ 10 = _
        omega
      rw [this, ind_true h]; push_cast; omega
    · have : (b + Rtl.bv 10 (decide (A < T)) <<< 1).toNat = b.toNat := by
        rw [decide_eq_false h, BitVec.toNat_add]
        show (b.toNat + 0) % 2 ^ 10 = _
        omega
      rw [this, ind_false h]; omega
  · unfold Spec.num ind
    by_cases h : A < T <;> simp [h]

/-- The hardware as long as the total does not exceed 511: it emits while it has emitted less than it has received. -/
private theorem ns16u_run (x : ℕ → Fin 16 → Bool) (n : ℕ) (hS : Spec.total x n ≤ 511) :
    ∀ m ≤ n, ((stateAt Rtl.unsadd16UStep (0, 0) x m).1.toNat : ℤ) = 2 * Spec.total x m ∧
      ((stateAt Rtl.unsadd16UStep (0, 0) x m).2.toNat : ℤ)
        = 2 * Verif.Spec.ones (Spec.nums (outAt Rtl.unsadd16UStep (0, 0) x)) m ∧
      Spec.num (outAt Rtl.unsadd16UStep (0, 0) x m)
        = ind (Verif.Spec.ones (Spec.nums (outAt Rtl.unsadd16UStep (0, 0) x)) m < Spec.total x m) := by
  intro m hm
  have hout : ∀ m, ((stateAt Rtl.unsadd16UStep (0, 0) x m).1.toNat : ℤ) = 2 * Spec.total x m →
      ((stateAt Rtl.unsadd16UStep (0, 0) x m).2.toNat : ℤ)
        = 2 * Verif.Spec.ones (Spec.nums (outAt Rtl.unsadd16UStep (0, 0) x)) m →
      Spec.num (outAt Rtl.unsadd16UStep (0, 0) x m)
        = ind (Verif.Spec.ones (Spec.nums (outAt Rtl.unsadd16UStep (0, 0) x)) m < Spec.total x m) := by
    intro m h1 h2
    show Spec.num (decide ((stateAt Rtl.unsadd16UStep (0, 0) x m).2.toNat < (stateAt Rtl.unsadd16UStep (0, 0) x m).1.toNat)) = _
    have e : ((stateAt Rtl.unsadd16UStep (0, 0) x m).2.toNat < (stateAt Rtl.unsadd16UStep (0, 0) x m).1.toNat) ↔
        Verif.Spec.ones (Spec.nums (outAt Rtl.unsadd16UStep (0, 0) x)) m < Spec.total x m := by omega
    unfold Spec.num ind
    by_cases h : Verif.Spec.ones (Spec.nums (outAt Rtl.unsadd16UStep (0, 0) x)) m < Spec.total x m
    · rw [if_pos h, decide_eq_true (e.2 h)]; rfl
    · rw [if_neg h, decide_eq_false (fun h' => h (e.1 h'))]; rfl
  induction m with
  | zero => exact ⟨rfl, rfl, hout 0 rfl rfl⟩
  | succ m ih =>
      obtain ⟨i1, i2, i3⟩ := ih (by omega)
      have b1 : Spec.total x m + Spec.high (x m) ≤ 511 := by
        rw [← total_succ]; exact (total_mono x hm).trans hS
      obtain ⟨r1, r2, r3⟩ := ns16u i1 i2 (x m) b1
      have j1 : ((stateAt Rtl.unsadd16UStep (0, 0) x (m + 1)).1.toNat : ℤ) = 2 * Spec.total x (m + 1) := by
        rw [stateAt_succ, total_succ]; exact r1
      have j2 : ((stateAt Rtl.unsadd16UStep (0, 0) x (m + 1)).2.toNat : ℤ)
          = 2 * Verif.Spec.ones (Spec.nums (outAt Rtl.unsadd16UStep (0, 0) x)) (m + 1) := by
        rw [stateAt_succ, Verif.Spec.ones_succ, r2]
        have e : Spec.nums (outAt Rtl.unsadd16UStep (0, 0) x) m = Spec.num (outAt Rtl.unsadd16UStep (0, 0) x m) := rfl
        rw [e, i3]
      exact ⟨j1, j2, hout _ j1 j2⟩

/-- C78: as long as the inputs have had at most 511 ones together, `uNSADD16` with offset 0 emits, one cycle later, the bits of
the non-scaled unipolar `FSUAdd`. -/
theorem C78_unsadd16_uni (cfg : Cfg) (hm : cfg.mode = .unipolar) (hsc : cfg.scale = some 1)
    (hd : 11 ≤ cfg.depth) (x : Fin 16 → ℕ → Bool) (t : ℕ) (hS : Spec.total (fun t i => x i t) (t + 1) ≤ 511) :
    Spec.num (outAt Rtl.unsadd16UStep (0, 0) (fun t i => x i t) (t + 1))
      = addOut cfg (streamArgs fun i => Spec.nums (x i)) t := by
  set X : ℕ → Fin 16 → Bool := fun t i => x i t with hX
  set a := streamArgs fun i => Spec.nums (x i) with ha
  have hC : Spec.addScale cfg a = 1 := by simp [Spec.addScale, hsc, ha, streamArgs]
  have hO : Spec.addOffset cfg a = 0 := by
    unfold Spec.addOffset; rw [if_neg (by rw [hm]; decide)]
  have hD : ∀ t, Spec.addDelta cfg a t = ((Spec.high (X t) : ℤ) : ℚ) := by
    intro t
    unfold Spec.addDelta
    rw [hO]
    have : (a t).xs.sum = ((Spec.high (X t) : ℤ) : ℚ) := by
      rw [ha]; unfold streamArgs Spec.high
      rw [List.sum_ofFn]; push_cast; rfl
    rw [this]; ring
  have hB : (512 : ℚ) ≤ (2:ℚ) ^ (cfg.depth - 2) := by
    calc (512 : ℚ) = (2:ℚ) ^ (9 : ℤ) := by norm_num
      _ ≤ (2:ℚ) ^ (cfg.depth - 2) := zpow_le_zpow_right₀ (by norm_num) (by omega)
  have hle : ∀ m ≤ t + 1, Spec.total X m ≤ 511 := fun m hm => (total_mono X hm).trans hS
  -- one Python cycle
  have out_eq : ∀ m ≤ t, addAcc cfg a m = ((Spec.total X m - Verif.Spec.ones (addOut cfg a) m : ℤ) : ℚ) →
      0 ≤ Verif.Spec.ones (addOut cfg a) m → Verif.Spec.ones (addOut cfg a) m ≤ 511 →
      addAcc cfg a (m + 1) = ((Spec.total X (m + 1) - Verif.Spec.ones (addOut cfg a) (m + 1) : ℤ) : ℚ) ∧
      addOut cfg a m = ind (Verif.Spec.ones (addOut cfg a) m < Spec.total X (m + 1)) := by
    intro m hm' h1 h2 h3
    have b1 := hle (m + 1) (by omega)
    have b0 := total_nonneg X (m + 1)
    have e : addAcc cfg a m + Spec.addDelta cfg a m
        = ((Spec.total X (m + 1) - Verif.Spec.ones (addOut cfg a) m : ℤ) : ℚ) := by
      rw [h1, hD, total_succ]; push_cast; ring
    have u : ((Spec.total X (m + 1) - Verif.Spec.ones (addOut cfg a) m : ℤ) : ℚ) ≤ 511 := by
      exact_mod_cast (by omega : Spec.total X (m + 1) - Verif.Spec.ones (addOut cfg a) m ≤ 511)
    have l : (-511 : ℚ) ≤ ((Spec.total X (m + 1) - Verif.Spec.ones (addOut cfg a) m : ℤ) : ℚ) := by
      exact_mod_cast (by omega : -511 ≤ Spec.total X (m + 1) - Verif.Spec.ones (addOut cfg a) m)
    constructor
    · have hc := C18_single_clamp cfg a (by rw [hC]; norm_num) m
      rw [e, hC, min_eq_left (by linarith), max_eq_right (by linarith)] at hc
      rw [Verif.Spec.ones_succ]; push_cast at hc ⊢; linarith
    · rw [addOut_eq, hC, e]
      have hcl : clamp (-accBound cfg.depth) (accBound cfg.depth)
          ((Spec.total X (m + 1) - Verif.Spec.ones (addOut cfg a) m : ℤ) : ℚ)
          = ((Spec.total X (m + 1) - Verif.Spec.ones (addOut cfg a) m : ℤ) : ℚ) := by
        have hB' : (512 : ℚ) ≤ accBound cfg.depth := hB
        unfold clamp
        rw [max_eq_left (by linarith), min_eq_left (by linarith)]
      rw [hcl]
      have : (((Spec.total X (m + 1) - Verif.Spec.ones (addOut cfg a) m : ℤ) : ℚ) ≥ 1) ↔
          Verif.Spec.ones (addOut cfg a) m < Spec.total X (m + 1) := by
        constructor
        · intro h
          have : (1 : ℤ) ≤ Spec.total X (m + 1) - Verif.Spec.ones (addOut cfg a) m := by exact_mod_cast h
          omega
        · intro h
          exact_mod_cast (by omega : (1 : ℤ) ≤ Spec.total X (m + 1) - Verif.Spec.ones (addOut cfg a) m)
      unfold ind
      simp only [this]
  have hpy : ∀ m ≤ t, addAcc cfg a m = ((Spec.total X m - Verif.Spec.ones (addOut cfg a) m : ℤ) : ℚ) ∧
      0 ≤ Verif.Spec.ones (addOut cfg a) m ∧ Verif.Spec.ones (addOut cfg a) m ≤ 511 := by
    intro m hmt
    induction m with
    | zero => exact ⟨by simp [addAcc, Adder.init, Spec.total], le_refl _, by simp⟩
    | succ m ih =>
        obtain ⟨i1, i2, i3⟩ := ih (by omega)
        obtain ⟨j1, j2⟩ := out_eq m (by omega) i1 i2 i3
        have b1 := hle (m + 1) (by omega)
        refine ⟨j1, ?_, ?_⟩
        · rw [Verif.Spec.ones_succ]; rcases C18_bit cfg a m with h | h <;> omega
        · rw [Verif.Spec.ones_succ, j2]; unfold ind; split_ifs <;> omega
  have main : ∀ m ≤ t, Verif.Spec.ones (Spec.nums (outAt Rtl.unsadd16UStep (0, 0) X)) (m + 1)
      = Verif.Spec.ones (addOut cfg a) m ∧ Spec.num (outAt Rtl.unsadd16UStep (0, 0) X (m + 1)) = addOut cfg a m := by
    intro m hmt
    have hb : Verif.Spec.ones (Spec.nums (outAt Rtl.unsadd16UStep (0, 0) X)) (m + 1) = Verif.Spec.ones (addOut cfg a) m →
        Spec.num (outAt Rtl.unsadd16UStep (0, 0) X (m + 1)) = addOut cfg a m := by
      intro h
      obtain ⟨i1, i2, i3⟩ := hpy m hmt
      rw [(out_eq m hmt i1 i2 i3).2, (ns16u_run X (t + 1) hS (m + 1) (by omega)).2.2, h]
    induction m with
    | zero =>
        have : Verif.Spec.ones (Spec.nums (outAt Rtl.unsadd16UStep (0, 0) X)) 1 = 0 := by
          rw [Verif.Spec.ones_succ]; rfl
        exact ⟨this, hb this⟩
    | succ m ih =>
        have hb' : Verif.Spec.ones (Spec.nums (outAt Rtl.unsadd16UStep (0, 0) X)) (m + 1) = Verif.Spec.ones (addOut cfg a) m →
          Spec.num (outAt Rtl.unsadd16UStep (0, 0) X (m + 1)) = addOut cfg a m := by
          intro h
          obtain ⟨i1, i2, i3⟩ := hpy m (by omega)
          rw [(out_eq m (by omega) i1 i2 i3).2, (ns16u_run X (t + 1) hS (m + 1) (by omega)).2.2, h]
        obtain ⟨i1, i2⟩ := ih (by omega) hb'
        have : Verif.Spec.ones (Spec.nums (outAt Rtl.unsadd16UStep (0, 0) X)) (m + 1 + 1)
            = Verif.Spec.ones (addOut cfg a) (m + 1) := by
          rw [Verif.Spec.ones_succ _ (m + 1), i1, Verif.Spec.ones_succ _ m]
          have e : Spec.nums (outAt Rtl.unsadd16UStep (0, 0) X) (m + 1) = Spec.num (outAt Rtl.unsadd16UStep (0, 0) X (m + 1)) := rfl
          rw [e, i2]
        exact ⟨this, hb this⟩
  exact (main t (le_refl _)).2

/-- C78: beyond 511 the ten bit registers wrap: with all sixteen inputs at one the hardware emits a zero in cycle 32 (and the
Python module never does). -/
theorem C78_unsadd16_uni_wraps (cfg : Cfg) (hm : cfg.mode = .unipolar) (hsc : cfg.scale = some 1)
    (hd : 11 ≤ cfg.depth) :
    outAt Rtl.unsadd16UStep (0, 0) (fun _ _ => true) 32 = false ∧
    ∀ t, addOut cfg (streamArgs fun _ : Fin 16 => Spec.nums fun _ => true) t = 1 := by
  refine ⟨by decide +kernel, ?_⟩
  set a := streamArgs fun _ : Fin 16 => Spec.nums fun _ => true with ha
  have hC : Spec.addScale cfg a = 1 := by simp [Spec.addScale, hsc, ha, streamArgs]
  have hO : Spec.addOffset cfg a = 0 := by
    unfold Spec.addOffset; rw [if_neg (by rw [hm]; decide)]
  have hD : ∀ t, Spec.addDelta cfg a t = 16 := by
    intro t
    unfold Spec.addDelta
    rw [hO, ha]
    simp [streamArgs, Spec.nums, Spec.num]
    norm_num
  have hB : (512 : ℚ) ≤ (2:ℚ) ^ (cfg.depth - 2) := by
    calc (512 : ℚ) = (2:ℚ) ^ (9 : ℤ) := by norm_num
      _ ≤ (2:ℚ) ^ (cfg.depth - 2) := zpow_le_zpow_right₀ (by norm_num) (by omega)
  have hacc : ∀ t, 0 ≤ addAcc cfg a t := by
    intro t
    induction t with
    | zero => simp [addAcc, Adder.init]
    | succ t ih =>
        have hc := C18_single_clamp cfg a (by rw [hC]; norm_num) t
        rw [hC, hD] at hc
        have h1 : (1 : ℚ) ≤ max (-(2:ℚ) ^ (cfg.depth - 2)) (min (addAcc cfg a t + 16) ((2:ℚ) ^ (cfg.depth - 2))) :=
          le_max_of_le_right (le_min (by linarith) (by linarith))
        rw [← hc] at h1
        rcases C18_bit cfg a t with h | h <;> rw [h] at h1 <;> push_cast at h1 <;> linarith
  intro t
  rw [addOut_eq, hC, hD]
  have h0 := hacc t
  have hB' : (512 : ℚ) ≤ accBound cfg.depth := hB
  have : clamp (-accBound cfg.depth) (accBound cfg.depth) (addAcc cfg a t + 16) ≥ 1 := by
    unfold clamp
    exact le_min (le_max_of_le_left (by linarith)) (by linarith)
  unfold ind
  rw [if_pos this]

/-! ## Examples -/

/-- Four inputs at rest, three of them one: three ones in a period of four. -/
example : ∑ r ∈ range (2 ^ 2), Spec.num (outAt Rtl.muxRngStep (Rtl.sobolInit 2, false) (fun _ => 0b1011#4) (1 * 2 ^ 2 + r + 1)) = 3 :=
  (C78_mux_rng_constant (w := 2) (by norm_num) (fun _ => 0b1011#4) 1 0b1011#4 fun _ _ => rfl).trans (by decide)

/-- Four inputs with 4, 2, 1 and 0 ones in every four cycles: seven ones in sixteen cycles. -/
example : ∑ p ∈ range (2 ^ 2), ∑ r ∈ range (2 ^ 2), Spec.num (outAt Rtl.daddStep (0, Rtl.sobolInit 2, false)
    (fun t => if t % 4 = 0 then 0b0111#4 else if t % 4 = 2 then 0b0011#4 else 0b0001#4) (((0 + 1) * 2 ^ 2 + p - 1) * 2 ^ 2 + 2 + r + 1)) = 7 :=
  (C78_dadd (w := 2) (by norm_num) _ (fun t => by simp) 0).trans (by decide)

/-- Disjoint inputs add up, overlapping ones do not. -/
example : ∑ t ∈ range 2, Spec.num (outAt Rtl.orAddStep false (fun t => if t = 0 then 0b01#2 else 0b10#2) (t + 1)) = 2 ∧
    ∑ t ∈ range 2, Spec.num (outAt Rtl.orAddStep false (fun _ => 0b11#2) (t + 1)) = 2 := by decide +kernel

/-- Eight inputs at one: seven ones in a period of eight. -/
example : ∑ j ∈ range 8, Spec.num (outAt Rtl.apcAddStep 0
    (fun t => (0xff#8, BitVec.ofNat 3 (Spec.hwSobol 3 t))) ((0 + 1) * 8 + j)) = 7 :=
  (C78_apc_period (fun _ => 0xff#8) (fun t => BitVec.ofNat 3 (Spec.hwSobol 3 t))
    (fun t => by rw [BitVec.toNat_ofNat]; exact Nat.mod_eq_of_lt (BitVec.isLt _)) 0xff#8 0 fun _ _ => rfl).trans (by decide)

/-- Four ones counted as eight. -/
example : (Rtl.apcAdd16Cnt 0x1111#16).toNat = 8 ∧ Spec.popcount 0x1111#16 = 4 ∧ Rtl.apcAdd16 0 0 = true := by decide +kernel

example : (outAt (Rtl.macStep 8) 0 (fun _ => (255#8, 255#8, 0, true)) 16).toNat = 16 * 255 * 255 :=
  (C78_mac 8 (fun _ => 255#8) (fun _ => 255#8) (fun _ => 0) 16 (le_refl _)).trans (by decide)

/-- Two inputs out of sixteen at one: the hardware emits ones from cycle 1 on. -/
example : Spec.num (outAt Rtl.unsadd16UStep (0, 0) (fun _ i => decide ((i : ℕ) < 2)) (9 + 1))
    = addOut ⟨.unipolar, some 1, none, 11⟩ (streamArgs fun i : Fin 16 => Spec.nums fun _ => decide ((i : ℕ) < 2)) 9 ∧
    outAt Rtl.unsadd16UStep (0, 0) (fun _ (i : Fin 16) => decide ((i : ℕ) < 2)) 10 = true :=
  ⟨C78_unsadd16_uni ⟨.unipolar, some 1, none, 11⟩ rfl rfl (by norm_num) (fun i _ => decide ((i : ℕ) < 2)) 9
    (by decide +kernel), by decide +kernel⟩

end Verif.Props
