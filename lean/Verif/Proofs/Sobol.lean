import Verif.Proofs.Gen

namespace Verif.Gen

open Verif Finset Spec

theorem rightmostZero_even (i : ℕ) : rightmostZero (2 * i) = 0 := by
  rw [rightmostZero]; simp

theorem rightmostZero_odd (i : ℕ) : rightmostZero (2 * i + 1) = 1 + rightmostZero i := by
  rw [rightmostZero]
  have h : (2 * i + 1) % 2 ≠ 0 := by omega
  rw [dif_neg h]
  congr 2; omega

theorem rightmostZero_lt {j r : ℕ} (h : r + 1 < 2 ^ j) : rightmostZero r < j := by
  induction j generalizing r with
  | zero => simp at h
  | succ j ih =>
      rcases Nat.even_or_odd' r with ⟨k, rfl | rfl⟩
      · rw [rightmostZero_even]; omega
      · rw [rightmostZero_odd]
        have : k + 1 < 2 ^ j := by rw [pow_succ] at h; omega
        have := ih this; omega

theorem rightmostZero_pred (j : ℕ) : rightmostZero (2 ^ j - 1) = j := by
  induction j with
  | zero => simpa using rightmostZero_even 0
  | succ j ih =>
      have h : 2 ^ (j + 1) - 1 = 2 * (2 ^ j - 1) + 1 := by
        have : 0 < 2 ^ j := by positivity
        rw [pow_succ]; omega
      rw [h, rightmostZero_odd, ih]; omega

theorem rightmostZero_block {j r : ℕ} (a : ℕ) (h : r + 1 < 2 ^ j) :
    rightmostZero (a * 2 ^ j + r) = rightmostZero r := by
  induction j generalizing r with
  | zero => simp at h
  | succ j ih =>
      rcases Nat.even_or_odd' r with ⟨k, rfl | rfl⟩
      · have : a * 2 ^ (j + 1) + 2 * k = 2 * (a * 2 ^ j + k) := by rw [pow_succ]; ring
        rw [this, rightmostZero_even, rightmostZero_even]
      · have : a * 2 ^ (j + 1) + (2 * k + 1) = 2 * (a * 2 ^ j + k) + 1 := by rw [pow_succ]; ring
        rw [this, rightmostZero_odd, rightmostZero_odd, ih]
        rw [pow_succ] at h; omega

theorem sobolQuasi_block (v : ℕ → ℕ) {j r : ℕ} (a : ℕ) (h : r < 2 ^ j) :
    sobolQuasi v (a * 2 ^ j + r) = sobolQuasi v (a * 2 ^ j) ^^^ sobolQuasi v r := by
  induction r with
  | zero => simp [sobolQuasi]
  | succ r ih =>
      rw [← Nat.add_assoc, sobolQuasi, sobolQuasi, ih (by omega), rightmostZero_block a h,
        Nat.xor_assoc]

/-- Legal direction numbers: `m j` is odd and below `2^(j+1)`. -/
def DirOK (m : ℕ → ℕ) : Prop := ∀ j, m j % 2 = 1 ∧ m j < 2 ^ (j + 1)

variable {M : ℕ} {m : ℕ → ℕ}

theorem sobolDir_lt (hm : DirOK m) {j : ℕ} (hj : j < M) : sobolDir M m j < 2 ^ M := by
  unfold sobolDir
  have h1 := (hm j).2
  calc m j * 2 ^ (M - 1 - j) < 2 ^ (j + 1) * 2 ^ (M - 1 - j) :=
        Nat.mul_lt_mul_of_pos_right h1 (by positivity)
    _ = 2 ^ M := by rw [← pow_add]; congr 1; omega

theorem sobolQuasi_lt (hm : DirOK m) {j r : ℕ} (hj : j ≤ M) (h : r < 2 ^ j) :
    sobolQuasi (sobolDir M m) r < 2 ^ M := by
  induction r with
  | zero => simp [sobolQuasi]
  | succ r ih =>
      rw [sobolQuasi]
      exact Nat.xor_lt_two_pow (ih (by omega))
        (sobolDir_lt hm (lt_of_lt_of_le (rightmostZero_lt h) hj))

theorem sobolDir_low {j k i : ℕ} (hk : k < j) (hj : j ≤ M) (hi : i < M - j) :
    (sobolDir M m k).testBit i = false := by
  unfold sobolDir
  rw [Nat.testBit_mul_two_pow]
  have : ¬ (M - 1 - k ≤ i) := by omega
  simp [this]

/-- Low bits of the first `2^j` raw points vanish. -/
theorem sobolQuasi_low {j r i : ℕ} (hj : j ≤ M) (h : r < 2 ^ j) (hi : i < M - j) :
    (sobolQuasi (sobolDir M m) r).testBit i = false := by
  induction r with
  | zero => simp [sobolQuasi]
  | succ r ih =>
      rw [sobolQuasi, Nat.testBit_xor, ih (by omega), sobolDir_low (rightmostZero_lt h) hj hi]
      rfl

theorem sobolDir_lead (hm : DirOK m) {j : ℕ} : (sobolDir M m j).testBit (M - 1 - j) = true := by
  unfold sobolDir
  rw [Nat.testBit_mul_two_pow]
  simp [Nat.testBit_zero, (hm j).1]

theorem sobolQuasi_hi (hm : DirOK m) {j r : ℕ} (hj : j < M) (h1 : 2 ^ j ≤ r) (h2 : r < 2 ^ (j + 1)) :
    (sobolQuasi (sobolDir M m) r).testBit (M - 1 - j) = true := by
  obtain ⟨s, rfl⟩ := Nat.exists_eq_add_of_le h1
  have hs : s < 2 ^ j := by rw [pow_succ] at h2; omega
  have hb := sobolQuasi_block (sobolDir M m) 1 hs
  rw [one_mul] at hb
  have hp : 0 < 2 ^ j := by positivity
  have e : sobolQuasi (sobolDir M m) (2 ^ j)
      = sobolQuasi (sobolDir M m) (2 ^ j - 1) ^^^ sobolDir M m j := by
    have : 2 ^ j = (2 ^ j - 1) + 1 := by omega
    conv_lhs => rw [this]
    rw [sobolQuasi, rightmostZero_pred]
  rw [hb, e, Nat.testBit_xor, Nat.testBit_xor, sobolDir_lead hm,
    sobolQuasi_low (le_of_lt hj) (by omega) (by omega), sobolQuasi_low (le_of_lt hj) hs (by omega)]
  rfl

/-- The raw points are pairwise distinct. -/
theorem sobolQuasi_inj (hm : DirOK m) {j : ℕ} (hj : j ≤ M) {r s : ℕ} (hr : r < 2 ^ j)
    (hs : s < 2 ^ j) (h : sobolQuasi (sobolDir M m) r = sobolQuasi (sobolDir M m) s) : r = s := by
  induction j generalizing r s with
  | zero => simp at hr hs; omega
  | succ j ih =>
      by_cases h1 : r < 2 ^ j <;> by_cases h2 : s < 2 ^ j
      · exact ih (by omega) h1 h2 h
      · have a := sobolQuasi_low (M := M) (m := m) (j := j) (i := M - 1 - j) (by omega) h1 (by omega)
        have b := sobolQuasi_hi (M := M) hm (j := j) (by omega) (by omega) hs
        rw [h, b] at a; cases a
      · have a := sobolQuasi_low (M := M) (m := m) (j := j) (i := M - 1 - j) (by omega) h2 (by omega)
        have b := sobolQuasi_hi (M := M) hm (j := j) (by omega) (by omega) hr
        rw [← h, b] at a; cases a
      · obtain ⟨r', rfl⟩ := Nat.exists_eq_add_of_le (Nat.le_of_not_lt h1)
        obtain ⟨s', rfl⟩ := Nat.exists_eq_add_of_le (Nat.le_of_not_lt h2)
        rw [pow_succ] at hr hs
        have hr' : r' < 2 ^ j := by omega
        have hs' : s' < 2 ^ j := by omega
        have b1 := sobolQuasi_block (sobolDir M m) 1 hr'
        have b2 := sobolQuasi_block (sobolDir M m) 1 hs'
        rw [one_mul] at b1 b2
        rw [b1, b2] at h
        have := ih (by omega) hr' hs' (Nat.xor_right_injective h)
        omega

/-- Top `j` bits of a raw point. -/
theorem sobolQuasi_eq_of_shift {j r s : ℕ} (hj : j ≤ M) (hr : r < 2 ^ j) (hs : s < 2 ^ j)
    (h : sobolQuasi (sobolDir M m) r >>> (M - j) = sobolQuasi (sobolDir M m) s >>> (M - j)) :
    sobolQuasi (sobolDir M m) r = sobolQuasi (sobolDir M m) s := by
  apply Nat.eq_of_testBit_eq
  intro i
  by_cases hi : i < M - j
  · rw [sobolQuasi_low hj hr hi, sobolQuasi_low hj hs hi]
  · have := congrArg (fun x => x.testBit (i - (M - j))) h
    simp only [Nat.testBit_shiftRight] at this
    rwa [show M - j + (i - (M - j)) = i by omega] at this

theorem sobol_block_inj (hm : DirOK m) {j a r s : ℕ} (hj : j ≤ M) (hr : r < 2 ^ j) (hs : s < 2 ^ j)
    (h : sobolQuasi (sobolDir M m) (a * 2 ^ j + r) >>> (M - j)
       = sobolQuasi (sobolDir M m) (a * 2 ^ j + s) >>> (M - j)) : r = s := by
  rw [sobolQuasi_block _ a hr, sobolQuasi_block _ a hs, Nat.shiftRight_xor_distrib,
    Nat.shiftRight_xor_distrib] at h
  exact sobolQuasi_inj hm hj hr hs (sobolQuasi_eq_of_shift hj hr hs (Nat.xor_right_injective h))

theorem sobolSeq_elem {w : ℕ} (hw : w ≤ M) (i : ℕ) :
    ⌊((sobolQuasi (sobolDir M m) i : ℚ) / 2 ^ M) * 2 ^ w⌋
      = ((sobolQuasi (sobolDir M m) i >>> (M - w) : ℕ) : ℤ) := by
  have e : ((sobolQuasi (sobolDir M m) i : ℚ) / 2 ^ M) * 2 ^ w
      = (sobolQuasi (sobolDir M m) i : ℚ) / ((2 ^ (M - w) : ℕ) : ℚ) := by
    have : (2:ℚ) ^ M = 2 ^ (M - w) * 2 ^ w := by rw [← pow_add]; congr 1; omega
    rw [this]; push_cast; field_simp
  rw [e, Rat.floor_natCast_div_natCast, Nat.shiftRight_eq_div_pow]
  norm_cast

theorem sobolSeq_getD {w : ℕ} (hw : w ≤ M) {i : ℕ} (hi : i < 2 ^ w) :
    (sobolSeq M w m).getD i 0 = ((sobolQuasi (sobolDir M m) i >>> (M - w) : ℕ) : ℤ) := by
  unfold sobolSeq
  rw [List.getD_eq_getElem?_getD, List.getElem?_map, List.getElem?_range hi]
  simpa using sobolSeq_elem (m := m) hw i

theorem sobolQuasi_lt' (hm : DirOK m) {w i : ℕ} (hw : w ≤ M) (hi : i < 2 ^ w) :
    sobolQuasi (sobolDir M m) i < 2 ^ M := sobolQuasi_lt hm hw hi

theorem sobol_dyadicNet (hm : DirOK m) {w : ℕ} (hw : w ≤ M) : DyadicNet w (sobolSeq M w m) := by
  refine ⟨by simp [sobolSeq], fun j hj a ha c hc0 hc1 => ?_⟩
  have hidx : ∀ r < 2 ^ j, a * 2 ^ j + r < 2 ^ w := by
    intro r hr
    calc a * 2 ^ j + r < (a + 1) * 2 ^ j := by ring_nf; omega
      _ ≤ 2 ^ (w - j) * 2 ^ j := Nat.mul_le_mul_right _ ha
      _ = 2 ^ w := by rw [← pow_add]; congr 1; omega
  -- interval number of the element
  have hiv : ∀ r < 2 ^ j, ∀ c : ℤ,
      (c * 2 ^ (w - j) ≤ (sobolSeq M w m).getD (a * 2 ^ j + r) 0 ∧
        (sobolSeq M w m).getD (a * 2 ^ j + r) 0 < (c + 1) * 2 ^ (w - j)) ↔
      ((sobolQuasi (sobolDir M m) (a * 2 ^ j + r) >>> (M - j) : ℕ) : ℤ) = c := by
    intro r hr c
    rw [sobolSeq_getD hw (hidx r hr)]
    have e : sobolQuasi (sobolDir M m) (a * 2 ^ j + r) >>> (M - j)
        = (sobolQuasi (sobolDir M m) (a * 2 ^ j + r) >>> (M - w)) / 2 ^ (w - j) := by
      rw [← Nat.shiftRight_eq_div_pow, ← Nat.shiftRight_add]; congr 1; omega
    rw [e]
    generalize sobolQuasi (sobolDir M m) (a * 2 ^ j + r) >>> (M - w) = x
    have hp : (0:ℤ) < 2 ^ (w - j) := by positivity
    push_cast
    constructor
    · rintro ⟨h1, h2⟩
      apply le_antisymm
      · exact Int.le_of_lt_add_one (Int.ediv_lt_of_lt_mul hp h2)
      · exact Int.le_ediv_of_mul_le hp h1
    · rintro rfl
      exact ⟨Int.ediv_mul_le _ hp.ne', Int.lt_ediv_add_one_mul_self _ hp⟩
  -- the interval numbers of a block are a permutation
  have hperm := isPermSeq_of_injOn (w := j)
    (fun r => ((sobolQuasi (sobolDir M m) (a * 2 ^ j + r) >>> (M - j) : ℕ) : ℤ))
    (fun r hr => ⟨by positivity, by
      have := sobolQuasi_lt' hm hw (hidx r hr)
      have h2 : sobolQuasi (sobolDir M m) (a * 2 ^ j + r) >>> (M - j) < 2 ^ j := by
        rw [Nat.shiftRight_eq_div_pow]
        apply Nat.div_lt_of_lt_mul
        rw [← pow_add]
        convert this using 2
        omega
      exact_mod_cast h2⟩)
    (fun r hr s hs h => sobol_block_inj hm (by omega : j ≤ M) hr hs (by exact_mod_cast h))
  have hmem : c ∈ (List.range (2 ^ j)).map
      (fun r => ((sobolQuasi (sobolDir M m) (a * 2 ^ j + r) >>> (M - j) : ℕ) : ℤ)) := by
    have := hperm.2 c hc0 hc1
    exact List.count_pos_iff.1 (by omega)
  simp only [List.mem_map, List.mem_range] at hmem
  obtain ⟨r, hr, hrc⟩ := hmem
  refine ⟨r, ⟨hr, (hiv r hr c).2 hrc⟩, ?_⟩
  rintro s ⟨hs, h12⟩
  have hsc := (hiv s hs c).1 h12
  exact sobol_block_inj hm (by omega : j ≤ M) hs hr (by
    have : ((sobolQuasi (sobolDir M m) (a * 2 ^ j + s) >>> (M - j) : ℕ) : ℤ)
      = ((sobolQuasi (sobolDir M m) (a * 2 ^ j + r) >>> (M - j) : ℕ) : ℤ) := by rw [hsc, hrc]
    exact_mod_cast this)

/-! ### Consequences of the net property -/

theorem count_eq_one_of_existsUnique {l : List ℤ} {v : ℤ}
    (h : ∃! i, i < l.length ∧ l.getD i 0 = v) : l.count v = 1 := by
  obtain ⟨r, ⟨hr, hv⟩, huniq⟩ := h
  have hsum := sum_getD (fun x => if x = v then 1 else 0) l
  have hcount : ∀ l : List ℤ, ((l.map (fun x => if x = v then (1:ℤ) else 0)).sum) = l.count v := by
    intro l
    induction l with
    | nil => simp
    | cons x l ih =>
        rw [List.map_cons, List.sum_cons, ih, List.count_cons]
        by_cases hx : x = v
        · simp [hx]; ring
        · simp [hx]
  rw [hcount] at hsum
  have h3 : ∑ t ∈ range l.length, (if l.getD t 0 = v then (1:ℤ) else 0)
      = ∑ t ∈ range l.length, (if t = r then (1:ℤ) else 0) := by
    apply sum_congr rfl
    intro t ht
    by_cases hc : l.getD t 0 = v
    · rw [if_pos hc, if_pos (huniq t ⟨mem_range.1 ht, hc⟩)]
    · rw [if_neg hc, if_neg]
      rintro rfl; exact hc hv
  rw [h3, sum_ite_eq' (range l.length) r] at hsum
  rw [if_pos (mem_range.2 hr)] at hsum
  exact_mod_cast hsum.symm

theorem DyadicNet.isPermSeq {w : ℕ} {rng : List ℤ} (h : DyadicNet w rng) : IsPermSeq w rng := by
  refine ⟨h.1, fun v h0 h1 => ?_⟩
  obtain ⟨r, ⟨hr, hr1, hr2⟩, huniq⟩ := h.2 w (le_refl _) 0 (by simp) v h0 h1
  simp only [Nat.sub_self, pow_zero, mul_one, zero_mul, zero_add] at hr1 hr2 huniq
  apply count_eq_one_of_existsUnique
  refine ⟨r, ⟨by rw [h.1]; exact hr, by omega⟩, fun i hi => huniq i ⟨by rw [← h.1]; exact hi.1, ?_, ?_⟩⟩
  · have := hi.2; omega
  · have := hi.2; omega

/-- Interval numbers of an aligned block. -/
theorem DyadicNet.block {w : ℕ} {rng : List ℤ} (h : DyadicNet w rng) {j a : ℕ} (hj : j ≤ w)
    (ha : a < 2 ^ (w - j)) :
    IsPermSeq j ((List.range (2 ^ j)).map fun r => rng.getD (a * 2 ^ j + r) 0 / 2 ^ (w - j)) := by
  refine ⟨by simp, fun v h0 h1 => ?_⟩
  apply count_eq_one_of_existsUnique
  obtain ⟨r, ⟨hr, hr1, hr2⟩, huniq⟩ := h.2 j hj a ha v h0 h1
  have hp : (0:ℤ) < 2 ^ (w - j) := by positivity
  have hg : ∀ i < 2 ^ j, ((List.range (2 ^ j)).map fun r => rng.getD (a * 2 ^ j + r) 0 / 2 ^ (w - j)).getD i 0
      = rng.getD (a * 2 ^ j + i) 0 / 2 ^ (w - j) := by
    intro i hi
    rw [List.getD_eq_getElem?_getD, List.getElem?_map, List.getElem?_range hi]
    simp
  refine ⟨r, ⟨by simpa using hr, ?_⟩, ?_⟩
  · rw [hg r hr]
    apply le_antisymm
    · exact Int.le_of_lt_add_one (Int.ediv_lt_of_lt_mul hp hr2)
    · exact Int.le_ediv_of_mul_le hp hr1
  · rintro i ⟨hi, hiv⟩
    have hi : i < 2 ^ j := by simpa using hi
    rw [hg i hi] at hiv
    exact huniq i ⟨hi, by rw [← hiv]; exact Int.ediv_mul_le _ hp.ne',
      by rw [← hiv]; exact Int.lt_ediv_add_one_mul_self _ hp⟩

theorem DyadicNet.block_count {w : ℕ} {rng : List ℤ} (h : DyadicNet w rng) {j a : ℕ} (hj : j ≤ w)
    (ha : a < 2 ^ (w - j)) {b : ℤ} (hb0 : 0 ≤ b) (hb1 : b ≤ 2 ^ w) :
    |((∑ r ∈ range (2 ^ j), (ind (b > rng.getD (a * 2 ^ j + r) 0) : ℤ) : ℤ) : ℚ)
      - 2 ^ j * (b / 2 ^ w)| ≤ 1 := by
  have hp : (0:ℤ) < 2 ^ (w - j) := by positivity
  have hb := DyadicNet.block h hj ha
  set q := b / 2 ^ (w - j) with hq
  have hq0 : q * 2 ^ (w - j) ≤ b := Int.ediv_mul_le _ hp.ne'
  have hq1 : b < (q + 1) * 2 ^ (w - j) := Int.lt_ediv_add_one_mul_self _ hp
  have hg : ∀ i ∈ range (2 ^ j), ∀ c : ℤ, (ind (c > ((List.range (2 ^ j)).map fun r => rng.getD (a * 2 ^ j + r) 0 / 2 ^ (w - j)).getD i 0) : ℤ)
      = ind (c > rng.getD (a * 2 ^ j + i) 0 / 2 ^ (w - j)) := by
    intro i hi c
    congr 1
    rw [List.getD_eq_getElem?_getD, List.getElem?_map, List.getElem?_range (mem_range.1 hi)]
    simp
  have hlo : clamp 0 (2 ^ j) q ≤ ∑ r ∈ range (2 ^ j), (ind (b > rng.getD (a * 2 ^ j + r) 0) : ℤ) := by
    rw [← sum_period hb q]
    apply sum_le_sum
    intro i hi
    rw [hg i hi]
    unfold ind
    split_ifs with h1 h2 <;> try omega
    exfalso; apply h2
    have := Int.lt_ediv_add_one_mul_self (rng.getD (a * 2 ^ j + i) 0) hp
    have h3 : (rng.getD (a * 2 ^ j + i) 0 / 2 ^ (w - j) + 1) * 2 ^ (w - j) ≤ q * 2 ^ (w - j) :=
      mul_le_mul_of_nonneg_right (by omega) hp.le
    omega
  have hhi : ∑ r ∈ range (2 ^ j), (ind (b > rng.getD (a * 2 ^ j + r) 0) : ℤ) ≤ clamp 0 (2 ^ j) (q + 1) := by
    rw [← sum_period hb (q + 1)]
    apply sum_le_sum
    intro i hi
    rw [hg i hi]
    unfold ind
    split_ifs with h1 h2 <;> try omega
    exfalso; apply h2
    have h3 := Int.ediv_mul_le (rng.getD (a * 2 ^ j + i) 0) hp.ne'
    by_contra h4
    have h5 : (q + 1) * 2 ^ (w - j) ≤ (rng.getD (a * 2 ^ j + i) 0 / 2 ^ (w - j)) * 2 ^ (w - j) :=
      mul_le_mul_of_nonneg_right (by omega) hp.le
    omega
  have hpw : (2:ℤ) ^ w = 2 ^ j * 2 ^ (w - j) := by rw [← pow_add]; congr 1; omega
  have hqn : 0 ≤ q := Int.ediv_nonneg hb0 hp.le
  have hqj : q ≤ 2 ^ j := by
    by_contra hc
    have : (2 ^ j + 1) * 2 ^ (w - j) ≤ q * 2 ^ (w - j) := mul_le_mul_of_nonneg_right (by omega) hp.le
    nlinarith
  have hlo' : clamp 0 (2 ^ j) q = q := clamp_of_mem hqn hqj
  have hhi' : clamp 0 (2 ^ j) (q + 1) ≤ q + 1 := by
    unfold clamp; rw [max_eq_left (by omega)]; exact min_le_left _ _
  generalize (∑ r ∈ range (2 ^ j), (ind (b > rng.getD (a * 2 ^ j + r) 0) : ℤ)) = S at *
  have hS0 : q ≤ S := by omega
  have hS1 : S ≤ q + 1 := by omega
  have hpq : (0:ℚ) < 2 ^ (w - j) := by positivity
  have e : (2:ℚ) ^ j * (b / 2 ^ w) = b / 2 ^ (w - j) := by
    have : (2:ℚ) ^ w = 2 ^ j * 2 ^ (w - j) := by rw [← pow_add]; congr 1; omega
    rw [this]; field_simp
  have e1 : (q:ℚ) ≤ b / 2 ^ (w - j) := by
    rw [le_div_iff₀ hpq]; exact_mod_cast hq0
  have e2 : (b:ℚ) / 2 ^ (w - j) ≤ q + 1 := by
    rw [div_le_iff₀ hpq]; exact_mod_cast hq1.le
  have f0 : (q:ℚ) ≤ S := by exact_mod_cast hS0
  have f1 : (S:ℚ) ≤ q + 1 := by exact_mod_cast hS1
  rw [e, abs_le]; constructor <;> linarith

/-- Discrepancy of a partial block. -/
theorem DyadicNet.partial_block {w : ℕ} {rng : List ℤ} (h : DyadicNet w rng) {b : ℤ} (hb0 : 0 ≤ b)
    (hb1 : b ≤ 2 ^ w) (j : ℕ) (hj : j ≤ w) (a : ℕ) (ha : a < 2 ^ (w - j)) (k : ℕ) (hk : k < 2 ^ j) :
    |((∑ r ∈ range k, (ind (b > rng.getD (a * 2 ^ j + r) 0) : ℤ) : ℤ) : ℚ)
      - k * (b / 2 ^ w)| ≤ j := by
  induction j generalizing a k with
  | zero => simp at hk; subst hk; simp
  | succ j ih =>
      have hlt : 2 * a < 2 ^ (w - j) := by
        have : 2 ^ (w - j) = 2 * 2 ^ (w - (j + 1)) := by rw [← pow_succ']; congr 1; omega
        omega
      have hlt' : 2 * a + 1 < 2 ^ (w - j) := by
        have : 2 ^ (w - j) = 2 * 2 ^ (w - (j + 1)) := by rw [← pow_succ']; congr 1; omega
        omega
      have e : a * 2 ^ (j + 1) = 2 * a * 2 ^ j := by rw [pow_succ]; ring
      rcases Nat.lt_or_ge k (2 ^ j) with hk' | hk'
      · have := ih (by omega) (2 * a) hlt k hk'
        rw [e]; push_cast at this ⊢; linarith
      · obtain ⟨k', rfl⟩ := Nat.exists_eq_add_of_le hk'
        have hk2 : k' < 2 ^ j := by rw [pow_succ] at hk; omega
        have h1 := ih (by omega) (2 * a + 1) hlt' k' hk2
        have h2 := DyadicNet.block_count h (j := j) (a := 2 * a) (by omega) hlt hb0 hb1
        rw [sum_range_add]
        have e2 : ∀ x, a * 2 ^ (j + 1) + (2 ^ j + x) = (2 * a + 1) * 2 ^ j + x := by
          intro x; rw [pow_succ]; ring
        simp only [e2]
        rw [e]
        rw [abs_le] at h1 h2 ⊢
        push_cast at h1 h2 ⊢
        constructor <;> linarith [h1.1, h1.2, h2.1, h2.2]

/-- Discrepancy of every prefix of the periodic repetition. -/
theorem DyadicNet.prefix {w : ℕ} {rng : List ℤ} (h : DyadicNet w rng) {b : ℤ} (hb0 : 0 ≤ b)
    (hb1 : b ≤ 2 ^ w) (k : ℕ) :
    |((∑ t ∈ range k, bsGen rng b t : ℤ) : ℚ) - k * (b / 2 ^ w)| ≤ w := by
  have hL : 0 < 2 ^ w := by positivity
  induction k using Nat.strong_induction_on with
  | _ k ih =>
      rcases Nat.lt_or_ge k (2 ^ w) with hk | hk
      · have h1 := DyadicNet.partial_block h hb0 hb1 w (le_refl _) 0 (by simp) k hk
        have : ∀ t ∈ range k, bsGen rng b t = ind (b > rng.getD (0 * 2 ^ w + t) 0) := by
          intro t ht
          rw [bsGen_nat]; · simp
          rw [h.1]; exact lt_trans (mem_range.1 ht) hk
        rw [sum_congr rfl this]; exact h1
      · obtain ⟨k', rfl⟩ := Nat.exists_eq_add_of_le hk
        have h1 := ih k' (by omega)
        rw [sum_range_add]
        have h2 : ∑ t ∈ range (2 ^ w), bsGen rng b t = b := by
          have : ∀ t ∈ range (2 ^ w), bsGen rng b t = ind (b > rng.getD t 0) := by
            intro t ht
            rw [bsGen_nat]; rw [h.1]; exact mem_range.1 ht
          rw [sum_congr rfl this, sum_period (DyadicNet.isPermSeq h), clamp_of_mem hb0 hb1]
        have h3 : ∀ x ∈ range k', bsGen rng b ((2 ^ w + x : ℕ) : ℤ) = bsGen rng b x := by
          intro x _
          have := bsGen_period rng b x
          rw [← this, h.1]; congr 1; push_cast; ring
        rw [h2, sum_congr rfl h3]
        push_cast
        have e : ((2:ℚ) ^ w + k') * (b / 2 ^ w) = b + k' * (b / 2 ^ w) := by field_simp
        rw [e]
        rw [add_sub_add_left_eq_sub]
        push_cast at h1; exact h1

end Verif.Gen
