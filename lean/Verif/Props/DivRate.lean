import Verif.Props.Div
import Verif.Props.Rate
import Mathlib.Data.Nat.ModEq
import Mathlib.Data.Nat.Prime.Basic

/-!
# Property C99: how accurately the correlated divider divides
-/

namespace Verif.Props

open Verif Finset Small Shuffle Divider

/-- Ones among the last `e` valid dividend bits before call `t` (at the beginning the alternating pattern counts). -/
def Spec.lastOnes (e : ℕ) (x y : ℕ → ℤ) (t : ℕ) : ℤ := ((Spec.divTape e x y t).drop (Spec.valid x y t).length).sum

/-- The number of gaps (maximal runs without a divisor one) that begin before call `n`. -/
def Spec.gaps (y : ℕ → ℤ) (n : ℕ) : ℕ := ((range n).filter fun t => y t ≠ 1 ∧ (t = 0 ∨ y (t - 1) = 1)).card

section cells

variable {w : ℕ} {rng : List ℤ}

/-- The register of the kernel before call `t`. -/
private def cells (e : ℕ) (x y : ℕ → ℤ) (t : ℕ) : List ℤ := (Spec.divTape e x y t).drop (Spec.valid x y t).length

private theorem cells_length (e : ℕ) (x y : ℕ → ℤ) (t : ℕ) : (cells e x y t).length = e := by
  simp [cells, Spec.divTape]

private theorem cells_bits (e : ℕ) {x : ℕ → ℤ} (hx : Verif.Spec.BitStream x) (y : ℕ → ℤ) (t : ℕ) : ∀ b ∈ cells e x y t, IsBit b := by
  intro b hb
  have hb := List.mem_of_mem_drop hb
  unfold Spec.divTape Spec.valid at hb
  rcases List.mem_append.1 hb with hb | hb
  · obtain ⟨k, -, rfl⟩ := List.mem_map.1 hb
    rcases Nat.mod_two_eq_zero_or_one k with h | h <;> rw [h]
    · exact Or.inl rfl
    · exact Or.inr rfl
  · obtain ⟨k, -, rfl⟩ := List.mem_map.1 hb
    exact hx k

private theorem valid_split (x y : ℕ → ℤ) (s m : ℕ) :
    Spec.valid x y (s + m) = Spec.valid x y s ++ Spec.valid (fun t => x (s + t)) (fun t => y (s + t)) m := by
  induction m with
  | zero => simp [Spec.valid]
  | succ m ih => rw [← Nat.add_assoc, valid_succ, valid_succ, ih, List.append_assoc]

private theorem valid_gap (x y : ℕ → ℤ) (s m : ℕ) (h : ∀ t < m, y (s + t) ≠ 1) : Spec.valid x y (s + m) = Spec.valid x y s := by
  induction m with
  | zero => rfl
  | succ m ih => rw [← Nat.add_assoc, valid_succ, if_neg (h m (by omega)), List.append_nil, ih fun t ht => h t (by omega)]

private theorem cells_gap (e : ℕ) (x y : ℕ → ℤ) (s m : ℕ) (h : ∀ t < m, y (s + t) ≠ 1) : cells e x y (s + m) = cells e x y s := by
  unfold cells Spec.divTape; rw [valid_gap x y s m h]

private theorem valid_length (x y : ℕ → ℤ) (n : ℕ) : (Spec.valid x y n).length = ((range n).filter fun t => y t = 1).card := by
  induction n with
  | zero => rfl
  | succ n ih =>
      rw [valid_succ, List.length_append, ih, range_add_one, filter_insert]
      split_ifs with h
      · rw [card_insert_of_notMem (by simp)]; rfl
      · simp

private theorem valid_sum (x y : ℕ → ℤ) (n : ℕ) : (Spec.valid x y n).sum = ∑ t ∈ range n, if y t = 1 then x t else 0 := by
  induction n with
  | zero => rfl
  | succ n ih => rw [valid_succ, List.sum_append, ih, sum_range_succ]; split_ifs <;> simp

/-- A window that carries exactly `e` divisor ones is what the register holds. -/
private theorem cells_window (e : ℕ) (x y : ℕ → ℤ) (s m : ℕ)
    (h : (Spec.valid (fun t => x (s + t)) (fun t => y (s + t)) m).length = e) :
    cells e x y (s + m) = Spec.valid (fun t => x (s + t)) (fun t => y (s + t)) m := by
  unfold cells Spec.divTape
  rw [valid_split, ← List.append_assoc, List.length_append, h, List.drop_append_of_le_length (by simp; omega)]
  rw [List.drop_of_length_le (by simp; omega), List.nil_append]

private theorem sum_getD (g : ℤ → ℤ) (l : List ℤ) : ∑ j ∈ range l.length, g (l.getD j 0) = (l.map g).sum := by
  induction l with
  | nil => rfl
  | cons a l ih => rw [List.length_cons, sum_range_succ', List.map_cons, List.sum_cons, ← ih, add_comm]; simp

/-- The register read in the order of the number sequence. -/
private theorem read_all (h : Verif.Spec.IsPermSeq w rng) (c : List ℤ) (hc : c.length = 2 ^ w) :
    ∑ j ∈ range (2 ^ w), c.getD (rng.getD j 0).toNat 0 = c.sum := by
  have h1 := sum_getD (fun r : ℤ => c.getD r.toNat 0) rng
  rw [h.1] at h1
  rw [h1, ((Gen.IsPermSeq.perm h).map fun r : ℤ => c.getD r.toNat 0).sum_eq, List.map_map]
  have h2 := sum_getD (fun r : ℤ => r) c
  rw [hc, List.map_id'] at h2
  rw [← h2]
  have h3 := sum_getD (fun r : ℤ => c.getD r.toNat 0) ((List.range (2 ^ w)).map fun n : ℕ => (n : ℤ))
  rw [List.map_map, List.length_map, List.length_range] at h3
  rw [← h3]
  apply sum_congr rfl
  intro j hj
  rw [mem_range] at hj
  simp [hj]

private theorem read_bit {c : List ℤ} (hc : ∀ b ∈ c, IsBit b) (n : ℕ) : IsBit (c.getD n 0) := by
  rw [List.getD_eq_getElem?_getD]
  cases hg : c[n]? with
  | none => exact Or.inl rfl
  | some b => exact hc b (List.mem_of_getElem? hg)

private theorem quotient_eq (h : Verif.Spec.IsPermSeq w rng) {x y q : ℕ → ℤ} (hq : ∀ t, corOut (2 ^ w) rng x y t = .ok (q t)) (t : ℕ) :
    q t = if y t = 1 then x t else (cells (2 ^ w) x y t).getD (rng.getD (t % 2 ^ w) 0).toNat 0 := by
  obtain ⟨r, h1, h2, h3⟩ := C33_quotient h x y t
  rw [hq t] at h3
  rw [Except.ok.inj h3, h2]
  congr 1
  unfold cells
  rw [List.getD_eq_getElem?_getD, List.getD_eq_getElem?_getD, List.getElem?_drop]; simp

/-- Counting in a window of a periodic bit stream. -/
private theorem window_count (f : ℕ → ℤ) (hf : ∀ t, IsBit (f t)) (e : ℕ) (he : 0 < e) (k : ℤ) (hk : ∀ s, ∑ t ∈ range e, f (s + t) = k) (s m : ℕ) :
    |e * ∑ t ∈ range m, f (s + t) - m * k| ≤ ((m % e : ℕ) : ℤ) * (e - (m % e : ℕ)) := by
  have hfull : ∀ a : ℕ, ∑ t ∈ range (e * a), f (s + t) = a * k := by
    intro a
    induction a with
    | zero => simp
    | succ a ih =>
        rw [Nat.mul_succ, sum_range_add, ih]
        have := hk (s + e * a)
        simp only [Nat.add_assoc] at this ⊢
        rw [this]; push_cast; ring
  have hm : m = e * (m / e) + m % e := (Nat.div_add_mod m e).symm
  have hr : m % e < e := Nat.mod_lt _ he
  generalize m / e = a at hm
  generalize m % e = r at hm hr ⊢
  subst hm
  have hS : ∀ (u n : ℕ), 0 ≤ ∑ t ∈ range n, f (u + t) ∧ ∑ t ∈ range n, f (u + t) ≤ n := by
    intro u n
    constructor
    · exact sum_nonneg fun t _ => (hf _).nonneg
    · calc _ ≤ ∑ t ∈ range n, (1:ℤ) := sum_le_sum fun t _ => (hf _).le_one
        _ = n := by simp
  rw [sum_range_add, hfull]
  have h1 := hS (s + e * a) r
  have h2 := hS (s + e * a + r) (e - r)
  have h3 := hk (s + e * a)
  rw [show e = r + (e - r) by omega, sum_range_add, show r + (e - r) = e by omega] at h3
  simp only [Nat.add_assoc] at h1 h2 h3 ⊢
  generalize (∑ t ∈ range r, f (s + (e * a + t))) = S at *
  generalize (∑ t ∈ range (e - r), f (s + (e * a + (r + t)))) = U at *
  rw [Nat.cast_sub hr.le] at h2
  have hr' : (r : ℤ) < e := by exact_mod_cast hr
  push_cast
  rw [← h3]
  have e1 : (e:ℤ) * (a * (S + U) + S) - (e * a + r) * (S + U) = S * (e - r) - r * U := by ring
  rw [e1, abs_le]
  have hr0 : (0:ℤ) ≤ r := by positivity
  constructor <;> nlinarith

/-- Any `e` consecutive reads of an unchanged register give all its cells. -/
private theorem read_window (h : Verif.Spec.IsPermSeq w rng) (c : List ℤ) (hc : c.length = 2 ^ w) (s : ℕ) :
    ∑ t ∈ range (2 ^ w), c.getD (rng.getD ((s + t) % 2 ^ w) 0).toNat 0 = c.sum := by
  rw [← read_all h c hc]
  have hw := Gen.window_sum_periodic (fun c' : ℤ => c.getD (rng.getD (c' % 2 ^ w).toNat 0).toNat 0) (2 ^ w) (by intro c'; push_cast; simp) s
  have e1 : ∀ n : ℕ, ((n : ℤ) % 2 ^ w).toNat = n % 2 ^ w := fun n => by
    have : ((n : ℤ) % 2 ^ w) = ((n % 2 ^ w : ℕ) : ℤ) := by push_cast; rfl
    rw [this]; rfl
  calc _ = ∑ t ∈ range (2 ^ w), c.getD (rng.getD (((s : ℤ) + t) % 2 ^ w).toNat 0).toNat 0 := by
        apply sum_congr rfl; intro t _
        have := e1 (s + t); push_cast at this; rw [this]
    _ = _ := hw
    _ = _ := by
        apply sum_congr rfl; intro t ht
        rw [e1, Nat.mod_eq_of_lt (mem_range.1 ht)]

end cells

/-- C99: in a gap of `m` cycles the kernel returns the ones of its register in proportion, up to less than `2^w/4` ones; exactly in
proportion when `m` is a multiple of `2^w`. -/
theorem C99_gap {w : ℕ} {rng : List ℤ} (h : Verif.Spec.IsPermSeq w rng) {x y q : ℕ → ℤ} (hx : Verif.Spec.BitStream x)
    (hq : ∀ t, corOut (2 ^ w) rng x y t = .ok (q t)) (s m : ℕ) (hy : ∀ t < m, y (s + t) ≠ 1) :
    |2 ^ w * ∑ t ∈ range m, q (s + t) - m * Spec.lastOnes (2 ^ w) x y s| ≤ ((m % 2 ^ w : ℕ) : ℤ) * (2 ^ w - (m % 2 ^ w : ℕ)) := by
  have h1 : ∑ t ∈ range m, q (s + t) = ∑ t ∈ range m, (cells (2 ^ w) x y s).getD (rng.getD ((s + t) % 2 ^ w) 0).toNat 0 := by
    apply sum_congr rfl
    intro t ht
    have ht := mem_range.1 ht
    rw [quotient_eq h hq, if_neg (hy t ht), cells_gap _ x y s t fun u hu => hy u (by omega)]
  rw [h1]
  have := window_count (fun t => (cells (2 ^ w) x y s).getD (rng.getD (t % 2 ^ w) 0).toNat 0)
    (fun t => read_bit (cells_bits _ hx y s) _) (2 ^ w) (by positivity) (Spec.lastOnes (2 ^ w) x y s)
    (fun u => read_window h _ (cells_length _ x y s) u) s m
  push_cast at this ⊢
  exact this

private theorem gap_start (y : ℕ → ℤ) (n : ℕ) (hn : y n ≠ 1) : ∃ s m, s + m = n ∧ (∀ t < m + 1, y (s + t) ≠ 1) ∧ (s = 0 ∨ y (s - 1) = 1) := by
  induction n with
  | zero => exact ⟨0, 0, rfl, fun t ht => by rw [show 0 + t = 0 by omega]; exact hn, Or.inl rfl⟩
  | succ n ih =>
      by_cases h : y n = 1
      · exact ⟨n + 1, 0, rfl, fun t ht => by rw [show n + 1 + t = n + 1 by omega]; exact hn, Or.inr h⟩
      · obtain ⟨s, m, h1, h2, h3⟩ := ih h
        refine ⟨s, m + 1, by omega, fun t ht => ?_, h3⟩
        by_cases htm : t < m + 1
        · exact h2 t htm
        · rw [show s + t = n + 1 by omega]; exact hn

private theorem gaps_succ (y : ℕ → ℤ) (n : ℕ) :
    Spec.gaps y (n + 1) = Spec.gaps y n + if y n ≠ 1 ∧ (n = 0 ∨ y (n - 1) = 1) then 1 else 0 := by
  unfold Spec.gaps
  rw [range_add_one, filter_insert]
  split_ifs with h
  · rw [card_insert_of_notMem (by simp)]
  · rfl

private theorem gaps_run (y : ℕ → ℤ) (s m : ℕ) (h : ∀ t < m + 1, y (s + t) ≠ 1) (hs : s = 0 ∨ y (s - 1) = 1) :
    Spec.gaps y (s + m + 1) = Spec.gaps y s + 1 := by
  induction m with
  | zero => rw [Nat.add_zero, gaps_succ, if_pos ⟨h 0 (by omega), hs⟩]
  | succ m ih =>
      rw [← Nat.add_assoc, gaps_succ, ih fun t ht => h t (by omega), if_neg]
      intro ⟨_, h2⟩
      rcases h2 with h2 | h2
      · omega
      · exact h m (by omega) (by rwa [Nat.add_sub_cancel] at h2)

/-- C99: over any number of cycles the quotient has as many ones as the valid dividend bits plus, in each cycle without divisor one, the share of ones
among the last `2^w` valid bits, up to `2^w/4` ones per gap. -/
theorem C99_kernel {w : ℕ} {rng : List ℤ} (h : Verif.Spec.IsPermSeq w rng) {x y q : ℕ → ℤ} (hx : Verif.Spec.BitStream x)
    (hq : ∀ t, corOut (2 ^ w) rng x y t = .ok (q t)) (n : ℕ) :
    |(∑ t ∈ range n, (q t : ℚ)) - ∑ t ∈ range n, if y t = 1 then (x t : ℚ) else Spec.lastOnes (2 ^ w) x y t / 2 ^ w| ≤ 2 ^ w / 4 * Spec.gaps y n := by
  induction n using Nat.strong_induction_on with
  | _ n ih =>
  rcases n with _ | n
  · simp [Spec.gaps]
  by_cases hy : y n = 1
  · rw [sum_range_succ, sum_range_succ, if_pos hy, gaps_succ, if_neg (fun h => h.1 hy), quotient_eq h hq, if_pos hy, add_sub_add_right_eq_sub]
    exact ih n (by omega)
  · obtain ⟨s, m, rfl, h2, h3⟩ := gap_start y n hy
    have h4 := ih s (by omega)
    have h5 := C99_gap h hx hq s (m + 1) h2
    rw [gaps_run y s m h2 h3, Nat.add_assoc, sum_range_add _ s (m + 1), sum_range_add _ s (m + 1)]
    have h6 : ∑ t ∈ range (m + 1), (if y (s + t) = 1 then (x (s + t) : ℚ) else Spec.lastOnes (2 ^ w) x y (s + t) / 2 ^ w)
        = (m + 1 : ℕ) * Spec.lastOnes (2 ^ w) x y s / 2 ^ w := by
      rw [sum_congr rfl (g := fun _ => (Spec.lastOnes (2 ^ w) x y s : ℚ) / 2 ^ w)]
      · simp; ring
      · intro t ht
        rw [if_neg (h2 t (mem_range.1 ht))]
        have : Spec.lastOnes (2 ^ w) x y (s + t) = Spec.lastOnes (2 ^ w) x y s := congrArg List.sum
          (cells_gap (2 ^ w) x y s t fun u hu => h2 u (by have := mem_range.1 ht; omega))
        rw [this]
    rw [h6]
    have hE : (0:ℚ) < 2 ^ w := by positivity
    have h7 : |(2:ℚ) ^ w * ∑ t ∈ range (m + 1), (q (s + t) : ℚ) - (m + 1 : ℕ) * Spec.lastOnes (2 ^ w) x y s| ≤ (2 ^ w) * (2 ^ w) / 4 := by
      generalize (m + 1) % 2 ^ w = r at h5
      have h8 : ((|2 ^ w * ∑ t ∈ range (m + 1), q (s + t) - (m + 1 : ℕ) * Spec.lastOnes (2 ^ w) x y s| : ℤ) : ℚ)
          ≤ (((r : ℕ) : ℤ) * (2 ^ w - r) : ℤ) := by exact_mod_cast h5
      push_cast at h8 ⊢
      refine h8.trans ?_
      nlinarith [sq_nonneg ((r : ℚ) * 2 - (2:ℚ) ^ w)]
    generalize (∑ t ∈ range (m + 1), (q (s + t) : ℚ)) = S at *
    have h9 : |S - (m + 1 : ℕ) * Spec.lastOnes (2 ^ w) x y s / 2 ^ w| ≤ 2 ^ w / 4 := by
      have : S - (m + 1 : ℕ) * Spec.lastOnes (2 ^ w) x y s / 2 ^ w = (2 ^ w * S - (m + 1 : ℕ) * Spec.lastOnes (2 ^ w) x y s) / 2 ^ w := by field_simp
      rw [this, abs_div, abs_of_pos hE, div_le_iff₀ hE]
      linarith
    rw [add_sub_add_comm]
    refine (abs_add_le _ _).trans ?_
    push_cast at *
    linarith

/-! ## Periodic streams -/

private theorem valid_mono (x y : ℕ → ℤ) {s t : ℕ} (h : s ≤ t) : (Spec.valid x y s).length ≤ (Spec.valid x y t).length := by
  obtain ⟨m, rfl⟩ := Nat.exists_eq_add_of_le h
  rw [valid_split, List.length_append]; omega

private theorem valid_reach (x y : ℕ → ℤ) (t v : ℕ) (h : v ≤ (Spec.valid x y t).length) : ∃ s ≤ t, (Spec.valid x y s).length = v := by
  induction t with
  | zero => exact ⟨0, le_refl _, by simp [Spec.valid] at h ⊢; omega⟩
  | succ t ih =>
      by_cases h1 : v ≤ (Spec.valid x y t).length
      · obtain ⟨s, hs, e⟩ := ih h1
        exact ⟨s, by omega, e⟩
      · refine ⟨t + 1, le_refl _, ?_⟩
        rw [valid_succ, List.length_append] at h ⊢
        split_ifs at h ⊢ <;> simp at h ⊢ <;> omega

private theorem window_exists (x y : ℕ → ℤ) (e t : ℕ) (h : e ≤ (Spec.valid x y t).length) :
    ∃ s m, s + m = t ∧ (Spec.valid (fun u => x (s + u)) (fun u => y (s + u)) m).length = e := by
  obtain ⟨s, hs, h1⟩ := valid_reach x y t ((Spec.valid x y t).length - e) (by omega)
  obtain ⟨m, rfl⟩ := Nat.exists_eq_add_of_le hs
  refine ⟨s, m, rfl, ?_⟩
  rw [valid_split, List.length_append] at h1 h
  omega

private theorem cells_period (e P : ℕ) {x y : ℕ → ℤ} (hx : ∀ t, x (t + P) = x t) (hy : ∀ t, y (t + P) = y t) (t : ℕ)
    (h : e ≤ (Spec.valid x y t).length) : cells e x y (t + P) = cells e x y t := by
  obtain ⟨s, m, rfl, h1⟩ := window_exists x y e t h
  have e1 : (fun u => x (s + P + u)) = fun u => x (s + u) := funext fun u => by rw [show s + P + u = s + u + P by omega, hx]
  have e2 : (fun u => y (s + P + u)) = fun u => y (s + u) := funext fun u => by rw [show s + P + u = s + u + P by omega, hy]
  rw [show s + m + P = s + P + m by omega, cells_window e x y (s + P) m (by rw [e1, e2]; exact h1), cells_window e x y s m h1, e1, e2]

private theorem cells_periods (e P : ℕ) {x y : ℕ → ℤ} (hx : ∀ t, x (t + P) = x t) (hy : ∀ t, y (t + P) = y t) (t j : ℕ)
    (h : e ≤ (Spec.valid x y t).length) : cells e x y (t + j * P) = cells e x y t := by
  induction j with
  | zero => simp
  | succ j ih =>
      rw [Nat.succ_mul, ← Nat.add_assoc, cells_period e P hx hy _ (h.trans (valid_mono x y (by omega))), ih]

private theorem periods {P : ℕ} {x : ℕ → ℤ} (hx : ∀ t, x (t + P) = x t) (t j : ℕ) : x (t + j * P) = x t := by
  induction j with
  | zero => simp
  | succ j ih => rw [Nat.succ_mul, ← Nat.add_assoc, hx, ih]

private theorem sum_grid (g : ℕ → ℤ) (e P : ℕ) : ∑ t ∈ range (e * P), g t = ∑ i ∈ range P, ∑ j ∈ range e, g (i + j * P) := by
  induction e with
  | zero => simp
  | succ e ih =>
      rw [Nat.succ_mul, sum_range_add, ih, ← sum_add_distrib]
      apply sum_congr rfl
      intro i _
      rw [sum_range_succ, Nat.add_comm i (e * P)]

/-- C99: dividend and divisor that repeat with an odd period `P`: over `2^w` periods every cycle without divisor one reads every cell of the register
once. -/
theorem C99_odd {w : ℕ} {rng : List ℤ} (h : Verif.Spec.IsPermSeq w rng) {x y q : ℕ → ℤ} (hq : ∀ t, corOut (2 ^ w) rng x y t = .ok (q t)) (P : ℕ)
    (hP : P % 2 = 1) (hx : ∀ t, x (t + P) = x t) (hy : ∀ t, y (t + P) = y t) (s : ℕ) (hs : 2 ^ w ≤ ((range s).filter fun t => y t = 1).card) :
    ∑ t ∈ range (2 ^ w * P), q (s + t) = ∑ i ∈ range P, if y (s + i) = 1 then 2 ^ w * x (s + i) else Spec.lastOnes (2 ^ w) x y (s + i) := by
  rw [← valid_length x y s] at hs
  rw [sum_grid]
  apply sum_congr rfl
  intro i _
  have hv : 2 ^ w ≤ (Spec.valid x y (s + i)).length := hs.trans (valid_mono x y (by omega))
  have e1 : ∀ j, q (s + (i + j * P)) = if y (s + i) = 1 then x (s + i)
      else (cells (2 ^ w) x y (s + i)).getD (rng.getD ((s + i + j * P) % 2 ^ w) 0).toNat 0 := by
    intro j
    rw [← Nat.add_assoc, quotient_eq h hq, periods hx, periods hy, cells_periods _ P hx hy _ j hv]
  simp only [e1]
  split_ifs with h1
  · simp
  · show _ = (cells (2 ^ w) x y (s + i)).sum
    rw [← read_all h _ (cells_length _ x y (s + i))]
    have hpos := Nat.two_pow_pos w
    have hmap : Set.MapsTo (fun j => (s + i + j * P) % 2 ^ w) (range (2 ^ w) : Set ℕ) (range (2 ^ w) : Set ℕ) := by
      intro j _; simp only [coe_range, Set.mem_Iio]; exact Nat.mod_lt _ hpos
    have hinj : Set.InjOn (fun j => (s + i + j * P) % 2 ^ w) (range (2 ^ w) : Set ℕ) := by
      intro a ha b hb hab
      simp only [coe_range, Set.mem_Iio] at ha hb
      have hc : (2 ^ w).gcd P = 1 := Nat.Coprime.pow_left w ((Nat.coprime_two_left).2 (Nat.odd_iff.2 hP))
      have := Nat.ModEq.cancel_right_of_coprime hc (Nat.ModEq.add_left_cancel' (s + i) hab)
      exact Nat.ModEq.eq_of_lt_of_lt this ha hb
    exact sum_nbij (fun j => (s + i + j * P) % 2 ^ w) (fun a ha => hmap ha) hinj (surjOn_of_injOn_of_card_le _ hmap hinj (le_refl _)) (fun _ _ => rfl)

private theorem window_shift {f : ℕ → ℤ} {P : ℕ} (hf : ∀ t, f (t + P) = f t) (s : ℕ) : ∑ r ∈ range P, f (s + r) = ∑ r ∈ range P, f r := by
  induction s with
  | zero => simp
  | succ s ih =>
      rw [← ih]
      have h1 := sum_range_succ (fun r => f (s + r)) P
      have h2 := sum_range_succ' (fun r => f (s + r)) P
      rw [h2] at h1
      have e : ∀ r, f (s + (r + 1)) = f (s + 1 + r) := fun r => by rw [show s + (r + 1) = s + 1 + r by omega]
      simp only [e, hf, add_zero] at h1
      linarith

private theorem period_sum {f : ℕ → ℤ} {P : ℕ} (hf : ∀ t, f (t + P) = f t) (s k : ℕ) :
    ∑ u ∈ range (k * P), f (s + u) = k * ∑ i ∈ range P, f i := by
  rw [sum_grid fun u => f (s + u), ← window_shift hf s, mul_sum]
  apply sum_congr rfl
  intro i _
  rw [sum_congr rfl (g := fun _ => f (s + i))]
  · simp
  · intro j _; rw [← Nat.add_assoc, periods hf]

/-- C99: if besides the number of divisor ones in the odd period divides `2^w`, the quotient is exact over `2^w` periods. -/
theorem C99_exact {w : ℕ} {rng : List ℤ} (h : Verif.Spec.IsPermSeq w rng) {x y q : ℕ → ℤ} (hq : ∀ t, corOut (2 ^ w) rng x y t = .ok (q t)) (P : ℕ)
    (hP : P % 2 = 1) (hx : ∀ t, x (t + P) = x t) (hy : ∀ t, y (t + P) = y t) (hV : ((range P).filter fun t => y t = 1).card ∣ 2 ^ w)
    (s : ℕ) (hs : 2 ^ w ≤ ((range s).filter fun t => y t = 1).card) :
    ((range P).filter fun t => y t = 1).card * ∑ t ∈ range (2 ^ w * P), q (s + t)
      = 2 ^ w * P * ∑ t ∈ range P, if y t = 1 then x t else 0 := by
  obtain ⟨k, hk⟩ := hV
  set V := ((range P).filter fun t => y t = 1).card with hVd
  set A := ∑ t ∈ range P, if y t = 1 then x t else 0 with hA
  have hk' : (2:ℤ) ^ w = V * k := by exact_mod_cast hk
  have hxy : ∀ t, (if y (t + P) = 1 then x (t + P) else 0) = if y t = 1 then x t else 0 := fun t => by rw [hx, hy]
  have hi : ∀ t, (if y (t + P) = 1 then (1:ℤ) else 0) = if y t = 1 then 1 else 0 := fun t => by rw [hy]
  have hVs : (V : ℤ) = ∑ t ∈ range P, if y t = 1 then (1:ℤ) else 0 := by rw [hVd, card_filter]; push_cast; rfl
  have hrec : ∀ t, 2 ^ w ≤ (Spec.valid x y t).length → Spec.lastOnes (2 ^ w) x y t = k * A := by
    intro t ht
    show (cells (2 ^ w) x y t).sum = _
    rw [← cells_periods (2 ^ w) P hx hy t k ht, cells_window, valid_sum, hA, ← period_sum (f := fun t => if y t = 1 then x t else 0) hxy t k]
    rw [valid_length, hk]
    have h1 := period_sum (f := fun t => if y t = 1 then (1:ℤ) else 0) hi t k
    rw [← hVs] at h1
    have h2 : (((range (k * P)).filter fun u => y (t + u) = 1).card : ℤ) = k * V := by
      rw [card_filter]; push_cast; exact h1
    rw [mul_comm V k]; exact_mod_cast h2
  rw [C99_odd h hq P hP hx hy s hs]
  rw [← valid_length x y s] at hs
  have h3 : ∑ i ∈ range P, (if y (s + i) = 1 then 2 ^ w * x (s + i) else Spec.lastOnes (2 ^ w) x y (s + i))
      = ∑ i ∈ range P, (2 ^ w * (if y (s + i) = 1 then x (s + i) else 0) + k * A * (1 - if y (s + i) = 1 then (1:ℤ) else 0)) := by
    apply sum_congr rfl
    intro i _
    split_ifs with h4
    · ring
    · rw [hrec _ (hs.trans (valid_mono x y (by omega)))]; ring
  have hw1 : ∑ i ∈ range P, (if y (s + i) = 1 then x (s + i) else 0) = A := window_shift (f := fun t => if y t = 1 then x t else 0) hxy s
  have hw2 : ∑ i ∈ range P, (if y (s + i) = 1 then (1:ℤ) else 0) = V := by
    rw [hVs]; exact window_shift (f := fun t => if y t = 1 then (1:ℤ) else 0) hi s
  rw [h3, sum_add_distrib, ← mul_sum, ← mul_sum, sum_sub_distrib, hw1, hw2, hk']
  simp only [sum_const, card_range, nsmul_eq_mul, mul_one]
  ring

/-- C99: dividend and divisor whose period is a multiple of `2^w`: the quotient repeats with the same period, so an error stays for ever. -/
theorem C99_repeats {w : ℕ} {rng : List ℤ} (h : Verif.Spec.IsPermSeq w rng) {x y q : ℕ → ℤ} (hq : ∀ t, corOut (2 ^ w) rng x y t = .ok (q t)) (P : ℕ)
    (hP : 2 ^ w ∣ P) (hx : ∀ t, x (t + P) = x t) (hy : ∀ t, y (t + P) = y t) (t : ℕ) (ht : 2 ^ w ≤ ((range t).filter fun t => y t = 1).card) :
    q (t + P) = q t := by
  rw [← valid_length x y t] at ht
  obtain ⟨k, rfl⟩ := hP
  rw [quotient_eq h hq, quotient_eq h hq t, hx, hy, cells_period _ _ hx hy t ht, Nat.add_mul_mod_self_left]

/-! ## Steady streams -/

private theorem win_ones (x : ℕ → ℤ) (m n : ℕ) : ∑ t ∈ range n, (x (m + t) : ℚ) = Verif.Spec.ones x (m + n) - Verif.Spec.ones x m := by
  have : Verif.Spec.ones x (m + n) = Verif.Spec.ones x m + ∑ t ∈ range n, x (m + t) := by
    unfold Verif.Spec.ones; rw [sum_range_add]
  rw [this]; push_cast; ring

/-- C99: `FSUDiv` in unipolar mode on streams of steady rates `p ≤ r` (every window within `a` and `b` ones of its rate, the synchroniser deep enough):
after `n` calls the quotient has `p/r * n` ones, up to a constant, a share of the cycles without divisor one and `2^w/4` per gap. -/
theorem C99_steady {w : ℕ} {rng : List ℤ} (h : Verif.Spec.IsPermSeq w rng) (dsa : ℤ) (d : ℕ) (sh : List ℕ) {x y q : ℕ → ℤ}
    (hx : Verif.Spec.BitStream x) (hy : Verif.Spec.BitStream y) (hq : ∀ t, divOut .unipolar dsa d (2 ^ w) rng sh x y t = .ok (q t))
    {p r a b : ℚ} (ha : Spec.Near (fun t => (x t : ℚ)) p 0 a) (hb : Spec.Near (fun t => (y t : ℚ)) r 0 b) (hp : 0 ≤ p) (hr : 0 < r) (hpr : p ≤ r)
    (hd : a + b ≤ 2 ^ d - 1) (n : ℕ) :
    |(∑ t ∈ range n, (q t : ℚ)) - p / r * n|
      ≤ (a + (2 ^ d - 1) + p / r * b) * (1 + ((range n).filter fun t => y t ≠ 1).card / 2 ^ w) + ((2 ^ w + b) / r + 1) + 2 ^ w / 4 * Spec.gaps y n := by
  set o := ssOut d sh x y with ho
  set ρ := p / r with hρ
  have hρ0 : 0 ≤ ρ := div_nonneg hp hr.le
  have hρ1 : ρ ≤ 1 := (div_le_one hr).2 hpr
  have hρr : ρ * r = p := by rw [hρ]; field_simp
  have ha0 : 0 ≤ a := by have := ha 0 0; simpa using this
  have hb0 : 0 ≤ b := by have := hb 0 0; simpa using this
  have hE : (0:ℚ) < 2 ^ w := by positivity
  have h2d : (0:ℚ) ≤ 2 ^ d - 1 := by linarith
  -- windows of the three streams
  have hxw : ∀ s m : ℕ, |(Verif.Spec.ones x (s + m) : ℚ) - Verif.Spec.ones x s - p * m| ≤ a := fun s m => by
    have := ha s m; rw [win_ones] at this; simpa using this
  have hyw : ∀ s m : ℕ, |(Verif.Spec.ones y (s + m) : ℚ) - Verif.Spec.ones y s - r * m| ≤ b := fun s m => by
    have := hb s m; rw [win_ones] at this; simpa using this
  have hcn : ∀ t, (0:ℚ) ≤ Verif.Spec.ones x t - Verif.Spec.ones o t ∧ (Verif.Spec.ones x t - Verif.Spec.ones o t : ℚ) ≤ 2 ^ d - 1 := fun t => by
    obtain ⟨h1, h2⟩ := C10_conservation d sh x y hx hy t
    exact ⟨by exact_mod_cast h1, by exact_mod_cast h2⟩
  have how : ∀ s m : ℕ, |(Verif.Spec.ones o (s + m) : ℚ) - Verif.Spec.ones o s - p * m| ≤ a + (2 ^ d - 1) := fun s m => by
    have h1 := abs_le.1 (hxw s m)
    have h2 := hcn s
    have h3 := hcn (s + m)
    rw [abs_le]; constructor <;> linarith
  have hdom : ∀ t, o t ≤ y t := by
    apply C11_dominated d sh x y hx hy
    intro s t hst
    obtain ⟨m, rfl⟩ := Nat.exists_eq_add_of_le hst
    rw [sum_Ico_eq_sum_range, Nat.add_sub_cancel_left, sum_sub_distrib]
    have h1 := abs_le.1 (hxw s m)
    have h2 := abs_le.1 (hyw s m)
    rw [← win_ones] at h1 h2
    have h3 : (p - r) * m ≤ 0 := mul_nonpos_of_nonpos_of_nonneg (by linarith) (by positivity)
    have : ((∑ t ∈ range m, x (s + t) - ∑ t ∈ range m, y (s + t) : ℤ) : ℚ) ≤ ((2 ^ d - 1 : ℤ) : ℚ) := by
      push_cast; linarith
    exact_mod_cast this
  have hob : Verif.Spec.BitStream o := fun t => (C10_bits d sh x y hx hy t).1
  have ho0 : ∀ t, y t ≠ 1 → o t = 0 := fun t ht => by
    have h1 := hdom t
    rcases hy t with h2 | h2
    · rcases hob t with h3 | h3
      · exact h3
      · omega
    · exact absurd h2 ht
  have hval : ∀ t, (if y t = 1 then o t else 0) = o t := fun t => by
    split_ifs with h1
    · rfl
    · exact (ho0 t h1).symm
  have hq' : ∀ t, corOut (2 ^ w) rng o y t = .ok (q t) := fun t => by rw [← hq t, C35_composition h]
  -- the register
  have hlen : ∀ s m : ℕ, ((Spec.valid (fun u => o (s + u)) (fun u => y (s + u)) m).length : ℚ) = Verif.Spec.ones y (s + m) - Verif.Spec.ones y s := by
    intro s m
    rw [valid_length, card_filter, ← win_ones]
    push_cast
    apply sum_congr rfl
    intro u _
    rcases hy (s + u) with h1 | h1 <;> simp [h1]
  have hrec0 : ∀ t, (0:ℚ) ≤ Spec.lastOnes (2 ^ w) o y t / 2 ^ w ∧ (Spec.lastOnes (2 ^ w) o y t / 2 ^ w : ℚ) ≤ 1 := by
    intro t
    have h1 := cells_bits (2 ^ w) hob y t
    have h2 := cells_length (2 ^ w) o y t
    have h3 : ∀ l : List ℤ, (∀ b ∈ l, IsBit b) → 0 ≤ l.sum ∧ l.sum ≤ l.length := by
      intro l hl
      induction l with
      | nil => simp
      | cons c l ih =>
          have h4 := ih fun b hb => hl b (List.mem_cons_of_mem _ hb)
          have h5 := hl c List.mem_cons_self
          have h6 := h5.nonneg
          have h7 := h5.le_one
          simp only [List.sum_cons, List.length_cons]; push_cast; omega
    have h4 := h3 _ h1
    rw [h2] at h4
    have h5 : (0:ℚ) ≤ Spec.lastOnes (2 ^ w) o y t := by exact_mod_cast h4.1
    have h6 : (Spec.lastOnes (2 ^ w) o y t : ℚ) ≤ 2 ^ w := by exact_mod_cast h4.2
    exact ⟨div_nonneg h5 hE.le, (div_le_one hE).2 h6⟩
  have hD0 : 0 ≤ a + (2 ^ d - 1) + ρ * b := by positivity
  have hrec : ∀ t, |(Spec.lastOnes (2 ^ w) o y t : ℚ) / 2 ^ w - ρ| ≤ (a + (2 ^ d - 1) + ρ * b) / 2 ^ w + if t < ⌈(2 ^ w + b) / r⌉₊ then 1 else 0 := by
    intro t
    by_cases ht : 2 ^ w ≤ (Spec.valid o y t).length
    · have h0 : |(Spec.lastOnes (2 ^ w) o y t : ℚ) / 2 ^ w - ρ| ≤ (a + (2 ^ d - 1) + ρ * b) / 2 ^ w := by
        obtain ⟨s, m, rfl, h1⟩ := window_exists o y (2 ^ w) t ht
        have h2 := hlen s m
        rw [h1] at h2
        push_cast at h2
        have h3 : (Spec.lastOnes (2 ^ w) o y (s + m) : ℚ) = Verif.Spec.ones o (s + m) - Verif.Spec.ones o s := by
          have : Spec.lastOnes (2 ^ w) o y (s + m) = ∑ u ∈ range m, o (s + u) := by
            show (cells (2 ^ w) o y (s + m)).sum = _
            rw [cells_window _ o y s m h1, valid_sum]
            exact sum_congr rfl fun u _ => hval (s + u)
          rw [this, ← win_ones]; push_cast; rfl
        have h4 := abs_le.1 (how s m)
        have h5 := abs_le.1 (hyw s m)
        rw [← h2] at h5
        rw [← h3] at h4
        have h6 : (Spec.lastOnes (2 ^ w) o y (s + m) : ℚ) / 2 ^ w - ρ = (Spec.lastOnes (2 ^ w) o y (s + m) - ρ * 2 ^ w) / 2 ^ w := by field_simp
        rw [h6, abs_div, abs_of_pos hE]
        apply div_le_div_of_nonneg_right _ hE.le
        have h7 : ρ * (2 ^ w - r * m) ≤ ρ * b := mul_le_mul_of_nonneg_left h5.2 hρ0
        have h8 : ρ * (-b) ≤ ρ * (2 ^ w - r * m) := mul_le_mul_of_nonneg_left h5.1 hρ0
        have h9 : ρ * (2 ^ w - r * m) = ρ * 2 ^ w - p * m := by rw [← hρr]; ring
        rw [h9] at h7 h8
        rw [abs_le]; constructor <;> linarith
      refine h0.trans ?_
      split_ifs <;> linarith
    · have h1 : t < ⌈(2 ^ w + b) / r⌉₊ := by
        rw [Nat.lt_ceil, lt_div_iff₀ hr]
        have h2 := hlen 0 t
        simp only [Nat.zero_add] at h2
        have h3 := (abs_le.1 (hyw 0 t)).1
        rw [Nat.zero_add, ← h2] at h3
        have h4 : ((Spec.valid (fun u => o u) (fun u => y u) t).length : ℚ) < 2 ^ w := by
          have := not_le.1 ht
          exact_mod_cast this
        linarith
      rw [if_pos h1]
      have h2 := hrec0 t
      have h3 : 0 ≤ (a + (2 ^ d - 1) + ρ * b) / 2 ^ w := div_nonneg hD0 hE.le
      rw [abs_le]; constructor <;> linarith
  -- the sums
  set D := a + (2 ^ d - 1) + ρ * b with hD
  have hk := C99_kernel h hob hq' n
  set Z := ((range n).filter fun t => y t ≠ 1).card with hZ
  have hZs : (Z : ℚ) = ∑ t ∈ range n, if y t = 1 then (0:ℚ) else 1 := by
    rw [hZ, card_filter]; push_cast
    apply sum_congr rfl; intro t _
    by_cases h1 : y t = 1 <;> simp [h1]
  have hZn : (Z : ℚ) = n - Verif.Spec.ones y n := by
    have h1 := win_ones y 0 n
    simp only [Nat.zero_add] at h1
    have h2 : Verif.Spec.ones y 0 = 0 := rfl
    rw [h2, Int.cast_zero, sub_zero] at h1
    rw [hZs, ← h1]
    have : (n : ℚ) = ∑ t ∈ range n, (1:ℚ) := by simp
    rw [this, ← sum_sub_distrib]
    apply sum_congr rfl; intro t _
    rcases hy t with h3 | h3 <;> simp [h3]
  have hsplit : ∑ t ∈ range n, (if y t = 1 then (o t : ℚ) else Spec.lastOnes (2 ^ w) o y t / 2 ^ w)
      = Verif.Spec.ones o n + ∑ t ∈ range n, ((if y t = 1 then (0:ℚ) else Spec.lastOnes (2 ^ w) o y t / 2 ^ w)) := by
    unfold Verif.Spec.ones
    push_cast
    rw [← sum_add_distrib]
    apply sum_congr rfl; intro t _
    by_cases h1 : y t = 1
    · simp [h1]
    · simp [h1, ho0 t h1]
  have hG : |∑ t ∈ range n, ((if y t = 1 then (0:ℚ) else Spec.lastOnes (2 ^ w) o y t / 2 ^ w)) - ρ * Z| ≤ Z * (D / 2 ^ w) + ((2 ^ w + b) / r + 1) := by
    rw [hZs, mul_sum, ← sum_sub_distrib, sum_mul]
    refine (abs_sum_le_sum_abs _ _).trans ?_
    have h1 : ∀ t ∈ range n, |(if y t = 1 then (0:ℚ) else Spec.lastOnes (2 ^ w) o y t / 2 ^ w) - ρ * (if y t = 1 then 0 else 1)|
        ≤ (if y t = 1 then 0 else 1) * (D / 2 ^ w) + if t < ⌈(2 ^ w + b) / r⌉₊ then 1 else 0 := by
      intro t _
      by_cases h2 : y t = 1
      · simp only [if_pos h2]; simp; split_ifs <;> norm_num
      · simp only [if_neg h2, mul_one, one_mul]; exact hrec t
    refine (sum_le_sum h1).trans ?_
    rw [sum_add_distrib]
    have h2 : ∑ t ∈ range n, (if t < ⌈(2 ^ w + b) / r⌉₊ then (1:ℚ) else 0) ≤ ⌈(2 ^ w + b) / r⌉₊ := by
      rw [← sum_filter, sum_const, nsmul_eq_mul, mul_one]
      have : ((range n).filter fun t => t < ⌈(2 ^ w + b) / r⌉₊) ⊆ range ⌈(2 ^ w + b) / r⌉₊ := fun t ht => mem_range.2 (mem_filter.1 ht).2
      have := card_le_card this
      rw [card_range] at this
      exact_mod_cast this
    have h3 := Nat.ceil_lt_add_one (show (0:ℚ) ≤ (2 ^ w + b) / r by positivity)
    linarith
  rw [hsplit] at hk
  have h1 := abs_le.1 (how 0 n)
  have h2 := abs_le.1 (hyw 0 n)
  simp only [Nat.zero_add, show Verif.Spec.ones o 0 = 0 from rfl, show Verif.Spec.ones y 0 = 0 from rfl, Int.cast_zero, sub_zero] at h1 h2
  have h3 : ρ * (Verif.Spec.ones y n - r * n) ≤ ρ * b := mul_le_mul_of_nonneg_left h2.2 hρ0
  have h4 : ρ * (-b) ≤ ρ * (Verif.Spec.ones y n - r * n) := mul_le_mul_of_nonneg_left h2.1 hρ0
  have h5 : ρ * (Verif.Spec.ones y n - r * n) = ρ * Verif.Spec.ones y n - p * n := by rw [← hρr]; ring
  have h6 : ρ * Z = ρ * n - ρ * Verif.Spec.ones y n := by rw [hZn]; ring
  have h7 : D * (1 + Z / 2 ^ w) = D + Z * (D / 2 ^ w) := by field_simp
  rw [h7]
  rw [h5] at h3 h4
  have h8 := abs_le.1 hG
  have h9 := abs_le.1 hk
  rw [abs_le]; constructor <;> linarith

/-- C99: so for sources `a ≤ b` turned into streams by Sobol-like sequences of width `v`. -/
theorem C99_sources {w v : ℕ} {rng l l' : List ℤ} (h : Verif.Spec.IsPermSeq w rng) (hl : Verif.Spec.DyadicNet v l) (hl' : Verif.Spec.DyadicNet v l')
    (dsa : ℤ) (d : ℕ) (hd : 4 * v ≤ 2 ^ d - 1) (sh : List ℕ) {a b : ℤ} (ha : 0 ≤ a) (hab : a ≤ b) (hb : 0 < b) (hbv : b ≤ 2 ^ v) (n : ℕ) :
    ∃ q : ℕ → ℤ, (∀ t : ℕ, divOut .unipolar dsa d (2 ^ w) rng sh (fun t => Gen.bsGen l a t) (fun t => Gen.bsGen l' b t) t = .ok (q t)) ∧
      |(∑ t ∈ range n, (q t : ℚ)) - a / b * n|
        ≤ (2 * v + (2 ^ d - 1) + a / b * (2 * v)) * (1 + ((range n).filter fun t : ℕ => Gen.bsGen l' b t ≠ 1).card / 2 ^ w)
          + ((2 ^ w + 2 * v) / (b / 2 ^ v) + 1) + 2 ^ w / 4 * Spec.gaps (fun t => Gen.bsGen l' b t) n := by
  have hx : Verif.Spec.BitStream fun t => Gen.bsGen l a t := fun t => isBit_ind _
  have hy : Verif.Spec.BitStream fun t => Gen.bsGen l' b t := fun t => isBit_ind _
  have hcor := fun t => C33_bits h (fun t => (C10_bits d sh _ _ hx hy t).1) (fun t => Gen.bsGen l' b t) t
  choose q hq _ using hcor
  have hq' : ∀ t : ℕ, divOut .unipolar dsa d (2 ^ w) rng sh (fun t => Gen.bsGen l a t) (fun t => Gen.bsGen l' b t) t = .ok (q t) := fun t => by
    rw [C35_composition h]; exact hq t
  have hV : (0:ℚ) < 2 ^ v := by positivity
  have ha' : (0:ℚ) ≤ a := by exact_mod_cast ha
  have hb' : (0:ℚ) < b := by exact_mod_cast hb
  have hab' : (a:ℚ) ≤ b := by exact_mod_cast hab
  have h1 : (1:ℕ) ≤ 2 ^ d := Nat.one_le_two_pow
  have hd' : (2 * v + 2 * v : ℚ) ≤ 2 ^ d - 1 := by
    have : ((4 * v : ℕ) : ℚ) ≤ ((2 ^ d - 1 : ℕ) : ℚ) := by exact_mod_cast hd
    rw [Nat.cast_sub h1] at this; push_cast at this; linarith
  have key := C99_steady h dsa d sh hx hy hq' (C61_source hl ha (hab.trans hbv)).1 (C61_source hl' hb.le hbv).1 (div_nonneg ha' hV.le) (div_pos hb' hV)
    (div_le_div_of_nonneg_right hab' hV.le) hd' n
  refine ⟨q, hq', ?_⟩
  have e1 : (a:ℚ) / 2 ^ v / (b / 2 ^ v) = a / b := by field_simp
  rw [e1] at key
  exact key

/-! ## A period that fits the register -/

/-- The stream `1 0 … 0` repeated every `e` cycles. -/
def Spec.first (e : ℕ) (t : ℕ) : ℤ := if t % e = 0 then 1 else 0

/-- The stream `1 … 1 0` repeated every `e` cycles. -/
def Spec.butLast (e : ℕ) (t : ℕ) : ℤ := if t % e = e - 1 then 0 else 1

/-- C99: violated.  Streams with a period `e ≥ 4` that is a multiple of the number of entries can have a quotient that never approaches the quotient of their
values: `1 0 … 0` (value `1/e`) divided by `1 … 1 0` (value `(e-1)/e`) stays at `1/e` or at `2/e` for ever, whichever number sequence is configured. -/
theorem C99_locked {w e : ℕ} (he : 4 ≤ e) (hwe : 2 ^ w ∣ e) {rng : List ℤ} (h : Verif.Spec.IsPermSeq w rng) (dsa : ℤ) (dss : ℕ) (sh : List ℕ) :
    (∀ n : ℕ, ∑ t ∈ range (n * e), Spec.first e t = n ∧ ∑ t ∈ range (n * e), Spec.butLast e t = n * (e - 1)) ∧
    ∃ (b : ℤ) (q : ℕ → ℤ), IsBit b ∧ (∀ t, divOut .unipolar dsa dss (2 ^ w) rng sh (Spec.first e) (Spec.butLast e) t = .ok (q t)) ∧
      ∀ s n : ℕ, 2 * e ≤ s → ∑ t ∈ range (n * e), q (s + t) = n * (1 + b) ∧
        (0 < n → (1:ℚ) / (e * (e - 1)) ≤ |(∑ t ∈ range (n * e), (q (s + t) : ℚ)) / (n * e) - (1 / e) / ((e - 1) / e)|) := by
  have hQ : (4:ℚ) ≤ e := by exact_mod_cast he
  have hxp : ∀ t, Spec.first e (t + e) = Spec.first e t := fun t => by simp [Spec.first]
  have hyp : ∀ t, Spec.butLast e (t + e) = Spec.butLast e t := fun t => by simp [Spec.butLast]
  have hxb : Verif.Spec.BitStream (Spec.first e) := fun t => by unfold Spec.first; split_ifs; exacts [Or.inr rfl, Or.inl rfl]
  have hyb : Verif.Spec.BitStream (Spec.butLast e) := fun t => by unfold Spec.butLast; split_ifs; exacts [Or.inl rfl, Or.inr rfl]
  have hxy : ∀ t, Spec.first e t = 1 → Spec.butLast e t = 1 := fun t ht => by
    unfold Spec.first at ht; unfold Spec.butLast
    split_ifs at ht with h1
    · rw [if_neg (by omega)]
    · omega
  have hx1 : ∑ i ∈ range e, Spec.first e i = 1 := by
    rw [sum_eq_single 0]
    · simp [Spec.first]
    · intro i hi h0; unfold Spec.first; rw [Nat.mod_eq_of_lt (mem_range.1 hi), if_neg h0]
    · intro h0; exact absurd (mem_range.2 (by omega)) h0
  have hy1 : ∑ i ∈ range e, Spec.butLast e i = e - 1 := by
    obtain ⟨k, rfl⟩ : ∃ k, e = k + 1 := ⟨e - 1, by omega⟩
    rw [sum_range_succ]
    have h1 : Spec.butLast (k + 1) k = 0 := by unfold Spec.butLast; rw [if_pos]; rw [Nat.mod_eq_of_lt (by omega)]; rfl
    rw [h1, sum_congr rfl (g := fun _ => (1:ℤ))]
    · simp
    · intro i hi; have := mem_range.1 hi; unfold Spec.butLast; rw [if_neg]; rw [Nat.mod_eq_of_lt (by omega)]; omega
  refine ⟨fun n => ⟨?_, ?_⟩, ?_⟩
  · have := period_sum hxp 0 n; simp only [Nat.zero_add] at this; rw [this, hx1, mul_one]
  · have := period_sum hyp 0 n; simp only [Nat.zero_add] at this; rw [this, hy1]
  · have hss : ssOut dss sh (Spec.first e) (Spec.butLast e) = Spec.first e := funext fun t => ss_pass dss sh _ _ hxb hxy t
    have hcor := fun t => C33_bits h hxb (Spec.butLast e) t
    choose q hq' hqb using hcor
    refine ⟨q (2 * e + (e - 1)), q, hqb _, fun t => ?_, fun s n hs => ?_⟩
    · rw [C35_composition h, hss]; exact hq' t
    · have hones : ∀ t, 2 * e ≤ t → e ≤ ((range t).filter fun t => Spec.butLast e t = 1).card := by
        intro t ht
        have h1 : ((range (2 * e)).filter fun t => Spec.butLast e t = 1) ⊆ (range t).filter fun t => Spec.butLast e t = 1 :=
          filter_subset_filter _ (range_subset_range.2 ht)
        refine le_trans ?_ (card_le_card h1)
        have h2 := period_sum hyp 0 2
        simp only [Nat.zero_add] at h2
        rw [hy1] at h2
        have h3 : (((range (2 * e)).filter fun t => Spec.butLast e t = 1).card : ℤ) = 2 * (e - 1) := by
          rw [card_filter]; push_cast
          rw [← show ((2:ℕ):ℤ) = 2 from rfl, ← h2]
          apply sum_congr rfl; intro u _
          rcases hyb u with h4 | h4 <;> simp [h4]
        omega
      have hper : ∀ t, q (2 * e + (t + e)) = q (2 * e + t) := fun t => by
        rw [← Nat.add_assoc]
        exact C99_repeats h hq' e hwe hxp hyp _ ((Nat.le_of_dvd (by omega) hwe).trans (hones _ (by omega)))
      have hval : ∀ i < e, q (2 * e + i) = if i = e - 1 then q (2 * e + (e - 1)) else Spec.first e i := by
        intro i hi
        split_ifs with h1
        · rw [h1]
        · rw [quotient_eq h hq']
          have h2 : Spec.butLast e (2 * e + i) = 1 := by
            unfold Spec.butLast; rw [Nat.mul_add_mod', Nat.mod_eq_of_lt hi, if_neg h1]
          have h3 : Spec.first e (2 * e + i) = Spec.first e i := by
            unfold Spec.first; rw [Nat.mul_add_mod']
          rw [if_pos h2, h3]
      have hsum : ∑ i ∈ range e, q (2 * e + i) = 1 + q (2 * e + (e - 1)) := by
        rw [sum_congr rfl fun i hi => hval i (mem_range.1 hi)]
        obtain ⟨k, hk⟩ : ∃ k, e = k + 1 := ⟨e - 1, by omega⟩
        have h1 : Spec.first e k = 0 := by
          unfold Spec.first; rw [Nat.mod_eq_of_lt (by omega), if_neg (by omega)]
        have h2 : ∑ i ∈ range e, (if i = e - 1 then q (2 * e + (e - 1)) else Spec.first e i)
            = ∑ i ∈ range e, (Spec.first e i + if i = k then q (2 * e + (e - 1)) else 0) := by
          apply sum_congr rfl; intro i _
          rw [show e - 1 = k by omega]
          split_ifs with h3
          · rw [h3, h1, zero_add]
          · rw [add_zero]
        rw [h2, sum_add_distrib, hx1, sum_ite_eq' , if_pos (mem_range.2 (by omega))]
      have htot : ∑ t ∈ range (n * e), q (s + t) = n * (1 + q (2 * e + (e - 1))) := by
        obtain ⟨m, rfl⟩ := Nat.exists_eq_add_of_le hs
        rw [← hsum, ← period_sum (f := fun t => q (2 * e + t)) hper m n]
        apply sum_congr rfl; intro t _
        rw [Nat.add_assoc]
      refine ⟨htot, fun hn => ?_⟩
      have htot' : (∑ t ∈ range (n * e), (q (s + t) : ℚ)) = n * (1 + q (2 * e + (e - 1))) := by exact_mod_cast htot
      rw [htot']
      have hn' : (0:ℚ) < n := by exact_mod_cast hn
      have e1 : (1:ℚ) / (e * (e - 1)) = 1 / (e - 1) - 1 / e := by
        have : (e:ℚ) - 1 ≠ 0 := by linarith
        have : (e:ℚ) ≠ 0 := by linarith
        field_simp; ring
      have e2 : ((n:ℚ) * (1 + q (2 * e + (e - 1)))) / (n * e) - (1 / e) / ((e - 1) / e) = (1 + q (2 * e + (e - 1))) / e - 1 / (e - 1) := by
        have : (e:ℚ) - 1 ≠ 0 := by linarith
        have : (e:ℚ) ≠ 0 := by linarith
        field_simp
      rw [e1, e2]
      have h5 : (1:ℚ) / (e - 1) ≤ 2 / e - (1 / (e - 1) - 1 / e) := by
        rw [← sub_nonneg]
        have h6 : (e:ℚ) - 1 ≠ 0 := by linarith
        have h7 : (e:ℚ) ≠ 0 := by linarith
        have : 2 / (e:ℚ) - (1 / (e - 1) - 1 / e) - 1 / (e - 1) = (e - 3) / (e * (e - 1)) := by field_simp; ring
        rw [this]
        exact div_nonneg (by linarith) (mul_nonneg (by linarith) (by linarith))
      rcases hqb (2 * e + (e - 1)) with h6 | h6 <;> rw [h6]
      · have : (1 + ((0:ℤ):ℚ)) / e - 1 / (e - 1) = -(1 / (e - 1) - 1 / e) := by push_cast; ring
        rw [this, abs_neg]; exact le_abs_self _
      · refine le_trans ?_ (le_abs_self _)
        have : (1 + ((1:ℤ):ℚ)) = 2 := by norm_num
        rw [this]; linarith

/-- C99: the bound of a quarter per cycle of the register is attained: with four entries and the number sequence `0 2 3 1`, the stream `0 1 0 0` (value 1/4) divided
by `1 1 0 0` (value 1/2) has quotient 3/4 in every period, not 1/2. -/
theorem C99_quarter (dsa : ℤ) (dss : ℕ) (sh : List ℕ) :
    ∃ q : ℕ → ℤ, (∀ t, divOut .unipolar dsa dss (2 ^ 2) [0, 2, 3, 1] sh (fun t => if t % 4 = 1 then 1 else 0) (fun t => if t % 4 < 2 then 1 else 0) t = .ok (q t)) ∧
      ∀ n : ℕ, ∑ t ∈ range (n * 4), q (8 + t) = 3 * n := by
  have h : Verif.Spec.IsPermSeq 2 [0, 2, 3, 1] := ⟨rfl, fun v h0 h1 => by norm_num at h1; interval_cases v <;> rfl⟩
  have hxb : Verif.Spec.BitStream fun t : ℕ => if t % 4 = 1 then (1:ℤ) else 0 := fun t => by
    dsimp only; split_ifs; exacts [Or.inr rfl, Or.inl rfl]
  have hss : ssOut dss sh (fun t : ℕ => if t % 4 = 1 then (1:ℤ) else 0) (fun t => if t % 4 < 2 then 1 else 0) = fun t : ℕ => if t % 4 = 1 then (1:ℤ) else 0 :=
    funext fun t => ss_pass dss sh _ _ hxb (fun t ht => by
      split_ifs at ht with h1
      · rw [if_pos (by omega)]
      · omega) t
  have hcor := fun t => C33_bits h hxb (fun t : ℕ => if t % 4 < 2 then (1:ℤ) else 0) t
  choose q hq _ using hcor
  refine ⟨q, fun t => by rw [C35_composition h, hss]; exact hq t, fun n => ?_⟩
  have hper : ∀ t, q (8 + (t + 4)) = q (8 + t) := fun t => by
    rw [← Nat.add_assoc]
    refine C99_repeats h hq 4 (by norm_num) (fun t => by simp) (fun t => by simp) _ ?_
    have h1 : ((range 8).filter fun t : ℕ => (if t % 4 < 2 then (1:ℤ) else 0) = 1) ⊆ (range (8 + t)).filter fun t : ℕ => (if t % 4 < 2 then (1:ℤ) else 0) = 1 :=
      filter_subset_filter _ (range_subset_range.2 (by omega))
    exact le_trans (by decide) (card_le_card h1)
  have e0 : q 8 = 0 := Except.ok.inj ((hq 8).symm.trans (show corOut (2 ^ 2) [0, 2, 3, 1] (fun t => if t % 4 = 1 then 1 else 0)
    (fun t => if t % 4 < 2 then 1 else 0) 8 = .ok 0 by decide +kernel))
  have e1 : q 9 = 1 := Except.ok.inj ((hq 9).symm.trans (show corOut (2 ^ 2) [0, 2, 3, 1] (fun t => if t % 4 = 1 then 1 else 0)
    (fun t => if t % 4 < 2 then 1 else 0) 9 = .ok 1 by decide +kernel))
  have e2 : q 10 = 1 := Except.ok.inj ((hq 10).symm.trans (show corOut (2 ^ 2) [0, 2, 3, 1] (fun t => if t % 4 = 1 then 1 else 0)
    (fun t => if t % 4 < 2 then 1 else 0) 10 = .ok 1 by decide +kernel))
  have e3 : q 11 = 1 := Except.ok.inj ((hq 11).symm.trans (show corOut (2 ^ 2) [0, 2, 3, 1] (fun t => if t % 4 = 1 then 1 else 0)
    (fun t => if t % 4 < 2 then 1 else 0) 11 = .ok 1 by decide +kernel))
  have := period_sum (f := fun t => q (8 + t)) hper 0 n
  simp only [Nat.zero_add] at this
  rw [this]
  simp only [sum_range_succ, sum_range_zero]
  norm_num [e0, e1, e2, e3]
  ring

/-- Non-vacuity of C99_gap: a gap of three cycles. -/
example : Verif.Spec.IsPermSeq 1 [1, 0] ∧ (∀ t < 3, (fun t : ℕ => if t % 4 = 0 then (1:ℤ) else 0) (1 + t) ≠ 1) := by
  refine ⟨⟨rfl, fun v h0 h1 => by norm_num at h1; interval_cases v <;> rfl⟩, by decide⟩

/-- Non-vacuity of C99_locked: the default of two entries, `1 0 0 0` divided by `1 1 1 0`. -/
example : (4:ℕ) ≤ 4 ∧ 2 ^ 1 ∣ 4 ∧ Verif.Spec.IsPermSeq 1 [0, 1] :=
  ⟨le_refl _, by norm_num, rfl, fun v h0 h1 => by norm_num at h1; interval_cases v <;> rfl⟩

/-- Non-vacuity of C99_odd and C99_exact: `1 0 0` divided by `1 1 0`, a register of two entries. -/
example : (∀ t, (fun t : ℕ => if t % 3 = 0 then (1:ℤ) else 0) (t + 3) = (fun t : ℕ => if t % 3 = 0 then (1:ℤ) else 0) t) ∧
    ((range 3).filter fun t : ℕ => (fun t : ℕ => if t % 3 < 2 then (1:ℤ) else 0) t = 1).card ∣ 2 ^ 1 ∧
    2 ^ 1 ≤ ((range 2).filter fun t : ℕ => (fun t : ℕ => if t % 3 < 2 then (1:ℤ) else 0) t = 1).card :=
  ⟨fun t => by simp, by decide, by decide⟩

/-- Non-vacuity of C99_steady: `1 0 0 0` divided by `1 0`. -/
example : Spec.Near (fun t : ℕ => (((if t % 4 = 0 then 1 else 0 : ℤ)) : ℚ)) (1/4) 0 (3/4) ∧
    Spec.Near (fun t : ℕ => (((if t % 2 = 0 then 1 else 0 : ℤ)) : ℚ)) (1/2) 0 (1/2) ∧ (3/4 + 1/2 : ℚ) ≤ 2 ^ 2 - 1 := by
  have h4 : ∀ n : ℕ, Verif.Spec.ones (fun t : ℕ => if t % 4 = 0 then 1 else 0) n = ((n + 3) / 4 : ℕ) := by
    intro n
    induction n with
    | zero => rfl
    | succ n ih => unfold Verif.Spec.ones at *; rw [sum_range_succ, ih]; split_ifs <;> omega
  have h2 : ∀ n : ℕ, Verif.Spec.ones (fun t : ℕ => if t % 2 = 0 then 1 else 0) n = ((n + 1) / 2 : ℕ) := by
    intro n
    induction n with
    | zero => rfl
    | succ n ih => unfold Verif.Spec.ones at *; rw [sum_range_succ, ih]; split_ifs <;> omega
  refine ⟨fun m n => ?_, fun m n => ?_, by norm_num⟩
  · rw [win_ones (fun t : ℕ => if t % 4 = 0 then 1 else 0), h4, h4]
    have h : |4 * ((((m + n + 3) / 4 : ℕ) : ℤ) - ((m + 3) / 4 : ℕ)) - n| ≤ 3 := by rw [abs_le]; omega
    generalize (m + n + 3) / 4 = A at *
    generalize (m + 3) / 4 = B at *
    have h' : |4 * ((A : ℚ) - B) - n| ≤ 3 := by exact_mod_cast h
    rw [abs_le] at h' ⊢
    push_cast
    constructor <;> linarith
  · rw [win_ones (fun t : ℕ => if t % 2 = 0 then 1 else 0), h2, h2]
    have h : |2 * ((((m + n + 1) / 2 : ℕ) : ℤ) - ((m + 1) / 2 : ℕ)) - n| ≤ 1 := by rw [abs_le]; omega
    generalize (m + n + 1) / 2 = A at *
    generalize (m + 1) / 2 = B at *
    have h' : |2 * ((A : ℚ) - B) - n| ≤ 1 := by exact_mod_cast h
    rw [abs_le] at h' ⊢
    push_cast
    constructor <;> linarith

/-- Non-vacuity of `C99_sources`: 5/16 divided by 10/16, two entries, synchroniser of five bits, any two low discrepancy sequences. -/
example (l l' : List ℤ) (h : Verif.Spec.DyadicNet 4 l) (h' : Verif.Spec.DyadicNet 4 l') (n : ℕ) :
    ∃ q : ℕ → ℤ, |(∑ t ∈ range n, (q t : ℚ)) - 1 / 2 * n|
      ≤ 43 * (1 + ((range n).filter fun t : ℕ => Gen.bsGen l' 10 t ≠ 1).card / 2) + 17 + 1 / 2 * Spec.gaps (fun t => Gen.bsGen l' 10 t) n := by
  obtain ⟨q, _, hq⟩ := C99_sources (w := 1) (v := 4) (rng := [0, 1]) ⟨by decide, fun v h0 h1 => by
    obtain rfl | rfl : v = 0 ∨ v = 1 := by norm_num at h1; omega
    all_goals decide⟩ h h' 4 5 (by norm_num) [1]
    (a := 5) (b := 10) (by norm_num) (by norm_num) (by norm_num) (by norm_num) n
  refine ⟨q, ?_⟩
  norm_num at hq ⊢
  exact hq

end Verif.Props
