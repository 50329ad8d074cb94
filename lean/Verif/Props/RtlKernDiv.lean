import Verif.Props.RtlKern

/-!
# Property C81, continued: dividers, square roots, exponential, buffer
-/

namespace Verif.Props

open Verif Finset

/-! ## The old synchroniser and divider -/

/-- Number of ones among the first `n` bits. -/
def Spec.seen (x : ℕ → Bool) (n : ℕ) : ℕ := ((range n).filter fun t => x t = true).card

private theorem seen_succ (x : ℕ → Bool) (n : ℕ) : Spec.seen x (n + 1) = Spec.seen x n + if x n then 1 else 0 := by
  unfold Spec.seen
  rw [range_add_one, filter_insert]
  split_ifs with h
  · rw [card_insert_of_notMem (by simp)]
  · rfl

private theorem seen_mono (x : ℕ → Bool) {m n : ℕ} (h : m ≤ n) : Spec.seen x m ≤ Spec.seen x n :=
  card_le_card (filter_subset_filter _ (range_subset_range.2 h))

/-- The synchronised dividend of the old `skewedSync`. -/
def skewedOldOut (d : ℕ) (x y : ℕ → Bool) : ℕ → Bool := outAt (Rtl.skewedOldStep d) 0 fun t => (x t, y t)

private theorem skewed_state (d : ℕ) (x y : ℕ → Bool) (n : ℕ) :
    (stateAt (Rtl.skewedOldStep d) 0 (fun t => (x t, y t)) n).toNat = min (Spec.seen x n) (2 ^ d - 1) := by
  induction n with
  | zero => simp [stateAt, Spec.seen]
  | succ n ih =>
      rw [stateAt_succ, seen_succ]
      have hf := bv_full (stateAt (Rtl.skewedOldStep d) 0 (fun t => (x t, y t)) n)
      show (if decide _ = true then _ else _ + Rtl.bv d (x n)).toNat = _
      have hlt := (stateAt (Rtl.skewedOldStep d) 0 (fun t => (x t, y t)) n).isLt
      generalize stateAt (Rtl.skewedOldStep d) 0 (fun t => (x t, y t)) n = c at *
      simp only [decide_eq_true_eq]
      by_cases h : c = BitVec.allOnes d
      · rw [if_pos h]
        have := hf.1 h
        omega
      · rw [if_neg h]
        have h1 : c.toNat ≠ 2 ^ d - 1 := fun e => h (hf.2 e)
        cases hx : x n
        · simp [Rtl.bv]; omega
        · have := bv_inc c h1
          show (c + 1).toNat = _
          rw [this]
          simp
          omega

/-- C81: the counter of the old `skewedSync` counts the ones of the first input and never gives any back: where the inputs differ, a
zero is turned into a one as soon as a single one was ever seen, and a one is kept only after `2^d-1` of them. -/
theorem C81_skewed_sync (d : ℕ) (hd : 1 ≤ d) (x y : ℕ → Bool) (t : ℕ) :
    skewedOldOut d x y t = if x t = y t then x t
      else if x t then decide (2 ^ d - 1 ≤ Spec.seen x t) else decide (1 ≤ Spec.seen x t) := by
  have h := skewed_state d x y t
  have h2 : 2 ≤ 2 ^ d := by calc 2 = 2 ^ 1 := rfl
    _ ≤ 2 ^ d := Nat.pow_le_pow_right (by norm_num) hd
  unfold skewedOldOut outAt
  generalize stateAt (Rtl.skewedOldStep d) 0 (fun t => (x t, y t)) t = c at *
  have e1 : decide (c = BitVec.allOnes d) = decide (2 ^ d - 1 ≤ Spec.seen x t) := by
    rw [decide_eq_decide, bv_full]; omega
  have e2 : decide (c = 0) = decide (Spec.seen x t = 0) := by
    rw [decide_eq_decide, bv_zero]; omega
  simp only [Rtl.skewedOldStep, e1, e2]
  by_cases hxy : x t = y t
  · rw [if_pos hxy, if_pos hxy]
  · rw [if_neg hxy, if_neg hxy]
    cases x t
    · simp only [Bool.false_eq_true, if_false]
      by_cases h0 : Spec.seen x t = 0
      · simp [h0]
      · simp [h0]; omega
    · simp

/-- The dividend bits of the cycles before `n` whose divisor bit was one, latest first. -/
def Spec.recent (x y : ℕ → Bool) : ℕ → List Bool
  | 0 => []
  | n + 1 => if y n then x n :: Spec.recent x y n else Spec.recent x y n

/-- Quotients of the old `cordiv`. -/
def cordivOldOut (s x y : ℕ → Bool) (t : ℕ) : Bool :=
  (outAt Rtl.cordivOldStep (false, false) (fun t => (s t, x t, y t)) t).1

private theorem cordiv_state (s x y : ℕ → Bool) (n : ℕ) :
    stateAt Rtl.cordivOldStep (false, false) (fun t => (s t, x t, y t)) n
      = ((Spec.recent x y n).getD 0 false, (Spec.recent x y n).getD 1 false) := by
  induction n with
  | zero => rfl
  | succ n ih =>
      rw [stateAt_succ, ih]
      simp only [Rtl.cordivOldStep, Spec.recent]
      cases y n <;> simp

/-- C81: the old `cordiv` returns the dividend bit when the divisor bit is one, otherwise the latest or the last but one dividend bit
that came with a divisor one. -/
theorem C81_cordiv (s x y : ℕ → Bool) (t : ℕ) :
    cordivOldOut s x y t = if y t then x t else (Spec.recent x y t).getD (if s t then 1 else 0) false := by
  show (Rtl.cordivOldStep (stateAt Rtl.cordivOldStep (false, false) (fun t => (s t, x t, y t)) t) (s t, x t, y t)).2.1 = _
  rw [cordiv_state]
  simp only [Rtl.cordivOldStep]
  cases y t <;> cases s t <;> simp

private theorem recent_valid (x y : ℕ → Bool) (n : ℕ) :
    Spec.valid (Spec.nums x) (Spec.nums y) n = ((Spec.recent x y n).map Spec.num).reverse := by
  induction n with
  | zero => rfl
  | succ n ih =>
      have hs : Spec.valid (Spec.nums x) (Spec.nums y) (n + 1)
          = Spec.valid (Spec.nums x) (Spec.nums y) n ++ (if Spec.nums y n = 1 then [Spec.nums x n] else []) := by
        unfold Spec.valid
        rw [List.range_succ, List.filter_append, List.map_append]
        congr 1
        split_ifs with h <;> simp [h]
      rw [hs, ih, Spec.recent]
      cases hy : y n <;> simp [Spec.nums, Spec.num, hy]

private theorem recent_length (x y : ℕ → Bool) (n : ℕ) : (Spec.recent x y n).length = Spec.seen y n := by
  induction n with
  | zero => rfl
  | succ n ih =>
      rw [Spec.recent, seen_succ]
      split_ifs <;> simp [ih]

/-- C81: so, from the second divisor one on, it is the Python kernel with two cells, the select bit being the complement of the
Python number. -/
theorem C81_cordiv_agree {rng : List ℤ} (h : Verif.Spec.IsPermSeq 1 rng) (x y : ℕ → Bool) (t : ℕ) (hy : 2 ≤ Spec.seen y t) :
    corOut 2 rng (Spec.nums x) (Spec.nums y) t
      = .ok (Spec.num (cordivOldOut (fun t => decide (rng.getD (t % 2) 0 = 0)) x y t)) := by
  obtain ⟨k, hk, hk2, hq⟩ := C33_quotient h (Spec.nums x) (Spec.nums y) t
  rw [pow_one] at *
  rw [hq, C81_cordiv, hk2]
  have hyt : (Spec.nums y t = 1) ↔ y t = true := by unfold Spec.nums Spec.num; cases y t <;> simp
  congr 1
  by_cases h1 : y t = true
  · rw [if_pos (hyt.2 h1), if_pos h1]; rfl
  · rw [if_neg (fun e => h1 (hyt.1 e)), if_neg h1]
    have hl := recent_length x y t
    unfold Spec.divTape
    rw [recent_valid]
    obtain ⟨a, b, l, hr⟩ : ∃ a b l, Spec.recent x y t = a :: b :: l := by
      match hr : Spec.recent x y t with
      | [] => rw [hr] at hl; simp at hl; omega
      | [_] => rw [hr] at hl; simp at hl; omega
      | a :: b :: l => exact ⟨a, b, l, rfl⟩
    rw [hr]
    rcases (show k = 0 ∨ k = 1 by omega) with rfl | rfl
    · simp [List.getD_eq_getElem?_getD]
    · simp [List.getD_eq_getElem?_getD, List.getElem?_append]

/-- Quotients of the old `iscbdiv`. -/
def iscbdivOldOut (d : ℕ) (s x y : ℕ → Bool) : ℕ → Bool :=
  outAt (Rtl.iscbdivOldStep d) (0, (false, false)) fun t => (s t, x t, y t)

/-- C81: the old `iscbdiv` is the old `cordiv` behind the old `skewedSync`. -/
theorem C81_iscbdiv (d : ℕ) (s x y : ℕ → Bool) (t : ℕ) :
    iscbdivOldOut d s x y t = cordivOldOut s (skewedOldOut d x y) y t := by
  have st : ∀ n, stateAt (Rtl.iscbdivOldStep d) (0, (false, false)) (fun t => (s t, x t, y t)) n
      = (stateAt (Rtl.skewedOldStep d) 0 (fun t => (x t, y t)) n,
        stateAt Rtl.cordivOldStep (false, false) (fun t => (s t, skewedOldOut d x y t, y t)) n) := by
    intro n
    induction n with
    | zero => rfl
    | succ n ih => rw [stateAt_succ, ih, stateAt_succ, stateAt_succ]; rfl
  show (Rtl.iscbdivOldStep d (stateAt (Rtl.iscbdivOldStep d) (0, (false, false)) (fun t => (s t, x t, y t)) t) (s t, x t, y t)).2 = _
  rw [st]
  rfl

/-- C81: after one dividend one and two further divisor ones the old `iscbdiv` is stuck: it puts out one in every later cycle, whatever
the streams. -/
theorem C81_iscbdiv_stuck {d : ℕ} (hd : 1 ≤ d) (s x y : ℕ → Bool) {a t : ℕ} (hx : 1 ≤ Spec.seen x a) (hat : a ≤ t)
    (hy : Spec.seen y a + 2 ≤ Spec.seen y t) : iscbdivOldOut d s x y t = true := by
  rw [C81_iscbdiv, C81_cordiv]
  have one : ∀ u ≥ a, y u = true → skewedOldOut d x y u = true := by
    intro u hu hyu
    have := seen_mono x hu
    rw [C81_skewed_sync d hd, hyu]
    cases x u
    · simp; omega
    · simp
  have run : ∀ k, ∃ l, Spec.recent (skewedOldOut d x y) y (a + k)
      = List.replicate (Spec.seen y (a + k) - Spec.seen y a) true ++ l := by
    intro k
    induction k with
    | zero => exact ⟨Spec.recent (skewedOldOut d x y) y (a + 0), by simp⟩
    | succ k ih =>
        obtain ⟨l, hl⟩ := ih
        refine ⟨l, ?_⟩
        have := seen_mono y (show a ≤ a + k by omega)
        rw [← add_assoc, Spec.recent, seen_succ, hl]
        by_cases hyk : y (a + k) = true
        · rw [if_pos hyk, if_pos hyk, one _ (by omega) hyk,
            show Spec.seen y (a + k) + 1 - Spec.seen y a = Spec.seen y (a + k) - Spec.seen y a + 1 by omega,
            List.replicate_succ, List.cons_append]
        · rw [if_neg hyk, if_neg hyk, add_zero]
  by_cases hyt : y t = true
  · rw [if_pos hyt]; exact one t hat hyt
  · rw [if_neg hyt]
    obtain ⟨k, rfl⟩ := Nat.exists_eq_add_of_le hat
    obtain ⟨l, hl⟩ := run k
    obtain ⟨m, hm⟩ : ∃ m, Spec.seen y (a + k) - Spec.seen y a = m + 2 := ⟨Spec.seen y (a + k) - Spec.seen y a - 2, by omega⟩
    rw [hl, hm, List.replicate_succ, List.replicate_succ]
    cases s (a + k) <;> simp

/-- Non-vacuity: `1/8` divided by `1/2`. -/
example (t : ℕ) (ht : 6 ≤ t) :
    iscbdivOldOut 2 (fun _ => false) (fun t => decide (t % 8 = 0)) (fun t => decide (t % 2 = 0)) t = true :=
  C81_iscbdiv_stuck (by norm_num) _ _ _ (a := 1) (by decide +kernel) (by omega)
    (by have := seen_mono (fun t => decide (t % 2 = 0)) ht
        have h1 : Spec.seen (fun t => decide (t % 2 = 0)) 6 = 3 := by decide +kernel
        have h2 : Spec.seen (fun t => decide (t % 2 = 0)) 1 = 1 := by decide +kernel
        omega)

/-! ## The flip-flop square root -/

/-- Outputs of `sqrtJK` and `jkdivbisqrt`. -/
def sqrtJkOldOut (x : ℕ → Bool) : ℕ → Bool := outAt Rtl.sqrtJkOldStep true x

private theorem jk_out (x : ℕ → Bool) (t : ℕ) : sqrtJkOldOut x t = if stateAt Rtl.sqrtJkOldStep true x t then x t else true := rfl

private theorem jk_next (x : ℕ → Bool) (t : ℕ) : stateAt Rtl.sqrtJkOldStep true x (t + 1)
    = if sqrtJkOldOut x t then !stateAt Rtl.sqrtJkOldStep true x t else true := rfl

/-- C81: `sqrtJK` keeps every one of its input, and at most doubles them. -/
theorem C81_sqrt_jk_count (x : ℕ → Bool) (n : ℕ) :
    (x n = true → sqrtJkOldOut x n = true) ∧
    Verif.Spec.ones (Spec.nums (sqrtJkOldOut x)) n ≤ 2 * Verif.Spec.ones (Spec.nums x) n := by
  constructor
  · intro h; rw [jk_out, h]; simp
  · have : Verif.Spec.ones (Spec.nums (sqrtJkOldOut x)) n + Spec.num (!stateAt Rtl.sqrtJkOldStep true x n)
        ≤ 2 * Verif.Spec.ones (Spec.nums x) n := by
      induction n with
      | zero => simp [Verif.Spec.ones, stateAt, Spec.num]
      | succ n ih =>
          rw [Verif.Spec.ones_succ, Verif.Spec.ones_succ, jk_next]
          have key : ∀ (q b : Bool) (o m : ℤ), o + Spec.num (!q) ≤ 2 * m → o + Spec.num (if q then b else true)
              + Spec.num (!(if (if q then b else true) then !q else true)) ≤ 2 * (m + Spec.num b) := by
            intro q b o m h
            cases q <;> cases b <;> simp [Spec.num] at * <;> omega
          exact key _ _ _ _ ih
    have h0 : 0 ≤ Spec.num (!stateAt Rtl.sqrtJkOldStep true x n) := by unfold Spec.num; split_ifs <;> norm_num
    omega

/-- C81: it does so by completing pairs: every finished run of ones in its output has even length. -/
theorem C81_sqrt_jk_runs (x : ℕ → Bool) (s m : ℕ) (hs : s = 0 ∨ sqrtJkOldOut x (s - 1) = false)
    (h1 : ∀ u < m, sqrtJkOldOut x (s + u) = true) (h0 : sqrtJkOldOut x (s + m) = false) : m % 2 = 0 := by
  have hq : ∀ j ≤ m, stateAt Rtl.sqrtJkOldStep true x (s + j) = decide (j % 2 = 0) := by
    intro j
    induction j with
    | zero =>
        intro _
        rcases hs with rfl | hs
        · rfl
        · cases s with
          | zero => rfl
          | succ s =>
              rw [Nat.add_sub_cancel] at hs
              rw [add_zero, jk_next, hs]; rfl
    | succ j ih =>
        intro hj
        rw [← add_assoc, jk_next, h1 j (by omega), if_pos rfl, ih (by omega), ← decide_not, decide_eq_decide]
        omega
  have := hq m le_rfl
  rw [jk_out, this] at h0
  by_contra hc
  rw [decide_eq_false hc] at h0
  simp at h0

example : (List.range 8).map (sqrtJkOldOut fun t => decide (t % 4 = 0)) = [true, true, false, false, true, true, false, false] := by
  decide +kernel

/-! ## The in-stream square root -/

/-- Outputs of the old `iscbdivbisqrt`. -/
def isSqrtOldOut (s x : ℕ → Bool) : ℕ → Bool := outAt Rtl.isSqrtOldStep (false, (false, false)) fun t => (s t, x t)

private theorem isSqrt_pair (s x : ℕ → Bool) (m : ℕ) :
    stateAt Rtl.isSqrtOldStep (false, (false, false)) (fun t => (s t, x t)) (2 * m + 2)
      = (false, (true, !isSqrtOldOut s x (2 * m))) ∧
    stateAt Rtl.isSqrtOldStep (false, (false, false)) (fun t => (s t, x t)) (2 * m + 3)
      = (true, if isSqrtOldOut s x (2 * m + 2) then (false, true) else (true, !isSqrtOldOut s x (2 * m))) := by
  have two : ∀ n, (stateAt Rtl.isSqrtOldStep (false, (false, false)) (fun t => (s t, x t)) n).1 = false →
      (stateAt Rtl.isSqrtOldStep (false, (false, false)) (fun t => (s t, x t)) (n + 1)
        = (true, if isSqrtOldOut s x n
            then (false, (stateAt Rtl.isSqrtOldStep (false, (false, false)) (fun t => (s t, x t)) n).2.1)
            else (stateAt Rtl.isSqrtOldStep (false, (false, false)) (fun t => (s t, x t)) n).2)) ∧
      (stateAt Rtl.isSqrtOldStep (false, (false, false)) (fun t => (s t, x t)) (n + 2)
        = (false, (true, if isSqrtOldOut s x n then false
            else (stateAt Rtl.isSqrtOldStep (false, (false, false)) (fun t => (s t, x t)) n).2.1))) := by
    intro n hn
    have e : isSqrtOldOut s x n
        = (Rtl.isSqrtOldStep (stateAt Rtl.isSqrtOldStep (false, (false, false)) (fun t => (s t, x t)) n) (s n, x n)).2 := rfl
    have e1 : stateAt Rtl.isSqrtOldStep (false, (false, false)) (fun t => (s t, x t)) (n + 1)
        = (true, if isSqrtOldOut s x n
            then (false, (stateAt Rtl.isSqrtOldStep (false, (false, false)) (fun t => (s t, x t)) n).2.1)
            else (stateAt Rtl.isSqrtOldStep (false, (false, false)) (fun t => (s t, x t)) n).2) := by
      rw [stateAt_succ, e]
      generalize stateAt Rtl.isSqrtOldStep (false, (false, false)) (fun t => (s t, x t)) n = st at hn
      obtain ⟨a, b, c⟩ := st
      simp only at hn
      subst hn
      simp only [Rtl.isSqrtOldStep, Rtl.cordivOldStep]
      cases b <;> cases c <;> cases s n <;> cases x n <;> rfl
    refine ⟨e1, ?_⟩
    rw [stateAt_succ, e1]
    simp only [Rtl.isSqrtOldStep, Rtl.cordivOldStep]
    cases isSqrtOldOut s x n <;> simp
  have main : ∀ m, stateAt Rtl.isSqrtOldStep (false, (false, false)) (fun t => (s t, x t)) (2 * m + 2)
      = (false, (true, !isSqrtOldOut s x (2 * m))) := by
    intro m
    induction m with
    | zero =>
        rw [(two 0 rfl).2]
        show (false, (true, if isSqrtOldOut s x 0 then false else false)) = _
        have : isSqrtOldOut s x 0 = true := by
          show (if (if s 0 then false else false) = true then x 0 else true) = true
          cases s 0 <;> rfl
        rw [this]; rfl
    | succ m ih =>
        have := (two (2 * m + 2) (by rw [ih])).2
        rw [ih] at this
        rw [show 2 * (m + 1) + 2 = 2 * m + 2 + 2 by ring, this, show 2 * (m + 1) = 2 * m + 2 by ring]
        cases isSqrtOldOut s x (2 * m + 2) <;> rfl
  refine ⟨main m, ?_⟩
  have := (two (2 * m + 2) (by rw [main])).1
  rw [main] at this
  exact this

/-- C81: what the old `iscbdivbisqrt` puts out: in even cycles the input bit, or with the select bit set also the output two cycles
before; in odd cycles the input bit, or the output one cycle before if the select bit is clear, or, after a zero and with the
select bit set, the output three cycles before. -/
theorem C81_is_sqrt (s x : ℕ → Bool) (m : ℕ) :
    isSqrtOldOut s x 0 = true ∧
    isSqrtOldOut s x (2 * m + 2) = (x (2 * m + 2) || (s (2 * m + 2) && isSqrtOldOut s x (2 * m))) ∧
    isSqrtOldOut s x (2 * m + 3) = (x (2 * m + 3) ||
      (if isSqrtOldOut s x (2 * m + 2) then !s (2 * m + 3) else s (2 * m + 3) && isSqrtOldOut s x (2 * m))) := by
  have e : ∀ n, isSqrtOldOut s x n
      = (Rtl.isSqrtOldStep (stateAt Rtl.isSqrtOldStep (false, (false, false)) (fun t => (s t, x t)) n) (s n, x n)).2 := fun _ => rfl
  obtain ⟨h1, h2⟩ := isSqrt_pair s x m
  refine ⟨?_, ?_, ?_⟩
  · show (if (if s 0 then false else false) = true then x 0 else true) = true
    cases s 0 <;> rfl
  · rw [e (2 * m + 2), h1]
    simp only [Rtl.isSqrtOldStep]
    cases s (2 * m + 2) <;> cases x (2 * m + 2) <;> cases isSqrtOldOut s x (2 * m) <;> rfl
  · rw [e (2 * m + 3), h2]
    simp only [Rtl.isSqrtOldStep]
    cases s (2 * m + 3) <;> cases x (2 * m + 3) <;> cases isSqrtOldOut s x (2 * m + 2) <;> cases isSqrtOldOut s x (2 * m) <;> rfl

/-- C81: so with the select bit always set every even output is one, whatever the input, and with the select bit always clear the
output has, from cycle two on, the input in even cycles and the disjunction of two successive input bits in odd cycles. -/
theorem C81_is_sqrt_select (x : ℕ → Bool) (m : ℕ) :
    isSqrtOldOut (fun _ => true) x (2 * m) = true ∧
    isSqrtOldOut (fun _ => false) x (2 * m + 2) = x (2 * m + 2) ∧
    isSqrtOldOut (fun _ => false) x (2 * m + 3) = (x (2 * m + 3) || x (2 * m + 2)) := by
  refine ⟨?_, ?_, ?_⟩
  · induction m with
    | zero => exact (C81_is_sqrt _ x 0).1
    | succ m ih => rw [show 2 * (m + 1) = 2 * m + 2 by ring, (C81_is_sqrt _ x m).2.1, ih]; simp
  · rw [(C81_is_sqrt _ x m).2.1]; simp
  · rw [(C81_is_sqrt _ x m).2.2, (C81_is_sqrt _ x m).2.1]
    cases x (2 * m + 2) <;> simp

/-! ## Regenerating divider -/

/-- Quotients of `cordivall`. -/
def cordivAllOut (w : ℕ) (r : ℕ → BitVec w) (s x y : ℕ → Bool) : ℕ → Bool :=
  outAt (Rtl.cordivAllStep w) (Rtl.half w, Rtl.half w, (false, false)) fun t => (r t, s t, x t, y t)

/-- The bit regenerated by `cordivall`: the random number is at most half the range plus the ones minus the zeros so far, wrapped to
`w` bits. -/
def Spec.regenGe (w : ℕ) (r : ℕ → BitVec w) (x : ℕ → Bool) (t : ℕ) : Bool :=
  decide (((r t).toNat : ℤ) ≤ (2 ^ (w - 1) + Verif.Spec.walk (Spec.nums x) t) % 2 ^ w)

private theorem half_val' (d : ℕ) : ((Rtl.half d).toNat : ℤ) = 2 ^ (d - 1) % 2 ^ d := by
  unfold Rtl.half
  rw [BitVec.toNat_twoPow]
  push_cast
  rfl

private theorem all_state (w : ℕ) (r : ℕ → BitVec w) (s x y : ℕ → Bool) (n : ℕ) :
    ((stateAt (Rtl.cordivAllStep w) (Rtl.half w, Rtl.half w, (false, false)) (fun t => (r t, s t, x t, y t)) n).1.toNat : ℤ)
      = (2 ^ (w - 1) + Verif.Spec.walk (Spec.nums x) n) % 2 ^ w ∧
    ((stateAt (Rtl.cordivAllStep w) (Rtl.half w, Rtl.half w, (false, false)) (fun t => (r t, s t, x t, y t)) n).2.1.toNat : ℤ)
      = (2 ^ (w - 1) + Verif.Spec.walk (Spec.nums y) n) % 2 ^ w ∧
    (stateAt (Rtl.cordivAllStep w) (Rtl.half w, Rtl.half w, (false, false)) (fun t => (r t, s t, x t, y t)) n).2.2
      = stateAt Rtl.cordivOldStep (false, false) (fun t => (s t, Spec.regenGe w r x t, Spec.regenGe w r y t)) n := by
  induction n with
  | zero =>
      refine ⟨?_, ?_, rfl⟩
      · show ((Rtl.half w).toNat : ℤ) = _
        rw [half_val']; simp [Verif.Spec.walk]
      · show ((Rtl.half w).toNat : ℤ) = _
        rw [half_val']; simp [Verif.Spec.walk]
  | succ n ih =>
      obtain ⟨h1, h2, h3⟩ := ih
      refine ⟨?_, ?_, ?_⟩
      · rw [stateAt_succ, Verif.Spec.walk_succ, ← add_assoc]
        exact isCount_toNat _ _ _ h1
      · rw [stateAt_succ, Verif.Spec.walk_succ, ← add_assoc]
        exact isCount_toNat _ _ _ h2
      · rw [stateAt_succ, stateAt_succ, ← h3]
        unfold Spec.regenGe
        rw [← h1, ← h2]
        simp only [Nat.cast_le]
        rfl

/-- C81: `cordivall` is the old `cordiv` applied to two regenerated streams. -/
theorem C81_cordivall (w : ℕ) (r : ℕ → BitVec w) (s x y : ℕ → Bool) (t : ℕ) :
    cordivAllOut w r s x y t = cordivOldOut s (Spec.regenGe w r x) (Spec.regenGe w r y) t := by
  obtain ⟨h1, h2, h3⟩ := all_state w r s x y t
  unfold cordivOldOut cordivAllOut outAt
  rw [← h3]
  unfold Spec.regenGe
  beta_reduce
  rw [← h1, ← h2]
  simp only [Nat.cast_le]
  rfl

/-- C81: its counters wrap: with a dividend that is never one and a divisor that is always one, the quotient is one in every cycle `t`
past half the range whose random number is at most `t - 2^(w-1)` and `3*2^(w-1) - t`. -/
theorem C81_cordivall_wrap {w : ℕ} (hw : 1 ≤ w) (r : ℕ → BitVec w) (s : ℕ → Bool) (t : ℕ)
    (ht : 2 ^ (w - 1) < t) (h1 : (r t).toNat + 2 ^ (w - 1) ≤ t) (h2 : (r t).toNat + t ≤ 3 * 2 ^ (w - 1)) :
    cordivAllOut w r s (fun _ => false) (fun _ => true) t = true := by
  have w0 : Verif.Spec.walk (Spec.nums fun _ => false) t = -t := by
    simp [Verif.Spec.walk, Spec.nums, Spec.num]
  have w1 : Verif.Spec.walk (Spec.nums fun _ => true) t = t := by
    simp [Verif.Spec.walk, Spec.nums, Spec.num]
  have hw2 : (2 : ℤ) ^ w = 2 * 2 ^ (w - 1) := by rw [← pow_succ']; congr 1; omega
  have c : ((2 ^ (w - 1) : ℕ) : ℤ) = 2 ^ (w - 1) := by push_cast; rfl
  have n1 : Spec.regenGe w r (fun _ => false) t = true := by
    unfold Spec.regenGe
    rw [w0, decide_eq_true_eq, hw2, ← c]
    rw [← Int.add_emod_right, Int.emod_eq_of_lt (by omega) (by omega)]
    omega
  have d1 : Spec.regenGe w r (fun _ => true) t = true ∨ t = 3 * 2 ^ (w - 1) := by
    by_cases h : t = 3 * 2 ^ (w - 1)
    · exact Or.inr h
    · left
      unfold Spec.regenGe
      rw [w1, decide_eq_true_eq, hw2, ← c]
      rw [← Int.sub_emod_right, Int.emod_eq_of_lt (by omega) (by omega)]
      omega
  have d2 : Spec.regenGe w r (fun _ => true) t = true := by
    rcases d1 with h | h
    · exact h
    · have : (r t).toNat = 0 := by omega
      unfold Spec.regenGe
      rw [decide_eq_true_eq, this]
      exact Int.emod_nonneg _ (by positivity)
  rw [C81_cordivall w, C81_cordiv, d2, if_pos rfl, n1]

example : cordivAllOut 8 (fun _ => 1) (fun _ => false) (fun _ => false) (fun _ => true) 200 = true :=
  C81_cordivall_wrap (by norm_num) _ _ _ (by norm_num) (by decide +kernel) (by decide +kernel)

/-! ## Row buffer -/

/-- Contents shown by `data_buf`. -/
def dataBufOut {a n : ℕ} (i : ℕ → BitVec a × Bool × BitVec a × BitVec n) : ℕ → BitVec n := outAt Rtl.dataBufStep (fun _ => 0) i

/-- C81: a read of `data_buf` shows what was last written to the row before this cycle, and nought if nothing was. -/
theorem C81_data_buf {a n : ℕ} (i : ℕ → BitVec a × Bool × BitVec a × BitVec n) (t : ℕ) :
    (∀ u < t, (i u).2.1 = true → (i u).2.2.1 = (i t).1 →
      (∀ v, u < v → v < t → ¬ ((i v).2.1 = true ∧ (i v).2.2.1 = (i t).1)) → dataBufOut i t = (i u).2.2.2) ∧
    ((∀ u < t, ¬ ((i u).2.1 = true ∧ (i u).2.2.1 = (i t).1)) → dataBufOut i t = 0) := by
  have keep : ∀ (r : BitVec a) (u k : ℕ), (∀ v, u ≤ v → v < u + k → ¬ ((i v).2.1 = true ∧ (i v).2.2.1 = r)) →
      stateAt Rtl.dataBufStep (fun _ => 0) i (u + k) r = stateAt Rtl.dataBufStep (fun _ => 0) i u r := by
    intro r u k
    induction k with
    | zero => intro _; rfl
    | succ k ih =>
        intro h
        rw [← add_assoc, stateAt_succ, ← ih fun v h1 h2 => h v h1 (by omega)]
        have := h (u + k) (by omega) (by omega)
        show (if ((i (u + k)).2.1 && decide (r = (i (u + k)).2.2.1)) = true then _ else _) = _
        rw [if_neg]
        intro hc
        rw [Bool.and_eq_true, decide_eq_true_iff] at hc
        exact this ⟨hc.1, hc.2.symm⟩
  constructor
  · intro u hu h1 h2 h3
    obtain ⟨k, rfl⟩ := Nat.exists_eq_add_of_lt hu
    show stateAt Rtl.dataBufStep (fun _ => 0) i (u + k + 1) (i (u + k + 1)).1 = _
    have := keep (i (u + k + 1)).1 (u + 1) k fun v hv1 hv2 => h3 v (by omega) (by omega)
    rw [show u + k + 1 = u + 1 + k by omega] at *
    rw [this, stateAt_succ]
    show (if ((i u).2.1 && decide (_ = (i u).2.2.1)) = true then _ else _) = _
    rw [h1, h2]
    simp
  · intro h
    have := keep (i t).1 0 t fun v _ hv => h v (by omega)
    rw [zero_add] at this
    exact this

end Verif.Props
