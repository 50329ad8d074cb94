import Verif.Spec
import Verif.Model.Small
import Verif.Proofs.Small
import Verif.Props.Add
import Mathlib.Data.Nat.Bitwise

/-!
# Properties C28–C32: flip-flop, shift register, sign/absolute value, ReLU, activations
-/

namespace Verif.Props

open Verif Finset Small

/-! ## C28 -/

/-- State (= last output) of a fresh `JKFF` after `n` calls. -/
def jkQ (jk : ℕ → ℚ × ℚ) (n : ℕ) : ℤ := stateAt jkStep 0 jk n

/-- The calls with exactly one non-zero input are the set/reset commands. -/
def Spec.isCommand (i : ℚ × ℚ) : Prop := (i.1 ≠ 0 ∧ i.2 = 0) ∨ (i.1 = 0 ∧ i.2 ≠ 0)

/-- Number of toggle calls (both inputs non-zero) with `s ≤ t < n`. -/
def Spec.toggles (jk : ℕ → ℚ × ℚ) (s n : ℕ) : ℤ :=
  ∑ t ∈ Finset.Ico s n, ind ((jk t).1 ≠ 0 ∧ (jk t).2 ≠ 0)

private theorem jkStep_cases (q : ℤ) (i : ℚ × ℚ) :
    (jkStep q i).1 = if i.1 = 0 then (if i.2 = 0 then q else 0) else (if i.2 = 0 then 1 else 1 - q) := by
  have l00 : Int.land 0 0 = 0 := by decide
  have l01 : Int.land 0 1 = 0 := by decide
  have l10 : Int.land 1 0 = 0 := by decide
  have l11 : Int.land 1 1 = 1 := by decide
  unfold jkStep
  by_cases h1 : i.1 = 0 <;> by_cases h2 : i.2 = 0 <;> simp [ind, h1, h2, l00, l01, l10, l11]

/-- C28: the output always is a bit. -/
theorem C28_bit (jk : ℕ → ℚ × ℚ) (n : ℕ) : IsBit (jkQ jk n) ∧ outAt jkStep 0 jk n = jkQ jk (n + 1) := by
  refine ⟨?_, rfl⟩
  induction n with
  | zero => exact Or.inl rfl
  | succ n ih =>
      have : jkQ jk (n + 1) = (jkStep (jkQ jk n) (jk n)).1 := rfl
      rw [this, jkStep_cases]
      split_ifs
      · exact ih
      · exact Or.inl rfl
      · exact Or.inr rfl
      · rcases ih with h | h <;> rw [h]
        · exact Or.inr rfl
        · exact Or.inl rfl

private theorem jk_from (jk : ℕ → ℚ × ℚ) (s : ℕ) (k : ℕ)
    (h : ∀ t, s ≤ t → t < s + k → ¬ Spec.isCommand (jk t)) :
    jkQ jk (s + k) = (jkQ jk s + Spec.toggles jk s (s + k)) % 2 := by
  induction k with
  | zero =>
      have := (C28_bit jk s).1
      simp only [Spec.toggles, Finset.Ico_self, sum_empty, add_zero]
      rcases this with h | h <;> rw [h] <;> rfl
  | succ k ih =>
      have ih' := ih (fun t h1 h2 => h t h1 (by omega))
      have hb := (C28_bit jk s).1
      have hc := h (s + k) (by omega) (by omega)
      have e : jkQ jk (s + (k + 1)) = (jkStep (jkQ jk (s + k)) (jk (s + k))).1 := rfl
      have et : Spec.toggles jk s (s + (k + 1)) = Spec.toggles jk s (s + k)
          + ind ((jk (s + k)).1 ≠ 0 ∧ (jk (s + k)).2 ≠ 0) := by
        unfold Spec.toggles
        rw [← Nat.add_assoc, Finset.sum_Ico_succ_top (by omega)]
      rw [e, et, jkStep_cases, ih']
      unfold Spec.isCommand at hc
      by_cases h1 : (jk (s + k)).1 = 0 <;> by_cases h2 : (jk (s + k)).2 = 0
      · simp [h1, h2, ind]
      · exact absurd (Or.inr ⟨h1, h2⟩) hc
      · exact absurd (Or.inl ⟨h1, h2⟩) hc
      · rw [if_neg h1, if_neg h2, ind_true ⟨h1, h2⟩]
        generalize Spec.toggles jk s (s + k) = T
        omega

/-- C28: after the last set/reset command at call `s`, the output is that command toggled by the
later toggle calls. -/
theorem C28_after_command (jk : ℕ → ℚ × ℚ) (s n : ℕ) (hsn : s < n) (hs : Spec.isCommand (jk s))
    (h : ∀ t, s < t → t < n → ¬ Spec.isCommand (jk t)) :
    jkQ jk n = (ind ((jk s).1 ≠ 0) + Spec.toggles jk (s + 1) n) % 2 := by
  have hk := jk_from jk (s + 1) (n - (s + 1)) (fun t h1 h2 => h t (by omega) (by omega))
  have e : s + 1 + (n - (s + 1)) = n := by omega
  rw [e] at hk
  have e2 : jkQ jk (s + 1) = ind ((jk s).1 ≠ 0) := by
    have : jkQ jk (s + 1) = (jkStep (jkQ jk s) (jk s)).1 := rfl
    rw [this, jkStep_cases]
    rcases hs with ⟨h1, h2⟩ | ⟨h1, h2⟩ <;> simp [h1, h2, ind]
  rw [hk, e2]

/-- C28: without any command the output counts toggles modulo two, starting from `0`. -/
theorem C28_no_command (jk : ℕ → ℚ × ℚ) (n : ℕ) (h : ∀ t < n, ¬ Spec.isCommand (jk t)) :
    jkQ jk n = Spec.toggles jk 0 n % 2 := by
  have hk := jk_from jk 0 n (fun t _ h2 => h t (by omega))
  simp only [Nat.zero_add] at hk
  rw [hk]
  have : jkQ jk 0 = 0 := rfl
  rw [this, zero_add]

example : ∃ jk : ℕ → ℚ × ℚ, Spec.isCommand (jk 0) ∧ (∀ t, 0 < t → t < 3 → ¬ Spec.isCommand (jk t)) ∧
    Spec.toggles jk 1 3 = 2 :=
  ⟨fun t => if t = 0 then (1, 0) else (2, -1), by simp [Spec.isCommand], by
    intro t h _; simp [Spec.isCommand, Nat.pos_iff_ne_zero.1 h], by
    unfold Spec.toggles
    rw [Finset.sum_Ico_succ_top (by norm_num), Finset.sum_Ico_succ_top (by norm_num), Finset.Ico_self, sum_empty,
      ind_true (by norm_num), ind_true (by norm_num)]; rfl⟩

/-! ## C29 -/

/-- A `ShiftReg` call: input, optional mask bit, read index. -/
abbrev SrIn := ℤ × Option ℤ × ℕ

/-- The values pushed by the first `n` calls: those without a mask or with mask `1`. -/
def Spec.pushed (i : ℕ → SrIn) (n : ℕ) : List ℤ :=
  ((List.range n).map i).filterMap fun c => if c.2.1 = none ∨ c.2.1 = some 1 then some c.1 else none

/-- The delay line: initial alternating pattern followed by everything pushed. -/
def Spec.tape (e : ℕ) (i : ℕ → SrIn) (n : ℕ) : List ℤ :=
  (List.range e).map (fun k : ℕ => ((k % 2 : ℕ) : ℤ)) ++ Spec.pushed i n

private theorem sr_state (e : ℕ) (he : 0 < e) (i : ℕ → SrIn)
    (hm : ∀ t, (i t).2.1 = none ∨ (i t).2.1 = some 0 ∨ (i t).2.1 = some 1) (hi : ∀ t, (i t).2.2 < e) (n : ℕ) :
    stateAtE srStep (srInit e) i n = .ok ((Spec.tape e i n).drop (Spec.pushed i n).length) := by
  induction n with
  | zero => simp [stateAtE, Spec.pushed, Spec.tape, srInit]
  | succ n ih =>
      have hlen : ((Spec.tape e i n).drop (Spec.pushed i n).length).length = e := by
        simp [Spec.tape]
      have hp : Spec.pushed i (n + 1) = Spec.pushed i n ++
          (if (i n).2.1 = none ∨ (i n).2.1 = some 1 then [(i n).1] else []) := by
        unfold Spec.pushed
        rw [List.range_succ, List.map_append, List.filterMap_append]
        congr 1
        split_ifs with h <;> simp [h]
      have e1 : stateAtE srStep (srInit e) i (n + 1)
          = .ok (srShift ((Spec.tape e i n).drop (Spec.pushed i n).length) (i n).1 (i n).2.1) := by
        apply stateAtE_succ_ok ih (o := _)
        unfold srStep
        rw [hlen, if_pos (hi n)]
      rw [e1]
      congr 1
      have hne : (Spec.tape e i n).drop (Spec.pushed i n).length ≠ [] := by
        intro h; rw [h] at hlen; simp at hlen; omega
      have push : ∀ x : ℤ, srShift ((Spec.tape e i n).drop (Spec.pushed i n).length) x none
          = ((Spec.tape e i n) ++ [x]).drop ((Spec.pushed i n).length + 1) := by
        intro x
        rw [srShift_none _ hne, List.drop_drop, List.drop_append_of_le_length]
        simp [Spec.tape]; omega
      rcases hm n with h | h | h
      · rw [h, push]; unfold Spec.tape; rw [hp, h]; simp
      · rw [h, srShift_zero]; unfold Spec.tape; rw [hp, h]; simp
      · rw [h, srShift_one, push]; unfold Spec.tape; rw [hp, h]; simp

/-- C29: what a call returns, for any mask history: cell `index` and the sum of the last `entry`
values of the delay line, the current input excluded. -/
theorem C29_masked (e : ℕ) (he : 0 < e) (i : ℕ → SrIn)
    (hm : ∀ t, (i t).2.1 = none ∨ (i t).2.1 = some 0 ∨ (i t).2.1 = some 1) (hi : ∀ t, (i t).2.2 < e) (t : ℕ) :
    outAtE srStep (srInit e) i t =
      .ok ((Spec.tape e i t).getD ((Spec.pushed i t).length + (i t).2.2) 0,
           ((Spec.tape e i t).drop (Spec.pushed i t).length).sum) := by
  have hlen : ((Spec.tape e i t).drop (Spec.pushed i t).length).length = e := by
    simp [Spec.tape]
  apply outAtE_ok (sr_state e he i hm hi t) (s' := _)
  unfold srStep
  rw [hlen, if_pos (hi t)]
  simp [List.getD_eq_getElem?_getD]
  rfl

/-- C29: without masks the register is an exact delay line. -/
theorem C29_delay (e : ℕ) (he : 0 < e) (x : ℕ → ℤ) (idx : ℕ → ℕ) (hi : ∀ t, idx t < e) (t : ℕ) :
    outAtE srStep (srInit e) (fun t => (x t, none, idx t)) t =
      .ok (if t + idx t < e then (((t + idx t) % 2 : ℕ) : ℤ) else x (t + idx t - e),
           ∑ k ∈ range e, if t + k < e then (((t + k) % 2 : ℕ) : ℤ) else x (t + k - e)) := by
  have hp : Spec.pushed (fun t => (x t, none, idx t)) t = (List.range t).map x := by
    unfold Spec.pushed
    rw [List.filterMap_map]
    simp
  have hget : ∀ k < e, (Spec.tape e (fun t => (x t, none, idx t)) t).getD (t + k) 0
      = if t + k < e then (((t + k) % 2 : ℕ) : ℤ) else x (t + k - e) := by
    intro k hk
    unfold Spec.tape
    rw [hp]
    split_ifs with h
    · rw [List.getD_append _ _ _ _ (by simpa using h)]
      simp [List.getD_eq_getElem?_getD, h]
    · rw [List.getD_append_right _ _ _ _ (by simp; omega)]
      have : t + k - e < t := by omega
      simp [List.getD_eq_getElem?_getD, this]
  rw [C29_masked e he (fun t => (x t, none, idx t)) (fun _ => Or.inl rfl) hi t]
  have hplen : (Spec.pushed (fun t => (x t, none, idx t)) t).length = t := by rw [hp]; simp
  rw [hplen]
  simp only
  rw [hget _ (hi t)]
  congr 2
  have hl : ((Spec.tape e (fun t => (x t, none, idx t)) t).drop t).length = e := by
    simp [Spec.tape, hplen]
  have hs : ∀ l : List ℤ, l.sum = ∑ k ∈ range l.length, l.getD k 0 := by
    intro l
    induction l with
    | nil => simp
    | cons a l ih =>
        rw [List.sum_cons, List.length_cons, sum_range_succ', ih]
        simp [add_comm]
  rw [hs, hl]
  apply sum_congr rfl
  intro k hk
  rw [← hget k (mem_range.1 hk)]
  simp [List.getD_eq_getElem?_getD]

/-- C29: an index outside the register raises. -/
theorem C29_index (e : ℕ) (i : ℕ → SrIn) (h : e ≤ (i 0).2.2) :
    outAtE srStep (srInit e) i 0 = .error .index := by
  have : ¬ (i 0).2.2 < (srInit e).length := by rw [srInit_length]; omega
  apply outAtE_error (s := srInit e) rfl
  unfold srStep; rw [if_neg this]

example : outAtE srStep (srInit 3) (fun t => ((t + 5 : ℕ), none, 1)) 4
    = .ok (7, 6 + 7 + 8) := by
  rw [C29_delay 3 (by norm_num) (fun t => ((t + 5 : ℕ) : ℤ)) (fun _ => 1) (fun _ => by norm_num) 4]
  rfl

/-! ## C30 -/

/-- Sign and absolute-value output of a fresh `FSUSignAbs` at call `t`. -/
def signOut (depth : ℤ) (x : ℕ → ℤ) (t : ℕ) : ℤ := (outAt (signAbsStep depth) (accHalf depth) x t).1
/-- The absolute-value output. -/
def absOut (depth : ℤ) (x : ℕ → ℤ) (t : ℕ) : ℤ := (outAt (signAbsStep depth) (accHalf depth) x t).2

private theorem xor_bits {s x : ℤ} (hs : IsBit s) (hx : IsBit x) :
    Int.xor s x = s + x - 2 * s * x := by
  rcases hs with h | h <;> rcases hx with h' | h' <;> subst h <;> subst h' <;> decide

/-- C30: `abs = input XOR sign`, both bits, for every input. -/
theorem C30_xor (depth : ℤ) (x : ℕ → ℤ) (hx : Verif.Spec.BitStream x) (t : ℕ) :
    IsBit (signOut depth x t) ∧ IsBit (absOut depth x t) ∧
    absOut depth x t = if signOut depth x t = 1 then 1 - x t else x t := by
  have hs : IsBit (signOut depth x t) := isBit_ind _
  have ha : absOut depth x t = Int.xor (signOut depth x t) (x t) := rfl
  refine ⟨hs, ?_, ?_⟩
  · rw [ha, xor_bits hs (hx t)]
    rcases hs with h | h <;> rcases hx t with h' | h' <;> rw [h, h'] <;> simp [IsBit]
  · rw [ha, xor_bits hs (hx t)]
    rcases hs with h | h <;> rcases hx t with h' | h' <;> rw [h, h'] <;> simp

private theorem half_pow (d : ℕ) (hd : 1 ≤ d) : accHalf d = (((2 ^ (d - 1) : ℕ) : ℤ) : ℚ) ∧
    accMax d = (((2 * 2 ^ (d - 1) : ℕ) : ℤ) : ℚ) - 1 := by
  unfold accHalf accMax
  have e : (d : ℤ) - 1 = ((d - 1 : ℕ) : ℤ) := by omega
  have e2 : (2:ℚ) ^ (d : ℤ) = 2 * 2 ^ (d - 1) := by
    rw [zpow_natCast, ← pow_succ']; congr 1; omega
  rw [e, zpow_natCast, e2]
  push_cast; exact ⟨rfl, rfl⟩

/-- The walk clipped to `[lo, hi]` in every cycle. -/
def Spec.clippedWalk (lo hi : ℤ) (x : ℕ → ℤ) : ℕ → ℤ
  | 0 => 0
  | n + 1 => max lo (min (Spec.clippedWalk lo hi x n + (2 * x n - 1)) hi)

private theorem signAbs_state (d : ℕ) (hd : 1 ≤ d) (x : ℕ → ℤ) (n : ℕ) :
    stateAt (signAbsStep d) (accHalf d) x n
      = ((2 ^ (d - 1) + Spec.clippedWalk (-2 ^ (d - 1)) (2 ^ (d - 1) - 1) x n : ℤ) : ℚ) := by
  obtain ⟨h1, h2⟩ := half_pow d hd
  induction n with
  | zero => rw [stateAt_zero, h1]; simp [Spec.clippedWalk]
  | succ n ih =>
      rw [stateAt_succ]
      show clamp 0 (accMax d) (stateAt (signAbsStep d) (accHalf d) x n + ((x n : ℚ) * 2 - 1)) = _
      rw [ih, h2]
      have hp : (1:ℤ) ≤ 2 ^ (d - 1) := one_le_pow₀ (by norm_num)
      have e : ((2 ^ (d - 1) + Spec.clippedWalk (-2 ^ (d - 1)) (2 ^ (d - 1) - 1) x n : ℤ) : ℚ) + ((x n : ℚ) * 2 - 1)
          = ((2 ^ (d - 1) + Spec.clippedWalk (-2 ^ (d - 1)) (2 ^ (d - 1) - 1) x n + (2 * x n - 1) : ℤ) : ℚ) := by
        push_cast; ring
      rw [e]
      have e3 : clamp (0:ℚ) ((((2 * 2 ^ (d - 1) : ℕ) : ℤ) : ℚ) - 1)
          ((2 ^ (d - 1) + Spec.clippedWalk (-2 ^ (d - 1)) (2 ^ (d - 1) - 1) x n + (2 * x n - 1) : ℤ) : ℚ)
          = ((clamp 0 (2 * 2 ^ (d - 1) - 1)
              (2 ^ (d - 1) + Spec.clippedWalk (-2 ^ (d - 1)) (2 ^ (d - 1) - 1) x n + (2 * x n - 1)) : ℤ) : ℚ) := by
        unfold clamp; push_cast; rfl
      rw [e3]
      congr 1
      show _ = 2 ^ (d - 1) + max (-2 ^ (d - 1)) (min (Spec.clippedWalk (-2 ^ (d - 1)) (2 ^ (d - 1) - 1) x n + (2 * x n - 1)) (2 ^ (d - 1) - 1))
      unfold clamp
      generalize Spec.clippedWalk (-2 ^ (d - 1)) (2 ^ (d - 1) - 1) x n = W at *
      generalize (2:ℤ) ^ (d - 1) = H at *
      omega

/-- C30: the sign is `1` exactly when the clipped running sum (current bit included) is negative. -/
theorem C30_sign (d : ℕ) (hd : 1 ≤ d) (x : ℕ → ℤ) (t : ℕ) :
    signOut d x t = 1 ↔ Spec.clippedWalk (-2 ^ (d - 1)) (2 ^ (d - 1) - 1) x (t + 1) < 0 := by
  have h := signAbs_state d hd x (t + 1)
  have e : signOut d x t = ind (stateAt (signAbsStep d) (accHalf d) x (t + 1) < accHalf d) := rfl
  rw [e, h, (half_pow d hd).1]
  have hq : (((2 ^ (d - 1) + Spec.clippedWalk (-2 ^ (d - 1)) (2 ^ (d - 1) - 1) x (t + 1) : ℤ) : ℚ)
      < (((2 ^ (d - 1) : ℕ) : ℤ) : ℚ)) ↔ Spec.clippedWalk (-2 ^ (d - 1)) (2 ^ (d - 1) - 1) x (t + 1) < 0 := by
    rw [Int.cast_lt]; push_cast; constructor <;> intro h <;> linarith
  rw [← hq]
  by_cases hc : ((2 ^ (d - 1) + Spec.clippedWalk (-2 ^ (d - 1)) (2 ^ (d - 1) - 1) x (t + 1) : ℤ) : ℚ)
      < (((2 ^ (d - 1) : ℕ) : ℤ) : ℚ)
  · rw [ind_true hc]; exact ⟨fun _ => hc, fun _ => rfl⟩
  · rw [ind_false hc]; constructor
    · intro h0; norm_num at h0
    · intro h0; exact absurd h0 hc

private theorem clippedWalk_eq (lo hi : ℤ) (x : ℕ → ℤ) (n : ℕ)
    (h : ∀ k ≤ n, lo ≤ Verif.Spec.walk x k ∧ Verif.Spec.walk x k ≤ hi) :
    Spec.clippedWalk lo hi x n = Verif.Spec.walk x n := by
  induction n with
  | zero => rfl
  | succ n ih =>
      have := ih (fun k hk => h k (by omega))
      have h1 := h (n + 1) (le_refl _)
      rw [Verif.Spec.walk_succ] at h1
      show max lo (min (Spec.clippedWalk lo hi x n + (2 * x n - 1)) hi) = _
      rw [this, Verif.Spec.walk_succ]
      omega

/-- C30: while the running sum stays in the counter range the sign is that of the running sum. -/
theorem C30_sign_in_range (d : ℕ) (hd : 1 ≤ d) (x : ℕ → ℤ) (t : ℕ)
    (h : ∀ k ≤ t + 1, -2 ^ (d - 1) ≤ Verif.Spec.walk x k ∧ Verif.Spec.walk x k ≤ 2 ^ (d - 1) - 1) :
    signOut d x t = 1 ↔ Verif.Spec.walk x (t + 1) < 0 := by
  rw [C30_sign d hd, clippedWalk_eq _ _ _ _ h]

/-- C30: exact value of the absolute-value stream: `|#1 - #0|` of the input plus two for every
return of the running sum to zero from below. -/
theorem C30_abs_value (d : ℕ) (hd : 1 ≤ d) (x : ℕ → ℤ) (hx : Verif.Spec.BitStream x) (n : ℕ)
    (h : ∀ k ≤ n, -2 ^ (d - 1) ≤ Verif.Spec.walk x k ∧ Verif.Spec.walk x k ≤ 2 ^ (d - 1) - 1) :
    Verif.Spec.walk (absOut d x) n = |Verif.Spec.walk x n| +
      2 * ∑ t ∈ range n, ind (Verif.Spec.walk x t = -1 ∧ Verif.Spec.walk x (t + 1) = 0) := by
  induction n with
  | zero => simp
  | succ n ih =>
      have ih' := ih (fun k hk => h k (by omega))
      have hs := C30_sign_in_range d hd x n h
      obtain ⟨hb, -, ha⟩ := C30_xor d x hx n
      rw [Verif.Spec.walk_succ (absOut d x), ih', sum_range_succ, ha]
      have hw := Verif.Spec.walk_succ x n
      generalize ∑ t ∈ range n, (ind (Verif.Spec.walk x t = -1 ∧ Verif.Spec.walk x (t + 1) = 0) : ℤ) = R
      have hxn := hx n
      generalize Verif.Spec.walk x n = W at *
      generalize Verif.Spec.walk x (n + 1) = W' at *
      generalize x n = b at *
      generalize signOut d x n = s at *
      unfold ind
      rcases hb with hb | hb <;> rcases hxn with hxn | hxn <;> subst hb <;> subst hxn <;>
        (try split_ifs) <;> simp only [abs_eq_max_neg] <;> simp at hs <;> omega

/-- Non-vacuity: alternating stream, `depth = 3`. -/
example : ∀ k ≤ 4, -2 ^ (3 - 1) ≤ Verif.Spec.walk (fun t => ((t % 2 : ℕ) : ℤ)) k ∧
    Verif.Spec.walk (fun t => ((t % 2 : ℕ) : ℤ)) k ≤ 2 ^ (3 - 1) - 1 := by
  decide

/-! ## C31 -/

/-- Output of a fresh `FSUReLU`. -/
def reluOut (depth : ℤ) (x : ℕ → ℤ) (t : ℕ) : ℤ := outAt (reluStep depth) (accHalf depth) x t

private theorem lor_bits {s x : ℤ} (hs : IsBit s) (hx : IsBit x) : Int.lor x s = max x s := by
  rcases hs with h | h <;> rcases hx with h' | h' <;> subst h <;> subst h' <;> decide

private theorem reluOut_eq (depth : ℤ) (x : ℕ → ℤ) (hx : Verif.Spec.BitStream x) (t : ℕ) :
    reluOut depth x t = if stateAt (reluStep depth) (accHalf depth) x t ≥ accHalf depth then x t else 1 := by
  have e : reluOut depth x t = Int.lor (x t) (1 - ind (stateAt (reluStep depth) (accHalf depth) x t ≥ accHalf depth)) := rfl
  rw [e]
  split_ifs with h
  · rw [ind_true h, lor_bits (Or.inl (by norm_num)) (hx t)]
    rcases hx t with h | h <;> rw [h] <;> rfl
  · rw [ind_false h, lor_bits (Or.inr (by norm_num)) (hx t)]
    rcases hx t with h | h <;> rw [h] <;> rfl

/-- C31: output bits, dominating the input. -/
theorem C31_dominates (depth : ℤ) (x : ℕ → ℤ) (hx : Verif.Spec.BitStream x) (t : ℕ) :
    IsBit (reluOut depth x t) ∧ x t ≤ reluOut depth x t := by
  rw [reluOut_eq depth x hx]
  split_ifs
  · exact ⟨hx t, le_refl _⟩
  · exact ⟨Or.inr rfl, (hx t).le_one⟩

private theorem relu_state (d : ℕ) (hd : 1 ≤ d) (x : ℕ → ℤ) (hx : Verif.Spec.BitStream x) (n : ℕ) :
    ∃ a : ℤ, stateAt (reluStep d) (accHalf d) x n = ((2 ^ (d - 1) + a : ℤ) : ℚ) ∧
      -1 ≤ a ∧ a ≤ Verif.Spec.walk (reluOut d x) n ∧ a ≤ 2 ^ (d - 1) - 1 := by
  obtain ⟨h1, h2⟩ := half_pow d hd
  have hp : (1:ℤ) ≤ 2 ^ (d - 1) := one_le_pow₀ (by norm_num)
  induction n with
  | zero => exact ⟨0, by rw [stateAt_zero, h1]; simp, by norm_num, by simp, by omega⟩
  | succ n ih =>
      obtain ⟨a, hs, ha1, ha2, ha3⟩ := ih
      have ho := reluOut_eq d x hx n
      have hb := (C31_dominates d x hx n).1
      rw [hs, h1] at ho
      have hge : ((2 ^ (d - 1) + a : ℤ) : ℚ) ≥ (((2 ^ (d - 1) : ℕ) : ℤ) : ℚ) ↔ 0 ≤ a := by
        rw [ge_iff_le, Int.cast_le]; push_cast; constructor <;> intro h <;> linarith
      have hst : stateAt (reluStep d) (accHalf d) x (n + 1)
          = clamp 0 (accMax d) (stateAt (reluStep d) (accHalf d) x n + ((reluOut d x n : ℚ) * 2 - 1)) := rfl
      have e3 : stateAt (reluStep d) (accHalf d) x (n + 1)
          = ((clamp 0 (2 * 2 ^ (d - 1) - 1) (2 ^ (d - 1) + a + (2 * reluOut d x n - 1)) : ℤ) : ℚ) := by
        rw [hst, hs, h2]; unfold clamp; push_cast; ring_nf
      refine ⟨clamp 0 (2 * 2 ^ (d - 1) - 1) (2 ^ (d - 1) + a + (2 * reluOut d x n - 1)) - 2 ^ (d - 1), ?_, ?_, ?_, ?_⟩
      · rw [e3]; congr 1; ring
      all_goals
        simp only [hge] at ho
        unfold clamp
        try rw [Verif.Spec.walk_succ]
        generalize Verif.Spec.walk (reluOut d x) n = W at *
        generalize reluOut d x n = o at *
        generalize (2:ℤ) ^ (d - 1) = H at *
        split_ifs at ho <;> rcases hb with hb | hb <;> subst hb <;> omega

/-- C31: no prefix of the output has a value below zero by more than one bit. -/
theorem C31_nonneg (d : ℕ) (hd : 1 ≤ d) (x : ℕ → ℤ) (hx : Verif.Spec.BitStream x) (n : ℕ) :
    -1 ≤ Verif.Spec.walk (reluOut d x) n := by
  obtain ⟨a, _, h1, h2, _⟩ := relu_state d hd x hx n
  omega

/-- C31: non-negative streams without deep drops pass unchanged. -/
theorem C31_identity (d : ℕ) (hd : 1 ≤ d) (x : ℕ → ℤ) (hx : Verif.Spec.BitStream x) (n : ℕ)
    (hpos : ∀ k < n, 0 ≤ Verif.Spec.walk x k)
    (hdrop : ∀ s k, s ≤ k → k < n → Verif.Spec.walk x s - Verif.Spec.walk x k < 2 ^ (d - 1)) (t : ℕ) (ht : t < n) :
    reluOut d x t = x t := by
  obtain ⟨h1, h2⟩ := half_pow d hd
  have hp : (1:ℤ) ≤ 2 ^ (d - 1) := one_le_pow₀ (by norm_num)
  -- the counter is at least `min (walk) (room + walk - walk s)`
  have key : ∀ k, k < n → ∃ a : ℤ, stateAt (reluStep d) (accHalf d) x k = ((2 ^ (d - 1) + a : ℤ) : ℚ) ∧
      a ≤ 2 ^ (d - 1) - 1 ∧
      (a = Verif.Spec.walk x k ∨ ∃ s ≤ k, a = 2 ^ (d - 1) - 1 + Verif.Spec.walk x k - Verif.Spec.walk x s) ∧ 0 ≤ a := by
    intro k
    induction k with
    | zero => intro _; exact ⟨0, by rw [stateAt_zero, h1]; simp, by omega, Or.inl rfl, le_refl _⟩
    | succ k ih =>
        intro hk
        obtain ⟨a, hs, ha1, ha2, ha3⟩ := ih (by omega)
        have ho := reluOut_eq d x hx k
        rw [hs, h1] at ho
        have hge : ((2 ^ (d - 1) + a : ℤ) : ℚ) ≥ (((2 ^ (d - 1) : ℕ) : ℤ) : ℚ) := by
          rw [ge_iff_le, Int.cast_le]; push_cast; linarith
        rw [if_pos hge] at ho
        have hst : stateAt (reluStep d) (accHalf d) x (k + 1)
            = clamp 0 (accMax d) (stateAt (reluStep d) (accHalf d) x k + ((reluOut d x k : ℚ) * 2 - 1)) := rfl
        have e3 : stateAt (reluStep d) (accHalf d) x (k + 1)
            = ((clamp 0 (2 * 2 ^ (d - 1) - 1) (2 ^ (d - 1) + a + (2 * x k - 1)) : ℤ) : ℚ) := by
          rw [hst, hs, h2, ho]; unfold clamp; push_cast; ring_nf
        have hw := Verif.Spec.walk_succ x k
        have hpk := hpos (k + 1) hk
        have hdk : ∀ s, s ≤ k + 1 → Verif.Spec.walk x s - Verif.Spec.walk x (k + 1) < 2 ^ (d - 1) :=
          fun s hs => hdrop s (k + 1) hs hk
        have hxk := hx k
        by_cases hover : 2 ^ (d - 1) - 1 < a + (2 * x k - 1)
        · refine ⟨2 ^ (d - 1) - 1, ?_, le_refl _, Or.inr ⟨k + 1, le_refl _, by ring⟩, by omega⟩
          rw [e3]; congr 1; unfold clamp; omega
        · have hnn : 0 ≤ a + (2 * x k - 1) := by
            rcases ha2 with ha2 | ⟨s, hsk, ha2⟩
            · omega
            · have := hdk s (by omega); omega
          refine ⟨a + (2 * x k - 1), ?_, by omega, ?_, hnn⟩
          · rw [e3]; congr 1; unfold clamp; omega
          · rcases ha2 with ha2 | ⟨s, hsk, ha2⟩
            · left; omega
            · right; exact ⟨s, by omega, by omega⟩
  obtain ⟨a, hs, -, -, ha⟩ := key t ht
  rw [reluOut_eq d x hx t, hs, h1, if_pos]
  rw [ge_iff_le, Int.cast_le]; push_cast; linarith

/-- C31: the most negative input gives an output of value zero (to within one bit). -/
theorem C31_zero_input (d : ℕ) (hd : 1 ≤ d) (t : ℕ) :
    reluOut d (fun _ => 0) t = ((t % 2 : ℕ) : ℤ) := by
  obtain ⟨h1, h2⟩ := half_pow d hd
  have hx : Verif.Spec.BitStream (fun _ => (0:ℤ)) := fun _ => Or.inl rfl
  have hp : (1:ℚ) ≤ ((2 ^ (d - 1) : ℕ) : ℤ) := by
    have : (1:ℤ) ≤ ((2 ^ (d - 1) : ℕ) : ℤ) := by exact_mod_cast Nat.one_le_two_pow
    exact_mod_cast this
  have key : ∀ t, stateAt (reluStep d) (accHalf d) (fun _ => 0) t = accHalf d - ((t % 2 : ℕ) : ℚ) := by
    intro t
    induction t with
    | zero => simp
    | succ t ih =>
        have ho := reluOut_eq d (fun _ => 0) hx t
        have hst : stateAt (reluStep d) (accHalf d) (fun _ => 0) (t + 1)
            = clamp 0 (accMax d) (stateAt (reluStep d) (accHalf d) (fun _ => 0) t + ((reluOut d (fun _ => 0) t : ℚ) * 2 - 1)) := rfl
        rw [hst, ho, ih]
        have hm : accMax d = 2 * accHalf d - 1 := by rw [h1, h2]; push_cast; ring
        rw [← h1] at hp
        rcases Nat.mod_two_eq_zero_or_one t with h | h
        · have h' : (t + 1) % 2 = 1 := by omega
          rw [h, h', if_pos (by simp), clamp_of_mem]
          · push_cast; ring
          · push_cast; linarith
          · rw [hm]; push_cast; linarith
        · have h' : (t + 1) % 2 = 0 := by omega
          rw [h, h', if_neg (by push_cast; linarith), clamp_of_mem]
          · push_cast; ring
          · push_cast; linarith
          · rw [hm]; push_cast; linarith
  rw [reluOut_eq d _ hx t, key t]
  rcases Nat.mod_two_eq_zero_or_one t with h | h
  · rw [h, if_pos (by simp)]; simp
  · rw [h, if_neg (by push_cast; linarith)]; simp

example : ∀ k < 5, 0 ≤ Verif.Spec.walk (fun t => (((t + 1) % 2 : ℕ) : ℤ)) k ∧
    ∀ s ≤ k, Verif.Spec.walk (fun t => (((t + 1) % 2 : ℕ) : ℤ)) s
      - Verif.Spec.walk (fun t => (((t + 1) % 2 : ℕ) : ℤ)) k < 2 ^ (2 - 1) := by
  decide

/-! ## C32 -/

/-- Output of a fresh `FSUHardsigmoid`. -/
def hardsigmoidOut (cfg : Adder.Cfg) (x : ℕ → ℤ) (t : ℕ) : ℤ :=
  outAt (Adder.hardsigmoidStep cfg) (Adder.init cfg) x t

private theorem hardsigmoid_add (cfg : Adder.Cfg) (x : ℕ → ℤ) (n : ℕ) :
    stateAt (Adder.hardsigmoidStep cfg) (Adder.init cfg) x n
      = stateAt (Adder.step cfg) (Adder.init cfg) (fun t => { xs := [(x t : ℚ), 1] }) n := by
  induction n with
  | zero => rfl
  | succ n ih => rw [stateAt_succ, stateAt_succ, ih]; rfl

/-- C32: `FSUHardsigmoid` is bit for bit `Uni2Bi`, for either mode and every depth and input. -/
theorem C32_sigmoid_uni2bi (mode : String) (depth : ℤ) (cfg : Adder.Cfg)
    (hc : Adder.hardsigmoidMk mode depth = .ok cfg) (x : ℕ → ℤ) (t : ℕ) :
    hardsigmoidOut cfg x t = u2bOut depth x t := by
  have hcfg : ∃ m, cfg = ⟨m, some 2, none, depth⟩ := by
    unfold Adder.hardsigmoidMk Adder.mk at hc
    cases hm : parseMode mode with
    | error e => rw [hm] at hc; cases hc
    | ok m => rw [hm] at hc; exact ⟨m, by cases hc; rfl⟩
  obtain ⟨m, rfl⟩ := hcfg
  set cfg : Adder.Cfg := ⟨m, some 2, none, depth⟩
  set a : ℕ → Adder.Arg := fun t => { xs := [(x t : ℚ), 1] }
  have hS : Spec.addScale cfg a = 2 := by simp [Spec.addScale, cfg, a]
  have hO : Spec.addOffset cfg a = 0 := by
    unfold Spec.addOffset; rw [hS]; simp [Spec.addEntry, cfg, a]
  have hδ : ∀ t, Spec.addDelta cfg a t = (x t : ℚ) + 1 := by
    intro t; unfold Spec.addDelta; rw [hO]; simp [a]
  have hst : ∀ n, addAcc cfg a n = stateAt (Shuffle.uni2biStep depth) 0 x n ∧ addOut cfg a n = u2bOut depth x n := by
    intro n
    have ho : ∀ n, addAcc cfg a n = stateAt (Shuffle.uni2biStep depth) 0 x n → addOut cfg a n = u2bOut depth x n := by
      intro n h
      rw [addOut_eq, hS, hδ, h]; rfl
    induction n with
    | zero => exact ⟨rfl, ho 0 rfl⟩
    | succ n ih =>
        have h1 := C18_single_clamp cfg a (by rw [hS]; norm_num) n
        have : addAcc cfg a (n + 1) = stateAt (Shuffle.uni2biStep depth) 0 x (n + 1) := by
          rw [stateAt_succ]
          show _ = clamp (-Shuffle.accBound depth) (Shuffle.accBound depth) (stateAt (Shuffle.uni2biStep depth) 0 x n + ((x n : ℚ) + 1)) - u2bOut depth x n * 2
          rw [← ih.1, ← ih.2]
          rw [hS, hδ] at h1
          have hB : (2:ℚ) ^ (cfg.depth - 2) = Shuffle.accBound depth := rfl
          rw [hB] at h1
          have hp := accBound_pos depth
          generalize Shuffle.accBound depth = B at *
          have h3 : max (-B) (min (addAcc cfg a n + ((x n : ℚ) + 1)) B) = clamp (-B) B (addAcc cfg a n + ((x n : ℚ) + 1)) := by
            generalize addAcc cfg a n + ((x n : ℚ) + 1) = y
            unfold clamp
            rcases le_total y (-B) with h | h
            · rw [max_eq_right h, min_eq_left (by linarith), min_eq_left (by linarith), max_eq_left h]
            · rw [max_eq_left h, max_eq_right (le_min h (by linarith))]
          rw [h3] at h1
          linarith
        exact ⟨this, ho _ this⟩
  have e : hardsigmoidOut cfg x t = addOut cfg a t := by
    show (Adder.hardsigmoidStep cfg (stateAt (Adder.hardsigmoidStep cfg) (Adder.init cfg) x t) (x t)).2 = _
    rw [hardsigmoid_add]; rfl
  rw [e, (hst t).2]

/-- C32: counts and values of `FSUHardsigmoid` at depth 4 and above: `(x+1)/2`. -/
theorem C32_sigmoid_exact (mode : String) (depth : ℤ) (hd : 4 ≤ depth) (cfg : Adder.Cfg)
    (hc : Adder.hardsigmoidMk mode depth = .ok cfg) (x : ℕ → ℤ) (hx : Verif.Spec.BitStream x) (n : ℕ) :
    Verif.Spec.ones (hardsigmoidOut cfg x) n = (n + Verif.Spec.ones x n) / 2 := by
  have : hardsigmoidOut cfg x = u2bOut depth x := funext fun t => C32_sigmoid_uni2bi mode depth cfg hc x t
  rw [this]; exact C13_exact depth hd x hx n

/-- C32: as values: unipolar `(p+1)/2` and bipolar `(v+1)/2`, to within one bit. -/
theorem C32_sigmoid_value (mode : String) (depth : ℤ) (hd : 4 ≤ depth) (cfg : Adder.Cfg)
    (hc : Adder.hardsigmoidMk mode depth = .ok cfg) (x : ℕ → ℤ) (hx : Verif.Spec.BitStream x) (n : ℕ) (hn : 0 < n) :
    |Verif.Spec.uniValue (hardsigmoidOut cfg x) n - (Verif.Spec.uniValue x n + 1) / 2| ≤ 1 / (2 * n) ∧
    |Verif.Spec.biValue (hardsigmoidOut cfg x) n - (Verif.Spec.biValue x n + 1) / 2| ≤ 1 / n := by
  have hnq : (0:ℚ) < n := by exact_mod_cast hn
  have h1 : (n:ℤ) + Verif.Spec.ones x n - 1 ≤ 2 * Verif.Spec.ones (hardsigmoidOut cfg x) n := by
    have := C32_sigmoid_exact mode depth hd cfg hc x hx n; omega
  have h2 : 2 * Verif.Spec.ones (hardsigmoidOut cfg x) n ≤ (n:ℤ) + Verif.Spec.ones x n := by
    have := C32_sigmoid_exact mode depth hd cfg hc x hx n; omega
  have h1q : (n:ℚ) + Verif.Spec.ones x n - 1 ≤ 2 * Verif.Spec.ones (hardsigmoidOut cfg x) n := by exact_mod_cast h1
  have h2q : 2 * (Verif.Spec.ones (hardsigmoidOut cfg x) n : ℚ) ≤ (n:ℚ) + Verif.Spec.ones x n := by exact_mod_cast h2
  unfold Verif.Spec.uniValue Verif.Spec.biValue
  generalize (Verif.Spec.ones (hardsigmoidOut cfg x) n : ℚ) = o at *
  generalize (Verif.Spec.ones x n : ℚ) = p at *
  constructor
  · have e : o / n - (p / n + 1) / 2 = (2 * o - (n + p)) / (2 * n) := by field_simp; ring
    rw [e, abs_div, abs_of_pos (by positivity : (0:ℚ) < 2 * n)]
    apply div_le_div_of_nonneg_right _ (by positivity)
    rw [abs_le]; constructor <;> linarith
  · have e : 2 * (o / n) - 1 - (2 * (p / n) - 1 + 1) / 2 = (2 * o - (n + p)) / n := by field_simp; ring
    rw [e, abs_div, abs_of_pos hnq]
    apply div_le_div_of_nonneg_right _ hnq.le
    rw [abs_le]; constructor <;> linarith

/-- C32: `HUBHardsigmoid` with the default scale is `(x+1)/2` clipped to `[0,1]`. -/
theorem C32_hub_sigmoid (x : ℚ) :
    hubHardsigmoid 3 x = max 0 (min ((x + 1) / 2) 1) := by
  unfold hubHardsigmoid hardsigmoid clamp
  rcases le_total (x * 3 + 3) 0 with h | h
  · rw [max_eq_right h, min_eq_left (by norm_num), min_eq_left (by linarith), max_eq_left (by linarith)]; norm_num
  · rw [max_eq_left h]
    rcases le_total (x * 3 + 3) 6 with h' | h'
    · rw [min_eq_left h', min_eq_left (by linarith), max_eq_right (by linarith)]; ring
    · rw [min_eq_right h', min_eq_right (by linarith), max_eq_right (by norm_num)]; norm_num

/-- C32: `HUBHardtanh` is the identity on `[-1,1]` and clips outside; `FSUHardtanh` is the identity. -/
theorem C32_tanh (x : ℚ) (b : ℤ) :
    (-1 ≤ x → x ≤ 1 → hubHardtanh x = x) ∧ (x ≤ -1 → hubHardtanh x = -1) ∧ (1 ≤ x → hubHardtanh x = 1) ∧
    fsuHardtanh b = b := by
  refine ⟨fun h1 h2 => clamp_of_mem h1 h2, fun h => clamp_of_le (by norm_num) h, fun h => clamp_of_ge h, rfl⟩

/-- C32: `HUBReLU(scale)` is `max 0 x` clipped at `scale`. -/
theorem C32_hub_relu (scale x : ℚ) (hs : 0 ≤ scale) :
    (0 ≤ x → x ≤ scale → hubReLU scale x = x) ∧ (x ≤ 0 → hubReLU scale x = 0) ∧ (scale ≤ x → hubReLU scale x = scale) := by
  refine ⟨fun h1 h2 => clamp_of_mem h1 h2, fun h => clamp_of_le hs h, fun h => clamp_of_ge h⟩

/-- C32: streaming and hybrid sigmoid agree on the decoded value. -/
theorem C32_agree (mode : String) (depth : ℤ) (hd : 4 ≤ depth) (cfg : Adder.Cfg)
    (hc : Adder.hardsigmoidMk mode depth = .ok cfg) (x : ℕ → ℤ) (hx : Verif.Spec.BitStream x) (n : ℕ) (hn : 0 < n) :
    |Verif.Spec.biValue (hardsigmoidOut cfg x) n - hubHardsigmoid 3 (Verif.Spec.biValue x n)| ≤ 1 / n := by
  have h := (C32_sigmoid_value mode depth hd cfg hc x hx n hn).2
  have hnq : (0:ℚ) < n := by exact_mod_cast hn
  have h0 : (0:ℚ) ≤ Verif.Spec.ones x n := by exact_mod_cast Verif.Spec.ones_nonneg hx n
  have h1 : (Verif.Spec.ones x n : ℚ) ≤ n := by exact_mod_cast Verif.Spec.ones_le hx n
  have a0 : 0 ≤ (Verif.Spec.ones x n : ℚ) / n := div_nonneg h0 hnq.le
  have a1 : (Verif.Spec.ones x n : ℚ) / n ≤ 1 := by rw [div_le_one hnq]; exact h1
  have hv : -1 ≤ Verif.Spec.biValue x n ∧ Verif.Spec.biValue x n ≤ 1 := by
    unfold Verif.Spec.biValue; constructor <;> linarith
  rw [C32_hub_sigmoid, min_eq_left (by linarith [hv.2]), max_eq_right (by linarith [hv.1])]
  exact h

example : ∃ cfg, Adder.hardsigmoidMk "Bipolar" 8 = .ok cfg := by
  have h : parseMode "Bipolar" = .ok .bipolar := by
    unfold parseMode
    rw [if_neg (by decide +kernel), if_pos (by decide +kernel)]
  exact ⟨⟨.bipolar, some 2, none, 8⟩, by unfold Adder.hardsigmoidMk Adder.mk; rw [h]; rfl⟩

end Verif.Props
