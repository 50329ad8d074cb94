import Verif.Spec
import Verif.Model.Add
import Verif.Props.Shuffle
import Mathlib.Algebra.Order.Floor.Ring
import Mathlib.Algebra.BigOperators.Fin
import Mathlib.Algebra.BigOperators.Field

/-!
# Properties C18–C23: the unary adder `FSUAdd`
-/

namespace Verif.Props

open Verif Finset Shuffle Adder

/-- Output bit of call `t` of an `FSUAdd` constructed with `cfg` and called with `a 0, a 1, …`. -/
def addOut (cfg : Cfg) (a : ℕ → Arg) (t : ℕ) : ℤ := outAt (step cfg) (Adder.init cfg) a t

/-- Accumulator content after `n` calls. -/
def addAcc (cfg : Cfg) (a : ℕ → Arg) (n : ℕ) : ℚ := (stateAt (step cfg) (Adder.init cfg) a n).acc

namespace Spec

/-- The entry in force: first call's argument, else configured, else the number of inputs. -/
def addEntry (cfg : Cfg) (a : ℕ → Arg) : ℚ := ((a 0).entry.or cfg.entry).getD (a 0).xs.length

/-- The scale in force: first call's argument, else configured, else the entry. -/
def addScale (cfg : Cfg) (a : ℕ → Arg) : ℚ := ((a 0).scale.or cfg.scale).getD (addEntry cfg a)

/-- The offset subtracted in every cycle. -/
def addOffset (cfg : Cfg) (a : ℕ → Arg) : ℚ :=
  if cfg.mode = .bipolar then (addEntry cfg a - addScale cfg a) / 2 else 0

/-- What a cycle adds: the sum of the inputs minus the offset. -/
def addDelta (cfg : Cfg) (a : ℕ → Arg) (t : ℕ) : ℚ := (a t).xs.sum - addOffset cfg a

end Spec

open Spec (addEntry addScale addOffset addDelta)

private theorem configure_first (cfg : Cfg) (a : ℕ → Arg) :
    configure cfg (Adder.init cfg) (a 0) =
      { first := false, entry := some (addEntry cfg a), scaleCarry := addScale cfg a,
        offset := addOffset cfg a, acc := 0 } := by
  unfold configure Adder.init addOffset addScale addEntry
  cases h1 : (a 0).entry <;> cases h2 : (a 0).scale <;> cases h3 : cfg.entry <;> cases h4 : cfg.scale <;>
    cases h5 : cfg.mode <;> simp_all

theorem add_state_inv (cfg : Cfg) (a : ℕ → Arg) (n : ℕ) :
    configure cfg (stateAt (step cfg) (Adder.init cfg) a n) (a n) =
      { first := false, entry := some (addEntry cfg a), scaleCarry := addScale cfg a,
        offset := addOffset cfg a, acc := addAcc cfg a n } := by
  have key : ∀ n, ∃ s, stateAt (step cfg) (Adder.init cfg) a (n + 1) = s ∧ s.first = false ∧
      s.entry = some (addEntry cfg a) ∧ s.scaleCarry = addScale cfg a ∧ s.offset = addOffset cfg a := by
    intro n
    induction n with
    | zero =>
        refine ⟨_, rfl, ?_⟩
        show (accumulate cfg (configure cfg (Adder.init cfg) (a 0)) (a 0)).1.first = false ∧
          (accumulate cfg (configure cfg (Adder.init cfg) (a 0)) (a 0)).1.entry = _ ∧
          (accumulate cfg (configure cfg (Adder.init cfg) (a 0)) (a 0)).1.scaleCarry = _ ∧
          (accumulate cfg (configure cfg (Adder.init cfg) (a 0)) (a 0)).1.offset = _
        rw [configure_first]
        exact ⟨rfl, rfl, rfl, rfl⟩
    | succ n ih =>
        obtain ⟨s, hs, h1, h2, h3, h4⟩ := ih
        refine ⟨_, rfl, ?_⟩
        have e : stateAt (step cfg) (Adder.init cfg) a (n + 1 + 1)
            = (accumulate cfg (configure cfg s (a (n + 1))) (a (n + 1))).1 := by
          rw [← hs]; rfl
        have ec : configure cfg s (a (n + 1)) = s := by unfold configure; simp [h1]
        rw [e, ec]
        exact ⟨h1, h2, h3, h4⟩
  cases n with
  | zero => exact configure_first cfg a
  | succ n =>
      obtain ⟨s, hs, h1, h2, h3, h4⟩ := key n
      unfold addAcc
      rw [hs]
      have ec : configure cfg s (a (n + 1)) = s := by unfold configure; simp [h1]
      rw [ec]
      cases s; simp_all

theorem addOut_eq (cfg : Cfg) (a : ℕ → Arg) (t : ℕ) :
    addOut cfg a t =
      ind (clamp (-accBound cfg.depth) (accBound cfg.depth) (addAcc cfg a t + addDelta cfg a t) ≥ addScale cfg a) := by
  show (accumulate cfg (configure cfg (stateAt (step cfg) (Adder.init cfg) a t) (a t)) (a t)).2 = _
  rw [add_state_inv]
  rfl

private theorem addAcc_zero (cfg : Cfg) (a : ℕ → Arg) : addAcc cfg a 0 = 0 := rfl

theorem addAcc_succ' (cfg : Cfg) (a : ℕ → Arg) (t : ℕ) :
    addAcc cfg a (t + 1) = clamp (-accBound cfg.depth) (accBound cfg.depth)
      (clamp (-accBound cfg.depth) (accBound cfg.depth) (addAcc cfg a t + addDelta cfg a t)
        - addOut cfg a t * addScale cfg a) := by
  rw [addOut_eq]
  show (accumulate cfg (configure cfg (stateAt (step cfg) (Adder.init cfg) a t) (a t)) (a t)).1.acc = _
  rw [add_state_inv]
  rfl

/-- C18: the output is a bit, whatever the inputs. -/
theorem C18_bit (cfg : Cfg) (a : ℕ → Arg) (t : ℕ) : IsBit (addOut cfg a t) := by
  rw [addOut_eq]; exact isBit_ind _

/-- C18: the accumulator never leaves its range, whatever inputs, scale and mode. -/
theorem C18_bounded (cfg : Cfg) (a : ℕ → Arg) (n : ℕ) : |addAcc cfg a n| ≤ (2:ℚ) ^ (cfg.depth - 2) := by
  have hp := accBound_pos cfg.depth
  cases n with
  | zero => rw [addAcc_zero, abs_zero]; exact hp.le
  | succ n =>
      rw [addAcc_succ', abs_le]
      have h1 := le_clamp (lo := -accBound cfg.depth) (hi := accBound cfg.depth) (x := clamp (-accBound cfg.depth)
        (accBound cfg.depth) (addAcc cfg a n + addDelta cfg a n) - addOut cfg a n * addScale cfg a) (by linarith)
      exact ⟨h1, clamp_le _ _ _⟩

/-- C18: for a non-negative scale the carry never makes the accumulator saturate a second time:
a cycle clips only the freshly accumulated value. -/
theorem C18_single_clamp (cfg : Cfg) (a : ℕ → Arg) (hs : 0 ≤ addScale cfg a) (n : ℕ) :
    addAcc cfg a (n + 1) + addScale cfg a * addOut cfg a n =
      max (-(2:ℚ) ^ (cfg.depth - 2)) (min (addAcc cfg a n + addDelta cfg a n) ((2:ℚ) ^ (cfg.depth - 2))) := by
  have hp := accBound_pos cfg.depth
  have hB : (2:ℚ) ^ (cfg.depth - 2) = accBound cfg.depth := rfl
  rw [hB, addAcc_succ', addOut_eq]
  set B := accBound cfg.depth
  set y := addAcc cfg a n + addDelta cfg a n
  have h1 : -B ≤ clamp (-B) B y := le_clamp (by linarith)
  have h2 : clamp (-B) B y ≤ B := clamp_le _ _ _
  have h3 : max (-B) (min y B) = clamp (-B) B y := by
    unfold clamp
    rcases le_total y (-B) with h | h
    · rw [max_eq_right h, min_eq_left (by linarith), min_eq_left (by linarith), max_eq_left h]
    · rw [max_eq_left h, max_eq_right (le_min h (by linarith))]
  rw [h3]
  by_cases h : clamp (-B) B y ≥ addScale cfg a
  · rw [ind_true h, clamp_of_mem (by push_cast; linarith) (by push_cast; linarith)]; push_cast; ring
  · rw [ind_false h, clamp_of_mem (by push_cast; linarith) (by push_cast; linarith)]; push_cast; ring

/-- Without a negative scale hypothesis the claim fails: a negative scale does re-saturate. -/
theorem C18_negative_scale_resaturates :
    let cfg : Cfg := ⟨.unipolar, some (-5), some 1, 3⟩
    let a : ℕ → Arg := fun _ => { xs := [1] }
    addAcc cfg a 1 + addScale cfg a * addOut cfg a 0 ≠
      max (-(2:ℚ) ^ (cfg.depth - 2)) (min (addAcc cfg a 0 + addDelta cfg a 0) ((2:ℚ) ^ (cfg.depth - 2))) := by
  intro cfg a
  rw [addAcc_succ', addOut_eq]
  norm_num [addAcc_zero, addDelta, addOffset, addScale, addEntry, accBound, cfg, a, ind, clamp,
    show ¬ Mode.unipolar = Mode.bipolar by decide]

example : 0 ≤ addScale ⟨.bipolar, some 1, none, 10⟩ (fun t => { xs := [1, (t % 2 : ℕ), 0] }) := by
  norm_num [addScale]

/-! ## C20 -/

/-- Amount clipped in cycle `t`. -/
def Spec.clipped (B y : ℚ) : ℚ := y - max (-B) (min y B)

/-- C20: exact balance, clipping included. -/
theorem C20_balance (cfg : Cfg) (a : ℕ → Arg) (hs : 0 ≤ addScale cfg a) (n : ℕ) :
    addScale cfg a * Verif.Spec.ones (addOut cfg a) n + addAcc cfg a n =
      ∑ t ∈ range n, (addDelta cfg a t
        - Spec.clipped ((2:ℚ) ^ (cfg.depth - 2)) (addAcc cfg a t + addDelta cfg a t)) := by
  induction n with
  | zero => simp [addAcc_zero]
  | succ n ih =>
      rw [sum_range_succ, ← ih, Verif.Spec.ones_succ]
      have h := C18_single_clamp cfg a hs n
      unfold Spec.clipped
      push_cast; linarith

/-- C20: observable form.  If the ideal residue (delivered minus emitted) plus the cycle's input
never left the range, the accumulator holds exactly that residue. -/
theorem C20_conservation (cfg : Cfg) (a : ℕ → Arg) (hs : 0 ≤ addScale cfg a) (n : ℕ)
    (hsat : ∀ t < n, |∑ k ∈ range (t + 1), addDelta cfg a k - addScale cfg a * Verif.Spec.ones (addOut cfg a) t|
      ≤ (2:ℚ) ^ (cfg.depth - 2)) :
    addScale cfg a * Verif.Spec.ones (addOut cfg a) n + addAcc cfg a n = ∑ t ∈ range n, addDelta cfg a t := by
  induction n with
  | zero => simp [addAcc_zero]
  | succ n ih =>
      have ih' := ih (fun t ht => hsat t (by omega))
      have h := C18_single_clamp cfg a hs n
      have hb := hsat n (by omega)
      rw [sum_range_succ, abs_le] at hb
      rw [sum_range_succ, Verif.Spec.ones_succ]
      rw [min_eq_left (by linarith), max_eq_right (by linarith)] at h
      push_cast at h ih' ⊢; linarith

/-- The call arguments that present `N` bitstreams along the summed dimension. -/
def streamArgs {N : ℕ} (x : Fin N → ℕ → ℤ) (t : ℕ) : Arg := { xs := List.ofFn fun i => (x i t : ℚ) }

private theorem streamArgs_sum {N : ℕ} (x : Fin N → ℕ → ℤ) (t : ℕ) :
    (streamArgs x t).xs.sum = ∑ i, (x i t : ℚ) := by
  unfold streamArgs; rw [List.sum_ofFn]

private theorem delta_sum {N : ℕ} (cfg : Cfg) (x : Fin N → ℕ → ℤ) (n : ℕ) :
    ∑ t ∈ range n, addDelta cfg (streamArgs x) t
      = ∑ i, (Verif.Spec.ones (x i) n : ℚ) - n * addOffset cfg (streamArgs x) := by
  unfold addDelta
  rw [sum_sub_distrib]
  simp only [streamArgs_sum, Verif.Spec.ones, sum_const, card_range, nsmul_eq_mul]
  rw [sum_comm]
  push_cast; rfl

/-- C20 read as values: `scale` times the output value is the sum of the input values up to the
accumulator residue (unipolar: `residue/n`, bipolar: `2·residue/n`). -/
theorem C20_value {N : ℕ} (cfg : Cfg) (x : Fin N → ℕ → ℤ) (hc : cfg.entry = none)
    (hs : 0 ≤ addScale cfg (streamArgs x)) (n : ℕ) (hn : 0 < n)
    (hsat : ∀ t < n, |∑ k ∈ range (t + 1), addDelta cfg (streamArgs x) k
        - addScale cfg (streamArgs x) * Verif.Spec.ones (addOut cfg (streamArgs x)) t| ≤ (2:ℚ) ^ (cfg.depth - 2)) :
    (cfg.mode = .unipolar →
      addScale cfg (streamArgs x) * Verif.Spec.uniValue (addOut cfg (streamArgs x)) n
        = ∑ i, Verif.Spec.uniValue (x i) n - addAcc cfg (streamArgs x) n / n) ∧
    (cfg.mode = .bipolar →
      addScale cfg (streamArgs x) * Verif.Spec.biValue (addOut cfg (streamArgs x)) n
        = ∑ i, Verif.Spec.biValue (x i) n - 2 * addAcc cfg (streamArgs x) n / n) := by
  have h := C20_conservation cfg (streamArgs x) hs n hsat
  rw [delta_sum] at h
  have he : addEntry cfg (streamArgs x) = N := by simp [addEntry, hc, streamArgs]
  have hnq : (n:ℚ) ≠ 0 := by have := hn.ne'; exact_mod_cast this
  constructor
  · intro hm
    have ho : addOffset cfg (streamArgs x) = 0 := by simp [addOffset, hm]
    rw [ho] at h
    unfold Verif.Spec.uniValue
    rw [← sum_div]
    field_simp
    linarith
  · intro hm
    have ho : addOffset cfg (streamArgs x) = (N - addScale cfg (streamArgs x)) / 2 := by
      simp [addOffset, hm, he]
    rw [ho] at h
    unfold Verif.Spec.biValue
    rw [sum_sub_distrib, ← mul_sum, ← sum_div]
    simp only [sum_const, card_univ, Fintype.card_fin, nsmul_eq_mul, mul_one]
    field_simp
    linarith

/-- Non-vacuity: two alternating streams, non-scaled bipolar: the hypotheses of `C20_value` hold. -/
example : (0:ℚ) ≤ addScale ⟨.bipolar, some 1, none, 10⟩ (streamArgs (N := 2) fun i t => (t + i) % 2) := by
  norm_num [addScale, streamArgs]

/-! ## C19 -/

/-- C19: scaled addition is exact in every prefix, for both modes. -/
theorem C19_exact {N : ℕ} (hN : 0 < N) (cfg : Cfg) (hsc : cfg.scale = none) (hen : cfg.entry = none)
    (hd : (2 * N - 1 : ℚ) ≤ (2:ℚ) ^ (cfg.depth - 2)) (x : Fin N → ℕ → ℤ)
    (hx : ∀ i, Verif.Spec.BitStream (x i)) (n : ℕ) :
    Verif.Spec.ones (addOut cfg (streamArgs x)) n = (∑ i, Verif.Spec.ones (x i) n) / (N : ℤ) := by
  have he : addEntry cfg (streamArgs x) = N := by simp [addEntry, hen, streamArgs]
  have hS : addScale cfg (streamArgs x) = N := by
    unfold addScale; rw [hsc, he]; simp [streamArgs]
  have hO : addOffset cfg (streamArgs x) = 0 := by
    unfold addOffset; rw [he, hS]; simp
  have hNq : (1:ℚ) ≤ N := by exact_mod_cast hN
  set B := (2:ℚ) ^ (cfg.depth - 2) with hB
  have hδ : ∀ t, addDelta cfg (streamArgs x) t = ((∑ i, x i t : ℤ) : ℚ) := by
    intro t; unfold addDelta; rw [hO, streamArgs_sum]; push_cast; ring
  have hsum : ∀ t, 0 ≤ ∑ i, x i t ∧ ∑ i, x i t ≤ N := by
    intro t
    refine ⟨sum_nonneg fun i _ => (hx i t).nonneg, ?_⟩
    calc ∑ i, x i t ≤ ∑ _i : Fin N, (1:ℤ) := sum_le_sum fun i _ => (hx i t).le_one
      _ = N := by simp
  have inv : ∀ n, ∃ r : ℤ, addAcc cfg (streamArgs x) n = r ∧ 0 ≤ r ∧ r < N ∧
      N * Verif.Spec.ones (addOut cfg (streamArgs x)) n + r = ∑ i, Verif.Spec.ones (x i) n := by
    intro n
    induction n with
    | zero => exact ⟨0, by simp [addAcc_zero], le_refl _, by exact_mod_cast hN, by simp⟩
    | succ n ih =>
        obtain ⟨r, hr, h0, h1, h2⟩ := ih
        have h := C18_single_clamp cfg (streamArgs x) (by rw [hS]; linarith) n
        have hout := addOut_eq cfg (streamArgs x) n
        obtain ⟨k0, k1⟩ := hsum n
        have hy : addAcc cfg (streamArgs x) n + addDelta cfg (streamArgs x) n = ((r + ∑ i, x i n : ℤ) : ℚ) := by
          rw [hr, hδ]; push_cast; ring
        rw [hy] at h hout
        have hle : ((r + ∑ i, x i n : ℤ) : ℚ) ≤ B := by
          have : r + ∑ i, x i n ≤ 2 * N - 1 := by omega
          have : ((r + ∑ i, x i n : ℤ) : ℚ) ≤ ((2 * N - 1 : ℤ) : ℚ) := by exact_mod_cast this
          push_cast at this ⊢; linarith
        have hge : (0:ℚ) ≤ ((r + ∑ i, x i n : ℤ) : ℚ) := by
          have : 0 ≤ r + ∑ i, x i n := by omega
          exact_mod_cast this
        rw [← hB, min_eq_left hle, max_eq_right (by linarith), hS] at h
        have hB' : accBound cfg.depth = B := rfl
        rw [hB', clamp_of_mem (by linarith) hle, hS] at hout
        have hsucc : ∑ i, Verif.Spec.ones (x i) (n + 1) = ∑ i, Verif.Spec.ones (x i) n + ∑ i, x i n := by
          rw [← sum_add_distrib]; exact sum_congr rfl fun i _ => Verif.Spec.ones_succ _ _
        rw [hsucc, Verif.Spec.ones_succ, ← h2]
        by_cases hc : (N:ℤ) ≤ r + ∑ i, x i n
        · rw [ind_true (by show (N:ℚ) ≤ _; exact_mod_cast hc)] at hout
          refine ⟨r + ∑ i, x i n - N, ?_, by omega, by omega, by rw [hout]; ring⟩
          rw [hout] at h
          push_cast at h ⊢; linarith
        · rw [ind_false (by show ¬ (N:ℚ) ≤ _; exact_mod_cast hc)] at hout
          refine ⟨r + ∑ i, x i n, ?_, by omega, by omega, by rw [hout]; ring⟩
          rw [hout] at h
          push_cast at h ⊢; linarith
  obtain ⟨r, hr, h0, h1, h2⟩ := inv n
  rw [← h2]
  rw [add_comm, Int.add_mul_ediv_left _ _ (by omega), Int.ediv_eq_zero_of_lt h0 h1, zero_add]

/-- C19: hence the output value is the mean of the input values, to within one (two) over `n`. -/
theorem C19_value {N : ℕ} (hN : 0 < N) (cfg : Cfg) (hsc : cfg.scale = none) (hen : cfg.entry = none)
    (hd : (2 * N - 1 : ℚ) ≤ (2:ℚ) ^ (cfg.depth - 2)) (x : Fin N → ℕ → ℤ)
    (hx : ∀ i, Verif.Spec.BitStream (x i)) (n : ℕ) (hn : 0 < n) :
    |Verif.Spec.uniValue (addOut cfg (streamArgs x)) n - (∑ i, Verif.Spec.uniValue (x i) n) / N| < 1 / n ∧
    |Verif.Spec.biValue (addOut cfg (streamArgs x)) n - (∑ i, Verif.Spec.biValue (x i) n) / N| < 2 / n := by
  have h := C19_exact hN cfg hsc hen hd x hx n
  have hNq : (0:ℚ) < N := by exact_mod_cast hN
  have hnq : (0:ℚ) < n := by exact_mod_cast hn
  set T := ∑ i, Verif.Spec.ones (x i) n with hT
  set o := Verif.Spec.ones (addOut cfg (streamArgs x)) n with ho
  have hN0 : (0:ℤ) < N := by exact_mod_cast hN
  have h1 : (N:ℤ) * o ≤ T := by
    have := Int.ediv_mul_le T hN0.ne'; rw [h]; linarith
  have h2 : T < (N:ℤ) * (o + 1) := by
    have := Int.lt_ediv_add_one_mul_self T hN0; rw [h]; linarith
  have h1q : (N:ℚ) * o ≤ T := by exact_mod_cast h1
  have h2q : (T:ℚ) < N * (o + 1) := by exact_mod_cast h2
  have hTq : ∑ i, (Verif.Spec.ones (x i) n : ℚ) = T := by rw [hT]; push_cast; rfl
  have hu : |Verif.Spec.uniValue (addOut cfg (streamArgs x)) n - (∑ i, Verif.Spec.uniValue (x i) n) / N| < 1 / n := by
    unfold Verif.Spec.uniValue
    rw [← sum_div, hTq, ← ho]
    have e : (o:ℚ) / n - T / n / N = (N * o - T) / (n * N) := by field_simp
    rw [e, abs_div, abs_of_pos (mul_pos hnq hNq), div_lt_div_iff₀ (mul_pos hnq hNq) hnq, abs_of_nonpos (by linarith)]
    nlinarith
  refine ⟨hu, ?_⟩
  have e : Verif.Spec.biValue (addOut cfg (streamArgs x)) n - (∑ i, Verif.Spec.biValue (x i) n) / N
      = 2 * (Verif.Spec.uniValue (addOut cfg (streamArgs x)) n - (∑ i, Verif.Spec.uniValue (x i) n) / N) := by
    unfold Verif.Spec.biValue Verif.Spec.uniValue
    rw [sum_sub_distrib, ← mul_sum]
    simp only [sum_const, card_univ, Fintype.card_fin, nsmul_eq_mul, mul_one]
    field_simp; ring
  rw [e, abs_mul, abs_of_pos (by norm_num : (0:ℚ) < 2)]
  calc _ < 2 * (1 / (n:ℚ)) := by linarith
    _ = _ := by ring

/-- The depth bound of `C19_exact` is sharp: below it some history gets a wrong count. -/
theorem C19_too_shallow {N : ℕ} (hN : 0 < N) (cfg : Cfg) (hsc : cfg.scale = none) (hen : cfg.entry = none)
    (hd : (2:ℚ) ^ (cfg.depth - 2) < (2 * N - 1 : ℚ)) :
    ∃ x : Fin N → ℕ → ℤ, (∀ i, Verif.Spec.BitStream (x i)) ∧
      Verif.Spec.ones (addOut cfg (streamArgs x)) 3 < (∑ i, Verif.Spec.ones (x i) 3) / (N : ℤ) := by
  let x : Fin N → ℕ → ℤ := fun i t => if t = 1 then 1 else if t = 0 then ind (i.1 ≠ 0) else ind (i.1 = 0)
  refine ⟨x, ?_, ?_⟩
  · intro i t
    show IsBit (if t = 1 then (1:ℤ) else if t = 0 then ind (i.1 ≠ 0) else ind (i.1 = 0))
    split_ifs
    · exact Or.inr rfl
    · exact isBit_ind _
    · exact isBit_ind _
  have he : addEntry cfg (streamArgs x) = N := by simp [addEntry, hen, streamArgs]
  have hS : addScale cfg (streamArgs x) = N := by
    unfold addScale; rw [hsc, he]; simp [streamArgs]
  have hO : addOffset cfg (streamArgs x) = 0 := by
    unfold addOffset; rw [he, hS]; simp
  have hNq : (1:ℚ) ≤ N := by exact_mod_cast hN
  have hδ : ∀ t, addDelta cfg (streamArgs x) t = ((∑ i, x i t : ℤ) : ℚ) := by
    intro t; unfold addDelta; rw [hO, streamArgs_sum]; push_cast; ring
  have s2 : ∑ i, x i 2 = 1 := by
    show ∑ i : Fin N, (ind (i.1 = 0) : ℤ) = 1
    rw [Finset.sum_eq_single (⟨0, hN⟩ : Fin N)]
    · simp [ind]
    · intro b _ hb
      apply ind_false
      intro h; exact hb (Fin.ext h)
    · intro h; exact absurd (mem_univ _) h
  have s0 : ∑ i, x i 0 = N - 1 := by
    have : ∑ i, x i 0 + ∑ i, x i 2 = N := by
      rw [← sum_add_distrib]
      have : ∀ i ∈ (univ : Finset (Fin N)), x i 0 + x i 2 = 1 := by
        intro i _
        show (ind (i.1 ≠ 0) : ℤ) + ind (i.1 = 0) = 1
        by_cases h : i.1 = 0 <;> simp [ind, h]
      rw [sum_congr rfl this]; simp
    omega
  have s1 : ∑ i, x i 1 = N := by
    show ∑ _i : Fin N, (1:ℤ) = N
    simp
  have hT : ∑ i, Verif.Spec.ones (x i) 3 = 2 * N := by
    have : ∀ i ∈ (univ : Finset (Fin N)), Verif.Spec.ones (x i) 3 = x i 0 + x i 1 + x i 2 := by
      intro i _; simp [Verif.Spec.ones, sum_range_succ]
    rw [sum_congr rfl this, sum_add_distrib, sum_add_distrib, s0, s1, s2]; ring
  rw [hT, Int.mul_ediv_cancel _ (by omega)]
  have hs : 0 ≤ addScale cfg (streamArgs x) := by rw [hS]; linarith
  have c0 := C18_single_clamp cfg (streamArgs x) hs 0
  have c1 := C18_single_clamp cfg (streamArgs x) hs 1
  have c2 := C18_single_clamp cfg (streamArgs x) hs 2
  have o2 := addOut_eq cfg (streamArgs x) 2
  have o1 := addOut_eq cfg (streamArgs x) 1
  have o0 := addOut_eq cfg (streamArgs x) 0
  have hB : accBound cfg.depth = (2:ℚ) ^ (cfg.depth - 2) := rfl
  have hBp := accBound_pos cfg.depth
  simp only [hδ, s0, s1, s2, hS, addAcc_zero, Nat.reduceAdd, zero_add] at c0 c1 c2 o0 o1 o2
  rw [hB] at o0 o1 o2 hBp
  set B := (2:ℚ) ^ (cfg.depth - 2)
  push_cast at c0 c1 c2 o0 o1 o2
  have hlt : ∀ y : ℚ, y < N → ¬ clamp (-B) B y ≥ (N:ℚ) := by
    intro y hy h
    unfold clamp at h
    have h' := le_trans h (min_le_left _ _)
    rcases le_max_iff.1 h' with h'' | h'' <;> linarith
  have e0 : addOut cfg (streamArgs x) 0 = 0 := by
    rw [o0, ind_false (hlt _ (by linarith))]
  rw [e0] at c0
  have a1 : addAcc cfg (streamArgs x) 1 ≤ N - 1 := by
    have : max (-B) (min ((N:ℚ) - 1) B) ≤ N - 1 := max_le (by linarith) (min_le_left _ _)
    push_cast at c0; linarith
  have e2 : addOut cfg (streamArgs x) 2 = 0 ∨ addOut cfg (streamArgs x) 1 = 0 := by
    rcases C18_bit cfg (streamArgs x) 1 with h1 | h1
    · exact Or.inr h1
    · left
      rw [h1] at c1
      have : max (-B) (min (addAcc cfg (streamArgs x) 1 + (N:ℚ)) B) ≤ B :=
        max_le (by linarith) (min_le_right _ _)
      rw [o2, ind_false (hlt _ _)]
      push_cast at c1; linarith
  have b1 := (C18_bit cfg (streamArgs x) 1).le_one
  have b2 := (C18_bit cfg (streamArgs x) 2).le_one
  have : Verif.Spec.ones (addOut cfg (streamArgs x)) 3
      = addOut cfg (streamArgs x) 0 + addOut cfg (streamArgs x) 1 + addOut cfg (streamArgs x) 2 := by
    simp [Verif.Spec.ones, sum_range_succ]
  rw [this, e0]
  omega

/-- Non-vacuity of the depth bounds. -/
example : (2 * (4:ℕ) - 1 : ℚ) ≤ (2:ℚ) ^ ((5:ℤ) - 2) ∧ (2:ℚ) ^ ((4:ℤ) - 2) < (2 * (4:ℕ) - 1 : ℚ) := by
  norm_num

/-! ## C21 -/

/-- C21: an accumulator that cannot reach the scale emits nothing, ever. -/
theorem C21_silent (cfg : Cfg) (a : ℕ → Arg) (h : (2:ℚ) ^ (cfg.depth - 2) < addScale cfg a) (t : ℕ) :
    addOut cfg a t = 0 := by
  rw [addOut_eq]
  apply ind_false
  intro hge
  have := clamp_le (-accBound cfg.depth) (accBound cfg.depth) (addAcc cfg a t + addDelta cfg a t)
  have hB : accBound cfg.depth = (2:ℚ) ^ (cfg.depth - 2) := rfl
  rw [hB] at this hge; linarith

/-- C21: conversely a scale the accumulator can hold is reached by some history. -/
theorem C21_not_silent (cfg : Cfg) (S : ℚ) (hc : cfg.scale = some S) (h : S ≤ (2:ℚ) ^ (cfg.depth - 2)) :
    ∃ a : ℕ → Arg, addOut cfg a 0 = 1 := by
  let E : ℚ := (cfg.entry).getD 1
  let O : ℚ := if cfg.mode = .bipolar then (E - S) / 2 else 0
  refine ⟨fun _ => { xs := [(2:ℚ) ^ (cfg.depth - 2) + O] }, ?_⟩
  rw [addOut_eq]
  have hB : accBound cfg.depth = (2:ℚ) ^ (cfg.depth - 2) := rfl
  have e1 : addEntry cfg (fun _ => { xs := [(2:ℚ) ^ (cfg.depth - 2) + O] }) = E := by
    simp [addEntry, E]
  have e2 : addScale cfg (fun _ => { xs := [(2:ℚ) ^ (cfg.depth - 2) + O] }) = S := by
    simp [addScale, hc]
  have e3 : addOffset cfg (fun _ => { xs := [(2:ℚ) ^ (cfg.depth - 2) + O] }) = O := by
    unfold addOffset; rw [e1, e2]
  apply ind_true
  rw [e2, addAcc_zero, hB]
  unfold addDelta
  rw [e3]
  simp only [List.sum_cons, List.sum_nil, add_zero, zero_add, add_sub_cancel_right]
  have := accBound_pos cfg.depth
  rw [hB] at this
  rw [clamp_of_ge (le_refl _)]; exact h

/-- Non-vacuity: the default depth 12 adder of a linear layer with 2000 inputs is silent. -/
example : (2:ℚ) ^ ((12:ℤ) - 2) < addScale ⟨.bipolar, none, none, 12⟩ (fun _ => { xs := List.replicate 2000 1 }) := by
  norm_num [addScale, addEntry]

/-! ## C22 -/

/-- C22: an adder called with arbitrary optional arguments behaves like the adder configured with
the scale and entry in force and called without them; in particular only the arguments of the
first call matter. -/
theorem C22_resolved (cfg : Cfg) (a : ℕ → Arg) (t : ℕ) :
    addOut cfg a t =
      addOut { cfg with scale := some (addScale cfg a), entry := some (addEntry cfg a) }
        (fun k => { xs := (a k).xs }) t := by
  set cfg' : Cfg := { cfg with scale := some (addScale cfg a), entry := some (addEntry cfg a) }
  set a' : ℕ → Arg := fun k => { xs := (a k).xs }
  have e1 : addEntry cfg' a' = addEntry cfg a := by simp [addEntry, cfg', a']
  have e2 : addScale cfg' a' = addScale cfg a := by simp [addScale, cfg', a']
  have e3 : addOffset cfg' a' = addOffset cfg a := by unfold addOffset; rw [e1, e2]
  have e4 : ∀ k, addDelta cfg' a' k = addDelta cfg a k := by intro k; unfold addDelta; rw [e3]
  have hacc : ∀ n, addAcc cfg' a' n = addAcc cfg a n := by
    intro n
    induction n with
    | zero => rfl
    | succ n ih => rw [addAcc_succ', addAcc_succ', addOut_eq, addOut_eq, ih, e2, e4]
  rw [addOut_eq, addOut_eq, hacc, e2, e4]

/-- C22: two call sequences with the same inputs and the same first-call arguments produce the
same outputs, whatever scale and entry the later calls pass. -/
theorem C22_frozen (cfg : Cfg) (a b : ℕ → Arg) (h0 : a 0 = b 0) (hx : ∀ t, (a t).xs = (b t).xs) (t : ℕ) :
    addOut cfg a t = addOut cfg b t := by
  rw [C22_resolved cfg a, C22_resolved cfg b]
  have e1 : addEntry cfg a = addEntry cfg b := by unfold addEntry; rw [h0]
  have e2 : addScale cfg a = addScale cfg b := by unfold addScale; rw [h0, e1]
  rw [e1, e2]
  simp only [hx]

example : ∃ a b : ℕ → Arg, a 0 = b 0 ∧ (∀ t, (a t).xs = (b t).xs) ∧ a ≠ b :=
  ⟨fun _ => { xs := [1] }, fun t => { xs := [1], scale := if t = 0 then none else some 3 }, rfl, fun _ => rfl, by
    intro h; have := congrFun h 1; simp at this⟩

/-- C22: an unknown mode is rejected at construction. -/
theorem C22_mode (mode : String) (scale entry : Option ℚ) (depth : ℤ)
    (h : mode.toLower ≠ "unipolar") (h' : mode.toLower ≠ "bipolar") :
    Adder.mk mode scale entry depth = .error .assertion := by
  unfold Adder.mk parseMode; simp [h, h']

/-! ## C23 -/

/-- C23: more input never means fewer output ones, saturation included. -/
theorem C23_monotone (cfg : Cfg) (a b : ℕ → Arg) (hs : 0 < addScale cfg a)
    (he : addEntry cfg a = addEntry cfg b) (hsc : addScale cfg a = addScale cfg b)
    (hab : ∀ t, (a t).xs.sum ≤ (b t).xs.sum) (n : ℕ) :
    Verif.Spec.ones (addOut cfg a) n ≤ Verif.Spec.ones (addOut cfg b) n := by
  have hO : addOffset cfg a = addOffset cfg b := by unfold addOffset; rw [he, hsc]
  have hδ : ∀ t, addDelta cfg a t ≤ addDelta cfg b t := by
    intro t; unfold addDelta; rw [hO]; linarith [hab t]
  have hs' : 0 < addScale cfg b := by rw [← hsc]; exact hs
  suffices h : ∀ n, Verif.Spec.ones (addOut cfg a) n ≤ Verif.Spec.ones (addOut cfg b) n ∧
      addScale cfg a * Verif.Spec.ones (addOut cfg a) n + addAcc cfg a n
        ≤ addScale cfg a * Verif.Spec.ones (addOut cfg b) n + addAcc cfg b n from (h n).1
  intro n
  induction n with
  | zero => simp [addAcc_zero]
  | succ n ih =>
      obtain ⟨h1, h2⟩ := ih
      have ca := C18_single_clamp cfg a hs.le n
      have cb := C18_single_clamp cfg b hs'.le n
      have oa := addOut_eq cfg a n
      have ob := addOut_eq cfg b n
      rw [← hsc] at cb ob
      have hBp := accBound_pos cfg.depth
      have hB : accBound cfg.depth = (2:ℚ) ^ (cfg.depth - 2) := rfl
      rw [hB] at oa ob hBp
      set B := (2:ℚ) ^ (cfg.depth - 2)
      set S := addScale cfg a
      set D := Verif.Spec.ones (addOut cfg b) n - Verif.Spec.ones (addOut cfg a) n with hD
      have hDq : (D:ℚ) = Verif.Spec.ones (addOut cfg b) n - Verif.Spec.ones (addOut cfg a) n := by
        rw [hD]; push_cast; rfl
      have hDn : (0:ℚ) ≤ D := by
        have : 0 ≤ D := by omega
        exact_mod_cast this
      have hSD : 0 ≤ S * D := mul_nonneg hs.le hDn
      have hacc : addAcc cfg a n ≤ addAcc cfg b n + S * D := by rw [hDq]; nlinarith
      have hy : addAcc cfg a n + addDelta cfg a n ≤ addAcc cfg b n + addDelta cfg b n + S * D := by
        linarith [hδ n]
      have hpre : max (-B) (min (addAcc cfg a n + addDelta cfg a n) B)
          ≤ max (-B) (min (addAcc cfg b n + addDelta cfg b n) B) + S * D := by
        apply max_le
        · have := le_max_left (-B) (min (addAcc cfg b n + addDelta cfg b n) B); linarith
        · rcases le_total (addAcc cfg b n + addDelta cfg b n) B with h | h
          · rw [min_eq_left h]
            have := le_max_right (-B) (addAcc cfg b n + addDelta cfg b n)
            have := min_le_left (addAcc cfg a n + addDelta cfg a n) B
            linarith
          · rw [min_eq_right h]
            have := le_max_right (-B) B
            have := min_le_right (addAcc cfg a n + addDelta cfg a n) B
            linarith
      rw [Verif.Spec.ones_succ (addOut cfg a), Verif.Spec.ones_succ (addOut cfg b)]
      constructor
      · have ba := (C18_bit cfg a n).le_one
        have bb := (C18_bit cfg b n).nonneg
        rcases eq_or_lt_of_le h1 with heq | hlt
        · have hD0 : D = 0 := by omega
          rw [hD0] at hy
          have hy' : addAcc cfg a n + addDelta cfg a n ≤ addAcc cfg b n + addDelta cfg b n := by
            push_cast at hy; linarith
          have hcl : clamp (-B) B (addAcc cfg a n + addDelta cfg a n) ≤ clamp (-B) B (addAcc cfg b n + addDelta cfg b n) :=
            clamp_mono hy'
          have : addOut cfg a n ≤ addOut cfg b n := by
            rw [oa, ob]
            by_cases hh : clamp (-B) B (addAcc cfg a n + addDelta cfg a n) ≥ S
            · rw [ind_true hh, ind_true (le_trans hh hcl)]
            · rw [ind_false hh]; exact (isBit_ind _).nonneg
          omega
        · omega
      · have e : S * D = S * Verif.Spec.ones (addOut cfg b) n - S * Verif.Spec.ones (addOut cfg a) n := by
          rw [hDq]; ring
        push_cast at ca cb ⊢
        linarith

example : ∃ a b : ℕ → Arg, (∀ t, (a t).xs.sum ≤ (b t).xs.sum) ∧
    addScale ⟨.unipolar, some 2, none, 10⟩ a = addScale ⟨.unipolar, some 2, none, 10⟩ b ∧
    addEntry ⟨.unipolar, some 2, none, 10⟩ a = addEntry ⟨.unipolar, some 2, none, 10⟩ b :=
  ⟨fun _ => { xs := [1, 0] }, fun _ => { xs := [1, 1] }, fun _ => by norm_num, rfl, rfl⟩

end Verif.Props
