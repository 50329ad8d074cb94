import Verif.Props.Div
import Verif.Props.Sqrt
import Verif.Props.Small
import Verif.Props.Mul
import Mathlib.Algebra.BigOperators.Fin
import Mathlib.Algebra.BigOperators.Field
import Mathlib.Algebra.Order.BigOperators.Ring.Finset
import Mathlib.Data.Fin.Tuple.Basic

/-!
# Random streams (C101)

What modules compute on average when the bits of their inputs are independent random bits.  Averages are finite sums over all
inputs of a given length, weighted with their probability.
-/

namespace Verif.Props

open Verif Finset Small Shuffle Divider

/-- The stream that starts with the given cycles and goes on with `d`. -/
def Spec.tossed {α : Type} {n : ℕ} (d : α) (x : Fin n → α) (t : ℕ) : α := if h : t < n then x ⟨t, h⟩ else d

/-- Mean of `f` over `n` independent cycles, each of which is `a` with probability `w a`. -/
def Spec.mean {α : Type} [Fintype α] (d : α) (w : α → ℚ) (n : ℕ) (f : (ℕ → α) → ℚ) : ℚ :=
  ∑ x : Fin n → α, (∏ i, w (x i)) * f (Spec.tossed d x)

/-- One with probability `p`. -/
def Spec.coin (p : ℚ) (b : Bool) : ℚ := if b then p else 1 - p

/-- Two independent bits. -/
def Spec.twoCoins (p r : ℚ) (b : Bool × Bool) : ℚ := Spec.coin p b.1 * Spec.coin r b.2

/-- The bit as a number. -/
def Spec.bit (b : Bool) : ℤ := if b then 1 else 0

/-- The value of a call that does not raise. -/
def Spec.value : Except PyErr ℤ → ℚ
  | .ok v => v
  | .error _ => 0

/-! ### Means -/

section mean

variable {α : Type} [Fintype α] (d : α) (w : α → ℚ)

theorem mean_succ (n : ℕ) (f : (ℕ → α) → ℚ) :
    Spec.mean d w (n + 1) f = ∑ a, w a * Spec.mean d w n fun x => f (Function.update x n a) := by
  unfold Spec.mean
  rw [← (Fin.snocEquiv fun _ => α).sum_comp, Fintype.sum_prod_type]
  refine Finset.sum_congr rfl fun a _ => ?_
  rw [Finset.mul_sum]
  refine Finset.sum_congr rfl fun x _ => ?_
  have h : Spec.tossed d ((Fin.snocEquiv fun _ => α) (a, x)) = Function.update (Spec.tossed d x) n a := by
    funext t
    unfold Spec.tossed
    by_cases h1 : t < n
    · rw [Function.update_of_ne (by omega), dif_pos (by omega), dif_pos h1]
      exact Fin.snoc_castSucc (α := fun _ => α) a x ⟨t, h1⟩
    · by_cases h2 : t = n
      · subst h2
        rw [Function.update_self, dif_pos (by omega)]
        exact Fin.snoc_last (α := fun _ => α) a x
      · rw [Function.update_of_ne h2, dif_neg (by omega), dif_neg h1]
  have h2 : ∏ i, w ((Fin.snocEquiv fun _ => α) (a, x) i) = (∏ i, w (x i)) * w a := by
    rw [Fin.prod_univ_castSucc]
    simp only [Fin.snocEquiv_apply, Fin.snoc_castSucc, Fin.snoc_last]
  rw [h, h2]; ring

theorem mean_zero (f : (ℕ → α) → ℚ) : Spec.mean d w 0 f = f fun _ => d := by
  unfold Spec.mean
  rw [Fintype.sum_unique]
  simp only [Finset.univ_eq_empty, Finset.prod_empty, one_mul]
  congr 1

theorem mean_add (n : ℕ) (f g : (ℕ → α) → ℚ) : Spec.mean d w n (fun x => f x + g x) = Spec.mean d w n f + Spec.mean d w n g := by
  unfold Spec.mean; rw [← Finset.sum_add_distrib]; exact Finset.sum_congr rfl fun x _ => by ring

theorem mean_mul (n : ℕ) (c : ℚ) (f : (ℕ → α) → ℚ) : Spec.mean d w n (fun x => c * f x) = c * Spec.mean d w n f := by
  unfold Spec.mean; rw [Finset.mul_sum]; exact Finset.sum_congr rfl fun x _ => by ring

theorem mean_sub (n : ℕ) (f g : (ℕ → α) → ℚ) : Spec.mean d w n (fun x => f x - g x) = Spec.mean d w n f - Spec.mean d w n g := by
  unfold Spec.mean; rw [← Finset.sum_sub_distrib]; exact Finset.sum_congr rfl fun x _ => by ring

variable {w}

theorem mean_const (hw : ∑ a, w a = 1) (n : ℕ) (c : ℚ) : Spec.mean d w n (fun _ => c) = c := by
  induction n with
  | zero => rw [mean_zero]
  | succ n ih => rw [mean_succ]; simp only [ih]; rw [← Finset.sum_mul, hw, one_mul]

/-- Later cycles do not matter. -/
theorem mean_prefix (hw : ∑ a, w a = 1) {n : ℕ} {f : (ℕ → α) → ℚ} (hf : ∀ x a, f (Function.update x n a) = f x) :
    Spec.mean d w (n + 1) f = Spec.mean d w n f := by
  rw [mean_succ]; simp only [hf]; rw [← Finset.sum_mul, hw, one_mul]

theorem mean_mono (hw : ∀ a, 0 ≤ w a) (n : ℕ) {f g : (ℕ → α) → ℚ} (h : ∀ x, f x ≤ g x) : Spec.mean d w n f ≤ Spec.mean d w n g :=
  Finset.sum_le_sum fun _ _ => mul_le_mul_of_nonneg_left (h _) (Finset.prod_nonneg fun _ _ => hw _)

end mean

theorem coin_sum (p : ℚ) : ∑ a, Spec.coin p a = 1 := by
  rw [Fintype.sum_bool]; simp [Spec.coin]

theorem twoCoins_sum (p r : ℚ) : ∑ a, Spec.twoCoins p r a = 1 := by
  rw [Fintype.sum_prod_type]
  simp only [Fintype.sum_bool, Spec.twoCoins, Spec.coin]
  norm_num; ring

theorem twoCoins_nonneg {p r : ℚ} (h0 : 0 ≤ p) (h1 : p ≤ 1) (h2 : 0 ≤ r) (h3 : r ≤ 1) (a : Bool × Bool) : 0 ≤ Spec.twoCoins p r a := by
  unfold Spec.twoCoins Spec.coin
  refine mul_nonneg ?_ ?_ <;> split_ifs <;> linarith

theorem bit_isBit (b : Bool) : IsBit (Spec.bit b) := by cases b <;> simp [Spec.bit, IsBit]

theorem stateAt_agree {S I O : Type} (step : S → I → S × O) (s0 : S) (x y : ℕ → I) (n : ℕ) (h : ∀ t < n, x t = y t) :
    stateAt step s0 x n = stateAt step s0 y n := by
  induction n with
  | zero => rfl
  | succ n ih => rw [stateAt_succ, stateAt_succ, ih fun t ht => h t (by omega), h n (by omega)]

/-! ### Flip-flop -/

/-- C101: a JK flip-flop whose inputs are independent random bits of rates `j` and `k` holds a one with probability
`j / (j + k)`, up to a term that shrinks by the factor `1 - j - k` in every cycle. -/
theorem C101_jkff (j k : ℚ) (t : ℕ) :
    (j + k) * Spec.mean (false, false) (Spec.twoCoins j k) (t + 1)
      (fun x => ((outAt jkStep 0 (fun i => ((Spec.bit (x i).1 : ℚ), (Spec.bit (x i).2 : ℚ))) t : ℤ) : ℚ)) = j * (1 - (1 - j - k) ^ (t + 1)) := by
  have key : ∀ n, (j + k) * Spec.mean (false, false) (Spec.twoCoins j k) n
      (fun x => ((stateAt jkStep 0 (fun i => ((Spec.bit (x i).1 : ℚ), (Spec.bit (x i).2 : ℚ))) n : ℤ) : ℚ)) = j * (1 - (1 - j - k) ^ n) := by
    intro n
    induction n with
    | zero => rw [mean_zero]; simp
    | succ n ih =>
      rw [mean_succ]
      have hs : ∀ (x : ℕ → Bool × Bool) (a : Bool × Bool),
          stateAt jkStep 0 (fun i => ((Spec.bit (Function.update x n a i).1 : ℚ), (Spec.bit (Function.update x n a i).2 : ℚ))) (n + 1) =
            (jkStep (stateAt jkStep 0 (fun i => ((Spec.bit (x i).1 : ℚ), (Spec.bit (x i).2 : ℚ))) n) ((Spec.bit a.1 : ℚ), (Spec.bit a.2 : ℚ))).1 := by
        intro x a
        rw [stateAt_succ, Function.update_self]
        rw [stateAt_agree jkStep 0 _ (fun i => ((Spec.bit (x i).1 : ℚ), (Spec.bit (x i).2 : ℚ))) n fun t ht => by
          rw [Function.update_of_ne (by omega)]]
      simp only [hs]
      have h00 : ∀ q : ℤ, (jkStep q ((0 : ℚ), (0 : ℚ))).1 = q := by
        intro q; simp [jkStep, ind, show Int.land 1 1 = 1 by decide, show Int.land 0 1 = 0 by decide, show Int.land 1 0 = 0 by decide, show Int.land 0 0 = 0 by decide]
      have h10 : ∀ q : ℤ, (jkStep q ((1 : ℚ), (0 : ℚ))).1 = 1 := by
        intro q; simp [jkStep, ind, show Int.land 1 1 = 1 by decide, show Int.land 0 1 = 0 by decide, show Int.land 1 0 = 0 by decide, show Int.land 0 0 = 0 by decide]
      have h01 : ∀ q : ℤ, (jkStep q ((0 : ℚ), (1 : ℚ))).1 = 0 := by
        intro q; simp [jkStep, ind, show Int.land 1 1 = 1 by decide, show Int.land 0 1 = 0 by decide, show Int.land 1 0 = 0 by decide, show Int.land 0 0 = 0 by decide]
      have h11 : ∀ q : ℤ, (jkStep q ((1 : ℚ), (1 : ℚ))).1 = 1 - q := by
        intro q; simp [jkStep, ind, show Int.land 1 1 = 1 by decide, show Int.land 0 1 = 0 by decide, show Int.land 1 0 = 0 by decide, show Int.land 0 0 = 0 by decide]
      rw [Fintype.sum_prod_type]
      simp only [Fintype.sum_bool, Spec.bit, if_true, Bool.false_eq_true, if_false, Int.cast_one, Int.cast_zero, h00, h01, h10, h11, Int.cast_sub]
      rw [mean_const _ (twoCoins_sum j k), mean_const _ (twoCoins_sum j k), mean_sub, mean_const _ (twoCoins_sum j k)]
      simp only [Spec.bit] at ih
      generalize Spec.mean (false, false) (Spec.twoCoins j k) n (fun x => ((stateAt jkStep 0 (fun i => (((if (x i).1 = true then 1 else 0 : ℤ) : ℚ),
        ((if (x i).2 = true then 1 else 0 : ℤ) : ℚ))) n : ℤ) : ℚ)) = m at ih ⊢
      simp only [Spec.twoCoins, Spec.coin, if_true, Bool.false_eq_true, if_false]
      have e : (j + k) * (j * k * (1 - m) + j * (1 - k) * 1 + ((1 - j) * k * 0 + (1 - j) * (1 - k) * m)) =
          j * (j + k) + (1 - j - k) * ((j + k) * m) := by ring
      rw [e, ih, pow_succ]; ring
  exact key (t + 1)

/-! ### Square root -/

private theorem accepted_agree (x y : ℕ → ℤ) (t : ℕ) (h : ∀ k ≤ t, x k = y k) : Spec.accepted x t = Spec.accepted y t := by
  induction t with
  | zero => exact h 0 (le_refl 0)
  | succ t ih => rw [Spec.accepted, Spec.accepted, h _ (le_refl _), ih fun k hk => h k (by omega)]

private theorem accepted_mean (p : ℚ) (t : ℕ) :
    (1 + p) * Spec.mean false (Spec.coin p) (t + 1) (fun x => (Spec.accepted (fun i => Spec.bit (x i)) t : ℚ)) = p * (1 - (-p) ^ (t + 1)) := by
  induction t with
  | zero =>
    rw [mean_succ]
    simp only [Spec.accepted, Function.update_self]
    rw [Fintype.sum_bool, mean_const _ (coin_sum p), mean_const _ (coin_sum p)]
    simp [Spec.coin, Spec.bit]; ring
  | succ t ih =>
    rw [mean_succ]
    have hs : ∀ (x : ℕ → Bool) (a : Bool), Spec.accepted (fun i => Spec.bit (Function.update x (t + 1) a i)) (t + 1) =
        Spec.bit a * (1 - Spec.accepted (fun i => Spec.bit (x i)) t) := by
      intro x a
      rw [Spec.accepted, Function.update_self, accepted_agree _ (fun i => Spec.bit (x i)) t fun k hk => by
        rw [Function.update_of_ne (by omega)]]
    simp only [hs, Int.cast_mul, mean_mul, Int.cast_sub, Int.cast_one, mean_sub]
    rw [Fintype.sum_bool, mean_const _ (coin_sum p)]
    generalize Spec.mean false (Spec.coin p) (t + 1) (fun x => (Spec.accepted (fun i => Spec.bit (x i)) t : ℚ)) = m at ih ⊢
    simp only [Spec.coin, Spec.bit, if_true, Bool.false_eq_true, if_false, Int.cast_one, Int.cast_zero]
    have e : (1 + p) * (p * (1 * (1 - m)) + (1 - p) * (0 * (1 - m))) = p * (1 + p) - p * ((1 + p) * m) := by ring
    rw [e, ih, pow_succ (-p) (t + 1)]; ring

/-- C101: unipolar `FSUSqrt` with the flip-flop trace, on independent random bits of rate `p`: the output is one with probability
`2 p / (1 + p)`, up to a term that shrinks by the factor `p` in every cycle. -/
theorem C101_sqrt {mode : String} {kn sr : ℕ} {cfg : Sqrt.Cfg} (h : Sqrt.mk mode true false kn sr = .ok cfg) (hm : cfg.mode = .unipolar)
    (rng : List ℤ) (p : ℚ) (t : ℕ) :
    (1 + p) * Spec.mean false (Spec.coin p) (t + 1) (fun x => Spec.value (sqrtOut cfg rng (fun i => Spec.bit (x i)) t)) =
      2 * p - p * (1 - p) * (-p) ^ t := by
  have hv : ∀ x : ℕ → Bool, Spec.value (sqrtOut cfg rng (fun i => Spec.bit (x i)) t) =
      (Spec.accepted (fun i => Spec.bit (x i)) t : ℚ) + (Spec.prev (Spec.accepted (fun i => Spec.bit (x i))) t : ℚ) := by
    intro x
    rw [C36_pairs h hm rng (fun i => bit_isBit (x i)) t]; simp [Spec.value]
  simp only [hv]
  rw [mean_add, mul_add, accepted_mean]
  cases t with
  | zero =>
    simp only [Spec.prev, Int.cast_zero]
    rw [mean_const _ (coin_sum p)]; ring
  | succ t =>
    simp only [Spec.prev]
    rw [mean_prefix _ (coin_sum p) (fun x a => by
      rw [accepted_agree _ (fun i => Spec.bit (x i)) t fun k hk => by rw [Function.update_of_ne (by omega)]]), accepted_mean]
    rw [pow_succ (-p) (t + 1)]; ring

/-- C101: so over `n` cycles it returns on average `2 p / (1 + p) * n` ones, less at most a quarter. -/
theorem C101_sqrt_count {mode : String} {kn sr : ℕ} {cfg : Sqrt.Cfg} (h : Sqrt.mk mode true false kn sr = .ok cfg) (hm : cfg.mode = .unipolar)
    (rng : List ℤ) {p : ℚ} (h0 : 0 ≤ p) (h1 : p ≤ 1) (n : ℕ) :
    (∑ t ∈ range n, Spec.mean false (Spec.coin p) (t + 1) fun x => Spec.value (sqrtOut cfg rng (fun i => Spec.bit (x i)) t)) ≤ 2 * p / (1 + p) * n ∧
    2 * p / (1 + p) * n - 1 / 4 ≤ ∑ t ∈ range n, Spec.mean false (Spec.coin p) (t + 1) fun x => Spec.value (sqrtOut cfg rng (fun i => Spec.bit (x i)) t) := by
  have hp : (0 : ℚ) < 1 + p := by linarith
  have hm' : ∀ t, Spec.mean false (Spec.coin p) (t + 1) (fun x => Spec.value (sqrtOut cfg rng (fun i => Spec.bit (x i)) t)) =
      2 * p / (1 + p) - p * (1 - p) / (1 + p) * (-p) ^ t := by
    intro t
    have := C101_sqrt h hm rng p t
    field_simp
    linarith
  have hg : ∀ n : ℕ, 0 ≤ ∑ t ∈ range n, (-p) ^ t ∧ ∑ t ∈ range n, (-p) ^ t ≤ 1 := by
    intro n
    have hs : ∀ n : ℕ, ∑ t ∈ range (n + 1), (-p) ^ t = 1 - p * ∑ t ∈ range n, (-p) ^ t := by
      intro n
      rw [Finset.sum_range_succ', Finset.mul_sum, pow_zero, add_comm, sub_eq_add_neg, ← Finset.sum_neg_distrib]
      congr 1
      exact Finset.sum_congr rfl fun t _ => by rw [pow_succ]; ring
    induction n with
    | zero => simp
    | succ n ih => rw [hs]; constructor <;> nlinarith [ih.1, ih.2]
  simp only [hm']
  rw [Finset.sum_sub_distrib, Finset.sum_const, card_range, nsmul_eq_mul, ← Finset.mul_sum]
  have hc0 : 0 ≤ p * (1 - p) / (1 + p) := div_nonneg (mul_nonneg h0 (by linarith)) hp.le
  have hc1 : p * (1 - p) / (1 + p) ≤ 1 / 4 := by
    rw [div_le_iff₀ hp]; nlinarith [sq_nonneg (2 * p - 1)]
  obtain ⟨g0, g1⟩ := hg n
  constructor
  · nlinarith [mul_nonneg hc0 g0]
  · nlinarith [mul_le_mul hc1 g1 g0 (by norm_num : (0:ℚ) ≤ 1 / 4)]

/-- C101: this is not the square root: for every rate strictly between zero and one the mean value of the output over any number
of cycles lies below it. -/
theorem C101_sqrt_low {mode : String} {kn sr : ℕ} {cfg : Sqrt.Cfg} (h : Sqrt.mk mode true false kn sr = .ok cfg) (hm : cfg.mode = .unipolar)
    (rng : List ℤ) {p : ℚ} (h0 : 0 < p) (h1 : p < 1) {n : ℕ} (hn : 0 < n) :
    ((∑ t ∈ range n, Spec.mean false (Spec.coin p) (t + 1) fun x => Spec.value (sqrtOut cfg rng (fun i => Spec.bit (x i)) t)) / n) ^ 2 < p := by
  obtain ⟨a, b⟩ := C101_sqrt_count h hm rng h0.le h1.le n
  have hnq : (0 : ℚ) < n := by exact_mod_cast hn
  generalize hS : (∑ t ∈ range n, Spec.mean false (Spec.coin p) (t + 1) fun x => Spec.value (sqrtOut cfg rng (fun i => Spec.bit (x i)) t)) = S at a b
  have hp : (0 : ℚ) < 1 + p := by linarith
  have hup : S / n ≤ 2 * p / (1 + p) := by rw [div_le_iff₀ hnq]; exact a
  have hq : (2 * p / (1 + p)) ^ 2 < p := by
    rw [div_pow, div_lt_iff₀ (by positivity)]
    nlinarith [mul_pos h0 (mul_pos (sub_pos.mpr h1) (sub_pos.mpr h1))]
  have hlo : 0 ≤ S := by
    rw [← hS]
    refine Finset.sum_nonneg fun t _ => ?_
    refine Finset.sum_nonneg fun x _ => mul_nonneg (Finset.prod_nonneg fun i _ => ?_) ?_
    · unfold Spec.coin; split_ifs <;> linarith
    · obtain ⟨o, ho, hb, _⟩ := C36_count h hm rng (x := fun i => Spec.bit (Spec.tossed false x i)) (fun i => bit_isBit _)
      show (0 : ℚ) ≤ Spec.value (sqrtOut cfg rng (fun i => Spec.bit (Spec.tossed false x i)) t)
      rw [ho t]
      have := (hb t).nonneg
      show (0 : ℚ) ≤ (o t : ℚ)
      exact_mod_cast this
  exact lt_of_le_of_lt (pow_le_pow_left₀ (div_nonneg hlo hnq.le) hup 2) hq

/-! ### Division -/

/-- Probability that fewer than `m` of `t` random divisor bits of rate `r` are ones. -/
def Spec.tooFew (r s : ℚ) (m t : ℕ) : ℚ :=
  Spec.mean (false, false) (Spec.twoCoins r s) t fun x => if ((range t).filter fun i => (x i).1 = true).card < m then 1 else 0

private theorem few_zero (r s : ℚ) (t : ℕ) : Spec.tooFew r s 0 t = 0 := by
  unfold Spec.tooFew
  simp only [Nat.not_lt_zero, if_false]
  exact mean_const _ (twoCoins_sum r s) t 0

private theorem few_start (r s : ℚ) (m : ℕ) : Spec.tooFew r s (m + 1) 0 = 1 := by
  unfold Spec.tooFew
  rw [mean_zero]; simp

private theorem few_succ (r s : ℚ) (m t : ℕ) :
    Spec.tooFew r s (m + 1) (t + 1) = r * Spec.tooFew r s m t + (1 - r) * Spec.tooFew r s (m + 1) t := by
  have hc : ∀ (x : ℕ → Bool × Bool) (a : Bool × Bool),
      ((range (t + 1)).filter fun i => (Function.update x t a i).1 = true).card =
        ((range t).filter fun i => (x i).1 = true).card + if a.1 = true then 1 else 0 := by
    intro x a
    rw [Finset.range_add_one, Finset.filter_insert, Function.update_self]
    have e : ((range t).filter fun i => (Function.update x t a i).1 = true) = (range t).filter fun i => (x i).1 = true := by
      refine Finset.filter_congr fun i hi => ?_
      rw [Function.update_of_ne (by have := mem_range.1 hi; omega)]
    rw [e]
    split_ifs with h
    · rw [Finset.card_insert_of_notMem (by simp)]
    · rfl
  unfold Spec.tooFew
  rw [mean_succ]
  simp only [hc]
  rw [Fintype.sum_prod_type]
  simp only [Fintype.sum_bool, if_true, Bool.false_eq_true, if_false, Nat.add_lt_add_iff_right, Nat.add_zero]
  simp only [Spec.twoCoins, Spec.coin, if_true, Bool.false_eq_true, if_false]
  ring

private theorem few_nonneg {r s : ℚ} (h0 : 0 ≤ r) (h1 : r ≤ 1) (m t : ℕ) : 0 ≤ Spec.tooFew r s m t := by
  induction t generalizing m with
  | zero =>
    cases m with
    | zero => rw [few_zero]
    | succ m => rw [few_start]; norm_num
  | succ t ih =>
    cases m with
    | zero => rw [few_zero]
    | succ m =>
      rw [few_succ]
      exact add_nonneg (mul_nonneg h0 (ih m)) (mul_nonneg (by linarith) (ih (m + 1)))

private theorem few_mono {r s : ℚ} (h0 : 0 ≤ r) (h1 : r ≤ 1) (m t : ℕ) : Spec.tooFew r s m t ≤ Spec.tooFew r s (m + 1) t := by
  induction t generalizing m with
  | zero =>
    cases m with
    | zero => rw [few_zero, few_start]; norm_num
    | succ m => rw [few_start, few_start]
  | succ t ih =>
    cases m with
    | zero => rw [few_zero]; exact few_nonneg h0 h1 _ _
    | succ m =>
      rw [few_succ, few_succ]
      exact add_le_add (mul_le_mul_of_nonneg_left (ih m) h0) (mul_le_mul_of_nonneg_left (ih (m + 1)) (by linarith))

private theorem few_le {r s : ℚ} (h0 : 0 ≤ r) (h1 : r ≤ 1) {m k : ℕ} (h : m ≤ k) (t : ℕ) : Spec.tooFew r s m t ≤ Spec.tooFew r s k t := by
  induction k, h using Nat.le_induction with
  | base => exact le_refl _
  | succ k _ ih => exact ih.trans (few_mono h0 h1 k t)

/-- The expected number of cycles with fewer than `m` divisor ones before them. -/
private theorem few_sum {r s : ℚ} (h0 : 0 ≤ r) (h1 : r ≤ 1) (m n : ℕ) : r * ∑ t ∈ range n, Spec.tooFew r s m t ≤ m := by
  induction m with
  | zero => simp [few_zero]
  | succ m ih =>
    have tele : ∀ n, Spec.tooFew r s (m + 1) n = 1 + r * (∑ t ∈ range n, Spec.tooFew r s m t) - r * ∑ t ∈ range n, Spec.tooFew r s (m + 1) t := by
      intro n
      induction n with
      | zero => simp [few_start]
      | succ n ihn => rw [few_succ, sum_range_succ, sum_range_succ]; linarith
    have := tele n
    have := few_nonneg (s := s) h0 h1 (m + 1) n
    push_cast
    linarith

/-- Cell `j` of the history. -/
private def cellOf (e : ℕ) (x : ℕ → Bool × Bool) (j n : ℕ) : ℤ :=
  (Spec.divTape e (fun i => Spec.bit (x i).2) (fun i => Spec.bit (x i).1) n).getD
    ((Spec.valid (fun i => Spec.bit (x i).2) (fun i => Spec.bit (x i).1) n).length + j) 0

private theorem valid_agree (u v u' v' : ℕ → ℤ) (n : ℕ) (hu : ∀ t < n, v t = 1 → u t = u' t) (hv : ∀ t < n, v t = v' t) :
    Spec.valid u v n = Spec.valid u' v' n := by
  induction n with
  | zero => rfl
  | succ n ih =>
    rw [valid_succ, valid_succ, ih (fun t ht => hu t (by omega)) fun t ht => hv t (by omega), ← hv n (by omega)]
    by_cases h : v n = 1
    · rw [if_pos h, if_pos h, hu n (by omega) h]
    · rw [if_neg h, if_neg h]

private theorem cell_update (e : ℕ) (x : ℕ → Bool × Bool) (a : Bool × Bool) (j n : ℕ) : cellOf e (Function.update x n a) j n = cellOf e x j n := by
  have hv : Spec.valid (fun i => Spec.bit (Function.update x n a i).2) (fun i => Spec.bit (Function.update x n a i).1) n =
      Spec.valid (fun i => Spec.bit (x i).2) (fun i => Spec.bit (x i).1) n :=
    valid_agree _ _ _ _ n (fun t ht _ => by rw [Function.update_of_ne (by omega)]) fun t ht => by rw [Function.update_of_ne (by omega)]
  unfold cellOf Spec.divTape
  rw [hv]

private theorem cell_succ (e : ℕ) (x : ℕ → Bool × Bool) {j : ℕ} (hj : j < e) (n : ℕ) :
    cellOf e x j (n + 1) = if (x n).1 = true then (if j + 1 < e then cellOf e x (j + 1) n else Spec.bit (x n).2) else cellOf e x j n := by
  have ht : ∀ u v : ℕ → ℤ, (Spec.divTape e u v n).length = e + (Spec.valid u v n).length := by
    intro u v; unfold Spec.divTape; simp
  unfold cellOf
  have hs : Spec.divTape e (fun i => Spec.bit (x i).2) (fun i => Spec.bit (x i).1) (n + 1) =
      Spec.divTape e (fun i => Spec.bit (x i).2) (fun i => Spec.bit (x i).1) n ++ (if Spec.bit (x n).1 = 1 then [Spec.bit (x n).2] else []) := by
    unfold Spec.divTape; rw [valid_succ, List.append_assoc]
  rw [hs, valid_succ]
  have := ht (fun i => Spec.bit (x i).2) (fun i => Spec.bit (x i).1)
  generalize Spec.divTape e (fun i => Spec.bit (x i).2) (fun i => Spec.bit (x i).1) n = T at this ⊢
  generalize Spec.valid (fun i => Spec.bit (x i).2) (fun i => Spec.bit (x i).1) n = V at this ⊢
  cases h : (x n).1 with
  | false => simp [Spec.bit]
  | true =>
    simp only [Spec.bit, if_true]
    rw [List.length_append, List.length_singleton]
    by_cases h2 : j + 1 < e
    · rw [if_pos h2, List.getD_append _ _ _ _ (by omega)]
      congr 1; omega
    · rw [if_neg h2, List.getD_append_right _ _ _ _ (by omega), show V.length + 1 + j - T.length = 0 by omega]
      rfl

private theorem cell_near {r s : ℚ} (h0 : 0 ≤ r) (h1 : r ≤ 1) (hs0 : 0 ≤ s) (hs1 : s ≤ 1) (e n : ℕ) {j : ℕ} (hj : j < e) :
    |Spec.mean (false, false) (Spec.twoCoins r s) n (fun x => (cellOf e x j n : ℚ)) - s| ≤ Spec.tooFew r s (e - j) n := by
  induction n generalizing j with
  | zero =>
    rw [mean_zero, show e - j = (e - j - 1) + 1 by omega, few_start]
    have : cellOf e (fun _ => (false, false)) j 0 = ((j % 2 : ℕ) : ℤ) := by
      simp [cellOf, Spec.divTape, Spec.valid, List.getD_eq_getElem?_getD, hj]
    rw [this]
    rcases Nat.mod_two_eq_zero_or_one j with h | h <;> rw [h] <;> rw [abs_le] <;> constructor <;> push_cast <;> linarith
  | succ n ih =>
    rw [mean_succ]
    simp only [cell_succ _ _ hj, Function.update_self, cell_update]
    rw [show e - j = (e - j - 1) + 1 by omega, few_succ, show e - j - 1 + 1 = e - j by omega, Fintype.sum_prod_type]
    simp only [Fintype.sum_bool, if_true, Bool.false_eq_true, if_false]
    have i1 := ih hj
    generalize Spec.mean (false, false) (Spec.twoCoins r s) n (fun x => (cellOf e x j n : ℚ)) = c at i1 ⊢
    by_cases h2 : j + 1 < e
    · have i2 := ih h2
      simp only [if_pos h2]
      rw [show e - (j + 1) = e - j - 1 by omega] at i2
      generalize Spec.mean (false, false) (Spec.twoCoins r s) n (fun x => (cellOf e x (j + 1) n : ℚ)) = c' at i2 ⊢
      simp only [Spec.twoCoins, Spec.coin, if_true, Bool.false_eq_true, if_false]
      have e1 : r * s * c' + r * (1 - s) * c' + ((1 - r) * s * c + (1 - r) * (1 - s) * c) - s = r * (c' - s) + (1 - r) * (c - s) := by ring
      rw [e1]
      refine (abs_add_le _ _).trans ?_
      rw [abs_mul, abs_mul, abs_of_nonneg h0, abs_of_nonneg (sub_nonneg.mpr h1)]
      exact add_le_add (mul_le_mul_of_nonneg_left i2 h0) (mul_le_mul_of_nonneg_left i1 (by linarith))
    · simp only [if_neg h2, Spec.bit, if_true, Bool.false_eq_true, if_false]
      rw [mean_const _ (twoCoins_sum r s), mean_const _ (twoCoins_sum r s)]
      simp only [Spec.twoCoins, Spec.coin, if_true, Bool.false_eq_true, if_false, Int.cast_one, Int.cast_zero]
      have e1 : r * s * 1 + r * (1 - s) * 0 + ((1 - r) * s * c + (1 - r) * (1 - s) * c) - s = (1 - r) * (c - s) := by ring
      rw [e1, abs_mul, abs_of_nonneg (sub_nonneg.mpr h1)]
      have := few_nonneg (s := s) h0 h1 (e - j - 1) n
      have := mul_le_mul_of_nonneg_left i1 (sub_nonneg.mpr h1)
      nlinarith

/-- C101: the correlated divider kernel on an independent dividend of rate `s` and divisor of rate `r`: every output is a one with
probability `s`, whatever the rate of the divisor, except for the calls before the first `2^w` divisor ones. -/
theorem C101_kernel {w : ℕ} {rng : List ℤ} (h : Verif.Spec.IsPermSeq w rng) {r s : ℚ} (h0 : 0 ≤ r) (h1 : r ≤ 1) (hs0 : 0 ≤ s) (hs1 : s ≤ 1) (t : ℕ) :
    |Spec.mean (false, false) (Spec.twoCoins r s) (t + 1)
        (fun x => Spec.value (corOut (2 ^ w) rng (fun i => Spec.bit (x i).2) (fun i => Spec.bit (x i).1) t)) - s| ≤
      (1 - r) * Spec.tooFew r s (2 ^ w) t := by
  obtain ⟨k, hk, hr, -⟩ := C33_quotient h (fun _ => 0) (fun _ => 0) t
  have hq : ∀ x : ℕ → Bool × Bool, Spec.value (corOut (2 ^ w) rng (fun i => Spec.bit (x i).2) (fun i => Spec.bit (x i).1) t) =
      if (x t).1 = true then (Spec.bit (x t).2 : ℚ) else (cellOf (2 ^ w) x k t : ℚ) := by
    intro x
    obtain ⟨k', -, hr', h3⟩ := C33_quotient h (fun i => Spec.bit (x i).2) (fun i => Spec.bit (x i).1) t
    have : k' = k := by have := hr'.symm.trans hr; exact_mod_cast this
    subst this
    rw [h3]
    unfold cellOf
    cases hx : (x t).1 <;> simp [Spec.value, Spec.bit]
  simp only [hq]
  rw [mean_succ]
  simp only [Function.update_self, cell_update]
  rw [Fintype.sum_prod_type]
  simp only [Fintype.sum_bool, if_true, Bool.false_eq_true, if_false]
  have i1 := cell_near h0 h1 hs0 hs1 (2 ^ w) t hk
  have i2 := few_le (s := s) h0 h1 (show 2 ^ w - k ≤ 2 ^ w by omega) t
  generalize Spec.mean (false, false) (Spec.twoCoins r s) t (fun x => (cellOf (2 ^ w) x k t : ℚ)) = c at i1 ⊢
  rw [mean_const _ (twoCoins_sum r s), mean_const _ (twoCoins_sum r s)]
  simp only [Spec.twoCoins, Spec.coin, Spec.bit, if_true, Bool.false_eq_true, if_false, Int.cast_one, Int.cast_zero]
  have e1 : r * s * 1 + r * (1 - s) * 0 + ((1 - r) * s * c + (1 - r) * (1 - s) * c) - s = (1 - r) * (c - s) := by ring
  rw [e1, abs_mul, abs_of_nonneg (sub_nonneg.mpr h1)]
  exact mul_le_mul_of_nonneg_left (i1.trans i2) (by linarith)

/-- The dividend matters only where the divisor is one. -/
private theorem cor_masked {w : ℕ} {rng : List ℤ} (h : Verif.Spec.IsPermSeq w rng) (u u' v : ℕ → ℤ) (hu : ∀ t, v t = 1 → u t = u' t) (t : ℕ) :
    corOut (2 ^ w) rng u v t = corOut (2 ^ w) rng u' v t := by
  obtain ⟨k, -, hr, h3⟩ := C33_quotient h u v t
  obtain ⟨k', -, hr', h3'⟩ := C33_quotient h u' v t
  have : k' = k := by have := hr'.symm.trans hr; exact_mod_cast this
  subst this
  rw [h3, h3']
  have hv : Spec.valid u v t = Spec.valid u' v t := valid_agree _ _ _ _ t (fun t _ => hu t) fun _ _ => rfl
  unfold Spec.divTape
  rw [hv]
  by_cases hy : v t = 1
  · rw [if_pos hy, if_pos hy, hu t hy]
  · rw [if_neg hy, if_neg hy]

/-- C101: unipolar `FSUDiv` on a random divisor of rate `r` and a dividend that is a random selection of the divisor's ones, each
taken with probability `s`, so of rate `r * s`: every output is a one with probability `s`, except for the calls before the first
`2^w` divisor ones. -/
theorem C101_div {w : ℕ} {rng : List ℤ} (h : Verif.Spec.IsPermSeq w rng) (dsa : ℤ) (dss : ℕ) (sh : List ℕ) {r s : ℚ} (h0 : 0 ≤ r) (h1 : r ≤ 1)
    (hs0 : 0 ≤ s) (hs1 : s ≤ 1) (t : ℕ) :
    |Spec.mean (false, false) (Spec.twoCoins r s) (t + 1)
        (fun x => Spec.value (divOut .unipolar dsa dss (2 ^ w) rng sh (fun i => Spec.bit ((x i).1 && (x i).2)) (fun i => Spec.bit (x i).1) t)) - s| ≤
      (1 - r) * Spec.tooFew r s (2 ^ w) t := by
  have hd : ∀ x : ℕ → Bool × Bool, divOut .unipolar dsa dss (2 ^ w) rng sh (fun i => Spec.bit ((x i).1 && (x i).2)) (fun i => Spec.bit (x i).1) t =
      corOut (2 ^ w) rng (fun i => Spec.bit (x i).2) (fun i => Spec.bit (x i).1) t := by
    intro x
    have hp : ssOut dss sh (fun i => Spec.bit ((x i).1 && (x i).2)) (fun i => Spec.bit (x i).1) = fun i => Spec.bit ((x i).1 && (x i).2) :=
      funext fun t => ss_pass dss sh _ _ (fun i => bit_isBit _) (fun i hi => by
        cases h' : (x i).1 <;> simp [h', Spec.bit] at hi ⊢) t
    rw [C35_composition h, hp]
    refine cor_masked h _ _ _ (fun i hi => ?_) t
    cases h' : (x i).1 <;> simp [h', Spec.bit] at hi ⊢
  simp only [hd]
  exact C101_kernel h h0 h1 hs0 hs1 t

/-- C101: over `n` cycles such a division is off by at most `2^w (1 - r) / r` ones on average, however long it runs. -/
theorem C101_div_count {w : ℕ} {rng : List ℤ} (h : Verif.Spec.IsPermSeq w rng) (dsa : ℤ) (dss : ℕ) (sh : List ℕ) {r s : ℚ} (h0 : 0 < r) (h1 : r ≤ 1)
    (hs0 : 0 ≤ s) (hs1 : s ≤ 1) (n : ℕ) :
    |(∑ t ∈ range n, Spec.mean (false, false) (Spec.twoCoins r s) (t + 1)
        fun x => Spec.value (divOut .unipolar dsa dss (2 ^ w) rng sh (fun i => Spec.bit ((x i).1 && (x i).2)) (fun i => Spec.bit (x i).1) t)) - s * n| ≤
      2 ^ w * (1 - r) / r := by
  have e1 : s * n = ∑ t ∈ range n, s := by rw [sum_const, card_range, nsmul_eq_mul]; ring
  rw [e1, ← sum_sub_distrib]
  refine (abs_sum_le_sum_abs _ _).trans ((sum_le_sum fun t _ => C101_div h dsa dss sh h0.le h1 hs0 hs1 t).trans ?_)
  rw [← mul_sum, le_div_iff₀ h0]
  have := mul_le_mul_of_nonneg_left (few_sum (s := s) h0.le h1 (2 ^ w) n) (sub_nonneg.mpr h1)
  push_cast at this
  nlinarith

example : Verif.Spec.IsPermSeq 1 [1, 0] ∧ (0 : ℚ) < 1 / 3 ∧ (1 / 3 : ℚ) ≤ 1 := by
  refine ⟨⟨rfl, fun v h0 h1 => by norm_num at h1; interval_cases v <;> rfl⟩, by norm_num, by norm_num⟩

example : ∃ cfg, Sqrt.mk "Unipolar" true false 1 2 = .ok cfg ∧ cfg.mode = .unipolar := by
  exact ⟨⟨.unipolar, true, false, 1, 2⟩, by
    have : parseMode "Unipolar" = .ok .unipolar := by decide +kernel
    unfold Sqrt.mk; rw [this]; rfl, rfl⟩

/-- The mean counts each of the four inputs of length two with its weight. -/
example : Spec.mean false (Spec.coin (1 / 3)) 2 (fun x => (Spec.bit (x 0) + 2 * Spec.bit (x 1) : ℚ)) = 1 := by
  simp only [mean_succ, mean_zero, Fintype.sum_bool]
  norm_num [Spec.coin, Spec.bit, Function.update]

/-! ### Multiplication -/

private theorem mean_near {α : Type} [Fintype α] (d : α) {w : α → ℚ} (hw : ∑ a, w a = 1) (h0 : ∀ a, 0 ≤ w a) (n : ℕ) {f g : (ℕ → α) → ℚ} {c : ℚ}
    (h : ∀ x, |f x - g x| ≤ c) : |Spec.mean d w n f - Spec.mean d w n g| ≤ c := by
  rw [← mean_sub, abs_le]
  have h1 := mean_mono d h0 n (f := fun _ => -c) (g := fun x => f x - g x) fun x => (abs_le.1 (h x)).1
  have h2 := mean_mono d h0 n (f := fun x => f x - g x) (g := fun _ => c) fun x => (abs_le.1 (h x)).2
  rw [mean_const d hw] at h1 h2
  exact ⟨h1, h2⟩

private theorem mean_ones (p : ℚ) (n : ℕ) : Spec.mean false (Spec.coin p) n (fun x => (Verif.Spec.ones (fun i => Spec.bit (x i)) n : ℚ)) = n * p := by
  induction n with
  | zero => rw [mean_zero]; simp [Verif.Spec.ones]
  | succ n ih =>
    rw [mean_succ]
    have hs : ∀ (x : ℕ → Bool) (a : Bool), Verif.Spec.ones (fun i => Spec.bit (Function.update x n a i)) (n + 1) =
        Verif.Spec.ones (fun i => Spec.bit (x i)) n + Spec.bit a := by
      intro x a
      rw [Verif.Spec.ones_succ, Function.update_self]
      congr 1
      unfold Verif.Spec.ones
      refine Finset.sum_congr rfl fun i hi => ?_
      show Spec.bit (Function.update x n a i) = Spec.bit (x i)
      rw [Function.update_of_ne (by have := mem_range.1 hi; omega)]
    simp only [hs, Int.cast_add, mean_add, ih]
    rw [Fintype.sum_bool, mean_const _ (coin_sum p), mean_const _ (coin_sum p)]
    simp [Spec.coin, Spec.bit]
    ring

/-- C101: the static unipolar multiplier on random bits of rate `p`: over `n` cycles it returns on average `n` times the product ones, up to
the width of its Sobol sequence, however long it runs. -/
theorem C101_mul (env : Gen.Env) (w : ℕ) (name : String) (hn : name.toLower ∈ ["sobol", "rc"]) (hm : Gen.DirOK env.sobolM) (hw : w ≤ env.maxbit)
    {b : ℤ} (hb0 : 0 ≤ b) (hb1 : b ≤ 2 ^ w) {p : ℚ} (h0 : 0 ≤ p) (h1 : p ≤ 1) :
    ∃ l, Gen.rng env w name = .ok l ∧ ∀ n : ℕ,
      |Spec.mean false (Spec.coin p) n (fun x => (Verif.Spec.ones (mulOut .unipolar w l b fun i => Spec.bit (x i)) n : ℚ)) - n * (p * (b / 2 ^ w))| ≤ w := by
  obtain ⟨l, hl, -⟩ := C26_error env w name hn hm hw b hb0 hb1 (x := fun _ => 0) fun _ => Or.inl rfl
  refine ⟨l, hl, fun n => ?_⟩
  have e : (n : ℚ) * (p * (b / 2 ^ w)) = Spec.mean false (Spec.coin p) n (fun x => b / 2 ^ w * (Verif.Spec.ones (fun i => Spec.bit (x i)) n : ℚ)) := by
    rw [mean_mul, mean_ones]; ring
  rw [e]
  refine mean_near _ (coin_sum p) (fun a => by unfold Spec.coin; split_ifs <;> linarith) n fun x => ?_
  obtain ⟨l', hl', h⟩ := C26_error env w name hn hm hw b hb0 hb1 (x := fun i => Spec.bit (x i)) fun i => bit_isBit _
  rw [hl] at hl'; cases hl'
  rw [mul_comm (_ / _ : ℚ)]
  exact (h n).1

/-! ### In-stream multiplication -/

private theorem mean_upto {α : Type} [Fintype α] (d : α) {w : α → ℚ} (hw : ∑ a, w a = 1) {m n : ℕ} (hmn : m ≤ n) {f : (ℕ → α) → ℚ}
    (hf : ∀ x y : ℕ → α, (∀ i < m, x i = y i) → f x = f y) : Spec.mean d w n f = Spec.mean d w m f := by
  induction n, hmn using Nat.le_induction with
  | base => rfl
  | succ n hmn ih =>
    rw [mean_prefix d hw fun x a => hf _ _ fun i hi => Function.update_of_ne (by omega) _ _, ih]

private theorem mean_shift {α : Type} [Fintype α] (d : α) {w : α → ℚ} (hw : ∑ a, w a = 1) (n : ℕ) (f : (ℕ → α) → ℚ) :
    Spec.mean d w (n + 1) (fun x => f fun i => x (i + 1)) = Spec.mean d w n f := by
  have key : Spec.mean d w (n + 1) (fun x => f fun i => x (i + 1)) = ∑ a, w a * Spec.mean d w n f := by
    unfold Spec.mean
    rw [← (Fin.consEquiv fun _ => α).sum_comp, Fintype.sum_prod_type]
    refine Finset.sum_congr rfl fun a _ => ?_
    rw [Finset.mul_sum]
    refine Finset.sum_congr rfl fun x _ => ?_
    have h : (fun i => Spec.tossed d ((Fin.consEquiv fun _ => α) (a, x)) (i + 1)) = Spec.tossed d x := by
      funext t
      unfold Spec.tossed
      by_cases h1 : t < n
      · rw [dif_pos (by omega), dif_pos h1]
        exact Fin.cons_succ (α := fun _ => α) a x ⟨t, h1⟩
      · rw [dif_neg (by omega), dif_neg h1]
    have h2 : ∏ i, w ((Fin.consEquiv fun _ => α) (a, x) i) = w a * ∏ i, w (x i) := by
      rw [Fin.prod_univ_succ]
      simp only [Fin.consEquiv_apply, Fin.cons_zero, Fin.cons_succ]
    show _ * f (fun i => Spec.tossed d ((Fin.consEquiv fun _ => α) (a, x)) (i + 1)) = _
    rw [h, h2]; ring
  rw [key, ← Finset.sum_mul, hw, one_mul]

private theorem mean_shifts {α : Type} [Fintype α] (d : α) {w : α → ℚ} (hw : ∑ a, w a = 1) (n s : ℕ) (f : (ℕ → α) → ℚ) :
    Spec.mean d w (s + n) (fun x => f fun i => x (s + i)) = Spec.mean d w n f := by
  induction s generalizing f with
  | zero => simp
  | succ s ih =>
    have e : (fun x : ℕ → α => f fun i => x (s + 1 + i)) = fun x => (fun y : ℕ → α => f fun i => y (s + i)) fun i => x (i + 1) := by
      funext x; congr 1; funext i; congr 1; omega
    rw [e, show s + 1 + n = (s + n) + 1 by omega, mean_shift d hw (s + n) (fun y : ℕ → α => f fun i => y (s + i)), ih]

private theorem mean_sum {α : Type} [Fintype α] (d : α) (w : α → ℚ) (n m : ℕ) (f : ℕ → (ℕ → α) → ℚ) :
    Spec.mean d w n (fun x => ∑ t ∈ range m, f t x) = ∑ t ∈ range m, Spec.mean d w n (f t) := by
  unfold Spec.mean
  rw [Finset.sum_comm]
  exact Finset.sum_congr rfl fun x _ => by rw [Finset.mul_sum]

/-- Probability that the window count exceeds `v`. -/
private def over (q : ℚ) (w : ℕ) (v : ℤ) : ℚ :=
  Spec.mean false (Spec.coin q) (2 ^ w) fun y => ((ind (Verif.Spec.ones (fun i => Spec.bit (y i)) (2 ^ w) > v) : ℤ) : ℚ)

private theorem ones_agree {x y : ℕ → ℤ} {n : ℕ} (h : ∀ i < n, x i = y i) : Verif.Spec.ones x n = Verif.Spec.ones y n :=
  Finset.sum_congr rfl fun i hi => h i (mem_range.1 hi)

private theorem over_mem {q : ℚ} (h0 : 0 ≤ q) (h1 : q ≤ 1) (w : ℕ) (v : ℤ) : 0 ≤ over q w v ∧ over q w v ≤ 1 := by
  have hw : ∀ a, 0 ≤ Spec.coin q a := fun a => by unfold Spec.coin; split_ifs <;> linarith
  have hb : ∀ p : Prop, [Decidable p] → (0 : ℚ) ≤ ((ind p : ℤ) : ℚ) ∧ ((ind p : ℤ) : ℚ) ≤ 1 := by
    intro p _; rcases isBit_ind p with h | h <;> rw [h] <;> norm_num
  have a := mean_mono false hw (2 ^ w) (f := fun _ => 0)
    (g := fun y => ((ind (Verif.Spec.ones (fun i => Spec.bit (y i)) (2 ^ w) > v) : ℤ) : ℚ)) fun y => (hb _).1
  have b := mean_mono false hw (2 ^ w) (g := fun _ => 1)
    (f := fun y => ((ind (Verif.Spec.ones (fun i => Spec.bit (y i)) (2 ^ w) > v) : ℤ) : ℚ)) fun y => (hb _).2
  rw [mean_const _ (coin_sum q)] at a b
  exact ⟨a, b⟩

private theorem over_sum (q : ℚ) (w : ℕ) : ∑ v ∈ range (2 ^ w), over q w v = 2 ^ w * q := by
  unfold over
  rw [← mean_sum]
  have : ∀ y : ℕ → Bool, ∑ v ∈ range (2 ^ w), ((ind (Verif.Spec.ones (fun i => Spec.bit (y i)) (2 ^ w) > (v : ℤ)) : ℤ) : ℚ) =
      (Verif.Spec.ones (fun i => Spec.bit (y i)) (2 ^ w) : ℚ) := by
    intro y
    have hc : ∀ (N : ℕ) (c : ℤ), 0 ≤ c → c ≤ N → ∑ v ∈ range N, (ind (c > (v : ℤ)) : ℤ) = c := by
      intro N
      induction N with
      | zero => intro c h0 h1; simp; omega
      | succ N ih =>
        intro c h0 h1
        rw [sum_range_succ]
        by_cases h : c ≤ N
        · rw [ih c h0 h, ind_false (by omega)]; ring
        · have : c = N + 1 := by push_cast at h1; omega
          have e : ∑ v ∈ range N, (ind (c > (v : ℤ)) : ℤ) = ∑ v ∈ range N, (1 : ℤ) := by
            refine Finset.sum_congr rfl fun v hv => ind_true ?_
            have := mem_range.1 hv; omega
          rw [e, ind_true (by omega)]; simp; omega
    have hx : Verif.Spec.BitStream fun i => Spec.bit (y i) := fun i => bit_isBit _
    exact_mod_cast hc (2 ^ w) _ (Verif.Spec.ones_nonneg hx _) (by have := Verif.Spec.ones_le hx (2 ^ w); exact_mod_cast this)
  simp only [this]
  rw [mean_ones]; push_cast; ring

private theorem period_sum {w : ℕ} {rng : List ℤ} (h : Verif.Spec.IsPermSeq w rng) (g : ℤ → ℚ) :
    ∑ k ∈ range (2 ^ w), g (rng.getD k 0) = ∑ v ∈ range (2 ^ w), g v := by
  have e1 : ∑ k ∈ range (2 ^ w), g (rng.getD k 0) = (rng.map g).sum := by
    rw [← h.1, Finset.sum_range]
    rw [← List.sum_ofFn]
    congr 1
    refine List.ext_getElem (by simp) fun i h1 h2 => ?_
    simp at h1 h2 ⊢
  rw [e1, ((Gen.IsPermSeq.perm h).map g).sum_eq, List.map_map]
  rfl

/-- A number sequence read one after another, through a function with values in `[0, 1]`. -/
private theorem read_near {w : ℕ} {rng : List ℤ} (h : Verif.Spec.IsPermSeq w rng) {g : ℤ → ℚ} (hg : ∀ v, 0 ≤ g v ∧ g v ≤ 1) {q : ℚ}
    (hq : ∑ v ∈ range (2 ^ w), g v = 2 ^ w * q) (K : ℕ) : |∑ k ∈ range K, g (rng.getD (k % 2 ^ w) 0) - q * K| ≤ 2 ^ w / 4 := by
  have hp := Nat.two_pow_pos w
  have hper : ∀ a m : ℕ, ∑ k ∈ range (a * 2 ^ w + m), g (rng.getD (k % 2 ^ w) 0) =
      a * (2 ^ w * q) + ∑ k ∈ range m, g (rng.getD (k % 2 ^ w) 0) := by
    intro a m
    induction a with
    | zero => simp
    | succ a ih =>
      rw [show (a + 1) * 2 ^ w + m = 2 ^ w + (a * 2 ^ w + m) by ring, sum_range_add]
      have e1 : ∑ k ∈ range (2 ^ w), g (rng.getD (k % 2 ^ w) 0) = 2 ^ w * q := by
        rw [← hq, ← period_sum h]
        exact Finset.sum_congr rfl fun k hk => by rw [Nat.mod_eq_of_lt (mem_range.1 hk)]
      have e2 : ∀ k, g (rng.getD ((2 ^ w + k) % 2 ^ w) 0) = g (rng.getD (k % 2 ^ w) 0) := fun k => by rw [Nat.add_mod_left]
      simp only [e2]
      rw [e1, ih]; push_cast; ring
  have hK : K = (K / 2 ^ w) * 2 ^ w + K % 2 ^ w := by rw [mul_comm]; exact (Nat.div_add_mod _ _).symm
  generalize K / 2 ^ w = a at hK
  have hm := Nat.mod_lt K hp
  generalize K % 2 ^ w = m at hK hm
  subst hK
  rw [hper]
  set P := ∑ k ∈ range m, g (rng.getD (k % 2 ^ w) 0) with hP
  have hP0 : 0 ≤ P := Finset.sum_nonneg fun k _ => (hg _).1
  have hP1 : P ≤ m := by
    have := Finset.sum_le_sum fun k (_ : k ∈ range m) => (hg (rng.getD (k % 2 ^ w) 0)).2
    rw [Finset.sum_const, card_range, nsmul_eq_mul, mul_one] at this
    exact this
  obtain ⟨c, hc⟩ : ∃ c : ℕ, 2 ^ w = m + c := ⟨2 ^ w - m, by omega⟩
  have hR : ∃ R : ℚ, P + R = 2 ^ w * q ∧ 0 ≤ R ∧ R ≤ c := by
    refine ⟨∑ k ∈ range c, g (rng.getD ((m + k) % 2 ^ w) 0), ?_, Finset.sum_nonneg fun k _ => (hg _).1, ?_⟩
    · have := hper 1 0
      simp only [Nat.cast_one, one_mul, range_zero, sum_empty, add_zero] at this
      rw [← this, hP]
      rw [show range (2 ^ w) = range (m + c) by rw [hc], sum_range_add]
    · have := Finset.sum_le_sum fun k (_ : k ∈ range c) => (hg (rng.getD ((m + k) % 2 ^ w) 0)).2
      rw [Finset.sum_const, card_range, nsmul_eq_mul, mul_one] at this
      exact this
  obtain ⟨R, e, hR0, hR1⟩ := hR
  have hcq : (2 : ℚ) ^ w = m + c := by exact_mod_cast hc
  have hpos : (0 : ℚ) < 2 ^ w := by positivity
  have hm0 : (0 : ℚ) ≤ m := by positivity
  have hc0 : (0 : ℚ) ≤ c := by positivity
  push_cast
  have e2 : (a : ℚ) * (2 ^ w * q) + P - q * (a * 2 ^ w + m) = P - q * m := by ring
  rw [e2]
  have e3 : 2 ^ w * (P - q * m) = P * c - m * R := by
    have : 2 ^ w * (P - q * m) = 2 ^ w * P - m * (2 ^ w * q) := by ring
    rw [this, ← e, hcq]; ring
  have b1 : P * c - m * R ≤ m * c := by nlinarith
  have b2 : -(m * c : ℚ) ≤ P * c - m * R := by nlinarith
  have b3 : (m * c : ℚ) ≤ 2 ^ w * (2 ^ w / 4) := by rw [hcq]; nlinarith [sq_nonneg ((m : ℚ) - c)]
  rw [abs_le]
  constructor
  · by_contra hcon
    have := mul_lt_mul_of_pos_left (not_le.1 hcon) hpos
    nlinarith
  · by_contra hcon
    have := mul_lt_mul_of_pos_left (not_le.1 hcon) hpos
    nlinarith

/-- A window call seen by a random second operand. -/
private theorem window_mean {q : ℚ} (w : ℕ) {rng : List ℤ} (hl : rng.length = 2 ^ w) {n t : ℕ} (ht : t ≤ n) (hw : 2 ^ w ≤ t) (K : ℕ) :
    Spec.mean false (Spec.coin q) n (fun y => (Gen.bsGen rng (Spec.windowCount w (fun i => Spec.bit (y i)) t) K : ℚ)) = over q w (rng.getD (K % 2 ^ w) 0) := by
  obtain ⟨s, rfl⟩ : ∃ s, t = s + 2 ^ w := ⟨t - 2 ^ w, by omega⟩
  have hb : ∀ b : ℤ, Gen.bsGen rng b K = ind (b > rng.getD (K % 2 ^ w) 0) := by
    intro b; unfold Gen.bsGen; rw [hl]; norm_cast
  have hwin : ∀ y : ℕ → Bool, Spec.windowCount w (fun i => Spec.bit (y i)) (s + 2 ^ w) = Verif.Spec.ones (fun i => Spec.bit (y (s + i))) (2 ^ w) := by
    intro y
    rw [windowCount_full]; unfold Verif.Spec.ones; rw [sum_range_add]; ring
  simp only [hb, hwin]
  rw [mean_upto false (coin_sum q) ht fun x y hxy => by
    rw [ones_agree fun i hi => by rw [hxy (s + i) (by omega)]]]
  rw [mean_shifts false (coin_sum q) (2 ^ w) s fun y => ((ind (Verif.Spec.ones (fun i => Spec.bit (y i)) (2 ^ w) > rng.getD (K % 2 ^ w) 0) : ℤ) : ℚ)]
  rfl

private theorem bit_mean {q : ℚ} (h0 : 0 ≤ q) (h1 : q ≤ 1) (n : ℕ) {f : (ℕ → Bool) → ℤ} (hf : ∀ y, IsBit (f y)) :
    0 ≤ Spec.mean false (Spec.coin q) n (fun y => (f y : ℚ)) ∧ Spec.mean false (Spec.coin q) n (fun y => (f y : ℚ)) ≤ 1 := by
  have hw : ∀ a, 0 ≤ Spec.coin q a := fun a => by unfold Spec.coin; split_ifs <;> linarith
  have a := mean_mono false hw n (f := fun _ => 0) (g := fun y => (f y : ℚ)) fun y => by rcases hf y with h | h <;> rw [h] <;> norm_num
  have b := mean_mono false hw n (g := fun _ => 1) (f := fun y => (f y : ℚ)) fun y => by rcases hf y with h | h <;> rw [h] <;> norm_num
  rw [mean_const _ (coin_sum q)] at a b
  exact ⟨a, b⟩

private theorem abs_unit {a b : ℚ} (ha : 0 ≤ a ∧ a ≤ 1) (hb : 0 ≤ b ∧ b ≤ 1) : |a - b| ≤ 1 := by
  rw [abs_le]; constructor <;> linarith [ha.1, ha.2, hb.1, hb.2]

private theorem warm_near (N n : ℕ) {f g : ℕ → ℚ} (hfg : ∀ t, |f t - g t| ≤ 1) (he : ∀ t < n, N ≤ t → f t = g t) :
    |∑ t ∈ range n, f t - ∑ t ∈ range n, g t| ≤ N := by
  rw [← sum_sub_distrib]
  refine (abs_sum_le_sum_abs _ _).trans ?_
  have h1 : ∑ t ∈ range n, |f t - g t| ≤ ∑ t ∈ range n, if t < N then (1 : ℚ) else 0 := by
    refine Finset.sum_le_sum fun t ht => ?_
    split_ifs with h
    · exact hfg t
    · rw [he t (mem_range.1 ht) (by omega), sub_self, abs_zero]
  refine h1.trans ?_
  rw [← Finset.sum_filter, Finset.sum_const, nsmul_eq_mul, mul_one]
  have : ((range n).filter fun t => t < N).card ≤ (range N).card := Finset.card_le_card fun t ht => by
    simp only [mem_filter, mem_range] at ht ⊢; exact ht.2
  rw [card_range] at this
  exact_mod_cast this

/-- Input ones read the sequence one after another. -/
private theorem read_ones {x : ℕ → ℤ} (hx : Verif.Spec.BitStream x) (G : ℕ → ℚ) (n : ℕ) :
    ∑ t ∈ range n, (x t : ℚ) * G (Verif.Spec.ones x t).toNat = ∑ k ∈ range (Verif.Spec.ones x n).toNat, G k := by
  induction n with
  | zero => simp
  | succ n ih =>
    rw [sum_range_succ, ih, Verif.Spec.ones_succ]
    have := Verif.Spec.ones_nonneg hx n
    rcases hx n with h | h
    · rw [h]; simp
    · rw [h, Int.toNat_add this (by norm_num), show (1 : ℤ).toNat = 1 from rfl, sum_range_succ]; simp

/-- C101: the in-stream multiplier with any first stream and random bits of rate `q` as second: over `n` cycles the mean number of ones is
`q` times that of the first stream, in the bipolar representation plus `1 - q` times its zeros, up to an error that depends on the window
only and not on the number of cycles. -/
theorem C101_mul_stream {w : ℕ} {rng : List ℤ} (h : Verif.Spec.IsPermSeq w rng) {x : ℕ → ℤ} (hx : Verif.Spec.BitStream x) {q : ℚ} (h0 : 0 ≤ q) (h1 : q ≤ 1)
    (n : ℕ) :
    |Spec.mean false (Spec.coin q) n (fun y => (Verif.Spec.ones (mulStreamOut .unipolar w rng x fun i => Spec.bit (y i)) n : ℚ)) -
        q * Verif.Spec.ones x n| ≤ 5 / 4 * 2 ^ w ∧
    |Spec.mean false (Spec.coin q) n (fun y => (Verif.Spec.ones (mulStreamOut .bipolar w rng x fun i => Spec.bit (y i)) n : ℚ)) -
        (q * Verif.Spec.ones x n + (1 - q) * (n - Verif.Spec.ones x n))| ≤ 3 / 2 * 2 ^ w := by
  have hz : Verif.Spec.BitStream fun t => 1 - x t := fun t => isBit_compl (hx t)
  have hzo : ∀ t, Verif.Spec.ones (fun t => 1 - x t) t = t - Verif.Spec.ones x t := by
    intro t; unfold Verif.Spec.ones; rw [sum_sub_distrib]; simp
  set A : ℕ → ℚ := fun k => over q w (rng.getD (k % 2 ^ w) 0) with hA
  have hAm : ∀ k, 0 ≤ A k ∧ A k ≤ 1 := fun k => over_mem h0 h1 w _
  have hb : ∀ (y : ℕ → Bool) t, mulStreamOut .unipolar w rng x (fun i => Spec.bit (y i)) t =
      x t * Gen.bsGen rng (Spec.windowCount w (fun i => Spec.bit (y i)) t) ((Verif.Spec.ones x t).toNat : ℕ) := fun y t => by
    rw [(C27_bit hx _ w rng h.1 t).1, Int.toNat_of_nonneg (Verif.Spec.ones_nonneg hx t)]
  have hb' : ∀ (y : ℕ → Bool) t, mulStreamOut .bipolar w rng x (fun i => Spec.bit (y i)) t =
      x t * Gen.bsGen rng (Spec.windowCount w (fun i => Spec.bit (y i)) t) ((Verif.Spec.ones x t).toNat : ℕ) +
        (1 - x t) * (1 - Gen.bsGen rng (Spec.windowCount w (fun i => Spec.bit (y i)) t) ((Verif.Spec.ones (fun t => 1 - x t) t).toNat : ℕ)) := fun y t => by
    rw [(C27_bit hx _ w rng h.1 t).2, Int.toNat_of_nonneg (Verif.Spec.ones_nonneg hx t), Int.toNat_of_nonneg (Verif.Spec.ones_nonneg hz t), hzo]
  set B : ℕ → ℕ → ℚ := fun t k => Spec.mean false (Spec.coin q) n (fun y => (Gen.bsGen rng (Spec.windowCount w (fun i => Spec.bit (y i)) t) k : ℚ)) with hB
  have hBm : ∀ t k, 0 ≤ B t k ∧ B t k ≤ 1 := fun t k => bit_mean h0 h1 n fun y => isBit_ind _
  have hBA : ∀ t k, t ≤ n → 2 ^ w ≤ t → B t k = A k := fun t k ht hw => window_mean w h.1 ht hw k
  have r1 : |∑ k ∈ range (Verif.Spec.ones x n).toNat, A k - q * ((Verif.Spec.ones x n).toNat : ℕ)| ≤ 2 ^ w / 4 :=
    read_near h (over_mem h0 h1 w) (over_sum q w) _
  have r2 : |∑ k ∈ range (Verif.Spec.ones (fun t => 1 - x t) n).toNat, A k - q * ((Verif.Spec.ones (fun t => 1 - x t) n).toNat : ℕ)| ≤ 2 ^ w / 4 :=
    read_near h (over_mem h0 h1 w) (over_sum q w) _
  have c1 : (((Verif.Spec.ones x n).toNat : ℕ) : ℚ) = Verif.Spec.ones x n := by
    exact_mod_cast Int.toNat_of_nonneg (Verif.Spec.ones_nonneg hx n)
  have c2 : (((Verif.Spec.ones (fun t => 1 - x t) n).toNat : ℕ) : ℚ) = n - Verif.Spec.ones x n := by
    have := Int.toNat_of_nonneg (Verif.Spec.ones_nonneg hz n)
    rw [hzo] at this
    rw [hzo]; exact_mod_cast this
  rw [c1] at r1; rw [c2] at r2
  constructor
  · have e1 : Spec.mean false (Spec.coin q) n (fun y => (Verif.Spec.ones (mulStreamOut .unipolar w rng x fun i => Spec.bit (y i)) n : ℚ)) =
        ∑ t ∈ range n, (x t : ℚ) * B t (Verif.Spec.ones x t).toNat := by
      unfold Verif.Spec.ones
      simp only [Int.cast_sum]
      rw [mean_sum]
      refine Finset.sum_congr rfl fun t _ => ?_
      simp only [hb, Int.cast_mul, mean_mul]
      rfl
    have e2 := warm_near (2 ^ w) n (f := fun t => (x t : ℚ) * B t (Verif.Spec.ones x t).toNat) (g := fun t => (x t : ℚ) * A (Verif.Spec.ones x t).toNat)
      (fun t => by
        rcases hx t with hh | hh <;> simp only [hh]
        · simp
        · simpa using abs_unit (hBm t _) (hAm _))
      (fun t ht hw => by beta_reduce; rw [hBA t _ ht.le hw])
    rw [read_ones hx A n] at e2
    rw [e1]
    rw [show ((2 ^ w : ℕ) : ℚ) = 2 ^ w by push_cast; rfl] at e2
    have := abs_sub_le (∑ t ∈ range n, (x t : ℚ) * B t (Verif.Spec.ones x t).toNat) (∑ k ∈ range (Verif.Spec.ones x n).toNat, A k) (q * Verif.Spec.ones x n)
    linarith
  · have e1 : Spec.mean false (Spec.coin q) n (fun y => (Verif.Spec.ones (mulStreamOut .bipolar w rng x fun i => Spec.bit (y i)) n : ℚ)) =
        ∑ t ∈ range n, ((x t : ℚ) * B t (Verif.Spec.ones x t).toNat + ((1 - x t : ℤ) : ℚ) * (1 - B t (Verif.Spec.ones (fun t => 1 - x t) t).toNat)) := by
      conv_lhs => unfold Verif.Spec.ones
      simp only [Int.cast_sum]
      rw [mean_sum]
      refine Finset.sum_congr rfl fun t _ => ?_
      simp only [hb', Int.cast_add, Int.cast_mul, mean_add, mean_mul]
      congr 1
      congr 1
      simp only [Int.cast_sub, Int.cast_one, mean_sub]
      rw [mean_const _ (coin_sum q)]
    have e2 := warm_near (2 ^ w) n
      (f := fun t => (x t : ℚ) * B t (Verif.Spec.ones x t).toNat + ((1 - x t : ℤ) : ℚ) * (1 - B t (Verif.Spec.ones (fun t => 1 - x t) t).toNat))
      (g := fun t => (x t : ℚ) * A (Verif.Spec.ones x t).toNat + ((1 - x t : ℤ) : ℚ) * (1 - A (Verif.Spec.ones (fun t => 1 - x t) t).toNat))
      (fun t => by
        have a1 := abs_unit (hBm t (Verif.Spec.ones x t).toNat) (hAm (Verif.Spec.ones x t).toNat)
        have a2 := abs_unit (hAm (Verif.Spec.ones (fun t => 1 - x t) t).toNat) (hBm t (Verif.Spec.ones (fun t => 1 - x t) t).toNat)
        rcases hx t with hh | hh <;> simp only [hh]
        · simpa using a2
        · simpa using a1)
      (fun t ht hw => by beta_reduce; rw [hBA t _ ht.le hw, hBA t _ ht.le hw])
    have e3 : ∑ t ∈ range n, ((x t : ℚ) * A (Verif.Spec.ones x t).toNat + ((1 - x t : ℤ) : ℚ) * (1 - A (Verif.Spec.ones (fun t => 1 - x t) t).toNat)) =
        ∑ k ∈ range (Verif.Spec.ones x n).toNat, A k + ((n - Verif.Spec.ones x n) - ∑ k ∈ range (Verif.Spec.ones (fun t => 1 - x t) n).toNat, A k) := by
      rw [sum_add_distrib, read_ones hx A n, read_ones hz (fun k => 1 - A k) n, sum_sub_distrib, sum_const, card_range, nsmul_eq_mul, mul_one, c2]
    rw [e3] at e2
    rw [e1]
    rw [show ((2 ^ w : ℕ) : ℚ) = 2 ^ w by push_cast; rfl] at e2
    rw [abs_le] at e2 r1 r2 ⊢
    constructor <;> linarith [e2.1, e2.2, r1.1, r1.2, r2.1, r2.2]

end Verif.Props
