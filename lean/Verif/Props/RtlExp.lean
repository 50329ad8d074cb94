import Verif.Props.RtlKernDiv

/-!
# Property C82: what `exp` of `hw/kernel/old` computes
-/

namespace Verif.Props

open Verif Finset

/-- The inputs of `exp` in one cycle: `randBit[0]`, `randBit[1]`, `randBit[2]`, `in`. -/
abbrev ExpIn := Bool × Bool × Bool × Bool

/-- Outputs of `exp`. -/
def expOut (i : ℕ → ExpIn) : ℕ → Bool := outAt Rtl.expStep (false, false, false) i

/-- C82: the output bit of `exp` in terms of the inputs of the last four cycles. -/
theorem C82_bit (i : ℕ → ExpIn) (t : ℕ) :
    expOut i (t + 3) = if (i (t + 3)).2.2.1
      then (i t).2.2.2 && (!(i (t + 1)).1 && (i (t + 1)).2.2.2) &&
        ((i (t + 2)).2.1 || (!(i (t + 2)).1 && (i (t + 2)).2.2.2))
      else (i (t + 3)).1 || (i (t + 3)).2.2.2 := by
  have one : ∀ n, stateAt Rtl.expStep (false, false, false) i (n + 1)
      = (Rtl.expStep (stateAt Rtl.expStep (false, false, false) i n) (i n)).1 := fun n => stateAt_succ _ _ _ n
  show (Rtl.expStep (stateAt Rtl.expStep (false, false, false) i (t + 2 + 1)) (i (t + 3))).2 = _
  rw [one (t + 2), one (t + 1), one t]
  simp only [Rtl.expStep]
  cases (i (t + 3)).2.2.1 <;> cases (i (t + 3)).1 <;> cases (i (t + 2)).2.1 <;> cases (i (t + 2)).1 <;>
    cases (i (t + 1)).1 <;> simp

/-- Mean of `f` over a bit that is one with probability `p`. -/
noncomputable def Spec.meanBit (p : ℝ) (f : Bool → ℝ) : ℝ := p * f true + (1 - p) * f false

/-- Mean of `f` over one cycle's inputs: independent bits, the random ones with probabilities `p0`, `p1`, `p2`, the input one with
probability `x`. -/
noncomputable def Spec.meanIn (p0 p1 p2 x : ℝ) (f : ExpIn → ℝ) : ℝ :=
  Spec.meanBit p0 fun a => Spec.meanBit p1 fun b => Spec.meanBit p2 fun c => Spec.meanBit x fun d => f (a, b, c, d)

/-- Mean of `f` over the inputs of `n` successive independent cycles from cycle `t` on; the other inputs are as in `i`. -/
noncomputable def Spec.meanRun (p0 p1 p2 x : ℝ) : ℕ → ℕ → (ℕ → ExpIn) → ((ℕ → ExpIn) → ℝ) → ℝ
  | 0, _, i, f => f i
  | n + 1, t, i, f => Spec.meanIn p0 p1 p2 x fun v => Spec.meanRun p0 p1 p2 x n (t + 1) (Function.update i t v) f

private theorem mean3 (p0 p1 p2 x A : ℝ) : Spec.meanIn p0 p1 p2 x
    (fun v : ExpIn => if v.2.2.1 then A else (if v.1 then 1 else if v.2.2.2 then 1 else 0))
    = p2 * A + (1 - p2) * (p0 + (1 - p0) * x) := by
  simp only [Spec.meanIn, Spec.meanBit, if_true, Bool.false_eq_true, if_false]; ring

private theorem mean2 (p0 p1 p2 x q B C : ℝ) : Spec.meanIn p0 p1 p2 x
    (fun v : ExpIn => q * (B * (if v.2.1 then 1 else (if v.1 then 0 else 1) * (if v.2.2.2 then 1 else 0))) + C)
    = q * (B * (p1 + (1 - p1) * (1 - p0) * x)) + C := by
  simp only [Spec.meanIn, Spec.meanBit, if_true, Bool.false_eq_true, if_false]; ring

private theorem mean1 (p0 p1 p2 x q B C D : ℝ) : Spec.meanIn p0 p1 p2 x
    (fun v : ExpIn => q * (B * ((if v.1 then 0 else 1) * (if v.2.2.2 then 1 else 0)) * D) + C)
    = q * (B * ((1 - p0) * x) * D) + C := by
  simp only [Spec.meanIn, Spec.meanBit, if_true, Bool.false_eq_true, if_false]; ring

private theorem mean0 (p0 p1 p2 x q C D E : ℝ) : Spec.meanIn p0 p1 p2 x
    (fun v : ExpIn => q * ((if v.2.2.2 then 1 else 0) * E * D) + C) = q * (x * E * D) + C := by
  simp only [Spec.meanIn, Spec.meanBit, if_true, Bool.false_eq_true, if_false]; ring

/-- C82: whatever came before, the mean of the output over four independent cycles is a polynomial of third degree in the
probability of the input. -/
theorem C82_mean (p0 p1 p2 x : ℝ) (i : ℕ → ExpIn) (t : ℕ) :
    Spec.meanRun p0 p1 p2 x 4 t i (fun i => ((Spec.num (expOut i (t + 3)) : ℤ) : ℝ))
      = (1 - p2) * (p0 + (1 - p0) * x) + p2 * (1 - p0) * x ^ 2 * (p1 + (1 - p1) * (1 - p0) * x) := by
  simp only [Spec.meanRun]
  have h : ∀ v0 v1 v2 v3 : ExpIn, ((Spec.num (expOut (Function.update (Function.update (Function.update (Function.update i t v0)
      (t + 1) v1) (t + 1 + 1) v2) (t + 1 + 1 + 1) v3) (t + 3)) : ℤ) : ℝ)
      = if v3.2.2.1 then (if v0.2.2.2 then 1 else 0) * ((if v1.1 then 0 else 1) * (if v1.2.2.2 then 1 else 0)) *
          (if v2.2.1 then 1 else (if v2.1 then 0 else 1) * (if v2.2.2.2 then 1 else 0))
        else (if v3.1 then 1 else if v3.2.2.2 then 1 else 0) := by
    intro v0 v1 v2 v3
    rw [C82_bit]
    have e0 : Function.update (Function.update (Function.update (Function.update i t v0) (t + 1) v1) (t + 1 + 1) v2)
        (t + 1 + 1 + 1) v3 t = v0 := by
      rw [Function.update_of_ne (by omega), Function.update_of_ne (by omega), Function.update_of_ne (by omega), Function.update_self]
    have e1 : Function.update (Function.update (Function.update (Function.update i t v0) (t + 1) v1) (t + 1 + 1) v2)
        (t + 1 + 1 + 1) v3 (t + 1) = v1 := by
      rw [Function.update_of_ne (by omega), Function.update_of_ne (by omega), Function.update_self]
    have e2 : Function.update (Function.update (Function.update (Function.update i t v0) (t + 1) v1) (t + 1 + 1) v2)
        (t + 1 + 1 + 1) v3 (t + 2) = v2 := by
      rw [Function.update_of_ne (by omega), Function.update_self]
    have e3 : Function.update (Function.update (Function.update (Function.update i t v0) (t + 1) v1) (t + 1 + 1) v2)
        (t + 1 + 1 + 1) v3 (t + 3) = v3 := Function.update_self ..
    rw [e0, e1, e2, e3]
    unfold Spec.num
    obtain ⟨a0, b0, c0, d0⟩ := v0
    obtain ⟨a1, b1, c1, d1⟩ := v1
    obtain ⟨a2, b2, c2, d2⟩ := v2
    obtain ⟨a3, b3, c3, d3⟩ := v3
    cases c3 <;> cases a3 <;> cases d3 <;> cases d0 <;> cases a1 <;> cases d1 <;> cases b2 <;> cases a2 <;> cases d2 <;> simp
  simp only [h, mean3, mean2, mean1, mean0]
  ring

/-- C82: with fair random bits this is `1/4 + x/4 + x²/8 + x³/16`, which lies between `e^x / 4` and `e^x / 4 + 1/96`. -/
theorem C82_exp {x : ℝ} (h0 : 0 ≤ x) (h1 : x ≤ 1) (i : ℕ → ExpIn) (t : ℕ) :
    Real.exp x / 4 ≤ Spec.meanRun (1 / 2) (1 / 2) (1 / 2) x 4 t i (fun i => ((Spec.num (expOut i (t + 3)) : ℤ) : ℝ)) ∧
    Spec.meanRun (1 / 2) (1 / 2) (1 / 2) x 4 t i (fun i => ((Spec.num (expOut i (t + 3)) : ℤ) : ℝ)) ≤ Real.exp x / 4 + 1 / 96 := by
  rw [C82_mean]
  have lo := Real.sum_le_exp_of_nonneg h0 5
  have hi := Real.exp_bound' h0 h1 (n := 4) (by norm_num)
  simp [Finset.sum_range_succ, Nat.factorial] at lo hi
  have h3 : 0 ≤ x ^ 3 := by positivity
  have h4 : x ^ 4 ≤ x ^ 3 := pow_le_pow_of_le_one h0 h1 (by norm_num)
  have h31 : x ^ 3 ≤ 1 := pow_le_one₀ h0 h1
  have h5 : x ^ 3 * (2 - x) ≤ 1 := by nlinarith [mul_nonneg h3 (sub_nonneg.2 h1), pow_le_one₀ h0 h1 (n := 2), mul_nonneg h0 (sub_nonneg.2 h1), sq_nonneg (x - 1), sq_nonneg x]
  constructor
  · nlinarith
  · nlinarith

/-- Non-vacuity: the input one gives `11/16`, `e / 4` being `0.6796`; a silent input gives `1/4`. -/
example (i : ℕ → ExpIn) (t : ℕ) :
    Spec.meanRun (1 / 2) (1 / 2) (1 / 2) 1 4 t i (fun i => ((Spec.num (expOut i (t + 3)) : ℤ) : ℝ)) = 11 / 16 ∧
    Spec.meanRun (1 / 2) (1 / 2) (1 / 2) 0 4 t i (fun i => ((Spec.num (expOut i (t + 3)) : ℤ) : ℝ)) = 1 / 4 := by
  constructor <;> rw [C82_mean] <;> norm_num

example : (List.range 6).map (expOut fun t => (false, true, decide (t % 2 = 1), true)) = [true, false, true, true, true, true] := by
  decide +kernel

end Verif.Props
