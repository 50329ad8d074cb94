import Verif.Model.RtlKern
import Verif.Props.RtlMore
import Mathlib.Analysis.Complex.Exponential

/-!
# Property C81: the remaining kernels of `hw/kernel/old`
-/

namespace Verif.Props

open Verif Finset

/-! ## Rectifier -/

private theorem upOnly_toNat {n : ℕ} {c : BitVec n} (h : c.toNat ≠ 0) (inc dec : Bool) :
    (Rtl.upOnly c inc dec).toNat = if inc && !dec then min (c.toNat + 1) (2 ^ n - 1) else c.toNat := by
  have hz : ¬ c = 0 := fun h0 => h ((bv_zero c).1 h0)
  have hlt := c.isLt
  unfold Rtl.upOnly
  by_cases hf : c = BitVec.allOnes n
  · have := (bv_full c).1 hf
    rw [decide_eq_true hf, decide_eq_false hz]
    cases inc <;> cases dec <;> simp
    omega
  · have h1 : c.toNat ≠ 2 ^ n - 1 := fun h0 => hf ((bv_full c).2 h0)
    rw [decide_eq_false hf, decide_eq_false hz]
    cases inc <;> cases dec <;> simp
    rw [Nat.mod_eq_of_lt (by omega)]
    omega

private theorem relu_bit {H c : ℕ} {k : ℤ} (hH : 0 < H) (hk : 0 ≤ k) (hc : (c : ℤ) = min (H + k) (4 * H - 1)) :
    c / H % 2 = 1 ↔ ¬ ((H : ℤ) ≤ k ∧ k < 2 * H) := by
  have : c / H = 1 ∨ c / H = 2 ∨ c / H = 3 := by
    have h1 : 1 ≤ c / H := (Nat.le_div_iff_mul_le hH).2 (by omega)
    have h2 : c / H < 4 := (Nat.div_lt_iff_lt_mul hH).2 (by omega)
    omega
  have hdm := Nat.div_add_mod c H
  have hml := Nat.mod_lt c hH
  rcases this with h | h | h <;> rw [h] at hdm ⊢ <;> constructor <;> intro h' <;> omega

private theorem relu_state {d : ℕ} (hd : 1 ≤ d) (x : ℕ → Bool) (n : ℕ) :
    ((stateAt (Rtl.reluStep d) (Rtl.reluInit d) x n).toNat : ℤ)
      = min (2 ^ (d - 1) + Verif.Spec.ones (Spec.nums x) n) (4 * 2 ^ (d - 1) - 1) := by
  obtain ⟨e, rfl⟩ : ∃ e, d = e + 1 := ⟨d - 1, by omega⟩
  have hp : (0 : ℤ) < 2 ^ e := by positivity
  have h4 : ((2 ^ (e + 1 + 1) : ℕ) : ℤ) = 4 * 2 ^ e := by push_cast; ring
  have hpos : ∀ m, 0 ≤ Verif.Spec.ones (Spec.nums x) m := fun m =>
    sum_nonneg fun t _ => by unfold Spec.nums Spec.num; split_ifs <;> norm_num
  rw [Nat.add_sub_cancel]
  induction n with
  | zero =>
      show ((BitVec.twoPow (e + 1 + 1) e).toNat : ℤ) = _
      rw [BitVec.toNat_twoPow, Nat.mod_eq_of_lt (Nat.pow_lt_pow_right (by norm_num) (by omega))]
      simp [Verif.Spec.ones]
      omega
  | succ n ih =>
      have hn := hpos n
      have hz : (stateAt (Rtl.reluStep (e + 1)) (Rtl.reluInit (e + 1)) x n).toNat ≠ 0 := by
        intro h0
        rw [h0] at ih
        push_cast at ih
        omega
      rw [stateAt_succ]
      show ((Rtl.upOnly _ (x n) (!x n)).toNat : ℤ) = _
      rw [upOnly_toNat hz, Verif.Spec.ones_succ]
      have h1 : (1 : ℕ) ≤ 2 ^ (e + 1 + 1) := Nat.one_le_two_pow
      cases hx : x n
      · simp [Spec.nums, Spec.num, hx, ih]
      · simp [Spec.nums, Spec.num, hx, Nat.cast_sub h1]
        rw [ih]
        have h4' : (2 : ℤ) ^ (e + 1 + 1) = 4 * 2 ^ e := by ring
        omega

/-- C81: `relu` does not rectify: whatever the stream, it passes the first `2^(d-1)` ones, drops the next `2^(d-1)` and passes all
ones after those. -/
theorem C81_relu {d : ℕ} (hd : 1 ≤ d) (x : ℕ → Bool) (n : ℕ) :
    Verif.Spec.ones (Spec.nums (outAt (Rtl.reluStep d) (Rtl.reluInit d) x)) n
      = Verif.Spec.ones (Spec.nums x) n
        - min (max (Verif.Spec.ones (Spec.nums x) n - 2 ^ (d - 1)) 0) (2 ^ (d - 1)) := by
  have hst := relu_state hd x
  obtain ⟨e, rfl⟩ : ∃ e, d = e + 1 := ⟨d - 1, by omega⟩
  rw [Nat.add_sub_cancel] at *
  have hp : (0 : ℤ) < 2 ^ e := by positivity
  have hpos : ∀ m, 0 ≤ Verif.Spec.ones (Spec.nums x) m := fun m =>
    sum_nonneg fun t _ => by unfold Spec.nums Spec.num; split_ifs <;> norm_num
  induction n with
  | zero => simp [Verif.Spec.ones]
  | succ n ih =>
      rw [Verif.Spec.ones_succ, ih, Verif.Spec.ones_succ]
      have hn := hpos n
      have hs := hst n
      have hout : outAt (Rtl.reluStep (e + 1)) (Rtl.reluInit (e + 1)) x n
          = if (stateAt (Rtl.reluStep (e + 1)) (Rtl.reluInit (e + 1)) x n).toNat / 2 ^ e % 2 = 1 then x n else false := by
        show (if (stateAt (Rtl.reluStep (e + 1)) (Rtl.reluInit (e + 1)) x n).getLsbD (e + 1 - 1) then x n else false) = _
        rw [Nat.add_sub_cancel, BitVec.getLsbD, Nat.testBit_eq_decide_div_mod_eq]
        simp
      have hbit : (stateAt (Rtl.reluStep (e + 1)) (Rtl.reluInit (e + 1)) x n).toNat / 2 ^ e % 2 = 1 ↔
          ¬ (2 ^ e ≤ Verif.Spec.ones (Spec.nums x) n ∧ Verif.Spec.ones (Spec.nums x) n < 2 * 2 ^ e) := by
        have := relu_bit (H := 2 ^ e) (by positivity) hn (by rw [hs]; push_cast; rfl)
        push_cast at this
        exact this
      show _ + Spec.num _ = _ + Spec.num (x n) - _
      rw [hout]
      generalize Verif.Spec.ones (Spec.nums x) n = k at *
      generalize (2 : ℤ) ^ e = H at *
      cases hx : x n
      · simp [Spec.num, Spec.nums, hx]
      · have h1 : Spec.nums x n = 1 := by simp [Spec.num, Spec.nums, hx]
        rw [h1]
        by_cases hb : (stateAt (Rtl.reluStep (e + 1)) (Rtl.reluInit (e + 1)) x n).toNat / 2 ^ e % 2 = 1
        · have := hbit.1 hb
          rw [if_pos hb]
          simp only [Spec.num, if_true]
          omega
        · have : H ≤ k ∧ k < 2 * H := by
            by_contra hc
            exact hb (hbit.2 hc)
          rw [if_neg hb]
          simp only [Spec.num, if_true, Bool.false_eq_true, if_false]
          omega

/-- Non-vacuity: the stream of ones through the shipped depth. -/
example : Verif.Spec.ones (Spec.nums (outAt (Rtl.reluStep 4) (Rtl.reluInit 4) fun _ => true)) 20 = 12 := by
  rw [C81_relu (by norm_num)]
  decide +kernel

/-- Non-vacuity: a stream of value `-1/2`, which a rectifier should silence, is passed unchanged as long as it has at most eight
ones. -/
example : Verif.Spec.ones (Spec.nums (outAt (Rtl.reluStep 4) (Rtl.reluInit 4) fun t => decide (t % 4 = 0))) 32 = 8 := by
  rw [C81_relu (by norm_num)]
  decide +kernel

/-! ## Square root by a counter -/

/-- Outputs of `sqrt`. -/
def sqrtOldOut (d : ℕ) (r : ℕ → BitVec d) (x : ℕ → Bool) : ℕ → Bool :=
  outAt (Rtl.sqrtOldStep d) (Rtl.half d, false) fun t => (r t, x t)

private theorem half_val {d : ℕ} (hd : 1 ≤ d) : (Rtl.half d).toNat = 2 ^ (d - 1) := by
  unfold Rtl.half
  rw [BitVec.toNat_twoPow, Nat.mod_eq_of_lt (Nat.pow_lt_pow_right (by norm_num) (by omega))]

private theorem sqrtOld_rise {d : ℕ} (hd : 1 ≤ d) (r : ℕ → BitVec d) (x : ℕ → Bool) (n : ℕ) :
    2 ^ (d - 1) ≤ (stateAt (Rtl.sqrtOldStep d) (Rtl.half d, false) (fun t => (r t, x t)) n).1.toNat ∧
    (stateAt (Rtl.sqrtOldStep d) (Rtl.half d, false) (fun t => (r t, x t)) n).1.toNat
      ≤ (stateAt (Rtl.sqrtOldStep d) (Rtl.half d, false) (fun t => (r t, x t)) (n + 1)).1.toNat := by
  have hp : 0 < 2 ^ (d - 1) := by positivity
  have step : ∀ n, 2 ^ (d - 1) ≤ (stateAt (Rtl.sqrtOldStep d) (Rtl.half d, false) (fun t => (r t, x t)) n).1.toNat →
      (stateAt (Rtl.sqrtOldStep d) (Rtl.half d, false) (fun t => (r t, x t)) n).1.toNat
      ≤ (stateAt (Rtl.sqrtOldStep d) (Rtl.half d, false) (fun t => (r t, x t)) (n + 1)).1.toNat := by
    intro n h
    rw [stateAt_succ]
    show _ ≤ (Rtl.upOnly _ _ _).toNat
    rw [upOnly_toNat (by omega)]
    have := (stateAt (Rtl.sqrtOldStep d) (Rtl.half d, false) (fun t => (r t, x t)) n).1.isLt
    split_ifs <;> omega
  have lo : ∀ n, 2 ^ (d - 1) ≤ (stateAt (Rtl.sqrtOldStep d) (Rtl.half d, false) (fun t => (r t, x t)) n).1.toNat := by
    intro n
    induction n with
    | zero => exact (half_val hd).ge
    | succ n ih => exact ih.trans (step n ih)
  exact ⟨lo n, step n (lo n)⟩

private theorem sqrtOld_out (d : ℕ) (r : ℕ → BitVec d) (x : ℕ → Bool) (t : ℕ) :
    sqrtOldOut d r x t = true ↔
      (r t).toNat ≤ (stateAt (Rtl.sqrtOldStep d) (Rtl.half d, false) (fun t => (r t, x t)) t).1.toNat := by
  show (r t).ule _ = true ↔ _
  rw [BitVec.ule]
  exact decide_eq_true_iff

/-- C81: the counter of `sqrt` can not fall, so whatever the input the output is one whenever the random number is at most half
the range, and a random number answered with a one once is answered with a one ever after. -/
theorem C81_sqrt_stuck {d : ℕ} (hd : 1 ≤ d) (r : ℕ → BitVec d) (x : ℕ → Bool) (t : ℕ) :
    ((r t).toNat ≤ 2 ^ (d - 1) → sqrtOldOut d r x t = true) ∧
    ∀ u ≥ t, (r u).toNat ≤ (r t).toNat → sqrtOldOut d r x t = true → sqrtOldOut d r x u = true := by
  refine ⟨fun h => (sqrtOld_out d r x t).2 (h.trans (sqrtOld_rise hd r x t).1), fun u hu hr ht => ?_⟩
  rw [sqrtOld_out] at *
  have : ∀ k, (stateAt (Rtl.sqrtOldStep d) (Rtl.half d, false) (fun t => (r t, x t)) t).1.toNat
      ≤ (stateAt (Rtl.sqrtOldStep d) (Rtl.half d, false) (fun t => (r t, x t)) (t + k)).1.toNat := by
    intro k
    induction k with
    | zero => exact le_rfl
    | succ k ih => exact ih.trans (sqrtOld_rise hd r x (t + k)).2
  obtain ⟨k, rfl⟩ := Nat.exists_eq_add_of_le hu
  exact hr.trans (ht.trans (this k))

/-- C81: in particular the square root of nought has a one exactly in the cycles whose random number is at most half the range. -/
theorem C81_sqrt_zero {d : ℕ} (hd : 1 ≤ d) (r : ℕ → BitVec d) (t : ℕ) :
    sqrtOldOut d r (fun _ => false) t = decide ((r t).toNat ≤ 2 ^ (d - 1)) := by
  have hp : 0 < 2 ^ (d - 1) := by positivity
  have h : ∀ n, (stateAt (Rtl.sqrtOldStep d) (Rtl.half d, false) (fun t => (r t, false)) n).1 = Rtl.half d := by
    intro n
    induction n with
    | zero => rfl
    | succ n ih =>
        rw [stateAt_succ]
        show Rtl.upOnly _ false _ = _
        apply BitVec.eq_of_toNat_eq
        rw [upOnly_toNat (by rw [ih, half_val hd]; omega), ih]
        simp
  rw [Bool.eq_iff_iff, sqrtOld_out, h, half_val hd, decide_eq_true_iff]

example : (List.range 4).map (sqrtOldOut 2 (fun t => BitVec.ofNat 2 t) fun _ => false) = [true, true, true, false] := by
  decide +kernel

/-! ## Division and square root by a saturating counter -/

/-- Counter and quotients of `gdiv4b/5b`. -/
def gdivOldCnt (d : ℕ) (r : ℕ → BitVec d) (x y : ℕ → Bool) : ℕ → BitVec d :=
  stateAt (Rtl.gdivOldStep d) (Rtl.half d) fun t => (r t, x t, y t)
def gdivOldOut (d : ℕ) (r : ℕ → BitVec d) (x y : ℕ → Bool) : ℕ → Bool :=
  outAt (Rtl.gdivOldStep d) (Rtl.half d) fun t => (r t, x t, y t)

private theorem ones_diff (a b : ℕ → Bool) (n : ℕ) : ∑ t ∈ range n, 2 * (Spec.num (a t) - Spec.num (b t))
    = 2 * (Verif.Spec.ones (Spec.nums a) n - Verif.Spec.ones (Spec.nums b) n) := by
  unfold Verif.Spec.ones Spec.nums
  rw [← mul_sum, sum_sub_distrib]

/-- C81: for `gdiv4b` and `gdiv5b` the ones of quotient and divisor together follow the ones of the dividend, up to half the counter
range and the cycles with the counter full or empty. -/
theorem C81_gdiv {d : ℕ} (hd : 1 ≤ d) (r : ℕ → BitVec d) (x y : ℕ → Bool) (n : ℕ) :
    Verif.Spec.ones (Spec.nums x) n - (2 ^ (d - 1) - 1) - Spec.fullCycles (gdivOldCnt d r x y) n
      ≤ Verif.Spec.ones (Spec.nums fun t => gdivOldOut d r x y t && y t) n ∧
    Verif.Spec.ones (Spec.nums fun t => gdivOldOut d r x y t && y t) n
      ≤ Verif.Spec.ones (Spec.nums x) n + 2 ^ (d - 1) + Spec.emptyCycles (gdivOldCnt d r x y) n := by
  have h := upDown_balance hd (gdivOldCnt d r x y) rfl x (fun t => gdivOldOut d r x y t && y t) (fun t => rfl)
    (fun t => 2 * (Spec.num (x t) - Spec.num (gdivOldOut d r x y t && y t))) (fun t => rfl) n
  rw [ones_diff x (fun t => gdivOldOut d r x y t && y t)] at h
  constructor <;> linarith [h.1, h.2]

/-- C81: the comparison is `>=`, so the random number nought always gives a quotient bit one: nought divided by anything is not
nought. -/
theorem C81_gdiv_floor {d : ℕ} (r : ℕ → BitVec d) (x y : ℕ → Bool) (t : ℕ) (h : r t = 0) : gdivOldOut d r x y t = true := by
  show (r t).ule _ = true
  rw [h, BitVec.ule]
  simp

/-- Counter and outputs of `gsqrt4b/5b`. -/
def gsqrtOldCnt (d : ℕ) (r : ℕ → BitVec d) (x : ℕ → Bool) (t : ℕ) : BitVec d :=
  (stateAt (Rtl.gsqrtOldStep d) (Rtl.half d, false) (fun t => (r t, x t)) t).1
def gsqrtOldOut (d : ℕ) (r : ℕ → BitVec d) (x : ℕ → Bool) : ℕ → Bool :=
  outAt (Rtl.gsqrtOldStep d) (Rtl.half d, false) fun t => (r t, x t)

/-- C81: likewise for `gsqrt4b` and `gsqrt5b`: the pairs of successive output ones follow the ones of the input; and the random number
nought always gives a one. -/
theorem C81_gsqrt {d : ℕ} (hd : 1 ≤ d) (r : ℕ → BitVec d) (x : ℕ → Bool) (n : ℕ) :
    Verif.Spec.ones (Spec.nums x) n - (2 ^ (d - 1) - 1) - Spec.fullCycles (gsqrtOldCnt d r x) n
      ≤ Verif.Spec.ones (Spec.nums fun t => gsqrtOldOut d r x t && Spec.late (gsqrtOldOut d r x) t) n ∧
    Verif.Spec.ones (Spec.nums fun t => gsqrtOldOut d r x t && Spec.late (gsqrtOldOut d r x) t) n
      ≤ Verif.Spec.ones (Spec.nums x) n + 2 ^ (d - 1) + Spec.emptyCycles (gsqrtOldCnt d r x) n ∧
    (r n = 0 → gsqrtOldOut d r x n = true) := by
  have hl : ∀ t, (stateAt (Rtl.gsqrtOldStep d) (Rtl.half d, false) (fun t => (r t, x t)) t).2 = Spec.late (gsqrtOldOut d r x) t := by
    intro t; cases t <;> rfl
  have h := upDown_balance hd (gsqrtOldCnt d r x) rfl x (fun t => gsqrtOldOut d r x t && Spec.late (gsqrtOldOut d r x) t)
    (fun t => by rw [← hl]; rfl)
    (fun t => 2 * (Spec.num (x t) - Spec.num (gsqrtOldOut d r x t && Spec.late (gsqrtOldOut d r x) t))) (fun t => rfl) n
  rw [ones_diff x (fun t => gsqrtOldOut d r x t && Spec.late (gsqrtOldOut d r x) t)] at h
  refine ⟨by linarith [h.1], by linarith [h.2], fun h => ?_⟩
  show (r n).ule _ = true
  rw [h, BitVec.ule]
  simp

/-- Non-vacuity: `1/4` divided by `1/2` with four bits; over 32 cycles the counter is never full nor empty. -/
example :
    let x : ℕ → Bool := fun t => decide (t % 4 = 0)
    let y : ℕ → Bool := fun t => decide (t % 2 = 0)
    let r : ℕ → BitVec 4 := fun t => BitVec.ofNat 4 (7 * t)
    Spec.fullCycles (gdivOldCnt 4 r x y) 32 = 0 ∧ Spec.emptyCycles (gdivOldCnt 4 r x y) 32 = 0 ∧
      Verif.Spec.ones (Spec.nums (gdivOldOut 4 r x y)) 32 = 18 := by
  decide +kernel

/-- Non-vacuity: nought divided by one still has a one in every sixteen cycles. -/
example : Verif.Spec.ones (Spec.nums (gdivOldOut 4 (fun t => BitVec.ofNat 4 (7 * t)) (fun _ => false) fun _ => true)) 160
    = 16 := by
  decide +kernel

end Verif.Props
