import Verif.Props.Rtl
import Verif.Props.Mul
import Verif.Proofs.Sobol

/-!
# Property C66: the hardware Sobol generator and the hardware multipliers
-/

namespace Verif.Props

open Verif Finset Gen

/-! ## The least significant zero -/

theorem rz_bits (i : ℕ) : (∀ j < rightmostZero i, i.testBit j = true) ∧ i.testBit (rightmostZero i) = false := by
  induction i using Nat.strong_induction_on with
  | _ i ih =>
      rcases Nat.even_or_odd' i with ⟨k, h | h⟩
      · subst h
        rw [rightmostZero_even]
        exact ⟨fun j hj => by omega, by simp⟩
      · subst h
        rw [rightmostZero_odd]
        obtain ⟨h1, h2⟩ := ih k (by omega)
        refine ⟨fun j hj => ?_, ?_⟩
        · cases j with
          | zero => simp [Nat.testBit_zero]
          | succ j =>
              rw [Nat.testBit_succ, show (2 * k + 1) / 2 = k by omega]
              exact h1 j (by omega)
        · rw [Nat.add_comm 1, Nat.testBit_succ, show (2 * k + 1) / 2 = k by omega]
          exact h2

private theorem inacc_eq {w : ℕ} (x : BitVec w) (i : ℕ) (hi : i < w) :
    Rtl.inacc x i = decide (rightmostZero x.toNat ≤ i) := by
  obtain ⟨h1, h2⟩ := rz_bits x.toNat
  induction i with
  | zero =>
      show (!x.getLsbD 0) = _
      rw [← BitVec.testBit_toNat]
      by_cases h : rightmostZero x.toNat ≤ 0
      · have e : rightmostZero x.toNat = 0 := by omega
        rw [e] at h2 ⊢
        simp [h2]
      · rw [h1 0 (by omega)]
        simp [h]
  | succ i ih =>
      show (Rtl.inacc x i || !x.getLsbD (i + 1)) = _
      rw [ih (by omega), ← BitVec.testBit_toNat]
      by_cases h : rightmostZero x.toNat ≤ i
      · simp [h, show rightmostZero x.toNat ≤ i + 1 by omega]
      · by_cases h' : rightmostZero x.toNat = i + 1
        · rw [h'] at h2 ⊢
          simp [h2]
        · rw [h1 (i + 1) (by omega)]
          simp [h, show ¬ rightmostZero x.toNat ≤ i + 1 by omega]

private theorem outoh_eq {w : ℕ} (x : BitVec w) (i : ℕ) (hi : i < w) :
    Rtl.outoh x i = decide (i = rightmostZero x.toNat) := by
  cases i with
  | zero =>
      show Rtl.inacc x 0 = _
      rw [inacc_eq x 0 hi, decide_eq_decide]; omega
  | succ i =>
      show (Rtl.inacc x i ^^ Rtl.inacc x (i + 1)) = _
      rw [inacc_eq x i (by omega), inacc_eq x (i + 1) hi]
      by_cases h : rightmostZero x.toNat ≤ i
      · simp [h, show rightmostZero x.toNat ≤ i + 1 by omega, show ¬ i + 1 = rightmostZero x.toNat by omega]
      · by_cases h' : i + 1 = rightmostZero x.toNat
        · simp [h, h']
        · simp [h, h', show ¬ rightmostZero x.toNat ≤ i + 1 by omega]

/-- The hardware index: the least significant zero of the counter, or `0` if there is none. -/
theorem lsz_eq {w : ℕ} (x : BitVec w) :
    Rtl.lszIdx x = if x.toNat + 1 < 2 ^ w then rightmostZero x.toNat else 0 := by
  unfold Rtl.lszIdx
  split_ifs with h
  · have hr := rightmostZero_lt h
    have : (List.range w).find? (fun i => decide (∀ j < w, Rtl.outoh x j = decide (j = i)))
        = some (rightmostZero x.toNat) := by
      rw [List.find?_range_eq_some]
      refine ⟨by simpa using fun j hj => outoh_eq x j hj, by simpa using hr, fun i hi => ?_⟩
      simp only [Bool.not_eq_true', decide_eq_false_iff_not]
      intro hall
      have h1 := hall _ hr
      rw [outoh_eq x _ hr] at h1
      simp at h1
      omega
    rw [this]; rfl
  · have hx := x.isLt
    have e : x.toNat = 2 ^ w - 1 := by omega
    have : (List.range w).find? (fun i => decide (∀ j < w, Rtl.outoh x j = decide (j = i))) = none := by
      rw [List.find?_eq_none]
      intro i hi
      simp only [decide_eq_true_eq]
      intro hall
      have hi' := List.mem_range.1 hi
      have h1 := hall i hi'
      rw [outoh_eq x i hi', e, rightmostZero_pred] at h1
      simp at h1
      omega
    rw [this]; rfl

/-! ## The sequence -/

/-- `w`-bit van der Corput sequence in Gray-code order: the first Sobol dimension. -/
private def vdc (w : ℕ) : ℕ → ℕ := sobolQuasi (sobolDir w fun _ => 1)

theorem dirOne : DirOK fun _ => 1 := fun j => ⟨rfl, by
  calc 1 < 2 ^ 1 := by norm_num
    _ ≤ 2 ^ (j + 1) := Nat.pow_le_pow_right (by norm_num) (by omega)⟩

private theorem vdc_lt {w k : ℕ} (h : k < 2 ^ w) : vdc w k < 2 ^ w := sobolQuasi_lt dirOne (le_refl w) h

/-- The last number of a period. -/
private theorem vdc_last (w j : ℕ) : vdc w (2 ^ (j + 1) - 1) = 2 ^ (w - 1 - j) := by
  have hp : 0 < 2 ^ j := by positivity
  have h1 : 2 ^ (j + 1) - 1 = 1 * 2 ^ j + (2 ^ j - 1) := by rw [pow_succ]; omega
  unfold vdc
  rw [h1, sobolQuasi_block _ 1 (by omega), one_mul]
  obtain ⟨m, hm⟩ : ∃ m, 2 ^ j = m + 1 := ⟨2 ^ j - 1, by omega⟩
  have e : sobolQuasi (sobolDir w fun _ => 1) (2 ^ j)
      = sobolQuasi (sobolDir w fun _ => 1) (2 ^ j - 1) ^^^ sobolDir w (fun _ => 1) j := by
    rw [hm, sobolQuasi, Nat.add_sub_cancel]
    congr 2
    rw [show m = 2 ^ j - 1 by omega, rightmostZero_pred]
  rw [e, Nat.xor_assoc, Nat.xor_comm (sobolDir _ _ _), ← Nat.xor_assoc, Nat.xor_self, Nat.zero_xor]
  simp [sobolDir]

/-- The generator after `k` enabled cycles. -/
def Spec.hwSobol (w : ℕ) (k : ℕ) : ℕ :=
  (stateAt (fun (s : Rtl.Sobol w) (_ : Unit) => (Rtl.sobolNext s true, ())) (Rtl.sobolInit w) (fun _ => ()) k).out.toNat

/-- The state of the generator after `k` enabled cycles. -/
def sobolIter (w : ℕ) (k : ℕ) : Rtl.Sobol w :=
  stateAt (fun (s : Rtl.Sobol w) (_ : Unit) => (Rtl.sobolNext s true, ())) (Rtl.sobolInit w) (fun _ => ()) k

theorem sobolIter_succ (w k : ℕ) : sobolIter w (k + 1) = Rtl.sobolNext (sobolIter w k) true := rfl

theorem sobolIter_cnt (w : ℕ) (k : ℕ) : (sobolIter w k).cnt.toNat = k % 2 ^ w := by
  induction k with
  | zero => simp [sobolIter, stateAt, Rtl.sobolInit]
  | succ k ih =>
      rw [sobolIter_succ]
      show ((sobolIter w k).cnt + Rtl.bv w true).toNat = _
      rw [BitVec.toNat_add, ih]
      show (k % 2 ^ w + 1 % 2 ^ w) % 2 ^ w = _
      rw [← Nat.add_mod]

/-- What the generator shows in period `p` at position `r`. -/
private theorem sobolIter_out {w : ℕ} (hw : 1 ≤ w) (p r : ℕ) (hr : r < 2 ^ w) :
    (sobolIter w (p * 2 ^ w + r)).out.toNat = vdc w r ^^^ (if p % 2 = 1 then 1 ^^^ 2 ^ (w - 1) else 0) := by
  have key : ∀ k, (sobolIter w (k + 1)).out.toNat = (sobolIter w k).out.toNat ^^^
      2 ^ (w - 1 - (if k % 2 ^ w + 1 < 2 ^ w then rightmostZero (k % 2 ^ w) else 0)) := by
    intro k
    rw [sobolIter_succ]
    show ((sobolIter w k).out ^^^ BitVec.twoPow w (w - 1 - Rtl.lszIdx (sobolIter w k).cnt)).toNat = _
    rw [BitVec.toNat_xor, lsz_eq, sobolIter_cnt, BitVec.toNat_twoPow, Nat.mod_eq_of_lt (Nat.pow_lt_pow_right (by norm_num) (by omega))]
  have hlast : vdc w (2 ^ w - 1) = 1 := by
    obtain ⟨v, rfl⟩ : ∃ v, w = v + 1 := ⟨w - 1, by omega⟩
    rw [vdc_last]; simp
  have hpos : 0 < 2 ^ w := by positivity
  have hblock : ∀ p b, (sobolIter w (p * 2 ^ w)).out.toNat = b → ∀ r < 2 ^ w, (sobolIter w (p * 2 ^ w + r)).out.toNat = vdc w r ^^^ b := by
    intro p b hb r hr
    induction r with
    | zero => simpa [vdc, sobolQuasi] using hb
    | succ r ih =>
        rw [← Nat.add_assoc, key, ih (by omega), Nat.add_comm (p * 2 ^ w), Nat.add_mul_mod_self_right,
          Nat.mod_eq_of_lt (by omega : r < 2 ^ w), if_pos hr, Nat.xor_right_comm]
        simp [vdc, sobolQuasi, sobolDir]
  have hstart : ∀ p, (sobolIter w (p * 2 ^ w)).out.toNat = if p % 2 = 1 then 1 ^^^ 2 ^ (w - 1) else 0 := by
    intro p
    induction p with
    | zero => simp [sobolIter, Rtl.sobolInit]
    | succ p ih =>
        have e : (p + 1) * 2 ^ w = (p * 2 ^ w + (2 ^ w - 1)) + 1 := by rw [Nat.succ_mul]; omega
        rw [e, key, hblock p _ ih _ (by omega), hlast, Nat.add_comm (p * 2 ^ w), Nat.add_mul_mod_self_right,
          Nat.mod_eq_of_lt (by omega : 2 ^ w - 1 < 2 ^ w), if_neg (by omega : ¬ 2 ^ w - 1 + 1 < 2 ^ w)]
        rcases Nat.mod_two_eq_zero_or_one p with h | h
        · simp [h, show (p + 1) % 2 = 1 by omega]
        · simp [h, show (p + 1) % 2 = 0 by omega]
  exact hblock p _ (hstart p) r hr

/-- The first number of a period. -/
theorem hwSobol_start {w : ℕ} (hw : 1 ≤ w) (p : ℕ) :
    Spec.hwSobol w (p * 2 ^ w) = if p % 2 = 1 then 1 ^^^ 2 ^ (w - 1) else 0 := by
  have h := sobolIter_out hw p 0 (by positivity)
  rw [add_zero] at h
  show (sobolIter w _).out.toNat = _
  rw [h]
  simp [vdc, sobolQuasi]

private theorem vdc_shift {M w : ℕ} (hw : w ≤ M) {k : ℕ} (hk : k < 2 ^ w) :
    sobolQuasi (sobolDir M fun _ => 1) k >>> (M - w) = vdc w k := by
  induction k with
  | zero => simp [vdc, sobolQuasi]
  | succ k ih =>
      have hr := rightmostZero_lt hk
      unfold vdc
      rw [sobolQuasi, sobolQuasi, Nat.shiftRight_xor_distrib, ih (by omega)]
      congr 1
      simp only [sobolDir, one_mul]
      rw [Nat.shiftRight_eq_div_pow, Nat.pow_div (by omega) (by norm_num)]
      congr 1; omega

/-- The Python sequence of the first Sobol dimension. -/
private theorem py_seq {env : Env} {w : ℕ} (henv : env.sobolM = fun _ => 1) (hw : w ≤ env.maxbit) {l : List ℤ}
    (hl : rng env w "sobol" = .ok l) {k : ℕ} (hk : k < 2 ^ w) : l.length = 2 ^ w ∧ l.getD k 0 = vdc w k := by
  have e : rng env w "sobol" = .ok (sobolSeq env.maxbit w env.sobolM) := by
    unfold rng
    rw [show ("sobol" : String).toLower = "sobol" by decide +kernel]
    simp
  rw [e] at hl
  cases hl
  refine ⟨by simp [sobolSeq], ?_⟩
  rw [sobolSeq_getD hw hk, henv, vdc_shift hw hk]

theorem py_nonneg {env : Env} {w : ℕ} (henv : env.sobolM = fun _ => 1) (hw : w ≤ env.maxbit) {l : List ℤ}
    (hl : rng env w "sobol" = .ok l) {k : ℕ} (hk : k < 2 ^ w) : 0 ≤ l.getD k 0 := by
  rw [(py_seq henv hw hl hk).2]; positivity

/-- C66: in period `p` the hardware generator shows the Python sequence, in odd periods with the first and the last bit of
every number inverted (the priority encoder returns index `0` when the counter is all ones). -/
theorem C66_sequence {env : Env} {w : ℕ} (henv : env.sobolM = fun _ => 1) (hw0 : 1 ≤ w) (hw : w ≤ env.maxbit) {l : List ℤ}
    (hl : rng env w "sobol" = .ok l) (p r : ℕ) (hr : r < 2 ^ w) :
    Spec.hwSobol w (p * 2 ^ w + r) = (l.getD r 0).toNat ^^^ (if p % 2 = 1 then 1 ^^^ 2 ^ (w - 1) else 0) := by
  rw [(py_seq henv hw hl hr).2, Int.toNat_natCast]
  exact sobolIter_out hw0 p r hr

/-- C66: so in every period the hardware numbers are a permutation of `0 .. 2^w - 1`. -/
theorem C66_permutation {w : ℕ} (hw0 : 1 ≤ w) (p : ℕ) :
    (∀ r < 2 ^ w, Spec.hwSobol w (p * 2 ^ w + r) < 2 ^ w) ∧
    ∀ r < 2 ^ w, ∀ r' < 2 ^ w, Spec.hwSobol w (p * 2 ^ w + r) = Spec.hwSobol w (p * 2 ^ w + r') → r = r' := by
  refine ⟨fun r hr => BitVec.isLt _, fun r hr r' hr' h => ?_⟩
  have h1 := sobolIter_out hw0 p r hr
  have h2 := sobolIter_out hw0 p r' hr'
  unfold Spec.hwSobol at h
  change (sobolIter w _).out.toNat = (sobolIter w _).out.toNat at h
  rw [h1, h2] at h
  exact sobolQuasi_inj dirOne (le_refl w) hr hr' (Nat.xor_left_injective h)

/-! ## The multipliers -/

/-- Cycle `0` loads the number `b` (whatever the input bit), no later cycle loads; `x` are the input bits. -/
def Spec.loaded {w : ℕ} (b : BitVec w) (x : ℕ → Bool) (i : ℕ → Rtl.MulIn w) : Prop :=
  (∀ t, (i t).iA = x t) ∧ (i 0).loadB = true ∧ (i 0).iB = b ∧ ∀ t, (i (t + 1)).loadB = false

theorem sobolNext_false {w : ℕ} (s : Rtl.Sobol w) : Rtl.sobolNext s false = s := by
  cases s; simp [Rtl.sobolNext, Rtl.bv]

private theorem cnt_succ (x : ℕ → Bool) (n : ℕ) :
    Spec.cnt (Spec.nums x) (n + 1) = Spec.cnt (Spec.nums x) n + (if x n then 1 else 0) := by
  have h1 := Int.toNat_of_nonneg (Verif.Spec.ones_nonneg (nums_bits x) n)
  unfold Spec.cnt
  rw [Verif.Spec.ones_succ]
  show (_ + Spec.num (x n)).toNat = _
  cases x n <;> simp [Spec.num]; omega

private theorem cnt_le' (x : ℕ → Bool) (n : ℕ) : Spec.cnt (Spec.nums x) n ≤ n := by
  have h2 := Verif.Spec.ones_le (nums_bits x) n
  unfold Spec.cnt; omega

private theorem cnt_ones (x : ℕ → Bool) (n : ℕ) : (Spec.cnt (Spec.nums x) n : ℤ) = Verif.Spec.ones (Spec.nums x) n :=
  Int.toNat_of_nonneg (Verif.Spec.ones_nonneg (nums_bits x) n)

private theorem uni_state {w : ℕ} {b : BitVec w} {x : ℕ → Bool} {i : ℕ → Rtl.MulIn w} (h : Spec.loaded b x i) (n : ℕ) :
    (stateAt Rtl.umulUniStep (Rtl.mulInit w) i n).buf = (if n = 0 then 0 else b) ∧
    (stateAt Rtl.umulUniStep (Rtl.mulInit w) i n).rng = sobolIter w (Spec.cnt (Spec.nums x) n) := by
  obtain ⟨hA, h0, hb, hl⟩ := h
  induction n with
  | zero => exact ⟨rfl, rfl⟩
  | succ n ih =>
      obtain ⟨i1, i2⟩ := ih
      rw [stateAt_succ]
      constructor
      · show (if (i n).loadB then (i n).iB else _) = _
        cases n with
        | zero => simp [h0, hb]
        | succ n => rw [hl n, i1]; simp
      · show Rtl.sobolNext _ (i n).iA = _
        rw [i2, cnt_succ, hA]
        cases x n
        · rw [sobolNext_false]; simp
        · simp [sobolIter_succ]

private theorem bi_state {w : ℕ} {b : BitVec w} {x : ℕ → Bool} {i : ℕ → Rtl.MulIn w} (h : Spec.loaded b x i) (n : ℕ) :
    (stateAt Rtl.umulBiStep (Rtl.mulInit w) i n).buf = (if n = 0 then 0 else b) ∧
    (stateAt Rtl.umulBiStep (Rtl.mulInit w) i n).rng = sobolIter w (Spec.cnt (Spec.nums x) n) ∧
    (stateAt Rtl.umulBiStep (Rtl.mulInit w) i n).rngInv = sobolIter w (n - Spec.cnt (Spec.nums x) n) := by
  obtain ⟨hA, h0, hb, hl⟩ := h
  induction n with
  | zero => exact ⟨rfl, rfl, rfl⟩
  | succ n ih =>
      obtain ⟨i1, i2, i3⟩ := ih
      have hle := cnt_le' x n
      rw [stateAt_succ]
      refine ⟨?_, ?_, ?_⟩
      · show (if (i n).loadB then (i n).iB else _) = _
        cases n with
        | zero => simp [h0, hb]
        | succ n => rw [hl n, i1]; simp
      · show Rtl.sobolNext _ (i n).iA = _
        rw [i2, cnt_succ, hA]
        cases x n
        · rw [sobolNext_false]; simp
        · simp [sobolIter_succ]
      · show Rtl.sobolNext _ (!(i n).iA) = _
        rw [i3, cnt_succ, hA]
        cases x n
        · simp only [Bool.not_false, Bool.false_eq_true, if_false, add_zero]
          rw [show n + 1 - Spec.cnt (Spec.nums x) n = (n - Spec.cnt (Spec.nums x) n) + 1 by omega, sobolIter_succ]
        · simp only [Bool.not_true, if_true]
          rw [sobolNext_false, Nat.add_sub_add_right]

/-- C66: the hardware output in a cycle after the load, for any history. -/
theorem C66_uni_bit {w : ℕ} {b : BitVec w} {x : ℕ → Bool} {i : ℕ → Rtl.MulIn w} (h : Spec.loaded b x i) (t : ℕ) (ht : 1 ≤ t) :
    Spec.num (outAt Rtl.umulUniStep (Rtl.mulInit w) i t)
      = Spec.nums x t * ind ((b.toNat : ℤ) > Spec.hwSobol w (Spec.cnt (Spec.nums x) t)) := by
  obtain ⟨h1, h2⟩ := uni_state h t
  show Spec.num ((i t).iA && (stateAt Rtl.umulUniStep (Rtl.mulInit w) i t).rng.out.ult
    (stateAt Rtl.umulUniStep (Rtl.mulInit w) i t).buf) = _
  rw [h1, h2, h.1 t, if_neg (by omega)]
  show Spec.num (x t && decide ((sobolIter w _).out.toNat < b.toNat)) = Spec.num (x t) * ind ((b.toNat : ℤ) > (sobolIter w _).out.toNat)
  unfold ind Spec.num
  cases x t <;> simp

/-- C66: likewise for the bipolar multiplier. -/
theorem C66_bi_bit {w : ℕ} {b : BitVec w} {x : ℕ → Bool} {i : ℕ → Rtl.MulIn w} (h : Spec.loaded b x i) (t : ℕ) (ht : 1 ≤ t) :
    Spec.num (outAt Rtl.umulBiStep (Rtl.mulInit w) i t)
      = Spec.nums x t * ind ((b.toNat : ℤ) > Spec.hwSobol w (Spec.cnt (Spec.nums x) t))
        + (1 - Spec.nums x t) * (1 - ind ((b.toNat : ℤ) > Spec.hwSobol w (t - Spec.cnt (Spec.nums x) t))) := by
  obtain ⟨h1, h2, h3⟩ := bi_state h t
  show Spec.num (((i t).iA && (stateAt Rtl.umulBiStep (Rtl.mulInit w) i t).rng.out.ult
    (stateAt Rtl.umulBiStep (Rtl.mulInit w) i t).buf) || (!(i t).iA && (stateAt Rtl.umulBiStep (Rtl.mulInit w) i t).buf.ule
      (stateAt Rtl.umulBiStep (Rtl.mulInit w) i t).rngInv.out)) = _
  rw [h1, h2, h3, h.1 t, if_neg (by omega)]
  show Spec.num ((x t && decide ((sobolIter w (Spec.cnt (Spec.nums x) t)).out.toNat < b.toNat))
      || (!x t && decide (b.toNat ≤ (sobolIter w (t - Spec.cnt (Spec.nums x) t)).out.toNat)))
    = Spec.num (x t) * ind ((b.toNat : ℤ) > (sobolIter w (Spec.cnt (Spec.nums x) t)).out.toNat)
      + (1 - Spec.num (x t)) * (1 - ind ((b.toNat : ℤ) > (sobolIter w (t - Spec.cnt (Spec.nums x) t)).out.toNat))
  unfold ind Spec.num
  cases x t
  · by_cases hc : b.toNat ≤ (sobolIter w (t - Spec.cnt (Spec.nums x) t)).out.toNat
    · simp [hc, Nat.not_lt.2 hc]
    · simp [hc, Nat.lt_of_not_le hc]
  · simp

private theorem first_period {env : Env} {w : ℕ} (henv : env.sobolM = fun _ => 1) (hw0 : 1 ≤ w) (hw : w ≤ env.maxbit)
    {l : List ℤ} (hl : rng env w "sobol" = .ok l) (b : ℤ) {k : ℕ} (hk : k < 2 ^ w) :
    bsGen l b k = ind (b > Spec.hwSobol w k) := by
  obtain ⟨h1, h2⟩ := py_seq henv hw hl hk
  have h3 := sobolIter_out hw0 0 k hk
  rw [zero_mul, zero_add] at h3
  simp only [Nat.zero_mod, zero_ne_one, if_false, Nat.xor_zero] at h3
  rw [bsGen_natMod, h1, Nat.mod_eq_of_lt hk, h2]
  show _ = ind (b > ((sobolIter w k).out.toNat : ℤ))
  rw [h3]

/-- C66: with the load in cycle `0`, `uMUL_uni` and `FSUMul` (unipolar, static) put out the same bit in every later cycle
until the input has had `2^w` ones. -/
theorem C66_uni {env : Env} {w : ℕ} (henv : env.sobolM = fun _ => 1) (hw0 : 1 ≤ w) (hw : w ≤ env.maxbit) {l : List ℤ}
    (hl : rng env w "sobol" = .ok l) {b : BitVec w} {x : ℕ → Bool} {i : ℕ → Rtl.MulIn w} (h : Spec.loaded b x i)
    (t : ℕ) (ht : 1 ≤ t) (hn : Verif.Spec.ones (Spec.nums x) t < 2 ^ w) :
    Spec.num (outAt Rtl.umulUniStep (Rtl.mulInit w) i t) = mulOut .unipolar w l b.toNat (Spec.nums x) t := by
  rw [C66_uni_bit h t ht, C24_bit (nums_bits x), ← cnt_ones]
  rw [first_period henv hw0 hw hl _ (by rw [← cnt_ones] at hn; exact_mod_cast hn)]

/-- C66: likewise for `uMUL_bi`, until the input has had `2^w` ones or `2^w` zeros. -/
theorem C66_bi {env : Env} {w : ℕ} (henv : env.sobolM = fun _ => 1) (hw0 : 1 ≤ w) (hw : w ≤ env.maxbit) {l : List ℤ}
    (hl : rng env w "sobol" = .ok l) {b : BitVec w} {x : ℕ → Bool} {i : ℕ → Rtl.MulIn w} (h : Spec.loaded b x i)
    (t : ℕ) (ht : 1 ≤ t) (hn : Verif.Spec.ones (Spec.nums x) t < 2 ^ w)
    (hz : (t : ℤ) - Verif.Spec.ones (Spec.nums x) t < 2 ^ w) :
    Spec.num (outAt Rtl.umulBiStep (Rtl.mulInit w) i t) = mulOut .bipolar w l b.toNat (Spec.nums x) t := by
  have hle := cnt_le' x t
  rw [C66_bi_bit h t ht, C25_bit (nums_bits x)]
  rw [← cnt_ones] at hn hz ⊢
  have e : (t : ℤ) - (Spec.cnt (Spec.nums x) t : ℕ) = ((t - Spec.cnt (Spec.nums x) t : ℕ) : ℤ) := by omega
  rw [e] at hz ⊢
  rw [first_period henv hw0 hw hl _ (by exact_mod_cast hn), first_period henv hw0 hw hl _ (by exact_mod_cast hz)]

/-! ## Whole periods -/

private theorem count_below (b : ℕ) (n : ℕ) : ∑ v ∈ range n, (ind ((b : ℤ) > (v : ℤ)) : ℤ) = min (b : ℤ) n := by
  induction n with
  | zero => simp
  | succ n ih =>
      rw [sum_range_succ, ih]; unfold ind
      split_ifs <;> push_cast <;> omega

theorem hw_period {w : ℕ} (hw0 : 1 ≤ w) (b p : ℕ) (hb : b ≤ 2 ^ w) :
    ∑ r ∈ range (2 ^ w), (ind ((b : ℤ) > Spec.hwSobol w (p * 2 ^ w + r)) : ℤ) = b := by
  obtain ⟨h1, h2⟩ := C66_permutation hw0 p
  have himg : (range (2 ^ w)).image (fun r => Spec.hwSobol w (p * 2 ^ w + r)) = range (2 ^ w) := by
    apply Finset.eq_of_subset_of_card_le
    · intro v hv
      obtain ⟨r, hr, rfl⟩ := mem_image.1 hv
      exact mem_range.2 (h1 r (mem_range.1 hr))
    · rw [card_image_of_injOn]
      intro r hr r' hr' h
      exact h2 r (by simpa using hr) r' (by simpa using hr') h
  have := sum_image (f := fun v : ℕ => (ind ((b : ℤ) > (v : ℤ)) : ℤ)) (s := range (2 ^ w)) (g := fun r => Spec.hwSobol w (p * 2 ^ w + r))
    (by intro r hr r' hr' h
        exact h2 r (by simpa using hr) r' (by simpa using hr') h)
  rw [himg, count_below] at this
  rw [← this]
  have : (b : ℤ) ≤ (2 ^ w : ℕ) := by exact_mod_cast hb
  omega

private theorem hw_below {w : ℕ} (hw0 : 1 ≤ w) (b q : ℕ) (hb : b ≤ 2 ^ w) :
    ∑ k ∈ range (q * 2 ^ w), (ind ((b : ℤ) > Spec.hwSobol w k) : ℤ) = q * b := by
  induction q with
  | zero => simp
  | succ q ih =>
      rw [Nat.succ_mul, sum_range_add, ih, hw_period hw0 b q hb]; push_cast; ring

private theorem uni_sum {w : ℕ} {b : BitVec w} {x : ℕ → Bool} {i : ℕ → Rtl.MulIn w} (h : Spec.loaded b x i) (hx : x 0 = false) (n : ℕ) :
    Verif.Spec.ones (Spec.nums (outAt Rtl.umulUniStep (Rtl.mulInit w) i)) n
      = ∑ k ∈ range (Spec.cnt (Spec.nums x) n), (ind ((b.toNat : ℤ) > Spec.hwSobol w k) : ℤ) := by
  induction n with
  | zero => rfl
  | succ n ih =>
      rw [Verif.Spec.ones_succ, ih, cnt_succ]
      have e : Spec.nums (outAt Rtl.umulUniStep (Rtl.mulInit w) i) n
          = Spec.nums x n * ind ((b.toNat : ℤ) > Spec.hwSobol w (Spec.cnt (Spec.nums x) n)) := by
        rcases Nat.eq_zero_or_pos n with h0 | h0
        · subst h0
          show Spec.num ((i 0).iA && _) = Spec.num (x 0) * _
          rw [h.1, hx]; simp [Spec.num]
        · exact C66_uni_bit h n h0
      rw [e]
      show _ + Spec.num (x n) * _ = _
      cases x n
      · simp [Spec.num]
      · simp [Spec.num, sum_range_succ]

/-- C66: with a zero bit in the load cycle, the product of `uMUL_uni` is exact whenever the input has had a whole number of
periods of ones, as in the Python module: `q * b` ones for `q * 2^w` input ones. -/
theorem C66_uni_exact {w : ℕ} (hw0 : 1 ≤ w) {b : BitVec w} {x : ℕ → Bool} {i : ℕ → Rtl.MulIn w} (h : Spec.loaded b x i)
    (hx : x 0 = false) (n q : ℕ) (hq : Verif.Spec.ones (Spec.nums x) n = q * 2 ^ w) :
    Verif.Spec.ones (Spec.nums (outAt Rtl.umulUniStep (Rtl.mulInit w) i)) n = q * b.toNat := by
  have e : Spec.cnt (Spec.nums x) n = q * 2 ^ w := by rw [← cnt_ones] at hq; exact_mod_cast hq
  rw [uni_sum h hx, e, hw_below hw0 _ _ (le_of_lt b.isLt)]

/-- C66: after the first period the two differ: with weight `1` and a constant-one input the Python module emits the first
one of the second period at once, the hardware does not. -/
theorem C66_second_period {env : Env} {w : ℕ} (henv : env.sobolM = fun _ => 1) (hw0 : 2 ≤ w) (hw : w ≤ env.maxbit) {l : List ℤ}
    (hl : rng env w "sobol" = .ok l) {i : ℕ → Rtl.MulIn w} (h : Spec.loaded 1 (fun t => decide (t ≠ 0)) i) :
    outAt Rtl.umulUniStep (Rtl.mulInit w) i (2 ^ w + 1) = false ∧
    mulOut .unipolar w l 1 (Spec.nums fun t => decide (t ≠ 0)) (2 ^ w + 1) = 1 := by
  have hc : ∀ n, Spec.cnt (Spec.nums fun t => decide (t ≠ 0)) (n + 1) = n := by
    intro n
    induction n with
    | zero => rfl
    | succ n ih => rw [cnt_succ, ih]; simp
  have hp : 0 < 2 ^ w := by positivity
  have h0 := sobolIter_out (w := w) (by omega) 1 0 hp
  rw [one_mul, add_zero] at h0
  have hx : (1 ^^^ 2 ^ (w - 1) : ℕ) ≠ 0 := by
    intro e
    have e' : (1 ^^^ 2 ^ (w - 1)).testBit 0 = false := by rw [e]; simp
    rw [Nat.testBit_xor] at e'
    obtain ⟨v, hv⟩ : ∃ v, w - 1 = v + 1 := ⟨w - 2, by omega⟩
    rw [hv] at e'
    simp at e'
  constructor
  · have := C66_uni_bit h (2 ^ w + 1) (by omega)
    rw [hc] at this
    rw [← num_inj, this]
    have h1 : (1 : BitVec w).toNat = 1 := by
      show 1 % 2 ^ w = 1
      exact Nat.mod_eq_of_lt (Nat.one_lt_two_pow (by omega))
    rw [h1]
    have : (ind (((1 : ℕ) : ℤ) > ((Spec.hwSobol w (2 ^ w) : ℕ) : ℤ)) : ℤ) = 0 := by
      apply ind_false
      show ¬ ((1 : ℕ) : ℤ) > ((sobolIter w (2 ^ w)).out.toNat : ℤ)
      rw [h0]
      simp only [Nat.one_mod, if_true]
      have e : vdc w 0 = 0 := rfl
      rw [e, Nat.zero_xor]
      omega
    rw [this]; simp [Spec.num]
  · rw [C24_bit (nums_bits _), ← cnt_ones, hc, bsGen_natMod]
    obtain ⟨e1, e2⟩ := py_seq henv hw hl hp
    rw [e1, Nat.mod_self, e2]
    show Spec.num (decide (2 ^ w + 1 ≠ 0)) * ind ((1:ℤ) > ((0 : ℕ) : ℤ)) = 1
    simp [Spec.num, ind]

/-- The input sequence of a concrete run: load `5`, then alternate. -/
private def demo : ℕ → Rtl.MulIn 3 := fun t => ⟨decide (t % 2 = 1), 5, decide (t = 0)⟩

example : Spec.loaded 5 (fun t => decide (t % 2 = 1)) demo := ⟨fun _ => rfl, rfl, rfl, fun t => by simp [demo]⟩

example {l : List ℤ} (hl : rng ⟨30, fun _ => 1, fun _ _ => false, []⟩ 3 "sobol" = .ok l) :
    Spec.num (outAt Rtl.umulBiStep (Rtl.mulInit 3) demo 6) = mulOut .bipolar 3 l 5 (Spec.nums fun t => decide (t % 2 = 1)) 6 :=
  C66_bi (env := ⟨30, fun _ => 1, fun _ _ => false, []⟩) rfl (by norm_num) (by norm_num) hl
    ⟨fun _ => rfl, rfl, rfl, fun t => by simp [demo]⟩ 6 (by norm_num) (by decide +kernel) (by decide +kernel)

example : Verif.Spec.ones (Spec.nums (outAt Rtl.umulUniStep (Rtl.mulInit 3) demo)) 16 = 5 := by
  have := C66_uni_exact (w := 3) (by norm_num) (b := 5) (x := fun t => decide (t % 2 = 1)) (i := demo)
    ⟨fun _ => rfl, rfl, rfl, fun t => by simp [demo]⟩ rfl 16 1 (by decide +kernel)
  simpa using this

end Verif.Props
