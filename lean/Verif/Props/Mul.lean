import Verif.Spec
import Verif.Model.Mul
import Verif.Proofs.Small
import Verif.Props.Gen
import Verif.Props.Small

/-!
# Properties C24–C27: the unary multiplier `FSUMul`
-/

namespace Verif.Props

open Verif Finset Gen Multiplier

/-- Output of a fresh static multiplier at call `t`. -/
def mulOut (m : Mode) (w : ℕ) (rng : List ℤ) (b : ℤ) (x : ℕ → ℤ) (t : ℕ) : ℤ :=
  outAt (stepStatic m rng b) (Multiplier.init w) x t

/-- `P(k)`: how many of the first `k` numbers of the (cyclically repeated) sequence are below `b`. -/
def Spec.below (rng : List ℤ) (b : ℤ) (k : ℕ) : ℤ :=
  ∑ j ∈ range k, ind (b > rng.getD (j % rng.length) 0)

/-- Number of ones among the first `n` bits, as a natural number. -/
def Spec.cnt (x : ℕ → ℤ) (n : ℕ) : ℕ := (Verif.Spec.ones x n).toNat

private theorem cnt_cast {x : ℕ → ℤ} (hx : Verif.Spec.BitStream x) (n : ℕ) :
    (Spec.cnt x n : ℤ) = Verif.Spec.ones x n := Int.toNat_of_nonneg (Verif.Spec.ones_nonneg hx n)

private theorem cnt_le {x : ℕ → ℤ} (hx : Verif.Spec.BitStream x) (n : ℕ) : Spec.cnt x n ≤ n := by
  have h1 := cnt_cast hx n
  have h2 := Verif.Spec.ones_le hx n
  omega

private theorem land_bits {a b : ℤ} (ha : IsBit a) (hb : IsBit b) : Int.land a b = a * b := by
  rcases ha with h | h <;> rcases hb with h' | h' <;> subst h <;> subst h' <;> decide

private theorem lor_bits' {a b : ℤ} (ha : IsBit a) (hb : IsBit b) : Int.lor a b = a + b - a * b := by
  rcases ha with h | h <;> rcases hb with h' | h' <;> subst h <;> subst h' <;> decide

theorem isBit_mul {a b : ℤ} (ha : IsBit a) (hb : IsBit b) : IsBit (a * b) := by
  rcases ha with h | h <;> rcases hb with h' | h' <;> subst h <;> subst h' <;> simp [IsBit]

theorem isBit_compl {a : ℤ} (ha : IsBit a) : IsBit (1 - a) := by
  rcases ha with h | h <;> subst h <;> simp [IsBit]

private theorem static_state (m : Mode) (w : ℕ) (rng : List ℤ) (b : ℤ) (x : ℕ → ℤ) (n : ℕ) :
    (stateAt (stepStatic m rng b) (Multiplier.init w) x n).idx = Verif.Spec.ones x n ∧
    (m = .bipolar → (stateAt (stepStatic m rng b) (Multiplier.init w) x n).idxInv = n - Verif.Spec.ones x n) := by
  induction n with
  | zero => exact ⟨rfl, fun _ => rfl⟩
  | succ n ih =>
      rw [stateAt_succ, Verif.Spec.ones_succ, ← ih.1]
      cases m
      · exact ⟨rfl, fun h => by cases h⟩
      · refine ⟨rfl, fun _ => ?_⟩
        have h2 := ih.2 rfl
        show (stateAt (stepStatic .bipolar rng b) (Multiplier.init w) x n).idxInv + (1 - x n) = _
        rw [h2, ih.1]; push_cast; ring

/-- Unipolar output bit: the input bit gated by the sequence position "number of earlier ones". -/
theorem C24_bit {x : ℕ → ℤ} (hx : Verif.Spec.BitStream x) (w : ℕ) (rng : List ℤ) (b : ℤ) (t : ℕ) :
    mulOut .unipolar w rng b x t = x t * bsGen rng b (Verif.Spec.ones x t) := by
  have e : mulOut .unipolar w rng b x t
      = Int.land (x t) (bsGen rng b (stateAt (stepStatic .unipolar rng b) (Multiplier.init w) x t).idx) := rfl
  rw [e, (static_state _ w rng b x t).1, land_bits (hx t) (bsGen_isBit _ _ _)]

/-- Bipolar output bit: input ones read the sequence at their own count, input zeros read the
complemented sequence at theirs. -/
theorem C25_bit {x : ℕ → ℤ} (hx : Verif.Spec.BitStream x) (w : ℕ) (rng : List ℤ) (b : ℤ) (t : ℕ) :
    mulOut .bipolar w rng b x t = x t * bsGen rng b (Verif.Spec.ones x t)
      + (1 - x t) * (1 - bsGen rng b (t - Verif.Spec.ones x t)) := by
  have e : mulOut .bipolar w rng b x t
      = Int.lor (Int.land (x t) (bsGen rng b (stateAt (stepStatic .bipolar rng b) (Multiplier.init w) x t).idx))
        (Int.land (1 - x t) (1 - bsGen rng b (stateAt (stepStatic .bipolar rng b) (Multiplier.init w) x t).idxInv)) := rfl
  rw [e, (static_state _ w rng b x t).1, (static_state _ w rng b x t).2 rfl]
  have h1 := bsGen_isBit rng b (Verif.Spec.ones x t)
  have h2 := isBit_compl (bsGen_isBit rng b (t - Verif.Spec.ones x t))
  rw [land_bits (hx t) h1, land_bits (isBit_compl (hx t)) h2,
    lor_bits' (isBit_mul (hx t) h1) (isBit_mul (isBit_compl (hx t)) h2)]
  rcases hx t with h | h <;> rw [h] <;> ring

/-- C24, C25: outputs are bits; a unipolar product never exceeds the input. -/
theorem C24_bits {x : ℕ → ℤ} (hx : Verif.Spec.BitStream x) (m : Mode) (w : ℕ) (rng : List ℤ) (b : ℤ) (t : ℕ) :
    IsBit (mulOut m w rng b x t) ∧ (m = .unipolar → mulOut m w rng b x t ≤ x t) := by
  have h1 := bsGen_isBit rng b (Verif.Spec.ones x t)
  have h2 := bsGen_isBit rng b (t - Verif.Spec.ones x t)
  cases m
  · rw [C24_bit hx]
    refine ⟨isBit_mul (hx t) h1, fun _ => ?_⟩
    rcases hx t with h | h <;> rcases h1 with h' | h' <;> rw [h, h'] <;> norm_num
  · rw [C25_bit hx]
    refine ⟨?_, fun h => by cases h⟩
    rcases hx t with h | h <;> rw [h]
    · simpa using isBit_compl h2
    · simpa using h1

private theorem below_succ (rng : List ℤ) (b : ℤ) (k : ℕ) :
    Spec.below rng b (k + 1) = Spec.below rng b k + bsGen rng b k := by
  unfold Spec.below; rw [sum_range_succ, bsGen_natMod]

theorem below_eq_ones (rng : List ℤ) (b : ℤ) (k : ℕ) :
    Spec.below rng b k = Verif.Spec.ones (fun t => bsGen rng b t) k := by
  induction k with
  | zero => rfl
  | succ k ih => rw [below_succ, Verif.Spec.ones_succ, ih]

/-- C24: the product count depends only on the number of input ones. -/
theorem C24_count {x : ℕ → ℤ} (hx : Verif.Spec.BitStream x) (w : ℕ) (rng : List ℤ) (b : ℤ) (n : ℕ) :
    Verif.Spec.ones (mulOut .unipolar w rng b x) n = Spec.below rng b (Spec.cnt x n) := by
  induction n with
  | zero => rfl
  | succ n ih =>
      rw [Verif.Spec.ones_succ, ih, C24_bit hx]
      have hc := cnt_cast hx n
      have hc' := cnt_cast hx (n + 1)
      rw [Verif.Spec.ones_succ] at hc'
      rcases hx n with h | h
      · have : Spec.cnt x (n + 1) = Spec.cnt x n := by omega
        rw [this, h]; ring
      · have : Spec.cnt x (n + 1) = Spec.cnt x n + 1 := by omega
        rw [this, below_succ, h, hc]; ring

/-- C25: the two-sided count of the bipolar multiplier. -/
theorem C25_count {x : ℕ → ℤ} (hx : Verif.Spec.BitStream x) (w : ℕ) (rng : List ℤ) (b : ℤ) (n : ℕ) :
    Verif.Spec.ones (mulOut .bipolar w rng b x) n =
      Spec.below rng b (Spec.cnt x n) + ((n - Spec.cnt x n : ℕ) - Spec.below rng b (n - Spec.cnt x n)) := by
  induction n with
  | zero => rfl
  | succ n ih =>
      rw [Verif.Spec.ones_succ, ih, C25_bit hx]
      have hc := cnt_cast hx n
      have hc' := cnt_cast hx (n + 1)
      have hle := cnt_le hx n
      rw [Verif.Spec.ones_succ] at hc'
      rcases hx n with h | h
      · have e1 : Spec.cnt x (n + 1) = Spec.cnt x n := by omega
        have e2 : n + 1 - Spec.cnt x n = (n - Spec.cnt x n) + 1 := by omega
        have e3 : (n : ℤ) - Verif.Spec.ones x n = ((n - Spec.cnt x n : ℕ) : ℤ) := by omega
        rw [e1, e2, below_succ, h, e3]; push_cast; ring
      · have e1 : Spec.cnt x (n + 1) = Spec.cnt x n + 1 := by omega
        have e2 : n + 1 - (Spec.cnt x n + 1) = n - Spec.cnt x n := by omega
        rw [e1, e2, below_succ, h, hc]; ring

private theorem below_periods {w : ℕ} {rng : List ℤ} (h : Verif.Spec.IsPermSeq w rng) (b : ℤ) (k : ℕ) :
    Spec.below rng b (k * 2 ^ w) = k * max 0 (min b (2 ^ w)) := by
  induction k with
  | zero => simp [Spec.below]
  | succ k ih =>
      rw [below_eq_ones] at ih ⊢
      unfold Verif.Spec.ones at ih ⊢
      rw [Nat.succ_mul, sum_range_add, ih]
      have := C01_window_count h b ((k * 2 ^ w : ℕ) : ℤ)
      have e : ∀ x ∈ range (2 ^ w), bsGen rng b ((k * 2 ^ w + x : ℕ) : ℤ) = bsGen rng b (((k * 2 ^ w : ℕ) : ℤ) + x) := by
        intro x _; push_cast; rfl
      rw [sum_congr rfl e, this]
      push_cast; ring

/-- C24: over whole periods the unipolar product is exact, wherever the ones fell. -/
theorem C24_exact {w : ℕ} {rng : List ℤ} (h : Verif.Spec.IsPermSeq w rng) {x : ℕ → ℤ}
    (hx : Verif.Spec.BitStream x) (b : ℤ) (n q : ℕ) (hq : Verif.Spec.ones x n = q * 2 ^ w) :
    Verif.Spec.ones (mulOut .unipolar w rng b x) n = q * max 0 (min b (2 ^ w)) := by
  rw [C24_count hx, ← below_periods h b q]
  congr 1
  have := cnt_cast hx n
  rw [hq] at this; exact_mod_cast this

/-- C25: when ones and zeros both fill whole periods the bipolar product value is exact. -/
theorem C25_exact {w : ℕ} {rng : List ℤ} (h : Verif.Spec.IsPermSeq w rng) {x : ℕ → ℤ}
    (hx : Verif.Spec.BitStream x) (b : ℤ) (hb0 : 0 ≤ b) (hb1 : b ≤ 2 ^ w) (n q r : ℕ) (hn : 0 < n)
    (hq : Verif.Spec.ones x n = q * 2 ^ w) (hr : (n : ℤ) - Verif.Spec.ones x n = r * 2 ^ w) :
    Verif.Spec.biValue (mulOut .bipolar w rng b x) n = Verif.Spec.biValue x n * (2 * (b / 2 ^ w) - 1) := by
  have hc := C25_count hx w rng b n
  have hcc := cnt_cast hx n
  have e1 : Spec.cnt x n = q * 2 ^ w := by rw [hq] at hcc; exact_mod_cast hcc
  have e2 : n - Spec.cnt x n = r * 2 ^ w := by
    have : ((n - Spec.cnt x n : ℕ) : ℤ) = r * 2 ^ w := by
      rw [← hr]; have := cnt_le hx n; omega
    exact_mod_cast this
  rw [e2, e1, below_periods h, below_periods h] at hc
  have hmax : max 0 (min b (2 ^ w)) = b := by omega
  rw [hmax] at hc
  have hcq : (Verif.Spec.ones (mulOut .bipolar w rng b x) n : ℚ) = q * b + (r * 2 ^ w - r * b) := by
    rw [hc]; push_cast; ring
  have hnq : (n : ℚ) = (q + r) * 2 ^ w := by
    have : (n : ℤ) = (q + r) * 2 ^ w := by rw [add_mul, ← hq, ← hr]; ring
    exact_mod_cast this
  have hoq : (Verif.Spec.ones x n : ℚ) = q * 2 ^ w := by rw [hq]; push_cast; rfl
  have hp : (0:ℚ) < 2 ^ w := by positivity
  have hqr : (0:ℚ) < q + r := by
    have : (0:ℚ) < n := by exact_mod_cast hn
    rw [hnq] at this
    exact (mul_pos_iff_of_pos_right hp).1 this
  unfold Verif.Spec.biValue
  rw [hcq, hoq, hnq]
  field_simp; ring

/-- C26: Sobol sequences: the unipolar product is within `w` ones of the ideal at every cycle of
every history, and the bipolar product within `4w/n` in value. -/
theorem C26_error (env : Env) (w : ℕ) (name : String) (hn : name.toLower ∈ ["sobol", "rc"])
    (hm : DirOK env.sobolM) (hw : w ≤ env.maxbit) (b : ℤ) (hb0 : 0 ≤ b) (hb1 : b ≤ 2 ^ w)
    {x : ℕ → ℤ} (hx : Verif.Spec.BitStream x) :
    ∃ l, rng env w name = .ok l ∧ ∀ n,
      |(Verif.Spec.ones (mulOut .unipolar w l b x) n : ℚ) - Verif.Spec.ones x n * (b / 2 ^ w)| ≤ w ∧
      (0 < n → |Verif.Spec.biValue (mulOut .bipolar w l b x) n
        - Verif.Spec.biValue x n * (2 * (b / 2 ^ w) - 1)| ≤ 4 * w / n) := by
  obtain ⟨l, hl, hpre⟩ := C08_prefix env w name hn hm hw b hb0 hb1
  refine ⟨l, hl, fun n => ?_⟩
  have hcc := cnt_cast hx n
  have hccq : (Spec.cnt x n : ℚ) = Verif.Spec.ones x n := by exact_mod_cast hcc
  have h1 := hpre (Spec.cnt x n)
  rw [← below_eq_ones, hccq] at h1
  refine ⟨by rw [C24_count hx]; exact h1, fun hn0 => ?_⟩
  have h2 := hpre (n - Spec.cnt x n)
  rw [← below_eq_ones] at h2
  have hle := cnt_le hx n
  have hsub : ((n - Spec.cnt x n : ℕ) : ℚ) = n - Verif.Spec.ones x n := by
    rw [Nat.cast_sub hle, hccq]
  rw [hsub] at h2
  have hc : (Verif.Spec.ones (mulOut .bipolar w l b x) n : ℚ)
      = Spec.below l b (Spec.cnt x n) + (n - Verif.Spec.ones x n - Spec.below l b (n - Spec.cnt x n)) := by
    rw [C25_count hx, ← hsub]; push_cast; rfl
  have hnq : (0:ℚ) < n := by exact_mod_cast hn0
  unfold Verif.Spec.biValue
  rw [hc]
  generalize (Spec.below l b (Spec.cnt x n) : ℚ) = P1 at *
  generalize (Spec.below l b (n - Spec.cnt x n) : ℚ) = P2 at *
  generalize (Verif.Spec.ones x n : ℚ) = k at *
  generalize (b : ℚ) / 2 ^ w = q at *
  have e : 2 * ((P1 + (n - k - P2)) / n) - 1 - (2 * (k / n) - 1) * (2 * q - 1)
      = 2 * ((P1 - k * q) - (P2 - (n - k) * q)) / n := by
    field_simp; ring
  rw [e, abs_div, abs_of_pos hnq]
  apply div_le_div_of_nonneg_right _ hnq.le
  rw [abs_mul, abs_of_pos (by norm_num : (0:ℚ) < 2)]
  rw [abs_le] at h1 h2
  have h3 : |(P1 - k * q) - (P2 - (n - k) * q)| ≤ 2 * w := by
    rw [abs_le]; constructor <;> linarith [h1.1, h1.2, h2.1, h2.2]
  linarith

/-- Quantising a real multiplier costs half a unit. -/
theorem C26_quantised (w : ℕ) (p : ℚ) :
    |(binGenM .unipolar w p : ℚ) / 2 ^ w - p| ≤ 1 / 2 ^ (w + 1) ∧
    |(2 * ((binGenM .bipolar w p : ℚ) / 2 ^ w) - 1) - p| ≤ 1 / 2 ^ w := by
  have hP : (0:ℚ) < 2 ^ w := by positivity
  constructor
  · have hnear := (C05_nearest .unipolar w p).1
    simp only [Spec.binTarget] at hnear
    have e : (binGenM .unipolar w p : ℚ) / 2 ^ w - p = (binGenM .unipolar w p - p * 2 ^ w) / 2 ^ w := by
      field_simp
    rw [e, abs_div, abs_of_pos hP, div_le_div_iff₀ hP (by positivity), pow_succ]
    nlinarith
  · have hnear := (C05_nearest .bipolar w p).1
    simp only [Spec.binTarget] at hnear
    have e : 2 * ((binGenM .bipolar w p : ℚ) / 2 ^ w) - 1 - p
        = 2 * (binGenM .bipolar w p - (p + 1) / 2 * 2 ^ w) / 2 ^ w := by
      field_simp; ring
    rw [e, abs_div, abs_of_pos hP, abs_mul, abs_of_pos (by norm_num : (0:ℚ) < 2)]
    apply div_le_div_of_nonneg_right _ hP.le
    linarith

theorem uniValue_range {x : ℕ → ℤ} (hx : Verif.Spec.BitStream x) (n : ℕ) :
    0 ≤ Verif.Spec.uniValue x n ∧ Verif.Spec.uniValue x n ≤ 1 := by
  have h0 : (0:ℚ) ≤ Verif.Spec.ones x n := by exact_mod_cast Verif.Spec.ones_nonneg hx n
  have h1 : (Verif.Spec.ones x n : ℚ) ≤ n := by exact_mod_cast Verif.Spec.ones_le hx n
  unfold Verif.Spec.uniValue
  refine ⟨div_nonneg h0 (by positivity), ?_⟩
  rcases Nat.eq_zero_or_pos n with rfl | hn
  · simp
  · rw [div_le_one (by exact_mod_cast hn)]; exact h1

theorem biValue_range {x : ℕ → ℤ} (hx : Verif.Spec.BitStream x) (n : ℕ) : |Verif.Spec.biValue x n| ≤ 1 := by
  have h := uniValue_range hx n
  unfold Verif.Spec.uniValue at h
  unfold Verif.Spec.biValue
  rw [abs_le]; constructor <;> linarith [h.1, h.2]

/-- C26: error of the product with a real multiplier, both modes. -/
theorem C26_real (env : Env) (w : ℕ) (name : String) (hn : name.toLower ∈ ["sobol", "rc"])
    (hm : DirOK env.sobolM) (hw : w ≤ env.maxbit) {x : ℕ → ℤ} (hx : Verif.Spec.BitStream x) :
    ∃ l, rng env w name = .ok l ∧ ∀ p n, 0 < n →
      (0 ≤ p ∧ p ≤ 1 → |Verif.Spec.uniValue (mulOut .unipolar w l (binGenM .unipolar w p) x) n
        - Verif.Spec.uniValue x n * p| ≤ w / n + 1 / 2 ^ (w + 1)) ∧
      (-1 ≤ p ∧ p ≤ 1 → |Verif.Spec.biValue (mulOut .bipolar w l (binGenM .bipolar w p) x) n
        - Verif.Spec.biValue x n * p| ≤ 4 * w / n + 1 / 2 ^ w) := by
  obtain ⟨l, hl, -⟩ := C26_error env w name hn hm hw 0 (le_refl _) (by positivity) hx
  refine ⟨l, hl, fun p n hn0 => ⟨fun hp => ?_, fun hp => ?_⟩⟩
  · have hb := C05_range .unipolar w p hp
    obtain ⟨l', hl', hpre⟩ := C26_error env w name hn hm hw (binGenM .unipolar w p) hb.1 hb.2 hx
    rw [hl] at hl'; cases hl'
    have h1 := (hpre n).1
    have hnq : (0:ℚ) < n := by exact_mod_cast hn0
    have hq := (C26_quantised w p).1
    have hv := uniValue_range hx n
    unfold Verif.Spec.uniValue at hv ⊢
    generalize (Verif.Spec.ones (mulOut .unipolar w l (binGenM .unipolar w p) x) n : ℚ) = o at *
    generalize (Verif.Spec.ones x n : ℚ) = v at *
    generalize (binGenM .unipolar w p : ℚ) / 2 ^ w = q at *
    have e : o / n - v / n * p = (o - v * q) / n + v / n * (q - p) := by field_simp; ring
    rw [e]
    have a1 : |(o - v * q) / n| ≤ w / n := by
      rw [abs_div, abs_of_pos hnq]; exact div_le_div_of_nonneg_right h1 hnq.le
    have a2 : |v / n * (q - p)| ≤ 1 * (1 / 2 ^ (w + 1)) := by
      rw [abs_mul]
      exact mul_le_mul (by rw [abs_of_nonneg hv.1]; exact hv.2) hq (abs_nonneg _) (by norm_num)
    have := abs_add_le ((o - v * q) / n) (v / n * (q - p))
    linarith
  · have hb := C05_range .bipolar w p hp
    obtain ⟨l', hl', hpre⟩ := C26_error env w name hn hm hw (binGenM .bipolar w p) hb.1 hb.2 hx
    rw [hl] at hl'; cases hl'
    have h1 := (hpre n).2 hn0
    have hq := (C26_quantised w p).2
    have hv := biValue_range hx n
    generalize Verif.Spec.biValue (mulOut .bipolar w l (binGenM .bipolar w p) x) n = o at *
    generalize Verif.Spec.biValue x n = v at *
    generalize 2 * ((binGenM .bipolar w p : ℚ) / 2 ^ w) - 1 = q at *
    have e : o - v * p = (o - v * q) + v * (q - p) := by ring
    rw [e]
    calc |(o - v * q) + v * (q - p)| ≤ |o - v * q| + |v * (q - p)| := abs_add_le _ _
      _ ≤ 4 * w / n + 1 / 2 ^ w := by
        rw [abs_mul]
        have : |v| * |q - p| ≤ 1 * (1 / 2 ^ w) := mul_le_mul hv hq (abs_nonneg _) (by norm_num)
        linarith

/-- C26, end to end: what the constructor builds from a real multiplier `p`, and the error of the
product against the real product. -/
theorem C26_end_to_end (env : Env) (w : ℕ) (name mode : String) (hn : name.toLower ∈ ["sobol", "rc"])
    (hm : DirOK env.sobolM) (hw : w ≤ env.maxbit) (hmode : parseMode mode = .ok .bipolar) (p : ℚ)
    (hp : -1 ≤ p ∧ p ≤ 1) {x : ℕ → ℤ} (hx : Verif.Spec.BitStream x) :
    ∃ l b, mkStatic env mode w name (some p) = .ok (.bipolar, l, b) ∧ ∀ n, 0 < n →
      |Verif.Spec.biValue (mulOut .bipolar w l b x) n - Verif.Spec.biValue x n * p| ≤ 4 * w / n + 1 / 2 ^ w := by
  obtain ⟨l, hl, hpre⟩ := C26_real env w name hn hm hw hx
  have hperm : Verif.Spec.IsPermSeq w l := by
    obtain ⟨l', hl', hp'⟩ := C02_sobol_perm env w name hn hm hw
    rw [hl] at hl'; cases hl'; exact hp'
  refine ⟨l, binGenM .bipolar w p, ?_, fun n hn0 => (hpre p n hn0).2 hp⟩
  have hlen := (C01_length_check l).1 ⟨w, hperm.1⟩
  have hbin : binGen mode w p = .ok (binGenM .bipolar w p) := by
    unfold binGen; rw [hmode]; rfl
  unfold mkStatic
  rw [hmode, hl]
  show (binGen mode w p >>= fun b => bsGenInit l >>= fun r' => pure (Mode.bipolar, r', b)) = _
  rw [hbin, hlen]; rfl

/-- C26, end to end, for unipolar data. -/
theorem C26_end_to_end_unipolar (env : Env) (w : ℕ) (name mode : String) (hn : name.toLower ∈ ["sobol", "rc"])
    (hm : DirOK env.sobolM) (hw : w ≤ env.maxbit) (hmode : parseMode mode = .ok .unipolar) (p : ℚ)
    (hp : 0 ≤ p ∧ p ≤ 1) {x : ℕ → ℤ} (hx : Verif.Spec.BitStream x) :
    ∃ l b, mkStatic env mode w name (some p) = .ok (.unipolar, l, b) ∧ ∀ n, 0 < n →
      |Verif.Spec.uniValue (mulOut .unipolar w l b x) n - Verif.Spec.uniValue x n * p| ≤ w / n + 1 / 2 ^ (w + 1) := by
  obtain ⟨l, hl, hpre⟩ := C26_real env w name hn hm hw hx
  have hperm : Verif.Spec.IsPermSeq w l := by
    obtain ⟨l', hl', hp'⟩ := C02_sobol_perm env w name hn hm hw
    rw [hl] at hl'; cases hl'; exact hp'
  refine ⟨l, binGenM .unipolar w p, ?_, fun n hn0 => (hpre p n hn0).1 hp⟩
  have hlen := (C01_length_check l).1 ⟨w, hperm.1⟩
  have hbin : binGen mode w p = .ok (binGenM .unipolar w p) := by
    unfold binGen; rw [hmode]; rfl
  unfold mkStatic
  rw [hmode, hl]
  show (binGen mode w p >>= fun b => bsGenInit l >>= fun r' => pure (Mode.unipolar, r', b)) = _
  rw [hbin, hlen]; rfl

/-- A static multiplier without a value for its multiplier is rejected. -/
theorem C24_needs_prob (env : Env) (mode : String) (m : Mode) (hm : parseMode mode = .ok m) (w : ℕ)
    (name : String) (l : List ℤ) (hl : rng env w name = .ok l) :
    mkStatic env mode w name none = .error .assertion := by
  unfold mkStatic; rw [hm, hl]; rfl

/-- Non-vacuity. -/
example : Verif.Spec.IsPermSeq 1 [1, 0] ∧ Verif.Spec.BitStream (fun t => ((t % 2 : ℕ) : ℤ)) ∧
    Verif.Spec.ones (fun t => ((t % 2 : ℕ) : ℤ)) 4 = 1 * 2 ^ 1 ∧
    ((4 : ℕ) : ℤ) - Verif.Spec.ones (fun t => ((t % 2 : ℕ) : ℤ)) 4 = 1 * 2 ^ 1 := by
  refine ⟨⟨rfl, fun v h0 h1 => by interval_cases v <;> rfl⟩, fun t => ?_, by decide, by decide⟩
  show IsBit ((t % 2 : ℕ) : ℤ)
  rcases Nat.mod_two_eq_zero_or_one t with h | h <;> rw [h]
  · exact Or.inl rfl
  · exact Or.inr rfl

/-! ## C27 -/

/-- Output of a fresh in-stream multiplier at call `t`. -/
def mulStreamOut (m : Mode) (w : ℕ) (rng : List ℤ) (x y : ℕ → ℤ) (t : ℕ) : ℤ :=
  outAt (stepStream m w rng) (Multiplier.init w) (fun t => (x t, y t)) t

/-- Ones among the `2^w` bits of `in_1` before call `t`; before the start the alternating pattern
`0 1 0 1 …` of length `2^w`. -/
def Spec.windowCount (w : ℕ) (y : ℕ → ℤ) (t : ℕ) : ℤ :=
  ∑ k ∈ range (2 ^ w), if t + k < 2 ^ w then (((t + k) % 2 : ℕ) : ℤ) else y (t + k - 2 ^ w)

private theorem stream_state (m : Mode) (w : ℕ) (rng : List ℤ) (x y : ℕ → ℤ) (n : ℕ) :
    let s := stateAt (stepStream m w rng) (Multiplier.init w) (fun t => (x t, y t)) n
    s.idx = Verif.Spec.ones x n % 2 ^ w ∧
    (m = .bipolar → s.idxInv = (n - Verif.Spec.ones x n) % 2 ^ w) ∧
    s.sr = ((Small.srInit (2 ^ w)) ++ (List.range n).map y).drop n := by
  induction n with
  | zero =>
      refine ⟨by simp [Multiplier.init], fun _ => by simp [Multiplier.init], by simp [Multiplier.init]⟩
  | succ n ih =>
      obtain ⟨h1, h2, h3⟩ := ih
      have hsr : Small.srShift (((Small.srInit (2 ^ w)) ++ (List.range n).map y).drop n) (y n) none
          = ((Small.srInit (2 ^ w)) ++ (List.range (n + 1)).map y).drop (n + 1) := by
        have hlen : (((Small.srInit (2 ^ w)) ++ (List.range n).map y).drop n).length = 2 ^ w := by
          simp [Small.srInit_length]
        have hne : ((Small.srInit (2 ^ w)) ++ (List.range n).map y).drop n ≠ [] := by
          intro h; rw [h] at hlen; have := Nat.two_pow_pos w; simp only [List.length_nil] at hlen; omega
        rw [Small.srShift_none _ hne, List.drop_drop, List.range_succ, List.map_append, ← List.append_assoc]
        rw [List.drop_append_of_le_length (l₂ := List.map y [n])]
        · rfl
        · have := Nat.two_pow_pos w
          simp only [List.length_append, Small.srInit_length, List.length_map, List.length_range]; omega
      simp only [stateAt_succ]
      cases m
      · refine ⟨?_, fun h => Mode.noConfusion h, ?_⟩
        · show ((stateAt (stepStream .unipolar w rng) (Multiplier.init w) (fun t => (x t, y t)) n).idx + x n) % (2 ^ w) = _
          rw [h1, Verif.Spec.ones_succ, Int.emod_add_emod]
        · show Small.srShift (stateAt (stepStream .unipolar w rng) (Multiplier.init w) (fun t => (x t, y t)) n).sr (y n) none = _
          rw [h3, hsr]
      · refine ⟨?_, fun _ => ?_, ?_⟩
        · show ((stateAt (stepStream .bipolar w rng) (Multiplier.init w) (fun t => (x t, y t)) n).idx + x n) % (2 ^ w) = _
          rw [h1, Verif.Spec.ones_succ, Int.emod_add_emod]
        · show ((stateAt (stepStream .bipolar w rng) (Multiplier.init w) (fun t => (x t, y t)) n).idxInv + (1 - x n)) % (2 ^ w) = _
          rw [h2 rfl, Verif.Spec.ones_succ, Int.emod_add_emod]; congr 1; push_cast; ring
        · show Small.srShift (stateAt (stepStream .bipolar w rng) (Multiplier.init w) (fun t => (x t, y t)) n).sr (y n) none = _
          rw [h3, hsr]

private theorem sr_window (w : ℕ) (y : ℕ → ℤ) (n : ℕ) :
    (((Small.srInit (2 ^ w)) ++ (List.range n).map y).drop n).sum = Spec.windowCount w y n := by
  have h := C29_delay (2 ^ w) (Nat.two_pow_pos w) y (fun _ => 0) (fun _ => Nat.two_pow_pos w) n
  have h2 := C29_masked (2 ^ w) (Nat.two_pow_pos w) (fun t => (y t, none, 0)) (fun _ => Or.inl rfl)
    (fun _ => Nat.two_pow_pos w) n
  rw [h] at h2
  have hp : Spec.pushed (fun t => (y t, none, 0)) n = (List.range n).map y := by
    unfold Spec.pushed
    rw [List.filterMap_map]
    simp
  have h3 := (Prod.mk.inj (Except.ok.inj h2)).2
  rw [hp] at h3
  simp only [Spec.tape, hp, List.length_map, List.length_range] at h3
  unfold Spec.windowCount
  rw [h3]
  rfl

/-- C27: each output bit compares the window count of `in_1` with the sequence, at the position
given by the number of earlier ones (zeros) of `in_0`. -/
theorem C27_bit {x : ℕ → ℤ} (hx : Verif.Spec.BitStream x) (y : ℕ → ℤ) (w : ℕ) (rng : List ℤ)
    (hl : rng.length = 2 ^ w) (t : ℕ) :
    mulStreamOut .unipolar w rng x y t
      = x t * bsGen rng (Spec.windowCount w y t) (Verif.Spec.ones x t) ∧
    mulStreamOut .bipolar w rng x y t
      = x t * bsGen rng (Spec.windowCount w y t) (Verif.Spec.ones x t)
        + (1 - x t) * (1 - bsGen rng (Spec.windowCount w y t) (t - Verif.Spec.ones x t)) := by
  have hat : ∀ (c : ℤ), (ind (Spec.windowCount w y t > rngAt rng (c % 2 ^ w)) : ℤ) = bsGen rng (Spec.windowCount w y t) c := by
    intro c; unfold bsGen rngAt; rw [hl]; push_cast; rfl
  obtain ⟨u1, -, u3⟩ := stream_state .unipolar w rng x y t
  obtain ⟨b1, b2, b3⟩ := stream_state .bipolar w rng x y t
  have h1 := bsGen_isBit rng (Spec.windowCount w y t) (Verif.Spec.ones x t)
  have h2 := isBit_compl (bsGen_isBit rng (Spec.windowCount w y t) (t - Verif.Spec.ones x t))
  constructor
  · have e : mulStreamOut .unipolar w rng x y t = Int.land (x t)
        (ind ((stateAt (stepStream .unipolar w rng) (Multiplier.init w) (fun t => (x t, y t)) t).sr.sum
          > rngAt rng (stateAt (stepStream .unipolar w rng) (Multiplier.init w) (fun t => (x t, y t)) t).idx)) := rfl
    rw [e, u1, u3, sr_window, hat, land_bits (hx t) h1]
  · have e : mulStreamOut .bipolar w rng x y t = Int.lor (Int.land (x t)
        (ind ((stateAt (stepStream .bipolar w rng) (Multiplier.init w) (fun t => (x t, y t)) t).sr.sum
          > rngAt rng (stateAt (stepStream .bipolar w rng) (Multiplier.init w) (fun t => (x t, y t)) t).idx)))
        (Int.land (1 - x t)
        (1 - ind ((stateAt (stepStream .bipolar w rng) (Multiplier.init w) (fun t => (x t, y t)) t).sr.sum
          > rngAt rng (stateAt (stepStream .bipolar w rng) (Multiplier.init w) (fun t => (x t, y t)) t).idxInv))) := rfl
    rw [e, b1, b2 rfl, b3, sr_window, hat, hat, land_bits (hx t) h1, land_bits (isBit_compl (hx t)) h2,
      lor_bits' (isBit_mul (hx t) h1) (isBit_mul (isBit_compl (hx t)) h2)]
    rcases hx t with h | h <;> rw [h] <;> ring

/-- Once the register is full, the window count is the count of the last `2^w` bits of `in_1`. -/
theorem windowCount_full (w : ℕ) (y : ℕ → ℤ) (t : ℕ) :
    Spec.windowCount w y (t + 2 ^ w) = Verif.Spec.ones y (t + 2 ^ w) - Verif.Spec.ones y t := by
  unfold Spec.windowCount Verif.Spec.ones
  rw [sum_range_add]
  have : ∀ k ∈ range (2 ^ w), (if t + 2 ^ w + k < 2 ^ w then (((t + 2 ^ w + k) % 2 : ℕ) : ℤ) else y (t + 2 ^ w + k - 2 ^ w))
      = y (t + k) := by
    intro k _
    rw [if_neg (by omega)]; congr 1; omega
  rw [sum_congr rfl this]; ring

/-- The window count before the first call. -/
private theorem windowCount_zero (w : ℕ) (y : ℕ → ℤ) : Spec.windowCount w y 0 = 2 ^ w / 2 := by
  have key : ∀ n, ∑ k ∈ range n, ((k % 2 : ℕ) : ℤ) = (n : ℤ) / 2 := by
    intro n
    induction n with
    | zero => rfl
    | succ n ih => rw [sum_range_succ, ih]; omega
  unfold Spec.windowCount
  have : ∀ k ∈ range (2 ^ w), (if 0 + k < 2 ^ w then (((0 + k) % 2 : ℕ) : ℤ) else y (0 + k - 2 ^ w)) = ((k % 2 : ℕ) : ℤ) := by
    intro k hk
    rw [if_pos (by simpa using mem_range.1 hk), Nat.zero_add]
  rw [sum_congr rfl this, key]; push_cast; rfl

/-- C27: from call `2^w` on, each output bit compares the number of ones among the `2^w` bits of `in_1` before it with the
sequence. -/
theorem C27_window {x : ℕ → ℤ} (hx : Verif.Spec.BitStream x) (y : ℕ → ℤ) (w : ℕ) (rng : List ℤ)
    (hl : rng.length = 2 ^ w) (t : ℕ) :
    mulStreamOut .unipolar w rng x y (t + 2 ^ w)
      = x (t + 2 ^ w) * bsGen rng (∑ k ∈ range (2 ^ w), y (t + k)) (Verif.Spec.ones x (t + 2 ^ w)) ∧
    mulStreamOut .bipolar w rng x y (t + 2 ^ w)
      = x (t + 2 ^ w) * bsGen rng (∑ k ∈ range (2 ^ w), y (t + k)) (Verif.Spec.ones x (t + 2 ^ w))
        + (1 - x (t + 2 ^ w)) * (1 - bsGen rng (∑ k ∈ range (2 ^ w), y (t + k))
            ((t + 2 ^ w : ℕ) - Verif.Spec.ones x (t + 2 ^ w))) := by
  have h := C27_bit hx y w rng hl (t + 2 ^ w)
  have e : Spec.windowCount w y (t + 2 ^ w) = ∑ k ∈ range (2 ^ w), y (t + k) := by
    rw [windowCount_full]
    unfold Verif.Spec.ones
    rw [sum_range_add]; ring
  rw [e] at h
  exact h

/-- C27: the first bit of a fresh multiplier is that of `in_1` with `2^w / 2` ones, whatever `in_1` is. -/
theorem C27_warmup {x : ℕ → ℤ} (hx : Verif.Spec.BitStream x) (y : ℕ → ℤ) (w : ℕ) (rng : List ℤ)
    (hl : rng.length = 2 ^ w) :
    mulStreamOut .unipolar w rng x y 0 = x 0 * bsGen rng (2 ^ w / 2) 0 ∧
    mulStreamOut .bipolar w rng x y 0 = x 0 * bsGen rng (2 ^ w / 2) 0 + (1 - x 0) * (1 - bsGen rng (2 ^ w / 2) 0) := by
  have h := C27_bit hx y w rng hl 0
  rw [windowCount_zero] at h
  simpa [Verif.Spec.ones] using h

example : mulStreamOut .unipolar 2 [0, 2, 1, 3] (fun _ => 1) (fun _ => 0) 0 = 1 ∧
    mulStreamOut .unipolar 2 [0, 2, 1, 3] (fun _ => 1) (fun _ => 0) 4 = 0 := by
  decide +kernel

private theorem period_mul (y : ℕ → ℤ) (p : ℕ) (hper : ∀ t, y (t + p) = y t) (q t : ℕ) : y (t + q * p) = y t := by
  induction q with
  | zero => simp
  | succ q ih => rw [Nat.succ_mul, ← Nat.add_assoc, hper, ih]

/-- C27: a periodic `in_1` whose period divides `2^w` is, from call `2^w` on, multiplied exactly
as by the static multiplier encoding its count per `2^w` bits. -/
theorem C27_static {x y : ℕ → ℤ} (hx : Verif.Spec.BitStream x) (w p : ℕ) (hp : p ∣ 2 ^ w)
    (hper : ∀ t, y (t + p) = y t) (rng : List ℤ) (hl : rng.length = 2 ^ w) (m : Mode) (t : ℕ) (ht : 2 ^ w ≤ t) :
    mulStreamOut m w rng x y t = mulOut m w rng (Verif.Spec.ones y (2 ^ w)) x t := by
  obtain ⟨q, hq⟩ := hp
  have hperL : ∀ t, y (t + 2 ^ w) = y t := by
    intro t; rw [hq, mul_comm]; exact period_mul y p hper q t
  have hwin : ∀ s, Verif.Spec.ones y (s + 2 ^ w) - Verif.Spec.ones y s = Verif.Spec.ones y (2 ^ w) := by
    intro s
    induction s with
    | zero => simp
    | succ s ih =>
        rw [show s + 1 + 2 ^ w = s + 2 ^ w + 1 by ring, Verif.Spec.ones_succ, Verif.Spec.ones_succ, hperL]
        linarith
  have hc : Spec.windowCount w y t = Verif.Spec.ones y (2 ^ w) := by
    obtain ⟨s, rfl⟩ := Nat.exists_eq_add_of_le ht
    rw [add_comm, windowCount_full, hwin]
  obtain ⟨h1, h2⟩ := C27_bit hx y w rng hl t
  cases m
  · rw [h1, hc, C24_bit hx]
  · rw [h2, hc, C25_bit hx]

example : 2 ∣ 2 ^ 3 ∧ (∀ t, (fun t => ((t % 2 : ℕ) : ℤ)) (t + 2) = (fun t => ((t % 2 : ℕ) : ℤ)) t) ∧
    Verif.Spec.ones (fun t => ((t % 2 : ℕ) : ℤ)) (2 ^ 3) = 4 := by
  refine ⟨by decide, fun t => by simp, by decide⟩

end Verif.Props
