import Verif.Spec
import Verif.Props.Add
import Verif.Props.Mul
import Verif.Props.Linear
import Verif.Props.Metric

/-!
# Properties C60–C61: streams of a steady rate

A stream has a steady rate when every window of consecutive cycles carries the same value, up to a constant and a
small slack per cycle.  The adder, the multipliers and the linear layer preserve this, and their results are the
arithmetic ones, clipped to the representable range.
-/

namespace Verif.Props

open Verif Finset Shuffle Adder

namespace Spec

/-- Every window of `n` consecutive values sums to `p * n`, up to `ε * n + K`. -/
def Near (x : ℕ → ℚ) (p ε K : ℚ) : Prop := ∀ m n : ℕ, |∑ t ∈ range n, x (m + t) - p * n| ≤ ε * n + K

/-- Every window of `n` consecutive bits has bipolar sum (ones minus zeros) `v * n`, up to `ε * n + K`. -/
def Tracks (x : ℕ → ℤ) (v ε K : ℚ) : Prop := Near (fun t => 2 * (x t : ℚ) - 1) v ε K

end Spec

open Spec (addEntry addScale addOffset addDelta)

section lane

/-- One lane of a saturating accumulator. -/
private structure Lane (B S : ℚ) (δ acc : ℕ → ℚ) (o : ℕ → ℚ) : Prop where
  h0 : acc 0 = 0
  hstep : ∀ n, acc (n + 1) + S * o n = max (-B) (min (acc n + δ n) B)
  hbit : ∀ n, (o n = 1 ∧ S ≤ acc (n + 1) + S * o n) ∨ (o n = 0 ∧ acc (n + 1) + S * o n < S)

variable {B S : ℚ} {δ acc o : ℕ → ℚ}

private theorem win_succ (f : ℕ → ℚ) (m n : ℕ) : ∑ t ∈ range (n + 1), f (m + t) = ∑ t ∈ range n, f (m + t) + f (m + n) :=
  sum_range_succ _ _

/-- A window ending at `m + n` and starting at `m + j`. -/
private theorem win_split (f : ℕ → ℚ) (m j k : ℕ) :
    ∑ t ∈ range (j + k), f (m + t) = ∑ t ∈ range j, f (m + t) + ∑ t ∈ range k, f (m + j + t) := by
  rw [sum_range_add]; simp only [add_assoc]

private theorem acc_ge (h : Lane B S δ acc o) (_hS : 0 < S) (hB : S ≤ B) {K : ℚ}
    (hδ : ∀ m n : ℕ, -K ≤ ∑ t ∈ range n, δ (m + t)) (n : ℕ) : -K ≤ acc n := by
  have key : ∀ n, ∃ m j, m + j = n ∧ ∑ t ∈ range j, δ (m + t) ≤ acc n := by
    intro n
    induction n with
    | zero => exact ⟨0, 0, rfl, by simp [h.h0]⟩
    | succ n ih =>
        obtain ⟨m, j, hmj, hle⟩ := ih
        rcases h.hbit n with ⟨h1, h2⟩ | ⟨h1, h2⟩
        · refine ⟨n + 1, 0, rfl, ?_⟩
          rw [h1] at h2; simp; linarith
        · refine ⟨m, j + 1, by omega, ?_⟩
          have hs := h.hstep n
          have hy : acc n + δ n ≤ B := by
            by_contra hc
            rw [min_eq_right (not_le.1 hc).le] at hs
            have := le_max_right (-B) B
            linarith
          rw [min_eq_left hy] at hs
          have := le_max_right (-B) (acc n + δ n)
          rw [win_succ, hmj]
          rw [h1] at hs; linarith
  obtain ⟨m, j, -, hle⟩ := key n
  exact le_trans (hδ m j) hle

private theorem acc_le (h : Lane B S δ acc o) (hS : 0 < S) (hB : S ≤ B) {K : ℚ}
    (hδ : ∀ m n : ℕ, ∑ t ∈ range n, δ (m + t) ≤ S * n + K) (n : ℕ) : acc n ≤ S + K := by
  have key : ∀ n, ∃ m j, m + j = n ∧ acc n ≤ S + (∑ t ∈ range j, δ (m + t) - S * j) := by
    intro n
    induction n with
    | zero => exact ⟨0, 0, rfl, by simp [h.h0]; linarith⟩
    | succ n ih =>
        obtain ⟨m, j, hmj, hle⟩ := ih
        rcases h.hbit n with ⟨h1, h2⟩ | ⟨h1, h2⟩
        · refine ⟨m, j + 1, by omega, ?_⟩
          have hs := h.hstep n
          have hy : max (-B) (min (acc n + δ n) B) ≤ acc n + δ n := by
            rw [hs] at h2
            rcases le_total (-B) (min (acc n + δ n) B) with h' | h'
            · rw [max_eq_right h']; exact min_le_left _ _
            · rw [max_eq_left h'] at h2; linarith
          rw [win_succ, hmj]
          rw [h1] at hs; push_cast; linarith
        · refine ⟨n + 1, 0, rfl, ?_⟩
          rw [h1] at h2; simp; linarith
  obtain ⟨m, j, -, hle⟩ := key n
  linarith [hδ m j]

/-- At least the rate `ν` of the input is emitted. -/
private theorem lane_lower (h : Lane B S δ acc o) (hS : 0 < S) {ν K : ℚ} (hK : 0 ≤ K) (h0 : 0 ≤ ν) (h1 : ν ≤ S)
    (hB : 2 * S + K ≤ B) (hδ : ∀ m n : ℕ, ν * n - K ≤ ∑ t ∈ range n, δ (m + t)) (m k : ℕ) :
    ν * k - (S + 2 * K) ≤ S * ∑ t ∈ range k, o (m + t) := by
  have ha : ∀ n, -K ≤ acc n := acc_ge h hS (by linarith) fun m n => by
    have := hδ m n
    have : 0 ≤ ν * (n:ℚ) := mul_nonneg h0 (Nat.cast_nonneg n)
    linarith [hδ m n]
  have main : ν * k - (S + 2 * K) ≤ S * ∑ t ∈ range k, o (m + t) ∧
      ∃ i j, i + j = k ∧ -K + (∑ t ∈ range j, δ (m + i + t) - ν * j) ≤ S * ∑ t ∈ range k, o (m + t) - ν * k + acc (m + k) := by
    induction k with
    | zero => exact ⟨by simp; linarith, 0, 0, rfl, by simp; linarith [ha m]⟩
    | succ k ih =>
        obtain ⟨hW, i, j, hij, hF⟩ := ih
        have hs := h.hstep (m + k)
        have e : m + (k + 1) = m + k + 1 := by ring
        have hF' : ∃ i j, i + j = k + 1 ∧ -K + (∑ t ∈ range j, δ (m + i + t) - ν * j) ≤
            S * ∑ t ∈ range (k + 1), o (m + t) - ν * (k + 1 : ℕ) + acc (m + (k + 1)) := by
          rcases le_total (acc (m + k) + δ (m + k)) B with hy | hy
          · refine ⟨i, j + 1, by omega, ?_⟩
            rw [min_eq_left hy] at hs
            have := le_max_right (-B) (acc (m + k) + δ (m + k))
            rw [win_succ o, win_succ δ, show m + i + j = m + k by omega, e]
            push_cast; linarith
          · refine ⟨k + 1, 0, by omega, ?_⟩
            rw [min_eq_right hy] at hs
            have := le_max_right (-B) B
            rw [win_succ o, e]
            simp only [range_zero, sum_empty]
            push_cast; linarith
        refine ⟨?_, hF'⟩
        rcases h.hbit (m + k) with ⟨b1, b2⟩ | ⟨b1, b2⟩
        · rw [win_succ o, b1]; push_cast; linarith
        · obtain ⟨i', j', -, hF'⟩ := hF'
          have := hδ (m + i') j'
          rw [b1] at b2
          rw [e] at hF'
          push_cast at hF' ⊢; linarith
  exact main.1

/-- At most the rate `ν` of the input is emitted. -/
private theorem lane_upper (h : Lane B S δ acc o) (hS : 0 < S) {ν K : ℚ} (hK : 0 ≤ K) (h0 : 0 ≤ ν) (h1 : ν ≤ S)
    (hB : 2 * S + K ≤ B) (hδ : ∀ m n : ℕ, ∑ t ∈ range n, δ (m + t) ≤ ν * n + K) (m k : ℕ) :
    S * ∑ t ∈ range k, o (m + t) ≤ ν * k + (S + 2 * K) := by
  have ha : ∀ n, acc n ≤ S + K := acc_le h hS (by linarith) fun m n => by
    have : ν * (n:ℚ) ≤ S * n := mul_le_mul_of_nonneg_right h1 (Nat.cast_nonneg n)
    linarith [hδ m n]
  have main : S * ∑ t ∈ range k, o (m + t) ≤ ν * k + (S + 2 * K) ∧
      ∃ i j, i + j = k ∧ S * ∑ t ∈ range k, o (m + t) - ν * k + acc (m + k) ≤
        S + K + (∑ t ∈ range j, δ (m + i + t) - ν * j) := by
    induction k with
    | zero => exact ⟨by simp; linarith, 0, 0, rfl, by simp; linarith [ha m]⟩
    | succ k ih =>
        obtain ⟨hW, i, j, hij, hF⟩ := ih
        have hs := h.hstep (m + k)
        have e : m + (k + 1) = m + k + 1 := by ring
        have hF' : ∃ i j, i + j = k + 1 ∧ S * ∑ t ∈ range (k + 1), o (m + t) - ν * (k + 1 : ℕ) + acc (m + (k + 1)) ≤
            S + K + (∑ t ∈ range j, δ (m + i + t) - ν * j) := by
          rcases le_total (-B) (acc (m + k) + δ (m + k)) with hy | hy
          · refine ⟨i, j + 1, by omega, ?_⟩
            have : max (-B) (min (acc (m + k) + δ (m + k)) B) ≤ acc (m + k) + δ (m + k) :=
              max_le hy (min_le_left _ _)
            rw [win_succ o, win_succ δ, show m + i + j = m + k by omega, e]
            push_cast; linarith
          · refine ⟨k + 1, 0, by omega, ?_⟩
            rw [min_eq_left (by linarith), max_eq_left hy] at hs
            rw [win_succ o, e]
            simp only [range_zero, sum_empty]
            push_cast; linarith
        refine ⟨?_, hF'⟩
        rcases h.hbit (m + k) with ⟨b1, b2⟩ | ⟨b1, b2⟩
        · obtain ⟨i', j', -, hF'⟩ := hF'
          have := hδ (m + i') j'
          rw [b1] at b2
          rw [e] at hF'
          push_cast at hF' ⊢; linarith
        · rw [win_succ o, b1]; push_cast; linarith
  exact main.1

private theorem lane_near (h : Lane B S δ acc o) (hS : 0 < S) {μ ε K : ℚ} (hε : 0 ≤ ε) (hB : 2 * S + K ≤ B)
    (hδ : Spec.Near δ μ ε K) : Spec.Near (fun t => S * o t) (max 0 (min μ S)) ε (S + 2 * K) := by
  have hK : 0 ≤ K := by have := hδ 0 0; simpa using this
  have hb : ∀ t, 0 ≤ o t ∧ o t ≤ 1 := by
    intro t
    rcases h.hbit t with ⟨h1, -⟩ | ⟨h1, -⟩ <;> rw [h1] <;> norm_num
  intro m n
  rw [← mul_sum, abs_le]
  have hn : (0:ℚ) ≤ n := Nat.cast_nonneg n
  have hO0 : 0 ≤ ∑ t ∈ range n, o (m + t) := sum_nonneg fun t _ => (hb _).1
  have hO1 : ∑ t ∈ range n, o (m + t) ≤ n := by
    calc _ ≤ ∑ _t ∈ range n, (1:ℚ) := sum_le_sum fun t _ => (hb _).2
      _ = n := by simp
  constructor
  · rcases le_total (μ - ε) 0 with hμ | hμ
    · have h1 : max 0 (min μ S) ≤ ε := max_le hε (le_trans (min_le_left _ _) (by linarith))
      have := mul_le_mul_of_nonneg_right h1 hn
      have := mul_nonneg hS.le hO0
      linarith
    · have hl := lane_lower h hS (ν := min (μ - ε) S) hK (le_min hμ hS.le) (min_le_right _ _) hB (fun m n => by
        have h1 := (abs_le.1 (hδ m n)).1
        have := mul_le_mul_of_nonneg_right (min_le_left (μ - ε) S) (Nat.cast_nonneg (α := ℚ) n)
        linarith) m n
      have h1 : max 0 (min μ S) ≤ min (μ - ε) S + ε := by
        apply max_le
        · have := le_min hμ hS.le; linarith
        · rcases min_cases (μ - ε) S with ⟨e, -⟩ | ⟨e, -⟩ <;> rw [e]
          · have := min_le_left μ S; linarith
          · have := min_le_right μ S; linarith
      have := mul_le_mul_of_nonneg_right h1 hn
      linarith
  · rcases le_total S (μ + ε) with hμ | hμ
    · have h1 : S - ε ≤ max 0 (min μ S) := le_trans (le_min (by linarith) (by linarith)) (le_max_right _ _)
      have := mul_le_mul_of_nonneg_right h1 hn
      have := mul_le_mul_of_nonneg_left hO1 hS.le
      linarith
    · have hl := lane_upper h hS (ν := max (μ + ε) 0) hK (le_max_right _ _) (max_le hμ hS.le) hB (fun m n => by
        have h1 := (abs_le.1 (hδ m n)).2
        have := mul_le_mul_of_nonneg_right (le_max_left (μ + ε) 0) (Nat.cast_nonneg (α := ℚ) n)
        linarith) m n
      have h1 : max (μ + ε) 0 ≤ max 0 (min μ S) + ε := by
        apply max_le
        · have h2 := le_max_right 0 (min μ S)
          rw [min_eq_left (by linarith)] at h2 ⊢; linarith
        · have := le_max_left 0 (min μ S); linarith
      have := mul_le_mul_of_nonneg_right h1 hn
      linarith

end lane

/-! ## C60 -/

private theorem add_lane (cfg : Cfg) (a : ℕ → Arg) (hS : 0 < addScale cfg a) :
    Lane ((2:ℚ) ^ (cfg.depth - 2)) (addScale cfg a) (addDelta cfg a) (addAcc cfg a) (fun t => (addOut cfg a t : ℚ)) := by
  refine ⟨rfl, fun n => C18_single_clamp cfg a hS.le n, fun n => ?_⟩
  have hs := C18_single_clamp cfg a hS.le n
  have hp : (0:ℚ) < (2:ℚ) ^ (cfg.depth - 2) := zpow_pos (by norm_num) _
  have hcl : clamp (-(2:ℚ) ^ (cfg.depth - 2)) ((2:ℚ) ^ (cfg.depth - 2)) (addAcc cfg a n + addDelta cfg a n)
      = max (-(2:ℚ) ^ (cfg.depth - 2)) (min (addAcc cfg a n + addDelta cfg a n) ((2:ℚ) ^ (cfg.depth - 2))) := by
    unfold clamp
    generalize (2:ℚ) ^ (cfg.depth - 2) = B at *
    generalize addAcc cfg a n + addDelta cfg a n = y
    rcases le_total y (-B) with h | h
    · rw [max_eq_right h, min_eq_left (by linarith), min_eq_left (by linarith), max_eq_left h]
    · rw [max_eq_left h, max_eq_right (le_min h (by linarith))]
  have ho := addOut_eq cfg a n
  have hB : accBound cfg.depth = (2:ℚ) ^ (cfg.depth - 2) := rfl
  rw [hB, hcl, ← hs] at ho
  by_cases hc : addAcc cfg a (n + 1) + addScale cfg a * addOut cfg a n ≥ addScale cfg a
  · rw [ind_true hc] at ho
    exact Or.inl ⟨by exact_mod_cast ho, hc⟩
  · rw [ind_false hc] at ho
    exact Or.inr ⟨by exact_mod_cast ho, not_le.1 hc⟩

/-- C60: an adder whose net input per cycle (sum of the inputs minus the offset) has the steady rate `μ` emits ones at
the steady rate `μ / S` clipped to `[0, 1]`, whatever saturation happens meanwhile, if the accumulator range is at
least `2 S + K`. -/
theorem C60_clip (cfg : Cfg) (a : ℕ → Arg) (hS : 0 < addScale cfg a) (μ ε K : ℚ) (hε : 0 ≤ ε)
    (hB : 2 * addScale cfg a + K ≤ (2:ℚ) ^ (cfg.depth - 2)) (h : Spec.Near (addDelta cfg a) μ ε K) :
    Spec.Near (fun t => addScale cfg a * addOut cfg a t) (max 0 (min μ (addScale cfg a))) ε (addScale cfg a + 2 * K) :=
  lane_near (add_lane cfg a hS) hS hε hB h

private theorem ones_win (x : ℕ → ℤ) (m n : ℕ) :
    ∑ t ∈ range n, (x (m + t) : ℚ) = Verif.Spec.ones x (m + n) - Verif.Spec.ones x m := by
  have : Verif.Spec.ones x (m + n) = Verif.Spec.ones x m + ∑ t ∈ range n, x (m + t) := by
    unfold Verif.Spec.ones; rw [sum_range_add]
  rw [this]; push_cast; ring

theorem bi_win (x : ℕ → ℤ) (m n : ℕ) :
    ∑ t ∈ range n, (2 * (x (m + t) : ℚ) - 1) = 2 * ((Verif.Spec.ones x (m + n) : ℚ) - Verif.Spec.ones x m) - n := by
  rw [sum_sub_distrib, ← mul_sum, ones_win]; simp

/-- C60: the value of every prefix of a stream of steady rate. -/
theorem C60_unipolar_value {x : ℕ → ℤ} {p ε K : ℚ} (h : Spec.Near (fun t => (x t : ℚ)) p ε K) {n : ℕ} (hn : 0 < n) :
    |Verif.Spec.uniValue x n - p| ≤ ε + K / n := by
  have h1 := h 0 n
  have hq : (0:ℚ) < n := by exact_mod_cast hn
  rw [ones_win x 0 n] at h1
  have e : Verif.Spec.uniValue x n - p = ((Verif.Spec.ones x (0 + n) : ℚ) - Verif.Spec.ones x 0 - p * n) / n := by
    unfold Verif.Spec.uniValue
    simp only [Nat.zero_add, Verif.Spec.ones, range_zero, sum_empty]
    field_simp; push_cast; ring
  rw [e, abs_div, abs_of_pos hq, div_le_iff₀ hq]
  have : (ε + K / n) * n = ε * n + K := by field_simp
  linarith

/-- C60: likewise in bipolar mode. -/
theorem C60_bipolar_value {x : ℕ → ℤ} {v ε K : ℚ} (h : Spec.Tracks x v ε K) {n : ℕ} (hn : 0 < n) :
    |Verif.Spec.biValue x n - v| ≤ ε + K / n := by
  have h1 := h 0 n
  have hq : (0:ℚ) < n := by exact_mod_cast hn
  rw [bi_win x 0 n] at h1
  have e : Verif.Spec.biValue x n - v = (2 * ((Verif.Spec.ones x (0 + n) : ℚ) - Verif.Spec.ones x 0) - n - v * n) / n := by
    unfold Verif.Spec.biValue
    simp only [Nat.zero_add, Verif.Spec.ones, range_zero, sum_empty]
    field_simp; push_cast; ring
  rw [e, abs_div, abs_of_pos hq, div_le_iff₀ hq]
  have : (ε + K / n) * n = ε * n + K := by field_simp
  linarith

theorem abs_sum_near {N : ℕ} {f : Fin N → ℚ} {p ε K : Fin N → ℚ} {n : ℕ}
    (h : ∀ i, |f i - p i * n| ≤ ε i * n + K i) : |∑ i, f i - (∑ i, p i) * n| ≤ (∑ i, ε i) * n + ∑ i, K i := by
  rw [sum_mul, sum_mul, ← sum_sub_distrib, ← sum_add_distrib]
  exact le_trans (abs_sum_le_sum_abs _ _) (sum_le_sum fun i _ => h i)

/-- `C60_clip` for the output bits. -/
private theorem clip_unipolar (cfg : Cfg) (a : ℕ → Arg) {S : ℚ} (hS : 0 < S) (hsc : addScale cfg a = S) {μ ε K : ℚ} (hε : 0 ≤ ε)
    (hB : 2 * S + K ≤ (2:ℚ) ^ (cfg.depth - 2)) (hδ : Spec.Near (addDelta cfg a) μ ε K) :
    Spec.Near (fun t => (addOut cfg a t : ℚ)) (max 0 (min μ S) / S) (ε / S) (1 + 2 * K / S) := by
  intro m n
  have h1 := C60_clip cfg a (by rw [hsc]; exact hS) _ _ _ hε (by rw [hsc]; exact hB) hδ m n
  rw [hsc] at h1
  have e : ∑ t ∈ range n, (addOut cfg a (m + t) : ℚ) - max 0 (min μ S) / S * n
      = (∑ t ∈ range n, S * (addOut cfg a (m + t) : ℚ) - max 0 (min μ S) * n) / S := by
    rw [← mul_sum]; field_simp
  show |∑ t ∈ range n, (addOut cfg a (m + t) : ℚ) - max 0 (min μ S) / S * n| ≤ _
  rw [e, abs_div, abs_of_pos hS, div_le_iff₀ hS]
  refine le_trans h1 (le_of_eq ?_)
  field_simp

/-- `C60_clip` for the bipolar value of the output. -/
theorem clip_bipolar (cfg : Cfg) (a : ℕ → Arg) {S : ℚ} (hS : 0 < S) (hsc : addScale cfg a = S) {V ε K : ℚ} (hε : 0 ≤ ε)
    (hB : 2 * S + K / 2 ≤ (2:ℚ) ^ (cfg.depth - 2)) (hδ : Spec.Near (addDelta cfg a) ((V + S) / 2) (ε / 2) (K / 2)) :
    Spec.Tracks (addOut cfg a) (max (-S) (min V S) / S) (ε / S) (2 + 2 * K / S) := by
  intro m n
  have h1 := C60_clip cfg a (by rw [hsc]; exact hS) _ _ _ (by linarith) (by rw [hsc]; exact hB) hδ m n
  rw [hsc] at h1
  have hcl : max 0 (min ((V + S) / 2) S) = (max (-S) (min V S) + S) / 2 := by
    rcases le_total V S with h1 | h1
    · rw [min_eq_left (by linarith), min_eq_left h1]
      rcases le_total (-S) V with h2 | h2
      · rw [max_eq_right (by linarith), max_eq_right h2]
      · rw [max_eq_left (by linarith), max_eq_left h2]; ring
    · rw [min_eq_right (by linarith), min_eq_right h1, max_eq_right hS.le, max_eq_right (by linarith)]; ring
  rw [hcl] at h1
  show |∑ t ∈ range n, (2 * (addOut cfg a (m + t) : ℚ) - 1) - max (-S) (min V S) / S * n| ≤ _
  have e : ∑ t ∈ range n, (2 * (addOut cfg a (m + t) : ℚ) - 1) - max (-S) (min V S) / S * n
      = 2 * (∑ t ∈ range n, S * (addOut cfg a (m + t) : ℚ) - (max (-S) (min V S) + S) / 2 * n) / S := by
    rw [← mul_sum, sum_sub_distrib, ← mul_sum]
    simp only [sum_const, card_range, nsmul_eq_mul, mul_one]
    field_simp; ring
  rw [e, abs_div, abs_of_pos hS, div_le_iff₀ hS, abs_mul, abs_of_pos (by norm_num : (0:ℚ) < 2)]
  have e2 : (ε / S * n + (2 + 2 * K / S)) * S = ε * n + 2 * S + 2 * K := by
    field_simp; ring
  rw [e2]
  linarith

/-- C60: the adder as a saturating sum of values.  Streams of steady unipolar values `v i`, scale `S`: the output has the
steady value `min(Σ v i, S) / S`; in bipolar mode: `Σ v i` clipped to `[-S, S]`, over `S`.  The slack per
cycle is the sum of the slacks of the inputs over `S`. -/
theorem C60_sum {N : ℕ} (cfg : Cfg) (x : Fin N → ℕ → ℤ) (hc : cfg.entry = none) (S : ℚ) (hS : 0 < S)
    (hsc : addScale cfg (streamArgs x) = S) (v ε K : Fin N → ℚ) (hε : ∀ i, 0 ≤ ε i) :
    (cfg.mode = .unipolar → (∀ i, Spec.Near (fun t => (x i t : ℚ)) (v i) (ε i) (K i)) →
      2 * S + ∑ i, K i ≤ (2:ℚ) ^ (cfg.depth - 2) →
      Spec.Near (fun t => (addOut cfg (streamArgs x) t : ℚ)) (max 0 (min (∑ i, v i) S) / S) ((∑ i, ε i) / S)
        (1 + 2 * (∑ i, K i) / S)) ∧
    (cfg.mode = .bipolar → (∀ i, Spec.Tracks (x i) (v i) (ε i) (K i)) →
      2 * S + (∑ i, K i) / 2 ≤ (2:ℚ) ^ (cfg.depth - 2) →
      Spec.Tracks (addOut cfg (streamArgs x)) (max (-S) (min (∑ i, v i) S) / S) ((∑ i, ε i) / S)
        (2 + 2 * (∑ i, K i) / S)) := by
  have hεs : 0 ≤ ∑ i, ε i := sum_nonneg fun i _ => hε i
  have he : addEntry cfg (streamArgs x) = N := by simp [addEntry, hc, streamArgs]
  have hsum : ∀ t, (streamArgs x t).xs.sum = ∑ i, (x i t : ℚ) := fun t => by unfold streamArgs; rw [List.sum_ofFn]
  constructor
  · intro hm h hB
    refine clip_unipolar cfg _ hS hsc hεs hB fun m n => ?_
    have : ∑ t ∈ range n, addDelta cfg (streamArgs x) (m + t) = ∑ i, ∑ t ∈ range n, (x i (m + t) : ℚ) := by
      rw [sum_comm]
      apply sum_congr rfl; intro t _
      simp [addDelta, addOffset, hm, hsum]
    rw [this]
    exact abs_sum_near fun i => h i m n
  · intro hm h hB
    have hof : addOffset cfg (streamArgs x) = (N - S) / 2 := by simp [addOffset, hm, he, hsc]
    refine clip_bipolar cfg _ hS hsc hεs hB fun m n => ?_
    have h1 := abs_sum_near (n := n) fun i => h i m n
    have : ∑ t ∈ range n, addDelta cfg (streamArgs x) (m + t)
        = (∑ i, ∑ t ∈ range n, (2 * (x i (m + t) : ℚ) - 1) + S * n) / 2 := by
      rw [sum_comm]
      have : ∀ t, addDelta cfg (streamArgs x) (m + t) = (∑ i, (2 * (x i (m + t) : ℚ) - 1) + S) / 2 := by
        intro t
        unfold addDelta
        rw [hsum, hof, sum_sub_distrib, ← mul_sum]
        simp only [sum_const, card_univ, Fintype.card_fin, nsmul_eq_mul]; ring
      simp only [this]
      rw [← sum_div, sum_add_distrib]
      simp only [sum_const, card_range, nsmul_eq_mul]; ring
    rw [this]
    have e : (∑ i, ∑ t ∈ range n, (2 * (x i (m + t) : ℚ) - 1) + S * n) / 2 - (∑ i, v i + S) / 2 * n
        = (∑ i, ∑ t ∈ range n, (2 * (x i (m + t) : ℚ) - 1) - (∑ i, v i) * n) / 2 := by ring
    rw [e, abs_div, abs_of_pos (by norm_num : (0:ℚ) < 2)]
    linarith

/-! ## C61: multipliers -/

private theorem ones_compl (x : ℕ → ℤ) (n : ℕ) : Verif.Spec.ones (fun t => 1 - x t) n = n - Verif.Spec.ones x n := by
  unfold Verif.Spec.ones; rw [sum_sub_distrib]; simp

/-- Bits read from a low discrepancy sequence at the positions of the ones of `x`. -/
private theorem reads {w : ℕ} {l : List ℤ} (h : Verif.Spec.DyadicNet w l) {b : ℤ} (hb0 : 0 ≤ b) (hb1 : b ≤ 2 ^ w)
    {x : ℕ → ℤ} (hx : Verif.Spec.BitStream x) (m n : ℕ) :
    |∑ t ∈ range n, ((x (m + t) * Gen.bsGen l b (Verif.Spec.ones x (m + t)) : ℤ) : ℚ)
      - b / 2 ^ w * ((Verif.Spec.ones x (m + n) : ℚ) - Verif.Spec.ones x m)| ≤ 2 * w := by
  have hb : ∀ k, |((Spec.below l b k : ℤ) : ℚ) - k * (b / 2 ^ w)| ≤ w := by
    intro k
    rw [below_eq_ones]
    exact Gen.DyadicNet.prefix h hb0 hb1 k
  have hc : ∀ k, (Spec.cnt x k : ℚ) = Verif.Spec.ones x k := by
    intro k
    have : (Spec.cnt x k : ℤ) = Verif.Spec.ones x k := Int.toNat_of_nonneg (Verif.Spec.ones_nonneg hx k)
    exact_mod_cast this
  have e : ∑ t ∈ range n, ((x (m + t) * Gen.bsGen l b (Verif.Spec.ones x (m + t)) : ℤ) : ℚ)
      = (Spec.below l b (Spec.cnt x (m + n)) : ℚ) - Spec.below l b (Spec.cnt x m) := by
    rw [← C24_count hx w, ← C24_count hx w, ← ones_win]
    apply sum_congr rfl; intro t _
    rw [C24_bit hx]
  rw [e]
  have h1 := hb (Spec.cnt x (m + n))
  have h2 := hb (Spec.cnt x m)
  rw [hc] at h1 h2
  rw [abs_le] at h1 h2 ⊢
  constructor <;> nlinarith [h1.1, h1.2, h2.1, h2.2]

/-- C61: the product of a stream of steady value with a stored number is a stream of steady value, the product of the two;
a slack of the input is multiplied by the magnitude of the stored number. -/
theorem C61_static {w : ℕ} {l : List ℤ} (h : Verif.Spec.DyadicNet w l) {b : ℤ} (hb0 : 0 ≤ b) (hb1 : b ≤ 2 ^ w)
    {x : ℕ → ℤ} (hx : Verif.Spec.BitStream x) (v ε K : ℚ) (w' : ℕ) :
    (Spec.Near (fun t => (x t : ℚ)) v ε K →
      Spec.Near (fun t => (mulOut .unipolar w' l b x t : ℚ)) (v * (b / 2 ^ w)) (b / 2 ^ w * ε) (b / 2 ^ w * K + 2 * w)) ∧
    (Spec.Tracks x v ε K →
      Spec.Tracks (mulOut .bipolar w' l b x) (v * (2 * (b / 2 ^ w) - 1)) (|2 * ((b:ℚ) / 2 ^ w) - 1| * ε)
        (|2 * ((b:ℚ) / 2 ^ w) - 1| * K + 8 * w)) := by
  have hq : (0:ℚ) ≤ (b:ℚ) / 2 ^ w := div_nonneg (by exact_mod_cast hb0) (by positivity)
  constructor
  · intro hv m n
    have h1 := reads h hb0 hb1 hx m n
    have h2 := hv m n
    rw [ones_win] at h2
    have e : ∑ t ∈ range n, (mulOut .unipolar w' l b x (m + t) : ℚ)
        = ∑ t ∈ range n, ((x (m + t) * Gen.bsGen l b (Verif.Spec.ones x (m + t)) : ℤ) : ℚ) :=
      sum_congr rfl fun t _ => by rw [C24_bit hx]
    show |∑ t ∈ range n, (mulOut .unipolar w' l b x (m + t) : ℚ) - _| ≤ _
    rw [e]
    set q : ℚ := (b:ℚ) / 2 ^ w
    set R := ∑ t ∈ range n, ((x (m + t) * Gen.bsGen l b (Verif.Spec.ones x (m + t)) : ℤ) : ℚ)
    set X := (Verif.Spec.ones x (m + n) : ℚ) - Verif.Spec.ones x m
    have e2 : R - v * q * n = (R - q * X) + q * (X - v * n) := by ring
    rw [e2]
    refine le_trans (abs_add_le _ _) ?_
    rw [abs_mul, abs_of_nonneg hq]
    have := mul_le_mul_of_nonneg_left h2 hq
    linarith
  · intro hv m n
    have h1 := reads h hb0 hb1 hx m n
    have h1' := reads h hb0 hb1 (x := fun t => 1 - x t) (fun t => isBit_compl (hx t)) m n
    have h2 := hv m n
    rw [bi_win] at h2
    simp only [ones_compl] at h1'
    have e : ∑ t ∈ range n, (2 * (mulOut .bipolar w' l b x (m + t) : ℚ) - 1)
        = 2 * (∑ t ∈ range n, ((x (m + t) * Gen.bsGen l b (Verif.Spec.ones x (m + t)) : ℤ) : ℚ)
          + (n - ((Verif.Spec.ones x (m + n) : ℚ) - Verif.Spec.ones x m))
          - ∑ t ∈ range n, (((1 - x (m + t)) * Gen.bsGen l b (((m + t : ℕ) : ℤ) - Verif.Spec.ones x (m + t)) : ℤ) : ℚ)) - n := by
      rw [← ones_win]
      have : (n:ℚ) - ∑ t ∈ range n, (x (m + t) : ℚ) = ∑ t ∈ range n, (1 - (x (m + t) : ℚ)) := by
        rw [sum_sub_distrib]; simp
      rw [this, ← sum_add_distrib, ← sum_sub_distrib, sum_sub_distrib, ← mul_sum]
      simp only [sum_const, card_range, nsmul_eq_mul, mul_one]
      congr 2
      apply sum_congr rfl; intro t _
      rw [C25_bit hx]; push_cast; ring
    show |∑ t ∈ range n, (2 * (mulOut .bipolar w' l b x (m + t) : ℚ) - 1) - _| ≤ _
    rw [e]
    set q : ℚ := (b:ℚ) / 2 ^ w
    set R := ∑ t ∈ range n, ((x (m + t) * Gen.bsGen l b (Verif.Spec.ones x (m + t)) : ℤ) : ℚ)
    set R' := ∑ t ∈ range n, (((1 - x (m + t)) * Gen.bsGen l b (((m + t : ℕ) : ℤ) - Verif.Spec.ones x (m + t)) : ℤ) : ℚ)
    push_cast at h1'
    set X := (Verif.Spec.ones x (m + n) : ℚ) - Verif.Spec.ones x m with hX
    have e2 : 2 * (R + (n - X) - R') - n - v * (2 * q - 1) * n
        = (2 * q - 1) * (2 * X - n - v * n) + (2 * (R - q * X) - 2 * (R' - q * (n - X))) := by ring
    have e3 : (m:ℚ) + n - Verif.Spec.ones x (m + n) - (m - Verif.Spec.ones x m) = n - X := by rw [hX]; ring
    rw [e3] at h1'
    rw [e2]
    refine le_trans (abs_add_le _ _) ?_
    rw [abs_mul]
    have h4 := mul_le_mul_of_nonneg_left h2 (abs_nonneg (2 * q - 1))
    have h5 : |2 * (R - q * X) - 2 * (R' - q * (n - X))| ≤ 8 * w := by
      rw [abs_le] at h1 h1' ⊢
      constructor <;> linarith [h1.1, h1.2, h1'.1, h1'.2]
    linarith

/-- C61: the stream of a number from a low discrepancy sequence has the number's value at a steady rate. -/
theorem C61_source {w : ℕ} {l : List ℤ} (h : Verif.Spec.DyadicNet w l) {b : ℤ} (hb0 : 0 ≤ b) (hb1 : b ≤ 2 ^ w) :
    Spec.Near (fun t => (Gen.bsGen l b t : ℚ)) (b / 2 ^ w) 0 (2 * w) ∧
    Spec.Tracks (fun t => Gen.bsGen l b t) (2 * (b / 2 ^ w) - 1) 0 (4 * w) := by
  have hb : ∀ k, |((Verif.Spec.ones (fun t => Gen.bsGen l b t) k : ℤ) : ℚ) - k * (b / 2 ^ w)| ≤ w := fun k =>
    Gen.DyadicNet.prefix h hb0 hb1 k
  constructor
  · intro m n
    rw [ones_win (fun t => Gen.bsGen l b t)]
    have h1 := hb (m + n)
    have h2 := hb m
    rw [abs_le] at h1 h2 ⊢
    push_cast at h1
    constructor <;> nlinarith [h1.1, h1.2, h2.1, h2.2]
  · intro m n
    rw [bi_win (fun t => Gen.bsGen l b t)]
    have h1 := hb (m + n)
    have h2 := hb m
    rw [abs_le] at h1 h2 ⊢
    push_cast at h1
    constructor <;> nlinarith [h1.1, h1.2, h2.1, h2.2]

/-- Bits read, at the positions of the ones of `x`, by comparing with numbers that stay within `e` of `r * 2^w`. -/
private theorem reads_varying {w : ℕ} {l : List ℤ} (h : Verif.Spec.DyadicNet w l) {x : ℕ → ℤ} (hx : Verif.Spec.BitStream x)
    {c : ℕ → ℤ} (hc : ∀ t, 0 ≤ c t ∧ c t ≤ 2 ^ w) {r e : ℚ} (hr : ∀ t, |(c t : ℚ) - r * 2 ^ w| ≤ e) (m n : ℕ) :
    |∑ t ∈ range n, ((x (m + t) * Gen.bsGen l (c (m + t)) (Verif.Spec.ones x (m + t)) : ℤ) : ℚ)
      - r * ((Verif.Spec.ones x (m + n) : ℚ) - Verif.Spec.ones x m)|
      ≤ e / 2 ^ w * ((Verif.Spec.ones x (m + n) : ℚ) - Verif.Spec.ones x m) + 2 * w := by
  have hP : (0:ℚ) < 2 ^ w := by positivity
  have hX : 0 ≤ (Verif.Spec.ones x (m + n) : ℚ) - Verif.Spec.ones x m := by
    rw [← ones_win]
    refine sum_nonneg fun t _ => ?_
    rcases hx (m + t) with h' | h' <;> rw [h'] <;> norm_num
  set X := (Verif.Spec.ones x (m + n) : ℚ) - Verif.Spec.ones x m
  -- the largest and the smallest number that can occur
  have hlo : ∀ t, max 0 ⌈r * 2 ^ w - e⌉ ≤ c t := fun t => max_le (hc t).1 (Int.ceil_le.2 (by linarith [(abs_le.1 (hr t)).1]))
  have hhi : ∀ t, c t ≤ min (2 ^ w) ⌊r * 2 ^ w + e⌋ := fun t => le_min (hc t).2 (Int.le_floor.2 (by linarith [(abs_le.1 (hr t)).2]))
  set lo := max 0 ⌈r * 2 ^ w - e⌉
  set hi := min (2 ^ w) ⌊r * 2 ^ w + e⌋
  have hlo0 : 0 ≤ lo := le_max_left _ _
  have hhi1 : hi ≤ 2 ^ w := min_le_left _ _
  have hlh : lo ≤ hi := le_trans (hlo 0) (hhi 0)
  have hqlo : r - e / 2 ^ w ≤ (lo : ℚ) / 2 ^ w := by
    rw [le_div_iff₀ hP]
    have : (⌈r * 2 ^ w - e⌉ : ℚ) ≤ lo := Int.cast_le.2 (le_max_right _ _)
    have := Int.le_ceil (r * 2 ^ w - e)
    have e2 : (r - e / 2 ^ w) * 2 ^ w = r * 2 ^ w - e := by field_simp
    linarith
  have hqhi : (hi : ℚ) / 2 ^ w ≤ r + e / 2 ^ w := by
    rw [div_le_iff₀ hP]
    have : (hi : ℚ) ≤ ⌊r * 2 ^ w + e⌋ := Int.cast_le.2 (min_le_right _ _)
    have := Int.floor_le (r * 2 ^ w + e)
    have e2 : (r + e / 2 ^ w) * 2 ^ w = r * 2 ^ w + e := by field_simp
    linarith
  have mono : ∀ (a b : ℕ → ℤ), (∀ t, a t ≤ b t) →
      ∑ t ∈ range n, ((x (m + t) * Gen.bsGen l (a (m + t)) (Verif.Spec.ones x (m + t)) : ℤ) : ℚ)
        ≤ ∑ t ∈ range n, ((x (m + t) * Gen.bsGen l (b (m + t)) (Verif.Spec.ones x (m + t)) : ℤ) : ℚ) := by
    intro a b hab
    refine sum_le_sum fun t _ => ?_
    have h0 : 0 ≤ x (m + t) := by rcases hx (m + t) with h' | h' <;> omega
    exact_mod_cast mul_le_mul_of_nonneg_left (C07_nested l _ _ _ (hab (m + t))) h0
  have h1 := mono (fun _ => lo) c hlo
  have h2 := mono c (fun _ => hi) hhi
  have r1 := (abs_le.1 (reads h hlo0 (le_trans hlh hhi1) hx m n)).1
  have r2 := (abs_le.1 (reads h (le_trans hlo0 hlh) hhi1 hx m n)).2
  have q1 := mul_le_mul_of_nonneg_right hqlo hX
  have q2 := mul_le_mul_of_nonneg_right hqhi hX
  rw [abs_le]
  constructor <;> nlinarith

private theorem window_range {y : ℕ → ℤ} (hy : Verif.Spec.BitStream y) (w t : ℕ) :
    0 ≤ Spec.windowCount w y (t + 2 ^ w) ∧ Spec.windowCount w y (t + 2 ^ w) ≤ 2 ^ w := by
  rw [windowCount_full]
  have e : Verif.Spec.ones y (t + 2 ^ w) - Verif.Spec.ones y t = ∑ k ∈ range (2 ^ w), y (t + k) := by
    unfold Verif.Spec.ones; rw [sum_range_add]; ring
  rw [e]
  constructor
  · exact sum_nonneg fun k _ => by rcases hy (t + k) with h | h <;> omega
  · calc ∑ k ∈ range (2 ^ w), y (t + k) ≤ ∑ _k ∈ range (2 ^ w), (1:ℤ) :=
          sum_le_sum fun k _ => by rcases hy (t + k) with h | h <;> omega
      _ = 2 ^ w := by simp

/-- Changing a stream of bits in its first `L` places changes a window sum by at most `L`. -/
private theorem warm {a b : ℕ → ℤ} (ha : ∀ t, IsBit (a t)) (hb : ∀ t, IsBit (b t)) (L : ℕ) (hab : ∀ t, L ≤ t → a t = b t) (m n : ℕ) :
    |∑ t ∈ range n, (a (m + t) : ℚ) - ∑ t ∈ range n, (b (m + t) : ℚ)| ≤ L := by
  rw [← sum_sub_distrib]
  refine le_trans (abs_sum_le_sum_abs _ _) ?_
  have h1 : ∀ t, |(a (m + t) : ℚ) - b (m + t)| ≤ if m + t < L then 1 else 0 := by
    intro t
    split_ifs with h
    · rcases ha (m + t) with h1 | h1 <;> rcases hb (m + t) with h2 | h2 <;> rw [h1, h2] <;> norm_num
    · rw [hab (m + t) (by omega)]; simp
  refine le_trans (sum_le_sum fun t _ => h1 t) ?_
  rw [sum_ite]
  simp only [sum_const, nsmul_eq_mul, mul_one, mul_zero, add_zero]
  have : (Finset.filter (fun t => m + t < L) (range n)).card ≤ (range L).card :=
    card_le_card fun t ht => by
      rw [mem_filter] at ht; rw [mem_range]; omega
  rw [card_range] at this
  exact_mod_cast this

/-- C61: the product of two streams of steady values by the in-stream multiplier is a stream of steady value, the product of
the two.  The regenerated operand adds its own slack and its constant over `2^w`; the first `2^w` cycles, which see the
initial pattern of the register, add at most `2^w` bits. -/
theorem C61_stream {w : ℕ} {l : List ℤ} (h : Verif.Spec.DyadicNet w l) {x y : ℕ → ℤ} (hx : Verif.Spec.BitStream x)
    (hy : Verif.Spec.BitStream y) (u v εx Kx εy Ky : ℚ) :
    (0 ≤ v → Spec.Near (fun t => (x t : ℚ)) u εx Kx → Spec.Near (fun t => (y t : ℚ)) v εy Ky →
      Spec.Near (fun t => (mulStreamOut .unipolar w l x y t : ℚ)) (u * v) (v * εx + (εy + Ky / 2 ^ w))
        (v * Kx + (2 * w + 2 ^ w))) ∧
    (Spec.Tracks x u εx Kx → Spec.Tracks y v εy Ky →
      Spec.Tracks (mulStreamOut .bipolar w l x y) (u * v) (|v| * εx + (εy + Ky / 2 ^ w))
        (|v| * Kx + (8 * w + 2 * 2 ^ w))) := by
  have hP : (0:ℚ) < 2 ^ w := by positivity
  let c : ℕ → ℤ := fun t => if t < 2 ^ w then Spec.windowCount w y (0 + 2 ^ w) else Spec.windowCount w y t
  have hcs : ∀ t, ∃ s, c t = Spec.windowCount w y (s + 2 ^ w) := by
    intro t
    by_cases ht : t < 2 ^ w
    · exact ⟨0, by simp only [c, if_pos ht]⟩
    · exact ⟨t - 2 ^ w, by simp only [c, if_neg ht]; congr 1; omega⟩
  have hc : ∀ t, 0 ≤ c t ∧ c t ≤ 2 ^ w := fun t => by
    obtain ⟨s, hs⟩ := hcs t
    rw [hs]; exact window_range hy w s
  have hcwin : ∀ t, ∃ s, (c t : ℚ) = ∑ k ∈ range (2 ^ w), (y (s + k) : ℚ) := by
    intro t
    obtain ⟨s, hs⟩ := hcs t
    exact ⟨s, by rw [hs, windowCount_full, ones_win]; push_cast; ring⟩
  have hce : ∀ t, 2 ^ w ≤ t → c t = Spec.windowCount w y t := fun t ht => if_neg (by omega)
  have hbitc : ∀ t, IsBit (x t * Gen.bsGen l (c t) (Verif.Spec.ones x t)) := fun t => isBit_mul (hx t) (Gen.bsGen_isBit _ _ _)
  constructor
  · intro hv0 hu hv m n
    have hr : ∀ t, |(c t : ℚ) - v * 2 ^ w| ≤ εy * 2 ^ w + Ky := by
      intro t
      obtain ⟨s, hs⟩ := hcwin t
      rw [hs]
      have := hv s (2 ^ w)
      push_cast at this; exact this
    have h1 := reads_varying h hx hc hr m n
    have h2 := warm (L := 2 ^ w) (a := mulStreamOut .unipolar w l x y)
      (fun t => by rw [(C27_bit hx y w l h.1 t).1]; exact isBit_mul (hx t) (Gen.bsGen_isBit _ _ _)) hbitc
      (fun t ht => by rw [(C27_bit hx y w l h.1 t).1, hce t ht]) m n
    have h3 := hu m n
    rw [ones_win] at h3
    have hn1 : (Verif.Spec.ones x (m + n) : ℚ) - Verif.Spec.ones x m ≤ n := by
      rw [← ones_win]
      calc _ ≤ ∑ _t ∈ range n, (1:ℚ) := sum_le_sum fun t _ => by rcases hx (m + t) with h' | h' <;> rw [h'] <;> norm_num
        _ = n := by simp
    have he0 : 0 ≤ (εy * 2 ^ w + Ky) / 2 ^ w := div_nonneg (le_trans (abs_nonneg _) (hr 0)) hP.le
    have e1 : (εy * 2 ^ w + Ky) / 2 ^ w = εy + Ky / 2 ^ w := by field_simp
    have h4 := mul_le_mul_of_nonneg_left hn1 he0
    rw [e1] at h1 h4
    show |∑ t ∈ range n, (mulStreamOut .unipolar w l x y (m + t) : ℚ) - _| ≤ _
    set X := (Verif.Spec.ones x (m + n) : ℚ) - Verif.Spec.ones x m
    set A := ∑ t ∈ range n, (mulStreamOut .unipolar w l x y (m + t) : ℚ)
    set R := ∑ t ∈ range n, ((x (m + t) * Gen.bsGen l (c (m + t)) (Verif.Spec.ones x (m + t)) : ℤ) : ℚ)
    have e2 : A - u * v * n = (A - R) + ((R - v * X) + v * (X - u * n)) := by ring
    rw [e2]
    have h5 : |v * (X - u * n)| ≤ v * (εx * n + Kx) := by
      rw [abs_mul, abs_of_nonneg hv0]; exact mul_le_mul_of_nonneg_left h3 hv0
    push_cast at h2
    refine le_trans (abs_add_le _ _) (le_trans (add_le_add h2 (abs_add_le _ _)) ?_)
    linarith
  · intro hu hv m n
    have hr : ∀ t, |(c t : ℚ) - (v + 1) / 2 * 2 ^ w| ≤ (εy * 2 ^ w + Ky) / 2 := by
      intro t
      obtain ⟨s, hs⟩ := hcwin t
      have := hv s (2 ^ w)
      rw [bi_win, ← ones_win, ← hs] at this
      push_cast at this
      have e : 2 * (c t : ℚ) - 2 ^ w - v * 2 ^ w = 2 * (c t - (v + 1) / 2 * 2 ^ w) := by ring
      rw [e, abs_mul, abs_of_pos (by norm_num : (0:ℚ) < 2)] at this
      linarith
    have hxc : Verif.Spec.BitStream fun t => 1 - x t := fun t => isBit_compl (hx t)
    have h1 := reads_varying h hx hc hr m n
    have h1' := reads_varying h hxc hc hr m n
    simp only [ones_compl] at h1'
    have h2 := warm (L := 2 ^ w) (a := mulStreamOut .bipolar w l x y)
      (b := fun t => x t * Gen.bsGen l (c t) (Verif.Spec.ones x t) + (1 - x t) * (1 - Gen.bsGen l (c t) (t - Verif.Spec.ones x t)))
      (fun t => by
        rw [(C27_bit hx y w l h.1 t).2]
        rcases hx t with h' | h' <;> rw [h']
        · simpa using isBit_compl (Gen.bsGen_isBit l (Spec.windowCount w y t) (t - Verif.Spec.ones x t))
        · simpa using Gen.bsGen_isBit l (Spec.windowCount w y t) (Verif.Spec.ones x t))
      (fun t => by
        rcases hx t with h' | h' <;> rw [h']
        · simpa using isBit_compl (Gen.bsGen_isBit l (c t) (t - Verif.Spec.ones x t))
        · simpa using Gen.bsGen_isBit l (c t) (Verif.Spec.ones x t))
      (fun t ht => by rw [(C27_bit hx y w l h.1 t).2, hce t ht]) m n
    have h3 := hu m n
    rw [bi_win] at h3
    have e1 : (εy * 2 ^ w + Ky) / 2 / 2 ^ w = (εy + Ky / 2 ^ w) / 2 := by field_simp
    rw [e1] at h1 h1'
    show |∑ t ∈ range n, (2 * (mulStreamOut .bipolar w l x y (m + t) : ℚ) - 1) - _| ≤ _
    have eR : ∑ t ∈ range n, ((x (m + t) * Gen.bsGen l (c (m + t)) (Verif.Spec.ones x (m + t))
          + (1 - x (m + t)) * (1 - Gen.bsGen l (c (m + t)) (((m + t : ℕ) : ℤ) - Verif.Spec.ones x (m + t))) : ℤ) : ℚ)
        = ∑ t ∈ range n, ((x (m + t) * Gen.bsGen l (c (m + t)) (Verif.Spec.ones x (m + t)) : ℤ) : ℚ)
          + (n - ((Verif.Spec.ones x (m + n) : ℚ) - Verif.Spec.ones x m))
          - ∑ t ∈ range n, (((1 - x (m + t)) * Gen.bsGen l (c (m + t)) (((m + t : ℕ) : ℤ) - Verif.Spec.ones x (m + t)) : ℤ) : ℚ) := by
      rw [← ones_win]
      have : (n:ℚ) - ∑ t ∈ range n, (x (m + t) : ℚ) = ∑ t ∈ range n, (1 - (x (m + t) : ℚ)) := by
        rw [sum_sub_distrib]; simp
      rw [this, ← sum_add_distrib, ← sum_sub_distrib]
      apply sum_congr rfl; intro t _
      push_cast; ring
    have eA : ∑ t ∈ range n, (2 * (mulStreamOut .bipolar w l x y (m + t) : ℚ) - 1)
        = 2 * ∑ t ∈ range n, (mulStreamOut .bipolar w l x y (m + t) : ℚ) - n := by
      rw [sum_sub_distrib, ← mul_sum]; simp
    rw [eA]
    rw [eR] at h2
    set R := ∑ t ∈ range n, ((x (m + t) * Gen.bsGen l (c (m + t)) (Verif.Spec.ones x (m + t)) : ℤ) : ℚ)
    set R' := ∑ t ∈ range n, (((1 - x (m + t)) * Gen.bsGen l (c (m + t)) (((m + t : ℕ) : ℤ) - Verif.Spec.ones x (m + t)) : ℤ) : ℚ)
    set A := ∑ t ∈ range n, (mulStreamOut .bipolar w l x y (m + t) : ℚ)
    push_cast at h1' h2
    set X := (Verif.Spec.ones x (m + n) : ℚ) - Verif.Spec.ones x m with hX
    have e3 : (m:ℚ) + n - Verif.Spec.ones x (m + n) - (m - Verif.Spec.ones x m) = n - X := by rw [hX]; ring
    rw [e3] at h1'
    have e2 : 2 * A - n - u * v * n = 2 * (A - (R + (n - X) - R')) + (v * (2 * X - n - u * n)
        + (2 * (R - (v + 1) / 2 * X) - 2 * (R' - (v + 1) / 2 * (n - X)))) := by ring
    rw [e2]
    have h5 : |v * (2 * X - n - u * n)| ≤ |v| * (εx * n + Kx) := by
      rw [abs_mul]; exact mul_le_mul_of_nonneg_left h3 (abs_nonneg v)
    have h6 : |2 * (R - (v + 1) / 2 * X) - 2 * (R' - (v + 1) / 2 * (n - X))| ≤ (εy + Ky / 2 ^ w) * n + 8 * w := by
      rw [abs_le] at h1 h1' ⊢
      constructor <;> linarith [h1.1, h1.2, h1'.1, h1'.2]
    have h7 : |2 * (A - (R + (n - X) - R'))| ≤ 2 * 2 ^ w := by
      rw [abs_mul, abs_of_pos (by norm_num : (0:ℚ) < 2)]; linarith
    refine le_trans (abs_add_le _ _) (le_trans (add_le_add h7 (le_trans (abs_add_le _ _) (add_le_add h5 h6))) ?_)
    linarith

/-! ## C61: linear layer -/

/-- The number that a stored binary stands for. -/
def Spec.quant (m : Mode) (w : ℕ) (a : ℚ) : ℚ := match m with
  | .unipolar => (Gen.binGenM .unipolar w a : ℚ) / 2 ^ w
  | .bipolar => 2 * ((Gen.binGenM .bipolar w a : ℚ) / 2 ^ w) - 1

/-- It differs from the given number by at most the step of the coding, and stays in range. -/
theorem quant_near (w : ℕ) (a : ℚ) :
    |Spec.quant .unipolar w a - a| ≤ 1 / 2 ^ (w + 1) ∧ |Spec.quant .bipolar w a - a| ≤ 1 / 2 ^ w := C26_quantised w a

theorem quant_range (w : ℕ) (a : ℚ) (h : -1 ≤ a ∧ a ≤ 1) : |Spec.quant .bipolar w a| ≤ 1 := by
  have hb := C05_range .bipolar w a h
  have hP : (0:ℚ) < 2 ^ w := by positivity
  have h0 : (0:ℚ) ≤ (Gen.binGenM .bipolar w a : ℚ) / 2 ^ w := div_nonneg (by exact_mod_cast hb.1) hP.le
  have h1 : (Gen.binGenM .bipolar w a : ℚ) / 2 ^ w ≤ 1 := by
    rw [div_le_one hP]; exact_mod_cast hb.2
  unfold Spec.quant
  rw [abs_le]; constructor <;> linarith

/-- What a layer computes on numbers, with the stored weights: `Σ v i * q(w i)`, and `q(bias)` if there is one. -/
def Spec.linearMap {I : ℕ} (m : Mode) (w : ℕ) (we : Fin I → ℚ) (bias : Bool) (be : ℚ) (v : Fin I → ℚ) : ℚ :=
  ∑ i, v i * Spec.quant m w (we i) + if bias then Spec.quant m w be else 0

theorem not_temporal {name : String} (hn : name.toLower ∈ ["sobol", "rc"]) : Linear.isTemporal name = false := by
  unfold Linear.isTemporal
  rw [decide_eq_false_iff_not]
  intro h
  simp only [List.mem_cons, List.not_mem_nil, or_false] at hn h
  rcases hn with hn | hn <;> rw [hn] at h <;> revert h <;> decide

/-- C61: a bipolar linear layer with Sobol coded weights and any positive scale `S`, on inputs of steady values `v`, puts out
streams of steady values: the linear map with the stored weights, clipped to `[-S, S]`, over `S`. -/
theorem C61_linear {B I O : ℕ} (hB : 0 < B) (env : Gen.Env) (mode : String) (width : ℕ) (name : String) (depth : ℤ)
    (hn : name.toLower ∈ ["sobol", "rc"]) (hdir : Gen.DirOK env.sobolM) (hw : width ≤ env.maxbit)
    (hmode : parseMode mode = .ok .bipolar) (scale : Option ℚ)
    (we : Fin O → Fin I → ℚ) (hwe : ∀ o i, -1 ≤ we o i ∧ we o i ≤ 1) (bias : Bool) (be : Option (Fin O → ℚ))
    (hbe : ∀ v, be = some v → ∀ o, -1 ≤ v o ∧ v o ≤ 1) (m : Linear.PC I O × Adder.Cfg)
    (hm : Linear.mkLinear env mode width name depth scale we bias be = .ok m)
    (S : ℚ) (hSd : S = scale.getD (Spec.fanIn I bias)) (hS : 0 < S)
    (x : Fin B → Fin I → ℕ → ℤ) (hx : ∀ b i, Verif.Spec.BitStream (x b i)) :
    ∃ out : Fin B → Fin O → ℕ → ℤ, Spec.Rows (linOut m x) out ∧ ∀ b o, Verif.Spec.BitStream (out b o) ∧
      ∀ v ε K : Fin I → ℚ, (∀ i, 0 ≤ ε i) → (∀ i, Spec.Tracks (x b i) (v i) (ε i) (K i)) →
        let q := fun i => |Spec.quant .bipolar width (we o i)|
        let E := ∑ i, q i * ε i
        let C := ∑ i, (q i * K i + 8 * width) + if bias then 4 * (width : ℚ) else 0
        2 * S + C / 2 ≤ (2:ℚ) ^ (depth - 2) →
        Spec.Tracks (out b o)
          (max (-S) (min (Spec.linearMap .bipolar width (we o) bias ((be.getD fun _ => 0) o) v) S) / S) (E / S) (2 + 2 * C / S) := by
  obtain ⟨hpc, hmo, hdep, hs, he, hadd⟩ := mkLinear_ok hm
  obtain ⟨mo, l, h1, h2, h3, h4, h5, h6, h7, h8⟩ := mkPC_ok hpc
  rw [hmode] at h1; cases h1
  obtain ⟨l', hl', hnet⟩ := C08_net env width name hn hdir hw
  rw [h2] at hl'; cases hl'
  have hwtc : m.1.wtc = false := by rw [h6]; exact not_temporal hn
  have hrows := C45_lanes hB m hwtc width x hx
  refine ⟨_, hrows, fun b o => ⟨fun t => C18_bit _ _ _, fun v ε K hε hv => ?_⟩⟩
  intro q E C hdepth
  set a : ℕ → Arg := fun t =>
    { xs := [(((∑ i, mulOut m.1.mode width m.1.rng (m.1.weight o i) (x b i) t) + Spec.biasBit m.1.rng m.1.bias o t : ℤ) : ℚ)] } with ha
  have hsc : addScale m.2 a = S := by simp [addScale, hs, ha, hSd]
  have hof : addOffset m.2 a = (Spec.fanIn I bias - S) / 2 := by
    unfold addOffset
    rw [hsc, hmo, h3]
    simp [addEntry, he, ha]
  have hE : 0 ≤ E := sum_nonneg fun i _ => mul_nonneg (abs_nonneg _) (hε i)
  refine clip_bipolar m.2 a hS hsc hE (by rw [hdep]; exact hdepth) fun k n => ?_
  -- the products
  have hz : ∀ i, |∑ t ∈ range n, (2 * (mulOut .bipolar width m.1.rng (m.1.weight o i) (x b i) (k + t) : ℚ) - 1)
      - v i * Spec.quant .bipolar width (we o i) * n| ≤ q i * ε i * n + (q i * K i + 8 * width) := by
    intro i
    have hb := C05_range .bipolar width (we o i) (hwe o i)
    rw [h4, h5]
    exact (C61_static hnet hb.1 hb.2 (hx b i) (v i) (ε i) (K i) width).2 (hv i) k n
  have hzs := abs_sum_near hz
  -- the bias
  have hβ : |∑ t ∈ range n, ((if bias then 2 else 0) * (Spec.biasBit m.1.rng m.1.bias o (k + t) : ℚ) - if bias then 1 else 0)
      - (if bias then Spec.quant .bipolar width ((be.getD fun _ => 0) o) else 0) * n| ≤ if bias then 4 * (width:ℚ) else 0 := by
    cases bias with
    | false => simp
    | true =>
        obtain ⟨v', hv', hbv⟩ := h8 rfl
        have hb := C05_range .bipolar width (v' o) (hbe v' hv' o)
        have := (C61_source hnet hb.1 hb.2).2 k n
        rw [zero_mul, zero_add] at this
        rw [hbv, hv', h4]
        simpa [Spec.biasBit, Spec.quant] using this
  have hb0 : ∀ t, (Spec.biasBit m.1.rng m.1.bias o t : ℚ) = (if bias then 1 else 0) * (Spec.biasBit m.1.rng m.1.bias o t : ℚ) := by
    intro t
    cases bias with
    | false => rw [h7 rfl]; simp [Spec.biasBit]
    | true => simp
  have hfan : (Spec.fanIn I bias : ℚ) = I + if bias then 1 else 0 := by unfold Spec.fanIn; push_cast; rfl
  have hδ : ∑ t ∈ range n, addDelta m.2 a (k + t)
      = (∑ i, ∑ t ∈ range n, (2 * (mulOut .bipolar width m.1.rng (m.1.weight o i) (x b i) (k + t) : ℚ) - 1)
        + ∑ t ∈ range n, ((if bias then 2 else 0) * (Spec.biasBit m.1.rng m.1.bias o (k + t) : ℚ) - if bias then 1 else 0) + S * n) / 2 := by
    rw [sum_comm, ← sum_add_distrib]
    have : ∀ t, addDelta m.2 a (k + t) = (∑ i, (2 * (mulOut .bipolar width m.1.rng (m.1.weight o i) (x b i) (k + t) : ℚ) - 1)
        + ((if bias then 2 else 0) * (Spec.biasBit m.1.rng m.1.bias o (k + t) : ℚ) - if bias then 1 else 0) + S) / 2 := by
      intro t
      have e1 : (a (k + t)).xs.sum = ∑ i, (mulOut .bipolar width m.1.rng (m.1.weight o i) (x b i) (k + t) : ℚ)
          + Spec.biasBit m.1.rng m.1.bias o (k + t) := by
        simp [ha, h3]
      unfold addDelta
      rw [e1, hof, sum_sub_distrib, ← mul_sum, hfan, hb0]
      simp only [sum_const, card_univ, Fintype.card_fin, nsmul_eq_mul]
      split_ifs <;> ring
    simp only [this]
    rw [← sum_div, sum_add_distrib]
    simp only [sum_const, card_range, nsmul_eq_mul]; ring
  rw [hδ]
  unfold Spec.linearMap
  generalize (if bias then Spec.quant .bipolar width ((be.getD fun _ => 0) o) else 0) = β at *
  generalize (∑ t ∈ range n, ((if bias then 2 else 0) * (Spec.biasBit m.1.rng m.1.bias o (k + t) : ℚ) - if bias then 1 else 0)) = R at *
  generalize (∑ i, ∑ t ∈ range n, (2 * (mulOut .bipolar width m.1.rng (m.1.weight o i) (x b i) (k + t) : ℚ) - 1)) = Z at *
  generalize (∑ i, v i * Spec.quant .bipolar width (we o i)) = V at *
  have e2 : (Z + R + S * n) / 2 - (V + β + S) / 2 * n = ((Z - V * n) + (R - β * n)) / 2 := by ring
  have h9 := abs_add_le (Z - V * n) (R - β * n)
  rw [e2, abs_div, abs_of_pos (by norm_num : (0:ℚ) < 2)]
  simp only [E, C] at *
  linarith

/-- C61: the unipolar layer: the linear map with the stored weights, clipped to `[0, S]`, over `S`. -/
theorem C61_linear_unipolar {B I O : ℕ} (hB : 0 < B) (env : Gen.Env) (mode : String) (width : ℕ) (name : String) (depth : ℤ)
    (hn : name.toLower ∈ ["sobol", "rc"]) (hdir : Gen.DirOK env.sobolM) (hw : width ≤ env.maxbit)
    (hmode : parseMode mode = .ok .unipolar) (scale : Option ℚ)
    (we : Fin O → Fin I → ℚ) (hwe : ∀ o i, 0 ≤ we o i ∧ we o i ≤ 1) (bias : Bool) (be : Option (Fin O → ℚ))
    (hbe : ∀ v, be = some v → ∀ o, 0 ≤ v o ∧ v o ≤ 1) (m : Linear.PC I O × Adder.Cfg)
    (hm : Linear.mkLinear env mode width name depth scale we bias be = .ok m)
    (S : ℚ) (hSd : S = scale.getD (Spec.fanIn I bias)) (hS : 0 < S)
    (x : Fin B → Fin I → ℕ → ℤ) (hx : ∀ b i, Verif.Spec.BitStream (x b i)) :
    ∃ out : Fin B → Fin O → ℕ → ℤ, Spec.Rows (linOut m x) out ∧ ∀ b o, Verif.Spec.BitStream (out b o) ∧
      ∀ v ε K : Fin I → ℚ, (∀ i, 0 ≤ ε i) → (∀ i, Spec.Near (fun t => (x b i t : ℚ)) (v i) (ε i) (K i)) →
        let q := fun i => Spec.quant .unipolar width (we o i)
        let E := ∑ i, q i * ε i
        let C := ∑ i, (q i * K i + 2 * width) + if bias then 2 * (width : ℚ) else 0
        2 * S + C ≤ (2:ℚ) ^ (depth - 2) →
        Spec.Near (fun t => (out b o t : ℚ))
          (max 0 (min (Spec.linearMap .unipolar width (we o) bias ((be.getD fun _ => 0) o) v) S) / S) (E / S) (1 + 2 * C / S) := by
  obtain ⟨hpc, hmo, hdep, hs, he, hadd⟩ := mkLinear_ok hm
  obtain ⟨mo, l, h1, h2, h3, h4, h5, h6, h7, h8⟩ := mkPC_ok hpc
  rw [hmode] at h1; cases h1
  obtain ⟨l', hl', hnet⟩ := C08_net env width name hn hdir hw
  rw [h2] at hl'; cases hl'
  have hwtc : m.1.wtc = false := by rw [h6]; exact not_temporal hn
  have hrows := C45_lanes hB m hwtc width x hx
  refine ⟨_, hrows, fun b o => ⟨fun t => C18_bit _ _ _, fun v ε K hε hv => ?_⟩⟩
  intro q E C hdepth
  set a : ℕ → Arg := fun t =>
    { xs := [(((∑ i, mulOut m.1.mode width m.1.rng (m.1.weight o i) (x b i) t) + Spec.biasBit m.1.rng m.1.bias o t : ℤ) : ℚ)] } with ha
  have hsc : addScale m.2 a = S := by simp [addScale, hs, ha, hSd]
  have hof : addOffset m.2 a = 0 := by
    unfold addOffset
    rw [hmo, h3]; simp
  have hE : 0 ≤ E := sum_nonneg fun i _ => by
    have hb := C05_range .unipolar width (we o i) (hwe o i)
    refine mul_nonneg (div_nonneg ?_ (by positivity)) (hε i)
    exact_mod_cast hb.1
  refine clip_unipolar m.2 a hS hsc hE (by rw [hdep]; exact hdepth) fun k n => ?_
  have hz : ∀ i, |∑ t ∈ range n, (mulOut .unipolar width m.1.rng (m.1.weight o i) (x b i) (k + t) : ℚ)
      - v i * Spec.quant .unipolar width (we o i) * n| ≤ q i * ε i * n + (q i * K i + 2 * width) := by
    intro i
    have hb := C05_range .unipolar width (we o i) (hwe o i)
    rw [h4, h5]
    exact (C61_static hnet hb.1 hb.2 (hx b i) (v i) (ε i) (K i) width).1 (hv i) k n
  have hzs := abs_sum_near hz
  have hβ : |∑ t ∈ range n, (Spec.biasBit m.1.rng m.1.bias o (k + t) : ℚ)
      - (if bias then Spec.quant .unipolar width ((be.getD fun _ => 0) o) else 0) * n| ≤ if bias then 2 * (width:ℚ) else 0 := by
    cases bias with
    | false => rw [h7 rfl]; simp [Spec.biasBit]
    | true =>
        obtain ⟨v', hv', hbv⟩ := h8 rfl
        have hb := C05_range .unipolar width (v' o) (hbe v' hv' o)
        have := (C61_source hnet hb.1 hb.2).1 k n
        rw [zero_mul, zero_add] at this
        rw [hbv, hv', h4]
        simpa [Spec.biasBit, Spec.quant] using this
  have hδ : ∑ t ∈ range n, addDelta m.2 a (k + t)
      = ∑ i, ∑ t ∈ range n, (mulOut .unipolar width m.1.rng (m.1.weight o i) (x b i) (k + t) : ℚ)
        + ∑ t ∈ range n, (Spec.biasBit m.1.rng m.1.bias o (k + t) : ℚ) := by
    rw [sum_comm, ← sum_add_distrib]
    apply sum_congr rfl; intro t _
    unfold addDelta
    rw [hof]
    simp [ha, h3]
  rw [hδ]
  unfold Spec.linearMap
  generalize (if bias then Spec.quant .unipolar width ((be.getD fun _ => 0) o) else 0) = β at *
  generalize (∑ t ∈ range n, (Spec.biasBit m.1.rng m.1.bias o (k + t) : ℚ)) = R at *
  generalize (∑ i, ∑ t ∈ range n, (mulOut .unipolar width m.1.rng (m.1.weight o i) (x b i) (k + t) : ℚ)) = Z at *
  generalize (∑ i, v i * Spec.quant .unipolar width (we o i)) = V at *
  have e2 : Z + R - (V + β) * n = (Z - V * n) + (R - β * n) := by ring
  have h9 := abs_add_le (Z - V * n) (R - β * n)
  rw [e2]
  simp only [E, C] at *
  linarith

/-- Non-vacuity: a layer of two features with bias and scale 1 can be built, streams of steady values exist (any number in a
low discrepancy sequence, `C61_source`), and depth 10 leaves enough range. -/
example : (Linear.mkLinear (I := 2) (O := 1) ⟨30, fun _ => 1, fun _ _ => false, []⟩ "Bipolar" 3 "Sobol" 10 (some 1)
    (fun _ i => if i = 0 then 1/2 else -3/4) true (some fun _ => 1/4)).toBool = true := by decide +kernel

example (l : List ℤ) (h : Verif.Spec.DyadicNet 3 l) : Spec.Tracks (fun t => Gen.bsGen l 6 t) (1/2) 0 12 := by
  have := (C61_source h (b := 6) (by norm_num) (by norm_num)).2
  norm_num at this ⊢; exact this

example : 2 * (1:ℚ) + (∑ _i : Fin 2, (1 * 12 + 8 * (3:ℚ)) + 4 * 3) / 2 ≤ (2:ℚ) ^ ((10:ℤ) - 2) := by norm_num

/-- The clip is real: inputs 1/2 and 3/4 added without scaling saturate at 1. -/
example : max (-1) (min ((1:ℚ)/2 + 3/4) 1) / 1 = 1 := by norm_num

end Verif.Props
