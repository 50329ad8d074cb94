import Verif.Model.Report
import Verif.Props.Metric
import Mathlib.Tactic.Ring
import Mathlib.Tactic.Linarith
import Mathlib.Tactic.FieldSimp
import Mathlib.Tactic.Positivity

/-!
# The printed reports (C105)
-/

namespace Verif.Props

open Verif Verif.Metric Verif.Report

namespace Spec

/-- `lo` and `hi` are the least and the largest of `xs`. -/
def Range (xs : List ℚ) (lo hi : ℚ) : Prop := lo ∈ xs ∧ hi ∈ xs ∧ ∀ x ∈ xs, lo ≤ x ∧ x ≤ hi

/-- What a line of error statistics has to satisfy for the errors `es`. -/
structure Stats (es : List ℚ) (l : Line) : Prop where
  range : Range es l.lo l.hi
  mean : l.mean * es.length = es.sum
  mean_mem : l.lo ≤ l.mean ∧ l.mean ≤ l.hi
  rmse_nonneg : 0 ≤ l.rmse
  rmse_sq : l.rmse ^ 2 * es.length = (((es.map fun e => e * e).sum : ℚ) : ℝ)
  mean_le : |(l.mean : ℝ)| ≤ l.rmse
  rmse_le : l.rmse ≤ ((max |l.lo| |l.hi| : ℚ) : ℝ)
  exact : l.rmse = 0 ↔ ∀ e ∈ es, e = 0
  single : es.length = 1 → l.std = none
  spread : 1 < es.length → ∃ d : ℝ, 0 ≤ d ∧ l.std = some d ∧
    (es.length - 1) * d ^ 2 + es.length * (l.mean : ℝ) ^ 2 = es.length * l.rmse ^ 2

end Spec

private theorem foldl_min (xs : List ℚ) (x : ℚ) :
    xs.foldl min x ∈ x :: xs ∧ ∀ y ∈ x :: xs, xs.foldl min x ≤ y := by
  induction xs generalizing x with
  | nil => simp
  | cons y ys ih =>
    obtain ⟨h1, h2⟩ := ih (min x y)
    rw [List.foldl_cons]
    constructor
    · rcases List.mem_cons.mp h1 with h | h
      · rw [h]
        rcases min_choice x y with h | h <;> rw [h] <;> simp
      · simp [h]
    · intro z hz
      have h3 := h2 (min x y) (by simp)
      rcases List.mem_cons.mp hz with rfl | hz
      · exact h3.trans (min_le_left _ _)
      · rcases List.mem_cons.mp hz with rfl | hz
        · exact h3.trans (min_le_right _ _)
        · exact h2 z (by simp [hz])

private theorem foldl_max (xs : List ℚ) (x : ℚ) :
    xs.foldl max x ∈ x :: xs ∧ ∀ y ∈ x :: xs, y ≤ xs.foldl max x := by
  induction xs generalizing x with
  | nil => simp
  | cons y ys ih =>
    obtain ⟨h1, h2⟩ := ih (max x y)
    rw [List.foldl_cons]
    constructor
    · rcases List.mem_cons.mp h1 with h | h
      · rw [h]
        rcases max_choice x y with h | h <;> rw [h] <;> simp
      · simp [h]
    · intro z hz
      have h3 := h2 (max x y) (by simp)
      rcases List.mem_cons.mp hz with rfl | hz
      · exact (le_max_left _ _).trans h3
      · rcases List.mem_cons.mp hz with rfl | hz
        · exact (le_max_right _ _).trans h3
        · exact h2 z (by simp [hz])

private theorem range_ok (xs : List ℚ) (hne : xs ≠ []) :
    ∃ lo hi, minOf xs = .ok lo ∧ maxOf xs = .ok hi ∧ Spec.Range xs lo hi := by
  cases xs with
  | nil => exact absurd rfl hne
  | cons x xs =>
    obtain ⟨a1, a2⟩ := foldl_min xs x
    obtain ⟨b1, b2⟩ := foldl_max xs x
    exact ⟨_, _, rfl, rfl, a1, b1, fun y hy => ⟨a2 y hy, b2 y hy⟩⟩

private theorem sum_ind (p : ℚ → Prop) [DecidablePred p] (xs : List ℚ) :
    (xs.map fun x => (ind (p x) : ℚ)).sum = xs.countP fun x => p x := by
  induction xs with
  | nil => rfl
  | cons x xs ih =>
    rw [List.map_cons, List.sum_cons, ih, List.countP_cons]
    unfold ind
    by_cases h : p x <;> simp [h, add_comm]

/-- C105: the outlier report. -/
theorem C105_outlier (xs : List ℚ) (hne : xs ≠ []) :
    ∃ lo hi pct, outlier xs = .ok (lo, hi, pct) ∧ Spec.Range xs lo hi ∧
      pct * xs.length = 100 * (xs.countP fun x => 1 < |x| : ℕ) ∧ 0 ≤ pct ∧ pct ≤ 100 ∧
      (pct = 0 ↔ ∀ x ∈ xs, -1 ≤ x ∧ x ≤ 1) ∧ (pct = 0 ↔ -1 ≤ lo ∧ hi ≤ 1) := by
  obtain ⟨lo, hi, h1, h2, hr⟩ := range_ok xs hne
  have hn : (0 : ℚ) < xs.length := by exact_mod_cast List.length_pos_iff.mpr hne
  have hc : (xs.map fun x => (ind (x > 1) : ℚ)).sum + (xs.map fun x => (ind (x < -1) : ℚ)).sum =
      (xs.countP fun x => 1 < |x| : ℕ) := by
    rw [sum_ind, sum_ind, ← Nat.cast_add]
    congr 1
    clear hn hr h1 h2 hne
    induction xs with
    | nil => rfl
    | cons x xs ih =>
      simp only [List.countP_cons, ← ih]
      have : (1 < |x|) ↔ (x > 1 ∨ x < -1) := by
        rw [lt_abs]; constructor <;> rintro (h | h) <;> [left; right; left; right] <;> linarith
      by_cases ha : x > 1
      · have hb : ¬ x < -1 := by linarith
        simp [ha, hb, this]; omega
      · by_cases hb : x < -1 <;> simp [ha, hb, this]; omega
  have hle : ((xs.countP fun x => 1 < |x| : ℕ) : ℚ) ≤ xs.length := by exact_mod_cast List.countP_le_length
  have h0 : (0 : ℚ) ≤ ((xs.countP fun x => 1 < |x| : ℕ) : ℚ) := Nat.cast_nonneg _
  have hz : ((xs.countP fun x => 1 < |x| : ℕ) : ℚ) / xs.length * 100 = 0 ↔ ∀ x ∈ xs, -1 ≤ x ∧ x ≤ 1 := by
    rw [mul_eq_zero, div_eq_zero_iff, Nat.cast_eq_zero, List.countP_eq_zero]
    constructor
    · rintro ((h | h) | h)
      · intro x hx
        have := h x hx
        simp only [decide_eq_true_eq, not_lt] at this
        exact abs_le.mp this
      · exact absurd h (ne_of_gt hn)
      · norm_num at h
    · intro h
      left; left
      intro x hx
      simpa using abs_le.mpr (h x hx)
  refine ⟨lo, hi, _, ?_, hr, ?_, ?_, ?_, hz, ?_⟩
  · simp only [outlier, h1, h2, hc]
    rfl
  · field_simp
  · positivity
  · rw [div_mul_eq_mul_div, div_le_iff₀ hn]; linarith
  · rw [hz]
    exact ⟨fun h => ⟨(h lo hr.1).1, (h hi hr.2.1).2⟩, fun h x hx =>
      ⟨h.1.trans (hr.2.2 x hx).1, (hr.2.2 x hx).2.trans h.2⟩⟩

/-- Five elements, two of them outside. -/
example : outlier [1 / 2, -3, 1, 2, -1] = .ok (-3, 2, 40) := by decide +kernel

private theorem sum_sq_dev (m : ℚ) (xs : List ℚ) :
    (xs.map fun x => (x - m) ^ 2).sum = (xs.map fun x => x * x).sum - 2 * m * xs.sum + xs.length * m ^ 2 := by
  induction xs with
  | nil => simp
  | cons x xs ih => simp only [List.map_cons, List.sum_cons, ih, List.length_cons, Nat.cast_add, Nat.cast_one]; ring

private theorem sum_bound (f : ℚ → ℚ) (xs : List ℚ) (a b : ℚ) (h : ∀ x ∈ xs, a ≤ f x ∧ f x ≤ b) :
    a * xs.length ≤ (xs.map f).sum ∧ (xs.map f).sum ≤ b * xs.length := by
  induction xs with
  | nil => simp
  | cons x xs ih =>
    obtain ⟨i1, i2⟩ := ih fun y hy => h y (by simp [hy])
    obtain ⟨j1, j2⟩ := h x (by simp)
    simp only [List.map_cons, List.sum_cons, List.length_cons, Nat.cast_add, Nat.cast_one]
    constructor <;> linarith

private theorem sum_sq_zero (xs : List ℚ) : (xs.map fun x => x * x).sum = 0 ↔ ∀ x ∈ xs, x = 0 := by
  induction xs with
  | nil => simp
  | cons x xs ih =>
    have h0 : 0 ≤ (xs.map fun x => x * x).sum := by
      refine List.sum_nonneg fun y hy => ?_
      obtain ⟨z, -, rfl⟩ := List.mem_map.mp hy
      exact mul_self_nonneg z
    rw [List.map_cons, List.sum_cons, List.forall_mem_cons, ← ih]
    constructor
    · intro h
      have h1 := mul_self_nonneg x
      exact ⟨mul_self_eq_zero.mp (by linarith), by linarith⟩
    · rintro ⟨h1, h2⟩
      rw [h1, h2]; ring

private theorem line_stats (es : List ℚ) (hne : es ≠ []) : ∃ l, line es = .ok l ∧ Spec.Stats es l := by
  obtain ⟨lo, hi, h1, h2, hr⟩ := range_ok es hne
  have hn : (0 : ℚ) < es.length := by exact_mod_cast List.length_pos_iff.mpr hne
  have hnr : (0 : ℝ) < es.length := by exact_mod_cast List.length_pos_iff.mpr hne
  set N : ℚ := (es.length : ℚ) with hN
  have hm : Report.mean es * N = es.sum := by
    exact div_mul_cancel₀ _ (ne_of_gt hn)
  have hsq : (es.map fun e => e ^ 2) = es.map fun e => e * e := List.map_congr_left fun e _ => by ring
  have hms : Report.mean (es.map fun e => e ^ 2) * N = (es.map fun e => e * e).sum := by
    unfold Report.mean; rw [List.length_map, hsq]; exact div_mul_cancel₀ _ (ne_of_gt hn)
  have hdev := sum_sq_dev (Report.mean es) es
  have hdev0 : 0 ≤ (es.map fun x => (x - Report.mean es) ^ 2).sum := by
    refine List.sum_nonneg fun y hy => ?_
    obtain ⟨z, -, rfl⟩ := List.mem_map.mp hy
    positivity
  have key : (es.map fun x => (x - Report.mean es) ^ 2).sum =
      Report.mean (es.map fun e => e ^ 2) * N - N * Report.mean es ^ 2 := by
    rw [hdev, hms, ← hm]; ring
  have hms0 : 0 ≤ Report.mean (es.map fun e => e ^ 2) := by
    have : 0 ≤ (es.map fun e => e * e).sum := List.sum_nonneg fun y hy => by
      obtain ⟨z, -, rfl⟩ := List.mem_map.mp hy
      exact mul_self_nonneg z
    rw [← hms] at this
    exact nonneg_of_mul_nonneg_left this hn
  have hrs : rmse es ^ 2 = ((Report.mean (es.map fun e => e ^ 2) : ℚ) : ℝ) :=
    Real.sq_sqrt (by exact_mod_cast hms0)
  refine ⟨⟨lo, hi, std es, Report.mean es, rmse es⟩, ?_, ?_⟩
  · simp only [line, h1, h2]; rfl
  refine ⟨hr, hm, ?_, Real.sqrt_nonneg _, ?_, ?_, ?_, ?_, ?_, ?_⟩
  · have := sum_bound (fun x => x) es lo hi hr.2.2
    rw [List.map_id', ← hm] at this
    exact ⟨le_of_mul_le_mul_right this.1 hn, le_of_mul_le_mul_right this.2 hn⟩
  · rw [hrs, ← hms]; push_cast; rfl
  · refine Real.abs_le_sqrt ?_
    have : Report.mean es ^ 2 ≤ Report.mean (es.map fun e => e ^ 2) := by
      rw [key] at hdev0
      have : N * Report.mean es ^ 2 ≤ N * Report.mean (es.map fun e => e ^ 2) := by linarith
      exact le_of_mul_le_mul_left this hn
    exact_mod_cast this
  · refine Real.sqrt_le_iff.mpr ⟨by positivity, ?_⟩
    have hb := sum_bound (fun x => x * x) es 0 (max |lo| |hi| ^ 2) fun x hx => ⟨mul_self_nonneg x, by
      have h3 : |x| ≤ max |lo| |hi| := by
        obtain ⟨a, b⟩ := hr.2.2 x hx
        exact abs_le_max_abs_abs a b
      calc x * x = |x| * |x| := (abs_mul_abs_self x).symm
        _ ≤ max |lo| |hi| * max |lo| |hi| := mul_self_le_mul_self (abs_nonneg x) h3
        _ = _ := by ring⟩
    have h4 : Report.mean (es.map fun e => e ^ 2) ≤ max |lo| |hi| ^ 2 := by
      have := hb.2
      rw [← hms] at this
      exact le_of_mul_le_mul_right this hn
    exact_mod_cast h4
  · rw [← sum_sq_zero, ← hms]
    constructor
    · intro h
      rw [show rmse es = 0 from h] at hrs
      have : Report.mean (es.map fun e => e ^ 2) = 0 := by
        have h5 : ((Report.mean (es.map fun e => e ^ 2) : ℚ) : ℝ) = 0 := by rw [← hrs]; norm_num
        exact_mod_cast h5
      rw [this, zero_mul]
    · intro h
      have : Report.mean (es.map fun e => e ^ 2) = 0 := by
        rcases mul_eq_zero.mp h with h | h
        · exact h
        · exact absurd h (ne_of_gt hn)
      show Real.sqrt _ = 0
      rw [this]; simp
  · intro h
    exact if_pos (by omega)
  · intro h
    refine ⟨_, Real.sqrt_nonneg _, if_neg (by omega), ?_⟩
    have hN1 : (0 : ℚ) < N - 1 := by
      have : (1 : ℚ) < es.length := by exact_mod_cast h
      linarith
    rw [Real.sq_sqrt (by
      have : 0 ≤ (es.map fun x => (x - Report.mean es) ^ 2).sum / (N - 1) := div_nonneg hdev0 hN1.le
      exact Rat.cast_nonneg.mpr this), hrs]
    have e : (N - 1) * ((es.map fun x => (x - Report.mean es) ^ 2).sum / (N - 1)) + N * Report.mean es ^ 2 =
        N * Report.mean (es.map fun e => e ^ 2) := by
      rw [mul_div_cancel₀ _ (ne_of_gt hN1), key]; ring
    have e' := congrArg (fun q : ℚ => (q : ℝ)) e
    push_cast at e' ⊢
    exact e'

/-! ## Progressive errors -/

/-- One element: the measure as constructed and the bits it observed. -/
private theorem lane_forward {m : Mode} {mode : String} {scale source : ℚ} {s0 : PE} (hm : parseMode mode = .ok m)
    (hi : PE.init source scale mode = .ok s0) (xs : List ℚ) (hne : xs ≠ []) :
    ∃ s', (xs.foldl PE.monitor s0).forward = .ok (s', Spec.decode m xs, Spec.decode m xs - s0.source) ∧
      s'.forward = .ok (s', Spec.decode m xs, Spec.decode m xs - s0.source) := by
  have h0 : s0.mode = m ∧ s0.cycle = 0 ∧ s0.oneCnt = 0 := by
    simp only [PE.init, hm] at hi
    cases hs : scaledSource source scale with
    | error e => rw [hs] at hi; cases hi
    | ok v => rw [hs] at hi; cases hi; exact ⟨rfl, rfl, rfl⟩
  have run : ∀ (xs : List ℚ) (s : PE), (xs.foldl PE.monitor s).mode = s.mode ∧
      (xs.foldl PE.monitor s).source = s.source ∧ (xs.foldl PE.monitor s).oneCnt = s.oneCnt + xs.sum ∧
      (xs.foldl PE.monitor s).cycle = s.cycle + xs.length := by
    intro xs
    induction xs with
    | nil => intro s; simp
    | cons x xs ih =>
      intro s
      obtain ⟨a, b, c, d⟩ := ih (s.monitor x)
      refine ⟨a, b, ?_, ?_⟩
      · rw [List.foldl_cons, c, List.sum_cons]; simp only [PE.monitor]; ring
      · rw [List.foldl_cons, d, List.length_cons]; simp only [PE.monitor]; push_cast; ring
  obtain ⟨a, b, c, d⟩ := run xs s0
  rw [h0.1] at a
  rw [h0.2.2, zero_add] at c
  rw [h0.2.1, zero_add] at d
  have hl : (xs.length : ℚ) ≠ 0 := by exact_mod_cast fun h => hne (List.length_eq_zero_iff.mp h)
  have fw : ∀ s : PE, s.mode = m → s.source = s0.source → s.oneCnt = xs.sum → s.cycle = xs.length →
      s.forward = .ok ({ s with pp := Spec.decode m xs, pe := Spec.decode m xs - s0.source }, Spec.decode m xs,
        Spec.decode m xs - s0.source) := by
    intro s e1 e2 e3 e4
    have e5 : (match s.mode with
        | .bipolar => s.oneCnt / s.cycle * 2 - 1
        | .unipolar => s.oneCnt / s.cycle) = Spec.decode m xs := by
      rw [e1, e3, e4]
      cases m
      · rfl
      · show _ = 2 * _ - 1
        ring
    unfold PE.forward
    rw [if_neg (by rw [e4]; exact hl)]
    rw [← e5, ← e2]
    cases s.mode <;> rfl
  exact ⟨_, fw _ a b c d, fw _ a b c d⟩

private theorem lanes_forward {m : Mode} {mode : String} {scale : ℚ} (hm : parseMode mode = .ok m)
    (lanes : List (PE × List ℚ))
    (hl : ∀ p ∈ lanes, (∃ source, PE.init source scale mode = .ok p.1) ∧ p.2 ≠ []) :
    ∃ ss : List PE,
      (lanes.map fun p => p.2.foldl PE.monitor p.1).mapM PE.forward = .ok (List.zipWith (fun s p =>
        (s, Spec.decode m p.2, Spec.decode m p.2 - p.1.source)) ss lanes) ∧
      ss.mapM PE.forward = .ok (List.zipWith (fun s p =>
        (s, Spec.decode m p.2, Spec.decode m p.2 - p.1.source)) ss lanes) ∧ ss.length = lanes.length := by
  induction lanes with
  | nil => exact ⟨[], rfl, rfl, rfl⟩
  | cons p lanes ih =>
    obtain ⟨ss, h1, h2, h3⟩ := ih fun q hq => hl q (by simp [hq])
    obtain ⟨⟨source, hs⟩, hne⟩ := hl p (by simp)
    obtain ⟨s', f1, f2⟩ := lane_forward hm hs p.2 hne
    refine ⟨s' :: ss, ?_, ?_, by simp [h3]⟩
    · rw [List.map_cons, List.mapM_cons, f1, h1]; rfl
    · rw [List.mapM_cons, f2, h2]; rfl

private theorem zip_maps (m : Mode) (ss : List PE) (lanes : List (PE × List ℚ)) (h : ss.length = lanes.length) :
    let r := List.zipWith (fun s (p : PE × List ℚ) => (s, Spec.decode m p.2, Spec.decode m p.2 - p.1.source)) ss lanes
    r.map (·.1) = ss ∧ r.map (·.2.1) = lanes.map (fun p => Spec.decode m p.2) ∧
      r.map (·.2.2) = lanes.map fun p => Spec.decode m p.2 - p.1.source := by
  induction ss generalizing lanes with
  | nil =>
    cases lanes with
    | nil => exact ⟨rfl, rfl, rfl⟩
    | cons p l => simp at h
  | cons s ss ih =>
    cases lanes with
    | nil => simp at h
    | cons p l =>
      obtain ⟨a, b, c⟩ := ih l (by simpa using h)
      refine ⟨?_, ?_, ?_⟩
      · simp only [List.zipWith_cons_cons, List.map_cons, a]
      · simp only [List.zipWith_cons_cons, List.map_cons, b]
      · simp only [List.zipWith_cons_cons, List.map_cons, c]

private theorem report_eq {m : Mode} {mode : String} {scale : ℚ} (hm : parseMode mode = .ok m)
    (lanes : List (PE × List ℚ)) (hne : lanes ≠ [])
    (hl : ∀ p ∈ lanes, (∃ source, PE.init source scale mode = .ok p.1) ∧ p.2 ≠ []) :
    ∃ (ss : List PE) (a b : Line),
      report (lanes.map fun p => p.2.foldl PE.monitor p.1) false false = .ok (ss, a, none) ∧
      report (lanes.map fun p => p.2.foldl PE.monitor p.1) false true = .ok (ss, a, some b) ∧
      (∀ rel, report ss false rel = report (lanes.map fun p => p.2.foldl PE.monitor p.1) false rel) ∧
      Spec.Stats (lanes.map fun p => Spec.decode m p.2 - p.1.source) a ∧
      Spec.Stats (lanes.map fun p => relative (Spec.decode m p.2 - p.1.source) (Spec.decode m p.2)) b := by
  obtain ⟨ss, h1, h2, h3⟩ := lanes_forward hm lanes hl
  obtain ⟨z1, z2, z3⟩ := zip_maps m ss lanes h3
  obtain ⟨a, ha, sa⟩ := line_stats (lanes.map fun p => Spec.decode m p.2 - p.1.source) (by simpa using hne)
  obtain ⟨b, hb, sb⟩ := line_stats
    (lanes.map fun p => relative (Spec.decode m p.2 - p.1.source) (Spec.decode m p.2)) (by simpa using hne)
  have zz : List.zipWith relative (lanes.map fun p => Spec.decode m p.2 - p.1.source)
      (lanes.map fun p => Spec.decode m p.2) =
      lanes.map fun p => relative (Spec.decode m p.2 - p.1.source) (Spec.decode m p.2) := by
    clear * -
    induction lanes with
    | nil => rfl
    | cons p l ih => simp only [List.map_cons, List.zipWith_cons_cons, ih]
  refine ⟨ss, a, b, ?_, ?_, fun rel => ?_, sa, sb⟩
  · simp only [report, h1, z1, z3, ha, Bool.false_eq_true, if_false, bind, Except.bind, pure, Except.pure]
  · simp only [report, h1, z1, z2, z3, ha, zz, hb, Bool.false_eq_true, if_false, if_true, bind, Except.bind, pure,
      Except.pure]
  · simp only [report, h1, h2]

/-- C105: the line of absolute errors, and that a report changes no later one. -/
theorem C105_absolute {m : Mode} {mode : String} {scale : ℚ} (hm : parseMode mode = .ok m)
    (lanes : List (PE × List ℚ)) (hne : lanes ≠ [])
    (hl : ∀ p ∈ lanes, (∃ source, PE.init source scale mode = .ok p.1) ∧ p.2 ≠ []) (rel : Bool) :
    ∃ ss a b, report (lanes.map fun p => p.2.foldl PE.monitor p.1) false rel = .ok (ss, a, b) ∧
      Spec.Stats (lanes.map fun p => Spec.decode m p.2 - p.1.source) a ∧
      (a.rmse = 0 ↔ ∀ p ∈ lanes, Spec.decode m p.2 = p.1.source) ∧
      ∀ rel', report ss false rel' = report (lanes.map fun p => p.2.foldl PE.monitor p.1) false rel' := by
  obtain ⟨ss, a, b, h1, h2, h3, h4, -⟩ := report_eq hm lanes hne hl
  have e : a.rmse = 0 ↔ ∀ p ∈ lanes, Spec.decode m p.2 = p.1.source := by
    rw [h4.exact, List.forall_mem_map]
    exact forall₂_congr fun p _ => sub_eq_zero
  cases rel
  · exact ⟨ss, a, none, h1, h4, e, h3⟩
  · exact ⟨ss, a, some b, h2, h4, e, h3⟩

/-- C105: the line of relative errors divides by the measured value. -/
theorem C105_relative {m : Mode} {mode : String} {scale : ℚ} (hm : parseMode mode = .ok m)
    (lanes : List (PE × List ℚ)) (hne : lanes ≠ [])
    (hl : ∀ p ∈ lanes, (∃ source, PE.init source scale mode = .ok p.1) ∧ p.2 ≠ [])
    (hv : ∀ p ∈ lanes, Spec.decode m p.2 ≠ 0) :
    ∃ ss a b, report (lanes.map fun p => p.2.foldl PE.monitor p.1) false true = .ok (ss, a, some b) ∧
      Spec.Stats (lanes.map fun p => 1 - p.1.source / Spec.decode m p.2) b := by
  obtain ⟨ss, a, b, -, h2, -, -, h5⟩ := report_eq hm lanes hne hl
  refine ⟨ss, a, b, h2, ?_⟩
  have e : lanes.map (fun p => relative (Spec.decode m p.2 - p.1.source) (Spec.decode m p.2)) =
      lanes.map fun p => 1 - p.1.source / Spec.decode m p.2 := List.map_congr_left fun p hp => by
    unfold relative
    rw [if_neg (hv p hp), sub_div, div_self (hv p hp)]
  rw [← e]; exact h5

/-- C105: one element whose measured value is zero while its source is not decides the line of relative errors: an
end of the range is at least the largest binary32 number in size. -/
theorem C105_relative_zero {m : Mode} {mode : String} {scale : ℚ} (hm : parseMode mode = .ok m)
    (lanes : List (PE × List ℚ))
    (hl : ∀ p ∈ lanes, (∃ source, PE.init source scale mode = .ok p.1) ∧ p.2 ≠ [])
    (p : PE × List ℚ) (hp : p ∈ lanes) (hz : Spec.decode m p.2 = 0) (hs : p.1.source ≠ 0) :
    ∃ ss a b, report (lanes.map fun p => p.2.foldl PE.monitor p.1) false true = .ok (ss, a, some b) ∧
      (0 < p.1.source → b.lo ≤ -maxFloat) ∧ (p.1.source < 0 → maxFloat ≤ b.hi) := by
  obtain ⟨ss, a, b, -, h2, -, -, h5⟩ := report_eq hm lanes (List.ne_nil_of_mem hp) hl
  have hm' := List.mem_map_of_mem (f := fun p : PE × List ℚ =>
    relative (Spec.decode m p.2 - p.1.source) (Spec.decode m p.2)) hp
  have e : relative (Spec.decode m p.2 - p.1.source) (Spec.decode m p.2) =
      if 0 < p.1.source then -maxFloat else maxFloat := by
    unfold relative
    rw [hz, if_pos rfl, zero_sub, if_neg (by simpa using hs)]
    by_cases h : 0 < p.1.source
    · rw [if_pos h, if_neg (by linarith)]
    · rw [if_neg h, if_pos (by rcases lt_or_gt_of_ne hs with h' | h' <;> [linarith; exact absurd h' h])]
  have h6 := h5.range.2.2 _ hm'
  simp only [e] at h6
  refine ⟨ss, a, b, h2, fun h => ?_, fun h => ?_⟩
  · rw [if_pos h] at h6; exact h6.1
  · rw [if_neg (by linarith)] at h6; exact h6.2

/-- C105: asked for the values as well, the report always fails. -/
theorem C105_value_fails (lanes : List PE) (rel : Bool) : report lanes true rel = .error .attribute := by
  have h : attr "in_value" = .error .attribute := by decide +kernel
  simp only [report, h, if_true, bind, Except.bind]

/-- Two elements with sources `1/2` and `1` that saw `1, 0, 0, 0` and `1, 1, 1, 0`: both measured values are `1/4` too low.  The
relative error reported for the first is `-1`, though it misses its source by half of it. -/
example : (PE.init (1 / 2) 1 "unipolar").toOption.map (·.source) = some (1 / 2) ∧
    Spec.decode .unipolar [1, 0, 0, 0] - 1 / 2 = -1 / 4 ∧ Spec.decode .unipolar [1, 1, 1, 0] - 1 = -1 / 4 ∧
    relative (-1 / 4) (Spec.decode .unipolar [1, 0, 0, 0]) = -1 ∧ (-1 / 4 : ℚ) / (1 / 2) = -1 / 2 := by
  decide +kernel

/-- An element that saw only zeros has the measured value `0`. -/
example : Spec.decode .unipolar [0, 0] = 0 ∧ Spec.decode .bipolar [1, 0] = 0 ∧ maxFloat > 3 * 10 ^ 38 := by
  decide +kernel

end Verif.Props
