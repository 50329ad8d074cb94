import Verif.Spec
import Verif.Model.Metric
import Verif.Props.Gen
import Verif.Props.Shuffle
import Mathlib.Data.Finset.Max
import Mathlib.Data.Finset.Lattice.Fold

/-!
# Properties C06, C07, C14–C17: metrics
-/

namespace Verif.Props

open Verif Finset Metric

/-! ## Specification of the stochastic cross correlation -/

namespace Spec

/-- Textbook SCC (Alaghi, Hayes: "Exploiting correlation in stochastic circuit design") from the
probabilities `p1`, `p2` of a one in either stream and `p12` of a one in both. -/
def scc (p1 p2 p12 : ℚ) : ℚ :=
  let δ := p12 - p1 * p2
  if 0 < δ then δ / (min p1 p2 - p1 * p2)
  else if δ < 0 then δ / (p1 * p2 - max (p1 + p2 - 1) 0)
  else 0

/-- Relative frequency of an event among observations. -/
def freq (p : ℚ × ℚ → Prop) [DecidablePred p] (l : List (ℚ × ℚ)) : ℚ :=
  (l.countP (fun x => decide (p x)) : ℚ) / l.length

/-- Replace every one-input observation by the pair with the previous one-input observation. -/
def withDelay : ℚ → List (ℚ × Option ℚ) → List (ℚ × ℚ)
  | _, [] => []
  | prev, (x, none) :: l => (x, prev) :: withDelay x l
  | prev, (x, some y) :: l => (x, y) :: withDelay prev l

end Spec

/-- State after a list of `Monitor` calls. -/
def corrRun (l : List (ℚ × Option ℚ)) : Corr := l.foldl (fun s i => s.monitor i.1 i.2) Corr.init

/-- State after a list of two-input `Monitor` calls. -/
def corrRun2 (l : List (ℚ × ℚ)) : Corr := corrRun (l.map fun p => (p.1, some p.2))

private def nA (l : List (ℚ × ℚ)) : ℕ := l.countP (fun p => decide (p.1 ≠ 0 ∧ p.2 ≠ 0))
private def nB (l : List (ℚ × ℚ)) : ℕ := l.countP (fun p => decide (p.1 ≠ 0 ∧ p.2 = 0))
private def nC (l : List (ℚ × ℚ)) : ℕ := l.countP (fun p => decide (p.1 = 0 ∧ p.2 ≠ 0))
private def nD (l : List (ℚ × ℚ)) : ℕ := l.countP (fun p => decide (p.1 = 0 ∧ p.2 = 0))

private theorem corr_fold (l : List (ℚ × ℚ)) (s : Corr) :
    (l.map fun p => (p.1, some p.2)).foldl (fun s i => s.monitor i.1 i.2) s
      = { d := s.d + nD l, c := s.c + nC l, b := s.b + nB l, a := s.a + nA l,
          len := s.len + l.length, in1d := s.in1d } := by
  induction l generalizing s with
  | nil => simp [nA, nB, nC, nD]
  | cons p l ih =>
      rw [List.map_cons, List.foldl_cons, ih]
      simp only [Corr.monitor, nA, nB, nC, nD, List.countP_cons, List.length_cons, ind]
      by_cases h1 : p.1 = 0 <;> by_cases h2 : p.2 = 0 <;> simp [h1, h2] <;> ring_nf <;> trivial

private theorem corr_counts_sum (l : List (ℚ × ℚ)) : nA l + nB l + nC l + nD l = l.length := by
  induction l with
  | nil => rfl
  | cons p l ih =>
      simp only [nA, nB, nC, nD, List.countP_cons, List.length_cons] at ih ⊢
      by_cases h1 : p.1 = 0 <;> by_cases h2 : p.2 = 0 <;> simp [h1, h2] at ih ⊢ <;> omega

private theorem corrRun2_eq (l : List (ℚ × ℚ)) :
    corrRun2 l = { d := nD l, c := nC l, b := nB l, a := nA l, len := l.length, in1d := 0 } := by
  unfold corrRun2 corrRun
  rw [corr_fold]
  simp [Corr.init]

/-- C14: the pair counters and the length counter are what they say, and add up. -/
theorem C14_counts (l : List (ℚ × ℚ)) :
    (corrRun2 l).a = l.countP (fun p => decide (p.1 ≠ 0 ∧ p.2 ≠ 0)) ∧
    (corrRun2 l).b = l.countP (fun p => decide (p.1 ≠ 0 ∧ p.2 = 0)) ∧
    (corrRun2 l).c = l.countP (fun p => decide (p.1 = 0 ∧ p.2 ≠ 0)) ∧
    (corrRun2 l).d = l.countP (fun p => decide (p.1 = 0 ∧ p.2 = 0)) ∧
    (corrRun2 l).len = l.length ∧
    (corrRun2 l).a + (corrRun2 l).b + (corrRun2 l).c + (corrRun2 l).d = (corrRun2 l).len := by
  rw [corrRun2_eq]
  refine ⟨rfl, rfl, rfl, rfl, rfl, ?_⟩
  have := corr_counts_sum l
  show (nA l : ℚ) + nB l + nC l + nD l = l.length
  exact_mod_cast this

/-- The value reported on counters `a b c d` (natural numbers). -/
private theorem forward_cases (a b c d : ℕ) (e : ℚ) :
    let s : Corr := { d := d, c := c, b := b, a := a, len := (a + b + c + d : ℕ), in1d := e }
    (b * c < a * d → 0 < ((min (a + b) (a + c) : ℕ) : ℚ) * (a + b + c + d : ℕ) - (a + b) * (a + c) ∧
      s.forward = ((a:ℚ) * d - b * c) / (((min (a + b) (a + c) : ℕ) : ℚ) * (a + b + c + d : ℕ) - (a + b) * (a + c))) ∧
    (a * d < b * c → 0 < ((a:ℚ) + b) * (a + c) - ((max ((a:ℤ) - d) 0 : ℤ) : ℚ) * (a + b + c + d : ℕ) ∧
      s.forward = ((a:ℚ) * d - b * c) / (((a:ℚ) + b) * (a + c) - ((max ((a:ℤ) - d) 0 : ℤ) : ℚ) * (a + b + c + d : ℕ))) ∧
    (a * d = b * c → s.forward = 0) := by
  intro s
  have f : s.forward = (ind (((a:ℚ) * d - b * c) > 0) : ℚ) * (((a:ℚ) * d - b * c) /
        max (min ((a:ℚ) + b) (a + c) * (a + b + c + d : ℕ) - (a + b) * (a + c)) 1)
      + (1 - ind (((a:ℚ) * d - b * c) > 0)) * (((a:ℚ) * d - b * c) /
        max (((a:ℚ) + b) * (a + c) - max ((a:ℚ) - d) 0 * (a + b + c + d : ℕ)) 1) := rfl
  refine ⟨fun h => ?_, fun h => ?_, fun h => ?_⟩
  · have hq : (b:ℚ) * c < a * d := by exact_mod_cast h
    have h1 : (1:ℚ) ≤ min ((a:ℚ) + b) (a + c) * (a + b + c + d : ℕ) - (a + b) * (a + c) := by
      have had : 1 ≤ a * d := by omega
      have had' : (1:ℚ) ≤ (a:ℚ) * d := by exact_mod_cast had
      have pa : (0:ℚ) ≤ a := by positivity
      have pb : (0:ℚ) ≤ b := by positivity
      have pc : (0:ℚ) ≤ c := by positivity
      have pd : (0:ℚ) ≤ d := by positivity
      push_cast
      rcases le_total (b:ℚ) c with hbc | hbc
      · rw [min_eq_left (by linarith)]
        have p1 := mul_nonneg pa pb
        have p2 := mul_nonneg pb pb
        have p3 := mul_nonneg pb pd
        linarith [show ((a:ℚ) + b) * (a + b + c + d) - (a + b) * (a + c) = a * d + a * b + b * b + b * d by ring]
      · rw [min_eq_right (by linarith)]
        have p1 := mul_nonneg pa pc
        have p2 := mul_nonneg pc pc
        have p3 := mul_nonneg pc pd
        linarith [show ((a:ℚ) + c) * (a + b + c + d) - (a + b) * (a + c) = a * d + a * c + c * c + c * d by ring]
    have e1 : ((min (a + b) (a + c) : ℕ) : ℚ) = min ((a:ℚ) + b) (a + c) := by push_cast; rfl
    rw [e1]
    refine ⟨by linarith, ?_⟩
    rw [f, ind_true (by linarith), max_eq_left h1]; ring
  · have hq : (a:ℚ) * d < b * c := by exact_mod_cast h
    have h1 : (1:ℚ) ≤ ((a:ℚ) + b) * (a + c) - max ((a:ℚ) - d) 0 * (a + b + c + d : ℕ) := by
      have had : 1 ≤ b * c := by omega
      have had' : (1:ℚ) ≤ (b:ℚ) * c := by exact_mod_cast had
      have pa : (0:ℚ) ≤ a := by positivity
      have pb : (0:ℚ) ≤ b := by positivity
      have pc : (0:ℚ) ≤ c := by positivity
      have pd : (0:ℚ) ≤ d := by positivity
      push_cast
      rcases le_total (d:ℚ) a with hbc | hbc
      · rw [max_eq_left (by linarith)]
        have p1 := mul_nonneg pd pb
        have p2 := mul_nonneg pd pc
        have p3 := mul_nonneg pd pd
        linarith [show ((a:ℚ) + b) * (a + c) - (a - d) * (a + b + c + d) = b * c + d * b + d * c + d * d by ring]
      · rw [max_eq_right (by linarith)]
        have p1 := mul_nonneg pa pb
        have p2 := mul_nonneg pa pc
        have p3 := mul_nonneg pa pa
        linarith [show ((a:ℚ) + b) * (a + c) - 0 * (a + b + c + d) = b * c + a * b + a * c + a * a by ring]
    have e1 : ((max ((a:ℤ) - d) 0 : ℤ) : ℚ) = max ((a:ℚ) - d) 0 := by push_cast; rfl
    rw [e1]
    refine ⟨by linarith, ?_⟩
    rw [f, ind_false (by linarith), max_eq_left h1]; ring
  · have hq : (a:ℚ) * d = b * c := by exact_mod_cast h
    rw [f, hq]; simp

/-- C14: the report is the textbook SCC of the observed frequencies, whatever was observed. -/
theorem C14_textbook (l : List (ℚ × ℚ)) (hl : l ≠ []) :
    (corrRun2 l).forward =
      Spec.scc (Spec.freq (fun p => p.1 ≠ 0) l) (Spec.freq (fun p => p.2 ≠ 0) l)
        (Spec.freq (fun p => p.1 ≠ 0 ∧ p.2 ≠ 0) l) := by
  have hsum := corr_counts_sum l
  have h1 : l.countP (fun p => decide (p.1 ≠ 0)) = nA l + nB l := by
    clear hsum hl
    induction l with
    | nil => rfl
    | cons p l ih =>
        simp only [nA, nB, List.countP_cons] at ih ⊢
        rw [ih]
        by_cases h1 : p.1 = 0 <;> by_cases h2 : p.2 = 0 <;> simp [h1, h2] <;> omega
  have h2 : l.countP (fun p => decide (p.2 ≠ 0)) = nA l + nC l := by
    clear hsum hl h1
    induction l with
    | nil => rfl
    | cons p l ih =>
        simp only [nA, nC, List.countP_cons] at ih ⊢
        rw [ih]
        by_cases h1 : p.1 = 0 <;> by_cases h2 : p.2 = 0 <;> simp [h1, h2] <;> omega
  have hn : (0:ℚ) < l.length := by
    have : 0 < l.length := List.length_pos_iff.2 hl
    exact_mod_cast this
  have fc := forward_cases (nA l) (nB l) (nC l) (nD l) 0
  rw [corrRun2_eq, ← hsum]
  unfold Spec.freq
  rw [h1, h2]
  have hA : l.countP (fun p => decide (p.1 ≠ 0 ∧ p.2 ≠ 0)) = nA l := rfl
  rw [hA]
  rw [← hsum] at hn ⊢
  generalize nA l = a at *
  generalize nB l = b at *
  generalize nC l = c at *
  generalize nD l = d at *
  simp only at fc
  obtain ⟨f1, f2, f3⟩ := fc
  set n : ℚ := ((a + b + c + d : ℕ) : ℚ) with hndef
  have hn2 : n = a + b + c + d := by rw [hndef]; push_cast; ring
  have δ : (a:ℚ) / n - ((a + b : ℕ) : ℚ) / n * (((a + c : ℕ) : ℚ) / n) = (a * d - b * c) / n ^ 2 := by
    field_simp; rw [hn2]; push_cast; ring
  unfold Spec.scc
  simp only [δ]
  have hn2p : (0:ℚ) < n ^ 2 := by positivity
  rcases Nat.lt_trichotomy (b * c) (a * d) with h | h | h
  · obtain ⟨hpos, hf⟩ := f1 h
    have hq : (b:ℚ) * c < a * d := by exact_mod_cast h
    rw [if_pos (div_pos (by linarith) hn2p), hf]
    have e : min (((a + b : ℕ) : ℚ) / n) (((a + c : ℕ) : ℚ) / n) - ((a + b : ℕ) : ℚ) / n * (((a + c : ℕ) : ℚ) / n)
        = (((min (a + b) (a + c) : ℕ) : ℚ) * n - (a + b) * (a + c)) / n ^ 2 := by
      rw [min_div_div_right hn.le, ← Nat.cast_min]; field_simp; push_cast; ring
    rw [e, div_div_div_cancel_right₀ hn2p.ne']
  · have hq : (b:ℚ) * c = a * d := by exact_mod_cast h
    rw [f3 h.symm, hq]; simp
  · obtain ⟨hpos, hf⟩ := f2 h
    have hq : (a:ℚ) * d < b * c := by exact_mod_cast h
    have hneg : ((a:ℚ) * d - b * c) / n ^ 2 < 0 := div_neg_of_neg_of_pos (by linarith) hn2p
    rw [if_neg (by linarith), if_pos hneg, hf]
    have e : ((a + b : ℕ) : ℚ) / n * (((a + c : ℕ) : ℚ) / n) - max (((a + b : ℕ) : ℚ) / n + ((a + c : ℕ) : ℚ) / n - 1) 0
        = (((a:ℚ) + b) * (a + c) - ((max ((a:ℤ) - d) 0 : ℤ) : ℚ) * n) / n ^ 2 := by
      have e1 : ((a + b : ℕ) : ℚ) / n + ((a + c : ℕ) : ℚ) / n - 1 = ((a:ℚ) - d) / n := by
        field_simp; rw [hn2]; push_cast; ring
      have e2 : max (((a:ℚ) - d) / n) 0 = max ((a:ℚ) - d) 0 / n := by
        rw [← max_div_div_right hn.le, zero_div]
      rw [e1, e2]; push_cast; field_simp
    rw [e, div_div_div_cancel_right₀ hn2p.ne']

/-- C14: the SCC lies in `[-1, 1]`. -/
theorem C14_range (l : List (ℚ × ℚ)) : -1 ≤ (corrRun2 l).forward ∧ (corrRun2 l).forward ≤ 1 := by
  have hsum := corr_counts_sum l
  rw [corrRun2_eq, ← hsum]
  obtain ⟨f1, f2, f3⟩ := forward_cases (nA l) (nB l) (nC l) (nD l) 0
  generalize nA l = a at *
  generalize nB l = b at *
  generalize nC l = c at *
  generalize nD l = d at *
  have pa : (0:ℚ) ≤ a := by positivity
  have pb : (0:ℚ) ≤ b := by positivity
  have pc : (0:ℚ) ≤ c := by positivity
  have pd : (0:ℚ) ≤ d := by positivity
  rcases Nat.lt_trichotomy (b * c) (a * d) with h | h | h
  · obtain ⟨hpos, hf⟩ := f1 h
    have hq : (b:ℚ) * c < a * d := by exact_mod_cast h
    rw [hf]
    constructor
    · exact le_trans (by norm_num) (div_nonneg (by linarith) hpos.le)
    · rw [div_le_one hpos]
      push_cast
      rcases le_total (b:ℚ) c with hbc | hbc
      · rw [min_eq_left (by linarith)]
        nlinarith [mul_nonneg pb pa, mul_nonneg pb pb, mul_nonneg pb pc, mul_nonneg pb pd]
      · rw [min_eq_right (by linarith)]
        nlinarith [mul_nonneg pc pa, mul_nonneg pc pb, mul_nonneg pc pc, mul_nonneg pc pd]
  · rw [f3 h.symm]; constructor <;> norm_num
  · obtain ⟨hpos, hf⟩ := f2 h
    have hq : (a:ℚ) * d < b * c := by exact_mod_cast h
    rw [hf]
    constructor
    · rw [le_div_iff₀ hpos]
      push_cast
      rcases le_total (d:ℚ) a with hbc | hbc
      · rw [max_eq_left (by linarith)]
        nlinarith [mul_nonneg pd pa, mul_nonneg pd pb, mul_nonneg pd pc, mul_nonneg pd pd]
      · rw [max_eq_right (by linarith)]
        nlinarith [mul_nonneg pa pa, mul_nonneg pa pb, mul_nonneg pa pc, mul_nonneg pa pd]
    · exact le_trans (div_nonpos_of_nonpos_of_nonneg (by linarith) hpos.le) (by norm_num)

/-- C14: `+1` exactly when agreeing pairs outweigh (`bc < ad`) and one mixed pair never occurred. -/
theorem C14_plus_one (l : List (ℚ × ℚ)) :
    (corrRun2 l).forward = 1 ↔
      ((∃ p ∈ l, p.1 ≠ 0 ∧ p.2 ≠ 0) ∧ (∃ p ∈ l, p.1 = 0 ∧ p.2 = 0) ∧
       ((∀ p ∈ l, ¬ (p.1 ≠ 0 ∧ p.2 = 0)) ∨ (∀ p ∈ l, ¬ (p.1 = 0 ∧ p.2 ≠ 0)))) := by
  have hsum := corr_counts_sum l
  have hA : (∃ p ∈ l, p.1 ≠ 0 ∧ p.2 ≠ 0) ↔ 0 < nA l := by
    unfold nA; rw [List.countP_pos_iff]; simp only [decide_eq_true_eq]
  have hD : (∃ p ∈ l, p.1 = 0 ∧ p.2 = 0) ↔ 0 < nD l := by
    unfold nD; rw [List.countP_pos_iff]; simp only [decide_eq_true_eq]
  have hB : (∀ p ∈ l, ¬ (p.1 ≠ 0 ∧ p.2 = 0)) ↔ nB l = 0 := by
    unfold nB; rw [List.countP_eq_zero]; simp only [decide_eq_true_eq]
  have hC : (∀ p ∈ l, ¬ (p.1 = 0 ∧ p.2 ≠ 0)) ↔ nC l = 0 := by
    unfold nC; rw [List.countP_eq_zero]; simp only [decide_eq_true_eq]
  rw [hA, hD, hB, hC]
  rw [corrRun2_eq, ← hsum]
  obtain ⟨f1, f2, f3⟩ := forward_cases (nA l) (nB l) (nC l) (nD l) 0
  generalize nA l = a at *
  generalize nB l = b at *
  generalize nC l = c at *
  generalize nD l = d at *
  have pa : (0:ℚ) ≤ a := by positivity
  have pb : (0:ℚ) ≤ b := by positivity
  have pc : (0:ℚ) ≤ c := by positivity
  have pd : (0:ℚ) ≤ d := by positivity
  rcases Nat.lt_trichotomy (b * c) (a * d) with h | h | h
  · obtain ⟨hpos, hf⟩ := f1 h
    rw [hf, div_eq_one_iff_eq hpos.ne']
    have ha : 0 < a := Nat.pos_of_ne_zero (by rintro rfl; simp at h)
    have hd : 0 < d := Nat.pos_of_ne_zero (by rintro rfl; simp at h)
    have ha' : (0:ℚ) < a := by exact_mod_cast ha
    have hd' : (0:ℚ) < d := by exact_mod_cast hd
    push_cast
    constructor
    · intro he
      refine ⟨ha, hd, ?_⟩
      rcases le_total b c with hbc | hbc
      · left
        have hbc' : (b:ℚ) ≤ c := by exact_mod_cast hbc
        rw [min_eq_left (by linarith)] at he
        have : (b:ℚ) * (a + b + c + d) = 0 := by nlinarith
        rcases mul_eq_zero.1 this with h0 | h0
        · exact_mod_cast h0
        · exfalso; linarith
      · right
        have hbc' : (c:ℚ) ≤ b := by exact_mod_cast hbc
        rw [min_eq_right (by linarith)] at he
        have : (c:ℚ) * (a + b + c + d) = 0 := by nlinarith
        rcases mul_eq_zero.1 this with h0 | h0
        · exact_mod_cast h0
        · exfalso; linarith
    · rintro ⟨_, _, h0 | h0⟩
      · subst h0
        rw [min_eq_left (by push_cast; linarith)]; push_cast; ring
      · subst h0
        rw [min_eq_right (by push_cast; linarith)]; push_cast; ring
  · rw [f3 h.symm]
    constructor
    · intro h0; norm_num at h0
    · rintro ⟨h1, h2, h3⟩
      exfalso
      have : 0 < a * d := Nat.mul_pos h1 h2
      rcases h3 with h3 | h3 <;> subst h3 <;> simp at h <;> omega
  · obtain ⟨hpos, hf⟩ := f2 h
    have hq : (a:ℚ) * d < b * c := by exact_mod_cast h
    rw [hf]
    constructor
    · intro h0
      have : ((a:ℚ) * d - b * c) / (((a:ℚ) + b) * (a + c) - ((max ((a:ℤ) - d) 0 : ℤ) : ℚ) * (a + b + c + d : ℕ)) < 0 :=
        div_neg_of_neg_of_pos (by linarith) hpos
      linarith
    · rintro ⟨h1, h2, h3⟩
      exfalso
      rcases h3 with h3 | h3 <;> subst h3 <;> simp at h

/-- C11: hence, as long as no window of the history has more than `2^depth - 1` surplus ones on the first input, `Correlation`
between the synchronised stream and the reference is `+1` after `n` cycles exactly when both a pair `(1, 1)` and a pair
`(0, 0)` were among them. -/
theorem C11_scc (depth : ℕ) (sh : List ℕ) (x y : ℕ → ℤ) (hx : Verif.Spec.BitStream x) (hy : Verif.Spec.BitStream y)
    (hw : ∀ s t, s ≤ t → ∑ u ∈ Ico s t, (x u - y u) ≤ 2 ^ depth - 1) (n : ℕ) :
    (corrRun2 ((List.range n).map fun t => ((ssOut depth sh x y t : ℚ), (y t : ℚ)))).forward = 1 ↔
      (∃ t < n, ssOut depth sh x y t = 1 ∧ y t = 1) ∧ (∃ t < n, ssOut depth sh x y t = 0 ∧ y t = 0) := by
  have hdom := C11_dominated depth sh x y hx hy hw
  have hb : ∀ t, IsBit (ssOut depth sh x y t) := fun t => (C10_bits depth sh x y hx hy t).1
  have one : ∀ {a : ℤ}, IsBit a → ((a : ℚ) ≠ 0 ↔ a = 1) := by
    intro a ha
    rcases ha with h | h <;> subst h <;> norm_num
  have zero : ∀ {a : ℤ}, ((a : ℚ) = 0 ↔ a = 0) := fun {a} => Int.cast_eq_zero
  rw [C14_plus_one]
  simp only [List.mem_map, List.mem_range]
  constructor
  · rintro ⟨⟨_, ⟨t, ht, rfl⟩, h1, h2⟩, ⟨_, ⟨u, hu, rfl⟩, h3, h4⟩, -⟩
    exact ⟨⟨t, ht, (one (hb t)).1 h1, (one (hy t)).1 h2⟩, ⟨u, hu, zero.1 h3, zero.1 h4⟩⟩
  · rintro ⟨⟨t, ht, h1, h2⟩, ⟨u, hu, h3, h4⟩⟩
    refine ⟨⟨_, ⟨t, ht, rfl⟩, (one (hb t)).2 h1, (one (hy t)).2 h2⟩, ⟨_, ⟨u, hu, rfl⟩, zero.2 h3, zero.2 h4⟩, Or.inl ?_⟩
    rintro _ ⟨v, _, rfl⟩ ⟨h5, h6⟩
    have h5' := (one (hb v)).1 h5
    have h6' := zero.1 h6
    have := hdom v
    omega

/-- The hypotheses of `C11_scc` can be met: two streams of value one half in opposite phase, depth 1.  Unsynchronised their
correlation is `-1`; synchronised it is `+1` from the fourth cycle on. -/
example :
    let x : ℕ → ℤ := fun t => ((t + 1) % 2 : ℕ)
    let y : ℕ → ℤ := fun t => (t % 2 : ℕ)
    (corrRun2 ((List.range 4).map fun t => ((x t : ℚ), (y t : ℚ)))).forward = -1 ∧
    (corrRun2 ((List.range 4).map fun t => ((ssOut 1 [] x y t : ℚ), (y t : ℚ)))).forward = 1 := by
  decide +kernel

/-- C14: `-1` exactly when mixed pairs outweigh and (1,1) or (0,0) never occurred. -/
theorem C14_minus_one (l : List (ℚ × ℚ)) :
    (corrRun2 l).forward = -1 ↔
      ((∃ p ∈ l, p.1 ≠ 0 ∧ p.2 = 0) ∧ (∃ p ∈ l, p.1 = 0 ∧ p.2 ≠ 0) ∧
       ((∀ p ∈ l, ¬ (p.1 ≠ 0 ∧ p.2 ≠ 0)) ∨ (∀ p ∈ l, ¬ (p.1 = 0 ∧ p.2 = 0)))) := by
  have hsum := corr_counts_sum l
  have hB : (∃ p ∈ l, p.1 ≠ 0 ∧ p.2 = 0) ↔ 0 < nB l := by
    unfold nB; rw [List.countP_pos_iff]; simp only [decide_eq_true_eq]
  have hC : (∃ p ∈ l, p.1 = 0 ∧ p.2 ≠ 0) ↔ 0 < nC l := by
    unfold nC; rw [List.countP_pos_iff]; simp only [decide_eq_true_eq]
  have hA : (∀ p ∈ l, ¬ (p.1 ≠ 0 ∧ p.2 ≠ 0)) ↔ nA l = 0 := by
    unfold nA; rw [List.countP_eq_zero]; simp only [decide_eq_true_eq]
  have hD : (∀ p ∈ l, ¬ (p.1 = 0 ∧ p.2 = 0)) ↔ nD l = 0 := by
    unfold nD; rw [List.countP_eq_zero]; simp only [decide_eq_true_eq]
  rw [hA, hD, hB, hC]
  rw [corrRun2_eq, ← hsum]
  obtain ⟨f1, f2, f3⟩ := forward_cases (nA l) (nB l) (nC l) (nD l) 0
  generalize nA l = a at *
  generalize nB l = b at *
  generalize nC l = c at *
  generalize nD l = d at *
  have pa : (0:ℚ) ≤ a := by positivity
  have pb : (0:ℚ) ≤ b := by positivity
  have pc : (0:ℚ) ≤ c := by positivity
  have pd : (0:ℚ) ≤ d := by positivity
  rcases Nat.lt_trichotomy (b * c) (a * d) with h | h | h
  · obtain ⟨hpos, hf⟩ := f1 h
    have hq : (b:ℚ) * c < a * d := by exact_mod_cast h
    rw [hf]
    constructor
    · intro h0
      have : 0 ≤ ((a:ℚ) * d - b * c) / (((min (a + b) (a + c) : ℕ) : ℚ) * (a + b + c + d : ℕ) - (a + b) * (a + c)) :=
        div_nonneg (by linarith) hpos.le
      linarith
    · rintro ⟨h1, h2, h3⟩
      exfalso
      rcases h3 with h3 | h3 <;> subst h3 <;> simp at h
  · rw [f3 h.symm]
    constructor
    · intro h0; norm_num at h0
    · rintro ⟨h1, h2, h3⟩
      exfalso
      have : 0 < b * c := Nat.mul_pos h1 h2
      rcases h3 with h3 | h3 <;> subst h3 <;> simp at h <;> omega
  · obtain ⟨hpos, hf⟩ := f2 h
    rw [hf, div_eq_iff hpos.ne']
    have hb : 0 < b := Nat.pos_of_ne_zero (by rintro rfl; simp at h)
    have hc : 0 < c := Nat.pos_of_ne_zero (by rintro rfl; simp at h)
    have hb' : (0:ℚ) < b := by exact_mod_cast hb
    have hc' : (0:ℚ) < c := by exact_mod_cast hc
    push_cast
    constructor
    · intro he
      refine ⟨hb, hc, ?_⟩
      rcases le_total a d with hbc | hbc
      · left
        have hbc' : (a:ℚ) ≤ d := by exact_mod_cast hbc
        rw [max_eq_right (by linarith)] at he
        have : (a:ℚ) * (a + b + c + d) = 0 := by nlinarith
        rcases mul_eq_zero.1 this with h0 | h0
        · exact_mod_cast h0
        · exfalso; linarith
      · right
        have hbc' : (d:ℚ) ≤ a := by exact_mod_cast hbc
        rw [max_eq_left (by linarith)] at he
        have : (d:ℚ) * (a + b + c + d) = 0 := by nlinarith
        rcases mul_eq_zero.1 this with h0 | h0
        · exact_mod_cast h0
        · exfalso; linarith
    · rintro ⟨_, _, h0 | h0⟩
      · subst h0
        rw [max_eq_right (by push_cast; linarith)]; push_cast; ring
      · subst h0
        rw [max_eq_left (by push_cast; linarith)]; push_cast; ring

/-- C14: order of observations is irrelevant. -/
theorem C14_order (l l' : List (ℚ × ℚ)) (h : l.Perm l') : (corrRun2 l).forward = (corrRun2 l').forward := by
  rw [corrRun2_eq, corrRun2_eq]
  simp only [nA, nB, nC, nD, h.countP_eq, h.length_eq]

/-- C14: symmetric in the two inputs. -/
theorem C14_symmetric (l : List (ℚ × ℚ)) :
    (corrRun2 (l.map Prod.swap)).forward = (corrRun2 l).forward := by
  have hA : nA (l.map Prod.swap) = nA l := by
    simp only [nA, List.countP_map]; congr 1; funext p; simp [Bool.and_comm]
  have hB : nB (l.map Prod.swap) = nC l := by
    simp only [nB, nC, List.countP_map]; congr 1; funext p; simp [and_comm]
  have hC : nC (l.map Prod.swap) = nB l := by
    simp only [nB, nC, List.countP_map]; congr 1; funext p; simp [and_comm]
  have hD : nD (l.map Prod.swap) = nD l := by
    simp only [nD, List.countP_map]; congr 1; funext p; simp [Bool.and_comm]
  rw [corrRun2_eq, corrRun2_eq, hA, hB, hC, hD, List.length_map]
  simp only [Corr.forward]
  rw [min_comm, mul_comm (nC l : ℚ) (nB l), mul_comm ((nA l : ℚ) + nC l) (nA l + nB l)]

example : (corrRun2 [(1, 1), (0, 0), (1, 0)]).forward = 1 := by
  rw [C14_plus_one]; simp
example : (corrRun2 [(1, 0), (0, 1), (1, 0)]).forward = -1 := by
  rw [C14_minus_one]; simp

/-! ## C15 -/

private theorem withDelay_fold (l : List (ℚ × Option ℚ)) (s s' : Corr)
    (h : s.a = s'.a ∧ s.b = s'.b ∧ s.c = s'.c ∧ s.d = s'.d ∧ s.len = s'.len) :
    let r := l.foldl (fun s i => s.monitor i.1 i.2) s
    let r' := ((Spec.withDelay s.in1d l).map fun p => (p.1, some p.2)).foldl (fun s i => s.monitor i.1 i.2) s'
    r.a = r'.a ∧ r.b = r'.b ∧ r.c = r'.c ∧ r.d = r'.d ∧ r.len = r'.len := by
  induction l generalizing s s' with
  | nil => exact h
  | cons i l ih =>
      obtain ⟨x, o⟩ := i
      obtain ⟨h1, h2, h3, h4, h5⟩ := h
      cases o with
      | none =>
          simp only [Spec.withDelay, List.map_cons, List.foldl_cons]
          exact ih (s.monitor x none) (s'.monitor x (some s.in1d))
            ⟨by simp [Corr.monitor, h1], by simp [Corr.monitor, h2], by simp [Corr.monitor, h3],
             by simp [Corr.monitor, h4], by simp [Corr.monitor, h5]⟩
      | some y =>
          simp only [Spec.withDelay, List.map_cons, List.foldl_cons]
          exact ih (s.monitor x (some y)) (s'.monitor x (some y))
            ⟨by simp [Corr.monitor, h1], by simp [Corr.monitor, h2], by simp [Corr.monitor, h3],
             by simp [Corr.monitor, h4], by simp [Corr.monitor, h5]⟩

/-- C15: any mix of one- and two-input calls reports what the two-input calls with the explicit
one-call delay (starting at `0`) report. -/
theorem C15_autocorrelation (l : List (ℚ × Option ℚ)) :
    (corrRun l).forward = (corrRun2 (Spec.withDelay 0 l)).forward ∧
    (corrRun l).len = (corrRun2 (Spec.withDelay 0 l)).len := by
  obtain ⟨h1, h2, h3, h4, h5⟩ := withDelay_fold l Corr.init Corr.init ⟨rfl, rfl, rfl, rfl, rfl⟩
  have e : Corr.init.in1d = 0 := rfl
  rw [e] at h1 h2 h3 h4 h5
  refine ⟨?_, h5⟩
  unfold Corr.forward corrRun2 corrRun
  rw [h1, h2, h3, h4, h5]

example : Spec.withDelay 0 [(1, none), (1, some 0), (0, none), (1, none)] = [(1, 0), (1, 0), (0, 1), (1, 0)] := rfl

/-! ## C16 -/

/-- The calls a user makes on `ProgError`. -/
inductive PEOp where
  | mon (x : ℚ)
  | fwd

/-- State after a list of calls (`forward` only writes the two reported parameters; before any
observation it reports `nan` and the model leaves the parameters alone). -/
def peRun (s : PE) (ops : List PEOp) : PE :=
  ops.foldl (fun s o => match o with
    | .mon x => s.monitor x
    | .fwd => match s.forward with
        | .ok r => r.1
        | .error _ => s) s

/-- The observed values, in order. -/
def observed : List PEOp → List ℚ
  | [] => []
  | .mon x :: l => x :: observed l
  | .fwd :: l => observed l

private theorem peRun_eq (ops : List PEOp) (s : PE) :
    (peRun s ops).mode = s.mode ∧ (peRun s ops).source = s.source ∧
    (peRun s ops).oneCnt = s.oneCnt + (observed ops).sum ∧
    (peRun s ops).cycle = s.cycle + (observed ops).length := by
  induction ops generalizing s with
  | nil => simp [peRun, observed]
  | cons o l ih =>
      cases o with
      | mon x =>
          have h := ih (s.monitor x)
          have e : peRun s (.mon x :: l) = peRun (s.monitor x) l := rfl
          rw [e]
          obtain ⟨h1, h2, h3, h4⟩ := h
          refine ⟨h1, h2, ?_, ?_⟩
          · rw [h3]; simp [observed, PE.monitor]; ring
          · rw [h4]; simp [observed, PE.monitor]; ring
      | fwd =>
          have e : peRun s (.fwd :: l) = peRun (match s.forward with
              | .ok r => r.1
              | .error _ => s) l := rfl
          rw [e]
          have hs : ∃ s', (match s.forward with
              | .ok r => r.1
              | .error _ => s) = s' ∧ s'.mode = s.mode ∧ s'.source = s.source ∧ s'.oneCnt = s.oneCnt ∧ s'.cycle = s.cycle := by
            unfold PE.forward
            split_ifs
            · exact ⟨s, rfl, rfl, rfl, rfl, rfl⟩
            · exact ⟨_, rfl, rfl, rfl, rfl, rfl⟩
          obtain ⟨s', hs', a1, a2, a3, a4⟩ := hs
          rw [hs']
          obtain ⟨h1, h2, h3, h4⟩ := ih s'
          refine ⟨by rw [h1, a1], by rw [h2, a2], ?_, ?_⟩
          · rw [h3, a3]; simp [observed]
          · rw [h4, a4]; simp [observed]

/-- Decoded value of a list of observations. -/
def Spec.decode (m : Mode) (l : List ℚ) : ℚ :=
  match m with
  | .unipolar => l.sum / l.length
  | .bipolar => 2 * (l.sum / l.length) - 1

/-- C16: what is reported after any interleaving of observations and reports. -/
theorem C16_report (source scale : ℚ) (m : Mode) (mode : String) (s0 : PE)
    (hm : parseMode mode = .ok m) (hs : scale ≠ 0) (hi : PE.init source scale mode = .ok s0)
    (ops : List PEOp) (hne : observed ops ≠ []) :
    ∃ s', (peRun s0 ops).forward = .ok (s', Spec.decode m (observed ops),
      Spec.decode m (observed ops) - max (-1) (min (source / scale) 1)) := by
  have h0 : s0 = ⟨m, clamp (-1) 1 (source / scale), 0, 0, 0, 0⟩ := by
    simp only [PE.init, hm, scaledSource, hs] at hi
    cases hi; rfl
  obtain ⟨h1, h2, h3, h4⟩ := peRun_eq ops s0
  have hlen : ((observed ops).length : ℚ) ≠ 0 := by
    have : (observed ops).length ≠ 0 := fun h => hne (List.length_eq_zero_iff.1 h)
    exact_mod_cast this
  have hcl : clamp (-1) 1 (source / scale) = max (-1) (min (source / scale) 1) := by
    unfold clamp
    rcases le_total (source / scale) (-1) with h | h
    · rw [max_eq_right h, min_eq_left (by norm_num), min_eq_left (by linarith), max_eq_left h]
    · rw [max_eq_left h]
      rcases le_total (source / scale) 1 with h' | h'
      · rw [min_eq_left h', max_eq_right h]
      · rw [min_eq_right h', max_eq_right (by norm_num)]
  unfold PE.forward
  rw [h4, h3, h2, h1, h0]
  simp only [zero_add]
  rw [if_neg hlen]
  cases m
  all_goals simp only [hcl, Spec.decode, mul_comm (2:ℚ)]; exact ⟨_, rfl⟩

/-- C16: ranges for bit observations. -/
theorem C16_range (m : Mode) (l : List ℚ) (hl : l ≠ []) (hb : ∀ x ∈ l, IsBit x) :
    (m = .unipolar → 0 ≤ Spec.decode m l ∧ Spec.decode m l ≤ 1) ∧
    (m = .bipolar → -1 ≤ Spec.decode m l ∧ Spec.decode m l ≤ 1) ∧
    (∀ s : ℚ, |Spec.decode m l - max (-1) (min s 1)| ≤ 2) := by
  have hn : (0:ℚ) < l.length := by
    have : 0 < l.length := List.length_pos_iff.2 hl
    exact_mod_cast this
  have hs : 0 ≤ l.sum ∧ l.sum ≤ l.length := by
    clear hn hl
    induction l with
    | nil => simp
    | cons x l ih =>
        obtain ⟨h0, h1⟩ := ih (fun y hy => hb y (List.mem_cons_of_mem _ hy))
        have hx := hb x (by simp)
        rw [List.sum_cons, List.length_cons]; push_cast
        rcases hx with h | h <;> rw [h] <;> constructor <;> linarith
  have h0 : 0 ≤ l.sum / l.length := div_nonneg hs.1 hn.le
  have h1 : l.sum / l.length ≤ 1 := by rw [div_le_one hn]; exact hs.2
  have hr : -1 ≤ Spec.decode m l ∧ Spec.decode m l ≤ 1 := by
    cases m <;> simp only [Spec.decode] <;> constructor <;> linarith
  refine ⟨?_, fun _ => hr, fun s => ?_⟩
  · rintro rfl; exact ⟨h0, h1⟩
  · have a : -1 ≤ max (-1) (min s 1) := le_max_left _ _
    have b : max (-1) (min s 1) ≤ (1:ℚ) := max_le (by norm_num) (min_le_right _ _)
    rw [abs_le]; constructor <;> linarith [hr.1, hr.2]

/-- C16: without an observation there is no finite report. -/
theorem C16_no_observation (source scale : ℚ) (mode : String) (s0 : PE)
    (hi : PE.init source scale mode = .ok s0) (ops : List PEOp) (he : observed ops = []) :
    (peRun s0 ops).forward = .error .nonfinite := by
  have hc : s0.cycle = 0 := by
    unfold PE.init at hi
    cases hm : parseMode mode with
    | error e => rw [hm] at hi; cases hi
    | ok m =>
        cases hs : scaledSource source scale with
        | error e => rw [hm, hs] at hi; cases hi
        | ok v => rw [hm, hs] at hi; cases hi; rfl
  obtain ⟨_, _, _, h4⟩ := peRun_eq ops s0
  unfold PE.forward
  rw [h4, he, hc]; simp

/-- Zero scale: a non-zero source is replaced by its sign, a zero source has no finite value. -/
theorem C16_zero_scale (source : ℚ) :
    scaledSource source 0 =
      if source > 0 then .ok 1 else if source < 0 then .ok (-1) else .error .nonfinite := by
  simp [scaledSource]

example : ∃ s0, PE.init (1/2) 1 "Bipolar" = .ok s0 ∧ observed [.mon 1, .fwd, .mon 0] = [1, 0] := by
  have h : parseMode "Bipolar" = .ok .bipolar := by
    unfold parseMode
    rw [if_neg (by decide +kernel), if_pos (by decide +kernel)]
  exact ⟨⟨.bipolar, clamp (-1) 1 (1/2/1), 0, 0, 0, 0⟩, by simp [PE.init, h, scaledSource]; rfl, rfl⟩

/-! ## C17 -/

/-- State after `n` `Monitor` calls of `Stability`. -/
def stabRun (s : Stab) (x : ℕ → ℚ) : ℕ → Except PyErr Stab
  | 0 => .ok s
  | n + 1 => do let r ← stabRun s x n; r.monitor (x n)

/-- Progressive error after `k` observations, from first principles. -/
def Spec.progErr (m : Mode) (src : ℚ) (x : ℕ → ℚ) (k : ℕ) : ℚ :=
  (match m with
   | .unipolar => (∑ t ∈ range k, x t) / k
   | .bipolar => 2 * ((∑ t ∈ range k, x t) / k) - 1) - src

/-- Last cycle (counting from one) not later than `n` whose error exceeds the threshold; `0` if none. -/
def Spec.lastUnstable (m : Mode) (src thr : ℚ) (x : ℕ → ℚ) (n : ℕ) : ℕ :=
  ((Finset.Icc 1 n).filter fun k => thr < |Spec.progErr m src x k|).sup id

private theorem lastUnstable_succ (m : Mode) (src thr : ℚ) (x : ℕ → ℚ) (n : ℕ) :
    Spec.lastUnstable m src thr x (n + 1) =
      if thr < |Spec.progErr m src x (n + 1)| then n + 1 else Spec.lastUnstable m src thr x n := by
  unfold Spec.lastUnstable
  have hI : Finset.Icc 1 (n + 1) = insert (n + 1) (Finset.Icc 1 n) := by
    ext k; simp only [mem_Icc, mem_insert]; omega
  rw [hI, filter_insert]
  split_ifs with h
  · rw [sup_insert]
    apply le_antisymm
    · apply sup_le (le_refl _)
      apply Finset.sup_le
      intro k hk
      have := (mem_Icc.1 (mem_filter.1 hk).1).2
      show k ≤ n + 1; omega
    · exact le_sup_left
  · rfl

theorem lastUnstable_le (m : Mode) (src thr : ℚ) (x : ℕ → ℚ) (n : ℕ) :
    Spec.lastUnstable m src thr x n ≤ n := by
  unfold Spec.lastUnstable
  apply Finset.sup_le
  intro k hk
  exact (mem_Icc.1 (mem_filter.1 hk).1).2

/-- C17: the report after `n` observations. -/
theorem C17_report (source scale thr : ℚ) (m : Mode) (mode : String) (s0 : Stab)
    (hm : parseMode mode = .ok m) (hs : scale ≠ 0)
    (hi : Stab.init source scale mode thr = .ok s0) (x : ℕ → ℚ) (n : ℕ) (hn : 0 < n) :
    ∃ s, stabRun s0 x n = .ok s ∧
      s.forward = .ok (1 - (max 1 (Spec.lastUnstable m (clamp (-1) 1 (source / scale)) thr x n) : ℕ) / n) := by
  have h0 : s0 = ⟨thr, 0, ⟨m, clamp (-1) 1 (source / scale), 0, 0, 0, 0⟩⟩ := by
    have hp : PE.init source scale mode = .ok ⟨m, clamp (-1) 1 (source / scale), 0, 0, 0, 0⟩ := by
      simp [PE.init, hm, scaledSource, hs]; rfl
    simp only [Stab.init, hp] at hi
    cases hi; rfl
  set src := clamp (-1) 1 (source / scale) with hsrc
  have inv : ∀ n, ∃ s, stabRun s0 x n = .ok s ∧ s.threshold = thr ∧ s.progerr.mode = m ∧ s.progerr.source = src ∧
      s.progerr.cycle = n ∧ s.progerr.oneCnt = ∑ t ∈ range n, x t ∧
      s.cts = (Spec.lastUnstable m src thr x n : ℕ) := by
    intro n
    induction n with
    | zero => exact ⟨s0, rfl, by rw [h0], by rw [h0], by rw [h0], by rw [h0]; simp, by rw [h0]; simp,
        by rw [h0]; simp [Spec.lastUnstable]⟩
    | succ n ih =>
        obtain ⟨s, hr, ht, hmo, hso, hc, ho, hct⟩ := ih
        have hne : (n:ℚ) + 1 ≠ 0 := by positivity
        have hmon : ∃ s', s.monitor (x n) = .ok s' ∧ s'.threshold = thr ∧ s'.progerr.mode = m ∧ s'.progerr.source = src ∧
            s'.progerr.cycle = n + 1 ∧ s'.progerr.oneCnt = ∑ t ∈ range (n + 1), x t ∧
            s'.cts = s.cts + ind (|Spec.progErr m src x (n + 1)| > thr) * ((n:ℚ) + 1 - s.cts) := by
          unfold Stab.monitor
          simp only [PE.monitor, PE.forward, hc]
          rw [if_neg hne]
          refine ⟨_, rfl, ht, hmo, hso, rfl, ?_, ?_⟩
          · rw [sum_range_succ, ho]
          · rw [hmo, hso, ho, ht]
            have e : ((n + 1 : ℕ) : ℚ) = n + 1 := by push_cast; rfl
            cases m
            · simp only [Spec.progErr, sum_range_succ, e]
            · simp only [Spec.progErr, sum_range_succ, e]
              rw [mul_comm 2]
        obtain ⟨s', hs', a1, a2, a3, a4, a5, a6⟩ := hmon
        refine ⟨s', ?_, a1, a2, a3, by rw [a4]; push_cast; rfl, a5, ?_⟩
        · show (stabRun s0 x n >>= fun r => r.monitor (x n)) = _
          rw [hr]; exact hs'
        · rw [a6, hct, lastUnstable_succ]
          by_cases h : thr < |Spec.progErr m src x (n + 1)|
          · rw [ind_true (by exact h), if_pos h]; push_cast; ring
          · rw [ind_false (by exact h), if_neg h]; ring
  obtain ⟨s, hr, ht, hmo, hso, hc, ho, hct⟩ := inv n
  refine ⟨s, hr, ?_⟩
  have hnq : (n:ℚ) ≠ 0 := by have := hn.ne'; exact_mod_cast this
  unfold Stab.forward
  rw [hc, if_neg hnq, hct]
  have hle := lastUnstable_le m src thr x n
  generalize Spec.lastUnstable m src thr x n = t at *
  congr 4
  unfold clamp
  push_cast
  have h1 : (t:ℚ) ≤ n := by exact_mod_cast hle
  have h2 : (1:ℚ) ≤ n := by exact_mod_cast hn
  rw [min_eq_left (max_le h1 h2), max_comm]

/-- C17: range, and when the report is `0`. -/
theorem C17_range (t n : ℕ) (ht : t ≤ n) (hn : 0 < n) :
    0 ≤ 1 - ((max 1 t : ℕ) : ℚ) / n ∧ 1 - ((max 1 t : ℕ) : ℚ) / n ≤ 1 - 1 / n ∧
    (1 - ((max 1 t : ℕ) : ℚ) / n = 0 ↔ t = n ∨ n = 1) := by
  have hnq : (0:ℚ) < n := by exact_mod_cast hn
  have h1 : ((max 1 t : ℕ) : ℚ) ≤ n := by
    have : max 1 t ≤ n := by omega
    exact_mod_cast this
  have h2 : (1:ℚ) ≤ ((max 1 t : ℕ) : ℚ) := by
    have : 1 ≤ max 1 t := le_max_left _ _
    exact_mod_cast this
  refine ⟨?_, ?_, ?_⟩
  · have : ((max 1 t : ℕ) : ℚ) / n ≤ 1 := by rw [div_le_one hnq]; exact h1
    linarith
  · have : (1:ℚ) / n ≤ ((max 1 t : ℕ) : ℚ) / n := div_le_div_of_nonneg_right h2 hnq.le
    linarith
  · rw [sub_eq_zero, eq_comm, div_eq_one_iff_eq hnq.ne']
    constructor
    · intro h
      have : max 1 t = n := by exact_mod_cast h
      omega
    · intro h
      have : max 1 t = n := by omega
      exact_mod_cast this

/-- C17: once no further violation occurs the report never decreases. -/
theorem C17_grows (m : Mode) (src thr : ℚ) (x : ℕ → ℚ) (n k : ℕ) (hn : 0 < n)
    (h : ∀ j, n < j → j ≤ n + k → |Spec.progErr m src x j| ≤ thr) :
    1 - ((max 1 (Spec.lastUnstable m src thr x n) : ℕ) : ℚ) / n ≤
      1 - ((max 1 (Spec.lastUnstable m src thr x (n + k)) : ℕ) : ℚ) / (n + k : ℕ) := by
  have e : Spec.lastUnstable m src thr x (n + k) = Spec.lastUnstable m src thr x n := by
    induction k with
    | zero => rfl
    | succ k ih =>
        rw [← Nat.add_assoc, lastUnstable_succ, if_neg, ih]
        · intro j h1 h2; exact h j h1 (by omega)
        · have := h (n + k + 1) (by omega) (by omega); linarith
  rw [e]
  have hnq : (0:ℚ) < n := by exact_mod_cast hn
  have : ((max 1 (Spec.lastUnstable m src thr x n) : ℕ) : ℚ) / (n + k : ℕ)
      ≤ ((max 1 (Spec.lastUnstable m src thr x n) : ℕ) : ℚ) / n := by
    apply div_le_div_of_nonneg_left (by positivity) hnq
    have : (0:ℚ) ≤ k := by positivity
    push_cast; linarith
  linarith

/-- Non-vacuity: the stream `1 1 0 0 …` of target `1/2`, threshold `1/10`: unstable until cycle 3. -/
example : Spec.lastUnstable .unipolar (1/2) (1/10) (fun t => if t < 2 then 1 else 0) 4 = 3 := by
  rw [lastUnstable_succ, if_neg, lastUnstable_succ, if_pos]
  · simp only [Spec.progErr, sum_range_succ, sum_range_zero]
    rw [lt_abs]; norm_num
  · simp only [Spec.progErr, sum_range_succ, sum_range_zero]
    norm_num

/-! ## C07 -/

open Gen in
/-- C07: streams that share a number sequence are nested. -/
theorem C07_nested (rng : List ℤ) (b1 b2 c : ℤ) (h : b1 ≤ b2) : bsGen rng b1 c ≤ bsGen rng b2 c := by
  unfold bsGen ind; split_ifs <;> omega

open Gen in
/-- C07: hence their SCC is exactly `+1` as soon as both agreeing pairs were seen. -/
theorem C07_scc (rng : List ℤ) (b1 b2 : ℤ) (h : b1 ≤ b2) (n : ℕ)
    (h11 : ∃ t < n, bsGen rng b1 t = 1 ∧ bsGen rng b2 t = 1)
    (h00 : ∃ t < n, bsGen rng b1 t = 0 ∧ bsGen rng b2 t = 0) :
    (corrRun2 ((List.range n).map fun t : ℕ => ((bsGen rng b1 t : ℚ), (bsGen rng b2 t : ℚ)))).forward = 1 := by
  rw [C14_plus_one]
  refine ⟨?_, ?_, Or.inl ?_⟩
  · obtain ⟨t, ht, h1, h2⟩ := h11
    exact ⟨_, List.mem_map.2 ⟨t, List.mem_range.2 ht, rfl⟩, by simp [h1], by simp [h2]⟩
  · obtain ⟨t, ht, h1, h2⟩ := h00
    exact ⟨_, List.mem_map.2 ⟨t, List.mem_range.2 ht, rfl⟩, by simp [h1], by simp [h2]⟩
  · rintro p hp ⟨h1, h2⟩
    obtain ⟨t, _, rfl⟩ := List.mem_map.1 hp
    have hle := C07_nested rng b1 b2 t h
    have hb := bsGen_isBit rng b1 t
    simp only [ne_eq, Int.cast_eq_zero] at h1 h2
    rcases hb with hb | hb
    · exact h1 hb
    · omega

example : ∃ t < 4, Gen.bsGen [2, 0, 3, 1] 1 (t : ℕ) = 1 ∧ Gen.bsGen [2, 0, 3, 1] 3 (t : ℕ) = 1 := ⟨1, by decide⟩
example : ∃ t < 4, Gen.bsGen [2, 0, 3, 1] 1 (t : ℕ) = 0 ∧ Gen.bsGen [2, 0, 3, 1] 3 (t : ℕ) = 0 := ⟨2, by decide⟩

/-! ## C06 -/

open Gen in
/-- The value `ProgError` reports after observing the first `n` bits generated for `source`. -/
def roundTrip (m : Mode) (w : ℕ) (rng : List ℤ) (source : ℚ) (n : ℕ) : ℚ :=
  Spec.decode m ((List.range n).map fun t : ℕ => ((bsGen rng (binGenM m w source) t : ℤ) : ℚ))

open Gen in
private theorem sum_periods {w : ℕ} {rng : List ℤ} (h : Verif.Spec.IsPermSeq w rng) (b : ℤ) (hb0 : 0 ≤ b)
    (hb1 : b ≤ 2 ^ w) (k : ℕ) :
    ∑ t ∈ range (k * 2 ^ w), bsGen rng b t = k * b := by
  induction k with
  | zero => simp
  | succ k ih =>
      rw [Nat.succ_mul, sum_range_add, ih]
      have := C01_window_count h b ((k * 2 ^ w : ℕ) : ℤ)
      have e : ∀ x ∈ range (2 ^ w), bsGen rng b ((k * 2 ^ w + x : ℕ) : ℤ) = bsGen rng b (((k * 2 ^ w : ℕ) : ℤ) + x) := by
        intro x _; push_cast; rfl
      rw [sum_congr rfl e, this]
      have : max 0 (min b (2 ^ w)) = b := by omega
      rw [this]; push_cast; ring

open Gen in
/-- C06: accuracy of the encode/decode round trip after `k` full periods. -/
theorem C06_round_trip {w : ℕ} {rng : List ℤ} (h : Verif.Spec.IsPermSeq w rng) (m : Mode) (s : ℚ)
    (hs : match m with | .unipolar => 0 ≤ s ∧ s ≤ 1 | .bipolar => -1 ≤ s ∧ s ≤ 1) (k : ℕ) (hk : 0 < k) :
    |roundTrip m w rng s (k * 2 ^ w) - s| ≤
      (match m with | .unipolar => 1 / 2 ^ (w + 1) | .bipolar => 1 / 2 ^ w) ∧
    (∀ j : ℤ, Spec.binTarget m w s = j → roundTrip m w rng s (k * 2 ^ w) = s) := by
  obtain ⟨hb0, hb1⟩ := C05_range m w s hs
  have hnear := (C05_nearest m w s).1
  have hsum : ((List.range (k * 2 ^ w)).map fun t : ℕ => ((bsGen rng (binGenM m w s) t : ℤ) : ℚ)).sum
      = k * binGenM m w s := by
    have h1 := sum_periods h (binGenM m w s) hb0 hb1 k
    have h2 := sum_map_range (fun t : ℕ => bsGen rng (binGenM m w s) t) (k * 2 ^ w)
    rw [h1] at h2
    have h3 : ((List.range (k * 2 ^ w)).map fun t : ℕ => ((bsGen rng (binGenM m w s) t : ℤ) : ℚ)).sum
        = ((((List.range (k * 2 ^ w)).map fun t : ℕ => bsGen rng (binGenM m w s) t).sum : ℤ) : ℚ) := by
      rw [Int.cast_list_sum, List.map_map]; rfl
    rw [h3, h2]; push_cast; rfl
  have hk' : (k:ℚ) ≠ 0 := by have := hk.ne'; exact_mod_cast this
  have hp : (0:ℚ) < 2 ^ w := by positivity
  have hval : ∀ q : ℚ, q = binGenM m w s → (k * q) / ((k * 2 ^ w : ℕ) : ℚ) = q / 2 ^ w := by
    intro q _; push_cast; field_simp
  have hdec : roundTrip m w rng s (k * 2 ^ w) = match m with
      | .unipolar => (binGenM m w s : ℚ) / 2 ^ w
      | .bipolar => 2 * ((binGenM m w s : ℚ) / 2 ^ w) - 1 := by
    unfold roundTrip Spec.decode
    rw [hsum, List.length_map, List.length_range, hval _ rfl]
    cases m <;> rfl
  constructor
  · rw [hdec]
    cases m
    · simp only [Spec.binTarget] at hnear ⊢
      have e : (binGenM .unipolar w s : ℚ) / 2 ^ w - s = (binGenM .unipolar w s - s * 2 ^ w) / 2 ^ w := by
        field_simp
      rw [e, abs_div, abs_of_pos hp, pow_succ, div_le_iff₀ hp]
      calc _ ≤ (1:ℚ)/2 := hnear
        _ = _ := by field_simp
    · simp only [Spec.binTarget] at hnear ⊢
      have e : 2 * ((binGenM .bipolar w s : ℚ) / 2 ^ w) - 1 - s
          = 2 * (binGenM .bipolar w s - (s + 1) / 2 * 2 ^ w) / 2 ^ w := by
        field_simp; ring
      rw [e, abs_div, abs_of_pos hp, abs_mul, abs_of_pos (by norm_num : (0:ℚ) < 2)]
      apply div_le_div_of_nonneg_right _ hp.le
      linarith
  · intro j hj
    have hj' := C05_exact m w s j hj
    rw [hdec, hj']
    cases m
    · simp only [Spec.binTarget] at hj ⊢
      rw [← hj]; field_simp
    · simp only [Spec.binTarget] at hj ⊢
      rw [← hj]; field_simp; ring

/-- C06: and that decoded value is what `ProgError` (scale 1) reports, error included. -/
theorem C06_reported {w : ℕ} (rng : List ℤ) (m : Mode) (mode : String) (hm : parseMode mode = .ok m) (s : ℚ)
    (hs : -1 ≤ s ∧ s ≤ 1) (n : ℕ) (hn : 0 < n) (s0 : PE) (hi : PE.init s 1 mode = .ok s0) :
    ∃ s', (peRun s0 ((List.range n).map fun t : ℕ => PEOp.mon ((Gen.bsGen rng (Gen.binGenM m w s) t : ℤ) : ℚ))).forward
      = .ok (s', roundTrip m w rng s n, roundTrip m w rng s n - s) := by
  have hobs : ∀ (f : ℕ → ℚ) (l : List ℕ), observed (l.map fun t => PEOp.mon (f t)) = l.map f := by
    intro f l
    induction l with
    | nil => rfl
    | cons a l ih => simp [observed, ih]
  have h := C16_report s 1 m mode s0 hm one_ne_zero hi
    ((List.range n).map fun t : ℕ => PEOp.mon ((Gen.bsGen rng (Gen.binGenM m w s) t : ℤ) : ℚ))
    (by rw [hobs]; simp; omega)
  rw [hobs] at h
  have e : max (-1) (min (s / 1) 1) = s := by
    rw [div_one, min_eq_left hs.2, max_eq_right hs.1]
  rw [e] at h
  exact h

example : Verif.Spec.IsPermSeq 2 [2, 0, 3, 1] ∧ ((-1:ℚ) ≤ 1/2 ∧ (1/2:ℚ) ≤ 1) ∧ Spec.binTarget .bipolar 2 (1/2) = (3:ℤ) := by
  refine ⟨⟨rfl, fun v h0 h1 => by interval_cases v <;> rfl⟩, by norm_num, by norm_num [Spec.binTarget]⟩

end Verif.Props
