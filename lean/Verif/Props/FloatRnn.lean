import Verif.Model.FloatRnn
import Verif.Props.FloatTlut
import Verif.Props.RnnSeq

/-!
# Property C91: recurrent cells in binary32
-/

namespace Verif.Props

open Verif Finset Linear Gen Rnn _root_.Verif.Float
open Verif.Spec (IsF32)

namespace Spec

/-- For states in `[-1, 1]`, the products and the bias of every output of a linear map of state and input have total magnitude at
most `A`. -/
def LinSize {I H : ℕ} (w : Fin H → Fin (H + I) → ℚ) (b : Option (Fin H → ℚ)) (x : Fin I → ℚ) (A : ℚ) : Prop :=
  ∀ o, ∑ k : Fin H, |w o (Fin.castAdd I k)| + ∑ k : Fin I, |x k| * |w o (Fin.natAdd H k)| + |(b.map fun v => v o).getD 0| ≤ A

/-- The error of one call of a cell with `n` inputs (state, data and bias) of total magnitude `A`, and recurrent weights of row sum
`W`. -/
def cellErr (n : ℕ) (A W : ℚ) : ℚ := (2 + W / 2) * roundErr n A + (12 + 5 * W) * (2:ℚ) ^ (-24:ℤ)

end Spec

private theorem roundErr_mono {n m : ℕ} {A B : ℚ} (hn : n ≤ m) (hA : 0 ≤ A) (hAB : A ≤ B) : Spec.roundErr n A ≤ Spec.roundErr m B := by
  unfold Spec.roundErr
  have hu := (two_zpow_pos (-24)).le
  have hη := (two_zpow_pos (-150)).le
  have one : (1:ℚ) ≤ 1 + (2:ℚ) ^ (-24:ℤ) := by linarith
  have h1 := pow_le_pow_right₀ one hn
  have h0 : 1 ≤ (1 + (2:ℚ) ^ (-24:ℤ)) ^ n := one_le_pow₀ one
  have hq : (n:ℚ) ≤ m := by exact_mod_cast hn
  have hn0 : (0:ℚ) ≤ n := Nat.cast_nonneg _
  generalize (1 + (2:ℚ) ^ (-24:ℤ)) ^ n = a at *
  generalize (1 + (2:ℚ) ^ (-24:ℤ)) ^ m = b at *
  refine add_le_add (mul_le_mul (by linarith) hAB hA (by linarith)) ?_
  exact mul_le_mul_of_nonneg_right (mul_le_mul (by linarith) h1 (by linarith) (by linarith)) hη

private theorem roundErr_nonneg (n : ℕ) {A : ℚ} (hA : 0 ≤ A) : 0 ≤ Spec.roundErr n A := by
  have := roundErr_mono (Nat.zero_le n) le_rfl hA
  unfold Spec.roundErr at this ⊢
  simpa using this

private theorem linF_near {I H : ℕ} {w : Fin H → Fin (H + I) → ℚ} {b : Option (Fin H → ℚ)} {x : Fin I → ℚ} {h : Fin H → ℚ} {A : ℚ}
    (hA : Spec.LinSize w b x A) (hh : ∀ o, |h o| ≤ 1) {o : Fin H} {v : ℚ} (hv : LinF w b (Fin.append h x) o v) :
    |v - lin w b (Fin.append h x) o| ≤ Spec.roundErr (H + I + 1) A := by
  have k := C90_product hv
  rw [List.map_append, List.sum_append, List.map_append, List.sum_append, List.length_append, List.map_ofFn, List.map_ofFn, List.sum_ofFn,
    List.sum_ofFn, List.length_ofFn] at k
  have s1 : ∑ i, |Fin.append h x i * w o i| ≤ ∑ k : Fin H, |w o (Fin.castAdd I k)| + ∑ k : Fin I, |x k| * |w o (Fin.natAdd H k)| := by
    rw [Fin.sum_univ_add]
    simp only [Fin.append_left, Fin.append_right]
    refine add_le_add (sum_le_sum fun k _ => ?_) (sum_le_sum fun k _ => le_of_eq (abs_mul _ _))
    rw [abs_mul]
    exact mul_le_of_le_one_left (abs_nonneg _) (hh k)
  have s0 : 0 ≤ ∑ i, |Fin.append h x i * w o i| := sum_nonneg fun _ _ => abs_nonneg _
  have hAo := hA o
  unfold lin
  cases b with
  | none =>
      simp only [Option.elim_none, List.map_nil, List.sum_nil, zero_add, List.length_nil, Option.map_none, Option.getD_none, add_zero,
        abs_zero] at k hAo ⊢
      exact k.trans (roundErr_mono (by omega) s0 (s1.trans hAo))
  | some c =>
      simp only [Option.elim_some, List.map_cons, List.map_nil, List.sum_cons, List.sum_nil, mul_one, add_zero, List.length_cons,
        List.length_nil, Option.map_some, Option.getD_some] at k hAo ⊢
      rw [add_comm (c o)] at k
      exact k.trans (roundErr_mono (by omega) (add_nonneg (abs_nonneg _) s0) (by
        refine le_trans ?_ hAo
        rw [add_comm]
        exact add_le_add s1 le_rfl))

private theorem ht1 (a : ℚ) : |hardtanh a| ≤ 1 := by
  unfold hardtanh clamp
  rw [abs_le]
  exact ⟨le_min (le_max_right _ _) (by norm_num), min_le_right _ _⟩

private theorem ht_id {a : ℚ} (h : |a| ≤ 1) : hardtanh a = a := by
  unfold hardtanh clamp
  rw [max_eq_left (abs_le.1 h).1, min_eq_left (abs_le.1 h).2]

private theorem f_small (n : ℤ) (h : |n| ≤ 2 ^ 24 := by norm_num) : IsF32 (n:ℚ) := isF32_int h

private theorem f0 : IsF32 0 := by simpa using f_small 0
private theorem f1 : IsF32 1 := by simpa using f_small 1
private theorem fm1 : IsF32 (-1) := isF32_neg f1
private theorem f3 : IsF32 3 := by simpa using f_small 3
private theorem f6 : IsF32 6 := by simpa using f_small 6

private theorem ht_f32 {v : ℚ} (h : IsF32 v) : IsF32 (hardtanh v) := by
  unfold hardtanh clamp
  rcases le_total v (-1) with a | a
  · rw [max_eq_right a, min_eq_left (by norm_num)]; exact fm1
  · rw [max_eq_left a]
    rcases le_total v 1 with b | b
    · rw [min_eq_left b]; exact h
    · rw [min_eq_right b]; exact f1

private theorem fl_abs_le {x c : ℚ} (hc : IsF32 c) (h : |x| ≤ c) : |fl x| ≤ c := by
  rw [abs_le] at h ⊢
  exact ⟨le_fl (isF32_neg hc) h.1, fl_le hc h.2⟩

/-- One rounding of a number of magnitude at most `A`. -/
private theorem round1 {x A : ℚ} (h : |x| ≤ A) : |fl x - x| ≤ (2:ℚ) ^ (-24:ℤ) * A + (2:ℚ) ^ (-150:ℤ) := by
  have h1 := fl_error_rel x
  have e : |x| / 2 ^ 24 = (2:ℚ) ^ (-24:ℤ) * |x| := by rw [zpow_neg]; norm_num; ring
  rw [e] at h1
  have hu := two_zpow_pos (-24)
  have h2 := mul_le_mul_of_nonneg_left h hu.le
  have h3 := mul_nonneg hu.le (abs_nonneg x)
  have a2 := (two_zpow_pos (-150)).le
  refine h1.trans (max_le ?_ ?_) <;> linarith

private theorem tiny : 100 * (2:ℚ) ^ (-150:ℤ) ≤ (2:ℚ) ^ (-24:ℤ) := by
  rw [show (-24:ℤ) = -150 + 126 by norm_num, zpow_add₀ (by norm_num : (2:ℚ) ≠ 0), mul_comm]
  exact mul_le_mul_of_nonneg_left (by norm_num) (two_zpow_pos _).le

/-- The gate: its range, its error, and its saturated values. -/
private theorem gate {a : ℚ} (h : |a| ≤ 1) : (0 ≤ hardsigmF a ∧ hardsigmF a ≤ 1) ∧ |hardsigmF a - (a + 1) / 2| ≤ 3 * (2:ℚ) ^ (-24:ℤ) := by
  obtain ⟨l, u⟩ := abs_le.1 h
  have b1 : |a * 3| ≤ 3 := by rw [abs_le]; constructor <;> linarith
  have r1 := round1 b1
  have g1 := fl_abs_le f3 b1
  unfold hardsigmF fmul fadd fdiv
  generalize fl (a * 3) = p at *
  obtain ⟨gl, gu⟩ := abs_le.1 g1
  have b2 : |p + 3| ≤ 6 := by rw [abs_le]; constructor <;> linarith
  have r2 := round1 b2
  have g2 : 0 ≤ fl (p + 3) := le_fl f0 (by linarith)
  have g3 : fl (p + 3) ≤ 6 := fl_le f6 (by linarith)
  generalize fl (p + 3) = q at *
  have c : clamp 0 6 q = q := by unfold clamp; rw [max_eq_left g2, min_eq_left g3]
  rw [c]
  have q0 : 0 ≤ q / 6 := by positivity
  have q1 : q / 6 ≤ 1 := by linarith
  refine ⟨⟨le_fl f0 q0, fl_le f1 q1⟩, ?_⟩
  have r3 := round1 (x := q / 6) (A := 1) (by rw [abs_of_nonneg q0]; exact q1)
  have t := tiny
  have hη := (two_zpow_pos (-150)).le
  generalize (2:ℚ) ^ (-24:ℤ) = ε at *
  generalize (2:ℚ) ^ (-150:ℤ) = η at *
  rw [abs_le] at r1 r2 r3 ⊢
  constructor <;> linarith [r1.1, r1.2, r2.1, r2.2, r3.1, r3.2]

private theorem gate_one : hardsigmF 1 = 1 := by
  unfold hardsigmF fmul fadd fdiv
  rw [one_mul, fl_of_isF32 f3, show (3:ℚ) + 3 = 6 by norm_num, fl_of_isF32 f6, show clamp (0:ℚ) 6 6 = 6 by unfold clamp; norm_num,
    show (6:ℚ) / 6 = 1 by norm_num, fl_of_isF32 f1]

private theorem gate_zero : hardsigmF (-1) = 0 := by
  unfold hardsigmF fmul fadd fdiv
  rw [show (-1:ℚ) * 3 = -3 by norm_num, fl_of_isF32 (isF32_neg f3), show (-3:ℚ) + 3 = 0 by norm_num, fl_zero,
    show clamp (0:ℚ) 6 0 = 0 by unfold clamp; norm_num, zero_div, fl_zero]

private theorem mul_unit {g h : ℚ} (hg : 0 ≤ g ∧ g ≤ 1) (hh : |h| ≤ 1) : |g * h| ≤ 1 := by
  rw [abs_mul, abs_of_nonneg hg.1]
  exact mul_le_one₀ hg.2 (abs_nonneg _) hh

/-- The product of a gate and a float lies between zero and the float, also after rounding. -/
private theorem between {g h : ℚ} (hg : 0 ≤ g ∧ g ≤ 1) (hf : IsF32 h) : |h - fl (g * h)| ≤ |h| := by
  rcases le_total 0 h with a | a
  · have k1 : 0 ≤ fl (g * h) := le_fl f0 (mul_nonneg hg.1 a)
    have k2 : fl (g * h) ≤ h := fl_le hf (mul_le_of_le_one_left a hg.2)
    rw [abs_of_nonneg a, abs_of_nonneg (by linarith)]; linarith
  · have k1 : fl (g * h) ≤ 0 := fl_le f0 (mul_nonpos_of_nonneg_of_nonpos hg.1 a)
    have k2 : h ≤ fl (g * h) := le_fl hf (by nlinarith [hg.2])
    rw [abs_of_nonpos a, abs_of_nonpos (by linarith)]; linarith

/-- C91: in binary32 too, every attribute and result of a hard cell is in the legal range, if the state is; whatever the weights, the
data and the order of the sums. -/
theorem C91_legal {I H : ℕ} (p : Params ℚ I H) (x : Fin I → ℚ) (hx : Fin H → ℚ) (h : ∀ o, |hx o| ≤ 1) (t : Trace ℚ H)
    (ht : HardCellF p x hx t) :
    Spec.Legal t ∧ ∀ o, IsF32 (t.fgIn o) ∧ IsF32 (t.fg o) ∧ IsF32 (t.fgHx o) ∧ IsF32 (t.ng o) ∧ IsF32 (t.fgNg o) ∧ IsF32 (t.hy o) := by
  obtain ⟨a1, a2, a3, a4, a5, a6, a7⟩ := ht
  have l1 : ∀ o, |t.fgIn o| ≤ 1 := fun o => by obtain ⟨v, -, e⟩ := a1 o; rw [e]; exact ht1 _
  have l2 : ∀ o, 0 ≤ t.fg o ∧ t.fg o ≤ 1 := fun o => by rw [a2]; exact (gate (l1 o)).1
  have l3 : ∀ o, |t.fgHx o| ≤ 1 := fun o => by rw [a3]; exact fl_abs_le f1 (mul_unit (l2 o) (h o))
  have l4 : ∀ o, |t.ng o| ≤ 1 := fun o => by obtain ⟨v, -, e⟩ := a4 o; rw [e]; exact ht1 _
  have l5 : ∀ o, |t.fgNg o| ≤ 1 := fun o => by rw [a5]; exact fl_abs_le f1 (mul_unit (l2 o) (l4 o))
  have l6 : ∀ o, |t.fgNgInv o| ≤ 1 := fun o => by rw [a6]; exact fl_abs_le f1 (by rw [zero_sub, abs_neg]; exact l5 o)
  refine ⟨fun o => ⟨l1 o, l2 o, l3 o, l4 o, l5 o, l6 o, by rw [a7]; exact ht1 _⟩, fun o => ⟨?_, ?_, ?_, ?_, ?_, ?_⟩⟩
  · obtain ⟨v, hv, e⟩ := a1 o; rw [e]; exact ht_f32 (fdot_isF32 hv)
  · rw [a2]; exact fl_isF32 _
  · rw [a3]; exact fl_isF32 _
  · obtain ⟨v, hv, e⟩ := a4 o; rw [e]; exact ht_f32 (fdot_isF32 hv)
  · rw [a5]; exact fl_isF32 _
  · rw [a7]; exact ht_f32 (fl_isF32 _)

private theorem inv_eq {v : ℚ} : fsub 0 (fl v) = - fl v := by
  unfold fsub; rw [zero_sub, fl_of_isF32 (isF32_neg (fl_isF32 _))]

/-- C91: one call in binary32 differs from the exact cell, started in the same state, by at most the roundings of its sums and a few
units of the last place. -/
theorem C91_error {I H : ℕ} (p : Params ℚ I H) (x : Fin I → ℚ) (hx : Fin H → ℚ) (h : ∀ o, |hx o| ≤ 1) (A W : ℚ)
    (hf : Spec.LinSize p.wf p.bf x A) (hn : Spec.LinSize p.wn p.bn x A) (hW : Spec.RowSum p.wn W) (t : Trace ℚ H)
    (ht : HardCellF p x hx t) (o : Fin H) :
    |t.fg o - (hardCell p x hx).fg o| ≤ Spec.roundErr (H + I + 1) A / 2 + 3 * (2:ℚ) ^ (-24:ℤ) ∧
    |t.hy o - (hardCell p x hx).hy o| ≤ Spec.cellErr (H + I + 1) A W := by
  obtain ⟨L, F⟩ := C91_legal p x hx h t ht
  obtain ⟨a1, a2, a3, a4, a5, a6, a7⟩ := ht
  have hA0 : 0 ≤ A := le_trans (add_nonneg (add_nonneg (sum_nonneg fun _ _ => abs_nonneg _)
    (sum_nonneg fun _ _ => mul_nonneg (abs_nonneg _) (abs_nonneg _))) (abs_nonneg _)) (hf o)
  have hW0 : 0 ≤ W := le_trans (sum_nonneg fun k _ => abs_nonneg _) (hW o)
  have he0 := roundErr_nonneg (H + I + 1) hA0
  unfold Spec.cellErr
  have hu := (two_zpow_pos (-24)).le
  have hη := (two_zpow_pos (-150)).le
  have tn := tiny
  obtain ⟨M, eq⟩ := C54_step hardsigm hardtanh hardsigm_range ht1 p x hx h
  change Spec.Legal (hardCell p x hx) at M
  change ∀ o, (hardCell p x hx).hy o = (1 - (hardCell p x hx).fg o) * (hardCell p x hx).ng o + (hardCell p x hx).fg o * hx o at eq
  set s := hardCell p x hx with hs
  have d1 : ∀ o, |t.fg o - s.fg o| ≤ Spec.roundErr (H + I + 1) A / 2 + 3 * (2:ℚ) ^ (-24:ℤ) := by
    intro o
    obtain ⟨v, hv, e⟩ := a1 o
    have k1 : |t.fgIn o - s.fgIn o| ≤ Spec.roundErr (H + I + 1) A := by
      rw [e]
      exact (hardtanh_near _ _).trans (linF_near hf h hv)
    have k2 := (gate (L o).1).2
    rw [← a2] at k2
    have k3 : s.fg o = (s.fgIn o + 1) / 2 := hardsigm_eq _ (M o).1
    rw [k3]
    generalize (2:ℚ) ^ (-24:ℤ) = ε at *
    rw [abs_le] at k1 k2 ⊢
    constructor <;> linarith [k1.1, k1.2, k2.1, k2.2]
  refine ⟨d1 o, ?_⟩
  have d2 : ∀ o, |t.fgHx o - s.fgHx o| ≤ Spec.roundErr (H + I + 1) A / 2 + 5 * (2:ℚ) ^ (-24:ℤ) := by
    intro o
    have k1 := round1 (mul_unit (L o).2.1 (h o))
    have k2 : |(t.fg o - s.fg o) * hx o| ≤ Spec.roundErr (H + I + 1) A / 2 + 3 * (2:ℚ) ^ (-24:ℤ) := by
      rw [abs_mul]
      exact (mul_le_of_le_one_right (abs_nonneg _) (h o)).trans (d1 o)
    have e : s.fgHx o = s.fg o * hx o := rfl
    rw [a3, e]; unfold fmul
    generalize (2:ℚ) ^ (-24:ℤ) = ε at *
    generalize (2:ℚ) ^ (-150:ℤ) = η at *
    generalize fl (t.fg o * hx o) = q at *
    rw [abs_le] at k1 k2 ⊢
    constructor <;> linarith [k1.1, k1.2, k2.1, k2.2]
  have d3 : |t.ng o - s.ng o| ≤ Spec.roundErr (H + I + 1) A + W * (Spec.roundErr (H + I + 1) A / 2 + 5 * (2:ℚ) ^ (-24:ℤ)) := by
    obtain ⟨v, hv, e⟩ := a4 o
    rw [e]
    refine (hardtanh_near _ _).trans ?_
    have k1 := linF_near hn (fun o => (L o).2.2.1) hv
    have k2 := lin_state p.wn p.bn x s.fgHx t.fgHx W _ hW d2 (by linarith) o
    have k3 := abs_add_le (v - lin p.wn p.bn (Fin.append t.fgHx x) o) (lin p.wn p.bn (Fin.append t.fgHx x) o - lin p.wn p.bn (Fin.append s.fgHx x) o)
    rw [sub_add_sub_cancel] at k3
    exact k3.trans (add_le_add k1 k2)
  -- the last lines
  have lg := (L o).2.1
  have ln := (L o).2.2.2.1
  have lh := h o
  have r1 := round1 (mul_unit lg ln)
  have b1 := (between lg (F o).2.2.2.1).trans ln
  have r2 := round1 b1
  have b2 := fl_abs_le f1 b1
  have r3 := round1 (mul_unit lg lh)
  have b3 := fl_abs_le f1 (mul_unit lg lh)
  have b4 : |fl (t.ng o - fl (t.fg o * t.ng o)) + fl (t.fg o * hx o)| ≤ 2 := (abs_add_le _ _).trans (by linarith)
  have r4 := round1 b4
  have e7 : t.hy o = hardtanh (fl (fl (t.ng o - fl (t.fg o * t.ng o)) + fl (t.fg o * hx o))) := by
    rw [a7, a6, a5, a3]; unfold fmul; rw [inv_eq]; unfold fadd; rw [← sub_eq_add_neg]
  have e8 : s.hy o = hardtanh (s.hy o) := (ht_id (M o).2.2.2.2.2.2).symm
  rw [e7, e8]
  refine (hardtanh_near _ _).trans ?_
  rw [eq o]
  have m1 : |(1 - t.fg o) * (t.ng o - s.ng o)| ≤ Spec.roundErr (H + I + 1) A + W * (Spec.roundErr (H + I + 1) A / 2 + 5 * (2:ℚ) ^ (-24:ℤ)) := by
    rw [abs_mul, abs_of_nonneg (by linarith [lg.2] : 0 ≤ 1 - t.fg o)]
    exact (mul_le_of_le_one_left (abs_nonneg _) (by linarith [lg.1])).trans d3
  have m2 : |(t.fg o - s.fg o) * (hx o - s.ng o)| ≤ (Spec.roundErr (H + I + 1) A / 2 + 3 * (2:ℚ) ^ (-24:ℤ)) * 2 := by
    rw [abs_mul]
    refine mul_le_mul (d1 o) ?_ (abs_nonneg _) (by linarith)
    have k1 := abs_le.1 lh
    have k2 := abs_le.1 (M o).2.2.2.1
    rw [abs_le]; constructor <;> linarith [k1.1, k1.2, k2.1, k2.2]
  generalize fl (fl (t.ng o - fl (t.fg o * t.ng o)) + fl (t.fg o * hx o)) = q4 at *
  generalize fl (t.ng o - fl (t.fg o * t.ng o)) = q2 at *
  generalize fl (t.fg o * t.ng o) = q1 at *
  generalize fl (t.fg o * hx o) = q3 at *
  generalize (2:ℚ) ^ (-24:ℤ) = ε at *
  generalize (2:ℚ) ^ (-150:ℤ) = η at *
  generalize Spec.roundErr (H + I + 1) A = e at *
  have ee : q4 - ((1 - s.fg o) * s.ng o + s.fg o * hx o) = (q4 - (q2 + q3)) + (q2 - (t.ng o - q1)) + (q3 - t.fg o * hx o)
      - (q1 - t.fg o * t.ng o) + (1 - t.fg o) * (t.ng o - s.ng o) + (t.fg o - s.fg o) * (hx o - s.ng o) := by ring
  rw [ee]
  generalize (1 - t.fg o) * (t.ng o - s.ng o) = z1 at *
  generalize (t.fg o - s.fg o) * (hx o - s.ng o) = z2 at *
  generalize q4 - (q2 + q3) = z3 at *
  generalize q2 - (t.ng o - q1) = z4 at *
  generalize q3 - t.fg o * hx o = z5 at *
  generalize q1 - t.fg o * t.ng o = z6 at *
  rw [abs_le] at r1 r2 r3 r4 m1 m2 ⊢
  constructor <;> linarith [r1.1, r1.2, r2.1, r2.2, r3.1, r3.2, r4.1, r4.2, m1.1, m1.2, m2.1, m2.2]

/-- C91: a forget gate that is open by more than the rounding error holds the state bit for bit; a closed one replaces it by the
candidate bit for bit. -/
theorem C91_gate {I H : ℕ} (p : Params ℚ I H) (x : Fin I → ℚ) (hx : Fin H → ℚ) (h : ∀ o, |hx o| ≤ 1) (hF : ∀ o, IsF32 (hx o)) (A : ℚ)
    (hf : Spec.LinSize p.wf p.bf x A) (t : Trace ℚ H) (ht : HardCellF p x hx t) (o : Fin H) (s : ℚ)
    (hs : s = ∑ i, Fin.append hx x i * p.wf o i + (p.bf.map fun b => b o).getD 0) :
    (1 + Spec.roundErr (H + I + 1) A ≤ s → t.hy o = hx o) ∧ (s ≤ -1 - Spec.roundErr (H + I + 1) A → t.hy o = t.ng o) := by
  obtain ⟨L, F⟩ := C91_legal p x hx h t ht
  obtain ⟨a1, a2, a3, a4, a5, a6, a7⟩ := ht
  obtain ⟨v, hv, e⟩ := a1 o
  have k := linF_near hf h hv
  have e0 : lin p.wf p.bf (Fin.append hx x) o = s := by rw [hs]; rfl
  rw [e0, abs_le] at k
  have ln := (F o).2.2.2.1
  constructor <;> intro hs'
  · have g : t.fgIn o = 1 := by
      rw [e]; unfold hardtanh clamp
      rw [max_eq_left (by linarith [k.1]), min_eq_right (by linarith [k.1])]
    have g1 : t.fg o = 1 := by rw [a2, g, gate_one]
    rw [a7, a6, a5, a3, g1]
    unfold fadd fsub fmul
    rw [one_mul, one_mul, fl_of_isF32 ln, fl_of_isF32 (hF o), zero_sub, fl_of_isF32 (isF32_neg ln), add_neg_cancel, fl_zero, zero_add,
      fl_of_isF32 (hF o), ht_id (h o)]
  · have g : t.fgIn o = -1 := by
      rw [e]; unfold hardtanh clamp
      rw [max_eq_right (by linarith [k.2]), min_eq_left (by norm_num)]
    have g1 : t.fg o = 0 := by rw [a2, g, gate_zero]
    rw [a7, a6, a5, a3, g1]
    unfold fadd fsub fmul
    rw [zero_mul, zero_mul, fl_zero, sub_zero, fl_zero, add_zero, add_zero, fl_of_isF32 ln, fl_of_isF32 ln, ht_id (L o).2.2.2.1]

/-! ## Batches and sequences -/

/-- Any call of a cell whose rows can be evaluated gives a result, and raises exactly when state and data have different numbers of
rows. -/
private theorem forwardF_total {I H : ℕ} {cell : (Fin I → ℚ) → (Fin H → ℚ) → Trace ℚ H → Prop} (hc : ∀ x h, ∃ t, cell x h t)
    (x : List (Fin I → ℚ)) (hx : Option (List (Fin H → ℚ))) :
    (∃ r, ForwardF cell x hx r) ∧ ∀ r, ForwardF cell x hx r →
      ((∃ l, hx = some l ∧ l.length ≠ x.length) ∧ r = .error .runtime ∨
        (∀ l, hx = some l → l.length = x.length) ∧ ∃ out, r = .ok out ∧ out.length = x.length) := by
  unfold ForwardF
  by_cases h : x.length ≠ (hx.getD (x.map fun _ _ => 0)).length
  · simp only [if_pos h]
    refine ⟨⟨_, rfl⟩, fun r hr => Or.inl ⟨?_, hr⟩⟩
    cases hx with
    | none => simp at h
    | some l => exact ⟨l, rfl, fun e => h e.symm⟩
  · simp only [if_neg h]
    obtain ⟨out, ho⟩ := forall2_exists (R := fun (a : (Fin I → ℚ) × (Fin H → ℚ)) t => cell a.1 a.2 t)
      (x.zip (hx.getD (x.map fun _ _ => 0))) (fun a _ => hc a.1 a.2)
    refine ⟨⟨.ok out, out, rfl, ho⟩, fun r hr => Or.inr ⟨fun l hl => ?_, ?_⟩⟩
    · subst hl; simp only [Option.getD_some, ne_eq, not_not] at h; exact h.symm
    · obtain ⟨out, rfl, ho⟩ := hr
      refine ⟨out, rfl, ?_⟩
      rw [← ho.length_eq, List.length_zip, ← not_not.1 h, min_self]

private theorem hardCellF_exists {I H : ℕ} (p : Params ℚ I H) (x : Fin I → ℚ) (h : Fin H → ℚ) : ∃ t, HardCellF p x h t := by
  choose v hv using fun o : Fin H => fdot_exists ((p.bf.elim [] fun c => [(c o, 1)]) ++ List.ofFn fun i => (Fin.append h x i, p.wf o i))
  let fg : Fin H → ℚ := fun o => hardsigmF (hardtanh (v o))
  let fgHx : Fin H → ℚ := fun o => fmul (fg o) (h o)
  choose w hw using fun o : Fin H => fdot_exists ((p.bn.elim [] fun c => [(c o, 1)]) ++ List.ofFn fun i => (Fin.append fgHx x i, p.wn o i))
  let ng : Fin H → ℚ := fun o => hardtanh (w o)
  let fgNg : Fin H → ℚ := fun o => fmul (fg o) (ng o)
  let inv : Fin H → ℚ := fun o => fsub 0 (fgNg o)
  exact ⟨⟨fun o => hardtanh (v o), fg, fgHx, ng, fgNg, inv, fun o => hardtanh (fadd (fadd (ng o) (inv o)) (fgHx o))⟩, fun o => ⟨v o, hv o, rfl⟩, fun _ => rfl, fun _ => rfl, fun o => ⟨w o, hw o, rfl⟩, fun _ => rfl,
    fun _ => rfl, fun _ => rfl⟩

private theorem fxpCellF_exists {I H : ℕ} (i f : ℤ) (p : Params ℚ I H) (x : Fin I → ℚ) (h : Fin H → ℚ) : ∃ t, FxpCellF i f p x h t := by
  have ex : ∀ (w : Fin H → Fin (H + I) → ℚ) (b : Option (Fin H → ℚ)) (c : Fin (H + I) → ℚ), ∃ v : Fin H → ℚ, ∀ o, LinF w b c o (v o) := by
    intro w b c
    choose v hv using fun o : Fin H => fdot_exists ((b.elim [] fun c => [(c o, 1)]) ++ List.ofFn fun i => (c i, w o i))
    exact ⟨v, hv⟩
  obtain ⟨v, hv⟩ := ex (fun o k => roundF i f (p.wf o k)) (p.bf.map fun v o => roundF i f (v o))
    (fun k => roundF i f (Fin.append (fun o => roundF i f (h o)) (fun k => roundF i f (x k)) k))
  let fg : Fin H → ℚ := fun o => hardsigmF (roundF i f (hardtanh (v o)))
  let fgHx : Fin H → ℚ := fun o => fmul (roundF i f (fg o)) (roundF i f (h o))
  obtain ⟨w, hw⟩ := ex (fun o k => roundF i f (p.wn o k)) (p.bn.map fun v o => roundF i f (v o))
    (fun k => roundF i f (Fin.append (fun o => roundF i f (fgHx o)) (fun k => roundF i f (x k)) k))
  let ng : Fin H → ℚ := fun o => hardtanh (roundF i f (w o))
  let fgNg : Fin H → ℚ := fun o => fmul (roundF i f (fg o)) (roundF i f (ng o))
  let inv : Fin H → ℚ := fun o => fsub 0 (roundF i f (fgNg o))
  exact ⟨⟨fun o => hardtanh (v o), fg, fgHx, ng, fgNg, inv,
    fun o => hardtanh (fadd (fadd (roundF i f (ng o)) (roundF i f (inv o))) (roundF i f (fgHx o)))⟩, fun o => ⟨v o, hv o, rfl⟩, fun _ => rfl, fun _ => rfl, fun o => ⟨w o, hw o, rfl⟩, fun _ => rfl,
    fun _ => rfl, fun _ => rfl⟩

/-- C91: a call has a result whatever the numbers, one row per row of the data; it raises exactly if a state with another number of rows
is given. -/
theorem C91_calls {I H : ℕ} (p : Params ℚ I H) (i f : ℤ) (x : List (Fin I → ℚ)) (hx : Option (List (Fin H → ℚ))) :
    ∀ cell ∈ [HardCellF p, FxpCellF i f p], (∃ r, ForwardF cell x hx r) ∧ ∀ r, ForwardF cell x hx r →
      ((∃ l, hx = some l ∧ l.length ≠ x.length) ∧ r = .error .runtime ∨
        (∀ l, hx = some l → l.length = x.length) ∧ ∃ out, r = .ok out ∧ out.length = x.length) := by
  intro cell hc
  simp only [List.mem_cons, List.not_mem_nil, or_false] at hc
  rcases hc with rfl | rfl
  · exact forwardF_total (hardCellF_exists p) x hx
  · exact forwardF_total (fxpCellF_exists i f p) x hx

namespace Spec

/-- `s` are the states and `tr` the results of calling a cell with the batches `x 0`, `x 1`, …, each time with the state it returned
last, starting with the state `s 0` (or none). -/
def RunsF {I H : ℕ} (cell : (Fin I → ℚ) → (Fin H → ℚ) → Trace ℚ H → Prop) (x : ℕ → List (Fin I → ℚ)) (s : ℕ → Option (List (Fin H → ℚ)))
    (tr : ℕ → List (Trace ℚ H)) : Prop :=
  ∀ t, ForwardF cell (x t) (s t) (.ok (tr t)) ∧ s (t + 1) = some ((tr t).map fun r => r.hy)

/-- Row `b` of a state; no state stands for zeros. -/
def row {H : ℕ} (s : Option (List (Fin H → ℚ))) (b : ℕ) : Fin H → ℚ := s.elim (fun _ => 0) fun l => l.getD b fun _ => 0

end Spec

/-- C91: every sequence of batches with the same number of rows can be run, from any state with that number of rows or none. -/
theorem C91_runs {I H : ℕ} (p : Params ℚ I H) (i f : ℤ) (B : ℕ) (x : ℕ → List (Fin I → ℚ)) (hB : ∀ t, (x t).length = B)
    (s0 : Option (List (Fin H → ℚ))) (h0 : ∀ l, s0 = some l → l.length = B) :
    ∀ cell ∈ [HardCellF p, FxpCellF i f p], ∃ s tr, s 0 = s0 ∧ Spec.RunsF cell x s tr := by
  intro cell hc
  have step : ∀ (t : ℕ) (s : {s : Option (List (Fin H → ℚ)) // ∀ l, s = some l → l.length = B}),
      ∃ tr : List (Trace ℚ H), ForwardF cell (x t) s.1 (.ok tr) ∧ tr.length = B := by
    intro t s
    obtain ⟨⟨r, hr⟩, k⟩ := C91_calls p i f (x t) s.1 cell hc
    rcases k r hr with ⟨⟨l, hl, hn⟩, -⟩ | ⟨-, out, rfl, ho⟩
    · exact absurd (s.2 l hl) (by rw [← hB t]; exact hn)
    · exact ⟨out, hr, by rw [ho, hB]⟩
  choose tr h1 h2 using step
  let s : ℕ → {s : Option (List (Fin H → ℚ)) // ∀ l, s = some l → l.length = B} := fun t =>
    Nat.rec ⟨s0, h0⟩ (fun t s => ⟨some ((tr t s).map fun r => r.hy), fun l hl => by rw [← Option.some.inj hl, List.length_map, h2]⟩) t
  exact ⟨fun t => (s t).1, fun t => tr t (s t), rfl, fun t => ⟨h1 t (s t), rfl⟩⟩

private theorem forwardF_rows {I H : ℕ} {cell : (Fin I → ℚ) → (Fin H → ℚ) → Trace ℚ H → Prop} {x : List (Fin I → ℚ)}
    {s : Option (List (Fin H → ℚ))} {tr : List (Trace ℚ H)} (h : ForwardF cell x s (.ok tr)) :
    tr.length = x.length ∧ (∀ l, s = some l → l.length = x.length) ∧
    ∀ b (hx : b < x.length) (ht : b < tr.length), cell x[b] (Spec.row s b) tr[b] := by
  unfold ForwardF at h
  by_cases hl : x.length ≠ (s.getD (x.map fun _ _ => 0)).length
  · simp only [if_pos hl] at h; cases h
  simp only [if_neg hl] at h
  obtain ⟨out, ho, h⟩ := h
  obtain rfl : tr = out := Except.ok.inj ho
  rw [not_not] at hl
  have e : tr.length = x.length := by rw [← h.length_eq, List.length_zip, ← hl, min_self]
  refine ⟨e, fun l hs => by subst hs; exact hl.symm, fun b hx ht => ?_⟩
  have := (List.forall₂_iff_get.1 h).2 b (by rw [List.length_zip, ← hl, min_self]; exact hx) ht
  simp only [List.get_eq_getElem, List.getElem_zip] at this
  have er : Spec.row s b = (s.getD (x.map fun _ _ => 0))[b]'(hl ▸ hx) := by
    cases s with
    | none => simp [Spec.row]
    | some l => simp only [Spec.row, Option.elim_some, Option.getD_some]; rw [List.getD_eq_getElem]
  rw [er]; exact this

private theorem forward_rows {I H : ℕ} (cell : (Fin I → ℚ) → (Fin H → ℚ) → Trace ℚ H) (x : List (Fin I → ℚ))
    (s : Option (List (Fin H → ℚ))) (hs : ∀ l, s = some l → l.length = x.length) :
    ∃ tr, forward cell x s = .ok tr ∧ tr.length = x.length ∧
      ∀ b (hx : b < x.length) (ht : b < tr.length), tr[b] = cell x[b] (Spec.row s b) := by
  have hl : x.length = (s.getD (x.map fun _ _ => 0)).length := by
    cases s with
    | none => simp
    | some l => exact (hs l rfl).symm
  refine ⟨_, by unfold forward; simp only [ne_eq, hl, not_true_eq_false, if_false]; rfl, ?_, ?_⟩
  · rw [List.length_zipWith, ← hl, min_self]
  · intro b hx ht
    rw [List.getElem_zipWith]
    congr 1
    cases s with
    | none => simp [Spec.row]
    | some l => simp only [Spec.row, Option.elim_some, Option.getD_some]; rw [List.getD_eq_getElem]

private theorem row_map {H : ℕ} (tr : List (Trace ℚ H)) (b : ℕ) (h : b < tr.length) : Spec.row (some (tr.map fun r => r.hy)) b = tr[b].hy := by
  simp only [Spec.row, Option.elim_some]
  rw [List.getD_eq_getElem _ _ (by simpa using h), List.getElem_map]

/-- Two cells whose states are related row by row stay so. -/
private theorem simulate {I H : ℕ} (cellF : (Fin I → ℚ) → (Fin H → ℚ) → Trace ℚ H → Prop) (cell : (Fin I → ℚ) → (Fin H → ℚ) → Trace ℚ H)
    (R : ℕ → (Fin H → ℚ) → (Fin H → ℚ) → Prop) (B : ℕ) (x : ℕ → List (Fin I → ℚ)) (hB : ∀ t, (x t).length = B)
    (s : ℕ → Option (List (Fin H → ℚ))) (tr : ℕ → List (Trace ℚ H)) (hrun : Spec.RunsF cellF x s tr)
    (h0 : ∀ b, b < B → R 0 (Spec.row (s 0) b) (Spec.row (s 0) b))
    (hstep : ∀ t y a a' r, y ∈ x t → R t a a' → cellF y a r → R (t + 1) r.hy (cell y a').hy) (t : ℕ) :
    ∃ z, Spec.hidden cell x (s 0) t = .ok z ∧ (∀ l, z = some l → l.length = B) ∧ (t = 0 → z = s 0) ∧ (0 < t → ∃ l, z = some l) ∧
      ∀ b, b < B → R t (Spec.row (s t) b) (Spec.row z b) := by
  induction t with
  | zero => exact ⟨s 0, rfl, fun l hl => by rw [(forwardF_rows (hrun 0).1).2.1 l hl, hB], fun _ => rfl, fun h => absurd h (lt_irrefl _), h0⟩
  | succ t ih =>
      obtain ⟨z, h1, h2, -, -, h3⟩ := ih
      obtain ⟨tz, k1, k2, k3⟩ := forward_rows cell (x t) z (fun l hl => by rw [h2 l hl, hB])
      refine ⟨some (tz.map fun r => r.hy), ?_, ?_, fun h => by omega, fun _ => ⟨_, rfl⟩, ?_⟩
      · unfold Spec.hidden
        rw [h1]
        show (forward cell (x t) z >>= fun r => pure (some (r.map fun r => r.hy))) = _
        rw [k1]; rfl
      · intro l hl
        obtain rfl := Option.some.inj hl
        rw [List.length_map, k2, hB]
      · intro b hb
        obtain ⟨f1, -, f3⟩ := forwardF_rows (hrun t).1
        have hbx : b < (x t).length := by rw [hB]; exact hb
        rw [(hrun t).2, row_map _ b (by rw [f1]; exact hbx), row_map _ b (by rw [k2]; exact hbx), k3 b hbx]
        exact hstep t _ _ _ _ (List.getElem_mem _) (h3 b hb) (f3 b hbx _)

/-- C91: recurrent networks in binary32.  Whatever sequence of batches a hard cell is fed, its states stay in the legal range, and after
`t` steps they are within `E (1 + L + … + L^(t-1))` of those of exact arithmetic, `E` being the error of one call and `L` the Lipschitz
constant of the cell. -/
theorem C91_sequence {I H : ℕ} (p : Params ℚ I H) (B : ℕ) (x : ℕ → List (Fin I → ℚ)) (hB : ∀ t, (x t).length = B) (A Wf Wn : ℚ)
    (hA : ∀ t, ∀ y ∈ x t, Spec.LinSize p.wf p.bf y A ∧ Spec.LinSize p.wn p.bn y A) (hWf : Spec.RowSum p.wf Wf) (hWn : Spec.RowSum p.wn Wn)
    (s : ℕ → Option (List (Fin H → ℚ))) (tr : ℕ → List (Trace ℚ H)) (hrun : Spec.RunsF (HardCellF p) x s tr)
    (h0 : ∀ l, s 0 = some l → ∀ r ∈ l, ∀ o, |r o| ≤ 1) (E L : ℚ) (hE : E = Spec.cellErr (H + I + 1) A Wn)
    (hL : L = Wf + max 1 (Wn * (1 + Wf / 2))) (t : ℕ) :
    (tr t).length = B ∧ (∀ r ∈ tr t, Spec.Legal r) ∧
    ∃ z, Spec.hidden (hardCell p) x (s 0) t = .ok z ∧
      ∀ b, b < B → ∀ o, |Spec.row (s t) b o - Spec.row z b o| ≤ E * ∑ k ∈ range t, L ^ k := by
  have h00 : ∀ b o, |Spec.row (s 0) b o| ≤ 1 := by
    intro b o
    cases hs : s 0 with
    | none => simp [Spec.row]
    | some l =>
        simp only [Spec.row, Option.elim_some]
        rcases lt_or_ge b l.length with hb | hb
        · rw [List.getD_eq_getElem _ _ hb]; exact h0 l hs _ (List.getElem_mem _) o
        · rw [List.getD_eq_default _ _ hb]; simp
  have sim := simulate (HardCellF p) (hardCell p)
    (fun t a b => (∀ o, |a o| ≤ 1) ∧ (∀ o, |b o| ≤ 1) ∧ ∀ o, |a o - b o| ≤ E * ∑ k ∈ range t, L ^ k) B x hB s tr hrun
    (fun b _ => ⟨h00 b, h00 b, fun o => by simp⟩) (by
      intro t y a a' r hy ⟨r1, r2, r3⟩ hr
      have leg := (C91_legal p y a r1 r hr).1
      refine ⟨fun o => (leg o).2.2.2.2.2.2, fun o => C54_recovers _ _ p y a' o, fun o => ?_⟩
      have k1 := (C91_error p y a r1 A Wn (hA t y hy).1 (hA t y hy).2 hWn r hr o).2
      have k2 := C74_lipschitz p y a' a Wf Wn _ hWf hWn r2 r1 r3 o
      rw [← hE] at k1; rw [← hL] at k2
      have e : r.hy o - (hardCell p y a').hy o = (r.hy o - (hardCell p y a).hy o) + ((hardCell p y a).hy o - (hardCell p y a').hy o) := by ring
      rw [e]
      refine le_trans (abs_add_le _ _) ?_
      rw [sum_range_succ', pow_zero]
      have e3 : L * (E * ∑ k ∈ range t, L ^ k) = E * ∑ k ∈ range t, L ^ (k + 1) := by
        rw [mul_sum, mul_sum, mul_sum]
        exact sum_congr rfl fun k _ => by ring
      linarith)
  obtain ⟨f1, -, f3⟩ := forwardF_rows (hrun t).1
  obtain ⟨z, z1, -, -, -, z2⟩ := sim t
  refine ⟨by rw [f1, hB], fun r hr => ?_, z, z1, fun b hb => (z2 b hb).2.2⟩
  obtain ⟨b, hb, rfl⟩ := List.mem_iff_getElem.1 hr
  have hbx : b < (x t).length := by rw [← f1]; exact hb
  exact (C91_legal p _ _ (z2 b (by rw [← hB t]; exact hbx)).1 _ (f3 b hbx hb)).1

/-! ## The fixed-point cell -/

private theorem ex_int (x : ℚ) (M : ℤ) (hM : 0 ≤ M) : ∃ k : ℤ, clamp (-(M:ℚ)) M (roundHE x : ℚ) = k ∧ |k| ≤ M := by
  refine ⟨clamp (-M) M (roundHE x), ?_, ?_⟩
  · unfold clamp; push_cast; rfl
  · unfold clamp
    rw [abs_le]
    exact ⟨le_min (le_max_right _ _) (by omega), min_le_right _ _⟩

/-- `Round` on floats is exact, and gives multiples of its unit. -/
private theorem roundF_eq {i f : ℕ} (hif : i + f ≤ 12) {x : ℚ} (hx : IsF32 x) :
    roundF i f x = Utils.round i f x ∧ ∃ k : ℤ, Utils.round i f x = k * (2:ℚ) ^ (-(f:ℤ)) ∧ |k| ≤ 2 ^ (i + f) - 1 := by
  have hM : (1:ℤ) ≤ 2 ^ (i + f) := one_le_pow₀ (by norm_num)
  have hM' : (2:ℤ) ^ (i + f) ≤ 2 ^ 12 := pow_le_pow_right₀ (by norm_num) hif
  have eM : (2:ℚ) ^ ((i:ℤ) + f) - 1 = ((2 ^ (i + f) - 1 : ℤ) : ℚ) := by push_cast; rw [← zpow_natCast]; push_cast; rfl
  have eM' : 1 - (2:ℚ) ^ ((i:ℤ) + f) = -((2 ^ (i + f) - 1 : ℤ) : ℚ) := by rw [← eM]; ring
  obtain ⟨m, e, hm, he, rfl⟩ := hx
  have hb : |(m:ℚ) * (2:ℚ) ^ e| ≤ 2 ^ 24 * (2:ℚ) ^ e := by
    rw [abs_mul, abs_of_pos (two_zpow_pos e)]
    exact mul_le_mul_of_nonneg_right (by exact_mod_cast hm) (two_zpow_pos e).le
  have h1 := (lshiftF_grid (g := e) (b := f) ⟨m, rfl⟩ hb (by omega) (by omega)).1
  obtain ⟨k, hk, hk'⟩ := ex_int (m * (2:ℚ) ^ e * (2:ℚ) ^ (f:ℤ)) (2 ^ (i + f) - 1) (by omega)
  have h2 : Utils.round i f (m * (2:ℚ) ^ e) = k * (2:ℚ) ^ (-(f:ℤ)) := by
    unfold Utils.round Utils.roundSTE
    rw [eM, eM', hk, zpow_neg, div_eq_mul_inv]
  refine ⟨?_, k, h2, hk'⟩
  rw [h2]
  unfold roundF
  have hs : |(2 ^ (i + f) - 1 : ℤ)| ≤ 2 ^ 24 := by rw [abs_of_nonneg (by omega)]; omega
  rw [h1, eM, eM', fl_neg, fl_int hs, hk, (shiftF_int (by omega) (by omega) (by omega)).1, zpow_neg, div_eq_mul_inv]

private theorem unit_mul (f : ℕ) (k m : ℤ) :
    (k:ℚ) * (2:ℚ) ^ (-(f:ℤ)) * (m * (2:ℚ) ^ (-(f:ℤ))) = ((k * m : ℤ) : ℚ) * (2:ℚ) ^ (-(2 * f : ℤ)) := by
  rw [show (-(2 * f : ℤ)) = -(f:ℤ) + -(f:ℤ) by ring, zpow_add₀ (by norm_num)]; push_cast; ring

/-- `Utils.round i f x` in units. -/
private def Units (i f : ℕ) (a : ℚ) : Prop := ∃ k : ℤ, a = k * (2:ℚ) ^ (-(f:ℤ)) ∧ |k| ≤ 2 ^ (i + f) - 1

private theorem fl_units {f : ℕ} (hf : f ≤ 12) {a : ℚ} {k : ℤ} (e : a = k * (2:ℚ) ^ (-(f:ℤ))) (h : |k| ≤ 2 ^ 24) : fl a = a :=
  fl_grid h (by omega) e

private theorem fmul_units {i f : ℕ} (hif : i + f ≤ 12) {a b : ℚ} (ha : Units i f a) (hb : Units i f b) : fmul a b = a * b := by
  obtain ⟨k, rfl, hk⟩ := ha
  obtain ⟨m, rfl, hm⟩ := hb
  unfold fmul
  rw [unit_mul]
  refine fl_grid ?_ (by omega) rfl
  have hM : (2:ℤ) ^ (i + f) ≤ 2 ^ 12 := pow_le_pow_right₀ (by norm_num) hif
  have h0 : (2:ℤ) ^ 24 = 2 ^ 12 * 2 ^ 12 := by norm_num
  rw [abs_mul, h0]
  exact mul_le_mul (by omega) (by omega) (abs_nonneg _) (by norm_num)

private theorem linF_units {J H i f : ℕ} (hif : i + f ≤ 12) (hsz : J * (2 ^ (i + f) - 1) ^ 2 + (2 ^ (i + f) - 1) * 2 ^ f ≤ 2 ^ 24)
    {w : Fin H → Fin J → ℚ} {b : Option (Fin H → ℚ)} {x : Fin J → ℚ} (hw : ∀ o k, Units i f (w o k)) (hb : ∀ c, b = some c → ∀ o, Units i f (c o))
    (hx : ∀ k, Units i f (x k)) {o : Fin H} {v : ℚ} (hv : LinF w b x o v) : v = lin w b x o := by
  have hM1 : 1 ≤ 2 ^ (i + f) := Nat.one_le_two_pow
  obtain ⟨M, hM⟩ : ∃ M : ℕ, M = 2 ^ (i + f) - 1 := ⟨_, rfl⟩
  have hMz : (2:ℤ) ^ (i + f) - 1 = M := by rw [hM]; push_cast [Nat.cast_sub hM1]; ring
  rw [← hM] at hsz
  have hg : (-149:ℤ) ≤ -(2 * f : ℤ) := by omega
  have term : ∀ k, ∃ n : ℤ, x k * w o k = n * (2:ℚ) ^ (-(2 * f : ℤ)) ∧ |n| ≤ M ^ 2 := by
    intro k
    obtain ⟨a, ea, ha⟩ := hx k
    obtain ⟨c, ec, hc⟩ := hw o k
    refine ⟨a * c, by rw [ea, ec, unit_mul], ?_⟩
    rw [abs_mul, pow_two]
    rw [hMz] at ha hc
    exact mul_le_mul ha hc (abs_nonneg _) (by positivity)
  have tb : ∀ k, |x k * w o k| ≤ M ^ 2 * (2:ℚ) ^ (-(2 * f : ℤ)) := by
    intro k
    obtain ⟨n, e, hn⟩ := term k
    rw [e, abs_mul, abs_of_pos (two_zpow_pos _)]
    exact mul_le_mul_of_nonneg_right (by exact_mod_cast hn) (two_zpow_pos _).le
  have sb : ∑ k, |x k * w o k| ≤ J * (M ^ 2 * (2:ℚ) ^ (-(2 * f : ℤ))) := by
    refine (sum_le_sum fun k _ => tb k).trans ?_
    rw [sum_const, card_univ, Fintype.card_fin, nsmul_eq_mul]
  have hq : (J * M ^ 2 + M * 2 ^ f : ℚ) ≤ 2 ^ 24 := by exact_mod_cast hsz
  have hu := two_zpow_pos (-(2 * f : ℤ))
  have tot := mul_le_mul_of_nonneg_right hq hu.le
  have key := fdot_grid hg hv
  rw [List.map_append, List.sum_append, List.map_append, List.sum_append, List.map_ofFn, List.map_ofFn, List.sum_ofFn, List.sum_ofFn] at key
  unfold lin
  cases b with
  | none =>
      simp only [Option.elim_none, List.map_nil, List.sum_nil, zero_add, List.nil_append, Option.map_none, Option.getD_none, add_zero] at key ⊢
      refine key ?_ ?_
      · intro p hp
        obtain ⟨k, rfl⟩ := (List.mem_ofFn' _ _).1 hp
        obtain ⟨n, e, -⟩ := term k
        exact ⟨n, e⟩
      · refine le_trans sb (le_trans ?_ tot)
        have : 0 ≤ (M * 2 ^ f : ℚ) * (2:ℚ) ^ (-(2 * f : ℤ)) := by positivity
        linarith
  | some c =>
      simp only [Option.elim_some, List.map_cons, List.map_nil, List.sum_cons, List.sum_nil, mul_one, add_zero, Option.map_some,
        Option.getD_some] at key ⊢
      obtain ⟨n, e, hn⟩ := hb c rfl o
      have e2 : (2:ℚ) ^ (-(f:ℤ)) = 2 ^ f * (2:ℚ) ^ (-(2 * f : ℤ)) := by
        rw [← zpow_natCast (2:ℚ) f, ← zpow_add₀ (by norm_num)]; congr 1; ring
      rw [add_comm (∑ k, x k * w o k)]
      refine key ?_ ?_
      · intro p hp
        rcases List.mem_append.1 hp with hp | hp
        · obtain rfl := List.mem_singleton.1 hp
          exact ⟨n * 2 ^ f, by simp only [mul_one]; rw [e, e2]; push_cast; ring⟩
        · obtain ⟨k, rfl⟩ := (List.mem_ofFn' _ _).1 hp
          obtain ⟨n, e, -⟩ := term k
          exact ⟨n, e⟩
      · have cb : |c o| ≤ (M * 2 ^ f : ℚ) * (2:ℚ) ^ (-(2 * f : ℤ)) := by
          rw [e, abs_mul, abs_of_pos (two_zpow_pos _), e2, mul_assoc]
          refine mul_le_mul_of_nonneg_right ?_ (by positivity)
          rw [hMz] at hn
          exact_mod_cast hn
        refine le_trans (add_le_add cb sb) (le_trans ?_ tot)
        linarith

private theorem gate_units {i f : ℕ} (hif : i + f ≤ 12) {a : ℚ} (ha : Units i f a) : hardsigmF a = hardsigm a := by
  obtain ⟨k, e, hk⟩ := ha
  have hM : (2:ℤ) ^ (i + f) ≤ 2 ^ 12 := pow_le_pow_right₀ (by norm_num) hif
  have hF : (2:ℤ) ^ f ≤ 2 ^ 12 := pow_le_pow_right₀ (by norm_num) (by omega)
  have hF1 : (1:ℤ) ≤ 2 ^ f := one_le_pow₀ (by norm_num)
  obtain ⟨hl, hu⟩ := abs_le.1 hk
  have ef : (1:ℚ) = ((2 ^ f : ℤ) : ℚ) * (2:ℚ) ^ (-(f:ℤ)) := by
    push_cast; rw [← zpow_natCast, ← zpow_add₀ (by norm_num), add_neg_cancel, zpow_zero]
  have e1 : a * 3 = ((k * 3 : ℤ) : ℚ) * (2:ℚ) ^ (-(f:ℤ)) := by rw [e]; push_cast; ring
  have s1 : fl (a * 3) = a * 3 := fl_units (by omega) e1 (by rw [abs_le]; constructor <;> omega)
  have e2 : a * 3 + 3 = ((k * 3 + 3 * 2 ^ f : ℤ) : ℚ) * (2:ℚ) ^ (-(f:ℤ)) := by
    rw [e1]; push_cast at ef ⊢; linarith
  have s2 : fl (a * 3 + 3) = a * 3 + 3 := fl_units (by omega) e2 (by rw [abs_le]; constructor <;> omega)
  unfold hardsigmF fmul fadd fdiv hardsigm
  rw [s1, s2]
  unfold clamp
  rcases le_total (a * 3 + 3) 0 with h | h
  · rw [max_eq_right h]; norm_num [fl_zero]
  rw [max_eq_left h]
  rcases le_total (a * 3 + 3) 6 with h' | h'
  · rw [min_eq_left h']
    refine fl_grid (m := k + 2 ^ f) (e := -(f:ℤ) - 1) (by rw [abs_le]; constructor <;> omega) (by omega) ?_
    rw [e2, zpow_sub₀ (by norm_num), zpow_one]; push_cast; ring
  · rw [min_eq_right h', show (6:ℚ) / 6 = 1 by norm_num, fl_of_isF32 f1]

private theorem fadd3_units {i f : ℕ} (hif : i + f ≤ 12) {a b c : ℚ} (ha : Units i f a) (hb : Units i f b) (hc : Units i f c) :
    fadd (fadd a b) c = a + b + c := by
  obtain ⟨k, rfl, hk⟩ := ha
  obtain ⟨l, rfl, hl⟩ := hb
  obtain ⟨m, rfl, hm⟩ := hc
  have hM : (2:ℤ) ^ (i + f) ≤ 2 ^ 12 := pow_le_pow_right₀ (by norm_num) hif
  rw [abs_le] at hk hl hm
  unfold fadd
  have s1 := fl_units (f := f) (k := k + l) (a := k * (2:ℚ) ^ (-(f:ℤ)) + l * (2:ℚ) ^ (-(f:ℤ))) (by omega) (by push_cast; ring)
    (by rw [abs_le]; constructor <;> omega)
  rw [s1]
  exact fl_units (f := f) (k := k + l + m) (by omega) (by push_cast; ring) (by rw [abs_le]; constructor <;> omega)

private theorem units_f32 {i f : ℕ} (hif : i + f ≤ 12) {a : ℚ} (ha : Units i f a) : IsF32 a := by
  obtain ⟨k, e, hk⟩ := ha
  have hM : (2:ℤ) ^ (i + f) ≤ 2 ^ 12 := pow_le_pow_right₀ (by norm_num) hif
  exact ⟨k, _, by omega, by omega, e⟩

/-- C91: a fixed-point hard cell whose sums fit 24 bits (1040 inputs and states at the default widths) computes, in binary32, exactly
what it computes in exact arithmetic, whatever the order of the sums. -/
theorem C91_fixed {I H : ℕ} (i f : ℕ) (hsz : (H + I) * (2 ^ (i + f) - 1) ^ 2 + (2 ^ (i + f) - 1) * 2 ^ f ≤ 2 ^ 24) (p : Params ℚ I H)
    (hwf : ∀ o k, IsF32 (p.wf o k)) (hwn : ∀ o k, IsF32 (p.wn o k)) (hbf : ∀ b, p.bf = some b → ∀ o, IsF32 (b o))
    (hbn : ∀ b, p.bn = some b → ∀ o, IsF32 (b o)) (x : Fin I → ℚ) (hx : Fin H → ℚ) (hxF : ∀ k, IsF32 (x k)) (hhF : ∀ o, IsF32 (hx o))
    (t : Trace ℚ H) (ht : FxpCellF i f p x hx t) : t = fxpCell i f p x hx := by
  rcases Nat.eq_zero_or_pos H with h0 | hpos
  · subst h0
    obtain ⟨t1, t2, t3, t4, t5, t6, t7⟩ := t
    have : ∀ a b : Fin 0 → ℚ, a = b := fun a b => funext fun k => k.elim0
    unfold fxpCell fxpRow
    congr 1 <;> exact this _ _
  have hif : i + f ≤ 12 := by
    by_contra hc
    have h13 : 2 ^ 13 ≤ 2 ^ (i + f) := Nat.pow_le_pow_right (by norm_num) (by omega)
    have h2 : (2 ^ 13 - 1) ^ 2 ≤ (2 ^ (i + f) - 1) ^ 2 := Nat.pow_le_pow_left (by omega) 2
    have h3 : 1 * (2 ^ (i + f) - 1) ^ 2 ≤ (H + I) * (2 ^ (i + f) - 1) ^ 2 := Nat.mul_le_mul_right _ (by omega)
    have h4 : (2 ^ 13 - 1) ^ 2 ≤ 2 ^ 24 := by
      refine h2.trans ?_
      generalize (2 ^ (i + f) - 1) ^ 2 = q at *
      generalize (2 ^ (i + f) - 1) * 2 ^ f = q' at *
      omega
    norm_num at h4
  have re : ∀ {a : ℚ}, IsF32 a → roundF i f a = Utils.round i f a := fun h => (roundF_eq hif h).1
  have ru : ∀ {a : ℚ}, IsF32 a → Units i f (Utils.round i f a) := fun h => (roundF_eq hif h).2
  have rf : ∀ {a : ℚ}, IsF32 a → IsF32 (Utils.round i f a) := fun h => units_f32 hif (ru h)
  have cat : ∀ h : Fin H → ℚ, (∀ o, IsF32 (h o)) → ∀ k, IsF32 (Fin.append (fun o => Utils.round i f (h o)) (fun k => Utils.round i f (x k)) k) := by
    intro h hh k
    refine Fin.addCases (fun k => ?_) (fun k => ?_) k
    · rw [Fin.append_left]; exact rf (hh k)
    · rw [Fin.append_right]; exact rf (hxF k)
  have catF : ∀ h : Fin H → ℚ, (∀ o, IsF32 (h o)) →
      (fun k => roundF i f (Fin.append (fun o => roundF i f (h o)) (fun k => roundF i f (x k)) k)) =
      fun k => Utils.round i f (Fin.append (fun o => Utils.round i f (h o)) (fun k => Utils.round i f (x k)) k) := by
    intro h hh
    have e1 : (fun o => roundF i f (h o)) = fun o => Utils.round i f (h o) := funext fun o => re (hh o)
    have e2 : (fun k => roundF i f (x k)) = fun k => Utils.round i f (x k) := funext fun k => re (hxF k)
    rw [e1, e2]
    exact funext fun k => re (cat h hh k)
  have lins : ∀ (w : Fin H → Fin (H + I) → ℚ) (b : Option (Fin H → ℚ)) (h : Fin H → ℚ), (∀ o k, IsF32 (w o k)) →
      (∀ c, b = some c → ∀ o, IsF32 (c o)) → (∀ o, IsF32 (h o)) → ∀ o v,
      LinF (fun o k => roundF i f (w o k)) (b.map fun v o => roundF i f (v o))
        (fun k => roundF i f (Fin.append (fun o => roundF i f (h o)) (fun k => roundF i f (x k)) k)) o v →
      v = lin (fun o k => Utils.round i f (w o k)) (b.map fun v o => Utils.round i f (v o))
        (fun k => Utils.round i f (Fin.append (fun o => Utils.round i f (h o)) (fun k => Utils.round i f (x k)) k)) o := by
    intro w b h hw hb hh o v hv
    have e1 : (fun o k => roundF i f (w o k)) = fun o k => Utils.round i f (w o k) := funext fun o => funext fun k => re (hw o k)
    have e2 : (b.map fun v o => roundF i f (v o)) = b.map fun v o => Utils.round i f (v o) := by
      cases b with
      | none => rfl
      | some c => exact congrArg some (funext fun o => re (hb c rfl o))
    rw [catF h hh, e1, e2] at hv
    refine linF_units hif hsz (fun o k => ru (hw o k)) ?_ (fun k => ru (cat h hh k)) hv
    intro c hc o
    cases b with
    | none => cases hc
    | some c' => obtain rfl := Option.some.inj hc; exact ru (hb c' rfl o)
  obtain ⟨a1, a2, a3, a4, a5, a6, a7⟩ := ht
  set s := fxpCell i f p x hx with hs
  have F1 : ∀ o, IsF32 (t.fgIn o) := fun o => by obtain ⟨v, hv, e⟩ := a1 o; rw [e]; exact ht_f32 (fdot_isF32 hv)
  have F2 : ∀ o, IsF32 (t.fg o) := fun o => by rw [a2]; exact fl_isF32 _
  have F3 : ∀ o, IsF32 (t.fgHx o) := fun o => by rw [a3]; exact fl_isF32 _
  have F4 : ∀ o, IsF32 (t.ng o) := fun o => by
    obtain ⟨v, hv, e⟩ := a4 o; rw [e, re (fdot_isF32 hv)]; exact ht_f32 (rf (fdot_isF32 hv))
  have F5 : ∀ o, IsF32 (t.fgNg o) := fun o => by rw [a5]; exact fl_isF32 _
  have F6 : ∀ o, IsF32 (t.fgNgInv o) := fun o => by rw [a6]; exact fl_isF32 _
  have q1 : t.fgIn = s.fgIn := funext fun o => by
    obtain ⟨v, hv, e⟩ := a1 o
    rw [e, lins p.wf p.bf hx hwf hbf hhF o v hv]; rfl
  have q2 : t.fg = s.fg := funext fun o => by
    rw [a2, re (F1 o), gate_units hif (ru (F1 o)), q1]; rfl
  have q3 : t.fgHx = s.fgHx := funext fun o => by
    rw [a3, re (F2 o), re (hhF o), fmul_units hif (ru (F2 o)) (ru (hhF o)), q2]; rfl
  have q4 : t.ng = s.ng := funext fun o => by
    obtain ⟨v, hv, e⟩ := a4 o
    rw [e, re (fdot_isF32 hv), lins p.wn p.bn t.fgHx hwn hbn F3 o v hv, q3]; rfl
  have q5 : t.fgNg = s.fgNg := funext fun o => by
    rw [a5, re (F2 o), re (F4 o), fmul_units hif (ru (F2 o)) (ru (F4 o)), q2, q4]; rfl
  have q6 : t.fgNgInv = s.fgNgInv := funext fun o => by
    rw [a6, re (F5 o)]; unfold fsub
    rw [zero_sub, fl_of_isF32 (isF32_neg (rf (F5 o))), q5, ← zero_sub]; rfl
  have q7 : t.hy = s.hy := funext fun o => by
    rw [a7, re (F4 o), re (F6 o), re (F3 o), fadd3_units hif (ru (F4 o)) (ru (F6 o)) (ru (F3 o)), q3, q4, q6]; rfl
  obtain ⟨t1, t2, t3, t4, t5, t6, t7⟩ := t
  obtain ⟨s1, s2, s3, s4, s5, s6, s7⟩ := s
  simp only at q1 q2 q3 q4 q5 q6 q7
  rw [q1, q2, q3, q4, q5, q6, q7]

/-- C91: so do whole sequences: the states of the binary32 cell are those of exact arithmetic. -/
theorem C91_fixed_sequence {I H : ℕ} (i f : ℕ) (hsz : (H + I) * (2 ^ (i + f) - 1) ^ 2 + (2 ^ (i + f) - 1) * 2 ^ f ≤ 2 ^ 24)
    (p : Params ℚ I H) (hwf : ∀ o k, IsF32 (p.wf o k)) (hwn : ∀ o k, IsF32 (p.wn o k)) (hbf : ∀ b, p.bf = some b → ∀ o, IsF32 (b o))
    (hbn : ∀ b, p.bn = some b → ∀ o, IsF32 (b o)) (B : ℕ) (x : ℕ → List (Fin I → ℚ)) (hB : ∀ t, (x t).length = B)
    (hxF : ∀ t, ∀ y ∈ x t, ∀ k, IsF32 (y k)) (s : ℕ → Option (List (Fin H → ℚ))) (tr : ℕ → List (Trace ℚ H))
    (hrun : Spec.RunsF (FxpCellF i f p) x s tr) (h0 : ∀ l, s 0 = some l → ∀ r ∈ l, ∀ o, IsF32 (r o)) (t : ℕ) :
    Spec.hidden (fxpCell i f p) x (s 0) t = .ok (s t) := by
  have h00 : ∀ b o, IsF32 (Spec.row (s 0) b o) := by
    intro b o
    cases hs : s 0 with
    | none => exact f0
    | some l =>
        simp only [Spec.row, Option.elim_some]
        rcases lt_or_ge b l.length with hb | hb
        · rw [List.getD_eq_getElem _ _ hb]; exact h0 l hs _ (List.getElem_mem _) o
        · rw [List.getD_eq_default _ _ hb]; exact f0
  obtain ⟨z, z1, z2, z3, z4, z5⟩ := simulate (FxpCellF i f p) (fxpCell i f p) (fun _ a b => (∀ o, IsF32 (a o)) ∧ a = b) B x hB s tr hrun
    (fun b _ => ⟨h00 b, rfl⟩) (by
      rintro t y a a' r hy ⟨r1, rfl⟩ hr
      refine ⟨fun o => ?_, by rw [C91_fixed i f hsz p hwf hwn hbf hbn y a (hxF t y hy) r1 r hr]⟩
      obtain ⟨-, -, -, -, -, -, a7⟩ := hr
      rw [a7]; exact ht_f32 (fl_isF32 _)) t
  rw [z1]
  congr 1
  cases t with
  | zero => exact z3 rfl
  | succ t =>
      obtain ⟨l, rfl⟩ := z4 (by omega)
      obtain ⟨f1, -, -⟩ := forwardF_rows (hrun t).1
      have e := (hrun t).2
      have hl := z2 l rfl
      rw [e] at z5 ⊢
      congr 1
      apply List.ext_getElem (by rw [hl, List.length_map, f1, hB])
      intro b h1 h2
      have := (z5 b (by omega)).2
      simp only [Spec.row, Option.elim_some] at this
      rw [List.getD_eq_getElem _ _ h2, List.getD_eq_getElem _ _ h1] at this
      exact this.symm

/-- A closed gate, and a candidate of two products above the range of the sum. -/
private def wideP : Params ℚ 2 1 :=
  ⟨fun _ => ![0, 0, -1], fun _ => ![0, 6143 / 4096, -8190 / 4096], none, none⟩

private def wideX : Fin 2 → ℚ := ![8191 / 4096, 1]

private def wideT : Trace ℚ 1 :=
  ⟨fun _ => -1, fun _ => 0, fun _ => 0, fun _ => 4094 / 4096, fun _ => 0, fun _ => 0, fun _ => 4094 / 4096⟩

private theorem wide_dot (a b c : ℚ × ℚ) (v : ℚ) (h : fadd (fmul a.1 a.2) (fadd (fmul b.1 b.2) (fmul c.1 c.2)) = v) :
    FDot [a, b, c] v := by
  subst h
  exact .add (.one a) (.add (.one b) (.one c))

/-- Without the condition on the widths the fixed-point cell is not exact: with twelve fractional bits and two inputs a call in
binary32 can miss the exact result by a unit in the last place. -/
theorem C91_fixed_needs : ∃ (p : Params ℚ 2 1) (x : Fin 2 → ℚ) (hx : Fin 1 → ℚ) (t : Trace ℚ 1),
    (∀ o k, IsF32 (p.wf o k) ∧ IsF32 (p.wn o k)) ∧ p.bf = none ∧ p.bn = none ∧ (∀ k, IsF32 (x k)) ∧ (∀ o, IsF32 (hx o)) ∧
      FxpCellF (1:ℕ) (12:ℕ) p x hx t ∧ t.hy 0 + 1 / 2 ^ 12 = (fxpCell (1:ℕ) (12:ℕ) p x hx).hy 0 := by
  have f : ∀ m : ℤ, |m| ≤ 2 ^ 24 → IsF32 (m / 4096) := fun m hm => ⟨m, -12, hm, by norm_num, by norm_num; ring⟩
  have f0 : IsF32 0 := by simpa using f 0 (by norm_num)
  refine ⟨wideP, wideX, fun _ => 0, wideT, fun o k => ?_, rfl, rfl, fun k => ?_, fun _ => f0, ?_, by decide +kernel⟩
  · match k with
    | 0 => exact ⟨f0, f0⟩
    | 1 => exact ⟨f0, by simpa [wideP] using f 6143 (by norm_num)⟩
    | 2 => exact ⟨by simpa [wideP] using f (-4096) (by norm_num), by simpa [wideP] using f (-8190) (by norm_num)⟩
  · match k with
    | 0 => simpa [wideX] using f 8191 (by norm_num)
    | 1 => simpa [wideX] using f 4096 (by norm_num)
  · refine ⟨fun o => ⟨-1, ?_, by obtain rfl := Subsingleton.elim o 0; decide +kernel⟩, ?_, ?_, fun o => ⟨4094 / 4096 + 1 / 8192, ?_, ?_⟩, ?_, ?_, ?_⟩
    · exact wide_dot _ _ _ _ (by obtain rfl := Subsingleton.elim o 0; decide +kernel)
    · decide +kernel
    · decide +kernel
    · exact wide_dot _ _ _ _ (by obtain rfl := Subsingleton.elim o 0; decide +kernel)
    · obtain rfl := Subsingleton.elim o 0; decide +kernel
    · decide +kernel
    · decide +kernel
    · decide +kernel

/-! ## Examples -/

private theorem f32 (n e : ℤ) (h1 : |n| ≤ 2 ^ 24) (h2 : -149 ≤ e) : IsF32 (n * (2:ℚ) ^ e) := ⟨n, e, h1, h2, rfl⟩
private theorem f_half : IsF32 (1/2) := by have := f32 1 (-1) (by norm_num) (by norm_num); norm_num at this ⊢; exact this
private theorem f_quarter : IsF32 (1/4) := by have := f32 1 (-2) (by norm_num) (by norm_num); norm_num at this ⊢; exact this

private def demo : Params ℚ 1 1 := ⟨fun _ _ => 1/2, fun _ _ => 1/4, some fun _ => 1/4, none⟩

private theorem demo_size (y : Fin 1 → ℚ) (hy : |y 0| ≤ 1) : Spec.LinSize demo.wf demo.bf y 2 ∧ Spec.LinSize demo.wn demo.bn y 2 := by
  constructor <;> intro o <;> simp [demo] <;> norm_num [abs_of_pos] <;> linarith

/-- A sequence of batches of two rows, run from no state: legal, and close to exact arithmetic. -/
example (x : ℕ → List (Fin 1 → ℚ)) (hx : ∀ t, (x t).length = 2) (hy : ∀ t, ∀ y ∈ x t, |y 0| ≤ 1) :
    ∃ s tr, s 0 = none ∧ Spec.RunsF (HardCellF demo) x s tr ∧ ∀ t, (tr t).length = 2 ∧ (∀ r ∈ tr t, Spec.Legal r) ∧
      ∃ z, Spec.hidden (hardCell demo) x none t = .ok z ∧
        ∀ b, b < 2 → ∀ o, |Spec.row (s t) b o - Spec.row z b o| ≤ Spec.cellErr 3 2 (1/4) * ∑ k ∈ range t, (3/2) ^ k := by
  obtain ⟨s, tr, h0, hr⟩ := C91_runs demo 3 4 2 x hx none (fun l hl => by cases hl) (HardCellF demo) (by simp)
  refine ⟨s, tr, h0, hr, fun t => ?_⟩
  have := C91_sequence demo 2 x hx 2 (1/2) (1/4) (fun t y h => demo_size y (hy t y h)) (fun o => by simp [demo, abs_of_pos])
    (fun o => by simp [demo, abs_of_pos]) s tr hr (fun l hl => by rw [h0] at hl; cases hl) _ (3/2) rfl (by norm_num) t
  rw [h0] at this
  exact this

/-- The error of a call of this size is below `2^-19`. -/
example : Spec.cellErr 3 2 (1/4) ≤ 1 / 2 ^ 19 := by norm_num [Spec.cellErr, Spec.roundErr]

/-- An open gate: with a bias of two and no weights, the state is held. -/
example (x : Fin 1 → ℚ) (t : Trace ℚ 1) (ht : HardCellF ⟨fun _ _ => 0, fun _ _ => 1/4, some fun _ => 2, none⟩ x (fun _ => 1/4) t) :
    t.hy 0 = 1/4 :=
  (C91_gate _ x _ (fun _ => by norm_num [abs_of_pos]) (fun _ => f_quarter) 2 (fun o => by simp) t ht 0 _ rfl).1 (by
    norm_num [Spec.roundErr])

/-- A closed gate. -/
example (x : Fin 1 → ℚ) (t : Trace ℚ 1) (ht : HardCellF ⟨fun _ _ => 0, fun _ _ => 1/4, some fun _ => -2, none⟩ x (fun _ => 1/4) t) :
    t.hy 0 = t.ng 0 :=
  (C91_gate _ x _ (fun _ => by norm_num [abs_of_pos]) (fun _ => f_quarter) 2 (fun o => by simp) t ht 0 _ rfl).2 (by
    norm_num [Spec.roundErr])

/-- The default widths, 1000 data and 40 states. -/
example (w : Fin 40 → Fin (40 + 1000) → ℚ) (hw : ∀ o k, IsF32 (w o k)) (x : Fin 1000 → ℚ) (hx : ∀ k, IsF32 (x k)) (t : Trace ℚ 40)
    (ht : FxpCellF (3:ℕ) (4:ℕ) ⟨w, w, some fun _ => 1/2, none⟩ x (fun _ => 1/4) t) :
    t = fxpCell 3 4 ⟨w, w, some fun _ => 1/2, none⟩ x fun _ => 1/4 :=
  C91_fixed 3 4 (by norm_num) _ hw hw (fun b hb o => by obtain rfl := Option.some.inj hb; exact f_half) (fun b hb => by cases hb) x _ hx
    (fun _ => f_quarter) t ht

/-- A run of the fixed-point cell. -/
example (x : ℕ → List (Fin 1 → ℚ)) (hx : ∀ t, (x t).length = 2) (hy : ∀ t, ∀ y ∈ x t, ∀ k, IsF32 (y k)) :
    ∃ s tr, s 0 = some [fun _ => 1/4, fun _ => 1/2] ∧ Spec.RunsF (FxpCellF (3:ℕ) (4:ℕ) demo) x s tr ∧
      ∀ t, Spec.hidden (fxpCell 3 4 demo) x (s 0) t = .ok (s t) := by
  obtain ⟨s, tr, h0, hr⟩ := C91_runs demo (3:ℕ) (4:ℕ) 2 x hx (some [fun _ => 1/4, fun _ => 1/2]) (fun l hl => by
    rw [← Option.some.inj hl]; rfl) (FxpCellF (3:ℕ) (4:ℕ) demo) (by simp)
  refine ⟨s, tr, h0, hr, fun t => C91_fixed_sequence 3 4 (by norm_num) demo (fun _ _ => f_half) (fun _ _ => f_quarter)
    (fun b hb o => by obtain rfl := Option.some.inj hb; exact f_quarter) (fun b hb => by cases hb) 2 x hx hy s tr hr ?_ t⟩
  intro l hl r hr o
  rw [h0] at hl
  obtain rfl := Option.some.inj hl
  simp only [List.mem_cons, List.not_mem_nil, or_false] at hr
  rcases hr with rfl | rfl
  · exact f_quarter
  · exact f_half

end Verif.Props
