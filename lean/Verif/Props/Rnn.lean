import Verif.Spec
import Verif.Model.Rnn
import Verif.Props.Linear
import Verif.Props.Hub
import Verif.Props.Utils

/-!
# Properties C54–C56, C59: recurrent cells
-/

namespace Verif.Props

open Verif Finset Gen Linear Rnn

/-! ## C54: HardMGUCell -/

section generic
variable {K : Type} [Field K] [LinearOrder K] [IsStrictOrderedRing K]

/-- All values of a call are legal unary values: gates in `[0, 1]`, everything else in `[-1, 1]`. -/
def Spec.Legal {H : ℕ} (r : Trace K H) : Prop :=
  ∀ o, |r.fgIn o| ≤ 1 ∧ (0 ≤ r.fg o ∧ r.fg o ≤ 1) ∧ |r.fgHx o| ≤ 1 ∧ |r.ng o| ≤ 1 ∧ |r.fgNg o| ≤ 1 ∧ |r.fgNgInv o| ≤ 1 ∧
    |r.hy o| ≤ 1

private theorem abs_clamp (x : K) : |hardtanh x| ≤ 1 := by
  unfold hardtanh
  exact abs_le.2 ⟨le_clamp (by linarith [(zero_lt_one : (0:K) < 1)]), clamp_le _ _ _⟩

private theorem gate_mul {g h : K} (g0 : 0 ≤ g) (g1 : g ≤ 1) (h1 : |h| ≤ 1) : |g * h| ≤ 1 := by
  rw [abs_mul, abs_of_nonneg g0]
  calc g * |h| ≤ 1 * 1 := mul_le_mul g1 h1 (abs_nonneg _) zero_le_one
    _ = 1 := mul_one 1

private theorem convex {g a b : K} (g0 : 0 ≤ g) (g1 : g ≤ 1) (ha : |a| ≤ 1) (hb : |b| ≤ 1) : |(1 - g) * a + g * b| ≤ 1 := by
  rw [abs_le] at *
  constructor <;> nlinarith

/-- C54: for activations with the ranges of sigmoid and tanh, any weights, biases and input, and a legal state, all values are
legal and the new state is exactly the convex combination `(1 - fg) ng + fg hx`: the last clamp does not act. -/
theorem C54_step {I H : ℕ} (sig tanh : K → K) (hsig : ∀ a, |a| ≤ 1 → 0 ≤ sig a ∧ sig a ≤ 1) (htanh : ∀ a, |tanh a| ≤ 1)
    (p : Params K I H) (x : Fin I → K) (hx : Fin H → K) (h : ∀ o, |hx o| ≤ 1) :
    Spec.Legal (cellRow sig tanh p x hx) ∧
    ∀ o, (cellRow sig tanh p x hx).hy o =
      (1 - (cellRow sig tanh p x hx).fg o) * (cellRow sig tanh p x hx).ng o + (cellRow sig tanh p x hx).fg o * hx o := by
  set r := cellRow sig tanh p x hx with hr
  have h1 : ∀ o, |r.fgIn o| ≤ 1 := fun o => abs_clamp _
  have h2 : ∀ o, 0 ≤ r.fg o ∧ r.fg o ≤ 1 := fun o => hsig _ (h1 o)
  have h3 : ∀ o, |r.fgHx o| ≤ 1 := fun o => gate_mul (h2 o).1 (h2 o).2 (h o)
  have h4 : ∀ o, |r.ng o| ≤ 1 := fun o => htanh _
  have h5 : ∀ o, |r.fgNg o| ≤ 1 := fun o => gate_mul (h2 o).1 (h2 o).2 (h4 o)
  have h6 : ∀ o, |r.fgNgInv o| ≤ 1 := fun o => by
    show |0 - r.fgNg o| ≤ 1
    rw [zero_sub, abs_neg]; exact h5 o
  refine ⟨fun o => ⟨h1 o, h2 o, h3 o, h4 o, h5 o, h6 o, abs_clamp _⟩, fun o => ?_⟩
  have hc := abs_le.1 (convex (h2 o).1 (h2 o).2 (h4 o) (h o))
  have e : r.ng o + r.fgNgInv o + r.fgHx o = (1 - r.fg o) * r.ng o + r.fg o * hx o := by
    show r.ng o + (0 - r.fg o * r.ng o) + r.fg o * hx o = _
    ring
  show hardtanh (r.ng o + r.fgNgInv o + r.fgHx o) = _
  rw [e]
  exact clamp_of_mem hc.1 hc.2

/-- C54: even for an illegal state the next state is legal. -/
theorem C54_recovers {I H : ℕ} (sig tanh : K → K) (p : Params K I H) (x : Fin I → K) (hx : Fin H → K) (o : Fin H) :
    |(cellRow sig tanh p x hx).hy o| ≤ 1 := abs_clamp _

/-- The hidden states of a sequence of calls, each fed with the state returned by the previous one. -/
def Spec.hidden {I H : ℕ} (cell : (Fin I → K) → (Fin H → K) → Trace K H) (x : ℕ → List (Fin I → K)) (h0 : Option (List (Fin H → K))) :
    ℕ → Except PyErr (Option (List (Fin H → K)))
  | 0 => .ok h0
  | t + 1 => do
      let h ← Spec.hidden cell x h0 t
      let r ← forward cell (x t) h
      pure (some (r.map fun r => r.hy))

/-- C54: from no state or any legal state, for every sequence of batches of `B` rows, no call fails, and all values of all
calls are legal. -/
theorem C54_sequence {I H : ℕ} (sig tanh : K → K) (hsig : ∀ a, |a| ≤ 1 → 0 ≤ sig a ∧ sig a ≤ 1) (htanh : ∀ a, |tanh a| ≤ 1)
    (p : Params K I H) (B : ℕ) (x : ℕ → List (Fin I → K)) (hB : ∀ t, (x t).length = B) (h0 : Option (List (Fin H → K)))
    (hh : ∀ l, h0 = some l → l.length = B ∧ ∀ r ∈ l, ∀ o, |r o| ≤ 1) (t : ℕ) :
    ∃ h rs, Spec.hidden (cellRow sig tanh p) x h0 t = .ok h ∧ forward (cellRow sig tanh p) (x t) h = .ok rs ∧
      rs.length = B ∧ ∀ r ∈ rs, Spec.Legal r := by
  have fwd : ∀ t (h : Option (List (Fin H → K))), (∀ l, h = some l → l.length = B ∧ ∀ r ∈ l, ∀ o, |r o| ≤ 1) →
      ∃ rs, forward (cellRow sig tanh p) (x t) h = .ok rs ∧ rs.length = B ∧ ∀ r ∈ rs, Spec.Legal r := by
    intro t h hl
    have key : ∀ l : List (Fin H → K), l.length = B → (∀ r ∈ l, ∀ o, |r o| ≤ 1) → h.getD ((x t).map fun _ _ => 0) = l →
        ∃ rs, forward (cellRow sig tanh p) (x t) h = .ok rs ∧ rs.length = B ∧ ∀ r ∈ rs, Spec.Legal r := by
      intro l h1 h2 h3
      refine ⟨List.zipWith (cellRow sig tanh p) (x t) l, ?_, by rw [List.length_zipWith, hB, h1, min_self], ?_⟩
      · unfold forward
        simp only [h3]
        rw [if_neg (by rw [hB, h1]; simp)]
      · intro r hr
        rw [List.mem_iff_getElem] at hr
        obtain ⟨i, hi, rfl⟩ := hr
        rw [List.getElem_zipWith]
        exact (C54_step sig tanh hsig htanh p _ _ (h2 _ (List.getElem_mem _))).1
    cases h with
    | none => exact key _ (by simp [hB]) (by simp) rfl
    | some l => exact key l (hl l rfl).1 (hl l rfl).2 rfl
  have inv : ∀ t, ∃ h, Spec.hidden (cellRow sig tanh p) x h0 t = .ok h ∧
      ∀ l, h = some l → l.length = B ∧ ∀ r ∈ l, ∀ o, |r o| ≤ 1 := by
    intro t
    induction t with
    | zero => exact ⟨h0, rfl, hh⟩
    | succ t ih =>
        obtain ⟨h, e, hl⟩ := ih
        obtain ⟨rs, e1, e2, e3⟩ := fwd t h hl
        refine ⟨some (rs.map fun r => r.hy), ?_, ?_⟩
        · show (Spec.hidden (cellRow sig tanh p) x h0 t >>= _) = _
          rw [e]
          show (forward (cellRow sig tanh p) (x t) h >>= _) = _
          rw [e1]; rfl
        · rintro l ⟨⟩
          refine ⟨by rw [List.length_map, e2], fun r hr => ?_⟩
          rw [List.mem_map] at hr
          obtain ⟨r', hr', rfl⟩ := hr
          exact fun o => (e3 r' hr' o).2.2.2.2.2.2
  obtain ⟨h, e, hl⟩ := inv t
  obtain ⟨rs, e1, e2, e3⟩ := fwd t h hl
  exact ⟨h, rs, e, e1, e2, e3⟩

omit [LinearOrder K] [IsStrictOrderedRing K] in
/-- C54: a state with another number of rows than the input is refused. -/
theorem C54_batch {I H : ℕ} (cell : (Fin I → K) → (Fin H → K) → Trace K H) (x : List (Fin I → K)) (l : List (Fin H → K))
    (h : x.length ≠ l.length) : forward cell x (some l) = .error .runtime := if_pos h

theorem hardsigm_eq (a : K) (h : |a| ≤ 1) : hardsigm a = (a + 1) / 2 := by
  rw [abs_le] at h
  unfold hardsigm
  rw [clamp_of_mem (by linarith) (by linarith)]
  ring

theorem hardsigm_range (a : K) (h : |a| ≤ 1) : 0 ≤ hardsigm a ∧ hardsigm a ≤ 1 := by
  rw [hardsigm_eq a h]
  rw [abs_le] at h
  constructor
  · exact div_nonneg (by linarith) zero_le_two
  · rw [div_le_one (zero_lt_two)]; linarith

/-- C54: the hard cell, in formulas: gate `(clip(W_f [hx, x] + b_f) + 1)/2`, candidate `clip(W_n [fg hx, x] + b_n)`, new state
`(1 - fg) ng + fg hx`, for every legal state. -/
theorem C54_hard {I H : ℕ} (p : Params K I H) (x : Fin I → K) (hx : Fin H → K) (h : ∀ o, |hx o| ≤ 1) :
    ∃ fg ng : Fin H → K,
      (∀ o, fg o = (max (-1) (min 1 ((∑ i, Fin.append hx x i * p.wf o i) + (p.bf.map fun b => b o).getD 0)) + 1) / 2) ∧
      (∀ o, ng o = max (-1) (min 1 ((∑ i, Fin.append (fun o => fg o * hx o) x i * p.wn o i) + (p.bn.map fun b => b o).getD 0))) ∧
      Spec.Legal (hardCell p x hx) ∧ ∀ o, (hardCell p x hx).hy o = (1 - fg o) * ng o + fg o * hx o := by
  have cl : ∀ a : K, hardtanh a = max (-1) (min 1 a) := by
    intro a
    unfold hardtanh clamp
    rw [min_comm, max_comm a, min_max_distrib_left, min_eq_right (by linarith [(zero_lt_one : (0:K) < 1)])]
  obtain ⟨h1, h2⟩ := C54_step hardsigm hardtanh hardsigm_range abs_clamp p x hx h
  refine ⟨(hardCell p x hx).fg, (hardCell p x hx).ng, fun o => ?_, fun o => ?_, h1, h2⟩
  · rw [← cl]
    exact hardsigm_eq _ (abs_clamp _)
  · rw [← cl]; rfl

/-- C54: an open forget gate (preactivation at least 1) holds the state; a closed one (at most -1) replaces it by the
candidate. -/
theorem C54_gate {I H : ℕ} (p : Params K I H) (x : Fin I → K) (hx : Fin H → K) (h : ∀ o, |hx o| ≤ 1) (o : Fin H) :
    (1 ≤ (∑ i, Fin.append hx x i * p.wf o i) + (p.bf.map fun b => b o).getD 0 → (hardCell p x hx).hy o = hx o) ∧
    ((∑ i, Fin.append hx x i * p.wf o i) + (p.bf.map fun b => b o).getD 0 ≤ -1 →
      (hardCell p x hx).hy o = (hardCell p x hx).ng o) := by
  obtain ⟨h1, h2⟩ := C54_step hardsigm hardtanh hardsigm_range abs_clamp p x hx h
  have hfg : (hardCell p x hx).fg o = hardsigm (hardtanh ((∑ i, Fin.append hx x i * p.wf o i) + (p.bf.map fun b => b o).getD 0)) := rfl
  have hn : (-1:K) ≤ 1 := by linarith [(zero_lt_one : (0:K) < 1)]
  constructor
  · intro hg
    have : (hardCell p x hx).fg o = 1 := by
      rw [hfg, hardtanh, clamp_of_ge hg, hardsigm_eq _ (by simp)]; norm_num
    have e := h2 o
    show (cellRow hardsigm hardtanh p x hx).hy o = _
    rw [e, show (cellRow hardsigm hardtanh p x hx).fg o = 1 from this]; ring
  · intro hg
    have : (hardCell p x hx).fg o = 0 := by
      rw [hfg, hardtanh, clamp_of_le hn hg, hardsigm_eq _ (by simp)]; norm_num
    have e := h2 o
    show (cellRow hardsigm hardtanh p x hx).hy o = _
    rw [e, show (cellRow hardsigm hardtanh p x hx).fg o = 0 from this]
    show (1 - 0) * (hardCell p x hx).ng o + _ = _
    ring

end generic

/-- C54: the soft cell (sigmoid and tanh). -/
theorem C54_soft {I H : ℕ} (p : Params ℝ I H) (B : ℕ) (x : ℕ → List (Fin I → ℝ)) (hB : ∀ t, (x t).length = B)
    (h0 : Option (List (Fin H → ℝ))) (hh : ∀ l, h0 = some l → l.length = B ∧ ∀ r ∈ l, ∀ o, |r o| ≤ 1) (t : ℕ) :
    ∃ h rs, Spec.hidden (softCell p) x h0 t = .ok h ∧ forward (softCell p) (x t) h = .ok rs ∧ rs.length = B ∧
      ∀ r ∈ rs, Spec.Legal r :=
  C54_sequence Real.sigmoid Real.tanh (fun a _ => ⟨Real.sigmoid_nonneg a, Real.sigmoid_le_one a⟩) (fun a => (Real.abs_tanh_lt_one a).le)
    p B x hB h0 hh t

/-- C54: the hard cell. -/
theorem C54_hard_sequence {I H : ℕ} (p : Params ℚ I H) (B : ℕ) (x : ℕ → List (Fin I → ℚ)) (hB : ∀ t, (x t).length = B)
    (h0 : Option (List (Fin H → ℚ))) (hh : ∀ l, h0 = some l → l.length = B ∧ ∀ r ∈ l, ∀ o, |r o| ≤ 1) (t : ℕ) :
    ∃ h rs, Spec.hidden (hardCell p) x h0 t = .ok h ∧ forward (hardCell p) (x t) h = .ok rs ∧ rs.length = B ∧
      ∀ r ∈ rs, Spec.Legal r :=
  C54_sequence hardsigm hardtanh hardsigm_range abs_clamp p B x hB h0 hh t

/-- Non-vacuity: a batch of two rows, weights far outside the unit range, a legal state; and the value of a step. -/
example : (∀ t : ℕ, ([fun _ => (t:ℚ), fun _ => -5] : List (Fin 1 → ℚ)).length = 2) ∧
    (∀ l, some [fun _ : Fin 1 => (1/2 : ℚ), fun _ => -1] = some l → l.length = 2 ∧ ∀ r ∈ l, ∀ o, |r o| ≤ 1) ∧
    (hardCell (K := ℚ) (I := 1) (H := 1) ⟨fun _ _ => 1/4, fun _ _ => 10, none, none⟩ (fun _ => 1/2) (fun _ => -1/2)).hy 0 = 1/4 := by
  refine ⟨fun t => rfl, ?_, ?_⟩
  · rintro l ⟨⟩
    refine ⟨rfl, fun r hr o => ?_⟩
    simp only [List.mem_cons, List.not_mem_nil, or_false] at hr
    rcases hr with rfl | rfl
    · norm_num [abs_le]
    · norm_num
  · decide +kernel

/-! ## C55: HardMGUCellFXP -/

private theorem zpow_f (f : ℕ) : (2:ℚ) ^ (f:ℤ) = 2 ^ f := zpow_natCast _ _

private theorem one_le_max {i : ℤ} (hi : 1 ≤ i) (f : ℕ) : (1:ℚ) ≤ (2:ℚ) ^ i - 1 / (2:ℚ) ^ (f:ℤ) := by
  have h1 : (2:ℚ) ^ (1:ℤ) ≤ (2:ℚ) ^ i := zpow_le_zpow_right₀ (by norm_num) hi
  have h2 : (1:ℚ) ≤ 2 ^ f := one_le_pow₀ (by norm_num)
  have h3 : 1 / (2:ℚ) ^ f ≤ 1 := by rw [div_le_one (by positivity)]; exact h2
  rw [zpow_f]
  norm_num at h1 ⊢
  norm_num at h3
  linarith

private theorem grid_repr {i : ℤ} (hi : 1 ≤ i) (f : ℕ) (k : ℤ) (hk : |(k:ℚ) / 2 ^ f| ≤ 1) : Spec.Representable i f ((k:ℚ) / 2 ^ f) := by
  refine ⟨k, by rw [zpow_f], ?_⟩
  have hp : (0:ℚ) < 2 ^ f := by positivity
  have h1 := one_le_max hi f
  rw [abs_div, abs_of_pos hp, div_le_one hp] at hk
  have h2 := mul_le_mul_of_nonneg_right h1 hp.le
  rw [zpow_f, sub_mul, one_mul, one_div_mul_cancel hp.ne'] at h2
  rw [zpow_add₀ (by norm_num : (2:ℚ) ≠ 0), zpow_f]
  linarith

private theorem tr_grid (i : ℤ) (hi : 1 ≤ i) (f : ℕ) (a : ℚ) : ∃ k : ℤ, Utils.round i f a = k / 2 ^ f := by
  obtain ⟨k, h, -⟩ := C41_representable i f (by omega) a
  exact ⟨k, by rw [h, zpow_f]⟩

/-- A multiple of `2^-f` in `[-1, 1]`. -/
def Spec.FxpState (f : ℕ) (a : ℚ) : Prop := (∃ k : ℤ, a = k / 2 ^ f) ∧ |a| ≤ 1

private theorem hardtanh_grid (f : ℕ) (k : ℤ) : ∃ m : ℤ, hardtanh ((k:ℚ) / 2 ^ f) = m / 2 ^ f := by
  have hp : (0:ℚ) < 2 ^ f := by positivity
  unfold hardtanh
  rcases le_total ((k:ℚ) / 2 ^ f) (-1) with h | h
  · exact ⟨-2 ^ f, by rw [clamp_of_le (by norm_num) h]; push_cast; rw [neg_div, div_self hp.ne']⟩
  · rcases le_total ((k:ℚ) / 2 ^ f) 1 with h' | h'
    · exact ⟨k, clamp_of_mem h h'⟩
    · exact ⟨2 ^ f, by rw [clamp_of_ge h']; push_cast; rw [div_self hp.ne']⟩

/-- C55: for every state, input, weights and activations, the new state is a multiple of `2^-fracwidth` in `[-1, 1]`, and the
rounding of the next call leaves it unchanged. -/
theorem C55_grid {I H : ℕ} (i : ℤ) (hi : 1 ≤ i) (f : ℕ) (sig tanh : ℚ → ℚ) (p : Params ℚ I H) (x : Fin I → ℚ) (hx : Fin H → ℚ)
    (o : Fin H) : Spec.FxpState f ((fxpRow i f sig tanh p x hx).hy o) ∧
      Utils.round i f ((fxpRow i f sig tanh p x hx).hy o) = (fxpRow i f sig tanh p x hx).hy o := by
  set r := fxpRow i f sig tanh p x hx with hr
  obtain ⟨a, ha⟩ := tr_grid i hi f (r.ng o)
  obtain ⟨b, hb⟩ := tr_grid i hi f (r.fgNgInv o)
  obtain ⟨c, hc⟩ := tr_grid i hi f (r.fgHx o)
  have e : r.hy o = hardtanh (((a + b + c : ℤ) : ℚ) / 2 ^ f) := by
    show hardtanh (Utils.round i f (r.ng o) + Utils.round i f (r.fgNgInv o) + Utils.round i f (r.fgHx o)) = _
    rw [ha, hb, hc]; congr 1; push_cast; ring
  obtain ⟨m, hm⟩ := hardtanh_grid f (a + b + c)
  have h1 : |r.hy o| ≤ 1 := abs_clamp _
  rw [hm] at e
  refine ⟨⟨⟨m, e⟩, h1⟩, ?_⟩
  rw [e] at h1 ⊢
  exact (C41_idempotent i f (by omega)).1 _ (grid_repr hi f m h1)

private theorem tr_one {i : ℤ} (hi : 1 ≤ i) (f : ℕ) : Utils.round i f 1 = 1 := by
  have := (C41_idempotent i f (by omega)).1 _ (grid_repr hi f (2 ^ f) (by push_cast; rw [div_self (by positivity)]; simp))
  push_cast at this
  rwa [div_self (by positivity)] at this

private theorem tr_abs {i : ℤ} (hi : 1 ≤ i) (f : ℕ) {a : ℚ} (ha : |a| ≤ 1) : |Utils.round i f a| ≤ 1 := by
  rw [abs_le] at *
  have h1 := (C41_monotone_odd i f (by omega) a 1).1 ha.2
  have h2 := (C41_monotone_odd i f (by omega) (-1) a).1 ha.1
  rw [(C41_monotone_odd i f (by omega) 1 1).2, tr_one hi] at h2
  rw [tr_one hi] at h1
  exact ⟨h2, h1⟩

private theorem tr_unit {i : ℤ} (hi : 1 ≤ i) (f : ℕ) {a : ℚ} (ha : 0 ≤ a ∧ a ≤ 1) : 0 ≤ Utils.round i f a ∧ Utils.round i f a ≤ 1 := by
  have h0 : Utils.round i f 0 = 0 := (C41_idempotent i f (by omega)).1 _ ⟨0, by simp, by
    have : (1:ℚ) ≤ (2:ℚ) ^ (i + f) := one_le_zpow₀ (by norm_num) (by omega)
    simpa using this⟩
  have h1 := (C41_monotone_odd i f (by omega) a 1).1 ha.2
  have h2 := (C41_monotone_odd i f (by omega) 0 a).1 ha.1
  rw [tr_one hi] at h1; rw [h0] at h2
  exact ⟨h2, h1⟩

/-- Rounding a value in `[-1, 1]` never meets the range limit. -/
private theorem tr_eq {i : ℤ} (hi : 1 ≤ i) (f : ℕ) {a : ℚ} (ha : |a| ≤ 1) : Utils.round i f a = (roundHE (a * 2 ^ f) : ℚ) / 2 ^ f := by
  have hp : (0:ℚ) < 2 ^ f := by positivity
  have h1 := one_le_max hi f
  have h2 := mul_le_mul_of_nonneg_right h1 hp.le
  rw [zpow_f, sub_mul, one_mul, one_div_mul_cancel hp.ne'] at h2
  have hM : ((2:ℚ) ^ f : ℚ) ≤ (2:ℚ) ^ (i + f) - 1 := by rw [zpow_add₀ (by norm_num : (2:ℚ) ≠ 0), zpow_f]; exact h2
  have hr : |(roundHE (a * 2 ^ f) : ℚ)| ≤ 2 ^ f := by
    rw [abs_le] at ha ⊢
    have e1 : (roundHE ((2:ℚ) ^ f)) = 2 ^ f := by exact_mod_cast roundHE_of_int (2 ^ f)
    have l1 : roundHE (a * 2 ^ f) ≤ roundHE ((2:ℚ) ^ f) := roundHE_mono (by nlinarith)
    have l2 : roundHE (-(2:ℚ) ^ f) ≤ roundHE (a * 2 ^ f) := roundHE_mono (by nlinarith)
    rw [e1] at l1; rw [roundHE_neg, e1] at l2
    constructor
    · exact_mod_cast l2
    · exact_mod_cast l1
  unfold Utils.round Utils.roundSTE
  rw [abs_le] at hr
  rw [zpow_f, clamp_of_mem (by linarith) (by linarith)]

/-- C55: from every legal state all values of a call are legal, and the new state is exactly
`tr ng - tr (fg ng) + tr (fg hx)`: the last clamp does not act in spite of the rounding. -/
theorem C55_legal {I H : ℕ} (i : ℤ) (hi : 1 ≤ i) (f : ℕ) (p : Params ℚ I H) (x : Fin I → ℚ) (hx : Fin H → ℚ) (h : ∀ o, |hx o| ≤ 1) :
    Spec.Legal (fxpCell i f p x hx) ∧ ∀ o, (fxpCell i f p x hx).hy o =
      Utils.round i f ((fxpCell i f p x hx).ng o) - Utils.round i f ((fxpCell i f p x hx).fgNg o)
        + Utils.round i f ((fxpCell i f p x hx).fgHx o) := by
  set r := fxpCell i f p x hx with hr
  have h1 : ∀ o, |r.fgIn o| ≤ 1 := fun o => abs_clamp _
  have h2 : ∀ o, 0 ≤ r.fg o ∧ r.fg o ≤ 1 := fun o => hardsigm_range _ (tr_abs hi f (h1 o))
  have h2' : ∀ o, 0 ≤ Utils.round i f (r.fg o) ∧ Utils.round i f (r.fg o) ≤ 1 := fun o => tr_unit hi f (h2 o)
  have h3 : ∀ o, |r.fgHx o| ≤ 1 := fun o => gate_mul (h2' o).1 (h2' o).2 (tr_abs hi f (h o))
  have h4 : ∀ o, |r.ng o| ≤ 1 := fun o => abs_clamp _
  have h5 : ∀ o, |r.fgNg o| ≤ 1 := fun o => gate_mul (h2' o).1 (h2' o).2 (tr_abs hi f (h4 o))
  have hinv : ∀ o, r.fgNgInv o = - Utils.round i f (r.fgNg o) := fun o => zero_sub _
  have h6 : ∀ o, |r.fgNgInv o| ≤ 1 := fun o => by rw [hinv, abs_neg]; exact tr_abs hi f (h5 o)
  refine ⟨fun o => ⟨h1 o, h2 o, h3 o, h4 o, h5 o, h6 o, abs_clamp _⟩, fun o => ?_⟩
  have einv : Utils.round i f (r.fgNgInv o) = - Utils.round i f (r.fgNg o) := by
    rw [hinv, (C41_monotone_odd i f (by omega) _ 0).2, (C41_idempotent i f (by omega)).2.1]
  show hardtanh (Utils.round i f (r.ng o) + Utils.round i f (r.fgNgInv o) + Utils.round i f (r.fgHx o)) = _
  rw [einv, ← sub_eq_add_neg]
  -- integers in units of `2^-f`
  have hp : (0:ℚ) < 2 ^ f := by positivity
  obtain ⟨G, hG⟩ := tr_grid i hi f (r.fg o)
  obtain ⟨A, hA⟩ := tr_grid i hi f (r.ng o)
  obtain ⟨B, hB⟩ := tr_grid i hi f (hx o)
  have eN : Utils.round i f (r.fgNg o) = (roundHE ((G:ℚ) * A / 2 ^ f) : ℚ) / 2 ^ f := by
    rw [tr_eq hi f (h5 o)]
    congr 2
    show roundHE ((Utils.round i f (r.fg o) * Utils.round i f (r.ng o)) * 2 ^ f) = _
    rw [hG, hA]; congr 1; field_simp
  have eH : Utils.round i f (r.fgHx o) = (roundHE ((G:ℚ) * B / 2 ^ f) : ℚ) / 2 ^ f := by
    rw [tr_eq hi f (h3 o)]
    congr 2
    show roundHE ((Utils.round i f (r.fg o) * Utils.round i f (hx o)) * 2 ^ f) = _
    rw [hG, hB]; congr 1; field_simp
  have g0 : (0:ℚ) ≤ G := by
    have := (h2' o).1; rw [hG] at this
    by_contra hneg
    have := div_neg_of_neg_of_pos (not_le.1 hneg) hp
    linarith
  have g1 : (G:ℚ) ≤ 2 ^ f := by
    have := (h2' o).2; rwa [hG, div_le_one hp] at this
  have hAb : |(A:ℚ)| ≤ 2 ^ f := by
    have := tr_abs hi f (h4 o); rwa [hA, abs_div, abs_of_pos hp, div_le_one hp] at this
  have hBb : |(B:ℚ)| ≤ 2 ^ f := by
    have := tr_abs hi f (h o); rwa [hB, abs_div, abs_of_pos hp, div_le_one hp] at this
  have key : ∀ A B : ℤ, (A:ℚ) ≤ 2 ^ f → (B:ℚ) ≤ 2 ^ f →
      A - roundHE ((G:ℚ) * A / 2 ^ f) + roundHE ((G:ℚ) * B / 2 ^ f) ≤ 2 ^ f := by
    intro A B ha hb
    have ra := abs_le.1 (roundHE_sub_le ((G:ℚ) * A / 2 ^ f))
    have rb := abs_le.1 (roundHE_sub_le ((G:ℚ) * B / 2 ^ f))
    have gN : (G:ℚ) / 2 ^ f ≤ 1 := by rw [div_le_one hp]; exact g1
    have gN0 : 0 ≤ (G:ℚ) / 2 ^ f := div_nonneg g0 hp.le
    have eA : (G:ℚ) * A / 2 ^ f = G / 2 ^ f * A := by ring
    have eB : (G:ℚ) * B / 2 ^ f = G / 2 ^ f * B := by ring
    have hGN : (G:ℚ) / 2 ^ f * 2 ^ f = G := by field_simp
    rcases eq_or_lt_of_le ha with hA1 | hA1
    · have e : roundHE ((G:ℚ) * A / 2 ^ f) = G := by
        rw [hA1, mul_div_assoc, div_self hp.ne', mul_one]; exact roundHE_of_int G
      have l : roundHE ((G:ℚ) * B / 2 ^ f) ≤ G := by
        have := roundHE_mono (show (G:ℚ) * B / 2 ^ f ≤ G by rw [eB]; nlinarith)
        rwa [roundHE_of_int] at this
      have : A = 2 ^ f := by exact_mod_cast hA1
      rw [e]; omega
    · rcases eq_or_lt_of_le hb with hB1 | hB1
      · have e : roundHE ((G:ℚ) * B / 2 ^ f) = G := by
          rw [hB1, mul_div_assoc, div_self hp.ne', mul_one]; exact roundHE_of_int G
        rw [e]
        have : ((A - roundHE ((G:ℚ) * A / 2 ^ f) + G : ℤ) : ℚ) < ((2 ^ f + 1 : ℤ) : ℚ) := by
          push_cast
          rw [eA] at ra ⊢
          nlinarith [ra.1]
        have := Int.cast_lt.1 this
        omega
      · have a1 : (A:ℚ) ≤ 2 ^ f - 1 := by
          have : A < 2 ^ f := by exact_mod_cast hA1
          have : A ≤ 2 ^ f - 1 := by omega
          exact_mod_cast this
        have b1 : (B:ℚ) ≤ 2 ^ f - 1 := by
          have : B < 2 ^ f := by exact_mod_cast hB1
          have : B ≤ 2 ^ f - 1 := by omega
          exact_mod_cast this
        have : ((A - roundHE ((G:ℚ) * A / 2 ^ f) + roundHE ((G:ℚ) * B / 2 ^ f) : ℤ) : ℚ) ≤ ((2 ^ f : ℤ) : ℚ) := by
          push_cast
          rw [eA] at ra ⊢
          rw [eB] at rb ⊢
          nlinarith [ra.1, rb.2]
        exact Int.cast_le.1 this
  have up := key A B (abs_le.1 hAb).2 (abs_le.1 hBb).2
  have low := key (-A) (-B) (by push_cast; linarith [(abs_le.1 hAb).1]) (by push_cast; linarith [(abs_le.1 hBb).1])
  have n1 : roundHE ((G:ℚ) * ((-A : ℤ) : ℚ) / 2 ^ f) = - roundHE ((G:ℚ) * A / 2 ^ f) := by
    rw [← roundHE_neg]; congr 1; push_cast; ring
  have n2 : roundHE ((G:ℚ) * ((-B : ℤ) : ℚ) / 2 ^ f) = - roundHE ((G:ℚ) * B / 2 ^ f) := by
    rw [← roundHE_neg]; congr 1; push_cast; ring
  rw [n1, n2] at low
  have upq : ((A:ℚ) - roundHE ((G:ℚ) * A / 2 ^ f) + roundHE ((G:ℚ) * B / 2 ^ f)) ≤ 2 ^ f := by exact_mod_cast up
  have lowq : -(A:ℚ) - -(roundHE ((G:ℚ) * A / 2 ^ f):ℚ) + -(roundHE ((G:ℚ) * B / 2 ^ f):ℚ) ≤ 2 ^ f := by exact_mod_cast low
  rw [hA, eN, eH]
  unfold hardtanh
  rw [← sub_div, ← add_div]
  apply clamp_of_mem
  · rw [le_div_iff₀ hp]; linarith
  · rw [div_le_one hp]; exact upq

private theorem sequence_inv {I H : ℕ} (cell : (Fin I → ℚ) → (Fin H → ℚ) → Trace ℚ H) (P : (Fin H → ℚ) → Prop) (Q : Trace ℚ H → Prop)
    (hz : P fun _ => 0) (hc : ∀ x h, P h → Q (cell x h)) (hQ : ∀ r, Q r → P r.hy) (B : ℕ) (x : ℕ → List (Fin I → ℚ))
    (hB : ∀ t, (x t).length = B) (h0 : Option (List (Fin H → ℚ))) (hh : ∀ l, h0 = some l → l.length = B ∧ ∀ r ∈ l, P r) (t : ℕ) :
    ∃ h rs, Spec.hidden cell x h0 t = .ok h ∧ forward cell (x t) h = .ok rs ∧ rs.length = B ∧ ∀ r ∈ rs, Q r := by
  have fwd : ∀ t (h : Option (List (Fin H → ℚ))), (∀ l, h = some l → l.length = B ∧ ∀ r ∈ l, P r) →
      ∃ rs, forward cell (x t) h = .ok rs ∧ rs.length = B ∧ ∀ r ∈ rs, Q r := by
    intro t h hl
    have key : ∀ l : List (Fin H → ℚ), l.length = B → (∀ r ∈ l, P r) → h.getD ((x t).map fun _ _ => 0) = l →
        ∃ rs, forward cell (x t) h = .ok rs ∧ rs.length = B ∧ ∀ r ∈ rs, Q r := by
      intro l h1 h2 h3
      refine ⟨List.zipWith cell (x t) l, ?_, by rw [List.length_zipWith, hB, h1, min_self], ?_⟩
      · unfold forward
        simp only [h3]
        rw [if_neg (by rw [hB, h1]; simp)]
      · intro r hr
        rw [List.mem_iff_getElem] at hr
        obtain ⟨i, hi, rfl⟩ := hr
        rw [List.getElem_zipWith]
        exact hc _ _ (h2 _ (List.getElem_mem _))
    cases h with
    | none =>
        refine key ((x t).map fun _ _ => 0) (by simp [hB]) (fun r hr => ?_) rfl
        rw [List.mem_map] at hr
        obtain ⟨_, -, rfl⟩ := hr
        exact hz
    | some l => exact key l (hl l rfl).1 (hl l rfl).2 rfl
  have inv : ∀ t, ∃ h, Spec.hidden cell x h0 t = .ok h ∧ ∀ l, h = some l → l.length = B ∧ ∀ r ∈ l, P r := by
    intro t
    induction t with
    | zero => exact ⟨h0, rfl, hh⟩
    | succ t ih =>
        obtain ⟨h, e, hl⟩ := ih
        obtain ⟨rs, e1, e2, e3⟩ := fwd t h hl
        refine ⟨some (rs.map fun r => r.hy), ?_, ?_⟩
        · show (Spec.hidden cell x h0 t >>= _) = _
          rw [e]
          show (forward cell (x t) h >>= _) = _
          rw [e1]; rfl
        · rintro l ⟨⟩
          refine ⟨by rw [List.length_map, e2], fun r hr => ?_⟩
          rw [List.mem_map] at hr
          obtain ⟨r', hr', rfl⟩ := hr
          exact hQ r' (e3 r' hr')
  obtain ⟨h, e, hl⟩ := inv t
  obtain ⟨rs, e1, e2, e3⟩ := fwd t h hl
  exact ⟨h, rs, e, e1, e2, e3⟩

/-- C55: for every sequence of batches of `B` rows, from no state or any state in `[-1, 1]`, no call fails, all values are legal
and every new state is a multiple of `2^-fracwidth` in `[-1, 1]`. -/
theorem C55_sequence {I H : ℕ} (i : ℤ) (hi : 1 ≤ i) (f : ℕ) (p : Params ℚ I H) (B : ℕ) (x : ℕ → List (Fin I → ℚ))
    (hB : ∀ t, (x t).length = B) (h0 : Option (List (Fin H → ℚ)))
    (hh : ∀ l, h0 = some l → l.length = B ∧ ∀ r ∈ l, ∀ o, |r o| ≤ 1) (t : ℕ) :
    ∃ h rs, Spec.hidden (fxpCell i f p) x h0 t = .ok h ∧ forward (fxpCell i f p) (x t) h = .ok rs ∧ rs.length = B ∧
      ∀ r ∈ rs, Spec.Legal r ∧ ∀ o, Spec.FxpState f (r.hy o) ∧ Utils.round i f (r.hy o) = r.hy o :=
  sequence_inv (fxpCell i f p) (fun h => ∀ o, |h o| ≤ 1)
    (fun r => Spec.Legal r ∧ ∀ o, Spec.FxpState f (r.hy o) ∧ Utils.round i f (r.hy o) = r.hy o) (by simp)
    (fun x h hP => ⟨(C55_legal i hi f p x h hP).1, fun o => C55_grid i hi f hardsigm hardtanh p x h o⟩)
    (fun r hr o => (hr.2 o).1.2) B x hB h0 hh t

/-- C55: the soft fixed-point cell too, for any activations. -/
theorem C55_sequence_any {I H : ℕ} (i : ℤ) (hi : 1 ≤ i) (f : ℕ) (sig tanh : ℚ → ℚ) (p : Params ℚ I H) (B : ℕ)
    (x : ℕ → List (Fin I → ℚ)) (hB : ∀ t, (x t).length = B) (h0 : Option (List (Fin H → ℚ)))
    (hh : ∀ l, h0 = some l → l.length = B) (t : ℕ) :
    ∃ h rs, Spec.hidden (fxpRow i f sig tanh p) x h0 t = .ok h ∧ forward (fxpRow i f sig tanh p) (x t) h = .ok rs ∧ rs.length = B ∧
      ∀ r ∈ rs, ∀ o, Spec.FxpState f (r.hy o) ∧ Utils.round i f (r.hy o) = r.hy o :=
  sequence_inv (fxpRow i f sig tanh p) (fun _ => True)
    (fun r => ∀ o, Spec.FxpState f (r.hy o) ∧ Utils.round i f (r.hy o) = r.hy o) trivial
    (fun x h _ => fun o => C55_grid i hi f sig tanh p x h o)
    (fun _ _ => trivial) B x hB h0 (fun l h => ⟨hh l h, fun _ _ => trivial⟩) t

private theorem hardtanh_lip (a b : ℚ) : |hardtanh a - hardtanh b| ≤ |a - b| := by
  unfold hardtanh clamp
  rcases le_total (max a (-1)) 1 with h1 | h1 <;> rcases le_total (max b (-1)) 1 with h2 | h2 <;>
    rcases le_total a (-1) with h3 | h3 <;> rcases le_total b (-1) with h4 | h4 <;>
    simp_all [abs_le] <;> constructor <;> cases abs_cases (a - b) <;> linarith

private theorem hardtanh_tr {i : ℤ} (hi : 1 ≤ i) (f : ℕ) (z : ℚ) : |hardtanh (Utils.round i f z) - hardtanh z| ≤ 1 / (2 * 2 ^ f) := by
  by_cases h : |z| ≤ (2:ℚ) ^ i - 1 / (2:ℚ) ^ (f:ℤ)
  · have := (C41_half_unit i f (by omega) z h).1
    rw [zpow_f] at this
    exact (hardtanh_lip _ _).trans this
  · have h1 : 1 < |z| := lt_of_le_of_lt (one_le_max hi f) (not_le.1 h)
    have hz : ∀ y : ℚ, 1 ≤ y → hardtanh (Utils.round i f y) = hardtanh y := by
      intro y hy
      have := (C41_monotone_odd i f (by omega) 1 y).1 hy
      rw [tr_one hi] at this
      unfold hardtanh
      rw [clamp_of_ge hy, clamp_of_ge this]
    have hz' : ∀ y : ℚ, y ≤ -1 → hardtanh (Utils.round i f y) = hardtanh y := by
      intro y hy
      have := (C41_monotone_odd i f (by omega) y (-1)).1 hy
      rw [(C41_monotone_odd i f (by omega) 1 0).2, tr_one hi] at this
      unfold hardtanh
      rw [clamp_of_le (by norm_num) hy, clamp_of_le (by norm_num) this]
    have : hardtanh (Utils.round i f z) = hardtanh z := by
      rcases lt_abs.1 h1 with h | h
      · exact hz z h.le
      · exact hz' z (by linarith)
    rw [this, sub_self, abs_zero]; positivity

private theorem mul_err {a b a' b' da db : ℚ} (hb : |b'| ≤ 1) (ha : |a| ≤ 1) (h1 : |a' - a| ≤ da) (h2 : |b' - b| ≤ db) :
    |a' * b' - a * b| ≤ da + db := by
  rw [show a' * b' - a * b = (a' - a) * b' + a * (b' - b) by ring]
  refine (abs_add_le _ _).trans ?_
  rw [abs_mul, abs_mul]
  have := mul_le_mul h1 hb (abs_nonneg _) ((abs_nonneg _).trans h1)
  have := mul_le_mul ha h2 (abs_nonneg _) zero_le_one
  linarith

/-- C55: accuracy of a call.  `δ = 2^-fracwidth / 2` is half a unit; input and weights are bounded by `X ≥ 1` and `V` and, like the
biases, within the representable range; the fixed-point cell runs from a state that differs by at most `ε` from that of the
exact hard cell.  All errors are explicit and vanish with `δ` and `ε`. -/
theorem C55_error {I H : ℕ} (i : ℤ) (hi : 1 ≤ i) (f : ℕ) (p : Params ℚ I H) (x : Fin I → ℚ) (hx hx' : Fin H → ℚ) (X V R δ ε : ℚ)
    (hR : R = (2:ℚ) ^ i - 1 / 2 ^ f) (hδ : δ = 1 / (2 * 2 ^ f))
    (hX1 : 1 ≤ X) (hXR : X ≤ R) (hVR : V ≤ R) (hxX : ∀ k, |x k| ≤ X) (hwf : ∀ o k, |p.wf o k| ≤ V) (hwn : ∀ o k, |p.wn o k| ≤ V)
    (hbf : ∀ b, p.bf = some b → ∀ o, |b o| ≤ R) (hbn : ∀ b, p.bn = some b → ∀ o, |b o| ≤ R)
    (h : ∀ o, |hx o| ≤ 1) (h' : ∀ o, |hx' o| ≤ 1) (hε : ∀ o, |hx' o - hx o| ≤ ε)
    (ef eg eh en : ℚ) (hef : ef = (H + I : ℕ) * (X * δ + V * (ε + δ) + (ε + δ) * δ) + δ)
    (heg : eg = (ef + δ) / 2 + δ) (heh : eh = eg + (ε + δ) + δ)
    (hen : en = (H + I : ℕ) * (X * δ + V * eh + eh * δ) + δ) (o : Fin H) :
    |Utils.round i f ((fxpCell i f p x hx').fg o) - (hardCell p x hx).fg o| ≤ eg ∧
    |(fxpCell i f p x hx').ng o - (hardCell p x hx).ng o| ≤ en + δ ∧
    |(fxpCell i f p x hx').hy o - (hardCell p x hx).hy o| ≤ (en + 2 * δ) + (eg + (en + 2 * δ) + δ) + eh := by
  set r := fxpCell i f p x hx' with hr
  set e := hardCell p x hx with he
  have hδ0 : 0 ≤ δ := by rw [hδ]; positivity
  have hε0 : 0 ≤ ε := (abs_nonneg _).trans (hε o)
  have hV0 : 0 ≤ V := (abs_nonneg _).trans (hwf o (Fin.castAdd I o))
  have tr : ∀ a : ℚ, |a| ≤ R → |Utils.round i f a - a| ≤ δ := by
    intro a ha
    have := (C41_half_unit i f (by omega) a (by rw [zpow_f, ← hR]; exact ha)).1
    rwa [zpow_f, ← hδ] at this
  have h1R : 1 ≤ R := hX1.trans hXR
  have tr1 : ∀ a b d : ℚ, |a| ≤ 1 → |a - b| ≤ d → |Utils.round i f a - b| ≤ d + δ := by
    intro a b d ha hd
    have := tr a (ha.trans h1R)
    rw [show Utils.round i f a - b = (Utils.round i f a - a) + (a - b) by ring]
    exact (abs_add_le _ _).trans (by linarith)
  have idem : ∀ a, Utils.round i f (Utils.round i f a) = Utils.round i f a := (C41_idempotent i f (by omega)).2.1
  obtain ⟨lr, -⟩ := C55_legal i hi f p x hx' h'
  have le : Spec.Legal e := (C54_step hardsigm hardtanh hardsigm_range abs_clamp p x hx h).1
  have bias : ∀ b : Option (Fin H → ℚ), (∀ v, b = some v → ∀ o, |v o| ≤ R) → ∀ o,
      |((b.map fun v (o : Fin H) => Utils.round i f (v o)).map fun v => v o).getD 0 - (b.map fun v => v o).getD 0| ≤ δ := by
    intro b hb o
    cases b with
    | none => simpa using hδ0
    | some v => exact tr _ (hb v rfl o)
  -- a linear layer whose hidden part has error `d`
  have layer : ∀ (w : Fin H → Fin (H + I) → ℚ) (b : Option (Fin H → ℚ)) (g g' : Fin H → ℚ) (d : ℚ), 0 ≤ d →
      (∀ o k, |w o k| ≤ V) → (∀ v, b = some v → ∀ o, |v o| ≤ R) → (∀ o, |g o| ≤ 1) →
      (∀ o, |Utils.round i f (g' o) - g o| ≤ d + δ) → ∀ o,
      |lin (fun o k => Utils.round i f (w o k)) (b.map fun v (o : Fin H) => Utils.round i f (v o))
          (fun k => Utils.round i f (Fin.append (fun o => Utils.round i f (g' o)) (fun k => Utils.round i f (x k)) k)) o
        - lin w b (Fin.append g x) o| ≤ (H + I : ℕ) * (X * δ + V * (d + δ) + (d + δ) * δ) + δ := by
    intro w b g g' d hd hw hb hg hg' o
    have hd' := dot_err (Fin.append g x) (w o)
      (fun k => Utils.round i f (Fin.append (fun o => Utils.round i f (g' o)) (fun k => Utils.round i f (x k)) k))
      (fun k => Utils.round i f (w o k)) X V (d + δ) δ ?_ (hw o) ?_ (fun k => tr _ ((hw o k).trans hVR))
    · have hb' := bias b hb o
      unfold lin
      rw [abs_le] at hd' hb' ⊢
      constructor <;> linarith [hd'.1, hd'.2, hb'.1, hb'.2]
    · intro k
      refine Fin.addCases (fun k => ?_) (fun k => ?_) k
      · rw [Fin.append_left]; exact (hg k).trans hX1
      · rw [Fin.append_right]; exact hxX k
    · intro k
      refine Fin.addCases (fun k => ?_) (fun k => ?_) k
      · show |Utils.round i f (Fin.append _ _ _) - Fin.append g x _| ≤ _
        rw [Fin.append_left, Fin.append_left, idem]; exact hg' k
      · show |Utils.round i f (Fin.append _ _ _) - Fin.append g x _| ≤ _
        rw [Fin.append_right, Fin.append_right, idem]
        exact (tr _ ((hxX k).trans hXR)).trans (by linarith)
  -- forget gate
  have k1 : ∀ o, |r.fgIn o - e.fgIn o| ≤ ef := by
    intro o
    rw [hef]
    exact (hardtanh_lip _ _).trans (layer p.wf p.bf hx hx' ε hε0 hwf hbf h (fun o => tr1 _ _ _ (h' o) (hε o)) o)
  have k2 : ∀ o, |r.fg o - e.fg o| ≤ (ef + δ) / 2 := by
    intro o
    have t := tr1 _ _ _ (lr o).1 (k1 o)
    have e1 : r.fg o = (Utils.round i f (r.fgIn o) + 1) / 2 := hardsigm_eq _ (tr_abs hi f (lr o).1)
    have e2 : e.fg o = (e.fgIn o + 1) / 2 := hardsigm_eq _ (le o).1
    rw [e1, e2]
    rw [abs_le] at t ⊢
    constructor <;> linarith [t.1, t.2]
  have fgabs : ∀ o, |r.fg o| ≤ 1 := fun o => abs_le.2 ⟨by linarith [(lr o).2.1.1], (lr o).2.1.2⟩
  have efgabs : ∀ o, |e.fg o| ≤ 1 := fun o => abs_le.2 ⟨by linarith [(le o).2.1.1], (le o).2.1.2⟩
  have k3 : ∀ o, |Utils.round i f (r.fg o) - e.fg o| ≤ eg := by
    intro o; rw [heg]; exact tr1 _ _ _ (fgabs o) (k2 o)
  have k4 : ∀ o, |r.fgHx o - e.fgHx o| ≤ eg + (ε + δ) := fun o =>
    mul_err (tr_abs hi f (h' o)) (efgabs o) (k3 o) (tr1 _ _ _ (h' o) (hε o))
  have k5 : ∀ o, |Utils.round i f (r.fgHx o) - e.fgHx o| ≤ eg + (ε + δ) + δ := fun o => tr1 _ _ _ (lr o).2.2.1 (k4 o)
  have eg0 : 0 ≤ eg := (abs_nonneg _).trans (k3 o)
  have k6 : ∀ o, |r.ng o - e.ng o| ≤ en + δ := by
    intro o
    have l := layer p.wn p.bn e.fgHx r.fgHx (eg + (ε + δ)) (by linarith) hwn hbn (fun o => (le o).2.2.1) k5 o
    rw [← heh, ← hen] at l
    refine (abs_sub_le _ _ _).trans (add_comm δ en ▸ add_le_add ?_ ((hardtanh_lip _ _).trans l))
    have := hardtanh_tr hi f (lin (fun o k => Utils.round i f (p.wn o k)) (p.bn.map fun v (o : Fin H) => Utils.round i f (v o))
          (fun k => Utils.round i f (Fin.append (fun o => Utils.round i f (r.fgHx o)) (fun k => Utils.round i f (x k)) k)) o)
    rw [← hδ] at this
    exact this
  have k7 : ∀ o, |Utils.round i f (r.ng o) - e.ng o| ≤ en + 2 * δ := fun o =>
    (tr1 _ _ _ (lr o).2.2.2.1 (k6 o)).trans (by linarith)
  have k8 : ∀ o, |r.fgNg o - e.fgNg o| ≤ eg + (en + 2 * δ) := fun o =>
    mul_err (tr_abs hi f (lr o).2.2.2.1) (efgabs o) (k3 o) (k7 o)
  have k9 : ∀ o, |Utils.round i f (r.fgNg o) - e.fgNg o| ≤ eg + (en + 2 * δ) + δ := fun o => tr1 _ _ _ (lr o).2.2.2.2.1 (k8 o)
  refine ⟨k3 o, k6 o, ?_⟩
  have e1 : Utils.round i f (r.fgNgInv o) = - Utils.round i f (r.fgNg o) := by
    have : r.fgNgInv o = - Utils.round i f (r.fgNg o) := zero_sub _
    rw [this, (C41_monotone_odd i f (by omega) _ 0).2, idem]
  have e2 : r.hy o = hardtanh (Utils.round i f (r.ng o) + Utils.round i f (r.fgNgInv o) + Utils.round i f (r.fgHx o)) := rfl
  have e3 : e.hy o = hardtanh (e.ng o + (0 - e.fgNg o) + e.fgHx o) := rfl
  rw [e2, e3, e1]
  refine (hardtanh_lip _ _).trans ?_
  have a1 := abs_le.1 (k7 o); have a2 := abs_le.1 (k9 o); have a3 := abs_le.1 (k5 o)
  rw [← heh] at a3
  rw [abs_le]
  constructor <;> linarith [a1.1, a1.2, a2.1, a2.2, a3.1, a3.2]

/-- C55: the hypothesis `1 ≤ intwidth` is needed: without integer bits an open gate does not hold the state 1. -/
theorem C55_no_intwidth : ∃ (p : Params ℚ 1 1) (x : Fin 1 → ℚ),
    (fxpCell 0 4 p x (fun _ => 1)).hy 0 ≠ 1 ∧ (hardCell p x (fun _ => 1)).hy 0 = 1 :=
  ⟨⟨fun _ _ => 2, fun _ _ => 0, none, none⟩, fun _ => 1, by decide +kernel, by decide +kernel⟩

/-- Non-vacuity of C55: default widths, a step with all roundings, and the hypotheses of the error bound. -/
example : (fxpCell (I := 1) (H := 1) 3 4 ⟨fun _ _ => 1/3, fun _ _ => -2/3, some fun _ => 1/10, none⟩ (fun _ => 4/5) (fun _ => -6/7)).hy 0
      = -9/16 ∧
    (1:ℚ) ≤ 2 ∧ (2:ℚ) ≤ (2:ℚ) ^ (3:ℤ) - 1 / 2 ^ 4 ∧ |(1/7 : ℚ) - 1/8| ≤ 1/50 := by
  refine ⟨by decide +kernel, by norm_num, by norm_num, by norm_num [abs_le]⟩

/-! ## C56: FSUMGUCell -/

/-- The bits of calls `0, 1, …` of an `FSUMGUCell` on input streams `x` and state streams `hx`. -/
def fsuOut {B I H : ℕ} (c : Fsu B I H) (x : Fin B → Fin I → ℕ → ℤ) (hx : Fin B → Fin H → ℕ → ℤ) (t : ℕ) : Except PyErr (Bits B H) :=
  outAtE c.step c.init (fun t => (fun b i => x b i t, fun b o => hx b o t)) t

/-- The six families of streams of a run. -/
structure Spec.Streams (B H : ℕ) where
  fgIn : Fin B → Fin H → ℕ → ℤ
  fg : Fin B → Fin H → ℕ → ℤ
  fgHx : Fin B → Fin H → ℕ → ℤ
  ng : Fin B → Fin H → ℕ → ℤ
  fgNg : Fin B → Fin H → ℕ → ℤ
  hy : Fin B → Fin H → ℕ → ℤ

/-- Streams side by side: the first `H` features are those of `h`, the others those of `x`. -/
def Spec.beside {B I H : ℕ} (h : Fin B → Fin H → ℕ → ℤ) (x : Fin B → Fin I → ℕ → ℤ) : Fin B → Fin (H + I) → ℕ → ℤ :=
  fun b => Fin.append (h b) (x b)

private theorem append_at {I H : ℕ} (h : Fin H → ℕ → ℤ) (x : Fin I → ℕ → ℤ) (t : ℕ) :
    Fin.append (fun o => h o t) (fun i => x i t) = fun k => Fin.append h x k t := by
  funext k
  refine Fin.addCases (fun k => ?_) (fun k => ?_) k <;> simp

private theorem rows_state {B J H : ℕ} (m : PC J H × Adder.Cfg) (y : Fin B → Fin J → ℕ → ℤ) (out : Fin B → Fin H → ℕ → ℤ)
    (h : Spec.Rows (linOut m y) out) (t : ℕ) : ∃ s s', stateAtE (stepLinear m) (initLinear m) (fun t => { input := pcIn y t }) t = .ok s ∧
      stepLinear m s { input := pcIn y t } = .ok (s', List.ofFn fun b o => out b o t) ∧
      stateAtE (stepLinear m) (initLinear m) (fun t => { input := pcIn y t }) (t + 1) = .ok s' := by
  have ht := h t
  obtain ⟨s, hs, ht⟩ := except_bind_ok ht
  obtain ⟨⟨s', o⟩, h1, ht⟩ := except_bind_ok ht
  cases ht
  exact ⟨s, s', hs, h1, stateAtE_succ_ok hs h1⟩

private theorem rowsOf_ofFn {B H : ℕ} (f : Fin B → Fin H → ℤ) : rowsOf (List.ofFn f) = f := by
  funext b
  unfold rowsOf
  rw [List.getD_eq_getElem _ _ (by simp)]
  simp

/-- C56: no call fails, and a run is the composition of its six blocks, each on its own streams: the forget gate layer on state
and input; the gate, a scaled adder on the layer output and ones; the static product of gate and stored state; the candidate layer
on that product and the input; the stream product of gate and candidate; and the output adder on the candidate, the complement of
gate times candidate, and gate times state. -/
theorem C56_run {B I H : ℕ} (hB : 0 < B) (c : Fsu B I H) (x : Fin B → Fin I → ℕ → ℤ) (hx : Fin B → Fin H → ℕ → ℤ) :
    ∃ r : Spec.Streams B H,
      (∀ t, fsuOut c x hx t = .ok ⟨fun b o => r.fgIn b o t, fun b o => r.fg b o t, fun b o => r.fgHx b o t, fun b o => r.ng b o t,
        fun b o => r.fgNg b o t, fun b o => r.hy b o t⟩) ∧
      Spec.Rows (linOut c.f (Spec.beside hx x)) r.fgIn ∧
      Spec.Rows (linOut c.n (Spec.beside r.fgHx x)) r.ng ∧
      ∀ b o, r.fg b o = addOut c.sigm (fun t => { xs := [(r.fgIn b o t : ℚ), 1] }) ∧
        r.fgHx b o = mulOut c.mode c.ngWidth c.hxRng (c.hxBin b o) (r.fg b o) ∧
        r.fgNg b o = mulStreamOut c.mode c.ngWidth c.ngRng (r.fg b o) (r.ng b o) ∧
        r.hy b o = addOut c.out (fun t => { xs := [(r.ng b o t : ℚ), 1 - (r.fgNg b o t : ℚ), (r.fgHx b o t : ℚ)] }) := by
  obtain ⟨fgIn, h1, -⟩ := C45_runs hB c.f (Spec.beside hx x)
  let fg : Fin B → Fin H → ℕ → ℤ := fun b o => addOut c.sigm (fun t => { xs := [(fgIn b o t : ℚ), 1] })
  let fgHx : Fin B → Fin H → ℕ → ℤ := fun b o => mulOut c.mode c.ngWidth c.hxRng (c.hxBin b o) (fg b o)
  obtain ⟨ng, h2, -⟩ := C45_runs hB c.n (Spec.beside fgHx x)
  let fgNg : Fin B → Fin H → ℕ → ℤ := fun b o => mulStreamOut c.mode c.ngWidth c.ngRng (fg b o) (ng b o)
  let hy : Fin B → Fin H → ℕ → ℤ := fun b o =>
    addOut c.out (fun t => { xs := [(ng b o t : ℚ), 1 - (fgNg b o t : ℚ), (fgHx b o t : ℚ)] })
  refine ⟨⟨fgIn, fg, fgHx, ng, fgNg, hy⟩, ?_, h1, h2, fun b o => ⟨rfl, rfl, rfl, rfl⟩⟩
  let sg := fun (b : Fin B) (o : Fin H) (t : ℕ) => stateAt (Adder.step c.sigm) (Adder.init c.sigm) (fun t => { xs := [(fgIn b o t : ℚ), 1] }) t
  let sh := fun (b : Fin B) (o : Fin H) (t : ℕ) => stateAt (Multiplier.stepStatic c.mode c.hxRng (c.hxBin b o)) (Multiplier.init c.ngWidth) (fg b o) t
  let sm := fun (b : Fin B) (o : Fin H) (t : ℕ) => stateAt (Multiplier.stepStream c.mode c.ngWidth c.ngRng) (Multiplier.init c.ngWidth)
    (fun t => (fg b o t, ng b o t)) t
  let so := fun (b : Fin B) (o : Fin H) (t : ℕ) => stateAt (Adder.step c.out) (Adder.init c.out)
    (fun t => { xs := [(ng b o t : ℚ), 1 - (fgNg b o t : ℚ), (fgHx b o t : ℚ)] }) t
  have e1 : ∀ t, (List.ofFn fun b => Fin.append (fun o => hx b o t) (fun i => x b i t)) = pcIn (Spec.beside hx x) t := by
    intro t; unfold pcIn Spec.beside; congr 1; funext b; exact append_at _ _ t
  have e2 : ∀ t, (List.ofFn fun b => Fin.append (fun o => fgHx b o t) (fun i => x b i t)) = pcIn (Spec.beside fgHx x) t := by
    intro t; unfold pcIn Spec.beside; congr 1; funext b; exact append_at _ _ t
  have step : ∀ t s1 s1' s2 s2', stepLinear c.f s1 { input := pcIn (Spec.beside hx x) t } = .ok (s1', List.ofFn fun b o => fgIn b o t) →
      stepLinear c.n s2 { input := pcIn (Spec.beside fgHx x) t } = .ok (s2', List.ofFn fun b o => ng b o t) →
      c.step ⟨s1, fun b o => sg b o t, fun b o => sh b o t, s2, fun b o => sm b o t, fun b o => so b o t⟩
        (fun b i => x b i t, fun b o => hx b o t) =
      .ok (⟨s1', fun b o => sg b o (t + 1), fun b o => sh b o (t + 1), s2', fun b o => sm b o (t + 1), fun b o => so b o (t + 1)⟩,
        ⟨fun b o => fgIn b o t, fun b o => fg b o t, fun b o => fgHx b o t, fun b o => ng b o t, fun b o => fgNg b o t,
          fun b o => hy b o t⟩) := by
    intro t s1 s1' s2 s2' k1 k2
    unfold Fsu.step
    show (stepLinear c.f s1 { input := List.ofFn fun b => Fin.append (fun o => hx b o t) (fun i => x b i t) } >>= _) = _
    rw [e1, k1]
    simp only [bind, Except.bind, rowsOf_ofFn]
    have k2' : stepLinear c.n s2 { input := List.ofFn fun b => Fin.append (fun o => fgHx b o t) (fun i => x b i t) } =
        .ok (s2', List.ofFn fun b o => ng b o t) := by
      rw [e2]; exact k2
    erw [k2']
    simp only [rowsOf_ofFn]
    rfl
  have run : ∀ t, ∃ s1 s2, stateAtE (stepLinear c.f) (initLinear c.f) (fun t => { input := pcIn (Spec.beside hx x) t }) t = .ok s1 ∧
      stateAtE (stepLinear c.n) (initLinear c.n) (fun t => { input := pcIn (Spec.beside fgHx x) t }) t = .ok s2 ∧
      stateAtE c.step c.init (fun t => (fun b i => x b i t, fun b o => hx b o t)) t =
        .ok ⟨s1, fun b o => sg b o t, fun b o => sh b o t, s2, fun b o => sm b o t, fun b o => so b o t⟩ := by
    intro t
    induction t with
    | zero => exact ⟨_, _, rfl, rfl, rfl⟩
    | succ t ih =>
        obtain ⟨s1, s2, a1, a2, a3⟩ := ih
        obtain ⟨u1, u1', b1, b2, b3⟩ := rows_state c.f _ fgIn h1 t
        obtain ⟨u2, u2', d1, d2, d3⟩ := rows_state c.n _ ng h2 t
        rw [a1] at b1; cases b1
        rw [a2] at d1; cases d1
        exact ⟨u1', u2', b3, d3, stateAtE_succ_ok a3 (step t _ _ _ _ b2 d2)⟩
  intro t
  obtain ⟨s1, s2, a1, a2, a3⟩ := run t
  obtain ⟨u1, u1', b1, b2, b3⟩ := rows_state c.f _ fgIn h1 t
  obtain ⟨u2, u2', d1, d2, d3⟩ := rows_state c.n _ ng h2 t
  rw [a1] at b1; cases b1
  rw [a2] at d1; cases d1
  exact outAtE_ok a3 (step t _ _ _ _ b2 d2)

private theorem land_bit {a b : ℤ} (ha : IsBit a) (hb : IsBit b) : IsBit (Int.land a b) := by
  rcases ha with h | h <;> rcases hb with h' | h' <;> subst h <;> subst h' <;> first | exact Or.inl (by decide) | exact Or.inr (by decide)

private theorem lor_bit {a b : ℤ} (ha : IsBit a) (hb : IsBit b) : IsBit (Int.lor a b) := by
  rcases ha with h | h <;> rcases hb with h' | h' <;> subst h <;> subst h' <;> first | exact Or.inl (by decide) | exact Or.inr (by decide)

private theorem stream_bit (m : Mode) (w : ℕ) (l : List ℤ) (x y : ℕ → ℤ) (hx : Verif.Spec.BitStream x) (t : ℕ) :
    IsBit (mulStreamOut m w l x y t) := by
  unfold mulStreamOut outAt Multiplier.stepStream
  cases m
  · exact land_bit (hx t) (isBit_ind _)
  · exact lor_bit (land_bit (hx t) (isBit_ind _)) (land_bit (isBit_compl (hx t)) (isBit_compl (isBit_ind _)))

/-- C56: all streams of a run are bitstreams. -/
theorem C56_bits {B I H : ℕ} (hB : 0 < B) (c : Fsu B I H) (x : Fin B → Fin I → ℕ → ℤ) (hx : Fin B → Fin H → ℕ → ℤ) (t : ℕ) :
    ∃ r, fsuOut c x hx t = .ok r ∧ ∀ b o, IsBit (r.fgIn b o) ∧ IsBit (r.fg b o) ∧ IsBit (r.fgHx b o) ∧ IsBit (r.ng b o) ∧
      IsBit (r.fgNg b o) ∧ IsBit (r.hy b o) := by
  obtain ⟨r, h1, h2, h3, h4⟩ := C56_run hB c x hx
  refine ⟨_, h1 t, fun b o => ?_⟩
  obtain ⟨e1, e2, e3, e4⟩ := h4 b o
  have rows : ∀ {J : ℕ} (m : PC J H × Adder.Cfg) (y : Fin B → Fin J → ℕ → ℤ) (out : Fin B → Fin H → ℕ → ℤ),
      Spec.Rows (linOut m y) out → IsBit (out b o t) := by
    intro J m y out ho
    obtain ⟨out', ho', hb⟩ := C45_runs hB m y
    have := ho t
    rw [ho' t] at this
    have := congrFun (congrFun (List.ofFn_injective (Except.ok.inj this)) b) o
    rw [← this]; exact hb b o t
  have hfg : Verif.Spec.BitStream (r.fg b o) := fun t => by rw [e1]; exact C18_bit _ _ _
  refine ⟨rows _ _ _ h2, hfg t, ?_, rows _ _ _ h3, ?_, ?_⟩
  · show IsBit (r.fgHx b o t)
    rw [e2]; exact (C24_bits hfg _ _ _ _ t).1
  · show IsBit (r.fgNg b o t)
    rw [e3]; exact stream_bit _ _ _ _ _ hfg t
  · show IsBit (r.hy b o t)
    rw [e4]; exact C18_bit _ _ _

/-- What a successful construction fixes. -/
theorem mkFsu_ok {B I H : ℕ} {env : Env} {mode : String} {width depthIsmul : ℕ} {name : String} {depth : ℤ}
    {wf wn : Fin H → Fin (H + I) → ℚ} {bias : Bool} {bf bn : Option (Fin H → ℚ)} {hb? : Option (Fin B → Fin H → ℚ)} {c : Fsu B I H}
    (h : mkFsu env mode width depthIsmul name depth wf wn bias bf bn hb? = .ok c) :
    parseMode mode = .ok .bipolar ∧ ∃ hb l ln, hb? = some hb ∧ rng env width name = .ok l ∧ rng env depthIsmul name = .ok ln ∧
      mkLinear env mode width name depth (some 1) wf bias bf = .ok c.f ∧
      mkLinear env mode width name depth (some 1) wn bias bn = .ok c.n ∧
      c.sigm = ⟨.bipolar, none, none, depth⟩ ∧ c.out = ⟨.bipolar, some 1, some 3, depth⟩ ∧ c.mode = .bipolar ∧ c.hxRng = l ∧
      c.hxBin = (fun b o => binGenM .bipolar width (hb b o)) ∧ c.ngWidth = depthIsmul ∧ c.ngRng = ln := by
  unfold mkFsu at h
  split_ifs at h with h0 h1
  have hmode : parseMode mode = .ok .bipolar := by
    unfold parseMode; simp [not_not.1 h0]
  obtain ⟨f, hf, h⟩ := except_bind_ok h
  obtain ⟨n, hn, h⟩ := except_bind_ok h
  obtain ⟨sg, hsg, h⟩ := except_bind_ok h
  obtain ⟨m, hm, h⟩ := except_bind_ok h
  obtain ⟨r, hr, h⟩ := except_bind_ok h
  rw [hmode] at hm; cases hm
  unfold Adder.mk at hsg
  rw [hmode] at hsg; cases hsg
  cases hb? with
  | none => cases h
  | some hb =>
      obtain ⟨r', hr', h⟩ := except_bind_ok h
      obtain ⟨rn, hrn, h⟩ := except_bind_ok h
      obtain ⟨out, hout, h⟩ := except_bind_ok h
      unfold Adder.mk at hout
      rw [hmode] at hout; cases hout
      cases h
      have hbr : r' = r := by
        unfold bsGenInit at hr'
        split_ifs at hr'
        cases hr'; rfl
      exact ⟨hmode, hb, r, rn, rfl, hr, hrn, hf, hn, rfl, rfl, rfl, hbr, rfl, rfl, rfl⟩

/-- C56: a cell is only built in bipolar mode, with a stored state, and with given biases if it has biases. -/
theorem C56_refused {B I H : ℕ} (env : Env) (mode : String) (width depthIsmul : ℕ) (name : String) (depth : ℤ)
    (wf wn : Fin H → Fin (H + I) → ℚ) (bias : Bool) (bf bn : Option (Fin H → ℚ)) (hb? : Option (Fin B → Fin H → ℚ))
    (h : mode.toLower ≠ "bipolar" ∨ (bias = true ∧ (bf = none ∨ bn = none)) ∨ hb? = none) :
    ∃ e, mkFsu env mode width depthIsmul name depth wf wn bias bf bn hb? = .error e := by
  cases hc : mkFsu env mode width depthIsmul name depth wf wn bias bf bn hb? with
  | error e => exact ⟨e, rfl⟩
  | ok c =>
      exfalso
      obtain ⟨h1, hb, l, ln, h2, -⟩ := mkFsu_ok hc
      rcases h with h | h | h
      · unfold mkFsu at hc; rw [if_pos h] at hc; cases hc
      · unfold mkFsu at hc
        split_ifs at hc
      · rw [h2] at h; cases h

/-- C56: the gate is the hard sigmoid of the layer output: for depth at least 4, in every prefix of every history
`ones(fg) = floor((ones(fg_in) + n)/2)`, so the bipolar value of the gate is `(v(fg_in) + 1)/2`, low by less than `2/n`. -/
theorem C56_gate {B I H : ℕ} (hB : 0 < B) {env : Env} {mode : String} {width depthIsmul : ℕ} {name : String} {depth : ℤ}
    (hd : 4 ≤ depth) {wf wn : Fin H → Fin (H + I) → ℚ} {bias : Bool} {bf bn : Option (Fin H → ℚ)} {hb? : Option (Fin B → Fin H → ℚ)}
    {c : Fsu B I H} (hc : mkFsu env mode width depthIsmul name depth wf wn bias bf bn hb? = .ok c)
    (x : Fin B → Fin I → ℕ → ℤ) (hx : Fin B → Fin H → ℕ → ℤ) :
    ∃ fgIn fg : Fin B → Fin H → ℕ → ℤ, (∀ t, ∃ r, fsuOut c x hx t = .ok r ∧ ∀ b o, r.fgIn b o = fgIn b o t ∧ r.fg b o = fg b o t) ∧
      ∀ b o n, Verif.Spec.ones (fg b o) n = (Verif.Spec.ones (fgIn b o) n + n) / 2 ∧
        (0 < n → |Verif.Spec.biValue (fg b o) n - (Verif.Spec.biValue (fgIn b o) n + 1) / 2| < 2 / n) := by
  obtain ⟨-, hb, l, ln, -, -, -, -, -, hsg, -⟩ := mkFsu_ok hc
  obtain ⟨r, h1, h2, h3, h4⟩ := C56_run hB c x hx
  refine ⟨r.fgIn, r.fg, fun t => ⟨_, h1 t, fun b o => ⟨rfl, rfl⟩⟩, fun b o n => ?_⟩
  have hbit : Verif.Spec.BitStream (r.fgIn b o) := by
    intro t
    obtain ⟨r', k1, k2⟩ := C56_bits hB c x hx t
    rw [h1 t] at k1; cases k1
    exact (k2 b o).1
  let y : Fin 2 → ℕ → ℤ := ![r.fgIn b o, fun _ => 1]
  have hy : ∀ i, Verif.Spec.BitStream (y i) := by
    intro i; fin_cases i
    · exact hbit
    · exact fun t => Or.inr rfl
  have he : r.fg b o = addOut c.sigm (streamArgs y) := by
    rw [(h4 b o).1]
    congr 1
  have hd' : (2 * (2:ℕ) - 1 : ℚ) ≤ (2:ℚ) ^ (c.sigm.depth - 2) := by
    rw [hsg]
    show (2 * ((2:ℕ):ℚ) - 1 : ℚ) ≤ (2:ℚ) ^ (depth - 2)
    have : (2:ℚ) ^ (2:ℤ) ≤ (2:ℚ) ^ (depth - 2) := zpow_le_zpow_right₀ (by norm_num) (by omega)
    norm_num at this ⊢; linarith
  have h5 := C19_exact (by norm_num) c.sigm (by rw [hsg]) (by rw [hsg]) hd' y hy n
  have hone : Verif.Spec.ones (fun _ => 1) n = n := by simp [Verif.Spec.ones]
  rw [← he, Fin.sum_univ_two] at h5
  refine ⟨?_, fun hn => ?_⟩
  · rw [h5]
    show (Verif.Spec.ones (r.fgIn b o) n + Verif.Spec.ones (fun _ => 1) n) / 2 = _
    rw [hone]
  · have h6 := (C19_value (by norm_num) c.sigm (by rw [hsg]) (by rw [hsg]) hd' y hy n hn).2
    rw [← he, Fin.sum_univ_two] at h6
    have hv : Verif.Spec.biValue (y 1) n = 1 := by
      show Verif.Spec.biValue (fun _ => 1) n = 1
      unfold Verif.Spec.biValue
      rw [hone]
      have : (n:ℚ) ≠ 0 := by positivity
      push_cast; field_simp; norm_num
    rw [hv] at h6
    exact_mod_cast h6

/-- C56: with Sobol coding, the stream of gate times state decodes to the gate's value times the stored state. -/
theorem C56_product {B I H : ℕ} (hB : 0 < B) {env : Env} {mode : String} {width depthIsmul : ℕ} {name : String} {depth : ℤ}
    (hn : name.toLower ∈ ["sobol", "rc"]) (hdir : DirOK env.sobolM) (hw : width ≤ env.maxbit)
    {wf wn : Fin H → Fin (H + I) → ℚ} {bias : Bool} {bf bn : Option (Fin H → ℚ)} {hb : Fin B → Fin H → ℚ}
    (hhb : ∀ b o, -1 ≤ hb b o ∧ hb b o ≤ 1)
    {c : Fsu B I H} (hc : mkFsu env mode width depthIsmul name depth wf wn bias bf bn (some hb) = .ok c)
    (x : Fin B → Fin I → ℕ → ℤ) (hx : Fin B → Fin H → ℕ → ℤ) :
    ∃ fg fgHx : Fin B → Fin H → ℕ → ℤ, (∀ t, ∃ r, fsuOut c x hx t = .ok r ∧ ∀ b o, r.fg b o = fg b o t ∧ r.fgHx b o = fgHx b o t) ∧
      ∀ b o n, 0 < n → |Verif.Spec.biValue (fgHx b o) n - Verif.Spec.biValue (fg b o) n * hb b o| ≤ 4 * width / n + 1 / 2 ^ width := by
  obtain ⟨-, hb', l, ln, e, hl, -, -, -, -, -, hm, hr, hbin, -⟩ := mkFsu_ok hc
  cases e
  obtain ⟨r, h1, h2, h3, h4⟩ := C56_run hB c x hx
  refine ⟨r.fg, r.fgHx, fun t => ⟨_, h1 t, fun b o => ⟨rfl, rfl⟩⟩, fun b o n hn0 => ?_⟩
  have hfg : Verif.Spec.BitStream (r.fg b o) := fun t => by rw [(h4 b o).1]; exact C18_bit _ _ _
  obtain ⟨l', hl', hh⟩ := C26_real env width name hn hdir hw hfg
  rw [hl] at hl'; cases hl'
  have := (hh (hb b o) n hn0).2 (hhb b o)
  have e2 : r.fgHx b o = mulOut .bipolar width l (binGenM .bipolar width (hb b o)) (r.fg b o) := by
    rw [(h4 b o).2.1, hm, hr, hbin]
    funext t
    rw [C25_bit hfg, C25_bit hfg]
  rw [e2]; exact this

/-- C56: the output balance.  As long as the output adder stays within its range, the ones of the output and of
`ng - fg·ng + fg·hx` differ by no more than that range, in every prefix; so the bipolar value of the output is
`v(ng) - v(fg·ng) + v(fg·hx)` up to `2^(depth-1)/n`. -/
theorem C56_balance {B I H : ℕ} (hB : 0 < B) {env : Env} {mode : String} {width depthIsmul : ℕ} {name : String} {depth : ℤ}
    {wf wn : Fin H → Fin (H + I) → ℚ} {bias : Bool} {bf bn : Option (Fin H → ℚ)} {hb? : Option (Fin B → Fin H → ℚ)}
    {c : Fsu B I H} (hc : mkFsu env mode width depthIsmul name depth wf wn bias bf bn hb? = .ok c)
    (x : Fin B → Fin I → ℕ → ℤ) (hx : Fin B → Fin H → ℕ → ℤ) :
    ∃ ng fgNg fgHx hy : Fin B → Fin H → ℕ → ℤ, (∀ t, ∃ r, fsuOut c x hx t = .ok r ∧ ∀ b o, r.ng b o = ng b o t ∧
        r.fgNg b o = fgNg b o t ∧ r.fgHx b o = fgHx b o t ∧ r.hy b o = hy b o t) ∧
      ∀ b o n, let net := fun n => Verif.Spec.ones (ng b o) n - Verif.Spec.ones (fgNg b o) n + Verif.Spec.ones (fgHx b o) n
        (∀ t < n, |((net (t + 1) - Verif.Spec.ones (hy b o) t : ℤ) : ℚ)| ≤ (2:ℚ) ^ (depth - 2)) →
        |((net n - Verif.Spec.ones (hy b o) n : ℤ) : ℚ)| ≤ (2:ℚ) ^ (depth - 2) ∧
        (0 < n → |Verif.Spec.biValue (hy b o) n - (Verif.Spec.biValue (ng b o) n - Verif.Spec.biValue (fgNg b o) n
          + Verif.Spec.biValue (fgHx b o) n)| ≤ 2 * (2:ℚ) ^ (depth - 2) / n) := by
  obtain ⟨-, hb', l, ln, e, hl, -, -, -, -, hout, -⟩ := mkFsu_ok hc
  obtain ⟨r, h1, h2, h3, h4⟩ := C56_run hB c x hx
  refine ⟨r.ng, r.fgNg, r.fgHx, r.hy, fun t => ⟨_, h1 t, fun b o => ⟨rfl, rfl, rfl, rfl⟩⟩, fun b o n => ?_⟩
  intro net hsat
  obtain ⟨-, -, -, e4⟩ := h4 b o
  set a : ℕ → Adder.Arg := fun t => { xs := [(r.ng b o t : ℚ), 1 - (r.fgNg b o t : ℚ), (r.fgHx b o t : ℚ)] } with ha
  have hen : Spec.addEntry c.out a = 3 := by simp [Spec.addEntry, hout, ha]
  have hsc : Spec.addScale c.out a = 1 := by simp [Spec.addScale, hout, ha]
  have hof : Spec.addOffset c.out a = 1 := by
    unfold Spec.addOffset; rw [hen, hsc, hout]; norm_num
  have hδ : ∀ k, ∑ t ∈ range k, Spec.addDelta c.out a t = ((net k : ℤ) : ℚ) := by
    intro k
    have : ∀ t, Spec.addDelta c.out a t = (r.ng b o t : ℚ) - r.fgNg b o t + r.fgHx b o t := by
      intro t; unfold Spec.addDelta; rw [hof]; simp [ha]; ring
    simp only [this, net, Verif.Spec.ones]
    rw [sum_add_distrib, sum_sub_distrib]
    push_cast; rfl
  have hdep : c.out.depth = depth := by rw [hout]
  have hcons := C20_conservation c.out a (by rw [hsc]; norm_num) n (fun t ht => by
    rw [hδ, hsc, hdep, ← e4]
    have := hsat t ht
    push_cast at this ⊢; rw [one_mul]; exact this)
  have hbd := C18_bounded c.out a n
  rw [hδ, hsc, ← e4] at hcons
  rw [hdep] at hbd
  have key : |((net n - Verif.Spec.ones (r.hy b o) n : ℤ) : ℚ)| ≤ (2:ℚ) ^ (depth - 2) := by
    have : ((net n - Verif.Spec.ones (r.hy b o) n : ℤ) : ℚ) = addAcc c.out a n := by push_cast; linarith
    rw [this]; exact hbd
  refine ⟨key, fun hn => ?_⟩
  have hnq : (0:ℚ) < n := by exact_mod_cast hn
  have e5 : Verif.Spec.biValue (r.hy b o) n - (Verif.Spec.biValue (r.ng b o) n - Verif.Spec.biValue (r.fgNg b o) n
      + Verif.Spec.biValue (r.fgHx b o) n) = - (2 * ((net n - Verif.Spec.ones (r.hy b o) n : ℤ) : ℚ) / n) := by
    unfold Verif.Spec.biValue
    simp only [net]
    push_cast
    field_simp; ring
  rw [e5, abs_neg, abs_div, abs_mul, abs_of_pos hnq, abs_of_pos (by norm_num : (0:ℚ) < 2)]
  exact div_le_div_of_nonneg_right (by linarith) hnq.le

/-- Non-vacuity of C56: a cell that can be built, and its first outputs. -/
example : (mkFsu (B := 1) (I := 1) (H := 1) ⟨30, fun _ => 1, fun _ _ => false, []⟩ "Bipolar" 2 2 "Sobol" 8 (fun _ _ => 1/2) (fun _ _ => -1/2)
      true (some fun _ => 1/4) (some fun _ => 0) (some fun _ _ => 1/2)).toBool = true := by decide +kernel

/-! ## C59: HUBMGUCell -/

/-- The stream of a real number: its binary representation compared with the sequence `l`. -/
def Spec.coded (w : ℕ) (l : List ℤ) (a : ℚ) (t : ℕ) : ℤ := bsGen l (binGenM .bipolar w a) t

/-- C59: if the stream cell can be built, the hybrid cell returns, for every row and unit, the bipolar value of the stream cell's
output after exactly `2^width` cycles on the streams of input and state; without a state it starts from zeros. -/
theorem C59_value {B I H : ℕ} (hB : 0 < B) (env : Env) (mode : String) (width depthIsmul : ℕ) (name : String) (depth : ℤ)
    (wf wn : Fin H → Fin (H + I) → ℚ) (bias : Bool) (bf bn : Option (Fin H → ℚ)) (x : Fin B → Fin I → ℚ)
    (hx? : Option (Fin B → Fin H → ℚ)) (hx : Fin B → Fin H → ℚ) (hhx : hx = hx?.getD fun _ _ => 0) (c : Fsu B I H)
    (hc : mkFsu env mode width depthIsmul name depth wf wn bias bf bn (some hx) = .ok c) (l : List ℤ)
    (hl : rng env width name = .ok l) (hp : Verif.Spec.IsPermSeq width l) :
    ∃ (y : Fin B → Fin H → ℚ) (hy : Fin B → Fin H → ℕ → ℤ),
      hubMGU env mode width depthIsmul name depth wf wn bias bf bn x hx? = .ok y ∧
      (∀ t, ∃ r, fsuOut c (fun b i => Spec.coded width l (x b i)) (fun b o => Spec.coded width l (hx b o)) t = .ok r ∧
        ∀ b o, r.hy b o = hy b o t) ∧
      ∀ b o, y b o = Verif.Spec.biValue (hy b o) (2 ^ width) ∧ |y b o| ≤ 1 ∧ ∃ k : ℤ, y b o = 2 * k / 2 ^ width - 1 := by
  obtain ⟨hmode, -⟩ := mkFsu_ok hc
  obtain ⟨r, h1, -, -, h4⟩ := C56_run hB c (fun b i => Spec.coded width l (x b i)) (fun b o => Spec.coded width l (hx b o))
  let pe : Metric.PE := ⟨.bipolar, 0, 0, 0, 0, 0⟩
  have hpe : Metric.PE.init 0 1 mode = .ok pe := by
    unfold Metric.PE.init
    rw [hmode]
    have hs : Metric.scaledSource 0 1 = .ok 0 := by decide +kernel
    simp only [hs, bind, Except.bind]; rfl
  have hlen := (C01_length_check l).1 ⟨width, hp.1⟩
  have loop : ∀ t, ∃ s, stateAtE c.step c.init (fun t => (fun b i => Spec.coded width l (x b i) t, fun b o => Spec.coded width l (hx b o) t)) t
        = .ok s ∧
      hubLoop c l (fun b i => binGenM .bipolar width (x b i)) (fun b o => binGenM .bipolar width (hx b o)) (fun _ _ => pe) t
        = .ok (s, fun b o => ⟨.bipolar, 0, t, Verif.Spec.ones (r.hy b o) t, 0, 0⟩) := by
    intro t
    induction t with
    | zero => exact ⟨_, rfl, by simp [hubLoop, pe]⟩
    | succ t ih =>
        obtain ⟨s, hs, hh⟩ := ih
        have ho := h1 t
        obtain ⟨s1, k1, ho⟩ := except_bind_ok ho
        obtain ⟨⟨s2, r2⟩, k2, ho⟩ := except_bind_ok ho
        have e1 : s = s1 := Except.ok.inj (hs.symm.trans k1)
        have e2 : r2 = _ := Except.ok.inj ho
        subst e1 e2
        refine ⟨s2, stateAtE_succ_ok hs k2, ?_⟩
        show (hubLoop c l _ _ _ t >>= _) = _
        rw [hh]
        show (c.step s (fun b i => Spec.coded width l (x b i) t, fun b o => Spec.coded width l (hx b o) t) >>= _) = _
        rw [k2]
        show Except.ok _ = _
        congr 2
        funext b o
        simp [Metric.PE.monitor, Verif.Spec.ones_succ]
  obtain ⟨s, -, hloop⟩ := loop (2 ^ width)
  have hbit : ∀ b o, Verif.Spec.BitStream (r.hy b o) := fun b o t => by rw [(h4 b o).2.2.2]; exact C18_bit _ _ _
  have hpow : ((2 ^ width : ℕ) : ℚ) ≠ 0 := by positivity
  refine ⟨fun b o => Verif.Spec.biValue (r.hy b o) (2 ^ width), r.hy, ?_, fun t => ⟨_, h1 t, fun b o => rfl⟩, fun b o => ⟨rfl, ?_, ?_⟩⟩
  · unfold hubMGU
    rw [← hhx]
    show (mkFsu env mode width depthIsmul name depth wf wn bias bf bn (some hx) >>= _) = _
    rw [hc]
    show (parseMode mode >>= _) = _
    rw [hmode]
    show (rng env width name >>= _) = _
    rw [hl]
    show (bsGenInit l >>= _) = _
    rw [hlen]
    show (Metric.PE.init 0 1 mode >>= _) = _
    rw [hpe]
    show (hubLoop c l (fun b i => binGenM .bipolar width (x b i)) (fun b o => binGenM .bipolar width (hx b o)) (fun _ _ => pe) (2 ^ width)
      >>= _) = _
    rw [hloop]
    show Except.ok _ = _
    congr 1
    funext b o
    simp only [Metric.PE.forward, if_neg hpow, Verif.Spec.biValue]
    ring
  · exact biValue_range (hbit b o) _
  · refine ⟨Verif.Spec.ones (r.hy b o) (2 ^ width), ?_⟩
    show Verif.Spec.biValue (r.hy b o) (2 ^ width) = _
    unfold Verif.Spec.biValue
    push_cast; ring

/-- C59: over the `2^width` cycles the streams of input and state carry exactly the quantised values, which differ from the given
ones in `[-1, 1]` by at most `2^-width`. -/
theorem C59_inputs {width : ℕ} {l : List ℤ} (hp : Verif.Spec.IsPermSeq width l) (a : ℚ) (ha : -1 ≤ a ∧ a ≤ 1) :
    Verif.Spec.BitStream (Spec.coded width l a) ∧
    Verif.Spec.biValue (Spec.coded width l a) (2 ^ width) = 2 * (binGenM .bipolar width a / 2 ^ width) - 1 ∧
    |Verif.Spec.biValue (Spec.coded width l a) (2 ^ width) - a| ≤ 1 / 2 ^ width := by
  have hb := C05_range .bipolar width a ha
  have h1 := C01_window_count hp (binGenM .bipolar width a) 0
  have h2 : Verif.Spec.ones (Spec.coded width l a) (2 ^ width) = binGenM .bipolar width a := by
    unfold Verif.Spec.ones Spec.coded
    simp only [zero_add] at h1
    rw [h1, min_eq_left hb.2, max_eq_right hb.1]
  have h3 : Verif.Spec.biValue (Spec.coded width l a) (2 ^ width) = 2 * (binGenM .bipolar width a / 2 ^ width) - 1 := by
    unfold Verif.Spec.biValue; rw [h2]; push_cast; rfl
  exact ⟨fun t => isBit_ind _, h3, by rw [h3]; exact (C26_quantised width a).2⟩

/-- C59: what the stream cell refuses the hybrid cell refuses. -/
theorem C59_refused {B I H : ℕ} (env : Env) (mode : String) (width depthIsmul : ℕ) (name : String) (depth : ℤ)
    (wf wn : Fin H → Fin (H + I) → ℚ) (bias : Bool) (bf bn : Option (Fin H → ℚ)) (x : Fin B → Fin I → ℚ)
    (hx? : Option (Fin B → Fin H → ℚ)) (h : mode.toLower ≠ "bipolar" ∨ (bias = true ∧ (bf = none ∨ bn = none))) :
    ∃ e, hubMGU env mode width depthIsmul name depth wf wn bias bf bn x hx? = .error e := by
  obtain ⟨e, he⟩ := C56_refused env mode width depthIsmul name depth wf wn bias bf bn (some (hx?.getD fun _ _ => 0)) (by
    rcases h with h | h
    · exact Or.inl h
    · exact Or.inr (Or.inl h))
  exact ⟨e, by
    unfold hubMGU
    show (mkFsu env mode width depthIsmul name depth wf wn bias bf bn (some (hx?.getD fun _ _ => 0)) >>= _) = _
    rw [he]; rfl⟩

/-- Non-vacuity of C59: a hybrid cell of width 2 that returns a value. -/
example : (hubMGU (B := 1) (I := 1) (H := 1) ⟨30, fun _ => 1, fun _ _ => false, []⟩ "Bipolar" 2 2 "Sobol" 8 (fun _ _ => 1/2) (fun _ _ => -1/2)
      true (some fun _ => 1/4) (some fun _ => 0) (fun _ _ => 1/2) none).toBool = true := by decide +kernel

end Verif.Props
