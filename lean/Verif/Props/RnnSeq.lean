import Verif.Props.RnnRate

/-!
# Property C74: recurrent cells over whole sequences
-/

namespace Verif.Props

open Verif Finset Gen Linear Rnn

theorem hardtanh_near (a b : ℚ) : |hardtanh a - hardtanh b| ≤ |a - b| := by
  unfold hardtanh clamp
  refine le_trans (abs_min_sub_min_le_max _ _ _ _) ?_
  rw [sub_self, abs_zero, max_eq_left (abs_nonneg _)]
  refine le_trans (abs_max_sub_max_le_max _ _ _ _) ?_
  rw [sub_self, abs_zero, max_eq_left (abs_nonneg _)]

private theorem ht_abs (a : ℚ) : |hardtanh a| ≤ 1 := by
  unfold hardtanh clamp
  rw [abs_le]
  exact ⟨le_min (le_max_right _ _) (by norm_num), min_le_right _ _⟩

/-- Row sums of the recurrent weights. -/
def Spec.RowSum {I H : ℕ} (w : Fin H → Fin (H + I) → ℚ) (W : ℚ) : Prop := ∀ o, ∑ k : Fin H, |w o (Fin.castAdd I k)| ≤ W

theorem lin_state {I H : ℕ} (w : Fin H → Fin (H + I) → ℚ) (b : Option (Fin H → ℚ)) (x : Fin I → ℚ) (h h' : Fin H → ℚ) (W δ : ℚ)
    (hW : Spec.RowSum w W) (hδ : ∀ o, |h' o - h o| ≤ δ) (hδ0 : 0 ≤ δ) (o : Fin H) :
    |lin w b (Fin.append h' x) o - lin w b (Fin.append h x) o| ≤ W * δ := by
  unfold lin
  rw [Fin.sum_univ_add, Fin.sum_univ_add]
  simp only [Fin.append_left, Fin.append_right]
  have e : ∑ k : Fin H, h' k * w o (Fin.castAdd I k) + ∑ k, x k * w o (Fin.natAdd H k) + (b.map fun v => v o).getD 0
      - (∑ k : Fin H, h k * w o (Fin.castAdd I k) + ∑ k, x k * w o (Fin.natAdd H k) + (b.map fun v => v o).getD 0)
      = ∑ k : Fin H, (h' k - h k) * w o (Fin.castAdd I k) := by
    simp only [sub_mul, sum_sub_distrib]; ring
  rw [e]
  refine le_trans (abs_sum_le_sum_abs _ _) ?_
  refine le_trans (sum_le_sum (g := fun k => |w o (Fin.castAdd I k)| * δ) fun k _ => ?_) ?_
  · rw [abs_mul, mul_comm]
    exact mul_le_mul_of_nonneg_left (hδ k) (abs_nonneg _)
  · rw [← sum_mul]
    exact mul_le_mul_of_nonneg_right (hW o) hδ0

/-- C74: the hard cell is Lipschitz in its state: with recurrent weights of row sums at most `Wf` (gate) and `Wn` (candidate),
states that differ by `δ` are mapped to states that differ by at most `(Wf + max 1 (Wn (1 + Wf / 2))) δ`. -/
theorem C74_lipschitz {I H : ℕ} (p : Params ℚ I H) (x : Fin I → ℚ) (h h' : Fin H → ℚ) (Wf Wn δ : ℚ)
    (hWf : Spec.RowSum p.wf Wf) (hWn : Spec.RowSum p.wn Wn) (hh : ∀ o, |h o| ≤ 1) (hh' : ∀ o, |h' o| ≤ 1)
    (hδ : ∀ o, |h' o - h o| ≤ δ) (o : Fin H) :
    |(hardCell p x h').hy o - (hardCell p x h).hy o| ≤ (Wf + max 1 (Wn * (1 + Wf / 2))) * δ := by
  have hδ0 : 0 ≤ δ := le_trans (abs_nonneg _) (hδ o)
  have hWf0 : 0 ≤ Wf := le_trans (sum_nonneg fun k _ => abs_nonneg _) (hWf o)
  have hWn0 : 0 ≤ Wn := le_trans (sum_nonneg fun k _ => abs_nonneg _) (hWn o)
  obtain ⟨L, e⟩ := C54_step hardsigm hardtanh hardsigm_range ht_abs p x h hh
  obtain ⟨L', e'⟩ := C54_step hardsigm hardtanh hardsigm_range ht_abs p x h' hh'
  have ht : cellRow hardsigm hardtanh p x h = hardCell p x h := rfl
  have ht' : cellRow hardsigm hardtanh p x h' = hardCell p x h' := rfl
  rw [ht] at L e; rw [ht'] at L' e'
  set t := hardCell p x h
  set t' := hardCell p x h'
  have g : ∀ o, t.fg o = (t.fgIn o + 1) / 2 := fun o => hardsigm_eq _ (ht_abs _)
  have g' : ∀ o, t'.fg o = (t'.fgIn o + 1) / 2 := fun o => hardsigm_eq _ (ht_abs _)
  have r : ∀ o, 0 ≤ t.fg o ∧ t.fg o ≤ 1 := fun o => hardsigm_range _ (ht_abs _)
  have r' : ∀ o, 0 ≤ t'.fg o ∧ t'.fg o ≤ 1 := fun o => hardsigm_range _ (ht_abs _)
  have k2 : ∀ o, |t'.fg o - t.fg o| ≤ Wf * δ / 2 := by
    intro o
    have k1 : |t'.fgIn o - t.fgIn o| ≤ Wf * δ := le_trans (hardtanh_near _ _) (lin_state p.wf p.bf x h h' Wf δ hWf hδ hδ0 o)
    rw [g, g']
    rw [abs_le] at k1 ⊢
    constructor <;> linarith [k1.1, k1.2]
  have k3 : ∀ o, |t'.fgHx o - t.fgHx o| ≤ (1 + Wf / 2) * δ := by
    intro o
    show |t'.fg o * h' o - t.fg o * h o| ≤ _
    have e1 : t'.fg o * h' o - t.fg o * h o = t'.fg o * (h' o - h o) + (t'.fg o - t.fg o) * h o := by ring
    rw [e1]
    refine le_trans (abs_add_le _ _) ?_
    rw [abs_mul, abs_mul, abs_of_nonneg (r' o).1]
    have a1 := mul_le_mul (r' o).2 (hδ o) (abs_nonneg _) (by norm_num)
    have a2 := mul_le_mul (k2 o) (hh o) (abs_nonneg _) (by positivity)
    linarith
  have k4 : |t'.ng o - t.ng o| ≤ Wn * ((1 + Wf / 2) * δ) :=
    le_trans (hardtanh_near _ _) (lin_state p.wn p.bn x t.fgHx t'.fgHx Wn _ hWn k3 (by positivity) o)
  have rn : |t.ng o| ≤ 1 := ht_abs _
  rw [e o, e' o]
  have e2 : (1 - t'.fg o) * t'.ng o + t'.fg o * h' o - ((1 - t.fg o) * t.ng o + t.fg o * h o)
      = ((1 - t'.fg o) * (t'.ng o - t.ng o) + t'.fg o * (h' o - h o)) + (t'.fg o - t.fg o) * (h o - t.ng o) := by ring
  rw [e2]
  refine le_trans (abs_add_le _ _) ?_
  have m1 : |(1 - t'.fg o) * (t'.ng o - t.ng o) + t'.fg o * (h' o - h o)| ≤ max 1 (Wn * (1 + Wf / 2)) * δ := by
    refine le_trans (abs_add_le _ _) ?_
    rw [abs_mul, abs_mul, abs_of_nonneg (r' o).1, abs_of_nonneg (by linarith [(r' o).2] : 0 ≤ 1 - t'.fg o)]
    have b1 : |t'.ng o - t.ng o| ≤ max 1 (Wn * (1 + Wf / 2)) * δ := by
      refine le_trans k4 ?_
      rw [← mul_assoc]
      exact mul_le_mul_of_nonneg_right (le_max_right _ _) hδ0
    have b2 : |h' o - h o| ≤ max 1 (Wn * (1 + Wf / 2)) * δ := by
      refine le_trans (hδ o) ?_
      have := mul_le_mul_of_nonneg_right (le_max_left 1 (Wn * (1 + Wf / 2))) hδ0
      linarith
    have c1 := mul_le_mul_of_nonneg_left b1 (by linarith [(r' o).2] : 0 ≤ 1 - t'.fg o)
    have c2 := mul_le_mul_of_nonneg_left b2 (r' o).1
    linarith
  have m2 : |(t'.fg o - t.fg o) * (h o - t.ng o)| ≤ Wf * δ := by
    rw [abs_mul]
    have d : |h o - t.ng o| ≤ 2 := by
      have h1 := abs_le.1 (hh o)
      have h2 := abs_le.1 rn
      rw [abs_le]; constructor <;> linarith [h1.1, h1.2, h2.1, h2.2]
    have := mul_le_mul (k2 o) d (abs_nonneg _) (by positivity)
    linarith
  linarith

/-! ## Sequences -/

namespace Spec

/-- States of a `HUBMGUCell` that is called with the batches `x 0`, `x 1`, … and the state it returned last. -/
def hubHidden {B I H : ℕ} (cell : (Fin B → Fin I → ℚ) → Option (Fin B → Fin H → ℚ) → Except PyErr (Fin B → Fin H → ℚ))
    (x : ℕ → Fin B → Fin I → ℚ) (h0 : Option (Fin B → Fin H → ℚ)) : ℕ → Except PyErr (Option (Fin B → Fin H → ℚ))
  | 0 => .ok h0
  | t + 1 => do
      let h ← hubHidden cell x h0 t
      let y ← cell (x t) h
      pure (some y)

end Spec

/-- If every call of a cell is within `E` of the hard cell, the states of a sequence stay within `E (1 + L + … + L^(t-1))`. -/
theorem cell_accumulate {H : ℕ} (hard : ℕ → (Fin H → ℚ) → Fin H → ℚ) (E L : ℚ)
    (hlip : ∀ t (h h' : Fin H → ℚ), (∀ o, |h o| ≤ 1) → (∀ o, |h' o| ≤ 1) → ∀ δ, (∀ o, |h' o - h o| ≤ δ) → ∀ o, |hard t h' o - hard t h o| ≤ L * δ)
    (hleg : ∀ t h, (∀ o, |h o| ≤ 1) → ∀ o, |hard t h o| ≤ 1)
    (a b : ℕ → Fin H → ℚ) (h0 : a 0 = b 0) (hb0 : ∀ o, |b 0 o| ≤ 1) (ha1 : ∀ t o, |a (t + 1) o| ≤ 1)
    (ha : ∀ t, (∀ o, |a t o| ≤ 1) → ∀ o, |a (t + 1) o - hard t (a t) o| ≤ E) (hb : ∀ t, b (t + 1) = hard t (b t)) (t : ℕ) :
    (∀ o, |a t o| ≤ 1) ∧ (∀ o, |b t o| ≤ 1) ∧ ∀ o, |a t o - b t o| ≤ E * ∑ k ∈ range t, L ^ k := by
  induction t with
  | zero => rw [h0]; exact ⟨hb0, hb0, fun o => by simp⟩
  | succ t ih =>
      obtain ⟨i1, i2, i3⟩ := ih
      refine ⟨ha1 t, by rw [hb]; exact hleg t _ i2, fun o => ?_⟩
      have e : a (t + 1) o - b (t + 1) o = (a (t + 1) o - hard t (a t) o) + (hard t (a t) o - hard t (b t) o) := by rw [hb]; ring
      rw [e]
      refine le_trans (abs_add_le _ _) ?_
      have k1 := ha t i1 o
      have k2 := hlip t (b t) (a t) i2 i1 _ i3 o
      rw [sum_range_succ', pow_zero]
      have e3 : L * (E * ∑ k ∈ range t, L ^ k) = E * ∑ k ∈ range t, L ^ (k + 1) := by
        rw [mul_sum, mul_sum, mul_sum]
        exact sum_congr rfl fun k _ => by ring
      linarith

private theorem mkFsu_any {B I H : ℕ} {env : Env} {mode : String} {width depthIsmul : ℕ} {name : String} {depth : ℤ}
    {wf wn : Fin H → Fin (H + I) → ℚ} {bias : Bool} {bf bn : Option (Fin H → ℚ)} {hb : Fin B → Fin H → ℚ} {c : Fsu B I H}
    (h : mkFsu env mode width depthIsmul name depth wf wn bias bf bn (some hb) = .ok c) (hb' : Fin B → Fin H → ℚ) :
    ∃ c', mkFsu env mode width depthIsmul name depth wf wn bias bf bn (some hb') = .ok c' := by
  unfold mkFsu at h ⊢
  split_ifs at h ⊢
  obtain ⟨f, hf, h⟩ := except_bind_ok h
  obtain ⟨n, hn, h⟩ := except_bind_ok h
  obtain ⟨sg, hsg, h⟩ := except_bind_ok h
  obtain ⟨m, hm, h⟩ := except_bind_ok h
  obtain ⟨r, hr, h⟩ := except_bind_ok h
  obtain ⟨r', hr', h⟩ := except_bind_ok h
  obtain ⟨rn, hrn, h⟩ := except_bind_ok h
  obtain ⟨out, hout, h⟩ := except_bind_ok h
  simp only [hf, hn, hsg, hm, hr, hr', hrn, hout, bind, Except.bind]
  exact ⟨_, rfl⟩

/-- A cell on a batch, as a sequence of calls with lists of rows. -/
private theorem hard_hidden {B I H : ℕ} (cell : (Fin I → ℚ) → (Fin H → ℚ) → Trace ℚ H) (x : ℕ → Fin B → Fin I → ℚ) (h0 : Fin B → Fin H → ℚ)
    (b : ℕ → Fin B → Fin H → ℚ) (hb0 : b 0 = h0) (hb : ∀ t r, b (t + 1) r = (cell (x t r) (b t r)).hy) (t : ℕ) :
    Spec.hidden cell (fun t => List.ofFn (x t)) (some (List.ofFn h0)) t = .ok (some (List.ofFn (b t))) := by
  induction t with
  | zero => rw [hb0]; rfl
  | succ t ih =>
      unfold Spec.hidden
      rw [ih]
      show (forward cell (List.ofFn (x t)) (some (List.ofFn (b t))) >>= fun r => pure (some (r.map fun r => r.hy))) = _
      unfold forward
      simp only [Option.getD_some, List.length_ofFn, ne_eq, not_true_eq_false, if_false]
      show Except.ok (some _) = _
      congr 2
      apply List.ext_getElem (by simp)
      intro n h1 h2
      simp only [List.length_map, List.length_zipWith, List.length_ofFn, min_self] at h1
      simp [hb]

/-- C74: recurrent networks.  Feed a `HUBMGUCell` any sequence of batches, each time with the state it returned last, and do
the same with a `HardMGUCell` of the same parameters.  No call fails, and after `t` steps the states differ by at most
`E (1 + L + … + L^(t-1))`, where `E` is the error of a single call and `L` the Lipschitz constant of the cell. -/
theorem C74_hybrid_sequence {B I H : ℕ} (hB : 0 < B) (env : Env) (mode : String) (width d : ℕ) (name : String) (depth : ℤ)
    (hn : name.toLower ∈ ["sobol", "rc"]) (hdir : DirOK env.sobolM) (hw : width ≤ env.maxbit) (hwd : d ≤ env.maxbit)
    (hdep : 4 ≤ depth) (p : Params ℚ I H) (hwf : ∀ o i, |p.wf o i| ≤ 1) (hwn : ∀ o i, |p.wn o i| ≤ 1)
    (Wf Wn : ℚ) (hWf : Spec.RowSum p.wf Wf) (hWn : Spec.RowSum p.wn Wn)
    (bias : Bool) (hbias : bias = false → p.bf = none ∧ p.bn = none) (hbf : ∀ v, p.bf = some v → ∀ o, |v o| ≤ 1)
    (hbn : ∀ v, p.bn = some v → ∀ o, |v o| ≤ 1) (x : ℕ → Fin B → Fin I → ℚ) (hxr : ∀ t b i, |x t b i| ≤ 1)
    (h0? : Option (Fin B → Fin H → ℚ)) (h0 : Fin B → Fin H → ℚ) (hh0 : h0 = h0?.getD fun _ _ => 0) (hhr : ∀ b o, |h0 b o| ≤ 1) (c : Fsu B I H)
    (hc : mkFsu env mode width d name depth p.wf p.wn bias p.bf p.bn (some h0) = .ok c)
    (hd3 : 2 + Spec.c3 I H width d bias (4 * width) / 2 ≤ (2:ℚ) ^ (depth - 2)) (E L : ℚ)
    (hE : E = (2 + 2 * Spec.c2 I H width bias (4 * width)) / 2 ^ d
      + (2 + 2 * Spec.c3 I H width d bias (4 * width) + (2 * H + 2) * (2 * (H + I + 2)) + 4 * (I + 1)) / 2 ^ width)
    (hL : L = Wf + max 1 (Wn * (1 + Wf / 2))) (t : ℕ) :
    ∃ (y : Option (Fin B → Fin H → ℚ)) (z : Fin B → Fin H → ℚ),
      Spec.hubHidden (hubMGU env mode width d name depth p.wf p.wn bias p.bf p.bn) x h0? t = .ok y ∧
      Spec.hidden (hardCell p) (fun t => List.ofFn (x t)) (some (List.ofFn h0)) t = .ok (some (List.ofFn z)) ∧
      ∀ b o, |(y.getD fun _ _ => 0) b o| ≤ 1 ∧ |(y.getD fun _ _ => 0) b o - z b o| ≤ E * ∑ k ∈ range t, L ^ k := by
  -- one call, for any legal state
  have call : ∀ (t : ℕ) (h? : Option (Fin B → Fin H → ℚ)), (∀ b o, |(h?.getD fun _ _ => 0) b o| ≤ 1) →
      ∃ y : Fin B → Fin H → ℚ, hubMGU env mode width d name depth p.wf p.wn bias p.bf p.bn (x t) h? = .ok y ∧ (∀ b o, |y b o| ≤ 1) ∧
        ∀ b o, |y b o - (hardCell p (x t b) ((h?.getD fun _ _ => 0) b)).hy o| ≤ E := by
    intro t h? hl
    obtain ⟨c', hc'⟩ := mkFsu_any hc (h?.getD fun _ _ => 0)
    obtain ⟨y, y1, y2⟩ := C62_end_to_end hB env mode width d name depth hn hdir hw hwd hdep p hwf hwn bias hbias hbf hbn (x t) (hxr t) _ hl c' hc' hd3
    have y1' : hubMGU env mode width d name depth p.wf p.wn bias p.bf p.bn (x t) h? = .ok y := y1
    obtain ⟨l, hl', hperm⟩ := C02_sobol_perm env width name hn hdir hw
    obtain ⟨y', _, k1, _, k3⟩ := C59_value hB env mode width d name depth p.wf p.wn bias p.bf p.bn (x t) h? _ rfl c' hc' l hl' hperm
    rw [y1'] at k1; cases k1
    exact ⟨y, y1', fun b o => (k3 b o).2.1, fun b o => by rw [hE]; exact y2 b o⟩
  -- all calls
  have run : ∀ t, ∃ y : Option (Fin B → Fin H → ℚ), Spec.hubHidden (hubMGU env mode width d name depth p.wf p.wn bias p.bf p.bn) x h0? t = .ok y ∧
      ∀ b o, |(y.getD fun _ _ => 0) b o| ≤ 1 := by
    intro t
    induction t with
    | zero => exact ⟨h0?, rfl, by rw [← hh0]; exact hhr⟩
    | succ t ih =>
        obtain ⟨y, h1, h2⟩ := ih
        obtain ⟨y', h3, h4, -⟩ := call t y h2
        refine ⟨some y', ?_, h4⟩
        unfold Spec.hubHidden
        rw [h1]
        show (hubMGU env mode width d name depth p.wf p.wn bias p.bf p.bn (x t) y >>= fun y => pure (some y)) = _
        rw [h3]; rfl
  choose y hy hyl using run
  have next : ∀ t b o, |((y (t + 1)).getD fun _ _ => 0) b o - (hardCell p (x t b) (((y t).getD fun _ _ => 0) b)).hy o| ≤ E := by
    intro t b o
    obtain ⟨y', h3, h4, h5⟩ := call t (y t) (hyl t)
    have h6 := hy (t + 1)
    unfold Spec.hubHidden at h6
    rw [hy t] at h6
    change (hubMGU env mode width d name depth p.wf p.wn bias p.bf p.bn (x t) (y t) >>= fun y => pure (some y)) = _ at h6
    rw [h3] at h6
    have h7 : some y' = y (t + 1) := Except.ok.inj h6
    rw [← h7]
    exact h5 b o
  have hy0 : (y 0).getD (fun _ _ => 0) = h0 := by
    have : h0? = y 0 := Except.ok.inj (hy 0)
    rw [← this, hh0]
  let z : ℕ → Fin B → Fin H → ℚ := fun t => Nat.rec h0 (fun t z b => (hardCell p (x t b) (z b)).hy) t
  refine ⟨y t, z t, hy t, hard_hidden (hardCell p) x h0 z rfl (fun t r => rfl) t, fun b o => ?_⟩
  obtain ⟨a1, -, a3⟩ := cell_accumulate (fun t h => (hardCell p (x t b) h).hy) E L
    (fun t h h' hh hh' δ hδ o => by rw [hL]; exact C74_lipschitz p (x t b) h h' Wf Wn δ hWf hWn hh hh' hδ o)
    (fun t h hh o => C54_recovers _ _ p (x t b) h o)
    (fun t => ((y t).getD fun _ _ => 0) b) (fun t => z t b) (by rw [hy0]; rfl) (fun o => hhr b o) (fun t o => hyl _ b o)
    (fun t _ o => next t b o) (fun t => rfl) t
  exact ⟨a1 o, a3 o⟩

/-- C74: the same for the fixed-point cell: from the same legal state, `HardMGUCellFXP` stays within `E (1 + L + … + L^(t-1))` of
`HardMGUCell` over any sequence of batches, where `E` is the error of one call from equal states. -/
theorem C74_fxp_sequence {B I H : ℕ} (i : ℤ) (hi : 1 ≤ i) (f : ℕ) (p : Params ℚ I H) (X V R δ : ℚ)
    (hR : R = (2:ℚ) ^ i - 1 / 2 ^ f) (hδ : δ = 1 / (2 * 2 ^ f)) (hX1 : 1 ≤ X) (hXR : X ≤ R) (hVR : V ≤ R)
    (hwf : ∀ o k, |p.wf o k| ≤ V) (hwn : ∀ o k, |p.wn o k| ≤ V)
    (hbf : ∀ b, p.bf = some b → ∀ o, |b o| ≤ R) (hbn : ∀ b, p.bn = some b → ∀ o, |b o| ≤ R)
    (Wf Wn : ℚ) (hWf : Spec.RowSum p.wf Wf) (hWn : Spec.RowSum p.wn Wn)
    (x : ℕ → Fin B → Fin I → ℚ) (hxX : ∀ t b k, |x t b k| ≤ X) (h0 : Fin B → Fin H → ℚ) (hhr : ∀ b o, |h0 b o| ≤ 1)
    (ef eg eh en E L : ℚ) (hef : ef = (H + I : ℕ) * (X * δ + V * δ + δ * δ) + δ)
    (heg : eg = (ef + δ) / 2 + δ) (heh : eh = eg + δ + δ) (hen : en = (H + I : ℕ) * (X * δ + V * eh + eh * δ) + δ)
    (hE : E = (en + 2 * δ) + (eg + (en + 2 * δ) + δ) + eh) (hL : L = Wf + max 1 (Wn * (1 + Wf / 2))) (t : ℕ) :
    ∃ y z : Fin B → Fin H → ℚ,
      Spec.hidden (fxpCell i f p) (fun t => List.ofFn (x t)) (some (List.ofFn h0)) t = .ok (some (List.ofFn y)) ∧
      Spec.hidden (hardCell p) (fun t => List.ofFn (x t)) (some (List.ofFn h0)) t = .ok (some (List.ofFn z)) ∧
      ∀ b o, |y b o| ≤ 1 ∧ |y b o - z b o| ≤ E * ∑ k ∈ range t, L ^ k := by
  let y : ℕ → Fin B → Fin H → ℚ := fun t => Nat.rec h0 (fun t z b => (fxpCell i f p (x t b) (z b)).hy) t
  let z : ℕ → Fin B → Fin H → ℚ := fun t => Nat.rec h0 (fun t z b => (hardCell p (x t b) (z b)).hy) t
  refine ⟨y t, z t, hard_hidden _ x h0 y rfl (fun t r => rfl) t, hard_hidden _ x h0 z rfl (fun t r => rfl) t, fun b o => ?_⟩
  obtain ⟨a1, -, a3⟩ := cell_accumulate (fun t h => (hardCell p (x t b) h).hy) E L
    (fun t h h' hh hh' δ hδ o => by rw [hL]; exact C74_lipschitz p (x t b) h h' Wf Wn δ hWf hWn hh hh' hδ o)
    (fun t h hh o => C54_recovers _ _ p (x t b) h o)
    (fun t => y t b) (fun t => z t b) rfl (fun o => hhr b o) (fun t o => ht_abs _)
    (fun t hl o => by
      have := (C55_error i hi f p (x t b) (y t b) (y t b) X V R δ 0 hR hδ hX1 hXR hVR (hxX t b) hwf hwn hbf hbn hl hl (fun o => by simp)
        ef eg eh en (by rw [hef]; ring) heg (by rw [heh]; ring) hen o).2.2
      rw [hE]; exact this) (fun t => rfl) t
  exact ⟨a1 o, a3 o⟩

/-- Non-vacuity: with the parameters of the examples of C62 (one input, one unit, recurrent weights of size 1/2) the Lipschitz constant
is 3/2. -/
example : Spec.RowSum (I := 1) (H := 1) (fun _ _ => 1/2) (1/2) ∧ Spec.RowSum (I := 1) (H := 1) (fun _ _ => -1/2) (1/2) ∧
    (1/2 : ℚ) + max 1 (1/2 * (1 + 1/2 / 2)) = 3/2 := by
  refine ⟨fun o => ?_, fun o => ?_, by norm_num⟩ <;> norm_num [abs_of_neg, abs_of_pos]

/-- Non-vacuity of the fixed-point sequence: 3 integer and 8 fraction bits, weights of size 1/2, inputs up to 1. -/
example : ∃ y z : Fin 2 → Fin 1 → ℚ,
    Spec.hidden (fxpCell (I := 1) (H := 1) 3 8 ⟨fun _ _ => 1/2, fun _ _ => -1/2, none, none⟩) (fun t => List.ofFn fun (_ : Fin 2) _ => 1 / (t + 1 : ℚ))
      (some (List.ofFn fun (_ : Fin 2) _ => 1/4)) 7 = .ok (some (List.ofFn y)) ∧
    Spec.hidden (hardCell (I := 1) (H := 1) ⟨fun _ _ => 1/2, fun _ _ => -1/2, none, none⟩) (fun t => List.ofFn fun (_ : Fin 2) _ => 1 / (t + 1 : ℚ))
      (some (List.ofFn fun (_ : Fin 2) _ => 1/4)) 7 = .ok (some (List.ofFn z)) ∧
    ∀ b o, |y b o| ≤ 1 ∧ |y b o - z b o| ≤ (2034945/33554432 : ℚ) * ∑ k ∈ range 7, (3/2 : ℚ) ^ k := by
  refine C74_fxp_sequence 3 (by norm_num) 8 ⟨fun _ _ => 1/2, fun _ _ => -1/2, none, none⟩ 1 (1/2) _ _ rfl rfl le_rfl (by norm_num) (by norm_num)
    (fun _ _ => by norm_num [abs_of_pos]) (fun _ _ => by norm_num [abs_of_neg]) (by simp) (by simp) (1/2) (1/2)
    (fun o => by norm_num [abs_of_pos]) (fun o => by norm_num [abs_of_neg]) (fun t _ _ => 1 / (t + 1 : ℚ)) (fun t _ _ => ?_)
    (fun _ _ => 1/4) (fun _ _ => by norm_num [abs_of_pos]) _ _ _ _ _ _ rfl rfl rfl rfl ?_ (by norm_num) 7
  · rw [abs_of_nonneg (by positivity), div_le_one (by positivity)]
    have : (0:ℚ) ≤ t := by positivity
    linarith
  · norm_num

/-- The constant cannot be below one in general: a cell that keeps its state maps states at distance `δ` to states at
distance `δ`, so errors of single calls add up. -/
theorem C74_keeps (h h' : ℚ) (hh : |h| ≤ 1) (hh' : |h'| ≤ 1) :
    (hardCell (K := ℚ) (I := 1) (H := 1) ⟨fun _ _ => 0, fun _ _ => 0, some fun _ => 1, none⟩ (fun _ => 0) (fun _ => h')).hy 0
    - (hardCell (K := ℚ) (I := 1) (H := 1) ⟨fun _ _ => 0, fun _ _ => 0, some fun _ => 1, none⟩ (fun _ => 0) (fun _ => h)).hy 0 = h' - h := by
  have k : ∀ a : ℚ, |a| ≤ 1 → (hardCell (K := ℚ) (I := 1) (H := 1) ⟨fun _ _ => 0, fun _ _ => 0, some fun _ => 1, none⟩ (fun _ => 0) (fun _ => a)).hy 0 = a :=
    fun a ha => (C54_gate _ (fun _ => 0) (fun _ => a) (fun _ => ha) 0).1 (by simp)
  rw [k h hh, k h' hh']

end Verif.Props
