import Verif.Spec
import Verif.Model.Shuffle

/-!
# Properties C10–C13: `SkewedSync`, `Bi2Uni`, `Uni2Bi`
-/

namespace Verif.Props

open Verif Finset Spec Shuffle

/-! ## SkewedSync -/

/-- `out_1` of a fresh `SkewedSync` fed with tensors of a fixed shape. -/
def ssOut (depth : ℕ) (sh : List ℕ) (x y : ℕ → ℤ) (t : ℕ) : ℤ :=
  (outAt (ssStep depth) ssInit (fun t => (sh, x t, y t)) t).1

/-- second output. -/
def ssOut2 (depth : ℕ) (sh : List ℕ) (x y : ℕ → ℤ) (t : ℕ) : ℤ :=
  (outAt (ssStep depth) ssInit (fun t => (sh, x t, y t)) t).2

/-- Bits withheld by the synchroniser before call `t`. -/
def ssHeld (depth : ℕ) (sh : List ℕ) (x y : ℕ → ℤ) (t : ℕ) : ℤ :=
  (stateAt (ssStep depth) ssInit (fun t => (sh, x t, y t)) t).cnt

/-- One cycle, on the effective counter. -/
theorem ssHeld_step (depth : ℕ) (sh : List ℕ) (x y : ℕ → ℤ) (hx : BitStream x) (hy : BitStream y)
    (t : ℕ) :
    0 ≤ ssHeld depth sh x y t ∧ ssHeld depth sh x y t ≤ 2 ^ depth - 1 ∧
    ssOut depth sh x y t =
      (if x t = 0 ∧ y t = 1 ∧ ssHeld depth sh x y t ≠ 0 then 1
       else if x t = 1 ∧ y t = 0 ∧ ssHeld depth sh x y t ≠ 2 ^ depth - 1 then 0 else x t) ∧
    ssHeld depth sh x y (t + 1) = ssHeld depth sh x y t + x t - ssOut depth sh x y t := by
  have hp : (0:ℤ) < 2 ^ depth := by positivity
  have inv : ∀ t, (0 ≤ ssHeld depth sh x y t ∧ ssHeld depth sh x y t ≤ 2 ^ depth - 1) ∧
      ((stateAt (ssStep depth) ssInit (fun t => (sh, x t, y t)) t).shape ≠ sh → ssHeld depth sh x y t = 0) := by
    intro t
    induction t with
    | zero => exact ⟨⟨le_refl _, by show (0:ℤ) ≤ _; omega⟩, fun _ => rfl⟩
    | succ t ih =>
        refine ⟨?_, ?_⟩
        · unfold ssHeld
          rw [stateAt_succ]
          simp only [ssStep]
          exact ⟨le_clamp (by omega), clamp_le _ _ _⟩
        · intro h; exfalso; apply h; rw [stateAt_succ]; rfl
  obtain ⟨⟨h0, h1⟩, hs⟩ := inv t
  refine ⟨h0, h1, ?_⟩
  have hc : (if (stateAt (ssStep depth) ssInit (fun t => (sh, x t, y t)) t).shape ≠ sh then 0
      else (stateAt (ssStep depth) ssInit (fun t => (sh, x t, y t)) t).cnt) = ssHeld depth sh x y t := by
    split_ifs with h
    · exact (hs h).symm
    · rfl
  have ho : ssOut depth sh x y t = x t + ind (x t + y t = 1) *
      ((ind (ssHeld depth sh x y t ≠ 0) : ℤ) * (1 - x t) + (0 - ind (ssHeld depth sh x y t ≠ 2 ^ depth - 1)) * x t) := by
    unfold ssOut outAt
    simp only [ssStep]
    rw [hc]
  have hn : ssHeld depth sh x y (t + 1) = clamp 0 (2 ^ depth - 1)
      (ssHeld depth sh x y t + ind (x t + y t = 1) * (x t * 2 - 1)) := by
    conv_lhs => unfold ssHeld
    rw [stateAt_succ]
    simp only [ssStep]
    rw [hc]
  rw [hn, ho]
  unfold clamp ind
  generalize ssHeld depth sh x y t = c at *
  generalize (2:ℤ) ^ depth = U at *
  rcases hx t with h | h <;> rcases hy t with h' | h' <;> rw [h, h'] <;> simp <;>
    (try split_ifs) <;> simp_all <;> omega

/-- C10: outputs are bits; the second input passes unchanged. -/
theorem C10_bits (depth : ℕ) (sh : List ℕ) (x y : ℕ → ℤ) (hx : BitStream x) (hy : BitStream y) (t : ℕ) :
    IsBit (ssOut depth sh x y t) ∧ ssOut2 depth sh x y t = y t := by
  refine ⟨?_, rfl⟩
  rw [(ssHeld_step depth sh x y hx hy t).2.2.1]
  split_ifs
  · exact Or.inr rfl
  · exact Or.inl rfl
  · exact hx t

theorem ssHeld_conserve (depth : ℕ) (sh : List ℕ) (x y : ℕ → ℤ) (hx : BitStream x) (hy : BitStream y)
    (n : ℕ) : ones x n = ones (ssOut depth sh x y) n + ssHeld depth sh x y n := by
  induction n with
  | zero => rfl
  | succ n ih =>
      rw [ones_succ, ones_succ, ih, (ssHeld_step depth sh x y hx hy n).2.2.2]; ring

/-- C10: no bit is created, and at most `2^depth - 1` bits are withheld, in every prefix. -/
theorem C10_conservation (depth : ℕ) (sh : List ℕ) (x y : ℕ → ℤ) (hx : BitStream x) (hy : BitStream y)
    (n : ℕ) :
    0 ≤ ones x n - ones (ssOut depth sh x y) n ∧
    ones x n - ones (ssOut depth sh x y) n ≤ 2 ^ depth - 1 := by
  have h := ssHeld_conserve depth sh x y hx hy n
  have h2 := ssHeld_step depth sh x y hx hy n
  omega

/-- C10: value preservation. -/
theorem C10_value (depth : ℕ) (sh : List ℕ) (x y : ℕ → ℤ) (hx : BitStream x) (hy : BitStream y) (n : ℕ)
    (hn : 0 < n) :
    |uniValue x n - uniValue (ssOut depth sh x y) n| ≤ (2 ^ depth - 1) / n := by
  obtain ⟨h0, h1⟩ := C10_conservation depth sh x y hx hy n
  have hn' : (0:ℚ) < n := by exact_mod_cast hn
  unfold uniValue
  rw [← sub_div, abs_div, abs_of_pos hn']
  apply div_le_div_of_nonneg_right _ hn'.le
  have a : (0:ℚ) ≤ (ones x n : ℚ) - ones (ssOut depth sh x y) n := by exact_mod_cast h0
  have b : (ones x n : ℚ) - ones (ssOut depth sh x y) n ≤ 2 ^ depth - 1 := by exact_mod_cast h1
  rw [abs_of_nonneg a]; exact b

/-- Non-vacuity: a depth-2 synchroniser on `1 0 1 0 …` against `0 1 0 1 …` delays the ones. -/
example : (List.range 4).map (ssOut 2 [1] (fun t => ((t + 1) % 2 : ℕ)) (fun t => (t % 2 : ℕ))) = [0, 1, 0, 1] := by
  decide

/-- C11: the output exceeds the reference only when the input is `1` and the backlog is full. -/
theorem C11_excess (depth : ℕ) (sh : List ℕ) (x y : ℕ → ℤ) (hx : BitStream x) (hy : BitStream y) (t : ℕ)
    (h1 : ssOut depth sh x y t = 1) (h2 : y t = 0) :
    x t = 1 ∧ ones x t - ones (ssOut depth sh x y) t = 2 ^ depth - 1 := by
  have h := ssHeld_step depth sh x y hx hy t
  have hc := ssHeld_conserve depth sh x y hx hy t
  rw [h.2.2.1] at h1
  rw [hc]
  rcases hx t with hx' | hx' <;> simp [hx', h2] at h1
  refine ⟨hx', ?_⟩
  omega

/-- C11: conversely a saturated backlog leaks the excess one. -/
theorem C11_excess_leaks (depth : ℕ) (sh : List ℕ) (x y : ℕ → ℤ) (hx : BitStream x) (hy : BitStream y) (t : ℕ)
    (h1 : x t = 1) (h2 : y t = 0) (h3 : ones x t - ones (ssOut depth sh x y) t = 2 ^ depth - 1) :
    ssOut depth sh x y t = 1 := by
  have h := ssHeld_step depth sh x y hx hy t
  have hc := ssHeld_conserve depth sh x y hx hy t
  rw [h.2.2.1]
  have : ssHeld depth sh x y t = 2 ^ depth - 1 := by omega
  simp [h1, h2, this]

/-- The backlog is at most the largest excess of `x` over `y` in a window ending now. -/
private theorem ss_backlog (depth : ℕ) (sh : List ℕ) (x y : ℕ → ℤ) (hx : BitStream x) (hy : BitStream y)
    (t : ℕ) : ∃ s ≤ t, ssHeld depth sh x y t ≤ ∑ u ∈ Ico s t, (x u - y u) := by
  induction t with
  | zero => exact ⟨0, le_refl _, by simp; exact le_refl _⟩
  | succ t ih =>
      obtain ⟨s, hs, hle⟩ := ih
      have h := ssHeld_step depth sh x y hx hy t
      by_cases hc : ssHeld depth sh x y (t + 1) ≤ 0
      · exact ⟨t + 1, le_refl _, by simpa using hc⟩
      · refine ⟨s, by omega, ?_⟩
        rw [sum_Ico_succ_top hs]
        have h4 := h.2.2.2
        rw [h.2.2.1] at h4
        generalize ∑ u ∈ Ico s t, (x u - y u) = W at *
        rcases hx t with hx' | hx' <;> rcases hy t with hy' | hy' <;> rw [hx', hy'] at h4 ⊢ <;>
          simp at h4 <;> (try split_ifs at h4) <;> omega

/-- C11: if no window of the history has more than `2^depth - 1` surplus ones on the first input,
the synchronised stream is dominated by the reference in every cycle. -/
theorem C11_dominated (depth : ℕ) (sh : List ℕ) (x y : ℕ → ℤ) (hx : BitStream x) (hy : BitStream y)
    (hw : ∀ s t, s ≤ t → ∑ u ∈ Ico s t, (x u - y u) ≤ 2 ^ depth - 1) (t : ℕ) :
    ssOut depth sh x y t ≤ y t := by
  by_contra hlt
  have hb := (C10_bits depth sh x y hx hy t).1
  have h1 : ssOut depth sh x y t = 1 := by
    rcases hb with h | h
    · have := (hy t).nonneg; omega
    · exact h
  have h2 : y t = 0 := by
    rcases hy t with h | h
    · exact h
    · omega
  obtain ⟨hx1, hfull⟩ := C11_excess depth sh x y hx hy t h1 h2
  obtain ⟨s, hs, hle⟩ := ss_backlog depth sh x y hx hy t
  have hc := ssHeld_conserve depth sh x y hx hy t
  have := hw s (t + 1) (by omega)
  rw [sum_Ico_succ_top hs, hx1, h2] at this
  omega

/-- C11: after a change of tensor shape the module behaves like a fresh one: the backlog is lost. -/
theorem C11_shape_change (depth : ℕ) (sh sh' : List ℕ) (hne : sh ≠ sh') (x y : ℕ → ℤ) (n t : ℕ) (hn : 0 < n) :
    (outAt (ssStep depth) ssInit (fun u => (if u < n then sh else sh', x u, y u)) (n + t)).1
      = ssOut depth sh' (fun u => x (n + u)) (fun u => y (n + u)) t := by
  have hshape : (stateAt (ssStep depth) ssInit (fun u => (if u < n then sh else sh', x u, y u)) n).shape = sh := by
    obtain ⟨m, rfl⟩ : ∃ m, n = m + 1 := ⟨n - 1, by omega⟩
    rw [stateAt_succ]
    simp [ssStep]
  generalize hS : stateAt (ssStep depth) ssInit (fun u => (if u < n then sh else sh', x u, y u)) n = S at hshape
  have hin : ∀ u, (fun u => (if u < n then sh else sh', x u, y u)) (n + u)
      = (sh', x (n + u), y (n + u)) := by
    intro u; simp
  have hfirst : ∀ i : ℤ × ℤ, ssStep depth S (sh', i) = ssStep depth ssInit (sh', i) := by
    intro i
    have h1 : (if S.shape ≠ sh' then 0 else S.cnt) = 0 := by
      rw [hshape, if_pos hne]
    have h2 : (if ssInit.shape ≠ sh' then 0 else ssInit.cnt) = 0 := by
      split_ifs <;> rfl
    simp only [ssStep]
    rw [h1, h2]
  have hst : ∀ u, 0 < u → stateAt (ssStep depth) S (fun u => (sh', x (n + u), y (n + u))) u
      = stateAt (ssStep depth) ssInit (fun u => (sh', x (n + u), y (n + u))) u := by
    intro u hu
    induction u with
    | zero => omega
    | succ u ih =>
        rw [stateAt_succ, stateAt_succ]
        rcases Nat.eq_zero_or_pos u with rfl | hpos
        · rw [stateAt_zero, stateAt_zero, hfirst]
        · rw [ih hpos]
  unfold ssOut outAt
  rw [stateAt_add, hS]
  have : (fun t => (fun u => (if u < n then sh else sh', x u, y u)) (n + t))
      = (fun u => (sh', x (n + u), y (n + u))) := funext hin
  rw [this]
  rw [hin t]
  rcases Nat.eq_zero_or_pos t with rfl | hpos
  · rw [stateAt_zero, stateAt_zero, hfirst]
  · rw [hst t hpos]

/-- Non-vacuity of the window condition: two streams of value 1/2 in opposite phase, depth 1. -/
example : ∀ s t, s ≤ t → ∑ u ∈ Ico s t, ((((u + 1) % 2 : ℕ) : ℤ) - ((u % 2 : ℕ) : ℤ)) ≤ 2 ^ 1 - 1 := by
  have key : ∀ t, (∑ u ∈ range t, ((((u + 1) % 2 : ℕ) : ℤ) - ((u % 2 : ℕ) : ℤ))) = ((t % 2 : ℕ) : ℤ) := by
    intro t
    induction t with
    | zero => rfl
    | succ t ih => rw [sum_range_succ, ih]; omega
  intro s t hst
  rw [sum_Ico_eq_sub _ hst, key, key]
  omega

/-! ## Bi2Uni -/

/-- Output stream of a fresh `Bi2Uni`. -/
def b2uOut (depth : ℤ) (x : ℕ → ℤ) (t : ℕ) : ℤ := outAt (bi2uniStep depth) 0 x t

/-- Output stream of a fresh `Uni2Bi`. -/
def u2bOut (depth : ℤ) (x : ℕ → ℤ) (t : ℕ) : ℤ := outAt (uni2biStep depth) 0 x t

theorem accBound_nat (k : ℕ) : accBound ((k : ℤ) + 2) = ((2 ^ k : ℤ) : ℚ) := by
  unfold accBound
  rw [show (k : ℤ) + 2 - 2 = (k : ℤ) by ring, zpow_natCast]; push_cast; rfl

theorem accBound_pos (d : ℤ) : 0 < accBound d := zpow_pos (by norm_num) _

theorem accBound_lt_one {d : ℤ} (h : d ≤ 1) : accBound d < 1 := by
  unfold accBound
  have : (2:ℚ) ^ (d - 2) ≤ 2 ^ (-1 : ℤ) := zpow_le_zpow_right₀ (by norm_num) (by omega)
  have h2 : (2:ℚ) ^ (-1 : ℤ) = 1/2 := by norm_num
  rw [h2] at this
  exact lt_of_le_of_lt this (by norm_num)

theorem accBound_le_one {d : ℤ} (h : d ≤ 2) : accBound d ≤ 1 := by
  unfold accBound
  have : (2:ℚ) ^ (d - 2) ≤ 2 ^ (0 : ℤ) := zpow_le_zpow_right₀ (by norm_num) (by omega)
  simpa using this

theorem accBound_ge_four {d : ℤ} (h : 4 ≤ d) : 4 ≤ accBound d := by
  unfold accBound
  have : (2:ℚ) ^ (2 : ℤ) ≤ 2 ^ (d - 2) := zpow_le_zpow_right₀ (by norm_num) (by omega)
  norm_num at this ⊢; exact this

/-- C12: after every history the ones emitted are the overflow of the input walk regulated to
`[-2^(depth-2), 0]`; the discarded second clamp has no effect. -/
theorem C12_regulated (k : ℕ) (x : ℕ → ℤ) (hx : BitStream x) (n : ℕ) :
    ones (b2uOut (k + 2) x) n = (regulated (2 ^ k) (fun t => 2 * x t - 1) n).2 ∧
    stateAt (bi2uniStep (k + 2)) 0 x n = (regulated (2 ^ k) (fun t => 2 * x t - 1) n).1 := by
  have hp : (0:ℤ) < 2 ^ k := by positivity
  have hr : ∀ n, -(2 ^ k) ≤ (regulated (2 ^ k) (fun t => 2 * x t - 1) n).1 ∧
      (regulated (2 ^ k) (fun t => 2 * x t - 1) n).1 ≤ 0 := by
    intro n
    cases n with
    | zero => simp [regulated]
    | succ n => simp only [regulated]; constructor <;> omega
  induction n with
  | zero => exact ⟨rfl, by simp [regulated]⟩
  | succ n ih =>
      obtain ⟨h1, h2⟩ := ih
      have hb := hr n
      rw [ones_succ, h1, stateAt_succ]
      have ho : b2uOut (k + 2) x n = (bi2uniStep (k + 2) (stateAt (bi2uniStep (k + 2)) 0 x n) (x n)).2 := rfl
      rw [ho, h2]
      simp only [bi2uniStep, regulated, accBound_nat]
      generalize (regulated (2 ^ k) (fun t => 2 * x t - 1) n).1 = a at *
      generalize (2:ℤ) ^ k = B at *
      have ha : clamp (-(B:ℚ)) B ((a:ℚ) + ((x n : ℚ) * 2 - 1)) = ((clamp (-B) B (a + (x n * 2 - 1)) : ℤ) : ℚ) := by
        unfold clamp; push_cast; rfl
      have hind : (ind (((clamp (-B) B (a + (x n * 2 - 1)) : ℤ) : ℚ) ≥ 1) : ℤ)
          = ind (clamp (-B) B (a + (x n * 2 - 1)) ≥ 1) := by
        unfold ind; congr 1; apply propext; constructor <;> intro h <;> exact_mod_cast h
      rw [ha, hind, ← Int.cast_sub]
      constructor
      · unfold ind clamp; rcases hx n with h | h <;> rw [h] <;> split_ifs <;> omega
      · congr 1
        unfold ind clamp; rcases hx n with h | h <;> rw [h] <;> split_ifs <;> omega

private theorem b2u_inv (k : ℕ) (x : ℕ → ℤ) (hx : BitStream x) (n : ℕ) :
    (regulated (2 ^ k) (fun t => 2 * x t - 1) n).1 ≤ 0 ∧
    walk x n ≤ (regulated (2 ^ k) (fun t => 2 * x t - 1) n).1 + (regulated (2 ^ k) (fun t => 2 * x t - 1) n).2 ∧
    runMax x n ≤ (regulated (2 ^ k) (fun t => 2 * x t - 1) n).2 := by
  have hp : (0:ℤ) < 2 ^ k := by positivity
  induction n with
  | zero => simp [regulated, runMax]
  | succ n ih =>
      simp only [regulated, walk_succ, runMax]
      generalize regulated (2 ^ k) (fun t => 2 * x t - 1) n = r at *
      generalize (2:ℤ) ^ k = B at *
      rcases hx n with h | h <;> rw [h] <;> omega

/-- C12: the output count bounds the walk of the input, at every earlier point. -/
theorem C12_lower (k : ℕ) (x : ℕ → ℤ) (hx : BitStream x) (m n : ℕ) (h : m ≤ n) :
    walk x m ≤ ones (b2uOut (k + 2) x) n := by
  rw [(C12_regulated k x hx n).1]
  exact le_trans (walk_le_runMax x h) (b2u_inv k x hx n).2.2

/-- C12: if the walk never falls more than `2^(depth-2)` below its running maximum, the count is
exactly that running maximum. -/
theorem C12_exact (k : ℕ) (x : ℕ → ℤ) (hx : BitStream x) (n : ℕ)
    (hno : ∀ m ≤ n, runMax x m - 2 ^ k ≤ walk x m) :
    ones (b2uOut (k + 2) x) n = runMax x n := by
  rw [(C12_regulated k x hx n).1]
  have hp : (0:ℤ) < 2 ^ k := by positivity
  have : (regulated (2 ^ k) (fun t => 2 * x t - 1) n).2 = runMax x n ∧
      (regulated (2 ^ k) (fun t => 2 * x t - 1) n).1 = walk x n - runMax x n := by
    induction n with
    | zero => simp [regulated, runMax]
    | succ n ih =>
        obtain ⟨h1, h2⟩ := ih (fun m hm => hno m (by omega))
        have h3 := hno (n + 1) (le_refl _)
        have h4 := hno n (by omega)
        have h5 := walk_le_runMax x (le_refl n)
        simp only [regulated, runMax] at h3 ⊢
        rw [h1, h2]
        have hw := walk_succ x n
        generalize runMax x n = M at *
        rw [hw] at h3 ⊢
        generalize walk x n = W at *
        generalize (2:ℤ) ^ k = B at *
        rcases hx n with h | h <;> rw [h] at h3 ⊢ <;> omega
  exact this.1

/-- C12: outputs are bits, and with `depth ≤ 1` they are all `0`. -/
theorem C12_bits (depth : ℤ) (x : ℕ → ℤ) (t : ℕ) :
    IsBit (b2uOut depth x t) ∧ (depth ≤ 1 → b2uOut depth x t = 0) := by
  refine ⟨isBit_ind _, fun hd => ?_⟩
  unfold b2uOut outAt bi2uniStep
  apply ind_false
  intro h
  have := clamp_le (-accBound depth) (accBound depth) (stateAt (bi2uniStep depth) 0 x t + ((x t : ℚ) * 2 - 1))
  have h2 := accBound_lt_one hd
  have h3 : (1:ℚ) ≤ clamp (-accBound depth) (accBound depth) (stateAt (bi2uniStep depth) 0 x t + ((x t : ℚ) * 2 - 1)) := h
  linarith

/-- Non-vacuity: the default depth `3` on a stream of value `1/2`. -/
example : (∀ m ≤ 4, runMax (fun t => if t % 4 = 3 then 0 else 1) m - 2 ^ 1
      ≤ walk (fun t => if t % 4 = 3 then 0 else 1) m) ∧
    runMax (fun t => if t % 4 = 3 then 0 else 1) 4 = 3 := by
  decide

/-! ## Uni2Bi -/

/-- C13: with depth at least `4` the count is exactly `floor((n + ones)/2)` in every prefix. -/
theorem C13_exact (depth : ℤ) (hd : 4 ≤ depth) (x : ℕ → ℤ) (hx : BitStream x) (n : ℕ) :
    ones (u2bOut depth x) n = (n + ones x n) / 2 := by
  have hB := accBound_ge_four hd
  have inv : ∀ n, stateAt (uni2biStep depth) 0 x n = (((n : ℤ) + ones x n) % 2 : ℤ) ∧
      ones (u2bOut depth x) n = (n + ones x n) / 2 := by
    intro n
    induction n with
    | zero => exact ⟨by simp, by simp⟩
    | succ n ih =>
        obtain ⟨h1, h2⟩ := ih
        have ho : u2bOut depth x n = (uni2biStep depth (stateAt (uni2biStep depth) 0 x n) (x n)).2 := rfl
        rw [stateAt_succ, ones_succ (u2bOut depth x), ho, h1, h2, ones_succ x]
        simp only [uni2biStep]
        have hxb := hx n
        have hx0 := hxb.nonneg
        have hx1 := hxb.le_one
        generalize hm : ((n:ℤ) + ones x n) % 2 = m
        have hm0 : 0 ≤ m := by omega
        have hm1 : m ≤ 1 := by omega
        have e : clamp (-accBound depth) (accBound depth) ((m:ℚ) + ((x n : ℚ) + 1)) = ((m + x n + 1 : ℤ) : ℚ) := by
          have c1 : (0:ℚ) ≤ m := by exact_mod_cast hm0
          have c2 : (m:ℚ) ≤ 1 := by exact_mod_cast hm1
          have c3 : (0:ℚ) ≤ x n := by exact_mod_cast hx0
          have c4 : (x n : ℚ) ≤ 1 := by exact_mod_cast hx1
          rw [clamp_of_mem (by linarith) (by linarith)]; push_cast; ring
        have hi : (ind (((m + x n + 1 : ℤ) : ℚ) ≥ 2) : ℤ) = ind (m + x n + 1 ≥ 2) := by
          unfold ind; congr 1; apply propext; constructor <;> intro h <;> exact_mod_cast h
        rw [e, hi]
        constructor
        · rw [show ((m + x n + 1 : ℤ) : ℚ) - ((ind (m + x n + 1 ≥ 2) : ℤ) : ℚ) * 2
            = ((m + x n + 1 - ind (m + x n + 1 ≥ 2) * 2 : ℤ) : ℚ) by push_cast; ring]
          congr 1
          unfold ind
          push_cast
          rcases hxb with h | h <;> rw [h] <;> split_ifs <;> omega
        · unfold ind; push_cast
          rcases hxb with h | h <;> rw [h] <;> split_ifs <;> omega
  exact (inv n).2

/-- C13: hence the bipolar value of the output is the unipolar value of the input up to `2/n`. -/
theorem C13_value (depth : ℤ) (hd : 4 ≤ depth) (x : ℕ → ℤ) (hx : BitStream x) (n : ℕ) (hn : 0 < n) :
    uniValue x n - 1 / n ≤ biValue (u2bOut depth x) n ∧ biValue (u2bOut depth x) n ≤ uniValue x n := by
  have h := C13_exact depth hd x hx n
  have hn' : (0:ℚ) < n := by exact_mod_cast hn
  have h1 : (n:ℤ) + ones x n - 1 ≤ 2 * ones (u2bOut depth x) n := by omega
  have h2 : 2 * ones (u2bOut depth x) n ≤ (n:ℤ) + ones x n := by omega
  have h1' : (n:ℚ) + ones x n - 1 ≤ 2 * ones (u2bOut depth x) n := by exact_mod_cast h1
  have h2' : 2 * (ones (u2bOut depth x) n : ℚ) ≤ (n:ℚ) + ones x n := by exact_mod_cast h2
  unfold uniValue biValue
  have e : 2 * ((ones (u2bOut depth x) n : ℚ) / n) - 1 = (2 * ones (u2bOut depth x) n - n) / n := by
    field_simp
  rw [e, ← sub_div]
  constructor <;> apply div_le_div_of_nonneg_right _ hn'.le <;> linarith

/-- C13 fails at depth `3`: on the alternating stream of value `1/2` the count is `n/2`, not `3n/4`. -/
theorem C13_depth3_loses (m : ℕ) :
    ones (u2bOut 3 (fun t => ((t % 2 : ℕ) : ℤ))) (2 * m) = m ∧
    stateAt (uni2biStep 3) 0 (fun t => ((t % 2 : ℕ) : ℤ)) (2 * m) = 0 := by
  have hB : accBound 3 = 2 := by norm_num [accBound]
  induction m with
  | zero => exact ⟨rfl, rfl⟩
  | succ m ih =>
      obtain ⟨h1, h2⟩ := ih
      have e : 2 * (m + 1) = 2 * m + 1 + 1 := by ring
      have st0 : uni2biStep 3 0 0 = (1, 0) := by
        unfold uni2biStep; rw [hB]; norm_num [clamp, ind]
      have st1 : uni2biStep 3 1 1 = (0, 1) := by
        unfold uni2biStep; rw [hB]; norm_num [clamp, ind]
      have x0 : (((2 * m) % 2 : ℕ) : ℤ) = 0 := by omega
      have x1 : (((2 * m + 1) % 2 : ℕ) : ℤ) = 1 := by omega
      have s1 : stateAt (uni2biStep 3) 0 (fun t => ((t % 2 : ℕ) : ℤ)) (2 * m + 1) = 1 := by
        rw [stateAt_succ, h2, x0, st0]
      have o1 : u2bOut 3 (fun t => ((t % 2 : ℕ) : ℤ)) (2 * m) = 0 := by
        unfold u2bOut outAt; beta_reduce; rw [h2, x0, st0]
      have o2 : u2bOut 3 (fun t => ((t % 2 : ℕ) : ℤ)) (2 * m + 1) = 1 := by
        unfold u2bOut outAt; beta_reduce; rw [s1, x1, st1]
      have s2 : stateAt (uni2biStep 3) 0 (fun t => ((t % 2 : ℕ) : ℤ)) (2 * m + 1 + 1) = 0 := by
        rw [stateAt_succ, s1, x1, st1]
      refine ⟨?_, by rw [e]; exact s2⟩
      rw [e, ones_succ, ones_succ, h1, o1, o2]; push_cast; ring

/-- C13: with depth at most `2` no one is ever emitted. -/
theorem C13_dead (depth : ℤ) (hd : depth ≤ 2) (x : ℕ → ℤ) (t : ℕ) : u2bOut depth x t = 0 := by
  unfold u2bOut outAt uni2biStep
  apply ind_false
  intro h
  have h1 := clamp_le (-accBound depth) (accBound depth) (stateAt (uni2biStep depth) 0 x t + ((x t : ℚ) + 1))
  have h2 := accBound_le_one hd
  have h3 : (2:ℚ) ≤ clamp (-accBound depth) (accBound depth) (stateAt (uni2biStep depth) 0 x t + ((x t : ℚ) + 1)) := h
  linarith

/-- Non-vacuity: the default depth. -/
example : (4:ℤ) ≤ 4 ∧ BitStream (fun t => ((t % 2 : ℕ) : ℤ)) ∧
    ((8:ℕ) + ones (fun t => ((t % 2 : ℕ) : ℤ)) 8) / 2 = 6 := by
  refine ⟨le_refl _, fun t => ?_, by decide⟩
  have : t % 2 = 0 ∨ t % 2 = 1 := by omega
  rcases this with h | h
  · left; simp [h]
  · right; simp [h]

end Verif.Props
