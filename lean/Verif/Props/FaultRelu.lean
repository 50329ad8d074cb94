import Verif.Props.FaultNet

/-!
# Property C103: displaced bits and the rectifier
-/

namespace Verif.Props

open Verif Finset Net Linear Verif.Small

private theorem relu_sel (depth : ℤ) {x : ℕ → ℤ} (hx : Verif.Spec.BitStream x) (t : ℕ) :
    reluOut depth x t = if stateAt (reluStep depth) (accHalf depth) x t ≥ accHalf depth then x t else 1 := by
  have e : reluOut depth x t
      = Int.lor (x t) (1 - ind (stateAt (reluStep depth) (accHalf depth) x t ≥ accHalf depth)) := rfl
  rw [e]
  have l00 : Int.lor 0 0 = 0 := by decide
  have l01 : Int.lor 0 1 = 1 := by decide
  have l10 : Int.lor 1 0 = 1 := by decide
  have l11 : Int.lor 1 1 = 1 := by decide
  split_ifs with h
  · rw [ind_true h]
    rcases hx t with h | h <;> rw [h] <;> simp [l00, l10]
  · rw [ind_false h]
    rcases hx t with h | h <;> rw [h] <;> simp [l01, l11]

/-- As long as the counter does not reach its upper end it is the walk of the output. -/
private theorem relu_walk (d : ℕ) (hd : 1 ≤ d) {x : ℕ → ℤ} (hx : Verif.Spec.BitStream x) (n : ℕ)
    (hr : ∀ k ≤ n, Verif.Spec.walk (reluOut d x) k < 2 ^ (d - 1)) :
    stateAt (reluStep d) (accHalf d) x n = ((2 ^ (d - 1) + Verif.Spec.walk (reluOut d x) n : ℤ) : ℚ) := by
  have h1 : accHalf (d : ℤ) = ((2 ^ (d - 1) : ℤ) : ℚ) := by
    unfold accHalf
    have e : (d : ℤ) - 1 = ((d - 1 : ℕ) : ℤ) := by omega
    rw [e, zpow_natCast]; push_cast; rfl
  have h2 : accMax (d : ℤ) = ((2 * 2 ^ (d - 1) - 1 : ℤ) : ℚ) := by
    unfold accMax
    have e2 : (2:ℚ) ^ (d : ℤ) = 2 * 2 ^ (d - 1) := by
      rw [zpow_natCast, ← pow_succ']; congr 1; omega
    rw [e2]; push_cast; rfl
  induction n with
  | zero => rw [stateAt_zero, h1]; simp
  | succ n ih =>
      have ih := ih fun k hk => hr k (by omega)
      have hst : stateAt (reluStep d) (accHalf d) x (n + 1)
          = clamp 0 (accMax d) (stateAt (reluStep d) (accHalf d) x n + ((reluOut d x n : ℚ) * 2 - 1)) := rfl
      have hu := hr (n + 1) (le_refl _)
      have hl := C31_nonneg d hd x hx (n + 1)
      have hp : (1:ℤ) ≤ 2 ^ (d - 1) := one_le_pow₀ (by norm_num)
      have e3 : stateAt (reluStep d) (accHalf d) x (n + 1)
          = ((clamp 0 (2 * 2 ^ (d - 1) - 1) (2 ^ (d - 1) + Verif.Spec.walk (reluOut d x) (n + 1)) : ℤ) : ℚ) := by
        rw [hst, ih, h2, Verif.Spec.walk_succ]; unfold clamp; push_cast; ring_nf
      rw [e3]
      congr 1
      unfold clamp
      generalize (2:ℤ) ^ (d - 1) = H at *
      omega

private theorem relu_cond (d : ℕ) (hd : 1 ≤ d) {x : ℕ → ℤ} (hx : Verif.Spec.BitStream x) (n : ℕ)
    (hr : ∀ k ≤ n, Verif.Spec.walk (reluOut d x) k < 2 ^ (d - 1)) :
    reluOut d x n = if 0 ≤ Verif.Spec.walk (reluOut d x) n then x n else 1 := by
  rw [relu_sel d hx, relu_walk d hd hx n hr]
  have h1 : accHalf (d : ℤ) = ((2 ^ (d - 1) : ℤ) : ℚ) := by
    unfold accHalf
    have e : (d : ℤ) - 1 = ((d - 1 : ℕ) : ℤ) := by omega
    rw [e, zpow_natCast]; push_cast; rfl
  have hge : ((2 ^ (d - 1) + Verif.Spec.walk (reluOut d x) n : ℤ) : ℚ) ≥ accHalf d
      ↔ 0 ≤ Verif.Spec.walk (reluOut d x) n := by
    rw [h1, ge_iff_le, Int.cast_le]; constructor <;> intro h <;> linarith
  simp only [hge]

/-- C103: the rectifier and displaced bits.  While no prefix of either output has a surplus of ones of `2 ^ (d - 1)` or more,
inputs whose counts of ones differ by at most `δ` at every prefix give outputs whose counts differ by at most `2 * δ` at
every prefix. -/
theorem C103_relu_counts (d : ℕ) (hd : 1 ≤ d) {x y : ℕ → ℤ} (hx : Verif.Spec.BitStream x) (hy : Verif.Spec.BitStream y)
    (n : ℕ) (δ : ℤ) (hδ : ∀ k ≤ n, |Verif.Spec.ones x k - Verif.Spec.ones y k| ≤ δ)
    (hrx : ∀ k < n, Verif.Spec.walk (reluOut d x) k < 2 ^ (d - 1))
    (hry : ∀ k < n, Verif.Spec.walk (reluOut d y) k < 2 ^ (d - 1)) :
    |Verif.Spec.ones (reluOut d x) n - Verif.Spec.ones (reluOut d y) n| ≤ 2 * δ := by
  have key : ∀ m ≤ n, |(Verif.Spec.ones (reluOut d x) m - Verif.Spec.ones (reluOut d y) m)
      - (Verif.Spec.ones x m - Verif.Spec.ones y m)| ≤ δ := by
    intro m
    induction m with
    | zero =>
        intro _
        have := hδ 0 (Nat.zero_le _)
        simpa [Verif.Spec.ones] using this
    | succ m ih =>
        intro hm
        have ih := abs_le.1 (ih (by omega))
        have d1 := abs_le.1 (hδ m (by omega))
        have d2 := abs_le.1 (hδ (m + 1) hm)
        have cx := relu_cond d hd hx m fun k hk => hrx k (by omega)
        have cy := relu_cond d hd hy m fun k hk => hry k (by omega)
        have nx := C31_nonneg d hd x hx m
        have ny := C31_nonneg d hd y hy m
        have hbx := hx m
        have hby := hy m
        rw [Verif.Spec.walk_eq] at cx cy nx ny
        rw [Verif.Spec.ones_succ, Verif.Spec.ones_succ] at d2
        rw [Verif.Spec.ones_succ, Verif.Spec.ones_succ, Verif.Spec.ones_succ x, Verif.Spec.ones_succ y, abs_le]
        generalize Verif.Spec.ones (reluOut d x) m = A at *
        generalize Verif.Spec.ones (reluOut d y) m = B at *
        generalize Verif.Spec.ones x m = X at *
        generalize Verif.Spec.ones y m = Y at *
        generalize reluOut d x m = p at *
        generalize reluOut d y m = q at *
        generalize x m = u at *
        generalize y m = v at *
        rcases hbx with h | h <;> rcases hby with h' | h' <;> subst h <;> subst h' <;>
          split_ifs at cx cy <;> subst cx <;> subst cy <;> constructor <;> omega
  have h1 := abs_le.1 (key n (le_refl _))
  have h2 := abs_le.1 (hδ n (le_refl _))
  rw [abs_le]
  constructor <;> omega

/-- Non-vacuity, and the factor two is attained: `0 0 1 1 1` against `0 1 0 1 0`, whose counts differ by at most one. -/
example : ∃ x y : ℕ → ℤ, Verif.Spec.BitStream x ∧ Verif.Spec.BitStream y ∧
    (∀ k ≤ 5, |Verif.Spec.ones x k - Verif.Spec.ones y k| ≤ 1) ∧
    (∀ k < 5, Verif.Spec.walk (reluOut 4 x) k < 2 ^ (4 - 1)) ∧ (∀ k < 5, Verif.Spec.walk (reluOut 4 y) k < 2 ^ (4 - 1)) ∧
    Verif.Spec.ones (reluOut 4 x) 5 - Verif.Spec.ones (reluOut 4 y) 5 = 2 := by
  refine ⟨fun t => if 2 ≤ t then 1 else 0, fun t => ((t % 2 : ℕ) : ℤ), fun t => ?_, fun t => ?_, by decide, by decide +kernel,
    by decide +kernel, by decide +kernel⟩
  · show IsBit (if 2 ≤ t then 1 else 0)
    split_ifs
    · exact Or.inr rfl
    · exact Or.inl rfl
  · show IsBit ((t % 2 : ℕ) : ℤ)
    rcases Nat.mod_two_eq_zero_or_one t with h | h <;> rw [h]
    · exact Or.inl rfl
    · exact Or.inr rfl

private theorem half_int (d : ℕ) (hd : 1 ≤ d) : accHalf (d : ℤ) = ((2 ^ (d - 1) : ℤ) : ℚ) ∧
    accMax (d : ℤ) = ((2 * 2 ^ (d - 1) - 1 : ℤ) : ℚ) := by
  constructor
  · unfold accHalf
    have e : (d : ℤ) - 1 = ((d - 1 : ℕ) : ℤ) := by omega
    rw [e, zpow_natCast]; push_cast; rfl
  · unfold accMax
    have e2 : (2:ℚ) ^ (d : ℤ) = 2 * 2 ^ (d - 1) := by
      rw [zpow_natCast, ← pow_succ']; congr 1; omega
    rw [e2]; push_cast; rfl

/-- Streams of the witness below, with period `2 * H + 2`: `0 0 1` or `0 1 0`, then `H` ones and `H - 1` zeros. -/
private def late (H t : ℕ) : ℤ :=
  if 2 ≤ t % (2 * H + 2) ∧ t % (2 * H + 2) < H + 3 then 1 else 0
private def early (H t : ℕ) : ℤ :=
  if t % (2 * H + 2) = 1 ∨ (3 ≤ t % (2 * H + 2) ∧ t % (2 * H + 2) < H + 3) then 1 else 0

/-- A period that brings the counter back to its middle repeats. -/
private theorem runs_period (d P : ℕ) (x : ℕ → ℤ) (c : ℤ) (hp : ∀ t, x (t + P) = x t)
    (h6 : stateAt (reluStep d) (accHalf d) x P = accHalf d) (hc : Verif.Spec.ones (reluOut d x) P = c) (k : ℕ) :
    stateAt (reluStep d) (accHalf d) x (P * k) = accHalf d ∧ Verif.Spec.ones (reluOut d x) (P * k) = c * k := by
  have hx : ∀ k t, x (P * k + t) = x t := by
    intro k
    induction k with
    | zero => intro t; simp
    | succ k ih => intro t; rw [show P * (k + 1) + t = (P * k + t) + P by ring, hp, ih]
  induction k with
  | zero => exact ⟨rfl, by simp [Verif.Spec.ones]⟩
  | succ k ih =>
      obtain ⟨i1, i2⟩ := ih
      have hs : ∀ t, stateAt (reluStep d) (accHalf d) x (P * k + t) = stateAt (reluStep d) (accHalf d) x t := by
        intro t
        induction t with
        | zero => exact i1
        | succ t ih =>
            show (reluStep d (stateAt (reluStep d) (accHalf d) x (P * k + t)) (x (P * k + t))).1 = _
            rw [ih, hx]; rfl
      have ho : ∀ t, reluOut d x (P * k + t) = reluOut d x t := by
        intro t
        show (reluStep d (stateAt (reluStep d) (accHalf d) x (P * k + t)) (x (P * k + t))).2 = _
        rw [hs, hx]; rfl
      have hn : ∀ n, Verif.Spec.ones (reluOut d x) (P * k + n)
          = Verif.Spec.ones (reluOut d x) (P * k) + Verif.Spec.ones (reluOut d x) n := by
        intro n
        induction n with
        | zero => simp [Verif.Spec.ones]
        | succ n ih => rw [← Nat.add_assoc, Verif.Spec.ones_succ, Verif.Spec.ones_succ, ih, ho]; ring
      refine ⟨by rw [Nat.mul_succ, hs, h6], ?_⟩
      rw [Nat.mul_succ, hn, i2, hc]; push_cast; ring

/-- A run whose counter and count are known in closed form. -/
private theorem run_form (d : ℕ) (hd : 1 ≤ d) (H : ℕ) (hH : H = 2 ^ (d - 1)) {x : ℕ → ℤ} (hx : Verif.Spec.BitStream x)
    (P : ℕ) (A C : ℕ → ℤ) (hA0 : A 0 = 0) (hC0 : C 0 = 0)
    (hstep : ∀ t < P, C (t + 1) = C t + (if 0 ≤ A t then x t else 1) ∧
      A (t + 1) = clamp (-H : ℤ) (H - 1) (A t + (2 * (if 0 ≤ A t then x t else 1) - 1))) :
    ∀ t ≤ P, stateAt (reluStep d) (accHalf d) x t = ((H + A t : ℤ) : ℚ) ∧ Verif.Spec.ones (reluOut d x) t = C t := by
  obtain ⟨h1, h2⟩ := half_int d hd
  have hHz : (2:ℤ) ^ (d - 1) = H := by rw [hH]; push_cast; rfl
  rw [hHz] at h1 h2
  intro t
  induction t with
  | zero => intro _; exact ⟨by rw [stateAt_zero, h1, hA0, add_zero], by simp [Verif.Spec.ones, hC0]⟩
  | succ t ih =>
      intro ht
      obtain ⟨i1, i2⟩ := ih (by omega)
      obtain ⟨s1, s2⟩ := hstep t (by omega)
      have hge : ((H + A t : ℤ) : ℚ) ≥ accHalf d ↔ 0 ≤ A t := by
        rw [h1, ge_iff_le, Int.cast_le]; constructor <;> intro h <;> linarith
      have ho : reluOut d x t = if 0 ≤ A t then x t else 1 := by
        rw [relu_sel d hx, i1]; simp only [hge]
      constructor
      · have hst : stateAt (reluStep d) (accHalf d) x (t + 1)
            = clamp 0 (accMax d) (stateAt (reluStep d) (accHalf d) x t + ((reluOut d x t : ℚ) * 2 - 1)) := rfl
        rw [hst, i1, h2, s2, ← ho]
        have e : clamp (0:ℚ) ((2 * (H : ℤ) - 1 : ℤ) : ℚ) (((H + A t : ℤ) : ℚ) + ((reluOut d x t : ℚ) * 2 - 1))
            = ((clamp 0 (2 * (H : ℤ) - 1) (H + A t + (2 * reluOut d x t - 1)) : ℤ) : ℚ) := by
          unfold clamp; push_cast; ring_nf
        rw [e]
        congr 1
        unfold clamp
        omega
      · rw [Verif.Spec.ones_succ, i2, ho, s1]

/-- C103: without the room a rectifier of any depth amplifies without bound: the counts of two inputs differ by at most one
at every prefix, and those of the outputs by `k` after `k` periods. -/
theorem C103_relu_counts_needs_room (d : ℕ) (hd : 2 ≤ d) : ∃ x y : ℕ → ℤ, Verif.Spec.BitStream x ∧ Verif.Spec.BitStream y ∧
    (∀ n, |Verif.Spec.ones x n - Verif.Spec.ones y n| ≤ 1) ∧
    ∀ k : ℕ, Verif.Spec.ones (reluOut d x) ((2 ^ d + 2) * k) - Verif.Spec.ones (reluOut d y) ((2 ^ d + 2) * k) = k := by
  obtain ⟨H, hH⟩ : ∃ H : ℕ, H = 2 ^ (d - 1) := ⟨_, rfl⟩
  have hP : 2 ^ d + 2 = 2 * H + 2 := by rw [hH, ← pow_succ']; congr 2; omega
  have hH2 : 2 ≤ H := by
    rw [hH]; calc 2 = 2 ^ 1 := rfl
      _ ≤ 2 ^ (d - 1) := Nat.pow_le_pow_right (by norm_num) (by omega)
  have bx : Verif.Spec.BitStream (late H) := fun t => by
    show IsBit (late H t)
    unfold late
    split_ifs
    · exact Or.inr rfl
    · exact Or.inl rfl
  have bY : Verif.Spec.BitStream (early H) := fun t => by
    show IsBit (early H t)
    unfold early
    split_ifs
    · exact Or.inr rfl
    · exact Or.inl rfl
  refine ⟨late H, early H, bx, bY, fun n => ?_, fun k => ?_⟩
  · have h : ∀ n : ℕ, Verif.Spec.ones (late H) n - Verif.Spec.ones (early H) n = if n % (2 * H + 2) = 2 then -1 else 0 := by
      intro n
      induction n with
      | zero => rw [if_neg (by simp)]; rfl
      | succ n ih =>
          rw [Verif.Spec.ones_succ, Verif.Spec.ones_succ]
          have e : Verif.Spec.ones (late H) n + late H n - (Verif.Spec.ones (early H) n + early H n)
              = (Verif.Spec.ones (late H) n - Verif.Spec.ones (early H) n) + (late H n - early H n) := by ring
          rw [e, ih]
          unfold late early
          have hl : n % (2 * H + 2) < 2 * H + 2 := Nat.mod_lt _ (by omega)
          have hm : (n + 1) % (2 * H + 2) = (n % (2 * H + 2) + 1) % (2 * H + 2) := by
            rw [Nat.add_mod, Nat.mod_eq_of_lt (show 1 < 2 * H + 2 by omega)]
          rw [hm]
          clear hm ih e
          generalize n % (2 * H + 2) = r at *
          by_cases hr : r + 1 = 2 * H + 2
          · rw [hr, Nat.mod_self]
            split_ifs <;> first | omega | contradiction
          · rw [Nat.mod_eq_of_lt (show r + 1 < 2 * H + 2 by omega)]
            split_ifs <;> omega
    rw [h]
    split_ifs <;> decide
  · rw [hP]
    have fx := run_form d (by omega) H hH bx (2 * H + 2)
      (fun t => if t = 0 then 0 else if t = 1 then -1 else if t = 2 then 0 else
        if t < H + 3 then min (H - 1 : ℤ) (t - 2) else 2 * H + 2 - t)
      (fun t => if t ≤ 1 then 0 else min (t - 1 : ℤ) (H + 2)) (by simp) (by simp) (by
        intro t ht
        unfold late clamp
        rw [Nat.mod_eq_of_lt ht]
        constructor <;> (push_cast; split_ifs <;> omega))
      (2 * H + 2) (le_refl _)
    have fy := run_form d (by omega) H hH bY (2 * H + 2)
      (fun t => if t = 0 then 0 else if t = 1 then -1 else if t = 2 then 0 else
        if t < H + 3 then (t : ℤ) - 4 else 2 * H + 2 - t)
      (fun t => if t ≤ 1 then 0 else if t ≤ 3 then 1 else min (t - 2 : ℤ) (H + 1)) (by simp) (by simp) (by
        intro t ht
        unfold early clamp
        rw [Nat.mod_eq_of_lt ht]
        constructor <;> (push_cast; split_ifs <;> omega))
      (2 * H + 2) (le_refl _)
    have hh : accHalf (d : ℤ) = ((H : ℤ) : ℚ) := by rw [(half_int d (by omega)).1, hH]; push_cast; rfl
    have e1 := (runs_period d (2 * H + 2) (late H) (H + 2) (fun t => by unfold late; rw [Nat.add_mod_right])
      (by rw [fx.1, hh, Int.cast_inj]; split_ifs <;> omega) (by rw [fx.2]; split_ifs <;> omega) k).2
    have e2 := (runs_period d (2 * H + 2) (early H) (H + 1) (fun t => by unfold early; rw [Nat.add_mod_right])
      (by rw [fy.1, hh, Int.cast_inj]; split_ifs <;> omega) (by rw [fy.2]; split_ifs <;> omega) k).2
    rw [e1, e2]; ring

/-- The chains of `Spec.Averaging`, with rectifiers whose counters have room for `n` cycles. -/
def Spec.Moderate (n : ℕ) {I O : ℕ} : Layers I O → Prop
  | .done => True
  | .linear (I := I) _ _ name depth scale _ bias _ rest =>
      scale = none ∧ 0 < Spec.fanIn I bias ∧ (2 * Spec.fanIn I bias - 1 : ℚ) ≤ (2:ℚ) ^ (depth - 2) ∧
        ¬ Spec.TemporalName name ∧ Spec.Moderate n rest
  | .relu d rest => 1 ≤ d ∧ n ≤ 2 ^ (d - 1) ∧ Spec.Moderate n rest
  | .hardtanh rest => Spec.Moderate n rest
  | .hardsigmoid _ depth rest => 4 ≤ depth ∧ Spec.Moderate n rest

/-- Number of rectifiers of a chain. -/
def Spec.rectifiers {I O : ℕ} : Layers I O → ℕ
  | .done => 0
  | .linear _ _ _ _ _ _ _ _ rest => Spec.rectifiers rest
  | .relu _ rest => Spec.rectifiers rest + 1
  | .hardtanh rest => Spec.rectifiers rest
  | .hardsigmoid _ _ rest => Spec.rectifiers rest

private theorem averaged' {N I e d : ℤ} (hN : 0 < N) (hI : I ≤ N) (hd : 0 ≤ d) (h : N * e ≤ I * d + (N - 1)) : e ≤ d := by
  by_contra hc
  have h1 : N * (d + 1) ≤ N * e := Int.mul_le_mul_of_nonneg_left (by omega) hN.le
  have h2 : I * d ≤ N * d := Int.mul_le_mul_of_nonneg_right hI hd
  have h3 : N * (d + 1) = N * d + N := by ring
  omega

/-- C103: chains with rectifiers.  If the numbers of ones of two input streams of a row differ by at most `d` at every
prefix of `n` cycles, for every feature, then those of the outputs differ by at most `2 ^ r * d` at every such prefix, `r` the
number of rectifiers, and nothing else of the network (width, length, weights) enters. -/
theorem C103_chain_relu {B : ℕ} (hB : 0 < B) (env : Gen.Env) (n : ℕ) {I O : ℕ} (net : Layers I O) :
    ∀ M, build env net = .ok M → Spec.Moderate n net →
    ∀ x y : Fin B → Fin I → ℕ → ℤ, (∀ b i, Verif.Spec.BitStream (x b i)) → (∀ b i, Verif.Spec.BitStream (y b i)) →
    ∃ out out' : Fin B → Fin O → ℕ → ℤ, Spec.Rows (M.out (pcIn x)) out ∧ Spec.Rows (M.out (pcIn y)) out' ∧
      ∀ b (d : ℕ), (∀ i, ∀ k ≤ n, |Verif.Spec.ones (x b i) k - Verif.Spec.ones (y b i) k| ≤ d) →
        ∀ o, ∀ k ≤ n, |Verif.Spec.ones (out b o) k - Verif.Spec.ones (out' b o) k| ≤ 2 ^ Spec.rectifiers net * d := by
  induction net with
  | done =>
      intro M hM _ x y _ _
      cases hM
      exact ⟨x, y, fun t => id_out _ _, fun t => id_out _ _, fun b d h o k hk => by
        simpa [Spec.rectifiers] using h o k hk⟩
  | @linear I J O mode w name depth scale we bias be rest ih =>
      intro M hM hok x y hx hy
      obtain ⟨rfl, hN, hd, hr, hok'⟩ := hok
      simp only [build] at hM
      cases hm : mkLinear env mode w name depth none we bias be with
      | error e => rw [hm] at hM; cases hM
      | ok m =>
          cases hR : build env rest with
          | error e => rw [hm, hR] at hM; cases hM
          | ok R =>
              rw [hm, hR] at hM; cases hM
              obtain ⟨mid, mid', h1, h1', h2⟩ :=
                C103_linear_counts hB env mode w name depth we bias be m hm hN hd hr x y hx hy
              have hbits : ∀ (z : Fin B → Fin I → ℕ → ℤ) (f : Fin B → Fin J → ℕ → ℤ), Spec.Rows (linOut m z) f →
                  ∀ b o, Verif.Spec.BitStream (f b o) := by
                intro z f hf b o t
                obtain ⟨f', e1, e2⟩ := C45_runs hB m z
                have h := List.ofFn_injective (Except.ok.inj ((hf t).symm.trans (e1 t)))
                have h' : f b o t = f' b o t := congrFun (congrFun h b) o
                rw [h']; exact e2 b o t
              obtain ⟨out, out', h4, h4', h5⟩ := ih R hR hok' mid mid' (hbits x mid h1) (hbits y mid' h1')
              refine ⟨out, out', fun t => ?_, fun t => ?_, fun b d hδ => h5 b d fun j k hk => ?_⟩
              · rw [comp_out (Net.linear m) R (pcIn x) (pcIn mid) (fun t => by rw [linear_out]; exact h1 t)]
                exact h4 t
              · rw [comp_out (Net.linear m) R (pcIn y) (pcIn mid') (fun t => by rw [linear_out]; exact h1' t)]
                exact h4' t
              · have h6 : ∑ i, |Verif.Spec.ones (x b i) k - Verif.Spec.ones (y b i) k| ≤ (I : ℤ) * d := by
                  refine (sum_le_sum fun i _ => hδ i k hk).trans ?_
                  rw [sum_const, card_univ, Fintype.card_fin, nsmul_eq_mul]
                have h7 : (I : ℤ) ≤ Spec.fanIn I bias := by unfold Spec.fanIn; push_cast; split_ifs <;> omega
                exact averaged' (by exact_mod_cast hN) h7 (by omega) ((h2 b j k).trans (by linarith))
  | @relu I O c rest ih =>
      intro M hM hok x y hx hy
      obtain ⟨hc, hn, hok'⟩ := hok
      simp only [build] at hM
      cases hR : build env rest with
      | error e => rw [hR] at hM; cases hM
      | ok R =>
          rw [hR] at hM; cases hM
          have hbits : ∀ z : ℕ → ℤ, Verif.Spec.BitStream z → Verif.Spec.BitStream (reluOut c z) :=
            fun z hz t => (C31_dominates c z hz t).1
          have hroom : ∀ z : ℕ → ℤ, Verif.Spec.BitStream z → ∀ k < n, Verif.Spec.walk (reluOut c z) k < 2 ^ (c - 1) := by
            intro z hz k hk
            have h1 : Verif.Spec.ones (reluOut c z) k ≤ k := by
              clear hk
              induction k with
              | zero => simp [Verif.Spec.ones]
              | succ k ih =>
                  rw [Verif.Spec.ones_succ]
                  have := (hbits z hz k).le_one
                  push_cast; omega
            rw [Verif.Spec.walk_eq]
            have h2 : (n : ℤ) ≤ 2 ^ (c - 1) := by exact_mod_cast hn
            omega
          obtain ⟨out, out', h4, h4', h5⟩ := ih R hR hok' (fun b i => reluOut c (x b i)) (fun b i => reluOut c (y b i))
            (fun b i => hbits _ (hx b i)) (fun b i => hbits _ (hy b i))
          refine ⟨out, out', fun t => ?_, fun t => ?_, fun b d hδ o k hk => ?_⟩
          · rw [comp_out (Net.relu I c) R (pcIn x) (pcIn fun b i => reluOut c (x b i)) (lanes_out _ _ x)]
            exact h4 t
          · rw [comp_out (Net.relu I c) R (pcIn y) (pcIn fun b i => reluOut c (y b i)) (lanes_out _ _ y)]
            exact h4' t
          · have h6 := h5 b (2 * d) (fun i k hk => by
              have := C103_relu_counts c hc (hx b i) (hy b i) k d (fun j hj => hδ i j (by omega))
                (fun j hj => hroom _ (hx b i) j (by omega)) (fun j hj => hroom _ (hy b i) j (by omega))
              push_cast; exact this) o k hk
            refine h6.trans (le_of_eq ?_)
            show _ = (2:ℤ) ^ (Spec.rectifiers rest + 1) * d
            push_cast; ring
  | @hardtanh I O rest ih =>
      intro M hM hok x y hx hy
      simp only [build] at hM
      cases hR : build env rest with
      | error e => rw [hR] at hM; cases hM
      | ok R =>
          rw [hR] at hM; cases hM
          obtain ⟨out, out', h4, h4', h5⟩ := ih R hR hok x y hx hy
          refine ⟨out, out', fun t => ?_, fun t => ?_, h5⟩
          · rw [comp_out (Machine.id _) R (pcIn x) (pcIn x) (fun t => id_out _ _)]; exact h4 t
          · rw [comp_out (Machine.id _) R (pcIn y) (pcIn y) (fun t => id_out _ _)]; exact h4' t
  | @hardsigmoid I O mode depth rest ih =>
      intro M hM hok x y hx hy
      obtain ⟨hd, hok'⟩ := hok
      simp only [build] at hM
      cases hc : Adder.hardsigmoidMk mode depth with
      | error e => rw [hc] at hM; cases hM
      | ok c =>
          cases hR : build env rest with
          | error e => rw [hc, hR] at hM; cases hM
          | ok R =>
              rw [hc, hR] at hM; cases hM
              have hbits : ∀ z : ℕ → ℤ, Verif.Spec.BitStream (hardsigmoidOut c z) := fun z t => by
                have : hardsigmoidOut c z t = _ := C32_sigmoid_uni2bi mode depth c hc z t
                rw [this]; exact isBit_ind _
              obtain ⟨out, out', h4, h4', h5⟩ := ih R hR hok' (fun b i => hardsigmoidOut c (x b i))
                (fun b i => hardsigmoidOut c (y b i)) (fun b i => hbits _) (fun b i => hbits _)
              refine ⟨out, out', fun t => ?_, fun t => ?_, fun b d hδ => h5 b d fun i k hk => ?_⟩
              · rw [comp_out (Net.hardsigmoid I c) R (pcIn x) (pcIn fun b i => hardsigmoidOut c (x b i)) (lanes_out _ _ x)]
                exact h4 t
              · rw [comp_out (Net.hardsigmoid I c) R (pcIn y) (pcIn fun b i => hardsigmoidOut c (y b i)) (lanes_out _ _ y)]
                exact h4' t
              · have e := hδ i k hk
                rw [C32_sigmoid_exact mode depth hd c hc (x b i) (hx b i), C32_sigmoid_exact mode depth hd c hc (y b i) (hy b i)]
                rw [abs_le] at e ⊢
                constructor <;> omega

/-- Non-vacuity: two inputs, a layer with bias and three outputs, a rectifier with room for 128 cycles, a layer with one
output. -/
private def rectNet : Layers 2 1 :=
  .linear "bipolar" 3 "Sobol" 12 none (fun (_ : Fin 3) i => if i = 0 then 1/2 else -3/4) true (some fun _ => 1/4)
    (.relu 8 (.linear "bipolar" 3 "rc" 12 none (fun _ _ => 1/2) false none .done))

example : Spec.Moderate 128 rectNet ∧ Spec.rectifiers rectNet = 1 ∧
    (build ⟨30, fun _ => 1, fun _ _ => false, []⟩ rectNet).toBool = true := by
  refine ⟨⟨rfl, by decide, by norm_num [Spec.fanIn], by decide +kernel, by decide, by decide, rfl, by decide,
    by norm_num [Spec.fanIn], by decide +kernel, trivial⟩, rfl, by decide +kernel⟩

end Verif.Props
