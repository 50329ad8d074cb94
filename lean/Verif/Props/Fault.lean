import Verif.Props.Small
import Verif.Props.Mul
import Verif.Props.Div
import Verif.Props.Linear

/-!
# Property C103: how far a wrong input bit travels

Two runs of the same module on two histories.  The statements bound the difference of the two output counts by the
number of input bits in which the histories differ, at every length and from any configuration, or show that no such
bound exists.
-/

namespace Verif.Props

open Verif Finset Shuffle Small Divider

namespace Spec

/-- Cycles before `n` in which the second stream carries more. -/
def raised (x y : ℕ → ℤ) (n : ℕ) : ℤ := ∑ t ∈ range n, if x t < y t then 1 else 0

/-- Cycles before `n` in which the second stream carries less. -/
def lowered (x y : ℕ → ℤ) (n : ℕ) : ℤ := ∑ t ∈ range n, if y t < x t then 1 else 0

/-- Cycles before `n` in which two streams differ. -/
def flips (x y : ℕ → ℤ) (n : ℕ) : ℤ := ∑ t ∈ range n, if x t ≠ y t then 1 else 0

/-- Positions at which the second list carries more. -/
def raisedIn (a b : List ℚ) : ℤ := ((a.zip b).countP fun p => p.1 < p.2 : ℕ)

/-- Positions at which the second list carries less. -/
def loweredIn (a b : List ℚ) : ℤ := ((a.zip b).countP fun p => p.2 < p.1 : ℕ)

end Spec

private theorem raised_succ (x y : ℕ → ℤ) (n : ℕ) :
    Spec.raised x y (n + 1) = Spec.raised x y n + if x n < y n then 1 else 0 := sum_range_succ _ _
private theorem lowered_succ (x y : ℕ → ℤ) (n : ℕ) :
    Spec.lowered x y (n + 1) = Spec.lowered x y n + if y n < x n then 1 else 0 := sum_range_succ _ _
private theorem flips_succ (x y : ℕ → ℤ) (n : ℕ) :
    Spec.flips x y (n + 1) = Spec.flips x y n + if x n ≠ y n then 1 else 0 := sum_range_succ _ _

private theorem raised_add_lowered (x y : ℕ → ℤ) (n : ℕ) :
    Spec.raised x y n + Spec.lowered x y n = Spec.flips x y n := by
  unfold Spec.raised Spec.lowered Spec.flips
  rw [← sum_add_distrib]
  refine sum_congr rfl fun t _ => ?_
  split_ifs <;> omega

private theorem flips_first {x y : ℕ → ℤ} (h : ∀ t, x (t + 1) = y (t + 1)) (n : ℕ) : Spec.flips x y n ≤ 1 := by
  cases n with
  | zero => simp [Spec.flips]
  | succ n =>
      induction n with
      | zero =>
          rw [flips_succ]
          have : Spec.flips x y 0 = 0 := rfl
          split_ifs <;> omega
      | succ n ih => rw [flips_succ, h, if_neg (not_not.2 rfl)]; omega

private theorem raised_nonneg (x y : ℕ → ℤ) (n : ℕ) : 0 ≤ Spec.raised x y n :=
  sum_nonneg fun t _ => by split_ifs <;> omega
private theorem lowered_nonneg (x y : ℕ → ℤ) (n : ℕ) : 0 ≤ Spec.lowered x y n :=
  sum_nonneg fun t _ => by split_ifs <;> omega

private theorem raised_sub_lowered {x y : ℕ → ℤ} (hx : Verif.Spec.BitStream x) (hy : Verif.Spec.BitStream y) (n : ℕ) :
    Verif.Spec.ones y n - Verif.Spec.ones x n = Spec.raised x y n - Spec.lowered x y n := by
  induction n with
  | zero => rfl
  | succ n ih =>
      rw [Verif.Spec.ones_succ, Verif.Spec.ones_succ, raised_succ, lowered_succ]
      rcases hx n with h | h <;> rcases hy n with h' | h' <;> rw [h, h'] <;> norm_num <;> omega

/-! ## Saturating accumulators with a carry -/

private theorem clamp_close {lo hi p p' L R : ℚ} (hL : L ≤ 0) (hR : 0 ≤ R) (h1 : L ≤ p' - p)
    (h2 : p' - p ≤ R) : L ≤ clamp lo hi p' - clamp lo hi p ∧ clamp lo hi p' - clamp lo hi p ≤ R := by
  unfold clamp
  constructor
  · rcases le_total p lo with a | a <;> rcases le_total p' lo with b | b <;>
      simp only [max_eq_right a, max_eq_left a, max_eq_right b, max_eq_left b, min_def] <;> split_ifs <;> linarith
  · rcases le_total p lo with a | a <;> rcases le_total p' lo with b | b <;>
      simp only [max_eq_right a, max_eq_left a, max_eq_right b, max_eq_left b, min_def] <;> split_ifs <;> linarith

/-- Two runs of an accumulator that is clipped, compared with `T`, and reduced by `T` for every output one. -/
private theorem carry_two {lo hi T : ℚ} (hT : 0 < T) (a a' d d' : ℕ → ℚ) (o o' u v : ℕ → ℤ) (h0 : a 0 = a' 0)
    (ho : ∀ t, o t = ind (clamp lo hi (a t + d t) ≥ T)) (ha : ∀ t, a (t + 1) = clamp lo hi (a t + d t) - T * o t)
    (ho' : ∀ t, o' t = ind (clamp lo hi (a' t + d' t) ≥ T))
    (ha' : ∀ t, a' (t + 1) = clamp lo hi (a' t + d' t) - T * o' t)
    (hu : ∀ t, 0 ≤ u t) (hv : ∀ t, 0 ≤ v t)
    (hd : ∀ t, -(T * v t) ≤ d' t - d t) (hd' : ∀ t, d' t - d t ≤ T * u t) (n : ℕ) :
    -Verif.Spec.ones v n ≤ Verif.Spec.ones o' n - Verif.Spec.ones o n ∧
      Verif.Spec.ones o' n - Verif.Spec.ones o n ≤ Verif.Spec.ones u n := by
  suffices H : ∀ n, (-Verif.Spec.ones v n ≤ Verif.Spec.ones o' n - Verif.Spec.ones o n ∧
      Verif.Spec.ones o' n - Verif.Spec.ones o n ≤ Verif.Spec.ones u n) ∧
      T * ((-Verif.Spec.ones v n - (Verif.Spec.ones o' n - Verif.Spec.ones o n) : ℤ) : ℚ) ≤ a' n - a n ∧
      a' n - a n ≤ T * ((Verif.Spec.ones u n - (Verif.Spec.ones o' n - Verif.Spec.ones o n) : ℤ) : ℚ) from (H n).1
  intro n
  induction n with
  | zero => simp [h0]
  | succ n ih =>
      simp only [Verif.Spec.ones_succ]
      obtain ⟨⟨i1, i2⟩, i3, i4⟩ := ih
      generalize Verif.Spec.ones v n = V at *
      generalize Verif.Spec.ones u n = U at *
      generalize Verif.Spec.ones o' n = P' at *
      generalize Verif.Spec.ones o n = P at *
      have hun := hu n
      have hvn := hv n
      have hdn := hd n
      have hdn' := hd' n
      rw [ha, ha', ho, ho']
      have hL : T * ((-(V + v n) - (P' - P) : ℤ) : ℚ) ≤ 0 :=
        mul_nonpos_of_nonneg_of_nonpos hT.le (by exact_mod_cast (by omega : -(V + v n) - (P' - P) ≤ 0))
      have hR : 0 ≤ T * ((U + u n - (P' - P) : ℤ) : ℚ) :=
        mul_nonneg hT.le (by exact_mod_cast (by omega : 0 ≤ U + u n - (P' - P)))
      obtain ⟨c1, c2⟩ := clamp_close (lo := lo) (hi := hi) (p := a n + d n) (p' := a' n + d' n) hL hR
        (by push_cast at i3 ⊢; linarith) (by push_cast at i4 ⊢; linarith)
      generalize clamp lo hi (a n + d n) = z at *
      generalize clamp lo hi (a' n + d' n) = z' at *
      have hlow : 0 ≤ T * ((V + v n + (P' - P) : ℤ) : ℚ) :=
        mul_nonneg hT.le (by exact_mod_cast (by omega : 0 ≤ V + v n + (P' - P)))
      by_cases h : z ≥ T <;> by_cases h' : z' ≥ T
      · rw [ind_true h, ind_true h']
        refine ⟨⟨by omega, by omega⟩, ?_, ?_⟩ <;> push_cast at c1 c2 ⊢ <;> linarith
      · rw [ind_true h, ind_false h']
        have hpos : 0 < V + v n + (P' - P) := by
          by_contra hc
          have : T * ((V + v n + (P' - P) : ℤ) : ℚ) ≤ 0 :=
            mul_nonpos_of_nonneg_of_nonpos hT.le (by exact_mod_cast (by omega : V + v n + (P' - P) ≤ 0))
          push_cast at this c1
          linarith
        refine ⟨⟨by omega, by omega⟩, ?_, ?_⟩
        · push_cast at c1 ⊢; linarith
        · push_cast at hR ⊢; linarith
      · rw [ind_false h, ind_true h']
        have hpos : 0 < U + u n - (P' - P) := by
          by_contra hc
          have : T * ((U + u n - (P' - P) : ℤ) : ℚ) ≤ 0 :=
            mul_nonpos_of_nonneg_of_nonpos hT.le (by exact_mod_cast (by omega : U + u n - (P' - P) ≤ 0))
          push_cast at this c2
          linarith
        refine ⟨⟨by omega, by omega⟩, ?_, ?_⟩
        · push_cast at hlow ⊢; linarith
        · push_cast at c2 ⊢; linarith
      · rw [ind_false h, ind_false h']
        refine ⟨⟨by omega, by omega⟩, ?_, ?_⟩ <;> push_cast at c1 c2 ⊢ <;> linarith

/-! ## The adder -/

private theorem sum_diff (a b : List ℚ) (hl : a.length = b.length) (ha : ∀ v ∈ a, IsBit v) (hb : ∀ v ∈ b, IsBit v) :
    b.sum - a.sum = ((Spec.raisedIn a b - Spec.loweredIn a b : ℤ) : ℚ) := by
  induction a generalizing b with
  | nil => cases b with
    | nil => simp [Spec.raisedIn, Spec.loweredIn]
    | cons _ _ => simp at hl
  | cons p a ih => cases b with
    | nil => simp at hl
    | cons q b =>
        have e := ih b (by simpa using hl) (fun v hv => ha v (by simp [hv])) (fun v hv => hb v (by simp [hv]))
        have hp := ha p (by simp)
        have hq := hb q (by simp)
        unfold Spec.raisedIn Spec.loweredIn at e ⊢
        push_cast at e
        rw [List.zip_cons_cons, List.countP_cons, List.countP_cons, List.sum_cons, List.sum_cons]
        push_cast
        rcases hp with h | h <;> rcases hq with h' | h' <;> rw [h, h'] <;> norm_num <;> linarith

/-- C103: each wrong input bit of the adder changes the number of output ones by at most `m`, where `m` is any number
with `m * scale ≥ 1`; wrong ones can only add output ones and wrong zeros can only remove them.  Saturation, mode,
depth and number of addends are arbitrary. -/
theorem C103_add (cfg : Adder.Cfg) (a b : ℕ → Adder.Arg) (m : ℕ) (hs : 0 < Spec.addScale cfg a)
    (hm : 1 ≤ m * Spec.addScale cfg a) (he : Spec.addEntry cfg a = Spec.addEntry cfg b)
    (hsc : Spec.addScale cfg a = Spec.addScale cfg b) (hl : ∀ t, (a t).xs.length = (b t).xs.length)
    (ha : ∀ t, ∀ v ∈ (a t).xs, IsBit v) (hb : ∀ t, ∀ v ∈ (b t).xs, IsBit v) (n : ℕ) :
    -(m * ∑ t ∈ range n, Spec.loweredIn (a t).xs (b t).xs)
        ≤ Verif.Spec.ones (addOut cfg b) n - Verif.Spec.ones (addOut cfg a) n ∧
    Verif.Spec.ones (addOut cfg b) n - Verif.Spec.ones (addOut cfg a) n
        ≤ m * ∑ t ∈ range n, Spec.raisedIn (a t).xs (b t).xs := by
  have hO : Spec.addOffset cfg a = Spec.addOffset cfg b := by unfold Spec.addOffset; rw [he, hsc]
  have hcl : ∀ B y : ℚ, 0 < B → max (-B) (min y B) = clamp (-B) B y := by
    intro B y hB
    unfold clamp
    rw [max_def, min_def, min_def, max_def]; split_ifs <;> linarith
  have hB := accBound_pos cfg.depth
  have step : ∀ c, 0 ≤ Spec.addScale cfg c → ∀ t, addAcc cfg c (t + 1) = clamp (-accBound cfg.depth) (accBound cfg.depth)
      (addAcc cfg c t + Spec.addDelta cfg c t) - Spec.addScale cfg c * addOut cfg c t := by
    intro c hc t
    have := C18_single_clamp cfg c hc t
    rw [← hcl _ _ hB]
    have e : accBound cfg.depth = (2:ℚ) ^ (cfg.depth - 2) := rfl
    rw [e]; linarith
  have hsum : ∀ t, (b t).xs.sum - (a t).xs.sum
      = ((Spec.raisedIn (a t).xs (b t).xs - Spec.loweredIn (a t).xs (b t).xs : ℤ) : ℚ) :=
    fun t => sum_diff _ _ (hl t) (ha t) (hb t)
  have hr : ∀ t, 0 ≤ Spec.raisedIn (a t).xs (b t).xs := fun t => by unfold Spec.raisedIn; positivity
  have hw : ∀ t, 0 ≤ Spec.loweredIn (a t).xs (b t).xs := fun t => by unfold Spec.loweredIn; positivity
  have key := carry_two (lo := -accBound cfg.depth) (hi := accBound cfg.depth) hs (addAcc cfg a) (addAcc cfg b)
    (Spec.addDelta cfg a) (Spec.addDelta cfg b) (addOut cfg a) (addOut cfg b)
    (fun t => m * Spec.raisedIn (a t).xs (b t).xs) (fun t => m * Spec.loweredIn (a t).xs (b t).xs) rfl
    (addOut_eq cfg a) (step a hs.le) (by intro t; rw [hsc]; exact addOut_eq cfg b t)
    (by intro t; rw [hsc]; exact step b (by rw [← hsc]; exact hs.le) t)
    (fun t => mul_nonneg (by positivity) (hr t)) (fun t => mul_nonneg (by positivity) (hw t))
    (by
      intro t
      have h1 : (0:ℚ) ≤ Spec.raisedIn (a t).xs (b t).xs := by exact_mod_cast hr t
      have h2 : (0:ℚ) ≤ Spec.loweredIn (a t).xs (b t).xs := by exact_mod_cast hw t
      have h3 := mul_le_mul_of_nonneg_right hm h2
      have h4 := hsum t
      unfold Spec.addDelta
      rw [hO]
      push_cast at h4 ⊢
      nlinarith)
    (by
      intro t
      have h1 : (0:ℚ) ≤ Spec.raisedIn (a t).xs (b t).xs := by exact_mod_cast hr t
      have h2 : (0:ℚ) ≤ Spec.loweredIn (a t).xs (b t).xs := by exact_mod_cast hw t
      have h3 := mul_le_mul_of_nonneg_right hm h1
      have h4 := hsum t
      unfold Spec.addDelta
      rw [hO]
      push_cast at h4 ⊢
      nlinarith) n
  unfold Verif.Spec.ones at key ⊢
  rw [mul_sum, mul_sum]
  exact key

/-- Non-vacuity: two addends at scale `1/2` in a bipolar adder, one bit of one addend wrong; `m = 2`. -/
example (n : ℕ) : Verif.Spec.ones (addOut ⟨.bipolar, some (1 / 2), none, 6⟩ fun t => { xs := [if t = 3 then 1 else 0, 1] }) n
      - Verif.Spec.ones (addOut ⟨.bipolar, some (1 / 2), none, 6⟩ fun _ => { xs := [0, 1] }) n
    ≤ 2 * ∑ t ∈ range n, Spec.raisedIn [0, 1] [if t = 3 then 1 else 0, 1] :=
  (C103_add ⟨.bipolar, some (1 / 2), none, 6⟩ (fun _ => { xs := [0, 1] }) (fun t => { xs := [if t = 3 then 1 else 0, 1] }) 2
    (by norm_num [Spec.addScale]) (by norm_num [Spec.addScale]) rfl rfl (fun _ => rfl)
    (fun t v hv => by simp at hv; rcases hv with h | h <;> simp [IsBit, h])
    (fun t v hv => by
      simp only [List.mem_cons, List.not_mem_nil, or_false] at hv
      rcases hv with h | h
      · rw [h]; split_ifs
        · exact Or.inr rfl
        · exact Or.inl rfl
      · exact Or.inr h) n).2

/-- The bound is attained: one wrong bit, one output one more, also while the accumulator saturates. -/
example : Verif.Spec.ones (addOut ⟨.unipolar, some 2, none, 3⟩ fun t => { xs := [if t = 2 then 1 else 0, 1] }) 3
    - Verif.Spec.ones (addOut ⟨.unipolar, some 2, none, 3⟩ fun _ => { xs := [0, 1] }) 3 = 1 := by decide +kernel

/-! ## Converters between the codings -/

/-- C103: a wrong bit changes the output count of the bipolar-to-unipolar converter by at most two. -/
theorem C103_bi2uni (depth : ℤ) {x y : ℕ → ℤ} (hx : Verif.Spec.BitStream x) (hy : Verif.Spec.BitStream y) (n : ℕ) :
    -(2 * Spec.lowered x y n) ≤ Verif.Spec.ones (b2uOut depth y) n - Verif.Spec.ones (b2uOut depth x) n ∧
      Verif.Spec.ones (b2uOut depth y) n - Verif.Spec.ones (b2uOut depth x) n ≤ 2 * Spec.raised x y n := by
  have key := carry_two (lo := -accBound depth) (hi := accBound depth) (T := 1) one_pos
    (stateAt (bi2uniStep depth) 0 x) (stateAt (bi2uniStep depth) 0 y)
    (fun t => (x t : ℚ) * 2 - 1) (fun t => (y t : ℚ) * 2 - 1) (b2uOut depth x) (b2uOut depth y)
    (fun t => 2 * if x t < y t then 1 else 0) (fun t => 2 * if y t < x t then 1 else 0) rfl
    (fun _ => rfl) (fun t => by rw [one_mul]; rfl) (fun _ => rfl) (fun t => by rw [one_mul]; rfl)
    (fun t => by split_ifs <;> omega) (fun t => by split_ifs <;> omega)
    (fun t => by rcases hx t with h | h <;> rcases hy t with h' | h' <;> simp only [h, h'] <;> norm_num)
    (fun t => by rcases hx t with h | h <;> rcases hy t with h' | h' <;> simp only [h, h'] <;> norm_num) n
  unfold Verif.Spec.ones at key ⊢
  unfold Spec.raised Spec.lowered
  rw [mul_sum, mul_sum]
  exact key

/-- The bound two is attained. -/
example : Verif.Spec.ones (b2uOut 5 fun _ => 1) 4 - Verif.Spec.ones (b2uOut 5 fun t => if t = 0 then 0 else 1) 4 = 2 ∧
    Spec.flips (fun _ => 1) (fun t => if t = 0 then 0 else 1) 4 = 1 := by decide +kernel

/-- C103: a wrong bit changes the output count of the unipolar-to-bipolar converter by at most one. -/
theorem C103_uni2bi (depth : ℤ) {x y : ℕ → ℤ} (hx : Verif.Spec.BitStream x) (hy : Verif.Spec.BitStream y) (n : ℕ) :
    -Spec.lowered x y n ≤ Verif.Spec.ones (u2bOut depth y) n - Verif.Spec.ones (u2bOut depth x) n ∧
      Verif.Spec.ones (u2bOut depth y) n - Verif.Spec.ones (u2bOut depth x) n ≤ Spec.raised x y n :=
  carry_two (lo := -accBound depth) (hi := accBound depth) (T := 2) two_pos
    (stateAt (uni2biStep depth) 0 x) (stateAt (uni2biStep depth) 0 y)
    (fun t => (x t : ℚ) + 1) (fun t => (y t : ℚ) + 1) (u2bOut depth x) (u2bOut depth y)
    (fun t => if x t < y t then 1 else 0) (fun t => if y t < x t then 1 else 0) rfl
    (fun _ => rfl) (fun t => by rw [mul_comm]; rfl) (fun _ => rfl) (fun t => by rw [mul_comm]; rfl)
    (fun t => by split_ifs <;> omega) (fun t => by split_ifs <;> omega)
    (fun t => by rcases hx t with h | h <;> rcases hy t with h' | h' <;> simp only [h, h'] <;> norm_num)
    (fun t => by rcases hx t with h | h <;> rcases hy t with h' | h' <;> simp only [h, h'] <;> norm_num) n


/-- The bound one is attained. -/
example : Verif.Spec.ones (u2bOut 5 fun _ => 1) 4 - Verif.Spec.ones (u2bOut 5 fun t => if t = 0 then 0 else 1) 4 = 1 := by
  decide +kernel

/-! ## Rectifier -/

/-- C103: a wrong bit changes the output count of the rectifier by at most one. -/
theorem C103_relu (depth : ℤ) {x y : ℕ → ℤ} (hx : Verif.Spec.BitStream x) (hy : Verif.Spec.BitStream y) (n : ℕ) :
    -Spec.lowered x y n ≤ Verif.Spec.ones (reluOut depth y) n - Verif.Spec.ones (reluOut depth x) n ∧
      Verif.Spec.ones (reluOut depth y) n - Verif.Spec.ones (reluOut depth x) n ≤ Spec.raised x y n := by
  have hout : ∀ z : ℕ → ℤ, Verif.Spec.BitStream z → ∀ t, reluOut depth z t
      = if stateAt (reluStep depth) (accHalf depth) z t ≥ accHalf depth then z t else 1 := by
    intro z hz t
    have e : reluOut depth z t
        = Int.lor (z t) (1 - ind (stateAt (reluStep depth) (accHalf depth) z t ≥ accHalf depth)) := rfl
    rw [e]
    have l00 : Int.lor 0 0 = 0 := by decide
    have l01 : Int.lor 0 1 = 1 := by decide
    have l10 : Int.lor 1 0 = 1 := by decide
    have l11 : Int.lor 1 1 = 1 := by decide
    split_ifs with h
    · rw [ind_true h]; rcases hz t with h' | h' <;> rw [h'] <;> simp [l00, l10]
    · rw [ind_false h]; rcases hz t with h' | h' <;> rw [h'] <;> simp [l01, l11]
  have hst : ∀ z : ℕ → ℤ, ∀ t, stateAt (reluStep depth) (accHalf depth) z (t + 1)
      = clamp 0 (accMax depth) (stateAt (reluStep depth) (accHalf depth) z t + ((reluOut depth z t : ℚ) * 2 - 1)) :=
    fun _ _ => rfl
  suffices H : ∀ n, (-Spec.lowered x y n ≤ Verif.Spec.ones (reluOut depth y) n - Verif.Spec.ones (reluOut depth x) n ∧
      Verif.Spec.ones (reluOut depth y) n - Verif.Spec.ones (reluOut depth x) n ≤ Spec.raised x y n) ∧
      2 * ((Verif.Spec.ones (reluOut depth y) n - Verif.Spec.ones (reluOut depth x) n - Spec.raised x y n : ℤ) : ℚ)
        ≤ stateAt (reluStep depth) (accHalf depth) y n - stateAt (reluStep depth) (accHalf depth) x n ∧
      stateAt (reluStep depth) (accHalf depth) y n - stateAt (reluStep depth) (accHalf depth) x n
        ≤ 2 * ((Verif.Spec.ones (reluOut depth y) n - Verif.Spec.ones (reluOut depth x) n + Spec.lowered x y n : ℤ) : ℚ)
      from (H n).1
  intro n
  induction n with
  | zero => simp [Spec.raised, Spec.lowered]
  | succ n ih =>
      rw [Verif.Spec.ones_succ, Verif.Spec.ones_succ, raised_succ, lowered_succ, hst, hst, hout x hx, hout y hy]
      obtain ⟨⟨i1, i2⟩, i3, i4⟩ := ih
      generalize Verif.Spec.ones (reluOut depth y) n = P' at *
      generalize Verif.Spec.ones (reluOut depth x) n = P at *
      generalize Spec.raised x y n = U at *
      generalize Spec.lowered x y n = V at *
      generalize stateAt (reluStep depth) (accHalf depth) y n = a' at *
      generalize stateAt (reluStep depth) (accHalf depth) x n = a at *
      -- the counts after the cycle, and that they stay in the interval
      have fin : ∀ (o o' u v : ℤ), -(V + v) ≤ P' + o' - (P + o) → P' + o' - (P + o) ≤ U + u → 0 ≤ u → 0 ≤ v →
          (-(V + v) ≤ P' + o' - (P + o) ∧ P' + o' - (P + o) ≤ U + u) ∧
          2 * ((P' + o' - (P + o) - (U + u) : ℤ) : ℚ)
            ≤ clamp 0 (accMax depth) (a' + ((o' : ℚ) * 2 - 1)) - clamp 0 (accMax depth) (a + ((o : ℚ) * 2 - 1)) ∧
          clamp 0 (accMax depth) (a' + ((o' : ℚ) * 2 - 1)) - clamp 0 (accMax depth) (a + ((o : ℚ) * 2 - 1))
            ≤ 2 * ((P' + o' - (P + o) + (V + v) : ℤ) : ℚ) := by
        intro o o' u v g1 g2 hu hv
        refine ⟨⟨g1, g2⟩, clamp_close ?_ ?_ ?_ ?_⟩
        · have : ((P' + o' - (P + o) - (U + u) : ℤ) : ℚ) ≤ 0 := by exact_mod_cast (by omega)
          linarith
        · have : (0:ℚ) ≤ ((P' + o' - (P + o) + (V + v) : ℤ) : ℚ) := by exact_mod_cast (by omega)
          linarith
        · have : (0:ℚ) ≤ (u : ℚ) := by exact_mod_cast hu
          push_cast at i3 ⊢; linarith
        · have : (0:ℚ) ≤ (v : ℚ) := by exact_mod_cast hv
          push_cast at i4 ⊢; linarith
      by_cases h : a ≥ accHalf depth <;> by_cases h' : a' ≥ accHalf depth
      · rw [if_pos h, if_pos h']
        apply fin
        · rcases hx n with e | e <;> rcases hy n with e' | e' <;> rw [e, e'] <;> norm_num <;> omega
        · rcases hx n with e | e <;> rcases hy n with e' | e' <;> rw [e, e'] <;> norm_num <;> omega
        · split_ifs <;> omega
        · split_ifs <;> omega
      · rw [if_pos h, if_neg h']
        have hpos : P' - P < U := by
          by_contra hc
          have : (0:ℚ) ≤ ((P' - P - U : ℤ) : ℚ) := by exact_mod_cast (by omega)
          linarith
        apply fin
        · rcases hx n with e | e <;> rcases hy n with e' | e' <;> rw [e, e'] <;> norm_num <;> omega
        · rcases hx n with e | e <;> rcases hy n with e' | e' <;> rw [e, e'] <;> norm_num <;> omega
        · split_ifs <;> omega
        · split_ifs <;> omega
      · rw [if_neg h, if_pos h']
        have hpos : -V < P' - P := by
          by_contra hc
          have : ((P' - P + V : ℤ) : ℚ) ≤ 0 := by exact_mod_cast (by omega)
          linarith
        apply fin
        · rcases hx n with e | e <;> rcases hy n with e' | e' <;> rw [e, e'] <;> norm_num <;> omega
        · rcases hx n with e | e <;> rcases hy n with e' | e' <;> rw [e, e'] <;> norm_num <;> omega
        · split_ifs <;> omega
        · split_ifs <;> omega
      · rw [if_neg h, if_neg h']
        apply fin <;> (try split_ifs) <;> omega

/-- The bound is attained, and a wrong bit may leave no trace. -/
example : Verif.Spec.ones (reluOut 3 fun _ => 1) 4 - Verif.Spec.ones (reluOut 3 fun t => if t = 3 then 0 else 1) 4 = 1 ∧
    Verif.Spec.ones (reluOut 3 fun _ => 0) 4 = Verif.Spec.ones (reluOut 3 fun t => if t = 1 then 1 else 0) 4 := by
  decide +kernel

/-! ## Synchroniser -/

/-- C103: a wrong bit in either stream changes the first output count of the synchroniser by at most one. -/
theorem C103_sync (depth : ℕ) (sh : List ℕ) {x x' y y' : ℕ → ℤ} (hx : Verif.Spec.BitStream x)
    (hx' : Verif.Spec.BitStream x') (hy : Verif.Spec.BitStream y) (hy' : Verif.Spec.BitStream y') (n : ℕ) :
    -(Spec.lowered x x' n + Spec.lowered y y' n)
        ≤ Verif.Spec.ones (ssOut depth sh x' y') n - Verif.Spec.ones (ssOut depth sh x y) n ∧
      Verif.Spec.ones (ssOut depth sh x' y') n - Verif.Spec.ones (ssOut depth sh x y) n
        ≤ Spec.raised x x' n + Spec.raised y y' n := by
  have hX := raised_sub_lowered hx hx'
  -- the withheld bits of the two runs
  suffices H : ∀ n, -(Spec.lowered x x' n + Spec.raised y y' n) ≤ ssHeld depth sh x' y' n - ssHeld depth sh x y n ∧
      ssHeld depth sh x' y' n - ssHeld depth sh x y n ≤ Spec.raised x x' n + Spec.lowered y y' n by
    have h1 := H n
    have h2 := hX n
    have h3 := ssHeld_conserve depth sh x y hx hy n
    have h4 := ssHeld_conserve depth sh x' y' hx' hy' n
    omega
  intro n
  induction n with
  | zero => exact ⟨by simp [Spec.lowered, Spec.raised, ssHeld, stateAt], by simp [Spec.lowered, Spec.raised, ssHeld, stateAt]⟩
  | succ n ih =>
      obtain ⟨a1, a2, a3, a4⟩ := ssHeld_step depth sh x y hx hy n
      obtain ⟨b1, b2, b3, b4⟩ := ssHeld_step depth sh x' y' hx' hy' n
      rw [a4, b4, a3, b3, raised_succ, raised_succ, lowered_succ, lowered_succ]
      have r1 := raised_nonneg x x' n
      have r2 := raised_nonneg y y' n
      have r3 := lowered_nonneg x x' n
      have r4 := lowered_nonneg y y' n
      generalize ssHeld depth sh x y n = c at *
      generalize ssHeld depth sh x' y' n = c' at *
      generalize (2:ℤ) ^ depth = M at *
      clear a4 b4 a3 b3
      rcases hx n with e1 | e1 <;> rcases hx' n with e2 | e2 <;> rcases hy n with e3 | e3 <;> rcases hy' n with e4 | e4 <;>
        rw [e1, e2, e3, e4] <;> norm_num <;> (try split_ifs) <;> omega

/-- The bound is attained by a wrong bit of the second stream. -/
example : Verif.Spec.ones (ssOut 2 [1] (fun t => if t = 0 then 1 else 0) fun t => if t = 1 then 1 else 0) 3
    - Verif.Spec.ones (ssOut 2 [1] (fun t => if t = 0 then 1 else 0) fun _ => 0) 3 = 1 := by decide +kernel

/-! ## Multipliers -/

private theorem below_two (rng : List ℤ) (b : ℤ) (i j : ℕ) (h : i ≤ j) :
    0 ≤ Spec.below rng b j - Spec.below rng b i ∧ Spec.below rng b j - Spec.below rng b i ≤ j - i := by
  induction j, h using Nat.le_induction with
  | base => simp
  | succ j _ ih =>
      have e : Spec.below rng b (j + 1) = Spec.below rng b j + ind (b > rng.getD (j % rng.length) 0) := sum_range_succ _ _
      have hb : (ind (b > rng.getD (j % rng.length) 0) : ℤ) = 0 ∨ (ind (b > rng.getD (j % rng.length) 0) : ℤ) = 1 :=
        isBit_ind _
      push_cast
      omega

/-- C103: the product count of the static multiplier moves by no more than the number of ones of its input does, so
wrong bits that cancel leave no trace at all. -/
theorem C103_mul (m : Mode) (w : ℕ) (rng : List ℤ) (b : ℤ) {x y : ℕ → ℤ} (hx : Verif.Spec.BitStream x)
    (hy : Verif.Spec.BitStream y) (n : ℕ) :
    |Verif.Spec.ones (mulOut m w rng b x) n - Verif.Spec.ones (mulOut m w rng b y) n|
      ≤ |Verif.Spec.ones x n - Verif.Spec.ones y n| := by
  have hcx : (Spec.cnt x n : ℤ) = Verif.Spec.ones x n := Int.toNat_of_nonneg (Verif.Spec.ones_nonneg hx n)
  have hcy : (Spec.cnt y n : ℤ) = Verif.Spec.ones y n := Int.toNat_of_nonneg (Verif.Spec.ones_nonneg hy n)
  have hlx := Verif.Spec.ones_le hx n
  have hly := Verif.Spec.ones_le hy n
  rw [← hcx, ← hcy]
  cases m
  · rw [C24_count hx, C24_count hy]
    rcases le_total (Spec.cnt x n) (Spec.cnt y n) with h | h
    · have := below_two rng b _ _ h
      rw [abs_sub_comm, abs_sub_comm (Spec.cnt x n : ℤ), abs_of_nonneg this.1]
      exact this.2.trans (le_abs_self _)
    · have := below_two rng b _ _ h
      rw [abs_of_nonneg this.1]
      exact this.2.trans (le_abs_self _)
  · rw [C25_count hx, C25_count hy]
    rcases le_total (Spec.cnt x n) (Spec.cnt y n) with h | h
    · have h1 := below_two rng b _ _ h
      have h2 := below_two rng b (n - Spec.cnt y n) (n - Spec.cnt x n) (by omega)
      rw [abs_sub_comm, abs_sub_comm (Spec.cnt x n : ℤ)]
      refine le_trans ?_ (le_abs_self _)
      rw [abs_le]
      constructor <;> omega
    · have h1 := below_two rng b _ _ h
      have h2 := below_two rng b (n - Spec.cnt x n) (n - Spec.cnt y n) (by omega)
      refine le_trans ?_ (le_abs_self _)
      rw [abs_le]
      constructor <;> omega

/-- Two wrong bits that cancel leave the product count unchanged; one alone may change it. -/
example : Verif.Spec.ones (mulOut .bipolar 2 [0, 2, 1, 3] 3 fun t => if t < 2 then 1 else 0) 4
      = Verif.Spec.ones (mulOut .bipolar 2 [0, 2, 1, 3] 3 fun t => if t < 2 then 0 else 1) 4 ∧
    Verif.Spec.ones (mulOut .bipolar 2 [0, 2, 1, 3] 3 fun t => if t < 2 then 1 else 0) 4
      ≠ Verif.Spec.ones (mulOut .bipolar 2 [0, 2, 1, 3] 3 fun t => if t < 3 then 1 else 0) 4 := by decide +kernel

private theorem shifted_sum (g : ℕ → ℤ) (hg : ∀ t, 0 ≤ g t) (d n : ℕ) :
    ∑ t ∈ range n, (if t < d then 0 else g (t - d)) ≤ ∑ t ∈ range n, g t := by
  have h : ∀ n, ∑ t ∈ range n, (if t < d then 0 else g (t - d)) = ∑ t ∈ range (n - d), g t := by
    intro n
    induction n with
    | zero => simp
    | succ n ih =>
        rw [sum_range_succ, ih]
        by_cases hn : n < d
        · rw [if_pos hn, show n + 1 - d = 0 by omega, show n - d = 0 by omega]; simp
        · rw [if_neg hn, show n + 1 - d = (n - d) + 1 by omega, sum_range_succ]
  rw [h]
  exact sum_le_sum_of_subset_of_nonneg (range_mono (by omega)) fun t _ _ => hg t

/-- C103: a wrong bit of the second stream of an in-stream multiplier is seen for `2^w` cycles, hence changes the product
count by at most `2^w`. -/
theorem C103_mul_second (m : Mode) (w : ℕ) (rng : List ℤ) (hl : rng.length = 2 ^ w) {x y y' : ℕ → ℤ}
    (hx : Verif.Spec.BitStream x) (n : ℕ) :
    |Verif.Spec.ones (mulStreamOut m w rng x y) n - Verif.Spec.ones (mulStreamOut m w rng x y') n|
      ≤ 2 ^ w * Spec.flips y y' n := by
  -- differing bits inside the window of call `t`
  set F : ℕ → ℕ → ℤ := fun t k => if t < 2 ^ w - k then 0 else if y (t - (2 ^ w - k)) ≠ y' (t - (2 ^ w - k)) then 1 else 0
    with hF
  have hF0 : ∀ t k, 0 ≤ F t k := fun t k => by simp only [hF]; split_ifs <;> omega
  have hcall : ∀ t, |mulStreamOut m w rng x y t - mulStreamOut m w rng x y' t| ≤ ∑ k ∈ range (2 ^ w), F t k := by
    intro t
    by_cases hz : ∀ k ∈ range (2 ^ w), F t k = 0
    · have hw : Spec.windowCount w y t = Spec.windowCount w y' t := by
        unfold Spec.windowCount
        refine sum_congr rfl fun k hk => ?_
        have h1 := hz k hk
        have h2 := mem_range.1 hk
        simp only [hF] at h1
        split_ifs at h1 with h3 h4
        · rw [if_pos (show t + k < 2 ^ w by omega), if_pos (show t + k < 2 ^ w by omega)]
        · exact absurd h1 one_ne_zero
        · rw [if_neg (show ¬ t + k < 2 ^ w by omega), if_neg (show ¬ t + k < 2 ^ w by omega)]
          have : t + k - 2 ^ w = t - (2 ^ w - k) := by omega
          rw [this]
          simpa using h4
      have : mulStreamOut m w rng x y t = mulStreamOut m w rng x y' t := by
        cases m
        · rw [(C27_bit hx y w rng hl t).1, (C27_bit hx y' w rng hl t).1, hw]
        · rw [(C27_bit hx y w rng hl t).2, (C27_bit hx y' w rng hl t).2, hw]
      rw [this, sub_self, abs_zero]
      exact sum_nonneg fun k _ => hF0 t k
    · push Not at hz
      obtain ⟨k, hk, hk'⟩ := hz
      have hone : 1 ≤ F t k := by have := hF0 t k; omega
      have hsum : F t k ≤ ∑ k ∈ range (2 ^ w), F t k := single_le_sum (fun k _ => hF0 t k) hk
      have bit : ∀ z, IsBit (mulStreamOut m w rng x z t) := by
        intro z
        have h1 := Gen.bsGen_isBit rng (Spec.windowCount w z t) (Verif.Spec.ones x t)
        have h2 := Gen.bsGen_isBit rng (Spec.windowCount w z t) (t - Verif.Spec.ones x t)
        cases m
        · rw [(C27_bit hx z w rng hl t).1]; exact isBit_mul (hx t) h1
        · rw [(C27_bit hx z w rng hl t).2]
          rcases hx t with e | e <;> rw [e]
          · simpa using isBit_compl h2
          · simpa using h1
      rcases bit y with e | e <;> rcases bit y' with e' | e' <;> rw [e, e'] <;> norm_num <;> linarith
  unfold Verif.Spec.ones
  rw [← sum_sub_distrib]
  refine (abs_sum_le_sum_abs _ _).trans ((sum_le_sum fun t _ => hcall t).trans ?_)
  rw [sum_comm]
  have : ∀ k ∈ range (2 ^ w), ∑ t ∈ range n, F t k ≤ Spec.flips y y' n := fun k _ =>
    shifted_sum (fun t => if y t ≠ y' t then 1 else 0) (fun t => by split_ifs <;> omega) (2 ^ w - k) n
  refine (sum_le_sum this).trans ?_
  rw [sum_const, card_range, nsmul_eq_mul]
  push_cast
  exact le_refl _


/-- One wrong bit of the second stream seen more than once. -/
example : Verif.Spec.ones (mulStreamOut .unipolar 1 [0, 1] (fun _ => 1) fun _ => 1) 4
    - Verif.Spec.ones (mulStreamOut .unipolar 1 [0, 1] (fun _ => 1) fun t => if t = 0 then 0 else 1) 4 = 1 := by
  decide +kernel

/-- C103: there is no bound for the first stream of an in-stream multiplier.  One wrong bit shifts the number sequence
against the window of the second stream for good, and the two counts drift apart by two in every four cycles. -/
theorem C103_mul_first_unbounded :
    ∃ (w : ℕ) (rng : List ℤ) (x x' y : ℕ → ℤ), Verif.Spec.IsPermSeq w rng ∧ Verif.Spec.BitStream x ∧
      Verif.Spec.BitStream x' ∧ Verif.Spec.BitStream y ∧ (∀ n, Spec.flips x x' n ≤ 1) ∧
      ∀ k : ℕ, Verif.Spec.ones (mulStreamOut .unipolar w rng x' y) (4 * (k + 1))
        - Verif.Spec.ones (mulStreamOut .unipolar w rng x y) (4 * (k + 1)) = 2 * k := by
  set y : ℕ → ℤ := fun t => if t % 4 < 2 then 1 else 0 with hy
  set x' : ℕ → ℤ := fun t => if t = 0 then 0 else 1 with hx'
  have bx : Verif.Spec.BitStream fun _ => (1:ℤ) := fun _ => Or.inr rfl
  have bx' : Verif.Spec.BitStream x' := fun t => by
    simp only [hx']; split_ifs
    · exact Or.inl rfl
    · exact Or.inr rfl
  refine ⟨1, [0, 1], fun _ => 1, x', y, ⟨rfl, ?_⟩, bx, bx', ?_, ?_, ?_⟩
  · intro v h0 h1
    have : v = 0 ∨ v = 1 := by omega
    rcases this with h | h <;> subst h <;> rfl
  · intro t; simp only [hy]; split_ifs
    · exact Or.inr rfl
    · exact Or.inl rfl
  · exact flips_first fun t => by simp [hx']
  · have o1 : ∀ n, Verif.Spec.ones (fun _ => (1:ℤ)) n = n := fun n => by simp [Verif.Spec.ones]
    have o2 : ∀ n, Verif.Spec.ones x' (n + 1) = n := fun n => by
      induction n with
      | zero => rfl
      | succ n ih => rw [Verif.Spec.ones_succ, ih]; simp [hx']
    have win : ∀ t, Spec.windowCount 1 y (t + 2) = y t + y (t + 1) := fun t => by
      unfold Spec.windowCount
      rw [show (2 ^ 1 : ℕ) = 1 + 1 from rfl, sum_range_succ, sum_range_succ, sum_range_zero]
      rw [if_neg (by omega), if_neg (by omega), zero_add]
      rfl
    have gen : ∀ b c : ℤ, Gen.bsGen [0, 1] b c = if c % 2 = 0 then (if 0 < b then 1 else 0) else (if 1 < b then 1 else 0) := by
      intro b c
      have h : c % 2 = 0 ∨ c % 2 = 1 := by omega
      have e : Gen.bsGen [0, 1] b c = ind (b > ([0, 1] : List ℤ).getD (c % (2:ℤ)).toNat 0) := rfl
      rw [e]
      rcases h with h | h <;> rw [h] <;> simp [ind]
    have out : ∀ t, mulStreamOut .unipolar 1 [0, 1] (fun _ => 1) y (t + 2) =
        if t % 2 = 0 then (if 0 < y t + y (t + 1) then 1 else 0) else (if 1 < y t + y (t + 1) then 1 else 0) := fun t => by
      rw [(C27_bit bx y 1 [0, 1] rfl (t + 2)).1, win, o1, gen, one_mul]
      refine if_congr ?_ rfl rfl
      push_cast; omega
    have out' : ∀ t, mulStreamOut .unipolar 1 [0, 1] x' y (t + 2) =
        if t % 2 = 0 then (if 1 < y t + y (t + 1) then 1 else 0) else (if 0 < y t + y (t + 1) then 1 else 0) := fun t => by
      have e : x' (t + 2) = 1 := by simp [hx']
      rw [(C27_bit bx' y 1 [0, 1] rfl (t + 2)).1, win, o2, gen, e, one_mul]
      by_cases h : t % 2 = 0
      · rw [if_neg (by push_cast; omega), if_pos h]
      · rw [if_pos (by push_cast; omega), if_neg h]
    intro k
    induction k with
    | zero => decide +kernel
    | succ k ih =>
        have e : 4 * (k + 1 + 1) = 4 * k + 2 + 2 + 1 + 1 + 1 + 1 := by omega
        have e' : 4 * (k + 1) = 4 * k + 2 + 2 := by omega
        rw [e'] at ih
        have four : ∀ (z : ℕ → ℤ) n, Verif.Spec.ones z (n + 1 + 1 + 1 + 1)
            = Verif.Spec.ones z n + z n + z (n + 1) + z (n + 1 + 1) + z (n + 1 + 1 + 1) := by
          intro z n; simp only [Verif.Spec.ones_succ]
        rw [e, four _ (4 * k + 2 + 2), four (mulStreamOut .unipolar 1 [0, 1] (fun _ => 1) y) (4 * k + 2 + 2)]
        have y0 : y (4 * k) = 1 := if_pos (by omega)
        have y1 : y (4 * k + 1) = 1 := if_pos (by omega)
        have y2 : y (4 * k + 2) = 0 := if_neg (by omega)
        have y3 : y (4 * k + 3) = 0 := if_neg (by omega)
        have y4 : y (4 * k + 4) = 1 := if_pos (by omega)
        have y5 : y (4 * k + 5) = 1 := if_pos (by omega)
        have y6 : y (4 * k + 6) = 0 := if_neg (by omega)
        have a0 := out (4 * k + 2)
        have a1 := out (4 * k + 3)
        have a2 := out (4 * k + 4)
        have a3 := out (4 * k + 5)
        have b0 := out' (4 * k + 2)
        have b1 := out' (4 * k + 3)
        have b2 := out' (4 * k + 4)
        have b3 := out' (4 * k + 5)
        simp only [Nat.add_assoc, Nat.reduceAdd] at a0 a1 a2 a3 b0 b1 b2 b3 ih ⊢
        rw [a0, a1, a2, a3, b0, b1, b2, b3, y2, y3, y4, y5, y6]
        have m0 : (4 * k + 2) % 2 = 0 := by omega
        have m1 : (4 * k + 3) % 2 = 1 := by omega
        have m2 : (4 * k + 4) % 2 = 0 := by omega
        have m3 : (4 * k + 5) % 2 = 1 := by omega
        rw [m0, m1, m2, m3]
        norm_num
        linarith

/-! ## Sign and magnitude, flip-flop -/

/-- C103: there is no bound for the magnitude of `FSUSignAbs`.  An alternating stream keeps the counter at its middle and
gives ones only; with its first bit wrong the magnitude is the alternating stream itself. -/
theorem C103_signabs_unbounded (d : ℕ) (hd : 3 ≤ d) :
    ∃ x y : ℕ → ℤ, Verif.Spec.BitStream x ∧ Verif.Spec.BitStream y ∧ (∀ n, Spec.flips x y n ≤ 1) ∧
      ∀ k : ℕ, Verif.Spec.ones (absOut d x) (2 * (k + 1)) - Verif.Spec.ones (absOut d y) (2 * (k + 1)) = k := by
  set x : ℕ → ℤ := fun t => ((t % 2 : ℕ) : ℤ) with hx
  set y : ℕ → ℤ := fun t => if t = 0 then 1 else ((t % 2 : ℕ) : ℤ) with hy
  have hH : (4:ℚ) ≤ accHalf d := by
    unfold accHalf
    have : ((d:ℤ) - 1) = ((d - 1 : ℕ) : ℤ) := by omega
    rw [this, zpow_natCast]
    calc (4:ℚ) = 2 ^ 2 := by norm_num
      _ ≤ 2 ^ (d - 1) := pow_le_pow_right₀ (by norm_num) (by omega)
  have hM : accMax d = 2 * accHalf d - 1 := by
    unfold accMax accHalf
    rw [zpow_sub_one₀ (by norm_num)]; ring
  have step : ∀ (z : ℕ → ℤ) t, stateAt (signAbsStep d) (accHalf d) z (t + 1)
      = clamp 0 (accMax d) (stateAt (signAbsStep d) (accHalf d) z t + ((z t : ℚ) * 2 - 1)) := fun _ _ => rfl
  have out : ∀ (z : ℕ → ℤ) t, absOut d z t
      = Int.xor (ind (stateAt (signAbsStep d) (accHalf d) z (t + 1) < accHalf d)) (z t) := fun _ _ => rfl
  have cl : ∀ v : ℚ, 0 ≤ v → v ≤ accMax d → clamp 0 (accMax d) v = v := by
    intro v h0 h1; unfold clamp; rw [max_eq_left h0, min_eq_left h1]
  have sx : ∀ k : ℕ, stateAt (signAbsStep d) (accHalf d) x (2 * k) = accHalf d ∧
      stateAt (signAbsStep d) (accHalf d) x (2 * k + 1) = accHalf d - 1 := by
    intro k
    have next : stateAt (signAbsStep d) (accHalf d) x (2 * k) = accHalf d →
        stateAt (signAbsStep d) (accHalf d) x (2 * k + 1) = accHalf d - 1 := by
      intro h
      have e : x (2 * k) = 0 := by simp [hx]
      rw [step, h, e, cl] <;> push_cast <;> linarith
    induction k with
    | zero => exact ⟨rfl, next rfl⟩
    | succ k ih =>
        have h2 := ih (by
          intro h
          have e : x (2 * k) = 0 := by simp [hx]
          rw [step, h, e, cl] <;> push_cast <;> linarith)
        have h : stateAt (signAbsStep d) (accHalf d) x (2 * (k + 1)) = accHalf d := by
          have e : x (2 * k + 1) = 1 := by
            have : (2 * k + 1) % 2 = 1 := by omega
            simp only [hx, this]; rfl
          rw [show 2 * (k + 1) = 2 * k + 1 + 1 by omega, step, h2.2, e, cl] <;> push_cast <;> linarith
        exact ⟨h, next h⟩
  have sy : ∀ k : ℕ, stateAt (signAbsStep d) (accHalf d) y (2 * k + 1) = accHalf d + 1 ∧
      stateAt (signAbsStep d) (accHalf d) y (2 * k + 2) = accHalf d + 2 := by
    intro k
    induction k with
    | zero =>
        have h1 : stateAt (signAbsStep d) (accHalf d) y (2 * 0 + 1) = accHalf d + 1 := by
          have e : y 0 = 1 := rfl
          have e0 : stateAt (signAbsStep d) (accHalf d) y 0 = accHalf d := rfl
          rw [show 2 * 0 + 1 = 0 + 1 by omega, step, e0, e, cl] <;> push_cast <;> linarith
        refine ⟨h1, ?_⟩
        have e : y (2 * 0 + 1) = 1 := rfl
        rw [show 2 * 0 + 2 = 2 * 0 + 1 + 1 by omega, step, h1, e, cl] <;> push_cast <;> linarith
    | succ k ih =>
        have h1 : stateAt (signAbsStep d) (accHalf d) y (2 * (k + 1) + 1) = accHalf d + 1 := by
          have e : y (2 * k + 2) = 0 := by simp [hy]
          rw [show 2 * (k + 1) + 1 = 2 * k + 2 + 1 by omega, step, ih.2, e, cl] <;> push_cast <;> linarith
        refine ⟨h1, ?_⟩
        have e : y (2 * (k + 1) + 1) = 1 := by
          have : (2 * (k + 1) + 1) % 2 = 1 := by omega
          simp only [hy, this]; norm_num
        rw [show 2 * (k + 1) + 2 = 2 * (k + 1) + 1 + 1 by omega, step, h1, e, cl] <;> push_cast <;> linarith
  have x00 : Int.xor 0 0 = 0 := by decide
  have x01 : Int.xor 0 1 = 1 := by decide
  have x10 : Int.xor 1 0 = 1 := by decide
  have ox : ∀ k : ℕ, absOut d x (2 * k) = 1 ∧ absOut d x (2 * k + 1) = 1 := by
    intro k
    constructor
    · rw [out, (sx k).2, ind_true (by linarith), show x (2 * k) = 0 by simp [hx], x10]
    · have e : x (2 * k + 1) = 1 := by
        have : (2 * k + 1) % 2 = 1 := by omega
        simp only [hx, this]; rfl
      rw [out, show 2 * k + 1 + 1 = 2 * (k + 1) by omega, (sx (k + 1)).1, ind_false (by linarith), e, x01]
  have oy : ∀ k : ℕ, absOut d y (2 * (k + 1)) = 0 ∧ absOut d y (2 * k + 1) = 1 := by
    intro k
    constructor
    · rw [out, (sy (k + 1)).1, ind_false (by linarith), show y (2 * (k + 1)) = 0 by simp [hy], x00]
    · have e : y (2 * k + 1) = 1 := by
        have : (2 * k + 1) % 2 = 1 := by omega
        simp only [hy, this]; norm_num
      rw [out, show 2 * k + 1 + 1 = 2 * k + 2 by omega, (sy k).2, ind_false (by linarith), e, x01]
  refine ⟨x, y, ?_, ?_, ?_, ?_⟩
  · intro t
    have h : t % 2 = 0 ∨ t % 2 = 1 := by omega
    rcases h with h | h <;> simp only [hx, h]
    · exact Or.inl rfl
    · exact Or.inr rfl
  · intro t
    have h : t % 2 = 0 ∨ t % 2 = 1 := by omega
    simp only [hy]
    split_ifs
    · exact Or.inr rfl
    · rcases h with h | h <;> simp only [h]
      · exact Or.inl rfl
      · exact Or.inr rfl
  · exact flips_first fun t => by simp [hx, hy]
  · intro k
    induction k with
    | zero =>
        have a0 := (ox 0).1
        have a1 := (ox 0).2
        have b1 := (oy 0).2
        have b0 : absOut d y 0 = 1 := by
          have e := (sy 0).1
          rw [show 2 * 0 + 1 = 0 + 1 by omega] at e
          rw [out, e, ind_false (by linarith), show y 0 = 1 from rfl, x01]
        simp only [Nat.mul_zero, Nat.zero_add] at a0 a1 b1
        rw [show 2 * (0 + 1) = 0 + 1 + 1 by omega, Verif.Spec.ones_succ, Verif.Spec.ones_succ, Verif.Spec.ones_succ,
          Verif.Spec.ones_succ, a0, a1, b0, b1]
        simp
    | succ k ih =>
        rw [show 2 * (k + 1 + 1) = 2 * (k + 1) + 1 + 1 by omega, Verif.Spec.ones_succ, Verif.Spec.ones_succ,
          Verif.Spec.ones_succ, Verif.Spec.ones_succ, (ox (k + 1)).1, (ox (k + 1)).2, (oy k).1, (oy (k + 1)).2]
        push_cast
        linarith

/-- C103: there is no bound for the flip-flop.  One wrong set command is remembered as long as no command follows. -/
theorem C103_jkff_unbounded :
    ∃ j j' k : ℕ → ℤ, (∀ n, Spec.flips j j' n ≤ 1) ∧
      ∀ n : ℕ, Verif.Spec.ones (outAt jkStep 0 fun t => ((j' t : ℚ), (k t : ℚ))) n
        - Verif.Spec.ones (outAt jkStep 0 fun t => ((j t : ℚ), (k t : ℚ))) n = n := by
  set j' : ℕ → ℤ := fun t => if t = 0 then 1 else 0 with hj
  have l00 : Int.land 0 0 = 0 := by decide
  have l01 : Int.land 0 1 = 0 := by decide
  have l10 : Int.land 1 0 = 0 := by decide
  have l11 : Int.land 1 1 = 1 := by decide
  have s0 : ∀ n, stateAt jkStep 0 (fun _ => (((0:ℤ) : ℚ), ((0:ℤ) : ℚ))) n = 0 := by
    intro n
    induction n with
    | zero => rfl
    | succ n ih => rw [stateAt_succ, ih]; simp [jkStep, ind, l11, l01, l10, l00]
  have s1 : ∀ n, stateAt jkStep 0 (fun t => ((j' t : ℚ), ((0:ℤ) : ℚ))) (n + 1) = 1 := by
    intro n
    induction n with
    | zero => rw [stateAt_succ]; simp [stateAt, jkStep, ind, hj, l11, l01, l10, l00]
    | succ n ih => rw [stateAt_succ, ih]; simp [jkStep, ind, hj, l11, l01, l10, l00]
  refine ⟨fun _ => 0, j', fun _ => 0, ?_, ?_⟩
  · exact flips_first fun t => by simp [hj]
  · intro n
    have e0 : ∀ t, outAt jkStep 0 (fun _ => (((0:ℤ) : ℚ), ((0:ℤ) : ℚ))) t = 0 := fun t => s0 (t + 1)
    have e1 : ∀ t, outAt jkStep 0 (fun t => ((j' t : ℚ), ((0:ℤ) : ℚ))) t = 1 := fun t => s1 t
    unfold Verif.Spec.ones
    rw [sum_congr rfl fun t _ => e0 t, sum_congr rfl fun t _ => e1 t]
    simp

/-! ## Divider -/

private theorem valid_split (x y : ℕ → ℤ) (s k : ℕ) :
    Spec.valid x y (s + k) = Spec.valid x y s ++ ((List.range' s k).filter fun t => y t = 1).map x := by
  induction k with
  | zero => simp
  | succ k ih =>
      rw [← Nat.add_assoc, valid_succ, ih, List.range'_1_concat, List.filter_append, List.map_append, List.append_assoc]
      congr 2
      split_ifs with h <;> simp [h]

private theorem tape_end (P A V : List ℤ) (r : ℕ) (h : P.length ≤ V.length) :
    (P ++ (A ++ V)).getD ((A ++ V).length + r) 0 = V.getD (V.length + r - P.length) 0 := by
  rw [List.getD_eq_getElem?_getD, List.getD_eq_getElem?_getD, List.getElem?_append_right (by simp; omega),
    List.getElem?_append_right (by simp; omega)]
  congr 2
  simp
  omega

/-- C103: a divider kernel forgets.  Whatever bits were wrong, in the dividend or in the divisor, the quotient is right
again once the divisor has carried `2^w` ones since. -/
theorem C103_div_recovers {w : ℕ} {rng : List ℤ} (h : Verif.Spec.IsPermSeq w rng) (x x' y y' : ℕ → ℤ) (s t : ℕ)
    (hst : s ≤ t) (hx : ∀ u, s ≤ u → x u = x' u) (hy : ∀ u, s ≤ u → y u = y' u)
    (hc : 2 ^ w ≤ ((Ico s t).filter fun u => y u = 1).card) : corOut (2 ^ w) rng x y t = corOut (2 ^ w) rng x' y' t := by
  obtain ⟨k, rfl⟩ := Nat.exists_eq_add_of_le hst
  obtain ⟨r, -, h1, h2⟩ := C33_quotient h x y (s + k)
  obtain ⟨r', -, h1', h2'⟩ := C33_quotient h x' y' (s + k)
  have hr : r = r' := by rw [h1] at h1'; exact_mod_cast h1'
  subst hr
  rw [h2, h2', ← hx _ hst, ← hy _ hst]
  have hV : ((List.range' s k).filter fun t => y t = 1).map x = ((List.range' s k).filter fun t => y' t = 1).map x' := by
    have e : (List.range' s k).filter (fun t => y t = 1) = (List.range' s k).filter fun t => y' t = 1 := by
      apply List.filter_congr
      intro u hu
      rw [hy u (by have := List.mem_range'_1.1 hu; omega)]
    rw [← e]
    apply List.map_congr_left
    intro u hu
    have := (List.mem_filter.1 hu).1
    exact hx u (by have := List.mem_range'_1.1 this; omega)
  have hlen : 2 ^ w ≤ (((List.range' s k).filter fun t => y t = 1).map x).length := by
    rw [List.length_map]
    have e : ((List.range' s k).filter fun t => y t = 1).length = ((Ico s (s + k)).filter fun u => y u = 1).card := by
      have hn : ((List.range' s k).filter fun t => y t = 1).Nodup := List.Nodup.filter _ List.nodup_range'
      rw [← List.toFinset_card_of_nodup hn]
      congr 1
      ext u
      simp [List.mem_range'_1]
    omega
  congr 2
  unfold Spec.divTape
  rw [valid_split, valid_split, ← hV]
  rw [tape_end _ _ _ _ (by simpa using hlen), tape_end _ _ _ _ (by simpa using hlen)]

/-- Non-vacuity: a wrong first divisor bit, then ones only, is forgotten from the fifth call on. -/
example (t : ℕ) (ht : 5 ≤ t) : corOut (2 ^ 2) [0, 1, 2, 3] (fun _ => 1) (fun _ => 1) t
    = corOut (2 ^ 2) [0, 1, 2, 3] (fun _ => 1) (fun t => if t = 0 then 0 else 1) t :=
  C103_div_recovers (w := 2) ⟨rfl, fun v h0 h1 => by
      have : v = 0 ∨ v = 1 ∨ v = 2 ∨ v = 3 := by omega
      rcases this with h | h | h | h <;> subst h <;> rfl⟩ _ _ _ _ 1 t (by omega) (fun _ _ => rfl)
    (fun u hu => by rw [if_neg (show ¬ u = 0 by omega)])
    (by rw [filter_true_of_mem (fun _ _ => rfl), Nat.card_Ico]; omega)

/-- C103: until then there is no bound: one wrong divisor bit followed by zeros stays in the register. -/
theorem C103_div_unbounded :
    ∃ (w : ℕ) (rng : List ℤ) (x y y' q q' : ℕ → ℤ), Verif.Spec.IsPermSeq w rng ∧ (∀ n, Spec.flips y y' n ≤ 1) ∧
      (∀ t, corOut (2 ^ w) rng x y t = .ok (q t)) ∧ (∀ t, corOut (2 ^ w) rng x y' t = .ok (q' t)) ∧
      ∀ k : ℕ, Verif.Spec.ones q' (2 * k) - Verif.Spec.ones q (2 * k) = k := by
  set y' : ℕ → ℤ := fun t => if t = 0 then 1 else 0 with hy
  have hp : Verif.Spec.IsPermSeq 1 [0, 1] := ⟨rfl, fun v h0 h1 => by
    have : v = 0 ∨ v = 1 := by omega
    rcases this with h | h <;> subst h <;> rfl⟩
  have hr : ∀ (t r : ℕ), ([0, 1] : List ℤ).getD (t % 2 ^ 1) 0 = r → r = t % 2 := by
    intro t r h
    have : t % 2 = 0 ∨ t % 2 = 1 := by omega
    rcases this with e | e <;> rw [pow_one, e] at h <;> rw [e] <;> simp at h <;> omega
  have v0 : ∀ n, Spec.valid (fun _ => 1) (fun _ => 0) n = [] := fun n => by simp [Spec.valid]
  have v1 : ∀ n, Spec.valid (fun _ => 1) y' (n + 1) = [1] := fun n => by
    induction n with
    | zero => rfl
    | succ n ih => rw [valid_succ, ih]; simp [hy]
  refine ⟨1, [0, 1], fun _ => 1, fun _ => 0, y', fun t => ((t % 2 : ℕ) : ℤ), fun _ => 1, hp, ?_, ?_, ?_, ?_⟩
  · exact flips_first fun t => by simp [hy]
  · intro t
    obtain ⟨r, -, h1, h2⟩ := C33_quotient hp (fun _ => 1) (fun _ => 0) t
    have e := hr t r h1
    rw [h2, if_neg (by norm_num), Spec.divTape, v0, e]
    congr 1
    beta_reduce
    have : t % 2 = 0 ∨ t % 2 = 1 := by omega
    rcases this with e | e <;> rw [e] <;> decide +kernel
  · intro t
    obtain ⟨r, -, h1, h2⟩ := C33_quotient hp (fun _ => 1) y' t
    have e := hr t r h1
    rw [h2]
    cases t with
    | zero => rfl
    | succ t =>
        rw [if_neg (by simp [hy]), Spec.divTape, v1, e]
        congr 1
        beta_reduce
        have : (t + 1) % 2 = 0 ∨ (t + 1) % 2 = 1 := by omega
        rcases this with e | e <;> rw [e] <;> decide +kernel
  · intro k
    induction k with
    | zero => rfl
    | succ k ih =>
        have e0 : (2 * k) % 2 = 0 := by omega
        have e1 : (2 * k + 1) % 2 = 1 := by omega
        rw [show 2 * (k + 1) = 2 * k + 1 + 1 by omega, Verif.Spec.ones_succ, Verif.Spec.ones_succ, Verif.Spec.ones_succ,
          Verif.Spec.ones_succ]
        simp only [e0, e1]
        rw [Nat.cast_zero, Nat.cast_one, Nat.cast_add, Nat.cast_one]
        linarith

/-! ## A whole layer -/

private theorem pcVal_flips {B I O : ℕ} (c : Linear.PC I O) (hw : c.wtc = true) (x y : Fin B → Fin I → ℕ → ℤ)
    (hx : ∀ b i, Verif.Spec.BitStream (x b i)) (hy : ∀ b i, Verif.Spec.BitStream (y b i)) (b : Fin B) (o : Fin O) (n : ℕ) :
    |Verif.Spec.ones (fun t => pcVal c x t b o) n - Verif.Spec.ones (fun t => pcVal c y t b o) n|
      ≤ ∑ i, Spec.flips (x b i) (y b i) n := by
  induction n with
  | zero => simp [Verif.Spec.ones, Spec.flips]
  | succ n ih =>
      rw [Verif.Spec.ones_succ, Verif.Spec.ones_succ, sum_congr rfl fun i _ => flips_succ (x b i) (y b i) n, sum_add_distrib]
      have h : |pcVal c x n b o - pcVal c y n b o| ≤ ∑ i, if x b i n ≠ y b i n then (1:ℤ) else 0 := by
        unfold pcVal
        rw [add_sub_add_right_eq_sub, ← sum_sub_distrib]
        refine (abs_sum_le_sum_abs _ _).trans (sum_le_sum fun i _ => ?_)
        have h1 : IsBit (Gen.bsGen c.rng (c.weight o i) n) := isBit_ind _
        simp only [idx1, hw, if_true]
        generalize Gen.bsGen c.rng (c.weight o i) n = p at *
        rcases hx b i n with e | e <;> rcases hy b i n with e' | e' <;> rcases h1 with e1 | e1 <;> rw [e, e', e1] <;>
          split_ifs <;> simp_all
      have e := abs_add_le (Verif.Spec.ones (fun t => pcVal c x t b o) n - Verif.Spec.ones (fun t => pcVal c y t b o) n)
        (pcVal c x n b o - pcVal c y n b o)
      rw [show Verif.Spec.ones (fun t => pcVal c x t b o) n + pcVal c x n b o
          - (Verif.Spec.ones (fun t => pcVal c y t b o) n + pcVal c y n b o)
        = (Verif.Spec.ones (fun t => pcVal c x t b o) n - Verif.Spec.ones (fun t => pcVal c y t b o) n)
          + (pcVal c x n b o - pcVal c y n b o) by ring]
      linarith

private theorem rows_inj {B O : ℕ} {y : ℕ → Except PyErr (List (Fin O → ℤ))} {f g : Fin B → Fin O → ℕ → ℤ}
    (hf : Spec.Rows y f) (hg : Spec.Rows y g) : f = g := by
  funext b o t
  have h := List.ofFn_injective (Except.ok.inj ((hf t).symm.trans (hg t)))
  exact congrFun (congrFun h b) o

private theorem floor_flips {P Q E N : ℤ} (hN : 0 < N) (h : |P - Q| ≤ E) : N * |P / N - Q / N| ≤ E + (N - 1) := by
  have p1 := Int.mul_ediv_add_emod P N
  have p2 := Int.emod_nonneg P hN.ne'
  have p3 := Int.emod_lt_of_pos P hN
  have q1 := Int.mul_ediv_add_emod Q N
  have q2 := Int.emod_nonneg Q hN.ne'
  have q3 := Int.emod_lt_of_pos Q hN
  obtain ⟨s1, s2⟩ := abs_le.1 h
  rcases abs_cases (P / N - Q / N) with ⟨e, -⟩ | ⟨e, -⟩ <;> rw [e] <;> linarith [mul_sub N (P / N) (Q / N)]

/-- C103: in a fully connected layer of the default scale the wrong input bits are averaged, whatever the coding of the
weights: `e` of them in the inputs of a row change the number of ones of each output of that row by at most `e / fan-in`,
rounded up. -/
theorem C103_linear {B I O : ℕ} (hB : 0 < B) (env : Gen.Env) (mode : String) (width : ℕ) (name : String) (depth : ℤ)
    (we : Fin O → Fin I → ℚ) (bias : Bool) (be : Option (Fin O → ℚ)) (m : Linear.PC I O × Adder.Cfg)
    (hm : Linear.mkLinear env mode width name depth none we bias be = .ok m) (hN : 0 < Spec.fanIn I bias)
    (hd : (2 * Spec.fanIn I bias - 1 : ℚ) ≤ (2:ℚ) ^ (depth - 2))
    (x y : Fin B → Fin I → ℕ → ℤ) (hx : ∀ b i, Verif.Spec.BitStream (x b i)) (hy : ∀ b i, Verif.Spec.BitStream (y b i)) :
    ∃ out out' : Fin B → Fin O → ℕ → ℤ, Spec.Rows (linOut m x) out ∧ Spec.Rows (linOut m y) out' ∧
      ∀ b o n, (Spec.fanIn I bias : ℤ) * |Verif.Spec.ones (out b o) n - Verif.Spec.ones (out' b o) n|
        ≤ ∑ i, Spec.flips (x b i) (y b i) n + (Spec.fanIn I bias - 1) := by
  obtain ⟨out, cnt, h1, h2, h3⟩ := C45_floor hB env mode width name depth we bias be m hm hN hd x hx
  obtain ⟨out', cnt', h1', h2', h3'⟩ := C45_floor hB env mode width name depth we bias be m hm hN hd y hy
  refine ⟨out, out', h1, h1', fun b o n => ?_⟩
  rw [h3, h3']
  refine floor_flips (by exact_mod_cast hN) ?_
  cases hw : m.1.wtc with
  | true =>
      rw [rows_inj h2 fun t => pc_run hB m.1 x t, rows_inj h2' fun t => pc_run hB m.1 y t]
      exact pcVal_flips m.1 hw x y hx hy b o n
  | false =>
      have hbits : ∀ i, |Verif.Spec.ones (x b i) n - Verif.Spec.ones (y b i) n| ≤ Spec.flips (x b i) (y b i) n := by
        intro i
        have e1 := raised_sub_lowered (hx b i) (hy b i) n
        have e2 := raised_add_lowered (x b i) (y b i) n
        have e3 := raised_nonneg (x b i) (y b i) n
        have e4 := lowered_nonneg (x b i) (y b i) n
        rw [abs_le]; constructor <;> omega
      rw [rows_inj h2 fun t => C44_products hB m.1 hw width x hx t, rows_inj h2' fun t => C44_products hB m.1 hw width y hy t]
      have hS : ∀ z : Fin B → Fin I → ℕ → ℤ, Verif.Spec.ones (fun t => (∑ i, mulOut m.1.mode width m.1.rng (m.1.weight o i) (z b i) t)
            + Spec.biasBit m.1.rng m.1.bias o t) n
          = ∑ i, Verif.Spec.ones (mulOut m.1.mode width m.1.rng (m.1.weight o i) (z b i)) n
            + Verif.Spec.ones (fun t => Spec.biasBit m.1.rng m.1.bias o t) n := by
        intro z
        unfold Verif.Spec.ones
        rw [sum_add_distrib, sum_comm]
      rw [hS, hS, add_sub_add_right_eq_sub, ← sum_sub_distrib]
      exact (abs_sum_le_sum_abs _ _).trans
        (sum_le_sum fun i _ => (C103_mul m.1.mode width m.1.rng _ (hx b i) (hy b i) n).trans (hbits i))

/-- C103: with rate coded weights it does not matter where the wrong bits are: the numbers of output ones of two runs of
any length differ by at most the sum of the differences of the numbers of input ones over the fan-in, rounded up. -/
theorem C103_linear_counts {B I O : ℕ} (hB : 0 < B) (env : Gen.Env) (mode : String) (width : ℕ) (name : String) (depth : ℤ)
    (we : Fin O → Fin I → ℚ) (bias : Bool) (be : Option (Fin O → ℚ)) (m : Linear.PC I O × Adder.Cfg)
    (hm : Linear.mkLinear env mode width name depth none we bias be = .ok m) (hN : 0 < Spec.fanIn I bias)
    (hd : (2 * Spec.fanIn I bias - 1 : ℚ) ≤ (2:ℚ) ^ (depth - 2)) (hr : ¬ Spec.TemporalName name)
    (x y : Fin B → Fin I → ℕ → ℤ) (hx : ∀ b i, Verif.Spec.BitStream (x b i)) (hy : ∀ b i, Verif.Spec.BitStream (y b i)) :
    ∃ out out' : Fin B → Fin O → ℕ → ℤ, Spec.Rows (linOut m x) out ∧ Spec.Rows (linOut m y) out' ∧
      ∀ b o n, (Spec.fanIn I bias : ℤ) * |Verif.Spec.ones (out b o) n - Verif.Spec.ones (out' b o) n|
        ≤ ∑ i, |Verif.Spec.ones (x b i) n - Verif.Spec.ones (y b i) n| + (Spec.fanIn I bias - 1) := by
  obtain ⟨mo, l, out, h1, h2, h3, h4⟩ := C45_products hB env mode width name depth we bias be m hm hN hd hr x hx
  obtain ⟨mo', l', out', h1', h2', h3', h4'⟩ := C45_products hB env mode width name depth we bias be m hm hN hd hr y hy
  have em : mo = mo' := by rw [h1] at h1'; exact Except.ok.inj h1'
  have el : l = l' := by rw [h2] at h2'; exact Except.ok.inj h2'
  subst em el
  refine ⟨out, out', h3, h3', fun b o n => ?_⟩
  rw [h4, h4']
  refine floor_flips (by exact_mod_cast hN) ?_
  rw [add_sub_add_right_eq_sub, ← sum_sub_distrib]
  exact (abs_sum_le_sum_abs _ _).trans (sum_le_sum fun i _ => C103_mul mo width l _ (hx b i) (hy b i) n)

/-- Non-vacuity: the name of a rate coded sequence. -/
example : ¬ Spec.TemporalName "Sobol" := by decide +kernel

/-- Non-vacuity: layers with two inputs and bias satisfy the conditions, with a rate and with a temporal coded sequence. -/
example : ((Linear.mkLinear (I := 2) (O := 1) ⟨30, fun _ => 1, fun _ _ => false, []⟩ "Bipolar" 2 "Sobol" 12 none
      (fun _ _ => 1/2) true (some fun _ => 1/4)).toBool = true ∧
    (Linear.mkLinear (I := 2) (O := 1) ⟨30, fun _ => 1, fun _ _ => false, []⟩ "Bipolar" 2 "Race" 12 none
      (fun _ _ => 1/2) true (some fun _ => 1/4)).toBool = true) ∧ 0 < Spec.fanIn 2 true ∧
    (2 * Spec.fanIn 2 true - 1 : ℚ) ≤ (2:ℚ) ^ ((12:ℤ) - 2) :=
  ⟨⟨by decide +kernel, by decide +kernel⟩, by decide, by norm_num [Spec.fanIn]⟩

end Verif.Props
