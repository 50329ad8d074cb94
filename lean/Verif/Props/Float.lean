import Verif.Proofs.Float
import Verif.Props.Add
import Verif.Props.Shuffle
import Verif.Props.Small
import Verif.Props.Gen
import Verif.Props.Metric

/-!
# Properties C69–C71: what binary32 arithmetic changes
-/

namespace Verif.Props

open Verif Finset Shuffle _root_.Verif.Float
open Verif.Spec (BitStream IsF32)

/-! ## The rounding itself -/

/-- C69: the rounding used below is binary32 rounding to nearest: the result is a binary32 number, no other is nearer, binary32
numbers are kept, order is kept, and the error is at most half a unit in the last place. -/
theorem C69_rounding (x : ℚ) :
    IsF32 (fl x) ∧ (∀ v, IsF32 v → |fl x - x| ≤ |v - x|) ∧ (IsF32 x → fl x = x) ∧ (∀ y, x ≤ y → fl x ≤ fl y) ∧
    fl (-x) = - fl x ∧ |fl x - x| ≤ max (|x| / 2 ^ 24) ((2:ℚ) ^ (-150:ℤ)) :=
  ⟨fl_isF32 x, fun _ hv => fl_nearest x hv, fl_of_isF32, fun _ h => fl_mono h, fl_neg x, fl_error_rel x⟩

/-- Value of `fl` from the position of the leading bit. -/
theorem fl_eq {x : ℚ} (e : ℤ) (he : -149 ≤ e) (h1 : (2:ℚ) ^ (e + 23) ≤ |x|) (h2 : |x| < (2:ℚ) ^ (e + 24)) :
    fl x = roundHE (x / (2:ℚ) ^ e) * (2:ℚ) ^ e := by
  have hx : 0 < |x| := lt_of_lt_of_le (two_zpow_pos _) h1
  have a := (Int.zpow_le_iff_le_log (b := 2) (by norm_num) hx).1 (by exact_mod_cast h1)
  have b := (Int.lt_zpow_iff_log_lt (b := 2) (by norm_num) hx).1 (by exact_mod_cast h2)
  have : flExp x = e := by unfold flExp; omega
  unfold fl
  rw [this]

/-- C69: ties go to the even significand. -/
example : fl (2 ^ 24 + 1) = 2 ^ 24 ∧ fl (2 ^ 24 + 3) = 2 ^ 24 + 4 := by
  constructor
  · rw [fl_eq 1 (by norm_num) (by norm_num [abs_of_pos]) (by norm_num [abs_of_pos])]; norm_num [roundHE]
  · rw [fl_eq 1 (by norm_num) (by norm_num [abs_of_pos]) (by norm_num [abs_of_pos])]; norm_num [roundHE]

/-! ## C69: streaming modules -/

theorem fl_small {x : ℚ} {n : ℤ} (hx : x = n) (h : |n| ≤ 2 ^ 24) : fl x = x := by rw [hx, fl_int h]

/-- C69: an `FSUAdd` executed in binary32, its sums taken in any order, gives exactly the output stream of exact arithmetic, for
streams of any length, if scale and entry are multiples of `2^(g+1)` and the sum of the sizes of everything involved is at most
`2^(24+g)`. -/
theorem C69_add (cfg : Adder.Cfg) (a : ℕ → Adder.Arg) (out : ℕ → ℤ) (hrun : AddRun cfg a out)
    (g : ℤ) (hg : -149 ≤ g) (hg0 : g ≤ 0) (hd : g ≤ cfg.depth - 2)
    (he : ∃ m : ℤ, Spec.addEntry cfg a = m * (2:ℚ) ^ (g + 1)) (hs : ∃ m : ℤ, Spec.addScale cfg a = m * (2:ℚ) ^ (g + 1))
    (hx : ∀ t, ∀ x ∈ (a t).xs, ∃ m : ℤ, x = m) (N : ℚ) (hN : ∀ t, ((a t).xs.map abs).sum ≤ N)
    (hsize : N + |Spec.addEntry cfg a| + |Spec.addScale cfg a| + (2:ℚ) ^ (cfg.depth - 2) ≤ 2 ^ 24 * (2:ℚ) ^ g) (t : ℕ) :
    out t = addOut cfg a t := by
  obtain ⟨st, h0, hst⟩ := hrun
  set E := Spec.addEntry cfg a with hE
  set S := Spec.addScale cfg a with hS
  set B := accBound cfg.depth with hB
  have hBp : 0 < B := accBound_pos cfg.depth
  have hsize' : N + |E| + |S| + B ≤ 2 ^ 24 * (2:ℚ) ^ g := hsize
  have gE : OnGrid (g + 1) E := he
  have gS : OnGrid (g + 1) S := hs
  have gS' : OnGrid g S := gS.mono (by omega)
  have gE' : OnGrid g E := gE.mono (by omega)
  have gB : OnGrid g B := onGrid_pow hd
  have nN : 0 ≤ N := (list_abs_sum_nonneg _).trans (hN 0)
  have nE := abs_nonneg E
  have nS := abs_nonneg S
  have flS : fl S = S := fl_onGrid hg gS' (by linarith)
  have flE : fl E = E := fl_onGrid hg gE' (by linarith)
  set O := Spec.addOffset cfg a with hO
  have gO : OnGrid g O := by
    rw [hO]; unfold Spec.addOffset
    split_ifs
    · exact (gE.sub gS).half
    · exact onGrid_zero g
  have bO : |O| ≤ (|E| + |S|) / 2 := by
    rw [hO]; unfold Spec.addOffset
    split_ifs
    · rw [abs_div, abs_of_pos (by norm_num : (0:ℚ) < 2)]
      exact div_le_div_of_nonneg_right (abs_sub _ _) (by norm_num)
    · rw [abs_zero]; positivity
  -- configuration
  have hconf0 : addConfigure cfg (Adder.init cfg) (a 0) =
      { first := false, entry := some E, scaleCarry := S, offset := O, acc := 0 } := by
    have e1 : Adder.configure cfg (Adder.init cfg) (a 0) =
      { first := false, entry := some E, scaleCarry := S, offset := O, acc := 0 } := by
      have := add_state_inv cfg a 0
      exact this
    have hsub : fsub (fl E) S = E - S := by
      rw [flE]; exact fl_onGrid hg (gE'.sub gS') ((abs_sub _ _).trans (by linarith))
    have hdiv : fdiv (E - S) 2 = (E - S) / 2 := by
      refine fl_onGrid hg (gE.sub gS).half ?_
      rw [abs_div, abs_of_pos (by norm_num : (0:ℚ) < 2), div_le_iff₀ (by norm_num)]
      exact (abs_sub _ _).trans (by linarith)
    have hSO : O = if cfg.mode = .bipolar then (E - S) / 2 else 0 := rfl
    clear_value O
    have hEv : E = ((a 0).entry.or cfg.entry).getD (a 0).xs.length := rfl
    have hSv : S = ((a 0).scale.or cfg.scale).getD E := rfl
    clear_value E S
    unfold addConfigure Adder.init
    cases h1 : (a 0).entry <;> cases h2 : (a 0).scale <;> cases h3 : cfg.entry <;> cases h4 : cfg.scale <;>
      cases h5 : cfg.mode <;> simp_all
  -- one cycle
  have hstep : ∀ n v, OnGrid g (addAcc cfg a n) → FSum (a n).xs v →
      addAccumulate cfg { first := false, entry := some E, scaleCarry := S, offset := O, acc := addAcc cfg a n } v =
        ({ first := false, entry := some E, scaleCarry := S, offset := O, acc := addAcc cfg a (n + 1) }, addOut cfg a n) ∧
      OnGrid g (addAcc cfg a (n + 1)) := by
    intro n v ga hv
    have hxg : ∀ x ∈ (a n).xs, OnGrid g x := fun x h => by
      obtain ⟨m, rfl⟩ := hx n x h; exact onGrid_int hg0 m
    have hsum : |(a n).xs.sum| ≤ N := (list_abs_sum_le _).trans (hN n)
    have ev : v = (a n).xs.sum := hv.exact hg hxg ((hN n).trans (by linarith))
    have gsum : OnGrid g (a n).xs.sum := OnGrid.list_sum hxg
    have e1 : fsub v O = (a n).xs.sum - O := by
      rw [ev]; exact fl_onGrid hg (gsum.sub gO) ((abs_sub _ _).trans (by linarith))
    have hacc : |addAcc cfg a n| ≤ B := C18_bounded cfg a n
    have gd : OnGrid g (addAcc cfg a n + ((a n).xs.sum - O)) := ga.add (gsum.sub gO)
    have e2 : fadd (addAcc cfg a n) ((a n).xs.sum - O) = addAcc cfg a n + ((a n).xs.sum - O) := by
      refine fl_onGrid hg gd ((abs_add_le _ _).trans ?_)
      have := abs_sub (a n).xs.sum O
      linarith
    set y := clamp (-B) B (addAcc cfg a n + ((a n).xs.sum - O)) with hy
    have gy : OnGrid g y := OnGrid.clamp gB.neg gB gd
    have by' : |y| ≤ B := abs_le.2 ⟨le_clamp (by linarith), clamp_le _ _ _⟩
    have eo : addOut cfg a n = ind (y ≥ S) := addOut_eq cfg a n
    have hbit : IsBit (addOut cfg a n) := C18_bit cfg a n
    have gm : OnGrid g ((addOut cfg a n : ℚ) * S) := gS'.int_mul _
    have bm : |(addOut cfg a n : ℚ) * S| ≤ |S| := by
      rcases hbit with h | h <;> rw [h] <;> simp
    have e3 : fmul (addOut cfg a n : ℚ) S = (addOut cfg a n : ℚ) * S := fl_onGrid hg gm (by linarith)
    have e4 : fsub y ((addOut cfg a n : ℚ) * S) = y - (addOut cfg a n : ℚ) * S :=
      fl_onGrid hg (gy.sub gm) ((abs_sub _ _).trans (by linarith))
    have e5 : addAcc cfg a (n + 1) = clamp (-B) B (y - addOut cfg a n * S) := addAcc_succ' cfg a n
    refine ⟨?_, ?_⟩
    · unfold addAccumulate
      dsimp only
      rw [e1, e2, ← hB, ← hy, ← eo, e3, e4, e5]
    · rw [e5]; exact OnGrid.clamp gB.neg gB (gy.sub gm)
  have key : ∀ n, addConfigure cfg (st n) (a n) =
        { first := false, entry := some E, scaleCarry := S, offset := O, acc := addAcc cfg a n } ∧
      OnGrid g (addAcc cfg a n) := by
    intro n
    induction n with
    | zero => rw [h0, hconf0]; exact ⟨rfl, onGrid_zero g⟩
    | succ n ih =>
        obtain ⟨v, hv, h⟩ := hst n
        have h' := hstep n v ih.2 hv
        rw [ih.1, h'.1] at h
        have e : st (n + 1) = _ := (congrArg Prod.fst h).symm
        rw [e]
        exact ⟨rfl, h'.2⟩
  obtain ⟨v, hv, h⟩ := hst t
  have h' := hstep t v (key t).2 hv
  rw [(key t).1, h'.1] at h
  exact (congrArg Prod.snd h).symm

/-- `torch.sum` has a result. -/
theorem fsum_exists (l : List ℚ) : ∃ v, FSum l v := by
  induction l with
  | nil => exact ⟨0, FSum.nil⟩
  | cons x l ih =>
      obtain ⟨v, hv⟩ := ih
      exact ⟨_, FSum.add (FSum.one x) hv⟩

/-- Every adder has a run in binary32. -/
theorem addRun_exists (cfg : Adder.Cfg) (a : ℕ → Adder.Arg) : ∃ out, AddRun cfg a out := by
  choose v hv using fsum_exists
  let st : ℕ → Adder.St := fun n => Nat.rec (Adder.init cfg)
    (fun n s => (addAccumulate cfg (addConfigure cfg s (a n)) (v (a n).xs)).1) n
  exact ⟨fun t => (addAccumulate cfg (addConfigure cfg (st t) (a t)) (v (a t).xs)).2, st, rfl,
    fun t => ⟨v (a t).xs, hv _, rfl⟩⟩

/-- C69: in particular an adder of `N` bit streams with default scale and entry. -/
theorem C69_add_streams {N : ℕ} (mode : Mode) (depth : ℤ) (hd : 1 ≤ depth) (hN : 3 * (N:ℚ) + (2:ℚ) ^ (depth - 2) ≤ 2 ^ 23)
    (x : Fin N → ℕ → ℤ) (hx : ∀ i, BitStream (x i)) (out : ℕ → ℤ)
    (h : AddRun ⟨mode, none, none, depth⟩ (streamArgs x) out) (t : ℕ) :
    out t = addOut ⟨mode, none, none, depth⟩ (streamArgs x) t := by
  have hent : Spec.addEntry ⟨mode, none, none, depth⟩ (streamArgs x) = N := by
    simp [Spec.addEntry, streamArgs]
  have hsc : Spec.addScale ⟨mode, none, none, depth⟩ (streamArgs x) = N := by
    simp only [Spec.addScale]; rw [hent]; simp [streamArgs]
  refine C69_add _ _ out h (-1) (by norm_num) (by norm_num) (by show (-1:ℤ) ≤ depth - 2; omega) ⟨N, by rw [hent]; norm_num⟩
    ⟨N, by rw [hsc]; norm_num⟩ ?_ N ?_ ?_ t
  · intro t y hy
    simp only [streamArgs, List.mem_ofFn] at hy
    obtain ⟨i, rfl⟩ := hy
    exact ⟨_, rfl⟩
  · intro t
    simp only [streamArgs, List.map_ofFn, List.sum_ofFn]
    calc ∑ i, (abs ∘ fun i => (x i t : ℚ)) i ≤ ∑ i : Fin N, (1:ℚ) := by
          apply sum_le_sum
          intro i _
          rcases hx i t with h | h <;> simp [h]
      _ = _ := by simp
  · rw [hent, hsc, abs_of_nonneg (by positivity)]
    show (N:ℚ) + N + N + (2:ℚ) ^ (depth - 2) ≤ _
    have : (2:ℚ) ^ 24 * (2:ℚ) ^ (-1:ℤ) = 2 ^ 23 := by norm_num
    linarith

/-- The hypotheses are met by a million inputs and a depth of 24, and there is a run to speak of. -/
example (mode : Mode) (x : Fin 1000000 → ℕ → ℤ) (hx : ∀ i, BitStream (x i)) :
    ∃ out, AddRun ⟨mode, none, none, 24⟩ (streamArgs x) out ∧ ∀ t, out t = addOut ⟨mode, none, none, 24⟩ (streamArgs x) t := by
  obtain ⟨out, h⟩ := addRun_exists ⟨mode, none, none, 24⟩ (streamArgs x)
  exact ⟨out, h, fun t => C69_add_streams mode 24 (by norm_num) (by norm_num) x hx out h t⟩

/-! ### Counters of the converters -/

/-- Results on integers of size up to `2^24`. -/
private theorem fadd_int {x y : ℚ} {n : ℤ} (h : x + y = n) (hn : |n| ≤ 2 ^ 24) : fadd x y = x + y := fl_small h hn
private theorem fsub_int {x y : ℚ} {n : ℤ} (h : x - y = n) (hn : |n| ≤ 2 ^ 24) : fsub x y = x - y := fl_small h hn
private theorem fmul_int {x y : ℚ} {n : ℤ} (h : x * y = n) (hn : |n| ≤ 2 ^ 24) : fmul x y = x * y := fl_small h hn

private theorem accBound_int (d : ℕ) (hd : 2 ≤ d) : accBound d = ((2 ^ (d - 2) : ℤ) : ℚ) := by
  unfold accBound
  obtain ⟨k, rfl⟩ := Nat.exists_eq_add_of_le hd
  rw [show ((2 + k : ℕ) : ℤ) - 2 = (k : ℤ) by push_cast; ring, zpow_natCast, Nat.add_sub_cancel_left]; push_cast; rfl

private theorem bit_small {x : ℤ} (h : IsBit x) : |x| ≤ 1 := by rcases h with h | h <;> rw [h] <;> norm_num

/-- C69: `Bi2Uni` and `Uni2Bi` in binary32 give the streams of exact arithmetic at every length, for accumulators of up to
`25` bits. -/
theorem C69_convert (d : ℕ) (hd2 : 2 ≤ d) (hd : d ≤ 25) (x : ℕ → ℤ) (hx : BitStream x) (t : ℕ) :
    outAt (Float.bi2uniStep d) 0 x t = b2uOut d x t ∧ outAt (Float.uni2biStep d) 0 x t = u2bOut d x t := by
  have hB := accBound_int d hd2
  have hp : (0:ℤ) < 2 ^ (d - 2) := by positivity
  have hp2 : (2:ℤ) ^ (d - 2) ≤ 2 ^ 23 := pow_le_pow_right₀ (by norm_num) (by omega)
  set B : ℤ := 2 ^ (d - 2) with hBd
  clear_value B
  -- one step from an integer in range
  have s1 : ∀ (c : ℤ) (b : ℤ), |c| ≤ B → IsBit b →
      Float.bi2uniStep d c b = Shuffle.bi2uniStep d c b ∧
        ∃ c' : ℤ, (Shuffle.bi2uniStep d c b).1 = c' ∧ |c'| ≤ B := by
    intro c b hc hb
    have hb1 := bit_small hb
    rw [abs_le] at hc hb1
    have e1 : fmul (b:ℚ) 2 = b * 2 := fmul_int (n := b * 2) (by push_cast; ring) (by rw [abs_le]; omega)
    have e2 : fsub ((b:ℚ) * 2) 1 = b * 2 - 1 := fsub_int (n := b * 2 - 1) (by push_cast; ring) (by rw [abs_le]; omega)
    have e3 : fadd (c:ℚ) ((b:ℚ) * 2 - 1) = c + (b * 2 - 1) :=
      fadd_int (n := c + (b * 2 - 1)) (by push_cast; ring) (by rw [abs_le]; omega)
    have ea : clamp (-accBound d) (accBound d) ((c:ℚ) + ((b:ℚ) * 2 - 1)) = ((max (-B) (min (c + (b * 2 - 1)) B) : ℤ) : ℚ) := by
      rw [hB]; unfold clamp; push_cast
      rw [max_comm (-(B:ℚ)), min_max_distrib_right, min_eq_left (show (-(B:ℚ)) ≤ B by
        have : (0:ℚ) < B := by exact_mod_cast hp
        linarith)]
    set y : ℤ := max (-B) (min (c + (b * 2 - 1)) B) with hy
    have hyB : -B ≤ y ∧ y ≤ B := ⟨le_max_left _ _, max_le (by omega) (min_le_right _ _)⟩
    have eo : (ind ((y:ℚ) ≥ 1) : ℤ) = ind (y ≥ 1) := by
      unfold ind
      by_cases h : y ≥ 1
      · rw [if_pos h, if_pos (by exact_mod_cast h)]
      · rw [if_neg h, if_neg (by exact_mod_cast h)]
    have e4 : fsub (y:ℚ) ((ind (y ≥ 1) : ℤ) : ℚ) = y - ((ind (y ≥ 1) : ℤ) : ℚ) := by
      refine fsub_int (n := y - ind (y ≥ 1)) (by push_cast; ring) ?_
      rw [abs_le]; unfold ind; split_ifs <;> omega
    refine ⟨?_, y - ind (y ≥ 1), ?_, ?_⟩
    · unfold Float.bi2uniStep Shuffle.bi2uniStep
      dsimp only
      rw [e1, e2, e3, ea, eo, e4]
    · unfold Shuffle.bi2uniStep
      dsimp only
      rw [ea, eo]; push_cast; ring
    · rw [abs_le]; unfold ind; split_ifs <;> omega
  have s2 : ∀ (c : ℤ) (b : ℤ), |c| ≤ B → IsBit b →
      Float.uni2biStep d c b = Shuffle.uni2biStep d c b ∧
        ∃ c' : ℤ, (Shuffle.uni2biStep d c b).1 = c' ∧ |c'| ≤ B := by
    intro c b hc hb
    have hb1 := bit_small hb
    rw [abs_le] at hc hb1
    have e2 : fadd (b:ℚ) 1 = b + 1 := fadd_int (n := b + 1) (by push_cast; ring) (by rw [abs_le]; omega)
    have e3 : fadd (c:ℚ) ((b:ℚ) + 1) = c + (b + 1) :=
      fadd_int (n := c + (b + 1)) (by push_cast; ring) (by rw [abs_le]; omega)
    have ea : clamp (-accBound d) (accBound d) ((c:ℚ) + ((b:ℚ) + 1)) = ((max (-B) (min (c + (b + 1)) B) : ℤ) : ℚ) := by
      rw [hB]; unfold clamp; push_cast
      rw [max_comm (-(B:ℚ)), min_max_distrib_right, min_eq_left (show (-(B:ℚ)) ≤ B by
        have : (0:ℚ) < B := by exact_mod_cast hp
        linarith)]
    set y : ℤ := max (-B) (min (c + (b + 1)) B) with hy
    have hyB : -B ≤ y ∧ y ≤ B := ⟨le_max_left _ _, max_le (by omega) (min_le_right _ _)⟩
    have eo : (ind ((y:ℚ) ≥ 2) : ℤ) = ind (y ≥ 2) := by
      unfold ind
      by_cases h : y ≥ 2
      · rw [if_pos h, if_pos (by exact_mod_cast h)]
      · rw [if_neg h, if_neg (by exact_mod_cast h)]
    have e5 : fmul ((ind (y ≥ 2) : ℤ) : ℚ) 2 = ((ind (y ≥ 2) : ℤ) : ℚ) * 2 := by
      refine fmul_int (n := ind (y ≥ 2) * 2) (by push_cast; ring) ?_
      unfold ind; split_ifs <;> norm_num
    have e4 : fsub (y:ℚ) (((ind (y ≥ 2) : ℤ) : ℚ) * 2) = y - ((ind (y ≥ 2) : ℤ) : ℚ) * 2 := by
      refine fsub_int (n := y - ind (y ≥ 2) * 2) (by push_cast; ring) ?_
      rw [abs_le]; unfold ind; split_ifs <;> omega
    refine ⟨?_, y - ind (y ≥ 2) * 2, ?_, ?_⟩
    · unfold Float.uni2biStep Shuffle.uni2biStep
      dsimp only
      rw [e2, e3, ea, eo, e5, e4]
    · unfold Shuffle.uni2biStep
      dsimp only
      rw [ea, eo]; push_cast; ring
    · rw [abs_le]; unfold ind; split_ifs <;> omega
  have run : ∀ (f g : ℚ → ℤ → ℚ × ℤ), (∀ (c : ℤ) (b : ℤ), |c| ≤ B → IsBit b → f c b = g c b ∧
      ∃ c' : ℤ, (g c b).1 = c' ∧ |c'| ≤ B) → outAt f 0 x t = outAt g 0 x t := by
    intro f g h
    have st : ∀ n, stateAt f 0 x n = stateAt g 0 x n ∧ ∃ c : ℤ, stateAt g 0 x n = c ∧ |c| ≤ B := by
      intro n
      induction n with
      | zero => exact ⟨rfl, 0, by simp, by simp; omega⟩
      | succ n ih =>
          obtain ⟨e, c, hc, hcb⟩ := ih
          rw [stateAt_succ, stateAt_succ, e, hc, (h c (x n) hcb (hx n)).1]
          exact ⟨rfl, (h c (x n) hcb (hx n)).2⟩
    obtain ⟨e, c, hc, hcb⟩ := st t
    unfold outAt
    rw [e, hc, (h c (x t) hcb (hx t)).1]
  exact ⟨run _ _ s1, run _ _ s2⟩

example : IsBit ((fun t : ℕ => ((t % 2 : ℕ) : ℤ)) 3) ∧ (2:ℕ) ≤ 3 ∧ (3:ℕ) ≤ 25 := ⟨by right; rfl, by norm_num, by norm_num⟩

private theorem fadd_cast {m n : ℤ} (h : |m + n| ≤ 2 ^ 24) : fadd (m:ℚ) n = ((m + n : ℤ) : ℚ) := by
  unfold fadd; rw [← Int.cast_add]; exact fl_int h
private theorem fsub_cast {m n : ℤ} (h : |m - n| ≤ 2 ^ 24) : fsub (m:ℚ) n = ((m - n : ℤ) : ℚ) := by
  unfold fsub; rw [← Int.cast_sub]; exact fl_int h
private theorem fmul_cast {m n : ℤ} (h : |m * n| ≤ 2 ^ 24) : fmul (m:ℚ) n = ((m * n : ℤ) : ℚ) := by
  unfold fmul; rw [← Int.cast_mul]; exact fl_int h

private theorem ind_cast (p q : Prop) [Decidable p] [Decidable q] (h : p ↔ q) : (ind p : ℚ) = ((ind q : ℤ) : ℚ) := by
  unfold ind; by_cases hp : p
  · rw [if_pos hp, if_pos (h.1 hp)]; simp
  · rw [if_neg hp, if_neg (fun hq => hp (h.2 hq))]; simp

private theorem clamp_cast (lo hi x : ℤ) : clamp (lo:ℚ) hi x = ((clamp lo hi x : ℤ) : ℚ) := by
  unfold clamp; push_cast; rfl

/-- C69: `SkewedSync` in binary32 gives the bits of exact arithmetic at every length, for counters of up to 24 bits. -/
theorem C69_sync (depth : ℕ) (hd : depth ≤ 24) (sh : List ℕ) (x y : ℕ → ℤ) (hx : BitStream x) (hy : BitStream y) (t : ℕ) :
    outAt (Float.ssStep depth) 0 (fun t => (x t, y t)) t = ((ssOut depth sh x y t : ℚ), (ssOut2 depth sh x y t : ℚ)) := by
  have hp : (0:ℤ) < 2 ^ depth := by positivity
  have hp2 : (2:ℤ) ^ depth ≤ 2 ^ 24 := pow_le_pow_right₀ (by norm_num) hd
  have hU : fl ((2:ℚ) ^ depth - 1) = ((2 ^ depth - 1 : ℤ) : ℚ) := by
    rw [show (2:ℚ) ^ depth - 1 = ((2 ^ depth - 1 : ℤ) : ℚ) by push_cast; ring]
    exact fl_int (by rw [abs_le]; omega)
  set e : ℕ → ℤ := fun n => if (stateAt (Shuffle.ssStep depth) ssInit (fun t => (sh, x t, y t)) n).shape ≠ sh then 0
    else (stateAt (Shuffle.ssStep depth) ssInit (fun t => (sh, x t, y t)) n).cnt with he
  have hout : ∀ n, ssOut depth sh x y n = x n + ind (x n + y n = 1) *
      ((ind (e n ≠ 0) : ℤ) * (1 - x n) + (0 - ind (e n ≠ 2 ^ depth - 1)) * x n) := fun n => rfl
  have hnext : ∀ n, e (n + 1) = clamp 0 (2 ^ depth - 1) (e n + ind (x n + y n = 1) * (x n * 2 - 1)) := by
    intro n
    have : (stateAt (Shuffle.ssStep depth) ssInit (fun t => (sh, x t, y t)) (n + 1)).shape = sh := rfl
    rw [he]
    dsimp only
    rw [if_neg (by rw [this]; simp)]
    rfl
  have h0 : e 0 = 0 := by rw [he]; dsimp only; split_ifs <;> rfl
  have hrange : ∀ n, 0 ≤ e n ∧ e n ≤ 2 ^ depth - 1 := by
    intro n
    cases n with
    | zero => rw [h0]; omega
    | succ n => rw [hnext]; exact ⟨le_clamp (by omega), clamp_le _ _ _⟩
  have h2 : ∀ n, ssOut2 depth sh x y n = y n := fun n => rfl
  clear_value e
  generalize (2:ℤ) ^ depth = U at *
  have step : ∀ n, Float.ssStep depth (e n) (x n, y n) = ((e (n + 1) : ℚ), ((ssOut depth sh x y n : ℚ), (y n : ℚ))) := by
    intro n
    have hr := hrange n
    rw [hout, hnext]
    generalize e n = c at *
    have hb : ∀ b : ℤ, IsBit b → 0 ≤ b ∧ b ≤ 1 := fun b h => ⟨h.nonneg, h.le_one⟩
    obtain ⟨a0, a1⟩ := hb _ (hx n)
    obtain ⟨b0, b1⟩ := hb _ (hy n)
    generalize x n = a at *
    generalize y n = b at *
    have hs : fadd (a:ℚ) b = ((a + b : ℤ) : ℚ) := fadd_cast (by rw [abs_le]; omega)
    have i1 : (ind (((a + b : ℤ) : ℚ) = 1) : ℚ) = ((ind (a + b = 1) : ℤ) : ℚ) := ind_cast _ _ (by norm_cast)
    have i2 : (ind ((c:ℚ) ≠ 0) : ℚ) = ((ind (c ≠ 0) : ℤ) : ℚ) := ind_cast _ _ (by norm_cast)
    have i3 : (ind ((c:ℚ) ≠ ((U - 1 : ℤ) : ℚ)) : ℚ) = ((ind (c ≠ U - 1) : ℤ) : ℚ) := ind_cast _ _ (by norm_cast)
    unfold Float.ssStep
    dsimp only
    rw [hU, hs, i1, i2, i3]
    have k1 := isBit_ind (a + b = 1)
    have k2 := isBit_ind (c ≠ 0)
    have k3 := isBit_ind (c ≠ U - 1)
    obtain ⟨p0, p1⟩ := hb _ k1
    obtain ⟨q0, q1⟩ := hb _ k2
    obtain ⟨r0, r1⟩ := hb _ k3
    generalize (ind (a + b = 1) : ℤ) = P at *
    generalize (ind (c ≠ 0) : ℤ) = Q at *
    generalize (ind (c ≠ U - 1) : ℤ) = R at *
    have bnd : ∀ u v : ℤ, -1 ≤ u → u ≤ 1 → -1 ≤ v → v ≤ 1 → -1 ≤ u * v ∧ u * v ≤ 1 := by
      intro u v h1 h2 h3 h4
      constructor <;> nlinarith
    have m1 := bnd Q (1 - a) (by omega) (by omega) (by omega) (by omega)
    have m2 := bnd (0 - R) a (by omega) (by omega) (by omega) (by omega)
    have m5 := bnd P (a * 2 - 1) (by omega) (by omega) (by omega) (by omega)
    have m3 : -2 ≤ P * (Q * (1 - a) + (0 - R) * a) ∧ P * (Q * (1 - a) + (0 - R) * a) ≤ 2 := by
      constructor <;> nlinarith
    have one : (1:ℚ) = ((1:ℤ) : ℚ) := by norm_num
    have two : (2:ℚ) = ((2:ℤ) : ℚ) := by norm_num
    have zero : (0:ℚ) = ((0:ℤ) : ℚ) := by norm_num
    rw [one, two, zero]
    rw [fsub_cast (m := 1) (n := a) (by rw [abs_le]; omega), fmul_cast (m := Q) (by rw [abs_le]; omega),
      fsub_cast (m := 0) (n := R) (by rw [abs_le]; omega), fmul_cast (m := 0 - R) (by rw [abs_le]; omega),
      fadd_cast (m := Q * (1 - a)) (by rw [abs_le]; omega), fmul_cast (m := P) (by rw [abs_le]; omega),
      fadd_cast (m := a) (by rw [abs_le]; omega), fmul_cast (m := a) (by rw [abs_le]; omega),
      fsub_cast (m := a * 2) (by rw [abs_le]; omega), fmul_cast (m := P) (by rw [abs_le]; omega),
      fadd_cast (m := c) (by rw [abs_le]; omega), clamp_cast]
  have st : ∀ n, stateAt (Float.ssStep depth) 0 (fun t => (x t, y t)) n = (e n : ℚ) := by
    intro n
    induction n with
    | zero => rw [h0]; simp
    | succ n ih => rw [stateAt_succ, ih, step]
  unfold outAt
  rw [st, step, h2]

/-- C69: `FSUSignAbs` in binary32 gives the signs and magnitudes of exact arithmetic at every length, for counters of up to 24
bits. -/
theorem C69_signabs (d : ℕ) (h1 : 1 ≤ d) (hd : d ≤ 24) (x : ℕ → ℤ) (hx : BitStream x) (t : ℕ) :
    outAt (Float.signAbsStep d) (Float.signAbsInit d) x t = (signOut d x t, absOut d x t) := by
  obtain ⟨k, rfl⟩ := Nat.exists_eq_add_of_le h1
  have hp : (0:ℤ) < 2 ^ k := by positivity
  have hp2 : (2:ℤ) ^ k ≤ 2 ^ 23 := pow_le_pow_right₀ (by norm_num) (by omega)
  have hH : (2:ℚ) ^ (((1 + k : ℕ) : ℤ) - 1) = ((2 ^ k : ℤ) : ℚ) := by
    rw [show ((1 + k : ℕ) : ℤ) - 1 = (k : ℤ) by push_cast; ring, zpow_natCast]; push_cast; rfl
  have hM : (2:ℚ) ^ ((1 + k : ℕ) : ℤ) - 1 = ((2 * 2 ^ k - 1 : ℤ) : ℚ) := by
    rw [zpow_natCast, pow_add]; push_cast; ring
  have fH : fl ((2:ℚ) ^ (((1 + k : ℕ) : ℤ) - 1)) = (2:ℚ) ^ (((1 + k : ℕ) : ℤ) - 1) := by
    rw [hH]; exact fl_int (by rw [abs_le]; omega)
  have fM : fl ((2:ℚ) ^ ((1 + k : ℕ) : ℤ) - 1) = (2:ℚ) ^ ((1 + k : ℕ) : ℤ) - 1 := by
    rw [hM]; exact fl_int (by rw [abs_le]; omega)
  generalize hU : (2:ℤ) ^ k = U at *
  have step : ∀ (c b : ℤ), 0 ≤ c → c ≤ 2 * U - 1 → IsBit b →
      Float.signAbsStep (1 + k : ℕ) c b = Small.signAbsStep (1 + k : ℕ) c b ∧
      ∃ c' : ℤ, (Small.signAbsStep (1 + k : ℕ) c b).1 = c' ∧ 0 ≤ c' ∧ c' ≤ 2 * U - 1 := by
    intro c b c0 c1 hb
    have b0 := hb.nonneg
    have b1 := hb.le_one
    have two : (2:ℚ) = ((2:ℤ) : ℚ) := by norm_num
    have one : (1:ℚ) = ((1:ℤ) : ℚ) := by norm_num
    have e1 : fadd (c:ℚ) (fsub (fmul (b:ℚ) 2) 1) = (c:ℚ) + ((b:ℚ) * 2 - 1) := by
      rw [show fmul (b:ℚ) 2 = ((b * 2 : ℤ) : ℚ) by
        have := fmul_cast (m := b) (n := 2) (by rw [abs_le]; omega); simpa using this]
      rw [show fsub ((b * 2 : ℤ) : ℚ) 1 = ((b * 2 - 1 : ℤ) : ℚ) by
        have := fsub_cast (m := b * 2) (n := 1) (by rw [abs_le]; omega); simpa using this]
      rw [fadd_cast (by rw [abs_le]; omega)]; push_cast; ring
    refine ⟨?_, clamp 0 (2 * U - 1) (c + (b * 2 - 1)), ?_, le_clamp (by omega), clamp_le _ _ _⟩
    · unfold Float.signAbsStep Small.signAbsStep
      dsimp only
      rw [e1, fM, fH]
      rfl
    · unfold Small.signAbsStep Small.accMax
      dsimp only
      rw [hM, ← clamp_cast]; push_cast; rfl
  have st : ∀ n, stateAt (Float.signAbsStep (1 + k : ℕ)) (Float.signAbsInit (1 + k : ℕ)) x n
        = stateAt (Small.signAbsStep (1 + k : ℕ)) (Small.accHalf (1 + k : ℕ)) x n ∧
      ∃ c : ℤ, stateAt (Small.signAbsStep (1 + k : ℕ)) (Small.accHalf (1 + k : ℕ)) x n = c ∧ 0 ≤ c ∧ c ≤ 2 * U - 1 := by
    intro n
    induction n with
    | zero => exact ⟨fH, U, hH, by omega, by omega⟩
    | succ n ih =>
        obtain ⟨e, c, hc, c0, c1⟩ := ih
        rw [stateAt_succ, stateAt_succ, e, hc, (step c (x n) c0 c1 (hx n)).1]
        exact ⟨rfl, (step c (x n) c0 c1 (hx n)).2⟩
  obtain ⟨e, c, hc, c0, c1⟩ := st t
  unfold signOut absOut outAt
  rw [e, hc, (step c (x t) c0 c1 (hx t)).1]

example : BitStream (fun t : ℕ => ((t % 2 : ℕ) : ℤ)) := fun t => by
  rcases Nat.mod_two_eq_zero_or_one t with h | h
  · left; simp [h]
  · right; simp [h]

/-- Adding one to a counter in binary32. -/
theorem fl_count (n : ℤ) (h0 : 0 ≤ n) (h : n ≤ 2 ^ 24) : fl ((n:ℚ) + 1) = ((min (n + 1) (2 ^ 24) : ℤ) : ℚ) := by
  rcases lt_or_eq_of_le h with h | h
  · rw [min_eq_left (by omega), show (n:ℚ) + 1 = ((n + 1 : ℤ) : ℚ) by push_cast; ring]
    exact fl_int (by rw [abs_le]; omega)
  · rw [h, min_eq_right (by omega)]
    have : fl (((2 ^ 24 : ℤ) : ℚ) + 1) = 2 ^ 24 := by
      rw [fl_eq 1 (by norm_num) (by norm_num [abs_of_pos]) (by norm_num [abs_of_pos])]; norm_num [roundHE]
    rw [this]; norm_num

/-- C69: the bound on the accumulator size matters.  With 28 bits or more, a `Bi2Uni` fed with `2^25` zeros and then ones gives its
first one `2^24` cycles too early, because its accumulator stops at `-2^24`. -/
theorem C69_convert_stuck (d : ℕ) (hd : 28 ≤ d) :
    let x : ℕ → ℤ := fun t => if t < 2 ^ 25 then 0 else 1
    outAt (Float.bi2uniStep d) 0 x (2 ^ 25 + 2 ^ 24) = 1 ∧ b2uOut d x (2 ^ 25 + 2 ^ 24) = 0 := by
  intro x
  have hB := accBound_int d (by omega)
  have hp2 : (2:ℤ) ^ 26 ≤ 2 ^ (d - 2) := pow_le_pow_right₀ (by norm_num) (by omega)
  generalize (2:ℤ) ^ (d - 2) = B at *
  have hlow : ∀ t, t < 2 ^ 25 → x t = 0 := fun t h => if_pos h
  have hhigh : ∀ t, x (2 ^ 25 + t) = 1 := fun t => if_neg (by omega)
  clear_value x
  have f0 : fsub (fmul ((0:ℤ):ℚ) 2) 1 = -1 := by
    have h1 := fmul_cast (m := 0) (n := 2) (by norm_num)
    have h2 := fsub_cast (m := 0) (n := 1) (by norm_num)
    push_cast at h1 h2 ⊢
    rw [h1]; norm_num [h2]
  have f1 : fsub (fmul ((1:ℤ):ℚ) 2) 1 = 1 := by
    have h1 := fmul_cast (m := 1) (n := 2) (by norm_num)
    have h2 := fsub_cast (m := 2) (n := 1) (by norm_num)
    push_cast at h1 h2 ⊢
    rw [h1]; norm_num [h2]
  have clampB : ∀ c : ℤ, |c| ≤ 2 ^ 26 → clamp (-accBound d) (accBound d) (c:ℚ) = c := by
    intro c hc
    rw [abs_le] at hc
    rw [hB]
    apply clamp_of_mem
    · have : -B ≤ c := by omega
      exact_mod_cast this
    · have : c ≤ B := by omega
      exact_mod_cast this
  have indz : ∀ c : ℤ, c ≤ 0 → (ind ((c:ℚ) ≥ 1) : ℤ) = 0 := by
    intro c hc
    apply ind_false
    intro h
    have : (1:ℤ) ≤ c := by exact_mod_cast h
    omega
  -- binary32: a zero
  have sz : ∀ n : ℤ, 0 ≤ n → n ≤ 2 ^ 24 → Float.bi2uniStep d ((-n : ℤ) : ℚ) 0 = (((-(min (n + 1) (2 ^ 24)) : ℤ) : ℚ), 0) := by
    intro n h0 h
    unfold Float.bi2uniStep
    dsimp only
    rw [f0]
    have : fadd ((-n : ℤ) : ℚ) (-1) = ((-(min (n + 1) (2 ^ 24)) : ℤ) : ℚ) := by
      unfold fadd
      rw [show ((-n : ℤ) : ℚ) + -1 = -((n:ℚ) + 1) by push_cast; ring, fl_neg, fl_count n h0 h]; push_cast; ring
    have hm : 0 ≤ min (n + 1) (2 ^ 24) ∧ min (n + 1) (2 ^ 24) ≤ 2 ^ 24 := ⟨by omega, min_le_right _ _⟩
    rw [this, clampB _ (by rw [abs_le]; omega), indz _ (by omega)]
    have h2 := fsub_cast (m := -(min (n + 1) (2 ^ 24))) (n := 0) (by rw [abs_le]; omega)
    rw [h2]; simp
  have so : ∀ n : ℤ, 0 ≤ n → n < 2 ^ 24 → Float.bi2uniStep d ((-(n + 1) : ℤ) : ℚ) 1 = (((-n : ℤ) : ℚ), 0) := by
    intro n h0 h
    unfold Float.bi2uniStep
    dsimp only
    rw [f1]
    have h3 := fadd_cast (m := -(n + 1)) (n := 1) (by rw [abs_le]; omega)
    rw [show fadd ((-(n + 1) : ℤ) : ℚ) 1 = ((-n : ℤ) : ℚ) by
      have := h3; push_cast at this ⊢; rw [this]; ring]
    rw [clampB _ (by rw [abs_le]; omega), indz _ (by omega)]
    have h2 := fsub_cast (m := -n) (n := 0) (by rw [abs_le]; omega)
    rw [h2]; simp
  have fz : ∀ n : ℕ, n ≤ 2 ^ 25 → stateAt (Float.bi2uniStep d) 0 x n = ((-(min (n:ℤ) (2 ^ 24)) : ℤ) : ℚ) := by
    intro n
    induction n with
    | zero => intro _; simp
    | succ n ih =>
        intro h
        rw [stateAt_succ, ih (by omega), hlow n (by omega), sz _ (by omega) (by omega)]
        have : -(min (min (n:ℤ) (2 ^ 24) + 1) (2 ^ 24)) = -(min ((n + 1 : ℕ) : ℤ) (2 ^ 24)) := by push_cast; omega
        rw [this]
  have fo : ∀ j : ℕ, j ≤ 2 ^ 24 → stateAt (Float.bi2uniStep d) 0 x (2 ^ 25 + j) = ((-(2 ^ 24 - j : ℤ) : ℤ) : ℚ) := by
    intro j
    induction j with
    | zero => intro _; rw [Nat.add_zero, fz _ (le_refl _)]; norm_num
    | succ j ih =>
        intro h
        rw [← Nat.add_assoc, stateAt_succ, ih (by omega), hhigh]
        have := so (2 ^ 24 - j - 1) (by omega) (by omega)
        rw [show -((2:ℤ) ^ 24 - j - 1 + 1) = -((2:ℤ) ^ 24 - j) by ring] at this
        rw [this]; push_cast; ring
  refine ⟨?_, ?_⟩
  · unfold outAt
    rw [fo _ (le_refl _), hhigh]
    unfold Float.bi2uniStep
    dsimp only
    rw [f1]
    have h3 := fadd_cast (m := 0) (n := 1) (by norm_num)
    have e0 : ((-(2 ^ 24 - ((2 ^ 24 : ℕ) : ℤ)) : ℤ) : ℚ) = ((0:ℤ):ℚ) := by norm_num
    rw [e0]
    have : fadd ((0:ℤ):ℚ) 1 = ((1:ℤ):ℚ) := by have := h3; push_cast at this ⊢; simpa using this
    rw [this, clampB 1 (by norm_num)]
    simp
  · have ez : ∀ n : ℕ, n ≤ 2 ^ 25 → stateAt (Shuffle.bi2uniStep d) 0 x n = ((-(n:ℤ) : ℤ) : ℚ) := by
      intro n
      induction n with
      | zero => intro _; simp
      | succ n ih =>
          intro h
          rw [stateAt_succ, ih (by omega), hlow n (by omega)]
          unfold Shuffle.bi2uniStep
          dsimp only
          rw [show ((-(n:ℤ) : ℤ) : ℚ) + (((0:ℤ):ℚ) * 2 - 1) = ((-(n:ℤ) - 1 : ℤ) : ℚ) by push_cast; ring,
            clampB _ (by rw [abs_le]; omega), indz _ (by omega)]
          push_cast; ring
    have eo : ∀ j : ℕ, j ≤ 2 ^ 24 → stateAt (Shuffle.bi2uniStep d) 0 x (2 ^ 25 + j) = ((-(2 ^ 25 - j : ℤ) : ℤ) : ℚ) := by
      intro j
      induction j with
      | zero => intro _; rw [Nat.add_zero, ez _ (le_refl _)]; norm_num
      | succ j ih =>
          intro h
          rw [← Nat.add_assoc, stateAt_succ, ih (by omega), hhigh]
          unfold Shuffle.bi2uniStep
          dsimp only
          rw [show ((-(2 ^ 25 - (j:ℤ)) : ℤ) : ℚ) + (((1:ℤ):ℚ) * 2 - 1) = ((-(2 ^ 25 - (j:ℤ)) + 1 : ℤ) : ℚ) by push_cast; ring,
            clampB _ (by rw [abs_le]; omega), indz _ (by omega)]
          push_cast; ring
    unfold b2uOut outAt
    rw [eo _ (le_refl _), hhigh]
    unfold Shuffle.bi2uniStep
    dsimp only
    rw [show ((-(2 ^ 25 - ((2 ^ 24 : ℕ) : ℤ)) : ℤ) : ℚ) + (((1:ℤ):ℚ) * 2 - 1) = ((-(2 ^ 24) + 1 : ℤ) : ℚ) by push_cast; ring,
      clampB _ (by norm_num [abs_le]), indz _ (by norm_num)]

/-! ## C70: `BinGen` and `RawScale` -/

/-- Scaling a binary32 number by a power of two is exact. -/
theorem isF32_mul_pow {v : ℚ} (h : IsF32 v) (w : ℕ) : IsF32 (v * 2 ^ w) := by
  obtain ⟨m, e, hm, he, rfl⟩ := h
  exact ⟨m, e + w, hm, by omega, by rw [zpow_add₀ (by norm_num), zpow_natCast]; ring⟩

/-- So is halving, unless the number is tiny. -/
theorem isF32_half {v : ℚ} (h : IsF32 v) (hb : v = 0 ∨ (2:ℚ) ^ (-100:ℤ) ≤ |v|) : IsF32 (v / 2) := by
  rcases hb with rfl | hb
  · exact ⟨0, 0, by norm_num, by norm_num, by simp⟩
  obtain ⟨m, e, hm, he, rfl⟩ := h
  refine ⟨m, e - 1, hm, ?_, by rw [zpow_sub₀ (by norm_num)]; ring⟩
  by_contra hc
  have hp := two_zpow_pos e
  rw [abs_mul, abs_of_pos hp] at hb
  have h3 : (|m| : ℚ) ≤ 2 ^ 24 := by rw [← Int.cast_abs]; exact_mod_cast hm
  have h4 : (2:ℚ) ^ e ≤ (2:ℚ) ^ (-149:ℤ) := zpow_le_zpow_right₀ (by norm_num) (by omega)
  have h5 : |(m:ℚ)| * (2:ℚ) ^ e ≤ 2 ^ 24 * (2:ℚ) ^ (-149:ℤ) := by
    apply mul_le_mul h3 h4 hp.le (by norm_num)
  have : (2:ℚ) ^ 24 * (2:ℚ) ^ (-149:ℤ) < (2:ℚ) ^ (-100:ℤ) := by norm_num
  linarith

/-- A binary32 number above `-1` is not very near to it. -/
theorem isF32_succ {x : ℚ} (hx : IsF32 x) (h : -1 ≤ x) : x + 1 = 0 ∨ (2:ℚ) ^ (-25:ℤ) ≤ x + 1 := by
  rcases eq_or_lt_of_le h with h | h
  · left; rw [← h]; ring
  right
  rcases le_or_gt (-1/2) x with h1 | h1
  · have : (2:ℚ) ^ (-25:ℤ) ≤ 1/2 := by norm_num
    exact this.trans (by linarith)
  obtain ⟨m, e, hm, he, rfl⟩ := hx
  have hp := two_zpow_pos e
  have hneg : (m:ℚ) * (2:ℚ) ^ e < 0 := by linarith
  have habs : (1:ℚ)/2 < |(m:ℚ) * (2:ℚ) ^ e| := by rw [abs_of_neg hneg]; linarith
  rw [abs_mul, abs_of_pos hp] at habs
  have h3 : (|m| : ℚ) ≤ 2 ^ 24 := by rw [← Int.cast_abs]; exact_mod_cast hm
  have he' : -25 ≤ e := by
    by_contra hc
    have h4 : (2:ℚ) ^ e ≤ (2:ℚ) ^ (-26:ℤ) := zpow_le_zpow_right₀ (by norm_num) (by omega)
    have h5 : |(m:ℚ)| * (2:ℚ) ^ e ≤ 2 ^ 24 * (2:ℚ) ^ (-26:ℤ) := mul_le_mul h3 h4 hp.le (by norm_num)
    have : (2:ℚ) ^ 24 * (2:ℚ) ^ (-26:ℤ) < 1/2 := by norm_num
    exact absurd (habs.trans_le h5) (not_lt.2 this.le)
  obtain ⟨k, hk⟩ : OnGrid (-25) ((m:ℚ) * (2:ℚ) ^ e + 1) :=
    (OnGrid.mono he' ⟨m, rfl⟩).add (by have := onGrid_int (g := -25) (by norm_num) 1; simpa using this)
  rw [hk]
  have hkp : 0 < (k:ℚ) * (2:ℚ) ^ (-25:ℤ) := by rw [← hk]; linarith
  have : 0 < (k:ℚ) := (mul_pos_iff_of_pos_right (two_zpow_pos _)).1 hkp
  have : (1:ℤ) ≤ k := by exact_mod_cast this
  have : (1:ℚ) ≤ k := by exact_mod_cast this
  nlinarith [two_zpow_pos (-25)]

/-- C70: for unipolar numbers binary32 changes nothing. -/
theorem C70_unipolar (w : ℕ) (x : ℚ) (hx : IsF32 x) : Float.binGen .unipolar w x = Gen.binGenM .unipolar w x := by
  show roundHE (fl (x * 2 ^ w)) = roundHE (x * 2 ^ w)
  rw [fl_of_isF32 (isF32_mul_pow hx w)]

/-- The only rounding before the final one is that of the addition. -/
theorem binGen_bipolar (w : ℕ) (x : ℚ) (hx : IsF32 x) (h : -1 ≤ x) :
    Float.binGen .bipolar w x = roundHE (fl (x + 1) / 2 * 2 ^ w) := by
  have hb : fl (x + 1) = 0 ∨ (2:ℚ) ^ (-100:ℤ) ≤ |fl (x + 1)| := by
    rcases isF32_succ hx h with h | h
    · left; rw [h]; simp
    · right
      have h1 := le_fl (isF32_two_zpow (k := -25) (by norm_num)) h
      have : (2:ℚ) ^ (-100:ℤ) ≤ (2:ℚ) ^ (-25:ℤ) := by norm_num
      exact this.trans (h1.trans (le_abs_self _))
  have hh := isF32_half (fl_isF32 (x + 1)) hb
  show roundHE (fl (fl (fl (x + 1) / 2) * 2 ^ w)) = _
  rw [fl_of_isF32 hh, fl_of_isF32 (isF32_mul_pow hh w)]

/-- C70: bipolar numbers in binary32: within a half plus `2^(w-25)` of the target, in range, monotone. -/
theorem C70_bipolar (w : ℕ) (x : ℚ) (hx : IsF32 x) (h0 : -1 ≤ x) (h1 : x ≤ 1) :
    |(Float.binGen .bipolar w x : ℚ) - (x + 1) / 2 * 2 ^ w| ≤ 1/2 + (2:ℚ) ^ ((w:ℤ) - 25) ∧
    0 ≤ Float.binGen .bipolar w x ∧ Float.binGen .bipolar w x ≤ 2 ^ w ∧
    (∀ y, IsF32 y → x ≤ y → Float.binGen .bipolar w x ≤ Float.binGen .bipolar w y) := by
  have hwp : (0:ℚ) < 2 ^ w := by positivity
  rw [binGen_bipolar w x hx h0]
  refine ⟨?_, ?_, ?_, ?_⟩
  · have a := roundHE_sub_le (fl (x + 1) / 2 * 2 ^ w)
    have b : |fl (x + 1) - (x + 1)| ≤ (2:ℚ) ^ ((1:ℤ) - 25) :=
      fl_error_of_le (by norm_num) (by rw [abs_of_nonneg (by linarith)]; norm_num; linarith)
    have c : fl (x + 1) / 2 * 2 ^ w - (x + 1) / 2 * 2 ^ w = (fl (x + 1) - (x + 1)) * (2 ^ w / 2) := by ring
    have d : |fl (x + 1) / 2 * 2 ^ w - (x + 1) / 2 * 2 ^ w| ≤ (2:ℚ) ^ ((w:ℤ) - 25) := by
      rw [c, abs_mul, abs_of_pos (a := (2:ℚ) ^ w / 2) (by positivity)]
      calc _ ≤ (2:ℚ) ^ ((1:ℤ) - 25) * (2 ^ w / 2) := mul_le_mul_of_nonneg_right b (by positivity)
        _ = _ := by rw [zpow_sub₀ (by norm_num : (2:ℚ) ≠ 0) (w:ℤ), zpow_natCast]; norm_num; ring
    calc _ = |((roundHE (fl (x + 1) / 2 * 2 ^ w) : ℚ) - fl (x + 1) / 2 * 2 ^ w)
            + (fl (x + 1) / 2 * 2 ^ w - (x + 1) / 2 * 2 ^ w)| := by congr 1; ring
      _ ≤ _ := (abs_add_le _ _).trans (add_le_add a d)
  · have : 0 ≤ fl (x + 1) := le_fl ⟨0, 0, by norm_num, by norm_num, by simp⟩ (by linarith)
    have h := roundHE_mono (show ((0:ℤ):ℚ) ≤ fl (x + 1) / 2 * 2 ^ w by push_cast; positivity)
    rwa [roundHE_of_int] at h
  · have h2 : fl (x + 1) ≤ 2 := fl_le ⟨2, 0, by norm_num, by norm_num, by simp⟩ (by linarith)
    have h := roundHE_mono (show fl (x + 1) / 2 * 2 ^ w ≤ ((2 ^ w : ℤ) : ℚ) by push_cast; nlinarith)
    rwa [roundHE_of_int] at h
  · intro y hy hxy
    rw [binGen_bipolar w y hy (h0.trans hxy)]
    apply roundHE_mono
    have := fl_mono (show x + 1 ≤ y + 1 by linarith)
    apply mul_le_mul_of_nonneg_right _ hwp.le
    linarith

/-- C70: hence binary32 gives the number of exact arithmetic unless the target is within `2^(w-25)` of a rounding boundary; in
particular on the grid `k/2^(w-1) - 1`. -/
theorem C70_agree (w : ℕ) (x : ℚ) (hx : IsF32 x) (h0 : -1 ≤ x) (h1 : x ≤ 1)
    (hfar : ∀ n : ℤ, (2:ℚ) ^ ((w:ℤ) - 25) < |(x + 1) / 2 * 2 ^ w - (n + 1/2)|) :
    Float.binGen .bipolar w x = Gen.binGenM .bipolar w x := by
  obtain ⟨a, -⟩ := C70_bipolar w x hx h0 h1
  show _ = roundHE ((x + 1) / 2 * 2 ^ w)
  have b := roundHE_sub_le ((x + 1) / 2 * 2 ^ w)
  generalize (x + 1) / 2 * 2 ^ w = z at *
  generalize roundHE z = r at *
  generalize Float.binGen .bipolar w x = q at *
  generalize (2:ℚ) ^ ((w:ℤ) - 25) = ε at *
  rw [abs_le] at a b
  rcases lt_trichotomy q r with h | h | h
  · have hq : (q:ℚ) + 1 ≤ r := by exact_mod_cast h
    have := hfar q
    rw [lt_abs] at this
    rcases this with h' | h' <;> linarith
  · exact h
  · have hq : (r:ℚ) + 1 ≤ q := by exact_mod_cast h
    have := hfar r
    rw [lt_abs] at this
    rcases this with h' | h' <;> linarith

theorem C70_grid (w : ℕ) (hw : w ≤ 23) (k : ℤ) (h0 : 0 ≤ k) (h1 : k ≤ 2 ^ w) :
    Float.binGen .bipolar w (2 * k / 2 ^ w - 1) = k := by
  have hwp : (0:ℚ) < 2 ^ w := by positivity
  have k0 : (0:ℚ) ≤ k := by exact_mod_cast h0
  have k1 : (k:ℚ) ≤ 2 ^ w := by exact_mod_cast h1
  have hw2 : (2:ℤ) ^ w ≤ 2 ^ 23 := pow_le_pow_right₀ (by norm_num) hw
  have ez : (2:ℚ) ^ (-(w:ℤ)) = (2 ^ w)⁻¹ := by rw [zpow_neg, zpow_natCast]
  have hf : IsF32 (2 * k / 2 ^ w - 1) := by
    refine ⟨2 * k - 2 ^ w, -w, by rw [abs_le]; omega, by omega, ?_⟩
    rw [ez]; push_cast; field_simp
  have e : (2 * (k:ℚ) / 2 ^ w - 1 + 1) = 2 * k / 2 ^ w := by ring
  have hf2 : IsF32 (2 * k / 2 ^ w) := by
    refine ⟨2 * k, -w, by rw [abs_le]; omega, by omega, ?_⟩
    rw [ez]; push_cast; field_simp
  rw [binGen_bipolar w _ hf (by have : 0 ≤ 2 * (k:ℚ) / 2 ^ w := by positivity
                                linarith), e, fl_of_isF32 hf2]
  rw [show 2 * (k:ℚ) / 2 ^ w / 2 * 2 ^ w = k by field_simp]
  exact roundHE_of_int k

/-- C70: near a boundary the number can be off by one: the addition rounds before the rounding to an integer. -/
theorem C70_double_rounding :
    let x : ℚ := 1 / 256 + 1 / 2 ^ 30
    IsF32 x ∧ Float.binGen .bipolar 8 x = 128 ∧ Gen.binGenM .bipolar 8 x = 129 := by
  intro x
  have hx : IsF32 x := ⟨2 ^ 22 + 1, -30, by norm_num, by norm_num, by norm_num [x]⟩
  refine ⟨hx, ?_, ?_⟩
  · rw [binGen_bipolar 8 x hx (by norm_num [x])]
    have : fl (x + 1) = 1 + 1/256 := by
      rw [fl_eq (-23) (by norm_num) (by norm_num [x, abs_of_pos]) (by norm_num [x, abs_of_pos])]
      norm_num [roundHE, x]
    rw [this]; norm_num [roundHE]
  · show roundHE ((x + 1) / 2 * 2 ^ 8) = 129
    norm_num [roundHE, x]

example : Float.binGen .bipolar 8 (1/2) = 192 := by
  have := C70_grid 8 (by norm_num) 192 (by norm_num) (by norm_num)
  rw [← this]; norm_num

/-- C70: the division of `RawScale` in binary32 still gives numbers in `[-1, 1]`, the larger bound exactly `±1`. -/
theorem C70_rawscale (lo hi raw : ℚ) (h : lo ≤ hi) (hne : lo ≠ 0 ∨ hi ≠ 0) :
    IsF32 (Float.rawScale lo hi raw) ∧ |Float.rawScale lo hi raw| ≤ 1 ∧
    (|lo| ≤ hi → hi ≤ raw → Float.rawScale lo hi raw = 1) ∧ (|hi| ≤ -lo → raw ≤ lo → Float.rawScale lo hi raw = -1) := by
  have hs : 0 < max |lo| |hi| := by
    rcases hne with h | h
    · exact lt_max_of_lt_left (abs_pos.2 h)
    · exact lt_max_of_lt_right (abs_pos.2 h)
  have one : IsF32 1 := ⟨1, 0, by norm_num, by norm_num, by simp⟩
  refine ⟨fl_isF32 _, ?_, ?_, ?_⟩
  · have h1 : clamp lo hi raw ≤ max |lo| |hi| := (clamp_le _ _ _).trans ((le_abs_self _).trans (le_max_right _ _))
    have h2 : -(max |lo| |hi|) ≤ clamp lo hi raw :=
      (neg_le_neg (le_max_left _ _)).trans ((neg_abs_le lo).trans (le_clamp h))
    unfold Float.rawScale fdiv
    rw [abs_le]
    exact ⟨le_fl (isF32_neg one) (by rw [le_div_iff₀ hs]; linarith), fl_le one (by rw [div_le_iff₀ hs]; linarith)⟩
  · intro a b
    unfold Float.rawScale fdiv
    have e : max |lo| |hi| = hi := by
      rw [abs_of_nonneg (a := hi) ((abs_nonneg _).trans a), max_eq_right a]
    rw [e] at hs ⊢
    rw [clamp_of_ge b, div_self hs.ne', fl_of_isF32 one]
  · intro a b
    unfold Float.rawScale fdiv
    have e : max |lo| |hi| = -lo := by
      rw [abs_of_nonpos (a := lo) (by linarith [abs_nonneg hi]), max_eq_left a]
    rw [e] at hs ⊢
    rw [clamp_of_le h b, show lo / -lo = -1 by rw [div_neg, div_self (by linarith)], fl_neg, fl_of_isF32 one]

example : Float.rawScale (-1/3) (1/2) (1/2) = 1 := (C70_rawscale (-1/3) (1/2) (1/2) (by norm_num) (by norm_num)).2.2.1
  (by norm_num [abs_of_neg]) (by norm_num)

end Verif.Props
