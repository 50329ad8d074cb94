import Verif.Proofs.Sobol
import Verif.Proofs.Lfsr

/-!
# Properties C01–C05, C08: number sequences and bitstream generation
-/

namespace Verif.Props

open Verif Finset Spec Gen

/-! ## C01 -/

/-- C01: over every window of `2^w` consecutive cycle indices, wherever it starts, a stream carries exactly as
many ones as its (clamped) integer value says. -/
theorem C01_window_count {w : ℕ} {rng : List ℤ} (h : IsPermSeq w rng) (b c : ℤ) :
    ∑ t ∈ range (2 ^ w), bsGen rng b (c + t) = max 0 (min b (2 ^ w)) := by
  have hp : ∀ c : ℤ, bsGen rng b (c + ((2 ^ w : ℕ) : ℤ)) = bsGen rng b c := by
    intro c; rw [← h.1]; exact bsGen_period rng b c
  rw [window_sum_periodic (bsGen rng b) (2 ^ w) hp c]
  have : ∀ t ∈ range (2 ^ w), bsGen rng b t = ind (b > rng.getD t 0) := by
    intro t ht; rw [bsGen_nat]; rw [h.1]; exact mem_range.1 ht
  rw [sum_congr rfl this, sum_period h]
  have : (0:ℤ) < 2 ^ w := by positivity
  unfold clamp; omega

/-- C01: every generated element is a bit and the stream repeats with the length of the sequence. -/
theorem C01_bit_and_period (rng : List ℤ) (b c : ℤ) :
    IsBit (bsGen rng b c) ∧ bsGen rng b (c + rng.length) = bsGen rng b c :=
  ⟨bsGen_isBit _ _ _, bsGen_period _ _ _⟩

/-- C01: the constructor accepts exactly the sequences whose length is a power of two. -/
theorem C01_length_check (rng : List ℤ) :
    (∃ w, rng.length = 2 ^ w) ↔ bsGenInit rng = .ok rng := by
  unfold bsGenInit
  constructor
  · rintro ⟨w, hw⟩
    have : rng.length ≠ 0 := by rw [hw]; positivity
    rw [if_neg this, if_pos]
    rw [hw, Nat.log2_two_pow]
  · split_ifs with h1 h2
    · intro h; cases h
    · intro _; exact ⟨_, h2.symm⟩
    · intro h; cases h

/-- C01: any other length is refused with an exception. -/
theorem C01_length_check_error (rng : List ℤ) (h : ¬ ∃ w, rng.length = 2 ^ w) :
    bsGenInit rng = .error .assertion ∨ (rng = [] ∧ bsGenInit rng = .error .value) := by
  unfold bsGenInit
  split_ifs with h1 h2
  · right; exact ⟨List.length_eq_zero_iff.1 h1, rfl⟩
  · exact absurd ⟨_, h2.symm⟩ h
  · left; rfl

/-- Non-vacuity: an unsorted permutation of `0..3`. -/
example : IsPermSeq 2 [2, 0, 3, 1] := by
  refine ⟨rfl, fun v h0 h1 => ?_⟩
  interval_cases v <;> rfl
example : bsGenInit [2, 0, 3] = .error .assertion := by rfl

/-! ## C02 -/

private theorem floor_race (w x : ℕ) : ⌊((x : ℚ) / 2 ^ w) * 2 ^ w⌋ = (x : ℤ) := by
  have : ((x : ℚ) / 2 ^ w) * 2 ^ w = (x : ℤ) := by push_cast; field_simp
  rw [this, Int.floor_intCast]

theorem raceSeq_eq (w : ℕ) : raceSeq w = (List.range (2 ^ w)).map (fun x : ℕ => (x : ℤ)) := by
  unfold raceSeq; simp only [floor_race]

theorem race10Seq_eq (w : ℕ) :
    race10Seq w = ((List.range (2 ^ w)).map (fun x : ℕ => (x : ℤ))).reverse := by
  unfold race10Seq
  rw [List.map_reverse, List.map_map]
  congr 1
  apply List.map_congr_left
  intro x _
  exact floor_race w x

/-- C02: temporal sequences are permutations, whatever the environment. -/
theorem C02_temporal_perm (env : Env) (w : ℕ) (name : String)
    (hn : name.toLower ∈ ["race", "tc", "race10", "tc10"]) :
    ∃ l, rng env w name = .ok l ∧ IsPermSeq w l := by
  have hr : IsPermSeq w (raceSeq w) := by
    rw [raceSeq_eq]; exact isPermSeq_of_perm (List.Perm.refl _)
  have hr10 : IsPermSeq w (race10Seq w) := by
    rw [race10Seq_eq]; exact isPermSeq_of_perm (List.reverse_perm _)
  simp only [List.mem_cons, List.not_mem_nil, or_false] at hn
  rcases hn with h | h | h | h
  · exact ⟨raceSeq w, by simp [rng, h], hr⟩
  · exact ⟨raceSeq w, by simp [rng, h], hr⟩
  · exact ⟨race10Seq w, by simp [rng, h], hr10⟩
  · exact ⟨race10Seq w, by simp [rng, h], hr10⟩

/-- C02: Sobol sequences are permutations for all legal direction numbers (that is, for every
dimension) and every width the engine resolves. -/
theorem C02_sobol_perm (env : Env) (w : ℕ) (name : String) (hn : name.toLower ∈ ["sobol", "rc"])
    (hm : DirOK env.sobolM) (hw : w ≤ env.maxbit) :
    ∃ l, rng env w name = .ok l ∧ IsPermSeq w l := by
  refine ⟨sobolSeq env.maxbit w env.sobolM, ?_, DyadicNet.isPermSeq (sobol_dyadicNet hm hw)⟩
  simp only [List.mem_cons, List.not_mem_nil, or_false] at hn
  rcases hn with h | h <;> simp [rng, h]

/-- C02: the system sequence is a permutation whatever permutation the library draws. -/
theorem C02_sys_perm (env : Env) (w : ℕ) (name : String) (hn : name.toLower = "sys")
    (hp : env.randperm.Perm (List.range (2 ^ w))) :
    ∃ l, rng env w name = .ok l ∧ IsPermSeq w l := by
  refine ⟨env.randperm.map fun x : ℕ => ⌊(x : ℚ)⌋, by simp [rng, hn], ?_⟩
  apply isPermSeq_of_perm
  have : (fun x : ℕ => ⌊(x : ℚ)⌋) = (fun x : ℕ => (x : ℤ)) := by funext x; simp
  rw [this]
  exact hp.map _

/-- C02: every other name is refused. -/
theorem C02_reject (env : Env) (w : ℕ) (name : String)
    (hn : name.toLower ∉ ["sobol", "race", "lfsr", "sys", "rc", "tc", "race10", "tc10"]) :
    rng env w name = .error .assertion := by
  unfold rng; simp only; rw [if_pos hn]

/-- C02: only the lower-cased name matters. -/
theorem C02_case_insensitive (env : Env) (w : ℕ) (n1 n2 : String) (h : n1.toLower = n2.toLower) :
    rng env w n1 = rng env w n2 := by
  unfold rng; rw [h]

/-- Non-vacuity: direction numbers of dimension 1 are legal; the second-dimension numbers `1,3,5,15` too. -/
example : DirOK (fun _ => 1) := fun j => ⟨rfl, Nat.one_lt_two_pow (by omega)⟩
example : DirOK (fun j => 2 ^ (j + 1) - 1) := fun j => by
  have : 0 < 2 ^ j := by positivity
  show (2 ^ (j + 1) - 1) % 2 = 1 ∧ 2 ^ (j + 1) - 1 < 2 ^ (j + 1)
  rw [pow_succ]
  omega
example : sobolSeq 30 3 (fun _ => 1) = [0, 4, 6, 2, 3, 7, 5, 1] := by
  unfold sobolSeq
  rw [show List.range (2 ^ 3) = [0, 1, 2, 3, 4, 5, 6, 7] from rfl]
  simp only [List.map, sobolSeq_elem (M := 30) (w := 3) (by omega)]
  simp [sobolQuasi, sobolDir, rightmostZero]

/-! ## C03 -/

/-- C03: `race`/`tc` coding: ones first. -/
theorem C03_race (w : ℕ) (b : ℤ) (t : ℕ) :
    bsGen (raceSeq w) b t = if ((t % 2 ^ w : ℕ) : ℤ) < b then 1 else 0 := by
  rw [bsGen_natMod, raceSeq_eq]
  have hlen : ((List.range (2 ^ w)).map (fun x : ℕ => (x : ℤ))).length = 2 ^ w := by simp
  have hlt : t % 2 ^ w < 2 ^ w := Nat.mod_lt _ (by positivity)
  rw [hlen, List.getD_eq_getElem?_getD, List.getElem?_map, List.getElem?_range hlt]
  simp [ind]

/-- C03: `race10`/`tc10` coding: ones last. -/
theorem C03_race10 (w : ℕ) (b : ℤ) (t : ℕ) :
    bsGen (race10Seq w) b t = if 2 ^ w - b ≤ ((t % 2 ^ w : ℕ) : ℤ) then 1 else 0 := by
  rw [bsGen_natMod, race10Seq_eq]
  have hlt : t % 2 ^ w < 2 ^ w := Nat.mod_lt _ (by positivity)
  have hlen : ((List.range (2 ^ w)).map (fun x : ℕ => (x : ℤ))).reverse.length = 2 ^ w := by simp
  rw [hlen, List.getD_eq_getElem?_getD, List.getElem?_reverse (by simpa using hlt), List.getElem?_map,
    List.getElem?_range (by simp; omega)]
  simp only [List.length_map, List.length_range, Option.map_some, Option.getD_some, ind]
  have e : ((2 ^ w - 1 - t % 2 ^ w : ℕ) : ℤ) = 2 ^ w - 1 - ((t % 2 ^ w : ℕ) : ℤ) := by
    have : ((2 ^ w : ℕ) : ℤ) = 2 ^ w := by push_cast; rfl
    omega
  rw [e]
  congr 1
  apply propext; constructor <;> intro h <;> omega

/-- The configured generators are these sequences (ties C03 to the constructor). -/
theorem C03_rng (env : Env) (w : ℕ) (name : String) :
    (name.toLower ∈ ["race", "tc"] → rng env w name = .ok (raceSeq w)) ∧
    (name.toLower ∈ ["race10", "tc10"] → rng env w name = .ok (race10Seq w)) := by
  constructor <;> intro hn <;>
    simp only [List.mem_cons, List.not_mem_nil, or_false] at hn <;>
    rcases hn with h | h <;> simp [rng, h]

example : (List.range 8).map (fun t : ℕ => bsGen (raceSeq 2) 3 (t : ℤ)) = [1, 1, 1, 0, 1, 1, 1, 0] := by
  rw [show List.range 8 = [0, 1, 2, 3, 4, 5, 6, 7] from rfl]
  simp only [List.map, C03_race]
  rfl
example : (List.range 8).map (fun t : ℕ => bsGen (race10Seq 2) 3 (t : ℤ)) = [0, 1, 1, 1, 0, 1, 1, 1] := by
  rw [show List.range 8 = [0, 1, 2, 3, 4, 5, 6, 7] from rfl]
  simp only [List.map, C03_race10]
  rfl

/-! ## C04 -/

/-- C04: multiplicities in an LFSR sequence: `0` never, the first value twice, every other value once. -/
theorem C04_lfsr_count (w : ℕ) (st : ℕ → ℕ → Bool) (h : MaxLength w st) (v : ℤ) (h0 : 0 ≤ v)
    (h1 : v < 2 ^ w) :
    (lfsrSeq w st).length = 2 ^ w ∧
    (lfsrSeq w st).count v = if v = 0 then 0 else if v = (lfsrSeq w st).headD 0 then 2 else 1 := by
  have hlen : (lfsrSeq w st).length = 2 ^ w := by simp [lfsrSeq]
  refine ⟨hlen, ?_⟩
  have hhead : (lfsrSeq w st).headD 0 = lfsrValue w (st 0) := by
    have hp : 0 < 2 ^ w := by positivity
    obtain ⟨k, hk⟩ : ∃ k, 2 ^ w = k + 1 := ⟨2 ^ w - 1, by omega⟩
    unfold lfsrSeq
    rw [hk, List.range_succ_eq_map]; simp
  have hc := (lfsr_perm w st h).2 v h0 h1
  rw [List.count_append] at hc
  rw [hhead, lfsrSeq_split w st h, List.count_append]
  have hpos := lfsrValue_pos (h.nonzero 0)
  by_cases hv : v = 0
  · subst hv
    rw [List.count_singleton] at hc ⊢
    have hne : ¬ lfsrValue w (st 0) = 0 := by omega
    simp [hne] at hc ⊢
    exact hc
  · rw [List.count_singleton] at hc ⊢
    have : ¬ (0 = v) := fun e => hv e.symm
    by_cases hv2 : v = lfsrValue w (st 0)
    · subst hv2; simp [this, hv] at hc ⊢; exact hc
    · have hv3 : ¬ lfsrValue w (st 0) = v := fun e => hv2 e.symm
      simp [this, hv, hv2, hv3] at hc ⊢; exact hc

/-- C04: the configured generator has this sequence (any capitalisation of the name). -/
theorem C04_rng (env : Env) (w : ℕ) (name : String) (hn : name.toLower = "lfsr") :
    rng env w name = .ok (lfsrSeq w env.lfsrStates) ∧ ∀ t < 2 ^ w, (lfsrSeq w env.lfsrStates)[t]? =
      some (∑ j ∈ range w, if env.lfsrStates t j then 2 ^ (w - 1 - j) else 0) := by
  constructor
  · simp [rng, hn]
  · intro t ht
    unfold lfsrSeq lfsrValue
    rw [List.getElem?_map, List.getElem?_range ht]
    simp

/-- C04: ones per `2^w` cycles: one less than the value unless the value exceeds the first number. -/
theorem C04_lfsr_ones (w : ℕ) (st : ℕ → ℕ → Bool) (h : MaxLength w st) (b : ℤ) (hb1 : 1 ≤ b)
    (hb2 : b ≤ 2 ^ w) :
    ∑ t ∈ range (2 ^ w), bsGen (lfsrSeq w st) b t
      = if (lfsrSeq w st).headD 0 < b then b else b - 1 := by
  have hlen : (lfsrSeq w st).length = 2 ^ w := by simp [lfsrSeq]
  have hp : 0 < 2 ^ w := by positivity
  have hhead : (lfsrSeq w st).headD 0 = lfsrValue w (st 0) := by
    obtain ⟨k, hk⟩ : ∃ k, 2 ^ w = k + 1 := ⟨2 ^ w - 1, by omega⟩
    unfold lfsrSeq
    rw [hk, List.range_succ_eq_map]; simp
  have h2 : ∀ t ∈ range (2 ^ w), bsGen (lfsrSeq w st) b t = ind (b > (lfsrSeq w st).getD t 0) := by
    intro t ht; rw [bsGen_nat]; rw [hlen]; exact mem_range.1 ht
  rw [sum_congr rfl h2]
  have h3 := sum_getD (fun v => (ind (b > v) : ℤ)) (lfsrSeq w st)
  rw [hlen] at h3
  rw [h3, lfsrSeq_split w st h, List.map_append, List.sum_append]
  have h4 := sum_period (lfsr_perm w st h) b
  have h5 := sum_getD (fun v => (ind (b > v) : ℤ))
    ((List.range (2 ^ w - 1)).map (fun i => lfsrValue w (st i)) ++ [0])
  rw [(lfsr_perm w st h).1, h4, List.map_append, List.sum_append] at h5
  rw [clamp_of_mem (by omega) hb2] at h5
  rw [← lfsrSeq_split w st h, hhead]
  simp only [List.map_cons, List.map_nil, List.sum_cons, List.sum_nil, add_zero] at h5 ⊢
  have : (ind (b > 0) : ℤ) = 1 := ind_true (by omega)
  rw [this] at h5
  unfold ind
  unfold ind at h5
  split_ifs <;> omega

/-- C04: value `0` carries no ones. -/
theorem C04_lfsr_zero (w : ℕ) (st : ℕ → ℕ → Bool) (c : ℤ) : bsGen (lfsrSeq w st) 0 c = 0 := by
  unfold bsGen
  apply ind_false
  intro hlt
  set i := (c % (lfsrSeq w st).length).toNat
  have : 0 ≤ (lfsrSeq w st).getD i 0 := by
    rw [List.getD_eq_getElem?_getD]
    unfold lfsrSeq
    rw [List.getElem?_map]
    cases (List.range (2 ^ w))[i]? with
    | none => simp
    | some x => simpa using (lfsrValue_range w (st x)).1
  omega

/-- C04: hence an LFSR sequence never is a permutation sequence. -/
theorem C04_lfsr_not_perm (w : ℕ) (st : ℕ → ℕ → Bool) (h : MaxLength w st) :
    ¬ IsPermSeq w (lfsrSeq w st) := by
  intro hp
  have h1 := hp.2 0 (le_refl _) (by positivity)
  have h2 := (C04_lfsr_count w st h 0 (le_refl _) (by positivity)).2
  rw [h1] at h2; simp at h2

/-- Non-vacuity: the two-cell register with feedback `s0 xor s1`: 10, 11, 01, 10, … -/
example : MaxLength 2 (fun t j => if j = 0 then t % 3 != 2 else t % 3 != 0) := by
  refine ⟨fun t => ?_, fun s t hst ht => ?_, fun j hj => ?_⟩
  · by_cases h : t % 3 = 2
    · exact ⟨1, by omega, by simp [h]⟩
    · exact ⟨0, by omega, by simp [h]⟩
  · have : t = 1 ∨ t = 2 := by norm_num at ht; omega
    rcases this with rfl | rfl
    · have : s = 0 := by omega
      subst this; exact ⟨1, by omega, by decide⟩
    · have : s = 0 ∨ s = 1 := by omega
      rcases this with rfl | rfl
      · exact ⟨0, by omega, by decide⟩
      · exact ⟨0, by omega, by decide⟩
  · rfl

/-! ## C05 -/

/-- What the binary converter aims at: the source in unipolar, `(source+1)/2` in bipolar mode, in
units of `2^-w`. -/
def Spec.binTarget (m : Mode) (w : ℕ) (s : ℚ) : ℚ :=
  match m with
  | .unipolar => s * 2 ^ w
  | .bipolar => (s + 1) / 2 * 2 ^ w

/-- C05: nearest integer, ties to even. -/
theorem C05_nearest (m : Mode) (w : ℕ) (s : ℚ) :
    |(binGenM m w s : ℚ) - Spec.binTarget m w s| ≤ 1/2 ∧
    (|(binGenM m w s : ℚ) - Spec.binTarget m w s| = 1/2 → binGenM m w s % 2 = 0) := by
  cases m
  · exact ⟨roundHE_sub_le _, roundHE_even⟩
  · exact ⟨roundHE_sub_le _, roundHE_even⟩

/-- C05: legal sources land in `[0, 2^w]`. -/
theorem C05_range (m : Mode) (w : ℕ) (s : ℚ)
    (hs : match m with | .unipolar => 0 ≤ s ∧ s ≤ 1 | .bipolar => -1 ≤ s ∧ s ≤ 1) :
    0 ≤ binGenM m w s ∧ binGenM m w s ≤ 2 ^ w := by
  have hp : (0:ℚ) < 2 ^ w := by positivity
  have key : ∀ q : ℚ, 0 ≤ q → q ≤ 1 → 0 ≤ roundHE (q * 2 ^ w) ∧ roundHE (q * 2 ^ w) ≤ 2 ^ w := by
    intro q h0 h1
    constructor
    · have := roundHE_mono (x := ((0:ℤ):ℚ)) (y := q * 2 ^ w) (by push_cast; positivity)
      rwa [roundHE_of_int] at this
    · have := roundHE_mono (x := q * 2 ^ w) (y := ((2 ^ w : ℤ) : ℚ)) (by push_cast; nlinarith)
      rwa [roundHE_of_int] at this
  cases m
  · exact key s hs.1 hs.2
  · exact key ((s + 1) / 2) (by have := hs.1; linarith) (by have := hs.2; linarith)

/-- C05: larger sources never convert to smaller integers. -/
theorem C05_monotone (m : Mode) (w : ℕ) {s t : ℚ} (h : s ≤ t) : binGenM m w s ≤ binGenM m w t := by
  have hp : (0:ℚ) < 2 ^ w := by positivity
  cases m
  · exact roundHE_mono (by nlinarith)
  · exact roundHE_mono (by
      have : (s + 1) / 2 ≤ (t + 1) / 2 := by linarith
      exact mul_le_mul_of_nonneg_right this hp.le)

/-- C05: grid values are exact. -/
theorem C05_exact (m : Mode) (w : ℕ) (s : ℚ) (k : ℤ) (h : Spec.binTarget m w s = k) :
    binGenM m w s = k := by
  cases m
  · show roundHE (s * 2 ^ w) = k
    rw [show s * 2 ^ w = (k:ℚ) from h, roundHE_of_int]
  · show roundHE ((s + 1) / 2 * 2 ^ w) = k
    rw [show (s + 1) / 2 * 2 ^ w = (k:ℚ) from h, roundHE_of_int]

/-- C05: which mode strings are accepted, and with which meaning. -/
theorem C05_mode (mode : String) (w : ℕ) (s : ℚ) :
    binGen mode w s =
      if mode.toLower = "unipolar" then .ok (binGenM .unipolar w s)
      else if mode.toLower = "bipolar" then .ok (binGenM .bipolar w s)
      else .error .assertion := by
  unfold binGen parseMode
  split_ifs <;> rfl

example : binGenM .bipolar 8 (3/10) = 166 := by
  apply roundHE_eq_of_lt; norm_num [abs_lt]
example : binGenM .unipolar 1 (1/4) = 0 ∧ binGenM .unipolar 1 (3/4) = 2 := by
  constructor <;> norm_num [binGenM, roundHE]

/-! ## C08 -/

/-- C08: elementary-interval equidistribution of the configured Sobol sequence. -/
theorem C08_net (env : Env) (w : ℕ) (name : String) (hn : name.toLower ∈ ["sobol", "rc"])
    (hm : DirOK env.sobolM) (hw : w ≤ env.maxbit) :
    ∃ l, rng env w name = .ok l ∧ DyadicNet w l := by
  refine ⟨sobolSeq env.maxbit w env.sobolM, ?_, sobol_dyadicNet hm hw⟩
  simp only [List.mem_cons, List.not_mem_nil, or_false] at hn
  rcases hn with h | h <;> simp [rng, h]

/-- C08: after every number `k` of cycles the number of ones is within `w` of the ideal. -/
theorem C08_prefix (env : Env) (w : ℕ) (name : String) (hn : name.toLower ∈ ["sobol", "rc"])
    (hm : DirOK env.sobolM) (hw : w ≤ env.maxbit) (b : ℤ) (hb0 : 0 ≤ b) (hb1 : b ≤ 2 ^ w) :
    ∃ l, rng env w name = .ok l ∧
      ∀ k, |(Spec.ones (fun t => bsGen l b t) k : ℚ) - k * (b / 2 ^ w)| ≤ w := by
  obtain ⟨l, h1, h2⟩ := C08_net env w name hn hm hw
  exact ⟨l, h1, fun k => DyadicNet.prefix h2 hb0 hb1 k⟩

/-- C08: and after `2^j` cycles (or any aligned block of that length) within `1`. -/
theorem C08_block {w : ℕ} {l : List ℤ} (h : DyadicNet w l) (b : ℤ) (hb0 : 0 ≤ b) (hb1 : b ≤ 2 ^ w)
    (j a : ℕ) (hj : j ≤ w) (ha : a < 2 ^ (w - j)) :
    |((∑ r ∈ range (2 ^ j), bsGen l b ((a * 2 ^ j + r : ℕ) : ℤ) : ℤ) : ℚ) - 2 ^ j * (b / 2 ^ w)| ≤ 1 := by
  have hidx : ∀ r ∈ range (2 ^ j), bsGen l b ((a * 2 ^ j + r : ℕ) : ℤ)
      = ind (b > l.getD (a * 2 ^ j + r) 0) := by
    intro r hr
    apply bsGen_nat
    have hr := mem_range.1 hr
    rw [h.1]
    calc a * 2 ^ j + r < (a + 1) * 2 ^ j := by ring_nf; omega
      _ ≤ 2 ^ (w - j) * 2 ^ j := Nat.mul_le_mul_right _ ha
      _ = 2 ^ w := by rw [← pow_add]; congr 1; omega
  rw [sum_congr rfl hidx]
  exact DyadicNet.block_count h hj ha hb0 hb1

/-- Non-vacuity: the hypotheses are met by dimension 1 at width 8, value 100. -/
example : ∃ l, rng ⟨30, fun _ => 1, fun _ _ => false, []⟩ 8 "Sobol" = .ok l ∧
    ∀ k, |(Spec.ones (fun t => bsGen l 100 t) k : ℚ) - k * ((100 : ℤ) / 2 ^ 8)| ≤ 8 :=
  C08_prefix _ 8 "Sobol" (by decide +kernel) (fun j => ⟨rfl, Nat.one_lt_two_pow (by omega)⟩) (by decide) 100
    (by decide) (by decide)

end Verif.Props
