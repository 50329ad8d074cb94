import Verif.Props.RtlMul
import Verif.Props.Add
import Verif.Props.Linear

/-!
# Property C67: the hardware adders and multiply-accumulate units
-/

namespace Verif.Props

open Verif Finset Gen Adder Shuffle

/-- How many of the wires carry a one. -/
def Spec.high {n : ℕ} (x : Fin n → Bool) : ℤ := ∑ i, Spec.num (x i)

private theorem pc7 (x : Fin 7 → Bool) : ((Rtl.parallelCnt7 x).toNat : ℤ) = Spec.high x := by
  have : ∀ a b c d e f g : Bool, ((Rtl.parallelCnt7 ![a, b, c, d, e, f, g]).toNat : ℤ)
      = Spec.num a + Spec.num b + Spec.num c + Spec.num d + Spec.num e + Spec.num f + Spec.num g := by decide +kernel
  rw [Spec.high, Fin.sum_univ_seven]
  exact this (x 0) (x 1) (x 2) (x 3) (x 4) (x 5) (x 6)

private theorem high15 (x : Fin 15 → Bool) :
    Spec.high x = Spec.high (fun i : Fin 7 => x ⟨i, by omega⟩) + Spec.high (fun i : Fin 7 => x ⟨7 + i, by omega⟩) + Spec.num (x 14) := by
  unfold Spec.high
  rw [Fin.sum_univ_castSucc, show (Fin.last 14) = (14 : Fin 15) from rfl]
  congr 1
  exact Fin.sum_univ_add (a := 7) (b := 7) fun i : Fin 14 => Spec.num (x i.castSucc)

private theorem pc15 (x : Fin 15 → Bool) : ((Rtl.parallelCnt15 x).toNat : ℤ) = Spec.high x := by
  have key : ∀ (a b : BitVec 3) (z : Bool),
      (((Rtl.fa (((Rtl.fa (((Rtl.fa z (a.getLsbD 0) (b.getLsbD 0))).getLsbD 1) (a.getLsbD 1) (b.getLsbD 1))).getLsbD 1)
          (a.getLsbD 2) (b.getLsbD 2) ++
        BitVec.ofBool ((Rtl.fa (((Rtl.fa z (a.getLsbD 0) (b.getLsbD 0))).getLsbD 1) (a.getLsbD 1) (b.getLsbD 1)).getLsbD 0)) ++
        BitVec.ofBool ((Rtl.fa z (a.getLsbD 0) (b.getLsbD 0)).getLsbD 0)).toNat : ℤ)
      = a.toNat + b.toNat + Spec.num z := by decide +kernel
  rw [high15, ← pc7, ← pc7]
  exact key _ _ _

/-- C67: the parallel counters count. -/
theorem C67_parallel_counters : (∀ x : Fin 7 → Bool, ((Rtl.parallelCnt7 x).toNat : ℤ) = Spec.high x) ∧
    ∀ x : Fin 15 → Bool, ((Rtl.parallelCnt15 x).toNat : ℤ) = Spec.high x := ⟨pc7, pc15⟩

private theorem us8 (acc : BitVec 3) (x : Fin 8 → Bool) :
    ((Rtl.usadd8Step acc x).1.toNat : ℤ) + 8 * Spec.num (Rtl.usadd8Step acc x).2 = acc.toNat + Spec.high x := by
  have key : ∀ (acc less : BitVec 3) (z : Bool),
      ((((acc.setWidth 4 + ((less.setWidth 4 + Rtl.bv 4 z).setWidth 3).setWidth 4).setWidth 3).toNat : ℤ)
        + 8 * Spec.num (if (less.setWidth 4 + Rtl.bv 4 z).getLsbD 3 then (less.setWidth 4 + Rtl.bv 4 z).getLsbD 3
            else (acc.setWidth 4 + ((less.setWidth 4 + Rtl.bv 4 z).setWidth 3).setWidth 4).getLsbD 3))
      = acc.toNat + (less.toNat + Spec.num z) := by decide +kernel
  have e : Spec.high x = (Rtl.parallelCnt7 fun i : Fin 7 => x ⟨i, by omega⟩).toNat + Spec.num (x 7) := by
    rw [pc7]; unfold Spec.high
    rw [Fin.sum_univ_castSucc]; rfl
  rw [e]
  exact key _ _ _

private theorem us16 (acc : BitVec 4) (x : Fin 16 → Bool) :
    ((Rtl.usadd16Step acc x).1.toNat : ℤ) + 16 * Spec.num (Rtl.usadd16Step acc x).2 = acc.toNat + Spec.high x := by
  have key : ∀ (acc less : BitVec 4) (z : Bool),
      ((((acc.setWidth 5 + ((less.setWidth 5 + Rtl.bv 5 z).setWidth 4).setWidth 5).setWidth 4).toNat : ℤ)
        + 16 * Spec.num (if (less.setWidth 5 + Rtl.bv 5 z).getLsbD 4 then (less.setWidth 5 + Rtl.bv 5 z).getLsbD 4
            else (acc.setWidth 5 + ((less.setWidth 5 + Rtl.bv 5 z).setWidth 4).setWidth 5).getLsbD 4))
      = acc.toNat + (less.toNat + Spec.num z) := by decide +kernel
  have e : Spec.high x = (Rtl.parallelCnt15 fun i : Fin 15 => x ⟨i, by omega⟩).toNat + Spec.num (x 15) := by
    rw [pc15]; unfold Spec.high
    rw [Fin.sum_univ_castSucc]; rfl
  rw [e]
  exact key _ _ _

private theorem us8_ones (x : ℕ → Fin 8 → Bool) (n : ℕ) :
    Verif.Spec.ones (Spec.nums (outAt Rtl.usadd8Step 0 x)) n = (∑ t ∈ range n, Spec.high (x t)) / 8 := by
  have inv : ((stateAt Rtl.usadd8Step 0 x n).toNat : ℤ) + 8 * Verif.Spec.ones (Spec.nums (outAt Rtl.usadd8Step 0 x)) n
      = ∑ t ∈ range n, Spec.high (x t) := by
    induction n with
    | zero => simp
    | succ n ih =>
        rw [sum_range_succ, ← ih, Verif.Spec.ones_succ, stateAt_succ]
        have := us8 (stateAt Rtl.usadd8Step 0 x n) (x n)
        show _ + 8 * (_ + Spec.num (Rtl.usadd8Step (stateAt Rtl.usadd8Step 0 x n) (x n)).2) = _
        linarith
  have := (stateAt Rtl.usadd8Step 0 x n).isLt
  omega

private theorem us16_ones (x : ℕ → Fin 16 → Bool) (n : ℕ) :
    Verif.Spec.ones (Spec.nums (outAt Rtl.usadd16Step 0 x)) n = (∑ t ∈ range n, Spec.high (x t)) / 16 := by
  have inv : ((stateAt Rtl.usadd16Step 0 x n).toNat : ℤ) + 16 * Verif.Spec.ones (Spec.nums (outAt Rtl.usadd16Step 0 x)) n
      = ∑ t ∈ range n, Spec.high (x t) := by
    induction n with
    | zero => simp
    | succ n ih =>
        rw [sum_range_succ, ← ih, Verif.Spec.ones_succ, stateAt_succ]
        have := us16 (stateAt Rtl.usadd16Step 0 x n) (x n)
        show _ + 16 * (_ + Spec.num (Rtl.usadd16Step (stateAt Rtl.usadd16Step 0 x n) (x n)).2) = _
        linarith
  have := (stateAt Rtl.usadd16Step 0 x n).isLt
  omega

/-- Two streams with the same counts are the same. -/
private theorem eq_of_ones {x y : ℕ → ℤ} (h : ∀ n, Verif.Spec.ones x n = Verif.Spec.ones y n) (t : ℕ) : x t = y t := by
  have h1 := h (t + 1)
  rw [Verif.Spec.ones_succ, Verif.Spec.ones_succ, h t] at h1
  omega

private theorem high_ones {N : ℕ} (x : Fin N → ℕ → Bool) (n : ℕ) :
    ∑ t ∈ range n, Spec.high (fun i => x i t) = ∑ i, Verif.Spec.ones (Spec.nums (x i)) n := by
  unfold Spec.high Verif.Spec.ones
  rw [sum_comm]; rfl

/-- C67: `uSADD8` and the scaled `FSUAdd` of eight inputs (deep enough not to saturate) put out the same bits. -/
theorem C67_usadd8 (cfg : Cfg) (hsc : cfg.scale = none) (hen : cfg.entry = none) (hd : (15 : ℚ) ≤ (2:ℚ) ^ (cfg.depth - 2))
    (x : Fin 8 → ℕ → Bool) (t : ℕ) :
    Spec.num (outAt Rtl.usadd8Step 0 (fun t i => x i t) t) = addOut cfg (streamArgs fun i => Spec.nums (x i)) t := by
  refine eq_of_ones (x := Spec.nums (outAt Rtl.usadd8Step 0 fun t i => x i t)) (fun n => ?_) t
  rw [us8_ones, high_ones, C19_exact (by norm_num) cfg hsc hen (by push_cast; linarith) _ (fun i => nums_bits (x i))]
  rfl

/-- C67: `uSADD16` and the scaled `FSUAdd` of sixteen inputs put out the same bits. -/
theorem C67_usadd16 (cfg : Cfg) (hsc : cfg.scale = none) (hen : cfg.entry = none) (hd : (31 : ℚ) ≤ (2:ℚ) ^ (cfg.depth - 2))
    (x : Fin 16 → ℕ → Bool) (t : ℕ) :
    Spec.num (outAt Rtl.usadd16Step 0 (fun t i => x i t) t) = addOut cfg (streamArgs fun i => Spec.nums (x i)) t := by
  refine eq_of_ones (x := Spec.nums (outAt Rtl.usadd16Step 0 fun t i => x i t)) (fun n => ?_) t
  rw [us16_ones, high_ones, C19_exact (by norm_num) cfg hsc hen (by push_cast; linarith) _ (fun i => nums_bits (x i))]
  rfl

example : Spec.num (outAt Rtl.usadd16Step 0 (fun t i => decide ((t + i) % 3 = 0)) 2)
    = addOut ⟨.bipolar, none, none, 10⟩ (streamArgs fun i : Fin 16 => Spec.nums fun t => decide ((t + i) % 3 = 0)) 2 ∧
    outAt Rtl.usadd16Step 0 (fun t (i : Fin 16) => decide ((t + i) % 3 = 0)) 2 = true :=
  ⟨C67_usadd16 ⟨.bipolar, none, none, 10⟩ rfl rfl (by norm_num) (fun i t => decide ((t + i) % 3 = 0)) 2, by decide +kernel⟩

/-! ## The non-scaled adders -/

theorem temp16 (x : Fin 16 → Bool) :
    (((Rtl.parallelCnt15 fun i : Fin 15 => x ⟨i, by omega⟩).setWidth 5 + Rtl.bv 5 (x 15)).toNat : ℤ) = Spec.high x := by
  have key : ∀ (less : BitVec 4) (z : Bool), ((less.setWidth 5 + Rtl.bv 5 z).toNat : ℤ) = less.toNat + Spec.num z := by decide
  rw [key, pc15]; unfold Spec.high
  rw [Fin.sum_univ_castSucc (n := 15)]; rfl

private theorem temp8 (x : Fin 8 → Bool) :
    (((Rtl.parallelCnt7 fun i : Fin 7 => x ⟨i, by omega⟩).setWidth 4 + Rtl.bv 4 (x 7)).toNat : ℤ) = Spec.high x := by
  have key : ∀ (less : BitVec 3) (z : Bool), ((less.setWidth 4 + Rtl.bv 4 z).toNat : ℤ) = less.toNat + Spec.num z := by decide
  rw [key, pc7]; unfold Spec.high
  rw [Fin.sum_univ_castSucc (n := 7)]; rfl

theorem high_le {n : ℕ} (x : Fin n → Bool) : 0 ≤ Spec.high x ∧ Spec.high x ≤ n := by
  unfold Spec.high
  constructor
  · exact sum_nonneg fun i _ => (num_isBit _).nonneg
  · calc ∑ i, Spec.num (x i) ≤ ∑ _i : Fin n, (1:ℤ) := sum_le_sum fun i _ => (num_isBit _).le_one
      _ = n := by simp

/-- Eight wires and eight wires at zero. -/
def Spec.pad (x : Fin 8 → Bool) (i : Fin 16) : Bool := if h : (i : ℕ) < 8 then x ⟨i, h⟩ else false

private theorem high_pad (x : Fin 8 → Bool) : Spec.high (Spec.pad x) = Spec.high x := by
  unfold Spec.high
  rw [Fin.sum_univ_add (a := 8) (b := 8) fun i : Fin 16 => Spec.num (Spec.pad x i)]
  have h1 : ∀ i : Fin 8, Spec.num (Spec.pad x (Fin.castAdd 8 i)) = Spec.num (x i) := by
    intro i; simp [Spec.pad]
  have h2 : ∀ i : Fin 8, Spec.num (Spec.pad x (Fin.natAdd 8 i)) = 0 := by
    intro i; simp [Spec.pad, Spec.num]
  simp only [h1, h2, sum_const_zero, add_zero]

/-- C67: `uNSADD8` has the offset of sixteen inputs: it behaves as `uNSADD16` with eight further inputs stuck at zero, that
is at bipolar value `-1`. -/
theorem C67_unsadd8 (x : ℕ → Fin 8 → Bool) (t : ℕ) :
    outAt Rtl.unsadd8Step (0, 0) x t = outAt Rtl.unsadd16Step (0, 0) (fun t => Spec.pad (x t)) t := by
  have one : ∀ (s : BitVec 10 × BitVec 10) (y : Fin 8 → Bool), Rtl.unsadd8Step s y = Rtl.unsadd16Step s (Spec.pad y) := by
    intro s y
    unfold Rtl.unsadd8Step Rtl.unsadd16Step
    have h8 := temp8 y
    have h16 := temp16 (Spec.pad y)
    rw [high_pad, ← h8] at h16
    have e : BitVec.setWidth 10 ((Rtl.parallelCnt7 fun i : Fin 7 => y ⟨i, by omega⟩).setWidth 4 + Rtl.bv 4 (y 7))
        = BitVec.setWidth 10 ((Rtl.parallelCnt15 fun i : Fin 15 => Spec.pad y ⟨i, by omega⟩).setWidth 5 + Rtl.bv 5 (Spec.pad y 15)) := by
      rw [← BitVec.toNat_inj, BitVec.toNat_setWidth, BitVec.toNat_setWidth]
      congr 1
      exact_mod_cast h16.symm
    simp only [e]
  have st : ∀ t, stateAt Rtl.unsadd8Step (0, 0) x t = stateAt Rtl.unsadd16Step (0, 0) (fun t => Spec.pad (x t)) t := by
    intro t
    induction t with
    | zero => rfl
    | succ t ih => rw [stateAt_succ, stateAt_succ, ih, one]
  unfold outAt
  rw [st, one]

/-- Twice the bipolar sum of the first `n` cycles in units of a bit: `#1 - #0` of all inputs plus one per cycle. -/
def Spec.theory (x : ℕ → Fin 16 → Bool) (n : ℕ) : ℤ := ∑ t ∈ range n, (2 * Spec.high (x t) - 15)

/-- One cycle of the hardware as long as nothing wraps. -/
private theorem ns16 {s : BitVec 10 × BitVec 10} {T A : ℤ} (hT : (s.1.toNat : ℤ) = T) (hA : (s.2.toNat : ℤ) = A) (x : Fin 16 → Bool)
    (h0 : 0 ≤ T + (2 * Spec.high x - 15)) (h1 : T + (2 * Spec.high x - 15) < 1024) (h2 : T ≤ 1022) :
    ((Rtl.unsadd16Step s x).1.1.toNat : ℤ) = T + (2 * Spec.high x - 15) ∧
    ((Rtl.unsadd16Step s x).1.2.toNat : ℤ) = A + 2 * ind (A < T) ∧
    Spec.num (Rtl.unsadd16Step s x).2 = ind (A < T) := by
  obtain ⟨a, b⟩ := s
  have ht := temp16 x
  obtain ⟨hl, hh⟩ := high_le x
  generalize hH : Spec.high x = H at *
  unfold Rtl.unsadd16Step
  simp only
  generalize (Rtl.parallelCnt15 fun i : Fin 15 => x ⟨i, by omega⟩).setWidth 5 + Rtl.bv 5 (x 15) = c at *
  have ha := a.isLt
  have hb := b.isLt
  have hc := c.isLt
  have hult : b.ult a = decide (A < T) := by
    show decide (b.toNat < a.toNat) = _
    rw [decide_eq_decide]; simp only at hT hA; omega
  rw [hult]
  simp only at hT hA
  refine ⟨?_, ?_, ?_⟩
  · have : (a + BitVec.setWidth 10 c <<< 1 - 15).toNat = a.toNat + 2 * c.toNat - 15 := by
      rw [BitVec.toNat_sub, BitVec.toNat_add, BitVec.toNat_shiftLeft, BitVec.toNat_setWidth, Nat.shiftLeft_eq]
      show (2 ^ 10 - 15 + _) % 2 ^ 10 = _
      omega
    rw [this]; omega
  · by_cases h : A < T
    · have : (b + Rtl.bv 10 (decide (A < T)) <<< 1).toNat = b.toNat + 2 := by
        rw [decide_eq_true h, BitVec.toNat_add]
        show (b.toNat + 2) % 2 ^ 10 = _
        omega
      rw [this, ind_true h]; push_cast; omega
    · have : (b + Rtl.bv 10 (decide (A < T)) <<< 1).toNat = b.toNat := by
        rw [decide_eq_false h, BitVec.toNat_add]
        show (b.toNat + 0) % 2 ^ 10 = _
        omega
      rw [this, ind_false h]; omega
  · unfold Spec.num ind
    by_cases h : A < T <;> simp [h]

private theorem ns16_state (x : ℕ → Fin 16 → Bool) (n : ℕ) (hS : ∀ m ≤ n, 0 ≤ Spec.theory x m ∧ Spec.theory x m ≤ 1022) :
    ∀ m ≤ n, ((stateAt Rtl.unsadd16Step (0, 0) x m).1.toNat : ℤ) = Spec.theory x m ∧
      ((stateAt Rtl.unsadd16Step (0, 0) x m).2.toNat : ℤ)
        = 2 * Verif.Spec.ones (Spec.nums (outAt Rtl.unsadd16Step (0, 0) x)) m := by
  intro m hm
  induction m with
  | zero => exact ⟨rfl, rfl⟩
  | succ m ih =>
      obtain ⟨i1, i2⟩ := ih (by omega)
      have hT : Spec.theory x (m + 1) = Spec.theory x m + (2 * Spec.high (x m) - 15) := sum_range_succ _ _
      have b1 := hS (m + 1) hm
      have b0 := hS m (by omega)
      rw [hT] at b1
      obtain ⟨r1, r2, r3⟩ := ns16 i1 i2 (x m) b1.1 (by omega) b0.2
      rw [stateAt_succ, hT, Verif.Spec.ones_succ]
      refine ⟨r1, ?_⟩
      have e : Spec.nums (outAt Rtl.unsadd16Step (0, 0) x) m
          = Spec.num (Rtl.unsadd16Step (stateAt Rtl.unsadd16Step (0, 0) x m) (x m)).2 := rfl
      rw [e, r3, r2]; ring

private theorem ns16_out (x : ℕ → Fin 16 → Bool) (n : ℕ) (hS : ∀ m ≤ n, 0 ≤ Spec.theory x m ∧ Spec.theory x m ≤ 1022) :
    Spec.num (outAt Rtl.unsadd16Step (0, 0) x n)
      = ind (2 * Verif.Spec.ones (Spec.nums (outAt Rtl.unsadd16Step (0, 0) x)) n < Spec.theory x n) := by
  obtain ⟨i1, i2⟩ := ns16_state x n hS n (le_refl _)
  show Spec.num ((stateAt Rtl.unsadd16Step (0, 0) x n).2.ult (stateAt Rtl.unsadd16Step (0, 0) x n).1) = _
  rw [← i1, ← i2]
  show Spec.num (decide (_ < _)) = _
  unfold Spec.num ind
  by_cases h : (stateAt Rtl.unsadd16Step (0, 0) x n).2.toNat < (stateAt Rtl.unsadd16Step (0, 0) x n).1.toNat <;> simp

/-- C67: as long as the running sum stays between `0` and `1022`, the hardware has emitted, one cycle later, as many ones
as the non-scaled bipolar `FSUAdd` or one more (it emits from half a unit on, the Python module from one unit on). -/
theorem C67_unsadd16 (cfg : Cfg) (hm : cfg.mode = .bipolar) (hsc : cfg.scale = some 1) (hen : cfg.entry = none)
    (hd : 11 ≤ cfg.depth) (x : Fin 16 → ℕ → Bool) (n : ℕ)
    (hS : ∀ m ≤ n, 0 ≤ Spec.theory (fun t i => x i t) m ∧ Spec.theory (fun t i => x i t) m ≤ 1022) :
    Verif.Spec.ones (addOut cfg (streamArgs fun i => Spec.nums (x i))) n
      ≤ Verif.Spec.ones (Spec.nums (outAt Rtl.unsadd16Step (0, 0) fun t i => x i t)) (n + 1) ∧
    Verif.Spec.ones (Spec.nums (outAt Rtl.unsadd16Step (0, 0) fun t i => x i t)) (n + 1)
      ≤ Verif.Spec.ones (addOut cfg (streamArgs fun i => Spec.nums (x i))) n + 1 := by
  set X : ℕ → Fin 16 → Bool := fun t i => x i t with hX
  set a := streamArgs fun i => Spec.nums (x i) with ha
  have hE : Spec.addEntry cfg a = 16 := by simp [Spec.addEntry, hen, ha, streamArgs]
  have hC : Spec.addScale cfg a = 1 := by simp [Spec.addScale, hsc, ha, streamArgs]
  have hO : Spec.addOffset cfg a = 15 / 2 := by
    unfold Spec.addOffset; rw [if_pos hm, hE, hC]; norm_num
  have hD : ∀ t, Spec.addDelta cfg a t = ((2 * Spec.high (X t) - 15 : ℤ) : ℚ) / 2 := by
    intro t
    unfold Spec.addDelta
    rw [hO]
    have : (a t).xs.sum = ((Spec.high (X t) : ℤ) : ℚ) := by
      rw [ha]; unfold streamArgs Spec.high
      rw [List.sum_ofFn]; push_cast; rfl
    rw [this]; push_cast; ring
  have hB : (1024 : ℚ) / 2 ≤ (2:ℚ) ^ (cfg.depth - 2) := by
    calc (1024 : ℚ) / 2 = (2:ℚ) ^ (9 : ℤ) := by norm_num
      _ ≤ (2:ℚ) ^ (cfg.depth - 2) := zpow_le_zpow_right₀ (by norm_num) (by omega)
  have hTs : ∀ m, Spec.theory X (m + 1) = Spec.theory X m + (2 * Spec.high (X m) - 15) := fun m => sum_range_succ _ _
  -- the Python side: no clipping
  have hpy : ∀ m ≤ n, addAcc cfg a m = ((Spec.theory X m - 2 * Verif.Spec.ones (addOut cfg a) m : ℤ) : ℚ) / 2 ∧
      0 ≤ Verif.Spec.ones (addOut cfg a) m ∧ 2 * Verif.Spec.ones (addOut cfg a) m ≤ 1022 ∧
      (m < n → addOut cfg a m = ind (2 ≤ Spec.theory X (m + 1) - 2 * Verif.Spec.ones (addOut cfg a) m)) := by
    intro m hmn
    have out_eq : ∀ m < n, addAcc cfg a m = ((Spec.theory X m - 2 * Verif.Spec.ones (addOut cfg a) m : ℤ) : ℚ) / 2 →
        0 ≤ Verif.Spec.ones (addOut cfg a) m → 2 * Verif.Spec.ones (addOut cfg a) m ≤ 1022 →
        max (-(2:ℚ) ^ (cfg.depth - 2)) (min (addAcc cfg a m + Spec.addDelta cfg a m) ((2:ℚ) ^ (cfg.depth - 2)))
          = ((Spec.theory X (m + 1) - 2 * Verif.Spec.ones (addOut cfg a) m : ℤ) : ℚ) / 2 ∧
        addOut cfg a m = ind (2 ≤ Spec.theory X (m + 1) - 2 * Verif.Spec.ones (addOut cfg a) m) := by
      intro m hm' h1 h2 h3
      obtain ⟨b0, b1⟩ := hS (m + 1) (by omega)
      have e : addAcc cfg a m + Spec.addDelta cfg a m
          = ((Spec.theory X (m + 1) - 2 * Verif.Spec.ones (addOut cfg a) m : ℤ) : ℚ) / 2 := by
        rw [h1, hD, hTs]; push_cast; ring
      have u : ((Spec.theory X (m + 1) - 2 * Verif.Spec.ones (addOut cfg a) m : ℤ) : ℚ) ≤ 1022 := by
        exact_mod_cast (by omega : Spec.theory X (m + 1) - 2 * Verif.Spec.ones (addOut cfg a) m ≤ 1022)
      have l : (-1022 : ℚ) ≤ ((Spec.theory X (m + 1) - 2 * Verif.Spec.ones (addOut cfg a) m : ℤ) : ℚ) := by
        exact_mod_cast (by omega : -1022 ≤ Spec.theory X (m + 1) - 2 * Verif.Spec.ones (addOut cfg a) m)
      rw [e, min_eq_left (by linarith), max_eq_right (by linarith)]
      refine ⟨rfl, ?_⟩
      rw [addOut_eq, hC, e]
      have hcl : clamp (-accBound cfg.depth) (accBound cfg.depth)
          (((Spec.theory X (m + 1) - 2 * Verif.Spec.ones (addOut cfg a) m : ℤ) : ℚ) / 2)
          = ((Spec.theory X (m + 1) - 2 * Verif.Spec.ones (addOut cfg a) m : ℤ) : ℚ) / 2 := by
        have hB' : (1024 : ℚ) / 2 ≤ accBound cfg.depth := hB
        unfold clamp
        rw [max_eq_left (by linarith), min_eq_left (by linarith)]
      rw [hcl]
      generalize Spec.theory X (m + 1) - 2 * Verif.Spec.ones (addOut cfg a) m = z
      have : ((z : ℚ) / 2 ≥ 1) ↔ 2 ≤ z := by
        constructor
        · intro h; have : (2:ℚ) ≤ z := by linarith
          exact_mod_cast this
        · intro h; have : (2:ℚ) ≤ z := by exact_mod_cast h
          linarith
      unfold ind
      simp only [this]
    induction m with
    | zero => 
        refine ⟨by simp [addAcc, Adder.init, Spec.theory], le_refl _, by simp, fun h => ?_⟩
        exact (out_eq 0 h (by simp [addAcc, Adder.init, Spec.theory]) (le_refl _) (by simp)).2
    | succ m ih =>
        obtain ⟨i1, i2, i3, i4⟩ := ih (by omega)
        have i5 := i4 (by omega)
        have hc := (out_eq m (by omega) i1 i2 i3).1
        rw [← C18_single_clamp cfg a (by rw [hC]; norm_num) m, hC] at hc
        have b1 := hS (m + 1) (by omega)
        have hbit := C18_bit cfg a m
        have j1 : addAcc cfg a (m + 1) = ((Spec.theory X (m + 1) - 2 * Verif.Spec.ones (addOut cfg a) (m + 1) : ℤ) : ℚ) / 2 := by
          rw [Verif.Spec.ones_succ]; push_cast at hc ⊢; linarith
        have j2 : 0 ≤ Verif.Spec.ones (addOut cfg a) (m + 1) := by
          rw [Verif.Spec.ones_succ]; rcases hbit with h | h <;> omega
        have j3 : 2 * Verif.Spec.ones (addOut cfg a) (m + 1) ≤ 1022 := by
          rw [Verif.Spec.ones_succ]
          rw [i5]; unfold ind; split_ifs <;> omega
        exact ⟨j1, j2, j3, fun h => (out_eq (m + 1) h j1 j2 j3).2⟩
  have main : ∀ m ≤ n, Verif.Spec.ones (addOut cfg a) m ≤ Verif.Spec.ones (Spec.nums (outAt Rtl.unsadd16Step (0, 0) X)) (m + 1) ∧
      Verif.Spec.ones (Spec.nums (outAt Rtl.unsadd16Step (0, 0) X)) (m + 1) ≤ Verif.Spec.ones (addOut cfg a) m + 1 := by
    intro m hmn
    induction m with
    | zero =>
        have : Verif.Spec.ones (Spec.nums (outAt Rtl.unsadd16Step (0, 0) X)) 1 = 0 := by
          rw [Verif.Spec.ones_succ]; rfl
        rw [this]; simp
    | succ m ih =>
        obtain ⟨i1, i2⟩ := ih (by omega)
        have ho := ns16_out X (m + 1) (fun k hk => hS k (by omega))
        have hp := (hpy m (by omega)).2.2.2 (by omega)
        rw [Verif.Spec.ones_succ (addOut cfg a), Verif.Spec.ones_succ, hp]
        have e : Spec.nums (outAt Rtl.unsadd16Step (0, 0) X) (m + 1)
            = ind (2 * Verif.Spec.ones (Spec.nums (outAt Rtl.unsadd16Step (0, 0) X)) (m + 1) < Spec.theory X (m + 1)) := ho
        rw [e]
        unfold ind
        split_ifs <;> omega
  exact main n (le_refl _)

/-- C67: a negative running sum is read as a large positive one.  On constant-zero inputs (every input at bipolar value
`-1`) the hardware emits a one in cycle `1`; the Python module never emits one. -/
theorem C67_unsadd16_negative (cfg : Cfg) (hm : cfg.mode = .bipolar) (hsc : cfg.scale = some 1) (hen : cfg.entry = none) :
    outAt Rtl.unsadd16Step (0, 0) (fun _ _ => false) 1 = true ∧
    ∀ t, addOut cfg (streamArgs fun _ : Fin 16 => Spec.nums fun _ => false) t = 0 := by
  refine ⟨by decide +kernel, ?_⟩
  set a := streamArgs fun _ : Fin 16 => Spec.nums fun _ => false with ha
  have hE : Spec.addEntry cfg a = 16 := by simp [Spec.addEntry, hen, ha, streamArgs]
  have hC : Spec.addScale cfg a = 1 := by simp [Spec.addScale, hsc, ha, streamArgs]
  have hO : Spec.addOffset cfg a = 15 / 2 := by
    unfold Spec.addOffset; rw [if_pos hm, hE, hC]; norm_num
  have hD : ∀ t, Spec.addDelta cfg a t = -15 / 2 := by
    intro t
    unfold Spec.addDelta
    rw [hO, ha]
    unfold streamArgs
    rw [List.sum_ofFn]; simp [Spec.nums, Spec.num]
    norm_num
  have hp := accBound_pos cfg.depth
  have hz : ∀ t, addAcc cfg a t ≤ 0 → addOut cfg a t = 0 := by
    intro t h
    rw [addOut_eq, hC, hD]
    apply ind_false
    intro hge
    have h1 : clamp (-accBound cfg.depth) (accBound cfg.depth) (addAcc cfg a t + -15 / 2) ≤ max (addAcc cfg a t + -15 / 2) (-accBound cfg.depth) :=
      min_le_left _ _
    rcases le_max_iff.1 (le_trans hge h1) with h2 | h2 <;> linarith
  have hacc : ∀ t, addAcc cfg a t ≤ 0 := by
    intro t
    induction t with
    | zero => exact le_refl _
    | succ t ih =>
        have h := C18_single_clamp cfg a (by rw [hC]; norm_num) t
        rw [hz t ih, hD] at h
        have h2 : min (addAcc cfg a t + -15 / 2) ((2:ℚ) ^ (cfg.depth - 2)) ≤ addAcc cfg a t + -15 / 2 := min_le_left _ _
        have h3 : max (-(2:ℚ) ^ (cfg.depth - 2)) (min (addAcc cfg a t + -15 / 2) ((2:ℚ) ^ (cfg.depth - 2))) ≤ 0 :=
          max_le (neg_nonpos.2 hp.le) (by linarith)
        rw [← h] at h3
        simpa using h3
  exact fun t => hz t (hacc t)

example : ∀ m ≤ 40, 0 ≤ Spec.theory (fun t i => decide ((t + (i : ℕ)) % 16 < 8 + t % 2)) m ∧
    Spec.theory (fun t i => decide ((t + (i : ℕ)) % 16 < 8 + t % 2)) m ≤ 1022 := by decide +kernel

/-! ## Multiply-accumulate -/

/-- Cycle `0` loads the numbers `b`, no later cycle loads; `x k` is the input stream of multiplier `k`. -/
def Spec.macLoaded {w : ℕ} (b : Fin 16 → BitVec w) (x : Fin 16 → ℕ → Bool) (i : ℕ → Rtl.MacIn w) : Prop :=
  (∀ k t, (i t).iA k = x k t) ∧ (i 0).loadB = true ∧ (i 0).iB = b ∧ ∀ t, (i (t + 1)).loadB = false

/-- The inputs of lane `k`. -/
def lane {w : ℕ} (i : ℕ → Rtl.MacIn w) (k : Fin 16) (t : ℕ) : Rtl.MulIn w := ⟨(i t).iA k, (i t).iB k, (i t).loadB⟩

theorem lane_loaded {w : ℕ} {b : Fin 16 → BitVec w} {x : Fin 16 → ℕ → Bool} {i : ℕ → Rtl.MacIn w}
    (h : Spec.macLoaded b x i) (k : Fin 16) : Spec.loaded (b k) (x k) (lane i k) :=
  ⟨fun t => h.1 k t, h.2.1, by show (i 0).iB k = b k; rw [h.2.2.1], fun t => h.2.2.2 t⟩

/-- The unit is its multipliers and its adder. -/
private theorem mac_run {w : ℕ} (f : Rtl.Mul w → Rtl.MulIn w → Rtl.Mul w × Bool) (g : BitVec 4 → (Fin 16 → Bool) → BitVec 4 × Bool)
    (i : ℕ → Rtl.MacIn w) (step : Rtl.Mac w → Rtl.MacIn w → Rtl.Mac w × Bool)
    (h1 : ∀ s j k, (step s j).1.muls k = (f (s.muls k) ⟨j.iA k, j.iB k, j.loadB⟩).1)
    (h2 : ∀ s j, (step s j).1.acc = (g s.acc fun k => (f (s.muls k) ⟨j.iA k, j.iB k, j.loadB⟩).2).1)
    (h3 : ∀ s j, (step s j).2 = (g s.acc fun k => (f (s.muls k) ⟨j.iA k, j.iB k, j.loadB⟩).2).2) (t : ℕ) :
    outAt step (Rtl.macInit w) i t = outAt g 0 (fun t k => outAt f (Rtl.mulInit w) (lane i k) t) t := by
  have st : ∀ t, (∀ k, (stateAt step (Rtl.macInit w) i t).muls k = stateAt f (Rtl.mulInit w) (lane i k) t) ∧
      (stateAt step (Rtl.macInit w) i t).acc = stateAt g 0 (fun t k => outAt f (Rtl.mulInit w) (lane i k) t) t := by
    intro t
    induction t with
    | zero => exact ⟨fun _ => rfl, rfl⟩
    | succ t ih =>
        obtain ⟨i1, i2⟩ := ih
        constructor
        · intro k
          rw [stateAt_succ, h1, i1 k]; rfl
        · rw [stateAt_succ, h2, i2]
          simp only [i1]
          rfl
  obtain ⟨i1, i2⟩ := st t
  unfold outAt
  rw [h3, i2]
  simp only [i1]
  rfl

/-- A machine run from the state after its first cycle. -/
theorem run_shift {σ ι ω : Type} (f : σ → ι → σ × ω) (s : σ) (i : ℕ → ι) (t : ℕ) :
    stateAt f s i (t + 1) = stateAt f (f s (i 0)).1 (fun t => i (t + 1)) t ∧
    outAt f s i (t + 1) = outAt f (f s (i 0)).1 (fun t => i (t + 1)) t := by
  have h : ∀ t, stateAt f s i (t + 1) = stateAt f (f s (i 0)).1 (fun t => i (t + 1)) t := by
    intro t
    induction t with
    | zero => rfl
    | succ t ih => rw [stateAt_succ, ih, stateAt_succ]
  exact ⟨h t, by unfold outAt; rw [h t]⟩

private theorem us16_shift (x : ℕ → Fin 16 → Bool) (b : Bool) (h0 : ∀ k, x 0 k = b) (t : ℕ) :
    outAt Rtl.usadd16Step 0 x (t + 1) = outAt Rtl.usadd16Step 0 (fun t => x (t + 1)) t := by
  rw [(run_shift Rtl.usadd16Step 0 x t).2]
  have e : (Rtl.usadd16Step 0 (x 0)).1 = 0 := by
    have : x 0 = fun _ => b := funext h0
    rw [this]
    cases b <;> decide +kernel
  rw [e]

theorem outAt_prefix {σ ι ω : Type} (f : σ → ι → σ × ω) (s : σ) {i j : ℕ → ι} (t : ℕ) (h : ∀ u ≤ t, i u = j u) :
    outAt f s i t = outAt f s j t := by
  have st : ∀ u ≤ t, stateAt f s i u = stateAt f s j u := by
    intro u hu
    induction u with
    | zero => rfl
    | succ u ih => rw [stateAt_succ, stateAt_succ, ih (by omega), h u (by omega)]
  unfold outAt
  rw [st t (le_refl _), h t (le_refl _)]

theorem ones_mono' {x : ℕ → ℤ} (h : Verif.Spec.BitStream x) {m n : ℕ} (hmn : m ≤ n) :
    Verif.Spec.ones x m ≤ Verif.Spec.ones x n := by
  induction hmn with
  | refl => exact le_refl _
  | step _ ih => rw [Verif.Spec.ones_succ]; exact ih.trans (le_add_of_nonneg_right (h _).nonneg)

private theorem mac_eq {w : ℕ} (f : Rtl.Mul w → Rtl.MulIn w → Rtl.Mul w × Bool) (i : ℕ → Rtl.MacIn w)
    (step : Rtl.Mac w → Rtl.MacIn w → Rtl.Mac w × Bool)
    (hrun : ∀ t, outAt step (Rtl.macInit w) i t
      = outAt Rtl.usadd16Step 0 (fun t k => outAt f (Rtl.mulInit w) (lane i k) t) t)
    (c : Bool) (h0 : ∀ k, outAt f (Rtl.mulInit w) (lane i k) 0 = c)
    (cfg : Cfg) (hsc : cfg.scale = none) (hen : cfg.entry = none) (hd : (31 : ℚ) ≤ (2:ℚ) ^ (cfg.depth - 2))
    (y : Fin 16 → ℕ → ℤ) (t : ℕ) (hy : ∀ k, ∀ u ≤ t, Spec.num (outAt f (Rtl.mulInit w) (lane i k) (u + 1)) = y k u) :
    Spec.num (outAt step (Rtl.macInit w) i (t + 1)) = addOut cfg (streamArgs y) t := by
  rw [hrun, us16_shift _ c (fun k => h0 k)]
  have h := C67_usadd16 cfg hsc hen hd (fun k t => outAt f (Rtl.mulInit w) (lane i k) (t + 1)) t
  refine h.trans (outAt_prefix _ _ t fun u hu => ?_)
  unfold streamArgs
  congr 2
  funext k
  exact congrArg (fun z : ℤ => (z : ℚ)) (hy k u hu)

/-- C67: from the cycle after the load on, the unipolar multiply-accumulate unit is sixteen `FSUMul` and one scaled
`FSUAdd`, bit for bit, until an input has had `2^w` ones. -/
theorem C67_mac_uni {env : Env} {w : ℕ} (henv : env.sobolM = fun _ => 1) (hw0 : 1 ≤ w) (hw : w ≤ env.maxbit) {l : List ℤ}
    (hl : rng env w "sobol" = .ok l) (cfg : Cfg) (hsc : cfg.scale = none) (hen : cfg.entry = none)
    (hd : (31 : ℚ) ≤ (2:ℚ) ^ (cfg.depth - 2)) {b : Fin 16 → BitVec w} {x : Fin 16 → ℕ → Bool} {i : ℕ → Rtl.MacIn w}
    (h : Spec.macLoaded b x i) (t : ℕ) (hn : ∀ k, Verif.Spec.ones (Spec.nums (x k)) (t + 1) < 2 ^ w) :
    Spec.num (outAt Rtl.umacUniStep (Rtl.macInit w) i (t + 1))
      = addOut cfg (streamArgs fun k t => mulOut .unipolar w l (b k).toNat (Spec.nums (x k)) (t + 1)) t := by
  refine mac_eq Rtl.umulUniStep i Rtl.umacUniStep
    (mac_run Rtl.umulUniStep Rtl.usadd16Step i Rtl.umacUniStep (fun _ _ _ => rfl) (fun _ _ => rfl) (fun _ _ => rfl))
    false (fun k => ?_) cfg hsc hen hd _ t (fun k u hu => ?_)
  · show ((i 0).iA k && (0 : BitVec w).ult 0) = false
    have : (0 : BitVec w).ult 0 = false := by simp [BitVec.ult]
    rw [this, Bool.and_false]
  · refine C66_uni henv hw0 hw hl (lane_loaded h k) (u + 1) (by omega) ?_
    exact lt_of_le_of_lt (ones_mono' (nums_bits _) (by omega)) (hn k)

/-- C67: likewise for the bipolar unit, if all input bits of the load cycle are equal (in that cycle it emits the inverted
input bits). -/
theorem C67_mac_bi {env : Env} {w : ℕ} (henv : env.sobolM = fun _ => 1) (hw0 : 1 ≤ w) (hw : w ≤ env.maxbit) {l : List ℤ}
    (hl : rng env w "sobol" = .ok l) (cfg : Cfg) (hsc : cfg.scale = none) (hen : cfg.entry = none)
    (hd : (31 : ℚ) ≤ (2:ℚ) ^ (cfg.depth - 2)) {b : Fin 16 → BitVec w} {x : Fin 16 → ℕ → Bool} {i : ℕ → Rtl.MacIn w}
    (h : Spec.macLoaded b x i) (c : Bool) (hx0 : ∀ k, x k 0 = c) (t : ℕ)
    (hn : ∀ k, Verif.Spec.ones (Spec.nums (x k)) (t + 1) < 2 ^ w)
    (hz : ∀ k, (t + 1 : ℤ) - Verif.Spec.ones (Spec.nums (x k)) (t + 1) < 2 ^ w) :
    Spec.num (outAt Rtl.umacBiStep (Rtl.macInit w) i (t + 1))
      = addOut cfg (streamArgs fun k t => mulOut .bipolar w l (b k).toNat (Spec.nums (x k)) (t + 1)) t := by
  refine mac_eq Rtl.umulBiStep i Rtl.umacBiStep
    (mac_run Rtl.umulBiStep Rtl.usadd16Step i Rtl.umacBiStep (fun _ _ _ => rfl) (fun _ _ => rfl) (fun _ _ => rfl))
    (!c) (fun k => ?_) cfg hsc hen hd _ t (fun k u hu => ?_)
  · show (((i 0).iA k && (0 : BitVec w).ult 0) || (!(i 0).iA k && (0 : BitVec w).ule 0)) = !c
    have e1 : (0 : BitVec w).ult 0 = false := by simp [BitVec.ult]
    have e2 : (0 : BitVec w).ule 0 = true := by simp [BitVec.ule]
    rw [e1, e2, h.1 k 0, hx0 k]; cases c <;> rfl
  · refine C66_bi henv hw0 hw hl (lane_loaded h k) (u + 1) (by omega) ?_ ?_
    · exact lt_of_le_of_lt (ones_mono' (nums_bits _) (by omega)) (hn k)
    · refine lt_of_le_of_lt ?_ (hz k)
      have : ∀ d, ((u + 1 : ℕ) : ℤ) - Verif.Spec.ones (Spec.nums (x k)) (u + 1)
          ≤ ((u + 1 + d : ℕ) : ℤ) - Verif.Spec.ones (Spec.nums (x k)) (u + 1 + d) := by
        intro d
        induction d with
        | zero => exact le_refl _
        | succ d ih =>
            rw [← Nat.add_assoc, Verif.Spec.ones_succ _ (u + 1 + d)]
            have := (nums_bits (x k) (u + 1 + d)).le_one
            push_cast at ih ⊢
            omega
      have h2 := this (t - u)
      rw [show u + 1 + (t - u) = t + 1 by omega] at h2
      exact_mod_cast h2

/-- C67: an `FSULinear` layer of sixteen features (unipolar, Sobol, no bias, default scale, deep accumulator) is simulated by
`uMAC_uni_scaled` bit for bit: with zero bits in the load cycle and the streams following it, the unit emits in cycle
`t + 1` what the layer returns in call `t`, until an input has had `2^w` ones. -/
theorem C67_linear {env : Env} {w : ℕ} (henv : env.sobolM = fun _ => 1) (hw0 : 1 ≤ w) (hw : w ≤ env.maxbit) (depth : ℤ)
    (hd : (31 : ℚ) ≤ (2:ℚ) ^ (depth - 2)) (we : Fin 1 → Fin 16 → ℚ) {m : Linear.PC 16 1 × Adder.Cfg}
    (hm : Linear.mkLinear env "unipolar" w "sobol" depth none we false none = .ok m)
    {b : Fin 16 → BitVec w} (hb : ∀ k, binGenM .unipolar w (we 0 k) = (b k).toNat)
    {x : Fin 16 → ℕ → Bool} {i : ℕ → Rtl.MacIn w} (h : Spec.macLoaded b x i) (hx0 : ∀ k, x k 0 = false) (t : ℕ)
    (hn : ∀ k, Verif.Spec.ones (Spec.nums (x k)) (t + 1) < 2 ^ w) :
    linOut m (fun (_ : Fin 1) k t => Spec.nums (x k) (t + 1)) t
      = .ok [fun _ => Spec.num (outAt Rtl.umacUniStep (Rtl.macInit w) i (t + 1))] := by
  obtain ⟨mo, l, out, hmo, hl, hrows, hones⟩ := C45_products (B := 1) (by norm_num) env "unipolar" w "sobol" depth we false none m hm
    (by decide) (by show (2 * ((16 + 0 : ℕ) : ℚ) - 1) ≤ _; push_cast; linarith) (by decide +kernel)
    (fun (_ : Fin 1) k t => Spec.nums (x k) (t + 1)) (fun _ k t => nums_bits (x k) (t + 1))
  have hmo' : mo = .unipolar := by
    have : parseMode "unipolar" = .ok Mode.unipolar := by decide +kernel
    rw [this] at hmo; cases hmo; rfl
  subst hmo'
  let cfg : Cfg := ⟨.unipolar, none, none, depth⟩
  have hhw := C67_mac_uni henv hw0 hw hl cfg rfl rfl hd h t hn
  rw [hrows t, hhw]
  have hmul : ∀ k u, mulOut .unipolar w l (b k).toNat (Spec.nums (x k)) (u + 1)
      = mulOut .unipolar w l (binGenM .unipolar w (we 0 k)) (fun t => Spec.nums (x k) (t + 1)) u := by
    intro k u
    rw [C24_bit (nums_bits (x k)), C24_bit (fun t => nums_bits (x k) (t + 1)), hb k]
    congr 2
    unfold Verif.Spec.ones
    rw [sum_range_succ']
    have : Spec.nums (x k) 0 = 0 := by show Spec.num (x k 0) = 0; rw [hx0 k]; rfl
    rw [this, add_zero]
  have hadd : ∀ n, Verif.Spec.ones (out 0 0) n = Verif.Spec.ones (addOut cfg (streamArgs fun k t =>
      mulOut .unipolar w l (b k).toNat (Spec.nums (x k)) (t + 1))) n := by
    intro n
    rw [hones 0 0 n, C19_exact (N := 16) (by norm_num) cfg rfl rfl (by push_cast; linarith) _
      (fun k t => (C24_bits (nums_bits (x k)) .unipolar w l _ (t + 1)).1)]
    simp only [Bool.false_eq_true, if_false, add_zero, hmul]
    rfl
  have := eq_of_ones hadd t
  rw [← this, List.ofFn_succ, List.ofFn_zero]
  refine congrArg (fun z => Except.ok [z]) (funext fun o => ?_)
  rw [Subsingleton.elim o 0]

/-! Non-vacuity: operands 0 … 7 twice at width 3, every input 0 in the load cycle, then a mixed pattern. -/

private def mbits (k : Fin 16) (t : ℕ) : Bool := decide (t ≠ 0 ∧ (t + k) % 3 ≠ 0)
private def mdemo (t : ℕ) : Rtl.MacIn 3 := ⟨fun k => mbits k t, fun k => BitVec.ofNat 3 k, t == 0⟩

private theorem mdemo_loaded : Spec.macLoaded (fun k => BitVec.ofNat 3 k) mbits mdemo :=
  ⟨fun _ _ => rfl, rfl, rfl, fun t => by simp [mdemo]⟩

example : (∀ k, mbits k 0 = false) ∧ (∀ k, Verif.Spec.ones (Spec.nums (mbits k)) 10 < 2 ^ 3) ∧
    (∀ k, (9 + 1 : ℤ) - Verif.Spec.ones (Spec.nums (mbits k)) 10 < 2 ^ 3) := by decide +kernel

/-- The unit emits ones and zeros in that run. -/
example : (List.range 11).map (outAt Rtl.umacUniStep (Rtl.macInit 3) mdemo) =
    [false, false, true, false, false, false, true, false, false, false, false] := by decide +kernel

/-- A layer meeting the hypotheses of `C67_linear`: its weights are the eighths. -/
example : (Linear.mkLinear (I := 16) (O := 1) ⟨30, fun _ => 1, fun _ _ => false, []⟩ "unipolar" 3 "sobol" 10 none
      (fun _ k => ((k : ℕ) % 8 : ℕ) / 8) false none).toBool = true ∧
    (∀ k : Fin 16, binGenM .unipolar 3 (((k : ℕ) % 8 : ℕ) / 8) = ((BitVec.ofNat 3 k).toNat : ℤ)) := by decide +kernel

end Verif.Props
