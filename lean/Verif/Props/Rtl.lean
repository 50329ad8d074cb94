import Verif.Props.Shuffle
import Verif.Props.Small
import Verif.Props.Sqrt
import Verif.Model.Rtl

/-!
# Properties C63–C65: the Python modules and the hardware they simulate

`Spec.num` reads a wire as the number the Python code uses.  Statements compare the whole output streams of the two machines on
the same input streams.
-/

namespace Verif.Props

open Verif Finset

/-- The number on a wire. -/
def Spec.num (b : Bool) : ℤ := if b then 1 else 0

/-- A bitstream on a wire, as the Python code sees it. -/
def Spec.nums (x : ℕ → Bool) : ℕ → ℤ := fun t => Spec.num (x t)

theorem num_isBit (b : Bool) : IsBit (Spec.num b) := by cases b <;> simp [Spec.num, IsBit]

theorem nums_bits (x : ℕ → Bool) : Verif.Spec.BitStream (Spec.nums x) := fun t => num_isBit (x t)

theorem num_inj {a b : Bool} : Spec.num a = Spec.num b ↔ a = b := by cases a <;> cases b <;> simp [Spec.num]

theorem bv_full {n : ℕ} (c : BitVec n) : c = BitVec.allOnes n ↔ c.toNat = 2 ^ n - 1 := by
  rw [← BitVec.toNat_inj, BitVec.toNat_allOnes]

theorem bv_zero {n : ℕ} (c : BitVec n) : c = 0 ↔ c.toNat = 0 := by
  rw [← BitVec.toNat_inj]; simp

theorem bv_inc {n : ℕ} (c : BitVec n) (h : c.toNat ≠ 2 ^ n - 1) : (c + 1).toNat = c.toNat + 1 := by
  have hc := c.isLt
  have hn : n ≠ 0 := by rintro rfl; simp at hc h; omega
  have h1 : 2 ≤ 2 ^ n := by
    calc 2 = 2 ^ 1 := rfl
      _ ≤ 2 ^ n := Nat.pow_le_pow_right (by norm_num) (by omega)
  rw [BitVec.toNat_add]
  have : (1 : BitVec n).toNat = 1 := by
    show 1 % 2 ^ n = 1
    exact Nat.mod_eq_of_lt (by omega)
  rw [this, Nat.mod_eq_of_lt (by omega)]

theorem bv_dec {n : ℕ} (c : BitVec n) (h : c.toNat ≠ 0) : (c - 1).toNat = c.toNat - 1 := by
  have hc := c.isLt
  have hn : n ≠ 0 := by rintro rfl; simp at hc; omega
  have h1 : 2 ≤ 2 ^ n := by
    calc 2 = 2 ^ 1 := rfl
      _ ≤ 2 ^ n := Nat.pow_le_pow_right (by norm_num) (by omega)
  have h2 : (1 : BitVec n).toNat = 1 := by
    show 1 % 2 ^ n = 1
    exact Nat.mod_eq_of_lt (by omega)
  rw [BitVec.toNat_sub, h2]
  rw [show 2 ^ n - 1 + c.toNat = (c.toNat - 1) + 2 ^ n by omega, Nat.add_mod_right]
  exact Nat.mod_eq_of_lt (by omega)

/-! ## C63: same bits in the same cycle -/

private theorem rtl_ss (dep : ℕ) (c : BitVec dep) (a b : Bool) :
    (Rtl.ssStep dep c (a, b)).1.toNat
      = (if a = b then c.toNat else if a then (if c.toNat = 2 ^ dep - 1 then c.toNat else c.toNat + 1) else c.toNat - 1) ∧
    (Rtl.ssStep dep c (a, b)).2.1
      = (if a = b then a else if a then decide (c.toNat = 2 ^ dep - 1) else decide (c.toNat ≠ 0)) ∧
    (Rtl.ssStep dep c (a, b)).2.2 = b := by
  have hneg : (c + if a = true then (1 : BitVec dep) else -1) = if a = true then c + 1 else c - 1 := by
    cases a
    · exact (BitVec.sub_eq_add_neg c 1).symm
    · rfl
  unfold Rtl.ssStep
  simp only
  rw [hneg]
  have hf := bv_full c
  have hz := bv_zero c
  have hi := bv_inc c
  have hd := bv_dec c
  generalize c + 1 = c1 at *
  generalize c - 1 = c2 at *
  by_cases h1 : c.toNat = 2 ^ dep - 1 <;> by_cases h2 : c.toNat = 0 <;> simp only [h1, h2, iff_true, iff_false] at hf hz <;>
    simp only [hf, hz, decide_true, decide_false] <;> cases a <;> cases b <;> simp_all

private theorem ss_match (dep : ℕ) (c : BitVec dep) (s : Shuffle.SS) (sh : List ℕ)
    (h : (s.shape = sh ∧ s.cnt = c.toNat) ∨ (s.shape ≠ sh ∧ c.toNat = 0)) (a b : Bool) :
    Shuffle.ssStep dep s (sh, Spec.num a, Spec.num b)
      = (⟨sh, ((Rtl.ssStep dep c (a, b)).1.toNat : ℤ)⟩,
         (Spec.num (Rtl.ssStep dep c (a, b)).2.1, Spec.num (Rtl.ssStep dep c (a, b)).2.2)) := by
  have hc := c.isLt
  obtain ⟨e1, e2, e3⟩ := rtl_ss dep c a b
  rw [e1, e2, e3]
  have hcast : (2 : ℤ) ^ dep = ((2 ^ dep : ℕ) : ℤ) := by push_cast; rfl
  have heff : (if s.shape ≠ sh then 0 else s.cnt) = (c.toNat : ℤ) := by
    rcases h with ⟨h1, h2⟩ | ⟨h1, h2⟩
    · simp [h1, h2]
    · simp [h1, h2]
  simp only [Shuffle.ssStep]
  rw [heff, hcast]
  generalize c.toNat = n at *
  generalize 2 ^ dep = P at *
  unfold clamp ind Spec.num
  refine Prod.ext ?_ (Prod.ext ?_ rfl)
  · simp only [Shuffle.SS.mk.injEq, true_and]
    cases a <;> cases b <;> simp <;> (try split_ifs) <;> omega
  · cases a <;> cases b <;> simp
    all_goals split_ifs <;> omega

/-- C63: `SkewedSync` and its hardware put out the same bits in every cycle, for every depth and all inputs. -/
theorem C63_skewed_sync (dep : ℕ) (sh : List ℕ) (x y : ℕ → Bool) (t : ℕ) :
    ssOut dep sh (Spec.nums x) (Spec.nums y) t
      = Spec.num (outAt (Rtl.ssStep dep) (Rtl.ssInit dep) (fun t => (x t, y t)) t).1 ∧
    ssOut2 dep sh (Spec.nums x) (Spec.nums y) t
      = Spec.num (outAt (Rtl.ssStep dep) (Rtl.ssInit dep) (fun t => (x t, y t)) t).2 := by
  have inv : ∀ t, (let s := stateAt (Shuffle.ssStep dep) Shuffle.ssInit (fun t => (sh, Spec.nums x t, Spec.nums y t)) t
      let c := stateAt (Rtl.ssStep dep) (Rtl.ssInit dep) (fun t => (x t, y t)) t
      (s.shape = sh ∧ s.cnt = c.toNat) ∨ (s.shape ≠ sh ∧ c.toNat = 0)) := by
    intro t
    induction t with
    | zero =>
        by_cases h : Shuffle.ssInit.shape = sh
        · exact Or.inl ⟨h, by simp [Shuffle.ssInit, Rtl.ssInit]⟩
        · exact Or.inr ⟨h, by simp [Rtl.ssInit]⟩
    | succ t ih =>
        refine Or.inl ?_
        rw [stateAt_succ, stateAt_succ]
        have := ss_match dep _ _ sh ih (x t) (y t)
        have h1 := congrArg (fun r => r.1.shape) this
        have h2 := congrArg (fun r => r.1.cnt) this
        exact ⟨h1, h2⟩
  have := ss_match dep _ _ sh (inv t) (x t) (y t)
  exact ⟨congrArg (fun r => r.2.1) this, congrArg (fun r => r.2.2) this⟩

example : ssOut 2 [1] (Spec.nums fun _ => true) (Spec.nums fun t => decide (t % 3 = 2)) 5 = 1 ∧
    (outAt (Rtl.ssStep 2) (Rtl.ssInit 2) (fun t => (true, decide (t % 3 = 2))) 4).1 = true ∧
    (outAt (Rtl.ssStep 2) (Rtl.ssInit 2) (fun t => (true, decide (t % 3 = 2))) 3).1 = false := by
  refine ⟨?_, by decide +kernel, by decide +kernel⟩
  rw [(C63_skewed_sync 2 [1] _ _ 5).1]; decide +kernel

private theorem accepted_eq' (x : ℕ → ℤ) (t : ℕ) :
    Spec.accepted x t = x t * (1 - Spec.prev (Spec.accepted x) t) := by
  cases t with
  | zero => simp [Spec.accepted, Spec.prev]
  | succ t => rfl

/-- C63: the in-stream square root (unipolar, `jk_trace`) and `BISQRT_S_JK_U` put out the same bits in every cycle. -/
theorem C63_sqrt {mode : String} {kn sr : ℕ} {cfg : Sqrt.Cfg} (h : Sqrt.mk mode true false kn sr = .ok cfg)
    (hm : cfg.mode = .unipolar) (rng : List ℤ) (x : ℕ → Bool) (t : ℕ) :
    sqrtOut cfg rng (Spec.nums x) t = .ok (Spec.num (outAt Rtl.sqrtJkStep false x t)) := by
  have one : ∀ q i : Bool, Spec.num (Rtl.sqrtJkStep q i).1 = Spec.num i * (1 - Spec.num q) ∧
      Spec.num (Rtl.sqrtJkStep q i).2 = Spec.num i * (1 - Spec.num q) + Spec.num q := by decide
  have inv : ∀ t, Spec.num (stateAt Rtl.sqrtJkStep false x t) = Spec.prev (Spec.accepted (Spec.nums x)) t := by
    intro t
    induction t with
    | zero => rfl
    | succ t ih =>
        rw [stateAt_succ, (one _ _).1, ih]
        exact (accepted_eq' (Spec.nums x) t).symm
  rw [C36_pairs h hm rng (nums_bits x)]
  congr 1
  unfold outAt
  rw [(one _ _).2, inv, accepted_eq']
  rfl

/-! ## C64: the same bits one cycle later -/

/-- C64: the `q` pin of the hardware flip-flop in cycle `t` is the state of `JKFF` before the call, so it shows in cycle
`t + 1` what the Python call returned in cycle `t`. -/
theorem C64_jkff (j k : ℕ → Bool) (t : ℕ) :
    Spec.num (outAt Rtl.jkStep false (fun t => (j t, k t)) t)
      = Spec.prev (outAt Small.jkStep 0 fun t => ((Spec.num (j t) : ℚ), (Spec.num (k t) : ℚ))) t := by
  have one : ∀ q a b : Bool, Spec.num (Rtl.jkStep q (a, b)).1 = (Small.jkStep (Spec.num q) ((Spec.num a : ℚ), (Spec.num b : ℚ))).1 := by
    decide +kernel
  have inv : ∀ t, Spec.num (stateAt Rtl.jkStep false (fun t => (j t, k t)) t)
      = stateAt Small.jkStep 0 (fun t => ((Spec.num (j t) : ℚ), (Spec.num (k t) : ℚ))) t := by
    intro t
    induction t with
    | zero => rfl
    | succ t ih => rw [stateAt_succ, stateAt_succ, one, ih]
  have e : outAt Rtl.jkStep false (fun t => (j t, k t)) t = stateAt Rtl.jkStep false (fun t => (j t, k t)) t := rfl
  rw [e, inv]
  cases t with
  | zero => rfl
  | succ t => rfl

example : outAt Rtl.jkStep false (fun t => (decide (t % 2 = 0), true)) 1 = true ∧
    outAt Small.jkStep 0 (fun t => ((Spec.num (decide (t % 2 = 0)) : ℚ), (Spec.num true : ℚ))) 0 = 1 := by
  refine ⟨by decide, ?_⟩
  have := C64_jkff (fun t => decide (t % 2 = 0)) (fun _ => true) 1
  exact this.symm.trans (by decide)

/-- C64: `Uni2Bi` in hardware is the Python module (depth at least four) one cycle later. -/
theorem C64_uni2bi (depth : ℤ) (hd : 4 ≤ depth) (x : ℕ → Bool) (t : ℕ) :
    Spec.num (outAt Rtl.uni2biStep 0 x t) = Spec.prev (u2bOut depth (Spec.nums x)) t := by
  have one : ∀ (a : BitVec 2) (i : Bool), ((Rtl.uni2biStep a i).1.toNat : ℤ) = (a.toNat : ℤ) % 2 + 1 + Spec.num i ∧
      Spec.num (Rtl.uni2biStep a i).2 = (a.toNat : ℤ) / 2 := by decide
  have inv : ∀ n, ((stateAt Rtl.uni2biStep 0 x n).toNat : ℤ) % 2 = (n + Verif.Spec.ones (Spec.nums x) n) % 2 := by
    intro n
    induction n with
    | zero => simp [Verif.Spec.ones, stateAt]
    | succ n ih =>
        rw [stateAt_succ, (one _ _).1, Verif.Spec.ones_succ]
        have : Spec.nums x n = Spec.num (x n) := rfl
        push_cast
        generalize ((stateAt Rtl.uni2biStep 0 x n).toNat : ℤ) = a at *
        omega
  unfold outAt
  rw [(one _ _).2]
  cases t with
  | zero => simp [stateAt, Spec.prev]
  | succ n =>
      have h1 := C13_exact depth hd _ (nums_bits x) n
      have h2 := C13_exact depth hd _ (nums_bits x) (n + 1)
      rw [Verif.Spec.ones_succ, Verif.Spec.ones_succ] at h2
      have h3 := inv n
      rw [stateAt_succ, (one _ _).1]
      have : Spec.nums x n = Spec.num (x n) := rfl
      have h4 := num_isBit (x n)
      show _ = u2bOut depth (Spec.nums x) n
      push_cast at h2
      generalize ((stateAt Rtl.uni2biStep 0 x n).toNat : ℤ) = a at *
      rcases h4 with h4 | h4 <;> omega

example : u2bOut 4 (Spec.nums fun t => decide (t % 2 = 0)) 3 = Spec.num (outAt Rtl.uni2biStep 0 (fun t => decide (t % 2 = 0)) 4) :=
  (C64_uni2bi 4 (by norm_num) (fun t => decide (t % 2 = 0)) 4).symm

/-! ### `Bi2Uni` -/

private theorem ofInt_sub' {n : ℕ} (a b : ℤ) : BitVec.ofInt n (a - b) = BitVec.ofInt n a - BitVec.ofInt n b := by
  rw [sub_eq_add_neg, BitVec.ofInt_add, BitVec.ofInt_neg, BitVec.sub_eq_add_neg]

private theorem toNat_ofInt' {n : ℕ} {a : ℤ} (h0 : 0 ≤ a) (h1 : a < 2 ^ n) : ((BitVec.ofInt n a).toNat : ℤ) = a := by
  rw [BitVec.toNat_ofInt, Int.toNat_of_nonneg (Int.emod_nonneg _ (by positivity))]
  exact Int.emod_eq_of_lt h0 (by exact_mod_cast h1)

private theorem half_toNat {d : ℕ} (hd : 1 ≤ d) : (Rtl.half d).toNat = 2 ^ (d - 1) := by
  unfold Rtl.half
  rw [BitVec.toNat_twoPow]
  exact Nat.mod_eq_of_lt (Nat.pow_lt_pow_right (by norm_num) (by omega))

private theorem two_half {d : ℕ} (hd : 1 ≤ d) : (2 : ℤ) ^ d = 2 * 2 ^ (d - 1) := by
  obtain ⟨e, rfl⟩ : ∃ e, d = e + 1 := ⟨d - 1, by omega⟩
  rw [Nat.add_sub_cancel, pow_succ]; ring

private theorem half_ofInt {d : ℕ} (hd : 1 ≤ d) : Rtl.half d = BitVec.ofInt d (2 ^ (d - 1) + 0) := by
  have hc : ((2 ^ (d - 1) : ℕ) : ℤ) = 2 ^ (d - 1) := by push_cast; rfl
  have h2 := two_half hd
  have hp : (1:ℤ) ≤ 2 ^ (d - 1) := one_le_pow₀ (by norm_num)
  rw [← BitVec.toNat_inj, half_toNat hd]
  have := toNat_ofInt' (n := d) (a := 2 ^ (d - 1) + 0) (by omega) (by rw [h2]; omega)
  omega

/-- One cycle of the hardware converter on the signed distance of the register from its reset value. -/
private theorem rtl_b2u {d : ℕ} (hd : 2 ≤ d) {a : ℤ} (h0 : -2 ^ (d - 1) ≤ a) (h1 : a < 2 ^ (d - 1)) (i : Bool) :
    Rtl.bi2uniStep d (BitVec.ofInt d (2 ^ (d - 1) + a)) i
      = (BitVec.ofInt d (2 ^ (d - 1) + (a + (2 * Spec.num i - 1) - ind (0 < a))), decide (0 < a)) := by
  have h2 := two_half (d := d) (by omega)
  have hn : ((BitVec.ofInt d (2 ^ (d - 1) + a)).toNat : ℤ) = 2 ^ (d - 1) + a :=
    toNat_ofInt' (by omega) (by omega)
  have hh := half_toNat (d := d) (by omega)
  have hc : ((2 ^ (d - 1) : ℕ) : ℤ) = 2 ^ (d - 1) := by push_cast; rfl
  have hout : ((BitVec.ofInt d (2 ^ (d - 1) + a)).msb && decide (BitVec.ofInt d (2 ^ (d - 1) + a) ≠ Rtl.half d)) = decide (0 < a) := by
    rw [BitVec.msb_eq_decide]
    have e : (BitVec.ofInt d (2 ^ (d - 1) + a) ≠ Rtl.half d) ↔ a ≠ 0 := by
      rw [ne_eq, ← BitVec.toNat_inj, hh]
      omega
    rw [← Bool.decide_and, decide_eq_decide, e]
    omega
  unfold Rtl.bi2uniStep
  simp only
  rw [hout]
  refine Prod.ext ?_ rfl
  have e : (2 : ℤ) ^ (d - 1) + (a + (2 * Spec.num i - 1) - ind (0 < a))
      = 2 ^ (d - 1) + a + 2 * Spec.num i - 1 - ind (0 < a) := by ring
  have e1 : BitVec.ofInt d (2 * Spec.num i) = if i then 2 else 0 := by cases i <;> simp [Spec.num]
  have e2 : BitVec.ofInt d (ind (0 < a)) = Rtl.bv d (decide (0 < a)) := by
    unfold ind Rtl.bv
    by_cases h : 0 < a <;> simp [h]
  have e3 : BitVec.ofInt d 1 = 1 := rfl
  show _ = BitVec.ofInt d _
  rw [e]
  generalize (2 : ℤ) ^ (d - 1) + a = A
  rw [ofInt_sub', ofInt_sub', BitVec.ofInt_add, e1, e2, e3]

/-- C64: as long as the input walk never falls more than `2^(depth-2)` below its running maximum, `Bi2Uni` in hardware
(register of `DEP ≥ depth - 1` bits) is the Python module one cycle later. -/
theorem C64_bi2uni (k d : ℕ) (hd : 2 ≤ d) (hk : k + 1 ≤ d) (x : ℕ → Bool) (n : ℕ)
    (hno : ∀ m ≤ n, Verif.Spec.runMax (Spec.nums x) m - 2 ^ k ≤ Verif.Spec.walk (Spec.nums x) m) (t : ℕ) (ht : t ≤ n) :
    Spec.num (outAt (Rtl.bi2uniStep d) (Rtl.half d) x t) = Spec.prev (b2uOut (k + 2) (Spec.nums x)) t := by
  have hkp : (2 : ℤ) ^ k ≤ 2 ^ (d - 1) := pow_le_pow_right₀ (by norm_num) (by omega)
  have hd2 : (2 : ℤ) ≤ 2 ^ (d - 1) := by
    calc (2 : ℤ) = 2 ^ 1 := rfl
      _ ≤ 2 ^ (d - 1) := pow_le_pow_right₀ (by norm_num) (by omega)
  set X := Spec.nums x with hX
  -- distance of the register from its reset value
  let a : ℕ → ℤ := fun m => match m with
    | 0 => 0
    | m + 1 => Verif.Spec.walk X (m + 1) - Verif.Spec.runMax X m
  have step1 : ∀ m, X m = 0 ∨ X m = 1 := fun m => nums_bits x m
  have hout : ∀ m ≤ n, ind (0 < a m) = Spec.prev (b2uOut (k + 2) X) m := by
    intro m hm
    cases m with
    | zero => simp [a, ind, Spec.prev]
    | succ m =>
        have h1 := C12_exact k X (nums_bits x) m (fun j hj => hno j (by omega))
        have h2 := C12_exact k X (nums_bits x) (m + 1) (fun j hj => hno j (by omega))
        rw [Verif.Spec.ones_succ, h1] at h2
        show ind (0 < Verif.Spec.walk X (m + 1) - Verif.Spec.runMax X m) = b2uOut (k + 2) X m
        have h3 : Verif.Spec.runMax X (m + 1) = max (Verif.Spec.runMax X m) (Verif.Spec.walk X (m + 1)) := rfl
        have h4 := Verif.Spec.walk_le_runMax X (le_refl m)
        have h5 := Verif.Spec.walk_succ X m
        have h6 := step1 m
        unfold ind
        split_ifs <;> omega
  have hrange : ∀ m ≤ n, -2 ^ (d - 1) ≤ a m ∧ a m ≤ 1 := by
    intro m hm
    cases m with
    | zero => constructor <;> simp [a]
    | succ m =>
        have h1 := hno (m + 1) hm
        have h3 : Verif.Spec.runMax X (m + 1) = max (Verif.Spec.runMax X m) (Verif.Spec.walk X (m + 1)) := rfl
        have h4 := Verif.Spec.walk_le_runMax X (le_refl m)
        have h5 := Verif.Spec.walk_succ X m
        have h6 := step1 m
        show -2 ^ (d - 1) ≤ Verif.Spec.walk X (m + 1) - Verif.Spec.runMax X m ∧
          Verif.Spec.walk X (m + 1) - Verif.Spec.runMax X m ≤ 1
        omega
  have hnext : ∀ m, a (m + 1) = a m + (2 * X m - 1) - ind (0 < a m) := by
    intro m
    cases m with
    | zero =>
        show Verif.Spec.walk X 1 - Verif.Spec.runMax X 0 = 0 + (2 * X 0 - 1) - ind ((0:ℤ) < 0)
        simp [ind, Verif.Spec.walk, Verif.Spec.runMax]
    | succ m =>
        show Verif.Spec.walk X (m + 1 + 1) - Verif.Spec.runMax X (m + 1)
          = (Verif.Spec.walk X (m + 1) - Verif.Spec.runMax X m) + (2 * X (m + 1) - 1)
            - ind (0 < Verif.Spec.walk X (m + 1) - Verif.Spec.runMax X m)
        have h3 : Verif.Spec.runMax X (m + 1) = max (Verif.Spec.runMax X m) (Verif.Spec.walk X (m + 1)) := rfl
        have h4 := Verif.Spec.walk_le_runMax X (le_refl m)
        have h5 := Verif.Spec.walk_succ X m
        have h5' := Verif.Spec.walk_succ X (m + 1)
        have h6 := step1 m
        unfold ind
        split_ifs <;> omega
  have inv : ∀ m ≤ n, stateAt (Rtl.bi2uniStep d) (Rtl.half d) x m = BitVec.ofInt d (2 ^ (d - 1) + a m) := by
    intro m hm
    induction m with
    | zero => exact half_ofInt (by omega)
    | succ m ih =>
        obtain ⟨r1, r2⟩ := hrange m (by omega)
        rw [stateAt_succ, ih (by omega), rtl_b2u hd r1 (by omega), hnext]
        rfl
  obtain ⟨r1, r2⟩ := hrange t ht
  rw [← hout t ht]
  unfold outAt
  rw [inv t ht, rtl_b2u hd r1 (by omega)]
  unfold Spec.num ind
  by_cases h : 0 < a t <;> simp [h]

example : Spec.num (outAt (Rtl.bi2uniStep 3) (Rtl.half 3) (fun t => decide (t ≠ 1)) 4)
    = b2uOut (2 + 2) (Spec.nums fun t => decide (t ≠ 1)) 3 ∧
    outAt (Rtl.bi2uniStep 3) (Rtl.half 3) (fun t => decide (t ≠ 1)) 4 = true ∧
    outAt (Rtl.bi2uniStep 3) (Rtl.half 3) (fun t => decide (t ≠ 1)) 3 = false := by
  refine ⟨C64_bi2uni 2 3 (by norm_num) (by norm_num) _ 4 (fun m hm => ?_) 4 le_rfl, by decide +kernel, by decide +kernel⟩
  interval_cases m <;> decide +kernel

/-- C64: the hardware register does not saturate.  On a constant-zero input (bipolar value `-1`) it wraps, and the
hardware emits a one after `2^(DEP-1) + 1` cycles; the Python module never does. -/
theorem C64_bi2uni_wraps (k d : ℕ) (hd : 2 ≤ d) :
    outAt (Rtl.bi2uniStep d) (Rtl.half d) (fun _ => false) (2 ^ (d - 1) + 1) = true ∧
    (∀ t ≤ 2 ^ (d - 1), outAt (Rtl.bi2uniStep d) (Rtl.half d) (fun _ => false) t = false) ∧
    ∀ t, b2uOut (k + 2) (Spec.nums fun _ => false) t = 0 := by
  have hd2 : (2 : ℤ) ≤ 2 ^ (d - 1) := by
    calc (2 : ℤ) = 2 ^ 1 := rfl
      _ ≤ 2 ^ (d - 1) := pow_le_pow_right₀ (by norm_num) (by omega)
  have hc : ((2 ^ (d - 1) : ℕ) : ℤ) = 2 ^ (d - 1) := by push_cast; rfl
  have inv : ∀ t ≤ 2 ^ (d - 1) + 1, stateAt (Rtl.bi2uniStep d) (Rtl.half d) (fun _ => false) t
      = BitVec.ofInt d (2 ^ (d - 1) + -(t : ℤ)) := by
    intro t ht
    induction t with
    | zero =>
        exact half_ofInt (by omega)
    | succ t ih =>
        rw [stateAt_succ, ih (by omega), rtl_b2u hd (by omega) (by omega)]
        show BitVec.ofInt d _ = _
        congr 1
        unfold ind
        rw [if_neg (by omega)]
        simp [Spec.num]
        ring
  refine ⟨?_, fun t ht => ?_, fun t => ?_⟩
  · unfold outAt
    rw [inv _ (le_refl _)]
    have e : BitVec.ofInt d (2 ^ (d - 1) + -((2 ^ (d - 1) + 1 : ℕ) : ℤ)) = BitVec.ofInt d (2 ^ (d - 1) + (2 ^ (d - 1) - 1)) := by
      rw [← BitVec.toInt_inj, BitVec.toInt_ofInt, BitVec.toInt_ofInt]
      have h2 := two_half (d := d) (by omega)
      have e : (2 : ℤ) ^ (d - 1) + (2 ^ (d - 1) - 1) = (2 ^ (d - 1) + -((2 ^ (d - 1) + 1 : ℕ) : ℤ)) + (2 ^ d : ℕ) := by
        push_cast; omega
      rw [e, Int.add_bmod_right]
    rw [e, rtl_b2u hd (by omega) (by omega)]
    simp only [decide_eq_true_eq]; omega
  · unfold outAt
    rw [inv t (by omega), rtl_b2u hd (by omega) (by omega)]
    simp
  · have hb := (C12_bits (k + 2) (Spec.nums fun _ => false) t).1
    obtain ⟨h1, -⟩ := C12_regulated k _ (nums_bits fun _ => false) t
    obtain ⟨h2, -⟩ := C12_regulated k _ (nums_bits fun _ => false) (t + 1)
    have hz : ∀ n, (Verif.Spec.regulated (2 ^ k) (fun t => 2 * Spec.nums (fun _ => false) t - 1) n).2 = 0 ∧
        (Verif.Spec.regulated (2 ^ k) (fun t => 2 * Spec.nums (fun _ => false) t - 1) n).1 ≤ 0 := by
      intro n
      induction n with
      | zero => exact ⟨rfl, le_refl _⟩
      | succ n ih =>
          obtain ⟨i1, i2⟩ := ih
          have hp : (0:ℤ) < 2 ^ k := by positivity
          simp only [Verif.Spec.regulated, Spec.nums, Spec.num] at i1 i2 ⊢
          simp at i1 i2 ⊢
          omega
    rw [Verif.Spec.ones_succ, h1, (hz t).1, (hz (t + 1)).1] at h2
    omega

/-! ## C65: sign and absolute value -/

private theorem rtl_sat {d : ℕ} (c : BitVec d) (v : Bool) :
    ((Rtl.satCount d c v).toNat : ℤ) = max 0 (min ((c.toNat : ℤ) + (2 * Spec.num v - 1)) (2 ^ d - 1)) := by
  have hc := c.isLt
  have hP : ((2 ^ d : ℕ) : ℤ) = 2 ^ d := by push_cast; rfl
  have hf := bv_full c
  have hz := bv_zero c
  have hi := bv_inc c
  have hd := bv_dec c
  unfold Rtl.satCount
  generalize c + 1 = c1 at *
  generalize c - 1 = c2 at *
  rw [← hP]
  generalize 2 ^ d = P at *
  by_cases h1 : c.toNat = P - 1 <;> by_cases h2 : c.toNat = 0 <;>
    simp only [h1, h2, iff_true, iff_false] at hf hz <;>
    simp only [hf, hz, decide_true, decide_false] <;> cases v <;> simp_all [Spec.num] <;> omega

private theorem rtl_cnt (d : ℕ) (hd : 1 ≤ d) (x : ℕ → Bool) (n : ℕ) :
    ((stateAt (Rtl.absStep d) (Rtl.half d) x n).toNat : ℤ)
      = 2 ^ (d - 1) + Spec.clippedWalk (-2 ^ (d - 1)) (2 ^ (d - 1) - 1) (Spec.nums x) n := by
  have hc : ((2 ^ (d - 1) : ℕ) : ℤ) = 2 ^ (d - 1) := by push_cast; rfl
  have h2 := two_half hd
  induction n with
  | zero =>
      show ((Rtl.half d).toNat : ℤ) = 2 ^ (d - 1) + 0
      rw [half_toNat hd]; omega
  | succ n ih =>
      rw [stateAt_succ]
      show ((Rtl.satCount d _ (x n)).toNat : ℤ) = _
      rw [rtl_sat, ih]
      show _ = 2 ^ (d - 1) + max (-2 ^ (d - 1)) (min (Spec.clippedWalk _ _ (Spec.nums x) n + (2 * Spec.num (x n) - 1)) (2 ^ (d - 1) - 1))
      omega

/-- C65: the hardware sign (of `Sign` and of `Abs`) is the Python sign one cycle later. -/
theorem C65_sign (d : ℕ) (hd : 1 ≤ d) (x : ℕ → Bool) (t : ℕ) :
    Spec.num (outAt (Rtl.absStep d) (Rtl.half d) x t).1 = Spec.prev (signOut d (Spec.nums x)) t := by
  have h := rtl_cnt d hd x t
  have h2 := two_half hd
  have hc : ((2 ^ (d - 1) : ℕ) : ℤ) = 2 ^ (d - 1) := by push_cast; rfl
  have e : (outAt (Rtl.absStep d) (Rtl.half d) x t).1
      = decide (Spec.clippedWalk (-2 ^ (d - 1)) (2 ^ (d - 1) - 1) (Spec.nums x) t < 0) := by
    show (!(stateAt (Rtl.absStep d) (Rtl.half d) x t).msb) = _
    rw [BitVec.msb_eq_decide, ← decide_not, decide_eq_decide]
    omega
  rw [e]
  cases t with
  | zero => simp [Spec.clippedWalk, Spec.num, Spec.prev]
  | succ t =>
      show _ = signOut d (Spec.nums x) t
      have hs := C30_sign d hd (Spec.nums x) t
      rcases (C30_xor d _ (nums_bits x) t).1 with h0 | h0
      · rw [h0, show decide _ = false by rw [decide_eq_false_iff_not, ← hs]; omega]; rfl
      · rw [h0, show decide _ = true by rw [decide_eq_true_eq, ← hs]; omega]; rfl

/-- C65: the two absolute values differ exactly in the cycles in which the Python sign changes; there the Python module
emits a one and the hardware a zero. -/
theorem C65_abs (d : ℕ) (hd : 1 ≤ d) (x : ℕ → Bool) (t : ℕ) :
    absOut d (Spec.nums x) t = Spec.num (outAt (Rtl.absStep d) (Rtl.half d) x t).2
      + ind (signOut d (Spec.nums x) t ≠ Spec.prev (signOut d (Spec.nums x)) t) ∧
    (signOut d (Spec.nums x) t ≠ Spec.prev (signOut d (Spec.nums x)) t → absOut d (Spec.nums x) t = 1) := by
  have hs := C65_sign d hd x t
  have e : (outAt (Rtl.absStep d) (Rtl.half d) x t).2 = (x t ^^ (outAt (Rtl.absStep d) (Rtl.half d) x t).1) := rfl
  obtain ⟨b1, b2, b3⟩ := C30_xor d _ (nums_bits x) t
  have hs1 := C30_sign d hd (Spec.nums x) t
  have hprev : Spec.prev (signOut d (Spec.nums x)) t = 1 ↔
      Spec.clippedWalk (-2 ^ (d - 1)) (2 ^ (d - 1) - 1) (Spec.nums x) t < 0 := by
    cases t with
    | zero => simp [Spec.prev, Spec.clippedWalk]
    | succ t => exact C30_sign d hd (Spec.nums x) t
  have hstep : Spec.clippedWalk (-2 ^ (d - 1)) (2 ^ (d - 1) - 1) (Spec.nums x) (t + 1)
      = max (-2 ^ (d - 1)) (min (Spec.clippedWalk (-2 ^ (d - 1)) (2 ^ (d - 1) - 1) (Spec.nums x) t + (2 * Spec.num (x t) - 1)) (2 ^ (d - 1) - 1)) := rfl
  rw [e]
  rw [← hs] at hprev ⊢
  have hp : (1:ℤ) ≤ 2 ^ (d - 1) := one_le_pow₀ (by norm_num)
  rw [b3, show Spec.nums x t = Spec.num (x t) from rfl]
  generalize (outAt (Rtl.absStep d) (Rtl.half d) x t).1 = r at *
  generalize signOut d (Spec.nums x) t = sg at *
  unfold ind
  rcases b1 with h | h <;> cases r <;> cases hx : x t <;> rw [hx] at hstep <;> simp [h, Spec.num] at hs1 hprev hstep ⊢ <;> omega

example : absOut 3 (Spec.nums fun t => decide (t = 1)) 0 = 1 ∧
    (outAt (Rtl.absStep 3) (Rtl.half 3) (fun t => decide (t = 1)) 0).2 = false := by
  have h := C65_abs 3 (by norm_num) (fun t => decide (t = 1)) 0
  have e : (outAt (Rtl.absStep 3) (Rtl.half 3) (fun t => decide (t = 1)) 0).2 = false := by decide +kernel
  refine ⟨h.2 ?_, e⟩
  rw [(C30_sign 3 (by norm_num) _ 0).2 (by decide +kernel)]
  simp [Spec.prev]

/-- C65: over any number of cycles the Python absolute value has as many more ones as the sign changed. -/
theorem C65_abs_count (d : ℕ) (hd : 1 ≤ d) (x : ℕ → Bool) (n : ℕ) :
    Verif.Spec.ones (absOut d (Spec.nums x)) n
      = Verif.Spec.ones (Spec.nums fun t => (outAt (Rtl.absStep d) (Rtl.half d) x t).2) n
        + ∑ t ∈ range n, ind (signOut d (Spec.nums x) t ≠ Spec.prev (signOut d (Spec.nums x)) t) := by
  unfold Verif.Spec.ones
  rw [← sum_add_distrib]
  exact sum_congr rfl fun t _ => (C65_abs d hd x t).1

end Verif.Props
