import Verif.Props.RtlOld
import Verif.Props.RtlOldAdd

/-!
# Property C79: what the multiply-accumulate units of `hw/kernel/old/MAC16` compute
-/

namespace Verif.Props

open Verif Finset Gen Adder Shuffle

/-! ## Generators of different widths -/

theorem hwSobol_succ {w : ℕ} (hw : 1 ≤ w) (k : ℕ) :
    Spec.hwSobol w (k + 1) = Spec.hwSobol w k ^^^ 2 ^ (w - 1 - (if k % 2 ^ w + 1 < 2 ^ w then rightmostZero (k % 2 ^ w) else 0)) := by
  show (sobolIter w (k + 1)).out.toNat = (sobolIter w k).out.toNat ^^^ _
  rw [sobolIter_succ]
  show ((sobolIter w k).out ^^^ BitVec.twoPow w (w - 1 - Rtl.lszIdx (sobolIter w k).cnt)).toNat = _
  rw [BitVec.toNat_xor, lsz_eq, sobolIter_cnt, BitVec.toNat_twoPow, Nat.mod_eq_of_lt (Nat.pow_lt_pow_right (by norm_num) (by omega))]

theorem hwSobol_lt (w k : ℕ) : Spec.hwSobol w k < 2 ^ w := BitVec.isLt _

private theorem rz_unique {x j : ℕ} (h1 : ∀ i < j, x.testBit i = true) (h2 : x.testBit j = false) : rightmostZero x = j := by
  obtain ⟨g1, g2⟩ := rz_bits x
  rcases Nat.lt_trichotomy (rightmostZero x) j with h | h | h
  · rw [h1 _ h] at g2; exact absurd g2 (by decide)
  · exact h
  · rw [g1 _ h] at h2; exact absurd h2 (by decide)

theorem ones_iff (v x : ℕ) : x % 2 ^ v + 1 = 2 ^ v ↔ ∀ i < v, x.testBit i = true := by
  constructor
  · intro h i hi
    have e : x % 2 ^ v = 2 ^ v - 1 := by omega
    have := Nat.testBit_mod_two_pow x v i
    rw [e, Nat.testBit_two_pow_sub_one] at this
    simp only [hi, decide_true, Bool.true_and] at this
    exact this.symm
  · intro h
    have hp : 0 < 2 ^ v := by positivity
    have : x % 2 ^ v = 2 ^ v - 1 := by
      apply Nat.eq_of_testBit_eq
      intro i
      rw [Nat.testBit_mod_two_pow, Nat.testBit_two_pow_sub_one]
      by_cases hi : i < v
      · simp [hi, h i hi]
      · simp [hi]
    omega

private theorem rz_mod {v x : ℕ} (h : x % 2 ^ v + 1 < 2 ^ v) : rightmostZero (x % 2 ^ v) = rightmostZero x ∧ rightmostZero x < v := by
  have hlt : rightmostZero x < v := by
    by_contra hc
    have := (ones_iff v x).2 fun i hi => (rz_bits x).1 i (by omega)
    omega
  refine ⟨rz_unique (fun i hi => ?_) ?_, hlt⟩
  · rw [Nat.testBit_mod_two_pow, (rz_bits x).1 i hi, Bool.and_true, decide_eq_true_eq]; omega
  · rw [Nat.testBit_mod_two_pow, (rz_bits x).2, Bool.and_false]

theorem div_step (v t : ℕ) : (t + 1) / 2 ^ v = t / 2 ^ v + if t % 2 ^ v + 1 < 2 ^ v then 0 else 1 := by
  have hp : 0 < 2 ^ v := by positivity
  have hm := Nat.mod_lt t hp
  have e := Nat.div_add_mod t (2 ^ v)
  split_ifs with h
  · rw [add_zero, Nat.div_eq_iff hp]
    constructor
    · rw [mul_comm]; omega
    · rw [mul_comm]; omega
  · rw [Nat.div_eq_iff hp, Nat.succ_mul, mul_comm (t / 2 ^ v)]
    omega

/-- The high bits of the numbers of a wide generator are the numbers of a narrow one, but for its top bit. -/
theorem sobol_prefix {v w : ℕ} (hv : 1 ≤ v) (hvw : v ≤ w) (t : ℕ) :
    Spec.hwSobol w t >>> (w - v) = Spec.hwSobol v t ^^^ (if (t / 2 ^ v + t / 2 ^ w) % 2 = 1 then 2 ^ (v - 1) else 0) := by
  have hvw2 : 2 ^ v ≤ 2 ^ w := Nat.pow_le_pow_right (by norm_num) hvw
  have hpv : 0 < 2 ^ v := by positivity
  induction t with
  | zero => simp [Spec.hwSobol, stateAt, Rtl.sobolInit]
  | succ t ih =>
      rw [hwSobol_succ (by omega), hwSobol_succ hv, Nat.shiftRight_xor_distrib, ih, div_step, div_step]
      have hmv := Nat.mod_lt t hpv
      have hmw := Nat.mod_lt t (show 0 < 2 ^ w by positivity)
      by_cases h : t % 2 ^ v + 1 < 2 ^ v
      · obtain ⟨r1, r2⟩ := rz_mod h
        have hw' : t % 2 ^ w + 1 < 2 ^ w := by
          by_contra hc
          have := (ones_iff w t).1 (by omega)
          have := this _ (show rightmostZero t < w by omega)
          rw [(rz_bits t).2] at this
          exact absurd this (by decide)
        obtain ⟨r3, -⟩ := rz_mod hw'
        rw [if_pos h, if_pos h, if_pos hw', if_pos hw', r1, r3, add_zero, add_zero]
        have e : 2 ^ (w - 1 - rightmostZero t) >>> (w - v) = 2 ^ (v - 1 - rightmostZero t) := by
          rw [Nat.shiftRight_eq_div_pow, Nat.pow_div (by omega) (by norm_num)]
          congr 1; omega
        rw [e]
        exact Nat.xor_right_comm _ _ _
      · rw [if_neg h, if_neg h]
        have e1 : v - 1 - 0 = v - 1 := rfl
        by_cases hw' : t % 2 ^ w + 1 < 2 ^ w
        · obtain ⟨r3, r4⟩ := rz_mod hw'
          have hge : v ≤ rightmostZero t := by
            by_contra hc
            have := (ones_iff v t).1 (by omega) _ (show rightmostZero t < v by omega)
            rw [(rz_bits t).2] at this
            exact absurd this (by decide)
          rw [if_pos hw', if_pos hw', r3, add_zero]
          have e : 2 ^ (w - 1 - rightmostZero t) >>> (w - v) = 0 := by
            rw [Nat.shiftRight_eq_div_pow]
            exact Nat.div_eq_of_lt (Nat.pow_lt_pow_right (by norm_num) (by omega))
          rw [e, e1, Nat.xor_zero]
          rcases Nat.mod_two_eq_zero_or_one (t / 2 ^ v + t / 2 ^ w) with hp | hp
          · rw [if_neg (by omega), if_pos (by omega), Nat.xor_assoc, Nat.xor_self]
          · rw [if_pos hp, if_neg (by omega), Nat.xor_zero]
        · rw [if_neg hw', if_neg hw']
          have e : 2 ^ (w - 1 - 0) >>> (w - v) = 2 ^ (v - 1) := by
            rw [Nat.shiftRight_eq_div_pow, Nat.pow_div (by omega) (by norm_num)]
            congr 1; omega
          rw [e, e1, show t / 2 ^ v + 1 + (t / 2 ^ w + 1) = t / 2 ^ v + t / 2 ^ w + 2 by ring, Nat.add_mod_right]
          rw [Nat.xor_assoc, Nat.xor_assoc, Nat.xor_comm (2 ^ (v - 1))]

/-! ## Lanes -/

/-- Cycle `0` loads the operands `a` and `b` of all lanes, no later cycle loads anything. -/
def Spec.loadedMac {w : ℕ} (a b : Fin 16 → BitVec w) (i : ℕ → Rtl.Mac2In w) : Prop :=
  (i 0).loadA = true ∧ (i 0).loadB = true ∧ (i 0).iA = a ∧ (i 0).iB = b ∧
    ∀ t, (i (t + 1)).loadA = false ∧ (i (t + 1)).loadB = false

/-- The lane a free running four bit generator selects in cycle `t`. -/
def Spec.selected (t : ℕ) : Fin 16 := ⟨Spec.hwSobol 4 t, hwSobol_lt 4 t⟩

theorem loadedMac_lane {w : ℕ} {a b : Fin 16 → BitVec w} {i : ℕ → Rtl.Mac2In w} (h : Spec.loadedMac a b i) (k : Fin 16) :
    Spec.loaded2 (a k) (b k) (fun t => (i t).lane k) :=
  ⟨h.1, h.2.1, congrFun h.2.2.1 k, congrFun h.2.2.2.1 k, fun t => h.2.2.2.2 t⟩

private theorem scaled_run {σ : Type} {w : ℕ} (mul : σ → Rtl.TwoIn w → σ × Bool) (m0 : σ) (i : ℕ → Rtl.Mac2In w) (t : ℕ) :
    outAt (Rtl.scaledMacStep mul) (fun _ => m0, Rtl.sobolInit 4, false) i (t + 1)
      = outAt mul m0 (fun u => (i u).lane (Spec.selected t)) t := by
  have st : ∀ t, (∀ k, (stateAt (Rtl.scaledMacStep mul) (fun _ => m0, Rtl.sobolInit 4, false) i t).1 k
        = stateAt mul m0 (fun u => (i u).lane k) t) ∧
      (stateAt (Rtl.scaledMacStep mul) (fun _ => m0, Rtl.sobolInit 4, false) i t).2.1 = sobolIter 4 t := by
    intro t
    induction t with
    | zero => exact ⟨fun _ => rfl, rfl⟩
    | succ t ih =>
        refine ⟨fun k => ?_, ?_⟩
        · rw [stateAt_succ, stateAt_succ, ← ih.1 k]; rfl
        · rw [stateAt_succ, sobolIter_succ, ← ih.2]; rfl
  obtain ⟨h1, h2⟩ := st t
  have e : outAt (Rtl.scaledMacStep mul) (fun _ => m0, Rtl.sobolInit 4, false) i (t + 1)
      = (mul ((stateAt (Rtl.scaledMacStep mul) (fun _ => m0, Rtl.sobolInit 4, false) i t).1
          (stateAt (Rtl.scaledMacStep mul) (fun _ => m0, Rtl.sobolInit 4, false) i t).2.1.out.toFin)
          ((i t).lane (stateAt (Rtl.scaledMacStep mul) (fun _ => m0, Rtl.sobolInit 4, false) i t).2.1.out.toFin)).2 := rfl
  rw [e, h1, h2]
  rfl

private theorem or_run {σ : Type} {w : ℕ} (mul : σ → Rtl.TwoIn w → σ × Bool) (m0 : σ) (i : ℕ → Rtl.Mac2In w) (t : ℕ) :
    outAt (Rtl.orMacStep mul) (fun _ => m0, false) i (t + 1) = true ↔ ∃ k, outAt mul m0 (fun u => (i u).lane k) t = true := by
  have st : ∀ t k, (stateAt (Rtl.orMacStep mul) (fun _ => m0, false) i t).1 k = stateAt mul m0 (fun u => (i u).lane k) t := by
    intro t
    induction t with
    | zero => exact fun _ => rfl
    | succ t ih => intro k; rw [stateAt_succ, stateAt_succ, ← ih k]; rfl
  have e : outAt (Rtl.orMacStep mul) (fun _ => m0, false) i (t + 1)
      = decide (∃ k, (mul ((stateAt (Rtl.orMacStep mul) (fun _ => m0, false) i t).1 k) ((i t).lane k)).2 = true) := rfl
  rw [e, decide_eq_true_eq]
  simp only [st]
  rfl

/-! ## Units of Gaines multipliers -/

/-- C79: `gainMAC_uni_scaled` and `gainMAC_bi_scaled` show the product bit of the lane the select generator points at. -/
theorem C79_gaines_scaled_bit {w : ℕ} {a b : Fin 16 → BitVec w} {i : ℕ → Rtl.Mac2In w} (h : Spec.loadedMac a b i) (t : ℕ)
    (ht : 1 ≤ t) :
    (outAt (Rtl.scaledMacStep Rtl.gmulUniStep) (fun _ => Rtl.gmulInit w, Rtl.sobolInit 4, false) i (t + 1) = true ↔
      Spec.hwSobol w t < min (a (Spec.selected t)).toNat (b (Spec.selected t)).toNat) ∧
    (outAt (Rtl.scaledMacStep Rtl.gmulBiStep) (fun _ => Rtl.gmulInit w, Rtl.sobolInit 4, false) i (t + 1) = true ↔
      (Spec.hwSobol w t < (a (Spec.selected t)).toNat ↔ Spec.hwSobol w t < (b (Spec.selected t)).toNat)) := by
  rw [scaled_run, scaled_run]
  exact ⟨C77_gaines_uni_bit (loadedMac_lane h _) t ht, C77_gaines_bi_bit (loadedMac_lane h _) t ht⟩

/-- High part of the number when lane `k` is selected: the lane number modulo eight, or that plus eight. -/
private theorem sobol_high {w : ℕ} (hw : 4 ≤ w) (t : ℕ) :
    ∃ e < 2, (Spec.hwSobol 4 t % 8 + 8 * e) * 2 ^ (w - 4) ≤ Spec.hwSobol w t ∧
      Spec.hwSobol w t < (Spec.hwSobol 4 t % 8 + 8 * e + 1) * 2 ^ (w - 4) ∧
      e = (Spec.hwSobol 4 t / 8 + t / 16 + t / 2 ^ w) % 2 := by
  have h := sobol_prefix (v := 4) (by norm_num) hw t
  rw [Nat.shiftRight_eq_div_pow] at h
  have hk := hwSobol_lt 4 t
  refine ⟨(Spec.hwSobol 4 t / 8 + t / 16 + t / 2 ^ w) % 2, Nat.mod_lt _ (by norm_num), ?_⟩
  have hx : ∀ k < 16, k ^^^ 8 = k % 8 + 8 * ((k / 8 + 1) % 2) := by decide
  have hdiv : Spec.hwSobol w t / 2 ^ (w - 4) = Spec.hwSobol 4 t % 8 + 8 * ((Spec.hwSobol 4 t / 8 + t / 16 + t / 2 ^ w) % 2) := by
    rw [h, show (2 ^ 4 : ℕ) = 16 by norm_num, show (2 ^ (4 - 1) : ℕ) = 8 by norm_num]
    rw [show (2 ^ 4 : ℕ) = 16 by norm_num] at hk
    generalize Spec.hwSobol 4 t = k at *
    rcases Nat.mod_two_eq_zero_or_one (t / 16 + t / 2 ^ w) with hp | hp
    · rw [if_neg (by omega), Nat.xor_zero]; omega
    · rw [if_pos hp, hx k hk]; omega
  have hpos : 0 < 2 ^ (w - 4) := by positivity
  have e := Nat.div_add_mod (Spec.hwSobol w t) (2 ^ (w - 4))
  have hm := Nat.mod_lt (Spec.hwSobol w t) hpos
  rw [hdiv] at e
  generalize Spec.hwSobol 4 t % 8 + 8 * ((Spec.hwSobol 4 t / 8 + t / 16 + t / 2 ^ w) % 2) = c at *
  refine ⟨?_, ?_, rfl⟩
  · rw [mul_comm]; omega
  · rw [Nat.succ_mul, mul_comm]; omega

private theorem parity_sum (G : ℕ → ℤ) (c M : ℕ) : ∑ q ∈ range (2 * M), G ((c + q) % 2) = M * (G 0 + G 1) := by
  induction M with
  | zero => simp
  | succ M ih =>
      rw [show 2 * (M + 1) = 2 * M + 1 + 1 by ring, sum_range_succ, sum_range_succ, ih]
      rcases Nat.mod_two_eq_zero_or_one c with h | h
      · rw [show (c + 2 * M) % 2 = 0 by omega, show (c + (2 * M + 1)) % 2 = 1 by omega]; push_cast; ring
      · rw [show (c + 2 * M) % 2 = 1 by omega, show (c + (2 * M + 1)) % 2 = 0 by omega]; push_cast; ring

theorem sum_blocks (g : ℕ → ℤ) (A B : ℕ) : ∑ r ∈ range (A * B), g r = ∑ q ∈ range A, ∑ r ∈ range B, g (q * B + r) := by
  induction A with
  | zero => simp
  | succ A ih => rw [Nat.succ_mul, sum_range_add, ih, sum_range_succ]

/-- Sum over a period of `2^w` cycles of a function of time and selected lane: lane by lane and block by block. -/
private theorem select_sum {w : ℕ} (hw : 5 ≤ w) (p : ℕ) (lo hi f : ℕ → ℕ → ℤ)
    (hF : ∀ t k, k < 16 → Spec.hwSobol 4 t = k → ∀ e < 2, e = (k / 8 + t / 16 + t / 2 ^ w) % 2 → lo k e ≤ f t k ∧ f t k ≤ hi k e) :
    2 ^ (w - 5) * ∑ k ∈ range 16, (lo k 0 + lo k 1) ≤ ∑ r ∈ range (2 ^ w), f (p * 2 ^ w + r) (Spec.hwSobol 4 (p * 2 ^ w + r)) ∧
    ∑ r ∈ range (2 ^ w), f (p * 2 ^ w + r) (Spec.hwSobol 4 (p * 2 ^ w + r)) ≤ 2 ^ (w - 5) * ∑ k ∈ range 16, (hi k 0 + hi k 1) := by
  obtain ⟨v, rfl⟩ : ∃ v, w = v + 5 := ⟨w - 5, by omega⟩
  simp only [Nat.add_sub_cancel] at *
  have h16 : 2 ^ (v + 5) = 2 * 2 ^ v * 16 := by rw [pow_add]; ring
  have hsplit : ∑ r ∈ range (2 ^ (v + 5)), f (p * 2 ^ (v + 5) + r) (Spec.hwSobol 4 (p * 2 ^ (v + 5) + r))
      = ∑ q ∈ range (2 * 2 ^ v), ∑ r ∈ range 16, f ((p * (2 * 2 ^ v) + q) * 2 ^ 4 + r)
          (Spec.hwSobol 4 ((p * (2 * 2 ^ v) + q) * 2 ^ 4 + r)) := by
    rw [h16, sum_blocks]
    refine sum_congr rfl fun q _ => sum_congr rfl fun r _ => ?_
    have : p * (2 * 2 ^ v * 16) + (q * 16 + r) = (p * (2 * 2 ^ v) + q) * 2 ^ 4 + r := by ring
    rw [this]
  have hperm : ∀ B, ∃ τ : ℕ → ℕ, (∀ k < 16, τ k < 16 ∧ Spec.hwSobol 4 (B * 2 ^ 4 + τ k) = k) ∧
      ∑ r ∈ range 16, f (B * 2 ^ 4 + r) (Spec.hwSobol 4 (B * 2 ^ 4 + r)) = ∑ k ∈ range 16, f (B * 2 ^ 4 + τ k) k := by
    intro B
    obtain ⟨τ, h1, h2⟩ := perm_sum (w := 4) (by norm_num) B
    exact ⟨τ, h1, h2 fun r k => f (B * 2 ^ 4 + r) k⟩
  choose τ h1 h2 using hperm
  rw [hsplit]
  have hb : ∀ q < 2 * 2 ^ v, ∀ k < 16,
      lo k ((k / 8 + p + q) % 2) ≤ f ((p * (2 * 2 ^ v) + q) * 2 ^ 4 + τ (p * (2 * 2 ^ v) + q) k) k ∧
      f ((p * (2 * 2 ^ v) + q) * 2 ^ 4 + τ (p * (2 * 2 ^ v) + q) k) k ≤ hi k ((k / 8 + p + q) % 2) := by
    intro q hq k hk
    obtain ⟨g1, g2⟩ := h1 (p * (2 * 2 ^ v) + q) k hk
    refine hF _ k hk g2 _ (Nat.mod_lt _ (by norm_num)) ?_
    generalize τ (p * (2 * 2 ^ v) + q) k = r at *
    have e1 : ((p * (2 * 2 ^ v) + q) * 2 ^ 4 + r) / 16 = p * (2 * 2 ^ v) + q := by omega
    have e2 : ((p * (2 * 2 ^ v) + q) * 2 ^ 4 + r) / 2 ^ (v + 5) = p := by
      rw [h16, mul_comm (2 * 2 ^ v), ← Nat.div_div_eq_div_mul, e1, mul_comm p, Nat.mul_add_div (by positivity), Nat.div_eq_of_lt hq,
        add_zero]
    rw [e1, e2]
    have : p * (2 * 2 ^ v) = 2 * (p * 2 ^ v) := by ring
    rw [this]; omega
  have hsw : ∀ G : ℕ → ℕ → ℤ, ∑ q ∈ range (2 * 2 ^ v), ∑ k ∈ range 16, G k ((k / 8 + p + q) % 2)
      = 2 ^ v * ∑ k ∈ range 16, (G k 0 + G k 1) := by
    intro G
    rw [sum_comm, mul_sum]
    refine sum_congr rfl fun k _ => ?_
    rw [parity_sum]; push_cast; ring
  constructor
  · rw [← hsw]
    refine sum_le_sum fun q hq => ?_
    rw [h2]
    exact sum_le_sum fun k hk => (hb q (mem_range.1 hq) k (mem_range.1 hk)).1
  · rw [← hsw]
    refine sum_le_sum fun q hq => ?_
    rw [h2]
    exact sum_le_sum fun k hk => (hb q (mem_range.1 hq) k (mem_range.1 hk)).2


/-- C79: over a period of the operands' generators, a lane `k` of `gainMAC_uni_scaled` whose product is `m = min a b` shows
about `0`, half or all of its turns as ones: half for each of the thresholds `k % 8` and `k % 8 + 8` sixteenths that `m`
exceeds. -/
theorem C79_gaines_scaled {w : ℕ} (hw : 5 ≤ w) {a b : Fin 16 → BitVec w} {i : ℕ → Rtl.Mac2In w} (h : Spec.loadedMac a b i)
    (p : ℕ) (hp : 1 ≤ p) :
    2 ^ (w - 5) * ∑ k : Fin 16, ((ind (((k : ℕ) % 8 + 1) * 2 ^ (w - 4) ≤ min (a k).toNat (b k).toNat) : ℤ)
        + ind (((k : ℕ) % 8 + 9) * 2 ^ (w - 4) ≤ min (a k).toNat (b k).toNat))
      ≤ ∑ r ∈ range (2 ^ w), Spec.num (outAt (Rtl.scaledMacStep Rtl.gmulUniStep)
          (fun _ => Rtl.gmulInit w, Rtl.sobolInit 4, false) i (p * 2 ^ w + r + 1)) ∧
    ∑ r ∈ range (2 ^ w), Spec.num (outAt (Rtl.scaledMacStep Rtl.gmulUniStep)
          (fun _ => Rtl.gmulInit w, Rtl.sobolInit 4, false) i (p * 2 ^ w + r + 1))
      ≤ 2 ^ (w - 5) * ∑ k : Fin 16, ((ind (((k : ℕ) % 8) * 2 ^ (w - 4) < min (a k).toNat (b k).toNat) : ℤ)
        + ind (((k : ℕ) % 8 + 8) * 2 ^ (w - 4) < min (a k).toNat (b k).toNat)) := by
  have hpos : 1 ≤ 2 ^ w := Nat.one_le_two_pow
  set m : ℕ → ℕ := fun k => if hk : k < 16 then min (a ⟨k, hk⟩).toNat (b ⟨k, hk⟩).toNat else 0 with hm
  have hmk : ∀ k : Fin 16, m k = min (a k).toNat (b k).toNat := fun k => by simp [hm]
  have hout : ∀ r ∈ range (2 ^ w), Spec.num (outAt (Rtl.scaledMacStep Rtl.gmulUniStep)
      (fun _ => Rtl.gmulInit w, Rtl.sobolInit 4, false) i (p * 2 ^ w + r + 1))
      = (fun t k => ind (Spec.hwSobol w t < m k)) (p * 2 ^ w + r) (Spec.hwSobol 4 (p * 2 ^ w + r)) := by
    intro r _
    have e := hmk (Spec.selected (p * 2 ^ w + r))
    refine num_ind ((C79_gaines_scaled_bit h _ (by nlinarith)).1.trans ?_)
    rw [← e]; rfl
  rw [sum_congr rfl hout]
  have key := select_sum hw p (fun k e => ind ((k % 8 + 8 * e + 1) * 2 ^ (w - 4) ≤ m k))
    (fun k e => ind ((k % 8 + 8 * e) * 2 ^ (w - 4) < m k)) (fun t k => ind (Spec.hwSobol w t < m k)) (by
      intro t k hk hs e he hee
      obtain ⟨e', -, g1, g2, g3⟩ := sobol_high (w := w) (by omega) t
      rw [hs] at g1 g2 g3
      rw [← hee] at g3
      rw [g3] at g1 g2
      constructor
      · unfold ind; split_ifs <;> omega
      · unfold ind; split_ifs <;> omega)
  rw [sum_range, sum_range (fun k => (fun k e => ind ((k % 8 + 8 * e) * 2 ^ (w - 4) < m k)) k 0
    + (fun k e => ind ((k % 8 + 8 * e) * 2 ^ (w - 4) < m k)) k 1)] at key
  simp only [hmk] at key
  exact key

/-- C79: so lanes whose product does not reach the threshold of the lane are dead. -/
theorem C79_gaines_scaled_dead {w : ℕ} (hw : 4 ≤ w) {a b : Fin 16 → BitVec w} {i : ℕ → Rtl.Mac2In w} (h : Spec.loadedMac a b i)
    (hd : ∀ k : Fin 16, min (a k).toNat (b k).toNat ≤ ((k : ℕ) % 8) * 2 ^ (w - 4)) (t : ℕ) (ht : 2 ≤ t) :
    outAt (Rtl.scaledMacStep Rtl.gmulUniStep) (fun _ => Rtl.gmulInit w, Rtl.sobolInit 4, false) i t = false := by
  obtain ⟨u, rfl⟩ : ∃ u, t = u + 1 := ⟨t - 1, by omega⟩
  rw [← Bool.not_eq_true, (C79_gaines_scaled_bit h u (by omega)).1]
  obtain ⟨e, -, g1, -, -⟩ := sobol_high (w := w) hw u
  have := hd (Spec.selected u)
  have e1 : ((Spec.selected u : Fin 16) : ℕ) = Spec.hwSobol 4 u := rfl
  rw [e1] at this
  have : Spec.hwSobol 4 u % 8 * 2 ^ (w - 4) ≤ (Spec.hwSobol 4 u % 8 + 8 * e) * 2 ^ (w - 4) := Nat.mul_le_mul_right _ (by omega)
  omega

/-- C79: `gainMAC_uni_nonscaled` outputs, in every period after the load, as many ones as its largest lane product has. -/
theorem C79_gaines_nonscaled {w : ℕ} (hw : 1 ≤ w) {a b : Fin 16 → BitVec w} {i : ℕ → Rtl.Mac2In w} (h : Spec.loadedMac a b i)
    (p : ℕ) (hp : 1 ≤ p) :
    ∑ r ∈ range (2 ^ w), Spec.num (outAt (Rtl.orMacStep Rtl.gmulUniStep) (fun _ => Rtl.gmulInit w, false) i (p * 2 ^ w + r + 1))
      = ((univ.sup fun k => min (a k).toNat (b k).toNat : ℕ) : ℤ) := by
  have hpos : 1 ≤ 2 ^ w := Nat.one_le_two_pow
  have hle : (univ.sup fun k => min (a k).toNat (b k).toNat) ≤ 2 ^ w :=
    Finset.sup_le fun k _ => (min_le_left _ _).trans (a k).isLt.le
  rw [← hw_period hw _ p hle]
  refine sum_congr rfl fun r _ => num_ind ?_
  rw [or_run]
  have : ∀ k, outAt Rtl.gmulUniStep (Rtl.gmulInit w) (fun u => (i u).lane k) (p * 2 ^ w + r) = true ↔
      Spec.hwSobol w (p * 2 ^ w + r) < min (a k).toNat (b k).toNat := fun k =>
    C77_gaines_uni_bit (loadedMac_lane h k) _ (by nlinarith)
  simp only [this]
  rw [gt_iff_lt, Nat.cast_lt, Finset.lt_sup_iff]
  simp

/-! ## Units of deterministic multipliers -/

private theorem dmac_state {w : ℕ} (g : Bool → Bool → Bool) (add : BitVec 4 → (Fin 16 → Bool) → Bool) {a b : Fin 16 → BitVec w}
    {i : ℕ → Rtl.Mac2In w} (h : Spec.loadedMac a b i) (n : ℕ) :
    (stateAt (Rtl.dmacStep g add) (Rtl.dmacInit w) i n).a = (if n = 0 then fun _ => 0 else a) ∧
    (stateAt (Rtl.dmacStep g add) (Rtl.dmacInit w) i n).b = (if n = 0 then fun _ => 0 else b) ∧
    (stateAt (Rtl.dmacStep g add) (Rtl.dmacInit w) i n).ra = sobolIter w n ∧
    (stateAt (Rtl.dmacStep g add) (Rtl.dmacInit w) i n).rb = sobolIter w (Spec.slowIndex w n) ∧
    (stateAt (Rtl.dmacStep g add) (Rtl.dmacInit w) i n).sel = sobolIter 4 (Spec.slowIndex w n) ∧
    (stateAt (Rtl.dmacStep g add) (Rtl.dmacInit w) i n).cntA = BitVec.ofNat w n ∧
    (stateAt (Rtl.dmacStep g add) (Rtl.dmacInit w) i n).cntB = BitVec.ofNat w (n / 2 ^ w) := by
  obtain ⟨h1, h2, h3, h4, h5⟩ := h
  induction n with
  | zero =>
      have e : Spec.slowIndex w 0 = 0 := by simp [Spec.slowIndex]
      rw [e, Nat.zero_div]; exact ⟨rfl, rfl, rfl, rfl, rfl, rfl, rfl⟩
  | succ n ih =>
      obtain ⟨i1, i2, i3, i4, i5, i6, i7⟩ := ih
      have eR : ∀ v, Rtl.sobolNext (sobolIter v (Spec.slowIndex w n)) (decide (BitVec.ofNat w (n / 2 ^ w) = BitVec.allOnes w))
          = sobolIter v (Spec.slowIndex w (n + 1)) := by
        intro v
        rw [slow_succ]
        have : (BitVec.ofNat w (n / 2 ^ w) = BitVec.allOnes w) ↔ n / 2 ^ w % 2 ^ w = 2 ^ w - 1 := by
          rw [bv_full, BitVec.toNat_ofNat]
        by_cases hh : n / 2 ^ w % 2 ^ w = 2 ^ w - 1
        · rw [if_pos hh, decide_eq_true (this.2 hh), sobolIter_succ]
        · rw [if_neg hh, decide_eq_false (fun h' => hh (this.1 h')), sobolNext_false, add_zero]
      rw [stateAt_succ]
      generalize stateAt (Rtl.dmacStep g add) (Rtl.dmacInit w) i n = s at *
      unfold Rtl.dmacStep
      simp only [i3, i4, i5, i6, i7, eR, cntA_eq, cntB_eq, ← sobolIter_succ, Nat.succ_ne_zero, if_false, and_true]
      cases n with
      | zero => simp [h1, h2, h3, h4]
      | succ n => simp [(h5 n).1, (h5 n).2, i1, i2]

/-- C79: bits of the units of `dMUL`s. -/
private theorem dmac_bit {w : ℕ} (g : Bool → Bool → Bool) (add : BitVec 4 → (Fin 16 → Bool) → Bool) {a b : Fin 16 → BitVec w}
    {i : ℕ → Rtl.Mac2In w} (h : Spec.loadedMac a b i) (t : ℕ) (ht : 1 ≤ t) :
    outAt (Rtl.dmacStep g add) (Rtl.dmacInit w) i (t + 1)
      = add (sobolIter 4 (Spec.slowIndex w t)).out fun k => g (decide (Spec.hwSobol w t < (a k).toNat))
          (decide (Spec.hwSobol w (Spec.slowIndex w t) < (b k).toNat)) := by
  obtain ⟨i1, i2, i3, i4, i5, -, -⟩ := dmac_state g add h t
  have e : outAt (Rtl.dmacStep g add) (Rtl.dmacInit w) i (t + 1)
      = add (stateAt (Rtl.dmacStep g add) (Rtl.dmacInit w) i t).sel.out fun k =>
        g ((stateAt (Rtl.dmacStep g add) (Rtl.dmacInit w) i t).ra.out.ult ((stateAt (Rtl.dmacStep g add) (Rtl.dmacInit w) i t).a k))
          ((stateAt (Rtl.dmacStep g add) (Rtl.dmacInit w) i t).rb.out.ult ((stateAt (Rtl.dmacStep g add) (Rtl.dmacInit w) i t).b k)) := rfl
  rw [e, i1, i2, i3, i4, i5, if_neg (by omega), if_neg (by omega)]
  rfl

private theorem slow_sel {w : ℕ} (hw : 5 ≤ w) {p : ℕ} (hp : p % 2 ^ w ≠ 2 ^ w - 1) {r : ℕ} (hr : r < 2 ^ w) :
    (sobolIter 4 (Spec.slowIndex w (p * 2 ^ w + r))).out.toFin = (0 : Fin 16) := by
  have h4 : (4 : ℕ) ^ w = 2 ^ w * 2 ^ w := by rw [← mul_pow]; norm_num
  have hN : 0 < 2 ^ w := by positivity
  have e : (p * 2 ^ w + r) / 2 ^ w = p := by
    rw [mul_comm, Nat.mul_add_div hN, Nat.div_eq_of_lt hr, add_zero]
  apply Fin.ext
  show Spec.hwSobol 4 (Spec.slowIndex w (p * 2 ^ w + r)) = 0
  unfold Spec.slowIndex
  rw [h4, ← Nat.div_div_eq_div_mul, e, if_neg hp, add_zero]
  obtain ⟨v, rfl⟩ : ∃ v, w = v + 5 := ⟨w - 5, by omega⟩
  have e2 : p / 2 ^ (v + 5) * 2 ^ (v + 5) = (2 * (p / 2 ^ (v + 5) * 2 ^ v)) * 2 ^ 4 := by
    rw [show 2 ^ (v + 5) = 2 ^ v * 32 from pow_add 2 v 5]; ring
  rw [e2, hwSobol_start (by norm_num), if_neg (by omega)]

/-- C79: in all but one in `2^w` periods the units of `dMUL`s with a multiplexer show lane 0 alone, and that as `dMUL` does. -/
theorem C79_deterministic_scaled {w : ℕ} (hw : 5 ≤ w) {a b : Fin 16 → BitVec w} {i : ℕ → Rtl.Mac2In w}
    (h : Spec.loadedMac a b i) (p : ℕ) (hp : 1 ≤ p) (hl : p % 2 ^ w ≠ 2 ^ w - 1) :
    ∑ r ∈ range (2 ^ w), Spec.num (outAt (Rtl.dmacStep and Rtl.muxSel) (Rtl.dmacInit w) i (p * 2 ^ w + r + 1))
      = (if Spec.slowNumber w p < (b 0).toNat then ((a 0).toNat : ℤ) else 0) ∧
    ∑ r ∈ range (2 ^ w), Spec.num (outAt (Rtl.dmacStep (fun x y => !(x ^^ y)) Rtl.muxSel) (Rtl.dmacInit w) i (p * 2 ^ w + r + 1))
      = if Spec.slowNumber w p < (b 0).toNat then ((a 0).toNat : ℤ) else 2 ^ w - (a 0).toNat := by
  have hpos : 1 ≤ 2 ^ w := Nat.one_le_two_pow
  have hL := loadedMac_lane h 0
  rw [← C77_deterministic_uni (by omega) hL p hp hl, ← C77_deterministic_bi (by omega) hL p hp hl]
  constructor
  all_goals
    refine sum_congr rfl fun r hr => congrArg Spec.num ?_
    have hr := mem_range.1 hr
    have ht : 1 ≤ p * 2 ^ w + r := by nlinarith
    rw [dmac_bit _ _ h _ ht]
    unfold Rtl.muxSel
    rw [slow_sel hw hl hr, Bool.eq_iff_iff]
  · rw [(C77_deterministic_bit hL _ ht).1]; simp
  · rw [(C77_deterministic_bit hL _ ht).2]
    by_cases h1 : Spec.hwSobol w (p * 2 ^ w + r) < (a 0).toNat <;>
      by_cases h2 : Spec.hwSobol w (Spec.slowIndex w (p * 2 ^ w + r)) < (b 0).toNat <;> simp [h1, h2]

/-- C79: in all but one in `2^w` periods `dMAC_uni_nonscaled` shows the largest first operand among the lanes whose second
operand exceeds one of two constants. -/
theorem C79_deterministic_nonscaled {w : ℕ} (hw : 1 ≤ w) {a b : Fin 16 → BitVec w} {i : ℕ → Rtl.Mac2In w}
    (h : Spec.loadedMac a b i) (p : ℕ) (hp : 1 ≤ p) (hl : p % 2 ^ w ≠ 2 ^ w - 1) :
    ∑ r ∈ range (2 ^ w), Spec.num (outAt (Rtl.dmacStep and Rtl.orAll) (Rtl.dmacInit w) i (p * 2 ^ w + r + 1))
      = ((univ.sup fun k => if Spec.slowNumber w p < (b k).toNat then (a k).toNat else 0 : ℕ) : ℤ) := by
  have hpos : 1 ≤ 2 ^ w := Nat.one_le_two_pow
  have hle : (univ.sup fun k => if Spec.slowNumber w p < (b k).toNat then (a k).toNat else 0) ≤ 2 ^ w :=
    Finset.sup_le fun k _ => by have := (a k).isLt; split_ifs <;> omega
  rw [← hw_period hw _ p hle]
  refine sum_congr rfl fun r hr => num_ind ?_
  rw [dmac_bit _ _ h _ (by nlinarith), slow_period hw hl (mem_range.1 hr), gt_iff_lt, Nat.cast_lt, Finset.lt_sup_iff]
  unfold Rtl.orAll
  rw [decide_eq_true_eq]
  refine exists_congr fun k => ?_
  simp only [Bool.and_eq_true, decide_eq_true_eq, mem_univ, true_and]
  split_ifs with hb
  · simp [hb]
  · simp [hb]

/-! ## Units of temporal multipliers -/

/-- C79: bits of `tMAC_uni_scaled` and `tMAC_bi_scaled`. -/
theorem C79_temporal_scaled_bit {w : ℕ} {a b : Fin 16 → BitVec w} {i : ℕ → Rtl.Mac2In w} (h : Spec.loadedMac a b i) (t : ℕ)
    (ht : 1 ≤ t) :
    (outAt (Rtl.scaledMacStep (Rtl.tmulUniStep true)) (fun _ => Rtl.tmulInit w, Rtl.sobolInit 4, false) i (t + 1) = true ↔
      (2 ≤ t ∧ t ≤ (a (Spec.selected t)).toNat + 1) ∧ Spec.hwSobol w t < (b (Spec.selected t)).toNat) ∧
    (outAt (Rtl.scaledMacStep (Rtl.tmulBiStep true)) (fun _ => Rtl.tmulInit w, Rtl.sobolInit 4, false) i (t + 1) = true ↔
      ((2 ≤ t ∧ t ≤ (a (Spec.selected t)).toNat + 1) ↔ Spec.hwSobol w t < (b (Spec.selected t)).toNat)) := by
  rw [scaled_run, scaled_run]
  exact C77_temporal_bit true (loadedMac_lane h _) t ht

/-- C79: a lane of `tMAC_uni_scaled` whose second operand does not exceed the threshold of the lane is dead, whatever the first
operand. -/
theorem C79_temporal_scaled_dead {w : ℕ} (hw : 4 ≤ w) {a b : Fin 16 → BitVec w} {i : ℕ → Rtl.Mac2In w} (h : Spec.loadedMac a b i)
    (hd : ∀ k : Fin 16, (b k).toNat ≤ ((k : ℕ) % 8) * 2 ^ (w - 4)) (t : ℕ) (ht : 2 ≤ t) :
    outAt (Rtl.scaledMacStep (Rtl.tmulUniStep true)) (fun _ => Rtl.tmulInit w, Rtl.sobolInit 4, false) i t = false := by
  obtain ⟨u, rfl⟩ : ∃ u, t = u + 1 := ⟨t - 1, by omega⟩
  rw [← Bool.not_eq_true, (C79_temporal_scaled_bit h u (by omega)).1]
  rintro ⟨-, hlt⟩
  obtain ⟨e, -, g1, -, -⟩ := sobol_high (w := w) hw u
  have := hd (Spec.selected u)
  have e1 : ((Spec.selected u : Fin 16) : ℕ) = Spec.hwSobol 4 u := rfl
  rw [e1] at this
  have : Spec.hwSobol 4 u % 8 * 2 ^ (w - 4) ≤ (Spec.hwSobol 4 u % 8 + 8 * e) * 2 ^ (w - 4) := Nat.mul_le_mul_right _ (by omega)
  omega

/-- Ones of lane products in `tMAC_uni_nonscaled`: of the first operand's cycles, counted from the third number of the generator
on, those in which the second operand exceeds the number. -/
def Spec.tempProduct (a b : ℕ) : ℕ := #{r ∈ range a | Spec.hwSobol 8 (r + 2) < b}

private theorem tmac_state {i : ℕ → Rtl.Mac2In 8} (n : ℕ) :
    (∀ k, (stateAt Rtl.tmacStep Rtl.tmacInit i n).lane k
      = stateAt (Rtl.tmulUniStep true) (Rtl.tmulInit 8) (fun t => (i t).lane k) n) ∧
    (stateAt Rtl.tmacStep Rtl.tmacInit i n).rng = sobolIter 8 n ∧
    (∀ k, (stateAt Rtl.tmacStep Rtl.tmacInit i n).cnt k = BitVec.ofNat 8
      (#{t ∈ range n | outAt (Rtl.tmulUniStep true) (Rtl.tmulInit 8) (fun t => (i t).lane k) t = true})) := by
  induction n with
  | zero => exact ⟨fun _ => rfl, rfl, fun _ => rfl⟩
  | succ n ih =>
      obtain ⟨i1, i2, i3⟩ := ih
      refine ⟨fun k => ?_, ?_, fun k => ?_⟩
      · rw [stateAt_succ, stateAt_succ, ← i1 k]; rfl
      · rw [stateAt_succ, sobolIter_succ, ← i2]; rfl
      · rw [stateAt_succ]
        have e : (Rtl.tmacStep (stateAt Rtl.tmacStep Rtl.tmacInit i n) (i n)).1.cnt k
            = (stateAt Rtl.tmacStep Rtl.tmacInit i n).cnt k
              + Rtl.bv 8 (Rtl.tmulUniStep true ((stateAt Rtl.tmacStep Rtl.tmacInit i n).lane k) ((i n).lane k)).2 := rfl
        have e2 : (Rtl.tmulUniStep true (stateAt (Rtl.tmulUniStep true) (Rtl.tmulInit 8) (fun t => (i t).lane k) n) ((i n).lane k)).2
            = outAt (Rtl.tmulUniStep true) (Rtl.tmulInit 8) (fun t => (i t).lane k) n := rfl
        rw [e, i1 k, i3 k, e2, range_add_one, filter_insert]
        cases hb : outAt (Rtl.tmulUniStep true) (Rtl.tmulInit 8) (fun t => (i t).lane k) n with
        | true =>
            rw [if_pos rfl, card_insert_of_notMem (by simp)]
            exact cntA_eq 8 _
        | false => simp [Rtl.bv]

private theorem tmac_count {a b : BitVec 8} {i : ℕ → Rtl.TwoIn 8} (h : Spec.loaded2 a b i) (n : ℕ) (hn : 257 ≤ n) :
    #{t ∈ range n | outAt (Rtl.tmulUniStep true) (Rtl.tmulInit 8) i t = true} = Spec.tempProduct a.toNat b.toNat := by
  have ha := a.isLt
  unfold Spec.tempProduct
  symm
  refine card_bij (fun r _ => r + 2) ?_ ?_ ?_
  · intro r hr
    obtain ⟨h1, h2⟩ := mem_filter.1 hr
    have h1 := mem_range.1 h1
    refine mem_filter.2 ⟨mem_range.2 (by omega), ?_⟩
    rw [(C77_temporal_bit true h (r + 2) (by omega)).1]
    exact ⟨⟨by omega, by omega⟩, h2⟩
  · intro r _ r' _ e; omega
  · intro t ht
    obtain ⟨h1, h2⟩ := mem_filter.1 ht
    rcases Nat.eq_zero_or_pos t with h0 | h0
    · subst h0; simp [outAt, stateAt, Rtl.tmulUniStep, Rtl.tmulInit] at h2
    · rw [(C77_temporal_bit true h t (by omega)).1] at h2
      refine ⟨t - 2, mem_filter.2 ⟨mem_range.2 (by omega), ?_⟩, by omega⟩
      rw [show t - 2 + 2 = t by omega]
      exact h2.2

private theorem tmac_sum (s : Rtl.TMac) (i : Rtl.Mac2In 8) :
    (Rtl.tmacStep s i).1.sum = s.sum0 0 + s.sum0 1 + s.sum0 2 + s.sum0 3 := rfl

private theorem tmac_sum0 (s : Rtl.TMac) (i : Rtl.Mac2In 8) (j : Fin 4) :
    (Rtl.tmacStep s i).1.sum0 j = s.cnt ⟨4 * j, by omega⟩ + s.cnt ⟨4 * j + 1, by omega⟩ + s.cnt ⟨4 * j + 2, by omega⟩
      + s.cnt ⟨4 * j + 3, by omega⟩ := rfl

private theorem sum16 (P : Fin 16 → ℕ) :
    ((BitVec.ofNat 8 (P 0) + BitVec.ofNat 8 (P 1) + BitVec.ofNat 8 (P 2) + BitVec.ofNat 8 (P 3))
      + (BitVec.ofNat 8 (P 4) + BitVec.ofNat 8 (P 5) + BitVec.ofNat 8 (P 6) + BitVec.ofNat 8 (P 7))
      + (BitVec.ofNat 8 (P 8) + BitVec.ofNat 8 (P 9) + BitVec.ofNat 8 (P 10) + BitVec.ofNat 8 (P 11))
      + (BitVec.ofNat 8 (P 12) + BitVec.ofNat 8 (P 13) + BitVec.ofNat 8 (P 14) + BitVec.ofNat 8 (P 15))).toNat
      = (∑ k, P k) % 256 := by
  have e : ∑ k, P k = (P 0 + P 1 + P 2 + P 3) + (P 4 + P 5 + P 6 + P 7) + (P 8 + P 9 + P 10 + P 11)
      + (P 12 + P 13 + P 14 + P 15) := by
    rw [Fin.sum_univ_castSucc, Fin.sum_univ_castSucc, Fin.sum_univ_castSucc, Fin.sum_univ_castSucc, Fin.sum_univ_castSucc,
      Fin.sum_univ_castSucc, Fin.sum_univ_castSucc, Fin.sum_univ_castSucc, Fin.sum_univ_eight]
    simp only [← Nat.add_assoc]
    rfl
  rw [e]
  simp only [← BitVec.ofNat_add, BitVec.toNat_ofNat]

/-- C79: once its pipeline has settled, `tMAC_uni_nonscaled` outputs in every period the sum of the lane products modulo `256`:
the sum wraps instead of saturating. -/
theorem C79_temporal_nonscaled {a b : Fin 16 → BitVec 8} {i : ℕ → Rtl.Mac2In 8} (h : Spec.loadedMac a b i) (p : ℕ) (hp : 2 ≤ p) :
    Spec.periodOnes 8 (outAt Rtl.tmacStep Rtl.tmacInit i) p
      = ((∑ k : Fin 16, Spec.tempProduct (a k).toNat (b k).toNat) % 256 : ℕ) := by
  have hcnt : ∀ n, 257 ≤ n → ∀ k, (stateAt Rtl.tmacStep Rtl.tmacInit i n).cnt k
      = BitVec.ofNat 8 (Spec.tempProduct (a k).toNat (b k).toNat) := fun n hn k => by
    rw [(tmac_state n).2.2 k, tmac_count (loadedMac_lane h k) n hn]
  set P : Fin 16 → ℕ := fun k => Spec.tempProduct (a k).toNat (b k).toNat with hP
  have hsum : ∀ n, 257 ≤ n → (stateAt Rtl.tmacStep Rtl.tmacInit i (n + 2)).sum.toNat = (∑ k, P k) % 256 := by
    intro n hn
    rw [stateAt_succ, tmac_sum, stateAt_succ]
    simp only [tmac_sum0, hcnt n hn]
    exact sum16 P
  have hmod : (∑ k, P k) % 256 ≤ 2 ^ 8 := (Nat.mod_lt _ (by norm_num)).le
  rw [← hw_period (w := 8) (by norm_num) _ p hmod]
  unfold Spec.periodOnes
  refine sum_congr rfl fun r _ => num_ind ?_
  have e : outAt Rtl.tmacStep Rtl.tmacInit i (p * 2 ^ 8 + r)
      = decide ((stateAt Rtl.tmacStep Rtl.tmacInit i (p * 2 ^ 8 + r)).rng.out.toNat
          < (stateAt Rtl.tmacStep Rtl.tmacInit i (p * 2 ^ 8 + r)).sum.toNat) := rfl
  rw [e, (tmac_state _).2.1, decide_eq_true_eq]
  have hs := hsum (p * 2 ^ 8 + r - 2) (by omega)
  rw [show p * 2 ^ 8 + r - 2 + 2 = p * 2 ^ 8 + r by omega] at hs
  rw [hs, gt_iff_lt, Nat.cast_lt]
  rfl

/-! ## Units of UnarySim's multipliers with the non-scaled adder -/

private theorem umac_run {w : ℕ} (mul : Rtl.Mul w → Rtl.MulIn w → Rtl.Mul w × Bool)
    (add : BitVec 10 × BitVec 10 → (Fin 16 → Bool) → (BitVec 10 × BitVec 10) × Bool) (i : ℕ → Rtl.MacIn w) (t : ℕ) :
    outAt (Rtl.umacNsStep mul add) (fun _ => Rtl.mulInit w, (0, 0)) i t
      = outAt add (0, 0) (fun t k => outAt mul (Rtl.mulInit w) (lane i k) t) t := by
  have st : ∀ t, (∀ k, (stateAt (Rtl.umacNsStep mul add) (fun _ => Rtl.mulInit w, (0, 0)) i t).1 k
        = stateAt mul (Rtl.mulInit w) (lane i k) t) ∧
      (stateAt (Rtl.umacNsStep mul add) (fun _ => Rtl.mulInit w, (0, 0)) i t).2
        = stateAt add (0, 0) (fun t k => outAt mul (Rtl.mulInit w) (lane i k) t) t := by
    intro t
    induction t with
    | zero => exact ⟨fun _ => rfl, rfl⟩
    | succ t ih =>
        obtain ⟨i1, i2⟩ := ih
        constructor
        · intro k; rw [stateAt_succ, stateAt_succ, ← i1 k]; rfl
        · rw [stateAt_succ, stateAt_succ, ← i2]
          have e : (Rtl.umacNsStep mul add (stateAt (Rtl.umacNsStep mul add) (fun _ => Rtl.mulInit w, (0, 0)) i t) (i t)).1.2
            = (add (stateAt (Rtl.umacNsStep mul add) (fun _ => Rtl.mulInit w, (0, 0)) i t).2 fun k =>
                (mul ((stateAt (Rtl.umacNsStep mul add) (fun _ => Rtl.mulInit w, (0, 0)) i t).1 k)
                  ⟨(i t).iA k, (i t).iB k, (i t).loadB⟩).2).1 := rfl
          rw [e]
          simp only [i1]
          rfl
  obtain ⟨i1, i2⟩ := st t
  have e : outAt (Rtl.umacNsStep mul add) (fun _ => Rtl.mulInit w, (0, 0)) i t
      = (add (stateAt (Rtl.umacNsStep mul add) (fun _ => Rtl.mulInit w, (0, 0)) i t).2 fun k =>
          (mul ((stateAt (Rtl.umacNsStep mul add) (fun _ => Rtl.mulInit w, (0, 0)) i t).1 k)
            ⟨(i t).iA k, (i t).iB k, (i t).loadB⟩).2).2 := rfl
  rw [e, i2]
  simp only [i1]
  rfl

/-- C79: `uMAC_uni_nonscaled` emits, two cycles later, the bits of the Python multipliers followed by the non-scaled unipolar
`FSUAdd`, while no input stream has had `2^w` ones and the products together at most 511. -/
theorem C79_umac_uni {env : Env} {w : ℕ} (henv : env.sobolM = fun _ => 1) (hw0 : 1 ≤ w) (hw : w ≤ env.maxbit) {l : List ℤ}
    (hl : rng env w "sobol" = .ok l) (cfg : Cfg) (hm : cfg.mode = .unipolar) (hsc : cfg.scale = some 1) (hd : 11 ≤ cfg.depth)
    {b : Fin 16 → BitVec w} {x : Fin 16 → ℕ → Bool} {i : ℕ → Rtl.MacIn w} (h : Spec.macLoaded b x i) (t : ℕ)
    (hn : ∀ k, Verif.Spec.ones (Spec.nums (x k)) (t + 1) < 2 ^ w)
    (hS : ∑ u ∈ range (t + 1), ∑ k : Fin 16, mulOut .unipolar w l (b k).toNat (Spec.nums (x k)) (u + 1) ≤ 511) :
    Spec.num (outAt (Rtl.umacNsStep Rtl.umulUniStep Rtl.unsadd16UStep) (fun _ => Rtl.mulInit w, (0, 0)) i (t + 2))
      = addOut cfg (streamArgs fun k t => mulOut .unipolar w l (b k).toNat (Spec.nums (x k)) (t + 1)) t := by
  have h0 : ∀ k, outAt Rtl.umulUniStep (Rtl.mulInit w) (lane i k) 0 = false := by
    intro k
    show ((i 0).iA k && (0 : BitVec w).ult 0) = false
    have : (0 : BitVec w).ult 0 = false := by simp [BitVec.ult]
    rw [this, Bool.and_false]
  have hy : ∀ k, ∀ u ≤ t, Spec.num (outAt Rtl.umulUniStep (Rtl.mulInit w) (lane i k) (u + 1))
      = mulOut .unipolar w l (b k).toNat (Spec.nums (x k)) (u + 1) := fun k u hu =>
    C66_uni henv hw0 hw hl (lane_loaded h k) (u + 1) (by omega)
      (lt_of_le_of_lt (ones_mono' (fun t => num_isBit _) (by omega)) (hn k))
  rw [umac_run, (run_shift Rtl.unsadd16UStep (0, 0) _ (t + 1)).2]
  have e0 : (Rtl.unsadd16UStep (0, 0) fun k => outAt Rtl.umulUniStep (Rtl.mulInit w) (lane i k) 0).1 = (0, 0) := by
    simp only [h0]
    decide +kernel
  rw [e0]
  have key := C78_unsadd16_uni cfg hm hsc hd (fun k t => outAt Rtl.umulUniStep (Rtl.mulInit w) (lane i k) (t + 1)) t (by
    refine le_trans (le_of_eq ?_) hS
    unfold Spec.total
    refine sum_congr rfl fun u hu => ?_
    unfold Spec.high
    exact sum_congr rfl fun k _ => hy k u (by have := mem_range.1 hu; omega))
  refine key.trans (outAt_prefix _ _ t fun u hu => ?_)
  unfold streamArgs
  congr 2
  funext k
  exact congrArg (fun z : ℤ => (z : ℚ)) (hy k u hu)

private theorem zeros_mono {x : ℕ → ℤ} (h : Verif.Spec.BitStream x) {m n : ℕ} (hmn : m ≤ n) :
    (m : ℤ) - Verif.Spec.ones x m ≤ (n : ℤ) - Verif.Spec.ones x n := by
  induction hmn with
  | refl => exact le_refl _
  | @step k _ ih => rw [Verif.Spec.ones_succ]; have := (h k).le_one; push_cast; linarith

/-- C79: `uMAC_bi_nonscaled` has emitted, one cycle later, as many ones as the Python multipliers followed by the non-scaled
bipolar `FSUAdd` or one more, where the streams `y` added are the complemented inputs in the load cycle and the products
afterwards, while they keep the adder in range. -/
theorem C79_umac_bi {env : Env} {w : ℕ} (henv : env.sobolM = fun _ => 1) (hw0 : 1 ≤ w) (hw : w ≤ env.maxbit) {l : List ℤ}
    (hl : rng env w "sobol" = .ok l) (cfg : Cfg) (hm : cfg.mode = .bipolar) (hsc : cfg.scale = some 1) (hen : cfg.entry = none)
    (hd : 11 ≤ cfg.depth) {b : Fin 16 → BitVec w} {x : Fin 16 → ℕ → Bool} {i : ℕ → Rtl.MacIn w} (h : Spec.macLoaded b x i) (n : ℕ)
    (hn : ∀ k, Verif.Spec.ones (Spec.nums (x k)) n < 2 ^ w) (hz : ∀ k, (n : ℤ) - Verif.Spec.ones (Spec.nums (x k)) n < 2 ^ w)
    (y : Fin 16 → ℕ → Bool) (hy0 : ∀ k, y k 0 = !(x k 0))
    (hy : ∀ k, ∀ t, 1 ≤ t → t < n → Spec.num (y k t) = mulOut .bipolar w l (b k).toNat (Spec.nums (x k)) t)
    (hS : ∀ m ≤ n, 0 ≤ Spec.theory (fun t i => y i t) m ∧ Spec.theory (fun t i => y i t) m ≤ 1022) :
    Verif.Spec.ones (addOut cfg (streamArgs fun k => Spec.nums (y k))) n
      ≤ Verif.Spec.ones (Spec.nums (outAt (Rtl.umacNsStep Rtl.umulBiStep Rtl.unsadd16Step) (fun _ => Rtl.mulInit w, (0, 0)) i)) (n + 1) ∧
    Verif.Spec.ones (Spec.nums (outAt (Rtl.umacNsStep Rtl.umulBiStep Rtl.unsadd16Step) (fun _ => Rtl.mulInit w, (0, 0)) i)) (n + 1)
      ≤ Verif.Spec.ones (addOut cfg (streamArgs fun k => Spec.nums (y k))) n + 1 := by
  have num_inj : ∀ p q : Bool, Spec.num p = Spec.num q → p = q := by decide
  have hlane : ∀ k, ∀ t < n, outAt Rtl.umulBiStep (Rtl.mulInit w) (lane i k) t = y k t := by
    intro k t ht
    rcases Nat.eq_zero_or_pos t with h0 | h0
    · subst h0
      show (((i 0).iA k && (0 : BitVec w).ult 0) || (!(i 0).iA k && (0 : BitVec w).ule 0)) = _
      have e1 : (0 : BitVec w).ult 0 = false := by simp [BitVec.ult]
      have e2 : (0 : BitVec w).ule 0 = true := by simp [BitVec.ule]
      rw [e1, e2, h.1 k 0, hy0 k]; cases x k 0 <;> rfl
    · apply num_inj
      rw [hy k t h0 ht]
      refine C66_bi henv hw0 hw hl (lane_loaded h k) t h0 ?_ ?_
      · exact lt_of_le_of_lt (ones_mono' (nums_bits _) ht.le) (hn k)
      · exact lt_of_le_of_lt (zeros_mono (nums_bits _) ht.le) (hz k)
  have hout : ∀ t < n + 1, outAt (Rtl.umacNsStep Rtl.umulBiStep Rtl.unsadd16Step) (fun _ => Rtl.mulInit w, (0, 0)) i t
      = outAt Rtl.unsadd16Step (0, 0) (fun t k => y k t) t := by
    intro t ht
    rw [umac_run]
    have e := stateAt_agree (step := Rtl.unsadd16Step) (s0 := (0, 0)) (x := fun t k => outAt Rtl.umulBiStep (Rtl.mulInit w) (lane i k) t)
      (x' := fun t k => y k t) (n := t) fun u hu => funext fun k => hlane k u (by omega)
    have e2 : ∀ X : ℕ → Fin 16 → Bool, outAt Rtl.unsadd16Step (0, 0) X t
        = (stateAt Rtl.unsadd16Step (0, 0) X t).2.ult (stateAt Rtl.unsadd16Step (0, 0) X t).1 := fun _ => rfl
    rw [e2, e2, e]
  have heq : Verif.Spec.ones (Spec.nums (outAt (Rtl.umacNsStep Rtl.umulBiStep Rtl.unsadd16Step) (fun _ => Rtl.mulInit w, (0, 0)) i)) (n + 1)
      = Verif.Spec.ones (Spec.nums (outAt Rtl.unsadd16Step (0, 0) fun t k => y k t)) (n + 1) :=
    sum_congr rfl fun t ht => congrArg Spec.num (hout t (mem_range.1 ht))
  rw [heq]
  exact C67_unsadd16 cfg hm hsc hen hd y n hS

/-! ## Examples -/

/-- Operands loaded in cycle 0. -/
private def ldMac (w : ℕ) (a b : Fin 16 → ℕ) : ℕ → Rtl.Mac2In w := fun t =>
  ⟨fun k => BitVec.ofNat w (a k), fun k => BitVec.ofNat w (b k), decide (t = 0), decide (t = 0)⟩

private theorem ldMac_loaded (w : ℕ) (a b : Fin 16 → ℕ) :
    Spec.loadedMac (fun k => BitVec.ofNat w (a k)) (fun k => BitVec.ofNat w (b k)) (ldMac w a b) :=
  ⟨rfl, rfl, rfl, rfl, fun _ => ⟨rfl, rfl⟩⟩

/-- Numbers of the eight and of the four bit generator in cycles 3 and 20. -/
example : Spec.hwSobol 8 3 >>> 4 = Spec.hwSobol 4 3 ∧ Spec.hwSobol 8 20 >>> 4 = Spec.hwSobol 4 20 ^^^ 8 := by decide +kernel

/-- Five bits, every operand 16 of 32: the bounds of `C79_gaines_scaled` give exactly 16 ones of 32 (the mean of the products
is 8 of 32). -/
example : ∑ r ∈ range (2 ^ 5), Spec.num (outAt (Rtl.scaledMacStep Rtl.gmulUniStep)
    (fun _ => Rtl.gmulInit 5, Rtl.sobolInit 4, false) (ldMac 5 (fun _ => 16) fun _ => 16) (1 * 2 ^ 5 + r + 1)) = 16 := by
  have h := C79_gaines_scaled (w := 5) (le_refl _) (ldMac_loaded 5 (fun _ => 16) fun _ => 16) 1 (le_refl 1)
  exact le_antisymm (h.2.trans (by decide +kernel)) (le_trans (by decide +kernel) h.1)

/-- Eight bits, lane `k` with both operands `16 (k % 8)`, up to 7/16: the unit never emits a one. -/
example (t : ℕ) (ht : 2 ≤ t) : outAt (Rtl.scaledMacStep Rtl.gmulUniStep) (fun _ => Rtl.gmulInit 8, Rtl.sobolInit 4, false)
    (ldMac 8 (fun k => 16 * (k % 8)) fun k => 16 * (k % 8)) t = false :=
  C79_gaines_scaled_dead (by norm_num) (ldMac_loaded 8 _ _) (by decide +kernel) t ht

/-- Sixteen products of value 1/4 each: 128 ones of 256 instead of 256. -/
example : ∑ r ∈ range (2 ^ 8), Spec.num (outAt (Rtl.orMacStep Rtl.gmulUniStep) (fun _ => Rtl.gmulInit 8, false)
    (ldMac 8 (fun _ => 128) fun _ => 128) (1 * 2 ^ 8 + r + 1)) = 128 :=
  (C79_gaines_nonscaled (by norm_num) (ldMac_loaded 8 _ _) 1 (le_refl 1)).trans (by decide +kernel)

/-- Operands 255 everywhere but in lane 0, whose second operand is zero: no ones. -/
example : ∑ r ∈ range (2 ^ 8), Spec.num (outAt (Rtl.dmacStep and Rtl.muxSel) (Rtl.dmacInit 8)
    (ldMac 8 (fun _ => 255) fun k => if k = 0 then 0 else 255) (3 * 2 ^ 8 + r + 1)) = 0 :=
  (C79_deterministic_scaled (by norm_num) (ldMac_loaded 8 _ _) 3 (by norm_num) (by norm_num)).1.trans (by decide +kernel)

example : ∑ r ∈ range (2 ^ 8), Spec.num (outAt (Rtl.dmacStep and Rtl.orAll) (Rtl.dmacInit 8)
    (ldMac 8 (fun k => 10 * k) fun _ => 1) (3 * 2 ^ 8 + r + 1)) = 150 :=
  (C79_deterministic_nonscaled (by norm_num) (ldMac_loaded 8 _ _) 3 (by norm_num) (by norm_num)).trans (by decide +kernel)

/-- First operands 255, second ones 112 in lanes 7 and 15 and zero elsewhere. -/
example (t : ℕ) (ht : 2 ≤ t) : outAt (Rtl.scaledMacStep (Rtl.tmulUniStep true)) (fun _ => Rtl.tmulInit 8, Rtl.sobolInit 4, false)
    (ldMac 8 (fun _ => 255) fun k => if (k : ℕ) % 8 = 7 then 112 else 0) t = false :=
  C79_temporal_scaled_dead (by norm_num) (ldMac_loaded 8 _ _) (by decide +kernel) t ht

/-- All operands 255: the sum of the lane products is 4064, of which 224 remain. -/
example : Spec.periodOnes 8 (outAt Rtl.tmacStep Rtl.tmacInit (ldMac 8 (fun _ => 255) fun _ => 255)) 2 = 224 :=
  (C79_temporal_nonscaled (ldMac_loaded 8 _ _) 2 (le_refl 2)).trans (by
    have : Spec.tempProduct (BitVec.ofNat 8 255).toNat (BitVec.ofNat 8 255).toNat = 254 := by decide +kernel
    rw [sum_congr rfl fun k _ => this]; decide)

/-- The hypotheses of `C79_umac_uni` at width 3: operands 0 … 7 twice, mixed inputs, ten cycles. -/
example : (∀ k : Fin 16, Verif.Spec.ones (Spec.nums fun t => decide (t ≠ 0 ∧ (t + (k : ℕ)) % 3 ≠ 0)) (9 + 1) < 2 ^ 3) ∧
    (rng ⟨30, fun _ => 1, fun _ _ => false, []⟩ 3 "sobol").toBool = true ∧
    outAt (Rtl.umacNsStep Rtl.umulUniStep Rtl.unsadd16UStep) (fun _ => Rtl.mulInit 3, (0, 0))
      (fun t => ⟨fun k => decide (t ≠ 0 ∧ (t + (k : ℕ)) % 3 ≠ 0), fun k => BitVec.ofNat 3 k, t == 0⟩) 4 = true ∧
    ∑ u ∈ range 10, ∑ k : Fin 16, Spec.num (outAt Rtl.umulUniStep (Rtl.mulInit 3)
      (fun t => ⟨decide (t ≠ 0 ∧ (t + (k : ℕ)) % 3 ≠ 0), BitVec.ofNat 3 k, t == 0⟩) (u + 1)) ≤ 511 := by decide +kernel

/-- The hypotheses of `C79_umac_bi` at width 3 on the adder: for inputs alternating against each other and operands 4 (value
zero) the sum stays in range. -/
example : ∀ m ≤ 8, 0 ≤ Spec.theory (fun t k => outAt Rtl.umulBiStep (Rtl.mulInit 3)
      (fun t => ⟨decide ((t + (k : ℕ)) % 2 = 0), BitVec.ofNat 3 (4 + (k : ℕ) / 8), t == 0⟩) t) m ∧
    Spec.theory (fun t k => outAt Rtl.umulBiStep (Rtl.mulInit 3)
      (fun t => ⟨decide ((t + (k : ℕ)) % 2 = 0), BitVec.ofNat 3 (4 + (k : ℕ) / 8), t == 0⟩) t) m ≤ 1022 := by decide +kernel

end Verif.Props
