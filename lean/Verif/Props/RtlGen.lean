import Verif.Model.RtlGen
import Verif.Props.RtlOldMac

/-!
# Property C80: the Gray code and Halton number generators of `hw/stream/old`
-/

namespace Verif.Props

open Verif Finset

/-! ## Gray code -/

private theorem gray_state (w n : ℕ) : stateAt (Rtl.grayStep w) 0 (fun _ => ()) n = BitVec.ofNat w n := by
  induction n with
  | zero => rfl
  | succ n ih => rw [stateAt_succ, ih]; exact cntA_eq w n

private theorem gray_out (w n : ℕ) :
    (outAt (Rtl.grayStep w) 0 (fun _ => ()) n).toNat = (n % 2 ^ w) / 2 ^^^ n % 2 ^ w := by
  show ((stateAt (Rtl.grayStep w) 0 (fun _ => ()) n >>> 1) ^^^ stateAt (Rtl.grayStep w) 0 (fun _ => ()) n).toNat = _
  rw [gray_state, BitVec.toNat_xor, BitVec.toNat_ushiftRight, BitVec.toNat_ofNat, Nat.shiftRight_eq_div_pow, pow_one]

private theorem testBit_succ (x i : ℕ) : (x + 1).testBit i = (x.testBit i ^^ decide (∀ l < i, x.testBit l = true)) := by
  rw [Nat.testBit_eq_decide_div_mod_eq, Nat.testBit_eq_decide_div_mod_eq, div_step]
  have h := ones_iff i x
  have hm := Nat.mod_lt x (show 0 < 2 ^ i by positivity)
  by_cases hc : x % 2 ^ i + 1 < 2 ^ i
  · have : ¬ ∀ l < i, x.testBit l = true := fun h' => by have := h.2 h'; omega
    rw [if_pos hc, add_zero, decide_eq_false this, Bool.xor_false]
  · have : ∀ l < i, x.testBit l = true := h.1 (by omega)
    rw [if_neg hc, decide_eq_true this, Bool.xor_true]
    rcases Nat.mod_two_eq_zero_or_one (x / 2 ^ i) with h0 | h0
    · rw [h0, show (x / 2 ^ i + 1) % 2 = 1 by omega]; rfl
    · rw [h0, show (x / 2 ^ i + 1) % 2 = 0 by omega]; rfl

/-- C80: consecutive outputs of `grayCode` differ in exactly one bit, also when the counter wraps. -/
theorem C80_gray_step {w : ℕ} (hw : 1 ≤ w) (t : ℕ) :
    ∃ j < w, ∀ i < w, (outAt (Rtl.grayStep w) 0 (fun _ => ()) (t + 1)).getLsbD i
      = ((outAt (Rtl.grayStep w) 0 (fun _ => ()) t).getLsbD i ^^ decide (i = j)) := by
  have hb : ∀ t i, (outAt (Rtl.grayStep w) 0 (fun _ => ()) t).getLsbD i
      = ((decide (i + 1 < w) && t.testBit (i + 1)) ^^ (decide (i < w) && t.testBit i)) := by
    intro t i
    show ((outAt (Rtl.grayStep w) 0 (fun _ => ()) t).toNat).testBit i = _
    rw [gray_out, Nat.testBit_xor, Nat.testBit_div_two, Nat.testBit_mod_two_pow, Nat.testBit_mod_two_pow]
  obtain ⟨r1, r2⟩ := rz_bits t
  refine ⟨min (Gen.rightmostZero t) (w - 1), by omega, fun i hi => ?_⟩
  rw [hb, hb, testBit_succ, testBit_succ, decide_eq_true hi]
  simp only [Bool.true_and]
  have hA : ∀ i, (∀ l < i, t.testBit l = true) ↔ i ≤ Gen.rightmostZero t := by
    intro i
    constructor
    · intro h
      by_contra hc
      have := h _ (by omega : Gen.rightmostZero t < i)
      rw [r2] at this; exact absurd this (by decide)
    · intro h l hl; exact r1 l (by omega)
  simp only [hA]
  by_cases h1 : i + 1 < w
  · rw [decide_eq_true h1]
    simp only [Bool.true_and]
    rcases Nat.lt_trichotomy i (Gen.rightmostZero t) with h | h | h
    · rw [decide_eq_true (show i + 1 ≤ Gen.rightmostZero t by omega), decide_eq_true (show i ≤ Gen.rightmostZero t by omega),
        decide_eq_false (show ¬ i = min (Gen.rightmostZero t) (w - 1) by omega)]
      cases t.testBit i <;> cases t.testBit (i + 1) <;> rfl
    · rw [decide_eq_false (show ¬ i + 1 ≤ Gen.rightmostZero t by omega), decide_eq_true (show i ≤ Gen.rightmostZero t by omega),
        decide_eq_true (show i = min (Gen.rightmostZero t) (w - 1) by omega)]
      cases t.testBit i <;> cases t.testBit (i + 1) <;> rfl
    · rw [decide_eq_false (show ¬ i + 1 ≤ Gen.rightmostZero t by omega), decide_eq_false (show ¬ i ≤ Gen.rightmostZero t by omega),
        decide_eq_false (show ¬ i = min (Gen.rightmostZero t) (w - 1) by omega)]
      cases t.testBit i <;> cases t.testBit (i + 1) <;> rfl
  · rw [decide_eq_false h1]
    simp only [Bool.false_and, Bool.false_xor]
    congr 1
    rw [decide_eq_decide]; omega

/-- C80: two outputs of `grayCode` are equal only if the cycles are a multiple of `2^w` apart; hence every period shows every
number once. -/
theorem C80_gray_injective (w s t : ℕ) :
    outAt (Rtl.grayStep w) 0 (fun _ => ()) s = outAt (Rtl.grayStep w) 0 (fun _ => ()) t ↔ s % 2 ^ w = t % 2 ^ w := by
  rw [← BitVec.toNat_inj, gray_out, gray_out]
  constructor
  · generalize s % 2 ^ w = x
    generalize t % 2 ^ w = y
    intro h
    have hz : x ^^^ y = (x ^^^ y) / 2 := by
      rw [Nat.xor_div_two]
      have : x / 2 ^^^ x ^^^ (y / 2 ^^^ y) = 0 := by rw [h, Nat.xor_self]
      apply Nat.eq_of_testBit_eq
      intro i
      have := congrArg (fun z => z.testBit i) this
      simp only [Nat.testBit_xor, Nat.zero_testBit] at this ⊢
      cases h1 : (x / 2).testBit i <;> cases h2 : x.testBit i <;> cases h3 : (y / 2).testBit i <;> cases h4 : y.testBit i <;>
        simp [h1, h2, h3, h4] at this ⊢
    have : x ^^^ y = 0 := by omega
    exact Nat.xor_eq_zero_iff.1 this
  · intro h; rw [h]

/-! ## Halton numbers -/

/-- The radical inverse: the `k` lowest base `b` digits of `n`, reversed. -/
def Spec.radInv (b : ℕ) : ℕ → ℕ → ℕ
  | 0, _ => 0
  | k + 1, n => n % b * b ^ k + Spec.radInv b k (n / b)

private theorem radInv_lt {b : ℕ} (hb : 1 ≤ b) : ∀ k n, Spec.radInv b k n < b ^ k
  | 0, _ => by simp [Spec.radInv]
  | k + 1, n => by
    have h := radInv_lt hb k (n / b)
    have h2 : n % b + 1 ≤ b := Nat.mod_lt _ hb
    have h3 := Nat.mul_le_mul_right (b ^ k) h2
    rw [Spec.radInv, pow_succ']
    linarith [h3, add_mul (n % b) 1 (b ^ k)]

private theorem radInv_sum {b : ℕ} : ∀ k n, Spec.radInv b k n = ∑ j ∈ range k, n / b ^ j % b * b ^ (k - 1 - j)
  | 0, _ => rfl
  | k + 1, n => by
    rw [Spec.radInv, radInv_sum k, sum_range_succ', add_comm]
    congr 1
    · refine sum_congr rfl fun j hj => ?_
      rw [Nat.div_div_eq_div_mul, ← pow_succ', show k + 1 - 1 - (j + 1) = k - 1 - j by omega]
    · simp

private theorem radInv_top {b : ℕ} : ∀ k n, Spec.radInv b (k + 1) n = Spec.radInv b k n * b + n / b ^ k % b
  | 0, n => by simp [Spec.radInv]
  | k + 1, n => by
    rw [Spec.radInv, radInv_top k, Spec.radInv, Nat.div_div_eq_div_mul, ← pow_succ', pow_succ]
    ring

private theorem radInv_lead {b : ℕ} (hb : 1 ≤ b) (m d n : ℕ) : Spec.radInv b (m + d) n / b ^ d = Spec.radInv b m n := by
  induction d with
  | zero => simp
  | succ d ih =>
    rw [← add_assoc, radInv_top, pow_succ', ← Nat.div_div_eq_div_mul, mul_comm _ b, Nat.mul_add_div (by omega),
      Nat.div_eq_of_lt (Nat.mod_lt _ hb), add_zero, ih]

private theorem radInv_mod {b : ℕ} (hb : 1 ≤ b) : ∀ k n, Spec.radInv b k (n % b ^ k) = Spec.radInv b k n
  | 0, _ => rfl
  | k + 1, n => by
    rw [Spec.radInv, Spec.radInv, pow_succ', Nat.mod_mul_right_mod, Nat.mod_mul_right_div_self, radInv_mod hb k]

private theorem radInv_invol {b : ℕ} (hb : 1 ≤ b) : ∀ k n, n < b ^ k → Spec.radInv b k (Spec.radInv b k n) = n
  | 0, n, h => by simp [Spec.radInv] at h ⊢; omega
  | k + 1, n, h => by
    have hr := radInv_lt hb k (n / b)
    have hn : n / b < b ^ k := Nat.div_lt_of_lt_mul (by rwa [pow_succ'] at h)
    have h1 : Spec.radInv b (k + 1) n / b ^ k = n % b := by
      rw [Spec.radInv, mul_comm, Nat.mul_add_div (by positivity), Nat.div_eq_of_lt hr, add_zero]
    have h2 : Spec.radInv b k (Spec.radInv b (k + 1) n) = n / b := by
      rw [← radInv_mod hb, Spec.radInv, Nat.mul_add_mod', Nat.mod_eq_of_lt hr, radInv_invol hb k _ hn]
    rw [radInv_top, h1, h2, Nat.mod_mod]
    exact Nat.div_add_mod' n b

private theorem div_succ_pow {b : ℕ} (hb : 2 ≤ b) (j n : ℕ) :
    (n + 1) / b ^ j = n / b ^ j + if n % b ^ j + 1 = b ^ j then 1 else 0 := by
  have hp : 0 < b ^ j := by positivity
  have hm := Nat.mod_lt n hp
  conv_lhs => rw [← Nat.div_add_mod n (b ^ j), add_assoc, Nat.mul_add_div hp]
  congr 1
  split_ifs with h
  · rw [h, Nat.div_self hp]
  · exact Nat.div_eq_of_lt (by omega)

private theorem carry_iff {b : ℕ} (hb : 2 ≤ b) (j n : ℕ) :
    n % b ^ (j + 1) + 1 = b ^ (j + 1) ↔ n / b ^ j % b = b - 1 ∧ n % b ^ j + 1 = b ^ j := by
  have hp : 0 < b ^ j := by positivity
  have hm := Nat.mod_lt n hp
  have hd := Nat.mod_lt (n / b ^ j) (show 0 < b by omega)
  rw [pow_succ, Nat.mod_mul]
  constructor
  · intro h
    have h1 : n / b ^ j % b = b - 1 := by
      by_contra hc
      have : n / b ^ j % b + 2 ≤ b := by omega
      have := Nat.mul_le_mul_left (b ^ j) this
      rw [mul_add] at this
      omega
    refine ⟨h1, ?_⟩
    rw [h1] at h
    obtain ⟨c, rfl⟩ : ∃ c, b = c + 1 := ⟨b - 1, by omega⟩
    rw [Nat.add_sub_cancel, mul_add] at h
    omega
  · rintro ⟨h1, h2⟩
    rw [h1]
    obtain ⟨c, rfl⟩ : ∃ c, b = c + 1 := ⟨b - 1, by omega⟩
    rw [Nat.add_sub_cancel, mul_add]
    omega

private theorem cin_iff {b L k n : ℕ} (hb : 2 ≤ b) (s : ℕ → BitVec L) (h : ∀ j < k, (s j).toNat = n / b ^ j % b) :
    ∀ j ≤ k, Rtl.modCin b s j = true ↔ n % b ^ j + 1 = b ^ j := by
  intro j
  induction j with
  | zero => intro _; simp [Rtl.modCin, Nat.mod_one]
  | succ j ih =>
    intro hj
    rw [carry_iff hb, ← ih (by omega), Rtl.modCin, Rtl.modCout, h j (by omega)]
    simp

private theorem digits_next {b L k n : ℕ} (hb : 2 ≤ b) (hL : b ≤ 2 ^ L) (s : ℕ → BitVec L)
    (h : ∀ j < k, (s j).toNat = n / b ^ j % b) :
    ∀ j < k, (Rtl.digitsNext b k s j).toNat = (n + 1) / b ^ j % b := by
  intro j hj
  have hc := cin_iff hb s h j (by omega)
  have hd := Nat.mod_lt (n / b ^ j) (show 0 < b by omega)
  rw [Rtl.digitsNext, if_pos hj, Rtl.modNext, Rtl.modCout, div_succ_pow hb]
  by_cases h1 : Rtl.modCin b s j = true
  · rw [h1, if_pos (hc.1 h1), Bool.and_true, h j hj]
    by_cases h2 : n / b ^ j % b = b - 1
    · rw [if_pos (by simpa using h2)]
      have hz : ¬ s j = 0 := by
        intro h0
        have := h j hj
        rw [h0] at this
        simp at this
        omega
      have : (n / b ^ j + 1) % b = 0 := by
        rw [Nat.add_mod, h2, Nat.mod_eq_of_lt (show 1 < b by omega), show b - 1 + 1 = b by omega, Nat.mod_self]
      rw [decide_eq_false hz, this]
      simp [Rtl.bv]
    · rw [if_neg (by simpa using h2), BitVec.toNat_add, h j hj]
      have hL1 : (Rtl.bv L true).toNat = 1 := by
        show (BitVec.ofNat L 1).toNat = 1
        rw [BitVec.toNat_ofNat]
        exact Nat.mod_eq_of_lt (by omega)
      rw [hL1, Nat.mod_eq_of_lt (by omega), Nat.add_mod, Nat.mod_eq_of_lt (show 1 < b by omega),
        Nat.mod_eq_of_lt (show n / b ^ j % b + 1 < b by omega)]
  · have h1' : Rtl.modCin b s j = false := Bool.eq_false_of_not_eq_true h1
    rw [h1', Bool.and_false, if_neg (by decide), if_neg (fun h => h1 (hc.2 h)), add_zero]
    rw [BitVec.toNat_add, h j hj]
    have : (Rtl.bv L false).toNat = 0 := by simp [Rtl.bv]
    rw [this, add_zero, Nat.mod_eq_of_lt (by omega)]

private theorem halton2_state (k n : ℕ) :
    ∀ j < k, (stateAt (Rtl.halton2Step k) (fun _ => 0) (fun _ => ()) n j).toNat = n / 2 ^ j % 2 := by
  induction n with
  | zero => intro j _; simp [stateAt]
  | succ n ih =>
    rw [stateAt_succ]
    exact digits_next le_rfl (by norm_num) _ ih

private theorem halton_state {b L : ℕ} (hb : 2 ≤ b) (hL : b ≤ 2 ^ L) (k sw n : ℕ) :
    ∀ j < k, ((stateAt (Rtl.haltonStep b (L := L) k sw) (fun _ => 0, 0) (fun _ => ()) n).1 j).toNat = n / b ^ j % b := by
  induction n with
  | zero => intro j _; simp [stateAt]
  | succ n ih =>
    rw [stateAt_succ]
    exact digits_next hb hL _ ih

private theorem out2_eq (s : ℕ → BitVec 1) (n : ℕ) : ∀ k, (∀ j < k, (s j).toNat = n / 2 ^ j % 2) →
    (Rtl.halton2Out s k).toNat = Spec.radInv 2 k n
  | 0, _ => rfl
  | k + 1, h => by
    rw [Rtl.halton2Out, BitVec.toNat_concat, out2_eq s n k (fun j hj => h j (by omega)), radInv_top, ← h k (by omega)]
    congr 1
    have := (s k).isLt
    have hb : (s k).getLsbD 0 = (s k).toNat.testBit 0 := rfl
    rw [hb, Nat.testBit_zero]
    rcases (show (s k).toNat = 0 ∨ (s k).toNat = 1 by omega) with h0 | h0 <;> rw [h0] <;> rfl

/-- C80: `HaltonSeq2` shows the bit reversal of the cycle number. -/
theorem C80_halton2 (k t : ℕ) :
    (outAt (Rtl.halton2Step k) (fun _ => 0) (fun _ => ()) t).toNat = Spec.radInv 2 k t :=
  out2_eq _ t k (halton2_state k t)

/-- C80: `HaltonSeq3` and `HaltonSeq5` show, one cycle late, the base three and base five digit reversals of the cycle number;
no digit and no sum ever overflows its register. -/
theorem C80_halton {b L k sw : ℕ} (hb : 2 ≤ b) (hL : b ≤ 2 ^ L) (hsw : b ^ k ≤ 2 ^ sw) (t : ℕ) :
    (outAt (Rtl.haltonStep b (L := L) k sw) (fun _ => 0, 0) (fun _ => ()) (t + 1)).toNat = Spec.radInv b k t := by
  have hs := halton_state hb hL k sw t
  have hr := radInv_lt (b := b) (by omega) k t
  show ((stateAt (Rtl.haltonStep b (L := L) k sw) (fun _ => 0, 0) (fun _ => ()) (t + 1)).2).toNat = _
  rw [stateAt_succ]
  show (BitVec.ofNat sw _).toNat = _
  have : ∀ j ∈ range k, (BitVec.ofNat sw (((stateAt (Rtl.haltonStep b (L := L) k sw) (fun _ => 0, 0)
      (fun _ => ()) t).1 j).toNat * b ^ (k - 1 - j))).toNat = t / b ^ j % b * b ^ (k - 1 - j) := by
    intro j hj
    rw [hs j (mem_range.1 hj), BitVec.toNat_ofNat]
    refine Nat.mod_eq_of_lt (lt_of_le_of_lt ?_ (lt_of_lt_of_le hr hsw))
    rw [radInv_sum]
    exact single_le_sum (f := fun j => t / b ^ j % b * b ^ (k - 1 - j)) (fun _ _ => Nat.zero_le _) hj
  rw [sum_congr rfl this, ← radInv_sum, BitVec.toNat_ofNat, Nat.mod_eq_of_lt (lt_of_lt_of_le hr hsw)]

/-- C80: in every aligned block of `b^m` consecutive cycles each of the `b^m` equal intervals of the range is hit exactly once
(for `m = k`: every period is a permutation). -/
theorem C80_stratified {b k m : ℕ} (hb : 2 ≤ b) (hm : m ≤ k) (q c : ℕ) (hc : c < b ^ m) :
    ∃! t, q * b ^ m ≤ t ∧ t < (q + 1) * b ^ m ∧
      c * b ^ (k - m) ≤ Spec.radInv b k t ∧ Spec.radInv b k t < (c + 1) * b ^ (k - m) := by
  have hb1 : 1 ≤ b := by omega
  obtain ⟨d, rfl⟩ : ∃ d, k = m + d := ⟨k - m, by omega⟩
  rw [Nat.add_sub_cancel_left]
  have key : ∀ t, (c * b ^ d ≤ Spec.radInv b (m + d) t ∧ Spec.radInv b (m + d) t < (c + 1) * b ^ d) ↔
      Spec.radInv b m (t % b ^ m) = c := by
    intro t
    have hp : 0 < b ^ d := by positivity
    rw [radInv_mod hb1, ← radInv_lead hb1 m d t]
    constructor
    · rintro ⟨h1, h2⟩
      exact Nat.div_eq_of_lt_le h1 h2
    · intro h
      rw [← h]
      exact ⟨Nat.div_mul_le_self _ _, by rw [mul_comm]; exact Nat.lt_mul_div_succ _ hp⟩
  have hlt := radInv_lt hb1 m c
  refine ⟨q * b ^ m + Spec.radInv b m c, ⟨by omega, by rw [add_mul, one_mul]; omega, ?_⟩, ?_⟩
  · rw [key, Nat.mul_add_mod', Nat.mod_eq_of_lt hlt, radInv_invol hb1 m c hc]
  · rintro t ⟨h1, h2, h3⟩
    rw [key] at h3
    have hd : t / b ^ m = q := Nat.div_eq_of_lt_le h1 h2
    have h4 := radInv_invol hb1 m (t % b ^ m) (Nat.mod_lt _ (by positivity))
    rw [h3] at h4
    rw [h4, ← hd]
    exact (Nat.div_add_mod' t (b ^ m)).symm

private theorem ind_range (N a : ℕ) (h : a ≤ N) : ∑ c ∈ range N, (if c < a then (1 : ℤ) else 0) = a := by
  rw [← sum_filter, sum_const, show (range N).filter (fun c => c < a) = range a by ext; simp; omega]
  simp

private def cnt (b k v a n : ℕ) : ℤ := ∑ t ∈ range n, (if Spec.radInv b k (a + t) < v then (1 : ℤ) else 0)

private theorem cnt_add (b k v a n n' : ℕ) : cnt b k v a (n + n') = cnt b k v a n + cnt b k v (a + n) n' := by
  unfold cnt
  rw [sum_range_add]
  simp only [add_assoc]

private theorem cnt_block {b m d v : ℕ} (hb : 2 ≤ b) (hv : v ≤ b ^ (m + d)) (q : ℕ) :
    |cnt b (m + d) v (q * b ^ m) (b ^ m) * (b ^ d : ℕ) - v| ≤ (b ^ d : ℕ) ∧
      (d = 0 → cnt b (m + d) v (q * b ^ m) (b ^ m) = v) := by
  have hb1 : 1 ≤ b := by omega
  have hp : 0 < b ^ d := by positivity
  have hsum : cnt b (m + d) v (q * b ^ m) (b ^ m)
      = ∑ c ∈ range (b ^ m), (if Spec.radInv b (m + d) (q * b ^ m + Spec.radInv b m c) < v then (1 : ℤ) else 0) := by
    unfold cnt
    refine sum_nbij' (Spec.radInv b m) (Spec.radInv b m) ?_ ?_ ?_ ?_ ?_
    · intro t _; exact mem_range.2 (radInv_lt hb1 m t)
    · intro t _; exact mem_range.2 (radInv_lt hb1 m t)
    · intro t ht; exact radInv_invol hb1 m t (mem_range.1 ht)
    · intro t ht; exact radInv_invol hb1 m t (mem_range.1 ht)
    · intro t ht; rw [radInv_invol hb1 m t (mem_range.1 ht)]
  have hx : ∀ c ∈ range (b ^ m), Spec.radInv b (m + d) (q * b ^ m + Spec.radInv b m c) / b ^ d = c := by
    intro c hc
    rw [radInv_lead hb1, ← radInv_mod hb1, Nat.mul_add_mod', Nat.mod_eq_of_lt (radInv_lt hb1 m c),
      radInv_invol hb1 m c (mem_range.1 hc)]
  have hvd : v / b ^ d ≤ b ^ m := Nat.div_le_of_le_mul (by rwa [pow_add, mul_comm] at hv)
  have hdm := Nat.div_add_mod v (b ^ d)
  have hml := Nat.mod_lt v hp
  have lo : (v / b ^ d : ℕ) ≤ cnt b (m + d) v (q * b ^ m) (b ^ m) := by
    rw [hsum, ← ind_range _ _ hvd]
    refine sum_le_sum fun c hc => ?_
    have := hx c hc
    generalize Spec.radInv b (m + d) (q * b ^ m + Spec.radInv b m c) = x at *
    by_cases h : c < v / b ^ d
    · rw [if_pos h, if_pos]
      by_contra hn
      have := Nat.div_le_div_right (c := b ^ d) (show v ≤ x by omega)
      omega
    · rw [if_neg h]; split_ifs <;> norm_num
  have hi : cnt b (m + d) v (q * b ^ m) (b ^ m) ≤ (v / b ^ d + if v % b ^ d = 0 then 0 else 1 : ℕ) := by
    have hle : v / b ^ d + (if v % b ^ d = 0 then 0 else 1) ≤ b ^ m := by
      split_ifs with h0
      · simpa using hvd
      · by_contra hn
        have h1 : v / b ^ d = b ^ m := by omega
        rw [h1] at hdm
        rw [pow_add, mul_comm] at hv
        exact h0 (Nat.le_zero.1 (by linarith))
    rw [hsum, ← ind_range _ _ hle]
    refine sum_le_sum fun c hc => ?_
    have := hx c hc
    generalize Spec.radInv b (m + d) (q * b ^ m + Spec.radInv b m c) = x at *
    by_cases h : x < v
    · rw [if_pos h, if_pos]
      have h1 := Nat.div_le_div_right (c := b ^ d) (show x ≤ v by omega)
      split_ifs with h0
      · have h2 : ¬ c = v / b ^ d := by
          intro h2
          have h4 := Nat.div_mul_le_self x (b ^ d)
          rw [h0, mul_comm, add_zero] at hdm
          rw [this, h2, hdm] at h4
          omega
        omega
      · omega
    · rw [if_neg h]; split_ifs <;> norm_num
  constructor
  · have hdm' : ((b ^ d : ℕ) : ℤ) * (v / b ^ d : ℕ) + (v % b ^ d : ℕ) = v := by exact_mod_cast hdm
    have hp' : (0 : ℤ) < (b ^ d : ℕ) := by exact_mod_cast hp
    have hml' : ((v % b ^ d : ℕ) : ℤ) < (b ^ d : ℕ) := by exact_mod_cast hml
    have h0 : (0 : ℤ) ≤ (v % b ^ d : ℕ) := by positivity
    have hi' : cnt b (m + d) v (q * b ^ m) (b ^ m) ≤ (v / b ^ d : ℕ) + 1 := by
      refine hi.trans ?_
      push_cast
      split_ifs <;> simp
    rw [abs_le]
    constructor <;> nlinarith
  · rintro rfl
    have h0 : v % b ^ 0 = 0 := by simp [Nat.mod_one]
    rw [if_pos h0] at hi
    simp at hi lo ⊢
    omega

private theorem cnt_blocks {b m d v : ℕ} (hb : 2 ≤ b) (hv : v ≤ b ^ (m + d)) (q e : ℕ) :
    |cnt b (m + d) v (q * b ^ m) (e * b ^ m) * (b ^ d : ℕ) - e * v| ≤ e * (b ^ d : ℕ) := by
  induction e with
  | zero => simp [cnt]
  | succ e ih =>
    have h := (cnt_block hb hv (q + e)).1
    rw [Nat.succ_mul, cnt_add, ← add_mul]
    rw [abs_le] at *
    push_cast at *
    constructor <;> nlinarith [ih.1, ih.2, h.1, h.2]

private theorem cnt_prefix {b k v : ℕ} (hb : 2 ≤ b) (hv : v ≤ b ^ k) (m : ℕ) (hm : m ≤ k) :
    ∀ q n, n < b ^ m → |cnt b k v (q * b ^ m) n * (b ^ k : ℕ) - n * v| ≤ m * (b - 1) * (b ^ k : ℕ) := by
  induction m with
  | zero =>
    intro q n hn
    have : n = 0 := by simpa using hn
    subst this
    simp [cnt]
  | succ m ih =>
    intro q n hn
    have hp : 0 < b ^ m := by positivity
    obtain ⟨d, rfl⟩ : ∃ d, k = m + d := ⟨k - m, by omega⟩
    set e := n / b ^ m with he
    set r := n % b ^ m with hr
    have hn' : n = e * b ^ m + r := (Nat.div_add_mod' n (b ^ m)).symm
    have hel : e < b := Nat.div_lt_of_lt_mul (by rwa [pow_succ] at hn)
    have h1 := cnt_blocks hb hv (q * b) e
    have h2 := ih (by omega) (q * b + e) r (Nat.mod_lt _ hp)
    have hq : q * b ^ (m + 1) = q * b * b ^ m := by ring
    rw [hn', hq, cnt_add, ← add_mul]
    have hpm : (0 : ℤ) < (b ^ m : ℕ) := by exact_mod_cast hp
    have hpk : (0 : ℤ) < (b ^ (m + d) : ℕ) := by positivity
    have hpp : ((b ^ (m + d) : ℕ) : ℤ) = (b ^ m : ℕ) * (b ^ d : ℕ) := by push_cast; ring
    have h1' : |(cnt b (m + d) v (q * b * b ^ m) (e * b ^ m) * (b ^ d : ℕ) - e * v) * (b ^ m : ℕ)|
        ≤ e * (b ^ (m + d) : ℕ) := by
      rw [abs_mul, abs_of_pos hpm, hpp]
      nlinarith
    have he' : (e : ℤ) ≤ b - 1 := by
      have : (e : ℤ) < b := by exact_mod_cast hel
      omega
    have h3 : (e : ℤ) * (b ^ (m + d) : ℕ) ≤ (b - 1) * (b ^ (m + d) : ℕ) := mul_le_mul_of_nonneg_right he' hpk.le
    have e1 : (cnt b (m + d) v (q * b * b ^ m) (e * b ^ m) + cnt b (m + d) v ((q * b + e) * b ^ m) r) * (b ^ (m + d) : ℕ)
        - ((e * b ^ m + r : ℕ) : ℤ) * v
        = (cnt b (m + d) v (q * b * b ^ m) (e * b ^ m) * (b ^ d : ℕ) - e * v) * (b ^ m : ℕ)
          + (cnt b (m + d) v ((q * b + e) * b ^ m) r * (b ^ (m + d) : ℕ) - r * v) := by
      rw [hpp]; push_cast; ring
    rw [e1]
    refine (abs_add_le _ _).trans ((add_le_add (h1'.trans h3) h2).trans (le_of_eq ?_))
    push_cast; ring

private theorem cnt_periods {b k v : ℕ} (hb : 2 ≤ b) (hv : v ≤ b ^ k) (p : ℕ) : cnt b k v 0 (p * b ^ k) = p * v := by
  induction p with
  | zero => simp [cnt]
  | succ p ih =>
    have h := (cnt_block (m := k) (d := 0) hb hv p).2 rfl
    rw [Nat.succ_mul, cnt_add, ih, zero_add]
    rw [add_zero] at h
    rw [h]; push_cast; ring

private theorem radInv_rate {b k v : ℕ} (hb : 2 ≤ b) (hv : v ≤ b ^ k) (n : ℕ) :
    |((∑ t ∈ range n, if Spec.radInv b k t < v then (1 : ℤ) else 0 : ℤ) : ℚ) - n * v / (b : ℚ) ^ k| ≤ (b - 1) * k ∧
      (b ^ k ∣ n → ((∑ t ∈ range n, if Spec.radInv b k t < v then (1 : ℤ) else 0 : ℤ) : ℚ) = n * v / (b : ℚ) ^ k) := by
  have hp : 0 < b ^ k := by positivity
  have hpq : (0 : ℚ) < (b : ℚ) ^ k := by positivity
  have hs : (∑ t ∈ range n, if Spec.radInv b k t < v then (1 : ℤ) else 0 : ℤ) = cnt b k v 0 n := by
    unfold cnt; simp only [zero_add]
  have hn : n = n / b ^ k * b ^ k + n % b ^ k := (Nat.div_add_mod' n (b ^ k)).symm
  have hc : cnt b k v 0 n = (n / b ^ k : ℕ) * v + cnt b k v (n / b ^ k * b ^ k) (n % b ^ k) := by
    conv_lhs => rw [hn]
    rw [cnt_add, cnt_periods hb hv, zero_add]
  have hpre := cnt_prefix hb hv k le_rfl (n / b ^ k) (n % b ^ k) (Nat.mod_lt _ hp)
  have hnz : (n : ℤ) = (n / b ^ k : ℕ) * (b ^ k : ℕ) + (n % b ^ k : ℕ) := by exact_mod_cast hn
  rw [hs]
  constructor
  · have hz : |cnt b k v 0 n * (b ^ k : ℕ) - n * v| ≤ k * (b - 1) * (b ^ k : ℕ) := by
      refine le_trans (le_of_eq ?_) hpre
      congr 1
      rw [hc, hnz]; ring
    have hq : |((cnt b k v 0 n : ℤ) : ℚ) * (b : ℚ) ^ k - n * v| ≤ k * (b - 1) * (b : ℚ) ^ k := by exact_mod_cast hz
    rw [show ((cnt b k v 0 n : ℤ) : ℚ) - n * v / (b : ℚ) ^ k = (((cnt b k v 0 n : ℤ) : ℚ) * (b : ℚ) ^ k - n * v) / (b : ℚ) ^ k by
      field_simp, abs_div, abs_of_pos hpq, div_le_iff₀ hpq]
    linarith
  · rintro ⟨p, rfl⟩
    rw [mul_comm, cnt_periods hb hv]
    push_cast
    field_simp

/-- C80: a comparator driven by `HaltonSeq3` or `HaltonSeq5` is accurate after any number `n` of cycles (the reset value aside):
the number of cycles in which the number shown was below `v` differs from `n v / b^k` by at most `(b-1) k`, and not at all after
whole periods. -/
theorem C80_halton_rate {b L k sw v : ℕ} (hb : 2 ≤ b) (hL : b ≤ 2 ^ L) (hsw : b ^ k ≤ 2 ^ sw) (hv : v ≤ b ^ k) (n : ℕ) :
    |((∑ t ∈ range n, Spec.num (decide
        ((outAt (Rtl.haltonStep b (L := L) k sw) (fun _ => 0, 0) (fun _ => ()) (t + 1)).toNat < v)) : ℤ) : ℚ)
        - n * v / (b : ℚ) ^ k| ≤ (b - 1) * k ∧
      (b ^ k ∣ n → ((∑ t ∈ range n, Spec.num (decide
        ((outAt (Rtl.haltonStep b (L := L) k sw) (fun _ => 0, 0) (fun _ => ()) (t + 1)).toNat < v)) : ℤ) : ℚ)
        = n * v / (b : ℚ) ^ k) := by
  have h : ∀ t, Spec.num (decide
      ((outAt (Rtl.haltonStep b (L := L) k sw) (fun _ => 0, 0) (fun _ => ()) (t + 1)).toNat < v))
      = if Spec.radInv b k t < v then (1 : ℤ) else 0 := by
    intro t
    rw [C80_halton hb hL hsw]
    by_cases h : Spec.radInv b k t < v <;> simp [Spec.num, h]
  simp only [h]
  exact radInv_rate hb hv n

/-- C80: the same for `HaltonSeq2`. -/
theorem C80_halton2_rate {k v : ℕ} (hv : v ≤ 2 ^ k) (n : ℕ) :
    |((∑ t ∈ range n, Spec.num (decide ((outAt (Rtl.halton2Step k) (fun _ => 0) (fun _ => ()) t).toNat < v)) : ℤ) : ℚ)
        - n * v / (2 : ℚ) ^ k| ≤ k ∧
      (2 ^ k ∣ n → ((∑ t ∈ range n,
        Spec.num (decide ((outAt (Rtl.halton2Step k) (fun _ => 0) (fun _ => ()) t).toNat < v)) : ℤ) : ℚ)
        = n * v / (2 : ℚ) ^ k) := by
  have h : ∀ t, Spec.num (decide ((outAt (Rtl.halton2Step k) (fun _ => 0) (fun _ => ()) t).toNat < v))
      = if Spec.radInv 2 k t < v then (1 : ℤ) else 0 := by
    intro t
    rw [C80_halton2]
    by_cases h : Spec.radInv 2 k t < v <;> simp [Spec.num, h]
  simp only [h]
  have := radInv_rate (b := 2) le_rfl hv n
  norm_num at this ⊢
  exact this

/-- Non-vacuity: the three shipped configurations. -/
example (t : ℕ) :
    (outAt (Rtl.haltonStep 3 (L := 2) 5 8) (fun _ => 0, 0) (fun _ => ()) (t + 1)).toNat = Spec.radInv 3 5 t ∧
    (outAt (Rtl.haltonStep 5 (L := 3) 3 7) (fun _ => 0, 0) (fun _ => ()) (t + 1)).toNat = Spec.radInv 5 3 t ∧
    (outAt (Rtl.halton2Step 8) (fun _ => 0) (fun _ => ()) t).toNat = Spec.radInv 2 8 t :=
  ⟨C80_halton (by norm_num) (by norm_num) (by norm_num) t, C80_halton (by norm_num) (by norm_num) (by norm_num) t, C80_halton2 8 t⟩

example : (List.range 9).map (Spec.radInv 3 5) = [0, 81, 162, 27, 108, 189, 54, 135, 216] := by decide +kernel

example : (List.range 8).map (fun t => (outAt (Rtl.grayStep 3) 0 (fun _ => ()) t).toNat) = [0, 1, 3, 2, 6, 7, 5, 4] := by
  decide +kernel

end Verif.Props
