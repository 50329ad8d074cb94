import Verif.Props.RtlDiv
import Verif.Model.RtlMore

/-!
# Property C76: the remaining hardware dividers and square roots
-/

namespace Verif.Props

open Verif Finset

/-- The bipolar number on a wire: `1` or `-1`. -/
def Spec.pm (b : Bool) : ℤ := 2 * Spec.num b - 1

/-- The wire one cycle earlier; low before the first cycle. -/
def Spec.late (x : ℕ → Bool) : ℕ → Bool
  | 0 => false
  | t + 1 => x t

/-- Cycles among the first `n` in which the counter is empty. -/
def Spec.emptyCycles {d : ℕ} (c : ℕ → BitVec d) (n : ℕ) : ℕ := ((range n).filter fun t => c t = 0).card

/-! ## Counter based: GDIV_B, GSQRT_B -/

private theorem upDown_step {d : ℕ} (c : BitVec d) (inc dec : Bool) :
    ((Rtl.upDown d c inc dec).toNat : ℤ) ≤ c.toNat + Spec.num inc - Spec.num dec + (if c = 0 then 1 else 0) ∧
    (c.toNat : ℤ) + Spec.num inc - Spec.num dec ≤ (Rtl.upDown d c inc dec).toNat + (if c = BitVec.allOnes d then 1 else 0) := by
  have hi := bv_inc c
  have hde := bv_dec c
  have hf := bv_full c
  have hz := bv_zero c
  unfold Rtl.upDown
  generalize c + 1 = c1 at *
  generalize c - 1 = c2 at *
  by_cases h1 : c = BitVec.allOnes d <;> by_cases h0 : c = 0
  · simp only [if_pos h1, if_pos h0, decide_eq_true h1, decide_eq_true h0]
    cases inc <;> cases dec <;> simp [Spec.num]
    all_goals omega
  · have e := hde (fun h => h0 (hz.2 h))
    have : c.toNat ≠ 0 := fun h => h0 (hz.2 h)
    simp only [if_pos h1, if_neg h0, decide_eq_true h1, decide_eq_false h0]
    cases inc <;> cases dec <;> simp [Spec.num]
    all_goals omega
  · have e := hi (fun h => h1 (hf.2 h))
    simp only [if_neg h1, if_pos h0, decide_eq_false h1, decide_eq_true h0]
    cases inc <;> cases dec <;> simp [Spec.num]
    all_goals omega
  · have e := hi (fun h => h1 (hf.2 h))
    have e2 := hde (fun h => h0 (hz.2 h))
    have : c.toNat ≠ 0 := fun h => h0 (hz.2 h)
    simp only [if_neg h1, if_neg h0, decide_eq_false h1, decide_eq_false h0]
    cases inc <;> cases dec <;> simp [Spec.num]
    all_goals omega

private theorem half_toNat {d : ℕ} (hd : 1 ≤ d) : (Rtl.half d).toNat = 2 ^ (d - 1) := by
  unfold Rtl.half
  rw [BitVec.toNat_twoPow, Nat.mod_eq_of_lt (Nat.pow_lt_pow_right (by norm_num) (by omega))]

theorem upDown_balance {d : ℕ} (hd : 1 ≤ d) (c : ℕ → BitVec d) (h0 : c 0 = Rtl.half d) (inc dec : ℕ → Bool)
    (hs : ∀ t, c (t + 1) = Rtl.upDown d (c t) (inc t) (dec t)) (e : ℕ → ℤ)
    (he : ∀ t, e t = 2 * (Spec.num (inc t) - Spec.num (dec t))) (n : ℕ) :
    ∑ t ∈ range n, e t ≤ 2 * (2 ^ (d - 1) - 1 + Spec.fullCycles c n) ∧
    -2 * (2 ^ (d - 1) + Spec.emptyCycles c n : ℤ) ≤ ∑ t ∈ range n, e t := by
  have inv : 2 * ((c n).toNat : ℤ) ≤ 2 * 2 ^ (d - 1) + ∑ t ∈ range n, e t + 2 * Spec.emptyCycles c n ∧
      2 * 2 ^ (d - 1) + ∑ t ∈ range n, e t ≤ 2 * (c n).toNat + 2 * Spec.fullCycles c n := by
    induction n with
    | zero => rw [h0, half_toNat hd]; simp [Spec.fullCycles, Spec.emptyCycles]
    | succ n ih =>
        have h := upDown_step (c n) (inc n) (dec n)
        rw [← hs] at h
        have hf : (Spec.fullCycles c (n + 1) : ℤ) = Spec.fullCycles c n + (if c n = BitVec.allOnes d then 1 else 0) := by
          unfold Spec.fullCycles
          rw [range_add_one, filter_insert]
          split_ifs with h
          · rw [card_insert_of_notMem (by simp)]; push_cast; ring
          · ring
        have hg : (Spec.emptyCycles c (n + 1) : ℤ) = Spec.emptyCycles c n + (if c n = 0 then 1 else 0) := by
          unfold Spec.emptyCycles
          rw [range_add_one, filter_insert]
          split_ifs with h
          · rw [card_insert_of_notMem (by simp)]; push_cast; ring
          · ring
        rw [sum_range_succ, he n, hf, hg]
        constructor <;> omega
  have hlt := (c n).isLt
  have h2 : ((2:ℤ) ^ d) = 2 * 2 ^ (d - 1) := by
    rw [← pow_succ']; congr 1; omega
  have hlt' : ((c n).toNat : ℤ) < 2 ^ d := by exact_mod_cast hlt
  constructor <;> omega

/-- The counter of `GDIV_B` and its quotients. -/
def gdivBCnt (d : ℕ) (r : ℕ → BitVec d) (x y : ℕ → Bool) (t : ℕ) : BitVec d :=
  (stateAt (Rtl.gdivBStep d) (Rtl.half d, false) (fun t => (r t, x t, y t)) t).1
def gdivBOut (d : ℕ) (r : ℕ → BitVec d) (x y : ℕ → Bool) (t : ℕ) : Bool :=
  outAt (Rtl.gdivBStep d) (Rtl.half d, false) (fun t => (r t, x t, y t)) t

/-- C76: whatever the random numbers and the streams, the bipolar divider `GDIV_B` keeps the sum of
`divisor · dividend - divisor · (divisor one cycle earlier) · quotient` between `-2 (2^(d-1) + empty cycles)` and
`2 (2^(d-1) - 1 + full cycles)`. -/
theorem C76_gdiv {d : ℕ} (hd : 1 ≤ d) (r : ℕ → BitVec d) (x y : ℕ → Bool) (n : ℕ) :
    ∑ t ∈ range n, (Spec.pm (y t) * Spec.pm (x t) - Spec.pm (y t) * Spec.pm (Spec.late y t) * Spec.pm (gdivBOut d r x y t))
      ≤ 2 * (2 ^ (d - 1) - 1 + Spec.fullCycles (gdivBCnt d r x y) n) ∧
    -2 * (2 ^ (d - 1) + Spec.emptyCycles (gdivBCnt d r x y) n : ℤ)
      ≤ ∑ t ∈ range n,
        (Spec.pm (y t) * Spec.pm (x t) - Spec.pm (y t) * Spec.pm (Spec.late y t) * Spec.pm (gdivBOut d r x y t)) := by
  have hl : ∀ t, (stateAt (Rtl.gdivBStep d) (Rtl.half d, false) (fun t => (r t, x t, y t)) t).2 = Spec.late y t := by
    intro t; cases t <;> rfl
  have key : ∀ a b c q : Bool, Spec.pm b * Spec.pm a - Spec.pm b * Spec.pm c * Spec.pm q
      = 2 * (Spec.num (!(b ^^ a) && !(!(b ^^ c) ^^ !q)) - Spec.num (!(!(b ^^ a)) && !(!(!(b ^^ c) ^^ !q)))) := by decide
  refine upDown_balance hd (gdivBCnt d r x y) rfl
    (fun t => !(y t ^^ x t) && !(!(y t ^^ Spec.late y t) ^^ !gdivBOut d r x y t))
    (fun t => !(!(y t ^^ x t)) && !(!(!(y t ^^ Spec.late y t) ^^ !gdivBOut d r x y t))) (fun t => ?_) _
    (fun t => key _ _ _ _) n
  simp only [← hl]
  rfl

/-- The counter of `GSQRT_B` and its outputs. -/
def gsqrtBCnt (d : ℕ) (r : ℕ → BitVec d) (x : ℕ → Bool) (t : ℕ) : BitVec d :=
  (stateAt (Rtl.gsqrtBStep d) (Rtl.half d, false) (fun t => (r t, x t)) t).1
def gsqrtBOut (d : ℕ) (r : ℕ → BitVec d) (x : ℕ → Bool) (t : ℕ) : Bool :=
  outAt (Rtl.gsqrtBStep d) (Rtl.half d, false) (fun t => (r t, x t)) t

/-- C76: and the bipolar square root `GSQRT_B` keeps the sum of `input - output · (output one cycle earlier)` within the same
bounds. -/
theorem C76_gsqrt {d : ℕ} (hd : 1 ≤ d) (r : ℕ → BitVec d) (x : ℕ → Bool) (n : ℕ) :
    ∑ t ∈ range n, (Spec.pm (x t) - Spec.pm (gsqrtBOut d r x t) * Spec.pm (Spec.late (gsqrtBOut d r x) t))
      ≤ 2 * (2 ^ (d - 1) - 1 + Spec.fullCycles (gsqrtBCnt d r x) n) ∧
    -2 * (2 ^ (d - 1) + Spec.emptyCycles (gsqrtBCnt d r x) n : ℤ)
      ≤ ∑ t ∈ range n, (Spec.pm (x t) - Spec.pm (gsqrtBOut d r x t) * Spec.pm (Spec.late (gsqrtBOut d r x) t)) := by
  have hl : ∀ t, (stateAt (Rtl.gsqrtBStep d) (Rtl.half d, false) (fun t => (r t, x t)) t).2 = Spec.late (gsqrtBOut d r x) t := by
    intro t; cases t <;> rfl
  have key : ∀ a b c : Bool, Spec.pm a - Spec.pm b * Spec.pm c = 2 * (Spec.num a - Spec.num (!(b ^^ c))) := by decide
  refine upDown_balance hd (gsqrtBCnt d r x) rfl x
    (fun t => !(gsqrtBOut d r x t ^^ Spec.late (gsqrtBOut d r x) t)) (fun t => ?_) _ (fun t => key _ _ _) n
  simp only [← hl]
  rfl

/-- Example: four bits, dividend `-1/2`, divisor `1/3`: over 32 cycles the counter is never full nor empty, so the sum of
`C76_gdiv` stays within `16`; the quotients add up to `-8`. -/
example : Spec.fullCycles (gdivBCnt 4 (fun t => BitVec.ofNat 4 (7 * t)) (fun t => decide (t % 4 = 0)) (fun t => decide (t % 3 ≠ 0))) 32 = 0 ∧
    Spec.emptyCycles (gdivBCnt 4 (fun t => BitVec.ofNat 4 (7 * t)) (fun t => decide (t % 4 = 0)) (fun t => decide (t % 3 ≠ 0))) 32 = 0 ∧
    ∑ t ∈ range 32, Spec.pm (gdivBOut 4 (fun t => BitVec.ofNat 4 (7 * t)) (fun t => decide (t % 4 = 0)) (fun t => decide (t % 3 ≠ 0)) t) = -8 := by
  decide +kernel

/-- Example: the square root with four bits of `1/2`; the counter is never full, the outputs add up to `20` (`22.6` wanted). -/
example : Spec.fullCycles (gsqrtBCnt 4 (fun t => BitVec.ofNat 4 (7 * t)) (fun t => decide (t % 4 ≠ 0))) 32 = 0 ∧
    ∑ t ∈ range 32, Spec.pm (gsqrtBOut 4 (fun t => BitVec.ofNat 4 (7 * t)) (fun t => decide (t % 4 ≠ 0)) t) = 20 := by
  decide +kernel

/-! ## In-stream dividers -/

/-- Quotients of the in-stream dividers. -/
def isUOut (bw dep : ℕ) (r : ℕ → BitVec bw) (k : ℕ → ℕ) (x y : ℕ → Bool) (t : ℕ) : Bool :=
  outAt (Rtl.corIsUStep bw) (Rtl.isInit bw dep) (fun t => (r t, k t, x t, y t)) t
def isBOut (bw dep : ℕ) (r : ℕ → BitVec bw) (k : ℕ → ℕ) (x y : ℕ → Bool) (t : ℕ) : Bool :=
  outAt (Rtl.corIsBStep bw) (Rtl.isInit bw dep) (fun t => (r t, k t, x t, y t)) t

/-- The bit regenerated from a stream by the unipolar divider: the random number against the ones minus the zeros received so
far, modulo `2^bw`. -/
def Spec.regen (bw : ℕ) (r : ℕ → BitVec bw) (x : ℕ → Bool) (t : ℕ) : Bool :=
  decide (((r t).toNat : ℤ) < Verif.Spec.walk (Spec.nums x) t % 2 ^ bw)

theorem isCount_toNat {bw : ℕ} (c : BitVec bw) (b : Bool) (w : ℤ) (h : (c.toNat : ℤ) = w % 2 ^ bw) :
    ((Rtl.isCount bw c b).toNat : ℤ) = (w + (2 * Spec.num b - 1)) % 2 ^ bw := by
  have e : ∀ (v : BitVec bw) (z : ℤ), v = BitVec.ofInt bw z → (v.toNat : ℤ) = z % 2 ^ bw := by
    rintro v z rfl
    rw [BitVec.toNat_ofInt]
    have h2 : ((2 ^ bw : ℕ) : ℤ) = 2 ^ bw := by push_cast; rfl
    rw [h2, Int.toNat_of_nonneg (Int.emod_nonneg _ (by positivity))]
  have hc : c = BitVec.ofInt bw w := by
    apply BitVec.eq_of_toNat_eq
    have := e (BitVec.ofInt bw w) w rfl
    omega
  apply e
  subst hc
  cases b
  · show BitVec.ofInt bw w - 1 = BitVec.ofInt bw (w + -1)
    rw [BitVec.ofInt_add, BitVec.sub_eq_add_neg, BitVec.ofInt_neg]
    rfl
  · show BitVec.ofInt bw w + 1 = BitVec.ofInt bw (w + 1)
    rw [BitVec.ofInt_add]
    congr 1

private theorem isU_state (bw dep : ℕ) (r : ℕ → BitVec bw) (k : ℕ → ℕ) (x y : ℕ → Bool) (n : ℕ) :
    let s := stateAt (Rtl.corIsUStep bw) (Rtl.isInit bw dep) (fun t => (r t, k t, x t, y t)) n
    (s.num.toNat : ℤ) = Verif.Spec.walk (Spec.nums x) n % 2 ^ bw ∧ (s.den.toNat : ℤ) = Verif.Spec.walk (Spec.nums y) n % 2 ^ bw ∧
    s.sr = stateAt Rtl.corStep (Rtl.corInit dep) (fun t => (k t, Spec.regen bw r x t, Spec.regen bw r y t)) n := by
  induction n with
  | zero => exact ⟨by simp [stateAt, Rtl.isInit, Verif.Spec.walk], by simp [stateAt, Rtl.isInit, Verif.Spec.walk], rfl⟩
  | succ n ih =>
      obtain ⟨h1, h2, h3⟩ := ih
      refine ⟨?_, ?_, ?_⟩
      · rw [stateAt_succ, Verif.Spec.walk_succ]
        exact isCount_toNat _ _ _ h1
      · rw [stateAt_succ, Verif.Spec.walk_succ]
        exact isCount_toNat _ _ _ h2
      · rw [stateAt_succ, stateAt_succ, ← h3]
        unfold Spec.regen
        rw [← h1, ← h2]
        simp only [Nat.cast_lt]
        rfl

/-- C76: the unipolar in-stream divider is the kernel `CORDIV_kernel` applied to two regenerated streams; a regenerated bit
compares the random number with the ones minus the zeros of the stream so far, wrapped to `bw` bits. -/
theorem C76_in_stream (bw dep : ℕ) (r : ℕ → BitVec bw) (k : ℕ → ℕ) (x y : ℕ → Bool) (t : ℕ) :
    isUOut bw dep r k x y t = hwCor dep k (Spec.regen bw r x) (Spec.regen bw r y) t := by
  obtain ⟨h1, h2, h3⟩ := isU_state bw dep r k x y t
  unfold hwCor isUOut outAt
  rw [← h3]
  unfold Spec.regen
  beta_reduce
  rw [← h1, ← h2]
  simp only [Nat.cast_lt]
  rfl

/-- C76: because of the wrap-around, nought divided by one reads one: with a dividend that is never one and a divisor that is
always one the quotient is one in every cycle whose random number is below both the cycle number and `2^bw` minus it. -/
theorem C76_in_stream_wrap (bw dep : ℕ) (r : ℕ → BitVec bw) (k : ℕ → ℕ) (t : ℕ) (h1 : (r t).toNat < t)
    (h2 : (r t).toNat + t < 2 ^ bw) : isUOut bw dep r k (fun _ => false) (fun _ => true) t = true := by
  have w0 : Verif.Spec.walk (Spec.nums fun _ => false) t = -t := by
    simp [Verif.Spec.walk, Spec.nums, Spec.num]
  have w1 : Verif.Spec.walk (Spec.nums fun _ => true) t = t := by
    simp [Verif.Spec.walk, Spec.nums, Spec.num]
  have h2' : ((r t).toNat : ℤ) + t < 2 ^ bw := by exact_mod_cast h2
  have n1 : Spec.regen bw r (fun _ => false) t = true := by
    unfold Spec.regen
    rw [w0, decide_eq_true_eq]
    have : (-(t : ℤ)) % 2 ^ bw = 2 ^ bw - t := by
      rw [← Int.add_emod_right, Int.emod_eq_of_lt (by omega) (by omega)]; ring
    omega
  have d1 : Spec.regen bw r (fun _ => true) t = true := by
    unfold Spec.regen
    rw [w1, decide_eq_true_eq, Int.emod_eq_of_lt (by omega) (by omega)]
    omega
  rw [C76_in_stream]
  show (if Spec.regen bw r (fun _ => true) t then Spec.regen bw r (fun _ => false) t else _) = true
  rw [d1, n1]; rfl

/-- The magnitude bit of the bipolar in-stream divider: the random number against `2^bw` minus the distance from zero. -/
def Spec.regenAbs (bw : ℕ) (r : ℕ → BitVec bw) (x : ℕ → Bool) (t : ℕ) : Bool :=
  decide (((r t).toNat : ℤ) < (-|Verif.Spec.walk (Spec.nums x) t|) % 2 ^ bw)

private theorem isAbs_toNat {bw : ℕ} (hb : 1 ≤ bw) (c : BitVec bw) (w : ℤ) (h : (c.toNat : ℤ) = w % 2 ^ bw)
    (hw : |w| < 2 ^ (bw - 1)) :
    ((Rtl.isAbs bw c).toNat : ℤ) = (-|w|) % 2 ^ bw ∧ Rtl.isSign bw c = decide (0 ≤ w) := by
  have h2 : ((2:ℤ) ^ bw) = 2 * 2 ^ (bw - 1) := by rw [← pow_succ']; congr 1; omega
  have hP : (0:ℤ) < 2 ^ (bw - 1) := by positivity
  have n2 : (2 ^ bw : ℕ) = 2 * 2 ^ (bw - 1) := by rw [← pow_succ']; congr 1; omega
  have hlt := c.isLt
  have cast1 : (((2 ^ (bw - 1) : ℕ)) : ℤ) = 2 ^ (bw - 1) := by push_cast; rfl
  generalize hPP : (2:ℤ) ^ (bw - 1) = P at *
  generalize hNN : (2:ℕ) ^ (bw - 1) = N at *
  have hs : Rtl.isSign bw c = decide (0 ≤ w) := by
    unfold Rtl.isSign
    rw [BitVec.msb_eq_decide, hNN, ← decide_not, decide_eq_decide]
    rw [abs_lt] at hw
    rcases le_or_gt 0 w with h0 | h0
    · rw [Int.emod_eq_of_lt h0 (by omega)] at h
      omega
    · rw [← Int.add_emod_right, Int.emod_eq_of_lt (by omega) (by omega)] at h
      omega
  refine ⟨?_, hs⟩
  unfold Rtl.isAbs
  rw [hs]
  rcases le_or_gt 0 w with h0 | h0
  · rw [abs_of_nonneg h0] at hw ⊢
    rw [if_pos (decide_eq_true h0), BitVec.toNat_sub, show (0 : BitVec bw).toNat = 0 from BitVec.toNat_zero ..]
    rw [Int.emod_eq_of_lt h0 (by omega)] at h
    rw [n2, h2]
    push_cast
    rw [Nat.cast_sub (by omega)]
    push_cast
    rw [h, cast1]
    rw [add_zero, show 2 * P - w = -w + 2 * P by ring, Int.add_emod_right]
  · rw [abs_of_neg h0, neg_neg, ← h, if_neg (by simpa using h0)]

/-- C76: in the bipolar in-stream divider the sign bit is one for a non-negative difference, and the magnitude bit compares
the random number with `2^bw` *minus* the magnitude: as long as neither difference reaches `2^(bw-1)`, the quotient is the
kernel's on these magnitudes, inverted once per sign bit. -/
theorem C76_in_stream_bipolar {bw : ℕ} (hb : 1 ≤ bw) (dep : ℕ) (r : ℕ → BitVec bw) (k : ℕ → ℕ) (x y : ℕ → Bool) (t : ℕ)
    (hx : ∀ n ≤ t, |Verif.Spec.walk (Spec.nums x) n| < 2 ^ (bw - 1)) (hy : ∀ n ≤ t, |Verif.Spec.walk (Spec.nums y) n| < 2 ^ (bw - 1)) :
    isBOut bw dep r k x y t = (hwCor dep k (Spec.regenAbs bw r x) (Spec.regenAbs bw r y) t
      ^^ decide (0 ≤ Verif.Spec.walk (Spec.nums x) t) ^^ decide (0 ≤ Verif.Spec.walk (Spec.nums y) t)) := by
  have st : ∀ n ≤ t, (fun s : Rtl.IsSt bw =>
      (s.num.toNat : ℤ) = Verif.Spec.walk (Spec.nums x) n % 2 ^ bw ∧ (s.den.toNat : ℤ) = Verif.Spec.walk (Spec.nums y) n % 2 ^ bw ∧
      s.sr = stateAt Rtl.corStep (Rtl.corInit dep) (fun t => (k t, Spec.regenAbs bw r x t, Spec.regenAbs bw r y t)) n)
      (stateAt (Rtl.corIsBStep bw) (Rtl.isInit bw dep) (fun t => (r t, k t, x t, y t)) n) := by
    intro n
    induction n with
    | zero => exact fun _ => ⟨by simp [stateAt, Rtl.isInit, Verif.Spec.walk], by simp [stateAt, Rtl.isInit, Verif.Spec.walk], rfl⟩
    | succ n ih =>
        intro hn
        obtain ⟨h1, h2, h3⟩ := ih (by omega)
        refine ⟨?_, ?_, ?_⟩
        · rw [stateAt_succ, Verif.Spec.walk_succ]
          exact isCount_toNat _ _ _ h1
        · rw [stateAt_succ, Verif.Spec.walk_succ]
          exact isCount_toNat _ _ _ h2
        · rw [stateAt_succ, stateAt_succ, ← h3]
          unfold Spec.regenAbs
          rw [← (isAbs_toNat hb _ _ h1 (hx n (by omega))).1, ← (isAbs_toNat hb _ _ h2 (hy n (by omega))).1]
          simp only [Nat.cast_lt]
          rfl
  obtain ⟨h1, h2, h3⟩ := st t le_rfl
  have a1 := isAbs_toNat hb _ _ h1 (hx t le_rfl)
  have a2 := isAbs_toNat hb _ _ h2 (hy t le_rfl)
  unfold hwCor isBOut outAt
  rw [← h3, ← a1.2, ← a2.2]
  unfold Spec.regenAbs
  beta_reduce
  rw [← a1.1, ← a2.1]
  simp only [Nat.cast_lt]
  rfl

/-- Example: with eight bits, cycle 100 and random number 50 the hypotheses of `C76_in_stream_wrap` hold. -/
example : isUOut 8 2 (fun _ => 50) (fun _ => 0) (fun _ => false) (fun _ => true) 100 = true :=
  C76_in_stream_wrap 8 2 _ _ 100 (by decide) (by decide)

/-- Example: with eight bits and any two streams, the hypotheses of `C76_in_stream_bipolar` hold for 127 cycles. -/
example (r : ℕ → BitVec 8) (x y : ℕ → Bool) (t : ℕ) (ht : t < 128) :
    isBOut 8 2 r (fun _ => 0) x y t = (hwCor 2 (fun _ => 0) (Spec.regenAbs 8 r x) (Spec.regenAbs 8 r y) t
      ^^ decide (0 ≤ Verif.Spec.walk (Spec.nums x) t) ^^ decide (0 ≤ Verif.Spec.walk (Spec.nums y) t)) := by
  have b : ∀ (x : ℕ → Bool) n, |Verif.Spec.walk (Spec.nums x) n| ≤ n := by
    intro x n
    induction n with
    | zero => simp [Verif.Spec.walk]
    | succ n ih =>
        rw [Verif.Spec.walk_succ]
        have h1 : |2 * Spec.nums x n - 1| = 1 := by unfold Spec.nums; cases x n <;> simp [Spec.num]
        have h2 := abs_add_le (Verif.Spec.walk (Spec.nums x) n) (2 * Spec.nums x n - 1)
        push_cast; linarith
  refine C76_in_stream_bipolar (by norm_num) 2 r _ x y t (fun n hn => ?_) (fun n hn => ?_)
  · exact (b x n).trans_lt (by norm_num; omega)
  · exact (b y n).trans_lt (by norm_num; omega)

/-! ## In-stream square roots -/

/-- Outputs of the in-stream square roots with `dep` cells. -/
def sqrtIsOut (dep : ℕ) (r : ℕ → ℕ) (x : ℕ → Bool) (t : ℕ) : Bool :=
  outAt Rtl.sqrtIsUStep (Rtl.sqrtIsInit dep) (fun t => (r t, x t)) t
def sqrtIsBOut (dep : ℕ) (r : ℕ → ℕ) (x : ℕ → Bool) (t : ℕ) : Bool :=
  outAt Rtl.sqrtIsBStep (false, Rtl.corInit dep, Rtl.half 3) (fun t => (r t, x t)) t

private theorem sqrtIs_dff (dep : ℕ) (r : ℕ → ℕ) (x : ℕ → Bool) (n : ℕ) :
    (stateAt Rtl.sqrtIsUStep (Rtl.sqrtIsInit dep) (fun t => (r t, x t)) n).dff = decide (n % 2 = 1) := by
  induction n with
  | zero => rfl
  | succ n ih =>
      rw [stateAt_succ]
      show (!(stateAt Rtl.sqrtIsUStep (Rtl.sqrtIsInit dep) (fun t => (r t, x t)) n).dff) = _
      rw [ih, ← decide_not, decide_eq_decide]
      omega

/-- C76: whatever the size of the register and the random numbers, every second output of the square root is the input bit of
the cycle before. -/
theorem C76_sqrt_is_odd (dep : ℕ) (r : ℕ → ℕ) (x : ℕ → Bool) (t : ℕ) (ht : t % 2 = 1) :
    sqrtIsOut dep r x (t + 1) = x t := by
  have h := sqrtIs_dff dep r x t
  show (stateAt Rtl.sqrtIsUStep (Rtl.sqrtIsInit dep) (fun t => (r t, x t)) (t + 1)).out = x t
  rw [stateAt_succ]
  generalize stateAt Rtl.sqrtIsUStep (Rtl.sqrtIsInit dep) (fun t => (r t, x t)) t = s at h
  rw [decide_eq_true ht] at h
  simp [Rtl.sqrtIsUStep, Rtl.corStep, h]

/-- C76: with the default register of one cell, in the other cycles it is the input bit or the output before it. -/
theorem C76_sqrt_is_even (x : ℕ → Bool) (t : ℕ) (ht : t % 2 = 0) :
    sqrtIsOut 1 (fun _ => 0) x (t + 1) = (x t || sqrtIsOut 1 (fun _ => 0) x t) := by
  have sr : ∀ n, n % 2 = 0 → (stateAt Rtl.sqrtIsUStep (Rtl.sqrtIsInit 1) (fun t => (0, x t)) n).sr = [false] := by
    have len : ∀ n, (stateAt Rtl.sqrtIsUStep (Rtl.sqrtIsInit 1) (fun t => (0, x t)) n).sr.length = 1 := by
      intro n
      induction n with
      | zero => rfl
      | succ n ih =>
          rw [stateAt_succ]
          show ((stateAt Rtl.sqrtIsUStep (Rtl.sqrtIsInit 1) (fun t => (0, x t)) n).sr.tail ++ [_]).length = 1
          simp [ih]
    intro n hn
    cases n with
    | zero => rfl
    | succ n =>
        have h := sqrtIs_dff 1 (fun _ => 0) x n
        have hl := len n
        rw [stateAt_succ]
        generalize stateAt Rtl.sqrtIsUStep (Rtl.sqrtIsInit 1) (fun t => (0, x t)) n = s at h hl
        rw [decide_eq_true (by omega)] at h
        obtain ⟨b, hb⟩ := List.length_eq_one_iff.1 hl
        simp [Rtl.sqrtIsUStep, Rtl.corStep, h, hb]
  have h := sqrtIs_dff 1 (fun _ => 0) x t
  have h' := sr t ht
  show (stateAt Rtl.sqrtIsUStep (Rtl.sqrtIsInit 1) (fun t => (0, x t)) (t + 1)).out
    = (x t || (stateAt Rtl.sqrtIsUStep (Rtl.sqrtIsInit 1) (fun t => (0, x t)) t).out)
  rw [stateAt_succ]
  generalize stateAt Rtl.sqrtIsUStep (Rtl.sqrtIsInit 1) (fun t => (0, x t)) t = s at h h'
  rw [decide_eq_false (by omega)] at h
  cases hx : x t <;> cases ho : s.out <;> simp [Rtl.sqrtIsUStep, Rtl.corStep, h, h', ho]

/-- C76: hence never more than twice as many ones as the input: below a quarter it is not the square root. -/
theorem C76_sqrt_is_small (x : ℕ → Bool) (n : ℕ) :
    Verif.Spec.ones (Spec.nums (sqrtIsOut 1 (fun _ => 0) x)) n ≤ 2 * Verif.Spec.ones (Spec.nums x) n := by
  have key : ∀ m, Verif.Spec.ones (Spec.nums (sqrtIsOut 1 (fun _ => 0) x)) (m + 1)
      + (if m % 2 = 1 then 0 else Spec.num (sqrtIsOut 1 (fun _ => 0) x m)) ≤ 2 * Verif.Spec.ones (Spec.nums x) m := by
    intro m
    induction m with
    | zero => simp [Verif.Spec.ones, Spec.nums, Spec.num, sqrtIsOut, outAt, stateAt, Rtl.sqrtIsInit, Rtl.sqrtIsUStep]
    | succ m ih =>
        rw [Verif.Spec.ones_succ _ (m + 1), Verif.Spec.ones_succ (Spec.nums x) m]
        show _ + Spec.num (sqrtIsOut 1 (fun _ => 0) x (m + 1)) + _ ≤ 2 * (_ + Spec.num (x m))
        rcases Nat.mod_two_eq_zero_or_one m with h | h
        · rw [if_neg (by omega)] at ih
          rw [if_pos (by omega), C76_sqrt_is_even x m h]
          have : ∀ a b : Bool, Spec.num (a || b) ≤ 2 * Spec.num a + Spec.num b := by decide
          have := this (x m) (sqrtIsOut 1 (fun _ => 0) x m)
          linarith
        · rw [if_pos h] at ih
          rw [if_neg (by omega), C76_sqrt_is_odd 1 _ x m h]
          linarith
  cases n with
  | zero => simp [Verif.Spec.ones]
  | succ n =>
      have h := key n
      have h0 : 0 ≤ (if n % 2 = 1 then 0 else Spec.num (sqrtIsOut 1 (fun _ => 0) x n)) := by
        split_ifs
        · exact le_rfl
        · cases sqrtIsOut 1 (fun _ => 0) x n <;> simp [Spec.num]
      rw [Verif.Spec.ones_succ (Spec.nums x)]
      have : 0 ≤ Spec.nums x n := by unfold Spec.nums; cases x n <;> simp [Spec.num]
      linarith

private theorem sqrtIsB_state (dep : ℕ) (r : ℕ → ℕ) (x : ℕ → Bool) (n : ℕ) :
    (stateAt Rtl.sqrtIsBStep (false, Rtl.corInit dep, Rtl.half 3) (fun t => (r t, x t)) n).1 = decide (n % 2 = 1) ∧
    (stateAt Rtl.sqrtIsBStep (false, Rtl.corInit dep, Rtl.half 3) (fun t => (r t, x t)) n).2.2
      = stateAt (Rtl.bi2uniStep 3) (Rtl.half 3) x n := by
  induction n with
  | zero => exact ⟨rfl, rfl⟩
  | succ n ih =>
      rw [stateAt_succ, stateAt_succ, ← ih.2]
      refine ⟨?_, rfl⟩
      show (!(stateAt Rtl.sqrtIsBStep (false, Rtl.corInit dep, Rtl.half 3) (fun t => (r t, x t)) n).1) = _
      rw [ih.1, ← decide_not, decide_eq_decide]
      omega

/-- C76: the bipolar version passes the input through in every second cycle, whatever the register and the random numbers; with
one cell, in the other cycles it is the input bit or the input converted to unipolar (the converter is driven by the input,
not by the output), so there is no feedback from the output at all. -/
theorem C76_sqrt_is_bipolar (x : ℕ → Bool) (t : ℕ) :
    (t % 2 = 1 → ∀ dep r, sqrtIsBOut dep r x t = x t) ∧
    (t % 2 = 0 → sqrtIsBOut 1 (fun _ => 0) x t = (x t || outAt (Rtl.bi2uniStep 3) (Rtl.half 3) x t)) := by
  constructor
  · intro ht dep r
    have h := (sqrtIsB_state dep r x t).1
    unfold sqrtIsBOut outAt
    generalize stateAt Rtl.sqrtIsBStep (false, Rtl.corInit dep, Rtl.half 3) (fun t => (r t, x t)) t = s at h
    rw [decide_eq_true ht] at h
    simp [Rtl.sqrtIsBStep, Rtl.corStep, h]
  · intro ht
    have sr : (stateAt Rtl.sqrtIsBStep (false, Rtl.corInit 1, Rtl.half 3) (fun t => (0, x t)) t).2.1 = [false] := by
      have len : ∀ n, (stateAt Rtl.sqrtIsBStep (false, Rtl.corInit 1, Rtl.half 3) (fun t => (0, x t)) n).2.1.length = 1 := by
        intro n
        induction n with
        | zero => rfl
        | succ n ih =>
            rw [stateAt_succ]
            show ((stateAt Rtl.sqrtIsBStep (false, Rtl.corInit 1, Rtl.half 3) (fun t => (0, x t)) n).2.1.tail ++ [_]).length = 1
            simp [ih]
      cases t with
      | zero => rfl
      | succ n =>
          have h := (sqrtIsB_state 1 (fun _ => 0) x n).1
          have hl := len n
          rw [stateAt_succ]
          generalize stateAt Rtl.sqrtIsBStep (false, Rtl.corInit 1, Rtl.half 3) (fun t => (0, x t)) n = s at h hl
          rw [decide_eq_true (by omega)] at h
          obtain ⟨b, hb⟩ := List.length_eq_one_iff.1 hl
          simp [Rtl.sqrtIsBStep, Rtl.corStep, h, hb]
    obtain ⟨h, hu⟩ := sqrtIsB_state 1 (fun _ => 0) x t
    unfold sqrtIsBOut outAt
    rw [← hu]
    generalize stateAt Rtl.sqrtIsBStep (false, Rtl.corInit 1, Rtl.half 3) (fun t => (0, x t)) t = s at h sr
    rw [decide_eq_false (by omega)] at h
    obtain ⟨a, b, c⟩ := s
    simp only at h sr
    subst h sr
    show (if (if (false || (!false && (Rtl.bi2uniStep 3 c (x t)).2)) then (!false && (Rtl.bi2uniStep 3 c (x t)).2)
      else [false].getD 0 false) then true else x t) = (x t || (Rtl.bi2uniStep 3 c (x t)).2)
    generalize (Rtl.bi2uniStep 3 c (x t)).2 = u
    generalize x t = v
    revert u v; decide

/-- Example: 24 ones in 128 cycles; 32 come out, for a square root there would be 55. -/
example : Verif.Spec.ones (Spec.nums (sqrtIsOut 1 (fun _ => 0) fun t => decide (t % 8 = 2 ∨ t % 16 = 5))) 128 = 32 := by
  decide +kernel

/-- Example: the bipolar version for an input that is one twice in three cycles. -/
example : (List.range 8).map (sqrtIsBOut 1 (fun _ => 0) fun t => decide (t % 3 ≠ 0)) = [false, true, true, false, true, true, true, true] := by
  decide +kernel

/-! ## BISQRT_O_U, BISQRT_O_B -/

/-- Outputs of `BISQRT_O_U` and `BISQRT_O_B` after reset. -/
def sqrtOOut (d : ℕ) (unk : ℕ → Bool) (r : ℕ → ℕ) (x : ℕ → Bool) (t : ℕ) : Bool :=
  outAt (Rtl.sqrtOStep d unk) (Rtl.half d, Rtl.corInit d) (fun t => (r t, x t)) t
def sqrtOBOut (d : ℕ) (unk : ℕ → Bool) (r : ℕ → ℕ) (x : ℕ → Bool) (t : ℕ) : Bool :=
  outAt (Rtl.sqrtOBStep d unk) ((Rtl.half d, Rtl.corInit d), Rtl.half 3) (fun t => (r t, x t)) t

/-- The tape of the shift register: the alternating reset pattern, then the complement of everything put out. -/
def Spec.invTape (dep : ℕ) (q : ℕ → Bool) (k : ℕ) : Bool := if k < dep then decide (k % 2 = 1) else !q (k - dep)

/-- Net number of ones taken in over the first `n` cycles: input plus recycled ones minus output. -/
def Spec.net (x e q : ℕ → Bool) (n : ℕ) : ℤ := ∑ t ∈ range n, (Spec.num (x t) + Spec.num (e t) - Spec.num (q t))

private theorem above_half {d : ℕ} (hd : 1 ≤ d) (c : BitVec d) :
    (c.msb && decide (c ≠ Rtl.half d)) = decide (2 ^ (d - 1) < c.toNat) := by
  have hh := half_toNat hd
  have : c = Rtl.half d ↔ c.toNat = 2 ^ (d - 1) := by rw [← BitVec.toNat_inj, hh]
  rw [BitVec.msb_eq_decide, ← Bool.decide_and, decide_eq_decide, Ne, this]
  omega

private theorem ofInt_nat {d : ℕ} (z : ℤ) : ((BitVec.ofInt d z).toNat : ℤ) = z % 2 ^ d := by
  rw [BitVec.toNat_ofInt]
  have h2 : ((2 ^ d : ℕ) : ℤ) = 2 ^ d := by push_cast; rfl
  rw [h2, Int.toNat_of_nonneg (Int.emod_nonneg _ (by positivity))]

private theorem ofInt_bv (d : ℕ) (b : Bool) : Rtl.bv d b = BitVec.ofInt d (Spec.num b) := by
  cases b <;> rfl

private theorem half_ofInt {d : ℕ} (hd : 1 ≤ d) : Rtl.half d = BitVec.ofInt d (2 ^ (d - 1)) := by
  apply BitVec.eq_of_toNat_eq
  have h := ofInt_nat (d := d) (2 ^ (d - 1))
  have h1 := half_toNat hd
  rw [Int.emod_eq_of_lt (by positivity) (by exact_mod_cast Nat.pow_lt_pow_right (by norm_num) (by omega))] at h
  have : ((Rtl.half d).toNat : ℤ) = 2 ^ (d - 1) := by rw [h1]; push_cast; rfl
  omega

private theorem tape_step (d : ℕ) (hd : 1 ≤ d) (q : ℕ → Bool) (n : ℕ) :
    ((List.range d).map fun k => Spec.invTape d q (n + k)).tail ++ [!q n]
      = (List.range d).map fun k => Spec.invTape d q (n + 1 + k) := by
  obtain ⟨d, rfl⟩ : ∃ e, d = e + 1 := ⟨d - 1, by omega⟩
  rw [List.range_succ_eq_map, List.map_cons, List.tail_cons, List.map_map,
    ← List.range_succ_eq_map, List.range_succ, List.map_append, List.map_singleton]
  congr 1
  · refine List.map_congr_left fun k _ => ?_
    show Spec.invTape _ _ (n + (k + 1)) = Spec.invTape _ _ (n + 1 + k)
    rw [Nat.add_right_comm, Nat.add_assoc]
  · unfold Spec.invTape
    rw [if_neg (by omega), show n + 1 + d - (d + 1) = n by omega]

private theorem tape_get (d : ℕ) (q : ℕ → Bool) (n k : ℕ) (hk : k < d) (u : Bool) :
    ((List.range d).map fun k => Spec.invTape d q (n + k)).getD k u = Spec.invTape d q (n + k) := by
  rw [List.getD_eq_getElem?_getD, List.getElem?_map, List.getElem?_range hk]; rfl

private theorem tape_init (d : ℕ) (q : ℕ → Bool) : Rtl.corInit d = (List.range d).map fun k => Spec.invTape d q (0 + k) := by
  refine List.map_congr_left fun k hk => ?_
  unfold Spec.invTape
  rw [zero_add, if_pos (List.mem_range.1 hk)]

private theorem acc_step {d : ℕ} (z : ℤ) (a b c : Bool) :
    BitVec.ofInt d z + (Rtl.bv d a + Rtl.bv d b) - Rtl.bv d c = BitVec.ofInt d (z + (Spec.num a + Spec.num b - Spec.num c)) := by
  rw [ofInt_bv, ofInt_bv, ofInt_bv, ← BitVec.ofInt_add, ← BitVec.ofInt_add, BitVec.sub_eq_add_neg, ← BitVec.ofInt_neg,
    ← BitVec.ofInt_add]
  congr 1
  ring

/-- The bits recycled by `BISQRT_O_U`: the output and an inverted output of the last `d` cycles. -/
def Spec.recycle (d : ℕ) (r : ℕ → ℕ) (g q : ℕ → Bool) (t : ℕ) : Bool := g t && Spec.invTape d q (t + r t)

private theorem sqrtO_state {d : ℕ} (hd : 1 ≤ d) (unk : ℕ → Bool) (r : ℕ → ℕ) (x : ℕ → Bool) (n : ℕ) (hr : ∀ t < n, r t < d) :
    stateAt (Rtl.sqrtOStep d unk) (Rtl.half d, Rtl.corInit d) (fun t => (r t, x t)) n
      = (BitVec.ofInt d (2 ^ (d - 1)
          + Spec.net x (Spec.recycle d r (sqrtOOut d unk r x) (sqrtOOut d unk r x)) (sqrtOOut d unk r x) n),
        (List.range d).map fun k => Spec.invTape d (sqrtOOut d unk r x) (n + k)) := by
  induction n with
  | zero =>
      show (Rtl.half d, Rtl.corInit d) = _
      rw [← tape_init, half_ofInt hd]
      simp [Spec.net]
  | succ n ih =>
      have ih := ih (fun t ht => hr t (by omega))
      rw [stateAt_succ]
      have e : ∀ s, s = stateAt (Rtl.sqrtOStep d unk) (Rtl.half d, Rtl.corInit d) (fun t => (r t, x t)) n →
          (Rtl.sqrtOStep d unk s (r n, x n)).1 = (s.1 + (Rtl.bv d (x n) + Rtl.bv d (sqrtOOut d unk r x n && s.2.getD (r n) (unk (r n))))
            - Rtl.bv d (sqrtOOut d unk r x n), s.2.tail ++ [!sqrtOOut d unk r x n]) := by
        rintro s rfl; rfl
      rw [e _ rfl, ih, tape_step d hd, tape_get d _ _ _ (hr n (by omega)), acc_step]
      unfold Spec.net
      rw [sum_range_succ, add_assoc]
      rfl

/-- C76: `BISQRT_O_U` puts out a one exactly when its reset value plus the net number of ones taken in, *wrapped to `d` bits*,
exceeds the reset value; what it recycles is the output gated by an inverted output of the last `d` cycles. -/
theorem C76_sqrt_o {d : ℕ} (hd : 1 ≤ d) (unk : ℕ → Bool) (r : ℕ → ℕ) (x : ℕ → Bool) (n : ℕ) (hr : ∀ t < n, r t < d) :
    sqrtOOut d unk r x n = decide (2 ^ (d - 1) < (2 ^ (d - 1)
      + Spec.net x (Spec.recycle d r (sqrtOOut d unk r x) (sqrtOOut d unk r x)) (sqrtOOut d unk r x) n) % (2 ^ d : ℤ)) := by
  have e : ∀ s, s = stateAt (Rtl.sqrtOStep d unk) (Rtl.half d, Rtl.corInit d) (fun t => (r t, x t)) n →
      sqrtOOut d unk r x n = (s.1.msb && decide (s.1 ≠ Rtl.half d)) := by rintro s rfl; rfl
  rw [e _ (sqrtO_state hd unk r x n hr).symm, above_half hd, decide_eq_decide, ← ofInt_nat]
  have c : (((2 ^ (d - 1) : ℕ)) : ℤ) = 2 ^ (d - 1) := by push_cast; rfl
  rw [← c, Nat.cast_lt]

/-- C76: the same holds for `BISQRT_O_B`, whose recycled bit is gated by the output converted to unipolar. -/
theorem C76_sqrt_o_bipolar {d : ℕ} (hd : 1 ≤ d) (unk : ℕ → Bool) (r : ℕ → ℕ) (x : ℕ → Bool) (n : ℕ) (hr : ∀ t < n, r t < d) :
    sqrtOBOut d unk r x n = decide (2 ^ (d - 1) < (2 ^ (d - 1)
      + Spec.net x (Spec.recycle d r (outAt (Rtl.bi2uniStep 3) (Rtl.half 3) (sqrtOBOut d unk r x)) (sqrtOBOut d unk r x))
          (sqrtOBOut d unk r x) n) % (2 ^ d : ℤ)) := by
  have st : stateAt (Rtl.sqrtOBStep d unk) ((Rtl.half d, Rtl.corInit d), Rtl.half 3) (fun t => (r t, x t)) n
      = ((BitVec.ofInt d (2 ^ (d - 1)
          + Spec.net x (Spec.recycle d r (outAt (Rtl.bi2uniStep 3) (Rtl.half 3) (sqrtOBOut d unk r x)) (sqrtOBOut d unk r x))
            (sqrtOBOut d unk r x) n),
        (List.range d).map fun k => Spec.invTape d (sqrtOBOut d unk r x) (n + k)),
        stateAt (Rtl.bi2uniStep 3) (Rtl.half 3) (sqrtOBOut d unk r x) n) := by
    induction n with
    | zero =>
        show ((Rtl.half d, Rtl.corInit d), Rtl.half 3) = _
        rw [← tape_init, half_ofInt hd]
        simp [Spec.net, stateAt]
    | succ n ih =>
        have ih := ih (fun t ht => hr t (by omega))
        rw [stateAt_succ, stateAt_succ]
        have e : ∀ s, s = stateAt (Rtl.sqrtOBStep d unk) ((Rtl.half d, Rtl.corInit d), Rtl.half 3) (fun t => (r t, x t)) n →
            (Rtl.sqrtOBStep d unk s (r n, x n)).1
              = ((s.1.1 + (Rtl.bv d (x n) + Rtl.bv d ((Rtl.bi2uniStep 3 s.2 (sqrtOBOut d unk r x n)).2 && s.1.2.getD (r n) (unk (r n))))
                - Rtl.bv d (sqrtOBOut d unk r x n), s.1.2.tail ++ [!sqrtOBOut d unk r x n]),
                (Rtl.bi2uniStep 3 s.2 (sqrtOBOut d unk r x n)).1) := by
          rintro s rfl; rfl
        rw [e _ rfl, ih, tape_step d hd, tape_get d _ _ _ (hr n (by omega)), acc_step]
        unfold Spec.net
        rw [sum_range_succ, add_assoc]
        rfl
  have e : ∀ s, s = stateAt (Rtl.sqrtOBStep d unk) ((Rtl.half d, Rtl.corInit d), Rtl.half 3) (fun t => (r t, x t)) n →
      sqrtOBOut d unk r x n = (s.1.1.msb && decide (s.1.1 ≠ Rtl.half d)) := by rintro s rfl; rfl
  rw [e _ st.symm, above_half hd, decide_eq_decide, ← ofInt_nat]
  have c : (((2 ^ (d - 1) : ℕ)) : ℤ) = 2 ^ (d - 1) := by push_cast; rfl
  rw [← c, Nat.cast_lt]

private theorem periodic_more {S I O : Type} (f : S → I → S × O) (s : S) (x : ℕ → I) (n p : ℕ) (hx : ∀ t, n ≤ t → x (t + p) = x t)
    (h : stateAt f s x (n + p) = stateAt f s x n) (t : ℕ) (ht : n ≤ t) : outAt f s x (t + p) = outAt f s x t := by
  have st : ∀ j, stateAt f s x (n + j + p) = stateAt f s x (n + j) := by
    intro j
    induction j with
    | zero => exact h
    | succ j ih =>
        rw [show n + (j + 1) + p = n + j + p + 1 by ring, stateAt_succ, ih, hx _ (by omega), ← stateAt_succ]
        rfl
  obtain ⟨j, rfl⟩ := Nat.exists_eq_add_of_le ht
  unfold outAt
  rw [st, hx _ ht]

/-- C76: the wrap-around is reached: with three bits and the oldest cell always selected, an input that is one from the fourth
cycle on gives, for ever, three ones and five zeros by turns instead of ones. -/
theorem C76_sqrt_o_wrap (unk : ℕ → Bool) (t : ℕ) :
    sqrtOOut 3 unk (fun _ => 0) (fun t => decide (3 ≤ t)) t = decide (4 ≤ t ∧ (t - 4) % 8 < 3) := by
  have step : ∀ s i, Rtl.sqrtOStep 3 unk s (0, i) = Rtl.sqrtOStep 3 (fun _ => false) s (0, i) ∨ s.2 = [] := by
    rintro ⟨a, l⟩ i
    cases l with
    | nil => exact Or.inr rfl
    | cons b l => exact Or.inl rfl
  have len : ∀ (u : ℕ → Bool) n, (stateAt (Rtl.sqrtOStep 3 u) (Rtl.half 3, Rtl.corInit 3) (fun t => (0, decide (3 ≤ t))) n).2 ≠ [] := by
    intro u n
    cases n with
    | zero => show Rtl.corInit 3 ≠ []; decide
    | succ n => rw [stateAt_succ]; exact List.append_ne_nil_of_right_ne_nil _ (by simp)
  have same : ∀ n, stateAt (Rtl.sqrtOStep 3 unk) (Rtl.half 3, Rtl.corInit 3) (fun t => (0, decide (3 ≤ t))) n
      = stateAt (Rtl.sqrtOStep 3 fun _ => false) (Rtl.half 3, Rtl.corInit 3) (fun t => (0, decide (3 ≤ t))) n := by
    intro n
    induction n with
    | zero => rfl
    | succ n ih =>
        rw [stateAt_succ, stateAt_succ, ← ih]
        rcases step (stateAt (Rtl.sqrtOStep 3 unk) (Rtl.half 3, Rtl.corInit 3) (fun t => (0, decide (3 ≤ t))) n) (decide (3 ≤ n)) with h | h
        · rw [h]
        · exact absurd h (len unk n)
  have red : sqrtOOut 3 unk (fun _ => 0) (fun t => decide (3 ≤ t)) t
      = outAt (Rtl.sqrtOStep 3 fun _ => false) (Rtl.half 3, Rtl.corInit 3) (fun t => (0, decide (3 ≤ t))) t := by
    unfold sqrtOOut outAt
    rw [same]
    rcases step (stateAt (Rtl.sqrtOStep 3 fun _ => false) (Rtl.half 3, Rtl.corInit 3) (fun t => (0, decide (3 ≤ t))) t) (decide (3 ≤ t)) with h | h
    · rw [h]
    · exact absurd h (len _ t)
  rw [red]
  induction t using Nat.strong_induction_on with
  | _ t ih =>
      rcases Nat.lt_or_ge t 15 with h | h
      · clear ih red same len step
        interval_cases t <;> decide +kernel
      · obtain ⟨s, rfl⟩ : ∃ s, t = s + 8 := ⟨t - 8, by omega⟩
        rw [periodic_more _ _ _ 7 8 (fun t ht => by simp only [Prod.mk.injEq, true_and, decide_eq_decide]; omega)
          (by decide +kernel) s (by omega), ih s (by omega) ?_, decide_eq_decide]
        · omega
        · unfold sqrtOOut outAt
          rw [same]
          rcases step (stateAt (Rtl.sqrtOStep 3 fun _ => false) (Rtl.half 3, Rtl.corInit 3) (fun t => (0, decide (3 ≤ t))) s) (decide (3 ≤ s)) with h | h
          · rw [h]
          · exact absurd h (len _ s)

/-! ## ISCBDIV_B -/

/-- Quotients of `ISCBDIV_B` after reset. -/
def divBOut (dAbs dSync dep : ℕ) (r : ℕ → ℕ) (x y : ℕ → Bool) (t : ℕ) : Bool :=
  outAt (Rtl.divBStep dAbs dSync) (Rtl.divBInit dAbs dSync dep) (fun t => (r t, x t, y t)) t

private theorem sat_const {d : ℕ} (b : Bool) (c : BitVec d) :
    (b = true → 2 ^ (d - 1) ≤ c.toNat → 2 ^ (d - 1) ≤ (Rtl.satCount d c b).toNat) ∧
    (b = false → c.toNat ≤ 2 ^ (d - 1) → (Rtl.satCount d c b).toNat < 2 ^ (d - 1)) := by
  have hi := bv_inc c
  have hde := bv_dec c
  have hf := bv_full c
  have hz := bv_zero c
  have hp : 0 < 2 ^ (d - 1) := by positivity
  unfold Rtl.satCount
  generalize c + 1 = c1 at *
  generalize c - 1 = c2 at *
  constructor
  · rintro rfl h
    by_cases h1 : c = BitVec.allOnes d
    · simp only [decide_eq_true h1]; exact h
    · have := hi (fun h => h1 (hf.2 h))
      simp [h1]; omega
  · rintro rfl h
    by_cases h1 : c = 0
    · have := hz.1 h1
      simp [h1, hp]
    · have := hde (fun h => h1 (hz.2 h))
      have : c.toNat ≠ 0 := fun h => h1 (hz.2 h)
      simp only [decide_eq_false h1]
      show c2.toNat < _
      omega

private theorem abs_const {d : ℕ} (hd : 1 ≤ d) (b : Bool) (c : ℕ → BitVec d) (h0 : c 0 = Rtl.half d)
    (hs : ∀ t, c (t + 1) = Rtl.satCount d (c t) b) (t : ℕ) : (!(c t).msb) = (!b && decide (t ≠ 0)) := by
  have m : ∀ v : BitVec d, v.msb = decide (2 ^ (d - 1) ≤ v.toNat) := fun v => BitVec.msb_eq_decide v
  have hh := half_toNat hd
  cases b
  · cases t with
    | zero => rw [h0, m, hh]; simp
    | succ t =>
        have : (c (t + 1)).toNat < 2 ^ (d - 1) := by
          induction t with
          | zero => rw [hs, h0]; exact (sat_const _ _).2 rfl hh.le
          | succ t ih => rw [hs]; exact (sat_const _ _).2 rfl ih.le
        rw [m, decide_eq_false (by omega)]; simp
  · have : 2 ^ (d - 1) ≤ (c t).toNat := by
      induction t with
      | zero => rw [h0, hh]
      | succ t ih => rw [hs]; exact (sat_const _ _).1 rfl ih
    rw [m, decide_eq_true this]; rfl

private theorem uni_const (b : Bool) (c : ℕ → BitVec 3) (h0 : c 0 = Rtl.half 3)
    (hs : ∀ t, c (t + 1) = (Rtl.bi2uniStep 3 (c t) (b ^^ (!b && decide (t ≠ 0)))).1) (t : ℕ) (ht : 3 ≤ t) : c t = 5 := by
  obtain ⟨k, rfl⟩ := Nat.exists_eq_add_of_le ht
  induction k with
  | zero =>
      rw [hs, hs, hs, h0]
      cases b <;> decide +kernel
  | succ k ih =>
      rw [show 3 + (k + 1) = 3 + k + 1 by ring, hs, ih (by omega)]
      rw [decide_eq_true (by omega)]
      cases b <;> decide +kernel

/-- C76: whatever the parameters and the random numbers, `ISCBDIV_B` divides `±1` by `±1` correctly from cycle four on. -/
theorem C76_div_bipolar {dAbs : ℕ} (hd : 1 ≤ dAbs) (dSync dep : ℕ) (r : ℕ → ℕ) (a b : Bool) (t : ℕ) (ht : 4 ≤ t) :
    divBOut dAbs dSync dep r (fun _ => a) (fun _ => b) t = (a == b) := by
  let s := stateAt (Rtl.divBStep dAbs dSync) (Rtl.divBInit dAbs dSync dep) (fun t => (r t, a, b))
  have hs : ∀ n, s (n + 1) = (Rtl.divBStep dAbs dSync (s n) (r n, a, b)).1 := fun n => stateAt_succ _ _ _ n
  have sn := abs_const hd a (fun n => (s n).absN) rfl (fun n => by show (s (n + 1)).absN = _; rw [hs]; rfl)
  have sd := abs_const hd b (fun n => (s n).absD) rfl (fun n => by show (s (n + 1)).absD = _; rw [hs]; rfl)
  have un := uni_const a (fun n => (s n).uniN) rfl (fun n => by
    show (s (n + 1)).uniN = (Rtl.bi2uniStep 3 (s n).uniN _).1
    rw [hs, ← sn]; rfl)
  have ud := uni_const b (fun n => (s n).uniD) rfl (fun n => by
    show (s (n + 1)).uniD = (Rtl.bi2uniStep 3 (s n).uniD _).1
    rw [hs, ← sd]; rfl)
  obtain ⟨m, rfl⟩ : ∃ m, t = m + 1 := ⟨t - 1, by omega⟩
  have bi : (s (m + 1)).bi.getLsbD 1 = true := by
    have h1 := un m (by omega)
    have h2 := ud m (by omega)
    rw [hs]
    show (Rtl.uni2biStep (s m).bi (Rtl.iscbdivStep dSync (s m).div
      (r m, (Rtl.bi2uniStep 3 (s m).uniN (a ^^ !(s m).absN.msb)).2, (Rtl.bi2uniStep 3 (s m).uniD (b ^^ !(s m).absD.msb)).2)).2).1.getLsbD 1 = true
    have o : ∀ i, (Rtl.bi2uniStep 3 5 i).2 = true := by decide +kernel
    rw [h1, h2, o, o]
    have q : (Rtl.iscbdivStep dSync (s m).div (r m, true, true)).2 = true := by
      simp [Rtl.iscbdivStep, Rtl.ssStep, Rtl.corStep]
    rw [q]
    generalize (s m).bi = v
    revert v; decide +kernel
  have e : divBOut dAbs dSync dep r (fun _ => a) (fun _ => b) (m + 1)
      = ((s (m + 1)).bi.getLsbD 1 ^^ (!(s (m + 1)).absN.msb) ^^ (!(s (m + 1)).absD.msb)) := rfl
  rw [e, bi]
  have h1 := sn (m + 1)
  have h2 := sd (m + 1)
  rw [h1, h2, decide_eq_true (by omega)]
  cases a <;> cases b <;> rfl

/-- Example: the default parameters, `-1` divided by `1`. -/
example : (List.range 8).map (divBOut 3 2 2 (fun t => t % 2) (fun _ => false) fun _ => true)
    = [false, true, false, true, false, false, false, false] := by
  decide +kernel

/-- Example: a square root with the random numbers below three. -/
example : sqrtOOut 3 (fun _ => true) (fun t => t % 3) (fun t => decide (t % 2 = 0)) 7
    = decide (2 ^ 2 < (2 ^ 2 + Spec.net (fun t => decide (t % 2 = 0)) (Spec.recycle 3 (fun t => t % 3)
      (sqrtOOut 3 (fun _ => true) (fun t => t % 3) fun t => decide (t % 2 = 0)) (sqrtOOut 3 (fun _ => true) (fun t => t % 3) fun t => decide (t % 2 = 0)))
      (sqrtOOut 3 (fun _ => true) (fun t => t % 3) fun t => decide (t % 2 = 0)) 7) % (2 ^ 3 : ℤ)) :=
  C76_sqrt_o (by norm_num) _ _ _ 7 fun t _ => Nat.mod_lt t (by norm_num)

end Verif.Props
