import Verif.Spec
import Verif.Model.Utils

/-!
# Properties C38–C43: shape arithmetic, fixed-point rounding, weight clipping, truncated normal
-/

namespace Verif.Props

open Verif Utils

/-! ## C38 -/

private theorem floor_div_int (a s : ℤ) (hs : s ≠ 0) : ⌊((a * s : ℤ) : ℚ) / s + 1⌋ = a + 1 := by
  have : (s:ℚ) ≠ 0 := by exact_mod_cast hs
  rw [show ((a * s : ℤ) : ℚ) / s + 1 = ((a + 1 : ℤ) : ℚ) by push_cast; field_simp]
  exact Int.floor_intCast _

/-- An argument read as (height, width). -/
def Spec.pair : Num2 → ℤ × ℤ
  | .num n => (n, n)
  | .tup a b => (a, b)

/-- A padding argument read as ((top, bottom), (left, right)). -/
def Spec.sides : Pad → (ℤ × ℤ) × (ℤ × ℤ)
  | .num n => ((n, n), (n, n))
  | .tup a b => (Spec.pair a, Spec.pair b)

private theorem pair_eq (n : Num2) : num2tuple n = Spec.pair n := by cases n <;> rfl

private theorem sides_eq (p : Pad) : padTuple p = Spec.sides p := by
  cases p with
  | num n => rfl
  | tup a b => show (num2tuple a, num2tuple b) = _; rw [pair_eq, pair_eq]; rfl

/-- C38: on each axis the result counts the window positions: position `i` exists exactly when the
dilated kernel placed at `i * stride` ends inside the padded axis. -/
theorem C38_count (hw k s : Num2) (pad : Pad) (d : Num2) (h1 : 0 < (Spec.pair s).1) (h2 : 0 < (Spec.pair s).2) :
    ∃ h w, conv2dOutputShape hw k s pad d = .ok (h, w) ∧
      (∀ i : ℤ, i < h ↔ i * (Spec.pair s).1 + (Spec.pair d).1 * ((Spec.pair k).1 - 1)
        < (Spec.pair hw).1 + ((Spec.sides pad).1.1 + (Spec.sides pad).1.2)) ∧
      (∀ i : ℤ, i < w ↔ i * (Spec.pair s).2 + (Spec.pair d).2 * ((Spec.pair k).2 - 1)
        < (Spec.pair hw).2 + ((Spec.sides pad).2.1 + (Spec.sides pad).2.2)) := by
  simp only [← pair_eq, ← sides_eq] at *
  have key : ∀ (size : ℤ) (p : ℤ × ℤ) (k s d : ℤ), 0 < s → ∃ r, convOutAxis size p k s d = .ok r ∧
      ∀ i : ℤ, i < r ↔ i * s + d * (k - 1) < size + (p.1 + p.2) := by
    intro size p k s d hs
    refine ⟨_, by unfold convOutAxis; rw [if_neg (by omega)], fun i => ?_⟩
    have hsq : (0:ℚ) < s := by exact_mod_cast hs
    rw [Int.floor_add_one, Int.lt_add_one_iff, Int.le_floor, le_div_iff₀ hsq]
    rw [show (i:ℚ) * s = ((i * s : ℤ) : ℚ) by push_cast; ring, Int.cast_le]
    generalize i * s = a
    generalize d * (k - 1) = b
    omega
  obtain ⟨h, e1, f1⟩ := key (num2tuple hw).1 (padTuple pad).1 (num2tuple k).1 (num2tuple s).1 (num2tuple d).1 h1
  obtain ⟨w, e2, f2⟩ := key (num2tuple hw).2 (padTuple pad).2 (num2tuple k).2 (num2tuple s).2 (num2tuple d).2 h2
  refine ⟨h, w, ?_, f1, f2⟩
  unfold conv2dOutputShape
  rw [e1, e2]; rfl

/-- C38: when the kernel fits, the number of positions. -/
theorem C38_card (size p k s d : ℕ) (hs : 0 < s) (hk : 0 < k) (hfit : d * (k - 1) < size + 2 * p) :
    ∃ h, conv2dOutputShape (.num size) (.num k) (.num s) (.num p) (.num d) = .ok (h, h) ∧ 0 < h ∧
      h = ((Finset.range (size + 2 * p)).filter fun i => i * s + d * (k - 1) < size + 2 * p).card := by
  obtain ⟨h, w, e, f1, f2⟩ := C38_count (.num size) (.num k) (.num s) (.num p) (.num d)
    (by simpa [Spec.pair] using hs) (by simpa [Spec.pair] using hs)
  simp only [Spec.pair, Spec.sides] at f1 f2
  have hhw : h = w := by
    have a := fun i => (f1 i).trans (f2 i).symm
    rcases lt_trichotomy h w with hlt | heq | hgt
    · have := (a h).2 hlt; omega
    · exact heq
    · have := (a w).1 hgt; omega
  subst hhw
  have hk' : ((k:ℤ) - 1) = ((k - 1 : ℕ) : ℤ) := by omega
  have f : ∀ i : ℕ, (i:ℤ) < h ↔ i * s + d * (k - 1) < size + 2 * p := by
    intro i
    rw [f1, hk']
    have : (i:ℤ) * s + d * ((k - 1 : ℕ) : ℤ) = ((i * s + d * (k - 1) : ℕ) : ℤ) := by push_cast; ring
    rw [this]; omega
  have hpos : 0 < h := by
    have := (f 0).2 (by simpa using hfit)
    simpa using this
  refine ⟨h, e, hpos, ?_⟩
  have hset : ((Finset.range (size + 2 * p)).filter fun i => i * s + d * (k - 1) < size + 2 * p)
      = Finset.range h.toNat := by
    ext i
    simp only [Finset.mem_filter, Finset.mem_range]
    constructor
    · rintro ⟨-, hi⟩
      have := (f i).2 hi; omega
    · intro hi
      have hi' := (f i).1 (by omega)
      refine ⟨?_, hi'⟩
      have : i * 1 ≤ i * s := Nat.mul_le_mul_left _ hs
      generalize i * s = a at *
      omega
  rw [hset, Finset.card_range]; omega

/-- C38: ints and tuples are interchangeable, and a zero stride is an error. -/
theorem C38_args (n k s p d : ℤ) :
    conv2dOutputShape (.num n) (.num k) (.num s) (.num p) (.num d)
      = conv2dOutputShape (.tup n n) (.tup k k) (.tup s s) (.tup (.num p) (.tup p p)) (.tup d d) ∧
    conv2dOutputShape (.num n) (.num k) (.num 0) (.num p) (.num d) = .error .zeroDivision := by
  exact ⟨rfl, rfl⟩

example : 0 < (Spec.pair (.tup 2 3)).1 ∧ 0 < (Spec.pair (.tup 2 3)).2 ∧ 2 * (3 - 1) < 5 + 2 * 1 := by decide

/-! ## C39 -/

private theorem split_sum (p : ℤ) : (splitPad p).1 + (splitPad p).2 = p ∧
    (splitPad p).1 ≤ (splitPad p).2 ∧ (splitPad p).2 ≤ (splitPad p).1 + 1 := by
  unfold splitPad
  obtain ⟨m, hm | hm⟩ := Int.even_or_odd' p
  · have e : (p:ℚ) / 2 = (m:ℚ) := by rw [hm]; push_cast; ring
    simp only [e, Int.floor_intCast, Int.ceil_intCast]
    omega
  · have e : (p:ℚ) / 2 = (m:ℚ) + 1 / 2 := by rw [hm]; push_cast; ring
    have hf : ⌊(p:ℚ) / 2⌋ = m := by rw [e, Int.floor_eq_iff]; constructor <;> linarith
    have hc : ⌈(p:ℚ) / 2⌉ = m + 1 := by rw [e, Int.ceil_eq_iff]; push_cast; constructor <;> linarith
    simp only [hf, hc]
    omega

/-- C39: the padding asked for an output size gives back exactly that output size, and the two
sides of an axis differ by at most one. -/
theorem C39_round_trip (hwIn hwOut k s d : Num2) (h1 : (Spec.pair s).1 ≠ 0) (h2 : (Spec.pair s).2 ≠ 0) :
    conv2dOutputShape hwIn k s (Pad.ofPair (conv2dGetPadding hwIn hwOut k s d)) d = .ok (Spec.pair hwOut) ∧
    (let p := conv2dGetPadding hwIn hwOut k s d
     p.1.1 ≤ p.1.2 ∧ p.1.2 ≤ p.1.1 + 1 ∧ p.2.1 ≤ p.2.2 ∧ p.2.2 ≤ p.2.1 + 1) := by
  rw [← pair_eq] at *
  have key : ∀ (i o k s d : ℤ), s ≠ 0 → convOutAxis i (splitPad (convPadAxis i o k s d)) k s d = .ok o := by
    intro i o k s d hs
    unfold convOutAxis
    rw [if_neg hs, (split_sum _).1]
    have : i + convPadAxis i o k s d - d * (k - 1) - 1 = (o - 1) * s := by unfold convPadAxis; ring
    rw [this, floor_div_int _ _ hs]; congr 1; ring
  refine ⟨?_, ?_⟩
  · unfold conv2dOutputShape
    show (convOutAxis _ (splitPad _) _ _ _ >>= fun h => convOutAxis _ (splitPad _) _ _ _ >>= fun w => pure (h, w)) = _
    rw [key _ _ _ _ _ h1, key _ _ _ _ _ h2]; rfl
  · exact ⟨(split_sum _).2.1, (split_sum _).2.2, (split_sum _).2.1, (split_sum _).2.2⟩

example : conv2dGetPadding (.num 7) (.num 7) (.num 4) (.num 1) (.num 1) = ((1, 2), (1, 2)) := by
  norm_num [conv2dGetPadding, splitPad, convPadAxis, num2tuple]

/-! ## C40 -/

/-- Total padding needed on an axis of a transposed convolution for output size `out`. -/
def Spec.transpPad (inp out k s d op : ℤ) : ℤ := (inp - 1) * s + d * (k - 1) + op + 1 - out

private theorem quarter_sum (T : ℤ) : (splitPad ((T:ℚ) / 2)).1 + (splitPad ((T:ℚ) / 2)).2
    = 2 * (T / 4) + (if T % 4 = 0 then 0 else 1) := by
  unfold splitPad
  have hT : T = 4 * (T / 4) + T % 4 := by omega
  have hTq : (T:ℚ) = 4 * ((T / 4 : ℤ) : ℚ) + ((T % 4 : ℤ) : ℚ) := by exact_mod_cast hT
  have hr0 : (0:ℚ) ≤ ((T % 4 : ℤ) : ℚ) := by exact_mod_cast Int.emod_nonneg T (by norm_num)
  have hr1 : ((T % 4 : ℤ) : ℚ) < 4 := by exact_mod_cast Int.emod_lt_of_pos T (by norm_num)
  have hf : ⌊(T:ℚ) / 2 / 2⌋ = T / 4 := by
    rw [Int.floor_eq_iff]; constructor <;> linarith
  simp only [hf]
  split_ifs with h
  · have hc : ⌈(T:ℚ) / 2 / 2⌉ = T / 4 := by
      rw [Int.ceil_eq_iff]; rw [h] at hTq; push_cast at hTq; constructor <;> linarith
    rw [hc]; ring
  · have hpos : (1:ℚ) ≤ ((T % 4 : ℤ) : ℚ) := by
      have : 1 ≤ T % 4 := by omega
      exact_mod_cast this
    have hc : ⌈(T:ℚ) / 2 / 2⌉ = T / 4 + 1 := by
      rw [Int.ceil_eq_iff]; push_cast; constructor <;> linarith
    rw [hc]; ring

/-- C40: on an axis the round trip of the transposed convolution returns the requested size exactly
when the needed total padding is `-1`, `0` or `1`. -/
theorem C40_round_trip_iff (inp out k s d op : ℤ) :
    (convtransp2dOutputShape (.num inp) (.num k) (.num s)
      (Pad.ofPair (convtransp2dGetPadding (.num inp) (.num out) (.num k) (.num s) (.num d) (.num op)))
      (.num d) (.num op) = (out, out)) ↔ |Spec.transpPad inp out k s d op| ≤ 1 := by
  have hT : convtPadAxis inp out k s d op = ((Spec.transpPad inp out k s d op : ℤ) : ℚ) / 2 := by
    unfold convtPadAxis Spec.transpPad; push_cast; ring
  have hs := quarter_sum (Spec.transpPad inp out k s d op)
  rw [← hT] at hs
  have hval : convtransp2dOutputShape (.num inp) (.num k) (.num s)
      (Pad.ofPair (convtransp2dGetPadding (.num inp) (.num out) (.num k) (.num s) (.num d) (.num op)))
      (.num d) (.num op) = (convtOutAxis inp (splitPad (convtPadAxis inp out k s d op)) k s d op,
        convtOutAxis inp (splitPad (convtPadAxis inp out k s d op)) k s d op) := rfl
  have hax : convtOutAxis inp (splitPad (convtPadAxis inp out k s d op)) k s d op
      = out + Spec.transpPad inp out k s d op
        - (2 * (Spec.transpPad inp out k s d op / 4) + (if Spec.transpPad inp out k s d op % 4 = 0 then 0 else 1)) := by
    unfold convtOutAxis; rw [hs]
    generalize 2 * (Spec.transpPad inp out k s d op / 4) + (if Spec.transpPad inp out k s d op % 4 = 0 then 0 else 1) = z
    unfold Spec.transpPad; ring
  rw [hval, hax, Prod.mk.injEq, and_self, abs_le]
  generalize Spec.transpPad inp out k s d op = T
  split_ifs with h <;> omega

/-- C40: axes are independent: with pairs for all arguments each axis is what the function returns for the
numbers of that axis, for the output size and for the padding. -/
theorem C40_axes (h w oh ow kh kw sh sw pt pb pl pr dh dw oph opw : ℤ) :
    convtransp2dOutputShape (.tup h w) (.tup kh kw) (.tup sh sw) (.tup (.tup pt pb) (.tup pl pr)) (.tup dh dw) (.tup oph opw)
      = ((convtransp2dOutputShape (.num h) (.num kh) (.num sh) (.tup (.tup pt pb) (.tup pt pb)) (.num dh) (.num oph)).1,
         (convtransp2dOutputShape (.num w) (.num kw) (.num sw) (.tup (.tup pl pr) (.tup pl pr)) (.num dw) (.num opw)).2) ∧
    convtransp2dGetPadding (.tup h w) (.tup oh ow) (.tup kh kw) (.tup sh sw) (.tup dh dw) (.tup oph opw)
      = ((convtransp2dGetPadding (.num h) (.num oh) (.num kh) (.num sh) (.num dh) (.num oph)).1,
         (convtransp2dGetPadding (.num w) (.num ow) (.num kw) (.num sw) (.num dw) (.num opw)).2) := ⟨rfl, rfl⟩

/-- C40: with the same arguments, and an output padding below the stride, the convolution of the transposed
output has the original size: the two shape functions invert each other. -/
theorem C40_shape_inverse (hw k s : Num2) (pad : Pad) (d op : Num2)
    (h1 : 0 ≤ (Spec.pair op).1 ∧ (Spec.pair op).1 < (Spec.pair s).1)
    (h2 : 0 ≤ (Spec.pair op).2 ∧ (Spec.pair op).2 < (Spec.pair s).2) :
    conv2dOutputShape (.tup (convtransp2dOutputShape hw k s pad d op).1 (convtransp2dOutputShape hw k s pad d op).2)
      k s pad d = .ok (Spec.pair hw) := by
  rw [← pair_eq] at *
  rw [← pair_eq] at h1 h2
  have key : ∀ (size : ℤ) (p : ℤ × ℤ) (k s d op : ℤ), 0 ≤ op ∧ op < s →
      convOutAxis (convtOutAxis size p k s d op) p k s d = .ok size := by
    intro size p k s d op ⟨a, b⟩
    have hs : (0:ℚ) < s := by exact_mod_cast lt_of_le_of_lt a b
    unfold convOutAxis convtOutAxis
    rw [if_neg (by omega)]
    congr 1
    rw [show (size - 1) * s - (p.1 + p.2) + d * (k - 1) + op + 1 + (p.1 + p.2) - d * (k - 1) - 1
      = (size - 1) * s + op by ring]
    rw [Int.floor_add_one, (Int.floor_eq_iff (z := size - 1)).2 ⟨?_, ?_⟩]
    · ring
    · rw [le_div_iff₀ hs]; push_cast
      have : (0:ℚ) ≤ op := by exact_mod_cast a
      linarith
    · rw [div_lt_iff₀ hs]; push_cast
      have : (op:ℚ) < s := by exact_mod_cast b
      linarith
  unfold conv2dOutputShape
  show (convOutAxis (convtOutAxis _ _ _ _ _ _) _ _ _ _ >>= fun h =>
    convOutAxis (convtOutAxis _ _ _ _ _ _) _ _ _ _ >>= fun w => pure (h, w)) = _
  rw [key _ _ _ _ _ _ h1, key _ _ _ _ _ _ h2]; rfl

example : 0 ≤ (Spec.pair (.tup 1 0)).1 ∧ (Spec.pair (.tup 1 0)).1 < (Spec.pair (.num 2)).1 ∧
    convtransp2dOutputShape (.tup 4 6) (.num 4) (.num 2) (.num 1) (.num 1) (.tup 1 0) = (9, 12) := by decide

/-- C40: the code violates the intended law: doubling a `4`-pixel axis (kernel 4, stride 2, needs
total padding 2) gives 9 instead of 8. -/
theorem C40_violated :
    convtransp2dGetPadding (.num 4) (.num 8) (.num 4) (.num 2) (.num 1) (.num 0) = ((0, 1), (0, 1)) ∧
    convtransp2dOutputShape (.num 4) (.num 4) (.num 2)
      (Pad.ofPair (convtransp2dGetPadding (.num 4) (.num 8) (.num 4) (.num 2) (.num 1) (.num 0)))
      (.num 1) (.num 0) = (9, 9) := by
  have h : convtransp2dGetPadding (.num 4) (.num 8) (.num 4) (.num 2) (.num 1) (.num 0) = ((0, 1), (0, 1)) := by
    norm_num [convtransp2dGetPadding, splitPad, convtPadAxis, num2tuple]
  refine ⟨h, ?_⟩
  rw [h]; rfl

/-! ## C41 -/

/-- A number representable with `i` integer and `f` fraction bits plus sign. -/
def Spec.Representable (i f : ℤ) (x : ℚ) : Prop :=
  ∃ k : ℤ, x = k / (2:ℚ) ^ f ∧ |(k:ℚ)| ≤ (2:ℚ) ^ (i + f) - 1

private theorem two_zpow_pos (n : ℤ) : (0:ℚ) < (2:ℚ) ^ n := zpow_pos (by norm_num) n

private theorem pow_int {n : ℤ} (h : 0 ≤ n) : ∃ M : ℤ, 0 ≤ M ∧ (2:ℚ) ^ n - 1 = M := by
  obtain ⟨m, rfl⟩ := Int.eq_ofNat_of_zero_le h
  refine ⟨2 ^ m - 1, ?_, by push_cast; simp⟩
  have : (1:ℤ) ≤ 2 ^ m := one_le_pow₀ (by norm_num)
  omega

private theorem round_eq {i f : ℤ} (h : 0 ≤ i + f) (x : ℚ) : ∃ M : ℤ, 0 ≤ M ∧ (2:ℚ) ^ (i + f) - 1 = M ∧
    Utils.round i f x = ((clamp (-M) M (roundHE (x * (2:ℚ) ^ f)) : ℤ) : ℚ) / (2:ℚ) ^ f := by
  obtain ⟨M, h0, hM⟩ := pow_int h
  refine ⟨M, h0, hM, ?_⟩
  unfold Utils.round roundSTE
  rw [show 1 - (2:ℚ) ^ (i + f) = -((2:ℚ) ^ (i + f) - 1) by ring, hM]
  unfold clamp; push_cast; rfl

/-- C41: the result is representable. -/
theorem C41_representable (i f : ℤ) (h : 0 ≤ i + f) (x : ℚ) : Spec.Representable i f (Utils.round i f x) := by
  obtain ⟨M, h0, hM, he⟩ := round_eq h x
  refine ⟨_, he, ?_⟩
  rw [hM]
  have h1 : -M ≤ clamp (-M) M (roundHE (x * (2:ℚ) ^ f)) := le_clamp (by omega)
  have h2 : clamp (-M) M (roundHE (x * (2:ℚ) ^ f)) ≤ M := clamp_le _ _ _
  have : |clamp (-M) M (roundHE (x * (2:ℚ) ^ f))| ≤ M := abs_le.2 ⟨h1, h2⟩
  exact_mod_cast this

private theorem nearest_int (M k : ℤ) (hM : 0 ≤ M) (hk : |k| ≤ M) (y : ℚ) :
    |((clamp (-M) M (roundHE y) : ℤ) : ℚ) - y| ≤ |(k:ℚ) - y| := by
  have hr := roundHE_sub_le y
  obtain ⟨k1, k2⟩ := abs_le.1 hk
  rw [abs_le] at hr
  rcases lt_or_ge M (roundHE y) with h | h
  · rw [clamp_of_ge h.le]
    have h1 : ((M + 1 : ℤ) : ℚ) ≤ roundHE y := by exact_mod_cast h
    push_cast at h1
    have h2 : (k:ℚ) ≤ M := by exact_mod_cast k2
    rw [abs_of_nonpos (by linarith [hr.2]), abs_of_nonpos (by linarith [hr.2])]; linarith
  · rcases lt_or_ge (roundHE y) (-M) with h' | h'
    · rw [clamp_of_le (by omega) h'.le]
      have h1 : ((roundHE y : ℤ) : ℚ) ≤ ((-M - 1 : ℤ) : ℚ) := by exact_mod_cast (by omega)
      push_cast at h1
      have h2 : -(M:ℚ) ≤ k := by exact_mod_cast k1
      rw [abs_of_nonneg (by push_cast; linarith [hr.1]), abs_of_nonneg (by linarith [hr.1])]; push_cast; linarith
    · rw [clamp_of_mem h' h]
      by_cases hkr : k = roundHE y
      · rw [hkr]
      · have hge : (1:ℤ) ≤ |k - roundHE y| := Int.one_le_abs (sub_ne_zero.2 hkr)
        have hge' : (1:ℚ) ≤ |(k:ℚ) - roundHE y| := by exact_mod_cast hge
        have htri : |(k:ℚ) - roundHE y| ≤ |(k:ℚ) - y| + |(roundHE y : ℚ) - y| := by
          have := abs_sub_le (k:ℚ) y (roundHE y)
          rwa [abs_sub_comm y] at this
        have : |(roundHE y : ℚ) - y| ≤ 1/2 := abs_le.2 hr
        linarith

/-- C41: no representable number is nearer to the input. -/
theorem C41_nearest (i f : ℤ) (h : 0 ≤ i + f) (x g : ℚ) (hg : Spec.Representable i f g) :
    |Utils.round i f x - x| ≤ |g - x| := by
  obtain ⟨M, h0, hM, he⟩ := round_eq h x
  obtain ⟨k, hk, hk2⟩ := hg
  have hp := two_zpow_pos f
  rw [hM] at hk2
  have hk3 : |k| ≤ M := by exact_mod_cast hk2
  have hn := nearest_int M k h0 hk3 (x * (2:ℚ) ^ f)
  have e1 : Utils.round i f x - x = (((clamp (-M) M (roundHE (x * (2:ℚ) ^ f)) : ℤ) : ℚ) - x * (2:ℚ) ^ f) / (2:ℚ) ^ f := by
    rw [he]; field_simp
  have e2 : g - x = ((k:ℚ) - x * (2:ℚ) ^ f) / (2:ℚ) ^ f := by rw [hk]; field_simp
  rw [e1, e2, abs_div, abs_div]
  exact div_le_div_of_nonneg_right hn (abs_nonneg _)

/-- C41: in range the error is at most half a unit, and an exact tie goes to an even multiple. -/
theorem C41_half_unit (i f : ℤ) (h : 0 ≤ i + f) (x : ℚ) (hx : |x| ≤ (2:ℚ) ^ i - 1 / (2:ℚ) ^ f) :
    |Utils.round i f x - x| ≤ 1 / (2 * (2:ℚ) ^ f) ∧
    (|Utils.round i f x - x| = 1 / (2 * (2:ℚ) ^ f) → ∃ m : ℤ, Utils.round i f x = 2 * m / (2:ℚ) ^ f) := by
  obtain ⟨M, h0, hM, he⟩ := round_eq h x
  have hp := two_zpow_pos f
  have hy : |x * (2:ℚ) ^ f| ≤ M := by
    rw [abs_mul, abs_of_pos hp, ← hM, zpow_add₀ (by norm_num : (2:ℚ) ≠ 0)]
    have := mul_le_mul_of_nonneg_right hx hp.le
    have e : ((2:ℚ) ^ i - 1 / (2:ℚ) ^ f) * (2:ℚ) ^ f = (2:ℚ) ^ i * (2:ℚ) ^ f - 1 := by field_simp
    rw [e] at this; exact this
  obtain ⟨y1, y2⟩ := abs_le.1 hy
  have m1 : -M ≤ roundHE (x * (2:ℚ) ^ f) := by
    have := roundHE_mono y1
    rwa [show -(M:ℚ) = ((-M : ℤ) : ℚ) by push_cast; ring, roundHE_of_int] at this
  have m2 : roundHE (x * (2:ℚ) ^ f) ≤ M := by
    have := roundHE_mono y2
    rwa [roundHE_of_int] at this
  rw [clamp_of_mem m1 m2] at he
  have e1 : Utils.round i f x - x = ((roundHE (x * (2:ℚ) ^ f) : ℚ) - x * (2:ℚ) ^ f) / (2:ℚ) ^ f := by
    rw [he]; field_simp
  have e2 : 1 / (2 * (2:ℚ) ^ f) = (1/2) / (2:ℚ) ^ f := by field_simp
  rw [e1, e2, abs_div, abs_of_pos hp]
  refine ⟨div_le_div_of_nonneg_right (roundHE_sub_le _) hp.le, fun ht => ?_⟩
  have ht' := (div_left_inj' hp.ne').1 ht
  have hev := roundHE_even ht'
  refine ⟨roundHE (x * (2:ℚ) ^ f) / 2, ?_⟩
  rw [he]; congr 1
  have : roundHE (x * (2:ℚ) ^ f) = 2 * (roundHE (x * (2:ℚ) ^ f) / 2) := by omega
  exact_mod_cast this

/-- C41: monotone and odd. -/
theorem C41_monotone_odd (i f : ℤ) (h : 0 ≤ i + f) (x y : ℚ) :
    (x ≤ y → Utils.round i f x ≤ Utils.round i f y) ∧ Utils.round i f (-x) = - Utils.round i f x := by
  have hp := two_zpow_pos f
  refine ⟨fun hxy => ?_, ?_⟩
  · unfold Utils.round roundSTE
    apply div_le_div_of_nonneg_right _ hp.le
    apply clamp_mono
    exact_mod_cast roundHE_mono (mul_le_mul_of_nonneg_right hxy hp.le)
  · obtain ⟨M, h0, hM, he⟩ := round_eq h x
    obtain ⟨M', -, hM', he'⟩ := round_eq h (-x)
    have : M' = M := by rw [hM] at hM'; exact_mod_cast hM'.symm
    subst this
    rw [he, he', neg_mul, roundHE_neg]
    have : clamp (-M') M' (-roundHE (x * (2:ℚ) ^ f)) = - clamp (-M') M' (roundHE (x * (2:ℚ) ^ f)) := by
      unfold clamp; omega
    rw [this]; push_cast; ring

/-- C41: representable numbers are fixed, so rounding is idempotent; a missing tensor stays missing. -/
theorem C41_idempotent (i f : ℤ) (h : 0 ≤ i + f) :
    (∀ x, Spec.Representable i f x → Utils.round i f x = x) ∧
    (∀ x, Utils.round i f (Utils.round i f x) = Utils.round i f x) ∧ roundT i f none = none := by
  have hfix : ∀ x, Spec.Representable i f x → Utils.round i f x = x := by
    intro x hx
    have := C41_nearest i f h x x hx
    rw [sub_self, abs_zero] at this
    have h0 := abs_nonneg (Utils.round i f x - x)
    have := abs_eq_zero.1 (le_antisymm this h0)
    linarith
  exact ⟨hfix, fun x => hfix _ (C41_representable i f h x), rfl⟩

/-- C41: a negative total width is degenerate: every input is mapped to one value outside the
representable range. -/
theorem C41_negative_width (i f : ℤ) (h : i + f < 0) (x : ℚ) :
    Utils.round i f x = ((2:ℚ) ^ (i + f) - 1) / (2:ℚ) ^ f := by
  have h1 : (2:ℚ) ^ (i + f) < 1 := zpow_lt_one_of_neg₀ (by norm_num) h
  unfold Utils.round roundSTE clamp
  rw [min_eq_right]
  exact le_trans (by linarith) (le_max_right _ _)

example : (0:ℤ) ≤ 3 + 4 ∧ |(5/2 : ℚ)| ≤ (2:ℚ) ^ (3:ℤ) - 1 / (2:ℚ) ^ (4:ℤ) ∧ Spec.Representable 3 4 (5/2) := by
  refine ⟨by norm_num, by norm_num [abs_of_pos], 40, by norm_num, by norm_num⟩

/-! ## C42 -/

/-- `x` lies on the grid of stochastic numbers of `bw` bits for the representation. -/
def Spec.OnGrid (m : Mode) (bw : ℕ) (x : ℚ) : Prop :=
  match m with
  | .unipolar => 0 ≤ x ∧ x ≤ 1 ∧ ∃ k : ℤ, x = k / 2 ^ bw
  | .bipolar => -1 ≤ x ∧ x ≤ 1 ∧ ∃ k : ℤ, x = k / 2 ^ (bw - 1)

/-- The mode strings of the clipper (case-sensitive). -/
def Spec.modeName : Mode → String
  | .unipolar => "unipolar"
  | .bipolar => "bipolar"

private theorem half_pow {bw : ℕ} (h : 1 ≤ bw) : (2:ℚ) ^ bw / 2 = 2 ^ (bw - 1) := by
  obtain ⟨n, rfl⟩ := Nat.exists_eq_add_of_le' h
  rw [pow_succ, Nat.add_sub_cancel]; ring

private theorem quant_grid (s lo : ℤ) (hlo : lo ≤ s) (x : ℚ) :
    ∃ k : ℤ, lo ≤ k ∧ k ≤ s ∧ quant lo s x = k / s := by
  refine ⟨clamp lo s (roundHE (x * s)), le_clamp hlo, clamp_le _ _ _, ?_⟩
  unfold quant clamp; push_cast; rfl

private theorem quant_fix (s lo k : ℤ) (hs : 0 < s) (h1 : lo ≤ k) (h2 : k ≤ s) :
    quant lo s ((k:ℚ) / s) = k / s := by
  have hsq : (s:ℚ) ≠ 0 := by exact_mod_cast hs.ne'
  unfold quant
  rw [div_mul_cancel₀ _ hsq, roundHE_of_int, clamp_of_mem (by exact_mod_cast h1) (by exact_mod_cast h2)]

/-- How one element is quantised in the two representations. -/
private def quantM (m : Mode) (bw : ℕ) : ℚ → ℚ := match m with
  | .unipolar => quant 0 (2 ^ bw)
  | .bipolar => quant (-2 ^ bw / 2) (2 ^ bw / 2)

private theorem quantM_grid (m : Mode) (bw : ℕ) (h : 1 ≤ bw) (x : ℚ) : Spec.OnGrid m bw (quantM m bw x) := by
  have hq : (0:ℚ) < 2 ^ bw := by positivity
  cases m
  · obtain ⟨k, h1, h2, h3⟩ := quant_grid (2 ^ bw) 0 (by positivity) x
    push_cast at h3
    show 0 ≤ quant 0 (2 ^ bw) x ∧ quant 0 (2 ^ bw) x ≤ 1 ∧ _
    rw [show quant 0 (2 ^ bw) x = k / 2 ^ bw from h3]
    refine ⟨?_, ?_, k, h3⟩
    · apply div_nonneg _ hq.le; exact_mod_cast h1
    · rw [div_le_one hq]; exact_mod_cast h2
  · have hq' : (0:ℚ) < 2 ^ (bw - 1) := by positivity
    obtain ⟨k, h1, h2, h3⟩ := quant_grid (2 ^ (bw - 1)) (-2 ^ (bw - 1))
      (by have : (0:ℤ) < 2 ^ (bw - 1) := by positivity
          linarith) x
    push_cast at h3
    have e : quantM .bipolar bw x = k / 2 ^ (bw - 1) := by
      show quant (-2 ^ bw / 2) (2 ^ bw / 2) x = _
      rw [neg_div, half_pow h]; exact h3
    rw [e]
    refine ⟨?_, ?_, k, rfl⟩
    · rw [le_div_iff₀ hq']; have : ((-2 ^ (bw - 1) : ℤ) : ℚ) ≤ k := by exact_mod_cast h1
      push_cast at this; linarith
    · rw [div_le_one hq']; exact_mod_cast h2

private theorem quantM_fix (m : Mode) (bw : ℕ) (h : 1 ≤ bw) (x : ℚ) (hx : Spec.OnGrid m bw x) : quantM m bw x = x := by
  have hq : (0:ℚ) < 2 ^ bw := by positivity
  cases m
  · obtain ⟨h1, h2, k, rfl⟩ := hx
    have := quant_fix (2 ^ bw) 0 k (by positivity)
      (by have := mul_nonneg h1 hq.le; rw [div_mul_cancel₀ _ hq.ne'] at this; exact_mod_cast this)
      (by rw [div_le_one hq] at h2; exact_mod_cast h2)
    push_cast at this; exact this
  · obtain ⟨h1, h2, k, rfl⟩ := hx
    have hq' : (0:ℚ) < 2 ^ (bw - 1) := by positivity
    have := quant_fix (2 ^ (bw - 1)) (-2 ^ (bw - 1)) k (by positivity)
      (by rw [le_div_iff₀ hq'] at h1
          have h1' : ((-2 ^ (bw - 1) : ℤ) : ℚ) ≤ k := by push_cast; linarith
          exact_mod_cast h1')
      (by rw [div_le_one hq'] at h2; exact_mod_cast h2)
    show quant (-2 ^ bw / 2) (2 ^ bw / 2) _ = _
    rw [neg_div, half_pow h]; push_cast at this; exact this

private def loM : Mode → ℚ
  | .unipolar => 0
  | .bipolar => -1

private theorem clip_eq (m : Mode) (bw : ℕ) (w : List ℚ) :
    clipping (Spec.modeName m) "clip" bw w = .ok ((w.map (clamp (loM m) 1)).map (quantM m bw)) := by
  cases m <;> rfl

private def stretch : Mode → ℚ → ℚ
  | .unipolar, x => x
  | .bipolar, x => x * 2 - 1

private theorem norm_eq (m : Mode) (bw : ℕ) (w : List ℚ) :
    clipping (Spec.modeName m) "norm" bw w = (normalise w >>= fun v => pure ((v.map (stretch m)).map (quantM m bw))) := by
  cases m
  · show (normalise w >>= fun v => pure (v.map (quant 0 (2 ^ bw)))) = _
    have : ∀ v : List ℚ, v.map (stretch .unipolar) = v := fun v => by
      rw [show stretch .unipolar = id from rfl]; simp
    simp only [this]; rfl
  · rfl

/-- C42: after a successful processing every element is on the grid. -/
theorem C42_grid (m : Mode) (bw : ℕ) (h : 1 ≤ bw) (method : String) (w w' : List ℚ)
    (he : clipping (Spec.modeName m) method bw w = .ok w') : w'.length = w.length ∧ ∀ x ∈ w', Spec.OnGrid m bw x := by
  by_cases h1 : method = "norm"
  · subst h1
    rw [norm_eq] at he
    cases hn : normalise w with
    | error e => rw [hn] at he; cases he
    | ok v =>
        rw [hn] at he
        have he' : (v.map (stretch m)).map (quantM m bw) = w' := Except.ok.inj he
        have hlen : v.length = w.length := by
          unfold normalise at hn
          cases hm : tmin w with
          | error e => rw [hm] at hn; cases hn
          | ok a =>
              rw [hm] at hn
              cases hx : tmax (w.map (· - a)) with
              | error e => simp only [bind, Except.bind, hx] at hn; cases hn
              | ok b =>
                  cases hy : tmin (w.map (· - a)) with
                  | error e => simp only [bind, Except.bind, hx, hy] at hn; cases hn
                  | ok c =>
                      simp only [bind, Except.bind, hx, hy] at hn
                      split_ifs at hn
                      cases hn; simp
        rw [← he']
        refine ⟨by simp [hlen], ?_⟩
        intro x hx
        obtain ⟨y, -, rfl⟩ := List.mem_map.1 hx
        exact quantM_grid m bw h y
  · by_cases h2 : method = "clip"
    · subst h2
      rw [clip_eq] at he
      have he' := Except.ok.inj he
      rw [← he']
      refine ⟨by simp, ?_⟩
      intro x hx
      obtain ⟨y, -, rfl⟩ := List.mem_map.1 hx
      exact quantM_grid m bw h y
    · exfalso
      unfold clipping at he
      cases m
      · rw [if_pos (show Spec.modeName .unipolar = "unipolar" from rfl), if_neg h1, if_neg h2] at he; cases he
      · rw [if_neg (show Spec.modeName .bipolar ≠ "unipolar" by decide), if_pos (show Spec.modeName .bipolar = "bipolar" from rfl),
          if_neg h1, if_neg h2] at he; cases he

private theorem grid_range {m : Mode} {bw : ℕ} {x : ℚ} (h : Spec.OnGrid m bw x) : loM m ≤ x ∧ x ≤ 1 := by
  cases m <;> exact ⟨h.1, h.2.1⟩

/-- C42: clipping fixes exactly the tensors on the grid, so processing again changes nothing. -/
theorem C42_idempotent (m : Mode) (bw : ℕ) (h : 1 ≤ bw) (w : List ℚ) (hw : ∀ x ∈ w, Spec.OnGrid m bw x) :
    clipping (Spec.modeName m) "clip" bw w = .ok w := by
  rw [clip_eq, List.map_map]
  congr 1
  conv_rhs => rw [← List.map_id w]
  apply List.map_congr_left
  intro x hx
  have hg := grid_range (hw x hx)
  show quantM m bw (clamp (loM m) 1 x) = x
  rw [clamp_of_mem hg.1 hg.2, quantM_fix m bw h x (hw x hx)]

/-- C42: clipping moves an in-range weight by at most half a grid step; out-of-range weights go to
the nearest end. -/
theorem C42_clip_error (m : Mode) (bw : ℕ) (h : 1 ≤ bw) (x : ℚ) :
    ∃ y, clipping (Spec.modeName m) "clip" bw [x] = .ok [y] ∧
      (|x| ≤ 1 → (m = .unipolar → 0 ≤ x) →
        |y - x| ≤ match m with | .unipolar => 1 / 2 ^ (bw + 1) | .bipolar => 1 / 2 ^ bw) ∧
      (1 ≤ x → y = 1) ∧ (x ≤ -1 → y = match m with | .unipolar => 0 | .bipolar => -1) := by
  refine ⟨quantM m bw (clamp (loM m) 1 x), by rw [clip_eq]; rfl, ?_, ?_, ?_⟩
  · intro hx hu
    obtain ⟨x1, x2⟩ := abs_le.1 hx
    have hlo : loM m ≤ x := by cases m <;> [exact hu rfl; exact x1]
    rw [clamp_of_mem hlo x2]
    have core : ∀ s : ℤ, 0 < s → ∀ lo : ℤ, ((lo:ℚ) ≤ x * s) → |quant lo s x - x| ≤ 1 / (2 * s) := by
      intro s hs lo hlo
      have hsq : (0:ℚ) < s := by exact_mod_cast hs
      have hr := roundHE_sub_le (x * s)
      have a1 : (lo:ℚ) ≤ roundHE (x * s) := by
        have := roundHE_mono hlo; rw [roundHE_of_int] at this; exact_mod_cast this
      have a2 : (roundHE (x * s) : ℚ) ≤ s := by
        have hle : x * s ≤ (s : ℚ) := by nlinarith
        have := roundHE_mono hle; rw [roundHE_of_int] at this; exact_mod_cast this
      unfold quant
      rw [clamp_of_mem a1 a2]
      rw [show (roundHE (x * s) : ℚ) / s - x = ((roundHE (x * s) : ℚ) - x * s) / s by field_simp, abs_div, abs_of_pos hsq,
        show (1:ℚ) / (2 * s) = (1/2) / s by field_simp]
      exact div_le_div_of_nonneg_right hr hsq.le
    cases m
    · have := core (2 ^ bw) (by positivity) 0 (by push_cast; exact mul_nonneg (hu rfl) (by positivity))
      push_cast at this
      show |quant 0 (2 ^ bw) x - x| ≤ 1 / 2 ^ (bw + 1)
      rw [pow_succ, mul_comm ((2:ℚ) ^ bw) 2]; exact this
    · have := core (2 ^ (bw - 1)) (by positivity) (-2 ^ (bw - 1)) (by
        push_cast
        have : (0:ℚ) < 2 ^ (bw - 1) := by positivity
        nlinarith)
      push_cast at this
      show |quant (-2 ^ bw / 2) (2 ^ bw / 2) x - x| ≤ 1 / 2 ^ bw
      rw [neg_div, half_pow h]
      have e : (2:ℚ) ^ bw = 2 * 2 ^ (bw - 1) := by rw [← half_pow h]; ring
      rw [e]; exact this
  · intro hx
    rw [clamp_of_ge hx]
    apply quantM_fix m bw h
    cases m
    · exact ⟨by norm_num, le_refl _, 2 ^ bw, by push_cast; field_simp⟩
    · exact ⟨by norm_num, le_refl _, 2 ^ (bw - 1), by push_cast; field_simp⟩
  · intro hx
    rw [clamp_of_le (by cases m <;> norm_num [loM]) (by cases m <;> norm_num [loM] <;> linarith)]
    cases m
    · exact quantM_fix .unipolar bw h 0 ⟨le_refl _, by norm_num, 0, by simp⟩
    · exact quantM_fix .bipolar bw h (-1) ⟨le_refl _, by norm_num, -2 ^ (bw - 1), by push_cast; field_simp⟩

private theorem min?_some {w : List ℚ} (h : w ≠ []) : ∃ m ∈ w, w.min? = some m ∧ ∀ x ∈ w, m ≤ x := by
  cases hm : w.min? with
  | none => exact absurd (List.min?_eq_none_iff.1 hm) h
  | some m =>
      have := (List.min?_eq_some_iff).1 hm
      exact ⟨m, this.1, rfl, this.2⟩

private theorem max?_some {w : List ℚ} (h : w ≠ []) : ∃ m ∈ w, w.max? = some m ∧ ∀ x ∈ w, x ≤ m := by
  cases hm : w.max? with
  | none => exact absurd (List.max?_eq_none_iff.1 hm) h
  | some m =>
      have := (List.max?_eq_some_iff).1 hm
      exact ⟨m, this.1, rfl, this.2⟩

private theorem normalise_eq {w : List ℚ} (hne : w ≠ []) : ∃ a ∈ w, ∃ b ∈ w, (∀ x ∈ w, a ≤ x ∧ x ≤ b) ∧
    normalise w = if b - a = 0 then .error .nonfinite else .ok (w.map fun x => (x - a) / (b - a)) := by
  obtain ⟨a, ha, e1, h1⟩ := min?_some hne
  obtain ⟨b, hb, e2, h2⟩ := max?_some hne
  have hne' : w.map (· - a) ≠ [] := by simpa using hne
  obtain ⟨a', ha', e1', h1'⟩ := min?_some hne'
  obtain ⟨b', hb', e2', h2'⟩ := max?_some hne'
  have hA : a' = 0 := by
    obtain ⟨z, hz, rfl⟩ := List.mem_map.1 ha'
    have := h1' (a - a) (List.mem_map.2 ⟨a, ha, rfl⟩)
    have := h1 z hz
    linarith
  have hB : b' = b - a := by
    obtain ⟨z, hz, rfl⟩ := List.mem_map.1 hb'
    have := h2' (b - a) (List.mem_map.2 ⟨b, hb, rfl⟩)
    have := h2 z hz
    linarith
  refine ⟨a, ha, b, hb, fun x hx => ⟨h1 x hx, h2 x hx⟩, ?_⟩
  unfold normalise tmin tmax
  rw [e1]
  simp only [bind, Except.bind]
  rw [e1', e2', hA, hB]
  simp only [sub_zero, List.map_map]
  rfl

/-- C42: the normalising call maps the smallest element to the lower end, the largest to the upper
end, keeps the order, and has no finite result for a constant tensor. -/
theorem C42_norm (m : Mode) (bw : ℕ) (h : 1 ≤ bw) (w : List ℚ) (a b : ℚ) (ha : a ∈ w) (hb : b ∈ w)
    (hab : ∀ x ∈ w, a ≤ x ∧ x ≤ b) :
    (a = b → clipping (Spec.modeName m) "norm" bw w = .error .nonfinite) ∧
    (a < b → ∃ f : ℚ → ℚ, clipping (Spec.modeName m) "norm" bw w = .ok (w.map f) ∧ Monotone f ∧ f b = 1 ∧
      f a = match m with | .unipolar => 0 | .bipolar => -1) := by
  have hne : w ≠ [] := List.ne_nil_of_mem ha
  obtain ⟨a', ha', b', hb', hr, he⟩ := normalise_eq hne
  have e1 : a' = a := le_antisymm (hr a ha).1 (hab a' ha').1
  have e2 : b' = b := le_antisymm (hab b' hb').2 (hr b hb).2
  subst e1; subst e2
  rw [norm_eq, he]
  refine ⟨fun heq => ?_, fun hlt => ?_⟩
  · rw [if_pos (by linarith)]; rfl
  · have hd : 0 < b' - a' := by linarith
    rw [if_neg hd.ne']
    refine ⟨fun x => quantM m bw (stretch m ((x - a') / (b' - a'))), ?_, ?_, ?_, ?_⟩
    · show Except.ok _ = Except.ok _
      rw [List.map_map, List.map_map]; rfl
    · intro x y hxy
      have h1 : (x - a') / (b' - a') ≤ (y - a') / (b' - a') := div_le_div_of_nonneg_right (by linarith) hd.le
      have h2 : stretch m ((x - a') / (b' - a')) ≤ stretch m ((y - a') / (b' - a')) := by
        cases m
        · exact h1
        · show _ * 2 - 1 ≤ _ * 2 - 1; linarith
      have qm : ∀ (lo s : ℚ), 0 < s → ∀ x y : ℚ, x ≤ y → quant lo s x ≤ quant lo s y := by
        intro lo s hs x y hxy
        unfold quant
        apply div_le_div_of_nonneg_right _ hs.le
        apply clamp_mono
        exact_mod_cast roundHE_mono (mul_le_mul_of_nonneg_right hxy hs.le)
      cases m
      · exact qm _ _ (by positivity) _ _ h2
      · exact qm _ _ (by positivity) _ _ h2
    · show quantM m bw (stretch m ((b' - a') / (b' - a'))) = 1
      rw [div_self hd.ne']
      cases m
      · exact quantM_fix .unipolar bw h 1 ⟨by norm_num, le_refl _, 2 ^ bw, by push_cast; field_simp⟩
      · show quantM .bipolar bw (1 * 2 - 1) = 1
        norm_num
        exact quantM_fix .bipolar bw h 1 ⟨by norm_num, le_refl _, 2 ^ (bw - 1), by push_cast; field_simp⟩
    · show quantM m bw (stretch m ((a' - a') / (b' - a'))) = _
      rw [sub_self, zero_div]
      cases m
      · exact quantM_fix .unipolar bw h 0 ⟨le_refl _, by norm_num, 0, by simp⟩
      · show quantM .bipolar bw (0 * 2 - 1) = -1
        norm_num
        exact quantM_fix .bipolar bw h (-1) ⟨le_refl _, by norm_num, -2 ^ (bw - 1), by push_cast; field_simp⟩

/-- The processing of one module with a given method: weight and bias, when present. -/
def Spec.processed (mode method : String) (bw : ℕ) (m m' : Mod) : Prop :=
  (match m.weight, m'.weight with
    | none, none => True
    | some w, some w' => clipping mode method bw w = .ok w'
    | _, _ => False) ∧
  (match m.bias, m'.bias with
    | none, none => True
    | some (some b), some (some b') => clipping mode method bw b = .ok b'
    | _, _ => False)

private theorem call_spec (c c' : Clipper) (m m' : Mod) (h : c.call m = .ok (c', m')) :
    Spec.processed c.mode (if c.frequency > 1 then "clip" else "norm") c.bw m m' ∧
    c'.frequency = c.frequency + 1 ∧ c'.mode = c.mode ∧ c'.bw = c.bw := by
  unfold Clipper.call at h
  unfold Spec.processed
  generalize (if c.frequency > 1 then "clip" else "norm") = meth at *
  obtain ⟨w, b⟩ := m
  cases w with
  | none =>
      cases b with
      | none => cases h; exact ⟨⟨trivial, trivial⟩, rfl, rfl, rfl⟩
      | some b =>
          cases b with
          | none => cases h
          | some b =>
              cases hb : clipping c.mode meth c.bw b with
              | error e => simp only [hb] at h; cases h
              | ok b' => simp only [hb] at h; cases h; exact ⟨⟨trivial, hb⟩, rfl, rfl, rfl⟩
  | some w =>
      cases hw : clipping c.mode meth c.bw w with
      | error e => simp only [hw] at h; cases h
      | ok w' =>
          simp only [hw] at h
          cases b with
          | none => cases h; exact ⟨⟨hw, trivial⟩, rfl, rfl, rfl⟩
          | some b =>
              cases b with
              | none => cases h
              | some b =>
                  cases hb : clipping c.mode meth c.bw b with
                  | error e => simp only [hb] at h; cases h
                  | ok b' => simp only [hb] at h; cases h; exact ⟨⟨hw, hb⟩, rfl, rfl, rfl⟩

/-- C42: whatever `method` the constructor got, module number `n` (from `0`) is normalised exactly
when `frequency + n ≤ 1`: with the default frequency `1` only the first one. -/
theorem C42_schedule (freq : ℤ) (mode method : String) (bw : ℕ) (ms ms' : List Mod) (c' : Clipper)
    (h : Clipper.run ⟨freq, mode, method, bw⟩ ms = .ok (c', ms')) :
    ms'.length = ms.length ∧ ∀ (n : ℕ) m m', ms[n]? = some m → ms'[n]? = some m' →
      Spec.processed mode (if freq + n ≤ 1 then "norm" else "clip") bw m m' := by
  induction ms generalizing freq method ms' with
  | nil => cases h; exact ⟨rfl, fun n m m' h => by simp at h⟩
  | cons m0 ms ih =>
      unfold Clipper.run at h
      cases hc : Clipper.call ⟨freq, mode, method, bw⟩ m0 with
      | error e => simp only [hc] at h; cases h
      | ok r =>
          obtain ⟨c1, m1⟩ := r
          obtain ⟨hp, hf, hm, hb⟩ := call_spec _ _ _ _ hc
          simp only [hc] at h
          cases hr : Clipper.run c1 ms with
          | error e => simp only [bind, Except.bind, hr] at h; cases h
          | ok r2 =>
              obtain ⟨c2, ms2⟩ := r2
              simp only [bind, Except.bind, hr] at h
              cases h
              have hc1 : c1 = ⟨freq + 1, mode, c1.method, bw⟩ := by
                cases c1; simp only at hf hm hb; subst hf hm hb; rfl
              rw [hc1] at hr
              obtain ⟨h1, h2⟩ := ih (freq + 1) c1.method ms2 hr
              refine ⟨by simp [h1], fun n m m' hn hn' => ?_⟩
              cases n with
              | zero =>
                  simp at hn hn'
                  subst hn hn'
                  have e : (if freq + ((0:ℕ):ℤ) ≤ 1 then "norm" else "clip") = (if freq > 1 then "clip" else "norm") := by
                    by_cases hq : freq > 1
                    · rw [if_pos hq, if_neg (by push_cast; omega)]
                    · rw [if_neg hq, if_pos (by push_cast; omega)]
                  rw [e]; exact hp
              | succ n =>
                  simp at hn hn'
                  have := h2 n m m' hn hn'
                  rw [show freq + ((n + 1 : ℕ) : ℤ) = freq + 1 + n by push_cast; ring]
                  exact this

/-- C42: failures.  An unknown (also differently capitalised) mode is a type error, and so is a
module whose `bias` attribute is `None` (a layer built with `bias=False`): an attribute error. -/
theorem C42_errors (c : Clipper) (w : List ℚ) (b : Option (Option (List ℚ))) :
    (c.mode ≠ "unipolar" → c.mode ≠ "bipolar" → c.call ⟨some w, b⟩ = .error .type) ∧
    (∀ m, c.mode = Spec.modeName m → ∀ x y : ℚ, x < y → ∀ l, 1 ≤ c.bw →
      c.call ⟨some (x :: y :: l), some none⟩ = .error .attribute) := by
  refine ⟨fun h1 h2 => ?_, ?_⟩
  · unfold Clipper.call
    have : ∀ meth, clipping c.mode meth c.bw w = .error .type := by
      intro meth; unfold clipping; rw [if_neg h1, if_neg h2]
    simp only [this]; rfl
  · intro m hm x y hxy l hbw
    unfold Clipper.call
    have hok : ∀ meth, meth = "clip" ∨ meth = "norm" → ∃ w', clipping c.mode meth c.bw (x :: y :: l) = .ok w' := by
      rintro meth (rfl | rfl)
      · exact ⟨_, by rw [hm, clip_eq]⟩
      · obtain ⟨a, ha, b, hb, hr, -⟩ := normalise_eq (w := x :: y :: l) (by simp)
        have hlt : a < b := lt_of_le_of_lt (hr x (by simp)).1 (lt_of_lt_of_le hxy (hr y (by simp)).2)
        obtain ⟨f, hf, -⟩ := (C42_norm m c.bw hbw _ a b ha hb hr).2 hlt
        exact ⟨_, by rw [hm]; exact hf⟩
    obtain ⟨w', hw⟩ := hok (if c.frequency > 1 then "clip" else "norm") (by split_ifs <;> simp)
    simp only [hw]; rfl

example : ∃ c' ms', Clipper.run ⟨1, "bipolar", "clip", 8⟩ [⟨some [1, 2, 3], none⟩, ⟨some [5], none⟩] = .ok (c', ms') := by
  obtain ⟨f, e1, -⟩ := (C42_norm .bipolar 8 (by norm_num) [1, 2, 3] 1 3 (by simp) (by simp)
    (by simp; norm_num)).2 (by norm_num)
  change clipping "bipolar" "norm" 8 [1, 2, 3] = _ at e1
  have h1 : Clipper.call ⟨1, "bipolar", "clip", 8⟩ ⟨some [1, 2, 3], none⟩ = .ok (⟨2, "bipolar", "norm", 8⟩, ⟨some ([1, 2, 3].map f), none⟩) := by
    unfold Clipper.call
    simp only [gt_iff_lt, lt_irrefl, if_false, e1]
    rfl
  unfold Clipper.run
  rw [h1]
  exact ⟨_, _, rfl⟩

/-! ## C43 -/

/-- Inside two standard deviations. -/
def Spec.Inside (mean std x : ℚ) : Prop := mean - 2 * std ≤ x ∧ x ≤ mean + 2 * std

private theorem inside_iff (mean std x : ℚ) : ¬ tnOut mean std x ↔ Spec.Inside mean std x := by
  unfold tnOut Spec.Inside; rw [not_or, not_lt, gt_iff_lt, not_lt]

private theorem getD_lt (l : List ℚ) (i : ℕ) (h : i < l.length) : l.getD i 0 = l[i] := by
  simp [List.getD_eq_getElem?_getD, h]

/-- C43: whatever the draws, a returned tensor is inside two standard deviations everywhere. -/
theorem C43_inside (mean std : ℚ) (draws : ℕ → List ℚ) (k : ℕ) (r : List ℚ) (h : tnReturns mean std draws k r) :
    ∀ x ∈ r, Spec.Inside mean std x := by
  intro x hx
  obtain ⟨-, h2, rfl⟩ := h
  exact (inside_iff _ _ _).1 (h2 x hx)

private theorem tn_length (mean std : ℚ) (draws : ℕ → List ℚ) (N : ℕ) (hN : ∀ j, (draws j).length = N) (k : ℕ) :
    (tnIter mean std draws k).length = N := by
  induction k with
  | zero => exact hN 0
  | succ k ih => simp [tnIter, ih, hN]

private theorem tn_elem (mean std : ℚ) (draws : ℕ → List ℚ) (N : ℕ) (hN : ∀ j, (draws j).length = N) (i : ℕ) (hi : i < N)
    (k : ℕ) : (∀ j ≤ k, tnOut mean std ((draws j).getD i 0) → True) ∧
    (∀ j ≤ k, ¬ tnOut mean std ((draws j).getD i 0) → (∀ j' < j, tnOut mean std ((draws j').getD i 0)) →
      (tnIter mean std draws k).getD i 0 = (draws j).getD i 0) ∧
    ((∀ j ≤ k, tnOut mean std ((draws j).getD i 0)) → (tnIter mean std draws k).getD i 0 = (draws k).getD i 0) := by
  refine ⟨fun _ _ _ => trivial, ?_⟩
  induction k with
  | zero =>
      refine ⟨fun j hj _ _ => ?_, fun _ => rfl⟩
      have : j = 0 := by omega
      subst this; rfl
  | succ k ih =>
      obtain ⟨ih1, ih2⟩ := ih
      have hl := tn_length mean std draws N hN k
      have hstep : (tnIter mean std draws (k + 1)).getD i 0
          = if tnOut mean std ((tnIter mean std draws k).getD i 0) then (draws (k + 1)).getD i 0
            else (tnIter mean std draws k).getD i 0 := by
        have hi1 : i < (tnIter mean std draws k).length := by omega
        have hi2 : i < (draws (k + 1)).length := by rw [hN]; exact hi
        simp [tnIter, List.getD_eq_getElem?_getD, hi1, hi2]
      constructor
      · intro j hj hok hbad
        rcases Nat.lt_or_ge j (k + 1) with hlt | hge
        · have e := ih1 j (by omega) hok hbad
          rw [hstep, e, if_neg hok]
        · have : j = k + 1 := by omega
          subst this
          have e := ih2 (fun j' hj' => hbad j' (by omega))
          rw [hstep, e, if_pos (hbad k (by omega))]
      · intro hbad
        have e := ih2 (fun j' hj' => hbad j' (by omega))
        rw [hstep, e, if_pos (hbad k (by omega))]

/-- C43: each element of the result is its first draw inside the range: elements already inside are
never redrawn. -/
theorem C43_first_inside (mean std : ℚ) (draws : ℕ → List ℚ) (N : ℕ) (hN : ∀ j, (draws j).length = N) (k : ℕ)
    (r : List ℚ) (h : tnReturns mean std draws k r) :
    r.length = N ∧ ∀ i < N, ∃ j ≤ k, r.getD i 0 = (draws j).getD i 0 ∧ Spec.Inside mean std ((draws j).getD i 0) ∧
      ∀ j' < j, ¬ Spec.Inside mean std ((draws j').getD i 0) := by
  classical
  obtain ⟨-, h2, rfl⟩ := h
  refine ⟨tn_length mean std draws N hN k, fun i hi => ?_⟩
  obtain ⟨-, e1, e2⟩ := tn_elem mean std draws N hN i hi k
  have hlen := tn_length mean std draws N hN k
  have hmem : (tnIter mean std draws k).getD i 0 ∈ tnIter mean std draws k := by
    rw [getD_lt _ _ (by omega)]; exact List.getElem_mem _
  have hex : ∃ j, j ≤ k ∧ ¬ tnOut mean std ((draws j).getD i 0) := by
    by_contra hno
    push Not at hno
    have := e2 hno
    exact h2 _ hmem (by rw [this]; exact hno k (le_refl _))
  have hspec := Nat.find_spec hex
  have hmin : ∀ j' < Nat.find hex, tnOut mean std ((draws j').getD i 0) := by
    intro j' hj'
    have := Nat.find_min hex hj'
    push Not at this
    exact this (by omega)
  refine ⟨Nat.find hex, hspec.1, e1 _ hspec.1 hspec.2 hmin, (inside_iff _ _ _).1 hspec.2, fun j' hj' hin => ?_⟩
  exact (inside_iff _ _ _).2 hin (hmin j' hj')

/-- C43: the function returns if and only if every element has a draw inside the range. -/
theorem C43_returns_iff (mean std : ℚ) (draws : ℕ → List ℚ) (N : ℕ) (hN : ∀ j, (draws j).length = N) :
    (∃ k r, tnReturns mean std draws k r) ↔ ∀ i < N, ∃ j, Spec.Inside mean std ((draws j).getD i 0) := by
  classical
  constructor
  · rintro ⟨k, r, h⟩ i hi
    obtain ⟨-, h2⟩ := C43_first_inside mean std draws N hN k r h
    obtain ⟨j, -, -, h3, -⟩ := h2 i hi
    exact ⟨j, h3⟩
  · intro h
    choose! J hJ using h
    -- after the maximum of these draws nothing is out of range
    have hdone : ∃ k, ∀ x ∈ tnIter mean std draws k, ¬ tnOut mean std x := by
      refine ⟨(Finset.range N).sup J, ?_⟩
      intro x hx
      obtain ⟨i, hi, rfl⟩ := List.getElem_of_mem hx
      have hiN : i < N := by rw [tn_length mean std draws N hN] at hi; exact hi
      have hle : J i ≤ (Finset.range N).sup J := Finset.le_sup (f := J) (Finset.mem_range.2 hiN)
      have hex : ∃ j, ¬ tnOut mean std ((draws j).getD i 0) := ⟨J i, (inside_iff _ _ _).2 (hJ i hiN)⟩
      have hfle : Nat.find hex ≤ (Finset.range N).sup J :=
        le_trans (Nat.find_min' hex ((inside_iff _ _ _).2 (hJ i hiN))) hle
      have e := (tn_elem mean std draws N hN i hiN ((Finset.range N).sup J)).2.1 (Nat.find hex) hfle (Nat.find_spec hex)
        (fun j' hj' => by have := Nat.find_min hex hj'; rwa [not_not] at this)
      rw [getD_lt _ _ hi] at e
      rw [e]; exact Nat.find_spec hex
    refine ⟨Nat.find hdone, _, ?_, Nat.find_spec hdone, rfl⟩
    intro j hj
    have := Nat.find_min hdone hj
    push Not at this
    exact this

example : tnReturns 0 1 (fun j => if j = 0 then [3, 1] else [0, 5]) 1 [0, 1] := by
  refine ⟨?_, ?_, ?_⟩
  · intro j hj
    have : j = 0 := by omega
    subst this
    exact ⟨3, by simp [tnIter], by norm_num [tnOut]⟩
  · norm_num [tnIter, tnOut]
  · norm_num [tnIter, tnOut]

end Verif.Props
