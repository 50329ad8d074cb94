import Verif.Model.Types
import Verif.Proofs.FloatGen
import Verif.Props.Gen
import Verif.Props.Shuffle
import Verif.Props.Small
import Verif.Props.Linear

/-!
# Property C96: number types
-/

namespace Verif.Props

open Verif Finset Typed Shuffle Small
open Verif.Float (Prec half bfloat single double)
open Verif.Spec (IsPermSeq)

/-! ## Which integers a type holds -/

/-- The type represents all integers between the bounds. -/
def Spec.Holds (τ : NumType) (lo hi : ℤ) : Prop := ∀ n : ℤ, lo ≤ n → n ≤ hi → τ.put n = n

private theorem holds_mono {τ : NumType} {lo hi lo' hi' : ℤ} (h : Spec.Holds τ lo hi) (h1 : lo ≤ lo') (h2 : hi' ≤ hi) :
    Spec.Holds τ lo' hi' := fun n a b => h n (h1.trans a) (b.trans h2)

private theorem truncZ_int (n : ℤ) : truncZ (n : ℚ) = n := by unfold truncZ; split_ifs <;> simp

private theorem half_pow (b : ℕ) (hb : 1 ≤ b) : (2:ℤ) ^ b = 2 ^ (b - 1) + 2 ^ (b - 1) := by
  obtain ⟨b, rfl⟩ := Nat.exists_eq_add_of_le' hb
  rw [Nat.add_sub_cancel, pow_succ]; ring

private theorem put_sint (b : ℕ) (n : ℤ) : (NumType.sint b).put n = (((n + 2 ^ (b - 1)) % 2 ^ b - 2 ^ (b - 1) : ℤ) : ℚ) := by
  simp only [NumType.put, truncZ_int]

private theorem put_uint (b : ℕ) (n : ℤ) : (NumType.uint b).put n = ((n % 2 ^ b : ℤ) : ℚ) := by
  simp only [NumType.put, truncZ_int]

/-- C96, the largest ranges: floating point with `p` fraction bits holds the integers up to `2^(p+1)` in magnitude, and the next one is
rounded away; integers of `b` bits hold what two's complement (signed) or plain binary (unsigned) numbers hold, and wrap beyond. -/
theorem C96_range :
    (∀ P : Prec, P.emin ≤ 0 → Spec.Holds (.fp P) (-2 ^ (P.p + 1)) (2 ^ (P.p + 1)) ∧
      (1 ≤ P.p → (NumType.fp P).put ((2 ^ (P.p + 1) + 1 : ℤ) : ℚ) = (2:ℚ) ^ (P.p + 1))) ∧
    (∀ b : ℕ, 1 ≤ b → Spec.Holds (.sint b) (-2 ^ (b - 1)) (2 ^ (b - 1) - 1) ∧
      (NumType.sint b).put ((2 ^ (b - 1) : ℤ) : ℚ) = -(2:ℚ) ^ (b - 1)) ∧
    (∀ b : ℕ, Spec.Holds (.uint b) 0 (2 ^ b - 1) ∧ (NumType.uint b).put ((2 ^ b : ℤ) : ℚ) = 0 ∧
      (1 ≤ b → (NumType.uint b).put ((-1 : ℤ) : ℚ) = (2:ℚ) ^ b - 1)) := by
  refine ⟨fun P hP => ⟨fun n h1 h2 => Prec.rd_int hP (abs_le.2 ⟨h1, h2⟩), fun hp => ?_⟩, fun b hb => ⟨fun n h1 h2 => ?_, ?_⟩, fun b => ⟨fun n h1 h2 => ?_, ?_, fun hb => ?_⟩⟩
  · show P.rd _ = _
    have hx : ((2 ^ (P.p + 1) + 1 : ℤ) : ℚ) = (2:ℚ) ^ (P.p + 1) + 1 := by push_cast; ring
    rw [hx]
    have h1 : (1:ℚ) ≤ 2 ^ P.p := one_le_pow₀ (by norm_num)
    have hexp : P.exp ((2:ℚ) ^ (P.p + 1) + 1) = 1 := by
      unfold Prec.exp
      have hpos : (0:ℚ) < 2 ^ (P.p + 1) + 1 := by positivity
      rw [abs_of_pos hpos]
      have : Int.log 2 ((2:ℚ) ^ (P.p + 1) + 1) = P.p + 1 := by
        apply le_antisymm
        · have := (Int.lt_zpow_iff_log_lt (b := 2) (by norm_num) hpos (x := (P.p : ℤ) + 2)).1 (by
            rw [show ((P.p:ℤ) + 2) = ((P.p + 2 : ℕ) : ℤ) by push_cast; ring, zpow_natCast]
            have : (2:ℚ) ≤ 2 ^ P.p := by
              calc (2:ℚ) = 2 ^ 1 := by norm_num
                _ ≤ 2 ^ P.p := pow_le_pow_right₀ (by norm_num) hp
            push_cast
            rw [pow_succ, pow_add]; linarith)
          omega
        · refine (Int.zpow_le_iff_le_log (b := 2) (by norm_num) hpos).1 ?_
          rw [show ((P.p:ℤ) + 1) = ((P.p + 1 : ℕ) : ℤ) by push_cast; ring, zpow_natCast]
          push_cast; linarith
      rw [this]
      exact (max_eq_left (by omega)).trans (by ring)
    unfold Prec.rd
    rw [hexp, zpow_one]
    have hq : ((2:ℚ) ^ (P.p + 1) + 1) / 2 = ((2 ^ P.p : ℤ) : ℚ) + 1 / 2 := by push_cast; rw [pow_succ]; ring
    rw [hq]
    have : roundHE (((2 ^ P.p : ℤ) : ℚ) + 1 / 2) = 2 ^ P.p := by
      unfold roundHE
      have hf : ⌊((2 ^ P.p : ℤ) : ℚ) + 1 / 2⌋ = 2 ^ P.p := by rw [Int.floor_intCast_add]; norm_num
      dsimp only
      rw [hf]
      have e : (2:ℤ) ^ P.p % 2 = 0 := by
        obtain ⟨q, hq⟩ := Nat.exists_eq_add_of_le' hp
        rw [hq, pow_succ]; omega
      rw [if_neg (by norm_num), if_neg (by norm_num), if_pos e]
    rw [this]; push_cast; rw [pow_succ]
  · have hp := half_pow b hb
    rw [put_sint, Int.emod_eq_of_lt (by omega) (by omega)]; norm_num
  · have hp := half_pow b hb
    rw [put_sint, ← hp, Int.emod_self]; push_cast; ring
  · rw [put_uint, Int.emod_eq_of_lt h1 (by omega)]
  · rw [put_uint, Int.emod_self]; norm_num
  · rw [put_uint]
    have h2 : (2:ℤ) ≤ 2 ^ b := by
      calc (2:ℤ) = 2 ^ 1 := by norm_num
        _ ≤ 2 ^ b := pow_le_pow_right₀ (by norm_num) hb
    have : (-1:ℤ) % 2 ^ b = 2 ^ b - 1 := by
      rw [← Int.add_emod_right, Int.emod_eq_of_lt (by omega) (by omega)]; ring
    rw [this]; push_cast; ring

example : (NumType.fp bfloat).put ((257 : ℤ) : ℚ) = 256 ∧ (NumType.sint 8).put ((128 : ℤ) : ℚ) = -128 ∧ (NumType.uint 8).put ((-1 : ℤ) : ℚ) = 255 := by
  have h := C96_range
  have h1 := (h.1 bfloat (by decide)).2 (by decide)
  have h2 := (h.2.1 8 (by norm_num)).2
  have h3 := (h.2.2 8).2.2 (by norm_num)
  norm_num [bfloat] at h1 h2 h3 ⊢
  exact ⟨h1, h2, h3⟩

/-- C96, the floating-point types by name: how far each of them counts, and its smallest positive number, half of which is rounded to zero. -/
theorem C96_named :
    (Spec.Holds (.fp half) (-2048) 2048 ∧ (NumType.fp half).put 2049 = 2048) ∧
    (Spec.Holds (.fp bfloat) (-256) 256 ∧ (NumType.fp bfloat).put 257 = 256) ∧
    (Spec.Holds (.fp single) (-16777216) 16777216 ∧ (NumType.fp single).put 16777217 = 16777216) ∧
    (Spec.Holds (.fp double) (-9007199254740992) 9007199254740992 ∧ (NumType.fp double).put 9007199254740993 = 9007199254740992) ∧
    ∀ Pe ∈ [(half, (-24 : ℤ)), (bfloat, -133), (single, -149), (double, -1074)],
      (NumType.fp Pe.1).put ((2:ℚ) ^ Pe.2) = (2:ℚ) ^ Pe.2 ∧ (NumType.fp Pe.1).put ((2:ℚ) ^ (Pe.2 - 1)) = 0 := by
  have h := C96_range.1
  refine ⟨?_, ?_, ?_, ?_, ?_⟩
  · have := h half (by decide); norm_num [half] at this ⊢; exact this
  · have := h bfloat (by decide); norm_num [bfloat] at this ⊢; exact this
  · have := h single (by decide); norm_num [single] at this ⊢; exact this
  · have := h double (by decide); norm_num [double] at this ⊢; exact this
  · have key : ∀ P : Prec, (NumType.fp P).put ((2:ℚ) ^ P.emin) = (2:ℚ) ^ P.emin ∧ (NumType.fp P).put ((2:ℚ) ^ (P.emin - 1)) = 0 := by
      intro P
      have hp : (0:ℚ) < (2:ℚ) ^ P.emin := zpow_pos (by norm_num) _
      have hp' : (0:ℚ) < (2:ℚ) ^ (P.emin - 1) := zpow_pos (by norm_num) _
      constructor
      · exact Prec.rd_grid (m := 1) (e := P.emin) (by norm_num; exact one_le_pow₀ (by norm_num)) (le_refl _) (by norm_num)
      · show P.rd _ = 0
        have he : P.exp ((2:ℚ) ^ (P.emin - 1)) = P.emin := by
          unfold Prec.exp
          have hl : Int.log 2 ((2:ℚ) ^ (P.emin - 1)) = P.emin - 1 := by exact_mod_cast Int.log_zpow (R := ℚ) (b := 2) (by norm_num) (P.emin - 1)
          rw [abs_of_pos hp', hl]
          exact max_eq_right (by omega)
        unfold Prec.rd
        rw [he]
        have : (2:ℚ) ^ (P.emin - 1) / (2:ℚ) ^ P.emin = 1 / 2 := by
          rw [zpow_sub₀ (by norm_num), zpow_one]; field_simp
        rw [this]
        norm_num [roundHE]
    intro Pe hPe
    simp only [List.mem_cons, List.not_mem_nil, or_false] at hPe
    rcases hPe with rfl | rfl | rfl | rfl
    exacts [key half, key bfloat, key single, key double]

/-! ## Bitstream generation -/

private theorem bsGenT_eq (τ : NumType) (seq : List ℤ) (h0 : τ.put 0 = 0) (b : ℚ) (c : ℤ) :
    bsGenT (rngT τ seq) b c = ind (b > τ.put (seq.getD (c % seq.length).toNat 0 : ℤ)) := by
  unfold bsGenT rngT
  rw [List.length_map]
  congr 1
  generalize (c % seq.length).toNat = i
  rw [List.getD_eq_getElem?_getD, List.getD_eq_getElem?_getD, List.getElem?_map]
  cases seq[i]? <;> simp [h0]

/-- The entries of a sequence that is a permutation of `0 … 2^w - 1`. -/
private theorem entry_range {seq : List ℤ} {w : ℕ} (hs : IsPermSeq w seq) (c : ℤ) :
    0 ≤ seq.getD (c % seq.length).toNat 0 ∧ seq.getD (c % seq.length).toNat 0 < 2 ^ w := by
  have hl : seq.length = 2 ^ w := hs.1
  have hpos : (0:ℤ) < seq.length := by rw [hl]; positivity
  have h1 := Int.emod_nonneg c hpos.ne'
  have h2 := Int.emod_lt_of_pos c hpos
  have hi : (c % seq.length).toNat < seq.length := by omega
  rw [List.getD_eq_getElem _ _ hi]
  have hm := (Gen.IsPermSeq.perm hs).mem_iff.1 (List.getElem_mem hi)
  obtain ⟨x, hx, he⟩ := List.mem_map.1 hm
  rw [← he]
  have := List.mem_range.1 hx
  exact ⟨by positivity, by exact_mod_cast this⟩

/-- C96: when the type holds the numbers up to `2^w` — which floating point does for widths up to `p + 1` (eleven for `float16`, eight
for `bfloat16`), `int8` for widths up to six, `uint8` up to seven — streams of width `w` are the same in every cycle as with exact
numbers, whatever the number sequence. -/
theorem C96_stream (τ : NumType) (w : ℕ) (hτ : Spec.Holds τ 0 (2 ^ w)) (seq : List ℤ) (hs : IsPermSeq w seq) (b : ℤ) (h0 : 0 ≤ b)
    (h1 : b ≤ 2 ^ w) (c : ℤ) : bsGenT (rngT τ seq) (τ.put b) c = Gen.bsGen seq b c := by
  have hz : τ.put 0 = 0 := by simpa using hτ 0 le_rfl (by positivity)
  have he := entry_range hs c
  rw [bsGenT_eq τ seq hz, hτ b h0 h1, hτ _ he.1 he.2.le]
  unfold Gen.bsGen ind
  simp only [gt_iff_lt, Int.cast_lt]

/-- C96: the widths for which the types hold those numbers. -/
theorem C96_widths (w : ℕ) :
    (∀ P : Prec, P.emin ≤ 0 → w ≤ P.p + 1 → Spec.Holds (.fp P) 0 (2 ^ w)) ∧ (∀ b : ℕ, w + 2 ≤ b → Spec.Holds (.sint b) 0 (2 ^ w)) ∧
    (∀ b : ℕ, w + 1 ≤ b → Spec.Holds (.uint b) 0 (2 ^ w)) := by
  have hpos : ∀ k : ℕ, (0:ℤ) < 2 ^ k := fun k => by positivity
  have hmono : ∀ {i j : ℕ}, i ≤ j → (2:ℤ) ^ i ≤ 2 ^ j := fun h => pow_le_pow_right₀ (by norm_num) h
  have hlt : ∀ {i j : ℕ}, i < j → (2:ℤ) ^ i < 2 ^ j := fun h => pow_lt_pow_right₀ (by norm_num) h
  refine ⟨fun P hP h => holds_mono (C96_range.1 P hP).1 (by have := hpos (P.p + 1); omega) (hmono h), fun b h => ?_, fun b h => ?_⟩
  · refine holds_mono (C96_range.2.1 b (by omega)).1 (by have := hpos (b - 1); omega) ?_
    have := hlt (show w < b - 1 by omega); omega
  · refine holds_mono (C96_range.2.2 b).1 le_rfl ?_
    have := hlt (show w < b by omega); omega

example (c : ℤ) : bsGenT (rngT (.fp bfloat) [2, 0, 3, 1]) ((NumType.fp bfloat).put (3 : ℤ)) c = Gen.bsGen [2, 0, 3, 1] 3 c :=
  C96_stream _ 2 ((C96_widths 2).1 bfloat (by decide) (by decide)) _
    ⟨rfl, fun v h0 h1 => by interval_cases v <;> rfl⟩ 3 (by norm_num) (by norm_num) c

/-- C96: hence so is the whole way from a legal source value, in either mode. -/
theorem C96_source (τ : NumType) (w : ℕ) (hτ : Spec.Holds τ 0 (2 ^ w)) (seq : List ℤ) (hs : IsPermSeq w seq) (m : Mode) (v : ℚ)
    (hv : match m with | .unipolar => 0 ≤ v ∧ v ≤ 1 | .bipolar => -1 ≤ v ∧ v ≤ 1) (c : ℤ) :
    bsGenT (rngT τ seq) (binGenT τ m w v) c = Gen.bsGen seq (Gen.binGenM m w v) c :=
  C96_stream τ w hτ seq hs _ (C05_range m w v hv).1 (C05_range m w v hv).2 c

/-- Rounding of integers up to `2^w` is by at most half of `2^(w-p)`. -/
private theorem rd_int_near {P : Prec} {w : ℕ} (hP : P.emin ≤ 0) (hw : P.p + 1 ≤ w) (n : ℤ) (h0 : 0 ≤ n) (h1 : n < 2 ^ w) :
    |P.rd n - n| ≤ ((2 ^ (w - 1 - P.p) : ℤ) : ℚ) / 2 := by
  rcases eq_or_ne n 0 with rfl | hn
  · rw [Int.cast_zero, Prec.rd_zero, sub_zero, abs_zero]; positivity
  have hq : (n : ℚ) ≠ 0 := by exact_mod_cast hn
  refine (Prec.rd_error P n).trans ?_
  have hpos : (0:ℚ) < |(n:ℚ)| := abs_pos.2 hq
  have : P.exp n ≤ ((w - 1 - P.p : ℕ) : ℤ) := by
    unfold Prec.exp
    refine max_le ?_ (by omega)
    have hlt : |(n:ℚ)| < (2:ℚ) ^ (w:ℤ) := by
      rw [abs_of_nonneg (by exact_mod_cast h0), zpow_natCast]; exact_mod_cast h1
    have := (Int.lt_zpow_iff_log_lt (b := 2) (x := (w:ℤ)) (by norm_num) hpos).1 (by simpa using hlt)
    omega
  have h2 : (2:ℚ) ^ P.exp n ≤ (2:ℚ) ^ ((w - 1 - P.p : ℕ) : ℤ) := zpow_le_zpow_right₀ (by norm_num) this
  rw [zpow_natCast] at h2
  push_cast
  linarith

/-- C96: with a floating-point type too coarse for the width, the stream of `a` lies in every cycle between the exact streams of
`a - 2^(w-1-p)` and `a`; a window of `2^w` cycles has that many ones at least and at most; a larger number gives a stream that has a
one wherever the smaller has. -/
theorem C96_coarse (P : Prec) (hP : P.emin ≤ 0) (w : ℕ) (hw : P.p + 1 ≤ w) (seq : List ℤ) (hs : IsPermSeq w seq) (a : ℤ) (h0 : 0 ≤ a)
    (h1 : a ≤ 2 ^ w) :
    (∀ c : ℤ, Gen.bsGen seq (a - 2 ^ (w - 1 - P.p)) c ≤ bsGenT (rngT (.fp P) seq) ((NumType.fp P).put a) c ∧
      bsGenT (rngT (.fp P) seq) ((NumType.fp P).put a) c ≤ Gen.bsGen seq a c) ∧
    (∀ c : ℤ, a - 2 ^ (w - 1 - P.p) ≤ ∑ t ∈ range (2 ^ w), bsGenT (rngT (.fp P) seq) ((NumType.fp P).put a) (c + t) ∧
      ∑ t ∈ range (2 ^ w), bsGenT (rngT (.fp P) seq) ((NumType.fp P).put a) (c + t) ≤ a) ∧
    (∀ b c : ℤ, a ≤ b →
      bsGenT (rngT (.fp P) seq) ((NumType.fp P).put a) c ≤ bsGenT (rngT (.fp P) seq) ((NumType.fp P).put b) c) := by
  have hz : (NumType.fp P).put 0 = 0 := Prec.rd_zero P
  have hpw : ∀ c : ℤ, Gen.bsGen seq (a - 2 ^ (w - 1 - P.p)) c ≤ bsGenT (rngT (.fp P) seq) ((NumType.fp P).put a) c ∧
      bsGenT (rngT (.fp P) seq) ((NumType.fp P).put a) c ≤ Gen.bsGen seq a c := by
    intro c
    have he := entry_range hs c
    rw [bsGenT_eq _ seq hz]
    unfold Gen.bsGen
    generalize seq.getD (c % seq.length).toNat 0 = n at he ⊢
    have hg : (0:ℤ) < 2 ^ (w - 1 - P.p) := by positivity
    show ind (a - 2 ^ (w - 1 - P.p) > n) ≤ ind (P.rd a > P.rd n) ∧ ind (P.rd a > P.rd n) ≤ ind (a > n)
    constructor
    · have : a - 2 ^ (w - 1 - P.p) > n → P.rd a > P.rd n := by
        intro h
        have hn := rd_int_near hP hw n he.1 he.2
        have hgq : (0:ℚ) < ((2 ^ (w - 1 - P.p) : ℤ) : ℚ) := by exact_mod_cast hg
        have hq : (n : ℚ) + 1 ≤ a - ((2 ^ (w - 1 - P.p) : ℤ) : ℚ) := by
          have : n + 1 ≤ a - 2 ^ (w - 1 - P.p) := h
          exact_mod_cast this
        have ha : |P.rd a - a| ≤ ((2 ^ (w - 1 - P.p) : ℤ) : ℚ) / 2 := by
          rcases lt_or_eq_of_le h1 with h1 | h1
          · exact rd_int_near hP hw a h0 h1
          · have : P.rd a = a := by
              refine Prec.rd_of_isF ?_
              rw [h1]
              have := Prec.isF_two_zpow (P := P) (k := (w:ℤ)) (by omega)
              push_cast; rwa [zpow_natCast] at this
            rw [this, sub_self, abs_zero]; positivity
        have := abs_le.1 hn; have := abs_le.1 ha
        linarith
      unfold ind
      split_ifs <;> simp_all
    · have : P.rd a > P.rd n → a > n := by
        intro h
        by_contra hc
        exact absurd (Prec.rd_mono (P := P) (show (a:ℚ) ≤ n by exact_mod_cast not_lt.1 hc)) (not_le.2 h)
      unfold ind
      split_ifs <;> simp_all
  refine ⟨hpw, fun c => ⟨?_, ?_⟩, fun b c hab => ?_⟩
  · refine le_trans ?_ (sum_le_sum fun t _ => (hpw (c + t)).1)
    rw [C01_window_count hs]
    have : (0:ℤ) < 2 ^ (w - 1 - P.p) := by positivity
    omega
  · refine le_trans (sum_le_sum fun t _ => (hpw (c + t)).2) ?_
    rw [C01_window_count hs]; omega
  · have hm := Prec.rd_mono (P := P) (show (a:ℚ) ≤ b by exact_mod_cast hab)
    rw [bsGenT_eq _ seq hz, bsGenT_eq _ seq hz]
    have hm' : (NumType.fp P).put a ≤ (NumType.fp P).put b := hm
    unfold ind
    split_ifs with h1 h2
    · exact le_rfl
    · exact absurd (lt_of_lt_of_le h1 hm') h2
    · norm_num
    · exact le_rfl

/-- C96 (violation): the loss is real.  With a floating-point type of `p` fraction bits and any larger width, the number `2^(p+1) + 1` gets one
bit less than it should. -/
theorem C96_loss (P : Prec) (hP : P.emin ≤ 0) (hp : 1 ≤ P.p) (w : ℕ) (hw : P.p + 2 ≤ w) (seq : List ℤ) (hs : IsPermSeq w seq) (c : ℤ) :
    ∑ t ∈ range (2 ^ w), bsGenT (rngT (.fp P) seq) ((NumType.fp P).put ((2 ^ (P.p + 1) + 1 : ℤ) : ℚ)) (c + t) < 2 ^ (P.p + 1) + 1 := by
  have hle : (2:ℤ) ^ (P.p + 1) < 2 ^ w := pow_lt_pow_right₀ (by norm_num) (by omega)
  have hpos : (0:ℤ) < 2 ^ (P.p + 1) := by positivity
  have hput := (C96_range.1 P hP).2 hp
  have hput2 : (NumType.fp P).put ((2 ^ (P.p + 1) : ℤ) : ℚ) = (2:ℚ) ^ (P.p + 1) := by
    rw [(C96_range.1 P hP).1 _ (by omega) le_rfl]; push_cast; ring
  rw [hput, ← hput2]
  have := ((C96_coarse P hP w (by omega) seq hs (2 ^ (P.p + 1)) hpos.le hle.le).2.1 c).2
  omega

example (c : ℤ) (seq : List ℤ) (hs : IsPermSeq 10 seq) :
    ∑ t ∈ range (2 ^ 10), bsGenT (rngT (.fp bfloat) seq) ((NumType.fp bfloat).put (257 : ℤ)) (c + t) < 257 := by
  have := C96_loss bfloat (by decide) (by decide) 10 (by decide) seq hs c
  simpa [bfloat] using this

/-! ## SkewedSync -/

private theorem clamp_cast (lo hi x : ℤ) : clamp (lo : ℚ) hi x = ((clamp lo hi x : ℤ) : ℚ) := by
  unfold clamp; push_cast; rfl

private theorem holds_small {τ : NumType} {lo hi : ℤ} (h : Spec.Holds τ lo hi) (a : lo ≤ -1) (b : 2 ≤ hi) :
    τ.put (-1) = -1 ∧ τ.put 0 = 0 ∧ τ.put 1 = 1 ∧ τ.put 2 = 2 := by
  refine ⟨?_, ?_, ?_, ?_⟩
  · simpa using h (-1) (by omega) (by omega)
  · simpa using h 0 (by omega) (by omega)
  · simpa using h 1 (by omega) (by omega)
  · simpa using h 2 (by omega) (by omega)

private theorem ss_refines {σ β : NumType} {d : ℕ} (hσ : Spec.Holds σ (-1) 2) (hβ : Spec.Holds β (-1) (2 ^ d)) (s : SS) (i : List ℕ × ℤ × ℤ)
    (h1 : IsBit i.2.1) (h2 : IsBit i.2.2) (hc0 : 0 ≤ s.cnt) (hc1 : s.cnt ≤ 2 ^ d - 1) :
    ssStepT σ β d ⟨s.shape, s.cnt⟩ i =
      ((⟨(ssStep d s i).1.shape, (ssStep d s i).1.cnt⟩ : SST), (((ssStep d s i).2.1 : ℚ), ((ssStep d s i).2.2 : ℚ))) ∧
    0 ≤ (ssStep d s i).1.cnt ∧ (ssStep d s i).1.cnt ≤ 2 ^ d - 1 := by
  have hpow : (0:ℤ) < 2 ^ d := by positivity
  obtain ⟨sm, s0, s1, s2⟩ := holds_small hσ le_rfl le_rfl
  have b0 : β.put 0 = 0 := by simpa using hβ 0 (by omega) (by omega)
  have b1 : β.put 1 = 1 := by simpa using hβ 1 (by omega) (by omega)
  have bm : β.put (-1) = -1 := by simpa using hβ (-1) (by omega) (by omega)
  have bu : β.put ((2:ℚ) ^ d - 1) = ((2 ^ d - 1 : ℤ) : ℚ) := by
    have := hβ (2 ^ d - 1) (by omega) (by omega); push_cast at this ⊢; exact this
  obtain ⟨sh, x, y⟩ := i
  simp only at h1 h2
  have hcnt : (if s.shape ≠ sh then (0:ℚ) else (s.cnt : ℚ)) = ((if s.shape ≠ sh then 0 else s.cnt : ℤ) : ℚ) := by
    split_ifs <;> simp
  have hr : 0 ≤ (if s.shape ≠ sh then 0 else s.cnt : ℤ) ∧ (if s.shape ≠ sh then 0 else s.cnt : ℤ) ≤ 2 ^ d - 1 := by
    split_ifs <;> omega
  refine ⟨?_, ?_, ?_⟩
  · unfold ssStepT ssStep
    simp only [hcnt, bu]
    generalize (if s.shape ≠ sh then 0 else s.cnt : ℤ) = n at hr
    have p0 : β.put n = n := hβ n (by omega) (by omega)
    have p1 : β.put ((n:ℚ) + 1) = ((n + 1 : ℤ) : ℚ) := by simpa using hβ (n + 1) (by omega) (by omega)
    have p2 : β.put ((n:ℚ) + -1) = ((n + -1 : ℤ) : ℚ) := by simpa using hβ (n + -1) (by omega) (by omega)
    have k1 : (ind ((n:ℚ) ≠ 0) : ℤ) = ind (n ≠ 0) := by unfold ind; simp
    have k2 : (ind ((n:ℚ) ≠ ((2 ^ d - 1 : ℤ) : ℚ)) : ℤ) = ind (n ≠ 2 ^ d - 1) := by unfold ind; simp only [ne_eq, Int.cast_inj]
    rw [k1, k2]
    generalize hA : (ind (n ≠ 0) : ℤ) = A
    generalize hB : (ind (n ≠ 2 ^ d - 1) : ℤ) = B
    have hA' : IsBit A := by rw [← hA]; unfold ind IsBit; split_ifs <;> simp
    have hB' : IsBit B := by rw [← hB]; unfold ind IsBit; split_ifs <;> simp
    rcases h1 with rfl | rfl <;> rcases h2 with rfl | rfl <;> rcases hA' with rfl | rfl <;> rcases hB' with rfl | rfl <;>
      norm_num [ind, s0, s1, s2, sm, b0, b1, bm, p0, p1, p2] <;> (unfold clamp; push_cast; rfl)
  · exact le_clamp (by omega)
  · exact clamp_le _ _ _

/-- C96: `SkewedSync` in number types that hold its numbers (streams: `-1 … 2`, counter: `-1 … 2^depth`) returns in every call what it
returns in exact arithmetic. -/
theorem C96_sync (σ β : NumType) (d : ℕ) (hσ : Spec.Holds σ (-1) 2) (hβ : Spec.Holds β (-1) (2 ^ d)) (i : ℕ → List ℕ × ℤ × ℤ)
    (h1 : ∀ t, IsBit (i t).2.1) (h2 : ∀ t, IsBit (i t).2.2) (t : ℕ) :
    outAt (ssStepT σ β d) ⟨[1], 0⟩ i t = (((outAt (ssStep d) ssInit i t).1 : ℚ), ((outAt (ssStep d) ssInit i t).2 : ℚ)) := by
  have hpow : (0:ℤ) < 2 ^ d := by positivity
  have inv : ∀ t, stateAt (ssStepT σ β d) ⟨[1], 0⟩ i t =
      ⟨(stateAt (ssStep d) ssInit i t).shape, (stateAt (ssStep d) ssInit i t).cnt⟩ ∧
      0 ≤ (stateAt (ssStep d) ssInit i t).cnt ∧ (stateAt (ssStep d) ssInit i t).cnt ≤ 2 ^ d - 1 := by
    intro t
    induction t with
    | zero => refine ⟨by simp [stateAt, ssInit], by simp [stateAt, ssInit], by simp only [stateAt, ssInit]; omega⟩
    | succ t ih =>
      obtain ⟨hst, hc0, hc1⟩ := ih
      have := ss_refines hσ hβ _ (i t) (h1 t) (h2 t) hc0 hc1
      simp only [stateAt]
      rw [hst, this.1]
      exact ⟨rfl, this.2⟩
  obtain ⟨hst, hc0, hc1⟩ := inv t
  have := ss_refines hσ hβ _ (i t) (h1 t) (h2 t) hc0 hc1
  unfold outAt
  rw [hst, this.1]

example (i : ℕ → List ℕ × ℤ × ℤ) (h1 : ∀ t, IsBit (i t).2.1) (h2 : ∀ t, IsBit (i t).2.2) (t : ℕ) :
    (outAt (ssStepT (.sint 8) (.sint 8) 6) ⟨[1], 0⟩ i t).1 = (outAt (ssStep 6) ssInit i t).1 := by
  have h := (C96_range.2.1 8 (by norm_num)).1
  rw [C96_sync (.sint 8) (.sint 8) 6 (holds_mono h (by norm_num) (by norm_num)) (holds_mono h (by norm_num) (by norm_num)) i h1 h2 t]

/-! ## Bi2Uni, Uni2Bi -/

private theorem b2u_refines {β : NumType} {k : ℕ} (hβ : Spec.Holds β (-2 ^ k - 1) (2 ^ k + 1)) (n x : ℤ) (hx : IsBit x) (h0 : -2 ^ k ≤ n)
    (h1 : n ≤ 2 ^ k) :
    bi2uniStepT β (k + 2) n x = bi2uniStep (k + 2) n x ∧
    ∃ m : ℤ, (bi2uniStep (k + 2) n x).1 = m ∧ -2 ^ k ≤ m ∧ m ≤ 2 ^ k := by
  have hpow : (1:ℤ) ≤ 2 ^ k := one_le_pow₀ (by norm_num)
  obtain ⟨bm, b0, b1, b2⟩ := holds_small hβ (by omega) (by omega)
  have p1 : β.put ((n:ℚ) + 1) = ((n + 1 : ℤ) : ℚ) := by simpa using hβ (n + 1) (by omega) (by omega)
  have p2 : β.put ((n:ℚ) + -1) = ((n + -1 : ℤ) : ℚ) := by simpa using hβ (n + -1) (by omega) (by omega)
  have cc : ∀ y : ℤ, clamp (-((2 ^ k : ℤ) : ℚ)) ((2 ^ k : ℤ) : ℚ) y = ((clamp (-2 ^ k) (2 ^ k) y : ℤ) : ℚ) := by
    intro y; rw [← clamp_cast]; push_cast; rfl
  have hcl : ∀ y : ℤ, -2 ^ k ≤ clamp (-2 ^ k) (2 ^ k) y ∧ clamp (-2 ^ k) (2 ^ k) y ≤ (2:ℤ) ^ k :=
    fun y => ⟨le_clamp (by omega), clamp_le _ _ _⟩
  have key : ∀ y : ℤ, -2 ^ k ≤ y → y ≤ 2 ^ k →
      β.put ((y:ℚ) - ((ind ((y:ℚ) ≥ 1) : ℤ) : ℚ)) = (y:ℚ) - ((ind ((y:ℚ) ≥ 1) : ℤ) : ℚ) ∧
      ∃ m : ℤ, (y:ℚ) - ((ind ((y:ℚ) ≥ 1) : ℤ) : ℚ) = m ∧ -2 ^ k ≤ m ∧ m ≤ 2 ^ k := by
    intro y a b
    have e : ((y:ℚ) ≥ 1) ↔ (1:ℤ) ≤ y := by constructor <;> intro h <;> exact_mod_cast h
    have hi : (ind ((y:ℚ) ≥ 1) : ℤ) = if 1 ≤ y then 1 else 0 := by unfold ind; simp only [e]
    rw [hi]
    have hm : (y:ℚ) - (((if 1 ≤ y then 1 else 0 : ℤ)) : ℚ) = ((y - (if 1 ≤ y then 1 else 0) : ℤ) : ℚ) := by push_cast; rfl
    rw [hm]
    refine ⟨hβ _ ?_ ?_, _, rfl, ?_, ?_⟩ <;> split_ifs <;> omega
  have hδ : β.put ((n:ℚ) + β.put (β.put (β.put (x:ℚ) * 2) - 1)) = ((n + (x * 2 - 1) : ℤ) : ℚ) := by
    rcases hx with rfl | rfl <;> norm_num [b0, b1, b2, bm, p1, p2]
  have hδ' : (n:ℚ) + ((x:ℚ) * 2 - 1) = ((n + (x * 2 - 1) : ℤ) : ℚ) := by push_cast; ring
  have k := key _ (hcl (n + (x * 2 - 1))).1 (hcl (n + (x * 2 - 1))).2
  unfold bi2uniStepT bi2uniStep
  simp only [accBound_nat, hδ, hδ', cc]
  exact ⟨by rw [k.1], k.2⟩

/-- Two runs agree when single calls agree on the states reached and keep them in the set. -/
private theorem run_refines {S I O : Type} (f g : S → I → S × O) (R : S → Prop) (s0 : S) (x : ℕ → I) (h0 : R s0)
    (h : ∀ s t, R s → f s (x t) = g s (x t) ∧ R (g s (x t)).1) (t : ℕ) : outAt f s0 x t = outAt g s0 x t := by
  have inv : ∀ t, stateAt f s0 x t = stateAt g s0 x t ∧ R (stateAt g s0 x t) := by
    intro t
    induction t with
    | zero => exact ⟨rfl, h0⟩
    | succ t ih =>
      simp only [stateAt]
      rw [ih.1]
      exact ⟨congrArg Prod.fst (h _ t ih.2).1, (h _ t ih.2).2⟩
  unfold outAt
  rw [(inv t).1, (h _ t (inv t).2).1]

/-- C96: `Bi2Uni` of depth `k + 2` in a type that holds the integers up to `2^k + 1` in magnitude returns what it returns in exact arithmetic. -/
theorem C96_bi2uni (β : NumType) (k : ℕ) (hβ : Spec.Holds β (-2 ^ k - 1) (2 ^ k + 1)) (x : ℕ → ℤ) (hx : Verif.Spec.BitStream x) (t : ℕ) :
    outAt (bi2uniStepT β (k + 2)) 0 x t = outAt (bi2uniStep (k + 2)) 0 x t := by
  have hpow : (1:ℤ) ≤ 2 ^ k := one_le_pow₀ (by norm_num)
  refine run_refines _ _ (fun s : ℚ => ∃ n : ℤ, s = n ∧ -2 ^ k ≤ n ∧ n ≤ 2 ^ k) 0 x ⟨0, by simp, by omega, by omega⟩ ?_ t
  rintro s t ⟨n, rfl, h0, h1⟩
  exact b2u_refines hβ n (x t) (hx t) h0 h1

private theorem u2b_refines {β : NumType} {k : ℕ} (hβ : Spec.Holds β 0 2) (hγ : Spec.Holds β.wide (-2 ^ k) (2 ^ k + 2)) (n x : ℤ)
    (hx : IsBit x) (h0 : -2 ^ k ≤ n) (h1 : n ≤ 2 ^ k) :
    uni2biStepT β (k + 2) n x = uni2biStep (k + 2) n x ∧
    ∃ m : ℤ, (uni2biStep (k + 2) n x).1 = m ∧ -2 ^ k ≤ m ∧ m ≤ 2 ^ k := by
  have hpow : (1:ℤ) ≤ 2 ^ k := one_le_pow₀ (by norm_num)
  have b0 : β.put 0 = 0 := by simpa using hβ 0 (by omega) (by omega)
  have b1 : β.put 1 = 1 := by simpa using hβ 1 (by omega) (by omega)
  have b2 : β.put 2 = 2 := by simpa using hβ 2 (by omega) (by omega)
  have g1 : β.wide.put 1 = 1 := by simpa using hγ 1 (by omega) (by omega)
  have g2 : β.wide.put 2 = 2 := by simpa using hγ 2 (by omega) (by omega)
  have p1 : β.wide.put ((n:ℚ) + 1) = ((n + 1 : ℤ) : ℚ) := by simpa using hγ (n + 1) (by omega) (by omega)
  have p2 : β.wide.put ((n:ℚ) + 2) = ((n + 2 : ℤ) : ℚ) := by simpa using hγ (n + 2) (by omega) (by omega)
  have cc : ∀ y : ℤ, clamp (-((2 ^ k : ℤ) : ℚ)) ((2 ^ k : ℤ) : ℚ) y = ((clamp (-2 ^ k) (2 ^ k) y : ℤ) : ℚ) := by
    intro y; rw [← clamp_cast]; push_cast; rfl
  have hcl : ∀ y : ℤ, -2 ^ k ≤ clamp (-2 ^ k) (2 ^ k) y ∧ clamp (-2 ^ k) (2 ^ k) y ≤ (2:ℤ) ^ k :=
    fun y => ⟨le_clamp (by omega), clamp_le _ _ _⟩
  have key : ∀ y : ℤ, -2 ^ k ≤ y → y ≤ 2 ^ k →
      β.wide.put ((y:ℚ) - β.put (((ind ((y:ℚ) ≥ 2) : ℤ) : ℚ) * 2)) = (y:ℚ) - ((ind ((y:ℚ) ≥ 2) : ℤ) : ℚ) * 2 ∧
      ∃ m : ℤ, (y:ℚ) - ((ind ((y:ℚ) ≥ 2) : ℤ) : ℚ) * 2 = m ∧ -2 ^ k ≤ m ∧ m ≤ 2 ^ k := by
    intro y a b
    have e : ((y:ℚ) ≥ 2) ↔ (2:ℤ) ≤ y := by constructor <;> intro h <;> exact_mod_cast h
    have hi : (ind ((y:ℚ) ≥ 2) : ℤ) = if 2 ≤ y then 1 else 0 := by unfold ind; simp only [e]
    rw [hi]
    have hp : β.put ((((if 2 ≤ y then 1 else 0 : ℤ)) : ℚ) * 2) = (((if 2 ≤ y then 1 else 0 : ℤ)) : ℚ) * 2 := by
      split_ifs <;> norm_num [b0, b2]
    rw [hp]
    have hm : (y:ℚ) - (((if 2 ≤ y then 1 else 0 : ℤ)) : ℚ) * 2 = ((y - (if 2 ≤ y then 1 else 0) * 2 : ℤ) : ℚ) := by push_cast; rfl
    rw [hm]
    refine ⟨hγ _ ?_ ?_, _, rfl, ?_, ?_⟩ <;> split_ifs <;> omega
  have hδ : β.wide.put ((n:ℚ) + β.wide.put (β.put (x:ℚ) + β.put 1)) = ((n + (x + 1) : ℤ) : ℚ) := by
    rcases hx with rfl | rfl <;> norm_num [b0, b1, g1, g2, p1, p2]
  have hδ' : (n:ℚ) + ((x:ℚ) + 1) = ((n + (x + 1) : ℤ) : ℚ) := by push_cast; ring
  have k := key _ (hcl (n + (x + 1))).1 (hcl (n + (x + 1))).2
  unfold uni2biStepT uni2biStep
  simp only [accBound_nat, hδ, hδ', cc]
  exact ⟨by rw [k.1], k.2⟩

/-- C96: the same for `Uni2Bi`, whose accumulator has the type of a sum (`torch.int64` if `btype` is an integer type). -/
theorem C96_uni2bi (β : NumType) (k : ℕ) (hβ : Spec.Holds β 0 2) (hk : k ≤ 62) (hP : ∀ P, β = .fp P → Spec.Holds β (-2 ^ k) (2 ^ k + 2)) (x : ℕ → ℤ)
    (hx : Verif.Spec.BitStream x) (t : ℕ) : outAt (uni2biStepT β (k + 2)) 0 x t = outAt (uni2biStep (k + 2)) 0 x t := by
  have hγ : Spec.Holds β.wide (-2 ^ k) (2 ^ k + 2) := by
    have h62 : (2:ℤ) ^ k ≤ 2 ^ 62 := pow_le_pow_right₀ (by norm_num) hk
    have h64 : Spec.Holds (.sint 64) (-2 ^ k) (2 ^ k + 2) := holds_mono (C96_range.2.1 64 (by norm_num)).1 (by norm_num; omega) (by norm_num; omega)
    cases β with
    | fp P => exact hP P rfl
    | sint b => exact h64
    | uint b => exact h64
  have hpow : (1:ℤ) ≤ 2 ^ k := one_le_pow₀ (by norm_num)
  refine run_refines _ _ (fun s : ℚ => ∃ n : ℤ, s = n ∧ -2 ^ k ≤ n ∧ n ≤ 2 ^ k) 0 x ⟨0, by simp, by omega, by omega⟩ ?_ t
  rintro s t ⟨n, rfl, h0, h1⟩
  exact u2b_refines hβ hγ n (x t) (hx t) h0 h1

example (x : ℕ → ℤ) (hx : Verif.Spec.BitStream x) (t : ℕ) :
    outAt (bi2uniStepT (.sint 8) ((6 : ℕ) + 2)) 0 x t = outAt (bi2uniStep ((6 : ℕ) + 2)) 0 x t ∧
    outAt (uni2biStepT (.uint 8) ((10 : ℕ) + 2)) 0 x t = outAt (uni2biStep ((10 : ℕ) + 2)) 0 x t :=
  ⟨C96_bi2uni _ 6 (holds_mono (C96_range.2.1 8 (by norm_num)).1 (by norm_num) (by norm_num)) x hx t,
   C96_uni2bi _ 10 (holds_mono (C96_range.2.2 8).1 (by norm_num) (by norm_num)) (by norm_num) (fun P h => by cases h) x hx t⟩

/-! ## FSUSignAbs, FSUReLU -/

private theorem acc_nat (d : ℕ) (hd : 1 ≤ d) : accHalf d = ((2 ^ (d - 1) : ℤ) : ℚ) ∧ accMax d = ((2 ^ d - 1 : ℤ) : ℚ) := by
  refine ⟨?_, ?_⟩
  · unfold accHalf
    rw [show ((d:ℤ) - 1) = ((d - 1 : ℕ) : ℤ) by omega, zpow_natCast]; push_cast; rfl
  · unfold accMax; rw [zpow_natCast]; push_cast; rfl

private theorem acc_lt (d : ℕ) (hd : 1 ≤ d) : (0:ℤ) < 2 ^ (d - 1) ∧ (2:ℤ) ^ (d - 1) ≤ 2 ^ d - 1 := by
  have := half_pow d hd
  have : (0:ℤ) < 2 ^ (d - 1) := by positivity
  omega

private theorem sa_refines {σ β : NumType} {d : ℕ} (hd : 1 ≤ d) (hσ : Spec.Holds σ (-1) 2) (hβ : Spec.Holds β (-1) (2 ^ d)) (n x : ℤ)
    (hx : IsBit x) (h0 : 0 ≤ n) (h1 : n ≤ 2 ^ d - 1) :
    signAbsStepT σ β d n x = signAbsStep d n x ∧ ∃ m : ℤ, (signAbsStep d n x).1 = m ∧ 0 ≤ m ∧ m ≤ 2 ^ d - 1 := by
  obtain ⟨e1, e2⟩ := acc_nat d hd
  have hl := acc_lt d hd
  obtain ⟨sm, s0, s1, s2⟩ := holds_small hσ le_rfl le_rfl
  have bm : β.put (-1) = -1 := by simpa using hβ (-1) (by omega) (by omega)
  have b1 : β.put 1 = 1 := by simpa using hβ 1 (by omega) (by omega)
  have p1 : β.put ((n:ℚ) + 1) = ((n + 1 : ℤ) : ℚ) := by simpa using hβ (n + 1) (by omega) (by omega)
  have p2 : β.put ((n:ℚ) + -1) = ((n + -1 : ℤ) : ℚ) := by simpa using hβ (n + -1) (by omega) (by omega)
  have cc : ∀ y : ℤ, clamp (0:ℚ) ((2 ^ d - 1 : ℤ) : ℚ) y = ((clamp 0 (2 ^ d - 1) y : ℤ) : ℚ) := by
    intro y; rw [← clamp_cast]; push_cast; rfl
  have hδ : β.put ((n:ℚ) + β.put (σ.put (σ.put ((x:ℚ) * 2) - 1))) = ((n + (x * 2 - 1) : ℤ) : ℚ) := by
    rcases hx with rfl | rfl <;> norm_num [s0, s1, s2, sm, b1, bm, p1, p2]
  have hδ' : (n:ℚ) + ((x:ℚ) * 2 - 1) = ((n + (x * 2 - 1) : ℤ) : ℚ) := by push_cast; ring
  have q1 : β.put (accMax d) = accMax d := by rw [e2]; exact hβ _ (by omega) (by omega)
  have q2 : β.put (accHalf d) = accHalf d := by rw [e1]; exact hβ _ (by omega) (by omega)
  unfold signAbsStepT signAbsStep
  simp only [q1, q2, hδ, hδ']
  refine ⟨trivial, ?_⟩
  rw [e2, cc]
  exact ⟨_, rfl, le_clamp (by omega), clamp_le _ _ _⟩

/-- C96: `FSUSignAbs` in types that hold its numbers (streams: `-1 … 2`, counter: `-1 … 2^depth`) returns what it returns in exact
arithmetic. -/
theorem C96_signabs (σ β : NumType) (d : ℕ) (hd : 1 ≤ d) (hσ : Spec.Holds σ (-1) 2) (hβ : Spec.Holds β (-1) (2 ^ d)) (x : ℕ → ℤ)
    (hx : Verif.Spec.BitStream x) (t : ℕ) :
    outAt (signAbsStepT σ β d) (accInitT β d) x t = outAt (signAbsStep d) (accHalf d) x t := by
  obtain ⟨e1, e2⟩ := acc_nat d hd
  have hl := acc_lt d hd
  have hi : accInitT β d = accHalf d := by unfold accInitT; rw [e1]; exact hβ _ (by omega) (by omega)
  rw [hi]
  refine run_refines _ _ (fun s : ℚ => ∃ n : ℤ, s = n ∧ 0 ≤ n ∧ n ≤ 2 ^ d - 1) _ x ⟨_, e1, by omega, by omega⟩ ?_ t
  rintro s t ⟨n, rfl, h0, h1⟩
  exact sa_refines hd hσ hβ n (x t) (hx t) h0 h1

example (x : ℕ → ℤ) (hx : Verif.Spec.BitStream x) (t : ℕ) :
    outAt (signAbsStepT (.sint 8) (.fp bfloat) (8 : ℕ)) (accInitT (.fp bfloat) (8 : ℕ)) x t =
      outAt (signAbsStep (8 : ℕ)) (accHalf (8 : ℕ)) x t :=
  C96_signabs _ _ 8 (by norm_num) (holds_mono (C96_range.2.1 8 (by norm_num)).1 (by norm_num) (by norm_num))
    (holds_mono (C96_range.1 bfloat (by decide)).1 (by norm_num [bfloat]) (by norm_num [bfloat])) x hx t

private theorem relu_out (d : ℤ) (acc : ℚ) (x : ℤ) (hx : IsBit x) : IsBit (Int.lor x (1 - (ind (acc ≥ accHalf d) : ℤ))) := by
  unfold ind IsBit
  rcases hx with rfl | rfl <;> split_ifs <;> decide

private theorem relu_refines {β σ : NumType} {d : ℕ} (hd : 1 ≤ d) (hσ : Spec.Holds σ (-1) (2 ^ d)) (n x : ℤ)
    (hx : IsBit x) (h0 : 0 ≤ n) (h1 : n ≤ 2 ^ d - 1) :
    reluStepT β σ d n x = reluStep d n x ∧ ∃ m : ℤ, (reluStep d n x).1 = m ∧ 0 ≤ m ∧ m ≤ 2 ^ d - 1 := by
  obtain ⟨e1, e2⟩ := acc_nat d hd
  have hl := acc_lt d hd
  obtain ⟨sm, s0, s1, s2⟩ := holds_small (C96_range.2.1 8 (by norm_num)).1 (by norm_num) (by norm_num)
  have bm : σ.put (-1) = -1 := by simpa using hσ (-1) (by omega) (by omega)
  have b1 : σ.put 1 = 1 := by simpa using hσ 1 (by omega) (by omega)
  have p1 : σ.put ((n:ℚ) + 1) = ((n + 1 : ℤ) : ℚ) := by simpa using hσ (n + 1) (by omega) (by omega)
  have p2 : σ.put ((n:ℚ) + -1) = ((n + -1 : ℤ) : ℚ) := by simpa using hσ (n + -1) (by omega) (by omega)
  have cc : ∀ y : ℤ, clamp (0:ℚ) ((2 ^ d - 1 : ℤ) : ℚ) y = ((clamp 0 (2 ^ d - 1) y : ℤ) : ℚ) := by
    intro y; rw [← clamp_cast]; push_cast; rfl
  have hδ : ∀ o : ℤ, IsBit o → σ.put ((n:ℚ) + σ.put ((NumType.sint 8).put ((NumType.sint 8).put ((o:ℚ) * 2) - 1))) = (n:ℚ) + ((o:ℚ) * 2 - 1) := by
    intro o ho
    rcases ho with rfl | rfl <;> norm_num [s0, s1, s2, sm, b1, bm, p1, p2]
  have hδ' : ∀ o : ℤ, (n:ℚ) + ((o:ℚ) * 2 - 1) = ((n + (o * 2 - 1) : ℤ) : ℚ) := fun o => by push_cast; ring
  have ho := relu_out d n x hx
  unfold reluStepT reluStep reluAccType
  simp only
  generalize Int.lor x (1 - (ind ((n:ℚ) ≥ accHalf d) : ℤ)) = o at ho
  rw [hδ o ho, hδ', e2, cc]
  exact ⟨rfl, _, rfl, le_clamp (by omega), clamp_le _ _ _⟩

/-- C96: `FSUReLU` returns what it returns in exact arithmetic if the type configured for its *streams* holds the numbers of the counter;
the type configured for the counter may be anything. -/
theorem C96_relu (btype stype : NumType) (d : ℕ) (hd : 1 ≤ d) (hσ : Spec.Holds stype (-1) (2 ^ d)) (x : ℕ → ℤ)
    (hx : Verif.Spec.BitStream x) (t : ℕ) :
    outAt (reluStepT btype stype d) (accInitT (reluAccType btype stype) d) x t = outAt (reluStep d) (accHalf d) x t := by
  obtain ⟨e1, e2⟩ := acc_nat d hd
  have hl := acc_lt d hd
  have hi : accInitT (reluAccType btype stype) d = accHalf d := by unfold accInitT reluAccType; rw [e1]; exact hσ _ (by omega) (by omega)
  rw [hi]
  refine run_refines _ _ (fun s : ℚ => ∃ n : ℤ, s = n ∧ 0 ≤ n ∧ n ≤ 2 ^ d - 1) _ x ⟨_, e1, by omega, by omega⟩ ?_ t
  rintro s t ⟨n, rfl, h0, h1⟩
  exact relu_refines hd hσ n (x t) (hx t) h0 h1

example (x : ℕ → ℤ) (hx : Verif.Spec.BitStream x) (t : ℕ) :
    outAt (reluStepT (.uint 8) (.sint 8) (6 : ℕ)) (accInitT (reluAccType (.uint 8) (.sint 8)) (6 : ℕ)) x t =
      outAt (reluStep (6 : ℕ)) (accHalf (6 : ℕ)) x t :=
  C96_relu _ _ 6 (by norm_num) (holds_mono (C96_range.2.1 8 (by norm_num)).1 (by norm_num) (by norm_num)) x hx t

private theorem sint_facts (b : ℕ) (hb : 2 ≤ b) :
    (∀ n : ℤ, 0 ≤ n → n < 2 ^ (b - 1) → (NumType.sint b).put n = n) ∧ (NumType.sint b).put ((2:ℚ) ^ (b - 1)) = -(2:ℚ) ^ (b - 1) ∧
    (NumType.sint b).put 1 = 1 := by
  obtain ⟨h1, h2⟩ := C96_range.2.1 b (by omega)
  have hpow : (2:ℤ) ≤ 2 ^ (b - 1) := by
    calc (2:ℤ) = 2 ^ 1 := by norm_num
      _ ≤ 2 ^ (b - 1) := pow_le_pow_right₀ (by norm_num) (by omega)
  refine ⟨fun n a c => h1 n (by omega) (by omega), by push_cast at h2; exact h2, ?_⟩
  simpa using h1 1 (by omega) (by omega)

/-- C96 (violation): because `FSUReLU` exchanges the two configured types, its counter lives in the type of the streams and wraps when that is
small.  With streams of `b`-bit signed integers and a depth of `b - 1` (`int8` and seven), for which a counter of any wider type configured by
the user would do, `2^(b-2)` ones followed by a zero give a one for the zero; they should give a zero. -/
theorem C96_relu_swapped (btype : NumType) (b : ℕ) (hb : 2 ≤ b) (x : ℕ → ℤ) (h1 : ∀ t < 2 ^ (b - 2), x t = 1) (h0 : x (2 ^ (b - 2)) = 0) :
    outAt (reluStepT btype (.sint b) (b - 1 : ℕ)) (accInitT (reluAccType btype (.sint b)) (b - 1 : ℕ)) x (2 ^ (b - 2)) = 1 ∧
    outAt (reluStep (b - 1 : ℕ)) (accHalf (b - 1 : ℕ)) x (2 ^ (b - 2)) = 0 := by
  obtain ⟨e1, e2⟩ := acc_nat (b - 1) (by omega)
  obtain ⟨q1, q2, q3⟩ := sint_facts b hb
  obtain ⟨sm, s0, s1, s2⟩ := holds_small (C96_range.2.1 8 (by norm_num)).1 (by norm_num) (by norm_num)
  have hp := half_pow (b - 1) (by omega)
  rw [show b - 1 - 1 = b - 2 by omega] at hp e1
  have hpos : (1:ℤ) ≤ 2 ^ (b - 2) := one_le_pow₀ (by norm_num)
  have lor1 : ∀ y : ℤ, IsBit y → Int.lor 1 (1 - y) = 1 := by rintro y (rfl | rfl) <;> decide
  have hind : ∀ (p : Prop) [Decidable p], IsBit (ind p : ℤ) := fun p _ => by unfold ind IsBit; split_ifs <;> simp
  have stepT : ∀ a : ℚ, reluStepT btype (.sint b) (b - 1 : ℕ) a 1 =
      (clamp 0 (accMax (b - 1 : ℕ)) ((NumType.sint b).put (a + 1)), 1) := by
    intro a
    unfold reluStepT reluAccType
    simp only [lor1 _ (hind _)]
    norm_num [s1, s2, q3]
  have stepE : ∀ a : ℚ, reluStep (b - 1 : ℕ) a 1 = (clamp 0 (accMax (b - 1 : ℕ)) (a + 1), 1) := by
    intro a
    unfold reluStep
    simp only [lor1 _ (hind _)]
    norm_num
  have cc : ∀ y : ℤ, 0 ≤ y → y ≤ 2 ^ (b - 1) - 1 → clamp (0:ℚ) (accMax (b - 1 : ℕ)) y = y := by
    intro y a c
    rw [e2]
    exact clamp_of_mem (by exact_mod_cast a) (by exact_mod_cast c)
  have hinit : accInitT (reluAccType btype (.sint b)) (b - 1 : ℕ) = accHalf (b - 1 : ℕ) := by
    unfold accInitT reluAccType; rw [e1]; exact q1 _ (by omega) (by omega)
  rw [hinit]
  have inv : ∀ t : ℕ, t < 2 ^ (b - 2) →
      stateAt (reluStepT btype (.sint b) (b - 1 : ℕ)) (accHalf (b - 1 : ℕ)) x t = ((2 ^ (b - 2) + t : ℤ) : ℚ) ∧
      stateAt (reluStep (b - 1 : ℕ)) (accHalf (b - 1 : ℕ)) x t = ((2 ^ (b - 2) + t : ℤ) : ℚ) := by
    intro t ht
    induction t with
    | zero => simp only [stateAt]; rw [e1]; simp
    | succ t ih =>
      obtain ⟨i1, i2⟩ := ih (by omega)
      have htz : ((t + 1 : ℕ) : ℤ) < 2 ^ (b - 2) := by exact_mod_cast ht
      have hs : ((2 ^ (b - 2) + (t:ℤ) : ℤ) : ℚ) + 1 = ((2 ^ (b - 2) + ((t + 1 : ℕ) : ℤ) : ℤ) : ℚ) := by push_cast; ring
      simp only [stateAt]
      rw [i1, i2, h1 t (by omega), stepT, stepE, hs, q1 _ (by positivity) (by omega), cc _ (by positivity) (by omega)]
      exact ⟨rfl, rfl⟩
  have hN : 1 ≤ 2 ^ (b - 2) := Nat.one_le_two_pow
  obtain ⟨t, ht⟩ : ∃ t, 2 ^ (b - 2) = t + 1 := ⟨2 ^ (b - 2) - 1, by omega⟩
  have htz : ((2:ℤ) ^ (b - 2)) = t + 1 := by exact_mod_cast ht
  obtain ⟨i1, i2⟩ := inv t (by omega)
  have hs : ((2 ^ (b - 2) + (t:ℤ) : ℤ) : ℚ) + 1 = (2:ℚ) ^ (b - 1) := by
    have : ((2:ℤ) ^ (b - 2) + t) + 1 = 2 ^ (b - 1) := by omega
    exact_mod_cast this
  have hmax : (0:ℚ) ≤ accMax (b - 1 : ℕ) := by rw [e2]; exact_mod_cast (by omega : (0:ℤ) ≤ 2 ^ (b - 1) - 1)
  have f1 : stateAt (reluStepT btype (.sint b) (b - 1 : ℕ)) (accHalf (b - 1 : ℕ)) x (2 ^ (b - 2)) = 0 := by
    rw [ht]; simp only [stateAt]
    rw [i1, h1 t (by omega), stepT, hs, q2]
    exact clamp_of_le hmax (by have : (0:ℚ) < 2 ^ (b - 1) := by positivity
                               linarith)
  have f2 : stateAt (reluStep (b - 1 : ℕ)) (accHalf (b - 1 : ℕ)) x (2 ^ (b - 2)) = accMax (b - 1 : ℕ) := by
    rw [ht]; simp only [stateAt]
    rw [i2, h1 t (by omega), stepE, hs]
    exact clamp_of_ge (by rw [e2]; push_cast; linarith)
  unfold outAt
  rw [f1, f2, h0]
  have hh : (0:ℚ) < accHalf (b - 1 : ℕ) := by rw [e1]; exact_mod_cast hpos
  have hm : accHalf (b - 1 : ℕ) ≤ accMax (b - 1 : ℕ) := by rw [e1, e2]; exact_mod_cast (by omega : (2:ℤ) ^ (b - 2) ≤ 2 ^ (b - 1) - 1)
  constructor
  · unfold reluStepT
    simp only
    rw [show (ind ((0:ℚ) ≥ accHalf (b - 1 : ℕ)) : ℤ) = 0 by unfold ind; exact if_neg (not_le.2 hh)]
    decide
  · unfold reluStep
    simp only
    rw [show (ind (accMax (b - 1 : ℕ) ≥ accHalf (b - 1 : ℕ)) : ℤ) = 1 by unfold ind; exact if_pos hm]
    decide

example : outAt (reluStepT (.sint 32) (.sint 8) (7 : ℕ)) (accInitT (reluAccType (.sint 32) (.sint 8)) (7 : ℕ)) (fun t => if t < 64 then 1 else 0) 64 = 1 :=
  (C96_relu_swapped (.sint 32) 8 (by norm_num) (fun t => if t < 64 then 1 else 0) (fun t ht => if_pos ht) rfl).1

/-- C96 (violation): the counter of `FSUSignAbs` wraps when its range ends where the type's does (`int8` and a depth of seven): the stream of
ones, which is `+1`, is reported negative after `2^(b-2)` cycles. -/
theorem C96_signabs_wrap (σ : NumType) (hσ : Spec.Holds σ (-1) 2) (b : ℕ) (hb : 2 ≤ b) :
    (outAt (signAbsStepT σ (.sint b) (b - 1 : ℕ)) (accInitT (.sint b) (b - 1 : ℕ)) (fun _ => 1) (2 ^ (b - 2) - 1)).1 = 1 ∧
    ∀ t, (outAt (signAbsStep (b - 1 : ℕ)) (accHalf (b - 1 : ℕ)) (fun _ => 1) t).1 = 0 := by
  obtain ⟨e1, e2⟩ := acc_nat (b - 1) (by omega)
  obtain ⟨q1, q2, q3⟩ := sint_facts b hb
  obtain ⟨sm, s0, s1, s2⟩ := holds_small hσ le_rfl le_rfl
  have hp := half_pow (b - 1) (by omega)
  rw [show b - 1 - 1 = b - 2 by omega] at hp e1
  have hpos : (1:ℤ) ≤ 2 ^ (b - 2) := one_le_pow₀ (by norm_num)
  have hh : (0:ℚ) < accHalf (b - 1 : ℕ) := by rw [e1]; exact_mod_cast hpos
  have hm : accHalf (b - 1 : ℕ) ≤ accMax (b - 1 : ℕ) := by rw [e1, e2]; exact_mod_cast (by omega : (2:ℤ) ^ (b - 2) ≤ 2 ^ (b - 1) - 1)
  have m1 : (NumType.sint b).put (accMax (b - 1 : ℕ)) = accMax (b - 1 : ℕ) := by rw [e2]; exact q1 _ (by omega) (by omega)
  have m2 : (NumType.sint b).put (accHalf (b - 1 : ℕ)) = accHalf (b - 1 : ℕ) := by rw [e1]; exact q1 _ (by omega) (by omega)
  have stepT : ∀ a : ℚ, (signAbsStepT σ (.sint b) (b - 1 : ℕ) a 1).1 = clamp 0 (accMax (b - 1 : ℕ)) ((NumType.sint b).put (a + 1)) ∧
      (signAbsStepT σ (.sint b) (b - 1 : ℕ) a 1).2.1 =
        ind (clamp 0 (accMax (b - 1 : ℕ)) ((NumType.sint b).put (a + 1)) < accHalf (b - 1 : ℕ)) := by
    intro a
    unfold signAbsStepT
    simp only [m1, m2]
    norm_num [s1, s2, q3]
  have cc : ∀ y : ℤ, 0 ≤ y → y ≤ 2 ^ (b - 1) - 1 → clamp (0:ℚ) (accMax (b - 1 : ℕ)) y = y := by
    intro y a c
    rw [e2]
    exact clamp_of_mem (by exact_mod_cast a) (by exact_mod_cast c)
  have inv : ∀ t : ℕ, t < 2 ^ (b - 2) →
      stateAt (signAbsStepT σ (.sint b) (b - 1 : ℕ)) (accInitT (.sint b) (b - 1 : ℕ)) (fun _ => 1) t = ((2 ^ (b - 2) + t : ℤ) : ℚ) := by
    intro t ht
    induction t with
    | zero => simp only [stateAt]; unfold accInitT; rw [m2, e1]; simp
    | succ t ih =>
      have htz : ((t + 1 : ℕ) : ℤ) < 2 ^ (b - 2) := by exact_mod_cast ht
      have hs : ((2 ^ (b - 2) + (t:ℤ) : ℤ) : ℚ) + 1 = ((2 ^ (b - 2) + ((t + 1 : ℕ) : ℤ) : ℤ) : ℚ) := by push_cast; ring
      simp only [stateAt]
      rw [ih (by omega), (stepT _).1, hs, q1 _ (by positivity) (by omega), cc _ (by positivity) (by omega)]
  constructor
  · have hN : 1 ≤ 2 ^ (b - 2) := Nat.one_le_two_pow
    have hs : ((2 ^ (b - 2) + ((2 ^ (b - 2) - 1 : ℕ) : ℤ) : ℤ) : ℚ) + 1 = (2:ℚ) ^ (b - 1) := by
      have : ((2:ℤ) ^ (b - 2) + ((2 ^ (b - 2) - 1 : ℕ) : ℤ)) + 1 = 2 ^ (b - 1) := by push_cast [hN]; omega
      exact_mod_cast this
    unfold outAt
    rw [inv _ (by omega), (stepT _).2, hs, q2, clamp_of_le (hh.le.trans hm) (by have : (0:ℚ) < 2 ^ (b - 1) := by positivity
                                                                                linarith)]
    exact if_pos hh
  · intro t
    have inv2 : ∀ t, accHalf (b - 1 : ℕ) ≤ stateAt (signAbsStep (b - 1 : ℕ)) (accHalf (b - 1 : ℕ)) (fun _ => 1) t := by
      intro t
      induction t with
      | zero => exact le_rfl
      | succ t ih =>
        rw [stateAt]
        generalize stateAt (signAbsStep (b - 1 : ℕ)) (accHalf (b - 1 : ℕ)) (fun _ => 1) t = q at ih
        unfold signAbsStep
        refine le_min (le_max_of_le_left ?_) hm
        norm_num; linarith
    have hstep : ∀ a : ℚ, accHalf (b - 1 : ℕ) ≤ a → (signAbsStep (b - 1 : ℕ) a 1).2.1 = 0 := by
      intro a ha
      unfold signAbsStep
      refine if_neg (not_lt.2 (le_min (le_max_of_le_left ?_) hm))
      norm_num; linarith
    exact hstep _ (inv2 t)

example : (outAt (signAbsStepT (.fp single) (.sint 8) (7 : ℕ)) (accInitT (.sint 8) (7 : ℕ)) (fun _ => 1) 63).1 = 1 :=
  (C96_signabs_wrap (.fp single) (holds_mono (C96_range.1 single (by decide)).1 (by norm_num [single]) (by norm_num [single])) 8 (by norm_num)).1

/-! ## Unsigned streams -/

private theorem uint_facts (b : ℕ) (hb : 1 ≤ b) : (NumType.uint b).put 0 = 0 ∧ (NumType.uint b).put (-1) = (2:ℚ) ^ b - 1 := by
  obtain ⟨h1, h2, h3⟩ := C96_range.2.2 b
  exact ⟨by simpa using h1 0 le_rfl (by have : (0:ℤ) < 2 ^ b := by positivity
                                        omega), by simpa using h3 hb⟩

/-- C96 (violation): with streams of unsigned integers, `2·0 - 1` is computed in the type of the stream, so a zero counts as `2^b - 1`.  The stream of
zeros, which is `-1`, is then never reported negative; it should be in every cycle. -/
theorem C96_unsigned_signabs (b d : ℕ) (hd : 1 ≤ d) (hdb : d ≤ b) (β : NumType) (hβ : Spec.Holds β 0 (2 ^ b + 2 ^ d)) (t : ℕ) :
    (outAt (signAbsStepT (.uint b) β d) (accInitT β d) (fun _ => 0) t).1 = 0 ∧
    (outAt (signAbsStep d) (accHalf d) (fun _ => 0) t).1 = 1 := by
  obtain ⟨e1, e2⟩ := acc_nat d hd
  have hl := acc_lt d hd
  obtain ⟨u0, u1⟩ := uint_facts b (by omega)
  have hbd : (2:ℤ) ^ d ≤ 2 ^ b := pow_le_pow_right₀ (by norm_num) hdb
  have m1 : β.put (accMax d) = accMax d := by rw [e2]; exact hβ _ (by omega) (by omega)
  have m2 : β.put (accHalf d) = accHalf d := by rw [e1]; exact hβ _ (by omega) (by omega)
  have m3 : β.put ((2:ℚ) ^ b - 1) = ((2 ^ b - 1 : ℤ) : ℚ) := by
    have := hβ (2 ^ b - 1) (by omega) (by omega); push_cast at this ⊢; exact this
  have hm : accHalf d ≤ accMax d := by rw [e1, e2]; exact_mod_cast hl.2
  have hh : (0:ℚ) < accHalf d := by rw [e1]; exact_mod_cast hl.1
  have stepT : ∀ n : ℤ, 0 ≤ n → n ≤ 2 ^ d - 1 → (signAbsStepT (.uint b) β d n 0).1 = accMax d ∧ (signAbsStepT (.uint b) β d n 0).2.1 = 0 := by
    intro n h0 h1
    have hc : clamp 0 (accMax d) (β.put ((n:ℚ) + ((2 ^ b - 1 : ℤ) : ℚ))) = accMax d := by
      have := hβ (n + (2 ^ b - 1)) (by omega) (by omega)
      rw [Int.cast_add] at this
      rw [this]
      refine clamp_of_ge ?_
      rw [e2, ← Int.cast_add]
      exact_mod_cast (by omega : (2:ℤ) ^ d - 1 ≤ n + (2 ^ b - 1))
    unfold signAbsStepT
    simp only [m1, m2, Int.cast_zero, zero_mul, u0, zero_sub, u1, m3, hc, true_and]
    exact if_neg (not_lt.2 hm)
  constructor
  · have inv : ∀ t, ∃ n : ℤ, stateAt (signAbsStepT (.uint b) β d) (accInitT β d) (fun _ => 0) t = n ∧ 0 ≤ n ∧ n ≤ 2 ^ d - 1 := by
      intro t
      induction t with
      | zero => exact ⟨_, m2.trans e1, by omega, by omega⟩
      | succ t ih =>
        obtain ⟨n, hn, h0, h1⟩ := ih
        simp only [stateAt]
        rw [hn, (stepT n h0 h1).1]
        exact ⟨_, e2, by omega, le_rfl⟩
    obtain ⟨n, hn, h0, h1⟩ := inv t
    unfold outAt
    rw [hn, (stepT n h0 h1).2]
  · have inv2 : ∀ t, stateAt (signAbsStep d) (accHalf d) (fun _ => 0) t ≤ accHalf d := by
      intro t
      induction t with
      | zero => exact le_rfl
      | succ t ih =>
        rw [stateAt]
        generalize stateAt (signAbsStep d) (accHalf d) (fun _ => 0) t = q at ih
        unfold signAbsStep
        refine min_le_of_left_le (max_le ?_ hh.le)
        norm_num; linarith
    have hstep : ∀ a : ℚ, a ≤ accHalf d → (signAbsStep d a 0).2.1 = 1 := by
      intro a ha
      unfold signAbsStep
      refine if_pos (min_lt_of_left_lt (max_lt ?_ hh))
      norm_num; linarith
    exact hstep _ (inv2 t)

/-- C96 (violation): likewise `SkewedSync` with unsigned streams fills its counter on a surplus zero of the first stream: from the second call on, a
first stream of zeros is returned as ones, with the second stream all ones. -/
theorem C96_unsigned_sync (b d : ℕ) (hd : 1 ≤ d) (hdb : d ≤ b) (β : NumType) (hβ : Spec.Holds β 0 (2 ^ b + 2 ^ d)) (t : ℕ) :
    (outAt (ssStepT (.uint b) β d) ⟨[1], 0⟩ (fun _ => ([1], 0, 1)) (t + 1)).1 = 1 ∧
    (outAt (ssStep d) ssInit (fun _ => ([1], 0, 1)) (t + 1)).1 = 0 := by
  have hpow : (2:ℤ) ≤ 2 ^ d := by
    calc (2:ℤ) = 2 ^ 1 := by norm_num
      _ ≤ 2 ^ d := pow_le_pow_right₀ (by norm_num) hd
  obtain ⟨u0, u1⟩ := uint_facts b (by omega)
  have hbd : (2:ℤ) ^ d ≤ 2 ^ b := pow_le_pow_right₀ (by norm_num) hdb
  have w1 : (NumType.uint b).put 1 = 1 := by simpa using (C96_range.2.2 b).1 1 (by norm_num) (by omega)
  have m1 : β.put ((2:ℚ) ^ d - 1) = ((2 ^ d - 1 : ℤ) : ℚ) := by
    have := hβ (2 ^ d - 1) (by omega) (by omega); push_cast at this ⊢; exact this
  have m3 : β.put ((2:ℚ) ^ b - 1) = ((2 ^ b - 1 : ℤ) : ℚ) := by
    have := hβ (2 ^ b - 1) (by omega) (by omega); push_cast at this ⊢; exact this
  have m4 : β.put ((2 ^ b - 1 : ℤ) : ℚ) = ((2 ^ b - 1 : ℤ) : ℚ) := hβ (2 ^ b - 1) (by omega) (by omega)
  have stepT : ∀ n : ℤ, 0 ≤ n → n ≤ 2 ^ d - 1 →
      (ssStepT (.uint b) β d ⟨[1], n⟩ ([1], 0, 1)).1 = ⟨[1], ((2 ^ d - 1 : ℤ) : ℚ)⟩ ∧
      (n ≠ 0 → (ssStepT (.uint b) β d ⟨[1], n⟩ ([1], 0, 1)).2.1 = 1) := by
    intro n h0 h1
    have hc : clamp 0 ((2 ^ d - 1 : ℤ) : ℚ) (β.put ((n:ℚ) + ((2 ^ b - 1 : ℤ) : ℚ))) = ((2 ^ d - 1 : ℤ) : ℚ) := by
      have := hβ (n + (2 ^ b - 1)) (by omega) (by omega)
      rw [Int.cast_add] at this
      rw [this]
      refine clamp_of_ge ?_
      rw [← Int.cast_add]
      exact_mod_cast (by omega : (2:ℤ) ^ d - 1 ≤ n + (2 ^ b - 1))
    constructor
    · unfold ssStepT
      simp only [m1, ne_eq, not_true_eq_false, if_false, Int.cast_zero, Int.cast_one, zero_add, w1, zero_mul, u0, zero_sub, u1, m3]
      rw [show (ind True : ℤ) = 1 from if_pos trivial, Int.cast_one, one_mul, m4, hc]
    · intro hn
      unfold ssStepT
      simp only [m1, ne_eq, not_true_eq_false, if_false, Int.cast_zero, Int.cast_one, zero_add, w1, mul_zero, u0, sub_zero, add_zero]
      have hq : (n:ℚ) ≠ 0 := by exact_mod_cast hn
      rw [show (ind True : ℤ) = 1 from if_pos trivial, show (ind (¬ (n:ℚ) = 0) : ℤ) = 1 from if_pos hq]
      norm_num [w1]
  constructor
  · have inv : ∀ t, stateAt (ssStepT (.uint b) β d) ⟨[1], 0⟩ (fun _ => ([1], 0, 1)) (t + 1) = ⟨[1], ((2 ^ d - 1 : ℤ) : ℚ)⟩ := by
      intro t
      induction t with
      | zero =>
        simp only [stateAt]
        have := (stepT 0 le_rfl (by omega)).1
        rw [Int.cast_zero] at this
        exact this
      | succ t ih =>
        rw [stateAt, ih]
        exact (stepT _ (by omega) le_rfl).1
    unfold outAt
    rw [inv t]
    exact (stepT _ (by omega) le_rfl).2 (by omega)
  · have inv : ∀ t, stateAt (ssStep d) ssInit (fun _ => ([1], 0, 1)) t = ⟨[1], 0⟩ := by
      intro t
      induction t with
      | zero => rfl
      | succ t ih =>
        rw [stateAt, ih]
        unfold ssStep
        have : clamp 0 ((2:ℤ) ^ d - 1) (-1) = 0 := clamp_of_le (by omega) (by omega)
        simp [ind, this]
    unfold outAt
    rw [inv]
    unfold ssStep
    simp [ind]

example (t : ℕ) : (outAt (ssStepT (.uint 8) (.fp single) 4) ⟨[1], 0⟩ (fun _ => ([1], 0, 1)) (t + 1)).1 = 1 :=
  (C96_unsigned_sync 8 4 (by norm_num) (by norm_num) (.fp single)
    (holds_mono (C96_range.1 single (by decide)).1 (by norm_num [single]) (by norm_num [single])) t).1

/-! ## FSUAdd -/

private theorem bits_sum {xs : List ℚ} (h : ∀ x ∈ xs, IsBit x) : ∃ n : ℤ, xs.sum = n ∧ 0 ≤ n ∧ n ≤ xs.length := by
  induction xs with
  | nil => exact ⟨0, by simp, le_rfl, by simp⟩
  | cons x xs ih =>
    obtain ⟨n, h1, h2, h3⟩ := ih fun y hy => h y (List.mem_cons_of_mem _ hy)
    rw [List.sum_cons, h1, List.length_cons]
    rcases h x List.mem_cons_self with rfl | rfl
    · exact ⟨n, by simp, h2, by push_cast; omega⟩
    · exact ⟨1 + n, by push_cast; rfl, by omega, by push_cast; omega⟩

/-- C96: `FSUAdd` with a floating-point `btype` of `p` fraction bits returns in every call what it returns with exact sums, as long as no call sums
more than `2^(p+1)` bits (256 for `bfloat16`, 2048 for `float16`); with integer types that hold zero and one always (sums of integers are formed
in 64 bits). -/
theorem C96_add (β : NumType) (hβ : Spec.Holds β 0 1) (cfg : Adder.Cfg) (a : ℕ → Adder.Arg) (hbit : ∀ t, ∀ x ∈ (a t).xs, IsBit x)
    (hlen : ∀ P, β = .fp P → P.emin ≤ 0 ∧ ∀ t, (a t).xs.length ≤ 2 ^ (P.p + 1)) (t : ℕ) :
    outAt (addStepT β cfg) (Adder.init cfg) a t = outAt (Adder.step cfg) (Adder.init cfg) a t := by
  refine run_refines _ _ (fun _ => True) _ a trivial ?_ t
  intro s t _
  refine ⟨?_, trivial⟩
  have hm : (a t).xs.map β.put = (a t).xs := by
    refine (List.map_congr_left fun x hx => ?_).trans (List.map_id _)
    rcases hbit t x hx with rfl | rfl
    · simpa using hβ 0 le_rfl (by norm_num)
    · simpa using hβ 1 (by norm_num) le_rfl
  have hs : sumT β (a t).xs = (a t).xs.sum := by
    cases β with
    | fp P =>
      obtain ⟨hP, hl⟩ := hlen P rfl
      obtain ⟨n, h1, h2, h3⟩ := bits_sum (hbit t)
      show P.rd _ = _
      rw [h1]
      refine Prec.rd_int hP ?_
      rw [abs_of_nonneg h2]
      exact h3.trans (by exact_mod_cast hl t)
    | sint b => rfl
    | uint b => rfl
  unfold addStepT Adder.step accumulateT Adder.accumulate
  rw [hm, hs]

/-- C96 (violation): with one bit more the sum is rounded down, and the adder with default scale fails to report the full sum: `2^(p+1) + 1` ones (257
for `bfloat16`) give a zero in the first call where they should give a one. -/
theorem C96_add_loss (P : Prec) (hP : P.emin ≤ 0) (hp : 1 ≤ P.p) (depth : ℤ) (hd : (2:ℚ) ^ (P.p + 1) + 1 ≤ accBound depth) :
    let a : Adder.Arg := { xs := List.replicate (2 ^ (P.p + 1) + 1) 1 }
    (addStepT (.fp P) ⟨.unipolar, none, none, depth⟩ (Adder.init ⟨.unipolar, none, none, depth⟩) a).2 = 0 ∧
    (Adder.step ⟨.unipolar, none, none, depth⟩ (Adder.init ⟨.unipolar, none, none, depth⟩) a).2 = 1 := by
  intro a
  have hput := (C96_range.1 P hP).2 hp
  have hpos : (0:ℚ) < 2 ^ (P.p + 1) := by positivity
  have hsum : a.xs.sum = (2:ℚ) ^ (P.p + 1) + 1 := by simp [a]
  have hlen : (a.xs.length : ℚ) = (2:ℚ) ^ (P.p + 1) + 1 := by simp [a]
  have hm : a.xs.map (NumType.fp P).put = a.xs := by
    have : (NumType.fp P).put (1:ℚ) = 1 := by
      simpa using (C96_range.1 P hP).1 1 ((neg_nonpos.2 (by positivity)).trans (by norm_num)) (one_le_pow₀ (by norm_num))
    simp [a, this]
  have hr : sumT (.fp P) (a.xs.map (NumType.fp P).put) = (2:ℚ) ^ (P.p + 1) := by
    rw [hm]
    show P.rd _ = _
    rw [hsum]
    have : P.rd ((2 ^ (P.p + 1) + 1 : ℤ) : ℚ) = (2:ℚ) ^ (P.p + 1) := hput
    push_cast at this
    exact this
  have hc : Adder.configure ⟨.unipolar, none, none, depth⟩ (Adder.init ⟨.unipolar, none, none, depth⟩) a =
      ⟨false, some (a.xs.length : ℚ), a.xs.length, 0, 0⟩ := rfl
  constructor
  · unfold addStepT accumulateT
    rw [hc]
    simp only [hr, hlen, sub_zero, zero_add]
    rw [clamp_of_mem (by linarith) (by linarith)]
    exact if_neg (by linarith)
  · unfold Adder.step Adder.accumulate
    rw [hc]
    simp only [hsum, hlen, sub_zero, zero_add]
    rw [clamp_of_mem (by linarith) (by linarith)]
    exact if_pos le_rfl

example : (addStepT (.fp bfloat) ⟨.unipolar, none, none, 12⟩ (Adder.init ⟨.unipolar, none, none, 12⟩) { xs := List.replicate 257 1 }).2 = 0 :=
  (C96_add_loss bfloat (by decide) (by decide) 12 (by norm_num [bfloat, accBound])).1

/-! ## FSULinearPC -/

/-- Results of a call of `FSULinearPC` with `stype` `σ` number `t`. -/
def pcOutT {B I O : ℕ} (σ : NumType) (c : Linear.PC I O) (x : Fin B → Fin I → ℕ → ℤ) (t : ℕ) : Except PyErr (List (Fin O → ℚ)) :=
  outAtE (stepPCT σ c) (Linear.PCSt.init I O) (pcIn x) t

private theorem pcT_state {B I O : ℕ} (σ : NumType) (c : Linear.PC I O) (x : Fin B → Fin I → ℕ → ℤ) (t : ℕ) :
    stateAtE (stepPCT σ c) (Linear.PCSt.init I O) (pcIn x) t = stateAtE (Linear.stepPC c) (Linear.PCSt.init I O) (pcIn x) t := by
  induction t with
  | zero => rfl
  | succ t ih =>
    unfold stateAtE
    rw [ih]
    cases stateAtE (Linear.stepPC c) (Linear.PCSt.init I O) (pcIn x) t with
    | error e => rfl
    | ok s =>
      show (stepPCT σ c s (pcIn x t) >>= _) = (Linear.stepPC c s (pcIn x t) >>= _)
      unfold stepPCT
      cases Linear.stepPC c s (pcIn x t) <;> rfl

private theorem pcT_out {B I O : ℕ} (σ : NumType) (c : Linear.PC I O) (x : Fin B → Fin I → ℕ → ℤ) (t : ℕ) :
    pcOutT σ c x t = (pcOut c x t).map fun y => y.map fun (n : Fin O → ℤ) (o : Fin O) => σ.put (n o) := by
  unfold pcOutT pcOut outAtE
  rw [pcT_state]
  cases stateAtE (Linear.stepPC c) (Linear.PCSt.init I O) (pcIn x) t with
  | error e => rfl
  | ok s =>
    show (stepPCT σ c s (pcIn x t) >>= _) = Except.map _ (Linear.stepPC c s (pcIn x t) >>= _)
    unfold stepPCT
    cases Linear.stepPC c s (pcIn x t) <;> rfl

/-- C96: the parallel counter of a layer returns the exact counts in every call, whatever the coding, as long as its stream type holds the numbers up
to the number of addends (features, plus one with a bias): 127 for `int8`, 256 for `bfloat16`, 2048 for `float16`. -/
theorem C96_counter {B I O : ℕ} (hB : 0 < B) (σ : NumType) (c : Linear.PC I O) (hσ : Spec.Holds σ 0 (Spec.addends I c.bias))
    (x : Fin B → Fin I → ℕ → ℤ) (hx : ∀ b i, Verif.Spec.BitStream (x b i)) (t : ℕ) :
    ∃ y : List (Fin O → ℤ), pcOut c x t = .ok y ∧ pcOutT σ c x t = .ok (y.map fun n o => (n o : ℚ)) := by
  obtain ⟨y, h1, -, h3⟩ := C44_range hB c x hx t
  refine ⟨y, h1, ?_⟩
  rw [pcT_out, h1]
  show Except.ok _ = _
  congr 1
  exact List.map_congr_left fun n hn => funext fun o => hσ _ (h3 n hn o).1 (h3 n hn o).2

/-- Non-vacuity: `int8` streams and 127 features. -/
example : Spec.Holds (.sint 8) 0 (Spec.addends (O := 1) 127 none) := fun n h1 h2 => by
  refine (C96_range.2.1 8 (by norm_num)).1 n (le_trans (by norm_num) h1) (h2.trans (by simp [Spec.addends]))

/-- C96 (violation): with one feature more the count of a signed stream type turns negative: `2^(b-1)` ones times weights of one are counted as
`-2^(b-1)` (128 as -128 in `int8`).  In unsigned types `2^b` such products are counted as none. -/
theorem C96_counter_wrap (b : ℕ) (hb : 1 ≤ b) (rng : List ℤ) (v : ℤ) (hv : ∀ r ∈ rng, r < v) (h0 : rng ≠ []) (t : ℕ) :
    pcOut (B := 1) (O := 1) (I := 2 ^ (b - 1)) ⟨.unipolar, rng, fun _ _ => v, none, true⟩ (fun _ _ _ => 1) t = .ok [fun _ => 2 ^ (b - 1)] ∧
    pcOutT (B := 1) (O := 1) (I := 2 ^ (b - 1)) (.sint b) ⟨.unipolar, rng, fun _ _ => v, none, true⟩ (fun _ _ _ => 1) t
      = .ok [fun _ => -(2:ℚ) ^ (b - 1)] ∧
    pcOutT (B := 1) (O := 1) (I := 2 ^ b) (.uint b) ⟨.unipolar, rng, fun _ _ => v, none, true⟩ (fun _ _ _ => 1) t = .ok [fun _ => (0:ℚ)] := by
  have key : ∀ I : ℕ, pcOut (B := 1) (O := 1) (I := I) ⟨.unipolar, rng, fun _ _ => v, none, true⟩ (fun _ _ _ => 1) t = .ok [fun _ => (I:ℤ)] := by
    intro I
    have hlen : 0 < rng.length := List.length_pos_iff.2 h0
    have h := C57_products (B := 1) (O := 1) (I := I) one_pos ⟨.unipolar, rng, fun _ _ => v, none, true⟩ rfl (fun _ _ _ => 1)
      (fun _ _ _ => Or.inr rfl) t
    have hm : rng.getD (t % rng.length) 0 < v := by
      have hi : t % rng.length < rng.length := Nat.mod_lt _ hlen
      rw [List.getD_eq_getElem?_getD, List.getElem?_eq_getElem hi]
      exact hv _ (List.getElem_mem hi)
    rw [h]
    rw [List.getD_eq_getElem?_getD] at hm
    simp [hm, Spec.biasBit]
  refine ⟨by rw [key]; norm_num, ?_, ?_⟩
  · rw [pcT_out, key]
    show Except.ok [fun _ => (NumType.sint b).put (((2 ^ (b - 1) : ℕ) : ℤ) : ℚ)] = _
    rw [show (((2 ^ (b - 1) : ℕ) : ℤ) : ℚ) = ((2 ^ (b - 1) : ℤ) : ℚ) by push_cast; rfl, (C96_range.2.1 b hb).2]
  · rw [pcT_out, key]
    show Except.ok [fun _ => (NumType.uint b).put (((2 ^ b : ℕ) : ℤ) : ℚ)] = _
    rw [show (((2 ^ b : ℕ) : ℤ) : ℚ) = ((2 ^ b : ℤ) : ℚ) by push_cast; rfl, (C96_range.2.2 b).2.1]

/-- Non-vacuity: 128 features in `int8`, weight 4 of 4. -/
example (t : ℕ) : pcOutT (B := 1) (O := 1) (I := 2 ^ 7) (.sint 8) ⟨.unipolar, [0, 2, 1, 3], fun _ _ => 4, none, true⟩ (fun _ _ _ => 1) t
    = .ok [fun _ => -(2:ℚ) ^ 7] := (C96_counter_wrap 8 (by norm_num) [0, 2, 1, 3] 4 (by decide) (by decide) t).2.1

end Verif.Props
