import Verif.Spec
import Verif.Model.Gen
import Mathlib.Data.Rat.Floor
import Mathlib.Data.List.Sort

/-!
# Property C09: `RawScale`
-/

namespace Verif.Props

open Verif Gen

/-- C09: quantiles outside `(0, 1]` are rejected. -/
theorem C09_reject (q : ℚ) (raw : List ℚ) (h : ¬ (0 < q ∧ q ≤ 1)) : rawScale q raw = .error .assertion := by
  unfold rawScale rawScaleInit; rw [if_neg h]; rfl

/-! ### Interpolated order statistics -/

def interp (A : ℕ → ℚ) (p : ℚ) : ℚ := A ⌊p⌋.toNat + (p - ⌊p⌋) * (A ⌈p⌉.toNat - A ⌊p⌋.toNat)

theorem interp_between (A : ℕ → ℚ) (hA : Monotone A) (p : ℚ) :
    A ⌊p⌋.toNat ≤ interp A p ∧ interp A p ≤ A ⌈p⌉.toNat := by
  have hfc : ⌊p⌋.toNat ≤ ⌈p⌉.toNat := Int.toNat_le_toNat (Int.floor_le_ceil p)
  have h := hA hfc
  have h0 := Int.floor_le p
  have h1 := Int.lt_floor_add_one p
  unfold interp
  constructor
  · nlinarith
  · nlinarith

theorem interp_mono (A : ℕ → ℚ) (hA : Monotone A) {p p' : ℚ} (h : p ≤ p') : interp A p ≤ interp A p' := by
  have hf : ⌊p⌋ ≤ ⌊p'⌋ := Int.floor_mono h
  rcases lt_or_eq_of_le hf with hlt | heq
  · have hc : ⌈p⌉ ≤ ⌊p'⌋ := by
      rw [Int.ceil_le]
      have := Int.lt_floor_add_one p
      have h2 : ((⌊p⌋ + 1 : ℤ) : ℚ) ≤ ⌊p'⌋ := by exact_mod_cast hlt
      push_cast at h2; linarith
    exact le_trans (interp_between A hA p).2 (le_trans (hA (Int.toNat_le_toNat hc)) (interp_between A hA p').1)
  · by_cases hp : p = ⌊p⌋
    · have : interp A p = A ⌊p⌋.toNat := by unfold interp; rw [sub_eq_zero.2 hp]; ring
      rw [this, heq]; exact (interp_between A hA p').1
    · have hlt : (⌊p⌋ : ℚ) < p := lt_of_le_of_ne (Int.floor_le p) (Ne.symm hp)
      have hc : ⌈p⌉ = ⌊p⌋ + 1 := by
        rw [Int.ceil_eq_iff]; push_cast
        exact ⟨by linarith, (Int.lt_floor_add_one p).le⟩
      have hc' : ⌈p'⌉ = ⌊p⌋ + 1 := by
        rw [Int.ceil_eq_iff]; push_cast
        refine ⟨by linarith, ?_⟩
        rw [heq]; exact (Int.lt_floor_add_one p').le
      have hm : A ⌊p⌋.toNat ≤ A (⌊p⌋ + 1).toNat := hA (Int.toNat_le_toNat (by omega))
      unfold interp
      rw [hc, hc', ← heq]
      nlinarith

/-- Sorted list as a monotone function: past the end the last element is repeated. -/
def srt (raw : List ℚ) (i : ℕ) : ℚ :=
  (raw.mergeSort (fun x y => decide (x ≤ y))).getD (min i (raw.length - 1)) 0

theorem srt_mono (raw : List ℚ) : Monotone (srt raw) := by
  intro i j hij
  unfold srt
  set l := raw.mergeSort (fun x y => decide (x ≤ y)) with hl
  have hs : l.Pairwise (fun a b => decide (a ≤ b) = true) :=
    List.pairwise_mergeSort (fun a b c h1 h2 => by simp at *; linarith) (fun a b => by simp; exact le_total a b) raw
  have hlen : l.length = raw.length := List.length_mergeSort _
  rcases Nat.eq_zero_or_pos raw.length with h0 | hpos
  · simp [h0]
  · have h1 : min i (raw.length - 1) < l.length := by omega
    have h2 : min j (raw.length - 1) < l.length := by omega
    rw [List.getD_eq_getElem _ _ h1, List.getD_eq_getElem _ _ h2]
    rcases Nat.lt_or_ge (min i (raw.length - 1)) (min j (raw.length - 1)) with h | h
    · simpa using (List.pairwise_iff_getElem.1 hs) _ _ h1 h2 h
    · have : min i (raw.length - 1) = min j (raw.length - 1) := by omega
      simp [this]

private theorem quantile_eq (raw : List ℚ) (hne : raw ≠ []) (q : ℚ) (h1 : q ≤ 1) :
    quantile raw q = .ok (interp (srt raw) (q * ((raw.length : ℚ) - 1))) := by
  have hpos : 0 < raw.length := List.length_pos_iff.2 hne
  have hn : (1:ℚ) ≤ raw.length := by exact_mod_cast hpos
  have hp1 : q * ((raw.length : ℚ) - 1) ≤ ((raw.length - 1 : ℤ) : ℚ) := by push_cast; nlinarith
  have hc : ⌈q * ((raw.length : ℚ) - 1)⌉ ≤ (raw.length - 1 : ℤ) := Int.ceil_le.2 hp1
  have hf : ⌊q * ((raw.length : ℚ) - 1)⌋ ≤ (raw.length - 1 : ℤ) := le_trans (Int.floor_le_ceil _) hc
  unfold quantile interp srt
  rw [if_neg hne, min_eq_left (by omega), min_eq_left (by omega)]

/-- The position of a data element in the sorted data. -/
theorem srt_mem {raw : List ℚ} {x : ℚ} (h : x ∈ raw) : ∃ i < raw.length, srt raw i = x := by
  have hp := List.mergeSort_perm raw (fun x y => decide (x ≤ y))
  obtain ⟨i, hi, he⟩ := List.getElem_of_mem (hp.mem_iff.2 h)
  have hl := hp.length_eq
  refine ⟨i, by omega, ?_⟩
  unfold srt
  rw [min_eq_left (by omega), List.getD_eq_getElem _ _ hi, he]

theorem srt_in {raw : List ℚ} (i : ℕ) (hi : i < raw.length) : srt raw i ∈ raw := by
  have hp := List.mergeSort_perm raw (fun x y => decide (x ≤ y))
  have hl := hp.length_eq
  unfold srt
  rw [min_eq_left (by omega), List.getD_eq_getElem _ _ (by omega)]
  exact hp.mem_iff.1 (List.getElem_mem _)

private theorem rawScale_eq (q : ℚ) (hq : 0 < q ∧ q ≤ 1) (raw : List ℚ) (hne : raw ≠ []) :
    ∃ l u, l ≤ u ∧ l = interp (srt raw) ((1/2 - q/2) * ((raw.length : ℚ) - 1)) ∧
      u = interp (srt raw) ((1/2 + q/2) * ((raw.length : ℚ) - 1)) ∧
      rawScale q raw = if max |l| |u| = 0 then .error .nonfinite
        else .ok (raw.map fun x => clamp l u x / max |l| |u|) := by
  have hpos : 0 < raw.length := List.length_pos_iff.2 hne
  have hn : (1:ℚ) ≤ raw.length := by exact_mod_cast hpos
  refine ⟨_, _, ?_, rfl, rfl, ?_⟩
  · apply interp_mono _ (srt_mono raw)
    have : (0:ℚ) ≤ (raw.length : ℚ) - 1 := by linarith
    nlinarith
  · unfold rawScale rawScaleInit
    rw [if_pos hq]
    show (quantile raw (1/2 - q/2) >>= fun lower => quantile raw (1/2 + q/2) >>= fun upper => _) = _
    rw [quantile_eq raw hne _ (by linarith [hq.1]),
      quantile_eq raw hne _ (by linarith [hq.2])]
    rfl

/-- Every quantile of non-empty data lies between two data elements. -/
theorem quantile_between (raw : List ℚ) (hne : raw ≠ []) (q : ℚ) (hq0 : 0 ≤ q) (hq1 : q ≤ 1) :
    ∃ v, quantile raw q = .ok v ∧ (∃ a ∈ raw, a ≤ v) ∧ (∃ b ∈ raw, v ≤ b) := by
  have hpos : 0 < raw.length := List.length_pos_iff.2 hne
  refine ⟨_, quantile_eq raw hne q hq1, ?_, ?_⟩
  · have h := (interp_between _ (srt_mono raw) (q * ((raw.length : ℚ) - 1))).1
    refine ⟨srt raw 0, srt_in 0 hpos, le_trans (srt_mono raw (Nat.zero_le _)) h⟩
  · have h := (interp_between _ (srt_mono raw) (q * ((raw.length : ℚ) - 1))).2
    refine ⟨_, srt_in (raw.length - 1) (by omega), le_trans h (srt_mono raw ?_)⟩
    have hn : (1:ℚ) ≤ raw.length := by exact_mod_cast hpos
    have : q * ((raw.length : ℚ) - 1) ≤ ((raw.length - 1 : ℤ) : ℚ) := by push_cast; nlinarith
    have := Int.ceil_le.2 this
    omega

/-- The quantiles `0` and `1` are the smallest and largest element. -/
theorem quantile_ends (raw : List ℚ) (hne : raw ≠ []) :
    (∃ v ∈ raw, quantile raw 0 = .ok v ∧ ∀ x ∈ raw, v ≤ x) ∧
    (∃ v ∈ raw, quantile raw 1 = .ok v ∧ ∀ x ∈ raw, x ≤ v) := by
  have hpos : 0 < raw.length := List.length_pos_iff.2 hne
  constructor
  · refine ⟨srt raw 0, srt_in 0 hpos, ?_, fun x hx => ?_⟩
    · rw [quantile_eq raw hne 0 (by norm_num)]; simp [interp]
    · obtain ⟨i, -, rfl⟩ := srt_mem hx; exact srt_mono raw (Nat.zero_le _)
  · refine ⟨srt raw (raw.length - 1), srt_in _ (by omega), ?_, fun x hx => ?_⟩
    · rw [quantile_eq raw hne 1 (le_refl _)]
      have e : (1:ℚ) * ((raw.length : ℚ) - 1) = (((raw.length : ℤ) - 1 : ℤ) : ℚ) := by push_cast; ring
      have e2 : ((raw.length : ℤ) - 1).toNat = raw.length - 1 := by omega
      rw [e]; unfold interp
      simp [Int.floor_intCast, Int.ceil_intCast, e2]
    · obtain ⟨i, hi, rfl⟩ := srt_mem hx; exact srt_mono raw (by omega)

/-- `v` is the value at position `p` of the sorted data `S`, interpolated linearly between neighbouring positions. -/
def Spec.AtPos (S : List ℚ) (p v : ℚ) : Prop :=
  ∃ (k : ℕ) (a : ℚ), S[k]? = some a ∧
    (p = k ∧ v = a ∨ ∃ b, S[k + 1]? = some b ∧ (k : ℚ) < p ∧ p < k + 1 ∧ v = a + (p - k) * (b - a))

theorem interp_atPos (raw : List ℚ) (hne : raw ≠ []) (p : ℚ) (h0 : 0 ≤ p) (h1 : p ≤ (raw.length : ℚ) - 1) :
    Spec.AtPos (raw.mergeSort (fun x y => decide (x ≤ y))) p (interp (srt raw) p) := by
  have hpos : 0 < raw.length := List.length_pos_iff.2 hne
  have hlen : (raw.mergeSort (fun x y => decide (x ≤ y))).length = raw.length := List.length_mergeSort _
  have hk : ((⌊p⌋.toNat : ℕ) : ℤ) = ⌊p⌋ := Int.toNat_of_nonneg (Int.floor_nonneg.2 h0)
  have hkq : ((⌊p⌋.toNat : ℕ) : ℚ) = (⌊p⌋ : ℚ) := by exact_mod_cast congrArg (fun z : ℤ => (z : ℚ)) hk
  have get : ∀ i < raw.length, (raw.mergeSort (fun x y => decide (x ≤ y)))[i]? = some (srt raw i) := by
    intro i hi
    unfold srt
    rw [min_eq_left (by omega), List.getD_eq_getElem _ _ (by omega), List.getElem?_eq_getElem (by omega)]
  have hp1 : p ≤ ((raw.length - 1 : ℤ) : ℚ) := by push_cast; exact h1
  have hf : ⌊p⌋ ≤ (raw.length - 1 : ℤ) := by
    have := Int.floor_mono hp1
    rwa [Int.floor_intCast] at this
  have hc : ⌈p⌉ ≤ (raw.length - 1 : ℤ) := Int.ceil_le.2 hp1
  refine ⟨⌊p⌋.toNat, srt raw ⌊p⌋.toNat, get _ (by omega), ?_⟩
  by_cases hp : p = ⌊p⌋
  · left
    refine ⟨by rw [hkq]; exact hp, ?_⟩
    unfold interp; rw [sub_eq_zero.2 hp]; ring
  · right
    have hlt : (⌊p⌋ : ℚ) < p := lt_of_le_of_ne (Int.floor_le p) (Ne.symm hp)
    have hc' : ⌈p⌉ = ⌊p⌋ + 1 := by
      rw [Int.ceil_eq_iff]; push_cast
      exact ⟨by linarith, (Int.lt_floor_add_one p).le⟩
    have hcn : ⌈p⌉.toNat = ⌊p⌋.toNat + 1 := by omega
    refine ⟨srt raw ⌈p⌉.toNat, by rw [← hcn]; exact get _ (by omega), by rw [hkq]; exact hlt,
      by rw [hkq]; exact Int.lt_floor_add_one p, ?_⟩
    rw [hkq]; rfl

/-- A quantile is the value at that relative position of the sorted data. -/
theorem quantile_atPos (raw : List ℚ) (hne : raw ≠ []) (q : ℚ) (hq0 : 0 ≤ q) (hq1 : q ≤ 1) :
    ∃ v, quantile raw q = .ok v ∧
      Spec.AtPos (raw.mergeSort (fun x y => decide (x ≤ y))) (q * ((raw.length : ℚ) - 1)) v := by
  have hpos : 0 < raw.length := List.length_pos_iff.2 hne
  have hn : (1:ℚ) ≤ raw.length := by exact_mod_cast hpos
  exact ⟨_, quantile_eq raw hne q hq1, interp_atPos raw hne _ (mul_nonneg hq0 (by linarith)) (by nlinarith)⟩

/-- `s` is the larger magnitude of the values at the relative positions `(1-q)/2` and `(1+q)/2` of the sorted data. -/
def Spec.QuantileScale (q : ℚ) (data : List ℚ) (s : ℚ) : Prop :=
  ∃ (S : List ℚ) (l u : ℚ), S.Perm data ∧ S.Pairwise (· ≤ ·) ∧
    Spec.AtPos S ((1 - q) / 2 * ((data.length : ℚ) - 1)) l ∧ Spec.AtPos S ((1 + q) / 2 * ((data.length : ℚ) - 1)) u ∧
    s = max |l| |u|

theorem quantileScale_of (raw : List ℚ) (hne : raw ≠ []) (q : ℚ) (hq : 0 < q ∧ q ≤ 1) :
    ∃ l u, quantile raw (1/2 - q/2) = .ok l ∧ quantile raw (1/2 + q/2) = .ok u ∧
      Spec.QuantileScale q raw (max |l| |u|) := by
  obtain ⟨l, el, al⟩ := quantile_atPos raw hne (1/2 - q/2) (by linarith) (by linarith)
  obtain ⟨u, eu, au⟩ := quantile_atPos raw hne (1/2 + q/2) (by linarith) (by linarith)
  refine ⟨l, u, el, eu, _, l, u, List.mergeSort_perm raw (fun x y => decide (x ≤ y)), ?_, ?_, ?_, rfl⟩
  · refine (List.pairwise_mergeSort (le := fun x y => decide (x ≤ y)) (fun a b c h1 h2 => by simp at *; linarith)
      (fun a b => by simp; exact le_total a b) raw).imp fun h => by simpa using h
  · rw [show (1 - q) / 2 = 1/2 - q/2 by ring]; exact al
  · rw [show (1 + q) / 2 = 1/2 + q/2 by ring]; exact au

/-- C09: the complete description: data are clipped to the values at the relative positions `(1-q)/2` and `(1+q)/2` of the sorted data
and divided by the larger magnitude of the two; the only failure is both being zero. -/
theorem C09_exact (q : ℚ) (hq : 0 < q ∧ q ≤ 1) (raw : List ℚ) (hne : raw ≠ []) :
    ∃ (S : List ℚ) (l u : ℚ), S.Perm raw ∧ S.Pairwise (· ≤ ·) ∧
      Spec.AtPos S ((1 - q) / 2 * ((raw.length : ℚ) - 1)) l ∧ Spec.AtPos S ((1 + q) / 2 * ((raw.length : ℚ) - 1)) u ∧
      (l = 0 ∧ u = 0 → rawScale q raw = .error .nonfinite) ∧
      (¬ (l = 0 ∧ u = 0) → rawScale q raw = .ok (raw.map fun x => max l (min x u) / max |l| |u|)) := by
  obtain ⟨l, u, hlu, hl, hu, he⟩ := rawScale_eq q hq raw hne
  have hN : 0 < raw.length := List.length_pos_iff.2 hne
  have hn : (0:ℚ) ≤ (raw.length : ℚ) - 1 := by
    have : (1:ℚ) ≤ raw.length := by exact_mod_cast hN
    linarith
  have hz : max |l| |u| = 0 ↔ l = 0 ∧ u = 0 := by
    constructor
    · intro h
      have h1 := le_max_left |l| |u|
      have h2 := le_max_right |l| |u|
      rw [h] at h1 h2
      exact ⟨abs_eq_zero.1 (le_antisymm h1 (abs_nonneg _)), abs_eq_zero.1 (le_antisymm h2 (abs_nonneg _))⟩
    · rintro ⟨rfl, rfl⟩; simp
  refine ⟨_, l, u, List.mergeSort_perm raw (fun x y => decide (x ≤ y)), ?_, ?_, ?_, fun h => ?_, fun h => ?_⟩
  · refine (List.pairwise_mergeSort (le := fun x y => decide (x ≤ y)) (fun a b c h1 h2 => by simp at *; linarith)
      (fun a b => by simp; exact le_total a b) raw).imp fun h => by simpa using h
  · rw [hl, show (1 - q) / 2 = 1/2 - q/2 by ring]
    exact interp_atPos raw hne _ (mul_nonneg (by linarith [hq.2]) hn) (by nlinarith [hq.1])
  · rw [hu, show (1 + q) / 2 = 1/2 + q/2 by ring]
    exact interp_atPos raw hne _ (mul_nonneg (by linarith [hq.1]) hn) (by nlinarith [hq.2])
  · rw [he, if_pos (hz.2 h)]
  · rw [he, if_neg (fun e => h (hz.1 e))]
    congr 1
    apply List.map_congr_left
    intro x _
    congr 1
    unfold clamp
    rcases le_total x u with h1 | h1
    · rw [min_eq_left h1]
      rcases le_total l x with h2 | h2 <;> simp [h1, h2, hlu]
    · rw [min_eq_right h1, max_eq_right hlu]
      simp [h1, le_trans hlu h1]

/-- Non-vacuity: half of five data points; the bounds are the second and fourth. -/
example : Spec.AtPos [-4, -1, 0, 2, 3] ((1 - 1/2) / 2 * ((5:ℚ) - 1)) (-1) ∧
    Spec.AtPos [-4, -1, 0, 2, 3] ((1 + 1/2) / 2 * ((5:ℚ) - 1)) 2 ∧ Spec.AtPos [-4, -1, 0, 2, 3] (1/2) (-5/2) :=
  ⟨⟨1, -1, rfl, Or.inl ⟨by norm_num, rfl⟩⟩, ⟨3, 2, rfl, Or.inl ⟨by norm_num, rfl⟩⟩,
    ⟨0, -4, rfl, Or.inr ⟨-1, rfl, by norm_num, by norm_num, by norm_num⟩⟩⟩

/-- C09: outputs are legal unary data, scaling is the same order preserving function of every
element, bounds lie inside the data range, and the only failure is both bounds being zero. -/
theorem C09_legal (q : ℚ) (hq : 0 < q ∧ q ≤ 1) (raw : List ℚ) (hne : raw ≠ []) :
    rawScale q raw = .error .nonfinite ∨
    ∃ f : ℚ → ℚ, rawScale q raw = .ok (raw.map f) ∧ Monotone f ∧ (∀ x, |f x| ≤ 1) ∧
      ∃ l u s : ℚ, 0 < s ∧ l ≤ u ∧ (∃ a ∈ raw, a ≤ l) ∧ (∃ b ∈ raw, u ≤ b) ∧
        (∀ x, l ≤ x → x ≤ u → f x = x / s) ∧ (∀ x, x ≤ l → f x = l / s) ∧ (∀ x, u ≤ x → f x = u / s) ∧
        q * ((raw.length : ℚ) - 1) - 1 < (raw.filter fun x => l ≤ x ∧ x ≤ u).length := by
  obtain ⟨l, u, hlu, hl, hu, he⟩ := rawScale_eq q hq raw hne
  by_cases hs : max |l| |u| = 0
  · left; rw [he, if_pos hs]
  right
  have hpos : 0 < max |l| |u| := lt_of_le_of_ne (le_max_of_le_left (abs_nonneg _)) (Ne.symm hs)
  have hN : 0 < raw.length := List.length_pos_iff.2 hne
  have hn : (1:ℚ) ≤ raw.length := by exact_mod_cast hN
  refine ⟨fun x => clamp l u x / max |l| |u|, by rw [he, if_neg hs], ?_, ?_, l, u, max |l| |u|, hpos, hlu, ?_, ?_, ?_, ?_, ?_, ?_⟩
  · intro x y hxy
    exact div_le_div_of_nonneg_right (clamp_mono hxy) hpos.le
  · intro x
    show abs (clamp l u x / max |l| |u|) ≤ 1
    rw [abs_div, abs_of_pos hpos, div_le_one hpos, abs_le]
    have h1 := le_clamp (x := x) hlu
    have h2 := clamp_le l u x
    have h3 := neg_abs_le l
    have h4 := le_abs_self u
    have h5 := le_max_left |l| |u|
    have h6 := le_max_right |l| |u|
    constructor <;> linarith
  · refine ⟨srt raw 0, srt_in 0 hN, ?_⟩
    rw [hl]
    exact le_trans (srt_mono raw (Nat.zero_le _)) (interp_between _ (srt_mono raw) _).1
  · refine ⟨srt raw (raw.length - 1), srt_in _ (by omega), ?_⟩
    rw [hu]
    refine le_trans (interp_between _ (srt_mono raw) _).2 (srt_mono raw ?_)
    have hc : ⌈(1/2 + q/2) * ((raw.length : ℚ) - 1)⌉ ≤ (raw.length - 1 : ℤ) := by
      rw [Int.ceil_le]; push_cast; nlinarith [hq.2]
    omega
  · intro x h1 h2
    show clamp l u x / _ = _
    rw [clamp_of_mem h1 h2]
  · intro x h1
    show clamp l u x / _ = _
    rw [clamp_of_le hlu h1]
  · intro x h1
    show clamp l u x / _ = _
    rw [clamp_of_ge h1]
  · set pl := (1/2 - q/2) * ((raw.length : ℚ) - 1) with hpl
    set pu := (1/2 + q/2) * ((raw.length : ℚ) - 1) with hpu
    set a := ⌈pl⌉.toNat with ha
    set b := ⌊pu⌋.toNat with hb
    have hpl0 : 0 ≤ pl := mul_nonneg (by linarith [hq.2]) (by linarith)
    have hpu0 : 0 ≤ pu := mul_nonneg (by linarith [hq.1]) (by linarith)
    have ha' : (a : ℤ) = ⌈pl⌉ := Int.toNat_of_nonneg (Int.ceil_nonneg hpl0)
    have hb' : (b : ℤ) = ⌊pu⌋ := Int.toNat_of_nonneg (Int.floor_nonneg.2 hpu0)
    have haq : (a : ℚ) < pl + 1 := by
      have : ((a:ℤ):ℚ) < pl + 1 := by rw [ha']; exact Int.ceil_lt_add_one _
      exact_mod_cast this
    have hbq : pu < (b : ℚ) + 1 := by
      have : pu < ((b:ℤ):ℚ) + 1 := by rw [hb']; exact Int.lt_floor_add_one _
      exact_mod_cast this
    have hbn : b < raw.length := by
      have : ⌊pu⌋ ≤ (raw.length - 1 : ℤ) := by
        have h2 : pu ≤ ((raw.length - 1 : ℤ) : ℚ) := by push_cast; rw [hpu]; nlinarith [hq.2]
        have := Int.floor_mono h2
        rwa [Int.floor_intCast] at this
      omega
    have hdiff : pu - pl = q * ((raw.length : ℚ) - 1) := by rw [hpu, hpl]; ring
    -- the sorted positions a..b survive
    have hp := List.mergeSort_perm raw (fun x y => decide (x ≤ y))
    have hcount : b + 1 - a ≤ (raw.filter fun x => l ≤ x ∧ x ≤ u).length := by
      rw [← (hp.filter _).length_eq]
      set S := raw.mergeSort (fun x y => decide (x ≤ y)) with hS
      have hSl : S.length = raw.length := hp.length_eq
      have hsub : ((S.drop a).take (b + 1 - a)).Sublist S := (List.take_sublist _ _).trans (List.drop_sublist _ _)
      have hf : ((S.drop a).take (b + 1 - a)).filter (fun x => decide (l ≤ x ∧ x ≤ u)) = (S.drop a).take (b + 1 - a) := by
        rw [List.filter_eq_self]
        intro x hx
        obtain ⟨i, hi, rfl⟩ := List.getElem_of_mem hx
        have hi' : i < b + 1 - a ∧ a + i < S.length := by simp at hi; omega
        have hval : ((S.drop a).take (b + 1 - a))[i] = srt raw (a + i) := by
          unfold srt
          rw [← hS, min_eq_left (by omega), List.getD_eq_getElem _ _ hi'.2]
          simp
        rw [hval]
        simp only [decide_eq_true_eq]
        constructor
        · rw [hl]
          exact le_trans (interp_between _ (srt_mono raw) _).2 (srt_mono raw (by omega))
        · rw [hu]
          exact le_trans (srt_mono raw (by omega)) (interp_between _ (srt_mono raw) _).1
      have := (hsub.filter (fun x => decide (l ≤ x ∧ x ≤ u))).length_le
      rw [hf, List.length_take, List.length_drop] at this
      omega
    rcases Nat.lt_or_ge (b + 1) a with hlt | hge
    · have h1 : (b:ℚ) + 1 + 1 ≤ a := by exact_mod_cast hlt
      have h2 : (0:ℚ) ≤ (raw.filter fun x => decide (l ≤ x ∧ x ≤ u)).length := by positivity
      linarith
    · have h1 : ((b + 1 - a : ℕ) : ℚ) ≤ (raw.filter fun x => decide (l ≤ x ∧ x ≤ u)).length := by exact_mod_cast hcount
      rw [Nat.cast_sub hge] at h1; push_cast at h1
      linarith

/-- C09: with quantile one the result is the data divided by the largest magnitude, and some
output has magnitude one. -/
theorem C09_full (raw : List ℚ) (M : ℚ) (hM : 0 < M) (hub : ∀ x ∈ raw, |x| ≤ M) (hat : ∃ x ∈ raw, |x| = M) :
    rawScale 1 raw = .ok (raw.map (· / M)) ∧ ∃ x ∈ raw, |x / M| = 1 := by
  obtain ⟨x0, hx0, hxM⟩ := hat
  have hne : raw ≠ [] := List.ne_nil_of_mem hx0
  have hN : 0 < raw.length := List.length_pos_iff.2 hne
  obtain ⟨l, u, hlu, hl, hu, he⟩ := rawScale_eq 1 ⟨by norm_num, le_refl _⟩ raw hne
  have hl' : l = srt raw 0 := by rw [hl]; norm_num [interp]
  have hu' : u = srt raw (raw.length - 1) := by
    have e1 : (1/2 + 1/2) * ((raw.length : ℚ) - 1) = ((raw.length - 1 : ℤ) : ℚ) := by push_cast; ring
    rw [hu, e1]; unfold interp
    rw [Int.floor_intCast, Int.ceil_intCast]
    have : ((raw.length : ℤ) - 1).toNat = raw.length - 1 := by omega
    rw [this]; ring
  have hin : ∀ x ∈ raw, l ≤ x ∧ x ≤ u := by
    intro x hx
    obtain ⟨i, hi, rfl⟩ := srt_mem hx
    rw [hl', hu']
    exact ⟨srt_mono raw (Nat.zero_le _), srt_mono raw (by omega)⟩
  have hmem_l : l ∈ raw := by rw [hl']; exact srt_in 0 hN
  have hmem_u : u ∈ raw := by rw [hu']; exact srt_in _ (by omega)
  have hmax : max |l| |u| = M := by
    apply le_antisymm (max_le (hub l hmem_l) (hub u hmem_u))
    rw [← hxM]
    obtain ⟨h1, h2⟩ := hin x0 hx0
    rcases le_total 0 x0 with h | h
    · rw [abs_of_nonneg h]; exact le_max_of_le_right (le_trans h2 (le_abs_self u))
    · rw [abs_of_nonpos h]; exact le_max_of_le_left (le_trans (by linarith) (neg_le_abs l))
  refine ⟨?_, x0, hx0, by rw [abs_div, hxM, abs_of_pos hM, div_self hM.ne']⟩
  rw [he, hmax, if_neg hM.ne']
  congr 1
  apply List.map_congr_left
  intro x hx
  rw [clamp_of_mem (hin x hx).1 (hin x hx).2]

/-- C09: constant zero data have no finite scaled version. -/
theorem C09_zero (q : ℚ) (hq : 0 < q ∧ q ≤ 1) (raw : List ℚ) (hne : raw ≠ []) (h : ∀ x ∈ raw, x = 0) :
    rawScale q raw = .error .nonfinite := by
  rcases C09_legal q hq raw hne with h1 | ⟨f, -, -, -, l, u, s, hs, hlu, ⟨a, ha, hal⟩, ⟨b, hb, hub⟩, -⟩
  · exact h1
  · obtain ⟨l', u', hlu', hl, hu, he⟩ := rawScale_eq q hq raw hne
    have hz : ∀ i, srt raw i = 0 := by
      intro i
      have hN : 0 < raw.length := List.length_pos_iff.2 hne
      have : srt raw i = srt raw (min i (raw.length - 1)) := by
        unfold srt; congr 1; omega
      rw [this]; exact h _ (srt_in _ (by omega))
    have h0 : ∀ p, interp (srt raw) p = 0 := by intro p; unfold interp; simp [hz]
    rw [h0] at hl hu
    rw [he, hl, hu]; simp

/-- Sparse data too: with a quantile below one, one non-zero element among many zeros makes both
bounds zero, so data that are not constant have no finite scaled version either. -/
theorem C09_sparse (n : ℕ) (hn : 10 ≤ n) :
    rawScale (1/2) (List.replicate n 0 ++ [1]) = .error .nonfinite := by
  obtain ⟨l, u, hlu, hl, hu, he⟩ := rawScale_eq (1/2) (by norm_num) (List.replicate n 0 ++ [1]) (by simp)
  have hsort : (List.replicate n (0:ℚ) ++ [1]).mergeSort (fun x y => decide (x ≤ y)) = List.replicate n 0 ++ [1] := by
    apply List.mergeSort_of_pairwise
    rw [List.pairwise_append]
    refine ⟨?_, by simp, ?_⟩
    · rw [List.pairwise_replicate]; right; simp
    · intro a ha b hb; rw [List.mem_replicate] at ha; simp at hb; rw [ha.2, hb]; simp
  have hz : ∀ i < n, srt (List.replicate n (0:ℚ) ++ [1]) i = 0 := by
    intro i hi
    unfold srt
    rw [hsort, min_eq_left (by simp; omega), List.getD_append _ _ _ _ (by simpa using hi)]
    simp [List.getD_eq_getElem?_getD, hi]
  have h0 : ∀ p : ℚ, p ≤ n - 1 → interp (srt (List.replicate n (0:ℚ) ++ [1])) p = 0 := by
    intro p hp
    have hc : ⌈p⌉ ≤ (n - 1 : ℤ) := by rw [Int.ceil_le]; push_cast; exact hp
    have hf : ⌊p⌋ ≤ ⌈p⌉ := Int.floor_le_ceil p
    unfold interp
    rw [hz _ (by omega), hz _ (by omega)]; ring
  have hnq : (10:ℚ) ≤ n := by exact_mod_cast hn
  have hlen : ((List.replicate n (0:ℚ) ++ [1]).length : ℚ) = n + 1 := by simp
  rw [hlen] at hl hu
  rw [h0 _ (by nlinarith)] at hl
  rw [h0 _ (by nlinarith)] at hu
  rw [he, hl, hu]; simp

example : (0:ℚ) < 3 ∧ (∀ x ∈ [1, -3, (2:ℚ)], |x| ≤ 3) ∧ ∃ x ∈ [1, -3, (2:ℚ)], |x| = 3 := by
  refine ⟨by norm_num, by simp [abs_of_nonneg, abs_of_nonpos]; norm_num, -3, by simp, by norm_num⟩

end Verif.Props
