import Verif.Spec
import Verif.Model.Linear
import Verif.Props.RawScale
import Mathlib.Data.Int.Log

/-!
# Property C58: `rshift_offset`
-/

namespace Verif.Props

open Verif Linear Gen

/-- `2^m` is the power of two that the rounding mode picks for the scale `s`: the largest below, the smallest
above, or the geometrically nearest one. -/
def Spec.PickedPow (rounding : String) (m : ℤ) (s : ℚ) : Prop :=
  (rounding = "floor" ∧ (2:ℚ) ^ m ≤ s ∧ s < (2:ℚ) ^ (m + 1)) ∨
  (rounding = "ceil" ∧ (2:ℚ) ^ (m - 1) < s ∧ s ≤ (2:ℚ) ^ m) ∨
  (rounding = "round" ∧ 0 < s ∧ (2:ℚ) ^ (2 * m - 1) ≤ s ^ 2 ∧ s ^ 2 < (2:ℚ) ^ (2 * m + 1))

private theorem log2Rounded_ok (r : String) (hr : r ∈ ["round", "ceil", "floor"]) (s : ℚ) (hs : 0 < s) :
    ∃ m, Utils.log2Rounded r s = .ok m ∧ Spec.PickedPow r m s := by
  unfold Utils.log2Rounded
  rw [if_neg (by linarith)]
  simp only [List.mem_cons, List.not_mem_nil, or_false] at hr
  rcases hr with rfl | rfl | rfl
  · refine ⟨_, if_pos rfl, Or.inr (Or.inr ⟨rfl, hs, ?_⟩)⟩
    set k := Int.log 2 (2 * s ^ 2) with hk
    have h1 := Int.zpow_log_le_self (b := 2) (R := ℚ) (by norm_num) (r := 2 * s ^ 2) (by positivity)
    have h2 := Int.lt_zpow_succ_log_self (b := 2) (R := ℚ) (by norm_num) (2 * s ^ 2)
    rw [← hk] at h1 h2
    push_cast at h1 h2
    have h3 : (2:ℚ) ^ (2 * (k / 2)) ≤ (2:ℚ) ^ k := zpow_le_zpow_right₀ (by norm_num) (by omega)
    have h4 : (2:ℚ) ^ (k + 1) ≤ (2:ℚ) ^ (2 * (k / 2) + 2) := zpow_le_zpow_right₀ (by norm_num) (by omega)
    rw [zpow_sub₀ (by norm_num), zpow_add₀ (by norm_num), zpow_one]
    rw [zpow_add₀ (by norm_num) _ 2] at h4
    constructor <;> linarith
  · refine ⟨_, by rw [if_neg (by decide), if_neg (by decide), if_pos rfl], Or.inr (Or.inl ⟨rfl, ?_, ?_⟩)⟩
    · have := Int.zpow_pred_clog_lt_self (b := 2) (R := ℚ) (by norm_num) hs; exact_mod_cast this
    · have := Int.self_le_zpow_clog (b := 2) (R := ℚ) (by norm_num) s; exact_mod_cast this
  · refine ⟨_, by rw [if_neg (by decide), if_pos rfl], Or.inl ⟨rfl, ?_, ?_⟩⟩
    · have := Int.zpow_log_le_self (b := 2) (R := ℚ) (by norm_num) hs; exact_mod_cast this
    · have := Int.lt_zpow_succ_log_self (b := 2) (R := ℚ) (by norm_num) s; exact_mod_cast this

/-- `M` is the largest magnitude in the data. -/
def Spec.MaxAbs (M : ℚ) (data : List ℚ) : Prop := (∀ x ∈ data, |x| ≤ M) ∧ ∃ x ∈ data, |x| = M

private theorem MaxAbs.ne_nil {M : ℚ} {d : List ℚ} (h : Spec.MaxAbs M d) : d ≠ [] := by
  obtain ⟨-, x, hx, -⟩ := h; exact List.ne_nil_of_mem hx

theorem qscale_full {M : ℚ} {d : List ℚ} (h : Spec.MaxAbs M d) : qscale d 1 = .ok M := by
  obtain ⟨⟨v0, m0, e0, b0⟩, ⟨v1, m1, e1, b1⟩⟩ := quantile_ends d (MaxAbs.ne_nil h)
  have a1 : quantile d (1/2 + 1/2) = .ok v1 := by norm_num; exact e1
  have a0 : quantile d (1/2 - 1/2) = .ok v0 := by norm_num; exact e0
  unfold qscale
  rw [a1, a0]
  show Except.ok (max |v1| |v0|) = _
  congr 1
  apply le_antisymm
  · exact max_le (h.1 _ m1) (h.1 _ m0)
  · obtain ⟨x, hx, hM⟩ := h.2
    rw [← hM]
    have := b0 x hx; have := b1 x hx
    rw [le_max_iff]
    rcases le_total 0 x with h0 | h0
    · left; rw [abs_le]
      have := le_abs_self v1
      constructor <;> linarith
    · right; rw [abs_le]
      have := neg_abs_le v0
      constructor <;> linarith

private theorem qscale_ok {M : ℚ} {d : List ℚ} (h : Spec.MaxAbs M d) (q : ℚ) (hq : 0 < q ∧ q ≤ 1) :
    ∃ s, qscale d q = .ok s ∧ 0 ≤ s ∧ s ≤ M ∧ Spec.QuantileScale q d s := by
  have hne := MaxAbs.ne_nil h
  obtain ⟨u, eu, ⟨a, ha, hau⟩, ⟨b, hb, hbu⟩⟩ := quantile_between d hne (1/2 + q/2) (by linarith) (by linarith)
  obtain ⟨l, el, ⟨c, hc, hcl⟩, ⟨e, he, hel⟩⟩ := quantile_between d hne (1/2 - q/2) (by linarith) (by linarith)
  obtain ⟨l', u', el', eu', hs⟩ := quantileScale_of d hne q hq
  obtain rfl : l = l' := Except.ok.inj (el.symm.trans el')
  obtain rfl : u = u' := Except.ok.inj (eu.symm.trans eu')
  refine ⟨max |u| |l|, ?_, le_max_of_le_left (abs_nonneg _), ?_, by rw [max_comm]; exact hs⟩
  · unfold qscale; rw [eu, el]; rfl
  · have := abs_le.1 (h.1 a ha); have := abs_le.1 (h.1 b hb)
    have := abs_le.1 (h.1 c hc); have := abs_le.1 (h.1 e he)
    apply max_le <;> rw [abs_le] <;> constructor <;> linarith

/-- C58: with quantile one, input and weight are shifted so that the power of two picked for their largest
magnitude becomes `2^width`, and the output shift undoes the sum of both up to the larger width. -/
theorem C58_full {I J O : ℕ} (x : List (Fin I → ℚ)) (w : Fin O → Fin J → ℚ) (wi ww : ℤ) (r : String)
    (hr : r ∈ ["round", "ceil", "floor"]) (M N : ℚ) (hM : 0 < M) (hN : 0 < N)
    (hx : Spec.MaxAbs M (x.flatMap List.ofFn)) (hw : Spec.MaxAbs N ((List.ofFn w).flatMap List.ofFn)) :
    ∃ im wm, Spec.PickedPow r im M ∧ Spec.PickedPow r wm N ∧
      rshift x w wi ww r 1 1 = .ok (im - wi, wm - ww, max wi ww - im - wm) := by
  obtain ⟨im, e1, h1⟩ := log2Rounded_ok r hr M hM
  obtain ⟨wm, e2, h2⟩ := log2Rounded_ok r hr N hN
  refine ⟨im, wm, h1, h2, ?_⟩
  have a1 : qscale (flat x) 1 = .ok M := qscale_full hx
  have a2 : qscale (flat (List.ofFn w)) 1 = .ok N := qscale_full hw
  unfold rshift
  rw [a1, a2]
  show Utils.rshiftOffset M N wi ww r = _
  unfold Utils.rshiftOffset
  rw [e1, e2]; rfl

/-- C58: with any quantiles the same holds for the scales, which are the larger magnitudes of the two quantile bounds; there is no finite
result exactly when a scale is zero. -/
theorem C58_quantile {I J O : ℕ} (x : List (Fin I → ℚ)) (w : Fin O → Fin J → ℚ) (wi ww : ℤ) (r : String)
    (hr : r ∈ ["round", "ceil", "floor"]) (qi qw : ℚ) (hqi : 0 < qi ∧ qi ≤ 1) (hqw : 0 < qw ∧ qw ≤ 1) (M N : ℚ)
    (hx : Spec.MaxAbs M (x.flatMap List.ofFn)) (hw : Spec.MaxAbs N ((List.ofFn w).flatMap List.ofFn)) :
    ∃ si sw, 0 ≤ si ∧ si ≤ M ∧ 0 ≤ sw ∧ sw ≤ N ∧ Spec.QuantileScale qi (x.flatMap List.ofFn) si ∧
      Spec.QuantileScale qw ((List.ofFn w).flatMap List.ofFn) sw ∧
      (si = 0 ∨ sw = 0 → rshift x w wi ww r qi qw = .error .nonfinite) ∧
      (0 < si → 0 < sw → ∃ im wm, Spec.PickedPow r im si ∧ Spec.PickedPow r wm sw ∧
        rshift x w wi ww r qi qw = .ok (im - wi, wm - ww, max wi ww - im - wm)) := by
  obtain ⟨si, a1, b1, c1, d1⟩ := qscale_ok hx qi hqi
  obtain ⟨sw, a2, b2, c2, d2⟩ := qscale_ok hw qw hqw
  have he : rshift x w wi ww r qi qw = Utils.rshiftOffset si sw wi ww r := by
    have a1' : qscale (flat x) qi = .ok si := a1
    have a2' : qscale (flat (List.ofFn w)) qw = .ok sw := a2
    unfold rshift; rw [a1', a2']; rfl
  have hbad : ∀ s : ℚ, s ≤ 0 → Utils.log2Rounded r s = .error .nonfinite := fun s hs => by
    unfold Utils.log2Rounded; rw [if_pos hs]
  refine ⟨si, sw, b1, c1, b2, c2, d1, d2, fun h => ?_, fun h1 h2 => ?_⟩
  · rw [he]; unfold Utils.rshiftOffset
    rcases lt_or_eq_of_le b1 with h1 | h1
    · obtain ⟨im, e1, p1⟩ := log2Rounded_ok r hr si h1
      rw [e1, hbad sw (by rcases h with h | h <;> linarith)]; rfl
    · rw [hbad si (by linarith)]; rfl
  · obtain ⟨im, e1, p1⟩ := log2Rounded_ok r hr si h1
    obtain ⟨wm, e2, p2⟩ := log2Rounded_ok r hr sw h2
    exact ⟨im, wm, p1, p2, by rw [he]; unfold Utils.rshiftOffset; rw [e1, e2]; rfl⟩

/-- C58: the quantile scale is determined by the data. -/
theorem C58_scale_unique (q : ℚ) (data : List ℚ) (s s' : ℚ) (h : Spec.QuantileScale q data s)
    (h' : Spec.QuantileScale q data s') : s = s' := by
  obtain ⟨S, l, u, p, o, al, au, rfl⟩ := h
  obtain ⟨S', l', u', p', o', al', au', rfl⟩ := h'
  obtain rfl : S = S' := (p.trans p'.symm).eq_of_pairwise (fun a b _ _ h1 h2 => le_antisymm h1 h2) o o'
  have key : ∀ (p v v' : ℚ), Spec.AtPos S p v → Spec.AtPos S p v' → v = v' := by
    rintro p v v' ⟨k, a, ha, h⟩ ⟨k', a', ha', h'⟩
    have nat : ∀ m n : ℕ, (m:ℚ) < n + 1 → m ≤ n := fun m n h => by
      have : m < n + 1 := by exact_mod_cast h
      omega
    have hk : k = k' := by
      rcases h with ⟨e, -⟩ | ⟨b, -, e1, e2, -⟩ <;> rcases h' with ⟨e', -⟩ | ⟨b', -, e1', e2', -⟩
      · exact_mod_cast e.symm.trans e'
      · have := nat k k' (by linarith); have : k' < k := by exact_mod_cast (by linarith : (k':ℚ) < k)
        omega
      · have := nat k' k (by linarith); have : k < k' := by exact_mod_cast (by linarith : (k:ℚ) < k')
        omega
      · exact le_antisymm (nat _ _ (by linarith)) (nat _ _ (by linarith))
    subst hk
    obtain rfl : a = a' := Option.some.inj (ha.symm.trans ha')
    rcases h with ⟨e, rfl⟩ | ⟨b, hb, e1, e2, rfl⟩ <;> rcases h' with ⟨e', rfl⟩ | ⟨b', hb', e1', e2', rfl⟩
    · rfl
    · linarith
    · linarith
    · obtain rfl : b = b' := Option.some.inj (hb.symm.trans hb'); rfl
  rw [key _ _ _ al al', key _ _ _ au au']

/-- C58: all-zero input (or weight) has no finite shift. -/
theorem C58_zero {I J O : ℕ} (x : List (Fin I → ℚ)) (w : Fin O → Fin J → ℚ) (wi ww : ℤ) (r : String)
    (hr : r ∈ ["round", "ceil", "floor"]) (qi qw : ℚ) (hqi : 0 < qi ∧ qi ≤ 1) (hqw : 0 < qw ∧ qw ≤ 1) (M N : ℚ)
    (hx : Spec.MaxAbs M (x.flatMap List.ofFn)) (hw : Spec.MaxAbs N ((List.ofFn w).flatMap List.ofFn))
    (h : M = 0 ∨ N = 0) : rshift x w wi ww r qi qw = .error .nonfinite := by
  obtain ⟨si, sw, h1, h2, h3, h4, -, -, h5, -⟩ := C58_quantile x w wi ww r hr qi qw hqi hqw M N hx hw
  exact h5 (by rcases h with h | h <;> [left; right] <;> linarith)

/-- The picked exponent is unique, so the three modes are determined by `Spec.PickedPow`. -/
theorem C58_unique (r : String) (m k : ℤ) (s : ℚ) (h1 : Spec.PickedPow r m s) (h2 : Spec.PickedPow r k s) : m = k := by
  have key : ∀ a b : ℤ, (2:ℚ) ^ a < (2:ℚ) ^ b → a < b := fun a b h => (zpow_lt_zpow_iff_right₀ (by norm_num)).1 h
  rcases h1 with ⟨rfl, a, b⟩ | ⟨rfl, a, b⟩ | ⟨rfl, -, a, b⟩ <;>
    rcases h2 with ⟨hr, c, d⟩ | ⟨hr, c, d⟩ | ⟨hr, -, c, d⟩ <;> first | (exact absurd hr (by decide)) | skip
  · have := key _ _ (lt_of_le_of_lt a d); have := key _ _ (lt_of_le_of_lt c b); omega
  · have := key _ _ (lt_of_lt_of_le a d); have := key _ _ (lt_of_lt_of_le c b); omega
  · have := key _ _ (lt_of_le_of_lt a d); have := key _ _ (lt_of_le_of_lt c b); omega

/-- How far the largest magnitude exceeds the picked power: not at all (`ceil`), by less than `√2` (`round`),
by less than `2` (`floor`). -/
theorem C58_overshoot (r : String) (m : ℤ) (s : ℚ) (hs : 0 ≤ s) (h : Spec.PickedPow r m s) :
    (r = "ceil" → s ≤ (2:ℚ) ^ m) ∧ (r = "round" → s ^ 2 < 2 * ((2:ℚ) ^ m) ^ 2) ∧ s < 2 * (2:ℚ) ^ m := by
  have hp : (0:ℚ) < (2:ℚ) ^ m := zpow_pos (by norm_num) m
  have e1 : (2:ℚ) ^ (m + 1) = 2 * (2:ℚ) ^ m := by rw [zpow_add₀ (by norm_num), zpow_one]; ring
  have e2 : (2:ℚ) ^ (2 * m + 1) = 2 * ((2:ℚ) ^ m) ^ 2 := by
    rw [zpow_add₀ (by norm_num), zpow_one, two_mul, zpow_add₀ (by norm_num)]; ring
  rcases h with ⟨rfl, a, b⟩ | ⟨rfl, a, b⟩ | ⟨rfl, -, a, b⟩
  · refine ⟨fun h => absurd h (by decide), fun h => absurd h (by decide), by rw [← e1]; exact b⟩
  · exact ⟨fun _ => b, fun h => absurd h (by decide), by linarith⟩
  · rw [e2] at b
    refine ⟨fun h => absurd h (by decide), fun _ => b, ?_⟩
    nlinarith

/-- Non-vacuity: largest magnitude 3 among two rows, all three modes. -/
example : Spec.MaxAbs 3 (([fun i => if i = 0 then 1 else -3, fun _ => 2] : List (Fin 2 → ℚ)).flatMap List.ofFn) := by
  constructor
  · intro x hx
    simp at hx
    rcases hx with h | h | h <;> rw [h] <;> norm_num
  · exact ⟨-3, by simp, by norm_num⟩
example : Spec.PickedPow "floor" 1 3 ∧ Spec.PickedPow "ceil" 2 3 ∧ Spec.PickedPow "round" 2 3 := by
  refine ⟨Or.inl ⟨rfl, by norm_num, by norm_num⟩, Or.inr (Or.inl ⟨rfl, by norm_num, by norm_num⟩),
    Or.inr (Or.inr ⟨rfl, by norm_num, by norm_num, by norm_num⟩)⟩

end Verif.Props
