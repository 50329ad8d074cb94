import Verif.Props.Div
import Verif.Props.Small

/-!
# Property C83: the bipolar `FSUDiv`
-/

namespace Verif.Props

open Verif Finset Small Shuffle Divider
open Verif.Spec (walk runMax BitStream ones)

/-- The unipolar magnitude of a bipolar stream: `Bi2Uni` (depth 3) behind the absolute-value output of `FSUSignAbs`. -/
def magOut (dsa : ℤ) (x : ℕ → ℤ) : ℕ → ℤ := b2uOut 3 (absOut dsa x)

private theorem mag_bits (dsa : ℤ) (x : ℕ → ℤ) : BitStream (magOut dsa x) := fun t => (C12_bits 3 (absOut dsa x) t).1

/-- The unipolar part of a call does not look at the sign and conversion counters and leaves them alone. -/
private theorem uni_frame {dss e : ℕ} {rng : List ℤ} {sh : List ℕ} (s : St) (i : ℤ × ℤ) (s' : St) (q : ℤ)
    (h : uniStep dss e rng sh s i = .ok (s', q)) (a b c d u : ℚ) :
    uniStep dss e rng sh ⟨a, b, c, d, u, s.ss, s.cor⟩ i = .ok (⟨a, b, c, d, u, s'.ss, s'.cor⟩, q) := by
  rw [uniStep_eq] at h ⊢
  show (corStep e rng s.cor (ssStep dss s.ss (sh, i)).2 >>= _) = _
  cases hc : corStep e rng s.cor (ssStep dss s.ss (sh, i)).2 with
  | error e => rw [hc] at h; cases h
  | ok p =>
      rw [hc] at h
      cases h
      rfl

private theorem step_of_out {S I O : Type} {step : S → I → Except PyErr (S × O)} {s0 : S} {x : ℕ → I} {t : ℕ}
    {s : S} {o : O} (h : stateAtE step s0 x t = .ok s) (ho : outAtE step s0 x t = .ok o) :
    ∃ s', step s (x t) = .ok (s', o) := by
  simp only [outAtE] at ho
  rw [h] at ho
  have ho' : (step s (x t) >>= fun r => pure r.2) = .ok o := ho
  cases hc : step s (x t) with
  | error e => rw [hc] at ho'; cases ho'
  | ok p => rw [hc] at ho'; cases ho'; exact ⟨p.1, rfl⟩

/-- C83: the bipolar divider never fails; its output is the sign of the dividend XOR the sign of the divisor XOR the
unipolar quotient of the two magnitudes turned back into a bipolar stream. -/
theorem C83_composition {w : ℕ} {rng : List ℤ} (h : Verif.Spec.IsPermSeq w rng) (dsa : ℤ) (dss : ℕ) (sh : List ℕ)
    (x y : ℕ → ℤ) :
    ∃ q : ℕ → ℤ, BitStream q ∧
      (∀ t, divOut .unipolar dsa dss (2 ^ w) rng sh (magOut dsa x) (magOut dsa y) t = .ok (q t)) ∧
      ∀ t, divOut .bipolar dsa dss (2 ^ w) rng sh x y t
        = .ok (Int.xor (Int.xor (signOut dsa x t) (signOut dsa y t)) (u2bOut 4 q t)) := by
  have hall := fun t => C35_bits h .unipolar dsa dss sh (y := magOut dsa y) (mag_bits dsa x) t
  choose q hq using hall
  refine ⟨q, fun t => (hq t).2, fun t => (hq t).1, ?_⟩
  have stp : ∀ (n : ℕ) (s : St),
      stateAtE (Divider.step .unipolar dsa dss (2 ^ w) rng sh) (Divider.init dsa (2 ^ w))
        (fun t => (magOut dsa x t, magOut dsa y t)) n = .ok s →
      ∃ s' : St, stateAtE (Divider.step .unipolar dsa dss (2 ^ w) rng sh) (Divider.init dsa (2 ^ w))
        (fun t => (magOut dsa x t, magOut dsa y t)) (n + 1) = .ok s' ∧
      Divider.step .bipolar dsa dss (2 ^ w) rng sh
        ⟨stateAt (signAbsStep dsa) (accHalf dsa) x n, stateAt (signAbsStep dsa) (accHalf dsa) y n,
          stateAt (bi2uniStep 3) 0 (absOut dsa x) n, stateAt (bi2uniStep 3) 0 (absOut dsa y) n,
          stateAt (uni2biStep 4) 0 q n, s.ss, s.cor⟩ (x n, y n)
        = .ok (⟨stateAt (signAbsStep dsa) (accHalf dsa) x (n + 1), stateAt (signAbsStep dsa) (accHalf dsa) y (n + 1),
          stateAt (bi2uniStep 3) 0 (absOut dsa x) (n + 1), stateAt (bi2uniStep 3) 0 (absOut dsa y) (n + 1),
          stateAt (uni2biStep 4) 0 q (n + 1), s'.ss, s'.cor⟩,
          Int.xor (Int.xor (signOut dsa x n) (signOut dsa y n)) (u2bOut 4 q n)) := by
    intro n s hs
    obtain ⟨s', hs'⟩ := step_of_out hs (hq n).1
    refine ⟨s', stateAtE_succ_ok hs hs', ?_⟩
    show biStep dsa dss (2 ^ w) rng sh _ (x n, y n) = _
    rw [biStep_eq]
    have hu : uniStep dss (2 ^ w) rng sh s (magOut dsa x n, magOut dsa y n) = .ok (s', q n) := hs'
    have hf := uni_frame s _ s' (q n) hu (stateAt (signAbsStep dsa) (accHalf dsa) x (n + 1))
      (stateAt (signAbsStep dsa) (accHalf dsa) y (n + 1)) (stateAt (bi2uniStep 3) 0 (absOut dsa x) (n + 1))
      (stateAt (bi2uniStep 3) 0 (absOut dsa y) (n + 1)) (stateAt (uni2biStep 4) 0 q n)
    show (uniStep dss (2 ^ w) rng sh ⟨stateAt (signAbsStep dsa) (accHalf dsa) x (n + 1),
      stateAt (signAbsStep dsa) (accHalf dsa) y (n + 1), stateAt (bi2uniStep 3) 0 (absOut dsa x) (n + 1),
      stateAt (bi2uniStep 3) 0 (absOut dsa y) (n + 1), stateAt (uni2biStep 4) 0 q n, s.ss, s.cor⟩
      (magOut dsa x n, magOut dsa y n) >>= _) = _
    rw [hf]
    rfl
  have key : ∀ n, ∃ s, stateAtE (Divider.step .unipolar dsa dss (2 ^ w) rng sh) (Divider.init dsa (2 ^ w))
        (fun t => (magOut dsa x t, magOut dsa y t)) n = .ok s ∧
      stateAtE (Divider.step .bipolar dsa dss (2 ^ w) rng sh) (Divider.init dsa (2 ^ w)) (fun t => (x t, y t)) n
        = .ok ⟨stateAt (signAbsStep dsa) (accHalf dsa) x n, stateAt (signAbsStep dsa) (accHalf dsa) y n,
          stateAt (bi2uniStep 3) 0 (absOut dsa x) n, stateAt (bi2uniStep 3) 0 (absOut dsa y) n,
          stateAt (uni2biStep 4) 0 q n, s.ss, s.cor⟩ := by
    intro n
    induction n with
    | zero => exact ⟨_, rfl, rfl⟩
    | succ n ih =>
        obtain ⟨s, h1, h2⟩ := ih
        obtain ⟨s', h3, h4⟩ := stp n s h1
        exact ⟨s', h3, stateAtE_succ_ok h2 h4⟩
  intro t
  obtain ⟨s, h1, h2⟩ := key t
  obtain ⟨s', -, h4⟩ := stp t s h1
  exact outAtE_ok h2 h4

/-! ## Identities -/

private theorem xor_val {a b : ℤ} (ha : IsBit a) (hb : IsBit b) : Int.xor a b = a + b - 2 * a * b := by
  rcases ha with h | h <;> rcases hb with h' | h' <;> subst h <;> subst h' <;> decide

private theorem sign_bit (dsa : ℤ) (x : ℕ → ℤ) (t : ℕ) : IsBit (signOut dsa x t) := isBit_ind _

private theorem u2b_bit (d : ℤ) (x : ℕ → ℤ) (t : ℕ) : IsBit (u2bOut d x t) := isBit_ind _

/-- `Uni2Bi` answers a one with a one. -/
private theorem u2b_one (q : ℕ → ℤ) (hq : BitStream q) (t : ℕ) (h1 : q t = 1) : u2bOut 4 q t = 1 := by
  have e1 := C13_exact 4 (le_refl _) q hq t
  have e2 := C13_exact 4 (le_refl _) q hq (t + 1)
  rw [Verif.Spec.ones_succ, Verif.Spec.ones_succ q, h1] at e2
  push_cast at e2
  omega

/-- C83: a bipolar stream divided by itself gives ones (the value `1`) in every cycle with a one of its magnitude and in every cycle once
`entry_kn` ones of its magnitude have passed. -/
theorem C83_self {w : ℕ} {rng : List ℤ} (h : Verif.Spec.IsPermSeq w rng) (dsa : ℤ) (dss : ℕ) (sh : List ℕ)
    (x : ℕ → ℤ) (t : ℕ) (ht : 2 ^ w ≤ ones (magOut dsa x) t ∨ magOut dsa x t = 1) :
    divOut .bipolar dsa dss (2 ^ w) rng sh x x t = .ok 1 := by
  obtain ⟨q, hb, h1, h2⟩ := C83_composition h dsa dss sh x x
  rw [h2]
  have hq := h1 t
  rw [C35_self h dsa dss sh (mag_bits dsa x) t ht] at hq
  have hq' : q t = 1 := (Except.ok.inj hq).symm
  rw [u2b_one q hb t hq', xor_val (sign_bit _ _ _) (sign_bit _ _ _)]
  rcases sign_bit dsa x t with e | e <;> rw [e] <;> rfl

/-- The constant streams of value `1` and `-1`. -/
private theorem const_walk (d : ℕ) (c : ℤ) (hc : IsBit c) (n : ℕ) :
    (c = 1 → 0 ≤ Spec.clippedWalk (-2 ^ (d - 1)) (2 ^ (d - 1) - 1) (fun _ => c) n) ∧
    (c = 0 → (Spec.clippedWalk (-2 ^ (d - 1)) (2 ^ (d - 1) - 1) (fun _ => c) n ≤ 0) ∧
      (0 < n → Spec.clippedWalk (-2 ^ (d - 1)) (2 ^ (d - 1) - 1) (fun _ => c) n < 0)) := by
  have hp : (1:ℤ) ≤ 2 ^ (d - 1) := one_le_pow₀ (by norm_num)
  generalize (2:ℤ) ^ (d - 1) = H at *
  induction n with
  | zero => simp [Spec.clippedWalk]
  | succ n ih =>
      simp only [Spec.clippedWalk]
      generalize Spec.clippedWalk (-H) (H - 1) (fun _ => c) n = W at *
      rcases hc with e | e <;> subst e <;> simp at ih ⊢ <;> omega

private theorem const_sign (d : ℕ) (hd : 1 ≤ d) (c : ℤ) (hc : IsBit c) (t : ℕ) : signOut d (fun _ => c) t = 1 - c := by
  have h1 := C30_sign d hd (fun _ => c) t
  have h2 := const_walk d c hc (t + 1)
  have h3 := sign_bit d (fun _ => c) t
  rcases hc with e | e <;> rw [e] at h1 h2 h3 ⊢
  · rw [h1.2 ((h2.2 rfl).2 (by omega))]; rfl
  · rcases h3 with h | h
    · rw [h]; rfl
    · have := h1.1 h; have := h2.1 rfl; omega

private theorem const_mag (d : ℕ) (hd : 1 ≤ d) (c : ℤ) (hc : IsBit c) (t : ℕ) : magOut d (fun _ => c) t = 1 := by
  have ha : absOut d (fun _ => c) = fun _ => 1 := by
    funext t
    have : absOut d (fun _ => c) t = Int.xor (signOut d (fun _ => c) t) c := rfl
    rw [this, const_sign d hd c hc]
    rcases hc with e | e <;> rw [e] <;> decide
  have hw : ∀ n, walk (fun _ => 1) n = n ∧ runMax (fun _ => 1) n = n := by
    intro n
    induction n with
    | zero => simp [runMax]
    | succ n ih => rw [Verif.Spec.walk_succ]; simp only [runMax, Verif.Spec.walk_succ]; rw [ih.1, ih.2]; push_cast; omega
  have hc : ∀ n, ones (b2uOut 3 fun _ => 1) n = n := by
    intro n
    have := C12_exact 1 (fun _ => 1) (fun _ => Or.inr rfl) n (fun m _ => by rw [(hw m).1, (hw m).2]; omega)
    rw [(hw n).2] at this
    exact this
  unfold magOut
  rw [ha]
  have h1 := hc t
  have h2 := hc (t + 1)
  rw [Verif.Spec.ones_succ] at h2
  push_cast at h2; omega

/-- C83: dividing by the constant stream `c` (`1` is the value `1`, `0` the value `-1`) gives the sign of the dividend,
flipped for `-1`, XOR the dividend's magnitude as a bipolar stream. -/
theorem C83_by_unit {w : ℕ} {rng : List ℤ} (h : Verif.Spec.IsPermSeq w rng) (d : ℕ) (hd : 1 ≤ d) (dss : ℕ) (sh : List ℕ)
    (x : ℕ → ℤ) (c : ℤ) (hc : IsBit c) (t : ℕ) :
    divOut .bipolar d dss (2 ^ w) rng sh x (fun _ => c) t
      = .ok (Int.xor (Int.xor (signOut d x t) (1 - c)) (u2bOut 4 (magOut d x) t)) := by
  obtain ⟨q, hb, h1, h2⟩ := C83_composition h d dss sh x (fun _ => c)
  have e : magOut d (fun _ => c) = fun _ => 1 := funext (const_mag d hd c hc)
  have hq : q = magOut d x := by
    funext t
    have := h1 t
    rw [e, C35_by_one h d dss sh (mag_bits d x) t] at this
    exact (Except.ok.inj this).symm
  rw [h2, const_sign d hd c hc, hq]

/-- C83: `(±1) / (±1)` has the right sign from the first cycle on. -/
theorem C83_units {w : ℕ} {rng : List ℤ} (h : Verif.Spec.IsPermSeq w rng) (d : ℕ) (hd : 1 ≤ d) (dss : ℕ) (sh : List ℕ)
    (a b : ℤ) (ha : IsBit a) (hb : IsBit b) (t : ℕ) :
    divOut .bipolar d dss (2 ^ w) rng sh (fun _ => a) (fun _ => b) t = .ok (if a = b then 1 else 0) := by
  rw [C83_by_unit h d hd dss sh _ b hb, const_sign d hd a ha,
    u2b_one _ (mag_bits _ _) t (const_mag d hd a ha t)]
  rcases ha with e | e <;> rcases hb with e' | e' <;> rw [e, e'] <;> rfl

private theorem state_congr {S I O : Type} (f : S → I → S × O) (s : S) (x y : ℕ → I) (n : ℕ) (h : ∀ k < n, x k = y k) :
    stateAt f s x n = stateAt f s y n := by
  induction n with
  | zero => rfl
  | succ n ih => rw [stateAt_succ, stateAt_succ, ih (fun k hk => h k (by omega)), h n (by omega)]

private theorem out_congr {S I O : Type} (f : S → I → S × O) (s : S) (x y : ℕ → I) (n : ℕ) (h : ∀ k ≤ n, x k = y k) :
    outAt f s x n = outAt f s y n := by
  unfold outAt; rw [state_congr f s x y n (fun k hk => h k (by omega)), h n (le_refl _)]

/-- A stream whose running sum stays positive (never negative for `s = 0`) and never falls more than two below its
maximum keeps its sign, whatever the saturation of the sign counter does. -/
private theorem steady_walk (H : ℤ) (hH : 4 ≤ H) (x : ℕ → ℤ) (s : ℤ) (hs : IsBit s) (z : ℕ → ℤ) (hz : BitStream z)
    (hxz : ∀ t, x t = z t + s - 2 * s * z t) (n : ℕ)
    (h1 : ∀ k, 0 < k → k ≤ n → s ≤ walk z k) (h2 : ∀ k ≤ n, runMax z k - 2 ≤ walk z k) :
    Spec.clippedWalk (-H) (H - 1) x n = (1 - 2 * s) * (walk z n - max 0 (runMax z n - (H - 1 + s))) := by
  induction n with
  | zero =>
      simp only [Spec.clippedWalk, runMax, Verif.Spec.walk_zero]
      rcases hs with e | e <;> rw [e] <;> omega
  | succ n ih =>
      have ih' := ih (fun k h h' => h1 k h (by omega)) (fun k hk => h2 k (by omega))
      simp only [Spec.clippedWalk, runMax]
      have a1 := h1 (n + 1) (by omega) (le_refl _)
      have a2 := h2 (n + 1) (le_refl _)
      have a3 := h2 n (by omega)
      simp only [runMax] at a2
      rw [ih', hxz n]
      have hw := Verif.Spec.walk_succ z n
      have hle := Verif.Spec.walk_le_runMax z (le_refl n)
      generalize walk z (n + 1) = W' at *
      generalize walk z n = W at *
      generalize runMax z n = M at *
      have hb := hz n
      generalize z n = b at *
      clear ih ih' h1 h2 hxz hz
      rcases hs with e | e <;> subst e <;> rcases hb with e' | e' <;> subst e' <;> omega

/-- C83: accuracy of the division of a steady stream by `±1`.  Let the dividend be the stream `z` (`s = 0`) or its
complement (`s = 1`), where the running sum of `z` is never negative (positive for `s = 1`) and never drops more than
two below its maximum `M`.  Then the running sum of the quotient is, up to sign, the largest number not above `M` with the
parity of `n`: the magnitude of the dividend's running sum up to three. -/
theorem C83_steady {w : ℕ} {rng : List ℤ} (h : Verif.Spec.IsPermSeq w rng) (d : ℕ) (hd : 3 ≤ d) (dss : ℕ) (sh : List ℕ)
    (z : ℕ → ℤ) (hz : BitStream z) (s c : ℤ) (hs : IsBit s) (hc : IsBit c) (n : ℕ)
    (h1 : ∀ k, 0 < k → k ≤ n → s ≤ walk z k) (h2 : ∀ k ≤ n, runMax z k - 2 ≤ walk z k) :
    ∃ o : ℕ → ℤ, (∀ t, divOut .bipolar d dss (2 ^ w) rng sh (fun t => if s = 1 then 1 - z t else z t) (fun _ => c) t
        = .ok (o t)) ∧
      walk o n = (1 - 2 * s) * (2 * c - 1) * (runMax z n - (runMax z n + n) % 2) := by
  have hx : ∀ t, (fun t => if s = 1 then 1 - z t else z t) t = z t + s - 2 * s * z t := by
    intro t; rcases hs with e | e
    · simp [e]
    · simp [e]; ring
  generalize hxe : (fun t => if s = 1 then 1 - z t else z t) = x at hx
  have hH : (4:ℤ) ≤ 2 ^ (d - 1) := by
    calc (4:ℤ) = 2 ^ 2 := by norm_num
      _ ≤ 2 ^ (d - 1) := pow_le_pow_right₀ (by norm_num) (by omega)
  have hsg : ∀ t < n, signOut d x t = s := by
    intro t ht
    have e1 := C30_sign d (by omega) x t
    rw [steady_walk _ hH x s hs z hz hx (t + 1) (fun k h h' => h1 k h (by omega)) (fun k hk => h2 k (by omega))] at e1
    have a1 := h1 (t + 1) (by omega) (by omega)
    have a2 := h2 (t + 1) (by omega)
    generalize walk z (t + 1) = W at *
    generalize runMax z (t + 1) = M at *
    generalize (2:ℤ) ^ (d - 1) = H at *
    rcases sign_bit d x t with e | e <;> rw [e] at e1 ⊢ <;> rcases hs with e' | e' <;> subst e' <;> omega
  have hab : ∀ t < n, absOut d x t = z t := by
    intro t ht
    have e : absOut d x t = Int.xor (signOut d x t) (x t) := rfl
    rw [e, hsg t ht, hx]
    rcases hs with e | e <;> rcases hz t with e' | e' <;> rw [e, e'] <;> decide
  have hob : ∀ m ≤ n, ones (magOut d x) m = runMax z m := by
    intro m hm
    rw [← C12_exact 1 z hz m (fun k hk => h2 k (by omega))]
    unfold ones
    apply sum_congr rfl
    intro t ht
    rw [mem_range] at ht
    show outAt (bi2uniStep 3) 0 (absOut d x) t = outAt (bi2uniStep 3) 0 z t
    exact out_congr _ _ _ _ t (fun k hk => hab k (by omega))
  refine ⟨_, fun t => C83_by_unit h d (by omega) dss sh x c hc t, ?_⟩
  have hu := C13_exact 4 (le_refl _) (magOut d x) (mag_bits d x) n
  rw [hob n (le_refl _)] at hu
  have hw : walk (fun t => Int.xor (Int.xor (signOut d x t) (1 - c)) (u2bOut 4 (magOut d x) t)) n
      = (1 - 2 * s) * (2 * c - 1) * walk (u2bOut 4 (magOut d x)) n := by
    unfold walk
    rw [mul_sum]
    apply sum_congr rfl
    intro t ht
    rw [mem_range] at ht
    beta_reduce
    rw [hsg t ht]
    have hv := u2b_bit 4 (magOut d x) t
    generalize u2bOut 4 (magOut d x) t = v at *
    rcases hs with e | e <;> rcases hc with e' | e' <;> rcases hv with e'' | e'' <;> rw [e, e', e''] <;> decide
  rw [hw, Verif.Spec.walk_eq, hu]
  congr 1
  omega

/-- Non-vacuity: a number sequence of two entries, the self-division condition, and a steady stream of value `1/2`. -/
example : Verif.Spec.IsPermSeq 1 [1, 0] ∧ 2 ^ 1 ≤ ones (magOut 3 fun t => if t % 4 = 3 then 0 else 1) 4 ∧
    (∀ k, 0 < k → k ≤ 8 → 1 ≤ walk (fun t => if t % 4 = 3 then 0 else 1) k) ∧
    (∀ k ≤ 8, runMax (fun t => if t % 4 = 3 then 0 else 1) k - 2 ≤ walk (fun t => if t % 4 = 3 then 0 else 1) k) ∧
    runMax (fun t => if t % 4 = 3 then 0 else 1) 8 = 5 := by
  refine ⟨⟨rfl, fun v h0 h1 => by interval_cases v <;> rfl⟩, by decide +kernel, ?_, by decide, by decide⟩
  intro k h1 h2
  interval_cases k <;> decide

end Verif.Props
