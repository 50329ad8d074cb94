import Verif.Model.Checkpoint
import Verif.Props.Tensor
import Verif.Props.Metric
import Verif.Props.Linear

/-!
# C102: checkpoints
-/

namespace Verif.Props

open Verif Tens Shuffle Small

/-- A checkpoint of the module in state `s` was loaded without an exception, and all later calls give what the saved module
would have given. -/
def Spec.Resumes {S X O : Type} (T : S → X → Except PyErr (S × O)) (loaded : S × Bool) (s : S) : Prop :=
  loaded.2 = true ∧ ∀ (y : ℕ → X) (t : ℕ), outAtE T loaded.1 y t = outAtE T s y t

/-- The shape of a single stream: no dimension, or one of size one. -/
def Spec.Lone (s : List ℕ) : Prop := s = [] ∨ s = [1]

/-! ### Loading one parameter -/

theorem loadP_ok {α : Type} {p saved : Tensor α} (h : p.shape = saved.shape) : loadP p saved = (saved, true) := if_pos h

theorem loadP_no {α : Type} {p saved : Tensor α} (h : p.shape ≠ saved.shape) : loadP p saved = (p, false) := if_neg h

theorem resumes_of_eq {S X O : Type} {T : S → X → Except PyErr (S × O)} {l : S × Bool} {s : S} (h : l = (s, true)) :
    Spec.Resumes T l s := by subst h; exact ⟨rfl, fun _ _ => rfl⟩

theorem join_lone {X : Type} {shapes : X → List (List ℕ)} {x : ℕ → X} {n : ℕ} {u : List ℕ} (hu : Spec.Smallest (Spec.shapesSeen shapes x n) u) :
    u = [1] ↔ ∀ k < n, ∀ r ∈ shapes (x k), Spec.Lone r := by
  constructor
  · intro h k hk r hr
    exact (single_iff r).mp (h ▸ hu.1 r (Or.inr ⟨k, hk, hr⟩))
  · intro h
    refine join_unique hu ⟨?_, fun v hv => hv _ (Or.inl rfl)⟩
    rintro r (hr | ⟨k, hk, hr⟩)
    · rw [hr]; exact fits_refl _
    · exact (single_iff r).mpr (h k hk r hr)

theorem lifts_load {σ ι ω X O : Type} {shapes : X → List (List ℕ)} {val : X → List ℕ → ι} {osh : O → List ℕ → Prop} {oget : O → List ℕ → ω}
    {step : σ → ι → σ × ω} {T : Tensor σ → X → Except PyErr (Tensor σ × O)} (h : Lifts shapes val osh oget step T) (a : σ)
    (x : ℕ → X) (n : ℕ) {s : Tensor σ} (hs : stateAtE T (one a) x n = .ok s) :
    ((∀ k < n, ∀ r ∈ shapes (x k), Spec.Lone r) → loadP (one a) s = (s, true)) ∧
    ((∃ k < n, ∃ r ∈ shapes (x k), ¬ Spec.Lone r) → loadP (one a) s = (one a, false)) := by
  obtain ⟨h1, h2⟩ := LiftsOn.state h (s0 := one a) (a := a) rfl (fun _ => rfl) x (fun _ => trivial) n
  by_cases hj : ∃ u, Spec.Smallest (Spec.shapesSeen shapes x n) u
  · obtain ⟨u, hu⟩ := hj
    obtain ⟨s', hs', hsh, _⟩ := h1 u hu
    obtain rfl := Except.ok.inj (hs'.symm.trans hs)
    refine ⟨fun hl => loadP_ok ?_, fun ⟨k, hk, r, hr, hn⟩ => loadP_no ?_⟩
    · rw [hsh, (join_lone hu).mpr hl]; rfl
    · intro he
      exact hn ((join_lone hu).mp (hsh ▸ he.symm) k hk r hr)
  · obtain ⟨e, he⟩ := h2 hj
    rw [he] at hs; exact absurd hs (by simp)

theorem lone_one {P : List ℕ → Prop} {s : List ℕ} : (∀ r ∈ [s], P r) ↔ P s := by simp

theorem stateAtE_succ_inv {S X O : Type} {T : S → X → Except PyErr (S × O)} {s0 s : S} {x : ℕ → X} {n : ℕ}
    (h : stateAtE T s0 x (n + 1) = .ok s) : ∃ s1 o, stateAtE T s0 x n = .ok s1 ∧ T s1 (x n) = .ok (s, o) := by
  cases h1 : stateAtE T s0 x n with
  | error e => simp only [stateAtE] at h; rw [h1] at h; exact absurd h (by simp [bind, Except.bind])
  | ok s1 =>
    simp only [stateAtE] at h; rw [h1] at h
    change (T s1 (x n) >>= fun r => pure r.1) = _ at h
    cases h2 : T s1 (x n) with
    | error e => rw [h2] at h; exact absurd h (by simp [bind, Except.bind])
    | ok r =>
      rw [h2] at h
      obtain rfl := Except.ok.inj h
      exact ⟨s1, r.2, rfl, h2⟩

theorem map2_shape {α β γ : Type} {f : α → β → γ} {x : Tensor α} {y : Tensor β} {z : Tensor γ} (h : map2 f x y = .ok z) :
    bc x.shape y.shape = some z.shape := by
  cases hb : bc x.shape y.shape with
  | none => rw [map2_err f hb] at h; exact absurd h (by simp)
  | some u =>
    obtain ⟨w, hw, hs, _⟩ := map2_ok f hb
    rw [← Except.ok.inj (hw.symm.trans h), hs]

theorem map2In_shape {α β γ : Type} {f : α → β → γ} {x : Tensor α} {y : Tensor β} {z : Tensor γ} (h : map2In f x y = .ok z) :
    z.shape = x.shape ∧ Spec.Stretch y.shape x.shape := by
  by_cases hb : Spec.Stretch y.shape x.shape
  · obtain ⟨w, hw, hs, _⟩ := map2In_ok f hb
    rw [← Except.ok.inj (hw.symm.trans h)]; exact ⟨hs, hb⟩
  · obtain ⟨e, he⟩ := map2In_err f hb
    rw [he] at h; exact absurd h (by simp)

/-- Modules that agree in the first call agree in all. -/
theorem outAtE_first {S X O : Type} {T : S → X → Except PyErr (S × O)} {a b : S} {y : ℕ → X} (h : T a (y 0) = T b (y 0)) (t : ℕ) :
    outAtE T a y t = outAtE T b y t := by
  have hst : ∀ n, stateAtE T a y (n + 1) = stateAtE T b y (n + 1) := by
    intro n
    induction n with
    | zero => show (T a (y 0) >>= fun r => pure r.1) = (T b (y 0) >>= fun r => pure r.1); rw [h]
    | succ n ih => rw [stateAtE, ih]; rfl
  cases t with
  | zero => show (T a (y 0) >>= fun r => pure r.2) = (T b (y 0) >>= fun r => pure r.2); rw [h]
  | succ t => simp only [outAtE, hst]

/-! ### Modules with one register -/

/-- `Bi2Uni` with the default number type: after any calls on single streams a checkpoint can be loaded into a new module,
which then goes on exactly as the saved one; if any input was larger, loading raises and the module stays new. -/
theorem C102_bi2uni (depth : ℤ) (x : ℕ → Tensor ℤ) (n : ℕ) (s : Tensor ℚ) (hs : stateAtE (bi2uniT depth) (one 0) x n = .ok s) :
    ((∀ k < n, Spec.Lone (x k).shape) → Spec.Resumes (bi2uniT depth) (loadConv true (one 0) s) s) ∧
    ((∃ k < n, ¬ Spec.Lone (x k).shape) → loadConv true (one 0) s = (one 0, false)) := by
  obtain ⟨h1, h2⟩ := lifts_load (bi2uni_lifts depth) 0 x n hs
  exact ⟨fun h => resumes_of_eq (h1 fun k hk => lone_one.mpr (h k hk)), fun ⟨k, hk, hn⟩ => h2 ⟨k, hk, _, List.mem_singleton.mpr rfl, hn⟩⟩

example : (∃ s, stateAtE (bi2uniT 4) (one 0) (fun _ => one 1) 2 = .ok s) ∧ ∃ s, stateAtE (bi2uniT 4) (one 0) (fun _ => ⟨[2, 3], fun _ => 1⟩) 2 = .ok s :=
  ⟨⟨_, rfl⟩, _, rfl⟩

/-- The same for `Uni2Bi`. -/
theorem C102_uni2bi (depth : ℤ) (x : ℕ → Tensor ℤ) (n : ℕ) (s : Tensor ℚ) (hs : stateAtE (uni2biT depth) (one 0) x n = .ok s) :
    ((∀ k < n, Spec.Lone (x k).shape) → Spec.Resumes (uni2biT depth) (loadConv true (one 0) s) s) ∧
    ((∃ k < n, ¬ Spec.Lone (x k).shape) → loadConv true (one 0) s = (one 0, false)) := by
  obtain ⟨h1, h2⟩ := lifts_load (uni2bi_lifts depth) 0 x n hs
  exact ⟨fun h => resumes_of_eq (h1 fun k hk => lone_one.mpr (h k hk)), fun ⟨k, hk, hn⟩ => h2 ⟨k, hk, _, List.mem_singleton.mpr rfl, hn⟩⟩

example : (∃ s, stateAtE (uni2biT 4) (one 0) (fun _ => one 1) 2 = .ok s) ∧ ∃ s, stateAtE (uni2biT 4) (one 0) (fun _ => ⟨[2, 3], fun _ => 1⟩) 2 = .ok s :=
  ⟨⟨_, rfl⟩, _, rfl⟩

/-- The same for `FSUSignAbs`. -/
theorem C102_signabs (depth : ℤ) (x : ℕ → Tensor ℤ) (n : ℕ) (s : Tensor ℚ)
    (hs : stateAtE (signAbsT depth) (one (accHalf depth)) x n = .ok s) :
    ((∀ k < n, Spec.Lone (x k).shape) → Spec.Resumes (signAbsT depth) (loadP (one (accHalf depth)) s) s) ∧
    ((∃ k < n, ¬ Spec.Lone (x k).shape) → loadP (one (accHalf depth)) s = (one (accHalf depth), false)) := by
  obtain ⟨h1, h2⟩ := lifts_load (signAbs_lifts depth) _ x n hs
  exact ⟨fun h => resumes_of_eq (h1 fun k hk => lone_one.mpr (h k hk)), fun ⟨k, hk, hn⟩ => h2 ⟨k, hk, _, List.mem_singleton.mpr rfl, hn⟩⟩

example : (∃ s, stateAtE (signAbsT 4) (one (accHalf 4)) (fun _ => one 1) 2 = .ok s) ∧ ∃ s, stateAtE (signAbsT 4) (one (accHalf 4)) (fun _ => ⟨[2, 3], fun _ => 1⟩) 2 = .ok s :=
  ⟨⟨_, rfl⟩, _, rfl⟩

/-- The same for `FSUReLU`. -/
theorem C102_relu (depth : ℤ) (x : ℕ → Tensor ℤ) (n : ℕ) (s : Tensor ℚ)
    (hs : stateAtE (reluT depth) (one (accHalf depth)) x n = .ok s) :
    ((∀ k < n, Spec.Lone (x k).shape) → Spec.Resumes (reluT depth) (loadP (one (accHalf depth)) s) s) ∧
    ((∃ k < n, ¬ Spec.Lone (x k).shape) → loadP (one (accHalf depth)) s = (one (accHalf depth), false)) := by
  obtain ⟨h1, h2⟩ := lifts_load (relu_lifts depth) _ x n hs
  exact ⟨fun h => resumes_of_eq (h1 fun k hk => lone_one.mpr (h k hk)), fun ⟨k, hk, hn⟩ => h2 ⟨k, hk, _, List.mem_singleton.mpr rfl, hn⟩⟩

example : (∃ s, stateAtE (reluT 4) (one (accHalf 4)) (fun _ => one 1) 2 = .ok s) ∧ ∃ s, stateAtE (reluT 4) (one (accHalf 4)) (fun _ => ⟨[2, 3], fun _ => 1⟩) 2 = .ok s :=
  ⟨⟨_, rfl⟩, _, rfl⟩

/-- The same for `JKFF`. -/
theorem C102_jkff (x : ℕ → Tensor ℚ × Tensor ℚ) (n : ℕ) (s : Tensor ℤ) (hs : stateAtE jkT (one 0) x n = .ok s) :
    ((∀ k < n, Spec.Lone (x k).1.shape ∧ Spec.Lone (x k).2.shape) → Spec.Resumes jkT (loadP (one 0) s) s) ∧
    ((∃ k < n, ¬ (Spec.Lone (x k).1.shape ∧ Spec.Lone (x k).2.shape)) → loadP (one 0) s = (one 0, false)) := by
  obtain ⟨h1, h2⟩ := lifts_load jk_lifts 0 x n hs
  refine ⟨fun h => resumes_of_eq (h1 fun k hk r hr => ?_), fun ⟨k, hk, hn⟩ => ?_⟩
  · rcases List.mem_cons.mp hr with rfl | hr
    · exact (h k hk).1
    · rw [List.mem_singleton.mp hr]; exact (h k hk).2
  · by_cases h : Spec.Lone (x k).1.shape
    · exact h2 ⟨k, hk, _, List.mem_cons_of_mem _ (List.mem_singleton.mpr rfl), fun h' => hn ⟨h, h'⟩⟩
    · exact h2 ⟨k, hk, _, List.mem_cons_self, h⟩

example : (∃ s, stateAtE jkT (one 0) (fun _ => (one 1, one 1)) 2 = .ok s) ∧ ∃ s, stateAtE jkT (one 0) (fun _ => (⟨[2, 3], fun _ => 1⟩, one 1)) 2 = .ok s :=
  ⟨⟨_, rfl⟩, _, rfl⟩

/-- `SkewedSync`: only the last call before the checkpoint counts.  If its two operands together had one dimension of size one,
a new module goes on exactly as the saved one; otherwise loading raises. -/
theorem C102_sync (depth : ℕ) (x : ℕ → Tensor ℤ × Tensor ℤ) (n : ℕ) (s : Tensor ℤ) (hs : stateAtE (ssT depth) (one 0) x (n + 1) = .ok s) :
    (Spec.Smallest {(x n).1.shape, (x n).2.shape} [1] → Spec.Resumes (ssT depth) (loadP (one 0) s) s) ∧
    (¬ Spec.Smallest {(x n).1.shape, (x n).2.shape} [1] → loadP (one 0) s = (one 0, false)) := by
  cases hn : stateAtE (ssT depth) (one 0) x n with
  | error e => simp only [stateAtE] at hs; rw [hn] at hs; exact absurd hs (by simp [bind, Except.bind])
  | ok c =>
    cases hb : bc (x n).1.shape (x n).2.shape with
    | none =>
      have he : ssT depth c (x n) = .error .runtime := by
        have := map2_err (fun x1 x2 : ℤ => x1 + x2) hb
        simp only [ssT, this, bind, Except.bind]
      simp only [stateAtE] at hs; rw [hn] at hs
      change (ssT depth c (x n) >>= fun r => pure r.1) = _ at hs
      rw [he] at hs; exact absurd hs (by simp [bind, Except.bind])
    | some u =>
      obtain ⟨c', o, hT, hsh, _⟩ := ss_call depth c (x n) hb
      obtain rfl := Except.ok.inj ((stateAtE_succ_ok hn hT).symm.trans hs)
      have hu := join_pair.mpr hb
      refine ⟨fun h => resumes_of_eq (loadP_ok ?_), fun h => loadP_no fun he => h ?_⟩
      · rw [hsh, join_unique hu h]; rfl
      · have : u = [1] := hsh ▸ he.symm
        exact this ▸ hu

example : (∃ s, stateAtE (ssT 3) (one 0) (fun _ => (one 1, one 1)) 2 = .ok s) ∧ ∃ s, stateAtE (ssT 3) (one 0) (fun _ => (⟨[2, 3], fun _ => 1⟩, one 1)) 2 = .ok s :=
  ⟨⟨_, rfl⟩, _, rfl⟩

theorem map2_one {α β γ : Type} (f : α → β → γ) (a : α) (b : β) : map2 f (one a) (one b) = .ok (one (f a b)) := rfl

theorem map2In_one {α β γ : Type} (f : α → β → γ) (a : α) (b : β) : map2In f (one a) (one b) = .ok (one (f a b)) := rfl

theorem map1_one {α β : Type} (f : α → β) (a : α) : map1 f (one a) = one (f a) := rfl

theorem bi2uni_one (depth : ℤ) (a : ℚ) (v : ℤ) :
    bi2uniT depth (one a) (one v) = .ok (one (bi2uniStep depth a v).1, one (bi2uniStep depth a v).2) := by
  unfold bi2uniT bi2uniStep
  simp only [map1_one, map2_one, map2In_one, bind, Except.bind, pure, Except.pure]

/-- Violated for the converters with another number type than `torch.float`: a checkpoint is loaded without complaint, but the
new module then behaves as if nothing had been saved.  (After one zero the saved `Bi2Uni` answers a one with a zero.) -/
theorem C102_typed (depth : ℤ) (hd : 2 ≤ depth) :
    (∀ s y t, (loadConv false (one 0) s).2 = true ∧ outAtE (bi2uniT depth) (loadConv false (one 0) s).1 y t = outAtE (bi2uniT depth) (one 0) y t ∧
      outAtE (uni2biT depth) (loadConv false (one 0) s).1 y t = outAtE (uni2biT depth) (one 0) y t) ∧
    ∃ (x : ℕ → Tensor ℤ) (s : Tensor ℚ), stateAtE (bi2uniT depth) (one 0) x 1 = .ok s ∧
      outAtE (bi2uniT depth) s (fun _ => one 1) 0 = .ok (one 0) ∧
      outAtE (bi2uniT depth) (loadConv false (one 0) s).1 (fun _ => one 1) 0 = .ok (one 1) := by
  obtain ⟨k, rfl⟩ : ∃ k : ℕ, depth = k + 2 := ⟨(depth - 2).toNat, by omega⟩
  have hb : (1:ℚ) ≤ accBound (k + 2) := by
    unfold accBound; rw [show ((k:ℤ) + 2 - 2) = k by ring, zpow_natCast]; exact one_le_pow₀ (by norm_num)
  have c1 : clamp (-accBound (k + 2)) (accBound (k + 2)) (1:ℚ) = 1 := by
    unfold clamp; rw [max_eq_left (by linarith), min_eq_left hb]
  have c2 : clamp (-accBound (k + 2)) (accBound (k + 2)) (-1:ℚ) = -1 := by
    unfold clamp; rw [max_eq_left (by linarith), min_eq_left (by linarith)]
  have c3 : clamp (-accBound (k + 2)) (accBound (k + 2)) (0:ℚ) = 0 := by
    unfold clamp; rw [max_eq_left (by linarith), min_eq_left (by linarith)]
  have s1 : bi2uniStep (k + 2) 0 0 = (-1, 0) := by
    unfold bi2uniStep; norm_num [c2, ind]
  have s2 : bi2uniStep (k + 2) (-1) 1 = (0, 0) := by
    unfold bi2uniStep; norm_num [c3, ind]
  have s3 : bi2uniStep (k + 2) 0 1 = (0, 1) := by
    unfold bi2uniStep; norm_num [c1, ind]
  refine ⟨fun _ _ _ => ⟨rfl, rfl, rfl⟩, fun _ => one 0, one (-1), ?_, ?_, ?_⟩
  · exact stateAtE_succ_ok (s := one 0) (o := one 0) rfl (by rw [bi2uni_one, s1])
  · exact outAtE_ok (s := one (-1)) (s' := one 0) rfl (by rw [bi2uni_one, s2])
  · exact outAtE_ok (s := one 0) (s' := one 0) rfl (by rw [bi2uni_one, s3])

/-! ### Static multiplier -/

theorem mul_inv_same {rng : List ℤ} {binary : Tensor ℤ} {x : ℕ → Tensor ℤ} : ∀ {n : ℕ} {s : MulSt},
    stateAtE (mulT .unipolar rng binary) ⟨one 0, one 0⟩ x n = .ok s → s.idxInv = one 0 := by
  intro n
  induction n with
  | zero => intro s hs; rw [← Except.ok.inj hs]
  | succ n ih =>
    intro s hs
    obtain ⟨s1, o, h1, h2⟩ := stateAtE_succ_inv hs
    rw [← ih h1]
    simp only [mulT, bind, Except.bind, pure, Except.pure] at h2
    split at h2
    · exact absurd h2 (by simp)
    · split at h2
      · exact absurd h2 (by simp)
      · split at h2
        · exact absurd h2 (by simp)
        · rw [← (Prod.mk.inj (Except.ok.inj h2)).1]

/-- Static `FSUMul`.  The checkpoint also holds the multiplier and the number sequence: it can be loaded into a new module built
with any other multiplier of the same shape and any other sequence of the same length (same mode).  After calls on single
streams that module goes on exactly as the saved one; if any input was larger, loading raises. -/
theorem C102_mul (mode : Mode) (rng rng' : List ℤ) (binary binary' : Tensor ℤ) (hr : rng'.length = rng.length)
    (hb : binary'.shape = binary.shape) (x : ℕ → Tensor ℤ) (n : ℕ) (s : MulSt)
    (hs : stateAtE (mulT mode rng binary) ⟨one 0, one 0⟩ x n = .ok s) :
    ((∀ k < n, Spec.Lone (x k).shape) →
      (loadMul mode ⟨rng', binary', one 0, one 0⟩ ⟨rng, binary, s⟩).2 = true ∧ ∀ (y : ℕ → Tensor ℤ) (t : ℕ),
        outAtE (mulT mode (loadMul mode ⟨rng', binary', one 0, one 0⟩ ⟨rng, binary, s⟩).1.rng
          (loadMul mode ⟨rng', binary', one 0, one 0⟩ ⟨rng, binary, s⟩).1.binary)
          (loadMul mode ⟨rng', binary', one 0, one 0⟩ ⟨rng, binary, s⟩).1.st y t = outAtE (mulT mode rng binary) s y t) ∧
    ((∃ k < n, ¬ Spec.Lone (x k).shape) → (loadMul mode ⟨rng', binary', one 0, one 0⟩ ⟨rng, binary, s⟩).2 = false) := by
  obtain ⟨h1, h2⟩ := mul_state mode rng binary 0 x n
  by_cases hj : ∃ u, Spec.Smallest (insert binary.shape (Spec.shapesSeen (fun x : Tensor ℤ => [x.shape]) x n)) u
  · obtain ⟨u, hu⟩ := hj
    obtain ⟨s', hs', hsm, hI, _⟩ := h1 u hu
    obtain rfl := Except.ok.inj (hs'.symm.trans hs)
    constructor
    · intro h
      have e1 : s'.idx.shape = [1] := (join_lone hsm).mpr fun k hk => lone_one.mpr (h k hk)
      have : loadMul mode ⟨rng', binary', one 0, one 0⟩ ⟨rng, binary, s'⟩ = (⟨rng, binary, s'⟩, true) := by
        unfold loadMul
        simp only [if_pos hr, loadP_ok hb, loadP_ok (p := one 0) e1.symm]
        cases mode with
        | unipolar => simp only [← mul_inv_same hs]; rfl
        | bipolar => simp only [loadP_ok (p := one 0) ((hI rfl).trans e1).symm]; rfl
      rw [this]
      exact ⟨rfl, fun _ _ => rfl⟩
    · rintro ⟨k, hk, hn⟩
      have e1 : s'.idx.shape ≠ [1] := fun h => hn ((join_lone hsm).mp h k hk _ (List.mem_singleton.mpr rfl))
      unfold loadMul
      simp only [loadP_no (p := one 0) e1.symm]
      simp
  · obtain ⟨e, he⟩ := h2 hj
    rw [he] at hs; exact absurd hs (by simp)

example : (∃ s, stateAtE (mulT .bipolar [0, 1] (one 1)) ⟨one 0, one 0⟩ (fun _ => one 1) 2 = .ok s) ∧ ∃ s, stateAtE (mulT .bipolar [0, 1] (one 1)) ⟨one 0, one 0⟩ (fun _ => ⟨[2, 3], fun _ => 1⟩) 2 = .ok s :=
  ⟨⟨_, rfl⟩, _, rfl⟩

/-! ### Adder -/

theorem addT_ok {cfg : Adder.Cfg} {dima : ℤ} {s s' : AddSt} {x o : Tensor ℤ} (hd : -(x.shape.length : ℤ) ≤ dima ∧ dima < x.shape.length)
    (h : addT cfg dima s x = .ok (s', o)) :
    s' = { addConfigure cfg s (x.shape.getD (Spec.fromLast dima x.shape.length) 0) with acc := s'.acc } := by
  simp only [addT, dimPos_ok hd, bind, Except.bind, pure, Except.pure] at h
  repeat' (split at h; · exact absurd h (by simp))
  rw [← (Prod.mk.inj (Except.ok.inj h)).1]

theorem add_configured {cfg : Adder.Cfg} {dima : ℤ} {x : ℕ → Tensor ℤ} (hd : ∀ k, -((x k).shape.length : ℤ) ≤ dima ∧ dima < (x k).shape.length) :
    ∀ {n : ℕ} {s : AddSt}, stateAtE (addT cfg dima) (addInit cfg) x (n + 1) = .ok s →
      s = { addConfigure cfg (addInit cfg) ((x 0).shape.getD (Spec.fromLast dima (x 0).shape.length) 0) with acc := s.acc } := by
  intro n
  induction n with
  | zero =>
    intro s hs
    obtain ⟨s1, o, h1, h2⟩ := stateAtE_succ_inv hs
    rw [← Except.ok.inj h1] at h2
    exact addT_ok (hd 0) h2
  | succ n ih =>
    intro s hs
    obtain ⟨s1, o, h1, h2⟩ := stateAtE_succ_inv hs
    have e := addT_ok (hd _) h2
    have hf : s1.first = false := by rw [ih h1]; simp [addConfigure, addInit]
    have : addConfigure cfg s1 ((x (n + 1)).shape.getD (Spec.fromLast dima (x (n + 1)).shape.length) 0) = s1 := by
      unfold addConfigure; rw [hf]; rfl
    rw [this, ih h1] at e
    exact e

/-- `FSUAdd` along any dimension.  After calls on inputs that are single streams but for the summed dimension, a checkpoint can be
loaded into a new adder, which goes on exactly as the saved one provided that the number of addends was configured or that
the next call has as many addends as the first one had; if any input was larger, loading raises. -/
theorem C102_add (cfg : Adder.Cfg) (dima : ℤ) (x : ℕ → Tensor ℤ) (hd : ∀ k, -((x k).shape.length : ℤ) ≤ dima ∧ dima < (x k).shape.length)
    (n : ℕ) (s : AddSt) (hs : stateAtE (addT cfg dima) (addInit cfg) x (n + 1) = .ok s) :
    ((∀ k < n + 1, Spec.Lone ((x k).shape.eraseIdx (Spec.fromLast dima (x k).shape.length))) →
      (loadAdd (addInit cfg) s).2 = true ∧ ∀ (y : ℕ → Tensor ℤ) (t : ℕ), -((y 0).shape.length : ℤ) ≤ dima ∧ dima < (y 0).shape.length →
        (cfg.entry.isSome ∨ (y 0).shape.getD (Spec.fromLast dima (y 0).shape.length) 0 = (x 0).shape.getD (Spec.fromLast dima (x 0).shape.length) 0) →
        outAtE (addT cfg dima) (loadAdd (addInit cfg) s).1 y t = outAtE (addT cfg dima) s y t) ∧
    ((∃ k < n + 1, ¬ Spec.Lone ((x k).shape.eraseIdx (Spec.fromLast dima (x k).shape.length))) → (loadAdd (addInit cfg) s).2 = false) := by
  obtain ⟨h1, h2⟩ := (add_lifts cfg dima).state (s0 := addInit cfg) (a := Adder.init cfg) rfl (fun _ => rfl) x hd (n + 1)
  by_cases hj : ∃ u, Spec.Smallest (Spec.shapesSeen (fun x : Tensor ℤ => [x.shape.eraseIdx (Spec.fromLast dima x.shape.length)]) x (n + 1)) u
  · obtain ⟨u, hu⟩ := hj
    obtain ⟨s', hs', hsh, _⟩ := h1 u hu
    obtain rfl := Except.ok.inj (hs'.symm.trans hs)
    constructor
    · intro h
      have e1 : s'.acc.shape = [1] := hsh.trans ((join_lone hu).mpr fun k hk => lone_one.mpr (h k hk))
      have hl : loadAdd (addInit cfg) s' = (⟨true, cfg.entry, s'.scaleCarry, s'.offset, s'.acc⟩, true) := by
        unfold loadAdd; simp only [loadP_ok (p := (addInit cfg).acc) (saved := s'.acc) e1.symm]; rfl
      rw [hl]
      refine ⟨rfl, fun y t hy hw => outAtE_first ?_ t⟩
      have hc := add_configured hd hs
      generalize (x 0).shape.getD (Spec.fromLast dima (x 0).shape.length) 0 = m at hc hw
      have key : ∀ w : ℕ, (cfg.entry.isSome ∨ w = m) → addConfigure cfg ⟨true, cfg.entry, s'.scaleCarry, s'.offset, s'.acc⟩ w = s' := by
        intro w hw
        have hoff : s'.offset = (addConfigure cfg (addInit cfg) m).offset := by rw [hc]
        rw [hc]
        rcases hw with hw | rfl
        · obtain ⟨e, he⟩ := Option.isSome_iff_exists.mp hw
          simp only [addConfigure, addInit, if_true, he]
          cases cfg.mode <;> rfl
        · simp only [addConfigure, addInit, if_true]
          cases cfg.mode <;> rfl
      have hf : s'.first = false := by rw [hc]; simp [addConfigure, addInit]
      have k2 : ∀ w, addConfigure cfg s' w = s' := fun w => by unfold addConfigure; rw [hf]; rfl
      simp only [addT, dimPos_ok hy, bind, Except.bind, key _ hw, k2]
    · rintro ⟨k, hk, hn⟩
      have e1 : s'.acc.shape ≠ [1] := fun h => hn ((join_lone hu).mp (hsh ▸ h) k hk _ (List.mem_singleton.mpr rfl))
      unfold loadAdd
      simp only [loadP_no (p := (addInit cfg).acc) (saved := s'.acc) e1.symm]
  · obtain ⟨e, he⟩ := h2 hj
    rw [he] at hs; exact absurd hs (by simp)

example : (∃ s, stateAtE (addT ⟨.bipolar, none, none, 10⟩ 0) (addInit ⟨.bipolar, none, none, 10⟩) (fun _ => ⟨[4], fun _ => 1⟩) 2 = .ok s) ∧
    ∃ s, stateAtE (addT ⟨.bipolar, none, none, 10⟩ 0) (addInit ⟨.bipolar, none, none, 10⟩) (fun _ => ⟨[4, 3], fun _ => 1⟩) 2 = .ok s :=
  ⟨⟨_, rfl⟩, _, rfl⟩

theorem map2_scalar {α β γ : Type} (f : α → β → γ) (a : α) (b : β) : map2 f ⟨[], fun _ => a⟩ (one b) = .ok (one (f a b)) := rfl

/-- A call of an adder with one-element state on `n` streams. -/
theorem add_row (cfg : Adder.Cfg) (s : AddSt) (a : ℚ) (ha : s.acc = one a) (n : ℕ) (v : ℤ) :
    addT cfg 0 s ⟨[n], fun _ => v⟩ =
      .ok ({ addConfigure cfg s n with
          acc := one (Adder.accumulate cfg ⟨false, none, (addConfigure cfg s n).scaleCarry, (addConfigure cfg s n).offset, a⟩
            { xs := List.replicate n (v : ℚ) }).1.acc },
        one (Adder.accumulate cfg ⟨false, none, (addConfigure cfg s n).scaleCarry, (addConfigure cfg s n).offset, a⟩
            { xs := List.replicate n (v : ℚ) }).2) := by
  have hacc : (addConfigure cfg s n).acc = one a := by unfold addConfigure; split_ifs <;> exact ha
  have hsum : sumDim ⟨[n], fun _ => v⟩ 0 = ⟨[], fun _ => (List.replicate n (v : ℚ)).sum⟩ := by
    unfold sumDim along; simp
  simp only [addT, dimPos, List.length_singleton, le_refl, true_and, bind, Except.bind, pure, Except.pure, Nat.cast_one, zero_lt_one, if_true,
    sub_self, Int.toNat_zero, List.getD_cons_zero, hsum, map2_scalar, hacc, map2_one, map2In_one]
  rfl

/-- Violated if the number of addends was left open: an adder that was first called with three addends goes on dividing by
three, but a new adder with its checkpoint divides by the number of addends of its own first call. -/
theorem C102_add_width : ∃ (cfg : Adder.Cfg) (x y : ℕ → Tensor ℤ) (s : AddSt), stateAtE (addT cfg 0) (addInit cfg) x 1 = .ok s ∧
    (loadAdd (addInit cfg) s).2 = true ∧ ∃ a b : Tensor ℤ, outAtE (addT cfg 0) s y 0 = .ok a ∧ outAtE (addT cfg 0) (loadAdd (addInit cfg) s).1 y 0 = .ok b ∧
      a.shape = [1] ∧ b.shape = [1] ∧ a.at' [0] = 0 ∧ b.at' [0] = 1 := by
  let cfg : Adder.Cfg := ⟨.unipolar, none, none, 10⟩
  have hb : accBound 10 = 256 := by unfold accBound; norm_num
  have e1 : stateAtE (addT cfg 0) (addInit cfg) (fun _ => ⟨[3], fun _ => 1⟩) 1 = .ok ⟨false, some 3, 3, 0, one 0⟩ := by
    refine stateAtE_succ_ok (s := addInit cfg) (o := one 1) rfl ?_
    rw [add_row cfg (addInit cfg) 0 rfl]
    norm_num [addConfigure, addInit, Adder.accumulate, cfg, hb, clamp, ind, List.replicate]
  refine ⟨cfg, fun _ => ⟨[3], fun _ => 1⟩, fun _ => ⟨[2], fun _ => 1⟩, ⟨false, some 3, 3, 0, one 0⟩, e1, rfl, one 0, one 1, ?_, ?_, rfl, rfl, rfl, rfl⟩
  · refine outAtE_ok (s := ⟨false, some 3, 3, 0, one 0⟩) (s' := ⟨false, some 3, 3, 0, one 2⟩) rfl ?_
    rw [add_row cfg _ 0 rfl]
    norm_num [addConfigure, addInit, Adder.accumulate, cfg, hb, clamp, ind, List.replicate]
  · refine outAtE_ok (s := ⟨true, none, 3, 0, one 0⟩) (s' := ⟨false, some 2, 2, 0, one 0⟩) rfl ?_
    rw [add_row cfg _ 0 rfl]
    norm_num [addConfigure, addInit, Adder.accumulate, cfg, hb, clamp, ind, List.replicate]

/-- Violated for a scale given at run time: it is used by all later calls of the saved adder, but not by a new adder with its
checkpoint. -/
theorem C102_add_scale : ∃ (cfg : Adder.Cfg) (a b : Adder.Arg), b.scale = none ∧
    (Adder.step cfg (Adder.step cfg (Adder.init cfg) a).1 b).2 = 0 ∧
    (Adder.step cfg (loadAdder (Adder.init cfg) (Adder.step cfg (Adder.init cfg) a).1) b).2 = 1 := by
  have hb : accBound 10 = 256 := by unfold accBound; norm_num
  refine ⟨⟨.unipolar, none, none, 10⟩, { xs := [1, 1], scale := some 4 }, { xs := [0, 0] }, rfl, ?_, ?_⟩ <;>
    norm_num [Adder.step, Adder.configure, Adder.init, Adder.accumulate, loadAdder, hb, clamp, ind]

/-! ### Shift register -/

theorem sr_shape {entry : ℕ} {s s' : SrSt} {x : Tensor ℤ} {m : Option (Tensor ℤ)} {index : ℕ} {o : Tensor ℤ × Tensor ℤ}
    (h : srT entry s x m index = .ok (s', o)) : s'.first = false ∧ s'.cells.shape = if s.first then x.shape else s.cells.shape := by
  have hc : (if s.first then map1 (fun _ => srInit entry) x else s.cells).shape = if s.first then x.shape else s.cells.shape := by
    split_ifs <;> rfl
  simp only [srT, bind, Except.bind, pure, Except.pure] at h
  generalize (if s.first then map1 (fun _ => srInit entry) x else s.cells) = c at h hc
  split at h
  · exact absurd h (by simp)
  · split at h
    · exact absurd h (by simp)
    · rename_i sh hsh
      obtain ⟨h1, h2⟩ := map2In_shape hsh
      cases m with
      | none =>
        obtain ⟨h3, _⟩ := Prod.mk.inj (Except.ok.inj h)
        rw [← h3]; exact ⟨rfl, h1.trans hc⟩
      | some m =>
        dsimp only at h
        split at h
        · exact absurd h (by simp)
        · rename_i hm
          have hm : m.shape = x.shape := by simpa using hm
          split at h
          · exact absurd h (by simp)
          · rename_i a ha
            split at h
            · exact absurd h (by simp)
            · rename_i b hb
              split at h
              · exact absurd h (by simp)
              · rename_i d hd
                obtain ⟨h3, _⟩ := Prod.mk.inj (Except.ok.inj h)
                rw [← h3]
                refine ⟨rfl, ?_⟩
                have ha' := map2_shape ha
                have hb' := map2_shape hb
                have hd' := map2_shape hd
                rw [h1, hm, bc_right h2] at ha'
                rw [hm, bc_right h2] at hb'
                rw [← Option.some.inj ha', ← Option.some.inj hb', bc_left (fits_refl _)] at hd'
                rw [← hc]; exact (Option.some.inj hd').symm

/-- The calls of a shift register: input, enabling mask, index. -/
abbrev srCall (entry : ℕ) (s : SrSt) (i : Tensor ℤ × Option (Tensor ℤ) × ℕ) : Except PyErr (SrSt × (Tensor ℤ × Tensor ℤ)) :=
  srT entry s i.1 i.2.1 i.2.2

/-- `ShiftReg` cannot be restored.  After any call, loading its checkpoint raises if the first input had a dimension; and whether
it raises or not, the new register then behaves as if nothing had been saved. -/
theorem C102_shiftreg (entry : ℕ) (x : ℕ → Tensor ℤ × Option (Tensor ℤ) × ℕ) (n : ℕ) (s : SrSt)
    (hs : stateAtE (srCall entry) (srInitT entry) x (n + 1) = .ok s) :
    ((loadSr (srInitT entry) s).2 = true ↔ (x 0).1.shape = []) ∧
    ∀ (y : ℕ → Tensor ℤ × Option (Tensor ℤ) × ℕ) (t : ℕ),
      outAtE (srCall entry) (loadSr (srInitT entry) s).1 y t = outAtE (srCall entry) (srInitT entry) y t := by
  have key : ∀ {n : ℕ} {s : SrSt}, stateAtE (srCall entry) (srInitT entry) x (n + 1) = .ok s → s.first = false ∧ s.cells.shape = (x 0).1.shape := by
    intro n
    induction n with
    | zero =>
      intro s hs
      obtain ⟨s1, o, h1, h2⟩ := stateAtE_succ_inv hs
      rw [← Except.ok.inj h1] at h2
      exact sr_shape h2
    | succ n ih =>
      intro s hs
      obtain ⟨s1, o, h1, h2⟩ := stateAtE_succ_inv hs
      obtain ⟨h3, h4⟩ := sr_shape h2
      rw [(ih h1).1, if_neg (by simp), (ih h1).2] at h4
      exact ⟨h3, h4⟩
  constructor
  · unfold loadSr
    by_cases h : (x 0).1.shape = []
    · simp only [loadP_ok (p := (srInitT entry).cells) (saved := s.cells) (((key hs).2.trans h).symm), h]
    · simp only [loadP_no (p := (srInitT entry).cells) (saved := s.cells) (fun he => h ((key hs).2.symm.trans he.symm)), h]
      simp
  · intro y t
    refine outAtE_first ?_ t
    have hf : (loadSr (srInitT entry) s).1.first = true := rfl
    simp only [srCall, srT, hf, show (srInitT entry).first = true from rfl, if_true]

example : ∃ s, stateAtE (srCall 2) (srInitT 2) (fun _ => (⟨[2, 3], fun _ => 1⟩, none, 1)) 2 = .ok s := ⟨_, rfl⟩

/-! ### Modules with a shift register -/

theorem mulStream_shape {mode : Mode} {width : ℕ} {rng : List ℤ} {s s' : MulStreamSt} {i : Tensor ℤ × Tensor ℤ} {o : Tensor ℤ}
    (h : mulStreamT mode width rng s i = .ok (s', o)) :
    s'.sr.first = false ∧ s'.sr.cells.shape = if s.sr.first then i.2.shape else s.sr.cells.shape := by
  simp only [mulStreamT, bind, Except.bind, pure, Except.pure] at h
  split at h
  · exact absurd h (by simp)
  · rename_i r hr
    have hsr := sr_shape (s' := r.1) (o := r.2) hr
    repeat' (split at h <;> try (cases h; done))
    all_goals
      obtain ⟨h3, _⟩ := Prod.mk.inj (Except.ok.inj h)
      rw [← h3]; exact hsr

/-- In-stream `FSUMul`: once it was called with a second operand that has a dimension, loading its checkpoint raises. -/
theorem C102_mul_stream (mode : Mode) (width : ℕ) (rng : List ℤ) (x : ℕ → Tensor ℤ × Tensor ℤ) (hx : (x 0).2.shape ≠ []) (n : ℕ)
    (s : MulStreamSt) (hs : stateAtE (mulStreamT mode width rng) (mulStreamInit width) x (n + 1) = .ok s) :
    (loadMulStream mode (mulStreamInit width) s).2 = false := by
  have key : ∀ {n : ℕ} {s : MulStreamSt}, stateAtE (mulStreamT mode width rng) (mulStreamInit width) x (n + 1) = .ok s →
      s.sr.first = false ∧ s.sr.cells.shape = (x 0).2.shape := by
    intro n
    induction n with
    | zero =>
      intro s hs
      obtain ⟨s1, o, h1, h2⟩ := stateAtE_succ_inv hs
      rw [← Except.ok.inj h1] at h2
      exact mulStream_shape h2
    | succ n ih =>
      intro s hs
      obtain ⟨s1, o, h1, h2⟩ := stateAtE_succ_inv hs
      obtain ⟨h3, h4⟩ := mulStream_shape h2
      rw [(ih h1).1, if_neg (by simp), (ih h1).2] at h4
      exact ⟨h3, h4⟩
  have : (loadSr (mulStreamInit width).sr s.sr).2 = false := by
    unfold loadSr
    rw [loadP_no (p := (mulStreamInit width).sr.cells) (saved := s.sr.cells) (fun he => hx ((key hs).2.symm.trans he.symm))]
  unfold loadMulStream
  simp only [this, Bool.and_false]

example : ∃ s, stateAtE (mulStreamT .bipolar 1 [0, 1]) (mulStreamInit 1) (fun _ => (⟨[2, 3], fun _ => 1⟩, ⟨[2, 3], fun _ => 1⟩)) 2 = .ok s := ⟨_, rfl⟩

/-- A refused checkpoint may still have been loaded in part.  Here the index into the number sequence was taken over although
loading raised: the module gives a zero, where both a new module and the saved one give a one. -/
theorem C102_in_part : ∃ (rng : List ℤ) (x y : ℕ → Tensor ℤ × Tensor ℤ) (s : MulStreamSt),
    stateAtE (mulStreamT .unipolar 1 rng) (mulStreamInit 1) x 1 = .ok s ∧ (loadMulStream .unipolar (mulStreamInit 1) s).2 = false ∧
    outAtE (mulStreamT .unipolar 1 rng) (loadMulStream .unipolar (mulStreamInit 1) s).1 y 0 = .ok (one 0) ∧
    outAtE (mulStreamT .unipolar 1 rng) (mulStreamInit 1) y 0 = .ok (one 1) ∧
    outAtE (mulStreamT .unipolar 1 rng) s y 0 = .ok (one 1) := by
  refine ⟨[0, 1], fun _ => (one 1, one 1), fun _ => (one 1, one 1), ⟨one 1, one 0, ⟨false, one [1, 1]⟩⟩, rfl, rfl, rfl, rfl, rfl⟩

theorem bind_ok {α β : Type} {m : Except PyErr α} {f : α → Except PyErr β} {b : β} (h : (m >>= f) = .ok b) :
    ∃ a, m = .ok a ∧ f a = .ok b := by
  cases m with
  | error e => exact absurd h (by simp [bind, Except.bind])
  | ok a => exact ⟨a, rfl, h⟩

theorem bc_nil {s t : List ℕ} (h : bc s t = some []) : s = [] ∧ t = [] := by
  obtain ⟨h1, h2, _⟩ := bc_some h
  constructor
  · cases s with
    | nil => rfl
    | cons a s => exact h1.elim
  · cases t with
    | nil => rfl
    | cons a t => exact h2.elim

theorem cor_shape {entry : ℕ} {rng : List ℤ} {s s' : CorSt} {i : Tensor ℤ × Tensor ℤ} {o : Tensor ℤ} (h : corT entry rng s i = .ok (s', o)) :
    s'.sr.first = false ∧ s'.sr.cells.shape = if s.sr.first then i.1.shape else s.sr.cells.shape := by
  unfold corT at h
  dsimp only at h
  split at h
  · cases h
  · split at h
    · cases h
    · obtain ⟨a, ha, h⟩ := bind_ok h
      obtain ⟨b, hb, h⟩ := bind_ok h
      obtain ⟨c, hc, h⟩ := bind_ok h
      obtain ⟨q, hq, h⟩ := bind_ok h
      obtain ⟨⟨r, w⟩, hr, h⟩ := bind_ok h
      have hs := sr_shape hr
      have hqs : q.shape = i.1.shape := by
        unfold viewT at hq
        split at hq
        · rw [← Except.ok.inj hq]
        · cases hq
      rw [hqs] at hs
      rw [← (Prod.mk.inj (Except.ok.inj h)).1]
      exact hs

/-- `CORDIV_kernel`: once it was called with a dividend that has a dimension, loading its checkpoint raises. -/
theorem C102_cordiv (entry : ℕ) (rng : List ℤ) (x : ℕ → Tensor ℤ × Tensor ℤ) (hx : (x 0).1.shape ≠ []) (n : ℕ) (s : CorSt)
    (hs : stateAtE (corT entry rng) (corInitT entry) x (n + 1) = .ok s) : (loadCor (corInitT entry) s).2 = false := by
  have key : ∀ {n : ℕ} {s : CorSt}, stateAtE (corT entry rng) (corInitT entry) x (n + 1) = .ok s → s.sr.first = false ∧ s.sr.cells.shape ≠ [] := by
    intro n
    induction n with
    | zero =>
      intro s hs
      obtain ⟨s1, o, h1, h2⟩ := stateAtE_succ_inv hs
      rw [← Except.ok.inj h1] at h2
      obtain ⟨h3, h4⟩ := cor_shape h2
      exact ⟨h3, h4 ▸ hx⟩
    | succ n ih =>
      intro s hs
      obtain ⟨s1, o, h1, h2⟩ := stateAtE_succ_inv hs
      obtain ⟨h3, h4⟩ := cor_shape h2
      rw [(ih h1).1, if_neg (by simp)] at h4
      exact ⟨h3, h4 ▸ (ih h1).2⟩
  have : (loadSr (corInitT entry).sr s.sr).2 = false := by
    unfold loadSr
    rw [loadP_no (p := (corInitT entry).sr.cells) (saved := s.sr.cells) (fun he => (key hs).2 he.symm)]
  unfold loadCor
  simp only [this, Bool.false_and]

example : ∃ s, stateAtE (corT 2 [0, 1]) (corInitT 2) (fun _ => (⟨[2, 3], fun _ => 1⟩, ⟨[2, 3], fun _ => 1⟩)) 2 = .ok s := ⟨_, rfl⟩

theorem load_cor_no {entry : ℕ} {s : CorSt} (h : s.sr.cells.shape ≠ []) : (loadCor (corInitT entry) s).2 = false := by
  have : (loadSr (corInitT entry).sr s.sr).2 = false := by
    unfold loadSr
    rw [loadP_no (p := (corInitT entry).sr.cells) (saved := s.sr.cells) (fun he => h he.symm)]
  unfold loadCor
  simp only [this, Bool.false_and]

theorem ss_inv {depth : ℕ} {c c' : Tensor ℤ} {i o : Tensor ℤ × Tensor ℤ} (h : ssT depth c i = .ok (c', o)) :
    bc i.1.shape i.2.shape = some o.1.shape := by
  cases hb : bc i.1.shape i.2.shape with
  | none =>
    have := map2_err (fun x1 x2 : ℤ => x1 + x2) hb
    simp only [ssT, this, bind, Except.bind] at h
    cases h
  | some u =>
    obtain ⟨c2, o2, hT, _, hsh, _⟩ := ss_call depth c i hb
    rw [← (Prod.mk.inj (Except.ok.inj (hT.symm.trans h))).2, hsh]

theorem divUni_shape {depthSs entry : ℕ} {rng : List ℤ} {s s' : DivSt} {i : Tensor ℤ × Tensor ℤ} {o : Tensor ℤ}
    (h : divUniT depthSs entry rng s i = .ok (s', o)) (h0 : s.cor.sr.first = true → ¬ (i.1.shape = [] ∧ i.2.shape = []))
    (h1 : s.cor.sr.first = false → s.cor.sr.cells.shape ≠ []) : s'.cor.sr.first = false ∧ s'.cor.sr.cells.shape ≠ [] := by
  unfold divUniT at h
  obtain ⟨⟨c, w⟩, hc, h⟩ := bind_ok h
  obtain ⟨⟨k, q⟩, hk, h⟩ := bind_ok h
  rw [← (Prod.mk.inj (Except.ok.inj h)).1]
  obtain ⟨h3, h4⟩ := cor_shape hk
  refine ⟨h3, ?_⟩
  show k.sr.cells.shape ≠ []
  rw [h4]
  cases hf : s.cor.sr.first with
  | true =>
    rw [if_pos rfl]
    exact fun he => h0 hf (bc_nil (he ▸ ss_inv hc))
  | false => rw [if_neg (by simp)]; exact h1 hf

theorem b2u_nonempty {depth : ℤ} {a a' : Tensor ℚ} {x o : Tensor ℤ} (h : bi2uniT depth a x = .ok (a', o)) (ha : a.shape ≠ []) : o.shape ≠ [] := by
  unfold bi2uniT at h
  obtain ⟨b, hb, h⟩ := bind_ok h
  obtain ⟨c, hc, h⟩ := bind_ok h
  rw [← (Prod.mk.inj (Except.ok.inj h)).2]
  exact fun he => ha (bc_nil ((map2_shape hb).trans (congrArg some he))).1

theorem div_cor {mode : Mode} {depthSa : ℤ} {depthSs entry : ℕ} {rng : List ℤ} {s s' : DivSt} {i : Tensor ℤ × Tensor ℤ} {o : Tensor ℤ}
    (h : divT mode depthSa depthSs entry rng s i = .ok (s', o))
    (h0 : s.cor.sr.first = true → s.b2uDividend.shape ≠ [] ∧ (mode = .unipolar → ¬ (i.1.shape = [] ∧ i.2.shape = [])))
    (h1 : s.cor.sr.first = false → s.cor.sr.cells.shape ≠ []) : s'.cor.sr.first = false ∧ s'.cor.sr.cells.shape ≠ [] := by
  cases mode with
  | unipolar => exact divUni_shape h (fun hf => (h0 hf).2 rfl) h1
  | bipolar =>
    unfold divT at h
    dsimp only at h
    obtain ⟨⟨a1, sg1, ab1⟩, ha1, h⟩ := bind_ok h
    obtain ⟨⟨a2, sg2, ab2⟩, ha2, h⟩ := bind_ok h
    obtain ⟨⟨b1, u1⟩, hb1, h⟩ := bind_ok h
    obtain ⟨⟨b2, u2⟩, hb2, h⟩ := bind_ok h
    obtain ⟨⟨sd, q⟩, hd, h⟩ := bind_ok h
    obtain ⟨⟨u, bq⟩, hu, h⟩ := bind_ok h
    obtain ⟨g, hg, h⟩ := bind_ok h
    obtain ⟨z, hz, h⟩ := bind_ok h
    rw [← (Prod.mk.inj (Except.ok.inj h)).1]
    exact divUni_shape (s' := sd) (i := (u1, u2)) hd (fun hf he => b2u_nonempty hb1 (h0 hf).1 he.1) h1

/-- `FSUDiv`: after any call (in unipolar mode: with an operand that has a dimension), loading its checkpoint raises. -/
theorem C102_div (mode : Mode) (isFloat : Bool) (depthSa : ℤ) (depthSs entry : ℕ) (rng : List ℤ) (x : ℕ → Tensor ℤ × Tensor ℤ)
    (hx : mode = .unipolar → ¬ ((x 0).1.shape = [] ∧ (x 0).2.shape = [])) (n : ℕ) (s : DivSt)
    (hs : stateAtE (divT mode depthSa depthSs entry rng) (divInit depthSa entry) x (n + 1) = .ok s) :
    (loadDiv mode isFloat (divInit depthSa entry) s).2 = false := by
  have key : ∀ {n : ℕ} {s : DivSt}, stateAtE (divT mode depthSa depthSs entry rng) (divInit depthSa entry) x (n + 1) = .ok s →
      s.cor.sr.first = false ∧ s.cor.sr.cells.shape ≠ [] := by
    intro n
    induction n with
    | zero =>
      intro s hs
      obtain ⟨s1, o, h1, h2⟩ := stateAtE_succ_inv hs
      rw [← Except.ok.inj h1] at h2
      exact div_cor h2 (fun _ => ⟨by simp [divInit, one], hx⟩) (fun hf => absurd hf (by simp [divInit, corInitT, srInitT]))
    | succ n ih =>
      intro s hs
      obtain ⟨s1, o, h1, h2⟩ := stateAtE_succ_inv hs
      exact div_cor h2 (fun hf => absurd hf (by simp [(ih h1).1])) (fun _ => (ih h1).2)
  have := load_cor_no (entry := entry) (key hs).2
  unfold loadDiv
  cases mode with
  | unipolar => show (_ && (loadCor (corInitT entry) s.cor).2) = false; rw [this, Bool.and_false]
  | bipolar => show (_ && (loadCor (corInitT entry) s.cor).2) = false; rw [this, Bool.and_false]

example : ∃ s, stateAtE (divT .bipolar 4 2 2 [0, 1]) (divInit 4 2) (fun _ => (⟨[2, 3], fun _ => 1⟩, ⟨[2, 3], fun _ => 1⟩)) 2 = .ok s := ⟨_, rfl⟩

/-! ### Square root -/

theorem add_nonempty {cfg : Adder.Cfg} {dima : ℤ} {s s' : AddSt} {x o : Tensor ℤ} (h : addT cfg dima s x = .ok (s', o)) : o.shape ≠ [] := by
  unfold addT at h
  obtain ⟨k, hk, h⟩ := bind_ok h
  obtain ⟨d, hd, h⟩ := bind_ok h
  obtain ⟨a, ha, h⟩ := bind_ok h
  obtain ⟨o', ho, h⟩ := bind_ok h
  obtain ⟨oc, hoc, h⟩ := bind_ok h
  obtain ⟨a', ha', h⟩ := bind_ok h
  rw [← (Prod.mk.inj (Except.ok.inj h)).2]
  exact fun he => absurd (bc_nil ((map2_shape ho).trans (congrArg some he))).2 (by simp [one])

/-- The registers of the square root hold streams with a dimension. -/
def sqrtUsed (cfg : Sqrt.Cfg) (s : SqrtSt) : Prop :=
  if cfg.emit then s.sr.first = false ∧ s.sr.cells.shape ≠ []
  else s.cor.sr.first = false ∧ s.cor.sr.cells.shape ≠ []

theorem trace_used {cfg : Sqrt.Cfg} (hj : cfg.jkTrace = false) {rng : List ℤ} {s s' : SqrtSt} {x o : Tensor ℤ}
    (h : unipolarTraceT cfg rng s x = .ok (s', o)) (h0 : s.cor.sr.first = true → s.dff.shape ≠ [])
    (h1 : s.cor.sr.first = false → s.cor.sr.cells.shape ≠ []) :
    (s'.cor.sr.first = false ∧ s'.cor.sr.cells.shape ≠ []) ∧ s'.sr = s.sr := by
  unfold unipolarTraceT at h
  rw [hj, if_neg (by simp)] at h
  obtain ⟨d, hd, h⟩ := bind_ok h
  obtain ⟨e, he, h⟩ := bind_ok h
  obtain ⟨⟨c, w⟩, hc, h⟩ := bind_ok h
  rw [← (Prod.mk.inj (Except.ok.inj h)).1]
  obtain ⟨h3, h4⟩ := cor_shape hc
  refine ⟨⟨h3, ?_⟩, rfl⟩
  show c.sr.cells.shape ≠ []
  rw [h4]
  cases hf : s.cor.sr.first with
  | true =>
    rw [if_pos rfl]
    exact fun hd' => h0 hf (bc_nil ((map2_shape hd).trans (congrArg some hd'))).1
  | false => rw [if_neg (by simp)]; exact h1 hf

theorem sr_used {entry : ℕ} {s s' : SrSt} {x : Tensor ℤ} {m : Option (Tensor ℤ)} {index : ℕ} {o : Tensor ℤ × Tensor ℤ}
    (h : srT entry s x m index = .ok (s', o)) (h0 : x.shape ≠ []) (h1 : s.first = false → s.cells.shape ≠ []) :
    s'.first = false ∧ s'.cells.shape ≠ [] := by
  obtain ⟨h3, h4⟩ := sr_shape h
  refine ⟨h3, ?_⟩
  rw [h4]
  cases hf : s.first with
  | true => rw [if_pos rfl]; exact h0
  | false => rw [if_neg (by simp)]; exact h1 hf

/-- Registers that were filled hold streams with a dimension. -/
structure SqrtFilled (s : SqrtSt) : Prop where
  dff : s.cor.sr.first = true → s.dff.shape ≠ []
  sr : s.sr.first = false → s.sr.cells.shape ≠ []
  cor : s.cor.sr.first = false → s.cor.sr.cells.shape ≠ []

theorem sqrt_used {cfg : Sqrt.Cfg} (hj : cfg.emit = true ∨ cfg.jkTrace = false) {rng : List ℤ} {s s' : SqrtSt} {x o : Tensor ℤ}
    (h : sqrtT cfg rng s x = .ok (s', o)) (hf : SqrtFilled s) : sqrtUsed cfg s' ∧ SqrtFilled s' := by
  unfold sqrtT at h
  unfold sqrtUsed
  cases he : cfg.emit with
  | true =>
    rw [he, if_pos rfl] at h
    rw [if_pos rfl]
    dsimp only at h
    obtain ⟨st, hst, h⟩ := bind_ok h
    obtain ⟨⟨a, out⟩, ha, h⟩ := bind_ok h
    have ho := add_nonempty ha
    cases hm : cfg.mode with
    | unipolar =>
      rw [hm] at h
      dsimp only at h
      obtain ⟨⟨s2, e⟩, hs2, h⟩ := bind_ok h
      unfold unipolarEmitT at hs2
      obtain ⟨⟨r, w, c⟩, hr, hs2⟩ := bind_ok hs2
      obtain ⟨z, hz, hs2⟩ := bind_ok hs2
      have hu := sr_used hr ho hf.sr
      rw [← (Prod.mk.inj (Except.ok.inj h)).1]
      have h2 := (Prod.mk.inj (Except.ok.inj hs2)).1
      subst h2
      exact ⟨hu, hf.dff, fun _ => hu.2, hf.cor⟩
    | bipolar =>
      rw [hm] at h
      dsimp only at h
      obtain ⟨⟨s2, e⟩, hs2, h⟩ := bind_ok h
      unfold bipolarEmitT at hs2
      obtain ⟨⟨r, w, c⟩, hr, hs2⟩ := bind_ok hs2
      obtain ⟨⟨b, u⟩, hb, hs2⟩ := bind_ok hs2
      obtain ⟨z, hz, hs2⟩ := bind_ok hs2
      have hu := sr_used hr ho hf.sr
      rw [← (Prod.mk.inj (Except.ok.inj h)).1]
      have h2 := (Prod.mk.inj (Except.ok.inj hs2)).1
      subst h2
      exact ⟨hu, hf.dff, fun _ => hu.2, hf.cor⟩
  | false =>
    have hj := hj.resolve_left (by simp [he])
    rw [he, if_neg (by simp)] at h
    rw [if_neg (by simp)]
    obtain ⟨m, hm', h⟩ := bind_ok h
    obtain ⟨out, ho, h⟩ := bind_ok h
    cases hm : cfg.mode with
    | unipolar =>
      rw [hm] at h
      dsimp only at h
      obtain ⟨⟨s2, t⟩, hs2, h⟩ := bind_ok h
      have hu := trace_used hj hs2 hf.dff hf.cor
      rw [← (Prod.mk.inj (Except.ok.inj h)).1]
      exact ⟨hu.1, fun h' => absurd h' (by show ¬ s2.cor.sr.first = true; simp [hu.1.1]), by
        show s2.sr.first = false → s2.sr.cells.shape ≠ []; rw [hu.2]; exact hf.sr, fun _ => hu.1.2⟩
    | bipolar =>
      rw [hm] at h
      dsimp only at h
      obtain ⟨⟨s2, t⟩, hs2, h⟩ := bind_ok h
      unfold bipolarTraceT at hs2
      obtain ⟨⟨b, u⟩, hb, hs2⟩ := bind_ok hs2
      have hu := trace_used (s := { s with b2u := b }) hj hs2 hf.dff hf.cor
      rw [← (Prod.mk.inj (Except.ok.inj h)).1]
      exact ⟨hu.1, fun h' => absurd h' (by show ¬ s2.cor.sr.first = true; simp [hu.1.1]), by
        show s2.sr.first = false → s2.sr.cells.shape ≠ []; rw [hu.2]; exact hf.sr, fun _ => hu.1.2⟩

/-- `FSUSqrt` with emitted or divided feedback: after any call, loading its checkpoint raises. -/
theorem C102_sqrt (cfg : Sqrt.Cfg) (hj : cfg.emit = true ∨ cfg.jkTrace = false) (isFloat : Bool) (rng : List ℤ) (x : ℕ → Tensor ℤ) (n : ℕ)
    (s : SqrtSt) (hs : stateAtE (sqrtT cfg rng) (sqrtInit cfg) x (n + 1) = .ok s) :
    (loadSqrt cfg isFloat (sqrtInit cfg) s).2 = false := by
  have hf0 : SqrtFilled (sqrtInit cfg) :=
    ⟨fun _ => by simp [sqrtInit, one], fun h => absurd h (by simp [sqrtInit, srInitT]), fun h => absurd h (by simp [sqrtInit, corInitT, srInitT])⟩
  have hf : ∀ {n : ℕ} {s : SqrtSt}, stateAtE (sqrtT cfg rng) (sqrtInit cfg) x n = .ok s → SqrtFilled s := by
    intro n
    induction n with
    | zero => intro s hs; rw [← Except.ok.inj hs]; exact hf0
    | succ n ih =>
      intro s hs
      obtain ⟨s1, o, h1, h2⟩ := stateAtE_succ_inv hs
      exact (sqrt_used hj h2 (ih h1)).2
  obtain ⟨s1, o, h1, h2⟩ := stateAtE_succ_inv hs
  have hu := (sqrt_used hj h2 (hf h1)).1
  unfold sqrtUsed at hu
  unfold loadSqrt
  cases he : cfg.emit with
  | true =>
    rw [he, if_pos rfl] at hu
    have : (loadSr (sqrtInit cfg).sr s.sr).2 = false := by
      unfold loadSr
      rw [loadP_no (p := (sqrtInit cfg).sr.cells) (saved := s.sr.cells) (fun he => hu.2 he.symm)]
    simp only [if_pos, this, Bool.and_false, Bool.false_and]
  | false =>
    rw [he, if_neg (by simp)] at hu
    have : (loadCor (sqrtInit cfg).cor s.cor).2 = false := load_cor_no (entry := 4) hu.2
    simp only [hj.resolve_left (by simp [he]), this, Bool.and_false, Bool.false_and]
    rfl

example : ∃ s, stateAtE (sqrtT ⟨.bipolar, true, true, 2, 2⟩ [0, 1]) (sqrtInit ⟨.bipolar, true, true, 2, 2⟩) (fun _ => ⟨[2, 3], fun _ => 1⟩) 2 = .ok s := ⟨_, rfl⟩

theorem b2u_shape {depth : ℤ} {a a' : Tensor ℚ} {x o : Tensor ℤ} (h : bi2uniT depth a x = .ok (a', o)) :
    bc a.shape x.shape = some a'.shape ∧ o.shape = a'.shape := by
  unfold bi2uniT at h
  obtain ⟨b, hb, h⟩ := bind_ok h
  obtain ⟨c, hc, h⟩ := bind_ok h
  obtain ⟨h1, h2⟩ := Prod.mk.inj (Except.ok.inj h)
  rw [← h1, ← h2, (map2In_shape hc).1]
  have := map2_shape hb
  exact ⟨this, rfl⟩

theorem jk_shape {q q' o : Tensor ℤ} {x y : Tensor ℚ} {u : List ℕ} (h : jkT q (x, y) = .ok (q', o)) (h1 : Spec.Stretch [1] q.shape)
    (hq : Spec.Stretch q.shape u) (hx : x.shape = u) (hy : y.shape = u) : q'.shape = u ∧ o.shape = u := by
  have hsm : Spec.Smallest {r | r ∈ q.shape :: [x.shape, y.shape]} u := by
    refine ⟨?_, fun v hv => hx ▸ hv _ (by simp)⟩
    intro r hr
    have : r = q.shape ∨ r = x.shape ∨ r = y.shape := by simpa using hr
    rcases this with rfl | rfl | rfl
    · exact hq
    · rw [hx]; exact fits_refl u
    · rw [hy]; exact fits_refl u
  obtain ⟨s, o', hT, hs, ho, _⟩ := (jk_lifts q (x, y) trivial h1).1 u hsm
  obtain ⟨e1, e2⟩ := Prod.mk.inj (Except.ok.inj (hT.symm.trans h))
  rw [← e1, ← e2]; exact ⟨hs, ho⟩

/-- The state of a square root with traced feedback. -/
structure SqrtJk (cfg : Sqrt.Cfg) (A : Set (List ℕ)) (s : SqrtSt) : Prop where
  trace : Spec.Smallest A s.trace.shape
  jk : s.jk.shape = s.trace.shape
  b2u : cfg.mode = .bipolar → s.b2u.shape = s.trace.shape
  uni : cfg.mode = .unipolar → s.b2u = one 0
  rest : s.emitOut = one 0 ∧ s.nsadd = addInit Sqrt.addCfg ∧ s.sr = srInitT cfg.entrySr ∧ s.idx = 0 ∧ s.cor = corInitT 4 ∧ s.dff = one 0

theorem sqrtJk_run {cfg : Sqrt.Cfg} (he : cfg.emit = false) (hj : cfg.jkTrace = true) {rng : List ℤ} {x : ℕ → Tensor ℤ} : ∀ {n : ℕ} {s : SqrtSt},
    stateAtE (sqrtT cfg rng) (sqrtInit cfg) x n = .ok s → SqrtJk cfg (Spec.shapesSeen (fun x : Tensor ℤ => [x.shape]) x n) s := by
  intro n
  induction n with
  | zero =>
    intro s hs
    rw [← Except.ok.inj hs]
    exact ⟨join_seen_zero _ _, rfl, fun _ => rfl, fun _ => rfl, rfl, rfl, rfl, rfl, rfl, rfl⟩
  | succ n ih =>
    intro s hs
    obtain ⟨s1, o, h1, h⟩ := stateAtE_succ_inv hs
    obtain ⟨i1, i2, i3, i4, i5⟩ := ih h1
    have h1' : Spec.Stretch [1] s1.trace.shape := i1.1 _ (Or.inl rfl)
    unfold sqrtT at h
    rw [he, if_neg (by simp)] at h
    obtain ⟨m, hm', h⟩ := bind_ok h
    obtain ⟨out, ho, h⟩ := bind_ok h
    have b1 := map2_shape hm'
    change bc s1.trace.shape (x n).shape = some m.shape at b1
    have b1' := bc_some b1
    have b2 : bc m.shape s1.trace.shape = some out.shape := map2_shape ho
    rw [bc_left b1'.1] at b2
    have b2 := Option.some.inj b2
    have hsm := (join_seen_succ (x := x) (shapes := fun x : Tensor ℤ => [x.shape]) i1).mpr (join_two.mpr b1)
    cases hm : cfg.mode with
    | unipolar =>
      rw [hm] at h
      dsimp only at h
      obtain ⟨⟨s2, t⟩, hs2, h⟩ := bind_ok h
      unfold unipolarTraceT at hs2
      rw [hj, if_pos rfl] at hs2
      obtain ⟨⟨q, t'⟩, hq, hs2⟩ := bind_ok hs2
      obtain ⟨e1, e2⟩ := Prod.mk.inj (Except.ok.inj hs2)
      have e3 := (Prod.mk.inj (Except.ok.inj h)).1
      dsimp only at e1 e2 e3
      obtain ⟨hq1, hq2⟩ := jk_shape (u := m.shape) hq (i2 ▸ h1') (i2 ▸ b1'.1) b2.symm b2.symm
      subst e3 e1 e2
      exact ⟨hq2 ▸ hsm, hq1.trans hq2.symm, fun hc => absurd hc (by simp [hm]), fun _ => i4 hm, i5⟩
    | bipolar =>
      rw [hm] at h
      dsimp only at h
      obtain ⟨⟨s2, t⟩, hs2, h⟩ := bind_ok h
      unfold bipolarTraceT at hs2
      obtain ⟨⟨b, u⟩, hb, hs2⟩ := bind_ok hs2
      change unipolarTraceT cfg rng { s1 with b2u := b } u = _ at hs2
      unfold unipolarTraceT at hs2
      rw [hj, if_pos rfl] at hs2
      obtain ⟨⟨q, t'⟩, hq, hs2⟩ := bind_ok hs2
      obtain ⟨e1, e2⟩ := Prod.mk.inj (Except.ok.inj hs2)
      have e3 := (Prod.mk.inj (Except.ok.inj h)).1
      dsimp only at e1 e2 e3 hq
      obtain ⟨hb1, hb2⟩ := b2u_shape hb
      rw [i3 hm, ← b2, bc_right b1'.1] at hb1
      have hb1 := Option.some.inj hb1
      obtain ⟨hq1, hq2⟩ := jk_shape (u := m.shape) hq (i2 ▸ h1') (i2 ▸ b1'.1) (hb2.trans hb1.symm) (hb2.trans hb1.symm)
      subst e3 e1 e2
      exact ⟨hq2 ▸ hsm, hq1.trans hq2.symm, fun _ => hb1.symm.trans hq2.symm, fun hc => absurd hc (by simp [hm]), i5⟩

theorem SqrtSt.eta {s : SqrtSt} {e d : Tensor ℤ} {b : AddSt} {r : SrSt} {i : ℕ} {c : CorSt} (h1 : s.emitOut = e) (h2 : s.nsadd = b) (h3 : s.sr = r)
    (h4 : s.idx = i) (h5 : s.cor = c) (h6 : s.dff = d) : s = ⟨e, b, r, i, s.b2u, s.trace, s.jk, c, d⟩ := by
  subst h1 h2 h3 h4 h5 h6; rfl

/-- `FSUSqrt` with traced feedback (in bipolar mode: with `btype` `torch.float`): after calls on single streams a new module with
the checkpoint goes on exactly as the saved one; if any input was larger, loading raises. -/
theorem C102_sqrt_jk (cfg : Sqrt.Cfg) (he : cfg.emit = false) (hj : cfg.jkTrace = true) (rng : List ℤ) (x : ℕ → Tensor ℤ) (n : ℕ)
    (s : SqrtSt) (hs : stateAtE (sqrtT cfg rng) (sqrtInit cfg) x n = .ok s) :
    ((∀ k < n, Spec.Lone (x k).shape) → Spec.Resumes (sqrtT cfg rng) (loadSqrt cfg true (sqrtInit cfg) s) s) ∧
    ((∃ k < n, ¬ Spec.Lone (x k).shape) → (loadSqrt cfg true (sqrtInit cfg) s).2 = false) := by
  obtain ⟨h1, h2, h3, h4, h5, h6, h7, h8, h9, h10⟩ := sqrtJk_run he hj hs
  constructor
  · intro h
    have e1 : s.trace.shape = [1] := (join_lone h1).mpr fun k hk => lone_one.mpr (h k hk)
    refine resumes_of_eq ?_
    unfold loadSqrt
    simp only [he, hj, loadP_ok (p := (sqrtInit cfg).trace) (saved := s.trace) e1.symm, loadP_ok (p := (sqrtInit cfg).jk) (saved := s.jk) (h2.trans e1).symm]
    cases hm : cfg.mode with
    | unipolar =>
      rw [SqrtSt.eta (s := s) h5 h6 h7 h8 h9 h10, h4 hm]; rfl
    | bipolar =>
      simp only [loadConv, if_true, loadP_ok (p := (sqrtInit cfg).b2u) (saved := s.b2u) ((h3 hm).trans e1).symm]
      rw [SqrtSt.eta (s := s) h5 h6 h7 h8 h9 h10]; rfl
  · rintro ⟨k, hk, hn⟩
    have e1 : s.trace.shape ≠ [1] := fun h => hn ((join_lone h1).mp h k hk _ (List.mem_singleton.mpr rfl))
    unfold loadSqrt
    simp only [he, hj, loadP_no (p := (sqrtInit cfg).trace) (saved := s.trace) e1.symm]
    simp

example : (∃ s, stateAtE (sqrtT ⟨.bipolar, true, false, 2, 2⟩ [0, 1]) (sqrtInit ⟨.bipolar, true, false, 2, 2⟩) (fun _ => one 1) 2 = .ok s) ∧ ∃ s, stateAtE (sqrtT ⟨.bipolar, true, false, 2, 2⟩ [0, 1]) (sqrtInit ⟨.bipolar, true, false, 2, 2⟩) (fun _ => ⟨[2, 3], fun _ => 1⟩) 2 = .ok s :=
  ⟨⟨_, rfl⟩, _, rfl⟩

/-! ### Stability -/

/-- Last cycle (counting from one) after the first `n` and not later than `n + k` whose error exceeds the threshold; `0` if none. -/
def Spec.lastUnstableSince (m : Mode) (src thr : ℚ) (x : ℕ → ℚ) (n k : ℕ) : ℕ :=
  ((Finset.Icc (n + 1) (n + k)).filter fun j => thr < |Spec.progErr m src x j|).sup id

theorem lastUnstableSince_succ (m : Mode) (src thr : ℚ) (x : ℕ → ℚ) (n k : ℕ) :
    Spec.lastUnstableSince m src thr x n (k + 1) =
      if thr < |Spec.progErr m src x (n + (k + 1))| then n + (k + 1) else Spec.lastUnstableSince m src thr x n k := by
  unfold Spec.lastUnstableSince
  have hI : Finset.Icc (n + 1) (n + (k + 1)) = insert (n + (k + 1)) (Finset.Icc (n + 1) (n + k)) := by
    ext j; simp only [Finset.mem_Icc, Finset.mem_insert]; omega
  rw [hI, Finset.filter_insert]
  split_ifs with h
  · rw [Finset.sup_insert]
    apply le_antisymm
    · apply sup_le (le_refl _)
      apply Finset.sup_le
      intro j hj
      have := (Finset.mem_Icc.1 (Finset.mem_filter.1 hj).1).2
      show j ≤ n + (k + 1); omega
    · exact le_sup_left
  · rfl

theorem stab_run (thr : ℚ) (m : Mode) (src : ℚ) (x : ℕ → ℚ) (n : ℕ) (s0 : Metric.Stab) (c : ℕ) (h1 : s0.threshold = thr) (h2 : s0.progerr.mode = m)
    (h3 : s0.progerr.source = src) (h4 : s0.progerr.cycle = n) (h5 : s0.progerr.oneCnt = ∑ t ∈ Finset.range n, x t) (h6 : s0.cts = c) (k : ℕ) :
    ∃ s, stabRun s0 (fun t => x (n + t)) k = .ok s ∧ s.threshold = thr ∧ s.progerr.mode = m ∧ s.progerr.source = src ∧
      s.progerr.cycle = (n + k : ℕ) ∧ s.progerr.oneCnt = ∑ t ∈ Finset.range (n + k), x t ∧
      s.cts = (if Spec.lastUnstableSince m src thr x n k = 0 then c else Spec.lastUnstableSince m src thr x n k : ℕ) := by
  induction k with
  | zero => exact ⟨s0, rfl, h1, h2, h3, h4, h5, by rw [h6]; simp [Spec.lastUnstableSince]⟩
  | succ k ih =>
    obtain ⟨s, hr, ht, hmo, hso, hc, ho, hct⟩ := ih
    have hne : (((n + k : ℕ) : ℚ)) + 1 ≠ 0 := by positivity
    have hmon : ∃ s', s.monitor (x (n + k)) = .ok s' ∧ s'.threshold = thr ∧ s'.progerr.mode = m ∧ s'.progerr.source = src ∧
        s'.progerr.cycle = ((n + k : ℕ) : ℚ) + 1 ∧ s'.progerr.oneCnt = ∑ t ∈ Finset.range (n + k + 1), x t ∧
        s'.cts = s.cts + ind (|Spec.progErr m src x (n + k + 1)| > thr) * (((n + k : ℕ) : ℚ) + 1 - s.cts) := by
      unfold Metric.Stab.monitor
      simp only [Metric.PE.monitor, Metric.PE.forward, hc]
      rw [if_neg hne]
      have e : ((n + k + 1 : ℕ) : ℚ) = ((n + k : ℕ) : ℚ) + 1 := by push_cast; rfl
      refine ⟨_, rfl, ht, hmo, hso, rfl, ?_, ?_⟩
      · rw [Finset.sum_range_succ, ho]
      · rw [hmo, hso, ho, ht]
        cases m
        · simp only [Spec.progErr, Finset.sum_range_succ, e]
        · simp only [Spec.progErr, Finset.sum_range_succ, e]
          rw [mul_comm 2]
    obtain ⟨s', hs', a1, a2, a3, a4, a5, a7⟩ := hmon
    refine ⟨s', ?_, a1, a2, a3, by rw [a4]; push_cast; ring, a5, ?_⟩
    · show (stabRun s0 (fun t => x (n + t)) k >>= fun r => r.monitor (x (n + k))) = _
      rw [hr]; exact hs'
    · rw [a7, hct, lastUnstableSince_succ]
      by_cases h : thr < |Spec.progErr m src x (n + (k + 1))|
      · rw [ind_true (by exact h), if_pos h, if_neg (show ¬ n + (k + 1) = 0 by omega)]; push_cast; ring
      · rw [ind_false (by exact h), if_neg h]; ring

theorem stab_split (s0 : Metric.Stab) (x : ℕ → ℚ) (n k : ℕ) {s : Metric.Stab} (h : stabRun s0 x n = .ok s) :
    stabRun s0 x (n + k) = stabRun s (fun t => x (n + t)) k := by
  induction k with
  | zero => exact h
  | succ k ih =>
    show (stabRun s0 x (n + k) >>= fun r => r.monitor (x (n + k))) = (stabRun s (fun t => x (n + t)) k >>= fun r => r.monitor (x (n + k)))
    rw [ih]

theorem stab_same (a b : Metric.Stab) (h : a.progerr = b.progerr) (x : ℕ → ℚ) (k : ℕ) {a' b' : Metric.Stab} (ha : stabRun a x k = .ok a')
    (hb : stabRun b x k = .ok b') : a'.progerr = b'.progerr := by
  induction k generalizing a' b' with
  | zero => cases ha; cases hb; exact h
  | succ k ih =>
    obtain ⟨a1, ha1, ha⟩ := bind_ok ha
    obtain ⟨b1, hb1, hb⟩ := bind_ok hb
    have e := ih ha1 hb1
    unfold Metric.Stab.monitor at ha hb
    rw [e] at ha
    obtain ⟨⟨p, v, w⟩, hp, ha⟩ := bind_ok ha
    obtain ⟨⟨p', v', w'⟩, hp', hb⟩ := bind_ok hb
    have e1 := Except.ok.inj (hp.symm.trans hp')
    cases e1; cases ha; cases hb; rfl

/-- A `Stability` restored after `n` observations shows the same progressive error as the saved one at all later times, but has
forgotten when the stream was last unstable: its report counts only what it saw after it was restored. -/
theorem C102_stability (source scale thr : ℚ) (m : Mode) (mode : String) (s0 : Metric.Stab) (hm : parseMode mode = .ok m) (hs : scale ≠ 0)
    (hi : Metric.Stab.init source scale mode thr = .ok s0) (x : ℕ → ℚ) (n k : ℕ) (hn : 0 < n) :
    ∃ s s1 s2, stabRun s0 x n = .ok s ∧ stabRun s0 x (n + k) = .ok s1 ∧ stabRun (loadStab s0 s) (fun t => x (n + t)) k = .ok s2 ∧
      s2.progerr = s1.progerr ∧
      s1.forward = .ok (1 - (max 1 (Spec.lastUnstable m (max (-1) (min (source / scale) 1)) thr x (n + k)) : ℕ) / (n + k : ℕ)) ∧
      s2.forward = .ok (1 - (max 1 (Spec.lastUnstableSince m (max (-1) (min (source / scale) 1)) thr x n k) : ℕ) / (n + k : ℕ)) := by
  have hcl : clamp (-1) 1 (source / scale) = max (-1) (min (source / scale) 1) := by
    unfold clamp
    rcases le_total (source / scale) (-1) with h | h
    · rw [max_eq_right h, min_eq_left (by norm_num), min_eq_left (by linarith), max_eq_left h]
    · rw [max_eq_left h]
      rcases le_total (source / scale) 1 with h' | h'
      · rw [min_eq_left h', max_eq_right h]
      · rw [min_eq_right h', max_eq_right (by norm_num)]
  have h0 : s0 = ⟨thr, 0, ⟨m, clamp (-1) 1 (source / scale), 0, 0, 0, 0⟩⟩ := by
    have hp : Metric.PE.init source scale mode = .ok ⟨m, clamp (-1) 1 (source / scale), 0, 0, 0, 0⟩ := by
      simp [Metric.PE.init, hm, Metric.scaledSource, hs]; rfl
    simp only [Metric.Stab.init, hp] at hi
    cases hi; rfl
  obtain ⟨s1, hs1, f1⟩ := C17_report source scale thr m mode s0 hm hs hi x (n + k) (by omega)
  obtain ⟨s, hr, g1, g2, g3, g4, g5, -⟩ := stab_run thr m (max (-1) (min (source / scale) 1)) x 0 s0 0 (by rw [h0]) (by rw [h0]) (by rw [h0, ← hcl])
    (by rw [h0]; simp) (by rw [h0]; simp) (by rw [h0]; simp) n
  simp only [Nat.zero_add] at hr g4 g5
  have hl : (loadStab s0 s).progerr = s.progerr := by
    have e1 : s0.progerr.mode = s.progerr.mode := by rw [g2, h0]
    have e2 : s0.progerr.source = s.progerr.source := by rw [g3, h0, ← hcl]
    unfold loadStab
    dsimp only
    rw [e1, e2]
  obtain ⟨s2, hs2, a1, a2, a3, a4, a5, a6⟩ := stab_run thr m (max (-1) (min (source / scale) 1)) x n (loadStab s0 s) 0 (by rw [h0]; rfl) (by rw [hl, g2]) (by rw [hl, g3])
    (by rw [hl, g4]) (by rw [hl, g5]) (by rw [h0]; simp [loadStab]) k
  refine ⟨s, s1, s2, hr, hs1, hs2, ?_, by rw [← hcl]; exact f1, ?_⟩
  · rw [stab_split s0 x n k hr] at hs1
    exact stab_same _ _ hl _ k hs2 hs1
  have hnq : ((n + k : ℕ) : ℚ) ≠ 0 := by have : n + k ≠ 0 := by omega
                                         exact_mod_cast this
  have hle : Spec.lastUnstableSince m (max (-1) (min (source / scale) 1)) thr x n k ≤ n + k := by
    unfold Spec.lastUnstableSince
    exact Finset.sup_le fun j hj => (Finset.mem_Icc.1 (Finset.mem_filter.1 hj).1).2
  unfold Metric.Stab.forward
  rw [a4, if_neg hnq, a6]
  have e : (if Spec.lastUnstableSince m (max (-1) (min (source / scale) 1)) thr x n k = 0 then 0
      else Spec.lastUnstableSince m (max (-1) (min (source / scale) 1)) thr x n k) = Spec.lastUnstableSince m (max (-1) (min (source / scale) 1)) thr x n k := by
    split_ifs with h
    · exact h.symm
    · rfl
  rw [e]
  generalize Spec.lastUnstableSince m (max (-1) (min (source / scale) 1)) thr x n k = t at *
  congr 3
  unfold clamp
  have h1 : (t:ℚ) ≤ (n + k : ℕ) := by exact_mod_cast hle
  have h2 : (1:ℚ) ≤ (n + k : ℕ) := by have : 1 ≤ n + k := by omega
                                      exact_mod_cast this
  rw [min_eq_left (max_le h1 h2), max_comm]
  push_cast; rfl

example : Spec.lastUnstable .unipolar 0 (49/100) (fun t => if t = 0 then 1 else 0) 4 = 2 ∧
    Spec.lastUnstableSince .unipolar 0 (49/100) (fun t => if t = 0 then 1 else 0) 2 2 = 0 := by
  constructor <;> decide +kernel

/-- Witness: observations `1, 0, 0, 0` of a stream that should be 0, threshold 0.49.  The report is 1/2, after a restart from a
checkpoint taken in the middle it is 3/4. -/
theorem C102_stability_forgets : ∃ (s0 s s1 s2 : Metric.Stab) (x : ℕ → ℚ), Metric.Stab.init 0 1 "unipolar" (49/100) = .ok s0 ∧
    stabRun s0 x 2 = .ok s ∧ stabRun s (fun t => x (2 + t)) 2 = .ok s1 ∧ stabRun (loadStab s0 s) (fun t => x (2 + t)) 2 = .ok s2 ∧
    s1.forward = .ok (1/2) ∧ s2.forward = .ok (3/4) := by
  have hm : parseMode "unipolar" = .ok .unipolar := by
    unfold parseMode
    rw [if_pos (by decide +kernel)]
  have hi : Metric.Stab.init 0 1 "unipolar" (49/100) = .ok ⟨49/100, 0, ⟨.unipolar, clamp (-1) 1 (0 / 1), 0, 0, 0, 0⟩⟩ := by
    simp [Metric.Stab.init, Metric.PE.init, hm, Metric.scaledSource]; rfl
  obtain ⟨s, s1, s2, h1, h2, h3, -, h4, h5⟩ := C102_stability 0 1 (49/100) .unipolar "unipolar" _ hm one_ne_zero hi (fun t => if t = 0 then 1 else 0) 2 2 two_pos
  refine ⟨_, s, s1, s2, _, hi, h1, (stab_split _ _ 2 2 h1).symm.trans h2, h3, ?_, ?_⟩
  · rw [h4, show max (-1) (min ((0:ℚ) / 1) 1) = 0 by norm_num,
      show Spec.lastUnstable .unipolar 0 (49/100) (fun t => if t = 0 then 1 else 0) (2 + 2) = 2 by decide +kernel]
    norm_num
  · rw [h5, show max (-1) (min ((0:ℚ) / 1) 1) = 0 by norm_num,
      show Spec.lastUnstableSince .unipolar 0 (49/100) (fun t => if t = 0 then 1 else 0) 2 2 = 0 by decide +kernel]
    norm_num

/-! ### Correlation -/

theorem corr_shapes {s s' : CorrSt} {o : Tensor ℚ × Option (Tensor ℚ)} {u : Unit} (h : monitorT s o = .ok (s', u)) :
    s'.d.shape = s.d.shape ∧ s'.c.shape = s.c.shape ∧ s'.b.shape = s.b.shape ∧ s'.a.shape = s.a.shape ∧ s'.len.shape = s.len.shape ∧
      s'.in1d = if o.2.isNone then o.1 else s.in1d := by
  unfold monitorT at h
  obtain ⟨_, -, h⟩ := bind_ok h
  obtain ⟨d, hd, h⟩ := bind_ok h
  obtain ⟨_, -, h⟩ := bind_ok h
  obtain ⟨c, hc, h⟩ := bind_ok h
  obtain ⟨_, -, h⟩ := bind_ok h
  obtain ⟨b, hb, h⟩ := bind_ok h
  obtain ⟨_, -, h⟩ := bind_ok h
  obtain ⟨a, ha, h⟩ := bind_ok h
  have e := (Prod.mk.inj (Except.ok.inj h)).1
  subst e
  exact ⟨(map2In_shape hd).1, (map2In_shape hc).1, (map2In_shape hb).1, (map2In_shape ha).1, rfl, rfl⟩

/-- `Correlation`: if every observation of one stream alone was a tensor of shape `[1]`, a new meter with the checkpoint is in all
respects the saved one.  If the last of them was a scalar, loading raises. -/
theorem C102_corr (x : ℕ → Tensor ℚ × Option (Tensor ℚ)) (n : ℕ) (s : CorrSt) (hs : stateAtE monitorT corrInit x n = .ok s) :
    ((∀ k < n, (x k).2 = none → (x k).1.shape = [1]) → loadCorr corrInit s = (s, true)) ∧
    ((∃ k < n, (x k).2 = none ∧ (x k).1.shape = [] ∧ ∀ j < n, k < j → (x j).2 ≠ none) → (loadCorr corrInit s).2 = false) := by
  have key : ∀ {n : ℕ} {s : CorrSt}, stateAtE monitorT corrInit x n = .ok s →
      s.d.shape = [1] ∧ s.c.shape = [1] ∧ s.b.shape = [1] ∧ s.a.shape = [1] ∧ s.len.shape = [1] ∧
      ((∀ k < n, (x k).2 = none → (x k).1.shape = [1]) → s.in1d.shape = [1]) ∧
      ((∃ k < n, (x k).2 = none ∧ (x k).1.shape = [] ∧ ∀ j < n, k < j → (x j).2 ≠ none) → s.in1d.shape = []) := by
    intro n
    induction n with
    | zero => intro s hs; rw [← Except.ok.inj hs]; exact ⟨rfl, rfl, rfl, rfl, rfl, fun _ => rfl, fun ⟨k, hk, _⟩ => absurd hk (by simp)⟩
    | succ n ih =>
      intro s hs
      obtain ⟨s1, o, h1, h2⟩ := stateAtE_succ_inv hs
      obtain ⟨a1, a2, a3, a4, a5, a6, a7⟩ := ih h1
      obtain ⟨b1, b2, b3, b4, b5, b6⟩ := corr_shapes h2
      refine ⟨b1.trans a1, b2.trans a2, b3.trans a3, b4.trans a4, b5.trans a5, fun h => ?_, ?_⟩
      · rw [b6]
        cases hx : (x n).2 with
        | none => exact h n (Nat.lt_succ_self n) hx
        | some y => exact a6 fun k hk => h k (Nat.lt_succ_of_lt hk)
      · rintro ⟨k, hk, hn, he, hl⟩
        rw [b6]
        rcases Nat.lt_succ_iff_lt_or_eq.mp hk with hk' | rfl
        · have := hl n (Nat.lt_succ_self n) hk'
          cases hx : (x n).2 with
          | none => exact absurd hx this
          | some y => exact a7 ⟨k, hk', hn, he, fun j hj => hl j (Nat.lt_succ_of_lt hj)⟩
        · rw [hn]; exact he
  obtain ⟨a1, a2, a3, a4, a5, a6, a7⟩ := key hs
  constructor
  · intro h
    unfold loadCorr
    rw [loadP_ok (p := corrInit.d) (saved := s.d) a1.symm, loadP_ok (p := corrInit.c) (saved := s.c) a2.symm, loadP_ok (p := corrInit.b) (saved := s.b) a3.symm,
      loadP_ok (p := corrInit.a) (saved := s.a) a4.symm, loadP_ok (p := corrInit.len) (saved := s.len) a5.symm,
      loadP_ok (p := corrInit.in1d) (saved := s.in1d) (a6 h).symm]
    rfl
  · intro h
    have e : corrInit.in1d.shape ≠ s.in1d.shape := by rw [a7 h]; decide
    unfold loadCorr
    rw [loadP_no e]
    simp

example : (∃ s, stateAtE monitorT corrInit (fun _ => (one 1, none)) 2 = .ok s) ∧ ∃ s, stateAtE monitorT corrInit (fun _ => (⟨[], fun _ => 1⟩, none)) 2 = .ok s :=
  ⟨⟨_, rfl⟩, _, rfl⟩

/-! ### The parallel counter of `FSULinear` -/

/-- The bias bit of output `o` at position `b` of its sequence. -/
private def bbit {I O : ℕ} (c : Linear.PC I O) (o : Fin O) (b : ℤ) : ℤ := c.bias.elim 0 fun w => Gen.bsGen c.rng (w o) b

private def bnext {I O : ℕ} (c : Linear.PC I O) (b : Fin O → ℤ) : Fin O → ℤ := c.bias.elim b fun _ o => b o + 1

private theorem addBias_eq {I O : ℕ} (c : Linear.PC I O) (b : Fin O → ℤ) (l : List (Fin O → ℤ)) :
    Linear.addBias c.rng c.bias b l = (l.map fun r o => r o + bbit c o (b o), bnext c b) := by
  unfold Linear.addBias bbit bnext
  cases c.bias with
  | none => simp
  | some w => rfl

theorem pc_step_shift {I O : ℕ} (c : Linear.PC I O) (s : Linear.PCSt I O) (b : Fin O → ℤ) (input : List (Fin I → ℤ)) :
    Linear.stepPC c ⟨s.wrdx1, s.wrdx0, b⟩ input = (Linear.stepPC c s input).map fun r =>
      (⟨r.1.wrdx1, r.1.wrdx0, bnext c b⟩, r.2.map fun row o => row o + (bbit c o (b o) - bbit c o (s.brdx o))) := by
  have e1 : ∀ l : List (Fin O → ℤ), (l.map fun r o => r o + bbit c o (b o)) =
      (l.map fun r o => r o + bbit c o (s.brdx o)).map fun row o => row o + (bbit c o (b o) - bbit c o (s.brdx o)) := by
    intro l
    rw [List.map_map]
    refine List.map_congr_left fun r _ => ?_
    funext o
    show _ = r o + bbit c o (s.brdx o) + (bbit c o (b o) - bbit c o (s.brdx o))
    ring
  have e2 : ∀ (l m : List (Fin O → ℤ)), List.zipWith Linear.addCounts (l.map fun r o => r o + bbit c o (b o)) m =
      (List.zipWith Linear.addCounts (l.map fun r o => r o + bbit c o (s.brdx o)) m).map fun row o => row o + (bbit c o (b o) - bbit c o (s.brdx o)) := by
    intro l
    induction l with
    | nil => intro m; rfl
    | cons r l ih =>
      intro m
      cases m with
      | nil => rfl
      | cons q m =>
        simp only [List.map_cons, List.zipWith_cons_cons, ih]
        congr 1
        funext o
        show r o + bbit c o (b o) + q o = r o + bbit c o (s.brdx o) + q o + (bbit c o (b o) - bbit c o (s.brdx o))
        ring
  unfold Linear.stepPC
  dsimp only
  by_cases h0 : input.length = 0
  · rw [if_pos h0, if_pos h0]; rfl
  rw [if_neg h0, if_neg h0]
  simp only [addBias_eq]
  cases Linear.zipBatch Linear.addRow (Linear.expand input.length s.wrdx1) (if c.wtc = true then input.map fun _ _ => (1:ℤ) else input) with
  | error e => rfl
  | ok w1 =>
  show (_ >>= _) = Except.map _ (_ >>= _)
  cases Linear.zipBatch Linear.mulRow (Linear.expand input.length (s.wrdx1.map fun m o i => Gen.bsGen c.rng (c.weight o i) (m o i))) input with
  | error e => rfl
  | ok o1 =>
  cases c.mode with
  | unipolar =>
    show Except.ok (_, _) = Except.ok (_, _)
    rw [e1]
  | bipolar =>
    dsimp only
    by_cases hw : c.wtc = true
    · simp only [if_pos hw]
      show (_ >>= _) = Except.map _ (_ >>= _)
      cases Linear.zipBatch Linear.mulRow ((Linear.expand input.length (s.wrdx1.map fun m o i => Gen.bsGen c.rng (c.weight o i) (m o i))).map
        fun (w : Fin O → Fin I → ℤ) (o : Fin O) (i : Fin I) => 1 - w o i) (input.map fun (x : Fin I → ℤ) (i : Fin I) => 1 - x i) with
      | error e => rfl
      | ok o0 =>
        show Except.ok (_, _) = Except.ok (_, _)
        rw [e2]
    · simp only [if_neg hw]
      show (_ >>= _) = Except.map _ (_ >>= _)
      cases Linear.zipBatch Linear.addRow (Linear.expand input.length s.wrdx0) (input.map fun (x : Fin I → ℤ) (i : Fin I) => 1 - x i) with
      | error e => rfl
      | ok w0 =>
      show (_ >>= _) = Except.map _ (_ >>= _)
      cases Linear.zipBatch Linear.mulRow (Linear.expand input.length (s.wrdx0.map fun m o i => 1 - Gen.bsGen c.rng (c.weight o i) (m o i))) (input.map fun (x : Fin I → ℤ) (i : Fin I) => 1 - x i) with
      | error e => rfl
      | ok o0 =>
        show Except.ok (_, _) = Except.ok (_, _)
        rw [e2]

theorem pc_step_brdx {I O : ℕ} (c : Linear.PC I O) (s : Linear.PCSt I O) (input : List (Fin I → ℤ)) {r : Linear.PCSt I O × List (Fin O → ℤ)}
    (h : Linear.stepPC c s input = .ok r) : r.1.brdx = bnext c s.brdx := by
  have := pc_step_shift c s s.brdx input
  rw [show (⟨s.wrdx1, s.wrdx0, s.brdx⟩ : Linear.PCSt I O) = s from rfl, h] at this
  have := congrArg (fun r => r.1.brdx) (Except.ok.inj this)
  exact this

theorem pc_run_brdx {I O : ℕ} (c : Linear.PC I O) (s0 : Linear.PCSt I O) (x : ℕ → List (Fin I → ℤ)) (n : ℕ) {s : Linear.PCSt I O}
    (h : stateAtE (Linear.stepPC c) s0 x n = .ok s) (o : Fin O) : s.brdx o = s0.brdx o + (if c.bias.isSome then (n : ℤ) else 0) := by
  induction n generalizing s with
  | zero => cases h; simp
  | succ n ih =>
    obtain ⟨s1, out, h1, h2⟩ := stateAtE_succ_inv h
    have e := pc_step_brdx c s1 _ h2
    have i := ih h1
    dsimp only at e
    rw [e]
    unfold bnext
    cases hb : c.bias with
    | none => rw [hb] at i; simpa using i
    | some w => rw [hb] at i; simp only [Option.elim, Option.isSome_some, if_true] at i ⊢; rw [i]; push_cast; ring

theorem pc_run_shift {I O : ℕ} (c : Linear.PC I O) (s0 : Linear.PCSt I O) (b : Fin O → ℤ) (x : ℕ → List (Fin I → ℤ)) (n : ℕ) :
    stateAtE (Linear.stepPC c) ⟨s0.wrdx1, s0.wrdx0, b⟩ x n = (stateAtE (Linear.stepPC c) s0 x n).map fun s =>
      ⟨s.wrdx1, s.wrdx0, fun o => b o + (if c.bias.isSome then (n : ℤ) else 0)⟩ := by
  induction n with
  | zero => show Except.ok _ = Except.ok _; simp
  | succ n ih =>
    cases hs : stateAtE (Linear.stepPC c) s0 x n with
    | error e =>
      rw [stateAtE, stateAtE, ih, hs]; rfl
    | ok s =>
      rw [stateAtE, stateAtE, ih, hs]
      show (do let r ← Linear.stepPC c ⟨s.wrdx1, s.wrdx0, fun o => b o + (if c.bias.isSome then (n : ℤ) else 0)⟩ (x n); pure r.1) =
        Except.map _ (do let r ← Linear.stepPC c s (x n); pure r.1)
      rw [pc_step_shift c s]
      cases Linear.stepPC c s (x n) with
      | error e => rfl
      | ok r =>
        show Except.ok (_ : Linear.PCSt I O) = Except.ok _
        refine congrArg Except.ok ?_
        show Linear.PCSt.mk _ _ _ = Linear.PCSt.mk _ _ _
        congr 1
        funext o
        unfold bnext
        cases c.bias with
        | none => simp
        | some w => simp only [Option.elim, Option.isSome_some, if_true]; push_cast; ring

/-- A restored `FSULinearPC` starts its weight sequences again from the beginning; only the bias goes on where it was.  Without a
bias every later count is that of a new layer, with a bias it is that of a new layer with the bias bit of the time since the
*first* layer was made. -/
theorem C102_linear {I O : ℕ} (c : Linear.PC I O) (x : ℕ → List (Fin I → ℤ)) (n : ℕ) (s : Linear.PCSt I O)
    (hs : stateAtE (Linear.stepPC c) (Linear.PCSt.init I O) x n = .ok s) (y : ℕ → List (Fin I → ℤ)) (t : ℕ) :
    outAtE (Linear.stepPC c) (loadPC (Linear.PCSt.init I O) s) y t =
      (outAtE (Linear.stepPC c) (Linear.PCSt.init I O) y t).map fun rows => rows.map fun row o =>
        row o - Spec.biasBit c.rng c.bias o t + Spec.biasBit c.rng c.bias o (n + t) := by
  have hb := pc_run_brdx c _ x n hs
  show (stateAtE (Linear.stepPC c) ⟨(Linear.PCSt.init I O).wrdx1, (Linear.PCSt.init I O).wrdx0, s.brdx⟩ y t >>= _) = Except.map _ (_ >>= _)
  rw [pc_run_shift]
  cases hs1 : stateAtE (Linear.stepPC c) (Linear.PCSt.init I O) y t with
  | error e => rfl
  | ok s1 =>
  have hb1 := pc_run_brdx c _ y t hs1
  show (do let r ← Linear.stepPC c ⟨s1.wrdx1, s1.wrdx0, fun o => s.brdx o + (if c.bias.isSome then (t : ℤ) else 0)⟩ (y t); pure r.2) =
    Except.map _ (do let r ← Linear.stepPC c s1 (y t); pure r.2)
  rw [pc_step_shift c s1]
  cases Linear.stepPC c s1 (y t) with
  | error e => rfl
  | ok r =>
    refine congrArg Except.ok ?_
    show List.map _ r.2 = List.map _ r.2
    refine List.map_congr_left fun row _ => ?_
    funext o
    rw [hb, hb1]
    unfold bbit Spec.biasBit
    cases c.bias with
    | none => simp
    | some w => simp only [Linear.PCSt.init, Option.elim, Option.isSome_some, if_true, zero_add]; push_cast; ring

example : ∃ s, stateAtE (Linear.stepPC (I := 2) (O := 3) ⟨.bipolar, [0, 1], fun _ _ => 1, some fun _ => 1, false⟩) (Linear.PCSt.init 2 3)
    (fun _ => [fun _ => 1, fun _ => 0]) 2 = .ok s := ⟨_, rfl⟩

/-- So the counts of a restored layer can differ from those of the saved one: one rate coded input, weight 1 of 2, sequence
`0, 1`.  After one call with input 1 the saved layer gives 0 next, the restored one 1. -/
theorem C102_linear_differs : ∃ (c : Linear.PC 1 1) (x : ℕ → List (Fin 1 → ℤ)) (s : Linear.PCSt 1 1),
    stateAtE (Linear.stepPC c) (Linear.PCSt.init 1 1) x 1 = .ok s ∧
      outAtE (Linear.stepPC c) s (fun t => x (1 + t)) 0 = .ok [fun _ => 0] ∧
      outAtE (Linear.stepPC c) (loadPC (Linear.PCSt.init 1 1) s) (fun t => x (1 + t)) 0 = .ok [fun _ => 1] := by
  refine ⟨⟨.unipolar, [0, 1], fun _ _ => 1, none, false⟩, fun _ => [fun _ => 1], _, rfl, ?_, ?_⟩
  · refine congrArg Except.ok (congrArg (fun r => [r]) ?_)
    funext o
    show ∑ i : Fin 1, (1 : ℤ) * Gen.bsGen [0, 1] 1 (0 + 1) = 0
    simp [Gen.bsGen, ind]
  · refine congrArg Except.ok (congrArg (fun r => [r]) ?_)
    funext o
    show ∑ i : Fin 1, (1 : ℤ) * Gen.bsGen [0, 1] 1 0 = 1
    simp [Gen.bsGen, ind]

private theorem refused_add {cfg : Adder.Cfg} {z : ℕ → Tensor ℤ} (hd : ∀ k, -((z k).shape.length : ℤ) ≤ 0 ∧ (0 : ℤ) < (z k).shape.length) {n : ℕ}
    {s : AddSt} (hs : stateAtE (addT cfg 0) (addInit cfg) z (n + 1) = .ok s) (hf : (loadAdd (addInit cfg) s).2 = false) (y : Tensor ℤ) :
    addT cfg 0 (loadAdd (addInit cfg) s).1 y = addT cfg 0 (addInit cfg) y := by
  have hl : (loadAdd (addInit cfg) s).1 = ⟨true, cfg.entry, s.scaleCarry, s.offset, one 0⟩ := by
    unfold loadAdd at hf ⊢
    have hno : (addInit cfg).acc.shape ≠ s.acc.shape := by
      intro h
      simp only [loadP_ok (p := (addInit cfg).acc) (saved := s.acc) h] at hf
      exact absurd hf (by decide)
    simp only [loadP_no (p := (addInit cfg).acc) (saved := s.acc) hno]
    rfl
  have hc := add_configured hd hs
  have key : ∀ w : ℕ, addConfigure cfg ⟨true, cfg.entry, s.scaleCarry, s.offset, one 0⟩ w = addConfigure cfg (addInit cfg) w := by
    intro w
    cases hm : cfg.mode with
    | bipolar => simp only [addConfigure, addInit, if_true, hm]
    | unipolar =>
      have ho : s.offset = 0 := by rw [hc]; simp only [addConfigure, addInit, if_true, hm]
      simp only [addConfigure, addInit, if_true, hm, ho]
  rw [hl]
  unfold addT
  simp only [key]

private def linCounts {I O : ℕ} (c : Linear.PC I O) (x : ℕ → List (Fin I → ℤ)) (k : ℕ) : Tensor ℤ :=
  match outAtE (Linear.stepPC c) (Linear.PCSt.init I O) x k with
  | .ok rows => countsT rows
  | .error _ => countsT (O := O) []

private theorem linCounts_shape {I O : ℕ} (c : Linear.PC I O) (x : ℕ → List (Fin I → ℤ)) (k : ℕ) :
    ∃ m, (linCounts c x k).shape = [O, m, 1] := by
  unfold linCounts
  cases outAtE (Linear.stepPC c) (Linear.PCSt.init I O) x k with
  | ok rows => exact ⟨_, rfl⟩
  | error _ => exact ⟨_, rfl⟩

private theorem lin_parts {I O : ℕ} (c : Linear.PC I O) (cfg : Adder.Cfg) (x : ℕ → List (Fin I → ℤ)) (n : ℕ) {s : Linear.PCSt I O × AddSt}
    (hs : stateAtE (linT c cfg) (Linear.PCSt.init I O, addInit cfg) x n = .ok s) :
    stateAtE (Linear.stepPC c) (Linear.PCSt.init I O) x n = .ok s.1 ∧ stateAtE (addT cfg 0) (addInit cfg) (linCounts c x) n = .ok s.2 := by
  induction n generalizing s with
  | zero => cases hs; exact ⟨rfl, rfl⟩
  | succ n ih =>
    obtain ⟨s1, o, h1, h2⟩ := stateAtE_succ_inv hs
    obtain ⟨a1, a2⟩ := ih h1
    unfold linT at h2
    cases hp : Linear.stepPC c s1.1 (x n) with
    | error e => rw [hp] at h2; exact absurd h2 (by simp [bind, Except.bind])
    | ok r =>
      rw [hp] at h2
      have hc : linCounts c x n = countsT r.2 := by
        unfold linCounts outAtE
        rw [a1]
        show (match (Linear.stepPC c s1.1 (x n) >>= fun r => pure r.2) with | .ok rows => countsT rows | .error _ => countsT (O := O) []) = _
        rw [hp]
        rfl
      change (addT cfg 0 s1.2 (countsT r.2) >>= fun o => pure ((r.1, o.1), o.2)) = _ at h2
      cases hq : addT cfg 0 s1.2 (countsT r.2) with
      | error e => rw [hq] at h2; exact absurd h2 (by simp [bind, Except.bind])
      | ok q =>
        rw [hq] at h2
        obtain rfl := congrArg Prod.fst (Except.ok.inj h2)
        exact ⟨stateAtE_succ_ok a1 (o := r.2) hp, stateAtE_succ_ok a2 (o := q.2) (by rw [hc]; exact hq)⟩

/-- A checkpoint of an `FSULinear` that was called at least once can never be loaded: the adder inside keeps one element for
every row and output, a new adder has a single one.  The refused load has all the same moved the bias sequence: the new layer
then works as one whose bias is already `n + 1` cycles old; without a bias it works as a new layer. -/
theorem C102_fsu_linear {I O : ℕ} (c : Linear.PC I O) (cfg : Adder.Cfg) (x : ℕ → List (Fin I → ℤ)) (n : ℕ) (s : Linear.PCSt I O × AddSt)
    (hs : stateAtE (linT c cfg) (Linear.PCSt.init I O, addInit cfg) x (n + 1) = .ok s) :
    (loadLin (Linear.PCSt.init I O, addInit cfg) s).2 = false ∧
    ∀ (y : ℕ → List (Fin I → ℤ)) (t : ℕ),
      outAtE (linT c cfg) (loadLin (Linear.PCSt.init I O, addInit cfg) s).1 y t =
        outAtE (linT c cfg) ({ Linear.PCSt.init I O with brdx := fun _ => if c.bias.isSome then (n : ℤ) + 1 else 0 }, addInit cfg) y t := by
  obtain ⟨h1, h2⟩ := lin_parts c cfg x (n + 1) hs
  have hd : ∀ k, -((linCounts c x k).shape.length : ℤ) ≤ 0 ∧ (0 : ℤ) < (linCounts c x k).shape.length := by
    intro k
    obtain ⟨m, hm⟩ := linCounts_shape c x k
    rw [hm]; exact ⟨by simp, by simp⟩
  have hf : (loadAdd (addInit cfg) s.2).2 = false := by
    refine (C102_add cfg 0 (linCounts c x) hd n s.2 h2).2 ⟨0, Nat.succ_pos n, ?_⟩
    obtain ⟨m, hm⟩ := linCounts_shape c x 0
    rw [hm]
    have hz : Spec.fromLast 0 ([O, m, 1] : List ℕ).length = 2 := by simp [Spec.fromLast]
    rw [hz]
    show ¬ Spec.Lone [O, m]
    rintro (h | h) <;> simp at h
  refine ⟨hf, fun y t => outAtE_first ?_ t⟩
  have hb : s.1.brdx = fun _ => if c.bias.isSome then (n : ℤ) + 1 else 0 := by
    funext o
    rw [pc_run_brdx c _ x (n + 1) h1 o]
    show 0 + _ = _
    push_cast
    rw [zero_add]
  have ha := refused_add hd h2 hf
  show linT c cfg (loadPC (Linear.PCSt.init I O) s.1, (loadAdd (addInit cfg) s.2).1) (y 0) = _
  unfold linT
  simp only [ha, loadPC, hb]

example : ∃ s, stateAtE (linT (I := 2) (O := 3) ⟨.bipolar, [0, 1], fun _ _ => 1, some fun _ => 1, false⟩ ⟨.bipolar, some 3, some 3, 10⟩)
    (Linear.PCSt.init 2 3, addInit ⟨.bipolar, some 3, some 3, 10⟩) (fun _ => [fun _ => 1, fun _ => 0]) 2 = .ok s := ⟨_, rfl⟩

section
variable {O C : ℕ} (g : Conv.Geo) (p : Conv.PadArg) (c : Linear.PC (C * g.kh * g.kw) O) (cfg : Adder.Cfg)

private def convCounts (s : (Linear.PCSt (C * g.kh * g.kw) O × Bool) × AddSt) (x : ImageIn) : Tensor ℤ :=
  match Conv.outSize { g with ph := p.perAxis.1, pw := p.perAxis.2 } x.H x.W, Conv.stepConvPC g p x.N C x.H x.W c s.1 x.img with
  | .ok os, .ok r => imageT x.N O os r.2
  | _, _ => imageT x.N O (0, 0) fun _ _ _ _ => 0

private theorem convCounts_shape (s : (Linear.PCSt (C * g.kh * g.kw) O × Bool) × AddSt) (x : ImageIn) :
    ∃ a b, (convCounts g p c s x).shape = [a, b, O, x.N, 1] := by
  unfold convCounts
  split <;> exact ⟨_, _, rfl⟩

private theorem conv_step {s s' : (Linear.PCSt (C * g.kh * g.kw) O × Bool) × AddSt} {x : ImageIn} {o : Tensor ℤ}
    (h : convT g p c cfg s x = .ok (s', o)) :
    s'.1.1.brdx = bnext c s.1.1.brdx ∧ s'.1.2 = (decide (c.mode = .bipolar) ^^ s.1.2) ∧
      addT cfg 0 s.2 (convCounts g p c s x) = .ok (s'.2, o) := by
  unfold convT at h
  obtain ⟨os, h1, h⟩ := bind_ok h
  obtain ⟨r, h2, h⟩ := bind_ok h
  obtain ⟨q, h3, h⟩ := bind_ok h
  have e := Except.ok.inj h
  have hc : convCounts g p c s x = imageT x.N O os r.2 := by unfold convCounts; rw [h1, h2]
  obtain ⟨rfl, rfl⟩ := Prod.mk.inj e
  refine ⟨?_, ?_, by rw [hc]; exact h3⟩
  all_goals
    unfold Conv.stepConvPC Conv.convWrap at h2
    obtain ⟨_, _, h2⟩ := bind_ok h2
    obtain ⟨rows, _, h2⟩ := bind_ok h2
    obtain ⟨w, hw, h2⟩ := bind_ok h2
    obtain ⟨f, _, h2⟩ := bind_ok h2
    obtain rfl := Except.ok.inj h2
  · exact pc_step_brdx c s.1.1 rows hw
  · rfl

private def convSeen (x : ℕ → ImageIn) (k : ℕ) : Tensor ℤ :=
  match stateAtE (convT g p c cfg) (Conv.initConvPC (C * g.kh * g.kw) O, addInit cfg) x k with
  | .ok s => convCounts g p c s (x k)
  | .error _ => imageT (x k).N O (0, 0) fun _ _ _ _ => 0

private theorem convSeen_shape (x : ℕ → ImageIn) (k : ℕ) : ∃ a b, (convSeen g p c cfg x k).shape = [a, b, O, (x k).N, 1] := by
  unfold convSeen
  split
  · exact convCounts_shape g p c _ _
  · exact ⟨_, _, rfl⟩

private theorem conv_parts (x : ℕ → ImageIn) (n : ℕ) {s : (Linear.PCSt (C * g.kh * g.kw) O × Bool) × AddSt}
    (hs : stateAtE (convT g p c cfg) (Conv.initConvPC (C * g.kh * g.kw) O, addInit cfg) x n = .ok s) :
    s.1.1.brdx = (fun _ => if c.bias.isSome then (n : ℤ) else 0) ∧ s.1.2 = decide (c.mode = .bipolar → n % 2 = 0) ∧
      stateAtE (addT cfg 0) (addInit cfg) (convSeen g p c cfg x) n = .ok s.2 := by
  induction n generalizing s with
  | zero =>
    cases hs
    exact ⟨by funext o; simp [Conv.initConvPC, Linear.PCSt.init], by simp [Conv.initConvPC], rfl⟩
  | succ n ih =>
    obtain ⟨s1, o, h1, h2⟩ := stateAtE_succ_inv hs
    obtain ⟨a1, a2, a3⟩ := ih h1
    obtain ⟨b1, b2, b3⟩ := conv_step g p c cfg h2
    have hz : convSeen g p c cfg x n = convCounts g p c s1 (x n) := by unfold convSeen; rw [h1]
    refine ⟨?_, ?_, stateAtE_succ_ok a3 (by rw [hz]; exact b3)⟩
    · rw [b1, a1]
      funext o
      unfold bnext
      cases c.bias with
      | none => rfl
      | some w => simp
    · rw [b2, a2]
      cases c.mode with
      | unipolar => simp
      | bipolar =>
        rcases Nat.mod_two_eq_zero_or_one n with h | h
        · have : (n + 1) % 2 = 1 := by omega
          simp [h, this]
        · have : (n + 1) % 2 = 0 := by omega
          simp [h, this]

/-- The same for `FSUConv2d`, for image batches of any sizes.  Here the refused load also takes over whether the border is
padded with zeros or ones next: a bipolar layer saved after an odd number of calls leaves a new layer that begins with ones. -/
theorem C102_fsu_conv (x : ℕ → ImageIn) (n : ℕ) (s : (Linear.PCSt (C * g.kh * g.kw) O × Bool) × AddSt)
    (hs : stateAtE (convT g p c cfg) (Conv.initConvPC (C * g.kh * g.kw) O, addInit cfg) x (n + 1) = .ok s) :
    (loadConv2d (Conv.initConvPC (C * g.kh * g.kw) O, addInit cfg) s).2 = false ∧
    ∀ (y : ℕ → ImageIn) (t : ℕ),
      outAtE (convT g p c cfg) (loadConv2d (Conv.initConvPC (C * g.kh * g.kw) O, addInit cfg) s).1 y t =
        outAtE (convT g p c cfg)
          (({ Linear.PCSt.init (C * g.kh * g.kw) O with brdx := fun _ => if c.bias.isSome then (n : ℤ) + 1 else 0 },
            decide (c.mode = .bipolar → (n + 1) % 2 = 0)), addInit cfg) y t := by
  obtain ⟨h1, h2, h3⟩ := conv_parts g p c cfg x (n + 1) hs
  have hd : ∀ k, -((convSeen g p c cfg x k).shape.length : ℤ) ≤ 0 ∧ (0 : ℤ) < (convSeen g p c cfg x k).shape.length := by
    intro k
    obtain ⟨a, b, hm⟩ := convSeen_shape g p c cfg x k
    rw [hm]; exact ⟨by simp, by simp⟩
  have hf : (loadAdd (addInit cfg) s.2).2 = false := by
    refine (C102_add cfg 0 _ hd n s.2 h3).2 ⟨0, Nat.succ_pos n, ?_⟩
    obtain ⟨a, b, hm⟩ := convSeen_shape g p c cfg x 0
    rw [hm]
    have hz : Spec.fromLast 0 ([a, b, O, (x 0).N, 1] : List ℕ).length = 4 := by simp [Spec.fromLast]
    rw [hz]
    show ¬ Spec.Lone [a, b, O, (x 0).N]
    rintro (h | h) <;> simp at h
  refine ⟨hf, fun y t => outAtE_first ?_ t⟩
  have ha := refused_add hd h3 hf
  have hb : (((loadPC (Linear.PCSt.init (C * g.kh * g.kw) O) s.1.1, s.1.2) : Linear.PCSt (C * g.kh * g.kw) O × Bool)) =
      ({ Linear.PCSt.init (C * g.kh * g.kw) O with brdx := fun _ => if c.bias.isSome then (n : ℤ) + 1 else 0 },
        decide (c.mode = .bipolar → (n + 1) % 2 = 0)) := by
    unfold loadPC
    rw [h1, h2]
    push_cast
    rfl
  show convT g p c cfg ((loadPC (Linear.PCSt.init (C * g.kh * g.kw) O) s.1.1, s.1.2), (loadAdd (addInit cfg) s.2).1) (y 0) = _
  rw [hb]
  unfold convT
  simp only [ha]

end

example : (stateAtE (convT (O := 1) (C := 1) ⟨2, 2, 1, 1, 0, 0, 1, 1⟩ (.num 1)
    ⟨.bipolar, [0, 1], fun _ _ => 1, some fun _ => 1, false⟩ ⟨.bipolar, some 5, some 5, 10⟩)
    (Conv.initConvPC _ 1, addInit ⟨.bipolar, some 5, some 5, 10⟩) (fun _ => ⟨1, 1, 1, fun _ _ _ _ => 1⟩) 3).isOk = true := by
  decide +kernel

/-- So an exception that is caught leaves a layer that is neither new nor restored: one pixel, kernel one by one, weight 1,
border 1, no bias.  At the corner a new layer gives 0, and 1 after the refused load of a layer that was called once. -/
theorem C102_fsu_conv_differs : ∃ (g : Conv.Geo) (p : Conv.PadArg) (c : Linear.PC (1 * g.kh * g.kw) 1) (cfg : Adder.Cfg) (x : ImageIn)
    (s : (Linear.PCSt (1 * g.kh * g.kw) 1 × Bool) × AddSt) (a b : Tensor ℤ),
    stateAtE (convT g p c cfg) (Conv.initConvPC _ 1, addInit cfg) (fun _ => x) 1 = .ok s ∧
      outAtE (convT g p c cfg) (Conv.initConvPC _ 1, addInit cfg) (fun _ => x) 0 = .ok a ∧
      outAtE (convT g p c cfg) (loadConv2d (Conv.initConvPC _ 1, addInit cfg) s).1 (fun _ => x) 0 = .ok b ∧
      a.at' [0, 0, 0, 0] = 0 ∧ b.at' [0, 0, 0, 0] = 1 := by
  let g : Conv.Geo := ⟨1, 1, 1, 1, 0, 0, 1, 1⟩
  let p : Conv.PadArg := .num 1
  let c : Linear.PC (1 * g.kh * g.kw) 1 := ⟨.bipolar, [0, 1], fun _ _ => 2, none, false⟩
  let cfg : Adder.Cfg := ⟨.bipolar, some 1, some 1, 10⟩
  let x : ImageIn := ⟨1, 1, 1, fun _ _ _ _ => 1⟩
  have h : (match stateAtE (convT g p c cfg) (Conv.initConvPC _ 1, addInit cfg) (fun _ => x) 1 with
      | .error _ => false
      | .ok s => match outAtE (convT g p c cfg) (Conv.initConvPC _ 1, addInit cfg) (fun _ => x) 0,
            outAtE (convT g p c cfg) (loadConv2d (Conv.initConvPC _ 1, addInit cfg) s).1 (fun _ => x) 0 with
        | .ok a, .ok b => decide (a.at' [0, 0, 0, 0] = 0 ∧ b.at' [0, 0, 0, 0] = 1)
        | _, _ => false) = true := by decide +kernel
  refine ⟨g, p, c, cfg, x, ?_⟩
  split at h
  · exact absurd h (by decide)
  · rename_i s hs
    split at h
    · rename_i a b ha hb
      obtain ⟨h1, h2⟩ := of_decide_eq_true h
      exact ⟨s, a, b, hs, ha, hb, h1, h2⟩
    · exact absurd h (by decide)

end Verif.Props
