import Verif.Model.Tensor
import Verif.Props.Small
import Verif.Props.Shuffle

/-!
# C100: tensors of streams
-/

namespace Verif.Props

open Verif Tens Shuffle Small

/-- A tensor of shape `s` can be stretched to shape `v` (shapes list the last dimension first): every dimension of `s` is one
or that of `v`, and `v` has at least as many dimensions. -/
def Spec.Stretch : List ℕ → List ℕ → Prop
  | [], _ => True
  | _ :: _, [] => False
  | a :: s, b :: v => (a = 1 ∨ a = b) ∧ Spec.Stretch s v

/-- `u` is the smallest shape to which all of the shapes can be stretched. -/
def Spec.Smallest (shapes : Set (List ℕ)) (u : List ℕ) : Prop :=
  (∀ s ∈ shapes, Spec.Stretch s u) ∧ ∀ v, (∀ s ∈ shapes, Spec.Stretch s v) → Spec.Stretch u v

/-! ### Shapes -/

theorem fits_refl : ∀ s : List ℕ, Spec.Stretch s s
  | [] => trivial
  | _ :: s => ⟨Or.inr rfl, fits_refl s⟩

theorem fits_trans : ∀ {s u v : List ℕ}, Spec.Stretch s u → Spec.Stretch u v → Spec.Stretch s v
  | [], _, _, _, _ => trivial
  | _ :: _, [], _, h, _ => h.elim
  | _ :: _, _ :: _, [], _, h => h.elim
  | a :: s, b :: u, c :: v, h, h' => ⟨by rcases h.1 with h1 | h1
                                         · exact Or.inl h1
                                         · rw [h1]; exact h'.1, fits_trans h.2 h'.2⟩

theorem fits_antisymm : ∀ {s u : List ℕ}, Spec.Stretch s u → Spec.Stretch u s → s = u
  | [], [], _, _ => rfl
  | [], _ :: _, _, h => h.elim
  | _ :: _, [], h, _ => h.elim
  | a :: s, b :: u, h, h' => by
      rw [fits_antisymm h.2 h'.2]
      have : a = b := by
        rcases h.1 with h1 | h1
        · rcases h'.1 with h2 | h2
          · rw [h1, h2]
          · exact h2.symm
        · exact h1
      rw [this]

theorem bc_some : ∀ {s t u : List ℕ}, bc s t = some u →
    Spec.Stretch s u ∧ Spec.Stretch t u ∧ ∀ v, Spec.Stretch s v → Spec.Stretch t v → Spec.Stretch u v
  | [], t, u, h => by
      simp only [bc, Option.some.injEq] at h
      subst h
      exact ⟨trivial, fits_refl _, fun v _ h => h⟩
  | a :: s, [], u, h => by
      simp only [bc, Option.some.injEq] at h
      subst h
      exact ⟨fits_refl _, trivial, fun v h _ => h⟩
  | a :: s, b :: t, u, h => by
      simp only [bc] at h
      cases hr : bc s t with
      | none => rw [hr] at h; exact absurd h (by simp)
      | some w =>
        rw [hr] at h
        have ih := bc_some hr
        dsimp only at h
        by_cases h1 : a = b
        · rw [if_pos h1] at h
          obtain rfl := Option.some.inj h
          refine ⟨⟨Or.inr rfl, ih.1⟩, ⟨Or.inr h1.symm, ih.2.1⟩, ?_⟩
          intro v hv hv'
          cases v with
          | nil => exact hv.elim
          | cons c v => exact ⟨hv.1, ih.2.2 v hv.2 hv'.2⟩
        · rw [if_neg h1] at h
          by_cases h2 : a = 1
          · rw [if_pos h2] at h
            obtain rfl := Option.some.inj h
            refine ⟨⟨Or.inl h2, ih.1⟩, ⟨Or.inr rfl, ih.2.1⟩, ?_⟩
            intro v hv hv'
            cases v with
            | nil => exact hv.elim
            | cons c v => exact ⟨hv'.1, ih.2.2 v hv.2 hv'.2⟩
          · rw [if_neg h2] at h
            by_cases h3 : b = 1
            · rw [if_pos h3] at h
              obtain rfl := Option.some.inj h
              refine ⟨⟨Or.inr rfl, ih.1⟩, ⟨Or.inl h3, ih.2.1⟩, ?_⟩
              intro v hv hv'
              cases v with
              | nil => exact hv.elim
              | cons c v => exact ⟨hv.1, ih.2.2 v hv.2 hv'.2⟩
            · rw [if_neg h3] at h
              exact absurd h (by simp)

theorem bc_exists : ∀ {s t v : List ℕ}, Spec.Stretch s v → Spec.Stretch t v → ∃ u, bc s t = some u
  | [], t, v, _, _ => ⟨t, rfl⟩
  | a :: s, [], v, _, _ => ⟨a :: s, rfl⟩
  | a :: s, b :: t, [], h, _ => h.elim
  | a :: s, b :: t, c :: v, h, h' => by
      obtain ⟨w, hw⟩ := bc_exists h.2 h'.2
      simp only [bc, hw]
      by_cases h1 : a = b
      · exact ⟨_, if_pos h1⟩
      · rw [if_neg h1]
        by_cases h2 : a = 1
        · exact ⟨_, if_pos h2⟩
        · rw [if_neg h2]
          by_cases h3 : b = 1
          · exact ⟨_, if_pos h3⟩
          · exact absurd ((h.1.resolve_left h2).trans (h'.1.resolve_left h3).symm) h1

theorem bc_eq {s t u : List ℕ} (h1 : Spec.Stretch s u) (h2 : Spec.Stretch t u)
    (h3 : ∀ v, Spec.Stretch s v → Spec.Stretch t v → Spec.Stretch u v) : bc s t = some u := by
  obtain ⟨w, hw⟩ := bc_exists h1 h2
  have hs := bc_some hw
  rw [hw, fits_antisymm (hs.2.2 u h1 h2) (h3 w hs.1 hs.2.1)]

/-- Stretching to a shape in which `t` already fits changes nothing. -/
theorem bc_left {s t : List ℕ} (h : Spec.Stretch t s) : bc s t = some s := bc_eq (fits_refl s) h fun _ h _ => h

theorem bc_right {s t : List ℕ} (h : Spec.Stretch s t) : bc s t = some t := bc_eq h (fits_refl t) fun _ _ h => h

theorem proj_proj : ∀ {s u : List ℕ}, Spec.Stretch s u → ∀ i, proj s (proj u i) = proj s i
  | [], _, _, _ => rfl
  | _ :: _, [], h, _ => h.elim
  | a :: s, b :: u, h, i => by
      simp only [proj, List.headD_cons, List.tail_cons]
      rw [proj_proj h.2]
      congr 1
      by_cases h1 : a = 1
      · rw [if_pos h1, if_pos h1]
      · rw [if_neg h1, if_neg h1]
        have := h.1.resolve_left h1
        rw [if_neg (by rw [← this]; exact h1)]

/-! ### Operations -/

theorem get_map1 {α β : Type} (f : α → β) (x : Tensor α) (i : List ℕ) : (map1 f x).get i = f (x.get i) := rfl

theorem get_one {α : Type} (a : α) (i : List ℕ) : (one a).get i = a := rfl

theorem map2_ok {α β γ : Type} (f : α → β → γ) {x : Tensor α} {y : Tensor β} {u : List ℕ} (h : bc x.shape y.shape = some u) :
    ∃ z, map2 f x y = .ok z ∧ z.shape = u ∧ ∀ i, z.get i = f (x.get i) (y.get i) := by
  refine ⟨_, by simp only [map2, h]; rfl, rfl, fun i => ?_⟩
  have hb := bc_some h
  show f (x.at' (proj x.shape (proj u i))) (y.at' (proj y.shape (proj u i))) = _
  rw [proj_proj hb.1, proj_proj hb.2.1]; rfl

theorem map2_err {α β γ : Type} (f : α → β → γ) {x : Tensor α} {y : Tensor β} (h : bc x.shape y.shape = none) :
    map2 f x y = .error .runtime := by simp only [map2, h]

theorem map2In_ok {α β γ : Type} (f : α → β → γ) {x : Tensor α} {y : Tensor β} (h : Spec.Stretch y.shape x.shape) :
    ∃ z, map2In f x y = .ok z ∧ z.shape = x.shape ∧ ∀ i, z.get i = f (x.get i) (y.get i) := by
  have hb := bc_left h
  refine ⟨_, by simp only [map2In, hb, if_true]; rfl, rfl, fun i => ?_⟩
  show f (x.at' (proj x.shape (proj x.shape i))) (y.at' (proj y.shape (proj x.shape i))) = _
  rw [proj_proj (fits_refl _), proj_proj h]; rfl

/-- Inside the shape of a tensor, broadcasting reads the element itself. -/
theorem proj_self : ∀ {s i : List ℕ}, i.length = s.length → (∀ k, k < s.length → i.getD k 0 < s.getD k 0) → proj s i = i
  | [], [], _, _ => rfl
  | [], _ :: _, h, _ => absurd h (by simp)
  | _ :: _, [], h, _ => absurd h (by simp)
  | a :: s, j :: i, h, h' => by
      simp only [proj, List.headD_cons, List.tail_cons]
      rw [proj_self (by simpa using h) fun k hk => by simpa using h' (k + 1) (by simpa using hk)]
      have h0 : j < a := by simpa using h' 0 (by simp)
      by_cases h1 : a = 1
      · rw [if_pos h1]; congr 1; omega
      · rw [if_neg h1]

/-! ### Calls with changing shapes -/

/-- The shapes a module has met before call `t`, its own one-element state included. -/
def Spec.shapesSeen {X : Type} (shapes : X → List (List ℕ)) (x : ℕ → X) (t : ℕ) : Set (List ℕ) :=
  {s | s = [1] ∨ ∃ k, k < t ∧ s ∈ shapes (x k)}

theorem join_unique {A : Set (List ℕ)} {u v : List ℕ} (hu : Spec.Smallest A u) (hv : Spec.Smallest A v) : u = v :=
  fits_antisymm (hu.2 v hv.1) (hv.2 u hu.1)

theorem join_pair {s t u : List ℕ} : Spec.Smallest {s, t} u ↔ bc s t = some u := by
  constructor
  · intro h
    exact bc_eq (h.1 s (by simp)) (h.1 t (by simp)) fun v h1 h2 => h.2 v fun r hr => by
      rcases hr with rfl | hr
      · exact h1
      · rw [Set.mem_singleton_iff.mp hr]; exact h2
  · intro h
    have hb := bc_some h
    refine ⟨fun r hr => ?_, fun v hv => hb.2.2 v (hv s (by simp)) (hv t (by simp))⟩
    rcases hr with rfl | hr
    · exact hb.1
    · rw [Set.mem_singleton_iff.mp hr]; exact hb.2.1

theorem join_seen_zero {X : Type} (shapes : X → List (List ℕ)) (x : ℕ → X) : Spec.Smallest (Spec.shapesSeen shapes x 0) [1] := by
  refine ⟨fun s hs => ?_, fun v hv => hv _ (Or.inl rfl)⟩
  rcases hs with rfl | ⟨k, hk, _⟩
  · exact fits_refl _
  · exact absurd hk (by omega)

theorem join_seen_succ {X : Type} {shapes : X → List (List ℕ)} {x : ℕ → X} {t : ℕ} {s u : List ℕ} (hs : Spec.Smallest (Spec.shapesSeen shapes x t) s) :
    Spec.Smallest (Spec.shapesSeen shapes x (t + 1)) u ↔ Spec.Smallest {r | r ∈ s :: shapes (x t)} u := by
  have key : ∀ v, (∀ r ∈ Spec.shapesSeen shapes x (t + 1), Spec.Stretch r v) ↔ ∀ r ∈ s :: shapes (x t), Spec.Stretch r v := by
    intro v
    constructor
    · intro h r hr
      rcases List.mem_cons.mp hr with rfl | hr
      · refine hs.2 v fun q hq => h q ?_
        rcases hq with hq | ⟨k, hk, hq⟩
        · exact Or.inl hq
        · exact Or.inr ⟨k, by omega, hq⟩
      · exact h r (Or.inr ⟨t, by omega, hr⟩)
    · intro h r hr
      rcases hr with hr | ⟨k, hk, hr⟩
      · exact fits_trans (hs.1 r (Or.inl hr)) (h s (List.mem_cons_self))
      · rcases Nat.lt_succ_iff_lt_or_eq.mp hk with hk | hk
        · exact fits_trans (hs.1 r (Or.inr ⟨k, hk, hr⟩)) (h s (List.mem_cons_self))
        · rw [hk] at hr; exact h r (List.mem_cons_of_mem _ hr)
  constructor
  · intro h; exact ⟨(key u).mp h.1, fun v hv => h.2 v ((key v).mpr hv)⟩
  · intro h; exact ⟨(key u).mpr h.1, fun v hv => h.2 v ((key v).mp hv)⟩

/-- Finitely many shapes that fit into one shape have a smallest one. -/
theorem join_exists : ∀ (l : List (List ℕ)) {v : List ℕ}, (∀ r ∈ l, Spec.Stretch r v) → ∃ u, Spec.Smallest {r | r ∈ l} u
  | [], _, _ => ⟨[], fun r hr => absurd hr (by simp), fun _ _ => trivial⟩
  | a :: l, v, h => by
      obtain ⟨w, hw⟩ := join_exists l fun r hr => h r (List.mem_cons_of_mem _ hr)
      obtain ⟨u, hu⟩ := bc_exists (h a List.mem_cons_self) (hw.2 v fun r hr => h r (List.mem_cons_of_mem _ hr))
      have hb := bc_some hu
      refine ⟨u, fun r hr => ?_, fun z hz => hb.2.2 z (hz a List.mem_cons_self) (hw.2 z fun r hr => hz r (List.mem_cons_of_mem _ hr))⟩
      rcases List.mem_cons.mp hr with rfl | hr
      · exact hb.1
      · exact fits_trans (hw.1 r hr) hb.2.1

theorem join_seen {X : Type} {shapes : X → List (List ℕ)} {x : ℕ → X} {t : ℕ} {v : List ℕ}
    (h : ∀ r ∈ Spec.shapesSeen shapes x t, Spec.Stretch r v) : ∃ u, Spec.Smallest (Spec.shapesSeen shapes x t) u := by
  induction t with
  | zero => exact ⟨_, join_seen_zero shapes x⟩
  | succ t ih =>
    obtain ⟨s, hs⟩ := ih fun r hr => h r (by
      rcases hr with hr | ⟨k, hk, hr⟩
      · exact Or.inl hr
      · exact Or.inr ⟨k, by omega, hr⟩)
    have hsv : Spec.Stretch s v := hs.2 v fun r hr => h r (by
      rcases hr with hr | ⟨k, hk, hr⟩
      · exact Or.inl hr
      · exact Or.inr ⟨k, by omega, hr⟩)
    obtain ⟨u, hu⟩ := join_exists (s :: shapes (x t)) (v := v) fun r hr => by
      rcases List.mem_cons.mp hr with rfl | hr
      · exact hsv
      · exact h r (Or.inr ⟨t, by omega, hr⟩)
    exact ⟨u, (join_seen_succ hs).mpr hu⟩

/-- A call on tensors that is the call on single elements, done in every element. -/
def LiftsOn {S σ ι ω X O : Type} (P : X → Prop) (ssh : S → List ℕ) (sget : S → List ℕ → σ) (shapes : X → List (List ℕ)) (val : X → List ℕ → ι)
    (osh : O → List ℕ → Prop) (oget : O → List ℕ → ω) (step : σ → ι → σ × ω) (T : S → X → Except PyErr (S × O)) : Prop :=
  ∀ (s : S) (x : X), P x → Spec.Stretch [1] (ssh s) →
    (∀ u, Spec.Smallest {r | r ∈ ssh s :: shapes x} u → ∃ (s' : S) (o : O), T s x = .ok (s', o) ∧ ssh s' = u ∧ osh o u ∧
      ∀ i, sget s' i = (step (sget s i) (val x i)).1 ∧ oget o i = (step (sget s i) (val x i)).2) ∧
    ((¬ ∃ u, Spec.Smallest {r | r ∈ ssh s :: shapes x} u) → ∃ e, T s x = .error e)

/-- The same for a module whose state is one tensor, on all inputs. -/
def Lifts {σ ι ω X O : Type} (shapes : X → List (List ℕ)) (val : X → List ℕ → ι) (osh : O → List ℕ → Prop) (oget : O → List ℕ → ω)
    (step : σ → ι → σ × ω) (T : Tensor σ → X → Except PyErr (Tensor σ × O)) : Prop :=
  LiftsOn (fun _ => True) Tensor.shape Tensor.get shapes val osh oget step T

theorem LiftsOn.state {S σ ι ω X O : Type} {P : X → Prop} {ssh : S → List ℕ} {sget : S → List ℕ → σ} {shapes : X → List (List ℕ)}
    {val : X → List ℕ → ι} {osh : O → List ℕ → Prop} {oget : O → List ℕ → ω} {step : σ → ι → σ × ω} {T : S → X → Except PyErr (S × O)}
    (h : LiftsOn P ssh sget shapes val osh oget step T) {s0 : S} {a : σ} (h0 : ssh s0 = [1]) (h0' : ∀ i, sget s0 i = a)
    (x : ℕ → X) (hP : ∀ k, P (x k)) (t : ℕ) :
    (∀ u, Spec.Smallest (Spec.shapesSeen shapes x t) u → ∃ s : S, stateAtE T s0 x t = .ok s ∧ ssh s = u ∧
      ∀ i, sget s i = stateAt step a (fun k => val (x k) i) t) ∧
    ((¬ ∃ u, Spec.Smallest (Spec.shapesSeen shapes x t) u) → ∃ e, stateAtE T s0 x t = .error e) := by
  induction t with
  | zero =>
    refine ⟨fun u hu => ⟨s0, rfl, h0.trans (join_unique (join_seen_zero shapes x) hu), h0'⟩, fun hn => ?_⟩
    exact absurd ⟨_, join_seen_zero shapes x⟩ hn
  | succ t ih =>
    by_cases hj : ∃ u, Spec.Smallest (Spec.shapesSeen shapes x t) u
    · obtain ⟨v, hv⟩ := hj
      obtain ⟨s, hs, hsv, hg⟩ := ih.1 v hv
      subst hsv
      obtain ⟨h1, h2⟩ := h s (x t) (hP t) (hv.1 _ (Or.inl rfl))
      constructor
      · intro u hu
        obtain ⟨s', o, hT, hu', _, hi⟩ := h1 u ((join_seen_succ hv).mp hu)
        refine ⟨s', stateAtE_succ_ok hs hT, hu', fun i => ?_⟩
        rw [(hi i).1, hg i]; rfl
      · intro hn
        obtain ⟨e, he⟩ := h2 fun ⟨u, hu⟩ => hn ⟨u, (join_seen_succ hv).mpr hu⟩
        refine ⟨e, ?_⟩
        simp only [stateAtE]; rw [hs]; show (T s (x t) >>= fun r => pure r.1) = _; rw [he]; rfl
    · obtain ⟨e, he⟩ := ih.2 hj
      refine ⟨fun u hu => ?_, fun _ => ⟨e, by simp only [stateAtE]; rw [he]; rfl⟩⟩
      refine absurd (join_seen (v := u) fun r hr => hu.1 r ?_) hj
      rcases hr with hr | ⟨k, hk, hr⟩
      · exact Or.inl hr
      · exact Or.inr ⟨k, by omega, hr⟩

theorem LiftsOn.out {S σ ι ω X O : Type} {P : X → Prop} {ssh : S → List ℕ} {sget : S → List ℕ → σ} {shapes : X → List (List ℕ)}
    {val : X → List ℕ → ι} {osh : O → List ℕ → Prop} {oget : O → List ℕ → ω} {step : σ → ι → σ × ω} {T : S → X → Except PyErr (S × O)}
    (h : LiftsOn P ssh sget shapes val osh oget step T) {s0 : S} {a : σ} (h0 : ssh s0 = [1]) (h0' : ∀ i, sget s0 i = a)
    (x : ℕ → X) (hP : ∀ k, P (x k)) (t : ℕ) :
    (∀ u, Spec.Smallest (Spec.shapesSeen shapes x (t + 1)) u → ∃ o : O, outAtE T s0 x t = .ok o ∧ osh o u ∧
      ∀ i, oget o i = outAt step a (fun k => val (x k) i) t) ∧
    ((¬ ∃ u, Spec.Smallest (Spec.shapesSeen shapes x (t + 1)) u) → ∃ e, outAtE T s0 x t = .error e) := by
  by_cases hj : ∃ u, Spec.Smallest (Spec.shapesSeen shapes x t) u
  · obtain ⟨v, hv⟩ := hj
    obtain ⟨s, hs, hsv, hg⟩ := (h.state h0 h0' x hP t).1 v hv
    subst hsv
    obtain ⟨h1, h2⟩ := h s (x t) (hP t) (hv.1 _ (Or.inl rfl))
    constructor
    · intro u hu
      obtain ⟨s', o, hT, _, ho, hi⟩ := h1 u ((join_seen_succ hv).mp hu)
      refine ⟨o, outAtE_ok hs hT, ho, fun i => ?_⟩
      rw [(hi i).2, hg i]; rfl
    · intro hn
      obtain ⟨e, he⟩ := h2 fun ⟨u, hu⟩ => hn ⟨u, (join_seen_succ hv).mpr hu⟩
      exact ⟨e, outAtE_error hs he⟩
  · obtain ⟨e, he⟩ := (h.state h0 h0' x hP t).2 hj
    refine ⟨fun u hu => ?_, fun _ => ⟨e, by simp only [outAtE]; rw [he]; rfl⟩⟩
    refine absurd (join_seen (v := u) fun r hr => hu.1 r ?_) hj
    rcases hr with hr | ⟨k, hk, hr⟩
    · exact Or.inl hr
    · exact Or.inr ⟨k, by omega, hr⟩

theorem join_two {s t u : List ℕ} : Spec.Smallest {r | r ∈ s :: [t]} u ↔ bc s t = some u := by
  rw [← join_pair]
  have : {r | r ∈ s :: [t]} = ({s, t} : Set (List ℕ)) := by ext r; simp
  rw [this]

theorem join_two_none {s t : List ℕ} (h : ¬ ∃ u, Spec.Smallest {r | r ∈ s :: [t]} u) : bc s t = none := by
  cases hb : bc s t with
  | none => rfl
  | some u => exact absurd ⟨u, join_two.mpr hb⟩ h

theorem bi2uni_lifts (depth : ℤ) : Lifts (fun x : Tensor ℤ => [x.shape]) (fun x i => x.get i) (fun (o : Tensor ℤ) u => o.shape = u)
    (fun o i => o.get i) (bi2uniStep depth) (bi2uniT depth) := by
  intro s x _ h1s
  constructor
  · intro u hu
    have hb : bc s.shape (map1 (fun v : ℤ => (v : ℚ) * 2 - 1) x).shape = some u := join_two.mp hu
    obtain ⟨a, h1, h1s, h1g⟩ := map2_ok (fun a v => clamp (-accBound depth) (accBound depth) (a + v)) hb
    obtain ⟨a', h2, h2s, h2g⟩ := map2In_ok (fun (a : ℚ) (o : ℤ) => a - o) (x := a) (y := map1 (fun a : ℚ => (ind (a ≥ 1) : ℤ)) a) (fits_refl _)
    refine ⟨a', map1 (fun a : ℚ => (ind (a ≥ 1) : ℤ)) a, ?_, h2s.trans h1s, h1s, fun i => ?_⟩
    · simp only [bi2uniT, h1, h2, bind, Except.bind, pure, Except.pure]
    · refine ⟨by rw [h2g, get_map1, h1g, get_map1]; rfl, ?_⟩
      show (map1 _ a).get i = _
      rw [get_map1, h1g, get_map1]; rfl
  · intro hn
    have hb : bc s.shape (map1 (fun v : ℤ => (v : ℚ) * 2 - 1) x).shape = none := join_two_none hn
    exact ⟨.runtime, by simp only [bi2uniT, map2_err _ hb, bind, Except.bind]⟩

theorem uni2bi_lifts (depth : ℤ) : Lifts (fun x : Tensor ℤ => [x.shape]) (fun x i => x.get i) (fun (o : Tensor ℤ) u => o.shape = u)
    (fun o i => o.get i) (uni2biStep depth) (uni2biT depth) := by
  intro s x _ h1s
  constructor
  · intro u hu
    have hb : bc s.shape (map1 (fun v : ℤ => (v : ℚ) + 1) x).shape = some u := join_two.mp hu
    obtain ⟨a, h1, h1s, h1g⟩ := map2_ok (fun a v => clamp (-accBound depth) (accBound depth) (a + v)) hb
    obtain ⟨a', h2, h2s, h2g⟩ := map2In_ok (fun (a : ℚ) (o : ℤ) => a - o * 2) (x := a) (y := map1 (fun a : ℚ => (ind (a ≥ 2) : ℤ)) a) (fits_refl _)
    refine ⟨a', map1 (fun a : ℚ => (ind (a ≥ 2) : ℤ)) a, ?_, h2s.trans h1s, h1s, fun i => ?_⟩
    · simp only [uni2biT, h1, h2, bind, Except.bind, pure, Except.pure]
    · refine ⟨by rw [h2g, get_map1, h1g, get_map1]; rfl, ?_⟩
      show (map1 _ a).get i = _
      rw [get_map1, h1g, get_map1]; rfl
  · intro hn
    have hb : bc s.shape (map1 (fun v : ℤ => (v : ℚ) + 1) x).shape = none := join_two_none hn
    exact ⟨.runtime, by simp only [uni2biT, map2_err _ hb, bind, Except.bind]⟩

/-- A shape with at least one dimension, to which one-element tensors can be stretched. -/
theorem fits_one {u : List ℕ} (h : u ≠ []) : Spec.Stretch [1] u := by
  cases u with
  | nil => exact absurd rfl h
  | cons a u => exact ⟨Or.inl rfl, trivial⟩

theorem signAbs_lifts (depth : ℤ) : Lifts (fun x : Tensor ℤ => [x.shape]) (fun x i => x.get i)
    (fun (o : Tensor ℤ × Tensor ℤ) u => o.1.shape = u ∧ o.2.shape = u) (fun o i => (o.1.get i, o.2.get i))
    (signAbsStep depth) (signAbsT depth) := by
  intro s x _ h1s
  constructor
  · intro u hu
    have hb : bc s.shape (map1 (fun v : ℤ => (v : ℚ) * 2 - 1) x).shape = some u := join_two.mp hu
    have hs := bc_some hb
    have hw : bc u [1] = some u := bc_left (fits_trans h1s hs.1)
    have hw' := bc_some hw
    obtain ⟨a, h1, h1s, h1g⟩ := map2_ok (fun a v => clamp 0 (accMax depth) (a + v)) hb
    obtain ⟨g, h2, h2s, h2g⟩ := map2_ok (fun a h => (ind (a < h) : ℤ)) (x := a) (y := one (accHalf depth)) (u := u) (by rw [h1s]; exact hw)
    obtain ⟨o, h3, h3s, h3g⟩ := map2_ok Int.xor (x := g) (y := x) (u := u) (by rw [h2s]; exact bc_left (fits_trans hs.2.1 hw'.1))
    refine ⟨a, (g, o), ?_, h1s, ?_, fun i => ?_⟩
    · simp only [signAbsT, h1, h2, h3, bind, Except.bind, pure, Except.pure]
    · exact ⟨h2s, h3s⟩
    · refine ⟨by rw [h1g, get_map1]; rfl, ?_⟩
      show (g.get i, o.get i) = _
      rw [h3g, h2g, h1g, get_map1]; rfl
  · intro hn
    have hb : bc s.shape (map1 (fun v : ℤ => (v : ℚ) * 2 - 1) x).shape = none := join_two_none hn
    exact ⟨.runtime, by simp only [signAbsT, map2_err _ hb, bind, Except.bind]⟩

theorem relu_lifts (depth : ℤ) : Lifts (fun x : Tensor ℤ => [x.shape]) (fun x i => x.get i) (fun (o : Tensor ℤ) u => o.shape = u)
    (fun o i => o.get i) (reluStep depth) (reluT depth) := by
  intro s x _ h1s
  constructor
  · intro u hu
    have hb := join_two.mp hu
    have hs := bc_some hb
    have hb' : bc x.shape (map1 (fun a : ℚ => (ind (a ≥ accHalf depth) : ℤ)) s).shape = some u :=
      bc_eq hs.2.1 hs.1 fun v h1 h2 => hs.2.2 v h2 h1
    obtain ⟨o, h1, h1s, h1g⟩ := map2_ok (fun v f => Int.lor v (1 - f)) hb'
    obtain ⟨a, h2, h2s, h2g⟩ := map2_ok (fun (a : ℚ) (o : ℤ) => clamp 0 (accMax depth) (a + ((o : ℚ) * 2 - 1))) (x := s) (y := o) (u := u)
      (by rw [h1s]; exact bc_right hs.1)
    refine ⟨a, o, ?_, h2s, h1s, fun i => ?_⟩
    · simp only [reluT, h1, h2, bind, Except.bind, pure, Except.pure]
    · refine ⟨by rw [h2g, h1g, get_map1]; rfl, ?_⟩
      show o.get i = _
      rw [h1g, get_map1]; rfl
  · intro hn
    have hb := join_two_none hn
    have hb' : bc x.shape (map1 (fun a : ℚ => (ind (a ≥ accHalf depth) : ℤ)) s).shape = none := by
      cases h : bc x.shape (map1 (fun a : ℚ => (ind (a ≥ accHalf depth) : ℤ)) s).shape with
      | none => rfl
      | some u =>
        have hs := bc_some h
        exact absurd ⟨u, join_two.mpr (bc_eq hs.2.1 hs.1 fun v h1 h2 => hs.2.2 v h2 h1)⟩ hn
    exact ⟨.runtime, by simp only [reluT, map2_err _ hb', bind, Except.bind]⟩

theorem jk_lifts : Lifts (fun x : Tensor ℚ × Tensor ℚ => [x.1.shape, x.2.shape]) (fun x i => (x.1.get i, x.2.get i))
    (fun (o : Tensor ℤ) u => o.shape = u) (fun o i => o.get i) jkStep jkT := by
  intro s x _ h1s
  constructor
  · intro u hu
    have hq : Spec.Stretch s.shape u := hu.1 _ (by simp)
    have hJ : Spec.Stretch x.1.shape u := hu.1 _ (by simp)
    have hK : Spec.Stretch x.2.shape u := hu.1 _ (by simp)
    obtain ⟨w, hw⟩ := bc_exists hJ hK
    have hs := bc_some hw
    have hwu : bc w s.shape = some u := by
      refine bc_eq (hs.2.2 u hJ hK) hq fun v h1 h2 => hu.2 v fun r hr => ?_
      simp only [List.mem_cons, List.not_mem_nil, or_false, Set.mem_ofPred_eq] at hr
      rcases hr with rfl | rfl | rfl
      · exact h2
      · exact fits_trans hs.1 h1
      · exact fits_trans hs.2.1 h1
    have hwf : Spec.Stretch w u := (bc_some hwu).1
    obtain ⟨a1, e1, s1, g1⟩ := map2_ok Int.land (x := map1 (fun v : ℚ => (ind (v = 0) : ℤ)) x.1) (y := map1 (fun v : ℚ => (ind (v = 0) : ℤ)) x.2) hw
    obtain ⟨a2, e2, s2, g2⟩ := map2_ok Int.land (x := map1 (fun v : ℤ => 1 - v) (map1 (fun v : ℚ => (ind (v = 0) : ℤ)) x.1))
      (y := map1 (fun v : ℚ => (ind (v = 0) : ℤ)) x.2) hw
    obtain ⟨a3, e3, s3, g3⟩ := map2_ok Int.land (x := map1 (fun v : ℚ => (ind (v = 0) : ℤ)) x.1)
      (y := map1 (fun v : ℤ => 1 - v) (map1 (fun v : ℚ => (ind (v = 0) : ℤ)) x.2)) hw
    obtain ⟨a4, e4, s4, g4⟩ := map2_ok Int.land (x := map1 (fun v : ℤ => 1 - v) (map1 (fun v : ℚ => (ind (v = 0) : ℤ)) x.1))
      (y := map1 (fun v : ℤ => 1 - v) (map1 (fun v : ℚ => (ind (v = 0) : ℤ)) x.2)) hw
    obtain ⟨a, e5, s5, g5⟩ := map2_ok (fun x1 x2 : ℤ => x1 * x2) (x := a1) (y := s) (u := u) (by rw [s1]; exact hwu)
    obtain ⟨b, e6, s6, g6⟩ := map2_ok (fun x1 x2 : ℤ => x1 * x2) (x := a2) (y := map1 (fun _ : ℚ => (1:ℤ)) x.1) (u := w)
      (by rw [s2]; exact bc_left hs.1)
    obtain ⟨c, e7, s7, g7⟩ := map2_ok (fun x1 x2 : ℤ => x1 + x2) (x := a) (y := b) (u := u) (by rw [s5, s6]; exact bc_left hwf)
    obtain ⟨d, e8, s8, g8⟩ := map2_ok (fun x1 x2 : ℤ => x1 * x2) (x := a3) (y := map1 (fun _ : ℚ => (0:ℤ)) x.1) (u := w)
      (by rw [s3]; exact bc_left hs.1)
    obtain ⟨e, e9, s9, g9⟩ := map2_ok (fun x1 x2 : ℤ => x1 + x2) (x := c) (y := d) (u := u) (by rw [s7, s8]; exact bc_left hwf)
    obtain ⟨f, e10, s10, g10⟩ := map2_ok (fun x1 x2 : ℤ => x1 * x2) (x := a4) (y := map1 (fun v : ℤ => 1 - v) s) (u := u) (by rw [s4]; exact hwu)
    obtain ⟨g, e11, s11, g11⟩ := map2_ok (fun x1 x2 : ℤ => x1 + x2) (x := e) (y := f) (u := u) (by rw [s9, s10]; exact bc_left (fits_refl u))
    refine ⟨g, g, ?_, s11, s11, fun i => ?_⟩
    · simp only [jkT, e1, e2, e3, e4, e5, e6, e7, e8, e9, e10, e11, bind, Except.bind, pure, Except.pure]
    · have : g.get i = (jkStep (s.get i) (x.1.get i, x.2.get i)).1 := by
        rw [g11, g10, g9, g8, g7, g6, g5, g4, g3, g2, g1]; rfl
      exact ⟨this, this⟩
  · intro hn
    cases hw : bc x.1.shape x.2.shape with
    | none =>
      have e1 := map2_err Int.land (x := map1 (fun v : ℚ => (ind (v = 0) : ℤ)) x.1) (y := map1 (fun v : ℚ => (ind (v = 0) : ℤ)) x.2) hw
      exact ⟨.runtime, by simp only [jkT, e1, bind, Except.bind]⟩
    | some w =>
      have hs := bc_some hw
      obtain ⟨a1, e1, s1, g1⟩ := map2_ok Int.land (x := map1 (fun v : ℚ => (ind (v = 0) : ℤ)) x.1) (y := map1 (fun v : ℚ => (ind (v = 0) : ℤ)) x.2) hw
      obtain ⟨a2, e2, s2, g2⟩ := map2_ok Int.land (x := map1 (fun v : ℤ => 1 - v) (map1 (fun v : ℚ => (ind (v = 0) : ℤ)) x.1))
        (y := map1 (fun v : ℚ => (ind (v = 0) : ℤ)) x.2) hw
      obtain ⟨a3, e3, s3, g3⟩ := map2_ok Int.land (x := map1 (fun v : ℚ => (ind (v = 0) : ℤ)) x.1)
        (y := map1 (fun v : ℤ => 1 - v) (map1 (fun v : ℚ => (ind (v = 0) : ℤ)) x.2)) hw
      obtain ⟨a4, e4, s4, g4⟩ := map2_ok Int.land (x := map1 (fun v : ℤ => 1 - v) (map1 (fun v : ℚ => (ind (v = 0) : ℤ)) x.1))
        (y := map1 (fun v : ℤ => 1 - v) (map1 (fun v : ℚ => (ind (v = 0) : ℤ)) x.2)) hw
      have hb : bc a1.shape s.shape = none := by
        rw [s1]
        cases h : bc w s.shape with
        | none => rfl
        | some u =>
          have h' := bc_some h
          refine absurd (join_exists _ (v := u) fun r hr => ?_) hn
          simp only [List.mem_cons, List.not_mem_nil, or_false] at hr
          rcases hr with rfl | rfl | rfl
          · exact h'.2.1
          · exact fits_trans hs.1 h'.1
          · exact fits_trans hs.2.1 h'.1
      have e5 := map2_err (fun x1 x2 : ℤ => x1 * x2) (x := a1) (y := s) hb
      exact ⟨.runtime, by simp only [jkT, e1, e2, e3, e4, e5, bind, Except.bind]⟩

/-! ### The modules -/

/-- `Bi2Uni` on tensors of any shapes.  A call succeeds exactly if all inputs so far fit into one shape; the result has the
smallest such shape; and every element is that of the single-element module fed with the elements that broadcasting puts in
this place. -/
theorem C100_bi2uni (depth : ℤ) (x : ℕ → Tensor ℤ) (t : ℕ) :
    (∀ u, Spec.Smallest (Spec.shapesSeen (fun x : Tensor ℤ => [x.shape]) x (t + 1)) u → ∃ o : Tensor ℤ, outAtE (bi2uniT depth) (one 0) x t = .ok o ∧
      o.shape = u ∧ ∀ i, o.get i = outAt (bi2uniStep depth) 0 (fun k => (x k).get i) t) ∧
    ((¬ ∃ u, Spec.Smallest (Spec.shapesSeen (fun x : Tensor ℤ => [x.shape]) x (t + 1)) u) → ∃ e, outAtE (bi2uniT depth) (one 0) x t = .error e) :=
  (bi2uni_lifts depth).out rfl (fun _ => rfl) x (fun _ => trivial) t

/-- The same for `Uni2Bi`. -/
theorem C100_uni2bi (depth : ℤ) (x : ℕ → Tensor ℤ) (t : ℕ) :
    (∀ u, Spec.Smallest (Spec.shapesSeen (fun x : Tensor ℤ => [x.shape]) x (t + 1)) u → ∃ o : Tensor ℤ, outAtE (uni2biT depth) (one 0) x t = .ok o ∧
      o.shape = u ∧ ∀ i, o.get i = outAt (uni2biStep depth) 0 (fun k => (x k).get i) t) ∧
    ((¬ ∃ u, Spec.Smallest (Spec.shapesSeen (fun x : Tensor ℤ => [x.shape]) x (t + 1)) u) → ∃ e, outAtE (uni2biT depth) (one 0) x t = .error e) :=
  (uni2bi_lifts depth).out rfl (fun _ => rfl) x (fun _ => trivial) t

/-- The same for `FSUSignAbs`, sign and absolute value. -/
theorem C100_signabs (depth : ℤ) (x : ℕ → Tensor ℤ) (t : ℕ) :
    (∀ u, Spec.Smallest (Spec.shapesSeen (fun x : Tensor ℤ => [x.shape]) x (t + 1)) u → ∃ sg ab : Tensor ℤ,
      outAtE (signAbsT depth) (one (accHalf depth)) x t = .ok (sg, ab) ∧ sg.shape = u ∧ ab.shape = u ∧
      ∀ i, (sg.get i, ab.get i) = outAt (signAbsStep depth) (accHalf depth) (fun k => (x k).get i) t) ∧
    ((¬ ∃ u, Spec.Smallest (Spec.shapesSeen (fun x : Tensor ℤ => [x.shape]) x (t + 1)) u) →
      ∃ e, outAtE (signAbsT depth) (one (accHalf depth)) x t = .error e) := by
  obtain ⟨h1, h2⟩ := (signAbs_lifts depth).out (s0 := one (accHalf depth)) rfl (fun _ => rfl) x (fun _ => trivial) t
  refine ⟨fun u hu => ?_, h2⟩
  obtain ⟨o, ho, hs, hg⟩ := h1 u hu
  exact ⟨o.1, o.2, ho, hs.1, hs.2, hg⟩

/-- The same for `FSUReLU`. -/
theorem C100_relu (depth : ℤ) (x : ℕ → Tensor ℤ) (t : ℕ) :
    (∀ u, Spec.Smallest (Spec.shapesSeen (fun x : Tensor ℤ => [x.shape]) x (t + 1)) u → ∃ o : Tensor ℤ, outAtE (reluT depth) (one (accHalf depth)) x t = .ok o ∧
      o.shape = u ∧ ∀ i, o.get i = outAt (reluStep depth) (accHalf depth) (fun k => (x k).get i) t) ∧
    ((¬ ∃ u, Spec.Smallest (Spec.shapesSeen (fun x : Tensor ℤ => [x.shape]) x (t + 1)) u) →
      ∃ e, outAtE (reluT depth) (one (accHalf depth)) x t = .error e) :=
  (relu_lifts depth).out rfl (fun _ => rfl) x (fun _ => trivial) t

/-- The same for `JKFF` with two inputs of any shapes. -/
theorem C100_jkff (x : ℕ → Tensor ℚ × Tensor ℚ) (t : ℕ) :
    (∀ u, Spec.Smallest (Spec.shapesSeen (fun x : Tensor ℚ × Tensor ℚ => [x.1.shape, x.2.shape]) x (t + 1)) u → ∃ o : Tensor ℤ, outAtE jkT (one 0) x t = .ok o ∧
      o.shape = u ∧ ∀ i, o.get i = outAt jkStep 0 (fun k => ((x k).1.get i, (x k).2.get i)) t) ∧
    ((¬ ∃ u, Spec.Smallest (Spec.shapesSeen (fun x : Tensor ℚ × Tensor ℚ => [x.1.shape, x.2.shape]) x (t + 1)) u) → ∃ e, outAtE jkT (one 0) x t = .error e) :=
  jk_lifts.out rfl (fun _ => rfl) x (fun _ => trivial) t

/-- One call of `SkewedSync`. -/
theorem ss_call (depth : ℕ) (cnt : Tensor ℤ) (i : Tensor ℤ × Tensor ℤ) {u : List ℕ} (hu : bc i.1.shape i.2.shape = some u) :
    ∃ (cnt' out : Tensor ℤ), ssT depth cnt i = .ok (cnt', (out, i.2)) ∧ cnt'.shape = u ∧ out.shape = u ∧
      ∀ j, (cnt'.get j, (out.get j, i.2.get j)) =
        ((ssStep depth ⟨cnt.shape, cnt.get j⟩ (u, i.1.get j, i.2.get j)).1.cnt, (ssStep depth ⟨cnt.shape, cnt.get j⟩ (u, i.1.get j, i.2.get j)).2) := by
  have hs := bc_some hu
  obtain ⟨sum, e1, s1, g1⟩ := map2_ok (fun x1 x2 : ℤ => x1 + x2) hu
  obtain ⟨c, hc, hcs, hcg⟩ : ∃ c : Tensor ℤ, c = (if cnt.shape ≠ sum.shape then map1 (fun _ => 0) sum else cnt) ∧ c.shape = u ∧
      ∀ j, c.get j = if cnt.shape ≠ u then 0 else cnt.get j := by
    refine ⟨_, rfl, ?_, fun j => ?_⟩
    · by_cases h : cnt.shape = sum.shape
      · rw [if_neg (by simpa using h), h, s1]
      · rw [if_pos h]; exact s1
    · by_cases h : cnt.shape = sum.shape
      · rw [if_neg (by simpa using h), if_neg (by rw [h, s1]; simp)]
      · rw [if_pos h, if_pos (by rw [← s1]; exact h), get_map1]
  obtain ⟨p, e2, s2, g2⟩ := map2_ok (fun x1 x2 : ℤ => x1 * x2) (x := map1 (fun c : ℤ => (ind (c ≠ 0) : ℤ)) c) (y := map1 (fun v : ℤ => 1 - v) i.1)
    (u := u) (by show bc c.shape i.1.shape = _; rw [hcs]; exact bc_left hs.1)
  obtain ⟨r, e3, s3, g3⟩ := map2_ok (fun x1 x2 : ℤ => x1 * x2)
    (x := map1 (fun v : ℤ => 0 - v) (map1 (fun c : ℤ => (ind (c ≠ 2 ^ depth - 1) : ℤ)) c)) (y := i.1)
    (u := u) (by show bc c.shape i.1.shape = _; rw [hcs]; exact bc_left hs.1)
  obtain ⟨pr, e4, s4, g4⟩ := map2_ok (fun x1 x2 : ℤ => x1 + x2) (x := p) (y := r) (u := u) (by rw [s2, s3]; exact bc_left (fits_refl u))
  obtain ⟨m, e5, s5, g5⟩ := map2In_ok (fun x1 x2 : ℤ => x1 * x2) (x := map1 (fun v : ℤ => (ind (v = 1) : ℤ)) sum) (y := pr)
    (by show Spec.Stretch pr.shape sum.shape; rw [s4, s1]; exact fits_refl u)
  obtain ⟨out, e6, s6, g6⟩ := map2_ok (fun x1 x2 : ℤ => x1 + x2) (x := i.1) (y := m) (u := u)
    (by rw [s5]; show bc i.1.shape sum.shape = _; rw [s1]; exact bc_right hs.1)
  obtain ⟨upd, e7, s7, g7⟩ := map2In_ok (fun x1 x2 : ℤ => x1 * x2) (x := map1 (fun v : ℤ => (ind (v = 1) : ℤ)) sum)
    (y := map1 (fun v : ℤ => v * 2 - 1) i.1) (by show Spec.Stretch i.1.shape sum.shape; rw [s1]; exact hs.1)
  obtain ⟨cnt', e8, s8, g8⟩ := map2In_ok (fun c v : ℤ => clamp 0 (2 ^ depth - 1) (c + v)) (x := c) (y := upd)
    (by rw [s7, hcs]; show Spec.Stretch sum.shape u; rw [s1]; exact fits_refl u)
  refine ⟨cnt', out, ?_, s8.trans hcs, s6, fun j => ?_⟩
  · simp only [ssT, e1, ← hc, e2, e3, e4, e5, e6, e7, e8, bind, Except.bind, pure, Except.pure]
  · rw [g8, g7, g6, g5, g4, g3, g2]
    simp only [get_map1, g1, hcg]
    rfl

/-- `SkewedSync` on tensors of any shapes: a call fails only if its own two operands do not fit; the result has their common
shape; every element is that of the single-element module, whose counter starts again whenever the shape changes. -/
theorem C100_sync (depth : ℕ) (x : ℕ → Tensor ℤ × Tensor ℤ) (u : ℕ → List ℕ) (t : ℕ)
    (hu : ∀ k ≤ t, Spec.Smallest {(x k).1.shape, (x k).2.shape} (u k)) :
    ∃ o : Tensor ℤ, outAtE (ssT depth) (one 0) x t = .ok (o, (x t).2) ∧ o.shape = u t ∧
      ∀ i, (o.get i, (x t).2.get i) = outAt (ssStep depth) ssInit (fun k => (u k, (x k).1.get i, (x k).2.get i)) t := by
  have key : ∀ n ≤ t + 1, ∃ c : Tensor ℤ, stateAtE (ssT depth) (one 0) x n = .ok c ∧
      ∀ i, (⟨c.shape, c.get i⟩ : SS) = stateAt (ssStep depth) ssInit (fun k => (u k, (x k).1.get i, (x k).2.get i)) n := by
    intro n
    induction n with
    | zero => exact fun _ => ⟨one 0, rfl, fun i => rfl⟩
    | succ n ih =>
      intro hn
      obtain ⟨c, hc, hg⟩ := ih (by omega)
      obtain ⟨c', o, hT, hs, _, hgo⟩ := ss_call depth c (x n) (join_pair.mp (hu n (by omega)))
      refine ⟨c', stateAtE_succ_ok hc hT, fun i => ?_⟩
      show _ = (ssStep depth (stateAt _ _ _ n) _).1
      rw [← hg i, hs, (Prod.mk.inj (hgo i)).1]; rfl
  obtain ⟨c, hc, hg⟩ := key t (by omega)
  obtain ⟨c', o, hT, _, hs, hgo⟩ := ss_call depth c (x t) (join_pair.mp (hu t (le_refl t)))
  refine ⟨o, outAtE_ok hc hT, hs, fun i => ?_⟩
  show _ = (ssStep depth (stateAt _ _ _ t) _).2
  rw [← hg i, (Prod.mk.inj (hgo i)).2]

/-! ### Static multiplication -/

/-- One call of the static multiplier. -/
theorem mul_call (mode : Mode) (rng : List ℤ) (binary : Tensor ℤ) (s : MulSt) (x : Tensor ℤ) (sr : List ℤ)
    (hsh : mode = .bipolar → s.idxInv.shape = s.idx.shape) {v : List ℕ} (hb : Spec.Stretch binary.shape v) (hi : Spec.Stretch s.idx.shape v)
    (hx : Spec.Stretch x.shape v) :
    ∃ (s' : MulSt) (o : Tensor ℤ), mulT mode rng binary s x = .ok (s', o) ∧ Spec.Smallest {r | r ∈ s.idx.shape :: [x.shape]} s'.idx.shape ∧
      (mode = .bipolar → s'.idxInv.shape = s'.idx.shape) ∧ Spec.Smallest {binary.shape, s.idx.shape, x.shape} o.shape ∧
      ∀ i, (⟨s'.idx.get i, s'.idxInv.get i, sr⟩ : Multiplier.St) =
          (Multiplier.stepStatic mode rng (binary.get i) ⟨s.idx.get i, s.idxInv.get i, sr⟩ (x.get i)).1 ∧
        o.get i = (Multiplier.stepStatic mode rng (binary.get i) ⟨s.idx.get i, s.idxInv.get i, sr⟩ (x.get i)).2 := by
  obtain ⟨c, hc⟩ := bc_exists hb hi
  have hc' := bc_some hc
  obtain ⟨w, hw⟩ := bc_exists hx (hc'.2.2 v hb hi)
  have hw' := bc_some hw
  obtain ⟨p, hp⟩ := bc_exists hi hx
  obtain ⟨b, e1, s1, g1⟩ := map2_ok (Gen.bsGen rng) (x := binary) (y := s.idx) hc
  obtain ⟨path, e2, s2, g2⟩ := map2_ok Int.land (x := x) (y := b) (u := w) (by rw [s1]; exact hw)
  obtain ⟨idx, e3, s3, g3⟩ := map2_ok (fun x1 x2 : ℤ => x1 + x2) (x := s.idx) (y := x) hp
  have hj : Spec.Smallest {binary.shape, s.idx.shape, x.shape} w := by
    refine ⟨fun r hr => ?_, fun z hz => hw'.2.2 z (hz _ (by simp)) (hc'.2.2 z (hz _ (by simp)) (hz _ (by simp)))⟩
    rcases hr with rfl | rfl | rfl
    · exact fits_trans hc'.1 hw'.2.1
    · exact fits_trans hc'.2.1 hw'.2.1
    · exact hw'.1
  cases mode with
  | unipolar =>
    refine ⟨⟨idx, s.idxInv⟩, path, ?_, join_two.mpr (by rw [s3]; exact hp), (fun h => absurd h (by decide)), by rw [s2]; exact hj, fun i => ?_⟩
    · simp only [mulT, bsGenT, e1, e2, e3, bind, Except.bind, pure, Except.pure]
    · rw [g2, g1]; dsimp only; rw [g3]; exact ⟨rfl, rfl⟩
  | bipolar =>
    have hsh := hsh rfl
    obtain ⟨b2, e4, s4, g4⟩ := map2_ok (Gen.bsGen rng) (x := binary) (y := s.idxInv) (u := c) (by rw [hsh]; exact hc)
    obtain ⟨path2, e5, s5, g5⟩ := map2_ok Int.land (x := map1 (fun v : ℤ => 1 - v) x) (y := map1 (fun v : ℤ => 1 - v) b2) (u := w)
      (by show bc x.shape b2.shape = _; rw [s4]; exact hw)
    obtain ⟨idx2, e6, s6, g6⟩ := map2_ok (fun x1 x2 : ℤ => x1 + x2) (x := s.idxInv) (y := map1 (fun v : ℤ => 1 - v) x) (u := p)
      (by rw [hsh]; exact hp)
    obtain ⟨o, e7, s7, g7⟩ := map2_ok Int.lor (x := path) (y := path2) (u := w) (by rw [s2, s5]; exact bc_left (fits_refl w))
    refine ⟨⟨idx, idx2⟩, o, ?_, join_two.mpr (by rw [s3]; exact hp), fun _ => s6.trans s3.symm, by rw [s7]; exact hj, fun i => ?_⟩
    · simp only [mulT, bsGenT, e1, e2, e3, e4, e5, e6, e7, bind, Except.bind, pure, Except.pure]
    · rw [g7, g5, g2]; dsimp only; rw [g3, g6, get_map1, get_map1, g1, g4]; exact ⟨rfl, rfl⟩

theorem join_insert {A : Set (List ℕ)} {b s u : List ℕ} (hs : Spec.Smallest A s) : Spec.Smallest (insert b A) u ↔ bc b s = some u := by
  constructor
  · intro h
    exact bc_eq (h.1 b (Set.mem_insert _ _)) (hs.2 u fun r hr => h.1 r (Set.mem_insert_of_mem _ hr)) fun v h1 h2 => h.2 v fun r hr => by
      rcases hr with rfl | hr
      · exact h1
      · exact fits_trans (hs.1 r hr) h2
  · intro h
    have hb := bc_some h
    refine ⟨fun r hr => ?_, fun v hv => hb.2.2 v (hv b (Set.mem_insert _ _)) (hs.2 v fun r hr => hv r (Set.mem_insert_of_mem _ hr))⟩
    rcases hr with rfl | hr
    · exact hb.1
    · exact fits_trans (hs.1 r hr) hb.2.1

theorem seen_mono {X : Type} {shapes : X → List (List ℕ)} {x : ℕ → X} {t : ℕ} {r : List ℕ} (h : r ∈ Spec.shapesSeen shapes x t) :
    r ∈ Spec.shapesSeen shapes x (t + 1) := by
  rcases h with hr | ⟨k, hk, hr⟩
  · exact Or.inl hr
  · exact Or.inr ⟨k, by omega, hr⟩

theorem mul_state (mode : Mode) (rng : List ℤ) (binary : Tensor ℤ) (width : ℕ) (x : ℕ → Tensor ℤ) (t : ℕ) :
    (∀ u, Spec.Smallest (insert binary.shape (Spec.shapesSeen (fun x : Tensor ℤ => [x.shape]) x t)) u →
      ∃ s : MulSt, stateAtE (mulT mode rng binary) ⟨one 0, one 0⟩ x t = .ok s ∧ Spec.Smallest (Spec.shapesSeen (fun x : Tensor ℤ => [x.shape]) x t) s.idx.shape ∧
        (mode = .bipolar → s.idxInv.shape = s.idx.shape) ∧
        ∀ i, (⟨s.idx.get i, s.idxInv.get i, srInit (2 ^ width)⟩ : Multiplier.St) =
          stateAt (Multiplier.stepStatic mode rng (binary.get i)) (Multiplier.init width) (fun k => (x k).get i) t) ∧
    ((¬ ∃ u, Spec.Smallest (insert binary.shape (Spec.shapesSeen (fun x : Tensor ℤ => [x.shape]) x t)) u) →
      ∃ e, stateAtE (mulT mode rng binary) ⟨one 0, one 0⟩ x t = .error e) := by
  induction t with
  | zero =>
    refine ⟨fun u _ => ⟨⟨one 0, one 0⟩, rfl, join_seen_zero _ _, fun _ => rfl, fun i => rfl⟩, fun hn => ?_⟩
    obtain ⟨w, hw⟩ : ∃ w, bc binary.shape [1] = some w := by
      cases h : binary.shape with
      | nil => exact ⟨_, rfl⟩
      | cons a u => exact ⟨_, bc_left ⟨Or.inl rfl, trivial⟩⟩
    exact absurd ⟨w, (join_insert (join_seen_zero _ _)).mpr hw⟩ hn
  | succ t ih =>
    by_cases hj : ∃ u, Spec.Smallest (insert binary.shape (Spec.shapesSeen (fun x : Tensor ℤ => [x.shape]) x t)) u
    · obtain ⟨v, hv⟩ := hj
      obtain ⟨s, hs, hsv, hI, hg⟩ := ih.1 v hv
      constructor
      · intro u hu
        have hb := hu.1 _ (Set.mem_insert _ _)
        have hx : Spec.Stretch (x t).shape u := hu.1 _ (Set.mem_insert_of_mem _ (Or.inr ⟨t, by omega, by simp⟩))
        have hi : Spec.Stretch s.idx.shape u := hsv.2 u fun r hr => hu.1 r (Set.mem_insert_of_mem _ (seen_mono hr))
        obtain ⟨s', o, hT, h1, h2, _, h4⟩ := mul_call mode rng binary s (x t) (srInit (2 ^ width)) hI hb hi hx
        refine ⟨s', stateAtE_succ_ok hs hT, (join_seen_succ hsv).mpr h1, h2, fun i => ?_⟩
        rw [(h4 i).1, hg i]; rfl
      · intro hn
        have he : ∃ e, mulT mode rng binary s (x t) = .error e := by
          obtain ⟨c, hc⟩ := bc_exists (hv.1 _ (Set.mem_insert _ _)) (hsv.2 v fun r hr => hv.1 r (Set.mem_insert_of_mem _ hr))
          have hc' := bc_some hc
          obtain ⟨b, e1, s1, g1⟩ := map2_ok (Gen.bsGen rng) (x := binary) (y := s.idx) hc
          have e2 : map2 Int.land (x t) b = .error .runtime := by
            refine map2_err _ ?_
            rw [s1]
            cases h : bc (x t).shape c with
            | none => rfl
            | some w =>
              have hw := bc_some h
              have hall : ∀ r ∈ Spec.shapesSeen (fun x : Tensor ℤ => [x.shape]) x (t + 1), Spec.Stretch r w := by
                intro r hr
                rcases hr with hr | ⟨k, hk, hr⟩
                · exact fits_trans (hsv.1 r (Or.inl hr)) (fits_trans hc'.2.1 hw.2.1)
                · rcases Nat.lt_succ_iff_lt_or_eq.mp hk with hk | hk
                  · exact fits_trans (hsv.1 r (Or.inr ⟨k, hk, hr⟩)) (fits_trans hc'.2.1 hw.2.1)
                  · rw [hk] at hr
                    rw [List.mem_singleton.mp hr]; exact hw.1
              obtain ⟨z, hz⟩ := join_seen hall
              obtain ⟨y, hy⟩ := bc_exists (fits_trans hc'.1 hw.2.1) (hz.2 w hall)
              exact absurd ⟨y, (join_insert hz).mpr hy⟩ hn
          exact ⟨.runtime, by simp only [mulT, bsGenT, e1, e2, bind, Except.bind]⟩
        obtain ⟨e, he⟩ := he
        refine ⟨e, ?_⟩
        simp only [stateAtE]; rw [hs]; show (mulT mode rng binary s (x t) >>= fun r => pure r.1) = _; rw [he]; rfl
    · obtain ⟨e, he⟩ := ih.2 hj
      refine ⟨fun u hu => ?_, fun _ => ⟨e, by simp only [stateAtE]; rw [he]; rfl⟩⟩
      obtain ⟨z, hz⟩ := join_seen (x := x) (shapes := fun x : Tensor ℤ => [x.shape]) (t := t) (v := u)
        fun r hr => hu.1 r (Set.mem_insert_of_mem _ (seen_mono hr))
      obtain ⟨y, hy⟩ := bc_exists (hu.1 _ (Set.mem_insert _ _)) (hz.2 u fun r hr => hu.1 r (Set.mem_insert_of_mem _ (seen_mono hr)))
      exact absurd ⟨y, (join_insert hz).mpr hy⟩ hj

/-- The static multiplier on tensors: multiplier `binary` and inputs may have any shapes.  As long as the multiplier and all
inputs so far fit into one shape, a call returns the smallest such shape, and every element is that of the single-element
multiplier; otherwise a call raises. -/
theorem C100_mul (mode : Mode) (rng : List ℤ) (binary : Tensor ℤ) (width : ℕ) (x : ℕ → Tensor ℤ) (t : ℕ) :
    (∀ u, Spec.Smallest (insert binary.shape (Spec.shapesSeen (fun x : Tensor ℤ => [x.shape]) x (t + 1))) u →
      ∃ o : Tensor ℤ, outAtE (mulT mode rng binary) ⟨one 0, one 0⟩ x t = .ok o ∧ o.shape = u ∧
        ∀ i, o.get i = outAt (Multiplier.stepStatic mode rng (binary.get i)) (Multiplier.init width) (fun k => (x k).get i) t) ∧
    ((¬ ∃ u, Spec.Smallest (insert binary.shape (Spec.shapesSeen (fun x : Tensor ℤ => [x.shape]) x (t + 1))) u) →
      ∃ e, outAtE (mulT mode rng binary) ⟨one 0, one 0⟩ x t = .error e) := by
  have hst := mul_state mode rng binary width x t
  have hst' := mul_state mode rng binary width x (t + 1)
  constructor
  · intro u hu
    have hex : ∃ v, Spec.Smallest (insert binary.shape (Spec.shapesSeen (fun x : Tensor ℤ => [x.shape]) x t)) v := by
      obtain ⟨z, hz⟩ := join_seen (x := x) (shapes := fun x : Tensor ℤ => [x.shape]) (t := t) (v := u)
        fun r hr => hu.1 r (Set.mem_insert_of_mem _ (seen_mono hr))
      obtain ⟨y, hy⟩ := bc_exists (hu.1 _ (Set.mem_insert _ _)) (hz.2 u fun r hr => hu.1 r (Set.mem_insert_of_mem _ (seen_mono hr)))
      exact ⟨y, (join_insert hz).mpr hy⟩
    obtain ⟨v, hv⟩ := hex
    obtain ⟨s, hs, hsv, hI, hg⟩ := hst.1 v hv
    have hb := hu.1 _ (Set.mem_insert _ _)
    have hx : Spec.Stretch (x t).shape u := hu.1 _ (Set.mem_insert_of_mem _ (Or.inr ⟨t, by omega, by simp⟩))
    have hi : Spec.Stretch s.idx.shape u := hsv.2 u fun r hr => hu.1 r (Set.mem_insert_of_mem _ (seen_mono hr))
    obtain ⟨s', o, hT, h1, _, h3, h4⟩ := mul_call mode rng binary s (x t) (srInit (2 ^ width)) hI hb hi hx
    refine ⟨o, outAtE_ok hs hT, ?_, fun i => ?_⟩
    · have hz : Spec.Smallest (Spec.shapesSeen (fun x : Tensor ℤ => [x.shape]) x (t + 1)) s'.idx.shape := (join_seen_succ hsv).mpr h1
      refine join_unique h3 ⟨fun r hr => ?_, fun z hz' => hu.2 z fun r hr => ?_⟩
      · rcases hr with rfl | rfl | rfl
        · exact hb
        · exact hi
        · exact hx
      · rcases hr with rfl | hr
        · exact hz' _ (by simp)
        · refine fits_trans (hz.1 r hr) (h1.2 z fun q hq => ?_)
          simp only [List.mem_cons, List.not_mem_nil, or_false, Set.mem_ofPred_eq] at hq
          rcases hq with rfl | rfl
          · exact hz' _ (by simp)
          · exact hz' _ (by simp)
    · rw [(h4 i).2, hg i]; rfl
  · intro hn
    obtain ⟨e, he⟩ := hst'.2 hn
    simp only [stateAtE] at he
    refine ⟨e, ?_⟩
    simp only [outAtE]
    cases hs : stateAtE (mulT mode rng binary) ⟨one 0, one 0⟩ x t with
    | error e' => rw [hs] at he; rw [show e' = e from Except.error.inj he]; rfl
    | ok s =>
      rw [hs] at he
      change (mulT mode rng binary s (x t) >>= fun r => pure r.1) = _ at he
      show (mulT mode rng binary s (x t) >>= fun r => pure r.2) = _
      cases hm : mulT mode rng binary s (x t) with
      | error e' => rw [hm] at he; exact congrArg _ (Except.error.inj he)
      | ok r => rw [hm] at he; exact absurd he (by simp [bind, Except.bind, pure, Except.pure])

/-! ### Addition -/

/-- Position of dimension `d` counted from the last one; negative dimensions already are counted from there. -/
def Spec.fromLast (d : ℤ) (r : ℕ) : ℕ := if 0 ≤ d then (r - 1 - d).toNat else (-d - 1).toNat

/-- The elements of `x` along position `k`, all other coordinates as in `i` (stretched if needed). -/
def Spec.fibre (x : Tensor ℤ) (k : ℕ) (i : List ℕ) : List ℚ :=
  (List.range (x.shape.getD k 0)).map fun j => (x.at' ((proj (x.shape.eraseIdx k) i).insertIdx k j) : ℚ)

theorem dimPos_ok {d : ℤ} {r : ℕ} (h : -r ≤ d ∧ d < r) : dimPos d r = .ok (Spec.fromLast d r) := by
  unfold dimPos Spec.fromLast
  by_cases h0 : 0 ≤ d
  · rw [if_pos ⟨h0, h.2⟩, if_pos h0]
  · rw [if_neg (fun hh => h0 hh.1), if_pos ⟨h.1, by omega⟩, if_neg h0]

theorem add_lifts (cfg : Adder.Cfg) (dima : ℤ) :
    LiftsOn (fun x : Tensor ℤ => -(x.shape.length : ℤ) ≤ dima ∧ dima < x.shape.length) (fun s : AddSt => s.acc.shape)
      (fun s i => (⟨s.first, s.entry, s.scaleCarry, s.offset, s.acc.get i⟩ : Adder.St))
      (fun x => [x.shape.eraseIdx (Spec.fromLast dima x.shape.length)])
      (fun x i => ({ xs := Spec.fibre x (Spec.fromLast dima x.shape.length) i } : Adder.Arg))
      (fun (o : Tensor ℤ) u => o.shape = u) (fun o i => o.get i) (Adder.step cfg) (addT cfg dima) := by
  intro s x hd h1s
  have hk := dimPos_ok hd
  beta_reduce
  generalize Spec.fromLast dima x.shape.length = k at hk ⊢
  have key : ∀ off : ℚ, ∃ d : Tensor ℚ, map2 (fun v o : ℚ => v - o) (sumDim x k) (one off) = .ok d ∧
      bc (x.shape.eraseIdx k) [1] = some d.shape ∧ ∀ i, d.get i = (Spec.fibre x k i).sum - off := by
    intro off
    obtain ⟨w, hw⟩ : ∃ w, bc (x.shape.eraseIdx k) [1] = some w := by
      cases h : x.shape.eraseIdx k with
      | nil => exact ⟨_, rfl⟩
      | cons a u => exact ⟨_, bc_left ⟨Or.inl rfl, trivial⟩⟩
    obtain ⟨d, h1, h2, h3⟩ := map2_ok (fun v o : ℚ => v - o) (x := sumDim x k) (y := one off) hw
    exact ⟨d, h1, h2 ▸ hw, fun i => by rw [h3]; rfl⟩
  have hconf : ∀ i, (⟨(addConfigure cfg s (x.shape.getD k 0)).first, (addConfigure cfg s (x.shape.getD k 0)).entry,
      (addConfigure cfg s (x.shape.getD k 0)).scaleCarry, (addConfigure cfg s (x.shape.getD k 0)).offset, s.acc.get i⟩ : Adder.St) =
      Adder.configure cfg ⟨s.first, s.entry, s.scaleCarry, s.offset, s.acc.get i⟩ { xs := Spec.fibre x k i } := by
    intro i
    unfold addConfigure Adder.configure
    by_cases hf : s.first = true
    · simp only [hf, if_true, Spec.fibre, List.length_map, List.length_range]
      rfl
    · rw [if_neg hf, if_neg hf]
  have hacc : (addConfigure cfg s (x.shape.getD k 0)).acc = s.acc := by
    unfold addConfigure; split_ifs <;> rfl
  generalize hs1 : addConfigure cfg s (x.shape.getD k 0) = s1 at hconf hacc
  obtain ⟨d, e1, hd1, g1⟩ := key s1.offset
  have hds := bc_some hd1
  have hbd : ∀ u, bc s.acc.shape (x.shape.eraseIdx k) = some u → bc s.acc.shape d.shape = some u := by
    intro u hu
    have hbs := bc_some hu
    exact bc_eq hbs.1 (hds.2.2 u hbs.2.1 (fits_trans h1s hbs.1)) fun v h1 h2 => hbs.2.2 v h1 (fits_trans hds.1 h2)
  constructor
  · intro u hu
    have hb := hbd u (join_two.mp hu)
    have hbs := bc_some hb
    have h1u : Spec.Stretch [1] u := fits_trans h1s hbs.1
    obtain ⟨a, e2, s2, g2⟩ := map2_ok (fun a v : ℚ => clamp (-accBound cfg.depth) (accBound cfg.depth) (a + v)) (x := s1.acc) (y := d) (u := u)
      (by rw [hacc]; exact hb)
    obtain ⟨o, e3, s3, g3⟩ := map2_ok (fun a c : ℚ => (ind (a ≥ c) : ℤ)) (x := a) (y := one s1.scaleCarry) (u := u) (by rw [s2]; exact bc_left h1u)
    obtain ⟨oc, e4, s4, g4⟩ := map2_ok (fun (o : ℤ) (c : ℚ) => (o : ℚ) * c) (x := o) (y := one s1.scaleCarry) (u := u) (by rw [s3]; exact bc_left h1u)
    obtain ⟨a', e5, s5, g5⟩ := map2In_ok (fun a v : ℚ => clamp (-accBound cfg.depth) (accBound cfg.depth) (a - v)) (x := a) (y := oc)
      (by rw [s4, s2]; exact fits_refl u)
    refine ⟨{ s1 with acc := a' }, o, ?_, s5.trans s2, s3, fun i => ?_⟩
    · simp only [addT, hk, hs1, e1, e2, e3, e4, e5, bind, Except.bind, pure, Except.pure]
    · have hstep : Adder.step cfg ⟨s.first, s.entry, s.scaleCarry, s.offset, s.acc.get i⟩ { xs := Spec.fibre x k i } =
          Adder.accumulate cfg ⟨s1.first, s1.entry, s1.scaleCarry, s1.offset, s.acc.get i⟩ { xs := Spec.fibre x k i } := by
        rw [hconf i]; rfl
      show (⟨s1.first, s1.entry, s1.scaleCarry, s1.offset, a'.get i⟩ : Adder.St) = (Adder.step cfg _ { xs := Spec.fibre x k i }).1 ∧
        o.get i = (Adder.step cfg _ { xs := Spec.fibre x k i }).2
      rw [hstep, g5, g4, g3, g2, g1, hacc]
      exact ⟨rfl, rfl⟩
  · intro hn
    have hb : bc s.acc.shape d.shape = none := by
      cases h : bc s.acc.shape d.shape with
      | none => rfl
      | some u =>
        have hbs := bc_some h
        obtain ⟨w, hw⟩ := bc_exists hbs.1 (fits_trans hds.1 hbs.2.1)
        exact absurd ⟨w, join_two.mpr hw⟩ hn
    have e2 := map2_err (fun a v : ℚ => clamp (-accBound cfg.depth) (accBound cfg.depth) (a + v)) (x := s1.acc) (y := d) (by rw [hacc]; exact hb)
    exact ⟨.runtime, by simp only [addT, hk, hs1, e1, e2, bind, Except.bind]⟩

/-- `FSUAdd` on tensors of any shapes, along any dimension: a call succeeds exactly if the inputs so far, without the summed
dimension, fit into one shape; every element is that of the single-element adder fed with the entries along that dimension. -/
theorem C100_add (cfg : Adder.Cfg) (dima : ℤ) (x : ℕ → Tensor ℤ)
    (hd : ∀ k, -((x k).shape.length : ℤ) ≤ dima ∧ dima < (x k).shape.length) (t : ℕ) :
    (∀ u, Spec.Smallest (Spec.shapesSeen (fun x : Tensor ℤ => [x.shape.eraseIdx (Spec.fromLast dima x.shape.length)]) x (t + 1)) u →
      ∃ o : Tensor ℤ, outAtE (addT cfg dima) (addInit cfg) x t = .ok o ∧ o.shape = u ∧
        ∀ i, o.get i = outAt (Adder.step cfg) (Adder.init cfg)
          (fun k => { xs := Spec.fibre (x k) (Spec.fromLast dima (x k).shape.length) i }) t) ∧
    ((¬ ∃ u, Spec.Smallest (Spec.shapesSeen (fun x : Tensor ℤ => [x.shape.eraseIdx (Spec.fromLast dima x.shape.length)]) x (t + 1)) u) →
      ∃ e, outAtE (addT cfg dima) (addInit cfg) x t = .error e) :=
  (add_lifts cfg dima).out rfl (fun _ => rfl) x hd t

/-! ### Shift register, in-stream multiplication, division: tensors of one shape -/

theorem proj_ones (n : ℕ) : ∀ i : List ℕ, proj (List.replicate n 1) i = List.replicate n 0 := by
  induction n with
  | zero => exact fun _ => rfl
  | succ n ih => intro i; simp only [List.replicate_succ, proj, if_true]; rw [ih]

theorem proj_append_ones (n : ℕ) : ∀ (s i : List ℕ), proj (s ++ List.replicate n 1) i = proj s i ++ List.replicate n 0
  | [], i => proj_ones n i
  | a :: s, i => by simp only [List.cons_append, proj]; rw [proj_append_ones n s i.tail]

theorem proj_length : ∀ (s i : List ℕ), (proj s i).length = s.length
  | [], _ => rfl
  | a :: s, i => by simp only [proj, List.length_cons]; rw [proj_length s]

theorem view_ok {α : Type} (x : Tensor α) {sh : List ℕ} (n : ℕ) (h : x.shape = sh ++ List.replicate n 1) :
    ∃ z, viewT x sh = .ok z ∧ z.shape = sh ∧ ∀ i, z.get i = x.get i := by
  have hn : x.shape.length - sh.length = n := by rw [h]; simp
  refine ⟨_, by unfold viewT; rw [if_pos (by rw [hn]; exact h)], rfl, fun i => ?_⟩
  show x.at' (proj sh i ++ List.replicate _ 0) = x.at' (proj x.shape i)
  rw [hn, h, proj_append_ones]

theorem fits_append (s : List ℕ) (t : List ℕ) : Spec.Stretch s (s ++ t) := by
  induction s with
  | nil => trivial
  | cons a s ih => exact ⟨Or.inr rfl, ih⟩

/-- The register of every element holds the cells `L`. -/
def SrInv (entry : ℕ) (u : List ℕ) (s : SrSt) (L : List ℕ → List ℤ) : Prop :=
  (∀ i, s.cells.get i = L i) ∧ (∀ i, (L i).length = entry) ∧ (s.first = true → s.cells.shape = [] ∧ ∀ i, L i = srInit entry) ∧
    (s.first = false → s.cells.shape = u)

theorem srInv_init (entry : ℕ) (u : List ℕ) : SrInv entry u (srInitT entry) fun _ => srInit entry :=
  ⟨fun _ => rfl, fun _ => by simp [srInit], fun _ => ⟨rfl, fun _ => rfl⟩, fun h => absurd h (by simp [srInitT])⟩

theorem sr_call {entry index : ℕ} {u : List ℕ} {s : SrSt} {L : List ℕ → List ℤ} (h : SrInv entry u s L) (hi : index < entry)
    (x : Tensor ℤ) (hx : x.shape = u) (m : Option (Tensor ℤ)) (hm : ∀ m' ∈ m, m'.shape = u) :
    ∃ (s' : SrSt) (out cnt : Tensor ℤ), srT entry s x m index = .ok (s', (out, cnt)) ∧ out.shape = u ∧ cnt.shape = u ∧
      SrInv entry u s' (fun i => srShift (L i) (x.get i) (m.map fun m => m.get i)) ∧ s'.first = false ∧
      ∀ i, out.get i = (L i).getD index 0 ∧ cnt.get i = (L i).sum := by
  obtain ⟨c, hc, hcs, hcg⟩ : ∃ c : Tensor (List ℤ), c = (if s.first then map1 (fun _ => srInit entry) x else s.cells) ∧ c.shape = u ∧ ∀ i, c.get i = L i := by
    refine ⟨_, rfl, ?_, fun i => ?_⟩
    · by_cases hf : s.first = true
      · rw [if_pos hf]; exact hx
      · rw [if_neg hf]; exact h.2.2.2 (by simpa using hf)
    · by_cases hf : s.first = true
      · rw [if_pos hf, get_map1, (h.2.2.1 hf).2]
      · rw [if_neg hf]; exact h.1 i
  obtain ⟨d, e1, s1, g1⟩ := map2In_ok (fun (l : List ℤ) (v : ℤ) => (l.rotate 1).set (l.length - 1) v) (x := c) (y := x)
    (by rw [hx, hcs]; exact fits_refl u)
  have hlen : ∀ i v m, (srShift (L i) v m).length = entry := by
    intro i v m
    cases m <;> simp [srShift, h.2.1 i]
  have hout : (map1 (fun l : List ℤ => l.getD index 0) c).shape = u ∧ (map1 (fun l : List ℤ => l.sum) c).shape = u := ⟨hcs, hcs⟩
  cases m with
  | none =>
    refine ⟨⟨false, d⟩, map1 (fun l : List ℤ => l.getD index 0) c, map1 (fun l : List ℤ => l.sum) c, ?_, hout.1, hout.2, ⟨fun i => ?_,
      fun i => hlen i _ _, fun hf => absurd hf (by simp), fun _ => s1.trans hcs⟩, rfl, fun i => ?_⟩
    · simp only [srT, ← hc, if_neg (Nat.not_le.mpr hi), e1, bind, Except.bind, pure, Except.pure]
    · show d.get i = _
      rw [g1, hcg]; rfl
    · rw [get_map1, get_map1, hcg]; exact ⟨rfl, rfl⟩
  | some m =>
    have hms : m.shape = u := hm m rfl
    obtain ⟨a, e2, s2, g2⟩ := map2_ok (fun (m : ℤ) (l : List ℤ) => l.map (m * ·)) (x := m) (y := d) (u := u)
      (by rw [hms, s1, hcs]; exact bc_left (fits_refl u))
    obtain ⟨b, e3, s3, g3⟩ := map2_ok (fun (m : ℤ) (l : List ℤ) => l.map ((1 - m) * ·)) (x := m) (y := c) (u := u)
      (by rw [hms, hcs]; exact bc_left (fits_refl u))
    obtain ⟨f, e4, s4, g4⟩ := map2_ok (fun l l' : List ℤ => List.zipWith (· + ·) l l') (x := a) (y := b) (u := u)
      (by rw [s2, s3]; exact bc_left (fits_refl u))
    refine ⟨⟨false, f⟩, map1 (fun l : List ℤ => l.getD index 0) c, map1 (fun l : List ℤ => l.sum) c, ?_, hout.1, hout.2, ⟨fun i => ?_,
      fun i => hlen i _ _, fun hf => absurd hf (by simp), fun _ => s4⟩, rfl, fun i => ?_⟩
    · simp only [srT, ← hc, if_neg (Nat.not_le.mpr hi), e1, e2, e3, e4, if_neg (not_not.mpr (hms.trans hx.symm)), bind, Except.bind, pure, Except.pure]
    · show f.get i = _
      rw [g4, g3, g2, g1, hcg]
      simp only [srShift, Option.map_some, List.zipWith_map]
    · rw [get_map1, get_map1, hcg]; exact ⟨rfl, rfl⟩

/-- `ShiftReg` on tensors of one shape: every element is a register of its own. -/
theorem C100_shiftreg {entry : ℕ} {u : List ℕ} (x : ℕ → Tensor ℤ) (m : ℕ → Option (Tensor ℤ)) (index : ℕ → ℕ) (hx : ∀ k, (x k).shape = u)
    (hm : ∀ k, ∀ m' ∈ m k, m'.shape = u) (hi : ∀ k, index k < entry) (t : ℕ) :
    ∃ out cnt : Tensor ℤ, outAtE (fun s (i : Tensor ℤ × Option (Tensor ℤ) × ℕ) => srT entry s i.1 i.2.1 i.2.2) (srInitT entry)
        (fun k => (x k, m k, index k)) t = .ok (out, cnt) ∧ out.shape = u ∧ cnt.shape = u ∧
      ∀ i, outAtE srStep (srInit entry) (fun k => ((x k).get i, (m k).map fun m => m.get i, index k)) t = .ok (out.get i, cnt.get i) := by
  have key : ∀ n, ∃ (s : SrSt) (L : List ℕ → List ℤ), stateAtE (fun s (i : Tensor ℤ × Option (Tensor ℤ) × ℕ) => srT entry s i.1 i.2.1 i.2.2)
      (srInitT entry) (fun k => (x k, m k, index k)) n = .ok s ∧ SrInv entry u s L ∧
      ∀ i, stateAtE srStep (srInit entry) (fun k => ((x k).get i, (m k).map fun m => m.get i, index k)) n = .ok (L i) := by
    intro n
    induction n with
    | zero => exact ⟨_, _, rfl, srInv_init entry u, fun _ => rfl⟩
    | succ n ih =>
      obtain ⟨s, L, h1, h2, h3⟩ := ih
      obtain ⟨s', out, cnt, e, _, _, hI, _, _⟩ := sr_call h2 (hi n) (x n) (hx n) (m n) (hm n)
      refine ⟨s', _, stateAtE_succ_ok h1 e, hI, fun i => ?_⟩
      refine stateAtE_succ_ok (h3 i) (o := ((L i).getD (index n) 0, (L i).sum)) ?_
      unfold srStep; rw [if_pos (by rw [h2.2.1]; exact hi n)]
  obtain ⟨s, L, h1, h2, h3⟩ := key t
  obtain ⟨s', out, cnt, e, ho, hc, _, _, hg⟩ := sr_call h2 (hi t) (x t) (hx t) (m t) (hm t)
  refine ⟨out, cnt, outAtE_ok h1 e, ho, hc, fun i => ?_⟩
  refine outAtE_ok (h3 i) (s' := srShift (L i) ((x t).get i) ((m t).map fun m => m.get i)) ?_
  unfold srStep; rw [if_pos (by rw [h2.2.1]; exact hi t), (hg i).1, (hg i).2]

/-- In-stream multiplication of tensors of one shape. -/
theorem C100_mul_stream {u : List ℕ} (hu : u ≠ []) (mode : Mode) (width : ℕ) (rng : List ℤ) (x : ℕ → Tensor ℤ × Tensor ℤ)
    (hx : ∀ k, (x k).1.shape = u) (hy : ∀ k, (x k).2.shape = u) (t : ℕ) :
    ∃ o : Tensor ℤ, outAtE (mulStreamT mode width rng) (mulStreamInit width) x t = .ok o ∧ o.shape = u ∧
      ∀ i, o.get i = outAt (Multiplier.stepStream mode width rng) (Multiplier.init width) (fun k => ((x k).1.get i, (x k).2.get i)) t := by
  have call : ∀ (s : MulStreamSt) (L : List ℕ → List ℤ) (n : ℕ), SrInv (2 ^ width) u s.sr L → Spec.Stretch s.idx.shape u → Spec.Stretch s.idxInv.shape u →
      ∃ (s' : MulStreamSt) (o : Tensor ℤ), mulStreamT mode width rng s (x n) = .ok (s', o) ∧
        SrInv (2 ^ width) u s'.sr (fun i => srShift (L i) ((x n).2.get i) none) ∧ Spec.Stretch s'.idx.shape u ∧ Spec.Stretch s'.idxInv.shape u ∧ o.shape = u ∧
        ∀ i, ((⟨s'.idx.get i, s'.idxInv.get i, srShift (L i) ((x n).2.get i) none⟩ : Multiplier.St), o.get i) =
          Multiplier.stepStream mode width rng ⟨s.idx.get i, s.idxInv.get i, L i⟩ ((x n).1.get i, (x n).2.get i) := by
    intro s L n hL h1 h2
    obtain ⟨sr, out, cnt, e0, _, hcs, hI, _, hg⟩ := sr_call hL (index := 0) (by positivity) (x n).2 (hy n) none (by simp)
    obtain ⟨g, e1, s1, g1⟩ := map2_ok (fun a b : ℤ => (ind (a > b) : ℤ)) (x := cnt) (y := map1 (Multiplier.rngAt rng) s.idx) (u := u)
      (by rw [hcs]; exact bc_left h1)
    obtain ⟨path, e2, s2, g2⟩ := map2_ok Int.land (x := (x n).1) (y := g) (u := u) (by rw [hx, s1]; exact bc_left (fits_refl u))
    obtain ⟨idx, e3, s3, g3⟩ := map2_ok (fun a v : ℤ => (a + v) % (2 ^ width)) (x := s.idx) (y := (x n).1) (u := u) (by rw [hx]; exact bc_right h1)
    cases mode with
    | unipolar =>
      refine ⟨⟨idx, s.idxInv, sr⟩, path, ?_, hI, by rw [s3]; exact fits_refl u, h2, s2, fun i => ?_⟩
      · simp only [mulStreamT, e0, e1, e2, e3, bind, Except.bind, pure, Except.pure]
      · dsimp only
        rw [g3, g2, g1, (hg i).2]; rfl
    | bipolar =>
      obtain ⟨g', e4, s4, g4⟩ := map2_ok (fun a b : ℤ => (ind (a > b) : ℤ)) (x := cnt) (y := map1 (Multiplier.rngAt rng) s.idxInv) (u := u)
        (by rw [hcs]; exact bc_left h2)
      obtain ⟨path', e5, s5, g5⟩ := map2_ok Int.land (x := map1 (fun v : ℤ => 1 - v) (x n).1) (y := map1 (fun v : ℤ => 1 - v) g') (u := u)
        (by show bc (x n).1.shape g'.shape = _; rw [hx, s4]; exact bc_left (fits_refl u))
      obtain ⟨idx', e6, s6, g6⟩ := map2_ok (fun a v : ℤ => (a + v) % (2 ^ width)) (x := s.idxInv) (y := map1 (fun v : ℤ => 1 - v) (x n).1) (u := u)
        (by show bc _ (x n).1.shape = _; rw [hx]; exact bc_right h2)
      obtain ⟨o, e7, s7, g7⟩ := map2_ok Int.lor (x := path) (y := path') (u := u) (by rw [s2, s5]; exact bc_left (fits_refl u))
      refine ⟨⟨idx, idx', sr⟩, o, ?_, hI, by rw [s3]; exact fits_refl u, by rw [s6]; exact fits_refl u, s7, fun i => ?_⟩
      · simp only [mulStreamT, e0, e1, e2, e3, e4, e5, e6, e7, bind, Except.bind, pure, Except.pure]
      · dsimp only
        simp only [g7, g6, g5, g3, g2, g1, get_map1, g4, (hg i).2]; rfl
  have key : ∀ n, ∃ (s : MulStreamSt) (L : List ℕ → List ℤ), stateAtE (mulStreamT mode width rng) (mulStreamInit width) x n = .ok s ∧
      SrInv (2 ^ width) u s.sr L ∧ Spec.Stretch s.idx.shape u ∧ Spec.Stretch s.idxInv.shape u ∧
      ∀ i, (⟨s.idx.get i, s.idxInv.get i, L i⟩ : Multiplier.St) =
        stateAt (Multiplier.stepStream mode width rng) (Multiplier.init width) (fun k => ((x k).1.get i, (x k).2.get i)) n := by
    intro n
    induction n with
    | zero => exact ⟨_, _, rfl, srInv_init _ u, fits_one hu, fits_one hu, fun _ => rfl⟩
    | succ n ih =>
      obtain ⟨s, L, h1, h2, h3, h4, h5⟩ := ih
      obtain ⟨s', o, e, c1, c2, c3, _, c5⟩ := call s L n h2 h3 h4
      refine ⟨s', _, stateAtE_succ_ok h1 e, c1, c2, c3, fun i => ?_⟩
      show _ = (Multiplier.stepStream mode width rng (stateAt _ _ _ n) _).1
      rw [← h5 i]; exact congrArg Prod.fst (c5 i)
  obtain ⟨s, L, h1, h2, h3, h4, h5⟩ := key t
  obtain ⟨s', o, e, _, _, _, c4, c5⟩ := call s L t h2 h3 h4
  refine ⟨o, outAtE_ok h1 e, c4, fun i => ?_⟩
  show _ = (Multiplier.stepStream mode width rng (stateAt _ _ _ t) _).2
  rw [← h5 i]; exact congrArg Prod.snd (c5 i)

/-- One call of the division kernel. -/
theorem cor_call {entry : ℕ} {rng : List ℤ} (hr : rng.length = entry) (hr' : ∀ v ∈ rng, v.toNat < entry) (he : 0 < entry) {u : List ℕ} (hu : u ≠ [])
    {s : CorSt} {L : List ℕ → List ℤ} (h : SrInv entry u s.sr L) (x : Tensor ℤ × Tensor ℤ) (hx : x.1.shape = u) (hy : x.2.shape = u) :
    ∃ (s' : CorSt) (q : Tensor ℤ) (L' : List ℕ → List ℤ), corT entry rng s x = .ok (s', q) ∧ q.shape = u ∧ SrInv entry u s'.sr L' ∧
      ∀ i (hq : ℤ), ∃ hq' : ℤ, Divider.corStep entry rng ⟨L i, s.idx, hq⟩ (x.1.get i, x.2.get i) = .ok (⟨L' i, s'.idx, hq'⟩, q.get i) := by
  have hlt : s.idx % entry < rng.length := by rw [hr]; exact Nat.mod_lt _ he
  have e0 : rng[s.idx % entry]? = some (rng[s.idx % entry]) := List.getElem?_eq_getElem hlt
  have hrr : (rng[s.idx % entry]).toNat < entry := hr' _ (List.getElem_mem hlt)
  generalize rng[s.idx % entry] = r at e0 hrr
  obtain ⟨hq, ehq, shq, ghq⟩ : ∃ hq : Tensor ℤ, hq = ⟨s.sr.cells.shape ++ [1], fun j => (s.sr.cells.at' (j.take s.sr.cells.shape.length)).getD r.toNat 0⟩ ∧
      hq.shape = s.sr.cells.shape ++ [1] ∧ ∀ i, hq.get i = (L i).getD r.toNat 0 := by
    refine ⟨_, rfl, rfl, fun i => ?_⟩
    show (s.sr.cells.at' ((proj (s.sr.cells.shape ++ List.replicate 1 1) i).take s.sr.cells.shape.length)).getD r.toNat 0 = _
    rw [proj_append_ones, List.take_left' (proj_length _ _)]
    show (s.sr.cells.get i).getD r.toNat 0 = _
    rw [h.1]
  obtain ⟨n, hn⟩ : ∃ n, bc u hq.shape = some (u ++ List.replicate n 1) := by
    rw [shq]
    cases hf : s.sr.first with
    | true => rw [(h.2.2.1 hf).1]; exact ⟨0, by simpa using bc_left (fits_one hu)⟩
    | false => rw [h.2.2.2 hf]; exact ⟨1, bc_right (fits_append u _)⟩
  obtain ⟨a, e1, s1, g1⟩ := map2_ok (fun x1 x2 : ℤ => x1 * x2) (x := map1 (fun v : ℤ => (ind (v = 1) : ℤ)) x.2) (y := x.1) (u := u)
    (by show bc x.2.shape x.1.shape = _; rw [hx, hy]; exact bc_left (fits_refl u))
  obtain ⟨b, e2, s2, g2⟩ := map2_ok (fun x1 x2 : ℤ => x1 * x2) (x := map1 (fun v : ℤ => 1 - v) (map1 (fun v : ℤ => (ind (v = 1) : ℤ)) x.2)) (y := hq)
    (u := u ++ List.replicate n 1) (by show bc x.2.shape hq.shape = _; rw [hy]; exact hn)
  obtain ⟨c, e3, s3, g3⟩ := map2_ok (fun x1 x2 : ℤ => x1 + x2) (x := a) (y := b) (u := u ++ List.replicate n 1)
    (by rw [s1, s2]; exact bc_right (fits_append u _))
  obtain ⟨q, e4, s4, g4⟩ := view_ok c (sh := x.1.shape) n (by rw [s3, hx])
  rw [hx] at s4
  obtain ⟨sr', out, cnt, e5, _, _, hI, _, _⟩ := sr_call h he q s4 (some (map1 (fun v : ℤ => (ind (v = 1) : ℤ)) x.2)) (by
    intro m hm; obtain rfl := Option.some.inj hm; exact hy)
  refine ⟨⟨sr', s.idx + 1, hq⟩, q, _, ?_, s4, hI, fun i hq0 => ⟨(L i).getD r.toNat 0, ?_⟩⟩
  · simp only [corT, e0, if_neg (Nat.not_le.mpr hrr), ← ehq, e1, e2, e3, e4, e5, bind, Except.bind, pure, Except.pure]
  · have hL : (L i)[r.toNat]? = some ((L i).getD r.toNat 0) := by
      rw [List.getD_eq_getElem?_getD, List.getElem?_eq_getElem (by rw [h.2.1]; exact hrr)]; rfl
    have hqi : q.get i = ind (x.2.get i = 1) * x.1.get i + (1 - ind (x.2.get i = 1)) * (L i).getD r.toNat 0 := by
      rw [g4, g3, g2, g1, ghq]; rfl
    simp only [Divider.corStep, e0, hL, Option.map_some, get_map1, hqi]

/-- A call of a converter inside a larger module: both the state and the input fit the shape. -/
theorem Lifts.call {σ ω O : Type} {osh : O → List ℕ → Prop} {oget : O → List ℕ → ω} {step : σ → ℤ → σ × ω}
    {T : Tensor σ → Tensor ℤ → Except PyErr (Tensor σ × O)}
    (h : Lifts (fun x : Tensor ℤ => [x.shape]) (fun x i => x.get i) osh oget step T) {u : List ℕ} (s : Tensor σ) (x : Tensor ℤ)
    (h1 : Spec.Stretch [1] s.shape) (hs : Spec.Stretch s.shape u) (hx : x.shape = u) :
    ∃ (s' : Tensor σ) (o : O), T s x = .ok (s', o) ∧ s'.shape = u ∧ osh o u ∧
      ∀ i, s'.get i = (step (s.get i) (x.get i)).1 ∧ oget o i = (step (s.get i) (x.get i)).2 :=
  (h s x trivial h1).1 u (join_two.mpr (by rw [hx]; exact bc_right hs))

/-- What the state of the divider looks like between two calls on tensors of shape `u`. -/
structure DivInv (entry : ℕ) (u : List ℕ) (s : DivSt) (L : List ℕ → List ℤ) : Prop where
  cor : SrInv entry u s.cor.sr L
  a1 : Spec.Stretch [1] s.accDividend.shape ∧ Spec.Stretch s.accDividend.shape u
  a2 : Spec.Stretch [1] s.accDivisor.shape ∧ Spec.Stretch s.accDivisor.shape u
  b1 : Spec.Stretch [1] s.b2uDividend.shape ∧ Spec.Stretch s.b2uDividend.shape u
  b2 : Spec.Stretch [1] s.b2uDivisor.shape ∧ Spec.Stretch s.b2uDivisor.shape u
  u2b : Spec.Stretch [1] s.u2b.shape ∧ Spec.Stretch s.u2b.shape u

/-- One element of the state of the divider, with its cells and held bit. -/
def divLane (s : DivSt) (L : List ℕ → List ℤ) (hq : ℤ) (i : List ℕ) : Divider.St :=
  ⟨s.accDividend.get i, s.accDivisor.get i, s.b2uDividend.get i, s.b2uDivisor.get i, s.u2b.get i, ⟨s.ss.shape, s.ss.get i⟩, ⟨L i, s.cor.idx, hq⟩⟩

theorem divUni_call {depthSs entry : ℕ} {rng : List ℤ} (hr : rng.length = entry) (hr' : ∀ v ∈ rng, v.toNat < entry) (he : 0 < entry) {u : List ℕ}
    (hu : u ≠ []) {s : DivSt} {L : List ℕ → List ℤ} (h : DivInv entry u s L) (x : Tensor ℤ × Tensor ℤ) (hx : x.1.shape = u) (hy : x.2.shape = u) :
    ∃ (s' : DivSt) (q : Tensor ℤ) (L' : List ℕ → List ℤ), divUniT depthSs entry rng s x = .ok (s', q) ∧ q.shape = u ∧ DivInv entry u s' L' ∧
      ∀ i (hq : ℤ), ∃ hq' : ℤ, Divider.uniStep depthSs entry rng u (divLane s L hq i) (x.1.get i, x.2.get i) = .ok (divLane s' L' hq' i, q.get i) := by
  obtain ⟨c, o, e1, s1, s2, g⟩ := ss_call depthSs s.ss x (u := u) (by rw [hx, hy]; exact bc_left (fits_refl u))
  obtain ⟨cor, q, L', e2, sq, hI, gc⟩ := cor_call hr hr' he hu h.cor (o, x.2) s2 hy
  refine ⟨{ s with ss := c, cor := cor }, q, L', ?_, sq, ⟨hI, h.a1, h.a2, h.b1, h.b2, h.u2b⟩, fun i hq => ?_⟩
  · simp only [divUniT, e1, e2, bind, Except.bind, pure, Except.pure]
  · obtain ⟨hq', e⟩ := gc i hq
    refine ⟨hq', ?_⟩
    have h1 := congrArg Prod.fst (g i)
    have h2 := congrArg Prod.snd (g i)
    dsimp only at h1 h2 e
    rw [h2] at e
    have h3 : (ssStep depthSs ⟨s.ss.shape, s.ss.get i⟩ (u, x.1.get i, x.2.get i)).1 = ⟨c.shape, c.get i⟩ := by
      rw [h1, s1]; rfl
    simp only [Divider.uniStep, divLane, e, h3, bind, Except.bind, pure, Except.pure]

theorem div_call {mode : Mode} {depthSa : ℤ} {depthSs entry : ℕ} {rng : List ℤ} (hr : rng.length = entry) (hr' : ∀ v ∈ rng, v.toNat < entry)
    (he : 0 < entry) {u : List ℕ} (hu : u ≠ []) {s : DivSt} {L : List ℕ → List ℤ} (h : DivInv entry u s L) (x : Tensor ℤ × Tensor ℤ)
    (hx : x.1.shape = u) (hy : x.2.shape = u) :
    ∃ (s' : DivSt) (q : Tensor ℤ) (L' : List ℕ → List ℤ), divT mode depthSa depthSs entry rng s x = .ok (s', q) ∧ q.shape = u ∧ DivInv entry u s' L' ∧
      ∀ i (hq : ℤ), ∃ hq' : ℤ, Divider.step mode depthSa depthSs entry rng u (divLane s L hq i) (x.1.get i, x.2.get i) = .ok (divLane s' L' hq' i, q.get i) := by
  cases mode with
  | unipolar => exact divUni_call hr hr' he hu h x hx hy
  | bipolar =>
    have hf : ∀ {v : List ℕ}, v = u → Spec.Stretch [1] v ∧ Spec.Stretch v u := by
      rintro v rfl; exact ⟨fits_one hu, fits_refl _⟩
    obtain ⟨a1, o1, ea1, sa1, so1, ga1⟩ := (signAbs_lifts depthSa).call s.accDividend x.1 h.a1.1 h.a1.2 hx
    obtain ⟨a2, o2, ea2, sa2, so2, ga2⟩ := (signAbs_lifts depthSa).call s.accDivisor x.2 h.a2.1 h.a2.2 hy
    obtain ⟨b1, u1, eb1, sb1, su1, gb1⟩ := (bi2uni_lifts 3).call s.b2uDividend o1.2 h.b1.1 h.b1.2 so1.2
    obtain ⟨b2, u2, eb2, sb2, su2, gb2⟩ := (bi2uni_lifts 3).call s.b2uDivisor o2.2 h.b2.1 h.b2.2 so2.2
    obtain ⟨s', q, L', eq, sq, hI, gq⟩ := divUni_call (depthSs := depthSs) hr hr' he hu
      (s := { s with accDividend := a1, accDivisor := a2, b2uDividend := b1, b2uDivisor := b2 }) (L := L)
      ⟨h.cor, hf sa1, hf sa2, hf sb1, hf sb2, h.u2b⟩ (u1, u2) su1 su2
    obtain ⟨w, bq, ew, sw, sbq, gw⟩ := (uni2bi_lifts 4).call s'.u2b q hI.u2b.1 hI.u2b.2 sq
    obtain ⟨g, e1, s1, g1⟩ := map2_ok Int.xor (x := o1.1) (y := o2.1) (u := u) (by rw [so1.1, so2.1]; exact bc_left (fits_refl u))
    obtain ⟨o, e2, s2, g2⟩ := map2_ok Int.xor (x := g) (y := bq) (u := u) (by rw [s1, sbq]; exact bc_left (fits_refl u))
    refine ⟨{ s' with u2b := w }, o, L', ?_, s2, ⟨hI.cor, hI.a1, hI.a2, hI.b1, hI.b2, hf sw⟩, fun i hq => ?_⟩
    · obtain ⟨o11, o12⟩ := o1
      obtain ⟨o21, o22⟩ := o2
      dsimp only at *
      simp only [divT, ea1, ea2, eb1, eb2, eq, ew, e1, e2, bind, Except.bind, pure, Except.pure]
    · obtain ⟨hq', e⟩ := gq i hq
      refine ⟨hq', ?_⟩
      dsimp only at e
      have k1 : signAbsStep depthSa (s.accDividend.get i) (x.1.get i) = (a1.get i, (o1.1.get i, o1.2.get i)) :=
        Prod.ext (ga1 i).1.symm (ga1 i).2.symm
      have k2 : signAbsStep depthSa (s.accDivisor.get i) (x.2.get i) = (a2.get i, (o2.1.get i, o2.2.get i)) :=
        Prod.ext (ga2 i).1.symm (ga2 i).2.symm
      have k3 : bi2uniStep 3 (s.b2uDividend.get i) (o1.2.get i) = (b1.get i, u1.get i) := Prod.ext (gb1 i).1.symm (gb1 i).2.symm
      have k4 : bi2uniStep 3 (s.b2uDivisor.get i) (o2.2.get i) = (b2.get i, u2.get i) := Prod.ext (gb2 i).1.symm (gb2 i).2.symm
      have k5 : uni2biStep 4 (s'.u2b.get i) (q.get i) = (w.get i, bq.get i) := Prod.ext (gw i).1.symm (gw i).2.symm
      simp only [divLane] at e
      simp only [Divider.step, Divider.biStep, divLane, k1, k2, k3, k4, k5, e, g1, g2, bind, Except.bind, pure, Except.pure]

/-- The divider on tensors of one shape: no call fails, and every element is a divider of its own, in both representations. -/
theorem C100_div {entry : ℕ} {rng : List ℤ} (hr : rng.length = entry) (hr' : ∀ v ∈ rng, v.toNat < entry) (he : 0 < entry) {u : List ℕ} (hu : u ≠ [])
    (mode : Mode) (depthSa : ℤ) (depthSs : ℕ) (x : ℕ → Tensor ℤ × Tensor ℤ) (hx : ∀ k, (x k).1.shape = u) (hy : ∀ k, (x k).2.shape = u) (t : ℕ) :
    ∃ q : Tensor ℤ, outAtE (divT mode depthSa depthSs entry rng) (divInit depthSa entry) x t = .ok q ∧ q.shape = u ∧
      ∀ i, outAtE (Divider.step mode depthSa depthSs entry rng u) (Divider.init depthSa entry) (fun k => ((x k).1.get i, (x k).2.get i)) t =
        .ok (q.get i) := by
  have key : ∀ n, ∃ (s : DivSt) (L : List ℕ → List ℤ), stateAtE (divT mode depthSa depthSs entry rng) (divInit depthSa entry) x n = .ok s ∧
      DivInv entry u s L ∧ ∀ i, ∃ hq : ℤ, stateAtE (Divider.step mode depthSa depthSs entry rng u) (Divider.init depthSa entry)
        (fun k => ((x k).1.get i, (x k).2.get i)) n = .ok (divLane s L hq i) := by
    intro n
    induction n with
    | zero =>
      have h1 : Spec.Stretch [1] [1] ∧ Spec.Stretch [1] u := ⟨fits_refl _, fits_one hu⟩
      exact ⟨_, _, rfl, ⟨srInv_init _ u, h1, h1, h1, h1, h1⟩, fun _ => ⟨_, rfl⟩⟩
    | succ n ih =>
      obtain ⟨s, L, h1, h2, h3⟩ := ih
      obtain ⟨s', q, L', e, _, hI, g⟩ := div_call (mode := mode) (depthSa := depthSa) (depthSs := depthSs) hr hr' he hu h2 (x n) (hx n) (hy n)
      refine ⟨s', L', stateAtE_succ_ok h1 e, hI, fun i => ?_⟩
      obtain ⟨hq, e0⟩ := h3 i
      obtain ⟨hq', e1⟩ := g i hq
      exact ⟨hq', stateAtE_succ_ok e0 e1⟩
  obtain ⟨s, L, h1, h2, h3⟩ := key t
  obtain ⟨s', q, L', e, sq, _, g⟩ := div_call (mode := mode) (depthSa := depthSa) (depthSs := depthSs) hr hr' he hu h2 (x t) (hx t) (hy t)
  refine ⟨q, outAtE_ok h1 e, sq, fun i => ?_⟩
  obtain ⟨hq, e0⟩ := h3 i
  obtain ⟨hq', e1⟩ := g i hq
  exact outAtE_ok e0 e1

/-! ### Square root: tensors of one shape -/

/-- Stacking two tensors of one shape and taking the entries along the new dimension. -/
theorem stack_ok {u : List ℕ} (x y : Tensor ℤ) (hx : x.shape = u) (hy : y.shape = u) :
    ∃ z : Tensor ℤ, stackT x y = .ok z ∧ z.shape = u ++ [2] ∧ ∀ i, Spec.fibre z u.length i = [(x.get i : ℚ), (y.get i : ℚ)] := by
  subst hx
  refine ⟨_, by unfold stackT; rw [if_pos hy.symm], rfl, fun i => ?_⟩
  have he : (x.shape ++ [2]).eraseIdx x.shape.length = x.shape := by simp [List.eraseIdx_append_of_length_le]
  have hp := proj_length x.shape i
  unfold Spec.fibre
  dsimp only
  have h2 : List.getD (x.shape ++ [2]) x.shape.length 0 = 2 := by simp
  rw [he, h2]
  have hins : ∀ j, (proj x.shape i).insertIdx x.shape.length j = proj x.shape i ++ [j] := by
    intro j; rw [← hp, List.insertIdx_length_self]
  simp only [List.range_succ, List.range_zero, List.nil_append, List.map_append, List.map_cons, List.map_nil, hins]
  have h0 : ∀ j, (proj x.shape i ++ [j]).getD x.shape.length 0 = j := by
    intro j; rw [← hp]; simp
  have h1 : ∀ j, (proj x.shape i ++ [j]).take x.shape.length = proj x.shape i := by
    intro j; rw [← hp, List.take_left]
  rw [h0, h0, h1, h1, if_pos rfl, if_neg (by decide)]
  show [_] ++ [_] = [(x.at' (proj x.shape i) : ℚ), (y.at' (proj y.shape i) : ℚ)]
  rw [hy]; rfl

/-- What the state of the square root looks like between two calls on tensors of shape `u`. -/
structure SqrtInv (cfg : Sqrt.Cfg) (u : List ℕ) (s : SqrtSt) (L C : List ℕ → List ℤ) : Prop where
  sr : SrInv cfg.entrySr u s.sr L
  cor : SrInv 4 u s.cor.sr C
  acc : Spec.Stretch [1] s.nsadd.acc.shape ∧ Spec.Stretch s.nsadd.acc.shape u
  b2u : Spec.Stretch [1] s.b2u.shape ∧ Spec.Stretch s.b2u.shape u
  trace : Spec.Stretch s.trace.shape u
  jk : Spec.Stretch [1] s.jk.shape ∧ Spec.Stretch s.jk.shape u
  dff : Spec.Stretch s.dff.shape u
  emitted : s.emitOut.shape ≠ u → ∀ i, s.emitOut.get i = 0

/-- One element of the state of the square root, with its registers and held bit. -/
def sqrtLane (s : SqrtSt) (L C : List ℕ → List ℤ) (hq : ℤ) (i : List ℕ) : Sqrt.St :=
  { emitOut := s.emitOut.get i, nsadd := ⟨s.nsadd.first, s.nsadd.entry, s.nsadd.scaleCarry, s.nsadd.offset, s.nsadd.acc.get i⟩, sr := L i,
    idx := s.idx, b2u := s.b2u.get i, trace := s.trace.get i, jk := s.jk.get i, cor := ⟨C i, s.cor.idx, hq⟩, dff := s.dff.get i }

theorem unipolarTrace_call {cfg : Sqrt.Cfg} {rng : List ℤ} (hr : rng.length = 4) (hr' : ∀ v ∈ rng, v.toNat < 4) {u : List ℕ} (hu : u ≠ [])
    {s : SqrtSt} {L C : List ℕ → List ℤ} (h : SqrtInv cfg u s L C) (x : Tensor ℤ) (hx : x.shape = u) :
    ∃ (s' : SqrtSt) (t : Tensor ℤ) (C' : List ℕ → List ℤ), unipolarTraceT cfg rng s x = .ok (s', t) ∧ t.shape = u ∧ SqrtInv cfg u s' L C' ∧
      ∀ i (hq : ℤ), ∃ hq' : ℤ, Sqrt.unipolarTrace cfg rng (sqrtLane s L C hq i) (x.get i) = .ok (sqrtLane s' L C' hq' i, t.get i) := by
  have hf : ∀ {v : List ℕ}, v = u → Spec.Stretch [1] v ∧ Spec.Stretch v u := by
    rintro v rfl; exact ⟨fits_one hu, fits_refl _⟩
  by_cases hj : cfg.jkTrace = true
  · obtain ⟨q, t, e, sq, st, g⟩ := (jk_lifts s.jk (map1 (fun v : ℤ => (v : ℚ)) x, map1 (fun _ => (1 : ℚ)) x) trivial h.jk.1).1 u (by
      refine ⟨fun r hr => ?_, fun v hv => hv u (by show u ∈ s.jk.shape :: [x.shape, x.shape]; simp [hx])⟩
      change r ∈ s.jk.shape :: [x.shape, x.shape] at hr
      rw [hx] at hr
      simp only [List.mem_cons, List.not_mem_nil, or_false, or_self] at hr
      rcases hr with rfl | rfl
      · exact h.jk.2
      · exact fits_refl _)
    refine ⟨{ s with jk := q }, t, C, ?_, st, ⟨h.sr, h.cor, h.acc, h.b2u, h.trace, hf sq, h.dff, h.emitted⟩, fun i hq => ⟨hq, ?_⟩⟩
    · simp only [unipolarTraceT, hj, if_true, e, bind, Except.bind, pure, Except.pure]
    · have k : jkStep (s.jk.get i) ((x.get i : ℚ), 1) = (q.get i, t.get i) := Prod.ext (g i).1.symm (g i).2.symm
      simp only [Sqrt.unipolarTrace, hj, if_true, sqrtLane, k]
  · obtain ⟨d, e1, s1, g1⟩ := map2_ok Int.land (x := map1 (fun v : ℤ => 1 - v) s.dff) (y := x) (u := u)
      (by show bc s.dff.shape x.shape = _; rw [hx]; exact bc_right h.dff)
    obtain ⟨d', e2, s2, g2⟩ := map2_ok (fun a b : ℤ => a + b) (x := s.dff) (y := d) (u := u) (by rw [s1]; exact bc_right h.dff)
    obtain ⟨cor, t, C', e3, st, hI, gc⟩ := cor_call hr hr' (by decide) hu h.cor (d, d') s1 s2
    refine ⟨{ s with cor := cor, dff := map1 (fun v : ℤ => 1 - v) s.dff }, t, C', ?_, st,
      ⟨h.sr, hI, h.acc, h.b2u, h.trace, h.jk, h.dff, h.emitted⟩, fun i hq => ?_⟩
    · simp only [unipolarTraceT, if_neg hj, e1, e2, e3, bind, Except.bind, pure, Except.pure]
    · obtain ⟨hq', e⟩ := gc i hq
      refine ⟨hq', ?_⟩
      dsimp only at e
      rw [g2, g1, get_map1] at e
      simp only [Sqrt.unipolarTrace, if_neg hj, sqrtLane, e, get_map1, bind, Except.bind, pure, Except.pure]

theorem sqrt_call {cfg : Sqrt.Cfg} {rng : List ℤ} (hr : rng.length = 4) (hr' : ∀ v ∈ rng, v.toNat < 4) (he : 0 < cfg.entrySr) {u : List ℕ} (hu : u ≠ [])
    {s : SqrtSt} {L C : List ℕ → List ℤ} (h : SqrtInv cfg u s L C) (x : Tensor ℤ) (hx : x.shape = u) :
    ∃ (s' : SqrtSt) (o : Tensor ℤ) (L' C' : List ℕ → List ℤ), sqrtT cfg rng s x = .ok (s', o) ∧ o.shape = u ∧ SqrtInv cfg u s' L' C' ∧
      ∀ i (hq : ℤ), ∃ hq' : ℤ, Sqrt.step cfg rng (sqrtLane s L C hq i) (x.get i) = .ok (sqrtLane s' L' C' hq' i, o.get i) := by
  have hf : ∀ {v : List ℕ}, v = u → Spec.Stretch [1] v ∧ Spec.Stretch v u := by
    rintro v rfl; exact ⟨fits_one hu, fits_refl _⟩
  by_cases hem : cfg.emit = true
  · obtain ⟨prev, hp, hps, hpg⟩ : ∃ prev : Tensor ℤ, prev = (if s.emitOut.shape ≠ x.shape then map1 (fun _ => 0) x else s.emitOut) ∧ prev.shape = u ∧
        ∀ i, prev.get i = s.emitOut.get i := by
      refine ⟨_, rfl, ?_, fun i => ?_⟩
      · by_cases hh : s.emitOut.shape = x.shape
        · rw [if_neg (not_not.mpr hh), hh, hx]
        · rw [if_pos hh]; exact hx
      · by_cases hh : s.emitOut.shape = x.shape
        · rw [if_neg (not_not.mpr hh)]
        · rw [if_pos hh, get_map1, h.emitted (by rw [← hx]; exact hh)]
    obtain ⟨z, e1, s1, g1⟩ := stack_ok x prev hx hps
    have hfl : Spec.fromLast 0 z.shape.length = u.length := by rw [s1]; simp [Spec.fromLast]
    have hez : z.shape.eraseIdx u.length = u := by rw [s1]; simp [List.eraseIdx_append_of_length_le]
    obtain ⟨a, o, e2, s2, so, g2⟩ := (add_lifts Sqrt.addCfg 0 s.nsadd z (by beta_reduce; rw [s1]; simp) h.acc.1).1 u (join_two.mpr (by
      rw [hfl, hez]; exact bc_right h.acc.2))
    obtain ⟨sr, sc, cnt, e3, ssc, _, hI, _, g3⟩ := sr_call h.sr (index := s.idx % cfg.entrySr) (Nat.mod_lt _ he) (map1 (fun v : ℤ => 1 - v) o) so none (by simp)
    have ka : ∀ i, Adder.step Sqrt.addCfg ⟨s.nsadd.first, s.nsadd.entry, s.nsadd.scaleCarry, s.nsadd.offset, s.nsadd.acc.get i⟩
        { xs := [(x.get i : ℚ), (s.emitOut.get i : ℚ)] } = (⟨a.first, a.entry, a.scaleCarry, a.offset, a.acc.get i⟩, o.get i) := by
      intro i
      have hg := g2 i
      beta_reduce at hg
      rw [hfl, g1, hpg] at hg
      exact Prod.ext hg.1.symm hg.2.symm
    have ks : ∀ i, srStep (L i) (1 - o.get i, none, s.idx % cfg.entrySr) = .ok (srShift (L i) (1 - o.get i) none, (sc.get i, cnt.get i)) := by
      intro i
      unfold srStep; rw [if_pos (by rw [h.sr.2.1]; exact Nat.mod_lt _ he), (g3 i).1, (g3 i).2]
    cases hm : cfg.mode with
    | unipolar =>
      obtain ⟨w, e4, s4, g4⟩ := map2_ok Int.land (x := sc) (y := o) (u := u) (by rw [ssc, so]; exact bc_left (fits_refl u))
      refine ⟨{ s with nsadd := a, sr := sr, emitOut := w }, o, _, C, ?_, so,
        ⟨hI, h.cor, hf s2, h.b2u, h.trace, h.jk, h.dff, fun hh => absurd s4 hh⟩, fun i hq => ⟨hq, ?_⟩⟩
      · simp only [sqrtT, hem, if_true, ← hp, e1, e2, hm, unipolarEmitT, e3, e4, bind, Except.bind, pure, Except.pure]
      · simp only [Sqrt.step, hem, if_true, sqrtLane, hm, ka, Sqrt.unipolarEmit, ks, g4, get_map1, Option.map_none, bind, Except.bind, pure, Except.pure]
    | bipolar =>
      obtain ⟨b, un, e5, sb, sun, g5⟩ := (bi2uni_lifts 3).call s.b2u o h.b2u.1 h.b2u.2 so
      obtain ⟨w, e4, s4, g4⟩ := map2_ok Int.land (x := sc) (y := un) (u := u) (by rw [ssc, sun]; exact bc_left (fits_refl u))
      refine ⟨{ s with nsadd := a, sr := sr, b2u := b, emitOut := w }, o, _, C, ?_, so,
        ⟨hI, h.cor, hf s2, hf sb, h.trace, h.jk, h.dff, fun hh => absurd s4 hh⟩, fun i hq => ⟨hq, ?_⟩⟩
      · simp only [sqrtT, hem, if_true, ← hp, e1, e2, hm, bipolarEmitT, e3, e4, e5, bind, Except.bind, pure, Except.pure]
      · have kb : bi2uniStep 3 (s.b2u.get i) (o.get i) = (b.get i, un.get i) := Prod.ext (g5 i).1.symm (g5 i).2.symm
        simp only [Sqrt.step, hem, if_true, sqrtLane, hm, ka, Sqrt.bipolarEmit, ks, kb, g4, get_map1, Option.map_none, bind, Except.bind, pure, Except.pure]
  · obtain ⟨m, e1, s1, g1⟩ := map2_ok Int.land (x := map1 (fun v : ℤ => 1 - v) s.trace) (y := x) (u := u)
      (by show bc s.trace.shape x.shape = _; rw [hx]; exact bc_right h.trace)
    obtain ⟨o, e2, s2, g2⟩ := map2_ok (fun a b : ℤ => a + b) (x := m) (y := s.trace) (u := u) (by rw [s1]; exact bc_left h.trace)
    have go : ∀ i, Int.land (1 - s.trace.get i) (x.get i) + s.trace.get i = o.get i := by
      intro i; rw [g2, g1, get_map1]
    cases hm : cfg.mode with
    | unipolar =>
      obtain ⟨s', t, C', e3, st, hI, g3⟩ := unipolarTrace_call hr hr' hu h o s2
      refine ⟨{ s' with trace := t }, o, L, C', ?_, s2, ⟨hI.sr, hI.cor, hI.acc, hI.b2u, (hf st).2, hI.jk, hI.dff, hI.emitted⟩, fun i hq => ?_⟩
      · simp only [sqrtT, if_neg hem, e1, e2, hm, e3, bind, Except.bind, pure, Except.pure]
      · obtain ⟨hq', e⟩ := g3 i hq
        refine ⟨hq', ?_⟩
        simp only [sqrtLane] at e
        simp only [Sqrt.step, if_neg hem, sqrtLane, hm, go, e, bind, Except.bind, pure, Except.pure]
    | bipolar =>
      obtain ⟨b, un, e5, sb, sun, g5⟩ := (bi2uni_lifts 3).call s.b2u o h.b2u.1 h.b2u.2 s2
      obtain ⟨s', t, C', e3, st, hI, g3⟩ := unipolarTrace_call (s := { s with b2u := b }) (L := L) (C := C) hr hr' hu
        ⟨h.sr, h.cor, h.acc, hf sb, h.trace, h.jk, h.dff, h.emitted⟩ un sun
      refine ⟨{ s' with trace := t }, o, L, C', ?_, s2, ⟨hI.sr, hI.cor, hI.acc, hI.b2u, (hf st).2, hI.jk, hI.dff, hI.emitted⟩, fun i hq => ?_⟩
      · simp only [sqrtT, if_neg hem, e1, e2, hm, bipolarTraceT, e3, e5, bind, Except.bind, pure, Except.pure]
      · obtain ⟨hq', e⟩ := g3 i hq
        refine ⟨hq', ?_⟩
        have kb : bi2uniStep 3 (s.b2u.get i) (o.get i) = (b.get i, un.get i) := Prod.ext (g5 i).1.symm (g5 i).2.symm
        simp only [sqrtLane] at e
        simp only [Sqrt.step, if_neg hem, sqrtLane, hm, go, Sqrt.bipolarTrace, kb, e, bind, Except.bind, pure, Except.pure]

/-- The square root on tensors of one shape, in all variants: no call fails, and every element is a square root of its own. -/
theorem C100_sqrt (cfg : Sqrt.Cfg) {rng : List ℤ} (hr : rng.length = 4) (hr' : ∀ v ∈ rng, v.toNat < 4) (he : 0 < cfg.entrySr) {u : List ℕ} (hu : u ≠ [])
    (x : ℕ → Tensor ℤ) (hx : ∀ k, (x k).shape = u) (t : ℕ) :
    ∃ o : Tensor ℤ, outAtE (sqrtT cfg rng) (sqrtInit cfg) x t = .ok o ∧ o.shape = u ∧
      ∀ i, outAtE (Sqrt.step cfg rng) (Sqrt.init cfg) (fun k => (x k).get i) t = .ok (o.get i) := by
  have key : ∀ n, ∃ (s : SqrtSt) (L C : List ℕ → List ℤ), stateAtE (sqrtT cfg rng) (sqrtInit cfg) x n = .ok s ∧ SqrtInv cfg u s L C ∧
      ∀ i, ∃ hq : ℤ, stateAtE (Sqrt.step cfg rng) (Sqrt.init cfg) (fun k => (x k).get i) n = .ok (sqrtLane s L C hq i) := by
    intro n
    induction n with
    | zero =>
      have h1 : Spec.Stretch [1] [1] ∧ Spec.Stretch [1] u := ⟨fits_refl _, fits_one hu⟩
      exact ⟨_, _, _, rfl, ⟨srInv_init _ u, srInv_init _ u, h1, h1, h1.2, h1, h1.2, fun _ _ => rfl⟩, fun _ => ⟨_, rfl⟩⟩
    | succ n ih =>
      obtain ⟨s, L, C, h1, h2, h3⟩ := ih
      obtain ⟨s', o, L', C', e, _, hI, g⟩ := sqrt_call hr hr' he hu h2 (x n) (hx n)
      refine ⟨s', L', C', stateAtE_succ_ok h1 e, hI, fun i => ?_⟩
      obtain ⟨hq, e0⟩ := h3 i
      obtain ⟨hq', e1⟩ := g i hq
      exact ⟨hq', stateAtE_succ_ok e0 e1⟩
  obtain ⟨s, L, C, h1, h2, h3⟩ := key t
  obtain ⟨s', o, L', C', e, so, _, g⟩ := sqrt_call hr hr' he hu h2 (x t) (hx t)
  refine ⟨o, outAtE_ok h1 e, so, fun i => ?_⟩
  obtain ⟨hq, e0⟩ := h3 i
  obtain ⟨hq', e1⟩ := g i hq
  exact outAtE_ok e0 e1

/-! ### Correlation -/

theorem map2In_err {α β γ : Type} (f : α → β → γ) {x : Tensor α} {y : Tensor β} (h : ¬ Spec.Stretch y.shape x.shape) :
    ∃ e, map2In f x y = .error e := by
  unfold map2In
  cases hb : bc x.shape y.shape with
  | none => exact ⟨_, rfl⟩
  | some u =>
    refine ⟨.runtime, if_neg ?_⟩
    rintro rfl
    exact h (bc_some hb).2.1

/-- One element of the state of `Correlation`. -/
def corrLane (s : CorrSt) (i : List ℕ) : Metric.Corr := ⟨s.d.get i, s.c.get i, s.b.get i, s.a.get i, s.len.get i, s.in1d.get i⟩

/-- The observations of a call: one element each. -/
def Spec.Single (x : Tensor ℚ × Option (Tensor ℚ)) : Prop := Spec.Stretch x.1.shape [1] ∧ ∀ y ∈ x.2, Spec.Stretch y.shape [1]

theorem single_iff (s : List ℕ) : Spec.Stretch s [1] ↔ s = [] ∨ s = [1] := by
  cases s with
  | nil => simp [Spec.Stretch]
  | cons a s =>
    cases s with
    | nil => simp [Spec.Stretch]
    | cons b s => simp [Spec.Stretch]

/-- C14: `Correlation` accepts exactly single elements (scalars or tensors of shape `[1]`); any other observation raises.  What it counts
is then what the model of one element counts. -/
theorem C14_shape (x : ℕ → Tensor ℚ × Option (Tensor ℚ)) (n : ℕ) :
    ((∀ k < n, Spec.Single (x k)) → ∃ s : CorrSt, stateAtE monitorT corrInit x n = .ok s ∧
      ∀ i, corrLane s i = stateAt (fun (s : Metric.Corr) (o : ℚ × Option ℚ) => (s.monitor o.1 o.2, ())) Metric.Corr.init
        (fun k => ((x k).1.get i, (x k).2.map fun y => y.get i)) n) ∧
    ((∃ k < n, ¬ Spec.Single (x k)) → ∃ e, stateAtE monitorT corrInit x n = .error e) := by
  have call : ∀ (s : CorrSt) (o : Tensor ℚ × Option (Tensor ℚ)), s.d.shape = [1] → s.c.shape = [1] → s.b.shape = [1] → s.a.shape = [1] →
      Spec.Stretch s.in1d.shape [1] →
      (Spec.Single o → ∃ s' : CorrSt, monitorT s o = .ok (s', ()) ∧ (s'.d.shape = [1] ∧ s'.c.shape = [1] ∧ s'.b.shape = [1] ∧ s'.a.shape = [1] ∧
        Spec.Stretch s'.in1d.shape [1]) ∧ ∀ i, corrLane s' i = (corrLane s i).monitor (o.1.get i) (o.2.map fun y => y.get i)) ∧
      (¬ Spec.Single o → ∃ e, monitorT s o = .error e) := by
    intro s o hd hc hb ha hq
    obtain ⟨y, hy, hye⟩ : ∃ y : Tensor ℚ, y = o.2.getD s.in1d ∧ (Spec.Single o ↔ Spec.Stretch o.1.shape [1] ∧ Spec.Stretch y.shape [1]) := by
      refine ⟨_, rfl, ?_⟩
      obtain ⟨o1, o2⟩ := o
      cases o2 with
      | none => exact ⟨fun h => ⟨h.1, hq⟩, fun h => ⟨h.1, by simp⟩⟩
      | some y => exact ⟨fun h => ⟨h.1, h.2 y rfl⟩, fun h => ⟨h.1, fun y' hy' => by obtain rfl := Option.some.inj hy'; exact h.2⟩⟩
    constructor
    · intro hs
      have hw := hye.mp hs
      obtain ⟨w, hbw⟩ := bc_exists hw.1 hw.2
      have hwf : Spec.Stretch w [1] := (bc_some hbw).2.2 _ hw.1 hw.2
      have m2 : ∀ (f g : ℚ → ℚ), ∃ z : Tensor ℚ, map2 (fun a b : ℚ => a * b) (map1 f o.1) (map1 g y) = .ok z ∧ z.shape = w ∧
          ∀ i, z.get i = f (o.1.get i) * g (y.get i) := by
        intro f g
        obtain ⟨z, h1, h2, h3⟩ := map2_ok (fun a b : ℚ => a * b) (x := map1 f o.1) (y := map1 g y) (u := w) hbw
        exact ⟨z, h1, h2, h3⟩
      obtain ⟨p00, e1, s1, g1⟩ := m2 (fun v => ind (v = 0)) (fun v => ind (v = 0))
      obtain ⟨p01, e2, s2, g2⟩ := m2 (fun v => ind (v = 0)) (fun v => 1 - ind (v = 0))
      obtain ⟨p10, e3, s3, g3⟩ := m2 (fun v => 1 - ind (v = 0)) (fun v => ind (v = 0))
      obtain ⟨p11, e4, s4, g4⟩ := m2 (fun v => 1 - ind (v = 0)) (fun v => 1 - ind (v = 0))
      obtain ⟨d, f1, t1, k1⟩ := map2In_ok (fun a b : ℚ => a + b) (x := s.d) (y := p00) (by rw [s1, hd]; exact hwf)
      obtain ⟨c, f2, t2, k2⟩ := map2In_ok (fun a b : ℚ => a + b) (x := s.c) (y := p01) (by rw [s2, hc]; exact hwf)
      obtain ⟨b, f3, t3, k3⟩ := map2In_ok (fun a b : ℚ => a + b) (x := s.b) (y := p10) (by rw [s3, hb]; exact hwf)
      obtain ⟨a, f4, t4, k4⟩ := map2In_ok (fun a b : ℚ => a + b) (x := s.a) (y := p11) (by rw [s4, ha]; exact hwf)
      change map2 (fun a b : ℚ => a * b) (map1 (fun v : ℚ => ind (v = 0)) o.1) (map1 (fun v : ℚ => 1 - v) (map1 (fun v : ℚ => ind (v = 0)) y)) = _ at e2
      change map2 (fun a b : ℚ => a * b) (map1 (fun v : ℚ => 1 - v) (map1 (fun v : ℚ => ind (v = 0)) o.1)) (map1 (fun v : ℚ => ind (v = 0)) y) = _ at e3
      change map2 (fun a b : ℚ => a * b) (map1 (fun v : ℚ => 1 - v) (map1 (fun v : ℚ => ind (v = 0)) o.1))
        (map1 (fun v : ℚ => 1 - v) (map1 (fun v : ℚ => ind (v = 0)) y)) = _ at e4
      refine ⟨⟨d, c, b, a, map1 (fun v : ℚ => v + 1) s.len, if o.2.isNone then o.1 else s.in1d⟩, ?_,
        ⟨t1.trans hd, t2.trans hc, t3.trans hb, t4.trans ha, ?_⟩, fun i => ?_⟩
      · unfold monitorT
        simp only [← hy, e1, e2, e3, e4, f1, f2, f3, f4, bind, Except.bind, pure, Except.pure]
      · obtain ⟨o1, o2⟩ := o
        cases o2 with
        | none => exact hw.1
        | some y => exact hq
      · simp only [corrLane, k1, k2, k3, k4, g1, g2, g3, g4, get_map1, Metric.Corr.monitor]
        obtain ⟨o1, o2⟩ := o
        cases o2 <;> (subst hy; rfl)
    · intro hs
      rw [hye] at hs
      unfold monitorT
      simp only [← hy]
      cases hbw : bc o.1.shape y.shape with
      | none =>
        have e1 := map2_err (fun a b : ℚ => a * b) (x := map1 (fun v : ℚ => (ind (v = 0) : ℚ)) o.1) (y := map1 (fun v : ℚ => (ind (v = 0) : ℚ)) y) hbw
        exact ⟨.runtime, by rw [e1]; rfl⟩
      | some w =>
        obtain ⟨p00, e1, s1, g1⟩ := map2_ok (fun a b : ℚ => a * b) (x := map1 (fun v : ℚ => (ind (v = 0) : ℚ)) o.1)
          (y := map1 (fun v : ℚ => (ind (v = 0) : ℚ)) y) hbw
        have hwf := bc_some hbw
        obtain ⟨e, f1⟩ := map2In_err (fun a b : ℚ => a + b) (x := s.d) (y := p00) (by
          rw [s1, hd]; exact fun h => hs ⟨fits_trans hwf.1 h, fits_trans hwf.2.1 h⟩)
        exact ⟨e, by rw [e1]; simp only [bind, Except.bind]; rw [f1]⟩
  have key : (∀ k < n, Spec.Single (x k)) → ∃ s : CorrSt, stateAtE monitorT corrInit x n = .ok s ∧
      (s.d.shape = [1] ∧ s.c.shape = [1] ∧ s.b.shape = [1] ∧ s.a.shape = [1] ∧ Spec.Stretch s.in1d.shape [1]) ∧
      ∀ i, corrLane s i = stateAt (fun (s : Metric.Corr) (o : ℚ × Option ℚ) => (s.monitor o.1 o.2, ())) Metric.Corr.init
        (fun k => ((x k).1.get i, (x k).2.map fun y => y.get i)) n := by
    induction n with
    | zero => exact fun _ => ⟨_, rfl, ⟨rfl, rfl, rfl, rfl, fits_refl _⟩, fun _ => rfl⟩
    | succ n ih =>
      intro h
      obtain ⟨s, e, ⟨h1, h2, h3, h4, h5⟩, g⟩ := ih fun k hk => h k (by omega)
      obtain ⟨s', e', hh, g'⟩ := (call s (x n) h1 h2 h3 h4 h5).1 (h n (by omega))
      exact ⟨s', stateAtE_succ_ok e e', hh, fun i => by rw [g' i, g i]; rfl⟩
  refine ⟨fun h => let ⟨s, e, _, g⟩ := key h; ⟨s, e, g⟩, ?_⟩
  clear key
  induction n with
  | zero => rintro ⟨k, hk, _⟩; exact absurd hk (Nat.not_lt_zero k)
  | succ n ih =>
    rintro ⟨k, hk, hb⟩
    by_cases hex : ∃ k < n, ¬ Spec.Single (x k)
    · obtain ⟨e, he⟩ := ih hex
      exact ⟨e, by simp only [stateAtE]; rw [he]; rfl⟩
    · have hall : ∀ k < n, Spec.Single (x k) := fun k hk => by_contra fun h => hex ⟨k, hk, h⟩
      obtain rfl : k = n := by
        by_contra hne; exact hb (hall k (by omega))
      have key : ∀ m ≤ k, ∃ s : CorrSt, stateAtE monitorT corrInit x m = .ok s ∧
          (s.d.shape = [1] ∧ s.c.shape = [1] ∧ s.b.shape = [1] ∧ s.a.shape = [1] ∧ Spec.Stretch s.in1d.shape [1]) := by
        intro m
        induction m with
        | zero => exact fun _ => ⟨_, rfl, rfl, rfl, rfl, rfl, fits_refl _⟩
        | succ m ihm =>
          intro hm
          obtain ⟨s, e, h1, h2, h3, h4, h5⟩ := ihm (by omega)
          obtain ⟨s', e', hh, _⟩ := (call s (x m) h1 h2 h3 h4 h5).1 (hall m (by omega))
          exact ⟨s', stateAtE_succ_ok e e', hh⟩
      obtain ⟨s, e, h1, h2, h3, h4, h5⟩ := key k (le_refl k)
      obtain ⟨er, he⟩ := (call s (x k) h1 h2 h3 h4 h5).2 hb
      exact ⟨er, by simp only [stateAtE]; rw [e]; show (monitorT s (x k) >>= fun r => pure r.1) = _; rw [he]; rfl⟩

example : Spec.Single (⟨[], fun _ => 1⟩, some (one 0)) ∧ ¬ Spec.Single (⟨[2], fun _ => 1⟩, none) := by
  simp [Spec.Single, Spec.Stretch, one]

/-! ### Constant shapes, carried-over state, examples -/

/-- The usual case: all inputs have one shape (not that of a scalar).  Then this is the shape the module has met. -/
theorem C100_constant {u : List ℕ} (hu : u ≠ []) (x : ℕ → Tensor ℤ) (hx : ∀ k, (x k).shape = u) (t : ℕ) :
    Spec.Smallest (Spec.shapesSeen (fun x : Tensor ℤ => [x.shape]) x (t + 1)) u := by
  refine ⟨fun s hs => ?_, fun v hv => hv u (Or.inr ⟨t, by omega, by simp [hx]⟩)⟩
  rcases hs with rfl | ⟨k, _, hs⟩
  · exact fits_one hu
  · rw [List.mem_singleton.mp hs, hx]; exact fits_refl u

/-- Inside the shape of a tensor the value used by broadcasting is the element. -/
theorem C100_element {α : Type} (x : Tensor α) {i : List ℕ} (hl : i.length = x.shape.length) (hi : ∀ k, k < x.shape.length → i.getD k 0 < x.shape.getD k 0) :
    x.get i = x.at' i := by
  unfold Tensor.get; rw [proj_self hl hi]

/-- Two batches of different sizes above one cannot be given to the same module: the second call raises. -/
theorem C100_resized {a b : ℕ} (ha : a ≠ 1) (hb : b ≠ 1) (hab : a ≠ b) (depth : ℤ) (x : ℕ → Tensor ℤ) (h0 : (x 0).shape = [a]) (h1 : (x 1).shape = [b]) :
    (∃ o : Tensor ℤ, outAtE (bi2uniT depth) (one 0) x 0 = .ok o) ∧ ∃ e, outAtE (bi2uniT depth) (one 0) x 1 = .error e := by
  constructor
  · have hj : Spec.Smallest (Spec.shapesSeen (fun x : Tensor ℤ => [x.shape]) x 1) [a] := by
      refine ⟨fun s hs => ?_, fun v hv => hv [a] (Or.inr ⟨0, by omega, by simp [h0]⟩)⟩
      rcases hs with rfl | ⟨k, hk, hs⟩
      · exact fits_one (by simp)
      · obtain rfl : k = 0 := by omega
        rw [List.mem_singleton.mp hs, h0]; exact fits_refl _
    obtain ⟨o, ho, _⟩ := (C100_bi2uni depth x 0).1 _ hj
    exact ⟨o, ho⟩
  · refine (C100_bi2uni depth x 1).2 ?_
    rintro ⟨u, hu⟩
    have h2 : Spec.Stretch [a] u := hu.1 _ (Or.inr ⟨0, by omega, by simp [h0]⟩)
    have h3 : Spec.Stretch [b] u := hu.1 _ (Or.inr ⟨1, by omega, by simp [h1]⟩)
    cases u with
    | nil => exact h2
    | cons c u => exact hab ((h2.1.resolve_left ha).trans (h3.1.resolve_left hb).symm)

/-- State survives a change of shape: after one call on a single element every element of a later batch starts from the
backlog of that one, whatever the batch size. -/
theorem C100_inherits (n : ℕ) (x : ℕ → Tensor ℤ) (h0 : (x 0).shape = [1]) (h1 : (x 1).shape = [n])
    (hx0 : (x 0).at' [0] = 0) (hx1 : ∀ j, (x 1).at' [j] = 1) :
    (∃ o : Tensor ℤ, outAtE (bi2uniT 3) (one 0) x 1 = .ok o ∧ ∀ j < n, o.at' [j] = 0) ∧
    ∃ o : Tensor ℤ, outAtE (bi2uniT 3) (one 0) (fun t => x (t + 1)) 0 = .ok o ∧ ∀ j < n, o.at' [j] = 1 := by
  have hF : Spec.Stretch [1] [n] := fits_one (by simp)
  constructor
  · have hj : Spec.Smallest (Spec.shapesSeen (fun x : Tensor ℤ => [x.shape]) x 2) [n] := by
      refine ⟨fun s hs => ?_, fun v hv => hv [n] (Or.inr ⟨1, by omega, by simp [h1]⟩)⟩
      rcases hs with rfl | ⟨k, hk, hs⟩
      · exact hF
      · rw [List.mem_singleton.mp hs]
        obtain rfl | rfl : k = 0 ∨ k = 1 := by omega
        · rw [h0]; exact hF
        · rw [h1]; exact fits_refl _
    obtain ⟨o, ho, hs, hg⟩ := (C100_bi2uni 3 x 1).1 _ hj
    refine ⟨o, ho, fun j hjn => ?_⟩
    rw [← C100_element o (by rw [hs]; rfl) (fun k hk => by
      rw [hs] at hk ⊢
      obtain rfl : k = 0 := by simpa using hk
      exact hjn), hg [j]]
    have e0 : (x 0).get [j] = 0 := by unfold Tensor.get; rw [h0]; exact hx0
    have e1 : (x 1).get [j] = 1 := by
      unfold Tensor.get; rw [h1]
      by_cases hn : n = 1
      · simp only [proj, hn, if_true]; exact hx1 0
      · simp only [proj, if_neg hn]; exact hx1 _
    simp only [outAt, stateAt, e0, e1]
    decide +kernel
  · have hj : Spec.Smallest (Spec.shapesSeen (fun x : Tensor ℤ => [x.shape]) (fun t => x (t + 1)) 1) [n] := by
      refine ⟨fun s hs => ?_, fun v hv => hv [n] (Or.inr ⟨0, by omega, by simp [h1]⟩)⟩
      rcases hs with rfl | ⟨k, hk, hs⟩
      · exact hF
      · obtain rfl : k = 0 := by omega
        rw [List.mem_singleton.mp hs]; show Spec.Stretch (x 1).shape _; rw [h1]; exact fits_refl _
    obtain ⟨o, ho, hs, hg⟩ := (C100_bi2uni 3 (fun t => x (t + 1)) 0).1 _ hj
    refine ⟨o, ho, fun j hjn => ?_⟩
    rw [← C100_element o (by rw [hs]; rfl) (fun k hk => by
      rw [hs] at hk ⊢
      obtain rfl : k = 0 := by simpa using hk
      exact hjn), hg [j]]
    have e1 : (x 1).get [j] = 1 := by
      unfold Tensor.get; rw [h1]
      by_cases hn : n = 1
      · simp only [proj, hn, if_true]; exact hx1 0
      · simp only [proj, if_neg hn]; exact hx1 _
    simp only [outAt, stateAt, Nat.zero_add, e1]
    decide +kernel

/-- Non-vacuity: shapes `[3]`, `[2, 1]` (last dimension first: `[3]`, `[1, 2]`) have the common shape `[2, 3]`; `[2]` and
`[3]` have none. -/
example : Spec.Smallest {[3], [1, 2]} [3, 2] := join_pair.mpr rfl

example : ¬ ∃ u, Spec.Smallest {[2], [3]} u := by
  rintro ⟨u, hu⟩
  exact absurd (join_pair.mp hu) (by simp [bc])

/-- The hypotheses of `C100_div` and `C100_sqrt` about the number sequence are met by the Sobol sequence of four entries. -/
example : ([0, 2, 1, 3] : List ℤ).length = 4 ∧ ∀ v ∈ ([0, 2, 1, 3] : List ℤ), v.toNat < 4 := by decide

/-- A bipolar divider on `[2, 3]` tensors: every call returns one bit for every element. -/
example (x : ℕ → Tensor ℤ × Tensor ℤ) (hx : ∀ k, (x k).1.shape = [3, 2]) (hy : ∀ k, (x k).2.shape = [3, 2]) :
    ∃ q : Tensor ℤ, outAtE (divT .bipolar 3 2 4 [0, 2, 1, 3]) (divInit 3 4) x 5 = .ok q ∧ q.shape = [3, 2] := by
  obtain ⟨q, h1, h2, _⟩ := C100_div (entry := 4) (rng := [0, 2, 1, 3]) rfl (by decide) (by decide) (u := [3, 2]) (by simp) .bipolar 3 2 x hx hy 5
  exact ⟨q, h1, h2⟩

/-- A `[2, 3]` tensor summed along dimension 0 and along dimension -1. -/
example : Spec.fibre ⟨[3, 2], fun i => 10 * i.getD 1 0 + i.getD 0 0⟩ (Spec.fromLast 0 2) [2] = [2, 12] ∧
    Spec.fibre ⟨[3, 2], fun i => 10 * i.getD 1 0 + i.getD 0 0⟩ (Spec.fromLast (-1) 2) [1] = [10, 11, 12] := by
  decide +kernel

end Verif.Props
