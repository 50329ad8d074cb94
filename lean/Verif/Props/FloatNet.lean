import Verif.Model.FloatNet
import Verif.Props.Float
import Verif.Props.FloatLin
import Verif.Props.ImgNetwork

/-!
# Property C97: stream networks in binary32
-/

namespace Verif.Props

open Verif Finset Linear FloatNet
open Verif.Net (Machine Layers Img ImgLayers)
open Verif.Float (fl fadd fsub fmul FDot FSum AddRun addConfigure addAccumulate)

/-! ## Two machines that agree -/

/-- On the inputs `P` the object `f` has results, and any results it may have are those of `m` and satisfy `Q`. -/
structure Spec.Agree {α β : Type} (f : RMachine α β) (m : Machine α β) (P : (ℕ → α) → Prop) (Q : (ℕ → β) → Prop) : Prop where
  runs : ∀ x, P x → ∃ out, f.Run x out
  same : ∀ x, P x → ∀ out, f.Run x out → (∀ t, m.out x t = .ok (out t)) ∧ Q out

private theorem comp_run {α β γ : Type} (f : RMachine α β) (g : RMachine β γ) (x : ℕ → α) (out : ℕ → γ) :
    (f.comp g).Run x out ↔ ∃ y, f.Run x y ∧ g.Run y out := by
  constructor
  · rintro ⟨st, h0, h⟩
    choose y h1 h2 using h
    exact ⟨y, ⟨fun t => (st t).1, congrArg (fun q : f.S × g.S => q.1) h0, h1⟩, ⟨fun t => (st t).2, congrArg (fun q : f.S × g.S => q.2) h0, h2⟩⟩
  · rintro ⟨y, ⟨s1, h1, h2⟩, ⟨s2, h3, h4⟩⟩
    exact ⟨fun t => (s1 t, s2 t), Prod.ext h1 h3, fun t => ⟨y t, h2 t, h4 t⟩⟩

private theorem agree_comp {α β γ : Type} {f : RMachine α β} {g : RMachine β γ} {m : Machine α β} {n : Machine β γ}
    {P : (ℕ → α) → Prop} {Q : (ℕ → β) → Prop} {R : (ℕ → γ) → Prop} (h1 : Spec.Agree f m P Q) (h2 : Spec.Agree g n Q R) :
    Spec.Agree (f.comp g) (m.comp n) P R where
  runs := fun x hx => by
    obtain ⟨y, hy⟩ := h1.runs x hx
    obtain ⟨z, hz⟩ := h2.runs y (h1.same x hx y hy).2
    exact ⟨z, (comp_run f g x z).2 ⟨y, hy, hz⟩⟩
  same := fun x hx out ho => by
    obtain ⟨y, hy, hz⟩ := (comp_run f g x out).1 ho
    obtain ⟨e1, q⟩ := h1.same x hx y hy
    obtain ⟨e2, r⟩ := h2.same y q out hz
    exact ⟨fun t => by rw [comp_out m n x y e1]; exact e2 t, r⟩

/-- The results of a determined module. -/
private theorem run_ofMachine {α β : Type} (m : Machine α β) (x : ℕ → α) (out : ℕ → β) :
    (RMachine.ofMachine m).Run x out ↔ ∀ t, m.out x t = .ok (out t) := by
  constructor
  · rintro ⟨st, h0, h⟩ t
    have : ∀ t, stateAtE m.step m.init x t = .ok (st t) := by
      intro t
      induction t with
      | zero => rw [h0]; rfl
      | succ t ih => exact stateAtE_succ_ok ih (h t)
    exact outAtE_ok (this t) (h t)
  · intro h
    have hs : ∀ t, ∃ s, stateAtE m.step m.init x t = .ok s ∧ ∃ s', m.step s (x t) = .ok (s', out t) := by
      intro t
      have := h t
      unfold Machine.out outAtE at this
      obtain ⟨s, e1, e2⟩ := except_bind_ok this
      obtain ⟨r, e3, e4⟩ := except_bind_ok e2
      have e5 : r.2 = out t := Except.ok.inj e4
      exact ⟨s, e1, r.1, by rw [e3, ← e5]⟩
    choose st h1 nx h2 using hs
    refine ⟨st, ?_, fun t => ?_⟩
    · exact (Except.ok.inj (h1 0)).symm
    · have e := stateAtE_succ_ok (h1 t) (h2 t)
      rw [h1 (t + 1)] at e
      rw [Except.ok.inj e]
      exact h2 t

/-- A batch of `B` rows of `I` bits in every call. -/
def Spec.BitRows (B I : ℕ) (x : ℕ → List (Fin I → ℤ)) : Prop :=
  ∃ u : Fin B → Fin I → ℕ → ℤ, (∀ b i, Verif.Spec.BitStream (u b i)) ∧ x = pcIn u

private theorem agree_id {α : Type} (P : (ℕ → α) → Prop) :
    Spec.Agree (RMachine.ofMachine (Machine.id α)) (Machine.id α) P P where
  runs := fun x _ => ⟨x, (run_ofMachine _ _ _).2 (id_out x)⟩
  same := fun x hx out ho => by
    have h := (run_ofMachine _ _ _).1 ho
    have : out = x := funext fun t => Except.ok.inj ((h t).symm.trans (id_out x t))
    exact ⟨h, this ▸ hx⟩

private theorem agree_lanes {σ τ : Type} {B I : ℕ} (f : σ → ℤ → σ × ℤ) (s0 : σ) (g : τ → ℤ → τ × ℤ) (q0 : τ)
    (h : ∀ x, Verif.Spec.BitStream x → ∀ t, outAt f s0 x t = outAt g q0 x t)
    (hb : ∀ x, Verif.Spec.BitStream x → ∀ t, IsBit (outAt g q0 x t)) :
    Spec.Agree (RMachine.ofMachine ⟨_, [fun _ : Fin I => s0], Net.lanes f⟩) ⟨_, [fun _ : Fin I => q0], Net.lanes g⟩
      (Spec.BitRows B I) (Spec.BitRows B I) where
  runs := by
    rintro x ⟨u, hu, rfl⟩
    exact ⟨_, (run_ofMachine _ _ _).2 fun t => lanes_out f s0 u t⟩
  same := by
    rintro x ⟨u, hu, rfl⟩ out ho
    have h1 := (run_ofMachine _ _ _).1 ho
    have e : out = pcIn fun b i t => outAt g q0 (u b i) t := by
      funext t
      have := (h1 t).symm.trans (lanes_out f s0 u t)
      rw [Except.ok.inj this]
      unfold pcIn
      congr 1
      funext b i
      exact h _ (hu b i) t
    rw [e]
    exact ⟨fun t => lanes_out g q0 u t, _, fun b i t => hb _ (hu b i) t, rfl⟩

/-! ## Counts -/

private theorem zipBatch_map {α β γ α' β' : Type} (h : α' → β' → γ) (f : α → α') (g : β → β') (a : List α) (b : List β) :
    zipBatch h (a.map f) (b.map g) = zipBatch (fun x y => h (f x) (g y)) a b := by
  unfold zipBatch
  simp only [List.length_map]
  split_ifs with e
  · rw [List.zipWith_map]
  · cases b with
    | nil => rfl
    | cons y ys => cases ys with
      | nil => simp only [List.map_cons, List.map_nil, List.map_map]; rfl
      | cons z zs => rfl

private theorem zipBatch_pairs {α β γ : Type} (h : α → β → γ) (a : List α) (b : List β) :
    zipBatch h a b = (zipBatch Prod.mk a b).map fun l => l.map fun p => h p.1 p.2 := by
  unfold zipBatch
  split_ifs with e
  · show Except.ok (List.zipWith h a b) = Except.ok ((List.zipWith Prod.mk a b).map fun p => h p.1 p.2)
    rw [List.map_zipWith]
  · cases b with
    | nil => rfl
    | cons y ys => cases ys with
      | nil =>
        show Except.ok (a.map fun m => h m y) = Except.ok ((a.map fun m => (m, y)).map fun p => h p.1 p.2)
        rw [List.map_map]; rfl
      | cons z zs => rfl

private theorem zipBatch_mem {α β : Type} {a : List α} {b : List β} {l : List (α × β)} (h : zipBatch Prod.mk a b = .ok l) :
    ∀ p ∈ l, p.1 ∈ a ∧ p.2 ∈ b := by
  unfold zipBatch at h
  intro p hp
  split_ifs at h with e
  · obtain rfl := Except.ok.inj h
    obtain ⟨x, y⟩ := p
    exact List.of_mem_zip hp
  · cases b with
    | nil => cases h
    | cons y ys => cases ys with
      | nil =>
        obtain rfl := Except.ok.inj h
        obtain ⟨x, hx, rfl⟩ := List.mem_map.1 hp
        exact ⟨hx, by simp⟩
      | cons z zs => cases h

private theorem zipLanes_map {α β γ δ : Type} (f : α → β → γ) (g : δ → β) (a : List α) (b : List δ) :
    zipLanes f a (b.map g) = zipLanes (fun x y => f x (g y)) a b := by
  unfold zipLanes
  simp only [List.length_map]
  split_ifs with e
  · rw [List.zipWith_map_right]
  · match a, b with
    | [], [] => rfl
    | [], [_] => rfl
    | [], _ :: _ :: _ => rfl
    | [x], b => simp only [List.map_map]; rfl
    | x :: y :: l, [] => rfl
    | x :: y :: l, [_] => rfl
    | x :: y :: l, _ :: _ :: _ => rfl

private theorem expand_map' {α β : Type} (B : ℕ) (g : α → β) (l : List α) : expand B (l.map g) = (expand B l).map g := by
  unfold expand
  rw [List.length_map]
  split_ifs <;> simp [List.map_flatten]

/-- Products of bits are exact. -/
private theorem products_exact {I O : ℕ} (hI : (I:ℚ) ≤ 2 ^ 24) (w : List (Fin O → Fin I → ℤ)) (x : List (Fin I → ℤ))
    (hw : ∀ m ∈ w, ∀ o i, IsBit (m o i)) (hx : ∀ r ∈ x, ∀ i, IsBit (r i)) (y : List (Fin O → ℚ)) (n : List (Fin O → ℤ))
    (hn : zipBatch mulRow w x = .ok n) :
    (Products (w.map fun m o i => (m o i : ℚ)) (x.map fun r i => (r i : ℚ)) y ↔ y = n.map fun r o => (r o : ℚ)) ∧
    ∀ r ∈ n, ∀ o, 0 ≤ r o ∧ r o ≤ I := by
  rw [zipBatch_pairs] at hn
  cases hp : zipBatch Prod.mk w x with
  | error e => rw [hp] at hn; cases hn
  | ok l =>
    rw [hp] at hn
    obtain rfl := Except.ok.inj hn
    have hmem := zipBatch_mem hp
    have hbit : ∀ p ∈ l, ∀ o i, IsBit (p.2 i * p.1 o i) := fun p hp o i => by
      rcases hw _ (hmem p hp).1 o i with h | h <;> rcases hx _ (hmem p hp).2 i with h' | h' <;> simp [IsBit, h, h']
    have hl : zipBatch Prod.mk (w.map fun m o i => (m o i : ℚ)) (x.map fun r i => (r i : ℚ))
        = .ok (l.map fun p => ((fun o i => (p.1 o i : ℚ)), fun i => (p.2 i : ℚ))) := by
      rw [zipBatch_map, zipBatch_pairs, hp]; rfl
    have hdot : ∀ p ∈ l, ∀ o v, FDot (List.ofFn fun i => ((p.2 i : ℚ), (p.1 o i : ℚ))) v → v = ((mulRow p.1 p.2 o : ℤ) : ℚ) := by
      intro p hp o v hv
      have := FDot.exact hv (fun q hq => by
        obtain ⟨i, rfl⟩ := List.mem_ofFn.1 hq
        exact ⟨_, _, rfl⟩) (by
        rw [List.map_ofFn, List.sum_ofFn]
        refine le_trans (sum_le_sum (g := fun _ => (1:ℚ)) fun i _ => ?_) (by simpa using hI)
        have hb := hbit p hp o i
        show |(p.2 i : ℚ) * p.1 o i| ≤ 1
        rw [← Int.cast_mul]
        rcases hb with h | h <;> rw [h] <;> norm_num)
      rw [this, List.map_ofFn, List.sum_ofFn]
      unfold mulRow
      push_cast
      rfl
    refine ⟨⟨?_, ?_⟩, ?_⟩
    · rintro ⟨prs, h1, h2⟩
      rw [hl] at h1
      obtain rfl := Except.ok.inj h1
      rw [List.forall₂_map_left_iff] at h2
      clear hl hp hn h1
      induction h2 with
      | nil => rfl
      | cons a b ih =>
        simp only [List.map_cons]
        congr 1
        · funext o
          exact hdot _ List.mem_cons_self o _ (a o)
        · exact ih (fun p hp => hmem p (List.mem_cons_of_mem _ hp)) (fun p hp => hbit p (List.mem_cons_of_mem _ hp))
            (fun p hp => hdot p (List.mem_cons_of_mem _ hp))
    · rintro rfl
      refine ⟨_, hl, ?_⟩
      rw [List.forall₂_map_left_iff, List.map_map, List.forall₂_map_right_iff]
      apply List.forall₂_same.2
      intro p hp o
      obtain ⟨v, hv⟩ := fdot_exists (List.ofFn fun i => ((p.2 i : ℚ), (p.1 o i : ℚ)))
      have := hdot p hp o v hv
      rw [this] at hv
      exact hv
    · intro r hr o
      obtain ⟨p, hp, rfl⟩ := List.mem_map.1 hr
      show 0 ≤ ∑ i, p.2 i * p.1 o i ∧ ∑ i, p.2 i * p.1 o i ≤ I
      constructor
      · exact sum_nonneg fun i _ => by rcases hbit p hp o i with h | h <;> rw [h] <;> norm_num
      · refine le_trans (sum_le_sum (g := fun _ => (1:ℤ)) fun i _ => ?_) (by simp)
        rcases hbit p hp o i with h | h <;> rw [h] <;> norm_num

private theorem fl_nat_sub {n : ℤ} (h : IsBit n) : fsub 1 (n : ℚ) = ((1 - n : ℤ) : ℚ) := by
  unfold fsub
  rcases h with h | h <;> rw [h] <;> norm_num
  · exact fl_small (n := 1) (by norm_num) (by norm_num)

/-- The counts in binary32 are those of exact arithmetic. -/
theorem counts_exact {I O : ℕ} (hI : 2 * I + 1 ≤ 2 ^ 24) (c : PC I O) (s s' : PCSt I O) (x : List (Fin I → ℤ))
    (hx : ∀ r ∈ x, ∀ i, IsBit (r i)) (n : List (Fin O → ℤ)) (hn : stepPC c s x = .ok (s', n)) (y : List (Fin O → ℚ)) :
    Counts c s x y ↔ y = n.map fun r o => (r o : ℚ) := by
  have hIq : (I:ℚ) ≤ 2 ^ 24 := by
    have : (I:ℚ) ≤ ((2 ^ 24 : ℕ) : ℚ) := Nat.cast_le.2 (by omega : I ≤ 2 ^ 24)
    rw [Nat.cast_pow] at this
    exact this
  have hinv : ∀ r ∈ x.map (fun (x : Fin I → ℤ) (i : Fin I) => 1 - x i), ∀ i, IsBit (r i) := by
    intro r hr i
    obtain ⟨q, hq, rfl⟩ := List.mem_map.1 hr
    rcases hx q hq i with h | h <;> simp [IsBit, h]
  have hexp : ∀ {α : Type} (l : List α) (p : α → Prop), (∀ a ∈ l, p a) → ∀ a ∈ expand x.length l, p a := by
    intro α l p hl a ha
    unfold expand at ha
    split_ifs at ha with e
    · obtain ⟨q, hq, h⟩ := List.mem_flatten.1 ha
      rw [(List.mem_replicate.1 hq).2] at h
      exact hl a h
    · exact hl a ha
  set gen := fun (m : Fin O → Fin I → ℤ) (o : Fin O) (i : Fin I) => Gen.bsGen c.rng (c.weight o i) (m o i) with hgen
  have hgb : ∀ m o i, IsBit (gen m o i) := fun m o i => Gen.bsGen_isBit _ _ _
  have hw1 : ∀ m ∈ expand x.length (s.wrdx1.map gen), ∀ o i, IsBit (m o i) := by
    apply hexp
    intro a ha
    obtain ⟨m, -, rfl⟩ := List.mem_map.1 ha
    exact hgb m
  have hw1' : ∀ m ∈ (expand x.length (s.wrdx1.map gen)).map (fun (w : Fin O → Fin I → ℤ) (o : Fin O) (i : Fin I) => 1 - w o i),
      ∀ o i, IsBit (m o i) := by
    intro a ha o i
    obtain ⟨m, hm, rfl⟩ := List.mem_map.1 ha
    rcases hw1 m hm o i with h | h <;> simp [IsBit, h]
  have hw0 : ∀ m ∈ expand x.length (s.wrdx0.map fun (m : Fin O → Fin I → ℤ) (o : Fin O) (i : Fin I) => 1 - gen m o i),
      ∀ o i, IsBit (m o i) := by
    apply hexp
    intro a ha o i
    obtain ⟨m, -, rfl⟩ := List.mem_map.1 ha
    rcases hgb m o i with h | h <;> simp [IsBit, h]
  have cast1 : expand x.length (s.wrdx1.map fun (m : Fin O → Fin I → ℤ) (o : Fin O) (i : Fin I) => (Gen.bsGen c.rng (c.weight o i) (m o i) : ℚ))
      = (expand x.length (s.wrdx1.map gen)).map fun m o i => (m o i : ℚ) := by
    rw [← expand_map', List.map_map]; rfl
  have castx : (x.map fun (x : Fin I → ℤ) (i : Fin I) => (x i : ℚ)).map (fun (x : Fin I → ℚ) (i : Fin I) => fsub 1 (x i))
      = (x.map fun (x : Fin I → ℤ) (i : Fin I) => 1 - x i).map fun r i => (r i : ℚ) := by
    rw [List.map_map, List.map_map]
    apply List.map_congr_left
    intro r hr
    funext i
    exact fl_nat_sub (hx r hr i)
  have cast1' : ((expand x.length (s.wrdx1.map gen)).map fun m o i => (m o i : ℚ)).map
        (fun (w : Fin O → Fin I → ℚ) (o : Fin O) (i : Fin I) => fsub 1 (w o i))
      = ((expand x.length (s.wrdx1.map gen)).map fun (w : Fin O → Fin I → ℤ) (o : Fin O) (i : Fin I) => 1 - w o i).map
          fun m o i => (m o i : ℚ) := by
    rw [List.map_map, List.map_map]
    apply List.map_congr_left
    intro r hr
    funext o i
    exact fl_nat_sub (hw1 r hr o i)
  have cast0 : expand x.length (s.wrdx0.map fun (m : Fin O → Fin I → ℤ) (o : Fin O) (i : Fin I) =>
        fsub 1 (Gen.bsGen c.rng (c.weight o i) (m o i) : ℚ))
      = (expand x.length (s.wrdx0.map fun (m : Fin O → Fin I → ℤ) (o : Fin O) (i : Fin I) => 1 - gen m o i)).map
          fun m o i => (m o i : ℚ) := by
    rw [← expand_map', List.map_map]
    congr 2
    funext m o i
    exact fl_nat_sub (hgb m o i)
  -- the first products and the bias
  have bias_eq : ∀ n1 : List (Fin O → ℤ), (∀ r ∈ n1, ∀ o, 0 ≤ r o ∧ r o ≤ I) →
      (n1.map fun r o => (r o : ℚ)).map (biasRow c.rng c.bias s.brdx) =
      (addBias c.rng c.bias s.brdx n1).1.map fun r o => (r o : ℚ) := by
    intro n1 h1
    unfold addBias biasRow
    cases hb : c.bias with
    | none => simp
    | some b =>
      simp only [List.map_map]
      apply List.map_congr_left
      intro r hr
      funext o
      have hbb := Gen.bsGen_isBit c.rng (b o) (s.brdx o)
      have := h1 r hr o
      show fadd (r o : ℚ) (Gen.bsGen c.rng (b o) (s.brdx o) : ℚ) = ((r o + Gen.bsGen c.rng (b o) (s.brdx o) : ℤ) : ℚ)
      unfold fadd
      rw [← Int.cast_add]
      exact fl_small rfl (by rcases hbb with h | h <;> rw [h, abs_le] <;> omega)
  have bias_le : ∀ n1 : List (Fin O → ℤ), (∀ r ∈ n1, ∀ o, 0 ≤ r o ∧ r o ≤ I) →
      ∀ r ∈ (addBias c.rng c.bias s.brdx n1).1, ∀ o, 0 ≤ r o ∧ r o ≤ I + 1 := by
    intro n1 h1
    unfold addBias
    cases hb : c.bias with
    | none => intro r hr o; have := h1 r hr o; omega
    | some b =>
      intro r hr o
      obtain ⟨q, hq, rfl⟩ := List.mem_map.1 hr
      have := h1 q hq o
      rcases Gen.bsGen_isBit c.rng (b o) (s.brdx o) with h | h <;> simp only [h] <;> omega
  have add_eq : ∀ n1 n0 : List (Fin O → ℤ), (∀ r ∈ n1, ∀ o, 0 ≤ r o ∧ r o ≤ I + 1) → (∀ r ∈ n0, ∀ o, 0 ≤ r o ∧ r o ≤ I) →
      List.zipWith (fun (a b : Fin O → ℚ) (o : Fin O) => fadd (a o) (b o)) (n1.map fun r o => (r o : ℚ)) (n0.map fun r o => (r o : ℚ))
      = (List.zipWith addCounts n1 n0).map fun r o => (r o : ℚ) := by
    intro n1
    induction n1 with
    | nil => intros; rfl
    | cons a l ih =>
      intro n0 h1 h0
      cases n0 with
      | nil => rfl
      | cons b l' =>
        simp only [List.map_cons, List.zipWith_cons_cons]
        congr 1
        · funext o
          have e1 := h1 a List.mem_cons_self o
          have e2 := h0 b List.mem_cons_self o
          unfold fadd addCounts
          rw [← Int.cast_add]
          exact fl_small rfl (by rw [abs_le]; omega)
        · exact ih l' (fun r hr => h1 r (List.mem_cons_of_mem _ hr)) (fun r hr => h0 r (List.mem_cons_of_mem _ hr))
  unfold stepPC at hn
  unfold Counts
  by_cases h0 : x.length = 0
  · rw [if_pos h0] at hn; cases hn
  rw [if_neg h0] at hn
  obtain ⟨w', -, hn⟩ := except_bind_ok hn
  obtain ⟨n1, e1, hn⟩ := except_bind_ok hn
  obtain ⟨p1, r1⟩ := products_exact hIq _ _ hw1 hx (n := n1) (y := n1.map fun r o => (r o : ℚ)) e1
  have P1 := fun y => (products_exact hIq _ _ hw1 hx y n1 e1).1
  dsimp only at hn ⊢
  rw [cast1]
  simp only [P1, exists_eq_left, bias_eq n1 r1]
  cases hm : c.mode with
  | unipolar =>
    rw [hm] at hn
    have := Except.ok.inj hn
    rw [← (Prod.mk.inj this).2]
  | bipolar =>
    rw [hm] at hn
    dsimp only at hn ⊢
    by_cases hw : c.wtc = true
    · rw [if_pos hw] at hn ⊢
      obtain ⟨n0, e0, hn⟩ := except_bind_ok hn
      have r0 := (products_exact hIq _ _ hw1' hinv [] n0 e0).2
      have P0 := fun y => (products_exact hIq _ _ hw1' hinv y n0 e0).1
      rw [cast1', castx]
      simp only [P0, exists_eq_left]
      rw [add_eq _ _ (bias_le n1 r1) r0, ← (Prod.mk.inj (Except.ok.inj hn)).2]
    · rw [if_neg hw] at hn ⊢
      obtain ⟨w0, -, hn⟩ := except_bind_ok hn
      obtain ⟨n0, e0, hn⟩ := except_bind_ok hn
      have r0 := (products_exact hIq _ _ hw0 hinv [] n0 e0).2
      have P0 := fun y => (products_exact hIq _ _ hw0 hinv y n0 e0).1
      rw [cast0, castx]
      simp only [P0, exists_eq_left]
      rw [add_eq _ _ (bias_le n1 r1) r0, ← (Prod.mk.inj (Except.ok.inj hn)).2]

/-- The results of a linear layer in binary32 are determined, and those of accumulators fed with the counts. -/
private theorem linear_run {B I O : ℕ} (hB : 0 < B) (hI : 2 * I + 1 ≤ 2 ^ 24) (m : PC I O × Adder.Cfg) (u : Fin B → Fin I → ℕ → ℤ)
    (hu : ∀ b i, Verif.Spec.BitStream (u b i)) (out : ℕ → List (Fin O → ℤ)) :
    (FloatNet.linear m).Run (pcIn u) out ↔
      ∀ t, out t = List.ofFn fun b o => outAt (fun (s : Adder.St) (z : ℤ) => laneF m.2 s z) (Adder.init m.2) (fun t => pcVal m.1 u t b o) t := by
  set pc : Machine (List (Fin I → ℤ)) (List (Fin O → ℤ)) := ⟨PCSt I O, PCSt.init I O, stepPC m.1⟩ with hpc
  have hpcr : (RMachine.ofMachine pc).Run (pcIn u) (fun t => List.ofFn fun b o => pcVal m.1 u t b o) :=
    (run_ofMachine _ _ _).2 fun t => pc_run hB m.1 u t
  have hbits : ∀ t, ∀ r ∈ pcIn u t, ∀ i, IsBit (r i) := by
    intro t r hr i
    obtain ⟨b, rfl⟩ := List.mem_ofFn.1 hr
    exact hu b i t
  set v : Fin B → Fin O → ℕ → ℤ := fun b o t => pcVal m.1 u t b o with hv
  have hlr := fun out => (run_ofMachine ⟨_, [fun _ : Fin O => Adder.init m.2], Net.lanes fun (s : Adder.St) (z : ℤ) => laneF m.2 s z⟩ (pcIn v) out)
  have hlo := lanes_out (fun (s : Adder.St) (z : ℤ) => laneF m.2 s z) (Adder.init m.2) v
  constructor
  · rintro ⟨st, h0, h⟩
    choose y r h using h
    choose n hn using fun t => (h t).1
    have hn' : ∀ t, n t = pcIn v t := by
      have : (RMachine.ofMachine pc).Run (pcIn u) n := ⟨fun t => (st t).1, congrArg (fun q : PCSt I O × List (Fin O → Adder.St) => q.1) h0, hn⟩
      intro t
      exact Except.ok.inj (((run_ofMachine _ _ _).1 this t).symm.trans (pc_run hB m.1 u t))
    have hrun : (RMachine.ofMachine ⟨_, [fun _ : Fin O => Adder.init m.2], Net.lanes fun (s : Adder.St) (z : ℤ) => laneF m.2 s z⟩).Run (pcIn v) out := by
      refine ⟨fun t => (st t).2, congrArg (fun q : PCSt I O × List (Fin O → Adder.St) => q.2) h0, fun t => ?_⟩
      obtain ⟨-, h2, h3, h4, h5⟩ := h t
      have hy := (counts_exact hI m.1 _ _ _ (hbits t) _ (hn t) (y t)).1 h2
      rw [hy, zipLanes_map, hn' t] at h3
      show Net.lanes (fun (s : Adder.St) (z : ℤ) => laneF m.2 s z) (st t).2 (pcIn v t) = _
      unfold Net.lanes
      rw [h3]
      exact congrArg Except.ok (Prod.ext h4.symm h5.symm)
    intro t
    exact Except.ok.inj (((hlr out).1 hrun t).symm.trans (hlo t))
  · intro h
    obtain rfl : out = fun t => List.ofFn fun b o => outAt (fun (s : Adder.St) (z : ℤ) => laneF m.2 s z) (Adder.init m.2) (v b o) t := funext h
    obtain ⟨s1, a0, a1⟩ := hpcr
    obtain ⟨s2, b0, b1⟩ := (hlr _).2 hlo
    refine ⟨fun t => (s1 t, s2 t), Prod.ext a0 b0, fun t => ?_⟩
    have hz : Net.lanes (fun (s : Adder.St) (z : ℤ) => laneF m.2 s z) (s2 t) (pcIn v t) = .ok (s2 (t + 1), _) := b1 t
    unfold Net.lanes at hz
    obtain ⟨r, e1, e2⟩ := except_bind_ok hz
    have e3 := Prod.mk.inj (Except.ok.inj e2)
    refine ⟨(pcIn v t).map fun r o => (r o : ℚ), r, ⟨_, a1 t⟩, (counts_exact hI m.1 _ _ _ (hbits t) _ (a1 t) _).2 rfl, ?_, e3.1.symm, e3.2.symm⟩
    rw [zipLanes_map]
    exact e1

namespace Spec

/-- The counts and accumulators of a layer with `fan` addends and scale `S` fit into binary32: both are multiples of a power of
two, and the sum of all the sizes is at most `2^24` of its halves. -/
def Fits (fan : ℕ) (S : ℚ) (depth : ℤ) : Prop := ∃ g : ℤ, -149 ≤ g ∧ g ≤ 0 ∧ g ≤ depth - 2 ∧ (∃ k : ℤ, (fan : ℚ) = k * (2:ℚ) ^ (g + 1)) ∧
  (∃ k : ℤ, S = k * (2:ℚ) ^ (g + 1)) ∧ 2 * (fan : ℚ) + |S| + (2:ℚ) ^ (depth - 2) ≤ 2 ^ 24 * (2:ℚ) ^ g

end Spec

theorem fits_small {fan : ℕ} {S : ℚ} {depth : ℤ} (h : Spec.Fits fan S depth) : 2 * fan + 1 ≤ 2 ^ 24 := by
  obtain ⟨g, -, g0, -, -, -, h⟩ := h
  have h1 : (2:ℚ) ^ g ≤ 1 := zpow_le_one_of_nonpos₀ (by norm_num) g0
  have h2 : (0:ℚ) < (2:ℚ) ^ (depth - 2) := by positivity
  have h3 : 2 * (fan:ℚ) < 2 ^ 24 := by
    have := abs_nonneg S
    have : (2:ℚ) ^ 24 * (2:ℚ) ^ g ≤ 2 ^ 24 * 1 := mul_le_mul_of_nonneg_left h1 (by norm_num)
    linarith
  have h4 : ((2 * fan : ℕ) : ℚ) < ((2 ^ 24 : ℕ) : ℚ) := by rw [Nat.cast_pow]; push_cast; exact h3
  have := Nat.cast_lt.1 h4
  omega

/-- A linear layer in binary32 gives what it gives in exact arithmetic. -/
theorem agree_linear {B I O : ℕ} (hB : 0 < B) (m : PC I O × Adder.Cfg) (fan : ℕ) (S : ℚ) (hN : Spec.addends I m.1.bias = fan)
    (hS : m.2.scale = some S) (hE : m.2.entry = some (fan:ℚ)) (hfit : Spec.Fits fan S m.2.depth) :
    Spec.Agree (FloatNet.linear m) (Net.linear m) (Spec.BitRows B I) (Spec.BitRows B O) := by
  have hsm := fits_small hfit
  have hI : 2 * I + 1 ≤ 2 ^ 24 := by
    have : I ≤ fan := by rw [← hN]; unfold Spec.addends; omega
    omega
  have key : ∀ u : Fin B → Fin I → ℕ → ℤ, (∀ b i, Verif.Spec.BitStream (u b i)) → ∀ b o t,
      outAt (fun (s : Adder.St) (z : ℤ) => laneF m.2 s z) (Adder.init m.2) (fun t => pcVal m.1 u t b o) t = addOut m.2 (laneArg m.1 u b o) t := by
    intro u hu b o t
    obtain ⟨g, g1, g2, g3, he, hs, hsize⟩ := hfit
    have e1 : Verif.Props.Spec.addEntry m.2 (laneArg m.1 u b o) = fan := by simp [Spec.addEntry, laneArg, hE]
    have e2 : Verif.Props.Spec.addScale m.2 (laneArg m.1 u b o) = S := by simp [Spec.addScale, laneArg, hS]
    refine C69_add m.2 (laneArg m.1 u b o) (outAt (fun (s : Adder.St) (z : ℤ) => laneF m.2 s z) (Adder.init m.2) (fun t => pcVal m.1 u t b o)) ?_ g g1 g2 g3
      (by rw [e1]; exact he) (by rw [e2]; exact hs) ?_ fan ?_ ?_ t
    · refine ⟨fun t => stateAt (fun (s : Adder.St) (z : ℤ) => laneF m.2 s z) (Adder.init m.2) (fun t => pcVal m.1 u t b o) t, rfl, fun t => ⟨_, FSum.one _, rfl⟩⟩
    · intro t x hx
      rw [List.mem_singleton.1 hx]
      exact ⟨_, rfl⟩
    · intro t
      have hr : 0 ≤ pcVal m.1 u t b o ∧ pcVal m.1 u t b o ≤ Spec.addends I m.1.bias := by
        obtain ⟨y, h1, -, h2⟩ := C44_range hB m.1 u hu t
        rw [pc_run hB m.1 u t] at h1
        rw [← Except.ok.inj h1] at h2
        exact h2 _ (List.mem_ofFn.2 ⟨b, rfl⟩) o
      rw [hN] at hr
      show |(pcVal m.1 u t b o : ℚ)| + 0 ≤ fan
      rw [add_zero, abs_of_nonneg (by exact_mod_cast hr.1)]
      exact_mod_cast hr.2
    · rw [e1, e2, abs_of_nonneg (a := (fan:ℚ)) (Nat.cast_nonneg _)]
      linarith
  constructor
  · rintro x ⟨u, hu, rfl⟩
    exact ⟨_, (linear_run hB hI m u hu _).2 fun t => rfl⟩
  · rintro x ⟨u, hu, rfl⟩ out ho
    have h := (linear_run hB hI m u hu out).1 ho
    have h' : ∀ t, out t = List.ofFn fun b o => addOut m.2 (laneArg m.1 u b o) t := by
      intro t
      rw [h t]
      congr 1
      funext b o
      exact key u hu b o t
    refine ⟨fun t => ?_, fun b o t => addOut m.2 (laneArg m.1 u b o) t, fun b o t => ?_, funext h'⟩
    · rw [linear_out, lin_run hB, h' t]
    · exact isBit_ind _

/-! ## Activations -/

private theorem clamp_int (a b c : ℤ) : clamp (a:ℚ) b c = ((clamp a b c : ℤ) : ℚ) := by
  unfold clamp; push_cast; rfl

private theorem relu_agree (d : ℕ) (h1 : 1 ≤ d) (hd : d ≤ 24) (x : ℕ → ℤ) (hx : Verif.Spec.BitStream x) (t : ℕ) :
    outAt (FloatNet.reluStep d) (fl ((2:ℚ) ^ ((d:ℤ) - 1))) x t = outAt (Small.reluStep d) (Small.accHalf d) x t := by
  obtain ⟨k, rfl⟩ := Nat.exists_eq_add_of_le h1
  have hp : (0:ℤ) < 2 ^ k := by positivity
  have hp2 : (2:ℤ) ^ k ≤ 2 ^ 23 := pow_le_pow_right₀ (by norm_num) (by omega)
  have hH : (2:ℚ) ^ (((1 + k : ℕ) : ℤ) - 1) = ((2 ^ k : ℤ) : ℚ) := by
    rw [show ((1 + k : ℕ) : ℤ) - 1 = (k : ℤ) by push_cast; ring, zpow_natCast]; push_cast; rfl
  have hM : (2:ℚ) ^ ((1 + k : ℕ) : ℤ) - 1 = ((2 * 2 ^ k - 1 : ℤ) : ℚ) := by
    rw [zpow_natCast, pow_add]; push_cast; ring
  have fH : fl ((2:ℚ) ^ (((1 + k : ℕ) : ℤ) - 1)) = (2:ℚ) ^ (((1 + k : ℕ) : ℤ) - 1) := by
    rw [hH]; exact fl_small rfl (by rw [abs_le]; omega)
  have fM : fl ((2:ℚ) ^ ((1 + k : ℕ) : ℤ) - 1) = (2:ℚ) ^ ((1 + k : ℕ) : ℤ) - 1 := by
    rw [hM]; exact fl_small rfl (by rw [abs_le]; omega)
  generalize hU : (2:ℤ) ^ k = U at *
  have step : ∀ (c b : ℤ), 0 ≤ c → c ≤ 2 * U - 1 → IsBit b →
      FloatNet.reluStep (1 + k : ℕ) c b = Small.reluStep (1 + k : ℕ) c b ∧
      ∃ c' : ℤ, (Small.reluStep (1 + k : ℕ) c b).1 = c' ∧ 0 ≤ c' ∧ c' ≤ 2 * U - 1 := by
    intro c b c0 c1 hb
    have hf : IsBit (ind ((c:ℚ) ≥ Small.accHalf (1 + k : ℕ))) := isBit_ind _
    have ho : IsBit (Int.lor b (1 - ind ((c:ℚ) ≥ Small.accHalf (1 + k : ℕ)))) := by
      rcases hb with h | h <;> rcases hf with h' | h' <;> rw [h, h'] <;> simp [IsBit] <;> decide
    have e1 : fadd (c:ℚ) ((Int.lor b (1 - ind ((c:ℚ) ≥ Small.accHalf (1 + k : ℕ))) * 2 - 1 : ℤ) : ℚ)
        = (c:ℚ) + ((Int.lor b (1 - ind ((c:ℚ) ≥ Small.accHalf (1 + k : ℕ))) : ℤ) * 2 - 1) := by
      unfold fadd
      rw [fl_small (n := c + (Int.lor b (1 - ind ((c:ℚ) ≥ Small.accHalf (1 + k : ℕ))) * 2 - 1)) (by push_cast; ring)
        (by rcases ho with h | h <;> rw [h, abs_le] <;> omega)]
      push_cast; ring
    refine ⟨?_, clamp 0 (2 * U - 1) (c + (Int.lor b (1 - ind ((c:ℚ) ≥ Small.accHalf (1 + k : ℕ))) * 2 - 1)), ?_, le_clamp (by omega), clamp_le _ _ _⟩
    · unfold FloatNet.reluStep Small.reluStep
      dsimp only
      rw [fM, fH]
      show (clamp 0 _ (fadd (c:ℚ) ((Int.lor b (1 - ind ((c:ℚ) ≥ Small.accHalf (1 + k : ℕ))) * 2 - 1 : ℤ) : ℚ)), _) = _
      rw [e1]
      rfl
    · unfold Small.reluStep Small.accMax
      dsimp only
      rw [hM, ← clamp_int]; push_cast; rfl
  have st : ∀ n, stateAt (FloatNet.reluStep (1 + k : ℕ)) (fl ((2:ℚ) ^ (((1 + k : ℕ) : ℤ) - 1))) x n
        = stateAt (Small.reluStep (1 + k : ℕ)) (Small.accHalf (1 + k : ℕ)) x n ∧
      ∃ c : ℤ, stateAt (Small.reluStep (1 + k : ℕ)) (Small.accHalf (1 + k : ℕ)) x n = c ∧ 0 ≤ c ∧ c ≤ 2 * U - 1 := by
    intro n
    induction n with
    | zero => exact ⟨fH, U, hH, by omega, by omega⟩
    | succ n ih =>
        obtain ⟨e, c, hc, c0, c1⟩ := ih
        rw [stateAt_succ, stateAt_succ, e, hc, (step c (x n) c0 c1 (hx n)).1]
        exact ⟨rfl, (step c (x n) c0 c1 (hx n)).2⟩
  obtain ⟨e, c, hc, c0, c1⟩ := st t
  unfold outAt
  rw [e, hc, (step c (x t) c0 c1 (hx t)).1]

private theorem hardsigmoid_agree (mode : String) (depth : ℤ) (h1 : 1 ≤ depth) (h2 : depth ≤ 24) (c : Adder.Cfg)
    (hc : Adder.hardsigmoidMk mode depth = .ok c) (x : ℕ → ℤ) (hx : Verif.Spec.BitStream x) (t : ℕ) :
    outAt (FloatNet.hardsigmoidStep c) (Adder.init c) x t = outAt (Adder.hardsigmoidStep c) (Adder.init c) x t := by
  have hcfg : c.scale = some 2 ∧ c.entry = none ∧ c.depth = depth := by
    unfold Adder.hardsigmoidMk Adder.mk at hc
    cases hm : parseMode mode with
    | error e => rw [hm] at hc; cases hc
    | ok mo => rw [hm] at hc; cases hc; exact ⟨rfl, rfl, rfl⟩
  obtain ⟨hs, hen, hdep⟩ := hcfg
  set a : ℕ → Adder.Arg := fun t => { xs := [(x t : ℚ), 1] } with ha
  have e0 : ∀ t, outAt (Adder.hardsigmoidStep c) (Adder.init c) x t = addOut c a t := by
    have : ∀ t, stateAt (Adder.hardsigmoidStep c) (Adder.init c) x t = stateAt (Adder.step c) (Adder.init c) a t := by
      intro t
      induction t with
      | zero => rfl
      | succ t ih => rw [stateAt_succ, stateAt_succ, ih]; rfl
    intro t
    unfold addOut outAt
    rw [this]; rfl
  have e1 : Verif.Props.Spec.addEntry c a = 2 := by simp [Spec.addEntry, ha, hen]
  have e2 : Verif.Props.Spec.addScale c a = 2 := by simp [Spec.addScale, ha, hs]
  rw [e0]
  refine C69_add c a (outAt (FloatNet.hardsigmoidStep c) (Adder.init c) x) ?_ (-1) (by norm_num) (by norm_num) (by rw [hdep]; omega)
      ⟨2, by rw [e1]; norm_num⟩ ⟨2, by rw [e2]; norm_num⟩ ?_ 2 ?_ ?_ t
  · refine ⟨fun t => stateAt (FloatNet.hardsigmoidStep c) (Adder.init c) x t, rfl, fun t => ⟨fadd (x t) 1, FSum.add (FSum.one _) (FSum.one _), rfl⟩⟩
  · intro t y hy
    simp only [ha, List.mem_cons, List.not_mem_nil, or_false] at hy
    rcases hy with rfl | rfl
    · exact ⟨_, rfl⟩
    · exact ⟨1, by norm_num⟩
  · intro t
    simp only [ha, List.map_cons, List.map_nil, List.sum_cons, List.sum_nil]
    rcases hx t with h | h <;> rw [h] <;> norm_num
  · rw [e1, e2, hdep]
    have : (2:ℚ) ^ (depth - 2) ≤ (2:ℚ) ^ (22:ℤ) := zpow_le_zpow_right₀ (by norm_num) (by omega)
    norm_num at this ⊢
    linarith

/-! ## Networks -/

namespace Spec

/-- The number that is stored for `a`: the integer `BinGen` computes in binary32, read as a stream value. -/
def storedF (mode : String) (w : ℕ) (a : ℚ) : ℚ := match parseMode mode with
  | .ok .bipolar => 2 * ((Float.binGen .bipolar w a : ℚ) / 2 ^ w) - 1
  | _ => (Float.binGen .unipolar w a : ℚ) / 2 ^ w

/-- The chain with the stored numbers as weights and biases. -/
def snap : {I O : ℕ} → Layers I O → Layers I O
  | _, _, .done => .done
  | _, _, .linear mode w name depth scale we bias be rest => .linear mode w name depth scale (fun o i => storedF mode w (we o i)) bias
      (be.map fun v o => storedF mode w (v o)) (snap rest)
  | _, _, .relu d rest => .relu d (snap rest)
  | _, _, .hardtanh rest => .hardtanh (snap rest)
  | _, _, .hardsigmoid mode depth rest => .hardsigmoid mode depth (snap rest)

/-- The numbers a generator compares with fit into binary32. -/
def SeqFits (env : Gen.Env) (w : ℕ) (name : String) : Prop := ∀ l, Gen.rng env w name = .ok l → ∀ n ∈ l, |n| ≤ 2 ^ 24

/-- All number sequences, counts and accumulators of a chain fit into binary32. -/
def NetFits (env : Gen.Env) : {I O : ℕ} → Layers I O → Prop
  | _, _, .done => True
  | I, _, .linear _ w name depth scale _ bias _ rest => SeqFits env w name ∧ Fits (fanIn I bias) (scale.getD (fanIn I bias)) depth ∧ NetFits env rest
  | _, _, .relu d rest => 1 ≤ d ∧ d ≤ 24 ∧ NetFits env rest
  | _, _, .hardtanh rest => NetFits env rest
  | _, _, .hardsigmoid _ depth rest => 1 ≤ depth ∧ depth ≤ 24 ∧ NetFits env rest

/-- Binary32 and exact arithmetic convert all weights and biases of a chain to the same integers. -/
def NetConverts : {I O : ℕ} → Layers I O → Prop
  | _, _, .done => True
  | _, _, .linear mode w _ _ _ we _ be rest => (∀ m, parseMode mode = .ok m → (∀ o i, Float.binGen m w (we o i) = Gen.binGenM m w (we o i)) ∧
      ∀ v, be = some v → ∀ o, Float.binGen m w (v o) = Gen.binGenM m w (v o)) ∧ NetConverts rest
  | _, _, .relu _ rest => NetConverts rest
  | _, _, .hardtanh rest => NetConverts rest
  | _, _, .hardsigmoid _ _ rest => NetConverts rest

end Spec

theorem binGenM_stored {mode : String} {m : Mode} (hm : parseMode mode = .ok m) (w : ℕ) (a : ℚ) :
    Gen.binGenM m w (Spec.storedF mode w a) = Float.binGen m w a := by
  have hP : (0:ℚ) < 2 ^ w := by positivity
  have e : ∀ k : ℤ, roundHE (k : ℚ) = k := fun k => by simp [roundHE]
  cases m with
  | unipolar =>
    have : Spec.storedF mode w a = (Float.binGen .unipolar w a : ℚ) / 2 ^ w := by unfold Spec.storedF; rw [hm]
    rw [this]
    show roundHE ((Float.binGen .unipolar w a : ℚ) / 2 ^ w * 2 ^ w) = _
    rw [div_mul_cancel₀ _ hP.ne', e]
  | bipolar =>
    have : Spec.storedF mode w a = 2 * ((Float.binGen .bipolar w a : ℚ) / 2 ^ w) - 1 := by unfold Spec.storedF; rw [hm]
    rw [this]
    show roundHE ((2 * ((Float.binGen .bipolar w a : ℚ) / 2 ^ w) - 1 + 1) / 2 * 2 ^ w) = _
    rw [show (2 * ((Float.binGen .bipolar w a : ℚ) / 2 ^ w) - 1 + 1) / 2 * 2 ^ w = (Float.binGen .bipolar w a : ℚ) by field_simp; ring, e]

/-- Success of a constructor does not depend on the values of weights and biases. -/
private theorem mkLinear_map {I O : ℕ} (env : Gen.Env) (mode : String) (w : ℕ) (name : String) (depth : ℤ) (scale : Option ℚ)
    (we we' : Fin O → Fin I → ℚ) (bias : Bool) (be be' : Option (Fin O → ℚ)) (hbe : be.isSome = be'.isSome) (m : PC I O × Adder.Cfg)
    (hm : Linear.mkLinear env mode w name depth scale we bias be = .ok m) :
    Linear.mkLinear env mode w name depth scale we' bias be' = .ok ({ m.1 with
      weight := fun o i => Gen.binGenM m.1.mode w (we' o i)
      bias := if bias then be'.map fun (b : Fin O → ℚ) (o : Fin O) => Gen.binGenM m.1.mode w (b o) else none }, m.2) := by
  unfold Linear.mkLinear at hm ⊢
  dsimp only at hm ⊢
  by_cases h0 : mode.toLower = "bipolar" ∧ (scale.isSome = true ∧ scale ≠ some ((I:ℚ) + if bias = true then 1 else 0)) ∧ isTemporal name = true
  · rw [if_pos h0] at hm; cases hm
  rw [if_neg h0] at hm ⊢
  obtain ⟨c, e1, hm⟩ := except_bind_ok hm
  obtain ⟨cfg, e2, hm⟩ := except_bind_ok hm
  obtain rfl := Except.ok.inj hm
  have : Linear.mkPC env mode w name we' bias be' = .ok { c with
      weight := fun o i => Gen.binGenM c.mode w (we' o i)
      bias := if bias then be'.map fun (b : Fin O → ℚ) (o : Fin O) => Gen.binGenM c.mode w (b o) else none } := by
    unfold Linear.mkPC at e1 ⊢
    obtain ⟨mo, p1, e1⟩ := except_bind_ok e1
    obtain ⟨r, p2, e1⟩ := except_bind_ok e1
    obtain ⟨r1, p3, e1⟩ := except_bind_ok e1
    rw [p1, p2]
    show (Gen.bsGenInit r >>= _) = _
    rw [p3]
    cases bias with
    | false => cases e1; rfl
    | true =>
      cases be with
      | none => cases e1
      | some v =>
        cases be' with
        | none => cases hbe
        | some v' => cases e1; rfl
  rw [this]
  show (Adder.mk mode _ _ depth >>= _) = _
  rw [e2]
  rfl

theorem seq_exact {l : List ℤ} (h : ∀ n ∈ l, |n| ≤ 2 ^ 24) : FloatNet.seq l = l := by
  unfold FloatNet.seq
  conv_rhs => rw [← List.map_id l]
  refine List.map_congr_left fun n hn => ?_
  rw [fl_small (n := n) rfl (h n hn)]
  exact Int.floor_intCast n

theorem perm_fits {w : ℕ} (hw : w ≤ 24) {l : List ℤ} (h : Verif.Spec.IsPermSeq w l) : ∀ n ∈ l, |n| ≤ 2 ^ 24 := by
  intro n hn
  have h1 : (2:ℤ) ^ w ≤ 2 ^ 24 := pow_le_pow_right₀ (by norm_num) hw
  have hm := (Gen.IsPermSeq.perm h).mem_iff.1 hn
  simp only [List.mem_map, List.mem_range] at hm
  obtain ⟨k, hk, rfl⟩ := hm
  have : (k:ℤ) < 2 ^ w := by exact_mod_cast hk
  rw [abs_of_nonneg (by omega)]
  omega

/-- C97: the sequences of all generators but the shift register fit up to a width of 24. -/
theorem C97_sequences (env : Gen.Env) (w : ℕ) (hw : w ≤ 24) (name : String)
    (h : (name.toLower ∈ ["sobol", "rc"] ∧ Gen.DirOK env.sobolM ∧ w ≤ env.maxbit) ∨ name.toLower ∈ ["race", "tc", "race10", "tc10"] ∨
      (name.toLower = "sys" ∧ env.randperm.Perm (List.range (2 ^ w)))) : Spec.SeqFits env w name := by
  have : ∃ l, Gen.rng env w name = .ok l ∧ Verif.Spec.IsPermSeq w l := by
    rcases h with ⟨h1, h2, h3⟩ | h | ⟨h1, h2⟩
    · exact C02_sobol_perm env w name h1 h2 h3
    · exact C02_temporal_perm env w name h
    · exact C02_sys_perm env w name h1 h2
  obtain ⟨l, h1, h2⟩ := this
  intro l' h'
  rw [h1] at h'
  obtain rfl := Except.ok.inj h'
  exact perm_fits hw h2

theorem mkLinear_float {I O : ℕ} {env : Gen.Env} {mode : String} {w : ℕ} {name : String} {depth : ℤ} {scale : Option ℚ}
    {we : Fin O → Fin I → ℚ} {bias : Bool} {be : Option (Fin O → ℚ)} {m : PC I O × Adder.Cfg}
    (hm : FloatNet.mkLinear env mode w name depth scale we bias be = .ok m) (hs : Spec.SeqFits env w name) :
    Linear.mkLinear env mode w name depth scale (fun o i => Spec.storedF mode w (we o i)) bias (be.map fun v o => Spec.storedF mode w (v o)) = .ok m := by
  unfold FloatNet.mkLinear at hm
  cases h : Linear.mkLinear env mode w name depth scale we bias be with
  | error e => rw [h] at hm; cases hm
  | ok n =>
    rw [h] at hm
    obtain rfl := Except.ok.inj hm
    obtain ⟨mo, l, p1, p2, p3, p4, -⟩ := mkPC_ok (mkLinear_ok h).1
    rw [mkLinear_map env mode w name depth scale we _ bias be _ (by simp) n h]
    rw [← p3] at p1
    congr 2
    dsimp only
    rw [seq_exact (p4 ▸ hs l p2)]
    congr 1
    · funext o i
      exact binGenM_stored p1 w _
    · rw [Option.map_map]
      split_ifs
      · congr 1
        funext v o
        exact binGenM_stored p1 w _
      · rfl

/-- C97: a chain of stream layers executed in binary32, whose counts and accumulators fit, gives bit for bit what exact arithmetic gives with the
weights as they are stored.  No call fails, whatever the length of the streams, and however `torch.matmul` and `torch.sum` order their additions. -/
theorem C97_network {B : ℕ} (hB : 0 < B) (env : Gen.Env) {I O : ℕ} (net : Layers I O) :
    ∀ M, FloatNet.build env net = .ok M → Spec.NetFits env net →
    ∃ M', Net.build env (Spec.snap net) = .ok M' ∧ Spec.Agree M M' (Spec.BitRows B I) (Spec.BitRows B O) := by
  induction net with
  | done =>
      intro M hM _
      cases hM
      exact ⟨_, rfl, agree_id _⟩
  | @linear I J O mode w name depth scale we bias be rest ih =>
      intro M hM hfit
      simp only [FloatNet.build] at hM
      cases hm : FloatNet.mkLinear env mode w name depth scale we bias be with
      | error e => rw [hm] at hM; cases hM
      | ok m =>
        cases hR : FloatNet.build env rest with
        | error e => rw [hm, hR] at hM; cases hM
        | ok R =>
          rw [hm, hR] at hM; cases hM
          obtain ⟨R', h1, h2⟩ := ih R hR hfit.2.2
          have hm' := mkLinear_float hm hfit.1
          obtain ⟨-, -, q2, q3, q4, q5⟩ := mkLinear_ok hm'
          refine ⟨(Net.linear m).comp R', ?_, agree_comp (agree_linear hB m (Spec.fanIn I bias) _ q5 q3 q4 (by rw [q2]; exact hfit.2.1)) h2⟩
          simp only [Spec.snap, Net.build]
          rw [hm', h1]
  | @relu I O d rest ih =>
      intro M hM hfit
      simp only [FloatNet.build] at hM
      cases hR : FloatNet.build env rest with
      | error e => rw [hR] at hM; cases hM
      | ok R =>
        rw [hR] at hM; cases hM
        obtain ⟨R', h1, h2⟩ := ih R hR hfit.2.2
        refine ⟨(Net.relu I d).comp R', by simp only [Spec.snap, Net.build]; rw [h1], agree_comp ?_ h2⟩
        exact agree_lanes _ _ _ _ (fun x hx t => relu_agree d hfit.1 hfit.2.1 x hx t) (fun x hx t => (C31_dominates d _ hx t).1)
  | @hardtanh I O rest ih =>
      intro M hM hfit
      simp only [FloatNet.build] at hM
      cases hR : FloatNet.build env rest with
      | error e => rw [hR] at hM; cases hM
      | ok R =>
        rw [hR] at hM; cases hM
        obtain ⟨R', h1, h2⟩ := ih R hR hfit
        exact ⟨(Machine.id _).comp R', by simp only [Spec.snap, Net.build]; rw [h1], agree_comp (agree_id _) h2⟩
  | @hardsigmoid I O mode depth rest ih =>
      intro M hM hfit
      simp only [FloatNet.build] at hM
      cases hc : Adder.hardsigmoidMk mode depth with
      | error e => rw [hc] at hM; cases hM
      | ok c =>
        cases hR : FloatNet.build env rest with
        | error e => rw [hc, hR] at hM; cases hM
        | ok R =>
          rw [hc, hR] at hM; cases hM
          obtain ⟨R', h1, h2⟩ := ih R hR hfit.2.2
          refine ⟨(Net.hardsigmoid I c).comp R', by simp only [Spec.snap, Net.build]; rw [hc, h1], agree_comp ?_ h2⟩
          exact agree_lanes _ _ _ _ (fun x hx t => hardsigmoid_agree mode depth hfit.1 hfit.2.1 c hc x hx t) (fun x hx t => isBit_ind _)

private theorem mkLinear_same {I O : ℕ} {env : Gen.Env} {mode : String} {w : ℕ} {name : String} {depth : ℤ} {scale : Option ℚ}
    {we : Fin O → Fin I → ℚ} {bias : Bool} {be : Option (Fin O → ℚ)}
    (h : ∀ m, parseMode mode = .ok m → (∀ o i, Float.binGen m w (we o i) = Gen.binGenM m w (we o i)) ∧
      ∀ v, be = some v → ∀ o, Float.binGen m w (v o) = Gen.binGenM m w (v o)) (m : PC I O × Adder.Cfg) :
    Linear.mkLinear env mode w name depth scale (fun o i => Spec.storedF mode w (we o i)) bias (be.map fun v o => Spec.storedF mode w (v o)) = .ok m ↔
    Linear.mkLinear env mode w name depth scale we bias be = .ok m := by
  have key : ∀ m, Linear.mkLinear env mode w name depth scale we bias be = .ok m →
      Linear.mkLinear env mode w name depth scale (fun o i => Spec.storedF mode w (we o i)) bias (be.map fun v o => Spec.storedF mode w (v o)) = .ok m := by
    intro m hm
    obtain ⟨mo, l, p1, -, p3, -⟩ := mkPC_ok (mkLinear_ok hm).1
    rw [mkLinear_map env mode w name depth scale we _ bias be _ (by simp) m hm, ← hm,
      mkLinear_map env mode w name depth scale we we bias be be rfl m hm]
    rw [← p3] at p1
    obtain ⟨q1, q2⟩ := h _ p1
    congr 2
    dsimp only
    congr 1
    · funext o i
      rw [binGenM_stored p1 w _, q1]
    · split_ifs
      · cases be with
        | none => rfl
        | some v =>
          simp only [Option.map_some]
          congr 1
          funext o
          rw [binGenM_stored p1 w _, q2 v rfl]
      · rfl
  refine ⟨fun hm => ?_, key m⟩
  have h1 := mkLinear_map env mode w name depth scale _ we bias _ be (by simp) m hm
  rw [key _ h1] at hm
  rw [h1]
  exact hm

/-- C97: if all numbers convert alike, the chain with the stored weights is the chain with the given weights. -/
theorem C97_same (env : Gen.Env) {I O : ℕ} (net : Layers I O) (h : Spec.NetConverts net) :
    ∀ M, Net.build env (Spec.snap net) = .ok M ↔ Net.build env net = .ok M := by
  have two : ∀ {α : Type 1} (a b : Except PyErr α), (∀ m, a = .ok m ↔ b = .ok m) → (∃ e e', a = .error e ∧ b = .error e') ∨ a = b := by
    intro α a b hab
    cases a with
    | error e => cases b with
      | error e' => exact Or.inl ⟨e, e', rfl, rfl⟩
      | ok m => exact absurd ((hab m).2 rfl) (by simp)
    | ok m => exact Or.inr ((hab m).1 rfl).symm
  induction net with
  | done => intro M; rfl
  | @linear I J O mode w name depth scale we bias be rest ih =>
      intro M
      simp only [Spec.snap, Net.build]
      have e := mkLinear_same (env := env) (name := name) (depth := depth) (scale := scale) (bias := bias) h.1
      cases hm : Linear.mkLinear env mode w name depth scale we bias be with
      | error e' =>
        cases hm' : Linear.mkLinear env mode w name depth scale (fun o i => Spec.storedF mode w (we o i)) bias
            (be.map fun v o => Spec.storedF mode w (v o)) with
        | error e'' => simp
        | ok m => rw [(e m).1 hm'] at hm; cases hm
      | ok m =>
        rw [(e m).2 hm]
        rcases two _ _ (ih h.2) with ⟨e1, e2, h1, h2⟩ | h1
        · simp [h1, h2]
        · rw [h1]
  | relu d rest ih => intro M; simp only [Spec.snap, Net.build]; rcases two _ _ (ih h) with ⟨e1, e2, h1, h2⟩ | h1; · { simp [h1, h2] }; · rw [h1]
  | hardtanh rest ih => intro M; simp only [Spec.snap, Net.build]; rcases two _ _ (ih h) with ⟨e1, e2, h1, h2⟩ | h1; · { simp [h1, h2] }; · rw [h1]
  | hardsigmoid mode depth rest ih =>
      intro M
      simp only [Spec.snap, Net.build]
      cases Adder.hardsigmoidMk mode depth with
      | error e => rfl
      | ok c =>
        rcases two _ _ (ih h) with ⟨e1, e2, h1, h2⟩ | h1
        · simp [h1, h2]
        · rw [h1]

/-! ## Values -/

namespace Spec

/-- All weights and biases are binary32 numbers. -/
def NetF32 : {I O : ℕ} → Layers I O → Prop
  | _, _, .done => True
  | _, _, .linear _ _ _ _ _ we _ be rest => (∀ o i, Verif.Spec.IsF32 (we o i)) ∧ (∀ v, be = some v → ∀ o, Verif.Spec.IsF32 (v o)) ∧ NetF32 rest
  | _, _, .relu _ rest => NetF32 rest
  | _, _, .hardtanh rest => NetF32 rest
  | _, _, .hardsigmoid _ _ rest => NetF32 rest

/-- Error of the numbers a chain computes with stored weights that are off by `δ w`, for inputs that are off by `e`. -/
def netErrBy (δ : ℕ → ℚ) : {I O : ℕ} → Layers I O → ℚ → ℚ
  | _, _, .done, e => e
  | I, _, .linear _ w _ _ scale _ bias _ rest, e => netErrBy δ rest ((I * (e + δ w) + if bias then δ w else 0) / scale.getD (fanIn I bias))
  | _, _, .relu _ rest, e => netErrBy δ rest e
  | _, _, .hardtanh rest, e => netErrBy δ rest e
  | _, _, .hardsigmoid _ _ rest, e => netErrBy δ rest (e / 2)

/-- Error of a number stored in `w` bits by a conversion in binary32. -/
def convErr (w : ℕ) : ℚ := 1 / 2 ^ w + 1 / 2 ^ 24

end Spec

/-- The value a bipolar layer stores. -/
def storedB (w : ℕ) (a : ℚ) : ℚ := 2 * ((Float.binGen .bipolar w a : ℚ) / 2 ^ w) - 1

theorem storedB_near (w : ℕ) (a : ℚ) (ha : Verif.Spec.IsF32 a) (h : -1 ≤ a ∧ a ≤ 1) :
    |storedB w a - a| ≤ Spec.convErr w ∧ -1 ≤ storedB w a ∧ storedB w a ≤ 1 := by
  obtain ⟨h1, h2, h3, -⟩ := C70_bipolar w a ha h.1 h.2
  have hP : (0:ℚ) < 2 ^ w := by positivity
  unfold storedB
  refine ⟨?_, ?_, ?_⟩
  · have e : 2 * ((Float.binGen .bipolar w a : ℚ) / 2 ^ w) - 1 - a = ((Float.binGen .bipolar w a : ℚ) - (a + 1) / 2 * 2 ^ w) * (2 / 2 ^ w) := by
      field_simp; ring
    rw [e, abs_mul, abs_of_pos (a := (2:ℚ) / 2 ^ w) (by positivity)]
    refine le_trans (mul_le_mul_of_nonneg_right h1 (by positivity)) (le_of_eq ?_)
    unfold Spec.convErr
    rw [zpow_sub₀ (by norm_num : (2:ℚ) ≠ 0), zpow_natCast]
    field_simp
  · have : (0:ℚ) ≤ (Float.binGen .bipolar w a : ℚ) / 2 ^ w := div_nonneg (by exact_mod_cast h2) hP.le
    linarith
  · have : (Float.binGen .bipolar w a : ℚ) / 2 ^ w ≤ 1 := by rw [div_le_one hP]; exact_mod_cast h3
    linarith

theorem storedF_eq {mode : String} (hm : parseMode mode = .ok .bipolar) (w : ℕ) (a : ℚ) : Spec.storedF mode w a = storedB w a := by
  unfold Spec.storedF storedB; rw [hm]

theorem quant_stored {mode : String} (hm : parseMode mode = .ok .bipolar) (w : ℕ) (a : ℚ) :
    Spec.quant .bipolar w (Spec.storedF mode w a) = storedB w a := by
  unfold Spec.quant
  rw [binGenM_stored hm]
  rfl

/-- What a chain with stored weights computes. -/
private theorem netVal_snap (env : Gen.Env) {I O : ℕ} (net : Layers I O) : Spec.NetOK env net → ∀ M, Net.build env (Spec.snap net) = .ok M →
    ∀ v, Spec.netVal (Spec.quant .bipolar) (Spec.snap net) v = Spec.netVal storedB net v := by
  induction net with
  | done => intro _ _ _ v; rfl
  | @linear I J O mode w name depth scale we bias be rest ih =>
      intro hok M hM v
      simp only [Spec.snap, Net.build] at hM
      cases hm : Linear.mkLinear env mode w name depth scale (fun o i => Spec.storedF mode w (we o i)) bias
          (be.map fun v o => Spec.storedF mode w (v o)) with
      | error e => rw [hm] at hM; cases hM
      | ok m =>
        cases hR : Net.build env (Spec.snap rest) with
        | error e => rw [hm, hR] at hM; cases hM
        | ok R =>
          obtain ⟨mo, l, -, -, -, -, -, -, -, p⟩ := mkPC_ok (mkLinear_ok hm).1
          simp only [Spec.snap, Spec.netVal]
          rw [ih hok.2.2.2.2.2.2 R hR]
          congr 1
          funext o
          congr 3
          congr 1
          · exact sum_congr rfl fun i _ => by rw [quant_stored hok.1]
          · cases bias with
            | false => rfl
            | true =>
              obtain ⟨z, hz, -⟩ := p rfl
              cases be with
              | none => cases hz
              | some b => simp only [if_true, Option.map_some, Option.getD_some]; rw [quant_stored hok.1]
  | relu d rest ih =>
      intro hok M hM v
      simp only [Spec.snap, Net.build] at hM
      cases hR : Net.build env (Spec.snap rest) with
      | error e => rw [hR] at hM; cases hM
      | ok R => simp only [Spec.snap, Spec.netVal]; rw [ih hok R hR]
  | hardtanh rest ih =>
      intro hok M hM v
      simp only [Spec.snap, Net.build] at hM
      cases hR : Net.build env (Spec.snap rest) with
      | error e => rw [hR] at hM; cases hM
      | ok R => simp only [Spec.snap, Spec.netVal]; rw [ih hok R hR]
  | hardsigmoid mode depth rest ih =>
      intro hok M hM v
      simp only [Spec.snap, Net.build] at hM
      cases hc : Adder.hardsigmoidMk mode depth with
      | error e => rw [hc] at hM; cases hM
      | ok c =>
        cases hR : Net.build env (Spec.snap rest) with
        | error e => rw [hc, hR] at hM; cases hM
        | ok R => simp only [Spec.snap, Spec.netVal]; rw [ih hok R hR]

private theorem snap_ok (env : Gen.Env) {I O : ℕ} (net : Layers I O) : Spec.NetOK env net → Spec.NetF32 net → Spec.NetOK env (Spec.snap net) := by
  induction net with
  | done => intro _ _; trivial
  | @linear I J O mode w name depth scale we bias be rest ih =>
      intro h hf
      obtain ⟨h1, h2, h3, h4, h5, h6, h7⟩ := h
      obtain ⟨f1, f2, f3⟩ := hf
      refine ⟨h1, h2, h3, h4, fun o i => ?_, fun v hv o => ?_, ih h7 f3⟩
      · show -1 ≤ Spec.storedF mode w (we o i) ∧ Spec.storedF mode w (we o i) ≤ 1
        rw [storedF_eq h1]; exact (storedB_near w _ (f1 o i) (h5 o i)).2
      · cases be with
        | none => cases hv
        | some b => cases hv; beta_reduce; rw [storedF_eq h1]; exact (storedB_near w _ (f2 b rfl o) (h6 b rfl o)).2
  | relu d rest ih => intro h hf; exact ih h hf
  | hardtanh rest ih => intro h hf; exact ih h hf
  | hardsigmoid mode depth rest ih => intro h hf; exact ih h hf

private theorem snap_dev {I O : ℕ} (net : Layers I O) : ∀ K, Spec.netDev (Spec.snap net) K = Spec.netDev net K ∧
    (Spec.NetRoom (Spec.snap net) K ↔ Spec.NetRoom net K) := by
  induction net with
  | done => intro K; exact ⟨rfl, Iff.rfl⟩
  | linear mode w name depth scale we bias be rest ih =>
      intro K; simp only [Spec.snap, Spec.netDev, Spec.NetRoom]; exact ⟨(ih _).1, and_congr Iff.rfl (ih _).2⟩
  | relu d rest ih => intro K; simp only [Spec.snap, Spec.netDev, Spec.NetRoom]; exact ⟨(ih _).1, and_congr Iff.rfl (and_congr Iff.rfl (ih _).2)⟩
  | hardtanh rest ih => intro K; simp only [Spec.snap, Spec.netDev, Spec.NetRoom]; exact ih K
  | hardsigmoid mode depth rest ih => intro K; simp only [Spec.snap, Spec.netDev, Spec.NetRoom]; exact ⟨(ih _).1, and_congr Iff.rfl (ih _).2⟩

/-- Stored weights make only a small difference. -/
private theorem netVal_near (env : Gen.Env) {I O : ℕ} (net : Layers I O) :
    Spec.NetOK env net → Spec.NetF32 net → ∀ (v v' : Fin I → ℚ) (e : ℚ), 0 ≤ e → (∀ i, |v i| ≤ 1) → (∀ i, |v i - v' i| ≤ e) →
    ∀ o, |Spec.netVal storedB net v o - Spec.netVal (fun _ a => a) net v' o| ≤ Spec.netErrBy Spec.convErr net e := by
  induction net with
  | done => intro _ _ v v' e _ _ h o; exact h o
  | @linear I J O mode w name depth scale we bias be rest ih =>
      intro hok hf v v' e he hv h
      obtain ⟨-, -, -, hS, hwe, hbe, hok'⟩ := hok
      obtain ⟨f1, f2, f3⟩ := hf
      set S := scale.getD (Spec.fanIn I bias) with hSd
      have hP : (0:ℚ) ≤ Spec.convErr w := by unfold Spec.convErr; positivity
      refine ih hok' f3 _ _ _ (div_nonneg (add_nonneg (mul_nonneg (Nat.cast_nonneg _) (by linarith)) (by split_ifs <;> linarith)) hS.le)
        (fun o => clip_abs _) (fun o => ?_)
      refine le_trans (clip_lip _ _ _ _) ?_
      rw [← sub_div, abs_div, abs_of_pos hS]
      apply div_le_div_of_nonneg_right _ hS.le
      have h1 : |∑ i, v i * storedB w (we o i) - ∑ i, v' i * we o i| ≤ I * (e + Spec.convErr w) := by
        rw [← sum_sub_distrib]
        refine le_trans (abs_sum_le_sum_abs _ _) ?_
        have : ∀ i ∈ (univ : Finset (Fin I)), |v i * storedB w (we o i) - v' i * we o i| ≤ e + Spec.convErr w := by
          intro i _
          have e1 : v i * storedB w (we o i) - v' i * we o i = v i * (storedB w (we o i) - we o i) + (v i - v' i) * we o i := by ring
          rw [e1]
          refine le_trans (abs_add_le _ _) ?_
          rw [abs_mul, abs_mul]
          have a1 := (storedB_near w (we o i) (f1 o i) (hwe o i)).1
          have a2 : |we o i| ≤ 1 := abs_le.2 (hwe o i)
          have b1 := mul_le_mul (hv i) a1 (abs_nonneg _) (by norm_num)
          have b2 := mul_le_mul (h i) a2 (abs_nonneg _) he
          linarith
        have := sum_le_sum this
        rwa [sum_const, card_univ, Fintype.card_fin, nsmul_eq_mul] at this
      have h2 : |(if bias then storedB w ((be.getD fun _ => 0) o) else 0) - (if bias then (be.getD fun _ => 0) o else 0)|
          ≤ if bias then Spec.convErr w else 0 := by
        split_ifs
        · cases be with
          | none => exact (storedB_near w 0 ⟨0, 0, by norm_num, by norm_num, by simp⟩ (by norm_num)).1
          | some b => exact (storedB_near w _ (f2 b rfl o) (hbe b rfl o)).1
        · simp
      have e2 : ∀ a b c d : ℚ, a + b - (c + d) = (a - c) + (b - d) := fun a b c d => by ring
      rw [e2]
      exact le_trans (abs_add_le _ _) (add_le_add h1 h2)
  | relu d rest ih =>
      intro hok hf v v' e he hv h
      refine ih hok hf _ _ e he (fun i => ?_) (fun i => ?_)
      · have := abs_le.1 (hv i)
        exact abs_le.2 ⟨le_trans (by norm_num) (le_max_left _ _), max_le (by norm_num) this.2⟩
      · rw [max_comm, max_comm 0 (v' i)]
        exact le_trans (abs_max_sub_max_le_abs _ _ _) (h i)
  | hardtanh rest ih =>
      intro hok hf v v' e he hv h
      exact ih hok hf _ _ e he (fun i => clip_abs _) (fun i => le_trans (clip_lip _ _ _ _) (h i))
  | hardsigmoid mode depth rest ih =>
      intro hok hf v v' e he hv h
      refine ih hok hf _ _ (e / 2) (by linarith) (fun i => ?_) (fun i => ?_)
      · exact abs_le.2 ⟨le_trans (by norm_num) (le_max_left _ _), max_le (by norm_num) (min_le_right _ _)⟩
      · refine le_trans (clip_lip _ _ _ _) ?_
        rw [show (v i + 1) / 2 - (v' i + 1) / 2 = (v i - v' i) / 2 by ring, abs_div, abs_of_pos (by norm_num : (0:ℚ) < 2)]
        exact div_le_div_of_nonneg_right (h i) (by norm_num)

/-- C97, end to end in binary32: numbers `a` in `[-1, 1]` are converted, put into bipolar Sobol streams of width `w0`, and sent through the chain, all
executed in binary32.  After any number `n` of cycles the decoded outputs differ from what the chain with exact weights computes for `a` by no more
than the conversion errors plus a multiple of `1 / n`. -/
theorem C97_end_to_end {B : ℕ} (hB : 0 < B) (env : Gen.Env) (hdir : Gen.DirOK env.sobolM) {I O : ℕ} (net : Layers I O)
    {M : RMachine (List (Fin I → ℤ)) (List (Fin O → ℤ))} (hM : FloatNet.build env net = .ok M) (hok : Spec.NetOK env net) (hf : Spec.NetF32 net)
    (hfit : Spec.NetFits env net) (w0 : ℕ) (hw24 : w0 ≤ 24) (hw0 : w0 ≤ env.maxbit) (name : String) (hn : name.toLower ∈ ["sobol", "rc"])
    (hroom : Spec.NetRoom net (4 * w0)) (a : Fin B → Fin I → ℚ) (ha : ∀ b i, -1 ≤ a b i ∧ a b i ≤ 1) (haf : ∀ b i, Verif.Spec.IsF32 (a b i)) :
    ∃ l, Gen.rng env w0 name = .ok l ∧
      (∃ out, M.Run (pcIn fun b i t => Gen.bsGen (FloatNet.seq l) (Float.binGen .bipolar w0 (a b i)) t) out) ∧
      ∀ out, M.Run (pcIn fun b i t => Gen.bsGen (FloatNet.seq l) (Float.binGen .bipolar w0 (a b i)) t) out →
        ∃ y : Fin B → Fin O → ℕ → ℤ, (∀ t, out t = List.ofFn fun b o => y b o t) ∧
        ∀ b o (n : ℕ), 0 < n → |Verif.Spec.biValue (y b o) n - Spec.netVal (fun _ c => c) net (a b) o|
          ≤ Spec.netErrBy Spec.convErr net (Spec.convErr w0) + Spec.netDev net (4 * w0) / n := by
  obtain ⟨l, hl, hnet⟩ := C08_net env w0 name hn hdir hw0
  obtain ⟨M', hM', hag⟩ := C97_network hB env net M hM hfit
  have hb : ∀ b i, Verif.Spec.BitStream (fun t => Gen.bsGen l (Float.binGen .bipolar w0 (a b i)) t) := fun b i t => isBit_ind _
  have hin : Spec.BitRows B I (pcIn fun b i t => Gen.bsGen l (Float.binGen .bipolar w0 (a b i)) t) := ⟨_, hb, rfl⟩
  refine ⟨l, hl, ?_⟩
  rw [seq_exact (perm_fits hw24 (Gen.DyadicNet.isPermSeq hnet))]
  refine ⟨hag.runs _ hin, fun out hout => ?_⟩
  have hq : ∀ b i, |storedB w0 (a b i)| ≤ 1 := fun b i => abs_le.2 (storedB_near w0 _ (haf b i) (ha b i)).2
  obtain ⟨y, h1, h2⟩ := C72_network hB env hdir (Spec.snap net) M' hM' (snap_ok env net hok hf) (4 * w0) ((snap_dev net _).2.2 hroom)
    (fun b i t => Gen.bsGen l (Float.binGen .bipolar w0 (a b i)) t) hb
    (fun b i => storedB w0 (a b i)) hq (fun b i => by
      obtain ⟨-, r1, r2, -⟩ := C70_bipolar w0 (a b i) (haf b i) (ha b i).1 (ha b i).2
      exact (C61_source hnet r1 r2).2)
  refine ⟨y, fun t => Except.ok.inj (((hag.same _ hin out hout).1 t).symm.trans (h1 t)), fun b o n hn' => ?_⟩
  have h3 := C60_bipolar_value (h2 b o).2 hn'
  rw [netVal_snap env net hok M' hM', (snap_dev net _).1] at h3
  have h4 := netVal_near env net hok hf (fun i => storedB w0 (a b i)) (a b) (Spec.convErr w0) (by unfold Spec.convErr; positivity) (hq b)
    (fun i => (storedB_near w0 _ (haf b i) (ha b i)).1) o
  have e : Verif.Spec.biValue (y b o) n - Spec.netVal (fun _ c => c) net (a b) o
      = (Verif.Spec.biValue (y b o) n - Spec.netVal storedB net (fun i => storedB w0 (a b i)) o)
        + (Spec.netVal storedB net (fun i => storedB w0 (a b i)) o - Spec.netVal (fun _ c => c) net (a b) o) := by ring
  rw [e]
  refine le_trans (abs_add_le _ _) ?_
  linarith

/-! ## Images -/

/-- A convolution around any row operation. -/
private def convR {O : ℕ} (g : Conv.Geo) (p N C H W : ℕ) (mode : Mode)
    (L : RMachine (List (Fin (C * g.kh * g.kw) → ℤ)) (List (Fin O → ℤ))) : RMachine Img Img where
  S := L.S × Bool
  init := (L.init, true)
  step := fun s img s' out => ∃ os rows r, Conv.outSize { g with ph := p, pw := p } H W = .ok os ∧
    Conv.im2col { g with ph := 0, pw := 0 } N C (H + p + p) (W + p + p) 0
      (Conv.constPad (.num p) H W (if s.2 then 0 else 1) img) = .ok rows ∧ s'.2 = (decide (mode = .bipolar) ^^ s.2) ∧
    L.step s.1 rows s'.1 r ∧ Conv.col2im N os r = .ok out

private theorem convR_run {O : ℕ} (g : Conv.Geo) (p N C H W : ℕ) (h : Spec.GeoOK (Spec.padded g p) H W) (mode : Mode)
    (L : RMachine (List (Fin (C * g.kh * g.kw) → ℤ)) (List (Fin O → ℤ))) (x : ℕ → Img) (out : ℕ → Img) :
    (convR g p N C H W mode L).Run x out ↔ ∃ r, L.Run (pcIn (convStreams g p N C H W mode x)) r ∧
      ∀ t, Conv.col2im N ((Spec.outH (Spec.padded g p) H : ℤ), (Spec.outW (Spec.padded g p) W : ℤ)) (r t) = .ok (out t) := by
  have hos : Conv.outSize { g with ph := p, pw := p } H W = _ := C52_size (Spec.padded g p) H W h
  have hflag : ∀ t (e : Bool), (if e then (0:ℤ) else 1) = Spec.padBit mode t →
      (if (decide (mode = .bipolar) ^^ e) then (0:ℤ) else 1) = Spec.padBit mode (t + 1) := by
    intro t e he
    unfold Spec.padBit at *
    have : t % 2 = 1 ∨ t % 2 = 0 := by omega
    have h2 : (t + 1) % 2 = 1 - t % 2 := by omega
    rw [h2]
    cases mode <;> rcases this with h | h <;> cases e <;> simp_all
  have hrows := fun t (e : Bool) (he : (if e then (0:ℤ) else 1) = Spec.padBit mode t) => rows_pad g p N C H W h mode x t _ he
  constructor
  · rintro ⟨st, h0, hst⟩
    choose os rows r h1 h2 h3 h4 h5 using hst
    have hf : ∀ t, (if (st t).2 then (0:ℤ) else 1) = Spec.padBit mode t := by
      intro t
      induction t with
      | zero => rw [h0]; simp [convR, Spec.padBit]
      | succ t ih => rw [h3 t]; exact hflag t _ ih
    refine ⟨r, ⟨fun t => (st t).1, congrArg (fun q : L.S × Bool => q.1) h0, fun t => ?_⟩, fun t => ?_⟩
    · have e : rows t = pcIn (convStreams g p N C H W mode x) t := Except.ok.inj ((h2 t).symm.trans (hrows t _ (hf t)))
      rw [← e]; exact h4 t
    · have e : os t = _ := Except.ok.inj ((h1 t).symm.trans hos)
      rw [← e]; exact h5 t
  · rintro ⟨r, ⟨s, h0, hs⟩, hr⟩
    set fl : ℕ → Bool := fun t => Nat.rec (motive := fun _ => Bool) true (fun _ e => decide (mode = .bipolar) ^^ e) t with hfl
    have hf : ∀ t, (if fl t then (0:ℤ) else 1) = Spec.padBit mode t := by
      intro t
      induction t with
      | zero => simp [hfl, Spec.padBit]
      | succ t ih => exact hflag t _ ih
    exact ⟨fun t => (s t, fl t), Prod.ext h0 rfl, fun t => ⟨_, _, r t, hos, hrows t _ (hf t), rfl, hs t, hr t⟩⟩

private theorem conv_convR {O : ℕ} (g : Conv.Geo) (p N C H W : ℕ) (m : PC (C * g.kh * g.kw) O × Adder.Cfg) (x : ℕ → Img) (out : ℕ → Img) :
    (RMachine.ofMachine (Net.conv g p N C H W m)).Run x out ↔ (convR g p N C H W m.1.mode (RMachine.ofMachine (Net.linear m))).Run x out := by
  have hstep : ∀ (s s' : (PCSt (C * g.kh * g.kw) O × List (Fin O → Adder.St)) × Bool) (img : Img) (o : Img),
      (RMachine.ofMachine (Net.conv g p N C H W m)).step s img s' o ↔
      (convR g p N C H W m.1.mode (RMachine.ofMachine (Net.linear m))).step s img s' o := by
    intro s s' img o
    show Conv.convWrap g (.num p) N C H W m.1.mode (fun s rows => stepLinear m s ⟨rows, none, none⟩) s img = .ok (s', o) ↔ _
    unfold Conv.convWrap
    constructor
    · intro h
      obtain ⟨os, h1, h⟩ := except_bind_ok h
      obtain ⟨rows, h2, h⟩ := except_bind_ok h
      obtain ⟨⟨q, r⟩, h3, h⟩ := except_bind_ok h
      obtain ⟨F, h4, h⟩ := except_bind_ok h
      have e := Prod.mk.inj (Except.ok.inj h)
      rw [← e.1, ← e.2]
      exact ⟨os, rows, r, h1, h2, rfl, h3, h4⟩
    · rintro ⟨os, rows, r, h1, h2, h3, h4, h5⟩
      have h1' : Conv.outSize { g with ph := (Conv.PadArg.num p).perAxis.1, pw := (Conv.PadArg.num p).perAxis.2 } H W = .ok os := h1
      have h2' : Conv.im2col { g with ph := 0, pw := 0 } N C (H + (Conv.PadArg.num p).sides.1.1 + (Conv.PadArg.num p).sides.1.2)
        (W + (Conv.PadArg.num p).sides.2.1 + (Conv.PadArg.num p).sides.2.2) 0 (Conv.constPad (.num p) H W (if s.2 then 0 else 1) img) = .ok rows := h2
      have h4' : stepLinear m s.1 ⟨rows, none, none⟩ = .ok (s'.1, r) := h4
      rw [h1']
      show (Conv.im2col _ _ _ _ _ _ _ >>= _) = _
      rw [h2']
      show (stepLinear m s.1 ⟨rows, none, none⟩ >>= _) = _
      rw [h4']
      show (Conv.col2im N os r >>= _) = _
      rw [h5]
      show Except.ok ((s'.1, (decide (m.1.mode = .bipolar) ^^ s.2)), o) = _
      rw [← h3]
  constructor
  · rintro ⟨st, h0, h⟩
    exact ⟨st, h0, fun t => (hstep _ _ _ _).1 (h t)⟩
  · rintro ⟨st, h0, h⟩
    exact ⟨st, h0, fun t => (hstep _ _ _ _).2 (h t)⟩

private theorem col2im_bits {O : ℕ} {N : ℕ} {os : ℤ × ℤ} {r : List (Fin O → ℤ)} {F : Img} (h : Conv.col2im N os r = .ok F)
    (hr : ∀ q ∈ r, ∀ o, IsBit (q o)) (n c i j : ℕ) : IsBit (F n c i j) := by
  unfold Conv.col2im at h
  dsimp only at h
  split_ifs at h with h1 h2
  obtain rfl := Except.ok.inj h
  unfold Conv.transpose12 Conv.view3 Conv.flat2
  dsimp only
  split_ifs with h3
  · cases hq : r[((n * (r.length / N) + (i * os.2.toNat + j)) * O + c) / O]? with
    | none => exact Or.inl rfl
    | some q => exact hr q (List.mem_of_getElem? hq) _
  · exact Or.inl rfl

/-- Images of bits. -/
def Spec.Bits (x : ℕ → Img) : Prop := ∀ t n c i j, IsBit (x t n c i j)

private theorem agree_conv {O : ℕ} (hO : 0 < O) (g : Conv.Geo) (p N C H W : ℕ) (hN : 0 < N) (h : Spec.GeoOK (Spec.padded g p) H W)
    (m : PC (C * g.kh * g.kw) O × Adder.Cfg) (fan : ℕ) (S : ℚ) (hA : Spec.addends (C * g.kh * g.kw) m.1.bias = fan)
    (hS : m.2.scale = some S) (hE : m.2.entry = some (fan:ℚ)) (hfit : Spec.Fits fan S m.2.depth) :
    Spec.Agree (FloatNet.conv g p N C H W m) (Net.conv g p N C H W m) Spec.Bits Spec.Bits := by
  have hB : 0 < N * (Spec.outH (Spec.padded g p) H * Spec.outW (Spec.padded g p) W) := by
    unfold Spec.outH Spec.outW Spec.outLen; positivity
  have hag := agree_linear hB m fan S hA hS hE hfit
  have hin : ∀ x, Spec.Bits x → Spec.BitRows (N * (Spec.outH (Spec.padded g p) H * Spec.outW (Spec.padded g p) W)) (C * g.kh * g.kw)
      (pcIn (convStreams g p N C H W m.1.mode x)) :=
    fun x hx => ⟨_, streams_bits g p N C H W m.1.mode x (fun n c y z _ _ _ _ t => hx t n c y z), rfl⟩
  have hrun : ∀ x out, (FloatNet.conv g p N C H W m).Run x out ↔ (convR g p N C H W m.1.mode (FloatNet.linear m)).Run x out := fun x out => Iff.rfl
  constructor
  · intro x hx
    obtain ⟨r, hr⟩ := hag.runs _ (hin x hx)
    obtain ⟨v, -, hv⟩ := (hag.same _ (hin x hx) r hr).2
    choose F hF using fun t => col2im_ok N _ _ hN hO (fun q o => v q o t)
    refine ⟨F, (hrun x F).2 ((convR_run g p N C H W h m.1.mode _ x F).2 ⟨r, hr, fun t => ?_⟩)⟩
    rw [hv]
    exact (hF t).1
  · intro x hx out ho
    obtain ⟨r, hr, ho⟩ := (convR_run g p N C H W h m.1.mode _ x out).1 ((hrun x out).1 ho)
    obtain ⟨h1, v, hv, rfl⟩ := hag.same _ (hin x hx) r hr
    refine ⟨(run_ofMachine _ x out).1 ((conv_convR g p N C H W m x out).2 ((convR_run g p N C H W h m.1.mode _ x out).2
      ⟨_, (run_ofMachine _ _ _).2 h1, ho⟩)), fun t n c i j => col2im_bits (ho t) (fun q hq o => ?_) n c i j⟩
    obtain ⟨b, rfl⟩ := List.mem_ofFn.1 hq
    exact hv b o t

private theorem agree_pixels {σ τ : Type} (f : σ → ℤ → σ × ℤ) (s0 : σ) (g : τ → ℤ → τ × ℤ) (q0 : τ)
    (h : ∀ x, Verif.Spec.BitStream x → ∀ t, outAt f s0 x t = outAt g q0 x t)
    (hb : ∀ x, Verif.Spec.BitStream x → ∀ t, IsBit (outAt g q0 x t)) :
    Spec.Agree (RMachine.ofMachine ⟨_, fun _ _ _ _ => s0, Net.pixels f⟩) ⟨_, fun _ _ _ _ => q0, Net.pixels g⟩ Spec.Bits Spec.Bits where
  runs := fun x _ => ⟨_, (run_ofMachine _ _ _).2 fun t => pixels_out f s0 x t⟩
  same := by
    intro x hx out ho
    have h1 := (run_ofMachine _ _ _).1 ho
    have e : out = fun t n c i j => outAt g q0 (fun t => x t n c i j) t := by
      funext t
      have := (h1 t).symm.trans (pixels_out f s0 x t)
      rw [Except.ok.inj this]
      funext n c i j
      exact h _ (fun t => hx t n c i j) t
    rw [e]
    exact ⟨fun t => pixels_out g q0 x t, fun t n c i j => hb _ (fun t => hx t n c i j) t⟩

namespace Spec

/-- The convolutional chain with the stored numbers as weights and biases. -/
def snapImg : {C H W O : ℕ} → ImgLayers C H W O → ImgLayers C H W O
  | _, _, _, _, .flatten rest => .flatten (snap rest)
  | _, _, _, _, .conv g p C' H' W' mode w name depth scale we bias be rest => .conv g p C' H' W' mode w name depth scale
      (fun o c i j => storedF mode w (we o c i j)) bias (be.map fun v o => storedF mode w (v o)) (snapImg rest)
  | _, _, _, _, .relu d rest => .relu d (snapImg rest)
  | _, _, _, _, .hardtanh rest => .hardtanh (snapImg rest)
  | _, _, _, _, .hardsigmoid mode depth rest => .hardsigmoid mode depth (snapImg rest)

/-- All counts and accumulators fit into binary32, the filters fit the images and the declared sizes. -/
def ImgFits (env : Gen.Env) : {C H W O : ℕ} → ImgLayers C H W O → Prop
  | _, _, _, _, .flatten rest => NetFits env rest
  | C, H, W, _, .conv g p C' H' W' _ w name depth scale _ bias _ rest => GeoOK (padded g p) H W ∧ H' = outH (padded g p) H ∧
      W' = outW (padded g p) W ∧ 0 < C' ∧ SeqFits env w name ∧
      Fits (fanIn (C * g.kh * g.kw) bias) (scale.getD (fanIn (C * g.kh * g.kw) bias)) depth ∧ ImgFits env rest
  | _, _, _, _, .relu d rest => 1 ≤ d ∧ d ≤ 24 ∧ ImgFits env rest
  | _, _, _, _, .hardtanh rest => ImgFits env rest
  | _, _, _, _, .hardsigmoid _ depth rest => 1 ≤ depth ∧ depth ≤ 24 ∧ ImgFits env rest

/-- All weights and biases are binary32 numbers. -/
def ImgF32 : {C H W O : ℕ} → ImgLayers C H W O → Prop
  | _, _, _, _, .flatten rest => NetF32 rest
  | C, _, _, _, .conv g _ C' _ _ _ _ _ _ _ we _ be rest =>
      (∀ o c i j, o < C' → c < C → i < g.kh → j < g.kw → Verif.Spec.IsF32 (we o c i j)) ∧
      (∀ v, be = some v → ∀ o, Verif.Spec.IsF32 (v o)) ∧ ImgF32 rest
  | _, _, _, _, .relu _ rest => ImgF32 rest
  | _, _, _, _, .hardtanh rest => ImgF32 rest
  | _, _, _, _, .hardsigmoid _ _ rest => ImgF32 rest

/-- Error of the numbers a convolutional chain computes with stored weights that are off by `δ w`, for inputs that are off by `e`. -/
def imgErrBy (δ : ℕ → ℚ) : {C H W O : ℕ} → ImgLayers C H W O → ℚ → ℚ
  | _, _, _, _, .flatten rest, e => netErrBy δ rest e
  | C, _, _, _, .conv g _ _ _ _ _ w _ _ scale _ bias _ rest, e =>
      imgErrBy δ rest (((C * g.kh * g.kw : ℕ) * (e + δ w) + if bias then δ w else 0) / scale.getD (fanIn (C * g.kh * g.kw) bias))
  | _, _, _, _, .relu _ rest, e => imgErrBy δ rest e
  | _, _, _, _, .hardtanh rest, e => imgErrBy δ rest e
  | _, _, _, _, .hardsigmoid _ _ rest, e => imgErrBy δ rest (e / 2)

end Spec

/-- C97: a convolutional chain executed in binary32, whose counts and accumulators fit, gives bit for bit what exact arithmetic gives with the weights
as they are stored, for streams of any length and any order of the additions.  No call fails. -/
theorem C97_images {N : ℕ} (hN : 0 < N) (env : Gen.Env) {C H W O : ℕ} (net : ImgLayers C H W O) :
    ∀ M, FloatNet.buildImg env N net = .ok M → Spec.ImgFits env net →
    ∃ M', Net.buildImg env N (Spec.snapImg net) = .ok M' ∧ Spec.Agree M M' Spec.Bits (Spec.BitRows N O) := by
  induction net with
  | @flatten C H W O rest =>
      intro M hM hfit
      simp only [FloatNet.buildImg] at hM
      cases hR : FloatNet.build env rest with
      | error e => rw [hR] at hM; cases hM
      | ok R =>
        rw [hR] at hM; cases hM
        obtain ⟨R', h1, h2⟩ := C97_network hN env rest R hR hfit
        refine ⟨(Net.flatten N C H W).comp R', by simp only [Spec.snapImg, Net.buildImg]; rw [h1], agree_comp (Q := Spec.BitRows N (C * H * W)) ?_ h2⟩
        constructor
        · exact fun x _ => ⟨_, (run_ofMachine _ _ _).2 fun t => flatten_out N C H W x t⟩
        · intro x hx out ho
          have h1 := (run_ofMachine _ _ _).1 ho
          refine ⟨h1, _, fun n k t => ?_, funext fun t => Except.ok.inj ((h1 t).symm.trans (flatten_out N C H W x t))⟩
          exact hx t _ _ _ _
  | @conv C H W O g p C' H' W' mode w name depth scale we bias be rest ih =>
      intro M hM hfit
      obtain ⟨hg, rfl, rfl, hC', hs, hf, hfit'⟩ := hfit
      simp only [FloatNet.buildImg] at hM
      cases hm : FloatNet.mkLinear env mode w name depth scale (Conv.viewWeight g C C' we) bias be with
      | error e => rw [hm] at hM; cases hM
      | ok m =>
        cases hR : FloatNet.buildImg env N rest with
        | error e => rw [hm, hR] at hM; cases hM
        | ok R =>
          rw [hm, hR] at hM; cases hM
          obtain ⟨R', h1, h2⟩ := ih R hR hfit'
          have hm' := mkLinear_float hm hs
          obtain ⟨-, -, q2, q3, q4, q5⟩ := mkLinear_ok hm'
          have hm'' : Conv.mkConv env g C mode w name depth scale (fun o c i j => Spec.storedF mode w (we o c i j)) bias
              (be.map fun v o => Spec.storedF mode w (v o)) = .ok m := hm'
          refine ⟨(Net.conv g p N C H W m).comp R', ?_,
            agree_comp (agree_conv hC' g p N C H W hN hg m (Spec.fanIn (C * g.kh * g.kw) bias) _ q5 q3 q4 (by rw [q2]; exact hf)) h2⟩
          simp only [Spec.snapImg, Net.buildImg]
          rw [hm'', h1]
  | @relu C H W O d rest ih =>
      intro M hM hfit
      simp only [FloatNet.buildImg] at hM
      cases hR : FloatNet.buildImg env N rest with
      | error e => rw [hR] at hM; cases hM
      | ok R =>
        rw [hR] at hM; cases hM
        obtain ⟨R', h1, h2⟩ := ih R hR hfit.2.2
        refine ⟨(Net.reluImg d).comp R', by simp only [Spec.snapImg, Net.buildImg]; rw [h1], agree_comp ?_ h2⟩
        exact agree_pixels _ _ _ _ (fun x hx t => relu_agree d hfit.1 hfit.2.1 x hx t) (fun x hx t => (C31_dominates d _ hx t).1)
  | @hardtanh C H W O rest ih =>
      intro M hM hfit
      simp only [FloatNet.buildImg] at hM
      cases hR : FloatNet.buildImg env N rest with
      | error e => rw [hR] at hM; cases hM
      | ok R =>
        rw [hR] at hM; cases hM
        obtain ⟨R', h1, h2⟩ := ih R hR hfit
        exact ⟨(Machine.id _).comp R', by simp only [Spec.snapImg, Net.buildImg]; rw [h1], agree_comp (agree_id _) h2⟩
  | @hardsigmoid C H W O mode depth rest ih =>
      intro M hM hfit
      simp only [FloatNet.buildImg] at hM
      cases hc : Adder.hardsigmoidMk mode depth with
      | error e => rw [hc] at hM; cases hM
      | ok c =>
        cases hR : FloatNet.buildImg env N rest with
        | error e => rw [hc, hR] at hM; cases hM
        | ok R =>
          rw [hc, hR] at hM; cases hM
          obtain ⟨R', h1, h2⟩ := ih R hR hfit.2.2
          refine ⟨(Net.hardsigmoidImg c).comp R', by simp only [Spec.snapImg, Net.buildImg]; rw [hc, h1], agree_comp ?_ h2⟩
          exact agree_pixels _ _ _ _ (fun x hx t => hardsigmoid_agree mode depth hfit.1 hfit.2.1 c hc x hx t) (fun x hx t => isBit_ind _)

/-- What a convolutional chain with stored weights computes. -/
private theorem imgVal_snap (env : Gen.Env) (N : ℕ) {C H W O : ℕ} (net : ImgLayers C H W O) : Spec.ImgOK env net →
    ∀ M, Net.buildImg env N (Spec.snapImg net) = .ok M →
    ∀ v, Spec.imgVal (Spec.quant .bipolar) (Spec.snapImg net) v = Spec.imgVal storedB net v := by
  induction net with
  | flatten rest =>
      intro hok M hM v
      simp only [Spec.snapImg, Net.buildImg] at hM
      cases hR : Net.build env (Spec.snap rest) with
      | error e => rw [hR] at hM; cases hM
      | ok R => simp only [Spec.snapImg, Spec.imgVal]; rw [netVal_snap env rest hok R hR]
  | @conv C H W O g p C' H' W' mode w name depth scale we bias be rest ih =>
      intro hok M hM v
      obtain ⟨-, -, -, -, hmode, -, -, -, -, -, hok'⟩ := hok
      simp only [Spec.snapImg, Net.buildImg] at hM
      cases hm : Conv.mkConv env g C mode w name depth scale (fun o c i j => Spec.storedF mode w (we o c i j)) bias
          (be.map fun v o => Spec.storedF mode w (v o)) with
      | error e => rw [hm] at hM; cases hM
      | ok m =>
        cases hR : Net.buildImg env N (Spec.snapImg rest) with
        | error e => rw [hm, hR] at hM; cases hM
        | ok R =>
          unfold Conv.mkConv at hm
          obtain ⟨mo, l, -, -, -, -, -, -, -, q⟩ := mkPC_ok (mkLinear_ok hm).1
          simp only [Spec.snapImg, Spec.imgVal]
          rw [ih hok' R hR]
          refine congrArg (Spec.imgVal storedB rest) (funext fun o => funext fun y => funext fun x => ?_)
          have hcv : Spec.conv (Spec.padded g p) C H W id (Spec.quant .bipolar w) (fun _ => v) (fun o c i j => Spec.storedF mode w (we o c i j)) 0 o y x
              = Spec.conv (Spec.padded g p) C H W id (storedB w) (fun _ => v) we 0 o y x := by
            unfold Spec.conv
            refine sum_congr rfl fun c _ => sum_congr rfl fun i _ => sum_congr rfl fun j _ => ?_
            rw [quant_stored hmode]
          by_cases h : o < C'
          · rw [dif_pos h, dif_pos h, hcv]
            cases bias with
            | false => rfl
            | true =>
              obtain ⟨z, hz, -⟩ := q rfl
              cases be with
              | none => cases hz
              | some b =>
                simp only [Option.map_some, Option.getD_some, if_true]
                rw [quant_stored hmode]
          · rw [dif_neg h, dif_neg h]
  | relu d rest ih =>
      intro hok M hM v
      simp only [Spec.snapImg, Net.buildImg] at hM
      cases hR : Net.buildImg env N (Spec.snapImg rest) with
      | error e => rw [hR] at hM; cases hM
      | ok R => simp only [Spec.snapImg, Spec.imgVal]; rw [ih hok R hR]
  | hardtanh rest ih =>
      intro hok M hM v
      simp only [Spec.snapImg, Net.buildImg] at hM
      cases hR : Net.buildImg env N (Spec.snapImg rest) with
      | error e => rw [hR] at hM; cases hM
      | ok R => simp only [Spec.snapImg, Spec.imgVal]; rw [ih hok R hR]
  | hardsigmoid mode depth rest ih =>
      intro hok M hM v
      simp only [Spec.snapImg, Net.buildImg] at hM
      cases hc : Adder.hardsigmoidMk mode depth with
      | error e => rw [hc] at hM; cases hM
      | ok c =>
        cases hR : Net.buildImg env N (Spec.snapImg rest) with
        | error e => rw [hc, hR] at hM; cases hM
        | ok R => simp only [Spec.snapImg, Spec.imgVal]; rw [ih hok R hR]

private theorem snapImg_ok (env : Gen.Env) {C H W O : ℕ} (net : ImgLayers C H W O) :
    Spec.ImgOK env net → Spec.ImgF32 net → Spec.ImgOK env (Spec.snapImg net) := by
  induction net with
  | flatten rest => intro h hf; exact snap_ok env rest h hf
  | @conv C H W O g p C' H' W' mode w name depth scale we bias be rest ih =>
      intro h hf
      obtain ⟨g1, g2, g3, g4, h1, h2, h3, h4, h5, h6, h7⟩ := h
      obtain ⟨f1, f2, f3⟩ := hf
      refine ⟨g1, g2, g3, g4, h1, h2, h3, h4, fun o c i j ho hc hi hj => ?_, fun v hv o => ?_, ih h7 f3⟩
      · show -1 ≤ Spec.storedF mode w (we o c i j) ∧ Spec.storedF mode w (we o c i j) ≤ 1
        rw [storedF_eq h1]; exact (storedB_near w _ (f1 o c i j ho hc hi hj) (h5 o c i j ho hc hi hj)).2
      · cases be with
        | none => cases hv
        | some b => cases hv; beta_reduce; rw [storedF_eq h1]; exact (storedB_near w _ (f2 b rfl o) (h6 b rfl o)).2
  | relu d rest ih => intro h hf; exact ih h hf
  | hardtanh rest ih => intro h hf; exact ih h hf
  | hardsigmoid mode depth rest ih => intro h hf; exact ih h hf

private theorem snapImg_dev {C H W O : ℕ} (net : ImgLayers C H W O) : ∀ K, Spec.imgDev (Spec.snapImg net) K = Spec.imgDev net K ∧
    (Spec.ImgRoom (Spec.snapImg net) K ↔ Spec.ImgRoom net K) := by
  induction net with
  | flatten rest => intro K; exact snap_dev rest K
  | conv g p C' H' W' mode w name depth scale we bias be rest ih =>
      intro K; simp only [Spec.snapImg, Spec.imgDev, Spec.ImgRoom]; exact ⟨(ih _).1, and_congr Iff.rfl (ih _).2⟩
  | relu d rest ih => intro K; simp only [Spec.snapImg, Spec.imgDev, Spec.ImgRoom]; exact ⟨(ih _).1, and_congr Iff.rfl (and_congr Iff.rfl (ih _).2)⟩
  | hardtanh rest ih => intro K; simp only [Spec.snapImg, Spec.imgDev, Spec.ImgRoom]; exact ih K
  | hardsigmoid mode depth rest ih => intro K; simp only [Spec.snapImg, Spec.imgDev, Spec.ImgRoom]; exact ⟨(ih _).1, and_congr Iff.rfl (ih _).2⟩

private theorem imgVal_near (env : Gen.Env) {C H W O : ℕ} (net : ImgLayers C H W O) :
    Spec.ImgOK env net → Spec.ImgF32 net → ∀ (v v' : ℕ → ℕ → ℕ → ℚ) (e : ℚ), 0 ≤ e → (∀ c i j, c < C → i < H → j < W → |v c i j| ≤ 1) →
    (∀ c i j, c < C → i < H → j < W → |v c i j - v' c i j| ≤ e) →
    ∀ o, |Spec.imgVal storedB net v o - Spec.imgVal (fun _ a => a) net v' o| ≤ Spec.imgErrBy Spec.convErr net e := by
  induction net with
  | @flatten C H W O rest =>
      intro hok hf v v' e he hv h
      have hk : ∀ k : Fin (C * H * W), (k / (H * W) < C) ∧ (k / W % H < H) ∧ (k % W < W) := fun k => by
        obtain ⟨ha, hb, hc⟩ := flat_lt k.2
        exact ⟨hc, Nat.mod_lt _ ha, Nat.mod_lt _ hb⟩
      exact netVal_near env rest hok hf _ _ e he (fun k => hv _ _ _ (hk k).1 (hk k).2.1 (hk k).2.2)
        (fun k => h _ _ _ (hk k).1 (hk k).2.1 (hk k).2.2)
  | @conv C H W O g p C' H' W' mode w name depth scale we bias be rest ih =>
      intro hok hf v v' e he hv h
      obtain ⟨-, -, -, -, -, -, -, hS, hwe, hbe, hok'⟩ := hok
      obtain ⟨f1, f2, f3⟩ := hf
      set S := scale.getD (Spec.fanIn (C * g.kh * g.kw) bias) with hSd
      have hP : (0:ℚ) ≤ Spec.convErr w := by unfold Spec.convErr; positivity
      refine ih hok' f3 _ _ _ (div_nonneg (add_nonneg (mul_nonneg (Nat.cast_nonneg _) (by linarith)) (by split_ifs <;> linarith)) hS.le)
        (fun c i j hc _ _ => by rw [dif_pos hc]; exact clip_abs _) (fun o y x ho _ _ => ?_)
      rw [dif_pos ho, dif_pos ho]
      refine le_trans (clip_lip _ _ _ _) ?_
      rw [← sub_div, abs_div, abs_of_pos hS]
      apply div_le_div_of_nonneg_right _ hS.le
      have h1 : |Spec.conv (Spec.padded g p) C H W id (storedB w) (fun _ => v) we 0 o y x
          - Spec.conv (Spec.padded g p) C H W id (fun a => a) (fun _ => v') we 0 o y x| ≤ (C * g.kh * g.kw : ℕ) * (e + Spec.convErr w) := by
        unfold Spec.conv
        show |∑ c ∈ range C, ∑ i ∈ range g.kh, ∑ j ∈ range g.kw, _ - ∑ c ∈ range C, ∑ i ∈ range g.kh, ∑ j ∈ range g.kw, _| ≤ _
        have : ∀ c ∈ range C, ∀ i ∈ range g.kh, ∀ j ∈ range g.kw,
            |Spec.tap (Spec.padded g p) H W 0 (v c) y x i j * storedB w (we o c i j)
              - Spec.tap (Spec.padded g p) H W 0 (v' c) y x i j * we o c i j| ≤ e + Spec.convErr w := by
          intro c hc i hi j hj
          rw [mem_range] at hc hi hj
          have ht : |Spec.tap (Spec.padded g p) H W 0 (v c) y x i j| ≤ 1 ∧
              |Spec.tap (Spec.padded g p) H W 0 (v c) y x i j - Spec.tap (Spec.padded g p) H W 0 (v' c) y x i j| ≤ e := by
            rcases tap_cases (Spec.padded g p) H W y x i j with ⟨Y, X, hY, hX, ht⟩ | ht
            · rw [ht ℚ 0 (v c), ht ℚ 0 (v' c)]
              exact ⟨hv c Y X hc hY hX, h c Y X hc hY hX⟩
            · rw [ht ℚ 0 (v c), ht ℚ 0 (v' c)]
              simpa using he
          generalize Spec.tap (Spec.padded g p) H W 0 (v c) y x i j = a at ht ⊢
          generalize Spec.tap (Spec.padded g p) H W 0 (v' c) y x i j = a' at ht ⊢
          have e1 : a * storedB w (we o c i j) - a' * we o c i j
              = a * (storedB w (we o c i j) - we o c i j) + (a - a') * we o c i j := by ring
          rw [e1]
          refine le_trans (abs_add_le _ _) ?_
          rw [abs_mul, abs_mul]
          have a1 := (storedB_near w (we o c i j) (f1 o c i j ho hc hi hj) (hwe o c i j ho hc hi hj)).1
          have a2 : |we o c i j| ≤ 1 := abs_le.2 (hwe o c i j ho hc hi hj)
          have b1 := mul_le_mul ht.1 a1 (abs_nonneg _) (by norm_num)
          have b2 := mul_le_mul ht.2 a2 (abs_nonneg _) he
          linarith
        simp only [← sum_sub_distrib, id]
        refine le_trans (abs_sum_le_sum_abs _ _) ?_
        refine le_trans (sum_le_sum fun c hc => le_trans (abs_sum_le_sum_abs _ _)
          (sum_le_sum fun i hi => le_trans (abs_sum_le_sum_abs _ _) (sum_le_sum fun j hj => this c hc i hi j hj))) ?_
        simp only [sum_const, card_range, nsmul_eq_mul]
        push_cast
        apply le_of_eq; ring
      have h2 : |(if bias then storedB w ((be.getD fun _ => 0) ⟨o, ho⟩) else 0) - (if bias then (be.getD fun _ => 0) ⟨o, ho⟩ else 0)|
          ≤ if bias then Spec.convErr w else 0 := by
        split_ifs
        · cases be with
          | none => exact (storedB_near w 0 ⟨0, 0, by norm_num, by norm_num, by simp⟩ (by norm_num)).1
          | some b => exact (storedB_near w _ (f2 b rfl _) (hbe b rfl _)).1
        · simp
      have e2 : ∀ a b c d : ℚ, a + b - (c + d) = (a - c) + (b - d) := fun a b c d => by ring
      rw [e2]
      exact le_trans (abs_add_le _ _) (add_le_add h1 h2)
  | relu d rest ih =>
      intro hok hf v v' e he hv h
      refine ih hok hf _ _ e he (fun c i j hc hi hj => ?_) (fun c i j hc hi hj => ?_)
      · have := abs_le.1 (hv c i j hc hi hj)
        exact abs_le.2 ⟨le_trans (by norm_num) (le_max_left _ _), max_le (by norm_num) this.2⟩
      · rw [max_comm, max_comm 0 (v' c i j)]
        exact le_trans (abs_max_sub_max_le_abs _ _ _) (h c i j hc hi hj)
  | hardtanh rest ih =>
      intro hok hf v v' e he hv h
      exact ih hok hf _ _ e he (fun c i j _ _ _ => clip_abs _) (fun c i j hc hi hj => le_trans (clip_lip _ _ _ _) (h c i j hc hi hj))
  | hardsigmoid mode depth rest ih =>
      intro hok hf v v' e he hv h
      refine ih hok hf _ _ (e / 2) (by linarith) (fun c i j hc hi hj => ?_) (fun c i j hc hi hj => ?_)
      · exact abs_le.2 ⟨le_trans (by norm_num) (le_max_left _ _), max_le (by norm_num) (min_le_right _ _)⟩
      · refine le_trans (clip_lip _ _ _ _) ?_
        rw [show (v c i j + 1) / 2 - (v' c i j + 1) / 2 = (v c i j - v' c i j) / 2 by ring, abs_div, abs_of_pos (by norm_num : (0:ℚ) < 2)]
        exact div_le_div_of_nonneg_right (h c i j hc hi hj) (by norm_num)

/-- C97, end to end in binary32 for images with pixels in `[-1, 1]`. -/
theorem C97_images_end_to_end {N : ℕ} (hN : 0 < N) (env : Gen.Env) (hdir : Gen.DirOK env.sobolM) {C H W O : ℕ} (net : ImgLayers C H W O)
    {M : RMachine Img (List (Fin O → ℤ))} (hM : FloatNet.buildImg env N net = .ok M) (hok : Spec.ImgOK env net) (hf : Spec.ImgF32 net)
    (hfit : Spec.ImgFits env net) (w0 : ℕ) (hw1 : 1 ≤ w0) (hw24 : w0 ≤ 24) (hw0 : w0 ≤ env.maxbit) (name : String) (hn : name.toLower ∈ ["sobol", "rc"])
    (hroom : Spec.ImgRoom net (4 * w0)) (a : ℕ → ℕ → ℕ → ℕ → ℚ)
    (ha : ∀ n c i j, n < N → c < C → i < H → j < W → (-1 ≤ a n c i j ∧ a n c i j ≤ 1) ∧ Verif.Spec.IsF32 (a n c i j)) :
    ∃ l, Gen.rng env w0 name = .ok l ∧
      (∃ out, M.Run (fun t n c i j => Gen.bsGen (FloatNet.seq l) (Float.binGen .bipolar w0 (a n c i j)) t) out) ∧
      ∀ out, M.Run (fun t n c i j => Gen.bsGen (FloatNet.seq l) (Float.binGen .bipolar w0 (a n c i j)) t) out →
        ∃ y : Fin N → Fin O → ℕ → ℤ, (∀ t, out t = List.ofFn fun n o => y n o t) ∧
        ∀ n o (T : ℕ), 0 < T → |Verif.Spec.biValue (y n o) T - Spec.imgVal (fun _ c => c) net (a n) o|
          ≤ Spec.imgErrBy Spec.convErr net (Spec.convErr w0) + Spec.imgDev net (4 * w0) / T := by
  obtain ⟨l, hl, hnet⟩ := C08_net env w0 name hn hdir hw0
  obtain ⟨M', hM', hag⟩ := C97_images hN env net M hM hfit
  have hK : (1:ℚ) ≤ 4 * w0 := by
    have : (1:ℚ) ≤ w0 := by exact_mod_cast hw1
    linarith
  have hin : Spec.Bits (fun t n c i j => Gen.bsGen l (Float.binGen .bipolar w0 (a n c i j)) t) := fun t n c i j => isBit_ind _
  refine ⟨l, hl, ?_⟩
  rw [seq_exact (perm_fits hw24 (Gen.DyadicNet.isPermSeq hnet))]
  refine ⟨hag.runs _ hin, fun out hout => ?_⟩
  have hq : ∀ n c i j, n < N → c < C → i < H → j < W → |storedB w0 (a n c i j)| ≤ 1 :=
    fun n c i j hn hc hi hj => abs_le.2 (storedB_near w0 _ (ha n c i j hn hc hi hj).2 (ha n c i j hn hc hi hj).1).2
  obtain ⟨y, h1, h2⟩ := C73_network hN env hdir (Spec.snapImg net) M' hM' (snapImg_ok env net hok hf) (4 * w0) hK ((snapImg_dev net _).2.2 hroom)
    (fun t n c i j => Gen.bsGen l (Float.binGen .bipolar w0 (a n c i j)) t) (fun n c i j _ _ _ _ t => isBit_ind _)
    (fun n c i j => storedB w0 (a n c i j)) hq (fun n c i j hn hc hi hj => by
      obtain ⟨⟨a1, a2⟩, a3⟩ := ha n c i j hn hc hi hj
      obtain ⟨-, r1, r2, -⟩ := C70_bipolar w0 (a n c i j) a3 a1 a2
      exact (C61_source hnet r1 r2).2)
  refine ⟨y, fun t => Except.ok.inj (((hag.same _ hin out hout).1 t).symm.trans (h1 t)), fun n o T hT => ?_⟩
  have h3 := C60_bipolar_value (h2 n o).2 hT
  rw [imgVal_snap env N net hok M' hM', (snapImg_dev net _).1] at h3
  have h4 := imgVal_near env net hok hf (fun c i j => storedB w0 (a n c i j)) (a n) (Spec.convErr w0) (by unfold Spec.convErr; positivity)
    (fun c i j hc hi hj => hq n c i j n.2 hc hi hj)
    (fun c i j hc hi hj => (storedB_near w0 _ (ha n c i j n.2 hc hi hj).2 (ha n c i j n.2 hc hi hj).1).1) o
  have e : Verif.Spec.biValue (y n o) T - Spec.imgVal (fun _ c => c) net (a n) o
      = (Verif.Spec.biValue (y n o) T - Spec.imgVal storedB net (fun c i j => storedB w0 (a n c i j)) o)
        + (Spec.imgVal storedB net (fun c i j => storedB w0 (a n c i j)) o - Spec.imgVal (fun _ c => c) net (a n) o) := by ring
  rw [e]
  refine le_trans (abs_add_le _ _) ?_
  linarith

/-- Non-vacuity: the chain of `Verif.Props.Network` and the one of `Verif.Props.ImgNetwork`. -/
private def sampleF : Layers 2 1 :=
  .linear "bipolar" 3 "Sobol" 12 none (fun _ i => if i = 0 then 1/2 else -3/4) true (some fun (_ : Fin 1) => 1/4)
    (.relu 8 (.linear "bipolar" 3 "Sobol" 14 (some 1) (fun _ _ => -1/2) false none (.hardsigmoid "bipolar" 8 (.hardtanh .done))))

private def sampleI : ImgLayers 1 2 2 2 :=
  .conv ⟨2, 2, 1, 1, 1, 1, 1, 1⟩ 1 1 3 3 "bipolar" 3 "Sobol" 12 none (fun _ _ i j => if i = j then 1/2 else -1) true (some fun _ => 1/4)
    (.relu 9 (.flatten (.linear "bipolar" 3 "Sobol" 14 (some 1) (fun o k => if k = 4 then 1 else (if o = 0 then 0 else 1/2)) false none .done)))

private theorem fits_nat (n : ℕ) (S : ℤ) (d : ℕ) (h : 2 * (n:ℚ) + |(S:ℚ)| + (2:ℚ) ^ ((d:ℤ) - 2) ≤ 2 ^ 23) (hd : 1 ≤ d) : Spec.Fits n S d :=
  ⟨-1, by norm_num, by norm_num, by omega, ⟨n, by norm_num⟩, ⟨S, by norm_num⟩, by norm_num at h ⊢; linarith⟩

private theorem f32_quarters {a : ℚ} (k : ℤ) (h : |k| ≤ 2 ^ 24) (ha : a = k / 4) : Verif.Spec.IsF32 a :=
  ⟨k, -2, h, by norm_num, by rw [ha]; norm_num; ring⟩

example : Spec.NetFits ⟨30, fun _ => 1, fun _ _ => false, []⟩ sampleF ∧ Spec.NetF32 sampleF ∧ Spec.NetConverts sampleF ∧ Spec.NetRoom sampleF (4 * (3:ℕ)) ∧
    Spec.NetOK ⟨30, fun _ => 1, fun _ _ => false, []⟩ sampleF ∧ (FloatNet.build ⟨30, fun _ => 1, fun _ _ => false, []⟩ sampleF).toBool = true := by
  refine ⟨?_, ?_, ?_, ?_, ?_, ?_⟩
  · simp only [sampleF, Spec.NetFits, and_true]
    have hs : Spec.SeqFits ⟨30, fun _ => 1, fun _ _ => false, []⟩ 3 "Sobol" :=
      C97_sequences _ 3 (by norm_num) _ (Or.inl ⟨by decide +kernel, fun j => ⟨rfl, Nat.one_lt_two_pow (by omega)⟩, by norm_num⟩)
    exact ⟨hs, fits_nat 3 3 12 (by norm_num) (by norm_num), by norm_num, by norm_num, hs, by simpa [Spec.fanIn] using fits_nat 1 1 14 (by norm_num) (by norm_num),
      by norm_num, by norm_num⟩
  · simp only [sampleF, Spec.NetF32, and_true]
    refine ⟨fun o i => ?_, fun v hv o => ?_, fun o i => ?_, fun v hv => by cases hv⟩
    · split_ifs
      · exact f32_quarters 2 (by norm_num) (by norm_num)
      · exact f32_quarters (-3) (by norm_num) (by norm_num)
    · cases hv; exact f32_quarters 1 (by norm_num) (by norm_num)
    · exact f32_quarters (-2) (by norm_num) (by norm_num)
  · have g : ∀ a : ℚ, ∀ k : ℤ, 0 ≤ k → k ≤ 8 → a = 2 * k / 2 ^ 3 - 1 → Float.binGen .bipolar 3 a = Gen.binGenM .bipolar 3 a := by
      intro a k h0 h8 ha
      rw [ha, C70_grid 3 (by norm_num) k h0 (by norm_num; omega)]
      have : k = 0 ∨ k = 1 ∨ k = 2 ∨ k = 3 ∨ k = 4 ∨ k = 5 ∨ k = 6 ∨ k = 7 ∨ k = 8 := by omega
      rcases this with h | h | h | h | h | h | h | h | h <;> subst h <;> decide +kernel
    simp only [sampleF, Spec.NetConverts, and_true]
    have hm : ∀ m, parseMode "bipolar" = .ok m → m = .bipolar := fun m h => by
      have : parseMode "bipolar" = .ok .bipolar := by decide +kernel
      exact (Except.ok.inj (this.symm.trans h)).symm
    refine ⟨fun m h => ?_, fun m h => ?_⟩
    · rw [hm m h]
      refine ⟨fun o i => ?_, fun v hv o => ?_⟩
      · split_ifs
        · exact g _ 6 (by norm_num) (by norm_num) (by norm_num)
        · exact g _ 1 (by norm_num) (by norm_num) (by norm_num)
      · cases hv; exact g _ 5 (by norm_num) (by norm_num) (by norm_num)
    · rw [hm m h]
      exact ⟨fun o i => g _ 2 (by norm_num) (by norm_num) (by norm_num), fun v hv => by cases hv⟩
  · norm_num [sampleF, Spec.NetRoom, Spec.linDev, Spec.fanIn]
  · simp only [sampleF, Spec.NetOK, and_true]
    refine ⟨by decide +kernel, by decide +kernel, by decide, by norm_num [Spec.fanIn], fun o i => ?_, fun v hv o => ?_, by decide +kernel, by decide +kernel, by decide,
      by norm_num, fun o i => by norm_num, fun v hv => by cases hv⟩
    · split_ifs <;> norm_num
    · cases hv; norm_num
  · decide +kernel

example : Spec.ImgFits ⟨30, fun _ => 1, fun _ _ => false, []⟩ sampleI ∧ Spec.ImgF32 sampleI ∧ Spec.ImgRoom sampleI (4 * (3:ℕ)) ∧ Spec.ImgOK ⟨30, fun _ => 1, fun _ _ => false, []⟩ sampleI ∧
    (FloatNet.buildImg ⟨30, fun _ => 1, fun _ _ => false, []⟩ 4 sampleI).toBool = true := by
  refine ⟨?_, ?_, ?_, ?_, ?_⟩
  · simp only [sampleI, Spec.ImgFits, Spec.NetFits, and_true]
    have hs : Spec.SeqFits ⟨30, fun _ => 1, fun _ _ => false, []⟩ 3 "Sobol" :=
      C97_sequences _ 3 (by norm_num) _ (Or.inl ⟨by decide +kernel, fun j => ⟨rfl, Nat.one_lt_two_pow (by omega)⟩, by norm_num⟩)
    exact ⟨by simp [Spec.GeoOK, Spec.AxisOK, Spec.padded], by decide, by decide, by decide, hs, fits_nat 5 5 12 (by norm_num) (by norm_num), by norm_num, by norm_num, hs,
      by simpa [Spec.fanIn] using fits_nat 9 1 14 (by norm_num) (by norm_num)⟩
  · simp only [sampleI, Spec.ImgF32, Spec.NetF32, and_true]
    refine ⟨fun o c i j _ _ _ _ => ?_, fun v hv o => ?_, fun o k => ?_, fun v hv => by cases hv⟩
    · split_ifs
      · exact f32_quarters 2 (by norm_num) (by norm_num)
      · exact f32_quarters (-4) (by norm_num) (by norm_num)
    · cases hv; exact f32_quarters 1 (by norm_num) (by norm_num)
    · split_ifs
      · exact f32_quarters 4 (by norm_num) (by norm_num)
      · exact f32_quarters 0 (by norm_num) (by norm_num)
      · exact f32_quarters 2 (by norm_num) (by norm_num)
  · norm_num [sampleI, Spec.ImgRoom, Spec.NetRoom, Spec.linDev, Spec.fanIn]
  · simp only [sampleI, Spec.ImgOK, Spec.NetOK, and_true]
    refine ⟨by simp [Spec.GeoOK, Spec.AxisOK, Spec.padded], by decide, by decide, by decide, by decide +kernel, by decide +kernel, by decide,
      by norm_num [Spec.fanIn], fun o c i j _ _ _ _ => ?_, fun v hv o => ?_, by decide +kernel, by decide +kernel, by decide,
      by norm_num, fun o i => ?_, fun v hv => by cases hv⟩
    · split_ifs <;> norm_num
    · cases hv; norm_num
    · split_ifs <;> norm_num
  · decide +kernel

end Verif.Props
