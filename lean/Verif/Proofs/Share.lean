import Verif.Model.Share
import Mathlib.Data.List.Nodup

/-!
# Sharing of memory: from one call to all executions
-/

namespace Verif.Spec

open Verif.Share


/-- One deed when tensors are values: a write changes the one tensor written to, a call adds its
results and changes nothing the caller holds. -/
def valueAct {σ τ V : Type} (step : σ → τ → List V → σ × List V) (w : σ × List V) :
    Deed τ V → σ × List V
  | .make v => (w.1, w.2 ++ [v])
  | .poke k v => (w.1, w.2.set k v)
  | .call m ks =>
    let r := step w.1 m (ks.filterMap fun k => w.2[k]?)
    (r.1, w.2 ++ r.2)

/-- What the caller holds after a list of deeds when tensors are values. -/
def valueRead {σ τ V : Type} (step : σ → τ → List V → σ × List V) (w : σ × List V)
    (ds : List (Deed τ V)) : List V :=
  (ds.foldl (valueAct step) w).2

/-- A step with one tensor argument, on lists of arguments; a wrong number of arguments raises
before anything happens. -/
def onOne {σ τ V : Type} (f : σ → τ → V → σ × List V) (s : σ) (t : τ) (vs : List V) : σ × List V :=
  match vs with
  | [x] => f s t x
  | _ => (s, [])

/-- The same with two tensor arguments. -/
def onTwo {σ τ V : Type} (f : σ → τ → V → V → σ × List V) (s : σ) (t : τ) (vs : List V) : σ × List V :=
  match vs with
  | [x, y] => f s t x y
  | _ => (s, [])


end Verif.Spec

namespace Verif.Share

open Verif


/-! ## From one call to all executions -/

/-- `o` is an object of the caller: it exists, it is no parameter and no parameter shares its
storage. -/
def Outside (ps : List ℕ) (h : Mem) (o : ℕ) : Prop :=
  o < h.next ∧ h.st o < h.next ∧ o ∉ ps ∧ ∀ p ∈ ps, h.st p ≠ h.st o

/-- What one call leaves alone, and where its results are. -/
def Kept (ps : List ℕ) (h h' : Mem) (outs : List ℕ) : Prop :=
  h.next ≤ h'.next ∧
  (∀ o, o < h.next → o ∉ ps → h'.obj o = h.obj o) ∧
  (∀ c, c < h.next → (∀ p ∈ ps, h.st p ≠ c) → h'.cell c = h.cell c) ∧
  (∀ p ∈ ps, h'.st p < h'.next ∧ (h.next ≤ h'.st p ∨ ∃ q ∈ ps, h'.st p = h.st q)) ∧
  (outs.map h'.st).Nodup ∧
  (∀ o ∈ outs, h.next ≤ o ∧ o < h'.next ∧ h'.st o < h'.next ∧
    (h.next ≤ h'.st o ∨ ∃ q ∈ ps, h'.st o = h.st q) ∧ ∀ p ∈ ps, h'.st p ≠ h'.st o)

theorem kept_refl {ps : List ℕ} {h : Mem} (hp : ∀ p ∈ ps, p < h.next ∧ h.st p < h.next) :
    Kept ps h h [] :=
  ⟨le_refl _, fun _ _ _ => rfl, fun _ _ _ => rfl, fun p h1 => ⟨(hp p h1).2, Or.inr ⟨p, h1, rfl⟩⟩,
    List.nodup_nil, fun _ h1 => absurd h1 (List.not_mem_nil)⟩

theorem kept_trans {ps : List ℕ} {h h1 h2 : Mem} {outs : List ℕ} (a : Kept ps h h1 [])
    (b : Kept ps h1 h2 outs) : Kept ps h h2 outs := by
  obtain ⟨a1, a2, a3, a4, -, -⟩ := a
  obtain ⟨b1, b2, b3, b4, b5, b6⟩ := b
  refine ⟨le_trans a1 b1, ?_, ?_, ?_, b5, ?_⟩
  · intro o ho hp
    rw [b2 o (lt_of_lt_of_le ho a1) hp, a2 o ho hp]
  · intro c hc hp
    rw [b3 c (lt_of_lt_of_le hc a1) ?_, a3 c hc hp]
    intro p h3
    rcases (a4 p h3).2 with h4 | ⟨q, hq, h4⟩
    · omega
    · rw [h4]; exact hp q hq
  · intro p h3
    refine ⟨(b4 p h3).1, ?_⟩
    rcases (b4 p h3).2 with h4 | ⟨q, hq, h4⟩
    · left; omega
    · rw [h4]; exact (a4 q hq).2
  · intro o h3
    obtain ⟨c1, c2, c3, c4, c5⟩ := b6 o h3
    refine ⟨le_trans a1 c1, c2, c3, ?_, c5⟩
    rcases c4 with h4 | ⟨q, hq, h4⟩
    · left; omega
    · rw [h4]; exact (a4 q hq).2

/-- A tensor of the caller is still one after a call, with the same value. -/
theorem kept_outside {ps : List ℕ} {h h1 : Mem} {outs : List ℕ} (a : Kept ps h h1 outs) {o : ℕ}
    (ho : Outside ps h o) : Outside ps h1 o ∧ h1.val o = h.val o := by
  obtain ⟨a1, a2, a3, a4, -, -⟩ := a
  obtain ⟨o1, o2, o3, o4⟩ := ho
  have e := a2 o o1 o3
  have e' : h1.st o = h.st o := by show (h1.obj o).stor = (h.obj o).stor; rw [e]
  refine ⟨⟨lt_of_lt_of_le o1 a1, ?_, o3, ?_⟩, ?_⟩
  · rw [e']; exact lt_of_lt_of_le o2 a1
  · intro p h3
    rw [e']
    rcases (a4 p h3).2 with h4 | ⟨q, hq, h4⟩
    · omega
    · rw [h4]; exact o4 q hq
  · show h1.cell (h1.obj o).stor _ = h.cell (h.obj o).stor _
    rw [e]
    show h1.cell (h.st o) _ = h.cell (h.st o) _
    rw [a3 _ o2 o4]

theorem kept_priv {ps : List ℕ} {h h1 : Mem} {outs : List ℕ} (a : Kept ps h h1 outs)
    (hp : ∀ p ∈ ps, p < h.next ∧ h.st p < h.next) : ∀ p ∈ ps, p < h1.next ∧ h1.st p < h1.next :=
  fun p h3 => ⟨lt_of_lt_of_le (hp p h3).1 a.1, (a.2.2.2.1 p h3).1⟩

theorem kept_drop {ps : List ℕ} {h h1 : Mem} {outs : List ℕ} (a : Kept ps h h1 outs) :
    Kept ps h h1 [] :=
  ⟨a.1, a.2.1, a.2.2.1, a.2.2.2.1, List.nodup_nil, fun _ h3 => absurd h3 (List.not_mem_nil)⟩

theorem kept_new {ps : List ℕ} {h h1 : Mem} {outs : List ℕ} (a : Kept ps h h1 outs)
    (hp : ∀ p ∈ ps, p < h.next ∧ h.st p < h.next) {o : ℕ} (ho : o ∈ outs) : Outside ps h1 o := by
  obtain ⟨c1, c2, c3, c4, c5⟩ := a.2.2.2.2.2 o ho
  exact ⟨c2, c3, fun hm => by have := (hp o hm).1; omega, c5⟩

/-- Results of an earlier part of a call are results of the call. -/
theorem kept_later {ps : List ℕ} {h h1 h2 : Mem} {outs : List ℕ} (a : Kept ps h h1 outs)
    (b : Kept ps h1 h2 []) (hp : ∀ p ∈ ps, p < h.next ∧ h.st p < h.next) : Kept ps h h2 outs := by
  have c := kept_trans (kept_drop a) b
  have hst : ∀ o ∈ outs, h2.st o = h1.st o := fun o ho => by
    have n := kept_new a hp ho
    show (h2.obj o).stor = (h1.obj o).stor
    rw [b.2.1 o n.1 n.2.2.1]
  refine ⟨c.1, c.2.1, c.2.2.1, c.2.2.2.1, ?_, ?_⟩
  · rw [List.map_congr_left hst]; exact a.2.2.2.2.1
  · intro o ho
    have n := (kept_outside b (kept_new a hp ho)).1
    obtain ⟨c1, c2, c3, c4, c5⟩ := a.2.2.2.2.2 o ho
    exact ⟨c1, n.1, n.2.1, by rw [hst o ho]; exact c4, n.2.2.2⟩

/-- A part of a module keeps what the whole has to keep. -/
theorem kept_mono {ps ps' : List ℕ} {h h1 : Mem} (a : Kept ps h h1 []) (hs : ∀ p ∈ ps, p ∈ ps')
    (hp : ∀ p ∈ ps', p < h.next ∧ h.st p < h.next) : Kept ps' h h1 [] := by
  obtain ⟨a1, a2, a3, a4, -, -⟩ := a
  refine ⟨a1, fun o h2 h3 => a2 o h2 fun hm => h3 (hs o hm), fun c h2 h3 => a3 c h2 fun p hm => h3 p (hs p hm),
    fun p h2 => ?_, List.nodup_nil, fun _ h3 => absurd h3 (List.not_mem_nil)⟩
  by_cases hm : p ∈ ps
  · refine ⟨(a4 p hm).1, ?_⟩
    rcases (a4 p hm).2 with h4 | ⟨q, hq, h4⟩
    · exact Or.inl h4
    · exact Or.inr ⟨q, hs q hq, h4⟩
  · have e : h1.st p = h.st p := by
      show (h1.obj p).stor = (h.obj p).stor
      rw [a2 p (hp p h2).1 hm]
    rw [e]
    exact ⟨lt_of_lt_of_le (hp p h2).2 a1, Or.inr ⟨p, h2, rfl⟩⟩

/-- What one call has to keep. -/
structure Contract {L τ V σ : Type} (m : Module L τ) (emb : V → ℚ)
    (step : σ → τ → List V → σ × List V) (R : L → Mem → σ → Prop) : Prop where
  frame : ∀ l h h' s, R l h s → (∀ p ∈ m.ps, h'.obj p = h.obj p) →
    (∀ p ∈ m.ps, h'.cell (h.st p) = h.cell (h.st p)) → R l h' s
  call : ∀ l h s t args vs, R l h s → (∀ p ∈ m.ps, p < h.next ∧ h.st p < h.next) →
    (∀ o ∈ args, Outside m.ps h o) → args.map h.val = vs.map emb →
    Kept m.ps h (m.call l h t args).2.1 (m.call l h t args).2.2 ∧
    R (m.call l h t args).1 (m.call l h t args).2.1 (step s t vs).1 ∧
    (m.call l h t args).2.2.map (m.call l h t args).2.1.val = (step s t vs).2.map emb

/-- The state of the world between two deeds. -/
structure Good {L τ V σ : Type} (m : Module L τ) (emb : V → ℚ) (R : L → Mem → σ → Prop)
    (w : World L) (v : σ × List V) : Prop where
  priv : ∀ p ∈ m.ps, p < w.h.next ∧ w.h.st p < w.h.next
  out : ∀ o ∈ w.held, Outside m.ps w.h o
  nodup : (w.held.map w.h.st).Nodup
  vals : w.held.map w.h.val = v.2.map emb
  rel : R w.l w.h v.1

theorem filterMap_get {α β γ : Type} (f : α → γ) (g : β → γ) (xs : List α) (ys : List β)
    (h : xs.map f = ys.map g) (ks : List ℕ) :
    (ks.filterMap fun k => xs[k]?).map f = (ks.filterMap fun k => ys[k]?).map g := by
  induction ks with
  | nil => rfl
  | cons k ks ih =>
    have hk : (xs.map f)[k]? = (ys.map g)[k]? := by rw [h]
    rw [List.getElem?_map, List.getElem?_map] at hk
    rw [List.filterMap_cons, List.filterMap_cons]
    cases hx : xs[k]? with
    | none =>
      cases hy : ys[k]? with
      | none => simpa using ih
      | some y => rw [hx, hy] at hk; cases hk
    | some x =>
      cases hy : ys[k]? with
      | none => rw [hx, hy] at hk; cases hk
      | some y =>
        rw [hx, hy] at hk
        have hk' : f x = g y := Option.some.inj hk
        simp only [List.map_cons, hk', ih]

theorem good_act {L τ V σ : Type} {m : Module L τ} {emb : V → ℚ}
    {step : σ → τ → List V → σ × List V} {R : L → Mem → σ → Prop} (c : Contract m emb step R)
    (w : World L) (v : σ × List V) (g : Good m emb R w v) (d : Deed τ V) :
    Good m emb R (World.act m emb w d) (Spec.valueAct step v d) := by
  obtain ⟨l, h, held⟩ := w
  obtain ⟨s, vs⟩ := v
  obtain ⟨hp, ho, hn, hv, hr⟩ := g
  dsimp only at hp ho hn hv hr
  cases d with
  | make x =>
    have hst : ∀ o, o < h.next → (h.one (emb x)).1.st o = h.st o := by
      intro o h1
      simp only [Mem.one, Mem.new, Mem.st]
      rw [Function.update_of_ne (by omega)]
    have hval : ∀ o, o < h.next → h.st o < h.next → (h.one (emb x)).1.val o = h.val o := by
      intro o h1 h2
      simp only [Mem.one, Mem.new, Mem.val, Mem.get]
      simp only [Mem.st] at h2
      rw [Function.update_of_ne (show o ≠ h.next by omega), Function.update_of_ne (by omega)]
    have hs : (h.one (emb x)).1.st h.next = h.next := by simp [Mem.one, Mem.new, Mem.st]
    have hw : (h.one (emb x)).1.val h.next = emb x := by simp [Mem.one, Mem.new, Mem.val, Mem.get]
    have hnx : (h.one (emb x)).1.next = h.next + 1 := rfl
    refine ⟨?_, ?_, ?_, ?_, ?_⟩
    · intro p h1
      have := hp p h1
      show p < (h.one (emb x)).1.next ∧ (h.one (emb x)).1.st p < (h.one (emb x)).1.next
      rw [hst p this.1, hnx]; omega
    · intro o h1
      have h1' : o ∈ held ∨ o = h.next := by simpa [World.act, Mem.one, Mem.new] using h1
      show o < (h.one (emb x)).1.next ∧ (h.one (emb x)).1.st o < (h.one (emb x)).1.next ∧ o ∉ m.ps ∧
        ∀ p ∈ m.ps, (h.one (emb x)).1.st p ≠ (h.one (emb x)).1.st o
      rcases h1' with h1' | h1'
      · obtain ⟨a, b, c, d⟩ := ho o h1'
        rw [hst o a, hnx]
        refine ⟨by omega, by omega, c, fun p hp' => ?_⟩
        rw [hst p (hp p hp').1]; exact d p hp'
      · subst h1'
        rw [hs, hnx]
        refine ⟨by omega, by omega, fun hm => ?_, fun p hp' => ?_⟩
        · have := (hp _ hm).1; omega
        · rw [hst p (hp p hp').1]; have := (hp p hp').2; omega
    · show ((held ++ [h.next]).map (h.one (emb x)).1.st).Nodup
      rw [List.map_append, List.map_cons, List.map_nil, hs,
        List.map_congr_left (fun o h1 => hst o (ho o h1).1)]
      refine List.nodup_append.mpr ⟨hn, List.nodup_singleton _, ?_⟩
      intro a ha b hb
      rw [List.mem_singleton] at hb
      obtain ⟨o, h1, h2⟩ := List.mem_map.mp ha
      have := (ho o h1).2.1
      omega
    · show (held ++ [h.next]).map (h.one (emb x)).1.val = (vs ++ [x]).map emb
      rw [List.map_append, List.map_append, List.map_cons, List.map_nil, hw,
        List.map_congr_left (fun o h1 => hval o (ho o h1).1 (ho o h1).2.1), hv]
      rfl
    · refine c.frame l h _ s hr (fun p h1 => ?_) (fun p h1 => ?_)
      · show Function.update h.obj h.next _ p = _
        have := (hp p h1).1
        rw [Function.update_of_ne (by omega)]
      · show Function.update h.cell h.next _ _ = _
        have := (hp p h1).2
        rw [Function.update_of_ne (by omega)]
  | poke k x =>
    have hlen : held.length = vs.length := by simpa using congrArg List.length hv
    show Good m emb R (match held[k]? with
      | some o => ⟨l, h.write o 0 (emb x), held⟩
      | none => ⟨l, h, held⟩) (s, vs.set k x)
    cases hk : held[k]? with
    | none =>
      have hk' : vs.length ≤ k := by
        rw [← hlen]; exact List.getElem?_eq_none_iff.mp hk
      dsimp only
      rw [List.set_eq_of_length_le hk']
      exact ⟨hp, ho, hn, hv, hr⟩
    | some o =>
      dsimp only
      have hmem : o ∈ held := List.mem_of_getElem? hk
      have hkl : k < held.length := (List.getElem?_eq_some_iff.mp hk).1
      have hke : held[k] = o := (List.getElem?_eq_some_iff.mp hk).2
      have hst : ∀ o', (h.write o 0 (emb x)).st o' = h.st o' := fun _ => rfl
      refine ⟨hp, ho, hn, ?_, ?_⟩
      · refine List.ext_getElem (by simp [hlen]) fun i h1 h2 => ?_
        have h3 : i < held.length := by simpa using h1
        have h4 : i < vs.length := by omega
        rw [List.getElem_map, List.getElem_map, List.getElem_set]
        by_cases hik : k = i
        · subst hik
          rw [if_pos rfl]
          show (h.write o 0 (emb x)).val held[k] = _
          rw [hke]
          simp [Mem.write, Mem.val, Mem.get]
        · rw [if_neg hik]
          have hne : h.st held[i] ≠ h.st o := by
            intro he
            have := (List.Nodup.getElem_inj_iff hn (i := i) (j := k) (hi := by simpa using h3)
              (hj := by simpa using hkl)).mp (by rw [List.getElem_map, List.getElem_map, hke]; exact he)
            omega
          have h5 : (h.write o 0 (emb x)).val held[i] = h.val held[i] := by
            simp only [Mem.write, Mem.val, Mem.get]
            rw [Function.update_of_ne (by simpa only [Mem.st] using hne)]
          show (h.write o 0 (emb x)).val held[i] = _
          rw [h5]
          have := List.getElem_of_eq hv (i := i) (by simpa using h3)
          simpa using this
      · refine c.frame l h _ s hr (fun p h1 => rfl) (fun p h1 => ?_)
        show Function.update h.cell _ _ _ = _
        rw [Function.update_of_ne]
        exact (ho o hmem).2.2.2 p h1
  | call t ks =>
    rcases hc : m.call l h t (ks.filterMap fun k => held[k]?) with ⟨l', h', outs⟩
    have hargs : ∀ o ∈ ks.filterMap (fun k => held[k]?), Outside m.ps h o := by
      intro o h1
      obtain ⟨k, -, hk⟩ := List.mem_filterMap.mp h1
      exact ho o (List.mem_of_getElem? hk)
    obtain ⟨⟨c1, c2, c3, c4, c7, c8⟩, c5, c6⟩ := c.call l h s t _ (ks.filterMap fun k => vs[k]?) hr hp hargs
      (filterMap_get _ _ _ _ hv ks)
    rw [hc] at c1 c2 c3 c4 c5 c6 c7 c8
    dsimp only at c1 c2 c3 c4 c5 c6 c7 c8
    show Good m emb R ⟨(m.call l h t (ks.filterMap fun k => held[k]?)).1,
      (m.call l h t (ks.filterMap fun k => held[k]?)).2.1,
      held ++ (m.call l h t (ks.filterMap fun k => held[k]?)).2.2⟩
      ((step s t (ks.filterMap fun k => vs[k]?)).1, vs ++ (step s t (ks.filterMap fun k => vs[k]?)).2)
    rw [hc]
    have hst : ∀ o ∈ held, h'.st o = h.st o := fun o h1 => by
      show (h'.obj o).stor = (h.obj o).stor
      rw [c2 o (ho o h1).1 (ho o h1).2.2.1]
    have hval : ∀ o ∈ held, h'.val o = h.val o := fun o h1 => by
      show h'.cell (h'.obj o).stor _ = h.cell (h.obj o).stor _
      rw [c2 o (ho o h1).1 (ho o h1).2.2.1]
      show h'.cell (h.st o) _ = h.cell (h.st o) _
      rw [c3 _ (ho o h1).2.1 (ho o h1).2.2.2]
    refine ⟨?_, ?_, ?_, ?_, c5⟩
    · intro p h1
      exact ⟨lt_of_lt_of_le (hp p h1).1 c1, (c4 p h1).1⟩
    · intro o h1
      rcases List.mem_append.mp h1 with h1 | h1
      · refine ⟨lt_of_lt_of_le (ho o h1).1 c1, ?_, (ho o h1).2.2.1, fun p hp' => ?_⟩
        · show h'.st o < h'.next
          rw [hst o h1]; exact lt_of_lt_of_le (ho o h1).2.1 c1
        · show h'.st p ≠ h'.st o
          rw [hst o h1]
          rcases (c4 p hp').2 with h2 | ⟨q, hq, h2⟩
          · have := (ho o h1).2.1; omega
          · rw [h2]; exact (ho o h1).2.2.2 q hq
      · refine ⟨(c8 o h1).2.1, (c8 o h1).2.2.1, fun hm => ?_, (c8 o h1).2.2.2.2⟩
        have := (hp o hm).1
        have := (c8 o h1).1
        omega
    · show ((held ++ outs).map h'.st).Nodup
      rw [List.map_append, List.map_congr_left hst]
      refine List.nodup_append.mpr ⟨hn, c7, ?_⟩
      intro a ha b hb
      obtain ⟨o, h1, rfl⟩ := List.mem_map.mp ha
      obtain ⟨o', h1', rfl⟩ := List.mem_map.mp hb
      rcases (c8 o' h1').2.2.2.1 with h2 | ⟨q, hq, h2⟩
      · have := (ho o h1).2.1; omega
      · rw [h2]; exact fun he => (ho o h1).2.2.2 q hq he.symm
    · show (held ++ outs).map h'.val = _
      rw [List.map_append, List.map_congr_left hval, hv, c6, ← List.map_append]

theorem good_run {L τ V σ : Type} {m : Module L τ} {emb : V → ℚ}
    {step : σ → τ → List V → σ × List V} {R : L → Mem → σ → Prop} (c : Contract m emb step R)
    (ds : List (Deed τ V)) : ∀ (w : World L) (v : σ × List V), Good m emb R w v →
    w.read m emb ds = (Spec.valueRead step v ds).map emb := by
  induction ds with
  | nil => intro w v g; exact g.vals
  | cons d ds ih => intro w v g; exact ih _ _ (good_act c w v g d)

/-! ## The converters -/

theorem truncZ_cast (n : ℤ) : truncZ (n : ℚ) = n := by
  unfold truncZ; split_ifs <;> simp

theorem truncZ_ind (p : Prop) [Decidable p] : truncZ (ind p) = ind p := by
  unfold ind; split_ifs
  · have := truncZ_cast 1; simpa using this
  · have := truncZ_cast 0; simpa using this

theorem ind_cast (p : Prop) [Decidable p] : ((ind p : ℤ) : ℚ) = ind p := by
  unfold ind; split_ifs <;> simp

/-- The module that holds one number in one parameter. -/
def Holds (acc : ℕ) : Unit → Mem → ℚ → Prop := fun _ h s => h.val acc = s

theorem holds_frame (acc : ℕ) (l : Unit) (h h' : Mem) (s : ℚ) (hr : Holds acc l h s)
    (h1 : ∀ p ∈ [acc], h'.obj p = h.obj p) (h2 : ∀ p ∈ [acc], h'.cell (h.st p) = h.cell (h.st p)) :
    Holds acc l h' s := by
  have a := h1 acc (List.mem_singleton_self _)
  have b := h2 acc (List.mem_singleton_self _)
  simp only [Holds, Mem.val, Mem.get, Mem.st] at hr b ⊢
  rw [a, b, hr]

theorem contract1 {L τ σ V : Type} {m : Module L τ} {emb : V → ℚ} {R : L → Mem → σ → Prop}
    (f : σ → τ → V → σ × List V)
    (fr : ∀ l h h' s, R l h s → (∀ p ∈ m.ps, h'.obj p = h.obj p) →
      (∀ p ∈ m.ps, h'.cell (h.st p) = h.cell (h.st p)) → R l h' s)
    (h0 : ∀ l h t args, args.length ≠ 1 → m.call l h t args = (l, h, []))
    (h1 : ∀ (l : L) (h : Mem) (s : σ) (t : τ) (x : ℕ) (v : V), R l h s →
      (∀ p ∈ m.ps, p < h.next ∧ h.st p < h.next) → Outside m.ps h x → h.val x = emb v →
      Kept m.ps h (m.call l h t [x]).2.1 (m.call l h t [x]).2.2 ∧
      R (m.call l h t [x]).1 (m.call l h t [x]).2.1 (f s t v).1 ∧
      (m.call l h t [x]).2.2.map (m.call l h t [x]).2.1.val = (f s t v).2.map emb) :
    Contract m emb (Spec.onOne f) R := by
  refine ⟨fr, ?_⟩
  intro l h s t args vs hr hp ha hv
  have hlen : args.length = vs.length := by simpa using congrArg List.length hv
  by_cases hl : args.length = 1
  · obtain ⟨x, rfl⟩ := List.length_eq_one_iff.mp hl
    obtain ⟨v, rfl⟩ := List.length_eq_one_iff.mp (hlen.symm.trans hl)
    exact h1 l h s t x v hr hp (ha x (List.mem_singleton_self _)) (by simpa using hv)
  · have e2 : Spec.onOne f s t vs = (s, []) := by
      rcases vs with _ | ⟨v, _ | ⟨v', vs⟩⟩
      · rfl
      · exact absurd hlen hl
      · rfl
    rw [h0 l h t args hl, e2]
    exact ⟨kept_refl hp, hr, rfl⟩

theorem contract2 {L τ σ V : Type} {m : Module L τ} {emb : V → ℚ} {R : L → Mem → σ → Prop}
    (f : σ → τ → V → V → σ × List V)
    (fr : ∀ l h h' s, R l h s → (∀ p ∈ m.ps, h'.obj p = h.obj p) →
      (∀ p ∈ m.ps, h'.cell (h.st p) = h.cell (h.st p)) → R l h' s)
    (h0 : ∀ l h t args, args.length ≠ 2 → m.call l h t args = (l, h, []))
    (h1 : ∀ (l : L) (h : Mem) (s : σ) (t : τ) (x y : ℕ) (v w : V), R l h s →
      (∀ p ∈ m.ps, p < h.next ∧ h.st p < h.next) → Outside m.ps h x → Outside m.ps h y →
      h.val x = emb v → h.val y = emb w →
      Kept m.ps h (m.call l h t [x, y]).2.1 (m.call l h t [x, y]).2.2 ∧
      R (m.call l h t [x, y]).1 (m.call l h t [x, y]).2.1 (f s t v w).1 ∧
      (m.call l h t [x, y]).2.2.map (m.call l h t [x, y]).2.1.val = (f s t v w).2.map emb) :
    Contract m emb (Spec.onTwo f) R := by
  refine ⟨fr, ?_⟩
  intro l h s t args vs hr hp ha hv
  have hlen : args.length = vs.length := by simpa using congrArg List.length hv
  by_cases hl : args.length = 2
  · obtain ⟨x, y, rfl⟩ := List.length_eq_two.mp hl
    obtain ⟨v, w, rfl⟩ := List.length_eq_two.mp (hlen.symm.trans hl)
    have hv' : h.val x = emb v ∧ h.val y = emb w := by simpa using hv
    exact h1 l h s t x y v w hr hp (ha x (by simp)) (ha y (by simp)) hv'.1 hv'.2
  · have e2 : Spec.onTwo f s t vs = (s, []) := by
      rcases vs with _ | ⟨v, _ | ⟨v', _ | ⟨v'', vs⟩⟩⟩
      · rfl
      · rfl
      · exact absurd hlen hl
      · rfl
    rw [h0 l h t args hl, e2]
    exact ⟨kept_refl hp, hr, rfl⟩

/-- Evaluate a program. -/
macro "mem_simp" : tactic => `(tactic|
  simp (disch := omega) only [Mem.one, Mem.new, Mem.setData, Mem.write, Mem.typed, Mem.val, Mem.get, Mem.st,
    Function.update_self, Function.update_of_ne, if_true, if_false, Bool.false_eq_true, ne_eq, List.map_cons,
    List.map_nil, add_zero, ↓reduceIte, Mem.view] at *)

macro "kept_tac" : tactic => `(tactic| (
  refine ⟨by dsimp only; omega, ?_, ?_, ?_, ?_, ?_⟩
  · intro o h1 h2
    simp only [List.mem_cons, List.not_mem_nil, or_false, not_or] at h2
    mem_simp
  · intro c h1 h2
    simp only [List.forall_mem_cons, List.not_mem_nil, false_imp_iff, implies_true, and_true, Mem.st] at h2
    mem_simp
  · simp only [List.forall_mem_cons, List.not_mem_nil, false_imp_iff, implies_true, and_true]
    and_intros <;> (try mem_simp) <;> first
      | omega
      | (left; omega)
      | (right; exact ⟨_, by simp, rfl⟩)
  · first
      | exact List.nodup_nil
      | (mem_simp; simp; done)
      | (mem_simp; simp; omega)
      | (mem_simp; done)
  · simp only [List.forall_mem_cons, List.not_mem_nil, false_imp_iff, implies_true, and_true] <;>
    and_intros <;> (try mem_simp) <;> first
      | omega
      | (left; omega)
      | (right; exact ⟨_, by simp, rfl⟩)))

macro "arity_tac" : tactic => `(tactic| (
  intro l h t args hl
  rcases args with _ | ⟨x, _ | ⟨y, _ | ⟨z, args⟩⟩⟩ <;> first
    | rfl
    | exact absurd rfl hl))

macro "outside_tac" : tactic => `(tactic|
  simp only [Outside, Holds, List.forall_mem_cons, List.not_mem_nil, false_imp_iff, implies_true, and_true,
    List.mem_cons, or_false, not_or, forall_eq_or_imp, forall_eq] at *)

theorem clamp_cast (a b c : ℤ) : ((clamp a b c : ℤ) : ℚ) = clamp (a : ℚ) b c := by
  unfold clamp; push_cast; rfl

theorem ind_iff {p q : Prop} [Decidable p] [Decidable q] (h : p ↔ q) : (ind p : ℚ) = ind q := by
  unfold ind; by_cases hp : p
  · rw [if_pos hp, if_pos (h.mp hp)]
  · rw [if_neg hp, if_neg (fun hq => hp (h.mpr hq))]

theorem ind_sum (v w : ℤ) : (ind ((v : ℚ) + w = 1) : ℚ) = ((ind (v + w = 1) : ℤ) : ℚ) := by
  rw [ind_cast]
  exact ind_iff (by constructor <;> intro hh <;> exact_mod_cast hh)

theorem kept_one {ps : List ℕ} {h : Mem} (v : ℚ) (hp : ∀ p ∈ ps, p < h.next ∧ h.st p < h.next) :
    Kept ps h (h.one v).1 [h.next] ∧ (h.one v).1.val h.next = v ∧
    ∀ p ∈ ps, (h.one v).1.val p = h.val p ∧ (h.one v).1.st p = h.st p := by
  have e : ∀ o, o < h.next → (h.one v).1.obj o = h.obj o := fun o h1 => by
    simp only [Mem.one, Mem.new]; rw [Function.update_of_ne (by omega)]
  have e' : ∀ o, o < h.next → (h.one v).1.cell o = h.cell o := fun o h1 => by
    simp only [Mem.one, Mem.new]; rw [Function.update_of_ne (by omega)]
  have es : ∀ o, o < h.next → (h.one v).1.st o = h.st o := fun o h1 => by
    show ((h.one v).1.obj o).stor = (h.obj o).stor; rw [e o h1]
  have en : (h.one v).1.st h.next = h.next := by simp [Mem.one, Mem.new, Mem.st]
  have nx : (h.one v).1.next = h.next + 1 := rfl
  refine ⟨⟨by rw [nx]; omega, fun o h1 _ => e o h1, fun o h1 _ => e' o h1, fun p h1 => ?_, ?_, ?_⟩, ?_, ?_⟩
  · rw [es p (hp p h1).1, nx]
    exact ⟨by have := (hp p h1).2; omega, Or.inr ⟨p, h1, rfl⟩⟩
  · exact List.nodup_singleton _
  · intro o h1
    rw [List.mem_singleton] at h1
    subst h1
    rw [en, nx]
    refine ⟨le_refl _, by omega, by omega, Or.inl (le_refl _), fun p h1 => ?_⟩
    rw [es p (hp p h1).1]; have := (hp p h1).2; omega
  · simp [Mem.one, Mem.new, Mem.val, Mem.get]
  · intro p h1
    refine ⟨?_, es p (hp p h1).1⟩
    show (h.one v).1.cell ((h.one v).1.obj p).stor _ = h.cell (h.obj p).stor _
    rw [e p (hp p h1).1]
    show (h.one v).1.cell (h.st p) _ = h.cell (h.st p) _
    rw [e' _ (hp p h1).2]


theorem write_st (h : Mem) (p i : ℕ) (v : ℚ) (q : ℕ) : (h.write p i v).st q = h.st q := rfl

theorem write_next (h : Mem) (p i : ℕ) (v : ℚ) : (h.write p i v).next = h.next := rfl

theorem write_val_self (h : Mem) (p : ℕ) (v : ℚ) : (h.write p 0 v).val p = v := by
  simp [Mem.write, Mem.val, Mem.get]

theorem write_val_ne (h : Mem) (p q : ℕ) (v : ℚ) (hne : h.st q ≠ h.st p) :
    (h.write p 0 v).val q = h.val q := by
  simp only [Mem.write, Mem.val, Mem.get]
  rw [Function.update_of_ne (by simpa only [Mem.st] using hne)]

/-- Writing into a parameter. -/
theorem kept_write {ps : List ℕ} {h : Mem} (hp : ∀ p ∈ ps, p < h.next ∧ h.st p < h.next) {p : ℕ} (hm : p ∈ ps)
    (v : ℚ) : Kept ps h (h.write p 0 v) [] := by
  refine ⟨le_refl _, fun _ _ _ => rfl, fun c _ h2 => ?_, fun q h1 => ⟨(hp q h1).2, Or.inr ⟨q, h1, rfl⟩⟩,
    List.nodup_nil, fun _ h3 => absurd h3 (List.not_mem_nil)⟩
  exact Function.update_of_ne (fun hc : c = h.st p => h2 p hm hc.symm) _ _

theorem setData_val_self (h : Mem) (p t : ℕ) : (h.setData p t).val p = h.val t := by
  simp [Mem.setData, Mem.val, Mem.get]

theorem setData_st_self (h : Mem) (p t : ℕ) : (h.setData p t).st p = h.st t := by
  simp [Mem.setData, Mem.st]

theorem setData_val_ne (h : Mem) (p t q : ℕ) (hne : q ≠ p) : (h.setData p t).val q = h.val q := by
  simp [Mem.setData, Mem.val, Mem.get, Function.update_of_ne hne]

theorem setData_st_ne (h : Mem) (p t q : ℕ) (hne : q ≠ p) : (h.setData p t).st q = h.st q := by
  simp [Mem.setData, Mem.st, Function.update_of_ne hne]

theorem one_val_self (h : Mem) (v : ℚ) : (h.one v).1.val h.next = v := by
  simp [Mem.one, Mem.new, Mem.val, Mem.get]

theorem one_st_self (h : Mem) (v : ℚ) : (h.one v).1.st h.next = h.next := by
  simp [Mem.one, Mem.new, Mem.st]

theorem one_next (h : Mem) (v : ℚ) : (h.one v).1.next = h.next + 1 := rfl

theorem one_snd (h : Mem) (v : ℚ) : (h.one v).2 = h.next := rfl

theorem one_st (h : Mem) (v : ℚ) (q : ℕ) (h1 : q < h.next) : (h.one v).1.st q = h.st q := by
  simp only [Mem.one, Mem.new, Mem.st]
  rw [Function.update_of_ne (by omega)]

theorem one_val (h : Mem) (v : ℚ) (q : ℕ) (h1 : q < h.next) (h2 : h.st q < h.next) :
    (h.one v).1.val q = h.val q := by
  simp only [Mem.st] at h2
  simp only [Mem.one, Mem.new, Mem.val, Mem.get]
  rw [Function.update_of_ne (show q ≠ h.next by omega), Function.update_of_ne (by omega)]

/-- `p.data = (a new tensor)`. -/
theorem kept_assign {ps : List ℕ} {h : Mem} (hp : ∀ p ∈ ps, p < h.next ∧ h.st p < h.next) {p : ℕ} (hm : p ∈ ps)
    (v : ℚ) : Kept ps h ((h.one v).1.setData p h.next) [] := by
  refine ⟨Nat.le_succ _, fun o h1 h2 => ?_, fun c h1 _ => ?_, fun q h1 => ?_,
    List.nodup_nil, fun _ h3 => absurd h3 (List.not_mem_nil)⟩
  · have : o ≠ p := fun he => h2 (he ▸ hm)
    show Function.update (Function.update _ _ _) _ _ o = _
    rw [Function.update_of_ne this, Function.update_of_ne (by omega)]
  · show Function.update _ _ _ c = _
    rw [Function.update_of_ne (by omega)]
  · by_cases hq : q = p
    · subst hq
      rw [setData_st_self, one_st_self]
      exact ⟨Nat.lt_succ_self _, Or.inl (le_refl _)⟩
    · rw [setData_st_ne _ _ _ _ hq, one_st _ _ _ (hp q h1).1]
      exact ⟨Nat.lt_succ_of_lt (hp q h1).2, Or.inr ⟨q, h1, rfl⟩⟩

theorem assign_val_self (h : Mem) (p : ℕ) (v : ℚ) : ((h.one v).1.setData p h.next).val p = v := by
  rw [setData_val_self, one_val_self]

theorem assign_st_self (h : Mem) (p : ℕ) (v : ℚ) : ((h.one v).1.setData p h.next).st p = h.next := by
  rw [setData_st_self, one_st_self]

theorem assign_val_ne (h : Mem) (p q : ℕ) (v : ℚ) (hne : q ≠ p) (h1 : q < h.next) (h2 : h.st q < h.next) :
    ((h.one v).1.setData p h.next).val q = h.val q := by
  rw [setData_val_ne _ _ _ _ hne, one_val _ _ _ h1 h2]

theorem assign_st_ne (h : Mem) (p q : ℕ) (v : ℚ) (hne : q ≠ p) (h1 : q < h.next) :
    ((h.one v).1.setData p h.next).st q = h.st q := by
  rw [setData_st_ne _ _ _ _ hne, one_st _ _ _ h1]

/-- Different parameters in different storages. -/
structure Sep (ps : List ℕ) (h : Mem) : Prop where
  dist : (ps.map h.st).Nodup
  priv : ∀ p ∈ ps, p < h.next ∧ h.st p < h.next

theorem Sep.st_ne {ps : List ℕ} {h : Mem} (a : Sep ps h) {p q : ℕ} (hp : p ∈ ps) (hq : q ∈ ps) (hne : q ≠ p) :
    h.st q ≠ h.st p := fun he => hne (List.inj_on_of_nodup_map a.dist hq hp he)

/-- `p.data = (a new tensor)`. -/
theorem sep_assign {ps : List ℕ} {h : Mem} (a : Sep ps h) {p : ℕ} (hm : p ∈ ps) (v : ℚ) :
    Kept ps h ((h.one v).1.setData p h.next) [] ∧ Sep ps ((h.one v).1.setData p h.next) ∧
    ((h.one v).1.setData p h.next).val p = v ∧
    ∀ q ∈ ps, q ≠ p → ((h.one v).1.setData p h.next).val q = h.val q := by
  have k := kept_assign a.priv hm v
  refine ⟨k, ⟨?_, kept_priv k a.priv⟩, assign_val_self _ _ _, fun q hq hn =>
    assign_val_ne _ _ _ _ hn (a.priv q hq).1 (a.priv q hq).2⟩
  have hnd : ps.Nodup := List.Nodup.of_map _ a.dist
  refine (List.nodup_map_iff_inj_on hnd).mpr fun x hx y hy he => ?_
  by_cases h1 : x = p <;> by_cases h2 : y = p
  · rw [h1, h2]
  · rw [h1, assign_st_self, assign_st_ne _ _ _ _ h2 (a.priv y hy).1] at he
    have := (a.priv y hy).2; omega
  · rw [h2, assign_st_self, assign_st_ne _ _ _ _ h1 (a.priv x hx).1] at he
    have := (a.priv x hx).2; omega
  · rw [assign_st_ne _ _ _ _ h1 (a.priv x hx).1, assign_st_ne _ _ _ _ h2 (a.priv y hy).1] at he
    exact List.inj_on_of_nodup_map a.dist hx hy he

/-- Writing into a parameter. -/
theorem sep_write {ps : List ℕ} {h : Mem} (a : Sep ps h) {p : ℕ} (hm : p ∈ ps) (v : ℚ) :
    Kept ps h (h.write p 0 v) [] ∧ Sep ps (h.write p 0 v) ∧ (h.write p 0 v).val p = v ∧
    ∀ q ∈ ps, q ≠ p → (h.write p 0 v).val q = h.val q :=
  ⟨kept_write a.priv hm v, ⟨a.dist, a.priv⟩, write_val_self _ _ _, fun _ hq hn =>
    write_val_ne _ _ _ _ (a.st_ne hm hq hn)⟩

/-- A new tensor. -/
theorem sep_one {ps : List ℕ} {h : Mem} (a : Sep ps h) (v : ℚ) :
    Kept ps h (h.one v).1 [h.next] ∧ Sep ps (h.one v).1 ∧ (h.one v).1.val h.next = v ∧
    ∀ q ∈ ps, (h.one v).1.val q = h.val q := by
  obtain ⟨k, e, f⟩ := kept_one v a.priv
  refine ⟨k, ⟨?_, kept_priv k a.priv⟩, e, fun q hq => (f q hq).1⟩
  rw [List.map_congr_left fun q hq => (f q hq).2]
  exact a.dist

/-- Writing into a temporary. -/
theorem sep_scratch {ps : List ℕ} {h : Mem} (a : Sep ps h) {o : ℕ} (ho : Outside ps h o) (v : ℚ) :
    Sep ps (h.write o 0 v) ∧ (h.write o 0 v).val o = v ∧ (∀ q ∈ ps, (h.write o 0 v).val q = h.val q) ∧
    Outside ps (h.write o 0 v) o :=
  ⟨⟨a.dist, a.priv⟩, write_val_self _ _ _, fun q hq => write_val_ne _ _ _ _ (ho.2.2.2 q hq), ho⟩

/-- The parameters are found where they were and hold what they held. -/
theorem sep_frame {ps : List ℕ} {h h' : Mem} (h1 : ∀ p ∈ ps, h'.obj p = h.obj p)
    (h2 : ∀ p ∈ ps, h'.cell (h.st p) = h.cell (h.st p)) :
    (∀ p ∈ ps, h'.val p = h.val p) ∧ ps.map h'.st = ps.map h.st := by
  refine ⟨fun p hp => ?_, List.map_congr_left fun p hp => ?_⟩
  · show h'.cell (h'.obj p).stor _ = h.cell (h.obj p).stor _
    rw [h1 p hp]
    show h'.cell (h.st p) _ = h.cell (h.st p) _
    rw [h2 p hp]
  · show (h'.obj p).stor = (h.obj p).stor
    rw [h1 p hp]

/-- Results of two parts of a call. -/
theorem kept_both {ps : List ℕ} {h h1 h2 : Mem} {o1 o2 : List ℕ} (a : Kept ps h h1 o1) (b : Kept ps h1 h2 o2)
    (hp : ∀ p ∈ ps, p < h.next ∧ h.st p < h.next) : Kept ps h h2 (o1 ++ o2) := by
  have c := kept_later a (kept_drop b) hp
  have d := kept_trans (kept_drop a) b
  have hst : ∀ o ∈ o1, h2.st o = h1.st o := fun o ho => by
    have n := kept_new a hp ho
    show (h2.obj o).stor = (h1.obj o).stor
    rw [b.2.1 o n.1 n.2.2.1]
  refine ⟨c.1, c.2.1, c.2.2.1, c.2.2.2.1, ?_, ?_⟩
  · rw [List.map_append, List.nodup_append]
    refine ⟨c.2.2.2.2.1, d.2.2.2.2.1, ?_⟩
    intro x hx y hy he
    obtain ⟨o, ho, rfl⟩ := List.mem_map.mp hx
    obtain ⟨o', ho', rfl⟩ := List.mem_map.mp hy
    have n := kept_new a hp ho
    rw [hst o ho] at he
    rcases (b.2.2.2.2.2 o' ho').2.2.2.1 with h4 | ⟨q, hq, h4⟩
    · have := n.2.1; omega
    · exact n.2.2.2 q hq (by rw [he, h4])
  · intro o ho
    rcases List.mem_append.mp ho with ho | ho
    · exact c.2.2.2.2.2 o ho
    · exact d.2.2.2.2.2 o ho

/-- A call may write into what it has made. -/
theorem kept_scratch {ps : List ℕ} {h h1 : Mem} {outs : List ℕ} (a : Kept ps h h1 outs) {o : ℕ} (ho : o ∈ outs)
    (v : ℚ) : Kept ps h (h1.write o 0 v) outs := by
  refine ⟨a.1, a.2.1, fun c hc hne => ?_, a.2.2.2.1, a.2.2.2.2.1, a.2.2.2.2.2⟩
  have hn : c ≠ h1.st o := by
    rcases (a.2.2.2.2.2 o ho).2.2.2.1 with h4 | ⟨q, hq, h4⟩
    · omega
    · rw [h4]; exact (hne q hq).symm
  exact (Function.update_of_ne hn _ _).trans (a.2.2.1 c hc hne)

/-! ## Construction -/

/-- The tensors a caller holds when it constructs a module: they exist and share no memory. -/
def Apart (h : Mem) (held : List ℕ) : Prop :=
  (∀ o ∈ held, o < h.next ∧ h.st o < h.next) ∧ (held.map h.st).Nodup

/-- The objects of a module newly constructed: they and their storages are new. -/
def Fresh (h h' : Mem) (ps : List ℕ) : Prop :=
  ∀ p ∈ ps, h.next ≤ p ∧ p < h'.next ∧ h.next ≤ h'.st p ∧ h'.st p < h'.next

theorem good_start {L τ V σ : Type} {m : Module L τ} {emb : V → ℚ} {R : L → Mem → σ → Prop} {h h' : Mem}
    {held : List ℕ} {vs : List V} {l : L} {s : σ} (hh : Apart h held) (hv : held.map h.val = vs.map emb)
    (hk : Kept [] h h' []) (hf : Fresh h h' m.ps) (hr : R l h' s) : Good m emb R ⟨l, h', held⟩ (s, vs) := by
  have e : ∀ o ∈ held, Outside [] h o := fun o ho =>
    ⟨(hh.1 o ho).1, (hh.1 o ho).2, List.not_mem_nil, fun _ h1 => absurd h1 List.not_mem_nil⟩
  have e1 : ∀ o ∈ held, h'.st o = h.st o := fun o ho => by
    show (h'.obj o).stor = (h.obj o).stor
    rw [hk.2.1 o (hh.1 o ho).1 List.not_mem_nil]
  have e2 : ∀ o ∈ held, h'.val o = h.val o := fun o ho => (kept_outside hk (e o ho)).2
  refine ⟨fun p hp => ⟨(hf p hp).2.1, (hf p hp).2.2.2⟩, fun o ho => ?_, ?_, ?_, hr⟩
  · have h1 := hh.1 o ho
    have h2 := (kept_outside hk (e o ho)).1
    refine ⟨h2.1, h2.2.1, fun hm => ?_, fun p hp => ?_⟩
    · have := (hf o hm).1; omega
    · show h'.st p ≠ h'.st o
      have := (hf p hp).2.2.1
      rw [e1 o ho]; omega
  · rw [List.map_congr_left e1]; exact hh.2
  · rw [List.map_congr_left e2]; exact hv

/-- A module made by `h.one`, `h.new` steps. -/
theorem kept_make (h : Mem) (f : ℕ → ℚ) : Kept [] h (h.new f).1 [] := by
  refine ⟨by simp [Mem.new], fun o ho _ => ?_, fun c hc _ => ?_, by simp, by simp, by simp⟩
  · exact Function.update_of_ne (by show o ≠ h.next; omega) _ _
  · exact Function.update_of_ne (by show c ≠ h.next; omega) _ _

/-- A module of which the caller keeps only the first result. -/
def firstOnly {L τ : Type} (m : Module L τ) : Module L τ :=
  ⟨m.ps, fun l h t args => let r := m.call l h t args; (r.1, r.2.1, r.2.2.take 1)⟩

macro "fresh_tac" : tactic => `(tactic| (
  simp only [Fresh, List.forall_mem_cons, List.not_mem_nil, false_imp_iff, implies_true, and_true]
  simp (disch := omega) only [bi2uniMk, syncMk, shiftRegMk, adderMk, progErrorMk, stabilityMk, correlationMk, Mem.one,
    Mem.new, Mem.st, Function.update_self, Function.update_of_ne, ne_eq]
  omega))

macro "made_tac" : tactic => `(tactic|
  simp (disch := omega) only [bi2uniMk, syncMk, shiftRegMk, adderMk, progErrorMk, stabilityMk, correlationMk, Mem.one,
    Mem.new, Mem.st, Mem.val, Mem.get, Function.update_self, Function.update_of_ne, ne_eq])

end Verif.Share
