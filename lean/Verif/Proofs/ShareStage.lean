import Verif.Proofs.Share

/-!
# Sharing of memory: modules made of modules
-/

namespace Verif.Share

open Verif

/-- A property of the memory that only looks at the objects `ps` and their storages. -/
def Framed (ps : List ℕ) (P : Mem → Prop) : Prop :=
  ∀ h h' : Mem, P h → (∀ p ∈ ps, h'.obj p = h.obj p) → (∀ p ∈ ps, h'.cell (h.st p) = h.cell (h.st p)) → P h'

/-- Different objects in different storages. -/
def Parted (h : Mem) (ps qs : List ℕ) : Prop := ∀ p ∈ ps, ∀ q ∈ qs, p ≠ q ∧ h.st p ≠ h.st q

/-- The parts of a module: their objects and what is known about them. -/
abbrev Parts := List (List ℕ × (Mem → Prop))

/-- The parts hold what they should and share nothing with each other. -/
structure Rack (Rs : Parts) (h : Mem) : Prop where
  sep : Rs.Pairwise fun x y => Parted h x.1 y.1
  hold : ∀ x ∈ Rs, x.2 h

theorem rack_frame {Rs : Parts} (hf : ∀ x ∈ Rs, Framed x.1 x.2) {h h' : Mem} (r : Rack Rs h)
    (h1 : ∀ x ∈ Rs, ∀ p ∈ x.1, h'.obj p = h.obj p) (h2 : ∀ x ∈ Rs, ∀ p ∈ x.1, h'.cell (h.st p) = h.cell (h.st p)) :
    Rack Rs h' := by
  have hst : ∀ x ∈ Rs, ∀ p ∈ x.1, h'.st p = h.st p := fun x hx p hp => by
    show (h'.obj p).stor = (h.obj p).stor
    rw [h1 x hx p hp]
  refine ⟨?_, fun x hx => hf x hx h h' (r.hold x hx) (h1 x hx) (h2 x hx)⟩
  refine r.sep.imp_of_mem ?_
  intro x y hx hy hp p hpp q hqq
  rw [hst x hx p hpp, hst y hy q hqq]
  exact hp p hpp q hqq

/-- The state in the middle of a call of a module with objects `ps`: `h0` is the memory at its
start, `new` what it has made since, `live` the tensors it works with and their values. -/
structure Stage {V : Type} (emb : V → ℚ) (ps : List ℕ) (Rs : Parts) (h0 h : Mem) (new : List ℕ)
    (live : List (ℕ × V)) : Prop where
  cover : ∀ p, p ∈ ps ↔ ∃ x ∈ Rs, p ∈ x.1
  priv0 : ∀ p ∈ ps, p < h0.next ∧ h0.st p < h0.next
  framed : ∀ x ∈ Rs, Framed x.1 x.2
  rack : Rack Rs h
  kept : Kept ps h0 h new
  live : ∀ p ∈ live, Outside ps h p.1 ∧ h.val p.1 = emb p.2

theorem Stage.priv {V : Type} {emb : V → ℚ} {ps : List ℕ} {Rs : Parts} {h0 h : Mem} {new : List ℕ}
    {live : List (ℕ × V)} (st : Stage emb ps Rs h0 h new live) : ∀ p ∈ ps, p < h.next ∧ h.st p < h.next :=
  kept_priv st.kept st.priv0

/-- A part keeps what the whole has to keep. -/
theorem kept_widen {ps qs : List ℕ} {h h1 : Mem} {outs : List ℕ} (a : Kept ps h h1 outs) (hs : ∀ p ∈ ps, p ∈ qs)
    (hp : ∀ p ∈ qs, p < h.next ∧ h.st p < h.next)
    (hd : ∀ q ∈ qs, q ∉ ps → ∀ p ∈ ps, h.st q ≠ h.st p) : Kept qs h h1 outs := by
  have b := kept_mono (kept_drop a) hs hp
  refine ⟨b.1, b.2.1, b.2.2.1, b.2.2.2.1, a.2.2.2.2.1, fun o ho => ?_⟩
  obtain ⟨c1, c2, c3, c4, c5⟩ := a.2.2.2.2.2 o ho
  refine ⟨c1, c2, c3, ?_, fun p h2 => ?_⟩
  · rcases c4 with h4 | ⟨q, hq, h4⟩
    · exact Or.inl h4
    · exact Or.inr ⟨q, hs q hq, h4⟩
  · by_cases hm : p ∈ ps
    · exact c5 p hm
    · have e : h1.st p = h.st p := by
        show (h1.obj p).stor = (h.obj p).stor
        rw [a.2.1 p (hp p h2).1 hm]
      rw [e]
      rcases c4 with h4 | ⟨q, hq, h4⟩
      · have := (hp p h2).2; omega
      · rw [h4]; exact hd p h2 hm q hq

theorem outside_sub {ps qs : List ℕ} {h : Mem} {o : ℕ} (a : Outside qs h o) (hs : ∀ p ∈ ps, p ∈ qs) :
    Outside ps h o :=
  ⟨a.1, a.2.1, fun hm => a.2.2.1 (hs o hm), fun p hm => a.2.2.2 p (hs p hm)⟩

theorem parts_mem (pre post : Parts) (qs : List ℕ) (P : Mem → Prop) (p : ℕ) :
    (∃ x ∈ pre ++ (qs, P) :: post, p ∈ x.1) ↔ (∃ x ∈ pre, p ∈ x.1) ∨ p ∈ qs ∨ ∃ x ∈ post, p ∈ x.1 := by
  constructor
  · rintro ⟨x, hx, hp⟩
    rw [List.mem_append, List.mem_cons] at hx
    rcases hx with hx | hx | hx
    · exact Or.inl ⟨x, hx, hp⟩
    · subst hx; exact Or.inr (Or.inl hp)
    · exact Or.inr (Or.inr ⟨x, hx, hp⟩)
  · rintro (⟨x, hx, hp⟩ | hp | ⟨x, hx, hp⟩)
    · exact ⟨x, by simp [hx], hp⟩
    · exact ⟨(qs, P), by simp, hp⟩
    · exact ⟨x, by simp [hx], hp⟩

section

variable {V : Type} {emb : V → ℚ} {ps : List ℕ} {h0 h : Mem} {new : List ℕ} {live : List (ℕ × V)}

/-- What one part does. -/
theorem stage_part {pre post : Parts} {qs outs : List ℕ} {vs : List V} {P P' : Mem → Prop} {h1 : Mem}
    (st : Stage emb ps (pre ++ (qs, P) :: post) h0 h new live) (k : Kept qs h h1 outs) (hr : P' h1)
    (hf : Framed qs P') (hv : outs.map h1.val = vs.map emb) :
    Stage emb ps (pre ++ (qs, P') :: post) h0 h1 (new ++ outs) (live ++ outs.zip vs) := by
  have hpr := st.priv
  have hin : ∀ p ∈ qs, p ∈ ps := fun p hp => (st.cover p).mpr ⟨(qs, P), by simp, hp⟩
  have hsep := st.rack.sep
  rw [List.pairwise_append, List.pairwise_cons] at hsep
  obtain ⟨s1, ⟨s2, s3⟩, s4⟩ := hsep
  -- every other part is parted from this one
  have hoth : ∀ x, x ∈ pre ∨ x ∈ post → ∀ p ∈ x.1, p ∉ qs ∧ ∀ q ∈ qs, h.st p ≠ h.st q := by
    intro x hx p hp
    rcases hx with hx | hx
    · have := s4 x hx (qs, P) (by simp)
      exact ⟨fun hm => (this p hp p hm).1 rfl, fun q hq => (this p hp q hq).2⟩
    · have := s2 x hx
      exact ⟨fun hm => (this p hm p hp).1 rfl, fun q hq => ((this q hq p hp).2).symm⟩
  have hd : ∀ q ∈ ps, q ∉ qs → ∀ p ∈ qs, h.st q ≠ h.st p := by
    intro q hq hn p hp
    obtain ⟨x, hx, hqx⟩ := (st.cover q).mp hq
    rw [List.mem_append, List.mem_cons] at hx
    rcases hx with hx | hx | hx
    · exact (hoth x (Or.inl hx) q hqx).2 p hp
    · subst hx; exact absurd hqx hn
    · exact (hoth x (Or.inr hx) q hqx).2 p hp
  have kw := kept_widen k hin hpr hd
  have hmemx : ∀ x, x ∈ pre ∨ x ∈ post → x ∈ pre ++ (qs, P) :: post := fun x hx => by
    rcases hx with hx | hx <;> simp [hx]
  have hpx : ∀ x, x ∈ pre ∨ x ∈ post → ∀ p ∈ x.1, p < h.next ∧ h.st p < h.next := fun x hx p hp =>
    hpr p ((st.cover p).mpr ⟨x, hmemx x hx, hp⟩)
  have hobj : ∀ x, x ∈ pre ∨ x ∈ post → ∀ p ∈ x.1, h1.obj p = h.obj p := fun x hx p hp =>
    k.2.1 p (hpx x hx p hp).1 (hoth x hx p hp).1
  have hcell : ∀ x, x ∈ pre ∨ x ∈ post → ∀ p ∈ x.1, h1.cell (h.st p) = h.cell (h.st p) := fun x hx p hp =>
    k.2.2.1 _ (hpx x hx p hp).2 fun q hq => ((hoth x hx p hp).2 q hq).symm
  have hst : ∀ x, x ∈ pre ∨ x ∈ post → ∀ p ∈ x.1, h1.st p = h.st p := fun x hx p hp => by
    show (h1.obj p).stor = (h.obj p).stor
    rw [hobj x hx p hp]
  have hme : ∀ x, x ∈ pre ∨ x ∈ post → ∀ p ∈ x.1, ∀ q ∈ qs, h1.st p ≠ h1.st q := by
    intro x hx p hp q hq
    rw [hst x hx p hp]
    rcases (k.2.2.2.1 q hq).2 with h4 | ⟨q', hq', h4⟩
    · have := (hpx x hx p hp).2; omega
    · rw [h4]; exact (hoth x hx p hp).2 q' hq'
  refine ⟨?_, st.priv0, ?_, ⟨?_, ?_⟩, kept_both st.kept kw st.priv0, ?_⟩
  · intro p
    rw [st.cover p, parts_mem, parts_mem]
  · intro x hx
    rw [List.mem_append, List.mem_cons] at hx
    rcases hx with hx | hx | hx
    · exact st.framed x (hmemx x (Or.inl hx))
    · subst hx; exact hf
    · exact st.framed x (hmemx x (Or.inr hx))
  · rw [List.pairwise_append, List.pairwise_cons]
    refine ⟨s1.imp_of_mem fun {x y} hx hy hp p hpp q hqq => ?_,
      ⟨fun y hy p hpp q hqq => ?_, s3.imp_of_mem fun {x y} hx hy hp p hpp q hqq => ?_⟩, ?_⟩
    · rw [hst x (Or.inl hx) p hpp, hst y (Or.inl hy) q hqq]; exact hp p hpp q hqq
    · exact ⟨(s2 y hy p hpp q hqq).1, (hme y (Or.inr hy) q hqq p hpp).symm⟩
    · rw [hst x (Or.inr hx) p hpp, hst y (Or.inr hy) q hqq]; exact hp p hpp q hqq
    · intro x hx y hy p hpp q hqq
      rw [List.mem_cons] at hy
      rcases hy with hy | hy
      · subst hy
        exact ⟨(s4 x hx (qs, P) (by simp) p hpp q hqq).1, hme x (Or.inl hx) p hpp q hqq⟩
      · rw [hst x (Or.inl hx) p hpp, hst y (Or.inr hy) q hqq]
        exact s4 x hx y (by simp [hy]) p hpp q hqq
  · intro x hx
    rw [List.mem_append, List.mem_cons] at hx
    rcases hx with hx | hx | hx
    · exact st.framed x (hmemx x (Or.inl hx)) h h1 (st.rack.hold x (hmemx x (Or.inl hx))) (hobj x (Or.inl hx))
        (hcell x (Or.inl hx))
    · subst hx; exact hr
    · exact st.framed x (hmemx x (Or.inr hx)) h h1 (st.rack.hold x (hmemx x (Or.inr hx))) (hobj x (Or.inr hx))
        (hcell x (Or.inr hx))
  · intro p hp
    rcases List.mem_append.mp hp with hp | hp
    · obtain ⟨a, b⟩ := st.live p hp
      obtain ⟨a', b'⟩ := kept_outside kw a
      exact ⟨a', b'.trans b⟩
    · have ho := (List.of_mem_zip hp).1
      refine ⟨kept_new kw hpr ho, ?_⟩
      obtain ⟨i, hi, he⟩ := List.getElem_of_mem hp
      have hi1 : i < outs.length := by rw [List.length_zip] at hi; omega
      have hi2 : i < vs.length := by rw [List.length_zip] at hi; omega
      rw [List.getElem_zip] at he
      rw [← he]
      have := List.getElem_of_eq hv (i := i) (by simpa using hi1)
      simpa using this

/-- A call of one of the parts: it returns as many tensors as on values. -/
theorem stage_sub {L τ σ : Type} {m : Module L τ} {step : σ → τ → List V → σ × List V}
    {R : L → Mem → σ → Prop} (c : Contract m emb step R) {pre post : Parts} {l : L} {s : σ}
    (st : Stage emb ps (pre ++ (m.ps, fun h => R l h s) :: post) h0 h new live) (t : τ) (args : List (ℕ × V))
    (ha : ∀ p ∈ args, p ∈ live) :
    ∃ (l' : L) (h1 : Mem) (outs : List ℕ), m.call l h t (args.map Prod.fst) = (l', h1, outs) ∧
      outs.length = (step s t (args.map Prod.snd)).2.length ∧
      Stage emb ps (pre ++ (m.ps, fun h => R l' h (step s t (args.map Prod.snd)).1) :: post) h0 h1 (new ++ outs)
        (live ++ outs.zip (step s t (args.map Prod.snd)).2) := by
  have hin : ∀ p ∈ m.ps, p ∈ ps := fun p hp => (st.cover p).mpr ⟨(m.ps, fun h => R l h s), by simp, hp⟩
  have hr : R l h s := st.rack.hold (m.ps, fun h => R l h s) (by simp)
  obtain ⟨k, r, v⟩ := c.call l h s t (args.map Prod.fst) (args.map Prod.snd) hr
    (fun p hp => st.priv p (hin p hp)) (by
      intro o ho
      obtain ⟨p, hp, rfl⟩ := List.mem_map.mp ho
      exact outside_sub (st.live p (ha p hp)).1 hin) (by
      rw [List.map_map, List.map_map]
      exact List.map_congr_left fun p hp => (st.live p (ha p hp)).2)
  refine ⟨_, _, _, rfl, by simpa using congrArg List.length v, ?_⟩
  exact stage_part st k r (fun h h' => c.frame _ h h' _) v

/-- A new tensor. -/
theorem stage_one {Rs : Parts} (st : Stage emb ps Rs h0 h new live) (w : V) (v : ℚ) (hv : v = emb w) :
    Stage emb ps Rs h0 (h.one v).1 (new ++ [h.next]) (live ++ [(h.next, w)]) := by
  have hpr := st.priv
  obtain ⟨k, e, f⟩ := kept_one v hpr
  have hx : ∀ x ∈ Rs, ∀ p ∈ x.1, p < h.next ∧ h.st p < h.next := fun x hx p hp =>
    hpr p ((st.cover p).mpr ⟨x, hx, hp⟩)
  refine ⟨st.cover, st.priv0, st.framed, rack_frame st.framed st.rack (fun x hxx p hp => ?_) fun x hxx p hp => ?_,
    kept_both st.kept k st.priv0, fun p hp => ?_⟩
  · have := (hx x hxx p hp).1
    exact Function.update_of_ne (by omega) _ _
  · have := (hx x hxx p hp).2
    exact Function.update_of_ne (by omega) _ _
  · rcases List.mem_append.mp hp with hp | hp
    · obtain ⟨a, b⟩ := st.live p hp
      obtain ⟨a', b'⟩ := kept_outside k a
      exact ⟨a', b'.trans b⟩
    · rw [List.mem_singleton] at hp
      subst hp
      exact ⟨kept_new k hpr (by simp), e.trans hv⟩

/-- `p.data = (a new tensor)`. -/
theorem stage_assign {pre post : Parts} {p : ℕ} {P : Mem → Prop}
    (st : Stage emb ps (pre ++ ([p], P) :: post) h0 h new live) (v w : ℚ) (hv : v = w) :
    Stage emb ps (pre ++ ([p], fun h => h.val p = w) :: post) h0 ((h.one v).1.setData p h.next) new live := by
  subst hv
  have hp : ∀ q ∈ [p], q < h.next ∧ h.st q < h.next := fun q hq =>
    st.priv q ((st.cover q).mpr ⟨([p], P), by simp, hq⟩)
  have := stage_part (outs := []) (vs := []) (P' := fun h => h.val p = v) st (kept_assign hp (by simp) v)
    (assign_val_self h p v) (fun g g' hg h1 h2 => holds_frame p () g g' v hg h1 h2) rfl
  simpa using this

/-- `x.type(t)` of something made in the call. -/
theorem stage_typed {Rs : Parts} (st : Stage emb ps Rs h0 h new live) (same : Bool) (o : ℕ) (w : V)
    (hl : (o, w) ∈ live) (hn : o ∈ new) :
    ∃ new' live', Stage emb ps Rs h0 (h.typed same o).1 new' live' ∧ (h.typed same o).2 ∈ new' ∧
      ((h.typed same o).2, w) ∈ live' ∧ (∀ x ∈ new, x ∈ new') ∧ ∀ x ∈ live, x ∈ live' := by
  cases same
  · exact ⟨_, _, stage_one st w _ (st.live _ hl).2, by simp [Mem.typed, Mem.one, Mem.new],
      by simp [Mem.typed, Mem.one, Mem.new], fun x hx => by simp [hx], fun x hx => by simp [hx]⟩
  · exact ⟨new, live, st, hn, hl, fun x hx => hx, fun x hx => hx⟩

/-- Results kept back. -/
theorem kept_sub {outs outs' : List ℕ} {h1 : Mem} (a : Kept ps h h1 outs) (hs : ∀ o ∈ outs', o ∈ outs)
    (hn : (outs'.map h1.st).Nodup) : Kept ps h h1 outs' :=
  ⟨a.1, a.2.1, a.2.2.1, a.2.2.2.1, hn, fun o ho => a.2.2.2.2.2 o (hs o ho)⟩

/-- The end of a call with one result. -/
theorem stage_done {Rs : Parts} (st : Stage emb ps Rs h0 h new live) (o : ℕ) (w : V) (hl : (o, w) ∈ live)
    (hn : o ∈ new) : Kept ps h0 h [o] ∧ Rack Rs h ∧ [o].map h.val = [w].map emb :=
  ⟨kept_sub st.kept (by simpa using hn) (by simp), st.rack, by simpa using (st.live _ hl).2⟩

/-- The start of a call. -/
theorem stage_start {Rs : Parts} (hc : ∀ p, p ∈ ps ↔ ∃ x ∈ Rs, p ∈ x.1)
    (hp : ∀ p ∈ ps, p < h.next ∧ h.st p < h.next) (hf : ∀ x ∈ Rs, Framed x.1 x.2) (hr : Rack Rs h)
    (hl : ∀ p ∈ live, Outside ps h p.1 ∧ h.val p.1 = emb p.2) : Stage emb ps Rs h h [] live :=
  ⟨hc, hp, hf, hr, kept_refl hp, hl⟩

/-- `p.data = o` where `o` was made in the call and is not used any more. -/
theorem stage_adopt {pre post : Parts} {p : ℕ} {P : Mem → Prop}
    (st : Stage emb ps (pre ++ ([p], P) :: post) h0 h new live) (o : ℕ) (w : V) (hl : (o, w) ∈ live)
    (hn : o ∈ new) :
    Stage emb ps (pre ++ ([p], fun h => h.val p = emb w) :: post) h0 (h.setData p o)
      (new.filter fun x => h.st x ≠ h.st o) (live.filter fun x => h.st x.1 ≠ h.st o) := by
  have hpr := st.priv
  have hpm : p ∈ ps := (st.cover p).mpr ⟨([p], P), by simp, by simp⟩
  obtain ⟨hoo, hov⟩ := st.live _ hl
  have hst : ∀ q, q ≠ p → (h.setData p o).st q = h.st q := fun q hq => setData_st_ne h p o q hq
  have hself : (h.setData p o).st p = h.st o := setData_st_self h p o
  have hsep := st.rack.sep
  rw [List.pairwise_append, List.pairwise_cons] at hsep
  obtain ⟨s1, ⟨s2, s3⟩, s4⟩ := hsep
  have hmemx : ∀ x, x ∈ pre ∨ x ∈ post → x ∈ pre ++ ([p], P) :: post := fun x hx => by
    rcases hx with hx | hx <;> simp [hx]
  have hne : ∀ x, x ∈ pre ∨ x ∈ post → ∀ q ∈ x.1, q ≠ p ∧ q ∈ ps := by
    intro x hx q hq
    refine ⟨?_, (st.cover q).mpr ⟨x, hmemx x hx, hq⟩⟩
    rcases hx with hx | hx
    · exact (s4 x hx ([p], P) (by simp) q hq p (by simp)).1
    · exact ((s2 x hx p (by simp) q hq).1).symm
  have hk := st.kept
  have hob : ∀ q, q ≠ p → (h.setData p o).obj q = h.obj q := fun q hq => by
    show Function.update h.obj p _ q = _
    rw [Function.update_of_ne hq]
  have hnext : (h.setData p o).next = h.next := rfl
  refine ⟨?_, st.priv0, ?_, ⟨?_, ?_⟩, ⟨hk.1, ?_, hk.2.2.1, ?_, ?_, ?_⟩, ?_⟩
  · intro q; rw [st.cover q, parts_mem, parts_mem]
  · intro x hx
    rw [List.mem_append, List.mem_cons] at hx
    rcases hx with hx | hx | hx
    · exact st.framed x (hmemx x (Or.inl hx))
    · subst hx
      exact fun g g' hg h1 h2 => holds_frame p () g g' _ hg h1 h2
    · exact st.framed x (hmemx x (Or.inr hx))
  · rw [List.pairwise_append, List.pairwise_cons]
    refine ⟨s1.imp_of_mem fun {x y} hx hy hp a ha b hb => ?_,
      ⟨fun y hy a ha b hb => ?_, s3.imp_of_mem fun {x y} hx hy hp a ha b hb => ?_⟩, ?_⟩
    · rw [hst a (hne x (Or.inl hx) a ha).1, hst b (hne y (Or.inl hy) b hb).1]; exact hp a ha b hb
    · have ha' : a = p := by simpa using ha
      subst ha'
      rw [hself, hst b (hne y (Or.inr hy) b hb).1]
      exact ⟨(hne y (Or.inr hy) b hb).1.symm, (hoo.2.2.2 b (hne y (Or.inr hy) b hb).2).symm⟩
    · rw [hst a (hne x (Or.inr hx) a ha).1, hst b (hne y (Or.inr hy) b hb).1]; exact hp a ha b hb
    · intro x hx y hy a ha b hb
      rw [List.mem_cons] at hy
      rcases hy with hy | hy
      · subst hy
        have hb' : b = p := by simpa using hb
        subst hb'
        rw [hself, hst a (hne x (Or.inl hx) a ha).1]
        exact ⟨(hne x (Or.inl hx) a ha).1, hoo.2.2.2 a (hne x (Or.inl hx) a ha).2⟩
      · rw [hst a (hne x (Or.inl hx) a ha).1, hst b (hne y (Or.inr hy) b hb).1]
        exact s4 x hx y (by simp [hy]) a ha b hb
  · intro x hx
    rw [List.mem_append, List.mem_cons] at hx
    rcases hx with hx | hx | hx
    · exact st.framed x (hmemx x (Or.inl hx)) h _ (st.rack.hold x (hmemx x (Or.inl hx)))
        (fun q hq => hob q (hne x (Or.inl hx) q hq).1) fun _ _ => rfl
    · subst hx
      exact (setData_val_self h p o).trans hov
    · exact st.framed x (hmemx x (Or.inr hx)) h _ (st.rack.hold x (hmemx x (Or.inr hx)))
        (fun q hq => hob q (hne x (Or.inr hx) q hq).1) fun _ _ => rfl
  · intro q hq hqn
    rw [hob q (fun he => hqn (he ▸ hpm))]
    exact hk.2.1 q hq hqn
  · intro q hq
    by_cases he : q = p
    · subst he
      rw [hself, hnext]
      obtain ⟨c1, c2, c3, c4, c5⟩ := hk.2.2.2.2.2 o hn
      exact ⟨c3, c4⟩
    · rw [hst q he, hnext]; exact hk.2.2.2.1 q hq
  · have hq : ∀ q ∈ new.filter fun x => h.st x ≠ h.st o, (h.setData p o).st q = h.st q := fun q hq => by
      refine hst q fun he => ?_
      have := (hk.2.2.2.2.2 q (List.mem_of_mem_filter hq)).1
      have := (st.priv0 p hpm).1
      omega
    rw [List.map_congr_left hq]
    exact (hk.2.2.2.2.1).sublist ((List.filter_sublist).map _)
  · intro q hq
    have hqn := List.mem_of_mem_filter hq
    have hqo : h.st q ≠ h.st o := by simpa using (List.mem_filter.mp hq).2
    obtain ⟨c1, c2, c3, c4, c5⟩ := hk.2.2.2.2.2 q hqn
    have hqp : q ≠ p := fun he => by have := (st.priv0 p hpm).1; omega
    rw [hst q hqp, hnext]
    refine ⟨c1, c2, c3, c4, fun r hr => ?_⟩
    by_cases he : r = p
    · subst he; rw [hself]; exact hqo.symm
    · rw [hst r he]; exact c5 r hr
  · intro x hx
    have hxl := List.mem_of_mem_filter hx
    have hxo : h.st x.1 ≠ h.st o := by simpa using (List.mem_filter.mp hx).2
    obtain ⟨a, b⟩ := st.live x hxl
    have hxp : x.1 ≠ p := fun he => a.2.2.1 (he ▸ hpm)
    refine ⟨⟨a.1, ?_, a.2.2.1, fun r hr => ?_⟩, (setData_val_ne h p o _ hxp).trans b⟩
    · rw [hst _ hxp]; exact a.2.1
    · rw [hst _ hxp]
      by_cases he : r = p
      · subst he; rw [hself]; exact hxo.symm
      · rw [hst r he]; exact a.2.2.2 r hr

end

end Verif.Share
