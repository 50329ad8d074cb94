import Verif.Model.ShareNet
import Verif.Proofs.ShareLayer

/-!
# Sharing of memory: several modules in one process
-/

namespace Verif.Spec

open Verif.Share

/-- One call to one of several modules when tensors are values: the module it goes to takes a step, the others do
nothing. -/
def netStep {n : ℕ} {σ : Fin n → Type} {τ V : Type} (step : ∀ i, σ i → τ → List V → σ i × List V)
    (s : ∀ i, σ i) (t : Fin n × τ) (vs : List V) : (∀ i, σ i) × List V :=
  let r := step t.1 (s t.1) t.2 vs
  (Function.update s t.1 r.1, r.2)

end Verif.Spec

namespace Verif.Share

/-- No object and no storage in two modules. -/
def NetSep {n : ℕ} (ps : Fin n → List ℕ) (h : Mem) : Prop :=
  ∀ i j, i ≠ j → ∀ p ∈ ps i, ∀ q ∈ ps j, p ≠ q ∧ h.st p ≠ h.st q

theorem net_contract {n : ℕ} {L σ : Fin n → Type} {τ : Type} (m : ∀ i, Module (L i) τ)
    (step : ∀ i, σ i → τ → List Vec → σ i × List Vec) (R : ∀ i, L i → Mem → σ i → Prop)
    (c : ∀ i, ContractV (m i) (step i) (R i)) :
    ContractV (netModule m) (Verif.Spec.netStep step)
      (fun l h s => (∀ i, R i (l i) h (s i)) ∧ NetSep (fun i : Fin n => (m i).ps) h) := by
  have mem : ∀ i, ∀ p ∈ (m i).ps, p ∈ (netModule m).ps := fun i p hp =>
    List.mem_flatMap.mpr ⟨i, List.mem_finRange i, hp⟩
  constructor
  · intro l h h' s hr h1 h2
    have e : ∀ i, ∀ p ∈ (m i).ps, h'.st p = h.st p := fun i p hp => by
      show (h'.obj p).stor = (h.obj p).stor
      rw [h1 p (mem i p hp)]
    refine ⟨fun i => (c i).frame _ h h' _ (hr.1 i) (fun p hp => h1 p (mem i p hp)) (fun p hp => h2 p (mem i p hp)), ?_⟩
    intro i j hij p hp q hq
    rw [e i p hp, e j q hq]
    exact hr.2 i j hij p hp q hq
  · intro l h s t args vs hr hp ha hv
    obtain ⟨i, t⟩ := t
    have k := (c i).call (l i) h (s i) t args vs (hr.1 i) (fun p h1 => hp p (mem i p h1))
      (fun o ho => ⟨(ha o ho).1, (ha o ho).2.1, fun hm => (ha o ho).2.2.1 (mem i o hm),
        fun p h1 => (ha o ho).2.2.2 p (mem i p h1)⟩) hv
    show Kept (netModule m).ps h ((m i).call (l i) h t args).2.1 ((m i).call (l i) h t args).2.2 ∧
      ((∀ j, R j (Function.update l i ((m i).call (l i) h t args).1 j) ((m i).call (l i) h t args).2.1
        (Function.update s i (step i (s i) t vs).1 j)) ∧ NetSep (fun i : Fin n => (m i).ps) ((m i).call (l i) h t args).2.1) ∧
      ((m i).call (l i) h t args).2.2.map ((m i).call (l i) h t args).2.1.vec = (step i (s i) t vs).2
    obtain ⟨⟨k1, k2, k3, k4, k5, k6⟩, kr, kv⟩ := k
    generalize (m i).call (l i) h t args = r at k1 k2 k3 k4 k5 k6 kr kv ⊢
    obtain ⟨l', h', outs⟩ := r
    dsimp only at k1 k2 k3 k4 k5 k6 kr kv ⊢
    have ob : ∀ j, j ≠ i → ∀ q ∈ (m j).ps, h'.obj q = h.obj q := fun j hj q hq =>
      k2 q (hp q (mem j q hq)).1 fun hm => (hr.2 j i hj q hq q hm).1 rfl
    have st : ∀ j, j ≠ i → ∀ q ∈ (m j).ps, h'.st q = h.st q := fun j hj q hq => by
      show (h'.obj q).stor = (h.obj q).stor
      rw [ob j hj q hq]
    have ce : ∀ j, j ≠ i → ∀ q ∈ (m j).ps, h'.cell (h.st q) = h.cell (h.st q) := fun j hj q hq =>
      k3 _ (hp q (mem j q hq)).2 fun p hm => (hr.2 i j (Ne.symm hj) p hm q hq).2
    have mem' : ∀ p, p ∈ (netModule m).ps → ∃ j, p ∈ (m j).ps := fun p h1 => by
      obtain ⟨j, -, h2⟩ := List.mem_flatMap.mp h1
      exact ⟨j, h2⟩
    have far : ∀ j, j ≠ i → ∀ q ∈ (m j).ps, ∀ c, (h.next ≤ c ∨ ∃ p ∈ (m i).ps, c = h.st p) → h.st q ≠ c := by
      intro j hj q hq c hc
      rcases hc with h1 | ⟨p, hp', rfl⟩
      · have := (hp q (mem j q hq)).2; omega
      · exact (hr.2 j i hj q hq p hp').2
    refine ⟨⟨k1, fun o h1 h2 => k2 o h1 fun hm => h2 (mem i o hm),
      fun c h1 h2 => k3 c h1 fun p hm => h2 p (mem i p hm), ?_, k5, ?_⟩, ⟨?_, ?_⟩, kv⟩
    · intro p h1
      obtain ⟨j, h2⟩ := mem' p h1
      by_cases hj : j = i
      · subst hj
        refine ⟨(k4 p h2).1, ?_⟩
        rcases (k4 p h2).2 with h3 | ⟨q, h3, h4⟩
        · exact Or.inl h3
        · exact Or.inr ⟨q, mem j q h3, h4⟩
      · rw [st j hj p h2]
        exact ⟨lt_of_lt_of_le (hp p h1).2 k1, Or.inr ⟨p, h1, rfl⟩⟩
    · intro o ho
      obtain ⟨o1, o2, o3, o4, o5⟩ := k6 o ho
      refine ⟨o1, o2, o3, ?_, fun p h1 => ?_⟩
      · rcases o4 with h3 | ⟨q, h3, h4⟩
        · exact Or.inl h3
        · exact Or.inr ⟨q, mem i q h3, h4⟩
      · obtain ⟨j, h2⟩ := mem' p h1
        by_cases hj : j = i
        · subst hj; exact o5 p h2
        · rw [st j hj p h2]; exact far j hj p h2 _ o4
    · intro j
      by_cases hj : j = i
      · subst hj
        rw [Function.update_self, Function.update_self]; exact kr
      · rw [Function.update_of_ne hj, Function.update_of_ne hj]
        exact (c j).frame _ h h' _ (hr.1 j) (ob j hj) (ce j hj)
    · intro a b hab p hp' q hq
      refine ⟨(hr.2 a b hab p hp' q hq).1, ?_⟩
      by_cases ha' : a = i
      · subst ha'
        rw [st b (Ne.symm hab) q hq]
        exact Ne.symm (far b (Ne.symm hab) q hq _ (k4 p hp').2)
      · rw [st a ha' p hp']
        by_cases hb : b = i
        · subst hb
          exact far a ha' p hp' _ (k4 q hq).2
        · rw [st b hb q hq]; exact (hr.2 a b hab p hp' q hq).2

/-! ## Construction -/

theorem layers_own (vss : List (List Vec)) : ∀ h : Mem,
    Kept [] h (h.layers (vss.map fun vs => vs.map .own)).1 [] ∧
    (∀ ps ∈ (h.layers (vss.map fun vs => vs.map .own)).2, Fresh h (h.layers (vss.map fun vs => vs.map .own)).1 ps ∧
      (ps.map (h.layers (vss.map fun vs => vs.map .own)).1.st).Nodup) ∧
    (h.layers (vss.map fun vs => vs.map .own)).2.map (fun ps => ps.map (h.layers (vss.map fun vs => vs.map .own)).1.vec) = vss ∧
    (h.layers (vss.map fun vs => vs.map .own)).2.Pairwise fun a b => ∀ p ∈ a, ∀ q ∈ b,
      p ≠ q ∧ (h.layers (vss.map fun vs => vs.map .own)).1.st p ≠ (h.layers (vss.map fun vs => vs.map .own)).1.st q := by
  induction vss with
  | nil =>
    intro h
    exact ⟨kept_refl (fun _ h1 => absurd h1 List.not_mem_nil), fun _ h1 => absurd h1 List.not_mem_nil, rfl, List.Pairwise.nil⟩
  | cons vs vss ih =>
    intro h
    obtain ⟨a1, a2, a3, a4⟩ := params_own vs h
    obtain ⟨i1, i2, i3, i4⟩ := ih (h.params (vs.map .own)).1
    simp only [List.map_cons, Mem.layers]
    generalize h.params (vs.map .own) = t at a1 a2 a3 a4 i1 i2 i3 i4 ⊢
    generalize t.1.layers (vss.map fun vs => vs.map .own) = r at i1 i2 i3 i4 ⊢
    have out : ∀ p ∈ t.2, Outside [] t.1 p := fun p hp =>
      ⟨(a2 p hp).2.1, (a2 p hp).2.2.2, List.not_mem_nil, fun _ h1 => absurd h1 List.not_mem_nil⟩
    have st : ∀ p ∈ t.2, r.1.st p = t.1.st p := fun p hp => by
      show (r.1.obj p).stor = (t.1.obj p).stor
      rw [i1.2.1 p (out p hp).1 List.not_mem_nil]
    have hle := a1.1
    have hle' := i1.1
    refine ⟨kept_trans a1 i1, ?_, ?_, ?_⟩
    · intro ps hps
      rcases List.mem_cons.mp hps with rfl | hps
      · refine ⟨fun p hp => ?_, ?_⟩
        · have := a2 p hp
          rw [st p hp]; omega
        · rw [List.map_congr_left st]; exact a4
      · refine ⟨fun p hp => ?_, (i2 ps hps).2⟩
        have := (i2 ps hps).1 p hp
        omega
    · rw [i3]
      congr 1
      rw [List.map_congr_left fun p hp => kept_vec i1 (out p hp)]; exact a3
    · refine List.Pairwise.cons (fun ps hps p hp q hq => ?_) i4
      have h1 := a2 p hp
      have h2 := (i2 ps hps).1 q hq
      rw [st p hp]
      exact ⟨by omega, by omega⟩

theorem layers_length (oss : List (List Origin)) : ∀ h : Mem, (h.layers oss).2.length = oss.length := by
  induction oss with
  | nil => intro h; rfl
  | cons o os ih => intro h; simp [Mem.layers, ih]

/-- The modules of a network, made one after the other. -/
abbrev netOf {n : ℕ} {L : Fin n → Type} {τ : Type} (prog : ∀ i, Prog (L i) τ) (F : ∀ i, L i → τ → Nums)
    (al : ∀ i, L i → τ → ℕ → Bool) (pss : List (List ℕ)) : ∀ i, Module (L i) τ :=
  fun i => progModule (pss.getD i []) (prog i) (F i) (al i)

theorem net_start {n : ℕ} {L : Fin n → Type} {τ : Type} (prog : ∀ i, Prog (L i) τ) (F : ∀ i, L i → τ → Nums)
    (al : ∀ i, L i → τ → ℕ → Bool) (vs : Fin n → List Vec)
    (hc : ∀ i l t k, checkProg (vs i).length k (prog i l t k).2 = true) (h : Mem) (held : List ℕ) (hh : Apart h held)
    (l : ∀ i, L i) :
    let r := h.layers (List.ofFn fun i => (vs i).map .own)
    let R := fun (l : ∀ i, L i) (h : Mem) (s : ∀ i, L i × List Vec) =>
      (∀ i : Fin n, Holding (r.2.getD i []) (l i) h (s i)) ∧ NetSep (fun i : Fin n => r.2.getD i []) h
    ContractV (netModule (netOf prog F al r.2)) (Verif.Spec.netStep fun i => Verif.Spec.valueProg (prog i) (F i) (al i)) R ∧
    GoodV (netModule (netOf prog F al r.2)) R ⟨l, r.1, held⟩ (fun i => (l i, vs i), held.map h.vec) ∧
    ∀ i : Fin n, (r.2.getD i []).length = (vs i).length := by
  intro r
  have e : (List.ofFn fun i => (vs i).map Origin.own) = (List.ofFn vs).map fun vs => vs.map .own := by
    rw [List.map_ofFn]; rfl
  have hl : r.2.length = n := by
    have := layers_length (List.ofFn fun i => (vs i).map Origin.own) h
    rw [List.length_ofFn] at this; exact this
  have hr : r = h.layers ((List.ofFn vs).map fun vs => vs.map .own) := congrArg h.layers e
  obtain ⟨i1, i2, i3, i4⟩ := layers_own (List.ofFn vs) h
  rw [← hr] at i1 i2 i3 i4
  clear_value r
  intro R
  have hm : ∀ i : Fin n, r.2.getD i [] ∈ r.2 := fun i => by
    rw [List.getD_eq_getElem _ _ (by omega)]; exact List.getElem_mem _
  have hv : ∀ i : Fin n, (r.2.getD i []).map r.1.vec = vs i := fun i => by
    have h1 : (r.2.map fun ps => ps.map r.1.vec)[(i : ℕ)]? = (List.ofFn vs)[(i : ℕ)]? := by rw [i3]
    have h2 : (i : ℕ) < r.2.length := by omega
    rw [List.getElem?_map, List.getElem?_eq_getElem h2, List.getElem?_ofFn] at h1
    rw [List.getD_eq_getElem _ _ h2]
    simpa using h1
  have hlen : ∀ i : Fin n, (r.2.getD i []).length = (vs i).length := fun i => by rw [← hv i]; simp
  refine ⟨net_contract _ _ _ fun i => prog_contract (r.2.getD i []) (prog i) (F i) (al i) ?_,
    good_startV hh rfl i1 ?_ ⟨fun i => ⟨rfl, hv i, (i2 _ (hm i)).2⟩, ?_⟩, hlen⟩
  · rw [hlen i]; exact hc i
  · intro p hp
    obtain ⟨i, -, h1⟩ := List.mem_flatMap.mp hp
    exact (i2 _ (hm i)).1 p h1
  · intro i j hij p hp q hq
    change p ∈ r.2.getD i [] at hp
    change q ∈ r.2.getD j [] at hq
    have hi : (i : ℕ) < r.2.length := by omega
    have hj : (j : ℕ) < r.2.length := by omega
    rw [List.getD_eq_getElem _ _ hi] at hp
    rw [List.getD_eq_getElem _ _ hj] at hq
    have h4 := List.pairwise_iff_getElem.mp i4
    rcases Nat.lt_or_ge i j with h1 | h1
    · exact h4 i j hi hj h1 p hp q hq
    · have h2 : (j : ℕ) < i := by
        rcases Nat.lt_or_eq_of_le h1 with h2 | h2
        · exact h2
        · exact absurd (Fin.ext h2.symm) hij
      have := h4 j i hj hi h2 q hq p hp
      exact ⟨Ne.symm this.1, Ne.symm this.2⟩

/-- Checked lists of operations behave together as if tensors were values. -/
theorem net_run {n : ℕ} {L : Fin n → Type} {τ : Type} (prog : ∀ i, Prog (L i) τ) (F : ∀ i, L i → τ → Nums)
    (al : ∀ i, L i → τ → ℕ → Bool) (vs : Fin n → List Vec)
    (hc : ∀ i l t k, checkProg (vs i).length k (prog i l t k).2 = true) (h : Mem) (held : List ℕ) (hh : Apart h held)
    (l : ∀ i, L i) (ds : List (Deed (Fin n × τ) Vec)) :
    World.readV (netModule (netOf prog F al (h.layers (List.ofFn fun i => (vs i).map .own)).2))
        ⟨l, (h.layers (List.ofFn fun i => (vs i).map .own)).1, held⟩ ds =
      Verif.Spec.valueRead (Verif.Spec.netStep fun i => Verif.Spec.valueProg (prog i) (F i) (al i))
        (fun i => (l i, vs i), held.map h.vec) ds := by
  obtain ⟨c, g, -⟩ := net_start prog F al vs hc h held hh l
  exact good_runV c ds _ _ g

/-- One deed changes the state of no module but the one called. -/
theorem netStep_keep {n : ℕ} {L : Fin n → Type} {τ : Type} (prog : ∀ i, Prog (L i) τ) (F : ∀ i, L i → τ → Nums)
    (al : ∀ i, L i → τ → ℕ → Bool) (i : Fin n) (j : ℕ) (x : Vec) (k : ℕ) (hj : j < k)
    (hu : ∀ l t n, untouched j (prog i l t n).2.1 = true) (ds : List (Deed (Fin n × τ) Vec)) :
    ∀ v : (∀ i, L i × List Vec) × List Vec, (v.1 i).2.length = k → (v.1 i).2.getD j 0 = x →
      ((ds.foldl (Verif.Spec.valueAct (Verif.Spec.netStep fun i => Verif.Spec.valueProg (prog i) (F i) (al i))) v).1 i).2.getD j 0 = x := by
  induction ds with
  | nil => intro v _ h2; exact h2
  | cons d ds ih =>
    intro v h1 h2
    rw [List.foldl_cons]
    cases d with
    | make y => exact ih _ h1 h2
    | poke a y => exact ih _ h1 h2
    | call t ks =>
      obtain ⟨a, t⟩ := t
      by_cases ha : i = a
      · subst ha
        refine ih _ ?_ ?_
        · simp only [Verif.Spec.valueAct, Verif.Spec.netStep, Function.update_self]
          exact (valueProg_length (prog i) (F i) (al i) (v.1 i) t _).trans h1
        · simp only [Verif.Spec.valueAct, Verif.Spec.netStep, Function.update_self]
          exact (untouched_step (prog i) (F i) (al i) (v.1 i) t _ j (by omega) (hu _ _ _)).trans h2
      · refine ih _ ?_ ?_
        · simp only [Verif.Spec.valueAct, Verif.Spec.netStep, Function.update_of_ne ha]; exact h1
        · simp only [Verif.Spec.valueAct, Verif.Spec.netStep, Function.update_of_ne ha]; exact h2

theorem getD_map_vec (ps : List ℕ) (f : ℕ → Vec) (j : ℕ) (hj : j < ps.length) : f (ps.getD j 0) = (ps.map f).getD j 0 := by
  rw [List.getD_eq_getElem _ _ hj, List.getD_eq_getElem _ _ (by rw [List.length_map]; exact hj), List.getElem_map]

/-- What no operation of a module touches never changes, whatever the other modules do. -/
theorem net_keep {n : ℕ} {L : Fin n → Type} {τ : Type} (prog : ∀ i, Prog (L i) τ) (F : ∀ i, L i → τ → Nums)
    (al : ∀ i, L i → τ → ℕ → Bool) (vs : Fin n → List Vec)
    (hc : ∀ i l t k, checkProg (vs i).length k (prog i l t k).2 = true) (h : Mem) (held : List ℕ) (hh : Apart h held)
    (l : ∀ i, L i) (ds : List (Deed (Fin n × τ) Vec)) (i : Fin n) (j : ℕ) (hj : j < (vs i).length)
    (hu : ∀ l t n, untouched j (prog i l t n).2.1 = true) :
    (ds.foldl (World.actV (netModule (netOf prog F al (h.layers (List.ofFn fun i => (vs i).map .own)).2)))
        ⟨l, (h.layers (List.ofFn fun i => (vs i).map .own)).1, held⟩).h.vec
      (((h.layers (List.ofFn fun i => (vs i).map .own)).2.getD i []).getD j 0) = (vs i).getD j 0 := by
  obtain ⟨c, g, hlen⟩ := net_start prog F al vs hc h held hh l
  have g' := good_foldV c ds _ _ g
  have hk := netStep_keep prog F al i j ((vs i).getD j 0) (vs i).length hj hu ds
    (fun i => (l i, vs i), held.map h.vec) rfl rfl
  rw [← (g'.rel.1 i).2.1] at hk
  rw [← hk]
  have hj' := hj
  rw [← hlen i] at hj'
  exact getD_map_vec _ _ j hj'

theorem valueRead_makes {σ τ : Type} (step : σ → τ → List Vec → σ × List Vec) (xs : List Vec) :
    ∀ (v : σ × List Vec) (ds : List (Deed τ Vec)),
      Verif.Spec.valueRead step v (xs.map .make ++ ds) = Verif.Spec.valueRead step (v.1, v.2 ++ xs) ds := by
  induction xs with
  | nil => intro v ds; simp
  | cons x xs ih =>
    intro v ds
    have := ih (v.1, v.2 ++ [x]) ds
    rw [List.append_assoc] at this
    exact this

/-- One module of a network sees the deeds it would see without the others. -/
theorem solo_value {n : ℕ} {L : Fin n → Type} {τ : Type} (m : ∀ i, Module (L i) τ) {σ : Fin n → Type}
    (step : ∀ i, σ i → τ → List Vec → σ i × List Vec) {R : (∀ i, L i) → Mem → (∀ i, σ i) → Prop}
    (c : ContractV (netModule m) (Verif.Spec.netStep step) R) (i : Fin n) (ds : List (Deed (Fin n × τ) Vec)) :
    ∀ (w : World (∀ i, L i)) (v : (∀ i, σ i) × List Vec), GoodV (netModule m) R w v →
      Verif.Spec.valueRead (step i) (v.1 i, v.2) (World.solo m i w ds) =
        Verif.Spec.valueRead (Verif.Spec.netStep step) v ds := by
  induction ds with
  | nil => intro w v g; rfl
  | cons d ds ih =>
    intro w v g
    have g' := good_actV c w v g d
    have := ih _ _ g'
    cases d with
    | make y => exact this
    | poke a y => exact this
    | call t ks =>
      obtain ⟨a, t⟩ := t
      have hlen : w.held.length = v.2.length := by simpa using congrArg List.length g.vals
      by_cases ha : a = i
      · subst ha
        simp only [World.solo, if_true]
        refine Eq.trans ?_ this
        simp only [Verif.Spec.valueAct, Verif.Spec.netStep, Verif.Spec.valueRead, List.foldl_cons,
          Function.update_self]
      · simp only [World.solo, if_neg ha]
        have e : ((World.actV (netModule m) w (.call (a, t) ks)).held.drop w.held.length).map
            (fun o => Deed.make (τ := τ) ((World.actV (netModule m) w (.call (a, t) ks)).h.vec o)) =
            (Verif.Spec.netStep step v.1 (a, t) (ks.filterMap fun k => v.2[k]?)).2.map .make := by
          have h1 := g'.vals
          have h2 := congrArg (List.drop w.held.length) h1
          rw [← List.map_drop, hlen] at h2
          rw [hlen]
          have h3 : (Verif.Spec.valueAct (Verif.Spec.netStep step) v (.call (a, t) ks)).2.drop v.2.length =
              (Verif.Spec.netStep step v.1 (a, t) (ks.filterMap fun k => v.2[k]?)).2 := List.drop_left' rfl
          rw [h3] at h2
          rw [← h2, List.map_map]
          rfl
        rw [e, valueRead_makes]
        refine Eq.trans ?_ this
        simp only [Verif.Spec.valueAct, Verif.Spec.netStep, Function.update_of_ne (Ne.symm ha)]

/-- A module of a network behaves as it does alone. -/
theorem net_solo {n : ℕ} {L : Fin n → Type} {τ : Type} (prog : ∀ i, Prog (L i) τ) (F : ∀ i, L i → τ → Nums)
    (al : ∀ i, L i → τ → ℕ → Bool) (vs : Fin n → List Vec)
    (hc : ∀ i l t k, checkProg (vs i).length k (prog i l t k).2 = true) (h : Mem) (held : List ℕ) (hh : Apart h held)
    (l : ∀ i, L i) (ds : List (Deed (Fin n × τ) Vec)) (i : Fin n) :
    World.readV (netModule (netOf prog F al (h.layers (List.ofFn fun i => (vs i).map .own)).2))
        ⟨l, (h.layers (List.ofFn fun i => (vs i).map .own)).1, held⟩ ds =
      World.readV (progModule (h.params ((vs i).map .own)).2 (prog i) (F i) (al i))
        ⟨l i, (h.params ((vs i).map .own)).1, held⟩
        (World.solo (netOf prog F al (h.layers (List.ofFn fun i => (vs i).map .own)).2) i
          ⟨l, (h.layers (List.ofFn fun i => (vs i).map .own)).1, held⟩ ds) := by
  obtain ⟨c, g, -⟩ := net_start prog F al vs hc h held hh l
  rw [net_run prog F al vs hc h held hh l ds, prog_run (prog i) (F i) (al i) (vs i) (hc i) h held hh (l i)]
  exact (solo_value _ _ c i ds _ _ g).symm

/-- Every module passes the check. -/
theorem chk_layer (y : Layer) : ∀ l t n, checkProg y.size n (y.prog l t n).2 = true := by
  cases y with
  | linearPC c => exact chk_linear_pc c
  | linear c => exact chk_linear c
  | convPC c => exact chk_conv_pc c
  | conv c => exact chk_conv c
  | add b => exact chk_add b
  | hubLinear b => exact chk_hub_linear b
  | fxpLinear b => exact chk_fxp_linear b
  | hubConv b => exact chk_hub_conv b
  | fxpConv b => exact chk_fxp_conv b
  | tlutLinear m a b d => exact chk_tlut_linear m a b d
  | tlutConv m a b d => exact chk_tlut_conv m a b d
  | mgu => exact chk_mgu
  | mguFxp => exact chk_mgu_fxp
  | fsuMgu a b => exact chk_fsu_mgu a b
  | relu => exact chk_relu

theorem kp_layer (y : Layer) : ∀ l t n, y.weights.all (fun j => untouched j (y.prog l t n).2.1) = true := by
  cases y with
  | linearPC c => exact kp_linear_pc c
  | linear c => exact kp_linear c
  | convPC c => exact kp_conv_pc c
  | conv c => exact kp_conv c
  | add b => exact fun _ _ _ => rfl
  | hubLinear b => exact kp_hub_linear b
  | fxpLinear b => exact kp_fxp_linear b
  | hubConv b => exact kp_hub_conv b
  | fxpConv b => exact kp_fxp_conv b
  | tlutLinear m a b d => exact kp_tlut_linear m a b d
  | tlutConv m a b d => exact kp_tlut_conv m a b d
  | mgu => exact kp_mgu
  | mguFxp => exact kp_mgu_fxp
  | fsuMgu a b => exact kp_fsu_mgu a b
  | relu => exact fun _ _ _ => rfl

theorem weights_lt (y : Layer) : ∀ j ∈ y.weights, j < y.size := by
  cases y <;> simp only [Layer.weights, Layer.size] <;> decide

end Verif.Share
