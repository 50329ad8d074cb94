import Verif.Model.ShareHub
import Verif.Proofs.ShareLayer

/-!
# Sharing of memory: a module made and used within a call
-/

namespace Verif.Share

/-- Whether a deed writes into a tensor held. -/
def Deed.pokes {τ V : Type} : Deed τ V → Bool
  | .poke _ _ => true
  | _ => false

/-- The memory while a module made within a call is used: what was there before is as it was. -/
structure Inner {L τ σ : Type} (m : Module L τ) (R : L → Mem → σ → Prop) (h0 : Mem) (w : World L) (v : σ × List Vec) :
    Prop where
  priv : ∀ p ∈ m.ps, p < w.h.next ∧ w.h.st p < w.h.next
  fresh : ∀ p ∈ m.ps, h0.next ≤ p ∧ h0.next ≤ w.h.st p
  le : h0.next ≤ w.h.next
  obj : ∀ o, o < h0.next → w.h.obj o = h0.obj o
  cell : ∀ c, c < h0.next → w.h.cell c = h0.cell c
  out : ∀ o ∈ w.held, Outside m.ps w.h o
  vals : w.held.map w.h.vec = v.2
  rel : R w.l w.h v.1

theorem inner_act {L τ σ : Type} {m : Module L τ} {step : σ → τ → List Vec → σ × List Vec} {R : L → Mem → σ → Prop}
    (c : ContractV m step R) {h0 : Mem} (w : World L) (v : σ × List Vec) (g : Inner m R h0 w v) (d : Deed τ Vec)
    (hd : d.pokes = false) : Inner m R h0 (World.actV m w d) (Verif.Spec.valueAct step v d) := by
  obtain ⟨l, h, held⟩ := w
  obtain ⟨s, vs⟩ := v
  obtain ⟨hp, hf, hle, hob, hce, ho, hv, hr⟩ := g
  dsimp only at hp hf hle hob hce ho hv hr
  cases d with
  | poke k x => cases hd
  | make x =>
    have hk : Kept m.ps h (h.new x).1 [] := by
      refine ⟨Nat.le_succ _, fun o h1 _ => Function.update_of_ne (by omega) _ _,
        fun c h1 _ => Function.update_of_ne (by omega) _ _, fun p h1 => ?_, List.nodup_nil,
        fun _ h1 => absurd h1 List.not_mem_nil⟩
      have e : (h.new x).1.st p = h.st p := by
        show ((h.new x).1.obj p).stor = (h.obj p).stor
        rw [show (h.new x).1.obj p = h.obj p from Function.update_of_ne (by have := (hp p h1).1; omega) _ _]
      rw [e]
      exact ⟨Nat.lt_succ_of_lt (hp p h1).2, Or.inr ⟨p, h1, rfl⟩⟩
    have hs : (h.new x).1.st h.next = h.next := by simp [Mem.new, Mem.st]
    have hstp : ∀ p ∈ m.ps, (h.new x).1.st p = h.st p := fun p h1 => by
      show ((h.new x).1.obj p).stor = (h.obj p).stor
      rw [show (h.new x).1.obj p = h.obj p from Function.update_of_ne (by have := (hp p h1).1; omega) _ _]
    have hnx : (h.new x).1.next = h.next + 1 := rfl
    refine ⟨kept_priv hk hp, fun p h1 => ⟨(hf p h1).1, ?_⟩, ?_, fun o h1 => ?_, fun c h1 => ?_, fun o h1 => ?_, ?_, ?_⟩
    · show h0.next ≤ (h.new x).1.st p
      rw [hstp p h1]; exact (hf p h1).2
    · show h0.next ≤ (h.new x).1.next
      omega
    · show (h.new x).1.obj o = _
      rw [← hob o h1]; exact Function.update_of_ne (Nat.ne_of_lt (lt_of_lt_of_le h1 hle)) _ _
    · show (h.new x).1.cell c = _
      rw [← hce c h1]; exact Function.update_of_ne (Nat.ne_of_lt (lt_of_lt_of_le h1 hle)) _ _
    · have h1' : o ∈ held ∨ o = h.next := by simpa [World.actV, Mem.new] using h1
      rcases h1' with h1' | rfl
      · exact (kept_outside hk (ho o h1')).1
      · refine ⟨Nat.lt_succ_self _, ?_, fun hm => ?_, fun p h2 => ?_⟩
        · show (h.new x).1.st h.next < h.next + 1
          rw [hs]; exact Nat.lt_succ_self _
        · have := (hp _ hm).1; omega
        · show (h.new x).1.st p ≠ (h.new x).1.st h.next
          rw [hs, hstp p h2]; have := (hp p h2).2; omega
    · show (held ++ [h.next]).map (h.new x).1.vec = vs ++ [x]
      rw [List.map_append, List.map_cons, List.map_nil, List.map_congr_left fun o h1 => kept_vec hk (ho o h1), hv]
      congr 2
      show (h.new x).1.cell ((h.new x).1.st h.next) = x
      rw [hs]; exact Function.update_self _ _ _
    · refine c.frame l h _ s hr (fun p h1 => ?_) (fun p h1 => ?_)
      · exact Function.update_of_ne (Nat.ne_of_lt (hp p h1).1) _ _
      · exact Function.update_of_ne (Nat.ne_of_lt (hp p h1).2) _ _
  | call t ks =>
    have hargs : ∀ o ∈ ks.filterMap (fun k => held[k]?), Outside m.ps h o := by
      intro o h1
      obtain ⟨k, -, hk⟩ := List.mem_filterMap.mp h1
      exact ho o (List.mem_of_getElem? hk)
    obtain ⟨ck, cr, cv⟩ := c.call l h s t _ (ks.filterMap fun k => vs[k]?) hr hp hargs
      (by simpa using filterMap_get h.vec id held vs (by simpa using hv) ks)
    show Inner m R h0 ⟨(m.call l h t (ks.filterMap fun k => held[k]?)).1,
      (m.call l h t (ks.filterMap fun k => held[k]?)).2.1,
      held ++ (m.call l h t (ks.filterMap fun k => held[k]?)).2.2⟩
      ((step s t (ks.filterMap fun k => vs[k]?)).1, vs ++ (step s t (ks.filterMap fun k => vs[k]?)).2)
    generalize m.call l h t (ks.filterMap fun k => held[k]?) = r at ck cr cv ⊢
    obtain ⟨l', h', outs⟩ := r
    dsimp only at ck cr cv ⊢
    refine ⟨kept_priv ck hp, fun p h1 => ⟨(hf p h1).1, ?_⟩, le_trans hle ck.1, fun o h1 => ?_, fun c h1 => ?_,
      fun o h1 => ?_, ?_, cr⟩
    · rcases (ck.2.2.2.1 p h1).2 with h2 | ⟨q, hq, h2⟩
      · exact le_trans hle h2
      · show h0.next ≤ h'.st p
        rw [h2]; exact (hf q hq).2
    · rw [← hob o h1]
      exact ck.2.1 o (lt_of_lt_of_le h1 hle) fun hm => by have := (hf o hm).1; omega
    · rw [← hce c h1]
      exact ck.2.2.1 c (lt_of_lt_of_le h1 hle) fun p hm => by have := (hf p hm).2; omega
    · rcases List.mem_append.mp h1 with h1 | h1
      · exact (kept_outside ck (ho o h1)).1
      · exact kept_new ck hp h1
    · show (held ++ outs).map h'.vec = _
      rw [List.map_append, List.map_congr_left fun o h1 => kept_vec ck (ho o h1), hv, cv]

theorem inner_run {L τ σ : Type} {m : Module L τ} {step : σ → τ → List Vec → σ × List Vec} {R : L → Mem → σ → Prop}
    (c : ContractV m step R) {h0 : Mem} (ds : List (Deed τ Vec)) : ∀ (w : World L) (v : σ × List Vec), Inner m R h0 w v →
    (∀ d ∈ ds, d.pokes = false) →
    Inner m R h0 (ds.foldl (World.actV m) w) (ds.foldl (Verif.Spec.valueAct step) v) := by
  induction ds with
  | nil => intro w v g _; exact g
  | cons d ds ih =>
    intro w v g hd
    exact ih _ _ (inner_act c w v g d (hd d List.mem_cons_self)) fun e he => hd e (List.mem_cons_of_mem _ he)

theorem inner_start {L τ : Type} (prog : Prog L τ) (F : L → τ → Nums) (al : L → τ → ℕ → Bool) (vs : List Vec) (h : Mem)
    (args : List ℕ) (ha : ∀ o ∈ args, Outside [] h o) (l : L) :
    Inner (progModule (h.params (vs.map .own)).2 prog F al) (Holding (h.params (vs.map .own)).2) h
      ⟨l, (h.params (vs.map .own)).1, args⟩ ((l, vs), args.map h.vec) := by
  obtain ⟨i1, i2, i3, i4⟩ := params_own vs h
  generalize h.params (vs.map .own) = r at i1 i2 i3 i4 ⊢
  have hst : ∀ o ∈ args, r.1.st o = h.st o := fun o ho => by
    show (r.1.obj o).stor = (h.obj o).stor
    rw [i1.2.1 o (ha o ho).1 List.not_mem_nil]
  refine ⟨fun p hp => ⟨(i2 p hp).2.1, (i2 p hp).2.2.2⟩, fun p hp => ⟨(i2 p hp).1, (i2 p hp).2.2.1⟩, i1.1,
    fun o h1 => i1.2.1 o h1 List.not_mem_nil, fun c h1 => i1.2.2.1 c h1 fun _ h2 => absurd h2 List.not_mem_nil,
    fun o ho => ?_, ?_, ⟨rfl, i3, i4⟩⟩
  · have h1 := ha o ho
    refine ⟨lt_of_lt_of_le h1.1 i1.1, ?_, fun hm => ?_, fun p hp => ?_⟩
    · show r.1.st o < r.1.next
      rw [hst o ho]; exact lt_of_lt_of_le h1.2.1 i1.1
    · have := (i2 o hm).1; have := h1.1; omega
    · show r.1.st p ≠ r.1.st o
      have := (i2 p hp).2.2.1; have := h1.2.1
      rw [hst o ho]; omega
  · exact List.map_congr_left fun o ho => kept_vec i1 (ha o ho)

end Verif.Share

namespace Verif.Spec

open Verif.Share

/-- A cell run on bits of input and state when tensors are values: its state and what it returned, after some cycles. -/
def hubRun {σ : Type} (step : σ → ℕ → List Vec → σ × List Vec) (s : σ) (batch : ℕ) (x y : ℕ → Vec) : ℕ → σ × List Vec
  | 0 => (s, [])
  | c + 1 =>
    let p := hubRun step s batch x y c
    let r := step p.1 batch [x c, y c]
    (r.1, p.2 ++ r.2)

/-- A call of `HUBMGUCell` when tensors are values: make the cell, run it for all cycles, compute the result. -/
def hubMgu (wtc hasBias : Bool) (cycles : ℕ) (N : HubNums) (F : ℕ × Bool → ℕ → Nums) (al : ℕ × Bool → ℕ → ℕ → Bool)
    (batch : ℕ) (vs : List Vec) : Vec :=
  N.res vs (hubRun (valueProg (fsuMguProg wtc hasBias) F al) ((1, true), N.init vs) batch (N.ibs vs) (N.hbs vs) cycles).2

/-- A call of `HUBMGUCell` as a step on values; there is no state. -/
abbrev hubStep (wtc hasBias : Bool) (cycles : ℕ) (N : HubNums) (F : ℕ × Bool → ℕ → Nums)
    (al : ℕ × Bool → ℕ → ℕ → Bool) (_ : Unit) (t : ℕ) (vs : List Vec) : Unit × List Vec :=
  ((), [hubMgu wtc hasBias cycles N F al t vs])

end Verif.Spec

namespace Verif.Share

theorem hub_cycles {σ : Type} (step : σ → ℕ → List Vec → σ × List Vec) (h1 : ∀ s t a b, (step s t [a, b]).2.length = 1)
    (s : σ) (t : ℕ) (N : HubNums) (us vs : List Vec) (n : ℕ) (hn : vs.length = n) (k : ℕ) :
    ∃ xs : List Vec, (hubCycles N us n t k).foldl (Verif.Spec.valueAct step) (s, vs) =
        ((Verif.Spec.hubRun step s t (N.ibs us) (N.hbs us) k).1, vs ++ xs) ∧ xs.length = 3 * k ∧
      (Verif.Spec.hubRun step s t (N.ibs us) (N.hbs us) k).2 = (List.range k).map fun c => (vs ++ xs).getD (n + 3 * c + 2) 0 := by
  induction k with
  | zero => exact ⟨[], by simp [hubCycles, Verif.Spec.hubRun]⟩
  | succ k ih =>
    obtain ⟨xs, e1, e2, e3⟩ := ih
    have e4 : hubCycles N us n t (k + 1) = hubCycles N us n t k ++
        [.make (N.ibs us k), .make (N.hbs us k), .call t [n + 3 * k, n + 3 * k + 1]] := by
      simp [hubCycles, List.range_succ]
    generalize hp : Verif.Spec.hubRun step s t (N.ibs us) (N.hbs us) k = p at e1 e3
    have hl : (vs ++ xs).length = n + 3 * k := by rw [List.length_append, hn, e2]
    have a0 : (vs ++ xs ++ [N.ibs us k] ++ [N.hbs us k])[n + 3 * k]? = some (N.ibs us k) := by
      rw [← hl]; simp
    have a1 : (vs ++ xs ++ [N.ibs us k] ++ [N.hbs us k])[n + 3 * k + 1]? = some (N.hbs us k) := by
      rw [List.getElem?_append_right (by rw [List.length_append, hl]; rfl), List.length_append, hl]; simp
    obtain ⟨o, ho⟩ := List.length_eq_one_iff.mp (h1 p.1 t (N.ibs us k) (N.hbs us k))
    refine ⟨xs ++ [N.ibs us k, N.hbs us k, o], ?_, by simp [e2]; omega, ?_⟩
    · rw [e4, List.foldl_append, e1]
      simp only [List.foldl_cons, List.foldl_nil, Verif.Spec.valueAct, List.filterMap_cons, List.filterMap_nil, a0, a1,
        Verif.Spec.hubRun, hp, ho]
      simp
    · simp only [Verif.Spec.hubRun, hp, ho, e3]
      rw [List.range_succ, List.map_append, List.map_cons, List.map_nil]
      congr 1
      · refine List.map_congr_left fun c hc => ?_
        have hc := List.mem_range.mp hc
        rw [← List.append_assoc, List.getD_append (vs ++ xs) _ _ _ (by rw [hl]; omega)]
      · rw [← List.append_assoc, List.getD_append_right (vs ++ xs) _ _ _ (by rw [hl]; omega), hl,
          show n + 3 * k + 2 - (n + 3 * k) = 2 by omega]
        rfl

theorem hub_contract (wtc hasBias : Bool) (cycles : ℕ) (N : HubNums) (F : ℕ × Bool → ℕ → Nums)
    (al : ℕ × Bool → ℕ → ℕ → Bool) (hN : ∀ vs, (N.init vs).length = 34) :
    ContractV (hubMguModule [] wtc hasBias cycles N F al)
      (fun (_ : Unit) t vs => ((), [Verif.Spec.hubMgu wtc hasBias cycles N F al t vs])) (fun _ _ _ => True) := by
  constructor
  · intros; trivial
  · intro l h s t args vs _ _ ha hv
    change ∀ o ∈ args, Outside [] h o at ha
    have hl : (h.params ((N.init vs).map .own)).2.length = 34 := by rw [params_length, List.length_map, hN]
    have c := prog_contract (h.params ((N.init vs).map .own)).2 (fsuMguProg wtc hasBias) F al
      (by rw [hl]; exact chk_fsu_mgu wtc hasBias)
    have g := inner_run c (hubCycles N vs args.length t cycles) _ _
      (inner_start (fsuMguProg wtc hasBias) F al (N.init vs) h args ha (1, true)) (by
        intro d hd
        simp only [hubCycles, List.mem_flatMap, List.mem_cons, List.not_mem_nil, or_false] at hd
        obtain ⟨_, -, rfl | rfl | rfl⟩ := hd <;> rfl)
    have hlen : vs.length = args.length := by rw [← hv, List.length_map]
    simp only [hubMguModule, hubCall, List.nil_append, Verif.Spec.hubMgu, Verif.Spec.valueRead]
    rw [hv] at g ⊢
    obtain ⟨xs, e1, -, e3⟩ := hub_cycles (Verif.Spec.valueProg (fsuMguProg wtc hasBias) F al) (fun _ _ _ _ => rfl)
      ((1, true), N.init vs) t N vs vs args.length hlen cycles
    have gv := g.vals
    rw [e1] at gv
    dsimp only at gv
    rw [e3, ← gv]
    generalize (hubCycles N vs args.length t cycles).foldl
      (World.actV (progModule (h.params ((N.init vs).map .own)).2 (fsuMguProg wtc hasBias) F al))
      ⟨(1, true), (h.params ((N.init vs).map .own)).1, args⟩ = w at g ⊢
    generalize N.res vs ((List.range cycles).map fun c => (w.held.map w.h.vec).getD (args.length + 3 * c + 2) 0) = x
    have hle := g.le
    have hs : (w.h.new x).1.st w.h.next = w.h.next := by simp [Mem.new, Mem.st]
    refine ⟨⟨?_, fun o h1 _ => ?_, fun c h1 _ => ?_, fun _ h1 => absurd h1 List.not_mem_nil, List.nodup_singleton _, ?_⟩,
      trivial, ?_⟩
    · show h.next ≤ w.h.next + 1
      omega
    · rw [← g.obj o h1]; exact Function.update_of_ne (by omega) _ _
    · rw [← g.cell c h1]; exact Function.update_of_ne (by omega) _ _
    · intro o ho
      have ho : o = w.h.next := List.mem_singleton.mp ho
      subst ho
      refine ⟨hle, Nat.lt_succ_self _, ?_, Or.inl ?_, fun _ h1 => absurd h1 List.not_mem_nil⟩
      · show (w.h.new x).1.st w.h.next < w.h.next + 1
        rw [hs]; exact Nat.lt_succ_self _
      · rw [hs]; exact hle
    · show [(w.h.new x).1.vec w.h.next] = [x]
      congr 1
      show (w.h.new x).1.cell ((w.h.new x).1.st w.h.next) = x
      rw [hs]; exact Function.update_self _ _ _

/-- A deed whose calls are given the tensors `ext` in front. -/
def Deed.given {τ V : Type} (ext : List ℕ) : Deed τ V → Deed τ V
  | .call t ks => .call t (ext ++ ks)
  | d => d

theorem hub_given (ext : List ℕ) (objs : List ℕ) (wtc hasBias : Bool) (cycles : ℕ) (N : HubNums) (F : ℕ × Bool → ℕ → Nums)
    (al : ℕ × Bool → ℕ → ℕ → Bool) (ds : List (Deed ℕ Vec)) : ∀ (w : World Unit), (∀ k ∈ ext, k < w.held.length) →
    ext.filterMap (fun k => w.held[k]?) = objs →
    ds.foldl (World.actV (hubMguModule objs wtc hasBias cycles N F al)) w =
      (ds.map (Deed.given ext)).foldl (World.actV (hubMguModule [] wtc hasBias cycles N F al)) w := by
  induction ds with
  | nil => intro w _ _; rfl
  | cons d ds ih =>
    intro w hl ho
    have e : World.actV (hubMguModule objs wtc hasBias cycles N F al) w d =
        World.actV (hubMguModule [] wtc hasBias cycles N F al) w (d.given ext) := by
      cases d with
      | call t ks => simp [World.actV, hubMguModule, Deed.given, List.filterMap_append, ho]
      | make x => rfl
      | poke k x => rfl
    obtain ⟨xs, hx⟩ : ∃ xs, (World.actV (hubMguModule objs wtc hasBias cycles N F al) w d).held = w.held ++ xs := by
      cases d with
      | call t ks => exact ⟨_, rfl⟩
      | make x => exact ⟨_, rfl⟩
      | poke k x => exact ⟨[], by simp only [World.actV, List.append_nil]; split <;> rfl⟩
    rw [List.map_cons, List.foldl_cons, List.foldl_cons, ← e]
    refine ih _ (fun k hk => ?_) ?_
    · rw [hx, List.length_append]; exact Nat.lt_add_right _ (hl k hk)
    · rw [hx, ← ho]
      exact List.filterMap_congr fun k hk => List.getElem?_append_left (hl k hk)

theorem hub_run (wtc hasBias : Bool) (cycles : ℕ) (N : HubNums) (F : ℕ × Bool → ℕ → Nums)
    (al : ℕ × Bool → ℕ → ℕ → Bool) (hN : ∀ vs, (N.init vs).length = 34) (h : Mem) (held : List ℕ) (hh : Apart h held)
    (ext : List ℕ) (he : ∀ k ∈ ext, k < held.length) (ds : List (Deed ℕ Vec)) :
    World.readV (hubMguModule (ext.filterMap fun k => held[k]?) wtc hasBias cycles N F al) ⟨(), h, held⟩ ds =
      Verif.Spec.valueRead (Verif.Spec.hubStep wtc hasBias cycles N F al) ((), held.map h.vec) (ds.map (Deed.given ext)) := by
  rw [← good_runV (hub_contract wtc hasBias cycles N F al hN) (ds.map (Deed.given ext)) ⟨(), h, held⟩ ((), held.map h.vec)
    (good_startV hh rfl (kept_refl fun _ h1 => absurd h1 List.not_mem_nil) (fun _ h1 => absurd h1 List.not_mem_nil) trivial)]
  unfold World.readV
  rw [hub_given ext _ wtc hasBias cycles N F al ds ⟨(), h, held⟩ he rfl]

end Verif.Share
