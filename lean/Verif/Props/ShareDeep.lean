import Verif.Model.ShareDeep
import Verif.Proofs.ShareStage
import Verif.Props.Share
import Verif.Props.ShareMore
import Verif.Proofs.Gen

/-!
# Results, arguments and state share no memory: divider, multiplier, square root (C104)
-/

namespace Verif.Props

open Verif Verif.Share

namespace Spec

/-- The correlated divider on values; an index outside the register or the sequence raises. -/
def corCall (entry : ℕ) (rng : List ℤ) (s : Divider.Cor) (_ : Unit) (x y : ℤ) : Divider.Cor × List ℤ :=
  match Divider.corStep entry rng s (x, y) with
  | .ok (s', q) => (s', [q])
  | .error _ => (s, [])

/-- A sequence of addresses of a register, as the generators make them for it. -/
def Addresses (entry : ℕ) (rng : List ℤ) : Prop :=
  0 < entry ∧ ∀ i, i < entry → ∃ r, rng[i]? = some r ∧ r.toNat < entry

/-- The divider on values. -/
def divCall (mode : Mode) (depthSa : ℤ) (depthSs entry : ℕ) (rng : List ℤ) (s : Divider.St) (shape : List ℕ)
    (x y : ℤ) : Divider.St × List ℤ :=
  match Divider.step mode depthSa depthSs entry rng shape s (x, y) with
  | .ok (s', q) => (s', [q])
  | .error _ => (s, [])

/-- The square root on values. -/
def sqrtCall (cfg : Sqrt.Cfg) (rng : List ℤ) (s : Sqrt.St) (_ : Unit) (x : ℤ) : Sqrt.St × List ℤ :=
  match Sqrt.step cfg rng s x with
  | .ok (s', q) => (s', [q])
  | .error _ => (s, [])

end Spec

/-! ## The divider -/

private abbrev zq : ℤ → ℚ := fun n : ℤ => (n : ℚ)

private theorem framed_val (p : ℕ) (v : ℚ) : Framed [p] fun h => h.val p = v :=
  fun g g' hg h1 h2 => holds_frame p () g g' v hg h1 h2

private def corParts (entry sr idx hq : ℕ) (first : Bool) (s : Divider.Cor) : Parts :=
  [([sr], fun h => HoldsReg entry sr first h s.cells), ([idx], fun h => h.val idx = zq s.idx),
    ([hq], fun h => h.val hq = zq s.historicQ)]

private def HoldsCor (entry sr idx hq : ℕ) : Bool → Mem → Divider.Cor → Prop := fun first h s =>
  Rack (corParts entry sr idx hq first s) h

private theorem corParts_framed (entry sr idx hq : ℕ) (first : Bool) (s : Divider.Cor) :
    ∀ x ∈ corParts entry sr idx hq first s, Framed x.1 x.2 := by
  simp only [corParts, List.forall_mem_cons, List.not_mem_nil, false_imp_iff, implies_true, and_true]
  exact ⟨fun h h' => (shiftReg_contract entry sr).frame _ h h' _, framed_val _ _, framed_val _ _⟩

private theorem corParts_cover (entry sr idx hq : ℕ) (first : Bool) (s : Divider.Cor) (p : ℕ) :
    p ∈ [sr, idx, hq] ↔ ∃ x ∈ corParts entry sr idx hq first s, p ∈ x.1 := by
  simp [corParts]

private theorem cordiv_contract (entry : ℕ) (rng : List ℤ) (same : Bool) (sr idx hq : ℕ) :
    Contract (cordiv entry rng same sr idx hq) zq (Verif.Spec.onTwo (Spec.corCall entry rng))
      (HoldsCor entry sr idx hq) := by
  refine contract2 _ ?_ (by arity_tac) ?_
  · intro l h h' s hr h1 h2
    have hc := corParts_cover entry sr idx hq l s
    exact rack_frame (corParts_framed entry sr idx hq l s) hr (fun x hx p hp => h1 p ((hc p).mpr ⟨x, hx, hp⟩))
      fun x hx p hp => h2 p ((hc p).mpr ⟨x, hx, hp⟩)
  · intro first h s t x y v w hr hp hx hy hv hw
    have hreg : HoldsReg entry sr first h s.cells := 
      hr.hold ([sr], fun h => HoldsReg entry sr first h s.cells) (by simp [corParts])
    have hidx : h.val idx = zq s.idx := hr.hold ([idx], fun h => h.val idx = zq s.idx) (by simp [corParts])
    have hi : (truncZ (h.val idx)).toNat = s.idx := by
      rw [hidx]; simp only [zq, truncZ_cast]; simp
    have hlen : s.cells.length = entry := hreg.1.1
    cases hr1 : rng[s.idx % entry]? with
    | none =>
      have e1 : (cordiv entry rng same sr idx hq).call first h t [x, y] = (first, h, []) := by
        simp only [cordiv, hi, hr1]
      have e2 : Spec.corCall entry rng s t v w = (s, []) := by
        simp only [Spec.corCall, Divider.corStep, hr1]
      rw [e1, e2]
      exact ⟨kept_refl hp, hr, rfl⟩
    | some r =>
      by_cases hb : entry ≤ r.toNat
      · have e1 : (cordiv entry rng same sr idx hq).call first h t [x, y] = (first, h, []) := by
          simp only [cordiv, hi, hr1, if_pos hb]
        have hc : s.cells[r.toNat]? = none := List.getElem?_eq_none_iff.mpr (by omega)
        have e2 : Spec.corCall entry rng s t v w = (s, []) := by
          simp only [Spec.corCall, Divider.corStep, hr1, hc]
        rw [e1, e2]
        exact ⟨kept_refl hp, hr, rfl⟩
      · have hc : s.cells[r.toNat]? = some (s.cells.getD r.toNat 0) := by
          rw [List.getD_eq_getElem?_getD, List.getElem?_eq_getElem (by omega)]; rfl
        set hqv := s.cells.getD r.toNat 0 with hqv_def
        set eq1 : ℤ := ind (w = 1) with eq1_def
        have e2 : Spec.corCall entry rng s t v w =
            (⟨Small.srShift s.cells (eq1 * v + (1 - eq1) * hqv) (some eq1), s.idx + 1, hqv⟩,
              [eq1 * v + (1 - eq1) * hqv]) := by
          simp only [Spec.corCall, Divider.corStep, hr1, hc, eq1_def]
        have st0 : Stage zq [sr, idx, hq] (corParts entry sr idx hq first s) h h [] [(x, v), (y, w)] :=
          stage_start (corParts_cover entry sr idx hq first s) hp (corParts_framed entry sr idx hq first s) hr
            (by simp only [List.forall_mem_cons, List.not_mem_nil, false_imp_iff, implies_true, and_true]
                exact ⟨⟨hx, hv⟩, hy, hw⟩)
        have hev : (ind (h.val y = 1) : ℚ) = zq eq1 := by
          rw [hw, eq1_def]; simp only [zq, ind_cast]
          exact ind_iff (by constructor <;> intro hh <;> exact_mod_cast hh)
        have st1 := stage_one st0 eq1 _ hev
        rw [e2]
        simp only [cordiv, hi, hr1, if_neg hb, one_snd]
        generalize hn0 : h.next = o1 at st1 ⊢
        generalize (h.one (ind (h.val y = 1))).1 = h1 at st1 ⊢
        have g1 : h1.get sr r.toNat = zq hqv := by
          have : HoldsReg entry sr first h1 s.cells :=
            st1.rack.hold ([sr], fun h => HoldsReg entry sr first h s.cells) (by simp [corParts])
          exact this.1.2 _ (by omega)
        have st2 := stage_assign (pre := [_, _]) (post := []) st1 _ _ g1
        generalize (h1.one (h1.get sr r.toNat)).1.setData hq h1.next = h2 at st2 ⊢
        have g2 : h2.val idx + 1 = zq ((s.idx + 1 : ℕ) : ℤ) := by
          have : h2.val idx = _ := st2.rack.hold ([idx], fun h => h.val idx = zq s.idx) (by simp)
          rw [this]; simp [zq]
        have st3 := stage_assign (pre := [_]) (post := [_]) st2 _ _ g2
        generalize (h2.one (h2.val idx + 1)).1.setData idx h2.next = h3 at st3 ⊢
        have g3 : h3.val o1 * h3.val x + (1 - h3.val o1) * h3.val hq = zq (eq1 * v + (1 - eq1) * hqv) := by
          have a1 : h3.val hq = _ := st3.rack.hold ([hq], fun h => h.val hq = zq hqv) (by simp)
          have a2 : h3.val o1 = zq eq1 := (st3.live (o1, eq1) (by simp)).2
          have a3 : h3.val x = zq v := (st3.live (x, v) (by simp)).2
          rw [a1, a2, a3]; simp [zq]
        have st4 := stage_one st3 _ _ g3
        generalize hn3 : h3.next = o2 at st4 ⊢
        generalize (h3.one (h3.val o1 * h3.val x + (1 - h3.val o1) * h3.val hq)).1 = h4 at st4 ⊢
        generalize hq0 : eq1 * v + (1 - eq1) * hqv = q at *
        obtain ⟨new5, live5, st5, n5, l5, sn5, sl5⟩ := stage_typed st4 same o2 q (by simp) (by simp)
        generalize (h4.typed same o2).2 = o3 at *
        generalize (h4.typed same o2).1 = h5 at *
        obtain ⟨l6, h6, outs, ec, -, st6⟩ := stage_sub (shiftReg_contract entry sr) (pre := []) st5 0
          [(o3, q), (o1, eq1)] (by
            simp only [List.forall_mem_cons, List.not_mem_nil, false_imp_iff, implies_true, and_true]
            exact ⟨l5, sl5 _ (by simp)⟩)
        have er : Spec.regCall s.cells 0 [q, eq1] =
            (Small.srShift s.cells q (some eq1), [s.cells.getD 0 0, s.cells.sum]) := by
          have : 0 < s.cells.length := by omega
          simp [Spec.regCall, Small.srStep, this]
        simp only [List.map_cons, List.map_nil] at ec st6
        rw [er] at st6
        rw [ec]
        obtain ⟨new7, live7, st7, n7, l7, -, -⟩ := stage_typed st6 same o2 q
          (List.mem_append_left _ (sl5 _ (by simp))) (List.mem_append_left _ (sn5 _ (by simp)))
        obtain ⟨d1, d2, d3⟩ := stage_done st7 _ _ l7 n7
        exact ⟨d1, d2, d3⟩

private theorem corStep_ok {entry : ℕ} {rng : List ℤ} (ha : Spec.Addresses entry rng) (s : Divider.Cor)
    (hl : s.cells.length = entry) (i : ℤ × ℤ) : ∃ s' q, Divider.corStep entry rng s i = .ok (s', q) := by
  obtain ⟨r, h1, h2⟩ := ha.2 (s.idx % entry) (Nat.mod_lt _ ha.1)
  have h3 : s.cells[r.toNat]? = some (s.cells[r.toNat]'(by omega)) := List.getElem?_eq_getElem (by omega)
  simp only [Divider.corStep, h1, h3]
  exact ⟨_, _, rfl⟩

private theorem holdsCor_len {entry sr idx hq : ℕ} {first : Bool} {h : Mem} {s : Divider.Cor}
    (hr : HoldsCor entry sr idx hq first h s) : s.cells.length = entry := by
  have : HoldsReg entry sr first h s.cells :=
    hr.hold ([sr], fun h => HoldsReg entry sr first h s.cells) (by simp [corParts])
  exact this.1.1

private def syncPart (depth upper cnt : ℕ) (l : List ℕ) (s : Shuffle.SS) : List ℕ × (Mem → Prop) :=
  ([upper, cnt], fun h => HoldsSync depth upper cnt l h s)

private def corPart (entry sr idx hq : ℕ) (l : Bool) (s : Divider.Cor) : List ℕ × (Mem → Prop) :=
  ([sr, idx, hq], fun h => HoldsCor entry sr idx hq l h s)

private theorem div_kernel {depth entry : ℕ} {rng : List ℤ} (same : Bool) {upper cnt sr idx hq : ℕ}
    (hne : upper ≠ cnt) (had : Spec.Addresses entry rng) {ps : List ℕ} {pre : Parts} {h0 h : Mem} {new : List ℕ}
    {live : List (ℕ × ℤ)} {l : List ℕ × Bool} {s : Divider.St}
    (st : Stage zq ps (pre ++ [syncPart depth upper cnt l.1 s.ss, corPart entry sr idx hq l.2 s.cor]) h0 h new live)
    (shape : List ℕ) (x y : ℕ) (v w : ℤ) (hx : (x, v) ∈ live) (hy : (y, w) ∈ live) :
    ∃ (l' : List ℕ × Bool) (h' : Mem) (o : ℕ) (s' : Shuffle.SS × Divider.Cor) (q : ℤ) (new' : List ℕ)
      (live' : List (ℕ × ℤ)), divKernel entry rng same upper cnt sr idx hq l h shape x y = (l', h', [o]) ∧
      Divider.uniStep depth entry rng shape s (v, w) = .ok ({ s with ss := s'.1, cor := s'.2 }, q) ∧
      Stage zq ps (pre ++ [syncPart depth upper cnt l'.1 s'.1, corPart entry sr idx hq l'.2 s'.2]) h0 h' new' live' ∧
      o ∈ new' ∧ (o, q) ∈ live' ∧ (∀ a ∈ new, a ∈ new') ∧ ∀ a ∈ live, a ∈ live' := by
  obtain ⟨l1, h1, o1, e1, n1, st1⟩ := stage_sub (sync_contract depth upper cnt hne) (pre := pre) st shape
    [(x, v), (y, w)] (by
      simp only [List.forall_mem_cons, List.not_mem_nil, false_imp_iff, implies_true, and_true]
      exact ⟨hx, hy⟩)
  simp only [List.map_cons, List.map_nil, Verif.Spec.onTwo] at e1 n1 st1
  obtain ⟨a, rfl⟩ := List.length_eq_one_iff.mp n1
  have e1' : (sync upper cnt).call l.1 h shape [x, y] = (l1, h1, [a, y]) := by
    have hb : (sync upper cnt).call l.1 h shape [x, y] =
        (((firstOnly (sync upper cnt)).call l.1 h shape [x, y]).1,
          ((firstOnly (sync upper cnt)).call l.1 h shape [x, y]).2.1,
          ((firstOnly (sync upper cnt)).call l.1 h shape [x, y]).2.2 ++ [y]) := rfl
    rw [hb, e1]; rfl
  set r := Shuffle.ssStep depth s.ss (shape, v, w) with hr
  have hr2 : r.2.2 = w := rfl
  rw [List.append_cons] at st1
  have hlen : s.cor.cells.length = entry :=
    holdsCor_len (st1.rack.hold (corPart entry sr idx hq l.2 s.cor) (by simp))
  obtain ⟨c', q, hcor⟩ := corStep_ok had s.cor hlen (r.2.1, w)
  obtain ⟨l2, h2, o2, e2, n2, st2⟩ := stage_sub (cordiv_contract entry rng same sr idx hq) (pre := pre ++ [_]) st1 ()
    [(a, r.2.1), (y, w)] (by
      simp only [List.forall_mem_cons, List.not_mem_nil, false_imp_iff, implies_true, and_true]
      exact ⟨by simp, by simp [hy]⟩)
  simp only [List.map_cons, List.map_nil, Verif.Spec.onTwo, Spec.corCall, hcor] at e2 n2 st2
  obtain ⟨b, rfl⟩ := List.length_eq_one_iff.mp n2
  rw [← List.append_cons] at st2
  refine ⟨(l1, l2), h2, b, (r.1, c'), q, _, _, ?_, ?_, st2, by simp, by simp, fun c hc => by simp [hc],
    fun c hc => by simp [hc]⟩
  · simp only [divKernel, e1', e2]
  · have hp : Shuffle.ssStep depth s.ss (shape, v, w) = (r.1, r.2.1, w) := rfl
    clear_value r
    simp only [Divider.uniStep, hp, hcor, bind, Except.bind, pure, Except.pure]

private def uniParts (depth entry upper cnt sr idx hq : ℕ) (l : List ℕ × Bool) (s : Divider.St) : Parts :=
  [syncPart depth upper cnt l.1 s.ss, corPart entry sr idx hq l.2 s.cor]

private theorem rack_contract {L τ σ : Type} {m : Module L τ} (Rs : L → σ → Parts)
    (f : σ → τ → ℤ → ℤ → σ × List ℤ) (hc : ∀ l s p, p ∈ m.ps ↔ ∃ x ∈ Rs l s, p ∈ x.1)
    (hf : ∀ l s, ∀ x ∈ Rs l s, Framed x.1 x.2)
    (h0 : ∀ l h t args, args.length ≠ 2 → m.call l h t args = (l, h, []))
    (h1 : ∀ (l : L) (h : Mem) (s : σ) (t : τ) (x y : ℕ) (v w : ℤ),
      Stage zq m.ps (Rs l s) h h [] [(x, v), (y, w)] →
      ∃ l' h' o s' q new' live', m.call l h t [x, y] = (l', h', [o]) ∧ f s t v w = (s', [q]) ∧
        Stage zq m.ps (Rs l' s') h h' new' live' ∧ o ∈ new' ∧ (o, q) ∈ live') :
    Contract m zq (Verif.Spec.onTwo f) fun l h s => Rack (Rs l s) h := by
  refine contract2 _ ?_ h0 ?_
  · intro l h h' s hr a1 a2
    exact rack_frame (hf l s) hr (fun x hx p hp => a1 p ((hc l s p).mpr ⟨x, hx, hp⟩))
      fun x hx p hp => a2 p ((hc l s p).mpr ⟨x, hx, hp⟩)
  · intro l h s t x y v w hr hp hx hy hv hw
    obtain ⟨l', h', o, s', q, new', live', e, e', st, n, li⟩ := h1 l h s t x y v w
      (stage_start (hc l s) hp (hf l s) hr (by
        simp only [List.forall_mem_cons, List.not_mem_nil, false_imp_iff, implies_true, and_true]
        exact ⟨⟨hx, hv⟩, hy, hw⟩))
    rw [e, e']
    exact stage_done st _ _ li n

private theorem rack_contract1 {L τ σ : Type} {m : Module L τ} (Rs : L → σ → Parts)
    (f : σ → τ → ℤ → σ × List ℤ) (hc : ∀ l s p, p ∈ m.ps ↔ ∃ x ∈ Rs l s, p ∈ x.1)
    (hf : ∀ l s, ∀ x ∈ Rs l s, Framed x.1 x.2)
    (h0 : ∀ l h t args, args.length ≠ 1 → m.call l h t args = (l, h, []))
    (h1 : ∀ (l : L) (h : Mem) (s : σ) (t : τ) (x : ℕ) (v : ℤ),
      Stage zq m.ps (Rs l s) h h [] [(x, v)] →
      ∃ l' h' o s' q new' live', m.call l h t [x] = (l', h', [o]) ∧ f s t v = (s', [q]) ∧
        Stage zq m.ps (Rs l' s') h h' new' live' ∧ o ∈ new' ∧ (o, q) ∈ live') :
    Contract m zq (Verif.Spec.onOne f) fun l h s => Rack (Rs l s) h := by
  refine contract1 _ ?_ h0 ?_
  · intro l h h' s hr a1 a2
    exact rack_frame (hf l s) hr (fun x hx p hp => a1 p ((hc l s p).mpr ⟨x, hx, hp⟩))
      fun x hx p hp => a2 p ((hc l s p).mpr ⟨x, hx, hp⟩)
  · intro l h s t x v hr hp hx hv
    obtain ⟨l', h', o, s', q, new', live', e, e', st, n, li⟩ := h1 l h s t x v
      (stage_start (hc l s) hp (hf l s) hr (by
        simp only [List.forall_mem_cons, List.not_mem_nil, false_imp_iff, implies_true, and_true]
        exact ⟨hx, hv⟩))
    rw [e, e']
    exact stage_done st _ _ li n

private theorem syncPart_framed {depth upper cnt : ℕ} (hne : upper ≠ cnt) (l : List ℕ) (s : Shuffle.SS) :
    Framed (syncPart depth upper cnt l s).1 (syncPart depth upper cnt l s).2 :=
  fun h h' => (sync_contract depth upper cnt hne).frame _ h h' _

private theorem corPart_framed (entry sr idx hq : ℕ) (l : Bool) (s : Divider.Cor) :
    Framed (corPart entry sr idx hq l s).1 (corPart entry sr idx hq l s).2 :=
  fun h h' => (cordiv_contract entry [] true sr idx hq).frame _ h h' _

private theorem divUni_contract {depth entry : ℕ} {rng : List ℤ} (depthSa : ℤ) (same : Bool)
    {upper cnt sr idx hq : ℕ} (hne : upper ≠ cnt) (had : Spec.Addresses entry rng) :
    Contract (divUni entry rng same upper cnt sr idx hq) zq
      (Verif.Spec.onTwo (Spec.divCall .unipolar depthSa depth entry rng))
      fun l h s => Rack (uniParts depth entry upper cnt sr idx hq l s) h := by
  refine rack_contract (uniParts depth entry upper cnt sr idx hq) _ ?_ ?_ (by arity_tac) ?_
  · intro l s p
    simp [uniParts, syncPart, corPart, divUni, or_assoc]
  · intro l s
    simp only [uniParts, List.forall_mem_cons, List.not_mem_nil, false_imp_iff, implies_true, and_true]
    exact ⟨syncPart_framed hne _ _, corPart_framed _ _ _ _ _ _⟩
  · intro l h s t x y v w st
    obtain ⟨l', h', o, s', q, new', live', e, e', st', n, li, -, -⟩ :=
      div_kernel same hne had (pre := []) st t x y v w (by simp) (by simp)
    refine ⟨l', h', o, { s with ss := s'.1, cor := s'.2 }, q, new', live', e, ?_, st', n, li⟩
    simp only [Spec.divCall, Divider.step, e']

private def biParts (depth entry a1 a2 b1 b2 u upper cnt sr idx hq : ℕ) (l : List ℕ × Bool) (s : Divider.St) :
    Parts :=
  [([a1], fun h => Holds a1 () h s.accDividend), ([a2], fun h => Holds a2 () h s.accDivisor),
    ([b1], fun h => Holds b1 () h s.b2uDividend), ([b2], fun h => Holds b2 () h s.b2uDivisor),
    ([u], fun h => Holds u () h s.u2b), syncPart depth upper cnt l.1 s.ss, corPart entry sr idx hq l.2 s.cor]

private theorem divBi_contract {depth entry : ℕ} {rng : List ℤ} (depthSa : ℤ) (same sameI sameB : Bool)
    {a1 a2 b1 b2 u upper cnt sr idx hq : ℕ} (hne : upper ≠ cnt) (had : Spec.Addresses entry rng) :
    Contract (divBi depthSa entry rng same sameI sameB a1 a2 b1 b2 u upper cnt sr idx hq) zq
      (Verif.Spec.onTwo (Spec.divCall .bipolar depthSa depth entry rng))
      fun l h s => Rack (biParts depth entry a1 a2 b1 b2 u upper cnt sr idx hq l s) h := by
  refine rack_contract (biParts depth entry a1 a2 b1 b2 u upper cnt sr idx hq) _ ?_ ?_ (by arity_tac) ?_
  · intro l s p
    simp [biParts, syncPart, corPart, divBi, or_assoc]
  · intro l s
    simp only [biParts, List.forall_mem_cons, List.not_mem_nil, false_imp_iff, implies_true, and_true]
    exact ⟨framed_val _ _, framed_val _ _, framed_val _ _, framed_val _ _, framed_val _ _,
      syncPart_framed hne _ _, corPart_framed _ _ _ _ _ _⟩
  · intro l h s t x y v w st
    obtain ⟨⟨⟩, h1, o1, e1, n1, st1⟩ := stage_sub (signabs_contract depthSa sameI a1) (pre := []) st ()
      [(x, v)] (by simp)
    simp only [List.map_cons, List.map_nil, Verif.Spec.onOne] at e1 n1 st1
    obtain ⟨g1, c1, rfl⟩ := List.length_eq_two.mp n1
    obtain ⟨⟨⟩, h2, o2, e2, n2, st2⟩ := stage_sub (signabs_contract depthSa sameI a2) (pre := [_]) st1 ()
      [(y, w)] (by simp)
    simp only [List.map_cons, List.map_nil, Verif.Spec.onOne] at e2 n2 st2
    obtain ⟨g2, c2, rfl⟩ := List.length_eq_two.mp n2
    set p1 := Small.signAbsStep depthSa s.accDividend v with hp1
    set p2 := Small.signAbsStep depthSa s.accDivisor w with hp2
    obtain ⟨⟨⟩, h3, o3, e3, n3, st3⟩ := stage_sub (bi2uni_contract 3 sameB b1) (pre := [_, _]) st2 ()
      [(c1, p1.2.2)] (by simp)
    simp only [List.map_cons, List.map_nil, Verif.Spec.onOne] at e3 n3 st3
    obtain ⟨c3, rfl⟩ := List.length_eq_one_iff.mp n3
    obtain ⟨⟨⟩, h4, o4, e4, n4, st4⟩ := stage_sub (bi2uni_contract 3 sameB b2) (pre := [_, _, _]) st3 ()
      [(c2, p2.2.2)] (by simp)
    simp only [List.map_cons, List.map_nil, Verif.Spec.onOne] at e4 n4 st4
    obtain ⟨c4, rfl⟩ := List.length_eq_one_iff.mp n4
    set p3 := Shuffle.bi2uniStep 3 s.b2uDividend p1.2.2 with hp3
    set p4 := Shuffle.bi2uniStep 3 s.b2uDivisor p2.2.2 with hp4
    obtain ⟨l5, h5, c5, s', q, new', live', e5, e5', st5, m5, k5, sn5, sl5⟩ :=
      div_kernel same hne had (pre := [_, _, _, _, _])
        (s := { s with accDividend := p1.1, accDivisor := p2.1, b2uDividend := p3.1, b2uDivisor := p4.1 })
        st4 t c3 c4 p3.2 p4.2 (by simp) (by simp)
    obtain ⟨⟨⟩, h6, o6, e6, n6, st6⟩ := stage_sub (uni2bi_contract 4 sameB u) (pre := [_, _, _, _]) st5 ()
      [(c5, q)] (by simpa using k5)
    simp only [List.map_cons, List.map_nil, Verif.Spec.onOne] at e6 n6 st6
    obtain ⟨c6, rfl⟩ := List.length_eq_one_iff.mp n6
    set p6 := Shuffle.uni2biStep 4 s.u2b q with hp6
    have hv1 : h6.val g1 = zq p1.2.1 := (st6.live (g1, p1.2.1) (List.mem_append_left _ (sl5 _ (by simp)))).2
    have hv2 : h6.val g2 = zq p2.2.1 := (st6.live (g2, p2.2.1) (List.mem_append_left _ (sl5 _ (by simp)))).2
    have hv6 : h6.val c6 = zq p6.2 := (st6.live (c6, p6.2) (by simp)).2
    have st7 := stage_one st6 (Int.xor (Int.xor p1.2.1 p2.2.1) p6.2)
      ((Int.xor (Int.xor (truncZ (h6.val g1)) (truncZ (h6.val g2))) (truncZ (h6.val c6)) : ℤ) : ℚ) (by
        rw [hv1, hv2, hv6]; simp only [zq, truncZ_cast])
    obtain ⟨new8, live8, st8, n8, l8, -, -⟩ := stage_typed st7 sameI h6.next (Int.xor (Int.xor p1.2.1 p2.2.1) p6.2)
      (by simp) (by simp)
    refine ⟨l5, _, _, ⟨p1.1, p2.1, p3.1, p4.1, p6.1, s'.1, s'.2⟩, _, new8, live8, ?_, ?_, st8, n8, l8⟩
    · simp only [divBi, e1, e2, List.drop_succ_cons, List.drop_zero, e3, e4, List.headD_cons, e5, e6, one_snd]
    · simp only [Spec.divCall, Divider.step, Divider.biStep, ← hp1, ← hp2, ← hp3, ← hp4, e5', bind, Except.bind, pure,
        Except.pure, ← hp6]

/-! ## The multiplier -/

private theorem framed_get (p : ℕ) (f : ℕ → ℚ) : Framed [p] fun h => ∀ i, h.get p i = f i := by
  intro h h' hr h1 h2 i
  have a := h1 p (by simp)
  have b := h2 p (by simp)
  have c := hr i
  simp only [Mem.get, Mem.st] at b c ⊢
  rw [a, b, c]

private def staticParts (bin : ℤ) (seq : List ℤ) (binary rng idx idxInv : ℕ) (_ : Unit) (s : Multiplier.St) :
    Parts :=
  [([binary], fun h => h.val binary = zq bin), ([rng], fun h => ∀ i, h.get rng i = elems seq i),
    ([idx], fun h => h.val idx = zq s.idx), ([idxInv], fun h => h.val idxInv = zq s.idxInv)]

private theorem static_bit {bin : ℤ} {seq : List ℤ} {binary rng : ℕ} {h : Mem} (c : ℤ)
    (hb : h.val binary = zq bin) (hr : ∀ i, h.get rng i = elems seq i) :
    (ind (h.val binary > h.get rng (c % seq.length).toNat) : ℚ) = zq (Gen.bsGen seq bin c) := by
  rw [hb, hr]
  simp only [zq, Gen.bsGen, elems, ind_cast]
  exact ind_iff (by constructor <;> intro hh <;> exact_mod_cast hh)

private theorem mulStatic_contract (mode : Mode) (bin : ℤ) (seq : List ℤ) (same : Bool)
    (binary rng idx idxInv : ℕ) :
    Contract (mulStatic mode seq.length same binary rng idx idxInv) zq
      (Verif.Spec.onOne fun s _ x => let r := Multiplier.stepStatic mode seq bin s x; (r.1, [r.2]))
      fun l h s => Rack (staticParts bin seq binary rng idx idxInv l s) h := by
  refine rack_contract1 (staticParts bin seq binary rng idx idxInv) _ ?_ ?_ (by arity_tac) ?_
  · intro l s p
    simp [staticParts, mulStatic]
  · intro l s
    simp only [staticParts, List.forall_mem_cons, List.not_mem_nil, false_imp_iff, implies_true, and_true]
    exact ⟨framed_val _ _, framed_get _ _, framed_val _ _, framed_val _ _⟩
  · intro l h s t x v st
    have i0 : truncZ (h.val idx) = s.idx := by
      have : h.val idx = _ := st.rack.hold ([idx], fun h => h.val idx = zq s.idx) (by simp [staticParts])
      rw [this]; exact truncZ_cast _
    have b0 : h.val binary = _ := st.rack.hold ([binary], fun h => h.val binary = zq bin) (by simp [staticParts])
    have r0 : ∀ i, h.get rng i = _ :=
      st.rack.hold ([rng], fun h => ∀ i, h.get rng i = elems seq i) (by simp [staticParts])
    have st1 := stage_one st _ _ (static_bit s.idx b0 r0)
    simp only [mulStatic, Share.bsGen, i0, one_snd]
    generalize h.next = o1 at st1 ⊢
    generalize (h.one (ind (h.val binary > h.get rng (s.idx % seq.length).toNat))).1 = h1 at st1 ⊢
    have v1 : h1.val x = zq v := (st1.live (x, v) (by simp)).2
    have w1 : h1.val o1 = zq (Gen.bsGen seq bin s.idx) :=
        (st1.live (o1, (Gen.bsGen seq bin s.idx)) (by simp)).2
    have st2 := stage_one st1 (Int.land v (Gen.bsGen seq bin s.idx))
      ((Int.land (truncZ (h1.val x)) (truncZ (h1.val o1)) : ℤ) : ℚ) (by
        rw [v1, w1]; simp only [zq, truncZ_cast])
    generalize h1.next = o2 at st2 ⊢
    generalize (h1.one ((Int.land (truncZ (h1.val x)) (truncZ (h1.val o1)) : ℤ) : ℚ)).1 = h2 at st2 ⊢
    have v2 : h2.val x = zq v := (st2.live (x, v) (by simp)).2
    have i2 : h2.val idx = zq s.idx := st2.rack.hold ([idx], fun h => h.val idx = zq s.idx) (by simp [staticParts])
    have st3 := stage_assign (pre := [_, _]) (post := [_]) st2 (h2.val idx + (truncZ (h2.val x) : ℤ))
      (zq (s.idx + v)) (by rw [i2, v2]; simp [zq, truncZ_cast])
    generalize (h2.one (h2.val idx + (truncZ (h2.val x) : ℤ))).1.setData idx h2.next = h3 at st3 ⊢
    cases mode with
    | unipolar =>
      obtain ⟨new4, live4, st4, n4, l4, -, -⟩ := stage_typed st3 same o2 (Int.land v (Gen.bsGen seq bin s.idx))
        (by simp) (by simp)
      exact ⟨(), _, _, { s with idx := s.idx + v }, _, new4, live4, rfl, rfl, st4, n4, l4⟩
    | bipolar =>
      dsimp only
      have j3 : truncZ (h3.val idxInv) = s.idxInv := by
        have : h3.val idxInv = _ := st3.rack.hold ([idxInv], fun h => h.val idxInv = zq s.idxInv) (by simp)
        rw [this]; exact truncZ_cast _
      have b3 : h3.val binary = _ := st3.rack.hold ([binary], fun h => h.val binary = zq bin) (by simp)
      have r3 : ∀ i, h3.get rng i = _ := st3.rack.hold ([rng], fun h => ∀ i, h.get rng i = elems seq i) (by simp)
      have st4 := stage_one st3 _ _ (static_bit s.idxInv b3 r3)
      rw [j3]
      generalize h3.next = o4 at st4 ⊢
      generalize (h3.one (ind (h3.val binary > h3.get rng (s.idxInv % seq.length).toNat))).1 = h4 at st4 ⊢
      have v4 : h4.val x = zq v := (st4.live (x, v) (by simp)).2
      have w4 : h4.val o4 = zq (Gen.bsGen seq bin s.idxInv) :=
        (st4.live (o4, (Gen.bsGen seq bin s.idxInv)) (by simp)).2
      have st5 := stage_one st4 (Int.land (1 - v) (1 - Gen.bsGen seq bin s.idxInv))
        ((Int.land (1 - truncZ (h4.val x)) (1 - truncZ (h4.val o4)) : ℤ) : ℚ) (by
          rw [v4, w4]; simp only [zq, truncZ_cast])
      generalize h4.next = o5 at st5 ⊢
      generalize (h4.one ((Int.land (1 - truncZ (h4.val x)) (1 - truncZ (h4.val o4)) : ℤ) : ℚ)).1 = h5 at st5 ⊢
      have v5 : h5.val x = zq v := (st5.live (x, v) (by simp)).2
      have i5 : h5.val idxInv = zq s.idxInv := st5.rack.hold ([idxInv], fun h => h.val idxInv = zq s.idxInv) (by simp)
      have st6 := stage_assign (pre := [_, _, _]) (post := []) st5 (h5.val idxInv + (1 - truncZ (h5.val x) : ℤ))
        (zq (s.idxInv + (1 - v))) (by rw [i5, v5]; simp [zq, truncZ_cast])
      generalize (h5.one (h5.val idxInv + (1 - truncZ (h5.val x) : ℤ))).1.setData idxInv h5.next = h6 at st6 ⊢
      have v6 : h6.val o2 = zq (Int.land v (Gen.bsGen seq bin s.idx)) :=
        (st6.live (o2, (Int.land v (Gen.bsGen seq bin s.idx))) (by simp)).2
      have w6 : h6.val o5 = zq (Int.land (1 - v) (1 - Gen.bsGen seq bin s.idxInv)) :=
        (st6.live (o5, (Int.land (1 - v) (1 - Gen.bsGen seq bin s.idxInv))) (by simp)).2
      have st7 := stage_one st6 (Int.lor (Int.land v (Gen.bsGen seq bin s.idx))
          (Int.land (1 - v) (1 - Gen.bsGen seq bin s.idxInv)))
        ((Int.lor (truncZ (h6.val o2)) (truncZ (h6.val o5)) : ℤ) : ℚ) (by
          rw [v6, w6]; simp only [zq, truncZ_cast])
      obtain ⟨new8, live8, st8, n8, l8, -, -⟩ := stage_typed st7 same h6.next
        (Int.lor (Int.land v (Gen.bsGen seq bin s.idx)) (Int.land (1 - v) (1 - Gen.bsGen seq bin s.idxInv)))
        (by simp) (by simp)
      exact ⟨(), _, _, { s with idx := s.idx + v, idxInv := s.idxInv + (1 - v) }, _, new8, live8, rfl, rfl, st8, n8, l8⟩

private def streamParts (width : ℕ) (seq : List ℤ) (sr rng idx idxInv : ℕ) (first : Bool) (s : Multiplier.St) :
    Parts :=
  [([sr], fun h => HoldsReg (2 ^ width) sr first h s.sr), ([rng], fun h => ∀ i, h.get rng i = elems seq i),
    ([idx], fun h => h.val idx = zq s.idx), ([idxInv], fun h => h.val idxInv = zq s.idxInv)]

private theorem ind_iffZ {p q : Prop} [Decidable p] [Decidable q] (h : p ↔ q) : (ind p : ℤ) = ind q := by
  unfold ind; by_cases hp : p
  · rw [if_pos hp, if_pos (h.mp hp)]
  · rw [if_neg hp, if_neg (fun hq => hp (h.mpr hq))]

private theorem stream_bit {src : ℤ} {seq : List ℤ} {o rng : ℕ} {h : Mem} (c : ℤ)
    (hb : h.val o = zq src) (hr : ∀ i, h.get rng i = elems seq i) :
    (ind (h.val o > h.get rng c.toNat) : ℤ) = ind (src > Multiplier.rngAt seq c) := by
  rw [hb, hr]
  refine ind_iffZ ?_
  simp only [zq, Multiplier.rngAt, elems]
  constructor <;> intro hh <;> exact_mod_cast hh

private theorem mulStream_contract (mode : Mode) (width : ℕ) (seq : List ℤ) (same : Bool)
    (sr rng idx idxInv : ℕ) :
    Contract (mulStream mode width same sr rng idx idxInv) zq
      (Verif.Spec.onTwo fun s _ x y => let r := Multiplier.stepStream mode width seq s (x, y); (r.1, [r.2]))
      fun l h s => Rack (streamParts width seq sr rng idx idxInv l s) h := by
  refine rack_contract (streamParts width seq sr rng idx idxInv) _ ?_ ?_ (by arity_tac) ?_
  · intro l s p
    simp [streamParts, mulStream]
  · intro l s
    simp only [streamParts, List.forall_mem_cons, List.not_mem_nil, false_imp_iff, implies_true, and_true]
    exact ⟨fun h h' => (shiftReg_contract (2 ^ width) sr).frame _ h h' _, framed_get _ _, framed_val _ _,
      framed_val _ _⟩
  · intro l h s t x y v w st
    have hlen : s.sr.length = 2 ^ width := by
      have : HoldsReg (2 ^ width) sr l h s.sr :=
        st.rack.hold ([sr], fun h => HoldsReg (2 ^ width) sr l h s.sr) (by simp [streamParts])
      exact this.1.1
    have er : Spec.regCall s.sr 0 [w] = (Small.srShift s.sr w none, [s.sr.getD 0 0, s.sr.sum]) := by
      have : 0 < s.sr.length := by rw [hlen]; positivity
      simp [Spec.regCall, Small.srStep, this]
    obtain ⟨l1, h1, outs, e1, n1, st1⟩ := stage_sub (shiftReg_contract (2 ^ width) sr) (pre := []) st 0
      [(y, w)] (by simp)
    simp only [List.map_cons, List.map_nil, er] at e1 n1 st1
    obtain ⟨o0, o1, rfl⟩ := List.length_eq_two.mp n1
    simp only [mulStream, e1, one_snd, List.getD_cons_succ, List.getD_cons_zero]
    have c1 : h1.val o1 = zq s.sr.sum :=
        (st1.live (o1, s.sr.sum) (by simp)).2
    have r1 : ∀ i, h1.get rng i = _ := st1.rack.hold ([rng], fun h => ∀ i, h.get rng i = elems seq i) (by simp)
    have i1 : truncZ (h1.val idx) = s.idx := by
      have : h1.val idx = _ := st1.rack.hold ([idx], fun h => h.val idx = zq s.idx) (by simp)
      rw [this]; exact truncZ_cast _
    have v1 : h1.val x = zq v := (st1.live (x, v) (by simp)).2
    have st2 := stage_one st1 (Int.land v (ind (s.sr.sum > Multiplier.rngAt seq s.idx)))
      ((Int.land (truncZ (h1.val x)) (ind (h1.val o1 > h1.get rng (truncZ (h1.val idx)).toNat)) : ℤ) : ℚ) (by
        rw [v1, i1, stream_bit s.idx c1 r1]; simp only [zq, truncZ_cast])
    generalize h1.next = o2 at st2 ⊢
    generalize (h1.one ((Int.land (truncZ (h1.val x))
      (ind (h1.val o1 > h1.get rng (truncZ (h1.val idx)).toNat)) : ℤ) : ℚ)).1 = h2 at st2 ⊢
    have v2 : h2.val x = zq v := (st2.live (x, v) (by simp)).2
    have i2 : h2.val idx = zq s.idx := st2.rack.hold ([idx], fun h => h.val idx = zq s.idx) (by simp)
    have st3 := stage_assign (pre := [_, _]) (post := [_]) st2
      (((truncZ (h2.val idx) + truncZ (h2.val x)) % 2 ^ width : ℤ) : ℚ)
      (zq ((s.idx + v) % 2 ^ width)) (by rw [i2, v2]; simp only [zq, truncZ_cast])
    generalize (h2.one (((truncZ (h2.val idx) + truncZ (h2.val x)) % 2 ^ width : ℤ) : ℚ)).1.setData idx
      h2.next = h3 at st3 ⊢
    cases mode with
    | unipolar =>
      obtain ⟨new4, live4, st4, n4, l4, -, -⟩ := stage_typed st3 same o2
        (Int.land v (ind (s.sr.sum > Multiplier.rngAt seq s.idx))) (by simp) (by simp)
      exact ⟨l1, _, _, ⟨(s.idx + v) % 2 ^ width, s.idxInv, Small.srShift s.sr w none⟩, _, new4, live4, rfl, rfl,
        st4, n4, l4⟩
    | bipolar =>
      dsimp only
      have c3 : h3.val o1 = zq s.sr.sum :=
        (st3.live (o1, s.sr.sum) (by simp)).2
      have r3 : ∀ i, h3.get rng i = _ := st3.rack.hold ([rng], fun h => ∀ i, h.get rng i = elems seq i) (by simp)
      have i3 : truncZ (h3.val idxInv) = s.idxInv := by
        have : h3.val idxInv = _ := st3.rack.hold ([idxInv], fun h => h.val idxInv = zq s.idxInv) (by simp)
        rw [this]; exact truncZ_cast _
      have v3 : h3.val x = zq v := (st3.live (x, v) (by simp)).2
      have st4 := stage_one st3 (Int.land (1 - v) (1 - ind (s.sr.sum > Multiplier.rngAt seq s.idxInv)))
        ((Int.land (1 - truncZ (h3.val x))
          (1 - ind (h3.val o1 > h3.get rng (truncZ (h3.val idxInv)).toNat)) : ℤ) : ℚ) (by
          rw [v3, i3, stream_bit s.idxInv c3 r3]; simp only [zq, truncZ_cast])
      generalize h3.next = o4 at st4 ⊢
      generalize (h3.one ((Int.land (1 - truncZ (h3.val x))
        (1 - ind (h3.val o1 > h3.get rng (truncZ (h3.val idxInv)).toNat)) : ℤ) : ℚ)).1 = h4 at st4 ⊢
      have v4 : h4.val x = zq v := (st4.live (x, v) (by simp)).2
      have i4 : h4.val idxInv = zq s.idxInv := st4.rack.hold ([idxInv], fun h => h.val idxInv = zq s.idxInv) (by simp)
      have st5 := stage_assign (pre := [_, _, _]) (post := []) st4
        (((truncZ (h4.val idxInv) + (1 - truncZ (h4.val x))) % 2 ^ width : ℤ) : ℚ)
        (zq ((s.idxInv + (1 - v)) % 2 ^ width)) (by rw [i4, v4]; simp only [zq, truncZ_cast])
      generalize (h4.one (((truncZ (h4.val idxInv) + (1 - truncZ (h4.val x))) % 2 ^ width : ℤ) : ℚ)).1.setData idxInv
        h4.next = h5 at st5 ⊢
      have v5 : h5.val o2 = zq _ := (st5.live (o2, Int.land v (ind (s.sr.sum > Multiplier.rngAt seq s.idx))) (by simp)).2
      have w5 : h5.val o4 = zq _ :=
        (st5.live (o4, Int.land (1 - v) (1 - ind (s.sr.sum > Multiplier.rngAt seq s.idxInv))) (by simp)).2
      have st6 := stage_one st5 (Int.lor (Int.land v (ind (s.sr.sum > Multiplier.rngAt seq s.idx)))
          (Int.land (1 - v) (1 - ind (s.sr.sum > Multiplier.rngAt seq s.idxInv))))
        ((Int.lor (truncZ (h5.val o2)) (truncZ (h5.val o4)) : ℤ) : ℚ) (by
          rw [v5, w5]; simp only [zq, truncZ_cast])
      obtain ⟨new8, live8, st8, n8, l8, -, -⟩ := stage_typed st6 same h5.next
        (Int.lor (Int.land v (ind (s.sr.sum > Multiplier.rngAt seq s.idx)))
          (Int.land (1 - v) (1 - ind (s.sr.sum > Multiplier.rngAt seq s.idxInv)))) (by simp) (by simp)
      exact ⟨l1, _, _, ⟨(s.idx + v) % 2 ^ width, (s.idxInv + (1 - v)) % 2 ^ width, Small.srShift s.sr w none⟩, _,
        new8, live8, rfl, rfl, st8, n8, l8⟩

/-! ## The square root -/

private def uniStep (mode : Mode) (b : ℚ) (v : ℤ) : ℚ × ℤ :=
  match mode with
  | .bipolar => Shuffle.bi2uniStep 3 b v
  | .unipolar => (b, v)

private theorem sqrt_uni (mode : Mode) (same : Bool) {b2u : ℕ} {b : ℚ} {ps : List ℕ} {pre post : Parts}
    {h0 h : Mem} {new : List ℕ} {live : List (ℕ × ℤ)}
    (st : Stage zq ps (pre ++ ([b2u], fun h => Holds b2u () h b) :: post) h0 h new live) (o : ℕ) (v : ℤ)
    (ho : (o, v) ∈ live) :
    ∃ (h' : Mem) (u : ℕ) (new' : List ℕ) (live' : List (ℕ × ℤ)), sqrtUni mode same b2u h o = (h', [u]) ∧
      Stage zq ps (pre ++ ([b2u], fun h => Holds b2u () h (uniStep mode b v).1) :: post) h0 h' new' live' ∧
      (u, (uniStep mode b v).2) ∈ live' ∧ (∀ a ∈ new, a ∈ new') ∧ ∀ a ∈ live, a ∈ live' := by
  cases mode with
  | unipolar => exact ⟨h, o, new, live, rfl, st, ho, fun a ha => ha, fun a ha => ha⟩
  | bipolar =>
    obtain ⟨⟨⟩, h1, o1, e1, n1, st1⟩ := stage_sub (bi2uni_contract 3 same b2u) (pre := pre) st () [(o, v)]
      (by simpa using ho)
    simp only [List.map_cons, List.map_nil, Verif.Spec.onOne] at e1 n1 st1
    obtain ⟨c1, rfl⟩ := List.length_eq_one_iff.mp n1
    exact ⟨h1, c1, _, _, by simp only [sqrtUni, e1], st1, by simp [uniStep], fun a ha => by simp [ha],
      fun a ha => by simp [ha]⟩

private def emitParts (entrySr emit carry off acc sr b2u : ℕ) (l : (Bool × Option ℚ) × Bool) (s : Sqrt.St) : Parts :=
  [([], fun _ => s.idx = 0), ([emit], fun h => h.val emit = zq s.emitOut),
    ([carry, off, acc], fun h => HoldsAdder carry off acc l.1 h s.nsadd),
    ([sr], fun h => HoldsReg entrySr sr l.2 h s.sr), ([b2u], fun h => Holds b2u () h s.b2u)]

private theorem sqrtEmit_contract (mode : Mode) (jk : Bool) (entryKn entrySr : ℕ) (hs : 0 < entrySr) (rng : List ℤ)
    (sameA same : Bool) {emit carry off acc sr b2u : ℕ} (h12 : carry ≠ off) (h13 : carry ≠ acc) (h23 : off ≠ acc) :
    Contract (sqrtEmit mode entrySr sameA same emit carry off acc sr b2u) zq
      (Verif.Spec.onOne (Spec.sqrtCall ⟨mode, jk, true, entryKn, entrySr⟩ rng))
      fun l h s => Rack (emitParts entrySr emit carry off acc sr b2u l s) h := by
  refine rack_contract1 (emitParts entrySr emit carry off acc sr b2u) _ ?_ ?_ (by arity_tac) ?_
  · intro l s p
    simp [emitParts, sqrtEmit, or_assoc]
  · intro l s
    simp only [emitParts, List.forall_mem_cons, List.not_mem_nil, false_imp_iff, implies_true, and_true]
    exact ⟨fun _ _ hi _ _ => hi, framed_val _ _,
      fun h h' => (adder_contract Sqrt.addCfg true carry off acc h12 h13 h23).frame _ h h' _,
      fun h h' => (shiftReg_contract entrySr sr).frame _ h h' _, framed_val _ _⟩
  · intro l h s t x v st
    have hidx : s.idx = 0 := st.rack.hold ([], fun _ => s.idx = 0) (by simp [emitParts])
    have hlen : s.sr.length = entrySr := by
      have : HoldsReg entrySr sr l.2 h s.sr :=
        st.rack.hold ([sr], fun h => HoldsReg entrySr sr l.2 h s.sr) (by simp [emitParts])
      exact this.1.1
    have v0 : h.val x = zq v := (st.live (x, v) (by simp)).2
    have st1 := stage_one st v ((truncZ (h.val x) : ℤ) : ℚ) (by rw [v0]; simp only [zq, truncZ_cast])
    simp only [sqrtEmit, one_snd]
    generalize h.next = o1 at st1 ⊢
    generalize (h.one ((truncZ (h.val x) : ℤ) : ℚ)).1 = h1 at st1 ⊢
    have m1 : h1.val emit = zq s.emitOut :=
      st1.rack.hold ([emit], fun h => h.val emit = zq s.emitOut) (by simp [emitParts])
    have st2 := stage_one st1 s.emitOut _ m1
    generalize h1.next = o2 at st2 ⊢
    generalize (h1.one (h1.val emit)).1 = h2 at st2 ⊢
    obtain ⟨l3, h3, outs3, e3, n3, st3⟩ := stage_sub (adder_contract Sqrt.addCfg sameA carry off acc h12 h13 h23)
      (pre := [_, _]) st2 (none, none) [(o1, v), (o2, s.emitOut)] (by simp)
    simp only [List.map_cons, List.map_nil] at e3 n3 st3
    obtain ⟨c3, rfl⟩ := List.length_eq_one_iff.mp n3
    set p3 := Adder.step Sqrt.addCfg s.nsadd ⟨[(v : ℚ), (s.emitOut : ℚ)], none, none⟩ with hp3
    simp only [e3, List.headD_cons]
    have v3 : h3.val c3 = zq p3.2 := (st3.live (c3, p3.2) (by simp)).2
    have st4 := stage_one st3 (1 - p3.2) (1 - h3.val c3) (by rw [v3]; simp [zq])
    generalize h3.next = o4 at st4 ⊢
    generalize (h3.one (1 - h3.val c3)).1 = h4 at st4 ⊢
    have er : Spec.regCall s.sr 0 [1 - p3.2] =
        (Small.srShift s.sr (1 - p3.2) none, [s.sr.getD 0 0, s.sr.sum]) := by
      have : 0 < s.sr.length := by omega
      simp [Spec.regCall, Small.srStep, this]
    obtain ⟨l5, h5, outs5, e5, n5, st5⟩ := stage_sub (shiftReg_contract entrySr sr) (pre := [_, _, _]) st4 0
      [(o4, 1 - p3.2)] (by simp)
    simp only [List.map_cons, List.map_nil, er] at e5 n5 st5
    obtain ⟨c5, d5, rfl⟩ := List.length_eq_two.mp n5
    simp only [e5, List.headD_cons]
    obtain ⟨h6, u6, new6, live6, e6, st6, k6, sn6, sl6⟩ := sqrt_uni mode sameA (pre := [_, _, _, _]) st5 c3 p3.2
      (by simp)
    simp only [e6, List.headD_cons]
    set p6 := uniStep mode s.b2u p3.2 with hp6
    have v6 : h6.val c5 = zq (s.sr.getD 0 0) := (st6.live (c5, s.sr.getD 0 0) (sl6 _ (by simp))).2
    have w6 : h6.val u6 = zq p6.2 := (st6.live _ k6).2
    have st7 := stage_assign (pre := [_]) (post := [_, _, _]) st6
      ((Int.land (truncZ (h6.val c5)) (truncZ (h6.val u6)) : ℤ) : ℚ) (zq (Int.land (s.sr.getD 0 0) p6.2))
      (by rw [v6, w6]; simp only [zq, truncZ_cast])
    obtain ⟨new8, live8, st8, n8, l8, -, -⟩ := stage_typed st7 same c3 p3.2 (sl6 _ (by simp)) (sn6 _ (by simp))
    refine ⟨(l3, l5), _, _, { s with nsadd := p3.1, sr := Small.srShift s.sr (1 - p3.2) none, b2u := p6.1,
                                     emitOut := Int.land (s.sr.getD 0 0) p6.2 }, _, new8, live8, rfl, ?_, st8, n8, l8⟩
    have esr : Small.srStep s.sr (1 - p3.2, none, s.idx % entrySr) =
        .ok (Small.srShift s.sr (1 - p3.2) none, s.sr.getD 0 0, s.sr.sum) := by
      have : 0 < s.sr.length := by omega
      simp [Small.srStep, hidx, this]
    cases mode <;>
      simp only [Spec.sqrtCall, Sqrt.step, if_true, ← hp3, Sqrt.unipolarEmit, Sqrt.bipolarEmit, esr, bind, Except.bind, pure,
        Except.pure, hp6, uniStep]

private def jkParts (trace q b2u : ℕ) (_ : Unit) (s : Sqrt.St) : Parts :=
  [([trace, q], fun h => h.val trace = zq s.trace ∧ h.val q = zq s.jk), ([b2u], fun h => Holds b2u () h s.b2u)]

private theorem framed_two (p q : ℕ) (v w : ℚ) : Framed [p, q] fun h => h.val p = v ∧ h.val q = w := by
  intro h h' hr h1 h2
  have e := (sep_frame h1 h2).1
  exact ⟨(e p (by simp)).trans hr.1, (e q (by simp)).trans hr.2⟩

/-- The flip-flop and the trace, in one storage. -/
private theorem jk_part {trace q : ℕ} (hne : trace ≠ q) (h : Mem) (v : ℚ)
    (hp : ∀ p ∈ [trace, q], p < h.next ∧ h.st p < h.next) :
    Kept [trace, q] h (((h.one v).1.setData q h.next).setData trace q) [] ∧
    (((h.one v).1.setData q h.next).setData trace q).val trace = v ∧
    (((h.one v).1.setData q h.next).setData trace q).val q = v := by
  outside_tac
  refine ⟨?_, ?_, ?_⟩
  · mem_simp
    kept_tac
  · mem_simp
  · mem_simp

private theorem sqrtJk_contract (mode : Mode) (entryKn entrySr : ℕ) (rng : List ℤ) (sameA same : Bool)
    {trace q b2u : ℕ} (hne : trace ≠ q) :
    Contract (sqrtJk mode sameA same trace q b2u) zq
      (Verif.Spec.onOne (Spec.sqrtCall ⟨mode, true, false, entryKn, entrySr⟩ rng))
      fun l h s => Rack (jkParts trace q b2u l s) h := by
  refine rack_contract1 (jkParts trace q b2u) _ ?_ ?_ (by arity_tac) ?_
  · intro l s p
    simp [jkParts, sqrtJk, or_assoc]
  · intro l s
    simp only [jkParts, List.forall_mem_cons, List.not_mem_nil, false_imp_iff, implies_true, and_true]
    exact ⟨framed_two _ _ _ _, framed_val _ _⟩
  · intro l h s t x v st
    have t0 : h.val trace = zq s.trace :=
      (st.rack.hold ([trace, q], fun h => h.val trace = zq s.trace ∧ h.val q = zq s.jk) (by simp [jkParts])).1
    have v0 : h.val x = zq v := (st.live (x, v) (by simp)).2
    set out := Int.land (1 - s.trace) v + s.trace with hout
    have st1 := stage_one st out
      ((Int.land (1 - truncZ (h.val trace)) (truncZ (h.val x)) + truncZ (h.val trace) : ℤ) : ℚ)
      (by rw [v0, t0]; simp only [zq, truncZ_cast, hout])
    simp only [sqrtJk, one_snd]
    generalize h.next = o1 at st1 ⊢
    generalize (h.one ((Int.land (1 - truncZ (h.val trace)) (truncZ (h.val x)) + truncZ (h.val trace) : ℤ) : ℚ)).1
      = h1 at st1 ⊢
    obtain ⟨h2, u2, new2, live2, e2, st2, k2, sn2, sl2⟩ := sqrt_uni mode sameA (pre := [_]) st1 o1 out (by simp)
    simp only [e2, List.headD_cons]
    set p2 := uniStep mode s.b2u out with hp2
    have st3 := stage_one st2 1 1 (by simp [zq])
    generalize h2.next = o3 at st3 ⊢
    generalize (h2.one 1).1 = h3 at st3 ⊢
    have v3 : h3.val u2 = zq p2.2 := (st3.live _ (List.mem_append_left _ k2)).2
    have w3 : h3.val o3 = 1 := (st3.live (o3, 1) (by simp)).2.trans (by simp [zq])
    have q3 : h3.val q = zq s.jk :=
      (st3.rack.hold ([trace, q], fun h => h.val trace = zq s.trace ∧ h.val q = zq s.jk) (by simp)).2
    set V : ℚ := ((Int.land (ind (h3.val u2 = 0)) (ind (h3.val o3 = 0)) : ℤ) : ℚ) * h3.val q +
      ((Int.land (1 - ind (h3.val u2 = 0)) (ind (h3.val o3 = 0)) : ℤ) : ℚ) * 1 +
      ((Int.land (ind (h3.val u2 = 0)) (1 - ind (h3.val o3 = 0)) : ℤ) : ℚ) * 0 +
      ((Int.land (1 - ind (h3.val u2 = 0)) (1 - ind (h3.val o3 = 0)) : ℤ) : ℚ) * (1 - h3.val q) with hV
    have ej : (jkff true q).call () h3 () [u2, o3] = ((), (h3.one V).1.setData q h3.next, [q]) := rfl
    have hjk : V = zq (Small.jkStep s.jk ((p2.2 : ℚ), 1)).1 ∧
        (Small.jkStep s.jk ((p2.2 : ℚ), 1)).2 = (Small.jkStep s.jk ((p2.2 : ℚ), 1)).1 := by
      refine ⟨?_, rfl⟩
      rw [hV, v3, w3, q3]
      simp only [Small.jkStep, zq]
      push_cast
      rfl
    set J := Small.jkStep s.jk ((p2.2 : ℚ), 1) with hJ
    have hpq : ∀ p ∈ [trace, q], p < h3.next ∧ h3.st p < h3.next := fun p hp =>
      st3.priv p ((st3.cover p).mpr ⟨_, List.mem_cons_self .., hp⟩)
    obtain ⟨k4, t4, q4⟩ := jk_part hne h3 V hpq
    rw [hjk.1] at t4 q4
    have st4 := stage_part (outs := []) (vs := []) (pre := []) (P' := fun h => h.val trace = zq J.1 ∧ h.val q = zq J.1)
      st3 k4 ⟨by rw [hjk.1]; exact t4, by rw [hjk.1]; exact q4⟩ (framed_two _ _ _ _) rfl
    simp only [ej, List.headD_cons]
    obtain ⟨new5, live5, st5, n5, l5, -, -⟩ := stage_typed st4 same o1 out
      (by simp [sl2 (o1, out) (by simp)]) (by simp [sn2 o1 (by simp)])
    refine ⟨(), _, _, { s with jk := J.1, trace := J.1, b2u := p2.1 }, _, new5, live5, rfl, ?_, st5, n5, l5⟩
    have hJ2 : J = (J.1, J.1) := Prod.ext rfl hjk.2
    cases mode <;>
      simp only [Spec.sqrtCall, Sqrt.step, Bool.false_eq_true, if_false, if_true, Sqrt.unipolarTrace, Sqrt.bipolarTrace,
        ← hout, bind, Except.bind, pure, Except.pure] <;>
      simp only [hp2, uniStep] at hJ ⊢ <;> rw [← hJ, hJ2]

private def sdParts (trace dff b2u sr idx hq : ℕ) (l : Bool) (s : Sqrt.St) : Parts :=
  [([trace], fun h => h.val trace = zq s.trace), ([dff], fun h => h.val dff = zq s.dff),
    ([b2u], fun h => Holds b2u () h s.b2u), corPart 4 sr idx hq l s.cor]

private theorem sqrtDiv_contract (mode : Mode) (entryKn entrySr : ℕ) {rng : List ℤ} (had : Spec.Addresses 4 rng)
    (sameA sameQ same : Bool) (trace dff b2u sr idx hq : ℕ) :
    Contract (sqrtDiv mode rng sameA sameQ same trace dff b2u sr idx hq) zq
      (Verif.Spec.onOne (Spec.sqrtCall ⟨mode, false, false, entryKn, entrySr⟩ rng))
      fun l h s => Rack (sdParts trace dff b2u sr idx hq l s) h := by
  refine rack_contract1 (sdParts trace dff b2u sr idx hq) _ ?_ ?_ (by arity_tac) ?_
  · intro l s p
    simp [sdParts, sqrtDiv, corPart]
  · intro l s
    simp only [sdParts, List.forall_mem_cons, List.not_mem_nil, false_imp_iff, implies_true, and_true]
    exact ⟨framed_val _ _, framed_val _ _, framed_val _ _, corPart_framed _ _ _ _ _ _⟩
  · intro l h s t x v st
    have t0 : h.val trace = zq s.trace :=
      st.rack.hold ([trace], fun h => h.val trace = zq s.trace) (by simp [sdParts])
    have v0 : h.val x = zq v := (st.live (x, v) (by simp)).2
    set out := Int.land (1 - s.trace) v + s.trace with hout
    have st1 := stage_one st out
      ((Int.land (1 - truncZ (h.val trace)) (truncZ (h.val x)) + truncZ (h.val trace) : ℤ) : ℚ)
      (by rw [v0, t0]; simp only [zq, truncZ_cast, hout])
    simp only [sqrtDiv, one_snd]
    generalize h.next = o1 at st1 ⊢
    generalize (h.one ((Int.land (1 - truncZ (h.val trace)) (truncZ (h.val x)) + truncZ (h.val trace) : ℤ) : ℚ)).1
      = h1 at st1 ⊢
    obtain ⟨h2, u2, new2, live2, e2, st2, k2, sn2, sl2⟩ := sqrt_uni mode sameA (pre := [_, _]) st1 o1 out (by simp)
    simp only [e2, List.headD_cons]
    set p2 := uniStep mode s.b2u out with hp2
    have v2 : h2.val u2 = zq p2.2 := (st2.live _ k2).2
    have d2 : h2.val dff = zq s.dff := st2.rack.hold ([dff], fun h => h.val dff = zq s.dff) (by simp)
    set dd := Int.land (1 - s.dff) p2.2 with hdd
    have st3 := stage_one st2 dd ((Int.land (1 - truncZ (h2.val dff)) (truncZ (h2.val u2)) : ℤ) : ℚ)
      (by rw [v2, d2]; simp only [zq, truncZ_cast, hdd])
    generalize h2.next = o3 at st3 ⊢
    generalize (h2.one ((Int.land (1 - truncZ (h2.val dff)) (truncZ (h2.val u2)) : ℤ) : ℚ)).1 = h3 at st3 ⊢
    have v3 : h3.val o3 = zq dd := (st3.live (o3, dd) (by simp)).2
    have d3 : h3.val dff = zq s.dff := st3.rack.hold ([dff], fun h => h.val dff = zq s.dff) (by simp)
    have st4 := stage_one st3 (s.dff + dd) (h3.val dff + h3.val o3) (by rw [v3, d3]; simp [zq])
    generalize h3.next = o4 at st4 ⊢
    generalize (h3.one (h3.val dff + h3.val o3)).1 = h4 at st4 ⊢
    have hlen : s.cor.cells.length = 4 :=
      holdsCor_len (st4.rack.hold (corPart 4 sr idx hq l s.cor) (by simp))
    obtain ⟨c', tr, hcor⟩ := corStep_ok had s.cor hlen (dd, s.dff + dd)
    obtain ⟨l5, h5, outs, e5, n5, st5⟩ := stage_sub (cordiv_contract 4 rng sameQ sr idx hq) (pre := [_, _, _]) st4 ()
      [(o3, dd), (o4, s.dff + dd)] (by simp)
    simp only [List.map_cons, List.map_nil, Verif.Spec.onTwo, Spec.corCall, hcor] at e5 n5 st5
    obtain ⟨c5, rfl⟩ := List.length_eq_one_iff.mp n5
    simp only [e5, List.headD_cons]
    have d5 : h5.val dff = zq s.dff := st5.rack.hold ([dff], fun h => h.val dff = zq s.dff) (by simp)
    have st6 := stage_assign (pre := [_]) (post := [_, _]) st5 (1 - h5.val dff) (zq (1 - s.dff))
      (by rw [d5]; simp [zq])
    generalize (h5.one (1 - h5.val dff)).1.setData dff h5.next = h6 at st6 ⊢
    have hst : h6.st o1 ≠ h6.st c5 := by
      have := st6.kept.2.2.2.2.1
      rw [List.map_append, List.nodup_append] at this
      refine this.2.2 _ (List.mem_map_of_mem ?_) _ (by simp)
      simp [sn2 o1 (by simp)]
    have st7 := stage_adopt (pre := []) (post := [_, _, _]) st6 c5 tr (by simp) (by simp)
    obtain ⟨new8, live8, st8, n8, l8, -, -⟩ := stage_typed st7 same o1 out
      (by simp [sl2 (o1, out) (by simp), hst]) (by simp [sn2 o1 (by simp), hst])
    refine ⟨l5, _, _, { s with cor := c', trace := tr, dff := 1 - s.dff, b2u := p2.1 }, _, new8, live8, rfl, ?_, st8, n8,
      l8⟩
    cases mode <;>
      simp only [Spec.sqrtCall, Sqrt.step, Bool.false_eq_true, if_false, Sqrt.unipolarTrace, Sqrt.bipolarTrace,
        ← hout, bind, Except.bind, pure, Except.pure] <;>
      simp only [hdd, hp2, uniStep] at hcor ⊢ <;> rw [hcor]

/-! ## Construction -/

private theorem news_mem (fs : List (ℕ → ℚ)) (h : Mem) :
    Kept [] h (h.news fs) [] ∧ (h.news fs).next = h.next + fs.length ∧
    ∀ i, i < fs.length → (h.news fs).obj (h.next + i) = ⟨h.next + i, 0⟩ ∧
      (h.news fs).cell (h.next + i) = fs.getD i fun _ => 0 := by
  induction fs generalizing h with
  | nil => exact ⟨kept_refl (by simp), rfl, fun i hi => absurd hi (by simp)⟩
  | cons f fs ih =>
    obtain ⟨k, n, m⟩ := ih (h.new f).1
    have n1 : (h.new f).1.next = h.next + 1 := rfl
    refine ⟨kept_trans (kept_make h f) k, ?_, ?_⟩
    · show ((h.new f).1.news fs).next = _
      rw [n, n1, List.length_cons]; omega
    · intro i hi
      show ((h.new f).1.news fs).obj _ = _ ∧ ((h.new f).1.news fs).cell _ = _
      cases i with
      | zero =>
        refine ⟨?_, ?_⟩
        · rw [k.2.1 (h.next + 0) (by omega) (by simp)]
          simp [Mem.new]
        · rw [k.2.2.1 (h.next + 0) (by omega) (by simp)]
          simp [Mem.new]
      | succ i =>
        have := m i (by simpa using hi)
        rw [n1, show h.next + 1 + i = h.next + (i + 1) by omega] at this
        simpa using this

private theorem news_st {fs : List (ℕ → ℚ)} {h : Mem} {i : ℕ} (hi : i < fs.length) :
    (h.news fs).st (h.next + i) = h.next + i := by
  show ((h.news fs).obj (h.next + i)).stor = _
  rw [((news_mem fs h).2.2 i hi).1]

private theorem news_get {fs : List (ℕ → ℚ)} {h : Mem} {i : ℕ} (hi : i < fs.length) (k : ℕ) :
    (h.news fs).get (h.next + i) k = (fs.getD i fun _ => 0) k := by
  show (h.news fs).cell ((h.news fs).obj (h.next + i)).stor (((h.news fs).obj (h.next + i)).off + k) = _
  rw [((news_mem fs h).2.2 i hi).1, ((news_mem fs h).2.2 i hi).2, Nat.zero_add]

private theorem news_val {fs : List (ℕ → ℚ)} {h : Mem} {i : ℕ} (hi : i < fs.length) :
    (h.news fs).val (h.next + i) = (fs.getD i fun _ => 0) 0 := news_get hi 0

private theorem news_fresh (fs : List (ℕ → ℚ)) (h : Mem) (is : List ℕ) (hi : ∀ i ∈ is, i < fs.length) :
    Fresh h (h.news fs) (is.map (h.next + ·)) := by
  intro p hp
  obtain ⟨i, h1, rfl⟩ := List.mem_map.mp hp
  have := hi i h1
  simp only [news_st this, (news_mem fs h).2.1]
  omega

private theorem news_parted (fs : List (ℕ → ℚ)) (h : Mem) {is js : List ℕ} (hi : ∀ i ∈ is, i < fs.length)
    (hj : ∀ j ∈ js, j < fs.length) (hd : ∀ i ∈ is, ∀ j ∈ js, i ≠ j) :
    Parted (h.news fs) (is.map (h.next + ·)) (js.map (h.next + ·)) := by
  intro p hp q hq
  obtain ⟨i, h1, rfl⟩ := List.mem_map.mp hp
  obtain ⟨j, h2, rfl⟩ := List.mem_map.mp hq
  have := hd i h1 j h2
  rw [news_st (hi i h1), news_st (hj j h2)]
  exact ⟨by omega, by omega⟩

private theorem news_reg {fs : List (ℕ → ℚ)} {h : Mem} {i : ℕ} (entry : ℕ) (hi : i < fs.length)
    (hf : (fs.getD i fun _ => 0) = fun k => ((k % 2 : ℕ) : ℚ)) :
    HoldsReg entry (h.next + i) true (h.news fs) (Small.srInit entry) := by
  refine ⟨⟨by simp [Small.srInit], fun k hk => ?_⟩, fun _ => rfl⟩
  rw [news_get hi, hf]
  simp [Small.srInit, hk]
  norm_cast

private theorem news_cor {fs : List (ℕ → ℚ)} {h : Mem} {i : ℕ} (entry : ℕ) (hi : i + 2 < fs.length)
    (h0 : (fs.getD i fun _ => 0) = fun k => ((k % 2 : ℕ) : ℚ)) (h1 : (fs.getD (i + 1) fun _ => 0) 0 = 0)
    (h2 : (fs.getD (i + 2) fun _ => 0) 0 = 1) :
    HoldsCor entry (h.next + i) (h.next + (i + 1)) (h.next + (i + 2)) true (h.news fs) (Divider.corInit entry) := by
  refine ⟨?_, ?_⟩
  · simp only [corParts, List.pairwise_cons, List.forall_mem_cons, List.not_mem_nil, false_imp_iff, implies_true,
      and_true, List.Pairwise.nil]
    exact ⟨⟨news_parted fs h (is := [i]) (js := [i + 1]) (by simp; omega) (by simp; omega) (by simp),
      news_parted fs h (is := [i]) (js := [i + 2]) (by simp; omega) (by simp; omega) (by simp)⟩,
      news_parted fs h (is := [i + 1]) (js := [i + 2]) (by simp; omega) (by simp; omega) (by simp)⟩
  · simp only [corParts, List.forall_mem_cons, List.not_mem_nil, false_imp_iff, implies_true, and_true]
    refine ⟨news_reg entry (by omega) h0, ?_, ?_⟩
    · rw [news_val (by omega), h1]; simp [Divider.corInit, zq]
    · rw [news_val (by omega), h2]; simp [Divider.corInit, zq]

private theorem news_self {fs : List (ℕ → ℚ)} {h : Mem} {p : ℕ} (h1 : h.next ≤ p) (h2 : p < h.next + fs.length) :
    (h.news fs).st p = p := by
  obtain ⟨i, rfl⟩ := Nat.exists_eq_add_of_le h1
  exact news_st (by omega)

private theorem news_new {fs : List (ℕ → ℚ)} {h : Mem} {ps : List ℕ}
    (hp : ∀ p ∈ ps, h.next ≤ p ∧ p < h.next + fs.length) : Fresh h (h.news fs) ps := by
  intro p h1
  obtain ⟨h2, h3⟩ := hp p h1
  rw [news_self h2 h3, (news_mem fs h).2.1]
  exact ⟨h2, h3, h2, h3⟩

private theorem news_sep {fs : List (ℕ → ℚ)} {h : Mem} {Rs : Parts}
    (hp : ∀ x ∈ Rs, ∀ p ∈ x.1, h.next ≤ p ∧ p < h.next + fs.length)
    (hd : Rs.Pairwise fun x y => ∀ p ∈ x.1, ∀ q ∈ y.1, p ≠ q) :
    Rs.Pairwise fun x y => Parted (h.news fs) x.1 y.1 := by
  refine hd.imp_of_mem ?_
  intro x y hx hy hne p h1 q h2
  rw [news_self (hp x hx p h1).1 (hp x hx p h1).2, news_self (hp y hy q h2).1 (hp y hy q h2).2]
  exact ⟨hne p h1 q h2, hne p h1 q h2⟩

macro "news_tac" : tactic => `(tactic|
  simp [cordiv, divUni, divBi, mulStatic, mulStream, sqrtEmit, sqrtJk, sqrtDiv, cordivFill, divUniFill, divBiFill,
    mulStaticFill, mulStreamFill, sqrtEmitFill, sqrtJkFill, sqrtDivFill, corParts, uniParts, biParts, staticParts,
    streamParts, emitParts, jkParts, sdParts, syncPart, corPart])

variable {h : Mem} {held : List ℕ} {vs : List ℤ}

/-- The correlated divider by itself.  A call with an address outside the sequence or the register raises. -/
theorem C104_cordiv (entry : ℕ) (rng : List ℤ) (same : Bool) (hh : Apart h held)
    (hv : held.map h.val = vs.map fun n : ℤ => (n : ℚ)) (ds : List (Deed Unit ℤ)) :
    World.read (cordiv entry rng same h.next (h.next + 1) (h.next + 2)) (fun n : ℤ => (n : ℚ))
        ⟨true, h.news cordivFill, held⟩ ds =
      (Verif.Spec.valueRead (Verif.Spec.onTwo (Spec.corCall entry rng)) (Divider.corInit entry, vs) ds).map
        fun n : ℤ => (n : ℚ) := by
  refine good_run (cordiv_contract _ _ _ _ _ _) ds _ _
    (good_start hh hv (news_mem _ h).1 (news_new ?_) ?_)
  · news_tac
  · exact news_cor (i := 0) entry (by news_tac) rfl rfl rfl

/-- The divider in unipolar mode. -/
theorem C104_div_unipolar (depthSa : ℤ) (depthSs entry : ℕ) (rng : List ℤ) (had : Spec.Addresses entry rng)
    (same : Bool) (hh : Apart h held) (hv : held.map h.val = vs.map fun n : ℤ => (n : ℚ))
    (ds : List (Deed (List ℕ) ℤ)) :
    World.read (divUni entry rng same h.next (h.next + 1) (h.next + 2) (h.next + 3) (h.next + 4))
        (fun n : ℤ => (n : ℚ)) ⟨([1], true), h.news (divUniFill depthSs), held⟩ ds =
      (Verif.Spec.valueRead (Verif.Spec.onTwo (Spec.divCall .unipolar depthSa depthSs entry rng))
        (Divider.init depthSa entry, vs) ds).map fun n : ℤ => (n : ℚ) := by
  refine good_run (divUni_contract depthSa same (by omega) had) ds _ _
    (good_start hh hv (news_mem _ h).1 (news_new ?_) ⟨news_sep ?_ ?_, ?_⟩)
  · news_tac
  · news_tac
  · news_tac
  · simp only [uniParts, syncPart, corPart, List.forall_mem_cons, List.not_mem_nil, false_imp_iff, implies_true,
      and_true]
    refine ⟨⟨rfl, ?_, ?_, ?_⟩, news_cor (i := 2) entry (by news_tac) rfl rfl rfl⟩
    · exact (news_val (i := 1) (by news_tac)).trans (by simp [divUniFill, Divider.init, Shuffle.ssInit])
    · exact (news_val (i := 0) (by news_tac)).trans (by simp [divUniFill])
    · rw [news_self (by omega) (by news_tac), news_self (by omega) (by news_tac)]; omega

/-- The divider in bipolar mode. -/
theorem C104_div_bipolar (depthSa : ℤ) (depthSs entry : ℕ) (rng : List ℤ) (had : Spec.Addresses entry rng)
    (same sameI sameB : Bool) (hh : Apart h held) (hv : held.map h.val = vs.map fun n : ℤ => (n : ℚ))
    (ds : List (Deed (List ℕ) ℤ)) :
    World.read (divBi depthSa entry rng same sameI sameB h.next (h.next + 1) (h.next + 2) (h.next + 3) (h.next + 4)
        (h.next + 5) (h.next + 6) (h.next + 7) (h.next + 8) (h.next + 9))
        (fun n : ℤ => (n : ℚ)) ⟨([1], true), h.news (divBiFill depthSa depthSs), held⟩ ds =
      (Verif.Spec.valueRead (Verif.Spec.onTwo (Spec.divCall .bipolar depthSa depthSs entry rng))
        (Divider.init depthSa entry, vs) ds).map fun n : ℤ => (n : ℚ) := by
  refine good_run (divBi_contract depthSa same sameI sameB (by omega) had) ds _ _
    (good_start hh hv (news_mem _ h).1 (news_new ?_) ⟨news_sep ?_ ?_, ?_⟩)
  · news_tac
  · news_tac
  · news_tac
  · simp only [biParts, syncPart, corPart, List.forall_mem_cons, List.not_mem_nil, false_imp_iff, implies_true,
      and_true]
    refine ⟨news_val (i := 0) (by news_tac), news_val (i := 1) (by news_tac), news_val (i := 2) (by news_tac),
      news_val (i := 3) (by news_tac), news_val (i := 4) (by news_tac), ⟨rfl, ?_, ?_, ?_⟩,
      news_cor (i := 7) entry (by news_tac) rfl rfl rfl⟩
    · exact (news_val (i := 6) (by news_tac)).trans (by simp [divBiFill, divUniFill, Divider.init, Shuffle.ssInit])
    · exact (news_val (i := 5) (by news_tac)).trans (by simp [divBiFill, divUniFill])
    · rw [news_self (by omega) (by news_tac), news_self (by omega) (by news_tac)]; omega

/-- The multiplier with a static operand. -/
theorem C104_mul_static (mode : Mode) (width : ℕ) (bin : ℤ) (seq : List ℤ) (same : Bool) (hh : Apart h held)
    (hv : held.map h.val = vs.map fun n : ℤ => (n : ℚ)) (ds : List (Deed Unit ℤ)) :
    World.read (mulStatic mode seq.length same h.next (h.next + 1) (h.next + 2) (h.next + 3))
        (fun n : ℤ => (n : ℚ)) ⟨(), h.news (mulStaticFill bin seq), held⟩ ds =
      (Verif.Spec.valueRead
        (Verif.Spec.onOne fun s _ x => let r := Multiplier.stepStatic mode seq bin s x; (r.1, [r.2]))
        (Multiplier.init width, vs) ds).map fun n : ℤ => (n : ℚ) := by
  refine good_run (mulStatic_contract mode bin seq same _ _ _ _) ds _ _
    (good_start hh hv (news_mem _ h).1 (news_new ?_) ⟨news_sep ?_ ?_, ?_⟩)
  · news_tac
  · news_tac
  · news_tac
  · simp only [staticParts, List.forall_mem_cons, List.not_mem_nil, false_imp_iff, implies_true, and_true]
    refine ⟨news_val (i := 0) (by news_tac), fun i => news_get (i := 1) (by news_tac) i, ?_, ?_⟩
    · exact (news_val (i := 2) (by news_tac)).trans (by simp [mulStaticFill, Multiplier.init, zq])
    · exact (news_val (i := 3) (by news_tac)).trans (by simp [mulStaticFill, Multiplier.init, zq])

/-- The multiplier of two streams. -/
theorem C104_mul_stream (mode : Mode) (width : ℕ) (seq : List ℤ) (same : Bool) (hh : Apart h held)
    (hv : held.map h.val = vs.map fun n : ℤ => (n : ℚ)) (ds : List (Deed Unit ℤ)) :
    World.read (mulStream mode width same h.next (h.next + 1) (h.next + 2) (h.next + 3))
        (fun n : ℤ => (n : ℚ)) ⟨true, h.news (mulStreamFill seq), held⟩ ds =
      (Verif.Spec.valueRead
        (Verif.Spec.onTwo fun s _ x y => let r := Multiplier.stepStream mode width seq s (x, y); (r.1, [r.2]))
        (Multiplier.init width, vs) ds).map fun n : ℤ => (n : ℚ) := by
  refine good_run (mulStream_contract mode width seq same _ _ _ _) ds _ _
    (good_start hh hv (news_mem _ h).1 (news_new ?_) ⟨news_sep ?_ ?_, ?_⟩)
  · news_tac
  · news_tac
  · news_tac
  · simp only [streamParts, List.forall_mem_cons, List.not_mem_nil, false_imp_iff, implies_true, and_true]
    refine ⟨news_reg (i := 0) _ (by news_tac) rfl, fun i => news_get (i := 1) (by news_tac) i, ?_, ?_⟩
    · exact (news_val (i := 2) (by news_tac)).trans (by simp [mulStreamFill, Multiplier.init, zq])
    · exact (news_val (i := 3) (by news_tac)).trans (by simp [mulStreamFill, Multiplier.init, zq])

/-- The square root that emits bits. -/
theorem C104_sqrt_emit (mode : Mode) (jk : Bool) (entryKn entrySr : ℕ) (hs : 0 < entrySr) (rng : List ℤ)
    (sameA same : Bool) (hh : Apart h held) (hv : held.map h.val = vs.map fun n : ℤ => (n : ℚ))
    (ds : List (Deed Unit ℤ)) :
    World.read (sqrtEmit mode entrySr sameA same h.next (h.next + 1) (h.next + 2) (h.next + 3) (h.next + 4)
        (h.next + 5)) (fun n : ℤ => (n : ℚ)) ⟨((true, none), true), h.news sqrtEmitFill, held⟩ ds =
      (Verif.Spec.valueRead (Verif.Spec.onOne (Spec.sqrtCall ⟨mode, jk, true, entryKn, entrySr⟩ rng))
        (Sqrt.init ⟨mode, jk, true, entryKn, entrySr⟩, vs) ds).map fun n : ℤ => (n : ℚ) := by
  refine good_run (sqrtEmit_contract mode jk entryKn entrySr hs rng sameA same (by omega) (by omega) (by omega)) ds _ _
    (good_start hh hv (news_mem _ h).1 (news_new ?_) ⟨news_sep ?_ ?_, ?_⟩)
  · news_tac
  · news_tac
  · news_tac
  · simp only [emitParts, List.forall_mem_cons, List.not_mem_nil, false_imp_iff, implies_true, and_true]
    refine ⟨rfl, ?_, ⟨rfl, news_val (i := 1) (by news_tac), news_val (i := 2) (by news_tac),
      news_val (i := 3) (by news_tac), ?_, ?_, ?_⟩, news_reg (i := 4) _ (by news_tac) rfl,
      news_val (i := 5) (by news_tac)⟩
    · exact (news_val (i := 0) (by news_tac)).trans (by simp [sqrtEmitFill, Sqrt.init, zq])
    all_goals rw [news_self (by omega) (by news_tac), news_self (by omega) (by news_tac)]; omega

/-- The square root that traces with a flip-flop. -/
theorem C104_sqrt_jk (mode : Mode) (entryKn entrySr : ℕ) (rng : List ℤ) (sameA same : Bool) (hh : Apart h held)
    (hv : held.map h.val = vs.map fun n : ℤ => (n : ℚ)) (ds : List (Deed Unit ℤ)) :
    World.read (sqrtJk mode sameA same h.next (h.next + 1) (h.next + 2)) (fun n : ℤ => (n : ℚ))
        ⟨(), h.news sqrtJkFill, held⟩ ds =
      (Verif.Spec.valueRead (Verif.Spec.onOne (Spec.sqrtCall ⟨mode, true, false, entryKn, entrySr⟩ rng))
        (Sqrt.init ⟨mode, true, false, entryKn, entrySr⟩, vs) ds).map fun n : ℤ => (n : ℚ) := by
  refine good_run (sqrtJk_contract mode entryKn entrySr rng sameA same (by omega)) ds _ _
    (good_start hh hv (news_mem _ h).1 (news_new ?_) ⟨news_sep ?_ ?_, ?_⟩)
  · news_tac
  · news_tac
  · news_tac
  · simp only [jkParts, List.forall_mem_cons, List.not_mem_nil, false_imp_iff, implies_true, and_true]
    refine ⟨⟨?_, ?_⟩, news_val (i := 2) (by news_tac)⟩
    · exact (news_val (i := 0) (by news_tac)).trans (by simp [sqrtJkFill, Sqrt.init, zq])
    · exact (news_val (i := 1) (by news_tac)).trans (by simp [sqrtJkFill, Sqrt.init, zq])

/-- The square root that traces with a divider. -/
theorem C104_sqrt_div (mode : Mode) (entryKn entrySr : ℕ) (rng : List ℤ) (had : Spec.Addresses 4 rng)
    (sameA sameQ same : Bool) (hh : Apart h held) (hv : held.map h.val = vs.map fun n : ℤ => (n : ℚ))
    (ds : List (Deed Unit ℤ)) :
    World.read (sqrtDiv mode rng sameA sameQ same h.next (h.next + 1) (h.next + 2) (h.next + 3) (h.next + 4)
        (h.next + 5)) (fun n : ℤ => (n : ℚ)) ⟨true, h.news sqrtDivFill, held⟩ ds =
      (Verif.Spec.valueRead (Verif.Spec.onOne (Spec.sqrtCall ⟨mode, false, false, entryKn, entrySr⟩ rng))
        (Sqrt.init ⟨mode, false, false, entryKn, entrySr⟩, vs) ds).map fun n : ℤ => (n : ℚ) := by
  refine good_run (sqrtDiv_contract mode entryKn entrySr had sameA sameQ same _ _ _ _ _ _) ds _ _
    (good_start hh hv (news_mem _ h).1 (news_new ?_) ⟨news_sep ?_ ?_, ?_⟩)
  · news_tac
  · news_tac
  · news_tac
  · simp only [sdParts, corPart, List.forall_mem_cons, List.not_mem_nil, false_imp_iff, implies_true, and_true]
    refine ⟨?_, ?_, news_val (i := 2) (by news_tac), news_cor (i := 3) 4 (by news_tac) rfl rfl rfl⟩
    · exact (news_val (i := 0) (by news_tac)).trans (by simp [sqrtDivFill, Sqrt.init, zq])
    · exact (news_val (i := 1) (by news_tac)).trans (by simp [sqrtDivFill, Sqrt.init, zq])

/-- The sequences of the generators are addresses of a register of as many entries. -/
theorem C104_addresses {w : ℕ} {rng : List ℤ} (hp : Verif.Spec.IsPermSeq w rng) : Spec.Addresses (2 ^ w) rng := by
  refine ⟨Nat.pos_of_ne_zero (by simp), fun i hi => ?_⟩
  have hl : i < rng.length := by rw [hp.1]; exact hi
  refine ⟨rng[i], List.getElem?_eq_getElem hl, ?_⟩
  have hm := (Gen.IsPermSeq.perm hp).mem_iff.mp (List.getElem_mem hl)
  simp only [List.mem_map, List.mem_range] at hm
  obtain ⟨k, hk, he⟩ := hm
  rw [← he]
  simpa using hk

/-- The four addresses of the kernel of a square root. -/
example : Spec.Addresses 4 [0, 2, 1, 3] :=
  ⟨by decide, by decide⟩

/-- The correlated divider: the caller overwrites two quotients, the register keeps the bits. -/
example : World.read (cordiv 4 [0, 2, 1, 3] true 0 1 2) (fun n : ℤ => (n : ℚ)) ⟨true, Mem.empty.news cordivFill, []⟩
    [.make 1, .make 0, .call () [0, 0], .poke 2 9, .call () [0, 1], .call () [1, 0], .poke 3 4,
      .call () [1, 1], .call () [1, 1]] = [1, 0, 9, 4, 0, 0, 0] := by
  decide +kernel

/-- The divider in unipolar mode. -/
example : World.read (divUni 2 [0, 1] true 0 1 2 3 4) (fun n : ℤ => (n : ℚ)) ⟨([1], true), Mem.empty.news (divUniFill 2), []⟩
    [.make 1, .make 0, .call [1] [0, 0], .poke 2 9, .call [1] [0, 1], .call [1] [1, 0], .poke 3 4,
      .call [1] [1, 1], .call [1] [0, 0]] = [1, 0, 9, 4, 1, 1, 1] := by
  decide +kernel

/-- The divider in bipolar mode. -/
example : World.read (divBi 3 2 [0, 1] true true true 0 1 2 3 4 5 6 7 8 9) (fun n : ℤ => (n : ℚ)) ⟨([1], true), Mem.empty.news (divBiFill 3 2), []⟩
    [.make 1, .make 0, .call [1] [0, 0], .poke 2 9, .call [1] [0, 1], .call [1] [1, 0], .poke 3 4,
      .call [1] [1, 1], .call [1] [0, 0]] = [1, 0, 9, 4, 1, 1, 1] := by
  decide +kernel

/-- The multiplier with a static operand. -/
example : World.read (mulStatic .bipolar 4 true 0 1 2 3) (fun n : ℤ => (n : ℚ)) ⟨(), Mem.empty.news (mulStaticFill 2 [0, 2, 1, 3]), []⟩
    [.make 1, .make 0, .call () [0], .poke 2 9, .call () [0], .call () [1], .poke 3 4, .call () [1], .call () [0]] = [1, 0, 9, 4, 0, 1, 1] := by
  decide +kernel

/-- The multiplier of two streams; the same tensor is both operands. -/
example : World.read (mulStream .unipolar 2 true 0 1 2 3) (fun n : ℤ => (n : ℚ)) ⟨true, Mem.empty.news (mulStreamFill [0, 2, 1, 3]), []⟩
    [.make 1, .make 0, .call () [0, 0], .poke 2 9, .call () [0, 1], .call () [0, 0], .poke 3 4,
      .call () [0, 0], .call () [0, 0]] = [1, 0, 9, 4, 1, 0, 1] := by
  decide +kernel

/-- The square root that emits bits. -/
example : World.read (sqrtEmit .unipolar 2 true true 0 1 2 3 4 5) (fun n : ℤ => (n : ℚ)) ⟨((true, none), true), Mem.empty.news sqrtEmitFill, []⟩
    [.make 1, .make 0, .call () [0], .poke 2 9, .call () [0], .call () [1], .poke 3 4, .call () [1], .call () [0]] = [1, 0, 9, 4, 1, 0, 1] := by
  decide +kernel

/-- The square root that traces with a flip-flop: trace and flip-flop share a storage, results do not. -/
example : World.read (sqrtJk .bipolar true true 0 1 2) (fun n : ℤ => (n : ℚ)) ⟨(), Mem.empty.news sqrtJkFill, []⟩
    [.make 1, .make 0, .call () [0], .poke 2 9, .call () [0], .call () [1], .poke 3 4, .call () [1], .call () [0], .call () [1]] = [1, 0, 9, 4, 0, 0, 1, 0] := by
  decide +kernel

/-- The square root that traces with a divider. -/
example : World.read (sqrtDiv .unipolar [0, 2, 1, 3] true true true 0 1 2 3 4 5) (fun n : ℤ => (n : ℚ)) ⟨true, Mem.empty.news sqrtDivFill, []⟩
    [.make 1, .make 0, .call () [0], .poke 2 9, .call () [0], .call () [1], .poke 3 4, .call () [1], .call () [0], .call () [1]] = [1, 0, 9, 4, 0, 1, 1, 1] := by
  decide +kernel

end Verif.Props
