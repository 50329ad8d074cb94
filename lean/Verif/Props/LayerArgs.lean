import Verif.Props.Conv

/-!
# Property C92: run-time `scale` and `entry` of the adder and the stream layers
-/

namespace Verif.Props

open Verif Finset Gen Linear Conv

/-- The configuration with the given scale and entry put in the place of its own where there are any. -/
def Spec.override (cfg : Adder.Cfg) (scale entry : Option ℚ) : Adder.Cfg :=
  { cfg with scale := scale.or cfg.scale, entry := entry.or cfg.entry }

private theorem step_first (cfg : Adder.Cfg) (a : Adder.Arg) :
    Adder.step cfg (Adder.init cfg) a
      = Adder.step (Spec.override cfg a.scale a.entry) (Adder.init (Spec.override cfg a.scale a.entry)) { xs := a.xs } := by
  obtain ⟨xs, sc, en⟩ := a
  obtain ⟨m, cs, ce, d⟩ := cfg
  cases sc <;> cases en <;> cases cs <;> cases ce <;> rfl

private theorem step_later (cfg : Adder.Cfg) (s : Adder.St) (h : s.first = false) (a : Adder.Arg) (sc en : Option ℚ) :
    Adder.step cfg s a = Adder.step (Spec.override cfg sc en) s { xs := a.xs } := by
  unfold Adder.step Adder.configure
  rw [h]; rfl

private theorem step_flag (cfg : Adder.Cfg) (s : Adder.St) (a : Adder.Arg) : (Adder.step cfg s a).1.first = false := by
  unfold Adder.step Adder.configure Adder.accumulate
  cases h : s.first <;> simp [h]

/-- Two machines whose related states have the same results and related successors have the same results for ever. -/
private theorem outAtE_sim {S S' I I' Y : Type} (step : S → I → Except PyErr (S × Y)) (step' : S' → I' → Except PyErr (S' × Y))
    (R : ℕ → S → S' → Prop) (i : ℕ → I) (i' : ℕ → I')
    (hstep : ∀ t s s', R t s s' → (∃ e, step s (i t) = .error e ∧ step' s' (i' t) = .error e) ∨
      ∃ u u' y, step s (i t) = .ok (u, y) ∧ step' s' (i' t) = .ok (u', y) ∧ R (t + 1) u u') (s0 : S) (s0' : S') (h0 : R 0 s0 s0')
    (t : ℕ) : outAtE step s0 i t = outAtE step' s0' i' t := by
  have hst : ∀ t, (∃ e, stateAtE step s0 i t = .error e ∧ stateAtE step' s0' i' t = .error e) ∨
      ∃ s s', stateAtE step s0 i t = .ok s ∧ stateAtE step' s0' i' t = .ok s' ∧ R t s s' := by
    intro t
    induction t with
    | zero => exact .inr ⟨s0, s0', rfl, rfl, h0⟩
    | succ t ih =>
        rcases ih with ⟨e, h1, h2⟩ | ⟨s, s', h1, h2, h3⟩
        · left; refine ⟨e, ?_, ?_⟩ <;> simp only [stateAtE, h1, h2] <;> rfl
        · rcases hstep t s s' h3 with ⟨e, h4, h5⟩ | ⟨u, u', y, h4, h5, h6⟩
          · left; refine ⟨e, ?_, ?_⟩
            · simp only [stateAtE]; rw [h1]; show (step s (i t) >>= _) = _; rw [h4]; rfl
            · simp only [stateAtE]; rw [h2]; show (step' s' (i' t) >>= _) = _; rw [h5]; rfl
          · exact .inr ⟨u, u', stateAtE_succ_ok h1 h4, stateAtE_succ_ok h2 h5, h6⟩
  rcases hst t with ⟨e, h1, h2⟩ | ⟨s, s', h1, h2, h3⟩
  · unfold outAtE; rw [h1, h2]; rfl
  · rcases hstep t s s' h3 with ⟨e, h4, h5⟩ | ⟨u, u', y, h4, h5, -⟩
    · unfold outAtE; rw [h1, h2]
      show (step s (i t) >>= _) = (step' s' (i' t) >>= _)
      rw [h4, h5]; rfl
    · rw [outAtE_ok h1 h4, outAtE_ok h2 h5]

/-- C92: of the `scale` and `entry` arguments of `FSUAdd.forward` only those of the first call count, and they count as if the adder had been
built with them. -/
theorem C92_adder (cfg : Adder.Cfg) (a : ℕ → Adder.Arg) (t : ℕ) :
    addOut cfg a t = addOut (Spec.override cfg (a 0).scale (a 0).entry) (fun t => { xs := (a t).xs }) t := by
  have hst : ∀ t, stateAt (Adder.step cfg) (Adder.init cfg) a (t + 1)
      = stateAt (Adder.step (Spec.override cfg (a 0).scale (a 0).entry)) (Adder.init (Spec.override cfg (a 0).scale (a 0).entry))
          (fun t => { xs := (a t).xs }) (t + 1) ∧
      (stateAt (Adder.step cfg) (Adder.init cfg) a (t + 1)).first = false := by
    intro t
    induction t with
    | zero => exact ⟨congrArg Prod.fst (step_first cfg (a 0)), step_flag _ _ _⟩
    | succ t ih =>
        refine ⟨?_, step_flag _ _ _⟩
        show (Adder.step cfg (stateAt (Adder.step cfg) (Adder.init cfg) a (t + 1)) (a (t + 1))).1 = _
        rw [step_later cfg _ ih.2 (a (t + 1)) (a 0).scale (a 0).entry, ih.1]; rfl
  unfold addOut
  cases t with
  | zero => exact congrArg Prod.snd (step_first cfg (a 0))
  | succ t =>
      show (Adder.step cfg (stateAt (Adder.step cfg) (Adder.init cfg) a (t + 1)) (a (t + 1))).2 = _
      rw [step_later cfg _ (hst t).2 (a (t + 1)) (a 0).scale (a 0).entry, (hst t).1]; rfl

/-- Non-vacuity: a non-scaled adder told to scale by two in its first call, and then told to scale by five. -/
example : addOut ⟨.unipolar, some 1, none, 10⟩ (fun t => { xs := [1, 1], scale := some (if t = 0 then 2 else 5) }) 3 = 1 ∧
    addOut ⟨.unipolar, some 1, none, 10⟩ (fun t => { xs := [1, 0], scale := some (if t = 0 then 2 else 5) }) 2 = 0 := by
  constructor <;> decide +kernel

/-- The lanes of two accumulators: fresh ones of either configuration in the first call, the same afterwards. -/
private def LanesRel {O : ℕ} (cfg cfg' : Adder.Cfg) (t : ℕ) (l l' : List (Fin O → Adder.St)) : Prop :=
  if t = 0 then l = [fun _ => Adder.init cfg] ∧ l' = [fun _ => Adder.init cfg'] else l = l' ∧ ∀ f ∈ l, ∀ o, (f o).first = false

private theorem zip_mem {α β γ : Type} {f : α → β → γ} {a : List α} {b : List β} {l : List γ} (h : zipLanes f a b = .ok l) :
    ∀ z ∈ l, ∃ x ∈ a, ∃ y ∈ b, z = f x y := by
  unfold zipLanes at h
  intro z hz
  split_ifs at h with h1
  · obtain rfl := Except.ok.inj h
    obtain ⟨i, hi, rfl⟩ := List.getElem_of_mem hz
    rw [List.length_zipWith] at hi
    exact ⟨a[i], List.getElem_mem _, b[i], List.getElem_mem _, by simp⟩
  · split at h
    · obtain rfl := Except.ok.inj h
      obtain ⟨y, hy, rfl⟩ := List.mem_map.1 hz
      exact ⟨_, by simp, y, hy, rfl⟩
    · split at h
      · obtain rfl := Except.ok.inj h
        obtain ⟨x, hx, rfl⟩ := List.mem_map.1 hz
        exact ⟨x, hx, _, by simp, rfl⟩
      · cases h

private theorem zip_congr {α β γ : Type} {f g : α → β → γ} {a : List α} {b : List β} (h : ∀ x ∈ a, ∀ y ∈ b, f x y = g x y) :
    zipLanes f a b = zipLanes g a b := by
  unfold zipLanes
  split_ifs with h1
  · congr 1
    apply List.ext_getElem (by simp)
    intro n h2 h3
    simp only [List.getElem_zipWith]
    exact h _ (List.getElem_mem _) _ (List.getElem_mem _)
  · split
    · congr 1; exact List.map_congr_left fun y hy => h _ (by simp) y hy
    · split
      · congr 1; exact List.map_congr_left fun x hx => h x hx _ (by simp)
      · rfl

private theorem lanes_step {O : ℕ} (cfg : Adder.Cfg) (sc en : ℕ → Option ℚ) (t : ℕ) (l l' : List (Fin O → Adder.St))
    (h : LanesRel cfg (Spec.override cfg (sc 0) (en 0)) t l l') (pc : List (Fin O → ℤ)) :
    zipLanes (laneRow cfg (sc t) (en t)) l pc = zipLanes (laneRow (Spec.override cfg (sc 0) (en 0)) none none) l' pc := by
  unfold LanesRel at h
  split_ifs at h with ht
  · subst ht
    obtain ⟨rfl, rfl⟩ := h
    have e : ∀ y : Fin O → ℤ, laneRow cfg (sc 0) (en 0) (fun _ => Adder.init cfg) y
        = laneRow (Spec.override cfg (sc 0) (en 0)) none none (fun _ => Adder.init (Spec.override cfg (sc 0) (en 0))) y :=
      fun y => funext fun o => step_first cfg ⟨[(y o : ℚ)], sc 0, en 0⟩
    rcases pc with _ | ⟨p, _ | ⟨q, ps⟩⟩
    · rfl
    · show Except.ok [_] = Except.ok [_]; rw [e]
    · show Except.ok (List.map _ _) = Except.ok (List.map _ _)
      congr 1
      exact List.map_congr_left fun y _ => e y
  · obtain ⟨rfl, hl⟩ := h
    exact zip_congr fun x hx y _ => funext fun o => step_later cfg (x o) (hl x hx o) ⟨[(y o : ℚ)], sc t, en t⟩ _ _

private theorem lin_step {I O : ℕ} (m : PC I O × Adder.Cfg) (sc en : ℕ → Option ℚ) (t : ℕ)
    (s s' : PCSt I O × List (Fin O → Adder.St)) (hp : s.1 = s'.1)
    (h : LanesRel m.2 (Spec.override m.2 (sc 0) (en 0)) t s.2 s'.2) (rows : List (Fin I → ℤ)) :
    (∃ e, stepLinear m s ⟨rows, sc t, en t⟩ = .error e ∧
      stepLinear (m.1, Spec.override m.2 (sc 0) (en 0)) s' ⟨rows, none, none⟩ = .error e) ∨
    ∃ u u' y, stepLinear m s ⟨rows, sc t, en t⟩ = .ok (u, y) ∧
      stepLinear (m.1, Spec.override m.2 (sc 0) (en 0)) s' ⟨rows, none, none⟩ = .ok (u', y) ∧ u.1 = u'.1 ∧
      LanesRel m.2 (Spec.override m.2 (sc 0) (en 0)) (t + 1) u.2 u'.2 := by
  unfold stepLinear
  simp only [← hp]
  cases h1 : stepPC m.1 s.1 rows with
  | error e => exact .inl ⟨e, rfl, rfl⟩
  | ok q =>
      obtain ⟨p, pc⟩ := q
      have h2 := lanes_step m.2 sc en t s.2 s'.2 h pc
      cases h3 : zipLanes (laneRow m.2 (sc t) (en t)) s.2 pc with
      | error e =>
          refine .inl ⟨e, ?_, ?_⟩
          · show (zipLanes (laneRow m.2 (sc t) (en t)) s.2 pc >>= _) = _; rw [h3]; rfl
          · show (zipLanes (laneRow (Spec.override m.2 (sc 0) (en 0)) none none) s'.2 pc >>= _) = _; rw [← h2, h3]; rfl
      | ok l =>
          refine .inr ⟨(p, l.map fun (r : Fin O → Adder.St × ℤ) (o : Fin O) => (r o).1),
            (p, l.map fun (r : Fin O → Adder.St × ℤ) (o : Fin O) => (r o).1),
            l.map fun (r : Fin O → Adder.St × ℤ) (o : Fin O) => (r o).2, ?_, ?_, rfl, ?_⟩
          · show (zipLanes (laneRow m.2 (sc t) (en t)) s.2 pc >>= _) = _; rw [h3]; rfl
          · show (zipLanes (laneRow (Spec.override m.2 (sc 0) (en 0)) none none) s'.2 pc >>= _) = _; rw [← h2, h3]; rfl
          · unfold LanesRel
            rw [if_neg (by omega)]
            refine ⟨rfl, fun f hf o => ?_⟩
            obtain ⟨z, hz, rfl⟩ := List.mem_map.1 hf
            obtain ⟨x, -, y, -, rfl⟩ := zip_mem h3 z hz
            exact step_flag _ _ _

/-- Result of call `t` of a fresh `FSULinear` called with `scale` and `entry`. -/
def linOutArgs {I O : ℕ} (m : PC I O × Adder.Cfg) (rows : ℕ → List (Fin I → ℤ)) (sc en : ℕ → Option ℚ) (t : ℕ) :
    Except PyErr (List (Fin O → ℤ)) := outAtE (stepLinear m) (initLinear m) (fun t => ⟨rows t, sc t, en t⟩) t

/-- Result of call `t` of a fresh `FSUConv2d` called with `scale` and `entry`. -/
def convOutArgs {O : ℕ} (g : Geo) (p : PadArg) (N C H W : ℕ) (m : PC (C * g.kh * g.kw) O × Adder.Cfg)
    (img : ℕ → ℕ → ℕ → ℕ → ℕ → ℤ) (sc en : ℕ → Option ℚ) (t : ℕ) : Except PyErr (ℕ → ℕ → ℕ → ℕ → ℤ) :=
  outAtE (stepConv g p N C H W m) (initConv m) (fun t => ⟨img t, sc t, en t⟩) t

/-- C92: the same for `FSULinear`, whatever the batches, and including the calls that fail. -/
theorem C92_linear {I O : ℕ} (m : PC I O × Adder.Cfg) (rows : ℕ → List (Fin I → ℤ)) (sc en : ℕ → Option ℚ) (t : ℕ) :
    linOutArgs m rows sc en t = linOutArgs (m.1, Spec.override m.2 (sc 0) (en 0)) rows (fun _ => none) (fun _ => none) t := by
  refine outAtE_sim _ _ (fun t s s' => s.1 = s'.1 ∧ LanesRel m.2 (Spec.override m.2 (sc 0) (en 0)) t s.2 s'.2) _ _
    (fun t s s' h => ?_) _ _ ⟨rfl, by unfold LanesRel; rw [if_pos rfl]; exact ⟨rfl, rfl⟩⟩ t
  rcases lin_step m sc en t s s' h.1 h.2 (rows t) with h | ⟨u, u', y, h1, h2, h3, h4⟩
  · exact .inl h
  · exact .inr ⟨u, u', y, h1, h2, h3, h4⟩

/-- C92: the same for `FSUConv2d`, with any geometry and either form of padding. -/
theorem C92_conv {O : ℕ} (g : Geo) (p : PadArg) (N C H W : ℕ) (m : PC (C * g.kh * g.kw) O × Adder.Cfg)
    (img : ℕ → ℕ → ℕ → ℕ → ℕ → ℤ) (sc en : ℕ → Option ℚ) (t : ℕ) :
    convOutArgs g p N C H W m img sc en t = convOut g p N C H W (m.1, Spec.override m.2 (sc 0) (en 0)) img t := by
  refine outAtE_sim _ _ (fun t s s' => s.2 = s'.2 ∧ s.1.1 = s'.1.1 ∧
      LanesRel m.2 (Spec.override m.2 (sc 0) (en 0)) t s.1.2 s'.1.2) _ _
    (fun t s s' h => ?_) _ _ ⟨rfl, rfl, by unfold LanesRel; rw [if_pos rfl]; exact ⟨rfl, rfl⟩⟩ t
  obtain ⟨hf, hp, hl⟩ := h
  unfold stepConv convWrap
  simp only [← hf]
  cases h1 : outSize { g with ph := p.perAxis.1, pw := p.perAxis.2 } H W with
  | error e => exact .inl ⟨e, rfl, rfl⟩
  | ok os =>
      cases h2 : im2col { g with ph := 0, pw := 0 } N C (H + p.sides.1.1 + p.sides.1.2) (W + p.sides.2.1 + p.sides.2.2) 0
          (constPad p H W (if s.2 then 0 else 1) (img t)) with
      | error e =>
          exact .inl ⟨e, rfl, rfl⟩
      | ok rows =>
          rcases lin_step m sc en t s.1 s'.1 hp hl rows with ⟨e, h3, h4⟩ | ⟨u, u', y, h3, h4, h5, h6⟩
          · refine .inl ⟨e, ?_, ?_⟩
            · show (stepLinear m s.1 ⟨rows, sc t, en t⟩ >>= _) = _
              rw [h3]; rfl
            · show (stepLinear (m.1, Spec.override m.2 (sc 0) (en 0)) s'.1 ⟨rows, none, none⟩ >>= _) = _
              rw [h4]; rfl
          · cases h7 : col2im N os y with
            | error e =>
                refine .inl ⟨e, ?_, ?_⟩
                · show (stepLinear m s.1 ⟨rows, sc t, en t⟩ >>= _) = _
                  rw [h3]
                  show (col2im N os y >>= _) = _
                  rw [h7]; rfl
                · show (stepLinear (m.1, Spec.override m.2 (sc 0) (en 0)) s'.1 ⟨rows, none, none⟩ >>= _) = _
                  rw [h4]
                  show (col2im N os y >>= _) = _
                  rw [h7]; rfl
            | ok F =>
                refine .inr ⟨(u, decide (m.1.mode = .bipolar) ^^ s.2), (u', decide (m.1.mode = .bipolar) ^^ s.2), F, ?_, ?_, rfl, h5, h6⟩
                · show (stepLinear m s.1 ⟨rows, sc t, en t⟩ >>= _) = _
                  rw [h3]
                  show (col2im N os y >>= _) = _
                  rw [h7]; rfl
                · show (stepLinear (m.1, Spec.override m.2 (sc 0) (en 0)) s'.1 ⟨rows, none, none⟩ >>= _) = _
                  rw [h4]
                  show (col2im N os y >>= _) = _
                  rw [h7]; rfl

private theorem built_override {I O : ℕ} {env : Env} {mode : String} {width : ℕ} {name : String} {depth : ℤ} {scale : Option ℚ}
    {we : Fin O → Fin I → ℚ} {bias : Bool} {be : Option (Fin O → ℚ)} {m m' : PC I O × Adder.Cfg} {S : ℚ}
    (hm : mkLinear env mode width name depth scale we bias be = .ok m)
    (hm' : mkLinear env mode width name depth (some S) we bias be = .ok m') : (m.1, Spec.override m.2 (some S) none) = m' := by
  obtain ⟨h0, h1, h2, h3, h4, -⟩ := mkLinear_ok hm
  obtain ⟨k0, k1, k2, k3, k4, -⟩ := mkLinear_ok hm'
  obtain ⟨c, mo, sc, en, d⟩ := m
  obtain ⟨c', mo', sc', en', d'⟩ := m'
  simp only at h0 h1 h2 h3 h4 k0 k1 k2 k3 k4
  rw [h0] at k0
  obtain rfl := Except.ok.inj k0
  subst h1 h2 h3 h4 k1 k2 k3 k4
  rfl

/-- C92: so a layer told to scale by `S` in its first call is the layer built with scale `S`, where there is one; later scales and
entries are ignored. -/
theorem C92_scale {I O : ℕ} (env : Env) (mode : String) (width : ℕ) (name : String) (depth : ℤ) (scale : Option ℚ)
    (we : Fin O → Fin I → ℚ) (bias : Bool) (be : Option (Fin O → ℚ)) (m m' : PC I O × Adder.Cfg) (S : ℚ)
    (hm : mkLinear env mode width name depth scale we bias be = .ok m)
    (hm' : mkLinear env mode width name depth (some S) we bias be = .ok m')
    (rows : ℕ → List (Fin I → ℤ)) (sc en : ℕ → Option ℚ) (hs : sc 0 = some S) (he : en 0 = none) (t : ℕ) :
    linOutArgs m rows sc en t = linOutArgs m' rows (fun _ => none) (fun _ => none) t := by
  rw [C92_linear, hs, he, built_override hm hm']

/-- C92: likewise for the convolution. -/
theorem C92_conv_scale {O : ℕ} (env : Env) (g : Geo) (p : PadArg) (N C H W : ℕ) (mode : String) (width : ℕ) (name : String)
    (depth : ℤ) (scale : Option ℚ) (w : ℕ → ℕ → ℕ → ℕ → ℚ) (bias : Bool) (be : Option (Fin O → ℚ))
    (m m' : PC (C * g.kh * g.kw) O × Adder.Cfg) (S : ℚ)
    (hm : mkConv env g C mode width name depth scale w bias be = .ok m)
    (hm' : mkConv env g C mode width name depth (some S) w bias be = .ok m')
    (img : ℕ → ℕ → ℕ → ℕ → ℕ → ℤ) (sc en : ℕ → Option ℚ) (hs : sc 0 = some S) (he : en 0 = none) (t : ℕ) :
    convOutArgs g p N C H W m img sc en t = convOut g p N C H W m' img t := by
  rw [C92_conv, hs, he, built_override hm hm']

/-- Non-vacuity: a bipolar layer with rate coded weights can be built with the default scale and with scale one. -/
example : (mkLinear (I := 2) (O := 1) ⟨30, fun _ => 1, fun _ _ => false, []⟩ "Bipolar" 3 "Sobol" 12 none (fun _ _ => 1/2) false none).isOk = true ∧
    (mkLinear (I := 2) (O := 1) ⟨30, fun _ => 1, fun _ _ => false, []⟩ "Bipolar" 3 "Sobol" 12 (some 1) (fun _ _ => 1/2) false none).isOk = true :=
  ⟨by decide +kernel, by decide +kernel⟩

/-- C92: whatever the coding of the weights, a layer told in its first call to use scale `S ≥ 0` and entry `E` (either may be left out) never
fails, and balances: ones times `S` plus a residue within the accumulator range equal the counts less the bipolar offset `(E - S)/2` per
cycle.  So the scales that the constructor refuses for temporal coded bipolar weights can be had at run time. -/
theorem C92_balance {B I O : ℕ} (hB : 0 < B) (env : Env) (mode : String) (width : ℕ) (name : String) (depth : ℤ) (scale : Option ℚ)
    (we : Fin O → Fin I → ℚ) (bias : Bool) (be : Option (Fin O → ℚ)) (m : PC I O × Adder.Cfg)
    (hm : mkLinear env mode width name depth scale we bias be = .ok m) (x : Fin B → Fin I → ℕ → ℤ) (sc en : ℕ → Option ℚ) (S E : ℚ)
    (hS : S = (sc 0).getD (scale.getD (Spec.fanIn I bias))) (hE : E = (en 0).getD (Spec.fanIn I bias)) (h0 : 0 ≤ S) :
    ∃ out cnt : Fin B → Fin O → ℕ → ℤ, Spec.Rows (linOutArgs m (pcIn x) sc en) out ∧ Spec.Rows (pcOut m.1 x) cnt ∧
      (∀ b o, Verif.Spec.BitStream (out b o)) ∧
      ∀ b o n, let off : ℚ := if m.1.mode = .bipolar then (E - S) / 2 else 0
        (∀ t < n, |(Verif.Spec.ones (cnt b o) (t + 1) : ℚ) - (t + 1) * off - S * Verif.Spec.ones (out b o) t|
          ≤ (2:ℚ) ^ (depth - 2)) →
        |(Verif.Spec.ones (cnt b o) n : ℚ) - n * off - S * Verif.Spec.ones (out b o) n| ≤ (2:ℚ) ^ (depth - 2) := by
  obtain ⟨-, hmo, hdep, hs, he, -⟩ := mkLinear_ok hm
  have hs' : (Spec.override m.2 (sc 0) (en 0)).scale = some S := by
    unfold Spec.override; rw [hs, hS]; cases sc 0 <;> rfl
  have he' : (Spec.override m.2 (sc 0) (en 0)).entry = some E := by
    unfold Spec.override; rw [he, hE]; cases en 0 <;> rfl
  obtain ⟨out, cnt, h1, h2, h3⟩ := lin_conserve hB (m.1, Spec.override m.2 (sc 0) (en 0)) S E h0 hmo hs' he' x
  obtain ⟨out', k1, k2⟩ := C45_runs hB (m.1, Spec.override m.2 (sc 0) (en 0)) x
  have e : out = out' := by
    funext b o t
    have := (h1 t).symm.trans (k1 t)
    exact congrFun (congrFun (List.ofFn_injective (Except.ok.inj this)) b) o
  refine ⟨out, cnt, fun t => ?_, h2, fun b o => by rw [e]; exact k2 b o, ?_⟩
  · rw [C92_linear]; exact h1 t
  · subst hdep; exact h3

/-- Non-vacuity: the refused configuration is refused, and the same layer without the scale is not. -/
example : mkLinear (I := 2) (O := 1) ⟨30, fun _ => 1, fun _ _ => false, []⟩ "Bipolar" 2 "Race" 12 (some 1)
    (fun _ _ => 0) false none = .error .assertion ∧
    (mkLinear (I := 2) (O := 1) ⟨30, fun _ => 1, fun _ _ => false, []⟩ "Bipolar" 2 "Race" 12 none (fun _ _ => 0) false none).isOk = true :=
  ⟨C45_refused _ _ _ _ _ _ _ _ _ (by decide +kernel) (by decide +kernel) (by norm_num [Spec.fanIn]), by decide +kernel⟩

end Verif.Props
