import Verif.Model.MetricTensor
import Verif.Props.Checkpoint

/-!
# C16 and C17 on tensors
-/

namespace Verif.Props

open Verif Tens

private theorem clamp_unit (a : ℚ) : clamp (-1) 1 a = max (-1) (min a 1) := by
  unfold clamp
  rcases le_total a (-1) with h | h
  · rw [max_eq_right h, min_eq_left (by norm_num), min_eq_left (by linarith), max_eq_left h]
  · rw [max_eq_left h]
    rcases le_total a 1 with h' | h'
    · rw [min_eq_left h', max_eq_right h]
    · rw [min_eq_right h', max_eq_right (by norm_num)]

theorem pe_lifts : LiftsOn (fun _ => True) (fun s : PET => s.oneCnt.shape) (fun s i => s.oneCnt.get i) (fun x : Tensor ℚ => [x.shape]) (fun x i => x.get i)
    (fun (_ : Unit) _ => True) (fun _ _ => ()) (fun (a v : ℚ) => (a + v, ())) PET.monitor := by
  intro s x _ _
  constructor
  · intro u hu
    obtain ⟨z, h1, h2, h3⟩ := map2_ok (fun a b : ℚ => a + b) (join_two.mp hu)
    refine ⟨{ s with oneCnt := z, cycle := map1 (fun v : ℚ => v + 1) s.cycle }, (), ?_, h2, trivial, fun i => ⟨h3 i, rfl⟩⟩
    unfold PET.monitor
    change map2 (· + ·) s.oneCnt x = _ at h1
    rw [h1]; rfl
  · intro hn
    refine ⟨.runtime, ?_⟩
    unfold PET.monitor
    rw [map2_err _ (join_two_none hn)]; rfl

theorem pe_rest {s0 s : PET} {x : ℕ → Tensor ℚ} {n : ℕ} (h0 : s0.cycle = one 0) (h : stateAtE PET.monitor s0 x n = .ok s) :
    s.mode = s0.mode ∧ s.source = s0.source ∧ s.cycle = one (n : ℚ) := by
  induction n generalizing s with
  | zero => rw [← Except.ok.inj h]; exact ⟨rfl, rfl, by rw [h0]; simp⟩
  | succ n ih =>
    obtain ⟨s1, o, h1, h2⟩ := stateAtE_succ_inv h
    obtain ⟨a1, a2, a3⟩ := ih h1
    unfold PET.monitor at h2
    obtain ⟨c, hc, h2⟩ := bind_ok h2
    have e := (Prod.mk.inj (Except.ok.inj h2)).1
    subst e
    refine ⟨a1, a2, ?_⟩
    show map1 (fun v : ℚ => v + 1) s1.cycle = _
    rw [a3]; push_cast; rfl

theorem pe_sum (y : ℕ → ℚ) (n : ℕ) : stateAt (fun (a v : ℚ) => (a + v, ())) 0 y n = ∑ t ∈ Finset.range n, y t := by
  induction n with
  | zero => simp [stateAt]
  | succ n ih => rw [Finset.sum_range_succ, ← ih]; rfl

/-- The report of a `ProgError` whose counters fit the source. -/
theorem pe_forward {s : PET} {n : ℕ} (hn : 0 < n) (hc : s.cycle = one (n : ℚ)) (h1 : Spec.Stretch [1] s.oneCnt.shape) :
    (∀ v, bc s.oneCnt.shape s.source.shape = some v → ∃ pp pe : Tensor ℚ, s.forward = .ok (pp, pe) ∧ pp.shape = s.oneCnt.shape ∧ pe.shape = v ∧
      ∀ i, pp.get i = (match s.mode with | .unipolar => s.oneCnt.get i / n | .bipolar => s.oneCnt.get i / n * 2 - 1) ∧
        pe.get i = (match s.mode with | .unipolar => s.oneCnt.get i / n | .bipolar => s.oneCnt.get i / n * 2 - 1) - s.source.get i) ∧
    (bc s.oneCnt.shape s.source.shape = none → s.forward = .error .runtime) := by
  have hnq : (n : ℚ) ≠ 0 := by exact_mod_cast hn.ne'
  obtain ⟨q, hq, hqs, hqg⟩ := map2_ok (fun a b : ℚ => a / b) (x := s.oneCnt) (y := s.cycle) (bc_left (by rw [hc]; exact h1))
  have hqg' : ∀ i, q.get i = s.oneCnt.get i / n := fun i => by rw [hqg i, hc]; rfl
  unfold PET.forward
  rw [if_neg (show ¬ s.cycle.at' [0] = 0 by rw [hc]; exact hnq)]
  change map2 (· / ·) s.oneCnt s.cycle = _ at hq
  rw [hq]
  cases hm : s.mode with
  | unipolar =>
    constructor
    · intro v hv
      obtain ⟨e, he, hes, heg⟩ := map2_ok (fun a b : ℚ => a - b) (x := q) (y := s.source) (u := v) (by rw [hqs]; exact hv)
      change map2 (· - ·) q s.source = _ at he
      refine ⟨q, e, ?_, hqs, hes, fun i => ⟨hqg' i, by rw [heg i, hqg' i]⟩⟩
      show (map2 (· - ·) q s.source >>= fun pe => pure (q, pe)) = _
      rw [he]; rfl
    · intro hv
      show (map2 (· - ·) q s.source >>= fun pe => pure (q, pe)) = _
      rw [map2_err _ (by rw [hqs]; exact hv)]; rfl
  | bipolar =>
    constructor
    · intro v hv
      obtain ⟨e, he, hes, heg⟩ := map2_ok (fun a b : ℚ => a - b) (x := map1 (fun v : ℚ => v * 2 - 1) q) (y := s.source) (u := v) (by show bc q.shape _ = _; rw [hqs]; exact hv)
      change map2 (· - ·) (map1 (fun v : ℚ => v * 2 - 1) q) s.source = _ at he
      refine ⟨map1 (fun v : ℚ => v * 2 - 1) q, e, ?_, hqs, hes, fun i => ⟨by rw [get_map1, hqg' i], by rw [heg i, get_map1, hqg' i]⟩⟩
      show (map2 (· - ·) (map1 (fun v : ℚ => v * 2 - 1) q) s.source >>= fun pe => pure (map1 (fun v : ℚ => v * 2 - 1) q, pe)) = _
      rw [he]; rfl
    · intro hv
      show (map2 (· - ·) (map1 (fun v : ℚ => v * 2 - 1) q) s.source >>= fun pe => pure (map1 (fun v : ℚ => v * 2 - 1) q, pe)) = _
      rw [map2_err _ (by show bc q.shape _ = _; rw [hqs]; exact hv)]; rfl

/-- C16 on tensors.  `n` observations of any shapes that can be stretched to one shape are accepted, others raise.  The progressive value has the
smallest such shape, the error the smallest one for the source as well; each of their elements is what the definition gives for the elements of the
observations that are stretched to it.  If the source does not fit, the report raises. -/
theorem C16_shape (source : Tensor ℚ) (scale : ℚ) (m : Mode) (mode : String) (s0 : PET) (hm : parseMode mode = .ok m) (hs : scale ≠ 0)
    (hi : peInitT source scale mode = .ok s0) (x : ℕ → Tensor ℚ) (n : ℕ) (hn : 0 < n) :
    (∀ u v, Spec.Smallest (Spec.shapesSeen (fun x : Tensor ℚ => [x.shape]) x n) u →
      Spec.Smallest (insert source.shape (Spec.shapesSeen (fun x : Tensor ℚ => [x.shape]) x n)) v →
      ∃ (s : PET) (pp pe : Tensor ℚ), stateAtE PET.monitor s0 x n = .ok s ∧ s.forward = .ok (pp, pe) ∧ pp.shape = u ∧ pe.shape = v ∧
        ∀ i, pp.get i = Spec.progErr m 0 (fun k => (x k).get i) n ∧
          pe.get i = Spec.progErr m (max (-1) (min (source.get i / scale) 1)) (fun k => (x k).get i) n) ∧
    ((∃ u, Spec.Smallest (Spec.shapesSeen (fun x : Tensor ℚ => [x.shape]) x n) u) →
      (¬ ∃ v, Spec.Smallest (insert source.shape (Spec.shapesSeen (fun x : Tensor ℚ => [x.shape]) x n)) v) →
      ∃ s e, stateAtE PET.monitor s0 x n = .ok s ∧ s.forward = .error e) ∧
    ((¬ ∃ u, Spec.Smallest (Spec.shapesSeen (fun x : Tensor ℚ => [x.shape]) x n) u) → ∃ e, stateAtE PET.monitor s0 x n = .error e) := by
  have h0 : s0 = ⟨m, map1 (fun v => clamp (-1) 1 (v / scale)) source, one 0, one 0⟩ := by
    unfold peInitT at hi
    rw [hm] at hi
    change (if scale = 0 then _ else _) = _ at hi
    rw [if_neg hs] at hi
    exact (Except.ok.inj hi).symm
  obtain ⟨k1, k2⟩ := pe_lifts.state (s0 := s0) (a := 0) (by rw [h0]; rfl) (fun i => by rw [h0]; rfl) x (fun _ => trivial) n
  refine ⟨?_, ?_, k2⟩
  · intro u v hu hv
    obtain ⟨s, hs1, hs2, hs3⟩ := k1 u hu
    obtain ⟨b1, b2, b3⟩ := pe_rest (by rw [h0]) hs1
    have hbc : bc s.oneCnt.shape s.source.shape = some v := by
      have := (join_insert hu).mp hv
      rw [hs2, b2, h0]
      have hb := bc_some this
      exact bc_eq hb.2.1 hb.1 fun w h1 h2 => hb.2.2 w h2 h1
    obtain ⟨pp, pe, hf, hp1, hp2, hp3⟩ := (pe_forward hn b3 (by rw [hs2]; exact hu.1 _ (Or.inl rfl))).1 v hbc
    refine ⟨s, pp, pe, hs1, hf, hp1.trans hs2, hp2, fun i => ?_⟩
    obtain ⟨g1, g2⟩ := hp3 i
    have hsum : s.oneCnt.get i = ∑ t ∈ Finset.range n, (x t).get i := by rw [← pe_sum]; exact hs3 i
    have hsrc : s.source.get i = max (-1) (min (source.get i / scale) 1) := by rw [b2, h0, ← clamp_unit]; rfl
    have hmode : s.mode = m := by rw [b1, h0]
    rw [g2, g1, hsrc, hsum, hmode]
    cases m
    · constructor <;> simp only [Spec.progErr, sub_zero]
    · simp only [Spec.progErr, sub_zero]; rw [mul_comm 2]; exact ⟨rfl, rfl⟩
  · rintro ⟨u, hu⟩ hv
    obtain ⟨s, hs1, hs2, _⟩ := k1 u hu
    obtain ⟨_, b2, b3⟩ := pe_rest (by rw [h0]) hs1
    refine ⟨s, .runtime, hs1, (pe_forward hn b3 (by rw [hs2]; exact hu.1 _ (Or.inl rfl))).2 ?_⟩
    cases hb : bc s.oneCnt.shape s.source.shape with
    | none => rfl
    | some v =>
      refine absurd ⟨v, (join_insert hu).mpr ?_⟩ hv
      rw [hs2, b2, h0] at hb
      have hb := bc_some hb
      exact bc_eq hb.2.1 hb.1 fun w h1 h2 => hb.2.2 w h2 h1

example : ∃ s0 : PET, peInitT ⟨[2], fun _ => 1/2⟩ 1 "Bipolar" = .ok s0 ∧
    Spec.Smallest (Spec.shapesSeen (fun x : Tensor ℚ => [x.shape]) (fun _ => ⟨[1, 3], fun _ => 1⟩) 1) [1, 3] ∧
    Spec.Smallest (insert [2] (Spec.shapesSeen (fun x : Tensor ℚ => [x.shape]) (fun _ => ⟨[1, 3], fun _ => 1⟩) 1)) [2, 3] := by
  have h : parseMode "Bipolar" = .ok .bipolar := by
    unfold parseMode
    rw [if_neg (by decide +kernel), if_pos (by decide +kernel)]
  have hj : Spec.Smallest (Spec.shapesSeen (fun x : Tensor ℚ => [x.shape]) (fun _ => ⟨[1, 3], fun _ => 1⟩) 1) [1, 3] :=
    (join_seen_succ (join_seen_zero _ _)).mpr (join_two.mpr rfl)
  exact ⟨⟨.bipolar, map1 (fun v => clamp (-1) 1 (v / 1)) ⟨[2], fun _ => 1/2⟩, one 0, one 0⟩, by unfold peInitT; rw [h]; rfl, hj,
    (join_insert hj).mpr rfl⟩

/-! ### Stability -/

/-- What one observation does to an accepting `Stability`. -/
theorem stab_call {s : StabT} {x : Tensor ℚ} {n : ℕ} {w : List ℕ} (hc : s.progerr.cycle = one (n : ℚ)) (hw : s.cts.shape = w) (hs : s.progerr.source.shape = w)
    (h1 : Spec.Stretch [1] s.progerr.oneCnt.shape) (h2 : Spec.Stretch s.progerr.oneCnt.shape w) (hx : Spec.Stretch x.shape w) :
    ∃ s' : StabT, s.monitor x = .ok (s', ()) ∧ s'.threshold = s.threshold ∧ s'.progerr.mode = s.progerr.mode ∧ s'.progerr.source = s.progerr.source ∧
      s'.progerr.cycle = one ((n + 1 : ℕ) : ℚ) ∧ s'.cts.shape = w ∧ Spec.Stretch [1] s'.progerr.oneCnt.shape ∧ Spec.Stretch s'.progerr.oneCnt.shape w ∧
      ∀ i, s'.progerr.oneCnt.get i = s.progerr.oneCnt.get i + x.get i ∧
        s'.cts.get i = s.cts.get i + ind (|(match s.progerr.mode with
          | .unipolar => (s.progerr.oneCnt.get i + x.get i) / ((n + 1 : ℕ) : ℚ)
          | .bipolar => (s.progerr.oneCnt.get i + x.get i) / ((n + 1 : ℕ) : ℚ) * 2 - 1) - s.progerr.source.get i| > s.threshold) *
            (((n + 1 : ℕ) : ℚ) - s.cts.get i) := by
  obtain ⟨v, hv⟩ := bc_exists h2 hx
  have hb := bc_some hv
  obtain ⟨c, e1, e2, e3⟩ := map2_ok (fun a b : ℚ => a + b) hv
  change map2 (· + ·) s.progerr.oneCnt x = _ at e1
  have hvw : Spec.Stretch v w := hb.2.2 w h2 hx
  have hcyc : map1 (fun v : ℚ => v + 1) s.progerr.cycle = one ((n + 1 : ℕ) : ℚ) := by rw [hc]; push_cast; rfl
  obtain ⟨pp, pe, f1, f2, f3, f4⟩ := (pe_forward (s := { s.progerr with oneCnt := c, cycle := map1 (fun v : ℚ => v + 1) s.progerr.cycle }) (Nat.succ_pos n) hcyc
    (by show Spec.Stretch [1] c.shape; rw [e2]; exact fits_trans h1 hb.1)).1 w (by show bc c.shape s.progerr.source.shape = _; rw [e2, hs]; exact bc_right hvw)
  obtain ⟨d, d1, d2, d3⟩ := map2_ok (fun a b : ℚ => a - b) (x := map1 (fun v : ℚ => v + 1) s.progerr.cycle) (y := s.cts) (u := w)
    (by rw [hcyc, hw]; exact bc_right (fits_trans h1 h2))
  change map2 (· - ·) (map1 (fun v : ℚ => v + 1) s.progerr.cycle) s.cts = _ at d1
  obtain ⟨u, u1, u2, u3⟩ := map2In_ok (fun a b : ℚ => a * b) (x := map1 (fun v : ℚ => (ind (|v| > s.threshold) : ℚ)) pe) (y := d)
    (by show Spec.Stretch d.shape pe.shape; rw [d2, f3]; exact fits_refl w)
  change map2In (· * ·) (map1 (fun v : ℚ => (ind (|v| > s.threshold) : ℚ)) pe) d = _ at u1
  obtain ⟨t, t1, t2, t3⟩ := map2In_ok (fun a b : ℚ => a + b) (x := s.cts) (y := u) (by rw [u2, hw]; show Spec.Stretch pe.shape w; rw [f3]; exact fits_refl w)
  change map2In (· + ·) s.cts u = _ at t1
  refine ⟨{ s with cts := t, progerr := { s.progerr with oneCnt := c, cycle := map1 (fun v : ℚ => v + 1) s.progerr.cycle } }, ?_, rfl, rfl, rfl, hcyc, t2.trans hw,
    by show Spec.Stretch [1] c.shape; rw [e2]; exact fits_trans h1 hb.1, by show Spec.Stretch c.shape w; rw [e2]; exact hvw, fun i => ⟨e3 i, ?_⟩⟩
  · have hmon : s.progerr.monitor x = .ok ({ s.progerr with oneCnt := c, cycle := map1 (fun v : ℚ => v + 1) s.progerr.cycle }, ()) := by
      unfold PET.monitor; rw [e1]; rfl
    unfold StabT.monitor
    rw [hmon]
    show (PET.forward { s.progerr with oneCnt := c, cycle := map1 (fun v : ℚ => v + 1) s.progerr.cycle } >>= _) = _
    rw [f1]
    show (map2 (· - ·) (map1 (fun v : ℚ => v + 1) s.progerr.cycle) s.cts >>= _) = _
    rw [d1]
    show (map2In (· * ·) (map1 (fun v : ℚ => (ind (|v| > s.threshold) : ℚ)) pe) d >>= _) = _
    rw [u1]
    show (map2In (· + ·) s.cts u >>= _) = _
    rw [t1]; rfl
  · show t.get i = _
    rw [t3 i, u3 i, d3 i, get_map1, (f4 i).2, hcyc, get_one]
    show _ + ind (|(match s.progerr.mode with | .unipolar => c.get i / ((n + 1 : ℕ) : ℚ) | .bipolar => c.get i / ((n + 1 : ℕ) : ℚ) * 2 - 1) - s.progerr.source.get i| > s.threshold) * _ = _
    rw [e3 i]

theorem stab_refuse {s s' : StabT} {x : Tensor ℚ} {o : Unit} (h : s.monitor x = .ok (s', o)) :
    Spec.Stretch x.shape s.cts.shape ∧ Spec.Stretch s.progerr.oneCnt.shape s.cts.shape ∧ s'.cts.shape = s.cts.shape := by
  unfold StabT.monitor at h
  obtain ⟨⟨p, o1⟩, h1, h⟩ := bind_ok h
  obtain ⟨⟨pp, pe⟩, h2, h⟩ := bind_ok h
  obtain ⟨d, h3, h⟩ := bind_ok h
  obtain ⟨u, h4, h⟩ := bind_ok h
  obtain ⟨t, h5, h⟩ := bind_ok h
  have e := (Prod.mk.inj (Except.ok.inj h)).1
  subst e
  unfold PET.monitor at h1
  obtain ⟨c, hc, h1⟩ := bind_ok h1
  have e1 := (Prod.mk.inj (Except.ok.inj h1)).1
  subst e1
  have b1 := bc_some (map2_shape hc)
  unfold PET.forward at h2
  split_ifs at h2 with hz
  obtain ⟨q, hq, h2⟩ := bind_ok h2
  obtain ⟨r, hr, h2⟩ := bind_ok h2
  obtain ⟨e2, e3⟩ := Prod.mk.inj (Except.ok.inj h2)
  subst e3
  have b2 := bc_some (map2_shape hq)
  have b3 := bc_some (map2_shape hr)
  have b4 : Spec.Stretch q.shape r.shape := by
    cases hm : s.progerr.mode with
    | unipolar => simp only [hm] at b3; exact b3.1
    | bipolar => simp only [hm] at b3; exact b3.1
  obtain ⟨b5, -⟩ := map2In_shape h4
  obtain ⟨b6, b7⟩ := map2In_shape h5
  rw [b5] at b7
  have b8 : Spec.Stretch c.shape s.cts.shape := fits_trans b2.1 (fits_trans b4 b7)
  exact ⟨fits_trans b1.2.1 b8, fits_trans b1.1 b8, b6⟩

/-- C17 on tensors.  A `Stability` accepts exactly observations that can be stretched to the shape of its source, and none if the source is a scalar.  The
report has the shape of the source; each element is what the definition gives for the elements of the observations that are stretched to it. -/
theorem C17_shape (source : Tensor ℚ) (scale thr : ℚ) (m : Mode) (mode : String) (s0 : StabT) (hm : parseMode mode = .ok m) (hs : scale ≠ 0)
    (hi : stabInitT source scale mode thr = .ok s0) (x : ℕ → Tensor ℚ) (n : ℕ) (hn : 0 < n) :
    (source.shape ≠ [] → (∀ k < n, Spec.Stretch (x k).shape source.shape) → ∃ (s : StabT) (r : Tensor ℚ), stateAtE StabT.monitor s0 x n = .ok s ∧
      s.forward = .ok r ∧ r.shape = source.shape ∧
      ∀ i, r.get i = 1 - (max 1 (Spec.lastUnstable m (max (-1) (min (source.get i / scale) 1)) thr (fun k => (x k).get i) n) : ℕ) / n) ∧
    ((source.shape = [] ∨ ∃ k < n, ¬ Spec.Stretch (x k).shape source.shape) → ∃ e, stateAtE StabT.monitor s0 x n = .error e) := by
  have h0 : s0 = ⟨thr, map1 (fun _ => 0) source, ⟨m, map1 (fun v => clamp (-1) 1 (v / scale)) source, one 0, one 0⟩⟩ := by
    unfold stabInitT peInitT at hi
    rw [hm] at hi
    change ((if scale = 0 then _ else _) >>= _) = _ at hi
    rw [if_neg hs] at hi
    exact (Except.ok.inj hi).symm
  constructor
  · intro hw hx
    have lane0 : ∀ i, Metric.Stab.init (source.get i) scale mode thr = .ok ⟨thr, 0, ⟨m, clamp (-1) 1 (source.get i / scale), 0, 0, 0, 0⟩⟩ := by
      intro i
      simp [Metric.Stab.init, Metric.PE.init, hm, Metric.scaledSource, hs]; rfl
    have inv : ∀ k, k ≤ n → ∃ s, stateAtE StabT.monitor s0 x k = .ok s ∧ s.threshold = thr ∧ s.progerr.mode = m ∧
        s.progerr.source = map1 (fun v => clamp (-1) 1 (v / scale)) source ∧
        s.progerr.cycle = one (k : ℚ) ∧ s.cts.shape = source.shape ∧ Spec.Stretch [1] s.progerr.oneCnt.shape ∧ Spec.Stretch s.progerr.oneCnt.shape source.shape ∧
        ∀ i, ∃ st, stabRun ⟨thr, 0, ⟨m, clamp (-1) 1 (source.get i / scale), 0, 0, 0, 0⟩⟩ (fun k => (x k).get i) k = .ok st ∧ st.threshold = thr ∧ st.progerr.mode = m ∧
          st.progerr.source = clamp (-1) 1 (source.get i / scale) ∧ st.progerr.cycle = k ∧ st.progerr.oneCnt = s.progerr.oneCnt.get i ∧ st.cts = s.cts.get i := by
      intro k
      induction k with
      | zero =>
        intro _
        refine ⟨s0, rfl, by rw [h0], by rw [h0], by rw [h0], by rw [h0]; simp, by rw [h0]; rfl, by rw [h0]; exact fits_refl _, by rw [h0]; exact fits_one hw, fun i => ?_⟩
        exact ⟨_, rfl, rfl, rfl, rfl, by simp, by rw [h0]; rfl, by rw [h0]; rfl⟩
      | succ k ih =>
        intro hk
        obtain ⟨s, a1, a2, a3, a4, a5, a6, a7, a8, a9⟩ := ih (by omega)
        obtain ⟨s', b1, b2, b3, b4, b5, b6, b7, b8, b9⟩ := stab_call a5 a6 (by rw [a4]; rfl) a7 a8 (hx k (by omega))
        refine ⟨s', stateAtE_succ_ok a1 b1, b2.trans a2, b3.trans a3, b4.trans a4, b5, b6, b7, b8, fun i => ?_⟩
        obtain ⟨st, c1, c2, c3, c4, c5, c6, c7⟩ := a9 i
        obtain ⟨g1, g2⟩ := b9 i
        have hne : (k:ℚ) + 1 ≠ 0 := by positivity
        have hmon : ∃ st', st.monitor ((x k).get i) = .ok st' ∧ st'.threshold = thr ∧ st'.progerr.mode = m ∧ st'.progerr.source = clamp (-1) 1 (source.get i / scale) ∧
            st'.progerr.cycle = ((k + 1 : ℕ) : ℚ) ∧ st'.progerr.oneCnt = s'.progerr.oneCnt.get i ∧ st'.cts = s'.cts.get i := by
          unfold Metric.Stab.monitor
          simp only [Metric.PE.monitor, Metric.PE.forward, c5]
          rw [if_neg hne]
          refine ⟨_, rfl, c2, c3, c4, by push_cast; rfl, by rw [g1, ← c6], ?_⟩
          rw [g2, c7, c3, c4, c6, c2, a3, a2, a4, get_map1]
          push_cast
          cases m <;> rfl
        obtain ⟨st', e1, e2⟩ := hmon
        refine ⟨st', ?_, e2⟩
        show (stabRun _ (fun k => (x k).get i) k >>= fun r => r.monitor ((x k).get i)) = _
        rw [c1]; exact e1
    obtain ⟨s, a1, a2, a3, a4, a5, a6, a7, a8, a9⟩ := inv n (le_refl n)
    have hnq : (n:ℚ) ≠ 0 := by exact_mod_cast hn.ne'
    obtain ⟨r, r1, r2, r3⟩ := map2_ok (fun a b : ℚ => a / b) (x := map1 (clamp 1 (n:ℚ)) s.cts) (y := s.progerr.cycle) (u := source.shape)
      (by rw [a5]; show bc s.cts.shape [1] = _; rw [a6]; exact bc_left (fits_one hw))
    change map2 (· / ·) (map1 (clamp 1 (n:ℚ)) s.cts) s.progerr.cycle = _ at r1
    refine ⟨s, map1 (fun v : ℚ => 1 - v) r, a1, ?_, r2, fun i => ?_⟩
    · have hat : s.progerr.cycle.at' [0] = n := by rw [a5]; rfl
      unfold StabT.forward
      simp only [hat]
      rw [if_neg hnq, r1]; rfl
    · obtain ⟨st, c1, c2, c3, c4, c5, c6, c7⟩ := a9 i
      obtain ⟨st', d1, d2⟩ := C17_report (source.get i) scale thr m mode _ hm hs (lane0 i) (fun k => (x k).get i) n hn
      obtain rfl := Except.ok.inj (d1.symm.trans c1)
      rw [clamp_unit] at d2
      unfold Metric.Stab.forward at d2
      rw [c5, if_neg hnq] at d2
      rw [get_map1, r3 i, get_map1, ← Except.ok.inj d2, c7, a5]; rfl
  · intro h
    cases hr : stateAtE StabT.monitor s0 x n with
    | error e => exact ⟨e, rfl⟩
    | ok s =>
      exfalso
      have key : ∀ {k : ℕ} {s : StabT}, stateAtE StabT.monitor s0 x k = .ok s → s.cts.shape = source.shape ∧ (∀ j < k, Spec.Stretch (x j).shape source.shape) ∧
          (0 < k → source.shape ≠ []) := by
        intro k
        induction k with
        | zero => intro s hs; rw [← Except.ok.inj hs, h0]; exact ⟨rfl, fun j hj => absurd hj (by simp), fun h => absurd h (by simp)⟩
        | succ k ih =>
          intro s hs
          obtain ⟨s1, o, h1, h2⟩ := stateAtE_succ_inv hs
          obtain ⟨a1, a2, a3⟩ := ih h1
          obtain ⟨b1, b2, b3⟩ := stab_refuse h2
          rw [a1] at b1 b2 b3
          refine ⟨b3, fun j hj => ?_, fun _ => ?_⟩
          · rcases Nat.lt_succ_iff_lt_or_eq.mp hj with hj | rfl
            · exact a2 j hj
            · exact b1
          · rcases Nat.eq_zero_or_pos k with rfl | hk
            · intro he
              rw [← Except.ok.inj h1, h0, he] at b2
              exact b2
            · exact a3 hk
      obtain ⟨-, a2, a3⟩ := key hr
      rcases h with h | ⟨k, hk, h⟩
      · exact a3 hn h
      · exact h (a2 k hk)

example : ∃ s0 : StabT, stabInitT ⟨[2, 3], fun _ => 1/2⟩ 1 "Bipolar" (1/20) = .ok s0 ∧ Spec.Stretch [1, 3] [2, 3] ∧ ¬ Spec.Stretch [3] [2, 3] := by
  have h : parseMode "Bipolar" = .ok .bipolar := by
    unfold parseMode
    rw [if_neg (by decide +kernel), if_pos (by decide +kernel)]
  refine ⟨⟨1/20, map1 (fun _ => 0) ⟨[2, 3], fun _ => 1/2⟩, ⟨.bipolar, map1 (fun v => clamp (-1) 1 (v / 1)) ⟨[2, 3], fun _ => 1/2⟩, one 0, one 0⟩⟩, ?_,
    by simp [Spec.Stretch], by simp [Spec.Stretch]⟩
  have e : peInitT ⟨[2, 3], fun _ => 1/2⟩ 1 "Bipolar" = .ok ⟨.bipolar, map1 (fun v => clamp (-1) 1 (v / 1)) ⟨[2, 3], fun _ => 1/2⟩, one 0, one 0⟩ := by
    unfold peInitT; rw [h]; rfl
  unfold stabInitT
  rw [e]; rfl

end Verif.Props
