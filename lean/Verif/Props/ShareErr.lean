import Verif.Proofs.Share

/-!
# Results, arguments and state share no memory: progressive error and stability (C104)
-/

namespace Verif.Props

open Verif Verif.Share

namespace Spec

/-- The progressive error on values. -/
def progCall (s : Metric.PE) (m : Meth) (vs : List ℚ) : Metric.PE × List ℚ :=
  match m, vs with
  | .monitor, [x] => (s.monitor x, [])
  | .report, [] => match s.forward with
    | .ok (s, pp, pe) => (s, [pp, pe])
    | .error _ => (s, [])
  | _, _ => (s, [])

/-- The stability on values. -/
def stabCall (s : Metric.Stab) (m : Meth) (vs : List ℚ) : Metric.Stab × List ℚ :=
  match m, vs with
  | .monitor, [x] => match s.monitor x with
    | .ok s => (s, [])
    | .error _ => (s, [])
  | .report, [] => match s.forward with
    | .ok v => (s, [v])
    | .error _ => (s, [])
  | _, _ => (s, [])

end Spec

/-! ## The progressive error -/

private theorem watch_mem {ps : List ℕ} {h : Mem} (a : Sep ps h) {cycle ones x : ℕ} (hc : cycle ∈ ps)
    (ho : ones ∈ ps) (hne : cycle ≠ ones) :
    Kept ps h (progWatch cycle ones x h) [] ∧ Sep ps (progWatch cycle ones x h) ∧
    (progWatch cycle ones x h).val ones = h.val ones + h.val x ∧
    (progWatch cycle ones x h).val cycle = h.val cycle + 1 ∧
    ∀ q ∈ ps, q ≠ ones → q ≠ cycle → (progWatch cycle ones x h).val q = h.val q := by
  obtain ⟨k1, s1, v1, f1⟩ := sep_assign a ho (h.val ones + h.val x)
  obtain ⟨k2, s2, v2, f2⟩ := sep_write s1 hc
    (((h.one (h.val ones + h.val x)).1.setData ones h.next).val cycle + 1)
  refine ⟨kept_trans k1 k2, s2, ?_, ?_, fun q hq n1 n2 => ?_⟩
  · exact (f2 ones ho hne.symm).trans v1
  · exact v2.trans (by rw [f1 cycle hc hne])
  · exact (f2 q hq n2).trans (f1 q hq n1)

/-- The reported precision. -/
private def ppOf (mode : Mode) (ones cycle : ℚ) : ℚ :=
  match mode with
  | .bipolar => ones / cycle * 2 - 1
  | .unipolar => ones / cycle

private theorem report_mem {ps : List ℕ} {h : Mem} (a : Sep ps h) (mode : Mode) {src cycle ones pp pe : ℕ}
    (hs : src ∈ ps) (hpp : pp ∈ ps) (hpe : pe ∈ ps) (n1 : pe ≠ pp) (n2 : src ≠ pp) :
    Kept ps h (progReport mode src cycle ones pp pe h) [] ∧ Sep ps (progReport mode src cycle ones pp pe h) ∧
    (progReport mode src cycle ones pp pe h).val pp = ppOf mode (h.val ones) (h.val cycle) ∧
    (progReport mode src cycle ones pp pe h).val pe = ppOf mode (h.val ones) (h.val cycle) - h.val src ∧
    ∀ q ∈ ps, q ≠ pp → q ≠ pe → (progReport mode src cycle ones pp pe h).val q = h.val q := by
  obtain ⟨k1, s1, v1, f1⟩ := sep_assign a hpp (h.val ones / h.val cycle)
  cases mode with
  | unipolar =>
    obtain ⟨k2, s2, v2, f2⟩ := sep_assign s1 hpe
      (((h.one (h.val ones / h.val cycle)).1.setData pp h.next).val pp -
        ((h.one (h.val ones / h.val cycle)).1.setData pp h.next).val src)
    refine ⟨kept_trans k1 k2, s2, ?_, ?_, fun q hq m1 m2 => ?_⟩
    · exact (f2 pp hpp n1.symm).trans v1
    · refine v2.trans ?_
      rw [v1, f1 src hs n2]; rfl
    · exact (f2 q hq m2).trans (f1 q hq m1)
  | bipolar =>
    obtain ⟨k3, s3, v3, f3⟩ := sep_assign s1 hpp
      (((h.one (h.val ones / h.val cycle)).1.setData pp h.next).val pp * 2 - 1)
    generalize hg : ((((h.one (h.val ones / h.val cycle)).1.setData pp h.next).one
      (((h.one (h.val ones / h.val cycle)).1.setData pp h.next).val pp * 2 - 1)).1.setData pp
        ((h.one (h.val ones / h.val cycle)).1.setData pp h.next).next) = g at *
    obtain ⟨k2, s2, v2, f2⟩ := sep_assign s3 hpe (g.val pp - g.val src)
    have e : progReport .bipolar src cycle ones pp pe h = (g.one (g.val pp - g.val src)).1.setData pe g.next := by
      rw [← hg]; rfl
    rw [e]
    refine ⟨kept_trans (kept_trans k1 k3) k2, s2, ?_, ?_, fun q hq m1 m2 => ?_⟩
    · rw [f2 pp hpp n1.symm, v3, v1]; rfl
    · rw [v2, v3, v1, f3 src hs n2, f1 src hs n2]; rfl
    · rw [f2 q hq m2, f3 q hq m1, f1 q hq m1]

/-- What the parameters of the progressive error hold. -/
private def ErrVals (src cycle ones pp pe : ℕ) (h : Mem) (s : Metric.PE) : Prop :=
  h.val src = s.source ∧ h.val cycle = s.cycle ∧ h.val ones = s.oneCnt ∧ h.val pp = s.pp ∧ h.val pe = s.pe

private def HoldsErr (mode : Mode) (src cycle ones pp pe : ℕ) : Unit → Mem → Metric.PE → Prop := fun _ h s =>
  s.mode = mode ∧ ErrVals src cycle ones pp pe h s ∧ ([src, cycle, ones, pp, pe].map h.st).Nodup

private theorem forward_eq (s : Metric.PE) (hc : s.cycle ≠ 0) :
    s.forward = .ok ({ s with pp := ppOf s.mode s.oneCnt s.cycle, pe := ppOf s.mode s.oneCnt s.cycle - s.source },
      ppOf s.mode s.oneCnt s.cycle, ppOf s.mode s.oneCnt s.cycle - s.source) := by
  unfold Metric.PE.forward
  rw [if_neg hc]
  cases s.mode <;> rfl

private theorem progError_contract (mode : Mode) (src cycle ones pp pe : ℕ)
    (hnd : [src, cycle, ones, pp, pe].Nodup) :
    Contract (progError mode true src cycle ones pp pe) (fun q : ℚ => q) Spec.progCall
      (HoldsErr mode src cycle ones pp pe) := by
  simp only [List.nodup_cons, List.mem_cons, List.not_mem_nil, or_false, not_or, not_false_iff, List.nodup_nil,
    and_true] at hnd
  obtain ⟨⟨n1, n2, n3, n4⟩, ⟨n5, n6, n7⟩, ⟨n8, n9⟩, n10⟩ := hnd
  constructor
  · intro l h h' s hr h1 h2
    obtain ⟨f1, f2⟩ := sep_frame h1 h2
    obtain ⟨r0, ⟨r1, r2, r3, r4, r5⟩, r6⟩ := hr
    have f1' : ∀ p ∈ [src, cycle, ones, pp, pe], h'.val p = h.val p := f1
    have f2' : [src, cycle, ones, pp, pe].map h'.st = [src, cycle, ones, pp, pe].map h.st := f2
    refine ⟨r0, ⟨?_, ?_, ?_, ?_, ?_⟩, ?_⟩
    · rw [f1' src (by simp), r1]
    · rw [f1' cycle (by simp), r2]
    · rw [f1' ones (by simp), r3]
    · rw [f1' pp (by simp), r4]
    · rw [f1' pe (by simp), r5]
    · rw [f2']; exact r6
  · intro l h s m args vs hr hp ha hv
    have hlen : args.length = vs.length := by simpa using congrArg List.length hv
    obtain ⟨r0, ⟨r1, r2, r3, r4, r5⟩, r6⟩ := hr
    have sp : Sep [src, cycle, ones, pp, pe] h := ⟨r6, hp⟩
    cases m
    · rcases args with _ | ⟨x, _ | ⟨y, args⟩⟩ <;> rcases vs with _ | ⟨v, _ | ⟨w, vs⟩⟩ <;>
        simp only [List.length_nil, List.length_cons] at hlen <;> try omega
      · exact ⟨kept_refl hp, ⟨r0, ⟨r1, r2, r3, r4, r5⟩, r6⟩, rfl⟩
      · have hvx : h.val x = v := by simpa using hv
        obtain ⟨k, s1, v1, v2, f⟩ := watch_mem sp (cycle := cycle) (ones := ones) (x := x) (by simp) (by simp) n5
        refine ⟨k, ⟨r0, ⟨?_, ?_, ?_, ?_, ?_⟩, s1.dist⟩, rfl⟩
        · exact (f src (by simp) n2 n1).trans r1
        · exact v2.trans (by rw [r2]; rfl)
        · exact v1.trans (by rw [r3, hvx]; rfl)
        · exact (f pp (by simp) (Ne.symm n8) (Ne.symm n6)).trans r4
        · exact (f pe (by simp) (Ne.symm n9) (Ne.symm n7)).trans r5
      · exact ⟨kept_refl hp, ⟨r0, ⟨r1, r2, r3, r4, r5⟩, r6⟩, rfl⟩
    · rcases args with _ | ⟨x, args⟩ <;> rcases vs with _ | ⟨v, vs⟩ <;>
        simp only [List.length_nil, List.length_cons] at hlen <;> try omega
      · by_cases hc : h.val cycle = 0
        · have e : (progError mode true src cycle ones pp pe).call l h .report [] = ((), h, []) := if_pos hc
          have e2 : Spec.progCall s .report [] = (s, []) := by
            have : s.cycle = 0 := r2 ▸ hc
            simp [Spec.progCall, Metric.PE.forward, this]
          rw [e, e2]
          exact ⟨kept_refl hp, ⟨r0, ⟨r1, r2, r3, r4, r5⟩, r6⟩, rfl⟩
        · obtain ⟨k, s1, v1, v2, f⟩ := report_mem sp mode (src := src) (cycle := cycle) (ones := ones) (pp := pp)
            (pe := pe) (by simp) (by simp) (by simp) (Ne.symm n10) n3
          generalize hg : progReport mode src cycle ones pp pe h = g at *
          obtain ⟨k2, s2, w2, f2⟩ := sep_one s1 (g.val pp)
          obtain ⟨k3, s3, w3, f3⟩ := sep_one s2 ((g.one (g.val pp)).1.val pe)
          have e : (progError mode true src cycle ones pp pe).call l h .report [] =
              ((), ((g.one (g.val pp)).1.one ((g.one (g.val pp)).1.val pe)).1, [g.next, (g.one (g.val pp)).1.next]) := by
            rw [← hg]; exact if_neg hc
          have e2 : Spec.progCall s .report [] =
              ({ s with pp := ppOf s.mode s.oneCnt s.cycle, pe := ppOf s.mode s.oneCnt s.cycle - s.source },
              [ppOf s.mode s.oneCnt s.cycle, ppOf s.mode s.oneCnt s.cycle - s.source]) := by
            simp only [Spec.progCall, forward_eq s (r2 ▸ hc)]
          rw [e, e2]
          have p2 := (kept_outside k3 (kept_new k2 s1.priv (List.mem_singleton.mpr rfl))).2
          have q2 : ∀ q ∈ [src, cycle, ones, pp, pe],
              ((g.one (g.val pp)).1.one ((g.one (g.val pp)).1.val pe)).1.val q = g.val q :=
            fun q hq => (f3 q hq).trans (f2 q hq)
          refine ⟨kept_trans k (kept_both k2 k3 s1.priv), ⟨r0, ⟨?_, ?_, ?_, ?_, ?_⟩, s3.dist⟩, ?_⟩
          · exact ((q2 src (by simp)).trans (f src (by simp) n3 n4)).trans r1
          · exact ((q2 cycle (by simp)).trans (f cycle (by simp) n6 n7)).trans r2
          · exact ((q2 ones (by simp)).trans (f ones (by simp) n8 n9)).trans r3
          · exact (q2 pp (by simp)).trans (v1.trans (by rw [r0, r2, r3]))
          · exact (q2 pe (by simp)).trans (v2.trans (by rw [r0, r1, r2, r3]))
          · have w3' := w3.trans ((f2 pe (by simp)).trans v2)
            have w2' := p2.trans (w2.trans v1)
            simp only [List.map_cons, List.map_nil]
            rw [w3', w2', r0, r1, r2, r3]
      · exact ⟨kept_refl hp, ⟨r0, ⟨r1, r2, r3, r4, r5⟩, r6⟩, rfl⟩

/-! ## Stability -/

private def HoldsStab (mode : Mode) (threshold : ℚ) (own cts src cycle ones pp pe : ℕ) :
    ℕ → Mem → Metric.Stab → Prop := fun l h s =>
  s.progerr.mode = mode ∧ s.threshold = threshold ∧ ErrVals src cycle ones pp pe h s.progerr ∧ h.val cts = s.cts ∧
  0 ≤ s.progerr.cycle ∧ (l = own ∧ h.val own = 0 ∧ s.progerr.cycle = 0 ∨ l = cycle) ∧
  ([own, cts, src, cycle, ones, pp, pe].map h.st).Nodup

/-- Line 135 of `metric/metric.py`. -/
private def stableStep (cts cycle : ℕ) (v : ℚ) (g : Mem) : Mem :=
  let b := (g.one v).1
  let c := (b.one (b.val cycle - b.val cts)).1
  let e := c.write g.next 0 (c.val g.next * c.val b.next)
  e.write cts 0 (e.val cts + e.val g.next)

private theorem stable_mem {ps : List ℕ} {g : Mem} (a : Sep ps g) {cts cycle : ℕ} (hc : cts ∈ ps) (hy : cycle ∈ ps)
    (v : ℚ) :
    Kept ps g (stableStep cts cycle v g) [] ∧ Sep ps (stableStep cts cycle v g) ∧
    (stableStep cts cycle v g).val cts = g.val cts + v * (g.val cycle - g.val cts) ∧
    ∀ q ∈ ps, q ≠ cts → (stableStep cts cycle v g).val q = g.val q := by
  obtain ⟨k1, s1, v1, f1⟩ := sep_one a v
  generalize hb : (g.one v).1 = b at k1 s1 v1 f1
  obtain ⟨k2, s2, v2, f2⟩ := sep_one s1 (b.val cycle - b.val cts)
  generalize hcc : (b.one (b.val cycle - b.val cts)).1 = c at k2 s2 v2 f2
  have o1 := kept_outside k2 (kept_new k1 a.priv (List.mem_singleton.mpr rfl))
  have k3 := kept_scratch (kept_both k1 k2 a.priv) (o := g.next) (by simp) (c.val g.next * c.val b.next)
  obtain ⟨s3, v3, f3, o3⟩ := sep_scratch s2 o1.1 (c.val g.next * c.val b.next)
  generalize he : c.write g.next 0 (c.val g.next * c.val b.next) = e at k3 s3 v3 f3 o3
  obtain ⟨k4, s4, v4, f4⟩ := sep_write s3 hc (e.val cts + e.val g.next)
  have ee : stableStep cts cycle v g = e.write cts 0 (e.val cts + e.val g.next) := by
    rw [← he, ← hcc, ← hb]; rfl
  rw [ee]
  refine ⟨kept_trans (kept_drop k3) k4, s4, ?_, fun q hq hn => ?_⟩
  · refine v4.trans ?_
    rw [v3, o1.2, v1, v2, f3 cts hc, f2 cts hc, f1 cts hc, f1 cycle hy]
  · exact (f4 q hq hn).trans ((f3 q hq).trans ((f2 q hq).trans (f1 q hq)))

private theorem stability_contract (mode : Mode) (threshold : ℚ) (own cts src cycle ones pp pe : ℕ)
    (hnd : [own, cts, src, cycle, ones, pp, pe].Nodup) :
    Contract (stability mode threshold own cts src cycle ones pp pe) (fun q : ℚ => q) Spec.stabCall
      (HoldsStab mode threshold own cts src cycle ones pp pe) := by
  simp only [List.nodup_cons, List.mem_cons, List.not_mem_nil, or_false, not_or, not_false_iff, List.nodup_nil,
    and_true] at hnd
  obtain ⟨⟨m1, m2, m3, m4, m5, m6⟩, ⟨c1, c2, c3, c4, c5⟩, ⟨n1, n2, n3, n4⟩, ⟨n5, n6, n7⟩, ⟨n8, n9⟩, n10⟩ := hnd
  constructor
  · intro l h h' s hr h1 h2
    obtain ⟨f1, f2⟩ := sep_frame h1 h2
    obtain ⟨r0, rt, ⟨r1, r2, r3, r4, r5⟩, rc, rp, rl, r6⟩ := hr
    have f1' : ∀ p ∈ [own, cts, src, cycle, ones, pp, pe], h'.val p = h.val p := f1
    have f2' : [own, cts, src, cycle, ones, pp, pe].map h'.st = [own, cts, src, cycle, ones, pp, pe].map h.st := f2
    refine ⟨r0, rt, ⟨?_, ?_, ?_, ?_, ?_⟩, ?_, rp, ?_, ?_⟩
    · rw [f1' src (by simp), r1]
    · rw [f1' cycle (by simp), r2]
    · rw [f1' ones (by simp), r3]
    · rw [f1' pp (by simp), r4]
    · rw [f1' pe (by simp), r5]
    · rw [f1' cts (by simp), rc]
    · rw [f1' own (by simp)]; exact rl
    · rw [f2']; exact r6
  · intro l h s m args vs hr hp ha hv
    have hlen : args.length = vs.length := by simpa using congrArg List.length hv
    have hr0 := hr
    obtain ⟨r0, rt, ⟨r1, r2, r3, r4, r5⟩, rc, rp, rl, r6⟩ := hr
    have sp : Sep [own, cts, src, cycle, ones, pp, pe] h := ⟨r6, hp⟩
    cases m
    · rcases args with _ | ⟨x, _ | ⟨y, args⟩⟩ <;> rcases vs with _ | ⟨v, _ | ⟨w, vs⟩⟩ <;>
        simp only [List.length_nil, List.length_cons] at hlen <;> try omega
      · exact ⟨kept_refl hp, hr0, rfl⟩
      · have hvx : h.val x = v := by simpa using hv
        obtain ⟨k, s1, v1, v2, f⟩ := watch_mem sp (cycle := cycle) (ones := ones) (x := x) (by simp) (by simp) n5
        generalize hw : progWatch cycle ones x h = g1 at *
        obtain ⟨k', s1', v1', v2', f'⟩ := report_mem s1 mode (src := src) (cycle := cycle) (ones := ones) (pp := pp)
            (pe := pe) (by simp) (by simp) (by simp) (Ne.symm n10) n3
        generalize hg : progReport mode src cycle ones pp pe g1 = g at *
        obtain ⟨k'', s1'', v1'', f''⟩ := stable_mem s1' (cts := cts) (cycle := cycle) (by simp) (by simp)
          (ind (|g.val pe| > threshold))
        have hne : (s.progerr.monitor v).cycle ≠ 0 := by
          have : (s.progerr.monitor v).cycle = s.progerr.cycle + 1 := rfl
          rw [this]; linarith
        have es : Spec.stabCall s .monitor [v] = ({ s with
            cts := s.cts + ind (|ppOf s.progerr.mode (s.progerr.oneCnt + v) (s.progerr.cycle + 1) - s.progerr.source| >
              s.threshold) * (s.progerr.cycle + 1 - s.cts),
            progerr := { s.progerr.monitor v with
              pp := ppOf s.progerr.mode (s.progerr.oneCnt + v) (s.progerr.cycle + 1),
              pe := ppOf s.progerr.mode (s.progerr.oneCnt + v) (s.progerr.cycle + 1) - s.progerr.source } }, []) := by
          simp only [Spec.stabCall, Metric.Stab.monitor, forward_eq _ hne]
          rfl
        have em : (stability mode threshold own cts src cycle ones pp pe).call l h .monitor [x] =
            (cycle, stableStep cts cycle (ind (|g.val pe| > threshold)) g, []) := by
          rw [← hg, ← hw]; rfl
        rw [em, es]
        have gpp : g.val pp = ppOf s.progerr.mode (s.progerr.oneCnt + v) (s.progerr.cycle + 1) := by
          rw [v1', v1, v2, r0, r2, r3, hvx]
        have gpe : g.val pe =
            ppOf s.progerr.mode (s.progerr.oneCnt + v) (s.progerr.cycle + 1) - s.progerr.source := by
          rw [v2', v1, v2, f src (by simp) n2 n1, r0, r1, r2, r3, hvx]
        have gcy : g.val cycle = s.progerr.cycle + 1 := by
          rw [f' cycle (by simp) n6 n7, v2, r2]
        have gct : g.val cts = s.cts := by
          rw [f' cts (by simp) c4 c5, f cts (by simp) c3 c2, rc]
        refine ⟨kept_trans k (kept_trans k' k''), ⟨r0, rt, ⟨?_, ?_, ?_, ?_, ?_⟩, ?_, ?_, Or.inr rfl, s1''.dist⟩, rfl⟩
        · exact (f'' src (by simp) (Ne.symm c1)).trans
            ((f' src (by simp) n3 n4).trans ((f src (by simp) n2 n1).trans r1))
        · exact (f'' cycle (by simp) (Ne.symm c2)).trans gcy
        · refine (f'' ones (by simp) (Ne.symm c3)).trans ((f' ones (by simp) n8 n9).trans (v1.trans ?_))
          rw [r3, hvx]; rfl
        · exact (f'' pp (by simp) (Ne.symm c4)).trans gpp
        · exact (f'' pe (by simp) (Ne.symm c5)).trans gpe
        · refine v1''.trans ?_
          rw [gpe, gcy, gct, rt]
        · show 0 ≤ s.progerr.cycle + 1
          linarith
      · exact ⟨kept_refl hp, hr0, rfl⟩
    · rcases args with _ | ⟨x, args⟩ <;> rcases vs with _ | ⟨v, vs⟩ <;>
        simp only [List.length_nil, List.length_cons] at hlen <;> try omega
      · have hl : h.val l = s.progerr.cycle := by
          rcases rl with ⟨e1, e2, e3⟩ | e
          · rw [e1, e2, e3]
          · rw [e, r2]
        by_cases hc : h.val l = 0
        · have e : (stability mode threshold own cts src cycle ones pp pe).call l h .report [] = (l, h, []) := if_pos hc
          have e2 : Spec.stabCall s .report [] = (s, []) := by
            have : s.progerr.cycle = 0 := hl ▸ hc
            simp [Spec.stabCall, Metric.Stab.forward, this]
          rw [e, e2]
          exact ⟨kept_refl hp, hr0, rfl⟩
        · obtain ⟨k, s1, v1, f⟩ := sep_one sp (1 - clamp 1 (h.val l) (h.val cts) / h.val l)
          have e : (stability mode threshold own cts src cycle ones pp pe).call l h .report [] =
            (l, (h.one (1 - clamp 1 (h.val l) (h.val cts) / h.val l)).1, [h.next]) := if_neg hc
          have e2 : Spec.stabCall s .report [] = (s, [1 - clamp 1 (h.val l) (h.val cts) / h.val l]) := by
            have : s.progerr.cycle ≠ 0 := hl ▸ hc
            simp only [Spec.stabCall, Metric.Stab.forward, if_neg this, hl, rc]
          rw [e, e2]
          refine ⟨k, ⟨r0, rt, ⟨?_, ?_, ?_, ?_, ?_⟩, ?_, rp, ?_, s1.dist⟩, ?_⟩
          · exact (f src (by simp)).trans r1
          · exact (f cycle (by simp)).trans r2
          · exact (f ones (by simp)).trans r3
          · exact (f pp (by simp)).trans r4
          · exact (f pe (by simp)).trans r5
          · exact (f cts (by simp)).trans rc
          · rw [f own (by simp)]; exact rl
          · simp only [List.map_cons, List.map_nil, v1]
      · exact ⟨kept_refl hp, hr0, rfl⟩

/-! ## All executions -/

/-- What the value model starts with. -/
private theorem init_eq {source scale : ℚ} {mode : String} {s : Metric.PE} (hs : Metric.PE.init source scale mode = .ok s)
    (h0 : scale ≠ 0) : s = ⟨s.mode, clamp (-1) 1 (source / scale), 0, 0, 0, 0⟩ := by
  unfold Metric.PE.init Metric.scaledSource at hs
  rw [if_neg h0] at hs
  cases hm : parseMode mode with
  | error e => rw [hm] at hs; cases hs
  | ok m => rw [hm] at hs; cases hs; rfl

private theorem errMk_vals {h : Mem} {scale : ℚ} {source : ℕ} :
    let p := progErrorMk scale source h
    ErrVals p.2.1 p.2.2.1 p.2.2.2.1 p.2.2.2.2.1 p.2.2.2.2.2 p.1
      ⟨.unipolar, clamp (-1) 1 (h.val source / scale), 0, 0, 0, 0⟩ := by
  refine ⟨?_, ?_, ?_, ?_, ?_⟩ <;> made_tac

/-- `ProgError` whose reports the caller copies, constructed at any time for any tensor the caller holds. -/
theorem C104_progerror_copied {h : Mem} {held : List ℕ} {vs : List ℚ} {source : ℕ} {scale : ℚ} {mode : String}
    {s : Metric.PE} (hh : Apart h held) (hv : held.map h.val = vs)
    (h0 : scale ≠ 0) (hs : Metric.PE.init (h.val source) scale mode = .ok s) (ds : List (Deed Meth ℚ)) :
    World.read (progError s.mode true (h.next) (h.next + 1) (h.next + 2) (h.next + 3) (h.next + 4)) (fun q : ℚ => q)
        ⟨(), (progErrorMk scale source h).1, held⟩ ds =
      Verif.Spec.valueRead Spec.progCall (s, vs) ds := by
  have e := init_eq hs h0
  refine (good_run (progError_contract _ _ _ _ _ _ ?_) ds _ _ (good_start (vs := vs) (s := s) hh
    (hv.trans (List.map_id' _).symm)
    (kept_trans (kept_trans (kept_trans (kept_trans (kept_make h _) (kept_make _ _)) (kept_make _ _))
      (kept_make _ _)) (kept_make _ _)) ?_ ?_)).trans (List.map_id' _)
  · simp
  · show Fresh h _ [h.next, h.next + 1, h.next + 2, h.next + 3, h.next + 4]
    fresh_tac
  · refine ⟨rfl, ?_, ?_⟩
    · rw [e]
      exact errMk_vals
    · simp only [List.map_cons, List.map_nil]
      made_tac
      simp
      omega

/-- `Stability`, constructed at any time for any tensor the caller holds. -/
theorem C104_stability {h : Mem} {held : List ℕ} {vs : List ℚ} {source : ℕ} {scale threshold : ℚ} {mode : String}
    {s : Metric.Stab} (hh : Apart h held) (hv : held.map h.val = vs) (hsrc : source ∈ held)
    (h0 : scale ≠ 0) (hs : Metric.Stab.init (h.val source) scale mode threshold = .ok s) (ds : List (Deed Meth ℚ)) :
    World.read (stability s.progerr.mode threshold h.next (h.next + 1) (h.next + 2) (h.next + 3) (h.next + 4)
        (h.next + 5) (h.next + 6)) (fun q : ℚ => q) ⟨h.next, (stabilityMk scale source h).1, held⟩ ds =
      Verif.Spec.valueRead Spec.stabCall (s, vs) ds := by
  unfold Metric.Stab.init at hs
  cases hp : Metric.PE.init (h.val source) scale mode with
  | error e => rw [hp] at hs; cases hs
  | ok p =>
    rw [hp] at hs
    cases hs
    have e := init_eq hp h0
    have hsv : ((h.one 0).1.one 0).1.val source = h.val source := by
      have h1 := hh.1 source hsrc
      have h2 := h1.1
      have h3 := h1.2
      rw [one_val _ _ _ (by rw [one_next]; omega) (by rw [one_st _ _ _ h2, one_next]; omega), one_val _ _ _ h2 h3]
    refine (good_run (stability_contract _ threshold _ _ _ _ _ _ _ ?_) ds _ _ (good_start (vs := vs)
      (s := ⟨threshold, 0, p⟩) hh (hv.trans (List.map_id' _).symm)
      (kept_trans (kept_trans (kept_make h _) (kept_make _ _)) (kept_trans (kept_trans (kept_trans (kept_trans
        (kept_make _ _) (kept_make _ _)) (kept_make _ _)) (kept_make _ _)) (kept_make _ _))) ?_ ?_)).trans
      (List.map_id' _)
    · simp
    · show Fresh h _ [h.next, h.next + 1, h.next + 2, h.next + 3, h.next + 4, h.next + 5, h.next + 6]
      fresh_tac
    · refine ⟨rfl, rfl, ?_, ?_, ?_, Or.inl ⟨rfl, ?_, ?_⟩, ?_⟩
      · show ErrVals _ _ _ _ _ _ p
        rw [e, ← hsv]
        exact errMk_vals (h := ((h.one 0).1.one 0).1)
      · made_tac
      · show 0 ≤ p.cycle
        rw [e]
      · made_tac
      · show p.cycle = 0
        rw [e]
      · simp only [List.map_cons, List.map_nil]
        made_tac
        simp
        omega

/-- The hypotheses of the two theorems with a source of `1/2` that the caller holds. -/
example : Apart (Mem.empty.one (1 / 2)).1 [0] ∧ 0 ∈ [0] ∧
    (Metric.PE.init ((Mem.empty.one (1 / 2)).1.val 0) 2 "bipolar").toOption.map (·.source) = some (1 / 4) := by
  unfold Apart; decide +kernel

/-- A source of `1/2`, read by the caller after it has overwritten it; the reports do not change. -/
example : World.read (progError .unipolar true 1 2 3 4 5) (fun q : ℚ => q)
    ⟨(), (progErrorMk 1 0 (Mem.empty.one (1 / 2)).1).1, [0]⟩
    [.make 1, .call .monitor [1], .poke 0 9, .call .report [], .poke 1 0, .call .monitor [1], .call .report []] =
    [9, 0, 1, 1 / 2, 1 / 2, 0] := by
  decide +kernel

example : World.read (stability .unipolar (1 / 10) 1 2 3 4 5 6 7) (fun q : ℚ => q)
    ⟨1, (stabilityMk 1 0 (Mem.empty.one (1 / 2)).1).1, [0]⟩
    [.make 1, .call .monitor [1], .poke 0 9, .call .report [], .poke 1 0, .call .monitor [1], .call .report []] =
    [9, 0, 0, 1 / 2] := by
  decide +kernel

/-- Without the copies the first report changes when the second is made. -/
theorem C104_progerror_shared :
    World.read (progError .unipolar false 1 2 3 4 5) (fun q : ℚ => q)
      ⟨(), (progErrorMk 1 0 (Mem.empty.one (1 / 2)).1).1, [0]⟩
      [.make 1, .call .monitor [1], .call .report []] = [1 / 2, 1, 1, 1 / 2] ∧
    World.read (progError .unipolar false 1 2 3 4 5) (fun q : ℚ => q)
      ⟨(), (progErrorMk 1 0 (Mem.empty.one (1 / 2)).1).1, [0]⟩
      [.make 1, .call .monitor [1], .call .report [], .make 0, .call .monitor [4], .call .report []] =
      [1 / 2, 1, 1 / 2, 0, 0, 1 / 2, 0] := by
  decide +kernel

/-! ## `BinGen` and `BSGen` -/

/-- `BinGen` leaves every tensor of the caller alone, and its result shares no memory with any of them. -/
theorem C104_bingen {h : Mem} {held : List ℕ} {source : ℕ} (hh : Apart h held) (hsrc : source ∈ held) (mode : Mode)
    (width : ℕ) (same : Bool) :
    let r := binGen mode width same source h
    r.1.val r.2 = (Gen.binGenM mode width (h.val source) : ℚ) ∧ r.2 ∉ held ∧
    ∀ o ∈ held, r.1.val o = h.val o ∧
      (∀ v : ℚ, (r.1.write o 0 v).val r.2 = r.1.val r.2) ∧ ∀ v : ℚ, (r.1.write r.2 0 v).val o = r.1.val o := by
  have key : ∀ o, o < h.next → h.st o < h.next → (binGen mode width same source h).1.val o = h.val o ∧
      (binGen mode width same source h).1.st o = h.st o := fun o h1 h2 => by
    simp only [Mem.st] at h2
    cases mode <;> cases same <;>
      simp (disch := omega) only [binGen, Mem.one, Mem.new, Mem.typed, Mem.setData, Mem.st, Mem.val, Mem.get,
        Function.update_self, Function.update_of_ne, ne_eq, Bool.false_eq_true, ↓reduceIte, and_self]
  have h3 := hh.1 source hsrc
  have val : (binGen mode width same source h).1.val (binGen mode width same source h).2 =
      (Gen.binGenM mode width (h.val source) : ℚ) := by
    obtain ⟨h4, h5⟩ := h3
    simp only [Mem.st] at h5
    cases mode <;> cases same <;>
      simp (disch := omega) only [binGen, Gen.binGenM, Mem.one, Mem.new, Mem.typed, Mem.setData, Mem.st, Mem.val, Mem.get,
        Function.update_self, Function.update_of_ne, ne_eq, Bool.false_eq_true, ↓reduceIte, add_zero]
  have st : h.next ≤ (binGen mode width same source h).1.st (binGen mode width same source h).2 := by
    cases mode <;> cases same <;>
      simp (disch := omega) only [binGen, Mem.one, Mem.new, Mem.typed, Mem.setData, Mem.st, Mem.val, Mem.get,
        Function.update_self, Function.update_of_ne, ne_eq, Bool.false_eq_true, ↓reduceIte] <;> omega
  have e : (binGen mode width same source h).2 = h.next := rfl
  refine ⟨val, fun hm => ?_, fun o ho => ⟨(key o (hh.1 o ho).1 (hh.1 o ho).2).1, fun v => ?_, fun v => ?_⟩⟩
  · have := (hh.1 _ hm).1
    omega
  · refine write_val_ne _ _ _ _ ?_
    have := (hh.1 o ho).2
    rw [(key o (hh.1 o ho).1 (hh.1 o ho).2).2]; omega
  · refine write_val_ne _ _ _ _ ?_
    have := (hh.1 o ho).2
    rw [(key o (hh.1 o ho).1 (hh.1 o ho).2).2]; omega

example : Apart (Mem.empty.one (1 / 4)).1 [0] ∧ 0 ∈ [0] ∧
    (binGen .unipolar 3 true 0 (Mem.empty.one (1 / 4)).1).1.val 1 = 2 := by
  unfold Apart; decide +kernel

/-- `BSGen` keeps the tensors it was given and reads them at every call: what the caller writes into the
binary after construction decides the bits that follow, whatever the binary was before. -/
theorem C104_bsgen_shared (binary rng len : ℕ) (cycle : ℤ) (h : Mem) (hne : h.st rng ≠ h.st binary) (v : ℚ) :
    let r := bsGen binary rng len cycle (h.write binary 0 v)
    r.1.val r.2 = ind (v > h.get rng (cycle % len).toNat) := by
  have e : (h.write binary 0 v).get rng (cycle % len).toNat = h.get rng (cycle % len).toNat := by
    simp only [Mem.write, Mem.get]
    rw [Function.update_of_ne (by simpa only [Mem.st] using hne)]
  show ((h.write binary 0 v).one _).1.val (h.write binary 0 v).next = _
  rw [one_val_self, e, write_val_self]

/-- A binary of `3` against the numbers `0, 1, 2, 3`: the third bit is `1`, and `0` after the caller has written `1`
into its tensor. -/
example :
    let h := ((Mem.empty.one 3).1.new fun i => (i : ℚ)).1
    (bsGen 0 1 4 2 h).1.val 2 = 1 ∧ (bsGen 0 1 4 2 (h.write 0 0 1)).1.val 2 = 0 ∧ h.st 1 ≠ h.st 0 := by
  decide +kernel

end Verif.Props
