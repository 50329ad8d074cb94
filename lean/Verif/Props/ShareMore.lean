import Verif.Proofs.Share

/-!
# Results, arguments and state share no memory: shift register and metrics (C104)
-/

namespace Verif.Props

open Verif Verif.Share

namespace Spec

/-- A shift register on values; an index outside raises. -/
def regCall (cells : List ℤ) (index : ℕ) (vs : List ℤ) : List ℤ × List ℤ :=
  let r := fun (x : ℤ) (m : Option ℤ) => match Small.srStep cells (x, m, index) with
    | .ok (c, o, n) => (c, [o, n])
    | .error _ => (cells, [])
  match vs with
  | [x] => r x none
  | [x, m] => r x (some m)
  | _ => (cells, [])

/-- The correlation metric on values. -/
def corrCall (s : Metric.Corr) (m : Meth) (vs : List ℚ) : Metric.Corr × List ℚ :=
  match m, vs with
  | .monitor, [x, y] => (s.monitor x (some y), [])
  | .monitor, [x] => (s.monitor x none, [])
  | .report, [] => (s, [s.forward])
  | _, _ => (s, [])

end Spec

/-! ## The shift register -/

private theorem fillAll_eq (sr n : ℕ) (h : Mem) (hsr : sr < h.next) :
    (fillAll sr n h).next = h.next + n ∧ (∀ o, o < h.next → (fillAll sr n h).obj o = h.obj o) ∧
    (∀ c, c ≠ (h.obj sr).stor → (fillAll sr n h).cell c = h.cell c) ∧
    (∀ i, i < n → (fillAll sr n h).cell (h.obj sr).stor ((h.obj sr).off + i) = ((i % 2 : ℕ) : ℚ)) := by
  induction n with
  | zero => exact ⟨rfl, fun _ _ => rfl, fun _ _ => rfl, fun i hi => absurd hi (by omega)⟩
  | succ n ih =>
    obtain ⟨a, b, c, d⟩ := ih
    have hs := b sr hsr
    refine ⟨?_, ?_, ?_, ?_⟩
    · show (fillAll sr n h).next + 1 = _
      rw [a]; rfl
    · intro o ho
      show Function.update _ _ _ o = _
      rw [a, Function.update_of_ne (by omega), b o ho]
    · intro k hk
      simp only [fillAll, Mem.view, Mem.write, Function.update_self, hs]
      rw [Function.update_of_ne hk, c k hk]
    · intro i hi
      simp only [fillAll, Mem.view, Mem.write, Function.update_self, hs, add_zero]
      by_cases hin : i = n
      · subst hin; rw [Function.update_self]
      · rw [Function.update_of_ne (by omega), d i (by omega)]

/-- The register holds `cells`. -/
def RegMem (entry sr : ℕ) (cells : List ℤ) (h : Mem) : Prop :=
  cells.length = entry ∧ ∀ i, i < entry → h.get sr i = ((cells.getD i 0 : ℤ) : ℚ)

def HoldsReg (entry sr : ℕ) : Bool → Mem → List ℤ → Prop := fun first h cells =>
  RegMem entry sr cells h ∧ (first = true → cells = Small.srInit entry)

private theorem shiftRegFirst_mem (entry sr x : ℕ) (first : Bool) (h : Mem) (cells : List ℤ)
    (hp : ∀ p ∈ [sr], p < h.next ∧ h.st p < h.next) (hr : HoldsReg entry sr first h cells) :
    Kept [sr] h (shiftRegFirst entry sr first h x) [] ∧
    RegMem entry sr cells (shiftRegFirst entry sr first h x) := by
  obtain ⟨hr, hf⟩ := hr
  cases first
  · exact ⟨kept_refl hp, hr⟩
  · have hcells := hf rfl
    subst hcells
    simp only [shiftRegFirst, if_true]
    obtain ⟨a, b, c, d⟩ := fillAll_eq sr entry ((h.new fun _ => h.val x).1.setData sr (h.new fun _ => h.val x).2)
      (by have := (hp sr (by simp)).1; simp only [Mem.new, Mem.setData]; omega)
    generalize fillAll sr entry ((h.new fun _ => h.val x).1.setData sr (h.new fun _ => h.val x).2) = g at *
    have hsr : sr < h.next := (hp sr (by simp)).1
    simp only [Mem.new, Mem.setData, Function.update_self] at a b c d
    have bs : g.obj sr = ⟨h.next, 0⟩ := by
      rw [b sr (by omega), Function.update_self]
    refine ⟨⟨by omega, ?_, ?_, ?_, List.nodup_nil, by simp⟩, ⟨by simp [Small.srInit], ?_⟩⟩
    · intro o h1 h2
      have h2' : o ≠ sr := by simpa using h2
      rw [b o (by omega), Function.update_of_ne h2', Function.update_of_ne (by omega)]
    · intro k h1 _
      rw [c k (by omega), Function.update_of_ne (by omega)]
    · intro p h1
      have h1' : p = sr := by simpa using h1
      subst h1'
      simp only [Mem.st, bs]
      omega
    · intro i hi
      simp only [Mem.get, bs, zero_add]
      have := d i hi
      rw [zero_add] at this
      rw [this]
      simp [Small.srInit, List.getD_eq_getElem?_getD, hi]
      norm_cast

theorem sum_getD (cells : List ℤ) :
    ((List.range cells.length).map fun i => ((cells.getD i 0 : ℤ) : ℚ)).sum = ((cells.sum : ℤ) : ℚ) := by
  have : (List.range cells.length).map (fun i => ((cells.getD i 0 : ℤ) : ℚ)) = cells.map fun c : ℤ => (c : ℚ) := by
    refine List.ext_getElem (by simp) fun i h1 h2 => ?_
    have h3 : i < cells.length := by simpa using h2
    simp [List.getD_eq_getElem?_getD, h3]
  rw [this]
  clear this
  induction cells with
  | nil => simp
  | cons a l ih => rw [List.map_cons, List.sum_cons, List.sum_cons, ih]; push_cast; rfl

private theorem shifted_getD (cells : List ℤ) (v : ℤ) (i : ℕ) (hi : i < cells.length) :
    ((cells.rotate 1).set (cells.length - 1) v).getD i 0 =
      if i = cells.length - 1 then v else cells.getD ((i + 1) % cells.length) 0 := by
  rw [List.getD_eq_getElem?_getD, List.getElem?_set]
  by_cases h : cells.length - 1 = i
  · rw [if_pos h, if_pos h.symm, if_pos (by simpa [h] using hi)]; rfl
  · rw [if_neg h, if_neg (fun hh => h hh.symm), List.getElem?_rotate hi, List.getD_eq_getElem?_getD]

private theorem run_none (entry sr x index : ℕ) (h : Mem)
    (hp : ∀ p ∈ [sr], p < h.next ∧ h.st p < h.next) (hx : Outside [sr] h x) :
    Kept [sr] h (shiftRegRun entry sr index h x none).1 (shiftRegRun entry sr index h x none).2 ∧
    (∀ i, (shiftRegRun entry sr index h x none).1.get sr i =
      if i = entry - 1 then h.val x else h.get sr ((i + 1) % entry)) ∧
    (shiftRegRun entry sr index h x none).2.map (shiftRegRun entry sr index h x none).1.val =
      [h.get sr index, ((List.range entry).map (h.get sr)).sum] := by
  have hview : ((List.range entry).map ((h.view sr index).1.get sr)).sum =
      ((List.range entry).map (h.get sr)).sum := by
    refine congrArg List.sum (List.map_congr_left fun i _ => ?_)
    have := (hp sr (by simp)).1
    simp only [Mem.view, Mem.get]
    rw [Function.update_of_ne (by omega)]
  simp only [shiftRegRun]
  rw [hview]
  generalize ((List.range entry).map (h.get sr)).sum = S at *
  clear hview
  outside_tac
  mem_simp
  refine ⟨by kept_tac, ?_, trivial⟩
  intro i
  by_cases hi : i = entry - 1
  · subst hi; simp
  · rw [if_neg hi, Function.update_of_ne (by omega)]
    simp

private theorem run_some (entry sr x m index : ℕ) (h : Mem)
    (hp : ∀ p ∈ [sr], p < h.next ∧ h.st p < h.next) (hx : Outside [sr] h x) (hm : Outside [sr] h m) :
    Kept [sr] h (shiftRegRun entry sr index h x (some m)).1 (shiftRegRun entry sr index h x (some m)).2 ∧
    (∀ i, (shiftRegRun entry sr index h x (some m)).1.get sr i =
      h.val m * (if i = entry - 1 then h.val x else h.get sr ((i + 1) % entry)) +
        (1 - h.val m) * h.get sr i) ∧
    (shiftRegRun entry sr index h x (some m)).2.map (shiftRegRun entry sr index h x (some m)).1.val =
      [h.get sr index, ((List.range entry).map (h.get sr)).sum] := by
  have hview : ((List.range entry).map ((h.view sr index).1.get sr)).sum =
      ((List.range entry).map (h.get sr)).sum := by
    refine congrArg List.sum (List.map_congr_left fun i _ => ?_)
    have := (hp sr (by simp)).1
    simp only [Mem.view, Mem.get]
    rw [Function.update_of_ne (by omega)]
  simp only [shiftRegRun]
  rw [hview]
  generalize ((List.range entry).map (h.get sr)).sum = S at *
  clear hview
  outside_tac
  mem_simp
  refine ⟨by kept_tac, ?_, trivial⟩
  intro i
  by_cases hi : i = entry - 1
  · subst hi; simp
  · rw [if_neg hi, Function.update_of_ne (by omega)]
    simp

theorem shiftReg_contract (entry sr : ℕ) :
    Contract (shiftReg entry sr) (fun n : ℤ => (n : ℚ)) Spec.regCall (HoldsReg entry sr) := by
  constructor
  · intro l h h' s hr h1 h2
    have a := h1 sr (by simp [shiftReg])
    have b := h2 sr (by simp [shiftReg])
    simp only [HoldsReg, RegMem, Mem.get, Mem.st] at hr b ⊢
    rw [a, b]
    exact hr
  · intro first h cells index args vs hr hp ha hv
    have hlen : args.length = vs.length := by simpa using congrArg List.length hv
    have hmod : ∀ i, i < entry → (i + 1) % entry < entry := fun i h1 => Nat.mod_lt _ (by omega)
    have hsum : ∀ g : Mem, cells.length = entry → (∀ i, i < entry → g.get sr i = ((cells.getD i 0 : ℤ) : ℚ)) →
        ((List.range entry).map (g.get sr)).sum = ((cells.sum : ℤ) : ℚ) := by
      intro g h1 h2
      rw [← sum_getD, h1]
      exact congrArg List.sum (List.map_congr_left fun i h3 => h2 i (List.mem_range.mp h3))
    rcases args with _ | ⟨x, _ | ⟨m, _ | ⟨z, args⟩⟩⟩ <;> rcases vs with _ | ⟨v, _ | ⟨w, _ | ⟨u, vs⟩⟩⟩ <;>
      simp only [List.length_nil, List.length_cons] at hlen <;> try omega
    · exact ⟨kept_refl hp, hr, rfl⟩
    · have hx : Outside [sr] h x := ha x (by simp)
      have hvx : h.val x = v := by simpa using hv
      obtain ⟨k1, rl, rc⟩ := shiftRegFirst_mem entry sr x first h cells hp hr
      obtain ⟨x1, x1v⟩ := kept_outside k1 hx
      have p1 := kept_priv k1 hp
      by_cases hi : entry ≤ index
      · have e : (shiftReg entry sr).call first h index [x] = (false, shiftRegFirst entry sr first h x, []) :=
          if_pos hi
        have e2 : Spec.regCall cells index [v] = (cells, []) := by
          have : ¬ index < cells.length := by omega
          simp [Spec.regCall, Small.srStep, this]
        rw [e, e2]
        exact ⟨k1, ⟨⟨rl, rc⟩, fun hh => absurd hh (by simp)⟩, rfl⟩
      · have e : (shiftReg entry sr).call first h index [x] =
            (false, (shiftRegRun entry sr index (shiftRegFirst entry sr first h x) x none).1,
              (shiftRegRun entry sr index (shiftRegFirst entry sr first h x) x none).2) := if_neg hi
        have e2 : Spec.regCall cells index [v] =
            (Small.srShift cells v none, [cells.getD index 0, cells.sum]) := by
          have : index < cells.length := by omega
          simp [Spec.regCall, Small.srStep, this]
        obtain ⟨k2, r2, v2⟩ := run_none entry sr x index _ p1 x1
        rw [e, e2]
        refine ⟨kept_trans k1 k2, ⟨⟨by simp [Small.srShift, rl], fun i h1 => ?_⟩, fun hh => absurd hh (by simp)⟩, ?_⟩
        · show _ = ((((cells.rotate 1).set (cells.length - 1) v).getD i 0 : ℤ) : ℚ)
          rw [r2 i, shifted_getD cells v i (by omega), rl, x1v, hvx, rc _ (hmod i h1)]
          split_ifs <;> rfl
        · rw [v2, rc index (by omega), hsum _ rl rc]; rfl
    · have hx : Outside [sr] h x := ha x (by simp)
      have hm : Outside [sr] h m := ha m (by simp)
      have hvx : h.val x = v ∧ h.val m = w := by simpa using hv
      obtain ⟨k1, rl, rc⟩ := shiftRegFirst_mem entry sr x first h cells hp hr
      obtain ⟨x1, x1v⟩ := kept_outside k1 hx
      obtain ⟨m1, m1v⟩ := kept_outside k1 hm
      have p1 := kept_priv k1 hp
      by_cases hi : entry ≤ index
      · have e : (shiftReg entry sr).call first h index [x, m] = (false, shiftRegFirst entry sr first h x, []) :=
          if_pos hi
        have e2 : Spec.regCall cells index [v, w] = (cells, []) := by
          have : ¬ index < cells.length := by omega
          simp [Spec.regCall, Small.srStep, this]
        rw [e, e2]
        exact ⟨k1, ⟨⟨rl, rc⟩, fun hh => absurd hh (by simp)⟩, rfl⟩
      · have e : (shiftReg entry sr).call first h index [x, m] =
            (false, (shiftRegRun entry sr index (shiftRegFirst entry sr first h x) x (some m)).1,
              (shiftRegRun entry sr index (shiftRegFirst entry sr first h x) x (some m)).2) := if_neg hi
        have e2 : Spec.regCall cells index [v, w] =
            (Small.srShift cells v (some w), [cells.getD index 0, cells.sum]) := by
          have : index < cells.length := by omega
          simp [Spec.regCall, Small.srStep, this]
        obtain ⟨k2, r2, v2⟩ := run_some entry sr x m index _ p1 x1 m1
        rw [e, e2]
        refine ⟨kept_trans k1 k2, ⟨⟨by simp [Small.srShift, rl], fun i h1 => ?_⟩, fun hh => absurd hh (by simp)⟩, ?_⟩
        · show _ = (((List.zipWith (fun s n => w * s + (1 - w) * n)
            ((cells.rotate 1).set (cells.length - 1) v) cells).getD i 0 : ℤ) : ℚ)
          have hz : (List.zipWith (fun s n => w * s + (1 - w) * n)
              ((cells.rotate 1).set (cells.length - 1) v) cells).getD i 0 =
              w * ((cells.rotate 1).set (cells.length - 1) v).getD i 0 + (1 - w) * cells.getD i 0 := by
            simp only [List.getD_eq_getElem?_getD]
            rw [List.getElem?_eq_getElem (by simp; omega), List.getElem?_eq_getElem (by simp; omega),
              List.getElem?_eq_getElem (by omega)]
            simp
          rw [hz, r2 i, shifted_getD cells v i (by omega), rl, x1v, m1v, hvx.1, hvx.2, rc _ (hmod i h1), rc i h1]
          split_ifs <;> push_cast <;> rfl
        · rw [v2, rc index (by omega), hsum _ rl rc]; rfl
    · exact ⟨kept_refl hp, hr, rfl⟩

/-! ## Correlation -/

private def CorrMem (d c b a len in1d : ℕ) : Unit → Mem → Metric.Corr → Prop := fun _ h s =>
  (h.val d = s.d ∧ h.val c = s.c ∧ h.val b = s.b ∧ h.val a = s.a ∧ h.val len = s.len ∧ h.val in1d = s.in1d) ∧
  ([d, c, b, a, len, in1d].map h.st).Nodup

macro "nodup_tac" : tactic => `(tactic|
  simp only [List.map_cons, List.map_nil, List.nodup_cons, List.mem_cons, List.not_mem_nil, or_false, not_or,
    not_false_iff, List.nodup_nil, and_true] at *)

private theorem corr_watch (d c b a len in1d x y : ℕ) (h : Mem) (s : Metric.Corr)
    (hp : ∀ p ∈ [d, c, b, a, len, in1d], p < h.next ∧ h.st p < h.next)
    (hr : CorrMem d c b a len in1d () h s) (hx : Outside [d, c, b, a, len, in1d] h x)
    (hy : Outside [d, c, b, a, len, in1d] h y) :
    Kept [d, c, b, a, len, in1d] h ((correlation d c b a len in1d).call () h .monitor [x, y]).2.1 [] ∧
    CorrMem d c b a len in1d () ((correlation d c b a len in1d).call () h .monitor [x, y]).2.1
      (s.monitor (h.val x) (some (h.val y))) := by
  obtain ⟨⟨r1, r2, r3, r4, r5, r6⟩, r7⟩ := hr
  simp only [correlation, CorrMem, Metric.Corr.monitor] at *
  refine ⟨?_, ?_⟩
  · refine kept_trans ?_ (kept_write (by exact hp) (p := len) (by simp) _)
    refine kept_trans ?_ (kept_write (by exact hp) (p := a) (by simp) _)
    refine kept_trans ?_ (kept_write (by exact hp) (p := b) (by simp) _)
    refine kept_trans ?_ (kept_write (by exact hp) (p := c) (by simp) _)
    exact kept_write hp (p := d) (by simp) _
  · refine ⟨?_, r7⟩
    clear hx hy hp
    nodup_tac
    simp (disch := ((try simp only [write_st]); omega)) only [write_val_self, write_val_ne]
    simp only [r1, r2, r3, r4, r5, r6, and_self]

private theorem corr_one (d c b a len in1d : ℕ) (h : Mem) (s : Metric.Corr) (v : ℚ)
    (hp : ∀ p ∈ [d, c, b, a, len, in1d], p < h.next ∧ h.st p < h.next)
    (hr : CorrMem d c b a len in1d () h s) : CorrMem d c b a len in1d () (h.one v).1 s := by
  obtain ⟨k1, v1, f1⟩ := kept_one v hp
  obtain ⟨⟨r1, r2, r3, r4, r5, r6⟩, r7⟩ := hr
  refine ⟨⟨?_, ?_, ?_, ?_, ?_, ?_⟩, ?_⟩
  · rw [(f1 d (by simp)).1, r1]
  · rw [(f1 c (by simp)).1, r2]
  · rw [(f1 b (by simp)).1, r3]
  · rw [(f1 a (by simp)).1, r4]
  · rw [(f1 len (by simp)).1, r5]
  · rw [(f1 in1d (by simp)).1, r6]
  · rw [List.map_congr_left fun q hq => (f1 q hq).2]
    exact r7

private theorem corr_assign (d c b a len in1d : ℕ)
    (hne : d ≠ in1d ∧ c ≠ in1d ∧ b ≠ in1d ∧ a ≠ in1d ∧ len ≠ in1d) (h : Mem) (s : Metric.Corr) (v : ℚ)
    (hp : ∀ p ∈ [d, c, b, a, len, in1d], p < h.next ∧ h.st p < h.next)
    (hr : CorrMem d c b a len in1d () h s) :
    CorrMem d c b a len in1d () ((h.one v).1.setData in1d h.next) { s with in1d := v } := by
  obtain ⟨⟨r1, r2, r3, r4, r5, r6⟩, r7⟩ := hr
  obtain ⟨n1, n2, n3, n4, n5⟩ := hne
  have e : ∀ q ∈ [d, c, b, a, len, in1d], q ≠ in1d →
      ((h.one v).1.setData in1d h.next).val q = h.val q ∧ ((h.one v).1.setData in1d h.next).st q = h.st q :=
    fun q hq hn => ⟨assign_val_ne _ _ _ _ hn (hp q hq).1 (hp q hq).2, assign_st_ne _ _ _ _ hn (hp q hq).1⟩
  refine ⟨⟨?_, ?_, ?_, ?_, ?_, assign_val_self _ _ _⟩, ?_⟩
  · rw [(e d (by simp) n1).1, r1]
  · rw [(e c (by simp) n2).1, r2]
  · rw [(e b (by simp) n3).1, r3]
  · rw [(e a (by simp) n4).1, r4]
  · rw [(e len (by simp) n5).1, r5]
  · simp only [List.map_cons, List.map_nil]
    rw [(e d (by simp) n1).2, (e c (by simp) n2).2, (e b (by simp) n3).2, (e a (by simp) n4).2,
      (e len (by simp) n5).2, assign_st_self]
    have q1 := (hp d (by simp)).2
    have q2 := (hp c (by simp)).2
    have q3 := (hp b (by simp)).2
    have q4 := (hp a (by simp)).2
    have q5 := (hp len (by simp)).2
    clear e hp
    simp only [List.map_cons, List.map_nil, List.nodup_cons, List.mem_cons, List.not_mem_nil, or_false, not_or,
      not_false_iff, List.nodup_nil, and_true] at r7 ⊢
    omega

private theorem correlation_contract (d c b a len in1d : ℕ)
    (hne : d ≠ in1d ∧ c ≠ in1d ∧ b ≠ in1d ∧ a ≠ in1d ∧ len ≠ in1d) :
    Contract (correlation d c b a len in1d) (fun q : ℚ => q) Spec.corrCall (CorrMem d c b a len in1d) := by
  constructor
  · intro l h h' s hr h1 h2
    simp only [correlation, List.forall_mem_cons, List.not_mem_nil, false_imp_iff, implies_true, and_true] at h1 h2
    simp only [CorrMem, Mem.val, Mem.get, Mem.st, List.map_cons, List.map_nil] at hr h2 ⊢
    simp only [h1, h2]
    exact hr
  · intro l h s m args vs hr hp ha hv
    have hlen : args.length = vs.length := by simpa using congrArg List.length hv
    cases m
    · rcases args with _ | ⟨x, _ | ⟨y, _ | ⟨z, args⟩⟩⟩ <;> rcases vs with _ | ⟨v, _ | ⟨w, _ | ⟨u, vs⟩⟩⟩ <;>
        simp only [List.length_nil, List.length_cons] at hlen <;> try omega
      · exact ⟨kept_refl hp, hr, rfl⟩
      · have hvx : h.val x = v := by simpa using hv
        have hx : Outside [d, c, b, a, len, in1d] h x := ha x (by simp)
        -- the copy of the last input
        obtain ⟨k1, v1, f1⟩ := kept_one (h.val in1d) hp
        have p1 := kept_priv k1 hp
        have o1 := kept_new k1 hp (List.mem_singleton_self _)
        obtain ⟨x1, x1v⟩ := kept_outside k1 hx
        -- the copy of this input
        have k2 := kept_assign p1 (p := in1d) (by simp [correlation]) ((h.one (h.val in1d)).1.val x)
        have p2 := kept_priv k2 p1
        obtain ⟨x2, x2v⟩ := kept_outside k2 x1
        obtain ⟨o2, o2v⟩ := kept_outside k2 o1
        have r2 : CorrMem d c b a len in1d () (((h.one (h.val in1d)).1.one ((h.one (h.val in1d)).1.val x)).1.setData
            in1d (h.one (h.val in1d)).1.next) { s with in1d := v } := by
          rw [x1v, hvx]
          exact corr_assign d c b a len in1d hne _ s v p1 (corr_one d c b a len in1d h s _ hp hr)
        obtain ⟨k3, r3⟩ := corr_watch d c b a len in1d x h.next _ _ p2 r2 x2 o2
        refine ⟨kept_trans (kept_drop k1) (kept_trans k2 k3), ?_, rfl⟩
        have ex := x2v.trans (x1v.trans hvx)
        have eo := o2v.trans (v1.trans hr.1.2.2.2.2.2)
        rw [ex, eo] at r3
        exact r3
      · have hv' : h.val x = v ∧ h.val y = w := by simpa using hv
        obtain ⟨k, r⟩ := corr_watch d c b a len in1d x y h s hp hr (ha x (by simp)) (ha y (by simp))
        rw [hv'.1, hv'.2] at r
        exact ⟨k, r, rfl⟩
      · exact ⟨kept_refl hp, hr, rfl⟩
    · rcases args with _ | ⟨x, args⟩ <;> rcases vs with _ | ⟨v, vs⟩ <;>
        simp only [List.length_nil, List.length_cons] at hlen <;> try omega
      · obtain ⟨k1, v1, f1⟩ := kept_one (Metric.Corr.forward ⟨h.val d, h.val c, h.val b, h.val a, h.val len, h.val in1d⟩) hp
        refine ⟨k1, corr_one d c b a len in1d h s _ hp hr, ?_⟩
        · obtain ⟨⟨r1, r2, r3, r4, r5, r6⟩, r7⟩ := hr
          show [(h.one _).1.val h.next] = [s.forward]
          rw [v1, r1, r2, r3, r4, r5, r6]
      · exact ⟨kept_refl hp, hr, rfl⟩

/-! ## All executions -/

/-- `ShiftReg`, constructed at any time.  A call with an index outside the register raises. -/
theorem C104_shiftreg {h : Mem} {held : List ℕ} {vs : List ℤ} (entry : ℕ) (hh : Apart h held)
    (hv : held.map h.val = vs.map fun n : ℤ => (n : ℚ)) (ds : List (Deed ℕ ℤ)) :
    World.read (shiftReg entry (shiftRegMk h).2) (fun n : ℤ => (n : ℚ)) ⟨true, (shiftRegMk h).1, held⟩ ds =
      (Verif.Spec.valueRead Spec.regCall (Small.srInit entry, vs) ds).map fun n : ℤ => (n : ℚ) := by
  refine good_run (shiftReg_contract _ _) ds _ _ (good_start hh hv (kept_make h _) ?_ ?_)
  · show Fresh h _ [h.next]
    fresh_tac
  · refine ⟨⟨by simp [Small.srInit], fun i hi => ?_⟩, fun _ => rfl⟩
    show (h.new fun i => ((i % 2 : ℕ) : ℚ)).1.get h.next i = _
    simp [Mem.new, Mem.get, Small.srInit, hi]
    norm_cast

/-- The register of three entries: the first result, read after it was shifted out, is still the `0` it was,
though the caller has overwritten its input. -/
example : World.read (shiftReg 3 (shiftRegMk .empty).2) (fun n : ℤ => (n : ℚ)) ⟨true, (shiftRegMk .empty).1, []⟩
    [.make 1, .call 0 [0], .poke 0 0, .call 0 [0], .poke 1 5, .call 1 [0]] = [0, 5, 1, 1, 2, 1, 1] := by
  decide +kernel

/-- `Correlation`, constructed at any time. -/
theorem C104_correlation {h : Mem} {held : List ℕ} {vs : List ℚ} (hh : Apart h held) (hv : held.map h.val = vs)
    (ds : List (Deed Meth ℚ)) :
    World.read (correlation h.next (h.next + 1) (h.next + 2) (h.next + 3) (h.next + 4) (h.next + 5))
        (fun q : ℚ => q) ⟨(), correlationMk h, held⟩ ds =
      Verif.Spec.valueRead Spec.corrCall (Metric.Corr.init, vs) ds := by
  refine (good_run (correlation_contract _ _ _ _ _ _ ?_) ds _ _ (good_start (vs := vs) (s := Metric.Corr.init) hh
    (hv.trans (List.map_id' _).symm)
    (kept_trans (kept_trans (kept_trans (kept_trans (kept_trans (kept_make h _) (kept_make _ _)) (kept_make _ _))
      (kept_make _ _)) (kept_make _ _)) (kept_make _ _)) ?_ ?_)).trans (List.map_id' _)
  · omega
  · show Fresh h _ [h.next, h.next + 1, h.next + 2, h.next + 3, h.next + 4, h.next + 5]
    fresh_tac
  · refine ⟨⟨?_, ?_, ?_, ?_, ?_, ?_⟩, ?_⟩
    all_goals first
      | (made_tac; rfl)
      | (simp only [List.map_cons, List.map_nil]; made_tac; simp; omega)

/-- One input compared with the previous one; the caller reuses one tensor for both. -/
example : World.read (correlation 0 1 2 3 4 5) (fun q : ℚ => q) ⟨(), correlationMk .empty, []⟩
    [.make 1, .call .monitor [0], .poke 0 0, .call .monitor [0], .poke 0 1, .call .monitor [0], .call .report []] =
    [1, -1] := by
  decide +kernel

end Verif.Props
