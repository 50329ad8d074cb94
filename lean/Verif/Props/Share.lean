import Verif.Proofs.Share

/-!
# Results, arguments and state share no memory (C104)
-/

namespace Verif.Props

open Verif Verif.Share

theorem bi2uni_contract (depth : ℤ) (same : Bool) (acc : ℕ) :
    Contract (bi2uni depth same acc) (fun n : ℤ => (n : ℚ))
      (Verif.Spec.onOne fun s _ x => let r := Shuffle.bi2uniStep depth s x; (r.1, [r.2])) (Holds acc) := by
  refine contract1 _ (holds_frame acc) (by arity_tac) ?_
  intro l h s t x v hr hp ho hv
  dsimp only [bi2uni] at *
  outside_tac
  subst hr
  cases same <;>
  · mem_simp
    refine ⟨by kept_tac, ?_, ?_⟩ <;> simp only [Shuffle.bi2uniStep, hv, ind_cast]

theorem uni2bi_contract (depth : ℤ) (same : Bool) (acc : ℕ) :
    Contract (uni2bi depth same acc) (fun n : ℤ => (n : ℚ))
      (Verif.Spec.onOne fun s _ x => let r := Shuffle.uni2biStep depth s x; (r.1, [r.2])) (Holds acc) := by
  refine contract1 _ (holds_frame acc) (by arity_tac) ?_
  intro l h s t x v hr hp ho hv
  dsimp only [uni2bi] at *
  outside_tac
  subst hr
  cases same <;>
  · mem_simp
    refine ⟨by kept_tac, ?_, ?_⟩ <;> simp only [Shuffle.uni2biStep, hv, ind_cast]

private theorem relu_contract (depth : ℤ) (same : Bool) (acc : ℕ) :
    Contract (relu depth same acc) (fun n : ℤ => (n : ℚ))
      (Verif.Spec.onOne fun s _ x => let r := Small.reluStep depth s x; (r.1, [r.2])) (Holds acc) := by
  refine contract1 _ (holds_frame acc) (by arity_tac) ?_
  intro l h s t x v hr hp ho hv
  dsimp only [relu] at *
  outside_tac
  subst hr
  cases same <;>
  · mem_simp
    refine ⟨by kept_tac, ?_, ?_⟩ <;> simp only [Small.reluStep, hv, truncZ_ind, truncZ_cast]

theorem signabs_contract (depth : ℤ) (same : Bool) (acc : ℕ) :
    Contract (signabs depth same acc) (fun n : ℤ => (n : ℚ))
      (Verif.Spec.onOne fun s _ x => let r := Small.signAbsStep depth s x; (r.1, [r.2.1, r.2.2])) (Holds acc) := by
  refine contract1 _ (holds_frame acc) (by arity_tac) ?_
  intro l h s t x v hr hp ho hv
  dsimp only [signabs] at *
  outside_tac
  subst hr
  cases same <;>
  · mem_simp
    refine ⟨by kept_tac, ?_, ?_⟩ <;> simp only [Small.signAbsStep, hv, truncZ_ind, truncZ_cast, ind_cast]

/-- The flip-flop holds its bit. -/
def HoldsInt (q : ℕ) : Unit → Mem → ℤ → Prop := fun _ h s => h.val q = (s : ℚ)

private theorem jkff_contract (q : ℕ) :
    Contract (jkff false q) (fun n : ℤ => (n : ℚ))
      (Verif.Spec.onTwo fun s _ j k => let r := Small.jkStep s ((j : ℚ), (k : ℚ)); (r.1, [r.2])) (HoldsInt q) := by
  refine contract2 _ (fun l h h' s => holds_frame q l h h' s) (by arity_tac) ?_
  intro l h s t x y v w hr hp ho ho' hv hw
  dsimp only [jkff, HoldsInt] at *
  outside_tac
  mem_simp
  refine ⟨by kept_tac, ?_, ?_⟩ <;> simp only [Small.jkStep, hv, hw, hr] <;> push_cast <;> rfl

/-! ## The synchroniser -/

/-- Counter `c`, limit `u`. -/
def SyncMem (upper cnt : ℕ) (u c : ℚ) (h : Mem) : Prop :=
  h.val cnt = c ∧ h.val upper = u ∧ h.st upper ≠ h.st cnt

def HoldsSync (depth upper cnt : ℕ) : List ℕ → Mem → Shuffle.SS → Prop := fun l h s =>
  l = s.shape ∧ SyncMem upper cnt (2 ^ depth - 1) s.cnt h

private theorem syncReset_mem (upper cnt : ℕ) (hne : upper ≠ cnt) (reset : Bool) (u c : ℚ) (h : Mem)
    (hp : ∀ p ∈ [upper, cnt], p < h.next ∧ h.st p < h.next) (hr : SyncMem upper cnt u c h) :
    Kept [upper, cnt] h (syncReset cnt reset h) [] ∧
    SyncMem upper cnt u (if reset then 0 else c) (syncReset cnt reset h) := by
  obtain ⟨hr1, hr2, hr3⟩ := hr
  cases reset
  · exact ⟨kept_refl hp, hr1, hr2, hr3⟩
  · simp only [syncReset, SyncMem] at *
    outside_tac
    mem_simp
    refine ⟨by kept_tac, trivial, hr2, by omega⟩

private theorem syncOut_mem (upper cnt : ℕ) (u c : ℚ) (x sum : ℕ) (h : Mem)
    (hp : ∀ p ∈ [upper, cnt], p < h.next ∧ h.st p < h.next) (hr : SyncMem upper cnt u c h)
    (hx : Outside [upper, cnt] h x) (hs : Outside [upper, cnt] h sum) :
    Kept [upper, cnt] h (syncOut upper cnt x sum h).1 [(syncOut upper cnt x sum h).2] ∧
    SyncMem upper cnt u c (syncOut upper cnt x sum h).1 ∧
    (syncOut upper cnt x sum h).1.val (syncOut upper cnt x sum h).2 =
      h.val x + ind (h.val sum = 1) * (ind (c ≠ 0) * (1 - h.val x) + (0 - ind (c ≠ u)) * h.val x) := by
  obtain ⟨hr1, hr2, hr3⟩ := hr
  simp only [syncOut, SyncMem] at *
  outside_tac
  mem_simp
  refine ⟨by kept_tac, ⟨hr1, hr2, hr3⟩, ?_⟩
  rw [hr1, hr2]

private theorem syncCount_mem (upper cnt : ℕ) (u c : ℚ) (x sum : ℕ) (h : Mem)
    (hp : ∀ p ∈ [upper, cnt], p < h.next ∧ h.st p < h.next) (hr : SyncMem upper cnt u c h)
    (hx : Outside [upper, cnt] h x) (hs : Outside [upper, cnt] h sum) :
    Kept [upper, cnt] h (syncCount upper cnt x sum h) [] ∧
    SyncMem upper cnt u (clamp 0 u (c + ind (h.val sum = 1) * (h.val x * 2 - 1)))
      (syncCount upper cnt x sum h) := by
  obtain ⟨hr1, hr2, hr3⟩ := hr
  simp only [syncCount, SyncMem] at *
  outside_tac
  mem_simp
  refine ⟨by kept_tac, ?_, hr2, hr3⟩
  rw [hr1, hr2]

private theorem sync_call (depth upper cnt : ℕ) (hne : upper ≠ cnt) (l t : List ℕ) (h : Mem) (s : Shuffle.SS)
    (x y : ℕ) (v w : ℤ) (hr : HoldsSync depth upper cnt l h s)
    (hp : ∀ p ∈ [upper, cnt], p < h.next ∧ h.st p < h.next) (hx : Outside [upper, cnt] h x)
    (hy : Outside [upper, cnt] h y) (hv : h.val x = v) (hw : h.val y = w) :
    ∃ h' o, (sync upper cnt).call l h t [x, y] = (t, h', [o, y]) ∧ Kept [upper, cnt] h h' [o] ∧
      HoldsSync depth upper cnt t h' (Shuffle.ssStep depth s (t, v, w)).1 ∧
      h'.val o = (Shuffle.ssStep depth s (t, v, w)).2.1 := by
  obtain ⟨hl, hr⟩ := hr
  obtain ⟨k1, v1, f1⟩ := kept_one ((v : ℚ) + w) hp
  have p1 := kept_priv k1 hp
  have r1 : SyncMem upper cnt (2 ^ depth - 1) s.cnt (h.one ((v : ℚ) + w)).1 := by
    refine ⟨?_, ?_, ?_⟩
    · rw [(f1 cnt (by simp)).1]; exact hr.1
    · rw [(f1 upper (by simp)).1]; exact hr.2.1
    · rw [(f1 cnt (by simp)).2, (f1 upper (by simp)).2]; exact hr.2.2
  have s1 := kept_new k1 hp (List.mem_singleton_self _)
  have x1 := kept_outside k1 hx
  obtain ⟨k2, r2⟩ := syncReset_mem upper cnt hne (decide (l ≠ t)) _ _ _ p1 r1
  have p2 := kept_priv k2 p1
  have s2 := kept_outside k2 s1
  have x2 := kept_outside k2 x1.1
  obtain ⟨k3, r3, v3⟩ := syncOut_mem upper cnt _ _ x h.next _ p2 r2 x2.1 s2.1
  have p3 := kept_priv k3 p2
  have s3 := kept_outside k3 s2.1
  have x3 := kept_outside k3 x2.1
  obtain ⟨k4, r4⟩ := syncCount_mem upper cnt _ _ x h.next _ p3 r3 x3.1 s3.1
  have ec : (sync upper cnt).call l h t [x, y] = (t, syncCount upper cnt x h.next
      (syncOut upper cnt x h.next (syncReset cnt (decide (l ≠ t)) (h.one ((v : ℚ) + w)).1)).1,
      [(syncOut upper cnt x h.next (syncReset cnt (decide (l ≠ t)) (h.one ((v : ℚ) + w)).1)).2, y]) := by
    rw [← hv, ← hw]; rfl
  refine ⟨_, _, ec, kept_trans (kept_drop k1) (kept_trans k2 (kept_later k3 k4 p2)), ⟨rfl, ?_⟩, ?_⟩
  · rw [s3.2, s2.2, v1, x3.2, x2.2, x1.2, hv] at r4
    have e : ((Shuffle.ssStep depth s (t, v, w)).1.cnt : ℚ) = clamp 0 (2 ^ depth - 1)
        ((if decide (l ≠ t) = true then 0 else (s.cnt : ℚ)) + ind ((v : ℚ) + w = 1) * ((v : ℚ) * 2 - 1)) := by
      simp only [Shuffle.ssStep, clamp_cast]
      by_cases hs : s.shape = t
      · have hs' : l = t := hl.trans hs
        simp [hs, hs', ind_sum]
      · have hs' : l ≠ t := fun hh => hs (hl.symm.trans hh)
        simp [hs, hs', ind_sum]
    rw [e]
    exact r4
  · rw [(kept_outside k4 (kept_new k3 p2 (List.mem_singleton_self _))).2, v3, s2.2, v1, x2.2, x1.2, hv]
    have hd : ∀ c : ℤ, (ind ((c : ℚ) ≠ 2 ^ depth - 1) : ℚ) = ((ind (c ≠ 2 ^ depth - 1) : ℤ) : ℚ) := fun c => by
      rw [ind_cast]
      exact ind_iff (not_congr (by constructor <;> intro hh <;> exact_mod_cast hh))
    have h0 : ∀ c : ℤ, (ind ((c : ℚ) ≠ 0) : ℚ) = ((ind (c ≠ 0) : ℤ) : ℚ) := fun c => by
      rw [ind_cast]
      exact ind_iff (not_congr (by constructor <;> intro hh <;> exact_mod_cast hh))
    have hc : (if decide (l ≠ t) = true then (0 : ℚ) else (s.cnt : ℚ)) =
        (((if s.shape ≠ t then 0 else s.cnt : ℤ)) : ℚ) := by
      by_cases hs : s.shape = t
      · have hs' : l = t := hl.trans hs
        simp [hs, hs']
      · have hs' : l ≠ t := fun hh => hs (hl.symm.trans hh)
        simp [hs, hs']
    rw [hc, hd, h0, ind_sum]
    simp only [Shuffle.ssStep]
    push_cast
    rfl

theorem sync_contract (depth upper cnt : ℕ) (hne : upper ≠ cnt) :
    Contract (firstOnly (sync upper cnt)) (fun n : ℤ => (n : ℚ))
      (Verif.Spec.onTwo fun s t x y => let r := Shuffle.ssStep depth s (t, x, y); (r.1, [r.2.1]))
      (HoldsSync depth upper cnt) := by
  refine contract2 _ ?_ ?_ ?_
  · intro l h h' s hr h1 h2
    have a := h1 cnt (by simp [firstOnly, sync])
    have b := h2 cnt (by simp [firstOnly, sync])
    have a' := h1 upper (by simp [firstOnly, sync])
    have b' := h2 upper (by simp [firstOnly, sync])
    simp only [HoldsSync, SyncMem, Mem.val, Mem.get, Mem.st] at hr b b' ⊢
    rw [a, b, a', b']
    exact hr
  · intro l h t args hl
    rcases args with _ | ⟨x, _ | ⟨y, _ | ⟨z, args⟩⟩⟩ <;> first
      | rfl
      | exact absurd rfl hl
  · intro l h s t x y v w hr hp ho ho' hv hw
    obtain ⟨h', o, e, k, r, va⟩ := sync_call depth upper cnt hne l t h s x y v w hr hp ho ho' hv hw
    have e' : (firstOnly (sync upper cnt)).call l h t [x, y] = (t, h', [o]) := by
      show (((sync upper cnt).call l h t [x, y]).1, _, _) = _
      rw [e]; rfl
    rw [e']
    exact ⟨k, r, by simp [va]⟩

/-! ## The adder -/

def HoldsAdder (carry off acc : ℕ) : Bool × Option ℚ → Mem → Adder.St → Prop := fun l h s =>
  l = (s.first, s.entry) ∧ h.val carry = s.scaleCarry ∧ h.val off = s.offset ∧ h.val acc = s.acc ∧
  h.st carry ≠ h.st off ∧ h.st carry ≠ h.st acc ∧ h.st off ≠ h.st acc

/-- Lines 75-88 of `kernel/add.py` with the entry and the scale already chosen. -/
private def setupMem (mode : Mode) (carry off : ℕ) (entry sc : ℚ) (h : Mem) : Mem :=
  match mode with
  | .bipolar =>
    (((h.write carry 0 sc).one ((entry - (h.write carry 0 sc).val carry) / 2)).1).setData off
      ((h.write carry 0 sc).one ((entry - (h.write carry 0 sc).val carry) / 2)).2
  | .unipolar => h.write carry 0 sc

/-- Carry scale, offset and accumulator, in three storages. -/
private def AdderMem (carry off acc : ℕ) (c o a : ℚ) (h : Mem) : Prop :=
  h.val carry = c ∧ h.val off = o ∧ h.val acc = a ∧
  h.st carry ≠ h.st off ∧ h.st carry ≠ h.st acc ∧ h.st off ≠ h.st acc

private theorem setupMem_mem (mode : Mode) (carry off acc : ℕ) (h12 : carry ≠ off) (h13 : carry ≠ acc)
    (h23 : off ≠ acc) (entry sc c o a : ℚ) (h : Mem)
    (hp : ∀ p ∈ [carry, off, acc], p < h.next ∧ h.st p < h.next) (hr : AdderMem carry off acc c o a h) :
    Kept [carry, off, acc] h (setupMem mode carry off entry sc h) [] ∧
    AdderMem carry off acc sc (match mode with | .bipolar => (entry - sc) / 2 | .unipolar => o) a
      (setupMem mode carry off entry sc h) := by
  obtain ⟨r1, r2, r3, r4, r5, r6⟩ := hr
  cases mode
  · simp only [setupMem, AdderMem] at *
    outside_tac
    mem_simp
    exact ⟨by kept_tac, trivial, r2, r3, r4, r5, r6⟩
  · simp only [setupMem, AdderMem] at *
    outside_tac
    mem_simp
    refine ⟨by kept_tac, trivial, trivial, r3, by omega, r5, by omega⟩

private theorem adderRun_mem (cfg : Adder.Cfg) (same : Bool) (carry off acc : ℕ) (h12 : carry ≠ off)
    (h13 : carry ≠ acc) (h23 : off ≠ acc) (c o a : ℚ) (h : Mem) (xs : List ℕ)
    (hp : ∀ p ∈ [carry, off, acc], p < h.next ∧ h.st p < h.next) (hr : AdderMem carry off acc c o a h) :
    Kept [carry, off, acc] h (adderRun cfg same carry off acc h xs).1 (adderRun cfg same carry off acc h xs).2 ∧
    AdderMem carry off acc c o (Adder.accumulate cfg ⟨false, none, c, o, a⟩ ⟨xs.map h.val, none, none⟩).1.acc
      (adderRun cfg same carry off acc h xs).1 ∧
    (adderRun cfg same carry off acc h xs).2.map (adderRun cfg same carry off acc h xs).1.val =
      [((Adder.accumulate cfg ⟨false, none, c, o, a⟩ ⟨xs.map h.val, none, none⟩).2 : ℚ)] := by
  obtain ⟨r1, r2, r3, r4, r5, r6⟩ := hr
  simp only [adderRun, AdderMem, Adder.accumulate, ind_cast] at *
  generalize (xs.map h.val).sum = S at *
  outside_tac
  cases same <;>
  · mem_simp
    refine ⟨by kept_tac, ⟨r1, r2, ?_, r4, by omega, by omega⟩, ?_⟩ <;> rw [r1, r2, r3]

theorem adder_contract (cfg : Adder.Cfg) (same : Bool) (carry off acc : ℕ)
    (h12 : carry ≠ off) (h13 : carry ≠ acc) (h23 : off ≠ acc) :
    Contract (adder cfg same carry off acc) (fun n : ℤ => (n : ℚ))
      (fun s t xs => let r := Adder.step cfg s ⟨xs.map fun n : ℤ => (n : ℚ), t.1, t.2⟩; (r.1, [r.2]))
      (HoldsAdder carry off acc) := by
  constructor
  · intro l h h' s hr h1 h2
    have a := h1 carry (by simp [adder])
    have b := h2 carry (by simp [adder])
    have a' := h1 off (by simp [adder])
    have b' := h2 off (by simp [adder])
    have a'' := h1 acc (by simp [adder])
    have b'' := h2 acc (by simp [adder])
    simp only [HoldsAdder, Mem.val, Mem.get, Mem.st] at hr b b' b'' ⊢
    rw [a, b, a', b', a'', b'']
    exact hr
  · intro l h s t args vs hr hp ha hv
    have hlen : args.length = vs.length := by simpa using congrArg List.length hv
    have k1 : Kept [carry, off, acc] h (adderSetup cfg carry off l h t args.length).2 [] ∧
        HoldsAdder carry off acc (adderSetup cfg carry off l h t args.length).1
          (adderSetup cfg carry off l h t args.length).2
          (Adder.configure cfg s ⟨vs.map fun n : ℤ => (n : ℚ), t.1, t.2⟩) := by
      obtain ⟨first, e?, c, o, a⟩ := s
      obtain ⟨rfl, hr⟩ := hr
      cases first
      · exact ⟨kept_refl hp, rfl, hr⟩
      · have hm := fun E S => setupMem_mem cfg.mode carry off acc h12 h13 h23 E S c o a h hp hr
        obtain ⟨t1, t2⟩ := t
        obtain ⟨mode, scale, entry, depth⟩ := cfg
        have hl' : ((vs.map fun n : ℤ => (n : ℚ)).length : ℚ) = args.length := by simp [hlen]
        cases t1 <;> cases t2 <;> cases e? <;> cases scale <;> cases mode <;>
          simp only [adderSetup, Adder.configure, hl', if_true, ↓reduceIte] <;>
          first
            | exact ⟨(hm _ _).1, rfl, (hm _ _).2⟩
            | exact ⟨(hm 0 _).1, rfl, (hm 0 _).2⟩
    obtain ⟨k1, l1, r1⟩ := k1
    have hx : args.map (adderSetup cfg carry off l h t args.length).2.val = vs.map fun n : ℤ => (n : ℚ) := by
      rw [List.map_congr_left fun o ho => (kept_outside k1 (ha o ho)).2]; exact hv
    obtain ⟨k2, r2, v2⟩ := adderRun_mem cfg same carry off acc h12 h13 h23 _ _ _ _ args (kept_priv k1 hp) r1
    rw [hx] at r2 v2
    exact ⟨kept_trans k1 k2, ⟨l1, r2⟩, v2⟩

/-! ## All executions -/

variable {h : Mem} {held : List ℕ} {vs : List ℤ}

/-- `Bi2Uni`, constructed at any time. -/
theorem C104_bi2uni (depth : ℤ) (same : Bool) (hh : Apart h held)
    (hv : held.map h.val = vs.map fun n : ℤ => (n : ℚ)) (ds : List (Deed Unit ℤ)) :
    World.read (bi2uni depth same (bi2uniMk h).2) (fun n : ℤ => (n : ℚ)) ⟨(), (bi2uniMk h).1, held⟩ ds =
      (Verif.Spec.valueRead (Verif.Spec.onOne fun s _ x => let r := Shuffle.bi2uniStep depth s x; (r.1, [r.2]))
        (0, vs) ds).map fun n : ℤ => (n : ℚ) := by
  refine good_run (bi2uni_contract _ _ _) ds _ _ (good_start hh hv (kept_make h _) ?_ ?_)
  · show Fresh h _ [h.next]
    fresh_tac
  · exact one_val_self h 0

/-- `Uni2Bi`. -/
theorem C104_uni2bi (depth : ℤ) (same : Bool) (hh : Apart h held)
    (hv : held.map h.val = vs.map fun n : ℤ => (n : ℚ)) (ds : List (Deed Unit ℤ)) :
    World.read (uni2bi depth same (h.one 0).2) (fun n : ℤ => (n : ℚ)) ⟨(), (h.one 0).1, held⟩ ds =
      (Verif.Spec.valueRead (Verif.Spec.onOne fun s _ x => let r := Shuffle.uni2biStep depth s x; (r.1, [r.2]))
        (0, vs) ds).map fun n : ℤ => (n : ℚ) := by
  refine good_run (uni2bi_contract _ _ _) ds _ _ (good_start hh hv (kept_make h _) ?_ ?_)
  · show Fresh h _ [h.next]
    fresh_tac
  · exact one_val_self h 0

/-- `FSUReLU`. -/
theorem C104_relu (depth : ℤ) (same : Bool) (hh : Apart h held)
    (hv : held.map h.val = vs.map fun n : ℤ => (n : ℚ)) (ds : List (Deed Unit ℤ)) :
    World.read (relu depth same (h.one (Small.accHalf depth)).2) (fun n : ℤ => (n : ℚ))
        ⟨(), (h.one (Small.accHalf depth)).1, held⟩ ds =
      (Verif.Spec.valueRead (Verif.Spec.onOne fun s _ x => let r := Small.reluStep depth s x; (r.1, [r.2]))
        (Small.accHalf depth, vs) ds).map fun n : ℤ => (n : ℚ) := by
  refine good_run (relu_contract _ _ _) ds _ _ (good_start hh hv (kept_make h _) ?_ ?_)
  · show Fresh h _ [h.next]
    fresh_tac
  · exact one_val_self h _

/-- `FSUSignAbs`. -/
theorem C104_signabs (depth : ℤ) (same : Bool) (hh : Apart h held)
    (hv : held.map h.val = vs.map fun n : ℤ => (n : ℚ)) (ds : List (Deed Unit ℤ)) :
    World.read (signabs depth same (h.one (Small.accHalf depth)).2) (fun n : ℤ => (n : ℚ))
        ⟨(), (h.one (Small.accHalf depth)).1, held⟩ ds =
      (Verif.Spec.valueRead
        (Verif.Spec.onOne fun s _ x => let r := Small.signAbsStep depth s x; (r.1, [r.2.1, r.2.2]))
        (Small.accHalf depth, vs) ds).map fun n : ℤ => (n : ℚ) := by
  refine good_run (signabs_contract _ _ _) ds _ _ (good_start hh hv (kept_make h _) ?_ ?_)
  · show Fresh h _ [h.next]
    fresh_tac
  · exact one_val_self h _

/-- `JKFF` with a result type other than `int8`. -/
theorem C104_jkff (hh : Apart h held) (hv : held.map h.val = vs.map fun n : ℤ => (n : ℚ))
    (ds : List (Deed Unit ℤ)) :
    World.read (jkff false (h.one 0).2) (fun n : ℤ => (n : ℚ)) ⟨(), (h.one 0).1, held⟩ ds =
      (Verif.Spec.valueRead
        (Verif.Spec.onTwo fun (s : ℤ) _ (j k : ℤ) => let r := Small.jkStep s ((j : ℚ), (k : ℚ)); (r.1, [r.2]))
        (0, vs) ds).map fun n : ℤ => (n : ℚ) := by
  refine good_run (jkff_contract _) ds _ _ (good_start hh hv (kept_make h _) ?_ ?_)
  · show Fresh h _ [h.next]
    fresh_tac
  · exact (one_val_self h 0).trans (by simp)

/-- `SkewedSync`, the first result. -/
theorem C104_sync (depth : ℕ) (hh : Apart h held) (hv : held.map h.val = vs.map fun n : ℤ => (n : ℚ))
    (ds : List (Deed (List ℕ) ℤ)) :
    World.read (firstOnly (sync (syncMk depth h).2.1 (syncMk depth h).2.2)) (fun n : ℤ => (n : ℚ))
        ⟨[1], (syncMk depth h).1, held⟩ ds =
      (Verif.Spec.valueRead
        (Verif.Spec.onTwo fun s t x y => let r := Shuffle.ssStep depth s (t, x, y); (r.1, [r.2.1]))
        (Shuffle.ssInit, vs) ds).map fun n : ℤ => (n : ℚ) := by
  refine good_run (sync_contract depth _ _ ?_) ds _ _
    (good_start hh hv (kept_trans (kept_make h _) (kept_make _ _)) ?_ ?_)
  · show h.next ≠ h.next + 1
    omega
  · show Fresh h _ [h.next, h.next + 1]
    fresh_tac
  · refine ⟨rfl, ?_, ?_, ?_⟩
    · exact (one_val_self _ 0).trans (by simp [Shuffle.ssInit])
    · made_tac
    · made_tac
      omega

/-- `FSUAdd`. -/
theorem C104_add (cfg : Adder.Cfg) (same : Bool) (hh : Apart h held)
    (hv : held.map h.val = vs.map fun n : ℤ => (n : ℚ)) (ds : List (Deed (Option ℚ × Option ℚ) ℤ)) :
    World.read (adder cfg same (adderMk h).2.1 (adderMk h).2.2.1 (adderMk h).2.2.2) (fun n : ℤ => (n : ℚ))
        ⟨(true, cfg.entry), (adderMk h).1, held⟩ ds =
      (Verif.Spec.valueRead
        (fun s t xs => let r := Adder.step cfg s ⟨xs.map fun n : ℤ => (n : ℚ), t.1, t.2⟩; (r.1, [r.2]))
        (Adder.init cfg, vs) ds).map fun n : ℤ => (n : ℚ) := by
  refine good_run (adder_contract cfg same _ _ _ ?_ ?_ ?_) ds _ _
    (good_start hh hv (kept_trans (kept_trans (kept_make h _) (kept_make _ _)) (kept_make _ _)) ?_ ?_)
  · show h.next ≠ h.next + 1
    omega
  · show h.next ≠ h.next + 1 + 1
    omega
  · show h.next + 1 ≠ h.next + 1 + 1
    omega
  · show Fresh h _ [h.next, h.next + 1, h.next + 1 + 1]
    fresh_tac
  · refine ⟨rfl, ?_, ?_, ?_, ?_, ?_, ?_⟩ <;> made_tac <;> first | rfl | omega

/-- A caller holding two tensors and a third one made elsewhere meets the hypotheses. -/
example : Apart ((Mem.empty.one 1).1.one 0).1 [0, 1] ∧
    [0, 1].map ((Mem.empty.one 1).1.one 0).1.val = [(1 : ℤ), 0].map fun n : ℤ => (n : ℚ) := by
  unfold Apart; decide +kernel

/-- `Bi2Uni` on `1, 1, 0` where the caller overwrites its first input and its first result in between:
the results are those of the untouched stream. -/
example : World.read (bi2uni 4 true (bi2uniMk .empty).2) (fun n : ℤ => (n : ℚ)) ⟨(), (bi2uniMk .empty).1, []⟩
    [.make 1, .call () [0], .poke 0 0, .poke 1 7, .make 1, .call () [2], .call () [0]] = [0, 7, 1, 1, 0] := by
  decide +kernel

/-- `FSUAdd` of two bits: overwriting inputs and results leaves the accumulator alone. -/
example : World.read (adder ⟨.unipolar, none, none, 4⟩ true 0 1 2) (fun n : ℤ => (n : ℚ))
    ⟨(true, none), (adderMk .empty).1, []⟩
    [.make 1, .make 0, .call (none, none) [0, 1], .poke 0 0, .poke 2 5, .make 1, .call (none, none) [3, 1],
      .call (none, none) [3, 3]] = [0, 0, 5, 1, 1, 1] := by
  decide +kernel

/-- `SkewedSync` pairs the ones though the caller overwrites the first result. -/
example : World.read (firstOnly (sync 0 1)) (fun n : ℤ => (n : ℚ)) ⟨[1], (syncMk 2 .empty).1, []⟩
    [.make 1, .make 0, .call [1] [0, 1], .poke 2 7, .call [1] [1, 0]] = [1, 0, 7, 1] := by
  decide +kernel

/-- `JKFF` with another result type keeps its state from the caller. -/
example : World.read (jkff false 0) (fun n : ℤ => (n : ℚ)) ⟨(), (Mem.empty.one 0).1, []⟩
    [.make 1, .make 0, .call () [0, 1], .poke 2 0, .call () [1, 1]] = [1, 0, 0, 1] := by
  decide +kernel

/-- `JKFF` with result type `int8` returns its own state: a result changes when the next input is
processed, and writing into a result changes later results. -/
theorem C104_jkff_int8_shared :
    (World.read (jkff true 0) (fun n : ℤ => (n : ℚ)) ⟨(), (Mem.empty.one 0).1, []⟩
      [.make 1, .make 0, .call () [0, 1]])[2]? = some 1 ∧
    (World.read (jkff true 0) (fun n : ℤ => (n : ℚ)) ⟨(), (Mem.empty.one 0).1, []⟩
      [.make 1, .make 0, .call () [0, 1], .call () [1, 0]])[2]? = some 0 ∧
    (World.read (jkff true 0) (fun n : ℤ => (n : ℚ)) ⟨(), (Mem.empty.one 0).1, []⟩
      [.make 1, .make 0, .call () [0, 1], .call () [1, 1]])[3]? = some 1 ∧
    (World.read (jkff true 0) (fun n : ℤ => (n : ℚ)) ⟨(), (Mem.empty.one 0).1, []⟩
      [.make 1, .make 0, .call () [0, 1], .poke 2 0, .call () [1, 1]])[3]? = some 0 := by
  decide +kernel

/-- `SkewedSync` returns its second input itself: writing into the second result changes the input. -/
theorem C104_sync_second_shared :
    (World.read (sync 0 1) (fun n : ℤ => (n : ℚ)) ⟨[1], (syncMk 2 .empty).1, []⟩
      [.make 0, .make 1, .call [1] [0, 1]])[1]? = some 1 ∧
    (World.read (sync 0 1) (fun n : ℤ => (n : ℚ)) ⟨[1], (syncMk 2 .empty).1, []⟩
      [.make 0, .make 1, .call [1] [0, 1], .poke 3 0])[1]? = some 0 := by
  decide +kernel

end Verif.Props
