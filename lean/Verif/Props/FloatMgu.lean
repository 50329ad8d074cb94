import Verif.Model.FloatMgu
import Verif.Props.FloatNet
import Verif.Props.FloatMetric
import Verif.Props.RnnRate

/-!
# Property C98: recurrent stream cells in binary32
-/

namespace Verif.Props

open Verif Finset Linear FloatNet
open Verif.Rnn (Fsu FsuSt Bits rowsOf Params hardCell)
open Verif.Float (fl fadd fsub fmul fdiv FSum AddRun addConfigure addAccumulate peMonitor peValue fl_onGrid OnGrid)

/-! ## Blocks -/

private theorem append_at' {I H : ℕ} (h : Fin H → ℕ → ℤ) (x : Fin I → ℕ → ℤ) (t : ℕ) :
    Fin.append (fun o => h o t) (fun i => x i t) = fun k => Fin.append h x k t := by
  funext k
  refine Fin.addCases (fun k => ?_) (fun k => ?_) k <;> simp

private theorem beside_at {B I H : ℕ} (h : Fin B → Fin H → ℕ → ℤ) (x : Fin B → Fin I → ℕ → ℤ) (t : ℕ) :
    (List.ofFn fun b => Fin.append (fun o => h b o t) (fun i => x b i t)) = pcIn (Spec.beside h x) t := by
  unfold pcIn Spec.beside; congr 1; funext b; exact append_at' _ _ t

private theorem beside_bits {B I H : ℕ} {h : Fin B → Fin H → ℕ → ℤ} {x : Fin B → Fin I → ℕ → ℤ} (hh : ∀ b o, Verif.Spec.BitStream (h b o))
    (hx : ∀ b i, Verif.Spec.BitStream (x b i)) (b : Fin B) (k : Fin (H + I)) : Verif.Spec.BitStream (Spec.beside h x b k) := by
  unfold Spec.beside
  refine Fin.addCases (fun k => ?_) (fun k => ?_) k
  · rw [Fin.append_left]; exact hh b k
  · rw [Fin.append_right]; exact hx b k

private theorem rowsOf_ofFn' {B H : ℕ} (f : Fin B → Fin H → ℤ) : rowsOf (List.ofFn f) = f := by
  funext b
  unfold rowsOf
  rw [List.getD_eq_getElem _ _ (by simp)]
  simp

/-- A call of a linear layer in binary32 on bits has one result. -/
private theorem linear_det {I O : ℕ} (hI : 2 * I + 1 ≤ 2 ^ 24) (m : PC I O × Adder.Cfg) {s s1 s2 : (FloatNet.linear m).S}
    {rows : List (Fin I → ℤ)} (hb : ∀ r ∈ rows, ∀ i, IsBit (r i)) {o1 o2 : List (Fin O → ℤ)}
    (h1 : (FloatNet.linear m).step s rows s1 o1) (h2 : (FloatNet.linear m).step s rows s2 o2) : s1 = s2 ∧ o1 = o2 := by
  obtain ⟨y1, r1, ⟨n1, p1⟩, c1, z1, a1, b1⟩ := h1
  obtain ⟨y2, r2, ⟨n2, p2⟩, c2, z2, a2, b2⟩ := h2
  obtain ⟨e1, e2⟩ := Prod.mk.inj (Except.ok.inj (p1.symm.trans p2))
  have d1 := (counts_exact hI m.1 _ _ _ hb _ p1 _).1 c1
  have d2 := (counts_exact hI m.1 _ _ _ hb _ p2 _).1 c2
  rw [d1, e2, ← d2] at z1
  have er : r1 = r2 := Except.ok.inj (z1.symm.trans z2)
  exact ⟨Prod.ext e1 (by rw [a1, a2, er]), by rw [b1, b2, er]⟩

/-- A linear layer in binary32 has a run that gives the rows of exact arithmetic. -/
private theorem linear_rows {B I O : ℕ} (hB : 0 < B) (m : PC I O × Adder.Cfg) (fan : ℕ) (hN : Spec.addends I m.1.bias = fan)
    (hS : m.2.scale = some 1) (hE : m.2.entry = some (fan:ℚ)) (hfit : Spec.Fits fan 1 m.2.depth) (u : Fin B → Fin I → ℕ → ℤ)
    (hu : ∀ b i, Verif.Spec.BitStream (u b i)) (out : Fin B → Fin O → ℕ → ℤ) (ho : Spec.Rows (linOut m u) out) :
    (FloatNet.linear m).Run (pcIn u) fun t => List.ofFn fun b o => out b o t := by
  have ag := agree_linear hB m fan 1 hN hS hE hfit
  obtain ⟨y, hy⟩ := ag.runs (pcIn u) ⟨u, hu, rfl⟩
  have e : y = fun t => List.ofFn fun b o => out b o t := by
    funext t
    have h1 := (ag.same _ ⟨u, hu, rfl⟩ y hy).1 t
    rw [linear_out, ho t] at h1
    exact (Except.ok.inj h1).symm
  rw [← e]; exact hy

private theorem sr_bits {l : List ℤ} (h : ∀ b ∈ l, IsBit b) {x : ℤ} (hx : IsBit x) : ∀ b ∈ Small.srShift l x none, IsBit b := by
  intro b hb
  cases l with
  | nil => simp [Small.srShift] at hb
  | cons a l =>
      rw [Small.srShift_none _ (by simp)] at hb
      simp only [List.drop_succ_cons, List.drop_zero, List.mem_append, List.mem_singleton] at hb
      rcases hb with hb | rfl
      · exact h b (List.mem_cons_of_mem _ hb)
      · exact hx

/-- The sum of a register of bits is exact. -/
private theorem sr_sum {l : List ℤ} (h : ∀ b ∈ l, IsBit b) (hl : l.length ≤ 2 ^ 24) {v : ℚ} (hv : FSum (l.map fun n : ℤ => (n:ℚ)) v) :
    v = (l.sum : ℤ) := by
  have h1 : ((l.map fun n : ℤ => (n:ℚ)).map abs).sum ≤ l.length := by
    clear hv hl
    induction l with
    | nil => simp
    | cons a l ih =>
      have := ih fun b hb => h b (List.mem_cons_of_mem _ hb)
      have ha : |(a:ℚ)| ≤ 1 := by rcases h a List.mem_cons_self with e | e <;> rw [e] <;> norm_num
      simp only [List.map_cons, List.sum_cons, List.length_cons]
      push_cast
      linarith
  have hlq : (l.length:ℚ) ≤ 2 ^ 24 := by
    have : (l.length:ℚ) ≤ ((2 ^ 24 : ℕ) : ℚ) := Nat.cast_le.2 hl
    rw [Nat.cast_pow] at this
    exact this
  have := FSum.exact (g := 0) (by norm_num) hv (fun x hx => by
    obtain ⟨n, -, rfl⟩ := List.mem_map.1 hx
    exact ⟨n, by simp⟩) (by rw [zpow_zero, mul_one]; linarith)
  rw [this]
  clear this hv h1 h hl hlq
  induction l with
  | nil => simp
  | cons a l ih => simp only [List.map_cons, List.sum_cons]; rw [ih]; push_cast; rfl

private theorem streamStep_eq (mode : Mode) (w : ℕ) (l : List ℤ) (s : Multiplier.St) (i : ℤ × ℤ) :
    streamStep mode w l ((s.sr.sum : ℤ) : ℚ) s i = Multiplier.stepStream mode w l s i := by
  have e : ∀ n : ℤ, ((ind (((s.sr.sum : ℤ) : ℚ) > (n:ℚ)) : ℤ)) = ind (s.sr.sum > n) := by
    intro n
    by_cases h : s.sr.sum > n
    · rw [ind_true h, ind_true (by exact_mod_cast h)]
    · rw [ind_false h, ind_false (by exact_mod_cast h)]
  unfold streamStep Multiplier.stepStream
  simp only [e]
  cases mode <;> rfl

/-- A call of the in-stream multiplier in binary32 with a register of bits is that of exact arithmetic. -/
private theorem streamMul_iff {mode : Mode} {w : ℕ} {l : List ℤ} {s : Multiplier.St} (h : ∀ b ∈ s.sr, IsBit b) (hl : s.sr.length ≤ 2 ^ 24)
    (i : ℤ × ℤ) (s' : Multiplier.St) (out : ℤ) : StreamMul mode w l s i s' out ↔ Multiplier.stepStream mode w l s i = (s', out) := by
  constructor
  · rintro ⟨v, hv, e⟩
    rw [sr_sum h hl hv, streamStep_eq] at e
    exact e
  · intro e
    obtain ⟨v, hv⟩ := fsum_exists (s.sr.map fun n : ℤ => (n:ℚ))
    refine ⟨v, hv, ?_⟩
    rw [sr_sum h hl hv, streamStep_eq]
    exact e

/-- Sums of few bits are exact. -/
private theorem fsum_bits {l : List ℚ} (h : ∀ x ∈ l, x = 0 ∨ x = 1) (hl : l.length ≤ 16) {v : ℚ} (hv : FSum l v) : v = l.sum := by
  refine FSum.exact (g := 0) (by norm_num) hv (fun x hx => ?_) ?_
  · rcases h x hx with e | e
    · exact ⟨0, by rw [e]; norm_num⟩
    · exact ⟨1, by rw [e]; norm_num⟩
  · have h1 : (l.map abs).sum ≤ l.length := by
      clear hl hv
      induction l with
      | nil => simp
      | cons a l ih =>
        have := ih fun b hb => h b (List.mem_cons_of_mem _ hb)
        have ha : |a| ≤ 1 := by rcases h a List.mem_cons_self with e | e <;> rw [e] <;> norm_num
        simp only [List.map_cons, List.sum_cons, List.length_cons]
        push_cast
        linarith
    have : (l.length:ℚ) ≤ 16 := by exact_mod_cast hl
    rw [zpow_zero, mul_one]
    linarith

private theorem addStep_det {cfg : Adder.Cfg} {s s1 s2 : Adder.St} {xs : List ℚ} (h : ∀ x ∈ xs, x = 0 ∨ x = 1) (hl : xs.length ≤ 16)
    {o1 o2 : ℤ} (h1 : AddStep cfg s xs s1 o1) (h2 : AddStep cfg s xs s2 o2) : s1 = s2 ∧ o1 = o2 := by
  obtain ⟨v1, a1, b1⟩ := h1
  obtain ⟨v2, a2, b2⟩ := h2
  rw [fsum_bits h hl a1] at b1
  rw [fsum_bits h hl a2] at b2
  exact Prod.mk.inj (b1.symm.trans b2)

private theorem bit01 {n : ℤ} (h : IsBit n) : (n:ℚ) = 0 ∨ (n:ℚ) = 1 := by
  rcases h with h | h <;> rw [h] <;> simp

private theorem compl_bit {n : ℤ} (h : IsBit n) : fsub 1 (n:ℚ) = 1 - (n:ℚ) ∧ (1 - (n:ℚ) = 0 ∨ 1 - (n:ℚ) = 1) := by
  refine ⟨?_, ?_⟩
  · unfold fsub
    exact fl_small (n := 1 - n) (by push_cast; ring) (by rcases h with h | h <;> rw [h] <;> norm_num)
  · rcases h with h | h <;> rw [h] <;> simp

/-- A small adder in binary32 has a run that gives the stream of exact arithmetic. -/
private theorem add_run (cfg : Adder.Cfg) (h1 : 1 ≤ cfg.depth) (h2 : cfg.depth ≤ 24) (a : ℕ → List ℚ) (k : ℕ) (hk : k ≤ 16)
    (ha : ∀ t, ∀ x ∈ a t, x = 0 ∨ x = 1) (hl : ∀ t, (a t).length = k)
    (he : ∃ e : ℕ, e ≤ 16 ∧ Spec.addEntry cfg (fun t => { xs := a t }) = e) (hs : ∃ e : ℕ, e ≤ 16 ∧ Spec.addScale cfg (fun t => { xs := a t }) = e) :
    ∃ st : ℕ → Adder.St, st 0 = Adder.init cfg ∧ ∀ t, AddStep cfg (st t) (a t) (st (t + 1)) (addOut cfg (fun t => { xs := a t }) t) := by
  obtain ⟨out, hrun⟩ := addRun_exists cfg fun t => { xs := a t }
  obtain ⟨e, e16, he⟩ := he
  obtain ⟨f, f16, hs⟩ := hs
  have eq16 : (e:ℚ) ≤ 16 := by exact_mod_cast e16
  have fq16 : (f:ℚ) ≤ 16 := by exact_mod_cast f16
  have : ∀ t, out t = addOut cfg (fun t => { xs := a t }) t := by
    refine C69_add cfg _ out hrun (-1) (by norm_num) (by norm_num) (by omega) ⟨e, by rw [he]; norm_num⟩ ⟨f, by rw [hs]; norm_num⟩ ?_ 16 ?_ ?_
    · intro t x hx
      rcases ha t x hx with e | e
      · exact ⟨0, by rw [e]; norm_num⟩
      · exact ⟨1, by rw [e]; norm_num⟩
    · intro t
      have h1 : ((a t).map abs).sum ≤ (a t).length := by
        have := ha t
        generalize a t = l at this
        induction l with
        | nil => simp
        | cons b l ih =>
          have i := ih fun b hb => this b (List.mem_cons_of_mem _ hb)
          have ha : |b| ≤ 1 := by rcases this b List.mem_cons_self with e | e <;> rw [e] <;> norm_num
          simp only [List.map_cons, List.sum_cons, List.length_cons]
          push_cast
          linarith
      have : ((a t).length:ℚ) ≤ 16 := by rw [hl t]; exact_mod_cast hk
      exact h1.trans this
    · rw [he, hs, abs_of_nonneg (Nat.cast_nonneg _), abs_of_nonneg (Nat.cast_nonneg _)]
      have : (2:ℚ) ^ (cfg.depth - 2) ≤ (2:ℚ) ^ (22:ℤ) := zpow_le_zpow_right₀ (by norm_num) (by omega)
      norm_num at this ⊢
      linarith
  obtain ⟨st, h0, h⟩ := hrun
  refine ⟨st, h0, fun t => ?_⟩
  obtain ⟨v, hv, e⟩ := h t
  rw [this t] at e
  exact ⟨v, hv, e⟩

/-! ## The cell -/

/-- The facts about the parts of a cell that a successful construction fixes. -/
private structure Parts {B I H : ℕ} (c : Fsu B I H) (fan : ℕ) (depth : ℤ) : Prop where
  f : Spec.addends (H + I) c.f.1.bias = fan ∧ c.f.2.scale = some 1 ∧ c.f.2.entry = some (fan:ℚ) ∧ c.f.2.depth = depth
  n : Spec.addends (H + I) c.n.1.bias = fan ∧ c.n.2.scale = some 1 ∧ c.n.2.entry = some (fan:ℚ) ∧ c.n.2.depth = depth
  sigm : c.sigm = ⟨.bipolar, none, none, depth⟩
  out : c.out = ⟨.bipolar, some 1, some 3, depth⟩

/-- The cell in binary32 has a run that gives the bits of exact arithmetic; the registers of its in-stream multipliers hold bits. -/
private theorem cell_run {B I H : ℕ} (hB : 0 < B) (c : Fsu B I H) (fan : ℕ) (depth : ℤ) (hp : Parts c fan depth) (h1 : 1 ≤ depth) (h2 : depth ≤ 24)
    (hw : c.ngWidth ≤ 24) (hfan : Spec.Fits fan 1 depth) (x : Fin B → Fin I → ℕ → ℤ) (hx : Fin B → Fin H → ℕ → ℤ)
    (hxb : ∀ b i, Verif.Spec.BitStream (x b i)) (hhb : ∀ b o, Verif.Spec.BitStream (hx b o)) :
    ∃ (r : ℕ → Bits B H) (st : ℕ → FsuSt B I H), (∀ t, fsuOut c x hx t = .ok (r t)) ∧ st 0 = c.init ∧
      (∀ t, (fsu c).step (st t) (fun b i => x b i t, fun b o => hx b o t) (st (t + 1)) (r t)) ∧
      (∀ t b o, IsBit ((r t).fgIn b o) ∧ IsBit ((r t).fg b o) ∧ IsBit ((r t).fgHx b o) ∧ IsBit ((r t).ng b o) ∧ IsBit ((r t).fgNg b o) ∧
        IsBit ((r t).hy b o)) ∧
      ∀ t b o, (∀ v ∈ ((st t).ng b o).sr, IsBit v) ∧ ((st t).ng b o).sr.length ≤ 2 ^ 24 := by
  obtain ⟨r, k1, k2, k3, k4⟩ := C56_run hB c x hx
  have hbits : ∀ t b o, IsBit (r.fgIn b o t) ∧ IsBit (r.fg b o t) ∧ IsBit (r.fgHx b o t) ∧ IsBit (r.ng b o t) ∧ IsBit (r.fgNg b o t) ∧
      IsBit (r.hy b o t) := by
    intro t b o
    obtain ⟨r', e, hb⟩ := C56_bits hB c x hx t
    rw [k1 t] at e
    obtain rfl := Except.ok.inj e
    exact hb b o
  obtain ⟨sf, f0, f1⟩ := linear_rows hB c.f fan hp.f.1 hp.f.2.1 hp.f.2.2.1 (by rw [hp.f.2.2.2]; exact hfan) (Spec.beside hx x)
    (beside_bits hhb hxb) r.fgIn k2
  obtain ⟨sn, n0, n1⟩ := linear_rows hB c.n fan hp.n.1 hp.n.2.1 hp.n.2.2.1 (by rw [hp.n.2.2.2]; exact hfan) (Spec.beside r.fgHx x)
    (beside_bits (fun b o t => (hbits t b o).2.2.1) hxb) r.ng k3
  have hsg : ∀ b o, ∃ st : ℕ → Adder.St, st 0 = Adder.init c.sigm ∧ ∀ t, AddStep c.sigm (st t) [(r.fgIn b o t : ℚ), 1] (st (t + 1)) (r.fg b o t) := by
    intro b o
    rw [(k4 b o).1]
    refine add_run c.sigm (by rw [hp.sigm]; exact h1) (by rw [hp.sigm]; exact h2) (fun t => [(r.fgIn b o t : ℚ), 1]) 2 (by norm_num) ?_
      (fun t => rfl) ⟨2, by norm_num, ?_⟩ ⟨2, by norm_num, ?_⟩
    · intro t y hy
      simp only [List.mem_cons, List.not_mem_nil, or_false] at hy
      rcases hy with rfl | rfl
      · exact bit01 (hbits t b o).1
      · exact Or.inr rfl
    · rw [hp.sigm]; simp [Spec.addEntry]
    · rw [hp.sigm]; simp [Spec.addScale, Spec.addEntry]
  have hso : ∀ b o, ∃ st : ℕ → Adder.St, st 0 = Adder.init c.out ∧
      ∀ t, AddStep c.out (st t) [(r.ng b o t : ℚ), fsub 1 (r.fgNg b o t), (r.fgHx b o t : ℚ)] (st (t + 1)) (r.hy b o t) := by
    intro b o
    have e : ∀ t, [(r.ng b o t : ℚ), fsub 1 (r.fgNg b o t), (r.fgHx b o t : ℚ)] = [(r.ng b o t : ℚ), 1 - (r.fgNg b o t : ℚ), (r.fgHx b o t : ℚ)] :=
      fun t => by rw [(compl_bit (hbits t b o).2.2.2.2.1).1]
    simp only [e]
    rw [(k4 b o).2.2.2]
    refine add_run c.out (by rw [hp.out]; exact h1) (by rw [hp.out]; exact h2)
      (fun t => [(r.ng b o t : ℚ), 1 - (r.fgNg b o t : ℚ), (r.fgHx b o t : ℚ)]) 3 (by norm_num) ?_
      (fun t => rfl) ⟨3, by norm_num, ?_⟩ ⟨1, by norm_num, ?_⟩
    · intro t y hy
      simp only [List.mem_cons, List.not_mem_nil, or_false] at hy
      rcases hy with rfl | rfl | rfl
      · exact bit01 (hbits t b o).2.2.2.1
      · exact (compl_bit (hbits t b o).2.2.2.2.1).2
      · exact bit01 (hbits t b o).2.2.1
    · rw [hp.out]; simp [Spec.addEntry]
    · rw [hp.out]; simp [Spec.addScale]
  choose sg g0 g1 using hsg
  choose so o0 o1 using hso
  set sh := fun (t : ℕ) (b : Fin B) (o : Fin H) => stateAt (Multiplier.stepStatic c.mode c.hxRng (c.hxBin b o)) (Multiplier.init c.ngWidth) (r.fg b o) t with hsh
  set sm := fun (t : ℕ) (b : Fin B) (o : Fin H) => stateAt (Multiplier.stepStream c.mode c.ngWidth c.ngRng) (Multiplier.init c.ngWidth)
    (fun t => (r.fg b o t, r.ng b o t)) t with hsm
  have hsr : ∀ t b o, (∀ v ∈ (sm t b o).sr, IsBit v) ∧ (sm t b o).sr.length ≤ 2 ^ 24 := by
    intro t b o
    induction t with
    | zero =>
      constructor
      · intro v hv
        obtain ⟨k, -, rfl⟩ := List.mem_map.1 hv
        rcases Nat.mod_two_eq_zero_or_one k with h | h <;> rw [h]
        · exact Or.inl rfl
        · exact Or.inr rfl
      · show (Small.srInit (2 ^ c.ngWidth)).length ≤ 2 ^ 24
        unfold Small.srInit
        rw [List.length_map, List.length_range]
        exact Nat.pow_le_pow_right (by norm_num) hw
    | succ t ih =>
      have e : (sm (t + 1) b o).sr = Small.srShift (sm t b o).sr (r.ng b o t) none := by
        simp only [hsm]
        rw [stateAt_succ]
        unfold Multiplier.stepStream
        cases c.mode <;> rfl
      rw [e]
      exact ⟨sr_bits ih.1 (hbits t b o).2.2.2.1, by rw [Small.srShift_length]; exact ih.2⟩
  refine ⟨fun t => ⟨fun b o => r.fgIn b o t, fun b o => r.fg b o t, fun b o => r.fgHx b o t, fun b o => r.ng b o t, fun b o => r.fgNg b o t,
    fun b o => r.hy b o t⟩, fun t => ⟨sf t, fun b o => sg b o t, sh t, sn t, sm t, fun b o => so b o t⟩, k1, ?_, fun t => ?_, hbits, hsr⟩
  · have e1 : (fun b o => sg b o 0) = fun _ _ => Adder.init c.sigm := funext fun b => funext fun o => g0 b o
    have e2 : (fun b o => so b o 0) = fun _ _ => Adder.init c.out := funext fun b => funext fun o => o0 b o
    show (⟨sf 0, fun b o => sg b o 0, sh 0, sn 0, sm 0, fun b o => so b o 0⟩ : FsuSt B I H) = _
    rw [e1, e2, f0, n0]
    rfl
  · refine ⟨List.ofFn fun b o => r.fgIn b o t, List.ofFn fun b o => r.ng b o t, ?_, ?_, fun b o => g1 b o t, fun b o => ?_, ?_, ?_, fun b o => ?_,
      fun b o => o1 b o t⟩
    · show (FloatNet.linear c.f).step (sf t) (List.ofFn fun b => Fin.append (fun o => hx b o t) (fun i => x b i t)) (sf (t + 1)) _
      rw [beside_at]; exact f1 t
    · exact (rowsOf_ofFn' _).symm
    · show Multiplier.stepStatic c.mode c.hxRng (c.hxBin b o) (sh t b o) (r.fg b o t) = (sh (t + 1) b o, r.fgHx b o t)
      rw [(k4 b o).2.1]
      simp only [hsh]
      rw [stateAt_succ]
      rfl
    · show (FloatNet.linear c.n).step (sn t) (List.ofFn fun b => Fin.append (fun o => r.fgHx b o t) (fun i => x b i t)) (sn (t + 1)) _
      rw [beside_at]; exact n1 t
    · exact (rowsOf_ofFn' _).symm
    · refine (streamMul_iff (hsr t b o).1 (hsr t b o).2 _ _ _).2 ?_
      show Multiplier.stepStream c.mode c.ngWidth c.ngRng (sm t b o) (r.fg b o t, r.ng b o t) = (sm (t + 1) b o, r.fgNg b o t)
      rw [(k4 b o).2.2.1]
      simp only [hsm]
      rw [stateAt_succ]
      rfl

/-- A call of the cell on bits has one result. -/
private theorem cell_det {B I H : ℕ} (c : Fsu B I H) (hI : 2 * (H + I) + 1 ≤ 2 ^ 24) (s s1 s2 : FsuSt B I H)
    (a : (Fin B → Fin I → ℤ) × (Fin B → Fin H → ℤ)) (ha : (∀ b i, IsBit (a.1 b i)) ∧ ∀ b o, IsBit (a.2 b o)) (r1 r2 : Bits B H)
    (hr : ∀ b o, IsBit (r2.fgIn b o) ∧ IsBit (r2.fg b o) ∧ IsBit (r2.fgHx b o) ∧ IsBit (r2.ng b o) ∧ IsBit (r2.fgNg b o) ∧ IsBit (r2.hy b o))
    (hsr : ∀ b o, (∀ v ∈ (s.ng b o).sr, IsBit v) ∧ (s.ng b o).sr.length ≤ 2 ^ 24)
    (h1 : (fsu c).step s a s1 r1) (h2 : (fsu c).step s a s2 r2) : s1 = s2 ∧ r1 = r2 := by
  obtain ⟨f1, n1, a1, b1, c1, d1, e1, g1, i1, j1⟩ := h1
  obtain ⟨f2, n2, a2, b2, c2, d2, e2, g2, i2, j2⟩ := h2
  have app : ∀ (h : Fin B → Fin H → ℤ), (∀ b o, IsBit (h b o)) → ∀ q ∈ List.ofFn (fun b => Fin.append (h b) (a.1 b)), ∀ k, IsBit (q k) := by
    intro h hh q hq k
    obtain ⟨b, rfl⟩ := List.mem_ofFn.1 hq
    refine Fin.addCases (fun k => ?_) (fun k => ?_) k
    · rw [Fin.append_left]; exact hh b k
    · rw [Fin.append_right]; exact ha.1 b k
  obtain ⟨q1, q2⟩ := linear_det hI c.f (app a.2 ha.2) a1 a2
  have w1 : r1.fgIn = r2.fgIn := by rw [b1, b2, q2]
  have hsg : ∀ b o, s1.sigm b o = s2.sigm b o ∧ r1.fg b o = r2.fg b o := by
    intro b o
    refine addStep_det (xs := [(r2.fgIn b o : ℚ), 1]) (fun y hy => ?_) (by simp) (by rw [← w1]; exact c1 b o) (c2 b o)
    simp only [List.mem_cons, List.not_mem_nil, or_false] at hy
    rcases hy with rfl | rfl
    · exact bit01 (hr b o).1
    · exact Or.inr rfl
  have w2 : r1.fg = r2.fg := funext fun b => funext fun o => (hsg b o).2
  have hsh : ∀ b o, s1.hx b o = s2.hx b o ∧ r1.fgHx b o = r2.fgHx b o := by
    intro b o
    have := d1 b o
    rw [w2] at this
    exact Prod.mk.inj (this.symm.trans (d2 b o))
  have w3 : r1.fgHx = r2.fgHx := funext fun b => funext fun o => (hsh b o).2
  rw [w3] at e1
  obtain ⟨q3, q4⟩ := linear_det hI c.n (app r2.fgHx fun b o => (hr b o).2.2.1) e1 e2
  have w4 : r1.ng = r2.ng := by rw [g1, g2, q4]
  have hsm : ∀ b o, s1.ng b o = s2.ng b o ∧ r1.fgNg b o = r2.fgNg b o := by
    intro b o
    have x1 := (streamMul_iff (hsr b o).1 (hsr b o).2 _ _ _).1 (i1 b o)
    have x2 := (streamMul_iff (hsr b o).1 (hsr b o).2 _ _ _).1 (i2 b o)
    rw [w2, w4] at x1
    exact Prod.mk.inj (x1.symm.trans x2)
  have w5 : r1.fgNg = r2.fgNg := funext fun b => funext fun o => (hsm b o).2
  have hso : ∀ b o, s1.out b o = s2.out b o ∧ r1.hy b o = r2.hy b o := by
    intro b o
    have x1 := j1 b o
    rw [w3, w4, w5] at x1
    refine addStep_det (fun y hy => ?_) (by simp) x1 (j2 b o)
    simp only [List.mem_cons, List.not_mem_nil, or_false] at hy
    rcases hy with rfl | rfl | rfl
    · exact bit01 (hr b o).2.2.2.1
    · rw [(compl_bit (hr b o).2.2.2.2.1).1]; exact (compl_bit (hr b o).2.2.2.2.1).2
    · exact bit01 (hr b o).2.2.1
  have w6 : r1.hy = r2.hy := funext fun b => funext fun o => (hso b o).2
  constructor
  · cases s1; cases s2
    simp only at q1 q3 hsg hsh hsm hso
    subst q1 q3
    congr 1
    · funext b o; exact (hsg b o).1
    · funext b o; exact (hsh b o).1
    · funext b o; exact (hsm b o).1
    · funext b o; exact (hso b o).1
  · cases r1; cases r2
    simp only at w1 w2 w3 w4 w5 w6
    subst w1 w2 w3 w4 w5 w6
    rfl

private theorem fits_one {fan : ℕ} {depth : ℤ} (h1 : 1 ≤ depth) (h2 : depth ≤ 24) (hf : fan < 2 ^ 21) : Spec.Fits fan 1 depth := by
  refine ⟨-1, by norm_num, by norm_num, by omega, ⟨fan, by norm_num⟩, ⟨1, by norm_num⟩, ?_⟩
  have e1 : (2:ℚ) ^ (depth - 2) ≤ (2:ℚ) ^ (22:ℤ) := zpow_le_zpow_right₀ (by norm_num) (by omega)
  have e2 : (fan:ℚ) + 1 ≤ 2 ^ 21 := by exact_mod_cast hf
  norm_num at e1 e2 ⊢
  linarith

/-- Building a cell in binary32 builds the cell of the stored numbers. -/
private theorem mkFsu_float {B I H : ℕ} {env : Gen.Env} {mode : String} {width d : ℕ} {name : String} {depth : ℤ}
    {wf wn : Fin H → Fin (H + I) → ℚ} {bias : Bool} {bf bn : Option (Fin H → ℚ)} {hb : Option (Fin B → Fin H → ℚ)} {c : Fsu B I H}
    (hc : FloatNet.mkFsu env mode width d name depth wf wn bias bf bn hb = .ok c) (hs : Spec.SeqFits env width name) (hsd : Spec.SeqFits env d name) :
    Rnn.mkFsu env mode width d name depth (fun o i => Spec.storedF mode width (wf o i)) (fun o i => Spec.storedF mode width (wn o i)) bias
      (bf.map fun v o => Spec.storedF mode width (v o)) (bn.map fun v o => Spec.storedF mode width (v o))
      (hb.map fun v b o => Spec.storedF mode width (v b o)) = .ok c := by
  unfold FloatNet.mkFsu at hc
  unfold Rnn.mkFsu
  by_cases h0 : mode.toLower ≠ "bipolar"
  · rw [if_pos h0] at hc; cases hc
  rw [if_neg h0] at hc ⊢
  by_cases h1 : bias = true ∧ (bf = none ∨ bn = none)
  · rw [if_pos h1] at hc; cases hc
  rw [if_neg h1] at hc
  rw [if_neg (by simpa using h1)]
  obtain ⟨f, hf, hc⟩ := except_bind_ok hc
  obtain ⟨n, hn, hc⟩ := except_bind_ok hc
  obtain ⟨sg, hsg, hc⟩ := except_bind_ok hc
  obtain ⟨m, hm, hc⟩ := except_bind_ok hc
  obtain ⟨r, hr, hc⟩ := except_bind_ok hc
  rw [mkLinear_float hf hs]
  show (Linear.mkLinear env mode width name depth (some 1) _ bias _ >>= _) = _
  rw [mkLinear_float hn hs]
  show (Adder.mk mode none none depth >>= _) = _
  rw [hsg]
  show (parseMode mode >>= _) = _
  rw [hm]
  show (Gen.rng env width name >>= _) = _
  rw [hr]
  cases hb with
  | none => cases hc
  | some v =>
    obtain ⟨r', hr', hc⟩ := except_bind_ok hc
    obtain ⟨rn, hrn, hc⟩ := except_bind_ok hc
    obtain ⟨out, hout, hc'⟩ := except_bind_ok hc
    show (Gen.bsGenInit r >>= _) = _
    rw [hr']
    show (Gen.rng env d name >>= _) = _
    rw [hrn]
    show (Adder.mk mode (some 1) (some 3) depth >>= _) = _
    rw [hout]
    have e : r' = r := by
      unfold Gen.bsGenInit at hr'
      split_ifs at hr'
      exact (Except.ok.inj hr').symm
    rw [e, seq_exact (hs _ hr), seq_exact (hsd _ hrn)] at hc'
    rw [← hc', e]
    show Except.ok _ = Except.ok _
    congr 2
    funext b o
    exact binGenM_stored hm width _

private theorem mkFsu_float_some {B I H : ℕ} {env : Gen.Env} {mode : String} {width d : ℕ} {name : String} {depth : ℤ}
    {wf wn : Fin H → Fin (H + I) → ℚ} {bias : Bool} {bf bn : Option (Fin H → ℚ)} {hb : Fin B → Fin H → ℚ} {c : Fsu B I H}
    (hc : FloatNet.mkFsu env mode width d name depth wf wn bias bf bn (some hb) = .ok c) (hs : Spec.SeqFits env width name)
    (hsd : Spec.SeqFits env d name) :
    Rnn.mkFsu env mode width d name depth (fun o i => Spec.storedF mode width (wf o i)) (fun o i => Spec.storedF mode width (wn o i)) bias
      (bf.map fun v o => Spec.storedF mode width (v o)) (bn.map fun v o => Spec.storedF mode width (v o))
      (some fun b o => Spec.storedF mode width (hb b o)) = .ok c := by
  have h := mkFsu_float hc hs hsd
  rw [Option.map_some] at h
  exact h

private theorem parts {B I H : ℕ} {env : Gen.Env} {mode : String} {width d : ℕ} {name : String} {depth : ℤ}
    {wf wn : Fin H → Fin (H + I) → ℚ} {bias : Bool} {bf bn : Option (Fin H → ℚ)} {hb : Option (Fin B → Fin H → ℚ)} {c : Fsu B I H}
    (hc : Rnn.mkFsu env mode width d name depth wf wn bias bf bn hb = .ok c) : Parts c (Spec.fanIn (H + I) bias) depth ∧ c.ngWidth = d := by
  obtain ⟨-, hb', l, ln, -, -, -, hf, hn, e1, e2, -, -, -, e3, -⟩ := mkFsu_ok hc
  obtain ⟨-, -, a2, a3, a4, a5⟩ := mkLinear_ok hf
  obtain ⟨-, -, b2, b3, b4, b5⟩ := mkLinear_ok hn
  exact ⟨⟨⟨a5, a3, a4, a2⟩, ⟨b5, b3, b4, b2⟩, e1, e2⟩, e3⟩

/-- Any calls of the cell in binary32, as many as there are, give the bits of exact arithmetic. -/
private theorem cell_prefix {B I H : ℕ} (hB : 0 < B) (c : Fsu B I H) (fan : ℕ) (depth : ℤ) (hp : Parts c fan depth) (h1 : 1 ≤ depth) (h2 : depth ≤ 24)
    (hw : c.ngWidth ≤ 24) (hf : fan < 2 ^ 21) (x : Fin B → Fin I → ℕ → ℤ) (hx : Fin B → Fin H → ℕ → ℤ)
    (hxb : ∀ b i, Verif.Spec.BitStream (x b i)) (hhb : ∀ b o, Verif.Spec.BitStream (hx b o)) :
    ∃ (r : ℕ → Bits B H) (st : ℕ → FsuSt B I H), (∀ t, fsuOut c x hx t = .ok (r t)) ∧ st 0 = c.init ∧
      (∀ t, (fsu c).step (st t) (fun b i => x b i t, fun b o => hx b o t) (st (t + 1)) (r t)) ∧
      ∀ (T : ℕ) (st' : ℕ → FsuSt B I H) (q : ℕ → Bits B H), st' 0 = c.init →
        (∀ t < T, (fsu c).step (st' t) (fun b i => x b i t, fun b o => hx b o t) (st' (t + 1)) (q t)) → ∀ t < T, q t = r t := by
  obtain ⟨r, st, k1, k2, k3, k4, k5⟩ := cell_run hB c fan depth hp h1 h2 hw (fits_one h1 h2 hf) x hx hxb hhb
  refine ⟨r, st, k1, k2, k3, fun T st' q h0 h => ?_⟩
  have hI : 2 * (H + I) + 1 ≤ 2 ^ 24 := by
    have : H + I ≤ fan := by rw [← hp.f.1]; unfold Spec.addends; omega
    omega
  have key : ∀ t ≤ T, st' t = st t := by
    intro t
    induction t with
    | zero => intro _; rw [h0, k2]
    | succ t ih =>
      intro ht
      have hs := h t (by omega)
      rw [ih (by omega)] at hs
      exact (cell_det c hI _ _ _ _ ⟨fun b i => hxb b i t, fun b o => hhb b o t⟩ _ _ (k4 t) (k5 t) hs (k3 t)).1
  intro t ht
  have hs := h t ht
  rw [key t (by omega)] at hs
  exact (cell_det c hI _ _ _ _ ⟨fun b i => hxb b i t, fun b o => hhb b o t⟩ _ _ (k4 t) (k5 t) hs (k3 t)).2

private theorem fan_lt {H I : ℕ} (bias : Bool) (h : H + I + 1 < 2 ^ 21) : Spec.fanIn (H + I) bias < 2 ^ 21 := by
  unfold Spec.fanIn
  cases bias
  · simp; omega
  · simp; omega

/-- C98: a recurrent stream cell executed in binary32 is, bit for bit in all its streams and for streams of any length, the cell of exact arithmetic with
the numbers as they are stored, in whatever order the sums are taken; no call fails. -/
theorem C98_cell {B I H : ℕ} (hB : 0 < B) (hfan : H + I + 1 < 2 ^ 21) (env : Gen.Env) (mode : String) (width d : ℕ) (hd : d ≤ 24) (name : String)
    (hs : Spec.SeqFits env width name) (hsd : Spec.SeqFits env d name) (depth : ℤ) (h1 : 1 ≤ depth) (h2 : depth ≤ 24)
    (wf wn : Fin H → Fin (H + I) → ℚ) (bias : Bool) (bf bn : Option (Fin H → ℚ)) (hb : Option (Fin B → Fin H → ℚ)) (c : Fsu B I H)
    (hc : FloatNet.mkFsu env mode width d name depth wf wn bias bf bn hb = .ok c) :
    Rnn.mkFsu env mode width d name depth (fun o i => Spec.storedF mode width (wf o i)) (fun o i => Spec.storedF mode width (wn o i)) bias
      (bf.map fun v o => Spec.storedF mode width (v o)) (bn.map fun v o => Spec.storedF mode width (v o))
      (hb.map fun v b o => Spec.storedF mode width (v b o)) = .ok c ∧
    ∀ (x : Fin B → Fin I → ℕ → ℤ) (hx : Fin B → Fin H → ℕ → ℤ), (∀ b i, Verif.Spec.BitStream (x b i)) → (∀ b o, Verif.Spec.BitStream (hx b o)) →
      (∃ out, (fsu c).Run (fun t => (fun b i => x b i t, fun b o => hx b o t)) out) ∧
      ∀ out, (fsu c).Run (fun t => (fun b i => x b i t, fun b o => hx b o t)) out → ∀ t, fsuOut c x hx t = .ok (out t) := by
  have hc' := mkFsu_float hc hs hsd
  obtain ⟨hp, hw⟩ := parts hc'
  refine ⟨hc', fun x hx hxb hhb => ?_⟩
  obtain ⟨r, st, k1, k2, k3, k4⟩ := cell_prefix hB c _ depth hp h1 h2 (by rw [hw]; exact hd) (fan_lt bias hfan) x hx hxb hhb
  refine ⟨⟨r, st, k2, k3⟩, ?_⟩
  rintro out ⟨st', h0, h⟩ t
  rw [k4 (t + 1) st' out h0 (fun t _ => h t) t (by omega)]
  exact k1 t

/-! ## The hybrid cell -/

/-- After a power of two of cycles the monitor's value is exact. -/
private theorem peValue_pow (x : ℕ → ℤ) (hx : Verif.Spec.BitStream x) (w : ℕ) (hw : w ≤ 24) :
    peValue .bipolar (peCount x (2 ^ w)) = Verif.Spec.biValue x (2 ^ w) := by
  have h0 := Verif.Spec.ones_nonneg hx (2 ^ w)
  have h1 := Verif.Spec.ones_le hx (2 ^ w)
  have hp : (2:ℕ) ^ w ≤ 2 ^ 24 := Nat.pow_le_pow_right (by norm_num) hw
  have hpz : (2:ℤ) ^ w ≤ 2 ^ 24 := pow_le_pow_right₀ (by norm_num) hw
  push_cast at h1
  have hc : peCount x (2 ^ w) = ((Verif.Spec.ones x (2 ^ w) : ℚ), (2:ℚ) ^ w) := by
    rw [C71_counters x hx, min_eq_left (by omega), min_eq_left (by push_cast; omega)]; push_cast; rfl
  have hP : (0:ℚ) < 2 ^ w := by positivity
  have hz : (2:ℚ) ^ (-(w:ℤ)) = 1 / 2 ^ w := by rw [zpow_neg, zpow_natCast, one_div]
  have grid : ∀ k : ℤ, |k| ≤ 2 ^ 24 → fl ((k:ℚ) / 2 ^ w) = (k:ℚ) / 2 ^ w := by
    intro k hk
    refine fl_onGrid (g := -(w:ℤ)) (by omega) ⟨k, by rw [hz]; ring⟩ ?_
    rw [hz, abs_div, abs_of_pos hP, mul_one_div]
    refine div_le_div_of_nonneg_right ?_ hP.le
    rw [← Int.cast_abs]
    exact_mod_cast hk
  unfold Verif.Spec.biValue
  rw [hc]
  generalize Verif.Spec.ones x (2 ^ w) = n at h0 h1
  show fsub (fmul (fdiv (n:ℚ) (2 ^ w)) 2) 1 = _
  have e1 : fdiv (n:ℚ) (2 ^ w) = (n:ℚ) / 2 ^ w := grid n (by rw [abs_of_nonneg h0]; omega)
  have e2 : fmul ((n:ℚ) / 2 ^ w) 2 = 2 * (n:ℚ) / 2 ^ w := by
    unfold fmul
    rw [show (n:ℚ) / 2 ^ w * 2 = 2 * (n:ℚ) / 2 ^ w by ring]
    have hz' : (2:ℚ) ^ (1 - (w:ℤ)) = 2 / 2 ^ w := by rw [zpow_sub₀ (by norm_num), zpow_one, zpow_natCast]
    refine fl_onGrid (g := 1 - (w:ℤ)) (by omega) ⟨n, by rw [hz']; ring⟩ ?_
    rw [hz', abs_div, abs_of_pos hP, ← mul_div_assoc]
    refine div_le_div_of_nonneg_right ?_ hP.le
    rw [abs_of_nonneg (by positivity)]
    have : (n:ℚ) ≤ 2 ^ 24 := by exact_mod_cast h1.trans hpz
    linarith
  have e3 : fsub (2 * (n:ℚ) / 2 ^ w) 1 = 2 * (n:ℚ) / 2 ^ w - 1 := by
    unfold fsub
    have : 2 * (n:ℚ) / 2 ^ w - 1 = ((2 * n - 2 ^ w : ℤ) : ℚ) / 2 ^ w := by push_cast; field_simp
    rw [this]
    exact grid _ (by rw [abs_le]; omega)
  rw [e1, e2, e3]
  push_cast
  ring

private theorem seqFits_perm {env : Gen.Env} {width : ℕ} {name : String} (hw : width ≤ 24) {l : List ℤ} (hl : Gen.rng env width name = .ok l)
    (hp : Verif.Spec.IsPermSeq width l) : Spec.SeqFits env width name := by
  intro l' hl'
  have e : l' = l := Except.ok.inj (hl'.symm.trans hl)
  rw [e]
  exact perm_fits hw hp

/-- The loop of the hybrid cell: it has one result, the value of the exact output stream. -/
private theorem hub_iff {B I H : ℕ} (hB : 0 < B) (hfan : H + I + 1 < 2 ^ 21) (env : Gen.Env) (mode : String) (width d : ℕ) (hw : width ≤ 24) (hd : d ≤ 24)
    (name : String) (hsd : Spec.SeqFits env d name) (depth : ℤ) (h1 : 1 ≤ depth) (h2 : depth ≤ 24)
    (wf wn : Fin H → Fin (H + I) → ℚ) (bias : Bool) (bf bn : Option (Fin H → ℚ)) (x : Fin B → Fin I → ℚ) (hx? : Option (Fin B → Fin H → ℚ))
    (hx : Fin B → Fin H → ℚ) (hhx : hx = hx?.getD fun _ _ => 0) (c : Fsu B I H)
    (hc : FloatNet.mkFsu env mode width d name depth wf wn bias bf bn (some hx) = .ok c) (l : List ℤ) (hl : Gen.rng env width name = .ok l)
    (hp : Verif.Spec.IsPermSeq width l) (y : Fin B → Fin H → ℚ)
    (hy : Rnn.hubMGU env mode width d name depth (fun o i => Spec.storedF mode width (wf o i)) (fun o i => Spec.storedF mode width (wn o i)) bias
      (bf.map fun v o => Spec.storedF mode width (v o)) (bn.map fun v o => Spec.storedF mode width (v o))
      (fun b i => Spec.storedF mode width (x b i)) (some fun b o => Spec.storedF mode width (hx b o)) = .ok y) (y' : Fin B → Fin H → ℚ) :
    HubMgu env mode width d name depth wf wn bias bf bn x hx? y' ↔ y' = y := by
  have hs : Spec.SeqFits env width name := seqFits_perm hw hl hp
  have hc' := mkFsu_float_some hc hs hsd
  obtain ⟨hparts, hwd⟩ := parts hc'
  obtain ⟨hm, -⟩ := mkFsu_ok hc'
  have hv := C59_value hB env mode width d name depth (fun o i => Spec.storedF mode width (wf o i))
    (fun o i => Spec.storedF mode width (wn o i)) bias (bf.map fun v o => Spec.storedF mode width (v o)) (bn.map fun v o => Spec.storedF mode width (v o))
    (fun b i => Spec.storedF mode width (x b i)) (some fun b o => Spec.storedF mode width (hx b o)) (fun b o => Spec.storedF mode width (hx b o)) rfl c
  obtain ⟨y0, hy0, k1, k2, k3⟩ := hv hc' l hl hp
  obtain rfl : y0 = y := Except.ok.inj (k1.symm.trans hy)
  have ecode : ∀ a, Spec.coded width l (Spec.storedF mode width a) = fun t : ℕ => Gen.bsGen l (Float.binGen .bipolar width a) t := by
    intro a
    funext t
    unfold Spec.coded
    rw [binGenM_stored hm]
  have hseq : seq l = l := seq_exact (hs l hl)
  have hlen := (C01_length_check l).1 ⟨width, hp.1⟩
  obtain ⟨r, st, r1, r2, r3, r4⟩ := cell_prefix hB c _ depth hparts h1 h2 (by rw [hwd]; exact hd) (fan_lt bias hfan)
    (fun b i => Spec.coded width l (Spec.storedF mode width (x b i))) (fun b o => Spec.coded width l (Spec.storedF mode width (hx b o)))
    (fun b i t => Gen.bsGen_isBit _ _ _) (fun b o t => Gen.bsGen_isBit _ _ _)
  simp only [ecode] at r1 r3 r4 k2
  have ery : ∀ t b o, (r t).hy b o = hy0 b o t := by
    intro t b o
    obtain ⟨r', e1, e2⟩ := k2 t
    rw [r1 t] at e1
    obtain rfl := Except.ok.inj e1
    exact e2 b o
  have hbit : ∀ b o, Verif.Spec.BitStream (hy0 b o) := by
    intro b o t
    obtain ⟨r', e1, e2⟩ := C56_bits hB c (fun b i => fun t : ℕ => Gen.bsGen l (Float.binGen .bipolar width (x b i)) t)
      (fun b o => fun t : ℕ => Gen.bsGen l (Float.binGen .bipolar width (hx b o)) t) t
    rw [r1 t] at e1
    obtain rfl := Except.ok.inj e1
    rw [← ery]
    exact (e2 b o).2.2.2.2.2
  have val : ∀ b o, peValue .bipolar (peCount (hy0 b o) (2 ^ width)) = y0 b o := fun b o => by
    rw [(k3 b o).1]; exact peValue_pow _ (hbit b o) width hw
  constructor
  · rintro ⟨c2, m2, l1, l2, e1, e2, e3, e4, st', pe, s0, p0, run, rfl⟩
    rw [← hhx, hc] at e1
    obtain rfl := Except.ok.inj e1
    rw [hm] at e2
    obtain rfl := Except.ok.inj e2
    rw [hl] at e3
    obtain rfl := Except.ok.inj e3
    rw [hlen] at e4
    obtain rfl := Except.ok.inj e4
    rw [hseq, ← hhx] at run
    have hq : ∀ t, ∃ q, t < 2 ^ width → (fsu c).step (st' t) (fun b i => Gen.bsGen l (Float.binGen .bipolar width (x b i)) t,
        fun b o => Gen.bsGen l (Float.binGen .bipolar width (hx b o)) t) (st' (t + 1)) q ∧ pe (t + 1) = fun b o => peMonitor (pe t b o) (q.hy b o) := by
      intro t
      by_cases ht : t < 2 ^ width
      · obtain ⟨q, hq⟩ := run t ht; exact ⟨q, fun _ => hq⟩
      · exact ⟨r t, fun h => absurd h ht⟩
    choose q hq using hq
    have eq := r4 (2 ^ width) st' q s0 fun t ht => (hq t ht).1
    have hpe : ∀ t ≤ 2 ^ width, pe t = fun b o => peCount (hy0 b o) t := by
      intro t
      induction t with
      | zero => intro _; rw [p0]; rfl
      | succ t ih =>
        intro ht
        rw [(hq t (by omega)).2, ih (by omega), eq t (by omega)]
        funext b o
        rw [ery]
        rfl
    rw [hpe _ le_rfl]
    funext b o
    exact val b o
  · rintro rfl
    refine ⟨c, .bipolar, l, l, by rw [← hhx]; exact hc, hm, hl, hlen, st, fun t b o => peCount (hy0 b o) t, r2, rfl, fun t ht => ⟨r t, ?_, ?_⟩, ?_⟩
    · rw [hseq, ← hhx]; exact r3 t
    · funext b o
      rw [ery]
      rfl
    · funext b o
      exact (val b o).symm

/-- C98: the hybrid cell in binary32 has exactly one result, the one that exact arithmetic gives for parameters, input and state as they are stored. -/
theorem C98_hybrid {B I H : ℕ} (hB : 0 < B) (hfan : H + I + 1 < 2 ^ 21) (env : Gen.Env) (mode : String) (width d : ℕ) (hw : width ≤ 24) (hd : d ≤ 24)
    (name : String) (hsd : Spec.SeqFits env d name) (depth : ℤ) (h1 : 1 ≤ depth) (h2 : depth ≤ 24)
    (wf wn : Fin H → Fin (H + I) → ℚ) (bias : Bool) (bf bn : Option (Fin H → ℚ)) (x : Fin B → Fin I → ℚ) (hx? : Option (Fin B → Fin H → ℚ))
    (hx : Fin B → Fin H → ℚ) (hhx : hx = hx?.getD fun _ _ => 0) (c : Fsu B I H)
    (hc : FloatNet.mkFsu env mode width d name depth wf wn bias bf bn (some hx) = .ok c) (l : List ℤ) (hl : Gen.rng env width name = .ok l)
    (hp : Verif.Spec.IsPermSeq width l) :
    ∃ y, Rnn.hubMGU env mode width d name depth (fun o i => Spec.storedF mode width (wf o i)) (fun o i => Spec.storedF mode width (wn o i)) bias
        (bf.map fun v o => Spec.storedF mode width (v o)) (bn.map fun v o => Spec.storedF mode width (v o))
        (fun b i => Spec.storedF mode width (x b i)) (some fun b o => Spec.storedF mode width (hx b o)) = .ok y ∧
      ∀ y', HubMgu env mode width d name depth wf wn bias bf bn x hx? y' ↔ y' = y := by
  have hs : Spec.SeqFits env width name := seqFits_perm hw hl hp
  have hv := C59_value hB env mode width d name depth (fun o i => Spec.storedF mode width (wf o i))
    (fun o i => Spec.storedF mode width (wn o i)) bias (bf.map fun v o => Spec.storedF mode width (v o)) (bn.map fun v o => Spec.storedF mode width (v o))
    (fun b i => Spec.storedF mode width (x b i)) (some fun b o => Spec.storedF mode width (hx b o)) (fun b o => Spec.storedF mode width (hx b o)) rfl c
  obtain ⟨y, -, k1, -⟩ := hv (mkFsu_float_some hc hs hsd) l hl hp
  exact ⟨y, k1, hub_iff hB hfan env mode width d hw hd name hsd depth h1 h2 wf wn bias bf bn x hx? hx hhx c hc l hl hp y k1⟩

/-- C98: what the hybrid cell returns in binary32, with Sobol sequences, is the hard cell's next state for the given parameters, input and state, up to
the deviations of the streams and the error of the stored numbers. -/
theorem C98_end_to_end {B I H : ℕ} (hB : 0 < B) (hfan : H + I + 1 < 2 ^ 21) (env : Gen.Env) (mode : String) (width d : ℕ) (name : String) (depth : ℤ)
    (hn : name.toLower ∈ ["sobol", "rc"]) (hdir : Gen.DirOK env.sobolM) (hw : width ≤ env.maxbit) (hwd : d ≤ env.maxbit) (hw24 : width ≤ 24)
    (hd24 : d ≤ 24) (hdep : 4 ≤ depth) (hdep24 : depth ≤ 24) (p : Params ℚ I H) (hwf : ∀ o i, Verif.Spec.IsF32 (p.wf o i) ∧ |p.wf o i| ≤ 1)
    (hwn : ∀ o i, Verif.Spec.IsF32 (p.wn o i) ∧ |p.wn o i| ≤ 1) (bias : Bool) (hbias : bias = false → p.bf = none ∧ p.bn = none)
    (hbf : ∀ v, p.bf = some v → ∀ o, Verif.Spec.IsF32 (v o) ∧ |v o| ≤ 1) (hbn : ∀ v, p.bn = some v → ∀ o, Verif.Spec.IsF32 (v o) ∧ |v o| ≤ 1)
    (x : Fin B → Fin I → ℚ) (hxr : ∀ b i, Verif.Spec.IsF32 (x b i) ∧ |x b i| ≤ 1) (hx : Fin B → Fin H → ℚ)
    (hhr : ∀ b o, Verif.Spec.IsF32 (hx b o) ∧ |hx b o| ≤ 1) (c : Fsu B I H)
    (hc : FloatNet.mkFsu env mode width d name depth p.wf p.wn bias p.bf p.bn (some hx) = .ok c)
    (hd3 : 2 + Spec.c3 I H width d bias (4 * width) / 2 ≤ (2:ℚ) ^ (depth - 2)) :
    ∃ y : Fin B → Fin H → ℚ, (∀ y', HubMgu env mode width d name depth p.wf p.wn bias p.bf p.bn x (some hx) y' ↔ y' = y) ∧ ∀ b o,
      |y b o - (hardCell p (x b) (hx b)).hy o|
      ≤ (2 + 2 * Spec.c2 I H width bias (4 * width)) / 2 ^ d + (2 + 2 * Spec.c3 I H width d bias (4 * width)) / 2 ^ width
        + ((2 * H + 2) * (2 * (H + I + 2)) + 4 * (I + 1)) * Spec.convErr width := by
  have hsd := C97_sequences env d hd24 name (Or.inl ⟨hn, hdir, hwd⟩)
  have hs := C97_sequences env width hw24 name (Or.inl ⟨hn, hdir, hw⟩)
  obtain ⟨l, hl, hperm⟩ := C02_sobol_perm env width name hn hdir hw
  have hc' := mkFsu_float_some hc hs hsd
  obtain ⟨hm, -⟩ := mkFsu_ok hc'
  have near : ∀ a, Verif.Spec.IsF32 a ∧ |a| ≤ 1 → |storedB width a - a| ≤ Spec.convErr width ∧ -1 ≤ storedB width a ∧ storedB width a ≤ 1 :=
    fun a h => storedB_near width a h.1 (abs_le.1 h.2)
  have rng : ∀ a, Verif.Spec.IsF32 a ∧ |a| ≤ 1 → -1 ≤ Spec.storedF mode width a ∧ Spec.storedF mode width a ≤ 1 := fun a h => by
    rw [storedF_eq hm]; exact (near a h).2
  have rngb : ∀ be : Option (Fin H → ℚ), (∀ v, be = some v → ∀ o, Verif.Spec.IsF32 (v o) ∧ |v o| ≤ 1) →
      ∀ v, be.map (fun v o => Spec.storedF mode width (v o)) = some v → ∀ o, -1 ≤ v o ∧ v o ≤ 1 := by
    intro be hbe v hv o
    cases be with
    | none => cases hv
    | some u => cases hv; exact rng _ (hbe u rfl o)
  obtain ⟨y, k1, k2⟩ := C62_hybrid hB env mode width d name depth hn hdir hw hwd hdep _ _ (fun o i => rng _ (hwf o i)) (fun o i => rng _ (hwn o i)) bias
    _ _ (rngb p.bf hbf) (rngb p.bn hbn) (fun b i => Spec.storedF mode width (x b i)) (fun b i => rng _ (hxr b i))
    (some fun b o => Spec.storedF mode width (hx b o)) (fun b o => Spec.storedF mode width (hx b o)) rfl (fun b o => rng _ (hhr b o)) c hc' hd3
  refine ⟨y, hub_iff hB hfan env mode width d hw24 hd24 name hsd depth (by omega) hdep24 p.wf p.wn bias p.bf p.bn x (some hx) hx rfl c hc l hl hperm y k1,
    fun b o => ?_⟩
  have h4 := k2 b o
  simp only [quant_stored hm] at h4
  set q : Params ℚ I H := Spec.stored width (fun o i => Spec.storedF mode width (p.wf o i)) (fun o i => Spec.storedF mode width (p.wn o i)) bias
    (p.bf.map fun v o => Spec.storedF mode width (v o)) (p.bn.map fun v o => Spec.storedF mode width (v o)) with hq
  have ebias : ∀ (be : Option (Fin H → ℚ)), (bias = false → be = none) → (∀ v, be = some v → ∀ o, Verif.Spec.IsF32 (v o) ∧ |v o| ≤ 1) → ∀ o,
      |((if bias then (be.map fun v o => Spec.storedF mode width (v o)).map fun v o => Spec.quant .bipolar width (v o) else none).map fun v => v o).getD 0
        - (be.map fun v => v o).getD 0| ≤ Spec.convErr width := by
    intro be hb hbe o
    have pos : 0 ≤ Spec.convErr width := by unfold Spec.convErr; positivity
    cases bias with
    | false => rw [hb rfl]; simpa using pos
    | true =>
        cases be with
        | none => simpa using pos
        | some v =>
          have := (near (v o) (hbe v rfl o)).1
          rw [← quant_stored hm] at this
          simpa using this
  have h3 := C62_sensitivity p q (x b) (fun i => storedB width (x b i)) (hx b)
    (fun o => storedB width (hx b o)) (Spec.convErr width) (fun o i => (hwf o i).2) (fun o i => (hwn o i).2)
    (fun i => abs_le.2 (near _ (hxr b i)).2) (fun o => abs_le.2 (near _ (hhr b o)).2)
    (fun o i => by
      show |Spec.quant .bipolar width (Spec.storedF mode width (p.wf o i)) - p.wf o i| ≤ _
      rw [quant_stored hm]; exact (near _ (hwf o i)).1)
    (fun o i => by
      show |Spec.quant .bipolar width (Spec.storedF mode width (p.wn o i)) - p.wn o i| ≤ _
      rw [quant_stored hm]; exact (near _ (hwn o i)).1)
    (ebias p.bf (fun h => (hbias h).1) hbf) (ebias p.bn (fun h => (hbias h).2) hbn) (fun i => (near _ (hxr b i)).1) (fun o => (near _ (hhr b o)).1) o
  have := abs_add_le (y b o - (hardCell q (fun i => storedB width (x b i)) (fun o => storedB width (hx b o))).hy o)
    ((hardCell q (fun i => storedB width (x b i)) (fun o => storedB width (hx b o))).hy o - (hardCell p (x b) (hx b)).hy o)
  rw [sub_add_sub_cancel] at this
  have e : ((2 * (H:ℚ) + 2) * (2 * (H + I + 2)) + 4 * (I + 1)) * Spec.convErr width
      = (2 * H + 2) * ((H + I + 2) * (2 * Spec.convErr width)) + 4 * (I + 1) * Spec.convErr width := by ring
  rw [e]
  linarith

/-- Non-vacuity: a cell of one input and one unit can be built in binary32; its sequences fit; its accumulators may be deep enough; the bound is below
one tenth. -/
example : (FloatNet.mkFsu (B := 1) (I := 1) (H := 1) ⟨30, fun _ => 1, fun _ _ => false, []⟩ "Bipolar" 3 3 "Sobol" 20 (fun _ _ => 1/2) (fun _ _ => -1/2)
      true (some fun _ => 1/4) (some fun _ => 0) (some fun _ _ => 1/2)).toBool = true := by decide +kernel

example (env : Gen.Env) (hdir : Gen.DirOK env.sobolM) (hm : env.maxbit = 30) : Spec.SeqFits env 24 "Sobol" :=
  C97_sequences env 24 (by norm_num) "Sobol" (Or.inl ⟨by decide +kernel, hdir, by omega⟩)

example : 2 + Spec.c3 1 1 24 16 true (4 * (24:ℕ)) / 2 ≤ (2:ℚ) ^ ((20:ℤ) - 2) ∧
    (2 + 2 * Spec.c2 1 1 24 true (4 * (24:ℕ))) / 2 ^ 16 + (2 + 2 * Spec.c3 1 1 24 16 true (4 * (24:ℕ))) / 2 ^ 24
      + ((2 * (1:ℕ) + 2) * (2 * ((1:ℕ) + (1:ℕ) + 2)) + 4 * ((1:ℕ) + 1)) * Spec.convErr 24 < (1:ℚ) / 10 := by
  constructor <;> norm_num [Spec.c3, Spec.c2, Spec.c1, Spec.convErr]

end Verif.Props
