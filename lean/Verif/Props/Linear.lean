import Verif.Props.Temporal
import Verif.Spec
import Verif.Model.Linear
import Verif.Props.Mul
import Verif.Props.Add
import Mathlib.Algebra.BigOperators.Fin

/-!
# Properties C44–C45, C57: `FSULinearPC` and `FSULinear`
-/

namespace Verif.Props

open Verif Finset Gen Linear

/-- The input tensor at cycle `t` of a batch of `B` rows of `I` bitstreams. -/
def pcIn {B I : ℕ} (x : Fin B → Fin I → ℕ → ℤ) (t : ℕ) : List (Fin I → ℤ) := List.ofFn fun b i => x b i t

/-- Result of call `t` of a fresh layer. -/
def pcOut {B I O : ℕ} (c : PC I O) (x : Fin B → Fin I → ℕ → ℤ) (t : ℕ) : Except PyErr (List (Fin O → ℤ)) :=
  outAtE (stepPC c) (PCSt.init I O) (pcIn x) t

/-- The bias bit of cycle `t`: a bitstream generated in step with the cycle count, nothing without bias. -/
def Spec.biasBit {O : ℕ} (rng : List ℤ) (b : Option (Fin O → ℤ)) (o : Fin O) (t : ℕ) : ℤ := match b with
  | none => 0
  | some b => bsGen rng (b o) t

private theorem expand_map {α β : Type} (B : ℕ) (g : α → β) (l : List α) : expand B (l.map g) = (expand B l).map g := by
  unfold expand
  rw [List.length_map]
  split_ifs <;> simp [List.map_flatten]

private theorem expand_single {α : Type} (B : ℕ) (a : α) : expand B [a] = List.ofFn fun _ : Fin B => a := by
  unfold expand
  have : (List.ofFn fun _ : Fin B => a) = List.replicate B a := by
    apply List.ext_getElem <;> simp
  rw [this]
  have h2 : (List.replicate B [a]).flatten = List.replicate B a := by
    induction B with
    | zero => rfl
    | succ n ih =>
        have := ih (by apply List.ext_getElem <;> simp)
        rw [List.replicate_succ, List.flatten_cons, this]; rfl
  split_ifs with h
  · exact h2
  · simp at h; subst h; rfl

private theorem expand_full {α : Type} {B : ℕ} {l : List α} (h : l.length = B) : expand B l = l := by
  unfold expand; rw [if_neg (by simpa using h)]

private theorem zip_ofFn {α β γ : Type} {B : ℕ} (f : α → β → γ) (a : Fin B → α) (b : Fin B → β) :
    zipBatch f (List.ofFn a) (List.ofFn b) = .ok (List.ofFn fun k => f (a k) (b k)) := by
  unfold zipBatch
  rw [if_pos (by simp)]
  congr 1
  apply List.ext_getElem <;> simp

private theorem map_ofFn' {α β : Type} {B : ℕ} (f : α → β) (a : Fin B → α) :
    (List.ofFn a).map f = List.ofFn fun k => f (a k) := by rw [List.map_ofFn]; rfl

/-- Sequence position for input one. -/
def idx1 {B I O : ℕ} (c : PC I O) (x : Fin B → Fin I → ℕ → ℤ) (t : ℕ) (b : Fin B) (i : Fin I) : ℤ :=
  if c.wtc then t else Verif.Spec.ones (x b i) t

/-- One layer output as a function of the positions. -/
def pcVal {B I O : ℕ} (c : PC I O) (x : Fin B → Fin I → ℕ → ℤ) (t : ℕ) (b : Fin B) (o : Fin O) : ℤ :=
  (∑ i, (x b i t * bsGen c.rng (c.weight o i) (idx1 c x t b i) +
    if c.mode = .bipolar then (1 - x b i t) * (1 - bsGen c.rng (c.weight o i)
      (if c.wtc then t else t - Verif.Spec.ones (x b i) t)) else 0)) + Spec.biasBit c.rng c.bias o t

private structure Inv {B I O : ℕ} (c : PC I O) (x : Fin B → Fin I → ℕ → ℤ) (t : ℕ) (s : PCSt I O) : Prop where
  h1 : expand B s.wrdx1 = List.ofFn fun b _ i => idx1 c x t b i
  h0 : c.mode = .bipolar → c.wtc = false → expand B s.wrdx0 = List.ofFn fun b _ i => (t:ℤ) - Verif.Spec.ones (x b i) t
  hb : c.bias ≠ none → ∀ o, s.brdx o = t
  hl : 0 < t → s.wrdx1.length = B

private theorem inv_init {B I O : ℕ} (c : PC I O) (x : Fin B → Fin I → ℕ → ℤ) : Inv c x 0 (PCSt.init I O) where
  h1 := by
    show expand B [fun _ _ => (0:ℤ)] = _
    rw [expand_single]; simp [idx1]
  h0 := fun _ _ => by
    show expand B [fun _ _ => (0:ℤ)] = _
    rw [expand_single]; simp
  hb := fun _ _ => rfl
  hl := fun h => absurd h (lt_irrefl _)

private theorem addBias_ofFn {B O : ℕ} (rng : List ℤ) (bias : Option (Fin O → ℤ)) (brdx : Fin O → ℤ) (t : ℕ)
    (h : bias ≠ none → ∀ o, brdx o = t) (f : Fin B → Fin O → ℤ) :
    (addBias rng bias brdx (List.ofFn f)).1 = (List.ofFn fun b o => f b o + Spec.biasBit rng bias o t) ∧
    (bias ≠ none → ∀ o, (addBias rng bias brdx (List.ofFn f)).2 o = (t + 1 : ℕ)) := by
  cases bias with
  | none => simp [addBias, Spec.biasBit]
  | some b =>
      have h' := h (by simp)
      refine ⟨?_, fun _ o => ?_⟩
      · show (List.ofFn f).map _ = _
        rw [map_ofFn']; simp only [Spec.biasBit, h']
      · show brdx o + 1 = _
        rw [h' o]; push_cast; ring

private theorem zipWith_addCounts {B O : ℕ} (f g : Fin B → Fin O → ℤ) :
    List.zipWith addCounts (List.ofFn f) (List.ofFn g) = List.ofFn fun b o => f b o + g b o := by
  apply List.ext_getElem (by simp)
  intro n h1 h2
  funext o
  simp [addCounts]

private theorem step_inv {B I O : ℕ} (hB : 0 < B) (c : PC I O) (x : Fin B → Fin I → ℕ → ℤ) (t : ℕ) (s : PCSt I O)
    (h : Inv c x t s) : ∃ s', stepPC c s (pcIn x t) = .ok (s', List.ofFn fun b o => pcVal c x t b o) ∧ Inv c x (t + 1) s' := by
  have hlen : (pcIn x t).length = B := by simp [pcIn]
  have hones : (if c.wtc = true then (pcIn x t).map fun _ _ => (1:ℤ) else pcIn x t)
      = List.ofFn fun (b : Fin B) (i : Fin I) => if c.wtc then (1:ℤ) else x b i t := by
    by_cases hw : c.wtc = true
    · simp only [hw, if_true, pcIn, map_ofFn']
    · simp only [hw, pcIn]; rfl
  have hinv : (pcIn x t).map (fun (y : Fin I → ℤ) (i : Fin I) => 1 - y i) = List.ofFn fun b i => 1 - x b i t := by
    simp only [pcIn, map_ofFn']
  have hidx : ∀ b i, idx1 c x t b i + (if c.wtc then (1:ℤ) else x b i t) = idx1 c x (t + 1) b i := by
    intro b i; unfold idx1
    cases c.wtc
    · simp [Verif.Spec.ones_succ]
    · simp
  have hwr : zipBatch addRow (expand B s.wrdx1) (if c.wtc = true then (pcIn x t).map fun _ _ => (1:ℤ) else pcIn x t)
      = .ok (List.ofFn fun b (_ : Fin O) i => idx1 c x (t + 1) b i) := by
    rw [hones, h.h1, zip_ofFn]
    show Except.ok (List.ofFn fun b (_ : Fin O) i => idx1 c x t b i + (if c.wtc = true then (1:ℤ) else x b i t)) = _
    simp only [hidx]
  have hmul : zipBatch mulRow (expand B (s.wrdx1.map fun (m : Fin O → Fin I → ℤ) (o : Fin O) (i : Fin I) => bsGen c.rng (c.weight o i) (m o i)))
      (pcIn x t) = .ok (List.ofFn fun b o => ∑ i, x b i t * bsGen c.rng (c.weight o i) (idx1 c x t b i)) := by
    rw [expand_map, h.h1, map_ofFn']
    exact zip_ofFn _ _ _
  have hbias := addBias_ofFn c.rng c.bias s.brdx t h.hb
    (fun (b : Fin B) o => ∑ i, x b i t * bsGen c.rng (c.weight o i) (idx1 c x t b i))
  have hexp1 : expand B (List.ofFn fun b (_ : Fin O) i => idx1 c x (t + 1) b i) = _ :=
    expand_full (by simp)
  have hone0 : ∀ b i, (t:ℤ) - Verif.Spec.ones (x b i) t + (1 - x b i t) = ((t + 1 : ℕ) : ℤ) - Verif.Spec.ones (x b i) (t + 1) := by
    intro b i; rw [Verif.Spec.ones_succ]; push_cast; ring
  set ob := addBias c.rng c.bias s.brdx (List.ofFn fun (b : Fin B) o => ∑ i, x b i t * bsGen c.rng (c.weight o i) (idx1 c x t b i))
  cases hm : c.mode with
  | unipolar =>
      refine ⟨⟨List.ofFn fun b (_ : Fin O) i => idx1 c x (t + 1) b i, s.wrdx0, ob.2⟩, ?_, hexp1, fun h' => ?_, hbias.2, fun _ => by simp⟩
      · unfold stepPC
        simp only [hlen, hm]
        rw [if_neg (by omega), hwr, hmul]
        show Except.ok (_, ob.1) = _
        rw [hbias.1]
        simp only [pcVal, hm]; simp; rfl
      · rw [hm] at h'; cases h'
  | bipolar =>
      cases hw : c.wtc with
      | true =>
          refine ⟨⟨List.ofFn fun b (_ : Fin O) i => idx1 c x (t + 1) b i, s.wrdx0, ob.2⟩, ?_, hexp1, fun _ h' => ?_, hbias.2, fun _ => by simp⟩
          · have hmul0 : zipBatch mulRow ((expand B (s.wrdx1.map fun (m : Fin O → Fin I → ℤ) (o : Fin O) (i : Fin I) =>
                bsGen c.rng (c.weight o i) (m o i))).map fun (w : Fin O → Fin I → ℤ) (o : Fin O) (i : Fin I) => 1 - w o i)
                ((pcIn x t).map (fun (y : Fin I → ℤ) (i : Fin I) => 1 - y i))
                = .ok (List.ofFn fun b o => ∑ i, (1 - x b i t) * (1 - bsGen c.rng (c.weight o i) (idx1 c x t b i))) := by
              rw [hinv, expand_map, h.h1, map_ofFn', map_ofFn']
              exact zip_ofFn _ _ _
            unfold stepPC
            simp only [hlen, hm]
            rw [if_neg (by omega), hwr, hmul]
            simp only [hw, if_true]
            rw [hmul0]
            show Except.ok (_, List.zipWith addCounts ob.1 _) = _
            rw [hbias.1]
            congr 2
            rw [zipWith_addCounts]
            congr 1
            funext b o
            simp only [pcVal, hm, hw, if_true, sum_add_distrib]
            simp only [idx1, hw, if_true]; ring
          · rw [hw] at h'; cases h'
      | false =>
          refine ⟨⟨List.ofFn fun b (_ : Fin O) i => idx1 c x (t + 1) b i,
            List.ofFn fun b (_ : Fin O) i => ((t + 1 : ℕ) : ℤ) - Verif.Spec.ones (x b i) (t + 1), ob.2⟩, ?_, hexp1,
            fun _ _ => expand_full (by simp), hbias.2, fun _ => by simp⟩
          have hwr0 : zipBatch addRow (expand B s.wrdx0) ((pcIn x t).map (fun (y : Fin I → ℤ) (i : Fin I) => 1 - y i))
              = .ok (List.ofFn fun b (_ : Fin O) i => ((t + 1 : ℕ) : ℤ) - Verif.Spec.ones (x b i) (t + 1)) := by
            rw [hinv, h.h0 hm hw, zip_ofFn]
            show Except.ok (List.ofFn fun b (_ : Fin O) i => (t:ℤ) - Verif.Spec.ones (x b i) t + (1 - x b i t)) = _
            simp only [hone0]
          have hmul0 : zipBatch mulRow (expand B (s.wrdx0.map fun (m : Fin O → Fin I → ℤ) (o : Fin O) (i : Fin I) =>
              1 - bsGen c.rng (c.weight o i) (m o i))) ((pcIn x t).map (fun (y : Fin I → ℤ) (i : Fin I) => 1 - y i))
              = .ok (List.ofFn fun b o => ∑ i, (1 - x b i t) * (1 - bsGen c.rng (c.weight o i) ((t:ℤ) - Verif.Spec.ones (x b i) t))) := by
            rw [hinv, expand_map, h.h0 hm hw, map_ofFn']
            exact zip_ofFn _ _ _
          unfold stepPC
          simp only [hlen, hm]
          rw [if_neg (by omega), hwr, hmul]
          simp only [hw]
          rw [hwr0, hmul0]
          show Except.ok (_, List.zipWith addCounts ob.1 _) = _
          rw [hbias.1]
          congr 2
          rw [zipWith_addCounts]
          congr 1
          funext b o
          simp only [pcVal, hm, hw, if_true, sum_add_distrib]
          simp only [idx1, hw, Bool.false_eq_true, if_false]; ring

theorem pc_run {B I O : ℕ} (hB : 0 < B) (c : PC I O) (x : Fin B → Fin I → ℕ → ℤ) (t : ℕ) :
    pcOut c x t = .ok (List.ofFn fun b o => pcVal c x t b o) := by
  have hst : ∀ t, ∃ s, stateAtE (stepPC c) (PCSt.init I O) (pcIn x) t = .ok s ∧ Inv c x t s := by
    intro t
    induction t with
    | zero => exact ⟨_, rfl, inv_init c x⟩
    | succ t ih =>
        obtain ⟨s, hs, hi⟩ := ih
        obtain ⟨s', h1, h2⟩ := step_inv hB c x t s hi
        exact ⟨s', stateAtE_succ_ok hs h1, h2⟩
  obtain ⟨s, hs, hi⟩ := hst t
  obtain ⟨s', h1, -⟩ := step_inv hB c x t s hi
  exact outAtE_ok hs h1

/-! ## C44 -/

/-- C44: with rate coded weights the count of every row, output and cycle is the sum of the bits that one
static multiplier per feature produces from the same history, plus the bias bit. -/
theorem C44_products {B I O : ℕ} (hB : 0 < B) (c : PC I O) (hw : c.wtc = false) (w : ℕ) (x : Fin B → Fin I → ℕ → ℤ)
    (hx : ∀ b i, Verif.Spec.BitStream (x b i)) (t : ℕ) :
    pcOut c x t = .ok (List.ofFn fun b o =>
      (∑ i, mulOut c.mode w c.rng (c.weight o i) (x b i) t) + Spec.biasBit c.rng c.bias o t) := by
  rw [pc_run hB]
  congr 3
  funext b o
  unfold pcVal
  congr 1
  apply sum_congr rfl
  intro i _
  cases hm : c.mode with
  | unipolar => rw [C24_bit (hx b i)]; simp [idx1, hw]
  | bipolar => rw [C25_bit (hx b i)]; simp [idx1, hw]

/-- Non-vacuity: a bipolar layer of three features and a batch of two. -/
example : ∀ (b : Fin 2) (i : Fin 3), Verif.Spec.BitStream (fun t : ℕ => ((t + b + i) % 2 : ℤ)) := by
  intro b i t
  have := Int.emod_two_eq_zero_or_one ((t:ℤ) + b + i)
  exact this

private theorem biasBit_bit {O : ℕ} (rng : List ℤ) (b : Option (Fin O → ℤ)) (o : Fin O) (t : ℕ) :
    IsBit (Spec.biasBit rng b o t) := by
  cases b with
  | none => exact Or.inl rfl
  | some b => exact isBit_ind _

/-- Number of addends of a layer: the features and the bias. -/
def Spec.addends {O : ℕ} (I : ℕ) (b : Option (Fin O → ℤ)) : ℕ := I + if b = none then 0 else 1

private theorem biasBit_le {O : ℕ} (rng : List ℤ) (b : Option (Fin O → ℤ)) (o : Fin O) (t : ℕ) :
    Spec.biasBit rng b o t ≤ if b = none then 0 else 1 := by
  cases b with
  | none => exact le_refl _
  | some b => exact (isBit_ind _).le_one

private theorem pcVal_range {B I O : ℕ} (c : PC I O) (x : Fin B → Fin I → ℕ → ℤ)
    (hx : ∀ b i, Verif.Spec.BitStream (x b i)) (t : ℕ) (b : Fin B) (o : Fin O) :
    0 ≤ pcVal c x t b o ∧ pcVal c x t b o ≤ Spec.addends I c.bias := by
  have hbit : ∀ i, IsBit (x b i t * bsGen c.rng (c.weight o i) (idx1 c x t b i) +
      if c.mode = .bipolar then (1 - x b i t) * (1 - bsGen c.rng (c.weight o i)
        (if c.wtc then t else t - Verif.Spec.ones (x b i) t)) else 0) := by
    intro i
    have h1 : IsBit (bsGen c.rng (c.weight o i) (idx1 c x t b i)) := isBit_ind _
    have h2 : IsBit (1 - bsGen c.rng (c.weight o i) (if c.wtc then t else t - Verif.Spec.ones (x b i) t)) :=
      isBit_compl (isBit_ind _)
    generalize bsGen c.rng (c.weight o i) (idx1 c x t b i) = p at *
    generalize (1 - bsGen c.rng (c.weight o i) (if c.wtc then t else t - Verif.Spec.ones (x b i) t)) = q at *
    rcases hx b i t with h | h <;> rw [h] <;> split_ifs <;> simp <;> first | exact Or.inl rfl | assumption
  have hb := biasBit_bit c.rng c.bias o t
  have hb' := biasBit_le c.rng c.bias o t
  unfold pcVal Spec.addends
  refine ⟨add_nonneg (sum_nonneg fun i _ => (hbit i).nonneg) hb.nonneg, ?_⟩
  have : ∑ i, (x b i t * bsGen c.rng (c.weight o i) (idx1 c x t b i) +
      if c.mode = .bipolar then (1 - x b i t) * (1 - bsGen c.rng (c.weight o i)
        (if c.wtc then t else t - Verif.Spec.ones (x b i) t)) else 0) ≤ ∑ _i : Fin I, (1:ℤ) :=
    sum_le_sum fun i _ => (hbit i).le_one
  rw [sum_const, card_univ, Fintype.card_fin] at this
  generalize ∑ i, (x b i t * bsGen c.rng (c.weight o i) (idx1 c x t b i) +
      if c.mode = .bipolar then (1 - x b i t) * (1 - bsGen c.rng (c.weight o i)
        (if c.wtc then t else t - Verif.Spec.ones (x b i) t)) else 0) = p at *
  split_ifs at hb' ⊢ <;> simp at this ⊢ <;> linarith

/-- C44: every count of every call, whatever the coding of the weights, lies between zero and the number
of addends, and there is one row per batch element. -/
theorem C44_range {B I O : ℕ} (hB : 0 < B) (c : PC I O) (x : Fin B → Fin I → ℕ → ℤ)
    (hx : ∀ b i, Verif.Spec.BitStream (x b i)) (t : ℕ) :
    ∃ y, pcOut c x t = .ok y ∧ y.length = B ∧ ∀ r ∈ y, ∀ o, 0 ≤ r o ∧ r o ≤ Spec.addends I c.bias := by
  refine ⟨_, pc_run hB c x t, by simp, fun r hr o => ?_⟩
  rw [List.mem_ofFn] at hr
  obtain ⟨b, rfl⟩ := hr
  exact pcVal_range c x hx t b o

/-- C44: over a history, the accumulated counts are the accumulated products plus the bias stream.  Here
`y` is any sequence of results, one per call. -/
theorem C44_total {B I O : ℕ} (hB : 0 < B) (c : PC I O) (hw : c.wtc = false) (w : ℕ) (x : Fin B → Fin I → ℕ → ℤ)
    (hx : ∀ b i, Verif.Spec.BitStream (x b i)) (y : ℕ → List (Fin O → ℤ)) (hy : ∀ t, pcOut c x t = .ok (y t))
    (b : Fin B) (o : Fin O) (n : ℕ) :
    ∑ t ∈ range n, ((y t)[(b : ℕ)]?.map fun r => r o).getD 0
      = ∑ i, Verif.Spec.ones (mulOut c.mode w c.rng (c.weight o i) (x b i)) n
        + Verif.Spec.ones (Spec.biasBit c.rng c.bias o) n := by
  unfold Verif.Spec.ones
  rw [sum_comm, ← sum_add_distrib]
  apply sum_congr rfl
  intro t _
  have h := hy t
  rw [C44_products hB c hw w x hx] at h
  rw [← Except.ok.inj h]
  simp

/-- C44: without `bias_ext` a layer with bias cannot be built. -/
theorem C44_bias_needs_value {I O : ℕ} (env : Env) (mode : String) (width : ℕ) (name : String)
    (we : Fin O → Fin I → ℚ) (m : Mode) (hm : parseMode mode = .ok m) (l : List ℤ) (hl : rng env width name = .ok l)
    (hlen : bsGenInit l = .ok l) : mkPC env mode width name we true none = .error .attribute := by
  unfold mkPC
  rw [hm, hl]
  show (bsGenInit l >>= _) = _
  rw [hlen]; rfl

example : mkPC (I := 2) (O := 1) ⟨30, fun _ => 1, fun _ _ => false, []⟩ "Bipolar" 2 "Race" (fun _ _ => 0) true none = .error .attribute :=
  C44_bias_needs_value _ _ _ _ _ .bipolar (by decide +kernel) [0, 1, 2, 3] (by decide +kernel) (by decide +kernel)

/-- C44: after calls with `B > 1` rows, a call with another number of rows greater than one fails. -/
theorem C44_batch_change {B I O : ℕ} (hB : 1 < B) (c : PC I O) (x : Fin B → Fin I → ℕ → ℤ) (n : ℕ)
    (ι : ℕ → List (Fin I → ℤ)) (hι : ∀ t ≤ n, ι t = pcIn x t) (h1 : 1 < (ι (n + 1)).length)
    (hne : (ι (n + 1)).length ≠ B) : outAtE (stepPC c) (PCSt.init I O) ι (n + 1) = .error .runtime := by
  have hst : ∀ t ≤ n + 1, ∃ s, stateAtE (stepPC c) (PCSt.init I O) ι t = .ok s ∧ Inv c x t s := by
    intro t ht
    induction t with
    | zero => exact ⟨_, rfl, inv_init c x⟩
    | succ t ih =>
        obtain ⟨s, hs, hi⟩ := ih (by omega)
        obtain ⟨s', h1, h2⟩ := step_inv (by omega) c x t s hi
        exact ⟨s', stateAtE_succ_ok hs (by rw [hι t (by omega)]; exact h1), h2⟩
  obtain ⟨s, hs, hi⟩ := hst n (by omega)
  obtain ⟨s', h2, h3⟩ := step_inv (by omega) c x n s hi
  have hs' : stateAtE (stepPC c) (PCSt.init I O) ι (n + 1) = .ok s' :=
    stateAtE_succ_ok hs (by rw [hι n (le_refl _)]; exact h2)
  apply outAtE_error hs'
  have hl : s'.wrdx1.length = B := h3.hl (by omega)
  have hexp : (expand (ι (n + 1)).length s'.wrdx1).length = (ι (n + 1)).length * B := by
    unfold expand
    rw [if_pos (by rw [hl]; exact hne.symm), List.length_flatten, List.map_replicate, List.sum_replicate, hl]; rfl
  generalize ι (n + 1) = y at *
  have hz : zipBatch addRow (expand y.length s'.wrdx1) (if c.wtc then y.map fun _ _ => (1:ℤ) else y)
      = .error .runtime := by
    have hyl : (if c.wtc then y.map fun _ _ => (1:ℤ) else y).length = y.length := by split_ifs <;> simp
    have hne' : y.length * B ≠ y.length := by
      intro h
      have : y.length * B = y.length * 1 := by omega
      have := Nat.eq_of_mul_eq_mul_left (by omega) this
      omega
    unfold zipBatch
    rw [if_neg (by rw [hexp, hyl]; exact hne')]
    split
    · rename_i z heq
      rw [heq] at hyl; simp at hyl; omega
    · rfl
  unfold stepPC
  rw [if_neg (by omega)]
  simp only [hz, bind, Except.bind]

example : outAtE (stepPC (I := 1) (O := 1) ⟨.unipolar, [0, 1], fun _ _ => 1, none, false⟩) (PCSt.init 1 1)
    (fun t => if t = 0 then [fun _ => 0, fun _ => 0] else [fun _ => 0, fun _ => 0, fun _ => 0]) 1 = .error .runtime :=
  C44_batch_change (B := 2) (by omega) _ (fun _ _ _ => 0) 0 _ (fun t ht => by
    have : t = 0 := by omega
    subst this; rfl) (by simp) (by simp)

/-! ## C57 -/

/-- C57: with temporal coded weights every count is the sum over the features of input bit AND weight bit
(unipolar) or input bit XNOR weight bit (bipolar), the weight bit of cycle `t` being "weight exceeds
sequence element `t` modulo the length", the same for all rows. -/
theorem C57_products {B I O : ℕ} (hB : 0 < B) (c : PC I O) (hw : c.wtc = true) (x : Fin B → Fin I → ℕ → ℤ)
    (hx : ∀ b i, Verif.Spec.BitStream (x b i)) (t : ℕ) :
    pcOut c x t = .ok (List.ofFn fun b o =>
      (∑ i, match c.mode with
        | .unipolar => if x b i t = 1 ∧ c.weight o i > c.rng.getD (t % c.rng.length) 0 then 1 else 0
        | .bipolar => if (x b i t = 1 ↔ c.weight o i > c.rng.getD (t % c.rng.length) 0) then 1 else 0)
      + Spec.biasBit c.rng c.bias o t) := by
  rw [pc_run hB]
  congr 3
  funext b o
  unfold pcVal
  congr 1
  apply sum_congr rfl
  intro i _
  have hi : ((t:ℤ) % (c.rng.length : ℤ)).toNat = t % c.rng.length := by
    rw [← Int.natCast_mod]; exact Int.toNat_natCast _
  have hxi := hx b i t
  cases hm : c.mode <;> simp only [idx1, hw, if_true, bsGen, hi] <;>
    generalize c.rng.getD (t % c.rng.length) 0 = g <;> generalize x b i t = y at * <;>
    rcases hxi with rfl | rfl <;> by_cases hc : c.weight o i > g <;> simp [ind, hc]

/-- C57: for a thermometer coded layer (`rng` one of race, tc) in unipolar mode the accumulated count over
`n` cycles is, summed over the features, the number of cycles whose input bit is one and whose position in the
current period of `2^width` cycles lies before the weight. -/
theorem C57_race {B I O : ℕ} (hB : 0 < B) (width : ℕ) (weight : Fin O → Fin I → ℤ)
    (x : Fin B → Fin I → ℕ → ℤ)
    (hx : ∀ b i, Verif.Spec.BitStream (x b i)) :
    ∃ cnt : Fin B → Fin O → ℕ → ℤ,
      (∀ t, pcOut ⟨.unipolar, raceSeq width, weight, none, true⟩ x t = .ok (List.ofFn fun b o => cnt b o t)) ∧
      ∀ b o n, Verif.Spec.ones (cnt b o) n = ∑ i, (((range n).filter fun t =>
        x b i t = 1 ∧ ((t % 2 ^ width : ℕ) : ℤ) < weight o i).card : ℤ) := by
  refine ⟨fun b o t => ∑ i, if x b i t = 1 ∧ ((t % 2 ^ width : ℕ) : ℤ) < weight o i then (1:ℤ) else 0,
    fun t => ?_, fun b o n => ?_⟩
  · rw [C57_products hB _ rfl x hx t]
    congr 3
    funext b o
    simp only [Spec.biasBit, add_zero]
    apply sum_congr rfl
    intro i _
    have hl : (raceSeq width).length = 2 ^ width := by rw [raceSeq_eq]; simp
    have hg : (raceSeq width).getD (t % (raceSeq width).length) 0 = ((t % 2 ^ width : ℕ) : ℤ) := by
      rw [hl, raceSeq_eq]
      have : t % 2 ^ width < 2 ^ width := Nat.mod_lt _ (by positivity)
      simp [List.getD_eq_getElem?_getD, this]
    rw [hg]
  · unfold Verif.Spec.ones
    rw [sum_comm]
    apply sum_congr rfl
    intro i _
    rw [card_filter]; push_cast; rfl

/-- Non-vacuity: weight 3 of 4, all-one input: three ones in every four cycles. -/
example : (((range 8).filter fun t => (fun _ : ℕ => (1:ℤ)) t = 1 ∧ ((t % 2 ^ 2 : ℕ) : ℤ) < 3).card : ℤ) = 6 := by
  decide +kernel

/-! ## C45 -/

/-- Result of call `t` of a fresh `FSULinear`. -/
def linOut {B I O : ℕ} (m : PC I O × Adder.Cfg) (x : Fin B → Fin I → ℕ → ℤ) (t : ℕ) : Except PyErr (List (Fin O → ℤ)) :=
  outAtE (stepLinear m) (initLinear m) (fun t => { input := pcIn x t }) t

/-- What the accumulator of row `b`, output `o` is fed in cycle `t`. -/
def laneArg {B I O : ℕ} (c : PC I O) (x : Fin B → Fin I → ℕ → ℤ) (b : Fin B) (o : Fin O) (t : ℕ) : Adder.Arg :=
  { xs := [(pcVal c x t b o : ℚ)] }

theorem lin_run {B I O : ℕ} (hB : 0 < B) (m : PC I O × Adder.Cfg) (x : Fin B → Fin I → ℕ → ℤ) (t : ℕ) :
    linOut m x t = .ok (List.ofFn fun b o => addOut m.2 (laneArg m.1 x b o) t) := by
  have hzip : ∀ t, ∀ acc : List (Fin O → Adder.St),
      acc = (if t = 0 then [fun _ => Adder.init m.2] else List.ofFn fun (b : Fin B) (o : Fin O) =>
        stateAt (Adder.step m.2) (Adder.init m.2) (laneArg m.1 x b o) t) →
      zipLanes (laneRow m.2 none none) acc (List.ofFn fun b o => pcVal m.1 x t b o) = .ok (List.ofFn fun b o =>
        Adder.step m.2 (stateAt (Adder.step m.2) (Adder.init m.2) (laneArg m.1 x b o) t) (laneArg m.1 x b o t)) := by
    rintro t acc rfl
    by_cases ht : t = 0
    · subst ht
      rw [if_pos rfl]
      unfold zipLanes
      split_ifs with h1
      · congr 1
        apply List.ext_getElem
        · simp at h1 ⊢; omega
        · intro n h2 h3
          simp at h2
          have : n = 0 := by omega
          subst this
          simp [laneArg]; rfl
      · simp only
        congr 1
        rw [map_ofFn']; rfl
    · rw [if_neg ht]
      unfold zipLanes
      rw [if_pos (by simp)]
      congr 1
      apply List.ext_getElem (by simp)
      intro n h2 h3
      simp [laneArg]; rfl
  have hstep : ∀ t s acc, Inv m.1 x t s → acc = (if t = 0 then [fun _ => Adder.init m.2] else
        List.ofFn fun (b : Fin B) (o : Fin O) => stateAt (Adder.step m.2) (Adder.init m.2) (laneArg m.1 x b o) t) →
      ∃ s', Inv m.1 x (t + 1) s' ∧ stepLinear m (s, acc) { input := pcIn x t } = .ok
        ((s', List.ofFn fun (b : Fin B) (o : Fin O) =>
            stateAt (Adder.step m.2) (Adder.init m.2) (laneArg m.1 x b o) (t + 1)),
          List.ofFn fun b o => addOut m.2 (laneArg m.1 x b o) t) := by
    intro t s acc hi ha
    obtain ⟨s', h1, h2⟩ := step_inv hB m.1 x t s hi
    refine ⟨s', h2, ?_⟩
    unfold stepLinear
    show (stepPC m.1 s (pcIn x t) >>= _) = _
    rw [h1]
    show (zipLanes (laneRow m.2 none none) acc _ >>= _) = _
    rw [hzip t acc ha]
    show Except.ok _ = _
    rw [map_ofFn', map_ofFn']
    rfl
  have hst : ∀ t, ∃ s acc, stateAtE (stepLinear m) (initLinear m) (fun t => { input := pcIn x t }) t = .ok (s, acc) ∧
      Inv m.1 x t s ∧ acc = (if t = 0 then [fun _ => Adder.init m.2] else List.ofFn fun (b : Fin B) (o : Fin O) =>
        stateAt (Adder.step m.2) (Adder.init m.2) (laneArg m.1 x b o) t) := by
    intro t
    induction t with
    | zero => exact ⟨_, _, rfl, inv_init _ x, rfl⟩
    | succ t ih =>
        obtain ⟨s, acc, hs, hi, ha⟩ := ih
        obtain ⟨s', h1, h2⟩ := hstep t s acc hi ha
        exact ⟨s', _, stateAtE_succ_ok hs h2, h1, by rw [if_neg (by omega)]⟩
  obtain ⟨s, acc, hs, hi, ha⟩ := hst t
  obtain ⟨s', h1, h2⟩ := hstep t s acc hi ha
  exact outAtE_ok hs h2

/-- The results `y` of successive calls are the batches of bits or counts `out`. -/
def Spec.Rows {B O : ℕ} (y : ℕ → Except PyErr (List (Fin O → ℤ))) (out : Fin B → Fin O → ℕ → ℤ) : Prop :=
  ∀ t, y t = .ok (List.ofFn fun b o => out b o t)

/-- C45: no call of any layer fails, whatever depth, scale and coding, as long as the number of rows stays the same, and every
result is a batch of bits. -/
theorem C45_runs {B I O : ℕ} (hB : 0 < B) (m : PC I O × Adder.Cfg) (x : Fin B → Fin I → ℕ → ℤ) :
    ∃ out : Fin B → Fin O → ℕ → ℤ, Spec.Rows (linOut m x) out ∧ ∀ b o, Verif.Spec.BitStream (out b o) :=
  ⟨fun b o => addOut m.2 (laneArg m.1 x b o), fun t => lin_run hB m x t, fun _ _ t => C18_bit _ _ t⟩

/-- C45: with rate coded weights every output is the adder on the count of the products and the bias bit. -/
theorem C45_lanes {B I O : ℕ} (hB : 0 < B) (m : PC I O × Adder.Cfg) (hw : m.1.wtc = false) (w : ℕ) (x : Fin B → Fin I → ℕ → ℤ)
    (hx : ∀ b i, Verif.Spec.BitStream (x b i)) :
    Spec.Rows (linOut m x) fun b o => addOut m.2 fun t =>
      { xs := [(((∑ i, mulOut m.1.mode w m.1.rng (m.1.weight o i) (x b i) t) + Spec.biasBit m.1.rng m.1.bias o t : ℤ) : ℚ)] } := by
  intro t
  rw [lin_run hB m x t]
  have e : ∀ b o, laneArg m.1 x b o = fun t =>
      { xs := [(((∑ i, mulOut m.1.mode w m.1.rng (m.1.weight o i) (x b i) t) + Spec.biasBit m.1.rng m.1.bias o t : ℤ) : ℚ)] } := by
    intro b o
    funext t
    have h1 := pc_run hB m.1 x t
    rw [C44_products hB m.1 hw w x hx t] at h1
    have h2 := congrFun (congrFun (List.ofFn_injective (Except.ok.inj h1)) b) o
    unfold laneArg
    rw [← h2]
  simp only [e]

/-- What a successful construction fixes. -/
theorem mkPC_ok {I O : ℕ} {env : Env} {mode : String} {width : ℕ} {name : String} {we : Fin O → Fin I → ℚ}
    {bias : Bool} {be : Option (Fin O → ℚ)} {c : PC I O} (h : mkPC env mode width name we bias be = .ok c) :
    ∃ mo l, parseMode mode = .ok mo ∧ rng env width name = .ok l ∧ c.mode = mo ∧ c.rng = l ∧
      (c.weight = fun o i => binGenM mo width (we o i)) ∧ c.wtc = isTemporal name ∧
      (bias = false → c.bias = none) ∧
      (bias = true → ∃ v, be = some v ∧ c.bias = some fun o => binGenM mo width (v o)) := by
  unfold mkPC at h
  cases hm : parseMode mode with
  | error e => rw [hm] at h; cases h
  | ok mo =>
      cases hl : rng env width name with
      | error e => rw [hm, hl] at h; cases h
      | ok l =>
          rw [hm, hl] at h
          have hb : bsGenInit l = .ok l ∨ ∃ e, bsGenInit l = .error e := by
            unfold bsGenInit; split_ifs <;> simp
          rcases hb with hb | ⟨e, hb⟩
          · replace h : (bsGenInit l >>= _) = _ := h
            rw [hb] at h
            cases bias with
            | false => cases h; exact ⟨mo, l, rfl, rfl, rfl, rfl, rfl, rfl, fun _ => rfl, fun h => by cases h⟩
            | true =>
                cases be with
                | none => cases h
                | some v => cases h; exact ⟨mo, l, rfl, rfl, rfl, rfl, rfl, rfl, (fun h => absurd h (by simp)), fun _ => ⟨v, rfl, rfl⟩⟩
          · replace h : (bsGenInit l >>= _) = _ := h
            rw [hb] at h; cases h

/-- Number of addends as configured: the features plus one if there is a bias. -/
def Spec.fanIn (I : ℕ) (bias : Bool) : ℕ := I + if bias then 1 else 0

/-- C44, from the constructor: a layer built from real weights with a rate coded sequence counts, in every
cycle, the bits of the products with the converted weights and the bit of the converted bias. -/
theorem C44_built {B I O : ℕ} (hB : 0 < B) (env : Env) (mode : String) (width : ℕ) (name : String)
    (we : Fin O → Fin I → ℚ) (bias : Bool) (be : Option (Fin O → ℚ)) (c : PC I O)
    (hc : mkPC env mode width name we bias be = .ok c) (hr : ¬ Spec.TemporalName name)
    (x : Fin B → Fin I → ℕ → ℤ) (hx : ∀ b i, Verif.Spec.BitStream (x b i)) :
    ∃ mo l, parseMode mode = .ok mo ∧ rng env width name = .ok l ∧
      Spec.Rows (pcOut c x) fun b o t => (∑ i, mulOut mo width l (binGenM mo width (we o i)) (x b i) t)
        + if bias then bsGen l (binGenM mo width ((be.getD fun _ => 0) o)) t else 0 := by
  obtain ⟨mo, l, h1, h2, h3, h4, h5, h6, h7, h8⟩ := mkPC_ok hc
  refine ⟨mo, l, h1, h2, fun t => ?_⟩
  rw [C44_products hB c (by rw [h6, temporal_false hr]) width x hx t, h3, h4, h5]
  congr 2
  funext b o
  congr 1
  cases bias with
  | false => rw [h7 rfl]; rfl
  | true => obtain ⟨v, hv, hv'⟩ := h8 rfl; rw [hv', hv]; rfl

/-- The number a temporal coded sequence of `2^w` elements shows in cycle `t`: counting up, or for `race10`/`tc10` down. -/
def Spec.tick (name : String) (w t : ℕ) : ℤ :=
  if name.toLower ∈ ["race10", "tc10"] then 2 ^ w - 1 - ((t % 2 ^ w : ℕ) : ℤ) else ((t % 2 ^ w : ℕ) : ℤ)

private theorem tick_eq {env : Env} {w : ℕ} {name : String} {l : List ℤ} (hn : Spec.TemporalName name)
    (hl : rng env w name = .ok l) (t : ℕ) : l.length = 2 ^ w ∧ l.getD (t % l.length) 0 = Spec.tick name w t := by
  have hlt : t % 2 ^ w < 2 ^ w := Nat.mod_lt _ (by positivity)
  unfold Spec.tick
  by_cases h10 : name.toLower ∈ ["race10", "tc10"]
  · have := (C03_rng env w name).2 h10
    rw [hl] at this
    obtain rfl := Except.ok.inj this
    rw [if_pos h10, race10Seq_eq]
    have hlen : ((List.range (2 ^ w)).map (fun x : ℕ => (x : ℤ))).reverse.length = 2 ^ w := by simp
    refine ⟨hlen, ?_⟩
    rw [hlen, List.getD_eq_getElem?_getD, List.getElem?_reverse (by simpa using hlt), List.getElem?_map,
      List.getElem?_range (by simp; omega)]
    simp only [List.length_map, List.length_range, Option.map_some, Option.getD_some]
    have : (2:ℕ) ^ w - 1 - t % 2 ^ w + t % 2 ^ w + 1 = 2 ^ w := by omega
    have h2 : (((2:ℕ) ^ w - 1 - t % 2 ^ w : ℕ) : ℤ) + ((t % 2 ^ w : ℕ) : ℤ) + 1 = 2 ^ w := by exact_mod_cast this
    linarith
  · have hr : name.toLower ∈ ["race", "tc"] := by
      unfold Spec.TemporalName at hn
      simp only [List.mem_cons, List.not_mem_nil, or_false] at hn h10 ⊢
      tauto
    have := (C03_rng env w name).1 hr
    rw [hl] at this
    obtain rfl := Except.ok.inj this
    have hlen : (raceSeq w).length = 2 ^ w := by rw [raceSeq_eq]; simp
    rw [if_neg h10, hlen, raceSeq_eq]
    exact ⟨rfl, by simp [List.getD_eq_getElem?_getD, hlt]⟩

/-- C57, from the constructor: a layer built from real weights with a temporal coded sequence counts, in every cycle, the input bits
that meet (unipolar) or equal (bipolar) the bit "converted weight exceeds the number of the cycle", plus the bit of the converted bias. -/
theorem C57_built {B I O : ℕ} (hB : 0 < B) (env : Env) (mode : String) (width : ℕ) (name : String)
    (we : Fin O → Fin I → ℚ) (bias : Bool) (be : Option (Fin O → ℚ)) (c : PC I O)
    (hc : mkPC env mode width name we bias be = .ok c) (hr : Spec.TemporalName name)
    (x : Fin B → Fin I → ℕ → ℤ) (hx : ∀ b i, Verif.Spec.BitStream (x b i)) :
    ∃ mo, parseMode mode = .ok mo ∧
      Spec.Rows (pcOut c x) fun b o t => (∑ i, match mo with
          | .unipolar => if x b i t = 1 ∧ Spec.tick name width t < binGenM mo width (we o i) then 1 else 0
          | .bipolar => if (x b i t = 1 ↔ Spec.tick name width t < binGenM mo width (we o i)) then 1 else 0)
        + if bias ∧ Spec.tick name width t < binGenM mo width ((be.getD fun _ => 0) o) then 1 else 0 := by
  obtain ⟨mo, l, h1, h2, h3, h4, h5, h6, h7, h8⟩ := mkPC_ok hc
  refine ⟨mo, h1, fun t => ?_⟩
  obtain ⟨hlen, ht⟩ := tick_eq hr h2 t
  rw [C57_products hB c (by rw [h6]; exact temporal_iff.2 hr) x hx t, h3, h4, h5]
  simp only [ht, gt_iff_lt]
  congr 3
  funext b o
  refine congrArg₂ (· + ·) (by cases mo <;> rfl) ?_
  have hbit : ∀ v : ℤ, bsGen l v t = if Spec.tick name width t < v then 1 else 0 := fun v => by
    rw [bsGen_natMod, ht]; rfl
  cases bias with
  | false => rw [h7 rfl]; simp [Spec.biasBit]
  | true => obtain ⟨v, hv, hv'⟩ := h8 rfl; rw [hv', hv]; simp [Spec.biasBit, hbit]

/-- Non-vacuity: such layers are built, and the two directions of counting differ. -/
example : (mkPC (I := 1) (O := 1) ⟨30, fun _ => 1, fun _ _ => false, []⟩ "Bipolar" 3 "TC10" (fun _ _ => 1/2) true
      (some fun _ => 1/4)).isOk = true ∧ Spec.TemporalName "TC10" ∧ Spec.tick "TC10" 3 9 = 6 ∧ Spec.tick "race" 3 9 = 1 :=
  ⟨by decide +kernel, by decide +kernel, by decide +kernel, by decide +kernel⟩

theorem mkLinear_ok {I O : ℕ} {env : Env} {mode : String} {width : ℕ} {name : String} {depth : ℤ}
    {scale : Option ℚ} {we : Fin O → Fin I → ℚ} {bias : Bool} {be : Option (Fin O → ℚ)} {m : PC I O × Adder.Cfg}
    (h : mkLinear env mode width name depth scale we bias be = .ok m) :
    mkPC env mode width name we bias be = .ok m.1 ∧ m.2.mode = m.1.mode ∧ m.2.depth = depth ∧
      m.2.scale = some (scale.getD (Spec.fanIn I bias)) ∧ m.2.entry = some (Spec.fanIn I bias : ℚ) ∧
      Spec.addends I m.1.bias = Spec.fanIn I bias := by
  unfold mkLinear at h
  have hN : (I : ℚ) + (if bias then 1 else 0) = (Spec.fanIn I bias : ℕ) := by
    unfold Spec.fanIn; push_cast; rfl
  simp only [hN] at h
  split_ifs at h with h0
  cases hp : mkPC env mode width name we bias be with
  | error e => rw [hp] at h; cases h
  | ok c =>
      obtain ⟨mo, l, h1, h2, h3, h4, h5, h6, h7, h8⟩ := mkPC_ok hp
      rw [hp] at h
      replace h : (Adder.mk mode (some (scale.getD (Spec.fanIn I bias))) (some (Spec.fanIn I bias : ℚ)) depth >>= _) = _ := h
      unfold Adder.mk at h
      rw [h1] at h
      cases h
      refine ⟨rfl, h3.symm, rfl, rfl, rfl, ?_⟩
      unfold Spec.addends Spec.fanIn
      cases bias with
      | false => rw [h7 rfl]; simp
      | true => obtain ⟨v, -, hv⟩ := h8 rfl; rw [hv]; simp

/-- An accumulator whose scale equals its entry count emits the floor of the accumulated counts. -/
private theorem acc_exact {N : ℕ} (hN : 0 < N) (cfg : Adder.Cfg) (hsc : cfg.scale = some (N : ℚ))
    (hen : cfg.entry = some (N : ℚ)) (hd : (2 * N - 1 : ℚ) ≤ (2:ℚ) ^ (cfg.depth - 2)) (p : ℕ → ℤ)
    (hp : ∀ t, 0 ≤ p t ∧ p t ≤ N) (n : ℕ) :
    Verif.Spec.ones (addOut cfg fun t => { xs := [(p t : ℚ)] }) n = Verif.Spec.ones p n / (N : ℤ) := by
  set a : ℕ → Adder.Arg := fun t => { xs := [(p t : ℚ)] } with ha
  have he : Spec.addEntry cfg a = N := by simp [Spec.addEntry, hen, ha]
  have hS : Spec.addScale cfg a = N := by simp [Spec.addScale, hsc, ha]
  have hO : Spec.addOffset cfg a = 0 := by
    unfold Spec.addOffset; rw [he, hS]; simp
  have hNq : (1:ℚ) ≤ N := by exact_mod_cast hN
  set B := (2:ℚ) ^ (cfg.depth - 2) with hB
  have hδ : ∀ t, Spec.addDelta cfg a t = (p t : ℚ) := by
    intro t; unfold Spec.addDelta; rw [hO]; simp [ha]
  have inv : ∀ n, ∃ r : ℤ, addAcc cfg a n = r ∧ 0 ≤ r ∧ r < N ∧
      N * Verif.Spec.ones (addOut cfg a) n + r = Verif.Spec.ones p n := by
    intro n
    induction n with
    | zero => exact ⟨0, by simp [addAcc, Adder.init], le_refl _, by exact_mod_cast hN, by simp⟩
    | succ n ih =>
        obtain ⟨r, hr, h0, h1, h2⟩ := ih
        have h := C18_single_clamp cfg a (by rw [hS]; linarith) n
        have hout := addOut_eq cfg a n
        obtain ⟨k0, k1⟩ := hp n
        have hy : addAcc cfg a n + Spec.addDelta cfg a n = ((r + p n : ℤ) : ℚ) := by
          rw [hr, hδ]; push_cast; ring
        rw [hy] at h hout
        have hle : ((r + p n : ℤ) : ℚ) ≤ B := by
          have : r + p n ≤ 2 * N - 1 := by omega
          have : ((r + p n : ℤ) : ℚ) ≤ ((2 * N - 1 : ℤ) : ℚ) := by exact_mod_cast this
          push_cast at this ⊢; linarith
        have hge : (0:ℚ) ≤ ((r + p n : ℤ) : ℚ) := by
          have : 0 ≤ r + p n := by omega
          exact_mod_cast this
        rw [← hB, min_eq_left hle, max_eq_right (by linarith), hS] at h
        have hB' : Shuffle.accBound cfg.depth = B := rfl
        rw [hB', clamp_of_mem (by linarith) hle, hS] at hout
        rw [Verif.Spec.ones_succ, Verif.Spec.ones_succ, ← h2]
        by_cases hc : (N:ℤ) ≤ r + p n
        · rw [ind_true (by show (N:ℚ) ≤ _; exact_mod_cast hc)] at hout
          refine ⟨r + p n - N, ?_, by omega, by omega, by rw [hout]; ring⟩
          rw [hout] at h
          push_cast at h ⊢; linarith
        · rw [ind_false (by show ¬ (N:ℚ) ≤ _; exact_mod_cast hc)] at hout
          refine ⟨r + p n, ?_, by omega, by omega, by rw [hout]; ring⟩
          rw [hout] at h
          push_cast at h ⊢; linarith
  obtain ⟨r, hr, h0, h1, h2⟩ := inv n
  rw [← h2]
  rw [add_comm, Int.add_mul_ediv_left _ _ (by omega), Int.ediv_eq_zero_of_lt h0 h1, zero_add]

/-- C45: a layer with the default scale and a deep enough accumulator emits, in every prefix of every
history and for every row and output, exactly the floor of the accumulated parallel counts over the number of
addends. -/
theorem C45_floor {B I O : ℕ} (hB : 0 < B) (env : Env) (mode : String) (width : ℕ) (name : String) (depth : ℤ)
    (we : Fin O → Fin I → ℚ) (bias : Bool) (be : Option (Fin O → ℚ)) (m : PC I O × Adder.Cfg)
    (hm : mkLinear env mode width name depth none we bias be = .ok m) (hN : 0 < Spec.fanIn I bias)
    (hd : (2 * Spec.fanIn I bias - 1 : ℚ) ≤ (2:ℚ) ^ (depth - 2)) (x : Fin B → Fin I → ℕ → ℤ)
    (hx : ∀ b i, Verif.Spec.BitStream (x b i)) :
    ∃ out cnt : Fin B → Fin O → ℕ → ℤ, Spec.Rows (linOut m x) out ∧ Spec.Rows (pcOut m.1 x) cnt ∧
      ∀ b o n, Verif.Spec.ones (out b o) n = Verif.Spec.ones (cnt b o) n / (Spec.fanIn I bias : ℤ) := by
  obtain ⟨-, -, hdep, hs, he, hadd⟩ := mkLinear_ok hm
  refine ⟨fun b o => addOut m.2 (laneArg m.1 x b o), fun b o t => pcVal m.1 x t b o,
    fun t => lin_run hB m x t, fun t => pc_run hB m.1 x t, fun b o n => ?_⟩
  refine acc_exact hN m.2 hs he (by rw [hdep]; exact hd) (fun t => pcVal m.1 x t b o) (fun t => ?_) n
  have := pcVal_range m.1 x hx t b o
  rwa [hadd] at this

/-- C45: with rate coded weights, the counts are those of one static multiplier per weight, so the output
counts the floor of the mean of the products and the bias stream. -/
theorem C45_products {B I O : ℕ} (hB : 0 < B) (env : Env) (mode : String) (width : ℕ) (name : String) (depth : ℤ)
    (we : Fin O → Fin I → ℚ) (bias : Bool) (be : Option (Fin O → ℚ)) (m : PC I O × Adder.Cfg)
    (hm : mkLinear env mode width name depth none we bias be = .ok m) (hN : 0 < Spec.fanIn I bias)
    (hd : (2 * Spec.fanIn I bias - 1 : ℚ) ≤ (2:ℚ) ^ (depth - 2)) (hr : ¬ Spec.TemporalName name)
    (x : Fin B → Fin I → ℕ → ℤ) (hx : ∀ b i, Verif.Spec.BitStream (x b i)) :
    ∃ mo l, ∃ out : Fin B → Fin O → ℕ → ℤ, parseMode mode = .ok mo ∧ rng env width name = .ok l ∧ Spec.Rows (linOut m x) out ∧
      ∀ b o n, Verif.Spec.ones (out b o) n =
        (∑ i, Verif.Spec.ones (mulOut mo width l (binGenM mo width (we o i)) (x b i)) n
          + if bias then Verif.Spec.ones (fun t => bsGen l (binGenM mo width ((be.getD fun _ => 0) o)) t) n else 0)
        / (Spec.fanIn I bias : ℤ) := by
  obtain ⟨hpc, -⟩ := mkLinear_ok hm
  obtain ⟨mo, l, h1, h2, h3, h4, h5, h6, h7, h8⟩ := mkPC_ok hpc
  obtain ⟨out, cnt, ho, hc, hf⟩ := C45_floor hB env mode width name depth we bias be m hm hN hd x hx
  refine ⟨mo, l, out, h1, h2, ho, fun b o n => ?_⟩
  rw [hf]
  congr 1
  have hcnt : ∀ t, cnt b o t = (∑ i, mulOut mo width l (binGenM mo width (we o i)) (x b i) t)
      + Spec.biasBit l m.1.bias o t := by
    intro t
    have e1 := hc t
    rw [C44_products hB m.1 (by rw [h6, temporal_false hr]) width x hx t] at e1
    have e2 := List.ofFn_injective (Except.ok.inj e1)
    have e3 := congrFun (congrFun e2 b) o
    rw [h3, h4, h5] at e3
    exact e3.symm
  have hbias : Verif.Spec.ones (Spec.biasBit l m.1.bias o) n =
      if bias then Verif.Spec.ones (fun t => bsGen l (binGenM mo width ((be.getD fun _ => 0) o)) t) n else 0 := by
    cases bias with
    | false => rw [h7 rfl]; simp [Verif.Spec.ones, Spec.biasBit]
    | true => obtain ⟨v, hv, hv'⟩ := h8 rfl; rw [hv', hv]; rfl
  rw [← hbias]
  unfold Verif.Spec.ones
  rw [sum_comm, ← sum_add_distrib]
  exact sum_congr rfl fun t _ => hcnt t

/-- Non-vacuity: such layers can be built. -/
example : (mkLinear (I := 2) (O := 1) ⟨30, fun _ => 1, fun _ _ => false, []⟩ "Bipolar" 2 "Sys" 12 none
    (fun _ _ => 1/2) true (some fun _ => 1/4)).toBool = false ∧
    (mkLinear (I := 2) (O := 1) ⟨30, fun _ => 1, fun _ _ => false, []⟩ "Bipolar" 2 "Sobol" 12 none
    (fun _ _ => 1/2) true (some fun _ => 1/4)).toBool = true := by decide +kernel

/-- Non-vacuity: the shipped default configuration (width 8, depth 12) accepts up to 512 addends. -/
example : (2 * Spec.fanIn 511 true - 1 : ℚ) ≤ (2:ℚ) ^ ((12:ℤ) - 2) := by
  norm_num [Spec.fanIn]

private theorem floor_bounds (P : ℤ) {N n : ℕ} (hN : 0 < N) (hn : 0 < n) :
    0 ≤ (P : ℚ) / n / N - ((P / (N : ℤ) : ℤ) : ℚ) / n ∧ (P : ℚ) / n / N - ((P / (N : ℤ) : ℤ) : ℚ) / n < 1 / n := by
  have hNq : (0:ℚ) < N := by exact_mod_cast hN
  have hnq : (0:ℚ) < n := by exact_mod_cast hn
  have h1 := Int.ediv_mul_le P (b := (N:ℤ)) (by omega)
  have h2 := Int.lt_ediv_add_one_mul_self P (b := (N:ℤ)) (by omega)
  have h1q : ((P / (N:ℤ) : ℤ) : ℚ) * N ≤ P := by exact_mod_cast h1
  have h2q : (P : ℚ) < (((P / (N:ℤ) : ℤ) : ℚ) + 1) * N := by exact_mod_cast h2
  have e : (P : ℚ) / n / N - ((P / (N : ℤ) : ℤ) : ℚ) / n = (P - ((P / (N:ℤ) : ℤ) : ℚ) * N) / N / n := by
    field_simp
  rw [e]
  refine ⟨div_nonneg (div_nonneg (by linarith) hNq.le) hnq.le, ?_⟩
  apply div_lt_div_of_pos_right _ hnq
  rw [div_lt_one hNq]; linarith

/-- C45: the decoded output is the mean of the decoded products and the decoded bias, low by less than
`1/n` (unipolar decoding) or `2/n` (bipolar decoding) after `n` cycles. -/
theorem C45_value {B I O : ℕ} (hB : 0 < B) (env : Env) (mode : String) (width : ℕ) (name : String) (depth : ℤ)
    (we : Fin O → Fin I → ℚ) (bias : Bool) (be : Option (Fin O → ℚ)) (m : PC I O × Adder.Cfg)
    (hm : mkLinear env mode width name depth none we bias be = .ok m) (hN : 0 < Spec.fanIn I bias)
    (hd : (2 * Spec.fanIn I bias - 1 : ℚ) ≤ (2:ℚ) ^ (depth - 2)) (hr : ¬ Spec.TemporalName name)
    (x : Fin B → Fin I → ℕ → ℤ) (hx : ∀ b i, Verif.Spec.BitStream (x b i)) :
    ∃ mo l, ∃ out : Fin B → Fin O → ℕ → ℤ, parseMode mode = .ok mo ∧ rng env width name = .ok l ∧
      Spec.Rows (linOut m x) out ∧ ∀ b o n, 0 < n →
        let z := fun i => mulOut mo width l (binGenM mo width (we o i)) (x b i)
        let β : ℕ → ℤ := fun t => bsGen l (binGenM mo width ((be.getD fun _ => 0) o)) t
        let du := (∑ i, Verif.Spec.uniValue (z i) n + if bias then Verif.Spec.uniValue β n else 0) / Spec.fanIn I bias
          - Verif.Spec.uniValue (out b o) n
        let db := (∑ i, Verif.Spec.biValue (z i) n + if bias then Verif.Spec.biValue β n else 0) / Spec.fanIn I bias
          - Verif.Spec.biValue (out b o) n
        (0 ≤ du ∧ du < 1 / n) ∧ (0 ≤ db ∧ db < 2 / n) := by
  obtain ⟨mo, l, out, h1, h2, h3, h4⟩ := C45_products hB env mode width name depth we bias be m hm hN hd hr x hx
  refine ⟨mo, l, out, h1, h2, h3, fun b o n hn => ?_⟩
  intro z β du db
  have hf := h4 b o n
  set P : ℤ := ∑ i, Verif.Spec.ones (z i) n + if bias then Verif.Spec.ones β n else 0 with hP
  have hb := floor_bounds P hN hn
  rw [← hf] at hb
  have hnq : (0:ℚ) < n := by exact_mod_cast hn
  have hNq : (0:ℚ) < Spec.fanIn I bias := by exact_mod_cast hN
  have hPn : (P : ℚ) / n = ∑ i, Verif.Spec.uniValue (z i) n + if bias then Verif.Spec.uniValue β n else 0 := by
    rw [hP]; unfold Verif.Spec.uniValue
    rw [← sum_div]
    cases bias <;> simp [add_div]
  have hdu : du = (P : ℚ) / n / Spec.fanIn I bias - (Verif.Spec.ones (out b o) n : ℚ) / n := by
    rw [hPn]; rfl
  have hdb : db = 2 * du := by
    have hsum : (∑ i, Verif.Spec.biValue (z i) n + if bias then Verif.Spec.biValue β n else 0)
        = 2 * ((P : ℚ) / n) - Spec.fanIn I bias := by
      rw [hPn]
      have : ∀ y : ℕ → ℤ, Verif.Spec.biValue y n = 2 * Verif.Spec.uniValue y n - 1 := fun y => rfl
      simp only [this]
      rw [sum_sub_distrib, ← mul_sum]
      cases bias <;> simp [Spec.fanIn]
      ring
    rw [hdu]
    show (∑ i, Verif.Spec.biValue (z i) n + if bias then Verif.Spec.biValue β n else 0) / (Spec.fanIn I bias : ℚ)
      - (2 * ((Verif.Spec.ones (out b o) n : ℚ) / n) - 1) = _
    rw [hsum, sub_div, div_self hNq.ne']
    ring
  refine ⟨by rw [hdu]; exact hb, ?_⟩
  rw [hdb, hdu, show (2:ℚ) / n = 2 * (1 / n) by ring]
  constructor <;> linarith [hb.1, hb.2]

/-- C45, end to end: a bipolar layer with Sobol coded weights, default scale and enough depth computes, for
every history of every input and every prefix length, the mean of input value times real weight and the bias. -/
theorem C45_end_to_end {B I O : ℕ} (hB : 0 < B) (env : Env) (mode : String) (width : ℕ) (name : String) (depth : ℤ)
    (hn : name.toLower ∈ ["sobol", "rc"]) (hdir : DirOK env.sobolM) (hw : width ≤ env.maxbit)
    (hmode : parseMode mode = .ok .bipolar)
    (we : Fin O → Fin I → ℚ) (hwe : ∀ o i, -1 ≤ we o i ∧ we o i ≤ 1) (bias : Bool) (be : Option (Fin O → ℚ))
    (hbe : ∀ v, be = some v → ∀ o, -1 ≤ v o ∧ v o ≤ 1) (m : PC I O × Adder.Cfg)
    (hm : mkLinear env mode width name depth none we bias be = .ok m) (hN : 0 < Spec.fanIn I bias)
    (hd : (2 * Spec.fanIn I bias - 1 : ℚ) ≤ (2:ℚ) ^ (depth - 2))
    (x : Fin B → Fin I → ℕ → ℤ) (hx : ∀ b i, Verif.Spec.BitStream (x b i)) :
    ∃ out : Fin B → Fin O → ℕ → ℤ, Spec.Rows (linOut m x) out ∧ ∀ b o n, 0 < n →
      |Verif.Spec.biValue (out b o) n - (∑ i, Verif.Spec.biValue (x b i) n * we o i
        + if bias then (be.getD fun _ => 0) o else 0) / Spec.fanIn I bias|
        ≤ (4 * width + 2) / n + 1 / 2 ^ width := by
  have hr : ¬ Spec.TemporalName name := by
    intro h
    unfold Spec.TemporalName at h
    simp only [List.mem_cons, List.not_mem_nil, or_false] at hn h
    rcases hn with hn | hn <;> rw [hn] at h <;> revert h <;> decide
  obtain ⟨mo, l, out, h1, h2, h3, h4⟩ := C45_value hB env mode width name depth we bias be m hm hN hd hr x hx
  rw [hmode] at h1; cases h1
  refine ⟨out, h3, fun b o n hn0 => ?_⟩
  obtain ⟨-, hlo, hhi⟩ := h4 b o n hn0
  have hnq : (0:ℚ) < n := by exact_mod_cast hn0
  have hNq : (0:ℚ) < Spec.fanIn I bias := by exact_mod_cast hN
  set ε : ℚ := 4 * width / n + 1 / 2 ^ width with hε
  have hε0 : 0 ≤ ε := by positivity
  have hz : ∀ i, |Verif.Spec.biValue (mulOut .bipolar width l (binGenM .bipolar width (we o i)) (x b i)) n
      - Verif.Spec.biValue (x b i) n * we o i| ≤ ε := by
    intro i
    obtain ⟨l', hl', hh⟩ := C26_real env width name hn hdir hw (hx b i)
    rw [h2] at hl'; cases hl'
    exact (hh (we o i) n hn0).2 (hwe o i)
  have hβ : ∀ p : ℚ, -1 ≤ p ∧ p ≤ 1 → |Verif.Spec.biValue (fun t => bsGen l (binGenM .bipolar width p) t) n - p| ≤ ε := by
    intro p hp
    have hb := C05_range .bipolar width p hp
    obtain ⟨l', hl', hh⟩ := C08_prefix env width name hn hdir hw (binGenM .bipolar width p) hb.1 hb.2
    rw [h2] at hl'; cases hl'
    have h5 := hh n
    have hq := (C26_quantised width p).2
    unfold Verif.Spec.biValue
    generalize (Verif.Spec.ones (fun t => bsGen l (binGenM .bipolar width p) t) n : ℚ) = y at *
    generalize (binGenM .bipolar width p : ℚ) / 2 ^ width = q at *
    have e : 2 * (y / n) - 1 - p = 2 * ((y - n * q) / n) + (2 * q - 1 - p) := by field_simp; ring
    have a1 : |(y - n * q) / n| ≤ width / n := by
      rw [abs_div, abs_of_pos hnq]; exact div_le_div_of_nonneg_right h5 hnq.le
    have a2 : (0:ℚ) ≤ width / n := by positivity
    rw [e, hε, mul_div_assoc]
    have a3 := abs_add_le (2 * ((y - n * q) / n)) (2 * q - 1 - p)
    rw [abs_mul, abs_of_pos (by norm_num : (0:ℚ) < 2)] at a3
    linarith
  set z := fun i => mulOut .bipolar width l (binGenM .bipolar width (we o i)) (x b i) with hzdef
  set β : ℕ → ℤ := fun t => bsGen l (binGenM .bipolar width ((be.getD fun _ => 0) o)) t with hβdef
  have hsum : |(∑ i, Verif.Spec.biValue (z i) n + if bias then Verif.Spec.biValue β n else 0)
      - (∑ i, Verif.Spec.biValue (x b i) n * we o i + if bias then (be.getD fun _ => 0) o else 0)|
      ≤ Spec.fanIn I bias * ε := by
    have e : (∑ i, Verif.Spec.biValue (z i) n + if bias then Verif.Spec.biValue β n else 0)
      - (∑ i, Verif.Spec.biValue (x b i) n * we o i + if bias then (be.getD fun _ => 0) o else 0)
      = ∑ i, (Verif.Spec.biValue (z i) n - Verif.Spec.biValue (x b i) n * we o i)
        + ((if bias then Verif.Spec.biValue β n else 0) - if bias then (be.getD fun _ => 0) o else 0) := by
      rw [sum_sub_distrib]; ring
    rw [e]
    have a1 : |∑ i, (Verif.Spec.biValue (z i) n - Verif.Spec.biValue (x b i) n * we o i)| ≤ I * ε := by
      calc _ ≤ ∑ i, |Verif.Spec.biValue (z i) n - Verif.Spec.biValue (x b i) n * we o i| := abs_sum_le_sum_abs _ _
        _ ≤ ∑ _i : Fin I, ε := sum_le_sum fun i _ => hz i
        _ = I * ε := by simp
    have a2 : |(if bias then Verif.Spec.biValue β n else 0) - if bias then (be.getD fun _ => 0) o else 0|
        ≤ (if bias then 1 else 0) * ε := by
      cases bias with
      | false => simp
      | true =>
          have hp : -1 ≤ (be.getD fun _ => 0) o ∧ (be.getD fun _ => 0) o ≤ 1 := by
            cases be with
            | none => norm_num
            | some v => exact hbe v rfl o
          simpa using hβ _ hp
    refine le_trans (abs_add_le _ _) ?_
    unfold Spec.fanIn
    push_cast
    rw [add_mul]
    linarith
  have hlo' : 0 ≤ (∑ i, Verif.Spec.biValue (z i) n + if bias then Verif.Spec.biValue β n else 0) / Spec.fanIn I bias
          - Verif.Spec.biValue (out b o) n := hlo
  have hhi' : (∑ i, Verif.Spec.biValue (z i) n + if bias then Verif.Spec.biValue β n else 0) / Spec.fanIn I bias
          - Verif.Spec.biValue (out b o) n < 2 / n := hhi
  generalize (∑ i, Verif.Spec.biValue (z i) n + if bias then Verif.Spec.biValue β n else 0) = Z at *
  generalize (∑ i, Verif.Spec.biValue (x b i) n * we o i + if bias then (be.getD fun _ => 0) o else 0) = Y at *
  have h6 : |Z / Spec.fanIn I bias - Y / Spec.fanIn I bias| ≤ ε := by
    rw [← sub_div, abs_div, abs_of_pos hNq, div_le_iff₀ hNq]; linarith
  rw [abs_le] at h6 ⊢
  have e2 : (4 * (width:ℚ) + 2) / n + 1 / 2 ^ width = ε + 2 / n := by rw [hε]; ring
  rw [e2]
  constructor <;> linarith [h6.1, h6.2]

/-- C45: if the number of addends exceeds the accumulator range the layer with the default scale never emits
a one, whatever the inputs and weights. -/
theorem C45_silent {B I O : ℕ} (hB : 0 < B) (env : Env) (mode : String) (width : ℕ) (name : String) (depth : ℤ)
    (we : Fin O → Fin I → ℚ) (bias : Bool) (be : Option (Fin O → ℚ)) (m : PC I O × Adder.Cfg)
    (hm : mkLinear env mode width name depth none we bias be = .ok m)
    (hd : (2:ℚ) ^ (depth - 2) < Spec.fanIn I bias) (x : Fin B → Fin I → ℕ → ℤ) (t : ℕ) :
    linOut m x t = .ok (List.ofFn fun (_ : Fin B) (_ : Fin O) => 0) := by
  obtain ⟨-, -, hdep, hs, he, hadd⟩ := mkLinear_ok hm
  rw [lin_run hB]
  congr 3
  funext b o
  apply C21_silent
  have : Spec.addScale m.2 (laneArg m.1 x b o) = Spec.fanIn I bias := by
    simp [Spec.addScale, hs, laneArg]
  rw [hdep, this]; exact hd

/-- Non-vacuity: the default depth 12 with 1024 features and a bias. -/
example : (2:ℚ) ^ ((12:ℤ) - 2) < Spec.fanIn 1024 true := by norm_num [Spec.fanIn]

/-- The balance of a layer whose accumulator is configured with scale `S ≥ 0` and entry `E`. -/
theorem lin_conserve {B I O : ℕ} (hB : 0 < B) (m : PC I O × Adder.Cfg) (S E : ℚ) (hS : 0 ≤ S) (hmo : m.2.mode = m.1.mode)
    (hs : m.2.scale = some S) (he : m.2.entry = some E) (x : Fin B → Fin I → ℕ → ℤ) :
    ∃ out cnt : Fin B → Fin O → ℕ → ℤ, Spec.Rows (linOut m x) out ∧ Spec.Rows (pcOut m.1 x) cnt ∧
      ∀ b o n, let off : ℚ := if m.1.mode = .bipolar then (E - S) / 2 else 0
        (∀ t < n, |(Verif.Spec.ones (cnt b o) (t + 1) : ℚ) - (t + 1) * off - S * Verif.Spec.ones (out b o) t|
          ≤ (2:ℚ) ^ (m.2.depth - 2)) →
        |(Verif.Spec.ones (cnt b o) n : ℚ) - n * off - S * Verif.Spec.ones (out b o) n| ≤ (2:ℚ) ^ (m.2.depth - 2) := by
  refine ⟨fun b o => addOut m.2 (laneArg m.1 x b o), fun b o t => pcVal m.1 x t b o,
    fun t => lin_run hB m x t, fun t => pc_run hB m.1 x t, fun b o n => ?_⟩
  intro off hsat
  have hsc : Spec.addScale m.2 (laneArg m.1 x b o) = S := by simp [Spec.addScale, hs, laneArg]
  have hof : Spec.addOffset m.2 (laneArg m.1 x b o) = off := by
    unfold Spec.addOffset
    rw [hsc, hmo]
    simp [Spec.addEntry, he, laneArg, off]
  have hδ : ∀ k, ∑ t ∈ range k, Spec.addDelta m.2 (laneArg m.1 x b o) t
      = (Verif.Spec.ones (fun t => pcVal m.1 x t b o) k : ℚ) - k * off := by
    intro k
    unfold Spec.addDelta Verif.Spec.ones
    rw [hof, sum_sub_distrib]
    simp [laneArg]
  have hc := C20_conservation m.2 (laneArg m.1 x b o) (by rw [hsc]; exact hS) n (fun t ht => by
    rw [hδ, hsc]; push_cast; exact hsat t ht)
  rw [hδ, hsc] at hc
  have hb := C18_bounded m.2 (laneArg m.1 x b o) n
  have e : (Verif.Spec.ones (fun t => pcVal m.1 x t b o) n : ℚ) - n * off
      - S * Verif.Spec.ones (addOut m.2 (laneArg m.1 x b o)) n = addAcc m.2 (laneArg m.1 x b o) n := by linarith
  rw [e]; exact hb

/-- C45: with any other scale `S ≥ 0`: as long as the accumulator does not leave its range, ones times `S` plus
a residue within the accumulator range equal the accumulated counts less the bipolar offset `(N - S)/2` per
cycle. -/
theorem C45_other_scale {B I O : ℕ} (hB : 0 < B) (env : Env) (mode : String) (width : ℕ) (name : String) (depth : ℤ)
    (S : ℚ) (hS : 0 ≤ S)
    (we : Fin O → Fin I → ℚ) (bias : Bool) (be : Option (Fin O → ℚ)) (m : PC I O × Adder.Cfg)
    (hm : mkLinear env mode width name depth (some S) we bias be = .ok m)
    (x : Fin B → Fin I → ℕ → ℤ) :
    ∃ out cnt : Fin B → Fin O → ℕ → ℤ, Spec.Rows (linOut m x) out ∧ Spec.Rows (pcOut m.1 x) cnt ∧
      ∀ b o n, let off : ℚ := if m.1.mode = .bipolar then (Spec.fanIn I bias - S) / 2 else 0
        (∀ t < n, |(Verif.Spec.ones (cnt b o) (t + 1) : ℚ) - (t + 1) * off - S * Verif.Spec.ones (out b o) t|
          ≤ (2:ℚ) ^ (depth - 2)) →
        |(Verif.Spec.ones (cnt b o) n : ℚ) - n * off - S * Verif.Spec.ones (out b o) n| ≤ (2:ℚ) ^ (depth - 2) := by
  obtain ⟨-, hmo, hdep, hs, he, hadd⟩ := mkLinear_ok hm
  subst hdep
  exact lin_conserve hB m S _ hS hmo hs he x

/-- C45: a bipolar layer with temporal coded weights is refused with any scale other than the number of
addends. -/
theorem C45_refused {I O : ℕ} (env : Env) (mode : String) (width : ℕ) (name : String) (depth : ℤ) (S : ℚ)
    (we : Fin O → Fin I → ℚ) (bias : Bool) (be : Option (Fin O → ℚ)) (hmode : mode.toLower = "bipolar")
    (hn : Spec.TemporalName name) (hS : S ≠ Spec.fanIn I bias) :
    mkLinear env mode width name depth (some S) we bias be = .error .assertion := by
  unfold mkLinear
  have hN : (I : ℚ) + (if bias then 1 else 0) = (Spec.fanIn I bias : ℕ) := by
    unfold Spec.fanIn; push_cast; rfl
  simp only [hN]
  rw [if_pos ⟨hmode, ⟨rfl, by simpa using hS⟩, temporal_iff.2 hn⟩]

example : mkLinear (I := 2) (O := 1) ⟨30, fun _ => 1, fun _ _ => false, []⟩ "Bipolar" 2 "Race10" 12 (some 1)
    (fun _ _ => 0) false none = .error .assertion :=
  C45_refused _ _ _ _ _ _ _ _ _ (by decide +kernel) (by decide +kernel) (by norm_num [Spec.fanIn])

end Verif.Props
