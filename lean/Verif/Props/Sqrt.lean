import Verif.Spec
import Verif.Model.Sqrt
import Verif.Proofs.Small
import Verif.Props.Div
import Verif.Props.Mul

/-!
# Properties C36–C37, C84: the unary square root `FSUSqrt`
-/

namespace Verif.Props

open Verif Finset Small Shuffle Divider

/-- Result of call `t` of a fresh square root block. -/
def sqrtOut (cfg : Sqrt.Cfg) (rng : List ℤ) (x : ℕ → ℤ) (t : ℕ) : Except PyErr ℤ :=
  outAtE (Sqrt.step cfg rng) (Sqrt.init cfg) x t

private theorem land_bits2 {a b : ℤ} (ha : IsBit a) (hb : IsBit b) : Int.land a b = a * b := by
  rcases ha with h | h <;> rcases hb with h' | h' <;> subst h <;> subst h' <;> decide

private theorem jk_bit {q : ℤ} (hq : IsBit q) {o : ℤ} (ho : IsBit o) :
    jkStep q ((o : ℚ), 1) = (o * (1 - q), o * (1 - q)) := by
  rcases ho with h | h <;> rcases hq with h' | h' <;> subst h <;> subst h' <;>
    simp [jkStep, ind] <;> decide

/-! ## Every configuration: calls succeed and give bits -/

private structure SqInv (cfg : Sqrt.Cfg) (n : ℕ) (s : Sqrt.St) : Prop where
  tr : IsBit s.trace
  em : IsBit s.emitOut
  dff : IsBit s.dff
  jk : IsBit s.jk
  corIdx : s.cor.idx ≤ n
  corLen : s.cor.cells.length = 2 ^ 2
  corBit : ∀ b ∈ s.cor.cells, IsBit b
  srLen : s.sr.length = cfg.entrySr
  srBit : ∀ b ∈ s.sr, IsBit b
  idx : s.idx = 0

private theorem alt_bit {e : ℕ} : ∀ b ∈ srInit e, IsBit b := by
  intro b hb
  obtain ⟨k, -, rfl⟩ := List.mem_map.1 hb
  rcases Nat.mod_two_eq_zero_or_one k with h | h <;> rw [h]
  · exact Or.inl rfl
  · exact Or.inr rfl

private theorem getD_bit {l : List ℤ} (h : ∀ b ∈ l, IsBit b) (i : ℕ) : IsBit (l.getD i 0) := by
  rw [List.getD_eq_getElem?_getD]
  cases hg : l[i]? with
  | none => exact Or.inl rfl
  | some b => exact h b (List.mem_of_getElem? hg)

private theorem shift_bits {l : List ℤ} (h : ∀ b ∈ l, IsBit b) {x : ℤ} (hx : IsBit x) :
    ∀ b ∈ srShift l x none, IsBit b := by
  intro b hb
  cases l with
  | nil => simp [srShift] at hb
  | cons a l =>
      rw [srShift_none _ (by simp)] at hb
      rcases List.mem_append.1 hb with hb | hb
      · exact h b (List.mem_of_mem_drop hb)
      · rw [List.mem_singleton] at hb; rw [hb]; exact hx

private theorem uniTrace_inv {cfg : Sqrt.Cfg} {rng : List ℤ} (hr : Verif.Spec.IsPermSeq 2 rng) {n : ℕ} {s : Sqrt.St}
    (h : SqInv cfg n s) {o : ℤ} (ho : IsBit o) :
    ∃ s' t, Sqrt.unipolarTrace cfg rng s o = .ok (s', t) ∧ SqInv cfg (n + 1) s' ∧ IsBit t := by
  unfold Sqrt.unipolarTrace
  split_ifs with hj
  · rw [jk_bit h.jk ho]
    have hb := isBit_mul ho (isBit_compl h.jk)
    exact ⟨_, _, rfl, { h with jk := hb, corIdx := Nat.le_succ_of_le h.corIdx }, hb⟩
  · have hb : IsBit (Int.land (1 - s.dff) o) := by
      rw [land_bits2 (isBit_compl h.dff) ho]; exact isBit_mul (isBit_compl h.dff) ho
    obtain ⟨c', q, e, f1, f2, f3, f4, -⟩ := cor_step_bits hr s.cor.idx s.cor
      (Int.land (1 - s.dff) o, s.dff + Int.land (1 - s.dff) o) rfl h.corLen h.corBit hb
    refine ⟨{ s with cor := c', dff := 1 - s.dff }, q, ?_, { h with dff := isBit_compl h.dff, corIdx := by have := h.corIdx; show c'.idx ≤ _; omega, corLen := f2, corBit := f3 }, f4⟩
    show (corStep 4 rng s.cor _ >>= _) = _
    rw [show (4:ℕ) = 2 ^ 2 by norm_num, e]; rfl

private theorem step_inv {cfg : Sqrt.Cfg} (hsr : 0 < cfg.entrySr) {rng : List ℤ} (hr : Verif.Spec.IsPermSeq 2 rng) {n : ℕ}
    {s : Sqrt.St} (h : SqInv cfg n s) {x : ℤ} (hx : IsBit x) :
    ∃ s' q, Sqrt.step cfg rng s x = .ok (s', q) ∧ SqInv cfg (n + 1) s' ∧ IsBit q := by
  unfold Sqrt.step
  split_ifs with he
  · set add := Adder.step Sqrt.addCfg s.nsadd { xs := [(x : ℚ), (s.emitOut : ℚ)] } with hadd
    have ho : IsBit add.2 := isBit_ind _
    have hsrs : srStep s.sr (1 - add.2, none, s.idx % cfg.entrySr)
        = .ok (srShift s.sr (1 - add.2) none, (s.sr.getD (s.idx % cfg.entrySr) 0, s.sr.sum)) := by
      unfold srStep; rw [if_pos (by rw [h.srLen]; exact Nat.mod_lt _ hsr)]
    have hsc := getD_bit h.srBit (s.idx % cfg.entrySr)
    cases hm : cfg.mode
    · refine ⟨{ s with nsadd := add.1, sr := srShift s.sr (1 - add.2) none, emitOut := Int.land (s.sr.getD (s.idx % cfg.entrySr) 0) add.2 }, add.2, ?_, ?_, ho⟩
      · show ((Sqrt.unipolarEmit cfg { s with nsadd := add.1 } add.2) >>= _) = _
        unfold Sqrt.unipolarEmit
        show ((srStep s.sr (1 - add.2, none, s.idx % cfg.entrySr) >>= _) >>= _) = _
        rw [hsrs]; rfl
      · refine { h with em := ?_, srLen := ?_, srBit := shift_bits h.srBit (isBit_compl ho), corIdx := Nat.le_succ_of_le h.corIdx }
        · show IsBit (Int.land _ _); rw [land_bits2 hsc ho]; exact isBit_mul hsc ho
        · simp [srShift_length, h.srLen]
    · refine ⟨{ s with nsadd := add.1, sr := srShift s.sr (1 - add.2) none, b2u := (bi2uniStep 3 s.b2u add.2).1, emitOut := Int.land (s.sr.getD (s.idx % cfg.entrySr) 0) (bi2uniStep 3 s.b2u add.2).2 }, add.2, ?_, ?_, ho⟩
      · show ((Sqrt.bipolarEmit cfg { s with nsadd := add.1 } add.2) >>= _) = _
        unfold Sqrt.bipolarEmit
        show ((srStep s.sr (1 - add.2, none, s.idx % cfg.entrySr) >>= _) >>= _) = _
        rw [hsrs]; rfl
      · refine { h with em := ?_, srLen := ?_, srBit := shift_bits h.srBit (isBit_compl ho), corIdx := Nat.le_succ_of_le h.corIdx }
        · show IsBit (Int.land _ _)
          have hb : IsBit (bi2uniStep 3 s.b2u add.2).2 := isBit_ind _
          rw [land_bits2 hsc hb]; exact isBit_mul hsc hb
        · simp [srShift_length, h.srLen]
  · have ho : IsBit (Int.land (1 - s.trace) x + s.trace) := by
      rw [land_bits2 (isBit_compl h.tr) hx]
      rcases h.tr with h1 | h1 <;> rw [h1]
      · simpa using hx
      · right; ring
    cases hm : cfg.mode
    · obtain ⟨s', t, e, f1, f2⟩ := uniTrace_inv hr h ho
      refine ⟨{ s' with trace := t }, _, ?_, { f1 with tr := f2 }, ho⟩
      show ((Sqrt.unipolarTrace cfg rng s (Int.land (1 - s.trace) x + s.trace)) >>= _) = _
      rw [e]; rfl
    · have h' : SqInv cfg n { s with b2u := (bi2uniStep 3 s.b2u (Int.land (1 - s.trace) x + s.trace)).1 } := { h with }
      obtain ⟨s', t, e, f1, f2⟩ := uniTrace_inv hr h' (o := (bi2uniStep 3 s.b2u (Int.land (1 - s.trace) x + s.trace)).2) (isBit_ind _)
      refine ⟨{ s' with trace := t }, _, ?_, { f1 with tr := f2 }, ho⟩
      have hb : Sqrt.bipolarTrace cfg rng s (Int.land (1 - s.trace) x + s.trace) = .ok (s', t) := by
        rw [← e]; rfl
      show ((Sqrt.bipolarTrace cfg rng s (Int.land (1 - s.trace) x + s.trace)) >>= _) = _
      rw [hb]; rfl

private theorem init_inv (cfg : Sqrt.Cfg) : SqInv cfg 0 (Sqrt.init cfg) where
  tr := Or.inl rfl
  em := Or.inl rfl
  dff := Or.inl rfl
  jk := Or.inl rfl
  corIdx := le_refl _
  corLen := by simp [Sqrt.init, corInit, srInit]
  corBit := alt_bit
  srLen := by simp [Sqrt.init, srInit]
  srBit := alt_bit
  idx := rfl

private theorem state_ok {cfg : Sqrt.Cfg} (hsr : 0 < cfg.entrySr) {rng : List ℤ} (hr : Verif.Spec.IsPermSeq 2 rng) {x : ℕ → ℤ}
    (hx : Verif.Spec.BitStream x) (n : ℕ) :
    ∃ s, stateAtE (Sqrt.step cfg rng) (Sqrt.init cfg) x n = .ok s ∧ SqInv cfg n s := by
  induction n with
  | zero => exact ⟨_, rfl, init_inv cfg⟩
  | succ n ih =>
      obtain ⟨s, hs, hi⟩ := ih
      obtain ⟨s', q, e, f, -⟩ := step_inv hsr hr hi (hx n)
      exact ⟨s', stateAtE_succ_ok hs e, f⟩

private theorem mk_sr {mode : String} {jk emit : Bool} {kn sr : ℕ} {cfg : Sqrt.Cfg}
    (h : Sqrt.mk mode jk emit kn sr = .ok cfg) :
    0 < cfg.entrySr ∧ cfg.entrySr = sr ∧ cfg.jkTrace = jk ∧ cfg.emit = emit ∧ parseMode mode = .ok cfg.mode := by
  unfold Sqrt.mk at h
  cases hm : parseMode mode with
  | error e => rw [hm] at h; cases h
  | ok m =>
      rw [hm] at h
      have h' : (if kn = 0 then Except.error PyErr.value
        else if 2 ^ Nat.log2 kn ≠ kn then .error .assertion
        else if sr = 0 then .error .value
        else if 2 ^ Nat.log2 sr ≠ sr then .error .assertion
        else (pure ⟨m, jk, emit, kn, sr⟩ : Except PyErr Sqrt.Cfg)) = .ok cfg := h
      split_ifs at h'
      cases h'
      exact ⟨by show 0 < sr; omega, rfl, rfl, rfl, rfl⟩

/-- C36: `FSUSqrt` accepts exactly the two modes (in any case) with both entries powers of two, and is then configured as given. -/
theorem C36_accepts (mode : String) (jk emit : Bool) (kn sr : ℕ) :
    ((∃ cfg, Sqrt.mk mode jk emit kn sr = .ok cfg) ↔
      (mode.toLower = "unipolar" ∨ mode.toLower = "bipolar") ∧ (∃ k, kn = 2 ^ k) ∧ ∃ k, sr = 2 ^ k) ∧
    ∀ cfg, Sqrt.mk mode jk emit kn sr = .ok cfg →
      cfg = ⟨if mode.toLower = "unipolar" then .unipolar else .bipolar, jk, emit, kn, sr⟩ := by
  have hpow : ∀ n : ℕ, (n ≠ 0 ∧ 2 ^ Nat.log2 n = n) ↔ ∃ k, n = 2 ^ k := by
    intro n
    constructor
    · rintro ⟨-, h⟩; exact ⟨_, h.symm⟩
    · rintro ⟨k, rfl⟩; exact ⟨by positivity, by rw [Nat.log2_two_pow]⟩
  have key : Sqrt.mk mode jk emit kn sr = (parseMode mode >>= fun m =>
      if kn = 0 then .error .value else if 2 ^ Nat.log2 kn ≠ kn then .error .assertion
      else if sr = 0 then .error .value else if 2 ^ Nat.log2 sr ≠ sr then .error .assertion
      else pure ⟨m, jk, emit, kn, sr⟩) := rfl
  have hmode : (∃ m, parseMode mode = .ok m) ↔ (mode.toLower = "unipolar" ∨ mode.toLower = "bipolar") := by
    unfold parseMode; split_ifs <;> simp_all
  have hval : ∀ m, parseMode mode = .ok m → m = if mode.toLower = "unipolar" then .unipolar else .bipolar := by
    intro m; unfold parseMode; split_ifs <;> simp_all
  have hok : ∀ cfg, Sqrt.mk mode jk emit kn sr = .ok cfg ↔
      ∃ m, parseMode mode = .ok m ∧ (∃ k, kn = 2 ^ k) ∧ (∃ k, sr = 2 ^ k) ∧ cfg = ⟨m, jk, emit, kn, sr⟩ := by
    intro cfg
    rw [key, ← hpow, ← hpow]
    cases parseMode mode with
    | error e => simp [bind, Except.bind]
    | ok m =>
        simp only [bind, Except.bind]
        by_cases h1 : kn = 0
        · rw [if_pos h1]; constructor
          · intro h; cases h
          · rintro ⟨-, -, h, -⟩; exact absurd h1 h.1
        by_cases h2 : 2 ^ Nat.log2 kn = kn
        · by_cases h3 : sr = 0
          · rw [if_neg h1, if_neg (not_not.2 h2), if_pos h3]; constructor
            · intro h; cases h
            · rintro ⟨-, -, -, h, -⟩; exact absurd h3 h.1
          · by_cases h4 : 2 ^ Nat.log2 sr = sr
            · rw [if_neg h1, if_neg (not_not.2 h2), if_neg h3, if_neg (not_not.2 h4)]
              constructor
              · intro h; exact ⟨m, rfl, ⟨h1, h2⟩, ⟨h3, h4⟩, (Except.ok.inj h).symm⟩
              · rintro ⟨m', hm, -, -, rfl⟩; rw [Except.ok.inj hm]; rfl
            · rw [if_neg h1, if_neg (not_not.2 h2), if_neg h3, if_pos h4]; constructor
              · intro h; cases h
              · rintro ⟨-, -, -, h, -⟩; exact absurd h.2 h4
        · rw [if_neg h1, if_pos h2]; constructor
          · intro h; cases h
          · rintro ⟨-, -, h, -⟩; exact absurd h.2 h2
  refine ⟨⟨?_, ?_⟩, ?_⟩
  · rintro ⟨cfg, h⟩
    obtain ⟨m, h1, h2, h3, -⟩ := (hok cfg).1 h
    exact ⟨hmode.1 ⟨m, h1⟩, h2, h3⟩
  · rintro ⟨h1, h2, h3⟩
    obtain ⟨m, h⟩ := hmode.2 h1
    exact ⟨_, (hok _).2 ⟨m, h, h2, h3, rfl⟩⟩
  · intro cfg h
    obtain ⟨m, h1, -, -, h2⟩ := (hok cfg).1 h
    rw [h2, hval m h1]

example : (Sqrt.mk "Bipolar" true false 2 4).isOk = true ∧ (Sqrt.mk "Bipolar" true false 3 4).isOk = false := by
  decide +kernel

/-- C36, C37: in every configuration accepted by the constructor all calls succeed and return bits. -/
theorem C36_bits {mode : String} {jk emit : Bool} {kn sr : ℕ} {cfg : Sqrt.Cfg}
    (h : Sqrt.mk mode jk emit kn sr = .ok cfg) {rng : List ℤ} (hr : Verif.Spec.IsPermSeq 2 rng) {x : ℕ → ℤ}
    (hx : Verif.Spec.BitStream x) : ∃ o, (∀ t, sqrtOut cfg rng x t = .ok (o t)) ∧ Verif.Spec.BitStream o := by
  have key : ∀ t, ∃ q, sqrtOut cfg rng x t = .ok q ∧ IsBit q := by
    intro t
    obtain ⟨s, hs, hi⟩ := state_ok (mk_sr h).1 hr hx t
    obtain ⟨s', q, e, -, f⟩ := step_inv (mk_sr h).1 hr hi (hx t)
    exact ⟨q, outAtE_ok hs e, f⟩
  choose o h1 h2 using key
  exact ⟨o, h1, h2⟩

/-- Without `emit` the output contains every input one, in both modes and with both traces. -/
theorem C36_dominates {mode : String} {jk : Bool} {kn sr : ℕ} {cfg : Sqrt.Cfg}
    (h : Sqrt.mk mode jk false kn sr = .ok cfg) {rng : List ℤ} (hr : Verif.Spec.IsPermSeq 2 rng) {x : ℕ → ℤ}
    (hx : Verif.Spec.BitStream x) (t : ℕ) : ∃ q, sqrtOut cfg rng x t = .ok q ∧ x t ≤ q := by
  obtain ⟨s, hs, hi⟩ := state_ok (mk_sr h).1 hr hx t
  obtain ⟨s', q, e, -, f⟩ := step_inv (mk_sr h).1 hr hi (hx t)
  refine ⟨q, outAtE_ok hs e, ?_⟩
  have he := (mk_sr h).2.2.2.1
  have hq : q = Int.land (1 - s.trace) (x t) + s.trace := by
    unfold Sqrt.step at e
    rw [he] at e
    simp only [Bool.false_eq_true, if_false] at e
    cases hm : cfg.mode <;> rw [hm] at e
    · cases hu : Sqrt.unipolarTrace cfg rng s (Int.land (1 - s.trace) (x t) + s.trace) with
      | error z => simp only [hu] at e; cases e
      | ok p => simp only [hu] at e; cases e; rfl
    · cases hu : Sqrt.bipolarTrace cfg rng s (Int.land (1 - s.trace) (x t) + s.trace) with
      | error z => simp only [hu] at e; cases e
      | ok p => simp only [hu] at e; cases e; rfl
  rw [hq, land_bits2 (isBit_compl hi.tr) (hx t)]
  rcases hi.tr with h1 | h1 <;> rw [h1]
  · simp
  · have := (hx t).le_one; simpa using this

/-! ## C36: JK trace -/

/-- Greedy selection of input ones no two of which are in adjacent cycles. -/
def Spec.accepted (x : ℕ → ℤ) : ℕ → ℤ
  | 0 => x 0
  | t + 1 => x (t + 1) * (1 - Spec.accepted x t)

/-- The cycle before, `0` at the start. -/
def Spec.prev (a : ℕ → ℤ) : ℕ → ℤ
  | 0 => 0
  | t + 1 => a t

theorem accepted_bits {x : ℕ → ℤ} (hx : Verif.Spec.BitStream x) : Verif.Spec.BitStream (Spec.accepted x) := by
  intro t
  induction t with
  | zero => exact hx 0
  | succ t ih => exact isBit_mul (hx _) (isBit_compl ih)

private theorem prev_bits {x : ℕ → ℤ} (hx : Verif.Spec.BitStream x) (t : ℕ) : IsBit (Spec.prev (Spec.accepted x) t) := by
  cases t with
  | zero => exact Or.inl rfl
  | succ t => exact accepted_bits hx t

private theorem accepted_eq (x : ℕ → ℤ) (t : ℕ) :
    Spec.accepted x t = x t * (1 - Spec.prev (Spec.accepted x) t) := by
  cases t with
  | zero => simp [Spec.accepted, Spec.prev]
  | succ t => rfl

/-- C36: the output repeats every accepted one in the following cycle and contains nothing else. -/
theorem C36_pairs {mode : String} {kn sr : ℕ} {cfg : Sqrt.Cfg} (h : Sqrt.mk mode true false kn sr = .ok cfg)
    (hm : cfg.mode = .unipolar) (rng : List ℤ) {x : ℕ → ℤ} (hx : Verif.Spec.BitStream x) (t : ℕ) :
    sqrtOut cfg rng x t = .ok (Spec.accepted x t + Spec.prev (Spec.accepted x) t) := by
  obtain ⟨-, -, hj, he, -⟩ := mk_sr h
  have stp : ∀ (s : Sqrt.St) (t : ℕ), s.trace = Spec.prev (Spec.accepted x) t → s.jk = s.trace →
      Sqrt.step cfg rng s (x t) = .ok ({ s with jk := Spec.accepted x t, trace := Spec.accepted x t },
        Spec.accepted x t + Spec.prev (Spec.accepted x) t) := by
    intro s t h1 h2
    have hb := prev_bits hx t
    have ho : Int.land (1 - s.trace) (x t) + s.trace = Spec.accepted x t + Spec.prev (Spec.accepted x) t := by
      rw [h1, land_bits2 (isBit_compl hb) (hx t), accepted_eq]; ring
    have hjk : jkStep s.jk (((Spec.accepted x t + Spec.prev (Spec.accepted x) t : ℤ) : ℚ), 1)
        = (Spec.accepted x t, Spec.accepted x t) := by
      rw [h2, h1, jk_bit hb]
      · rw [accepted_eq]
        rcases hb with h | h <;> rw [h] <;> simp
      · rw [accepted_eq]
        rcases hb with h | h <;> rw [h]
        · simpa using hx t
        · right; ring
    unfold Sqrt.step
    rw [he, hm]
    simp only [Bool.false_eq_true, if_false]
    rw [ho]
    unfold Sqrt.unipolarTrace
    rw [hj]
    simp only [if_true]
    rw [hjk]; rfl
  have key : ∀ n, ∃ s, stateAtE (Sqrt.step cfg rng) (Sqrt.init cfg) x n = .ok s ∧
      s.trace = Spec.prev (Spec.accepted x) n ∧ s.jk = s.trace := by
    intro n
    induction n with
    | zero => exact ⟨_, rfl, rfl, rfl⟩
    | succ n ih =>
        obtain ⟨s, hs, h1, h2⟩ := ih
        exact ⟨_, stateAtE_succ_ok hs (stp s n h1 h2), rfl, rfl⟩
  obtain ⟨s, hs, h1, h2⟩ := key t
  exact outAtE_ok hs (stp s t h1 h2)

/-- C36: the output count is twice the accepted count (a trailing accepted one counts once), so it
lies between the input count and twice the input count, and an output one has an input one in the
same or the previous cycle. -/
theorem C36_count {mode : String} {kn sr : ℕ} {cfg : Sqrt.Cfg} (h : Sqrt.mk mode true false kn sr = .ok cfg)
    (hm : cfg.mode = .unipolar) (rng : List ℤ) {x : ℕ → ℤ} (hx : Verif.Spec.BitStream x) :
    ∃ o, (∀ t, sqrtOut cfg rng x t = .ok (o t)) ∧ Verif.Spec.BitStream o ∧
      (∀ n, Verif.Spec.ones o n = 2 * Verif.Spec.ones (Spec.accepted x) n - Spec.prev (Spec.accepted x) n) ∧
      (∀ n, Verif.Spec.ones x n ≤ Verif.Spec.ones o n ∧ Verif.Spec.ones o n ≤ 2 * Verif.Spec.ones x n) ∧
      (∀ t, o t = 1 → x t = 1 ∨ Spec.prev x t = 1) ∧
      (∀ n, o n = 0 → Even (Verif.Spec.ones o n)) := by
  have ha := accepted_bits hx
  have hle : ∀ t, Spec.accepted x t ≤ x t := by
    intro t
    rw [accepted_eq]
    rcases hx t with h | h <;> rcases prev_bits hx t with h' | h' <;> rw [h, h'] <;> norm_num
  have hcnt : ∀ n, Verif.Spec.ones (fun t => Spec.accepted x t + Spec.prev (Spec.accepted x) t) n
      = 2 * Verif.Spec.ones (Spec.accepted x) n - Spec.prev (Spec.accepted x) n := by
    intro n
    induction n with
    | zero => simp [Spec.prev]
    | succ n ih =>
        rw [Verif.Spec.ones_succ, ih, Verif.Spec.ones_succ]
        show _ = _ - Spec.accepted x n
        ring
  refine ⟨fun t => Spec.accepted x t + Spec.prev (Spec.accepted x) t, C36_pairs h hm rng hx, ?_, hcnt, ?_, ?_, ?_⟩
  · intro t
    show IsBit (Spec.accepted x t + Spec.prev (Spec.accepted x) t)
    rw [accepted_eq]
    rcases prev_bits hx t with h' | h' <;> rw [h']
    · simpa using hx t
    · right; ring
  · intro n
    constructor
    · apply sum_le_sum
      intro t _
      show x t ≤ Spec.accepted x t + Spec.prev (Spec.accepted x) t
      rw [accepted_eq]
      rcases hx t with h | h <;> rcases prev_bits hx t with h' | h' <;> rw [h, h'] <;> norm_num
    · rw [hcnt]
      have h1 : Verif.Spec.ones (Spec.accepted x) n ≤ Verif.Spec.ones x n := sum_le_sum fun t _ => hle t
      have h2 := (prev_bits hx n).nonneg
      omega
  · intro t ht
    have h1 : Spec.accepted x t + Spec.prev (Spec.accepted x) t = 1 := ht
    rcases hx t with h | h
    · right
      rw [accepted_eq, h] at h1
      cases t with
      | zero => simp [Spec.prev] at h1
      | succ t =>
          have h2 : Spec.accepted x t = 1 := by simpa [Spec.prev] using h1
          have h3 := hle t
          show x t = 1
          rcases hx t with h | h
          · omega
          · exact h
    · exact Or.inl h
  · intro n hn
    rw [hcnt]
    have h0 : Spec.accepted x n + Spec.prev (Spec.accepted x) n = 0 := hn
    have h1 := (ha n).nonneg
    have h2 := (prev_bits hx n).nonneg
    have h3 : Spec.prev (Spec.accepted x) n = 0 := by omega
    rw [h3]; exact ⟨Verif.Spec.ones (Spec.accepted x) n, by ring⟩

/-- C36: for streams without adjacent ones the block doubles the count. -/
theorem C36_isolated {mode : String} {kn sr : ℕ} {cfg : Sqrt.Cfg} (h : Sqrt.mk mode true false kn sr = .ok cfg)
    (hm : cfg.mode = .unipolar) (rng : List ℤ) {x : ℕ → ℤ} (hx : Verif.Spec.BitStream x)
    (hiso : ∀ t, x t = 1 → x (t + 1) = 0) (t : ℕ) :
    sqrtOut cfg rng x t = .ok (x t + Spec.prev x t) := by
  have : Spec.accepted x = x := by
    funext t
    induction t with
    | zero => rfl
    | succ t ih =>
        show x (t + 1) * (1 - Spec.accepted x t) = _
        rw [ih]
        rcases hx t with h | h
        · rw [h]; ring
        · rw [hiso t h]; ring
  rw [C36_pairs h hm rng hx, this]

/-- C36: the block does not compute the square root of an arbitrary encoding: `1 0 1 0 …` (value
one half) gives constant one. -/
theorem C36_alternating {mode : String} {kn sr : ℕ} {cfg : Sqrt.Cfg} (h : Sqrt.mk mode true false kn sr = .ok cfg)
    (hm : cfg.mode = .unipolar) (rng : List ℤ) (t : ℕ) :
    sqrtOut cfg rng (fun t => (((t + 1) % 2 : ℕ) : ℤ)) t = .ok 1 := by
  rw [C36_isolated h hm rng]
  · congr 1
    cases t with
    | zero => rfl
    | succ t => simp only [Spec.prev]; omega
  · intro t
    show IsBit (((t + 1) % 2 : ℕ) : ℤ)
    rcases Nat.mod_two_eq_zero_or_one (t + 1) with h | h <;> rw [h]
    · exact Or.inl rfl
    · exact Or.inr rfl
  · intro t ht
    have h1 : (((t + 1) % 2 : ℕ) : ℤ) = 1 := ht
    show (((t + 1 + 1) % 2 : ℕ) : ℤ) = 0
    omega

example : ∃ cfg, Sqrt.mk "Unipolar" true false 1 2 = .ok cfg ∧ cfg.mode = .unipolar := by
  exact ⟨⟨.unipolar, true, false, 1, 2⟩, by
    have : parseMode "Unipolar" = .ok .unipolar := by decide +kernel
    unfold Sqrt.mk; rw [this]; rfl, rfl⟩

/-- C36: the trace built from the division kernel: even calls pass the input, odd calls contain the
input ones of the same and of the previous call. -/
theorem C36_cordiv {mode : String} {kn sr : ℕ} {cfg : Sqrt.Cfg} (h : Sqrt.mk mode false false kn sr = .ok cfg)
    (hm : cfg.mode = .unipolar) {rng : List ℤ} (hr : Verif.Spec.IsPermSeq 2 rng) {x : ℕ → ℤ}
    (hx : Verif.Spec.BitStream x) (k : ℕ) :
    sqrtOut cfg rng x (2 * k) = .ok (x (2 * k)) ∧
    ∃ q, sqrtOut cfg rng x (2 * k + 1) = .ok q ∧ x (2 * k) ≤ q ∧ x (2 * k + 1) ≤ q := by
  obtain ⟨-, -, hj, he, -⟩ := mk_sr h
  have stp : ∀ (n : ℕ) (s : Sqrt.St), SqInv cfg n s → ∃ s' q, Sqrt.step cfg rng s (x n) = .ok (s', q) ∧
      SqInv cfg (n + 1) s' ∧ s'.dff = 1 - s.dff ∧ q = s.trace + (1 - s.trace) * x n ∧
      (s.dff = 1 → s'.trace = 0) ∧ (s.dff = 0 → q = 1 → s'.trace = 1) := by
    intro n s hi
    obtain ⟨s1, q1, e1, f1, f2⟩ := step_inv (mk_sr h).1 hr hi (hx n)
    have ho : IsBit (Int.land (1 - s.trace) (x n) + s.trace) := by
      rw [land_bits2 (isBit_compl hi.tr) (hx n)]
      rcases hi.tr with h1 | h1 <;> rw [h1]
      · simpa using hx n
      · right; ring
    have hb : IsBit (Int.land (1 - s.dff) (Int.land (1 - s.trace) (x n) + s.trace)) := by
      rw [land_bits2 (isBit_compl hi.dff) ho]; exact isBit_mul (isBit_compl hi.dff) ho
    obtain ⟨c', q, e, g1, g2, g3, g4, g5⟩ := cor_step_bits hr s.cor.idx s.cor
      (Int.land (1 - s.dff) (Int.land (1 - s.trace) (x n) + s.trace),
       s.dff + Int.land (1 - s.dff) (Int.land (1 - s.trace) (x n) + s.trace)) rfl hi.corLen hi.corBit hb
    have heq : Sqrt.step cfg rng s (x n) = .ok ({ s with cor := c', dff := 1 - s.dff, trace := q },
        Int.land (1 - s.trace) (x n) + s.trace) := by
      unfold Sqrt.step
      rw [he, hm]
      simp only [Bool.false_eq_true, if_false]
      unfold Sqrt.unipolarTrace
      rw [hj]
      simp only [Bool.false_eq_true, if_false]
      show ((corStep 4 rng s.cor _ >>= _) >>= _) = _
      rw [show (4:ℕ) = 2 ^ 2 by norm_num, e]; rfl
    rw [heq] at e1
    cases e1
    refine ⟨_, _, heq, f1, rfl, ?_, ?_, ?_⟩
    · rw [land_bits2 (isBit_compl hi.tr) (hx n)]; ring
    · intro hd
      have h0 : Int.land (1 - s.dff) (Int.land (1 - s.trace) (x n) + s.trace) = 0 := by
        rw [land_bits2 (isBit_compl hi.dff) ho, hd]; ring
      show q = 0
      have := g5 (by show s.dff + _ = 1; rw [h0, hd]; rfl)
      rw [this]; exact h0
    · intro hd hq
      have h0 : Int.land (1 - s.dff) (Int.land (1 - s.trace) (x n) + s.trace) = 1 := by
        rw [land_bits2 (isBit_compl hi.dff) ho, hd, hq]; ring
      show q = 1
      have := g5 (by show s.dff + _ = 1; rw [h0, hd]; rfl)
      rw [this]; exact h0
  have key : ∀ k, ∃ s, stateAtE (Sqrt.step cfg rng) (Sqrt.init cfg) x (2 * k) = .ok s ∧ SqInv cfg (2 * k) s ∧
      s.dff = 0 ∧ s.trace = 0 := by
    intro k
    induction k with
    | zero => exact ⟨_, rfl, init_inv cfg, rfl, rfl⟩
    | succ k ih =>
        obtain ⟨s, hs, hi, hd, ht⟩ := ih
        obtain ⟨s1, q1, e1, i1, d1, -, -, -⟩ := stp _ s hi
        obtain ⟨s2, q2, e2, i2, d2, -, t2, -⟩ := stp _ s1 i1
        refine ⟨s2, stateAtE_succ_ok (stateAtE_succ_ok hs e1) e2, i2, by rw [d2, d1, hd]; rfl, t2 (by rw [d1, hd]; rfl)⟩
  obtain ⟨s, hs, hi, hd, ht⟩ := key k
  obtain ⟨s1, q1, e1, i1, d1, o1, -, u1⟩ := stp _ s hi
  obtain ⟨s2, q2, e2, i2, d2, o2, -, -⟩ := stp _ s1 i1
  have hq1 : q1 = x (2 * k) := by rw [o1, ht]; ring
  refine ⟨by rw [← hq1]; exact outAtE_ok hs e1, q2, outAtE_ok (stateAtE_succ_ok hs e1) e2, ?_, ?_⟩
  · rcases hx (2 * k) with h0 | h0
    · rw [h0, o2]
      rcases i1.tr with h1 | h1 <;> rcases hx (2 * k + 1) with h3 | h3 <;> rw [h1, h3] <;> norm_num
    · have := u1 hd (by rw [hq1, h0])
      rw [o2, this, h0]; norm_num
  · rw [o2]
    rcases i1.tr with h1 | h1 <;> rcases hx (2 * k + 1) with h3 | h3 <;> rw [h1, h3] <;> norm_num

/-! ## C37: bit-emitting variant -/

/-- What the scrambling register returns at call `t`: the complement of the output `e` calls ago,
the alternating pattern before that. -/
def Spec.scrambled (e : ℕ) (o : ℕ → ℤ) (t : ℕ) : ℤ := if t < e then ((t % 2 : ℕ) : ℤ) else 1 - o (t - e)

/-- The emitted bit available at call `t`. -/
def Spec.emitted (e : ℕ) (o : ℕ → ℤ) : ℕ → ℤ
  | 0 => 0
  | t + 1 => o t * Spec.scrambled e o t

private def cf (A : ℚ) : Adder.St := ⟨false, some 2, 1, 0, A⟩

private theorem add_step (s : Adder.St) (A a b : ℤ) (hs : s = cf A ∨ (s = Adder.init Sqrt.addCfg ∧ A = 0))
    (hA : 0 ≤ A + a + b) :
    Adder.step Sqrt.addCfg s { xs := [(a : ℚ), (b : ℚ)] }
      = (cf ((min (A + a + b) 256 - ind (1 ≤ A + a + b) : ℤ) : ℚ), ind (1 ≤ A + a + b)) := by
  have e0 : Adder.step Sqrt.addCfg s { xs := [(a : ℚ), (b : ℚ)] }
      = Adder.accumulate Sqrt.addCfg (cf A) { xs := [(a : ℚ), (b : ℚ)] } := by
    rcases hs with h | ⟨h, h'⟩
    · rw [h]; rfl
    · rw [h, h']; simp [Adder.step, Adder.configure, Adder.init, Sqrt.addCfg, cf]
  rw [e0]
  have hB : accBound Sqrt.addCfg.depth = 256 := by norm_num [accBound, Sqrt.addCfg]
  have hs2 : (A : ℚ) + (([(a : ℚ), (b : ℚ)] : List ℚ).sum - 0) = ((A + a + b : ℤ) : ℚ) := by
    simp; ring
  have hcl : clamp (-256 : ℚ) 256 ((A + a + b : ℤ) : ℚ) = ((min (A + a + b) 256 : ℤ) : ℚ) := by
    have : (0:ℚ) ≤ ((A + a + b : ℤ) : ℚ) := by exact_mod_cast hA
    unfold clamp
    rw [max_eq_left (by linarith)]; push_cast; rfl
  simp only [Adder.accumulate, hB]
  have hsum : (cf (A:ℚ)).acc + (([(a : ℚ), (b : ℚ)] : List ℚ).sum - (cf (A:ℚ)).offset) = ((A + a + b : ℤ) : ℚ) := hs2
  rw [hsum, hcl]
  have hcmp : (((min (A + a + b) 256 : ℤ) : ℚ) ≥ (cf (A:ℚ)).scaleCarry) ↔ 1 ≤ A + a + b := by
    show (1:ℚ) ≤ _ ↔ _
    rw [show (1:ℚ) = ((1:ℤ) : ℚ) by norm_num, Int.cast_le]
    omega
  have hind : (ind (((min (A + a + b) 256 : ℤ) : ℚ) ≥ (cf (A:ℚ)).scaleCarry) : ℤ) = ind (1 ≤ A + a + b) := by
    unfold ind; simp only [hcmp]
  rw [hind]
  congr 1
  show (⟨false, some 2, 1, 0, _⟩ : Adder.St) = ⟨false, some 2, 1, 0, _⟩
  congr 1
  have hsc : (cf (A:ℚ)).scaleCarry = 1 := rfl
  rw [hsc, clamp_of_mem]
  · push_cast; ring
  · have h1 : (-256:ℤ) ≤ min (A + a + b) 256 - ind (1 ≤ A + a + b) := by
      have := (isBit_ind (1 ≤ A + a + b)).le_one; omega
    have h2 : ((-256:ℤ):ℚ) ≤ ((min (A + a + b) 256 - ind (1 ≤ A + a + b) : ℤ) : ℚ) := by exact_mod_cast h1
    push_cast at h2 ⊢; linarith
  · have h1 : min (A + a + b) 256 - ind (1 ≤ A + a + b) ≤ (256:ℤ) := by
      have := (isBit_ind (1 ≤ A + a + b)).nonneg; omega
    have h2 : ((min (A + a + b) 256 - ind (1 ≤ A + a + b) : ℤ) : ℚ) ≤ ((256:ℤ):ℚ) := by exact_mod_cast h1
    push_cast at h2 ⊢; linarith

private theorem emit_state {mode : String} {jk : Bool} {kn sr : ℕ} {cfg : Sqrt.Cfg}
    (h : Sqrt.mk mode jk true kn sr = .ok cfg) (hm : cfg.mode = .unipolar) (rng : List ℤ) {x : ℕ → ℤ}
    (hx : Verif.Spec.BitStream x) :
    ∃ o A : ℕ → ℤ, (∀ t, sqrtOut cfg rng x t = .ok (o t)) ∧ Verif.Spec.BitStream o ∧ A 0 = 0 ∧
      (∀ t, 0 ≤ A t ∧ o t = ind (1 ≤ A t + x t + Spec.emitted sr o t) ∧
        A (t + 1) = min (A t + x t + Spec.emitted sr o t) 256 - o t) := by
  obtain ⟨hsr, hsr', -, he, -⟩ := mk_sr h
  rw [hsr'] at hsr
  -- one call
  have stp : ∀ (s : Sqrt.St) (A : ℤ) (i : ℤ), (s.nsadd = cf A ∨ (s.nsadd = Adder.init Sqrt.addCfg ∧ A = 0)) →
      s.idx = 0 → s.sr.length = sr → 0 ≤ A + i + s.emitOut →
      Sqrt.step cfg rng s i = .ok ({ s with
          nsadd := cf ((min (A + i + s.emitOut) 256 - ind (1 ≤ A + i + s.emitOut) : ℤ) : ℚ)
          sr := srShift s.sr (1 - ind (1 ≤ A + i + s.emitOut)) none
          emitOut := Int.land (s.sr.getD 0 0) (ind (1 ≤ A + i + s.emitOut)) }, ind (1 ≤ A + i + s.emitOut)) := by
    intro s A i h1 h2 h3 h4
    unfold Sqrt.step
    rw [he, hm]
    simp only [if_true]
    rw [add_step s.nsadd A i s.emitOut h1 h4]
    simp only
    unfold Sqrt.unipolarEmit
    have hsrs : ∀ z, srStep s.sr (z, none, s.idx % cfg.entrySr)
        = .ok (srShift s.sr z none, (s.sr.getD 0 0, s.sr.sum)) := by
      intro z
      unfold srStep; rw [h2, Nat.zero_mod, if_pos (by rw [h3]; exact hsr)]
    simp only [hsrs]
    rfl
  have hex : ∀ n, ∃ s A, stateAtE (Sqrt.step cfg rng) (Sqrt.init cfg) x n = .ok s ∧
      (s.nsadd = cf (A : ℤ) ∨ (s.nsadd = Adder.init Sqrt.addCfg ∧ A = 0)) ∧ s.idx = 0 ∧ s.sr.length = sr ∧
      0 ≤ A ∧ IsBit s.emitOut ∧ (∀ b ∈ s.sr, IsBit b) ∧ (n = 0 → A = 0 ∧ s.emitOut = 0 ∧ s.sr = srInit sr) := by
    intro n
    induction n with
    | zero =>
        refine ⟨_, 0, rfl, Or.inr ⟨rfl, rfl⟩, rfl, by simp [Sqrt.init, srInit, hsr'], le_refl _, Or.inl rfl, alt_bit, ?_⟩
        intro _; refine ⟨rfl, rfl, by simp [Sqrt.init, hsr']⟩
    | succ n ih =>
        obtain ⟨s, A, hs, h1, h2, h3, h4, h5, h6, -⟩ := ih
        have hnn : 0 ≤ A + x n + s.emitOut := by have := (hx n).nonneg; have := h5.nonneg; omega
        refine ⟨_, min (A + x n + s.emitOut) 256 - ind (1 ≤ A + x n + s.emitOut), stateAtE_succ_ok hs (stp s A (x n) h1 h2 h3 hnn), Or.inl rfl, h2, ?_, ?_, ?_, ?_, ?_⟩
        · simp [srShift_length, h3]
        · by_cases hc : 1 ≤ A + x n + s.emitOut
          · rw [ind_true hc]; omega
          · rw [ind_false hc]; omega
        · have hg := getD_bit h6 0
          show IsBit (Int.land _ _)
          rw [land_bits2 hg (isBit_ind _)]; exact isBit_mul hg (isBit_ind _)
        · exact shift_bits h6 (isBit_compl (isBit_ind _))
        · intro h; omega
  choose S A hS hN hidx hlen hA hE hbits h0 using hex
  let o : ℕ → ℤ := fun t => ind (1 ≤ A t + x t + (S t).emitOut)
  have hob : Verif.Spec.BitStream o := fun t => isBit_ind _
  have hnn : ∀ t, 0 ≤ A t + x t + (S t).emitOut := by
    intro t; have := (hx t).nonneg; have := (hE t).nonneg; have := hA t; omega
  have hout : ∀ t, sqrtOut cfg rng x t = .ok (o t) := fun t =>
    outAtE_ok (hS t) (stp (S t) (A t) (x t) (hN t) (hidx t) (hlen t) (hnn t))
  have hsucc : ∀ t, S (t + 1) = { S t with
          nsadd := cf ((min (A t + x t + (S t).emitOut) 256 - o t : ℤ) : ℚ)
          sr := srShift (S t).sr (1 - o t) none
          emitOut := Int.land ((S t).sr.getD 0 0) (o t) } := by
    intro t
    have h1 := stateAtE_succ_ok (hS t) (stp (S t) (A t) (x t) (hN t) (hidx t) (hlen t) (hnn t))
    rw [hS (t + 1)] at h1
    exact Except.ok.inj h1
  have hAs : ∀ t, A (t + 1) = min (A t + x t + (S t).emitOut) 256 - o t := by
    intro t
    have h1 : (S (t + 1)).nsadd = cf ((min (A t + x t + (S t).emitOut) 256 - o t : ℤ) : ℚ) := by rw [hsucc]
    rcases hN (t + 1) with h2 | ⟨h2, -⟩
    · rw [h2] at h1
      have h3 : ((A (t + 1) : ℤ) : ℚ) = ((min (A t + x t + (S t).emitOut) 256 - o t : ℤ) : ℚ) := congrArg Adder.St.acc h1
      exact_mod_cast h3
    · rw [h2] at h1
      have := congrArg Adder.St.first h1
      simp [Adder.init, cf] at this
  have hsrv : ∀ n, (S n).sr = ((srInit sr) ++ (List.range n).map (fun t => 1 - o t)).drop n := by
    intro n
    induction n with
    | zero => rw [(h0 0 rfl).2.2]; simp
    | succ n ih =>
        rw [hsucc]
        show srShift (S n).sr (1 - o n) none = _
        have hne : (S n).sr ≠ [] := by
          intro hh; have := hlen n; rw [hh] at this; simp at this; omega
        rw [srShift_none _ hne, ih, List.drop_drop, List.range_succ, List.map_append, ← List.append_assoc,
          List.drop_append_of_le_length (l₂ := List.map _ [n]) (by simp [srInit_length]; omega)]
        rfl
  have hscr : ∀ n, (S n).sr.getD 0 0 = Spec.scrambled sr o n := by
    intro n
    rw [hsrv, List.getD_eq_getElem?_getD, List.getElem?_drop, ← List.getD_eq_getElem?_getD, Nat.add_zero]
    unfold Spec.scrambled
    split_ifs with h
    · rw [List.getD_append _ _ _ _ (by rw [srInit_length]; exact h), srInit_getD _ _ h]
    · rw [List.getD_append_right _ _ _ _ (by rw [srInit_length]; omega), srInit_length]
      have : n - sr < n := by omega
      simp [List.getD_eq_getElem?_getD, this]
  have hem : ∀ n, (S n).emitOut = Spec.emitted sr o n := by
    intro n
    cases n with
    | zero => rw [(h0 0 rfl).2.1]; rfl
    | succ n =>
        rw [hsucc]
        show Int.land ((S n).sr.getD 0 0) (o n) = o n * Spec.scrambled sr o n
        rw [land_bits2 (getD_bit (hbits n) 0) (hob n), hscr]; ring
  refine ⟨o, A, hout, hob, (h0 0 rfl).1, fun t => ⟨hA t, ?_, ?_⟩⟩
  · rw [← hem]
  · rw [← hem]; exact hAs t

private theorem scrambled_bit (e : ℕ) {o : ℕ → ℤ} (ho : Verif.Spec.BitStream o) (t : ℕ) : IsBit (Spec.scrambled e o t) := by
  unfold Spec.scrambled
  split_ifs
  · rcases Nat.mod_two_eq_zero_or_one t with h | h <;> rw [h]
    · exact Or.inl rfl
    · exact Or.inr rfl
  · exact isBit_compl (ho _)

private theorem emitted_bit (e : ℕ) {o : ℕ → ℤ} (ho : Verif.Spec.BitStream o) (t : ℕ) : IsBit (Spec.emitted e o t) := by
  cases t with
  | zero => exact Or.inl rfl
  | succ t => exact isBit_mul (ho t) (scrambled_bit e ho t)

/-- C37: output ones are input ones plus emitted ones, up to a residue of at most `entry_sr`; so the
number of input ones is the number of calls at which the output was one now and `entry_sr` calls
ago, up to `entry_sr`. -/
theorem C37_balance {mode : String} {jk : Bool} {kn sr : ℕ} {cfg : Sqrt.Cfg}
    (h : Sqrt.mk mode jk true kn sr = .ok cfg) (hm : cfg.mode = .unipolar) (hsr : sr ≤ 255) (rng : List ℤ)
    {x : ℕ → ℤ} (hx : Verif.Spec.BitStream x) :
    ∃ o, (∀ t, sqrtOut cfg rng x t = .ok (o t)) ∧ Verif.Spec.BitStream o ∧ (∀ t, x t ≤ o t) ∧
      (∀ n, 0 ≤ Verif.Spec.ones x n + Verif.Spec.ones (Spec.emitted sr o) n - Verif.Spec.ones o n ∧
        Verif.Spec.ones x n + Verif.Spec.ones (Spec.emitted sr o) n - Verif.Spec.ones o n ≤ sr) ∧
      (∀ n, 0 ≤ Verif.Spec.ones x n - ∑ t ∈ range n, o t * (1 - Spec.scrambled sr o t) ∧
        Verif.Spec.ones x n - ∑ t ∈ range n, o t * (1 - Spec.scrambled sr o t) ≤ sr) := by
  obtain ⟨o, A, h1, h2, h3, h4⟩ := emit_state h hm rng hx
  -- window of the scrambling register
  let T : ℕ → ℤ := Spec.scrambled sr o
  let W : ℕ → ℤ := fun t => ∑ u ∈ Ico t (t + sr), T u
  have hT : ∀ t, IsBit (T t) := scrambled_bit sr h2
  have hWs : ∀ t, W (t + 1) = W t - T t + (1 - o t) := by
    intro t
    have hp : 0 < sr := by obtain ⟨a, b, -⟩ := mk_sr h; omega
    have e1 : W t = T t + ∑ u ∈ Ico (t + 1) (t + sr), T u := Finset.sum_eq_sum_Ico_succ_bot (by omega) _
    have e2 : W (t + 1) = ∑ u ∈ Ico (t + 1) (t + sr), T u + T (t + sr) := by
      show ∑ u ∈ Ico (t + 1) (t + 1 + sr), T u = _
      rw [show t + 1 + sr = t + sr + 1 by ring, Finset.sum_Ico_succ_top (by omega)]
    have e3 : T (t + sr) = 1 - o t := by
      show Spec.scrambled sr o (t + sr) = _
      unfold Spec.scrambled
      rw [if_neg (by omega), Nat.add_sub_cancel]
    rw [e2, e1, e3]; ring
  have hWle : ∀ t, 0 ≤ W t ∧ W t ≤ sr := by
    intro t
    refine ⟨sum_nonneg fun u _ => (hT u).nonneg, ?_⟩
    have : W t ≤ ∑ u ∈ Ico t (t + sr), (1:ℤ) := sum_le_sum fun u _ => (hT u).le_one
    simpa using this
  have hpot : ∀ n, A n + Spec.emitted sr o n + W n ≤ sr ∧
      A n = Verif.Spec.ones x n + Verif.Spec.ones (Spec.emitted sr o) n - Verif.Spec.ones o n := by
    intro n
    induction n with
    | zero => refine ⟨?_, by simp [h3]⟩
              have := hWle 0; simp [h3, Spec.emitted]; omega
    | succ n ih =>
        obtain ⟨i1, i2⟩ := ih
        obtain ⟨a1, a2, a3⟩ := h4 n
        have hw := hWs n
        have hE : Spec.emitted sr o (n + 1) = o n * T n := rfl
        have b1 := hx n
        have b2 := emitted_bit sr h2 n
        have b3 := hT n
        have w0 := hWle n
        have w1 := hWle (n + 1)
        have hmin : min (A n + x n + Spec.emitted sr o n) 256 = A n + x n + Spec.emitted sr o n := by
          have := b1.le_one; omega
        rw [hmin] at a3
        refine ⟨?_, ?_⟩
        · by_cases hc : 1 ≤ A n + x n + Spec.emitted sr o n
          · rw [ind_true hc] at a2
            rw [hE, a3, hw, a2]
            have := b1.le_one; linarith
          · rw [ind_false hc] at a2
            rw [hE, a3, a2]
            have := b1.nonneg; have := b2.nonneg
            have : A n + x n + Spec.emitted sr o n = 0 := by omega
            rw [this]; simpa using w1.2
        · rw [Verif.Spec.ones_succ, Verif.Spec.ones_succ, Verif.Spec.ones_succ, a3, i2]; ring
  refine ⟨o, h1, h2, ?_, ?_, ?_⟩
  · intro t
    obtain ⟨a1, a2, -⟩ := h4 t
    have b2 := (emitted_bit sr h2 t).nonneg
    rcases hx t with h | h
    · rw [h]; exact (h2 t).nonneg
    · rw [a2, ind_true (by omega)]; omega
  · intro n
    obtain ⟨p1, p2⟩ := hpot n
    have := (h4 n).1
    have := (emitted_bit sr h2 n).nonneg
    have := (hWle n).1
    omega
  · intro n
    obtain ⟨p1, p2⟩ := hpot n
    have e1 : ∑ t ∈ range n, o t * (1 - Spec.scrambled sr o t)
        = Verif.Spec.ones o n - Verif.Spec.ones (Spec.emitted sr o) n - Spec.emitted sr o n := by
      induction n with
      | zero => simp [Spec.emitted]
      | succ n ih =>
          rw [sum_range_succ, ih (hpot n).1 (hpot n).2, Verif.Spec.ones_succ, Verif.Spec.ones_succ]
          show _ = _ - o n * Spec.scrambled sr o n
          ring
    rw [e1]
    have := (h4 n).1
    have := (emitted_bit sr h2 n).nonneg
    have := (hWle n).1
    omega

/-- C37: constant streams are fixed points, for every register length. -/
theorem C37_constants {mode : String} {jk : Bool} {kn sr : ℕ} {cfg : Sqrt.Cfg}
    (h : Sqrt.mk mode jk true kn sr = .ok cfg) (hm : cfg.mode = .unipolar) (rng : List ℤ) (t : ℕ) :
    sqrtOut cfg rng (fun _ => 1) t = .ok 1 ∧ sqrtOut cfg rng (fun _ => 0) t = .ok 0 := by
  constructor
  · obtain ⟨o, A, h1, h2, -, h4⟩ := emit_state h hm rng (x := fun _ => 1) (fun _ => Or.inr rfl)
    obtain ⟨a1, a2, -⟩ := h4 t
    have b2 := (emitted_bit sr h2 t).nonneg
    rw [h1, a2, ind_true (by omega)]
  · obtain ⟨o, A, h1, h2, h3, h4⟩ := emit_state h hm rng (x := fun _ => 0) (fun _ => Or.inl rfl)
    have key : ∀ n, A n = 0 ∧ Spec.emitted sr o n = 0 ∧ o n = 0 := by
      intro n
      induction n with
      | zero =>
          have := h4 0
          refine ⟨h3, rfl, ?_⟩
          rw [this.2.1, h3, ind_false (by simp [Spec.emitted])]
      | succ n ih =>
          obtain ⟨i1, i2, i3⟩ := ih
          obtain ⟨-, -, a3⟩ := h4 n
          have hA : A (n + 1) = 0 := by rw [a3, i1, i2, i3]; rfl
          have hE : Spec.emitted sr o (n + 1) = 0 := by
            show o n * _ = 0; rw [i3]; ring
          refine ⟨hA, hE, ?_⟩
          rw [(h4 (n + 1)).2.1, hA, hE, ind_false (by norm_num)]
    rw [h1, (key t).2.2]

/-- C37: the configured number sequence has no influence on the emitting variant. -/
theorem C37_sequence_unused (cfg : Sqrt.Cfg) (he : cfg.emit = true) (rng rng' : List ℤ) (x : ℕ → ℤ) (t : ℕ) :
    sqrtOut cfg rng x t = sqrtOut cfg rng' x t := by
  have : Sqrt.step cfg rng = Sqrt.step cfg rng' := by
    funext s i; unfold Sqrt.step; rw [he]; rfl
  unfold sqrtOut; rw [this]

example : ∃ cfg, Sqrt.mk "unipolar" true true 1 4 = .ok cfg ∧ cfg.mode = .unipolar ∧ cfg.emit = true :=
  ⟨⟨.unipolar, true, true, 1, 4⟩, by
    have : parseMode "unipolar" = .ok .unipolar := by decide +kernel
    unfold Sqrt.mk; rw [this]; rfl, rfl, rfl⟩

/-! ## C84: bipolar mode -/

private theorem stateE_next {S I O : Type} {step : S → I → Except PyErr (S × O)} {s0 : S} {x : ℕ → I} {S' : ℕ → S}
    (hS : ∀ n, stateAtE step s0 x n = .ok (S' n)) {t : ℕ} {s' : S} {o : O} (h : step (S' t) (x t) = .ok (s', o)) :
    S' (t + 1) = s' := by
  have := stateAtE_succ_ok (hS t) h
  rw [hS (t + 1)] at this
  exact Except.ok.inj this

/-- The `Bi2Uni` inside the block, driven by the output. -/
private theorem b2u_follows {b : ℕ → ℚ} {o : ℕ → ℤ} (h0 : b 0 = 0) (h : ∀ t, b (t + 1) = (bi2uniStep 3 (b t) (o t)).1)
    (t : ℕ) : b t = stateAt (bi2uniStep 3) 0 o t ∧ (bi2uniStep 3 (b t) (o t)).2 = b2uOut 3 o t := by
  have key : ∀ n, b n = stateAt (bi2uniStep 3) 0 o n := by
    intro n
    induction n with
    | zero => exact h0
    | succ n ih => rw [h, ih, stateAt_succ]
  refine ⟨key t, ?_⟩
  rw [key t]; rfl

/-- `Bi2Uni` never answers a zero with a one. -/
private theorem b2u_le {o : ℕ → ℤ} (ho : Verif.Spec.BitStream o) (t : ℕ) : b2uOut 3 o t ≤ o t := by
  have hs : ∀ n, stateAt (bi2uniStep 3) 0 o n ≤ 0 := by
    intro n
    have h1 : stateAt (bi2uniStep 3) 0 o n = (Verif.Spec.regulated (2 ^ 1) (fun t => 2 * o t - 1) n).1 := (C12_regulated 1 o ho n).2
    rw [h1]
    have h2 : (Verif.Spec.regulated (2 ^ 1) (fun t => 2 * o t - 1) n).1 ≤ 0 := by
      cases n with
      | zero => exact le_refl _
      | succ n => simp only [Verif.Spec.regulated]; omega
    exact_mod_cast h2
  rcases ho t with h | h
  · have : b2uOut 3 o t = 0 := by
      unfold b2uOut outAt
      simp only [bi2uniStep]
      apply ind_false
      rw [h]
      have hB : accBound 3 = 2 := by norm_num [accBound]
      rw [hB]
      unfold clamp
      have := hs t
      intro hc
      have h3 : min (max (stateAt (bi2uniStep 3) 0 o t + (((0:ℤ):ℚ) * 2 - 1)) (-2)) 2 ≤ (0:ℚ) :=
        le_trans (min_le_left _ _) (max_le (by push_cast; linarith) (by norm_num))
      linarith
    rw [this, h]
  · rw [h]; exact (C12_bits 3 o t).1.le_one

/-- C84: with the JK trace the bipolar output is the input with a one inserted after every greedily accepted one of the
`Bi2Uni` of the output itself.  (The right-hand side only looks at earlier outputs, so this determines the output.) -/
theorem C84_jk {mode : String} {kn sr : ℕ} {cfg : Sqrt.Cfg} (h : Sqrt.mk mode true false kn sr = .ok cfg)
    (hm : cfg.mode = .bipolar) (rng : List ℤ) {x : ℕ → ℤ} (hx : Verif.Spec.BitStream x) :
    ∃ o, (∀ t, sqrtOut cfg rng x t = .ok (o t)) ∧ Verif.Spec.BitStream o ∧
      ∀ t, o t = max (x t) (Spec.prev (Spec.accepted (b2uOut 3 o)) t) := by
  obtain ⟨-, -, hj, he, -⟩ := mk_sr h
  have stp : ∀ (s : Sqrt.St) (i : ℤ), IsBit i → IsBit s.trace → s.jk = s.trace →
      Sqrt.step cfg rng s i = .ok ({ s with
          b2u := (bi2uniStep 3 s.b2u (max i s.trace)).1
          jk := (bi2uniStep 3 s.b2u (max i s.trace)).2 * (1 - s.trace)
          trace := (bi2uniStep 3 s.b2u (max i s.trace)).2 * (1 - s.trace) }, max i s.trace) := by
    intro s i hi ht hjt
    have ho : Int.land (1 - s.trace) i + s.trace = max i s.trace := by
      rw [land_bits2 (isBit_compl ht) hi]
      rcases ht with h | h <;> rcases hi with h' | h' <;> rw [h, h'] <;> rfl
    unfold Sqrt.step
    rw [he, hm]
    simp only [Bool.false_eq_true, if_false]
    rw [ho]
    unfold Sqrt.bipolarTrace Sqrt.unipolarTrace
    rw [hj]
    simp only [if_true]
    have hu : IsBit (bi2uniStep 3 s.b2u (max i s.trace)).2 := isBit_ind _
    rw [hjt, jk_bit ht hu]; rfl
  have hmx : ∀ {a b : ℤ}, IsBit a → IsBit b → IsBit (max a b) := by
    intro a b ha hb
    rcases ha with h | h <;> rcases hb with h' | h' <;> rw [h, h'] <;> simp [IsBit]
  have hex : ∀ n, ∃ s, stateAtE (Sqrt.step cfg rng) (Sqrt.init cfg) x n = .ok s ∧ IsBit s.trace ∧ s.jk = s.trace := by
    intro n
    induction n with
    | zero => exact ⟨_, rfl, Or.inl rfl, rfl⟩
    | succ n ih =>
        obtain ⟨s, hs, h1, h2⟩ := ih
        exact ⟨_, stateAtE_succ_ok hs (stp s (x n) (hx n) h1 h2), isBit_mul (isBit_ind _) (isBit_compl h1), rfl⟩
  choose S hS hT hJ using hex
  have hsucc := fun t => stateE_next hS (stp (S t) (x t) (hx t) (hT t) (hJ t))
  have h0 : S 0 = Sqrt.init cfg := by have := hS 0; exact (Except.ok.inj this).symm
  let o : ℕ → ℤ := fun t => max (x t) (S t).trace
  have hb := b2u_follows (b := fun t => (S t).b2u) (o := o) (by show (S 0).b2u = 0; rw [h0]; rfl)
    (fun t => by show (S (t + 1)).b2u = _; rw [hsucc])
  have htr : ∀ t, (S t).trace = Spec.prev (Spec.accepted (b2uOut 3 o)) t := by
    intro t
    induction t with
    | zero => rw [h0]; rfl
    | succ t ih =>
        rw [hsucc]
        show (bi2uniStep 3 (S t).b2u (o t)).2 * (1 - (S t).trace) = Spec.accepted (b2uOut 3 o) t
        rw [(hb t).2, ih, accepted_eq]
  refine ⟨o, fun t => outAtE_ok (hS t) (stp (S t) (x t) (hx t) (hT t) (hJ t)), fun t => hmx (hx t) (hT t), ?_⟩
  intro t
  rw [← htr]

private theorem b2u_congr (o c : ℕ → ℤ) (t : ℕ) (h : ∀ k ≤ t, o k = c k) : b2uOut 3 o t = b2uOut 3 c t := by
  have key : ∀ n, (∀ k < n, o k = c k) → stateAt (bi2uniStep 3) 0 o n = stateAt (bi2uniStep 3) 0 c n := by
    intro n
    induction n with
    | zero => intro _; rfl
    | succ n ih => intro h; rw [stateAt_succ, stateAt_succ, ih (fun k hk => h k (by omega)), h n (by omega)]
  unfold b2uOut outAt
  rw [key t (fun k hk => h k (by omega)), h t (le_refl _)]

private theorem accepted_congr (u v : ℕ → ℤ) (t : ℕ) (h : ∀ k ≤ t, u k = v k) : Spec.accepted u t = Spec.accepted v t := by
  induction t with
  | zero => exact h 0 (le_refl _)
  | succ t ih => simp only [Spec.accepted]; rw [h _ (le_refl _), ih (fun k hk => h k (by omega))]

/-- C84: a stream that satisfies the equation is the output. -/
theorem C84_jk_unique {mode : String} {kn sr : ℕ} {cfg : Sqrt.Cfg} (h : Sqrt.mk mode true false kn sr = .ok cfg)
    (hm : cfg.mode = .bipolar) (rng : List ℤ) {x : ℕ → ℤ} (hx : Verif.Spec.BitStream x) (c : ℕ → ℤ)
    (hc : ∀ t, c t = max (x t) (Spec.prev (Spec.accepted (b2uOut 3 c)) t)) (t : ℕ) :
    sqrtOut cfg rng x t = .ok (c t) := by
  obtain ⟨o, h1, -, h3⟩ := C84_jk h hm rng hx
  have key : ∀ n, ∀ k < n, o k = c k := by
    intro n
    induction n with
    | zero => intro k hk; omega
    | succ n ih =>
        intro k hk
        rw [h3 k, hc k]
        cases k with
        | zero => rfl
        | succ k =>
            show max _ (Spec.accepted (b2uOut 3 o) k) = max _ (Spec.accepted (b2uOut 3 c) k)
            rw [accepted_congr _ _ k (fun j hj => b2u_congr o c j (fun i hi => ih i (by omega)))]
  rw [h1, key (t + 1) t (by omega)]

private theorem b2u_ones (t : ℕ) : b2uOut 3 (fun _ => 1) t = 1 := by
  have key : ∀ n, stateAt (bi2uniStep 3) 0 (fun _ => (1:ℤ)) n = 0 := by
    intro n
    induction n with
    | zero => rfl
    | succ n ih => rw [stateAt_succ, ih]; decide +kernel
  unfold b2uOut outAt
  rw [key]; show (bi2uniStep 3 0 1).2 = 1; decide +kernel

private theorem accepted_ones (t : ℕ) : Spec.accepted (fun _ => 1) t = if t % 2 = 0 then 1 else 0 := by
  induction t with
  | zero => rfl
  | succ t ih =>
      simp only [Spec.accepted]; rw [ih]
      split_ifs <;> omega

/-- C84: the bipolar square root of the same value depends on the encoding: nought sent as `1 0 1 0 …` gives constant one,
nought sent as `0 1 0 1 …` comes back unchanged; `1` and `-1` come back unchanged. -/
theorem C84_jk_phase {mode : String} {kn sr : ℕ} {cfg : Sqrt.Cfg} (h : Sqrt.mk mode true false kn sr = .ok cfg)
    (hm : cfg.mode = .bipolar) (rng : List ℤ) (t : ℕ) :
    sqrtOut cfg rng (fun t => (((t + 1) % 2 : ℕ) : ℤ)) t = .ok 1 ∧
    sqrtOut cfg rng (fun t => ((t % 2 : ℕ) : ℤ)) t = .ok ((t % 2 : ℕ) : ℤ) ∧
    sqrtOut cfg rng (fun _ => 1) t = .ok 1 ∧ sqrtOut cfg rng (fun _ => 0) t = .ok 0 := by
  have hb1 : b2uOut 3 (fun _ => 1) = fun _ => 1 := funext b2u_ones
  have zero : ∀ z : ℕ → ℤ, Verif.Spec.BitStream z → (∀ t, b2uOut 3 z t = 0) → sqrtOut cfg rng z t = .ok (z t) := by
    intro z hz h0
    apply C84_jk_unique h hm rng hz z
    intro t
    have e : b2uOut 3 z = fun _ => 0 := funext h0
    have ea : ∀ k, Spec.accepted (fun _ => 0) k = 0 := by intro k; cases k <;> simp [Spec.accepted]
    have : Spec.prev (Spec.accepted (b2uOut 3 z)) t = 0 := by
      rw [e]; cases t with
      | zero => rfl
      | succ t => exact ea t
    rw [this, max_eq_left (hz t).nonneg]
  have hmod : ∀ k : ℕ, IsBit ((k % 2 : ℕ) : ℤ) := by
    intro k
    rcases Nat.mod_two_eq_zero_or_one k with h | h <;> rw [h]
    · exact Or.inl rfl
    · exact Or.inr rfl
  refine ⟨?_, ?_, ?_, ?_⟩
  · apply C84_jk_unique h hm rng (x := fun t => (((t + 1) % 2 : ℕ) : ℤ)) (fun t => hmod (t + 1)) (fun _ => 1)
    intro t
    rw [hb1]
    cases t with
    | zero => rfl
    | succ t =>
        show (1:ℤ) = max _ (Spec.accepted (fun _ => 1) t)
        rw [accepted_ones]
        split_ifs with hp
        · have := (hmod (t + 1 + 1)).le_one; omega
        · have : (t + 1 + 1) % 2 = 1 := by omega
          rw [this]; rfl
  · apply zero (fun t => ((t % 2 : ℕ) : ℤ)) hmod
    have key : ∀ m, stateAt (bi2uniStep 3) 0 (fun t => ((t % 2 : ℕ) : ℤ)) (2 * m) = 0 ∧
        stateAt (bi2uniStep 3) 0 (fun t => ((t % 2 : ℕ) : ℤ)) (2 * m + 1) = -1 := by
      intro m
      have one : ∀ m, stateAt (bi2uniStep 3) 0 (fun t => ((t % 2 : ℕ) : ℤ)) (2 * m) = 0 →
          stateAt (bi2uniStep 3) 0 (fun t => ((t % 2 : ℕ) : ℤ)) (2 * m + 1) = -1 := by
        intro m h
        rw [stateAt_succ, h]
        rw [show 2 * m % 2 = 0 by omega]; decide +kernel
      induction m with
      | zero => exact ⟨rfl, one 0 rfl⟩
      | succ m ih =>
          have : stateAt (bi2uniStep 3) 0 (fun t => ((t % 2 : ℕ) : ℤ)) (2 * (m + 1)) = 0 := by
            rw [show 2 * (m + 1) = 2 * m + 1 + 1 by ring, stateAt_succ, ih.2]
            rw [show (2 * m + 1) % 2 = 1 by omega]; decide +kernel
          exact ⟨this, one _ this⟩
    intro t
    unfold b2uOut outAt
    beta_reduce
    rcases Nat.even_or_odd' t with ⟨m, rfl | rfl⟩
    · rw [(key m).1, show 2 * m % 2 = 0 by omega]; decide +kernel
    · rw [(key m).2, show (2 * m + 1) % 2 = 1 by omega]; decide +kernel
  · apply C84_jk_unique h hm rng (x := fun _ => 1) (fun t => Or.inr rfl) (fun _ => 1)
    intro t
    rw [hb1, max_eq_left]
    cases t with
    | zero => show (0:ℤ) ≤ 1; norm_num
    | succ t => show Spec.accepted (fun _ => 1) t ≤ 1; rw [accepted_ones]; split_ifs <;> norm_num
  · apply zero (fun _ => 0) (fun _ => Or.inl rfl)
    intro t
    have h1 := b2u_le (o := fun _ => 0) (fun _ => Or.inl rfl) t
    have h2 := (C12_bits 3 (fun _ => 0) t).1.nonneg
    omega

/-- C84: with the division trace the bipolar block passes the input in even calls; an odd call contains the input one of
the same call and the `Bi2Uni` one of the output of the previous call. -/
theorem C84_cordiv {mode : String} {kn sr : ℕ} {cfg : Sqrt.Cfg} (h : Sqrt.mk mode false false kn sr = .ok cfg)
    (hm : cfg.mode = .bipolar) {rng : List ℤ} (hr : Verif.Spec.IsPermSeq 2 rng) {x : ℕ → ℤ}
    (hx : Verif.Spec.BitStream x) :
    ∃ o, (∀ t, sqrtOut cfg rng x t = .ok (o t)) ∧ Verif.Spec.BitStream o ∧ (∀ t, x t ≤ o t) ∧
      ∀ k, o (2 * k) = x (2 * k) ∧ b2uOut 3 o (2 * k) ≤ o (2 * k + 1) := by
  obtain ⟨hsr, -, hj, he, -⟩ := mk_sr h
  have stp : ∀ (n : ℕ) (s : Sqrt.St), SqInv cfg n s → ∃ s' : Sqrt.St,
      Sqrt.step cfg rng s (x n) = .ok (s', s.trace + (1 - s.trace) * x n) ∧
      s'.dff = 1 - s.dff ∧ s'.b2u = (bi2uniStep 3 s.b2u (s.trace + (1 - s.trace) * x n)).1 ∧
      (s.dff = 1 → s'.trace = 0) ∧
      (s.dff = 0 → (bi2uniStep 3 s.b2u (s.trace + (1 - s.trace) * x n)).2 = 1 → s'.trace = 1) := by
    intro n s hi
    have hq : Int.land (1 - s.trace) (x n) + s.trace = s.trace + (1 - s.trace) * x n := by
      rw [land_bits2 (isBit_compl hi.tr) (hx n)]; ring
    generalize s.trace + (1 - s.trace) * x n = q at hq ⊢
    have hu : IsBit (bi2uniStep 3 s.b2u q).2 := isBit_ind _
    generalize hu' : (bi2uniStep 3 s.b2u q).2 = u at *
    have hb : IsBit (Int.land (1 - s.dff) u) := by
      rw [land_bits2 (isBit_compl hi.dff) hu]; exact isBit_mul (isBit_compl hi.dff) hu
    obtain ⟨c', r, e, -, -, -, -, g5⟩ := cor_step_bits hr s.cor.idx s.cor
      (Int.land (1 - s.dff) u, s.dff + Int.land (1 - s.dff) u) rfl hi.corLen hi.corBit hb
    refine ⟨{ s with b2u := (bi2uniStep 3 s.b2u q).1, cor := c', dff := 1 - s.dff, trace := r }, ?_, rfl, rfl, ?_, ?_⟩
    · unfold Sqrt.step
      rw [he, hm]
      simp only [Bool.false_eq_true, if_false]
      rw [hq]
      unfold Sqrt.bipolarTrace Sqrt.unipolarTrace
      rw [hj]
      simp only [Bool.false_eq_true, if_false]
      rw [hu']
      show ((corStep 4 rng s.cor _ >>= _) >>= _) = _
      rw [show (4:ℕ) = 2 ^ 2 by norm_num, e]; rfl
    · intro hd
      have h0 : Int.land (1 - s.dff) u = 0 := by rw [land_bits2 (isBit_compl hi.dff) hu, hd]; ring
      show r = 0
      have := g5 (by show s.dff + _ = 1; rw [h0, hd]; rfl)
      rw [this]; exact h0
    · intro hd hu1
      have h0 : Int.land (1 - s.dff) u = 1 := by rw [land_bits2 (isBit_compl hi.dff) hu, hd, hu1]; ring
      show r = 1
      have := g5 (by show s.dff + _ = 1; rw [h0, hd]; rfl)
      rw [this]; exact h0
  choose S hS hI using state_ok hsr hr hx
  have hstep := fun t => stp t (S t) (hI t)
  choose S' e1 e2 e3 e4 e5 using hstep
  have hsucc := fun t => stateE_next hS (e1 t)
  have h0 : S 0 = Sqrt.init cfg := by have := hS 0; exact (Except.ok.inj this).symm
  let o : ℕ → ℤ := fun t => (S t).trace + (1 - (S t).trace) * x t
  have hb := b2u_follows (b := fun t => (S t).b2u) (o := o) (by show (S 0).b2u = 0; rw [h0]; rfl)
    (fun t => by show (S (t + 1)).b2u = _; rw [hsucc, e3])
  have hk : ∀ k, (S (2 * k)).dff = 0 ∧ (S (2 * k)).trace = 0 := by
    intro k
    induction k with
    | zero => rw [Nat.mul_zero, h0]; exact ⟨rfl, rfl⟩
    | succ k ih =>
        have d1 : (S (2 * k + 1)).dff = 1 := by rw [hsucc, e2, ih.1]; rfl
        rw [show 2 * (k + 1) = 2 * k + 1 + 1 by ring, hsucc (2 * k + 1)]
        exact ⟨by rw [e2, d1]; rfl, e4 _ d1⟩
  have hob : Verif.Spec.BitStream o := by
    intro t
    show IsBit ((S t).trace + (1 - (S t).trace) * x t)
    rcases (hI t).tr with h | h <;> rw [h]
    · simpa using hx t
    · right; ring
  have hdom : ∀ t, x t ≤ o t := by
    intro t
    show x t ≤ (S t).trace + (1 - (S t).trace) * x t
    rcases (hI t).tr with h | h <;> rcases hx t with h' | h' <;> rw [h, h'] <;> norm_num
  refine ⟨o, fun t => outAtE_ok (hS t) (e1 t), hob, hdom, ?_⟩
  intro k
  obtain ⟨k1, k2⟩ := hk k
  refine ⟨by show (S (2 * k)).trace + (1 - (S (2 * k)).trace) * x (2 * k) = _; rw [k2]; ring, ?_⟩
  rcases (C12_bits 3 o (2 * k)).1 with h | h
  · rw [h]; exact (hob _).nonneg
  · rw [h]
    have ht : (S (2 * k + 1)).trace = 1 := by
      rw [hsucc]
      exact e5 (2 * k) k1 ((hb (2 * k)).2.trans h)
    show 1 ≤ (S (2 * k + 1)).trace + (1 - (S (2 * k + 1)).trace) * x (2 * k + 1)
    rw [ht]; norm_num

/-- The bit emitted in bipolar mode available at call `t`: the `Bi2Uni` of the output instead of the output. -/
def Spec.emittedBi (e : ℕ) (o : ℕ → ℤ) : ℕ → ℤ
  | 0 => 0
  | t + 1 => b2uOut 3 o t * Spec.scrambled e o t

private theorem emit_state_bi {mode : String} {jk : Bool} {kn sr : ℕ} {cfg : Sqrt.Cfg}
    (h : Sqrt.mk mode jk true kn sr = .ok cfg) (hm : cfg.mode = .bipolar) (rng : List ℤ) {x : ℕ → ℤ}
    (hx : Verif.Spec.BitStream x) :
    ∃ o A : ℕ → ℤ, (∀ t, sqrtOut cfg rng x t = .ok (o t)) ∧ Verif.Spec.BitStream o ∧ A 0 = 0 ∧
      (∀ t, 0 ≤ A t ∧ o t = ind (1 ≤ A t + x t + Spec.emittedBi sr o t) ∧
        A (t + 1) = min (A t + x t + Spec.emittedBi sr o t) 256 - o t) := by
  obtain ⟨hsr, hsr', -, he, -⟩ := mk_sr h
  rw [hsr'] at hsr
  have stp : ∀ (s : Sqrt.St) (A : ℤ) (i : ℤ), (s.nsadd = cf A ∨ (s.nsadd = Adder.init Sqrt.addCfg ∧ A = 0)) →
      s.idx = 0 → s.sr.length = sr → 0 ≤ A + i + s.emitOut →
      Sqrt.step cfg rng s i = .ok ({ s with
          nsadd := cf ((min (A + i + s.emitOut) 256 - ind (1 ≤ A + i + s.emitOut) : ℤ) : ℚ)
          sr := srShift s.sr (1 - ind (1 ≤ A + i + s.emitOut)) none
          b2u := (bi2uniStep 3 s.b2u (ind (1 ≤ A + i + s.emitOut))).1
          emitOut := Int.land (s.sr.getD 0 0) (bi2uniStep 3 s.b2u (ind (1 ≤ A + i + s.emitOut))).2 },
            ind (1 ≤ A + i + s.emitOut)) := by
    intro s A i h1 h2 h3 h4
    unfold Sqrt.step
    rw [he, hm]
    simp only [if_true]
    rw [add_step s.nsadd A i s.emitOut h1 h4]
    simp only
    unfold Sqrt.bipolarEmit
    have hsrs : ∀ z, srStep s.sr (z, none, s.idx % cfg.entrySr)
        = .ok (srShift s.sr z none, (s.sr.getD 0 0, s.sr.sum)) := by
      intro z
      unfold srStep; rw [h2, Nat.zero_mod, if_pos (by rw [h3]; exact hsr)]
    simp only [hsrs]
    rfl
  have hex : ∀ n, ∃ s A, stateAtE (Sqrt.step cfg rng) (Sqrt.init cfg) x n = .ok s ∧
      (s.nsadd = cf (A : ℤ) ∨ (s.nsadd = Adder.init Sqrt.addCfg ∧ A = 0)) ∧ s.idx = 0 ∧ s.sr.length = sr ∧
      0 ≤ A ∧ IsBit s.emitOut ∧ (∀ b ∈ s.sr, IsBit b) ∧
      (n = 0 → A = 0 ∧ s.emitOut = 0 ∧ s.sr = srInit sr ∧ s.b2u = 0) := by
    intro n
    induction n with
    | zero =>
        refine ⟨_, 0, rfl, Or.inr ⟨rfl, rfl⟩, rfl, by simp [Sqrt.init, srInit, hsr'], le_refl _, Or.inl rfl, alt_bit, ?_⟩
        intro _; refine ⟨rfl, rfl, by simp [Sqrt.init, hsr'], rfl⟩
    | succ n ih =>
        obtain ⟨s, A, hs, h1, h2, h3, h4, h5, h6, -⟩ := ih
        have hnn : 0 ≤ A + x n + s.emitOut := by have := (hx n).nonneg; have := h5.nonneg; omega
        refine ⟨_, min (A + x n + s.emitOut) 256 - ind (1 ≤ A + x n + s.emitOut), stateAtE_succ_ok hs (stp s A (x n) h1 h2 h3 hnn), Or.inl rfl, h2, ?_, ?_, ?_, ?_, ?_⟩
        · simp [srShift_length, h3]
        · by_cases hc : 1 ≤ A + x n + s.emitOut
          · rw [ind_true hc]; omega
          · rw [ind_false hc]; omega
        · have hg := getD_bit h6 0
          have hu : IsBit (bi2uniStep 3 s.b2u (ind (1 ≤ A + x n + s.emitOut))).2 := isBit_ind _
          show IsBit (Int.land _ _)
          rw [land_bits2 hg hu]; exact isBit_mul hg hu
        · exact shift_bits h6 (isBit_compl (isBit_ind _))
        · intro h; omega
  choose S A hS hN hidx hlen hA hE hbits h0 using hex
  let o : ℕ → ℤ := fun t => ind (1 ≤ A t + x t + (S t).emitOut)
  have hob : Verif.Spec.BitStream o := fun t => isBit_ind _
  have hnn : ∀ t, 0 ≤ A t + x t + (S t).emitOut := by
    intro t; have := (hx t).nonneg; have := (hE t).nonneg; have := hA t; omega
  have hout : ∀ t, sqrtOut cfg rng x t = .ok (o t) := fun t =>
    outAtE_ok (hS t) (stp (S t) (A t) (x t) (hN t) (hidx t) (hlen t) (hnn t))
  have hsucc := fun t => stateE_next hS (stp (S t) (A t) (x t) (hN t) (hidx t) (hlen t) (hnn t))
  have hAs : ∀ t, A (t + 1) = min (A t + x t + (S t).emitOut) 256 - o t := by
    intro t
    have h1 : (S (t + 1)).nsadd = cf ((min (A t + x t + (S t).emitOut) 256 - o t : ℤ) : ℚ) := by rw [hsucc]
    rcases hN (t + 1) with h2 | ⟨h2, -⟩
    · rw [h2] at h1
      have h3 : ((A (t + 1) : ℤ) : ℚ) = ((min (A t + x t + (S t).emitOut) 256 - o t : ℤ) : ℚ) := congrArg Adder.St.acc h1
      exact_mod_cast h3
    · rw [h2] at h1
      have := congrArg Adder.St.first h1
      simp [Adder.init, cf] at this
  have hb := b2u_follows (b := fun t => (S t).b2u) (o := o) (h0 0 rfl).2.2.2
    (fun t => by show (S (t + 1)).b2u = _; rw [hsucc])
  have hsrv : ∀ n, (S n).sr = ((srInit sr) ++ (List.range n).map (fun t => 1 - o t)).drop n := by
    intro n
    induction n with
    | zero => rw [(h0 0 rfl).2.2.1]; simp
    | succ n ih =>
        rw [hsucc]
        show srShift (S n).sr (1 - o n) none = _
        have hne : (S n).sr ≠ [] := by
          intro hh; have := hlen n; rw [hh] at this; simp at this; omega
        rw [srShift_none _ hne, ih, List.drop_drop, List.range_succ, List.map_append, ← List.append_assoc,
          List.drop_append_of_le_length (l₂ := List.map _ [n]) (by simp [srInit_length]; omega)]
        rfl
  have hscr : ∀ n, (S n).sr.getD 0 0 = Spec.scrambled sr o n := by
    intro n
    rw [hsrv, List.getD_eq_getElem?_getD, List.getElem?_drop, ← List.getD_eq_getElem?_getD, Nat.add_zero]
    unfold Spec.scrambled
    split_ifs with h
    · rw [List.getD_append _ _ _ _ (by rw [srInit_length]; exact h), srInit_getD _ _ h]
    · rw [List.getD_append_right _ _ _ _ (by rw [srInit_length]; omega), srInit_length]
      have : n - sr < n := by omega
      simp [List.getD_eq_getElem?_getD, this]
  have hem : ∀ n, (S n).emitOut = Spec.emittedBi sr o n := by
    intro n
    cases n with
    | zero => rw [(h0 0 rfl).2.1]; rfl
    | succ n =>
        rw [hsucc]
        show Int.land ((S n).sr.getD 0 0) (bi2uniStep 3 (S n).b2u (o n)).2 = b2uOut 3 o n * Spec.scrambled sr o n
        rw [(hb n).2, land_bits2 (getD_bit (hbits n) 0) (C12_bits 3 o n).1, hscr]; ring
  refine ⟨o, A, hout, hob, (h0 0 rfl).1, fun t => ⟨hA t, ?_, ?_⟩⟩
  · rw [← hem]
  · rw [← hem]; exact hAs t

private theorem emittedBi_bit (e : ℕ) {o : ℕ → ℤ} (ho : Verif.Spec.BitStream o) (t : ℕ) : IsBit (Spec.emittedBi e o t) := by
  cases t with
  | zero => exact Or.inl rfl
  | succ t => exact isBit_mul (C12_bits 3 o t).1 (scrambled_bit e ho t)

/-- C84: the bipolar emitting block contains every input one; its output ones are the input ones plus the emitted ones up to a
residue of at most `entry_sr`, an emission being a `Bi2Uni` one of the output that meets a zero of the output `entry_sr` calls earlier. -/
theorem C84_balance {mode : String} {jk : Bool} {kn sr : ℕ} {cfg : Sqrt.Cfg}
    (h : Sqrt.mk mode jk true kn sr = .ok cfg) (hm : cfg.mode = .bipolar) (hsr : sr ≤ 255) (rng : List ℤ)
    {x : ℕ → ℤ} (hx : Verif.Spec.BitStream x) :
    ∃ o, (∀ t, sqrtOut cfg rng x t = .ok (o t)) ∧ Verif.Spec.BitStream o ∧ (∀ t, x t ≤ o t) ∧
      (∀ n, 0 ≤ Verif.Spec.ones x n + Verif.Spec.ones (Spec.emittedBi sr o) n - Verif.Spec.ones o n ∧
        Verif.Spec.ones x n + Verif.Spec.ones (Spec.emittedBi sr o) n - Verif.Spec.ones o n ≤ sr) := by
  obtain ⟨o, A, h1, h2, h3, h4⟩ := emit_state_bi h hm rng hx
  let T : ℕ → ℤ := Spec.scrambled sr o
  let W : ℕ → ℤ := fun t => ∑ u ∈ Ico t (t + sr), T u
  have hT : ∀ t, IsBit (T t) := scrambled_bit sr h2
  have hWs : ∀ t, W (t + 1) = W t - T t + (1 - o t) := by
    intro t
    have hp : 0 < sr := by obtain ⟨a, b, -⟩ := mk_sr h; omega
    have e1 : W t = T t + ∑ u ∈ Ico (t + 1) (t + sr), T u := Finset.sum_eq_sum_Ico_succ_bot (by omega) _
    have e2 : W (t + 1) = ∑ u ∈ Ico (t + 1) (t + sr), T u + T (t + sr) := by
      show ∑ u ∈ Ico (t + 1) (t + 1 + sr), T u = _
      rw [show t + 1 + sr = t + sr + 1 by ring, Finset.sum_Ico_succ_top (by omega)]
    have e3 : T (t + sr) = 1 - o t := by
      show Spec.scrambled sr o (t + sr) = _
      unfold Spec.scrambled
      rw [if_neg (by omega), Nat.add_sub_cancel]
    rw [e2, e1, e3]; ring
  have hWle : ∀ t, 0 ≤ W t ∧ W t ≤ sr := by
    intro t
    refine ⟨sum_nonneg fun u _ => (hT u).nonneg, ?_⟩
    have : W t ≤ ∑ u ∈ Ico t (t + sr), (1:ℤ) := sum_le_sum fun u _ => (hT u).le_one
    simpa using this
  have hpot : ∀ n, A n + Spec.emittedBi sr o n + W n ≤ sr ∧
      A n = Verif.Spec.ones x n + Verif.Spec.ones (Spec.emittedBi sr o) n - Verif.Spec.ones o n := by
    intro n
    induction n with
    | zero => refine ⟨?_, by simp [h3]⟩
              have := hWle 0; simp [h3, Spec.emittedBi]; omega
    | succ n ih =>
        obtain ⟨i1, i2⟩ := ih
        obtain ⟨a1, a2, a3⟩ := h4 n
        have hw := hWs n
        have hE : Spec.emittedBi sr o (n + 1) = b2uOut 3 o n * T n := rfl
        have b1 := hx n
        have b2 := emittedBi_bit sr h2 n
        have b3 := hT n
        have w0 := hWle n
        have w1 := hWle (n + 1)
        have bu := (C12_bits 3 o n).1
        have bl := b2u_le h2 n
        have hmin : min (A n + x n + Spec.emittedBi sr o n) 256 = A n + x n + Spec.emittedBi sr o n := by
          have := b1.le_one; omega
        rw [hmin] at a3
        refine ⟨?_, ?_⟩
        · by_cases hc : 1 ≤ A n + x n + Spec.emittedBi sr o n
          · rw [ind_true hc] at a2
            rw [hE, a3, hw, a2]
            have := b1.le_one
            rcases bu with e | e <;> rw [e]
            · have := b3.nonneg; linarith
            · linarith
          · rw [ind_false hc] at a2
            have hu0 : b2uOut 3 o n = 0 := by have := bu.nonneg; omega
            rw [hE, a3, a2, hu0]
            have := b1.nonneg; have := b2.nonneg
            have : A n + x n + Spec.emittedBi sr o n = 0 := by omega
            rw [this]; simpa using w1.2
        · rw [Verif.Spec.ones_succ, Verif.Spec.ones_succ, Verif.Spec.ones_succ, a3, i2]; ring
  refine ⟨o, h1, h2, ?_, ?_⟩
  · intro t
    obtain ⟨a1, a2, -⟩ := h4 t
    have b2 := (emittedBi_bit sr h2 t).nonneg
    rcases hx t with h | h
    · rw [h]; exact (h2 t).nonneg
    · rw [a2, ind_true (by omega)]; omega
  · intro n
    obtain ⟨p1, p2⟩ := hpot n
    have := (h4 n).1
    have := (emittedBi_bit sr h2 n).nonneg
    have := (hWle n).1
    omega

example : ∃ cfg, Sqrt.mk "bipolar" true true 1 4 = .ok cfg ∧ cfg.mode = .bipolar ∧ cfg.entrySr ≤ 255 :=
  ⟨⟨.bipolar, true, true, 1, 4⟩, by
    have : parseMode "bipolar" = .ok .bipolar := by decide +kernel
    unfold Sqrt.mk; rw [this]; rfl, rfl, by decide⟩

example : ∃ cfg, Sqrt.mk "Bipolar" true false 1 4 = .ok cfg ∧ cfg.mode = .bipolar :=
  ⟨⟨.bipolar, true, false, 1, 4⟩, by
    have : parseMode "Bipolar" = .ok .bipolar := by decide +kernel
    unfold Sqrt.mk; rw [this]; rfl, rfl⟩

end Verif.Props
