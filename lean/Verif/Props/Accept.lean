import Verif.Props.Rnn
import Verif.Props.Conv

/-!
# Property C89: exactly which stream multipliers, layers and cells can be built
-/

namespace Verif.Props

open Verif Linear Gen Conv Rnn

/-- The names of the two codings, in any case. -/
def Spec.ModeName (s : String) : Prop := s.toLower = "unipolar" ∨ s.toLower = "bipolar"

/-- The names of the number sequences, in any case. -/
def Spec.SeqName (s : String) : Prop := s.toLower ∈ ["sobol", "race", "lfsr", "sys", "rc", "tc", "race10", "tc10"]

private theorem bind_isOk {α β : Type} {m : Except PyErr α} {f : α → Except PyErr β} :
    (∃ b, (m >>= f) = .ok b) ↔ ∃ a, m = .ok a ∧ ∃ b, f a = .ok b := by
  cases m with
  | error e => simp [bind, Except.bind]
  | ok a => simp [bind, Except.bind]

private theorem parseMode_isOk (s : String) : (∃ m, parseMode s = .ok m) ↔ Spec.ModeName s := by
  unfold parseMode Spec.ModeName
  split_ifs with h1 h2 <;> simp [*]

private theorem rng_isOk (env : Env) (w : ℕ) (name : String) :
    (∃ l, rng env w name = .ok l) ↔ Spec.SeqName name := by
  constructor
  · rintro ⟨l, h⟩
    by_contra hn
    rw [C02_reject env w name hn] at h; cases h
  · intro h
    unfold rng
    simp only
    rw [if_neg (fun hn => hn h)]
    split_ifs <;> exact ⟨_, rfl⟩

private theorem rng_init {env : Env} {w : ℕ} {name : String} (hp : env.randperm.length = 2 ^ w) {l : List ℤ}
    (h : rng env w name = .ok l) : bsGenInit l = .ok l := by
  have hl : l.length = 2 ^ w := by
    unfold rng at h
    simp only at h
    split_ifs at h <;> rw [← Except.ok.inj h] <;> simp [sobolSeq, raceSeq, race10Seq, lfsrSeq, hp]
  unfold bsGenInit
  rw [hl, if_neg (by positivity), Nat.log2_two_pow, if_pos rfl]

/-- C89: a static multiplier. -/
theorem C89_multiplier (env : Env) (mode : String) (w : ℕ) (name : String) (prob : Option ℚ) (hp : env.randperm.length = 2 ^ w) :
    (∃ m, Multiplier.mkStatic env mode w name prob = .ok m) ↔ Spec.ModeName mode ∧ Spec.SeqName name ∧ prob ≠ none := by
  unfold Multiplier.mkStatic binGen
  rw [bind_isOk, ← parseMode_isOk, ← rng_isOk env w name]
  constructor
  · rintro ⟨m, hm, h⟩
    rw [bind_isOk] at h
    obtain ⟨l, hl, h⟩ := h
    refine ⟨⟨m, hm⟩, ⟨l, hl⟩, ?_⟩
    rintro rfl
    obtain ⟨b, h⟩ := h; cases h
  · rintro ⟨⟨m, hm⟩, ⟨l, hl⟩, hpr⟩
    obtain ⟨p, rfl⟩ := Option.ne_none_iff_exists'.1 hpr
    refine ⟨m, hm, ?_⟩
    rw [bind_isOk]
    refine ⟨l, hl, ?_⟩
    rw [hm]
    show ∃ b, (bsGenInit l >>= _) = _
    rw [rng_init hp hl]
    exact ⟨_, rfl⟩

/-- C89: the parallel counter of a layer. -/
theorem C89_counter {I O : ℕ} (env : Env) (mode : String) (w : ℕ) (name : String) (we : Fin O → Fin I → ℚ) (bias : Bool)
    (be : Option (Fin O → ℚ)) (hp : env.randperm.length = 2 ^ w) :
    (∃ c, mkPC env mode w name we bias be = .ok c) ↔
      Spec.ModeName mode ∧ Spec.SeqName name ∧ (bias = true → be ≠ none) := by
  unfold mkPC
  rw [bind_isOk, ← parseMode_isOk, ← rng_isOk env w name]
  constructor
  · rintro ⟨m, hm, h⟩
    rw [bind_isOk] at h
    obtain ⟨l, hl, h⟩ := h
    refine ⟨⟨m, hm⟩, ⟨l, hl⟩, ?_⟩
    rintro rfl rfl
    obtain ⟨b, h⟩ := h
    rw [rng_init hp hl] at h; cases h
  · rintro ⟨⟨m, hm⟩, ⟨l, hl⟩, hb⟩
    refine ⟨m, hm, ?_⟩
    rw [bind_isOk]
    refine ⟨l, hl, ?_⟩
    rw [rng_init hp hl]
    rcases bias with _ | _
    · exact ⟨_, rfl⟩
    · obtain ⟨p, rfl⟩ := Option.ne_none_iff_exists'.1 (hb rfl)
      exact ⟨_, rfl⟩

/-- C89: a linear layer; a bipolar layer with a temporal sequence must have no scale or its number of addends as scale. -/
theorem C89_linear {I O : ℕ} (env : Env) (mode : String) (w : ℕ) (name : String) (depth : ℤ) (scale : Option ℚ)
    (we : Fin O → Fin I → ℚ) (bias : Bool) (be : Option (Fin O → ℚ)) (hp : env.randperm.length = 2 ^ w) :
    (∃ m, mkLinear env mode w name depth scale we bias be = .ok m) ↔
      Spec.ModeName mode ∧ Spec.SeqName name ∧ (bias = true → be ≠ none) ∧
      (mode.toLower = "bipolar" → Spec.TemporalName name → ∀ S, scale = some S → S = I + if bias then 1 else 0) := by
  unfold mkLinear
  simp only
  generalize ((I:ℚ) + if bias = true then 1 else 0) = E
  by_cases h : mode.toLower = "bipolar" ∧ (scale.isSome = true ∧ scale ≠ some E) ∧ isTemporal name = true
  · rw [if_pos h]
    constructor
    · rintro ⟨m, hm⟩; cases hm
    · rintro ⟨-, -, -, h'⟩
      obtain ⟨h1, ⟨h2, h3⟩, h4⟩ := h
      obtain ⟨S, rfl⟩ := Option.isSome_iff_exists.1 h2
      exact absurd (by rw [h' h1 (temporal_iff.1 h4) S rfl]) h3
  · rw [if_neg h, bind_isOk]
    have h' : mode.toLower = "bipolar" → Spec.TemporalName name → ∀ S, scale = some S → S = E := by
      rintro h1 h2 S rfl
      by_contra h3
      exact h ⟨h1, ⟨rfl, fun h4 => h3 (Option.some.inj h4)⟩, temporal_iff.2 h2⟩
    constructor
    · rintro ⟨c, hc, -⟩
      obtain ⟨a, b, d⟩ := (C89_counter env mode w name we bias be hp).1 ⟨c, hc⟩
      exact ⟨a, b, d, h'⟩
    · rintro ⟨a, b, d, -⟩
      obtain ⟨c, hc⟩ := (C89_counter env mode w name we bias be hp).2 ⟨a, b, d⟩
      obtain ⟨m, hm⟩ := (parseMode_isOk mode).2 a
      refine ⟨c, hc, ?_⟩
      unfold Adder.mk; rw [hm]; exact ⟨_, rfl⟩

/-- C89: a convolution layer, likewise with the number of taps. -/
theorem C89_conv {O : ℕ} (env : Env) (g : Geo) (C : ℕ) (mode : String) (w : ℕ) (name : String) (depth : ℤ) (scale : Option ℚ)
    (we : ℕ → ℕ → ℕ → ℕ → ℚ) (bias : Bool) (be : Option (Fin O → ℚ)) (hp : env.randperm.length = 2 ^ w) :
    (∃ m, mkConv env g C mode w name depth scale we bias be = .ok m) ↔
      Spec.ModeName mode ∧ Spec.SeqName name ∧ (bias = true → be ≠ none) ∧
      (mode.toLower = "bipolar" → Spec.TemporalName name → ∀ S, scale = some S → S = C * g.kh * g.kw + if bias then 1 else 0) := by
  unfold mkConv
  rw [C89_linear _ _ _ _ _ _ _ _ _ hp]
  push_cast
  rfl

/-- C89: the recurrent stream cell: bipolar mode, a known sequence, both biases if it has biases, a stored state; and with a temporal
sequence the cell can only be built if its gates have a single addend. -/
theorem C89_cell {B I H : ℕ} (env : Env) (mode : String) (w d : ℕ) (name : String) (depth : ℤ)
    (wf wn : Fin H → Fin (H + I) → ℚ) (bias : Bool) (bf bn : Option (Fin H → ℚ)) (hb : Option (Fin B → Fin H → ℚ))
    (hp : env.randperm.length = 2 ^ w) :
    (∃ c, mkFsu env mode w d name depth wf wn bias bf bn hb = .ok c) ↔
      mode.toLower = "bipolar" ∧ Spec.SeqName name ∧ (bias = true → bf ≠ none ∧ bn ≠ none) ∧ hb ≠ none ∧
      (Spec.TemporalName name → H + I + (if bias then 1 else 0) = 1) := by
  have hm : mode.toLower = "bipolar" → parseMode mode = .ok .bipolar := fun h => by
    unfold parseMode; rw [if_neg (by rw [h]; decide), if_pos h]
  have cond : (Spec.TemporalName name → ∀ S : ℚ, some 1 = some S → S = ((H + I : ℕ):ℚ) + if bias then 1 else 0) ↔
      (Spec.TemporalName name → H + I + (if bias then 1 else 0) = 1) := by
    refine imp_congr_right fun _ => ?_
    constructor
    · intro h
      have := h 1 rfl
      split_ifs at this ⊢ <;> norm_cast at this <;> exact this.symm
    · rintro h S hS
      rw [← Option.some.inj hS]
      split_ifs at h ⊢ <;> norm_cast <;> exact h.symm
  unfold mkFsu
  by_cases h1 : mode.toLower = "bipolar"
  swap
  · rw [if_pos h1]
    constructor
    · rintro ⟨c, hc⟩; cases hc
    · exact fun h => absurd h.1 h1
  rw [if_neg (not_not.2 h1)]
  by_cases h2 : bias = true ∧ (bf = none ∨ bn = none)
  · rw [if_pos h2]
    constructor
    · rintro ⟨c, hc⟩; cases hc
    · rintro ⟨-, -, h, -⟩
      rcases h2.2 with h3 | h3
      · exact absurd h3 (h h2.1).1
      · exact absurd h3 (h h2.1).2
  rw [if_neg h2]
  have h2' : bias = true → bf ≠ none ∧ bn ≠ none := fun h => ⟨fun k => h2 ⟨h, .inl k⟩, fun k => h2 ⟨h, .inr k⟩⟩
  constructor
  · rintro ⟨c, hc⟩
    have hc' := (bind_isOk.1 ⟨c, hc⟩)
    obtain ⟨f, hf, hc'⟩ := hc'
    obtain ⟨n, hn, hc'⟩ := bind_isOk.1 hc'
    obtain ⟨-, a, -, b⟩ := (C89_linear env mode w name depth (some 1) wf bias bf hp).1 ⟨f, hf⟩
    refine ⟨h1, a, h2', ?_, cond.1 (b h1)⟩
    rintro rfl
    obtain ⟨sg, hs, hc'⟩ := bind_isOk.1 hc'
    obtain ⟨m, hm, hc'⟩ := bind_isOk.1 hc'
    obtain ⟨r, hr, hc'⟩ := bind_isOk.1 hc'
    obtain ⟨b, hc'⟩ := hc'
    cases hc'
  · rintro ⟨-, a, b, c, e⟩
    obtain ⟨hb, rfl⟩ := Option.ne_none_iff_exists'.1 c
    obtain ⟨f, hf⟩ := (C89_linear env mode w name depth (some 1) wf bias bf hp).2 ⟨.inr h1, a, fun h => (b h).1, fun _ => cond.2 e⟩
    obtain ⟨n, hn⟩ := (C89_linear env mode w name depth (some 1) wn bias bn hp).2 ⟨.inr h1, a, fun h => (b h).2, fun _ => cond.2 e⟩
    obtain ⟨l, hl⟩ := (rng_isOk env w name).2 a
    obtain ⟨l', hl'⟩ := (rng_isOk env d name).2 a
    rw [hf, hn]
    unfold Adder.mk
    rw [hm h1, hl]
    show ∃ c, (bsGenInit l >>= _) = _
    rw [rng_init hp hl, hl']
    exact ⟨_, rfl⟩

/-- Non-vacuity: a cell with a Sobol sequence can be built, the same cell with the temporal sequence cannot. -/
example : (∃ c, mkFsu (B := 1) (I := 2) (H := 1) ⟨30, fun _ => 1, fun _ _ => false, [0, 1, 2, 3]⟩ "Bipolar" 2 3 "Sobol" 8 (fun _ _ => 1 / 2)
      (fun _ _ => 1 / 4) false none none (some fun _ _ => 0) = .ok c) ∧
    ¬ ∃ c, mkFsu (B := 1) (I := 2) (H := 1) ⟨30, fun _ => 1, fun _ _ => false, [0, 1, 2, 3]⟩ "Bipolar" 2 3 "Race" 8 (fun _ _ => 1 / 2)
      (fun _ _ => 1 / 4) false none none (some fun _ _ => 0) = .ok c := by
  constructor
  · rw [C89_cell _ _ _ _ _ _ _ _ _ _ _ _ rfl]
    exact ⟨by decide +kernel, by unfold Spec.SeqName; decide +kernel, by simp, by simp, fun h => absurd h (by decide +kernel)⟩
  · rw [C89_cell _ _ _ _ _ _ _ _ _ _ _ _ rfl]
    rintro ⟨-, -, -, -, h⟩
    exact absurd (h (by decide +kernel)) (by decide)

end Verif.Props
