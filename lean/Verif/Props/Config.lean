import Verif.Model.Config
import Verif.Props.Tlut

/-!
# Property C75: what the constructors accept
-/

namespace Verif.Props

open Verif Finset Linear Config

namespace Spec

/-- Admissible `hwcfg` of the temporal look-up layers. -/
structure TlutValid (a : TlutArgs) : Prop where
  temporal : a.temporal.toLower = "i" ∨ a.temporal.toLower = "input" ∨ a.temporal.toLower = "w" ∨ a.temporal.toLower = "weight"
  formati : a.formati.toLower = "fxp" ∨ a.formati.toLower = "bfloat16" ∨ a.formati.toLower = "float16" ∨ a.formati.toLower = "float32"
  formatw : a.formatw.toLower = "fxp" ∨ a.formatw.toLower = "bfloat16" ∨ a.formatw.toLower = "float16" ∨ a.formatw.toLower = "float32"
  quantilei : 0 < a.quantilei ∧ a.quantilei ≤ 1
  quantilew : 0 < a.quantilew ∧ a.quantilew ≤ 1
  rounding : a.rounding.toLower = "round" ∨ a.rounding.toLower = "ceil" ∨ a.rounding.toLower = "floor"
  signmag : a.signmag = true
  widtht : 1 ≤ a.widtht

/-- A weight tensor of shape `s` passes for one of shape `want`: the leading sizes agree. -/
def Leads (want : List ℕ) (s? : Option (List ℕ)) : Prop := ∀ s, s? = some s → ∃ rest, s = want ++ rest

end Spec

theorem sizeAt_ok {s : List ℕ} {k n : ℕ} : sizeAt s k = .ok n ↔ s[k]? = some n := by
  unfold sizeAt
  cases s[k]? <;> simp

/-- C75: the weight check of the linear layers looks at the two leading sizes only; a tensor of lower rank raises `IndexError`
instead of the intended message. -/
theorem C75_weight (w : Option (List ℕ)) (o i : ℕ) :
    (checkWeight2 w o i = .ok () ↔ Spec.Leads [o, i] w) ∧
    (checkWeight2 w o i = .error .index ↔ ∃ s, w = some s ∧ s.length < 2) ∧
    (checkWeight2 w o i = .error .assertion ↔ ∃ a b rest, w = some (a :: b :: rest) ∧ (a ≠ o ∨ b ≠ i)) := by
  unfold Spec.Leads
  rcases w with _ | s
  · simp [checkWeight2]
  · rcases s with _ | ⟨a, _ | ⟨b, rest⟩⟩
    · simp [checkWeight2, sizeAt, bind, Except.bind]
    · simp [checkWeight2, sizeAt, bind, Except.bind]
    · have e : checkWeight2 (some (a :: b :: rest)) o i = if (a, b) = (o, i) then .ok () else .error .assertion := rfl
      rw [e]
      by_cases h : (a, b) = (o, i)
      · rw [if_pos h]
        obtain ⟨rfl, rfl⟩ := Prod.mk.inj h
        simp
      · rw [if_neg h]
        rw [Prod.mk.injEq, not_and_or] at h
        refine ⟨⟨fun k => (nomatch k), fun k => ?_⟩, ⟨fun k => (nomatch k), ?_⟩, ⟨fun _ => ⟨a, b, rest, rfl, h⟩, fun _ => rfl⟩⟩
        · obtain ⟨r, hr⟩ := k _ rfl
          simp only [List.cons_append, List.cons.injEq] at hr
          rcases h with h | h
          · exact absurd hr.1 h
          · exact absurd hr.2.1 h
        · rintro ⟨s, hs, hl⟩
          cases hs
          simp at hl

/-- The same for convolutions: the four leading sizes. -/
theorem C75_weight_conv (w : Option (List ℕ)) (o i kh kw : ℕ) :
    (checkWeight4 w o i kh kw = .ok () ↔ Spec.Leads [o, i, kh, kw] w) ∧
    (checkWeight4 w o i kh kw = .error .index ↔ ∃ s, w = some s ∧ s.length < 4) := by
  unfold Spec.Leads
  rcases w with _ | s
  · simp [checkWeight4]
  · rcases s with _ | ⟨a, _ | ⟨b, _ | ⟨c, _ | ⟨d, rest⟩⟩⟩⟩
    · simp [checkWeight4, sizeAt, bind, Except.bind]
    · simp [checkWeight4, sizeAt, bind, Except.bind]
    · simp [checkWeight4, sizeAt, bind, Except.bind]
    · simp [checkWeight4, sizeAt, bind, Except.bind]
    · have e : checkWeight4 (some (a :: b :: c :: d :: rest)) o i kh kw
          = if (a, b, c, d) = (o, i, kh, kw) then .ok () else .error .assertion := rfl
      rw [e]
      by_cases h : (a, b, c, d) = (o, i, kh, kw)
      · rw [if_pos h]
        simp only [Prod.mk.injEq] at h
        obtain ⟨rfl, rfl, rfl, rfl⟩ := h
        simp
      · rw [if_neg h]
        refine ⟨⟨fun k => (nomatch k), fun k => ?_⟩, ⟨fun k => (nomatch k), ?_⟩⟩
        · obtain ⟨r, hr⟩ := k _ rfl
          simp only [List.cons_append, List.cons.injEq] at hr
          exact absurd (by rw [hr.1, hr.2.1, hr.2.2.1, hr.2.2.2.1]) h
        · rintro ⟨s, hs, hl⟩
          cases hs
          simp only [List.length_cons] at hl
          omega

/-- The bias is only looked at when the layer has one; then its leading size. -/
theorem C75_bias (bias : Bool) (b : Option (List ℕ)) (o : ℕ) :
    checkBias bias b o = .ok () ↔ bias = false ∨ Spec.Leads [o] b := by
  unfold Spec.Leads
  rcases bias with _ | _
  · simp [checkBias]
  · rcases b with _ | s
    · simp [checkBias]
    · rcases s with _ | ⟨a, rest⟩
      · simp [checkBias, sizeAt, bind, Except.bind]
      · have e : checkBias true (some (a :: rest)) o = if a = o then .ok () else .error .assertion := rfl
        rw [e]
        by_cases h : a = o
        · subst h; simp
        · rw [if_neg h]
          simp [h]

private theorem parseFmt_ok (s : String) :
    (∃ f, parseFmt s = .ok f) ↔ s.toLower = "fxp" ∨ s.toLower = "bfloat16" ∨ s.toLower = "float16" ∨ s.toLower = "float32" := by
  unfold parseFmt
  split_ifs with h1 h2 h3 h4 <;> simp [*]

/-- The name of a number format. -/
def Spec.fmtName : Fmt → String
  | .fxp => "fxp"
  | .bfloat16 => "bfloat16"
  | .float16 => "float16"
  | .float32 => "float32"

/-- A layer holds the hyperparameters it was given, names in lower case. -/
structure Spec.TlutHolds (a : TlutArgs) (c : Tlut) : Prop where
  temporal : c.temporalI = true ↔ a.temporal.toLower = "i" ∨ a.temporal.toLower = "input"
  t : c.t = a.widtht
  formati : Spec.fmtName c.formati = a.formati.toLower
  formatw : Spec.fmtName c.formatw = a.formatw.toLower
  widthi : c.widthi = a.widthi
  widthw : c.widthw = a.widthw
  quantilei : c.quantilei = a.quantilei
  quantilew : c.quantilew = a.quantilew
  cycle : c.cycle = a.cycle
  rounding : c.rounding = a.rounding.toLower

private theorem parseFmt_name (s : String) (f : Fmt) (h : parseFmt s = .ok f) : Spec.fmtName f = s.toLower := by
  unfold parseFmt at h
  split_ifs at h with h1 h2 h3 h4 <;> cases h <;> simp [Spec.fmtName, *]

private theorem unit_bind {a b : Except PyErr Unit} : (a >>= fun _ => b) = .ok () ↔ a = .ok () ∧ b = .ok () := by
  rcases a with e | _
  · simp [bind, Except.bind]
  · simp [bind, Except.bind]

private theorem mkTlut_ok (checks : Except PyErr Unit) (a : TlutArgs) (c : Tlut) :
    mkTlut checks a = .ok c ↔ Spec.TlutValid a ∧ checks = .ok () ∧
      ∃ fi fw, parseFmt a.formati = .ok fi ∧ parseFmt a.formatw = .ok fw ∧
        c = ⟨decide (a.temporal.toLower ∈ ["i", "input"]), a.widtht, fi, a.widthi, a.quantilei, fw, a.widthw, a.quantilew, a.cycle,
          a.rounding.toLower⟩ := by
  unfold mkTlut
  by_cases h1 : a.temporal.toLower ∈ ["i", "w", "input", "weight"]
  swap
  · rw [if_pos h1]
    refine ⟨fun k => (nomatch k), fun ⟨v, _⟩ => absurd ?_ h1⟩
    rcases v.temporal with h | h | h | h <;> simp [h]
  rw [if_neg (not_not.2 h1)]
  rcases hfi : parseFmt a.formati with e | fi
  · refine ⟨fun k => (nomatch k), fun ⟨v, _⟩ => ?_⟩
    obtain ⟨f, hf⟩ := (parseFmt_ok _).2 v.formati
    rw [hfi] at hf; exact nomatch hf
  rcases hfw : parseFmt a.formatw with e | fw
  · refine ⟨fun k => (nomatch k), fun ⟨v, _⟩ => ?_⟩
    obtain ⟨f, hf⟩ := (parseFmt_ok _).2 v.formatw
    rw [hfw] at hf; exact nomatch hf
  show (if ¬ (0 < a.quantilei ∧ a.quantilei ≤ 1) then _ else _) = _ ↔ _
  by_cases h2 : 0 < a.quantilei ∧ a.quantilei ≤ 1
  swap
  · rw [if_pos h2]; exact ⟨fun k => (nomatch k), fun ⟨v, _⟩ => absurd v.quantilei h2⟩
  rw [if_neg (not_not.2 h2)]
  by_cases h3 : 0 < a.quantilew ∧ a.quantilew ≤ 1
  swap
  · rw [if_pos h3]; exact ⟨fun k => (nomatch k), fun ⟨v, _⟩ => absurd v.quantilew h3⟩
  rw [if_neg (not_not.2 h3)]
  by_cases h4 : a.rounding.toLower ∈ ["round", "ceil", "floor"]
  swap
  · rw [if_pos h4]
    refine ⟨fun k => (nomatch k), fun ⟨v, _⟩ => absurd ?_ h4⟩
    rcases v.rounding with h | h | h <;> simp [h]
  rw [if_neg (not_not.2 h4)]
  by_cases h5 : a.signmag = false
  · rw [if_pos h5]
    refine ⟨fun k => (nomatch k), fun ⟨v, _⟩ => ?_⟩
    have := v.signmag
    rw [h5] at this; exact nomatch this
  rw [if_neg h5]
  rcases checks with e | _
  · exact ⟨fun k => (nomatch k), fun ⟨_, k, _⟩ => (nomatch k)⟩
  show (if a.widtht = 0 then _ else _) = _ ↔ _
  by_cases h6 : a.widtht = 0
  · rw [if_pos h6]
    refine ⟨fun k => (nomatch k), fun ⟨v, _⟩ => ?_⟩
    have := v.widtht
    omega
  rw [if_neg h6]
  have hv : Spec.TlutValid a := by
    refine ⟨?_, (parseFmt_ok _).1 ⟨fi, hfi⟩, (parseFmt_ok _).1 ⟨fw, hfw⟩, h2, h3, ?_, by simpa using h5, by omega⟩
    · simp only [List.mem_cons, List.not_mem_nil, or_false] at h1
      tauto
    · simpa using h4
  constructor
  · intro k
    exact ⟨hv, rfl, fi, fw, rfl, rfl, (Except.ok.inj k).symm⟩
  · rintro ⟨_, _, fi', fw', e1, e2, rfl⟩
    cases e1; cases e2; rfl

/-- C75: `TLUTLinear` accepts exactly the valid configurations with matching leading sizes; what it builds then is the configuration
as given, case of the strings ignored. -/
theorem C75_tlut (inF outF : ℕ) (bias : Bool) (w b : Option (List ℕ)) (a : TlutArgs) :
    ((∃ c, Config.tlutLinear inF outF bias w b a = .ok c) ↔
      Spec.TlutValid a ∧ Spec.Leads [outF, inF] w ∧ (bias = false ∨ Spec.Leads [outF] b)) ∧
    ∀ c, Config.tlutLinear inF outF bias w b a = .ok c → Spec.TlutHolds a c := by
  unfold Config.tlutLinear
  constructor
  · constructor
    · rintro ⟨c, hc⟩
      obtain ⟨v, h, -⟩ := (mkTlut_ok _ _ _).1 hc
      obtain ⟨h1, h2⟩ := unit_bind.1 h
      exact ⟨v, (C75_weight w outF inF).1.1 h1, (C75_bias bias b outF).1 h2⟩
    · rintro ⟨v, h1, h2⟩
      obtain ⟨fi, hfi⟩ := (parseFmt_ok _).2 v.formati
      obtain ⟨fw, hfw⟩ := (parseFmt_ok _).2 v.formatw
      exact ⟨_, (mkTlut_ok _ _ _).2 ⟨v, unit_bind.2 ⟨(C75_weight w outF inF).1.2 h1, (C75_bias bias b outF).2 h2⟩, fi, fw, hfi, hfw, rfl⟩⟩
  · intro c hc
    obtain ⟨-, -, fi, fw, hfi, hfw, rfl⟩ := (mkTlut_ok _ _ _).1 hc
    exact ⟨by simp, rfl, parseFmt_name _ _ hfi, parseFmt_name _ _ hfw, rfl, rfl, rfl, rfl, rfl, rfl⟩

/-- C75: the same for `TLUTConv2d`, which also wants one group and zero padding (the mode compared as written). -/
theorem C75_tlut_conv (inC outC kh kw groups : ℕ) (pm : String) (bias : Bool) (w b : Option (List ℕ)) (a : TlutArgs) :
    ((∃ c, Config.tlutConv inC outC kh kw groups pm bias w b a = .ok c) ↔
      groups = 1 ∧ pm = "zeros" ∧ Spec.TlutValid a ∧ Spec.Leads [outC, inC, kh, kw] w ∧ (bias = false ∨ Spec.Leads [outC] b)) ∧
    ∀ c, Config.tlutConv inC outC kh kw groups pm bias w b a = .ok c → Spec.TlutHolds a c := by
  unfold Config.tlutConv
  by_cases h1 : groups = 1
  swap
  · rw [if_pos h1]; exact ⟨⟨fun ⟨_, k⟩ => (nomatch k), fun k => absurd k.1 h1⟩, fun _ k => (nomatch k)⟩
  rw [if_neg (not_not.2 h1)]
  by_cases h2 : pm = "zeros"
  swap
  · rw [if_pos h2]; exact ⟨⟨fun ⟨_, k⟩ => (nomatch k), fun k => absurd k.2.1 h2⟩, fun _ k => (nomatch k)⟩
  rw [if_neg (not_not.2 h2)]
  refine ⟨⟨?_, ?_⟩, fun c hc => ?_⟩
  · rintro ⟨c, hc⟩
    obtain ⟨v, h, -⟩ := (mkTlut_ok _ _ _).1 hc
    obtain ⟨k1, k2⟩ := unit_bind.1 h
    exact ⟨h1, h2, v, (C75_weight_conv w outC inC kh kw).1.1 k1, (C75_bias bias b outC).1 k2⟩
  · rintro ⟨-, -, v, k1, k2⟩
    obtain ⟨fi, hfi⟩ := (parseFmt_ok _).2 v.formati
    obtain ⟨fw, hfw⟩ := (parseFmt_ok _).2 v.formatw
    exact ⟨_, (mkTlut_ok _ _ _).2 ⟨v, unit_bind.2 ⟨(C75_weight_conv w outC inC kh kw).1.2 k1, (C75_bias bias b outC).2 k2⟩, fi, fw, hfi, hfw, rfl⟩⟩
  · obtain ⟨-, -, fi, fw, hfi, hfw, rfl⟩ := (mkTlut_ok _ _ _).1 hc
    exact ⟨by simp, rfl, parseFmt_name _ _ hfi, parseFmt_name _ _ hfw, rfl, rfl, rfl, rfl, rfl, rfl⟩

/-- C75: the fixed-point layers check shapes only (and `FXPConv2d` groups and padding mode); any rounding name, quantile or width passes. -/
theorem C75_fxp (inF outF kh kw groups : ℕ) (pm : String) (bias : Bool) (w b : Option (List ℕ)) :
    (Config.fxpLinear inF outF bias w b = .ok () ↔ Spec.Leads [outF, inF] w ∧ (bias = false ∨ Spec.Leads [outF] b)) ∧
    (Config.fxpConv inF outF kh kw groups pm bias w b = .ok () ↔
      groups = 1 ∧ pm = "zeros" ∧ Spec.Leads [outF, inF, kh, kw] w ∧ (bias = false ∨ Spec.Leads [outF] b)) := by
  constructor
  · unfold Config.fxpLinear
    rw [unit_bind, (C75_weight w outF inF).1, C75_bias]
  · unfold Config.fxpConv
    by_cases h1 : groups = 1
    swap
    · rw [if_pos h1]; exact ⟨fun k => (nomatch k), fun k => absurd k.1 h1⟩
    rw [if_neg (not_not.2 h1)]
    by_cases h2 : pm = "zeros"
    swap
    · rw [if_pos h2]; exact ⟨fun k => (nomatch k), fun k => absurd k.2.1 h2⟩
    rw [if_neg (not_not.2 h2), unit_bind, (C75_weight_conv w outF inF kh kw).1, C75_bias]
    tauto

/-- C75: an accepted temporal look-up layer computes: with data and weights whose largest magnitudes are positive and full quantiles,
`forward` raises nothing and returns one row per input row. -/
theorem C75_runs {I O : ℕ} (inF outF : ℕ) (bias : Bool) (ws bs : Option (List ℕ)) (a : TlutArgs) (c : Tlut)
    (hc : Config.tlutLinear inF outF bias ws bs a = .ok c) (hqi : a.quantilei = 1) (hqw : a.quantilew = 1)
    (w : Fin O → Fin I → ℚ) (b : Option (Fin O → ℚ)) (x : List (Fin I → ℚ)) (M N : ℚ) (hM : 0 < M) (hN : 0 < N)
    (hx : Spec.MaxAbs M (x.flatMap List.ofFn)) (hw : Spec.MaxAbs N ((List.ofFn w).flatMap List.ofFn)) :
    ∃ out, c.forward w b x = .ok out ∧ out.length = x.length := by
  obtain ⟨v, -, fi, fw, -, -, rfl⟩ := (mkTlut_ok _ _ _).1 hc
  have hr : a.rounding.toLower ∈ ["round", "ceil", "floor"] := by
    rcases v.rounding with h | h | h <;> simp [h]
  have hs : ∀ wi ww : ℤ, ∃ r, rshift x w wi ww a.rounding.toLower a.quantilei a.quantilew = .ok r := fun wi ww => by
    obtain ⟨im, wm, -, -, h⟩ := C58_full x w wi ww _ hr M N hM hN hx hw
    rw [hqi, hqw]
    exact ⟨_, h⟩
  have ho : ∃ p, Tlut.operands ⟨decide (a.temporal.toLower ∈ ["i", "input"]), a.widtht, fi, a.widthi, a.quantilei, fw, a.widthw, a.quantilew, a.cycle,
      a.rounding.toLower⟩ w x = .ok p := by
    unfold Tlut.operands
    dsimp only
    split_ifs
    · obtain ⟨⟨r1, r2, r3⟩, h⟩ := hs ((a.widthi : ℤ) - 1) ((a.widthw : ℤ) - 1)
      rw [h]; exact ⟨_, rfl⟩
    · obtain ⟨⟨r1, r2, r3⟩, h⟩ := hs ((a.widthi : ℤ) - 1) ((a.widthw : ℤ) - 1)
      rw [h]; exact ⟨_, rfl⟩
    · exact ⟨_, rfl⟩
    · exact ⟨_, rfl⟩
    all_goals
      obtain ⟨⟨r1, r2, r3⟩, h⟩ := hs _ _
      rw [h]; exact ⟨_, rfl⟩
  obtain ⟨⟨f, g⟩, hp⟩ := ho
  unfold Tlut.forward
  rw [hp]
  exact ⟨_, rfl, by simp⟩

/-- C75: a hybrid layer that could be built has a valid configuration, and its cycle count is capped by the table size. -/
theorem C75_hub (envi envw : Gen.Env) (wi ww : ℕ) (rngi rngw : String) (qi qw : ℚ) (cycle : Option ℕ) (rounding : String) (sm : Bool) (h : Hub)
    (hh : mkHub envi envw wi rngi qi ww rngw qw cycle rounding sm = .ok h) :
    ¬ (rngi.toLower ∈ ["race", "tc", "race10", "tc10"] ∧ rngw.toLower ∈ ["race", "tc", "race10", "tc10"]) ∧
    (0 < qi ∧ qi ≤ 1) ∧ (0 < qw ∧ qw ≤ 1) ∧ rounding.toLower ∈ ["round", "ceil", "floor"] ∧ sm = true ∧
    ∃ k, cycle = some k ∧ h.cycle = min k (2 ^ (max wi ww - 1)) := by
  unfold mkHub at hh
  rcases cycle with _ | k
  · exact nomatch hh
  change (if isTemporal rngi && isTemporal rngw then _ else _) = _ at hh
  by_cases h1 : (isTemporal rngi && isTemporal rngw) = true
  · rw [if_pos h1] at hh; exact nomatch hh
  rw [if_neg h1] at hh
  by_cases h2 : 0 < qi ∧ qi ≤ 1
  swap
  · rw [if_pos h2] at hh; exact nomatch hh
  rw [if_neg (not_not.2 h2)] at hh
  by_cases h3 : 0 < qw ∧ qw ≤ 1
  swap
  · rw [if_pos h3] at hh; exact nomatch hh
  rw [if_neg (not_not.2 h3)] at hh
  by_cases h4 : rounding.toLower ∈ ["round", "ceil", "floor"]
  swap
  · rw [if_pos h4] at hh; exact nomatch hh
  rw [if_neg (not_not.2 h4)] at hh
  by_cases h5 : sm = false
  · rw [if_pos h5] at hh; exact nomatch hh
  rw [if_neg h5] at hh
  obtain ⟨li, -, hh⟩ := except_bind_ok hh
  obtain ⟨lw, -, hh⟩ := except_bind_ok hh
  obtain ⟨tab, -, hh⟩ := except_bind_ok hh
  cases hh
  refine ⟨?_, h2, h3, h4, by simpa using h5, k, rfl, ?_⟩
  · simpa [isTemporal] using h1
  · show min (min k (hubCycleMax wi ww)) (hubCycleMax wi ww) = _
    rw [min_assoc, min_self]; rfl

private theorem loop_zero (t : ℕ) (D : ℕ) : ∀ p : ℚ × ℚ, (tlutLoop t 0 D p).2 * 2 ^ (t * D) = p.2 - ∑ j ∈ range D, (2:ℚ) ^ (t * j) := by
  induction D with
  | zero => intro p; simp [tlutLoop]
  | succ D ih =>
      intro p
      have hf : ∀ z : ℚ, clamp (-((0:ℕ) : ℚ) + 1) (((0:ℕ) : ℚ) - 1) z = -1 := by
        intro z
        unfold clamp
        rw [min_eq_right]
        · norm_num
        · refine le_trans ?_ (le_max_right _ _); norm_num
      show (tlutLoop t 0 D ((truncZ (p.1 / 2 ^ t) : ℚ), clamp (-((0:ℕ) : ℚ) + 1) (((0:ℕ) : ℚ) - 1) (frac (p.1 / 2 ^ t) * 2 ^ t) / 2 ^ t
        + p.2 / 2 ^ t)).2 * 2 ^ (t * (D + 1)) = _
      rw [hf]
      have h := ih ((truncZ (p.1 / 2 ^ t) : ℚ), -1 / 2 ^ t + p.2 / 2 ^ t)
      have hp : (0:ℚ) < 2 ^ t := by positivity
      rw [show t * (D + 1) = t * D + t by ring, pow_add, ← mul_assoc, h, sum_range_succ']
      have e : ∑ j ∈ range D, (2:ℚ) ^ (t * (j + 1)) = (∑ j ∈ range D, (2:ℚ) ^ (t * j)) * 2 ^ t := by
        rw [sum_mul]
        exact sum_congr rfl fun j _ => by rw [← pow_add]; congr 1
      rw [e]
      field_simp
      ring

/-- C75 (violated intention): `cycle = 0` is accepted (`C75_tlut` puts no condition on it), and then every digit of a temporal coded
operand is read as `-1`: the operand value is the same negative number whatever the data. -/
theorem C75_zero_cycle (width t : ℕ) (ht : 1 ≤ t) (rs : ℤ) (x : ℚ) :
    tlutFxp width t 0 rs x = -(∑ j ∈ range (Spec.digits width t), (2:ℚ) ^ (t * j)) * (2:ℚ) ^ rs := by
  rw [← C49_digits width t ht]
  obtain ⟨h1, -, -⟩ := C49_degree width t ht
  have h := loop_zero t (tlutDegree width t) ((tlutQuant width rs x : ℚ), 0)
  unfold tlutFxp
  rw [show tlutDelta width t + width + rs = ((t * tlutDegree width t : ℕ) : ℤ) + rs by push_cast; linarith,
    zpow_add₀ (by norm_num), zpow_natCast, ← mul_assoc, h]
  ring

/-- C75: the recurrent stream cell wants both weights (and, with bias, both biases); `None` raises `AttributeError`.  Its `forward`
accepts exactly inputs and states whose leading sizes fit. -/
theorem C75_cell (inS hS : ℕ) (bias : Bool) (wf wn bf bn : Option (List ℕ)) :
    mguShapes inS hS bias wf wn bf bn = .ok () ↔
      (wf ≠ none ∧ Spec.Leads [hS, hS + inS] wf) ∧ (wn ≠ none ∧ Spec.Leads [hS, hS + inS] wn) ∧
      (bias = true → (bf ≠ none ∧ Spec.Leads [hS] bf) ∧ (bn ≠ none ∧ Spec.Leads [hS] bn)) := by
  have hw : ∀ w : Option (List ℕ), needWeight w hS (hS + inS) = .ok () ↔ w ≠ none ∧ Spec.Leads [hS, hS + inS] w := by
    intro w
    rcases w with _ | s
    · simp [needWeight]
    · simpa [needWeight] using (C75_weight (some s) hS (hS + inS)).1
  have hb : ∀ b : Option (List ℕ), needBias b hS = .ok () ↔ b ≠ none ∧ Spec.Leads [hS] b := by
    intro b
    rcases b with _ | s
    · simp [needBias]
    · simpa [needBias] using C75_bias true (some s) hS
  unfold mguShapes
  rw [unit_bind, unit_bind, hw, hw]
  rcases bias with _ | _
  · simp
  · rw [if_pos rfl, unit_bind, hb, hb]; simp

/-- C75: see `C75_cell`. -/
theorem C75_cell_forward (inS hS : ℕ) (input hx : List ℕ) :
    mguForwardShapes inS hS input hx = .ok () ↔ ∃ B r r', input = B :: inS :: r ∧ hx = B :: hS :: r' := by
  rcases input with _ | ⟨a, _ | ⟨b, r⟩⟩
  · simp [mguForwardShapes, sizeAt, bind, Except.bind]
  · simp [mguForwardShapes, sizeAt, bind, Except.bind]
  · have e : mguForwardShapes inS hS (a :: b :: r) hx = (if b ≠ inS then .error .runtime else do
        if a ≠ (← sizeAt hx 0) then .error .runtime else do
        if (← sizeAt hx 1) ≠ hS then .error .runtime else .ok ()) := rfl
    rw [e]
    by_cases h1 : b = inS
    swap
    · rw [if_pos h1]; simp [h1]
    subst h1
    rw [if_neg (by simp)]
    rcases hx with _ | ⟨c, _ | ⟨d, r'⟩⟩
    · simp [sizeAt, bind, Except.bind]
    · by_cases h2 : a = c <;> simp [sizeAt, bind, Except.bind, h2]
    · by_cases h2 : a = c <;> by_cases h3 : d = hS <;> simp [sizeAt, bind, Except.bind, h2, h3]
      exact fun k => h2 k.symm

/-- Non-vacuity: the default configuration is valid (names in any case); a weight of shape `[3, 5, 7]` passes for a layer from 5 to 3
features, one of shape `[3]` raises `IndexError`. -/
example : Spec.TlutValid ⟨"I", 4, "FXP", 8, 1, "BFloat16", 8, 1/2, none, "Round", true⟩ ∧
    checkWeight2 (some [3, 5, 7]) 3 5 = .ok () ∧ checkWeight2 (some [3]) 3 5 = .error .index ∧ checkWeight2 (some [5, 3]) 3 5 = .error .assertion ∧
    ¬ Spec.TlutValid ⟨"I", 0, "FXP", 8, 1, "FXP", 8, 1, none, "Round", true⟩ := by
  refine ⟨⟨by decide +kernel, by decide +kernel, by decide +kernel, by norm_num, by norm_num, by decide +kernel, rfl, by norm_num⟩,
    rfl, rfl, rfl, fun h => absurd h.widtht (by norm_num)⟩

/-- Non-vacuity: eight bits in two digits of four, `cycle = 0`: every input counts as `-17` units. -/
example (x : ℚ) : tlutFxp 8 4 0 0 x = -17 := by
  rw [C75_zero_cycle 8 4 (by norm_num)]
  have : Spec.digits 8 4 = 2 := by decide +kernel
  rw [this]
  norm_num [sum_range_succ]

end Verif.Props
