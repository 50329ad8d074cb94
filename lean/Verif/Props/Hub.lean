import Verif.Props.Temporal
import Verif.Spec
import Verif.Model.Linear
import Verif.Props.Mul
import Verif.Props.Shift

/-!
# Properties C46–C48: hybrid unary-binary and fixed-point linear layers
-/

namespace Verif.Props

open Verif Finset Gen Linear

/-- What a successful `do` step says. -/
theorem except_bind_ok {ε α β : Type} {a : Except ε α} {f : α → Except ε β} {b : β} (h : (a >>= f) = .ok b) :
    ∃ x, a = .ok x ∧ f x = .ok b := by
  cases a with
  | error e => cases h
  | ok x => exact ⟨x, rfl, h⟩

/-! ## C46 -/

/-- Among the first `c` numbers of the sequence, those below `v`. -/
def Spec.firstBelow (rng : List ℤ) (c : ℕ) (v : ℕ) : ℕ := ((range c).filter fun j => rng.getD j 0 < (v : ℤ)).card

private theorem firstBelow_sum (rng : List ℤ) (c v : ℕ) :
    (Spec.firstBelow rng c v : ℤ) = ∑ j ∈ range c, ind ((v : ℤ) > rng.getD j 0) := by
  unfold Spec.firstBelow
  rw [card_filter]; push_cast; rfl

theorem firstBelow_all {w : ℕ} {rng : List ℤ} (h : Verif.Spec.IsPermSeq w rng) (v : ℕ) :
    (Spec.firstBelow rng (2 ^ w) v : ℤ) = ((min v (2 ^ w) : ℕ) : ℤ) := by
  have h1 := C01_window_count h v 0
  rw [firstBelow_sum]
  have : ∀ t ∈ range (2 ^ w), bsGen rng v (0 + t) = ind ((v : ℤ) > rng.getD t 0) := by
    intro t ht
    rw [zero_add, bsGen_nat]; rw [h.1]; exact mem_range.1 ht
  rw [sum_congr rfl this] at h1
  rw [h1, max_eq_right (by positivity)]; push_cast; rfl

private theorem hubTable_eq {w : ℕ} (hw : 1 ≤ w) {ctler ctlee : List ℤ} (h1 : Verif.Spec.IsPermSeq w ctler)
    (h2 : Verif.Spec.IsPermSeq w ctlee) :
    ∃ T, hubTable (2 ^ w) ctler ctlee = .ok T ∧ ∀ c v, c ≤ 2 ^ w → T c v = Spec.firstBelow ctlee c v := by
  have hcm : (2:ℕ) ^ w ≠ 1 := by
    have := Nat.one_lt_two_pow (n := w) (by omega); omega
  refine ⟨fun c v => ∑ j ∈ range (min (∑ j ∈ range (2 ^ w), ind ((c : ℤ) > ctler.getD j 0) : ℤ).toNat (2 ^ w)),
    ind ((v : ℤ) > ctlee.getD j 0), ?_, fun c v hc => ?_⟩
  · unfold hubTable gtTable
    rw [if_neg hcm, if_pos h1.1, if_pos h2.1]
    rfl
  · show (∑ j ∈ range (min (∑ j ∈ range (2 ^ w), ind ((c : ℤ) > ctler.getD j 0) : ℤ).toNat (2 ^ w)),
      ind ((v : ℤ) > ctlee.getD j 0)) = _
    rw [← firstBelow_sum, ← firstBelow_sum, firstBelow_all h1, Int.toNat_natCast, min_eq_left hc, min_eq_left hc]

/-- What a successful construction needs and yields. -/
private theorem mkHub_ok_aux (envi envw : Env) (wd : ℕ) (hwd : 2 ≤ wd) (rngi rngw : String) (qi qw : ℚ)
    (hqi : 0 < qi ∧ qi ≤ 1) (hqw : 0 < qw ∧ qw ≤ 1) (cycle : ℕ) (rounding : String)
    (hr : rounding.toLower ∈ ["round", "ceil", "floor"])
    (ht : ¬ (isTemporal rngi = true ∧ isTemporal rngw = true)) (li lw : List ℤ) (hli : rng envi (wd - 1) rngi = .ok li)
    (hlw : rng envw (wd - 1) rngw = .ok lw) (hpi : Verif.Spec.IsPermSeq (wd - 1) li)
    (hpw : Verif.Spec.IsPermSeq (wd - 1) lw) :
    ∃ h, mkHub envi envw wd rngi qi wd rngw qw (some cycle) rounding true = .ok h ∧
      h.cycle = min cycle (2 ^ (wd - 1)) ∧ h.widthi = wd ∧ h.widthw = wd ∧ h.quantilei = qi ∧ h.quantilew = qw ∧
      h.rounding = rounding.toLower ∧
      ∀ i v, i ≤ 2 ^ (wd - 1) → h.table i v =
        Spec.firstBelow (if isTemporal rngw = true then li else lw) i v := by
  have hcm : hubCycleMax wd wd = 2 ^ (wd - 1) := by unfold hubCycleMax; rw [max_self]
  have hsel : (if (!isTemporal rngi && isTemporal rngw) = true then (lw, li) else (li, lw)) =
      (if isTemporal rngw = true then (lw, li) else (li, lw)) := by
    revert ht
    cases isTemporal rngi <;> cases isTemporal rngw <;> simp
  obtain ⟨T, hT, hT'⟩ : ∃ T, hubTable (2 ^ (wd - 1)) (if isTemporal rngw = true then lw else li)
      (if isTemporal rngw = true then li else lw) = .ok T ∧ ∀ c v, c ≤ 2 ^ (wd - 1) →
        T c v = Spec.firstBelow (if isTemporal rngw = true then li else lw) c v := by
    cases isTemporal rngw
    · exact hubTable_eq (by omega) hpi hpw
    · exact hubTable_eq (by omega) hpw hpi
  refine ⟨⟨min (min cycle (2 ^ (wd - 1))) (2 ^ (wd - 1)), T, wd, wd, qi, qw, rounding.toLower⟩, ?_, ?_, rfl, rfl, rfl,
    rfl, rfl, hT'⟩
  · unfold mkHub
    simp only [hcm, hli, hlw]
    rw [show ((pure (min cycle (2 ^ (wd - 1))) : Except PyErr ℕ)) = .ok (min cycle (2 ^ (wd - 1))) from rfl]
    show (if (isTemporal rngi && isTemporal rngw) = true then _ else _) = _
    rw [if_neg (by simpa using ht), if_neg (by simpa using hqi), if_neg (by simpa using hqw),
      if_neg (not_not.2 hr), if_neg (by simp)]
    show (hubTable (2 ^ (wd - 1)) (if (!isTemporal rngi && isTemporal rngw) = true then (lw, li) else (li, lw)).1
      (if (!isTemporal rngi && isTemporal rngw) = true then (lw, li) else (li, lw)).2 >>= _) = _
    rw [hsel]
    have e1 : (if isTemporal rngw = true then (lw, li) else (li, lw)).1 = if isTemporal rngw = true then lw else li := by
      split_ifs <;> rfl
    have e2 : (if isTemporal rngw = true then (lw, li) else (li, lw)).2 = if isTemporal rngw = true then li else lw := by
      split_ifs <;> rfl
    rw [e1, e2, hT]; rfl
  · show min (min cycle (2 ^ (wd - 1))) (2 ^ (wd - 1)) = _
    omega

/-- What a successful construction needs and yields. -/
theorem mkHub_ok (envi envw : Env) (wd : ℕ) (hwd : 2 ≤ wd) (rngi rngw : String) (qi qw : ℚ)
    (hqi : 0 < qi ∧ qi ≤ 1) (hqw : 0 < qw ∧ qw ≤ 1) (cycle : ℕ) (rounding : String)
    (hr : rounding.toLower ∈ ["round", "ceil", "floor"])
    (ht : ¬ (Spec.TemporalName rngi ∧ Spec.TemporalName rngw)) (li lw : List ℤ) (hli : rng envi (wd - 1) rngi = .ok li)
    (hlw : rng envw (wd - 1) rngw = .ok lw) (hpi : Verif.Spec.IsPermSeq (wd - 1) li)
    (hpw : Verif.Spec.IsPermSeq (wd - 1) lw) :
    ∃ h, mkHub envi envw wd rngi qi wd rngw qw (some cycle) rounding true = .ok h ∧
      h.cycle = min cycle (2 ^ (wd - 1)) ∧ h.widthi = wd ∧ h.widthw = wd ∧ h.quantilei = qi ∧ h.quantilew = qw ∧
      h.rounding = rounding.toLower ∧
      ∀ i v, i ≤ 2 ^ (wd - 1) → h.table i v =
        Spec.firstBelow (if Spec.TemporalName rngw then li else lw) i v := by
  obtain ⟨h, h1, h2, h3, h4, h5, h6, h7, h8⟩ := mkHub_ok_aux envi envw wd hwd rngi rngw qi qw hqi hqw cycle rounding hr
    (by rw [temporal_iff, temporal_iff]; exact ht) li lw hli hlw hpi hpw
  refine ⟨h, h1, h2, h3, h4, h5, h6, h7, fun i v hi => ?_⟩
  rw [h8 i v hi]
  congr 1
  by_cases hT : Spec.TemporalName rngw
  · rw [if_pos hT, if_pos (temporal_iff.2 hT)]
  · rw [if_neg hT, if_neg (fun h => hT (temporal_iff.1 h))]

/-- C46: with equal widths of at least two, permutation sequences, quantiles in `(0,1]`, a known rounding
mode and not both operands temporal coded, the layer can be built and its product table at magnitudes
`i`, `v` counts those of the first `i` numbers of one operand's sequence that are below `v`; the sequence is
the weight's unless the weight is temporal coded, then the input's. -/
theorem C46_table (envi envw : Env) (wd : ℕ) (hwd : 2 ≤ wd) (rngi rngw : String) (qi qw : ℚ)
    (hqi : 0 < qi ∧ qi ≤ 1) (hqw : 0 < qw ∧ qw ≤ 1) (cycle : ℕ) (rounding : String)
    (hr : rounding.toLower ∈ ["round", "ceil", "floor"])
    (ht : ¬ (Spec.TemporalName rngi ∧ Spec.TemporalName rngw)) (li lw : List ℤ) (hli : rng envi (wd - 1) rngi = .ok li)
    (hlw : rng envw (wd - 1) rngw = .ok lw) (hpi : Verif.Spec.IsPermSeq (wd - 1) li)
    (hpw : Verif.Spec.IsPermSeq (wd - 1) lw) :
    ∃ h, mkHub envi envw wd rngi qi wd rngw qw (some cycle) rounding true = .ok h ∧
      h.cycle = min cycle (2 ^ (wd - 1)) ∧
      ∀ i v, i < h.cycle → h.table i v = Spec.firstBelow (if Spec.TemporalName rngw then li else lw) i v := by
  obtain ⟨h, h1, h2, -, -, -, -, -, h3⟩ :=
    mkHub_ok envi envw wd hwd rngi rngw qi qw hqi hqw cycle rounding hr ht li lw hli hlw hpi hpw
  exact ⟨h, h1, h2, fun i v hi => h3 i v (by rw [h2] at hi; omega)⟩

private theorem getD_range {w : ℕ} {rng : List ℤ} (h : Verif.Spec.IsPermSeq w rng) {j : ℕ} (hj : j < 2 ^ w) :
    0 ≤ rng.getD j 0 := by
  have hj' : j < rng.length := by rw [h.1]; exact hj
  have hm : rng.getD j 0 ∈ rng := by
    rw [List.getD_eq_getElem _ _ hj']; exact List.getElem_mem hj'
  have := (Verif.Gen.IsPermSeq.perm h).subset hm
  rw [List.mem_map] at this
  obtain ⟨a, -, ha⟩ := this
  omega

private theorem getD_inj {w : ℕ} {rng : List ℤ} (h : Verif.Spec.IsPermSeq w rng) {a b : ℕ} (ha : a < 2 ^ w)
    (hb : b < 2 ^ w) (e : rng.getD a 0 = rng.getD b 0) : a = b := by
  have ha' : a < rng.length := by rw [h.1]; exact ha
  have hb' : b < rng.length := by rw [h.1]; exact hb
  have hnd : rng.Nodup := (Verif.Gen.IsPermSeq.perm h).nodup_iff.2
    (List.Nodup.map (fun a b h => by exact_mod_cast h) List.nodup_range)
  rw [List.getD_eq_getElem _ _ ha', List.getD_eq_getElem _ _ hb'] at e
  exact (List.Nodup.getElem_inj_iff hnd).1 e

/-- C46: shape of the counts of a permutation sequence. -/
theorem C46_shape {w : ℕ} {rng : List ℤ} (h : Verif.Spec.IsPermSeq w rng) (i v : ℕ) (hi : i < 2 ^ w) :
    Spec.firstBelow rng 0 v = 0 ∧ Spec.firstBelow rng i 0 = 0 ∧ Spec.firstBelow rng i v ≤ min i v ∧
    (Spec.firstBelow rng i v ≤ Spec.firstBelow rng (i + 1) v ∧
      Spec.firstBelow rng (i + 1) v ≤ Spec.firstBelow rng i v + 1) ∧
    (Spec.firstBelow rng i v ≤ Spec.firstBelow rng i (v + 1) ∧
      Spec.firstBelow rng i (v + 1) ≤ Spec.firstBelow rng i v + 1) := by
  have hnn : ∀ j < 2 ^ w, 0 ≤ rng.getD j 0 := fun j hj => getD_range h hj
  have hstep : ∀ i, Spec.firstBelow rng (i + 1) v = Spec.firstBelow rng i v + if rng.getD i 0 < (v:ℤ) then 1 else 0 := by
    intro i
    unfold Spec.firstBelow
    rw [card_filter, card_filter, sum_range_succ]
  have hz : ∀ i < 2 ^ w, Spec.firstBelow rng i 0 = 0 := by
    intro i hi
    unfold Spec.firstBelow
    rw [card_eq_zero, filter_eq_empty_iff]
    intro j hj hlt
    have := hnn j (by have := mem_range.1 hj; omega)
    push_cast at hlt; omega
  have hv : ∀ v, Spec.firstBelow rng i v ≤ Spec.firstBelow rng i (v + 1) ∧
      Spec.firstBelow rng i (v + 1) ≤ Spec.firstBelow rng i v + 1 := by
    intro v
    constructor
    · apply card_le_card
      intro j hj
      rw [mem_filter] at hj ⊢
      refine ⟨hj.1, ?_⟩
      push_cast; omega
    · have hsub : ((range i).filter fun j => rng.getD j 0 < ((v + 1 : ℕ) : ℤ)) ⊆
          ((range i).filter fun j => rng.getD j 0 < (v : ℤ)) ∪ ((range i).filter fun j => rng.getD j 0 = (v : ℤ)) := by
        intro j hj
        rw [mem_filter] at hj
        rw [mem_union, mem_filter, mem_filter]
        rcases lt_or_eq_of_le (Int.lt_add_one_iff.1 (by have := hj.2; push_cast at this; exact this)) with h | h
        · exact Or.inl ⟨hj.1, h⟩
        · exact Or.inr ⟨hj.1, h⟩
      have h1 : ((range i).filter fun j => rng.getD j 0 = (v : ℤ)).card ≤ 1 := by
        rw [card_le_one]
        intro a ha b hb
        rw [mem_filter, mem_range] at ha hb
        exact getD_inj h (by omega) (by omega) (by rw [ha.2, hb.2])
      calc _ ≤ _ := card_le_card hsub
        _ ≤ _ := card_union_le _ _
        _ ≤ _ := by unfold Spec.firstBelow; omega
  refine ⟨by simp [Spec.firstBelow], hz i hi, ?_, ?_, hv v⟩
  · rw [le_min_iff]
    constructor
    · unfold Spec.firstBelow
      exact le_trans (card_filter_le _ _) (by simp)
    · clear hstep
      induction v with
      | zero => rw [hz i hi]
      | succ v ih => have := (hv v).2; omega
  · have := hstep i
    split_ifs at this <;> omega

/-- C46: with a Sobol sequence the table is the product up to the sequence width. -/
theorem C46_sobol (env : Env) (w : ℕ) (name : String) (hn : name.toLower ∈ ["sobol", "rc"])
    (hm : DirOK env.sobolM) (hw : w ≤ env.maxbit) :
    ∃ l, rng env w name = .ok l ∧ ∀ i v, i ≤ 2 ^ w → v ≤ 2 ^ w →
      |(Spec.firstBelow l i v : ℚ) - i * v / 2 ^ w| ≤ w := by
  obtain ⟨l, hl, hp⟩ := C02_sobol_perm env w name hn hm hw
  refine ⟨l, hl, fun i v hi hv => ?_⟩
  obtain ⟨l', hl', hpre⟩ := C08_prefix env w name hn hm hw v (by positivity) (by exact_mod_cast hv)
  rw [hl] at hl'; cases hl'
  have h := hpre i
  have e : Verif.Spec.ones (fun t => bsGen l v t) i = Spec.firstBelow l i v := by
    rw [firstBelow_sum]
    apply sum_congr rfl
    intro t ht
    show bsGen l v t = _
    rw [bsGen_nat]; rw [hp.1]; have := mem_range.1 ht; omega
  rw [e] at h
  push_cast at h
  rw [mul_div_assoc]; exact h

/-- C46: both operands temporal coded is refused. -/
theorem C46_both_temporal (envi envw : Env) (wi ww : ℕ) (rngi rngw : String) (qi qw : ℚ) (cycle : ℕ)
    (rounding : String) (sm : Bool) (h : Spec.TemporalName rngi ∧ Spec.TemporalName rngw) :
    mkHub envi envw wi rngi qi ww rngw qw (some cycle) rounding sm = .error .assertion := by
  unfold mkHub
  show (if (isTemporal rngi && isTemporal rngw) = true then _ else _) = _
  rw [if_pos (by rw [temporal_iff.2 h.1, temporal_iff.2 h.2]; rfl)]

/-- C46: although `cycle = None` is the documented default, it cannot be used. -/
theorem C46_no_cycle (envi envw : Env) (wi ww : ℕ) (rngi rngw : String) (qi qw : ℚ) (rounding : String) (sm : Bool) :
    mkHub envi envw wi rngi qi ww rngw qw none rounding sm = .error .type := rfl

/-- C46: different widths, both above one, fail. -/
theorem C46_widths_differ (envi envw : Env) (wi ww : ℕ) (hi : 2 ≤ wi) (hw : 2 ≤ ww) (hne : wi ≠ ww) (rngi rngw : String)
    (qi qw : ℚ) (hqi : 0 < qi ∧ qi ≤ 1) (hqw : 0 < qw ∧ qw ≤ 1) (cycle : ℕ) (rounding : String)
    (hr : rounding.toLower ∈ ["round", "ceil", "floor"])
    (ht : ¬ (Spec.TemporalName rngi ∧ Spec.TemporalName rngw)) (li lw : List ℤ) (hli : rng envi (wi - 1) rngi = .ok li)
    (hlw : rng envw (ww - 1) rngw = .ok lw) (hpi : Verif.Spec.IsPermSeq (wi - 1) li)
    (hpw : Verif.Spec.IsPermSeq (ww - 1) lw) :
    mkHub envi envw wi rngi qi ww rngw qw (some cycle) rounding true = .error .runtime := by
  have hp : ∀ a b : ℕ, 2 ^ a = 2 ^ b → a = b := fun a b h => Nat.pow_right_injective (le_refl 2) h
  have h2 : ∀ a : ℕ, 2 ≤ a → 2 ^ (a - 1) ≠ 1 := fun a ha h => by
    have := hp (a - 1) 0 (by simpa using h); omega
  have hcm : (2:ℕ) ^ (max wi ww - 1) ≠ 1 := h2 _ (by omega)
  have bad : ∀ a, 2 ≤ a → a ≠ max wi ww → ∀ l : List ℤ, l.length = 2 ^ (a - 1) →
      gtTable (2 ^ (max wi ww - 1)) l = .error .runtime := by
    intro a ha hne l hl
    unfold gtTable
    rw [if_neg (fun h => hne (by have := hp _ _ (hl.symm.trans h); omega)), if_neg (by rw [hl]; exact h2 a ha)]
  have good : ∀ l : List ℤ, l.length = 2 ^ (max wi ww - 1) →
      gtTable (2 ^ (max wi ww - 1)) l = .ok fun v j => ind ((v : ℤ) > l.getD j 0) := by
    intro l hl; unfold gtTable; rw [if_pos hl]
  have tab : ∀ a b : List ℤ, (a.length = 2 ^ (wi - 1) ∧ b.length = 2 ^ (ww - 1)) ∨
      (a.length = 2 ^ (ww - 1) ∧ b.length = 2 ^ (wi - 1)) →
      hubTable (2 ^ (max wi ww - 1)) a b = .error .runtime := by
    intro a b hab
    have key : ∀ x y, 2 ≤ x → 2 ≤ y → x ≠ y → max x y = max wi ww → a.length = 2 ^ (x - 1) → b.length = 2 ^ (y - 1) →
        hubTable (2 ^ (max wi ww - 1)) a b = .error .runtime := by
      intro x y hx hy hxy hm ha hb
      unfold hubTable
      rw [if_neg hcm]
      rcases lt_or_gt_of_ne hxy with h | h
      · show (gtTable _ a >>= _) = _
        rw [bad x hx (by omega) a ha]; rfl
      · have e : a.length = 2 ^ (max wi ww - 1) := by rw [ha, ← hm, max_eq_left h.le]
        show (gtTable _ a >>= _) = _
        rw [good a e]
        show (gtTable _ b >>= _) = _
        rw [bad y hy (by omega) b hb]; rfl
    rcases hab with ⟨ha, hb⟩ | ⟨ha, hb⟩
    · exact key wi ww hi hw hne rfl ha hb
    · exact key ww wi hw hi hne.symm (max_comm _ _) ha hb
  unfold mkHub
  simp only [hli, hlw]
  show (if (isTemporal rngi && isTemporal rngw) = true then _ else _) = _
  rw [if_neg (by rw [Bool.and_eq_true, temporal_iff, temporal_iff]; exact ht), if_neg (by simpa using hqi), if_neg (by simpa using hqw),
    if_neg (not_not.2 hr), if_neg (by simp)]
  show (hubTable (2 ^ (max wi ww - 1)) (if (!isTemporal rngi && isTemporal rngw) = true then (lw, li) else (li, lw)).1
    (if (!isTemporal rngi && isTemporal rngw) = true then (lw, li) else (li, lw)).2 >>= _) = _
  rw [tab]
  · rfl
  · split_ifs
    · exact Or.inr ⟨hpw.1, hpi.1⟩
    · exact Or.inl ⟨hpi.1, hpw.1⟩

/-- C46 (finding): when the weight is temporal coded the table is still indexed input first.  An input that is
rate coded with the sequence `li` and a temporal coded weight of magnitude `v` overlap in
`firstBelow li v i` cycles, but the table holds `firstBelow li i v`; the two differ already for the four
numbers of a Sobol sequence. -/
theorem C46_temporal_weight (envi envw : Env) (wd : ℕ) (hwd : 2 ≤ wd) (rngi rngw : String) (qi qw : ℚ)
    (hqi : 0 < qi ∧ qi ≤ 1) (hqw : 0 < qw ∧ qw ≤ 1) (cycle : ℕ) (rounding : String)
    (hr : rounding.toLower ∈ ["round", "ceil", "floor"])
    (hti : ¬ Spec.TemporalName rngi) (htw : Spec.TemporalName rngw) (li lw : List ℤ)
    (hli : rng envi (wd - 1) rngi = .ok li)
    (hlw : rng envw (wd - 1) rngw = .ok lw) (hpi : Verif.Spec.IsPermSeq (wd - 1) li)
    (hpw : Verif.Spec.IsPermSeq (wd - 1) lw) :
    ∃ h, mkHub envi envw wd rngi qi wd rngw qw (some cycle) rounding true = .ok h ∧
      ∀ i v, i < h.cycle → h.table i v = Spec.firstBelow li i v := by
  obtain ⟨h, h1, -, h3⟩ := C46_table envi envw wd hwd rngi rngw qi qw hqi hqw cycle rounding hr
    (fun h => hti h.1) li lw hli hlw hpi hpw
  exact ⟨h, h1, fun i v hi => by rw [h3 i v hi, if_pos htw]⟩

/-- The witness of the transposition. -/
example : Spec.firstBelow (Gen.sobolSeq 30 2 fun _ => 1) 3 2 = 1 ∧
    Spec.firstBelow (Gen.sobolSeq 30 2 fun _ => 1) 2 3 = 2 := by decide +kernel

/-- Non-vacuity: an eight-step table. -/
example : Spec.TemporalName "Race" ∧ ¬ Spec.TemporalName "Sobol" ∧ ("round".toLower ∈ ["round", "ceil", "floor"]) := by
  decide +kernel
example : Verif.Spec.IsPermSeq 3 (Gen.sobolSeq 30 3 fun _ => 1) :=
  DyadicNet.isPermSeq (sobol_dyadicNet (fun j => ⟨rfl, Nat.one_lt_two_pow (by omega)⟩) (by norm_num))

/-! ## C47 and C48: quantised operands -/

/-- `y` is a multiple of `u` by an integer of magnitude at most `m`, nearest to `x` among all such. -/
def Spec.Nearest (m : ℤ) (u x y : ℚ) : Prop :=
  ∃ k : ℤ, |k| ≤ m ∧ y = k * u ∧ ∀ j : ℤ, |j| ≤ m → |y - x| ≤ |j * u - x|

private theorem clamp_nearest (m : ℤ) (z : ℚ) (j : ℤ) (hj : |j| ≤ m) :
    |((clamp (-m) m (roundHE z) : ℤ) : ℚ) - z| ≤ |(j : ℚ) - z| := by
  have hm : 0 ≤ m := le_trans (abs_nonneg _) hj
  have hr := abs_le.1 (roundHE_sub_le z)
  have hj' := abs_le.1 hj
  generalize roundHE z = r at hr
  rcases lt_or_ge m r with h | h
  · rw [clamp_of_ge h.le]
    have h1 : ((m + 1 : ℤ) : ℚ) ≤ r := by exact_mod_cast h
    have h2 : (j:ℚ) ≤ m := by exact_mod_cast hj'.2
    push_cast at h1
    rw [abs_of_nonpos (by linarith), abs_of_nonpos (by linarith)]; linarith
  · rcases lt_or_ge r (-m) with h' | h'
    · rw [clamp_of_le (by omega) h'.le]
      have h1 : (r : ℚ) + 1 ≤ -m := by exact_mod_cast h'
      have h2 : -(m : ℚ) ≤ j := by exact_mod_cast hj'.1
      push_cast
      rw [abs_of_nonneg (by linarith), abs_of_nonneg (by linarith)]; linarith
    · rw [clamp_of_mem h' h]
      rcases eq_or_ne j r with rfl | hne
      · exact le_refl _
      · have ha : |(r:ℚ) - z| ≤ 1/2 := abs_le.2 ⟨by linarith, by linarith⟩
        refine le_trans ha ?_
        rcases lt_or_gt_of_ne hne with h3 | h3
        · have : (j:ℚ) + 1 ≤ r := by exact_mod_cast h3
          rw [abs_of_nonpos (by linarith)]; linarith
        · have : (r:ℚ) + 1 ≤ j := by exact_mod_cast h3
          rw [abs_of_nonneg (by linarith)]; linarith

private theorem nearest_of_clamp (m : ℤ) (hm : 0 ≤ m) (u x : ℚ) (hu : 0 < u) :
    Spec.Nearest m u x (((clamp (-m) m (roundHE (x / u)) : ℤ) : ℚ) * u) := by
  refine ⟨_, abs_le.2 ⟨le_clamp (by omega), clamp_le _ _ _⟩, rfl, fun j hj => ?_⟩
  have h := clamp_nearest m (x / u) j hj
  have e : ∀ k : ℚ, |k * u - x| = |k - x / u| * u := by
    intro k
    rw [show k * u - x = (k - x / u) * u by field_simp, abs_mul, abs_of_pos hu]
  rw [e, e]
  exact mul_le_mul_of_nonneg_right h hu.le

/-- Inside the range the quantisation error is half a unit, and it never exceeds the excess over the range
when that is larger. -/
theorem Spec.Nearest.err {m : ℤ} {u x y : ℚ} (h : Spec.Nearest m u x y) (hu : 0 < u) (hm : 0 ≤ m) :
    (|x| ≤ (m + 1/2) * u → |y - x| ≤ u / 2) ∧ (|x| ≤ (m + 1) * u → |y - x| ≤ u) ∧ ((m:ℚ) * u ≤ |x| → |y| = m * u) := by
  have hmq : (0:ℚ) ≤ m := by exact_mod_cast hm
  obtain ⟨k, hk, rfl, hn⟩ := h
  have hk' : (|(k:ℚ)|) ≤ m := by exact_mod_cast hk
  have hkm := abs_le.1 hk'
  have hx : x = (x / u) * u := by field_simp
  have hxa : |x| = |x / u| * u := by rw [abs_div, abs_of_pos hu]; field_simp
  set z := x / u with hz
  have hn' : ∀ j : ℤ, |j| ≤ m → |(k:ℚ) - z| ≤ |(j : ℚ) - z| := by
    intro j hj
    have := hn j hj
    rw [hx, ← sub_mul, ← sub_mul, abs_mul, abs_mul, abs_of_pos hu] at this
    exact le_of_mul_le_mul_right this hu
  have hend := hn' m (by rw [abs_of_nonneg hm])
  have hend' := hn' (-m) (by rw [abs_neg, abs_of_nonneg hm])
  push_cast at hend'
  have half : |z| ≤ m + 1/2 → |(k:ℚ) - z| ≤ 1/2 := by
    intro h
    have hza := abs_le.1 h
    by_cases h1 : |z| ≤ m
    · have hzb := abs_le.1 h1
      have hr := roundHE_sub_le z
      have hrr : |roundHE z| ≤ m := by
        have a := roundHE_mono hzb.1; have b := roundHE_mono hzb.2
        rw [show -(m:ℚ) = ((-m : ℤ) : ℚ) by push_cast; rfl, roundHE_of_int] at a
        rw [roundHE_of_int] at b
        exact abs_le.2 ⟨a, b⟩
      exact le_trans (hn' _ hrr) hr
    · push Not at h1
      rcases le_total 0 z with h0 | h0
      · rw [abs_of_nonneg h0] at h1
        refine le_trans hend ?_
        rw [abs_of_nonpos (by linarith)]; linarith
      · rw [abs_of_nonpos h0] at h1
        refine le_trans hend' ?_
        rw [abs_of_nonneg (by linarith)]; linarith
  refine ⟨fun h => ?_, fun h => ?_, fun h => ?_⟩
  · rw [hxa] at h
    rw [hx, ← sub_mul, abs_mul, abs_of_pos hu]
    have := half (le_of_mul_le_mul_right h hu)
    nlinarith
  · rw [hxa] at h
    rw [hx, ← sub_mul, abs_mul, abs_of_pos hu]
    have h' := le_of_mul_le_mul_right h hu
    have : |(k:ℚ) - z| ≤ 1 := by
      by_cases h1 : |z| ≤ m + 1/2
      · have := half h1; linarith
      · push Not at h1
        have hza := abs_le.1 h'
        rcases le_total 0 z with h0 | h0
        · rw [abs_of_nonneg h0] at h1
          refine le_trans hend ?_
          rw [abs_of_nonpos (by linarith)]; linarith
        · rw [abs_of_nonpos h0] at h1
          refine le_trans hend' ?_
          rw [abs_of_nonneg (by linarith)]; linarith
    nlinarith
  · rw [hxa] at h
    have h' := le_of_mul_le_mul_right h hu
    rw [abs_mul, abs_of_pos hu]
    congr 1
    rcases le_total 0 z with h0 | h0
    · rw [abs_of_nonneg h0] at h'
      rw [abs_of_nonpos (by linarith), abs_of_nonpos (by linarith)] at hend
      rw [show (k:ℚ) = m by linarith, abs_of_nonneg hmq]
    · rw [abs_of_nonpos h0] at h'
      rw [abs_of_nonneg (by linarith), abs_of_nonneg (by linarith)] at hend'
      rw [show (k:ℚ) = -m by linarith, abs_neg, abs_of_nonneg hmq]

/-- Sign times clipped magnitude is the clipped rounding. -/
private theorem sgn_mag (c : ℕ) (hc : 1 ≤ c) (rs : ℤ) (x : ℚ) :
    sgn x * (hubMag c rs x : ℚ) = ((clamp (-((c:ℤ) - 1)) ((c:ℤ) - 1) (roundHE (x / (2:ℚ) ^ rs)) : ℤ) : ℚ) := by
  have hu : (0:ℚ) < (2:ℚ) ^ rs := zpow_pos (by norm_num) rs
  unfold hubMag sgn
  generalize hm : (c:ℤ) - 1 = m
  have hm0 : 0 ≤ m := by omega
  split_ifs with h1 h2
  · have : 0 ≤ roundHE (x / (2:ℚ) ^ rs) := by
      rw [← roundHE_of_int 0]; exact roundHE_mono (by push_cast; positivity)
    rw [abs_of_nonneg this, one_mul]
    generalize roundHE (x / (2:ℚ) ^ rs) = r at *
    unfold clamp; congr 1; omega
  · have : roundHE (x / (2:ℚ) ^ rs) ≤ 0 := by
      rw [← roundHE_of_int 0]
      exact roundHE_mono (by push_cast; exact div_nonpos_of_nonpos_of_nonneg h2.le hu.le)
    rw [abs_of_nonpos this]
    generalize roundHE (x / (2:ℚ) ^ rs) = r at *
    have e : clamp (-m) m r = - clamp 0 m (-r) := by unfold clamp; omega
    rw [e]; push_cast; ring
  · have : x = 0 := by linarith [not_lt.1 h1, not_lt.1 h2]
    rw [this, zero_div, show (0:ℚ) = ((0:ℤ):ℚ) by norm_num, roundHE_of_int, clamp_of_mem (by omega) hm0]; simp

private theorem hubMag_range (c : ℕ) (hc : 1 ≤ c) (rs : ℤ) (x : ℚ) : 0 ≤ hubMag c rs x ∧ (hubMag c rs x).toNat < c := by
  have h1 : 0 ≤ hubMag c rs x := le_clamp (by omega)
  have h2 : hubMag c rs x ≤ (c:ℤ) - 1 := clamp_le _ _ _
  exact ⟨h1, by omega⟩

/-- Indices in range need no wrapping. -/
theorem pyIdx_of_lt {n : ℕ} {i : ℤ} (h0 : 0 ≤ i) (h1 : i.toNat < n) : pyIdx n i = i.toNat := by
  unfold pyIdx
  rw [Int.emod_eq_of_lt h0 (by omega)]

private theorem abs_sgn_le (x : ℚ) : |sgn x| ≤ 1 := by
  unfold sgn; split_ifs <;> simp

/-- One row and output of a HUB layer: within `I ε 2^(im+wm-W)` of the dot product of the rounded operands. -/
theorem hub_row (cm cycle : ℕ) (hc : 1 ≤ cycle) (hcm : cycle ≤ cm) (table : ℕ → ℕ → ℤ) (W : ℕ) (ε : ℚ)
    (hT : ∀ i v, i < cycle → v < cycle → |(table i v : ℚ) - i * v / 2 ^ W| ≤ ε) (im wm : ℤ) :
    ∃ qx qw : ℚ → ℚ, (∀ a, Spec.Nearest (cycle - 1) ((2:ℚ) ^ (im - W)) a (qx a)) ∧
      (∀ a, Spec.Nearest (cycle - 1) ((2:ℚ) ^ (wm - W)) a (qw a)) ∧
      ∀ {I : ℕ} (row w : Fin I → ℚ) (bias : Option ℚ),
        |hubForward (im - W) (wm - W) (W - im - wm) cm cycle table row w bias - (∑ i, qx (row i) * qw (w i) + bias.getD 0)| ≤
          I * ε * (2:ℚ) ^ (im + wm - W) := by
  have hci : (0:ℤ) ≤ (cycle:ℤ) - 1 := by omega
  refine ⟨fun a => ((clamp (-((cycle:ℤ) - 1)) ((cycle:ℤ) - 1) (roundHE (a / (2:ℚ) ^ (im - W))) : ℤ) : ℚ) * (2:ℚ) ^ (im - W),
    fun a => ((clamp (-((cycle:ℤ) - 1)) ((cycle:ℤ) - 1) (roundHE (a / (2:ℚ) ^ (wm - W))) : ℤ) : ℚ) * (2:ℚ) ^ (wm - W),
    fun a => nearest_of_clamp _ hci _ _ (zpow_pos (by norm_num) _),
    fun a => nearest_of_clamp _ hci _ _ (zpow_pos (by norm_num) _), fun {I} row w bias => ?_⟩
  unfold hubForward
  generalize bias.getD 0 = b
  have hP : (0:ℚ) < (2:ℚ) ^ (im + wm - W) := zpow_pos (by norm_num) _
  have e1 : (2:ℚ) ^ ((W:ℤ) - im - wm) = ((2:ℚ) ^ (im + wm - W))⁻¹ := by rw [← zpow_neg]; congr 1; ring
  rw [e1, div_inv_eq_mul, add_sub_add_right_eq_sub, sum_mul, ← sum_sub_distrib]
  refine le_trans (abs_sum_le_sum_abs _ _) ?_
  have hterm : ∀ i ∈ (univ : Finset (Fin I)), |sgn (row i) * ((table (pyIdx cm (hubMag cycle (im - W) (row i)))
      (pyIdx cm (hubMag cycle (wm - W) (w i))) : ℚ) * sgn (w i)) * (2:ℚ) ^ (im + wm - W) -
      ((clamp (-((cycle:ℤ) - 1)) ((cycle:ℤ) - 1) (roundHE (row i / (2:ℚ) ^ (im - W))) : ℤ) : ℚ) * (2:ℚ) ^ (im - W) *
      (((clamp (-((cycle:ℤ) - 1)) ((cycle:ℤ) - 1) (roundHE (w i / (2:ℚ) ^ (wm - W))) : ℤ) : ℚ) * (2:ℚ) ^ (wm - W))|
      ≤ ε * (2:ℚ) ^ (im + wm - W) := by
    intro i _
    rw [← sgn_mag _ hc, ← sgn_mag _ hc]
    obtain ⟨a0, a1⟩ := hubMag_range cycle hc (im - W) (row i)
    obtain ⟨b0, b1⟩ := hubMag_range cycle hc (wm - W) (w i)
    rw [pyIdx_of_lt a0 (lt_of_lt_of_le a1 hcm), pyIdx_of_lt b0 (lt_of_lt_of_le b1 hcm)]
    have ht := hT _ _ a1 b1
    have ea : (((hubMag cycle (im - W) (row i)).toNat : ℕ) : ℚ) = (hubMag cycle (im - W) (row i) : ℚ) := by
      have := Int.toNat_of_nonneg a0; exact_mod_cast this
    have eb : (((hubMag cycle (wm - W) (w i)).toNat : ℕ) : ℚ) = (hubMag cycle (wm - W) (w i) : ℚ) := by
      have := Int.toNat_of_nonneg b0; exact_mod_cast this
    rw [ea, eb] at ht
    generalize (table (hubMag cycle (im - W) (row i)).toNat (hubMag cycle (wm - W) (w i)).toNat : ℚ) = T at ht ⊢
    generalize (hubMag cycle (im - W) (row i) : ℚ) = A at ht ⊢
    generalize (hubMag cycle (wm - W) (w i) : ℚ) = B at ht ⊢
    have e2 : (2:ℚ) ^ (im - (W:ℤ)) * (2:ℚ) ^ (wm - (W:ℤ)) = (2:ℚ) ^ (im + wm - W) / 2 ^ W := by
      rw [← zpow_natCast, ← zpow_sub₀ (by norm_num), ← zpow_add₀ (by norm_num)]; congr 1; ring
    have e3 : sgn (row i) * (T * sgn (w i)) * (2:ℚ) ^ (im + wm - W) -
        sgn (row i) * A * (2:ℚ) ^ (im - (W:ℤ)) * (sgn (w i) * B * (2:ℚ) ^ (wm - (W:ℤ))) =
        sgn (row i) * sgn (w i) * ((T - A * B / 2 ^ W) * (2:ℚ) ^ (im + wm - W)) := by
      rw [show sgn (row i) * A * (2:ℚ) ^ (im - (W:ℤ)) * (sgn (w i) * B * (2:ℚ) ^ (wm - (W:ℤ))) =
        sgn (row i) * A * (sgn (w i) * B) * ((2:ℚ) ^ (im - (W:ℤ)) * (2:ℚ) ^ (wm - (W:ℤ))) by ring, e2]
      ring
    rw [e3, abs_mul, abs_mul, abs_mul, abs_of_pos hP]
    have s1 := abs_sgn_le (row i)
    have s2 := abs_sgn_le (w i)
    have s3 : |sgn (row i)| * |sgn (w i)| ≤ 1 := by
      have := abs_nonneg (sgn (row i)); have := abs_nonneg (sgn (w i)); nlinarith
    calc _ ≤ 1 * (|T - A * B / 2 ^ W| * (2:ℚ) ^ (im + wm - W)) :=
          mul_le_mul_of_nonneg_right s3 (by positivity)
      _ ≤ _ := by rw [one_mul]; exact mul_le_mul_of_nonneg_right ht hP.le
  refine le_trans (sum_le_sum hterm) ?_
  rw [sum_const, card_univ, Fintype.card_fin, nsmul_eq_mul]
  apply le_of_eq; ring

/-- C47: with widths of equal size, a table that approximates the product of magnitudes up to `ε`, and shifts
chosen for scales `2^im`, `2^wm`, every output is within `I ε 2^(im+wm-W)` of the exact linear layer on
operands rounded to the nearest representable values (`W` magnitude bits, `cycle - 1` largest magnitude). -/
theorem C47_forward {I O : ℕ} (h : Hub) (W : ℕ) (hwi : h.widthi = W + 1) (hww : h.widthw = W + 1) (hc : 1 ≤ h.cycle)
    (hcm : h.cycle ≤ 2 ^ W) (ε : ℚ) (hT : ∀ i v, i < h.cycle → v < h.cycle → |(h.table i v : ℚ) - i * v / 2 ^ W| ≤ ε)
    (w : Fin O → Fin I → ℚ) (bias : Option (Fin O → ℚ)) (x : List (Fin I → ℚ)) (im wm : ℤ)
    (hs : rshift x w W W h.rounding h.quantilei h.quantilew = .ok (im - W, wm - W, W - im - wm)) :
    ∃ out, h.forward w bias x = .ok out ∧ out.length = x.length ∧
    ∃ qx qw : ℚ → ℚ, (∀ a, Spec.Nearest (h.cycle - 1) ((2:ℚ) ^ (im - W)) a (qx a)) ∧
      (∀ a, Spec.Nearest (h.cycle - 1) ((2:ℚ) ^ (wm - W)) a (qw a)) ∧
      ∀ (n : ℕ) (row : Fin I → ℚ), x[n]? = some row → ∃ y, out[n]? = some y ∧ ∀ o,
        |y o - (∑ i, qx (row i) * qw (w o i) + (bias.map fun b => b o).getD 0)| ≤
          I * ε * (2:ℚ) ^ (im + wm - W) := by
  obtain ⟨qx, qw, h1, h2, h3⟩ := hub_row (2 ^ W) h.cycle hc hcm h.table W ε hT im wm
  refine ⟨x.map fun row o => hubForward (im - W) (wm - W) (W - im - wm) (2 ^ W) h.cycle h.table row (w o)
    (bias.map fun b => b o),
    ?_, by simp, qx, qw, h1, h2, fun n row hrow => ⟨_, by rw [List.getElem?_map, hrow]; rfl, fun o => h3 row (w o) _⟩⟩
  unfold Hub.forward
  rw [hwi, hww, show (((W + 1 : ℕ) : ℤ) - 1) = W by push_cast; ring, hs, show hubCycleMax (W + 1) (W + 1) = 2 ^ W by
    unfold hubCycleMax; rw [max_self]; rfl]; rfl

/-- Bilinear error of an inner product of perturbed operands. -/
theorem dot_err {I : ℕ} (a b a' b' : Fin I → ℚ) (A B da db : ℚ) (hA : ∀ i, |a i| ≤ A) (hB : ∀ i, |b i| ≤ B)
    (ha : ∀ i, |a' i - a i| ≤ da) (hb : ∀ i, |b' i - b i| ≤ db) :
    |∑ i, a' i * b' i - ∑ i, a i * b i| ≤ I * (A * db + B * da + da * db) := by
  rw [← sum_sub_distrib]
  refine le_trans (abs_sum_le_sum_abs _ _) ?_
  have : ∀ i ∈ (univ : Finset (Fin I)), |a' i * b' i - a i * b i| ≤ A * db + B * da + da * db := by
    intro i _
    have h1 := hA i; have h2 := hB i; have h3 := ha i; have h4 := hb i
    rw [show a' i * b' i - a i * b i = a i * (b' i - b i) + b i * (a' i - a i) + (a' i - a i) * (b' i - b i) by ring]
    refine le_trans (abs_add_three _ _ _) ?_
    rw [abs_mul, abs_mul, abs_mul]
    have := abs_nonneg (a i); have := abs_nonneg (b i); have := abs_nonneg (a' i - a i); have := abs_nonneg (b' i - b i)
    have := mul_le_mul h1 h4 (by assumption) (by linarith)
    have := mul_le_mul h2 h3 (by assumption) (by linarith)
    have := mul_le_mul h3 h4 (by assumption) (by linarith)
    linarith
  refine le_trans (sum_le_sum this) ?_
  rw [sum_const, card_univ, Fintype.card_fin, nsmul_eq_mul]

/-- C47, end to end: a `HUBLinear` with temporal coded input and Sobol numbers for the weight (C85 for other codings),
rounding `ceil`, quantiles one and a full run deviates from the exact linear layer by at most
`I * 2^(im+wm) * (W + 2 + 2^-W) / 2^W`, where `2^im`, `2^wm` are the powers of two above the largest
magnitudes. -/
theorem C47_end_to_end {I O : ℕ} (envi envw : Env) (W : ℕ) (hW : 1 ≤ W) (rngi rngw : String)
    (hnw : rngw.toLower ∈ ["sobol", "rc"]) (hni : rngi.toLower ∈ ["race", "tc", "race10", "tc10"])
    (hm : DirOK envw.sobolM) (hmb : W ≤ envw.maxbit)
    (w : Fin O → Fin I → ℚ) (bias : Option (Fin O → ℚ)) (x : List (Fin I → ℚ)) (M N : ℚ) (hM : 0 < M) (hN : 0 < N)
    (hx : Spec.MaxAbs M (x.flatMap List.ofFn)) (hw : Spec.MaxAbs N ((List.ofFn w).flatMap List.ofFn)) :
    ∃ h im wm, Spec.PickedPow "ceil" im M ∧ Spec.PickedPow "ceil" wm N ∧
      mkHub envi envw (W + 1) rngi 1 (W + 1) rngw 1 (some (2 ^ W)) "ceil" true = .ok h ∧
      ∃ out, h.forward w bias x = .ok out ∧ out.length = x.length ∧
      ∀ (n : ℕ) (row : Fin I → ℚ), x[n]? = some row → ∃ y, out[n]? = some y ∧ ∀ o,
        |y o - (∑ i, row i * w o i + (bias.map fun b => b o).getD 0)| ≤
          I * (2:ℚ) ^ (im + wm) * ((W + 2 + (2:ℚ) ^ (-(W:ℤ))) * (2:ℚ) ^ (-(W:ℤ))) := by
  have hce : ("ceil".toLower) = "ceil" := by decide +kernel
  obtain ⟨lw, hlw, hpw⟩ := C02_sobol_perm envw W rngw hnw hm hmb
  obtain ⟨li, hli, hpi⟩ := C02_temporal_perm envi W rngi hni
  obtain ⟨l', hl', hsob⟩ := C46_sobol envw W rngw hnw hm hmb
  rw [hlw] at hl'; cases hl'
  have htw : ¬ Spec.TemporalName rngw := by
    unfold Spec.TemporalName
    simp only [List.mem_cons, List.not_mem_nil, or_false] at hnw
    rcases hnw with h | h <;> rw [h] <;> decide
  obtain ⟨h, h1, h2, h3, h4, h5, h6, h7, h8⟩ := mkHub_ok envi envw (W + 1) (by omega) rngi rngw 1 1 (by norm_num)
    (by norm_num) (2 ^ W) "ceil" (by rw [hce]; simp) (fun h => htw h.2) li lw (by simpa using hli) (by simpa using hlw)
    (by simpa using hpi) (by simpa using hpw)
  rw [hce] at h7
  obtain ⟨im, wm, p1, p2, hs⟩ := C58_full x w W W "ceil" (by simp) M N hM hN hx hw
  have hcyc : h.cycle = 2 ^ W := by rw [h2]; simp
  have hT : ∀ i v, i < h.cycle → v < h.cycle → |(h.table i v : ℚ) - i * v / 2 ^ W| ≤ (W : ℚ) := by
    intro i v hi hv
    rw [hcyc] at hi hv
    rw [h8 i v (by simpa using hi.le), if_neg htw]
    exact_mod_cast hsob i v hi.le hv.le
  rw [max_self] at hs
  obtain ⟨out, f1, f2, qx, qw, f3, f4, f5⟩ := C47_forward h W h3 h4 (by rw [hcyc]; exact Nat.one_le_two_pow) hcyc.le W hT w bias x im wm
    (by rw [h5, h6, h7]; exact hs)
  refine ⟨h, im, wm, p1, p2, h1, out, f1, f2, fun n row hrow => ?_⟩
  obtain ⟨y, hy, hb⟩ := f5 n row hrow
  refine ⟨y, hy, fun o => ?_⟩
  have hb := hb o
  have hMm := (C58_overshoot "ceil" im M hM.le p1).1 rfl
  have hNm := (C58_overshoot "ceil" wm N hN.le p2).1 rfl
  have er : ∀ i, |row i| ≤ (2:ℚ) ^ im := fun i => le_trans (hx.1 _ (by
    rw [List.mem_flatMap]; exact ⟨row, List.mem_of_getElem? hrow, by rw [List.mem_ofFn]; exact ⟨i, rfl⟩⟩)) hMm
  have ew : ∀ i, |w o i| ≤ (2:ℚ) ^ wm := fun i => le_trans (hw.1 _ (by
    rw [List.mem_flatMap]; exact ⟨w o, by rw [List.mem_ofFn]; exact ⟨o, rfl⟩, by rw [List.mem_ofFn]; exact ⟨i, rfl⟩⟩)) hNm
  have hcq : ((h.cycle : ℤ) - 1 : ℤ) = 2 ^ W - 1 := by rw [hcyc]; push_cast; ring
  have hc0 : (0:ℤ) ≤ (h.cycle : ℤ) - 1 := by rw [hcyc]; have := Nat.one_le_two_pow (n := W); push_cast; exact_mod_cast (by omega)
  have dq : ∀ (m : ℤ) (a b : ℚ), Spec.Nearest (h.cycle - 1) ((2:ℚ) ^ (m - W)) a b → |a| ≤ (2:ℚ) ^ m → |b - a| ≤ (2:ℚ) ^ (m - W) := by
    intro m a b hn ha
    refine (Spec.Nearest.err hn (zpow_pos (by norm_num) _) hc0).2.1 ?_
    rw [hcq]; push_cast
    rw [sub_add_cancel, ← zpow_natCast, ← zpow_add₀ (by norm_num)]
    rw [show (W:ℤ) + (m - W) = m by ring]; exact ha
  have hd := dot_err row (w o) (fun i => qx (row i)) (fun i => qw (w o i)) _ _ _ _ er ew
    (fun i => dq im _ _ (f3 (row i)) (er i)) (fun i => dq wm _ _ (f4 (w o i)) (ew i))
  generalize (bias.map fun b => b o).getD 0 = b at hb ⊢
  have tri : |y o - (∑ i, row i * w o i + b)| ≤ |y o - (∑ i, qx (row i) * qw (w o i) + b)| +
      |∑ i, qx (row i) * qw (w o i) - ∑ i, row i * w o i| := by
    refine le_trans (le_of_eq ?_) (abs_add_le _ _)
    congr 1; ring
  refine le_trans tri (le_trans (add_le_add hb hd) (le_of_eq ?_))
  have e : ∀ m : ℤ, (2:ℚ) ^ (m - (W:ℤ)) = (2:ℚ) ^ m * (2:ℚ) ^ (-(W:ℤ)) := fun m => by
    rw [← zpow_add₀ (by norm_num)]; congr 1
  rw [e im, e wm, e (im + wm), zpow_add₀ (by norm_num)]
  ring

/-- C47: a zero input row returns the bias exactly, whatever the table. -/
theorem C47_zero_row {I O : ℕ} (h : Hub) (w : Fin O → Fin I → ℚ) (bias : Option (Fin O → ℚ)) (x : List (Fin I → ℚ))
    (out : List (Fin O → ℚ)) (hf : h.forward w bias x = .ok out) (n : ℕ) (hn : x[n]? = some fun _ => 0) :
    out[n]? = some fun o => (bias.map fun b => b o).getD 0 := by
  unfold Hub.forward at hf
  obtain ⟨⟨rsi, rsw, rso⟩, -, h2⟩ := except_bind_ok hf
  cases h2
  rw [List.getElem?_map, hn]
  show some _ = some _
  congr 1
  funext o
  show hubForward _ _ _ _ _ _ _ _ _ = _
  unfold hubForward
  rw [sum_eq_zero (fun i _ => by simp [sgn]), zero_div, zero_add]

/-- C47: negating the whole input negates the outputs up to the bias (quantile one; any table, any rounding). -/
theorem C47_odd {I O : ℕ} (h : Hub) (hr : h.rounding ∈ ["round", "ceil", "floor"]) (hqi : h.quantilei = 1)
    (hqw : h.quantilew = 1) (w : Fin O → Fin I → ℚ) (bias : Option (Fin O → ℚ)) (x : List (Fin I → ℚ)) (M N : ℚ)
    (hM : 0 < M) (hN : 0 < N) (hx : Spec.MaxAbs M (x.flatMap List.ofFn))
    (hw : Spec.MaxAbs N ((List.ofFn w).flatMap List.ofFn)) :
    ∃ out out', h.forward w bias x = .ok out ∧ h.forward w bias (x.map fun row i => - row i) = .ok out' ∧
      ∀ (n : ℕ) (y : Fin O → ℚ), out[n]? = some y → ∃ y', out'[n]? = some y' ∧
        ∀ o, y' o - (bias.map fun b => b o).getD 0 = -(y o - (bias.map fun b => b o).getD 0) := by
  have hx' : Spec.MaxAbs M ((x.map fun (row : Fin I → ℚ) i => - row i).flatMap List.ofFn) := by
    have mem : ∀ a, a ∈ ((x.map fun (row : Fin I → ℚ) i => - row i).flatMap List.ofFn) ↔ -a ∈ x.flatMap List.ofFn := by
      intro a
      simp only [List.mem_flatMap, List.mem_map, List.mem_ofFn, exists_exists_and_eq_and]
      constructor
      · rintro ⟨row, h1, i, rfl⟩; exact ⟨row, h1, i, by simp⟩
      · rintro ⟨row, h1, i, h2⟩; exact ⟨row, h1, i, by rw [h2]; simp⟩
    refine ⟨fun a ha => by rw [← abs_neg]; exact hx.1 _ ((mem a).1 ha), ?_⟩
    obtain ⟨a, ha, hM⟩ := hx.2
    exact ⟨-a, (mem _).2 (by simpa using ha), by rw [abs_neg, hM]⟩
  obtain ⟨im, wm, p1, p2, hs⟩ := C58_full x w ((h.widthi : ℤ) - 1) ((h.widthw : ℤ) - 1) h.rounding hr M N hM hN hx hw
  obtain ⟨im', wm', p1', p2', hs'⟩ := C58_full _ w ((h.widthi : ℤ) - 1) ((h.widthw : ℤ) - 1) h.rounding hr M N hM hN hx' hw
  rw [C58_unique _ _ _ _ p1' p1, C58_unique _ _ _ _ p2' p2] at hs'
  refine ⟨_, _, by unfold Hub.forward; rw [hqi, hqw, hs]; rfl, by unfold Hub.forward; rw [hqi, hqw, hs']; rfl,
    fun n y hy => ?_⟩
  rw [List.getElem?_map] at hy
  cases hrow : x[n]? with
  | none => rw [hrow] at hy; cases hy
  | some row =>
    rw [hrow] at hy
    have hy' : y = _ := (Option.some.inj hy).symm
    refine ⟨_, by rw [List.getElem?_map, List.getElem?_map, hrow]; rfl, fun o => ?_⟩
    rw [hy']
    show hubForward _ _ _ _ _ _ _ _ _ - _ = -(hubForward _ _ _ _ _ _ _ _ _ - _)
    unfold hubForward
    rw [add_sub_cancel_right, add_sub_cancel_right, ← neg_div, ← sum_neg_distrib]
    congr 1
    apply sum_congr rfl
    intro i _
    have e1 : hubMag h.cycle (im - ((h.widthi : ℤ) - 1)) (- row i) = hubMag h.cycle (im - ((h.widthi : ℤ) - 1)) (row i) := by
      unfold hubMag; rw [neg_div, roundHE_neg, abs_neg]
    have e2 : sgn (- row i) = - sgn (row i) := by
      unfold sgn
      split_ifs <;> first | rfl | linarith
    rw [e1, e2]; ring

/-! ## C48 -/

/-- One row and output of a fixed-point layer. -/
theorem fxp_row (wi ww : ℕ) (rsi rsw : ℤ) :
    ∃ qx qw : ℚ → ℚ, (∀ a, Spec.Nearest (2 ^ wi - 1) ((2:ℚ) ^ rsi) a (qx a)) ∧
      (∀ a, Spec.Nearest (2 ^ ww - 1) ((2:ℚ) ^ rsw) a (qw a)) ∧
      ∀ {I : ℕ} (row w : Fin I → ℚ) (bias : Option ℚ),
        fxpForward rsi rsw (0 - rsi - rsw) (2 ^ wi) (2 ^ ww) row w bias = ∑ i, qx (row i) * qw (w i) + bias.getD 0 := by
  have hp : ∀ k : ℕ, (0:ℤ) ≤ 2 ^ k - 1 := fun k => by
    have : (1:ℤ) ≤ 2 ^ k := one_le_pow₀ (by norm_num)
    omega
  refine ⟨_, _, fun a => nearest_of_clamp _ (hp wi) _ _ (zpow_pos (by norm_num) _),
    fun a => nearest_of_clamp _ (hp ww) _ _ (zpow_pos (by norm_num) _), fun {I} row w bias => ?_⟩
  unfold fxpForward fxpRound
  congr 1
  rw [show (0:ℤ) - rsi - rsw = -(rsi + rsw) by ring, zpow_neg, div_inv_eq_mul, sum_mul]
  apply sum_congr rfl
  intro i _
  rw [zpow_add₀ (by norm_num), show (1 - (2:ℤ) ^ wi) = -(2 ^ wi - 1) by ring, show (1 - (2:ℤ) ^ ww) = -(2 ^ ww - 1) by ring]
  ring

/-- C48: the layer is the exact linear layer on input and weight rounded to the nearest multiple of their unit with
at most `2^width - 1` units. -/
theorem C48_forward {I O : ℕ} (wi ww : ℕ) (qi qw : ℚ) (rounding : String) (w : Fin O → Fin I → ℚ)
    (bias : Option (Fin O → ℚ)) (x : List (Fin I → ℚ)) (rsi rsw rso : ℤ)
    (hs : rshift x w ((wi:ℤ) - 1) ((ww:ℤ) - 1) rounding.toLower qi qw = .ok (rsi, rsw, rso)) :
    ∃ out, fxpLinear wi ww qi qw rounding w bias x = .ok out ∧ out.length = x.length ∧
    ∃ qx qw : ℚ → ℚ, (∀ a, Spec.Nearest (2 ^ wi - 1) ((2:ℚ) ^ rsi) a (qx a)) ∧
      (∀ a, Spec.Nearest (2 ^ ww - 1) ((2:ℚ) ^ rsw) a (qw a)) ∧
      ∀ (n : ℕ) (row : Fin I → ℚ), x[n]? = some row →
        out[n]? = some fun o => ∑ i, qx (row i) * qw (w o i) + (bias.map fun b => b o).getD 0 := by
  obtain ⟨qx, qw, h1, h2, h3⟩ := fxp_row wi ww rsi rsw
  refine ⟨_, by unfold fxpLinear; rw [hs]; rfl, by simp, qx, qw, h1, h2, fun n row hrow => ?_⟩
  rw [List.getElem?_map, hrow]
  show some _ = some _
  congr 1
  funext o
  exact h3 row (w o) _

/-- The width leaves one spare bit: values of magnitude below twice the picked power fit up to one unit, and below
`√2` times that power they fit exactly. -/
theorem fxp_fit (wd : ℕ) (hwd : 1 ≤ wd) (r : String) (m : ℤ) (M a b : ℚ) (hM : 0 ≤ M) (hp : Spec.PickedPow r m M)
    (ha : |a| ≤ M) (hn : Spec.Nearest (2 ^ wd - 1) ((2:ℚ) ^ (m - ((wd:ℤ) - 1))) a b) :
    |b - a| ≤ (2:ℚ) ^ (m - ((wd:ℤ) - 1)) ∧ (r ≠ "floor" → |b - a| ≤ (2:ℚ) ^ (m - ((wd:ℤ) - 1)) / 2) := by
  have hm0 : (0:ℤ) ≤ 2 ^ wd - 1 := by
    have : (1:ℤ) ≤ 2 ^ wd := one_le_pow₀ (by norm_num)
    omega
  obtain ⟨e1, e2, -⟩ := Spec.Nearest.err hn (zpow_pos (by norm_num) _) hm0
  obtain ⟨o1, o2, o3⟩ := C58_overshoot r m M hM hp
  set u := (2:ℚ) ^ (m - ((wd:ℤ) - 1)) with hu
  have hupos : 0 < u := zpow_pos (by norm_num) _
  obtain ⟨W, rfl⟩ : ∃ W, wd = W + 1 := ⟨wd - 1, by omega⟩
  have hmu : (2:ℚ) ^ m = 2 ^ W * u := by
    rw [hu, ← zpow_natCast, ← zpow_add₀ (by norm_num)]; congr 1; push_cast; ring
  have hA : (1:ℚ) ≤ 2 ^ W := one_le_pow₀ (by norm_num)
  rw [hmu] at o1 o2 o3
  push_cast at e1 e2
  rw [pow_succ] at e1 e2
  generalize (2:ℚ) ^ W = A at *
  constructor
  · apply e2; nlinarith
  · intro hr
    apply e1
    have : M ≤ (A * 2 - 1 + 1 / 2) * u := by
      rcases hp with ⟨rfl, -⟩ | ⟨rfl, -⟩ | ⟨rfl, -⟩
      · exact absurd rfl hr
      · have := o1 rfl; nlinarith
      · have h := o2 rfl
        have : M ^ 2 ≤ ((A * 2 - 1 + 1 / 2) * u) ^ 2 := by
          have : (A * u) ^ 2 * 2 ≤ ((A * 2 - 1 + 1 / 2) * u) ^ 2 := by
            rw [mul_pow, mul_pow]
            have : A ^ 2 * 2 ≤ (A * 2 - 1 + 1 / 2) ^ 2 := by nlinarith
            nlinarith [sq_nonneg u]
          linarith
        exact le_trans (le_abs_self M) (abs_le_of_sq_le_sq this (by nlinarith))
    linarith

/-- C48: with quantile one, `round` or `ceil`: no clipping, and the output is off by at most the bilinear bound with
half a unit on each operand; with `floor` one unit on each operand. -/
theorem C48_error {I O : ℕ} (wi ww : ℕ) (hwi : 1 ≤ wi) (hww : 1 ≤ ww) (rounding : String)
    (hr : rounding.toLower ∈ ["round", "ceil", "floor"]) (w : Fin O → Fin I → ℚ)
    (bias : Option (Fin O → ℚ)) (x : List (Fin I → ℚ)) (M N : ℚ) (hM : 0 < M) (hN : 0 < N)
    (hx : Spec.MaxAbs M (x.flatMap List.ofFn)) (hw : Spec.MaxAbs N ((List.ofFn w).flatMap List.ofFn)) :
    ∃ im wm, Spec.PickedPow rounding.toLower im M ∧ Spec.PickedPow rounding.toLower wm N ∧
      ∃ out, fxpLinear wi ww 1 1 rounding w bias x = .ok out ∧ out.length = x.length ∧
      ∀ (n : ℕ) (row : Fin I → ℚ), x[n]? = some row → ∃ y, out[n]? = some y ∧ ∀ o (k dx dw : ℚ),
        k = (if rounding.toLower = "floor" then 1 else 1/2) → dx = k * (2:ℚ) ^ (im - ((wi:ℤ) - 1)) →
        dw = k * (2:ℚ) ^ (wm - ((ww:ℤ) - 1)) →
        |y o - (∑ i, row i * w o i + (bias.map fun b => b o).getD 0)| ≤ I * (M * dw + N * dx + dx * dw) := by
  obtain ⟨im, wm, p1, p2, hs⟩ := C58_full x w ((wi:ℤ) - 1) ((ww:ℤ) - 1) rounding.toLower hr M N hM hN hx hw
  obtain ⟨out, f1, f2, qx, qw, f3, f4, f5⟩ := C48_forward wi ww 1 1 rounding w bias x _ _ _ hs
  refine ⟨im, wm, p1, p2, out, f1, f2, fun n row hrow => ⟨_, f5 n row hrow, fun o k dx dw hk hdx hdw => ?_⟩⟩
  have er : ∀ i, |row i| ≤ M := fun i => hx.1 _ (by
    rw [List.mem_flatMap]; exact ⟨row, List.mem_of_getElem? hrow, by rw [List.mem_ofFn]; exact ⟨i, rfl⟩⟩)
  have ew : ∀ i, |w o i| ≤ N := fun i => hw.1 _ (by
    rw [List.mem_flatMap]; exact ⟨w o, by rw [List.mem_ofFn]; exact ⟨o, rfl⟩, by rw [List.mem_ofFn]; exact ⟨i, rfl⟩⟩)
  rw [add_sub_add_right_eq_sub]
  refine dot_err row (w o) (fun i => qx (row i)) (fun i => qw (w o i)) M N dx dw er ew (fun i => ?_) (fun i => ?_)
  · obtain ⟨a, b⟩ := fxp_fit wi hwi _ im M _ _ hM.le p1 (er i) (f3 (row i))
    rw [hdx, hk]
    split_ifs with h
    · linarith
    · have := b h; linarith
  · obtain ⟨a, b⟩ := fxp_fit ww hww _ wm N _ _ hN.le p2 (ew i) (f4 (w o i))
    rw [hdw, hk]
    split_ifs with h
    · linarith
    · have := b h; linarith

/-- C48 (finding): the integers used exceed the nominal signed range.  Input 1 times weight 1 comes out as exactly 1,
which no two integers below `2^(width-1)` in magnitude give at these units. -/
theorem C48_exceeds (W : ℕ) (rounding : String) (hr : rounding.toLower ∈ ["round", "ceil", "floor"]) :
    fxpLinear (W + 1) (W + 1) 1 1 rounding (fun (_ : Fin 1) (_ : Fin 1) => 1) none [fun _ => 1] = .ok [fun _ => 1] ∧
    ∀ a b : ℤ, |a| ≤ 2 ^ W - 1 → |b| ≤ 2 ^ W - 1 →
      (a : ℚ) * (2:ℚ) ^ (-(W:ℤ)) * (b * (2:ℚ) ^ (-(W:ℤ))) ≠ 1 := by
  constructor
  · have hmax : Spec.MaxAbs 1 (([fun (_ : Fin 1) => (1:ℚ)]).flatMap List.ofFn) :=
      ⟨by intro x hx; simp at hx; rw [hx]; norm_num, 1, by simp, by norm_num⟩
    obtain ⟨im, wm, p1, p2, hs⟩ := C58_full [fun (_ : Fin 1) => (1:ℚ)] (fun (_ : Fin 1) (_ : Fin 1) => (1:ℚ)) (((W + 1 : ℕ):ℤ) - 1)
      (((W + 1 : ℕ):ℤ) - 1) rounding.toLower hr 1 1 one_pos one_pos hmax (by simpa using hmax)
    have p0 : Spec.PickedPow rounding.toLower 0 1 := by
      simp only [List.mem_cons, List.not_mem_nil, or_false] at hr
      rcases hr with h | h | h <;> rw [h]
      · exact Or.inr (Or.inr ⟨rfl, by norm_num, by norm_num, by norm_num⟩)
      · exact Or.inr (Or.inl ⟨rfl, by norm_num, by norm_num⟩)
      · exact Or.inl ⟨rfl, by norm_num, by norm_num⟩
    rw [C58_unique _ _ _ _ p1 p0, C58_unique _ _ _ _ p2 p0] at hs
    have hu : (0:ℤ) - (((W + 1 : ℕ) : ℤ) - 1) = -(W:ℤ) := by push_cast; ring
    unfold fxpLinear
    rw [hs]
    show Except.ok [_] = Except.ok [_]
    congr 2
    funext o
    have hq : fxpRound (2 ^ (W + 1)) (-(W:ℤ)) 1 = 2 ^ W := by
      unfold fxpRound
      rw [zpow_neg, one_div, inv_inv, zpow_natCast, show ((2:ℚ) ^ W) = ((2 ^ W : ℤ) : ℚ) by push_cast; rfl, roundHE_of_int]
      have : (1:ℤ) ≤ 2 ^ W := one_le_pow₀ (by norm_num)
      apply clamp_of_mem <;> rw [pow_succ] <;> omega
    show fxpForward _ _ _ _ _ _ _ _ = 1
    unfold fxpForward
    simp only [hu, hq, Option.map_none, Option.getD_none, add_zero, univ_unique, sum_const, card_singleton, nsmul_eq_mul, Nat.cast_one, one_mul]
    rw [show (0:ℤ) - -(W:ℤ) - -(W:ℤ) = (W:ℤ) + W by ring, zpow_add₀ (by norm_num), zpow_natCast]
    push_cast
    field_simp
  · intro a b ha hb h
    have hp : (0:ℚ) < 2 ^ W := by positivity
    rw [zpow_neg, zpow_natCast] at h
    have h1 : (a:ℚ) * b = 2 ^ W * 2 ^ W := by field_simp at h; linarith
    have h2 : a * b = 2 ^ W * 2 ^ W := by exact_mod_cast h1
    have h3 : |a * b| ≤ (2 ^ W - 1) * (2 ^ W - 1) := by
      rw [abs_mul]; exact mul_le_mul ha hb (abs_nonneg _) (le_trans (abs_nonneg _) ha)
    have h4 : (1:ℤ) ≤ 2 ^ W := one_le_pow₀ (by norm_num)
    rw [h2, abs_of_nonneg (by positivity)] at h3
    generalize (2:ℤ) ^ W = A at *
    nlinarith

/-- Non-vacuity of the operand specification: 11/4 on the grid of halves is 5/2 or 3, and clips at 3/2 with three units. -/
example : Spec.Nearest 7 (1/2) (11/4) 3 := by
  have := nearest_of_clamp 7 (by norm_num) (1/2) (11/4) (by norm_num)
  rw [show roundHE ((11/4 : ℚ) / (1/2)) = 6 by decide +kernel] at this
  rw [show clamp (-7 : ℤ) 7 6 = 6 by decide] at this
  norm_num at this ⊢
  exact this
example : Spec.TemporalName "Race" ∧ "Race".toLower ∈ ["race", "tc", "race10", "tc10"] ∧
    "Sobol".toLower ∈ ["sobol", "rc"] := by decide +kernel

end Verif.Props
