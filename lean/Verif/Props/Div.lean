import Verif.Spec
import Verif.Model.Div
import Verif.Proofs.Gen
import Verif.Proofs.Small
import Verif.Props.Shuffle
import Verif.Props.Gen

/-!
# Properties C33–C35: `CORDIV_kernel` and `FSUDiv`
-/

namespace Verif.Props

open Verif Finset Small Shuffle Divider

/-- Result of call `t` of a fresh kernel fed with dividend `x` and divisor `y`. -/
def corOut (e : ℕ) (rng : List ℤ) (x y : ℕ → ℤ) (t : ℕ) : Except PyErr ℤ :=
  outAtE (corStep e rng) (corInit e) (fun t => (x t, y t)) t

/-- The valid dividend bits before call `n`: those that came with a divisor bit `1`. -/
def Spec.valid (x y : ℕ → ℤ) (n : ℕ) : List ℤ :=
  ((List.range n).filter fun t => y t = 1).map x

/-- Alternating pattern of length `e` followed by the valid dividend bits. -/
def Spec.divTape (e : ℕ) (x y : ℕ → ℤ) (n : ℕ) : List ℤ :=
  (List.range e).map (fun k : ℕ => ((k % 2 : ℕ) : ℤ)) ++ Spec.valid x y n

theorem valid_succ (x y : ℕ → ℤ) (n : ℕ) :
    Spec.valid x y (n + 1) = Spec.valid x y n ++ (if y n = 1 then [x n] else []) := by
  unfold Spec.valid
  rw [List.range_succ, List.filter_append, List.map_append]
  congr 1
  split_ifs with h <;> simp [h]

/-- The read positions are in range for the first `N` calls. -/
private def Readable (e : ℕ) (rng : List ℤ) (N : ℕ) : Prop :=
  ∀ t < N, ∃ r, rng[t % e]? = some r ∧ r.toNat < e

private theorem cor_state (e : ℕ) (he : 0 < e) (rng : List ℤ) (N : ℕ) (hr : Readable e rng N) (x y : ℕ → ℤ) (n : ℕ)
    (hn : n ≤ N) :
    ∃ h, stateAtE (corStep e rng) (corInit e) (fun t => (x t, y t)) n
      = .ok ⟨(Spec.divTape e x y n).drop (Spec.valid x y n).length, n, h⟩ := by
  induction n with
  | zero => exact ⟨1, by simp [stateAtE, Spec.divTape, Spec.valid, corInit, srInit]⟩
  | succ n ih =>
      obtain ⟨h, ih⟩ := ih (by omega)
      obtain ⟨r, hr1, hr2⟩ := hr n (by omega)
      have hlen : ((Spec.divTape e x y n).drop (Spec.valid x y n).length).length = e := by
        simp [Spec.divTape]
      set c := (Spec.divTape e x y n).drop (Spec.valid x y n).length with hc
      obtain ⟨v, hget⟩ : ∃ v, c[r.toNat]? = some v := ⟨c[r.toNat]'(by omega), List.getElem?_eq_getElem _⟩
      refine ⟨v, ?_⟩
      have e1 := stateAtE_succ_ok ih (s' := ⟨srShift c (ind (y n = 1) * x n + (1 - ind (y n = 1)) * v)
        (some (ind (y n = 1))), n + 1, v⟩) (o := ind (y n = 1) * x n + (1 - ind (y n = 1)) * v) (by
          unfold corStep; simp only [hr1, hget])
      rw [e1]
      congr 2
      have hne : c ≠ [] := by intro h; rw [h] at hlen; simp at hlen; omega
      by_cases hy : y n = 1
      · rw [ind_true hy, srShift_one, srShift_none _ hne]
        unfold Spec.divTape
        rw [valid_succ, if_pos hy, ← List.append_assoc, List.length_append, List.length_singleton,
          List.drop_append_of_le_length (by simp; omega), ← List.drop_drop]
        rw [hc]; unfold Spec.divTape
        simp
      · rw [ind_false hy, srShift_zero]
        rw [hc]
        unfold Spec.divTape
        rw [valid_succ, if_neg hy, List.append_nil]

private theorem cor_out (e : ℕ) (he : 0 < e) (rng : List ℤ) (N : ℕ) (hr : Readable e rng N) (x y : ℕ → ℤ) (n : ℕ)
    (hn : n < N) : ∃ r, rng[n % e]? = some r ∧ r.toNat < e ∧
    corOut e rng x y n = .ok (if y n = 1 then x n
      else (Spec.divTape e x y n).getD ((Spec.valid x y n).length + r.toNat) 0) := by
  obtain ⟨h, hs⟩ := cor_state e he rng N hr x y n (by omega)
  obtain ⟨r, hr1, hr2⟩ := hr n hn
  refine ⟨r, hr1, hr2, ?_⟩
  have hlen : ((Spec.divTape e x y n).drop (Spec.valid x y n).length).length = e := by
    simp [Spec.divTape]
  set c := (Spec.divTape e x y n).drop (Spec.valid x y n).length with hc
  have hget : c[r.toNat]? = some (c[r.toNat]'(by omega)) := List.getElem?_eq_getElem _
  have hg : c[r.toNat]'(by omega) = (Spec.divTape e x y n).getD ((Spec.valid x y n).length + r.toNat) 0 := by
    have : c.getD r.toNat 0 = c[r.toNat]'(by omega) := by
      rw [List.getD_eq_getElem?_getD, hget]; rfl
    rw [← this, hc, List.getD_eq_getElem?_getD, List.getElem?_drop, ← List.getD_eq_getElem?_getD]
  apply outAtE_ok hs (s' := _)
  unfold corStep
  simp only [hr1, hget]
  congr 2
  rw [hg]
  by_cases hy : y n = 1
  · rw [ind_true hy, if_pos hy]; ring
  · rw [ind_false hy, if_neg hy]; ring

private theorem readable_pow {w : ℕ} {rng : List ℤ} (h : Verif.Spec.IsPermSeq w rng) (e N : ℕ) (he0 : 2 ^ w ≤ e)
    (hN : ∀ t < N, t % e < 2 ^ w) : Readable e rng N := by
  intro t ht
  have hlt : t % e < rng.length := by rw [h.1]; exact hN t ht
  refine ⟨rng[t % e], List.getElem?_eq_getElem hlt, ?_⟩
  have hm : rng[t % e] ∈ (List.range (2 ^ w)).map (fun n : ℕ => (n : ℤ)) := by
    have hp := Gen.IsPermSeq.perm h
    exact hp.subset (List.getElem_mem hlt)
  obtain ⟨k, hk, hk'⟩ := List.mem_map.1 hm
  rw [← hk']; simp at hk ⊢; omega

/-- C33: what the kernel returns: the dividend bit of a valid cycle, otherwise the cell of the last
`2^w` valid dividend bits selected by the number sequence. -/
theorem C33_quotient {w : ℕ} {rng : List ℤ} (h : Verif.Spec.IsPermSeq w rng) (x y : ℕ → ℤ) (t : ℕ) :
    ∃ r : ℕ, r < 2 ^ w ∧ rng.getD (t % 2 ^ w) 0 = r ∧
    corOut (2 ^ w) rng x y t = .ok (if y t = 1 then x t
      else (Spec.divTape (2 ^ w) x y t).getD ((Spec.valid x y t).length + r) 0) := by
  have hp := Nat.two_pow_pos w
  have hr := readable_pow h (2 ^ w) (t + 1) (le_refl _) (fun t _ => Nat.mod_lt _ hp)
  obtain ⟨r, h1, h2, h3⟩ := cor_out (2 ^ w) hp rng (t + 1) hr x y t (by omega)
  refine ⟨r.toNat, h2, ?_, h3⟩
  rw [List.getD_eq_getElem?_getD, h1]
  have hm : r ∈ (List.range (2 ^ w)).map (fun n : ℕ => (n : ℤ)) :=
    (Gen.IsPermSeq.perm h).subset (List.mem_of_getElem? h1)
  obtain ⟨k, hk, hk'⟩ := List.mem_map.1 hm
  rw [← hk']; simp

/-- C33: with bit inputs the quotient is a bit. -/
theorem C33_bits {w : ℕ} {rng : List ℤ} (h : Verif.Spec.IsPermSeq w rng) {x : ℕ → ℤ}
    (hx : Verif.Spec.BitStream x) (y : ℕ → ℤ) (t : ℕ) : ∃ q, corOut (2 ^ w) rng x y t = .ok q ∧ IsBit q := by
  obtain ⟨r, h1, -, h3⟩ := C33_quotient h x y t
  refine ⟨_, h3, ?_⟩
  split_ifs with hy
  · exact hx t
  · have hall : ∀ b ∈ Spec.divTape (2 ^ w) x y t, IsBit b := by
      intro b hb
      unfold Spec.divTape Spec.valid at hb
      rcases List.mem_append.1 hb with hb | hb
      · obtain ⟨k, -, rfl⟩ := List.mem_map.1 hb
        rcases Nat.mod_two_eq_zero_or_one k with h | h <;> rw [h]
        · exact Or.inl rfl
        · exact Or.inr rfl
      · obtain ⟨k, -, rfl⟩ := List.mem_map.1 hb
        exact hx k
    rw [List.getD_eq_getElem?_getD]
    cases hg : (Spec.divTape (2 ^ w) x y t)[(Spec.valid x y t).length + r]? with
    | none => exact Or.inl rfl
    | some b => exact hall b (List.mem_of_getElem? hg)

/-- C33: if the valid dividend bits since call `s` are all `b` and there are at least `2^w` of them,
the quotient of an invalid cycle is `b`. -/
theorem C33_settled {w : ℕ} {rng : List ℤ} (h : Verif.Spec.IsPermSeq w rng) (x y : ℕ → ℤ) (b : ℤ) (s t : ℕ)
    (hst : s ≤ t) (hb : ∀ u, s ≤ u → u < t → y u = 1 → x u = b)
    (hcard : 2 ^ w ≤ ((Ico s t).filter fun u => y u = 1).card) (hy : y t ≠ 1) :
    corOut (2 ^ w) rng x y t = .ok b := by
  obtain ⟨r, h1, -, h3⟩ := C33_quotient h x y t
  rw [h3, if_neg hy]
  congr 1
  have hsplit : ∃ m, Spec.valid x y t = Spec.valid x y s ++ List.replicate m b ∧
      m = ((Ico s t).filter fun u => y u = 1).card := by
    clear hcard hy h1 h3
    obtain ⟨k, rfl⟩ := Nat.exists_eq_add_of_le hst
    induction k with
    | zero => exact ⟨0, by simp, by simp⟩
    | succ k ih =>
        obtain ⟨m, e1, e2⟩ := ih (by omega) (fun u h1 h2 => hb u h1 (by omega))
        rw [← Nat.add_assoc, valid_succ, e1, ← Finset.insert_Ico_right_eq_Ico_add_one (by omega), Finset.filter_insert]
        by_cases hy : y (s + k) = 1
        · refine ⟨m + 1, ?_, ?_⟩
          · rw [if_pos hy, hb _ (by omega) (by omega) hy, List.replicate_succ', List.append_assoc]
          · rw [if_pos hy, Finset.card_insert_of_notMem (by simp), ← e2]
        · exact ⟨m, by rw [if_neg hy, List.append_nil], by rw [if_neg hy, ← e2]⟩
  obtain ⟨m, e1, e2⟩ := hsplit
  rw [← e2] at hcard
  unfold Spec.divTape
  rw [e1, ← List.append_assoc, List.getD_append_right _ _ _ _ (by simp; omega)]
  rw [List.getD_eq_getElem?_getD, List.getElem?_replicate_of_lt (by simp; omega)]
  rfl

example : Verif.Spec.IsPermSeq 1 [1, 0] ∧
    2 ^ 1 ≤ ((Ico 0 3).filter fun u => (fun t : ℕ => if t = 1 ∨ t = 3 then (0:ℤ) else 1) u = 1).card ∧
    (fun t : ℕ => if t = 1 ∨ t = 3 then (0:ℤ) else 1) 3 ≠ 1 := by
  refine ⟨⟨rfl, fun v h0 h1 => by interval_cases v <;> rfl⟩, by decide, by decide⟩

/-! ## C34 -/

/-- The only parts of the kernel state that decide whether a call raises. -/
private theorem cor_step_ok (e : ℕ) (rng : List ℤ) (s : Cor) (i : ℤ × ℤ) (hl : s.cells.length = e) (r : ℤ)
    (h1 : rng[s.idx % e]? = some r) (h2 : r.toNat < e) :
    ∃ s' q, corStep e rng s i = .ok (s', q) ∧ s'.idx = s.idx + 1 ∧ s'.cells.length = e := by
  have hg : s.cells[r.toNat]? = some (s.cells[r.toNat]'(by omega)) := List.getElem?_eq_getElem _
  unfold corStep
  simp only [h1, hg]
  exact ⟨_, _, rfl, rfl, by simp [srShift_length, hl]⟩

private theorem uni_ok (dss e : ℕ) (rng : List ℤ) (sh : List ℕ) (s : Divider.St) (i : ℤ × ℤ)
    (hl : s.cor.cells.length = e) (r : ℤ) (h1 : rng[s.cor.idx % e]? = some r) (h2 : r.toNat < e) :
    ∃ s' q, uniStep dss e rng sh s i = .ok (s', q) ∧ s'.cor.idx = s.cor.idx + 1 ∧ s'.cor.cells.length = e := by
  obtain ⟨c, q, hc, h3, h4⟩ := cor_step_ok e rng s.cor (ssStep dss s.ss (sh, i)).2 hl r h1 h2
  refine ⟨{ s with ss := (ssStep dss s.ss (sh, i)).1, cor := c }, q, ?_, h3, h4⟩
  unfold uniStep
  show (corStep e rng s.cor (ssStep dss s.ss (sh, i)).2 >>= _) = _
  rw [hc]; rfl

theorem biStep_eq (dsa : ℤ) (dss e : ℕ) (rng : List ℤ) (sh : List ℕ) (s : Divider.St) (i : ℤ × ℤ) :
    biStep dsa dss e rng sh s i =
      (uniStep dss e rng sh
        { s with
          accDividend := (signAbsStep dsa s.accDividend i.1).1
          accDivisor := (signAbsStep dsa s.accDivisor i.2).1
          b2uDividend := (bi2uniStep 3 s.b2uDividend (signAbsStep dsa s.accDividend i.1).2.2).1
          b2uDivisor := (bi2uniStep 3 s.b2uDivisor (signAbsStep dsa s.accDivisor i.2).2.2).1 }
        ((bi2uniStep 3 s.b2uDividend (signAbsStep dsa s.accDividend i.1).2.2).2,
         (bi2uniStep 3 s.b2uDivisor (signAbsStep dsa s.accDivisor i.2).2.2).2)) >>= fun r =>
      pure ({ r.1 with u2b := (uni2biStep 4 r.1.u2b r.2).1 },
        Int.xor (Int.xor (signAbsStep dsa s.accDividend i.1).2.1 (signAbsStep dsa s.accDivisor i.2).2.1)
          (uni2biStep 4 r.1.u2b r.2).2) := by
  unfold biStep
  generalize signAbsStep dsa s.accDividend i.1 = p1
  obtain ⟨a1, sg1, ab1⟩ := p1
  generalize signAbsStep dsa s.accDivisor i.2 = p2
  obtain ⟨a2, sg2, ab2⟩ := p2
  simp only

theorem uniStep_eq (dss e : ℕ) (rng : List ℤ) (sh : List ℕ) (s : Divider.St) (i : ℤ × ℤ) :
    uniStep dss e rng sh s i = (corStep e rng s.cor (ssStep dss s.ss (sh, i)).2) >>= fun r =>
      pure ({ s with ss := (ssStep dss s.ss (sh, i)).1, cor := r.1 }, r.2) := rfl

private theorem step_ok (m : Mode) (dsa : ℤ) (dss e : ℕ) (rng : List ℤ) (sh : List ℕ) (s : Divider.St) (i : ℤ × ℤ)
    (hl : s.cor.cells.length = e) (r : ℤ) (h1 : rng[s.cor.idx % e]? = some r) (h2 : r.toNat < e) :
    ∃ s' q, Divider.step m dsa dss e rng sh s i = .ok (s', q) ∧ s'.cor.idx = s.cor.idx + 1 ∧
      s'.cor.cells.length = e := by
  cases m
  · exact uni_ok dss e rng sh s i hl r h1 h2
  · obtain ⟨s', q, hc, h3, h4⟩ := uni_ok dss e rng sh
      { s with
        accDividend := (signAbsStep dsa s.accDividend i.1).1
        accDivisor := (signAbsStep dsa s.accDivisor i.2).1
        b2uDividend := (bi2uniStep 3 s.b2uDividend (signAbsStep dsa s.accDividend i.1).2.2).1
        b2uDivisor := (bi2uniStep 3 s.b2uDivisor (signAbsStep dsa s.accDivisor i.2).2.2).1 }
      ((bi2uniStep 3 s.b2uDividend (signAbsStep dsa s.accDividend i.1).2.2).2,
       (bi2uniStep 3 s.b2uDivisor (signAbsStep dsa s.accDivisor i.2).2.2).2) hl r h1 h2
    refine ⟨{ s' with u2b := (uni2biStep 4 s'.u2b q).1 }, Int.xor (Int.xor (signAbsStep dsa s.accDividend i.1).2.1
      (signAbsStep dsa s.accDivisor i.2).2.1) (uni2biStep 4 s'.u2b q).2, ?_, h3, h4⟩
    show biStep dsa dss e rng sh s i = _
    rw [biStep_eq, hc]; rfl

private theorem step_fail (m : Mode) (dsa : ℤ) (dss e : ℕ) (rng : List ℤ) (sh : List ℕ) (s : Divider.St) (i : ℤ × ℤ)
    (h1 : rng[s.cor.idx % e]? = none) : Divider.step m dsa dss e rng sh s i = .error .index := by
  have hc : ∀ j, corStep e rng s.cor j = .error .index := by
    intro j; unfold corStep; simp only [h1]
  cases m
  · show uniStep dss e rng sh s i = _
    rw [uniStep_eq, hc]; rfl
  · show biStep dsa dss e rng sh s i = _
    rw [biStep_eq, uniStep_eq, hc]; rfl

/-- C34: kernel and divider work for the first `2^k` calls if the entry count is at least
`2^k`, the length of the number sequence. -/
theorem C34_initial_calls (m : Mode) (dsa : ℤ) (dss e k : ℕ) (hk : 2 ^ k ≤ e) (rng : List ℤ)
    (h : Verif.Spec.IsPermSeq (k) rng) (sh : List ℕ) (i : ℕ → ℤ × ℤ) (t : ℕ) (ht : t < 2 ^ k) :
    (∃ q, corOut e rng (fun t => (i t).1) (fun t => (i t).2) t = .ok q) ∧
    (∃ q, outAtE (Divider.step m dsa dss e rng sh) (Divider.init dsa e) i t = .ok q) := by
  have he : 0 < e := lt_of_lt_of_le (by positivity) hk
  have hr := readable_pow h e (2 ^ k) hk (fun t ht => by rw [Nat.mod_eq_of_lt (by omega)]; exact ht)
  refine ⟨?_, ?_⟩
  · obtain ⟨r, -, -, h3⟩ := cor_out e he rng _ hr (fun t => (i t).1) (fun t => (i t).2) t ht
    exact ⟨_, h3⟩
  · have key : ∀ n ≤ 2 ^ k, ∃ s, stateAtE (Divider.step m dsa dss e rng sh) (Divider.init dsa e) i n = .ok s ∧
        s.cor.idx = n ∧ s.cor.cells.length = e := by
      intro n
      induction n with
      | zero => exact fun _ => ⟨_, rfl, rfl, by simp [Divider.init, corInit, srInit]⟩
      | succ n ih =>
          intro hn
          obtain ⟨s, hs, h1, h2⟩ := ih (by omega)
          obtain ⟨r, hr1, hr2⟩ := hr n (by omega)
          obtain ⟨s', q, hs', h3, h4⟩ := step_ok m dsa dss e rng sh s (i n) h2 r (by rw [h1]; exact hr1) hr2
          exact ⟨s', stateAtE_succ_ok hs hs', by rw [h3, h1], h4⟩
    obtain ⟨s, hs, h1, h2⟩ := key t (by omega)
    obtain ⟨r, hr1, hr2⟩ := hr t ht
    obtain ⟨s', q, hs', -, -⟩ := step_ok m dsa dss e rng sh s (i t) h2 r (by rw [h1]; exact hr1) hr2
    exact ⟨q, outAtE_ok hs hs'⟩

/-- C34: for an entry count that is not a power of two call number `2^k` raises, `k` the
logarithm of the entry count rounded down. -/
theorem C34_fails (m : Mode) (dsa : ℤ) (dss e k : ℕ) (hne : 2 ^ k < e) (rng : List ℤ)
    (h : Verif.Spec.IsPermSeq (k) rng) (sh : List ℕ) (i : ℕ → ℤ × ℤ) :
    corOut e rng (fun t => (i t).1) (fun t => (i t).2) (2 ^ k) = .error .index ∧
    outAtE (Divider.step m dsa dss e rng sh) (Divider.init dsa e) i (2 ^ k) = .error .index := by
  have he : 0 < e := lt_of_lt_of_le (by positivity) hne.le
  have hr := readable_pow h e (2 ^ k) hne.le (fun t ht => by rw [Nat.mod_eq_of_lt (by omega)]; exact ht)
  have hnone : rng[2 ^ k % e]? = none := by
    rw [Nat.mod_eq_of_lt (by omega), List.getElem?_eq_none]; rw [h.1]
  refine ⟨?_, ?_⟩
  · obtain ⟨q, hs⟩ := cor_state e he rng _ hr (fun t => (i t).1) (fun t => (i t).2) _ (le_refl _)
    apply outAtE_error hs
    unfold corStep; simp only [hnone]
  · have key : ∀ n ≤ 2 ^ k, ∃ s, stateAtE (Divider.step m dsa dss e rng sh) (Divider.init dsa e) i n = .ok s ∧
        s.cor.idx = n ∧ s.cor.cells.length = e := by
      intro n
      induction n with
      | zero => exact fun _ => ⟨_, rfl, rfl, by simp [Divider.init, corInit, srInit]⟩
      | succ n ih =>
          intro hn
          obtain ⟨s, hs, h1, h2⟩ := ih (by omega)
          obtain ⟨r, hr1, hr2⟩ := hr n (by omega)
          obtain ⟨s', q, hs', h3, h4⟩ := step_ok m dsa dss e rng sh s (i n) h2 r (by rw [h1]; exact hr1) hr2
          exact ⟨s', stateAtE_succ_ok hs hs', by rw [h3, h1], h4⟩
    obtain ⟨s, hs, h1, h2⟩ := key _ (le_refl _)
    apply outAtE_error hs
    exact step_fail m dsa dss e rng sh s _ (by rw [h1]; exact hnone)


/-! ## C35 -/

/-- Output of call `t` of a fresh divider fed with tensors of one shape. -/
def divOut (m : Mode) (dsa : ℤ) (dss e : ℕ) (rng : List ℤ) (sh : List ℕ) (x y : ℕ → ℤ) (t : ℕ) : Except PyErr ℤ :=
  outAtE (Divider.step m dsa dss e rng sh) (Divider.init dsa e) (fun t => (x t, y t)) t

/-- The unipolar divider is the kernel behind the synchroniser. -/
theorem C35_composition {w : ℕ} {rng : List ℤ} (h : Verif.Spec.IsPermSeq w rng) (dsa : ℤ) (dss : ℕ) (sh : List ℕ)
    (x y : ℕ → ℤ) (t : ℕ) :
    divOut .unipolar dsa dss (2 ^ w) rng sh x y t = corOut (2 ^ w) rng (ssOut dss sh x y) y t := by
  have hp := Nat.two_pow_pos w
  have hr := fun N => readable_pow h (2 ^ w) N (le_refl _) (fun t _ => Nat.mod_lt _ hp)
  have key : ∀ n, ∃ c, stateAtE (corStep (2 ^ w) rng) (corInit (2 ^ w)) (fun t => (ssOut dss sh x y t, y t)) n = .ok c ∧
      stateAtE (Divider.step .unipolar dsa dss (2 ^ w) rng sh) (Divider.init dsa (2 ^ w)) (fun t => (x t, y t)) n
        = .ok { Divider.init dsa (2 ^ w) with ss := stateAt (ssStep dss) ssInit (fun t => (sh, x t, y t)) n, cor := c } := by
    intro n
    induction n with
    | zero => exact ⟨_, rfl, rfl⟩
    | succ n ih =>
        obtain ⟨c, h1, h2⟩ := ih
        obtain ⟨hq, hs⟩ := cor_state (2 ^ w) hp rng (n + 1) (hr _) (ssOut dss sh x y) y (n + 1) (le_refl _)
        cases hc : corStep (2 ^ w) rng c (ssOut dss sh x y n, y n) with
        | error e =>
            exfalso
            have : stateAtE (corStep (2 ^ w) rng) (corInit (2 ^ w)) (fun t => (ssOut dss sh x y t, y t)) (n + 1)
                = .error e := by
              simp only [stateAtE]; rw [h1]
              show (corStep (2 ^ w) rng c (ssOut dss sh x y n, y n) >>= _) = _
              rw [hc]; rfl
            rw [this] at hs; cases hs
        | ok p =>
            obtain ⟨c', q⟩ := p
            refine ⟨c', stateAtE_succ_ok h1 hc, stateAtE_succ_ok (o := q) h2 ?_⟩
            show uniStep dss (2 ^ w) rng sh _ _ = _
            unfold uniStep
            show (corStep (2 ^ w) rng c (ssOut dss sh x y n, y n) >>= _) = _
            rw [hc]; rfl
  obtain ⟨c, h1, h2⟩ := key t
  unfold divOut corOut outAtE
  rw [h1, h2]
  show (uniStep dss (2 ^ w) rng sh _ _ >>= _) = (corStep (2 ^ w) rng c (ssOut dss sh x y t, y t) >>= _)
  unfold uniStep
  show ((corStep (2 ^ w) rng c (ssOut dss sh x y t, y t) >>= _) >>= _) = _
  cases corStep (2 ^ w) rng c (ssOut dss sh x y t, y t) <;> rfl

/-- The synchroniser passes a stream that never runs ahead of its partner. -/
theorem ss_pass (dss : ℕ) (sh : List ℕ) (x y : ℕ → ℤ) (hx : Verif.Spec.BitStream x)
    (h : ∀ t, x t = 1 → y t = 1) (t : ℕ) : ssOut dss sh x y t = x t := by
  have hs : ∀ n, (stateAt (ssStep dss) ssInit (fun t => (sh, x t, y t)) n).cnt = 0 := by
    intro n
    induction n with
    | zero => rfl
    | succ n ih =>
        rw [stateAt_succ]
        simp only [ssStep]
        rw [ih, ite_self]
        have hp : (0:ℤ) < 2 ^ dss := by positivity
        rcases hx n with h0 | h1
        · apply clamp_of_le (by omega)
          rw [h0]; have := isBit_ind (0 + y n = 1); rcases this with h | h <;> rw [h] <;> norm_num
        · rw [h1, h n h1, ind_false (by norm_num)]
          exact clamp_of_mem (by norm_num) (by omega)
  unfold ssOut outAt
  simp only [ssStep]
  rw [hs, ite_self, ind_false (show ¬ ((0:ℤ) ≠ 0) by simp)]
  rcases hx t with h0 | h1
  · simp [h0]
  · simp [h1, h t h1, ind]

/-- C35: dividing by the constant-one stream returns the dividend. -/
theorem C35_by_one {w : ℕ} {rng : List ℤ} (h : Verif.Spec.IsPermSeq w rng) (dsa : ℤ) (dss : ℕ) (sh : List ℕ)
    {x : ℕ → ℤ} (hx : Verif.Spec.BitStream x) (t : ℕ) :
    divOut .unipolar dsa dss (2 ^ w) rng sh x (fun _ => 1) t = .ok (x t) := by
  rw [C35_composition h]
  obtain ⟨r, -, -, h3⟩ := C33_quotient h (ssOut dss sh x fun _ => 1) (fun _ => 1) t
  rw [h3, if_pos rfl, ss_pass dss sh x _ hx (fun _ _ => rfl)]

/-- C35: a stream divided by itself gives ones once `2^w` ones have passed. -/
theorem C35_self {w : ℕ} {rng : List ℤ} (h : Verif.Spec.IsPermSeq w rng) (dsa : ℤ) (dss : ℕ) (sh : List ℕ)
    {x : ℕ → ℤ} (hx : Verif.Spec.BitStream x) (t : ℕ) (ht : 2 ^ w ≤ Verif.Spec.ones x t ∨ x t = 1) :
    divOut .unipolar dsa dss (2 ^ w) rng sh x x t = .ok 1 := by
  rw [C35_composition h]
  have hss : ssOut dss sh x x = x := funext fun t => ss_pass dss sh x x hx (fun _ h => h) t
  rw [hss]
  by_cases hy : x t = 1
  · obtain ⟨r, -, -, h3⟩ := C33_quotient h x x t
    rw [h3, if_pos hy, hy]
  · apply C33_settled h x x 1 0 t (Nat.zero_le _) (fun _ _ _ h => h) _ hy
    have h1 := ht.resolve_right hy
    have : Verif.Spec.ones x t = ((Ico 0 t).filter fun u => x u = 1).card := by
      unfold Verif.Spec.ones
      rw [Finset.card_filter, ← Finset.range_eq_Ico]
      push_cast
      apply sum_congr rfl
      intro u _
      rcases hx u with h | h <;> simp [h]
    rw [this] at h1; exact_mod_cast h1

/-- C35: the zero stream divided by anything gives zeros once `2^w` divisor ones have passed. -/
theorem C35_zero {w : ℕ} {rng : List ℤ} (h : Verif.Spec.IsPermSeq w rng) (dsa : ℤ) (dss : ℕ) (sh : List ℕ)
    {y : ℕ → ℤ} (hy : Verif.Spec.BitStream y) (t : ℕ) (ht : 2 ^ w ≤ Verif.Spec.ones y t ∨ y t = 1) :
    divOut .unipolar dsa dss (2 ^ w) rng sh (fun _ => 0) y t = .ok 0 := by
  rw [C35_composition h]
  have hss : ssOut dss sh (fun _ => 0) y = fun _ => 0 :=
    funext fun t => ss_pass dss sh (fun _ => 0) y (fun _ => Or.inl rfl) (fun _ h => by simp at h) t
  rw [hss]
  by_cases hy1 : y t = 1
  · obtain ⟨r, -, -, h3⟩ := C33_quotient h (fun _ => 0) y t
    rw [h3, if_pos hy1]
  · apply C33_settled h (fun _ => 0) y 0 0 t (Nat.zero_le _) (fun _ _ _ _ => rfl) _ hy1
    have h1 := ht.resolve_right hy1
    have : Verif.Spec.ones y t = ((Ico 0 t).filter fun u => y u = 1).card := by
      unfold Verif.Spec.ones
      rw [Finset.card_filter, ← Finset.range_eq_Ico]
      push_cast
      apply sum_congr rfl
      intro u _
      rcases hy u with h | h <;> simp [h]
    rw [this] at h1; exact_mod_cast h1

private theorem xor_bit {a b : ℤ} (ha : IsBit a) (hb : IsBit b) : IsBit (Int.xor a b) := by
  rcases ha with h | h <;> rcases hb with h' | h' <;> subst h <;> subst h'
  · exact Or.inl (by decide)
  · exact Or.inr (by decide)
  · exact Or.inr (by decide)
  · exact Or.inl (by decide)

private theorem ss_bit (dss : ℕ) (s : SS) (sh : List ℕ) (a b : ℤ) (ha : IsBit a) : IsBit (ssStep dss s (sh, a, b)).2.1 := by
  simp only [ssStep]
  generalize (if s.shape ≠ sh then (0:ℤ) else s.cnt) = c
  rcases isBit_ind (a + b = 1) with h | h <;> rw [h]
  · simpa using ha
  · rcases ha with h0 | h0 <;> rw [h0]
    · simpa using isBit_ind (c ≠ 0)
    · rcases isBit_ind (c ≠ 2 ^ dss - 1) with h | h <;> rw [h] <;> simp [IsBit]

/-- One kernel call on bits, from a register of bits. -/
theorem cor_step_bits {w : ℕ} {rng : List ℤ} (h : Verif.Spec.IsPermSeq w rng) (n : ℕ) (c : Cor) (i : ℤ × ℤ)
    (h1 : c.idx = n) (h2 : c.cells.length = 2 ^ w) (h3 : ∀ b ∈ c.cells, IsBit b) (h4 : IsBit i.1) :
    ∃ c' q, corStep (2 ^ w) rng c i = .ok (c', q) ∧ c'.idx = n + 1 ∧ c'.cells.length = 2 ^ w ∧
      (∀ b ∈ c'.cells, IsBit b) ∧ IsBit q ∧ (i.2 = 1 → q = i.1) := by
  have hp := Nat.two_pow_pos w
  have hr := fun N => readable_pow h (2 ^ w) N (le_refl _) (fun t _ => Nat.mod_lt _ hp)
  obtain ⟨r, hr1, hr2⟩ := hr (n + 1) n (by omega)
  have hg : c.cells[r.toNat]? = some (c.cells[r.toNat]'(by omega)) := List.getElem?_eq_getElem _
  have hq : IsBit (ind (i.2 = 1) * i.1 + (1 - ind (i.2 = 1)) * c.cells[r.toNat]'(by omega)) := by
    rcases isBit_ind (i.2 = 1) with h | h <;> rw [h]
    · simpa using h3 _ (List.getElem_mem _)
    · simpa using h4
  refine ⟨⟨srShift c.cells (ind (i.2 = 1) * i.1 + (1 - ind (i.2 = 1)) * c.cells[r.toNat]'(by omega))
      (some (ind (i.2 = 1))), n + 1, c.cells[r.toNat]'(by omega)⟩, _, ?_, rfl, ?_, ?_, hq, fun h => by rw [ind_true h]; ring⟩
  · unfold corStep; rw [h1]; simp only [hr1, hg]
  · simp [srShift_length, h2]
  · intro b hb
    have hne : c.cells ≠ [] := by intro h; rw [h] at h2; simp at h2; omega
    simp only at hb
    rcases isBit_ind (i.2 = 1) with h | h
    · rw [h, srShift_zero] at hb; exact h3 b hb
    · rw [h, srShift_one, srShift_none _ hne] at hb
      rcases List.mem_append.1 hb with hb | hb
      · exact h3 b (List.mem_of_mem_drop hb)
      · rw [List.mem_singleton] at hb; rw [hb]; rw [h] at hq; exact hq

/-- C35: the divider never fails and its outputs are bits, in both modes. -/
theorem C35_bits {w : ℕ} {rng : List ℤ} (h : Verif.Spec.IsPermSeq w rng) (m : Mode) (dsa : ℤ) (dss : ℕ) (sh : List ℕ)
    {x y : ℕ → ℤ} (hx : Verif.Spec.BitStream x) (t : ℕ) :
    ∃ q, divOut m dsa dss (2 ^ w) rng sh x y t = .ok q ∧ IsBit q := by
  have cor := fun n c i h1 h2 h3 h4 => cor_step_bits h n c i h1 h2 h3 h4
  have stp : ∀ (n : ℕ) (s : Divider.St), s.cor.idx = n → s.cor.cells.length = 2 ^ w → (∀ b ∈ s.cor.cells, IsBit b) →
      ∃ s' q, Divider.step m dsa dss (2 ^ w) rng sh s (x n, y n) = .ok (s', q) ∧ s'.cor.idx = n + 1 ∧
        s'.cor.cells.length = 2 ^ w ∧ (∀ b ∈ s'.cor.cells, IsBit b) ∧ IsBit q := by
    intro n s h1 h2 h3
    cases m
    · obtain ⟨c', q, e, f1, f2, f3, f4, -⟩ := cor n s.cor (ssStep dss s.ss (sh, x n, y n)).2 h1 h2 h3 (ss_bit dss _ _ _ _ (hx n))
      refine ⟨{ s with ss := (ssStep dss s.ss (sh, x n, y n)).1, cor := c' }, q, ?_, f1, f2, f3, f4⟩
      show uniStep dss (2 ^ w) rng sh s (x n, y n) = _
      rw [uniStep_eq, e]; rfl
    · set u1 := (bi2uniStep 3 s.b2uDividend (signAbsStep dsa s.accDividend (x n)).2.2).2 with hu1
      set u2 := (bi2uniStep 3 s.b2uDivisor (signAbsStep dsa s.accDivisor (y n)).2.2).2 with hu2
      have hb1 : IsBit u1 := isBit_ind _
      obtain ⟨c', q, e, f1, f2, f3, f4, -⟩ := cor n s.cor (ssStep dss s.ss (sh, u1, u2)).2 h1 h2 h3 (ss_bit dss _ _ _ _ hb1)
      refine ⟨{ s with
          accDividend := (signAbsStep dsa s.accDividend (x n)).1
          accDivisor := (signAbsStep dsa s.accDivisor (y n)).1
          b2uDividend := (bi2uniStep 3 s.b2uDividend (signAbsStep dsa s.accDividend (x n)).2.2).1
          b2uDivisor := (bi2uniStep 3 s.b2uDivisor (signAbsStep dsa s.accDivisor (y n)).2.2).1
          ss := (ssStep dss s.ss (sh, u1, u2)).1
          cor := c'
          u2b := (uni2biStep 4 s.u2b q).1 },
        Int.xor (Int.xor (signAbsStep dsa s.accDividend (x n)).2.1 (signAbsStep dsa s.accDivisor (y n)).2.1)
          (uni2biStep 4 s.u2b q).2, ?_, f1, f2, f3, xor_bit (xor_bit (isBit_ind _) (isBit_ind _)) (isBit_ind _)⟩
      show biStep dsa dss (2 ^ w) rng sh s (x n, y n) = _
      rw [biStep_eq, uniStep_eq, e]; rfl
  have key : ∀ n, ∃ s, stateAtE (Divider.step m dsa dss (2 ^ w) rng sh) (Divider.init dsa (2 ^ w)) (fun t => (x t, y t)) n
      = .ok s ∧ s.cor.idx = n ∧ s.cor.cells.length = 2 ^ w ∧ (∀ b ∈ s.cor.cells, IsBit b) := by
    intro n
    induction n with
    | zero =>
        refine ⟨_, rfl, rfl, by simp [Divider.init, corInit, srInit], ?_⟩
        intro b hb
        obtain ⟨k, -, rfl⟩ := List.mem_map.1 hb
        rcases Nat.mod_two_eq_zero_or_one k with h | h <;> rw [h]
        · exact Or.inl rfl
        · exact Or.inr rfl
    | succ n ih =>
        obtain ⟨s, hs, h1, h2, h3⟩ := ih
        obtain ⟨s', q, e, f1, f2, f3, -⟩ := stp n s h1 h2 h3
        exact ⟨s', stateAtE_succ_ok hs e, f1, f2, f3⟩
  obtain ⟨s, hs, h1, h2, h3⟩ := key t
  obtain ⟨s', q, e, -, -, -, f4⟩ := stp t s h1 h2 h3
  exact ⟨q, outAtE_ok hs e, f4⟩

example : 2 ^ 1 ≤ Verif.Spec.ones (fun t => ((t % 2 : ℕ) : ℤ)) 4 := by decide

/-- C34, from the constructor: any entry count of at least one is accepted, and with a rate or temporal coded
sequence the divider (in both modes) works for exactly `2^k` calls, `2^k` the largest power of two not above
the entry count; if the entry count is that power of two it never fails. -/
theorem C34_built (env : Gen.Env) (mode : String) (hmode : mode.toLower ∈ ["unipolar", "bipolar"]) (e k : ℕ)
    (hk : 2 ^ k ≤ e) (hk' : e < 2 ^ (k + 1)) (name : String)
    (hn : name.toLower ∈ ["race", "tc", "race10", "tc10"] ∨
      name.toLower ∈ ["sobol", "rc"] ∧ Gen.DirOK env.sobolM ∧ k ≤ env.maxbit) :
    ∃ m l, Divider.mk env mode e name = .ok (m, l) ∧ ∀ (dsa : ℤ) (dss : ℕ) (sh : List ℕ) (i : ℕ → ℤ × ℤ),
      (∀ t < 2 ^ k, ∃ q, outAtE (Divider.step m dsa dss e l sh) (Divider.init dsa e) i t = .ok q) ∧
      (2 ^ k ≠ e → outAtE (Divider.step m dsa dss e l sh) (Divider.init dsa e) i (2 ^ k) = .error .index) ∧
      (2 ^ k = e → Verif.Spec.BitStream (fun t => (i t).1) →
        ∀ t, ∃ q, outAtE (Divider.step m dsa dss e l sh) (Divider.init dsa e) i t = .ok q ∧ IsBit q) := by
  have he : 0 < e := lt_of_lt_of_le (by positivity) hk
  have hw : corWidth e = k := by
    unfold corWidth; exact (Nat.log2_eq_iff (by omega)).2 ⟨hk, hk'⟩
  obtain ⟨m, hm⟩ : ∃ m, parseMode mode = .ok m := by
    unfold parseMode
    simp only [List.mem_cons, List.not_mem_nil, or_false] at hmode
    rcases hmode with h | h <;> simp [h]
  obtain ⟨l, hl, hp⟩ : ∃ l, Gen.rng env k name = .ok l ∧ Verif.Spec.IsPermSeq k l := by
    rcases hn with h | ⟨h, h1, h2⟩
    · exact C02_temporal_perm env k name h
    · exact C02_sobol_perm env k name h h1 h2
  refine ⟨m, l, ?_, fun dsa dss sh i => ⟨fun t ht => ?_, fun hne => ?_, fun heq hx t => ?_⟩⟩
  · unfold Divider.mk corMk
    rw [hm, if_neg (by omega), hw, hl]; rfl
  · exact (C34_initial_calls m dsa dss e k hk l hp sh i t ht).2
  · exact (C34_fails m dsa dss e k (by omega) l hp sh i).2
  · subst heq
    exact C35_bits hp m dsa dss sh (y := fun t => (i t).2) hx t

/-- C34: unknown modes and an entry count of zero are refused. -/
theorem C34_refused (env : Gen.Env) (mode : String) (e : ℕ) (name : String) :
    (mode.toLower ∉ ["unipolar", "bipolar"] → Divider.mk env mode e name = .error .assertion) ∧
    (mode.toLower ∈ ["unipolar", "bipolar"] → Divider.mk env mode 0 name = .error .value) := by
  constructor
  · intro h
    simp only [List.mem_cons, List.not_mem_nil, or_false, not_or] at h
    unfold Divider.mk parseMode
    simp only [h.1, h.2, if_false]; rfl
  · intro h
    simp only [List.mem_cons, List.not_mem_nil, or_false] at h
    unfold Divider.mk parseMode
    rcases h with h | h <;> simp only [h] <;> rfl

example : ("Bipolar".toLower ∈ ["unipolar", "bipolar"]) ∧ 2 ^ 1 ≤ 3 ∧ 3 < 2 ^ (1 + 1) ∧ 2 ^ 1 ≠ 3 ∧
    "Sobol".toLower ∈ ["sobol", "rc"] := by decide +kernel

end Verif.Props
