import Verif.Props.Float

/-!
# Property C71: metrics in binary32
-/

namespace Verif.Props

open Verif Finset _root_.Verif.Float
open Verif.Spec (BitStream IsF32 ones)

/-- Counters of `ProgError` in binary32 after observing `x 0, …, x (n-1)`. -/
def peCount (x : ℕ → ℤ) : ℕ → ℚ × ℚ
  | 0 => (0, 0)
  | n + 1 => peMonitor (peCount x n) (x n)

/-- C71: the counters of `ProgError` (and of `Stability`, which embeds it) count correctly up to `2^24` and stay there. -/
theorem C71_counters (x : ℕ → ℤ) (hx : BitStream x) (n : ℕ) :
    peCount x n = (((min (ones x n) (2 ^ 24) : ℤ) : ℚ), ((min (n:ℤ) (2 ^ 24) : ℤ) : ℚ)) := by
  induction n with
  | zero => simp [peCount]
  | succ n ih =>
      have h0 := Verif.Spec.ones_nonneg hx n
      rw [peCount, ih, Verif.Spec.ones_succ]
      unfold peMonitor fadd
      refine Prod.ext ?_ ?_
      · show fl (((min (ones x n) (2 ^ 24) : ℤ) : ℚ) + (x n : ℤ)) = _
        rcases hx n with h | h
        · rw [h]; push_cast
          rw [add_zero, add_zero]
          have := fl_int (n := min (ones x n) (2 ^ 24)) (by rw [abs_le]; omega)
          push_cast at this; exact this
        · rw [h]
          have := fl_count (min (ones x n) (2 ^ 24)) (by omega) (by omega)
          rw [Int.cast_one, this]
          have e : min (min (ones x n) (2 ^ 24) + 1) (2 ^ 24) = min (ones x n + 1) (2 ^ 24) := by omega
          rw [e]
      · show fl (((min (n:ℤ) (2 ^ 24) : ℤ) : ℚ) + 1) = _
        rw [fl_count (min (n:ℤ) (2 ^ 24)) (by omega) (by omega)]
        have e : min (min (n:ℤ) (2 ^ 24) + 1) (2 ^ 24) = min ((n + 1 : ℕ) : ℤ) (2 ^ 24) := by push_cast; omega
        rw [e]

/-- C71: up to `2^24` cycles the reported value is the value of the stream, correctly rounded (unipolar), within
`2^-24 + 2^-25` (bipolar). -/
theorem C71_value (x : ℕ → ℤ) (hx : BitStream x) (n : ℕ) (hn : 0 < n) (h : n ≤ 2 ^ 24) :
    peValue .unipolar (peCount x n) = fl (Verif.Spec.uniValue x n) ∧
    |peValue .unipolar (peCount x n) - Verif.Spec.uniValue x n| ≤ 1 / 2 ^ 25 ∧
    |peValue .bipolar (peCount x n) - Verif.Spec.biValue x n| ≤ 3 / 2 ^ 25 := by
  have h0 := Verif.Spec.ones_nonneg hx n
  have h1 := Verif.Spec.ones_le hx n
  have hc : peCount x n = ((ones x n : ℚ), (n : ℚ)) := by
    rw [C71_counters x hx n, min_eq_left (by omega), min_eq_left (by omega)]; push_cast; rfl
  have hnq : (0:ℚ) < n := by exact_mod_cast hn
  have p0 : (0:ℚ) ≤ Verif.Spec.uniValue x n := by
    unfold Verif.Spec.uniValue
    have : (0:ℚ) ≤ ones x n := by exact_mod_cast h0
    positivity
  have p1 : Verif.Spec.uniValue x n ≤ 1 := by
    unfold Verif.Spec.uniValue
    rw [div_le_one hnq]
    exact_mod_cast h1
  have hb : Verif.Spec.biValue x n = 2 * Verif.Spec.uniValue x n - 1 := rfl
  have e1 : peValue .unipolar (peCount x n) = fl (Verif.Spec.uniValue x n) := by rw [hc]; rfl
  have e2 : peValue .bipolar (peCount x n) = fl (fl (fl (Verif.Spec.uniValue x n) * 2) - 1) := by rw [hc]; rfl
  rw [hb, e2, e1]
  generalize Verif.Spec.uniValue x n = p at *
  have err : |fl p - p| ≤ 1 / 2 ^ 25 := by
    have := fl_error_of_le (x := p) (k := 0) (by norm_num) (by rw [abs_of_nonneg p0]; simpa using p1)
    norm_num at this ⊢; exact this
  refine ⟨rfl, err, ?_⟩
  have d : fl (fl p * 2) = fl p * 2 := by
    have := isF32_mul_pow (fl_isF32 p) 1
    rw [pow_one] at this
    exact fl_of_isF32 this
  rw [d]
  have q0 : 0 ≤ fl p := le_fl ⟨0, 0, by norm_num, by norm_num, by simp⟩ p0
  have q1 : fl p ≤ 1 := fl_le ⟨1, 0, by norm_num, by norm_num, by simp⟩ p1
  have err2 : |fl (fl p * 2 - 1) - (fl p * 2 - 1)| ≤ 1 / 2 ^ 25 := by
    have := fl_error_of_le (x := fl p * 2 - 1) (k := 0) (by norm_num) (by rw [abs_le]; constructor <;> norm_num <;> linarith)
    norm_num at this ⊢; exact this
  rw [abs_le] at *
  constructor <;> linarith [err.1, err.2, err2.1, err2.2]

example : peValue .unipolar (peCount (fun t => if t % 3 = 0 then 1 else 0) 3) = fl (1/3) := by
  rw [(C71_value _ (fun t => by by_cases h : t % 3 = 0 <;> simp [h, IsBit]) 3 (by norm_num) (by norm_num)).1]
  have h : ones (fun t => if t % 3 = 0 then 1 else 0) 3 = 1 := by decide
  unfold Verif.Spec.uniValue
  rw [h]; norm_num

/-- C71: once `2^24` ones have been seen, the stream is reported as constant one, whatever its value. -/
theorem C71_exhausted (x : ℕ → ℤ) (hx : BitStream x) (n : ℕ) (h : 2 ^ 24 ≤ ones x n) (m : Mode) :
    peValue m (peCount x n) = 1 := by
  have h1 := Verif.Spec.ones_le hx n
  have one : fl 1 = 1 := fl_of_isF32 ⟨1, 0, by norm_num, by norm_num, by simp⟩
  have two : fl 2 = 2 := fl_of_isF32 ⟨2, 0, by norm_num, by norm_num, by simp⟩
  rw [C71_counters x hx n, min_eq_right h, min_eq_right (by omega)]
  have q : fdiv (((2 ^ 24 : ℤ) : ℚ)) ((2 ^ 24 : ℤ) : ℚ) = 1 := by
    unfold fdiv; rw [div_self (by norm_num), one]
  cases m with
  | unipolar => exact q
  | bipolar =>
      show fsub (fmul (fdiv _ _) 2) 1 = 1
      rw [q]
      unfold fmul fsub
      rw [one_mul, two]; norm_num; exact one

private theorem alternating_ones (n : ℕ) : ones (fun t : ℕ => ((t % 2 : ℕ) : ℤ)) (2 * n) = n := by
  induction n with
  | zero => simp
  | succ n ih =>
      rw [show 2 * (n + 1) = 2 * n + 1 + 1 by ring, Verif.Spec.ones_succ, Verif.Spec.ones_succ, ih]
      have a : 2 * n % 2 = 0 := by omega
      have b : (2 * n + 1) % 2 = 1 := by omega
      simp [a, b]

/-- C71: so a stream of value one half is reported as one after `2^25` cycles. -/
theorem C71_exhausted_witness (n : ℕ) (h : 2 ^ 24 ≤ n) :
    let x : ℕ → ℤ := fun t => ((t % 2 : ℕ) : ℤ)
    Verif.Spec.uniValue x (2 * n) = 1/2 ∧ peValue .unipolar (peCount x (2 * n)) = 1 := by
  intro x
  have hx : BitStream x := fun t => by
    rcases Nat.mod_two_eq_zero_or_one t with h | h
    · left; show ((t % 2 : ℕ) : ℤ) = 0; rw [h]; rfl
    · right; show ((t % 2 : ℕ) : ℤ) = 1; rw [h]; rfl
  refine ⟨?_, C71_exhausted x hx _ ?_ _⟩
  · unfold Verif.Spec.uniValue
    rw [alternating_ones]
    have : (0:ℚ) < n := by
      have : 0 < n := by omega
      exact_mod_cast this
    push_cast; field_simp
  · rw [alternating_ones]; exact_mod_cast h

/-! ## Correlation -/

/-- `Correlation` in binary32 after a list of `Monitor` calls. -/
def corrRunF (l : List (ℚ × Option ℚ)) : Metric.Corr := l.foldl (fun s i => corrMonitor s i.1 i.2) Metric.Corr.init

/-- Natural-number counters summing to the length. -/
private def Counts (s : Metric.Corr) (n : ℕ) : Prop :=
  ∃ a b c d : ℕ, s.a = a ∧ s.b = b ∧ s.c = c ∧ s.d = d ∧ s.len = n ∧ a + b + c + d = n

private theorem fnat {x : ℚ} (n : ℕ) (hx : x = n) (h : n ≤ 2 ^ 24) : fl x = x := by
  rw [hx]
  have := fl_int (n := (n:ℤ)) (by rw [abs_le]; omega)
  exact_mod_cast this

private theorem corr_step (s : Metric.Corr) (n : ℕ) (hn : n < 2 ^ 24) (hs : Counts s n) (x : ℚ) (y : Option ℚ) :
    corrMonitor s x y = s.monitor x y ∧ Counts (s.monitor x y) (n + 1) := by
  obtain ⟨a, b, c, d, ha, hb, hc, hd, hl, hsum⟩ := hs
  have one : fl 1 = 1 := fl_of_isF32 ⟨1, 0, by norm_num, by norm_num, by simp⟩
  let z : ℚ := match y with | none => s.in1d | some y => y
  let f : ℚ := match y with | none => x | some _ => s.in1d
  have key : ∀ p q : Prop, ∀ [Decidable p] [Decidable q],
      fsub 1 (ind p : ℚ) = 1 - ind p ∧ fmul (ind p : ℚ) (ind q : ℚ) = ind p * ind q ∧
      fmul (ind p : ℚ) (1 - ind q : ℚ) = ind p * (1 - ind q) ∧ fmul (1 - ind p : ℚ) (ind q : ℚ) = (1 - ind p) * ind q ∧
      fmul (1 - ind p : ℚ) (1 - ind q : ℚ) = (1 - ind p) * (1 - ind q) := by
    intro p q _ _
    unfold fsub fmul
    by_cases hp : p <;> by_cases hq : q <;> simp [hp, hq, one]
  have k := key (x = 0) (z = 0)
  have k' := key (z = 0) (x = 0)
  have e : corrMonitor s x y =
      { d := fadd s.d (fmul (ind (x = 0)) (ind (z = 0))), c := fadd s.c (fmul (ind (x = 0)) (fsub 1 (ind (z = 0)))),
        b := fadd s.b (fmul (fsub 1 (ind (x = 0))) (ind (z = 0))),
        a := fadd s.a (fmul (fsub 1 (ind (x = 0))) (fsub 1 (ind (z = 0)))), len := fadd s.len 1, in1d := f } := rfl
  have e' : s.monitor x y =
      { d := s.d + (ind (x = 0) * ind (z = 0)), c := s.c + (ind (x = 0) * (1 - ind (z = 0))),
        b := s.b + ((1 - ind (x = 0)) * ind (z = 0)), a := s.a + ((1 - ind (x = 0)) * (1 - ind (z = 0))),
        len := s.len + 1, in1d := f } := rfl
  rw [k.1, k'.1, k.2.1, k.2.2.1, k.2.2.2.1, k.2.2.2.2] at e
  obtain ⟨u1, u2, u3, u4, h1, h2, h3, h4, hu⟩ : ∃ u1 u2 u3 u4 : ℕ, (ind (x = 0) * ind (z = 0) : ℚ) = u1 ∧
      (ind (x = 0) * (1 - ind (z = 0)) : ℚ) = u2 ∧ ((1 - ind (x = 0)) * ind (z = 0) : ℚ) = u3 ∧
      ((1 - ind (x = 0)) * (1 - ind (z = 0)) : ℚ) = u4 ∧ u4 + u3 + u2 + u1 = 1 := by
    by_cases hp : x = 0 <;> by_cases hq : z = 0
    · exact ⟨1, 0, 0, 0, by simp [hp, hq]⟩
    · exact ⟨0, 1, 0, 0, by simp [hp, hq]⟩
    · exact ⟨0, 0, 1, 0, by simp [hp, hq]⟩
    · exact ⟨0, 0, 0, 1, by simp [hp, hq]⟩
  rw [e, e', h1, h2, h3, h4, ha, hb, hc, hd, hl]
  unfold fadd
  rw [fnat (x := (a:ℚ) + u4) (a + u4) (by push_cast; ring) (by omega),
    fnat (x := (b:ℚ) + u3) (b + u3) (by push_cast; ring) (by omega),
    fnat (x := (c:ℚ) + u2) (c + u2) (by push_cast; ring) (by omega),
    fnat (x := (d:ℚ) + u1) (d + u1) (by push_cast; ring) (by omega),
    fnat (x := (n:ℚ) + 1) (n + 1) (by push_cast; ring) (by omega)]
  exact ⟨rfl, a + u4, b + u3, c + u2, d + u1, by push_cast; rfl, by push_cast; rfl, by push_cast; rfl, by push_cast; rfl,
    by push_cast; rfl, by omega⟩

private theorem corr_run (l : List (ℚ × Option ℚ)) (h : l.length ≤ 2 ^ 24) :
    corrRunF l = corrRun l ∧ Counts (corrRun l) l.length := by
  have key : ∀ (l : List (ℚ × Option ℚ)) (s : Metric.Corr) (n : ℕ), Counts s n → n + l.length ≤ 2 ^ 24 →
      l.foldl (fun s i => corrMonitor s i.1 i.2) s = l.foldl (fun s i => s.monitor i.1 i.2) s ∧
      Counts (l.foldl (fun s i => s.monitor i.1 i.2) s) (n + l.length) := by
    intro l
    induction l with
    | nil => intro s n hs _; exact ⟨rfl, hs⟩
    | cons p l ih =>
        intro s n hs hn
        rw [List.length_cons] at hn ⊢
        obtain ⟨e, hs'⟩ := corr_step s n (by omega) hs p.1 p.2
        rw [List.foldl_cons, List.foldl_cons, e]
        have := ih (s.monitor p.1 p.2) (n + 1) hs' (by omega)
        rw [show n + (l.length + 1) = n + 1 + l.length by ring]
        exact this
  have := key l Metric.Corr.init 0 ⟨0, 0, 0, 0, by simp [Metric.Corr.init]⟩ (by omega)
  rw [Nat.zero_add] at this
  exact this

/-- C71: up to 4096 cycles the reported correlation is that of exact arithmetic, rounded once. -/
theorem C71_correlation (l : List (ℚ × Option ℚ)) (h : l.length ≤ 4096) :
    corrForward (corrRunF l) = fl (corrRun l).forward := by
  obtain ⟨e, a, b, c, d, ha, hb, hc, hd, hl, hsum⟩ := corr_run l (by omega)
  rw [e]
  generalize corrRun l = s at *
  rw [← hsum] at h
  have prod : ∀ p q : ℕ, p ≤ a + b + c + d → q ≤ a + b + c + d → p * q ≤ 2 ^ 24 := by
    intro p q hp hq
    calc p * q ≤ 4096 * 4096 := Nat.mul_le_mul (by omega) (by omega)
      _ = _ := by norm_num
  have fi : ∀ (x : ℚ) (m : ℤ), x = m → -2 ^ 24 ≤ m → m ≤ 2 ^ 24 → fl x = x := by
    intro x m hx h1 h2
    rw [hx]; exact fl_int (by rw [abs_le]; omega)
  have p1 := prod a d (by omega) (by omega)
  have p2 := prod b c (by omega) (by omega)
  have p3 := prod (min (a + b) (a + c)) (a + b + c + d) (by omega) (by omega)
  have p4 := prod (a + b) (a + c) (by omega) (by omega)
  have p5 := prod (max ((a:ℤ) - d) 0).toNat (a + b + c + d) (by omega) (by omega)
  have hm5 : (((max ((a:ℤ) - d) 0).toNat : ℕ) : ℤ) = max ((a:ℤ) - d) 0 := by omega
  have q5 : max ((a:ℚ) - d) 0 = (((max ((a:ℤ) - d) 0).toNat : ℕ) : ℚ) := by
    have : (((max ((a:ℤ) - d) 0).toNat : ℕ) : ℚ) = ((((max ((a:ℤ) - d) 0).toNat : ℕ) : ℤ) : ℚ) := by push_cast; rfl
    rw [this, hm5]; push_cast; rfl
  have q3 : min ((a:ℚ) + b) (a + c) = ((min (a + b) (a + c) : ℕ) : ℚ) := by push_cast; rfl
  generalize hM : (max ((a:ℤ) - d) 0).toNat = M at *
  generalize hm : min (a + b) (a + c) = m at *
  have hlq : s.len = ((a + b + c + d : ℕ) : ℚ) := by rw [hl, hsum]
  have z := fl_zero
  have one : fl 1 = 1 := fl_of_isF32 ⟨1, 0, by norm_num, by norm_num, by simp⟩
  unfold corrForward Metric.Corr.forward
  dsimp only
  rw [ha, hb, hc, hd, hlq]
  generalize hn : a + b + c + d = n at *
  unfold fsub fmul fadd fdiv
  have e1 : fl ((a:ℚ) * d) = a * d := fi _ (a * d : ℕ) (by push_cast; ring) (by omega) (by omega)
  have e2 : fl ((b:ℚ) * c) = b * c := fi _ (b * c : ℕ) (by push_cast; ring) (by omega) (by omega)
  have e3 : fl ((a:ℚ) * d - b * c) = a * d - b * c :=
    fi _ ((a * d : ℕ) - (b * c : ℕ)) (by push_cast; ring) (by omega) (by omega)
  have e4 : fl ((a:ℚ) + b) = a + b := fi _ (a + b : ℕ) (by push_cast; ring) (by omega) (by omega)
  have e5 : fl ((a:ℚ) + c) = a + c := fi _ (a + c : ℕ) (by push_cast; ring) (by omega) (by omega)
  have e6 : fl ((a:ℚ) - d) = a - d := fi _ ((a:ℤ) - d) (by push_cast; ring) (by omega) (by omega)
  have e7 : fl ((m:ℚ) * n) = m * n := fi _ (m * n : ℕ) (by push_cast; ring) (by omega) (by omega)
  have e8 : fl (((a:ℚ) + b) * (a + c)) = (a + b) * (a + c) :=
    fi _ ((a + b) * (a + c) : ℕ) (by push_cast; ring) (by omega) (by omega)
  have e9 : fl ((M:ℚ) * n) = M * n := fi _ (M * n : ℕ) (by push_cast; ring) (by omega) (by omega)
  have e10 : fl ((m:ℚ) * n - (a + b) * (a + c)) = m * n - (a + b) * (a + c) :=
    fi _ ((m * n : ℕ) - ((a + b) * (a + c) : ℕ)) (by push_cast; ring) (by omega) (by omega)
  have e11 : fl (((a:ℚ) + b) * (a + c) - M * n) = (a + b) * (a + c) - M * n :=
    fi _ (((a + b) * (a + c) : ℕ) - (M * n : ℕ)) (by push_cast; ring) (by omega) (by omega)
  rw [e1, e2, e3, e4, e5, e6, q3, q5, e7, e8, e9, e10, e11]
  by_cases hp : (a:ℚ) * d - b * c > 0
  · rw [ind_true hp, sub_self, z]
    simp only [one_mul, zero_mul, z, add_zero, fl_idem]
  · rw [ind_false hp, sub_zero, one]
    simp only [one_mul, zero_mul, z, zero_add, fl_idem]

example : corrForward (corrRunF [(1, some 1), (0, some 0), (1, some 0), (0, some 1), (0, none)]) = fl (1/6) := by
  rw [C71_correlation _ (by decide)]
  norm_num [corrRun, Metric.Corr.monitor, Metric.Corr.init, Metric.Corr.forward, ind]

/-- C71: so for two-input use it is within `2^-25` of the correlation and stays in `[-1, 1]`. -/
theorem C71_correlation_error (l : List (ℚ × ℚ)) (h : l.length ≤ 4096) :
    let v := corrForward (corrRunF (l.map fun p => (p.1, some p.2)))
    |v - (corrRun2 l).forward| ≤ 1 / 2 ^ 25 ∧ -1 ≤ v ∧ v ≤ 1 := by
  intro v
  have e : v = fl (corrRun2 l).forward := C71_correlation _ (by rw [List.length_map]; exact h)
  have hr := C14_range l
  rw [e]
  have one : IsF32 1 := ⟨1, 0, by norm_num, by norm_num, by simp⟩
  refine ⟨?_, le_fl (isF32_neg one) hr.1, fl_le one hr.2⟩
  have := fl_error_of_le (x := (corrRun2 l).forward) (k := 0) (by norm_num) (by rw [abs_le]; simpa using hr)
  norm_num at this ⊢; exact this

private theorem single_zero (k : ℕ) : let l : List (ℚ × ℚ) := List.replicate k (1, 1) ++ [(0, 0)]
    (corrRun2 l).a = k ∧ (corrRun2 l).b = 0 ∧ (corrRun2 l).c = 0 ∧ (corrRun2 l).d = 1 ∧ (corrRun2 l).len = k + 1 ∧
    (l.map fun p => (p.1, some p.2)).length = k + 1 := by
  intro l
  have hc := C14_counts l
  refine ⟨?_, ?_, ?_, ?_, ?_, ?_⟩
  · rw [hc.1]; simp [l, List.countP_append, List.countP_replicate]
  · rw [hc.2.1]; simp [l, List.countP_append, List.countP_replicate]
  · rw [hc.2.2.1]; simp [l, List.countP_append, List.countP_replicate]
  · rw [hc.2.2.2.1]; simp [l, List.countP_append, List.countP_replicate]
  · rw [hc.2.2.2.2.1]; simp [l]
  · simp [l]

/-- C71: beyond that the products round.  Two identical streams of 4098 bits with a single zero have correlation `1`, reported as
less. -/
theorem C71_correlation_witness :
    let l : List (ℚ × ℚ) := List.replicate 4097 (1, 1) ++ [(0, 0)]
    (corrRun2 l).forward = 1 ∧ corrForward (corrRunF (l.map fun p => (p.1, some p.2))) < 1 := by
  intro l
  obtain ⟨ha, hb, hcc, hd, hl, hlen⟩ := single_zero 4097
  have e := (corr_run (l.map fun p => (p.1, some p.2)) (by rw [hlen]; norm_num)).1
  rw [e]
  change (corrRun2 l).forward = 1 ∧ corrForward (corrRun2 l) < 1
  change (corrRun2 l).a = _ at ha
  change (corrRun2 l).b = _ at hb
  change (corrRun2 l).c = _ at hcc
  change (corrRun2 l).d = _ at hd
  change (corrRun2 l).len = _ at hl
  have hl : (corrRun2 l).len = 4098 := by rw [hl]; norm_num
  have ha : (corrRun2 l).a = 4097 := by rw [ha]; norm_num
  generalize corrRun2 l = s at *
  have one : fl 1 = 1 := fl_of_isF32 ⟨1, 0, by norm_num, by norm_num, by simp⟩
  refine ⟨?_, ?_⟩
  · unfold Metric.Corr.forward
    dsimp only
    rw [ha, hb, hcc, hd, hl]; norm_num [ind]
  · unfold corrForward
    dsimp only
    rw [ha, hb, hcc, hd, hl]
    unfold fsub fmul fadd fdiv
    have f1 : fl 4097 = 4097 := by simpa using fl_int (n := 4097) (by norm_num)
    have f2 : fl (4097 * 4098) = 4097 * 4098 := by
      rw [fl_eq 1 (by norm_num) (by norm_num [abs_of_pos]) (by norm_num [abs_of_pos])]; norm_num [roundHE]
    have f3 : fl (4097 * 4097) = 4097 * 4097 - 1 := by
      rw [fl_eq 1 (by norm_num) (by norm_num [abs_of_pos]) (by norm_num [abs_of_pos])]; norm_num [roundHE]
    have f4 : fl 4098 = 4098 := by simpa using fl_int (n := 4098) (by norm_num)
    have f5 : fl (4097 / 4098) < 1 := by
      rw [fl_eq (-24) (by norm_num) (by norm_num [abs_of_pos]) (by norm_num [abs_of_pos])]; norm_num [roundHE]
    have f6 : fl (4097 * 4098 - (4097 * 4097 - 1)) = 4098 := by
      rw [show (4097 * 4098 - (4097 * 4097 - 1) : ℚ) = 4098 by norm_num, f4]
    have g : (ind ((4097:ℚ) > 0) : ℚ) = 1 := ind_true (by norm_num)
    rw [mul_one, zero_mul, f1, fl_zero, sub_zero, f1, g, sub_self, fl_zero, add_zero, f1, min_self, f2, f3, f6]
    rw [zero_mul, fl_zero, one_mul, add_zero, fl_idem, max_eq_left (by norm_num), fl_idem]
    exact f5

end Verif.Props
