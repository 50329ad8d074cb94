import Verif.Props.Rate
import Verif.Props.Rnn

/-!
# Property C62: the stream cell computes the hard cell
-/

namespace Verif.Props

open Verif Finset Rnn Linear Gen

theorem rows_unique {B O : ℕ} {y : ℕ → Except PyErr (List (Fin O → ℤ))} {a b : Fin B → Fin O → ℕ → ℤ} (ha : Spec.Rows y a)
    (hb : Spec.Rows y b) : a = b := by
  funext i o t
  have h := ha t
  rw [hb t] at h
  exact (congrFun (congrFun (List.ofFn_injective (Except.ok.inj h)) i) o).symm

theorem tracks_weaken {x : ℕ → ℤ} {v ε K K' : ℚ} (h : Spec.Tracks x v ε K) (hK : K ≤ K') : Spec.Tracks x v ε K' :=
  fun m n => le_trans (h m n) (by linarith)

private theorem clip_one (V : ℚ) : max (-1) (min V 1) / 1 = hardtanh V := by
  unfold hardtanh clamp
  rw [div_one]
  rcases le_total V 1 with h | h
  · rw [min_eq_left h, max_comm]
    rw [min_eq_left (max_le h (by norm_num))]
  · rw [min_eq_right h, max_eq_right (by norm_num : (-1:ℚ) ≤ 1), min_eq_right (le_trans h (le_max_left _ _))]

/-- A non-scaled bipolar layer on inputs of steady values. -/
private theorem layer {B J O : ℕ} (hB : 0 < B) (env : Env) (mode : String) (width : ℕ) (name : String) (depth : ℤ)
    (hn : name.toLower ∈ ["sobol", "rc"]) (hdir : DirOK env.sobolM) (hw : width ≤ env.maxbit)
    (hmode : parseMode mode = .ok .bipolar)
    (we : Fin O → Fin J → ℚ) (hwe : ∀ o i, -1 ≤ we o i ∧ we o i ≤ 1) (bias : Bool) (be : Option (Fin O → ℚ))
    (hbe : ∀ v, be = some v → ∀ o, -1 ≤ v o ∧ v o ≤ 1) (m : PC J O × Adder.Cfg)
    (hm : mkLinear env mode width name depth (some 1) we bias be = .ok m)
    (x : Fin B → Fin J → ℕ → ℤ) (hx : ∀ b i, Verif.Spec.BitStream (x b i)) (out : Fin B → Fin O → ℕ → ℤ)
    (hout : Spec.Rows (linOut m x) out) (b : Fin B) (o : Fin O) (v K : Fin J → ℚ)
    (hv : ∀ i, Spec.Tracks (x b i) (v i) 0 (K i)) (C : ℚ)
    (hC : ∑ i, (K i + 8 * width) + (if bias then 4 * (width : ℚ) else 0) ≤ C) (hd : 2 + C / 2 ≤ (2:ℚ) ^ (depth - 2)) :
    Verif.Spec.BitStream (out b o) ∧
    Spec.Tracks (out b o) (hardtanh (Spec.linearMap .bipolar width (we o) bias ((be.getD fun _ => 0) o) v)) 0 (2 + 2 * C) := by
  obtain ⟨out', h1, h2⟩ := C61_linear hB env mode width name depth hn hdir hw hmode (some 1) we hwe bias be hbe m hm 1 rfl
    (by norm_num) x hx
  have e := rows_unique hout h1
  subst e
  obtain ⟨hbit, h3⟩ := h2 b o
  refine ⟨hbit, ?_⟩
  have hK : ∀ i, 0 ≤ K i := fun i => by have := hv i 0 0; simpa using this
  have hC' : ∑ i, (|Spec.quant .bipolar width (we o i)| * K i + 8 * width) + (if bias then 4 * (width : ℚ) else 0) ≤ C := by
    refine le_trans ?_ hC
    have : ∀ i ∈ univ, |Spec.quant .bipolar width (we o i)| * K i + 8 * (width:ℚ) ≤ K i + 8 * width := fun i _ => by
      have := mul_le_mul_of_nonneg_right (quant_range width (we o i) (hwe o i)) (hK i)
      linarith
    linarith [sum_le_sum this]
  have h4 := h3 v (fun _ => 0) K (fun _ => le_refl _) hv (by
    simp only [mul_one]; linarith)
  simp only [mul_zero, sum_const_zero, zero_div] at h4
  rw [clip_one] at h4
  simp only [div_one] at h4
  exact tracks_weaken h4 (by linarith)

namespace Spec

/-- Deviation of the sums that enter the forget gate layer, for inputs and state deviating by `K`. -/
def c1 (I H w : ℕ) (bias : Bool) (K : ℚ) : ℚ := (H + I) * (K + 8 * w) + if bias then 4 * (w:ℚ) else 0

/-- The same for the candidate layer. -/
def c2 (I H w : ℕ) (bias : Bool) (K : ℚ) : ℚ :=
  H * (c1 I H w bias K + 2 + 16 * w) + I * (K + 8 * w) + if bias then 4 * (w:ℚ) else 0

/-- The same for the output adder. -/
def c3 (I H w d : ℕ) (bias : Bool) (K : ℚ) : ℚ :=
  (2 + 2 * c2 I H w bias K) + (c1 I H w bias K + 2 + 8 * d + 2 * 2 ^ d) + (c1 I H w bias K + 2 + 8 * w)

/-- The parameters as stored. -/
def stored {I H : ℕ} (w : ℕ) (wf wn : Fin H → Fin (H + I) → ℚ) (bias : Bool) (bf bn : Option (Fin H → ℚ)) : Params ℚ I H where
  wf := fun o i => quant .bipolar w (wf o i)
  wn := fun o i => quant .bipolar w (wn o i)
  bf := if bias then bf.map fun v o => quant .bipolar w (v o) else none
  bn := if bias then bn.map fun v o => quant .bipolar w (v o) else none

end Spec

private theorem lin_map {J H : ℕ} (w : ℕ) (we : Fin H → Fin J → ℚ) (bias : Bool) (be : Option (Fin H → ℚ))
    (hbe : bias = true → be ≠ none) (v : Fin J → ℚ) (o : Fin H) :
    lin (fun o i => Spec.quant .bipolar w (we o i)) (if bias then be.map fun v o => Spec.quant .bipolar w (v o) else none) v o
      = Spec.linearMap .bipolar w (we o) bias ((be.getD fun _ => 0) o) v := by
  unfold lin Spec.linearMap
  cases bias with
  | false => simp
  | true =>
      cases be with
      | none => exact absurd rfl (hbe rfl)
      | some v => simp

/-- A built layer with biases has them. -/
private theorem bias_given {I O : ℕ} {env : Env} {mode : String} {width : ℕ} {name : String} {depth : ℤ}
    {scale : Option ℚ} {we : Fin O → Fin I → ℚ} {bias : Bool} {be : Option (Fin O → ℚ)} {m : PC I O × Adder.Cfg}
    (h : mkLinear env mode width name depth scale we bias be = .ok m) (hb : bias = true) : be ≠ none := by
  obtain ⟨hpc, -⟩ := mkLinear_ok h
  obtain ⟨mo, l, -, -, -, -, -, -, -, h8⟩ := mkPC_ok hpc
  obtain ⟨v, hv, -⟩ := h8 hb
  rw [hv]; simp

/-- C62: all streams of the cell have steady values, those of the hard cell with the stored parameters, if the inputs and the
state do and the accumulators are deep enough.  Only the product of the two streams has a slack per cycle. -/
theorem C62_rates {B I H : ℕ} (hB : 0 < B) {env : Env} {mode : String} {width d : ℕ} {name : String} {depth : ℤ}
    (hn : name.toLower ∈ ["sobol", "rc"]) (hdir : DirOK env.sobolM) (hw : width ≤ env.maxbit) (hwd : d ≤ env.maxbit)
    (hdep : 4 ≤ depth) {wf wn : Fin H → Fin (H + I) → ℚ} (hwf : ∀ o i, -1 ≤ wf o i ∧ wf o i ≤ 1) (hwn : ∀ o i, -1 ≤ wn o i ∧ wn o i ≤ 1)
    {bias : Bool} {bf bn : Option (Fin H → ℚ)} (hbf : ∀ v, bf = some v → ∀ o, -1 ≤ v o ∧ v o ≤ 1)
    (hbn : ∀ v, bn = some v → ∀ o, -1 ≤ v o ∧ v o ≤ 1) {hb : Fin B → Fin H → ℚ} (hhb : ∀ b o, -1 ≤ hb b o ∧ hb b o ≤ 1)
    {c : Fsu B I H} (hc : mkFsu env mode width d name depth wf wn bias bf bn (some hb) = .ok c)
    (x : Fin B → Fin I → ℕ → ℤ) (hx : Fin B → Fin H → ℕ → ℤ) (hxb : ∀ b i, Verif.Spec.BitStream (x b i))
    (hhx : ∀ b o, Verif.Spec.BitStream (hx b o)) (K : ℚ) (v : Fin B → Fin I → ℚ) (hv : ∀ b i, Spec.Tracks (x b i) (v b i) 0 K)
    (hvh : ∀ b o, Spec.Tracks (hx b o) (Spec.quant .bipolar width (hb b o)) 0 K)
    (hd3 : 2 + Spec.c3 I H width d bias K / 2 ≤ (2:ℚ) ^ (depth - 2)) :
    ∃ r : Spec.Streams B H,
      (∀ t, fsuOut c x hx t = .ok ⟨fun b o => r.fgIn b o t, fun b o => r.fg b o t, fun b o => r.fgHx b o t, fun b o => r.ng b o t,
        fun b o => r.fgNg b o t, fun b o => r.hy b o t⟩) ∧
      ∀ b o, let C1 := Spec.c1 I H width bias K
        let C2 := Spec.c2 I H width bias K
        let C3 := Spec.c3 I H width d bias K
        let h := hardCell (Spec.stored width wf wn bias bf bn) (v b) (fun o => Spec.quant .bipolar width (hb b o))
        Spec.Tracks (r.fgIn b o) (h.fgIn o) 0 (2 + 2 * C1) ∧ Spec.Tracks (r.fg b o) (h.fg o) 0 (C1 + 2) ∧
        Spec.Tracks (r.fgHx b o) (h.fgHx o) 0 (C1 + 2 + 8 * width) ∧ Spec.Tracks (r.ng b o) (h.ng o) 0 (2 + 2 * C2) ∧
        Spec.Tracks (r.fgNg b o) (h.fgNg o) ((2 + 2 * C2) / 2 ^ d) (C1 + 2 + 8 * d + 2 * 2 ^ d) ∧
        Spec.Tracks (r.hy b o) (h.hy o) ((2 + 2 * C2) / 2 ^ d) (2 + 2 * C3) := by
  obtain ⟨hmode, hb', l, ln, e, hl, hln, hf, hnn, hsg, hout, hmo, hhr, hbin, hngw, hngr⟩ := mkFsu_ok hc
  cases e
  obtain ⟨l', hl', hnet⟩ := C08_net env width name hn hdir hw
  rw [hl] at hl'; cases hl'
  obtain ⟨l', hl', hnetd⟩ := C08_net env d name hn hdir hwd
  rw [hln] at hl'; cases hl'
  obtain ⟨r, h1, h2, h3, h4⟩ := C56_run hB c x hx
  obtain ⟨gi, g, hg1, hg2⟩ := C56_gate hB hdep hc x hx
  have egi : ∀ b o, gi b o = r.fgIn b o := fun b o => by
    funext t
    obtain ⟨r', k1, k2⟩ := hg1 t
    rw [h1 t] at k1; cases k1
    exact ((k2 b o).1).symm
  have eg : ∀ b o, g b o = r.fg b o := fun b o => by
    funext t
    obtain ⟨r', k1, k2⟩ := hg1 t
    rw [h1 t] at k1; cases k1
    exact ((k2 b o).2).symm
  refine ⟨r, h1, fun b o => ?_⟩
  -- sizes of the constants
  have hwq : (0:ℚ) ≤ width := Nat.cast_nonneg _
  have hIq : (0:ℚ) ≤ I := Nat.cast_nonneg _
  have hHq : (0:ℚ) ≤ H := Nat.cast_nonneg _
  have hK0 : 0 ≤ K := by have := hvh b o 0 0; simpa using this
  have hbi : (0:ℚ) ≤ if bias then 4 * (width:ℚ) else 0 := by split_ifs <;> positivity
  have hC1 : 0 ≤ Spec.c1 I H width bias K := by
    unfold Spec.c1; have : 0 ≤ ((H:ℚ) + I) * (K + 8 * width) := by positivity
    linarith
  have hC2 : 0 ≤ Spec.c2 I H width bias K := by
    unfold Spec.c2
    have h1 : 0 ≤ (H:ℚ) * (Spec.c1 I H width bias K + 2 + 16 * width) := by positivity
    have h2 : 0 ≤ (I:ℚ) * (K + 8 * width) := by positivity
    linarith
  have hP : (0:ℚ) < 2 ^ d := by positivity
  have hdq : (0:ℚ) ≤ d := Nat.cast_nonneg _
  have hd1 : 2 + Spec.c1 I H width bias K / 2 ≤ (2:ℚ) ^ (depth - 2) := by
    have e : Spec.c3 I H width d bias K = (2 + 2 * Spec.c2 I H width bias K) + (Spec.c1 I H width bias K + 2 + 8 * d + 2 * 2 ^ d)
      + (Spec.c1 I H width bias K + 2 + 8 * width) := rfl
    rw [e] at hd3; linarith
  have hd2 : 2 + Spec.c2 I H width bias K / 2 ≤ (2:ℚ) ^ (depth - 2) := by
    have e : Spec.c3 I H width d bias K = (2 + 2 * Spec.c2 I H width bias K) + (Spec.c1 I H width bias K + 2 + 8 * d + 2 * 2 ^ d)
      + (Spec.c1 I H width bias K + 2 + 8 * width) := rfl
    rw [e] at hd3; linarith
  set C1 := Spec.c1 I H width bias K with hC1d
  set C2 := Spec.c2 I H width bias K with hC2d
  set p := Spec.stored width wf wn bias bf bn with hp
  set hq : Fin H → ℚ := fun o => Spec.quant .bipolar width (hb b o) with hhq
  -- the first layer
  have hbs : ∀ (y : Fin B → Fin H → ℕ → ℤ), (∀ b o, Verif.Spec.BitStream (y b o)) → ∀ b i, Verif.Spec.BitStream (Spec.beside y x b i) := by
    intro y hy b i
    unfold Spec.beside
    refine Fin.addCases (fun k => ?_) (fun k => ?_) i
    · rw [Fin.append_left]; exact hy b k
    · rw [Fin.append_right]; exact hxb b k
  have tr : ∀ (y : Fin B → Fin H → ℕ → ℤ) (u : Fin H → ℚ) (Ky : ℚ), (∀ o, Spec.Tracks (y b o) (u o) 0 Ky) → ∀ i,
      Spec.Tracks (Spec.beside y x b i) (Fin.append u (v b) i) 0 (Fin.append (fun _ : Fin H => Ky) (fun _ : Fin I => K) i) := by
    intro y u Ky hy i
    unfold Spec.beside
    refine Fin.addCases (fun k => ?_) (fun k => ?_) i
    · rw [Fin.append_left, Fin.append_left, Fin.append_left]; exact hy k
    · rw [Fin.append_right, Fin.append_right, Fin.append_right]; exact hv b k
  have ksum : ∀ Ky : ℚ, ∑ i, (Fin.append (fun _ : Fin H => Ky) (fun _ : Fin I => K) i + 8 * (width:ℚ))
      = H * (Ky + 8 * width) + I * (K + 8 * width) := by
    intro Ky
    rw [Fin.sum_univ_add]
    simp only [Fin.append_left, Fin.append_right, sum_const, card_univ, Fintype.card_fin, nsmul_eq_mul]
  have hfgIn : ∀ o, Verif.Spec.BitStream (r.fgIn b o) ∧ Spec.Tracks (r.fgIn b o) ((hardCell p (v b) hq).fgIn o) 0 (2 + 2 * C1) := by
    intro o
    have := layer hB env mode width name depth hn hdir hw hmode wf hwf bias bf hbf c.f hf _ (hbs hx hhx) r.fgIn h2 b o _ _
      (tr hx hq K (fun o => hvh b o)) C1 (by rw [ksum, hC1d]; unfold Spec.c1; linarith) hd1
    refine ⟨this.1, ?_⟩
    rw [← lin_map width wf bias bf (bias_given hf)] at this
    exact this.2
  have hlim : ∀ o, |(hardCell p (v b) hq).fgIn o| ≤ 1 := by
    intro o
    show |hardtanh _| ≤ 1
    unfold hardtanh clamp
    rw [abs_le]
    exact ⟨le_min (le_max_right _ _) (by norm_num), min_le_right _ _⟩
  -- the gate
  have hfg : ∀ o, Verif.Spec.BitStream (r.fg b o) ∧ Spec.Tracks (r.fg b o) ((hardCell p (v b) hq).fg o) 0 (C1 + 2) := by
    intro o
    refine ⟨fun t => by rw [(h4 b o).1]; exact C18_bit _ _ _, fun m n => ?_⟩
    have hv1 : (hardCell p (v b) hq).fg o = ((hardCell p (v b) hq).fgIn o + 1) / 2 := hardsigm_eq _ (hlim o)
    have k1 := (hfgIn o).2 m n
    have a1 := (hg2 b o (m + n)).1
    have a2 := (hg2 b o m).1
    rw [egi, eg] at a1 a2
    rw [bi_win] at k1 ⊢
    rw [hv1]
    have b1 : 2 * Verif.Spec.ones (r.fg b o) (m + n) ≤ Verif.Spec.ones (r.fgIn b o) (m + n) + (m + n) ∧
        Verif.Spec.ones (r.fgIn b o) (m + n) + (m + n) ≤ 2 * Verif.Spec.ones (r.fg b o) (m + n) + 1 := by
      push_cast at a1; omega
    have b2 : 2 * Verif.Spec.ones (r.fg b o) m ≤ Verif.Spec.ones (r.fgIn b o) m + m ∧
        Verif.Spec.ones (r.fgIn b o) m + m ≤ 2 * Verif.Spec.ones (r.fg b o) m + 1 := by
      omega
    have c1 : 2 * (Verif.Spec.ones (r.fg b o) (m + n) : ℚ) ≤ Verif.Spec.ones (r.fgIn b o) (m + n) + (m + n) := by exact_mod_cast b1.1
    have c2 : (Verif.Spec.ones (r.fgIn b o) (m + n) : ℚ) + (m + n) ≤ 2 * Verif.Spec.ones (r.fg b o) (m + n) + 1 := by exact_mod_cast b1.2
    have c3 : 2 * (Verif.Spec.ones (r.fg b o) m : ℚ) ≤ Verif.Spec.ones (r.fgIn b o) m + m := by exact_mod_cast b2.1
    have c4 : (Verif.Spec.ones (r.fgIn b o) m : ℚ) + m ≤ 2 * Verif.Spec.ones (r.fg b o) m + 1 := by exact_mod_cast b2.2
    rw [abs_le] at k1 ⊢
    constructor <;> linarith [k1.1, k1.2]
  -- gate times state
  have hfgHx : ∀ o, Verif.Spec.BitStream (r.fgHx b o) ∧ Spec.Tracks (r.fgHx b o) ((hardCell p (v b) hq).fgHx o) 0 (C1 + 2 + 8 * width) := by
    intro o
    have hr := C05_range .bipolar width (hb b o) (hhb b o)
    rw [(h4 b o).2.1, hmo, hhr, hbin]
    refine ⟨fun t => (C24_bits (hfg o).1 _ _ _ _ t).1, ?_⟩
    have := (C61_static hnet hr.1 hr.2 (hfg o).1 _ 0 (C1 + 2) c.ngWidth).2 (hfg o).2
    rw [mul_zero] at this
    refine tracks_weaken this ?_
    have h9 := mul_le_mul_of_nonneg_right (quant_range width (hb b o) (hhb b o)) (by linarith : 0 ≤ C1 + 2)
    unfold Spec.quant at h9
    linarith
  have hfgHxb : ∀ b o, Verif.Spec.BitStream (r.fgHx b o) := fun b o t => by
    rw [(h4 b o).2.1]
    exact (C24_bits (fun t => by rw [(h4 b o).1]; exact C18_bit _ _ _) _ _ _ _ t).1
  -- the candidate
  have hng : ∀ o, Verif.Spec.BitStream (r.ng b o) ∧ Spec.Tracks (r.ng b o) ((hardCell p (v b) hq).ng o) 0 (2 + 2 * C2) := by
    intro o
    have := layer hB env mode width name depth hn hdir hw hmode wn hwn bias bn hbn c.n hnn _ (hbs r.fgHx hfgHxb) r.ng h3 b o _ _
      (tr r.fgHx (hardCell p (v b) hq).fgHx (C1 + 2 + 8 * width) (fun o => (hfgHx o).2)) C2
      (by rw [ksum, hC2d]; unfold Spec.c2; rw [← hC1d]; linarith) hd2
    refine ⟨this.1, ?_⟩
    rw [← lin_map width wn bias bn (bias_given hnn)] at this
    exact this.2
  have hnlim : |(hardCell p (v b) hq).ng o| ≤ 1 := by
    show |hardtanh _| ≤ 1
    unfold hardtanh clamp
    rw [abs_le]
    exact ⟨le_min (le_max_right _ _) (by norm_num), min_le_right _ _⟩
  -- gate times candidate
  have hfgNg : Spec.Tracks (r.fgNg b o) ((hardCell p (v b) hq).fgNg o) ((2 + 2 * C2) / 2 ^ d) (C1 + 2 + 8 * d + 2 * 2 ^ d) := by
    rw [(h4 b o).2.2.1, hmo, hngw, hngr]
    have := (C61_stream hnetd (hfg o).1 (hng o).1 _ _ 0 (C1 + 2) 0 (2 + 2 * C2)).2 (hfg o).2 (hng o).2
    rw [mul_zero, zero_add, zero_add] at this
    refine tracks_weaken this ?_
    have h9 := mul_le_mul_of_nonneg_right hnlim (by linarith : 0 ≤ C1 + 2)
    linarith
  refine ⟨(hfgIn o).2, (hfg o).2, (hfgHx o).2, (hng o).2, hfgNg, ?_⟩
  -- the output
  have e4 := (h4 b o).2.2.2
  set a : ℕ → Adder.Arg := fun t => { xs := [(r.ng b o t : ℚ), 1 - (r.fgNg b o t : ℚ), (r.fgHx b o t : ℚ)] } with ha
  have hen : Spec.addEntry c.out a = 3 := by simp [Spec.addEntry, hout, ha]
  have hsc : Spec.addScale c.out a = 1 := by simp [Spec.addScale, hout, ha]
  have hof : Spec.addOffset c.out a = 1 := by
    unfold Spec.addOffset; rw [hen, hsc, hout]; norm_num
  have hdepo : c.out.depth = depth := by rw [hout]
  have hε : 0 ≤ (2 + 2 * C2) / 2 ^ d := by positivity
  have hhy : (hardCell p (v b) hq).hy o = hardtanh ((hardCell p (v b) hq).ng o - (hardCell p (v b) hq).fgNg o + (hardCell p (v b) hq).fgHx o) := by
    show hardtanh _ = _
    congr 1
    show (hardCell p (v b) hq).ng o + (0 - (hardCell p (v b) hq).fgNg o) + (hardCell p (v b) hq).fgHx o = _
    ring
  rw [e4, hhy, ← clip_one]
  have e5 : (2 + 2 * Spec.c3 I H width d bias K) = 2 + 2 * Spec.c3 I H width d bias K / 1 := by rw [div_one]
  have e6 : (2 + 2 * C2) / 2 ^ d = (2 + 2 * C2) / 2 ^ d / 1 := by rw [div_one]
  show Spec.Tracks _ _ _ (2 + 2 * Spec.c3 I H width d bias K)
  rw [e5, e6]
  refine clip_bipolar c.out a (by norm_num) hsc hε (by rw [hdepo, mul_one]; exact hd3) fun k n => ?_
  have k1 := (hng o).2 k n
  have k2 := hfgNg k n
  have k3 := (hfgHx o).2 k n
  have hδ : ∑ t ∈ range n, Spec.addDelta c.out a (k + t) = (∑ t ∈ range n, (2 * (r.ng b o (k + t) : ℚ) - 1)
      - ∑ t ∈ range n, (2 * (r.fgNg b o (k + t) : ℚ) - 1) + ∑ t ∈ range n, (2 * (r.fgHx b o (k + t) : ℚ) - 1) + 1 * n) / 2 := by
    have : ∀ t, Spec.addDelta c.out a (k + t) = ((2 * (r.ng b o (k + t) : ℚ) - 1) - (2 * (r.fgNg b o (k + t) : ℚ) - 1)
        + (2 * (r.fgHx b o (k + t) : ℚ) - 1) + 1) / 2 := by
      intro t; unfold Spec.addDelta; rw [hof]; simp [ha]; ring
    simp only [this]
    rw [← sum_div, sum_add_distrib, sum_add_distrib, sum_sub_distrib]
    simp
  rw [hδ]
  simp only [] at k1 k2 k3
  generalize ∑ t ∈ range n, (2 * (r.ng b o (k + t) : ℚ) - 1) = A1 at *
  generalize ∑ t ∈ range n, (2 * (r.fgNg b o (k + t) : ℚ) - 1) = A2 at *
  generalize ∑ t ∈ range n, (2 * (r.fgHx b o (k + t) : ℚ) - 1) = A3 at *
  have e7 : Spec.c3 I H width d bias K = (2 + 2 * C2) + (C1 + 2 + 8 * d + 2 * 2 ^ d) + (C1 + 2 + 8 * width) := rfl
  rw [e7]
  rw [abs_le] at k1 k2 k3 ⊢
  constructor <;> linarith [k1.1, k1.2, k2.1, k2.2, k3.1, k3.2]

/-- C62: the value of the cell's output after any number of cycles is that of the hard cell with the stored parameters, up to
`(2 + 2 c2) / 2^d` and a constant over the number of cycles. -/
theorem C62_value {B I H : ℕ} (hB : 0 < B) {env : Env} {mode : String} {width d : ℕ} {name : String} {depth : ℤ}
    (hn : name.toLower ∈ ["sobol", "rc"]) (hdir : DirOK env.sobolM) (hw : width ≤ env.maxbit) (hwd : d ≤ env.maxbit)
    (hdep : 4 ≤ depth) {wf wn : Fin H → Fin (H + I) → ℚ} (hwf : ∀ o i, -1 ≤ wf o i ∧ wf o i ≤ 1) (hwn : ∀ o i, -1 ≤ wn o i ∧ wn o i ≤ 1)
    {bias : Bool} {bf bn : Option (Fin H → ℚ)} (hbf : ∀ v, bf = some v → ∀ o, -1 ≤ v o ∧ v o ≤ 1)
    (hbn : ∀ v, bn = some v → ∀ o, -1 ≤ v o ∧ v o ≤ 1) {hb : Fin B → Fin H → ℚ} (hhb : ∀ b o, -1 ≤ hb b o ∧ hb b o ≤ 1)
    {c : Fsu B I H} (hc : mkFsu env mode width d name depth wf wn bias bf bn (some hb) = .ok c)
    (x : Fin B → Fin I → ℕ → ℤ) (hx : Fin B → Fin H → ℕ → ℤ) (hxb : ∀ b i, Verif.Spec.BitStream (x b i))
    (hhx : ∀ b o, Verif.Spec.BitStream (hx b o)) (K : ℚ) (v : Fin B → Fin I → ℚ) (hv : ∀ b i, Spec.Tracks (x b i) (v b i) 0 K)
    (hvh : ∀ b o, Spec.Tracks (hx b o) (Spec.quant .bipolar width (hb b o)) 0 K)
    (hd3 : 2 + Spec.c3 I H width d bias K / 2 ≤ (2:ℚ) ^ (depth - 2)) :
    ∃ hy : Fin B → Fin H → ℕ → ℤ, (∀ t, ∃ r, fsuOut c x hx t = .ok r ∧ ∀ b o, r.hy b o = hy b o t) ∧ ∀ b o n, 0 < n →
      |Verif.Spec.biValue (hy b o) n
        - (hardCell (Spec.stored width wf wn bias bf bn) (v b) (fun o => Spec.quant .bipolar width (hb b o))).hy o|
      ≤ (2 + 2 * Spec.c2 I H width bias K) / 2 ^ d + (2 + 2 * Spec.c3 I H width d bias K) / n := by
  obtain ⟨r, h1, h2⟩ := C62_rates hB hn hdir hw hwd hdep hwf hwn hbf hbn hhb hc x hx hxb hhx K v hv hvh hd3
  exact ⟨r.hy, fun t => ⟨_, h1 t, fun b o => rfl⟩, fun b o n hn => C60_bipolar_value (h2 b o).2.2.2.2.2 hn⟩

/-- C62: the hybrid cell.  What it returns is the hard cell's next state for the stored parameters, input and state, up to
`(2 + 2 c2) / 2^d + (2 + 2 c3) / 2^width`, where the constants are those of inputs deviating by `4 width`. -/
theorem C62_hybrid {B I H : ℕ} (hB : 0 < B) (env : Env) (mode : String) (width d : ℕ) (name : String) (depth : ℤ)
    (hn : name.toLower ∈ ["sobol", "rc"]) (hdir : DirOK env.sobolM) (hw : width ≤ env.maxbit) (hwd : d ≤ env.maxbit)
    (hdep : 4 ≤ depth) (wf wn : Fin H → Fin (H + I) → ℚ) (hwf : ∀ o i, -1 ≤ wf o i ∧ wf o i ≤ 1) (hwn : ∀ o i, -1 ≤ wn o i ∧ wn o i ≤ 1)
    (bias : Bool) (bf bn : Option (Fin H → ℚ)) (hbf : ∀ v, bf = some v → ∀ o, -1 ≤ v o ∧ v o ≤ 1)
    (hbn : ∀ v, bn = some v → ∀ o, -1 ≤ v o ∧ v o ≤ 1) (x : Fin B → Fin I → ℚ) (hxr : ∀ b i, -1 ≤ x b i ∧ x b i ≤ 1)
    (hx? : Option (Fin B → Fin H → ℚ)) (hx : Fin B → Fin H → ℚ) (hhx : hx = hx?.getD fun _ _ => 0)
    (hhr : ∀ b o, -1 ≤ hx b o ∧ hx b o ≤ 1) (c : Fsu B I H)
    (hc : mkFsu env mode width d name depth wf wn bias bf bn (some hx) = .ok c)
    (hd3 : 2 + Spec.c3 I H width d bias (4 * width) / 2 ≤ (2:ℚ) ^ (depth - 2)) :
    ∃ y : Fin B → Fin H → ℚ, hubMGU env mode width d name depth wf wn bias bf bn x hx? = .ok y ∧ ∀ b o,
      |y b o - (hardCell (Spec.stored width wf wn bias bf bn) (fun i => Spec.quant .bipolar width (x b i))
        (fun o => Spec.quant .bipolar width (hx b o))).hy o|
      ≤ (2 + 2 * Spec.c2 I H width bias (4 * width)) / 2 ^ d + (2 + 2 * Spec.c3 I H width d bias (4 * width)) / 2 ^ width := by
  obtain ⟨l, hl, hnet⟩ := C08_net env width name hn hdir hw
  obtain ⟨l', hl', hperm⟩ := C02_sobol_perm env width name hn hdir hw
  rw [hl] at hl'; cases hl'
  obtain ⟨y, hy, k1, k2, k3⟩ := C59_value hB env mode width d name depth wf wn bias bf bn x hx? hx hhx c hc l hl hperm
  have src : ∀ a : ℚ, -1 ≤ a ∧ a ≤ 1 → Spec.Tracks (Spec.coded width l a) (Spec.quant .bipolar width a) 0 (4 * width) := by
    intro a ha
    have hb := C05_range .bipolar width a ha
    exact (C61_source hnet hb.1 hb.2).2
  obtain ⟨hy', h1, h2⟩ := C62_value hB hn hdir hw hwd hdep hwf hwn hbf hbn hhr hc (fun b i => Spec.coded width l (x b i))
    (fun b o => Spec.coded width l (hx b o)) (fun b i t => bsGen_isBit _ _ _) (fun b o t => bsGen_isBit _ _ _) (4 * width)
    (fun b i => Spec.quant .bipolar width (x b i)) (fun b i => src _ (hxr b i)) (fun b o => src _ (hhr b o)) hd3
  refine ⟨y, k1, fun b o => ?_⟩
  have e : hy' b o = hy b o := by
    funext t
    obtain ⟨r, a1, a2⟩ := h1 t
    obtain ⟨r', b1, b2⟩ := k2 t
    rw [a1] at b1; cases b1
    rw [← a2 b o, ← b2 b o]
  have := h2 b o (2 ^ width) (by positivity)
  rw [e, ← (k3 b o).1] at this
  push_cast at this
  exact this

private theorem mul_near {a b a' b' da db : ℚ} (hb : |b'| ≤ 1) (ha : |a| ≤ 1) (h1 : |a' - a| ≤ da) (h2 : |b' - b| ≤ db) :
    |a' * b' - a * b| ≤ da + db := by
  have e : a' * b' - a * b = (a' - a) * b' + a * (b' - b) := by ring
  rw [e]
  refine le_trans (abs_add_le _ _) ?_
  rw [abs_mul, abs_mul]
  have k1 := mul_le_mul h1 hb (abs_nonneg _) (le_trans (abs_nonneg _) h1)
  have k2 := mul_le_mul ha h2 (abs_nonneg _) (by norm_num)
  linarith

private theorem hardtanh_near (a b : ℚ) : |hardtanh a - hardtanh b| ≤ |a - b| := by
  unfold hardtanh clamp
  refine le_trans (abs_min_sub_min_le_max _ _ _ _) ?_
  rw [sub_self, abs_zero, max_eq_left (abs_nonneg _)]
  refine le_trans (abs_max_sub_max_le_max _ _ _ _) ?_
  rw [sub_self, abs_zero, max_eq_left (abs_nonneg _)]

private theorem hardtanh_abs (a : ℚ) : |hardtanh a| ≤ 1 := by
  unfold hardtanh clamp
  rw [abs_le]
  exact ⟨le_min (le_max_right _ _) (by norm_num), min_le_right _ _⟩

private theorem lin_near {J H : ℕ} (w w' : Fin H → Fin J → ℚ) (b b' : Option (Fin H → ℚ)) (x x' : Fin J → ℚ) (o : Fin H) (η : ℚ)
    (δ : Fin J → ℚ) (hx : ∀ i, |x' i| ≤ 1) (hw : ∀ i, |w o i| ≤ 1) (hwn : ∀ i, |w' o i - w o i| ≤ η) (hxn : ∀ i, |x' i - x i| ≤ δ i)
    (hbn : |(b'.map fun v => v o).getD 0 - (b.map fun v => v o).getD 0| ≤ η) :
    |lin w' b' x' o - lin w b x o| ≤ ∑ i, (δ i + η) + η := by
  unfold lin
  have e : (∑ i, x' i * w' o i) + (b'.map fun v => v o).getD 0 - ((∑ i, x i * w o i) + (b.map fun v => v o).getD 0)
      = ∑ i, (w' o i * x' i - w o i * x i) + ((b'.map fun v => v o).getD 0 - (b.map fun v => v o).getD 0) := by
    rw [sum_sub_distrib]; simp only [mul_comm]; ring
  rw [e]
  refine le_trans (abs_add_le _ _) (add_le_add (le_trans (abs_sum_le_sum_abs _ _) (sum_le_sum fun i _ => ?_)) hbn)
  have := mul_near (hx i) (hw i) (hwn i) (hxn i)
  linarith

/-- C62: how far apart two hard cells are whose parameters, inputs and states differ by at most `η`. -/
theorem C62_sensitivity {I H : ℕ} (p p' : Params ℚ I H) (x x' : Fin I → ℚ) (h h' : Fin H → ℚ) (η : ℚ)
    (hwf : ∀ o i, |p.wf o i| ≤ 1) (hwn : ∀ o i, |p.wn o i| ≤ 1) (hx' : ∀ i, |x' i| ≤ 1) (hh' : ∀ o, |h' o| ≤ 1)
    (ewf : ∀ o i, |p'.wf o i - p.wf o i| ≤ η) (ewn : ∀ o i, |p'.wn o i - p.wn o i| ≤ η)
    (ebf : ∀ o, |(p'.bf.map fun v => v o).getD 0 - (p.bf.map fun v => v o).getD 0| ≤ η)
    (ebn : ∀ o, |(p'.bn.map fun v => v o).getD 0 - (p.bn.map fun v => v o).getD 0| ≤ η)
    (ex : ∀ i, |x' i - x i| ≤ η) (eh : ∀ o, |h' o - h o| ≤ η) (o : Fin H) :
    |(hardCell p' x' h').hy o - (hardCell p x h).hy o| ≤ (2 * H + 2) * ((H + I + 2) * (2 * η)) + 4 * (I + 1) * η := by
  have hη : 0 ≤ η := le_trans (abs_nonneg _) (eh o)
  have hIq : (0:ℚ) ≤ I := Nat.cast_nonneg _
  have hHq : (0:ℚ) ≤ H := Nat.cast_nonneg _
  set t := hardCell p x h with ht
  set t' := hardCell p' x' h' with ht'
  set D1 : ℚ := (2 * (H + I) + 1) * η with hD1
  have hD10 : 0 ≤ D1 := by positivity
  have app : ∀ (u u' : Fin H → ℚ) (δ : ℚ), (∀ o, |u' o - u o| ≤ δ) → ∀ i,
      |Fin.append u' x' i - Fin.append u x i| ≤ Fin.append (fun _ : Fin H => δ) (fun _ : Fin I => η) i := by
    intro u u' δ hu i
    refine Fin.addCases (fun k => ?_) (fun k => ?_) i
    · simp only [Fin.append_left]; exact hu k
    · simp only [Fin.append_right]; exact ex k
  have app1 : ∀ (u' : Fin H → ℚ), (∀ o, |u' o| ≤ 1) → ∀ i, |Fin.append u' x' i| ≤ 1 := by
    intro u' hu i
    refine Fin.addCases (fun k => ?_) (fun k => ?_) i
    · simp only [Fin.append_left]; exact hu k
    · simp only [Fin.append_right]; exact hx' k
  have appS : ∀ δ : ℚ, ∑ i, (Fin.append (fun _ : Fin H => δ) (fun _ : Fin I => η) i + η) = H * (δ + η) + I * (η + η) := by
    intro δ
    rw [Fin.sum_univ_add]
    simp only [Fin.append_left, Fin.append_right, sum_const, card_univ, Fintype.card_fin, nsmul_eq_mul]
  have k1 : ∀ o, |t'.fgIn o - t.fgIn o| ≤ D1 := by
    intro o
    refine le_trans (hardtanh_near _ _) ?_
    have := lin_near p.wf p'.wf p.bf p'.bf (Fin.append h x) (Fin.append h' x') o η _ (app1 h' hh') (hwf o) (ewf o) (app h h' η eh) (ebf o)
    rw [appS] at this
    refine le_trans this (le_of_eq ?_)
    rw [hD1]; ring
  have r1 : ∀ o, |t.fgIn o| ≤ 1 := fun o => hardtanh_abs _
  have r1' : ∀ o, |t'.fgIn o| ≤ 1 := fun o => hardtanh_abs _
  have g : ∀ o, t.fg o = (t.fgIn o + 1) / 2 := fun o => hardsigm_eq _ (r1 o)
  have g' : ∀ o, t'.fg o = (t'.fgIn o + 1) / 2 := fun o => hardsigm_eq _ (r1' o)
  have k2 : ∀ o, |t'.fg o - t.fg o| ≤ D1 / 2 := by
    intro o
    rw [g, g']
    have := k1 o
    rw [abs_le] at this ⊢
    constructor <;> linarith [this.1, this.2]
  have r2 : ∀ o, |t.fg o| ≤ 1 := by
    intro o; rw [g]; have := r1 o; rw [abs_le] at this ⊢; constructor <;> linarith [this.1, this.2]
  have r2' : ∀ o, |t'.fg o| ≤ 1 := by
    intro o; rw [g']; have := r1' o; rw [abs_le] at this ⊢; constructor <;> linarith [this.1, this.2]
  have k3 : ∀ o, |t'.fgHx o - t.fgHx o| ≤ D1 / 2 + η := fun o => mul_near (hh' o) (r2 o) (k2 o) (eh o)
  have r3' : ∀ o, |t'.fgHx o| ≤ 1 := by
    intro o
    show |t'.fg o * h' o| ≤ 1
    rw [abs_mul]
    have := mul_le_mul (r2' o) (hh' o) (abs_nonneg _) (by norm_num)
    linarith
  set D3 : ℚ := H * (D1 / 2 + η + η) + I * (η + η) + η with hD3
  have k4 : |t'.ng o - t.ng o| ≤ D3 := by
    refine le_trans (hardtanh_near _ _) ?_
    have := lin_near p.wn p'.wn p.bn p'.bn (Fin.append t.fgHx x) (Fin.append t'.fgHx x') o η _ (app1 _ r3') (hwn o) (ewn o)
      (app _ _ (D1 / 2 + η) k3) (ebn o)
    rw [appS] at this
    exact this
  have k5 : |t'.fgNg o - t.fgNg o| ≤ D1 / 2 + D3 := mul_near (hardtanh_abs _) (r2 o) (k2 o) k4
  have e : ∀ s : Trace ℚ H, hardtanh (s.ng o + (0 - s.fgNg o) + s.fgHx o) = hardtanh (s.ng o - s.fgNg o + s.fgHx o) := by
    intro s; congr 1; ring
  have k6 : |t'.hy o - t.hy o| ≤ D3 + (D1 / 2 + D3) + (D1 / 2 + η) := by
    show |hardtanh (t'.ng o + (0 - t'.fgNg o) + t'.fgHx o) - hardtanh (t.ng o + (0 - t.fgNg o) + t.fgHx o)| ≤ _
    refine le_trans (hardtanh_near _ _) ?_
    have a1 := abs_le.1 k4
    have a2 := abs_le.1 k5
    have a3 := abs_le.1 (k3 o)
    rw [abs_le]
    constructor <;> linarith [a1.1, a1.2, a2.1, a2.2, a3.1, a3.2]
  refine le_trans k6 ?_
  rw [hD3, hD1]
  have h1 : 0 ≤ (H:ℚ) * η := by positivity
  have h2 : 0 ≤ (I:ℚ) * η := by positivity
  have h3 : 0 ≤ (H:ℚ) * H * η := by positivity
  have h4 : 0 ≤ (H:ℚ) * I * η := by positivity
  nlinarith

/-- C62: and so up to the resolution of the coding the hybrid cell returns the hard cell's next state for the given
parameters, input and state. -/
theorem C62_end_to_end {B I H : ℕ} (hB : 0 < B) (env : Env) (mode : String) (width d : ℕ) (name : String) (depth : ℤ)
    (hn : name.toLower ∈ ["sobol", "rc"]) (hdir : DirOK env.sobolM) (hw : width ≤ env.maxbit) (hwd : d ≤ env.maxbit)
    (hdep : 4 ≤ depth) (p : Params ℚ I H) (hwf : ∀ o i, |p.wf o i| ≤ 1) (hwn : ∀ o i, |p.wn o i| ≤ 1)
    (bias : Bool) (hbias : bias = false → p.bf = none ∧ p.bn = none) (hbf : ∀ v, p.bf = some v → ∀ o, |v o| ≤ 1)
    (hbn : ∀ v, p.bn = some v → ∀ o, |v o| ≤ 1) (x : Fin B → Fin I → ℚ) (hxr : ∀ b i, |x b i| ≤ 1)
    (hx : Fin B → Fin H → ℚ) (hhr : ∀ b o, |hx b o| ≤ 1) (c : Fsu B I H)
    (hc : mkFsu env mode width d name depth p.wf p.wn bias p.bf p.bn (some hx) = .ok c)
    (hd3 : 2 + Spec.c3 I H width d bias (4 * width) / 2 ≤ (2:ℚ) ^ (depth - 2)) :
    ∃ y : Fin B → Fin H → ℚ, hubMGU env mode width d name depth p.wf p.wn bias p.bf p.bn x (some hx) = .ok y ∧ ∀ b o,
      |y b o - (hardCell p (x b) (hx b)).hy o|
      ≤ (2 + 2 * Spec.c2 I H width bias (4 * width)) / 2 ^ d
        + (2 + 2 * Spec.c3 I H width d bias (4 * width) + (2 * H + 2) * (2 * (H + I + 2)) + 4 * (I + 1)) / 2 ^ width := by
  obtain ⟨y, h1, h2⟩ := C62_hybrid hB env mode width d name depth hn hdir hw hwd hdep p.wf p.wn (fun o i => abs_le.1 (hwf o i))
    (fun o i => abs_le.1 (hwn o i)) bias p.bf p.bn (fun v hv o => abs_le.1 (hbf v hv o)) (fun v hv o => abs_le.1 (hbn v hv o)) x
    (fun b i => abs_le.1 (hxr b i)) (some hx) hx rfl (fun b o => abs_le.1 (hhr b o)) c hc hd3
  refine ⟨y, h1, fun b o => ?_⟩
  have near : ∀ a, |Spec.quant .bipolar width a - a| ≤ 1 / 2 ^ width := fun a => (quant_near width a).2
  have ebias : ∀ (be : Option (Fin H → ℚ)), (bias = false → be = none) → ∀ o,
      |((if bias then be.map fun v o => Spec.quant .bipolar width (v o) else none).map fun v => v o).getD 0 - (be.map fun v => v o).getD 0|
        ≤ 1 / 2 ^ width := by
    intro be hb o
    cases bias with
    | false => rw [hb rfl]; simp
    | true =>
        cases be with
        | none => simp
        | some v => simpa using near (v o)
  have h3 := C62_sensitivity p (Spec.stored width p.wf p.wn bias p.bf p.bn) (x b) (fun i => Spec.quant .bipolar width (x b i)) (hx b)
    (fun o => Spec.quant .bipolar width (hx b o)) (1 / 2 ^ width) hwf hwn (fun i => quant_range _ _ (abs_le.1 (hxr b i)))
    (fun o => quant_range _ _ (abs_le.1 (hhr b o))) (fun o i => near _) (fun o i => near _) (ebias p.bf fun h => (hbias h).1)
    (ebias p.bn fun h => (hbias h).2) (fun i => near _) (fun o => near _) o
  have h4 := h2 b o
  have e : (2 + 2 * Spec.c2 I H width bias (4 * width)) / 2 ^ d
        + (2 + 2 * Spec.c3 I H width d bias (4 * width) + (2 * H + 2) * (2 * (H + I + 2)) + 4 * (I + 1)) / 2 ^ width
      = ((2 + 2 * Spec.c2 I H width bias (4 * width)) / 2 ^ d + (2 + 2 * Spec.c3 I H width d bias (4 * width)) / 2 ^ width)
        + ((2 * H + 2) * ((H + I + 2) * (2 * (1 / 2 ^ width))) + 4 * (I + 1) * (1 / 2 ^ width)) := by ring
  rw [e]
  have := abs_add_le (y b o - (hardCell (Spec.stored width p.wf p.wn bias p.bf p.bn) (fun i => Spec.quant .bipolar width (x b i))
        (fun o => Spec.quant .bipolar width (hx b o))).hy o) ((hardCell (Spec.stored width p.wf p.wn bias p.bf p.bn)
        (fun i => Spec.quant .bipolar width (x b i)) (fun o => Spec.quant .bipolar width (hx b o))).hy o - (hardCell p (x b) (hx b)).hy o)
  rw [sub_add_sub_cancel] at this
  linarith

/-- Non-vacuity: a cell of one input and one unit that meets the hypotheses and can be built; the bound is below one tenth. -/
example : (mkFsu (B := 1) (I := 1) (H := 1) ⟨30, fun _ => 1, fun _ _ => false, []⟩ "Bipolar" 3 3 "Sobol" 20 (fun _ _ => 1/2) (fun _ _ => -1/2)
      true (some fun _ => 1/4) (some fun _ => 0) (some fun _ _ => 1/2)).toBool = true := by decide +kernel

example : 2 + Spec.c3 1 1 24 16 true (4 * (24:ℕ)) / 2 ≤ (2:ℚ) ^ ((20:ℤ) - 2) := by
  norm_num [Spec.c3, Spec.c2, Spec.c1]

example : (2 + 2 * Spec.c2 1 1 24 true (4 * (24:ℕ))) / 2 ^ 16
    + (2 + 2 * Spec.c3 1 1 24 16 true (4 * (24:ℕ)) + (2 * (1:ℕ) + 2) * (2 * ((1:ℕ) + (1:ℕ) + 2)) + 4 * ((1:ℕ) + 1)) / 2 ^ 24 < (1:ℚ) / 10 := by
  norm_num [Spec.c3, Spec.c2, Spec.c1]

end Verif.Props
