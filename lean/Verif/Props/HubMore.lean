import Verif.Props.Hub
import Verif.Props.Conv
import Mathlib.Data.Sign.Basic

/-!
# Property C85: hybrid layers end to end, for any run length, rounding and quantile
-/

namespace Verif.Props

open Verif Finset Gen Linear Conv

/-- Largest error of an operand of magnitude at most `M` represented by at most `m` units of `u`: half a unit, or the excess over
the range. -/
def Spec.opErr (m : ℕ) (u M : ℚ) : ℚ := max (u / 2) (M - m * u)

/-- The quantisation error is at most half a unit or the excess over the range. -/
theorem Spec.Nearest.opErr {m : ℕ} {u x y M : ℚ} (h : Spec.Nearest m u x y) (hu : 0 < u) (hx : |x| ≤ M) :
    |y - x| ≤ Spec.opErr m u M := by
  unfold Spec.opErr
  by_cases hin : |x| ≤ ((m : ℤ) + 1 / 2) * u
  · exact le_trans ((Spec.Nearest.err h hu (by omega)).1 hin) (le_max_left _ _)
  · refine le_trans ?_ (le_max_right _ _)
    push Not at hin
    obtain ⟨k, -, -, hn⟩ := h
    push_cast at hin
    rcases le_total 0 x with h0 | h0
    · refine le_trans (hn m (by simp)) ?_
      rw [abs_of_nonneg h0] at hin hx
      push_cast
      rw [abs_of_nonpos (by nlinarith)]; linarith
    · refine le_trans (hn (-m) (by simp)) ?_
      rw [abs_of_nonpos h0] at hin hx
      push_cast
      rw [abs_of_nonneg (by nlinarith)]; linarith

/-- Sobol numbers of width `W` are available under the name. -/
def Spec.SobolOk (env : Env) (name : String) (W : ℕ) : Prop :=
  name.toLower ∈ ["sobol", "rc"] ∧ DirOK env.sobolM ∧ W ≤ env.maxbit

/-- A built layer whose counted operand has Sobol numbers: what the later theorems need. -/
theorem hub_built (envi envw : Env) (W : ℕ) (hW : 1 ≤ W) (rngi rngw : String) (qi qw : ℚ)
    (hqi : 0 < qi ∧ qi ≤ 1) (hqw : 0 < qw ∧ qw ≤ 1) (cycle : ℕ) (rounding : String)
    (hr : rounding.toLower ∈ ["round", "ceil", "floor"]) (ht : ¬ (Spec.TemporalName rngi ∧ Spec.TemporalName rngw))
    (li lw : List ℤ) (hli : rng envi W rngi = .ok li) (hlw : rng envw W rngw = .ok lw)
    (hpi : Verif.Spec.IsPermSeq W li) (hpw : Verif.Spec.IsPermSeq W lw)
    (hs : if Spec.TemporalName rngw then Spec.SobolOk envi rngi W else Spec.SobolOk envw rngw W) :
    ∃ h, mkHub envi envw (W + 1) rngi qi (W + 1) rngw qw (some cycle) rounding true = .ok h ∧
      h.cycle = min cycle (2 ^ W) ∧ h.widthi = W + 1 ∧ h.widthw = W + 1 ∧ h.quantilei = qi ∧ h.quantilew = qw ∧
      h.rounding = rounding.toLower ∧
      (∀ i v, i < h.cycle → v < h.cycle → |(h.table i v : ℚ) - i * v / 2 ^ W| ≤ (W : ℚ)) ∧
      ∀ i v, i < 2 ^ W → |h.table i v| ≤ 2 ^ W := by
  obtain ⟨h, h1, h2, h3, h4, h5, h6, h7, h8⟩ := mkHub_ok envi envw (W + 1) (by omega) rngi rngw qi qw hqi hqw cycle rounding hr
    ht li lw (by simpa using hli) (by simpa using hlw) (by simpa using hpi) (by simpa using hpw)
  refine ⟨h, h1, by simpa using h2, h3, h4, h5, h6, h7, fun i v hi hv => ?_, fun i v hi => ?_⟩
  swap
  · rw [h8 i v (by simp only [Nat.add_sub_cancel]; omega)]
    have hf : ∀ l : List ℤ, Spec.firstBelow l i v ≤ i := fun l => by
      unfold Spec.firstBelow; exact (card_filter_le _ _).trans (by rw [card_range])
    have hz : ∀ l : List ℤ, |(Spec.firstBelow l i v : ℤ)| ≤ 2 ^ W := fun l => by
      rw [Nat.abs_cast]; exact_mod_cast (hf l).trans hi.le
    exact hz _
  have hcm : h.cycle ≤ 2 ^ W := by rw [h2]; simp
  rw [h8 i v (by simp only [Nat.add_sub_cancel]; omega)]
  have key : ∀ (e : Env) (n : String) (l : List ℤ), Spec.SobolOk e n W → rng e W n = .ok l →
      |(Spec.firstBelow l i v : ℚ) - i * v / 2 ^ W| ≤ W := by
    rintro e n l ⟨s1, s2, s3⟩ hl
    obtain ⟨l', hl', hb⟩ := C46_sobol e W n s1 s2 s3
    rw [hl] at hl'
    have : l = l' := Except.ok.inj hl'
    subst this
    exact hb i v (by omega) (by omega)
  split_ifs at hs ⊢ with hw
  · exact_mod_cast key envi rngi li hs hli
  · exact_mod_cast key envw rngw lw hs hlw

/-- Error of a built layer for given shifts. -/
private theorem hub_err {I O : ℕ} (h : Hub) (W c : ℕ) (hwi : h.widthi = W + 1) (hww : h.widthw = W + 1) (hc : 1 ≤ c)
    (hcy : h.cycle = min c (2 ^ W)) (hT : ∀ i v, i < h.cycle → v < h.cycle → |(h.table i v : ℚ) - i * v / 2 ^ W| ≤ (W : ℚ))
    (w : Fin O → Fin I → ℚ) (bias : Option (Fin O → ℚ)) (x : List (Fin I → ℚ)) (M N : ℚ)
    (hx : Spec.MaxAbs M (x.flatMap List.ofFn)) (hw : Spec.MaxAbs N ((List.ofFn w).flatMap List.ofFn)) (im wm : ℤ)
    (hsh : rshift x w W W h.rounding h.quantilei h.quantilew = .ok (im - W, wm - W, W - im - wm)) :
    ∃ out, h.forward w bias x = .ok out ∧ out.length = x.length ∧
      ∀ (n : ℕ) (row : Fin I → ℚ), x[n]? = some row → ∃ y, out[n]? = some y ∧ ∀ o, ∀ dx dw : ℚ,
        dx = Spec.opErr (min c (2 ^ W) - 1) ((2:ℚ) ^ (im - W)) M →
        dw = Spec.opErr (min c (2 ^ W) - 1) ((2:ℚ) ^ (wm - W)) N →
        |y o - (∑ i, row i * w o i + (bias.map fun b => b o).getD 0)| ≤
          I * (W * (2:ℚ) ^ (im + wm - W) + (M * dw + N * dx + dx * dw)) := by
  have hc1 : 1 ≤ h.cycle := by rw [hcy]; have := Nat.one_le_two_pow (n := W); omega
  obtain ⟨out, f1, f2, qx, qw, f3, f4, f5⟩ := C47_forward h W hwi hww hc1 (by rw [hcy]; omega) W hT w bias x im wm hsh
  refine ⟨out, f1, f2, fun n row hrow => ?_⟩
  obtain ⟨y, hy, hb⟩ := f5 n row hrow
  refine ⟨y, hy, fun o dx dw hdx hdw => ?_⟩
  have er : ∀ i, |row i| ≤ M := fun i => hx.1 _ (by
    rw [List.mem_flatMap]; exact ⟨row, List.mem_of_getElem? hrow, by rw [List.mem_ofFn]; exact ⟨i, rfl⟩⟩)
  have ew : ∀ i, |w o i| ≤ N := fun i => hw.1 _ (by
    rw [List.mem_flatMap]; exact ⟨w o, by rw [List.mem_ofFn]; exact ⟨o, rfl⟩, by rw [List.mem_ofFn]; exact ⟨i, rfl⟩⟩)
  have hce : ((h.cycle : ℤ) - 1) = ((min c (2 ^ W) - 1 : ℕ) : ℤ) := by rw [← hcy]; omega
  rw [hce] at f3 f4
  have hd := dot_err row (w o) (fun i => qx (row i)) (fun i => qw (w o i)) M N dx dw er ew
    (fun i => hdx ▸ Spec.Nearest.opErr (f3 (row i)) (zpow_pos (by norm_num) _) (er i))
    (fun i => hdw ▸ Spec.Nearest.opErr (f4 (w o i)) (zpow_pos (by norm_num) _) (ew i))
  have hb := hb o
  generalize (bias.map fun b => b o).getD 0 = b at hb ⊢
  have tri : |y o - (∑ i, row i * w o i + b)| ≤ |y o - (∑ i, qx (row i) * qw (w o i) + b)| +
      |∑ i, qx (row i) * qw (w o i) - ∑ i, row i * w o i| := by
    refine le_trans (le_of_eq ?_) (abs_add_le _ _)
    congr 1; ring
  refine le_trans tri (le_trans (add_le_add hb hd) (le_of_eq ?_))
  ring

/-- C85: a `HUBLinear` whose counted operand (the weight, or the input when the weight is temporal coded) has Sobol numbers, the
other one any permutation, run for any number of cycles, with any rounding: every output is within
`I (W 2^(im+wm-W) + M dw + N dx + dx dw)` of the exact linear layer, where `M`, `N` are the largest magnitudes, `2^im`, `2^wm` the powers
picked for them, and `dx`, `dw` half a unit or the excess over `cycle - 1` units. -/
theorem C85_linear {I O : ℕ} (envi envw : Env) (W : ℕ) (hW : 1 ≤ W) (rngi rngw : String) (cycle : ℕ) (hc : 1 ≤ cycle)
    (rounding : String) (hr : rounding.toLower ∈ ["round", "ceil", "floor"])
    (ht : ¬ (Spec.TemporalName rngi ∧ Spec.TemporalName rngw))
    (li lw : List ℤ) (hli : rng envi W rngi = .ok li) (hlw : rng envw W rngw = .ok lw)
    (hpi : Verif.Spec.IsPermSeq W li) (hpw : Verif.Spec.IsPermSeq W lw)
    (hs : if Spec.TemporalName rngw then Spec.SobolOk envi rngi W else Spec.SobolOk envw rngw W)
    (w : Fin O → Fin I → ℚ) (bias : Option (Fin O → ℚ)) (x : List (Fin I → ℚ)) (M N : ℚ) (hM : 0 < M) (hN : 0 < N)
    (hx : Spec.MaxAbs M (x.flatMap List.ofFn)) (hw : Spec.MaxAbs N ((List.ofFn w).flatMap List.ofFn)) :
    ∃ h im wm, Spec.PickedPow rounding.toLower im M ∧ Spec.PickedPow rounding.toLower wm N ∧
      mkHub envi envw (W + 1) rngi 1 (W + 1) rngw 1 (some cycle) rounding true = .ok h ∧
      ∃ out, h.forward w bias x = .ok out ∧ out.length = x.length ∧
      ∀ (n : ℕ) (row : Fin I → ℚ), x[n]? = some row → ∃ y, out[n]? = some y ∧ ∀ o, ∀ dx dw : ℚ,
        dx = Spec.opErr (min cycle (2 ^ W) - 1) ((2:ℚ) ^ (im - W)) M →
        dw = Spec.opErr (min cycle (2 ^ W) - 1) ((2:ℚ) ^ (wm - W)) N →
        |y o - (∑ i, row i * w o i + (bias.map fun b => b o).getD 0)| ≤
          I * (W * (2:ℚ) ^ (im + wm - W) + (M * dw + N * dx + dx * dw)) := by
  obtain ⟨h, h1, h2, h3, h4, h5, h6, h7, hT, -⟩ := hub_built envi envw W hW rngi rngw 1 1 (by norm_num) (by norm_num) cycle
    rounding hr ht li lw hli hlw hpi hpw hs
  obtain ⟨im, wm, p1, p2, hsh⟩ := C58_full x w W W rounding.toLower hr M N hM hN hx hw
  rw [max_self] at hsh
  obtain ⟨out, ho⟩ := hub_err h W cycle h3 h4 hc h2 hT w bias x M N hx hw im wm (by rw [h5, h6, h7]; exact hsh)
  exact ⟨h, im, wm, p1, p2, h1, out, ho⟩

/-- C85: with any quantiles the same holds for the powers picked for the quantile scales; there is no finite result exactly when a scale is
zero. -/
theorem C85_quantile {I O : ℕ} (envi envw : Env) (W : ℕ) (hW : 1 ≤ W) (rngi rngw : String) (qi qw : ℚ)
    (hqi : 0 < qi ∧ qi ≤ 1) (hqw : 0 < qw ∧ qw ≤ 1) (cycle : ℕ) (hc : 1 ≤ cycle)
    (rounding : String) (hr : rounding.toLower ∈ ["round", "ceil", "floor"])
    (ht : ¬ (Spec.TemporalName rngi ∧ Spec.TemporalName rngw))
    (li lw : List ℤ) (hli : rng envi W rngi = .ok li) (hlw : rng envw W rngw = .ok lw)
    (hpi : Verif.Spec.IsPermSeq W li) (hpw : Verif.Spec.IsPermSeq W lw)
    (hs : if Spec.TemporalName rngw then Spec.SobolOk envi rngi W else Spec.SobolOk envw rngw W)
    (w : Fin O → Fin I → ℚ) (bias : Option (Fin O → ℚ)) (x : List (Fin I → ℚ)) (M N : ℚ)
    (hx : Spec.MaxAbs M (x.flatMap List.ofFn)) (hw : Spec.MaxAbs N ((List.ofFn w).flatMap List.ofFn)) :
    ∃ h si sw, mkHub envi envw (W + 1) rngi qi (W + 1) rngw qw (some cycle) rounding true = .ok h ∧
      0 ≤ si ∧ si ≤ M ∧ 0 ≤ sw ∧ sw ≤ N ∧ Spec.QuantileScale qi (x.flatMap List.ofFn) si ∧
      Spec.QuantileScale qw ((List.ofFn w).flatMap List.ofFn) sw ∧
      (si = 0 ∨ sw = 0 → h.forward w bias x = .error .nonfinite) ∧
      (0 < si → 0 < sw → ∃ im wm,
        Spec.PickedPow rounding.toLower im si ∧ Spec.PickedPow rounding.toLower wm sw ∧
        ∃ out, h.forward w bias x = .ok out ∧ out.length = x.length ∧
        ∀ (n : ℕ) (row : Fin I → ℚ), x[n]? = some row → ∃ y, out[n]? = some y ∧ ∀ o, ∀ dx dw : ℚ,
          dx = Spec.opErr (min cycle (2 ^ W) - 1) ((2:ℚ) ^ (im - W)) M →
          dw = Spec.opErr (min cycle (2 ^ W) - 1) ((2:ℚ) ^ (wm - W)) N →
          |y o - (∑ i, row i * w o i + (bias.map fun b => b o).getD 0)| ≤
            I * (W * (2:ℚ) ^ (im + wm - W) + (M * dw + N * dx + dx * dw))) := by
  obtain ⟨h, h1, h2, h3, h4, h5, h6, h7, hT, -⟩ := hub_built envi envw W hW rngi rngw qi qw hqi hqw cycle
    rounding hr ht li lw hli hlw hpi hpw hs
  obtain ⟨si, sw, a1, a2, a3, a4, q1, q2, hz, hp⟩ := C58_quantile x w W W rounding.toLower hr qi qw hqi hqw M N hx hw
  refine ⟨h, si, sw, h1, a1, a2, a3, a4, q1, q2, fun hs0 => ?_, fun b1 b2 => ?_⟩
  · unfold Hub.forward
    rw [h3, h4, h5, h6, h7, show (((W + 1 : ℕ) : ℤ) - 1) = W by push_cast; ring, hz hs0]; rfl
  · obtain ⟨im, wm, p1, p2, hsh⟩ := hp b1 b2
    rw [max_self] at hsh
    obtain ⟨out, ho⟩ := hub_err h W cycle h3 h4 hc h2 hT w bias x M N hx hw im wm (by rw [h5, h6, h7]; exact hsh)
    exact ⟨im, wm, p1, p2, out, ho⟩

/-- C85: the same for `HUBConv2d` against exact convolution. -/
theorem C85_conv {O : ℕ} (hO : 0 < O) (g : Geo) (N C H V : ℕ) (hN : 0 < N) (hg : Spec.GeoOK g H V)
    (envi envw : Env) (W : ℕ) (hW : 1 ≤ W) (rngi rngw : String) (cycle : ℕ) (hc : 1 ≤ cycle)
    (rounding : String) (hr : rounding.toLower ∈ ["round", "ceil", "floor"])
    (ht : ¬ (Spec.TemporalName rngi ∧ Spec.TemporalName rngw))
    (li lw : List ℤ) (hli : rng envi W rngi = .ok li) (hlw : rng envw W rngw = .ok lw)
    (hpi : Verif.Spec.IsPermSeq W li) (hpw : Verif.Spec.IsPermSeq W lw)
    (hs : if Spec.TemporalName rngw then Spec.SobolOk envi rngi W else Spec.SobolOk envw rngw W)
    (w : ℕ → ℕ → ℕ → ℕ → ℚ) (bias : Option (Fin O → ℚ)) (img : ℕ → ℕ → ℕ → ℕ → ℚ) (M L : ℚ) (hM : 0 < M) (hL : 0 < L)
    (hx : Spec.MaxAbs4 M N C H V img) (hw : Spec.MaxAbs4 L O C g.kh g.kw w) :
    ∃ h im wm, Spec.PickedPow rounding.toLower im M ∧ Spec.PickedPow rounding.toLower wm L ∧
      mkHub envi envw (W + 1) rngi 1 (W + 1) rngw 1 (some cycle) rounding true = .ok h ∧
      ∃ F, hubConv h g N C H V w bias img = .ok F ∧
      ∀ (n : ℕ) (o : Fin O) (y x : ℕ), n < N → y < Spec.outH g H → x < Spec.outW g V → ∀ dx dw : ℚ,
        dx = Spec.opErr (min cycle (2 ^ W) - 1) ((2:ℚ) ^ (im - W)) M →
        dw = Spec.opErr (min cycle (2 ^ W) - 1) ((2:ℚ) ^ (wm - W)) L →
        |F n o y x - (Spec.conv g C H V id id img w n o y x + (bias.map fun b => b o).getD 0)| ≤
          (C * g.kh * g.kw : ℕ) * (W * (2:ℚ) ^ (im + wm - W) + (M * dw + L * dx + dx * dw)) := by
  obtain ⟨h, h1, h2, h3, h4, h5, h6, h7, hT, -⟩ := hub_built envi envw W hW rngi rngw 1 1 (by norm_num) (by norm_num) cycle
    rounding hr ht li lw hli hlw hpi hpw hs
  obtain ⟨im, wm, p1, p2, hsh⟩ := C58_full (entries N C H V img) (viewWeight g C O w) W W rounding.toLower hr M L hM hL
    (maxAbs_entries hx) (maxAbs_entries hw)
  rw [max_self] at hsh
  have hc1 : 1 ≤ h.cycle := by rw [h2]; have := Nat.one_le_two_pow (n := W); omega
  obtain ⟨F, e1, qx, qw, e2, e3, e4⟩ := C52_hub hO g N C H V hN hg h W h3 h4 hc1 (by rw [h2]; omega) W hT w bias img im wm
    (by rw [h5, h6, h7]; exact hsh)
  refine ⟨h, im, wm, p1, p2, h1, F, e1, fun n o y x hn hy hx' dx dw hdx hdw => ?_⟩
  have hb := e4 n o y x hn hy hx'
  have hxb := windowRow_bound g N C H V M hM.le img hx.1 n y x hn
  have hwb : ∀ q, |viewWeight g C O w o q| ≤ L := fun q =>
    (maxAbs_entries hw).1 _ (by simp only [List.mem_flatMap, List.mem_ofFn]; exact ⟨_, ⟨o, rfl⟩, q, rfl⟩)
  have hce : ((h.cycle : ℤ) - 1) = ((min cycle (2 ^ W) - 1 : ℕ) : ℤ) := by rw [← h2]; omega
  rw [hce] at e2 e3
  have hd := dot_err _ _ (fun i => qx (Spec.windowRow g C H V 0 img n y x i)) (fun i => qw (viewWeight g C O w o i)) M L dx dw
    hxb hwb
    (fun i => hdx ▸ Spec.Nearest.opErr (e2 _) (zpow_pos (by norm_num) _) (hxb i))
    (fun i => hdw ▸ Spec.Nearest.opErr (e3 _) (zpow_pos (by norm_num) _) (hwb i))
  rw [← row_dot] at hb ⊢
  simp only [id] at hd ⊢
  generalize (bias.map fun b => b o).getD 0 = b at hb ⊢
  generalize (∑ i, qx (Spec.windowRow g C H V 0 img n y x i) * qw (viewWeight g C O w o i)) = p at hb hd
  generalize (∑ i, Spec.windowRow g C H V 0 img n y x i * viewWeight g C O w o i) = q at hd ⊢
  have tri : |F n o y x - (q + b)| ≤ |F n o y x - (p + b)| + |p - q| := by
    refine le_trans (le_of_eq ?_) (abs_add_le _ _)
    congr 1; ring
  refine le_trans tri (le_trans (add_le_add hb hd) (le_of_eq ?_))
  ring

/-- Among all but the last number of a permutation, those below the largest value. -/
private theorem firstBelow_last {W : ℕ} {l : List ℤ} (h : Verif.Spec.IsPermSeq W l) (hW : 1 ≤ W) :
    2 ^ W - 2 ≤ Spec.firstBelow l (2 ^ W - 1) (2 ^ W - 1) ∧ Spec.firstBelow l (2 ^ W - 1) (2 ^ W - 1) ≤ 2 ^ W - 1 := by
  have hp : 2 ≤ 2 ^ W := by
    calc 2 = 2 ^ 1 := rfl
      _ ≤ 2 ^ W := Nat.pow_le_pow_right (by norm_num) hW
  have s1 := (C46_shape h (2 ^ W - 1) (2 ^ W - 1) (by omega)).2.2.1
  have s2 := (C46_shape h (2 ^ W - 1) (2 ^ W - 1) (by omega)).2.2.2.1.2
  have s3 := firstBelow_all h (2 ^ W - 1)
  rw [show 2 ^ W - 1 + 1 = 2 ^ W by omega] at s2
  rw [min_eq_left (by omega)] at s3
  have s3' : Spec.firstBelow l (2 ^ W) (2 ^ W - 1) = 2 ^ W - 1 := by exact_mod_cast s3
  omega

/-- C85 (finding): `cycle = 0` is accepted, and every product is then read from the last row and column of the table: all non-zero
operands count as full scale, only their signs matter. -/
theorem C85_zero_cycle {I O : ℕ} (envi envw : Env) (W : ℕ) (hW : 1 ≤ W) (rngi rngw : String)
    (rounding : String) (hr : rounding.toLower ∈ ["round", "ceil", "floor"])
    (ht : ¬ (Spec.TemporalName rngi ∧ Spec.TemporalName rngw))
    (li lw : List ℤ) (hli : rng envi W rngi = .ok li) (hlw : rng envw W rngw = .ok lw)
    (hpi : Verif.Spec.IsPermSeq W li) (hpw : Verif.Spec.IsPermSeq W lw)
    (w : Fin O → Fin I → ℚ) (bias : Option (Fin O → ℚ)) (x : List (Fin I → ℚ)) (M N : ℚ) (hM : 0 < M) (hN : 0 < N)
    (hx : Spec.MaxAbs M (x.flatMap List.ofFn)) (hw : Spec.MaxAbs N ((List.ofFn w).flatMap List.ofFn)) :
    ∃ h im wm, Spec.PickedPow rounding.toLower im M ∧ Spec.PickedPow rounding.toLower wm N ∧
      mkHub envi envw (W + 1) rngi 1 (W + 1) rngw 1 (some 0) rounding true = .ok h ∧
      ∃ T : ℕ, 2 ^ W - 2 ≤ T ∧ T ≤ 2 ^ W - 1 ∧
      ∃ out, h.forward w bias x = .ok out ∧
      ∀ (n : ℕ) (row : Fin I → ℚ), x[n]? = some row → out[n]? = some fun o =>
        T * (2:ℚ) ^ (im + wm - W) * ∑ i, ((SignType.sign (row i) * SignType.sign (w o i) : SignType) : ℚ) +
          (bias.map fun b => b o).getD 0 := by
  obtain ⟨h, h1, h2, h3, h4, h5, h6, h7, h8⟩ := mkHub_ok envi envw (W + 1) (by omega) rngi rngw 1 1 (by norm_num) (by norm_num) 0
    rounding hr ht li lw (by simpa using hli) (by simpa using hlw) (by simpa using hpi) (by simpa using hpw)
  obtain ⟨im, wm, p1, p2, hsh⟩ := C58_full x w W W rounding.toLower hr M N hM hN hx hw
  rw [max_self] at hsh
  have hT : h.table (2 ^ W - 1) (2 ^ W - 1) = Spec.firstBelow (if Spec.TemporalName rngw then li else lw) (2 ^ W - 1) (2 ^ W - 1) :=
    h8 _ _ (by simp)
  have hTb := firstBelow_last (l := if Spec.TemporalName rngw then li else lw) (by split_ifs <;> assumption) hW
  refine ⟨h, im, wm, p1, p2, h1, _, hTb.1, hTb.2, _, by
    unfold Hub.forward
    rw [h3, h4, h5, h6, h7, show (((W + 1 : ℕ) : ℤ) - 1) = W by push_cast; ring, hsh]; rfl, fun n row hrow => ?_⟩
  have hc0 : h.cycle = 0 := by rw [h2]; simp
  have hcm : hubCycleMax (W + 1) (W + 1) = 2 ^ W := by unfold hubCycleMax; rw [max_self]; rfl
  have hmag : ∀ rs a, pyIdx (2 ^ W) (hubMag 0 rs a) = 2 ^ W - 1 := by
    intro rs a
    have : hubMag 0 rs a = -1 := by
      unfold hubMag clamp
      have := abs_nonneg (roundHE (a / (2:ℚ) ^ rs))
      generalize |roundHE (a / (2:ℚ) ^ rs)| = z at *
      simp only [Nat.cast_zero]; omega
    rw [this]
    unfold pyIdx
    have hp : (1:ℤ) ≤ ((2 ^ W : ℕ) : ℤ) := by exact_mod_cast Nat.one_le_two_pow
    have : (-1 : ℤ) % ((2 ^ W : ℕ) : ℤ) = ((2 ^ W : ℕ) : ℤ) - 1 := by
      rw [← Int.add_emod_right]
      exact (congrArg (· % ((2 ^ W : ℕ) : ℤ)) (by ring)).trans (Int.emod_eq_of_lt (by omega) (by omega))
    rw [this]; omega
  rw [List.getElem?_map, hrow]
  show some _ = some _
  congr 1
  funext o
  rw [hcm, hc0]
  unfold hubForward
  beta_reduce
  congr 1
  rw [show (2:ℚ) ^ ((W:ℤ) - im - wm) = ((2:ℚ) ^ (im + wm - W))⁻¹ by rw [← zpow_neg]; congr 1; ring, div_inv_eq_mul, sum_mul, mul_sum]
  apply sum_congr rfl
  intro i _
  rw [hmag, hmag, hT]
  have hsg : ∀ a : ℚ, sgn a = ((SignType.sign a : SignType) : ℚ) := by
    intro a
    unfold sgn
    split_ifs with q1 q2
    · rw [sign_pos q1]; rfl
    · rw [sign_neg q2]; rfl
    · rw [show a = 0 by linarith [not_lt.1 q1, not_lt.1 q2], sign_zero]; rfl
  rw [hsg, hsg]
  push_cast
  ring

/-- Non-vacuity: the hypotheses hold for the documented default configuration (width 8, Sobol numbers for both operands, 128 cycles,
`round`) with two inputs and one output. -/
example : ∃ li lw, rng ⟨30, fun _ => 1, fun _ _ => false, []⟩ 7 "Sobol" = .ok li ∧
    rng ⟨30, fun _ => 1, fun _ _ => false, []⟩ 7 "Sobol" = .ok lw ∧ Verif.Spec.IsPermSeq 7 li ∧ Verif.Spec.IsPermSeq 7 lw ∧
    (if Spec.TemporalName "Sobol" then Spec.SobolOk ⟨30, fun _ => 1, fun _ _ => false, []⟩ "Sobol" 7
      else Spec.SobolOk ⟨30, fun _ => 1, fun _ _ => false, []⟩ "Sobol" 7) ∧
    ¬ (Spec.TemporalName "Sobol" ∧ Spec.TemporalName "Sobol") ∧ "round".toLower ∈ ["round", "ceil", "floor"] ∧
    Spec.MaxAbs (3/2) ([![(3:ℚ)/2, -1/4]].flatMap List.ofFn) ∧
    Spec.MaxAbs 1 ((List.ofFn fun _ : Fin 1 => ![(1:ℚ)/2, -1]).flatMap List.ofFn) := by
  have hn : "Sobol".toLower ∈ ["sobol", "rc"] := by decide +kernel
  have hd : DirOK fun _ => 1 := fun j => ⟨rfl, Nat.one_lt_two_pow (by omega)⟩
  obtain ⟨l, hl, hp⟩ := C02_sobol_perm ⟨30, fun _ => 1, fun _ _ => false, []⟩ 7 "Sobol" hn hd (by decide)
  have ht : ¬ Spec.TemporalName "Sobol" := by decide +kernel
  have hso : Spec.SobolOk ⟨30, fun _ => 1, fun _ _ => false, []⟩ "Sobol" 7 := ⟨hn, hd, by decide⟩
  refine ⟨l, l, hl, hl, hp, hp, by split_ifs <;> exact hso, fun h => ht h.1, by decide +kernel, ?_, ?_⟩
  · constructor
    · intro a ha
      simp [List.ofFn_succ] at ha
      rcases ha with rfl | rfl <;> norm_num [abs_div]
    · exact ⟨3/2, by simp [List.ofFn_succ], by norm_num [abs_div]⟩
  · constructor
    · intro a ha
      simp [List.ofFn_succ] at ha
      rcases ha with rfl | rfl <;> norm_num [abs_div]
    · exact ⟨-1, by simp [List.ofFn_succ], by norm_num⟩

/-- The operand error at these settings: one unit is `2^-7`; a magnitude of 3/2 with the power 2 picked (`ceil`) fits, with the power 1
picked it exceeds the 127 units by more than half. -/
example : Spec.opErr 127 (1/64) (3/2) = 1/128 ∧ Spec.opErr 127 (1/128) (3/2) = 65/128 := by
  unfold Spec.opErr; norm_num

end Verif.Props
