import Verif.Props.Rate
import Verif.Props.Conv

/-!
# Property C72, third part: the stream convolution layer on steady streams
-/

namespace Verif.Props

open Verif Finset Conv Linear Gen

/-- The padding bits are a stream of steady value zero. -/
theorem pad_tracks : Spec.Tracks (Spec.padBit .bipolar) 0 0 1 := by
  have h2 : ∀ n : ℕ, Verif.Spec.ones (Spec.padBit .bipolar) n = (n / 2 : ℕ) := by
    intro n
    induction n with
    | zero => rfl
    | succ n ih =>
        rw [Verif.Spec.ones_succ, ih]
        unfold Spec.padBit
        split_ifs with h
        · have := h.2; push_cast; omega
        · have : n % 2 ≠ 1 := fun h' => h ⟨rfl, h'⟩
          push_cast; omega
  intro m n
  rw [bi_win, h2, h2]
  have h3 : (-1 : ℤ) ≤ 2 * (((m + n) / 2 : ℕ) - (m / 2 : ℕ)) - n ∧ 2 * ((((m + n) / 2 : ℕ) : ℤ) - (m / 2 : ℕ)) - n ≤ 1 := by omega
  have h4 : (-1 : ℚ) ≤ 2 * (((((m + n) / 2 : ℕ) : ℤ) : ℚ) - ((m / 2 : ℕ) : ℤ)) - n := by exact_mod_cast h3.1
  have h5 : 2 * (((((m + n) / 2 : ℕ) : ℤ) : ℚ) - ((m / 2 : ℕ) : ℤ)) - (n:ℚ) ≤ 1 := by exact_mod_cast h3.2
  rw [abs_le]; constructor <;> linarith

/-- C72: a bipolar stream convolution layer with Sobol coded weights and any positive scale `S`, on an image whose pixels are
streams of steady values `v`, puts out streams of steady values: zero padded convolution with the stored filters plus bias,
clipped to `[-S, S]`, over `S`. -/
theorem C72_conv {O : ℕ} (hO : 0 < O) (env : Env) (g : Geo) (p N C H W : ℕ) (hN : 0 < N)
    (h : Spec.GeoOK (Spec.padded g p) H W) (mode : String) (width : ℕ) (name : String) (depth : ℤ)
    (hn : name.toLower ∈ ["sobol", "rc"]) (hdir : DirOK env.sobolM) (hw : width ≤ env.maxbit)
    (hmode : parseMode mode = .ok .bipolar) (scale : Option ℚ) (w : ℕ → ℕ → ℕ → ℕ → ℚ)
    (hwe : ∀ o c i j, o < O → c < C → i < g.kh → j < g.kw → -1 ≤ w o c i j ∧ w o c i j ≤ 1) (bias : Bool) (be : Option (Fin O → ℚ))
    (hbe : ∀ v, be = some v → ∀ o, -1 ≤ v o ∧ v o ≤ 1) (m : PC (C * g.kh * g.kw) O × Adder.Cfg)
    (hm : mkConv env g C mode width name depth scale w bias be = .ok m)
    (S : ℚ) (hSd : S = scale.getD (Spec.fanIn (C * g.kh * g.kw) bias)) (hS : 0 < S)
    (img : ℕ → ℕ → ℕ → ℕ → ℕ → ℤ) (hi : Spec.BitImage N C H W img) :
    ∃ out : ℕ → ℕ → ℕ → ℕ → ℕ → ℤ,
      (∀ t, ∃ F, convOut g (.num p) N C H W m img t = .ok F ∧ ∀ n o y x, n < N → o < O →
        y < Spec.outH (Spec.padded g p) H → x < Spec.outW (Spec.padded g p) W → F n o y x = out t n o y x) ∧
      ∀ (n : ℕ) (o : Fin O) (y x : ℕ), n < N → y < Spec.outH (Spec.padded g p) H → x < Spec.outW (Spec.padded g p) W →
        Verif.Spec.BitStream (fun t => out t n o y x) ∧
        ∀ (v : ℕ → ℕ → ℕ → ℚ) (ε K : ℚ), 0 ≤ ε → 1 ≤ K →
          (∀ c Y X, c < C → Y < H → X < W → Spec.Tracks (fun t => img t n c Y X) (v c Y X) ε K) →
          let A := ∑ c ∈ range C, ∑ i ∈ range g.kh, ∑ j ∈ range g.kw, |Spec.quant .bipolar width (w o c i j)|
          let D := A * K + (C * g.kh * g.kw : ℕ) * (8 * width) + if bias then 4 * (width : ℚ) else 0
          2 * S + D / 2 ≤ (2:ℚ) ^ (depth - 2) →
          Spec.Tracks (fun t => out t n o y x)
            (max (-S) (min (Spec.conv (Spec.padded g p) C H W id (Spec.quant .bipolar width) (fun _ => v) w n o y x
              + if bias then Spec.quant .bipolar width ((be.getD fun _ => 0) o) else 0) S) / S) (A * ε / S) (2 + 2 * D / S) := by
  have hL : 0 < N * (Spec.outH (Spec.padded g p) H * Spec.outW (Spec.padded g p) W) :=
    Nat.mul_pos hN (Nat.mul_pos (Nat.succ_pos _) (Nat.succ_pos _))
  obtain ⟨hpc, -⟩ := mkLinear_ok hm
  obtain ⟨mo, l, h1, h2, h3, -⟩ := mkPC_ok hpc
  rw [hmode] at h1; cases h1
  have hbits := streams_bits g p N C H W .bipolar img hi
  have hwe' : ∀ (o : Fin O) q, -1 ≤ viewWeight g C O w o q ∧ viewWeight g C O w o q ≤ 1 := by
    intro o q
    obtain ⟨ha, hb, hc⟩ := flat_lt q.2
    rw [weight_eq]
    exact hwe _ _ _ _ o.2 hc (Nat.mod_lt _ ha) (Nat.mod_lt _ hb)
  obtain ⟨out, h4, h5⟩ := C61_linear hL env mode width name depth hn hdir hw hmode scale (viewWeight g C O w) hwe' bias be hbe m hm S hSd hS
    (convStreams g p N C H W .bipolar img) hbits
  rw [← h3] at h4
  refine ⟨fun t n o y x => if hh : o < O ∧ n < N ∧ y < Spec.outH (Spec.padded g p) H ∧ x < Spec.outW (Spec.padded g p) W then
    out (Classical.choose (exists_row hh.2.1 hh.2.2.1 hh.2.2.2)) ⟨o, hh.1⟩ t else 0, fun t => ?_, ?_⟩
  · obtain ⟨F, e1, e2⟩ := conv_lin hO g p N C H W hN h m img out h4 t
    refine ⟨F, e1, fun n o y x hn ho hy hx => ?_⟩
    simp only [dif_pos (show o < O ∧ n < N ∧ y < Spec.outH (Spec.padded g p) H ∧ x < Spec.outW (Spec.padded g p) W from
      ⟨ho, hn, hy, hx⟩)]
    exact e2 n ⟨o, ho⟩ y x hn hy hx _ (Classical.choose_spec (exists_row hn hy hx))
  · intro n o y x hn' hy hx
    simp only [dif_pos (show (o : ℕ) < O ∧ n < N ∧ y < Spec.outH (Spec.padded g p) H ∧ x < Spec.outW (Spec.padded g p) W from
      ⟨o.2, hn', hy, hx⟩)]
    have hr := Classical.choose_spec (exists_row hn' hy hx)
    generalize Classical.choose (exists_row hn' hy hx) = r at hr ⊢
    refine ⟨(h5 r o).1, fun v ε K hε hK hv => ?_⟩
    intro hD
    generalize hAe : (∑ c ∈ range C, ∑ i ∈ range g.kh, ∑ j ∈ range g.kw, |Spec.quant .bipolar width (w o c i j)|) = A at hD ⊢
    generalize hDe : (A * K + (C * g.kh * g.kw : ℕ) * (8 * width) + if bias then 4 * (width : ℚ) else 0) = D at hD ⊢
    have htap : ∀ q, Spec.Tracks (convStreams g p N C H W .bipolar img r q)
        (Spec.windowRow (Spec.padded g p) C H W 0 (fun _ => v) n y x q) ε K := by
      intro q
      rw [streams_tap g p N C H W .bipolar img n y x hy hx r hr]
      show Spec.Tracks (fun t => Spec.tap (Spec.padded g p) H W (Spec.padBit .bipolar t) (img t n (q / (g.kh * g.kw))) y x (q / g.kw % g.kh) (q % g.kw))
        (Spec.tap (Spec.padded g p) H W 0 (v (q / (g.kh * g.kw))) y x (q / g.kw % g.kh) (q % g.kw)) ε K
      rcases tap_cases (Spec.padded g p) H W y x (q / g.kw % g.kh) (q % g.kw) with ⟨Y, X, hY, hX, ht⟩ | ht
      · have e1 : ∀ t, Spec.tap (Spec.padded g p) H W (Spec.padBit .bipolar t) (img t n (q / (g.kh * g.kw))) y x (q / g.kw % g.kh) (q % g.kw) =
          img t n (q / (g.kh * g.kw)) Y X := fun t => ht ℤ _ _
        simp only [e1]
        rw [ht ℚ 0 (v (q / (g.kh * g.kw)))]
        exact hv _ _ _ (flat_lt q.2).2.2 hY hX
      · have e1 : ∀ t, Spec.tap (Spec.padded g p) H W (Spec.padBit .bipolar t) (img t n (q / (g.kh * g.kw))) y x (q / g.kw % g.kh) (q % g.kw) =
          Spec.padBit .bipolar t := fun t => ht ℤ _ _
        simp only [e1]
        rw [ht ℚ 0 (v (q / (g.kh * g.kw)))]
        intro a k
        refine le_trans (pad_tracks a k) ?_
        have : 0 ≤ ε * k := mul_nonneg hε (Nat.cast_nonneg _)
        linarith
    have hA : ∑ q, |Spec.quant .bipolar width (viewWeight g C O w o q)| = A := by
      rw [← hAe, ← sum_flat C g.kh g.kw fun c i j => |Spec.quant .bipolar width (w o c i j)|]
      exact sum_congr rfl fun q _ => by rw [weight_eq]
    have hsum : ∑ q, (|Spec.quant .bipolar width (viewWeight g C O w o q)| * K + 8 * (width:ℚ)) + (if bias then 4 * (width:ℚ) else 0) = D := by
      rw [sum_add_distrib, ← sum_mul, hA, sum_const, card_univ, Fintype.card_fin, nsmul_eq_mul, hDe]
    have h6 := (h5 r o).2 _ (fun _ => ε) (fun _ => K) (fun _ => hε) htap (by rw [hsum]; exact hD)
    rw [hsum, ← sum_mul, hA] at h6
    have hmap : Spec.linearMap .bipolar width (viewWeight g C O w o) bias ((be.getD fun _ => 0) o)
        (Spec.windowRow (Spec.padded g p) C H W 0 (fun _ => v) n y x)
        = Spec.conv (Spec.padded g p) C H W id (Spec.quant .bipolar width) (fun _ => v) w n o y x
          + if bias then Spec.quant .bipolar width ((be.getD fun _ => 0) o) else 0 := by
      unfold Spec.linearMap
      congr 1
      exact row_dot (Spec.padded g p) C H W O id (Spec.quant .bipolar width) (fun _ => v) w n y x o
    rw [hmap] at h6
    exact h6

/-- Non-vacuity: the layer of the example of `C52_fsu_end_to_end`, not scaled, depth 12. -/
example : (mkConv (O := 1) ⟨30, fun _ => 1, fun _ _ => false, []⟩ ⟨3, 3, 1, 1, 1, 1, 1, 1⟩ 1 "Bipolar" 3 "Sobol" 12 (some 1)
    (fun _ _ i j => if i = j then 1/2 else -1) true (some fun _ => 1/4)).toBool = true ∧
    2 * (1:ℚ) + (9 * 12 + (1 * 3 * 3 : ℕ) * (8 * (3:ℕ)) + 4 * (3:ℕ)) / 2 ≤ (2:ℚ) ^ ((12:ℤ) - 2) := by
  refine ⟨by decide +kernel, by norm_num⟩

end Verif.Props
