import Verif.Model.ImgNet
import Verif.Props.Network
import Verif.Props.ConvRate

/-!
# Property C73: chains of streaming convolution layers
-/

namespace Verif.Props

open Verif Finset Net Linear Conv

namespace Spec

/-- The numbers a convolutional chain computes for one image, if its weights of width `w` are replaced by `q w`. -/
def imgVal (q : ℕ → ℚ → ℚ) : {C H W O : ℕ} → ImgLayers C H W O → (ℕ → ℕ → ℕ → ℚ) → Fin O → ℚ
  | _, H, W, _, .flatten rest, v => netVal q rest fun k => v (k / (H * W)) (k / W % H) (k % W)
  | C, H, W, _, .conv g p C' _ _ _ w _ _ scale we bias be rest, v => imgVal q rest fun o y x =>
      if h : o < C' then
        max (-1) (min ((conv (padded g p) C H W id (q w) (fun _ => v) we 0 o y x
          + if bias then q w ((be.getD fun _ => 0) ⟨o, h⟩) else 0) / scale.getD (fanIn (C * g.kh * g.kw) bias)) 1)
      else 0
  | _, _, _, _, .relu _ rest, v => imgVal q rest fun c y x => max 0 (v c y x)
  | _, _, _, _, .hardtanh rest, v => imgVal q rest fun c y x => max (-1) (min (v c y x) 1)
  | _, _, _, _, .hardsigmoid _ _ rest, v => imgVal q rest fun c y x => max 0 (min ((v c y x + 1) / 2) 1)

/-- The filters fit the images and the declared sizes, the weights are numbers that bipolar streams can carry, the layers
bipolar and rate coded. -/
def ImgOK (env : Gen.Env) : {C H W O : ℕ} → ImgLayers C H W O → Prop
  | _, _, _, _, .flatten rest => NetOK env rest
  | C, H, W, _, .conv g p C' H' W' mode w name _ scale we bias be rest => GeoOK (padded g p) H W ∧
      H' = outH (padded g p) H ∧ W' = outW (padded g p) W ∧ 0 < C' ∧ parseMode mode = .ok .bipolar ∧ name.toLower ∈ ["sobol", "rc"] ∧
      w ≤ env.maxbit ∧ 0 < scale.getD (fanIn (C * g.kh * g.kw) bias) ∧
      (∀ o c i j, o < C' → c < C → i < g.kh → j < g.kw → -1 ≤ we o c i j ∧ we o c i j ≤ 1) ∧
      (∀ v, be = some v → ∀ o, -1 ≤ v o ∧ v o ≤ 1) ∧ ImgOK env rest
  | _, _, _, _, .relu _ rest => ImgOK env rest
  | _, _, _, _, .hardtanh rest => ImgOK env rest
  | _, _, _, _, .hardsigmoid _ _ rest => ImgOK env rest

/-- Deviation of the outputs of a chain whose inputs deviate by `K`. -/
def imgDev : {C H W O : ℕ} → ImgLayers C H W O → ℚ → ℚ
  | _, _, _, _, .flatten rest, K => netDev rest K
  | C, _, _, _, .conv g _ _ _ _ _ w _ _ scale _ bias _ rest, K =>
      imgDev rest (2 + 2 * linDev (C * g.kh * g.kw) w bias K / scale.getD (fanIn (C * g.kh * g.kw) bias))
  | _, _, _, _, .relu _ rest, K => imgDev rest (K + 1)
  | _, _, _, _, .hardtanh rest, K => imgDev rest K
  | _, _, _, _, .hardsigmoid _ _ rest, K => imgDev rest (K / 2 + 1)

/-- All counters have room for these deviations. -/
def ImgRoom : {C H W O : ℕ} → ImgLayers C H W O → ℚ → Prop
  | _, _, _, _, .flatten rest, K => NetRoom rest K
  | C, _, _, _, .conv g _ _ _ _ _ w _ depth scale _ bias _ rest, K =>
      2 * scale.getD (fanIn (C * g.kh * g.kw) bias) + linDev (C * g.kh * g.kw) w bias K / 2 ≤ (2:ℚ) ^ (depth - 2) ∧
      ImgRoom rest (2 + 2 * linDev (C * g.kh * g.kw) w bias K / scale.getD (fanIn (C * g.kh * g.kw) bias))
  | _, _, _, _, .relu d rest, K => 1 ≤ d ∧ K + 1 ≤ 2 ^ (d - 1) ∧ ImgRoom rest (K + 1)
  | _, _, _, _, .hardtanh rest, K => ImgRoom rest K
  | _, _, _, _, .hardsigmoid _ depth rest, K => 4 ≤ depth ∧ ImgRoom rest (K / 2 + 1)

/-- Error of the numbers a chain computes with stored instead of exact weights, for inputs that are off by `e`. -/
def imgErr : {C H W O : ℕ} → ImgLayers C H W O → ℚ → ℚ
  | _, _, _, _, .flatten rest, e => netErr rest e
  | C, _, _, _, .conv g _ _ _ _ _ w _ _ scale _ bias _ rest, e =>
      imgErr rest (((C * g.kh * g.kw : ℕ) * (e + 1 / 2 ^ w) + if bias then 1 / 2 ^ w else 0) / scale.getD (fanIn (C * g.kh * g.kw) bias))
  | _, _, _, _, .relu _ rest, e => imgErr rest e
  | _, _, _, _, .hardtanh rest, e => imgErr rest e
  | _, _, _, _, .hardsigmoid _ _ rest, e => imgErr rest (e / 2)

end Spec

/-! ## Running the modules -/

theorem pixels_out {σ : Type} (step : σ → ℤ → σ × ℤ) (s0 : σ) (x : ℕ → Img) (t : ℕ) :
    outAtE (pixels step) (fun _ _ _ _ => s0) x t = .ok fun n c i j => outAt step s0 (fun t => x t n c i j) t := by
  have hst : ∀ t, stateAtE (pixels step) (fun _ _ _ _ => s0) x t = .ok fun n c i j => stateAt step s0 (fun t => x t n c i j) t := by
    intro t
    induction t with
    | zero => rfl
    | succ t ih => exact stateAtE_succ_ok ih rfl
  exact outAtE_ok (hst t) rfl

theorem conv_out {O : ℕ} (g : Geo) (p N C H W : ℕ) (m : PC (C * g.kh * g.kw) O × Adder.Cfg) (x : ℕ → Img) (t : ℕ) :
    (Net.conv g p N C H W m).out x t = convOut g (.num p) N C H W m x t := by
  have : ∀ t, stateAtE (fun s x => stepConv g (.num p) N C H W m s { img := x }) (initConv m) x t
      = stateAtE (stepConv g (.num p) N C H W m) (initConv m) (fun t => { img := x t }) t := by
    intro t
    induction t with
    | zero => rfl
    | succ t ih => simp only [stateAtE]; rw [ih]
  show outAtE (fun s x => stepConv g (.num p) N C H W m s { img := x }) (initConv m) x t = _
  unfold convOut outAtE
  rw [this]

theorem flatten_out (N C H W : ℕ) (x : ℕ → Img) (t : ℕ) :
    (Net.flatten N C H W).out x t = .ok (pcIn (fun (n : Fin N) (k : Fin (C * H * W)) t => x t n (k / (H * W)) (k / W % H) (k % W)) t) := by
  have hst : ∀ t, stateAtE (Net.flatten N C H W).step (Net.flatten N C H W).init x t = .ok () := by
    intro t
    induction t with
    | zero => rfl
    | succ t ih => exact stateAtE_succ_ok ih rfl
  have : entries N C H W (x t) = pcIn (fun (n : Fin N) (k : Fin (C * H * W)) t => x t n (k / (H * W)) (k / W % H) (k % W)) t := by
    unfold entries pcIn
    congr 1
    funext n k
    exact view_flat4 C H W (x t) n k k.2
  rw [← this]
  exact outAtE_ok (hst t) rfl

/-- C73: any chain of stream convolutions and activations followed by any chain of linear layers and activations, that can be
built and whose counters have enough room, maps images of streams of steady values `v` to streams of the steady value that the
chain computes for the image `v` with the stored weights.  No call fails. -/
theorem C73_network {N : ℕ} (hN : 0 < N) (env : Gen.Env) (hdir : Gen.DirOK env.sobolM) {C H W O : ℕ} (net : ImgLayers C H W O) :
    ∀ M, buildImg env N net = .ok M → Spec.ImgOK env net → ∀ K, 1 ≤ K → Spec.ImgRoom net K →
    ∀ x : ℕ → Img, Spec.BitImage N C H W x →
    ∀ v : ℕ → ℕ → ℕ → ℕ → ℚ, (∀ n c i j, n < N → c < C → i < H → j < W → |v n c i j| ≤ 1) →
      (∀ n c i j, n < N → c < C → i < H → j < W → Spec.Tracks (fun t => x t n c i j) (v n c i j) 0 K) →
    ∃ out : Fin N → Fin O → ℕ → ℤ, Spec.Rows (M.out x) out ∧ ∀ n o, Verif.Spec.BitStream (out n o) ∧
      Spec.Tracks (out n o) (Spec.imgVal (Spec.quant .bipolar) net (v n) o) 0 (Spec.imgDev net K) := by
  induction net with
  | @flatten C H W O rest =>
      intro M hM hok K _ hroom x hx v hva hv
      simp only [buildImg] at hM
      cases hR : build env rest with
      | error e => rw [hR] at hM; cases hM
      | ok R =>
          rw [hR] at hM; cases hM
          have hk : ∀ k : Fin (C * H * W), (k / (H * W) < C) ∧ (k / W % H < H) ∧ (k % W < W) := fun k => by
            obtain ⟨ha, hb, hc⟩ := flat_lt k.2
            exact ⟨hc, Nat.mod_lt _ ha, Nat.mod_lt _ hb⟩
          obtain ⟨out, h4, h5⟩ := C72_network hN env hdir rest R hR hok K hroom
            (fun (n : Fin N) (k : Fin (C * H * W)) t => x t n (k / (H * W)) (k / W % H) (k % W))
            (fun n k => hx _ _ _ _ n.2 (hk k).1 (hk k).2.1 (hk k).2.2)
            (fun n k => v n (k / (H * W)) (k / W % H) (k % W)) (fun n k => hva _ _ _ _ n.2 (hk k).1 (hk k).2.1 (hk k).2.2)
            (fun n k => hv _ _ _ _ n.2 (hk k).1 (hk k).2.1 (hk k).2.2)
          refine ⟨out, fun t => ?_, h5⟩
          rw [comp_out (Net.flatten N C H W) R x _ (fun t => flatten_out N C H W x t)]
          exact h4 t
  | @conv C H W O g p C' H' W' mode w name depth scale we bias be rest ih =>
      intro M hM hok K hK hroom x hx v hva hv
      obtain ⟨hgeo, rfl, rfl, hC', hmode, hn, hw, hS, hwe, hbe, hok'⟩ := hok
      obtain ⟨hr, hroom'⟩ := hroom
      simp only [buildImg] at hM
      cases hm : mkConv env g C mode w name depth scale we bias be with
      | error e => rw [hm] at hM; cases hM
      | ok m =>
          cases hR : buildImg env N rest with
          | error e => rw [hm, hR] at hM; cases hM
          | ok R =>
              rw [hm, hR] at hM; cases hM
              obtain ⟨mid, h1, h2⟩ := C72_conv hC' env g p N C H W hN hgeo mode w name depth hn hdir hw hmode scale we hwe bias be hbe m hm _ rfl hS x hx
              choose F hF hFm using h1
              set S := scale.getD (Spec.fanIn (C * g.kh * g.kw) bias) with hSd
              have hL0 : 0 ≤ Spec.linDev (C * g.kh * g.kw) w bias K := by
                unfold Spec.linDev
                have : (0:ℚ) ≤ (C * g.kh * g.kw : ℕ) * (K + 8 * w) := by positivity
                split_ifs
                · positivity
                · linarith
              have hK' : 1 ≤ 2 + 2 * Spec.linDev (C * g.kh * g.kw) w bias K / S := by
                have : 0 ≤ 2 * Spec.linDev (C * g.kh * g.kw) w bias K / S := by positivity
                linarith
              have hbit : Spec.BitImage N C' (Spec.outH (Spec.padded g p) H) (Spec.outW (Spec.padded g p) W) F := by
                intro n c i j hn hc hi hj t
                have := (h2 n ⟨c, hc⟩ i j hn hi hj).1 t
                show IsBit (F t n c i j)
                rw [hFm t n c i j hn hc hi hj]; exact this
              have hmid : ∀ n c i j, n < N → c < C' → i < Spec.outH (Spec.padded g p) H → j < Spec.outW (Spec.padded g p) W →
                  Spec.Tracks (fun t => F t n c i j)
                    (if h : c < C' then max (-1) (min ((Spec.conv (Spec.padded g p) C H W id (Spec.quant .bipolar w) (fun _ => v n) we 0 c i j
                      + if bias then Spec.quant .bipolar w ((be.getD fun _ => 0) ⟨c, h⟩) else 0) / S) 1) else 0)
                    0 (2 + 2 * Spec.linDev (C * g.kh * g.kw) w bias K / S) := by
                intro n c i j hn hc hi hj
                have e : (fun t => F t n c i j) = fun t => mid t n (⟨c, hc⟩ : Fin C') i j := funext fun t => hFm t n c i j hn hc hi hj
                rw [e, dif_pos hc]
                have hle : (∑ c' ∈ range C, ∑ i ∈ range g.kh, ∑ j ∈ range g.kw, |Spec.quant .bipolar w (we (⟨c, hc⟩ : Fin C') c' i j)|)
                    ≤ (C * g.kh * g.kw : ℕ) := by
                  have : ∀ c' ∈ range C, ∀ i ∈ range g.kh, ∀ j ∈ range g.kw, |Spec.quant .bipolar w (we c c' i j)| ≤ 1 := by
                    intro c' hc' i hi j hj
                    exact quant_range w _ (hwe c c' i j hc (mem_range.1 hc') (mem_range.1 hi) (mem_range.1 hj))
                  refine le_trans (sum_le_sum fun c' hc' => sum_le_sum fun i hi => sum_le_sum fun j hj => this c' hc' i hi j hj) ?_
                  simp [mul_assoc]
                have hD : (∑ c' ∈ range C, ∑ i ∈ range g.kh, ∑ j ∈ range g.kw, |Spec.quant .bipolar w (we (⟨c, hc⟩ : Fin C') c' i j)|) * K
                    + (C * g.kh * g.kw : ℕ) * (8 * w) + (if bias then 4 * (w:ℚ) else 0) ≤ Spec.linDev (C * g.kh * g.kw) w bias K := by
                  unfold Spec.linDev
                  have := mul_le_mul_of_nonneg_right hle (by linarith : (0:ℚ) ≤ K)
                  linarith
                have h3 := (h2 n ⟨c, hc⟩ i j hn hi hj).2 (v n) 0 K (le_refl _) hK (fun c Y X hc hY hX => hv n c Y X hn hc hY hX)
                  (by linarith)
                rw [mul_zero, zero_div, clip_div hS] at h3
                refine tracks_weaken h3 ?_
                have := div_le_div_of_nonneg_right (mul_le_mul_of_nonneg_left hD (by norm_num : (0:ℚ) ≤ 2)) hS.le
                linarith
              obtain ⟨out, h4, h5⟩ := ih R hR hok' _ hK' hroom' F hbit
                (fun n c i j => if h : c < C' then max (-1) (min ((Spec.conv (Spec.padded g p) C H W id (Spec.quant .bipolar w) (fun _ => v n) we 0 c i j
                      + if bias then Spec.quant .bipolar w ((be.getD fun _ => 0) ⟨c, h⟩) else 0) / S) 1) else 0)
                (fun n c i j _ hc _ _ => by rw [dif_pos hc]; exact clip_abs _) hmid
              refine ⟨out, fun t => ?_, h5⟩
              rw [comp_out (Net.conv g p N C H W m) R x F (fun t => by rw [conv_out]; exact hF t)]
              exact h4 t
  | @relu C H W O d rest ih =>
      intro M hM hok K hK hroom x hx v hva hv
      obtain ⟨hd, hr, hroom'⟩ := hroom
      simp only [buildImg] at hM
      cases hR : buildImg env N rest with
      | error e => rw [hR] at hM; cases hM
      | ok R =>
          rw [hR] at hM; cases hM
          obtain ⟨out, h4, h5⟩ := ih R hR hok _ (by linarith) hroom' (fun t n c i j => reluOut d (fun t => x t n c i j) t)
            (fun n c i j hn hc hi hj t => (C31_dominates d _ (hx n c i j hn hc hi hj) t).1)
            (fun n c i j => max 0 (v n c i j)) (fun n c i j hn hc hi hj => by
              have := abs_le.1 (hva n c i j hn hc hi hj)
              exact abs_le.2 ⟨le_trans (by norm_num) (le_max_left _ _), max_le (by norm_num) this.2⟩)
            (fun n c i j hn hc hi hj => (C72_relu d hd (hx n c i j hn hc hi hj) (le_refl _) (hv n c i j hn hc hi hj) hr).2 rfl)
          refine ⟨out, fun t => ?_, h5⟩
          rw [comp_out (Net.reluImg d) R x _ (fun t => pixels_out _ _ x t)]
          exact h4 t
  | @hardtanh C H W O rest ih =>
      intro M hM hok K hK hroom x hx v hva hv
      simp only [buildImg] at hM
      cases hR : buildImg env N rest with
      | error e => rw [hR] at hM; cases hM
      | ok R =>
          rw [hR] at hM; cases hM
          obtain ⟨out, h4, h5⟩ := ih R hR hok _ hK hroom x hx (fun n c i j => max (-1) (min (v n c i j) 1))
            (fun n c i j _ _ _ _ => clip_abs _)
            (fun n c i j hn hc hi hj => by
              have := abs_le.1 (hva n c i j hn hc hi hj)
              rw [min_eq_left this.2, max_eq_right this.1]; exact hv n c i j hn hc hi hj)
          refine ⟨out, fun t => ?_, h5⟩
          rw [comp_out (Machine.id _) R x x (fun t => id_out _ _)]
          exact h4 t
  | @hardsigmoid C H W O mode depth rest ih =>
      intro M hM hok K hK hroom x hx v hva hv
      obtain ⟨hd, hroom'⟩ := hroom
      simp only [buildImg] at hM
      cases hc : Adder.hardsigmoidMk mode depth with
      | error e => rw [hc] at hM; cases hM
      | ok c =>
          cases hR : buildImg env N rest with
          | error e => rw [hc, hR] at hM; cases hM
          | ok R =>
              rw [hc, hR] at hM; cases hM
              obtain ⟨out, h4, h5⟩ := ih R hR hok _ (by linarith) hroom' (fun t n k i j => hardsigmoidOut c (fun t => x t n k i j) t)
                (fun n k i j _ _ _ _ t => by
                  have : hardsigmoidOut c (fun t => x t n k i j) t = _ := C32_sigmoid_uni2bi mode depth c hc _ t
                  show IsBit (hardsigmoidOut c (fun t => x t n k i j) t)
                  rw [this]; exact isBit_ind _)
                (fun n k i j => max 0 (min ((v n k i j + 1) / 2) 1)) (fun n k i j _ _ _ _ =>
                  abs_le.2 ⟨le_trans (by norm_num) (le_max_left _ _), max_le (by norm_num) (min_le_right _ _)⟩)
                (fun n k i j hn hk hi hj => by
                  have := abs_le.1 (hva n k i j hn hk hi hj)
                  rw [min_eq_left (by linarith [this.2]), max_eq_right (by linarith [this.1])]
                  have := C72_hardsigmoid mode depth hd c hc (hx n k i j hn hk hi hj) (hv n k i j hn hk hi hj)
                  rwa [zero_div] at this)
              refine ⟨out, fun t => ?_, h5⟩
              rw [comp_out (Net.hardsigmoidImg c) R x _ (fun t => pixels_out _ _ x t)]
              exact h4 t

/-- C73: the stored weights make only a small difference. -/
theorem C73_quantised (env : Gen.Env) {C H W O : ℕ} (net : ImgLayers C H W O) :
    Spec.ImgOK env net → ∀ (v v' : ℕ → ℕ → ℕ → ℚ) (e : ℚ), 0 ≤ e → (∀ c i j, c < C → i < H → j < W → |v c i j| ≤ 1) →
    (∀ c i j, c < C → i < H → j < W → |v c i j - v' c i j| ≤ e) →
    ∀ o, |Spec.imgVal (Spec.quant .bipolar) net v o - Spec.imgVal (fun _ a => a) net v' o| ≤ Spec.imgErr net e := by
  induction net with
  | @flatten C H W O rest =>
      intro hok v v' e he hv h
      have hk : ∀ k : Fin (C * H * W), (k / (H * W) < C) ∧ (k / W % H < H) ∧ (k % W < W) := fun k => by
        obtain ⟨ha, hb, hc⟩ := flat_lt k.2
        exact ⟨hc, Nat.mod_lt _ ha, Nat.mod_lt _ hb⟩
      exact C72_quantised env rest hok _ _ e he (fun k => hv _ _ _ (hk k).1 (hk k).2.1 (hk k).2.2)
        (fun k => h _ _ _ (hk k).1 (hk k).2.1 (hk k).2.2)
  | @conv C H W O g p C' H' W' mode w name depth scale we bias be rest ih =>
      intro hok v v' e he hv h
      obtain ⟨-, -, -, -, -, -, -, hS, hwe, hbe, hok'⟩ := hok
      set S := scale.getD (Spec.fanIn (C * g.kh * g.kw) bias) with hSd
      have hP : (0:ℚ) ≤ 1 / 2 ^ w := by positivity
      refine ih hok' _ _ _ (div_nonneg (add_nonneg (mul_nonneg (Nat.cast_nonneg _) (by linarith)) (by split_ifs <;> linarith)) hS.le)
        (fun c i j hc _ _ => by rw [dif_pos hc]; exact clip_abs _) (fun o y x ho _ _ => ?_)
      rw [dif_pos ho, dif_pos ho]
      refine le_trans (clip_lip _ _ _ _) ?_
      rw [← sub_div, abs_div, abs_of_pos hS]
      apply div_le_div_of_nonneg_right _ hS.le
      have h1 : |Spec.conv (Spec.padded g p) C H W id (Spec.quant .bipolar w) (fun _ => v) we 0 o y x
          - Spec.conv (Spec.padded g p) C H W id (fun a => a) (fun _ => v') we 0 o y x| ≤ (C * g.kh * g.kw : ℕ) * (e + 1 / 2 ^ w) := by
        unfold Spec.conv
        show |∑ c ∈ range C, ∑ i ∈ range g.kh, ∑ j ∈ range g.kw, _ - ∑ c ∈ range C, ∑ i ∈ range g.kh, ∑ j ∈ range g.kw, _| ≤ _
        have : ∀ c ∈ range C, ∀ i ∈ range g.kh, ∀ j ∈ range g.kw,
            |Spec.tap (Spec.padded g p) H W 0 (v c) y x i j * Spec.quant .bipolar w (we o c i j)
              - Spec.tap (Spec.padded g p) H W 0 (v' c) y x i j * we o c i j| ≤ e + 1 / 2 ^ w := by
          intro c hc i hi j hj
          rw [mem_range] at hc hi hj
          have ht : |Spec.tap (Spec.padded g p) H W 0 (v c) y x i j| ≤ 1 ∧
              |Spec.tap (Spec.padded g p) H W 0 (v c) y x i j - Spec.tap (Spec.padded g p) H W 0 (v' c) y x i j| ≤ e := by
            rcases tap_cases (Spec.padded g p) H W y x i j with ⟨Y, X, hY, hX, ht⟩ | ht
            · rw [ht ℚ 0 (v c), ht ℚ 0 (v' c)]
              exact ⟨hv c Y X hc hY hX, h c Y X hc hY hX⟩
            · rw [ht ℚ 0 (v c), ht ℚ 0 (v' c)]
              simpa using he
          generalize Spec.tap (Spec.padded g p) H W 0 (v c) y x i j = a at ht ⊢
          generalize Spec.tap (Spec.padded g p) H W 0 (v' c) y x i j = a' at ht ⊢
          have e1 : a * Spec.quant .bipolar w (we o c i j) - a' * we o c i j
              = a * (Spec.quant .bipolar w (we o c i j) - we o c i j) + (a - a') * we o c i j := by ring
          rw [e1]
          refine le_trans (abs_add_le _ _) ?_
          rw [abs_mul, abs_mul]
          have a1 := (quant_near w (we o c i j)).2
          have a2 : |we o c i j| ≤ 1 := abs_le.2 (hwe o c i j ho hc hi hj)
          have b1 := mul_le_mul ht.1 a1 (abs_nonneg _) (by norm_num)
          have b2 := mul_le_mul ht.2 a2 (abs_nonneg _) he
          linarith
        simp only [← sum_sub_distrib, id]
        refine le_trans (abs_sum_le_sum_abs _ _) ?_
        refine le_trans (sum_le_sum fun c hc => le_trans (abs_sum_le_sum_abs _ _)
          (sum_le_sum fun i hi => le_trans (abs_sum_le_sum_abs _ _) (sum_le_sum fun j hj => this c hc i hi j hj))) ?_
        simp only [sum_const, card_range, nsmul_eq_mul]
        push_cast
        apply le_of_eq; ring
      have h2 : |(if bias then Spec.quant .bipolar w ((be.getD fun _ => 0) ⟨o, ho⟩) else 0) - (if bias then (be.getD fun _ => 0) ⟨o, ho⟩ else 0)|
          ≤ if bias then 1 / 2 ^ w else 0 := by
        split_ifs
        · exact (quant_near w _).2
        · simp
      have e2 : ∀ a b c d : ℚ, a + b - (c + d) = (a - c) + (b - d) := fun a b c d => by ring
      rw [e2]
      exact le_trans (abs_add_le _ _) (add_le_add h1 h2)
  | relu d rest ih =>
      intro hok v v' e he hv h
      refine ih hok _ _ e he (fun c i j hc hi hj => ?_) (fun c i j hc hi hj => ?_)
      · have := abs_le.1 (hv c i j hc hi hj)
        exact abs_le.2 ⟨le_trans (by norm_num) (le_max_left _ _), max_le (by norm_num) this.2⟩
      · rw [max_comm, max_comm 0 (v' c i j)]
        exact le_trans (abs_max_sub_max_le_abs _ _ _) (h c i j hc hi hj)
  | hardtanh rest ih =>
      intro hok v v' e he hv h
      exact ih hok _ _ e he (fun c i j _ _ _ => clip_abs _) (fun c i j hc hi hj => le_trans (clip_lip _ _ _ _) (h c i j hc hi hj))
  | hardsigmoid mode depth rest ih =>
      intro hok v v' e he hv h
      refine ih hok _ _ (e / 2) (by linarith) (fun c i j hc hi hj => ?_) (fun c i j hc hi hj => ?_)
      · exact abs_le.2 ⟨le_trans (by norm_num) (le_max_left _ _), max_le (by norm_num) (min_le_right _ _)⟩
      · refine le_trans (clip_lip _ _ _ _) ?_
        rw [show (v c i j + 1) / 2 - (v' c i j + 1) / 2 = (v c i j - v' c i j) / 2 by ring, abs_div, abs_of_pos (by norm_num : (0:ℚ) < 2)]
        exact div_le_div_of_nonneg_right (h c i j hc hi hj) (by norm_num)

/-- C73, end to end: images with pixels in `[-1, 1]` are put into bipolar Sobol streams of width `w0`, the streams go through
the chain, and after any number `T` of cycles the decoded outputs differ from what the chain with exact weights computes for the
images by no more than the quantisation error plus a multiple of `1 / T`. -/
theorem C73_end_to_end {N : ℕ} (hN : 0 < N) (env : Gen.Env) (hdir : Gen.DirOK env.sobolM) {C H W O : ℕ} (net : ImgLayers C H W O)
    {M : Machine Img (List (Fin O → ℤ))} (hM : buildImg env N net = .ok M) (hok : Spec.ImgOK env net)
    (w0 : ℕ) (hw1 : 1 ≤ w0) (hw0 : w0 ≤ env.maxbit) (name : String) (hn : name.toLower ∈ ["sobol", "rc"])
    (hroom : Spec.ImgRoom net (4 * w0)) (a : ℕ → ℕ → ℕ → ℕ → ℚ)
    (ha : ∀ n c i j, n < N → c < C → i < H → j < W → -1 ≤ a n c i j ∧ a n c i j ≤ 1) :
    ∃ l, Gen.rng env w0 name = .ok l ∧ ∃ out : Fin N → Fin O → ℕ → ℤ,
      Spec.Rows (M.out fun t n c i j => Gen.bsGen l (Gen.binGenM .bipolar w0 (a n c i j)) t) out ∧
      ∀ n o (T : ℕ), 0 < T → |Verif.Spec.biValue (out n o) T - Spec.imgVal (fun _ c => c) net (a n) o|
        ≤ Spec.imgErr net (1 / 2 ^ w0) + Spec.imgDev net (4 * w0) / T := by
  obtain ⟨l, hl, hnet⟩ := C08_net env w0 name hn hdir hw0
  have hK : (1:ℚ) ≤ 4 * w0 := by
    have : (1:ℚ) ≤ w0 := by exact_mod_cast hw1
    linarith
  have hq : ∀ n c i j, n < N → c < C → i < H → j < W → |Spec.quant .bipolar w0 (a n c i j)| ≤ 1 :=
    fun n c i j hn hc hi hj => quant_range w0 _ (ha n c i j hn hc hi hj)
  obtain ⟨out, h1, h2⟩ := C73_network hN env hdir net M hM hok (4 * w0) hK hroom
    (fun t n c i j => Gen.bsGen l (Gen.binGenM .bipolar w0 (a n c i j)) t) (fun n c i j _ _ _ _ t => isBit_ind _)
    (fun n c i j => Spec.quant .bipolar w0 (a n c i j)) hq (fun n c i j hn hc hi hj => by
      have r := C05_range .bipolar w0 (a n c i j) (ha n c i j hn hc hi hj)
      exact (C61_source hnet r.1 r.2).2)
  refine ⟨l, hl, out, h1, fun n o T hT => ?_⟩
  have h3 := C60_bipolar_value (h2 n o).2 hT
  have h4 := C73_quantised env net hok (fun c i j => Spec.quant .bipolar w0 (a n c i j)) (a n) (1 / 2 ^ w0) (by positivity)
    (fun c i j hc hi hj => hq n c i j n.2 hc hi hj) (fun c i j _ _ _ => (quant_near w0 _).2) o
  have e : Verif.Spec.biValue (out n o) T - Spec.imgVal (fun _ c => c) net (a n) o
      = (Verif.Spec.biValue (out n o) T - Spec.imgVal (Spec.quant .bipolar) net (fun c i j => Spec.quant .bipolar w0 (a n c i j)) o)
        + (Spec.imgVal (Spec.quant .bipolar) net (fun c i j => Spec.quant .bipolar w0 (a n c i j)) o - Spec.imgVal (fun _ c => c) net (a n) o) := by ring
  rw [e]
  refine le_trans (abs_add_le _ _) ?_
  linarith

/-- Non-vacuity: images of 2x2 pixels, one 2x2 filter with padding 1 giving 3x3, ReLU, and a linear layer with two outputs. -/
private def sample : ImgLayers 1 2 2 2 :=
  .conv ⟨2, 2, 1, 1, 1, 1, 1, 1⟩ 1 1 3 3 "bipolar" 3 "Sobol" 12 none (fun _ _ i j => if i = j then 1/2 else -1) true (some fun _ => 1/4)
    (.relu 9 (.flatten (.linear "bipolar" 3 "Sobol" 14 (some 1) (fun o k => if k = 4 then 1 else (if o = 0 then 0 else 1/2)) false none .done)))

example : Spec.ImgRoom sample (4 * (3:ℕ)) ∧ Spec.ImgOK ⟨30, fun _ => 1, fun _ _ => false, []⟩ sample ∧
    (buildImg ⟨30, fun _ => 1, fun _ _ => false, []⟩ 4 sample).toBool = true := by
  refine ⟨?_, ?_, ?_⟩
  · norm_num [sample, Spec.ImgRoom, Spec.NetRoom, Spec.linDev, Spec.fanIn]
  · simp only [sample, Spec.ImgOK, Spec.NetOK, and_true]
    refine ⟨by simp [Spec.GeoOK, Spec.AxisOK, Spec.padded], by decide, by decide, by decide, by decide +kernel, by decide +kernel, by decide,
      by norm_num [Spec.fanIn], fun o c i j _ _ _ _ => ?_, fun v hv o => ?_, by decide +kernel, by decide +kernel, by decide,
      by norm_num, fun o i => ?_, fun v hv => by cases hv⟩
    · split_ifs <;> norm_num
    · cases hv; norm_num
    · split_ifs <;> norm_num
  · decide +kernel

/-- What it computes for the image with all pixels one: after the ReLU two opposite corners are (1/2 + 1/4) / 5, everything else is
zero. -/
example : Spec.imgVal (fun _ c => c) sample (fun _ _ _ => 1) 0 = 0 ∧ Spec.imgVal (fun _ c => c) sample (fun _ _ _ => 1) 1 = 3 / 20 := by
  decide +kernel

end Verif.Props
