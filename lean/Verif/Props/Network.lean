import Verif.Model.Net
import Verif.Props.ReluRate
import Verif.Props.RnnRate

/-!
# Property C72, second part: chains of streaming layers
-/

namespace Verif.Props

open Verif Finset Net Linear

/-! ## Running a chain -/

/-- A chain is run by running the first module on the input and the second on the results of the first. -/
theorem comp_out {α β γ : Type} (f : Machine α β) (g : Machine β γ) (x : ℕ → α) (y : ℕ → β)
    (h : ∀ t, f.out x t = .ok (y t)) (t : ℕ) : (f.comp g).out x t = g.out y t := by
  have hs : ∀ t, ∃ s, stateAtE f.step f.init x t = .ok s ∧ ∃ s', f.step s (x t) = .ok (s', y t) := by
    intro t
    have := h t
    unfold Machine.out outAtE at this
    cases e : stateAtE f.step f.init x t with
    | error _ => rw [e] at this; cases this
    | ok s =>
        rw [e] at this
        change (f.step s (x t) >>= fun r => pure r.2) = _ at this
        cases e2 : f.step s (x t) with
        | error _ => rw [e2] at this; cases this
        | ok r => rw [e2] at this; exact ⟨s, rfl, r.1, by rw [e2, ← Except.ok.inj this]⟩
  have key : ∀ t s, stateAtE f.step f.init x t = .ok s →
      stateAtE (f.comp g).step (f.comp g).init x t = (stateAtE g.step g.init y t).map fun q => (s, q) := by
    intro t
    induction t with
    | zero => intro s hs; cases hs; rfl
    | succ t ih =>
        intro s hs'
        obtain ⟨s0, e0, s1, e1⟩ := hs t
        have e2 := stateAtE_succ_ok e0 e1
        rw [hs'] at e2; cases e2
        simp only [stateAtE]
        rw [ih s0 e0]
        cases e3 : stateAtE g.step g.init y t with
        | error _ => rfl
        | ok q =>
            show ((f.comp g).step (s0, q) (x t) >>= fun r => pure r.1) = ((g.step q (y t) >>= fun r => pure r.1).map fun q => (s, q))
            show ((f.step s0 (x t) >>= fun r => g.step q r.2 >>= fun q => pure ((r.1, q.1), q.2)) >>= fun r => pure r.1) = _
            rw [e1]
            show ((g.step q (y t) >>= fun q => pure ((s, q.1), q.2)) >>= fun r => pure r.1) = _
            cases g.step q (y t) <;> rfl
  obtain ⟨s0, e0, s1, e1⟩ := hs t
  show outAtE _ _ _ _ = outAtE _ _ _ _
  unfold outAtE
  rw [key t s0 e0]
  cases e3 : stateAtE g.step g.init y t with
  | error _ => rfl
  | ok q =>
      show ((f.step s0 (x t) >>= fun r => g.step q r.2 >>= fun q => pure ((r.1, q.1), q.2)) >>= fun r => pure r.2) = (g.step q (y t) >>= fun r => pure r.2)
      rw [e1]
      show ((g.step q (y t) >>= fun q => pure ((s1, q.1), q.2)) >>= fun r => pure r.2) = _
      cases g.step q (y t) <;> rfl

/-- A module that treats all elements alike runs independently on each of them. -/
theorem lanes_out {σ : Type} {B I : ℕ} (step : σ → ℤ → σ × ℤ) (s0 : σ) (x : Fin B → Fin I → ℕ → ℤ) :
    Spec.Rows (fun t => outAtE (lanes step) [fun _ => s0] (pcIn x) t) (fun b i t => outAt step s0 (x b i) t) := by
  have hstep : ∀ t (acc : List (Fin I → σ)),
      acc = (if t = 0 then [fun _ => s0] else List.ofFn fun (b : Fin B) (i : Fin I) => stateAt step s0 (x b i) t) →
      lanes step acc (pcIn x t) = .ok (List.ofFn fun (b : Fin B) (i : Fin I) => stateAt step s0 (x b i) (t + 1),
        List.ofFn fun (b : Fin B) (i : Fin I) => outAt step s0 (x b i) t) := by
    rintro t acc rfl
    have hz : zipLanes (fun (a : Fin I → σ) (x : Fin I → ℤ) (i : Fin I) => step (a i) (x i))
        (if t = 0 then [fun _ => s0] else List.ofFn fun (b : Fin B) (i : Fin I) => stateAt step s0 (x b i) t) (pcIn x t)
        = .ok (List.ofFn fun (b : Fin B) (i : Fin I) => step (stateAt step s0 (x b i) t) (x b i t)) := by
      unfold zipLanes pcIn
      by_cases ht : t = 0
      · subst ht
        rw [if_pos rfl]
        split_ifs with h1
        · congr 1
          apply List.ext_getElem
          · simp at h1 ⊢; omega
          · intro n h2 h3
            simp at h2
            have : n = 0 := by omega
            subst this
            simp
        · simp only [List.map_ofFn]
          congr 1
      · rw [if_neg ht, if_pos (by simp)]
        congr 1
        apply List.ext_getElem (by simp)
        intro n h2 h3
        simp
    unfold lanes
    rw [hz]
    show Except.ok _ = _
    rw [List.map_ofFn, List.map_ofFn]
    rfl
  have hst : ∀ t, stateAtE (lanes step) [fun _ => s0] (pcIn x) t = .ok
      (if t = 0 then [fun _ => s0] else List.ofFn fun (b : Fin B) (i : Fin I) => stateAt step s0 (x b i) t) := by
    intro t
    induction t with
    | zero => rfl
    | succ t ih =>
        rw [if_neg (by omega)]
        exact stateAtE_succ_ok ih (hstep t _ rfl)
  intro t
  exact outAtE_ok (hst t) (hstep t _ rfl)

theorem linear_out {B I O : ℕ} (m : PC I O × Adder.Cfg) (x : Fin B → Fin I → ℕ → ℤ) (t : ℕ) :
    (Net.linear m).out (pcIn x) t = linOut m x t := by
  have : ∀ t, stateAtE (fun s rows => stepLinear m s { input := rows }) (initLinear m) (pcIn x) t
      = stateAtE (stepLinear m) (initLinear m) (fun t => { input := pcIn x t }) t := by
    intro t
    induction t with
    | zero => rfl
    | succ t ih => simp only [stateAtE]; rw [ih]
  show outAtE (fun s rows => stepLinear m s { input := rows }) (initLinear m) (pcIn x) t = _
  unfold linOut outAtE
  rw [this]

theorem id_out {α : Type} (x : ℕ → α) (t : ℕ) : (Machine.id α).out x t = .ok (x t) := by
  have : ∀ t, stateAtE (Machine.id α).step (Machine.id α).init x t = .ok () := by
    intro t
    induction t with
    | zero => rfl
    | succ t ih => exact stateAtE_succ_ok ih rfl
  exact outAtE_ok (this t) rfl

/-! ## What a chain computes -/

namespace Spec

/-- The numbers a chain computes, if its weights of width `w` are replaced by `q w`: linear maps, divided by the scale after
clipping to it, and the usual activation functions. -/
def netVal (q : ℕ → ℚ → ℚ) : {I O : ℕ} → Layers I O → (Fin I → ℚ) → Fin O → ℚ
  | _, _, .done, v => v
  | I, _, .linear _ w _ _ scale we bias be rest, v => netVal q rest fun o =>
      max (-1) (min ((∑ i, v i * q w (we o i) + if bias then q w ((be.getD fun _ => 0) o) else 0) / scale.getD (fanIn I bias)) 1)
  | _, _, .relu _ rest, v => netVal q rest fun i => max 0 (v i)
  | _, _, .hardtanh rest, v => netVal q rest fun i => max (-1) (min (v i) 1)
  | _, _, .hardsigmoid _ _ rest, v => netVal q rest fun i => max 0 (min ((v i + 1) / 2) 1)

/-- The weights are numbers that bipolar streams can carry, the layers bipolar and rate coded. -/
def NetOK (env : Gen.Env) : {I O : ℕ} → Layers I O → Prop
  | _, _, .done => True
  | I, _, .linear mode w name _ scale we bias be rest => parseMode mode = .ok .bipolar ∧ name.toLower ∈ ["sobol", "rc"] ∧
      w ≤ env.maxbit ∧ 0 < scale.getD (fanIn I bias) ∧ (∀ o i, -1 ≤ we o i ∧ we o i ≤ 1) ∧
      (∀ v, be = some v → ∀ o, -1 ≤ v o ∧ v o ≤ 1) ∧ NetOK env rest
  | _, _, .relu _ rest => NetOK env rest
  | _, _, .hardtanh rest => NetOK env rest
  | _, _, .hardsigmoid _ _ rest => NetOK env rest

/-- Deviation of the sums in a linear layer whose inputs deviate by `K`. -/
def linDev (I w : ℕ) (bias : Bool) (K : ℚ) : ℚ := I * (K + 8 * w) + if bias then 4 * (w:ℚ) else 0

/-- Deviation of the outputs of a chain whose inputs deviate by `K`. -/
def netDev : {I O : ℕ} → Layers I O → ℚ → ℚ
  | _, _, .done, K => K
  | I, _, .linear _ w _ _ scale _ bias _ rest, K => netDev rest (2 + 2 * linDev I w bias K / scale.getD (fanIn I bias))
  | _, _, .relu _ rest, K => netDev rest (K + 1)
  | _, _, .hardtanh rest, K => netDev rest K
  | _, _, .hardsigmoid _ _ rest, K => netDev rest (K / 2 + 1)

/-- All counters have room for these deviations. -/
def NetRoom : {I O : ℕ} → Layers I O → ℚ → Prop
  | _, _, .done, _ => True
  | I, _, .linear _ w _ depth scale _ bias _ rest, K => 2 * scale.getD (fanIn I bias) + linDev I w bias K / 2 ≤ (2:ℚ) ^ (depth - 2) ∧
      NetRoom rest (2 + 2 * linDev I w bias K / scale.getD (fanIn I bias))
  | _, _, .relu d rest, K => 1 ≤ d ∧ K + 1 ≤ 2 ^ (d - 1) ∧ NetRoom rest (K + 1)
  | _, _, .hardtanh rest, K => NetRoom rest K
  | _, _, .hardsigmoid _ depth rest, K => 4 ≤ depth ∧ NetRoom rest (K / 2 + 1)

end Spec

theorem clip_div {V S : ℚ} (hS : 0 < S) : max (-S) (min V S) / S = max (-1) (min (V / S) 1) := by
  rw [← max_div_div_right hS.le, ← min_div_div_right hS.le, neg_div, div_self hS.ne']

theorem clip_abs (V : ℚ) : |max (-1) (min V 1)| ≤ 1 :=
  abs_le.2 ⟨le_max_left _ _, max_le (by norm_num) (min_le_right _ _)⟩

/-- C72: any chain of linear layers, ReLUs, hard sigmoids and hard tangents, of any length and any widths, that can be built
and whose counters have enough room, maps input streams of steady values `v` to streams of the steady value the chain computes
for `v` with the stored weights.  No call fails. -/
theorem C72_network {B : ℕ} (hB : 0 < B) (env : Gen.Env) (hdir : Gen.DirOK env.sobolM) {I O : ℕ} (net : Layers I O) :
    ∀ M, build env net = .ok M → Spec.NetOK env net → ∀ K, Spec.NetRoom net K →
    ∀ x : Fin B → Fin I → ℕ → ℤ, (∀ b i, Verif.Spec.BitStream (x b i)) →
    ∀ v : Fin B → Fin I → ℚ, (∀ b i, |v b i| ≤ 1) → (∀ b i, Spec.Tracks (x b i) (v b i) 0 K) →
    ∃ out : Fin B → Fin O → ℕ → ℤ, Spec.Rows (M.out (pcIn x)) out ∧ ∀ b o, Verif.Spec.BitStream (out b o) ∧
      Spec.Tracks (out b o) (Spec.netVal (Spec.quant .bipolar) net (v b) o) 0 (Spec.netDev net K) := by
  induction net with
  | done =>
      intro M hM _ K _ x hx v _ hv
      cases hM
      exact ⟨x, fun t => id_out _ _, fun b o => ⟨hx b o, hv b o⟩⟩
  | @linear I J O mode w name depth scale we bias be rest ih =>
      intro M hM hok K hroom x hx v hva hv
      obtain ⟨hmode, hn, hw, hS, hwe, hbe, hok'⟩ := hok
      obtain ⟨hr, hroom'⟩ := hroom
      simp only [build] at hM
      cases hm : mkLinear env mode w name depth scale we bias be with
      | error e => rw [hm] at hM; cases hM
      | ok m =>
          cases hR : build env rest with
          | error e => rw [hm, hR] at hM; cases hM
          | ok R =>
              rw [hm, hR] at hM; cases hM
              obtain ⟨mid, h1, h2⟩ := C61_linear hB env mode w name depth hn hdir hw hmode scale we hwe bias be hbe m hm _ rfl hS x hx
              set S := scale.getD (Spec.fanIn I bias) with hSd
              have hmid : ∀ b o, Spec.Tracks (mid b o) (max (-1) (min ((∑ i, v b i * Spec.quant .bipolar w (we o i)
                  + if bias then Spec.quant .bipolar w ((be.getD fun _ => 0) o) else 0) / S) 1)) 0 (2 + 2 * Spec.linDev I w bias K / S) := by
                intro b o
                have hK0 : ∀ i : Fin I, 0 ≤ K := fun i => by have := hv b i 0 0; simpa using this
                have hle : ∑ i : Fin I, (|Spec.quant .bipolar w (we o i)| * K + 8 * w) + (if bias then 4 * (w:ℚ) else 0) ≤ Spec.linDev I w bias K := by
                  have : ∑ i : Fin I, (|Spec.quant .bipolar w (we o i)| * K + 8 * (w:ℚ)) ≤ ∑ _i : Fin I, (K + 8 * (w:ℚ)) :=
                    sum_le_sum fun i _ => by
                      have := mul_le_mul_of_nonneg_right (quant_range w (we o i) (hwe o i)) (hK0 i)
                      linarith
                  rw [sum_const, card_univ, Fintype.card_fin, nsmul_eq_mul] at this
                  unfold Spec.linDev; linarith
                have h3 := (h2 b o).2 (v b) (fun _ => 0) (fun _ => K) (fun _ => le_refl _) (hv b) (by linarith)
                simp only [mul_zero, sum_const_zero, zero_div] at h3
                rw [clip_div hS] at h3
                refine tracks_weaken h3 ?_
                have := div_le_div_of_nonneg_right (mul_le_mul_of_nonneg_left hle (by norm_num : (0:ℚ) ≤ 2)) hS.le
                linarith
              obtain ⟨out, h4, h5⟩ := ih R hR hok' _ hroom' mid (fun b o => (h2 b o).1) _ (fun b o => clip_abs _) hmid
              refine ⟨out, fun t => ?_, h5⟩
              rw [comp_out (Net.linear m) R (pcIn x) (pcIn mid) (fun t => by rw [linear_out]; exact h1 t)]
              exact h4 t
  | @relu I O d rest ih =>
      intro M hM hok K hroom x hx v hva hv
      obtain ⟨hd, hr, hroom'⟩ := hroom
      simp only [build] at hM
      cases hR : build env rest with
      | error e => rw [hR] at hM; cases hM
      | ok R =>
          rw [hR] at hM; cases hM
          obtain ⟨out, h4, h5⟩ := ih R hR hok _ hroom' (fun b i => reluOut d (x b i)) (fun b i t => (C31_dominates d _ (hx b i) t).1)
            (fun b i => max 0 (v b i)) (fun b i => by
              have := abs_le.1 (hva b i)
              exact abs_le.2 ⟨le_trans (by norm_num) (le_max_left _ _), max_le (by norm_num) this.2⟩)
            (fun b i => (C72_relu d hd (hx b i) (le_refl _) (hv b i) hr).2 rfl)
          refine ⟨out, fun t => ?_, h5⟩
          rw [comp_out (Net.relu I d) R (pcIn x) (pcIn fun b i => reluOut d (x b i)) (lanes_out _ _ x)]
          exact h4 t
  | @hardtanh I O rest ih =>
      intro M hM hok K hroom x hx v hva hv
      simp only [build] at hM
      cases hR : build env rest with
      | error e => rw [hR] at hM; cases hM
      | ok R =>
          rw [hR] at hM; cases hM
          have e : ∀ b i, max (-1) (min (v b i) 1) = v b i := fun b i => by
            have := abs_le.1 (hva b i)
            rw [min_eq_left this.2, max_eq_right this.1]
          obtain ⟨out, h4, h5⟩ := ih R hR hok _ hroom x hx (fun b i => max (-1) (min (v b i) 1)) (fun b i => clip_abs _)
            (fun b i => by rw [e]; exact hv b i)
          refine ⟨out, fun t => ?_, h5⟩
          rw [comp_out (Machine.id _) R (pcIn x) (pcIn x) (fun t => id_out _ _)]
          exact h4 t
  | @hardsigmoid I O mode depth rest ih =>
      intro M hM hok K hroom x hx v hva hv
      obtain ⟨hd, hroom'⟩ := hroom
      simp only [build] at hM
      cases hc : Adder.hardsigmoidMk mode depth with
      | error e => rw [hc] at hM; cases hM
      | ok c =>
          cases hR : build env rest with
          | error e => rw [hc, hR] at hM; cases hM
          | ok R =>
              rw [hc, hR] at hM; cases hM
              have e : ∀ b i, max 0 (min ((v b i + 1) / 2) 1) = (v b i + 1) / 2 := fun b i => by
                have := abs_le.1 (hva b i)
                rw [min_eq_left (by linarith [this.2]), max_eq_right (by linarith [this.1])]
              obtain ⟨out, h4, h5⟩ := ih R hR hok _ hroom' (fun b i => hardsigmoidOut c (x b i))
                (fun b i t => by
                  have : hardsigmoidOut c (x b i) t = _ := C32_sigmoid_uni2bi mode depth c hc (x b i) t
                  rw [this]; exact isBit_ind _)
                (fun b i => max 0 (min ((v b i + 1) / 2) 1)) (fun b i => by
                  rw [e]
                  have := abs_le.1 (hva b i)
                  exact abs_le.2 ⟨by linarith [this.1], by linarith [this.2]⟩)
                (fun b i => by
                  rw [e]
                  have := C72_hardsigmoid mode depth hd c hc (hx b i) (hv b i)
                  rwa [zero_div] at this)
              refine ⟨out, fun t => ?_, h5⟩
              rw [comp_out (Net.hardsigmoid I c) R (pcIn x) (pcIn fun b i => hardsigmoidOut c (x b i)) (lanes_out _ _ x)]
              exact h4 t

namespace Spec

/-- Error of the numbers a chain computes with stored instead of exact weights, for inputs that are off by `e`. -/
def netErr : {I O : ℕ} → Layers I O → ℚ → ℚ
  | _, _, .done, e => e
  | I, _, .linear _ w _ _ scale _ bias _ rest, e => netErr rest ((I * (e + 1 / 2 ^ w) + if bias then 1 / 2 ^ w else 0) / scale.getD (fanIn I bias))
  | _, _, .relu _ rest, e => netErr rest e
  | _, _, .hardtanh rest, e => netErr rest e
  | _, _, .hardsigmoid _ _ rest, e => netErr rest (e / 2)

end Spec

theorem clip_lip (lo hi a b : ℚ) : |max lo (min a hi) - max lo (min b hi)| ≤ |a - b| := by
  rw [max_comm lo, max_comm lo]
  refine le_trans (abs_max_sub_max_le_abs (min a hi) (min b hi) lo) ?_
  refine le_trans (abs_min_sub_min_le_max a hi b hi) ?_
  simp

/-- C72: the stored weights make only a small difference. -/
theorem C72_quantised (env : Gen.Env) {I O : ℕ} (net : Layers I O) :
    Spec.NetOK env net → ∀ (v v' : Fin I → ℚ) (e : ℚ), 0 ≤ e → (∀ i, |v i| ≤ 1) → (∀ i, |v i - v' i| ≤ e) →
    ∀ o, |Spec.netVal (Spec.quant .bipolar) net v o - Spec.netVal (fun _ a => a) net v' o| ≤ Spec.netErr net e := by
  induction net with
  | done => intro _ v v' e _ _ h o; exact h o
  | @linear I J O mode w name depth scale we bias be rest ih =>
      intro hok v v' e he hv h
      obtain ⟨-, -, -, hS, hwe, hbe, hok'⟩ := hok
      set S := scale.getD (Spec.fanIn I bias) with hSd
      have hP : (0:ℚ) ≤ 1 / 2 ^ w := by positivity
      refine ih hok' _ _ _ (div_nonneg (add_nonneg (mul_nonneg (Nat.cast_nonneg _) (by linarith)) (by split_ifs <;> linarith)) hS.le)
        (fun o => clip_abs _) (fun o => ?_)
      refine le_trans (clip_lip _ _ _ _) ?_
      rw [← sub_div, abs_div, abs_of_pos hS]
      apply div_le_div_of_nonneg_right _ hS.le
      have h1 : |∑ i, v i * Spec.quant .bipolar w (we o i) - ∑ i, v' i * we o i| ≤ I * (e + 1 / 2 ^ w) := by
        rw [← sum_sub_distrib]
        refine le_trans (abs_sum_le_sum_abs _ _) ?_
        have : ∀ i ∈ (univ : Finset (Fin I)), |v i * Spec.quant .bipolar w (we o i) - v' i * we o i| ≤ e + 1 / 2 ^ w := by
          intro i _
          have e1 : v i * Spec.quant .bipolar w (we o i) - v' i * we o i = v i * (Spec.quant .bipolar w (we o i) - we o i) + (v i - v' i) * we o i := by ring
          rw [e1]
          refine le_trans (abs_add_le _ _) ?_
          rw [abs_mul, abs_mul]
          have a1 := (quant_near w (we o i)).2
          have a2 : |we o i| ≤ 1 := abs_le.2 (hwe o i)
          have b1 := mul_le_mul (hv i) a1 (abs_nonneg _) (by norm_num)
          have b2 := mul_le_mul (h i) a2 (abs_nonneg _) he
          linarith
        have := sum_le_sum this
        rwa [sum_const, card_univ, Fintype.card_fin, nsmul_eq_mul] at this
      have h2 : |(if bias then Spec.quant .bipolar w ((be.getD fun _ => 0) o) else 0) - (if bias then (be.getD fun _ => 0) o else 0)|
          ≤ if bias then 1 / 2 ^ w else 0 := by
        split_ifs
        · exact (quant_near w _).2
        · simp
      have e2 : ∀ a b c d : ℚ, a + b - (c + d) = (a - c) + (b - d) := fun a b c d => by ring
      rw [e2]
      exact le_trans (abs_add_le _ _) (add_le_add h1 h2)
  | relu d rest ih =>
      intro hok v v' e he hv h
      refine ih hok _ _ e he (fun i => ?_) (fun i => ?_)
      · have := abs_le.1 (hv i)
        exact abs_le.2 ⟨le_trans (by norm_num) (le_max_left _ _), max_le (by norm_num) this.2⟩
      · rw [max_comm, max_comm 0 (v' i)]
        exact le_trans (abs_max_sub_max_le_abs _ _ _) (h i)
  | hardtanh rest ih =>
      intro hok v v' e he hv h
      exact ih hok _ _ e he (fun i => clip_abs _) (fun i => le_trans (clip_lip _ _ _ _) (h i))
  | hardsigmoid mode depth rest ih =>
      intro hok v v' e he hv h
      refine ih hok _ _ (e / 2) (by linarith) (fun i => ?_) (fun i => ?_)
      · exact abs_le.2 ⟨le_trans (by norm_num) (le_max_left _ _), max_le (by norm_num) (min_le_right _ _)⟩
      · refine le_trans (clip_lip _ _ _ _) ?_
        rw [show (v i + 1) / 2 - (v' i + 1) / 2 = (v i - v' i) / 2 by ring, abs_div, abs_of_pos (by norm_num : (0:ℚ) < 2)]
        exact div_le_div_of_nonneg_right (h i) (by norm_num)

/-- C72, end to end: numbers `a` in `[-1, 1]` are put into bipolar Sobol streams of width `w0`, the streams go through the chain,
and after any number `n` of cycles the decoded outputs differ from what the chain with exact weights computes for `a` by no
more than the quantisation error plus a multiple of `1 / n`. -/
theorem C72_end_to_end {B : ℕ} (hB : 0 < B) (env : Gen.Env) (hdir : Gen.DirOK env.sobolM) {I O : ℕ} (net : Layers I O)
    {M : Machine (List (Fin I → ℤ)) (List (Fin O → ℤ))} (hM : build env net = .ok M) (hok : Spec.NetOK env net)
    (w0 : ℕ) (hw0 : w0 ≤ env.maxbit) (name : String) (hn : name.toLower ∈ ["sobol", "rc"]) (hroom : Spec.NetRoom net (4 * w0))
    (a : Fin B → Fin I → ℚ) (ha : ∀ b i, -1 ≤ a b i ∧ a b i ≤ 1) :
    ∃ l, Gen.rng env w0 name = .ok l ∧ ∃ out : Fin B → Fin O → ℕ → ℤ,
      Spec.Rows (M.out (pcIn fun b i t => Gen.bsGen l (Gen.binGenM .bipolar w0 (a b i)) t)) out ∧
      ∀ b o (n : ℕ), 0 < n → |Verif.Spec.biValue (out b o) n - Spec.netVal (fun _ c => c) net (a b) o|
        ≤ Spec.netErr net (1 / 2 ^ w0) + Spec.netDev net (4 * w0) / n := by
  obtain ⟨l, hl, hnet⟩ := C08_net env w0 name hn hdir hw0
  have hb : ∀ b i, Verif.Spec.BitStream (fun t => Gen.bsGen l (Gen.binGenM .bipolar w0 (a b i)) t) := fun b i t => isBit_ind _
  have hq : ∀ b i, |Spec.quant .bipolar w0 (a b i)| ≤ 1 := fun b i => quant_range w0 _ (ha b i)
  obtain ⟨out, h1, h2⟩ := C72_network hB env hdir net M hM hok (4 * w0) hroom
    (fun b i t => Gen.bsGen l (Gen.binGenM .bipolar w0 (a b i)) t) hb
    (fun b i => Spec.quant .bipolar w0 (a b i)) hq (fun b i => by
      have r := C05_range .bipolar w0 (a b i) (ha b i)
      exact (C61_source hnet r.1 r.2).2)
  refine ⟨l, hl, out, h1, fun b o n hn' => ?_⟩
  have h3 := C60_bipolar_value (h2 b o).2 hn'
  have h4 := C72_quantised env net hok (fun i => Spec.quant .bipolar w0 (a b i)) (a b) (1 / 2 ^ w0) (by positivity) (hq b)
    (fun i => (quant_near w0 _).2) o
  have e : Verif.Spec.biValue (out b o) n - Spec.netVal (fun _ c => c) net (a b) o
      = (Verif.Spec.biValue (out b o) n - Spec.netVal (Spec.quant .bipolar) net (fun i => Spec.quant .bipolar w0 (a b i)) o)
        + (Spec.netVal (Spec.quant .bipolar) net (fun i => Spec.quant .bipolar w0 (a b i)) o - Spec.netVal (fun _ c => c) net (a b) o) := by ring
  rw [e]
  refine le_trans (abs_add_le _ _) ?_
  linarith

/-- Non-vacuity: two inputs, a scaled linear layer with bias and one output, a ReLU, a non-scaled layer and a hard sigmoid. -/
private def sample : Layers 2 1 :=
  .linear "bipolar" 3 "Sobol" 12 none (fun _ i => if i = 0 then 1/2 else -3/4) true (some fun (_ : Fin 1) => 1/4)
    (.relu 8 (.linear "bipolar" 3 "Sobol" 14 (some 1) (fun _ _ => -1/2) false none (.hardsigmoid "bipolar" 8 (.hardtanh .done))))

example : Spec.NetRoom sample (4 * (3:ℕ)) ∧ Spec.NetOK ⟨30, fun _ => 1, fun _ _ => false, []⟩ sample ∧
    (build ⟨30, fun _ => 1, fun _ _ => false, []⟩ sample).toBool = true := by
  refine ⟨?_, ?_, ?_⟩
  · norm_num [sample, Spec.NetRoom, Spec.linDev, Spec.fanIn]
  · simp only [sample, Spec.NetOK, and_true]
    refine ⟨by decide +kernel, by decide +kernel, by decide, by norm_num [Spec.fanIn], fun o i => ?_, fun v hv o => ?_, by decide +kernel, by decide +kernel, by decide,
      by norm_num, fun o i => by norm_num, fun v hv => by cases hv⟩
    · split_ifs <;> norm_num
    · cases hv; norm_num
  · decide +kernel

/-- What it computes for the inputs 1/2 and -1. -/
example : Spec.netVal (fun _ c => c) sample (fun i => if i = 0 then 1/2 else -1) 0 = 19 / 48 := by
  norm_num [sample, Spec.netVal, Spec.fanIn, Fin.sum_univ_two]

end Verif.Props
