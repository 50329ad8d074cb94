import Verif.Props.Fault
import Verif.Props.Network

/-!
# Property C103: wrong bits in chains of layers
-/

namespace Verif.Props

open Verif Finset Net Linear

/-- A chain of linear layers of the default scale with rate coded weights, hard sigmoids and hard tangents, whose
accumulators do not saturate. -/
def Spec.Averaging {I O : ℕ} : Layers I O → Prop
  | .done => True
  | .linear (I := I) _ _ name depth scale _ bias _ rest =>
      scale = none ∧ 0 < Spec.fanIn I bias ∧ (2 * Spec.fanIn I bias - 1 : ℚ) ≤ (2:ℚ) ^ (depth - 2) ∧
        ¬ Spec.TemporalName name ∧ Spec.Averaging rest
  | .relu _ _ => False
  | .hardtanh rest => Spec.Averaging rest
  | .hardsigmoid _ depth rest => 4 ≤ depth ∧ Spec.Averaging rest

private theorem averaged {N I e d : ℤ} (hN : 0 < N) (hI : I ≤ N) (hd : 0 ≤ d) (h : N * e ≤ I * d + (N - 1)) : e ≤ d := by
  by_contra hc
  have h1 : N * (d + 1) ≤ N * e := Int.mul_le_mul_of_nonneg_left (by omega) hN.le
  have h2 : I * d ≤ N * d := Int.mul_le_mul_of_nonneg_right hI hd
  have h3 : N * (d + 1) = N * d + N := by ring
  omega

/-- C103: a chain of such layers, of any length, never amplifies.  If after `n` cycles the numbers of ones of two input
streams differ by at most `d` for every feature of a row, then the numbers of ones of the outputs of that row differ by at
most `d`, whatever the order of the bits. -/
theorem C103_chain {B : ℕ} (hB : 0 < B) (env : Gen.Env) {I O : ℕ} (net : Layers I O) :
    ∀ M, build env net = .ok M → Spec.Averaging net →
    ∀ x y : Fin B → Fin I → ℕ → ℤ, (∀ b i, Verif.Spec.BitStream (x b i)) → (∀ b i, Verif.Spec.BitStream (y b i)) →
    ∃ out out' : Fin B → Fin O → ℕ → ℤ, Spec.Rows (M.out (pcIn x)) out ∧ Spec.Rows (M.out (pcIn y)) out' ∧
      ∀ b (n d : ℕ), (∀ i, |Verif.Spec.ones (x b i) n - Verif.Spec.ones (y b i) n| ≤ d) →
        ∀ o, |Verif.Spec.ones (out b o) n - Verif.Spec.ones (out' b o) n| ≤ d := by
  induction net with
  | done =>
      intro M hM _ x y _ _
      cases hM
      exact ⟨x, y, fun t => id_out _ _, fun t => id_out _ _, fun b n d h => h⟩
  | @linear I J O mode w name depth scale we bias be rest ih =>
      intro M hM hok x y hx hy
      obtain ⟨rfl, hN, hd, hr, hok'⟩ := hok
      simp only [build] at hM
      cases hm : mkLinear env mode w name depth none we bias be with
      | error e => rw [hm] at hM; cases hM
      | ok m =>
          cases hR : build env rest with
          | error e => rw [hm, hR] at hM; cases hM
          | ok R =>
              rw [hm, hR] at hM; cases hM
              obtain ⟨mid, mid', h1, h1', h2⟩ :=
                C103_linear_counts hB env mode w name depth we bias be m hm hN hd hr x y hx hy
              have hbits : ∀ (z : Fin B → Fin I → ℕ → ℤ) (f : Fin B → Fin J → ℕ → ℤ), Spec.Rows (linOut m z) f →
                  ∀ b o, Verif.Spec.BitStream (f b o) := by
                intro z f hf b o t
                obtain ⟨f', e1, e2⟩ := C45_runs hB m z
                have h := List.ofFn_injective (Except.ok.inj ((hf t).symm.trans (e1 t)))
                have h' : f b o t = f' b o t := congrFun (congrFun h b) o
                rw [h']; exact e2 b o t
              obtain ⟨out, out', h4, h4', h5⟩ := ih R hR hok' mid mid' (hbits x mid h1) (hbits y mid' h1')
              refine ⟨out, out', fun t => ?_, fun t => ?_, fun b n d hδ => h5 b n d fun j => ?_⟩
              · rw [comp_out (Net.linear m) R (pcIn x) (pcIn mid) (fun t => by rw [linear_out]; exact h1 t)]
                exact h4 t
              · rw [comp_out (Net.linear m) R (pcIn y) (pcIn mid') (fun t => by rw [linear_out]; exact h1' t)]
                exact h4' t
              · have h6 : ∑ i, |Verif.Spec.ones (x b i) n - Verif.Spec.ones (y b i) n| ≤ (I : ℤ) * d := by
                  refine (sum_le_sum fun i _ => hδ i).trans ?_
                  rw [sum_const, card_univ, Fintype.card_fin, nsmul_eq_mul]
                have h7 : (I : ℤ) ≤ Spec.fanIn I bias := by unfold Spec.fanIn; push_cast; split_ifs <;> omega
                exact averaged (by exact_mod_cast hN) h7 (by omega) ((h2 b j n).trans (by linarith))
  | @relu I O d rest ih => intro M hM hok; exact absurd hok id
  | @hardtanh I O rest ih =>
      intro M hM hok x y hx hy
      simp only [build] at hM
      cases hR : build env rest with
      | error e => rw [hR] at hM; cases hM
      | ok R =>
          rw [hR] at hM; cases hM
          obtain ⟨out, out', h4, h4', h5⟩ := ih R hR hok x y hx hy
          refine ⟨out, out', fun t => ?_, fun t => ?_, h5⟩
          · rw [comp_out (Machine.id _) R (pcIn x) (pcIn x) (fun t => id_out _ _)]; exact h4 t
          · rw [comp_out (Machine.id _) R (pcIn y) (pcIn y) (fun t => id_out _ _)]; exact h4' t
  | @hardsigmoid I O mode depth rest ih =>
      intro M hM hok x y hx hy
      obtain ⟨hd, hok'⟩ := hok
      simp only [build] at hM
      cases hc : Adder.hardsigmoidMk mode depth with
      | error e => rw [hc] at hM; cases hM
      | ok c =>
          cases hR : build env rest with
          | error e => rw [hc, hR] at hM; cases hM
          | ok R =>
              rw [hc, hR] at hM; cases hM
              have hbits : ∀ z : ℕ → ℤ, Verif.Spec.BitStream (hardsigmoidOut c z) := fun z t => by
                have : hardsigmoidOut c z t = _ := C32_sigmoid_uni2bi mode depth c hc z t
                rw [this]; exact isBit_ind _
              obtain ⟨out, out', h4, h4', h5⟩ := ih R hR hok' (fun b i => hardsigmoidOut c (x b i))
                (fun b i => hardsigmoidOut c (y b i)) (fun b i => hbits _) (fun b i => hbits _)
              refine ⟨out, out', fun t => ?_, fun t => ?_, fun b n d hδ => h5 b n d fun i => ?_⟩
              · rw [comp_out (Net.hardsigmoid I c) R (pcIn x) (pcIn fun b i => hardsigmoidOut c (x b i)) (lanes_out _ _ x)]
                exact h4 t
              · rw [comp_out (Net.hardsigmoid I c) R (pcIn y) (pcIn fun b i => hardsigmoidOut c (y b i)) (lanes_out _ _ y)]
                exact h4' t
              · have e := hδ i
                rw [C32_sigmoid_exact mode depth hd c hc (x b i) (hx b i), C32_sigmoid_exact mode depth hd c hc (y b i) (hy b i)]
                rw [abs_le] at e ⊢
                constructor <;> omega

/-- Non-vacuity: two inputs, a layer with bias and three outputs, a hard sigmoid, a layer with one output. -/
private def faultNet : Layers 2 1 :=
  .linear "bipolar" 3 "Sobol" 12 none (fun (_ : Fin 3) i => if i = 0 then 1/2 else -3/4) true (some fun _ => 1/4)
    (.hardsigmoid "bipolar" 8 (.hardtanh (.linear "unipolar" 3 "rc" 12 none (fun _ _ => 1/2) false none .done)))

example : Spec.Averaging faultNet ∧ (build ⟨30, fun _ => 1, fun _ _ => false, []⟩ faultNet).toBool = true := by
  refine ⟨⟨rfl, by decide, by norm_num [Spec.fanIn], by decide +kernel, by decide, rfl, by decide, by norm_num [Spec.fanIn],
    by decide +kernel, trivial⟩, by decide +kernel⟩

end Verif.Props
