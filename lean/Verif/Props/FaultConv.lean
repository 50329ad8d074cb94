import Verif.Props.Fault
import Verif.Props.Conv

/-!
# Property C103: wrong bits in images
-/

namespace Verif.Props

open Verif Finset Linear Conv

private theorem flips_tap (g : Geo) (H W : ℕ) (mode : Mode) (img img' : ℕ → ℕ → ℕ → ℕ → ℕ → ℤ) (n y x c i j T : ℕ) :
    Spec.flips (Spec.tapStream g H W mode img n y x c i j) (Spec.tapStream g H W mode img' n y x c i j) T
      = Spec.tap g H W 0 (fun Y X => Spec.flips (fun t => img t n c Y X) (fun t => img' t n c Y X) T) y x i j := by
  rcases tap_cases g H W y x i j with ⟨Y, X, -, -, ht⟩ | ht
  · rw [ht]
    unfold Spec.flips Spec.tapStream
    simp only [ht]
  · rw [ht]
    unfold Spec.flips Spec.tapStream
    simp only [ht]
    simp

/-- C103: in a convolution layer of the default scale the wrong bits of the pixels under a window are averaged: if `N` is
the number of addends, `e` of them change the number of ones of an output of that window by at most `e / N`, rounded up,
and wrong bits of other pixels change nothing.  The wrong bits under a window are the convolution of the images' numbers
of wrong bits with a filter of ones. -/
theorem C103_conv {O : ℕ} (hO : 0 < O) (env : Gen.Env) (g : Geo) (p B C H W : ℕ) (hB : 0 < B)
    (h : Spec.GeoOK (Spec.padded g p) H W) (mode : String) (width : ℕ) (name : String) (depth : ℤ)
    (w : ℕ → ℕ → ℕ → ℕ → ℚ) (bias : Bool) (be : Option (Fin O → ℚ)) (m : PC (C * g.kh * g.kw) O × Adder.Cfg)
    (hm : mkConv env g C mode width name depth none w bias be = .ok m) (N : ℕ) (hN : N = Spec.fanIn (C * g.kh * g.kw) bias)
    (h0 : 0 < N) (hd : (2 * N - 1 : ℚ) ≤ (2:ℚ) ^ (depth - 2)) (img img' : ℕ → ℕ → ℕ → ℕ → ℕ → ℤ)
    (hi : Spec.BitImage B C H W img) (hi' : Spec.BitImage B C H W img') :
    ∃ F F' : ℕ → ℕ → Fin O → ℕ → ℕ → ℤ,
      (∀ t, ∃ f, convOut g (.num p) B C H W m img t = .ok f ∧ ∀ (n : ℕ) (o : Fin O) (y x : ℕ), n < B →
        y < Spec.outH (Spec.padded g p) H → x < Spec.outW (Spec.padded g p) W → f n o y x = F t n o y x) ∧
      (∀ t, ∃ f, convOut g (.num p) B C H W m img' t = .ok f ∧ ∀ (n : ℕ) (o : Fin O) (y x : ℕ), n < B →
        y < Spec.outH (Spec.padded g p) H → x < Spec.outW (Spec.padded g p) W → f n o y x = F' t n o y x) ∧
      ∀ (n : ℕ) (o : Fin O) (y x : ℕ), n < B → y < Spec.outH (Spec.padded g p) H → x < Spec.outW (Spec.padded g p) W →
        ∀ T, (N : ℚ) * |Verif.Spec.ones (fun t => F t n o y x) T - Verif.Spec.ones (fun t => F' t n o y x) T|
          ≤ Spec.conv (Spec.padded g p) C H W id id
              (fun n c Y X => Spec.flips (fun t => img t n c Y X) (fun t => img' t n c Y X) T) (fun _ _ _ _ => 1) n o y x
            + (N - 1) := by
  subst hN
  have hL : 0 < B * (Spec.outH (Spec.padded g p) H * Spec.outW (Spec.padded g p) W) :=
    Nat.mul_pos hB (Nat.mul_pos (Nat.succ_pos _) (Nat.succ_pos _))
  obtain ⟨out, out', h1, h1', h2⟩ := C103_linear hL env mode width name depth (viewWeight g C O w) bias be m hm h0 hd
    (convStreams g p B C H W m.1.mode img) (convStreams g p B C H W m.1.mode img')
    (streams_bits g p B C H W m.1.mode img hi) (streams_bits g p B C H W m.1.mode img' hi')
  choose f e1 e2 using fun t => conv_lin hO g p B C H W hB h m img out h1 t
  choose f' e1' e2' using fun t => conv_lin hO g p B C H W hB h m img' out' h1' t
  refine ⟨fun t n o y x => f t n o y x, fun t n o y x => f' t n o y x, fun t => ⟨f t, e1 t, fun _ _ _ _ _ _ _ => rfl⟩,
    fun t => ⟨f' t, e1' t, fun _ _ _ _ _ _ _ => rfl⟩, fun n o y x hn hy hx T => ?_⟩
  obtain ⟨r, hr⟩ := exists_row hn hy hx
  have q1 : (fun t => f t n o y x) = out r o := funext fun t => e2 t n o y x hn hy hx r hr
  have q2 : (fun t => f' t n o y x) = out' r o := funext fun t => e2' t n o y x hn hy hx r hr
  rw [q1, q2]
  have q3 := h2 r o T
  have q4 : ∀ q, Spec.flips (convStreams g p B C H W m.1.mode img r q) (convStreams g p B C H W m.1.mode img' r q) T
      = Spec.windowRow (Spec.padded g p) C H W 0
          (fun n c Y X => Spec.flips (fun t => img t n c Y X) (fun t => img' t n c Y X) T) n y x q := by
    intro q
    rw [streams_tap g p B C H W m.1.mode img n y x hy hx r hr, streams_tap g p B C H W m.1.mode img' n y x hy hx r hr, flips_tap]
    rfl
  rw [sum_congr rfl fun q _ => q4 q] at q3
  have q5 := row_dot (Spec.padded g p) C H W O id id
    (fun n c Y X => (Spec.flips (fun t => img t n c Y X) (fun t => img' t n c Y X) T : ℚ)) (fun _ _ _ _ => 1) n y x o
  rw [← q5]
  have q6 : ∀ q : Fin (C * g.kh * g.kw), ((Spec.windowRow (Spec.padded g p) C H W 0
          (fun n c Y X => Spec.flips (fun t => img t n c Y X) (fun t => img' t n c Y X) T) n y x q : ℤ) : ℚ)
      = id (Spec.windowRow (Spec.padded g p) C H W 0
          (fun n c Y X => (Spec.flips (fun t => img t n c Y X) (fun t => img' t n c Y X) T : ℚ)) n y x q)
        * id (viewWeight (Spec.padded g p) C O (fun _ _ _ _ => 1) o q) := by
    intro q
    have hv : viewWeight (Spec.padded g p) C O (fun _ _ _ _ => (1:ℚ)) o q = 1 :=
      weight_eq (Spec.padded g p) C O (fun _ _ _ _ => (1:ℚ)) o q
    unfold Spec.windowRow
    rw [hv]
    rcases tap_cases (Spec.padded g p) H W y x (q / (Spec.padded g p).kw % (Spec.padded g p).kh) (q % (Spec.padded g p).kw)
      with ⟨Y, X, -, -, ht⟩ | ht <;> rw [ht, ht] <;> simp
  have q7 : ((((Spec.fanIn (C * g.kh * g.kw) bias : ℤ) * |Verif.Spec.ones (out r o) T - Verif.Spec.ones (out' r o) T| : ℤ)) : ℚ)
      ≤ ((∑ q, Spec.windowRow (Spec.padded g p) C H W 0
          (fun n c Y X => Spec.flips (fun t => img t n c Y X) (fun t => img' t n c Y X) T) n y x q
        + ((Spec.fanIn (C * g.kh * g.kw) bias : ℤ) - 1) : ℤ) : ℚ) := by exact_mod_cast q3
  push_cast at q7 ⊢
  refine q7.trans (le_of_eq ?_)
  congr 1
  exact sum_congr rfl fun q _ => q6 q

/-- Non-vacuity: a layer with one 3x3 filter over one channel, padding 1, is accepted and its accumulator is deep enough. -/
example : (mkConv (O := 1) ⟨30, fun _ => 1, fun _ _ => false, []⟩ ⟨3, 3, 1, 1, 1, 1, 1, 1⟩ 1 "Bipolar" 3 "Sobol" 12 none
      (fun _ _ _ _ => 1/2) true (some fun _ => 1/4)).toBool = true ∧ Spec.fanIn (1 * 3 * 3) true = 10 ∧
    (2 * (10:ℕ) - 1 : ℚ) ≤ (2:ℚ) ^ ((12:ℤ) - 2) ∧ Spec.GeoOK (Spec.padded ⟨3, 3, 1, 1, 1, 1, 1, 1⟩ 1) 4 4 :=
  ⟨by decide +kernel, rfl, by norm_num, by unfold Spec.GeoOK Spec.AxisOK Spec.padded; decide⟩

end Verif.Props
