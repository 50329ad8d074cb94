import Verif.Spec
import Verif.Model.Conv
import Verif.Props.Linear
import Verif.Props.Tlut

/-!
# Properties C52–C53: the convolution layers
-/

namespace Verif.Props

open Verif Finset Gen Linear Conv

/-! ## Specification of 2-d convolution -/

/-- The window of an axis fits at least once, and the parameters are positive. -/
def Spec.AxisOK (size k s p d : ℕ) : Prop := 0 < k ∧ 0 < s ∧ d * (k - 1) < size + 2 * p

/-- Output length of an axis: the number of positions at which the dilated window fits into the padded axis. -/
def Spec.outLen (size k s p d : ℕ) : ℕ := (size + 2 * p - (d * (k - 1) + 1)) / s + 1

/-- What tap `(i, j)` of the window at output position `(y, x)` sees: the pixel it covers, or `v` in the padding. -/
def Spec.tap {α : Type} (g : Geo) (H W : ℕ) (v : α) (img : ℕ → ℕ → α) (y x i j : ℕ) : α :=
  if g.ph ≤ y * g.sh + i * g.dh ∧ y * g.sh + i * g.dh < g.ph + H ∧
      g.pw ≤ x * g.sw + j * g.dw ∧ x * g.sw + j * g.dw < g.pw + W then
    img (y * g.sh + i * g.dh - g.ph) (x * g.sw + j * g.dw - g.pw)
  else v

/-- Both axes fit. -/
def Spec.GeoOK (g : Geo) (H W : ℕ) : Prop := Spec.AxisOK H g.kh g.sh g.ph g.dh ∧ Spec.AxisOK W g.kw g.sw g.pw g.dw

/-- Output height. -/
def Spec.outH (g : Geo) (H : ℕ) : ℕ := Spec.outLen H g.kh g.sh g.ph g.dh

/-- Output width. -/
def Spec.outW (g : Geo) (W : ℕ) : ℕ := Spec.outLen W g.kw g.sw g.pw g.dw

/-- Direct convolution of `fx`-images of the taps with `fw`-images of the filter taps. -/
def Spec.conv (g : Geo) (C H W : ℕ) (fx fw : ℚ → ℚ) (img : ℕ → ℕ → ℕ → ℕ → ℚ) (w : ℕ → ℕ → ℕ → ℕ → ℚ)
    (n o y x : ℕ) : ℚ :=
  ∑ c ∈ range C, ∑ i ∈ range g.kh, ∑ j ∈ range g.kw, fx (Spec.tap g H W 0 (img n c) y x i j) * fw (w o c i j)

/-- C52: output length is the number of window positions. -/
theorem C52_positions (size k s p d : ℕ) (h : Spec.AxisOK size k s p d) (y : ℕ) :
    y < Spec.outLen size k s p d ↔ y * s + d * (k - 1) < size + 2 * p := by
  obtain ⟨-, hs, hf⟩ := h
  unfold Spec.outLen
  rw [Nat.lt_succ_iff, Nat.le_div_iff_mul_le hs]
  omega

private theorem blocks_eq (size k s p d : ℕ) (h : Spec.AxisOK size k s p d) :
    blocks size k s p d = Spec.outLen size k s p d := by
  obtain ⟨hk, hs, hf⟩ := h
  unfold blocks Spec.outLen
  have e : ((size:ℤ) + 2 * p - d * ((k:ℤ) - 1) - 1) = ((size + 2 * p - (d * (k - 1) + 1) : ℕ) : ℤ) := by
    rw [Nat.cast_sub (by omega)]
    push_cast [Nat.cast_sub hk]; ring
  rw [e]; push_cast; rfl

private theorem convOutAxis_eq (size k s p d : ℕ) (h : Spec.AxisOK size k s p d) :
    Utils.convOutAxis size (p, p) k s d = .ok (Spec.outLen size k s p d : ℤ) := by
  have hb := blocks_eq size k s p d h
  obtain ⟨hk, hs, hf⟩ := h
  unfold Utils.convOutAxis
  rw [if_neg (by exact_mod_cast hs.ne'), ← hb]
  unfold blocks
  congr 1
  have e : ((size:ℤ) + (p + p) - d * ((k:ℤ) - 1) - 1) = (size:ℤ) + 2 * p - d * ((k:ℤ) - 1) - 1 := by ring
  show ⌊(((size:ℤ) + (p + p) - d * ((k:ℤ) - 1) - 1 : ℤ) : ℚ) / ((s:ℤ):ℚ) + 1⌋ = _
  rw [e, Int.floor_add_one]
  congr 1
  exact_mod_cast Rat.floor_intCast_div_natCast _ s

/-- C52: the declared output size. -/
theorem C52_size (g : Geo) (H W : ℕ) (h : Spec.GeoOK g H W) :
    outSize g H W = .ok ((Spec.outH g H : ℤ), (Spec.outW g W : ℤ)) := by
  have h1 := convOutAxis_eq _ _ _ _ _ h.1
  have h2 := convOutAxis_eq _ _ _ _ _ h.2
  show (Utils.convOutAxis H (g.ph, g.ph) g.kh g.sh g.dh >>= fun a =>
    Utils.convOutAxis W (g.pw, g.pw) g.kw g.sw g.dw >>= fun b => pure (a, b)) = _
  rw [h1, h2]; rfl

/-- Non-vacuity: a 3x2 kernel with stride 2x1, padding 1x0 and dilation 1x2 fits into a 5x6 image; the output is 3x4. -/
example : Spec.GeoOK ⟨3, 2, 2, 1, 1, 0, 1, 2⟩ 5 6 ∧ Spec.outH ⟨3, 2, 2, 1, 1, 0, 1, 2⟩ 5 = 3 ∧
    Spec.outW ⟨3, 2, 2, 1, 1, 0, 1, 2⟩ 6 = 4 := by
  simp [Spec.GeoOK, Spec.AxisOK, Spec.outH, Spec.outW, Spec.outLen]

/-! ## Index arithmetic -/

private theorem padGet_eq {α : Type} (g : Geo) (H W : ℕ) (v : α) (img : ℕ → ℕ → α) (y x i j : ℕ) :
    padGet H W v img ((y : ℤ) * g.sh + (i : ℤ) * g.dh - g.ph) ((x : ℤ) * g.sw + (j : ℤ) * g.dw - g.pw) =
      Spec.tap g H W v img y x i j := by
  unfold padGet Spec.tap
  have e1 : (y : ℤ) * g.sh + (i : ℤ) * g.dh = ((y * g.sh + i * g.dh : ℕ) : ℤ) := by push_cast; ring
  have e2 : (x : ℤ) * g.sw + (j : ℤ) * g.dw = ((x * g.sw + j * g.dw : ℕ) : ℤ) := by push_cast; ring
  rw [e1, e2]
  generalize y * g.sh + i * g.dh = a
  generalize x * g.sw + j * g.dw = b
  generalize g.ph = p
  generalize g.pw = q
  by_cases h : p ≤ a ∧ a < p + H ∧ q ≤ b ∧ b < q + W
  · rw [if_pos h, if_pos (by omega)]
    congr 1 <;> omega
  · rw [if_neg h, if_neg (by omega)]

/-- The row of window taps of output position `(n, y, x)`, in the order channel, kernel row, kernel column. -/
def Spec.windowRow {α : Type} (g : Geo) (C H W : ℕ) (v : α) (img : ℕ → ℕ → ℕ → ℕ → α) (n y x : ℕ) :
    Fin (C * g.kh * g.kw) → α :=
  fun q => Spec.tap g H W v (img n (q / (g.kh * g.kw))) y x (q / g.kw % g.kh) (q % g.kw)

theorem split_idx (K r q : ℕ) (hq : q < K) : (r * K + q) / K = r ∧ (r * K + q) % K = q := by
  constructor
  · rw [mul_comm, Nat.mul_add_div (by omega), Nat.div_eq_of_lt hq, add_zero]
  · rw [mul_comm, Nat.mul_add_mod, Nat.mod_eq_of_lt hq]

private theorem view_flat3 {α : Type} (L K : ℕ) (f : ℕ → ℕ → ℕ → α) (r q : ℕ) (hq : q < K) :
    view2 K (flat3 L K f) r q = f (r / L) (r % L) q := by
  obtain ⟨h1, h2⟩ := split_idx K r q hq
  unfold view2 flat3
  rw [mul_comm L K, ← Nat.div_div_eq_div_mul, h1, h2]

theorem im2col_ok {α : Type} (g : Geo) (N C H W : ℕ) (h : Spec.GeoOK g H W) (v : α) (img : ℕ → ℕ → ℕ → ℕ → α) :
    im2col g N C H W v img = .ok (List.ofFn fun r : Fin (N * (Spec.outH g H * Spec.outW g W)) =>
      Spec.windowRow g C H W v img (r / (Spec.outH g H * Spec.outW g W))
        (r % (Spec.outH g H * Spec.outW g W) / Spec.outW g W) (r % (Spec.outH g H * Spec.outW g W) % Spec.outW g W)) := by
  have h1 := blocks_eq _ _ _ _ _ h.1
  have h2 := blocks_eq _ _ _ _ _ h.2
  have p1 : 0 < Spec.outH g H := Nat.succ_pos _
  have p2 : 0 < Spec.outW g W := Nat.succ_pos _
  unfold im2col
  simp only [h1, h2]
  show (if ((Spec.outH g H : ℕ) : ℤ) < 1 ∨ ((Spec.outW g W : ℕ) : ℤ) < 1 then _ else _) = _
  rw [if_neg (by omega)]
  show Except.ok _ = Except.ok _
  simp only [show ((Spec.outLen H g.kh g.sh g.ph g.dh : ℕ) : ℤ).toNat = Spec.outH g H from Int.toNat_natCast _,
    show ((Spec.outLen W g.kw g.sw g.pw g.dw : ℕ) : ℤ).toNat = Spec.outW g W from Int.toNat_natCast _]
  congr 2
  funext r q
  rw [view_flat3 _ _ _ _ _ q.2]
  exact padGet_eq g H W v _ _ _ _ _

theorem col2im_ok {α : Type} [Inhabited α] {O : ℕ} (N oh ow : ℕ) (hN : 0 < N) (hO : 0 < O)
    (f : Fin (N * (oh * ow)) → Fin O → α) :
    ∃ F, col2im N ((oh : ℤ), (ow : ℤ)) (List.ofFn f) = .ok F ∧
      ∀ (n : ℕ) (o : Fin O) (y x : ℕ) (_ : n < N) (_ : y < oh) (_ : x < ow) (r : Fin (N * (oh * ow))),
        r.1 = n * (oh * ow) + (y * ow + x) → F n o y x = f r o := by
  have e : col2im N ((oh : ℤ), (ow : ℤ)) (List.ofFn f) = .ok fun n o y x => transpose12 (view3 (oh * ow) O (flat2 O
      fun (r o : ℕ) => if h : o < O then (((List.ofFn f)[r]?).map fun row => row ⟨o, h⟩).getD default else default)) n o
        (y * (ow : ℤ).toNat + x) := by
    unfold col2im
    rw [if_neg (by rw [List.length_ofFn]; simp; omega)]
    simp only [List.length_ofFn]
    rw [Nat.mul_div_cancel_left _ hN, if_neg (by push_cast; simp)]
  refine ⟨_, e, ?_⟩
  · intro n o y x hn hy hx r hr
    have hl : y * ow + x < oh * ow := by
      have : (y + 1) * ow ≤ oh * ow := Nat.mul_le_mul_right _ hy
      rw [add_mul, one_mul] at this; omega
    show transpose12 (view3 (oh * ow) O (flat2 O _)) n o (y * (ow : ℤ).toNat + x) = _
    unfold transpose12 view3 flat2
    obtain ⟨h1, h2⟩ := split_idx O (n * (oh * ow) + (y * (ow : ℤ).toNat + x)) o o.2
    rw [h1, h2]
    simp only [o.2, dif_pos]
    rw [Int.toNat_natCast, ← hr, List.getElem?_ofFn]
    simp

/-- C52: unfolding, any row operation `f` and folding assign to output position `(n, o, y, x)` the result of `f` for
filter `o` on the window at `(y, x)` of batch entry `n`; the declared output size is the right one. -/
theorem C52_pipeline {α β : Type} [Inhabited β] {O : ℕ} (hO : 0 < O) (g : Geo) (N C H W : ℕ) (hN : 0 < N)
    (h : Spec.GeoOK g H W) (v : α) (img : ℕ → ℕ → ℕ → ℕ → α) (f : (Fin (C * g.kh * g.kw) → α) → Fin O → β) :
    ∃ rows os F, im2col g N C H W v img = .ok rows ∧ outSize g H W = .ok os ∧ col2im N os (rows.map f) = .ok F ∧
      ∀ (n : ℕ) (o : Fin O) (y x : ℕ), n < N → y < Spec.outH g H → x < Spec.outW g W →
        F n o y x = f (Spec.windowRow g C H W v img n y x) o := by
  have p2 : 0 < Spec.outW g W := Nat.succ_pos _
  obtain ⟨F, h1, h2⟩ := col2im_ok (α := β) N (Spec.outH g H) (Spec.outW g W) hN hO (f ∘ fun r : Fin (N * (Spec.outH g H * Spec.outW g W)) =>
      Spec.windowRow g C H W v img (r / (Spec.outH g H * Spec.outW g W))
        (r % (Spec.outH g H * Spec.outW g W) / Spec.outW g W) (r % (Spec.outH g H * Spec.outW g W) % Spec.outW g W))
  refine ⟨_, _, F, im2col_ok g N C H W h v img, C52_size g H W h, by rw [List.map_ofFn]; exact h1, fun n o y x hn hy hx => ?_⟩
  have hl : y * Spec.outW g W + x < Spec.outH g H * Spec.outW g W := by
    have : (y + 1) * Spec.outW g W ≤ Spec.outH g H * Spec.outW g W := Nat.mul_le_mul_right _ hy
    rw [add_mul, one_mul] at this; omega
  have hr : n * (Spec.outH g H * Spec.outW g W) + (y * Spec.outW g W + x) < N * (Spec.outH g H * Spec.outW g W) := by
    have : (n + 1) * (Spec.outH g H * Spec.outW g W) ≤ N * (Spec.outH g H * Spec.outW g W) := Nat.mul_le_mul_right _ hn
    rw [add_mul, one_mul] at this; omega
  rw [h2 n o y x hn hy hx ⟨_, hr⟩ rfl]
  obtain ⟨a1, a2⟩ := split_idx (Spec.outH g H * Spec.outW g W) n (y * Spec.outW g W + x) hl
  obtain ⟨a3, a4⟩ := split_idx (Spec.outW g W) y x hx
  simp only [Function.comp, a1, a2, a3, a4]

/-- C52: unfolding fails when the window does not fit into the padded image. -/
theorem C52_too_large {α : Type} (g : Geo) (N C H W : ℕ) (v : α) (img : ℕ → ℕ → ℕ → ℕ → α) (hk : 0 < g.kh ∧ 0 < g.kw)
    (hs : 0 < g.sh ∧ 0 < g.sw) (h : H + 2 * g.ph ≤ g.dh * (g.kh - 1) ∨ W + 2 * g.pw ≤ g.dw * (g.kw - 1)) :
    im2col g N C H W v img = .error .runtime := by
  have key : ∀ size k s p d : ℕ, 0 < k → 0 < s → size + 2 * p ≤ d * (k - 1) → blocks size k s p d < 1 := by
    intro size k s p d hk hs hle
    unfold blocks
    have e : (d:ℤ) * ((k:ℤ) - 1) = ((d * (k - 1) : ℕ) : ℤ) := by push_cast [Nat.cast_sub hk]; ring
    rw [e]
    have : ((size:ℤ) + 2 * p - ((d * (k - 1) : ℕ) : ℤ) - 1) / (s:ℤ) < 0 := Int.ediv_neg_of_neg_of_pos (by omega) (by omega)
    omega
  unfold im2col
  rw [if_pos (h.imp (key _ _ _ _ _ hk.1 hs.1) (key _ _ _ _ _ hk.2 hs.2))]

/-- Non-vacuity: a 3x3 kernel with dilation 2 does not fit into a 4x4 image. -/
example : im2col ⟨3, 3, 1, 1, 0, 0, 2, 2⟩ 1 1 4 4 (0:ℤ) (fun _ _ _ _ => 1) = .error .runtime :=
  C52_too_large _ _ _ _ _ _ _ (by simp) (by simp) (by simp)

/-! ## The three layers on numbers -/

/-- A sum over flattened positions is the triple sum. -/
theorem sum_flat {R : Type} [AddCommMonoid R] (C a b : ℕ) (F : ℕ → ℕ → ℕ → R) :
    ∑ q : Fin (C * a * b), F (q / (a * b)) (q / b % a) (q % b) = ∑ c ∈ range C, ∑ i ∈ range a, ∑ j ∈ range b, F c i j := by
  have key : ∀ (m k : ℕ) (G : ℕ → R), ∑ q ∈ range (m * k), G q = ∑ i ∈ range m, ∑ j ∈ range k, G (i * k + j) := by
    intro m k G
    induction m with
    | zero => simp
    | succ m ih => rw [add_mul, one_mul, sum_range_add, ih, sum_range_succ]
  rw [Fin.sum_univ_eq_sum_range (fun q => F (q / (a * b)) (q / b % a) (q % b)), key, key]
  apply sum_congr rfl; intro c _
  apply sum_congr rfl; intro i hi
  apply sum_congr rfl; intro j hj
  rw [mem_range] at hi hj
  obtain ⟨h1, h2⟩ := split_idx b (c * a + i) j hj
  obtain ⟨h3, h4⟩ := split_idx a c i hi
  rw [mul_comm a b, ← Nat.div_div_eq_div_mul, h1, h2, h3, h4]

theorem flat_lt {C a b q : ℕ} (hq : q < C * a * b) : 0 < a ∧ 0 < b ∧ q / (a * b) < C := by
  have hb : 0 < b := Nat.pos_of_ne_zero fun h0 => by rw [h0, mul_zero] at hq; omega
  have ha : 0 < a := Nat.pos_of_ne_zero fun h0 => by rw [h0, mul_zero, zero_mul] at hq; omega
  exact ⟨ha, hb, by rw [Nat.div_lt_iff_lt_mul (Nat.mul_pos ha hb), ← mul_assoc]; exact hq⟩

theorem view_flat4 {α : Type} (C a b : ℕ) (w : ℕ → ℕ → ℕ → ℕ → α) (o q : ℕ) (hq : q < C * a * b) :
    view2 (C * a * b) (flat4 C a b w) o q = w o (q / (a * b)) (q / b % a) (q % b) := by
  obtain ⟨h1, -⟩ := split_idx (C * a * b) o q hq
  unfold view2 flat4
  rw [h1]
  obtain ⟨ha, hb, hc⟩ := flat_lt hq
  have hab : 0 < a * b := Nat.mul_pos ha hb
  congr 1
  · rw [show o * (C * a * b) + q = q + (a * b) * (o * C) by ring, Nat.add_mul_div_left _ _ hab, Nat.add_mul_mod_self_right,
      Nat.mod_eq_of_lt hc]
  · rw [show o * (C * a * b) + q = q + b * ((o * C) * a) by ring, Nat.add_mul_div_left _ _ hb, Nat.add_mul_mod_self_right]
  · rw [show o * (C * a * b) + q = q + b * ((o * C) * a) by ring, Nat.add_mul_mod_self_left]

theorem weight_eq {α : Type} (g : Geo) (C O : ℕ) (w : ℕ → ℕ → ℕ → ℕ → α) (o : Fin O) (q : Fin (C * g.kh * g.kw)) :
    viewWeight g C O w o q = w o (q / (g.kh * g.kw)) (q / g.kw % g.kh) (q % g.kw) := view_flat4 _ _ _ _ _ _ q.2

/-- Row product of a window and a filter. -/
theorem row_dot (g : Geo) (C H W O : ℕ) (fx fw : ℚ → ℚ) (img w : ℕ → ℕ → ℕ → ℕ → ℚ) (n y x : ℕ) (o : Fin O) :
    ∑ q, fx (Spec.windowRow g C H W 0 img n y x q) * fw (viewWeight g C O w o q) = Spec.conv g C H W fx fw img w n o y x := by
  unfold Spec.conv
  rw [← sum_flat C g.kh g.kw fun c i j => fx (Spec.tap g H W 0 (img n c) y x i j) * fw (w o c i j)]
  apply sum_congr rfl
  intro q _
  rw [weight_eq]; rfl

private theorem addBias4_eq {O : ℕ} (bias : Option (Fin O → ℚ)) (f : ℕ → ℕ → ℕ → ℕ → ℚ) (n : ℕ) (o : Fin O) (y x : ℕ) :
    addBias4 bias f n o y x = f n o y x + (bias.map fun b => b o).getD 0 := by
  cases bias <;> simp [addBias4]

/-- C52: the fixed-point layer is direct convolution, with zero padding, of input and filters rounded to the nearest
multiple of their unit. -/
theorem C52_fxp {O : ℕ} (hO : 0 < O) (g : Geo) (N C H W : ℕ) (hN : 0 < N) (h : Spec.GeoOK g H W) (wi ww : ℕ) (qi qw : ℚ)
    (rounding : String) (w : ℕ → ℕ → ℕ → ℕ → ℚ) (bias : Option (Fin O → ℚ)) (img : ℕ → ℕ → ℕ → ℕ → ℚ) (rsi rsw rso : ℤ)
    (hs : rshift (entries N C H W img) (viewWeight g C O w) ((wi:ℤ) - 1) ((ww:ℤ) - 1) rounding.toLower qi qw = .ok (rsi, rsw, rso)) :
    ∃ F, fxpConv g N C H W wi ww qi qw rounding w bias img = .ok F ∧
    ∃ qx qw : ℚ → ℚ, (∀ a, Spec.Nearest (2 ^ wi - 1) ((2:ℚ) ^ rsi) a (qx a)) ∧
      (∀ a, Spec.Nearest (2 ^ ww - 1) ((2:ℚ) ^ rsw) a (qw a)) ∧
      ∀ (n : ℕ) (o : Fin O) (y x : ℕ), n < N → y < Spec.outH g H → x < Spec.outW g W →
        F n o y x = Spec.conv g C H W qx qw img w n o y x + (bias.map fun b => b o).getD 0 := by
  obtain ⟨qx, qw', h1, h2, h3⟩ := fxp_row wi ww rsi rsw
  obtain ⟨rows, os, F, e1, e2, e3, e4⟩ := C52_pipeline hO g N C H W hN h (0:ℚ) img
    (fun row (o : Fin O) => fxpForward rsi rsw (0 - rsi - rsw) (2 ^ wi) (2 ^ ww) row (viewWeight g C O w o) none)
  refine ⟨addBias4 bias F, ?_, qx, qw', h1, h2, fun n o y x hn hy hx => ?_⟩
  · unfold fxpConv
    show (rshift (entries N C H W img) (viewWeight g C O w) _ _ _ _ _ >>= _) = _
    rw [hs]
    show (outSize g H W >>= _) = _
    rw [e2]
    show (im2col g N C H W 0 img >>= _) = _
    rw [e1]
    show (col2im N os _ >>= _) = _
    rw [e3]; rfl
  · rw [addBias4_eq, e4 n o y x hn hy hx, h3, row_dot]
    simp

/-- `M` is the largest magnitude of an array of the given sizes. -/
def Spec.MaxAbs4 (M : ℚ) (N C H W : ℕ) (img : ℕ → ℕ → ℕ → ℕ → ℚ) : Prop :=
  (∀ n c y x, n < N → c < C → y < H → x < W → |img n c y x| ≤ M) ∧
    ∃ n c y x, n < N ∧ c < C ∧ y < H ∧ x < W ∧ |img n c y x| = M

theorem maxAbs_entries {M : ℚ} {N C H W : ℕ} {img : ℕ → ℕ → ℕ → ℕ → ℚ} (h : Spec.MaxAbs4 M N C H W img) :
    Spec.MaxAbs M ((List.ofFn fun (n : Fin N) (q : Fin (C * H * W)) => view2 (C * H * W) (flat4 C H W img) n q).flatMap List.ofFn) := by
  obtain ⟨h1, n, c, y, x, hn, hc, hy, hx, hm⟩ := h
  constructor
  · intro a ha
    simp only [List.mem_flatMap, List.mem_ofFn] at ha
    obtain ⟨_, ⟨n, rfl⟩, q, rfl⟩ := ha
    obtain ⟨ha, hb, hc⟩ := flat_lt q.2
    show |view2 _ _ _ _| ≤ M
    rw [view_flat4 _ _ _ _ _ _ q.2]
    exact h1 _ _ _ _ n.2 hc (Nat.mod_lt _ ha) (Nat.mod_lt _ hb)
  · refine ⟨_, ?_, hm⟩
    simp only [List.mem_flatMap, List.mem_ofFn]
    have hlt : (c * H + y) * W + x < C * H * W := by
      have a1 : c * H + y + 1 ≤ C * H := by
        have : (c + 1) * H ≤ C * H := Nat.mul_le_mul_right _ hc
        rw [add_mul, one_mul] at this; omega
      have : (c * H + y + 1) * W ≤ C * H * W := Nat.mul_le_mul_right _ a1
      rw [add_mul, one_mul] at this; omega
    refine ⟨_, ⟨⟨n, hn⟩, rfl⟩, ⟨_, hlt⟩, ?_⟩
    rw [view_flat4 _ _ _ _ _ _ hlt]
    obtain ⟨a1, a2⟩ := split_idx W (c * H + y) x hx
    obtain ⟨a3, a4⟩ := split_idx H c y hy
    show img n _ _ _ = _
    rw [mul_comm H W, ← Nat.div_div_eq_div_mul, a1, a2, a3, a4]

private theorem tap_bound (g : Geo) (H W : ℕ) (M : ℚ) (hM : 0 ≤ M) (img : ℕ → ℕ → ℚ) (h : ∀ y x, y < H → x < W → |img y x| ≤ M)
    (y x i j : ℕ) : |Spec.tap g H W 0 img y x i j| ≤ M := by
  unfold Spec.tap
  split_ifs with hc
  · exact h _ _ (by omega) (by omega)
  · simpa using hM

theorem windowRow_bound (g : Geo) (N C H W : ℕ) (M : ℚ) (hM : 0 ≤ M) (img : ℕ → ℕ → ℕ → ℕ → ℚ)
    (h : ∀ n c y x, n < N → c < C → y < H → x < W → |img n c y x| ≤ M) (n y x : ℕ) (hn : n < N) (q : Fin (C * g.kh * g.kw)) :
    |Spec.windowRow g C H W 0 img n y x q| ≤ M := by
  exact tap_bound g H W M hM _ (fun y x hy hx => h n _ y x hn (flat_lt q.2).2.2 hy hx) _ _ _ _

/-- C52: end to end error of the fixed-point layer against exact convolution, with quantile 1. -/
theorem C52_fxp_error {O : ℕ} (hO : 0 < O) (g : Geo) (N C H W : ℕ) (hN : 0 < N) (h : Spec.GeoOK g H W) (wi ww : ℕ)
    (hwi : 1 ≤ wi) (hww : 1 ≤ ww) (rounding : String) (hr : rounding.toLower ∈ ["round", "ceil", "floor"])
    (w : ℕ → ℕ → ℕ → ℕ → ℚ) (bias : Option (Fin O → ℚ)) (img : ℕ → ℕ → ℕ → ℕ → ℚ) (M V : ℚ) (hM : 0 < M) (hV : 0 < V)
    (hx : Spec.MaxAbs4 M N C H W img) (hw : Spec.MaxAbs4 V O C g.kh g.kw w) :
    ∃ im wm, Spec.PickedPow rounding.toLower im M ∧ Spec.PickedPow rounding.toLower wm V ∧
      ∃ F, fxpConv g N C H W wi ww 1 1 rounding w bias img = .ok F ∧
      ∀ (n : ℕ) (o : Fin O) (y x : ℕ), n < N → y < Spec.outH g H → x < Spec.outW g W →
        ∀ k dx dw : ℚ, k = (if rounding.toLower = "floor" then 1 else 1/2) → dx = k * (2:ℚ) ^ (im - ((wi:ℤ) - 1)) →
        dw = k * (2:ℚ) ^ (wm - ((ww:ℤ) - 1)) →
        |F n o y x - (Spec.conv g C H W id id img w n o y x + (bias.map fun b => b o).getD 0)| ≤
          (C * g.kh * g.kw : ℕ) * (M * dw + V * dx + dx * dw) := by
  obtain ⟨im, wm, p1, p2, hs⟩ := C58_full (entries N C H W img) (viewWeight g C O w) ((wi:ℤ) - 1) ((ww:ℤ) - 1) rounding.toLower hr
    M V hM hV (maxAbs_entries hx) (maxAbs_entries hw)
  obtain ⟨F, e1, qx, qw, e2, e3, e4⟩ := C52_fxp hO g N C H W hN h wi ww 1 1 rounding w bias img _ _ _ hs
  refine ⟨im, wm, p1, p2, F, e1, fun n o y x hn hy hx' k dx dw hk hdx hdw => ?_⟩
  rw [e4 n o y x hn hy hx', add_sub_add_right_eq_sub, ← row_dot, ← row_dot]
  have hxb := windowRow_bound g N C H W M hM.le img hx.1 n y x hn
  have hwb : ∀ q, |viewWeight g C O w o q| ≤ V := fun q =>
    (maxAbs_entries hw).1 _ (by simp only [List.mem_flatMap, List.mem_ofFn]; exact ⟨_, ⟨o, rfl⟩, q, rfl⟩)
  refine dot_err _ _ _ _ M V dx dw hxb hwb (fun i => ?_) (fun i => ?_)
  · obtain ⟨a1, a2⟩ := fxp_fit wi hwi _ im M _ _ hM.le p1 (hxb i) (e2 _)
    rw [hdx, hk]
    split_ifs with hf
    · rw [one_mul]; exact a1
    · have := a2 hf; simp only [id]; linarith
  · obtain ⟨a1, a2⟩ := fxp_fit ww hww _ wm V _ _ hV.le p2 (hwb i) (e3 _)
    rw [hdw, hk]
    split_ifs with hf
    · rw [one_mul]; exact a1
    · have := a2 hf; simp only [id]; linarith

/-- Non-vacuity: the magnitudes of a 2x2 image. -/
example : Spec.MaxAbs4 (3/2) 1 1 2 2 (fun _ _ y x => if y = x then -3/2 else 1/4) := by
  refine ⟨fun n c y x _ _ _ _ => ?_, 0, 0, 0, 0, by omega, by omega, by omega, by omega, by norm_num [abs_div]⟩
  simp only
  split_ifs <;> norm_num [abs_div]

/-- C52: the HUB layer is, up to the error of its product table, direct convolution of the rounded operands. -/
theorem C52_hub {O : ℕ} (hO : 0 < O) (g : Geo) (N C H W : ℕ) (hN : 0 < N) (h : Spec.GeoOK g H W) (hub : Hub) (B : ℕ)
    (hwi : hub.widthi = B + 1) (hww : hub.widthw = B + 1) (hc : 1 ≤ hub.cycle)
    (hcm : hub.cycle ≤ 2 ^ B) (ε : ℚ) (hT : ∀ i v, i < hub.cycle → v < hub.cycle → |(hub.table i v : ℚ) - i * v / 2 ^ B| ≤ ε)
    (w : ℕ → ℕ → ℕ → ℕ → ℚ) (bias : Option (Fin O → ℚ)) (img : ℕ → ℕ → ℕ → ℕ → ℚ) (im wm : ℤ)
    (hs : rshift (entries N C H W img) (viewWeight g C O w) B B hub.rounding hub.quantilei hub.quantilew =
      .ok (im - B, wm - B, B - im - wm)) :
    ∃ F, hubConv hub g N C H W w bias img = .ok F ∧
    ∃ qx qw : ℚ → ℚ, (∀ a, Spec.Nearest (hub.cycle - 1) ((2:ℚ) ^ (im - B)) a (qx a)) ∧
      (∀ a, Spec.Nearest (hub.cycle - 1) ((2:ℚ) ^ (wm - B)) a (qw a)) ∧
      ∀ (n : ℕ) (o : Fin O) (y x : ℕ), n < N → y < Spec.outH g H → x < Spec.outW g W →
        |F n o y x - (Spec.conv g C H W qx qw img w n o y x + (bias.map fun b => b o).getD 0)| ≤
          (C * g.kh * g.kw : ℕ) * ε * (2:ℚ) ^ (im + wm - B) := by
  obtain ⟨qx, qw', h1, h2, h3⟩ := hub_row (2 ^ B) hub.cycle hc hcm hub.table B ε hT im wm
  obtain ⟨rows, os, F, e1, e2, e3, e4⟩ := C52_pipeline hO g N C H W hN h (0:ℚ) img
    (fun row (o : Fin O) => hubForward (im - B) (wm - B) (B - im - wm) (2 ^ B) hub.cycle hub.table row
      (viewWeight g C O w o) none)
  refine ⟨addBias4 bias F, ?_, qx, qw', h1, h2, fun n o y x hn hy hx => ?_⟩
  · unfold hubConv
    show (rshift (entries N C H W img) (viewWeight g C O w) _ _ _ _ _ >>= _) = _
    rw [hwi, hww, show (((B + 1 : ℕ) : ℤ) - 1) = B by push_cast; ring, hs, show hubCycleMax (B + 1) (B + 1) = 2 ^ B by
      unfold hubCycleMax; rw [max_self]; rfl]
    show (outSize g H W >>= _) = _
    rw [e2]
    show (im2col g N C H W 0 img >>= _) = _
    rw [e1]
    show (col2im N os _ >>= _) = _
    rw [e3]; rfl
  · rw [addBias4_eq, e4 n o y x hn hy hx, add_sub_add_right_eq_sub, ← row_dot]
    simpa using h3 (Spec.windowRow g C H W 0 img n y x) (viewWeight g C O w o) none

/-- C52: the temporal table layer, in every format combination, is direct convolution of the operand values of the linear
layer on the unfolded rows. -/
theorem C52_tlut {O : ℕ} (hO : 0 < O) (g : Geo) (N C H W : ℕ) (hN : 0 < N) (h : Spec.GeoOK g H W) (cfg : Tlut)
    (w : ℕ → ℕ → ℕ → ℕ → ℚ) (bias : Option (Fin O → ℚ)) (img : ℕ → ℕ → ℕ → ℕ → ℚ) (fx fw : ℚ → ℚ)
    (rows : List (Fin (C * g.kh * g.kw) → ℚ)) (hrows : im2col g N C H W 0 img = .ok rows)
    (hf : cfg.forward (viewWeight g C O w) none rows = .ok (rows.map fun row o => ∑ i, fx (row i) * fw (viewWeight g C O w o i))) :
    ∃ F, tlutConv cfg g N C H W w bias img = .ok F ∧
      ∀ (n : ℕ) (o : Fin O) (y x : ℕ), n < N → y < Spec.outH g H → x < Spec.outW g W →
        F n o y x = Spec.conv g C H W fx fw img w n o y x + (bias.map fun b => b o).getD 0 := by
  obtain ⟨rows', os, F, e1, e2, e3, e4⟩ := C52_pipeline hO g N C H W hN h (0:ℚ) img
    (fun row (o : Fin O) => ∑ i, fx (row i) * fw (viewWeight g C O w o i))
  rw [hrows] at e1; cases e1
  refine ⟨addBias4 bias F, ?_, fun n o y x hn hy hx => ?_⟩
  · unfold tlutConv
    show (outSize g H W >>= _) = _
    rw [e2]
    show (im2col g N C H W 0 img >>= _) = _
    rw [hrows]
    show (cfg.forward (viewWeight g C O w) none rows >>= _) = _
    rw [hf]
    show (col2im N os _ >>= _) = _
    rw [e3]; rfl
  · rw [addBias4_eq, e4 n o y x hn hy hx, row_dot]

theorem pos_lt {N oh ow : ℕ} (r : Fin (N * (oh * ow))) : r / (oh * ow) < N ∧ r % (oh * ow) / ow < oh ∧ r % (oh * ow) % ow < ow := by
  have hr := r.2
  have hL : 0 < oh * ow := Nat.pos_of_ne_zero fun h0 => by
    have := r.2; simp only [h0, mul_zero] at this; omega
  have how : 0 < ow := Nat.pos_of_ne_zero fun h0 => by rw [h0, mul_zero] at hL; omega
  exact ⟨by rw [Nat.div_lt_iff_lt_mul hL]; exact hr, by rw [Nat.div_lt_iff_lt_mul how]; exact Nat.mod_lt _ hL, Nat.mod_lt _ how⟩

/-- C52: with floating-point formats and all temporal cycles, the temporal table layer is exactly convolution, provided
the temporal operand has no more significant bits than its format. -/
theorem C52_tlut_exact {O : ℕ} (hO : 0 < O) (g : Geo) (N C H W : ℕ) (hN : 0 < N) (h : Spec.GeoOK g H W) (cfg : Tlut)
    (hfi : cfg.formati ≠ .fxp) (hfw : cfg.formatw ≠ .fxp) (ht : 1 ≤ cfg.t) (hcyc : ∀ k, cfg.cycle = some k → 2 ^ cfg.t ≤ k)
    (w : ℕ → ℕ → ℕ → ℕ → ℚ) (bias : Option (Fin O → ℚ)) (img : ℕ → ℕ → ℕ → ℕ → ℚ)
    (hx : cfg.temporalI = true → ∀ n c y x, n < N → c < C → y < H → x < W → Spec.FitsBits (Spec.sigBits cfg.formati 0) (img n c y x))
    (hw : cfg.temporalI = false → ∀ o c i j, o < O → c < C → i < g.kh → j < g.kw →
      Spec.FitsBits (Spec.sigBits cfg.formatw 0) (w o c i j)) :
    ∃ F, tlutConv cfg g N C H W w bias img = .ok F ∧
      ∀ (n : ℕ) (o : Fin O) (y x : ℕ), n < N → y < Spec.outH g H → x < Spec.outW g W →
        F n o y x = Spec.conv g C H W id id img w n o y x + (bias.map fun b => b o).getD 0 := by
  have hrows := im2col_ok g N C H W h (0:ℚ) img
  obtain ⟨width, q, hwd, h1, h2⟩ := C49_fpfp cfg hfi hfw ht hcyc (viewWeight g C O w) none (List.ofFn fun r : Fin (N * (Spec.outH g H * Spec.outW g W)) =>
      Spec.windowRow g C H W 0 img (r / (Spec.outH g H * Spec.outW g W))
        (r % (Spec.outH g H * Spec.outW g W) / Spec.outW g W) (r % (Spec.outH g H * Spec.outW g W) % Spec.outW g W))
  refine C52_tlut hO g N C H W hN h cfg w bias img id id _ hrows ?_
  rw [h1]
  congr 1
  apply List.map_congr_left
  intro row hrow
  rw [List.mem_ofFn] at hrow
  obtain ⟨r, rfl⟩ := hrow
  funext o
  simp only [Option.map_none, Option.getD_none, add_zero, id]
  apply sum_congr rfl
  intro i _
  obtain ⟨ha, hb, hc⟩ := flat_lt i.2
  cases hT : cfg.temporalI with
  | true =>
      rw [if_pos rfl]
      congr 1
      refine (h2 _).1 ?_
      rw [hwd, hT, if_pos rfl]
      unfold Spec.windowRow Spec.tap
      split_ifs
      · exact hx hT _ _ _ _ (pos_lt r).1 hc (by omega) (by omega)
      · exact ⟨0, 0, by simp, by simp⟩
  | false =>
      rw [if_neg (by simp)]
      congr 1
      refine (h2 _).1 ?_
      rw [hwd, hT, if_neg (by simp), weight_eq]
      exact hw hT _ _ _ _ o.2 hc (Nat.mod_lt _ ha) (Nat.mod_lt _ hb)

/-- Non-vacuity: pixels and filter taps that are multiples of 1/4 fit into the significand of half precision. -/
example : Spec.FitsBits (Spec.sigBits .float16 0) (-3/4) := ⟨-3, -2, by norm_num [Spec.sigBits], by norm_num⟩

/-! ## The stream layers -/

/-- The padding bit of cycle `t`: 0 in unipolar mode, 0, 1, 0, 1, … in bipolar mode. -/
def Spec.padBit (mode : Mode) (t : ℕ) : ℤ := if mode = .bipolar ∧ t % 2 = 1 then 1 else 0

/-- `g` with padding `p` on all sides. -/
def Spec.padded (g : Geo) (p : ℕ) : Geo := { g with ph := p, pw := p }

private theorem outLen_pad (size k s p d : ℕ) : Spec.outLen (size + p + p) k s 0 d = Spec.outLen size k s p d := by
  unfold Spec.outLen
  rw [show size + p + p + 2 * 0 = size + 2 * p by ring]

private theorem axis_pad {size k s p d : ℕ} (h : Spec.AxisOK size k s p d) : Spec.AxisOK (size + p + p) k s 0 d := by
  obtain ⟨h1, h2, h3⟩ := h
  exact ⟨h1, h2, by omega⟩

private theorem tap_pad {α : Type} (g : Geo) (p H W : ℕ) (z v : α) (img : ℕ → ℕ → ℕ → ℕ → α) (n c y x i j : ℕ)
    (hy : y * g.sh + i * g.dh < H + 2 * p) (hx : x * g.sw + j * g.dw < W + 2 * p) :
    Spec.tap { g with ph := 0, pw := 0 } (H + p + p) (W + p + p) z (constPad (.num p) H W v img n c) y x i j =
      Spec.tap (Spec.padded g p) H W v (img n c) y x i j := by
  have key : ∀ a b : ℕ, a < H + 2 * p → b < W + 2 * p →
      (if 0 ≤ a ∧ a < 0 + (H + p + p) ∧ 0 ≤ b ∧ b < 0 + (W + p + p) then
        (if 0 ≤ ((a - 0 : ℕ) : ℤ) - p ∧ ((a - 0 : ℕ) : ℤ) - p < H ∧ 0 ≤ ((b - 0 : ℕ) : ℤ) - p ∧ ((b - 0 : ℕ) : ℤ) - p < W then
          img n c (((a - 0 : ℕ) : ℤ) - p).toNat (((b - 0 : ℕ) : ℤ) - p).toNat else v) else z) =
      if p ≤ a ∧ a < p + H ∧ p ≤ b ∧ b < p + W then img n c (a - p) (b - p) else v := by
    intro a b ha hb
    rw [if_pos (by omega)]
    by_cases h : p ≤ a ∧ a < p + H ∧ p ≤ b ∧ b < p + W
    · rw [if_pos h, if_pos (by omega)]
      congr 1 <;> omega
    · rw [if_neg h, if_neg (by omega)]
  exact key _ _ hy hx

theorem tap_cases (g : Geo) (H W y x i j : ℕ) :
    (∃ Y X, Y < H ∧ X < W ∧ ∀ (α : Type) (v : α) (img : ℕ → ℕ → α), Spec.tap g H W v img y x i j = img Y X) ∨
      ∀ (α : Type) (v : α) (img : ℕ → ℕ → α), Spec.tap g H W v img y x i j = v := by
  by_cases h : g.ph ≤ y * g.sh + i * g.dh ∧ y * g.sh + i * g.dh < g.ph + H ∧
      g.pw ≤ x * g.sw + j * g.dw ∧ x * g.sw + j * g.dw < g.pw + W
  · exact .inl ⟨_, _, by omega, by omega, fun α v img => if_pos h⟩
  · exact .inr fun α v img => if_neg h

private theorem tap_in {size k s p d y i : ℕ} (h : Spec.AxisOK size k s p d) (hy : y < Spec.outLen size k s p d) (hi : i < k) :
    y * s + i * d < size + 2 * p := by
  have := (C52_positions size k s p d h y).1 hy
  have : d * i ≤ d * (k - 1) := Nat.mul_le_mul_left _ (by omega)
  rw [mul_comm i d]; omega

/-- The streams of window taps, one row per batch entry and output position. -/
def convStreams (g : Geo) (p N C H W : ℕ) (mode : Mode) (img : ℕ → ℕ → ℕ → ℕ → ℕ → ℤ)
    (r : Fin (N * (Spec.outH (Spec.padded g p) H * Spec.outW (Spec.padded g p) W))) (q : Fin (C * g.kh * g.kw)) (t : ℕ) : ℤ :=
  let L := Spec.outH (Spec.padded g p) H * Spec.outW (Spec.padded g p) W
  Spec.windowRow (Spec.padded g p) C H W (Spec.padBit mode t) (img t) (r / L) (r % L / Spec.outW (Spec.padded g p) W)
    (r % L % Spec.outW (Spec.padded g p) W) q

theorem rows_pad (g : Geo) (p N C H W : ℕ) (h : Spec.GeoOK (Spec.padded g p) H W) (mode : Mode)
    (img : ℕ → ℕ → ℕ → ℕ → ℕ → ℤ) (t : ℕ) (v : ℤ) (hv : v = Spec.padBit mode t) :
    im2col { g with ph := 0, pw := 0 } N C (H + (PadArg.num p).sides.1.1 + (PadArg.num p).sides.1.2)
      (W + (PadArg.num p).sides.2.1 + (PadArg.num p).sides.2.2) 0 (constPad (.num p) H W v (img t)) =
      .ok (pcIn (convStreams g p N C H W mode img) t) := by
  subst hv
  show im2col { g with ph := 0, pw := 0 } N C (H + p + p) (W + p + p) 0 (constPad (.num p) H W (Spec.padBit mode t) (img t)) = _
  have hg : Spec.GeoOK { g with ph := 0, pw := 0 } (H + p + p) (W + p + p) := ⟨axis_pad h.1, axis_pad h.2⟩
  rw [im2col_ok _ N C _ _ hg]
  have e1 : Spec.outH { g with ph := 0, pw := 0 } (H + p + p) = Spec.outH (Spec.padded g p) H := outLen_pad _ _ _ _ _
  have e2 : Spec.outW { g with ph := 0, pw := 0 } (W + p + p) = Spec.outW (Spec.padded g p) W := outLen_pad _ _ _ _ _
  rw [e1, e2]
  unfold pcIn
  congr 2
  funext r q
  obtain ⟨h1, h2, h3⟩ := pos_lt r
  obtain ⟨ha, hb, -⟩ := flat_lt q.2
  exact tap_pad g p H W _ _ _ _ _ _ _ _ _ (tap_in h.1 h2 (Nat.mod_lt _ ha)) (tap_in h.2 h3 (Nat.mod_lt _ hb))

/-- C53: a stream convolution layer with integer padding hands to its row operation, in cycle `t`, exactly the windows of
that cycle's input with the padding bit of cycle `t` outside the image, and puts the row results at the corresponding
output positions.  `inner` is any row operation with state. -/
theorem C53_padding {σ : Type} {O : ℕ} (hO : 0 < O) (g : Geo) (p N C H W : ℕ) (hN : 0 < N)
    (h : Spec.GeoOK (Spec.padded g p) H W) (mode : Mode)
    (inner : σ → List (Fin (C * g.kh * g.kw) → ℤ) → Except PyErr (σ × List (Fin O → ℤ))) (s0 : σ)
    (img : ℕ → ℕ → ℕ → ℕ → ℕ → ℤ) (out : Fin (N * (Spec.outH (Spec.padded g p) H * Spec.outW (Spec.padded g p) W)) → Fin O → ℕ → ℤ)
    (hout : ∀ t, outAtE inner s0 (pcIn (convStreams g p N C H W mode img)) t = .ok (List.ofFn fun r o => out r o t)) (t : ℕ) :
    ∃ F, outAtE (convWrap g (.num p) N C H W mode inner) (s0, true) img t = .ok F ∧
      ∀ (n : ℕ) (o : Fin O) (y x : ℕ) (_ : n < N) (_ : y < Spec.outH (Spec.padded g p) H) (_ : x < Spec.outW (Spec.padded g p) W)
        (r : Fin (N * (Spec.outH (Spec.padded g p) H * Spec.outW (Spec.padded g p) W))),
        r.1 = n * (Spec.outH (Spec.padded g p) H * Spec.outW (Spec.padded g p) W) + (y * Spec.outW (Spec.padded g p) W + x) →
          F n o y x = out r o t := by
  set xs := convStreams g p N C H W mode img with hxs
  have hstep : ∀ t (s : σ × Bool), (if s.2 then (0:ℤ) else 1) = Spec.padBit mode t → ∀ s' y, inner s.1 (pcIn xs t) = .ok (s', y) →
      ∀ F, col2im N ((Spec.outH (Spec.padded g p) H : ℤ), (Spec.outW (Spec.padded g p) W : ℤ)) y = .ok F →
      convWrap g (.num p) N C H W mode inner s (img t) = .ok ((s', decide (mode = .bipolar) ^^ s.2), F) := by
    intro t s hv s' y hi F hF
    unfold convWrap
    have hos : outSize { g with ph := (PadArg.num p).perAxis.1, pw := (PadArg.num p).perAxis.2 } H W = _ := C52_size (Spec.padded g p) H W h
    rw [hos]
    show (im2col _ _ _ _ _ _ _ >>= _) = _
    rw [rows_pad g p N C H W h mode img t _ hv]
    show (inner s.1 (pcIn xs t) >>= _) = _
    rw [hi]
    show (col2im N _ y >>= _) = _
    rw [hF]; rfl
  have hinner : ∀ t, ∃ s s', stateAtE inner s0 (pcIn xs) t = .ok s ∧ inner s (pcIn xs t) = .ok (s', List.ofFn fun r o => out r o t) := by
    intro t
    have := hout t
    unfold outAtE at this
    obtain ⟨s, h1, h2⟩ := except_bind_ok this
    obtain ⟨⟨s', y⟩, h3, h4⟩ := except_bind_ok h2
    cases h4
    exact ⟨s, s', h1, h3⟩
  have hflag : ∀ t (e : Bool), (if e then (0:ℤ) else 1) = Spec.padBit mode t →
      (if (decide (mode = .bipolar) ^^ e) then (0:ℤ) else 1) = Spec.padBit mode (t + 1) := by
    intro t e he
    unfold Spec.padBit at *
    have : t % 2 = 1 ∨ t % 2 = 0 := by omega
    have h2 : (t + 1) % 2 = 1 - t % 2 := by omega
    rw [h2]
    cases mode <;> rcases this with h | h <;> cases e <;> simp_all
  have hst : ∀ t, ∃ s e, stateAtE (convWrap g (.num p) N C H W mode inner) (s0, true) img t = .ok (s, e) ∧
      stateAtE inner s0 (pcIn xs) t = .ok s ∧ (if e then (0:ℤ) else 1) = Spec.padBit mode t := by
    intro t
    induction t with
    | zero => exact ⟨s0, true, rfl, rfl, by simp [Spec.padBit]⟩
    | succ t ih =>
        obtain ⟨s, e, h1, h2, h3⟩ := ih
        obtain ⟨s1, s', h4, h5⟩ := hinner t
        rw [h2] at h4; cases h4
        obtain ⟨F, hF, -⟩ := col2im_ok N _ _ hN hO (fun r (o : Fin O) => out r o t)
        exact ⟨s', _, stateAtE_succ_ok h1 (hstep t (s, e) h3 s' _ h5 F hF), stateAtE_succ_ok h2 h5, hflag t e h3⟩
  obtain ⟨s, e, h1, h2, h3⟩ := hst t
  obtain ⟨s1, s', h4, h5⟩ := hinner t
  rw [h2] at h4; cases h4
  obtain ⟨F, hF, hF2⟩ := col2im_ok N _ _ hN hO (fun r (o : Fin O) => out r o t)
  exact ⟨F, outAtE_ok h1 (hstep t (s, e) h3 s' _ h5 F hF), hF2⟩

/-- C53: the unipolar padding stream is zero; the bipolar one decodes to 0 after an even and to `-1/n` after an odd
number `n` of cycles. -/
theorem C53_value (n : ℕ) (hn : 0 < n) :
    Verif.Spec.uniValue (Spec.padBit .unipolar) n = 0 ∧
    Verif.Spec.biValue (Spec.padBit .bipolar) n = if n % 2 = 0 then 0 else -1 / (n : ℚ) := by
  have h1 : ∀ n, Verif.Spec.ones (Spec.padBit .unipolar) n = 0 := fun n => by simp [Verif.Spec.ones, Spec.padBit]
  have h2 : ∀ n : ℕ, Verif.Spec.ones (Spec.padBit .bipolar) n = (n / 2 : ℕ) := by
    intro n
    induction n with
    | zero => rfl
    | succ n ih =>
        rw [Verif.Spec.ones_succ, ih]
        unfold Spec.padBit
        split_ifs with h <;> simp at h <;> omega
  have hnq : (0:ℚ) < n := by exact_mod_cast hn
  refine ⟨by simp [Verif.Spec.uniValue, h1], ?_⟩
  unfold Verif.Spec.biValue
  rw [h2]
  split_ifs with h
  · have : n = 2 * (n / 2) := by omega
    have e : (n:ℚ) = 2 * ((n / 2 : ℕ) : ℚ) := by exact_mod_cast this
    rw [Int.cast_natCast]
    field_simp; linarith
  · have : n = 2 * (n / 2) + 1 := by omega
    have e : (n:ℚ) = 2 * ((n / 2 : ℕ) : ℚ) + 1 := by exact_mod_cast this
    rw [Int.cast_natCast]
    field_simp; linarith

/-- Result of call `t` of a fresh `FSUConv2dPC`. -/
def convPCOut {O : ℕ} (g : Geo) (p : PadArg) (N C H W : ℕ) (c : PC (C * g.kh * g.kw) O) (img : ℕ → ℕ → ℕ → ℕ → ℕ → ℤ) (t : ℕ) :
    Except PyErr (ℕ → ℕ → ℕ → ℕ → ℤ) := outAtE (stepConvPC g p N C H W c) (initConvPC _ O) img t

/-- Result of call `t` of a fresh `FSUConv2d`. -/
def convOut {O : ℕ} (g : Geo) (p : PadArg) (N C H W : ℕ) (m : PC (C * g.kh * g.kw) O × Adder.Cfg) (img : ℕ → ℕ → ℕ → ℕ → ℕ → ℤ)
    (t : ℕ) : Except PyErr (ℕ → ℕ → ℕ → ℕ → ℤ) := outAtE (stepConv g p N C H W m) (initConv m) (fun t => { img := img t }) t

/-- All pixels are bitstreams. -/
def Spec.BitImage (N C H W : ℕ) (img : ℕ → ℕ → ℕ → ℕ → ℕ → ℤ) : Prop :=
  ∀ n c y x, n < N → c < C → y < H → x < W → Verif.Spec.BitStream fun t => img t n c y x

theorem isBit_padBit (mode : Mode) (t : ℕ) : IsBit (Spec.padBit mode t) := by
  unfold Spec.padBit; split_ifs <;> simp [IsBit]

theorem streams_bits (g : Geo) (p N C H W : ℕ) (mode : Mode) (img : ℕ → ℕ → ℕ → ℕ → ℕ → ℤ) (hi : Spec.BitImage N C H W img)
    (r) (q) : Verif.Spec.BitStream (convStreams g p N C H W mode img r q) := by
  intro t
  obtain ⟨h1, h2, h3⟩ := pos_lt r
  obtain ⟨ha, hb, hc⟩ := flat_lt q.2
  unfold convStreams Spec.windowRow Spec.tap
  simp only
  split_ifs with h
  · exact hi _ _ _ _ h1 hc (by omega) (by omega) t
  · exact isBit_padBit _ _

/-- Stream of tap `(c, i, j)` of the window at `(n, y, x)`. -/
def Spec.tapStream (g : Geo) (H W : ℕ) (mode : Mode) (img : ℕ → ℕ → ℕ → ℕ → ℕ → ℤ) (n y x c i j t : ℕ) : ℤ :=
  Spec.tap g H W (Spec.padBit mode t) (img t n c) y x i j

theorem streams_tap (g : Geo) (p N C H W : ℕ) (mode : Mode) (img : ℕ → ℕ → ℕ → ℕ → ℕ → ℤ) (n y x : ℕ)
    (hy : y < Spec.outH (Spec.padded g p) H) (hx : x < Spec.outW (Spec.padded g p) W)
    (r : Fin (N * (Spec.outH (Spec.padded g p) H * Spec.outW (Spec.padded g p) W)))
    (hr : r.1 = n * (Spec.outH (Spec.padded g p) H * Spec.outW (Spec.padded g p) W) + (y * Spec.outW (Spec.padded g p) W + x))
    (q : Fin (C * g.kh * g.kw)) :
    convStreams g p N C H W mode img r q =
      Spec.tapStream (Spec.padded g p) H W mode img n y x (q / (g.kh * g.kw)) (q / g.kw % g.kh) (q % g.kw) := by
  funext t
  have hl : y * Spec.outW (Spec.padded g p) W + x < Spec.outH (Spec.padded g p) H * Spec.outW (Spec.padded g p) W := by
    have : (y + 1) * Spec.outW (Spec.padded g p) W ≤ Spec.outH (Spec.padded g p) H * Spec.outW (Spec.padded g p) W := Nat.mul_le_mul_right _ hy
    rw [add_mul, one_mul] at this; omega
  obtain ⟨a1, a2⟩ := split_idx _ n _ hl
  obtain ⟨a3, a4⟩ := split_idx _ y _ hx
  unfold convStreams Spec.tapStream Spec.windowRow
  simp only [hr, a1, a2, a3, a4]
  rfl

theorem exists_row {N oh ow n y x : ℕ} (hn : n < N) (hy : y < oh) (hx : x < ow) :
    ∃ r : Fin (N * (oh * ow)), r.1 = n * (oh * ow) + (y * ow + x) := by
  have hl : y * ow + x < oh * ow := by
    have : (y + 1) * ow ≤ oh * ow := Nat.mul_le_mul_right _ hy
    rw [add_mul, one_mul] at this; omega
  have : (n + 1) * (oh * ow) ≤ N * (oh * ow) := Nat.mul_le_mul_right _ hn
  rw [add_mul, one_mul] at this
  exact ⟨⟨_, by omega⟩, rfl⟩

/-- C52: the parallel counter layer with rate coded weights counts, at every output position, one static multiplier bit
per window tap plus the bias bit. -/
theorem C52_fsu_counts {O : ℕ} (hO : 0 < O) (env : Env) (g : Geo) (p N C H W : ℕ) (hN : 0 < N)
    (h : Spec.GeoOK (Spec.padded g p) H W) (mode : String) (width : ℕ) (name : String) (w : ℕ → ℕ → ℕ → ℕ → ℚ) (bias : Bool)
    (be : Option (Fin O → ℚ)) (c : PC (C * g.kh * g.kw) O) (hc : mkConvPC env g C mode width name w bias be = .ok c)
    (hr : ¬ Spec.TemporalName name) (img : ℕ → ℕ → ℕ → ℕ → ℕ → ℤ) (hi : Spec.BitImage N C H W img) (t : ℕ) :
    ∃ mo l F, parseMode mode = .ok mo ∧ rng env width name = .ok l ∧ convPCOut g (.num p) N C H W c img t = .ok F ∧
      ∀ (n : ℕ) (o : Fin O) (y x : ℕ), n < N → y < Spec.outH (Spec.padded g p) H → x < Spec.outW (Spec.padded g p) W →
        F n o y x = (∑ ch ∈ range C, ∑ i ∈ range g.kh, ∑ j ∈ range g.kw,
            mulOut mo width l (binGenM mo width (w o ch i j)) (Spec.tapStream (Spec.padded g p) H W mo img n y x ch i j) t)
          + (if bias then bsGen l (binGenM mo width ((be.getD fun _ => 0) o)) t else 0) := by
  obtain ⟨mo, l, h1, h2, h3, h4, h5, h6, h7, h8⟩ := mkPC_ok hc
  have hL : 0 < N * (Spec.outH (Spec.padded g p) H * Spec.outW (Spec.padded g p) W) :=
    Nat.mul_pos hN (Nat.mul_pos (Nat.succ_pos _) (Nat.succ_pos _))
  obtain ⟨F, e1, e2⟩ := C53_padding hO g p N C H W hN h c.mode (stepPC c) (PCSt.init _ O) img _
    (fun t => C44_products hL c (by rw [h6, temporal_false hr]) width (convStreams g p N C H W c.mode img) (streams_bits g p N C H W c.mode img hi) t) t
  refine ⟨mo, l, F, h1, h2, e1, fun n o y x hn hy hx => ?_⟩
  obtain ⟨r, hr'⟩ := exists_row hn hy hx
  rw [e2 n o y x hn hy hx r hr', h3, h4, h5]
  congr 1
  · rw [← sum_flat C g.kh g.kw fun ch i j =>
      mulOut mo width l (binGenM mo width (w o ch i j)) (Spec.tapStream (Spec.padded g p) H W mo img n y x ch i j) t]
    apply sum_congr rfl
    intro q _
    show mulOut mo width l (binGenM mo width (viewWeight g C O w o q)) _ t = _
    rw [streams_tap g p N C H W mo img n y x hy hx r hr', weight_eq]
  · unfold Spec.biasBit
    cases bias with
    | false => rw [h7 rfl]; simp
    | true => obtain ⟨v, hv, hb⟩ := h8 rfl; rw [hb, hv]; simp

private theorem outAtE_comp {S I J Y : Type} (step : S → J → Except PyErr (S × Y)) (f : I → J) (s0 : S) (x : ℕ → I) (t : ℕ) :
    outAtE (fun s a => step s (f a)) s0 x t = outAtE step s0 (fun t => f (x t)) t := by
  have : ∀ t, stateAtE (fun s a => step s (f a)) s0 x t = stateAtE step s0 (fun t => f (x t)) t := by
    intro t
    induction t with
    | zero => rfl
    | succ t ih => simp only [stateAtE]; rw [ih]
  unfold outAtE; rw [this]

theorem conv_lin {O : ℕ} (hO : 0 < O) (g : Geo) (p N C H W : ℕ) (hN : 0 < N)
    (h : Spec.GeoOK (Spec.padded g p) H W) (m : PC (C * g.kh * g.kw) O × Adder.Cfg) (img : ℕ → ℕ → ℕ → ℕ → ℕ → ℤ)
    (out : Fin (N * (Spec.outH (Spec.padded g p) H * Spec.outW (Spec.padded g p) W)) → Fin O → ℕ → ℤ)
    (hout : Spec.Rows (linOut m (convStreams g p N C H W m.1.mode img)) out) (t : ℕ) :
    ∃ F, convOut g (.num p) N C H W m img t = .ok F ∧
      ∀ (n : ℕ) (o : Fin O) (y x : ℕ) (_ : n < N) (_ : y < Spec.outH (Spec.padded g p) H) (_ : x < Spec.outW (Spec.padded g p) W)
        (r : Fin (N * (Spec.outH (Spec.padded g p) H * Spec.outW (Spec.padded g p) W))),
        r.1 = n * (Spec.outH (Spec.padded g p) H * Spec.outW (Spec.padded g p) W) + (y * Spec.outW (Spec.padded g p) W + x) →
          F n o y x = out r o t := by
  obtain ⟨F, e1, e2⟩ := C53_padding hO g p N C H W hN h m.1.mode (fun s rows => stepLinear m s ⟨rows, none, none⟩) (initLinear m) img out
    (fun t => by rw [outAtE_comp (stepLinear m) (fun rows => ⟨rows, none, none⟩)]; exact hout t) t
  refine ⟨F, ?_, e2⟩
  unfold convOut
  rw [← outAtE_comp (stepConv g (.num p) N C H W m) (fun im => ({ img := im } : ConvArg))]
  exact e1

/-- C52, C53, end to end: a bipolar stream convolution layer with Sobol coded weights, default scale and enough accumulator
depth computes, for every history of every pixel and every number of cycles `T`, zero-padded convolution of the pixel values
with the real filters plus bias, divided by the number of addends. -/
theorem C52_fsu_end_to_end {O : ℕ} (hO : 0 < O) (env : Env) (g : Geo) (p N C H W : ℕ) (hN : 0 < N)
    (h : Spec.GeoOK (Spec.padded g p) H W) (mode : String) (width : ℕ) (name : String) (depth : ℤ)
    (hn : name.toLower ∈ ["sobol", "rc"]) (hdir : DirOK env.sobolM) (hw : width ≤ env.maxbit)
    (hmode : parseMode mode = .ok .bipolar) (w : ℕ → ℕ → ℕ → ℕ → ℚ)
    (hwe : ∀ o c i j, o < O → c < C → i < g.kh → j < g.kw → -1 ≤ w o c i j ∧ w o c i j ≤ 1) (bias : Bool) (be : Option (Fin O → ℚ))
    (hbe : ∀ v, be = some v → ∀ o, -1 ≤ v o ∧ v o ≤ 1) (m : PC (C * g.kh * g.kw) O × Adder.Cfg)
    (hm : mkConv env g C mode width name depth none w bias be = .ok m) (hF : 0 < Spec.fanIn (C * g.kh * g.kw) bias)
    (hd : (2 * Spec.fanIn (C * g.kh * g.kw) bias - 1 : ℚ) ≤ (2:ℚ) ^ (depth - 2))
    (img : ℕ → ℕ → ℕ → ℕ → ℕ → ℤ) (hi : Spec.BitImage N C H W img) :
    ∃ out : ℕ → ℕ → ℕ → ℕ → ℕ → ℤ,
      (∀ t, ∃ F, convOut g (.num p) N C H W m img t = .ok F ∧ ∀ n o y x, n < N → o < O →
        y < Spec.outH (Spec.padded g p) H → x < Spec.outW (Spec.padded g p) W → F n o y x = out n o y x t) ∧
      ∀ (n : ℕ) (o : Fin O) (y x : ℕ), n < N → y < Spec.outH (Spec.padded g p) H → x < Spec.outW (Spec.padded g p) W → ∀ T, 0 < T →
        |Verif.Spec.biValue (out n o y x) T
          - (Spec.conv (Spec.padded g p) C H W id id (fun n c Y X => Verif.Spec.biValue (fun t => img t n c Y X) T) w n o y x
            + if bias then (be.getD fun _ => 0) o else 0) / Spec.fanIn (C * g.kh * g.kw) bias|
        ≤ (4 * width + 3) / T + 1 / 2 ^ width := by
  have hL : 0 < N * (Spec.outH (Spec.padded g p) H * Spec.outW (Spec.padded g p) W) :=
    Nat.mul_pos hN (Nat.mul_pos (Nat.succ_pos _) (Nat.succ_pos _))
  obtain ⟨hpc, -⟩ := mkLinear_ok hm
  obtain ⟨mo, l, h1, h2, h3, -⟩ := mkPC_ok hpc
  rw [hmode] at h1; cases h1
  have hbits := streams_bits g p N C H W .bipolar img hi
  have hwe' : ∀ (o : Fin O) q, -1 ≤ viewWeight g C O w o q ∧ viewWeight g C O w o q ≤ 1 := by
    intro o q
    obtain ⟨ha, hb, hc⟩ := flat_lt q.2
    rw [weight_eq]
    exact hwe _ _ _ _ o.2 hc (Nat.mod_lt _ ha) (Nat.mod_lt _ hb)
  obtain ⟨out, h4, h5⟩ := C45_end_to_end hL env mode width name depth hn hdir hw hmode (viewWeight g C O w) hwe' bias be hbe m hm hF hd
    (convStreams g p N C H W .bipolar img) hbits
  rw [← h3] at h4
  refine ⟨fun n o y x t => if hh : o < O ∧ n < N ∧ y < Spec.outH (Spec.padded g p) H ∧ x < Spec.outW (Spec.padded g p) W then
    out (Classical.choose (exists_row hh.2.1 hh.2.2.1 hh.2.2.2)) ⟨o, hh.1⟩ t else 0, fun t => ?_, ?_⟩
  · obtain ⟨F, e1, e2⟩ := conv_lin hO g p N C H W hN h m img out h4 t
    refine ⟨F, e1, fun n o y x hn ho hy hx => ?_⟩
    simp only [dif_pos (show o < O ∧ n < N ∧ y < Spec.outH (Spec.padded g p) H ∧ x < Spec.outW (Spec.padded g p) W from
      ⟨ho, hn, hy, hx⟩)]
    exact e2 n ⟨o, ho⟩ y x hn hy hx _ (Classical.choose_spec (exists_row hn hy hx))
  · intro n o y x hn hy hx T hT
    simp only [dif_pos (show (o : ℕ) < O ∧ n < N ∧ y < Spec.outH (Spec.padded g p) H ∧ x < Spec.outW (Spec.padded g p) W from
      ⟨o.2, hn, hy, hx⟩)]
    have hr := Classical.choose_spec (exists_row hn hy hx)
    generalize Classical.choose (exists_row hn hy hx) = r at hr ⊢
    have h6 := h5 r o T hT
    have hTq : (0:ℚ) < T := by exact_mod_cast hT
    have hFq : (0:ℚ) < Spec.fanIn (C * g.kh * g.kw) bias := by exact_mod_cast hF
    set V : ℕ → ℕ → ℕ → ℕ → ℚ := fun n c Y X => Verif.Spec.biValue (fun t => img t n c Y X) T with hV
    have hpad := (C53_value T hT).2
    have htap : ∀ q, |Verif.Spec.biValue (convStreams g p N C H W .bipolar img r q) T - Spec.windowRow (Spec.padded g p) C H W 0 V n y x q| ≤ 1 / T := by
      intro q
      rw [streams_tap g p N C H W .bipolar img n y x hy hx r hr]
      unfold Spec.windowRow
      show |Verif.Spec.biValue (fun t => Spec.tap _ H W (Spec.padBit .bipolar t) (img t n _) y x _ _) T - Spec.tap _ H W 0 (V n _) y x _ _| ≤ _
      rcases tap_cases (Spec.padded g p) H W y x (q / g.kw % g.kh) (q % g.kw) with ⟨Y, X, -, -, ht⟩ | ht
      · have e1 : ∀ t, Spec.tap (Spec.padded g p) H W (Spec.padBit .bipolar t) (img t n (q / (g.kh * g.kw))) y x (q / g.kw % g.kh) (q % g.kw) =
          img t n (q / (g.kh * g.kw)) Y X := fun t => ht ℤ _ _
        have e2 := ht ℚ 0 (V n (q / (g.kh * g.kw)))
        simp only [e1]
        show |_ - Spec.tap (Spec.padded g p) H W 0 (V n (q / (g.kh * g.kw))) y x (q / g.kw % g.kh) (q % g.kw)| ≤ _
        rw [e2, hV, sub_self]; simp
      · have e1 : ∀ t, Spec.tap (Spec.padded g p) H W (Spec.padBit .bipolar t) (img t n (q / (g.kh * g.kw))) y x (q / g.kw % g.kh) (q % g.kw) =
          Spec.padBit .bipolar t := fun t => ht ℤ _ _
        have e2 := ht ℚ 0 (V n (q / (g.kh * g.kw)))
        simp only [e1]
        show |Verif.Spec.biValue (fun t => Spec.padBit .bipolar t) T - Spec.tap (Spec.padded g p) H W 0 (V n (q / (g.kh * g.kw))) y x (q / g.kw % g.kh) (q % g.kw)| ≤ _
        rw [e2]
        show |Verif.Spec.biValue (Spec.padBit .bipolar) T - 0| ≤ _
        rw [hpad]
        split_ifs
        · simp
        · rw [sub_zero, abs_div, abs_neg, abs_one, abs_of_pos hTq]
    have hdot : |∑ q, Verif.Spec.biValue (convStreams g p N C H W .bipolar img r q) T * viewWeight g C O w o q
        - Spec.conv (Spec.padded g p) C H W id id V w n o y x| ≤ Spec.fanIn (C * g.kh * g.kw) bias * (1 / T) := by
      have hrow : ∑ q : Fin (C * g.kh * g.kw), id (Spec.windowRow (Spec.padded g p) C H W 0 V n y x q) *
          id (viewWeight (Spec.padded g p) C O w o q) = Spec.conv (Spec.padded g p) C H W id id V w n o y x :=
        row_dot (Spec.padded g p) C H W O id id V w n y x o
      rw [← hrow, ← sum_sub_distrib]
      refine le_trans (abs_sum_le_sum_abs _ _) ?_
      have : ∀ q ∈ (univ : Finset (Fin (C * g.kh * g.kw))), |Verif.Spec.biValue (convStreams g p N C H W .bipolar img r q) T * viewWeight g C O w o q
          - id (Spec.windowRow (Spec.padded g p) C H W 0 V n y x q) * id (viewWeight (Spec.padded g p) C O w o q)| ≤ 1 / T := by
        intro q _
        show |_ * viewWeight g C O w o q - _ * viewWeight g C O w o q| ≤ _
        rw [← sub_mul, abs_mul]
        have a1 := htap q
        have a2 : |viewWeight g C O w o q| ≤ 1 := abs_le.2 (hwe' o q)
        calc _ ≤ (1 / T : ℚ) * 1 := mul_le_mul a1 a2 (abs_nonneg _) (by positivity)
          _ = _ := mul_one _
      refine le_trans (sum_le_sum this) ?_
      rw [sum_const, card_univ, Fintype.card_fin, nsmul_eq_mul]
      apply mul_le_mul_of_nonneg_right _ (by positivity)
      unfold Spec.fanIn; push_cast
      have : (0:ℚ) ≤ if bias then 1 else 0 := by split_ifs <;> norm_num
      linarith
    generalize (∑ q, Verif.Spec.biValue (convStreams g p N C H W .bipolar img r q) T * viewWeight g C O w o q) = A at *
    generalize Spec.conv (Spec.padded g p) C H W id id V w n o y x = B at *
    generalize (if bias = true then (be.getD fun _ => 0) o else 0) = b at *
    have e : (A + b) / Spec.fanIn (C * g.kh * g.kw) bias - (B + b) / Spec.fanIn (C * g.kh * g.kw) bias = (A - B) / Spec.fanIn (C * g.kh * g.kw) bias := by ring
    have h7 : |(A - B) / Spec.fanIn (C * g.kh * g.kw) bias| ≤ 1 / T := by
      rw [abs_div, abs_of_pos hFq, div_le_iff₀ hFq]; linarith
    rw [← e] at h7
    have e2 : (4 * (width:ℚ) + 3) / T + 1 / 2 ^ width = ((4 * (width:ℚ) + 2) / T + 1 / 2 ^ width) + 1 / T := by ring
    rw [e2]
    rw [abs_le] at h6 h7 ⊢
    constructor <;> linarith [h6.1, h6.2, h7.1, h7.2]

/-- Non-vacuity: a layer with one 3x3 filter over one channel, padding 1, is accepted and its accumulator is deep enough. -/
example : (mkConv (O := 1) ⟨30, fun _ => 1, fun _ _ => false, []⟩ ⟨3, 3, 1, 1, 1, 1, 1, 1⟩ 1 "Bipolar" 3 "Sobol" 12 none
    (fun _ _ i j => if i = j then 1/2 else -1) true (some fun _ => 1/4)).toBool = true ∧
    (2 * Spec.fanIn (1 * 3 * 3) true - 1 : ℚ) ≤ (2:ℚ) ^ ((12:ℤ) - 2) := by
  refine ⟨by decide +kernel, by norm_num [Spec.fanIn]⟩

/-- C52, violated for a pair `padding=(p, p)`, `p > 0`, with vertical stride 1: although the declared output size is that of
padding `p` on all four sides, `ConstantPad2d` given a pair pads only left and right, so the number of windows is too small
and the first call of the stream convolution layer always fails. -/
theorem C52_pair_padding {O : ℕ} (hO : 0 < O) (g : Geo) (p N C H W : ℕ) (hp : 0 < p) (hs : g.sh = 1) (hN : 0 < N)
    (h : Spec.GeoOK (Spec.padded g p) H W) (c : PC (C * g.kh * g.kw) O) (hc : c.wtc = false)
    (img : ℕ → ℕ → ℕ → ℕ → ℕ → ℤ) (hi : Spec.BitImage N C H W img) :
    convPCOut g (.pair p p) N C H W c img 0 = .error .runtime := by
  have hos : outSize { g with ph := (PadArg.pair p p).perAxis.1, pw := (PadArg.pair p p).perAxis.2 } H W = _ :=
    C52_size (Spec.padded g p) H W h
  show (convWrap g (.pair p p) N C H W c.mode (stepPC c) (PCSt.init _ O, true) (img 0) >>= _) = _
  unfold convWrap
  rw [hos]
  show ((im2col { g with ph := 0, pw := 0 } N C H (W + p + p) 0 (constPad (.pair p p) H W 0 (img 0)) >>= _) >>= _) = _
  obtain ⟨⟨hk, hs0, hfit⟩, hw⟩ := h
  by_cases hH : H ≤ g.dh * (g.kh - 1)
  · have : im2col { g with ph := 0, pw := 0 } N C H (W + p + p) 0 (constPad (.pair p p) H W 0 (img 0)) = .error .runtime :=
      C52_too_large { g with ph := 0, pw := 0 } N C H (W + p + p) _ _ ⟨hk, hw.1⟩ ⟨hs0, hw.2.1⟩ (.inl (by simpa using hH))
    rw [this]; rfl
  · have hg : Spec.GeoOK { g with ph := 0, pw := 0 } H (W + p + p) := ⟨⟨hk, hs0, by simpa using hH⟩, axis_pad hw⟩
    rw [im2col_ok _ N C _ _ hg]
    set oh := Spec.outH { g with ph := 0, pw := 0 } H with hoh
    set ow := Spec.outW { g with ph := 0, pw := 0 } (W + p + p) with how
    have how' : ow = Spec.outW (Spec.padded g p) W := outLen_pad _ _ _ _ _
    have hlt : oh < Spec.outH (Spec.padded g p) H := by
      show Spec.outLen H g.kh g.sh 0 g.dh < Spec.outLen H g.kh g.sh p g.dh
      unfold Spec.outLen
      rw [hs, Nat.div_one, Nat.div_one]; omega
    have hL : 0 < N * (oh * ow) := Nat.mul_pos hN (Nat.mul_pos (Nat.succ_pos _) (Nat.succ_pos _))
    let xs : Fin (N * (oh * ow)) → Fin (C * g.kh * g.kw) → ℕ → ℤ := fun r q _ =>
      Spec.windowRow { g with ph := 0, pw := 0 } C H (W + p + p) 0 (constPad (.pair p p) H W 0 (img 0)) (r / (oh * ow))
        (r % (oh * ow) / ow) (r % (oh * ow) % ow) q
    have hbit : ∀ r q, Verif.Spec.BitStream (xs r q) := by
      intro r q t
      obtain ⟨h1, -, -⟩ := pos_lt r
      obtain ⟨-, -, h2⟩ := flat_lt q.2
      show IsBit (Spec.tap _ _ _ _ _ _ _ _ _)
      rcases tap_cases { g with ph := 0, pw := 0 } H (W + p + p) (r % (oh * ow) / ow) (r % (oh * ow) % ow) (q / g.kw % g.kh) (q % g.kw)
        with ⟨Y, X, -, -, ht⟩ | ht
      · rw [ht]
        unfold constPad padGet
        split_ifs with hcond
        · exact hi _ _ _ _ h1 h2 (by omega) (by omega) 0
        · exact Or.inl rfl
      · rw [ht]; exact Or.inl rfl
    have hrun := C44_products hL c hc 0 xs hbit 0
    unfold pcOut outAtE at hrun
    obtain ⟨s, hs1, hs2⟩ := except_bind_ok hrun
    obtain ⟨⟨s', y⟩, h3, h4⟩ := except_bind_ok hs2
    cases hs1
    show ((stepPC c (PCSt.init _ O) (pcIn xs 0) >>= _) >>= _) = _
    rw [h3]
    show ((col2im N _ y >>= _) >>= _) = _
    have hy : y.length = N * (oh * ow) := by
      have := congrArg (fun r : Except PyErr (List (Fin O → ℤ)) => match r with | .ok l => l.length | .error _ => 0) h4
      exact this.trans List.length_ofFn
    have hcol : col2im N ((Spec.outH (Spec.padded g p) H : ℤ), (Spec.outW (Spec.padded g p) W : ℤ)) y = .error .runtime := by
      unfold col2im
      rw [hy, if_neg (by simp; omega), Nat.mul_div_cancel_left _ hN, if_pos]
      intro he
      replace he : ((oh * ow : ℕ) : ℤ) = (Spec.outH (Spec.padded g p) H : ℤ) * (Spec.outW (Spec.padded g p) W : ℤ) := he
      have he' : oh * ow = Spec.outH (Spec.padded g p) H * Spec.outW (Spec.padded g p) W := by exact_mod_cast he
      rw [← how'] at he'
      have := Nat.eq_of_mul_eq_mul_right (Nat.succ_pos _ : 0 < ow) he'
      omega
    rw [hcol]; rfl

/-- Witness: `padding=(1, 1)` with a 3x3 kernel on a 3x3 image. -/
example (img : ℕ → ℕ → ℕ → ℕ → ℕ → ℤ) (hi : Spec.BitImage 1 1 3 3 img) :
    convPCOut (O := 1) ⟨3, 3, 1, 1, 0, 0, 1, 1⟩ (.pair 1 1) 1 1 3 3 ⟨.bipolar, [0, 2, 1, 3], fun _ _ => 3, none, false⟩ img 0
      = .error .runtime :=
  C52_pair_padding (by omega) ⟨3, 3, 1, 1, 0, 0, 1, 1⟩ 1 1 1 3 3 (by omega) rfl (by omega)
    (by simp [Spec.GeoOK, Spec.AxisOK, Spec.padded]) _ rfl img hi

/-- What tap `(i, j)` of the window at `(y, x)` sees of an image with `a` columns of zeros added on its left and some on its right. -/
def Spec.sideTap (g : Geo) (a H W : ℕ) (img : ℕ → ℕ → ℤ) (y x i j : ℕ) : ℤ :=
  if y * g.sh + i * g.dh < H ∧ a ≤ x * g.sw + j * g.dw ∧ x * g.sw + j * g.dw < a + W then
    img (y * g.sh + i * g.dh) (x * g.sw + j * g.dw - a)
  else 0

/-- C52, for any pair `padding=(a, b)`: the image gets `a` columns on its left and `b` on its right and no rows, while the declared output
size is that of `a` rows on top and bottom and `b` columns on either side.  Unless both have the same number of positions the first call
fails; if they have, position `(y, x)` of the result gets the window of the same number in the image padded left and right. -/
theorem C52_pair {O : ℕ} (hO : 0 < O) (env : Env) (g : Geo) (a b N C H W : ℕ) (hN : 0 < N)
    (h : Spec.GeoOK { g with ph := a, pw := b } H W) (h' : Spec.GeoOK { g with ph := 0, pw := 0 } H (W + a + b))
    (mode : String) (width : ℕ) (name : String) (w : ℕ → ℕ → ℕ → ℕ → ℚ) (bias : Bool) (be : Option (Fin O → ℚ))
    (c : PC (C * g.kh * g.kw) O) (hc : mkConvPC env g C mode width name w bias be = .ok c) (hr : ¬ Spec.TemporalName name)
    (img : ℕ → ℕ → ℕ → ℕ → ℕ → ℤ) (hi : Spec.BitImage N C H W img) :
    (Spec.outLen H g.kh g.sh 0 g.dh * Spec.outLen (W + a + b) g.kw g.sw 0 g.dw
        ≠ Spec.outLen H g.kh g.sh a g.dh * Spec.outLen W g.kw g.sw b g.dw →
      convPCOut g (.pair a b) N C H W c img 0 = .error .runtime) ∧
    (Spec.outLen H g.kh g.sh 0 g.dh * Spec.outLen (W + a + b) g.kw g.sw 0 g.dw
        = Spec.outLen H g.kh g.sh a g.dh * Spec.outLen W g.kw g.sw b g.dw →
      ∃ mo l F, parseMode mode = .ok mo ∧ rng env width name = .ok l ∧ convPCOut g (.pair a b) N C H W c img 0 = .ok F ∧
        ∀ (n : ℕ) (o : Fin O) (y x : ℕ), n < N → y < Spec.outLen H g.kh g.sh a g.dh → x < Spec.outLen W g.kw g.sw b g.dw →
          ∀ k, k = y * Spec.outLen W g.kw g.sw b g.dw + x →
          F n o y x = (∑ ch ∈ range C, ∑ i ∈ range g.kh, ∑ j ∈ range g.kw,
              mulOut mo width l (binGenM mo width (w o ch i j)) (fun _ => Spec.sideTap g a H W (img 0 n ch)
                (k / Spec.outLen (W + a + b) g.kw g.sw 0 g.dw) (k % Spec.outLen (W + a + b) g.kw g.sw 0 g.dw) i j) 0)
            + (if bias then bsGen l (binGenM mo width ((be.getD fun _ => 0) o)) 0 else 0)) := by
  obtain ⟨mo, l, h1, h2, h3, h4, h5, h6, h7, h8⟩ := mkPC_ok hc
  have hos : outSize { g with ph := (PadArg.pair a b).perAxis.1, pw := (PadArg.pair a b).perAxis.2 } H W = _ :=
    C52_size { g with ph := a, pw := b } H W h
  set oh := Spec.outLen H g.kh g.sh 0 g.dh with hoh
  set ow := Spec.outLen (W + a + b) g.kw g.sw 0 g.dw with how
  set oh' := Spec.outLen H g.kh g.sh a g.dh with hoh'
  set ow' := Spec.outLen W g.kw g.sw b g.dw with how'
  have p1 : 0 < oh := Nat.succ_pos _
  have p2 : 0 < ow := Nat.succ_pos _
  have hL : 0 < N * (oh * ow) := Nat.mul_pos hN (Nat.mul_pos p1 p2)
  let xs : Fin (N * (oh * ow)) → Fin (C * g.kh * g.kw) → ℕ → ℤ := fun r q _ =>
    Spec.windowRow { g with ph := 0, pw := 0 } C H (W + a + b) 0 (constPad (.pair a b) H W 0 (img 0)) (r / (oh * ow))
      (r % (oh * ow) / ow) (r % (oh * ow) % ow) q
  have htap : ∀ n ch y x i j, y * g.sh + i * g.dh < H → x * g.sw + j * g.dw < W + a + b →
      Spec.tap { g with ph := 0, pw := 0 } H (W + a + b) 0 (constPad (.pair a b) H W 0 (img 0) n ch) y x i j
        = Spec.sideTap g a H W (img 0 n ch) y x i j := by
    intro n ch y x i j hy hx
    unfold Spec.tap Spec.sideTap constPad padGet
    simp only [PadArg.sides]
    have key : ∀ A B : ℕ, A < H → B < W + a + b →
        (if 0 ≤ A ∧ A < 0 + H ∧ 0 ≤ B ∧ B < 0 + (W + a + b) then
          (if 0 ≤ ((A - 0 : ℕ) : ℤ) - (0 : ℕ) ∧ ((A - 0 : ℕ) : ℤ) - (0 : ℕ) < H ∧ 0 ≤ ((B - 0 : ℕ) : ℤ) - a ∧ ((B - 0 : ℕ) : ℤ) - a < W then
            img 0 n ch (((A - 0 : ℕ) : ℤ) - (0 : ℕ)).toNat (((B - 0 : ℕ) : ℤ) - a).toNat else 0) else 0) =
        if A < H ∧ a ≤ B ∧ B < a + W then img 0 n ch A (B - a) else 0 := by
      intro A B hA hB
      rw [if_pos (by omega)]
      by_cases hh : A < H ∧ a ≤ B ∧ B < a + W
      · rw [if_pos hh, if_pos (by omega)]
        congr 1 <;> omega
      · rw [if_neg hh, if_neg (by omega)]
    exact key _ _ hy hx
  have hxs : ∀ (r : Fin (N * (oh * ow))) (q : Fin (C * g.kh * g.kw)) t, xs r q t = Spec.sideTap g a H W (img 0 (r / (oh * ow)) (q / (g.kh * g.kw)))
      (r % (oh * ow) / ow) (r % (oh * ow) % ow) (q / g.kw % g.kh) (q % g.kw) := by
    intro r q t
    obtain ⟨-, k2, k3⟩ := pos_lt r
    obtain ⟨ha, hb, -⟩ := flat_lt q.2
    exact htap _ _ _ _ _ _ (tap_in h'.1 k2 (Nat.mod_lt _ ha)) (tap_in h'.2 k3 (Nat.mod_lt _ hb))
  have hbit : ∀ r q, Verif.Spec.BitStream (xs r q) := by
    intro r q t
    rw [hxs r q t]
    obtain ⟨k1, -, -⟩ := pos_lt r
    obtain ⟨-, -, k2⟩ := flat_lt q.2
    unfold Spec.sideTap
    split_ifs with hcond
    · exact hi _ _ _ _ k1 k2 hcond.1 (by omega) 0
    · exact Or.inl rfl
  have hrun := C44_products hL c (by rw [h6, temporal_false hr]) width xs hbit 0
  unfold pcOut outAtE at hrun
  obtain ⟨s, hs1, hs2⟩ := except_bind_ok hrun
  obtain ⟨⟨s', y⟩, k3, k4⟩ := except_bind_ok hs2
  cases hs1
  replace k4 := Except.ok.inj k4
  simp only at k4
  have hy : y.length = N * (oh * ow) := by rw [k4]; exact List.length_ofFn
  have hcall : convPCOut g (.pair a b) N C H W c img 0 = (col2im N ((oh' : ℤ), (ow' : ℤ)) y >>= fun f => .ok f) := by
    show (convWrap g (.pair a b) N C H W c.mode (stepPC c) (PCSt.init _ O, true) (img 0) >>= _) = _
    unfold convWrap
    rw [hos]
    show ((im2col { g with ph := 0, pw := 0 } N C H (W + a + b) 0 (constPad (.pair a b) H W 0 (img 0)) >>= _) >>= _) = _
    rw [im2col_ok _ N C _ _ h']
    show ((stepPC c (PCSt.init _ O) (pcIn xs 0) >>= _) >>= _) = _
    rw [k3]
    show ((col2im N ((oh' : ℤ), (ow' : ℤ)) y >>= _) >>= _) = _
    cases col2im N ((oh' : ℤ), (ow' : ℤ)) y <;> rfl
  refine ⟨fun hne => ?_, fun heq => ?_⟩
  · have hcol : col2im N ((oh' : ℤ), (ow' : ℤ)) y = .error .runtime := by
      unfold col2im
      rw [hy, if_neg (by simp; omega), Nat.mul_div_cancel_left _ hN, if_pos]
      intro he
      replace he : ((oh * ow : ℕ) : ℤ) = (oh' : ℤ) * (ow' : ℤ) := he
      exact hne (by exact_mod_cast he)
    rw [hcall, hcol]; rfl
  · have hc2 : N * (oh * ow) = N * (oh' * ow') := by rw [heq]
    rw [List.ofFn_congr hc2] at k4
    obtain ⟨F, hF, hF2⟩ := col2im_ok N oh' ow' hN hO (fun (i : Fin (N * (oh' * ow'))) (o : Fin O) =>
      (∑ q, mulOut c.mode width c.rng (c.weight o q) (xs (Fin.cast hc2.symm i) q) 0) + Spec.biasBit c.rng c.bias o 0)
    rw [← k4] at hF
    refine ⟨mo, l, F, h1, h2, by rw [hcall, hF]; rfl, fun n o y x hn hy hx k hk => ?_⟩
    obtain ⟨r, hr'⟩ := exists_row hn hy hx
    rw [hF2 n o y x hn hy hx r hr', h3, h4, h5]
    have hkl : k < oh * ow := by
      rw [heq, hk]
      have : (y + 1) * ow' ≤ oh' * ow' := Nat.mul_le_mul_right _ hy
      rw [add_mul, one_mul] at this; omega
    have hrk : r.1 = n * (oh * ow) + k := by rw [hr', hk, heq]
    obtain ⟨d1, d2⟩ := split_idx (oh * ow) n k hkl
    congr 1
    · rw [← sum_flat C g.kh g.kw fun ch i j => mulOut mo width l (binGenM mo width (w o ch i j))
        (fun _ => Spec.sideTap g a H W (img 0 n ch) (k / ow) (k % ow) i j) 0]
      apply sum_congr rfl
      intro q _
      show mulOut mo width l (binGenM mo width (viewWeight g C O w o q)) _ 0 = _
      rw [weight_eq]
      congr 1
      funext t
      rw [hxs _ q t, Fin.val_cast, hrk, d1, d2]
    · unfold Spec.biasBit
      cases bias with
      | false => rw [h7 rfl]; simp
      | true => obtain ⟨v, hv, hb⟩ := h8 rfl; rw [hb, hv]; simp

/-- Non-vacuity: `padding=(0, 1)` with a kernel of two and a stride of two on a row of three pixels: both counts of positions are two, so
nothing fails, but the last window starts at the last pixel instead of the second. -/
example : Spec.GeoOK ⟨1, 2, 1, 2, 0, 1, 1, 1⟩ 1 3 ∧ Spec.GeoOK ⟨1, 2, 1, 2, 0, 0, 1, 1⟩ 1 (3 + 0 + 1) ∧
    Spec.outLen 1 1 1 0 1 * Spec.outLen (3 + 0 + 1) 2 2 0 1 = Spec.outLen 1 1 1 0 1 * Spec.outLen 3 2 2 1 1 ∧
    ∀ img : ℕ → ℕ → ℤ, Spec.sideTap ⟨1, 2, 1, 2, 0, 1, 1, 1⟩ 0 1 3 img 0 1 0 0 = img 0 2 ∧
      Spec.tap ⟨1, 2, 1, 2, 0, 1, 1, 1⟩ 1 3 0 img 0 1 0 0 = img 0 1 :=
  ⟨by simp [Spec.GeoOK, Spec.AxisOK], by simp [Spec.GeoOK, Spec.AxisOK], by simp [Spec.outLen], fun _ => ⟨rfl, rfl⟩⟩

end Verif.Props
