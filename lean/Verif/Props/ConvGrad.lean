import Verif.Model.ConvGrad
import Verif.Props.Conv

/-!
# Property C86: gradients of the convolution layers
-/

namespace Verif.Props

open Verif Finset Linear Conv

/-! ## Specification -/

/-- The exact convolution layer contracted with an output gradient `G`. -/
def Spec.convLoss (g : Geo) (N C H W O : ℕ) (G img w : ℕ → ℕ → ℕ → ℕ → ℚ) (b : ℕ → ℚ) : ℚ :=
  ∑ n ∈ range N, ∑ o ∈ range O, ∑ y ∈ range (Spec.outH g H), ∑ x ∈ range (Spec.outW g W),
    G n o y x * (Spec.conv g C H W id id img w n o y x + b o)

/-- Inner product of two arrays of the given sizes. -/
def Spec.dot4 (a b c d : ℕ) (u v : ℕ → ℕ → ℕ → ℕ → ℚ) : ℚ :=
  ∑ i ∈ range a, ∑ j ∈ range b, ∑ k ∈ range c, ∑ l ∈ range d, u i j k l * v i j k l

/-! ## Rows -/

/-- All window rows. -/
private def rowsOf (g : Geo) (N C H W : ℕ) (img : ℕ → ℕ → ℕ → ℕ → ℚ) :
    Fin (N * (Spec.outH g H * Spec.outW g W)) → Fin (C * g.kh * g.kw) → ℚ := fun r =>
  Spec.windowRow g C H W 0 img (r / (Spec.outH g H * Spec.outW g W))
    (r % (Spec.outH g H * Spec.outW g W) / Spec.outW g W) (r % (Spec.outH g H * Spec.outW g W) % Spec.outW g W)

private theorem sum_rows (N a b : ℕ) (F : ℕ → ℕ → ℕ → ℚ) :
    ∑ r : Fin (N * (a * b)), F (r / (a * b)) (r % (a * b) / b) (r % (a * b) % b) =
      ∑ n ∈ range N, ∑ y ∈ range a, ∑ x ∈ range b, F n y x := by
  rw [← sum_flat N a b F]
  have e : N * (a * b) = N * a * b := by ring
  rw [Fin.sum_univ_eq_sum_range (fun r => F (r / (a * b)) (r % (a * b) / b) (r % (a * b) % b)),
    Fin.sum_univ_eq_sum_range (fun r => F (r / (a * b)) (r / b % a) (r % b)), e]
  apply sum_congr rfl
  intro r _
  have h1 : r % (a * b) / b = r / b % a := by rw [mul_comm a b, Nat.mod_mul_right_div_self]
  have h2 : r % (a * b) % b = r % b := Nat.mod_mul_left_mod r a b
  rw [h1, h2]

private theorem gradRows_eq (O L OW : ℕ) (G : ℕ → ℕ → ℕ → ℕ → ℚ) (r o : ℕ) (ho : o < O) :
    gradRows O L OW G r o = G (r / L) o (r % L / OW) (r % L % OW) := by
  obtain ⟨h1, h2⟩ := split_idx O r o ho
  unfold gradRows view2 flat3 transpose12
  rw [mul_comm L O, ← Nat.div_div_eq_div_mul, h1, h2]

private theorem loss_rows (g : Geo) (N C H W O : ℕ) (G img w : ℕ → ℕ → ℕ → ℕ → ℚ) (b : ℕ → ℚ) :
    Spec.convLoss g N C H W O G img w b =
      Spec.linLoss (fun (r : Fin (N * (Spec.outH g H * Spec.outW g W))) (o : Fin O) =>
        gradRows O (Spec.outH g H * Spec.outW g W) (Spec.outW g W) G r o) (rowsOf g N C H W img) (viewWeight g C O w)
        (fun o => b o) := by
  have key : Spec.convLoss g N C H W O G img w b = ∑ n ∈ range N, ∑ y ∈ range (Spec.outH g H), ∑ x ∈ range (Spec.outW g W),
      ∑ o : Fin O, G n o y x * (Spec.conv g C H W id id img w n o y x + b o) := by
    unfold Spec.convLoss
    apply sum_congr rfl; intro n _
    rw [sum_comm]
    apply sum_congr rfl; intro y _
    rw [sum_comm]
    apply sum_congr rfl; intro x _
    rw [Fin.sum_univ_eq_sum_range (fun o => G n o y x * (Spec.conv g C H W id id img w n o y x + b o))]
  rw [key, ← sum_rows N _ _ fun n y x => ∑ o : Fin O, G n o y x * (Spec.conv g C H W id id img w n o y x + b o)]
  unfold Spec.linLoss
  apply sum_congr rfl; intro r _
  apply sum_congr rfl; intro o _
  beta_reduce
  rw [gradRows_eq _ _ _ _ _ _ o.2, ← row_dot]
  rfl

private theorem rowsOf_add (g : Geo) (N C H W : ℕ) (u v : ℕ → ℕ → ℕ → ℕ → ℚ) :
    rowsOf g N C H W (u + v) = rowsOf g N C H W u + rowsOf g N C H W v := by
  funext r q
  unfold rowsOf Spec.windowRow Spec.tap
  simp only [Pi.add_apply]
  split_ifs <;> simp

private theorem viewWeight_add (g : Geo) (C O : ℕ) (u v : ℕ → ℕ → ℕ → ℕ → ℚ) :
    viewWeight g C O (u + v) = viewWeight g C O u + viewWeight g C O v := rfl

/-! ## The three adjoints -/

/-- Tap `q` of block `l`, as the pixels it selects. -/
private theorem tap_sum (g : Geo) (C H W : ℕ) (D : ℕ → ℕ → ℕ → ℚ) (q a b i j : ℕ) (hq : q < C) :
    (∑ c ∈ range C, ∑ y ∈ range H, ∑ x ∈ range W,
      if q = c ∧ (y : ℤ) = (a : ℤ) * g.sh + (i : ℤ) * g.dh - g.ph ∧ (x : ℤ) = (b : ℤ) * g.sw + (j : ℤ) * g.dw - g.pw
        then D c y x else 0) = Spec.tap g H W 0 (D q) a b i j := by
  have e1 : (a : ℤ) * g.sh + (i : ℤ) * g.dh = ((a * g.sh + i * g.dh : ℕ) : ℤ) := by push_cast; ring
  have e2 : (b : ℤ) * g.sw + (j : ℤ) * g.dw = ((b * g.sw + j * g.dw : ℕ) : ℤ) := by push_cast; ring
  unfold Spec.tap
  rw [e1, e2]
  generalize a * g.sh + i * g.dh = s
  generalize b * g.sw + j * g.dw = t
  generalize g.ph = ph
  generalize g.pw = pw
  rw [sum_eq_single_of_mem q (mem_range.mpr hq)]
  swap
  · intro c _ hc
    apply sum_eq_zero; intro y _
    apply sum_eq_zero; intro x _
    rw [if_neg (fun h => hc h.1.symm)]
  by_cases h : ph ≤ s ∧ s < ph + H ∧ pw ≤ t ∧ t < pw + W
  · rw [if_pos h, sum_eq_single_of_mem (s - ph) (mem_range.mpr (by omega)),
      sum_eq_single_of_mem (t - pw) (mem_range.mpr (by omega)), if_pos (by omega)]
    · intro x _ hx
      rw [if_neg (by omega)]
    · intro y _ hy
      apply sum_eq_zero; intro x _
      rw [if_neg (by omega)]
  · rw [if_neg h]
    apply sum_eq_zero; intro y hy
    apply sum_eq_zero; intro x hx
    rw [mem_range] at hy hx
    rw [if_neg (by omega)]

private theorem input_adj (g : Geo) (N C H W : ℕ) (gi : ℕ → ℕ → ℚ) (D : ℕ → ℕ → ℕ → ℕ → ℚ) :
    Spec.dot4 N C H W (gradUnfold g (C * g.kh * g.kw) (Spec.outH g H * Spec.outW g W) (Spec.outW g W)
      (gradBlocks (Spec.outH g H * Spec.outW g W) (C * g.kh * g.kw) gi)) D =
    ∑ r : Fin (N * (Spec.outH g H * Spec.outW g W)), ∑ q : Fin (C * g.kh * g.kw), gi r q * rowsOf g N C H W D r q := by
  set L := Spec.outH g H * Spec.outW g W with hL
  set K := C * g.kh * g.kw with hK
  have hgb : ∀ n q l, q < K → gradBlocks L K gi n q l = gi (n * L + l) q := by
    intro n q l hq
    obtain ⟨h1, h2⟩ := split_idx K (n * L + l) q hq
    unfold gradBlocks transpose12 view3 flat2
    rw [h1, h2]
  -- rows grouped by batch entry
  have hR : ∀ F : ℕ → ℚ, ∑ r ∈ range (N * L), F r = ∑ n ∈ range N, ∑ l ∈ range L, F (n * L + l) := by
    intro F
    induction N with
    | zero => simp
    | succ m ih => rw [add_mul, one_mul, sum_range_add, ih, sum_range_succ]
  let rowN : ℕ → ℕ → ℕ → ℚ := fun n l q => Spec.tap g H W 0 (D n (q / (g.kh * g.kw))) (l / Spec.outW g W) (l % Spec.outW g W)
    (q / g.kw % g.kh) (q % g.kw)
  have rhs : ∑ r : Fin (N * L), ∑ q : Fin K, gi r q * rowsOf g N C H W D r q =
      ∑ n ∈ range N, ∑ l ∈ range L, ∑ q ∈ range K, gi (n * L + l) q * rowN n l q := by
    have e : ∀ r : Fin (N * L), ∑ q : Fin K, gi r q * rowsOf g N C H W D r q =
        ∑ q ∈ range K, gi r q * rowN (r / L) (r % L) q := by
      intro r
      rw [← Fin.sum_univ_eq_sum_range (fun q => gi r q * rowN (r / L) (r % L) q)]
      rfl
    rw [sum_congr rfl fun r _ => e r, Fin.sum_univ_eq_sum_range (fun r => ∑ q ∈ range K, gi r q * rowN (r / L) (r % L) q), hR]
    apply sum_congr rfl; intro n _
    apply sum_congr rfl; intro l hl
    obtain ⟨h1, h2⟩ := split_idx L n l (mem_range.mp hl)
    rw [h1, h2]
  rw [rhs]
  unfold Spec.dot4
  apply sum_congr rfl; intro n _
  have expand : ∀ c y x, gradUnfold g K L (Spec.outW g W) (gradBlocks L K gi) n c y x * D n c y x =
      ∑ l ∈ range L, ∑ q ∈ range K, gi (n * L + l) q *
        (if q / (g.kh * g.kw) = c ∧ (y : ℤ) = ((l / Spec.outW g W : ℕ) : ℤ) * g.sh + ((q / g.kw % g.kh : ℕ) : ℤ) * g.dh - g.ph ∧
      (x : ℤ) = ((l % Spec.outW g W : ℕ) : ℤ) * g.sw + ((q % g.kw : ℕ) : ℤ) * g.dw - g.pw then D n c y x else 0) := by
    intro c y x
    unfold gradUnfold
    rw [sum_mul]
    apply sum_congr rfl; intro l _
    rw [sum_mul]
    apply sum_congr rfl; intro q hq
    rw [hgb n q l (mem_range.mp hq)]
    split_ifs <;> simp
  rw [sum_congr rfl fun c _ => sum_congr rfl fun y _ => sum_congr rfl fun x _ => expand c y x]
  -- move the pixel sums inside
  have mv : ∀ (t : Finset ℕ) (F : ℕ → ℕ → ℕ → ℚ), ∑ x ∈ t, ∑ l ∈ range L, ∑ q ∈ range K, F x l q =
      ∑ l ∈ range L, ∑ q ∈ range K, ∑ x ∈ t, F x l q := by
    intro t F
    rw [sum_comm]
    exact sum_congr rfl fun l _ => sum_comm
  rw [sum_congr rfl fun c _ => sum_congr rfl fun y _ => mv (range W) _, sum_congr rfl fun c _ => mv (range H) _, mv (range C) _]
  apply sum_congr rfl; intro l _
  apply sum_congr rfl; intro q hq
  simp_rw [← mul_sum]
  rw [tap_sum g C H W (D n) _ _ _ _ _ (flat_lt (mem_range.mp hq)).2.2]

private theorem weight_adj (g : Geo) (C O : ℕ) (gw : ℕ → ℕ → ℚ) (D : ℕ → ℕ → ℕ → ℕ → ℚ) :
    Spec.dot4 O C g.kh g.kw (fun o c i j => flat2 (C * g.kh * g.kw) gw (((o * C + c) * g.kh + i) * g.kw + j)) D =
      ∑ o : Fin O, ∑ q : Fin (C * g.kh * g.kw), gw o q * viewWeight g C O D o q := by
  unfold Spec.dot4
  rw [← Fin.sum_univ_eq_sum_range (fun o => ∑ c ∈ range C, ∑ i ∈ range g.kh, ∑ j ∈ range g.kw,
    flat2 (C * g.kh * g.kw) gw (((o * C + c) * g.kh + i) * g.kw + j) * D o c i j)]
  apply sum_congr rfl; intro o _
  rw [← sum_flat C g.kh g.kw fun c i j => flat2 (C * g.kh * g.kw) gw (((o * C + c) * g.kh + i) * g.kw + j) * D o c i j]
  apply sum_congr rfl; intro q _
  rw [weight_eq]
  congr 1
  obtain ⟨ha, hb, hc⟩ := flat_lt q.2
  have e : (((o : ℕ) * C + q / (g.kh * g.kw)) * g.kh + q / g.kw % g.kh) * g.kw + q % g.kw = o * (C * g.kh * g.kw) + q := by
    have h1 := Nat.div_add_mod (q : ℕ) g.kw
    have h2 := Nat.div_add_mod ((q : ℕ) / g.kw) g.kh
    rw [Nat.div_div_eq_div_mul, mul_comm g.kw g.kh] at h2
    calc _ = o * (C * g.kh * g.kw) + (g.kw * (g.kh * (q / (g.kh * g.kw)) + q / g.kw % g.kh) + q % g.kw) := by ring
      _ = _ := by rw [h2, h1]
  obtain ⟨h1, h2⟩ := split_idx (C * g.kh * g.kw) o q q.2
  unfold flat2
  rw [e, h1, h2]

/-! ## C86 -/

/-- The backward pass, with its rows written out. -/
private theorem backward_ok {O : ℕ} (g : Geo) (N C H W : ℕ) (h : Spec.GeoOK g H W) (w img G : ℕ → ℕ → ℕ → ℕ → ℚ)
    (hb : Bool) (needs : Bool × Bool × Bool) :
    let L := Spec.outH g H * Spec.outW g W
    let K := C * g.kh * g.kw
    let gi : ℕ → ℕ → ℚ := fun r q => if hq : r < N * L ∧ q < K then ∑ o : Fin O, gradRows O L (Spec.outW g W) G r o * viewWeight g C O w o ⟨q, hq.2⟩ else 0
    let gw : ℕ → ℕ → ℚ := fun o q => if hq : o < O ∧ q < K then
      ∑ r : Fin (N * L), gradRows O L (Spec.outW g W) G r o * rowsOf g N C H W img r ⟨q, hq.2⟩ else 0
    convBackward (O := O) g N C H W w img hb needs G = .ok {
      input := if needs.1 then some (gradUnfold g K L (Spec.outW g W) (gradBlocks L K gi)) else none
      weight := if needs.2.1 then some (fun o c i j => flat2 K gw (((o * C + c) * g.kh + i) * g.kw + j)) else none
      bias := if hb && needs.2.2 then some fun o => ∑ n ∈ range N, ∑ y ∈ range (Spec.outH g H), ∑ x ∈ range (Spec.outW g W), G n o y x else none } := by
  intro L K gi gw
  have key : ∀ (B : ℕ) (rows : List (Fin K → ℚ)) (hB : rows.length = B) (R : Fin B → Fin K → ℚ)
      (_ : ∀ i : Fin B, rows.get (i.cast hB.symm) = R i) (o : Fin O) (q : Fin K),
      ∑ r : Fin rows.length, gradRows O L (Spec.outW g W) G r o * rows.get r q = ∑ r : Fin B, gradRows O L (Spec.outW g W) G r o * R r q := by
    intro B rows hB R hR o q
    subst hB
    exact sum_congr rfl fun r _ => by rw [← hR r]; rfl
  have hrows := im2col_ok g N C H W h (0:ℚ) img
  change im2col g N C H W 0 img = .ok (List.ofFn (rowsOf g N C H W img)) at hrows
  unfold convBackward
  rw [C52_size g H W h]
  show (im2col g N C H W 0 img >>= _) = _
  rw [hrows]
  show Except.ok _ = Except.ok _
  congr 1
  have hlen : (List.ofFn (rowsOf g N C H W img)).length = N * L := List.length_ofFn
  unfold backward
  simp only [Int.toNat_natCast]
  congr 1
  · split_ifs with hn
    · simp only [Option.map_some]
      congr 2
      congr 1
      funext r q
      by_cases hq : r < N * L ∧ q < K
      · rw [dif_pos (by rw [hlen]; exact hq)]
        show _ = dite _ _ _
        rw [dif_pos hq]
      · rw [dif_neg (by rw [hlen]; exact hq)]
        show _ = dite _ _ _
        rw [dif_neg hq]
    · rfl
  · split_ifs with hn
    · simp only [Option.map_some]
      congr 1
      funext o c i j
      congr 1
      funext o q
      by_cases hq : o < O ∧ q < K
      · rw [dif_pos hq]
        show _ = dite _ _ _
        rw [dif_pos hq]
        exact key _ _ hlen (rowsOf g N C H W img) (fun i => by simp) ⟨o, hq.1⟩ ⟨q, hq.2⟩
      · rw [dif_neg hq]
        show _ = dite _ _ _
        rw [dif_neg hq]
    · rfl

/-- C86: the backward pass of a convolution layer succeeds whenever the forward pass does, and its three gradients are the first-order
change of the exact convolution in every direction of image, filters and bias; the remainder is the convolution of the two perturbations. -/
theorem C86_gradient (g : Geo) (N C H W O : ℕ) (h : Spec.GeoOK g H W) (w dw img dimg G : ℕ → ℕ → ℕ → ℕ → ℚ) (b db : ℕ → ℚ) :
    ∃ gi gw gb, convBackward (O := O) g N C H W w img true (true, true, true) G = .ok ⟨some gi, some gw, some gb⟩ ∧
      Spec.convLoss g N C H W O G (img + dimg) (w + dw) (b + db) - Spec.convLoss g N C H W O G img w b =
        Spec.dot4 N C H W gi dimg + Spec.dot4 O C g.kh g.kw gw dw + ∑ o : Fin O, gb o * db o +
        Spec.convLoss g N C H W O G dimg dw 0 := by
  refine ⟨_, _, _, backward_ok g N C H W h w img G true (true, true, true), ?_⟩
  rw [input_adj, weight_adj, loss_rows, loss_rows, loss_rows, rowsOf_add, viewWeight_add]
  obtain ⟨gi', gw', gb', hb, hg⟩ := C51_gradient (rowsOf g N C H W img) (rowsOf g N C H W dimg) (viewWeight g C O w)
    (viewWeight g C O dw) (fun o => b o) (fun o => db o) (fun (r : Fin (N * (Spec.outH g H * Spec.outW g W))) (o : Fin O) =>
      gradRows O (Spec.outH g H * Spec.outW g W) (Spec.outW g W) G r o)
  unfold backward at hb
  simp only [if_true, Bool.and_self, Grads.mk.injEq, Option.some.injEq] at hb
  obtain ⟨rfl, rfl, rfl⟩ := hb
  refine Eq.trans hg ?_
  congr 1
  congr 1
  · congr 1
    · apply sum_congr rfl; intro r _
      apply sum_congr rfl; intro q _
      beta_reduce
      rw [dif_pos ⟨r.2, q.2⟩]
    · apply sum_congr rfl; intro o _
      apply sum_congr rfl; intro q _
      beta_reduce
      rw [dif_pos ⟨o.2, q.2⟩]
  · apply sum_congr rfl; intro o _
    beta_reduce
    congr 1
    rw [← sum_rows N _ _ fun n y x => G n o y x]
    apply sum_congr rfl; intro r _
    rw [gradRows_eq _ _ _ _ _ _ o.2]

/-- C86: no other gradients have this property, so the code's are the ones of the exact convolution, not of the quantised one; only their values on
the arrays are determined, since nothing outside is ever read. -/
theorem C86_unique (g : Geo) (N C H W O : ℕ) (h : Spec.GeoOK g H W) (w img G : ℕ → ℕ → ℕ → ℕ → ℚ) (b : ℕ → ℚ)
    (gi' gw' : ℕ → ℕ → ℕ → ℕ → ℚ) (gb' : Fin O → ℚ)
    (hu : ∀ dimg dw db, Spec.convLoss g N C H W O G (img + dimg) (w + dw) (b + db) - Spec.convLoss g N C H W O G img w b =
        Spec.dot4 N C H W gi' dimg + Spec.dot4 O C g.kh g.kw gw' dw + ∑ o : Fin O, gb' o * db o +
        Spec.convLoss g N C H W O G dimg dw 0) :
    ∃ gi gw, convBackward (O := O) g N C H W w img true (true, true, true) G = .ok ⟨some gi, some gw, some gb'⟩ ∧
      (∀ n c y x, n < N → c < C → y < H → x < W → gi n c y x = gi' n c y x) ∧
      ∀ o c i j, o < O → c < C → i < g.kh → j < g.kw → gw o c i j = gw' o c i j := by
  obtain ⟨gi, gw, gb, e, -⟩ := C86_gradient g N C H W O h w 0 img 0 G b 0
  have key : ∀ (dimg dw : ℕ → ℕ → ℕ → ℕ → ℚ) (db : ℕ → ℚ), Spec.dot4 N C H W gi' dimg + Spec.dot4 O C g.kh g.kw gw' dw + ∑ o : Fin O, gb' o * db o =
      Spec.dot4 N C H W gi dimg + Spec.dot4 O C g.kh g.kw gw dw + ∑ o : Fin O, gb o * db o := by
    intro dimg dw db
    obtain ⟨gi2, gw2, gb2, e2, hg⟩ := C86_gradient g N C H W O h w dw img dimg G b db
    rw [e] at e2
    have e3 := Except.ok.inj e2
    simp only [ConvGrads.mk.injEq, Option.some.injEq] at e3
    obtain ⟨rfl, rfl, rfl⟩ := e3
    have := hu dimg dw db
    rw [hg] at this
    linarith
  have pick : ∀ (a b c d i j k l : ℕ) (u : ℕ → ℕ → ℕ → ℕ → ℚ), i < a → j < b → k < c → l < d →
      Spec.dot4 a b c d u (fun i' j' k' l' => if i' = i then if j' = j then if k' = k then if l' = l then 1 else 0 else 0 else 0 else 0) = u i j k l := by
    intro a b c d i j k l u hi hj hk hl
    unfold Spec.dot4
    rw [sum_eq_single_of_mem i (mem_range.mpr hi), sum_eq_single_of_mem j (mem_range.mpr hj),
      sum_eq_single_of_mem k (mem_range.mpr hk), sum_eq_single_of_mem l (mem_range.mpr hl)]
    · simp
    all_goals intro m _ hm; simp [hm]
  have z : ∀ (a b c d : ℕ) (u : ℕ → ℕ → ℕ → ℕ → ℚ), Spec.dot4 a b c d u 0 = 0 := by
    intro a b c d u; simp [Spec.dot4]
  have hgb : gb = gb' := by
    funext o
    have := key 0 0 (fun o' => if o' = o then 1 else 0)
    rw [z, z, z, z] at this
    simpa [Fin.val_inj] using this.symm
  subst hgb
  refine ⟨gi, gw, e, fun n c y x hn hc hy hx => ?_, fun o c i j ho hc hi hj => ?_⟩
  · have := key (fun i' j' k' l' => if i' = n then if j' = c then if k' = y then if l' = x then 1 else 0 else 0 else 0 else 0) 0 0
    rw [pick _ _ _ _ _ _ _ _ _ hn hc hy hx, pick _ _ _ _ _ _ _ _ _ hn hc hy hx, z, z] at this
    linarith
  · have := key 0 (fun i' j' k' l' => if i' = o then if j' = c then if k' = i then if l' = j then 1 else 0 else 0 else 0 else 0) 0
    rw [pick _ _ _ _ _ _ _ _ _ ho hc hi hj, pick _ _ _ _ _ _ _ _ _ ho hc hi hj, z, z] at this
    linarith

/-- C86: gradients not asked for, and the bias gradient of a layer without bias, are absent; the others do not depend on what else is
asked for. -/
theorem C86_needs (g : Geo) (N C H W O : ℕ) (h : Spec.GeoOK g H W) (w img G : ℕ → ℕ → ℕ → ℕ → ℚ) (hb a1 a2 a3 : Bool) :
    ∃ r full, convBackward (O := O) g N C H W w img hb (a1, a2, a3) G = .ok r ∧
      convBackward (O := O) g N C H W w img true (true, true, true) G = .ok full ∧
      r.input = (if a1 then full.input else none) ∧ r.weight = (if a2 then full.weight else none) ∧
      r.bias = (if a3 ∧ hb then full.bias else none) := by
  refine ⟨_, _, backward_ok g N C H W h w img G hb (a1, a2, a3), backward_ok g N C H W h w img G true (true, true, true), ?_⟩
  cases a1 <;> cases a2 <;> cases a3 <;> cases hb <;> refine ⟨rfl, rfl, rfl⟩

/-- C86: the backward pass fails like the forward pass when the window does not fit. -/
theorem C86_too_large (g : Geo) (N C H W O : ℕ) (w img G : ℕ → ℕ → ℕ → ℕ → ℚ) (hb : Bool) (needs : Bool × Bool × Bool)
    (hk : 0 < g.kh ∧ 0 < g.kw) (hs : 0 < g.sh ∧ 0 < g.sw)
    (h : H + 2 * g.ph ≤ g.dh * (g.kh - 1) ∨ W + 2 * g.pw ≤ g.dw * (g.kw - 1)) :
    ∃ e, convBackward (O := O) g N C H W w img hb needs G = .error e := by
  unfold convBackward
  cases outSize g H W with
  | error e => exact ⟨e, rfl⟩
  | ok os =>
    refine ⟨.runtime, ?_⟩
    show (im2col g N C H W 0 img >>= _) = _
    rw [C52_too_large g N C H W 0 img hk hs h]
    rfl

/-- Non-vacuity: a 2x2 kernel with stride 2 fits into a 3x3 image padded by one, with four windows; the last one sees the middle
pixel. -/
example : Spec.GeoOK ⟨2, 2, 2, 2, 1, 1, 1, 1⟩ 3 3 ∧ Spec.outH ⟨2, 2, 2, 2, 1, 1, 1, 1⟩ 3 = 2 ∧
    Spec.conv ⟨2, 2, 2, 2, 1, 1, 1, 1⟩ 1 3 3 id id (fun _ _ y x => if y = 1 ∧ x = 1 then 7 else 0) (fun _ _ _ _ => 5) 0 0 1 1 = 35 := by
  refine ⟨by simp [Spec.GeoOK, Spec.AxisOK], by simp [Spec.outH, Spec.outLen], ?_⟩
  simp [Spec.conv, Spec.tap, sum_range_succ]
  norm_num

/-- Non-vacuity of the failing case: a 3x3 kernel with dilation 2 on a 4x4 image. -/
example (G : ℕ → ℕ → ℕ → ℕ → ℚ) : ∃ e, convBackward (O := 1) ⟨3, 3, 1, 1, 0, 0, 2, 2⟩ 1 1 4 4 G G true (true, true, true) G = .error e :=
  C86_too_large _ _ _ _ _ _ _ _ _ _ _ (by simp) (by simp) (by simp)

end Verif.Props
