import Verif.Props.Symmetry

/-!
# Property C94: symmetries and receptive fields of the convolution layers
-/

namespace Verif.Props

open Verif Finset Linear Gen Conv

/-! ## Specification -/

/-- Both calls raise the same error, or both return and the results are related by `R`. -/
def Spec.Match {α β : Type} (R : α → β → Prop) : Except PyErr α → Except PyErr β → Prop
  | .error e, .error e' => e = e'
  | .ok a, .ok b => R a b
  | _, _ => False

/-- All pixels of a batch. -/
def Spec.pixels (N C H W : ℕ) (img : ℕ → ℕ → ℕ → ℕ → ℚ) : List ℚ :=
  (List.range N).flatMap fun n => (List.range C).flatMap fun c => (List.range H).flatMap fun y => (List.range W).map fun x => img n c y x

/-- Position `(n, y, x)` of the output for `img` and position `(n', y', x')` of the output for `img'` see the same window. -/
def Spec.SameWindow (g : Geo) (C H W : ℕ) (img img' : ℕ → ℕ → ℕ → ℕ → ℚ) (n y x n' y' x' : ℕ) : Prop :=
  ∀ c i j, c < C → i < g.kh → j < g.kw → Spec.tap g H W 0 (img n c) y x i j = Spec.tap g H W 0 (img' n' c) y' x' i j

/-- What a convolution layer `K` (filters, bias, images) must satisfy for data sizes `N C H W` and `O` filters:
* `channels`, `filters`: renumbering channels or filters changes nothing else;
* `input`, `weight`: multiplying all pixels, or all filter taps, by plus or minus a power of two does the same to the output;
* `bias`: the bias is added at the end. -/
structure Spec.ConvSymmetric (g : Geo) (N C H W O : ℕ)
    (K : (ℕ → ℕ → ℕ → ℕ → ℚ) → Option (Fin O → ℚ) → (ℕ → ℕ → ℕ → ℕ → ℚ) → Except PyErr (ℕ → ℕ → ℕ → ℕ → ℚ)) : Prop where
  channels : ∀ w w' b img img' (σ : Equiv.Perm (Fin C)), (∀ o (c : Fin C) i j, w' o c i j = w o (σ c) i j) →
    (∀ n (c : Fin C) y x, img' n c y x = img n (σ c) y x) →
    Spec.Match (fun F F' => ∀ n (o : Fin O) y x, n < N → y < Spec.outH g H → x < Spec.outW g W → F' n o y x = F n o y x) (K w b img) (K w' b img')
  filters : ∀ w w' b img (τ : Equiv.Perm (Fin O)), (∀ (o : Fin O) c i j, w' o c i j = w (τ o) c i j) →
    Spec.Match (fun F F' => ∀ n (o : Fin O) y x, n < N → y < Spec.outH g H → x < Spec.outW g W → F' n o y x = F n (τ o) y x)
      (K w b img) (K w' (b.map fun v o => v (τ o)) img)
  input : ∀ w img c, Spec.SignedPow c →
    Spec.Match (fun F F' => ∀ n (o : Fin O) y x, n < N → y < Spec.outH g H → x < Spec.outW g W → F' n o y x = c * F n o y x)
      (K w none img) (K w none fun n ch y x => c * img n ch y x)
  weight : ∀ w img c, Spec.SignedPow c →
    Spec.Match (fun F F' => ∀ n (o : Fin O) y x, n < N → y < Spec.outH g H → x < Spec.outW g W → F' n o y x = c * F n o y x)
      (K w none img) (K (fun o ch i j => c * w o ch i j) none img)
  bias : ∀ w b img,
    Spec.Match (fun F F' => ∀ n (o : Fin O) y x, n < N → y < Spec.outH g H → x < Spec.outW g W → F' n o y x = F n o y x + b o)
      (K w none img) (K w (some b) img)

/-- For two batches in relation `P`, equal windows give equal outputs, wherever in the batches they are. -/
def Spec.WindowsOnly (g : Geo) (N C H W O : ℕ)
    (K : (ℕ → ℕ → ℕ → ℕ → ℚ) → Option (Fin O → ℚ) → (ℕ → ℕ → ℕ → ℕ → ℚ) → Except PyErr (ℕ → ℕ → ℕ → ℕ → ℚ))
    (P : (ℕ → ℕ → ℕ → ℕ → ℚ) → (ℕ → ℕ → ℕ → ℕ → ℚ) → Prop) : Prop :=
  ∀ w b img img', P img img' →
    Spec.Match (fun F F' => ∀ n n' (o : Fin O) y x y' x', n < N → y < Spec.outH g H → x < Spec.outW g W →
      n' < N → y' < Spec.outH g H → x' < Spec.outW g W → Spec.SameWindow g C H W img img' n y x n' y' x' → F' n' o y' x' = F n o y x)
      (K w b img) (K w b img')

/-! ## Lists of pixels -/

private theorem range_mul {α : Type} (m k : ℕ) (G : ℕ → α) :
    (List.range (m * k)).map G = (List.range m).flatMap fun i => (List.range k).map fun j => G (i * k + j) := by
  induction m with
  | zero => simp
  | succ m ih =>
      rw [add_mul, one_mul, List.range_add, List.map_append, ih, List.range_succ, List.flatMap_append]
      simp

private theorem ofFn_range {α : Type} (n : ℕ) (G : ℕ → α) : List.ofFn (fun i : Fin n => G i) = (List.range n).map G := by
  apply List.ext_getElem <;> simp

private theorem list_flat {α : Type} (C a b : ℕ) (F : ℕ → ℕ → ℕ → α) :
    List.ofFn (fun q : Fin (C * a * b) => F (q / (a * b)) (q / b % a) (q % b)) =
      (List.range C).flatMap fun c => (List.range a).flatMap fun i => (List.range b).map fun j => F c i j := by
  rw [ofFn_range _ fun q => F (q / (a * b)) (q / b % a) (q % b), range_mul, ]
  have e := range_mul C a (fun p => (List.range b).map fun j => F ((p * b + j) / (a * b)) ((p * b + j) / b % a) ((p * b + j) % b))
  rw [List.flatMap_def, e, List.flatMap_def, List.flatten_flatten, List.map_map, List.flatMap_def]
  congr 1
  refine List.map_congr_left fun c _ => ?_
  rw [List.flatMap_def]
  show List.flatten _ = _
  congr 1
  refine List.map_congr_left fun i hi => ?_
  refine List.map_congr_left fun j hj => ?_
  rw [List.mem_range] at hi hj
  obtain ⟨h1, h2⟩ := split_idx b (c * a + i) j hj
  obtain ⟨h3, h4⟩ := split_idx a c i hi
  rw [h1, h2, h4, mul_comm a b, ← Nat.div_div_eq_div_mul, h1, h3]

theorem flat_entries (N C H W : ℕ) (img : ℕ → ℕ → ℕ → ℕ → ℚ) : flat (entries N C H W img) = Spec.pixels N C H W img := by
  unfold flat entries Spec.pixels
  rw [show (List.ofFn fun (n : Fin N) (q : Fin (C * H * W)) => view2 (C * H * W) (flat4 C H W img) n q) =
      (List.range N).map fun n (q : Fin (C * H * W)) => img n (q / (H * W)) (q / W % H) (q % W) by
    rw [← ofFn_range N fun n (q : Fin (C * H * W)) => img n (q / (H * W)) (q / W % H) (q % W)]
    congr 1
    funext n q
    exact view_flat4 _ _ _ _ _ _ q.2, List.flatMap_map]
  congr 1
  funext n
  exact list_flat C H W fun c y x => img n c y x

theorem flat_weight (g : Geo) (C O : ℕ) (w : ℕ → ℕ → ℕ → ℕ → ℚ) :
    flat (List.ofFn (viewWeight g C O w)) = Spec.pixels O C g.kh g.kw w := by
  rw [← flat_entries]; rfl

private theorem pixels_map (N C H W : ℕ) (img : ℕ → ℕ → ℕ → ℕ → ℚ) (f : ℚ → ℚ) :
    Spec.pixels N C H W (fun n c y x => f (img n c y x)) = (Spec.pixels N C H W img).map f := by
  unfold Spec.pixels
  simp only [List.map_flatMap, List.map_map]
  rfl

private theorem range_perm {C : ℕ} (G G' : ℕ → List ℚ) (σ : Equiv.Perm (Fin C)) (h : ∀ c : Fin C, G' c = G (σ c)) :
    ((List.range C).flatMap G').Perm ((List.range C).flatMap G) := by
  rw [List.flatMap_def, List.flatMap_def, ← ofFn_range, ← ofFn_range,
    show (List.ofFn fun c : Fin C => G' c) = List.ofFn ((fun c : Fin C => G c) ∘ σ) from congrArg List.ofFn (funext h)]
  exact (Equiv.Perm.ofFn_comp_perm σ fun c : Fin C => G c).flatten

private theorem pixels_channels (N C H W : ℕ) (img img' : ℕ → ℕ → ℕ → ℕ → ℚ) (σ : Equiv.Perm (Fin C))
    (h : ∀ n (c : Fin C) y x, img' n c y x = img n (σ c) y x) : (Spec.pixels N C H W img').Perm (Spec.pixels N C H W img) := by
  unfold Spec.pixels
  exact List.Perm.flatMap_left _ fun n _ => range_perm _ _ σ fun c => by simp only [h]

private theorem pixels_filters (O C H W : ℕ) (w w' : ℕ → ℕ → ℕ → ℕ → ℚ) (τ : Equiv.Perm (Fin O))
    (h : ∀ (o : Fin O) c i j, w' o c i j = w (τ o) c i j) : (Spec.pixels O C H W w').Perm (Spec.pixels O C H W w) := by
  unfold Spec.pixels
  exact range_perm _ _ τ fun c => by simp only [h]

private theorem sum_perm {C : ℕ} (f f' : ℕ → ℚ) (σ : Equiv.Perm (Fin C)) (h : ∀ c : Fin C, f' c = f (σ c)) :
    ∑ c ∈ range C, f' c = ∑ c ∈ range C, f c := by
  rw [← Fin.sum_univ_eq_sum_range, ← Fin.sum_univ_eq_sum_range f, ← Equiv.sum_comp σ fun c : Fin C => f c]
  exact sum_congr rfl fun c _ => h c

/-! ## Shared pattern -/

/-- Windowed sum of elementary products. -/
private def wsum (g : Geo) (C H W : ℕ) (T : ℚ → ℚ → ℚ) (img w : ℕ → ℕ → ℕ → ℕ → ℚ) (n o y x : ℕ) : ℚ :=
  ∑ c ∈ range C, ∑ i ∈ range g.kh, ∑ j ∈ range g.kw, T (Spec.tap g H W 0 (img n c) y x i j) (w o c i j)

/-- A layer made of an elementary product chosen from the data `D img` and the filter taps, and windowed sums of it. -/
private def Form (g : Geo) (N C H W O : ℕ)
    (K : (ℕ → ℕ → ℕ → ℕ → ℚ) → Option (Fin O → ℚ) → (ℕ → ℕ → ℕ → ℕ → ℚ) → Except PyErr (ℕ → ℕ → ℕ → ℕ → ℚ))
    (D : (ℕ → ℕ → ℕ → ℕ → ℚ) → List ℚ) (S : List ℚ → List ℚ → Except PyErr (ℚ → ℚ → ℚ)) : Prop :=
  ∀ w b img, Spec.Match (fun T F => ∀ n (o : Fin O) y x, n < N → y < Spec.outH g H → x < Spec.outW g W →
    F n o y x = wsum g C H W T img w n o y x + (b.map fun v => v o).getD 0) (S (D img) (Spec.pixels O C g.kh g.kw w)) (K w b img)

private theorem match_lift {α β γ δ : Type} {R : α → β → Prop} {R' : δ → γ → Prop} {Q : β → γ → Prop} {a : Except PyErr α}
    {d : Except PyErr δ} {k : Except PyErr β} {k' : Except PyErr γ} (φ : α → δ) (h1 : Spec.Match R a k) (h2 : Spec.Match R' d k')
    (hd : d = a.map φ) (h : ∀ T F F', R T F → R' (φ T) F' → Q F F') : Spec.Match Q k k' := by
  subst hd
  cases a with
  | error e =>
      cases k with
      | ok _ => exact h1.elim
      | error e1 =>
          cases k' with
          | ok _ => exact h2.elim
          | error e2 => exact (show e1 = e2 from (show e = e1 from h1).symm.trans h2)
  | ok T =>
      cases k with
      | error e1 => exact h1.elim
      | ok F =>
          cases k' with
          | error e2 => exact h2.elim
          | ok F' => exact h T F F' h1 h2

private theorem tap_scale (g : Geo) (H W : ℕ) (c : ℚ) (img : ℕ → ℕ → ℚ) (y x i j : ℕ) :
    Spec.tap g H W 0 (fun y x => c * img y x) y x i j = c * Spec.tap g H W 0 img y x i j := by
  unfold Spec.tap
  split_ifs
  · rfl
  · rw [mul_zero]

private theorem map_id' {α : Type} (a : Except PyErr α) : a = a.map id := by cases a <;> rfl

private theorem form_symmetric (g : Geo) (N C H W O : ℕ)
    (K : (ℕ → ℕ → ℕ → ℕ → ℚ) → Option (Fin O → ℚ) → (ℕ → ℕ → ℕ → ℕ → ℚ) → Except PyErr (ℕ → ℕ → ℕ → ℕ → ℚ))
    (D : (ℕ → ℕ → ℕ → ℕ → ℚ) → List ℚ) (S : List ℚ → List ℚ → Except PyErr (ℚ → ℚ → ℚ)) (hF : Form g N C H W O K D S)
    (hS : KernelOK S) (hD : ∀ img c, D (fun n ch y x => c * img n ch y x) = (D img).map fun a => c * a)
    (hDc : ∀ img img' (σ : Equiv.Perm (Fin C)), (∀ n (c : Fin C) y x, img' n c y x = img n (σ c) y x) → (D img').Perm (D img)) :
    Spec.ConvSymmetric g N C H W O K := by
  constructor
  · intro w w' b img img' σ hw hi
    refine match_lift id (hF w b img) (hF w' b img') ?_ ?_
    · rw [hS.perm _ _ _ _ (hDc img img' σ hi) (pixels_channels O C g.kh g.kw w w' σ fun o c i j => hw o c i j)]
      exact map_id' _
    · intro T F F' h1 h2 n o y x hn hy hx
      rw [h1 n o y x hn hy hx, h2 n o y x hn hy hx]
      congr 1
      refine sum_perm _ _ σ fun c => ?_
      refine sum_congr rfl fun i _ => sum_congr rfl fun j _ => ?_
      rw [hw, show img' n c = img n (σ c) from funext fun y => funext fun x => hi n c y x]
      rfl
  · intro w w' b img τ hw
    refine match_lift id (hF w b img) (hF w' (b.map fun v o => v (τ o)) img) ?_ ?_
    · rw [hS.perm _ _ _ _ (List.Perm.refl _) (pixels_filters O C g.kh g.kw w w' τ hw)]
      exact map_id' _
    · intro T F F' h1 h2 n o y x hn hy hx
      rw [h1 n (τ o) y x hn hy hx, h2 n o y x hn hy hx]
      congr 1
      · unfold wsum
        simp only [hw, id]
      · cases b <;> rfl
  · intro w img c hc
    refine match_lift (fun T a b => c * T (a / c) b) (hF w none img) (hF w none fun n ch y x => c * img n ch y x) ?_ ?_
    · rw [hD, hS.input _ _ c hc]
    · intro T F F' h1 h2 n o y x hn hy hx
      rw [h1 n o y x hn hy hx, h2 n o y x hn hy hx]
      show wsum _ _ _ _ _ _ _ _ _ _ _ + 0 = c * (wsum _ _ _ _ _ _ _ _ _ _ _ + 0)
      rw [add_zero, add_zero]
      unfold wsum
      simp only [mul_sum, tap_scale, mul_div_cancel_left₀ _ (Spec.SignedPow_ne hc)]
  · intro w img c hc
    refine match_lift (fun T a b => c * T a (b / c)) (hF w none img) (hF (fun o ch i j => c * w o ch i j) none img) ?_ ?_
    · rw [pixels_map O C g.kh g.kw w fun a => c * a, hS.weight _ _ c hc]
    · intro T F F' h1 h2 n o y x hn hy hx
      rw [h1 n o y x hn hy hx, h2 n o y x hn hy hx]
      show wsum _ _ _ _ _ _ _ _ _ _ _ + 0 = c * (wsum _ _ _ _ _ _ _ _ _ _ _ + 0)
      rw [add_zero, add_zero]
      unfold wsum
      simp only [mul_sum, mul_div_cancel_left₀ _ (Spec.SignedPow_ne hc)]
  · intro w b img
    refine match_lift id (hF w none img) (hF w (some b) img) (map_id' _) ?_
    intro T F F' h1 h2 n o y x hn hy hx
    rw [h1 n o y x hn hy hx, h2 n o y x hn hy hx]
    show _ + b o = _ + 0 + b o
    rw [add_zero]; rfl

private theorem form_windows (g : Geo) (N C H W O : ℕ)
    (K : (ℕ → ℕ → ℕ → ℕ → ℚ) → Option (Fin O → ℚ) → (ℕ → ℕ → ℕ → ℕ → ℚ) → Except PyErr (ℕ → ℕ → ℕ → ℕ → ℚ))
    (D : (ℕ → ℕ → ℕ → ℕ → ℚ) → List ℚ) (S : List ℚ → List ℚ → Except PyErr (ℚ → ℚ → ℚ)) (hF : Form g N C H W O K D S)
    (P : (ℕ → ℕ → ℕ → ℕ → ℚ) → (ℕ → ℕ → ℕ → ℕ → ℚ) → Prop) (hP : ∀ img img' m, P img img' → S (D img) m = S (D img') m) :
    Spec.WindowsOnly g N C H W O K P := by
  intro w b img img' hp
  refine match_lift id (hF w b img) (hF w b img') ((hP img img' _ hp).symm.trans (map_id' _)) ?_
  intro T F F' h1 h2 n n' o y x y' x' hn hy hx hn' hy' hx' hs
  rw [h1 n o y x hn hy hx, h2 n' o y' x' hn' hy' hx']
  congr 1
  refine sum_congr rfl fun c hc => sum_congr rfl fun i hi => sum_congr rfl fun j hj => ?_
  rw [hs c i j (mem_range.1 hc) (mem_range.1 hi) (mem_range.1 hj)]
  rfl

/-! ## The three layers -/

private theorem addBias_eq {O : ℕ} (bias : Option (Fin O → ℚ)) (f : ℕ → ℕ → ℕ → ℕ → ℚ) (n : ℕ) (o : Fin O) (y x : ℕ) :
    addBias4 bias f n o y x = f n o y x + (bias.map fun b => b o).getD 0 := by
  cases bias <;> simp [addBias4]

private theorem row_wsum (g : Geo) (C H W O : ℕ) (T : ℚ → ℚ → ℚ) (img w : ℕ → ℕ → ℕ → ℕ → ℚ) (n y x : ℕ) (o : Fin O) :
    ∑ q, T (Spec.windowRow g C H W 0 img n y x q) (viewWeight g C O w o q) = wsum g C H W T img w n o y x := by
  unfold wsum
  rw [← sum_flat C g.kh g.kw fun c i j => T (Spec.tap g H W 0 (img n c) y x i j) (w o c i j)]
  apply sum_congr rfl
  intro q _
  rw [weight_eq]; rfl

private theorem fxp_form {O : ℕ} (hO : 0 < O) (g : Geo) (N C H W : ℕ) (hN : 0 < N) (h : Spec.GeoOK g H W) (wi ww : ℕ) (qi qw : ℚ) (r : String) :
    Form g N C H W O (fxpConv g N C H W wi ww qi qw r) (Spec.pixels N C H W) (fxpKernel wi ww qi qw r) := by
  intro w b img
  unfold fxpKernel fxpConv
  rw [← flat_entries, ← flat_weight]
  show Spec.Match _ _ (shifts _ _ _ _ _ _ _ >>= _)
  cases shifts ((wi : ℤ) - 1) ((ww : ℤ) - 1) r.toLower qi qw (flat (entries N C H W img)) (flat (List.ofFn (viewWeight g C O w))) with
  | error e => exact rfl
  | ok s =>
      obtain ⟨rows, os, F, e1, e2, e3, e4⟩ := C52_pipeline hO g N C H W hN h (0:ℚ) img
        (fun row (o : Fin O) => fxpForward s.1 s.2.1 (0 - s.1 - s.2.1) (2 ^ wi) (2 ^ ww) row (viewWeight g C O w o) none)
      show Spec.Match _ (Except.ok _) (outSize g H W >>= fun os => im2col g N C H W 0 img >>= fun rows => col2im N os (rows.map _) >>= _)
      rw [e1, e2]
      show Spec.Match _ (Except.ok _) (col2im N os (rows.map _) >>= _)
      rw [e3]
      intro n o y x hn hy hx
      rw [addBias_eq, e4 n o y x hn hy hx]
      congr 1
      rw [← row_wsum]
      show (∑ q, _) / _ + 0 = _
      rw [add_zero, sum_div]

private theorem hub_form {O : ℕ} (hO : 0 < O) (g : Geo) (N C H W : ℕ) (hN : 0 < N) (h : Spec.GeoOK g H W) (u : Hub) :
    Form g N C H W O (hubConv u g N C H W) (Spec.pixels N C H W) (hubKernel u) := by
  intro w b img
  unfold hubKernel hubConv
  rw [← flat_entries, ← flat_weight]
  show Spec.Match _ _ (shifts _ _ _ _ _ _ _ >>= _)
  cases shifts ((u.widthi : ℤ) - 1) ((u.widthw : ℤ) - 1) u.rounding u.quantilei u.quantilew (flat (entries N C H W img)) (flat (List.ofFn (viewWeight g C O w))) with
  | error e => exact rfl
  | ok s =>
      obtain ⟨rows, os, F, e1, e2, e3, e4⟩ := C52_pipeline hO g N C H W hN h (0:ℚ) img
        (fun row (o : Fin O) => hubForward s.1 s.2.1 s.2.2 (hubCycleMax u.widthi u.widthw) u.cycle u.table row (viewWeight g C O w o) none)
      show Spec.Match _ (Except.ok _) (outSize g H W >>= fun os => im2col g N C H W 0 img >>= fun rows => col2im N os (rows.map _) >>= _)
      rw [e1, e2]
      show Spec.Match _ (Except.ok _) (col2im N os (rows.map _) >>= _)
      rw [e3]
      intro n o y x hn hy hx
      rw [addBias_eq, e4 n o y x hn hy hx]
      congr 1
      rw [← row_wsum]
      show (∑ q, _) / _ + 0 = _
      rw [add_zero, sum_div]

/-- What the windows see, one list per output position. -/
private def seen (g : Geo) (N C H W : ℕ) (img : ℕ → ℕ → ℕ → ℕ → ℚ) : List ℚ :=
  flat (List.ofFn fun r : Fin (N * (Spec.outH g H * Spec.outW g W)) =>
      Spec.windowRow g C H W (0:ℚ) img (r / (Spec.outH g H * Spec.outW g W))
        (r % (Spec.outH g H * Spec.outW g W) / Spec.outW g W) (r % (Spec.outH g H * Spec.outW g W) % Spec.outW g W))

private theorem tlut_form {O : ℕ} (hO : 0 < O) (g : Geo) (N C H W : ℕ) (hN : 0 < N) (h : Spec.GeoOK g H W) (c : Tlut) :
    Form g N C H W O (tlutConv c g N C H W) (seen g N C H W) (tlutKernel c) := by
  intro w b img
  unfold tlutKernel tlutConv
  dsimp only
  rw [← flat_weight, im2col_ok g N C H W h (0:ℚ) img, C52_size g H W h]
  show Spec.Match _ _ (c.forward (viewWeight g C O w) none _ >>= _)
  unfold Tlut.forward
  rw [tlutOps_eq]
  show Spec.Match _ ((tlutOps c (seen g N C H W img) (flat (List.ofFn (viewWeight g C O w)))).map _)
    ((tlutOps c (seen g N C H W img) (flat (List.ofFn (viewWeight g C O w))) >>= _) >>= _)
  cases tlutOps c (seen g N C H W img) (flat (List.ofFn (viewWeight g C O w))) with
  | error e => exact rfl
  | ok p =>
      obtain ⟨rows, os, F, e1, e2, e3, e4⟩ := C52_pipeline hO g N C H W hN h (0:ℚ) img
        (fun row (o : Fin O) => ∑ i, p.1 (row i) * p.2 (viewWeight g C O w o i) + ((none : Option (Fin O → ℚ)).map fun b => b o).getD 0)
      rw [im2col_ok g N C H W h (0:ℚ) img] at e1
      rw [C52_size g H W h] at e2
      cases e1; cases e2
      show Spec.Match _ (Except.ok _) (col2im N _ (List.map _ _) >>= _)
      rw [e3]
      intro n o y x hn hy hx
      rw [addBias_eq, e4 n o y x hn hy hx]
      congr 1
      rw [← row_wsum]
      exact add_zero _

/-- C94: fixed-point convolution. -/
theorem C94_fixed {O : ℕ} (hO : 0 < O) (g : Geo) (N C H W : ℕ) (hN : 0 < N) (h : Spec.GeoOK g H W) (wi ww : ℕ) (qi qw : ℚ) (r : String)
    (hi0 : 0 < qi) (hi1 : qi ≤ 1) (hw0 : 0 < qw) (hw1 : qw ≤ 1) :
    Spec.ConvSymmetric g N C H W O (fxpConv g N C H W wi ww qi qw r) ∧
    Spec.WindowsOnly g N C H W O (fxpConv g N C H W wi ww qi qw r) fun img img' =>
      (Spec.pixels N C H W img).Perm (Spec.pixels N C H W img') :=
  ⟨form_symmetric g N C H W O _ _ _ (fxp_form hO g N C H W hN h wi ww qi qw r) (fxpKernel_ok wi ww qi qw r hi0 hi1 hw0 hw1)
    (fun img c => pixels_map N C H W img fun a => c * a) (fun img img' σ => pixels_channels N C H W img img' σ),
  form_windows g N C H W O _ _ _ (fxp_form hO g N C H W hN h wi ww qi qw r) _ fun _ _ _ hp =>
    (fxpKernel_ok wi ww qi qw r hi0 hi1 hw0 hw1).perm _ _ _ _ hp (List.Perm.refl _)⟩

/-- C94: hybrid convolution. -/
theorem C94_hybrid {O : ℕ} (hO : 0 < O) (g : Geo) (N C H W : ℕ) (hN : 0 < N) (h : Spec.GeoOK g H W) (u : Hub)
    (hi0 : 0 < u.quantilei) (hi1 : u.quantilei ≤ 1) (hw0 : 0 < u.quantilew) (hw1 : u.quantilew ≤ 1) :
    Spec.ConvSymmetric g N C H W O (hubConv u g N C H W) ∧
    Spec.WindowsOnly g N C H W O (hubConv u g N C H W) fun img img' => (Spec.pixels N C H W img).Perm (Spec.pixels N C H W img') :=
  ⟨form_symmetric g N C H W O _ _ _ (hub_form hO g N C H W hN h u) (hubKernel_ok u hi0 hi1 hw0 hw1)
    (fun img c => pixels_map N C H W img fun a => c * a) (fun img img' σ => pixels_channels N C H W img img' σ),
  form_windows g N C H W O _ _ _ (hub_form hO g N C H W hN h u) _ fun _ _ _ hp =>
    (hubKernel_ok u hi0 hi1 hw0 hw1).perm _ _ _ _ hp (List.Perm.refl _)⟩

/-- C94: look-up convolution; pixels that no window covers have no influence. -/
theorem C94_lookup {O : ℕ} (hO : 0 < O) (g : Geo) (N C H W : ℕ) (hN : 0 < N) (h : Spec.GeoOK g H W) (c : Tlut) (hc : c.cycle ≠ some 0)
    (hi0 : 0 < c.quantilei) (hi1 : c.quantilei ≤ 1) (hw0 : 0 < c.quantilew) (hw1 : c.quantilew ≤ 1) :
    Spec.ConvSymmetric g N C H W O (tlutConv c g N C H W) ∧
    Spec.WindowsOnly g N C H W O (tlutConv c g N C H W) fun img img' =>
      ∀ n y x, n < N → y < Spec.outH g H → x < Spec.outW g W → Spec.SameWindow g C H W img img' n y x n y x := by
  refine ⟨form_symmetric g N C H W O _ _ _ (tlut_form hO g N C H W hN h c) (tlutKernel_ok c hc hi0 hi1 hw0 hw1) ?_ ?_,
    form_windows g N C H W O _ _ _ (tlut_form hO g N C H W hN h c) _ ?_⟩
  · intro img d
    unfold seen
    rw [← flat_map, List.map_ofFn]
    congr 2
    funext r q
    exact tap_scale g H W d _ _ _ _ _
  · intro img img' σ hi
    unfold seen flat
    rw [List.flatMap_def, List.flatMap_def, List.map_ofFn, List.map_ofFn, ← List.flatMap_id, ← List.flatMap_id]
    rw [List.ofFn_eq_map, List.ofFn_eq_map, List.flatMap_map, List.flatMap_map]
    refine List.Perm.flatMap_left _ fun r _ => ?_
    show (List.ofFn _).Perm (List.ofFn _)
    unfold Spec.windowRow
    rw [list_flat C g.kh g.kw fun ch i j => Spec.tap g H W 0 (img' _ ch) _ _ i j, list_flat C g.kh g.kw fun ch i j => Spec.tap g H W 0 (img _ ch) _ _ i j]
    refine range_perm _ _ σ fun ch => ?_
    rw [show img' (r / (Spec.outH g H * Spec.outW g W)) ch = img (r / (Spec.outH g H * Spec.outW g W)) (σ ch) from funext fun y => funext fun x => hi _ ch y x]
  · intro img img' m hs
    have : seen g N C H W img = seen g N C H W img' := by
      unfold seen
      congr 2
      funext r q
      obtain ⟨h1, h2, h3⟩ := pos_lt r
      obtain ⟨ha, hb, hcc⟩ := flat_lt q.2
      exact hs _ _ _ h1 h2 h3 _ _ _ hcc (Nat.mod_lt _ ha) (Nat.mod_lt _ hb)
    rw [this]

/-- C94: look-up convolution with two floating formats: an output depends on its window and nothing else. -/
theorem C94_lookup_float {O : ℕ} (hO : 0 < O) (g : Geo) (N C H W : ℕ) (hN : 0 < N) (h : Spec.GeoOK g H W) (c : Tlut)
    (hi : c.formati ≠ .fxp) (hw : c.formatw ≠ .fxp) :
    Spec.WindowsOnly g N C H W O (tlutConv c g N C H W) fun _ _ => True := by
  refine form_windows g N C H W O _ _ _ (tlut_form hO g N C H W hN h c) _ fun img img' m _ => ?_
  unfold tlutKernel tlutOps
  simp only [if_neg (show ¬(c.formati = .fxp ∧ c.formatw = .fxp) from fun h => hi h.1), if_pos (And.intro hi hw)]

/-- C94: with input quantile one, the fixed-point and the hybrid layer depend on the rest of the batch through the largest
magnitude only. -/
theorem C94_company {O : ℕ} (hO : 0 < O) (g : Geo) (N C H W : ℕ) (hN : 0 < N) (h : Spec.GeoOK g H W) (wi ww : ℕ) (qw : ℚ) (r : String)
    (u : Hub) (hq : u.quantilei = 1) :
    (Spec.WindowsOnly g N C H W O (fxpConv g N C H W wi ww 1 qw r) fun img img' =>
      ∃ M, Spec.MaxAbs4 M N C H W img ∧ Spec.MaxAbs4 M N C H W img') ∧
    Spec.WindowsOnly g N C H W O (hubConv u g N C H W) fun img img' => ∃ M, Spec.MaxAbs4 M N C H W img ∧ Spec.MaxAbs4 M N C H W img' := by
  have key : ∀ img img' M, Spec.MaxAbs4 M N C H W img → Spec.MaxAbs4 M N C H W img' →
      qscale (Spec.pixels N C H W img) 1 = qscale (Spec.pixels N C H W img') 1 := by
    intro img img' M h1 h2
    rw [← flat_entries, ← flat_entries]
    exact (qscale_full (maxAbs_entries h1)).trans (qscale_full (maxAbs_entries h2)).symm
  refine ⟨form_windows g N C H W O _ _ _ (fxp_form hO g N C H W hN h wi ww 1 qw r) _ ?_,
    form_windows g N C H W O _ _ _ (hub_form hO g N C H W hN h u) _ ?_⟩
  · rintro img img' m ⟨M, h1, h2⟩
    unfold fxpKernel shifts
    rw [key img img' M h1 h2]
  · rintro img img' m ⟨M, h1, h2⟩
    unfold hubKernel shifts
    rw [hq, key img img' M h1 h2]

/-- C94, streams: every output position of the stream layer is a stream layer of its own, `FSULinear` with the flattened
filters, fed with the streams of its window. -/
theorem C94_stream {O : ℕ} (hO : 0 < O) (g : Geo) (p N C H W : ℕ) (hN : 0 < N) (h : Spec.GeoOK (Spec.padded g p) H W)
    (m : PC (C * g.kh * g.kw) O × Adder.Cfg) (img : ℕ → ℕ → ℕ → ℕ → ℕ → ℤ) (t : ℕ) :
    ∃ F, convOut g (.num p) N C H W m img t = .ok F ∧
      ∀ (n y x : ℕ), n < N → y < Spec.outH (Spec.padded g p) H → x < Spec.outW (Spec.padded g p) W →
        linOut m (fun (_ : Fin 1) (q : Fin (C * g.kh * g.kw)) =>
          Spec.tapStream (Spec.padded g p) H W m.1.mode img n y x (q / (g.kh * g.kw)) (q / g.kw % g.kh) (q % g.kw)) t =
          .ok [fun o => F n o y x] := by
  have hL : 0 < N * (Spec.outH (Spec.padded g p) H * Spec.outW (Spec.padded g p) W) :=
    Nat.mul_pos hN (Nat.mul_pos (Nat.succ_pos _) (Nat.succ_pos _))
  choose out h1 h2 using fun t => C93_stream_rows hL m (convStreams g p N C H W m.1.mode img) t
  obtain ⟨F, e1, e2⟩ := conv_lin hO g p N C H W hN h m img (fun r o t => out t r o) h1 t
  refine ⟨F, e1, fun n y x hn hy hx => ?_⟩
  obtain ⟨r, hr⟩ := exists_row hn hy hx
  have := h2 t r
  rw [show (fun o : Fin O => F n o y x) = out t r from funext fun o => e2 n o y x hn hy hx r hr, ← this]
  congr 1
  funext _ q
  exact (streams_tap g p N C H W m.1.mode img n y x hy hx r hr q).symm

/-- C94, streams: the same for the parallel counter layer. -/
theorem C94_stream_counts {O : ℕ} (hO : 0 < O) (g : Geo) (p N C H W : ℕ) (hN : 0 < N) (h : Spec.GeoOK (Spec.padded g p) H W)
    (c : PC (C * g.kh * g.kw) O) (img : ℕ → ℕ → ℕ → ℕ → ℕ → ℤ) (t : ℕ) :
    ∃ F, convPCOut g (.num p) N C H W c img t = .ok F ∧
      ∀ (n y x : ℕ), n < N → y < Spec.outH (Spec.padded g p) H → x < Spec.outW (Spec.padded g p) W →
        pcOut c (fun (_ : Fin 1) (q : Fin (C * g.kh * g.kw)) =>
          Spec.tapStream (Spec.padded g p) H W c.mode img n y x (q / (g.kh * g.kw)) (q / g.kw % g.kh) (q % g.kw)) t =
          .ok [fun o => F n o y x] := by
  have hL : 0 < N * (Spec.outH (Spec.padded g p) H * Spec.outW (Spec.padded g p) W) :=
    Nat.mul_pos hN (Nat.mul_pos (Nat.succ_pos _) (Nat.succ_pos _))
  choose out h1 h2 using fun t => C93_stream_counts hL c (convStreams g p N C H W c.mode img) t
  obtain ⟨F, e1, e2⟩ := C53_padding hO g p N C H W hN h c.mode (stepPC c) (PCSt.init _ O) img (fun r o t => out t r o) h1 t
  refine ⟨F, e1, fun n y x hn hy hx => ?_⟩
  obtain ⟨r, hr⟩ := exists_row hn hy hx
  have := h2 t r
  rw [show (fun o : Fin O => F n o y x) = out t r from funext fun o => e2 n o y x hn hy hx r hr, ← this]
  congr 1
  funext _ q
  exact (streams_tap g p N C H W c.mode img n y x hy hx r hr q).symm

/-! ## A pixel that no window covers -/

/-- C94: in the fixed-point layer a pixel that no window covers can destroy the output: 1x1 kernel, stride two, a row of two
pixels, at every width and rounding. -/
theorem C94_unreached (wi ww : ℕ) (hwi : 1 ≤ wi) (hww : 1 ≤ ww) (r : String) (hr : r ∈ ["round", "ceil", "floor"]) (v : ℚ)
    (hv : v = 0 ∨ v = 2 ^ (wi + 1)) :
    ∃ F, fxpConv ⟨1, 1, 1, 2, 0, 0, 1, 1⟩ 1 1 1 2 wi ww 1 1 r (fun _ _ _ _ => 1) (none : Option (Fin 1 → ℚ))
        (fun _ _ _ x => if x = 0 then 1 else v) = .ok F ∧ F 0 0 0 0 = if v = 0 then 1 else 0 := by
  have hg : Spec.GeoOK ⟨1, 1, 1, 2, 0, 0, 1, 1⟩ 1 2 := by
    unfold Spec.GeoOK Spec.AxisOK; norm_num
  have hf := fxp_form (O := 1) (by norm_num) ⟨1, 1, 1, 2, 0, 0, 1, 1⟩ 1 1 1 2 (by norm_num) hg wi ww 1 1 r (fun _ _ _ _ => 1) none
    (fun _ _ _ x => if x = 0 then 1 else v)
  have hl := lower_ok hr
  have m1 : Spec.MaxAbs 1 (Spec.pixels 1 1 1 1 (fun _ _ _ _ => (1:ℚ))) := by
    constructor <;> simp [Spec.pixels]
  have px : Spec.pixels 1 1 1 2 (fun _ _ _ x => if x = 0 then (1:ℚ) else v) = [1, v] := by
    simp [Spec.pixels, List.range_succ]
  have hone : (1:ℚ) ≤ 2 ^ (wi + 1) := one_le_pow₀ (by norm_num)
  have hpos : (0:ℚ) < 2 ^ (wi + 1) := by positivity
  have val : ∀ n : ℕ, 1 ≤ n → ((2 ^ (n - 1) : ℤ) : ℚ) = (2:ℚ) ^ ((n : ℤ) - 1) := by
    intro n hn
    rw [show (n : ℤ) - 1 = ((n - 1 : ℕ) : ℤ) by omega, zpow_natCast]; push_cast; rfl
  have fin : ∀ T : ℚ → ℚ → ℚ, fxpKernel wi ww 1 1 r [1, v] (Spec.pixels 1 1 1 1 (fun _ _ _ _ => (1:ℚ))) = .ok T →
      T 1 1 = (if v = 0 then 1 else 0) → ∃ F, fxpConv ⟨1, 1, 1, 2, 0, 0, 1, 1⟩ 1 1 1 2 wi ww 1 1 r (fun _ _ _ _ => 1) (none : Option (Fin 1 → ℚ))
        (fun _ _ _ x => if x = 0 then 1 else v) = .ok F ∧ F 0 0 0 0 = if v = 0 then 1 else 0 := by
    intro T hT hT1
    rw [px, hT] at hf
    cases hk : fxpConv ⟨1, 1, 1, 2, 0, 0, 1, 1⟩ 1 1 1 2 wi ww 1 1 r (fun _ _ _ _ => 1) (none : Option (Fin 1 → ℚ))
        (fun _ _ _ x => if x = 0 then 1 else v) with
    | error e => rw [hk] at hf; exact hf.elim
    | ok F =>
        rw [hk] at hf
        refine ⟨F, rfl, ?_⟩
        have := hf 0 0 0 0 (by norm_num) (by decide) (by decide)
        rw [← hT1]
        refine this.trans ?_
        unfold wsum Spec.tap
        simp
  rcases hv with rfl | rfl
  · have m2 : Spec.MaxAbs 1 [(1:ℚ), 0] := by constructor <;> simp
    refine fin (fun a b => (fxpRound (2 ^ wi) (0 - ((wi : ℤ) - 1)) a : ℚ) * fxpRound (2 ^ ww) (0 - ((ww : ℤ) - 1)) b /
        (2:ℚ) ^ (0 - (0 - ((wi : ℤ) - 1)) - (0 - ((ww : ℤ) - 1)))) ?_ ?_
    · unfold fxpKernel shifts
      rw [qscale_full m1, qscale_full m2]
      show (Utils.rshiftOffset 1 1 ((wi : ℤ) - 1) ((ww : ℤ) - 1) r.toLower).map _ = _
      unfold Utils.rshiftOffset
      rw [hl]; rfl
    · rw [if_pos rfl, fxpRound_one wi hwi, fxpRound_one ww hww, val wi hwi, val ww hww, ← zpow_add₀ (by norm_num),
        show 0 - (0 - ((wi : ℤ) - 1)) - (0 - ((ww : ℤ) - 1)) = (wi : ℤ) - 1 + ((ww : ℤ) - 1) by ring]
      exact div_self (zpow_pos (by norm_num) _).ne'
  · have m2 : Spec.MaxAbs (2 ^ (wi + 1)) [(1:ℚ), 2 ^ (wi + 1)] := by
      constructor
      · intro a ha
        simp at ha
        rcases ha with rfl | rfl
        · rw [abs_one]; exact hone
        · rw [abs_of_pos hpos]
      · exact ⟨2 ^ (wi + 1), by simp, abs_of_pos hpos⟩
    have hl2 : Utils.log2Rounded r.toLower (2 ^ (wi + 1)) = .ok (0 + ((wi + 1 : ℕ) : ℤ)) := by
      have := log2_smul r.toLower ((wi + 1 : ℕ) : ℤ) 1
      rw [mul_one, zpow_natCast, hl] at this
      exact this
    refine fin (fun a b => (fxpRound (2 ^ wi) (0 + ((wi + 1 : ℕ) : ℤ) - ((wi : ℤ) - 1)) a : ℚ) * fxpRound (2 ^ ww) (0 - ((ww : ℤ) - 1)) b /
        (2:ℚ) ^ (0 - (0 + ((wi + 1 : ℕ) : ℤ) - ((wi : ℤ) - 1)) - (0 - ((ww : ℤ) - 1)))) ?_ ?_
    · unfold fxpKernel shifts
      rw [qscale_full m1, qscale_full m2]
      show (Utils.rshiftOffset (2 ^ (wi + 1)) 1 ((wi : ℤ) - 1) ((ww : ℤ) - 1) r.toLower).map _ = _
      unfold Utils.rshiftOffset
      rw [hl, hl2]; rfl
    · rw [if_neg hpos.ne']
      have z : fxpRound (2 ^ wi) (0 + ((wi + 1 : ℕ) : ℤ) - ((wi : ℤ) - 1)) 1 = 0 := by
        rw [show (0 + ((wi + 1 : ℕ) : ℤ) - ((wi : ℤ) - 1)) = 2 by push_cast; ring]
        unfold fxpRound
        rw [show roundHE ((1:ℚ) / (2:ℚ) ^ (2:ℤ)) = 0 from roundHE_eq_of_lt (by norm_num [abs_of_pos])]
        have : (1:ℤ) ≤ 2 ^ wi := one_le_pow₀ (by norm_num)
        unfold clamp; omega
      rw [z]; simp

/-! ## Examples -/

/-- 3x3 kernel, stride two, padding one, two images of three channels and five by seven pixels, four filters. -/
example : Spec.ConvSymmetric ⟨3, 3, 2, 2, 1, 1, 1, 1⟩ 2 3 5 7 4 (fxpConv ⟨3, 3, 2, 2, 1, 1, 1, 1⟩ 2 3 5 7 8 6 (9 / 10) 1 "round") :=
  (C94_fixed (by norm_num) _ 2 3 5 7 (by norm_num) (by unfold Spec.GeoOK Spec.AxisOK; norm_num) 8 6 (9 / 10) 1 "round"
    (by norm_num) (by norm_num) (by norm_num) (by norm_num)).1

/-- The two formats `bfloat16` and `float16` with three cycles: no condition on the rest of the batch. -/
example (c : Tlut) (hi : c.formati = .bfloat16) (hw : c.formatw = .float16) (w img img') (F F')
    (h : Spec.SameWindow ⟨3, 3, 2, 2, 1, 1, 1, 1⟩ 3 5 7 img img' 0 1 2 1 0 3)
    (e : tlutConv c ⟨3, 3, 2, 2, 1, 1, 1, 1⟩ 2 3 5 7 w (none : Option (Fin 4 → ℚ)) img = .ok F)
    (e' : tlutConv c ⟨3, 3, 2, 2, 1, 1, 1, 1⟩ 2 3 5 7 w (none : Option (Fin 4 → ℚ)) img' = .ok F') : F' 1 3 0 3 = F 0 3 1 2 := by
  have := C94_lookup_float (O := 4) (by norm_num) ⟨3, 3, 2, 2, 1, 1, 1, 1⟩ 2 3 5 7 (by norm_num) (by unfold Spec.GeoOK Spec.AxisOK; norm_num) c
    (by rw [hi]; decide) (by rw [hw]; decide) w none img img' trivial
  rw [e, e'] at this
  exact this 0 1 3 1 2 0 3 (by norm_num) (by decide) (by decide) (by norm_num) (by decide) (by decide) h

/-- Eight bits: the pixel that no window covers is 0 in one call and 512 in the other. -/
example : (∃ F, fxpConv ⟨1, 1, 1, 2, 0, 0, 1, 1⟩ 1 1 1 2 8 8 1 1 "round" (fun _ _ _ _ => 1) (none : Option (Fin 1 → ℚ))
      (fun _ _ _ x => if x = 0 then 1 else 0) = .ok F ∧ F 0 0 0 0 = 1) ∧
    ∃ F, fxpConv ⟨1, 1, 1, 2, 0, 0, 1, 1⟩ 1 1 1 2 8 8 1 1 "round" (fun _ _ _ _ => 1) (none : Option (Fin 1 → ℚ))
      (fun _ _ _ x => if x = 0 then 1 else 512) = .ok F ∧ F 0 0 0 0 = 0 := by
  have h1 := C94_unreached 8 8 (by norm_num) (by norm_num) "round" (by decide) 0 (Or.inl rfl)
  have h2 := C94_unreached 8 8 (by norm_num) (by norm_num) "round" (by decide) 512 (Or.inr (by norm_num))
  rw [if_pos rfl] at h1
  rw [if_neg (by norm_num)] at h2
  exact ⟨h1, h2⟩

end Verif.Props
