import Verif.Props.Conv
import Verif.Props.Linear
import Verif.Props.Hub
import Verif.Props.Tlut
import Mathlib.Data.List.Sort

/-!
# Property C93: symmetries of the layers
-/

namespace Verif.Props

open Verif Finset Linear Gen Conv

/-! ## Quantiles and scales -/

private abbrev srtS (l : List ℚ) : List ℚ := l.mergeSort (fun x y => decide (x ≤ y))

private theorem srtS_sorted (l : List ℚ) : (srtS l).Pairwise (· ≤ ·) := by
  have := List.pairwise_mergeSort (le := fun x y : ℚ => decide (x ≤ y)) (fun a b c h1 h2 => by simp at *; linarith)
    (fun a b => by simp; exact le_total a b) l
  simpa using this

private theorem srtS_unique {l a : List ℚ} (h : a.Perm l) (hs : a.Pairwise (· ≤ ·)) : srtS l = a :=
  ((List.mergeSort_perm l _).trans h.symm).eq_of_pairwise' (srtS_sorted l) hs

private theorem quantile_nil (q : ℚ) : quantile [] q = .error .runtime := rfl

private theorem quantile_cons {l : List ℚ} (h : l ≠ []) (q : ℚ) : quantile l q =
    .ok ((srtS l).getD ⌊q * ((l.length : ℚ) - 1)⌋.toNat 0 + (q * ((l.length : ℚ) - 1) - ⌊q * ((l.length : ℚ) - 1)⌋) *
      ((srtS l).getD ⌈q * ((l.length : ℚ) - 1)⌉.toNat 0 - (srtS l).getD ⌊q * ((l.length : ℚ) - 1)⌋.toNat 0)) := by
  unfold quantile; rw [if_neg h]

private theorem quantile_perm {l l' : List ℚ} (h : l.Perm l') (q : ℚ) : quantile l q = quantile l' q := by
  have e : srtS l = srtS l' := srtS_unique ((List.mergeSort_perm l' _).trans h.symm) (srtS_sorted l')
  by_cases hl : l = []
  · subst hl; rw [List.nil_perm.1 h]
  · rw [quantile_cons hl, quantile_cons (fun k => hl (by subst k; exact List.perm_nil.1 h)), h.length_eq, e]

private theorem getD_map (l : List ℚ) (f : ℚ → ℚ) (h0 : f 0 = 0) (i : ℕ) : (l.map f).getD i 0 = f (l.getD i 0) := by
  rw [List.getD_eq_getElem?_getD, List.getD_eq_getElem?_getD, List.getElem?_map]
  cases l[i]? <;> simp [h0]

private theorem quantile_smul (l : List ℚ) (c : ℚ) (hc : 0 < c) (q : ℚ) :
    quantile (l.map fun a => c * a) q = (quantile l q).map fun a => c * a := by
  have e : srtS (l.map fun a => c * a) = (srtS l).map fun a => c * a :=
    srtS_unique ((List.mergeSort_perm l _).map _) (by
      rw [List.pairwise_map]
      exact (srtS_sorted l).imp fun h => mul_le_mul_of_nonneg_left h hc.le)
  by_cases hl : l = []
  · subst hl; rfl
  · rw [quantile_cons hl, quantile_cons (by simpa using hl), List.length_map, e, getD_map _ _ (mul_zero c), getD_map _ _ (mul_zero c)]
    show Except.ok _ = Except.ok (c * _)
    congr 1
    ring

private theorem quantile_neg (l : List ℚ) (q : ℚ) (h0 : 0 ≤ q) (h1 : q ≤ 1) :
    quantile (l.map fun a => -a) (1 - q) = (quantile l q).map fun a => -a := by
  have e : srtS (l.map fun a => -a) = ((srtS l).map fun a => -a).reverse :=
    srtS_unique ((List.reverse_perm _).trans ((List.mergeSort_perm l _).map _)) (by
      rw [List.pairwise_reverse, List.pairwise_map]
      exact (srtS_sorted l).imp fun h => neg_le_neg h)
  by_cases hne : l = []
  · subst hne; rfl
  have hpos : 0 < l.length := List.length_pos_iff.2 hne
  have hlen : (srtS l).length = l.length := List.length_mergeSort _
  have idx : ∀ i : ℕ, i < l.length → (((srtS l).map fun a => -a).reverse).getD i 0 = -((srtS l).getD (l.length - 1 - i) 0) := by
    intro i hi
    rw [List.getD_eq_getElem _ _ (by simpa [hlen] using hi), List.getElem_reverse, List.getElem_map,
      List.getD_eq_getElem _ _ (by rw [hlen]; omega)]
    simp [hlen]
  have hn : (0:ℚ) ≤ (l.length : ℚ) - 1 := by
    have : (1:ℚ) ≤ l.length := by exact_mod_cast hpos
    linarith
  rw [quantile_cons hne, quantile_cons (by simpa using hne), List.length_map, e]
  show Except.ok _ = Except.ok (-_)
  have hp0 : 0 ≤ q * ((l.length : ℚ) - 1) := mul_nonneg h0 hn
  have hp1 : q * ((l.length : ℚ) - 1) ≤ ((l.length - 1 : ℤ) : ℚ) := by push_cast; nlinarith
  have epos : (1 - q) * ((l.length : ℚ) - 1) = ((l.length - 1 : ℤ) : ℚ) - q * ((l.length : ℚ) - 1) := by push_cast; ring
  rw [epos]
  generalize q * ((l.length : ℚ) - 1) = p at *
  have f1 : ⌊((l.length - 1 : ℤ) : ℚ) - p⌋ = (l.length - 1 : ℤ) - ⌈p⌉ := by
    rw [sub_eq_add_neg, Int.floor_intCast_add, Int.floor_neg]; ring
  have f2 : ⌈((l.length - 1 : ℤ) : ℚ) - p⌉ = (l.length - 1 : ℤ) - ⌊p⌋ := by
    rw [sub_eq_add_neg, Int.ceil_intCast_add, Int.ceil_neg]; ring
  have g0 : 0 ≤ ⌊p⌋ := Int.floor_nonneg.2 hp0
  have g1 : ⌈p⌉ ≤ (l.length - 1 : ℤ) := Int.ceil_le.2 hp1
  have g2 : ⌊p⌋ ≤ ⌈p⌉ := Int.floor_le_ceil p
  rw [f1, f2, idx _ (by omega), idx _ (by omega)]
  have i1 : l.length - 1 - ((l.length - 1 : ℤ) - ⌈p⌉).toNat = ⌈p⌉.toNat := by omega
  have i2 : l.length - 1 - ((l.length - 1 : ℤ) - ⌊p⌋).toNat = ⌊p⌋.toNat := by omega
  rw [i1, i2]
  congr 1
  have g3 := Int.ceil_le_floor_add_one p
  rcases eq_or_lt_of_le g2 with h | h
  · have : p = ⌊p⌋ := le_antisymm (by have := Int.le_ceil p; rw [← h] at this; exact this) (Int.floor_le p)
    rw [← h]
    push_cast
    ring
  · have : ⌈p⌉ = ⌊p⌋ + 1 := by omega
    rw [this]
    push_cast
    ring

private theorem bindE {α β : Type} (a : Except PyErr α) (f : α → Except PyErr β) {b : α} (h : a = .ok b) : (a >>= f) = f b := by
  rw [h]; rfl

private theorem qscale_perm {l l' : List ℚ} (h : l.Perm l') (q : ℚ) : qscale l q = qscale l' q := by
  unfold qscale; rw [quantile_perm h, quantile_perm h]

private theorem qscale_smul (l : List ℚ) (c : ℚ) (hc : 0 < c) (q : ℚ) :
    qscale (l.map fun a => c * a) q = (qscale l q).map fun a => c * a := by
  unfold qscale
  rw [quantile_smul l c hc, quantile_smul l c hc]
  cases quantile l (1/2 + q/2) with
  | error e => rfl
  | ok a =>
      cases quantile l (1/2 - q/2) with
      | error e => rfl
      | ok b =>
          show Except.ok (max |c * a| |c * b|) = Except.ok (c * max |a| |b|)
          rw [abs_mul, abs_mul, abs_of_pos hc, mul_max_of_nonneg _ _ hc.le]

private theorem quantile_err {l : List ℚ} {q : ℚ} {e : PyErr} (h : quantile l q = .error e) : e = .runtime := by
  unfold quantile at h
  split_ifs at h
  · exact (Except.error.inj h).symm

private theorem qscale_neg (l : List ℚ) (q : ℚ) (h0 : 0 < q) (h1 : q ≤ 1) : qscale (l.map fun a => -a) q = qscale l q := by
  have a1 := quantile_neg l (1/2 - q/2) (by linarith) (by linarith)
  have a2 := quantile_neg l (1/2 + q/2) (by linarith) (by linarith)
  rw [show (1:ℚ) - (1/2 - q/2) = 1/2 + q/2 by ring] at a1
  rw [show (1:ℚ) - (1/2 + q/2) = 1/2 - q/2 by ring] at a2
  unfold qscale
  rw [a1, a2]
  cases h2 : quantile l (1/2 + q/2) with
  | error e =>
      obtain rfl := quantile_err h2
      cases h3 : quantile l (1/2 - q/2) with
      | error e => obtain rfl := quantile_err h3; rfl
      | ok b => rfl
  | ok a =>
      cases h3 : quantile l (1/2 - q/2) with
      | error e => rfl
      | ok b =>
          show Except.ok (max |(-b)| |(-a)|) = Except.ok (max |a| |b|)
          rw [abs_neg, abs_neg, max_comm]

private theorem log_mul (k : ℤ) {x : ℚ} (hx : 0 < x) : Int.log 2 ((2:ℚ) ^ k * x) = Int.log 2 x + k := by
  have p : 0 < (2:ℚ) ^ k := zpow_pos (by norm_num) _
  have key : ∀ z : ℤ, z ≤ Int.log 2 ((2:ℚ) ^ k * x) ↔ z ≤ Int.log 2 x + k := by
    intro z
    rw [← Int.zpow_le_iff_le_log (by norm_num) (mul_pos p hx), ← sub_le_iff_le_add,
      ← Int.zpow_le_iff_le_log (by norm_num) hx]
    push_cast
    rw [zpow_sub₀ (by norm_num), div_le_iff₀ p, mul_comm]
  exact le_antisymm ((key _).1 le_rfl) ((key _).2 le_rfl)

private theorem clog_mul (k : ℤ) {x : ℚ} (hx : 0 < x) : Int.clog 2 ((2:ℚ) ^ k * x) = Int.clog 2 x + k := by
  have p : 0 < (2:ℚ) ^ k := zpow_pos (by norm_num) _
  have key : ∀ z : ℤ, Int.clog 2 ((2:ℚ) ^ k * x) ≤ z ↔ Int.clog 2 x + k ≤ z := by
    intro z
    rw [← Int.le_zpow_iff_clog_le (by norm_num) (mul_pos p hx), ← le_sub_iff_add_le,
      ← Int.le_zpow_iff_clog_le (by norm_num) hx]
    push_cast
    rw [zpow_sub₀ (by norm_num), le_div_iff₀ p, mul_comm]
  exact le_antisymm ((key _).2 le_rfl) ((key _).1 le_rfl)

theorem log2_smul (r : String) (k : ℤ) (x : ℚ) :
    Utils.log2Rounded r ((2:ℚ) ^ k * x) = (Utils.log2Rounded r x).map fun m => m + k := by
  have p : 0 < (2:ℚ) ^ k := zpow_pos (by norm_num) _
  unfold Utils.log2Rounded
  rcases le_or_gt x 0 with h | h
  · rw [if_pos h, if_pos (by nlinarith)]; rfl
  · have hx : ¬ x ≤ 0 := not_le.2 h
    have hpx : ¬ (2:ℚ) ^ k * x ≤ 0 := not_le.2 (mul_pos p h)
    rw [if_neg hx, if_neg hpx, log_mul k h, clog_mul k h,
      show (2:ℚ) * ((2:ℚ) ^ k * x) ^ 2 = (2:ℚ) ^ (2 * k) * (2 * x ^ 2) by
        rw [mul_pow, ← zpow_natCast, ← zpow_mul, mul_comm k]; push_cast; ring,
      log_mul (2 * k) (by positivity), Int.add_mul_ediv_left _ _ (by norm_num)]
    split_ifs <;> rfl

/-! ## Shared pattern -/

/-- A signed power of two. -/
def Spec.SignedPow (c : ℚ) : Prop := ∃ k : ℤ, c = (2:ℚ) ^ k ∨ c = -(2:ℚ) ^ k

/-- What a layer `L` (weight, bias, batch of rows) must satisfy:
* `rows`: for a given batch there is one function of a single row, whatever the order of the rows, or one error;
* `features`, `outputs`: renumbering input features or output features changes nothing else;
* `input`, `weight`: multiplying all inputs, or all weights, by plus or minus a power of two does the same to the outputs;
* `bias`: the bias is added at the end. -/
structure Spec.Symmetric {I O : ℕ}
    (L : (Fin O → Fin I → ℚ) → Option (Fin O → ℚ) → List (Fin I → ℚ) → Except PyErr (List (Fin O → ℚ))) : Prop where
  rows : ∀ w b x, (∃ e : PyErr, ∀ x' : List (Fin I → ℚ), x'.Perm x → L w b x' = .error e) ∨
    ∃ f : (Fin I → ℚ) → Fin O → ℚ, ∀ x' : List (Fin I → ℚ), x'.Perm x → L w b x' = .ok (x'.map f)
  features : ∀ w b x (σ : Equiv.Perm (Fin I)), L (fun o i => w o (σ i)) b (x.map fun row i => row (σ i)) = L w b x
  outputs : ∀ w b x (τ : Equiv.Perm (Fin O)),
    L (fun o => w (τ o)) (b.map fun v o => v (τ o)) x = (L w b x).map fun out => out.map fun y o => y (τ o)
  input : ∀ w x c, Spec.SignedPow c →
    L w none (x.map fun row i => c * row i) = (L w none x).map fun out => out.map fun y o => c * y o
  weight : ∀ w x c, Spec.SignedPow c →
    L (fun o i => c * w o i) none x = (L w none x).map fun out => out.map fun y o => c * y o
  bias : ∀ w b x, L w (some b) x = (L w none x).map fun out => out.map fun y o => y o + b o

theorem flat_perm {I : ℕ} {x x' : List (Fin I → ℚ)} (h : x'.Perm x) : (flat x').Perm (flat x) := h.flatMap_right _

theorem flat_map {I : ℕ} (x : List (Fin I → ℚ)) (f : ℚ → ℚ) : flat (x.map fun row i => f (row i)) = (flat x).map f := by
  unfold flat
  rw [List.map_flatMap, List.flatMap_map]
  congr 1
  funext row
  rw [List.map_ofFn]; rfl

private theorem flat_features {I : ℕ} (x : List (Fin I → ℚ)) (σ : Equiv.Perm (Fin I)) :
    (flat (x.map fun row i => row (σ i))).Perm (flat x) := by
  unfold flat
  rw [List.flatMap_map]
  exact List.Perm.flatMap_left _ fun row _ => Equiv.Perm.ofFn_comp_perm σ row

private theorem ofFn_map {I O : ℕ} (w : Fin O → Fin I → ℚ) (f : (Fin I → ℚ) → Fin I → ℚ) :
    List.ofFn (fun o => f (w o)) = (List.ofFn w).map f := by
  rw [List.map_ofFn]; rfl

theorem map_map' {α β γ : Type} (a : Except PyErr α) (f : α → β) (g : β → γ) : (a.map f).map g = a.map fun z => g (f z) := by
  cases a <;> rfl

theorem map_congr' {α β : Type} (a : Except PyErr α) (f g : α → β) (h : ∀ z, f z = g z) : a.map f = a.map g := by
  rw [funext h]

/-- The elementary product of a layer as a function of the collections of all inputs and of all weights is unaffected by the
order of the data and follows a signed power of two. -/
structure KernelOK (S : List ℚ → List ℚ → Except PyErr (ℚ → ℚ → ℚ)) : Prop where
  perm : ∀ l l' m m' : List ℚ, l.Perm l' → m.Perm m' → S l m = S l' m'
  input : ∀ l m c, Spec.SignedPow c → S (l.map fun a => c * a) m = (S l m).map fun T a b => c * T (a / c) b
  weight : ∀ l m c, Spec.SignedPow c → S l (m.map fun a => c * a) = (S l m).map fun T a b => c * T a (b / c)

theorem Spec.SignedPow_ne {c : ℚ} : Spec.SignedPow c → c ≠ 0 := by
  rintro ⟨k, rfl | rfl⟩
  · exact (zpow_pos (by norm_num) _).ne'
  · exact (neg_lt_zero.2 (zpow_pos (by norm_num) _)).ne

private theorem symmetric_of {I O : ℕ}
    (L : (Fin O → Fin I → ℚ) → Option (Fin O → ℚ) → List (Fin I → ℚ) → Except PyErr (List (Fin O → ℚ)))
    (S : List ℚ → List ℚ → Except PyErr (ℚ → ℚ → ℚ)) (hS : KernelOK S)
    (hL : ∀ w b x, L w b x = (S (flat x) (flat (List.ofFn w))).map fun T =>
      x.map fun row o => ∑ i, T (row i) (w o i) + (b.map fun v => v o).getD 0) :
    Spec.Symmetric L := by
  obtain ⟨hp, hi, hw⟩ := hS
  have hc0 : ∀ c : ℚ, Spec.SignedPow c → c ≠ 0 := fun c => Spec.SignedPow_ne
  constructor
  · intro w b x
    cases h : S (flat x) (flat (List.ofFn w)) with
    | error e =>
        left
        exact ⟨e, fun x' hx => by rw [hL, hp _ _ _ _ (flat_perm hx) (List.Perm.refl _), h]; rfl⟩
    | ok T =>
        right
        exact ⟨fun row o => ∑ i, T (row i) (w o i) + (b.map fun v => v o).getD 0, fun x' hx => by
          rw [hL, hp _ _ _ _ (flat_perm hx) (List.Perm.refl _), h]; rfl⟩
  · intro w b x σ
    rw [hL, hL, hp _ _ _ _ (flat_features x σ) (show List.Perm _ (flat (List.ofFn w)) by
      rw [ofFn_map w (fun r i => r (σ i))]; exact flat_features _ σ)]
    refine map_congr' _ _ _ fun T => ?_
    rw [List.map_map]
    refine List.map_congr_left fun row _ => ?_
    funext o
    show ∑ i, T (row (σ i)) (w o (σ i)) + _ = _
    rw [Equiv.sum_comp σ fun i => T (row i) (w o i)]
  · intro w b x τ
    rw [hL, hL, hp _ _ _ _ (List.Perm.refl _) (show (flat (List.ofFn fun o => w (τ o))).Perm (flat (List.ofFn w)) from
      flat_perm (Equiv.Perm.ofFn_comp_perm τ w)), map_map']
    refine map_congr' _ _ _ fun T => ?_
    rw [List.map_map]
    refine List.map_congr_left fun row _ => ?_
    funext o
    cases b <;> rfl
  · intro w x c hc
    rw [hL, hL, flat_map x fun a => c * a, hi _ _ _ hc, map_map', map_map']
    refine map_congr' _ _ _ fun T => ?_
    rw [List.map_map, List.map_map]
    refine List.map_congr_left fun row _ => ?_
    funext o
    show ∑ i, c * T (c * row i / c) (w o i) + 0 = c * (∑ i, T (row i) (w o i) + 0)
    rw [add_zero, add_zero, mul_sum]
    exact sum_congr rfl fun i _ => by rw [mul_div_cancel_left₀ _ (hc0 c hc)]
  · intro w x c hc
    rw [hL, hL, ofFn_map w (fun r i => c * r i), flat_map _ fun a => c * a, hw _ _ _ hc, map_map', map_map']
    refine map_congr' _ _ _ fun T => ?_
    rw [List.map_map]
    refine List.map_congr_left fun row _ => ?_
    funext o
    show ∑ i, c * T (row i) (c * w o i / c) + 0 = c * (∑ i, T (row i) (w o i) + 0)
    rw [add_zero, add_zero, mul_sum]
    exact sum_congr rfl fun i _ => by rw [mul_div_cancel_left₀ _ (hc0 c hc)]
  · intro w b x
    rw [hL, hL, map_map']
    refine map_congr' _ _ _ fun T => ?_
    rw [List.map_map]
    refine List.map_congr_left fun row _ => ?_
    funext o
    show ∑ i, T (row i) (w o i) + b o = ∑ i, T (row i) (w o i) + 0 + b o
    rw [add_zero]

/-- The shifts from flat data. -/
def shifts (wi ww : ℤ) (r : String) (qi qw : ℚ) (l m : List ℚ) : Except PyErr (ℤ × ℤ × ℤ) := do
  let si ← qscale l qi
  let sw ← qscale m qw
  Utils.rshiftOffset si sw wi ww r

private theorem qscale_signed (l : List ℚ) (q : ℚ) (h0 : 0 < q) (h1 : q ≤ 1) (c : ℚ) (k : ℤ)
    (hc : c = (2:ℚ) ^ k ∨ c = -(2:ℚ) ^ k) :
    qscale (l.map fun a => c * a) q = (qscale l q).map fun s => (2:ℚ) ^ k * s := by
  have p : 0 < (2:ℚ) ^ k := zpow_pos (by norm_num) _
  rcases hc with rfl | rfl
  · exact qscale_smul l _ p q
  · rw [← qscale_smul l _ p q, ← qscale_neg _ q h0 h1, List.map_map]
    congr 1
    refine List.map_congr_left fun a _ => ?_
    show -(-(2:ℚ) ^ k * a) = (2:ℚ) ^ k * a
    ring

private theorem shifts_input (wi ww : ℤ) (r : String) (qi qw : ℚ) (h0 : 0 < qi) (h1 : qi ≤ 1) (l m : List ℚ) (c : ℚ) (k : ℤ)
    (hc : c = (2:ℚ) ^ k ∨ c = -(2:ℚ) ^ k) :
    shifts wi ww r qi qw (l.map fun a => c * a) m =
      (shifts wi ww r qi qw l m).map fun s => (s.1 + k, s.2.1, s.2.2 - k) := by
  unfold shifts
  rw [qscale_signed l qi h0 h1 c k hc]
  cases qscale l qi with
  | error e => rfl
  | ok si =>
      cases qscale m qw with
      | error e => rfl
      | ok sw =>
          show Utils.rshiftOffset ((2:ℚ) ^ k * si) sw wi ww r = (Utils.rshiftOffset si sw wi ww r).map _
          unfold Utils.rshiftOffset
          rw [log2_smul]
          cases Utils.log2Rounded r si with
          | error e => rfl
          | ok im =>
              cases Utils.log2Rounded r sw with
              | error e => rfl
              | ok wm =>
                  show Except.ok (im + k - wi, wm - ww, max wi ww - (im + k) - wm) = Except.ok (im - wi + k, wm - ww, max wi ww - im - wm - k)
                  congr 3 <;> ring

private theorem shifts_weight (wi ww : ℤ) (r : String) (qi qw : ℚ) (h0 : 0 < qw) (h1 : qw ≤ 1) (l m : List ℚ) (c : ℚ) (k : ℤ)
    (hc : c = (2:ℚ) ^ k ∨ c = -(2:ℚ) ^ k) :
    shifts wi ww r qi qw l (m.map fun a => c * a) =
      (shifts wi ww r qi qw l m).map fun s => (s.1, s.2.1 + k, s.2.2 - k) := by
  unfold shifts
  rw [qscale_signed m qw h0 h1 c k hc]
  cases qscale l qi with
  | error e => rfl
  | ok si =>
      cases qscale m qw with
      | error e => rfl
      | ok sw =>
          show Utils.rshiftOffset si ((2:ℚ) ^ k * sw) wi ww r = (Utils.rshiftOffset si sw wi ww r).map _
          unfold Utils.rshiftOffset
          rw [log2_smul]
          cases Utils.log2Rounded r si with
          | error e => rfl
          | ok im =>
              cases Utils.log2Rounded r sw with
              | error e => rfl
              | ok wm =>
                  show Except.ok (im - wi, wm + k - ww, max wi ww - im - (wm + k)) = Except.ok (im - wi, wm - ww + k, max wi ww - im - wm - k)
                  congr 3 <;> ring

private theorem shifts_perm (wi ww : ℤ) (r : String) (qi qw : ℚ) {l l' m m' : List ℚ} (hl : l.Perm l') (hm : m.Perm m') :
    shifts wi ww r qi qw l m = shifts wi ww r qi qw l' m' := by
  unfold shifts; rw [qscale_perm hl, qscale_perm hm]

/-- The pattern for layers with measured scales: elementary products `T` that are odd and scale with their shifts. -/
private theorem kernel_shifts
    (wi ww : ℤ) (r : String) (qi qw : ℚ) (hi0 : 0 < qi) (hi1 : qi ≤ 1) (hw0 : 0 < qw) (hw1 : qw ≤ 1)
    (T : ℤ × ℤ × ℤ → ℚ → ℚ → ℚ)
    (hni : ∀ s a b, T s (-a) b = -T s a b) (hnw : ∀ s a b, T s a (-b) = -T s a b)
    (hsi : ∀ (s : ℤ × ℤ × ℤ) (k : ℤ) a b, T (s.1 + k, s.2.1, s.2.2 - k) ((2:ℚ) ^ k * a) b = (2:ℚ) ^ k * T s a b)
    (hsw : ∀ (s : ℤ × ℤ × ℤ) (k : ℤ) a b, T (s.1, s.2.1 + k, s.2.2 - k) a ((2:ℚ) ^ k * b) = (2:ℚ) ^ k * T s a b) :
    KernelOK fun l m => (shifts wi ww r qi qw l m).map T := by
  refine ⟨fun l l' m m' hl hm => by rw [shifts_perm wi ww r qi qw hl hm], ?_, ?_⟩
  · rintro l m c ⟨k, hc⟩
    have p : (2:ℚ) ^ k ≠ 0 := (zpow_pos (by norm_num) _).ne'
    rw [shifts_input wi ww r qi qw hi0 hi1 l m c k hc, map_map', map_map']
    refine map_congr' _ _ _ fun s => ?_
    funext a b
    rcases hc with rfl | rfl
    · rw [← hsi, mul_div_cancel₀ _ p]
    · rw [show T (s.1 + k, s.2.1, s.2.2 - k) a b = -T (s.1 + k, s.2.1, s.2.2 - k) ((2:ℚ) ^ k * (a / -(2:ℚ) ^ k)) b by
        rw [← hni]; congr 1; field_simp, hsi]
      ring
  · rintro l m c ⟨k, hc⟩
    have p : (2:ℚ) ^ k ≠ 0 := (zpow_pos (by norm_num) _).ne'
    rw [shifts_weight wi ww r qi qw hw0 hw1 l m c k hc, map_map', map_map']
    refine map_congr' _ _ _ fun s => ?_
    funext a b
    rcases hc with rfl | rfl
    · rw [← hsw, mul_div_cancel₀ _ p]
    · rw [show T (s.1, s.2.1 + k, s.2.2 - k) a b = -T (s.1, s.2.1 + k, s.2.2 - k) a ((2:ℚ) ^ k * (b / -(2:ℚ) ^ k)) by
        rw [← hnw]; congr 1; field_simp, hsw]
      ring

/-! ## Odd functions -/

private theorem clamp_negQ (m x : ℚ) (h : 0 ≤ m) : clamp (-m) m (-x) = -clamp (-m) m x := by
  unfold clamp
  rcases le_total x (-m) with h1 | h1
  · rw [max_eq_right h1, min_eq_left (a := -m) (by linarith), max_eq_left (a := -x) (by linarith), min_eq_right (by linarith), neg_neg]
  · rcases le_total x m with h2 | h2
    · rw [max_eq_left h1, min_eq_left h2, max_eq_left (by linarith), min_eq_left (by linarith)]
    · rw [max_eq_left h1, min_eq_right h2, max_eq_right (by linarith), min_eq_left (by linarith)]

private theorem fxpRound_neg (m : ℤ) (hm : 1 ≤ m) (r : ℤ) (x : ℚ) : fxpRound m r (-x) = -fxpRound m r x := by
  unfold fxpRound clamp
  rw [neg_div, roundHE_neg]
  omega

private theorem div_shift (k r : ℤ) (x : ℚ) : (2:ℚ) ^ k * x / (2:ℚ) ^ (r + k) = x / (2:ℚ) ^ r := by
  have p : (2:ℚ) ^ k ≠ 0 := (zpow_pos (by norm_num) _).ne'
  rw [zpow_add₀ (by norm_num), mul_comm ((2:ℚ) ^ r), mul_div_mul_left _ _ p]

private theorem fxpRound_scale (m k r : ℤ) (x : ℚ) : fxpRound m (r + k) ((2:ℚ) ^ k * x) = fxpRound m r x := by
  unfold fxpRound; rw [div_shift]

private theorem hubMag_neg (c : ℕ) (r : ℤ) (x : ℚ) : hubMag c r (-x) = hubMag c r x := by
  unfold hubMag; rw [neg_div, roundHE_neg, abs_neg]

private theorem hubMag_scale (c : ℕ) (k r : ℤ) (x : ℚ) : hubMag c (r + k) ((2:ℚ) ^ k * x) = hubMag c r x := by
  unfold hubMag; rw [div_shift]

private theorem sgn_neg' (x : ℚ) : sgn (-x) = -sgn x := by
  unfold sgn
  rcases lt_trichotomy x 0 with h | h | h
  · rw [if_pos (by linarith), if_neg (by linarith), if_pos h, neg_neg]
  · subst h; norm_num
  · rw [if_neg (by linarith), if_pos (by linarith), if_pos h]

private theorem sgn_scale (k : ℤ) (x : ℚ) : sgn ((2:ℚ) ^ k * x) = sgn x := by
  have p : 0 < (2:ℚ) ^ k := zpow_pos (by norm_num) _
  unfold sgn
  rcases lt_trichotomy x 0 with h | h | h
  · have := mul_neg_of_pos_of_neg p h
    rw [if_neg (not_lt.2 this.le), if_pos this, if_neg (not_lt.2 h.le), if_pos h]
  · subst h; rw [mul_zero]
  · rw [if_pos (mul_pos p h), if_pos h]

private theorem truncZ_neg' (x : ℚ) : truncZ (-x) = -truncZ x := by
  unfold truncZ
  rcases lt_trichotomy x 0 with h | h | h
  · rw [if_pos (by linarith), if_neg (by linarith), Int.floor_neg]
  · subst h; simp
  · rw [if_neg (by linarith), if_pos h.le, Int.ceil_neg]

private theorem tlutQuant_neg (w : ℕ) (r : ℤ) (x : ℚ) : tlutQuant w r (-x) = -tlutQuant w r x := by
  unfold tlutQuant
  rw [neg_div, show -(2:ℚ) ^ w + 1 = -((2:ℚ) ^ w - 1) by ring,
    clamp_negQ _ _ (sub_nonneg.2 (one_le_pow₀ (by norm_num))), truncZ_neg']

private theorem tlutQuant_scale (w : ℕ) (k r : ℤ) (x : ℚ) : tlutQuant w (r + k) ((2:ℚ) ^ k * x) = tlutQuant w r x := by
  unfold tlutQuant; rw [div_shift]

private theorem tlutLoop_neg (t c : ℕ) (hc : 1 ≤ c) : ∀ (n : ℕ) (p : ℚ × ℚ),
    (tlutLoop t c n (-p.1, -p.2)).2 = -(tlutLoop t c n p).2
  | 0, p => rfl
  | n + 1, p => by
      have hc' : (0:ℚ) ≤ (c:ℚ) - 1 := sub_nonneg.2 (by exact_mod_cast hc)
      have := tlutLoop_neg t c hc n ((truncZ (p.1 / 2 ^ t) : ℚ),
        clamp (-(c : ℚ) + 1) ((c : ℚ) - 1) (frac (p.1 / 2 ^ t) * 2 ^ t) / 2 ^ t + p.2 / 2 ^ t)
      unfold tlutLoop
      dsimp only at this ⊢
      rw [← this]
      congr 2
      refine Prod.ext ?_ ?_
      · show (truncZ (-p.1 / 2 ^ t) : ℚ) = -(truncZ (p.1 / 2 ^ t) : ℚ)
        rw [neg_div, truncZ_neg']; push_cast; rfl
      · show clamp (-(c : ℚ) + 1) ((c : ℚ) - 1) (frac (-p.1 / 2 ^ t) * 2 ^ t) / 2 ^ t + -p.2 / 2 ^ t = -(_ / _ + _ / _)
        rw [show frac (-p.1 / 2 ^ t) * 2 ^ t = -(frac (p.1 / 2 ^ t) * 2 ^ t) by
          unfold frac; rw [neg_div, truncZ_neg']; push_cast; ring,
          show -(c : ℚ) + 1 = -((c : ℚ) - 1) by ring, clamp_negQ _ _ hc']
        ring

private theorem tlutFxp_neg (w t c : ℕ) (hc : 1 ≤ c) (r : ℤ) (x : ℚ) : tlutFxp w t c r (-x) = -tlutFxp w t c r x := by
  unfold tlutFxp
  have := tlutLoop_neg t c hc (tlutDegree w t) ((tlutQuant w r x : ℚ), 0)
  dsimp only at this
  rw [neg_zero] at this
  rw [tlutQuant_neg, Int.cast_neg, this, neg_mul]

private theorem tlutFxp_scale (w t c : ℕ) (k r : ℤ) (x : ℚ) : tlutFxp w t c (r + k) ((2:ℚ) ^ k * x) = (2:ℚ) ^ k * tlutFxp w t c r x := by
  unfold tlutFxp
  rw [tlutQuant_scale, ← add_assoc, zpow_add₀ (by norm_num) _ k]
  ring

private theorem tlutPlain_neg (w : ℕ) (r : ℤ) (x : ℚ) : tlutPlain w r (-x) = -tlutPlain w r x := by
  unfold tlutPlain
  rw [tlutQuant_neg, Int.cast_neg, neg_mul]

private theorem tlutPlain_scale (w : ℕ) (k r : ℤ) (x : ℚ) : tlutPlain w (r + k) ((2:ℚ) ^ k * x) = (2:ℚ) ^ k * tlutPlain w r x := by
  unfold tlutPlain
  rw [tlutQuant_scale, zpow_add₀ (by norm_num) _ k]
  ring

private theorem tlutFp_neg (w t c : ℕ) (hc : 1 ≤ c) (x : ℚ) : tlutFp w t c (-x) = -tlutFp w t c x := by
  have h1 : (frexp (-x)).1 = -(frexp x).1 := by
    unfold frexp
    rcases eq_or_ne x 0 with h | h
    · subst h; simp
    · rw [if_neg h, if_neg (neg_ne_zero.2 h)]; dsimp only; rw [abs_neg, neg_div]
  have h2 : (frexp (-x)).2 = (frexp x).2 := by
    unfold frexp
    rcases eq_or_ne x 0 with h | h
    · subst h; simp
    · rw [if_neg h, if_neg (neg_ne_zero.2 h)]; dsimp only; rw [abs_neg]
  have := tlutLoop_neg t c hc (tlutDegree w t) ((frexp x).1 * 2 ^ w, 0)
  dsimp only at this
  rw [neg_zero] at this
  show (tlutLoop t c _ ((frexp (-x)).1 * 2 ^ w, 0)).2 * _ * (2:ℚ) ^ (frexp (-x)).2 = -((tlutLoop t c _ ((frexp x).1 * 2 ^ w, 0)).2 * _ * (2:ℚ) ^ (frexp x).2)
  rw [h1, h2, neg_mul, this, neg_mul, neg_mul]

private theorem tlutLoop_zero (t c : ℕ) (hc : 1 ≤ c) (n : ℕ) : (tlutLoop t c n (0, 0)).2 = 0 := by
  have := tlutLoop_neg t c hc n (0, 0)
  dsimp only at this
  rw [neg_zero] at this
  linarith

private theorem tlutFp_scale (w t c : ℕ) (hc : 1 ≤ c) (k : ℤ) (x : ℚ) : tlutFp w t c ((2:ℚ) ^ k * x) = (2:ℚ) ^ k * tlutFp w t c x := by
  have p : 0 < (2:ℚ) ^ k := zpow_pos (by norm_num) _
  rcases eq_or_ne x 0 with h | h
  · subst h
    rw [mul_zero]
    have : tlutFp w t c 0 = 0 := by
      show (tlutLoop t c _ ((frexp 0).1 * 2 ^ w, 0)).2 * _ * _ = 0
      rw [show (frexp 0).1 = 0 from rfl, zero_mul, tlutLoop_zero t c hc, zero_mul, zero_mul]
    rw [this, mul_zero]
  · have e1 : frexp ((2:ℚ) ^ k * x) = ((frexp x).1, (frexp x).2 + k) := by
      unfold frexp
      rw [if_neg h, if_neg (mul_ne_zero p.ne' h)]
      dsimp only
      rw [abs_mul, abs_of_pos p, log_mul k (abs_pos.2 h), add_right_comm, div_shift]
    show (tlutLoop t c _ ((frexp ((2:ℚ) ^ k * x)).1 * 2 ^ w, 0)).2 * _ * (2:ℚ) ^ (frexp ((2:ℚ) ^ k * x)).2 = (2:ℚ) ^ k * ((tlutLoop t c _ ((frexp x).1 * 2 ^ w, 0)).2 * _ * (2:ℚ) ^ (frexp x).2)
    rw [e1, zpow_add₀ (by norm_num) _ k]
    ring

/-! ## The three layers -/

/-- Elementary product of the fixed-point layer. -/
def fxpKernel (wi ww : ℕ) (qi qw : ℚ) (r : String) (l m : List ℚ) : Except PyErr (ℚ → ℚ → ℚ) :=
  (shifts ((wi : ℤ) - 1) ((ww : ℤ) - 1) r.toLower qi qw l m).map fun s a b =>
    (fxpRound (2 ^ wi) s.1 a : ℚ) * fxpRound (2 ^ ww) s.2.1 b / (2:ℚ) ^ (0 - s.1 - s.2.1)

theorem fxpKernel_ok (wi ww : ℕ) (qi qw : ℚ) (r : String) (hi0 : 0 < qi) (hi1 : qi ≤ 1) (hw0 : 0 < qw) (hw1 : qw ≤ 1) :
    KernelOK (fxpKernel wi ww qi qw r) := by
  have h2 : ∀ n : ℕ, (1:ℤ) ≤ 2 ^ n := fun n => one_le_pow₀ (by norm_num)
  refine kernel_shifts ((wi : ℤ) - 1) ((ww : ℤ) - 1) r.toLower qi qw hi0 hi1 hw0 hw1
    (fun s a b => (fxpRound (2 ^ wi) s.1 a : ℚ) * fxpRound (2 ^ ww) s.2.1 b / (2:ℚ) ^ (0 - s.1 - s.2.1)) ?_ ?_ ?_ ?_
  · intro s a b
    beta_reduce
    rw [fxpRound_neg _ (h2 wi)]; push_cast; ring
  · intro s a b
    beta_reduce
    rw [fxpRound_neg _ (h2 ww)]; push_cast; ring
  · intro s k a b
    dsimp only
    rw [fxpRound_scale, show 0 - (s.1 + k) - s.2.1 = 0 - s.1 - s.2.1 - k by ring, zpow_sub₀ (by norm_num) _ k, div_div_eq_mul_div]
    ring
  · intro s k a b
    dsimp only
    rw [fxpRound_scale, show 0 - s.1 - (s.2.1 + k) = 0 - s.1 - s.2.1 - k by ring, zpow_sub₀ (by norm_num) _ k, div_div_eq_mul_div]
    ring

/-- C93: fixed-point layer. -/
theorem C93_fixed {I O : ℕ} (wi ww : ℕ) (qi qw : ℚ) (r : String) (hi0 : 0 < qi) (hi1 : qi ≤ 1) (hw0 : 0 < qw) (hw1 : qw ≤ 1) :
    Spec.Symmetric (fxpLinear (I := I) (O := O) wi ww qi qw r) := by
  refine symmetric_of _ _ (fxpKernel_ok wi ww qi qw r hi0 hi1 hw0 hw1) fun w b x => ?_
  unfold fxpKernel
  rw [map_map']
  show (shifts _ _ _ _ _ _ _ >>= _) = _
  cases shifts ((wi : ℤ) - 1) ((ww : ℤ) - 1) r.toLower qi qw (flat x) (flat (List.ofFn w)) with
  | error e => rfl
  | ok s =>
      refine congrArg Except.ok (List.map_congr_left fun row _ => ?_)
      funext o
      show (∑ i, _) / _ + _ = _
      rw [sum_div]

/-- Elementary product of the hybrid layer. -/
def hubKernel (h : Hub) (l m : List ℚ) : Except PyErr (ℚ → ℚ → ℚ) :=
  (shifts ((h.widthi : ℤ) - 1) ((h.widthw : ℤ) - 1) h.rounding h.quantilei h.quantilew l m).map fun s a b =>
    sgn a * ((h.table (pyIdx (hubCycleMax h.widthi h.widthw) (hubMag h.cycle s.1 a))
      (pyIdx (hubCycleMax h.widthi h.widthw) (hubMag h.cycle s.2.1 b)) : ℚ) * sgn b) / (2:ℚ) ^ s.2.2

theorem hubKernel_ok (h : Hub) (hi0 : 0 < h.quantilei) (hi1 : h.quantilei ≤ 1) (hw0 : 0 < h.quantilew) (hw1 : h.quantilew ≤ 1) :
    KernelOK (hubKernel h) := by
  refine kernel_shifts ((h.widthi : ℤ) - 1) ((h.widthw : ℤ) - 1) h.rounding h.quantilei h.quantilew hi0 hi1 hw0 hw1
    (fun s a b => sgn a * ((h.table (pyIdx (hubCycleMax h.widthi h.widthw) (hubMag h.cycle s.1 a))
      (pyIdx (hubCycleMax h.widthi h.widthw) (hubMag h.cycle s.2.1 b)) : ℚ) * sgn b) / (2:ℚ) ^ s.2.2) ?_ ?_ ?_ ?_
  · intro s a b
    beta_reduce
    rw [hubMag_neg, sgn_neg']; ring
  · intro s a b
    beta_reduce
    rw [hubMag_neg, sgn_neg']; ring
  · intro s k a b
    dsimp only
    rw [hubMag_scale, sgn_scale, zpow_sub₀ (by norm_num) _ k, div_div_eq_mul_div]
    ring
  · intro s k a b
    dsimp only
    rw [hubMag_scale, sgn_scale, zpow_sub₀ (by norm_num) _ k, div_div_eq_mul_div]
    ring

/-- C93: hybrid layer. -/
theorem C93_hybrid {I O : ℕ} (h : Hub) (hi0 : 0 < h.quantilei) (hi1 : h.quantilei ≤ 1) (hw0 : 0 < h.quantilew) (hw1 : h.quantilew ≤ 1) :
    Spec.Symmetric (Hub.forward (I := I) (O := O) h) := by
  refine symmetric_of _ _ (hubKernel_ok h hi0 hi1 hw0 hw1) fun w b x => ?_
  unfold hubKernel
  rw [map_map']
  show (shifts _ _ _ _ _ _ _ >>= _) = _
  cases shifts ((h.widthi : ℤ) - 1) ((h.widthw : ℤ) - 1) h.rounding h.quantilei h.quantilew (flat x) (flat (List.ofFn w)) with
  | error e => rfl
  | ok s =>
      refine congrArg Except.ok (List.map_congr_left fun row _ => ?_)
      funext o
      show (∑ i, _) / _ + _ = _
      rw [sum_div]

/-- The operand functions of the look-up layer from flat data. -/
def tlutOps (c : Tlut) (l m : List ℚ) : Except PyErr ((ℚ → ℚ) × (ℚ → ℚ)) :=
  let width := if c.temporalI then tlutWidth c.formati c.widthi else tlutWidth c.formatw c.widthw
  let cyc := tlutCycle c.t c.cycle
  if c.formati = .fxp ∧ c.formatw = .fxp then
    (shifts ((c.widthi : ℤ) - 1) ((c.widthw : ℤ) - 1) c.rounding c.quantilei c.quantilew l m).map fun s =>
      if c.temporalI then (tlutFxp (c.widthi - 1) c.t cyc s.1, tlutPlain (c.widthw - 1) s.2.1)
      else (tlutPlain (c.widthi - 1) s.1, tlutFxp (c.widthw - 1) c.t cyc s.2.1)
  else if c.formati ≠ .fxp ∧ c.formatw ≠ .fxp then
    .ok (if c.temporalI then (tlutFp width c.t cyc, id) else (id, tlutFp width c.t cyc))
  else (shifts width width c.rounding c.quantilei c.quantilew l m).map fun s =>
    if c.temporalI then (tlutFxp width c.t cyc s.1, id) else (id, tlutFxp width c.t cyc s.2.1)

theorem tlutOps_eq {I O : ℕ} (c : Tlut) (w : Fin O → Fin I → ℚ) (x : List (Fin I → ℚ)) :
    c.operands w x = tlutOps c (flat x) (flat (List.ofFn w)) := by
  unfold Tlut.operands tlutOps
  dsimp only
  split_ifs with h1 h2 ht h2 ht
  all_goals rfl

/-- Elementary product of the look-up layer. -/
def tlutKernel (c : Tlut) (l m : List ℚ) : Except PyErr (ℚ → ℚ → ℚ) := (tlutOps c l m).map fun p a b => p.1 a * p.2 b

theorem tlutKernel_ok (c : Tlut) (hc : c.cycle ≠ some 0) (hi0 : 0 < c.quantilei) (hi1 : c.quantilei ≤ 1)
    (hw0 : 0 < c.quantilew) (hw1 : c.quantilew ≤ 1) : KernelOK (tlutKernel c) := by
  have hc1 : 1 ≤ tlutCycle c.t c.cycle := by
    unfold tlutCycle
    have := Nat.one_le_two_pow (n := c.t)
    split
    · exact this
    · next k hk => exact le_min (Nat.one_le_iff_ne_zero.2 fun h0 => hc (by rw [hk, h0])) this
  have run : ∀ (wi ww : ℤ) (f g : ℤ → ℚ → ℚ),
      (∀ r a, f r (-a) = -f r a) → (∀ r a, g r (-a) = -g r a) →
      (∀ r k a, f (r + k) ((2:ℚ) ^ k * a) = (2:ℚ) ^ k * f r a) → (∀ r k a, g (r + k) ((2:ℚ) ^ k * a) = (2:ℚ) ^ k * g r a) →
      (∀ l m, tlutKernel c l m = (shifts wi ww c.rounding c.quantilei c.quantilew l m).map fun s a b => f s.1 a * g s.2.1 b) →
      KernelOK (tlutKernel c) := by
    intro wi ww f g hf hg hfs hgs ho
    rw [show tlutKernel c = _ from funext fun l => funext fun m => ho l m]
    refine kernel_shifts wi ww c.rounding c.quantilei c.quantilew hi0 hi1 hw0 hw1 (fun s a b => f s.1 a * g s.2.1 b) ?_ ?_ ?_ ?_
    · intro s a b; beta_reduce; rw [hf, neg_mul]
    · intro s a b; beta_reduce; rw [hg, mul_neg]
    · intro s k a b; dsimp only; rw [hfs, mul_assoc]
    · intro s k a b; dsimp only; rw [hgs, mul_left_comm]
  by_cases h1 : c.formati = .fxp ∧ c.formatw = .fxp
  · by_cases ht : c.temporalI = true
    · refine run ((c.widthi : ℤ) - 1) ((c.widthw : ℤ) - 1) (tlutFxp (c.widthi - 1) c.t (tlutCycle c.t c.cycle)) (tlutPlain (c.widthw - 1))
        (tlutFxp_neg _ _ _ hc1) (tlutPlain_neg _) (fun r k => tlutFxp_scale _ _ _ k r) (fun r k => tlutPlain_scale _ k r) ?_
      intro l m
      unfold tlutKernel tlutOps
      simp only [if_pos h1, ht, if_true, map_map']
    · refine run ((c.widthi : ℤ) - 1) ((c.widthw : ℤ) - 1) (tlutPlain (c.widthi - 1)) (tlutFxp (c.widthw - 1) c.t (tlutCycle c.t c.cycle))
        (tlutPlain_neg _) (tlutFxp_neg _ _ _ hc1) (fun r k => tlutPlain_scale _ k r) (fun r k => tlutFxp_scale _ _ _ k r) ?_
      intro l m
      unfold tlutKernel tlutOps
      simp only [if_pos h1, ht, map_map']
      rfl
  by_cases h2 : c.formati ≠ .fxp ∧ c.formatw ≠ .fxp
  · have runF : ∀ (f g : ℚ → ℚ), (∀ a, f (-a) = -f a) → (∀ a, g (-a) = -g a) →
        (∀ (k : ℤ) a, f ((2:ℚ) ^ k * a) = (2:ℚ) ^ k * f a) → (∀ (k : ℤ) a, g ((2:ℚ) ^ k * a) = (2:ℚ) ^ k * g a) →
        (∀ l m, tlutKernel c l m = .ok fun a b => f a * g b) → KernelOK (tlutKernel c) := by
      intro f g hf hg hfs hgs ho
      have sc : ∀ (u : ℚ → ℚ), (∀ a, u (-a) = -u a) → (∀ (k : ℤ) a, u ((2:ℚ) ^ k * a) = (2:ℚ) ^ k * u a) → ∀ d a, Spec.SignedPow d →
          d * u (a / d) = u a := by
        rintro u h3 h4 d a ⟨k, hd⟩
        have p : (2:ℚ) ^ k ≠ 0 := (zpow_pos (by norm_num) _).ne'
        rcases hd with rfl | rfl
        · rw [← h4, mul_div_cancel₀ _ p]
        · rw [neg_mul, ← h4, ← h3]; congr 1; field_simp
      rw [show tlutKernel c = _ from funext fun l => funext fun m => ho l m]
      refine ⟨fun _ _ _ _ _ _ => rfl, ?_, ?_⟩
      · intro l m d hd
        refine congrArg Except.ok ?_
        funext a b
        show f a * g b = d * (f (a / d) * g b)
        rw [← mul_assoc, sc f hf hfs d a hd]
      · intro l m d hd
        refine congrArg Except.ok ?_
        funext a b
        show f a * g b = d * (f a * g (b / d))
        rw [mul_left_comm, sc g hg hgs d b hd]
    by_cases ht : c.temporalI = true
    · refine runF (tlutFp (tlutWidth c.formati c.widthi) c.t (tlutCycle c.t c.cycle)) id (tlutFp_neg _ _ _ hc1) (fun _ => rfl)
        (tlutFp_scale _ _ _ hc1) (fun _ _ => rfl) ?_
      intro l m
      unfold tlutKernel tlutOps
      simp only [ht, if_true, if_neg h1, if_pos h2]
      rfl
    · refine runF id (tlutFp (tlutWidth c.formatw c.widthw) c.t (tlutCycle c.t c.cycle)) (fun _ => rfl) (tlutFp_neg _ _ _ hc1)
        (fun _ _ => rfl) (tlutFp_scale _ _ _ hc1) ?_
      intro l m
      unfold tlutKernel tlutOps
      simp only [ht, if_neg h1, if_pos h2]
      rfl
  · by_cases ht : c.temporalI = true
    · refine run (tlutWidth c.formati c.widthi) (tlutWidth c.formati c.widthi)
        (tlutFxp (tlutWidth c.formati c.widthi) c.t (tlutCycle c.t c.cycle)) (fun _ => id)
        (tlutFxp_neg _ _ _ hc1) (fun _ _ => rfl) (fun r k => tlutFxp_scale _ _ _ k r) (fun _ _ _ => rfl) ?_
      intro l m
      unfold tlutKernel tlutOps
      simp only [ht, if_true, if_neg h1, if_neg h2, map_map']
    · refine run (tlutWidth c.formatw c.widthw) (tlutWidth c.formatw c.widthw) (fun _ => id)
        (tlutFxp (tlutWidth c.formatw c.widthw) c.t (tlutCycle c.t c.cycle))
        (fun _ _ => rfl) (tlutFxp_neg _ _ _ hc1) (fun _ _ _ => rfl) (fun r k => tlutFxp_scale _ _ _ k r) ?_
      intro l m
      unfold tlutKernel tlutOps
      rw [Bool.eq_false_iff.2 ht, if_neg h1, if_neg h2, map_map']
      rfl

/-- C93: look-up layer, in all combinations of formats. -/
theorem C93_lookup {I O : ℕ} (c : Tlut) (hc : c.cycle ≠ some 0) (hi0 : 0 < c.quantilei) (hi1 : c.quantilei ≤ 1)
    (hw0 : 0 < c.quantilew) (hw1 : c.quantilew ≤ 1) : Spec.Symmetric (Tlut.forward (I := I) (O := O) c) := by
  refine symmetric_of _ _ (tlutKernel_ok c hc hi0 hi1 hw0 hw1) fun w b x => ?_
  unfold tlutKernel Tlut.forward
  rw [map_map', tlutOps_eq]
  cases tlutOps c (flat x) (flat (List.ofFn w)) <;> rfl

/-! ## Company -/

/-- The result for a row depends on the rest of its batch through the largest magnitude of the batch only. -/
def Spec.CompanyByMax {I O : ℕ}
    (L : (Fin O → Fin I → ℚ) → Option (Fin O → ℚ) → List (Fin I → ℚ) → Except PyErr (List (Fin O → ℚ))) : Prop :=
  ∀ w b M x x', Spec.MaxAbs M (x.flatMap List.ofFn) → Spec.MaxAbs M (x'.flatMap List.ofFn) →
    (∃ e : PyErr, L w b x = .error e ∧ L w b x' = .error e) ∨
    ∃ f : (Fin I → ℚ) → Fin O → ℚ, L w b x = .ok (x.map f) ∧ L w b x' = .ok (x'.map f)

theorem rshift_company {I J O : ℕ} {M : ℚ} {x x' : List (Fin I → ℚ)} (hx : Spec.MaxAbs M (x.flatMap List.ofFn))
    (hx' : Spec.MaxAbs M (x'.flatMap List.ofFn)) (w : Fin O → Fin J → ℚ) (wi ww : ℤ) (r : String) (qw : ℚ) :
    rshift x w wi ww r 1 qw = rshift x' w wi ww r 1 qw := by
  unfold rshift flat
  rw [qscale_full hx, qscale_full hx']

private theorem company_of {α : Type} {I O : ℕ} {a b : Except PyErr α} (h : a = b) (F : α → (Fin I → ℚ) → Fin O → ℚ)
    (x x' : List (Fin I → ℚ)) :
    (∃ e : PyErr, (a >>= fun s => pure (x.map (F s))) = .error e ∧ (b >>= fun s => pure (x'.map (F s))) = .error e) ∨
    ∃ f : (Fin I → ℚ) → Fin O → ℚ, (a >>= fun s => (pure (x.map (F s)) : Except PyErr _)) = .ok (x.map f) ∧
      (b >>= fun s => (pure (x'.map (F s)) : Except PyErr _)) = .ok (x'.map f) := by
  subst h
  cases a with
  | error e => exact .inl ⟨e, rfl, rfl⟩
  | ok s => exact .inr ⟨F s, rfl, rfl⟩

/-- C93: with input quantile one, the largest magnitude is all that counts. -/
theorem C93_company {I O : ℕ} (wi ww : ℕ) (qw : ℚ) (r : String) (h : Hub) (hq : h.quantilei = 1) (c : Tlut) (hc : c.quantilei = 1) :
    Spec.CompanyByMax (fxpLinear (I := I) (O := O) wi ww 1 qw r) ∧ Spec.CompanyByMax (Hub.forward (I := I) (O := O) h) ∧
    Spec.CompanyByMax (Tlut.forward (I := I) (O := O) c) := by
  refine ⟨?_, ?_, ?_⟩
  · intro w b M x x' hx hx'
    exact company_of (rshift_company hx hx' w _ _ _ qw) (fun s row o => fxpForward s.1 s.2.1 (0 - s.1 - s.2.1) (2 ^ wi) (2 ^ ww) row (w o)
      (b.map fun v => v o)) x x'
  · intro w b M x x' hx hx'
    unfold Hub.forward
    rw [hq]
    exact company_of (rshift_company hx hx' w _ _ _ _) (fun s row o => hubForward s.1 s.2.1 s.2.2 (hubCycleMax h.widthi h.widthw) h.cycle h.table row (w o)
      (b.map fun v => v o)) x x'
  · intro w b M x x' hx hx'
    refine company_of (a := c.operands w x) (b := c.operands w x') ?_ (fun s row o => ∑ i, s.1 (row i) * s.2 (w o i) + (b.map fun v => v o).getD 0) x x'
    unfold Tlut.operands
    have R : ∀ a b r, rshift x w a b r 1 c.quantilew = rshift x' w a b r 1 c.quantilew := fun a b r =>
      rshift_company hx hx' w a b r c.quantilew
    rw [hc]
    simp only [R]

/-- C93: with both operands in a floating format every row is on its own. -/
theorem C93_float_rows {I O : ℕ} (c : Tlut) (hi : c.formati ≠ .fxp) (hw : c.formatw ≠ .fxp) (w : Fin O → Fin I → ℚ)
    (b : Option (Fin O → ℚ)) :
    ∃ f : (Fin I → ℚ) → Fin O → ℚ, ∀ x, c.forward w b x = .ok (x.map f) := by
  have ho : ∃ p : (ℚ → ℚ) × (ℚ → ℚ), ∀ x, c.operands w x = .ok p := by
    unfold Tlut.operands
    simp only [if_neg (show ¬(c.formati = .fxp ∧ c.formatw = .fxp) from fun h => hi h.1), if_pos (And.intro hi hw)]
    by_cases ht : c.temporalI = true
    · exact ⟨_, fun _ => if_pos ht⟩
    · exact ⟨_, fun _ => if_neg ht⟩
  obtain ⟨p, hp⟩ := ho
  refine ⟨fun row o => ∑ i, p.1 (row i) * p.2 (w o i) + (b.map fun v => v o).getD 0, fun x => ?_⟩
  unfold Tlut.forward
  rw [hp]; rfl

private theorem log2_up {r : String} {s : ℚ} {m : ℤ} (h : Utils.log2Rounded r s = .ok m) : 0 < s ∧ s < (2:ℚ) ^ (m + 1) := by
  unfold Utils.log2Rounded at h
  split_ifs at h with h0 h1 h2 h3
  · have hs : 0 < s := not_le.1 h0
    refine ⟨hs, ?_⟩
    obtain rfl := Except.ok.inj h
    have := Int.lt_zpow_succ_log_self (R := ℚ) (b := 2) (by norm_num) (2 * s ^ 2)
    generalize Int.log 2 (2 * s ^ 2) = g at *
    have p : 0 < (2:ℚ) ^ (g / 2 + 1) := zpow_pos (by norm_num) _
    have k : 2 * s ^ 2 < 2 * ((2:ℚ) ^ (g / 2 + 1)) ^ 2 := by
      refine lt_of_lt_of_le this ?_
      rw [Nat.cast_ofNat]
      rw [← zpow_natCast, ← zpow_mul, ← zpow_one_add₀ (by norm_num)]
      exact zpow_le_zpow_right₀ (by norm_num) (by push_cast; omega)
    nlinarith
  · obtain rfl := Except.ok.inj h
    exact ⟨not_le.1 h0, by have := Int.lt_zpow_succ_log_self (R := ℚ) (b := 2) (by norm_num) s; exact_mod_cast this⟩
  · obtain rfl := Except.ok.inj h
    refine ⟨not_le.1 h0, ?_⟩
    have := Int.self_le_zpow_clog (R := ℚ) (b := 2) (by norm_num) s
    push_cast at this
    exact lt_of_le_of_lt this (zpow_lt_zpow_right₀ (by norm_num) (by omega))

/-- C93: a row whose elements all stay below the largest magnitude of the batch by a factor `2^(width+1)` disappears: only the
bias is left of it. -/
theorem C93_swamped {I O : ℕ} (wi ww : ℕ) (qw : ℚ) (r : String) (w : Fin O → Fin I → ℚ) (b : Option (Fin O → ℚ))
    (x : List (Fin I → ℚ)) (M : ℚ) (hM : Spec.MaxAbs M (x.flatMap List.ofFn)) (out : List (Fin O → ℚ))
    (hout : fxpLinear wi ww 1 qw r w b x = .ok out) (j : ℕ) (hj : j < x.length) (hs : ∀ i, |x[j] i| ≤ M / 2 ^ (wi + 1)) :
    ∃ hj' : j < out.length, ∀ o, out[j] o = (b.map fun v => v o).getD 0 := by
  unfold fxpLinear rshift flat at hout
  rw [qscale_full hM] at hout
  cases h1 : qscale ((List.ofFn w).flatMap List.ofFn) qw with
  | error e => rw [h1] at hout; cases hout
  | ok sw =>
  rw [h1] at hout
  cases h2 : Utils.log2Rounded r.toLower M with
  | error e =>
      have : (Except.error e : Except PyErr (List (Fin O → ℚ))) = .ok out := by
        rw [← hout]
        show _ = (Utils.rshiftOffset M sw ((wi : ℤ) - 1) ((ww : ℤ) - 1) r.toLower >>= _)
        unfold Utils.rshiftOffset
        rw [h2]; rfl
      cases this
  | ok im =>
  cases h3 : Utils.log2Rounded r.toLower sw with
  | error e =>
      have : (Except.error e : Except PyErr (List (Fin O → ℚ))) = .ok out := by
        rw [← hout]
        show _ = (Utils.rshiftOffset M sw ((wi : ℤ) - 1) ((ww : ℤ) - 1) r.toLower >>= _)
        unfold Utils.rshiftOffset
        rw [h2, h3]; rfl
      cases this
  | ok wm =>
  have e : .ok out = (Except.ok (x.map fun row o => fxpForward (im - ((wi : ℤ) - 1)) (wm - ((ww : ℤ) - 1))
      (0 - (im - ((wi : ℤ) - 1)) - (wm - ((ww : ℤ) - 1))) (2 ^ wi) (2 ^ ww) row (w o) (b.map fun v => v o)) : Except PyErr _) := by
    rw [← hout]
    show (Utils.rshiftOffset M sw ((wi : ℤ) - 1) ((ww : ℤ) - 1) r.toLower >>= _) = _
    unfold Utils.rshiftOffset
    rw [h2, h3]; rfl
  obtain rfl := Except.ok.inj e
  refine ⟨by simpa using hj, fun o => ?_⟩
  rw [List.getElem_map]
  obtain ⟨-, hM1⟩ := log2_up h2
  have z : ∀ i, fxpRound (2 ^ wi) (im - ((wi : ℤ) - 1)) (x[j] i) = 0 := by
    intro i
    have p : 0 < (2:ℚ) ^ (im - ((wi : ℤ) - 1)) := zpow_pos (by norm_num) _
    have q : roundHE (x[j] i / (2:ℚ) ^ (im - ((wi : ℤ) - 1))) = 0 := by
      refine roundHE_eq_of_lt ?_
      rw [Int.cast_zero, sub_zero, abs_div, abs_of_pos p, div_lt_iff₀ p]
      refine lt_of_le_of_lt (hs i) ?_
      rw [div_lt_iff₀ (by positivity)]
      refine lt_of_lt_of_le hM1 (le_of_eq ?_)
      rw [← zpow_natCast (2:ℚ) (wi + 1), show (1 / 2 : ℚ) = (2:ℚ) ^ (-1 : ℤ) by norm_num, ← zpow_add₀ (by norm_num), ← zpow_add₀ (by norm_num)]
      congr 1
      push_cast
      ring
    unfold fxpRound clamp
    rw [q]
    have : (1:ℤ) ≤ 2 ^ wi := one_le_pow₀ (by norm_num)
    omega
  show (∑ i, _) / _ + _ = _
  rw [sum_eq_zero fun i _ => by rw [z i, Int.cast_zero, zero_mul], zero_div, zero_add]

/-- C93, streams: each row of a batch is counted as if it were alone. -/
theorem C93_stream_counts {B I O : ℕ} (hB : 0 < B) (c : PC I O) (x : Fin B → Fin I → ℕ → ℤ) (t : ℕ) :
    ∃ y : Fin B → Fin O → ℤ, pcOut c x t = .ok (List.ofFn y) ∧ ∀ b, pcOut c (fun _ : Fin 1 => x b) t = .ok [y b] :=
  ⟨_, pc_run hB c x t, fun b => pc_run (B := 1) (by norm_num) c (fun _ => x b) t⟩

/-- C93, streams: each row of a batch is processed as if it were alone. -/
theorem C93_stream_rows {B I O : ℕ} (hB : 0 < B) (m : PC I O × Adder.Cfg) (x : Fin B → Fin I → ℕ → ℤ) (t : ℕ) :
    ∃ y : Fin B → Fin O → ℤ, linOut m x t = .ok (List.ofFn y) ∧ ∀ b, linOut m (fun _ : Fin 1 => x b) t = .ok [y b] :=
  ⟨_, lin_run hB m x t, fun b => lin_run (B := 1) (by norm_num) m (fun _ => x b) t⟩

/-! ## Witnesses -/

theorem lower_ok {r : String} (hr : r ∈ ["round", "ceil", "floor"]) : Utils.log2Rounded r.toLower 1 = .ok 0 := by
  have e1 : Int.log 2 (1:ℚ) = 0 := Int.log_one_right _
  have e2 : Int.clog 2 (1:ℚ) = 0 := Int.clog_one_right _
  have e3 : Int.log 2 (2 * (1:ℚ) ^ 2) = 1 := by
    have := Int.log_zpow (R := ℚ) (b := 2) (by norm_num) 1
    rw [← this]; norm_num
  simp only [List.mem_cons, List.not_mem_nil, or_false] at hr
  rcases hr with rfl | rfl | rfl
  · rw [show "round".toLower = "round" by decide +kernel]; unfold Utils.log2Rounded; rw [if_neg (by norm_num), if_pos rfl, e3]; rfl
  · rw [show "ceil".toLower = "ceil" by decide +kernel]; unfold Utils.log2Rounded
    rw [if_neg (by norm_num), if_neg (by decide +kernel), if_neg (by decide +kernel), if_pos rfl, e2]
  · rw [show "floor".toLower = "floor" by decide +kernel]; unfold Utils.log2Rounded
    rw [if_neg (by norm_num), if_neg (by decide +kernel), if_pos rfl, e1]

theorem fxpRound_one (n : ℕ) (hn : 1 ≤ n) : fxpRound (2 ^ n) (0 - ((n : ℤ) - 1)) 1 = 2 ^ (n - 1) := by
  have e : (1:ℚ) / (2:ℚ) ^ (0 - ((n : ℤ) - 1)) = ((2 ^ (n - 1) : ℤ) : ℚ) := by
    rw [one_div, ← zpow_neg, show -(0 - ((n : ℤ) - 1)) = ((n - 1 : ℕ) : ℤ) by omega, zpow_natCast]
    push_cast; rfl
  unfold fxpRound clamp
  rw [e, roundHE_of_int]
  obtain ⟨m, rfl⟩ : ∃ m, n = m + 1 := ⟨n - 1, by omega⟩
  rw [Nat.add_sub_cancel, pow_succ]
  have : (1:ℤ) ≤ 2 ^ m := one_le_pow₀ (by norm_num)
  omega

/-- C93: at every width and rounding there are a row and companions such that the row's result is exact alone and lost in
company. -/
theorem C93_interference (wi ww : ℕ) (hwi : 1 ≤ wi) (hww : 1 ≤ ww) (r : String) (hr : r ∈ ["round", "ceil", "floor"]) :
    fxpLinear wi ww 1 1 r (fun _ _ : Fin 1 => 1) none [fun _ => 1] = .ok [fun _ => 1] ∧
    ∃ y, fxpLinear wi ww 1 1 r (fun _ _ : Fin 1 => 1) none [fun _ => 1, fun _ => 2 ^ (wi + 1)] = .ok [fun _ => 0, y] := by
  have hl := lower_ok hr
  have m1 : Spec.MaxAbs 1 ([fun _ : Fin 1 => (1:ℚ)].flatMap List.ofFn) := by
    constructor <;> simp
  have hone : (1:ℚ) ≤ 2 ^ (wi + 1) := one_le_pow₀ (by norm_num)
  have m2 : Spec.MaxAbs (2 ^ (wi + 1)) ([fun _ : Fin 1 => (1:ℚ), fun _ => 2 ^ (wi + 1)].flatMap List.ofFn) := by
    constructor
    · intro a ha
      simp at ha
      rcases ha with rfl | rfl
      · rw [abs_one]; exact hone
      · rw [abs_of_pos (by positivity)]
    · exact ⟨2 ^ (wi + 1), by simp, abs_of_pos (by positivity)⟩
  have val : ∀ n : ℕ, 1 ≤ n → ((2 ^ (n - 1) : ℤ) : ℚ) = (2:ℚ) ^ ((n : ℤ) - 1) := by
    intro n hn
    rw [show (n : ℤ) - 1 = ((n - 1 : ℕ) : ℤ) by omega, zpow_natCast]; push_cast; rfl
  constructor
  · unfold fxpLinear rshift flat
    rw [qscale_full m1, show ((List.ofFn fun _ _ : Fin 1 => (1:ℚ)).flatMap List.ofFn) = [fun _ : Fin 1 => (1:ℚ)].flatMap List.ofFn by simp,
      qscale_full m1]
    show (Utils.rshiftOffset 1 1 ((wi : ℤ) - 1) ((ww : ℤ) - 1) r.toLower >>= _) = _
    unfold Utils.rshiftOffset
    rw [hl]
    refine congrArg Except.ok ?_
    refine congrArg (fun z => [z]) ?_
    funext o
    show (∑ i : Fin 1, (fxpRound (2 ^ wi) (0 - ((wi : ℤ) - 1)) 1 : ℚ) * fxpRound (2 ^ ww) (0 - ((ww : ℤ) - 1)) 1) / (2:ℚ) ^ (0 - (0 - ((wi : ℤ) - 1)) - (0 - ((ww : ℤ) - 1))) + 0 = 1
    rw [fxpRound_one wi hwi, fxpRound_one ww hww, val wi hwi, val ww hww, Fin.sum_univ_one, ← zpow_add₀ (by norm_num), add_zero,
      show 0 - (0 - ((wi : ℤ) - 1)) - (0 - ((ww : ℤ) - 1)) = (wi : ℤ) - 1 + ((ww : ℤ) - 1) by ring]
    exact div_self (zpow_pos (by norm_num) _).ne'
  · have ok : ∃ f, fxpLinear wi ww 1 1 r (fun _ _ : Fin 1 => 1) none [fun _ => 1, fun _ => 2 ^ (wi + 1)] =
        .ok ([fun _ : Fin 1 => (1:ℚ), fun _ => 2 ^ (wi + 1)].map f) := by
      have hl2 : Utils.log2Rounded r.toLower (2 ^ (wi + 1)) = .ok (0 + ((wi + 1 : ℕ) : ℤ)) := by
        have := log2_smul r.toLower ((wi + 1 : ℕ) : ℤ) 1
        rw [mul_one, zpow_natCast, hl] at this
        exact this
      unfold fxpLinear rshift flat
      rw [qscale_full m2, show ((List.ofFn fun _ _ : Fin 1 => (1:ℚ)).flatMap List.ofFn) = [fun _ : Fin 1 => (1:ℚ)].flatMap List.ofFn by simp,
        qscale_full m1]
      show ∃ f, (Utils.rshiftOffset (2 ^ (wi + 1)) 1 ((wi : ℤ) - 1) ((ww : ℤ) - 1) r.toLower >>= _) = _
      unfold Utils.rshiftOffset
      rw [hl, hl2]
      exact ⟨_, rfl⟩
    obtain ⟨f, hf⟩ := ok
    obtain ⟨_, h⟩ := C93_swamped wi ww 1 r _ none _ _ m2 _ hf 0 (by simp) (by
      intro i
      show |(1:ℚ)| ≤ _
      rw [div_self (by positivity), abs_one])
    refine ⟨f fun _ => 2 ^ (wi + 1), ?_⟩
    rw [hf]
    refine congrArg Except.ok ?_
    show [f fun _ => 1, _] = _
    rw [show (f fun _ => 1) = fun _ => 0 from funext fun o => h o]

/-- C93: with a cycle of zero the look-up layer is not odd. -/
theorem C93_zero_cycle :
    ∃ c : Tlut, c.cycle = some 0 ∧ ¬ Spec.Symmetric (Tlut.forward (I := 1) (O := 1) c) := by
  refine ⟨⟨true, 11, .float16, 16, 1, .float16, 16, 1, some 0, "ceil"⟩, rfl, fun h => ?_⟩
  have hv : ∀ a : ℚ, |a| = 1 → tlutFp 11 11 0 a = -1 / 2 ^ 11 * 2 := by
    intro a ha
    have e : (frexp a).2 = 1 := by
      unfold frexp
      rw [if_neg (by rintro rfl; simp at ha)]
      dsimp only
      rw [ha, Int.log_one_right]; rfl
    have d : tlutDegree 11 11 = 1 := by unfold tlutDegree; norm_num
    have dl : tlutDelta 11 11 = 0 := by unfold tlutDelta; rw [d]; norm_num
    show (tlutLoop 11 0 (tlutDegree 11 11) ((frexp a).1 * 2 ^ 11, 0)).2 * (2:ℚ) ^ tlutDelta 11 11 * (2:ℚ) ^ (frexp a).2 = _
    rw [e, d, dl]
    unfold tlutLoop tlutLoop
    dsimp only
    unfold clamp
    rw [min_eq_right (by push_cast; exact le_max_of_le_right (by norm_num))]
    norm_num
  have key := h.input (fun _ _ => 1) [fun _ => 1] (-1) ⟨0, .inr (by norm_num)⟩
  have run : ∀ a : ℚ, Tlut.forward (I := 1) (O := 1) ⟨true, 11, .float16, 16, 1, .float16, 16, 1, some 0, "ceil"⟩ (fun _ _ => 1) none [fun _ => a] =
      .ok [fun _ => tlutFp 11 11 0 a] := by
    intro a
    show Except.ok [fun _ : Fin 1 => ∑ i : Fin 1, tlutFp 11 11 (min 0 (2 ^ 11)) a * id 1 + 0] = _
    rw [Fin.sum_univ_one, add_zero, id, mul_one, Nat.zero_min]
  rw [run, List.map_cons, List.map_nil, run, mul_one, hv 1 abs_one, hv (-1) (by norm_num)] at key
  have k2 := congrFun (List.cons.inj (Except.ok.inj key)).1 0
  revert k2
  norm_num

/-! ## Examples -/

/-- Two rows and two features with rounding in play (width three): exchanging the features and multiplying by `-4`. -/
example (b : Option (Fin 1 → ℚ)) : ∃ out, fxpLinear 3 3 1 1 "ceil" (fun _ i => if i = (0 : Fin 2) then 1 else 3/8) b
    [fun i => if i = 0 then 5/7 else 1/3, fun _ => 1] = .ok out := by
  rcases (C93_fixed (I := 2) (O := 1) 3 3 1 1 "ceil" (by norm_num) (by norm_num) (by norm_num) (by norm_num)).rows
    (fun _ i => if i = (0 : Fin 2) then 1 else 3/8) b [fun i => if i = 0 then 5/7 else 1/3, fun _ => 1] with ⟨e, h⟩ | ⟨f, h⟩
  · exfalso
    have := h _ (List.Perm.refl _)
    have m1 : Spec.MaxAbs 1 ([fun i : Fin 2 => if i = 0 then (5/7:ℚ) else 1/3, fun _ => 1].flatMap List.ofFn) := by
      constructor
      · intro a ha
        simp at ha
        rcases ha with rfl | rfl | rfl <;> norm_num
      · exact ⟨1, by simp, by norm_num⟩
    have m2 : Spec.MaxAbs 1 ((List.ofFn fun (_ : Fin 1) (i : Fin 2) => if i = 0 then (1:ℚ) else 3/8).flatMap List.ofFn) := by
      constructor
      · intro a ha
        simp at ha
        rcases ha with rfl | rfl <;> norm_num
      · exact ⟨1, by simp, by norm_num⟩
    unfold fxpLinear rshift flat at this
    rw [qscale_full m1, qscale_full m2] at this
    have l1 := lower_ok (r := "ceil") (by simp)
    rw [show (do
        let si ← Except.ok (1:ℚ)
        let sw ← Except.ok (1:ℚ)
        Utils.rshiftOffset si sw (((3:ℕ) : ℤ) - 1) (((3:ℕ) : ℤ) - 1) "ceil".toLower : Except PyErr (ℤ × ℤ × ℤ)) = .ok (-2, -2, 2) by
      show Utils.rshiftOffset 1 1 _ _ _ = _
      unfold Utils.rshiftOffset
      rw [l1]; rfl] at this
    cases this
  · exact ⟨_, h _ (List.Perm.refl _)⟩

/-- A look-up layer with a digit limit (cycle five of sixteen) in mixed formats is symmetric. -/
example : Spec.Symmetric (Tlut.forward (I := 3) (O := 2) ⟨true, 4, .fxp, 8, 9/10, .float16, 16, 1, some 5, "round"⟩) :=
  C93_lookup _ (by decide) (by norm_num) (by norm_num) (by norm_num) (by norm_num)

/-- The row `[1/3, -1]` in two batches whose other row differs. -/
example (w : Fin 1 → Fin 2 → ℚ) :
    (∃ e : PyErr, fxpLinear 8 8 1 1 "round" w none [fun i => if i = 0 then 1/3 else -1, fun _ => 0] = .error e ∧
      fxpLinear 8 8 1 1 "round" w none [fun i => if i = 0 then 1/3 else -1, fun _ => 1] = .error e) ∨
    ∃ y u v, fxpLinear 8 8 1 1 "round" w none [fun i => if i = 0 then 1/3 else -1, fun _ => 0] = .ok [y, u] ∧
      fxpLinear 8 8 1 1 "round" w none [fun i => if i = 0 then 1/3 else -1, fun _ => 1] = .ok [y, v] := by
  rcases (C93_company (I := 2) (O := 1) 8 8 1 "round" ⟨1, fun _ _ => 0, 1, 1, 1, 1, "round"⟩ rfl
      ⟨true, 4, .fxp, 8, 1, .fxp, 8, 1, none, "round"⟩ rfl).1 w none 1
      [fun i => if i = 0 then 1/3 else -1, fun _ => 0] [fun i => if i = 0 then 1/3 else -1, fun _ => 1]
      ⟨fun a ha => by simp at ha; rcases ha with rfl | rfl | rfl <;> norm_num, -1, by simp, by norm_num⟩
      ⟨fun a ha => by simp at ha; rcases ha with rfl | rfl | rfl <;> norm_num, -1, by simp, by norm_num⟩ with h | ⟨f, h1, h2⟩
  · exact .inl h
  · exact .inr ⟨_, _, _, h1, h2⟩

end Verif.Props
