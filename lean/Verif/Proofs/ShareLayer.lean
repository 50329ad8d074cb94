import Verif.Proofs.ShareProg

/-!
# The operations of the layers and cells pass the check
-/

namespace Verif.Share

theorem chk_linear_pc (c : PCOptions) : ∀ l t n, checkProg 7 n (linearPCProg c l t n).2 = true := fun l t n => by
  obtain ⟨a, b, d⟩ := c
  match n with
  | 0 => exact check_nil _ _
  | 1 =>
    simp only [linearPCProg, oneArg]
    generalize (l != t) = g
    revert a b d g
    decide +kernel
  | _ + 2 => exact check_nil _ _

theorem chk_linear (c : PCOptions) : ∀ l t n, checkProg 10 n (linearProg c l t n).2 = true := fun l t n => by
  obtain ⟨a, b, d⟩ := c
  match n with
  | 0 => exact check_nil _ _
  | 1 =>
    simp only [linearProg, oneArg]
    generalize (l.1 != t) = g
    generalize l.2 = e
    revert a b d g e
    decide +kernel
  | _ + 2 => exact check_nil _ _

theorem chk_conv_pc (c : PCOptions) : ∀ l t n, checkProg 9 n (convPCProg c l t n).2 = true := fun l t n => by
  obtain ⟨a, b, d⟩ := c
  match n with
  | 0 => exact check_nil _ _
  | 1 =>
    simp only [convPCProg, oneArg]
    generalize (l != t) = g
    revert a b d g
    decide +kernel
  | _ + 2 => exact check_nil _ _

theorem chk_conv (c : PCOptions) : ∀ l t n, checkProg 12 n (convProg c l t n).2 = true := fun l t n => by
  obtain ⟨a, b, d⟩ := c
  match n with
  | 0 => exact check_nil _ _
  | 1 =>
    simp only [convProg, oneArg]
    generalize (l.1 != t) = g
    generalize l.2 = e
    revert a b d g e
    decide +kernel
  | _ + 2 => exact check_nil _ _

theorem chk_hub_linear {L τ : Type} (hasBias : Bool) :
    ∀ l t n, checkProg 3 n (hubLinearProg (L := L) (τ := τ) hasBias l t n).2 = true := fun l t n => by
  match n with
  | 0 => exact check_nil _ _
  | 1 =>
    simp only [hubLinearProg, oneArg]
    revert hasBias
    decide +kernel
  | _ + 2 => exact check_nil _ _

theorem chk_fxp_linear {L τ : Type} (hasBias : Bool) :
    ∀ l t n, checkProg 2 n (fxpLinearProg (L := L) (τ := τ) hasBias l t n).2 = true := fun l t n => by
  match n with
  | 0 => exact check_nil _ _
  | 1 =>
    simp only [fxpLinearProg, oneArg]
    revert hasBias
    decide +kernel
  | _ + 2 => exact check_nil _ _

theorem chk_hub_conv {L τ : Type} (hasBias : Bool) :
    ∀ l t n, checkProg 3 n (hubConvProg (L := L) (τ := τ) hasBias l t n).2 = true := fun l t n => by
  match n with
  | 0 => exact check_nil _ _
  | 1 =>
    simp only [hubConvProg, oneArg]
    revert hasBias
    decide +kernel
  | _ + 2 => exact check_nil _ _

theorem chk_fxp_conv {L τ : Type} (hasBias : Bool) :
    ∀ l t n, checkProg 2 n (fxpConvProg (L := L) (τ := τ) hasBias l t n).2 = true := fun l t n => by
  match n with
  | 0 => exact check_nil _ _
  | 1 =>
    simp only [fxpConvProg, oneArg]
    revert hasBias
    decide +kernel
  | _ + 2 => exact check_nil _ _

theorem chk_tlut_linear {L τ : Type} (mode : TLUTMode) (tin hasBias : Bool) (deg : ℕ) :
    ∀ l t n, checkProg 2 n (tlutLinearProg (L := L) (τ := τ) mode tin hasBias deg l t n).2 = true := fun l t n => by
  match n with
  | 0 => exact check_nil _ _
  | 1 =>
    refine check_loop 2 1 deg _ _ _ ?_
    cases mode <;> (revert tin hasBias; decide +kernel)
  | _ + 2 => exact check_nil _ _

theorem chk_tlut_conv {L τ : Type} (mode : TLUTMode) (tin hasBias : Bool) (deg : ℕ) :
    ∀ l t n, checkProg 2 n (tlutConvProg (L := L) (τ := τ) mode tin hasBias deg l t n).2 = true := fun l t n => by
  match n with
  | 0 => exact check_nil _ _
  | 1 =>
    refine check_loop 2 1 deg _ _ _ ?_
    cases mode <;> (revert tin hasBias; decide +kernel)
  | _ + 2 => exact check_nil _ _

theorem chk_mgu {L τ : Type} : ∀ l t n, checkProg 4 n (mguProg (L := L) (τ := τ) l t n).2 = true :=
  fun l t n => by
  match n with
  | 0 => exact check_nil _ _
  | 1 => simp only [mguProg]; decide +kernel
  | 2 => simp only [mguProg]; decide +kernel
  | _ + 3 => exact check_nil _ _

theorem chk_mgu_fxp {L τ : Type} : ∀ l t n, checkProg 4 n (mguFxpProg (L := L) (τ := τ) l t n).2 = true :=
  fun l t n => by
  match n with
  | 0 => exact check_nil _ _
  | 1 => simp only [mguFxpProg]; decide +kernel
  | 2 => simp only [mguFxpProg]; decide +kernel
  | _ + 3 => exact check_nil _ _

theorem fsuMguCheck_ffff :
    checkProg 34 2 (Build.ops 34 2 (do return [← fsuMguOps false false false false 34 (34 + 1)])) = true := by decide +kernel

theorem fsuMguCheck_ffft :
    checkProg 34 2 (Build.ops 34 2 (do return [← fsuMguOps false false false true 34 (34 + 1)])) = true := by decide +kernel

theorem fsuMguCheck_fftf :
    checkProg 34 2 (Build.ops 34 2 (do return [← fsuMguOps false false true false 34 (34 + 1)])) = true := by decide +kernel

theorem fsuMguCheck_fftt :
    checkProg 34 2 (Build.ops 34 2 (do return [← fsuMguOps false false true true 34 (34 + 1)])) = true := by decide +kernel

theorem fsuMguCheck_ftff :
    checkProg 34 2 (Build.ops 34 2 (do return [← fsuMguOps false true false false 34 (34 + 1)])) = true := by decide +kernel

theorem fsuMguCheck_ftft :
    checkProg 34 2 (Build.ops 34 2 (do return [← fsuMguOps false true false true 34 (34 + 1)])) = true := by decide +kernel

theorem fsuMguCheck_fttf :
    checkProg 34 2 (Build.ops 34 2 (do return [← fsuMguOps false true true false 34 (34 + 1)])) = true := by decide +kernel

theorem fsuMguCheck_fttt :
    checkProg 34 2 (Build.ops 34 2 (do return [← fsuMguOps false true true true 34 (34 + 1)])) = true := by decide +kernel

theorem fsuMguCheck_tfff :
    checkProg 34 2 (Build.ops 34 2 (do return [← fsuMguOps true false false false 34 (34 + 1)])) = true := by decide +kernel

theorem fsuMguCheck_tfft :
    checkProg 34 2 (Build.ops 34 2 (do return [← fsuMguOps true false false true 34 (34 + 1)])) = true := by decide +kernel

theorem fsuMguCheck_tftf :
    checkProg 34 2 (Build.ops 34 2 (do return [← fsuMguOps true false true false 34 (34 + 1)])) = true := by decide +kernel

theorem fsuMguCheck_tftt :
    checkProg 34 2 (Build.ops 34 2 (do return [← fsuMguOps true false true true 34 (34 + 1)])) = true := by decide +kernel

theorem fsuMguCheck_ttff :
    checkProg 34 2 (Build.ops 34 2 (do return [← fsuMguOps true true false false 34 (34 + 1)])) = true := by decide +kernel

theorem fsuMguCheck_ttft :
    checkProg 34 2 (Build.ops 34 2 (do return [← fsuMguOps true true false true 34 (34 + 1)])) = true := by decide +kernel

theorem fsuMguCheck_tttf :
    checkProg 34 2 (Build.ops 34 2 (do return [← fsuMguOps true true true false 34 (34 + 1)])) = true := by decide +kernel

theorem fsuMguCheck_tttt :
    checkProg 34 2 (Build.ops 34 2 (do return [← fsuMguOps true true true true 34 (34 + 1)])) = true := by decide +kernel

theorem fsuMguCheck : ∀ a b g e : Bool,
    checkProg 34 2 (Build.ops 34 2 (do return [← fsuMguOps a b g e 34 (34 + 1)])) = true
  | false, false, false, false => fsuMguCheck_ffff
  | false, false, false, true => fsuMguCheck_ffft
  | false, false, true, false => fsuMguCheck_fftf
  | false, false, true, true => fsuMguCheck_fftt
  | false, true, false, false => fsuMguCheck_ftff
  | false, true, false, true => fsuMguCheck_ftft
  | false, true, true, false => fsuMguCheck_fttf
  | false, true, true, true => fsuMguCheck_fttt
  | true, false, false, false => fsuMguCheck_tfff
  | true, false, false, true => fsuMguCheck_tfft
  | true, false, true, false => fsuMguCheck_tftf
  | true, false, true, true => fsuMguCheck_tftt
  | true, true, false, false => fsuMguCheck_ttff
  | true, true, false, true => fsuMguCheck_ttft
  | true, true, true, false => fsuMguCheck_tttf
  | true, true, true, true => fsuMguCheck_tttt

theorem chk_fsu_mgu (wtc hasBias : Bool) :
    ∀ l t n, checkProg 34 n (fsuMguProg wtc hasBias l t n).2 = true := fun l t n => by
  match n with
  | 0 => exact check_nil _ _
  | 1 => exact check_nil _ _
  | 2 =>
    simp only [fsuMguProg, twoArgs]
    exact fsuMguCheck wtc hasBias (l.1 != t) l.2
  | _ + 3 => exact check_nil _ _

theorem chk_add {τ : Type} (bipolar : Bool) : ∀ l t n, checkProg 3 n (addProg (τ := τ) bipolar l t n).2 = true :=
  fun l t n => by
  match n with
  | 0 => exact check_nil _ _
  | 1 =>
    simp only [addProg, oneArg]
    revert bipolar l
    decide +kernel
  | _ + 2 => exact check_nil _ _

theorem chk_relu {L τ : Type} : ∀ l t n, checkProg 0 n (reluProg (L := L) (τ := τ) false l t n).2 = true :=
  fun l t n => by
  match n with
  | 0 => exact check_nil _ _
  | 1 => simp only [reluProg]; decide +kernel
  | _ + 2 => exact check_nil _ _

/-! ## What is never written -/

theorem kp_linear_pc (c : PCOptions) : ∀ l t n,
    [0, 1, 4, 5].all (fun j => untouched j (linearPCProg c l t n).2.1) = true := fun l t n => by
  obtain ⟨a, b, d⟩ := c
  match n with
  | 0 => rfl
  | 1 =>
    simp only [linearPCProg, oneArg]
    generalize (l != t) = g
    revert a b d g
    decide +kernel
  | _ + 2 => rfl

theorem kp_linear (c : PCOptions) : ∀ l t n,
    [0, 1, 4, 5].all (fun j => untouched j (linearProg c l t n).2.1) = true := fun l t n => by
  obtain ⟨a, b, d⟩ := c
  match n with
  | 0 => rfl
  | 1 =>
    simp only [linearProg, oneArg]
    generalize (l.1 != t) = g
    generalize l.2 = e
    revert a b d g e
    decide +kernel
  | _ + 2 => rfl

theorem kp_conv_pc (c : PCOptions) : ∀ l t n,
    [0, 1, 4, 5, 8].all (fun j => untouched j (convPCProg c l t n).2.1) = true := fun l t n => by
  obtain ⟨a, b, d⟩ := c
  match n with
  | 0 => rfl
  | 1 =>
    simp only [convPCProg, oneArg]
    generalize (l != t) = g
    revert a b d g
    decide +kernel
  | _ + 2 => rfl

theorem kp_conv (c : PCOptions) : ∀ l t n,
    [0, 1, 4, 5, 8].all (fun j => untouched j (convProg c l t n).2.1) = true := fun l t n => by
  obtain ⟨a, b, d⟩ := c
  match n with
  | 0 => rfl
  | 1 =>
    simp only [convProg, oneArg]
    generalize (l.1 != t) = g
    generalize l.2 = e
    revert a b d g e
    decide +kernel
  | _ + 2 => rfl

theorem kp_hub_linear {L τ : Type} (hasBias : Bool) : ∀ l t n,
    (List.range 3).all (fun j => untouched j (hubLinearProg (L := L) (τ := τ) hasBias l t n).2.1) = true := fun l t n => by
  match n with
  | 0 => rfl
  | 1 =>
    simp only [hubLinearProg, oneArg]
    revert hasBias
    decide +kernel
  | _ + 2 => rfl

theorem kp_fxp_linear {L τ : Type} (hasBias : Bool) : ∀ l t n,
    (List.range 2).all (fun j => untouched j (fxpLinearProg (L := L) (τ := τ) hasBias l t n).2.1) = true := fun l t n => by
  match n with
  | 0 => rfl
  | 1 =>
    simp only [fxpLinearProg, oneArg]
    revert hasBias
    decide +kernel
  | _ + 2 => rfl

theorem kp_hub_conv {L τ : Type} (hasBias : Bool) : ∀ l t n,
    (List.range 3).all (fun j => untouched j (hubConvProg (L := L) (τ := τ) hasBias l t n).2.1) = true := fun l t n => by
  match n with
  | 0 => rfl
  | 1 =>
    simp only [hubConvProg, oneArg]
    revert hasBias
    decide +kernel
  | _ + 2 => rfl

theorem kp_fxp_conv {L τ : Type} (hasBias : Bool) : ∀ l t n,
    (List.range 2).all (fun j => untouched j (fxpConvProg (L := L) (τ := τ) hasBias l t n).2.1) = true := fun l t n => by
  match n with
  | 0 => rfl
  | 1 =>
    simp only [fxpConvProg, oneArg]
    revert hasBias
    decide +kernel
  | _ + 2 => rfl

theorem kp_tlut_linear {L τ : Type} (mode : TLUTMode) (tin hasBias : Bool) (deg : ℕ) : ∀ l t n,
    (List.range 2).all (fun j => untouched j (tlutLinearProg (L := L) (τ := τ) mode tin hasBias deg l t n).2.1) = true :=
  fun l t n => by
  match n with
  | 0 => rfl
  | 1 =>
    refine List.all_eq_true.mpr fun j hj => ?_
    refine untouched_loop j 2 1 deg _ _ _ ?_
    revert j
    cases mode <;> (revert tin hasBias; decide +kernel)
  | _ + 2 => rfl

theorem kp_tlut_conv {L τ : Type} (mode : TLUTMode) (tin hasBias : Bool) (deg : ℕ) : ∀ l t n,
    (List.range 2).all (fun j => untouched j (tlutConvProg (L := L) (τ := τ) mode tin hasBias deg l t n).2.1) = true :=
  fun l t n => by
  match n with
  | 0 => rfl
  | 1 =>
    refine List.all_eq_true.mpr fun j hj => ?_
    refine untouched_loop j 2 1 deg _ _ _ ?_
    revert j
    cases mode <;> (revert tin hasBias; decide +kernel)
  | _ + 2 => rfl

theorem fsuMguKeep_ff : ∀ g e : Bool, ([0, 1, 4, 5, 10, 11, 14, 15, 23, 24, 28] : List ℕ).all (fun j =>
    untouched j (Build.ops 34 2 (do return [← fsuMguOps false false g e 34 (34 + 1)])).1) = true := by decide +kernel

theorem fsuMguKeep_ft : ∀ g e : Bool, ([0, 1, 4, 5, 10, 11, 14, 15, 23, 24, 28] : List ℕ).all (fun j =>
    untouched j (Build.ops 34 2 (do return [← fsuMguOps false true g e 34 (34 + 1)])).1) = true := by decide +kernel

theorem fsuMguKeep_tf : ∀ g e : Bool, ([0, 1, 4, 5, 10, 11, 14, 15, 23, 24, 28] : List ℕ).all (fun j =>
    untouched j (Build.ops 34 2 (do return [← fsuMguOps true false g e 34 (34 + 1)])).1) = true := by decide +kernel

theorem fsuMguKeep_tt : ∀ g e : Bool, ([0, 1, 4, 5, 10, 11, 14, 15, 23, 24, 28] : List ℕ).all (fun j =>
    untouched j (Build.ops 34 2 (do return [← fsuMguOps true true g e 34 (34 + 1)])).1) = true := by decide +kernel

theorem fsuMguKeep (a b g e : Bool) : ([0, 1, 4, 5, 10, 11, 14, 15, 23, 24, 28] : List ℕ).all (fun j =>
    untouched j (Build.ops 34 2 (do return [← fsuMguOps a b g e 34 (34 + 1)])).1) = true := by
  cases a <;> cases b
  · exact fsuMguKeep_ff g e
  · exact fsuMguKeep_ft g e
  · exact fsuMguKeep_tf g e
  · exact fsuMguKeep_tt g e

theorem kp_mgu {L τ : Type} : ∀ l t n,
    (List.range 4).all (fun j => untouched j (mguProg (L := L) (τ := τ) l t n).2.1) = true := fun l t n => by
  match n with
  | 0 => rfl
  | 1 => simp only [mguProg]; decide +kernel
  | 2 => simp only [mguProg]; decide +kernel
  | _ + 3 => rfl

theorem kp_mgu_fxp {L τ : Type} : ∀ l t n,
    (List.range 4).all (fun j => untouched j (mguFxpProg (L := L) (τ := τ) l t n).2.1) = true := fun l t n => by
  match n with
  | 0 => rfl
  | 1 => simp only [mguFxpProg]; decide +kernel
  | 2 => simp only [mguFxpProg]; decide +kernel
  | _ + 3 => rfl

theorem kp_fsu_mgu (wtc hasBias : Bool) : ∀ l t n, ([0, 1, 4, 5, 10, 11, 14, 15, 23, 24, 28] : List ℕ).all (fun j =>
    untouched j (fsuMguProg wtc hasBias l t n).2.1) = true := fun l t n => by
  match n with
  | 0 => rfl
  | 1 => rfl
  | 2 =>
    simp only [fsuMguProg, twoArgs]
    exact fsuMguKeep wtc hasBias (l.1 != t) l.2
  | _ + 3 => rfl

end Verif.Share
