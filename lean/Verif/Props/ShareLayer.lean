import Verif.Proofs.ShareLayer

/-!
# C106: sharing of memory in the layers and cells
-/

namespace Verif.Props

open Verif.Share

namespace Spec

/-- A module of `k` tensors behaves as if tensors were values: whatever the memory before, whatever the numbers the
operations compute and whichever operations happen not to copy, a caller that makes tensors, writes into tensors
it made or was given, and calls the module reads what it would read if every call took and returned values
and the module kept values. -/
def ByValue {L τ : Type} (k : ℕ) (prog : Prog L τ) : Prop :=
  ∀ (F : L → τ → Nums) (al : L → τ → ℕ → Bool) (vs : List Vec), vs.length = k →
    ∀ (h : Mem) (held : List ℕ), Apart h held → ∀ (l : L) (ds : List (Deed τ Vec)),
      World.readV (progModule (h.params (vs.map .own)).2 prog F al) ⟨l, (h.params (vs.map .own)).1, held⟩ ds =
        Verif.Spec.valueRead (Verif.Spec.valueProg prog F al) ((l, vs), held.map h.vec) ds

/-- Tensor number `j` of a module never changes, whatever the caller does with the module and with tensors it made
or was given. -/
def Keeps {L τ : Type} (k : ℕ) (prog : Prog L τ) (j : ℕ) : Prop :=
  ∀ (F : L → τ → Nums) (al : L → τ → ℕ → Bool) (vs : List Vec), vs.length = k →
    ∀ (h : Mem) (held : List ℕ), Apart h held → ∀ (l : L) (ds : List (Deed τ Vec)),
      (ds.foldl (World.actV (progModule (h.params (vs.map .own)).2 prog F al))
        ⟨l, (h.params (vs.map .own)).1, held⟩).h.vec ((h.params (vs.map .own)).2.getD j 0) = vs.getD j 0

/-- A module is a function of the values of its arguments: the same one whatever has been called or written before. -/
def IsFunction {L τ : Type} (k : ℕ) (prog : Prog L τ) : Prop :=
  ∀ (F : L → τ → Nums) (al : L → τ → ℕ → Bool) (vs : List Vec), vs.length = k → ∀ l : L,
    ∃ G : τ → List Vec → List Vec, ∀ (h : Mem) (held : List ℕ), Apart h held → ∀ ds : List (Deed τ Vec),
      World.readV (progModule (h.params (vs.map .own)).2 prog F al) ⟨l, (h.params (vs.map .own)).1, held⟩ ds =
        Verif.Spec.valueRead (fun (_ : Unit) t args => ((), G t args)) ((), held.map h.vec) ds

/-- A module of `k` tensors, tensor 0 being one the caller gave and still holds: when the caller writes `b` into it
and then calls, the results are those of a module made with `b`. -/
def Borrows {L τ : Type} (k : ℕ) (prog : Prog L τ) : Prop :=
  ∀ (F : L → τ → Nums) (al : L → τ → ℕ → Bool) (vs : List Vec), vs.length + 1 = k →
    ∀ (h : Mem) (o : ℕ) (rest : List ℕ), Apart h (o :: rest) → ∀ (l : L) (b : Vec) (t : τ) (ks : List ℕ),
      (World.readV (progModule (h.params (.keep o :: vs.map .own)).2 prog F al)
        ⟨l, (h.params (.keep o :: vs.map .own)).1, o :: rest⟩ [.poke 0 b, .call t (ks.map (· + 1))]).drop 1 =
      Verif.Spec.valueRead (Verif.Spec.valueProg prog F al) ((l, b :: vs), rest.map h.vec) [.call t ks]

/-- What the caller writes into the tensor it gave shows in the results. -/
def WriteShows {L τ : Type} (k : ℕ) (prog : Prog L τ) : Prop :=
  ∃ (F : L → τ → Nums) (al : L → τ → ℕ → Bool) (vs : List Vec) (h : Mem) (o x : ℕ) (l : L) (b c : Vec) (t : τ),
    vs.length + 1 = k ∧ Apart h [o, x] ∧
      (World.readV (progModule (h.params (.keep o :: vs.map .own)).2 prog F al)
        ⟨l, (h.params (.keep o :: vs.map .own)).1, [o, x]⟩ [.poke 0 b, .call t [1]]).drop 1 ≠
      (World.readV (progModule (h.params (.keep o :: vs.map .own)).2 prog F al)
        ⟨l, (h.params (.keep o :: vs.map .own)).1, [o, x]⟩ [.poke 0 c, .call t [1]]).drop 1

end Spec

private theorem byValue {L τ : Type} {k : ℕ} {prog : Prog L τ}
    (hc : ∀ l t n, checkProg k n (prog l t n).2 = true) : Spec.ByValue k prog := by
  intro F al vs hk h held hh l ds
  subst hk
  exact prog_run prog F al vs hc h held hh l ds

private theorem keeps {L τ : Type} {k j : ℕ} {prog : Prog L τ} (hj : j < k)
    (hc : ∀ l t n, checkProg k n (prog l t n).2 = true)
    (hu : ∀ l t n, untouched j (prog l t n).2.1 = true) : Spec.Keeps k prog j := by
  intro F al vs hk h held hh l ds
  subst hk
  exact prog_keep prog F al vs hc h held hh l ds j hj hu

private theorem function {L τ : Type} {k : ℕ} {prog : Prog L τ} (hv : Spec.ByValue k prog)
    (hl : ∀ l t n, (prog l t n).1 = l)
    (hu : ∀ l t n, (List.range k).all (fun j => untouched j (prog l t n).2.1) = true) : Spec.IsFunction k prog := by
  intro F al vs hk l
  refine ⟨fun t args => (Verif.Spec.valueProg prog F al (l, vs) t args).2, fun h held hh ds => ?_⟩
  rw [hv F al vs hk h held hh l ds]
  refine prog_pure prog F al vs hl (fun l t n j hj => ?_) l ds _
  have := List.all_eq_true.mp (hu l t n) j (List.mem_range.mpr (by omega))
  exact this

/-- `FSULinearPC`: every call takes and returns values. -/
theorem C106_linear_pc (c : PCOptions) : Spec.ByValue 7 (linearPCProg c) := byValue (chk_linear_pc c)

/-- Weight, bias and random numbers of `FSULinearPC` never change. -/
theorem C106_linear_pc_weights (c : PCOptions) : ∀ j ∈ ([0, 1, 4, 5] : List ℕ), Spec.Keeps 7 (linearPCProg c) j := fun j hj =>
  keeps (by revert j; decide) (chk_linear_pc c) fun l t n => List.all_eq_true.mp (kp_linear_pc c l t n) j hj

/-- `FSULinear`: every call takes and returns values. -/
theorem C106_linear (c : PCOptions) : Spec.ByValue 10 (linearProg c) := byValue (chk_linear c)

/-- Weight, bias and random numbers of `FSULinear` never change. -/
theorem C106_linear_weights (c : PCOptions) : ∀ j ∈ ([0, 1, 4, 5] : List ℕ), Spec.Keeps 10 (linearProg c) j := fun j hj =>
  keeps (by revert j; decide) (chk_linear c) fun l t n => List.all_eq_true.mp (kp_linear c l t n) j hj

/-- `FSUConv2dPC`: every call takes and returns values. -/
theorem C106_conv_pc (c : PCOptions) : Spec.ByValue 9 (convPCProg c) := byValue (chk_conv_pc c)

/-- Weight, bias and random numbers of `FSUConv2dPC` never change. -/
theorem C106_conv_pc_weights (c : PCOptions) : ∀ j ∈ ([0, 1, 4, 5, 8] : List ℕ), Spec.Keeps 9 (convPCProg c) j := fun j hj =>
  keeps (by revert j; decide) (chk_conv_pc c) fun l t n => List.all_eq_true.mp (kp_conv_pc c l t n) j hj

/-- `FSUConv2d`: every call takes and returns values. -/
theorem C106_conv (c : PCOptions) : Spec.ByValue 12 (convProg c) := byValue (chk_conv c)

/-- Weight, bias and random numbers of `FSUConv2d` never change. -/
theorem C106_conv_weights (c : PCOptions) : ∀ j ∈ ([0, 1, 4, 5, 8] : List ℕ), Spec.Keeps 12 (convProg c) j := fun j hj =>
  keeps (by revert j; decide) (chk_conv c) fun l t n => List.all_eq_true.mp (kp_conv c l t n) j hj

/-- `FSUAdd`: every call takes and returns values. -/
theorem C106_add {τ : Type} (bipolar : Bool) : Spec.ByValue 3 (addProg (τ := τ) bipolar) := byValue (chk_add bipolar)

/-- `HUBLinear` is a function of its argument. -/
theorem C106_hub_linear {L τ : Type} (hasBias : Bool) : Spec.IsFunction 3 (hubLinearProg (L := L) (τ := τ) hasBias) :=
  function (byValue (chk_hub_linear hasBias)) (fun l t n => by
    match n with
    | 0 => rfl
    | 1 => rfl
    | _ + 2 => rfl) (kp_hub_linear hasBias)

/-- `FXPLinear` is a function of its argument. -/
theorem C106_fxp_linear {L τ : Type} (hasBias : Bool) : Spec.IsFunction 2 (fxpLinearProg (L := L) (τ := τ) hasBias) :=
  function (byValue (chk_fxp_linear hasBias)) (fun l t n => by
    match n with
    | 0 => rfl
    | 1 => rfl
    | _ + 2 => rfl) (kp_fxp_linear hasBias)

/-- `HUBConv2d` is a function of its argument. -/
theorem C106_hub_conv {L τ : Type} (hasBias : Bool) : Spec.IsFunction 3 (hubConvProg (L := L) (τ := τ) hasBias) :=
  function (byValue (chk_hub_conv hasBias)) (fun l t n => by
    match n with
    | 0 => rfl
    | 1 => rfl
    | _ + 2 => rfl) (kp_hub_conv hasBias)

/-- `FXPConv2d` is a function of its argument. -/
theorem C106_fxp_conv {L τ : Type} (hasBias : Bool) : Spec.IsFunction 2 (fxpConvProg (L := L) (τ := τ) hasBias) :=
  function (byValue (chk_fxp_conv hasBias)) (fun l t n => by
    match n with
    | 0 => rfl
    | 1 => rfl
    | _ + 2 => rfl) (kp_fxp_conv hasBias)

/-- `TLUTLinear` is a function of its argument, however many rounds it takes. -/
theorem C106_tlut_linear {L τ : Type} (mode : TLUTMode) (tin hasBias : Bool) (deg : ℕ) :
    Spec.IsFunction 2 (tlutLinearProg (L := L) (τ := τ) mode tin hasBias deg) :=
  function (byValue (chk_tlut_linear mode tin hasBias deg)) (fun l t n => by
    match n with
    | 0 => rfl
    | 1 => rfl
    | _ + 2 => rfl) (kp_tlut_linear mode tin hasBias deg)

/-- `TLUTConv2d` is a function of its argument, however many rounds it takes. -/
theorem C106_tlut_conv {L τ : Type} (mode : TLUTMode) (tin hasBias : Bool) (deg : ℕ) :
    Spec.IsFunction 2 (tlutConvProg (L := L) (τ := τ) mode tin hasBias deg) :=
  function (byValue (chk_tlut_conv mode tin hasBias deg)) (fun l t n => by
    match n with
    | 0 => rfl
    | 1 => rfl
    | _ + 2 => rfl) (kp_tlut_conv mode tin hasBias deg)

/-- `HardMGUCell` is a function of its input and the state it is given. -/
theorem C106_mgu {L τ : Type} : Spec.IsFunction 4 (mguProg (L := L) (τ := τ)) :=
  function (byValue chk_mgu) (fun l t n => by
    match n with
    | 0 => rfl
    | 1 => rfl
    | 2 => rfl
    | _ + 3 => rfl) kp_mgu

/-- `HardMGUCellFXP` is a function of its input and the state it is given. -/
theorem C106_mgu_fxp {L τ : Type} : Spec.IsFunction 4 (mguFxpProg (L := L) (τ := τ)) :=
  function (byValue chk_mgu_fxp) (fun l t n => by
    match n with
    | 0 => rfl
    | 1 => rfl
    | 2 => rfl
    | _ + 3 => rfl) kp_mgu_fxp

/-- `FSUMGUCell`: every call takes and returns values; two layers, two multipliers and two adders share nothing. -/
theorem C106_fsu_mgu (wtc hasBias : Bool) : Spec.ByValue 34 (fsuMguProg wtc hasBias) := byValue (chk_fsu_mgu wtc hasBias)

/-- Weights, biases and random numbers of `FSUMGUCell` never change. -/
theorem C106_fsu_mgu_weights (wtc hasBias : Bool) : ∀ j ∈ ([0, 1, 4, 5, 10, 11, 14, 15, 23, 24, 28] : List ℕ),
    Spec.Keeps 34 (fsuMguProg wtc hasBias) j := fun j hj =>
  keeps (by revert j; decide) (chk_fsu_mgu wtc hasBias) fun l t n =>
    List.all_eq_true.mp (kp_fsu_mgu wtc hasBias l t n) j hj

/-- `HUBReLU` is a function of its argument unless it works in place. -/
theorem C106_relu {L τ : Type} : Spec.IsFunction 0 (reluProg (L := L) (τ := τ) false) :=
  function (byValue chk_relu) (fun l t n => by
    match n with
    | 0 => rfl
    | 1 => rfl
    | _ + 2 => rfl) fun _ _ _ => rfl

/-! ## Where it fails -/

private def total : Nums := fun op vs => fun i => (vs.map (· i)).sum + op

/-- In place `HUBReLU` overwrites its argument. -/
theorem C106_relu_inplace : ¬ Spec.ByValue 0 (reluProg (L := Unit) (τ := Unit) true) := by
  intro hv
  have := hv (fun _ _ _ _ => 5) (fun _ _ _ => false) [] rfl (Mem.empty.new 7).1 [0]
    ⟨by intro o ho; rw [List.mem_singleton] at ho; subst ho; decide, List.nodup_singleton _⟩ () [.call () [0]]
  have := congrFun (congrArg (fun l => l.getD 0 0) this) 0
  revert this
  decide +kernel

private theorem borrows {L τ : Type} {k : ℕ} {prog : Prog L τ} (hc : ∀ l t n, checkProg k n (prog l t n).2 = true) :
    Spec.Borrows k prog := by
  intro F al vs hk h o rest hh l b t ks
  subst hk
  exact keep_run prog F al vs hc h o rest hh l b t ks

private def exMem : Mem := ((Mem.empty.new 7).1.new 3).1

private theorem exApart : Apart exMem [0, 1] := ⟨by decide, by decide⟩

private theorem shows {k : ℕ} {prog : Prog Unit Unit} (hb : Spec.Borrows (k + 1) prog)
    (hv : (Verif.Spec.valueRead (Verif.Spec.valueProg prog (fun _ _ => total) (fun _ _ _ => true))
        (((), 2 :: List.replicate k 1), [3]) [.call () [0]]).map (· 0) ≠
      (Verif.Spec.valueRead (Verif.Spec.valueProg prog (fun _ _ => total) (fun _ _ _ => true))
        (((), 1 :: List.replicate k 1), [3]) [.call () [0]]).map (· 0)) : Spec.WriteShows (k + 1) prog := by
  refine ⟨fun _ _ => total, fun _ _ _ => true, List.replicate k 1, exMem, 0, 1, (), 2, 1, (), by simp, exApart, fun he => hv ?_⟩
  have e : ([1] : List ℕ).map exMem.vec = [3] := by
    show [exMem.vec 1] = [3]
    rfl
  have h1 := hb (fun _ _ => total) (fun _ _ _ => true) (List.replicate k 1) (by simp) exMem 0 [1] exApart () 2 () [0]
  have h2 := hb (fun _ _ => total) (fun _ _ _ => true) (List.replicate k 1) (by simp) exMem 0 [1] exApart () 1 () [0]
  rw [e] at h1 h2
  rw [← h1, ← h2]
  exact congrArg (List.map (· 0)) he

/-- `HUBLinear` with `weight_ext` computes with what the caller writes into that tensor later. -/
theorem C106_hub_linear_ext (hasBias : Bool) : Spec.Borrows 3 (hubLinearProg (L := Unit) (τ := Unit) hasBias) ∧
    Spec.WriteShows 3 (hubLinearProg (L := Unit) (τ := Unit) hasBias) :=
  ⟨borrows (chk_hub_linear hasBias), shows (borrows (chk_hub_linear hasBias)) (by revert hasBias; decide +kernel)⟩

/-- `FXPLinear` with `weight_ext` computes with what the caller writes into that tensor later. -/
theorem C106_fxp_linear_ext (hasBias : Bool) : Spec.Borrows 2 (fxpLinearProg (L := Unit) (τ := Unit) hasBias) ∧
    Spec.WriteShows 2 (fxpLinearProg (L := Unit) (τ := Unit) hasBias) :=
  ⟨borrows (chk_fxp_linear hasBias), shows (borrows (chk_fxp_linear hasBias)) (by revert hasBias; decide +kernel)⟩

/-- `HUBConv2d` with `weight_ext` computes with what the caller writes into that tensor later. -/
theorem C106_hub_conv_ext (hasBias : Bool) : Spec.Borrows 3 (hubConvProg (L := Unit) (τ := Unit) hasBias) ∧
    Spec.WriteShows 3 (hubConvProg (L := Unit) (τ := Unit) hasBias) :=
  ⟨borrows (chk_hub_conv hasBias), shows (borrows (chk_hub_conv hasBias)) (by revert hasBias; decide +kernel)⟩

/-- `FXPConv2d` with `weight_ext` computes with what the caller writes into that tensor later. -/
theorem C106_fxp_conv_ext (hasBias : Bool) : Spec.Borrows 2 (fxpConvProg (L := Unit) (τ := Unit) hasBias) ∧
    Spec.WriteShows 2 (fxpConvProg (L := Unit) (τ := Unit) hasBias) :=
  ⟨borrows (chk_fxp_conv hasBias), shows (borrows (chk_fxp_conv hasBias)) (by revert hasBias; decide +kernel)⟩

/-- `TLUTLinear` with `weight_ext` computes with what the caller writes into that tensor later. -/
theorem C106_tlut_linear_ext (mode : TLUTMode) (tin hasBias : Bool) :
    (∀ deg, Spec.Borrows 2 (tlutLinearProg (L := Unit) (τ := Unit) mode tin hasBias deg)) ∧
    Spec.WriteShows 2 (tlutLinearProg (L := Unit) (τ := Unit) mode tin hasBias 1) :=
  ⟨fun deg => borrows (chk_tlut_linear mode tin hasBias deg), shows (borrows (chk_tlut_linear mode tin hasBias 1)) (by
    cases mode <;> (revert tin hasBias; decide +kernel))⟩

/-- `TLUTConv2d` with `weight_ext` computes with what the caller writes into that tensor later. -/
theorem C106_tlut_conv_ext (mode : TLUTMode) (tin hasBias : Bool) :
    (∀ deg, Spec.Borrows 2 (tlutConvProg (L := Unit) (τ := Unit) mode tin hasBias deg)) ∧
    Spec.WriteShows 2 (tlutConvProg (L := Unit) (τ := Unit) mode tin hasBias 1) :=
  ⟨fun deg => borrows (chk_tlut_conv mode tin hasBias deg), shows (borrows (chk_tlut_conv mode tin hasBias 1)) (by
    cases mode <;> (revert tin hasBias; decide +kernel))⟩

/-! ## Examples -/

example : Apart exMem [0, 1] := exApart

/-- Call, write into the result, write into the argument, call with the argument, call with another tensor. -/
private def exDeeds : List (Deed ℕ Vec) := [.call 1 [0], .poke 2 100, .poke 0 5, .call 1 [0], .call 1 [1]]

private def exRead {L : Type} (k : ℕ) (prog : Prog L ℕ) (l : L) : List ℚ :=
  let r := exMem.params ((List.replicate k (1 : Vec)).map .own)
  (World.readV (progModule r.2 prog (fun _ _ => total) (fun _ _ _ => true)) ⟨l, r.1, [0, 1]⟩ exDeeds).map (· 0)

private theorem exRead_eq {L : Type} {k : ℕ} {prog : Prog L ℕ} (hv : Spec.ByValue k prog) (l : L) :
    exRead k prog l = (Verif.Spec.valueRead (Verif.Spec.valueProg prog (fun _ _ => total) (fun _ _ _ => true))
      ((l, List.replicate k 1), [7, 3]) exDeeds).map (· 0) := by
  have h := hv (fun _ _ => total) (fun _ _ _ => true) (List.replicate k 1) (by simp) exMem [0, 1] exApart l exDeeds
  rw [show ([0, 1] : List ℕ).map exMem.vec = [7, 3] from rfl] at h
  exact congrArg (List.map fun v : Vec => v 0) h

example : exRead 3 (addProg true) true = [5, 3, 100, 130, 300] := by rw [exRead_eq (C106_add true)]; decide +kernel
example : exRead 7 (linearPCProg ⟨true, true, true⟩) 1 = [5, 3, 100, 251, 303] := by
  rw [exRead_eq (C106_linear_pc ⟨true, true, true⟩)]; decide +kernel
example : exRead 9 (convPCProg ⟨true, true, true⟩) 1 = [5, 3, 100, 415, 503] := by
  rw [exRead_eq (C106_conv_pc ⟨true, true, true⟩)]; decide +kernel
example : exRead 3 (hubLinearProg true) () = [5, 3, 100, 349, 341] := by
  rw [exRead_eq (byValue (chk_hub_linear true))]; decide +kernel
example : exRead 2 (fxpConvProg true) () = [5, 3, 100, 190, 184] := by
  rw [exRead_eq (byValue (chk_fxp_conv true))]; decide +kernel
example : exRead 2 (tlutLinearProg .fpfp true true 3) () = [5, 3, 100, 493, 483] := by
  rw [exRead_eq (byValue (chk_tlut_linear .fpfp true true 3))]; decide +kernel
example : exRead 4 mguProg () = [5, 3, 100, 194, 182] := by rw [exRead_eq (byValue chk_mgu)]; decide +kernel

end Verif.Props
