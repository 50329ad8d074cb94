import Verif.Model.Shuffle
import Verif.Model.Small
import Verif.Model.Add
import Verif.Model.Mul
import Verif.Model.Div
import Verif.Model.Sqrt
import Verif.Model.Metric

/-!
# Tensors with broadcasting, and the element-wise modules on whole tensors

The other files of the model describe one tensor element with its own slice of the state.  Here the state and the inputs are
tensors of any shape, every tensor operation of the code is written out, and operands are broadcast as PyTorch does.  Shapes
and indices list the *last* dimension first, so that broadcasting aligns heads of lists.  Element types are exact numbers.
-/

namespace Verif.Tens

open Verif Shuffle Small

/-- A tensor: its shape, last dimension first, and its elements. -/
structure Tensor (α : Type) where
  shape : List ℕ
  at' : List ℕ → α

/-- The index of the element of a tensor of the given shape that is used for element `i` of a larger tensor: dimensions of
size one are stretched, missing dimensions ignored (PyTorch "Broadcasting semantics"). -/
def proj : List ℕ → List ℕ → List ℕ
  | [], _ => []
  | a :: s, i => (if a = 1 then 0 else i.headD 0) :: proj s i.tail

/-- The element of `x` used for index `i` after broadcasting. -/
def Tensor.get {α : Type} (x : Tensor α) (i : List ℕ) : α := x.at' (proj x.shape i)

/-- Shape of a result of an element-wise operation, or no shape (PyTorch "Broadcasting semantics"). -/
def bc : List ℕ → List ℕ → Option (List ℕ)
  | [], t => some t
  | a :: s, [] => some (a :: s)
  | a :: s, b :: t =>
      match bc s t with
      | none => none
      | some u => if a = b then some (a :: u) else if a = 1 then some (b :: u) else if b = 1 then some (a :: u) else none

/-- An element-wise operation on one tensor. -/
def map1 {α β : Type} (f : α → β) (x : Tensor α) : Tensor β := ⟨x.shape, fun i => f (x.at' i)⟩

/-- An element-wise operation on two tensors; `RuntimeError` when the shapes do not fit. -/
def map2 {α β γ : Type} (f : α → β → γ) (x : Tensor α) (y : Tensor β) : Except PyErr (Tensor γ) :=
  match bc x.shape y.shape with
  | none => .error .runtime
  | some u => .ok ⟨u, fun i => f (x.at' (proj x.shape i)) (y.at' (proj y.shape i))⟩

/-- An element-wise operation in place (`add_`, `sub_`, `mul_`): the result must have the shape of the first operand. -/
def map2In {α β γ : Type} (f : α → β → γ) (x : Tensor α) (y : Tensor β) : Except PyErr (Tensor γ) :=
  match bc x.shape y.shape with
  | none => .error .runtime
  | some u => if u = x.shape then .ok ⟨u, fun i => f (x.at' (proj x.shape i)) (y.at' (proj y.shape i))⟩ else .error .runtime

/-- `torch.zeros(1)` and the like: one element. -/
def one {α : Type} (a : α) : Tensor α := ⟨[1], fun _ => a⟩

/-! ## Modules -/

/-- `Bi2Uni.forward` on tensors, `stream/shuffle.py:76-82`. -/
def bi2uniT (depth : ℤ) (acc : Tensor ℚ) (x : Tensor ℤ) : Except PyErr (Tensor ℚ × Tensor ℤ) := do
  let d := map1 (fun v : ℤ => (v : ℚ) * 2 - 1) x
  let a ← map2 (fun a v => clamp (-accBound depth) (accBound depth) (a + v)) acc d       -- line 79
  let o := map1 (fun a : ℚ => (ind (a ≥ 1) : ℤ)) a                                       -- line 80
  let a' ← map2In (fun (a : ℚ) (o : ℤ) => a - o) a o                                     -- line 81
  pure (a', o)                                                                           -- line 82

/-- `Uni2Bi.forward` on tensors, `stream/shuffle.py:116-123`; the sum over the stacked dimension is the sum of the two
tensors of the shape of the input. -/
def uni2biT (depth : ℤ) (acc : Tensor ℚ) (x : Tensor ℤ) : Except PyErr (Tensor ℚ × Tensor ℤ) := do
  let d := map1 (fun v : ℤ => (v : ℚ) + 1) x                                             -- line 119
  let a ← map2 (fun a v => clamp (-accBound depth) (accBound depth) (a + v)) acc d       -- line 120
  let o := map1 (fun a : ℚ => (ind (a ≥ 2) : ℤ)) a                                       -- line 121
  let a' ← map2In (fun (a : ℚ) (o : ℤ) => a - o * 2) a o                                 -- line 122
  pure (a', o)                                                                           -- line 123

/-- `FSUSignAbs.forward` on tensors, `kernel/signabs.py:34-40`; `buf_half` has one element. -/
def signAbsT (depth : ℤ) (acc : Tensor ℚ) (x : Tensor ℤ) : Except PyErr (Tensor ℚ × (Tensor ℤ × Tensor ℤ)) := do
  let d := map1 (fun v : ℤ => (v : ℚ) * 2 - 1) x
  let a ← map2 (fun a v => clamp 0 (accMax depth) (a + v)) acc d                         -- line 36
  let sg ← map2 (fun a h => (ind (a < h) : ℤ)) a (one (accHalf depth))                   -- line 37
  let o ← map2 Int.xor sg x                                                              -- lines 38-39
  pure (a, (sg, o))                                                                      -- line 40

/-- `FSUReLU.forward` on tensors, `kernel/relu.py:33-40`. -/
def reluT (depth : ℤ) (acc : Tensor ℚ) (x : Tensor ℤ) : Except PyErr (Tensor ℚ × Tensor ℤ) := do
  let fl := map1 (fun a : ℚ => (ind (a ≥ accHalf depth) : ℤ)) acc                        -- line 35
  let o ← map2 (fun v f => Int.lor v (1 - f)) x fl                                       -- line 37
  let a ← map2 (fun (a : ℚ) (o : ℤ) => clamp 0 (accMax depth) (a + ((o : ℚ) * 2 - 1))) acc o  -- line 39
  pure (a, o)                                                                            -- line 40

/-- `JKFF.forward` on tensors, `kernel/jkff.py:19-31`. -/
def jkT (q : Tensor ℤ) (i : Tensor ℚ × Tensor ℚ) : Except PyErr (Tensor ℤ × Tensor ℤ) := do
  let j0 : Tensor ℤ := map1 (fun v : ℚ => ind (v = 0)) i.1                               -- line 20
  let j1 := map1 (fun v : ℤ => 1 - v) j0
  let k0 : Tensor ℤ := map1 (fun v : ℚ => ind (v = 0)) i.2                               -- line 22
  let k1 := map1 (fun v : ℤ => 1 - v) k0
  let j0k0 ← map2 Int.land j0 k0                                                         -- lines 25-28
  let j1k0 ← map2 Int.land j1 k0
  let j0k1 ← map2 Int.land j0 k1
  let j1k1 ← map2 Int.land j1 k1
  let onesJ : Tensor ℤ := map1 (fun _ => 1) i.1
  let zerosJ : Tensor ℤ := map1 (fun _ => 0) i.1
  let a ← map2 (· * ·) j0k0 q                                                            -- line 30
  let b ← map2 (· * ·) j1k0 onesJ
  let c ← map2 (· + ·) a b
  let d ← map2 (· * ·) j0k1 zerosJ
  let e ← map2 (· + ·) c d
  let f ← map2 (· * ·) j1k1 (map1 (fun v : ℤ => 1 - v) q)
  let g ← map2 (· + ·) e f
  pure (g, g)                                                                            -- line 31

/-- `SkewedSync.forward` on tensors, `stream/shuffle.py:32-42`; result `(out_1, in_2)`. -/
def ssT (depth : ℕ) (cnt : Tensor ℤ) (i : Tensor ℤ × Tensor ℤ) : Except PyErr (Tensor ℤ × (Tensor ℤ × Tensor ℤ)) := do
  let upper : ℤ := 2 ^ depth - 1
  let sum ← map2 (· + ·) i.1 i.2                                                         -- line 34
  let cnt : Tensor ℤ := if cnt.shape ≠ sum.shape then map1 (fun _ => 0) sum else cnt     -- lines 35-36
  let notMin : Tensor ℤ := map1 (fun c : ℤ => ind (c ≠ 0)) cnt                           -- line 37
  let notMax : Tensor ℤ := map1 (fun c : ℤ => ind (c ≠ upper)) cnt                       -- line 38
  let inv := map1 (fun v : ℤ => 1 - v) i.1
  let p ← map2 (· * ·) notMin inv                                                        -- line 40
  let r ← map2 (· * ·) (map1 (fun v : ℤ => 0 - v) notMax) i.1
  let pr ← map2 (· + ·) p r
  let eq1 : Tensor ℤ := map1 (fun v : ℤ => ind (v = 1)) sum
  let m ← map2In (· * ·) eq1 pr
  let out ← map2 (· + ·) i.1 m
  let dir := map1 (fun v : ℤ => v * 2 - 1) i.1                                           -- line 41
  let upd ← map2In (· * ·) eq1 dir
  let cnt' ← map2In (fun c u : ℤ => clamp 0 upper (c + u)) cnt upd
  pure (cnt', (out, i.2))                                                                -- line 42

/-- `BSGen.forward` on tensors, `stream/gen.py:174-175`: `binary` and `cycle` are broadcast. -/
def bsGenT (rng : List ℤ) (binary cycle : Tensor ℤ) : Except PyErr (Tensor ℤ) := map2 (Gen.bsGen rng) binary cycle

/-- Index registers of the static `FSUMul`, `kernel/mul.py:62,67`. -/
structure MulSt where
  idx : Tensor ℤ
  idxInv : Tensor ℤ

/-- Static `FSUMul.forward` on tensors, `kernel/mul.py:79-92`; `binary` has the shape of `in_1_prob`. -/
def mulT (mode : Mode) (rng : List ℤ) (binary : Tensor ℤ) (s : MulSt) (x : Tensor ℤ) : Except PyErr (MulSt × Tensor ℤ) := do
  let b ← bsGenT rng binary s.idx
  let path ← map2 Int.land x b                                                           -- line 81
  let idx ← map2 (· + ·) s.idx x                                                         -- line 83
  match mode with
  | .unipolar => pure (⟨idx, s.idxInv⟩, path)                                            -- lines 85-86
  | .bipolar => do
      let bi ← bsGenT rng binary s.idxInv
      let pathInv ← map2 Int.land (map1 (fun v : ℤ => 1 - v) x) (map1 (fun v : ℤ => 1 - v) bi)  -- line 89
      let idxInv ← map2 (· + ·) s.idxInv (map1 (fun v : ℤ => 1 - v) x)                   -- line 91
      let o ← map2 Int.lor path pathInv
      pure (⟨idx, idxInv⟩, o)                                                            -- line 92

/-- Position, counted from the last dimension, of dimension `d` of a tensor of rank `r`; `IndexError` otherwise.  (A scalar
tensor, for which PyTorch accepts the dimensions `0` and `-1`, is left out.) -/
def dimPos (d : ℤ) (r : ℕ) : Except PyErr ℕ :=
  if 0 ≤ d ∧ d < r then .ok (r - 1 - d).toNat else if -r ≤ d ∧ d < 0 then .ok (-d - 1).toNat else .error .index

/-- The entries of `x` along position `k` for index `i` of the remaining dimensions. -/
def along (x : Tensor ℤ) (k : ℕ) (i : List ℕ) : List ℚ :=
  (List.range (x.shape.getD k 0)).map fun j => (x.at' (i.insertIdx k j) : ℚ)

/-- `torch.sum(x, dim)`. -/
def sumDim (x : Tensor ℤ) (k : ℕ) : Tensor ℚ := ⟨x.shape.eraseIdx k, fun i => (along x k i).sum⟩

/-- `FSUAdd` state on tensors, `kernel/add.py:44,54-59`: everything but the accumulator has one element. -/
structure AddSt where
  first : Bool
  entry : Option ℚ
  scaleCarry : ℚ
  offset : ℚ
  acc : Tensor ℚ

/-- `FSUAdd.__init__`, `kernel/add.py:54-59`. -/
def addInit (cfg : Adder.Cfg) : AddSt := ⟨true, cfg.entry, 1, 0, one 0⟩

/-- The configuration part of a call without run-time arguments; `n` is the size of the summed dimension, `kernel/add.py:62-93`. -/
def addConfigure (cfg : Adder.Cfg) (s : AddSt) (n : ℕ) : AddSt :=
  if s.first then                                                                        -- line 62
    let entry : ℚ := match s.entry with                                                  -- lines 67-73
      | none => n
      | some e => e
    let sc : ℚ := match cfg.scale with                                                   -- lines 80-85
      | none => entry
      | some c => c
    let off : ℚ := match cfg.mode with                                                   -- lines 87-88
      | .bipolar => (entry - sc) / 2
      | .unipolar => s.offset
    ⟨false, some entry, sc, off, s.acc⟩
  else s

/-- `FSUAdd.forward` on tensors with summed dimension `dima`, `kernel/add.py:61-99`. -/
def addT (cfg : Adder.Cfg) (dima : ℤ) (s : AddSt) (x : Tensor ℤ) : Except PyErr (AddSt × Tensor ℤ) := do
  let k ← dimPos dima x.shape.length
  let s := addConfigure cfg s (x.shape.getD k 0)
  let b := accBound cfg.depth
  let delta ← map2 (fun v o : ℚ => v - o) (sumDim x k) (one s.offset)                    -- line 95
  let a ← map2 (fun a v : ℚ => clamp (-b) b (a + v)) s.acc delta                         -- line 96
  let o ← map2 (fun a c : ℚ => (ind (a ≥ c) : ℤ)) a (one s.scaleCarry)                   -- line 97
  let oc ← map2 (fun (o : ℤ) (c : ℚ) => (o : ℚ) * c) o (one s.scaleCarry)
  let a' ← map2In (fun a v : ℚ => clamp (-b) b (a - v)) a oc                             -- line 98
  pure ({ s with acc := a' }, o)                                                         -- line 99

/-! ## Shift register, in-stream multiplication, division -/

/-- `ShiftReg` state: `first` and the register; the register of shape `[entry] + row` is a tensor of lists. `kernel/shiftreg.py:26-27`. -/
structure SrSt where
  first : Bool
  cells : Tensor (List ℤ)

/-- `ShiftReg.__init__`, `kernel/shiftreg.py:26-27`: the register has shape `[entry]`. -/
def srInitT (entry : ℕ) : SrSt := ⟨true, ⟨[], fun _ => srInit entry⟩⟩

/-- `ShiftReg_forward` on tensors, `kernel/shiftreg.py:29-53`.  (PyTorch also accepts in lines 45 and 50 an input with additional leading
dimensions of size one; here it is refused.) -/
def srT (entry : ℕ) (s : SrSt) (input : Tensor ℤ) (mask : Option (Tensor ℤ)) (index : ℕ) :
    Except PyErr (SrSt × (Tensor ℤ × Tensor ℤ)) := do
  let cells : Tensor (List ℤ) := if s.first then map1 (fun _ => srInit entry) input else s.cells   -- lines 30-36
  if entry ≤ index then .error .index else
  let out := map1 (fun l : List ℤ => l.getD index 0) cells                               -- line 40
  let cnt := map1 (fun l : List ℤ => l.sum) cells                                        -- line 42
  let shifted ← map2In (fun (l : List ℤ) (v : ℤ) => (l.rotate 1).set (l.length - 1) v) cells input  -- lines 44-45, 49-50
  match mask with
  | none => pure (⟨false, shifted⟩, (out, cnt))
  | some m =>
      if m.shape ≠ input.shape then .error .assertion else do                            -- line 47
      let a ← map2 (fun (m : ℤ) (l : List ℤ) => l.map (m * ·)) m shifted                 -- line 52
      let b ← map2 (fun (m : ℤ) (l : List ℤ) => l.map ((1 - m) * ·)) m cells
      let c ← map2 (fun l l' : List ℤ => List.zipWith (· + ·) l l') a b
      pure (⟨false, c⟩, (out, cnt))                                                      -- line 53

/-- State of the in-stream `FSUMul`, `kernel/mul.py:73-76`. -/
structure MulStreamSt where
  idx : Tensor ℤ
  idxInv : Tensor ℤ
  sr : SrSt

/-- `FSUMul.__init__` without static operand, `kernel/mul.py:69-76`. -/
def mulStreamInit (width : ℕ) : MulStreamSt := ⟨one 0, one 0, srInitT (2 ^ width)⟩

/-- In-stream `FSUMul.forward` on tensors, `kernel/mul.py:94-105`. -/
def mulStreamT (mode : Mode) (width : ℕ) (rng : List ℤ) (s : MulStreamSt) (i : Tensor ℤ × Tensor ℤ) : Except PyErr (MulStreamSt × Tensor ℤ) := do
  let (sr, (_, source)) ← srT (2 ^ width) s.sr i.2 none 0                                -- line 94
  let g ← map2 (fun a b : ℤ => (ind (a > b) : ℤ)) source (map1 (Multiplier.rngAt rng) s.idx)
  let path ← map2 Int.land i.1 g                                                         -- line 95
  let idx ← map2 (fun a v : ℤ => (a + v) % (2 ^ width)) s.idx i.1                        -- line 96
  match mode with
  | .unipolar => pure (⟨idx, s.idxInv, sr⟩, path)                                        -- lines 98-99
  | .bipolar => do
      let gi ← map2 (fun a b : ℤ => (ind (a > b) : ℤ)) source (map1 (Multiplier.rngAt rng) s.idxInv)
      let pathInv ← map2 Int.land (map1 (fun v : ℤ => 1 - v) i.1) (map1 (fun v : ℤ => 1 - v) gi)  -- line 102
      let idxInv ← map2 (fun a v : ℤ => (a + v) % (2 ^ width)) s.idxInv (map1 (fun v : ℤ => 1 - v) i.1)  -- line 104
      let o ← map2 Int.lor path pathInv
      pure (⟨idx, idxInv, sr⟩, o)                                                        -- line 105

/-- `Tensor.view(sh)` of a tensor that differs from `sh` at most by leading dimensions of size one.  In `kernel/div.py:54` the operand
is a broadcast of the dividend, so the sizes agree only in this case. -/
def viewT {α : Type} (x : Tensor α) (sh : List ℕ) : Except PyErr (Tensor α) :=
  if x.shape = sh ++ List.replicate (x.shape.length - sh.length) 1 then
    .ok ⟨sh, fun i => x.at' (i ++ List.replicate (x.shape.length - sh.length) 0)⟩
  else .error .runtime

/-- `CORDIV_kernel` state, `kernel/div.py:33,43,45`. -/
structure CorSt where
  sr : SrSt
  idx : ℕ
  historicQ : Tensor ℤ

/-- `CORDIV_kernel.__init__`, `kernel/div.py:32-45`. -/
def corInitT (entry : ℕ) : CorSt := ⟨srInitT entry, 0, one 1⟩

/-- `CORDIV_kernel.forward` on tensors, `kernel/div.py:47-59`.  Indexing the register with the one-element index of line 51 gives a
leading dimension of size one, which line 54 removes. -/
def corT (entry : ℕ) (rng : List ℤ) (s : CorSt) (i : Tensor ℤ × Tensor ℤ) : Except PyErr (CorSt × Tensor ℤ) := do
  let eq1 : Tensor ℤ := map1 (fun v : ℤ => ind (v = 1)) i.2                              -- line 50
  match rng[s.idx % entry]? with                                                         -- line 51
  | none => .error .index
  | some r =>
    if entry ≤ r.toNat then .error .index else do
    let hq : Tensor ℤ := ⟨s.sr.cells.shape ++ [1], fun j => (s.sr.cells.at' (j.take s.sr.cells.shape.length)).getD r.toNat 0⟩
    let a ← map2 (· * ·) eq1 i.1                                                         -- line 54
    let b ← map2 (· * ·) (map1 (fun v : ℤ => 1 - v) eq1) hq
    let c ← map2 (· + ·) a b
    let q ← viewT c i.1.shape
    let (sr, _) ← srT entry s.sr q (some eq1) 0                                          -- line 57
    pure (⟨sr, s.idx + 1, hq⟩, q)                                                        -- lines 52,59

/-- `FSUDiv` state, `kernel/div.py:106-131`. -/
structure DivSt where
  accDividend : Tensor ℚ
  accDivisor : Tensor ℚ
  b2uDividend : Tensor ℚ
  b2uDivisor : Tensor ℚ
  u2b : Tensor ℚ
  ss : Tensor ℤ
  cor : CorSt

/-- `FSUDiv.__init__`, `kernel/div.py:106-131`. -/
def divInit (depthSa : ℤ) (entryKn : ℕ) : DivSt :=
  ⟨one (accHalf depthSa), one (accHalf depthSa), one 0, one 0, one 0, one 0, corInitT entryKn⟩

/-- `FSUDiv.unipolar_forward` on tensors, `kernel/div.py:143-146`. -/
def divUniT (depthSs entryKn : ℕ) (rng : List ℤ) (s : DivSt) (i : Tensor ℤ × Tensor ℤ) : Except PyErr (DivSt × Tensor ℤ) := do
  let (ss, o) ← ssT depthSs s.ss i                                                       -- line 144
  let (cor, q) ← corT entryKn rng s.cor o                                                -- line 145
  pure ({ s with ss := ss, cor := cor }, q)

/-- `FSUDiv.forward` on tensors, `kernel/div.py:133-153`. -/
def divT (mode : Mode) (depthSa : ℤ) (depthSs entryKn : ℕ) (rng : List ℤ) (s : DivSt) (i : Tensor ℤ × Tensor ℤ) :
    Except PyErr (DivSt × Tensor ℤ) :=
  match mode with
  | .unipolar => divUniT depthSs entryKn rng s i
  | .bipolar => do
      let (a1, (sg1, ab1)) ← signAbsT depthSa s.accDividend i.1                          -- line 134
      let (a2, (sg2, ab2)) ← signAbsT depthSa s.accDivisor i.2                           -- line 135
      let (b1, u1) ← bi2uniT 3 s.b2uDividend ab1                                         -- line 136
      let (b2, u2) ← bi2uniT 3 s.b2uDivisor ab2                                          -- line 137
      let (s', q) ← divUniT depthSs entryKn rng
        { s with accDividend := a1, accDivisor := a2, b2uDividend := b1, b2uDivisor := b2 } (u1, u2)  -- line 138
      let (u, bq) ← uni2biT 4 s'.u2b q                                                   -- line 139
      let g ← map2 Int.xor sg1 sg2                                                       -- line 140
      let o ← map2 Int.xor g bq
      pure ({ s' with u2b := u }, o)                                                     -- line 141

/-! ## Square root -/

/-- `torch.stack([x, y], dim=0)`: both operands need the same shape. -/
def stackT (x y : Tensor ℤ) : Except PyErr (Tensor ℤ) :=
  if x.shape = y.shape then
    .ok ⟨x.shape ++ [2], fun j => if j.getD x.shape.length 0 = 0 then x.at' (j.take x.shape.length) else y.at' (j.take x.shape.length)⟩
  else .error .runtime

/-- `FSUSqrt` state on tensors, `kernel/sqrt.py:59-127`; the parts unused by a configuration keep their initial value. -/
structure SqrtSt where
  emitOut : Tensor ℤ
  nsadd : AddSt
  sr : SrSt
  idx : ℕ
  b2u : Tensor ℚ
  trace : Tensor ℤ
  jk : Tensor ℤ
  cor : CorSt
  dff : Tensor ℤ

/-- `FSUSqrt.__init__`, `kernel/sqrt.py:59-127`. -/
def sqrtInit (cfg : Sqrt.Cfg) : SqrtSt :=
  { emitOut := one 0, nsadd := addInit Sqrt.addCfg, sr := srInitT cfg.entrySr, idx := 0, b2u := one 0, trace := one 0, jk := one 0,
    cor := corInitT 4, dff := one 0 }

/-- `unipolar_trace` on tensors, `kernel/sqrt.py:135-153`. -/
def unipolarTraceT (cfg : Sqrt.Cfg) (rng : List ℤ) (s : SqrtSt) (output : Tensor ℤ) : Except PyErr (SqrtSt × Tensor ℤ) :=
  if cfg.jkTrace then do                                                                 -- lines 137-139
    let (q, t) ← jkT s.jk (map1 (fun v : ℤ => (v : ℚ)) output, map1 (fun _ => (1 : ℚ)) output)
    pure ({ s with jk := q }, t)
  else do                                                                                -- lines 140-152
    let dividend ← map2 Int.land (map1 (fun v : ℤ => 1 - v) s.dff) output
    let divisor ← map2 (· + ·) s.dff dividend
    let (cor, t) ← corT 4 rng s.cor (dividend, divisor)
    pure ({ s with cor := cor, dff := map1 (fun v : ℤ => 1 - v) s.dff }, t)

/-- `bipolar_trace` on tensors, `kernel/sqrt.py:129-133`. -/
def bipolarTraceT (cfg : Sqrt.Cfg) (rng : List ℤ) (s : SqrtSt) (output : Tensor ℤ) : Except PyErr (SqrtSt × Tensor ℤ) := do
  let (b, out) ← bi2uniT 3 s.b2u output
  unipolarTraceT cfg rng { s with b2u := b } out

/-- `unipolar_emit` on tensors, `kernel/sqrt.py:155-159`. -/
def unipolarEmitT (cfg : Sqrt.Cfg) (s : SqrtSt) (output : Tensor ℤ) : Except PyErr (SqrtSt × Tensor ℤ) := do
  let (sr, (scrambled, _)) ← srT cfg.entrySr s.sr (map1 (fun v : ℤ => 1 - v) output) none (s.idx % cfg.entrySr)
  let e ← map2 Int.land scrambled output
  pure ({ s with sr := sr }, e)

/-- `bipolar_emit` on tensors, `kernel/sqrt.py:161-166`. -/
def bipolarEmitT (cfg : Sqrt.Cfg) (s : SqrtSt) (output : Tensor ℤ) : Except PyErr (SqrtSt × Tensor ℤ) := do
  let (sr, (scrambled, _)) ← srT cfg.entrySr s.sr (map1 (fun v : ℤ => 1 - v) output) none (s.idx % cfg.entrySr)
  let (b, uni) ← bi2uniT 3 s.b2u output
  let e ← map2 Int.land scrambled uni
  pure ({ s with sr := sr, b2u := b }, e)

/-- `FSUSqrt.forward` on tensors, `kernel/sqrt.py:168-184`. -/
def sqrtT (cfg : Sqrt.Cfg) (rng : List ℤ) (s : SqrtSt) (input : Tensor ℤ) : Except PyErr (SqrtSt × Tensor ℤ) :=
  if cfg.emit then do
    let prev : Tensor ℤ := if s.emitOut.shape ≠ input.shape then map1 (fun _ => 0) input else s.emitOut  -- lines 170-171
    let stack ← stackT input prev                                                        -- line 172
    let (add, output) ← addT Sqrt.addCfg 0 s.nsadd stack                                 -- line 173
    let (s2, e) ← match cfg.mode with                                                    -- lines 174-177
      | .bipolar => bipolarEmitT cfg { s with nsadd := add } output
      | .unipolar => unipolarEmitT cfg { s with nsadd := add } output
    pure ({ s2 with emitOut := e }, output)
  else do
    let m ← map2 Int.land (map1 (fun v : ℤ => 1 - v) s.trace) input                      -- line 179
    let output ← map2 (· + ·) m s.trace
    let (s2, t) ← match cfg.mode with                                                    -- lines 180-183
      | .bipolar => bipolarTraceT cfg rng s output
      | .unipolar => unipolarTraceT cfg rng s output
    pure ({ s2 with trace := t }, output)

/-! ## Correlation -/

/-- `Correlation` state on tensors, `metric/metric.py:11-16`. -/
structure CorrSt where
  d : Tensor ℚ
  c : Tensor ℚ
  b : Tensor ℚ
  a : Tensor ℚ
  len : Tensor ℚ
  in1d : Tensor ℚ

/-- `Correlation.__init__`, `metric/metric.py:11-16`. -/
def corrInit : CorrSt := ⟨one 0, one 0, one 0, one 0, one 0, one 0⟩

/-- `Correlation.Monitor` on tensors, `metric/metric.py:18-30`: the counters are updated in place. -/
def monitorT (s : CorrSt) (i : Tensor ℚ × Option (Tensor ℚ)) : Except PyErr (CorrSt × Unit) := do
  let in2 := i.2.getD s.in1d                                                             -- lines 19-20
  let in1d := if i.2.isNone then i.1 else s.in1d                                         -- line 21
  let i10 : Tensor ℚ := map1 (fun v => ind (v = 0)) i.1                                  -- lines 22-25
  let i11 := map1 (fun v : ℚ => 1 - v) i10
  let i20 : Tensor ℚ := map1 (fun v => ind (v = 0)) in2
  let i21 := map1 (fun v : ℚ => 1 - v) i20
  let p00 ← map2 (· * ·) i10 i20                                                         -- lines 26-30
  let d ← map2In (· + ·) s.d p00
  let p01 ← map2 (· * ·) i10 i21
  let c ← map2In (· + ·) s.c p01
  let p10 ← map2 (· * ·) i11 i20
  let b ← map2In (· + ·) s.b p10
  let p11 ← map2 (· * ·) i11 i21
  let a ← map2In (· + ·) s.a p11
  pure (⟨d, c, b, a, map1 (fun v : ℚ => v + 1) s.len, in1d⟩, ())

end Verif.Tens
