import Verif.Model.ShareProg

/-!
# Tensor operations of the layers and cells

Every tensor operation of the forward passes, in order, with what it reads, what it writes and what it
makes.  Operations are numbered in the order of the code; what each computes, and whether one that may
copy does, is left open.  Operations that change only sizes in place (`squeeze_`, `unsqueeze_`) do not appear.  What
`save_for_backward` keeps is not modelled, nor are calls that raise.
-/

namespace Verif.Share

/-! ## Writing down operations -/

/-- The number of the next tensor, the number of the next operation, the operations so far. -/
abbrev Build := StateM (ℕ × ℕ × List Ins)

/-- An operation that makes a tensor. -/
def make (srcs : List ℕ) : Build ℕ := fun s => (s.1, s.1 + 1, s.2.1 + 1, s.2.2 ++ [.new s.2.1 srcs])

/-- Another object on the same storage. -/
def look (src : ℕ) : Build ℕ := fun s => (s.1, s.1 + 1, s.2.1, s.2.2 ++ [.view src])

/-- An operation that may or may not copy. -/
def like (src : ℕ) : Build ℕ := fun s => (s.1, s.1 + 1, s.2.1 + 1, s.2.2 ++ [.like s.2.1 src])

/-- An operation in place. -/
def put (dst : ℕ) (srcs : List ℕ) : Build Unit := fun s => ((), s.1, s.2.1 + 1, s.2.2 ++ [.write dst s.2.1 srcs])

/-- `p.data = t`. -/
def give (dst src : ℕ) : Build Unit := fun s => ((), s.1, s.2.1, s.2.2 ++ [.assign dst src])

/-- The operations of a call with `k` parameters and `n` arguments. -/
def Build.ops (k n : ℕ) (b : Build (List ℕ)) : List Ins × List ℕ :=
  let r := b (k + n, 0, [])
  (r.2.2.2, r.1)

/-- The same with a part repeated `m` times; the part makes no tensors. -/
def Build.loop {α : Type} (k n m : ℕ) (pre : Build α) (body : α → Build Unit) (post : α → Build (List ℕ)) :
    List Ins × List ℕ :=
  let a := pre (k + n, 0, [])
  let b := body a.1 (a.2.1, a.2.2.1, [])
  let c := post a.1 (b.2.1, b.2.2.1, [])
  (a.2.2.2 ++ (List.replicate m b.2.2.2).flatten ++ c.2.2.2, c.1)

/-- A call with one tensor argument. -/
def oneArg {L τ : Type} (k : ℕ) (next : L → τ → L) (b : L → τ → ℕ → Build ℕ) : Prog L τ := fun l t n =>
  match n with
  | 1 => (next l t, Build.ops k 1 (do return [← b l t k]))
  | _ => (l, [], [])

/-- A call with two tensor arguments. -/
def twoArgs {L τ : Type} (k : ℕ) (next : L → τ → L) (b : L → τ → ℕ → ℕ → Build ℕ) : Prog L τ := fun l t n =>
  match n with
  | 2 => (next l t, Build.ops k 2 (do return [← b l t k (k + 1)]))
  | _ => (l, [], [])

/-! ## The streaming layers -/

/-- `BSGen.forward`, `stream/gen.py:174-175`; indexing with a tensor copies. -/
def bitsOps (binary rng cycle : ℕ) : Build ℕ := do
  let c ← like cycle
  let c ← make [c]
  let r ← make [rng, c]
  let g ← make [binary, r]
  like g

/-- The tensors of `FSULinearPC` and `FSUConv2dPC`: weight (the object the generators were given), its
numbers, the two counters, bias, its numbers and its counter. -/
structure PCTensors where
  weight : ℕ
  wrng : ℕ
  wrdx1 : ℕ
  wrdx0 : ℕ
  bias : ℕ
  brng : ℕ
  brdx : ℕ

/-- Options that decide which operations happen. -/
structure PCOptions where
  bipolar : Bool
  wtc : Bool
  hasBias : Bool

/-- `torch.empty`, `transpose`, `matmul(out=)`: `kernel/linear.py:204-206`, `:225-227`, `:260-262`. -/
def pcMul (ibit wbit : ℕ) : Build ℕ := do
  let o ← make []
  let w ← look wbit
  put o [ibit, w]
  return o

/-- The copies for each element of the batch, `kernel/linear.py:198-200`: the counter is replaced. -/
def pcGrow (grow : Bool) (wrdx wbit : ℕ) : Build ℕ := do
  if grow then
    let w ← make [wbit]
    let d ← make [wrdx]
    give wrdx d
    return w
  else
    return wbit

/-- The bias, `kernel/linear.py:208-211`. -/
def pcBias (hasBias : Bool) (T : PCTensors) (o : ℕ) : Build Unit := do
  if hasBias then
    let b ← bitsOps T.bias T.brng T.brdx
    let b ← like b
    put T.brdx [T.brdx]
    let b ← look b
    let b ← look b
    put o [o, b]

/-- `FSULinear_PC_wrc`, `FSULinear_PC_wtc` and `forward` of `FSULinearPC`, `kernel/linear.py:193-273`.
`grow`: the batch of the counters differs from that of the input. -/
def linearPC (c : PCOptions) (grow : Bool) (T : PCTensors) (x : ℕ) : Build ℕ := do
  let w ← bitsOps T.weight T.wrng T.wrdx1                                   -- line 197
  let w ← like w
  let w ← pcGrow grow T.wrdx1 w                                       -- lines 198-200
  if c.wtc then                                                                   -- line 241
    let u ← make [x]
    let u ← look u
    let u ← like u
    put T.wrdx1 [T.wrdx1, u]
  else                                                                            -- line 201
    let u ← look x
    let u ← like u
    put T.wrdx1 [T.wrdx1, u]
  let i ← look x                                                                  -- line 203
  let i ← like i
  let o ← pcMul i w
  pcBias c.hasBias T o
  if c.bipolar then
    let w0 ← if c.wtc then make [w] else do                               -- line 258
      let b ← bitsOps T.weight T.wrng T.wrdx0         -- line 218
      let b ← like b
      let b ← make [b]
      let b ← pcGrow grow T.wrdx0 b                                  -- lines 219-221
      let u ← look x                                                              -- line 222
      let u ← like u
      let u ← make [u]
      put T.wrdx0 [T.wrdx0, u]
      return b
    let i0 ← make [i]                                                      -- lines 224, 259
    let o0 ← pcMul i0 w0
    let r ← make [o, o0]                                                   -- lines 229, 264
    like r
  else
    like o

/-- The batch of the counters after a call, `kernel/linear.py:198-200`. -/
def nextBatch (l t : ℕ) : ℕ := if l = t then l else t * l

/-- `FSULinearPC`: the parameters are numbers 0 to 6; what is kept besides is the batch of the counters,
and a call is given with the batch of its input. -/
def linearPCProg (c : PCOptions) : Prog ℕ ℕ :=
  oneArg 7 nextBatch fun l t x => linearPC c (l != t) ⟨0, 1, 2, 3, 4, 5, 6⟩ x

/-- The parameters of `FSUAdd`. -/
structure AddTensors where
  scale : ℕ
  offset : ℕ
  acc : ℕ

/-- `FSUAdd.forward`, `kernel/add.py:61-99`. -/
def addOps (bipolar first : Bool) (T : AddTensors) (x : ℕ) : Build ℕ := do
  if first then
    put T.scale []                                                          -- lines 75-85
    if bipolar then                                                               -- lines 87-88
      let t ← make [T.scale]
      let t ← make [t]
      give T.offset t
  let s ← like x                                                     -- line 95
  let s ← make [s]
  let s ← make [s, T.offset]
  let a ← make [T.acc, s]                                                   -- line 96
  let a ← make [a]
  give T.acc a
  let o ← make [T.acc, T.scale]                                             -- line 97
  let o ← like o
  let m ← make [o, T.scale]                                                -- line 98
  put T.acc [T.acc, m]
  put T.acc [T.acc]
  like o                                                            -- line 99

/-- `FSUAdd` alone; kept besides: whether a call was made. -/
def addProg {τ : Type} (bipolar : Bool) : Prog Bool τ :=
  oneArg 3 (fun _ _ => false) fun l _ x => addOps bipolar l ⟨0, 1, 2⟩ x

/-- `FSULinear.forward`, `kernel/linear.py:95-99`: the count, `unsqueeze`, the adder. -/
def linearOps (c : PCOptions) (grow first : Bool) (T : PCTensors) (A : AddTensors)
    (x : ℕ) : Build ℕ := do
  let p ← linearPC c grow T x
  let p ← look p
  addOps c.bipolar first A p

/-- `FSULinear`; kept besides: the batch of the counters and whether the adder has not been called. -/
def linearProg (c : PCOptions) : Prog (ℕ × Bool) ℕ :=
  oneArg 10 (fun l t => (nextBatch l.1 t, false)) fun l t x =>
    linearOps c (l.1 != t) l.2 ⟨0, 1, 2, 3, 4, 5, 6⟩ ⟨7, 8, 9⟩ x

/-- `reshape`, `transpose`, `fold` of a count, `kernel/conv.py:250-252`. -/
def foldOps (o : ℕ) : Build ℕ := do
  let o ← like o
  let o ← look o
  make [o]

/-- `FSUConv2d_PC_wrc`, `FSUConv2d_PC_wtc` and `forward` of `FSUConv2dPC`, `kernel/conv.py:219-343`.
`flag`, `mode`: the parity of the cycle and the mode, both tensors.  Which padding is chosen is part of what
the operation computes. -/
def convPC (c : PCOptions) (grow : Bool) (T : PCTensors) (flag mode : ℕ) (x : ℕ) :
    Build ℕ := do
  let p ← make [x, flag]                                                   -- lines 222-225
  let f ← make [mode, flag]                                                -- line 228
  give flag f
  let p ← make [p]                                                         -- line 231
  let p ← look p
  let x ← like p                                                   -- line 233
  let w ← bitsOps T.weight T.wrng T.wrdx1                                   -- line 239
  let w ← like w
  let w ← pcGrow grow T.wrdx1 w                                       -- lines 240-242
  if c.wtc then                                                                   -- line 305
    let u ← make [x]
    let u ← like u
    put T.wrdx1 [T.wrdx1, u]
  else                                                                            -- line 243
    let u ← like x
    put T.wrdx1 [T.wrdx1, u]
  let i ← like x                                                    -- line 245
  let o ← pcMul i w
  let o ← foldOps o                                   -- lines 250-252
  pcBias c.hasBias T o
  if c.bipolar then
    let w0 ← if c.wtc then make [w] else do
      let b ← bitsOps T.weight T.wrng T.wrdx0
      let b ← like b
      let b ← make [b]
      let b ← pcGrow grow T.wrdx0 b
      let u ← like x
      let u ← make [u]
      put T.wrdx0 [T.wrdx0, u]
      return b
    let i0 ← make [i]
    let o0 ← pcMul i0 w0
    let o0 ← foldOps o0
    let r ← make [o, o0]
    like r
  else
    like o

/-- `FSUConv2dPC`: parameters 0 to 6 as before, 7 the parity, 8 the mode.  A call is given with the number
of rows its input unfolds to. -/
def convPCProg (c : PCOptions) : Prog ℕ ℕ :=
  oneArg 9 nextBatch fun l t x => convPC c (l != t) ⟨0, 1, 2, 3, 4, 5, 6⟩ 7 8 x

/-- `FSUConv2d`, `kernel/conv.py:98-102`. -/
def convProg (c : PCOptions) : Prog (ℕ × Bool) ℕ :=
  oneArg 12 (fun l t => (nextBatch l.1 t, false)) fun l t x => do
    let p ← convPC c (l.1 != t) ⟨0, 1, 2, 3, 4, 5, 6⟩ 7 8 x
    let p ← look p
    addOps c.bipolar l.2 ⟨9, 10, 11⟩ p

/-! ## The hybrid and the fixed-point layers -/

/-- `out += bias.unsqueeze(0).expand_as(out)`, `kernel/linear.py:478-479`. -/
def addBias (bias : Option ℕ) (o : ℕ) : Build Unit := do
  match bias with
  | some b =>
    let b ← look b
    let b ← look b
    put o [o, b]
  | none => return ()

/-- `HUBLinearFunction.forward`, `kernel/linear.py:431-480`.  `ri`, `rw`, `ro`: the shifts. -/
def hubFun (x w map : ℕ) (bias : Option ℕ) (ri rw ro : ℕ) : Build ℕ := do
  let i ← make []                                                           -- line 446
  let t ← make [x, ri]                                                      -- line 447
  let t ← make [t]
  let t ← like t
  put i [t]
  put i [i]                                                                 -- line 448
  let a ← make []                                                           -- line 451
  put a [x]                                                                 -- line 452
  let v ← make []                                                           -- line 459
  let t ← make [w, rw]                                                      -- line 460
  let t ← make [t]
  let t ← like t
  put v [t]
  put v [v]                                                                -- line 461
  let b ← make []                                                          -- line 462
  put b [v]                                                                -- line 463
  let s ← make []                                                          -- line 466
  put s [w]                                                                -- line 467
  let aw ← make []                                                         -- line 469
  put aw [s]                                                               -- line 470
  let m ← make [map, i, b]                                                 -- line 471
  put aw [m, aw]
  let o ← make []                                                          -- line 473
  let t ← look aw                                                                 -- line 474
  put o [a, t]
  let o ← make [o, ro]                                                     -- line 476
  addBias bias o
  return o

/-- `FXPLinearFunction.forward`, `kernel/linear.py:572-606`. -/
def fxpFun (x w : ℕ) (bias : Option ℕ) (ri rw ro : ℕ) : Build ℕ := do
  let i ← make []                                                           -- line 586
  let t ← make [x, ri]                                                      -- line 587
  put i [t]
  put i [i]                                                                 -- line 588
  let v ← make []                                                           -- line 596
  let t ← make [w, rw]                                                      -- line 597
  put v [t]
  put v [v]                                                                 -- line 598
  let o ← make []                                                           -- line 600
  let t ← look v                                                                  -- line 601
  put o [i, t]
  let o ← make [o, ro]                                                     -- line 602
  addBias bias o
  return o

/-- `rshift_offset`, `kernel/utils.py:209-242`: three new tensors. -/
def shiftOps (x w : ℕ) : Build (ℕ × ℕ × ℕ) := do
  let i ← make [x]
  let v ← make [w]
  let ri ← make [i]
  let rw ← make [v]
  let ro ← make [i, v]
  return (ri, rw, ro)

/-- `HUBLinear.forward`, `kernel/linear.py:413-420`: weight 0, bias 1, map 2. -/
def hubLinearProg {L τ : Type} (hasBias : Bool) : Prog L τ :=
  oneArg 3 (fun l _ => l) fun _ _ x => do
    let r ← shiftOps x 0
    hubFun x 0 2 (if hasBias then some 1 else none) r.1 r.2.1 r.2.2

/-- `FXPLinear.forward`, `kernel/linear.py:557-563`: weight 0, bias 1. -/
def fxpLinearProg {L τ : Type} (hasBias : Bool) : Prog L τ :=
  oneArg 2 (fun l _ => l) fun _ _ x => do
    let r ← shiftOps x 0
    let ro ← make [r.1, r.2.1]
    fxpFun x 0 (if hasBias then some 1 else none) r.1 r.2.1 ro

/-- `unfold`, `transpose`, `reshape` of the input and `view` of the weight, `kernel/conv.py:506-510`. -/
def unfoldOps (x w : ℕ) : Build (ℕ × ℕ) := do
  let u ← make [x]
  let u ← look u
  let u ← like u
  let v ← look w
  return (u, v)

/-- `fold` and the bias, `kernel/conv.py:512-519`: `output + bias` makes a tensor. -/
def foldBias (bias : Option ℕ) (o : ℕ) : Build ℕ := do
  let o ← foldOps o
  match bias with
  | some b =>
    let b ← look b
    make [o, b]
  | none => return o

/-- `HUBConv2d.forward`, `kernel/conv.py:497-519`. -/
def hubConvProg {L τ : Type} (hasBias : Bool) : Prog L τ :=
  oneArg 3 (fun l _ => l) fun _ _ x => do
    let r ← shiftOps x 0
    let u ← unfoldOps x 0
    let o ← hubFun u.1 u.2 2 none r.1 r.2.1 r.2.2
    foldBias (if hasBias then some 1 else none) o

/-- `FXPConv2d.forward`, `kernel/conv.py:585-609`. -/
def fxpConvProg {L τ : Type} (hasBias : Bool) : Prog L τ :=
  oneArg 2 (fun l _ => l) fun _ _ x => do
    let r ← shiftOps x 0
    let ro ← make [r.1, r.2.1]
    let u ← unfoldOps x 0
    let o ← fxpFun u.1 u.2 none r.1 r.2.1 ro
    foldBias (if hasBias then some 1 else none) o

/-- Which of the three functions of the T-LUT layers. -/
inductive TLUTMode where
  | fxpfxp
  | fxpfp
  | fpfp

/-- What the T-LUT functions have made before the loop: the tensor split up, its fraction, the result, the
temporaries of the loop, what is multiplied with the result and the exponent. -/
structure TLUTLocals where
  val : ℕ
  frac : ℕ
  new : ℕ
  tmp1 : ℕ
  tmp2 : ℕ
  tmp3 : ℕ
  other : ℕ
  expo : ℕ

/-- Before the loop, `kernel/linear.py:776-788`, `:848-856`, `:918-932`.  `tin`: the input is split up (`temporal`).
Simplified: the temporaries of the loop, tensors made in each round, are made once and overwritten. -/
def tlutPre (mode : TLUTMode) (tin : Bool) (x w : ℕ) : Build TLUTLocals := do
  match mode with
  | .fpfp =>
    let v ← look (if tin then x else w)                                           -- detach
    let v ← make [v]                                                              -- clone
    let v ← like v
    let m ← make [v]                                                              -- frexp
    let e ← make [v]
    let f ← make [v]
    let n ← make [v]
    let m ← make [m]
    let t1 ← make []
    let t2 ← make []
    let t3 ← make []
    return ⟨m, f, n, t1, t2, t3, if tin then w else x, e⟩
  | .fxpfp =>
    let i ← look x
    let i ← make [i]
    let i ← like i
    let v ← look w
    let v ← make [v]
    let v ← like v
    let r ← shiftOps i v
    let a : ℕ := if tin then i else v
    let n ← make [a]
    let f ← make [a]
    let t ← make [a, if tin then r.1 else r.2.1]
    let t ← make [t]
    put a [t]
    let t1 ← make []
    let t2 ← make []
    let t3 ← make []
    return ⟨a, f, n, t1, t2, t3, if tin then w else x, if tin then r.1 else r.2.1⟩
  | .fxpfxp =>
    let i ← look x
    let i ← make [i]
    let i ← like i
    let v ← look w
    let v ← make [v]
    let v ← like v
    let n ← make [i]
    let n' ← make [v]
    let r ← shiftOps i v
    let t ← make [i, r.1]
    let t ← make [t]
    put i [t]
    let t ← make [v, r.2.1]
    let t ← make [t]
    put v [t]
    let f ← make [if tin then i else v]
    let t1 ← make []
    let t2 ← make []
    let t3 ← make []
    return ⟨if tin then i else v, f, if tin then n else n', t1, t2, t3, if tin then v else i,
      if tin then r.1 else r.2.1⟩

/-- One round of the loop, `kernel/linear.py:789-794`, `:799-804`, `:857-862`, `:869-874`, `:933-938`. -/
def tlutBody (l : TLUTLocals) : Build Unit := do
  put l.tmp1 [l.val]                                                              -- val >> widtht
  put l.frac [l.tmp1]                                                             -- torch.frac(out=frac)
  put l.val [l.tmp1]                                                              -- torch.trunc(out=val)
  put l.tmp1 [l.frac]                                                             -- frac << widtht
  put l.frac [l.tmp1]                                                             -- torch.clamp(out=frac)
  put l.tmp2 [l.frac]                                                             -- frac >> widtht
  put l.tmp3 [l.new]                                                              -- new >> widtht
  put l.new [l.tmp2, l.tmp3]                                                      -- torch.add(out=new)

/-- After the loop, `kernel/linear.py:795-812`, `:863-882`, `:940-953`: the two factors, the product and the bias. -/
def tlutPost (mode : TLUTMode) (tin : Bool) (bias : Option ℕ) (l : TLUTLocals) : Build ℕ := do
  let n ← make [l.new]
  let n ← (match mode with
    | .fpfp => make [n, l.expo]
    | _ => return n)
  let n ← like n
  let o ← (match mode with
    | .fxpfxp => do
      let o ← make [l.other]
      like o
    | _ => return l.other)
  let t ← look (if tin then o else n)
  let r ← make [if tin then n else o, t]
  addBias bias r
  return r

/-- `TLUTLinear.forward`, `kernel/linear.py:752-765`, with `deg` rounds: weight 0, bias 1. -/
def tlutLinearProg {L τ : Type} (mode : TLUTMode) (tin hasBias : Bool) (deg : ℕ) : Prog L τ := fun l _ n =>
  match n with
  | 1 => (l, Build.loop 2 1 deg (tlutPre mode tin 2 0) tlutBody fun s => do
      return [← tlutPost mode tin (if hasBias then some 1 else none) s])
  | _ => (l, [], [])

/-- `TLUTConv2d.forward`, `kernel/conv.py:749-779`. -/
def tlutConvProg {L τ : Type} (mode : TLUTMode) (tin hasBias : Bool) (deg : ℕ) : Prog L τ := fun l _ n =>
  match n with
  | 1 => (l, Build.loop 2 1 deg (do
        let x ← like 2                                                            -- input.type(float)
        let u ← unfoldOps x 0
        let v ← like u.1                                                          -- type(input.type())
        tlutPre mode tin v u.2) tlutBody fun s => do
      let o ← tlutPost mode tin none s
      let o ← foldBias (if hasBias then some 1 else none) o
      return [o])
  | _ => (l, [], [])

/-! ## The cells -/

/-- `HardMGUCell.forward`, `kernel/rnn.py:264-283`: weights 0 and 1, biases 2 and 3 (present or not, they are
only read).  The attributes the intermediate results are bound to are never read. -/
def mguOps (x hx : ℕ) : Build ℕ := do
  let u ← make [hx, x]
  let f ← make [u, 0, 2]
  let f ← make [f]
  let f ← make [f]
  let fh ← make [f, hx]
  let u ← make [fh, x]
  let n ← make [u, 1, 3]
  let n ← make [n]
  let m ← make [f, n]
  let m ← make [m]
  let s ← make [n, m]
  let s ← make [s, fh]
  make [s]

/-- `HardMGUCell` with or without a state given. -/
def mguProg {L τ : Type} : Prog L τ := fun l _ n =>
  match n with
  | 1 => (l, Build.ops 4 1 (do
      let h ← make []
      return [← mguOps 4 h]))
  | 2 => (l, Build.ops 4 2 (do return [← mguOps 4 5]))
  | _ => (l, [], [])

/-- `Round.forward`, `kernel/utils.py:202-206`. -/
def roundOps (x : ℕ) : Build ℕ := do
  let t ← like x
  let t ← make [t]
  like t

/-- `HardMGUCellFXP.forward`, `kernel/rnn.py:325-344`. -/
def mguFxpOps (x hx : ℕ) : Build ℕ := do
  let r : ℕ → Build ℕ := roundOps
  let u ← make [← r hx, ← r x]
  let f ← make [← r u, ← r 0, ← r 2]
  let f ← make [f]
  let f ← make [← r f]
  let fh ← make [← r f, ← r hx]
  let u ← make [← r fh, ← r x]
  let n ← make [← r u, ← r 1, ← r 3]
  let n ← make [← r n]
  let m ← make [← r f, ← r n]
  let m ← make [← r m]
  let s ← make [← r n, ← r m]
  let s ← make [s, ← r fh]
  make [s]

/-- `HardMGUCellFXP` with or without a state given. -/
def mguFxpProg {L τ : Type} : Prog L τ := fun l _ n =>
  match n with
  | 1 => (l, Build.ops 4 1 (do
      let h ← make []
      return [← mguFxpOps 4 h]))
  | 2 => (l, Build.ops 4 2 (do return [← mguFxpOps 4 5]))
  | _ => (l, [], [])

/-- `FSUMul.forward`, static and bipolar, `kernel/mul.py:78-92`, `:107-108`: source, numbers, the two
indices. -/
def mulStaticOps (src rng idx inv x : ℕ) : Build ℕ := do
  let a ← like x                                                     -- line 81
  let b ← bitsOps src rng idx
  let p ← make [a, b]
  let u ← like x                                                     -- line 83
  let u ← make [idx, u]
  give idx u
  let a ← like x                                                     -- line 89
  let a ← make [a]
  let b ← bitsOps src rng inv
  let b ← make [b]
  let q ← make [a, b]
  let u ← like x                                                    -- line 91
  let u ← make [u]
  let u ← make [inv, u]
  give inv u
  let o ← make [p, q]                                                      -- line 92
  like o

/-- `ShiftReg.forward` without a mask, count only, `kernel/shiftreg.py:27-45`; the row written is part of
the register. -/
def shiftRegOps (first : Bool) (sr x : ℕ) : Build ℕ := do
  if first then
    let t ← make [x]
    give sr t
    put sr [sr]
  let n ← make [sr]
  let t ← make [sr]
  give sr t
  let c ← make [x]
  put sr [sr, c]
  return n

/-- `FSUMul.forward`, in-stream and bipolar, `kernel/mul.py:94-105`. -/
def mulStreamOps (first : Bool) (sr rng idx inv x y : ℕ) : Build ℕ := do
  let n ← shiftRegOps first sr y                                                -- line 94
  let a ← like x                                                     -- line 95
  let r ← make [rng, idx]
  let g ← make [n, r]
  let g ← like g
  let p ← make [a, g]
  let u ← like x                                                    -- line 96
  let u ← make [idx, u]
  let u ← make [u]
  give idx u
  let a ← like x                                                    -- line 102
  let a ← make [a]
  let r ← make [rng, inv]
  let g ← make [n, r]
  let g ← like g
  let g ← make [g]
  let q ← make [a, g]
  let u ← like x                                                    -- line 104
  let u ← make [u]
  let u ← make [inv, u]
  let u ← make [u]
  give inv u
  let o ← make [p, q]                                                      -- line 105
  like o

/-- `FSUMGUCell.forward`, `kernel/rnn.py:127-145`: parameters 0 to 9 the layer of the forget gate, 10 to 19
that of the new gate, 20 to 22 the first adder, 23 to 26 the static multiplier, 27 to 30 the in-stream one,
31 to 33 the last adder. -/
def fsuMguOps (wtc hasBias grow first : Bool) (x hx : ℕ) : Build ℕ := do
  let c : PCOptions := ⟨true, wtc, hasBias⟩
  let u ← make [hx, x]                                                      -- line 130
  let fi ← linearOps c grow first ⟨0, 1, 2, 3, 4, 5, 6⟩ ⟨7, 8, 9⟩ u
  let o ← make [fi]                                                         -- line 132
  let s ← make [fi, o]
  let f ← addOps true first ⟨20, 21, 22⟩ s
  let fh ← mulStaticOps 23 24 25 26 f                -- line 135
  let u ← make [fh, x]
  let n ← linearOps c grow first ⟨10, 11, 12, 13, 14, 15, 16⟩ ⟨17, 18, 19⟩ u
  let m ← mulStreamOps first 27 28 29 30 f n        -- line 140
  let m ← make [m]
  let s ← make [n, m, fh]
  addOps true first ⟨31, 32, 33⟩ s

/-- `FSUMGUCell`. -/
def fsuMguProg (wtc hasBias : Bool) : Prog (ℕ × Bool) ℕ :=
  twoArgs 34 (fun l t => (nextBatch l.1 t, false)) fun l t x hx =>
    fsuMguOps wtc hasBias (l.1 != t) l.2 x hx

/-! ## The clipped ReLU -/

/-- `HUBReLU.forward`, `kernel/relu.py:43-48`: `torch.nn.Hardtanh`, which with `inplace` writes into its argument
and returns it. -/
def reluProg {L τ : Type} (inplace : Bool) : Prog L τ := fun l _ n =>
  match n with
  | 1 => (l, Build.ops 0 1 (do
      if inplace then
        put 0 [0]
        return [0]
      else
        return [← make [0]]))
  | _ => (l, [], [])

/-! ## Construction -/

/-- Where the memory of a parameter comes from: made for it, or `p.data = t` with `t` a tensor of the
caller. -/
inductive Origin where
  | own (v : Vec)
  | keep (o : ℕ)

/-- The parameters of a layer, made one by one. -/
def Mem.params (h : Mem) : List Origin → Mem × List ℕ
  | [] => (h, [])
  | .own v :: rest =>
    let t := h.new v
    let r := t.1.params rest
    (r.1, t.2 :: r.2)
  | .keep o :: rest =>
    let t := h.new 0
    let r := (t.1.setData t.2 o).params rest
    (r.1, t.2 :: r.2)

end Verif.Share
