import Verif.Model.Share
import Verif.Model.Div
import Verif.Model.Mul
import Verif.Model.Sqrt

/-!
# Model of tensor objects, storages and sharing: modules made of modules

As in `Model/Share.lean`, one lane; a call of a part is a call of its module there.
-/

namespace Verif.Share

open Verif

/-- Several new tensors, one after the other. -/
def Mem.news (h : Mem) (fs : List (ℕ → ℚ)) : Mem := fs.foldl (fun h f => (h.new f).1) h

/-- A list of integers as the elements of a tensor. -/
def elems (xs : List ℤ) : ℕ → ℚ := fun i => ((xs.getD i 0 : ℤ) : ℚ)

/-! ## `kernel/div.py` -/

/-- The parameters of `CORDIV_kernel`, `kernel/div.py:33,43,45`: the shift register, `idx`, `historic_q`. -/
def cordivFill : List (ℕ → ℚ) := [fun i => ((i % 2 : ℕ) : ℚ), fun _ => 0, fun _ => 1]

/-- `CORDIV_kernel.forward`, `kernel/div.py:47-59`.  `L`: the flag `first` of the register.  `same`: the
quotient already has type `stype`.  The random numbers are never written and are given as a list.
Reading by a tensor of indices copies (line 51). -/
def cordiv (entry : ℕ) (rng : List ℤ) (same : Bool) (sr idx hq : ℕ) : Module Bool Unit where
  ps := [sr, idx, hq]
  call := fun first h _ args => match args with
    | [x, y] =>
      match rng[(truncZ (h.val idx)).toNat % entry]? with
      | none => (first, h, [])
      | some r =>
        if entry ≤ r.toNat then (first, h, []) else
        let e := h.one (ind (h.val y = 1))                                       -- line 50
        let t := e.1.one (e.1.get sr r.toNat)                                    -- line 51
        let h := t.1.setData hq t.2
        let i := h.one (h.val idx + 1)                                           -- line 52
        let h := i.1.setData idx i.2
        let q := h.one (h.val e.2 * h.val x + (1 - h.val e.2) * h.val hq)        -- line 54
        let c := q.1.typed same q.2                                              -- line 57
        let s := (shiftReg entry sr).call first c.1 0 [c.2, e.2]
        let r := s.2.1.typed same q.2                                            -- line 59
        (s.1, r.1, [r.2])
    | _ => (first, h, [])

/-- `FSUDiv.unipolar_forward`, `kernel/div.py:143-146`.  `l`: the shape of the counter and `first`. -/
def divKernel (entry : ℕ) (rng : List ℤ) (same : Bool) (upper cnt sr idx hq : ℕ) (l : List ℕ × Bool) (h : Mem)
    (shape : List ℕ) (x y : ℕ) : (List ℕ × Bool) × Mem × List ℕ :=
  let s := (sync upper cnt).call l.1 h shape [x, y]                              -- line 144
  let c := (cordiv entry rng same sr idx hq).call l.2 s.2.1 () s.2.2             -- line 145
  ((s.1, c.1), c.2.1, c.2.2)

/-- `FSUDiv.forward` in unipolar mode, `kernel/div.py:148-153`; the quotient has type `stype` already. -/
def divUni (entry : ℕ) (rng : List ℤ) (same : Bool) (upper cnt sr idx hq : ℕ) :
    Module (List ℕ × Bool) (List ℕ) where
  ps := [upper, cnt, sr, idx, hq]
  call := fun l h shape args => match args with
    | [x, y] => divKernel entry rng same upper cnt sr idx hq l h shape x y
    | _ => (l, h, [])

/-- The parameters of `FSUDiv` in unipolar mode, `kernel/div.py:122-131`: those of `SkewedSync`
(`stream/shuffle.py:29-30`) and those of the kernel. -/
def divUniFill (depthSs : ℕ) : List (ℕ → ℚ) := [fun _ => 2 ^ depthSs - 1, fun _ => 0] ++ cordivFill

/-- `FSUDiv.forward` in bipolar mode, `kernel/div.py:133-141,148-153`.  `sameI`: `stype` is `int8`; `sameB`:
`stype` is `btype`. -/
def divBi (depthSa : ℤ) (entry : ℕ) (rng : List ℤ) (same sameI sameB : Bool)
    (a1 a2 b1 b2 u upper cnt sr idx hq : ℕ) : Module (List ℕ × Bool) (List ℕ) where
  ps := [a1, a2, b1, b2, u, upper, cnt, sr, idx, hq]
  call := fun l h shape args => match args with
    | [x, y] =>
      let d := (signabs depthSa sameI a1).call () h () [x]                       -- line 134
      let v := (signabs depthSa sameI a2).call () d.2.1 () [y]                   -- line 135
      let ud := (bi2uni 3 sameB b1).call () v.2.1 () (d.2.2.drop 1)              -- line 136
      let uv := (bi2uni 3 sameB b2).call () ud.2.1 () (v.2.2.drop 1)             -- line 137
      let q := divKernel entry rng same upper cnt sr idx hq l uv.2.1 shape (ud.2.2.headD 0) (uv.2.2.headD 0)
      let b := (uni2bi 4 sameB u).call () q.2.1 () q.2.2                         -- line 139
      let h := b.2.1
      let o := h.one ((Int.xor (Int.xor (truncZ (h.val (d.2.2.headD 0))) (truncZ (h.val (v.2.2.headD 0))))
        (truncZ (h.val (b.2.2.headD 0))) : ℤ) : ℚ)                               -- line 140
      let r := o.1.typed sameI o.2                                               -- line 153
      (q.1, r.1, [r.2])
    | _ => (l, h, [])

/-- The parameters of `FSUDiv` in bipolar mode, `kernel/div.py:106-131`: two accumulators of `FSUSignAbs`
(`kernel/signabs.py:32`), two of `Bi2Uni`, one of `Uni2Bi`, then as in unipolar mode. -/
def divBiFill (depthSa : ℤ) (depthSs : ℕ) : List (ℕ → ℚ) :=
  [fun _ => Small.accHalf depthSa, fun _ => Small.accHalf depthSa, fun _ => 0, fun _ => 0, fun _ => 0] ++
    divUniFill depthSs

/-! ## `kernel/mul.py` -/

/-- `FSUMul` with a static operand, `kernel/mul.py:78-92,107-108`.  `binary` and `rng` are the objects the
generators read at every call (`stream/gen.py:160-161`).  `same`: the result type is `int8`. -/
def mulStatic (mode : Mode) (len : ℕ) (same : Bool) (binary rng idx idxInv : ℕ) : Module Unit Unit where
  ps := [binary, rng, idx, idxInv]
  call := fun _ h _ args => match args with
    | [x] =>
      let b := bsGen binary rng len (truncZ (h.val idx)) h                       -- line 81
      let p := b.1.one ((Int.land (truncZ (b.1.val x)) (truncZ (b.1.val b.2)) : ℤ) : ℚ)
      let i := p.1.one (p.1.val idx + (truncZ (p.1.val x) : ℤ))                  -- line 83
      let h := i.1.setData idx i.2
      match mode with
      | .unipolar =>
        let r := h.typed same p.2                                                -- lines 86,108
        ((), r.1, [r.2])
      | .bipolar =>
        let c := bsGen binary rng len (truncZ (h.val idxInv)) h                  -- line 89
        let n := c.1.one ((Int.land (1 - truncZ (c.1.val x)) (1 - truncZ (c.1.val c.2)) : ℤ) : ℚ)
        let j := n.1.one (n.1.val idxInv + (1 - truncZ (n.1.val x) : ℤ))         -- line 91
        let h := j.1.setData idxInv j.2
        let o := h.one ((Int.lor (truncZ (h.val p.2)) (truncZ (h.val n.2)) : ℤ) : ℚ)  -- line 92
        let r := o.1.typed same o.2
        ((), r.1, [r.2])
    | _ => ((), h, [])

/-- The tensors of `FSUMul` with a static operand, `kernel/mul.py:51,59-67`: the binary value, the random
numbers and the two indices (the second only in bipolar mode; it is made in both here). -/
def mulStaticFill (bin : ℤ) (seq : List ℤ) : List (ℕ → ℚ) := [fun _ => (bin : ℚ), elems seq, fun _ => 0, fun _ => 0]

/-- `FSUMul` on two streams, `kernel/mul.py:93-105,107-108`.  `L`: the flag `first` of the register. -/
def mulStream (mode : Mode) (width : ℕ) (same : Bool) (sr rng idx idxInv : ℕ) : Module Bool Unit where
  ps := [sr, rng, idx, idxInv]
  call := fun first h _ args => match args with
    | [x, y] =>
      let s := (shiftReg (2 ^ width) sr).call first h 0 [y]                      -- line 94
      let src := s.2.2.getD 1 0
      let h := s.2.1
      let p := h.one ((Int.land (truncZ (h.val x)) (ind (h.val src > h.get rng (truncZ (h.val idx)).toNat)) : ℤ) : ℚ)
      let i := p.1.one (((truncZ (p.1.val idx) + truncZ (p.1.val x)) % 2 ^ width : ℤ) : ℚ)  -- line 96
      let h := i.1.setData idx i.2
      match mode with
      | .unipolar =>
        let r := h.typed same p.2                                                -- lines 99,108
        (s.1, r.1, [r.2])
      | .bipolar =>
        let n := h.one ((Int.land (1 - truncZ (h.val x))                         -- line 102
          (1 - ind (h.val src > h.get rng (truncZ (h.val idxInv)).toNat)) : ℤ) : ℚ)
        let j := n.1.one (((truncZ (n.1.val idxInv) + (1 - truncZ (n.1.val x))) % 2 ^ width : ℤ) : ℚ)  -- line 104
        let h := j.1.setData idxInv j.2
        let o := h.one ((Int.lor (truncZ (h.val p.2)) (truncZ (h.val n.2)) : ℤ) : ℚ)  -- line 105
        let r := o.1.typed same o.2
        (s.1, r.1, [r.2])
    | _ => (first, h, [])

/-- The tensors of `FSUMul` on two streams, `kernel/mul.py:51,70-76`. -/
def mulStreamFill (seq : List ℤ) : List (ℕ → ℚ) :=
  [fun i => ((i % 2 : ℕ) : ℚ), elems seq, fun _ => 0, fun _ => 0]

/-! ## `kernel/sqrt.py` -/

/-- `self.bi2uni(output)` in bipolar mode, the stream itself in unipolar mode, `kernel/sqrt.py:131,164`. -/
def sqrtUni (mode : Mode) (same : Bool) (b2u : ℕ) (h : Mem) (o : ℕ) : Mem × List ℕ :=
  match mode with
  | .bipolar => ((bi2uni 3 same b2u).call () h () [o]).2
  | .unipolar => (h, [o])

/-- The emitting `FSUSqrt`, `kernel/sqrt.py:155-177,184`.  `L`: the flags of the adder and of the register.
`sameA`: the types `int8` and `btype` are equal; `same`: the result type is `int8`.  Lines 170-171 only
replace zeros by zeros and are left out. -/
def sqrtEmit (mode : Mode) (entrySr : ℕ) (sameA same : Bool) (emit carry off acc sr b2u : ℕ) :
    Module ((Bool × Option ℚ) × Bool) Unit where
  ps := [emit, carry, off, acc, sr, b2u]
  call := fun l h _ args => match args with
    | [x] =>
      let a := h.one ((truncZ (h.val x) : ℤ) : ℚ)                                -- line 172
      let b := a.1.one (a.1.val emit)
      let d := (adder Sqrt.addCfg sameA carry off acc).call l.1 b.1 (none, none) [a.2, b.2]  -- line 173
      let out := d.2.2.headD 0
      let n := d.2.1.one (1 - d.2.1.val out)                                     -- lines 156,162
      let s := (shiftReg entrySr sr).call l.2 n.1 0 [n.2]                        -- lines 157,163
      let u := sqrtUni mode sameA b2u s.2.1 out                                  -- line 164
      let h := u.1
      let t := h.one ((Int.land (truncZ (h.val (s.2.2.headD 0))) (truncZ (h.val (u.2.headD 0))) : ℤ) : ℚ)
      let h := t.1.setData emit t.2                                              -- lines 175,177
      let r := h.typed same out                                                  -- line 184
      ((d.1, s.1), r.1, [r.2])
    | _ => (l, h, [])

/-- The parameters of the emitting `FSUSqrt`, `kernel/sqrt.py:60-100`: the emitted bit, the adder
(`kernel/add.py:54-58`), the register, the accumulator of `Bi2Uni`. -/
def sqrtEmitFill : List (ℕ → ℚ) :=
  [fun _ => 0, fun _ => 1, fun _ => 0, fun _ => 0, fun i => ((i % 2 : ℕ) : ℚ), fun _ => 0]

/-- The tracing `FSUSqrt` with a flip-flop, `kernel/sqrt.py:129-139,178-184`.  The flip-flop has type `int8`
and returns its own parameter, whose storage the trace then shares. -/
def sqrtJk (mode : Mode) (sameA same : Bool) (trace q b2u : ℕ) : Module Unit Unit where
  ps := [trace, q, b2u]
  call := fun _ h _ args => match args with
    | [x] =>
      let o := h.one ((Int.land (1 - truncZ (h.val trace)) (truncZ (h.val x)) + truncZ (h.val trace) : ℤ) : ℚ)
      let u := sqrtUni mode sameA b2u o.1 o.2                                    -- line 131
      let k := u.1.one 1                                                         -- line 139
      let j := (jkff true q).call () k.1 () [u.2.headD 0, k.2]
      let h := j.2.1.setData trace (j.2.2.headD 0)                               -- lines 181,183
      let r := h.typed same o.2                                                  -- line 184
      ((), r.1, [r.2])
    | _ => ((), h, [])

/-- Its parameters, `kernel/sqrt.py:101-116`: trace, flip-flop, the accumulator of `Bi2Uni`. -/
def sqrtJkFill : List (ℕ → ℚ) := [fun _ => 0, fun _ => 0, fun _ => 0]

/-- The tracing `FSUSqrt` with a divider, `kernel/sqrt.py:129-134,140-153,178-184`. -/
def sqrtDiv (mode : Mode) (rng : List ℤ) (sameA sameQ same : Bool) (trace dff b2u sr idx hq : ℕ) :
    Module Bool Unit where
  ps := [trace, dff, b2u, sr, idx, hq]
  call := fun first h _ args => match args with
    | [x] =>
      let o := h.one ((Int.land (1 - truncZ (h.val trace)) (truncZ (h.val x)) + truncZ (h.val trace) : ℤ) : ℚ)
      let u := sqrtUni mode sameA b2u o.1 o.2                                    -- line 131
      let h := u.1
      let d := h.one ((Int.land (1 - truncZ (h.val dff)) (truncZ (h.val (u.2.headD 0))) : ℤ) : ℚ)  -- line 142
      let v := d.1.one (d.1.val dff + d.1.val d.2)                               -- line 143
      let c := (cordiv 4 rng sameQ sr idx hq).call first v.1 () [d.2, v.2]       -- line 150
      let t := c.2.1.one (1 - c.2.1.val dff)                                     -- line 152
      let h := t.1.setData dff t.2
      let h := h.setData trace (c.2.2.headD 0)                                   -- lines 181,183
      let r := h.typed same o.2                                                  -- line 184
      (c.1, r.1, [r.2])
    | _ => (first, h, [])

/-- Its parameters, `kernel/sqrt.py:101-110,117-127`: trace, toggle, the accumulator of `Bi2Uni`, the kernel. -/
def sqrtDivFill : List (ℕ → ℚ) := [fun _ => 0, fun _ => 0, fun _ => 0] ++ cordivFill

end Verif.Share
