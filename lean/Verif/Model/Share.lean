import Verif.Basic
import Verif.Model.Small
import Verif.Model.Shuffle
import Verif.Model.Add
import Verif.Model.Metric
import Verif.Model.Gen

/-!
# Model of tensor objects, storages and sharing

Everywhere else in this development a tensor is a value.  In PyTorch it is an object that refers to
a storage: two objects may share a storage, `p.data = t` makes `p` refer to the storage of `t`, an
operation with a trailing underscore writes into the storage, `x.type(t)` returns `x` itself if `x`
already has type `t`, and `x[i]` shares the storage of `x`.  Here the modules are written again
with these distinctions, line by line, so that what a caller sees can be compared with the value
semantics.

One lane: a tensor has one element, a shift register has one per entry.  Numbers are rationals.
The type of a tensor is only tracked as far as it decides whether `.type` copies: the arguments
called `same…` say that the two types in question are equal.
-/

namespace Verif.Share

open Verif

/-- Where the elements of a tensor object live: a storage and an offset in it. -/
structure Ref where
  stor : ℕ
  off : ℕ

/-- The memory: objects, storages and the number of the next one to be made (objects and storages
are numbered together). -/
structure Mem where
  obj : ℕ → Ref
  cell : ℕ → ℕ → ℚ
  next : ℕ

/-- A memory without objects. -/
def Mem.empty : Mem := ⟨fun _ => ⟨0, 0⟩, fun _ _ => 0, 0⟩

/-- Element `i` of an object. -/
def Mem.get (h : Mem) (o i : ℕ) : ℚ := h.cell (h.obj o).stor ((h.obj o).off + i)

/-- The one element of a one-element tensor. -/
def Mem.val (h : Mem) (o : ℕ) : ℚ := h.get o 0

/-- The storage of an object. -/
def Mem.st (h : Mem) (o : ℕ) : ℕ := (h.obj o).stor

/-- A new tensor with its own storage: the result of every operation that is not in place. -/
def Mem.new (h : Mem) (f : ℕ → ℚ) : Mem × ℕ :=
  (⟨Function.update h.obj h.next ⟨h.next, 0⟩, Function.update h.cell h.next f, h.next + 1⟩, h.next)

/-- The same for one element. -/
def Mem.one (h : Mem) (v : ℚ) : Mem × ℕ := h.new fun _ => v

/-- `x[i]` with an integer `i`: a new object in the storage of `x`. -/
def Mem.view (h : Mem) (o i : ℕ) : Mem × ℕ :=
  (⟨Function.update h.obj h.next ⟨(h.obj o).stor, (h.obj o).off + i⟩, h.cell, h.next + 1⟩, h.next)

/-- `p.data = t`: `p` now refers to the storage of `t`. -/
def Mem.setData (h : Mem) (p t : ℕ) : Mem :=
  ⟨Function.update h.obj p (h.obj t), h.cell, h.next⟩

/-- Writing element `i` in place: `fill_`, `add_`, `sub_`, `clamp_`, `x[i] = …`. -/
def Mem.write (h : Mem) (o i : ℕ) (v : ℚ) : Mem :=
  ⟨h.obj, Function.update h.cell (h.obj o).stor
    (Function.update (h.cell (h.obj o).stor) ((h.obj o).off + i) v), h.next⟩

/-- `x.type(t)`: `x` itself if it has the type already, else a copy. -/
def Mem.typed (same : Bool) (h : Mem) (o : ℕ) : Mem × ℕ :=
  if same then (h, o) else h.one (h.val o)

/-- A module: the attributes `L` of its Python object that are not tensors (or that are references
to tensors which change), the objects of its parameters, and what a call does.  `τ` is the method
called with its arguments that are not tensors. -/
structure Module (L τ : Type) where
  ps : List ℕ
  call : L → Mem → τ → List ℕ → L × Mem × List ℕ

/-! ## The caller -/

/-- What a caller can do: make a tensor, write into a tensor it holds (one it made or one it was given
as a result), or call a method with tensors it holds. -/
inductive Deed (τ V : Type) where
  | make (v : V)
  | poke (k : ℕ) (v : V)
  | call (m : τ) (ks : List ℕ)

/-- The module object, the memory and the tensors the caller holds. -/
structure World (L : Type) where
  l : L
  h : Mem
  held : List ℕ

/-- One deed.  Numbers of tensors that do not exist are ignored.  `emb` reads the values of the caller
as rationals. -/
def World.act {L τ V : Type} (m : Module L τ) (emb : V → ℚ) (w : World L) : Deed τ V → World L
  | .make v => let t := w.h.one (emb v); ⟨w.l, t.1, w.held ++ [t.2]⟩
  | .poke k v => match w.held[k]? with
    | some o => ⟨w.l, w.h.write o 0 (emb v), w.held⟩
    | none => w
  | .call t ks =>
    let r := m.call w.l w.h t (ks.filterMap fun k => w.held[k]?)
    ⟨r.1, r.2.1, w.held ++ r.2.2⟩

/-- What the caller reads in the tensors it holds after a list of deeds. -/
def World.read {L τ V : Type} (m : Module L τ) (emb : V → ℚ) (w : World L) (ds : List (Deed τ V)) : List ℚ :=
  let w' := ds.foldl (World.act m emb) w
  w'.held.map w'.h.val

/-! ## The converters, `stream/shuffle.py` -/

/-- `Bi2Uni.__init__`, `stream/shuffle.py:70`: the accumulator. -/
def bi2uniMk (h : Mem) : Mem × ℕ := h.one 0

/-- `Bi2Uni.forward`, `stream/shuffle.py:76-82`.  `same`: `stype` and `btype` are equal. -/
def bi2uni (depth : ℤ) (same : Bool) (acc : ℕ) : Module Unit Unit where
  ps := [acc]
  call := fun _ h _ args => match args with
    | [x] =>
      let b := Shuffle.accBound depth
      let t := h.one (clamp (-b) b (h.val acc + (h.val x * 2 - 1)))             -- line 79
      let h := t.1.setData acc t.2
      let out := h.one (ind (h.val acc ≥ 1))                                     -- line 80
      let h := out.1.write acc 0 (out.1.val acc - out.1.val out.2)               -- line 81
      let r := h.typed same out.2                                                -- line 82
      ((), r.1, [r.2])
    | _ => ((), h, [])

/-- `Uni2Bi.forward`, `stream/shuffle.py:116-123`. -/
def uni2bi (depth : ℤ) (same : Bool) (acc : ℕ) : Module Unit Unit where
  ps := [acc]
  call := fun _ h _ args => match args with
    | [x] =>
      let b := Shuffle.accBound depth
      let s := h.one (h.val x + 1)                                               -- line 119
      let t := s.1.one (clamp (-b) b (s.1.val acc + s.1.val s.2))                -- line 120
      let h := t.1.setData acc t.2
      let out := h.one (ind (h.val acc ≥ 2))                                     -- line 121
      let h := out.1.write acc 0 (out.1.val acc - out.1.val out.2 * 2)           -- line 122
      let r := h.typed same out.2                                                -- line 123
      ((), r.1, [r.2])
    | _ => ((), h, [])

/-- `SkewedSync.__init__`, `stream/shuffle.py:29-30`: the limit and the counter. -/
def syncMk (depth : ℕ) (h : Mem) : Mem × ℕ × ℕ :=
  let u := h.one (2 ^ depth - 1)
  let c := u.1.one 0
  (c.1, u.2, c.2)

/-- Lines 35-36 of `stream/shuffle.py`: a counter of another shape is replaced by zeros. -/
def syncReset (cnt : ℕ) (reset : Bool) (h : Mem) : Mem :=
  if reset then
    let z := h.one 0
    z.1.setData cnt z.2
  else h

/-- The first result, lines 37-40 of `stream/shuffle.py`. -/
def syncOut (upper cnt x sum : ℕ) (h : Mem) : Mem × ℕ :=
  let nmin := h.one (ind (h.val cnt ≠ 0))                                        -- line 37
  let nmax := nmin.1.one (ind (nmin.1.val cnt ≠ nmin.1.val upper))               -- line 38
  let h := nmax.1
  let e := h.one (ind (h.val sum = 1))                                           -- line 40
  let h := e.1.write e.2 0 (e.1.val e.2 *
    (e.1.val nmin.2 * (1 - e.1.val x) + (0 - e.1.val nmax.2) * e.1.val x))
  h.one (h.val x + h.val e.2)

/-- The update of the counter, line 41 of `stream/shuffle.py`. -/
def syncCount (upper cnt x sum : ℕ) (h : Mem) : Mem :=
  let d := h.one (ind (h.val sum = 1))
  let h := d.1.write d.2 0 (d.1.val d.2 * (d.1.val x * 2 - 1))
  let h := h.write cnt 0 (h.val cnt + h.val d.2)
  h.write cnt 0 (clamp 0 (h.val upper) (h.val cnt))

/-- `SkewedSync.forward`, `stream/shuffle.py:32-42`.  `L`: the shape of the counter, `τ`: the shape of the
inputs.  The second result is the object `in_2` itself. -/
def sync (upper cnt : ℕ) : Module (List ℕ) (List ℕ) where
  ps := [upper, cnt]
  call := fun l h shape args => match args with
    | [x, y] =>
      let sum := h.one (h.val x + h.val y)                                       -- line 34
      let h := syncReset cnt (l ≠ shape) sum.1                                   -- lines 35-36
      let out := syncOut upper cnt x sum.2 h                                     -- lines 37-40
      let h := syncCount upper cnt x sum.2 out.1                                 -- line 41
      (shape, h, [out.2, y])                                                     -- line 42
    | _ => (l, h, [])

/-! ## `kernel/relu.py`, `kernel/signabs.py`, `kernel/jkff.py` -/

/-- `FSUReLU.forward`, `kernel/relu.py:33-40`.  `same`: the result type is `int8`. -/
def relu (depth : ℤ) (same : Bool) (acc : ℕ) : Module Unit Unit where
  ps := [acc]
  call := fun _ h _ args => match args with
    | [x] =>
      let flag := h.one (ind (h.val acc ≥ Small.accHalf depth))                  -- line 35
      let h := flag.1
      let out := h.one ((Int.lor (truncZ (h.val x)) (1 - truncZ (h.val flag.2)) : ℤ) : ℚ)  -- line 37
      let h := out.1
      let t := h.one (clamp 0 (Small.accMax depth) (h.val acc + (h.val out.2 * 2 - 1)))  -- line 39
      let h := t.1.setData acc t.2
      let r := h.typed same out.2                                                -- line 40
      ((), r.1, [r.2])
    | _ => ((), h, [])

/-- `FSUSignAbs.forward`, `kernel/signabs.py:34-40`; `same` as above. -/
def signabs (depth : ℤ) (same : Bool) (acc : ℕ) : Module Unit Unit where
  ps := [acc]
  call := fun _ h _ args => match args with
    | [x] =>
      let t := h.one (clamp 0 (Small.accMax depth) (h.val acc + (h.val x * 2 - 1)))  -- line 36
      let h := t.1.setData acc t.2
      let sign := h.one (ind (h.val acc < Small.accHalf depth))                  -- line 37
      let h := sign.1
      let out := h.one ((Int.xor (truncZ (h.val sign.2)) (truncZ (h.val x)) : ℤ) : ℚ)  -- lines 38-39
      let r := out.1.typed same sign.2                                           -- line 40
      let q := r.1.typed same out.2
      ((), q.1, [r.2, q.2])
    | _ => ((), h, [])

/-- `JKFF.forward`, `kernel/jkff.py:19-31`.  `same`: the type asked for is `int8`, the type of the
flip-flop. -/
def jkff (same : Bool) (q : ℕ) : Module Unit Unit where
  ps := [q]
  call := fun _ h _ args => match args with
    | [j, k] =>
      let j0 : ℤ := ind (h.val j = 0)                                            -- lines 20-28
      let j1 := 1 - j0
      let k0 : ℤ := ind (h.val k = 0)
      let k1 := 1 - k0
      let v : ℚ := (Int.land j0 k0 : ℤ) * h.val q + (Int.land j1 k0 : ℤ) * 1
        + (Int.land j0 k1 : ℤ) * 0 + (Int.land j1 k1 : ℤ) * (1 - h.val q)
      let t := h.one v                                                           -- line 30
      let h := t.1.setData q t.2
      let r := h.typed same q                                                    -- line 31
      ((), r.1, [r.2])
    | _ => ((), h, [])

/-! ## `kernel/shiftreg.py` -/

/-- `ShiftReg.__init__`, `kernel/shiftreg.py:26`. -/
def shiftRegMk (h : Mem) : Mem × ℕ := h.new fun i => ((i % 2 : ℕ) : ℚ)

/-- `self.sr[i].fill_(i%2)` for `i` in `range(entry)`, `kernel/shiftreg.py:34-35`. -/
def fillAll (sr : ℕ) : ℕ → Mem → Mem
  | 0, h => h
  | n + 1, h =>
    let h := fillAll sr n h
    let w := h.view sr n
    w.1.write w.2 0 ((n % 2 : ℕ) : ℚ)

/-- The first call builds the register anew for the shape of its input, `kernel/shiftreg.py:30-36`. -/
def shiftRegFirst (entry sr : ℕ) (first : Bool) (h : Mem) (x : ℕ) : Mem :=
  if first then
    let t := h.new fun _ => h.val x                                              -- line 33
    fillAll sr entry (t.1.setData sr t.2)                                        -- lines 33-35
  else h

/-- The rest of a call, `kernel/shiftreg.py:38-53`. -/
def shiftRegRun (entry sr index : ℕ) (h : Mem) (x : ℕ) (m? : Option ℕ) : Mem × List ℕ :=
  let out := h.view sr index                                                     -- line 40
  let h := out.1
  let cnt := h.one ((List.range entry).map (h.get sr)).sum                       -- line 42
  let h := cnt.1
  match m? with
  | none =>
    let t := h.new fun i => h.get sr ((i + 1) % entry)                           -- line 44
    let h := t.1.setData sr t.2
    let c := h.one (h.val x)                                                     -- line 45
    let h := c.1.write sr (entry - 1) (c.1.val c.2)
    (h, [out.2, cnt.2])
  | some m =>
    let t := h.new fun i => h.get sr ((i + 1) % entry)                           -- line 49
    let c := t.1.one (t.1.val x)                                                 -- line 50
    let h := c.1.write t.2 (entry - 1) (c.1.val c.2)
    let o := h.new fun i => h.get sr i                                           -- line 51
    let h := o.1
    let u := h.new fun i => h.val m * h.get t.2 i + (1 - h.val m) * h.get o.2 i  -- line 52
    let h := u.1.setData sr u.2
    (h, [out.2, cnt.2])

/-- `ShiftReg.ShiftReg_forward`, `kernel/shiftreg.py:28-53`.  `L`: `self.first`.  `τ`: the index.
One tensor: no mask; a second one is the mask.  An index outside the register raises. -/
def shiftReg (entry : ℕ) (sr : ℕ) : Module Bool ℕ where
  ps := [sr]
  call := fun first h index args =>
    match args with
    | [x] =>
      let h := shiftRegFirst entry sr first h x
      if entry ≤ index then (false, h, []) else
      let r := shiftRegRun entry sr index h x none
      (false, r.1, r.2)
    | [x, m] =>
      let h := shiftRegFirst entry sr first h x
      if entry ≤ index then (false, h, []) else
      let r := shiftRegRun entry sr index h x (some m)
      (false, r.1, r.2)
    | _ => (first, h, [])

/-! ## `kernel/add.py` -/

/-- `FSUAdd.__init__`, `kernel/add.py:54-58`: carry scale, offset, accumulator. -/
def adderMk (h : Mem) : Mem × ℕ × ℕ × ℕ :=
  let c := h.one 1
  let o := c.1.one 0
  let a := o.1.one 0
  (a.1, c.2, o.2, a.2)

/-- The configuration part of a call, `kernel/add.py:62-93`.  `l`: `self.first` and `self.entry`; `n`: the
number of entries along the summed dimension. -/
def adderSetup (cfg : Adder.Cfg) (carry off : ℕ) (l : Bool × Option ℚ) (h : Mem) (a : Option ℚ × Option ℚ)
    (n : ℕ) : (Bool × Option ℚ) × Mem :=
  if l.1 then                                                                    -- line 62
    let entry : ℚ := match a.2 with                                              -- lines 63-73
      | some e => e
      | none => match l.2 with
        | none => n
        | some e => e
    let sc : ℚ := match a.1 with                                                 -- lines 75-85
      | some s => s
      | none => match cfg.scale with
        | none => entry
        | some s => s
    let h := h.write carry 0 sc
    let h := match cfg.mode with                                                 -- lines 87-88
      | .bipolar =>
        let t := h.one ((entry - h.val carry) / 2)
        t.1.setData off t.2
      | .unipolar => h
    ((false, some entry), h)
  else (l, h)                                                                    -- lines 92-93

/-- The accumulation part of a call, `kernel/add.py:95-99`. -/
def adderRun (cfg : Adder.Cfg) (same : Bool) (carry off acc : ℕ) (h : Mem) (xs : List ℕ) : Mem × List ℕ :=
  let b := Shuffle.accBound cfg.depth
  let d := h.one ((xs.map h.val).sum - h.val off)                                -- line 95
  let h := d.1
  let t := h.one (clamp (-b) b (h.val acc + h.val d.2))                          -- line 96
  let h := t.1.setData acc t.2
  let out := h.one (ind (h.val acc ≥ h.val carry))                               -- line 97
  let h := out.1.write acc 0 (out.1.val acc - out.1.val out.2 * out.1.val carry)  -- line 98
  let h := h.write acc 0 (clamp (-b) b (h.val acc))
  let r := h.typed same out.2                                                    -- line 99
  (r.1, [r.2])

/-- `FSUAdd.forward`, `kernel/add.py:61-99`.  `L`: `self.first` and `self.entry`.  `τ`: the runtime
`scale` and `entry`.  The entries along the summed dimension are given as separate tensors; the
module only reads them. -/
def adder (cfg : Adder.Cfg) (same : Bool) (carry off acc : ℕ) :
    Module (Bool × Option ℚ) (Option ℚ × Option ℚ) where
  ps := [carry, off, acc]
  call := fun l h a xs =>
    let c := adderSetup cfg carry off l h a xs.length
    let r := adderRun cfg same carry off acc c.2 xs
    (c.1, r.1, r.2)

/-! ## `metric/metric.py` -/

/-- The methods of the metrics: `Monitor` and the report. -/
inductive Meth | monitor | report
  deriving DecidableEq

/-- `Correlation`, `metric/metric.py:11-53`.  Parameters `paired_00_d`, `paired_01_c`, `paired_10_b`,
`paired_11_a`, `len`, `in_1_d`. -/
def correlation (d c b a len in1d : ℕ) : Module Unit Meth where
  ps := [d, c, b, a, len, in1d]
  call := fun _ h m args =>
    let watch (h : Mem) (x y : ℕ) : Unit × Mem × List ℕ :=
      let x0 : ℚ := ind (h.val x = 0)                                            -- lines 22-25
      let y0 : ℚ := ind (h.val y = 0)
      let h := h.write d 0 (h.val d + x0 * y0)                                   -- lines 26-30
      let h := h.write c 0 (h.val c + x0 * (1 - y0))
      let h := h.write b 0 (h.val b + (1 - x0) * y0)
      let h := h.write a 0 (h.val a + (1 - x0) * (1 - y0))
      let h := h.write len 0 (h.val len + 1)
      ((), h, [])
    match m, args with
    | .monitor, [x, y] => watch h x y
    | .monitor, [x] =>
      let o := h.one (h.val in1d)                                                -- line 20
      let n := o.1.one (o.1.val x)                                               -- line 21
      let h := n.1.setData in1d n.2
      watch h x o.2
    | .report, [] =>                                                             -- lines 32-53
      let s : Metric.Corr := ⟨h.val d, h.val c, h.val b, h.val a, h.val len, h.val in1d⟩
      let r := h.one s.forward
      ((), r.1, [r.2])
    | _, _ => ((), h, [])

/-- `ProgError.__init__`, `metric/metric.py:79-85`: the scaled source (a new tensor, line 79), `cycle`,
`one_cnt`, `pp`, `pe`. -/
def progErrorMk (scale : ℚ) (source : ℕ) (h : Mem) : Mem × ℕ × ℕ × ℕ × ℕ × ℕ :=
  let s := h.one (clamp (-1) 1 (h.val source / scale))
  let c := s.1.one 0
  let o := c.1.one 0
  let p := o.1.one 0
  let e := p.1.one 0
  (e.1, s.2, c.2, o.2, p.2, e.2)

/-- `ProgError.Monitor`, `metric/metric.py:87-89`. -/
def progWatch (cycle ones x : ℕ) (h : Mem) : Mem :=
  let t := h.one (h.val ones + h.val x)
  let h := t.1.setData ones t.2
  h.write cycle 0 (h.val cycle + 1)

/-- `ProgError.forward`, `metric/metric.py:91-96`, without the `return`. -/
def progReport (mode : Mode) (src cycle ones pp pe : ℕ) (h : Mem) : Mem :=
  let t := h.one (h.val ones / h.val cycle)                                      -- line 92
  let h := t.1.setData pp t.2
  let h := match mode with                                                       -- lines 93-94
    | .bipolar =>
      let t := h.one (h.val pp * 2 - 1)
      t.1.setData pp t.2
    | .unipolar => h
  let e := h.one (h.val pp - h.val src)                                          -- line 95
  e.1.setData pe e.2

/-- `ProgError`.  The report returns the parameters `pp` and `pe` themselves (`metric/metric.py:96`).
With `copy` the caller copies them at once.  A report before the first observation divides zero
by zero and is left out. -/
def progError (mode : Mode) (copy : Bool) (src cycle ones pp pe : ℕ) : Module Unit Meth where
  ps := [src, cycle, ones, pp, pe]
  call := fun _ h m args => match m, args with
    | .monitor, [x] => ((), progWatch cycle ones x h, [])
    | .report, [] =>
      if h.val cycle = 0 then ((), h, []) else
      let h := progReport mode src cycle ones pp pe h
      if copy then
        let p := h.one (h.val pp)
        let e := p.1.one (p.1.val pe)
        ((), e.1, [p.2, e.2])
      else ((), h, [pp, pe])
    | _, _ => ((), h, [])

/-- `Stability`, `metric/metric.py:131-139`.  `L`: the object `self.cycle` refers to, at first a
parameter of the module itself (line 125) and after the first observation that of the inner
`ProgError` (line 133).  `self.pe` is read only right after line 134, where it is the `pe` of the inner
module; `self.stability` is never read.  A report before the first observation is left out. -/
def stability (mode : Mode) (threshold : ℚ) (own cts src cycle ones pp pe : ℕ) : Module ℕ Meth where
  ps := [own, cts, src, cycle, ones, pp, pe]
  call := fun l h m args => match m, args with
    | .monitor, [x] =>
      let h := progWatch cycle ones x h                                          -- line 132
      let h := progReport mode src cycle ones pp pe h                            -- line 134
      let g := h.one (ind (|h.val pe| > threshold))                              -- line 135
      let d := g.1.one (g.1.val cycle - g.1.val cts)
      let h := d.1.write g.2 0 (d.1.val g.2 * d.1.val d.2)
      let h := h.write cts 0 (h.val cts + h.val g.2)
      (cycle, h, [])
    | .report, [] =>
      if h.val l = 0 then (l, h, []) else
      let r := h.one (1 - clamp 1 (h.val l) (h.val cts) / h.val l)               -- lines 138-139
      (l, r.1, [r.2])
    | _, _ => (l, h, [])

/-- `Stability.__init__`, `metric/metric.py:125-129`: `cycle`, `cycle_to_stable` and the inner `ProgError`.
(`pe` and `stability` made there are never read.) -/
def stabilityMk (scale : ℚ) (source : ℕ) (h : Mem) : Mem × ℕ × ℕ × ℕ × ℕ × ℕ × ℕ × ℕ :=
  let c := h.one 0
  let t := c.1.one 0
  let p := progErrorMk scale source t.1
  (p.1, c.2, t.2, p.2)

/-- `Correlation.__init__`, `metric/metric.py:11-16`. -/
def correlationMk (h : Mem) : Mem :=
  ((((((h.one 0).1.one 0).1.one 0).1.one 0).1.one 0).1.one 0).1

/-! ## `stream/gen.py` -/

/-- `BinGen.__init__` and `BinGen()`, `stream/gen.py:131-143`.  In unipolar mode `binary` first refers
to the storage of the source. -/
def binGen (mode : Mode) (width : ℕ) (same : Bool) (source : ℕ) (h : Mem) : Mem × ℕ :=
  let p := h.one 0                                                               -- line 135
  let h := match mode with                                                       -- lines 136-139
    | .unipolar => p.1.setData p.2 source
    | .bipolar =>
      let t := p.1.one ((p.1.val source + 1) / 2)
      t.1.setData p.2 t.2
  let t := h.one (h.val p.2 * 2 ^ width)                                         -- line 140
  let h := t.1.setData p.2 t.2
  let r := h.one (roundHE (h.val p.2))                                     -- line 141
  let u := r.1.typed same r.2
  (u.1.setData p.2 u.2, p.2)                                                     -- line 144

/-- One bit of `BSGen`, `stream/gen.py:174-175`: `binary` and `rng` are the objects given at construction
(lines 160-161), read at every call. -/
def bsGen (binary rng len : ℕ) (cycle : ℤ) (h : Mem) : Mem × ℕ :=
  h.one (ind (h.val binary > h.get rng (cycle % len).toNat))

end Verif.Share
