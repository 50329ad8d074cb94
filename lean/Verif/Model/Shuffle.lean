import Verif.Basic

/-!
# Model of `stream/shuffle.py` (one lane)
-/

namespace Verif.Shuffle

open Verif

/-! ## SkewedSync -/

/-- State of `SkewedSync`: shape of the counter tensor and the counter of the lane
(`stream/shuffle.py:30`). -/
structure SS where
  shape : List ℕ
  cnt : ℤ
  deriving DecidableEq

/-- `SkewedSync.__init__`, `stream/shuffle.py:30`: `zeros(1)`. -/
def ssInit : SS := ⟨[1], 0⟩

/-- One call of `SkewedSync` on a tensor of shape `i.1` with lane values `in_1 = i.2.1`,
`in_2 = i.2.2`; result `(out_1, in_2)`.  `stream/shuffle.py:29,32-42`. -/
def ssStep (depth : ℕ) (s : SS) (i : List ℕ × ℤ × ℤ) : SS × (ℤ × ℤ) :=
  let upper : ℤ := 2 ^ depth - 1                                            -- line 29
  let in1 := i.2.1
  let in2 := i.2.2
  let sum := in1 + in2                                                      -- line 34
  let cnt := if s.shape ≠ i.1 then 0 else s.cnt                             -- lines 35-36
  let notMin : ℤ := ind (cnt ≠ 0)                                           -- line 37
  let notMax : ℤ := ind (cnt ≠ upper)                                       -- line 38
  let out1 := in1 + ind (sum = 1) * (notMin * (1 - in1) + (0 - notMax) * in1)  -- line 40
  let cnt' := clamp 0 upper (cnt + ind (sum = 1) * (in1 * 2 - 1))           -- line 41
  (⟨i.1, cnt'⟩, (out1, in2))                                                -- line 42

/-! ## Bi2Uni, Uni2Bi -/

/-- `2**(depth-2)`, the accumulator bound (`stream/shuffle.py:72-74,112-114`, `kernel/add.py:47-49`).
`depth` may be any Python integer; `2**(-1) = 0.5`. -/
def accBound (depth : ℤ) : ℚ := (2 : ℚ) ^ (depth - 2)

/-- One call of `Bi2Uni`, `stream/shuffle.py:76-82`.  The second clamp (line 81) is applied to a
temporary and discarded by the code, so it does not appear. -/
def bi2uniStep (depth : ℤ) (acc : ℚ) (input : ℤ) : ℚ × ℤ :=
  let a := clamp (-accBound depth) (accBound depth) (acc + ((input : ℚ) * 2 - 1))  -- line 79
  let out : ℤ := ind (a ≥ 1)                                                  -- line 80
  (a - out, out)                                                              -- lines 81-82

/-- One call of `Uni2Bi`, `stream/shuffle.py:116-123` (second clamp discarded as well). -/
def uni2biStep (depth : ℤ) (acc : ℚ) (input : ℤ) : ℚ × ℤ :=
  let a := clamp (-accBound depth) (accBound depth) (acc + ((input : ℚ) + 1))  -- lines 119-120
  let out : ℤ := ind (a ≥ 2)                                                  -- line 121
  (a - out * 2, out)                                                          -- lines 122-123

end Verif.Shuffle
