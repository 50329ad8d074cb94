import Verif.Model.Float
import Verif.Model.FloatGen
import Verif.Model.Linear

/-!
# Quantiles in binary32

`torch.quantile` on binary32 data, the scales `rshift_offset` measures with it and `RawScale`.  The positions are computed by Python, in
doubles, and converted to binary32 by `torch.quantile`.  `torch.lerp` may fuse its product with the addition, so results are given by
relations.
-/

namespace Verif.Float

open Verif Linear

/-- `0.5 - quantile / 2`, `stream/gen.py:96`, `kernel/utils.py:214,221`. -/
def posLower (q : ℚ) : ℚ := double.rd (1/2 - double.rd (q / 2))

/-- `0.5 + quantile / 2`, `stream/gen.py:97`, `kernel/utils.py:215,222`. -/
def posUpper (q : ℚ) : ℚ := double.rd (1/2 + double.rd (q / 2))

/-- `v` is a result `torch.lerp(a, b, w)` may give: it counts from the nearer end. -/
def LerpF (a b w v : ℚ) : Prop :=
  if w < 1/2 then v = fadd a (fmul w (fsub b a)) ∨ v = fl (a + w * fsub b a)
  else v = fsub b (fmul (fsub b a) (fsub 1 w)) ∨ v = fl (b - fsub b a * fsub 1 w)

/-- `r` is a result `torch.quantile(raw, p)` may give: tensors that are empty or have more than `2^24` elements are refused. -/
def QuantileF (raw : List ℚ) (p : ℚ) (r : Except PyErr ℚ) : Prop :=
  if raw = [] ∨ 2 ^ 24 < raw.length then r = .error .runtime
  else
    let a := raw.mergeSort (fun x y => decide (x ≤ y))
    let rank := fmul (fl p) (fl ((raw.length : ℚ) - 1))
    ∃ v, LerpF (a.getD ⌊rank⌋.toNat 0) (a.getD ⌈rank⌉.toNat 0) (fsub rank ⌊rank⌋) v ∧ r = .ok v

/-- `r` is a scale `rshift_offset` may measure, `kernel/utils.py:214-218,221-225`. -/
def QScaleF (data : List ℚ) (q : ℚ) (r : Except PyErr ℚ) : Prop :=
  ∃ lo hi, QuantileF data (posUpper q) lo ∧ QuantileF data (posLower q) hi ∧
    r = lo >>= fun a => hi >>= fun b => pure (max |a| |b|)

/-- `sc` is a way the scales may be measured. -/
def Measures (sc : List ℚ → ℚ → Except PyErr ℚ) : Prop := ∀ data q, QScaleF data q (sc data q)

/-- `r` is a result `RawScale(hwcfg={"quantile": q})(raw)` may give, `stream/gen.py:83-104`. -/
def RawScaleF (q : ℚ) (raw : List ℚ) (r : Except PyErr (List ℚ)) : Prop :=
  if ¬ (0 < q ∧ q ≤ 1) then r = .error .assertion                                       -- lines 92-93
  else ∃ lo hi, QuantileF raw (posLower q) lo ∧ QuantileF raw (posUpper q) hi ∧         -- lines 100-101
    r = lo >>= fun lower => hi >>= fun upper =>
      if max |lower| |upper| = 0 then .error .nonfinite else .ok (raw.map (rawScale lower upper))  -- lines 102-103

end Verif.Float
