import Verif.Basic
import Mathlib.Data.Nat.Bitwise

/-!
# Model of `stream/gen.py`

Number sequences (`RNG`), scaling (`RawScale`), binary conversion (`BinGen`) and bitstream
generation (`BSGen`).  Tensors of sequence data are lists of integers; source data are exact
rationals (the code uses binary32).
-/

namespace Verif.Gen

open Verif

/-! ## Sequences -/

/-- Index of the rightmost zero bit of `i`, used by the Sobol engine behind
`stream/gen.py:58` (external: `torch.quasirandom.SobolEngine.draw`). -/
def rightmostZero (i : ℕ) : ℕ :=
  if h : i % 2 = 0 then 0 else 1 + rightmostZero (i / 2)
termination_by i
decreasing_by omega

/-- Raw state of one Sobol dimension after `i` transitions: it starts at `0` and transition `i`
xors in direction number `rightmostZero i` (Gray-code order).  `v j` is the direction number
scaled to `maxbit` bits.  External behaviour behind `stream/gen.py:58`. -/
def sobolQuasi (v : ℕ → ℕ) : ℕ → ℕ
  | 0 => 0
  | i + 1 => sobolQuasi v i ^^^ v (rightmostZero i)

/-- Direction numbers `m j` (odd, `m j < 2^(j+1)`) scaled to `maxbit` bits
(`sobolstate` of the engine; `maxbit = 30` in PyTorch). -/
def sobolDir (maxbit : ℕ) (m : ℕ → ℕ) (j : ℕ) : ℕ := m j * 2 ^ (maxbit - 1 - j)

/-- `stream/gen.py:58`: `SobolEngine(dimr).draw(2**w)[:, dimr-1].mul_(2**w)` followed by `floor`
(`stream/gen.py:71`). The engine divides the raw state by `2^maxbit`. -/
def sobolSeq (maxbit w : ℕ) (m : ℕ → ℕ) : List ℤ :=
  (List.range (2 ^ w)).map fun i =>
    ⌊((sobolQuasi (sobolDir maxbit m) i : ℚ) / 2 ^ maxbit) * 2 ^ w⌋

/-- `stream/gen.py:61,71`: `[x/len for x in range(len)] * len`, floored. -/
def raceSeq (w : ℕ) : List ℤ :=
  (List.range (2 ^ w)).map fun x : ℕ => ⌊((x : ℚ) / 2 ^ w) * 2 ^ w⌋

/-- `stream/gen.py:64,71`: the flipped sequence, floored. -/
def race10Seq (w : ℕ) : List ℤ :=
  ((List.range (2 ^ w)).map fun x : ℕ => ((x : ℚ) / 2 ^ w) * 2 ^ w).reverse.map fun q => ⌊q⌋

/-- `stream/gen.py:12-14`: binary value of a register state, first cell most significant. -/
def lfsrValue (w : ℕ) (state : ℕ → Bool) : ℤ :=
  ∑ j ∈ Finset.range w, (if state j then 1 else 0) * 2 ^ (w - 1 - j)

/-- `stream/gen.py:6-17,67,71`: `2**w` values sampled before each `L.next()`.  `states t` is the register
content after `t` calls of the external `next`. -/
def lfsrSeq (w : ℕ) (states : ℕ → ℕ → Bool) : List ℤ :=
  (List.range (2 ^ w)).map fun i => lfsrValue w (states i)

/-- The external sources of numbers: Sobol direction numbers (of the requested dimension), the
register history of the chosen LFSR, and the outcome of `torch.randperm`. -/
structure Env where
  maxbit : ℕ
  sobolM : ℕ → ℕ
  lfsrStates : ℕ → ℕ → Bool
  randperm : List ℕ

/-- `RNG.__init__`/`forward`, `stream/gen.py:28-74`. -/
def rng (env : Env) (width : ℕ) (name : String) : Except PyErr (List ℤ) :=
  let r := name.toLower                                                         -- line 49
  if ¬ r ∈ ["sobol", "race", "lfsr", "sys", "rc", "tc", "race10", "tc10"] then    -- lines 54-55
    .error .assertion
  else if r = "sobol" ∨ r = "rc" then .ok (sobolSeq env.maxbit width env.sobolM)  -- lines 56-58
  else if r = "race" ∨ r = "tc" then .ok (raceSeq width)                         -- lines 59-61
  else if r = "race10" ∨ r = "tc10" then .ok (race10Seq width)                   -- lines 62-64
  else if r = "lfsr" then .ok (lfsrSeq width env.lfsrStates)                     -- lines 65-67
  else .ok (env.randperm.map fun x : ℕ => ⌊(x : ℚ)⌋)                                 -- lines 68-71

/-! ## RawScale -/

/-- `torch.quantile(raw, q)` for `0 ≤ q ≤ 1` on a non-empty flattened tensor: linear interpolation between the
order statistics around position `q * (n-1)`.  Errors on the empty tensor. -/
def quantile (raw : List ℚ) (q : ℚ) : Except PyErr ℚ :=
  if raw = [] then .error .runtime
  else
    let a := raw.mergeSort (fun x y => decide (x ≤ y))
    let pos := q * ((raw.length : ℚ) - 1)
    let lo := a.getD ⌊pos⌋.toNat 0
    let hi := a.getD ⌈pos⌉.toNat 0
    .ok (lo + (pos - ⌊pos⌋) * (hi - lo))

/-- `RawScale.__init__`, `stream/gen.py:83-97`: the pair `(quantile_lower, quantile_upper)`. -/
def rawScaleInit (q : ℚ) : Except PyErr (ℚ × ℚ) :=
  if 0 < q ∧ q ≤ 1 then .ok (1/2 - q/2, 1/2 + q/2) else .error .assertion

/-- `RawScale.forward`, `stream/gen.py:99-104`.  A zero `scale` divides `0/0` (all clamped data
are `0`), reported as `nonfinite`. -/
def rawScale (q : ℚ) (raw : List ℚ) : Except PyErr (List ℚ) := do
  let (ql, qu) ← rawScaleInit q
  let lower ← quantile raw ql
  let upper ← quantile raw qu
  let scale := max |lower| |upper|
  if scale = 0 then .error .nonfinite
  else .ok (raw.map fun x => clamp lower upper x / scale)

/-! ## BinGen -/

/-- `BinGen.__init__`/`forward`, `stream/gen.py:111-144`, for one element and a parsed mode. -/
def binGenM (mode : Mode) (width : ℕ) (source : ℚ) : ℤ :=
  let b := match mode with
    | .unipolar => source                                                      -- line 137
    | .bipolar => (source + 1) / 2                                             -- line 139
  roundHE (b * 2 ^ width)                                                      -- lines 140-141

/-- `BinGen` with the mode check of lines 131-134. -/
def binGen (mode : String) (width : ℕ) (source : ℚ) : Except PyErr ℤ := do
  let m ← parseMode mode
  pure (binGenM m width source)

/-! ## BSGen -/

/-- `BSGen.__init__`, `stream/gen.py:164-166`: the length must be a power of two
(`int(log2 len)` equals floor and ceiling of `log2 len`); `log2(0)` raises. -/
def bsGenInit (rng : List ℤ) : Except PyErr (List ℤ) :=
  if rng.length = 0 then .error .value
  else if 2 ^ (Nat.log2 rng.length) = rng.length then .ok rng
  else .error .assertion

/-- `BSGen.forward`, `stream/gen.py:174-175`: `binary > rng[cycle % len]`. -/
def bsGen (rng : List ℤ) (binary : ℤ) (cycle : ℤ) : ℤ :=
  ind (binary > rng.getD (cycle % rng.length).toNat 0)

end Verif.Gen
