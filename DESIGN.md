# Formal model of UnarySim: design and trusted base

Source: `/repo` (diwu1990/UnarySim, Python/PyTorch, and the SystemVerilog under `hw/`).  The code was read as text and was neither built nor run.  The model
and the proofs are in Lean 4 under `lean/Verif/`; `lake build` in `lean/` checks everything.

## 1. Trusted base

* Lean 4.33.0's kernel and Mathlib as installed.
* Axioms: only `propext`, `Classical.choice`, `Quot.sound`.  `AXIOMS.md` lists them per theorem (generated by
  `tools/axioms.py` from `#print axioms`).  No axiom is declared; `sorry`, `admit`, `native_decide`, `bv_decide`,
  `implemented_by` and `unsafe` are not used.
* The reading of the Python text into Lean definitions.  Every definition cites file and lines.  This is the only
  non-mechanical step; section 3 lists the simplifications, section 5 what is left out.
* The behaviour assumed for PyTorch and Python primitives, listed in section 3.

## 2. Layout

| path | content |
|------|---------|
| `Verif/Basic.lean` | errors as values, bits, clamp, half-to-even rounding, truncation, the generic machine "called once per cycle" (also a failing one) |
| `Verif/Model/*.lean` | the code, function by function, with citations |
| `Verif/Spec.lean`, `Verif.Props.Spec.*` | independent specifications: counts, running sums, reflected sums, window counts, values of streams, nets |
| `Verif/Proofs/*.lean` | helper lemmas |
| `Verif/Props/*.lean` | the property theorems `Cxx_…` and a concrete `example` beside each |
| `tools/manifest.py`, `tools/axioms.py`, `tools/mutate.py` | regenerate `MANIFEST.json`, `AXIOMS.md`; mutation testing |
| `seeded/LOG.jsonl` | one line per mutation attempt (section 7) |

## 3. Modelling decisions

* **Streams and machines.**  A module called once per clock cycle is a step function `S → I → S × O`; a history is a
  function `ℕ → I` and claims are about every prefix length `n`.  Sizes, widths, depths and lengths are unbounded.
* **Lanes.**  Element-wise modules are modelled for one tensor element with its own slice of the state.  C100 proves this sound for the
  converters, sign and absolute value, ReLU, flip-flop, synchroniser, multipliers, adder, register, divider and square root: on tensors
  (`Model/Tensor.lean`) every element behaves like the lane.  Where the code is
  not element-wise (sum over a dimension, `matmul`, `unfold`, reset of state on a change of shape, parameters of shape
  `[1]`, batch broadcast) the model has the vector, list or shape explicitly.
* **Numbers.**  Tensor data are exact integers or rationals.  Binary floating point is modelled in
  `Model/Float.lean`, `Model/FloatLin.lean`, `Model/FloatTlut.lean` and `Model/FloatRnn.lean` (C69–C71, C87, C88, C90, C91): rounding to nearest even with 24 significant bits and gradual underflow, no overflow, `torch.sum` as
  additions in any order and grouping.  C69 proves the streaming modules exact in it, C70 and C71 bound or refute; C87 does the
  fixed-point and hybrid layers (`torch.matmul` as additions in any order and grouping, possibly fused; `torch.log2` any function of
  stated accuracy; quantile one).  C90 does the look-up layers and the gradients, C91 the hard recurrent cells (not the soft ones).  C95 measures quantiles below one in binary32.  C97 does networks of stream layers, C98 recurrent cells.
* **Errors** (`assert`, wrong index, missing attribute, division by zero, nan) are values of `Except PyErr`.
* **PyTorch primitives assumed.**
  - `torch.round` rounds half to even, `trunc` towards zero, `floor` down; `clamp(lo,hi)` is `min(max(x,lo),hi)`;
    `%` on integers is floor-mod (also for negative cycle indices).
  - `>> n`, `<< n` on float tensors are division and multiplication by `2^n` (the old PyTorch behaviour the code needs).
  - `torch.quantile` interpolates linearly between order statistics at position `q*(n-1)`; in binary32 (C95) the position is rounded to
    binary32 before and after the product, `lerp` counts from the nearer end and may fuse, and more than `2^24` elements are refused.
  - `SobolEngine(dim).draw` is the Gray-code Sobol recurrence from 0; direction numbers `m_j` are arbitrary odd numbers
    below `2^j` (no table is assumed, so all dimensions are covered); resolution `maxbit` bits.
  - `randperm` returns some permutation; `torch.Tensor.normal_` returns arbitrary numbers.
  - the LFSR package visits the states of a maximal-length register: an arbitrary single cycle over the non-zero states.
  - `unfold`, `fold`, `transpose`, `view`, `matmul`, `cat`, `stack`, `roll`, `gather` by their documented index maps.
  - `torch.log2`, `math.log2` followed by `floor`/`ceil`/`round` on exact values (rounding at `√2` decided exactly).
* **Hardware** (`Model/Rtl.lean`).  Wires are `Bool`, registers `BitVec n` with wrap-around.  A clocked module is a step function
  from registers and inputs of a cycle to the registers after the clock edge and the combinational outputs of the cycle.  Reset
  happens once, before cycle 0.  `{{DEP-1}{1'b0}}` is read as `DEP-1` repetitions.  Files under `hw/kernel/old` that exist in
  several copies are modelled once, with the width as a parameter.
* **Checkpoints.**  `torch.nn.Module` registers exactly the attributes that are `Parameter`s.  `.type(t)` of a parameter is that parameter if it already has type
  `t` and a plain tensor otherwise; `unsqueeze` and `view` give plain tensors.  `load_state_dict` copies every parameter whose shape agrees with the saved one, leaves
  the others, and raises at the end if there was one.  `.data = …` changes the shape of a registered parameter.  A checkpoint is a copy.
* **Memory.** Only C104 and C106 to C108 model objects and storages. In C104: one lane, rational numbers, and of types only whether `.type` copies. In C106: the order of the tensor
  operations and which storage each reads, writes, makes or shares; what it computes is any function of whole storages, so a view of a part counts as the whole; operations that change only
  sizes in place, what `save_for_backward` keeps, calls that raise and attributes that are only written are left out. All other theorems treat tensors as values, which C104
  and C106 justify for the modules named there and for no others.
* **Autograd.**  `Function.backward` bodies are modelled as functions; that PyTorch calls them with the saved tensors is assumed. In the
  convolution layers PyTorch also differentiates `unfold`, `fold`, `transpose`, `reshape`, `view` and the broadcast bias; their derivative is taken
  to be the adjoint index map.

## 4. Properties: what is modelled and how it is proved

`properties.jsonl` has the full statements; `MANIFEST.json` the theorem names.

| id | code | proof |
|----|------|-------|
| C01, C03, C06, C07 | `BSGen`, `BinGen`, `ProgError` | counting over a period through the permutation, periodicity, pointwise order |
| C02, C08 | `RNG` incl. the Sobol recurrence | GF(2) triangular map is injective; dyadic blocks, induction on binary digits of the prefix length |
| C04 | LFSR branch of `RNG` | orbit is a bijection onto the non-zero states plus one repeat |
| C05 | `BinGen` | half-to-even rounding lemmas |
| C09, C58 | `RawScale`, `rshift_offset` | order statistics, bounds on `Int.log` |
| C10, C11 | `SkewedSync` | inductive invariants, window argument |
| C12, C13 | `Bi2Uni`, `Uni2Bi` | invariants against an independent reflection / floor specification |
| C14, C15 | `Correlation` | invariants on the four counters, then algebra |
| C16, C17 | `ProgError`, `Stability` | invariants |
| C18–C23 | `FSUAdd` | inductive invariants, coupling of two runs |
| C24–C27 | `FSUMul` | count lemmas; bisimulation with a static multiplier after warm-up |
| C28–C32 | `JKFF`, `ShiftReg`, `FSUSignAbs`, `FSUReLU`, sigmoid/tanh/HUB activations | characterisation of the whole history |
| C33–C35 | `CORDIV_kernel`, `FSUDiv` | invariants; index bounds |
| C36, C37 | `FSUSqrt` | greedy acceptance specification, balance invariant |
| C38–C43 | `utils.py` | integer arithmetic, rounding lemmas |
| C44, C45, C57 | `FSULinearPC`, `FSULinear` | per-feature histories, sums over features |
| C46, C47 | `HUBLinear` | table monotonicity, net bounds |
| C48 | `FXPLinear` | rounding and clamp bounds |
| C49, C50 | `TLUTLinear` | digit recursion |
| C51 | all `backward` | adjoint identity and uniqueness |
| C52, C53 | `FSUConv2d(PC)`, `HUBConv2d`, `FXPConv2d`, `TLUTConv2d` | index arithmetic of unfold/fold |
| C54, C55 | `HardMGUCell`, `HardMGUCellFXP` | induction over the sequence, convexity, rounding |
| C56, C59 | `FSUMGUCell`, `HUBMGUCell` | composition of machines, balance invariant |
| C60–C62 | `FSUAdd`, `FSUMul`, `FSULinear`, `FSUMGUCell` | window deviation ("steady" streams) propagated through every block, reflection argument for saturation |
| C63–C68 | `hw/*.sv` against the Python modules | bisimulation of the two machines or comparison of their characterised outputs; `BitVec` arithmetic |
| C69–C71 | `FSUAdd`, `Bi2Uni`, `Uni2Bi`, `SkewedSync`, `FSUSignAbs`, `BinGen`, `RawScale`, `ProgError`, `Correlation` in binary32 | properties of rounding proved from the definition (nearest, monotone, exact on grids), then invariants "on the grid and in range" |
| C72 | chains of `FSULinear`, `FSUReLU`, `FSUHardsigmoid`, `FSUHardtanh`; `FSUConv2d` | induction over the chain with the steady-rate theorems of the blocks (`Model/Net.lean`: a chain is called like `torch.nn.Sequential`) |
| C73 | chains of `FSUConv2d` and activations, then `flatten` and C72 | as C72, on image batches (`Model/ImgNet.lean`) |
| C74 | `HUBMGUCell`, `HardMGUCellFXP` against `HardMGUCell` over sequences | Lipschitz constant of the cell, induction on the steps |
| C75 | constructor checks of `TLUT*`, `FXP*`, `HUB*` and `FSUMGUCell` (`Model/Config.lean`) | case analysis over all configurations and shapes |
| C76 | the remaining `hw/kernel/div` and `hw/kernel/sqrt` modules (`Model/RtlMore.lean`) | counter invariants, integers modulo a power of two, refinement to `CORDIV_kernel` |
| C77, C78 | multipliers and adders of `hw/kernel/old` (`Model/RtlOld.lean`) | states characterised through the Sobol generator's permutation and period; counting; refinement to `FSUAdd` and to the HUB table |
| C79 | units of `hw/kernel/old/MAC16` | composition of lanes and adder; the numbers of a wide Sobol generator start with those of a narrow one, up to a known bit |
| C80 | `grayCode`, `HaltonSeq2/3/5` of `hw/stream/old` | digit registers are the digits of the cycle number; digit reversal is an involution; prefixes split into aligned blocks |
| C81 | the remaining kernels of `hw/kernel/old` | exact counter values; balance of the up/down counter; tape of valid dividend bits |
| C82 | `exp` of `hw/kernel/old` | closed form over four cycles, nested means, Taylor bounds |
| C83 | bipolar `FSUDiv` | refinement to the outputs of the six units; clipped-walk invariant |
| C84 | bipolar `FSUSqrt` | causal fixed-point equation and its uniqueness; potential argument for the residue |
| C85 | HUB layers, any cycle count, rounding and quantile | quantisation, clipping and table error combined |
| C86 | gradients of the convolution layers | adjoint of im2col, reduction to C51, uniqueness |
| C87 | FXP/HUB linear and convolution layers in binary32 | integer partial sums are exact in any order; scaling by powers of two is exact |
| C88 | `rshift_offset` with an inexact `log2` | interval argument at the rounding boundaries |
| C89 | constructors of multiplier, counter, linear and convolution layer, recurrent stream cell | both directions by following the failing binds |
| C90 | any binary32 dot product; TLUT linear and convolution layers and gradients in binary32 | induction over the summation tree; grid and magnitude invariant of the digit loop |
| C91 | `HardMGUCell` and `HardMGUCellFXP` in binary32, over sequences | forward error of each line, then the Lipschitz constant of C74; grid argument for the fixed-point cell |
| C92 | `scale` and `entry` arguments of `FSUAdd`, `FSULinear`, `FSUConv2d` | simulation between the two machines, including failing calls |
| C93 | `FXPLinear`, `HUBLinear`, `TLUTLinear`, `rshift_offset`, `FSULinear` | quantile of permuted, scaled and negated data (uniqueness of sorting), oddness of rounding, truncation and digit loop |
| C94 | `FXPConv2d`, `HUBConv2d`, `TLUTConv2d`, `FSUConv2d`, `FSUConv2dPC` | every output written as a sum over the window of a product rule that depends on the multiset of pixels only; streams: row independence of the linear layer |
| C95 | `torch.quantile`, `RawScale`, scales of FXP, HUB, TLUT layers in binary32 | rounding of the position in doubles and binary32, interpolation from the nearer end stays between its ends; layers take the measured scale as a parameter |
| C96 | `rtype`, `btype`, `stype` of streams, `SkewedSync`, `Bi2Uni`, `Uni2Bi`, `FSUSignAbs`, `FSUReLU`, `FSUAdd`, `FSULinearPC` | a type is a rounding or wrapping function applied after every operation; refinement of the exact machine while the counters stay in the range the type holds |
| C97 | chains of `FSULinear`, `FSUConv2d` and activations in binary32 (`Model/FloatNet.lean`: a module is a relation, since a matrix product may add in any order) | simulation, module by module, of the exact machine with the stored weights: counts are exact integers, accumulators stay on a grid of 24 bits; then C72, C73 |
| C98 | `FSUMGUCell` and `HUBMGUCell` in binary32 (`Model/FloatMgu.lean`, relational as C97) | existence: the six blocks of C56 each have a binary32 run with the exact output; uniqueness: a call on bits has one result, as registers hold bits and sums of bits are exact; then C59, C62 on the stored numbers |
| C99 | the kernel as a tape of valid bits (C33) | any `entry` consecutive reads of an unchanged register give each cell once; induction over gaps; windows of steady streams; for odd periods the read positions run through all residues; witnesses of any even period that fits |
| C100 | modules on tensors of any shape (`Model/Tensor.lean`: PyTorch broadcasting, in-place operations, sum over a dimension, stacking, views) against one lane | the state has the join of all shapes seen; one call lifts element-wise; induction over calls; for registers an invariant on their cells |
| C101 | means over all inputs of a given length with independent bits, of the flip-flop, multipliers, divider and square root | the mean over one more cycle splits off its last bit; recurrences for the state's mean; the window count has the same law at every cycle, and a permutation read one after another averages it |
| C102 | `state_dict`/`load_state_dict` of a module after any calls into a new one (`Model/Checkpoint.lean`) | invariants on the shapes and flags of the saved state (C100's joins); the loaded state equals the saved one, or only differs in a field that later calls do or do not read |
| C103 | two runs of the adder, converters, rectifier, synchroniser, multipliers, divider kernel, a fully connected and a convolution layer and chains of layers on histories that differ in some bits | coupling invariant: difference of the counts and of the accumulators stay in an interval given by the raised and lowered bits, clipping only shrinks it; witnesses as periodic runs where no bound exists |
| C104 | the converters, rectifier, sign-and-magnitude, flip-flop, shift register, adder, correlation, progressive error, stability and the generators, the divider, the multiplier and the square root, written again over a memory of objects and storages (`Model/Share.lean`, `Model/ShareDeep.lean`) | refinement: a contract per call (what is left alone, where results live, that parameters hold the value state) lifted to all sequences of caller actions by an invariant that keeps the caller's storages and the module's apart; a module made of modules is composed from the contracts of its parts, whose objects are kept apart from each other (`Proofs/ShareStage.lean`) |
| C105 | `Model/Report.lean`: `tensor_unary_outlier`, `progerror_report` on lists of elements, square roots over the reals | folds for range and counts, expansion of the squared deviations, C16's decoded value |
| C106 | `Model/ShareProg.lean`, `Model/ShareLayer.lean`: the tensor operations of each forward pass in order, as data: what each reads, makes, writes or assigns; what it computes is a parameter of the theorem. TLUT: the temporaries of a round are made once and overwritten by the later rounds | a check on lists of operations (ownership labels: of an argument, of a class, stale) proved sound for value semantics by simulation; the check is evaluated by the kernel per option, and lifted over rounds because the body keeps all labels |
| C107 | `Model/ShareNet.lean`: the modules of C106 side by side in one memory, made one after the other; a call names its module | the contract of one call, proved for a network from the contracts of its modules (objects and storages of different modules stay apart); non-interference by replaying the deeds against one module |
| C108 | `Model/ShareHub.lean`: `HUBMGUCell` keeping references, its call making and running an `FSUMGUCell` in the same memory; calls that do not raise (a missing weight does, C59) | an invariant of the memory during the call: what was there before is unchanged, what the inner cell owns is new; the contract of the inner cell (C106) in every cycle, induction on the cycles |

Violated intentions are stated and proved as negations or exact characterisations: C13_depth3_loses, C13_dead,
C18_negative_scale_resaturates, C19_too_shallow, C21, C34, C36_alternating, C37_sequence_unused, C40, C42_schedule,
C44_bias_needs_value, C44_batch_change, C45_silent, C46_widths_differ, C46_temporal_weight, C46_no_cycle, C48_exceeds,
C52_pair_padding, C55_no_intwidth, C64_bi2uni_wraps, C66_second_period, C67_unsadd8, C67_unsadd16_negative, C68_cordiv_locks,
C68_bipolar_sqrt, C68_sqrt_feed, C68_skewed_sync_int, C69_convert_stuck, C70_double_rounding, C71_exhausted, C71_correlation_witness,
C72_relu_shallow, C75_weight (extra dimensions pass), C75_zero_cycle, C76_in_stream_wrap, C76_in_stream_bipolar,
C76_sqrt_is_small, C76_sqrt_is_bipolar, C76_sqrt_o_wrap, C77_gaines_uni_not_product, C77_gaines_bi_not_product, C77_deterministic_uni,
C77_deterministic_bi, C77_temporal_bi_stuck, C78_mux_rng_correlated, C78_apc_tight, C78_unsadd16_uni_wraps,
C79_gaines_scaled_dead, C79_gaines_nonscaled, C79_deterministic_scaled, C79_temporal_scaled_dead, C79_temporal_nonscaled,
C81_relu, C81_sqrt_stuck, C81_sqrt_zero, C81_gdiv_floor, C81_skewed_sync, C81_iscbdiv_stuck, C81_is_sqrt_select, C81_cordivall_wrap, C84_jk_phase, C85_zero_cycle, C87_order,
C93_interference, C93_swamped, C94_unreached, C96_loss, C96_relu_swapped, C96_signabs_wrap, C96_unsigned_sync, C96_unsigned_signabs,
C96_add_loss, C96_counter_wrap, C99_locked, C99_quarter, C100_resized, C100_inherits, C101_sqrt_low, C102_typed, C102_add_width, C102_add_scale, C102_shiftreg, C102_mul_stream, C102_in_part, C102_cordiv, C102_div, C102_sqrt, C102_stability, C102_linear, C102_fsu_linear, C102_fsu_conv, C102_fsu_conv_differs, C103_mul_first_unbounded, C103_signabs_unbounded, C103_jkff_unbounded, C103_div_unbounded, C103_relu_counts_needs_room, C104_jkff_int8_shared, C104_sync_second_shared, C104_progerror_shared, C104_bsgen_shared, C105_relative_zero, C105_value_fails, C106_relu_inplace, C106_hub_linear_ext, C106_fxp_linear_ext, C106_hub_conv_ext, C106_fxp_conv_ext, C106_tlut_linear_ext, C106_tlut_conv_ext, C91_fixed_needs, C108_write_shows.

## 5. Modelled and not modelled

Modelled (Python line ranges are in the comments): `stream/gen.py` and `stream/shuffle.py` (all classes),
`metric/metric.py` (all classes), `kernel/`: `add`, `mul`, `div`, `sqrt`, `jkff`, `shiftreg`, `signabs`, `relu`,
`sigmoid`, `tanh` (all classes), `utils` (`NN_SC_Weight_Clipper`, `Round`, `truncated_normal`, `num2tuple`, the four
convolution shape functions, `rshift_offset`, the two reports), `linear` and `conv` (all layers, forward and backward), `rnn`
(all four cells).  Of `hw/`: `SkewedSync`, `Bi2Uni`, `Uni2Bi`, `SkewedSyncInt`, `JKFF`, `Abs`, `Sign`,
all of `kernel/div` and `kernel/sqrt`, `uMUL_uni/bi` with the Sobol generator, `parallelCnt7/15`, `uSADD8/16`,
`uNSADD8/16`, all units of `MAC16`, `gMUL`, `dMUL`, `tMUL`, `muxADD`, `dADD`, `orADD`, `apcADD`, `apcadd16`, `bADD`, `bMUL`, `mac`, `grayCode`,
`HaltonSeq2/3/5` with their `ModCnt`, `relu`, `sqrt`, `sqrtJK`, `jkdivbisqrt`, `gdiv4b/5b`, `gsqrt4b/5b`, the old `skewedSync`, `cordiv`,
`iscbdiv`, `iscbdivbisqrt`, `cordivall`, `exp`.

Not modelled:

* the formatting of the lines `utils.tensor_unary_outlier` and `utils.progerror_report` print; `__init__` bookkeeping of `swcfg/hwcfg` copies;
* `reset_parameters`; the constructors of `torch.nn.Linear`/`Conv2d`; the theorems on layers take weights of the right shape (a
  tensor with extra dimensions passes the check, C75_weight, and fails later in torch);
* devices, CUDA autocast, dtypes other than the default float except in C96 (there: no overflow of floating
  point to infinity, no conversion of a number to an integer type that cannot hold it);
* random initial weights (any weights are allowed), training loops, the tests, README, `app/`;
* `stream/old/Sobol8bit` (`SobolRNGnine` has syntax errors and unconnected clocks), `stream/old/SobolSeq2`, `stream/old/sync`, `squash`,
  `softmax` (empty or not compilable), test benches; timing, reset during operation, synthesis scripts.

## 6. Findings

Deviations of the code from what its names, comments or documentation suggest, found while modelling.  Those with a
theorem are proved; the others are remarks.

* `CORDIV_kernel` with a non-power-of-two `entry` is accepted and raises after `2^floor(log2 entry)` calls (C34).
* The quotient of `FSUDiv` can stay wrong for ever when the streams repeat with a multiple of `entry` cycles, as all streams of `BSGen` do: the same register
  cell is read in the same cycle of every period (C99_locked, C99_quarter).
* The stream modules keep state in the broadcast shape of everything seen: a second batch of another size above one raises, and after a call on a
  single element every element of the next batch inherits its state (C100_resized, C100_inherits).  Only `SkewedSync` starts again.
* `FSUSqrt` with the flip-flop trace: the comment `P_trace = P_out/(P_out+1)` takes the output and the flip-flop for independent, which they are not.  On
  random bits of rate `p` the output has rate `2p/(1+p)`, below `sqrt p` for every `0 < p < 1` (C101_sqrt, C101_sqrt_low).
* `CORDIV_kernel` without a synchroniser divides nothing: on independent streams it returns the dividend's rate (C101_kernel).
* Checkpoints: state that is not a `Parameter` is silently lost (`Bi2Uni`/`Uni2Bi` with another `btype`, `wrdx_i1`/`wrdx_i0` of `FSULinearPC` and likewise of
  `FSUConv2dPC`, `cycle_to_stable` of `Stability`, `first`, `entry` and `scale` of `FSUAdd`, `first` of `ShiftReg`); parameters that take the shape of the input make
  `load_state_dict` raise after it has changed the other parameters (C102).  For an `FSULinear` or `FSUConv2d` that is every checkpoint taken after a
  call, even with one row and one output (C102_fsu_linear, C102_fsu_conv); a new convolution on which the load failed pads its border with the other bit if the
  saved one had been called an odd number of times (C102_fsu_conv_differs).
* `Stability` with a scalar source (no dimension) raises at its first observation, because the error then has one dimension (C17_shape).
* One wrong bit can change a result for good: it shifts the number sequence of an in-stream `FSUMul` against the window of the other stream, moves the counter of
  `FSUSignAbs` away from its middle (an alternating input has magnitude one there and zero two steps above), and is kept by a `JKFF` and by the register of
  `CORDIV_kernel` until something overwrites it (C103).
* Once the counter of `FSUReLU` is at its upper end, ones are dropped from it, so the order of the input bits decides how many ones the output has: two inputs whose counts
  never differ by more than one give output counts that drift apart without bound (C103_relu_counts_needs_room).
* `ProgError` returns its parameters `pp` and `pe` themselves, so a report that was kept changes with the next one; `JKFF` with `stype` `int8` returns the flip-flop itself (`.type` is no
  copy then), so writing into a result flips the state; `SkewedSync` returns `in_2` itself; `BSGen` reads the caller's tensors at every call (C104).
* `progerror_report(report_value=True)` reads `progerror.in_value`, which no class has; its relative error divides by the measured value instead of the source (C105).
* `HardMGUCellFXP` in single precision is not exact once its sums need more than 24 bits (C91_fixed_needs).
* The hybrid, fixed-point and TLUT layers keep the tensors given as `weight_ext` and `bias_ext` (`self.weight.data = weight_ext`), so a caller reusing its tensor changes the layer; the streaming layers copy (C106). `HUBMGUCell` keeps its four in the same way (C108).
* `FSUSqrt`: `idx` is never advanced, so the number sequence and `entry_kn` are unused (C37_sequence_unused); the
  JK-trace variant maps the alternating stream to constant one (C36_alternating).
* `convtransp2d_get_padding` halves the padding twice (C40).
* `NN_SC_Weight_Clipper` ignores its `method` argument (C42_schedule).
* `HUBLinear` with `cycle=None` raises `TypeError` (C46_no_cycle); different widths above one raise (C46_widths_differ);
  with temporal-coded weights the table is indexed with operands exchanged (C46_temporal_weight).
* HUB rounding `"round"` clips values up to √2 times the range, `"floor"` up to 2 times (C58_overshoot).
* `FXPLinear` integers can exceed the nominal `2^(width-1)` range (C48_exceeds).
* `FSULinearPC` with `bias=True` but no `bias_ext` raises (C44_bias_needs_value); changing the batch size between two
  values above one raises (C44_batch_change).
* `FSULinear` is silent when `in_features + bias > 2^(depth-2)` and inexact when `2N-1 > 2^(depth-2)` (C45_silent, C19_too_shallow).
* `FSUConv2d` with a pair as `padding` pads only the last axis (C52_pair_padding, C52_pair): the call fails, or, if stride hides the difference, silently uses other windows.
* The rows of a batch influence each other in the layers that measure their scale from the data (C93_interference, C93_swamped); with cycle zero `TLUTLinear` is not odd (C93_zero_cycle).
* `FXPConv2d` depends on pixels that no window covers, since the scale is measured on the whole batch (C94_unreached); `TLUTConv2d` measures it on the unfolded windows and does not (C94_lookup).
* `FSUReLU` exchanges `btype` and `stype`, so the counter lives in the type of the streams; `int8` streams with a depth of seven wrap it
  (C96_relu_swapped).  `FSUSignAbs` wraps likewise when `btype` is `int8` (C96_signabs_wrap).
* `SkewedSync` and `FSUSignAbs` compute `2*input - 1` in the type of the stream; with `uint8` streams a zero counts as 255
  (C96_unsigned_sync, C96_unsigned_signabs).  `Bi2Uni` and `Uni2Bi` convert first.
* `FSUAdd` sums in `btype`: `bfloat16` is exact up to 256 inputs only, `float16` up to 2048 (C96_add, C96_add_loss).
* `FSULinearPC` and `FSUConv2dPC` convert the counts to `stype`: `int8` counts 128 products as -128 (C96_counter_wrap).  `FSULinear` and `FSUConv2d` refuse
  every type but `torch.float`.
* A scale that `FSULinear` refuses at construction (temporal coded bipolar weights) is accepted as argument of the first call (C92_balance).
* mixed-format TLUT layers treat a floating-point temporal operand as fixed point (C50_mixed).
* `Uni2Bi` loses carries at depth 3 and is silent at depth ≤ 2 (C13).
* `HardMGUCellFXP` with `intwidth` 0 cannot hold the state 1 (C55_no_intwidth).
* all-zero data give nan in `RawScale`, HUB, FXP and TLUT layers (C09_zero, C58_zero); sparse data with quantile below 1
  as well (C09_sparse).
* `truncated_normal` leaves the caller's tensor untruncated and returns a new one (C43).
* a change of tensor shape drops the backlog of `SkewedSync` silently (C11_shape_change).
* hardware: `Bi2Uni.sv` wraps instead of saturating (C64_bi2uni_wraps); the Sobol generator inverts two bits of every number in
  odd periods (C66_sequence); in the bipolar multiplier one generator always advances in the load cycle; `uNSADD8.sv` has the
  offset of 16 inputs (C67_unsadd8); `CORDIV_kernel.sv` shifts in recycled quotients (C68_cordiv_locks); `BISQRT_S_JK_B.sv` drives
  its converter with `in`, so inserted bits do not count (C68_sqrt_feed, C68_bipolar_sqrt); `SkewedSyncInt.sv` stores `sum` instead of `sum_res` (C68_skewed_sync_int);
  the counters of `CORDIV_kernel_IS_U/B.sv` wrap, so 0/1 reads 1 (C76_in_stream_wrap), and the bipolar one takes the complement of the
  magnitude (C76_in_stream_bipolar); `BISQRT_S_IS_U.sv` at most doubles the ones (C76_sqrt_is_small), `BISQRT_S_IS_B.sv` drives its
  converter with `in` (C76_sqrt_is_bipolar); the accumulator of `BISQRT_O_U.sv` wraps (C76_sqrt_o_wrap); `BISQRT_O_U/B.sv` lack commas
  between the parameters and size the loops by `DEP` instead of `DEP_SR`, so cells from `DEP` on are never written (remark);
  `gMUL_uni/bi.sv` use two equal generators and compute min and 1-|a-b| (C77_gaines_uni, C77_gaines_bi); the second generator of
  `dMUL_uni/bi.sv` is enabled for a whole period in 2^w instead of once per period (C77_deterministic_uni); `tMUL_bi.sv` ends in a
  constant (C77_temporal_bi_stuck) and `tMUL_uni.sv` does not restart its generator on a load (C77_temporal_reload); the select
  of `muxADD_rng.sv` has the period of the operands' generators, so inputs near one can read zero (C78_mux_rng_correlated); eight ones
  read 7/8 in `apcADD.sv` (C78_apc_tight), `apcadd16.sv` emits ones for zero inputs; `uNSADD16.sv` wraps (C78_unsadd16_uni_wraps);
  the select generator of the scaled `gainMAC` and `tMAC` units follows the operands' generator, so lanes have thresholds
  (C79_gaines_scaled, C79_temporal_scaled_dead); `gainMAC_uni_nonscaled.sv` is a maximum; `dMAC_*_scaled.sv` show lane 0 alone for
  2^w-1 of 2^w periods (C79_deterministic_scaled); the sum of `tMAC_uni_nonscaled.sv` wraps (C79_temporal_nonscaled).
* In `hw/kernel/old` `relu.sv` and `sqrt.sv` test `~|cnt` where `|cnt` is meant, so their counters only rise (C81_relu,
  C81_sqrt_stuck); `skewedSync.sv` never lowers its counter, which freezes `iscbdiv.sv` at one (C81_iscbdiv_stuck); `gdiv*.sv` and
  `gsqrt*.sv` compare with `>=` (C81_gdiv_floor); `iscbdivbisqrt.sv` starts with a one that the select bit keeps alive
  (C81_is_sqrt_select); `cordivall.sv` wraps (C81_cordivall_wrap).
* The bipolar `FSUSqrt` answers the value nought with one or with nought, depending on the phase of the stream (C84_jk_phase).
* HUB layers accept `cycle = 0` and then count every non-zero operand as full scale (C85_zero_cycle).
* `FSUMGUCell` sets `scale` to 1 for its gates, so `FSULinear` refuses every temporal sequence (C89_cell).
* single precision: `ProgError` and `Stability` report every stream as one after `2^24` ones (C71_exhausted); `Correlation` loses
  exactness after 4096 cycles (C71_correlation_witness); bipolar `BinGen` rounds twice (C70_double_rounding).
* `FSUReLU` saturates: a bursty stream whose bursts exceed the counter gets a larger value, at any depth (C72_relu_shallow).
* constructors compare leading sizes only (C75_weight); `FXPLinear` accepts any rounding name and quantile (C75_fxp); TLUT layers accept
  `cycle = 0` and then read every digit as -1 (C75_zero_cycle).
* remarks without theorem: `rshift_offset` swaps the names upper/lower (harmless) and an unknown rounding leaves the
  logarithm unrounded; a comment in `conv.py` says the even-cycle flag is always False where it starts True; the error
  bound of C62 is a worst case and informative only for large widths (e.g. width 24, `depth_ismul` 16).

## 7. Mutation testing

`tools/mutate.py` applies one realistic bug at a time to a scratch copy of the model, rebuilds everything and records which
listed theorems no longer check.  A broken proof is cut (in the scratch copy only) so that later files can still be checked;
a theorem counts as failed when its own proof breaks or when it depends on a cut proof.  Each attempt adds a line to
`seeded/LOG.jsonl` with the definition, the edit, the claim it breaks, the theorems that failed and the theorems that were
tightened as a result.  An edit that no listed claim speaks about is recorded with an empty list of failures.

A second check lists the theorems whose statements reach no definition of `Verif.Model`: no edit of the model can break them.  `C27_window` and
`C27_warmup` were such theorems and were restated about the output bits; for nine others `Props/Observed.lean` states the consequence for what
the module returns, and `MANIFEST.json` lists that instead.  What remains in `MANIFEST.json` are facts that a reader of the specifications needs
(that a specified value is unique, how many window positions there are, what the padding bits decode to).
