{"id": "C01", "title": "Bitstream generator emits exactly the encoded number of ones", "statement": "Given any number sequence of length L=2^w that contains each of 0..L-1 exactly once, a BSGen built from an integer source value b emits, over every window of L consecutive cycle indices (starting anywhere, including negative or huge starts), exactly clamp(b,0,L) ones; the stream is periodic with period L; a sequence whose length is not a power of two is rejected at construction.", "quantifier": "for every width, every permutation sequence, every integer source value and every starting cycle", "why_tests_cant": "Tests draw one rng and a few source tensors; the claim ranges over all L! permutations, all values and all start offsets.", "anchors": ["stream/gen.py: BSGen.__init__, BSGen.forward"]}
{"id": "C02", "title": "Number sequences are permutations of 0..2^w-1", "statement": "The sequence returned by RNG for 'race','tc','race10','tc10','sys','sobol' and 'rc' has length 2^width and contains every integer 0..2^width-1 exactly once, for every Sobol dimension whatever its (odd) direction numbers (Sobol: for widths up to the engine's resolution); names are case-insensitive and any other name is rejected.", "quantifier": "for every width, every rng name, every Sobol dimension (any odd direction numbers m_j<2^j), every outcome of the system permutation", "why_tests_cant": "Widths and Sobol dimensions are unbounded; a test fixes one width and one dimension.", "anchors": ["stream/gen.py: RNG.__init__, RNG.forward, get_sysrand_seq"]}
{"id": "C03", "title": "Temporal coding is a thermometer code", "statement": "With rng 'race'/'tc' a BSGen stream of integer value b in [0,2^w] is 1 on exactly the first b cycles of each period and 0 on the rest; with 'race10'/'tc10' it is 0 on the first 2^w-b cycles and 1 on the last b.", "quantifier": "for every width, every value and every cycle", "why_tests_cant": "A per-cycle characterisation over unbounded cycles and widths.", "anchors": ["stream/gen.py: RNG.__init__, BSGen.forward"]}
{"id": "C04", "title": "LFSR streams are off by at most one", "statement": "The 2^w numbers sampled from a maximal-length w-bit LFSR never contain 0, contain every other value at least once and exactly one value twice, so a BSGen stream of value b (1<=b<=2^w) carries either b-1 or b ones per 2^w cycles, and a stream of value 0 carries none; in particular the LFSR sequence is not a permutation.", "quantifier": "for every width>=1, every maximal-length register (any state map that cycles through all non-zero states) and every initial non-zero state", "why_tests_cant": "The polynomial and the initial state are drawn at random by the library, and widths are unbounded.", "anchors": ["stream/gen.py: get_lfsr_seq, RNG.__init__, BSGen.forward"]}
{"id": "C05", "title": "Binary conversion is nearest, monotone, in range", "statement": "BinGen maps a unipolar source s to the integer nearest s*2^w and a bipolar source to the integer nearest (s+1)/2*2^w, ties going to the even integer; sources in [0,1] (resp. [-1,1]) land in [0,2^w], larger sources never give smaller integers, grid values are represented exactly, and any other mode string is rejected (case-insensitively).", "quantifier": "for every rational source, width and mode string", "why_tests_cant": "All sources, including ties and out-of-range ones.", "anchors": ["stream/gen.py: BinGen.__init__, BinGen.forward"]}
{"id": "C06", "title": "Encode-decode round trip", "statement": "Encoding a source with BinGen, generating a bitstream with BSGen over any permutation sequence and decoding it with ProgError returns, after any positive number k of full periods, a progressive precision within 2^-(w+1) (unipolar) or 2^-w (bipolar) of the source, and exactly the source (error 0) when it lies on the grid of multiples of 2^-w (unipolar) or 2^(1-w) (bipolar).", "quantifier": "for every width, mode, legal source, permutation sequence and number of periods", "why_tests_cant": "Composition of three components over all sources, sequences and lengths.", "anchors": ["stream/gen.py: BinGen, BSGen", "metric/metric.py: ProgError.Monitor, ProgError.forward"]}
{"id": "C07", "title": "Streams that share a number sequence are nested", "statement": "If two BSGen streams use the same sequence and the first source value is at most the second then the first bit is at most the second in every cycle; consequently the SCC reported by Correlation after any number of cycles is exactly +1 whenever it sees at least one cycle where both bits are 1 and one where both are 0.", "quantifier": "for every sequence, pair of values and number of cycles", "why_tests_cant": "Pairs of streams over unbounded histories.", "anchors": ["stream/gen.py: BSGen.forward", "metric/metric.py: Correlation.Monitor, Correlation.forward"]}
{"id": "C08", "title": "Sobol streams converge at every prefix (early termination)", "statement": "With rng 'sobol'/'rc' in any dimension, after any number k of cycles a BSGen stream of value b carries a number of ones that differs from the ideal k*b/2^w by at most w; every aligned block of 2^j cycles hits each of the 2^j equal sub-intervals exactly once.", "quantifier": "for every width, dimension (any odd direction numbers), value and prefix length", "why_tests_cant": "The bound must hold for every early-termination point, value and width simultaneously.", "anchors": ["stream/gen.py: RNG.__init__, BSGen.forward"]}
{"id": "C09", "title": "RawScale output is legal unary data", "statement": "RawScale rejects quantiles outside (0,1]; for a non-empty tensor whose quantile bounds are not both zero every output lies in [-1,1], the map is one monotone function of the element, linear between the two bounds and constant outside; with quantile 1 it equals raw/max|raw|, so some output has magnitude exactly 1; when both bounds are zero (all-zero data, but also sparse data with quantile below 1) the division is 0/0 and no finite result exists.", "quantifier": "for every non-empty tensor of rationals and every quantile", "why_tests_cant": "All tensors and quantiles, including the degenerate scale.", "anchors": ["stream/gen.py: RawScale.__init__, RawScale.forward"]}
{"id": "C10", "title": "SkewedSync conserves ones", "statement": "Feeding any two bitstreams of a fixed shape to SkewedSync, after every cycle (ones of in_1) = (ones of out_1) + backlog with backlog an integer between 0 and 2^depth-1; out_1 is always a bit and in_2 is returned unchanged, so the value of in_1 is preserved up to (2^depth-1)/n after n cycles.", "quantifier": "for every depth, every pair of bitstreams and every prefix", "why_tests_cant": "A conservation law over all histories.", "anchors": ["stream/shuffle.py: SkewedSync.forward"]}
{"id": "C11", "title": "SkewedSync produces maximally overlapped streams", "statement": "out_1 can be 1 while in_2 is 0 only in a cycle where in_1 is 1 and the backlog counter is already full; if in every window of the history in_1 exceeds in_2 by at most 2^depth-1 then out_1<=in_2 in every cycle, hence Correlation reports SCC=+1 as soon as both a (1,1) and a (0,0) pair were seen. A change of tensor shape silently drops the backlog.", "quantifier": "for every depth, every pair of bitstreams and every prefix", "why_tests_cant": "The reachable counter states depend on the full history.", "anchors": ["stream/shuffle.py: SkewedSync.forward", "metric/metric.py: Correlation.forward"]}
{"id": "C12", "title": "Bi2Uni output count equals the reflected running sum", "statement": "After n bipolar bits the number of ones emitted by Bi2Uni (depth>=2) is exactly the regulated sum: it is at least (#1-#0) of the input, never decreases, and exceeds the plain sum only by the amount of negative excursion beyond -2^(depth-2) (the Skorokhod reflection of the input walk); if the walk never falls more than 2^(depth-2) below its running maximum (or 0) the count is max(0, max over prefixes of #1-#0); with depth<=1 the output is constantly 0.", "quantifier": "for every depth and every bitstream", "why_tests_cant": "Requires all histories; the discarded second clamp must be shown harmless for all of them.", "anchors": ["stream/shuffle.py: Bi2Uni.__init__, Bi2Uni.forward"]}
{"id": "C13", "title": "Uni2Bi computes (x+1)/2 exactly", "statement": "With depth>=4, after n input bits Uni2Bi has emitted exactly floor((n+ones)/2) ones, in every prefix; at depth 3 carries are lost (the alternating stream of value 1/2 yields n/2 ones instead of 3n/4) and at depth<=2 no one is ever emitted.", "quantifier": "for every depth and every bitstream prefix", "why_tests_cant": "Exactness in every prefix and the failing depths need all histories.", "anchors": ["stream/shuffle.py: Uni2Bi.__init__, Uni2Bi.forward"]}
{"id": "C14", "title": "SCC is a correlation", "statement": "After any history with at least one observation, the four pair counters of Correlation sum to the number of Monitor calls and the reported SCC is in [-1,1], symmetric in its two inputs and independent of the order of observations; it is +1 exactly when (1,1)*(0,0) pairs outweigh and one of the mixed pair counts is zero, -1 exactly when mixed pairs outweigh and (1,1) or (0,0) never occurs, and never divides by zero.", "quantifier": "for every pair of value streams (any numeric values, non-zero read as 1) and every length", "why_tests_cant": "All histories.", "anchors": ["metric/metric.py: Correlation.Monitor, Correlation.forward"]}
{"id": "C15", "title": "Single-input correlation is auto-correlation with delay one", "statement": "Calling Monitor with a single stream is the same as calling it with the stream and itself delayed by one call, the delay line starting at 0; mixing two-input calls in between does not disturb the delay line.", "quantifier": "for every sequence of one- and two-input Monitor calls", "why_tests_cant": "Arbitrary interleavings of the two call forms.", "anchors": ["metric/metric.py: Correlation.Monitor"]}
{"id": "C16", "title": "Progressive precision is the running mean", "statement": "After n>=1 Monitor calls ProgError reports pp = ones/n (unipolar) or 2*ones/n-1 (bipolar) and pe = pp - clamp(source/scale,-1,1), whatever the order of the bits and however often forward is called in between; pp lies in [0,1] resp. [-1,1], |pe| <= 2, and calling it before any Monitor has no finite result. On tensors: any observations that broadcast to one shape are accepted, others raise; the value has the smallest such shape, the error the smallest one including the source, and each element is what the definition gives for the elements broadcast to it.", "quantifier": "for every bit history, interleaving of forward calls, source, non-zero scale and mode", "why_tests_cant": "All histories and interleavings.", "anchors": ["metric/metric.py: ProgError.__init__, ProgError.Monitor, ProgError.forward"]}
{"id": "C17", "title": "Stability is determined by the last unstable cycle", "statement": "After n>=1 Monitor calls, Stability reports 1 - max(1,t)/n where t is the last cycle (1-based, 0 if none) whose progressive error exceeded the threshold in magnitude; hence it lies in [0,1-1/n], is 0 exactly when t = n or n = 1, and if no later cycle violates the threshold it only grows. On tensors: exactly observations that broadcast to the shape of the source are accepted (none at all if the source is a scalar), the report has the shape of the source, and each element is what the definition gives.", "quantifier": "for every bit history, source, scale, mode and threshold", "why_tests_cant": "The last-violation index over unbounded histories.", "anchors": ["metric/metric.py: Stability.Monitor, Stability.forward"]}
{"id": "C18", "title": "FSUAdd accumulator never leaves its range and output is a bit", "statement": "After every cycle of any history the FSUAdd accumulator lies in [-2^(depth-2), 2^(depth-2)] and its output is 0 or 1; for non-negative scale the clamp after the carry is a no-op, i.e. accumulator plus scale*output is the once-clamped sum; for a negative scale it is not.", "quantifier": "for every depth, mode, scale, entry and sequence of input vectors (any rational entries)", "why_tests_cant": "All histories and real-valued inputs.", "anchors": ["kernel/add.py: FSUAdd.forward"]}
{"id": "C19", "title": "FSUAdd scaled addition is exact", "statement": "For bit inputs of N entries and scale N (scaled addition, unipolar or bipolar, the default) with 2^(depth-2) >= 2N-1, after n cycles FSUAdd has emitted exactly floor(total ones / N) ones, in every prefix; hence its value is the mean of the input values to within 1/n (unipolar) or 2/n (bipolar).", "quantifier": "for every N, depth satisfying the bound, and every sequence of input bit vectors", "why_tests_cant": "Exactness in every prefix over all histories.", "anchors": ["kernel/add.py: FSUAdd.forward"]}
{"id": "C20", "title": "FSUAdd conserves value when it does not saturate", "statement": "For any mode and positive scale, as long as no cycle saturated the accumulator, scale*(ones emitted) + residue = sum over cycles of (inputs - offset), with offset 0 in unipolar and (entry-scale)/2 in bipolar mode; in general the two sides differ by exactly the clipped amounts. Read as values, a bipolar non-scaled adder outputs the sum of the bipolar input values up to 2*residue/n.", "quantifier": "for every mode, scale, entry, depth and history", "why_tests_cant": "Non-scaled addition depends on the whole accumulator history.", "anchors": ["kernel/add.py: FSUAdd.forward"]}
{"id": "C21", "title": "FSUAdd goes silent when the accumulator is too shallow", "statement": "If scale > 2^(depth-2) then FSUAdd emits 0 in every cycle of every history, with no error raised (e.g. a default-depth FSULinear with more than 1024 accumulated terms).", "quantifier": "for every history, mode, entry and every configuration with scale > 2^(depth-2)", "why_tests_cant": "Shows a whole configuration region is dead; no test suite enumerates it.", "anchors": ["kernel/add.py: FSUAdd.__init__, FSUAdd.forward", "kernel/linear.py: FSULinear.__init__"]}
{"id": "C22", "title": "FSUAdd configuration is frozen by the first call", "statement": "The scale and entry in force are: the call argument of the first forward call if given, else the configured value, else (entry) the size of the summed dimension / (scale) the entry; scale and entry arguments of every later call have no effect on any output.", "quantifier": "for every sequence of calls with arbitrary optional arguments", "why_tests_cant": "Call sequences with arbitrary arguments.", "anchors": ["kernel/add.py: FSUAdd.forward"]}
{"id": "C23", "title": "FSUAdd is monotone", "statement": "If one history of input vectors is pointwise (in each cycle's sum) at most another, the number of ones emitted so far by the first never exceeds that of the second, saturation included.", "quantifier": "for every pair of ordered histories, every depth, mode, entry and positive scale", "why_tests_cant": "A two-run property over all pairs of histories.", "anchors": ["kernel/add.py: FSUAdd.forward"]}
{"id": "C24", "title": "Static unipolar multiplication depends only on the count of ones", "statement": "For a static unipolar FSUMul with integer-encoded multiplier b, after any history with k ones in in_0 the output has exactly #{j<k : b > rng[j mod L]} ones, independent of where the ones fall; over any whole number of periods (k a multiple of L=2^w) of a permutation sequence the count is exactly k*clamp(b,0,L)/L; outputs are bits and never exceed in_0.", "quantifier": "for every width, sequence, multiplier and input history", "why_tests_cant": "All input orderings.", "anchors": ["kernel/mul.py: FSUMul.FSUMul_forward"]}
{"id": "C25", "title": "Static bipolar multiplication is an exact two-sided count", "statement": "For a static bipolar FSUMul, with k ones and m zeros in in_0 the output has P(k) + (m - P(m)) ones where P(j)=#{i<j : b > rng[i mod L]}; when k and m are both multiples of L the output value is exactly the product of the decoded input and multiplier values.", "quantifier": "for every width, sequence, multiplier and input history", "why_tests_cant": "All input orderings and lengths.", "anchors": ["kernel/mul.py: FSUMul.FSUMul_forward"]}
{"id": "C26", "title": "Multiplication error bound with Sobol sequences", "statement": "With rng 'sobol'/'rc' of any dimension, a static unipolar FSUMul output count after any history with k ones of in_0 differs from k*b/2^w by at most w, and a static bipolar one, in value, by at most 2*(2w)/n from the product of the decoded values after n cycles.", "quantifier": "for every width, dimension, multiplier, input history and termination point", "why_tests_cant": "Uniform accuracy bound over all inputs and all early-termination points.", "anchors": ["kernel/mul.py: FSUMul.FSUMul_forward", "stream/gen.py: RNG"]}
{"id": "C27", "title": "In-stream multiplication estimates in_1 over a sliding window", "statement": "A non-static FSUMul compares the number of ones among the last 2^w bits of in_1 (before the current one; initially an alternating 0/1 pattern) with the sequence; if in_1 repeats with a period dividing 2^w, then from cycle 2^w on it behaves bit for bit like a static multiplier encoding that window count.", "quantifier": "for every width, sequence and pair of input histories", "why_tests_cant": "Equivalence of two stateful machines over all histories.", "anchors": ["kernel/mul.py: FSUMul.FSUMul_forward", "kernel/shiftreg.py: ShiftReg.ShiftReg_forward"]}
{"id": "C28", "title": "JK flip-flop semantics", "statement": "After any history of (J,K) inputs (any numeric values, non-zero read as 1) the JKFF output is 0/1 and equals: the last set/reset command, toggled once for every later (1,1) cycle, and held by (0,0) cycles, starting from 0.", "quantifier": "for every input history", "why_tests_cant": "History-determined state.", "anchors": ["kernel/jkff.py: JKFF.forward"]}
{"id": "C29", "title": "ShiftReg is an exact delay line", "statement": "Without a mask, at call t the ShiftReg of `entry` cells returns as out (index i) the input of call t-entry+i if t>=entry-i, else the initial pattern, and as count the sum of the last `entry` values pushed (initial alternating pattern before that), both excluding the current input; with a mask, only inputs whose mask bit is 1 are pushed.", "quantifier": "for every entry>=1, index<entry and input/mask history", "why_tests_cant": "All histories; windows straddling the initial pattern.", "anchors": ["kernel/shiftreg.py: ShiftReg.ShiftReg_forward"]}
{"id": "C30", "title": "SignAbs sign follows the running sum", "statement": "FSUSignAbs always satisfies abs = input XOR sign with sign a bit; the sign is 1 exactly when the running sum (#1-#0) clipped to [-2^(depth-1), 2^(depth-1)-1] is negative; as long as the running sum stays in that range, #1-#0 of the output is |#1-#0| of the input plus two for every return of the running sum to zero from below.", "quantifier": "for every depth>=1 and every bitstream", "why_tests_cant": "All histories, including saturation.", "anchors": ["kernel/signabs.py: FSUSignAbs.forward"]}
{"id": "C31", "title": "ReLU output is never negative and passes non-negative streams", "statement": "For every input, FSUReLU output bits dominate the input bits and in every prefix #1 - #0 of the output is at least -1 (a non-negative bipolar value); if every prefix of the input has #1>=#0 and no window drops by 2^(depth-1) or more then the output equals the input bit for bit; a constant-0 (value -1) input yields an output whose prefix sums stay in {-1,0}.", "quantifier": "for every depth>=1, every bitstream and every prefix", "why_tests_cant": "Prefix property over all histories, saturation included.", "anchors": ["kernel/relu.py: FSUReLU.forward"]}
{"id": "C32", "title": "Activations of the hybrid and streaming domains agree", "statement": "FSUHardsigmoid is bit-for-bit equal to Uni2Bi at every depth and in either mode, and emits exactly floor((n+ones)/2) ones after n cycles (depth>=4); HUBHardsigmoid equals (x+1)/2 on [-1,1] and clamps to [0,1] outside; HUBHardtanh is the identity on [-1,1] and clamps outside; HUBReLU(scale) clamps to [0,scale]; FSUHardtanh is the identity.", "quantifier": "for every bitstream, depth>=4, mode and real input", "why_tests_cant": "Machine equivalence over all histories.", "anchors": ["kernel/sigmoid.py: FSUHardsigmoid, HUBHardsigmoid", "kernel/tanh.py: FSUHardtanh, HUBHardtanh", "kernel/relu.py: HUBReLU"]}
{"id": "C33", "title": "Correlated division kernel", "statement": "In every cycle CORDIV_kernel outputs the dividend bit when the divisor is 1 and otherwise one of the last `entry` valid dividend bits (or a bit of the initial alternating pattern); its outputs are bits for bit inputs; whenever `entry` consecutive valid dividend bits were equal, every quotient up to the next different valid bit equals them; the pushed history is exactly the dividend bits of the divisor=1 cycles.", "quantifier": "for every power-of-two entry, sequence, and history", "why_tests_cant": "All histories and sequences.", "anchors": ["kernel/div.py: CORDIV_kernel.forward"]}
{"id": "C34", "title": "Division kernel rejects nothing but fails on non-power-of-two entries", "statement": "For an entry that is not a power of two CORDIV_kernel (and FSUDiv) is constructed without complaint but indexing fails after finitely many cycles: the first failing call is number 2^floor(log2 entry); for powers of two it never fails. Unknown modes and an entry of 0 are refused at construction.", "quantifier": "for every entry>=1 and every history", "why_tests_cant": "Liveness of every configuration.", "anchors": ["kernel/div.py: CORDIV_kernel.__init__, CORDIV_kernel.forward"]}
{"id": "C35", "title": "Division identities", "statement": "Unipolar FSUDiv: dividing by the constant-one stream returns the dividend bit for bit; dividing a stream by itself returns only ones once `entry_kn` ones have been seen; dividing the zero stream returns only zeros once `entry_kn` divisor ones have been seen; outputs are always bits, in both modes.", "quantifier": "for every entry_kn power of two, depth_ss, sequence and bitstream", "why_tests_cant": "All bitstreams.", "anchors": ["kernel/div.py: FSUDiv.unipolar_forward, FSUDiv.bipolar_forward"]}
{"id": "C36", "title": "Bit-inserting square root (JK trace) law", "statement": "FSUSqrt without emit contains every input one. Unipolar with jk_trace the output is one exactly in the cycles of the greedily accepted non-adjacent input ones and the cycles after them; so the output count is twice the accepted count (a trailing one counted once) and lies between #in and 2*#in. Consequently for the alternating stream 1010... (value 1/2) the output is constant 1: the block does not compute the square root of an arbitrary encoding. With the division trace even calls pass the input and odd calls contain the ones of the same and the previous call. Construction is accepted exactly for a valid mode and buffer sizes that are powers of two, and the configuration is kept as given.", "quantifier": "for every bitstream and prefix", "why_tests_cant": "Exact law over all streams; counterexample stream of every length.", "anchors": ["kernel/sqrt.py: FSUSqrt.forward, FSUSqrt.unipolar_trace", "kernel/jkff.py: JKFF.forward"]}
{"id": "C37", "title": "Bit-emitting square root balance", "statement": "Unipolar FSUSqrt with emit (entry_sr<=255): in every prefix #out + residue = #in + #emitted with residue between 0 and entry_sr, so #in equals the number of calls whose output is one now and entry_sr calls ago, within entry_sr; output dominates input; constant 1 and constant 0 inputs are fixed points from the first call. The configured number sequence never influences the result because the index is never advanced.", "quantifier": "for every entry_sr, sequence and bitstream", "why_tests_cant": "All histories, and independence from a configuration parameter.", "anchors": ["kernel/sqrt.py: FSUSqrt.forward, FSUSqrt.unipolar_emit"]}
{"id": "C38", "title": "conv2d_output_shape counts kernel placements", "statement": "For positive stride and dilated kernel, conv2d_output_shape returns per axis the number of window positions i>=0 with i*stride + dilation*(kernel-1) < size + total padding (when the kernel fits), i.e. exactly the number of columns produced by unfold; ints and tuples give the same result.", "quantifier": "for every size, kernel, stride, padding and dilation", "why_tests_cant": "Unbounded integers.", "anchors": ["kernel/utils.py: conv2d_output_shape, num2tuple"]}
{"id": "C39", "title": "conv2d padding round trip", "statement": "For every input size, requested output size, kernel, positive stride and dilation, using the padding returned by conv2d_get_padding in conv2d_output_shape gives back exactly the requested output size, and the two sides of each axis differ by at most one.", "quantifier": "for every size, output size, kernel, stride and dilation", "why_tests_cant": "Unbounded integers.", "anchors": ["kernel/utils.py: conv2d_get_padding, conv2d_output_shape"]}
{"id": "C40", "title": "Transposed-convolution padding does not round trip", "statement": "The intended law convtransp2d_output_shape(pad=convtransp2d_get_padding(out)) = out fails: it holds on an axis exactly when the required total padding is -1, 0 or 1; otherwise only about half the padding is returned (e.g. 4 -> 8 with kernel 4, stride 2 gives 9). The shape functions themselves agree: with the same arguments and an output padding below the stride, conv2d_output_shape of the transposed output size is the input size.", "quantifier": "for every size, output size, kernel, stride, dilation and output padding", "why_tests_cant": "Exact characterisation of the failing inputs.", "anchors": ["kernel/utils.py: convtransp2d_get_padding, convtransp2d_output_shape"]}
{"id": "C41", "title": "Fixed-point rounding", "statement": "Round(intwidth,fracwidth) maps every input to a multiple of 2^-fracwidth in [-(2^intwidth-2^-fracwidth), 2^intwidth-2^-fracwidth]; it is idempotent, monotone, odd, within 2^-(fracwidth+1) of the input when the input is in range, and always a nearest representable number; for a negative total width the result is degenerate. The gradient is passed through unchanged: for inputs in range it predicts the change of the result up to one grid step, and above the range, where the result is constant, it is passed on all the same.", "quantifier": "for every rational input and widths", "why_tests_cant": "All real inputs.", "anchors": ["kernel/utils.py: RoundSTE, Round"]}
{"id": "C42", "title": "Weight clipper keeps weights on the stochastic grid", "statement": "After NN_SC_Weight_Clipper has processed a layer (non-constant weights in the normalising call) every weight and bias is in [0,1] (unipolar) or [-1,1] (bipolar) and a multiple of 2^-bw resp. 2^(1-bw); applying the clipping step again changes nothing; the constructor's method argument has no effect: with the default frequency exactly the first processed module is normalised and all later ones clipped; an unknown mode is an error; a processed module without a bias value raises.", "quantifier": "for every tensor, bitwidth>=1, method, and sequence of modules", "why_tests_cant": "All tensors and call histories.", "anchors": ["kernel/utils.py: NN_SC_Weight_Clipper.__call__, NN_SC_Weight_Clipper.clipping"]}
{"id": "C43", "title": "Truncated normal really truncates", "statement": "Whenever truncated_normal returns, every element lies within two standard deviations of the mean, whatever the random draws, and is the first of its draws that does; it returns iff every element has such a draw. (The caller's original tensor is not truncated in place.)", "quantifier": "for every sequence of random draws and every number of rejection rounds", "why_tests_cant": "Unbounded random retries.", "anchors": ["kernel/utils.py: truncated_normal"]}
{"id": "C44", "title": "FSULinearPC counts the sum of unary products", "statement": "In every cycle and for every batch row and output, FSULinearPC returns the sum over input features of the bits a static FSUMul for that weight would produce from the same input history, plus the bias bit; its value is between 0 and in_features (plus one with bias); accumulated over a history it is the sum of the per-feature product counts; changing the batch size between two values above one fails, and so does bias=True without bias_ext.", "quantifier": "for every feature count, batch, weight, bias, sequence, mode and input history (rate-coded weights)", "why_tests_cant": "All sizes and histories.", "anchors": ["kernel/linear.py: FSULinearPC.FSULinear_PC_wrc", "kernel/mul.py: FSUMul.FSUMul_forward"]}
{"id": "C45", "title": "FSULinear computes the scaled inner product", "statement": "With the default scale (in_features + bias) and depth with 2*(in_features+bias)-1 <= 2^(depth-2), FSULinear emits exactly floor(accumulated parallel count / scale) ones in every prefix, so its decoded value is the mean of the feature products and the bias, low by less than 1/n (unipolar) or 2/n (bipolar); with Sobol coded weights a bipolar layer is within (4*width+2)/n + 2^-width of the real scaled inner product. If in_features + bias exceeds 2^(depth-2) (e.g. 1024 features with bias and the default depth 12) it never emits a one. With another scale ones*scale plus a residue within the accumulator range equal the accumulated counts minus the bipolar offset while the accumulator stays in range; bipolar temporal weights with another scale are refused.", "quantifier": "for every size, weight, bias, sequence and input history", "why_tests_cant": "End-to-end composition over all inputs.", "anchors": ["kernel/linear.py: FSULinear.forward, FSULinearPC.forward", "kernel/add.py: FSUAdd.forward"]}
{"id": "C46", "title": "HUBLinear product table", "statement": "With equal input and weight widths and permutation sequences the HUB product table entry for magnitudes (i,w) equals the number of the first i controllee numbers that are below w; it is 0 when i or w is 0, at most min(i,w), non-decreasing in both arguments with increments of at most one, and (Sobol controllee) within `width-1` of i*w/2^(width-1); unequal widths greater than 1 fail at construction and two temporal codings are refused. Finding: with a temporal coded weight the table is still indexed input first, so it holds the count for the exchanged operands.", "quantifier": "for every width, magnitude pair and sequence", "why_tests_cant": "The table is exponential in the width.", "anchors": ["kernel/linear.py: HUBLinear.__init__", "kernel/conv.py: HUBConv2d.__init__"]}
{"id": "C47", "title": "HUBLinear forward error bound", "statement": "HUBLinear's output is within I*eps*2^(im+wm-W) of the exact linear layer applied to operands rounded to the nearest representable value (W magnitude bits, at most cycle-1 units), where eps bounds the table error and 2^im, 2^wm are the picked scales; with a temporal coded input, Sobol numbers for the weight, 'ceil', quantile 1 and a full run this gives |out - (x.w + b)| <= I*2^(im+wm)*(W+2+2^-W)/2^W end to end; negating the input negates the output up to the bias, and a zero input row returns the bias exactly.", "quantifier": "for every batch, size, input, weight and table satisfying the table bound", "why_tests_cant": "All real inputs and sizes.", "anchors": ["kernel/linear.py: HUBLinearFunction.forward"]}
{"id": "C48", "title": "FXPLinear quantisation error bound", "statement": "FXPLinear's output equals the inner product of the input and weight each replaced by a nearest multiple of 2^rshift (clamped); with rounding 'round' or 'ceil' and quantile 1 the clamp never acts, so each operand is off by at most 2^(rshift-1) and the output by the resulting bilinear bound; the integers used can exceed the nominal 2^(width-1) range.", "quantifier": "for every batch, size, input, weight, width>=1 and rounding mode", "why_tests_cant": "All real inputs and sizes.", "anchors": ["kernel/linear.py: FXPLinear.forward, FXPLinearFunction.forward", "kernel/utils.py: rshift_offset"]}
{"id": "C49", "title": "Temporal LUT decomposition is lossless without early termination", "statement": "With cycle = 2^widtht (or no cycle) the fxp-fxp TLUT layer equals the exact linear layer on operands truncated towards zero to multiples of 2^rshift (at most 2^(width-1)-1 units), so with 'ceil' and quantile 1 it is off by the bilinear bound with one unit per operand; the floating-point layer is exact when the temporal operand fits the significand width and otherwise within 2^(1-width) relative; degree*widtht = width + delta with 0 <= delta < widtht.", "quantifier": "for every width, widtht>=1, and operand value", "why_tests_cant": "All digit strings of every length.", "anchors": ["kernel/linear.py: TLUTLinear.__init__, TLUTLinearFXPFXPFunction.forward, TLUTLinearFXPFPFunction.forward, TLUTLinearFPFPFunction.forward"]}
{"id": "C50", "title": "Temporal LUT early-termination error bound", "statement": "With cycle = c < 2^widtht every base-2^widtht digit of the temporal operand's integer magnitude is limited to c-1 (fixed-point, mixed and floating-point layers): the operand keeps its sign, never grows in magnitude, its error is at most (2^widtht-c)*(2^(widtht*degree)-1)/(2^widtht-1) units, and it is exact iff every digit is below c. In mixed-format layers the temporal operand is treated as fixed point whatever its format.", "quantifier": "for every width, widtht, cycle and operand", "why_tests_cant": "All operands.", "anchors": ["kernel/linear.py: TLUTLinearFXPFXPFunction.forward"]}
{"id": "C51", "title": "Straight-through gradients are the exact linear adjoint", "statement": "backward of the HUB/FXP/TLUT linear functions returns the gradients of the exact linear layer at the unquantised input and weight: the change of the exact layer contracted with the output gradient equals the inner products with the returned gradients plus the product of the perturbations, in every direction, and no other gradients have this property; gradients not asked for are absent.", "quantifier": "for every batch, size, input, weight, bias and output gradient", "why_tests_cant": "All sizes and directions.", "anchors": ["kernel/linear.py: HUBLinearFunction.backward, FXPLinearFunction.backward, TLUTLinearFXPFXPFunction.backward"]}
{"id": "C52", "title": "Convolution by unfold/matmul/fold is convolution", "statement": "The unfold - row product - fold pipeline of the FSU/HUB/FXP/TLUT Conv2d layers assigns to output position (n,o,y,x) the row product of filter o with exactly the window input[n,:,y*s-p+d*i,x*s-p+d*j] (padding value outside), so with an exact row product the layer is direct 2-d convolution; output size is that of conv2d_output_shape. This holds for a padding given as one number; a pair (a,b) adds a columns on the left and b on the right and no rows, while the output size is computed for a rows and b columns on either side: the first call of an FSU layer raises unless both have the same number of positions, and then fills the output with the windows of the other grid.", "quantifier": "for every batch, channel count, image size, kernel, stride, padding, dilation", "why_tests_cant": "Index arithmetic over all shapes.", "anchors": ["kernel/conv.py: FSUConv2dPC.FSUConv2d_PC_wrc, HUBConv2d.forward, FXPConv2d.forward, TLUTConv2d.forward", "kernel/utils.py: conv2d_output_shape"]}
{"id": "C53", "title": "Padding bits encode zero", "statement": "FSUConv2dPC pads with 0 in every cycle in unipolar mode; in bipolar mode the padding bits alternate 0,1,0,1,... starting with 0, so after an even number of cycles the padding stream decodes to exactly 0 and after an odd number n to -1/n.", "quantifier": "for every number of cycles and both modes", "why_tests_cant": "All histories.", "anchors": ["kernel/conv.py: FSUConv2dPC.FSUConv2d_PC_wrc, FSUConv2dPC.FSUConv2d_PC_wtc"]}
{"id": "C54", "title": "HardMGUCell stays in the legal unary range", "statement": "Starting from no state or any state in [-1,1], for every sequence of inputs and any weights, all intermediate values of HardMGUCell (forget gate in [0,1], gated state, candidate, products) and every hidden state stay in the legal ranges; the final clamp never acts because the new state is a convex combination of the candidate and the old state.", "quantifier": "for every size, weight, bias, input sequence and length", "why_tests_cant": "Induction over unbounded sequences with arbitrary weights.", "anchors": ["kernel/rnn.py: HardMGUCell.forward", "kernel/sigmoid.py: HUBHardsigmoid", "kernel/tanh.py: HUBHardtanh"]}
{"id": "C55", "title": "HardMGUCellFXP stays on the fixed-point grid", "statement": "For intwidth>=1 every hidden state of HardMGUCellFXP is a multiple of 2^-fracwidth in [-1,1], for every input sequence and weights, and passes the rounding of the next call unchanged; from legal states all intermediate values are legal, the last clamp never acts in spite of the rounding, and each call differs from the exact HardMGUCell by an explicit error that vanishes with 2^-fracwidth and the difference of the states.", "quantifier": "for every size, widths, weights, input sequence and length", "why_tests_cant": "Unbounded sequences.", "anchors": ["kernel/rnn.py: HardMGUCellFXP.forward", "kernel/utils.py: Round"]}
{"id": "C56", "title": "FSUMGUCell output balance", "statement": "No call of an FSUMGUCell fails and every intermediate and output stream is a bitstream; a run is the composition of six blocks; ones(gate) = floor((ones(layer)+n)/2), i.e. the hard sigmoid; with Sobol coding gate*state decodes to the product; as long as the output adder does not saturate, ones(out)+residue = sum of candidate + (1 - gate*candidate) + gate*state bits minus the number of cycles, which is the bipolar encoding of ng - fg*ng + fg*hx.", "quantifier": "for every size, weights, depths and bit histories", "why_tests_cant": "Composition of six stateful blocks over all histories.", "anchors": ["kernel/rnn.py: FSUMGUCell.forward", "kernel/add.py: FSUAdd.forward"]}
{"id": "C57", "title": "FSULinearPC with temporal-coded weights", "statement": "With rng race/tc/race10/tc10 the weight bit of every cycle depends on the cycle count only: each count is the sum over features of input AND weight bit (unipolar) or input XNOR weight bit (bipolar) plus the bias bit, identical positions for all rows; with race in unipolar mode the accumulated count is the number of input ones falling into the first `weight` cycles of each period. This holds for every layer the constructor accepts with such a generator name, with or without bias.", "quantifier": "for every feature count, batch, weight, bias, width, mode and input history", "why_tests_cant": "All input histories, batches and cycle counts.", "anchors": ["kernel/linear.py: FSULinearPC.FSULinear_PC_wtc, FSULinearPC.forward"]}
{"id": "C58", "title": "Right-shift offsets are the nearest powers of two", "statement": "rshift_offset returns shifts rshift_i = m - width where 2^m is the power of two chosen for the scale s (largest magnitude of the two quantile bounds): with rounding 'floor' 2^m <= s < 2^(m+1), with 'ceil' 2^(m-1) < s <= 2^m, with 'round' 2^(m-1/2) <= s <= 2^(m+1/2); the output shift undoes the operand shifts up to the fixed product width; a finite result fails to exist exactly when one of the scales is zero, and the scale is determined by the data and the quantile.", "quantifier": "for every input, weight, width and rounding mode", "why_tests_cant": "All real scales including the boundaries between powers of two.", "anchors": ["kernel/utils.py: rshift_offset"]}
{"id": "C59", "title": "HUBMGUCell equals the stream cell over one period", "statement": "HUBMGUCell.forward returns exactly the bipolar value of the FSUMGUCell output stream after 2^width cycles on the bitstreams of input and state; these streams then carry exactly the quantised values; results lie in [-1,1] on the grid of 2^(1-width); a missing state means zeros; non-bipolar modes and missing biases are refused.", "quantifier": "for every size, batch, weights, biases, width, depths, permutation number sequence, input and state", "why_tests_cant": "Composition of a loop of 2^width calls of a stateful cell over all inputs and sizes.", "anchors": ["kernel/rnn.py: HUBMGUCell.forward", "kernel/rnn.py: FSUMGUCell.forward", "metric/metric.py: ProgError.forward"]}
{"id": "C60", "title": "The adder computes the clipped sum of steady streams, saturation included", "statement": "Call a stream steady with value v if every window of n consecutive cycles (not only the prefixes) carries v up to a slack per cycle and a constant. If all inputs of FSUAdd are steady with values v_i and the accumulator range 2^(depth-2) is at least twice the scale S plus the constants, the output is steady with value clip(sum v_i)/S, where clip is to [0,S] in unipolar and to [-S,S] in bipolar mode, whatever saturations of the accumulator occur on the way. The slack per cycle is the sum of the slacks over S and the constant grows to 2 + 2K/S (bipolar), so the decoded value of every prefix converges to the clipped sum.", "quantifier": "for every mode, scale S > 0, depth, number of inputs, all infinite input histories that are steady, and every window of every length", "why_tests_cant": "saturating runs lose counts, and only an argument over all windows of all histories shows that the loss never accumulates to more than a constant; a test sees one history", "anchors": ["kernel/add.py: FSUAdd.__init__, FSUAdd.forward"]}
{"id": "C61", "title": "Multipliers and the linear layer map steady streams to steady streams of the right value", "statement": "With Sobol sequences: the stream of a stored number is steady with exactly the quantised value; the static multiplier turns a steady stream of value v into a steady stream of value v*q; the in-stream multiplier turns steady streams of values u and v into one of value u*v, where the regenerated operand contributes its slack plus its constant/2^width and the warm-up of the shift register at most 2^width bits; and FSULinear with any positive scale S and any inputs of steady values puts out steady streams of value clip(sum v_i*q(w_i) + q(bias))/S, in unipolar and bipolar mode.", "quantifier": "for all widths, weights and biases in range, scales S > 0, depths with enough range, feature counts, batch sizes, all steady input histories, every window", "why_tests_cant": "the claim is about every alignment of every window with the pseudo random sequences and about all inputs; the number of histories is infinite", "anchors": ["kernel/mul.py: FSUMul.forward", "kernel/linear.py: FSULinear, FSULinearPC", "stream/gen.py: RNG, BinGen, BSGen"]}
{"id": "C62", "title": "The recurrent stream cell computes the hard recurrent cell", "statement": "With Sobol coding and deep enough accumulators, on input and state streams of steady values all six internal and output streams of FSUMGUCell are steady, with the values that HardMGUCell computes for the stored (quantised) parameters: forget gate input, gate, gate times state, candidate, gate times candidate, next state. Hence the decoded output after n cycles is the hard cell's next state up to (2+2 c2)/2^depth_ismul + (2+2 c3)/n with explicit constants, and HUBMGUCell returns HardMGUCell's next state for the given real parameters, input and state up to that bound at n = 2^width plus an explicit multiple of 2^-width for quantisation.", "quantifier": "for all input and hidden sizes, batch sizes, parameters, inputs and states in [-1,1], widths, depths satisfying the stated range condition, with and without bias, every number of cycles", "why_tests_cant": "the composition of two layers, two multipliers and two adders with their warm-up, saturation and quantisation errors has to be bounded for all parameters and inputs at once", "anchors": ["kernel/rnn.py: FSUMGUCell.forward, HUBMGUCell.forward, HardMGUCell.forward", "kernel/linear.py: FSULinear", "kernel/mul.py: FSUMul", "kernel/add.py: FSUAdd"]}
{"id": "C63", "title": "The hardware synchroniser and unipolar square root are cycle-exact copies of the Python modules", "statement": "On the same input bits, SkewedSync.sv of any counter width returns in every cycle exactly the two bits that the Python SkewedSync of that depth returns (for tensors of any fixed shape), and BISQRT_S_JK_U.sv returns exactly the bits of the unipolar FSUSqrt with jk_trace.", "quantifier": "for all counter widths, all input streams and every cycle", "why_tests_cant": "equality of two state machines on all infinite input streams; simulation covers finitely many finite streams", "anchors": ["hw/stream/shuffle/SkewedSync.sv", "hw/kernel/sqrt/BISQRT_S_JK_U.sv", "stream/shuffle.py: SkewedSync", "kernel/sqrt.py: FSUSqrt"]}
{"id": "C64", "title": "Hardware flip-flop and converters are the Python modules one cycle later", "statement": "JKFF.sv and Uni2Bi.sv show in cycle t+1 what the Python JKFF and Uni2Bi (depth at least 4) return in call t. Bi2Uni.sv does so as long as the input's running sum of +1/-1 never falls more than 2^(depth-2) below its maximum so far (register of at least depth-1 bits). Its register wraps instead of saturating: on constant zero it emits a one after exactly 2^(DEP-1)+1 cycles, the Python module never.", "quantifier": "for all input streams, depths and register widths, every cycle", "why_tests_cant": "delays and wrap-around show up only after input-dependent, unbounded times", "anchors": ["hw/kernel/jkff/JKFF.sv", "hw/stream/shuffle/Uni2Bi.sv", "hw/stream/shuffle/Bi2Uni.sv", "stream/shuffle.py: Bi2Uni, Uni2Bi", "kernel/jkff.py: JKFF"]}
{"id": "C65", "title": "Hardware sign and absolute value versus FSUSignAbs", "statement": "The sign output of Sign.sv and Abs.sv in cycle t+1 is the sign the Python module returns in call t. The absolute values differ exactly in the cycles in which the Python sign changes (Python one, hardware zero), so over n cycles the Python module has as many more ones as there were sign changes.", "quantifier": "for all depths >= 1, input streams and every cycle", "why_tests_cant": "the difference depends on the whole input history", "anchors": ["hw/kernel/abs/Abs.sv", "hw/kernel/sign/Sign.sv", "kernel/signabs.py: FSUSignAbs"]}
{"id": "C66", "title": "Hardware multipliers and their Sobol generator versus FSUMul", "statement": "After loading an operand, uMUL_uni.sv and uMUL_bi.sv of any width put out in every cycle exactly the bit of the static FSUMul with Sobol numbers until the input has had 2^width ones (zeros). The hardware generator does not repeat its sequence: in odd periods the first and last bit of every number are inverted, each period still is a permutation of 0..2^width-1, so the unipolar product is exact at whole periods, but individual bits differ from the second period on.", "quantifier": "for all widths, operands, input streams and every cycle", "why_tests_cant": "the generator's behaviour in later periods and the product for all operands need an argument for every width", "anchors": ["hw/kernel/old/uMUL_uni/uMUL_uni.sv", "hw/kernel/old/uMUL_bi/uMUL_bi.sv", "hw/kernel/old/uMUL_uni/SobolRNGDim1.sv, LSZ.sv, cntWithEn.sv, SobolRNG.sv", "kernel/mul.py: FSUMul", "stream/gen.py: RNG"]}
{"id": "C67", "title": "Hardware adders and the 16-input MAC versus FSUAdd, FSUMul and FSULinear", "statement": "The parallel counters count. uSADD8/16.sv put out exactly the bits of the scaled FSUAdd with enough depth. uNSADD16.sv has emitted, one cycle later, as many ones as the non-scaled bipolar FSUAdd or one more while the running sum stays in its 10-bit range, and emits differently when the sum is negative; uNSADD8.sv has the offset of 16 inputs. uMAC_uni_scaled.sv and uMAC_bi_scaled.sv are sixteen FSUMul followed by a scaled FSUAdd, and the unipolar one simulates a 16-feature FSULinear bit for bit, until an input has had 2^width ones (bipolar: ones or zeros, and all inputs equal in the loading cycle).", "quantifier": "for all input streams, operands, widths and depths with enough range, every cycle", "why_tests_cant": "composition of sequential circuits compared over all input histories", "anchors": ["hw/kernel/old/uSADD/uSADD8.sv, uSADD16.sv", "hw/kernel/old/uNSADD/uNSADD8.sv, uNSADD16.sv", "hw/kernel/old/parallelCnt/parallelCnt7.sv, parallelCnt15.sv", "hw/kernel/old/MAC16/uMAC_uni_scaled, uMAC_bi_scaled", "kernel/add.py: FSUAdd", "kernel/linear.py: FSULinear"]}
{"id": "C68", "title": "Hardware dividers and square roots: where they agree with the Python modules and where not", "statement": "CORDIV_kernel.sv shifts every quotient into its register, the Python kernel only the valid ones. They agree in every cycle with one cell, and with more cells as long as all divisor bits so far were one; so ISCBDIV_U.sv with one cell is the unipolar FSUDiv. With two cells and a divisor that dries up, the Python kernel keeps the value one half while the hardware locks to constant one. GDIV_U.sv and GSQRT_U.sv keep the ones of quotient*divisor (of pairs of successive output ones) within 2^(DEP-1) plus the number of full-counter cycles of the ones of the dividend (input). BISQRT_S_JK_B.sv feeds back its input instead of its output and returns a stream of value 1/3 unchanged where the Python module returns 2/3. SkewedSyncInt.sv hands out a received one again in every later cycle.", "quantifier": "for all input streams, random numbers, depths and every cycle; the disagreements are shown by streams followed for all time", "why_tests_cant": "needs invariants over all histories; the disagreements are permanent, not transient", "anchors": ["hw/kernel/div/CORDIV_kernel.sv, ISCBDIV_U.sv, GDIV_U.sv", "hw/kernel/sqrt/GSQRT_U.sv, BISQRT_S_JK_B.sv", "hw/stream/shuffle_int/SkewedSyncInt.sv", "kernel/div.py: CORDIV_kernel, FSUDiv", "kernel/sqrt.py: FSUSqrt"]}
{"id": "C69", "title": "The streaming modules lose nothing to single precision, for streams of any length", "statement": "Executed in binary32 (every operation rounded to nearest even, sums in any order), FSUAdd returns in every call exactly the bit of exact arithmetic if scale and entry are multiples of a power of two small enough for all values to fit 24 bits (e.g. three times the number of inputs plus 2^(depth-2) at most 2^23). The same holds for Bi2Uni and Uni2Bi up to depth 25 and for SkewedSync and FSUSignAbs up to depth 24. Beyond, it fails: with depth 28 or more Bi2Uni stops counting at -2^24 and emits a one 2^24 cycles early.", "quantifier": "for all bit streams, summation orders, admissible depths, scales and input counts, every cycle", "why_tests_cant": "rounding errors could accumulate over arbitrarily long streams and depend on the summation order of the backend", "anchors": ["kernel/add.py: FSUAdd.forward", "stream/shuffle.py: Bi2Uni, Uni2Bi, SkewedSync", "kernel/signabs.py: FSUSignAbs"]}
{"id": "C70", "title": "Source numbers generated in single precision", "statement": "For unipolar sources, BinGen in binary32 returns for every binary32 number what exact arithmetic returns. For bipolar ones the result is in [0, 2^width], monotone, within 1/2 + 2^(width-25) of (x+1)/2*2^width, and equal to the exact result unless that target is within 2^(width-25) of a half-integer; every level k is hit exactly by 2k/2^width - 1 up to width 23. Near a half-integer it can be off by one (width 8, x = 1/256 + 2^-30: 128 instead of 129). The division in RawScale keeps results in [-1, 1] and maps the larger bound to exactly +-1.", "quantifier": "for all binary32 sources and all widths", "why_tests_cant": "2^32 sources per width and mode; the failing ones are rare", "anchors": ["stream/gen.py: BinGen, RawScale"]}
{"id": "C71", "title": "Metrics in single precision: how long they can be trusted", "statement": "The counters of ProgError count exactly up to 2^24 observations (ones) and then stop. Until then the reported unipolar value is the stream's value correctly rounded (error at most 2^-25), the bipolar one within 3*2^-25. Once 2^24 ones have been seen every stream is reported as 1, e.g. the alternating stream after 2^25 cycles. Correlation returns the correctly rounded SCC, within 2^-25 and in [-1, 1], for up to 4096 observations; from 4098 on identical streams can be reported as less than 1.", "quantifier": "for all bit streams and lengths", "why_tests_cant": "the failure appears only after tens of millions of cycles, the guarantee is about all streams", "anchors": ["metric/metric.py: ProgError, Correlation"]}
{"id": "C72", "title": "Layers of stream modules chain to whole networks", "statement": "Chain any number of bipolar FSULinear layers (any positive scale), FSUReLU, FSUHardsigmoid and FSUHardtanh modules and feed every cycle's output bits to the next one. If the inputs are streams of steady values (bounded deviation over every window) and every counter has room for the deviation it sees, then no call fails and every output is again a stream of steady value, namely the value of the same chain of ordinary functions with the stored weights; with Sobol coded inputs the decoded output after n cycles is within an explicit quantisation error plus a constant over n of the network with the exact numbers. An FSUConv2d layer maps images of steady pixel streams to images of steady streams of the zero padded convolution. Single blocks: FSUReLU carries max(0, v) if its depth covers the deviation of its input, and for every depth there is a stream of value 1/3 that it reports as at least 1/2 forever; FSUHardsigmoid carries (v+1)/2.", "quantifier": "for all chains of any length and widths, all weights and biases in [-1,1], all batch sizes, all streams with steady values, every number of cycles", "why_tests_cant": "errors of one stage are the inputs of the next; a test has one network, one input and one length", "anchors": ["kernel/linear.py: FSULinear", "kernel/relu.py: FSUReLU", "kernel/sigmoid.py: FSUHardsigmoid", "kernel/tanh.py: FSUHardtanh", "kernel/conv.py: FSUConv2d", "stream/gen.py: RNG, BinGen, BSGen"]}
{"id": "C73", "title": "Convolutional stream networks compute the network", "statement": "Chain any number of bipolar FSUConv2d layers (any geometry that fits, integer padding, any positive scale) and stream activations, flatten, and chain any number of linear layers and activations. If all counters have room, no call fails, every output is a stream of steady value of the same network of ordinary functions with the stored weights, and with Sobol coded pixels the decoded output after T cycles differs from the exact network by at most an explicit quantisation error plus a constant over T.", "quantifier": "for all chains, image sizes, channel counts, batch sizes, kernels, strides, paddings, dilations, weights and pixels in [-1,1], every number of cycles", "why_tests_cant": "unboundedly many layers and inputs; padding bits alternate and interact with deviations of the pixel streams", "anchors": ["kernel/conv.py: FSUConv2d", "kernel/linear.py: FSULinear", "kernel/relu.py: FSUReLU", "kernel/sigmoid.py: FSUHardsigmoid", "kernel/tanh.py: FSUHardtanh"]}
{"id": "C74", "title": "Recurrent cells over whole sequences", "statement": "Feed a stream-based recurrent cell (HUBMGUCell), or the fixed-point cell (HardMGUCellFXP), any sequence of input batches, each time with the state it returned last, and do the same with the ordinary hard cell (HardMGUCell) of the same parameters. No call fails, all states stay in [-1,1], and after t steps the states differ by at most E(1+L+...+L^(t-1)), where E is the explicit error of a single call from equal states and L = Wf + max(1, Wn(1+Wf/2)) with Wf, Wn the largest absolute row sums of the recurrent weights. Errors of single calls do not shrink in general: a cell that keeps its state keeps its error.", "quantifier": "for all sequence lengths, batch sizes, input and hidden sizes, weights, biases and initial states in range, and inputs", "why_tests_cant": "error propagation over unboundedly many steps, for all weights and inputs at once", "anchors": ["kernel/rnn.py: HUBMGUCell, HardMGUCell, HardMGUCellFXP"]}
{"id": "C75", "title": "What the constructors accept", "statement": "TLUTLinear and TLUTConv2d accept a configuration exactly when the operand name, formats, quantiles, rounding and sign-magnitude flag are admissible (names in any case), the digit width is positive, and the supplied weight and bias tensors have the right leading sizes (convolutions: also one group and zero padding); the layer then behaves as configured and forward raises nothing at full quantiles on data with positive largest magnitudes. HUB layers that could be built have a valid configuration. Only leading sizes are compared: tensors with extra dimensions pass, tensors of too small rank raise IndexError. The fixed-point layers check nothing but shapes. A cycle budget of zero is accepted and then every digit of a temporal operand reads as -1, whatever the data. The recurrent stream cell requires both weights (and biases), and its forward accepts exactly matching leading sizes.", "quantifier": "for all configuration values, shapes, layer sizes and data", "why_tests_cant": "the configuration space is unbounded; tests try the few sensible settings", "anchors": ["kernel/linear.py: TLUTLinear.__init__, FXPLinear.__init__, HUBLinear.__init__", "kernel/conv.py: TLUTConv2d.__init__, FXPConv2d.__init__, HUBConv2d.__init__", "kernel/rnn.py: FSUMGUCell.__init__, check_forward_input, check_forward_hidden"]}
{"id": "C76", "title": "The bipolar, in-stream and optimised hardware dividers and square roots", "statement": "GDIV_B and GSQRT_B keep divisor*dividend - divisor*previous divisor*quotient, respectively input - output*previous output, summed over time, within bounds given by the counter and its full and empty cycles, for every random number source. The in-stream dividers are the correlated kernel applied to bits regenerated from wrapping difference counters; hence the unipolar one reads one for 0/1, and the bipolar one uses the complement of the magnitude. The in-stream square roots pass every second input bit through; with one cell the unipolar one never puts out more than twice the input's ones, so it is not a square root below 1/4, and the bipolar one has no feedback from its output. BISQRT_O_U/B put out a one exactly when the wrapped net count exceeds its reset value; the wrap is reached with three bits, where a constant one settles at 3/8. ISCBDIV_B divides +-1 by +-1 correctly from cycle four on, whatever the depths and random numbers.", "quantifier": "for all streams, random numbers, register widths and depths and all cycles", "why_tests_cant": "hardware test benches run a few streams of fixed length at the default widths", "anchors": ["hw/kernel/div/GDIV_B.sv", "hw/kernel/sqrt/GSQRT_B.sv", "hw/kernel/div/CORDIV_kernel_IS_U.sv", "hw/kernel/div/CORDIV_kernel_IS_B.sv", "hw/kernel/sqrt/BISQRT_S_IS_U.sv", "hw/kernel/sqrt/BISQRT_S_IS_B.sv", "hw/kernel/sqrt/BISQRT_O_U.sv", "hw/kernel/sqrt/BISQRT_O_B.sv", "hw/kernel/div/ISCBDIV_B.sv"]}
{"id": "C77", "title": "What the Gaines, deterministic and temporal hardware multipliers compute", "statement": "With operands loaded once and held: gMUL draws both operands against generators in the same state, so over every generator period gMUL_uni puts out min(a,b) ones and gMUL_bi 2^w-|a-b| ones, which is the product only when an operand is zero. dMUL compares the first operand with a free running and the second with a slowed generator that stays on one number for long stretches, so in any period without an advance it repeats the first operand or is silent (uni), resp. repeats or inverts it (bi). tMUL_uni puts out, after its load, as many ones as the HUB table entry for the same operands and is within w of the product; a second load finds the generator where the first left it. tMUL_bi is constant after its burst.", "quantifier": "for all widths, operands, periods and cycles", "why_tests_cant": "test benches run one pair of operands at the default width and print waveforms", "anchors": ["hw/kernel/old/gMUL_uni/gMUL_uni.sv", "hw/kernel/old/gMUL_bi/gMUL_bi.sv", "hw/kernel/old/dMUL_uni/dMUL_uni.sv", "hw/kernel/old/dMUL_bi/dMUL_bi.sv", "hw/kernel/old/tMUL_uni/tMUL_uni.sv", "hw/kernel/old/tMUL_bi/tMUL_bi.sv", "kernel/linear.py: HUBLinear"]}
{"id": "C78", "title": "What the multiplexer, OR, approximate and binary hardware adders compute", "statement": "muxADD_rng samples every input exactly once per generator period, so it is exact for inputs at rest, and there are inputs of value (2^w-1)/2^w each for which it is constant zero. dADD is exact over 4^w cycles for inputs of period 2^w. orADD puts out at least the largest input and at most the sum, and the sum only if no two inputs are one in the same cycle. apcADD compares with an approximate count that is off by -1 to +3 and puts out exactly that count per generator period; apcadd16's count is off by at most 4. bADD and bMUL are exact two cycles later; mac accumulates at least 16 full products without overflow. uNSADD16 with offset 0 emits the bits of the non-scaled unipolar FSUAdd one cycle later as long as the inputs have had at most 511 ones, and deviates beyond.", "quantifier": "for all input streams, widths, random number sequences, periods and cycles", "why_tests_cant": "test benches run a few streams of fixed length at the default widths", "anchors": ["hw/kernel/old/muxADD/muxADD_rng.sv", "hw/kernel/old/dADD/dADD.sv", "hw/kernel/old/orADD/orADD.sv", "hw/kernel/old/apcADD/apcADD.sv", "hw/kernel/old/add/apcadd16.sv", "hw/kernel/old/bADD/bADD.sv", "hw/kernel/old/bMUL/bMUL.sv", "hw/kernel/old/MAC16/bMAC_SIMD/mac.sv", "hw/kernel/old/MAC16/uMAC_uni_nonscaled/uNSADD16.sv", "kernel/add.py: FSUAdd"]}
{"id": "C79", "title": "What the sixteen-lane multiply-accumulate units compute", "statement": "With operands loaded once and held: gainMAC_*_scaled and tMAC_*_scaled show in every cycle the product bit of the lane selected by a four bit generator; that generator runs in step with the operands' one, so of a lane k whose product is m the unit sees about half its turns as ones for each of the thresholds k%8 and k%8+8 sixteenths below m, and a lane below k%8 sixteenths is never seen. gainMAC_uni_nonscaled puts out the largest lane product. dMAC_*_scaled show lane 0 alone in all but one of 2^w periods, dMAC_uni_nonscaled the largest first operand among the lanes whose second operand exceeds a constant. tMAC_uni_nonscaled settles at the sum of its lane products modulo 256. uMAC_uni_nonscaled emits the bits of the Python multipliers followed by the non-scaled unipolar FSUAdd, and uMAC_bi_nonscaled as many ones as the bipolar one or one more, while the adder stays in range.", "quantifier": "for all operands, input streams, operand widths (eight bits for tMAC_uni_nonscaled), periods and cycles", "why_tests_cant": "the units have no test benches; simulating all operands of sixteen lanes is out of reach", "anchors": ["hw/kernel/old/MAC16/gainMAC_uni_scaled/gainMAC_uni_scaled.sv", "hw/kernel/old/MAC16/gainMAC_bi_scaled/gainMAC_bi_scaled.sv", "hw/kernel/old/MAC16/gainMAC_uni_nonscaled/gainMAC_uni_nonscaled.sv", "hw/kernel/old/MAC16/dMAC_uni_scaled/dMAC_uni_scaled.sv", "hw/kernel/old/MAC16/dMAC_bi_scaled/dMAC_bi_scaled.sv", "hw/kernel/old/MAC16/dMAC_uni_nonscaled/dMAC_uni_nonscaled.sv", "hw/kernel/old/MAC16/tMAC_uni_scaled/tMAC_uni_scaled.sv", "hw/kernel/old/MAC16/tMAC_bi_scaled/tMAC_bi_scaled.sv", "hw/kernel/old/MAC16/tMAC_uni_nonscaled/tMAC_uni_nonscaled.sv", "hw/kernel/old/MAC16/uMAC_uni_nonscaled/uMAC_uni_nonscaled.sv", "hw/kernel/old/MAC16/uMAC_bi_nonscaled/uMAC_bi_nonscaled.sv", "kernel/mul.py: FSUMul", "kernel/add.py: FSUAdd"]}
{"id": "C80", "title": "The hardware Gray code and Halton generators", "statement": "Consecutive outputs of grayCode differ in exactly one bit, also at the wrap-around, and two outputs are equal only if the cycles are a multiple of 2^w apart. HaltonSeq2 shows in cycle t the reversal of the binary digits of t; HaltonSeq3 and HaltonSeq5 show, one cycle late, the reversals of the base 3 and base 5 digits, and nothing overflows. So every aligned block of b^m cycles hits each of the b^m equal intervals exactly once, and a comparator of threshold v driven by them has, after any number n of cycles, n*v/b^k ones up to (b-1)*k, exactly after whole periods.", "quantifier": "for all widths, bases of at least 2, numbers of digits, register widths that hold them, thresholds and cycles", "why_tests_cant": "the generators are fixed by macros and a simulation shows one period of one configuration; accuracy at every prefix and every threshold needs the stratification argument", "anchors": ["hw/stream/old/GrayCode/grayCode.sv", "hw/stream/old/HaltonSeq2/HaltonSeq2.sv", "hw/stream/old/HaltonSeq3/HaltonSeq3.sv", "hw/stream/old/HaltonSeq5/HaltonSeq5.sv", "hw/stream/old/HaltonSeq3/ModCnt3.sv"]}
{"id": "C81", "title": "What the earlier hardware kernels compute, and where they get stuck", "statement": "relu.sv passes the first 2^(DEPTH-1) ones of any stream, drops the next 2^(DEPTH-1) and passes all later ones. sqrt.sv never lowers its counter, so its output is one whenever the random number is at most half the range; the root of nought has value one half. gdiv4b/5b and gsqrt4b/5b keep quotient*divisor (pairs of output ones) within half the counter range, plus the full or empty cycles, of the dividend (input), but always answer the random number nought with a one. skewedSync.sv never gives back a one it counted; behind it iscbdiv.sv puts out constant one once it has seen one dividend one and two more divisor ones. cordiv.sv alone agrees with the Python kernel of two cells from the second divisor one on. sqrtJK.sv keeps every input one, at most doubles them and makes every finished run of ones even. iscbdivbisqrt.sv with the select bit always set has a one in every even cycle whatever the input. cordivall.sv divides two regenerated streams whose counters wrap, so nought divided by one can read one. data_buf.sv reads what was last written.", "quantifier": "for all input streams, random numbers, counter widths and cycles", "why_tests_cant": "the modules have no test benches; the failures need particular histories and the balances hold over unbounded time", "anchors": ["hw/kernel/old/relu/relu.sv", "hw/kernel/old/sqrt/sqrt.sv", "hw/kernel/old/sqrt/sqrtJK.sv", "hw/kernel/old/jkdivbisqrt/jkdivbisqrt.sv", "hw/kernel/old/gdiv/gdiv4b.sv", "hw/kernel/old/gsqrt/gsqrt4b.sv", "hw/kernel/old/iscbdiv/skewedSync.sv", "hw/kernel/old/iscbdiv/iscbdiv.sv", "hw/kernel/old/cordiv/cordiv.sv", "hw/kernel/old/cordivall/cordivall.sv", "hw/kernel/old/iscbdivbisqrt/iscbdivbisqrt.sv", "hw/kernel/old/MAC16/bMAC_SIMD/data_buf.sv", "kernel/div.py: CORDIV_kernel"]}
{"id": "C82", "title": "The hardware exponential is a cubic polynomial near e^x/4", "statement": "The output bit of exp.sv is a fixed function of the inputs of the last four cycles; whatever came before, its mean over four independent cycles with input probability x and random-bit probabilities p0, p1, p2 is (1-p2)(p0+(1-p0)x) + p2(1-p0)x^2(p1+(1-p1)(1-p0)x). With fair random bits this is 1/4+x/4+x^2/8+x^3/16, which is at least e^x/4 and at most e^x/4+1/96.", "quantifier": "for all histories, cycles, probabilities and every x in [0,1]", "why_tests_cant": "a statement about means over all inputs and about all real probabilities; a simulation estimates one of them", "anchors": ["hw/kernel/old/exp/exp.sv"]}
{"id": "C83", "title": "Bipolar division: signs multiply and magnitudes divide", "statement": "The bipolar FSUDiv never fails and in every cycle returns the XOR of the two signs (as FSUSignAbs reports them) with the unipolar quotient of the two magnitudes (Bi2Uni of the absolute values) turned back by Uni2Bi. So a bipolar stream divided by itself returns only ones once entry_kn ones of its magnitude have passed, (+-1)/(+-1) has the right sign from the first cycle, and a steady stream of either sign (running sum never dropping more than two below its maximum) divided by +1 or -1 keeps its running sum up to three, with the sign flipped for -1, although the sign counter saturates.", "quantifier": "for every entry_kn power of two, depth_sa, depth_ss, number sequence, pair of streams and cycle", "why_tests_cant": "six stateful units in series; only the composition over whole histories shows that the signs meet the right quotient bits", "anchors": ["kernel/div.py: FSUDiv.bipolar_forward", "kernel/signabs.py: FSUSignAbs", "stream/shuffle.py: Bi2Uni, Uni2Bi"]}
{"id": "C84", "title": "Bipolar square root: law of the inserted and emitted bits", "statement": "Bipolar FSUSqrt contains every input one. With the JK trace the output is the input with a one inserted in the cycle after every greedily accepted (non-adjacent) one of the Bi2Uni of the output itself; this equation has exactly one solution. So the result depends on the encoding and not on the value: nought sent as 1010... returns the constant 1, nought sent as 0101... returns unchanged. With the division trace even calls pass the input and odd calls contain the Bi2Uni one of the previous output. With emit (entry_sr<=255) #out + residue = #in + #emitted in every prefix with residue between 0 and entry_sr, where a one is emitted when the Bi2Uni of the output is one and the output entry_sr calls ago was nought.", "quantifier": "for every bitstream, number sequence, entry_sr and prefix", "why_tests_cant": "feedback through two counters over unbounded histories; a test compares one random encoding with a tolerance", "anchors": ["kernel/sqrt.py: FSUSqrt.bipolar_trace, FSUSqrt.bipolar_emit, FSUSqrt.forward", "stream/shuffle.py: Bi2Uni"]}
{"id": "C85", "title": "Hybrid layers end to end at any setting", "statement": "A HUBLinear or HUBConv2d of width W+1 whose counted operand (the weight, or the input when the weight is temporal coded) uses Sobol numbers and whose other operand uses any permutation, run for any number c>=1 of cycles with any rounding mode, deviates from the exact layer by at most I*(W*2^(im+wm-W) + M*dw + N*dx + dx*dw), where M, N are the largest magnitudes, 2^im, 2^wm the powers picked for them and dx (dw) is the larger of half a unit 2^(im-W) and the excess of M over min(c,2^W)-1 units; this covers the default configuration and early termination. With quantiles below one the same holds with the powers picked for the smaller scales, or the scale is zero and there is no finite result. Finding: cycle=0 is accepted, and then every non-zero operand counts as full scale.", "quantifier": "for every size, batch, input, weight, bias, width, cycle count, rounding mode, quantile and pair of sequences", "why_tests_cant": "the bound couples the number sequences, the picked powers and the cycle limit for all data; tests sample a few configurations with fixed tolerances", "anchors": ["kernel/linear.py: HUBLinear, HUBLinearFunction.forward", "kernel/conv.py: HUBConv2d", "kernel/utils.py: rshift_offset"]}
{"id": "C86", "title": "Convolution layers back-propagate the exact convolution", "statement": "The gradients that FXPConv2d, HUBConv2d and TLUTConv2d deliver for input, weight and bias are those of the exact (unquantised) zero-padded convolution: for every output gradient and every direction of change, the change of the contracted output is the sum of the three inner products plus the convolution of the two perturbations, and no other gradients have this property. Overlapping windows, padding, stride and dilation are included; pixels in no window get gradient zero. Gradients not asked for are absent, and the backward pass is defined whenever a window fits.", "quantifier": "for every geometry in which the window fits, batch, channel and filter count, image, filters, bias, output gradient and direction", "why_tests_cant": "gradient checks compare a few entries with finite differences, which are useless here because the quantised forward pass is piecewise constant", "anchors": ["kernel/conv.py: HUBConv2d.forward, FXPConv2d.forward, TLUTConv2d.forward", "kernel/linear.py: HUBLinearFunction.backward, FXPLinearFunction.backward, TLUTLinearFXPFXPFunction.backward, TLUTLinearFXPFPFunction.backward, TLUTLinearFPFPFunction.backward"]}
{"id": "C87", "title": "Fixed-point and hybrid layers in single precision", "statement": "Run in binary32 on binary32 operands, the fixed-point and hybrid linear and convolution layers lose nothing beyond quantisation while the integer sums fit in 24 bits: whatever order, grouping or fusing the matrix product uses, there is exactly one possible output, it is the exact quantised result if there is no bias and one rounding of it otherwise. Hence, with quantile one, every output is one rounding of a number within the bilinear quantisation bound of the exact linear map or convolution. Beyond 24 bits the result depends on the order of the additions: a width-13 layer with three inputs can return two different values.", "quantifier": "for every number of inputs, outputs and rows, geometry, widths with inputs*(2^wi-1)*(2^ww-1) <= 2^24 (hybrid: inputs*2^(w-1) <= 2^24), data with largest magnitude between 2^-50 and 2^50, bias, rounding mode, number sequences and order of summation; the finding by witness", "why_tests_cant": "whether a float matrix product is exact depends on the summation order of the library and on every operand; tests see one order on one machine", "anchors": ["kernel/linear.py: FXPLinear.forward, FXPLinearFunction.forward, HUBLinear.forward, HUBLinearFunction.forward", "kernel/conv.py: FXPConv2d.forward, HUBConv2d.forward", "kernel/utils.py: rshift_offset"]}
{"id": "C88", "title": "Shift selection with an inexact logarithm", "statement": "The powers of two that the fixed-point and hybrid layers choose for their data come from a rounded logarithm. If that logarithm is off by at most d < 1/2, the choice is within one of the exact choice, and differs from it only for magnitudes whose true logarithm is within d of a rounding boundary; it is always within 1+d of the true logarithm. The three shifts are then the chosen powers less the widths, and the output shift cancels them.", "quantifier": "for every logarithm function, error bound d, data, weights, widths and the three rounding modes", "why_tests_cant": "the error of the logarithm differs between libraries and devices, and it matters only at boundaries that random data do not hit", "anchors": ["kernel/linear.py: FXPLinear.forward, FXPLinearFunction.forward, HUBLinear.forward, HUBLinearFunction.forward", "kernel/conv.py: FXPConv2d.forward, HUBConv2d.forward", "kernel/utils.py: rshift_offset"]}
{"id": "C89", "title": "Exactly which stream multipliers, layers and cells can be built", "statement": "Construction succeeds exactly when the documented conditions hold. A static multiplier needs a known mode, a known sequence name and an operand. The counter of a layer needs a known mode and sequence, and a bias value if it has a bias. Linear and convolution layers need in addition, in bipolar mode with a temporal sequence, no scale or a scale equal to the number of addends. The recurrent stream cell needs bipolar mode, a known sequence, both biases or none and a stored state; it sets its scale to one, so with a temporal sequence it can be built only if its gates have a single addend. Names count in any case.", "quantifier": "for every mode, sequence name and scale, every width, size, weight and bias", "why_tests_cant": "acceptance is a condition on all strings and sizes at once; tests try a few accepted and refused configurations", "anchors": ["kernel/mul.py: FSUMul", "kernel/linear.py: FSULinear, FSULinearPC", "kernel/conv.py: FSUConv2d", "kernel/rnn.py: FSUMGUCell", "stream/gen.py: RNG, BinGen, BSGen"]}
{"id": "C90", "title": "Matrix products, look-up layers and gradients in single precision", "statement": "Whatever order, grouping or fusing a binary32 matrix product uses, its result is within ((1+2^-24)^n - 1) times the sum of the magnitudes of the n products, plus an underflow term of 2n(1+2^-24)^n 2^-150, of the exact one. The look-up table layers compute their digit-limited and truncated operands in binary32 without any rounding error, in all three format combinations, so their outputs are within that bound of the exact product of exactly these operands, with the bias added and rounded once; for two fixed-point operands whose integer products fit in 24 bits the product is exact. Every gradient of the linear layers is within the bound of the exact gradient. The same holds for the look-up convolution layer on each window, its scale being that of the windows only.", "quantifier": "for every number of inputs, outputs and rows, image and window geometry, summation order, digit size up to 24, cycle count, operand width up to 24 bits plus sign, rounding mode, binary32 data (fixed-point operands: quantile one and largest magnitude between 2^-50 and 2^50; floating-point temporal operand: noughts and normal numbers)", "why_tests_cant": "rounding depends on all operands and on the summation order of the library; tests see one order on one machine", "anchors": ["kernel/linear.py: TLUTLinear.forward, TLUTLinearFXPFXPFunction, TLUTLinearFXPFPFunction, TLUTLinearFPFPFunction, HUBLinearFunction.backward, FXPLinearFunction.backward", "kernel/conv.py: TLUTConv2d.forward", "kernel/utils.py: rshift_offset"]}
{"id": "C91", "title": "Recurrent cells in single precision", "statement": "Executed in binary32, HardMGUCell(hard=True) keeps every intermediate value and the state in the legal unary range for any weights, data and summation order. One call is within (2 + W/2)·r + (12 + 5W)·2^-24 of exact arithmetic, where r is the rounding bound of a sum of n = hidden + input + 1 terms of total magnitude A, and W the row sum of the recurrent candidate weights; after t steps of any sequence the states are within that error times 1 + L + … + L^(t-1), L being the Lipschitz constant of the cell. A forget gate open by more than r holds the state bit for bit and a closed one replaces it by the candidate bit for bit. HardMGUCellFXP(hard=True) computes in binary32 exactly what it computes in exact arithmetic, over whole sequences, if its sums fit 24 bits; at the default widths this covers 1040 data and state entries with bias. Beyond 24 bits it can miss by a unit in the last place. A call fails exactly when a state with another number of rows is given.", "quantifier": "for every input and hidden size, batch size, sequence length, weights, biases, data, start state in [-1,1] (or none), summation order and fusing; overflow excluded", "why_tests_cant": "a recurrent network feeds its own rounding errors back for as long as the sequence lasts, and the order of the sums is the library's choice; tests see one machine and short sequences", "anchors": ["kernel/rnn.py: HardMGUCell.forward, HardMGUCellFXP.forward", "kernel/sigmoid.py: HUBHardsigmoid", "kernel/tanh.py: HUBHardtanh", "kernel/utils.py: Round, RoundSTE"]}
{"id": "C92", "title": "Run-time scale and entry count in the first call only", "statement": "Of the scale and entry arguments of forward of FSUAdd, FSULinear and FSUConv2d only those of the first call have an effect; every call then returns (or raises) what a module configured with them from the beginning returns (or raises). A layer told to scale by S in its first call is the layer built with scale S, where the constructor allows it. The check of the constructor that refuses other scales for temporal coded bipolar weights does not apply at run time: such a layer runs and keeps ones*S equal to the counts less (entry-S)/2 per cycle up to the accumulator range.", "quantifier": "for every configuration, sequence of batches or images (also of changing size), sequence of scale and entry arguments, padding and cycle", "why_tests_cant": "the arguments can be given in any call; which of them matter shows only over sequences of calls with different arguments", "anchors": ["kernel/add.py: FSUAdd.forward", "kernel/linear.py: FSULinear.forward", "kernel/conv.py: FSUConv2d.forward"]}
{"id": "C93", "title": "Symmetries of the quantised layers and influence between batch rows", "statement": "FXPLinear, HUBLinear and TLUTLinear (all format combinations, cycle not zero) commute with the symmetries of a matrix product: reordering the rows of a batch reorders the results; renumbering the input features in input and weight changes nothing; renumbering the output features renumbers the outputs; multiplying all inputs or all weights by plus or minus a power of two multiplies the bias-free output by it exactly, whatever the rounding and the quantile; the bias is added last. With input quantile one, the other rows of a batch act on a row only through the largest magnitude of the batch. They do act: a FXPLinear row smaller than that magnitude by 2^(width+1) leaves nothing but the bias, and at every width and rounding a row computed exactly alone is lost beside a larger one. TLUTLinear with two floating formats, FSULinear and FSULinearPC treat each row as if it were alone. With cycle zero TLUTLinear is not odd in its input.", "quantifier": "for every batch, weight, bias, permutation, signed power of two, width, rounding mode, quantile in (0,1], HUB table, number of features, and for the stream layers every sequence of batches of one size and cycle", "why_tests_cant": "symmetries relate two runs on inputs of arbitrary size and scale; a test compares a run with an expected value, and with one row per batch the influence between rows cannot show", "anchors": ["kernel/linear.py: FXPLinear.forward, HUBLinear.forward, TLUTLinear.forward, FSULinear.forward, FSULinearPC.forward", "kernel/utils.py: rshift_offset"]}
{"id": "C94", "title": "Symmetries and receptive fields of the convolution layers", "statement": "FXPConv2d, HUBConv2d and TLUTConv2d (cycle not zero) commute with the symmetries of a convolution: renumbering the channels in images and filters changes nothing, renumbering the filters renumbers the output channels, multiplying all pixels or all filter taps by plus or minus a power of two multiplies the bias-free output by it exactly, and the bias is added last. Two calls either raise the same error or both return. Locality: in FXPConv2d and HUBConv2d equal windows give equal outputs, wherever in the batch they are, whenever the two batches hold the same pixels in any arrangement, and for input quantile one whenever their largest magnitudes agree. In TLUTConv2d pixels that no window covers have no influence, and with two floating formats an output depends on its window alone. In FXPConv2d a pixel that no window covers can turn an exact output into zero, at every width and rounding. In FSUConv2d and FSUConv2dPC every output position is, cycle by cycle, an FSULinear or FSULinearPC with the flattened filters fed with the streams of its window alone, padding included.", "quantifier": "for every kernel size, stride, padding and dilation that torch accepts, every number and size of images, channels and filters, all pixels, taps and biases, every permutation, signed power of two, width, rounding, quantile in (0,1], number format, and for the stream layers every sequence of images and cycle", "why_tests_cant": "shifting, renumbering and scaling relate two runs on images of arbitrary size; a test of one image per batch with every pixel covered cannot show the influence of the others", "anchors": ["kernel/conv.py: FXPConv2d.forward, HUBConv2d.forward, TLUTConv2d.forward, FSUConv2d.forward, FSUConv2dPC.forward", "kernel/utils.py: rshift_offset"]}
{"id": "C95", "title": "Quantiles measured in single precision", "statement": "With quantiles below one the scales of RawScale and of the FXP, HUB and TLUT layers are measured by an interpolating quantile in single precision, at positions computed in doubles. The measured quantile is a single-precision number between two neighbouring order statistics; it is the interpolation at a position off by at most (n-1)/2^22 places, up to the rounding of the interpolation. Quantile one measures the largest magnitude exactly, and no measured scale exceeds it. Tensors of no or more than 2^24 elements are refused. RawScale then applies one monotone function, with results in [-1,1] and one rounding of the exact quotient by the measured bounds, and leaves more than q(n-1) - 1 - (n-1)/2^21 elements unclipped; only two measured bounds of zero leave no finite result. Fixed-point, hybrid and look-up linear and convolution layers with such scales obey the accuracy bounds they obey for quantile one, with the measured scales in place of the largest magnitudes; a measured scale of zero leaves no finite result.", "quantifier": "for every quantile in (0,1], every list of single-precision data of 1 to 2^24 elements, fused or separate interpolation, every weight, bias, batch, geometry, width, rounding and number format, every order of additions, and every logarithm of the stated accuracy", "why_tests_cant": "the interpolation position depends on the number of elements and on rounding in two precisions; tests with a few elements never see the displaced positions, and quantile one hides the interpolation altogether", "anchors": ["stream/gen.py: RawScale.forward", "kernel/utils.py: rshift_offset", "kernel/linear.py: FXPLinear.forward, HUBLinear.forward, TLUTLinear.forward", "kernel/conv.py: FXPConv2d.forward, HUBConv2d.forward, TLUTConv2d.forward"]}
{"id": "C96", "title": "Number types", "statement": "The configurable number types (rtype, btype, stype) do not change results as long as they hold the integers involved, and the ranges are known: floating point with p fraction bits holds 2^(p+1) in magnitude, b-bit integers their two's-complement or unsigned range. Streams of width w are the same in every cycle if the type holds 2^w; SkewedSync, Bi2Uni, Uni2Bi, FSUSignAbs, FSUReLU return what they return in exact arithmetic if the types hold the counters, FSUAdd if no call sums more than 2^(p+1) bits, FSULinearPC if the stream type holds the number of addends. With a coarser floating-point type a stream stays in every cycle between the exact streams of a - 2^(w-1-p) and a, and order between streams is kept. Beyond these ranges results are wrong: FSUReLU exchanges the two types, so its counter wraps in the type of the streams; the counter of FSUSignAbs wraps; unsigned streams make SkewedSync and FSUSignAbs count zeros up; FSUAdd in bfloat16 loses the 257th input; FSULinearPC with int8 streams counts 128 products as -128.", "quantifier": "for every floating-point precision and every size of integers, every width and depth, every permutation sequence, every value, every input bit stream and number of calls", "why_tests_cant": "the deviation needs a combination of type, depth and long runs of one bit; the tests use the default float throughout", "anchors": ["stream/gen.py: RNG, BinGen, BSGen", "stream/shuffle.py: SkewedSync, Bi2Uni, Uni2Bi", "kernel/signabs.py: FSUSignAbs", "kernel/relu.py: FSUReLU", "kernel/add.py: FSUAdd.forward", "kernel/linear.py: FSULinearPC.forward"]}
{"id": "C97", "title": "Stream networks in single precision", "statement": "A chain of FSULinear, FSUConv2d, FSUReLU, FSUHardsigmoid and FSUHardtanh executed in torch.float, with the additions of every matrix product in any order, gives in every cycle bit for bit what exact arithmetic gives for the weights as BinGen stores them, provided the number sequences, the fan-in, the scale and the accumulator depth fit into 24 bits on the grid of the offset; the Sobol, race and system sequences do for widths up to 24. No call fails. If BinGen in torch.float stores the integers exact arithmetic stores (for example for weights on the grid of the width), this is the network with the weights as given. For operands that are float numbers in [-1, 1], the value of each output stream after n cycles lies within a stated conversion error (1/2^w + 1/2^24 per operand, propagated through the layers) plus a stated constant over n of the network evaluated on real numbers.", "quantifier": "for every chain of any length and sizes, all weights, biases, batches and images in range, every stream, every number of cycles, every order of additions", "why_tests_cant": "a rounding that flips an accumulator's comparison would show in single cycles of particular streams and depends on the order in which a matrix product adds; tests run one platform on a few inputs", "anchors": ["kernel/linear.py: FSULinear, FSULinearPC", "kernel/conv.py: FSUConv2d, FSUConv2dPC", "kernel/relu.py: FSUReLU", "kernel/sigmoid.py: FSUHardsigmoid", "kernel/add.py: FSUAdd.forward", "stream/gen.py: BinGen"]}
{"id": "C98", "title": "Recurrent stream cells in single precision", "statement": "An FSUMGUCell executed in torch.float, with every sum taken in any order, gives in every cycle, on all six of its internal and output streams, bit for bit what exact arithmetic gives for the parameters as BinGen stores them, provided the accumulator depth and the depth of the in-stream multiplier are at most 24 and the number of inputs and units is below 2^21; no call fails. A HUBMGUCell in torch.float with width at most 24 has exactly one result, the one of exact arithmetic for parameters, input and state as stored. With Sobol sequences and float operands in [-1, 1] it lies within a stated bound of HardMGUCell's next state.", "quantifier": "for every batch size, number of inputs and units, all parameters, inputs and states in range, all input and state streams of any length, every order of additions", "why_tests_cant": "rounding in one of six chained stateful blocks would show as single flipped bits of particular streams, and the loop of 2^width cycles makes exhaustive comparison impossible", "anchors": ["kernel/rnn.py: FSUMGUCell, HUBMGUCell, HardMGUCell", "kernel/mul.py: FSUMul", "kernel/shiftreg.py: ShiftReg", "kernel/add.py: FSUAdd", "kernel/linear.py: FSULinear", "metric/metric.py: ProgError"]}
{"id": "C99", "title": "How accurately the correlated divider divides", "statement": "In a gap (cycles without divisor one) the kernel returns the ones of its last `entry` valid dividend bits in proportion, exactly if the gap is a multiple of `entry` long and otherwise within entry/4 ones; so over any number of cycles the count of the quotient is that of the valid dividend bits plus, per cycle without divisor one, the share of ones among the last `entry` valid bits, within entry/4 per gap. For unipolar FSUDiv on steady streams of rates p <= r the quotient count is p/r*n within a stated bound; in particular for Sobol-coded sources. If dividend and divisor have a common odd period whose number of divisor ones divides `entry`, the quotient is exact over `entry` periods. Not so otherwise: if the period is a multiple of `entry` the quotient repeats with that period, so errors stay for ever; 1000 divided by 1110 gives 1/4 or 1/2, never 1/3, with every number sequence and also with the default of two entries, and with four entries a quotient of 1/2 can read 3/4.", "quantifier": "for all dividend and divisor streams, register sizes that are powers of two, every permutation as number sequence, any number of cycles", "why_tests_cant": "the errors depend on the phase of the streams against the number sequence and persist for ever only for particular periods; random tests average over them", "anchors": ["kernel/div.py: CORDIV_kernel.forward, FSUDiv.unipolar_forward", "kernel/shiftreg.py: ShiftReg", "stream/shuffle.py: SkewedSync", "stream/gen.py: RNG, BSGen"]}
{"id": "C100", "title": "Tensors of streams: every element is a module of its own", "statement": "A module called on tensors does in every element what the module on single elements does with the bits that broadcasting puts in this place. For Bi2Uni, Uni2Bi, FSUSignAbs, FSUReLU, JKFF, the static FSUMul and FSUAdd (along any dimension, with the entries along it) the shapes may differ from call to call: a call succeeds exactly if all shapes so far (for FSUMul with that of the static operand, for FSUAdd without the summed dimension) have a common broadcast shape, and returns the smallest one. SkewedSync needs this of its two operands only and starts again when their shape changes. ShiftReg, the in-stream FSUMul, FSUDiv in both representations and FSUSqrt in all variants do so on tensors of one constant shape, and no call fails. Since state has the shape of everything seen, a batch of another size above one raises, and state of a single-element call is inherited by every element of a later batch.", "quantifier": "for all tensor shapes and ranks, all contents, any number of calls", "why_tests_cant": "tests use one shape; that nothing leaks between elements or calls depends on the shapes of internal state after any number of broadcasts", "anchors": ["stream/shuffle.py: Bi2Uni, Uni2Bi, SkewedSync", "kernel/signabs.py: FSUSignAbs", "kernel/relu.py: FSUReLU", "kernel/jkff.py: JKFF", "kernel/add.py: FSUAdd", "kernel/mul.py: FSUMul", "kernel/shiftreg.py: ShiftReg", "kernel/div.py: CORDIV_kernel, FSUDiv", "kernel/sqrt.py: FSUSqrt", "stream/gen.py: BSGen"]}
{"id": "C101", "title": "Random streams: what the modules return on average", "statement": "For inputs whose bits are independent random bits, with means taken over all inputs of a given length: JKFF with rates j and k holds a one with probability j/(j+k) up to a term that shrinks by the factor 1-j-k per cycle. The static unipolar FSUMul returns n times the product of the rates, up to the width of its sequence; the in-stream FSUMul with any first stream and a random second one does so in both representations, up to a multiple of its window that does not grow with the number of cycles. CORDIV_kernel on independent streams ignores the divisor: every output is a one with the probability of the dividend, except before the first 2^w divisor ones. FSUDiv on a dividend that is a random selection of the divisor's ones returns the quotient, and is off by at most 2^w(1-r)/r ones on average however long it runs. Unipolar FSUSqrt with the flip-flop trace returns 2p/(1+p) and not the square root of p: for every rate strictly between 0 and 1 its mean over any number of cycles is too small.", "quantifier": "for all rates, widths, number sequences, first streams and numbers of cycles; means over all inputs of that length", "why_tests_cant": "tests draw a few random streams and accept a tolerance; a bias or the independence of the error of the run length are statements about the exact mean over exponentially many inputs", "anchors": ["kernel/jkff.py: JKFF", "kernel/mul.py: FSUMul", "kernel/div.py: CORDIV_kernel, FSUDiv", "kernel/sqrt.py: FSUSqrt"]}
{"id": "C102", "title": "Saving a module and going on from the checkpoint", "statement": "Take a module after any calls, save its state_dict, and load it into a new module of the same configuration. Converters with the default type, FSUSignAbs, FSUReLU, JKFF, the static FSUMul, FSUSqrt with the flip-flop trace, FSUAdd (same number of addends) and Correlation then give on every later input exactly what the saved module gives, if they had only seen single streams; after larger inputs the load raises. SkewedSync depends on its last input only. Not restored although the load succeeds: converters with another btype, the weight sequences of FSULinearPC, the time of the last unstable cycle in Stability, the scale and number of addends given to FSUAdd at run time. The load always raises for the in-stream FSUMul, CORDIV_kernel, FSUDiv and FSUSqrt (emitting or dividing trace) once they were called on tensors with at least one dimension, yet changes part of the new module. A ShiftReg is never restored. A checkpoint of an FSULinear or FSUConv2d that was called at least once is always refused, for every batch, image and layer size; the refused load leaves the new layer working as a new one whose bias sequence, and for a bipolar convolution the phase of its border padding, is that of the saved layer.", "quantifier": "for all configurations, numbers and shapes of earlier calls, and all later inputs and times", "why_tests_cant": "a test can save and load one module after one run; that all later outputs agree, or that a load is refused after every earlier use, is about all runs", "anchors": ["stream/shuffle.py: SkewedSync, Bi2Uni, Uni2Bi", "kernel/signabs.py: FSUSignAbs", "kernel/relu.py: FSUReLU", "kernel/jkff.py: JKFF", "kernel/mul.py: FSUMul", "kernel/add.py: FSUAdd", "kernel/shiftreg.py: ShiftReg", "kernel/div.py: CORDIV_kernel, FSUDiv", "kernel/sqrt.py: FSUSqrt", "kernel/linear.py: FSULinear, FSULinearPC", "kernel/conv.py: FSUConv2d, FSUConv2dPC", "metric/metric.py: Correlation, Stability"]}
{"id": "C103", "title": "How far a wrong input bit travels", "statement": "Run a module on two histories that differ in some input bits. At every length the numbers of output ones differ by at most: for FSUAdd, m per wrong bit with m the least number such that m*scale >= 1, saturation included; for Bi2Uni two, for Uni2Bi and FSUReLU one, for SkewedSync one per wrong bit of either stream; wrong ones never remove output ones and wrong zeros never add them. For a static FSUMul they differ by at most the difference of the numbers of input ones, so wrong bits that cancel leave no trace; a wrong bit of the second stream of an in-stream FSUMul costs at most 2^width; in an FSULinear of default scale with rate or temporal coded weights, whose accumulator is deep enough not to saturate (2N-1 <= 2^(depth-2) for N addends), e wrong bits cost at most e/N, rounded up, and with rate coded weights e may be the sum of the differences of the numbers of input ones, so misplaced bits cost nothing; in FSUConv2d the same holds for the wrong bits of the pixels under the window, and those of other pixels change nothing. A chain of any length of such rate coded layers, FSUHardsigmoid and FSUHardtanh never amplifies: if the numbers of ones of every input differ by at most d after n cycles, so do those of every output. For an FSUReLU whose counter has not been at its upper end, inputs whose counts of ones differ by at most d at every length give outputs whose counts differ by at most 2d, and a chain with r such rectifiers multiplies d by at most 2^r, whatever its width and length; once the counter, of any depth from two on, is at its upper end misplaced bits can make the counts differ without bound, although those of the inputs never differ by more than one. CORDIV_kernel returns the right quotient again once the divisor has had `entry` ones. Not fault tolerant: one wrong bit of the first stream of an in-stream FSUMul, of the input of FSUSignAbs, of a JKFF command, or of a divisor followed by zeros changes the output count by an amount that grows without bound.", "quantifier": "for all configurations, all pairs of bit histories, all lengths", "why_tests_cant": "a test compares two particular streams; a bound for every pair of histories at every length, and the absence of one, are relations between all pairs of runs", "anchors": ["kernel/add.py: FSUAdd", "stream/shuffle.py: SkewedSync, Bi2Uni, Uni2Bi", "kernel/relu.py: FSUReLU", "kernel/mul.py: FSUMul", "kernel/signabs.py: FSUSignAbs", "kernel/jkff.py: JKFF", "kernel/div.py: CORDIV_kernel", "kernel/linear.py: FSULinear", "kernel/conv.py: FSUConv2d", "kernel/sigmoid.py: FSUHardsigmoid", "kernel/tanh.py: FSUHardtanh"]}
{"id": "C104", "title": "Results, arguments and state share no memory", "statement": "A PyTorch module that writes in place, reassigns .data or returns a view could change a tensor the caller already holds, or be changed by the caller writing into one. For Bi2Uni, Uni2Bi, FSUReLU, FSUSignAbs, FSUAdd, ShiftReg, Correlation, Stability, CORDIV_kernel, FSUDiv, FSUMul (static and in-stream), FSUSqrt (emitting, flip-flop and divider trace; its flip-flop is of type int8 and shares its state with the trace, yet no result does), the first result of SkewedSync, JKFF with a result type other than int8 and ProgError whose reports are copied at once, this never happens: whatever the caller does - make tensors, overwrite any of its tensors (earlier inputs, earlier results, the source given at construction), call with any of them again - it reads in every tensor it holds exactly what it would read if tensors were values and calls changed nothing but the state. BinGen leaves its source and every other tensor alone and its binary shares memory with none of them. Not so: ProgError returns its own parameters, so an earlier report changes when a later one is made; JKFF with int8 returns its state, so an earlier result changes with the next call and writing into a result changes later results; SkewedSync returns its second input itself; BSGen keeps the tensors it was given, so writing into the binary changes the bits that follow.", "quantifier": "for every module configuration, every memory in which the module is constructed, every list of tensors the caller then holds that share no memory, and every finite sequence of caller actions (make, overwrite, call with any held tensors, repeated ones included)", "why_tests_cant": "Tests compare each result once, right after the call, and never write into a tensor they passed or received. Sharing shows only when a tensor is read or written later, in some interleaving of calls; there are unboundedly many.", "anchors": ["stream/shuffle.py:Bi2Uni", "stream/shuffle.py:Uni2Bi", "stream/shuffle.py:SkewedSync", "kernel/relu.py:FSUReLU", "kernel/signabs.py:FSUSignAbs", "kernel/jkff.py:JKFF", "kernel/shiftreg.py:ShiftReg", "kernel/add.py:FSUAdd", "metric/metric.py:Correlation", "metric/metric.py:ProgError", "metric/metric.py:Stability", "stream/gen.py:BinGen", "stream/gen.py:BSGen", "kernel/div.py:CORDIV_kernel", "kernel/div.py:FSUDiv", "kernel/mul.py:FSUMul", "kernel/sqrt.py:FSUSqrt"]}
{"id": "C105", "title": "The numbers in the printed reports", "statement": "tensor_unary_outlier prints the least and the largest element and the percentage of elements outside [-1, 1]; the percentage is 0 exactly when the printed range lies in [-1, 1], and a tensor without elements raises. progerror_report prints for a ProgError after any number of observations the range, mean, standard deviation and root mean square of the errors (decoded value minus source): the mean lies in the range, its size is at most the root mean square, which is at most the largest error in size and zero exactly when every decoded value equals its source; with N elements (N-1)*std^2 + N*mean^2 = N*rmse^2, and for one element no standard deviation exists (nan). Printing a report changes no later report. Not as the name says: the relative errors divide by the decoded value, not by the source (1 - source/value), and one element of decoded value 0 and source not 0 makes an end of the printed range the largest binary32 number. With report_value the report always fails: it reads an attribute that ProgError does not have.", "quantifier": "for every non-empty tensor; for every number of elements, every source, scale, mode and every non-empty observed stream per element", "why_tests_cant": "The relations between the printed numbers and between them and the streams hold for all tensors and stream lengths; the functions only print, so no test compares anything, and report_value is never used by one.", "anchors": ["kernel/utils.py:tensor_unary_outlier", "kernel/utils.py:progerror_report", "metric/metric.py:ProgError"]}
{"id": "C106", "title": "Layers and cells share no memory with their caller", "statement": "The layers write in place, reassign .data, compute into a buffer given as out= and use operations that copy only sometimes (type, reshape). For FSUAdd, FSULinearPC, FSULinear, FSUConv2dPC, FSUConv2d and FSUMGUCell a caller that makes tensors, overwrites any tensor it holds (earlier inputs and earlier results included) and calls the layer reads in every tensor it holds exactly what it would read if tensors were values: no call changes a tensor the caller holds, no write of the caller changes the layer. Weight, bias and random numbers of these layers never change. HUBLinear, FXPLinear, HUBConv2d, FXPConv2d, TLUTLinear, TLUTConv2d (any number of rounds), HardMGUCell, HardMGUCellFXP and HUBReLU (not in place) are moreover functions of the values of their arguments: the same function whatever was called or overwritten before. All this whatever numbers the operations compute and whichever of the sometimes-copying operations copy. Not so: HUBReLU in place overwrites its argument; HUBLinear, FXPLinear, HUBConv2d, FXPConv2d, TLUTLinear and TLUTConv2d keep the tensor given as weight_ext itself, so after the caller writes b into it they compute as if built with b.", "quantifier": "for every option of the layer, every memory in which it is constructed, every list of tensors the caller holds that share no memory, every function computed by each operation, every choice of which type and reshape copy, every number of rounds, and every finite sequence of caller actions", "why_tests_cant": "Tests read each result once, right after the call, and never overwrite an input, a result or a weight afterwards; sharing shows only in later interleavings, and whether type and reshape copy depends on types and strides that a test fixes.", "anchors": ["kernel/add.py:FSUAdd", "kernel/linear.py:FSULinearPC", "kernel/linear.py:FSULinear", "kernel/linear.py:HUBLinear", "kernel/linear.py:FXPLinear", "kernel/linear.py:TLUTLinear", "kernel/conv.py:FSUConv2dPC", "kernel/conv.py:FSUConv2d", "kernel/conv.py:HUBConv2d", "kernel/conv.py:FXPConv2d", "kernel/conv.py:TLUTConv2d", "kernel/rnn.py:FSUMGUCell", "kernel/rnn.py:HardMGUCell", "kernel/rnn.py:HardMGUCellFXP", "kernel/relu.py:HUBReLU"]}
{"id": "C107", "title": "Layers and cells used together do not affect each other", "statement": "Take any number of layers and cells (FSULinear, FSULinearPC, FSUConv2d, FSUConv2dPC, FSUAdd, FSUMGUCell, HUBLinear, FXPLinear, HUBConv2d, FXPConv2d, TLUTLinear, TLUTConv2d, HardMGUCell, HardMGUCellFXP, HUBReLU not in place), several of a kind allowed, none built on a tensor of the caller. Call them in any order, give results of one to another or to itself, keep and overwrite any input or result. Every tensor the caller holds then reads as if tensors were values and each call changed the state of the layer called and of no other. A layer does not notice the others: built alone, with the calls to the others replaced by making the tensors they returned, all reads are the same. Weights, biases, tables and random numbers of every layer keep their values throughout.", "quantifier": "for every number of layers, every choice of layers and options, every initial value of their tensors, every memory in which they are constructed, every list of tensors the caller holds that share no memory, every function computed by each operation, every choice of which type and reshape copy, and every finite sequence of calls and writes", "why_tests_cant": "Tests exercise one layer at a time; interference between layers needs results of one passed to another, kept and overwritten in particular orders, and there are unboundedly many networks and orders.", "anchors": ["kernel/add.py:FSUAdd", "kernel/linear.py:FSULinearPC", "kernel/linear.py:FSULinear", "kernel/linear.py:HUBLinear", "kernel/linear.py:FXPLinear", "kernel/linear.py:TLUTLinear", "kernel/conv.py:FSUConv2dPC", "kernel/conv.py:FSUConv2d", "kernel/conv.py:HUBConv2d", "kernel/conv.py:FXPConv2d", "kernel/conv.py:TLUTConv2d", "kernel/rnn.py:FSUMGUCell", "kernel/rnn.py:HardMGUCell", "kernel/rnn.py:HardMGUCellFXP", "kernel/relu.py:HUBReLU"]}
{"id": "C108", "title": "The hybrid recurrent cell is a function of its present tensors", "statement": "A HUBMGUCell keeps references to the tensors it was built with and nothing else that a call changes. Whatever was done before, a call returns a fixed function of what the caller then reads in those tensors, in the input and in the state: the result of making an FSUMGUCell from these values and running it for all cycles. Earlier calls leave no trace; a call changes nothing the caller holds; the result shares no memory with anything, so it may be kept, overwritten and given as the next state. A write into a tensor the cell was built with changes that tensor alone, and shows in the next result.", "quantifier": "for every option, every number of cycles, every memory, every list of tensors the caller holds that share no memory, every choice of those the cell was built with, every function computed by each operation, every choice of which type and reshape copy, and every finite sequence of calls and writes", "why_tests_cant": "Tests call the cell once with fresh tensors; that no earlier call or write matters needs all sequences of calls, writes and reuses of results, for all numbers of cycles and all values.", "anchors": ["kernel/rnn.py:HUBMGUCell", "kernel/rnn.py:FSUMGUCell"]}
