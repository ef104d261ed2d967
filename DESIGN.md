# Formal model of JSTprove: design

The model is in Lean 4 under `lean/Verif/`. It follows the Rust code in `/repo` function by function;
every definition cites file and lines. Nothing in `/repo` was built or run.

## Layout

| directory | content |
|-----------|---------|
| `Verif/Spec/` | small specifications independent of the code: multilinear extension, layered circuit, circuit relation, tensor indexing |
| `Verif/Gadgets/`, `Verif/LogUp/` | circuit gadgets of `rust/jstprove_circuits` and the LogUp argument of the circuit library |
| `Verif/Compiler/` | the compiler's expressions, constant folding and first builder pass |
| `Verif/Gkr/` | layered circuits, sumcheck, GKR prover and verifier, transcript |
| `Verif/Crypto/`, `Verif/Field/`, `Verif/IO/` | Merkle tree, M31 and Goldilocks, serialisation, envelope, bundle |
| `Verif/Runner/`, `Verif/Quant/`, `Verif/Tensor/`, `Verif/Zkvm/` | witness files, verify-and-extract, bound analysis, shape functions, canonical model |
| `Verif/Props/` | the property theorems `Cxx_...`, each with an example that meets its hypotheses |

## Trusted base

* Lean 4.33.0's kernel, and Mathlib's proofs as checked by that kernel.
* Axioms: at most `propext`, `Classical.choice`, `Quot.sound` for every theorem. No project axioms,
  no `sorry`, `native_decide` or `bv_decide`.
* The reading of the Rust source: the tie between model and code is the citation on each definition
  and nothing else.
* The modelling conventions and the list of what is left out, below.

## Modelling conventions

* Circuit gadgets run in a small state/error monad (`Verif/Gadgets/Monad.lean`). A run sees concrete
  field values. `assert` adds a value that must be zero, `lookup` adds a value that must be in the
  range table, `newHint` returns prover-chosen values: in *honest* mode the Rust hint function's
  output, in *adversary* mode arbitrary values from a stream. Soundness theorems hold in both modes;
  completeness theorems are about honest mode. Panics and `Result::Err` are error values.
* Fields are `ZMod p`, or an arbitrary field where the code is generic. M31, Goldilocks and the BN254
  scalar field are proved prime.
* Machine integers are `Nat`/`Int` with explicit wrap-around where the Rust code relies on it
  (`Goldilocks`, `M31`, serialisation), or an explicit range hypothesis.
* Hash functions are arbitrary functions (a parameter); binding theorems produce a collision among
  the strings actually hashed.
* Challenges: soundness errors are counting theorems over the challenge field. Fiat–Shamir in the
  random-oracle model is not proved.
* A property that the code violates is kept as stated; the manifest marks it `partial`, a theorem
  proves the negation, and a `_partial` theorem proves what holds, under the exact extra hypothesis.

## What is modelled and what is not

* **Gadgets.** Range check (LogUp and bits), division by constants, rescale, ReLU, max, min, clip,
  TopK, matrix product, Freivalds, function lookup, exponential lookup. Not modelled: TopK's index
  output, Erf/Gelu/Sin/Cos (tables are arbitrary functions), float computation of tables.
* **Compiler.** The circuit API's folding (`frontend/builder.rs`), the source evaluator, the built-in
  hints of unconstrained operations, expressions (`circuit/ir/expr.rs`), the whole first builder pass
  (`builder/basic.rs`, `builder/hint_normalize.rs`). Left out: `Custom` and `RandomLinear` terms
  (created only by the second pass), the hash cached in an expression, which of several equal heads
  Rust's binary heap returns. Parameters: the order used to sort factors, the evaluator of
  unconstrained operations. `U256` is `Nat`, reduced modulo `2^256` where a shift drops bits. `clash`
  is a ghost flag of the model, not a field of the code.
* **Layers.** The layers of C45–C63 and the assembly of C64 as functions on row-major arrays, attributes already parsed, index
  inputs constant. Left out: the memory order of `ndarray` arrays (a non-standard order makes
  `as_slice` fail), how attributes are looked up in the node. Conv: 32-bit overflow in index arithmetic.
* **GKR.** Layered circuit evaluation, prover and verifier for one process, scalar field, raw
  commitment, layers without unary (`uni`) gates. Left out: MPI sizes above one, SIMD fields, GF(2)
  branches, the Metal path, buffer capacities, proof-of-work grinding, random coefficients (taken as
  already filled in). Hash parameter: the transcript's hash is any function.
* **Fields.** M31, Goldilocks and their extensions, scalar arithmetic. Left out: SIMD variants, the
  BN254 crate, x86 assembly (modelled by the portable code it must equal).
* **Files.** Serialisation of every derived type without curve points; MessagePack and zstd are
  parameters with round-trip laws; the file system is a map from paths to contents; killing the
  process in the middle is not modelled (no cleanup code runs then).
* **Runner.** Witness parsing, public-input comparison, extraction; floating point and the proof
  verifier are parameters.
* **Not modelled at all.** Hyrax, KZG, Orion, the holographic runner, most of the shape inference,
  ONNX protobuf decoding, GPU code, threads.

## Plan and result per property

| id | model | proof | result |
|----|-------|-------|--------|
| C01, C02 | LogUp range-check gadget | exact accepted set | C02 holds; C01 false unless the chunk width divides n |
| C03 | bit decomposition gadget | Boolean bits, uniqueness of binary expansion | holds |
| C04 | division gadgets | uniqueness of Euclidean division under range hypotheses | as C01 |
| C05 | rescale | composition of C04 and C06 | as C01 |
| C06 | relu/max/min/clip | product/range arguments, induction over list | as C01 |
| C07, C08, C09 | LogUp final check | polynomial identity over the challenge; root counting | C08 false for signed tables over Goldilocks |
| C10 | function lookup | C07 with two columns | holds |
| C11, C12 | matrix gadgets | polynomial root counting, induction | C12: panic for a zero inner dimension |
| C13 | TopK | characterisation of what is forced | false for k ≥ 2 |
| C14, C16 | lowering, constraint store | case analysis; forging theorem for the mark/assert interaction | C14 false of the compiled circuit |
| C15 | gt via bits; gt with a constant through the first pass | induction over bits, forging theorem | false |
| C17 | expression algebra | evaluation homomorphism, induction | holds |
| C18 | constant folding | case analysis | holds; refusals differ from run time |
| C19, C20, C21 | layered circuit, sumcheck, GKR verifier | induction over rounds and layers | C20 holds; C19 without one-wire layers; C21 false |
| C22 | eq table, MLE folding | induction over variables | one routine wrong |
| C23 | transcript state machine | injectivity of what is absorbed | public inputs and circuit not bound |
| C24, C25 | Merkle tree in heap layout | induction over depth | hold |
| C26 | ExpSerde | combinator round-trip lemmas | holds |
| C27, C28, C29 | field kernels over machine words | modular arithmetic | C27: one input escapes; C28: one overflow unproved |
| C30, C31, C32 | envelope, bundle, write guard | byte-level round-trip; state machine | each false in a corner |
| C33 | proof configuration | finite tables plus rejection outside the table | holds |
| C34, C35, C36 | verify/extract | modular arithmetic, two parsers | hold |
| C37, C38, C39 | tensor shape functions | induction over rank | C37, C39 false for empty dimensions |
| C40, C41 | zkVM canonical encoding and bounds | parser round-trip; interval invariant | false in several ways |
| C42 | SIMD packing | list indexing | holds |
| C43 | exponential lookup | exact accepted set | false |
| C45–C48 | Transpose, Slice, Split, Concat, Tile, Expand | shape inference, `build`, `apply`; element-wise specification | hold; Tile refuses some ONNX inputs |
| C49 | Pad | same | a computed fill value is ignored |
| C50 | Gather, GatherElements | same | wide index tensors are not refused |
| C51 | ScatterND | update map, any iteration order | indices out of range are not refused |
| C52 | Squeeze, Unsqueeze | same, mutually inverse | hold |
| C53 | Conv | loops of the layer = convolution sums, then the rescaling theorems of C05 | holds for padding ≤ kernel |
| C54 | MaxPool, AveragePool, GlobalAveragePool | windows read by the loops = windows of the specification, then the gadget theorems | sound for matching digit widths; negative data cannot be averaged |
| C55 | ReduceSum, ReduceMax, ReduceMean | lanes read by the index arithmetic = lanes of the specification, then the gadget theorems | ReduceSum holds; ReduceMean cannot prove negative means and can be forged for lanes of one entry |
| C56 | Add, Sub, Neg, Mul, Div, Relu, LeakyRelu, Max, Min, Clip | broadcasting reads the ONNX entries (C37), composed for Clip's three operands, then the gadget theorems per entry | false for digit widths not dividing the bit widths: Relu and Max forged |
| C57 | Equal, Greater, Less, And, Not, Where | broadcasting (C37) and the comparison gadgets (C15) entry by entry | false for Greater and Less on negative or small entries |
| C58 | Sqrt, HardSwish, Pow | element by element with `Sound`, `Complete`, `Forge`; honest failure with `Honest` (Gadgets/Honest.lean); the floating-point hints are parameters with their rounding as hypothesis | false in several ways, negations proved |
| C59 | Sin, Cos with the tabulated function as parameter | clip (C06) then table membership | false beyond the table's domain |
| C60 | Exp, Sigmoid, Tanh, Log, Gelu on the exponential gadget of C43 | the checked field equation, multiplied by the scale, is lifted to the integers; error bounds for every prover | holds for Sigmoid, Tanh, Log with stated error; false for Exp and Gelu, negations proved |
| C61 | lanes of an array, the softmax circuit on the exponential gadget of C43 | lane-wise lifting of a soundness statement for one lane, itself an integer lifting of the checked cross-multiplied equation | holds with stated error; no proof exists for spread-out lanes |
| C62 | blocks of trailing axes, one block with its hint, mean, division and tolerance checks, the layer | block-wise lifting of a soundness statement for one block; explicit forgery with zero inverse deviation | false of the code; part proved |
| C63 | the 2-D and batched MatMul, promotion to matrices, transposition, bias broadcasting, Gemm, rescaling | per-slice Freivalds bound, union bound over the slices of a batch by induction on the collection of slices, row-major index lemmas | false of the code for column biases; part proved |
| C64 | pattern matching, fusion and skipping of layers, layer construction order, input splitting, layer application by name, output and constant assertions of the circuit; the builders of seven operators | simulation between the environment of wires and a run of the graph, induction over the nodes with the skip set as invariant; AlmostSound composed over the layers | false of the code for fused intermediates and n-ary Max/Min; part proved |
| C65 | the four scalar extension types, with the debug assertions of the inverses | ring homomorphism from limbs to `AdjoinRoot`, irreducibility by Kummer's criterion, norms fixed by Frobenius lie in the base field, Fermat for M31Ext3 | holds, but for the overflow left open in C28; `frobenius` of degree 2 misnamed |
| C66 | FFT and bit reversal, encoding, leaves as memory images, the whole of commit, open and verify, the Goldilocks instances with their limbs | FFT by induction over the passes; the folded codeword is the codeword of the folded table; sumcheck telescopes to the value; Merkle paths from C24; totality branch by branch | holds except when a codeword holds an unreduced limb, or fills one leaf |
| C67 | the verifier of C66 against a dishonest prover | replace the first leaf of one tree by another tree; move an accepted opening from one root to another | fails: path lengths are not checked |
| C68 | the verifier of C66 and a game with coins (Spec/BasefoldGame) | distance of the code by counting roots, correlated agreement on the consistent indices, two bad challenges per sum-check round, then counting | partial: interactive, provers that keep to their words |
| C69 | `whir_verify` in full; queries per round, hash and transcript as parameters | the messages of the constant polynomial v, uniform trees, by induction over the rounds; the sum-check by counting roots | false; the sum-check alone is sound |
| C70 | `whir_open`, `re_encode`, `evaluate_ood`, `build_tree_from_ext_codeword`, the limits of `deserialize_from` | the folded codeword stays the codeword of the folded table, the inverse FFT recovers it, induction over the rounds | complete in memory; unreadable from 29 variables on |
| C71 | scale plan, weight quantisation, truncation, first-wins constant map | rounding and truncation over the reals, composed with the layer theorems of C56 | false outside the scale plan and for shared tensors; part proved |
| C72 | channel reshaping, the layer, folding of the parameters | broadcasting a channel vector keeps the shape and reads the channel; algebra and a triangle inequality for the error | holds where C05 does, with a panic for rank 0 and 1 |
| C73 | builder of the second pass: mid variables, merging up to factor and summand, layered sums, products by heap and cost, emission; the heap | invariant of the table of mid variables, every operation keeps values; measure for the loop over factors; heap order by induction on the index | holds |
| C74 | removing unused variables, copies of repeated outputs, the random sum of the constraints, layering, merging of gates | liveness gives a renaming that keeps values; the rounds of the sum by an invariant; wires of a layer are the values of its pool of variables; counting draws through one coordinate | holds |
| C75 | ConvTranspose: building, the inverse index loops, bias, rescaling; the recorded output shape | sums over sources by the inverse index map; adjointness by exchanging sums; soundness and completeness through C05 | value, refusals and adjointness proved; partial for rescaling digit widths and `output_shape` |
| C76 | Resize: mode parsing, coordinate maps, rounding, nearest index table, linear corners and fixed-point weights with the largest-remainder correction, the hint, the cell circuit; recorded shape | exact rational coordinates against the ONNX definition; sums of quantised weights; soundness through the range checks of C05, forged witnesses for the negations | nearest proved; linear partial (digit width, negative weights, negative values) |
| C77 | the Remainder backend: layer loop of the circuit builder, layouts, range-check requests and chunks, public vectors of the verifier, widths from the proof, acceptance as satisfiability over the field; rescaling of the honest prover | layer-by-layer simulation between builder, public values and an integer reference; Relu and output bounds make quotients small; frame argument for free outputs; explicit forged witnesses | completeness proved; soundness partial (guarded models), negations proved |
| C78 | `topological_sort` with its map of producers, counters and queue (graph.rs:311-356) | loop invariant of Kahn's algorithm over lists (counter = number of producers not yet emitted; queue and order = layers with counter zero); fuel shown to suffice; evaluation by induction along the order | valid order, found iff one exists; evaluation is the unique solution; self-reading layers accepted, empty names confused (counterexamples) |
| C79 | `ScaleConfig`, `select_goldilocks_tier`, `infer_proof_config_from_n_bits`, the choice in `generate_from_parsed` | rational bound with exact `clog`/`log`; saturating arithmetic as truncated subtraction | safe and maximal when the bound fits; automatic choice consistent and safe; bound that does not fit accepted with scale one (counterexample) |
| C80 | the Range, Shape, ConstantOfShape, Constant and Cast layers, and the shape inference of Range and Shape; 64-bit floats are rationals; a negative constant is taken modulo the field, whose order exceeds `2^63` for every supported field | ceiling division compared with the rational ceiling; the loop by induction, saturation shown never to occur; wrap-around of negative dimensions; gadget rules for BOOL | as in ONNX for integers; fractions, and every Cast between float and integer, are wrong (counterexamples) |
| C81 | export of the compiled circuit to the prover, flattening of nested segments (hash maps as lists in any order), numbering and filling of the coins, the input relay layer | relation between a segment and every order of its leaf map; flattened gates are a permutation of the gates the segment stands for, whose sum is the compositional meaning, by induction on the depth; keys of the map followed through the scan for the order of the coins | meaning kept; same coins only if nested segments have no random gates (counterexample) |
| C82 | the composition of the compiler's layering and merging, the export, the flattening, the filling with coins and the interactive proof, for circuits with any number of lanes | the constant and random gates of a layer summed under the coins handed out in order (induction on gates, then layers); C74 for the meaning of the layers, Schwartz-Zippel on the constraint coins counted jointly with the adversary game of C21 | complete; sound if the claimed value is fixed, which the code leaves to the prover |
| C83 | `dedup_gates` of nested circuits, `expand_small_segments` with its use counts and renumbering, `find_common_parts` with its groups, the loop of `compile_step_3` | the gates a segment stands for, as a list up to order and up to sums of constant gates; simulation between old and new segments by strong induction on the number; invariant of the groups through the loop over the edges | kept if no segment stands for two equal varying gates (counterexample otherwise) |
| C84 | `compile_step_3` at the default level and `sort_everything` between the layers of C74 and the export of C81 | names for the coins of a flattened layer from a permutation of its varying gates; distinctness of varying gates through combining, pruning and layering; the counting argument of C82 over reordered coins | complete; sound for the value zero |
| C85 | `UnionFind` with path halving as a relation between parent arrays, sequences of calls, the loop over the edges in `find_common_parts` | roots of a forest with the length of the path; halving keeps roots and shortens paths; refinement of the groups of C83 by induction on the edges; specification by the generated equivalence relation | proved |
| C86 | the Erf layer: sign and absolute value, reciprocal, polynomial, exponential, comparison and range checks | weakest-precondition style rules for honest and adversarial runs; the honest run with an arbitrary claimed result | false: every result in [-1, 1] is accepted; bounds proved, completeness on the domain |
| C87 | the GridSample layer: unnormalisation, padding, corners and weights, the index map, the hint, the two range checks, the variant with a grid in the circuit | weakest-precondition style rules for honest and adversarial runs; case analysis of floor, fold and clamp over the rationals | partial: constant grids on the image and with border; false for grids in the circuit, zero padding at the edge, reflection, ties, negative results |
| C88 | the TopK layer: attributes and refusals, the loops over lanes with their strides, placement of values and indices | lane theorems of C13 lifted through row-major positions split at the axis, for honest and adversarial runs | partial: k = 1 and completeness proved; false for k >= 2 |
| C89 | choice of the digit width: generated table, sweep, cache reads and writes, both cache keys, metadata override | fold invariant of the sweep, case analysis of the cache, permutation invariance of the operator key, C05/C06 forgeries for every possible result | partial: usable, minimal when fresh, repeatable; not minimal with a shared key, never exact at the default parameters |
| C90 | product argument: tree, sumcheck rounds, merges, prover and verifier | multilinear extension by folding, cubic interpolation, induction over rounds and layers; soundness by following the first false claim; cubics with four roots vanish | proved |
| C91 | offline memory checking: timestamps, triple hash, multiset hash, four sets, comparison | invariant of the counters under any weighting of triples; descent on timestamps; products as polynomials determine their roots | proved |
| C44 | first compiler pass | invariant over builder states, simulation both ways | complete; sound unless an assertion is overwritten |

## Where the code disagrees with the properties

Each of these is a theorem about the model.

* **C01, C04, C05, C06.** When the chunk width does not divide the number of bits, the last chunk is
  not checked against its smaller width: values up to a larger bound pass. A positive value's ReLU can
  be proved zero, a quotient off by one. `n = 128` with such a width panics.
* **C08.** Keys are truncated to 32 bits when the honest prover counts multiplicities: over Goldilocks
  the key −1 collides with 0.
* **C12.** MatMul with inner dimension zero panics when Freivalds is selected.
* **C13.** TopK checks membership and a lower bound only; duplicates and any order are accepted.
* **C14.** The result of `and`/`or`/`xor` is marked as known to be Boolean. The mark replaces an
  assertion on the same expression. For `x && 1` the result's expression is `x` itself: the assertion
  that `x` is a bit disappears, and the compiled circuit accepts every field element.
* **C15.** Bits need not be canonical: over BN254 and Goldilocks a prover can choose `x + p`. For
  `gt(x, constant)` the digits of `x` lose their Booleanity by the effect of C14, and the compiled
  circuit proves either answer for every `x`.
* **C16.** Unchecked `0/0` leaves the quotient free (as documented).
* **C18.** Division by the constant zero stops the compiler though run time gives zero.
* **C19.** A layer with one input wire makes an honest proof fail.
* **C21.** The claimed output value is read from the proof and compared with nothing.
* **C22.** `fix_bottom_variable` is wrong beyond one variable.
* **C23.** Public inputs and circuit are not absorbed; appending a commitment discards the state.
* **C26.** Booleans have several encodings; an over-large length prefix panics.
* **C27.** The challenge bytes `ff ff ff ff` yield an unreduced M31 value.
* **C30.** Unknown flags are ignored; a wrong magic number makes data be decoded as a bare value.
* **C31.** A plain blob beginning with the zstd magic number is misread.
* **C32.** A file left behind by a failing write blocks every retry.
* **C37, C39.** Empty dimensions are refused or mis-shaped; reshape targets can overflow.
* **C40.** Quantised models which differ in wiring share one canonical model; trailing bytes ignored.
* **C41.** Max, Min, Clip, constants, Range, Div, rounding and the zkVM guest escape the bounds.
* **C43.** The exponential gadget accepts `2^scaleBits` outputs for each input.
* **C48.** Tile refuses empty dimensions, repeats of zero and more repeats than axes.
* **C49.** A Pad fill value that is not an initialiser is ignored: zeros are used.
* **C50.** GatherElements with an index tensor wider than the data reads the next row.
* **C51.** ScatterND writes out-of-range indices to another element and ignores missing updates.
* **C53.** Conv with padding larger than the kernel cannot be built. A kernel attribute smaller than the
  weights crops them; surplus weight channels are ignored.
* **C54.** A mean over `n` values is not forced when the digit width does not divide `⌈log₂ n⌉` and `n` is
  not a power of two: with 9 values and 8-bit digits every mean can be proved off by one. Negative data
  cannot be averaged at all when the digit width divides the number of bits. MaxPool ignores `ceil_mode`
  and `auto_pad`. The averaging hint uses floating point and is a parameter, assumed to return the rounded
  mean in the completeness theorems.
* **C55.** The honest prover fails for a lane of two or more entries with a negative mean (it divides field
  representatives). A lane of one entry `x` can be proved to have mean `x - 1`. If the digit width does not
  divide `⌈log₂ n⌉`, means over `n` entries are not forced when `n` is a power of two or `3n ≤ 2^(⌈log₂ n⌉+1)`.
  ReduceMean with an explicitly empty list of axes reduces nothing; ReduceSum and ReduceMax reduce all axes.
* **C56.** With a digit width that does not divide the number of bits, the ReLU of a tensor without negative
  entries can be proved to be all zero and Max can be proved to be the smaller operand, for whole tensors
  (`C56_relu_unsound`, `C56_max_unsound`).
* **C57.** Greater and Less compare field representatives. Honest executions prove that a negative entry is greater than a non-negative one, the opposite of the same comparison of constants (`C57_compare_negative`, `C57_precomputed`).
* **C57.** For entries below `2^n - p` (on BN254 everything below `2^250`) every 0/1 tensor is a provable result of Greater and Less (`C57_compare_unsound`).
* **C57.** And multiplies its inputs without checking that they are 0 or 1 (`C57_and_complete_partial`).
* **C58.** If the digit width does not divide `n_bits + 1`, the root plus one is provable for whole tensors, and zero for small inputs (`C58_sqrt_unsound`, `C58_sqrt_zero`).
* **C58.** If it does, the honest prover fails on every input with a root that rounds up, because the hint rounds to nearest and the constraints demand the floor (`C58_sqrt_incomplete`).
* **C58.** The output of HardSwish is never range-checked: for every tensor of entries in `[-11, 13)` outputs that are the image of no small integer are provable (`C58_hardswish_unsound`). Entries of 13 and more have no proof at all (`C58_hardswish_unprovable`).
* **C58.** Pow with exponent 2 admits one less than the honest result (`C58_pow_square_unsound`), and with every exponent from 2 on the power of one can be proved to be one unit less (`C58_pow_unit_unsound`): quotients inside the loop are not range-checked; with a negative exponent every output below `2^n_bits` is provable (`C58_pow_negative_unsound`).
* **C59.** Sin and Cos clamp their input to a table of at most 20 bits before looking it up. With scale `2^18`, every input from 2 on gets the value at 2; no proof of the true value exists (`C59_trig_saturates`).
* **C60.** The tolerance of Sigmoid and Tanh does not grow with the denominator. When the quantised `e^{-x}` exceeds about `α` (scale `α`), no hint value satisfies the circuit: Sigmoid below about `-12.5` and Tanh beyond about `6.6` (at scale `2^18`) have no proof (`C60_sigmoid_unprovable`, `C60_tanh_unprovable`).
* **C60.** Already for moderately negative inputs the nearest Sigmoid value misses the tolerance and the honest prover fails (`C60_sigmoid_honest_fails`).
* **C60.** Gelu range-checks neither its output nor its intermediate quotients: for every tensor, outputs that are the image of no small integer are provable (`C60_gelu_unsound`).
* **C60.** Gelu divides canonical representatives, so one negative input leaves the honest prover without a proof (`C60_gelu_negative`).
* **C61.** Softmax looks up `e^{x - max}` in a table of `min(κ+6, 24)` bits and has no saturation. A lane with two entries at least 64 apart (at scale `2^18`; 32 if the range check's digits divide 23) has no proof, so masked attention scores cannot be proved (`C61_softmax_unprovable`).
* **C61.** The claimed maximum is only checked to be an entry of the lane with every difference accepted by a range check; when the digits do not divide the width, an entry below the maximum is accepted too. `C61_softmax_sound` covers this: the quotient is independent of the shift.
* **C62.** LayerNormalization checks the sum of squares of the normalised values against `n α²` with tolerance `n α²`. Zero is therefore accepted, and with it an inverse standard deviation of zero: for every input the prover can have accepted `β / α` (within the tolerance) as output (`C62_layernorm_unsound`).
* **C62.** `n α²` is computed in 64 bits and wraps: at scale `2^32` and above, or `2^31` with blocks of even length, the layer asks for a zero-bit range check and no model containing it can be proved (`C62_layernorm_unprovable`).
* **C62.** The hint hard-codes ε = 1e-5; the node's `epsilon` attribute is never read. InstanceNormalization and GroupNormalization are registered but refuse every node at build.
* **C63.** Gemm takes a bias of shape `[N, 1]` for a row when the product is `N × N`: ONNX adds entry `i` to row `i`, the layer adds entry `j` to column `j`, and the wrong sum is what the honest prover proves (`C63_gemm_bias_unsound`). For other shapes it refuses such a bias.
* **C63.** MatMul refuses batch dimensions that ONNX broadcasts (`[1, …]` against `[n, …]`) and vectors (`C63_matmul_refuses`).
* **C63.** `check_alpha_beta` compares `|alpha - 1| > 1e-6`, which is false of NaN: a NaN `alpha` is taken for one.
* **C64.** The fusion patterns look for `Relu`, but the converter writes `ReLU` (`op_type_to_string`), so on converted models nothing is ever fused (`C64_no_relu_no_fusion`).
* **C64.** A valid model in which the output of a fused node is also used elsewhere, or is an output of the model, is refused: the fused layer no longer provides it (`C64_fused_intermediate_refused`).
* **C64.** `Max` and `Min` with more than two inputs ignore the others: the honest prover proves the maximum of the first two (`C64_max_third_input`).
* **C64.** `BranchMatchMode::All` and `Any` give the same matches (`C64_branch_modes_agree`).
* **C64.** Layer skipping, bit widths and rescaling are keyed by node name, which ONNX does not require to be unique.
* **C05, C41.** Nothing compares the widths with the field. When `2^κ · 2^s` exceeds the modulus, `x + p` can be rescaled instead of `x` (`C05_wide_rescale_unsound`). The converter produces such widths: the scale comes from bounds reset after each rescaled layer, the widths from bounds that multiply, so eight layers of L1 norm 64 on Goldilocks have scale `2^12` and width 61 (`C41_deep_model_unsound`).
* **C65.** `GoldilocksExt2::frobenius` returns the opposite of the `p`-th power: it multiplies the constant limb by `p - 1` and the other by `(p - 1)^2`. The inverse, its only caller, is right all the same, since the sign cancels (`C65_frobenius`, `C65_extension_arithmetic`).
* **C65.** Comparing elements of `GoldilocksExt2` or `M31Ext3` with `<` panics (`unimplemented!`).
* **C66.** BaseFold trees are built over the raw memory of the Goldilocks limbs (tree.rs:72-96), and Goldilocks additions leave unreduced limbs: `a + (p - a)` is the limb `p`. The verifier reads leaves with `deserialize_from`, which refuses limbs of at least `p`. An honest opening is therefore refused whenever an unreduced limb is queried; for the vector `a, p - a, 0, 0, ...` with two to five variables, always (`C66_noncanonical_rejected`).
* **C66.** With two values over Goldilocks the codeword fills one leaf and `open` panics (`C66_two_values_panic`); with none or one the verifier refuses (`shapeOk`).
* **C66.** The BaseFold scratch pad keeps the last commitment and `open` finds it by the number of values alone: after committing to two vectors of the same length, the first is opened with the tree of the second. Read in the code (pcs_trait_impl.rs:91, types.rs:304-314); the model takes the tree as an argument.
* **C66.** A codeword longer than 2^TWO_ADICITY is encoded with a root of too small an order and no error (fft_field.rs:10-16).
* **C67.** **BaseFold commitments do not bind.** `Path::verify` (path.rs:57-76) folds as many siblings as the path carries and compares with the root; `basefold_verify` compares the leaf, the index and the root but never the number of siblings. Take the tree of one codeword, replace its first leaf by the root of the tree of another: index `i >= 1` opens with the usual number of siblings to the first codeword and, since the high bits of the index are 0, with twice that number to the second. For every pair of polynomials there is therefore one commitment with which the prover can decide at opening time, at every point, which of the two was committed to (`C67_not_binding`, `C67_two_values`); only a query below 8 prevents opening the first, which has probability 128 * 8 / 2^(n+2). Anyone who relies on the commitment to fix the weights of a model is not protected. Checking the length of the path against the size of the codeword restores binding (`C25_opens_committed_leaf`).
* **C68.** **The queries give 53 proved bits, not 128.** `BASEFOLD_NUM_QUERIES` (types.rs:8) is 128 for the 128 bits of `PCS_SOUNDNESS_BITS`, one bit per query, which presumes that a word counts as bad only beyond half of the positions. What is proved here (`C68_goldilocks_partial`) is the classical bound: a quarter of the positions, `(3/4)^128 < 2^-53`. The challenges lose at most `n 2^(n+2) / |L|`.
* **C69.** **WHIR accepts any value for any commitment (critical).** `whir_verify` (whir/pcs_trait_impl.rs:426-572) never opens the initial commitment: `commitment.root` is only absorbed. The leaves of the round trees are checked against the round roots, which the prover chooses, and their contents are compared with nothing; the out-of-domain points are drawn into `_z` and dropped; `final_poly` is only checked to be constant. So the messages of the constant polynomial `v`, with `final_poly = [v, …]` and trees over arbitrary leaves, are accepted for every root, point and claimed value `v` (`C69_any_value`): no luck, no search. Both shipped configurations are affected (`goldilocks_whir`, `goldilocks_whir_pq`), and every verifier that relies on `whir_verify`, the holographic one included. What is missing is what makes it a proximity test: opening each queried leaf of the previous word, folding it, and comparing it with the next word, and evaluating the out-of-domain claims.
* **C70.** **A WHIR proof for 29 or more variables cannot be read.** The final codeword has `2^(1 + 3⌊(n-1)/4⌋)` elements, `2^22` at 29 variables, and `WhirOpening::deserialize_from` refuses more than `MAX_FINAL_POLY = 2^20` (types.rs:112, 168). The prover writes such an opening and its own verifier refuses the bytes (`C70_unreadable`). The code is re-encoded at a lower rate after every four folds although the dimension drops, so the last word, which is a constant, is sent `2^22` times.
* **C71.** **Constants of Add, Sub, Mul, Div, Clip, Max, Min, Where, Gather, … are truncated to integers and not scaled.** `get_scale_plan` (ops.rs:5-53) names only Conv, Gemm, BatchNormalization, LayerNormalization, ConvTranspose, GridSample and MatMul; all other float constants go through `as_i64_vec` (parser.rs:261-267), `v as i64`, into `build_wandb` (expander_metadata.rs:347-388), and the layers read them as they are. While the data is at scale `2^κ`, `x + 0.5` is proved to be `x` (`C71_add_constant_unsound`), `0.5·x` to be `0` (`C71_mul_constant_unsound`), ReLU6 cuts at `6/2^κ` (`C71_clip_unsound`), and a division by 0.5 is refused as a division by zero. The proofs are valid for a function that is not the model's.
* **C71.** **A tensor read by two nodes is scaled as the first needs it**: `build_wandb` skips names it has seen. With tied weights (Gather first, MatMul later) MatMul gets the truncated table (`C71_tied_embedding`). The names `{node}_folded_mul/add` (quantizer.rs:260-290) make two BatchNormalization nodes of the same name share the parameters of the first.
* **C72.** **BatchNormalization of a tensor of rank 0 or 1 panics**: the error message of `reshape_channel_vector_for_broadcast` (tensor_ops.rs:259-293) reads `target_shape[1]`.
- C74: a circuit without constraints gets no sum of constraints, but the compiler counts one all the same (`layering/ir_split.rs:496-497`): the first output is then required to be zero. If a constraint is repeated as often as the characteristic, its term is dropped (`circuit/expr.rs`, the terms are added up); the theorems assume fewer constraints than the characteristic. For M31 the chance of a violated constraint slipping through is 1/(2^31-1) for one draw of the coins, which are drawn from the base field (`prover/circuit/src/layered/circuit.rs:358-362`).
* C75: an `output_shape` attribute of ConvTranspose is obeyed by shape inference (shape_inference.rs:2823-2838) but never read by the circuit layer, which uses `pads`; the recorded and the produced shape then differ. `auto_pad` is read only by AveragePool; for Conv, ConvTranspose and MaxPool a model with `auto_pad = SAME_UPPER` is silently treated as unpadded.
* C76: the `scales` a model gives are used for the output size only; coordinates use the quotient of the sizes (resize.rs), so with input size 5, scale 1.3 and asymmetric/floor output 5 reads input 4 where ONNX reads 3 (C76_scales_ignored).
* C76: the largest-remainder correction of the linear weights can make a weight negative with three changed axes; only a `debug_assert` (resize.rs:370) guards it. In a release build the weight becomes 2^64−1: a constant image then has no proof over the large fields (C76_negative_weight_refused) and over Goldilocks the honest prover proves a pixel that is 16385 times the value (C76_negative_weight_wrong).
* C76: linear interpolation of negative values cannot be proved: the hint clamps to 0 and the output is range checked unsigned (C76_negative_refused).
* C76: when the digit width does not divide the scale exponent every linear output can be forged by +1 (C76_linear_unsound).
* C76: the ONNX attributes `roi`, `antialias`, `axes`, `exclude_outside`, `keep_aspect_ratio_policy` and `extrapolation_value` are read nowhere; linear mode skips unchanged axes also for `tf_half_pixel_for_nn`, where ONNX shifts them by one half; a `sizes` input of the wrong length falls through to `scales`. The model takes the f64 coordinates and weights as exact rationals.
* C77: the quotient of a rescaling is not range checked (circuit_builder.rs:1004-1016, 1238-1252, 1637-1650). Unless a Relu follows, `alpha*q + r = v` has a solution for every `r`, a fraction modulo the field; with two Gemms of factor one the input 0 is proved to give −1 (C77_rounding_free). Conv→BatchNormalization, Conv→MaxPool and Gemm→Gemm are affected.
* C77: the outputs of Gather, LayerNormalization, Resize, GridSample, Transpose, Concat, Slice, Where and Constant are committed without any constraint (circuit_builder.rs:127-181, 528-694, 754-765). A model that ends in one of them accepts every output of the same padded length (C77_unchecked_output).
* C77: Split makes every output the whole input (circuit_builder.rs:695-753): the second part of [1,2,3,4] split 1+3 is accepted as [1,2,3,4] and not as [2,3,4] (C77_split_whole).
* C77: Reshape and Flatten keep the vector of a Conv or MaxPool in row, column, channel order (with padded channels), while the weights of a following Gemm are in ONNX order (circuit_builder.rs:486-527): C77_flatten_order.
* C77: Relu and MaxPool layers without a width in the model have no range check at all; the widths and the expected output are read from the proof (verify.rs:31-60). The plan limits widths to 18 bits, so a wrong width from the proof is harmless for layers that have one. Gemm `alpha`/`beta`, Conv `dilations`/`group`/`auto_pad` and MaxPool `pads`/`dilations`/`ceil_mode` are ignored. Values below −alpha·2^30 have a negative remainder and no proof (C77_rescale_low).
* C77: Add and Sub add vectors without looking at the layouts (circuit_builder.rs:1733-1765): the sum of an input image (channel by channel) and a Conv output (position by position) is wrong in every order (C77_residual_wrong); a constant operand is added in the order of the file.
- C78: a layer that reads its own output is accepted (`dep_idx != idx`, graph.rs:325); an omitted output (`""`) becomes the producer of every omitted input, so that a valid model can be refused as cyclic; of two writers of a name only the last counts.
- C79: `max_safe_exponent` saturates, so that a model whose accumulation bound exceeds the field is quantised with scale one instead of refused, unless at least one digit is asked for or the field is chosen automatically; asking for zero digits disables the check of the automatic choice too; NaN counts as zero; widths of 127 bits and more overflow the scale.
- C80: Cast between float and integer types is the identity (cast.rs:88): `Cast(1.5 → INT64)` keeps `1.5·2^κ`, and `Cast(1 → FLOAT)` yields 1, i.e. `2^-κ`; ConstantOfShape truncates its value and does not scale it (constant_of_shape.rs:77-83), so that a tensor filled with 1.0 holds `2^-κ` and one filled with 0.5 holds zero; Range truncates its three constants (the recorded shape of `Range(0, 2.5, 1)` is `[3]`, the layer yields two entries), and `limit - start` may overflow.
- C81: `flatten` walks through a `HashMap` (ecc_circuit.rs:89) and the coins are handed out in the order of the flattened gates (circuit.rs:84-122). `find_common_parts` (opt.rs:588-705) moves gates common to several layers into a child segment without regard to random coefficients, so a layer can have random gates in two segments; a prover and a verifier, which flatten in different processes, can then give the same coins to different gates, and the honest proof is rejected.
- C83: `find_common_parts` collects the gates of a segment in a `HashSet` (opt.rs:281-296) and `remove_gates` removes every copy (opt.rs:305-334), while `dedup_gates` merges only gates with constant coefficients; a public input (or random coefficient) which is added twice to a wire is added once after the pass.
- C86: the Erf layer compares its result with an approximation within a tolerance of `4 * scale` (erf.rs:93-98), but both lie within one scale of zero (the approximation within three), so the comparison excludes no result between -1 and 1; any such tensor can be proved as the output of any input.
- C86: the remainder of `scale^2 / denom` is checked to have `scale_exponent + 1` bits (erf.rs:134) while `denom` exceeds `2 * scale` for inputs beyond 3.05; the honest prover fails where the remainder is larger, for example at 5. Inputs beyond about 5.7 leave the domain of the exponential look-up and have no proof at all.
- C87: with a grid that is a circuit variable, the four corners and weights of each output come from the hint with no constraint to the image or the grid (gridsample.rs:466-488), so every in-range tensor can be proved as the output; the interpolation mode is ignored there (gridsample.rs:688-707).
- C87: bilinear sampling with a constant grid clamps the point to the image (gridsample.rs:166-173, 275-292). With zero padding ONNX counts the missing corners as zero, so within half a pixel of the edge the result is wrong (up to a factor of two), and between half and one pixel outside it is zero instead of a fraction; with reflection the point is not mirrored at all.
- C87: nearest sampling rounds ties up (gridsample.rs:153-157), ONNX to even.
- C87: a negative interpolated value has no proof: the hint refuses it (hints/gridsample.rs:138-143) and the range check excludes it (gridsample.rs:392-393).
- C88: lifting C13 to whole tensors: the order check of the layer adds an offset that admits every order and nothing compares the indices with each other (topk.rs:495-541), so for k >= 2 a prover can return the maximum k times in every lane of every tensor.
- C89: none of the widths tried (10 to 14, autotuner.rs:25) divides 18, 31 or 64, so with the usual scale exponent and activation widths every automatically configured circuit has the inexact range checks of C01, C05 and C06, whatever the cache holds.
- C89: the operator cache key (autotuner.rs:98-137) omits the order of layers and the configured bit widths, and onnx.rs:871 consults it before the exact key, so a model can be given a width chosen for another model even if it does not compile with it.
