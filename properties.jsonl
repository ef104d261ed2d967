{"id": "C01", "title": "Range check accepts only in-range values", "statement": "If a circuit calls the LogUp range check `range_check(x, n)` and the proof verifies, then the canonical representative of x is below 2^n, whatever hint values the prover supplies.", "quantifier": "every field modulus p, every table chunk width, every bit width n accepted by the API, every field element x and every adversarial hint assignment", "why_tests_cant": "a test runs the honest hint function; soundness quantifies over all hint assignments a malicious prover may choose", "anchors": ["rust/jstprove_circuits/src/circuit_functions/gadgets/range_check.rs: LogupRangeCheckContext::range_check", "compiler/circuit-std-rs/src/logup.rs: LogUpRangeProofTable::rangeproof, rangeproof_onechunk"]}
{"id": "C02", "title": "Range check accepts every in-range value", "statement": "For every x < 2^n the honest hint functions produce hints satisfying all constraints emitted by the range check, so honest proving never fails on an in-range value.", "quantifier": "every chunk width, every n accepted by the API, every x below 2^n in every field large enough to hold the shifted value", "why_tests_cant": "the domain is up to 2^128 values and the padding path depends on n mod chunk", "anchors": ["rust/jstprove_circuits/src/circuit_functions/gadgets/range_check.rs", "compiler/circuit-std-rs/src/logup.rs: rangeproof_hint, LogUpRangeProofTable"]}
{"id": "C03", "title": "Bit-decomposition range check is exact", "statement": "The bit-decomposition range check accepts x with n bits exactly when the canonical representative of x is below 2^n (when 2^n does not exceed the modulus).", "quantifier": "every modulus, every n with 2^n <= p, every x, every hint assignment", "why_tests_cant": "soundness ranges over all adversarial bit assignments", "anchors": ["rust/jstprove_circuits/src/circuit_functions/gadgets/range_check.rs: range_check_pow2_unsigned, constrained_reconstruct_from_bits"]}
{"id": "C04", "title": "Division by a constant returns the floor quotient", "statement": "The constant-division gadgets (power of two and general) return q = floor(x / d) for every signed dividend in the documented range, and no other quotient satisfies the constraints.", "quantifier": "every divisor, every signed dividend in [-d*2^s, d*2^s), every hint assignment", "why_tests_cant": "uniqueness of the quotient is a statement about all hints, and the range is exponential", "anchors": ["rust/jstprove_circuits/src/circuit_functions/gadgets/euclidean_division.rs: div_pos_integer_pow2_constant, div_pos_integer_constant"]}
{"id": "C05", "title": "Rescaling after multiplication is floor division, with fused ReLU", "statement": "Rescaling a product at scale alpha^2 back to scale alpha yields floor(x/alpha) in the signed interpretation, and with ReLU fused yields max(0, floor(x/alpha)).", "quantifier": "every scale exponent, shift exponent, signed x in range and hint assignment", "why_tests_cant": "adversarial hints and exponential ranges", "anchors": ["rust/jstprove_circuits/src/circuit_functions/utils/quantization.rs: RescalingContext, rescale, rescale_array, maybe_rescale"]}
{"id": "C06", "title": "ReLU, max, min and clip outputs are forced", "statement": "Whenever the constraints of the ReLU, max, min or clip gadgets hold, the output equals the mathematical ReLU/max/min/clip of the signed inputs, for inputs in the documented signed range.", "quantifier": "every number of inputs, every signed value in [-2^s, 2^s), every hint assignment", "why_tests_cant": "soundness quantifies over adversarial hints; list lengths are unbounded", "anchors": ["rust/jstprove_circuits/src/circuit_functions/gadgets/max_min_clip.rs"]}
{"id": "C07", "title": "LogUp lookup soundness", "statement": "If the LogUp final check holds at a challenge alpha then every queried value is a table key, except for at most (#queries + #table) bad values of alpha, whatever multiplicities the prover supplies.", "quantifier": "every field, table, query list, multiplicity hints and challenge", "why_tests_cant": "probabilistic soundness is a counting statement over the whole challenge space", "anchors": ["compiler/circuit-std-rs/src/logup.rs: LogUpSingleKeyTable::final_check, LogUpRangeProofTable::final_check, logup_poly_val, sum_rational_vec"]}
{"id": "C08", "title": "LogUp lookup completeness", "statement": "If every query is a table key then the honest multiplicity hint satisfies the final check for every challenge that is not itself a pole.", "quantifier": "every table without duplicate keys, every query list, every challenge", "why_tests_cant": "unbounded table and query sizes, all challenges", "anchors": ["compiler/circuit-std-rs/src/logup.rs: query_count_by_key_hint, query_count_hint, final_check"]}
{"id": "C09", "title": "Rational summation tree equals the mathematical sum", "statement": "The tree summation of rationals used by LogUp returns a fraction equal to the sum of all fractions, for lists of any length including odd lengths at any level.", "quantifier": "every list of fractions with any length", "why_tests_cant": "the odd-element handling depends on the whole binary expansion of the length", "anchors": ["compiler/circuit-std-rs/src/logup.rs: sum_rational_vec, add_rational"]}
{"id": "C10", "title": "Function lookup pins the output to the tabulated function", "statement": "A verified function lookup (x, y) forces y = f(x) for the tabulated f on the signed domain; out-of-domain x cannot be proved.", "quantifier": "every table width, every function, every x, every hint", "why_tests_cant": "adversarial hints and two-column combination", "anchors": ["rust/jstprove_circuits/src/circuit_functions/gadgets/function_lookup.rs"]}
{"id": "C11", "title": "Freivalds check soundness", "statement": "If the Freivalds matrix-product check accepts a claimed product C != A*B then the random challenge lies in a set of at most (cols-1) values per repetition, and the check always accepts C = A*B.", "quantifier": "every matrix dimension, all matrices and claimed products over every field, all challenges", "why_tests_cant": "a counting statement over the challenge space for arbitrary dimensions", "anchors": ["rust/jstprove_circuits/src/circuit_functions/gadgets/linear_algebra.rs: freivalds_verify_matrix_product"]}
{"id": "C12", "title": "Matrix product gadget computes the matrix product", "statement": "The constrained matrix multiplication returns sum_k A[i,k]*B[k,j] for all conformable shapes and rejects non-conformable ones.", "quantifier": "all shapes and entries", "why_tests_cant": "unbounded dimensions", "anchors": ["rust/jstprove_circuits/src/circuit_functions/gadgets/linear_algebra.rs: matrix_multiplication"]}
{"id": "C13", "title": "TopK returns the k largest values with their indices", "statement": "Whenever the TopK constraints hold, the returned values are the k largest of the lane in order, and the returned indices point at distinct lane positions holding them.", "quantifier": "every lane, every k, every hint assignment", "why_tests_cant": "adversarial hints", "anchors": ["rust/jstprove_circuits/src/circuit_functions/layers/topk.rs"]}
{"id": "C14", "title": "Boolean gates of the circuit API constrain their operands", "statement": "When a circuit calls and/or/xor on x and y, a satisfying assignment of the compiled circuit has x and y in {0,1} and the result equal to the Boolean function.", "quantifier": "every circuit, every operand expression (constant or variable), every witness", "why_tests_cant": "a dropped constraint is visible only to dishonest witnesses", "anchors": ["compiler/expander_compiler/src/builder/hint_normalize.rs: process_circuit", "compiler/expander_compiler/src/builder/basic.rs: Builder::assert, Builder::mark"]}
{"id": "C15", "title": "Comparison gate decides the order of canonical representatives", "statement": "gt(x, y) equals 1 exactly when the canonical representative of x exceeds that of y, in every satisfying witness.", "quantifier": "every pair of field elements, every hint assignment, every supported field", "why_tests_cant": "a non-canonical decomposition exists only for adversarial hints", "anchors": ["compiler/expander_compiler/src/frontend/builder.rs: gt, geq", "compiler/expander_compiler/src/hints/builtin.rs"]}
{"id": "C16", "title": "Division and is-zero gates have the documented semantics", "statement": "checked div forces y != 0 and result x/y; unchecked div forces y*q = x; is_zero returns 1 exactly on zero; assert_is_non_zero holds exactly on nonzero values.", "quantifier": "all operands and hints over every field", "why_tests_cant": "adversarial inverse hints", "anchors": ["compiler/expander_compiler/src/builder/hint_normalize.rs", "compiler/expander_compiler/src/frontend/builder.rs: div", "compiler/expander_compiler/src/circuit/ir/source/mod.rs"]}
{"id": "C17", "title": "Expression normalisation preserves value", "statement": "Building, merging, multiplying, scaling, sorting and substituting compiler expressions preserves their value under every assignment of variables.", "quantifier": "all expressions, all assignments over every field", "why_tests_cant": "all expression shapes and all assignments", "anchors": ["compiler/expander_compiler/src/circuit/ir/expr.rs", "compiler/expander_compiler/src/builder/basic.rs: lin_comb_inner, mul_two_expr"]}
{"id": "C18", "title": "Constant folding agrees with run-time evaluation", "statement": "Replacing an operation on constants by its folded constant gives the same value the circuit would compute at run time.", "quantifier": "all constants and operations", "why_tests_cant": "all field values", "anchors": ["compiler/expander_compiler/src/frontend/builder.rs", "compiler/expander_compiler/src/circuit/ir/source/mod.rs: eval_unsafe"]}
{"id": "C19", "title": "GKR completeness", "statement": "For every layered circuit and every input, the proof produced by the prover from the evaluated circuit is accepted by the verifier with the prover's claimed output value.", "quantifier": "every circuit (any number of layers, gates, widths), every input, every challenge sequence", "why_tests_cant": "unbounded circuits and all challenges", "anchors": ["prover/gkr/src/prover/gkr_vanilla.rs: gkr_prove", "prover/gkr/src/verifier/gkr_vanilla.rs: gkr_verify", "prover/gkr/src/verifier/common.rs: sumcheck_verify_gkr_layer", "prover/sumcheck/src/verifier_helper.rs"]}
{"id": "C20", "title": "Sumcheck soundness", "statement": "If the claimed sum is wrong, a prover passes the sumcheck rounds with a final claim equal to the true polynomial value only if some challenge hits one of at most `degree` bad values in its round.", "quantifier": "every number of variables, every polynomial of the checked degree, every prover strategy, every challenge vector", "why_tests_cant": "a counting statement over all strategies and challenges", "anchors": ["prover/gkr/src/verifier/common.rs: verify_sumcheck_step", "prover/sumcheck/src/verifier_helper.rs: degree_2_eval, degree_3_eval"]}
{"id": "C21", "title": "A verified proof implies satisfied constraints", "statement": "If verification accepts, then the committed witness satisfies all assertions of the circuit, i.e. the outputs the compiler expects to be zero are zero.", "quantifier": "every circuit and every witness, satisfying or not", "why_tests_cant": "tests only verify honest satisfying witnesses", "anchors": ["prover/bin/src/executor.rs: verify, load_proof_and_claimed_v", "rust/jstprove_circuits/src/runner/main_runner.rs: run_verification", "rust/jstprove_circuits/src/runner/verify_extract.rs", "prover/circuit/src/layered/circuit.rs: expected_num_output_zeros"]}
{"id": "C22", "title": "Multilinear extension and eq tables", "statement": "The eq-table and multilinear-evaluation routines used by prover and verifier agree with the multilinear extension of the evaluation vector, and agree with the vector on Boolean points.", "quantifier": "every number of variables, every vector, every point", "why_tests_cant": "unbounded dimensions and all field points", "anchors": ["prover/polynomials", "prover/sumcheck/src/verifier_helper.rs"]}
{"id": "C23", "title": "Fiat-Shamir binding of everything the verifier uses", "statement": "Every verifier input that affects acceptance (commitment, claimed value, round messages, public inputs) is absorbed before the challenges that must depend on it are drawn, and prover and verifier derive equal challenges from equal messages.", "quantifier": "every message history", "why_tests_cant": "all histories; an omitted absorption is invisible to honest runs", "anchors": ["prover/transcript/src/byte_hash_transcript.rs", "prover/gkr_engine/src/transcript/definition.rs", "prover/gkr/src/verifier/snark.rs"]}
{"id": "C24", "title": "Merkle opening completeness", "statement": "For every power-of-two leaf vector with at least two leaves and every index, the generated path verifies against the root and yields the leaf.", "quantifier": "every tree size, every leaf vector, every index, every hash function", "why_tests_cant": "unbounded trees", "anchors": ["prover/tree/src/tree.rs", "prover/tree/src/path.rs"]}
{"id": "C25", "title": "Merkle opening binding", "statement": "Two accepted openings of one root at the same index and the same path length carry equal leaves unless they exhibit a hash collision.", "quantifier": "every root, index, pair of paths, and hash function", "why_tests_cant": "adversarial paths", "anchors": ["prover/tree/src/path.rs: verify, root", "prover/tree/src/leaf.rs", "prover/tree/src/node.rs"]}
{"id": "C26", "title": "Binary serialisation round-trips and is prefix-decodable", "statement": "For every value of the supported types, deserialising its serialisation followed by any suffix returns the value and leaves the suffix unread; truncated inputs are rejected.", "quantifier": "all values of all composed types and all suffixes", "why_tests_cant": "infinite value space", "anchors": ["prover/serdes/src/serdes.rs", "prover/serdes/src/macros.rs"]}
{"id": "C27", "title": "Mersenne-31 arithmetic is arithmetic modulo 2^31-1", "statement": "Addition, subtraction, multiplication, negation, reduction, u256 conversion and inversion of M31 refine arithmetic in Z/(2^31-1) on every stored representation, including non-canonical ones.", "quantifier": "all 32-bit representations the implementation can hold", "why_tests_cant": "2^62 input pairs", "anchors": ["prover/arith/mersenne31/src/m31.rs"]}
{"id": "C28", "title": "Goldilocks arithmetic is arithmetic modulo 2^64-2^32+1", "statement": "Addition, subtraction, multiplication, 128-bit reduction, negation and inversion of Goldilocks elements refine arithmetic in Z/p on every stored 64-bit representation, without overflow.", "quantifier": "all 64-bit representations (canonical or not)", "why_tests_cant": "2^128 input pairs; source comments say the normalisation bounds are unproved", "anchors": ["prover/arith/goldilocks/src/goldilocks.rs"]}
{"id": "C29", "title": "Field decoding accepts only canonical encodings", "statement": "Deserialising a field element accepts exactly the encodings of values below the modulus, so each element has one accepted encoding.", "quantifier": "all byte strings", "why_tests_cant": "all 2^64 words", "anchors": ["prover/arith/mersenne31/src/m31.rs: deserialize_from", "prover/arith/goldilocks/src/goldilocks.rs: deserialize_from"]}
{"id": "C30", "title": "Envelope round-trip and corruption rejection", "statement": "Data written with the JST envelope is read back unchanged; a file with a wrong magic, unknown flags, truncated payload or mismatching checksum is rejected.", "quantifier": "all payloads and all byte strings", "why_tests_cant": "all byte strings", "anchors": ["rust/jstprove_io/src/envelope.rs", "rust/jstprove_io/src/lib.rs"]}
{"id": "C31", "title": "Reading a bundle returns the blobs written", "statement": "A successful bundle write followed by a read returns the same circuit, witness-solver, metadata and key bytes, compressed or not.", "quantifier": "all blob contents and options", "why_tests_cant": "magic-byte sniffing depends on arbitrary content", "anchors": ["rust/jstprove_io/src/bundle.rs", "rust/jstprove_io/src/compress.rs"]}
{"id": "C32", "title": "A failed bundle write leaves nothing behind", "statement": "If writing a bundle fails at any point, the directory is as it was before and a retry can succeed.", "quantifier": "every failure point of every write sequence", "why_tests_cant": "crash points", "anchors": ["rust/jstprove_io/src/bundle.rs: WriteGuard, write_bundle_with_vk"]}
{"id": "C33", "title": "Proof-configuration identifiers are stable and unambiguous", "statement": "Identifier and name encodings of proof configurations round-trip, distinct configurations have distinct ids and names, unknown ids and names are rejected and stale versions are refused.", "quantifier": "all configurations, all integers and all strings", "why_tests_cant": "rejection ranges over all other integers and strings", "anchors": ["rust/jstprove_circuits/src/proof_config.rs"]}
{"id": "C34", "title": "Signed field encoding round-trips", "statement": "Encoding a signed integer in the field and decoding it by the verifier's convention returns the integer whenever its magnitude is at most half the modulus.", "quantifier": "all signed integers in range, all odd moduli", "why_tests_cant": "all values", "anchors": ["rust/jstprove_circuits/src/runner/verify_extract.rs: from_field_repr", "rust/jstprove_circuits/src/circuit_functions/utils/tensor_ops.rs: convert_val_to_field_element", "rust/jstprove_circuits/src/circuit_functions/gadgets/function_lookup.rs: i64_to_field"]}
{"id": "C35", "title": "Public-input comparison accepts exactly values within tolerance", "statement": "Comparing expected with actual public inputs accepts exactly when the two field values differ by at most the tolerance modulo p.", "quantifier": "all expected and actual values, all tolerances below half the modulus", "why_tests_cant": "all values", "anchors": ["rust/jstprove_circuits/src/runner/verify_extract.rs: compare_field_values"]}
{"id": "C36", "title": "Witness files decode to the public inputs the proof is checked against", "statement": "The public inputs extracted for the user are the ones the proof was verified with, for every witness byte string that both parsers accept.", "quantifier": "all byte strings, any number of packed witnesses", "why_tests_cant": "two independent parsers over all byte strings", "anchors": ["rust/jstprove_circuits/src/runner/verify_extract.rs: parse_public_inputs_from_witness_bytes", "compiler/expander_compiler/src/circuit/layered/witness.rs"]}
{"id": "C37", "title": "Broadcasting follows the ONNX multidirectional rule", "statement": "The broadcast shape of two tensors is the ONNX/NumPy broadcast shape when it exists and an error otherwise, and element i of the result reads the elements ONNX prescribes.", "quantifier": "all shapes and all indices", "why_tests_cant": "unbounded ranks", "anchors": ["rust/jstprove_circuits/src/circuit_functions/utils/tensor_ops.rs: determine_broadcast_shape, broadcast_two_arrays", "rust/jstprove_circuits/src/circuit_functions/layers/where_op.rs: unravel, ravel, broadcast_index"]}
{"id": "C38", "title": "Flat index conversion is a bijection", "statement": "Unravel followed by ravel is the identity on flat indices, and ravel followed by unravel is the identity on in-range coordinates.", "quantifier": "all shapes and indices", "why_tests_cant": "unbounded ranks", "anchors": ["rust/jstprove_circuits/src/circuit_functions/layers/where_op.rs: unravel, ravel"]}
{"id": "C39", "title": "Reshape inference preserves the element count", "statement": "Reshape with 0 and -1 entries yields a shape with the same number of elements as the input or an error.", "quantifier": "all input shapes and all target specifications", "why_tests_cant": "unbounded ranks", "anchors": ["rust/jstprove_circuits/src/circuit_functions/utils/shaping.rs: infer_reshape_shape, onnx_flatten, normalize_axes"]}
{"id": "C40", "title": "Canonical model encoding round-trips and is unambiguous", "statement": "The zkVM host encoding of a quantised model decodes in the guest to the same layers and weights; different models have different encodings.", "quantifier": "all models", "why_tests_cant": "unbounded models", "anchors": ["rust/jstprove_zkvm/src/canonical.rs: encode", "rust/jstprove_zkvm/guest/src/lib.rs"]}
{"id": "C41", "title": "Activation bound analysis is sound", "statement": "The per-layer bounds and bit widths computed from weights bound every activation that can occur for inputs within the declared input bound.", "quantifier": "all models, all inputs within the bound", "why_tests_cant": "all inputs", "anchors": ["rust/jstprove_zkvm/guest/src/lib.rs: compute_bounds_and_nbits, max_channel_l1", "rust/jstprove_onnx"]}
{"id": "C42", "title": "Batch witness packing preserves every witness", "statement": "Packing scalar witnesses into SIMD lanes and unpacking returns every witness unchanged, with padding lanes repeating the last witness.", "quantifier": "any number of witnesses, inputs and pack size", "why_tests_cant": "unbounded sizes", "anchors": ["compiler/expander_compiler/src/circuit/layered/witness.rs: pack_block, unpack_block"]}
{"id": "C43", "title": "Exponential gadget output is determined by its input", "statement": "A satisfied exponential lookup forces its output to be floor(f(hi)*f(lo)/scale) for the decomposition x = hi + lo of the input; the honest prover always obtains that value.", "quantifier": "every field, table width, scale, tabulated function, input and all hint values", "why_tests_cant": "adversarial hints over the whole field", "anchors": ["rust/jstprove_circuits/src/circuit_functions/gadgets/function_lookup.rs: DecomposedExpLookup::verify_exp", "rust/jstprove_circuits/src/circuit_functions/layers/exp.rs"]}
{"id": "C44", "title": "The compiler's first pass preserves the relation a circuit defines", "statement": "Compiling a program of source circuits (constant folding, lowering of division, Boolean, is-zero, binary-digit and unconstrained operations, merging of common expressions) never panics on a well-formed program, keeps every input/output pair of an honest run, and adds no pair the source program does not relate.", "quantifier": "every well-formed program (any number of circuits, any depth of calls), every field, every public input, custom gate and hint value", "why_tests_cant": "quantifies over all circuits and all adversarial assignments", "anchors": ["compiler/expander_compiler/src/builder/hint_normalize.rs: process", "compiler/expander_compiler/src/builder/basic.rs: process_root_circuit, process_circuit, Builder", "compiler/expander_compiler/src/circuit/ir/source/mod.rs"]}
{"id": "C45", "title": "Transpose layer", "statement": "A Transpose moves every element to its permuted coordinates; attributes that are not a permutation are a reported error.", "quantifier": "every tensor, rank, shape and permutation attribute", "why_tests_cant": "unbounded ranks and shapes", "anchors": ["rust/jstprove_onnx/src/shape_inference.rs: infer_transpose", "rust/jstprove_circuits/src/circuit_functions/layers/transpose.rs: build_index_map, TransposeLayer"]}
{"id": "C46", "title": "Slice layer", "statement": "A Slice returns exactly the positions its starts, ends, axes and steps select (negative values count from the end, values past an end are clamped); malformed attributes are reported errors and never a panic.", "quantifier": "every tensor, shape and attribute value", "why_tests_cant": "all 64-bit attribute values and all shapes", "anchors": ["rust/jstprove_onnx/src/shape_inference.rs: infer_slice", "rust/jstprove_circuits/src/circuit_functions/layers/slice.rs: SliceLayer"]}
{"id": "C47", "title": "Split and Concat layers", "statement": "Split returns consecutive parts of the requested sizes that make up its input, Concat puts its inputs side by side, each undoes the other, and malformed requests are reported errors.", "quantifier": "every list of tensors, axis and sizes", "why_tests_cant": "unbounded numbers of parts, ranks and shapes", "anchors": ["rust/jstprove_onnx/src/shape_inference.rs: infer_split, infer_concat", "rust/jstprove_circuits/src/circuit_functions/layers/split.rs", "rust/jstprove_circuits/src/circuit_functions/layers/concat.rs"]}
{"id": "C48", "title": "Tile and Expand layers", "statement": "Tile repeats a tensor along every axis and Expand broadcasts it to the common shape, as ONNX defines them; what they do not support is a reported error.", "quantifier": "every tensor, repeats and target shape", "why_tests_cant": "unbounded ranks and shapes", "anchors": ["rust/jstprove_onnx/src/shape_inference.rs: infer_tile, infer_expand, broadcast_shapes", "rust/jstprove_circuits/src/circuit_functions/layers/tile.rs", "rust/jstprove_circuits/src/circuit_functions/layers/expand.rs"]}
{"id": "C49", "title": "Pad layer", "statement": "A Pad that is accepted surrounds the tensor with the fill value it was given; unsupported modes, fill values and pads are reported errors.", "quantifier": "every tensor, pads and fill value, whether the fill value is a constant or computed", "why_tests_cant": "unbounded ranks and shapes", "anchors": ["rust/jstprove_onnx/src/shape_inference.rs: infer_pad", "rust/jstprove_circuits/src/circuit_functions/layers/pad.rs: build_pad_index_map, PadLayer"]}
{"id": "C50", "title": "Gather and GatherElements layers", "statement": "Gather and GatherElements with constant indices return the elements their indices name, and an index or an index tensor that does not fit the data is a reported error.", "quantifier": "every data tensor, index tensor and axis", "why_tests_cant": "all index values and shapes", "anchors": ["rust/jstprove_onnx/src/shape_inference.rs: infer_gather", "rust/jstprove_circuits/src/circuit_functions/layers/gather.rs", "rust/jstprove_circuits/src/circuit_functions/layers/gather_elements.rs"]}
{"id": "C51", "title": "ScatterND layer", "statement": "ScatterND writes every update to the element its index tuple names, the last one winning, keeps the others, does not depend on hash map order, and refuses indices and updates that do not fit the data.", "quantifier": "every data, index and update tensor and every iteration order of the update map", "why_tests_cant": "hash map iteration order and all index values", "anchors": ["rust/jstprove_circuits/src/circuit_functions/layers/scatter_nd.rs: ScatterNDLayer"]}
{"id": "C52", "title": "Squeeze and Unsqueeze layers", "statement": "Squeeze removes exactly the named axes (or all axes of size one), Unsqueeze inserts axes of size one, neither changes an element, each undoes the other, and bad axes are reported errors.", "quantifier": "every tensor and axes attribute", "why_tests_cant": "unbounded ranks", "anchors": ["rust/jstprove_circuits/src/circuit_functions/layers/squeeze.rs", "rust/jstprove_circuits/src/circuit_functions/layers/unsqueeze.rs"]}
{"id": "C53", "title": "Convolution layer", "statement": "A proof for a model containing Conv certifies that the layer's output is the convolution of the zero-padded input with the weights plus bias, rescaled and clamped as configured; configurations the layer does not support are refused when the circuit is built, never computed wrongly; honest executions can always be proved.", "quantifier": "every batch size, channel count, image size, kernel, stride and padding, every tensor content and every prover", "why_tests_cant": "unbounded shapes, contents and provers", "anchors": ["rust/jstprove_circuits/src/circuit_functions/layers/conv.rs: conv_4d_run, conv_shape_4_setup_res, convolution_inner"]}
{"id": "C54", "title": "Pooling layers", "statement": "A proof for a model containing MaxPool, AveragePool or GlobalAveragePool certifies that every output is the maximum, or the mean rounded to the nearest integer, of the data inside its window, padding left out; attributes the layers do not implement are refused; honest executions can always be proved.", "quantifier": "every tensor shape and content, kernel, stride, dilation and padding, and every prover", "why_tests_cant": "unbounded shapes, contents and provers", "anchors": ["rust/jstprove_circuits/src/circuit_functions/layers/maxpool.rs", "rust/jstprove_circuits/src/circuit_functions/layers/averagepool.rs", "rust/jstprove_circuits/src/circuit_functions/layers/global_averagepool.rs", "rust/jstprove_circuits/src/circuit_functions/hints/averagepool.rs"]}
{"id": "C55", "title": "Reduction layers", "statement": "A proof for a model containing ReduceSum, ReduceMax or ReduceMean certifies that every output is the sum, the maximum, or the mean rounded to the nearest integer, of the entries in its lane, for the axes named (all of them when none are named); axes that do not exist and empty lanes without a value are refused; honest executions can always be proved.", "quantifier": "every tensor shape and content, list of axes, keepdims and no-op flag, and every prover", "why_tests_cant": "unbounded ranks, shapes, contents and provers", "anchors": ["rust/jstprove_circuits/src/circuit_functions/layers/reduce_sum.rs", "rust/jstprove_circuits/src/circuit_functions/layers/reduce_max.rs", "rust/jstprove_circuits/src/circuit_functions/layers/reduce_mean.rs"]}
{"id": "C56", "title": "Elementwise arithmetic layers", "statement": "A proof for a model containing Add, Sub, Neg, Mul, Div, Relu, LeakyRelu, Max, Min or Clip certifies that every output entry is that operation applied to the entries ONNX broadcasting assigns to it (products rescaled, quotients rounded down); operands that do not broadcast, divisors that are not constants in [1, 2^32) and zero-bit ranges are refused with an error; honest executions can always be proved.", "quantifier": "every pair or triple of tensor shapes and contents, bit width, digit width, and every prover", "why_tests_cant": "unbounded ranks, shapes, contents and provers", "anchors": ["rust/jstprove_circuits/src/circuit_functions/layers/add.rs", "rust/jstprove_circuits/src/circuit_functions/layers/sub.rs", "rust/jstprove_circuits/src/circuit_functions/layers/neg.rs", "rust/jstprove_circuits/src/circuit_functions/layers/mul.rs", "rust/jstprove_circuits/src/circuit_functions/layers/div.rs", "rust/jstprove_circuits/src/circuit_functions/layers/relu.rs", "rust/jstprove_circuits/src/circuit_functions/layers/leaky_relu.rs", "rust/jstprove_circuits/src/circuit_functions/layers/max.rs", "rust/jstprove_circuits/src/circuit_functions/layers/min.rs", "rust/jstprove_circuits/src/circuit_functions/layers/clip.rs"]}
{"id": "C57", "title": "Comparison, logic and selection layers", "statement": "A proof for a model containing Equal, Greater, Less, And, Not or Where certifies that every output entry is the comparison, the connective or the selection of the entries ONNX broadcasting assigns to it, as signed numbers; comparing two constants gives the same answer as comparing the same values at run time; operands that do not broadcast are refused.", "quantifier": "every tensor shape and content, field, and every prover", "why_tests_cant": "unbounded ranks, shapes, contents and provers; the failures need a prover that lies about bit decompositions", "anchors": ["rust/jstprove_circuits/src/circuit_functions/layers/equal.rs", "rust/jstprove_circuits/src/circuit_functions/layers/greater.rs", "rust/jstprove_circuits/src/circuit_functions/layers/less.rs", "rust/jstprove_circuits/src/circuit_functions/layers/and_op.rs", "rust/jstprove_circuits/src/circuit_functions/layers/not_op.rs", "rust/jstprove_circuits/src/circuit_functions/layers/where_op.rs"]}
{"id": "C58", "title": "Sqrt, HardSwish and Pow layers", "statement": "A proof for a model containing Sqrt, HardSwish or Pow certifies that every output entry is the function of the corresponding input entry in fixed point, up to the documented rounding; the honest prover succeeds on every input in range; unsupported parameters are refused.", "quantifier": "every tensor shape and content, scale, digit width, exponent, field, and every prover", "why_tests_cant": "unbounded shapes and contents; the failures need a prover that picks its own hint values, or inputs whose root rounds up", "anchors": ["rust/jstprove_circuits/src/circuit_functions/layers/sqrt.rs", "rust/jstprove_circuits/src/circuit_functions/layers/hardswish.rs", "rust/jstprove_circuits/src/circuit_functions/layers/pow.rs", "rust/jstprove_circuits/src/circuit_functions/hints/sqrt.rs", "rust/jstprove_circuits/src/circuit_functions/hints/hardswish.rs"]}
{"id": "C59", "title": "Sin and Cos layers", "statement": "A proof for a model containing Sin or Cos certifies that every output entry is the tabulated sine or cosine of the corresponding input entry; the honest prover succeeds for every entry of at most n_bits bits.", "quantifier": "every tensor shape and content, scale, width, field, tabulated function, and every prover", "why_tests_cant": "unbounded shapes and contents; the domain limit only shows for inputs beyond the table", "anchors": ["rust/jstprove_circuits/src/circuit_functions/layers/sin.rs", "rust/jstprove_circuits/src/circuit_functions/layers/cos.rs", "rust/jstprove_circuits/src/circuit_functions/hints/sin.rs", "rust/jstprove_circuits/src/circuit_functions/hints/cos.rs"]}
{"id": "C60", "title": "Exp, Sigmoid, Tanh, Log and Gelu layers", "statement": "A proof for a model containing Exp, Sigmoid, Tanh, Log or Gelu certifies that every output entry is that function of the corresponding input entry, computed from the tabulated exponential, up to a stated error; the honest prover succeeds on every input in the look-up's domain; unsupported parameters are refused.", "quantifier": "every tensor shape and content, scale, digit width, tabulated function, field, and every prover", "why_tests_cant": "unbounded shapes and contents; the error must be bounded against every prover, and the failures need either a prover that picks its own hint values or inputs where the tolerance is too narrow", "anchors": ["rust/jstprove_circuits/src/circuit_functions/layers/exp.rs", "rust/jstprove_circuits/src/circuit_functions/layers/sigmoid.rs", "rust/jstprove_circuits/src/circuit_functions/layers/tanh.rs", "rust/jstprove_circuits/src/circuit_functions/layers/log.rs", "rust/jstprove_circuits/src/circuit_functions/layers/gelu.rs", "rust/jstprove_circuits/src/circuit_functions/gadgets/function_lookup.rs"]}
{"id": "C61", "title": "Softmax layer", "statement": "A proof for a model containing Softmax certifies that every lane of the output along the chosen axis is the softmax of the corresponding lane of the input, computed from the tabulated exponential, up to a stated error, and adds up to one; the honest prover succeeds; unsupported parameters are refused.", "quantifier": "every tensor shape, axis, lane length and content, scale, digit width, tabulated function, field, and every prover", "why_tests_cant": "unbounded shapes and lane lengths; the error must be bounded against every prover; that no proof exists for spread-out lanes is a statement about all hint assignments", "anchors": ["rust/jstprove_circuits/src/circuit_functions/layers/softmax.rs", "rust/jstprove_circuits/src/circuit_functions/hints/softmax_verified.rs", "rust/jstprove_circuits/src/circuit_functions/gadgets/function_lookup.rs"]}
{"id": "C62", "title": "LayerNormalization layer", "statement": "A proof for a model containing LayerNormalization certifies that every block of trailing axes of the output is the normalised block of the input, scaled and shifted by the coefficients, within the stated tolerance; the honest prover succeeds; unsupported parameters are refused.", "quantifier": "every tensor shape, axis, block length and content, coefficients, scale, digit width, field, and every prover", "why_tests_cant": "that one wrong output is provable for every input is a statement about all inputs and hint assignments; shapes and block lengths are unbounded", "anchors": ["rust/jstprove_circuits/src/circuit_functions/layers/layer_norm.rs", "rust/jstprove_circuits/src/circuit_functions/hints/layer_norm_verified.rs", "rust/jstprove_circuits/src/circuit_functions/layers/instance_norm.rs", "rust/jstprove_circuits/src/circuit_functions/layers/group_norm.rs"]}
{"id": "C63", "title": "MatMul and Gemm layers", "statement": "A proof for a model containing MatMul or Gemm certifies that each output is the ONNX result on the integer operands (batched product, or op(A)*op(B)+C with C broadcast), rescaled as configured, up to the stated fraction of Freivalds challenges; the honest prover succeeds for all challenges; unsupported shapes and attributes are refused.", "quantifier": "every rank, batch shape, matrix size, content, transposition flag, bias shape, scale, digit width, field, prover, and all challenges", "why_tests_cant": "the Freivalds check is probabilistic: the property counts challenges over the whole field for every dishonest prover; shapes are unbounded", "anchors": ["rust/jstprove_circuits/src/circuit_functions/layers/matmul.rs", "rust/jstprove_circuits/src/circuit_functions/layers/gemm.rs", "rust/jstprove_circuits/src/circuit_functions/gadgets/linear_algebra.rs", "rust/jstprove_circuits/src/circuit_functions/utils/shaping.rs"]}
{"id": "C64", "title": "Assembling and fusing a model's layers", "statement": "The circuit built from a model accepts exactly the outputs of running the model's graph on its inputs: layers are applied in order, intermediate tensors are passed by name, fused operators (an operator followed by ReLU) compute what the two nodes compute, the public outputs are those of the model, and every valid model is accepted.", "quantifier": "every graph of nodes (any number of nodes, names, fan-out), every set of layers that are sound or complete each, every input, challenge and prover", "why_tests_cant": "graphs are unbounded, fusion depends on the whole graph, and the prover is arbitrary", "anchors": ["rust/jstprove_circuits/src/onnx.rs", "rust/jstprove_circuits/src/circuit_functions/utils/build_layers.rs", "rust/jstprove_circuits/src/circuit_functions/utils/graph_pattern_matching.rs", "rust/jstprove_circuits/src/circuit_functions/utils/shaping.rs", "rust/jstprove_circuits/src/circuit_functions/layers/layer_kinds.rs", "rust/jstprove_circuits/src/circuit_functions/layers/layer_ops.rs"]}
{"id": "C65", "title": "Extension fields compute in the fields they name", "statement": "On every pair of elements, in any representation of their limbs, the operations of GoldilocksExt2, GoldilocksExt3, GoldilocksExt4 and M31Ext3 (sum, difference, opposite, product, square, product with and sum of a base element, product with X, equality, zero test, inverse, limbs) agree with F_p[X]/(X^n - w), which is a field; the inverse is refused of zero only; the Frobenius maps are powers of p; the root of unity has the advertised order.", "quantifier": "every element of each extension, every base element, every representation of the limbs", "why_tests_cant": "the fields have 2^93 to 2^256 elements", "anchors": ["prover/arith/goldilocks/src/goldilocks_ext.rs", "prover/arith/goldilocks/src/goldilocks_ext3.rs", "prover/arith/goldilocks/src/goldilocks_ext4.rs", "prover/arith/mersenne31/src/m31_ext3.rs"]}
{"id": "C66", "title": "BaseFold openings of honest provers are accepted", "statement": "Committing to any vector of 2^n field elements with BaseFold succeeds, opening it at any point succeeds, and the verifier accepts the opening for the value of the multilinear extension at that point; the codeword committed to is the Reed-Solomon encoding of the vector at rate 1/4, computed by an FFT that agrees with evaluation at the powers of a root of unity and that the inverse FFT undoes; the verifier returns a verdict on every opening, of any shape.", "quantifier": "every vector, every n the field supports, every point, every transcript, every opening", "why_tests_cant": "vectors, points, roots of unity and openings range over sets of astronomical size, and a wrong index in one of the layers shows only for particular sizes or particular limb representations", "anchors": ["prover/poly_commit/src/basefold/encoding.rs", "prover/poly_commit/src/basefold/commit.rs", "prover/poly_commit/src/basefold/open.rs", "prover/poly_commit/src/basefold/verify.rs", "prover/poly_commit/src/basefold/types.rs", "prover/arith/src/fft_field.rs:FFTField", "prover/tree/src/tree.rs"]}
{"id": "C67", "title": "A BaseFold commitment has one value at each point", "statement": "Once a BaseFold commitment is fixed, there is no point at which the verifier accepts openings for two different values, but with negligible probability over the queries.", "quantifier": "every commitment, hash function, transcript, point and pair of openings, however they were made", "why_tests_cant": "the dishonest prover is free to send anything; tests run honest provers and flipped bytes", "anchors": ["prover/poly_commit/src/basefold/verify.rs", "prover/tree/src/path.rs:Path::verify"]}
{"id": "C68", "title": "BaseFold is sound once the words behind the commitments are fixed", "statement": "A prover whose Merkle paths all come from words fixed before the next challenge gets a wrong value accepted with small probability over the challenges and the query indices: a value that no polynomial has whose codeword differs from the committed word in at most a quarter of the positions, and in particular any value but that of the polynomial it committed to.", "quantifier": "every prover strategy (messages and words as functions of the challenges seen, opening as a function of all coins), every committed word, point, value, hash and number of variables up to the adicity", "why_tests_cant": "it is a statement about the fraction of all challenge vectors and query sets, against every strategy", "anchors": ["prover/poly_commit/src/basefold/verify.rs:basefold_verify", "prover/poly_commit/src/basefold/encoding.rs:codeword_fold_single", "prover/poly_commit/src/basefold/types.rs:BASEFOLD_NUM_QUERIES"]}
{"id": "C69", "title": "A WHIR opening binds the prover to the committed polynomial", "statement": "For a given WHIR commitment and point, the verifier accepts an opening only for the value that the committed polynomial takes there (up to luck with the challenges).", "quantifier": "every commitment, point, value, opening, hash and transcript, at every number of variables from 1 to 62", "why_tests_cant": "no set of openings shows that no other opening is accepted", "anchors": ["prover/poly_commit/src/whir/pcs_trait_impl.rs:whir_verify", "prover/poly_commit/src/whir/parameters.rs", "prover/gkr/src/gkr_configs.rs:GoldilocksExt3x1ConfigSha2Whir"]}
{"id": "C70", "title": "Honest WHIR openings are accepted and the WHIR verifier does not panic", "statement": "For every vector of 2^n values the prover produces an opening at every point, the verifier accepts it with the value of the multilinear extension there, also after the opening was written and read back, and on arbitrary openings the verifier ends with a verdict.", "quantifier": "every vector of 2^n values, 1 <= n <= 31, every point, hash and transcript; for the verifier every input", "why_tests_cant": "it ranges over all polynomials, points and transcripts and all openings", "anchors": ["prover/poly_commit/src/whir/pcs_trait_impl.rs:whir_open", "prover/poly_commit/src/whir/pcs_trait_impl.rs:re_encode", "prover/poly_commit/src/whir/pcs_trait_impl.rs:whir_verify", "prover/poly_commit/src/whir/types.rs:deserialize_from"]}
{"id": "C71", "title": "Constants of the model reach the circuit at the scale of the data they meet", "statement": "A real constant v that a node of the model reads (weight, bias, second operand of Add, Sub or Mul, bound of Clip, table of Gather) is represented in the circuit by an integer within one half of the scale the node needs times v.", "quantifier": "every model, every node and every constant tensor, also one that several nodes read", "why_tests_cant": "it ranges over all models and all real constants; the tests use operators of the scale plan or constants for which truncation is exact", "anchors": ["rust/jstprove_onnx/src/quantizer.rs:quantize_layer_weights", "rust/jstprove_onnx/src/ops.rs:get_scale_plan", "rust/jstprove_onnx/src/parser.rs:as_i64_vec", "rust/jstprove_circuits/src/expander_metadata.rs:build_wandb"]}
{"id": "C72", "title": "BatchNormalization", "statement": "An accepted output of BatchNormalization has the shape of the input and its entries are those of x·m + b with the folded factor and summand of the entry's channel, divided by the scale and passed through the fused Relu; honest witnesses are accepted; parameters that do not fit are refused; over the reals, folding changes nothing, and the integers proved stay within an explicit bound of the real result.", "quantifier": "every rank, shape, input, parameter vector, digit width and scale", "why_tests_cant": "it ranges over all shapes and all witnesses, dishonest ones included, and all real parameters", "anchors": ["rust/jstprove_circuits/src/circuit_functions/layers/batchnorm.rs", "rust/jstprove_circuits/src/circuit_functions/utils/tensor_ops.rs:reshape_channel_vector_for_broadcast", "rust/jstprove_onnx/src/quantizer.rs:fold_batchnorm_params"]}
{"id": "C73", "title": "The compiler's second pass keeps the meaning of a circuit", "statement": "Turning a circuit of sums and products of any length into one of quadratic expressions ends without a panic on every valid circuit. The result reads only earlier variables, draws the same random coins, and for all inputs, public inputs and coins accepts exactly when the source does and has the same outputs. A circuit is refused only if no input satisfies it.", "quantifier": "every valid circuit without calls and custom gates, over every field, every assignment of inputs, public inputs and coins, and every order in which the factors of products are taken", "why_tests_cant": "it ranges over all circuits and fields; the pass merges equal subexpressions up to a factor and a summand and decides by cost and layer what becomes a variable, so faults show only on particular combinations", "anchors": ["compiler/expander_compiler/src/builder/final_build_opt.rs", "compiler/expander_compiler/src/utils/heap.rs", "compiler/expander_compiler/src/circuit/costs.rs"]}
{"id": "C74", "title": "Layers compute the constraints and outputs of a circuit", "statement": "Turning a circuit of quadratic expressions into layers of addition and multiplication gates ends without a panic on every valid circuit. The layers fit together and draw no random coin twice. If all constraints of the circuit hold, the first wire of the last layer is zero whatever the coins are, and the circuit's outputs follow it. If a constraint does not hold, then over a finite field the first wire is zero for exactly one in |F| of all draws of the coins.", "quantifier": "every valid circuit without calls and custom gates with at least one and fewer constraints than the characteristic, over every field, all inputs, public inputs and coins of the source, and any number of rounds of the optimizer", "why_tests_cant": "it ranges over all circuits; the chance of a violated constraint slipping through is a statement about all draws of the coins, and one in 2^31 is not seen by testing", "anchors": ["compiler/expander_compiler/src/layering/", "compiler/expander_compiler/src/circuit/layered/opt.rs", "compiler/expander_compiler/src/circuit/ir/common/opt.rs", "compiler/expander_compiler/src/compile/mod.rs"]}
{"id": "C75", "title": "ConvTranspose layers compute the transposed convolution", "statement": "For every accepted ConvTranspose layer (one group, unit dilation, two spatial axes) and all input, weight and bias tensors, strides, paddings and output paddings, the proved output is the transposed convolution: each input entry is spread over the output by the kernel and the results are added to the bias, then rescaled as configured. Pairing the output with any tensor equals pairing the input with the convolution of that tensor by the same weights. Unsupported configurations are refused. The shape the importer records for the output is the shape the layer produces.", "quantifier": "all tensor sizes, kernel sizes, strides, paddings, output paddings, tensor values and prover hints", "why_tests_cant": "The layer inverts the index map of the operator (divisibility by the stride, padding offsets, clipping); tests compare a few sizes, while an off-by-one shows only for particular combinations of stride, padding, kernel and output padding, and a dishonest prover's hints are not sampled.", "anchors": ["rust/jstprove_circuits/src/circuit_functions/layers/conv_transpose.rs:55-413", "rust/jstprove_onnx/src/shape_inference.rs:2732-2919"]}
{"id": "C76", "title": "Resize layers compute ONNX nearest and linear resizing", "statement": "For every accepted Resize layer and every input tensor, a nearest layer outputs at each position the element at the nearest point ONNX defines, and a linear layer proves values within the rounding error of the fixed-point weights of the multilinear interpolation. The fixed-point weights add up to the scale and are not negative, so a constant image stays constant. A dishonest prover cannot prove another value. The shape the importer records is the one the layer produces; unsupported configurations are refused.", "quantifier": "all ranks, sizes, scales, coordinate and rounding modes, scale exponents, tensor values and prover hints", "why_tests_cant": "Coordinates, ties, clamped edges and the largest-remainder correction of the weights misbehave only for particular ratios of sizes; tests take factors of two. A dishonest prover's hints are not sampled.", "anchors": ["rust/jstprove_circuits/src/circuit_functions/layers/resize.rs", "rust/jstprove_circuits/src/circuit_functions/hints/resize.rs:50-119", "rust/jstprove_onnx/src/shape_inference.rs:1687-1757"]}
{"id": "C77", "title": "The second backend accepts exactly the output of the model", "statement": "For every quantised model and input, the circuit that the Remainder backend builds is satisfiable for a claimed output exactly when that output is the fixed-point evaluation of the model: Gemm, Conv and BatchNormalization with floor rescaling, Relu, MaxPool, addition and subtraction, and shape operators in ONNX order. The range-check widths, which come with the proof, give a dishonest prover no freedom. Operators that the backend cannot constrain are refused.", "quantifier": "all models, sizes, layouts, weights, inputs, claimed outputs, widths in the proof and committed values, over every prime field of more than 100 bits", "why_tests_cant": "Tests run the honest prover on a few small models. Soundness speaks about all committed values, and the failures (fractions modulo the field, layers without constraints, the order of a flattened image) are invisible to the honest prover, which agrees with itself.", "anchors": ["rust/jstprove_remainder/src/runner/circuit_builder.rs:280-1769", "rust/jstprove_remainder/src/runner/range_checks.rs:1-182", "rust/jstprove_remainder/src/runner/witness.rs:3269-4091", "rust/jstprove_remainder/src/runner/verify.rs:18-120", "rust/jstprove_remainder/src/gadgets/rescale.rs:3-10"]}
{"id": "C78", "title": "Layers are processed after everything they read", "statement": "For every model the layer order that shape inference, bound analysis and the second backend use contains each layer once and puts it after the layers whose results it reads, so that evaluating the layers in this order gives the one solution of the equations of the model. A model is refused exactly when no such order exists.", "quantifier": "all graphs, of any size and in any order of nodes, all layer functions and all inputs", "why_tests_cant": "Tests use graphs that are already in order. That the queue is exhausted, that the counters never go below zero and that a refusal means a real cycle are statements about all graphs.", "anchors": ["rust/jstprove_onnx/src/graph.rs:276-278", "rust/jstprove_onnx/src/graph.rs:311-356"]}
{"id": "C79", "title": "The scale and field chosen hold the values of the model", "statement": "For every accumulation bound and request, the fixed-point scale chosen is the largest power of two (or, for requested decimal digits, the smallest that separates them) for which the product of two scaled values within the bound fits the signed width of the chosen field; a request that cannot be met is refused, and the field, width and scale recorded agree.", "quantifier": "all bounds (including infinity and NaN), widths and numbers of digits", "why_tests_cant": "Tests try a few bounds and widths in the comfortable range. The failures are at the end of the range, where saturating subtraction turns an overflow into scale one.", "anchors": ["rust/jstprove_onnx/src/quantizer.rs:9-127", "rust/jstprove_circuits/src/expander_metadata.rs:92-257"]}
{"id": "C80", "title": "Range, Shape, ConstantOfShape, Constant and Cast mean what ONNX says", "statement": "For all constants, shapes and data types: Range yields start, start+delta, … up to limit, with the length recorded for it; Shape yields the selected dimensions of its input; ConstantOfShape yields a tensor of the requested shape holding the given value; Constant yields its payload; Cast converts each entry to the requested type or is refused.", "quantifier": "all 64-bit constants, all shapes and attributes, all data types, all witnesses (for Cast to BOOL)", "why_tests_cant": "The unit tests of Range re-implement the loop with small numbers; saturation, negative dimensions, fractions and the fixed-point scale are never tried together.", "anchors": ["rust/jstprove_circuits/src/circuit_functions/layers/range.rs:25-136", "rust/jstprove_circuits/src/circuit_functions/layers/shape.rs:41-178", "rust/jstprove_circuits/src/circuit_functions/layers/constant_of_shape.rs:23-104", "rust/jstprove_circuits/src/circuit_functions/layers/constant.rs:20-72", "rust/jstprove_circuits/src/circuit_functions/layers/cast.rs:16-131", "rust/jstprove_onnx/src/shape_inference.rs:787-819", "rust/jstprove_onnx/src/shape_inference.rs:2247-2273"]}
{"id": "C81", "title": "The circuit which is proved is the circuit which was compiled", "statement": "For every valid compiled circuit, the flat circuit which prover and verifier each derive from it computes the same outputs from the same inputs and public inputs, meets the demands of the proof system, and prover and verifier derive the same circuit from the same coins.", "quantifier": "all valid nested circuits of any size and depth, all inputs and public inputs, all lanes, all coins, every iteration order of the hash maps", "why_tests_cant": "The order of a hash map differs between processes; tests flatten once and use the result for both sides, and tests of nested circuits have few levels.", "anchors": ["compiler/expander_compiler/src/circuit/layered/export.rs:5-79", "compiler/expander_compiler/src/circuit/layered/mod.rs:115-128", "prover/circuit/src/ecc_circuit.rs:9-138", "prover/circuit/src/layered/circuit.rs:34-122", "prover/circuit/src/layered/circuit.rs:341-420"]}
{"id": "C82", "title": "A proof is accepted just when the constraints hold", "statement": "For every circuit description with enough room in the field, the layers the compiler makes from it, exported, flattened, filled with coins and proved: if the inputs of every lane meet all constraints the honest proof is accepted, the constraint wire is zero and the output wires carry the outputs; if the inputs of some lane break a constraint, whatever a prover sends is accepted with only small probability over the coins of the circuit and of the proof.", "quantifier": "all valid circuit descriptions of any size, all inputs and public inputs in all lanes, all coins, all orders of the hash maps on both sides, all adaptive provers", "why_tests_cant": "Each step is tested by itself on a few circuits; that no step loses a constraint which a later step needs, for all circuits and against all provers, is a statement about the composition of compiler, exporter, prover and verifier.", "anchors": ["compiler/expander_compiler/src/compile/mod.rs:175-299", "compiler/expander_compiler/src/circuit/layered/export.rs:5-79", "prover/circuit/src/ecc_circuit.rs:73-138", "prover/circuit/src/layered/circuit.rs:34-122", "prover/circuit/src/layered/circuit.rs:341-420"]}
{"id": "C83", "title": "Sharing parts of layers does not change the circuit", "statement": "The last optimizations of the compiler, which put small segments into the segments which use them and move gates common to several segments into a segment of their own, keep the circuit valid, keep the size of every layer, and keep what every layer computes: the same gates with random coefficients and public inputs, and constant gates which add up to the same on every wire.", "quantifier": "all valid layered circuits with any nesting, all rounds of the loop, all samples of gates, all orders of the hash maps, all inputs and public inputs", "why_tests_cant": "Which gates are compared depends on a random sample and on thresholds; the passes are tested with small random circuits, in which ten common gates hardly occur, and gates with equal coefficients are compared as a set.", "anchors": ["compiler/expander_compiler/src/circuit/layered/opt.rs:205-384", "compiler/expander_compiler/src/circuit/layered/opt.rs:392-498", "compiler/expander_compiler/src/circuit/layered/opt.rs:500-586", "compiler/expander_compiler/src/circuit/layered/opt.rs:588-705", "compiler/expander_compiler/src/compile/mod.rs:271-299"]}
{"id": "C84", "title": "From constraints to the verifier's decision at the default optimization level", "statement": "For a circuit compiled with the default options, including the last optimizations which share parts of layers, inputs which satisfy the constraints give a proof the verifier accepts, whatever coins are drawn; if the inputs violate a constraint, a verifier for the value zero accepts only for a bounded fraction of the coins and challenges, whatever the prover sends.", "quantifier": "all circuits without calls, all numbers of optimizer rounds, all samples and hash map orders, all inputs, public inputs, coins, transcripts and provers", "why_tests_cant": "The coins are given out in the order of the flattened gates, which depends on how segments were shared; a wrong correspondence would only show as a loss of soundness, which no test of honest proofs sees.", "anchors": ["compiler/expander_compiler/src/compile/mod.rs:175-299", "compiler/expander_compiler/src/circuit/layered/opt.rs:392-705", "compiler/expander_compiler/src/circuit/layered/mod.rs:948-956", "compiler/expander_compiler/src/layering/ir_split.rs:239-302", "prover/circuit/src/ecc_circuit.rs:35-135", "prover/circuit/src/layered/circuit.rs:341-420"]}
{"id": "C85", "title": "Union-find keeps exactly the joined sets", "statement": "After any sequence of calls, two elements have the same representative exactly if a chain of joined pairs connects them; the representative is one of the elements of the set; every call returns and no index is out of range. The loop which groups circuit segments by common gates ends with the groups its users read.", "quantifier": "all sizes, all sequences of find and union, all circuits and lists of edges", "why_tests_cant": "Look-ups change the structure while they read it (path halving), so the answer depends on the whole history of calls; tests see a few histories only.", "anchors": ["compiler/expander_compiler/src/utils/union_find.rs:1-24", "compiler/expander_compiler/src/circuit/layered/opt.rs:620-662"]}
{"id": "C86", "title": "Erf layers prove the error function", "statement": "In an accepted proof of a model with an Erf node, every output element is the error function of the input element within the tolerance of the layer; the honest prover succeeds on every input whose result is representable.", "quantifier": "all shapes, inputs, widths, scales below 2^32, hint values and adversarial witnesses", "why_tests_cant": "Tests run the honest prover, whose output is right by construction; whether a wrong output could be proved is a statement about all witnesses.", "anchors": ["rust/jstprove_circuits/src/circuit_functions/layers/erf.rs:36-261", "rust/jstprove_circuits/src/circuit_functions/hints/erf.rs:26-110"]}
{"id": "C87", "title": "GridSample layers sample the image at the grid points", "statement": "In an accepted proof of a model with a GridSample node, every output element is the value ONNX assigns to the sampled point, for the node's interpolation mode, padding mode and corner alignment: interpolated results up to the rounding of the fixed-point weights and of the result, nearest results exactly. The honest prover succeeds; unsupported modes are refused.", "quantifier": "all image and grid sizes, pixels, grids, padding modes, scale exponents, widths, hint values and adversarial witnesses", "why_tests_cant": "Tests compare the honest output on a few grids; which outputs an adversary can prove, and points at every position relative to the edge of the image, are beyond them.", "anchors": ["rust/jstprove_circuits/src/circuit_functions/layers/gridsample.rs:102-717", "rust/jstprove_circuits/src/circuit_functions/hints/gridsample.rs:60-153"]}
{"id": "C88", "title": "TopK layers select along every lane of a tensor", "statement": "In an accepted proof of a model with a TopK node, along every lane of the chosen axis the value output holds the k largest entries in descending order and the index output holds their distinct positions, in tensors of the input's shape with k on that axis; the honest prover succeeds; a k that is no positive scalar or exceeds the axis, an axis out of range and smallest-first selection are refused.", "quantifier": "all ranks, shapes, axes, k, entries within the declared width, hint values and adversarial witnesses", "why_tests_cant": "Tests run the honest prover on small tensors; strides for every rank and axis, and what other witnesses are accepted, are statements about all shapes and all witnesses.", "anchors": ["rust/jstprove_circuits/src/circuit_functions/layers/topk.rs:79-560", "rust/jstprove_circuits/src/circuit_functions/hints/topk.rs:62-103"]}
{"id": "C89", "title": "The automatically chosen lookup digit width is usable, cheapest and sound", "statement": "Compiling a BN254 model for which no lookup digit width is named picks, whatever the cache directory holds, a width with which every range check can be built and met by the honest prover; it picks the first of least compile cost, the same on every run; and range checks, rescaling and ReLU built with it accept only correct values.", "quantifier": "all cache contents, failed writes, compile costs, hash functions, models, table ids and in-range values", "why_tests_cant": "Tests run selection with one cache and compare a few keys; corrupted caches, every cost function and every pair of models that share a key, and what dishonest witnesses the resulting circuit accepts, are statements about all of them.", "anchors": ["rust/jstprove_circuits/src/circuit_functions/gadgets/autotuner.rs:25-210", "rust/jstprove_circuits/src/circuit_functions/gadgets/chunk_table.rs:21-59", "rust/jstprove_circuits/src/onnx.rs:850-899"]}
{"id": "C90", "title": "The product argument proves products", "statement": "An honest proof of the product of 2^k field elements is accepted and leaves the verifier with a true evaluation claim about their multilinear extension. If the verifier accepts another root and the evaluation claim it returns is true, then one of its k(k-1)/2 + k challenges fell into a set, fixed by what was absorbed before it was drawn, of at most three values (rounds) or one value (merges).", "quantifier": "all k, leaves, roots, proofs, transcripts, and fields in which 6 is not zero", "why_tests_cant": "Tests check honest proofs of a few sizes and single corrupted messages; acceptance of every honest proof and the cause of acceptance of every false one concern all leaves, all proofs and all challenges.", "anchors": ["prover/poly_commit/src/whir/sparse/product_argument.rs:116-436", "prover/poly_commit/src/whir/sparse/types.rs:471-482"]}
{"id": "C91", "title": "The memory check catches wrong reads", "statement": "With timestamps computed from the addresses, reads of the true values pass the four-hash comparison for all hash parameters. If a read claims another value, then unless the first parameter makes a read triple collide with a different initial or write triple (at most two values for each pair), the comparison passes for at most m + n values of the second. Timestamps count the earlier reads of the cell.", "quantifier": "all memory sizes m, numbers of reads n, addresses, values, final counters, parameters and fields that tell timestamps and addresses apart", "why_tests_cant": "Tests tamper with one entry under fixed parameters; that every wrong read is caught for all but a counted set of parameters concerns all sequences of reads and all field elements.", "anchors": ["prover/poly_commit/src/whir/sparse/memcheck.rs:59-75", "prover/poly_commit/src/whir/sparse/memcheck.rs:95-113", "prover/poly_commit/src/whir/sparse/memcheck.rs:139-208"]}
