{
 "claims": [
  {
   "property": "C01",
   "status": "partial",
   "theorems": [
    "JST.Props.C01_range_check_sound_partial",
    "JST.Props.C01_range_check_unsound",
    "JST.Props.C01_range_check_exact"
   ],
   "note": "Sound when the chunk width divides n; false otherwise (general forgery theorem; exact accepted set proved)."
  },
  {
   "property": "C02",
   "status": "proved",
   "theorems": [
    "JST.Props.C02_range_check_complete",
    "JST.Props.C02_range_check_128_panics"
   ],
   "note": "Every width in 1..128; n=128 with a chunk width not dividing 128 panics, proved separately."
  },
  {
   "property": "C03",
   "status": "proved",
   "theorems": [
    "JST.Props.C03_bit_range_check_exact"
   ],
   "note": ""
  },
  {
   "property": "C04",
   "status": "partial",
   "theorems": [
    "JST.Props.C04_division_sound_partial",
    "JST.Props.C04_division_complete",
    "JST.Props.C04_division_by_zero_rejected",
    "JST.Props.C04_division_unsound"
   ],
   "note": "Sound when chunk widths divide; false otherwise (off-by-one quotient forgeable)."
  },
  {
   "property": "C05",
   "status": "partial",
   "theorems": [
    "JST.Props.C05_rescale_sound_partial",
    "JST.Props.C05_rescale_complete",
    "JST.Props.C05_rescale_unsound",
    "JST.Props.C05_wide_rescale_unsound",
    "JST.Props.C05_layer_post_sound_partial",
    "JST.Props.C05_layer_post_complete"
   ],
   "note": "Sound when chunk widths divide and scale and width together fit the field; false otherwise."
  },
  {
   "property": "C06",
   "status": "partial",
   "theorems": [
    "JST.Props.C06_relu_sound_partial",
    "JST.Props.C06_max_sound_partial",
    "JST.Props.C06_min_sound_partial",
    "JST.Props.C06_clip_sound_partial",
    "JST.Props.C06_complete",
    "JST.Props.C06_clip_complete",
    "JST.Props.C06_unsound",
    "JST.Props.C06_empty_rejected"
   ],
   "note": "Sound when the chunk width divides s+1; false otherwise (ReLU of a positive value can be proved 0)."
  },
  {
   "property": "C07",
   "status": "proved",
   "theorems": [
    "JST.Props.C07_range_table_sound",
    "JST.Props.C07_single_key_table_sound",
    "JST.Props.C07_closed_circuit_sound"
   ],
   "note": "Counting statements over all challenges, for all hints."
  },
  {
   "property": "C08",
   "status": "partial",
   "theorems": [
    "JST.Props.C08_range_table_complete",
    "JST.Props.C08_single_key_table_complete_partial",
    "JST.Props.C08_closed_circuit_complete",
    "JST.Props.C08_goldilocks_signed_incomplete"
   ],
   "note": "Range table complete. Keyed table complete when keys have distinct low 32 bits; false for signed tables over Goldilocks (key -1 collides with 0), proved."
  },
  {
   "property": "C09",
   "status": "proved",
   "theorems": [
    "JST.Props.C09_sum_tree"
   ],
   "note": ""
  },
  {
   "property": "C10",
   "status": "proved",
   "theorems": [
    "JST.Props.C10_signed_lookup_sound",
    "JST.Props.C10_unsigned_lookup_sound",
    "JST.Props.C10_signed_lookup_functional"
   ],
   "note": ""
  },
  {
   "property": "C11",
   "status": "proved",
   "theorems": [
    "JST.Props.C11_freivalds_complete",
    "JST.Props.C11_freivalds_zero_reps",
    "JST.Props.C11_freivalds_sound"
   ],
   "note": "Counting statement over all challenge vectors."
  },
  {
   "property": "C12",
   "status": "partial",
   "theorems": [
    "JST.Props.C12_matrix_multiplication",
    "JST.Props.C12_matrix_multiplication_rejects",
    "JST.Props.C12_gemm_core_sound",
    "JST.Props.C12_matmul_core_sound",
    "JST.Props.C12_gemm_core_complete",
    "JST.Props.C12_matmul_core_complete_partial",
    "JST.Props.C12_matmul_core_panics",
    "JST.Props.C12_elementwise"
   ],
   "note": "MatMul with a zero inner dimension panics when Freivalds is selected (proved). Batching over leading dimensions is C63."
  },
  {
   "property": "C13",
   "status": "partial",
   "theorems": [
    "JST.Props.C13_topk_sound_partial",
    "JST.Props.C13_top1_sound",
    "JST.Props.C13_topk_accepts_weak",
    "JST.Props.C13_topk_unsound",
    "JST.Props.C13_topk_complete"
   ],
   "note": "Order and distinctness are not enforced for k >= 2: the exact accepted set is characterised and duplicates are shown accepted."
  },
  {
   "property": "C14",
   "status": "partial",
   "theorems": [
    "JST.Props.C14_gates_sound_partial",
    "JST.Props.C14_gates_complete",
    "JST.Props.C14_source_gate",
    "JST.Props.C14_compiled_gate_unsound"
   ],
   "note": "Proved for the constraints emitted by the lowering. False of the compiled circuit: marking the result of a gate as Boolean overwrites an assertion on the same expression, proved for x && 1 over every field of odd characteristic. C44_sound_partial gives the compiled statement when no assertion is overwritten."
  },
  {
   "property": "C15",
   "status": "partial",
   "theorems": [
    "JST.Props.C15_gt_sound_partial",
    "JST.Props.C15_gt_complete",
    "JST.Props.C15_gt_unsound",
    "JST.Props.C15_geq",
    "JST.Props.C15_gt_bn254_unsound",
    "JST.Props.C15_gt_goldilocks_unsound",
    "JST.Props.C15_gt_m31",
    "JST.Props.C15_gt_constant_source",
    "JST.Props.C15_gt_constant_unsound"
   ],
   "note": "False for operands with a second n-bit representative, which on BN254 includes every value below 2^250; false of the compiled circuit for every comparison with a constant (either answer can be proved for every input once the constant has a zero and a one above its last digit)."
  },
  {
   "property": "C16",
   "status": "proved",
   "theorems": [
    "JST.Props.C16_div_checked",
    "JST.Props.C16_div_unchecked",
    "JST.Props.C16_div_unchecked_zero_free",
    "JST.Props.C16_is_zero",
    "JST.Props.C16_assert_non_zero",
    "JST.Props.C16_to_binary"
   ],
   "note": ""
  },
  {
   "property": "C17",
   "status": "proved",
   "theorems": [
    "JST.Props.C17_from_terms",
    "JST.Props.C17_scale",
    "JST.Props.C17_strip",
    "JST.Props.C17_lin_comb",
    "JST.Props.C17_mul",
    "JST.Props.C17_substitute",
    "JST.Props.C17_extends"
   ],
   "note": "Constant, linear and quadratic terms; the Custom and RandomLinear terms of the second builder pass are not modelled."
  },
  {
   "property": "C18",
   "status": "proved",
   "theorems": [
    "JST.Props.C18_api",
    "JST.Props.C18_unconstrained",
    "JST.Props.C18_unconstrained_total",
    "JST.Props.C18_division_by_zero",
    "JST.Props.C18_pow",
    "JST.Props.C18_to_binary",
    "JST.Props.C18_unchecked_div_refused"
   ],
   "note": "Every folded value is the run-time value. Where the compiler refuses to fold (division by the constant zero) run time would have given zero: both cases are proved."
  },
  {
   "property": "C19",
   "status": "partial",
   "theorems": [
    "JST.Props.C19_evaluate",
    "JST.Props.C19_completeness",
    "JST.Props.C19_no_input_variable_rejected"
   ],
   "note": "every circuit, input, transcript and scratch content, for layers with at least one input variable and without unary gates; a layer with a single input wire is proved to be rejected. One process, raw commitment."
  },
  {
   "property": "C20",
   "status": "proved",
   "theorems": [
    "JST.Props.C20_sumcheck_degree_two",
    "JST.Props.C20_sumcheck_degree_three",
    "JST.Props.C20_protocol"
   ],
   "note": "counting over all challenge vectors, for every adversary, number of variables and polynomial; also for the whole protocol with the raw commitment. Interactive: the hash is not modelled as a random oracle."
  },
  {
   "property": "C21",
   "status": "partial",
   "theorems": [
    "JST.Props.C21_unsatisfied_accepted",
    "JST.Props.C21_zero_claim_sound_partial"
   ],
   "note": "false of the code: the claimed output value is read from the proof file and compared with nothing, so unsatisfying inputs are accepted; proved for callers that fix the claimed value to zero"
  },
  {
   "property": "C22",
   "status": "partial",
   "theorems": [
    "JST.Props.C22_build_eq_table",
    "JST.Props.C22_eq_eval_at",
    "JST.Props.C22_eq_lists",
    "JST.Props.C22_ith_eq",
    "JST.Props.C22_eq_vec",
    "JST.Props.C22_eq_vec_at_vertex",
    "JST.Props.C22_weights_sum",
    "JST.Props.C22_evaluate",
    "JST.Props.C22_evaluate_at_vertex",
    "JST.Props.C22_fold_low",
    "JST.Props.C22_fix_variables",
    "JST.Props.C22_eval_reverse",
    "JST.Props.C22_interpolate",
    "JST.Props.C22_fix_bottom_wrong",
    "JST.Props.C22_fix_bottom_partial"
   ],
   "note": "proved for every routine but fix_bottom_variable, which is proved wrong beyond one variable"
  },
  {
   "property": "C23",
   "status": "partial",
   "theorems": [
    "JST.Props.C23_binding",
    "JST.Props.C23_proof_bytes",
    "JST.Props.C23_verifier_messages",
    "JST.Props.C23_commitment_resets",
    "JST.Props.C23_public_inputs_not_bound",
    "JST.Props.C23_public_input_forgery"
   ],
   "note": "Commitment, claimed value and all messages are bound by the digest (unless two of the strings actually hashed collide); equal challenges for prover and verifier are the equal final states of C19_completeness. Public inputs and the circuit are not absorbed: C23_public_inputs_not_bound and C23_public_input_forgery prove the negation for them."
  },
  {
   "property": "C24",
   "status": "proved",
   "theorems": [
    "JST.Props.C24_root",
    "JST.Props.C24_opening",
    "JST.Props.C24_range_opening",
    "JST.Props.C24_not_a_power_panics",
    "JST.Props.C24_single_leaf_panics"
   ],
   "note": "Completeness of single and range openings for every tree of 2^k leaves, k >= 1; the excluded sizes panic, proved separately. Keccak is an arbitrary hash parameter."
  },
  {
   "property": "C25",
   "status": "proved",
   "theorems": [
    "JST.Props.C25_binding",
    "JST.Props.C25_opens_committed_leaf",
    "JST.Props.C25_range_binding",
    "JST.Props.C25_index_only_mod_length",
    "JST.Props.C25_no_domain_separation"
   ],
   "note": "Binding with an explicit collision; two further theorems show what a caller must check itself (path length, index range)."
  },
  {
   "property": "C26",
   "status": "proved",
   "theorems": [
    "JST.Props.C26_serde_round_trip",
    "JST.Props.C26_serde_prefix_free",
    "JST.Props.C26_serde_canonical",
    "JST.Props.C26_serde_noncanonical",
    "JST.Props.C26_length_panics"
   ],
   "note": "Round trip with arbitrary trailing bytes, rejection of every proper prefix, and canonicity of the encodings that have no booleans, maps or vectors of them, for a universe of types covering every derived encoding (curve points are not modelled). Two extra facts about the code: booleans have several accepted encodings and an over-large length prefix panics instead of returning an error."
  },
  {
   "property": "C27",
   "status": "partial",
   "theorems": [
    "JST.Props.C27_m31_arith_partial",
    "JST.Props.C27_m31_reachable",
    "JST.Props.C27_m31_conversions",
    "JST.Props.C27_uniform_bytes_escape",
    "JST.Props.C27_unsafe_double_zero"
   ],
   "note": "All arithmetic proved for every representation up to the modulus, which covers every value obtainable except from the single challenge byte string ff ff ff ff, for which the property is false (C27_uniform_bytes_escape). Scalar M31 only; SIMD variants not modelled."
  },
  {
   "property": "C28",
   "status": "partial",
   "theorems": [
    "JST.Props.C28_goldilocks_arith",
    "JST.Props.C28_reduce128",
    "JST.Props.C28_from_u256",
    "JST.Props.C28_goldilocks_inverse_partial",
    "JST.Props.C28_root_of_unity"
   ],
   "note": "Inversion: result correctness for every 64-bit input, and termination of the unbounded-counter algorithm; absence of i128 overflow in the counters c, d is not proved. The x86 assembly of add_no_canonicalize is modelled by the portable version it must equal."
  },
  {
   "property": "C29",
   "status": "proved",
   "theorems": [
    "JST.Props.C29_m31_decoding",
    "JST.Props.C29_goldilocks_decoding"
   ],
   "note": "M31 and Goldilocks; the BN254 scalar encoding belongs to an external crate and is covered as Ty.field in C26."
  },
  {
   "property": "C30",
   "status": "partial",
   "theorems": [
    "JST.Props.C30_bytes_round_trip",
    "JST.Props.C30_file_round_trip",
    "JST.Props.C30_truncated_rejected",
    "JST.Props.C30_file_truncated_rejected",
    "JST.Props.C30_checksum_mismatch_rejected",
    "JST.Props.C30_corruption_rejected",
    "JST.Props.C30_file_corruption_rejected_partial",
    "JST.Props.C30_file_checksum_covers_pulled_only",
    "JST.Props.C30_unknown_flags_accepted",
    "JST.Props.C30_wrong_magic_accepted",
    "JST.Props.C30_wrong_magic_garbage_rejected"
   ],
   "note": "Round trip, truncation and checksum rejection proved (CRC-32C is modelled concretely and every error confined to four consecutive bytes is detected). Two clauses are false of the code and their negations are proved: unknown flag bits are ignored, and a wrong magic number makes the data be decoded as a bare value. MessagePack and zstd are parameters with round-trip laws."
  },
  {
   "property": "C31",
   "status": "partial",
   "theorems": [
    "JST.Props.C31_read_written_partial",
    "JST.Props.C31_write_succeeds",
    "JST.Props.C31_magic_blob_misread"
   ],
   "note": "False for a plain blob beginning with the zstd magic number (negation proved); proved for all compressed bundles and all other plain ones."
  },
  {
   "property": "C32",
   "status": "partial",
   "theorems": [
    "JST.Props.C32_failed_write_restores_partial",
    "JST.Props.C32_existing_untouched",
    "JST.Props.C32_partial_file_left",
    "JST.Props.C32_partial_manifest_left",
    "JST.Props.C32_failed_write_unreadable"
   ],
   "note": "False when a write fails after creating its file: that file and the directory stay and block every retry (negation proved). Proved whenever the failing call created no file. Process kills are not modelled: no cleanup runs then."
  },
  {
   "property": "C33",
   "status": "proved",
   "theorems": [
    "JST.Props.C33_id_round_trip",
    "JST.Props.C33_id_injective",
    "JST.Props.C33_id_exact",
    "JST.Props.C33_id_pinned",
    "JST.Props.C33_name_round_trip",
    "JST.Props.C33_name_injective",
    "JST.Props.C33_name_exact",
    "JST.Props.C33_stamp",
    "JST.Props.C33_detect_field",
    "JST.Props.C33_detect_field_exact"
   ],
   "note": "Over all integers and all strings; also the detection of the field of a circuit file."
  },
  {
   "property": "C34",
   "status": "proved",
   "theorems": [
    "JST.Props.C34_round_trip",
    "JST.Props.C34_decode",
    "JST.Props.C34_scaling_agrees",
    "JST.Props.C34_decode_panics"
   ],
   "note": "for every odd modulus; values above the modulus make the decoder panic (only reachable in extraction without verification)"
  },
  {
   "property": "C35",
   "status": "proved",
   "theorems": [
    "JST.Props.C35_compare",
    "JST.Props.C35_tolerance_panics"
   ],
   "note": "accepts exactly when every pair is within the tolerance modulo p, for all tolerances up to the modulus; a larger tolerance panics (the code only uses 1)"
  },
  {
   "property": "C36",
   "status": "proved",
   "theorems": [
    "JST.Props.C36_parsers_agree",
    "JST.Props.C36_verified_output",
    "JST.Props.C36_zero_witnesses_panics"
   ],
   "note": "every accepted file shows the public inputs of lane zero of what the proof is checked against; files announcing no witness panic. Floating point and the proof verifier are parameters"
  },
  {
   "property": "C37",
   "status": "partial",
   "theorems": [
    "JST.Props.C37_shape_partial",
    "JST.Props.C37_empty_dimension",
    "JST.Props.C37_elements",
    "JST.Props.C37_succeeds_partial",
    "JST.Props.C37_empty_rejected",
    "JST.Props.C37_channel_vector",
    "JST.Props.C37_channel_vector_panics",
    "JST.Props.C37_where_runtime",
    "JST.Props.C37_where_precomputed"
   ],
   "note": "holds for shapes without an empty dimension; a dimension of one against an empty one is refused or mis-shaped, proved as a negation"
  },
  {
   "property": "C38",
   "status": "proved",
   "theorems": [
    "JST.Props.C38_ravel_unravel",
    "JST.Props.C38_unravel_ravel",
    "JST.Props.C38_injective"
   ],
   "note": ""
  },
  {
   "property": "C39",
   "status": "partial",
   "theorems": [
    "JST.Props.C39_reshape_sound",
    "JST.Props.C39_reshape_complete_partial",
    "JST.Props.C39_zero_entry",
    "JST.Props.C39_overflow_panics",
    "JST.Props.C39_flatten",
    "JST.Props.C39_normalize_axes"
   ],
   "note": "sound for every target; zero entries are always refused, and targets whose product overflows a machine word panic"
  },
  {
   "property": "C40",
   "status": "partial",
   "theorems": [
    "JST.Props.C40_round_trip",
    "JST.Props.C40_encode_injective",
    "JST.Props.C40_digest_binding",
    "JST.Props.C40_trailing_ignored",
    "JST.Props.C40_zero_alpha_panics",
    "JST.Props.C40_from_quantized",
    "JST.Props.C40_layer_content",
    "JST.Props.C40_quantized_collision"
   ],
   "note": "Proved for the canonical model: round trip, truncation, injectivity, and binding of the guest digest up to hash collisions. False for quantised models: wiring and attribute names are dropped, so different networks share one canonical model (proved), and bytes after the model are ignored."
  },
  {
   "property": "C41",
   "status": "partial",
   "theorems": [
    "JST.Props.C41_bounds_sound_partial",
    "JST.Props.C41_width_tight",
    "JST.Props.C41_one_times_one_unprovable",
    "JST.Props.C41_max_unsound",
    "JST.Props.C41_min_unsound",
    "JST.Props.C41_clip_unsound",
    "JST.Props.C41_constant_unsound",
    "JST.Props.C41_range_unsound",
    "JST.Props.C41_div_unsound",
    "JST.Props.C41_constant_model_unsound",
    "JST.Props.C41_rounding_unsound",
    "JST.Props.C41_max_bound_unsound",
    "JST.Props.C41_deep_model_unsound",
    "JST.Props.C41_safe_exponent",
    "JST.Props.C41_guest_layer_partial",
    "JST.Props.C41_guest_boundary",
    "JST.Props.C41_guest_two_layers_unsound",
    "JST.Props.C41_guest_gemm_unsound"
   ],
   "note": "Soundness of the propagated bounds over real arithmetic for whole models, under explicit guards. Each guard is shown necessary, and the boundary, the rounding of weights and the zkVM guest version are refuted."
  },
  {
   "property": "C42",
   "status": "proved",
   "theorems": [
    "JST.Props.C42_pack",
    "JST.Props.C42_pack_panics",
    "JST.Props.C42_iter_scalar",
    "JST.Props.C42_iter_simd",
    "JST.Props.C42_serialize"
   ],
   "note": "for any number of witnesses and lanes; empty witness sets and witnesses without values panic"
  },
  {
   "property": "C43",
   "status": "partial",
   "theorems": [
    "JST.Props.C43_exp_sound_partial",
    "JST.Props.C43_exp_unsound",
    "JST.Props.C43_exp_many_outputs",
    "JST.Props.C43_exp_complete"
   ],
   "note": "Completeness and domain membership proved; the output is not pinned (2^scaleBits different outputs can be proved for every input)."
  },
  {
   "property": "C44",
   "status": "partial",
   "theorems": [
    "JST.Props.C44_no_panic",
    "JST.Props.C44_complete",
    "JST.Props.C44_sound_without_bool",
    "JST.Props.C44_sound_partial"
   ],
   "note": "Soundness holds for programs without Boolean gates, and for others when no assertion is overwritten by a mark; it is false otherwise (C14_compiled_gate_unsound)."
  },
  {
   "property": "C45",
   "status": "proved",
   "theorems": [
    "JST.Props.C45_transpose",
    "JST.Props.C45_transpose_rejects"
   ],
   "note": ""
  },
  {
   "property": "C46",
   "status": "proved",
   "theorems": [
    "JST.Props.C46_slice",
    "JST.Props.C46_slice_accepts",
    "JST.Props.C46_slice_no_panic"
   ],
   "note": "Steps that are not positive are refused."
  },
  {
   "property": "C47",
   "status": "proved",
   "theorems": [
    "JST.Props.C47_split",
    "JST.Props.C47_split_rejects",
    "JST.Props.C47_concat",
    "JST.Props.C47_concat_rejects",
    "JST.Props.C47_concat_split",
    "JST.Props.C47_split_concat"
   ],
   "note": ""
  },
  {
   "property": "C48",
   "status": "partial",
   "theorems": [
    "JST.Props.C48_tile_partial",
    "JST.Props.C48_tile_rejects",
    "JST.Props.C48_expand",
    "JST.Props.C48_expand_rejects"
   ],
   "note": "Expand is complete. Tile refuses empty dimensions, more repeats than axes and repeats of zero, which ONNX allows."
  },
  {
   "property": "C49",
   "status": "partial",
   "theorems": [
    "JST.Props.C49_pad_partial",
    "JST.Props.C49_pad_rejects",
    "JST.Props.C49_unresolved_fill_ignored"
   ],
   "note": "False for a fill value that is not among the initialisers: it is ignored and zeros are used (negation proved)."
  },
  {
   "property": "C50",
   "status": "partial",
   "theorems": [
    "JST.Props.C50_gather",
    "JST.Props.C50_gather_rejects",
    "JST.Props.C50_gather_no_panic",
    "JST.Props.C50_gather_elements_partial",
    "JST.Props.C50_gather_elements_rejects",
    "JST.Props.C50_gather_elements_wrong_row"
   ],
   "note": "Gather holds. GatherElements does not compare the other dimensions of the index tensor with the data: a wider index tensor reads the next row (negation proved)."
  },
  {
   "property": "C51",
   "status": "partial",
   "theorems": [
    "JST.Props.C51_scatter_nd_partial",
    "JST.Props.C51_out_of_range_writes_elsewhere",
    "JST.Props.C51_missing_updates_ignored",
    "JST.Props.C51_no_panic"
   ],
   "note": "Holds for in-range indices and matching updates, for every iteration order. False otherwise: indices out of range write another element, missing updates are ignored (negations proved)."
  },
  {
   "property": "C52",
   "status": "proved",
   "theorems": [
    "JST.Props.C52_squeeze",
    "JST.Props.C52_squeeze_rejects",
    "JST.Props.C52_squeeze_all",
    "JST.Props.C52_unsqueeze",
    "JST.Props.C52_unsqueeze_rejects",
    "JST.Props.C52_squeeze_unsqueeze",
    "JST.Props.C52_unsqueeze_squeeze"
   ],
   "note": "The axes are taken as already read from the node."
  },
  {
   "property": "C53",
   "status": "partial",
   "theorems": [
    "JST.Props.C53_conv_value_partial",
    "JST.Props.C53_conv_defaults",
    "JST.Props.C53_conv_refuses",
    "JST.Props.C53_conv_bias_mismatch",
    "JST.Props.C53_conv_too_few_channels",
    "JST.Props.C53_conv_overpadded_refused",
    "JST.Props.C53_conv_crops_kernel",
    "JST.Props.C53_conv_layer_sound_partial",
    "JST.Props.C53_conv_layer_complete"
   ],
   "note": "Holds when padding does not exceed the kernel and the digit width divides the checked widths. Padding larger than the kernel is refused although ONNX defines it; a kernel attribute smaller than the weights silently crops them (both proved)."
  },
  {
   "property": "C54",
   "status": "partial",
   "theorems": [
    "JST.Props.C54_maxpool_sound_partial",
    "JST.Props.C54_maxpool_complete",
    "JST.Props.C54_maxpool_defaults",
    "JST.Props.C54_maxpool_ceil_mode_ignored",
    "JST.Props.C54_maxpool_refuses",
    "JST.Props.C54_avgpool_sound_partial",
    "JST.Props.C54_avgpool_complete",
    "JST.Props.C54_avgpool_negative_unprovable",
    "JST.Props.C54_avgpool_defaults",
    "JST.Props.C54_avgpool_refuses",
    "JST.Props.C54_global_sound_partial",
    "JST.Props.C54_global_complete",
    "JST.Props.C54_global_negative_unprovable",
    "JST.Props.C54_global_refuses",
    "JST.Props.C54_average_unsound"
   ],
   "note": "Sound when the digit width divides the checked widths. False otherwise: wrong means can be proved (e.g. 3x3 windows). MaxPool ignores ceil_mode; negative data cannot be averaged (all proved)."
  },
  {
   "property": "C55",
   "status": "partial",
   "theorems": [
    "JST.Props.C55_reduce_sum",
    "JST.Props.C55_reduce_max_sound_partial",
    "JST.Props.C55_reduce_max_complete",
    "JST.Props.C55_reduce_mean_sound_partial",
    "JST.Props.C55_reduce_mean_complete",
    "JST.Props.C55_reduce_mean_negative",
    "JST.Props.C55_reduce_mean_unsound",
    "JST.Props.C55_reduce_mean_empty_axes",
    "JST.Props.C55_reduce_refuses",
    "JST.Props.C55_reduce_empty_lane"
   ],
   "note": "ReduceSum holds for all inputs. ReduceMax holds when the digit width divides the number of bits. ReduceMean: sound for lanes of two or more entries when the digit width divides the remainder width; otherwise every mean can be forged; the honest prover fails for lanes with a negative mean; explicitly empty axes reduce nothing (all proved)."
  },
  {
   "property": "C56",
   "status": "partial",
   "theorems": [
    "JST.Props.C56_add_sub_sound",
    "JST.Props.C56_add_sub_complete_partial",
    "JST.Props.C56_neg",
    "JST.Props.C56_mul_sound_partial",
    "JST.Props.C56_mul_complete_partial",
    "JST.Props.C56_relu_sound_partial",
    "JST.Props.C56_relu_complete",
    "JST.Props.C56_leaky_relu_sound_partial",
    "JST.Props.C56_leaky_relu_complete",
    "JST.Props.C56_max_min_sound_partial",
    "JST.Props.C56_max_min_complete_partial",
    "JST.Props.C56_div_sound_partial",
    "JST.Props.C56_div_complete",
    "JST.Props.C56_clip_sound_partial",
    "JST.Props.C56_clip_complete_partial",
    "JST.Props.C56_refuses",
    "JST.Props.C56_div_refuses",
    "JST.Props.C56_clip_refuses",
    "JST.Props.C56_relu_unsound",
    "JST.Props.C56_max_unsound"
   ],
   "note": "Add, Sub and Neg are exact. The others are sound when the digit width divides the checked widths; otherwise Relu can be proved zero and Max the smaller operand (negations proved). Empty dimensions are refused by broadcasting, which ONNX allows."
  },
  {
   "property": "C57",
   "status": "partial",
   "theorems": [
    "JST.Props.C57_equal_sound",
    "JST.Props.C57_equal_complete_partial",
    "JST.Props.C57_compare_sound_partial",
    "JST.Props.C57_compare_complete_partial",
    "JST.Props.C57_compare_negative",
    "JST.Props.C57_compare_unsound",
    "JST.Props.C57_precomputed",
    "JST.Props.C57_precomputed_refuses",
    "JST.Props.C57_and_sound",
    "JST.Props.C57_and_complete_partial",
    "JST.Props.C57_not_sound",
    "JST.Props.C57_not_complete",
    "JST.Props.C57_where",
    "JST.Props.C57_refuses"
   ],
   "note": "Equal, Not, And and Where hold. Greater and Less are false: a negative entry compares greater than a non-negative one even honestly, and for entries below 2^n - p every 0/1 tensor can be proved (negations proved). And does not check that its inputs are 0 or 1."
  },
  {
   "property": "C58",
   "status": "partial",
   "theorems": [
    "JST.Props.C58_sqrt_sound_partial",
    "JST.Props.C58_sqrt_complete_partial",
    "JST.Props.C58_sqrt_unsound",
    "JST.Props.C58_sqrt_zero",
    "JST.Props.C58_sqrt_refuses",
    "JST.Props.C58_hardswish_refuses",
    "JST.Props.C58_sqrt_incomplete",
    "JST.Props.C58_hardswish_sound_partial",
    "JST.Props.C58_hardswish_complete_partial",
    "JST.Props.C58_hardswish_unsound",
    "JST.Props.C58_hardswish_unprovable",
    "JST.Props.C58_pow_zero",
    "JST.Props.C58_pow_one",
    "JST.Props.C58_pow_square_sound_partial",
    "JST.Props.C58_pow_square_complete",
    "JST.Props.C58_pow_square_unsound",
    "JST.Props.C58_pow_complete",
    "JST.Props.C58_pow_negative_unsound",
    "JST.Props.C58_pow_refuses",
    "JST.Props.C58_pow_sound_partial",
    "JST.Props.C58_pow_unit_unsound"
   ],
   "note": "Sqrt is the floor root for digit widths dividing n_bits + 1 and false otherwise; its hint rounds to nearest, so the honest prover fails when that rounds up. HardSwish does not range-check its output: outputs that are no small integer are provable; inputs of 13 and more have no proof. Pow: exponents 0 and 1 hold, the square is pinned to two values, other positive exponents to an interval around the exact power for digit widths dividing the scale exponent (C58_pow_sound_partial) but never to one value (C58_pow_unit_unsound), negative exponents to nothing."
  },
  {
   "property": "C59",
   "status": "partial",
   "theorems": [
    "JST.Props.C59_trig_sound_partial",
    "JST.Props.C59_trig_saturates",
    "JST.Props.C59_trig_complete",
    "JST.Props.C59_trig_refuses"
   ],
   "note": "Holds on the domain of the table; beyond it (from 2 on, with the usual scale 2^18) the layer returns the function of the clamped input (negation proved). Soundness for digit widths dividing n_bits + 5. The look-up is the table relation of C07/C08."
  },
  {
   "property": "C60",
   "status": "partial",
   "theorems": [
    "JST.Props.C60_sigmoid_sound",
    "JST.Props.C60_sigmoid_unprovable",
    "JST.Props.C60_sigmoid_complete",
    "JST.Props.C60_sigmoid_complete_nearest",
    "JST.Props.C60_sigmoid_honest_fails",
    "JST.Props.C60_tanh_sound",
    "JST.Props.C60_tanh_unprovable",
    "JST.Props.C60_tanh_complete",
    "JST.Props.C60_tanh_refuses",
    "JST.Props.C60_log_sound",
    "JST.Props.C60_log_complete",
    "JST.Props.C60_log_refuses",
    "JST.Props.C60_exp_sound_partial",
    "JST.Props.C60_exp_complete",
    "JST.Props.C60_exp_unsound",
    "JST.Props.C60_exp_unprovable",
    "JST.Props.C60_exp_refuses",
    "JST.Props.C60_gelu_unsound",
    "JST.Props.C60_gelu_negative",
    "JST.Props.C60_gelu_complete_partial",
    "JST.Props.C60_gelu_refuses"
   ],
   "note": "Sigmoid, Tanh and Log hold for every digit width with the error stated in the theorems (range checks with slack included). Exp and Gelu are false: their outputs are not range-checked (negations proved). Sigmoid of strongly negative and Tanh of large inputs have no proof at all, Gelu has no honest proof on negative inputs. The floating-point hints and the tabulated exponential are parameters."
  },
  {
   "property": "C61",
   "status": "partial",
   "theorems": [
    "JST.Props.C61_softmax_sound",
    "JST.Props.C61_softmax_complete",
    "JST.Props.C61_softmax_unprovable",
    "JST.Props.C61_softmax_refuses"
   ],
   "note": "Soundness holds for every digit width with the stated error. Completeness is partial: it needs the entries of every lane to differ by less than half the look-up's range, and lanes beyond the range have no proof at all (proved). The floating-point hint and the tabulated exponential are parameters."
  },
  {
   "property": "C62",
   "status": "partial",
   "theorems": [
    "JST.Props.C62_layernorm_sound_partial",
    "JST.Props.C62_layernorm_unsound",
    "JST.Props.C62_layernorm_complete",
    "JST.Props.C62_layernorm_unprovable",
    "JST.Props.C62_layernorm_refuses"
   ],
   "note": "The property is false of the code: the variance check tolerates a deviation as large as the variance, so a prover may choose an inverse deviation of zero and prove the offsets alone as the output of every input (C62_layernorm_unsound, for all shapes, inputs and coefficients). The partial theorem states what remains: some inverse deviation exists for which the outputs follow the inputs. The floating-point hint and max_norm_bits are parameters."
  },
  {
   "property": "C63",
   "status": "partial",
   "theorems": [
    "JST.Props.C63_matmul_sound_partial",
    "JST.Props.C63_matmul_complete_partial",
    "JST.Props.C63_matmul_refuses",
    "JST.Props.C63_gemm_sound_partial",
    "JST.Props.C63_gemm_complete",
    "JST.Props.C63_gemm_bias_unsound",
    "JST.Props.C63_gemm_refuses",
    "JST.Props.C63_gemm_vectors"
   ],
   "note": "Sound but for products/p^reps of the challenges, hints fixed first. False for Gemm biases of one column: with a square product the layer adds the entries to columns instead of rows (C63_gemm_bias_unsound). MatMul refuses the batch broadcasting of ONNX and vectors; zero inner dimensions panic (C12_matmul_core_panics). Digit widths that do not divide the checked widths are C05_rescale_unsound."
  },
  {
   "property": "C64",
   "status": "partial",
   "theorems": [
    "JST.Props.C64_model_sound",
    "JST.Props.C64_model_complete_partial",
    "JST.Props.C64_arith_sound_partial",
    "JST.Props.C64_arith_complete_partial",
    "JST.Props.C64_fused_intermediate_refused",
    "JST.Props.C64_no_relu_no_fusion",
    "JST.Props.C64_branch_modes_agree",
    "JST.Props.C64_extra_inputs_ignored",
    "JST.Props.C64_max_third_input"
   ],
   "note": "Soundness of the assembly is proved for all graphs and all sound layers (up to the sum of the layers' challenge fractions), and instantiated end to end for Add, Sub, Mul, Max, Min, Neg, ReLU. Completeness fails for models whose fused intermediate is used elsewhere (C64_fused_intermediate_refused), and Max/Min of more than two inputs prove the wrong value (C64_max_third_input). Node names must be distinct, which ONNX does not require."
  },
  {
   "property": "C65",
   "status": "partial",
   "theorems": [
    "JST.Props.C65_extension_arithmetic",
    "JST.Props.C65_extension_fields",
    "JST.Props.C65_extension_inverse_partial",
    "JST.Props.C65_frobenius",
    "JST.Props.C65_root_of_unity"
   ],
   "note": "All operations proved for all elements and representations, with irreducibility of the four polynomials. Missing: that the i128 counters of the Goldilocks inverse do not overflow (the result is right whenever they do not), and the private frobenius of GoldilocksExt2 is the opposite of the p-th power (C65_frobenius), which its only caller compensates."
  },
  {
   "property": "C66",
   "status": "partial",
   "theorems": [
    "JST.Props.C66_bit_reverse",
    "JST.Props.C66_fft",
    "JST.Props.C66_roots",
    "JST.Props.C66_encode",
    "JST.Props.C66_encode_goldilocks",
    "JST.Props.C66_queries",
    "JST.Props.C66_verifier_total",
    "JST.Props.C66_complete_partial",
    "JST.Props.C66_goldilocks_complete_partial",
    "JST.Props.C66_goldilocks2_complete_partial",
    "JST.Props.C66_noncanonical_rejected",
    "JST.Props.C66_two_values_panic"
   ],
   "note": "Transforms, encoding, query indices, totality of the verifier and completeness are proved for all sizes, points and transcripts, generically and for the two shipped configurations. Missing because false: completeness needs the limbs of the codewords to be reduced, and the code does not reduce them; an honest opening of a, -a, 0, 0, ... is refused (C66_noncanonical_rejected). Two values over Goldilocks make the prover panic (C66_two_values_panic)."
  },
  {
   "property": "C67",
   "status": "partial",
   "theorems": [
    "JST.Props.C67_tree_not_binding",
    "JST.Props.C67_not_binding",
    "JST.Props.C67_two_values",
    "JST.Props.C25_binding",
    "JST.Props.C25_opens_committed_leaf"
   ],
   "note": "False of the code: neither Path::verify nor basefold_verify checks the number of siblings, so a tree whose first leaf is replaced by another tree opens at every index but the first to either vector (C67_tree_not_binding), and one commitment to two freely chosen polynomials opens at every point to the value of the second, and to that of the first unless one of the 128 query indices is below 8 (C67_not_binding, C67_two_values), for every hash. With paths of the right length the trees bind (C25_opens_committed_leaf). C68 is the analysis of the queries and folds once the words are bound."
  },
  {
   "property": "C68",
   "status": "partial",
   "theorems": [
    "JST.Props.C68_sound_partial",
    "JST.Props.C68_miss",
    "JST.Props.C68_committed_partial",
    "JST.Props.C68_goldilocks_partial"
   ],
   "note": "Proved for the interactive protocol, whose coins are uniform challenges and distinct indices, with the error n 2^(n+2) / |L| plus the chance that the queries avoid a quarter of the indices (0 for codewords of at most 128 elements, at most (3/4)^128 otherwise); at most 2^-53 for Goldilocks. Missing: the hypothesis that verified paths carry the leaves of one word, which C67 shows the code does not enforce; the Fiat-Shamir transform; and a proof of the 128 bits that the number of queries is computed from, which would need correlated agreement beyond a quarter of the distance."
  },
  {
   "property": "C69",
   "status": "partial",
   "theorems": [
    "JST.Props.C69_any_value",
    "JST.Props.C69_goldilocks_any_value",
    "JST.Props.C69_sumcheck_partial"
   ],
   "note": "False of the code: C69_any_value builds, for every commitment, point and value, an opening that the verifier accepts, whatever the hash and the transcript; C69_goldilocks_any_value is the two shipped configurations. C69_sumcheck_partial is what the verifier's checks do show: if the last constant is the value of a polynomial at the challenges, the claimed value is that polynomial's value at the point, up to at most two challenges per round."
  },
  {
   "property": "C70",
   "status": "partial",
   "theorems": [
    "JST.Props.C70_verifier_total",
    "JST.Props.C70_goldilocks_complete_partial",
    "JST.Props.C70_unreadable"
   ],
   "note": "Complete in memory for both shipped configurations; through the serialised proof only below 29 variables: from there on the final codeword is longer than MAX_FINAL_POLY and no accepted opening can be read back (C70_unreadable). The loops drawing distinct indices are assumed to end."
  },
  {
   "property": "C71",
   "status": "partial",
   "theorems": [
    "JST.Props.C71_planned_partial",
    "JST.Props.C71_unplanned_unscaled",
    "JST.Props.C71_add_constant_unsound",
    "JST.Props.C71_mul_constant_unsound",
    "JST.Props.C71_clip_unsound",
    "JST.Props.C71_shared_unsound",
    "JST.Props.C71_tied_embedding"
   ],
   "note": "Holds at the positions of the scale plan (weights and biases of Conv, Gemm, MatMul, …) for tensors no earlier node reads. False for every other constant: Add, Sub, Mul, Clip, Gather, … get the constant truncated to an integer and unscaled, and a shared tensor is scaled as its first reader needs it. Real numbers stand for f64."
  },
  {
   "property": "C72",
   "status": "partial",
   "theorems": [
    "JST.Props.C72_batchnorm_sound_partial",
    "JST.Props.C72_batchnorm_complete_partial",
    "JST.Props.C72_batchnorm_refuses",
    "JST.Props.C72_batchnorm_panics",
    "JST.Props.C72_fold_exact",
    "JST.Props.C72_fold_refuses",
    "JST.Props.C72_fixed_point_error"
   ],
   "note": "Sound where the digit width divides the bit widths (C05); complete for every digit width, empty dimensions excepted. Inputs of rank 0 or 1 panic instead of being refused. Real numbers stand for f64."
  },
  {
   "property": "C73",
   "status": "proved",
   "theorems": [
    "JST.Props.C73_second_pass",
    "JST.Props.C73_products_end",
    "JST.Props.C73_heap",
    "JST.Props.C73_heap_order"
   ],
   "note": "For circuits without calls (JSTprove's circuits have one root circuit only) and custom gates. The costs are those of every configuration but GF2Config; layers and costs are natural numbers."
  },
  {
   "property": "C74",
   "status": "proved",
   "theorems": [
    "JST.Props.C74_layers_fit",
    "JST.Props.C74_accepting",
    "JST.Props.C74_rejecting",
    "JST.Props.C74_chance",
    "JST.Props.C74_no_constraint",
    "JST.Props.C74_merged"
   ],
   "note": "Covers removing what is not used, giving repeated outputs copies, adding up the constraints with random coins, layering and merging gates, i.e. optimization levels 1 and 2 after the second pass; the sharing of gates between layers at level 3 is not covered. A circuit without constraints has its first output tested for zero (C74_no_constraint)."
  },
  {
   "property": "C75",
   "status": "partial",
   "theorems": [
    "JST.Props.C75_convt_value",
    "JST.Props.C75_convt_only",
    "JST.Props.C75_convt_refuses",
    "JST.Props.C75_convt_adjoint",
    "JST.Props.C75_convt_shape_partial",
    "JST.Props.C75_convt_output_shape",
    "JST.Props.C75_convt_layer_sound_partial",
    "JST.Props.C75_convt_layer_complete"
   ],
   "note": "The value holds for every accepted layer. Soundness of the rescaling needs the digit width to divide the checked widths (C05_rescale_unsound otherwise). The recorded shape agrees unless the attribute output_shape is given, which the importer obeys and the circuit ignores (C75_convt_output_shape)."
  },
  {
   "property": "C76",
   "status": "partial",
   "theorems": [
    "JST.Props.C76_nearest",
    "JST.Props.C76_empty_axis",
    "JST.Props.C76_scales_ignored",
    "JST.Props.C76_modes",
    "JST.Props.C76_refuses",
    "JST.Props.C76_shape",
    "JST.Props.C76_weights",
    "JST.Props.C76_weights_nonneg_partial",
    "JST.Props.C76_negative_weight",
    "JST.Props.C76_linear_sound_partial",
    "JST.Props.C76_linear_exact",
    "JST.Props.C76_linear_complete",
    "JST.Props.C76_constant_image",
    "JST.Props.C76_negative_refused",
    "JST.Props.C76_negative_weight_refused",
    "JST.Props.C76_negative_weight_wrong",
    "JST.Props.C76_linear_unsound"
   ],
   "note": "Nearest is right for the quotient of the sizes as scale; a given scale is ignored (C76_scales_ignored). Linear: soundness needs the digit width to divide the scale exponent (C76_linear_unsound otherwise) and non-negative weights, which hold for at most one changed axis or exact binary coordinates but not in general (C76_negative_weight, and its effects C76_negative_weight_refused and C76_negative_weight_wrong). Negative interpolated values have no proof (C76_negative_refused)."
  },
  {
   "property": "C77",
   "status": "partial",
   "theorems": [
    "JST.Props.C77_sound_partial",
    "JST.Props.C77_complete",
    "JST.Props.C77_rescale",
    "JST.Props.C77_rescale_low",
    "JST.Props.C77_unchecked_output",
    "JST.Props.C77_transpose_free",
    "JST.Props.C77_rounding_free",
    "JST.Props.C77_not_sound",
    "JST.Props.C77_flatten_order",
    "JST.Props.C77_split_whole",
    "JST.Props.C77_input_image",
    "JST.Props.C77_conv_image",
    "JST.Props.C77_pool_image",
    "JST.Props.C77_relu_image",
    "JST.Props.C77_bn_image",
    "JST.Props.C77_add_image_partial",
    "JST.Props.C77_residual_wrong"
   ],
   "note": "Soundness is proved for models of constrained operators in which every rescaled tensor is followed by a Relu or is the output (C77_sound_partial); completeness for all models of constrained operators whose values fit the widths. Soundness is false in general: quotients are not range checked (C77_rounding_free, C77_not_sound), eight operators and Constant have no constraint (C77_unchecked_output, C77_transpose_free), Split gives the whole input (C77_split_whole), Flatten keeps the circuit's own order (C77_flatten_order), Add of images in different layouts adds the wrong entries (C77_residual_wrong). The image theorems tie the evaluation to the ONNX operators independently of layouts. The proof system under the circuit (Remainder_CE) is external and trusted."
  },
  {
   "property": "C78",
   "status": "partial",
   "theorems": [
    "JST.Props.C78_total",
    "JST.Props.C78_order",
    "JST.Props.C78_refused",
    "JST.Props.C78_found",
    "JST.Props.C78_eval_partial",
    "JST.Props.C78_self_accepted",
    "JST.Props.C78_last_writer",
    "JST.Props.C78_empty_name"
   ],
   "note": "The order is valid and is found exactly when one exists, for names with one writer; evaluation in the order is the unique solution when no layer reads its own output. The code skips self-dependencies, so a layer that reads its own output is accepted although its equations need not hold (C78_self_accepted). With two writers of a name only the last counts, and an empty output name is taken for the producer of every omitted input (C78_empty_name: a valid model is refused)."
  },
  {
   "property": "C79",
   "status": "partial",
   "theorems": [
    "JST.Props.C79_safe_partial",
    "JST.Props.C79_maximal",
    "JST.Props.C79_fits",
    "JST.Props.C79_precision",
    "JST.Props.C79_digits",
    "JST.Props.C79_auto",
    "JST.Props.C79_auto_safe",
    "JST.Props.C79_not_safe",
    "JST.Props.C79_auto_zero",
    "JST.Props.C79_nan",
    "JST.Props.C79_default",
    "JST.Props.C79_needs_width",
    "JST.Props.C79_overflow"
   ],
   "note": "Safe, maximal and consistent whenever the bound leaves room for scale one, and always for what the automatic choice accepts with at least one digit. A bound that does not fit is accepted with scale one when a width is given without digits or with zero digits (C79_not_safe, C79_auto_zero); NaN gives the largest exponent; without a width the bound is not looked at. Logarithms are taken exactly."
  },
  {
   "property": "C80",
   "status": "partial",
   "theorems": [
    "JST.Props.C80_range",
    "JST.Props.C80_range_total",
    "JST.Props.C80_range_shape",
    "JST.Props.C80_range_fraction",
    "JST.Props.C80_range_small_step",
    "JST.Props.C80_shape",
    "JST.Props.C80_constOfShape",
    "JST.Props.C80_constOfShape_total",
    "JST.Props.C80_constOfShape_fraction",
    "JST.Props.C80_constant",
    "JST.Props.C80_cast_bool",
    "JST.Props.C80_cast_unsupported",
    "JST.Props.C80_cast_other",
    "JST.Props.C80_cast_not_truncated",
    "JST.Props.C80_cast_not_scaled"
   ],
   "note": "Range of integers, Shape, Constant, ConstantOfShape with integer value and Cast to BOOL are as in ONNX, for all inputs. Range of fractions disagrees with ONNX and with the recorded shape (C80_range_fraction, C80_range_small_step); a fractional value of ConstantOfShape is truncated and not scaled (C80_constOfShape_fraction); every other Cast is the identity, so that Cast from float to integer does not truncate and Cast from integer to float does not scale (C80_cast_not_truncated, C80_cast_not_scaled)."
  },
  {
   "property": "C81",
   "status": "partial",
   "theorems": [
    "JST.Export.C81_meaning",
    "JST.Export.C81_ok",
    "JST.Export.C81_flatten_exists",
    "JST.Export.C81_same_coins_partial",
    "JST.Export.C81_coin_order",
    "JST.Export.C81_public_input_lost"
   ],
   "note": "For all valid nested circuits without random gates the flat circuit computes the same, in every lane, in whatever order the maps come (C81_meaning); it always meets the side conditions of C19 and C21 (C81_ok). Prover and verifier agree if random gates occur only in the layers' own segments (C81_same_coins_partial); with a random gate in a nested segment as well, the order of a hash map decides which gate gets which coin, and the two can have different circuits (C81_coin_order). A public input as coefficient of an addition is lost (C81_public_input_lost); the compiler makes none. Custom gates are left out."
  },
  {
   "property": "C82",
   "status": "partial",
   "theorems": [
    "JST.Export.C82_evaluate",
    "JST.Export.C82_complete",
    "JST.Export.C82_sound_partial",
    "JST.Export.C82_claim_from_proof",
    "JST.Export.C82_flatten_exists"
   ],
   "note": "Composes C74, C81, C19 and C21. Evaluation of the proved circuit is that of the compiler's layers with coins handed out in order (C82_evaluate); the honest proof is accepted, with separately flattened circuits on the two sides (C82_complete). Soundness counts pairs of circuit coins and proof coins: at most (1 + outputVars + s + gkrErr)/|F| of them let a broken constraint pass (C82_sound_partial), with the claimed value fixed to zero, which the verifier of the code does not do (C82_claim_from_proof, see C21). Inputs are fixed before the coins, i.e. the polynomial commitment is taken to be binding. Optimization levels 1 and 2, circuits which ask for no coins of their own, no custom gates."
  },
  {
   "property": "C83",
   "status": "partial",
   "theorems": [
    "JST.Export.C83_layers_partial",
    "JST.Export.C83_meaning_partial",
    "JST.Export.C83_again",
    "JST.Export.C83_repeated_gate"
   ],
   "note": "For valid circuits in which no segment stands for two equal gates with a random coefficient or public input, any number of rounds of the loop with any sampled pairs keeps all layers (C83_layers_partial) and so what the circuit computes (C83_meaning_partial); the condition is kept (C83_again). Without it the property is false: gates are compared as a set, so a public input added twice to a wire is kept once (C83_repeated_gate). The union-find structure is taken as the function giving representatives, which C85_groups justifies; custom gates and several input layers are left out; termination of the loop is not proved."
  },
  {
   "property": "C84",
   "status": "partial",
   "theorems": [
    "JST.Export.C84_complete",
    "JST.Export.C84_sound_partial",
    "JST.Export.C84_exists"
   ],
   "note": "The compiler's layers never have two equal gates with a coin or public input, so the condition of C83 holds for them (proved on the way), and any flattening of the optimized circuit computes what the layers compute with the coins in another order. Partial as C82: the bound is for a caller who fixes the claimed value to zero, since the verifier of the code takes it from the proof (C82_claim_from_proof); programs without calls and custom gates; prover and verifier use the same flattening (C81_coin_order shows they may differ)."
  },
  {
   "property": "C85",
   "status": "proved",
   "theorems": [
    "JST.Export.C85_returns",
    "JST.Export.C85_find",
    "JST.Export.C85_member",
    "JST.Export.C85_groups"
   ],
   "note": "The look-up is the loop of the code as an inductive relation; termination is proved from the length of the path to the root, which halving never makes longer. C85_groups shows that the array version of the loop over the edges refines the representatives used in C83."
  },
  {
   "property": "C86",
   "status": "partial",
   "theorems": [
    "JST.Props.C86_erf_any_output",
    "JST.Props.C86_erf_complete",
    "JST.Props.C86_erf_bounds_partial",
    "JST.Props.C86_erf_unprovable",
    "JST.Props.C86_erf_honest_fails",
    "JST.Props.C86_erf_refuses"
   ],
   "note": "False of the code: the tolerance of the comparison is four times the scale, while the result and the approximation it is compared with are both within about one scale, so every output between minus one and one is accepted for every input (C86_erf_any_output). What remains is that outputs are between minus one and one (C86_erf_bounds_partial). The honest prover succeeds when the remainder of the reciprocal is below twice the scale (all inputs up to about 3.05, C86_erf_complete) and fails where it is not (C86_erf_honest_fails, for example at 5); from about 5.7 on nobody has a proof (C86_erf_unprovable). Coefficients are the quantised constants; the floating-point hint and the tabulated exponential are parameters."
  },
  {
   "property": "C87",
   "status": "partial",
   "theorems": [
    "JST.Props.C87_clamps",
    "JST.Props.C87_border",
    "JST.Props.C87_bilinear_partial",
    "JST.Props.C87_zeros_edge",
    "JST.Props.C87_reflection_ignored",
    "JST.Props.C87_complete",
    "JST.Props.C87_negative_refused",
    "JST.Props.C87_dynamic_any_output",
    "JST.Props.C87_dynamic_mode_ignored",
    "JST.Props.C87_nearest_partial",
    "JST.Props.C87_nearest_program",
    "JST.Props.C87_nearest_tie",
    "JST.Props.C87_refuses"
   ],
   "note": "Proved for a constant grid with border padding, and for points on the image or beyond it by a pixel or more with zero padding (C87_border, C87_bilinear_partial); nearest away from ties, for all three paddings (C87_nearest_partial). False of the code: a grid that is not a constant lets every in-range tensor be proved (C87_dynamic_any_output) and ignores the mode (C87_dynamic_mode_ignored); bilinear zero padding near the edge and bilinear reflection use the clamped point instead (C87_clamps with C87_zeros_edge, C87_reflection_ignored); ties go up instead of to even (C87_nearest_tie); negative results have no proof (C87_negative_refused). Floating-point coordinates are exact rationals in the model; soundness asks that the digit width divide the two widths checked; a mirrored axis has at least two pixels."
  },
  {
   "property": "C88",
   "status": "partial",
   "theorems": [
    "JST.Props.C88_topk_partial",
    "JST.Props.C88_top1",
    "JST.Props.C88_topk_complete",
    "JST.Props.C88_topk_unsound",
    "JST.Props.C88_refuses"
   ],
   "note": "True for k = 1 (C88_top1) and for the honest prover for all k (C88_topk_complete). False for every k >= 2, every tensor and axis: k copies of the maximum at one index can be proved in every lane (C88_topk_unsound); C88_topk_partial is what is enforced. Soundness asks that the digit width divide n_bits + 1."
  },
  {
   "property": "C89",
   "status": "partial",
   "theorems": [
    "JST.Props.C89_sweep",
    "JST.Props.C89_range",
    "JST.Props.C89_given",
    "JST.Props.C89_cached",
    "JST.Props.C89_stable",
    "JST.Props.C89_key_blind",
    "JST.Props.C89_not_best",
    "JST.Props.C89_usable",
    "JST.Props.C89_default_unsound",
    "JST.Props.C89_no_safe_width"
   ],
   "note": "Range 10 to 14 for any cache and costs, usability, the sweep's minimality and repeatability are proved. Minimality is false after another model with the same operator key was compiled (C89_not_best). Exactness is false for every automatic width at scale exponent 18 and 64-bit activations (C89_default_unsound), and no bit width is safe for all choices (C89_no_safe_width). Cache files are represented by their parsed number and key data is not serialised."
  },
  {
   "property": "C90",
   "status": "proved",
   "theorems": [
    "JST.Props.C90_complete",
    "JST.Props.C90_sound",
    "JST.Props.C90_lucky_round",
    "JST.Props.C90_lucky_merge",
    "JST.Props.C90_counts"
   ],
   "note": "Tables are functions of the index, the transcript is any absorbing and drawing machine. That hashed challenges behave like random ones is not part of the statement."
  },
  {
   "property": "C91",
   "status": "proved",
   "theorems": [
    "JST.Props.C91_complete",
    "JST.Props.C91_sound",
    "JST.Props.C91_collide",
    "JST.Props.C91_timestamps",
    "JST.Props.C91_wrap"
   ],
   "note": "Memory and counters are functions of the cell. Soundness takes any natural number timestamps t with t + 1 below a bound under which the casts to the field are injective; C91_wrap shows that the bound is needed. Timestamps and addresses are taken as committed: their openings (constituent_opens.rs) are not part of the statement, nor is the transcript that draws the two parameters."
  }
 ]
}
