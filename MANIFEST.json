{
 "claims": [
  {
   "property": "C01",
   "status": "proved",
   "theorems": [
    "CrypTen.C01_encrypt_reveal"
   ],
   "note": ""
  },
  {
   "property": "C02",
   "status": "proved",
   "theorems": [
    "CrypTen.C02_przs_arith_cancels",
    "CrypTen.C02_przs_binary_cancels",
    "CrypTen.C02_generators_stay_synchronised"
   ],
   "note": ""
  },
  {
   "property": "C03",
   "status": "proved",
   "theorems": [
    "CrypTen.C03_binary_encrypt_reveal",
    "CrypTen.C03_local_operations"
   ],
   "note": ""
  },
  {
   "property": "C04",
   "status": "partial",
   "theorems": [
    "CrypTen.C04_other_parties_view_independent",
    "CrypTen.C04_shares_are_mask_differences",
    "CrypTen.C04_uniform_masks_perfect_secrecy",
    "CrypTen.C04_actual_sampler_not_perfectly_secret"
   ],
   "note": "Perfect secrecy is proved for uniform masks and all coalitions; the additional claim for the sampler in use is refuted (its range excludes 2^63-1)."
  },
  {
   "property": "C05",
   "status": "proved",
   "theorems": [
    "CrypTen.C05_encode_eq_trunc",
    "CrypTen.C05_encode_error",
    "CrypTen.C05_encode_integers_exact",
    "CrypTen.C05_encode_int_tensor_ring",
    "CrypTen.C05_encode_monotone_odd",
    "CrypTen.C05_scale_is_power_of_precision"
   ],
   "note": ""
  },
  {
   "property": "C06",
   "status": "partial",
   "theorems": [
    "CrypTen.C06_decode_characterised",
    "CrypTen.C06_decode_exact_iff",
    "CrypTen.C06_decode_exact_partial",
    "CrypTen.C06_decode_not_exact",
    "CrypTen.C06_decode_error_bound_partial",
    "CrypTen.C06_decode_scale_one"
   ],
   "note": "Exactness is refuted (negative values not divisible by the scale); the exact characterisation, the set where it holds and the error bound are proved."
  },
  {
   "property": "C07",
   "status": "partial",
   "theorems": [
    "CrypTen.C07_nearest_division_partial",
    "CrypTen.C07_nearest_division_power_of_two",
    "CrypTen.C07_nearest_division_odd_partial",
    "CrypTen.C07_nearest_division_not_always"
   ],
   "note": "Proved where doubling the remainder does not overflow; refuted beyond."
  },
  {
   "property": "C08",
   "status": "proved",
   "theorems": [
    "CrypTen.C08_public_operand_counted_once",
    "CrypTen.C08_add_sub_neg",
    "CrypTen.C08_public_products",
    "CrypTen.C08_linear_programs_exact",
    "CrypTen.C08_pad_private"
   ],
   "note": ""
  },
  {
   "property": "C09",
   "status": "proved",
   "theorems": [
    "CrypTen.C09_beaver_product",
    "CrypTen.C09_mul_and_matmul"
   ],
   "note": ""
  },
  {
   "property": "C10",
   "status": "proved",
   "theorems": [
    "CrypTen.C10_beaver_square"
   ],
   "note": ""
  },
  {
   "property": "C11",
   "status": "partial",
   "theorems": [
    "CrypTen.C11_check_value",
    "CrypTen.C11_honest_never_rejected_partial",
    "CrypTen.C11_passing_implies_error_relation",
    "CrypTen.C11_wrong_triple_caught_by_every_second_scale",
    "CrypTen.C11_odd_error_passes_one_scale",
    "CrypTen.C11_even_scale_misses_error",
    "CrypTen.C11_honest_matmul_rejected"
   ],
   "note": "Elementwise products only; refuted for matmul, and for errors that are multiples of 2^63."
  },
  {
   "property": "C12",
   "status": "proved",
   "theorems": [
    "CrypTen.C12_and_or",
    "CrypTen.C12_b2a_single_bit"
   ],
   "note": ""
  },
  {
   "property": "C13",
   "status": "proved",
   "theorems": [
    "CrypTen.C13_product_messages_uniform",
    "CrypTen.C13_product_opening_bijective",
    "CrypTen.C13_square_opening_bijective",
    "CrypTen.C13_binary_openings_bijective",
    "CrypTen.C13_opening_counts_equal"
   ],
   "note": ""
  },
  {
   "property": "C17",
   "status": "partial",
   "theorems": [
    "CrypTen.C17_replicated_three_parties_partial",
    "CrypTen.C17_replicated_too_few_parties",
    "CrypTen.C17_replicated_wrong_from_four",
    "CrypTen.C17_replicated_truncate",
    "CrypTen.C17_replicated_truncate_refuses"
   ],
   "note": "Three parties proved; refuted for every number of parties from four on."
  },
  {
   "property": "C57",
   "status": "partial",
   "theorems": [
    "CrypTen.C57_thread_mode_not_cancelling",
    "CrypTen.C57_thread_mode_partial"
   ],
   "note": "Refuted for two threads; holds for one."
  },
  {
   "property": "C58",
   "status": "partial",
   "theorems": [
    "CrypTen.C58_ndarray_loses_fraction",
    "CrypTen.C58_ndarray_partial"
   ],
   "note": "Refuted: fractions of numpy arrays are dropped before scaling; integers are encoded right."
  },
  {
   "property": "C14",
   "status": "proved",
   "theorems": [
    "CrypTen.C14_two_party_truncation",
    "CrypTen.C14_bad_first_shares",
    "CrypTen.C14_two_party_truncation_count",
    "CrypTen.C14_wrapped_shares_error",
    "CrypTen.C14_one_party"
   ],
   "note": ""
  },
  {
   "property": "C15",
   "status": "partial",
   "theorems": [
    "CrypTen.C15_wraps_protocol",
    "CrypTen.C15_truncation_characterised",
    "CrypTen.C15_truncation_power_of_two_partial",
    "CrypTen.C15_truncation_any_divisor_partial",
    "CrypTen.C15_bad_masks"
   ],
   "note": "Error bound proved when secret plus mask does not wrap (exactly |x| of 2^64 masks do) and count_wraps is exact; exact formula for the error otherwise."
  },
  {
   "property": "C16",
   "status": "partial",
   "theorems": [
    "CrypTen.C16_count_wraps_characterised",
    "CrypTen.C16_count_wraps_partial",
    "CrypTen.C16_count_wraps_no_min_partial",
    "CrypTen.C16_count_wraps_not_exact"
   ],
   "note": "Exact except when the running sum and the next share are both -2^63, where it is refuted; the exact discrepancy is proved for all lists."
  },
  {
   "property": "C18",
   "status": "proved",
   "theorems": [
    "CrypTen.C18_add",
    "CrypTen.C18_add_public"
   ],
   "note": ""
  },
  {
   "property": "C19",
   "status": "proved",
   "theorems": [
    "CrypTen.C19_order",
    "CrypTen.C19_equality"
   ],
   "note": ""
  },
  {
   "property": "C59",
   "status": "proved",
   "theorems": [
    "CrypTen.C59_where"
   ],
   "note": ""
  },
  {
   "property": "C20",
   "status": "proved",
   "theorems": [
    "CrypTen.C20_a2b",
    "CrypTen.C20_a2b_sequential",
    "CrypTen.C20_b2a",
    "CrypTen.C20_round_trip",
    "CrypTen.C20_round_trip_binary"
   ],
   "note": "For every number of parties, sharing, tuple stream and number of bits up to 64."
  },
  {
   "property": "C21",
   "status": "partial",
   "theorems": [
    "CrypTen.C21_lt_partial",
    "CrypTen.C21_gt_partial",
    "CrypTen.C21_ge_partial",
    "CrypTen.C21_le_partial",
    "CrypTen.C21_ne_partial",
    "CrypTen.C21_eq_partial",
    "CrypTen.C21_lt_any_scale",
    "CrypTen.C21_other_precisions_wrong",
    "CrypTen.C21_ne_most_negative"
   ],
   "note": "Proved at the default precision and for unscaled tensors; refuted at every other precision (the result is D/s instead of 1, exact formula proved) and, for ne/eq, at difference -2^63."
  },
  {
   "property": "C22",
   "status": "partial",
   "theorems": [
    "CrypTen.C22_equality_two_parties_partial",
    "CrypTen.C22_equality_public_partial",
    "CrypTen.C22_equality_any_scale",
    "CrypTen.C22_equality_unscaled_wrong"
   ],
   "note": "Proved for all pairs of words at the default precision; refuted for unscaled tensors, where eq gives the default scale instead of 1."
  },
  {
   "property": "C23",
   "status": "partial",
   "theorems": [
    "CrypTen.C23_sign",
    "CrypTen.C23_abs",
    "CrypTen.C23_relu",
    "CrypTen.C23_hardtanh",
    "CrypTen.C23_where",
    "CrypTen.C23_where_public_condition",
    "CrypTen.C23_where_public_alternative_partial",
    "CrypTen.C23_where_public_alternative_wrong"
   ],
   "note": "Refuted for where with an encrypted condition and a public fractional alternative (the alternative is rounded to an integer); otherwise proved at the standard scales."
  },
  {
   "property": "C56",
   "status": "partial",
   "theorems": [
    "CrypTen.C56_add",
    "CrypTen.C56_sub",
    "CrypTen.C56_add_public",
    "CrypTen.C56_mul_unscaled",
    "CrypTen.C56_mul_equal_scales",
    "CrypTen.C56_mul_public",
    "CrypTen.C56_square",
    "CrypTen.C56_encode_up",
    "CrypTen.C56_encode_down",
    "CrypTen.C56_mul_mixed_scales_partial",
    "CrypTen.C56_mul_mixed_scales_wrong",
    "CrypTen.C56_mul_public_unscaled_wrong"
   ],
   "note": "Sums proved for all aligned scales; products proved for equal scales and when one scale is 1, refuted for two different scales above 1 (the result is off by the quotient of the scales, proved)."
  },
  {
   "property": "C24",
   "status": "proved",
   "theorems": [
    "CrypTen.C24_max",
    "CrypTen.C24_min",
    "CrypTen.C24_max_from_argmax"
   ],
   "note": "All four algorithms, every row length up to 2^63/2^p, any number of reduction steps, any tie-breaking randomness, any number of parties. At precisions other than the configured one comparisons themselves fail (C21_other_precisions_wrong)."
  },
  {
   "property": "C25",
   "status": "proved",
   "theorems": [
    "CrypTen.C25_argmax_one_hot",
    "CrypTen.C25_one_hot_to_index"
   ],
   "note": "One-hot at a maximal position for every tie pattern and every random number; also with two parties and unscaled tensors, where eq marks the ties with 2^p instead of 1."
  },
  {
   "property": "C52",
   "status": "proved",
   "theorems": [
    "CrypTen.C52_rand_value",
    "CrypTen.C52_rand_uniform",
    "CrypTen.C52_bernoulli",
    "CrypTen.C52_weighted_index",
    "CrypTen.chosen_unique",
    "CrypTen.C52_weighted_probability",
    "CrypTen.C52_weighted_fixed",
    "CrypTen.C52_weighted_sample"
   ],
   "note": "weighted_index is exact for unscaled integer weights (the case argmax uses). For fixed-point weights the truncated product moves the drawn number by less than n units in the last place: exactly one index when the weights add up to at least n, of positive weight unless it is the first. With p = 0 rand raises."
  },
  {
   "property": "C26",
   "status": "partial",
   "theorems": [
    "CrypTen.C26_pow_partial",
    "CrypTen.C26_pow_exponent",
    "CrypTen.powExponent_eq_iff",
    "CrypTen.C26_pow_wrong",
    "CrypTen.C26_pow_dispatch",
    "CrypTen.C26_pow_encrypted_partial",
    "CrypTen.C26_pow_encrypted_wrong"
   ],
   "note": "The code is wrong for odd exponents other than 1 and 3 (and their doublings): it computes x^powExponent(p). The exact exponent is proved for every p, and that it equals p iff p = 2^k or 3*2^k; the wrong result is shown on encrypted shares."
  },
  {
   "property": "C27",
   "status": "proved",
   "theorems": [
    "CrypTen.C27_polynomial",
    "CrypTen.C27_polynomial_encrypted",
    "CrypTen.C27_polynomial_shares"
   ],
   "note": "C27_polynomial is about the exact-arithmetic reading; C27_polynomial_shares bounds the error on shares entry by entry for any number of parties and any precision."
  },
  {
   "property": "C28",
   "status": "proved",
   "theorems": [
    "CrypTen.C28_prod_unscaled"
   ],
   "note": ""
  },
  {
   "property": "C29",
   "status": "partial",
   "theorems": [
    "CrypTen.C29_mean",
    "CrypTen.C29_var_partial",
    "CrypTen.C29_var_wrong",
    "CrypTen.C29_var_wrong_always"
   ],
   "note": "The unbiased flag of var is inverted in the code: proved that unbiased=True divides by n and unbiased=False by n-1."
  },
  {
   "property": "C30",
   "status": "partial",
   "theorems": [
    "CrypTen.C30_cat_partial",
    "CrypTen.C30_cat_any_scale",
    "CrypTen.C30_cat_wrong",
    "CrypTen.C30_mixed_raises"
   ],
   "note": "Right when all scales agree; with different scales the first one is used for all, shown by a witness."
  },
  {
   "property": "C53",
   "status": "proved",
   "theorems": [
    "CrypTen.C53_exp",
    "CrypTen.C53_exp_accuracy",
    "CrypTen.C53_exp_encrypted",
    "CrypTen.C53_exp_encrypted_entries",
    "CrypTen.C53_reciprocal_positive_encrypted",
    "CrypTen.C53_reciprocal_encrypted",
    "CrypTen.C53_reciprocal_default_encrypted",
    "CrypTen.C53_reciprocal_from_number_encrypted",
    "CrypTen.C53_sigmoid_encrypted",
    "CrypTen.C53_sigmoid_default_encrypted",
    "CrypTen.C53_tanh_default_encrypted",
    "CrypTen.C53_softmax_default_encrypted",
    "CrypTen.C53_eix_encrypted",
    "CrypTen.C53_cos_sin_default_encrypted",
    "CrypTen.C53_inv_sqrt_encrypted",
    "CrypTen.C53_inv_sqrt_default_encrypted",
    "CrypTen.C53_sqrt_default_encrypted",
    "CrypTen.C53_reciprocal_newton",
    "CrypTen.C53_reciprocal_from_number",
    "CrypTen.C53_reciprocal_converges",
    "CrypTen.C53_reciprocal_odd",
    "CrypTen.C53_reciprocal_log_iters_wrong",
    "CrypTen.C53_inv_sqrt_step",
    "CrypTen.C53_inv_sqrt_converges",
    "CrypTen.C53_sqrt",
    "CrypTen.C53_eix",
    "CrypTen.C53_eix_zero",
    "CrypTen.C53_log_step_encrypted",
    "CrypTen.C53_log_default_encrypted",
    "CrypTen.C53_log_in_01_default_encrypted",
    "CrypTen.C53_log_softmax_default_encrypted",
    "CrypTen.C53_reciprocal_log_default_encrypted",
    "CrypTen.C53_log_step",
    "CrypTen.C53_log_fixed_point",
    "CrypTen.C53_chebyshev",
    "CrypTen.C53_sigmoid",
    "CrypTen.C53_sigmoid_symmetric",
    "CrypTen.C53_sigmoid_accuracy",
    "CrypTen.C53_sigmoid_wrong",
    "CrypTen.C53_tanh",
    "CrypTen.C53_tanh_accuracy",
    "CrypTen.C53_hardtanh",
    "CrypTen.C53_tanh_chebyshev",
    "CrypTen.C53_erf",
    "CrypTen.C53_erf_wrong",
    "CrypTen.C53_softmax",
    "CrypTen.C53_softmax_sum",
    "CrypTen.C53_series_interpolates",
    "CrypTen.C53_tanh_chebyshev_accuracy",
    "CrypTen.C53_sigmoid_chebyshev_accuracy",
    "CrypTen.C53_tanh_chebyshev_wrong",
    "CrypTen.C53_sigmoid_chebyshev_wrong",
    "CrypTen.Network.C53_good_run"
   ],
   "note": "Proved for the exact-arithmetic reading of the same program text that also runs on shares; For exp, the Newton reciprocal, sigmoid, tanh, softmax, cos, sin, the inverse square root, the square root, the logarithm (also with input_in_01), log_softmax and the reciprocal by logarithms the errors on shares are bounded entry by entry (C53_..._encrypted), with numbers for the default configuration and two parties (C53_..._default_encrypted). Also shown: erf uses wrong powers, the documented parameter reciprocal_log_iters has no effect, sigmoid breaks down far outside the range of exp, and with the method chebyshev and eight terms tanh is -1 from 10 on."
  },
  {
   "property": "C33",
   "status": "partial",
   "theorems": [
    "CrypTen.C33_ttp_partial",
    "CrypTen.C33_cuda_wraps_wrong",
    "CrypTen.C33_one_party_wrong"
   ],
   "note": "Every tuple of the trusted third party is right for two or more parties on the CPU. The wraps server reads the CPU generators also for CUDA requests, and with a single party the server fails; both shown by witnesses."
  },
  {
   "property": "C34",
   "status": "proved",
   "theorems": [
    "CrypTen.C34_tfp"
   ],
   "note": ""
  },
  {
   "property": "C35",
   "status": "partial",
   "theorems": [
    "CrypTen.C35_tuples_partial",
    "CrypTen.C35_filled_partial",
    "CrypTen.C35_exhausted_wrong"
   ],
   "note": "Right tuple, never used twice: proved for all histories. Everything filled can be used, but a used-up entry raises IndexError instead of generating a tuple: proved for all traced requests. All parties run the same history, so the model keeps one provider."
  },
  {
   "property": "C42",
   "status": "partial",
   "theorems": [
    "CrypTen.C42_backward_partial",
    "CrypTen.C42_detached_leaf_partial",
    "CrypTen.C42_detach_wrong",
    "CrypTen.C42_non_differentiable_wrong",
    "CrypTen.C42_second_backward_wrong"
   ],
   "note": "Proved for every recorded acyclic graph (children older than parents, tensors with children require gradients, only leaves are marked non-differentiable) with fresh counters: leaves get the sum over all paths, each reachable interior tensor propagates exactly once. False for detach_ on an interior tensor, for computed non-differentiable arguments and for a second output sharing the graph (witnesses)."
  },
  {
   "property": "C41",
   "status": "partial",
   "theorems": [
    "CrypTen.C41_lexical",
    "CrypTen.C41_lexical_unique",
    "CrypTen.C41_restored_partial",
    "CrypTen.C41_inside_partial",
    "CrypTen.C41_threads_serial",
    "CrypTen.C41_threads_wrong"
   ],
   "note": "Proved for one thread and all nestings, exceptions and handlers: the flag semantics equals the lexical reading. With overlapping blocks in two threads it fails (witness schedule)."
  },
  {
   "property": "C40",
   "status": "partial",
   "theorems": [
    "CrypTen.C40_restored_partial",
    "CrypTen.C40_inside_partial",
    "CrypTen.C40_none_wrong",
    "CrypTen.C40_held_reference_wrong",
    "CrypTen.C40_threads_wrong"
   ],
   "note": "Proved for one thread and every body assigning through cfg. False for None values, references to the configuration held from before the block, and overlapping blocks in two threads (witnesses)."
  },
  {
   "property": "C32",
   "status": "proved",
   "theorems": [
    "CrypTen.C32_scales_restored"
   ],
   "note": "For every list of operands with any sharing of encoders and every body, including bodies that raise."
  },
  {
   "property": "C43",
   "status": "partial",
   "theorems": [
    "CrypTen.C43_neg",
    "CrypTen.C43_relu",
    "CrypTen.C43_dropout",
    "CrypTen.C43_tanh",
    "CrypTen.C43_hardtanh",
    "CrypTen.C43_relu6",
    "CrypTen.C43_pow",
    "CrypTen.C43_pos_pow_int",
    "CrypTen.C43_pos_pow_wrong",
    "CrypTen.C43_square",
    "CrypTen.C43_sqrt",
    "CrypTen.C43_exp",
    "CrypTen.C43_log",
    "CrypTen.C43_reciprocal",
    "CrypTen.C43_sin",
    "CrypTen.C43_cos",
    "CrypTen.C43_abs",
    "CrypTen.C43_sign",
    "CrypTen.C43_sigmoid",
    "CrypTen.C43_polynomial",
    "CrypTen.C43_add",
    "CrypTen.C43_sub",
    "CrypTen.C43_rsub",
    "CrypTen.C43_mul",
    "CrypTen.C43_div",
    "CrypTen.C43_div_public",
    "CrypTen.C43_rdiv",
    "CrypTen.C43_dot",
    "CrypTen.C43_ger",
    "CrypTen.C43_matmul",
    "CrypTen.C43_sum",
    "CrypTen.C43_mean",
    "CrypTen.C43_trace",
    "CrypTen.C43_cumsum",
    "CrypTen.C43_var",
    "CrypTen.C43_max",
    "CrypTen.C43_min",
    "CrypTen.C43_log_softmax",
    "CrypTen.C43_softmax",
    "CrypTen.C43_norm",
    "CrypTen.C43_norm_dim_wrong",
    "CrypTen.C43_bce",
    "CrypTen.C43_bce_with_logits",
    "CrypTen.C43_rappor",
    "CrypTen.C43_cross_entropy",
    "CrypTen.C43_batchnorm",
    "CrypTen.C43_batchnorm_weight",
    "CrypTen.C43_batchnorm_all",
    "CrypTen.C43_index_select",
    "CrypTen.C43_getitem_partial",
    "CrypTen.C43_getitem_wrong",
    "CrypTen.C43_scatter",
    "CrypTen.C43_cosine_similarity",
    "CrypTen.C43_polynomial_coeffs_wrong",
    "CrypTen.C43_matmul_vector_batch_wrong",
    "CrypTen.C43_matmul_batch_vector_wrong",
    "CrypTen.C43_matmul_shapes"
   ],
   "note": "Over exact real arithmetic (fixed-point error and approximation error are C24, C27, C28, C53), for all inputs at which the forward function is differentiable; two-operand functions are proved jointly with any broadcasting pattern. False for pos_pow with a fractional power, norm with dim, repeated indices in x[...] and take, vector times batched matrices, and polynomial overwrites the caller's coefficients (witnesses). Shape operations are C62, convolutions and average pooling C63. Max pooling is C64.."
  },
  {
   "property": "C55",
   "status": "partial",
   "theorems": [
    "CrypTen.C55_adjoint_partial",
    "CrypTen.C55_entries_partial",
    "CrypTen.C55_empty_wrong"
   ],
   "note": "Proved for all shapes without a dimension 1 broadcast to 0; that case is false (witness): the gradient keeps size 0."
  },
  {
   "property": "C36",
   "status": "proved",
   "theorems": [
    "CrypTen.Threads.C36_results",
    "CrypTen.Threads.C36_progress",
    "CrypTen.Threads.C36_completes"
   ],
   "note": "For all thread counts, programs (all_gather, gather, all_reduce, reduce, scatter; payloads may depend on earlier results), payloads and schedules: right results, no deadlock, bounded number of steps to completion."
  },
  {
   "property": "C37",
   "status": "partial",
   "theorems": [
    "CrypTen.Threads.C37_broadcast_same_root_partial",
    "CrypTen.Threads.C37_neighbours_partial",
    "CrypTen.Threads.C37_broadcast_wrong",
    "CrypTen.Threads.C37_broadcast_gather_wrong",
    "CrypTen.Threads.C37_sync_seeds_wrong"
   ],
   "note": "False: broadcasts have no barrier (witness schedules for two ranks with different roots, for broadcast followed by all_gather, and for the seed exchange at initialisation with three ranks). Proved for broadcasts with a common root and for neighbour exchange alone, for all schedules."
  },
  {
   "property": "C38",
   "status": "partial",
   "theorems": [
    "CrypTen.Serial.C38_only",
    "CrypTen.Serial.C38_rejected",
    "CrypTen.Serial.C38_permanent",
    "CrypTen.Serial.C38_stream",
    "CrypTen.Serial.C38_order_partial",
    "CrypTen.Serial.C38_order_wrong"
   ],
   "note": "Everything except order-independence is proved for all streams (of a pickle machine with nested storages) and all registration histories. Order-independence is false when two classes share a qualified name (the last registration wins, also over the allow-list); proved when names are distinct."
  },
  {
   "property": "C39",
   "status": "partial",
   "theorems": [
    "CrypTen.Serial.C39_tensor_partial",
    "CrypTen.Serial.C39_module_partial",
    "CrypTen.Serial.C39_buffers_wrong"
   ],
   "note": "False for buffers, which are broadcast in the clear (witness: running mean). Proved: the message for tensors depends on the shape only; two modules give the same message iff they have equal structure and equal buffers, so parameters are never revealed."
  },
  {
   "property": "C44",
   "status": "partial",
   "theorems": [
    "CrypTen.Sgd.C44_step",
    "CrypTen.Sgd.C44_history",
    "CrypTen.Sgd.C44_closed_form",
    "CrypTen.Sgd.C44_zero_grad",
    "CrypTen.Sgd.C44_threshold_shares_partial",
    "CrypTen.Sgd.C44_threshold_boundary_wrong",
    "CrypTen.Sgd.C44_threshold_overflow_wrong",
    "CrypTen.Sgd.C44_shares_partial",
    "CrypTen.Sgd.C44_plain_shares_partial"
   ],
   "note": "Proved on a heap of tensor objects, in exact arithmetic, for all histories and all code between the steps: documented updates (with a closed form), gradients unmodified, entries of magnitude not below the threshold dropped. False as run on shares: the square overflows, so a gradient of 65536 passes the threshold 1 (witness); entries equal to the threshold are dropped although documented to be kept. Away from overflow the decision on shares is right up to the rounding of the square, and after any history of steps on shares (threshold, momentum, dampening, L2 penalty, Nesterov, missing gradients) parameter and velocity are within an explicit error bound of the documented ones; for plain SGD the bound is e + T(eg*lr + (M+eg+n)/2^k)."
  },
  {
   "property": "C60",
   "status": "partial",
   "theorems": [
    "CrypTen.Sgd.C60_update_partial",
    "CrypTen.Sgd.C60_update_twice_wrong",
    "CrypTen.Sgd.C60_update_shared_wrong"
   ],
   "note": "False without a threshold: the gradient object is scaled in place (witnesses for two calls and for a shared gradient). Proved with a threshold on encrypted models."
  },
  {
   "property": "C45",
   "status": "partial",
   "theorems": [
    "CrypTen.Graph.C45_sound",
    "CrypTen.Graph.C45_unique",
    "CrypTen.Graph.C45_forward_partial",
    "CrypTen.Graph.C45_order_partial",
    "CrypTen.Graph.C45_sequential",
    "CrypTen.Graph.C45_two_outputs_wrong",
    "CrypTen.Graph.C45_same_input_twice_wrong",
    "CrypTen.Graph.C45_second_output_wrong",
    "CrypTen.Graph.C45_never_returns_wrong"
   ],
   "note": "For all graphs: whatever forward returns is the recursively evaluated value. For all well-formed graphs of single-output modules with one output: forward succeeds and is independent of the insertion order; Sequential computes the composition. False: several outputs (KeyError after clean-up), a module using a value twice (raises), results that are further outputs of a multi-output module (KeyError), a multi-output module whose name is not among its outputs (never returns)."
  },
  {
   "property": "C46",
   "status": "partial",
   "theorems": [
    "CrypTen.Nn.C46_encrypt_partial",
    "CrypTen.Nn.C46_decrypt_partial",
    "CrypTen.Nn.C46_roundtrip",
    "CrypTen.Nn.C46_encrypt_flagged",
    "CrypTen.Nn.C46_encrypt_iff",
    "CrypTen.Nn.C46_state_dict",
    "CrypTen.Nn.C46_load_partial",
    "CrypTen.Nn.C46_load_rejects_partial",
    "CrypTen.Nn.C46_encrypt_added_child_wrong",
    "CrypTen.Nn.C46_encrypt_reveals_wrong",
    "CrypTen.Nn.C46_buffers_not_loaded_wrong",
    "CrypTen.Nn.C46_strict_extra_key_wrong"
   ],
   "note": "All module trees: encrypt covers every descendant and reveals nothing if the root's flag is not set and flags match the state, decrypt reveals exactly the encrypted tensors and inverts it, state_dict has exactly the parameters and buffers, loading restores the parameters and rejects missing keys, wrong shapes, wrong kinds, wrong versions. False: a module added to an encrypted model stays plaintext, an encrypted buffer is revealed by encrypt(), buffers are not loaded, superfluous keys are accepted."
  },
  {
   "property": "C31",
   "status": "partial",
   "theorems": [
    "CrypTen.Alias.C31_unchanged_partial",
    "CrypTen.Alias.C31_history_partial",
    "CrypTen.Alias.C31_reencoded_partial",
    "CrypTen.Alias.C31_reencoded_iff",
    "CrypTen.Alias.C31_add_value",
    "CrypTen.Alias.C31_view_value",
    "CrypTen.Alias.C31_clone_value",
    "CrypTen.Alias.C31_view_of_operand_wrong"
   ],
   "note": "Proved over heaps with arbitrary aliasing for every operation and program that re-encodes no operand, and, when the second operand is re-encoded, for that operand and every tensor that shares no storage with it; exact characterisation of what changes. The full statement is false: x + b with a scale-1 operand b rescales b's storage in place, so an existing view of b decrypts to 65536 times its value (witness)."
  },
  {
   "property": "C47",
   "status": "partial",
   "theorems": [
    "CrypTen.Cuda.C47_matmul_partial",
    "CrypTen.Cuda.C47_conv_partial",
    "CrypTen.Cuda.C47_avg_pool",
    "CrypTen.Cuda.C47_conv_channels_wrong",
    "CrypTen.Cuda.C47_matmul_long_wrong"
   ],
   "note": "Exactness for every operand, every order of the additions and IEEE rounding to 53 bits, for dot products of up to 2^21 terms, convolutions of up to 512 (kernels below 256 elements) or 2^21 products and windows of up to 2^31 entries. The full statement is false: the block count of the convolutions ignores the channels, so a 1x1 convolution with 513 channels can be inexact in every order of summation; so can a dot product of 2097217 terms."
  },
  {
   "property": "C48",
   "status": "partial",
   "theorems": [
    "CrypTen.C48_max_pool_exact",
    "CrypTen.C48_max_pool_partial",
    "CrypTen.C48_shape_floor",
    "CrypTen.C48_shape_ceil",
    "CrypTen.C48_low_values_wrong",
    "CrypTen.C48_padding_axes_raises_wrong",
    "CrypTen.C48_padding_axes_wrong"
   ],
   "note": "Proved for equal paddings on both axes and windows with a real entry of at least -256 per party (default encoding), for every geometry, party count, algorithm and randomness; exact description of the result otherwise; output sizes proved in both rounding modes. The full statement is false: values below -256n lose to the padding, and different paddings are applied to the wrong axes (witnesses, one raises)."
  },
  {
   "property": "C49",
   "status": "partial",
   "theorems": [
    "CrypTen.OT.C49_delivers",
    "CrypTen.OT.C49_raises_iff",
    "CrypTen.OT.C49_pads_differ_partial",
    "CrypTen.OT.C49_weak_exponent_wrong",
    "CrypTen.OT.C49_choice_hidden_partial",
    "CrypTen.OT.C49_choice_bias_wrong",
    "CrypTen.OT.C49_smooth_group"
   ],
   "note": "Delivery is proved for every list of transfers, every choice, every exponent and every hash with 64 characters, and the sender raises exactly when a message is longer than the pad. The pad of the unchosen message comes from another group element exactly when the sender's exponent is not a multiple of a quarter of the group order; with such an exponent, which randint(0, p-1) may return, the receiver's key opens both messages. The receiver's message hides the choice if its exponent is drawn over one period; the code's range has one value more, so the two distributions differ. The modulus is proved prime and 3 a primitive root by a certificate the kernel checks. Computational hiding of the other pad (discrete logarithms, hash as random oracle) is not modelled; the group order is 2^40-smooth."
  },
  {
   "property": "C50",
   "status": "partial",
   "theorems": [
    "CrypTen.DP.C50_plain",
    "CrypTen.DP.C50_plain_others",
    "CrypTen.DP.C50_integer_labels_wrong",
    "CrypTen.DP.C50_epochs_exact",
    "CrypTen.DP.C50_epochs_probability",
    "CrypTen.DP.C50_first_call",
    "CrypTen.DP.C50_epochs_wrong",
    "CrypTen.DP.C50_encrypted_exact",
    "CrypTen.DP.C50_encrypted_wrong",
    "CrypTen.DP.C50_encrypted_mean_partial",
    "CrypTen.DP.C50_noise_partial",
    "CrypTen.DP.C50_no_noise",
    "CrypTen.DP.C50_noise_rank0_wrong"
   ],
   "note": "Plaintext labels: one call flips right, for all labels and masks; but the caller's tensor is changed in place, so later calls with it flip with the larger probability (1-(1-2q)^k)/2 (exact formula proved), and integer tensors are refused. Encrypted labels: refuted; the result is t + q - 2mt, never a label, and reveals t (proved for every label, flip and provider randomness); only its mean over the flips is right. Noise: right for every source except rank 0, whose noise is ignored."
  },
  {
   "property": "C61",
   "status": "partial",
   "theorems": [
    "CrypTen.DP.C61_loss_gradient",
    "CrypTen.DP.C61_loss_value_partial",
    "CrypTen.DP.C61_loss_value_wrong",
    "CrypTen.DP.C61_last_weight",
    "CrypTen.DP.C61_recovers_partial",
    "CrypTen.DP.C61_bias_wrong",
    "CrypTen.DP.C61_full_jacobian_partial",
    "CrypTen.DP.C61_full_jacobian_wrong",
    "CrypTen.DP.C61_full_jacobian_noise",
    "CrypTen.DP.C61_protocols"
   ],
   "note": "The gradient with respect to the logits is proved for all inputs; the reported loss value is wrong for rappor_prob = 0; the weight of the last layer always gets its true gradient; the other parameters do if the last layer's inputs are linearly independent samples, otherwise a witness shows a wrong gradient of the bias. The protocol full_jacobian is right for batches of one sample, wrong for two (the Jacobian is summed over the batch), adds noise once per sample, and always raises after writing the gradients. Real arithmetic; rounding is the subject of the fixed-point properties."
  },
  {
   "property": "C54",
   "status": "partial",
   "theorems": [
    "CrypTen.C54_masks_agree",
    "CrypTen.C54_masks_threads_wrong",
    "CrypTen.C54_autograd_partial",
    "CrypTen.C54_dropped_exact",
    "CrypTen.C54_masks_must_agree",
    "CrypTen.C54_eval_partial",
    "CrypTen.C54_eval_one_wrong",
    "CrypTen.C54_refused_iff",
    "CrypTen.C54_function",
    "CrypTen.C54_keep_count",
    "CrypTen.C54_expectation",
    "CrypTen.C43_dropout"
   ],
   "note": "Holds for every input, mask, history and number of parties, up to n units in the last place for entries (dropped entries are exactly zero for n<=2 and on the path without gradients). False for parties run as threads (masks differ) and, without gradients, for p=1 in evaluation mode; both shown by counterexample. p=1 with gradients (0/0) is not modelled."
  },
  {
   "property": "C51",
   "status": "partial",
   "theorems": [
    "CrypTen.Stats.C51_cost",
    "CrypTen.Stats.C51_double_counting",
    "CrypTen.Stats.C51_history",
    "CrypTen.Stats.C51_off",
    "CrypTen.Stats.C51_single",
    "CrypTen.Stats.C51_reset",
    "CrypTen.Stats.C51_threads_wrong",
    "CrypTen.Stats.C51_broadcast_obj_wrong",
    "CrypTen.Stats.C51_keyword_wrong"
   ],
   "note": "Proved for every history of calls, resets and changes of the setting in the multi-process communicator, except for broadcast_obj, whose count is shown to be wrong. The in-process communicator never counts anything (shown). With logging on, calls that pass src/dst by keyword raise (shown)."
  },
  {
   "property": "C62",
   "status": "partial",
   "theorems": [
    "CrypTen.ShapeGrad.C62_transpose",
    "CrypTen.ShapeGrad.C62_t",
    "CrypTen.ShapeGrad.C62_clone",
    "CrypTen.ShapeGrad.C62_reshape",
    "CrypTen.ShapeGrad.C62_flatten",
    "CrypTen.ShapeGrad.C62_permute_partial",
    "CrypTen.ShapeGrad.C62_permute_negative_wrong",
    "CrypTen.ShapeGrad.C62_flip",
    "CrypTen.ShapeGrad.C62_unsqueeze",
    "CrypTen.ShapeGrad.C62_squeeze",
    "CrypTen.ShapeGrad.C62_roll",
    "CrypTen.ShapeGrad.C62_narrow_partial",
    "CrypTen.ShapeGrad.C62_narrow_negative_dim_wrong",
    "CrypTen.ShapeGrad.C62_narrow_negative_start_wrong",
    "CrypTen.ShapeGrad.C62_pad_partial",
    "CrypTen.ShapeGrad.C62_pad_negative_wrong",
    "CrypTen.ShapeGrad.C62_index_select",
    "CrypTen.ShapeGrad.C62_gather",
    "CrypTen.ShapeGrad.C62_sum",
    "CrypTen.ShapeGrad.C62_sum_dims_wrong",
    "CrypTen.ShapeGrad.C62_cat",
    "CrypTen.ShapeGrad.C62_stack",
    "CrypTen.ShapeGrad.C62_cat_plain_wrong"
   ],
   "note": "Proved for all shapes and arguments, except: permute with a negative dimension and narrow with a negative dimension always raise in the backward pass, narrow with a negative start raises or returns a zero gradient, pad with a negative amount and sum over a tuple of dimensions raise (each shown); crypten.cat of plain tensors ignores dim (shown). Exact arithmetic on the entries; rounding does not occur in these operations. Tensors without dimensions with dim 0 or -1 (accepted by torch) are outside of the model."
  },
  {
   "property": "C63",
   "status": "partial",
   "theorems": [
    "CrypTen.Conv.C63_conv_partial",
    "CrypTen.Conv.C63_conv_groups_wrong",
    "CrypTen.Conv.C63_conv_empty_batch_wrong",
    "CrypTen.Conv.C63_avg_pool",
    "CrypTen.Conv.C63_avg_pool_unbatched_wrong",
    "CrypTen.Conv.C63_avg_pool_ceil_wrong"
   ],
   "note": "Proved for inputs with any number of spatial dimensions (so for conv1d and conv2d at once), for one group or one channel per group and a batch that is not empty; several groups of several channels (documented) and empty batches raise for every call (shown). Average pooling is proved for inputs with a batch dimension; without one the gradient may have a wrong shape, and ceil_mode is ignored when gradients are on (both shown). Exact arithmetic; torch's convolution and transposed convolution are modelled by their defining sums."
  },
  {
   "property": "C64",
   "status": "partial",
   "theorems": [
    "CrypTen.MaxPool.C64_max_pool_partial",
    "CrypTen.MaxPool.C64_ceil_axes_wrong",
    "CrypTen.MaxPool.C64_unbatched_wrong"
   ],
   "note": "Proved for inputs with batch and channel dimension, equal paddings on both axes (the code asserts it) and, with ceil_mode, equal kernel size, stride and dilation on both axes. With ceil_mode and different axes the sizes are exchanged and the call can raise; inputs with another number of dimensions are accepted by the forward function only (both shown). Exact arithmetic; the value that padding stands for is a parameter (C48)."
  },
  {
   "property": "C65",
   "status": "partial",
   "theorems": [
    "CrypTen.Adaptive.C65_module_partial",
    "CrypTen.Adaptive.C65_function_partial",
    "CrypTen.Adaptive.C65_exact_dyadic",
    "CrypTen.Adaptive.C65_rounding_wrong",
    "CrypTen.Adaptive.C65_function_int_wrong",
    "CrypTen.Adaptive.C65_function_none_wrong"
   ],
   "note": "Proved whenever the floating-point start and end indices are the exact ones, which is proved for all sizes whose ratio is a fraction with a power of two as denominator. False in general: in double precision 29 rows are pooled to 6 instead of 7 (witness, with correctly rounded doubles computed in the kernel). The tensor functions raise for an integer and ignore the width for (None, w) (shown). Exact arithmetic on entries."
  },
  {
   "property": "C66",
   "status": "partial",
   "theorems": [
    "CrypTen.Onnx.C66_slice_sound_partial",
    "CrypTen.Onnx.C66_slice_partial",
    "CrypTen.Onnx.C66_slice_end_zero_wrong",
    "CrypTen.Onnx.C66_slice_raises_wrong",
    "CrypTen.Onnx.C66_expand_partial",
    "CrypTen.Onnx.C66_expand_wrong",
    "CrypTen.Onnx.C66_expand_short_wrong",
    "CrypTen.Onnx.C66_flatten_partial",
    "CrypTen.Onnx.C66_flatten_default",
    "CrypTen.Onnx.C66_flatten_sound",
    "CrypTen.Onnx.C66_flatten_wrong",
    "CrypTen.Onnx.C66_reshape_partial",
    "CrypTen.Onnx.C66_reshape_total_partial",
    "CrypTen.Onnx.C66_reshape_zero_wrong",
    "CrypTen.Onnx.C66_unsqueeze_partial",
    "CrypTen.Onnx.C66_squeeze_partial",
    "CrypTen.Onnx.C66_squeeze_wrong",
    "CrypTen.Onnx.C66_transpose_partial",
    "CrypTen.Onnx.C66_transpose_default_wrong",
    "CrypTen.Onnx.C66_reduceSum_partial",
    "CrypTen.Onnx.C66_reduceSum_no_axes_wrong",
    "CrypTen.Onnx.C66_gather_partial",
    "CrypTen.Onnx.C66_gather_default_wrong",
    "CrypTen.Onnx.C66_pad_partial",
    "CrypTen.Onnx.C66_pad_wrong",
    "CrypTen.Onnx.C66_pad_value_wrong",
    "CrypTen.Onnx.C66_globalAveragePool",
    "CrypTen.Onnx.C66_conv_partial",
    "CrypTen.Onnx.C66_conv_pads_wrong",
    "CrypTen.Onnx.C66_conv_asymmetric_wrong",
    "CrypTen.Onnx.C66_conv_default_wrong",
    "CrypTen.Onnx.C66_pool_partial",
    "CrypTen.Onnx.C66_pool_no_pads",
    "CrypTen.Onnx.C66_pool_strides_raises",
    "CrypTen.Onnx.C66_pool_kernel_wrong",
    "CrypTen.Onnx.C66_pool_pads_wrong",
    "CrypTen.Onnx.C66_pool_dilation_wrong",
    "CrypTen.Onnx.C66_average_pool_wrong",
    "CrypTen.Onnx.C66_clip_partial",
    "CrypTen.Onnx.C66_clip_wrong",
    "CrypTen.Onnx.C66_gemm_partial",
    "CrypTen.Onnx.C66_gemm_wrong",
    "CrypTen.Onnx.C66_sum_operator_wrong",
    "CrypTen.Onnx.C66_arith",
    "CrypTen.Onnx.C66_equal_partial",
    "CrypTen.Onnx.C66_equal_wrong",
    "CrypTen.Onnx.C66_where",
    "CrypTen.Onnx.C66_where_equal_wrong",
    "CrypTen.Onnx.C66_pow_partial",
    "CrypTen.Onnx.C66_pow_wrong",
    "CrypTen.Onnx.C66_cast_partial",
    "CrypTen.Onnx.C66_cast_wrong",
    "CrypTen.Onnx.C66_range_partial",
    "CrypTen.Onnx.C66_range_wrong",
    "CrypTen.Onnx.C66_constantOfShape_partial",
    "CrypTen.Onnx.C66_constantOfShape_wrong",
    "CrypTen.Onnx.C66_shape_partial",
    "CrypTen.Onnx.C66_shape_wrong",
    "CrypTen.Onnx.C66_concat_partial",
    "CrypTen.Onnx.C66_concat_plain_wrong",
    "CrypTen.Onnx.C66_concat_one_wrong",
    "CrypTen.Onnx.C66_concat_mixed_wrong"
   ],
   "note": "Proved for all shapes and entries under the conditions named in each theorem. The general claim is false; shown with witnesses: a slice that ends at 0 from a negative start takes the rest, negative bounds mixed with others raise; Expand by a leading 1 duplicates; Reshape with 0 and Flatten of empty tensors or negative axes raise; Squeeze of a larger dimension is ignored; Pad reads the pads in torch's order; Conv takes every second padding; pools ignore the second kernel size and padding, dilations and count_include_pad; Clip uses -1 and 1 for missing bounds; Gather without axis flattens; several optional attributes are mandatory; Sum and Mean are mapped to reductions. Also: Equal returns the Python object False for tensors of different shapes, so that Where selects the wrong input; Pow raises for fractional or several exponents and is wrong for most integers; Cast ignores encrypted tensors; Range raises where the result is empty; ConstantOfShape needs a value and a dimension; Shape ignores its bounds; Concat of plain tensors ignores the axis, of one or of mixed tensors raises. Exact arithmetic except for Clip, which is about shares."
  },
  {
   "property": "C67",
   "status": "partial",
   "theorems": [
    "CrypTen.BatchNorm.C67_eval_partial",
    "CrypTen.BatchNorm.C67_train",
    "CrypTen.BatchNorm.C67_encrypt_source",
    "CrypTen.BatchNorm.C67_train_plain_raises",
    "CrypTen.BatchNorm.C67_set_var_wrong",
    "CrypTen.BatchNorm.C67_encrypt_wrong",
    "CrypTen.BatchNorm.C67_running_var_wrong",
    "CrypTen.BatchNorm.C67_onnx_eval",
    "CrypTen.BatchNorm.C67_onnx_train"
   ],
   "note": "Proved for every history in which running_var is not replaced in evaluation mode and the layer is not encrypted in evaluation mode while the parties hold different running variances; both exceptions give wrong outputs (shown). The running variance follows the variance with divisor N, torch's with N - 1 (shown). Exact arithmetic; 1 / sqrt(v + eps) is a parameter."
  },
  {
   "property": "C68",
   "status": "partial",
   "theorems": [
    "CrypTen.Recording.C68_program_partial",
    "CrypTen.Recording.C68_not_required",
    "CrypTen.Recording.C68_no_exception",
    "CrypTen.Recording.C68_in_place_rejected",
    "CrypTen.Recording.C68_keyword_wrong",
    "CrypTen.Recording.C68_alignment_wrong",
    "CrypTen.Recording.C68_unrecorded_functions",
    "CrypTen.Recording.C68_native_wrong",
    "CrypTen.Recording.C68_prod_wrong",
    "CrypTen.Recording.C68_index_add_wrong",
    "CrypTen.Recording.C68_in_place_wrong",
    "CrypTen.Recording.C68_set_item_wrong",
    "CrypTen.Recording.C68_dropout_wrong",
    "CrypTen.Recording.C68_detach_wrong",
    "CrypTen.Recording.C68_own_target_wrong"
   ],
   "note": "Proved for programs in which encrypted operands that require a gradient are passed positionally, not after a plaintext operand, not to unrecorded functions, not to in-place operations, and only leaves are detached. Outside these conditions gradients are lost or wrong without an exception, shown by one program for each condition. Exact gradients, one backward call."
  },
  {
   "property": "C69",
   "status": "partial",
   "theorems": [
    "CrypTen.GradBuffers.C69_accumulate_partial",
    "CrypTen.GradBuffers.C69_new_inputs",
    "CrypTen.GradBuffers.C69_computed_first",
    "CrypTen.GradBuffers.C69_triple_wrong",
    "CrypTen.GradBuffers.C69_power_wrong",
    "CrypTen.GradBuffers.C69_shared_wrong",
    "CrypTen.GradBuffers.C69_clear_wrong",
    "CrypTen.GradBuffers.C69_caller_wrong"
   ],
   "note": "Proved for callers who do not pass a tensor again as gradient input after it has become the gradient of a leaf (which happens when only views lie between). Otherwise gradients are doubled or shared between leaves, and the caller's tensor changes (shown). Which operations return views is read off gradients.py; views are identified with their storage."
  },
  {
   "property": "C70",
   "status": "partial",
   "theorems": [
    "CrypTen.OnnxGraph.C70_import_partial",
    "CrypTen.OnnxGraph.C70_unsupported_raises",
    "CrypTen.OnnxGraph.C70_accepts",
    "CrypTen.OnnxGraph.C70_initializer_input_wrong",
    "CrypTen.OnnxGraph.C70_repeated_input_wrong",
    "CrypTen.OnnxGraph.C70_second_output_wrong",
    "CrypTen.OnnxGraph.C70_identity_wrong",
    "CrypTen.OnnxGraph.C70_stuck"
   ],
   "note": "Proved for graphs with one output, whose parameters are not inputs, whose nodes have one output (or are Dropout) and use no value twice. The exceptions are converted, but every forward pass raises (shown). Optional inputs that are left out (empty names) and values used twice make every forward pass of all such graphs raise (C70_stuck). That single layers are right is a hypothesis (C66)."
  },
  {
   "property": "C71",
   "status": "partial",
   "theorems": [
    "CrypTen.Launch.C71_result",
    "CrypTen.Launch.C71_terminates",
    "CrypTen.Launch.C71_progress_partial",
    "CrypTen.Launch.C71_returns_partial",
    "CrypTen.Launch.C71_some_run",
    "CrypTen.Launch.C71_large_values_wrong",
    "CrypTen.Launch.C71_maxsize_wrong"
   ],
   "note": "The result is right for every schedule. That the launch returns is proved for values that fit into the pipe together and queues with a place for every process; otherwise it never returns (shown). The behaviour of multiprocessing.Queue (semaphore, writer thread, lock, pipe) follows its documentation; communication between the parties while the function runs is not modelled."
  },
  {
   "property": "C72",
   "status": "partial",
   "theorems": [
    "CrypTen.Program.C72_program",
    "CrypTen.Program.C72_reveal_partial",
    "CrypTen.Program.C72_reveal_any_partial",
    "CrypTen.Program.C72_one_party",
    "CrypTen.Program.C72_reveal_wrong",
    "CrypTen.Program.C72_good_run"
   ],
   "note": "The encrypted value is proved to be within the bound. What get_plain_text returns is within the same bound for numbers not below -1; below that the decoder of C06 adds up to 1 + |v|/(2^k - 1) (witness). Wrap-arounds of truncations are a proviso (C14 and C15 count how many shares and masks cause them); with one party there are none. All tensors have the default precision."
  },
  {
   "property": "C73",
   "status": "partial",
   "theorems": [
    "CrypTen.Validation.C73_transparent",
    "CrypTen.Validation.C73_sound",
    "CrypTen.Validation.C73_complete_partial",
    "CrypTen.Validation.C73_off",
    "CrypTen.Validation.C73_unknown",
    "CrypTen.Validation.C73_tolerance",
    "CrypTen.Validation.C73_div_sound",
    "CrypTen.Validation.C73_inplace_wrong",
    "CrypTen.Validation.C73_attribute_wrong",
    "CrypTen.Validation.C73_inplace_autograd_wrong",
    "CrypTen.Validation.C73_comparison_wrong",
    "CrypTen.Validation.C73_div_wrong"
   ],
   "note": "Proved for methods that are not in-place and of which torch returns numbers. In-place methods are compared with the wrong reference, comparisons and in-place methods under autograd always raise, requires_grad is always true, and the check of div_ rejects correct truncations (witnesses). Which method torch has, and that it does not subtract masks, are assumptions about torch; its rounding is not modelled."
  },
  {
   "property": "C74",
   "status": "partial",
   "theorems": [
    "CrypTen.SequentialDict.C74_modules",
    "CrypTen.SequentialDict.C74_dict_partial",
    "CrypTen.SequentialDict.C74_dict_wrong",
    "CrypTen.SequentialDict.C74_dict_value_wrong",
    "CrypTen.SequentialDict.C74_mixed_wrong"
   ],
   "note": "Proved for modules given as arguments and for ordered dictionaries whose keys are single characters. False otherwise: the key of the previous module is stored as a string, not as a list of names, so the forward pass takes its characters for the names of inputs and raises for every dictionary of two or more modules whose first key has two characters (proved for all such dictionaries); with suitable keys it silently computes something else; a module after a dictionary is unconnected."
  },
  {
   "property": "C75",
   "status": "partial",
   "theorems": [
    "CrypTen.Session.C75_is_initialized",
    "CrypTen.Session.C75_fresh_session",
    "CrypTen.Session.C75_ttp_partial",
    "CrypTen.Session.C75_ttp_wrong",
    "CrypTen.Session.C75_foreign_group_wrong",
    "CrypTen.Session.C75_threads",
    "CrypTen.Session.C75_threads_again",
    "CrypTen.Session.C75_threads_uninit_wrong",
    "CrypTen.Session.C75_threads_resize_wrong",
    "CrypTen.Session.C75_beside_threads",
    "CrypTen.Session.C75_mixed_wrong"
   ],
   "note": "Proved for all histories of init and uninit in one process, and for threads that start in a process without leftovers. False: with a trusted third party every session after the first keeps the old client, whose groups are gone; with a process group of the user, init raises but leaves CrypTen initialised for ever; the first uninit of a thread ends all threads' sessions and the others' raise; threads that did not call uninit leave mailboxes of the wrong number (witnesses, for all histories). torch.distributed is a number for each process group."
  },
  {
   "property": "C76",
   "status": "partial",
   "theorems": [
    "CrypTen.ModuleHeap.C76_parameters",
    "CrypTen.ModuleHeap.C76_train",
    "CrypTen.ModuleHeap.C76_frozen_wrong",
    "CrypTen.ModuleHeap.C76_encrypt",
    "CrypTen.ModuleHeap.C76_encrypt_copies",
    "CrypTen.ModuleHeap.C76_tied_wrong",
    "CrypTen.ModuleHeap.C76_step",
    "CrypTen.ModuleHeap.C76_step_partial",
    "CrypTen.ModuleHeap.C76_optimizer_wrong",
    "CrypTen.ModuleHeap.C76_twice_wrong"
   ],
   "note": "Proved for all acyclic graphs of modules with shared submodules and shared tensors. False: train() and eval() overwrite requires_grad of every parameter, so that frozen parameters are trained; parameters tied before encryption are separate tensors after it; an optimizer made before encrypt() never changes the encrypted model; a layer shared by two parents is listed and updated twice (all proved, the first three for all models). Buffers and momentum are elsewhere (C44)."
  },
  {
   "property": "C77",
   "status": "partial",
   "theorems": [
    "CrypTen.C77_private",
    "CrypTen.C77_result",
    "CrypTen.C77_functions",
    "CrypTen.C77_reductions",
    "CrypTen.C77_comparisons",
    "CrypTen.C77_first_party_wrong"
   ],
   "note": "Perfect privacy, for programs of any length: a bijection between the tuples of the two runs under which all others see the same, and no other tuples give the same view. It assumes that all correct tuples are equally likely and that the dealer is not one of the observers. With the default provider rank 0 is the dealer, and it reads the inputs from the transcript (proved). Honest but curious parties; active security, homomorphic encryption of tuples, and dropout masks are outside."
  },
  {
   "property": "C78",
   "status": "partial",
   "theorems": [
    "CrypTen.Attr.C78_attributes_partial",
    "CrypTen.Attr.C78_set_partial",
    "CrypTen.Attr.C78_add_parameter_wrong",
    "CrypTen.Attr.C78_add_attribute_wrong",
    "CrypTen.Attr.C78_delete_wrong",
    "CrypTen.Attr.C78_class_wrong",
    "CrypTen.Attr.C78_list",
    "CrypTen.Attr.C78_dict_partial",
    "CrypTen.Attr.C78_dict_wrong"
   ],
   "note": "Lists: proved in full. Attributes: proved for all histories in which add_module and register_module are not used with the name of something else; otherwise two things share the name (proved). False: del of a registered name always raises; names the class defines cannot be used for submodules; ModuleDict cannot replace an entry (all proved). The functions taken from torch.nn.ModuleList and ModuleDict are modelled as torch defines them; insert only within the list."
  },
  {
   "property": "C79",
   "status": "partial",
   "theorems": [
    "CrypTen.Loss.C79_mean",
    "CrypTen.Loss.C79_cross_entropy_partial",
    "CrypTen.Loss.C79_batch_of_one_wrong",
    "CrypTen.Loss.C79_batch_of_one_grad_wrong",
    "CrypTen.Loss.C79_batch_of_one_positions_wrong",
    "CrypTen.Loss.C79_class_index_wrong",
    "CrypTen.Loss.C79_rappor_wrong",
    "CrypTen.Loss.C79_party_zero",
    "CrypTen.Loss.C79_plain",
    "CrypTen.Loss.C79_skip",
    "CrypTen.Loss.C79_cross_entropy_grad"
   ],
   "note": "Exact arithmetic. Proved in full for the losses that are means, for cross-entropy of all shapes with more than one observation and more than one class, for plain arguments and for skip_forward. False (proved): cross-entropy of a batch of one observation is divided by the number of classes instead of 1 (with further dimensions the softmax even runs over positions instead of classes); the documented class-index targets are refused; RAPPORLoss with alpha=0 differs from its formula. A plain argument given to an encrypted loss counts with party 0's values only."
  },
  {
   "property": "C80",
   "status": "partial",
   "theorems": [
    "CrypTen.Failure.C80_failures_partial",
    "CrypTen.Failure.C80_random_splits_exist"
   ],
   "note": "Proved for every number of parties except two, and for two parties for programs without division by public numbers and without products with public fractions (shares that are truncated there need not be random). This removes the proviso of C72 about wrap-arounds in favour of a probability. The hypothesis on the provider (each word has at most one of 2^64 - 1 cases, given all earlier requests) is met by ideal randomness, also with the word 2^63 - 1 that generate_random_ring_element never returns (C04); a pseudorandom generator meets it only computationally."
  },
  {
   "property": "C81",
   "status": "partial",
   "theorems": [
    "CrypTen.Export.C81_export_partial",
    "CrypTen.Export.C81_export_current",
    "CrypTen.Export.C81_encrypted_raises",
    "CrypTen.Export.C81_training_mode",
    "CrypTen.Export.C81_original_unchanged",
    "CrypTen.Export.C81_buffers_wrong",
    "CrypTen.Export.C81_later_updates_wrong",
    "CrypTen.Export.C81_unused_parameter_wrong",
    "CrypTen.Export.C81_stale_buffer_wrong",
    "CrypTen.Export.C81_second_export_wrong",
    "CrypTen.Export.C81_always_a_graph"
   ],
   "note": "Parameters, the original model and the exception for encrypted models: proved for all histories, with memory that may be shared. False (proved for all models and histories): buffers and the training flag of the exported model are those of the conversion; the exported model shares memory with the CrypTen model, so later updates change it; every export returns the same object; to_pytorch raises KeyError if some parameter does not occur in the traced graph. What the exporter of torch writes is a hypothesis; modes of submodules are not modelled."
  },
  {
   "property": "C82",
   "status": "partial",
   "theorems": [
    "CrypTen.SplitSession.C82_same_sizes_partial",
    "CrypTen.SplitSession.C82_forward_without_cache",
    "CrypTen.SplitSession.C82_other_batch_wrong",
    "CrypTen.SplitSession.C82_cached_batch_wrong",
    "CrypTen.SplitSession.C82_cache_off_wrong",
    "CrypTen.SplitSession.C82_loss_backward_wrong"
   ],
   "note": "Proved for all sequences of calls with equal sizes, and for forward passes of any sizes without caching. False (proved for all sizes): the size of the last layer's input is cached whatever the setting, so the first backward pass with another batch size fails at all parties but the feature source; with caching, only the feature source raises; switching caching off later leaves the others waiting; loss.backward() never works."
  },
  {
   "property": "C83",
   "status": "partial",
   "theorems": [
    "CrypTen.Files.C83_in_step",
    "CrypTen.Files.C83_no_deadlock",
    "CrypTen.Files.C83_print_in_order",
    "CrypTen.Files.C83_print_dst",
    "CrypTen.Files.C83_save_load_partial",
    "CrypTen.Files.C83_shared_file_wrong",
    "CrypTen.Files.C83_shared_file_value_wrong",
    "CrypTen.Files.C83_save_from_party",
    "CrypTen.Files.C83_failed_save_wrong",
    "CrypTen.Files.C83_threads_wrong"
   ],
   "note": "Proved for all schedules. save/load needs that no two parties write to the same file: with one path on one machine all parties read one and the same share (proved for every schedule). If writing fails at the source of save_from_party all others wait for ever; with parties in threads, barrier cannot be called, so all these calls raise."
  },
  {
   "property": "C84",
   "status": "partial",
   "theorems": [
    "CrypTen.Randn.C84_size",
    "CrypTen.Randn.C84_box_muller",
    "CrypTen.Randn.C84_randn_partial",
    "CrypTen.Randn.C84_bounded",
    "CrypTen.Randn.C84_tail_wrong"
   ],
   "note": "With ideal uniform numbers and exact log, sqrt, sin and cos: with 2*pi for the constant, the joint distribution is exactly that of independent standard normal numbers; with the constant of the code every event's probability is within 5e-10 per pair. With the uniform numbers of rand (multiples of 2^-16) no value exceeds 4.71: the tail is missing. The approximations of log, sqrt, cos and sin (C53) are not combined with this."
  },
  {
   "property": "C85",
   "status": "partial",
   "theorems": [
    "CrypTen.Copies.C85_history_partial",
    "CrypTen.Copies.C85_frame",
    "CrypTen.Copies.C85_clone",
    "CrypTen.Copies.C85_read_after_write",
    "CrypTen.Copies.C85_view_precision_wrong",
    "CrypTen.Copies.C85_copy_ptype_wrong",
    "CrypTen.Copies.C85_to_lower_precision_wrong",
    "CrypTen.Copies.C85_from_shares",
    "CrypTen.Copies.C85_from_shares_wrong"
   ],
   "note": "Every program agrees with the same program in the clear, provided that writes are between tensors of one private type, that the precision of what is written is that of every other tensor that looks at the places through another view (exactly then, or for zeros: C85_read_after_write), and that conversions to arithmetic shares do not lower the precision. Without these conditions the property is false (witnesses). Devices and partly overlapping copies (torch raises) are not modelled."
  },
  {
   "property": "C86",
   "status": "partial",
   "theorems": [
    "CrypTen.C86_integer_divisor",
    "CrypTen.C86_zero_divisor",
    "CrypTen.C86_fraction_divisor",
    "CrypTen.C86_large_divisor_wrong",
    "CrypTen.C86_unsupported",
    "CrypTen.C86_infinite_entry",
    "CrypTen.C86_scalar_wrong",
    "CrypTen.C86_unscaled_wrong",
    "CrypTen.C86_mean_of_comparisons_wrong",
    "CrypTen.C86_zero_entry_wrong",
    "CrypTen.C86_encrypted_divisor_partial",
    "CrypTen.C86_encrypted_divisor_default"
   ],
   "note": "Integers: full (up to the no-wrap conditions of C14/C15). Other numbers: proved with the error of the encoded reciprocal, an absolute 2^-precision times |x|, so the property is false for large divisors, for tensors without dimensions (exception), for results of comparisons (no fraction bits), and for zeros among fractions (witnesses). Encrypted divisors: relative to the accuracy of reciprocal (C53), and with numbers for two parties and the default configuration (divisors from 1/4 to 32)."
  },
  {
   "property": "C87",
   "status": "partial",
   "theorems": [
    "CrypTen.Calls.table_names",
    "CrypTen.Calls.C87_calls",
    "CrypTen.Calls.C87_calls_plain_partial",
    "CrypTen.Calls.C87_calls_dim",
    "CrypTen.Calls.C87_calls_wrong",
    "CrypTen.Calls.C87_calls_errors",
    "CrypTen.C87_relu",
    "CrypTen.C87_relu_wrong",
    "CrypTen.C87_hardtanh_value",
    "CrypTen.C87_hardtanh_partial",
    "CrypTen.C87_hardtanh_equal",
    "CrypTen.C87_hardtanh_wrong",
    "CrypTen.C87_relu6",
    "CrypTen.C87_mul_int_partial",
    "CrypTen.C87_mul_int_wrong",
    "CrypTen.C87_pow_value",
    "CrypTen.C87_pow_partial",
    "CrypTen.C87_pow_wrong",
    "CrypTen.C87_pow_zero_wrong",
    "CrypTen.C87_pow_encrypted_wrong",
    "CrypTen.C87_sqrt_abs"
   ],
   "note": "Exactly 38 of the 68 methods (all but cat and stack) read every call in the same way; a distinguishing call is given for each other one, and the calls on which all agree are described. Values: proved for the forward functions that do more than call the native method, relu (all but the smallest number), hardtanh (integral bounds), relu6, products with Python integers (up to rounding), powers 1 to 4, sqrt, abs; false for fractional bounds, products beyond half the range, powers from 5 on, and 0 to the power 0 (witnesses). The torch parameter names are those of its documentation; keyword-only options of torch are not modelled."
  },
  {
   "property": "C88",
   "status": "partial",
   "theorems": [
    "CrypTen.Operators.C88_value",
    "CrypTen.Operators.C88_evaluates_partial",
    "CrypTen.Operators.C88_pow_wrong",
    "CrypTen.Operators.C88_rtruediv_wrong",
    "CrypTen.Operators.C88_plain_left_wrong",
    "CrypTen.Operators.C88_recorded_partial",
    "CrypTen.Operators.C88_subscript_wrong",
    "CrypTen.Operators.C88_no_grad",
    "CrypTen.Operators.C88_augmented",
    "CrypTen.Operators.C88_augmented_raises",
    "CrypTen.Operators.C88_augmented_new"
   ],
   "note": "Values and secrecy: for every expression that evaluates. Which expressions evaluate: exactly those without a power of an encrypted tensor, a number over an encrypted tensor, or a plain tensor to the left of an encrypted one. Gradients: for every expression without subscripts; false for subscripts. The named methods are taken to be exact here; how Python and torch dispatch operators is taken from their documentation."
  },
  {
   "property": "C89",
   "status": "partial",
   "theorems": [
    "CrypTen.BinT.C89_program",
    "CrypTen.BinT.C89_construct",
    "CrypTen.BinT.C89_construct_errors",
    "CrypTen.BinT.C89_iand_grows_wrong",
    "CrypTen.BinT.C89_sum_empty_wrong"
   ],
   "note": "Programs: proved for all of them, except that nothing is promised after `x &= y` or `x |= y` with an encrypted `y` larger than `x`, for sums with nothing to add up and for a dimension of a tensor without dimensions (the first two are bugs). Circuits take two encrypted operands here (public ones: C18, C19). Every tensor has storage of its own. Constructor: all parties use the same `src` and `broadcast_size`."
  },
  {
   "property": "C90",
   "status": "partial",
   "theorems": [
    "CrypTen.CudaT.C90_program_partial",
    "CrypTen.CudaT.C90_accepts",
    "CrypTen.CudaT.C90_floordiv_partial",
    "CrypTen.CudaT.C90_torch_function",
    "CrypTen.CudaT.C90_wrapped",
    "CrypTen.CudaT.C90_wrong"
   ],
   "note": "Every program without `//`, `//=` and `number ** x` computes what torch computes or raises; exactly which statements raise is characterised. Missing: floor division with negative entries, `//=` on shared storage, and `number ** x`, where the results differ (bugs); statements that torch executes and the class refuses. Not modelled: views of a part of a tensor, floating point results, devices."
  },
  {
   "property": "C91",
   "status": "partial",
   "theorems": [
    "CrypTen.Layers.C91_linear",
    "CrypTen.Layers.C91_linear_refused",
    "CrypTen.Layers.C91_matmul",
    "CrypTen.Layers.C91_matmul_refused",
    "CrypTen.Layers.C91_conv1d_partial",
    "CrypTen.Layers.C91_conv2d",
    "CrypTen.Layers.C91_conv_refused",
    "CrypTen.Layers.C91_conv1d_tuple_wrong",
    "CrypTen.Layers.C91_linear_encrypted"
   ],
   "note": "Complete for Linear, MatMul with matrices as second factors, and Conv2d with batched input. Missing: Conv1d with a tuple for stride or padding, which is documented and refused (C91_conv1d_tuple_wrong). Not modelled: inputs of convolutions without batch dimension, batched second factors of MatMul, the random initial parameters."
  },
  {
   "property": "C92",
   "status": "partial",
   "theorems": [
    "CrypTen.Registry.C92_names",
    "CrypTen.Registry.C92_unique",
    "CrypTen.Registry.C92_default",
    "CrypTen.Registry.C92_default_unique",
    "CrypTen.Registry.C92_default_exists",
    "CrypTen.Registry.C92_create",
    "CrypTen.Registry.C92_type",
    "CrypTen.Registry.C92_round_trip_partial",
    "CrypTen.Registry.C92_round_trip_wrong",
    "CrypTen.Registry.C92_join",
    "CrypTen.Registry.C92_join_wrong"
   ],
   "note": "The round trip holds only if no class registered earlier is an ancestor: tensors of a registered subclass of MPCTensor are reported as \"mpc\" (C92_round_trip_wrong), and cat and stack accept mixtures of the two types (C92_join_wrong). Everything else is complete for every history. Classes are names with their lists of ancestors."
  },
  {
   "property": "C93",
   "status": "proved",
   "theorems": [
    "CrypTen.Network.C93_network",
    "CrypTen.Network.C93_decision",
    "CrypTen.Network.C93_good_run"
   ],
   "note": "Two parties, 16 bits of precision, the methods of the default configuration. Lists of lines of any length; each line may have any shape. The proviso on local truncations is that of C05 (two parties). Ranges: exp on -256..0, log on 1/100..100, reciprocal on 1/4..32, sqrt and inv_sqrt on 1/10..128, sigmoid to 128, tanh to 64, cos and sin to 13/2, softmax of 2..31 and log_softmax of 2..98 classes."
  },
  {
   "property": "C94",
   "status": "proved",
   "theorems": [
    "CrypTen.Svm.C94_train",
    "CrypTen.Svm.C94_evaluate",
    "CrypTen.Svm.C94_good_run",
    "CrypTen.Svm.C94_zero_score_wrong"
   ],
   "note": "n parties, any precision. The margin condition is on the plaintext run only. C94_good_run: for every number of parties and all data there is a run without wrap-around. C94_zero_score_wrong: without the margin condition the claim is false."
  },
  {
   "property": "C95",
   "status": "proved",
   "theorems": [
    "CrypTen.Regression.C95_epoch",
    "CrypTen.Regression.C95_train",
    "CrypTen.Regression.C95_gradient",
    "CrypTen.Regression.C95_good_run",
    "CrypTen.Regression.C95_large_batch_wrong"
   ],
   "note": "n parties, any precision. The conditions bear on the data and the exact run only. C95_gradient: the gradients of the specification are the derivatives of the loss. C95_good_run: a run without wrap-around exists for all parties and data. C95_large_batch_wrong: with more than 2^k examples the claim fails."
  },
  {
   "property": "C96",
   "status": "partial",
   "theorems": [
    "CrypTen.Moving.C96_device",
    "CrypTen.Moving.C96_encrypted",
    "CrypTen.Moving.C96_stays",
    "CrypTen.Moving.C96_convert",
    "CrypTen.Moving.C96_others",
    "CrypTen.Moving.C96_cuda_cpu",
    "CrypTen.Moving.C96_buffers",
    "CrypTen.Moving.C96_from_shares",
    "CrypTen.Moving.C96_plain_wrong",
    "CrypTen.Moving.C96_tied_wrong",
    "CrypTen.Moving.C96_cast_wrong",
    "CrypTen.Moving.C96_from_shares_wrong"
   ],
   "note": "Moving between devices is proved for all heaps of modules and tensors. Missing because the code does not do it: plaintext parameters are replaced by tensors that are not leaves (C96_plain_wrong) and sharing is lost (C96_tied_wrong), a type for argument rounds the random shares of an encrypted model (C96_cast_wrong), and a parameter set from shares requires no gradient (C96_from_shares_wrong)."
  },
  {
   "property": "C97",
   "status": "proved",
   "theorems": [
    "CrypTen.Logistic.C97_epoch",
    "CrypTen.Logistic.C97_train",
    "CrypTen.Logistic.C97_gradient",
    "CrypTen.Logistic.C97_good_run"
   ],
   "note": "The conditions bear on the data and the exact run only; weights_le bounds the exact run for labels in [0,1]. C97_gradient: the gradients of the specification are the derivatives of the mean cross-entropy. C97_good_run: a run without wrap-around exists for every number of parties and all data. The value of the loss is the subject of C79."
  },
  {
   "property": "C98",
   "status": "proved",
   "theorems": [
    "CrypTen.Backprop.C98_backward",
    "CrypTen.Backprop.C98_derivative",
    "CrypTen.Backprop.C98_entry",
    "CrypTen.Backprop.C98_leaf",
    "CrypTen.Backprop.C98_matmul",
    "CrypTen.Backprop.C98_batch_matmul",
    "CrypTen.Backprop.C98_conv2d",
    "CrypTen.Backprop.C98_tap",
    "CrypTen.Backprop.C98_avg_pool2d",
    "CrypTen.Backprop.C98_max_pool2d",
    "CrypTen.Backprop.C98_max_dim",
    "CrypTen.Backprop.C98_good_run"
   ],
   "note": "C98_backward bounds the errors of all values and gradients; C98_derivative shows that the exact gradients are the derivative in the sense of calculus in every direction, C98_entry for one entry; C98_leaf combines them. C98_matmul, C98_batch_matmul and C98_conv2d: matrix products, batched matrix products and two-dimensional convolutions (with strides, padding and dilation, C98_tap says which entries meet) meet the condition on bilinear functions. C98_avg_pool2d, C98_max_pool2d and C98_max_dim: average pooling, max pooling (without padding) and maxima over a dimension meet the conditions on windows. C98_backward also says exactly which tensors get a gradient. C98_good_run: a run without wrap-around exists for every tape. The order in which backward goes through the graph is the subject of C42."
  },
  {
   "property": "C99",
   "status": "proved",
   "theorems": [
    "CrypTen.Training.C99_train",
    "CrypTen.Training.C99_gradient",
    "CrypTen.Training.C99_good_run"
   ],
   "note": "C99_train bounds the errors after all iterations; C99_gradient shows that the gradients in the exact training are the derivatives of the network's result in the sense of calculus (its condition on ReLU follows from those of C99_train: Fits.smooth). C99_good_run: a run without wrap-around exists for every training."
  },
  {
   "property": "C100",
   "status": "proved",
   "theorems": [
    "CrypTen.Training.C100_backward",
    "CrypTen.Training.C100_train",
    "CrypTen.Training.C100_result",
    "CrypTen.Training.C100_linear",
    "CrypTen.Training.C100_logistic",
    "CrypTen.Training.C100_svm"
   ],
   "note": "Streams of correct tuples correspond one to one such that the others' views are equal. C100_backward: one computation with gradients. C100_train: encryption and all iterations of SGD. C100_result: the share sent when a result is revealed is fixed by the result. C100_linear, C100_logistic, C100_svm: the training loops of C95, C97 and C94."
  },
  {
   "property": "C101",
   "status": "proved",
   "theorems": [
    "CrypTen.Split.C101_gradient",
    "CrypTen.Split.C101_loss",
    "CrypTen.Split.C101_private",
    "CrypTen.Split.C101_result",
    "CrypTen.Split.C101_good_run"
   ],
   "note": "C101_gradient: on shares, for all roles, with or without rappor_prob and noise. C101_loss: without rappor_prob the exact gradient is the Frechet derivative of the mean cross-entropy (with it, C61_loss_gradient says which derivative dLdZ is). C101_private, C101_result: views correspond one to one and the share sent is fixed by the noisy gradient. C101_good_run: the proviso on wrap-around can be met. What the feature source does with the gradient is C61."
  },
  {
   "property": "C102",
   "status": "proved",
   "theorems": [
    "CrypTen.Cnn.C102_train",
    "CrypTen.Cnn.C102_private_alice",
    "CrypTen.Cnn.C102_private_bob",
    "CrypTen.Cnn.C102_good_run"
   ],
   "note": "C102_train: the network, its loss and the descent step are written out independently of tapes; the gradient is a derivative over the reals. Conditions: nothing overflows, no relu operand or pair of pooled values is within its error of a tie, no gradient within its error of the threshold (sample: Verif/Props/CnnSample.lean). C102_private_*: the views correspond one to one. C102_good_run: the proviso on wrap-around can be met. Batches of equal size only; what the revealed losses tell is not counted."
  },
  {
   "property": "C103",
   "status": "partial",
   "theorems": [
    "CrypTen.Tensorboard.C103_graph_partial",
    "CrypTen.Tensorboard.C103_sequential",
    "CrypTen.Tensorboard.C103_module",
    "CrypTen.Tensorboard.C103_class",
    "CrypTen.Tensorboard.C103_names",
    "CrypTen.Tensorboard.C103_shared_wrong",
    "CrypTen.Tensorboard.C103_dict_wrong",
    "CrypTen.Tensorboard.C103_outputs_wrong",
    "CrypTen.Tensorboard.C103_names_wrong"
   ],
   "note": "C103_sequential: complete for Sequential(*layers) with distinct layers. Proved for all graphs in which no module object occurs twice, names do not clash and operands are inputs or modules, and for all modules that are no graphs. False, with KeyError, for a module in two places, for Sequential with a dictionary and for operands that are one of several results of a module; inputs and modules can get the same node name."
  },
  {
   "property": "C104",
   "status": "partial",
   "theorems": [
    "CrypTen.Meters.C104_accuracy",
    "CrypTen.Meters.C104_accuracy_exact",
    "CrypTen.Meters.C104_average",
    "CrypTen.Meters.C104_validate",
    "CrypTen.Meters.C104_validate_exact",
    "CrypTen.Meters.C104_imagenet_first",
    "CrypTen.Meters.C104_meter_partial",
    "CrypTen.Meters.C104_imagenet_wrong",
    "CrypTen.Meters.C104_ragged_wrong"
   ],
   "note": "Proved for accuracy, AverageMeter and validate. False for AccuracyMeter: it takes the first k batches where it should take the first k ranks, so mpc_imagenet reports the accuracy of the first sample divided by the number of samples (proved for all data); it raises when batches differ in size."
  }
 ]
}