{
 "claims": [
  {
   "property": "C01",
   "status": "proved",
   "theorems": [
    "Quad.Props.C01_is_power_of_2",
    "Quad.Props.C01_ceil2",
    "Quad.Props.C01_log2",
    "Quad.Props.C01_log2_domain",
    "Quad.Props.C01_exp2"
   ],
   "note": "All four helpers, exact, with the DomainError of log2."
  },
  {
   "property": "C02",
   "status": "partial",
   "theorems": [
    "Quad.Props.C02_gcd",
    "Quad.Props.C02_extended_gcd_partial",
    "Quad.Props.C02_least_value",
    "Quad.Props.C02_extended_gcd_nonneg",
    "Quad.Props.C02_quotients",
    "Quad.Props.C02_quotient_signs",
    "Quad.Props.C02_int256_partial",
    "Quad.Props.C02_int256_not_bezout"
   ],
   "note": "Proved on the signed machine types for all pairs without the least value of the type, where the code is undefined (C02_least_value). The quotients are right up to sign only (C02_quotient_signs); with __uint128_t the Bezout identity holds modulo 2^128 only (C02_int256_not_bezout)."
  },
  {
   "property": "C03",
   "status": "partial",
   "theorems": [
    "Quad.Props.C03_chinese_remainder_partial",
    "Quad.Props.C03_wide_partial",
    "Quad.Props.C03_truncated",
    "Quad.Props.C03_overflow"
   ],
   "note": "Proved on machine types for moduli whose product fits the word type and reduced residues, and for wider domains up to the truncation of the result (C03_wide_partial). Beyond that the property is violated: C03_truncated, C03_overflow."
  },
  {
   "property": "C04",
   "status": "proved",
   "theorems": [
    "Quad.Props.C04_factor_prime",
    "Quad.Props.C04_factor_prime_exponent",
    "Quad.Props.C04_factor_distinct_prime",
    "Quad.Props.C04_get_prime_factors",
    "Quad.Props.C04_get_coprime_factors",
    "Quad.Props.C04_get_proper_divisors"
   ],
   "note": ""
  },
  {
   "property": "C05",
   "status": "partial",
   "theorems": [
    "Quad.Props.C05_get_all_divisors_partial",
    "Quad.Props.C05_get_all_divisors_nonsquare_partial",
    "Quad.Props.C05_duplicates_on_squares"
   ],
   "note": "The full property is false: C05_duplicates_on_squares proves the code repeats the root of every perfect square. Proved: membership for every n, strict order for non-squares."
  },
  {
   "property": "C06",
   "status": "partial",
   "theorems": [
    "Quad.Props.C06_is_prime_partial",
    "Quad.Props.C06_zero_one_reported_prime"
   ],
   "note": "The full property is false at 0 and 1 (C06_zero_one_reported_prime). Proved for every n >= 2."
  },
  {
   "property": "C07",
   "status": "proved",
   "theorems": [
    "Quad.Props.C07_jacobi",
    "Quad.Props.C07_jacobi_refuses",
    "Quad.Props.C07_solovay_strassen"
   ],
   "note": "Solovay-Strassen modelled for words at least as wide as int."
  },
  {
   "property": "C08",
   "status": "partial",
   "theorems": [
    "Quad.Props.C08_get_code_len",
    "Quad.Props.C08_get_code_len_minimal_partial",
    "Quad.Props.C08_get_code_len_not_minimal",
    "Quad.Props.C08_get_code_len_high_compo_partial",
    "Quad.Props.C08_high_compo_one"
   ],
   "note": "Minimality of get_code_len is false (C08_get_code_len_not_minimal), as is get_code_len_high_compo at n=1 (C08_high_compo_one). Divisibility and lower bound are proved for all inputs, minimality in the cases where it holds."
  },
  {
   "property": "C09",
   "status": "proved",
   "theorems": [
    "Quad.Props.C09_ring_ops",
    "Quad.Props.C09_exp",
    "Quad.Props.C09_add_needs_spare_bit"
   ],
   "note": "Every modulus with a spare bit; C09_add_needs_spare_bit shows the precondition is needed."
  },
  {
   "property": "C10",
   "status": "partial",
   "theorems": [
    "Quad.Props.C10_inv_partial",
    "Quad.Props.C10_div_partial",
    "Quad.Props.C10_log",
    "Quad.Props.C10_inv_wrong_for_uint128"
   ],
   "note": "For the word types whose SignedDoubleSize is signed (16, 32, 64 bits). For __uint128_t the property is false: C10_inv_wrong_for_uint128."
  },
  {
   "property": "C11",
   "status": "partial",
   "theorems": [
    "Quad.Props.C11_init",
    "Quad.Props.C11_get_nth_root",
    "Quad.Props.C11_get_nth_root_general",
    "Quad.Props.C11_get_order",
    "Quad.Props.C11_check_primitive_root",
    "Quad.Props.C11_is_primitive_root_partial",
    "Quad.Props.C11_zero_accepted",
    "Quad.Props.C11_one_accepted_mod_three",
    "Quad.Props.C11_check_order_naive_partial",
    "Quad.Props.C11_check_order_two"
   ],
   "note": "nth roots, order, generator found by init: all inputs. is_primitive_root is false of the code at 0 (C11_zero_accepted) and at 1 in GF(3); check_order_naive at order 2 (C11_check_order_two)."
  },
  {
   "property": "C12",
   "status": "proved",
   "theorems": [
    "Quad.C12_modulus",
    "Quad.C12_registers",
    "Quad.C12_mod_mul_both_minus_one",
    "Quad.C12_buffers",
    "Quad.C12_other_modulus_wrong",
    "Quad.C12_prime_fields",
    "Quad.C12_transforms",
    "Quad.C12_marks"
   ],
   "note": "registers, buffer kernels, butterflies, transforms and post-processing equal the scalar code; C12_other_modulus_wrong: the buffer kernels are wrong for any other modulus, and C12_mod_mul_both_minus_one: mod_mul's exception is real"
  },
  {
   "property": "C13",
   "status": "partial",
   "theorems": [
    "Quad.Props.C13_binary_mul_coef_to_buf",
    "Quad.Props.C13_binary_add_two_bufs",
    "Quad.Props.C13_binary_sub_two_bufs",
    "Quad.Props.C13_binary_hadamard_mul",
    "Quad.Props.C13_binary_neg",
    "Quad.Props.C13_binary_mul_vec_to_vecp_partial",
    "Quad.Props.C13_binary_all_ones_coefficient_wrong",
    "Quad.Props.C13_vectorised_binary_wrong",
    "Quad.Props.C13_mul_coef_to_buf",
    "Quad.Props.C13_add_two_bufs",
    "Quad.Props.C13_sub_two_bufs",
    "Quad.Props.C13_hadamard_mul",
    "Quad.Props.C13_neg",
    "Quad.Props.C13_mul_vec_to_vecp",
    "Quad.Props.C13_add_vecp_to_vecp",
    "Quad.Props.C13_sub_vecp_to_vecp"
   ],
   "note": "Prime fields and GF(2^n), any buffer contents and sizes. Partial because it is false, with proofs: multiplying by the all-ones coefficient of GF(2^n) copies the buffer, and the SIMD builds use Fermat constants whatever the field (C13_vectorised_binary_wrong, C12_other_modulus_wrong)."
  },
  {
   "property": "C14",
   "status": "partial",
   "theorems": [
    "Quad.Props.C14_create_partial",
    "Quad.Props.C14_modulus_irreducible",
    "Quad.Props.C14_add",
    "Quad.Props.C14_mul",
    "Quad.Props.C14_inv",
    "Quad.Props.C14_div",
    "Quad.Props.C14_exp",
    "Quad.Props.C14_log",
    "Quad.Props.C14_log_exp_inverse",
    "Quad.Props.C14_nth_root",
    "Quad.Props.C14_division_by_zero",
    "Quad.Props.C14_full_width_tables_wrong"
   ],
   "note": "Every n the constructor accepts. Partial because it is false, with a proof, when the element type is exactly n bits wide (BinExtension<uint8_t>(8), BinExtension<uint16_t>(16)): the tables then stay partly uninitialised."
  },
  {
   "property": "C15",
   "status": "proved",
   "theorems": [
    "Quad.Props.C15_constructor",
    "Quad.Props.C15_constructor_refuses",
    "Quad.Props.C15_add",
    "Quad.Props.C15_sub",
    "Quad.Props.C15_neg",
    "Quad.Props.C15_mul",
    "Quad.Props.C15_inv",
    "Quad.Props.C15_div",
    "Quad.Props.C15_exp",
    "Quad.Props.C15_log",
    "Quad.Props.C15_replicate",
    "Quad.Props.C15_hadamard_mul"
   ],
   "note": "Every lane count that fits a word type of 32, 64 or 128 bits, scalar and vectorised builds; inverse of a zero lane is zero."
  },
  {
   "property": "C16",
   "status": "proved",
   "theorems": [
    "Quad.Props.C16_pack_unpack",
    "Quad.Props.C16_unpack",
    "Quad.Props.C16_unpack_pack",
    "Quad.Props.C16_pack_flag"
   ],
   "note": "Scalar and vectorised builds."
  },
  {
   "property": "C17",
   "status": "partial",
   "theorems": [
    "Quad.Props.C17_ctor",
    "Quad.Props.C17_fft_partial",
    "Quad.Props.C17_other_lengths_read_old_output"
   ],
   "note": "Every power-of-two size over every prime field the library builds, when the longer of input and declared data length is a power of two (the codes always use such lengths). Otherwise false: C17_other_lengths_read_old_output."
  },
  {
   "property": "C18",
   "status": "proved",
   "theorems": [
    "Quad.Props.C18_fft_inv",
    "Quad.Props.C18_ifft_fft",
    "Quad.Props.C18_fft_ifft",
    "Quad.Props.C18_short_input_reads_old_output"
   ],
   "note": "Full-length vectors over every prime field the library builds. C18_short_input_reads_old_output records that the word fft_inv does not extend shorter inputs."
  },
  {
   "property": "C19",
   "status": "partial",
   "theorems": [
    "Quad.Props.C19_fft_memory_partial",
    "Quad.Props.C19_fft_inv_memory",
    "Quad.Props.C19_fft_partial",
    "Quad.Props.C19_fft_inv",
    "Quad.Props.C19_ifft_fft",
    "Quad.Props.C19_buffer_order"
   ],
   "note": "Packets in memory, for every prime field the library builds: columns, untouched inputs, pointer order. fft carries the length condition of C17 (otherwise both versions read the old output)."
  },
  {
   "property": "C20",
   "status": "partial",
   "theorems": [
    "Quad.Props.C20_cooley_tukey",
    "Quad.Props.C20_good_thomas",
    "Quad.Props.C20_naive",
    "Quad.Props.C20_naive_buffers",
    "Quad.Props.C20_naive_buffer_ifft_partial",
    "Quad.Props.C20_naive_buffer_ifft_wrong",
    "Quad.Props.C20_size2",
    "Quad.Props.C20_single",
    "Quad.Props.C20_large",
    "Quad.Props.C20_naive_overflow",
    "Quad.Props.C20_cooley_tukey_overflow",
    "Quad.Props.C20_good_thomas_overflow",
    "Quad.Props.C20_too_long"
   ],
   "note": "Cooley-Tukey, Good-Thomas, Naive, Size2, Single and Large compute the transform of their root and ifft undoes fft, over prime and binary extension fields. Partial: the packet ifft of Naive is wrong over GF(2^n) (C20_naive_buffer_ifft_wrong); lengths whose index products overflow int are undefined when the transform is built (C20_naive_overflow, C20_cooley_tukey_overflow, C20_good_thomas_overflow); lengths from 2^31 to 2^32 throw (C20_too_long); for Good-Thomas, lengths between n*(n1+1) > 2^31 and overflow in the views are not decided."
  },
  {
   "property": "C21",
   "status": "proved",
   "theorems": [
    "Quad.Props.C21_any_basis",
    "Quad.Props.C21_default_basis",
    "Quad.Props.C21_points_differ"
   ],
   "note": "For every supported field GF(2^n), every basis of independent elements (and the default basis g, g^2, .., g^(m-1), 1 for every 1 <= m <= n), every previous content of the memory: length, points, fft = evaluations at the span in index order, ifft inverts fft and fft inverts ifft. m must be smaller than the number of bits of the word type (exp2)."
  },
  {
   "property": "C22",
   "status": "proved",
   "theorems": [
    "Quad.Props.C22_taylor_expand",
    "Quad.Props.C22_taylor_expand_t2"
   ],
   "note": "taylor_expand and inv_taylor_expand for every t >= 2 and every degree bound d, polynomials over GF(2)[z]/modulus; taylor_expand_t2 for the lengths that are powers of two."
  },
  {
   "property": "C23",
   "status": "partial",
   "theorems": [
    "Quad.Props.C23_streams_horizontal_partial",
    "Quad.Props.C23_short_word_lost",
    "Quad.Props.C23_new",
    "Quad.Props.C23_streams",
    "Quad.Props.C23_blocks"
   ],
   "note": "RsFnt for uint16 (word size 1), uint32 and uint64 (word sizes 1 and 2), scalar and vectorised builds (vectorised: words half as wide as elements, or uint64), every n_data, n_parities >= 1 the constructor accepts, any selection of at least n_data fragments: streams in packets and whole blocks in both modes, for objects with any history of calls (C23_streams, C23_blocks); streams word by word in non-systematic mode. Systematic word-by-word decoding is undefined behaviour (C25_horizontal_systematic_undefined), so the property as a whole is false there. It is also false when the stream length is not a multiple of the word size: the last word of every fragment is cut and n_data fragments do not determine the data (C23_short_word_lost)."
  },
  {
   "property": "C24",
   "status": "partial",
   "theorems": [
    "Quad.Props.C24_marks_packets",
    "Quad.Props.C24_marks_horizontal_partial"
   ],
   "note": "Packets of any size, both modes, any n_data distinct fragments (C24_marks_packets); word by word in non-systematic mode. Systematic word-by-word restoration is undefined behaviour (C25_horizontal_systematic_undefined)."
  },
  {
   "property": "C25",
   "status": "partial",
   "theorems": [
    "Quad.Props.C25_horizontal_systematic_undefined",
    "Quad.Props.C25_codeword_partial",
    "Quad.Props.C25_horizontal_systematic_encode_undefined"
   ],
   "note": "Proved for packets and blocks. False for streams decoded word by word: C25_horizontal_systematic_undefined."
  },
  {
   "property": "C26",
   "status": "proved",
   "theorems": [
    "Quad.Props.C26_horizontal_too_few",
    "Quad.Props.C26_horizontal_all_data",
    "Quad.Props.C26_vertical_too_few",
    "Quad.Props.C26_vertical_all_data",
    "Quad.Props.C26_blocks"
   ],
   "note": "Streams word by word and in packets, and blocks, for every code built on the base class. The only precondition is a positive packet size."
  },
  {
   "property": "C27",
   "status": "proved",
   "theorems": [
    "Quad.Props.C27_recovery"
   ],
   "note": "RsGf2n (Vandermonde) on streams, for every supported field; construction, encoding and decoding. Dimensions whose products overflow int are excluded by modelling dimensions as naturals."
  },
  {
   "property": "C28",
   "status": "partial",
   "theorems": [
    "Quad.Props.C28_recovery_partial",
    "Quad.Props.C28_two_parities",
    "Quad.Props.C28_three_losses_fail",
    "Quad.Props.C28_bad_pattern_exists"
   ],
   "note": "The full property is false of the code: C28_three_losses_fail exhibits, for every n_parities >= 3, loss patterns for which decode throws DomainError. Proved for at most two parities (C28_two_parities) and for the loss patterns of C28_recovery_partial."
  },
  {
   "property": "C29",
   "status": "proved",
   "theorems": [
    "Quad.Props.C29_inv_prime",
    "Quad.Props.C29_inv_binary",
    "Quad.Props.C29_mul_prime",
    "Quad.Props.C29_mul_binary"
   ],
   "note": "Prime fields and binary extension fields, every size."
  },
  {
   "property": "C30",
   "status": "partial",
   "theorems": [
    "Quad.Props.C30_multiplicative_recovery",
    "Quad.Props.C30_additive_recovery_partial",
    "Quad.Props.C30_additive_decoding_asserts",
    "Quad.Props.C30_multiplicative_whenever_built"
   ],
   "note": "Multiplicative FFT code proved whenever its constructor returns, for every word size (C30_multiplicative_whenever_built; the parameters are decided by C48_gf2n_fft, C48_gf2n_fft_4_partial and C48_gf2n_fft_long_partial). Additive FFT code proved whenever 2 n_data is less than the number of field elements; otherwise decoding fails an assertion (proved). Vertical mode is not offered by these codes."
  },
  {
   "property": "C31",
   "status": "partial",
   "theorems": [
    "Quad.Props.C31_recovery_partial",
    "Quad.Props.C31_constructor_reads_out_of_bounds",
    "Quad.Props.C31_second_transform_too_long",
    "Quad.Props.C31_first_transform_too_long",
    "Quad.Props.C31_whenever_built_partial"
   ],
   "note": "Recovery proved whenever the constructor returns (C31_whenever_built_partial): words of 1 and 2 bytes up to the order of the field and words of 4 bytes up to 4096 data fragments and 1073747968 fragments. Beyond that the constructor reads out of bounds (C31_constructor_reads_out_of_bounds) or fails to allocate (C31_first_transform_too_long, C31_second_transform_too_long)."
  },
  {
   "property": "C32",
   "status": "partial",
   "theorems": [
    "Quad.Props.C32_recovery_partial",
    "Quad.Props.C32_refused_word_sizes",
    "Quad.Props.C32_packets_partial",
    "Quad.Props.C32_constructor",
    "Quad.Props.C32_other_word_sizes"
   ],
   "note": "Proved for words of 2, 4 and 8 bytes, on words and on packets (streams and blocks), for every build, packet size and memory content. The constructor also accepts words of 3, 5, 6 and 7 bytes; there the property is false (C32_other_word_sizes)."
  },
  {
   "property": "C33",
   "status": "partial",
   "theorems": [
    "Quad.Props.C33_round_trip_partial",
    "Quad.Props.C33_failure",
    "Quad.Props.C33_exact_fit_undefined",
    "Quad.Props.C33_foreign",
    "Quad.Props.C33_bad_count_partial",
    "Quad.Props.C33_count_wraps_around",
    "Quad.Props.C33_every_area",
    "Quad.Props.C33_last_word_untouched"
   ],
   "note": "Round trip when at least one word is spare. The exact fit is undefined behaviour (C33_exact_fit_undefined: std::fill with first > last) and a count near 2^32 is accepted and read out of range (C33_count_wraps_around)."
  },
  {
   "property": "C34",
   "status": "proved",
   "theorems": [
    "Quad.Props.C34_text_round_trip",
    "Quad.Props.C34_text_append",
    "Quad.Props.C34_blank_and_comment_lines"
   ],
   "note": "64-bit locations, 32-bit markers. Blank and comment lines anywhere between the properties are skipped (C34_blank_and_comment_lines)."
  },
  {
   "property": "C35",
   "status": "partial",
   "theorems": [
    "Quad.Props.C35_pack",
    "Quad.Props.C35_unpack",
    "Quad.Props.C35_pack_unpack_partial",
    "Quad.Props.C35_unpack_pack_partial",
    "Quad.Props.C35_other_word_sizes_ignored",
    "Quad.Props.C35_readw_writew"
   ],
   "note": "Word sizes 1, 2, 4, 8, 16, the only ones the functions know. For any other size both functions silently do nothing (C35_other_word_sizes_ignored), and RsNf4 accepts size 6."
  },
  {
   "property": "C36",
   "status": "partial",
   "theorems": [
    "Quad.Props.C36_streams_any_length",
    "Quad.Props.C36_horizontal_any_length",
    "Quad.Props.C36_short_word_differs",
    "Quad.Props.C36_streams_unique_partial",
    "Quad.Props.C36_horizontal",
    "Quad.Props.C36_blocks",
    "Quad.Props.C36_zero_packets_streams",
    "Quad.Props.C36_zero_packets_blocks",
    "Quad.Props.C36_zero_packets_decode",
    "Quad.Props.C36_zero_packets_decode_streams",
    "Quad.Props.C36_zero_packets_fermat"
   ],
   "note": "Every packet size except 0, history and build; every stream length in packets (C36_streams_any_length) and word by word (C36_horizontal_any_length). Partial because the property is false, with a proof, when the length is not a multiple of the word size: fragments written in packets are then longer than those written word by word (C36_short_word_differs); and for packets of no words, which the constructor accepts: streams come out empty, with success reported, encoding blocks divides by zero, decoding blocks does not end (C36_zero_packets_*)."
  },
  {
   "property": "C37",
   "status": "partial",
   "theorems": [
    "Quad.Props.C37_new",
    "Quad.Props.C37_round_trip_partial",
    "Quad.Props.C37_payload",
    "Quad.Props.C37_too_few"
   ],
   "note": "Proved: for every block size (< 4 GiB), data, history of both objects and loss pattern leaving n_data blocks, decode returns 0 and restores every full word of every data block; trailing bytes keep what they held; too few blocks give -1 and no change. Missing: systematic codes with n_parities < n_data, for which decode is undefined behaviour (C39_decode_undefined)."
  },
  {
   "property": "C38",
   "status": "partial",
   "theorems": [
    "Quad.Props.C38_failure",
    "Quad.Props.C38_overrun",
    "Quad.Props.C38_fits_partial",
    "Quad.Props.C38_small_partial"
   ],
   "note": "The property is false: C38_failure (encode returns -1 for some data, every code with k >= 2 and every block of enough words) and C38_overrun (exactly fitting metadata writes past its area). Proved: encode returns 0 iff every output fragment has fewer than metadata_size/4 - 2 marked symbols; always for blocks under 14 words or k = 1."
  },
  {
   "property": "C39",
   "status": "partial",
   "theorems": [
    "Quad.Props.C39_decode_undefined",
    "Quad.Props.C39_reconstruct_undefined",
    "Quad.Props.C39_in_bounds_partial"
   ],
   "note": "The property is false for every systematic code with n_parities < n_data (C39_decode_undefined, C39_reconstruct_undefined); proved for all other codes and every erasure pattern (C39_in_bounds_partial)."
  },
  {
   "property": "C40",
   "status": "partial",
   "theorems": [
    "Quad.Props.C40_reconstruct_partial",
    "Quad.Props.C40_too_few"
   ],
   "note": "Proved for every destination except data blocks of systematic codes with n_parities < n_data (undefined, C39_reconstruct_undefined). The last metadata word is never written by encode nor reconstruct, and is left as it is."
  },
  {
   "property": "C41",
   "status": "partial",
   "theorems": [
    "Quad.Props.C41_slice",
    "Quad.Props.C41_slice_extended",
    "Quad.Props.C41_slice_beyond_end_undefined",
    "Quad.Props.C41_concat",
    "Quad.Props.C41_shuffle_partial",
    "Quad.Props.C41_shuffle_not_longer_undefined",
    "Quad.Props.C41_copyOf",
    "Quad.Props.C41_copy",
    "Quad.Props.C41_zero_fill",
    "Quad.Props.C41_separate_even_odd_partial",
    "Quad.Props.C41_separate_odd_fails",
    "Quad.Props.C41_eq"
   ],
   "note": "Slices, zero extension, concatenation, deep copy, copy, fill, comparison in full. Shuffled views not longer than their source, slices beginning beyond the end and an odd number of buffers in separate_even_odd are violations, proved as such."
  },
  {
   "property": "C42",
   "status": "partial",
   "theorems": [
    "Quad.Props.C42_mul_to_x_plus_coef",
    "Quad.Props.C42_derivative",
    "Quad.Props.C42_neg",
    "Quad.Props.C42_mul",
    "Quad.Props.C42_eval_partial",
    "Quad.Props.C42_eval_after_mul",
    "Quad.Props.C42_eval_fresh_undefined"
   ],
   "note": "Coefficient results hold; eval is proved for objects whose coefficients above the member degree are zero. Poly::mul leaves degree stale, so eval after mul can be wrong: C42_eval_after_mul is a witness."
  },
  {
   "property": "C43",
   "status": "partial",
   "theorems": [
    "Quad.Vec.C43_new",
    "Quad.Vec.C43_get",
    "Quad.Vec.C43_set",
    "Quad.Vec.C43_wrap",
    "Quad.Vec.C43_of_list",
    "Quad.Vec.C43_copy_constructor",
    "Quad.Vec.C43_slice",
    "Quad.Vec.C43_set_map",
    "Quad.Vec.C43_zero_fill",
    "Quad.Vec.C43_fill_partial",
    "Quad.Vec.C43_mul_scalar",
    "Quad.Vec.C43_mul_beta_partial",
    "Quad.Vec.C43_neg_partial",
    "Quad.Vec.C43_hadamard_mul_partial",
    "Quad.Vec.C43_add_partial",
    "Quad.Vec.C43_lengths_refused",
    "Quad.Vec.C43_add_at_partial",
    "Quad.Vec.C43_copy_partial",
    "Quad.Vec.C43_copy_n_partial",
    "Quad.Vec.C43_eq",
    "Quad.Vec.C43_sort_partial",
    "Quad.Vec.C43_swap_partial",
    "Quad.Vec.C43_zero_ext_get",
    "Quad.Vec.C43_copy_zero_ext",
    "Quad.Vec.C43_zero_ext_undefined",
    "Quad.Vec.C43_view",
    "Quad.Vec.C43_view_virtual",
    "Quad.Vec.C43_view_fill_misplaced",
    "Quad.Vec.C43_view_remap",
    "Quad.Vec.C43_view_set_vec_fills_old",
    "Quad.Vec.C43_copy_slice_overruns",
    "Quad.Vec.C43_copy_n_slice_not_zero",
    "Quad.Vec.C43_set_map_shrinks",
    "Quad.Vec.C43_view_set_len_unchecked",
    "Quad.Vec.C43_swap_unchecked",
    "Quad.Vec.C43_view_fill_wrong"
   ],
   "note": "Vectors in a memory of blocks; the four classes with their virtual get/set. All element-wise functions proved with frame for vectors and slices (overlap allowed where the forward loop permits), get/set/zero_fill/mul_scalar for views, get and copy for zero-extended vectors. The property is false for functions that use the raw memory of a View or ZeroExtended, for copy from a Slice, for Slice::set_map, View::set_len and swap: proved. Move construction and destruction are in C50, rand in C67, dump in C69. to_poly (its argument type is never defined) and move assignment (it assigns a pointer to an integer) do not compile when used."
  },
  {
   "property": "C44",
   "status": "proved",
   "theorems": [
    "Quad.Alloc.C44_defined",
    "Quad.Alloc.C44_aligned",
    "Quad.Alloc.C44_apart",
    "Quad.Alloc.C44_allocate",
    "Quad.Alloc.C44_deallocate",
    "Quad.Alloc.C44_null",
    "Quad.Alloc.C44_no_leak",
    "Quad.Alloc.C44_contents"
   ],
   "note": "Proved for every history of allocations, writes and releases, for the three instruction sets, and any address operator new may return."
  },
  {
   "property": "C45",
   "status": "partial",
   "theorems": [
    "Quad.Props.C45_compute_omegas",
    "Quad.Props.C45_cached_partial",
    "Quad.Props.C45_cache_longer",
    "Quad.Props.C45_cache_other_field"
   ],
   "note": "compute_omegas in full. The cached variant is proved for the same length; it is violated for a longer file (C45_cache_longer) and across fields (C45_cache_other_field)."
  },
  {
   "property": "C46",
   "status": "proved",
   "theorems": [
    "Quad.Props.C46_exp_mod",
    "Quad.Props.C46_exp",
    "Quad.Props.C46_sqrt"
   ],
   "note": ""
  },
  {
   "property": "C47",
   "status": "partial",
   "theorems": [
    "Quad.Props.C47_ring",
    "Quad.Props.C47_prime",
    "Quad.Props.C47_binary_iff",
    "Quad.Props.C47_binary_partial",
    "Quad.Props.C47_binary_last"
   ],
   "note": "True of the ring objects and prime fields, and of binary fields whose words have spare bits (always true there). False of full-width binary fields: C47_binary_last proves the largest element, a square, is answered false."
  },
  {
   "property": "C48",
   "status": "partial",
   "theorems": [
    "Quad.Props.C48_fnt_counts",
    "Quad.Props.C48_fnt_unsigned",
    "Quad.Props.C48_fnt_uint16_wraps",
    "Quad.Props.C48_fnt",
    "Quad.Props.C48_fnt_uint16",
    "Quad.Props.C48_nf4",
    "Quad.Props.C48_gfp_partial",
    "Quad.Props.C48_gf2n_fft",
    "Quad.Props.C48_gf2n_fft_4_partial",
    "Quad.Props.C48_gf2n_fft_long_partial",
    "Quad.Props.C48_cauchy_reads_out_of_bounds",
    "Quad.Props.C48_additive_accepts_too_long",
    "Quad.Props.C48_vandermonde_accepts",
    "Quad.Props.C48_vandermonde_reads_out_of_bounds"
   ],
   "note": "Exact acceptance conditions are proved for RsFnt and RsNf4, for RsGfpFft, for RsGf2nFft with words of 1 and 2 bytes, and for RsGf2n with Vandermonde matrices (C48_vandermonde_accepts, which also gives recovery for one data fragment and any number of parities), for counts whose sums fit their types. The property is false of RsGf2n beyond the field, whose constructor reads outside a table (C48_cauchy_reads_out_of_bounds, C48_vandermonde_reads_out_of_bounds), of RsGf2nFftAdd (C48_additive_accepts_too_long), of RsGfpFft with words of 4 bytes (C31_constructor_reads_out_of_bounds) and of RsFnt<uint16_t> with sums that wrap (C48_fnt_uint16_wraps). RsGf2nFft with words of 4 bytes accepts exactly what it supports but overflows an int or fails to allocate otherwise (C48_gf2n_fft_4_partial); with words of 8 and 16 bytes it also accepts exactly what it supports (C48_gf2n_fft_long_partial). Missing: how the latter ends otherwise."
  },
  {
   "property": "C49",
   "status": "partial",
   "theorems": [
    "Quad.Props.C49_packets_lose_data",
    "Quad.Props.C49_blocks_lose_data",
    "Quad.Props.C49_fnt_partial"
   ],
   "note": "False for every code that inherits the empty encode(Buffers): C49_packets_lose_data (streams) and C49_blocks_lose_data (the caller's blocks) prove that the fragments do not depend on the data. Holds for RsFnt (C49_fnt_partial) and for RsNf4 (C32_packets_partial)."
  },
  {
   "property": "C50",
   "status": "partial",
   "theorems": [
    "Quad.Life.C50_no_double_free_partial",
    "Quad.Life.C50_owners_partial",
    "Quad.Life.C50_no_leak_partial",
    "Quad.Life.C50_destroy_partial",
    "Quad.Life.C50_assign_frees_twice",
    "Quad.Life.C50_assign_leaks",
    "Quad.Life.C50_set_frees_callers_memory",
    "Quad.Life.C50_set_leaks",
    "Quad.Life.C50_moved_from",
    "Quad.Life.C50_copy_mem_len"
   ],
   "note": "Proved for every history without assignment between Buffers and without Buffers::set; for these two the property is false, and that is proved (C50_assign_frees_twice, C50_assign_leaks, C50_set_frees_callers_memory, C50_set_leaks)."
  },
  {
   "property": "C51",
   "status": "proved",
   "theorems": [
    "Quad.Props.C51_lookup",
    "Quad.Props.C51_sort",
    "Quad.Props.C51_scan"
   ],
   "note": ""
  },
  {
   "property": "C52",
   "status": "partial",
   "theorems": [
    "Quad.Props.C52_interleaved_partial",
    "Quad.Props.C52_packets_join",
    "Quad.Props.C52_packed_partial",
    "Quad.Props.C52_matrix_codes_mix_up"
   ],
   "note": "Proved for the Fermat-number codes in every reachable state and for the packed code. Fails for the matrix codes, whose decoding matrix is kept in the object: C52_matrix_codes_mix_up."
  },
  {
   "property": "C53",
   "status": "partial",
   "theorems": [
    "Quad.Props.C53_names",
    "Quad.Props.C53_names_padded",
    "Quad.Props.C53_fnt_partial",
    "Quad.Props.C53_vandermonde",
    "Quad.Props.C53_cauchy_partial",
    "Quad.Props.C53_multiplicative",
    "Quad.Props.C53_gfp_partial",
    "Quad.Props.C53_additive_partial",
    "Quad.Props.C53_nf4",
    "Quad.Props.C53_whole_words",
    "Quad.Props.C53_extra_bytes_are_lost"
   ],
   "note": "Partial: with different file lengths or files that are not whole words, extra bytes are lost (C53_extra_bytes_are_lost); Cauchy only up to two parities, additive code below half the field."
  },
  {
   "property": "C54",
   "status": "partial",
   "theorems": [
    "Quad.Props.C54_creation_can_be_repeated_partial",
    "Quad.Props.C54_creation_keeps_other_files_partial",
    "Quad.Props.C54_interrupted_repair_loses_files",
    "Quad.Props.C54_failed_repair_ruins_fnt",
    "Quad.Props.C54_failed_repair_ruins_vandermonde",
    "Quad.Props.C54_failed_repair_ruins_cauchy",
    "Quad.Props.C54_failed_repair_ruins_multiplicative",
    "Quad.Props.C54_failed_repair_ruins_gfp",
    "Quad.Props.C54_failed_repair_ruins_additive",
    "Quad.Props.C54_failed_repair_ruins_nf4"
   ],
   "note": "Creation can be repeated and a stopped creation leaves other files alone. The claim about repairs is false of the code: C54_failed_repair_ruins_* and C54_interrupted_repair_loses_files are proved negations."
  },
  {
   "property": "C55",
   "status": "partial",
   "theorems": [
    "Quad.Props.C55_vandermonde",
    "Quad.Props.C55_cauchy_partial",
    "Quad.Props.C55_multiplicative",
    "Quad.Props.C55_additive_partial",
    "Quad.Props.C55_gfp_partial",
    "Quad.Props.C55_nf4_words",
    "Quad.Props.C55_nf4",
    "Quad.Props.C55_fnt"
   ],
   "note": "Proved for the Vandermonde, multiplicative FFT, packed Fermat and Fermat-number codes. Partial for the Cauchy, additive FFT and prime field codes: only for the losses and parameters they recover from (C28, C30, C31)."
  },
  {
   "property": "C56",
   "status": "partial",
   "theorems": [
    "Quad.Props.C56_vandermonde",
    "Quad.Props.C56_cauchy_partial",
    "Quad.Props.C56_multiplicative",
    "Quad.Props.C56_additive_partial",
    "Quad.Props.C56_gfp_partial",
    "Quad.Props.C56_nf4",
    "Quad.Props.C56_fnt_partial",
    "Quad.Props.C56_touches_only_its_files",
    "Quad.Props.C56_wrong_command_lines",
    "Quad.Props.C56_test_option",
    "Quad.Props.C56_too_many_fragments",
    "Quad.Props.C56_success_partial",
    "Quad.Props.C56_ignored_word_sizes",
    "Quad.Props.C56_word_size_is_needed",
    "Quad.Props.C56_unsupported_word_sizes",
    "Quad.Props.C56_fnt_refused",
    "Quad.Props.C56_nf4_word_sizes_empty_files",
    "Quad.Props.C56_negative_word_size",
    "Quad.Driver.C56_command_line",
    "Quad.Driver.C56_command_line_wrong"
   ],
   "note": "C56_vandermonde, C56_multiplicative, C56_nf4, C56_cauchy_partial, C56_additive_partial, C56_gfp_partial, C56_fnt_partial: obeyed end to end from the options. C56_command_line, C56_command_line_wrong: every command line either stands for options, however written, and has their effect, or is refused with no file touched. C56_touches_only_its_files, C56_wrong_command_lines, C56_test_option, C56_too_many_fragments, C56_word_size_is_needed, C56_unsupported_word_sizes, C56_fnt_refused: everything else leaves the files. Violated: C56_ignored_word_sizes, C56_nf4_word_sizes_empty_files, C56_negative_word_size. Not modelled: negative counts of fragments."
  },
  {
   "property": "C57",
   "status": "proved",
   "theorems": [
    "Quad.Props.C57_streams",
    "Quad.Props.C57_streams_value",
    "Quad.Props.C57_streams_local",
    "Quad.Props.C57_streams_recover",
    "Quad.Props.C57_streams_wrong",
    "Quad.Props.C57_blocks",
    "Quad.Props.C57_blocks_value",
    "Quad.Props.C57_blocks_recover"
   ],
   "note": "Streams and blocks of the Fermat-number codes in packets, arbitrary bytes and properties: the decoder is total, writes exactly what it should, keeps the object usable (histories include corrupt decodings), each decoded word is the one interpolated from the symbols seen at that location, so intact locations are recovered; a used fragment with a wrong symbol makes a decoded word wrong, though success is reported (C57_streams_wrong)."
  },
  {
   "property": "C58",
   "status": "partial",
   "theorems": [
    "Quad.Props.C58_refused",
    "Quad.Props.C58_undefined",
    "Quad.Props.C58_too_few",
    "Quad.Props.C58_decode_partial",
    "Quad.Props.C58_more_data_undefined",
    "Quad.Props.C58_outcomes",
    "Quad.Props.C58_recover_partial",
    "Quad.Props.C58_reconstruct_refused",
    "Quad.Props.C58_reconstruct_undefined",
    "Quad.Props.C58_reconstruct_too_few_partial",
    "Quad.Props.C58_reconstruct_data_partial",
    "Quad.Props.C58_reconstruct_more_data_undefined",
    "Quad.Props.C58_reconstruct_coded_partial",
    "Quad.Props.C58_reconstruct_recover_partial"
   ],
   "note": "All block contents are covered by C58_outcomes. Violations, proved: metadata with a count of at least 2^32-2 are read out of range (C58_undefined, C58_reconstruct_undefined); systematic codes with fewer parities than data (C58_more_data_undefined, C58_reconstruct_more_data_undefined); reconstructed metadata that fill their area exactly (C58_reconstruct_coded_partial)."
  },
  {
   "property": "C59",
   "status": "partial",
   "theorems": [
    "Quad.Props.C59_vandermonde",
    "Quad.Props.C59_cauchy_partial",
    "Quad.Props.C59_multiplicative",
    "Quad.Props.C59_additive_partial",
    "Quad.Props.C59_recover",
    "Quad.Props.C59_only_picked"
   ],
   "note": "Vandermonde and multiplicative FFT: all patterns. Partial for the Cauchy code (loss patterns that throw, C28_three_losses_fail) and the additive FFT (half the field or more as data fragments, C30_additive_decoding_asserts), which fail for fragments of any contents."
  },
  {
   "property": "C60",
   "status": "proved",
   "theorems": [
    "Quad.Props.C60_fnt",
    "Quad.Props.C60_gfp",
    "Quad.Props.C60_recover",
    "Quad.Props.C60_local",
    "Quad.Props.C60_repeated_mark_ruins_other_words"
   ],
   "note": "Complete: fragments and properties of any contents, for the FNT code (non-systematic, the mode that decodes word by word) and the prime-field FFT code. The systematic FNT code decoded word by word is undefined (C25_horizontal_systematic_undefined)."
  },
  {
   "property": "C61",
   "status": "proved",
   "theorems": [
    "Quad.Props.C61_words",
    "Quad.Props.C61_recover",
    "Quad.Props.C61_local"
   ],
   "note": "The packed Fermat code, word by word; scalar and vectorised builds. The statement says what marks repeated at one location do."
  },
  {
   "property": "C62",
   "status": "proved",
   "theorems": [
    "Quad.Props.C62_packets",
    "Quad.Props.C62_recover"
   ],
   "note": "The packed Fermat code on packets and blocks, in scalar and vectorised builds, with any marks."
  },
  {
   "property": "C63",
   "status": "partial",
   "theorems": [
    "Quad.Props.C63_encode_partial",
    "Quad.Props.C63_data_lost",
    "Quad.Props.C63_round_trip_partial",
    "Quad.Props.C63_packed_round_trip_partial",
    "Quad.Props.C63_packed_data_lost"
   ],
   "note": "Fermat-number codes, plain and packed, in packets, data streams of any lengths: what is encoded (exact bytes and length) and that decoding from any n_data survivors returns it; the reduction lemma holds for every code class. C64_packed_partial gives what the packed code does in both directions. Missing, because the code violates it: data beyond the deciding length is lost silently (C63_data_lost, C63_packed_data_lost); the last incomplete word if that length is not a multiple of the word size."
  },
  {
   "property": "C64",
   "status": "partial",
   "theorems": [
    "Quad.Props.C64_decode_value",
    "Quad.Props.C64_recover_partial",
    "Quad.Props.C64_wrong_data",
    "Quad.Props.C64_truncation_undetected",
    "Quad.Props.C64_common_prefix_partial",
    "Quad.Props.C64_packed_partial",
    "Quad.Props.C64_packed_recover_partial",
    "Quad.Props.C64_packed_prefix_partial",
    "Quad.Props.C64_packed_truncation_undetected"
   ],
   "note": "Fermat-number codes, plain and packed, in packets, fragments of any lengths, contents and properties: exact length and value of what is decoded, recovery of all words that the used fragments have in full. Missing, because the code violates it: missing ends are not reported (C64_truncation_undetected, C64_packed_truncation_undetected, C64_wrong_data)."
  },
  {
   "property": "C65",
   "status": "partial",
   "theorems": [
    "Quad.Props.C65_unsigned",
    "Quad.Props.C65_unsigned_injective",
    "Quad.Props.C65_signed_partial",
    "Quad.Props.C65_least_undefined"
   ],
   "note": "Unsigned values in full (C65_unsigned, C65_unsigned_injective); signed values except the least (C65_signed_partial), for which the code is undefined (C65_least_undefined)."
  },
  {
   "property": "C66",
   "status": "partial",
   "theorems": [
    "Quad.Props.C66_any_stream",
    "Quad.Props.C66_dump_partial",
    "Quad.Props.C66_injective",
    "Quad.Props.C66_c_api",
    "Quad.Props.C66_null",
    "Quad.Props.C66_left_ambiguous"
   ],
   "note": "Layout for any stream with the form of a byte depending on the flags only (C66_any_stream), exact for streams aligned to the right without base (C66_dump_partial, C66_injective, C66_c_api). On streams that align to the left the property fails (C66_left_ambiguous)."
  },
  {
   "property": "C67",
   "status": "partial",
   "theorems": [
    "Quad.C67_ring_partial",
    "Quad.C67_binary_partial",
    "Quad.C67_ring_128_reaches",
    "Quad.C67_ring_128_misses",
    "Quad.C67_ring_128_outside",
    "Quad.C67_binary_128_small",
    "Quad.C67_packed",
    "Quad.C67_unpacked"
   ],
   "note": "What the distributions return is a parameter ranging over all they may return. Exact characterisation (iff) of what rand returns for cardinals up to 2^64 in all word types, for GF(2^n) with n <= 64 (wrapped cardinal included), for the packed field and unpacked_rand, and for rings above 2^64, where the property is false (proved: 2^64 never drawn, non-elements drawn iff the low half of the cardinal is at least its high half). Vector::rand with frame for vectors, slices and views. Frequencies are not modelled."
  },
  {
   "property": "C68",
   "status": "partial",
   "theorems": [
    "Quad.C68_filename",
    "Quad.C68_any_schedule_partial",
    "Quad.C68_settled",
    "Quad.C68_crash_points"
   ],
   "note": "Transition system: any number of processes, each step one system call or less, any schedule; a killed process takes no more steps, so all crash points are covered. Proved: every call that returns has all entries right but possibly the last digits of the last; once the writers have finished (however they raced, truncations and holes included) the file is complete and later calls are right; exact outcome for each byte at which a single writer is killed. The property is false: after a crash calls fail an assertion for ever or return a wrong last entry (C68_crash_points). File operations are assumed to succeed."
  },
  {
   "property": "C69",
   "status": "partial",
   "theorems": [
    "Quad.Props.C69_vector",
    "Quad.Props.C69_vector_injective",
    "Quad.Props.C69_plain",
    "Quad.Props.C69_zero_extended",
    "Quad.Props.C69_view",
    "Quad.Props.C69_poly",
    "Quad.Props.C69_poly_injective",
    "Quad.Props.C69_matrix",
    "Quad.Props.C69_matrix_row",
    "Quad.Props.C69_matrix_injective",
    "Quad.Props.C69_buffers_partial",
    "Quad.Props.C69_buffers_injective",
    "Quad.Props.C69_buffers_empty_undefined",
    "Quad.Props.C69_context"
   ],
   "note": "Texts of all dumps, and the contents determined by them, for all element types; views, slices and zero-extended vectors included. Partial because Buffers::dump of buffers without elements reads out of bounds: proved (C69_buffers_empty_undefined). std::cout is taken to have its initial flags."
  },
  {
   "property": "C70",
   "status": "partial",
   "theorems": [
    "Quad.Props.C70_generated",
    "Quad.Props.C70_empty_chunk",
    "Quad.Props.C70_detects",
    "Quad.Props.C70_short_chunks",
    "Quad.Props.C70_compare",
    "Quad.Props.C70_equal_partial",
    "Quad.Props.C70_comparison_misses",
    "Quad.Props.C70_comparison_misses_short"
   ],
   "note": "Generated chunks pass, and every corruption of up to four bytes in a row is detected. Chunks of 4 to 8 bytes that compare equal are equal. The claim is false for other sizes: any correct chunk of nine bytes or more compares equal to a different one, and chunks of up to three bytes have no checksum."
  },
  {
   "property": "C71",
   "status": "partial",
   "theorems": [
    "Quad.Props.C71_fnt",
    "Quad.Props.C71_fnt_words",
    "Quad.Props.C71_vandermonde",
    "Quad.Props.C71_cauchy_partial",
    "Quad.Props.C71_multiplicative",
    "Quad.Props.C71_gfp_partial",
    "Quad.Props.C71_additive_partial",
    "Quad.Props.C71_nf4_words",
    "Quad.Props.C71_nf4",
    "Quad.Props.C71_fnt_ends_partial",
    "Quad.Props.C71_vandermonde_ends_partial",
    "Quad.Props.C71_cauchy_ends_partial",
    "Quad.Props.C71_multiplicative_ends_partial",
    "Quad.Props.C71_gfp_ends_partial",
    "Quad.Props.C71_additive_ends_partial",
    "Quad.Props.C71_nf4_ends_partial",
    "Quad.Props.C71_part_words_fail",
    "Quad.Props.C71_success_partial",
    "Quad.Props.C71_no_parities_never_ends",
    "Quad.Props.C71_systematic_words_undefined"
   ],
   "note": "All scenarios pass for the Fermat codes in packets, the non-systematic one word by word, Vandermonde, Cauchy with at most two parities, multiplicative FFT, GF(p), additive FFT and the packed code, within the parameters of their round trips and for chunks of whole words. The claim is false for the systematic Fermat code word by word (undefined behaviour), which the default code 'all' runs, for systematic codes without parities (never ends), and for chunks that are not whole words (option -p 0), where success depends on what memory held: the _ends_partial theorems decide it for at most 4 bytes after the words."
  },
  {
   "property": "C72",
   "status": "partial",
   "theorems": [
    "Quad.Props.C72_options",
    "Quad.Props.C72_runs_partial",
    "Quad.Props.C72_program_partial",
    "Quad.Props.C72_full_length_refused",
    "Quad.Props.C72_refused_returns_zero",
    "Quad.Props.C72_no_type_returns_zero",
    "Quad.Props.C72_status",
    "Quad.Props.C72_wrong_option",
    "Quad.Props.C72_command_line",
    "Quad.Props.C72_command_line_wrong",
    "Quad.Props.C72_all_undefined",
    "Quad.Props.C72_all_refuses_supported"
   ],
   "note": "Options exactly; runs and program for workable parameters. False in general: negations proved for all codes, full length, status."
  },
  {
   "property": "C73",
   "status": "partial",
   "theorems": [
    "Quad.Props.C73_undefined",
    "Quad.Props.C73_independent_partial"
   ],
   "note": "Race by default proved (C73_undefined); independence in all other cases."
  },
  {
   "property": "C74",
   "status": "partial",
   "theorems": [
    "Quad.Props.C74_unsigned_partial",
    "Quad.Props.C74_product_exact",
    "Quad.Props.C74_signed_partial",
    "Quad.Props.C74_never_negative",
    "Quad.Props.C74_below_negative",
    "Quad.Props.C74_divides_by_negative",
    "Quad.Props.C74_divides_partial",
    "Quad.Props.C74_in_ring",
    "Quad.Props.C74_in_gcd"
   ],
   "note": "Every operator is right modulo 2^128, and right when the true result is in [0, 2^128). The full property fails: the high half is never used (C74_product_exact, C74_never_negative, C74_below_negative, C74_divides_by_negative)."
  },
  {
   "property": "C75",
   "status": "partial",
   "theorems": [
    "Quad.Props.C75_words_same_results",
    "Quad.Props.C75_packets_same_results",
    "Quad.Props.C75_encode_words",
    "Quad.Props.C75_encode_packets",
    "Quad.Props.C75_encode_blocks",
    "Quad.Props.C75_decode_words",
    "Quad.Props.C75_decode_packets_partial",
    "Quad.Props.C75_decode_packets_stale",
    "Quad.Props.C75_decode_blocks_partial",
    "Quad.Props.C75_decode_blocks_stale",
    "Quad.Props.C75_printed",
    "Quad.Props.C75_printed_none",
    "Quad.Props.C75_decode_cycles_inflated",
    "Quad.Props.C75_fnt_encode"
   ],
   "note": "Full for encoding and for decoding word by word. Decoding packets and blocks: operations and times proved, but the cycles are divided by the wrong size and calls that decode nothing do not reset (both proved)."
  },
  {
   "property": "C76",
   "status": "partial",
   "theorems": [
    "Quad.Props.C76_figures_partial",
    "Quad.Props.C76_no_samples",
    "Quad.Props.C76_long_samples",
    "Quad.Props.C76_enc_only",
    "Quad.Props.C76_dec_only",
    "Quad.Props.C76_failure_shows_nothing",
    "Quad.Props.C76_enc_dec"
   ],
   "note": "Scenarios show exactly the times of their samples; the figures are their mean, variance and throughput. Fails without samples and when the sum of squares leaves 64 bits (proved). Fractions instead of double."
  },
  {
   "property": "C77",
   "status": "partial",
   "theorems": [
    "Quad.Props.C77_fnt",
    "Quad.Props.C77_vandermonde",
    "Quad.Props.C77_cauchy_partial",
    "Quad.Props.C77_cauchy_close",
    "Quad.Props.C77_fnt_words",
    "Quad.Props.C77_multiplicative",
    "Quad.Props.C77_gfp_partial",
    "Quad.Props.C77_additive",
    "Quad.Props.C77_nf4_words",
    "Quad.Props.C77_nf4",
    "Quad.Props.C77_multiplicative_whenever_built",
    "Quad.Props.C77_gfp"
   ],
   "note": "Proved for the Fermat-number codes (words and packets), Vandermonde, multiplicative FFT whenever its constructor returns (C77_multiplicative_whenever_built), additive FFT (also where its decoder fails), GF(p) whenever its constructor returns (C77_gfp), and the packed code; for Cauchy with at most two parities. With three or more it is false: C77_cauchy_close gives different data whose fragments differ in no more than n_parities places."
  },
  {
   "property": "C78",
   "status": "partial",
   "theorems": [
    "Quad.Props.C78_additive_any_length",
    "Quad.Props.C78_fnt",
    "Quad.Props.C78_matrix",
    "Quad.Props.C78_fnt_words",
    "Quad.Props.C78_multiplicative",
    "Quad.Props.C78_gfp_partial",
    "Quad.Props.C78_additive",
    "Quad.Props.C78_nf4_words",
    "Quad.Props.C78_nf4",
    "Quad.Props.C78_multiplicative_whenever_built",
    "Quad.Props.C78_gfp"
   ],
   "note": "Proved for all codes word by word, GF(p) and the multiplicative FFT whenever their constructors return (C78_gfp, C78_multiplicative_whenever_built), and for the Fermat-number and packed codes in packets. The additive FFT is covered also with more fragments than its field has elements (C78_additive_any_length). Missing: the additive FFT with more than 2^30 fragments, whose lengths overflow an int."
  },
  {
   "property": "C79",
   "status": "proved",
   "theorems": [
    "Quad.Props.C79_additive_any_length",
    "Quad.Props.C79_multiplicative_whenever_built",
    "Quad.Props.C79_matrix",
    "Quad.Props.C79_multiplicative",
    "Quad.Props.C79_additive"
   ],
   "note": "Proved for the matrix codes (Vandermonde and Cauchy), the multiplicative FFT whenever its constructor returns, and the additive FFT, also with more fragments than its field has elements (C79_additive_any_length), up to 2^30."
  },
  {
   "property": "C80",
   "status": "partial",
   "theorems": [
    "Quad.Props.C80_additive_any_length",
    "Quad.Props.C80_multiplicative_whenever_built",
    "Quad.Props.C80_gfp",
    "Quad.Props.C80_fnt",
    "Quad.Props.C80_nf4",
    "Quad.Props.C80_matrix",
    "Quad.Props.C80_fnt_words",
    "Quad.Props.C80_multiplicative",
    "Quad.Props.C80_gfp_partial",
    "Quad.Props.C80_additive",
    "Quad.Props.C80_nf4_words"
   ],
   "note": "Proved for all codes word by word, GF(p) and the multiplicative FFT whenever their constructors return (C80_gfp, C80_multiplicative_whenever_built), and for the Fermat-number and packed codes in packets, where the joined fragments and properties are exactly what encoding the whole writes. The additive FFT is covered also with more fragments than its field has elements (C80_additive_any_length). Missing: the additive FFT with more than 2^30 fragments, whose lengths overflow an int."
  },
  {
   "property": "C81",
   "status": "proved",
   "theorems": [
    "Quad.Props.C81_fnt",
    "Quad.Props.C81_fnt_words",
    "Quad.Props.C81_nf4_words",
    "Quad.Props.C81_nf4",
    "Quad.Props.C81_gfp"
   ],
   "note": "Fermat codes (systematic or not, on packets; non-systematic also word by word), packed Fermat code on packets and word by word, code over GF(p) whenever its constructor returns"
  },
  {
   "property": "C82",
   "status": "partial",
   "theorems": [
    "Quad.Props.C82_fnt",
    "Quad.Props.C82_fnt_words",
    "Quad.Props.C82_multiplicative",
    "Quad.Props.C82_gfp",
    "Quad.Props.C82_additive_partial",
    "Quad.Props.C82_nf4_words",
    "Quad.Props.C82_nf4",
    "Quad.Props.C82_matrix_partial"
   ],
   "note": "Fermat and packed Fermat codes on packets, across builds, and word by word; the other codes word by word, whenever built. Missing: Cauchy losses that are not recovered (C28_three_losses_fail), additive code with half the field or more as data fragments (C30_additive_decoding_asserts)"
  }
 ]
}