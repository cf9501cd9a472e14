{"id": "C01", "title": "Power-of-two helpers are exact", "statement": "For every n: is_power_of_2(n) answers true exactly when n is a power of two; ceil2(n) is the least power of two >= n; log2(n) is the floor of the base-2 logarithm and is refused (DomainError) exactly for n = 0; exp2(x) is 2^x, as long as the result fits the word type.", "quantifier": "every unsigned word n of every width for which the result fits", "why_tests_cant": "The domain is the full range of a 32/64/128-bit word; a test samples a handful of values.", "anchors": ["src/arith.h: is_power_of_2, ceil2, log2, exp2"]}
{"id": "C02", "title": "Extended GCD returns a gcd and Bezout coefficients", "statement": "For all signed a, b not both zero, extended_gcd returns without overflow a common divisor of a and b that every common divisor divides (up to sign), the reported Bezout pair satisfies a*x + b*y = gcd, the reported quotients are a/gcd and b/gcd, and gcd(u,v) is the greatest common divisor.", "quantifier": "every pair of values of the signed type, and every pair of words for gcd", "why_tests_cant": "Infinitely many pairs; the correctness is an invariant of the loop.", "anchors": ["src/arith.h: extended_gcd, gcd"]}
{"id": "C03", "title": "Chinese remainder result satisfies every congruence", "statement": "For any list of pairwise coprime moduli and any residues of the word type, chinese_remainder computes without overflow and the value it returns is congruent to each residue modulo the matching modulus.", "quantifier": "every list length, every choice of pairwise coprime moduli and residues", "why_tests_cant": "Unbounded list lengths and values.", "anchors": ["src/arith.h: chinese_remainder"]}
{"id": "C04", "title": "Integer factorisation is complete and correct", "statement": "For every n >= 2, factor_prime returns exactly the primes dividing n (each once, ascending) with exponents whose product of powers is n; factor_distinct_prime returns exactly the primes dividing n; get_prime_factors lists them with multiplicity so that the product is n; get_coprime_factors returns pairwise coprime factors with product n; get_proper_divisors returns exactly the n/p for primes p < n dividing n.", "quantifier": "every n >= 2", "why_tests_cant": "Unbounded n; trial-division boundary conditions (sqrt bound, leftover factor) only fail for special shapes such as squares of primes.", "anchors": ["src/arith.h: factor_prime, factor_distinct_prime, get_prime_factors, get_coprime_factors, get_proper_divisors"]}
{"id": "C05", "title": "get_all_divisors enumerates the divisors", "statement": "For every n >= 1 the list returned contains exactly the positive divisors of n, sorted and without repetition.", "quantifier": "every n >= 1", "why_tests_cant": "Fails only on perfect squares, which are sparse.", "anchors": ["src/arith.h: get_all_divisors"]}
{"id": "C06", "title": "is_prime decides primality", "statement": "is_prime(n) is true if and only if n is a prime number.", "quantifier": "every n", "why_tests_cant": "All n; the exceptional inputs are corner values.", "anchors": ["src/arith.h: is_prime"]}
{"id": "C07", "title": "Jacobi symbol and Solovay-Strassen never reject a prime", "statement": "For odd m > 0, jacobi(n, m) equals the Jacobi symbol (n/m), and it is refused (DomainError) for even m; and the Solovay-Strassen test never answers composite for an odd prime, whatever random bases are drawn.", "quantifier": "every integer n, every odd m, every sequence of random bases", "why_tests_cant": "Random bases: a test sees one draw.", "anchors": ["src/arith.h: jacobi, solovay_strassen1, solovay_strassen"]}
{"id": "C08", "title": "Code length chosen by the library is usable", "statement": "For every group order and every requested length n with 1 <= n <= order, get_code_len and get_code_len_high_compo return a divisor of the order that is >= n, and get_code_len (documented as returning the smallest such divisor) returns the smallest.", "quantifier": "every order and every n between 2 and order", "why_tests_cant": "The divisor structure of the order matters; minimality fails only for particular orders.", "anchors": ["src/arith.h: get_code_len, get_code_len_high_compo", "src/gf_ring.h: RingModN::get_code_len_high_compo"]}
{"id": "C09", "title": "Modular ring arithmetic is exact", "statement": "For every modulus that leaves one spare bit in the element type and all reduced operands, neg, add, sub, mul, exp return the reduced representative of the exact modular result; results always satisfy check(). (When the modulus uses the top bit, add is wrong: the modulus precondition is necessary.)", "quantifier": "every modulus q < 2^(bits-1), all operands below q, every exponent", "why_tests_cant": "The operand space is q^2 (2^32 and more); wrap-around only shows at the extremes.", "anchors": ["src/gf_ring.h: RingModN::neg, add, sub, mul, exp, exp_quick, exp_naive, check"]}
{"id": "C10", "title": "Prime field inverse and division", "statement": "For a prime p and every b in 1..p-1, inv(b)*b = 1, div(a,b)*b = a, and the Bezout and exponent based inverses agree; log(a,b) either returns an exponent e with a^e = b or throws NoSolution, and it throws only if no exponent in the searched range works.", "quantifier": "every prime p, every nonzero element", "why_tests_cant": "All primes and all elements.", "anchors": ["src/gf_ring.h: RingModN::inv_bezout, div, log_naive", "src/gf_prime.h: inv_exp", "src/gf_base.h: Field::inv"]}
{"id": "C11", "title": "Roots of unity have exact order", "statement": "On a prime field constructed by the library, for every n dividing p-1, get_nth_root(n) is an element whose multiplicative order is exactly n; get_order(x) is the multiplicative order of x; is_primitive_root(x) is true exactly for generators.", "quantifier": "every prime p, every n, every x", "why_tests_cant": "The FFT and every code are silently wrong if the order is a proper divisor of n.", "anchors": ["src/gf_ring.h: get_nth_root, get_order, is_primitive_root, find_primitive_root, check_order_naive, do_step_get_order"]}
{"id": "C12", "title": "Vectorised FNT kernels agree with scalar arithmetic", "statement": "For both word sizes (257 in 16-bit lanes, 65537 in 32-bit lanes) and every pair of lane values in the field, mod_add, mod_sub, mod_neg, mod_mul_safe give exactly the field result, and mod_mul does whenever not both operands are p-1; the buffer kernels built on them equal the scalar code for every buffer length including non-multiples of the register size.", "quantifier": "every lane value, both word sizes, every buffer length", "why_tests_cant": "2^32 lane pairs per kernel for 65537; all lengths.", "anchors": ["src/simd_fnt.h: mod_add, mod_sub, mod_neg, mod_mul, mod_mul_safe", "src/simd_ring.h", "src/simd_radix2_fft.h", "src/gf_ring.cpp"]}
{"id": "C13", "title": "Buffer-level field operations are element-wise", "statement": "mul_coef_to_buf, add_two_bufs, sub_two_bufs, hadamard_mul, neg and mul_vec_to_vecp act on every element of every buffer as the field operation, for every coefficient including 0, 1 and p-1.", "quantifier": "every buffer count, length, contents and coefficient", "why_tests_cant": "Special-cased coefficients and unbounded lengths.", "anchors": ["src/gf_ring.h: mul_coef_to_buf, mul_vec_to_vecp, add_two_bufs, sub_two_bufs, hadamard_mul, neg"]}
{"id": "C14", "title": "Binary extension field arithmetic is a field", "statement": "GF(2^n) add is xor, and mul is multiplication of polynomials over GF(2) modulo the field's polynomial, for both the table and the split-table implementation; every nonzero element has an inverse, div is multiplication by the inverse, and the discrete log and its inverse are mutually inverse.", "quantifier": "every supported n, all elements", "why_tests_cant": "2^64 and larger operand spaces.", "anchors": ["src/gf_bin_ext.h: BinExtension, setup_tables, setup_split_tables, _mul_log, _mul_split, _div_log, _inv_ext_gcd, exp, log"]}
{"id": "C15", "title": "Packed NF4 arithmetic is lane-wise GF(65537)", "statement": "Operations of the packed field on words of n 32-bit lanes act independently on each lane as GF(65537) arithmetic, for every n; no carry crosses lanes.", "quantifier": "every lane count, all valid packed operands", "why_tests_cant": "Operand space 65537^(2n).", "anchors": ["src/gf_nf4.h: add, sub, mul, div, inv, exp, neg, replicate, expand16, expand32"]}
{"id": "C16", "title": "NF4 pack/unpack round trip", "statement": "Unpacking a packed field element and packing the result with its flag gives the element back, for all elements, including lanes holding 65536; packing n 16-bit values and unpacking gives the values back with flag 0.", "quantifier": "every packed element, every n", "why_tests_cant": "65537^n values.", "anchors": ["src/gf_nf4.h: pack, unpack", "src/simd_nf4.h: unpack, pack"]}
{"id": "C17", "title": "Radix-2 FFT computes the DFT", "statement": "For every power-of-two n dividing p-1, every declared data length and every input (shorter inputs being zero-extended), fft writes the evaluations sum_j x_j w^(ij), i<n, never touching memory out of range; initial output contents do not matter.", "quantifier": "every n = 2^k, every data_len = 2^d <= n, every input of length <= data_len, every initial output", "why_tests_cant": "Unbounded sizes and contents.", "anchors": ["src/fft_2n.h: Radix2::fft(Vector), init_bitrev, reverse_bitwise"]}
{"id": "C18", "title": "Radix-2 inverse transforms invert", "statement": "fft_inv writes sum_j y_j w^(-ij) and ifft(fft(x)) = x, fft(ifft(y)) = y for every length-n vector, with the output independent of the previous output contents.", "quantifier": "every n = 2^k, every vector", "why_tests_cant": "Unbounded sizes and contents.", "anchors": ["src/fft_2n.h: Radix2::fft_inv(Vector), ifft(Vector), bit_rev_permute"]}
{"id": "C19", "title": "Buffer FFT equals the vector FFT on every column", "statement": "The packet (Buffers) versions of fft, fft_inv and ifft - including the two-layers-at-a-time butterflies, the shortened first layers for short inputs and the pointer-swapping bit reversal - compute for every packet position the same result as the vector transform of that column, leave the input buffers unchanged and leave the caller's buffer order unchanged.", "quantifier": "every n = 2^k, every packet size, every input length, every contents", "why_tests_cant": "Odd/even numbers of layers, input lengths around powers of two, unbounded sizes.", "anchors": ["src/fft_2n.h: Radix2::fft(Buffers), butterfly_ct_two_layers_step, butterfly_ct_step, fft_inv(Buffers), butterfly_gs_step, butterfly_gs_step_simple"]}
{"id": "C20", "title": "All FFT implementations compute the same transform", "statement": "Naive, Size2, Single (inputs with only the first element nonzero), Cooley-Tukey, Good-Thomas and Large compute the DFT defined by their root of unity; their inverse composed with the forward transform is the identity.", "quantifier": "every supported n and factorisation, every input", "why_tests_cant": "Unbounded n, contents and factorisations.", "anchors": ["src/fft_naive.h", "src/fft_2.h", "src/fft_single.h", "src/fft_ct.h", "src/fft_gt.h", "src/fft_large.h"]}
{"id": "C21", "title": "Additive FFT evaluates on the subspace", "statement": "The additive FFT returns the evaluations of the input polynomial at the points of the linear span it is built on, in the documented order, and ifft inverts fft for every input.", "quantifier": "every m, every field GF(2^n), every input", "why_tests_cant": "Unbounded sizes and contents.", "anchors": ["src/fft_add.h: Additive, fft, ifft, compute_basis, compute_subspace"]}
{"id": "C22", "title": "Taylor expansion is invertible", "statement": "taylor_expand rewrites a polynomial as sum_i g_i(x) (x^t - x)^i and inv_taylor_expand recovers exactly the polynomial, for every degree bound n and every t >= 2.", "quantifier": "every n, t, polynomial", "why_tests_cant": "Unbounded sizes; recursion split points.", "anchors": ["src/fft_add.h: taylor_expand, _taylor_expand, inv_taylor_expand, taylor_expand_t2, inv_taylor_expand_t2, mul_xt_x, find_k"]}
{"id": "C23", "title": "Fermat-number code recovers from any k fragments", "statement": "For the FNT Reed-Solomon code with any n_data, n_parities that fit the field: encoding any data words and decoding from any n_data of the produced fragments (with their recorded properties) returns exactly the original data words.", "quantifier": "every (n_data, n_parities), every data contents, every subset of n_data surviving fragments, every packet position", "why_tests_cant": "Choose(n,k) erasure patterns times all data; decoding uses Lagrange interpolation through several FFTs.", "anchors": ["src/fec_rs_fnt.h", "src/fec_base.h: decode, decode_prepare, decode_apply", "src/fec_context.h: DecodeContext"]}
{"id": "C24", "title": "Out-of-range symbols survive storage", "statement": "A parity symbol equal to 2^(8w) does not fit w bytes; encoding records its location, storage truncates it, and decode_prepare restores exactly the original field element: for every encoded symbol sequence, restore(truncate(s), properties(s)) = s.", "quantifier": "every sequence of symbols in 0..2^(8w), every packetisation", "why_tests_cant": "Occurs with probability 2^-8w per symbol; adversarial data makes it frequent.", "anchors": ["src/fec_rs_fnt.h: encode_post_process", "src/fec_base.h: decode_prepare", "src/fec_vectorisation.cpp", "src/simd_radix2_fft.h: encode_post_process", "src/property.h"]}
{"id": "C25", "title": "Systematic fragments are the data", "statement": "In systematic mode the data fragments are the input data unchanged and the codeword formed by data followed by parities is a codeword of the same code (it is the evaluation vector of one polynomial of degree < n_data), so any n_data fragments of data and parities determine the data.", "quantifier": "every systematic configuration, every data", "why_tests_cant": "All data and patterns.", "anchors": ["src/fec_rs_fnt.h: encode(Buffers), decode_data", "src/fec_base.h: encode_streams_vertical", "src/fec_rs_gf2n.h"]}
{"id": "C26", "title": "Insufficient or complete fragments are handled without decoding", "statement": "Decoding reports failure whenever fewer than n_data fragments are available, and never reads missing fragments; when all systematic data fragments are available it succeeds without changing them.", "quantifier": "every availability pattern", "why_tests_cant": "2^n patterns.", "anchors": ["src/fec_base.h: decode_streams_horizontal, decode_streams_vertical, decode_blocks_vertical"]}
{"id": "C27", "title": "Vandermonde code over GF(2^n) tolerates any n_parities losses", "statement": "Every square submatrix needed to decode the matrix-based code with the Vandermonde generator is invertible: for every surviving set of n_data fragments decode returns the data.", "quantifier": "every (n_data, n_parities) with n_data+n_parities <= 2^n, every surviving subset, every data", "why_tests_cant": "Combinatorially many submatrices.", "anchors": ["src/vec_matrix.h: vandermonde_suitable_for_ec, ec_transform1, ec_transform2, inv", "src/fec_rs_gf2n.h"]}
{"id": "C28", "title": "Cauchy code over GF(2^n) tolerates any n_parities losses", "statement": "The same any-k-of-n guarantee for the Cauchy generator matrix.", "quantifier": "every (n_data, n_parities), every surviving subset, every data", "why_tests_cant": "Combinatorially many submatrices; a single singular one silently loses data.", "anchors": ["src/vec_matrix.h: cauchy", "src/fec_rs_gf2n.h"]}
{"id": "C29", "title": "Matrix inversion", "statement": "Matrix::inv replaces any invertible matrix over a field by its inverse and throws DomainError for every singular one; Matrix::mul is the matrix-vector product.", "quantifier": "every size, every matrix", "why_tests_cant": "Unbounded sizes; pivoting branches.", "anchors": ["src/vec_matrix.h: inv, reduced_row_echelon_form, swap_rows, mul_row, add_rows, mul"]}
{"id": "C30", "title": "GF(2^n) FFT codes recover from any k fragments", "statement": "For the multiplicative-FFT and additive-FFT codes over GF(2^n): any n_data fragments of an encoding decode to the original data.", "quantifier": "every configuration, every data, every surviving subset", "why_tests_cant": "Erasure patterns times data.", "anchors": ["src/fec_rs_gf2n_fft.h", "src/fec_rs_gf2n_fft_add.h", "src/fec_base.h", "src/fec_context.h"]}
{"id": "C31", "title": "GF(p) FFT code recovers from any k fragments", "statement": "For the prime-field FFT code: any n_data fragments with their properties decode to the original data; symbols >= 2^(8w) are restored exactly from the stored remainder and the mark.", "quantifier": "every configuration, every data, every surviving subset", "why_tests_cant": "Erasure patterns times data.", "anchors": ["src/fec_rs_gfp_fft.h", "src/fec_base.h"]}
{"id": "C32", "title": "NF4 code recovers from any k fragments", "statement": "For the packed Fermat code: any n_data fragments with their per-word flags decode to the original data.", "quantifier": "every configuration, every data, every surviving subset", "why_tests_cant": "Erasure patterns times data.", "anchors": ["src/fec_rs_nf4.h", "src/gf_nf4.h", "src/fec_base.h"]}
{"id": "C33", "title": "Properties survive serialisation", "statement": "fnt_serialize followed by fnt_deserialize restores the list of marked locations exactly whenever it reports success and locations fit 32 bits; it reports failure exactly when the area is too small; deserialising foreign bytes without the magic fails without changing the object.", "quantifier": "every list of marks, every area size, every area contents", "why_tests_cant": "All sizes and contents, including the exact-fit boundary.", "anchors": ["src/property.h: fnt_serialize, fnt_deserialize"]}
{"id": "C34", "title": "Properties text format round trip", "statement": "Writing properties to a stream and reading them back yields the same locations and markers. Blank lines and comment lines, indented with any blanks, are skipped on reading.", "quantifier": "every list of (location, marker) pairs", "why_tests_cant": "All lists.", "anchors": ["src/property.cpp: operator<<, operator>>"]}
{"id": "C35", "title": "Word packing round trip", "statement": "Unpacking words to bytes and packing them again is the identity on words that fit the word size, little-endian, and independent of buffer lengths; packing n bytes groups them in order.", "quantifier": "every word size, every buffer", "why_tests_cant": "All contents.", "anchors": ["src/vec_cast.h: pack, unpack", "src/fec_base.h: readw, writew"]}
{"id": "C36", "title": "Packet size does not change the code", "statement": "Encoding a stream in packets of any size, word by word, or as whole blocks produces the same fragments and the same set of marked locations.", "quantifier": "every packet size, every stream length, every contents", "why_tests_cant": "All packet sizes and lengths, partial last packets.", "anchors": ["src/fec_base.h: encode_streams_vertical, encode_streams_horizontal, encode_blocks_vertical, decode_streams_vertical, decode_blocks_vertical"]}
{"id": "C37", "title": "C API encode/decode round trip", "statement": "After a successful quadiron_fnt32_encode, decoding from any n_data blocks (with their metadata) restores every data byte, for every block size that is a multiple of the word size; a trailing byte that does not fill a word is not protected.", "quantifier": "every k, m, word size, block size, data, erasure pattern", "why_tests_cant": "Erasure patterns times data times sizes.", "anchors": ["src/quadiron_c.cpp: quadiron_fnt32_encode, quadiron_fnt32_decode, quadiron_fnt32_get_metadata_size"]}
{"id": "C38", "title": "C API metadata area is large enough", "statement": "The metadata size reported by get_metadata_size is sufficient: encode does not fail for lack of metadata space, whatever the data.", "quantifier": "every data contents, every block size", "why_tests_cant": "Only adversarial data overflows the area.", "anchors": ["src/quadiron_c.cpp: quadiron_fnt32_get_metadata_size, quadiron_fnt32_encode", "src/property.h: fnt_serialize"]}
{"id": "C39", "title": "C API accesses stay in bounds", "statement": "decode and reconstruct never index their per-fragment tables outside bounds, for every configuration and erasure pattern.", "quantifier": "every k, m, mode, pattern", "why_tests_cant": "Out-of-bounds accesses happen only when n_parities < n_data and are silent.", "anchors": ["src/quadiron_c.cpp: quadiron_fnt32_decode, quadiron_fnt32_reconstruct"]}
{"id": "C40", "title": "C API reconstruct rebuilds the requested fragment", "statement": "reconstruct of any single lost fragment from any n_data others writes exactly the bytes and metadata that encode had produced for it.", "quantifier": "every configuration, every lost index, every surviving subset, every data", "why_tests_cant": "Patterns times data.", "anchors": ["src/quadiron_c.cpp: quadiron_fnt32_reconstruct"]}
{"id": "C41", "title": "Buffers views share or extend memory as documented", "statement": "Slice, concatenation, shuffle and zero-extension views of Buffers present exactly the documented element sequence and stay within allocated memory.", "quantifier": "every size, offset, map", "why_tests_cant": "Index arithmetic over all sizes, including the case where the shuffled view is not longer than its source.", "anchors": ["src/vec_buffers.h: Buffers constructors, get, set, copy, swap"]}
{"id": "C42", "title": "Polynomial operations are exact", "statement": "Poly::eval is Horner evaluation of the polynomial, Poly::mul is the polynomial product (truncated to the stated bounds), derivative is the formal derivative, mul_to_x_plus_coef multiplies by (x + c).", "quantifier": "every degree, all coefficients", "why_tests_cant": "Unbounded degrees.", "anchors": ["src/vec_poly.h: eval, mul, derivative, mul_to_x_plus_coef, derivative_nf4"]}
{"id": "C43", "title": "Vector operations act on every element within bounds", "statement": "Vector fill/copy/add/hadamard/mul_scalar/mul_beta/neg/swap/sort and the slice, view and zero-extended vectors act element-wise on the index range they announce and touch nothing else.", "quantifier": "every length, offset, contents", "why_tests_cant": "Unbounded lengths.", "anchors": ["src/vec_vector.h", "src/vec_slice.h", "src/vec_view.h", "src/vec_zero_ext.h"]}
{"id": "C44", "title": "Aligned allocation", "statement": "allocate returns a pointer aligned to the register size whose requested range lies inside the block obtained from operator new, and deallocate frees exactly the pointer that operator new returned.", "quantifier": "every count, every address returned by operator new", "why_tests_cant": "All addresses.", "anchors": ["src/simd/allocator.h: AlignedAllocator, addr_is_aligned"]}
{"id": "C45", "title": "Stored roots-of-unity table", "statement": "compute_omegas fills entry i with w^i for all i <= n-1 requested; the cached variant returns the same values when the cache file was written for the same w and a length at least n.", "quantifier": "every w, n", "why_tests_cant": "All w and n.", "anchors": ["src/gf_ring.h: compute_omegas, compute_omegas_cached"]}
{"id": "C46", "title": "Modular exponentiation and integer square root", "statement": "exp_mod(b, e, m) is b^e mod m whenever m*m fits the word; exp(b,e) is b^e when it fits; sqrt(n) is the integer square root.", "quantifier": "all inputs in the stated ranges", "why_tests_cant": "Full word ranges.", "anchors": ["src/arith.h: exp_mod, exp, sqrt"]}
{"id": "C47", "title": "Quadratic residues", "statement": "is_quadratic_residue(q) answers true exactly when q is the square of some element of the field.", "quantifier": "every field object (ring modulo n, prime field, binary extension) and every element q", "why_tests_cant": "Every element of every field, including those with 2^32 elements and more.", "anchors": ["src/gf_ring.h: RingModN::is_quadratic_residue", "src/gf_bin_ext.h: BinExtension::exp, card"]}
{"id": "C48", "title": "Constructors refuse the parameters the codes cannot serve", "statement": "Constructing a code with a word size, n_data and n_parities either gives a code that recovers the data from any n_data fragments, or is refused with an assertion or an exception; in particular codes with more fragments than their field has points are refused, and no constructor reads outside its tables.", "quantifier": "every code class, word size, n_data and n_parities", "why_tests_cant": "All parameter triples, in particular those just beyond the field size.", "anchors": ["src/fec_base.h: FecCode::FecCode", "src/fec_rs_fnt.h: RsFnt", "src/fec_rs_nf4.h: RsNf4", "src/fec_rs_gfp_fft.h: RsGfpFft", "src/fec_rs_gf2n.h: RsGf2n", "src/fec_rs_gf2n_fft.h: RsGf2nFft", "src/fec_rs_gf2n_fft_add.h: RsGf2nFftAdd"]}
{"id": "C49", "title": "Packet functions encode the data or refuse", "statement": "encode_streams_vertical or encode_blocks_vertical, called on any code object, writes fragments that determine the data, or fails; it does not return normally with fragments that are unrelated to the data.", "quantifier": "every code class, all data of all lengths, all contents of uninitialised memory", "why_tests_cant": "All data and memory contents.", "anchors": ["src/fec_base.h: FecCode::encode(vec::Buffers), encode_streams_vertical, encode_blocks_vertical", "src/fec_rs_gf2n.h", "src/fec_rs_gf2n_fft.h", "src/fec_rs_gf2n_fft_add.h", "src/fec_rs_gfp_fft.h"]}
{"id": "C50", "title": "Memory is freed once, by its owner", "statement": "Whatever sequence of constructions, copies, moves, assignments, swaps and destructions of vectors and buffer sets a program performs, no block is freed twice and no memory is freed that the library did not allocate; an object's own memory stays allocated until the object is destroyed; and once all objects are destroyed nothing remains allocated.", "quantifier": "all finite histories of operations on any number of Vector and Buffers objects, in any order", "why_tests_cant": "All histories; double frees and leaks depend on the order of copies and destructions.", "anchors": ["src/vec_vector.h: constructors, operator=, swap, destroy, ~Vector", "src/vec_buffers.h: constructors, ~Buffers, set, swap", "src/simd/allocator.h: allocate, deallocate"]}
{"id": "C51", "title": "Properties lookups find what was added", "statement": "Element i of a Properties object is the i-th pair added (location and marker); beyond the end lookups return 0 and nothing is marked. After sort(), a location is reported as marked, at the index counting the smaller locations, exactly when it was added, with the marker it was added with - so a scan over increasing locations finds every mark.", "quantifier": "every list of (location, marker) pairs, every index, location and range", "why_tests_cant": "All lists.", "anchors": ["src/property.h: Properties::add, clear, sort, location, marker, is_marked, in_range"]}
{"id": "C52", "title": "Encodings and decodings can be interleaved on one object", "statement": "A program may keep any number of encodings and decodings under way on one code object, each with its own buffers and decode context, and advance them packet by packet in any order. Every packet gives exactly what it would give if that encoding or decoding ran alone: packet j of each output fragment with the properties so far, or packet j of the data.", "quantifier": "all programs: any number of tasks begun at any time, any order of packets, any data, any choice of n_data fragments, any packet size and contents of uninitialised memory, any earlier history of the object", "why_tests_cant": "All interleavings; the tasks share the object's scratch buffers, and a mistake shows only in some orders.", "anchors": ["src/fec_base.h: encode, init_context_dec, decode", "src/fec_context.h: DecodeContext", "src/fec_rs_fnt.h: encode, decode", "src/fec_rs_nf4.h", "src/fec_rs_gf2n.h: decode_add_data, decode_add_parities, decode_build, decode"]}
{"id": "C53", "title": "The file program repairs every file it can", "statement": "The command-line program makes, from n_data data files, n_outputs coding files holding the fragments and beside each a file with its properties, and touches no other file. If files are lost later and there are still n_data fragments (data files count in systematic mode), or all the data files, a repair run makes every lost data file again with its old contents, and every coding file and its properties, and touches no other file.", "quantifier": "every prefix, every number of data files and parities a code admits, all contents, every set of lost files that leaves enough, every state of the code object, every contents of uninitialised memory", "why_tests_cant": "All contents and all subsets of lost files.", "anchors": ["test/ec_driver.cpp: create_coding_files, repair_data_files, run_fec_rs_gf2n, run_fec_rs_gf2n_fft, run_fec_rs_gf2n_fft_add, run_fec_rs_gfp_fft, run_fec_rs_fnt, run_fec_rs_nf4, get_filename, count_digits", "src/property.cpp: operator>>, operator<<"]}
{"id": "C54", "title": "A run of the file program that cannot succeed spoils nothing", "statement": "Making the coding files twice gives the same files. A run that stops because a data file is missing changes no data file. A repair run for which there are not enough files, or that is interrupted, leaves the files that were there as they were, and can be repeated once more files are back.", "quantifier": "every set of files present, every point at which the run stops", "why_tests_cant": "All sets of files and all stopping points.", "anchors": ["test/ec_driver.cpp: create_coding_files, repair_data_files, run_fec_rs_gf2n, run_fec_rs_fnt", "src/fec_base.h: decode_streams_horizontal, decode_streams_vertical"]}
{"id": "C55", "title": "What one process or build codes, another decodes", "statement": "The fragments and their properties depend only on the kind of code, its word size, its numbers of fragments (for Fermat-number codes, its mode) and the data. Two objects built with these parameters, in different processes, builds or word types, with different packet sizes and vector registers, whatever uninitialised memory held and whatever they did before, write the same fragments, and each decodes the fragments of the other.", "quantifier": "all parameters the codes admit, all data, all choices of n_data fragments, all word types, builds, packet sizes, contents of uninitialised memory and histories of both objects", "why_tests_cant": "A test runs one build in one process; generators and roots of unity are found by searches, so agreement must be shown for every pair of runs.", "anchors": ["src/gf_ring.h: find_primitive_root, get_nth_root, get_code_len_high_compo", "src/gf_bin_ext.h: find_primitive_root", "src/fec_rs_gf2n.h", "src/fec_rs_gf2n_fft.h", "src/fec_rs_gf2n_fft_add.h", "src/fec_rs_gfp_fft.h", "src/fec_rs_fnt.h", "src/fec_rs_nf4.h"]}
{"id": "C56", "title": "The command line of the file program is obeyed, or refused without touching files", "statement": "Options in any order that ask to code or repair the files with a prefix, with a code, a word size and numbers of fragments the code has, do so, whichever build runs them: coding makes the coding files and ends with status 0, repairing makes lost files again as long as there are enough. No run changes a file other than the coding files of the prefix and their properties, and, if a repair is asked for, data files that are missing. A command line that is wrong or asks for something no code can do changes no file and does not end with status 0. Status 0 means the files are there.", "quantifier": "all command lines, all contents of the files, all builds and contents of uninitialised memory", "why_tests_cant": "All command lines and all file systems.", "anchors": ["test/ec_driver.cpp: main, check, run_fec_rs_gf2n, run_fec_rs_gf2n_fft, run_fec_rs_gf2n_fft_add, run_fec_rs_gfp_fft, run_fec_rs_fnt, run_fec_rs_nf4, get_filename, count_digits"]}
{"id": "C57", "title": "Corrupt fragments cannot make decoding misbehave, and spoil only what they hold", "statement": "Decoding in packets with a Fermat-number code, from streams or blocks, accepts fragments of the right length with any bytes in them and any properties: locations in any order, repeated, out of range, with unknown markers. It ends without undefined behaviour, exception or failed assertion, writes exactly the bytes it would write for good fragments, and leaves the object fit for all later calls. Whether it reports success depends only on which fragments are there, so corruption is not detected. Word t of each output depends only on the symbols at location t of the first n_data available fragments: it is the value of the polynomial through them. So at every location where these fragments are intact the data come back, whatever they hold elsewhere.", "quantifier": "all parameters, all contents of fragments and properties, all choices of available fragments, all histories of the object including earlier decodings of corrupt fragments", "why_tests_cant": "Corrupt fragments can hold anything; a test tries a few.", "anchors": ["src/fec_base.h: decode_streams_vertical, decode_blocks_vertical, decode_prepare, decode_apply, decode_build", "src/property.h: Properties", "src/fec_rs_fnt.h: decode_prepare, decode_apply"]}
{"id": "C58", "title": "Blocks of any contents given to the C interface are decoded, refused or confined", "statement": "quadiron_fnt32_decode accepts blocks of the right size with any bytes in them. Metadata that do not start with the word FNT1, or whose count does not fit, are refused with -1, and blocks and object are unchanged; so they are by quadiron_fnt32_reconstruct. Else, with enough blocks, it returns 0 and each word of the data blocks depends only on the symbols at the same location of the first n_data available blocks: it is the value of the polynomial through them, so what is intact is recovered whatever the blocks hold elsewhere. Only the metadata and full words of data blocks are written. quadiron_fnt32_reconstruct makes of the destination block the same data block, or the coded block that encoding the decoded data makes, and changes no other block.", "quantifier": "all parameters, all contents of all blocks and their metadata, all choices of missing blocks, all histories of the object", "why_tests_cant": "Blocks come from disks and networks and can hold anything.", "anchors": ["src/quadiron_c.cpp: quadiron_fnt32_decode, quadiron_fnt32_reconstruct", "src/property.h: fnt_deserialize", "src/fec_base.h: decode_blocks_vertical"]}
{"id": "C59", "title": "Corrupt fragments of the GF(2^n) codes decode to the one data they belong to", "statement": "Decoding word by word with a code over GF(2^n), on a Vandermonde or Cauchy matrix or on a multiplicative or additive FFT, accepts fragments of any lengths with any bytes in them, and any properties. With enough fragments it ends without undefined behaviour, exception or failed assertion, reports success, and appends to each wanted stream as many words as the shortest of the first n_data available fragments has. What it writes is the only data whose fragments have the words of these n_data fragments, so a word that is intact in all of them is recovered whatever they hold elsewhere, and fragments beyond the first n_data and properties do not matter.", "quantifier": "all parameters, all contents and lengths of fragments, all properties, all choices of available fragments, all contents of uninitialised memory", "why_tests_cant": "Corrupt fragments can hold anything; a test tries a few.", "anchors": ["src/fec_base.h: decode_streams_horizontal, init_context_dec, decode_apply", "src/fec_rs_gf2n.h: decode, decode_build", "src/fec_rs_gf2n_fft.h: decode_prepare, decode_apply", "src/fec_rs_gf2n_fft_add.h: init_context_dec, decode_apply"]}
{"id": "C60", "title": "Corrupt fragments and properties of the prime-field codes decode to the polynomial through their symbols", "statement": "Decoding word by word with the Fermat-prime or general prime-field FFT codes accepts fragments of any lengths with any bytes in them, and properties with any locations and marks, in any order and with repetitions. With enough fragments it ends without undefined behaviour, exception or failed assertion, reports success, and appends to each wanted stream as many words as the shortest of the first n_data available fragments has. Word t of stream i is made of the low bytes of coefficient i of the only polynomial of degree below n_data that has, at the points of the first n_data available fragments, the symbols they show at t: the word, or the out-of-range symbol if t is marked. So the words at locations where these fragments show the symbols of an encoding are recovered, whatever the fragments hold elsewhere; and a decoded word depends only on the symbols at its location. A mark does not count if an earlier location is listed twice.", "quantifier": "all parameters, all contents and lengths of fragments, all properties, all choices of available fragments, all contents of uninitialised memory", "why_tests_cant": "Corrupt fragments and properties can hold anything; a test tries a few.", "anchors": ["src/fec_base.h: decode_streams_horizontal, decode_prepare, decode_apply, init_context_dec", "src/fec_rs_fnt.h: encode_post_process", "src/fec_rs_gfp_fft.h: decode_prepare", "src/property.h: Properties::sort, is_marked, marker", "src/fec_context.h: DecodeContext"]}
{"id": "C61", "title": "Corrupt fragments and properties of the packed Fermat code decode to the polynomials through their symbols", "statement": "Decoding word by word with the packed Fermat code accepts fragments of any lengths with any bytes in them, and properties with any locations and marks, in any order and with repetitions, in scalar and vectorised builds. With enough fragments it ends without undefined behaviour, exception or failed assertion, reports success, and appends to each wanted stream as many words as the shortest of the first n_data available fragments has. Each 16-bit part of word t of stream i is the low 16 bits of coefficient i of the only polynomial of degree below n_data that has, at the points of the first n_data available fragments, the symbols that this part of their words shows at t: the 16 bits, or 65536 if the mark of t has the bit of that part set. So the parts of words where these fragments show the symbols of an encoding are recovered, whatever they hold elsewhere, also in the same word; and a decoded part depends only on the symbols at its place. A mark does not count if an earlier location is listed twice.", "quantifier": "all parameters, builds, contents and lengths of fragments, all properties, all choices of available fragments, all contents of uninitialised memory", "why_tests_cant": "Corrupt fragments and properties can hold anything; a test tries a few.", "anchors": ["src/fec_base.h: decode_streams_horizontal, init_context_dec", "src/fec_rs_nf4.h: decode_prepare, decode_apply, decode", "src/gf_nf4.h: NF4::pack, unpack, mul", "src/property.h: Properties::sort, is_marked, marker"]}
{"id": "C62", "title": "On packets, corrupt fragments and properties of the packed Fermat code decode to the polynomials through their symbols", "statement": "Decoding packets with the packed Fermat code, on streams of whole words and on blocks, accepts fragments with any bytes and properties with any locations and marks, in any order and with repetitions, whatever the build, the packet size, if not 0, and the contents of uninitialised memory. With fewer than n_data fragments it reports failure and writes nothing. Else it ends without undefined behaviour, exception or failed assertion, reports success and writes, to the wanted streams and blocks only, words of which each 16-bit part is the low 16 bits of a coefficient of the only polynomial of degree below n_data through the symbols that the first n_data available fragments show at that part. So the parts where these fragments show the symbols of an encoding are recovered, whatever the fragments hold elsewhere.", "quantifier": "all parameters, builds, packet sizes, contents of fragments, all properties, all choices of available fragments and wanted outputs, all contents of uninitialised memory and of the heap", "why_tests_cant": "Corrupt fragments and properties can hold anything; a test tries a few, in one build and with one packet size.", "anchors": ["src/fec_base.h: decode_streams_vertical, decode_blocks_vertical", "src/fec_rs_nf4.h: decode_prepare, decode_apply, decode", "src/gf_nf4.h: NF4::pack, unpack", "src/simd_nf4.h: pack, unpack", "src/property.h: Properties::sort, is_marked, marker"]}
{"id": "C63", "title": "Data streams of different lengths are protected as far as they are encoded, with a stated length", "statement": "Encoding streams in packets reports success whatever the lengths of the data streams, so a caller relies on their data being protected. What happens is: with L the length of the last of the data streams that have the fewest full packets, the encoder writes L bytes to each output stream. These are the first L bytes of the encoding of the data streams cut, or completed with zeros, to L bytes rounded up to whole packets. From any n_data of the streams, the surviving data streams in their original lengths, decoding yields the first L bytes of each data stream, completed with zeros. All data streams should be protected entirely or be refused.", "quantifier": "all parameters of the Fermat-number codes (plain and packed), packet sizes, histories of the object, lengths and contents of the data streams, all choices of survivors, all contents of uninitialised memory", "why_tests_cant": "Which stream decides depends on all lengths, the packet size and the order of the streams; tests use streams of equal size.", "anchors": ["src/fec_base.h: encode_streams_vertical, decode_streams_vertical, read_pkt, write_pkt"]}
{"id": "C64", "title": "Truncated fragments are refused, or decoded right where all used fragments are complete", "statement": "Decoding streams in packets from fragments of any lengths, of any contents, with any properties, ends without undefined behaviour or exception and leaves the object fit for use. With L the length of the last, among the first n_data available fragments, of those that have the fewest full packets, it appends L bytes to each wanted stream. These are words interpolated from the symbols of the fragments, where missing bytes count as zeros. So all words that each of the fragments used has in full are recovered. Where the end of a fragment is missing, decoding should report failure.", "quantifier": "all parameters of the Fermat-number codes (plain and packed), packet sizes, histories of the object, lengths and contents of fragments, all properties, all choices of available fragments, all contents of uninitialised memory", "why_tests_cant": "A fragment can be cut at any byte; which bytes are decoded depends on all lengths and the packet size.", "anchors": ["src/fec_base.h: decode_streams_vertical, read_pkt, write_pkt"]}
{"id": "C65", "title": "128-bit integers are printed as their decimal value", "statement": "Writing an unsigned or signed 128-bit integer to a stream writes its decimal digits, without superfluous zeros, with a minus sign in front of negative values; so different values are printed differently. No memory outside the local buffer is touched.", "quantifier": "all 2^128 unsigned and all 2^128 signed values, all contents of uninitialised memory", "why_tests_cant": "There are 2^128 values; the corner cases are zero, the number of digits and the least negative value.", "anchors": ["src/misc.cpp: operator<<(std::ostream&, __uint128_t), operator<<(std::ostream&, __int128_t)"]}
{"id": "C66", "title": "A hex dump shows exactly the bytes of the buffer", "statement": "Dumping a buffer of any size writes lines of 32 bytes, the last shorter, each byte as two hexadecimal digits and a blank, on demand followed by blanks that fill up the line, and by its printable characters, others being shown as dots. So contents and size can be read off the dump. Only the bytes given are read, the null pointer is shown as nothing, and flags and fill character of the stream are as before.", "quantifier": "all buffers and sizes, all streams (flags, fill character, what was written before), with or without characters, all contents of uninitialised memory", "why_tests_cant": "The layout depends on the size modulo 32 and on flags set by the caller; a test sees a few sizes.", "anchors": ["src/misc.cpp: hex_dump", "src/quadiron_c.cpp: quadiron_hex_dump"]}
{"id": "C67", "title": "A random element is a nonzero element of the field, and can be any of them", "statement": "rand() on a ring, prime field or extension field returns an element of it other than 0, and each such element can be returned; on the packed field it returns words all of whose elements are nonzero, and can return each of these words. rand() on a vector replaces every element by such an element and changes nothing else.", "quantifier": "all cardinals, all word types, everything the random number distributions may return, all vectors, slices and views", "why_tests_cant": "Tests draw a few values; whether some value outside the field can be drawn, or some element never is, cannot be seen from samples of a field of 2^64 or 2^128 elements.", "anchors": ["src/gf_ring.h: rand, rand_upper_bound, rand_leading_bound", "src/gf_nf4.h: rand, unpacked_rand", "src/vec_vector.h: rand"]}
{"id": "C68", "title": "A cached table of roots survives concurrent callers and crashes", "statement": "Any number of processes may call compute_omegas_cached for the same field, root and length in the same directory, at the same time, and be killed at any point. Every call that is not killed returns the table of powers of the root, and once the processes that write the file have finished it is complete and stays so. Roots have files of their own.", "quantifier": "all prime fields, roots and lengths, any number of processes, all interleavings of their system calls, all sizes in which data is written and read, all crash points", "why_tests_cant": "The outcome depends on which byte the file ends at when a process is killed or another one reads it, and on how checks, truncations and writes of several processes interleave.", "anchors": ["src/gf_ring.h: compute_omegas_cached"]}
{"id": "C69", "title": "A dump shows exactly the contents", "statement": "Dumping a vector, slice, view, zero-extended vector, polynomial, matrix, set of buffers or decoding context prints its elements in order, bytes as characters and wider elements in decimal, in a layout from which number and values of the elements can be read off. It reads nothing but the elements.", "quantifier": "all lengths, dimensions, element types and contents", "why_tests_cant": "Bytes are printed raw, so that they may look like separators, and lengths are unbounded; a test looks at a few dumps and compares no two.", "anchors": ["src/vec_vector.h: dump", "src/vec_poly.h: dump", "src/vec_matrix.h: dump, dump_row", "src/vec_buffers.h: dump", "src/fec_context.h: dump"]}
{"id": "C70", "title": "The benchmark's self-check accepts right chunks and rejects wrong ones", "statement": "Chunks the benchmark generates pass its check. A chunk that passed and was then corrupted does not pass, if the corruption is confined to four bytes in a row. Comparing decoded chunks with the originals reports success only if they are equal.", "quantifier": "all chunk sizes, generator states, memory contents and corruptions", "why_tests_cant": "A checksum of 32 bits has collisions that random tests never hit, and the chunk contents range over all generator states.", "anchors": ["benchmark/prng.h: gen_chunk, check_chunk, get_crc", "benchmark/benchmark.cpp: check, compare, gen_data"]}
{"id": "C71", "title": "The benchmark raises no false alarm", "statement": "For any code and parameters the benchmark accepts, each scenario (encode only, decode only, encode and decode) ends, reports success, and leaves decoded chunks equal to the generated ones, whichever fragments are lost in each decoding.", "quantifier": "all codes, parameters, numbers of samples, generator states, contents of memory and choices of lost fragments", "why_tests_cant": "Lost fragments and data are random in each sample; a run covers a few of exponentially many.", "anchors": ["benchmark/benchmark.cpp: enc_only, dec_only, enc_dec, encode, decode, get_avail_chunks, gen_data", "benchmark/iostreambuf.h: istreambuf, ostreambuf"]}
{"id": "C72", "title": "The benchmark program runs what its options ask for", "statement": "The program accepts exactly the options it documents; each parameter takes the value in the last option for it, or its default. With parameters that a code supports each thread's scenario is run and ends well, and the returned status tells whether everything asked for was run.", "quantifier": "all lists of options, codes, sizes of words, integers, chunks and packets, counts, builds, times, contents of memory and lost fragments", "why_tests_cant": "Options combine freely, each run hides behind random data and losses, and checks on sizes interact: a test covers a few combinations.", "anchors": ["benchmark/benchmark.cpp: main, run_benchmark, run_scenario, init_run_bench, check_params, init", "benchmark/benchmark.h: get_sizeof_T, Params_t, fec_type_map"]}
{"id": "C73", "title": "Threads of the benchmark do not interfere", "statement": "With any number of threads each thread of the benchmark does exactly what it does when it is the only one: no thread writes what another one uses.", "quantifier": "all lists of options, numbers of threads and interleavings", "why_tests_cant": "A data race shows in some interleavings only.", "anchors": ["benchmark/benchmark.cpp: main, run_benchmark, run_scenario", "benchmark/benchmark.h: get_sizeof_T"]}
{"id": "C74", "title": "The 256-bit integer types compute with the integers they stand for", "statement": "The unsigned and signed 256-bit types that stand in for double-width integers when elements are 128 bits wide give, for every operator they define, the integer the operation has: products are not truncated, differences can be negative, comparisons and divisions follow the sign.", "quantifier": "all values of the types and all operands of the operators", "why_tests_cant": "There are 2^256 values; wrong results appear only for operands whose results leave 128 bits or are negative.", "anchors": ["src/big_int.h: UInt256, Int256", "src/gf_ring.h: RingModN::mul", "src/arith.h: extended_gcd"]}
{"id": "C75", "title": "The counters describe the last call", "statement": "After a call that encodes or decodes streams or blocks, the public counters of its direction describe this call and nothing else: the number of operations is the number of words or packets coded, the time is the sum of the measured times, and the cycles are the sum of the measured cycles for each byte, so that the figure the file program prints is comparable between directions. The counters of the other direction stay, and neither counters nor clocks change what is coded.", "quantifier": "all codes, streams and blocks of all lengths, all values of the clocks, all earlier contents of the counters", "why_tests_cant": "The counters depend on clocks and on earlier calls; a test sees one timing and cannot tell a wrong divisor from a slow machine.", "anchors": ["src/fec_base.h: FecCode::encode_streams_horizontal, encode_streams_vertical, encode_blocks_vertical, decode_streams_horizontal, decode_streams_vertical, decode_blocks_vertical, reset_stats_enc, reset_stats_dec, total_encode_cycles, total_decode_cycles, n_encode_ops, n_decode_ops", "test/ec_driver.cpp: print_stats"]}
{"id": "C76", "title": "The benchmark shows the mean, deviation and throughput of the samples it ran", "statement": "A scenario of the benchmark that succeeds shows, for each direction it measures, the mean of the times of all its samples and of nothing else, their standard deviation, and the work load divided by the mean; a scenario that fails shows nothing. Measuring does not change what is coded, checked or reported.", "quantifier": "all codes, numbers of samples, times, earlier contents of the statistics", "why_tests_cant": "The figures depend on measured times; a wrong sum or a sample counted twice looks like a slow machine, and overflow needs very long samples.", "anchors": ["benchmark/stats.h: Stats_t", "benchmark/benchmark.cpp: Benchmark::encode, decode, enc_only, dec_only, enc_dec, show"]}
{"id": "C77", "title": "Fragments of different data differ in more than n_parities places", "statement": "Take the fragments two calls give for two data. At each word where the data differ, more than n_parities of the n_data + n_parities fragments differ, in their bytes or in their properties (in systematic mode the data fragments are counted among them). So no n_data fragments can come from two different data, and up to n_parities corrupted fragments can never turn the fragments of one data into those of another.", "quantifier": "all codes, parameters, data of all lengths, builds, packet sizes and contents of memory of both calls", "why_tests_cant": "It is about all pairs of data: a test encodes a few of them, and close pairs are rare.", "anchors": ["src/fec_base.h: FecCode::encode_streams_horizontal, encode_streams_vertical", "src/fec_rs_fnt.h: RsFnt", "src/fec_rs_gf2n.h: RsGf2n", "src/fec_rs_gf2n_fft.h: RsGf2nFft", "src/fec_rs_gf2n_fft_add.h: RsGf2nFftAdd", "src/fec_rs_gfp_fft.h: RsGfpFft", "src/fec_rs_nf4.h: RsNf4"]}
{"id": "C78", "title": "A word of the fragments depends on the same word of the data only", "statement": "Where the words at one place are the same in two data, the words of all their coded fragments at this place are the same, with the same properties, whatever the rest of the data and however long the streams are. So fragments can be recomputed from the place where the data changed, and appending to the data does not change what was coded.", "quantifier": "all codes, parameters, pairs of data of all lengths, builds, packet sizes and contents of memory of both calls", "why_tests_cant": "Leaks between words through buffers, packets or scratch memory depend on lengths and earlier contents; a test tries a few.", "anchors": ["src/fec_base.h: FecCode::encode_streams_horizontal, encode_streams_vertical", "src/fec_rs_fnt.h: RsFnt::encode", "src/fec_rs_gf2n.h: RsGf2n::encode", "src/fec_rs_gf2n_fft.h: RsGf2nFft::encode", "src/fec_rs_gf2n_fft_add.h: RsGf2nFftAdd::encode", "src/fec_rs_gfp_fft.h: RsGfpFft::encode", "src/fec_rs_nf4.h: RsNf4::encode"]}
{"id": "C79", "title": "The codes over GF(2^n) code sums to sums", "statement": "For the codes over GF(2^n), the fragments of the byte by byte exclusive or of two data of the same lengths are the exclusive or of their fragments, and have no properties. So fragments can be updated from the change of the data alone, without the rest of the data.", "quantifier": "all codes over GF(2^n), parameters, pairs of data of all lengths, contents of memory of all calls", "why_tests_cant": "It is about all pairs of data and all field sizes; a test tries a few.", "anchors": ["src/fec_base.h: FecCode::encode_streams_horizontal", "src/fec_rs_gf2n.h: RsGf2n::encode", "src/fec_rs_gf2n_fft.h: RsGf2nFft::encode", "src/fec_rs_gf2n_fft_add.h: RsGf2nFftAdd::encode", "src/gf_bin_ext.h: BinExtension::add"]}
{"id": "C80", "title": "Data can be coded in pieces", "statement": "Encoding data in two pieces and putting the fragments of the second piece after those of the first gives the fragments of the whole data, and the properties of the whole are those of the first piece followed by those of the second with their word numbers moved by the words of the first. So a fragment can be appended to without reading the data coded before, whatever the packet size and wherever packets end in the pieces and in the whole.", "quantifier": "all codes, parameters, packet sizes, pairs of data of all lengths (the first of whole words), contents of memory of all calls", "why_tests_cant": "It is about all ways to cut all data, and packets end at other places in the pieces than in the whole; a test tries a few.", "anchors": ["src/fec_base.h: FecCode::encode_streams_horizontal", "src/fec_base.h: FecCode::encode_streams_vertical", "src/property.h: Properties", "src/fec_rs_fnt.h: RsFnt", "src/fec_rs_nf4.h: RsNf4"]}
{"id": "C81", "title": "The codes over prime fields code linear combinations to linear combinations", "statement": "For the codes over a prime field (257, 65537 or the prime above 2^32), where the words of some data are, modulo the prime, x times those of one data plus y times those of another, the symbols of each fragment, restored with the properties, are x times those of the first plus y times those of the second, modulo the prime. So fragments can be updated from the change of the data alone, although they cannot be added byte by byte.", "quantifier": "all codes over prime fields that can be built, systematic or not, triples of data of all lengths, coefficients, builds, packet sizes and contents of memory of all calls", "why_tests_cant": "It is about all triples of data; the symbols that do not fit a word, which the properties restore, are rare.", "anchors": ["src/fec_base.h: FecCode::encode_streams_horizontal, encode_streams_vertical", "src/fec_rs_fnt.h: RsFnt::encode, encode_post_process", "src/fec_rs_nf4.h: RsNf4::encode, encode_post_process", "src/fec_rs_gfp_fft.h: RsGfpFft::encode"]}
{"id": "C82", "title": "Lost fragments can be repaired", "statement": "Decode from any n_data surviving fragments, with their properties, and encode what was decoded again: the result is all the fragments there were, byte by byte, the lost ones and the surviving ones, with the same properties. The object that encodes again may have another build and packet size than the one that decoded and the one that encoded first.", "quantifier": "all codes, parameters, data of all lengths, choices of surviving fragments, builds, packet sizes and contents of memory of all calls", "why_tests_cant": "It is about all data and all sets of lost fragments; a test tries a few, and repair by an object of another build is not tried at all.", "anchors": ["src/fec_base.h: FecCode::encode_streams_vertical, decode_streams_vertical, encode_streams_horizontal, decode_streams_horizontal", "src/fec_rs_fnt.h: RsFnt", "src/fec_rs_nf4.h: RsNf4", "src/fec_rs_gf2n.h: RsGf2n", "src/fec_rs_gf2n_fft.h: RsGf2nFft", "src/fec_rs_gf2n_fft_add.h: RsGf2nFftAdd", "src/fec_rs_gfp_fft.h: RsGfpFft"]}
