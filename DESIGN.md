# Formal model of scality/quadiron: design

Contents: 1 the model, 2 what is proved for each property and how, 3 what the
code does wrong, 4 coverage of each source file, 5 trusted base, 6 tests of the
theorems against wrong programs.

## 1. The model

The model is in `lean/Verif/Model/`.  It is a set of total, computable Lean
functions, one per C++ function, written over natural-number machine words,
arrays and explicit outcomes.  Every definition cites the lines it models and
states its simplifications.

* **Outcome** (`Verif/Base.lean`).  A call ends in `ok v`, an exception
  (`throw`), undefined behaviour (`ub`: access out of range, null dereference,
  division by zero, bad `std::` range), a failed `assert`, or `diverges` (a
  `while` loop ran out of its fuel; the theorems show that it does not, or that
  it does so for any fuel).  All are distinct, so `f x = ok y` also says that
  every access was in range and that no assertion failed.
* **Machine words.**  A value of a `b`-bit type is a `Nat`, with `% 2^b`
  wherever the C++ expression can wrap (`wrap`).  Signed intermediates are
  `Int`.
* **Loops.**  `forN`, `forStep`: the same index sequence in the same order, the
  state being what the body updates.
* **Uninitialised memory** is a parameter (`mem`, `junk`), so a theorem that
  quantifies over it proves independence of it.
* **Fields.**  `gf::Field<T>` is the record `GF` of its virtual functions.
  Transforms and codes are defined once over that record, as the C++ templates
  are, and instantiated with the models of `RingModN`/`Prime`, `BinExtension`
  and `NF4`.
* **Buffers** are arrays of pointers into a heap of packets, because the decode
  context aliases them on purpose and the bit reversal swaps pointers.
  **Vectors** (C43) and the **allocator** (C44) have their own memory models.
* **Codes.**  `Fec` (words) and `FecV` (packets) are the records of the virtual
  functions of `FecCode<T>`.  The stream and block functions of the base class
  are modelled once over them.
* **Builds.**  `Build.of simd b` selects, as the `#ifdef`s do, the scalar
  functions or the vectorised ones for registers of 16 or 32 bytes.

The specifications are in `Verif/Spec/` and at the head of the files in
`Verif/Props/`.  They use Mathlib notions only (`ZMod p`, `Polynomial`,
`Finset.sum`, `Nat.Prime`, `orderOf`, `Matrix`, `IsPrimitiveRoot`), byte lists
and the API entry points.  The property theorems are in `Verif/Props/`, one
name `Cnn_...` each.  The lemmas are in `Verif/Lemmas/`.  Beside the theorems
stand `example`s showing that their hypotheses are met by a concrete case.

## 2. Properties: what is proved and how

`P` proved, `p` partial.  A property is partial either because the code
violates it, in which case the violation is itself a theorem (named in the last
column), or because a part is missing (said explicitly).  MANIFEST.json lists
all theorem names.

| Id | | Model | How it is proved | Violation or gap |
|---|---|---|---|---|
| C01 | P | Arith | loop invariants, `Nat.log2` | |
| C02 | p | Arith | Bezout invariant of the loop; the values stay as small as the arguments, so bounded types compute the same | least value of the type (`C02_least_value`), signs of the quotients (`C02_quotient_signs`), `__uint128_t` (`C02_int256_not_bezout`) |
| C03 | p | Arith | each summand is congruent, by C02; the coefficients are at most half the modulus, which bounds the sum | product beyond the type truncated (`C03_truncated`), large moduli or unreduced residues overflow (`C03_overflow`) |
| C04 | P | Arith | trial division: no divisor below the counter | |
| C05 | p | Arith | membership both ways | root repeated for squares (`C05_duplicates_on_squares`) |
| C06 | p | Arith | trial division to the square root | 0 and 1 "prime" (`C06_zero_one_reported_prime`) |
| C07 | P | Arith | quadratic reciprocity and Euler's criterion from Mathlib; any random draws | |
| C08 | p | Arith, Ring | divisor invariant over the factor list | not minimal (`C08_get_code_len_not_minimal`), n = 1 (`C08_high_compo_one`) |
| C09 | P | Ring | refinement into `ZMod q` | precondition needed (`C09_add_needs_spare_bit`) |
| C10 | p | Ring | Bezout over signed words | `__uint128_t` inverse wrong (`C10_inv_wrong_for_uint128`) |
| C11 | p | Ring | `orderOf`, search of the generator terminates | 0, and 1 mod 3, accepted as primitive roots; order 2 |
| C12 | P | Simd | arithmetic on every lane value, then loops over registers and the scalar tail | other moduli wrong (`C12_other_modulus_wrong`) |
| C13 | p | Field, Simd | loop invariants with frame | all-ones coefficient and SIMD builds over GF(2^n) |
| C14 | p | BinExt | words as polynomials over GF(2); the moduli shown irreducible from certificates checked by the kernel | type exactly n bits wide (`C14_full_width_tables_wrong`) |
| C15 | P | NF4 | lane decomposition of words, no carry between lanes | |
| C16 | P | NF4 | the same, with the flag bits | |
| C17 | p | Fft2n | stage invariant of the transform over any `GF` simulating a field | other lengths read the old output (`C17_other_lengths_read_old_output`) |
| C18 | P | Fft2n | the same for the inverse, orthogonality of roots | |
| C19 | p | Fft2n, Buffers | every column of the packets simulates a vector; pointer permutation | length condition of C17 |
| C20 | p | FftOther | index bijections of Cooley-Tukey and Good-Thomas | packet ifft of Naive over GF(2^n); building the naive, Cooley-Tukey or Good-Thomas transform is undefined when a product of two indices overflows `int` (`C20_*_overflow`), and throws when the length is negative as an `int` (`C20_too_long`) |
| C21 | P | FftAdd | Gao-Mateer recursion over any independent basis | |
| C22 | P | FftAdd | recursion on the degree bound | |
| C23 | p | Fec, FecBuf | Lagrange interpolation; history invariant of the object; any build | streams word by word in systematic mode; short last word (`C23_short_word_lost`) |
| C24 | p | FecBuf, Property | marks of a prefix of the words | as C23 |
| C25 | p | FecBuf | codeword is the value vector of one polynomial | word by word undefined (`C25_horizontal_systematic_undefined`) |
| C26 | P | Fec, FecBuf | selection loop, for any code on the base class | |
| C27 | P | FecGf2n | Vandermonde minors, elimination | |
| C28 | p | FecGf2n | minors of size 1 and 2 | false for 3 parities or more (`C28_three_losses_fail`) |
| C29 | P | Matrix | row reduction invariant | |
| C30 | p | FecFft, FecFftAdd | as C23 over the other transforms | additive code asserts when 2k reaches the field size; the multiplicative code is proved whenever its constructor returns (FftBuilt) |
| C31 | p | FecFft | as C23 | constructor reads out of bounds (`C31_constructor_reads_out_of_bounds`) or throws (`C31_first_transform_too_long`, `C31_second_transform_too_long`); whenever it returns, the code recovers (`C31_whenever_built_partial`) |
| C32 | p | FecNf4, FecNf4Buf | every lane is a code as C23; one root for all builds | accepted word sizes 3, 5, 6, 7 (`C32_other_word_sizes`) |
| C33 | p | Property | round trip on arrays of words | exact fit, count near 2^32, last word |
| C34 | P | Property, PropertyText | printing and parsing of decimal numbers; blank and comment lines | |
| C35 | p | FecBuf, Fec | base-256 digits | other sizes silently ignored |
| C36 | p | FecBuf | chunking invariance by induction over packets | short last word (`C36_short_word_differs`); packets of no words (`C36_zero_packets_*`) |
| C37 | p | CApi | composition of C23, C33; history of two objects | systematic with m < k |
| C38 | p | CApi | counting marks; data with many marks exist for every block size | `C38_failure`, `C38_overrun` |
| C39 | p | CApi | table sizes | `C39_decode_undefined`, `C39_reconstruct_undefined` |
| C40 | p | CApi | decode then encode one fragment | as C39 |
| C41 | p | Buffers | pointer lists, heap frame | shuffle, slice and separate on some sizes |
| C42 | p | Poly | `Polynomial` | stale degree after `mul` |
| C43 | p | Vec | memory of blocks with frame | several (see 3); `rand` is in C67, `dump` in C69; `to_poly` and move assignment do not compile when used |
| C44 | P | Alloc | invariant over all histories of allocations, writes, releases | |
| C45 | p | Field | loop invariant; the cache file as bytes | other length or other field |
| C46 | P | Arith | loop invariants; digit-by-digit root | |
| C47 | p | Field | search loop against `∃ x, x * x = q`; Frobenius is onto in characteristic 2 | binary fields that fill their word type |
| C48 | p | all code constructors | exact acceptance conditions; a counting bound on all codes | `RsGf2n` and `RsGf2nFftAdd` beyond the field; sums of counts that wrap (`C48_fnt_uint16_wraps`) |
| C49 | p | FecBuf | loop invariant: the output blocks are never written | every code without packet functions |
| C50 | p | Life | invariant over all histories of constructions, copies, moves, assignments, swaps, destructions | assignment of `Buffers`, `Buffers::set` |
| C51 | P | Property | list induction; sorted lists | |
| C52 | p | Session, FecGf2n | frame: a packet changes only blocks that no other task needs | `RsGf2n` keeps the decoding matrix in the object |
| C53 | p | Driver | files as a map from names to bytes; refinement to the stream functions (C27, C49) | bytes beyond the last whole word of the shortest file are lost |
| C54 | p | Driver | the same, and a run that stops at a point | a repair that fails reports success and empties files |
| C55 | p | Interop | two objects of the models of each code, with separate memory and word types; the searches for roots end at the same element | as C28, C30, C31: losses and parameters those codes do not admit |
| C56 | p | DriverMain, Getopt | `main` on the list of options `getopt` makes of the arguments; each branch refined to C53 | word sizes too large are ignored with status 0; negative counts of fragments |
| C57 | P | FecBuf, Property | the decoder on streams of any bytes and any properties; interpolation through the symbols seen; a polynomial that differs at a used point differs in a value the decoder returns | |
| C58 | p | CApi, Property | every metadata area classified; C57 in the caller's memory, then encoding of what was decoded | counts that wrap around (`C58_undefined`); systematic codes with fewer parities than data (`C58_more_data_undefined`, `C58_reconstruct_more_data_undefined`); reconstructed metadata that fill their area exactly (in `C58_reconstruct_coded_partial`) |
| C59 | p | FecGf2n, FecFft, FecFftAdd | `n_data` symbols determine the data (recovery), so by counting every choice of symbols is that of one data | as C28, C30: loss patterns of the Cauchy code that throw, half the field or more as data fragments |
| C60 | P | Fec, FecFft, Property | the walk through the sorted marks characterised for any list; decoding from any symbols is Lagrange interpolation | a mark listed twice hides the later ones (`C60_repeated_mark_ruins_other_words`); the statement says so |
| C61 | P | FecNf4, NF4, Property | as C60, for each 16-bit part of a word; marks with bits beyond the parts of a word act on lanes that vanish in the products | a mark listed twice hides the later ones, as in C60; the statement says so |
| C62 | P | FecNf4Buf, FecBuf, NF4, Property | as C61, from what `decode_prepare` makes of any chunk with any properties, and the packet versions of the transforms in every lane; in a vectorised build marks with bits beyond the word set lanes beyond the word, which the transforms carry along (a coefficient 1 copies them) and the narrowing to bytes drops: the lanes of the field are followed through words of four lanes (`IsNf4.simW`) | packet size 0 is excluded (the loop would not advance) |
| C63 | p | FecBuf | the loop of packets on streams of any lengths runs like that on the streams cut or completed to whole packets, for every code class; then C36, and C62 for the packed code | data beyond the `L` bytes are not protected and nothing is reported (`C63_data_lost`, `C63_packed_data_lost`); the last word if `L` is not a multiple of the word size |
| C64 | p | FecBuf, Property | the same reduction, then C57, and C62 for the packed code | nothing is reported when ends are missing (`C64_truncation_undetected`, `C64_packed_truncation_undetected`, `C64_wrong_data`) |
| C65 | p | Misc | loop invariant: the digits written so far, in front of what the buffer held | the least signed value (`C65_least_undefined`) |
| C66 | p | Misc | loop invariant: the lines finished, the bytes of the line begun, the render string and the counter; dumps are read back by induction | streams that align to the left (`C66_left_ambiguous`); streams that show the base are only covered by `C66_any_stream` |
| C67 | p | Rand | what the distributions may return is a parameter; case analysis on words, lanes by induction | rings of more than 2^64 elements (`C67_ring_128_misses`, `C67_ring_128_outside`, `C67_binary_128_small`); how often a value is drawn |
| C68 | p | Cache | transition system of processes and the bytes of the file; invariant: the process that opened the file last has put its bytes there, all other bytes are right or zero | after a crash, or while another process writes, a call fails an assertion or gets a wrong last entry (`C68_crash_points`, exact for every byte) |
| C69 | p | Dump | loops that append; texts are read back by induction on the contents | buffers of no elements (`C69_buffers_empty_undefined`) |
| C70 | p | Bench | the checksum is linear over GF(2) and each of its steps is injective; bursts of 32 bits by injectivity of four steps | chunks of under four or over eight bytes, where different chunks compare equal (`C70_comparison_misses`, `C70_comparison_misses_short`) |
| C71 | p | Bench | the round trips of C23, C28 to C32 for all data, an invariant over samples, and a count of the chunks each shuffle makes available | systematic Fermat code word by word (`C71_systematic_words_undefined`), no parities (`C71_no_parities_never_ends`), and the parameters the round trips lack; chunks that are not whole words fail or pass as memory is (`C71_part_words_fail`, decided for at most 4 bytes after the words) |
| C72 | p | BenchMain | induction over the options with the last one for each letter winning; `check_params` accepts, the object is built, and C71 | a run of all codes, the default, is undefined (`C72_all_undefined`) or refuses codes that work (`C72_all_refuses_supported`); codes of full length are refused (`C72_full_length_refused`); status 0 although nothing ran (`C72_refused_returns_zero`, `C72_no_type_returns_zero`) |
| C73 | p | BenchMain | members of the shared parameters written and read by a thread; run of a thread independent of the others | with all codes or no integer size the threads race (`C73_undefined`), by default too |
| C74 | p | BigInt | every operator as arithmetic on the low word modulo 2^128; compared with the integers the two halves stand for | only the low half is ever used: products are exact exactly below 2^128 (`C74_product_exact`), no difference is negative (`C74_never_negative`), negative operands compare as huge (`C74_below_negative`, `C74_divides_by_negative`) |
| C75 | p | Stats | the loops with counters give, when the counters are forgotten, the loops without them; induction over words or packets gives the sums | packets: decoding divides the cycles by the size of a word instead of a packet (`C75_decode_cycles_inflated`), and a call that decodes nothing leaves the counters of an earlier one (`C75_decode_packets_stale`, `C75_decode_blocks_stale`) |
| C76 | p | BenchStats | sums kept modulo 2^64 by induction over the samples; the variance identity over fractions | no samples (`C76_no_samples`), sums of squares of 2^64 or more (`C76_long_samples`), rounding of `double` |
| C77 | p | Distance | two rows that agree in `n_data` fragments decode to the same row, by the recovery theorems at one word; polynomials with `n_data` common values for the additive code | Cauchy with three parities or more, where it is false (`C77_cauchy_close`); parameters of C31 |
| C78 | p | Distance | each fragment is the same function of each row of the data | the additive code with more than 2^30 fragments, where lengths do not fit an `int` |
| C79 | P | Linear | each symbol is a linear function of the row of the data, and addition of the field is exclusive or | |
| C80 | p | Pieces | rows of the joined data are those of the pieces, and fragments are functions of rows (C78) | as C78 |
| C81 | P | Combine | the symbols of a fragment are the values of one polynomial, which depends linearly on the row of the data (C25, C32) | |
| C82 | p | Repair | what is decoded is the data up to their last whole word, and only whole words are coded | losses and parameters from which the data are not recovered (C28, C30) |

Techniques used throughout: `forN_inv` (a loop rule), simulation relations
(`GF.Sim`: the record of field functions computes in a Mathlib field on valid
words), one specification structure per layer (`FT.Spec` for transforms of
words, `FTH.Spec` for packets, `Fec.HSpec` and `FecV.VSpec` for codes), and
generic theorems over those structures, so that the stream and block results
are proved once for all codes.

## 3. What the code does wrong

Each line is a theorem unless marked (read), which means found by reading and
either reflected in the model or outside it.

Arithmetic and fields
* `get_all_divisors` repeats the square root of a perfect square.
* `is_prime` says yes to 0 and 1.
* `get_code_len` is not minimal, `get_code_len_high_compo(n, 1)` is wrong.
* `chinese_remainder` returns a value of the word type although the representative
  is below the product of the moduli, which may not fit: with `uint16_t`, moduli
  257 and 256 and residues 65 and 64 it returns 64.  Larger moduli, or residues
  that are not reduced, overflow the signed type.  `extended_gcd` reports the
  quotients by the gcd with a wrong sign.
* `inv` over `__uint128_t` is wrong: `Int256` has 128 unsigned bits (C74_never_negative).
* `is_primitive_root(0)`, `check_order_naive` at order 2.
* `BinExtension<uint8_t>(8)`, `BinExtension<uint16_t>(16)`: the table loops
  count in a type that cannot hold 2^n, so tables stay uninitialised.
* `mul_vec_to_vecp` over GF(2^n): coefficient `card - 1` acts as 1.
* SIMD builds use Fermat constants for every modulus (`C12_other_modulus_wrong`,
  `C13_vectorised_binary_wrong`).  So `RsFnt<uint32_t>` with `word_size` 1 is
  broken in a SIMD build; the theorems exclude it (`FntCode.Builds`).
* `is_quadratic_residue` of a binary field that fills its word type answers no
  for the square of the largest element.
* NF4 (read): the scratch vectors are only `reserve()`d, the move constructor
  does not move them, the root of the base class is garbage for n >= 2 (unused).

Transforms
* `Radix2::fft` with an input length that is not a power of two (nor covered by
  `data_len`) reads the old output.  `fft_inv` does not extend short inputs.
* Packet `ifft` of `Naive` is wrong over GF(2^n).
* (read) `Large`, `CooleyTukey`, `GoodThomas` packet functions are empty;
  Cooley-Tukey and Good-Thomas with n = 1 are undefined; the Radix2 branch of
  `GoodThomas` is dead; `Single::fft` ignores the index map of a `View`.

Codes
* Systematic decoding of streams word by word indexes properties out of range, and encoding writes past a
  vector of the parities (C25_horizontal_systematic_encode_undefined).
* Decoding word by word, a mark that is recorded twice in the properties of a
  fragment hides all its later marks: other words come out wrong
  (C60_repeated_mark_ruins_other_words).  Decoding in packets is not affected.
* Stream length not a multiple of the word size: in packets the parity bytes of
  the last word are cut, so data is lost; word by word that word is dropped.
* Streams of different lengths are not refused in packets.  The last of the streams
  with the fewest full packets decides how many bytes are written: what the others
  have beyond is not protected (C63_data_lost).  In decoding, an empty fragment in
  the last place yields success and no output (C64_truncation_undetected), and what
  a shorter fragment lacks is taken as zeros, so words come out wrong
  (C64_wrong_data).
* **Printing.**  Printing the least `__int128_t` negates it, which is undefined
  (C65_least_undefined).  `hex_dump` sets base, width and fill character of the
  stream but not the alignment, so on a stream that aligns to the left `05` and `50`
  look alike (C66_left_ambiguous).
* **Random elements.**  `rand` on 128-bit rings of more than 2^64 elements takes
  `card - 2^64` for the bound of the high half instead of `card / 2^64`, and never a
  low half of 0.  So 2^64 is never drawn (C67_ring_128_misses), values that are not
  elements are drawn (C67_ring_128_outside), and from GF(2^n), n > 64, only elements
  below 2^64 are (C67_binary_128_small).  `unpacked_rand` of the packed field can
  return 0 (C67_unpacked).
* **Cached roots.**  `compute_omegas_cached` writes the file in place.  When a process is
  killed while writing, all later calls fail an assertion, and nothing repairs the
  file.  If it is killed within the last number, later calls return a table whose last
  entry lacks digits, without notice (C68_crash_points).  The same happens to calls
  made while another process still writes.  The name of the file holds neither
  length nor field (C45_cache_longer, C45_cache_other_field).
* **Dumps.**  `Buffers::dump` of buffers of no elements counts up to `size - 1`, which wraps
  around, and reads outside the buffers (C69_buffers_empty_undefined).
  `DecodeContext::dump` prints the present `inv_A_i` under the heading "init", too
  (C69_context).
* **Benchmark.**  Decoded chunks are compared by a checksum of 32 bits: any chunk of nine bytes or more has a
  different one that compares equal (C70_comparison_misses), and chunks of under four bytes only need to have equal bytes
  (C70_comparison_misses_short).  With the default code `all` streams are coded word by word, which with the systematic
  Fermat code is undefined (C71_systematic_words_undefined).  A systematic code without parities never ends
  (C71_no_parities_never_ends).  With `-p 0` and chunks that are not whole words, the last bytes are neither coded nor
  decoded, and the benchmark reports an error unless memory happens to hold them (C71_part_words_fail).  By default four threads write the shared parameters without order (C73_undefined);
  with one thread the second code is undefined (C72_all_undefined).  A run of all codes keeps the integer type of the first
  one, so that others are refused (C72_all_refuses_supported).  Codes of 2^(8w) fragments are refused
  (C72_full_length_refused).  The status is 0 even if nothing was run (C72_refused_returns_zero,
  C72_no_type_returns_zero).  In vectorised builds `-e rs-fnt -w 1` uses 32-bit integers, for which the vector
  constants are wrong: pass `-t 2`.
* **Packets of no words.**  `pkt_size` 0 is accepted (C36_zero_packets_fermat).  The
  stream functions then write nothing and report success (C36_zero_packets_streams,
  C36_zero_packets_decode_streams).  Encoding blocks divides by zero
  (C36_zero_packets_blocks), decoding them does not end (C36_zero_packets_decode).
* `RsFnt` needs 2 n_data below the field size.  `word_size` 3, for which
  2^24 + 1 is not prime, is only stopped by an assertion.
* `RsGf2n` with more fragments than field elements reads outside the table of
  logarithms in its constructor, with Cauchy (C48_cauchy_reads_out_of_bounds) and
  Vandermonde matrices (C48_vandermonde_reads_out_of_bounds), except with Vandermonde
  matrices and one data fragment, where all parities are copies
  (C48_vandermonde_accepts).
* `RsGf2nFftAdd` is built with any number of parities.  With as many as there
  are words no code at all could keep its promise (`long_code`).  Its transform is then on elements that are not independent:
  it still returns, and takes sums to sums (`Additive.fft_sum`), so C78, C79 and C80 hold there too (Props/AnyLength).
* The packet functions of `RsGf2n`, `RsGf2nFft`, `RsGf2nFftAdd` and `RsGfpFft`
  return normally and write uninitialised memory to the fragments.
* `RsGf2nFft` with words of 4 bytes cannot be built for more than 65535 fragments or 32767 data fragments: 65537 divides the
  length of a transform, and the constructor overflows an `int` or fails to allocate (C48_gf2n_fft_4_partial).
  With words of 8 and 16 bytes the bound is 42007935 fragments, and half as many data fragments, for the same reason
  (C48_gf2n_fft_long_partial).
* `RsNf4` accepts word sizes 3, 5, 6, 7, and then asserts or does nothing.
* `RsGfpFft`: the constructor reads past the factor list for 4-byte words and more than
  4096 data fragments.
* **Lengths and `int`.**  The lengths of the transforms other than Radix2 are kept in an `int`: from 2^31
  to 2^32 they are negative, and a vector of that length cannot be allocated (C20_too_long).  `RsGfpFft`
  meets this with 4-byte words beyond 1073747968 fragments.
* **Counts that wrap.**  `n_data + n_parities` is an `unsigned`, looked up as a `T`.  `RsFnt<uint16_t>` accepts 10 data
  fragments and 65542 parities, whose sum is 16 modulo 2^16 (C48_fnt_uint16_wraps).  The models of the constructors take
  the sums as unbounded numbers, which the theorems of C48 use only below the limits of the types.
* `RsGf2nFftAdd`: null transform when 2 n_data reaches the field size, and an
  assertion.
* `RsGf2n` with the Cauchy matrix is not MDS for three parities or more. See also `C77_cauchy_close`.
* `RsGf2n` in packets dereferences a null context (read).
* `RsGf2n` keeps what a decoding needs in the object: preparing a second decoding
  makes the first one give wrong data without an error (C52_matrix_codes_mix_up).

The file program (test/ec_driver.cpp)
* A repair ignores what the decoding returned.  With too few files it ends like a
  successful one, leaves the missing data files empty, and then codes these: every
  coding file that was still there is emptied (C54_failed_repair_ruins_*).
* A repair creates the missing data files before it decodes.  If it is interrupted
  there, the next repair takes the empty files for the data
  (C54_interrupted_repair_loses_files).
* A coding file whose properties file is missing is used with no properties.
* With the word-by-word codes, bytes of a data file beyond the last word that all
  of them have are not in the coding files, and are lost with it
  (C53_extra_bytes_are_lost).
* With a word size of 17 or more (9 for rs-nf4, 16 for rs-gfp-fft) the program does
  nothing and ends with status 0 (C56_ignored_word_sizes).
* A negative word size shifts by a negative number (C56_negative_word_size).
* rs-nf4 with words of 3, 5, 6 or 7 bytes empties the coding files before an
  assertion fails (C56_nf4_word_sizes_empty_files).
* `check` lets one fragment too many pass for rs-fnt; the constructor refuses it
  (C56_fnt_refused).

Properties and C interface
* `fnt_serialize` with an exact fit calls `std::fill` with first > last; the
  last word is never written; a count near 2^32 wraps and is read out of range
  (`C33_every_area`), so a corrupt block can make `quadiron_fnt32_decode` read
  outside its memory (`C58_undefined`).
* The metadata area can be too small: encode returns -1, or writes one past it.
* `decode` and `reconstruct` index tables out of range for systematic codes with
  n_parities < n_data.
* Encoding writes the metadata of unwanted blocks too.
* Decoding packets or blocks divides the measured cycles by the size of a word, encoding by the size of a packet: the
  figures the file program prints differ by a factor `pkt_size` (C75).  Decoding that finds nothing to do leaves old counters.
* The benchmark's deviation is not a number without samples or after a sample of 2^32 microseconds (C76).

Containers
* `Buffers`: shuffled views not longer than their source, slices starting past
  the end and an odd `separate_even_odd` are undefined.
* `Vector`/`Slice`/`View`/`ZeroExtended`: `fill` of a view writes other
  elements, raw memory of a zero-extended vector is too short, copy from a slice
  overruns, `Slice::set_map` shrinks the slice, `View::set_len` and `swap` are
  unchecked.
* `Poly::mul` leaves the degree stale, so a later `eval` is wrong; a fresh
  `Poly` is uninitialised.
* (read) the move assignment of `Vector` assigns the ring's address to the length:
  it does not compile if it is used.
* `Buffers` has a destructor but no assignment operator: `a = b` loses `a`'s
  blocks and frees `b`'s twice (C50_assign_leaks, C50_assign_frees_twice).
* `Buffers::set` frees the buffer it replaces exactly when the object does not own
  it, and loses it when it does (C50_set_frees_callers_memory, C50_set_leaks); so
  does `separate_even_odd(even, odd)`, which is built on it.
* A vector that was moved from keeps its length, and copying it reads through a
  null pointer (C50_moved_from).  A plain copy of a `Buffers` has `get_mem_len() = 0`
  (C50_copy_mem_len).
* After `View::set_vec`, functions that use `mem` still act on the old vector
  (C43_view_set_vec_fills_old).

## 4. Coverage of the sources

| Source | Model | Not modelled |
|---|---|---|
| arith.h | Arith | `factor_prime` timing |
| big_int.h | BigInt; elsewhere as widths in `RingModN.db` and in `SInt.int256` (C74_in_ring, C74_in_gcd) | nothing |
| gf_base.h, gf_ring.h, gf_prime.h | Ring, Field, Rand, Cache | how often `rand` draws a value, failing file operations of the cache |
| gf_bin_ext.h | BinExt | |
| gf_nf4.h, gf_nf4.cpp, simd_nf4.h | NF4 | base class `Field<T>(65537, n)` except `p`, `n` |
| fft_base.h, fft_2n.h, fft_2n.cpp | Fft2n, Simd | |
| fft_2.h, fft_single.h, fft_naive.h, fft_ct.h, fft_gt.h, fft_large.h | FftOther | views are index functions |
| fft_add.h | FftAdd | |
| fec_context.h, fec_base.h | Fec, FecBuf, Session (programs), Stats (counters) | the clocks themselves: any values are allowed |
| fec_rs_fnt.h, vec_cast.h, fec_vectorisation.cpp | Fec, FecBuf, Counts, Simd | |
| fec_rs_gf2n.h | FecGf2n | dimensions overflowing `int` |
| fec_rs_gf2n_fft.h, fec_rs_gfp_fft.h | FecFft | |
| fec_rs_gf2n_fft_add.h | FecFftAdd | |
| fec_rs_nf4.h | FecNf4, FecNf4Buf | |
| property.h, property.cpp | Property | |
| quadiron_c.cpp | CApi | logging |
| simd_128.h, simd_256.h, simd_fnt.h, simd_ring.h, simd_radix2_fft.h | Simd | |
| simd/allocator.h | Alloc | |
| vec_buffers.h | Buffers, Life, Dump | |
| vec_matrix.h | Matrix, Dump | |
| vec_poly.h | Poly, Dump | |
| vec_vector.h, vec_slice.h, vec_view.h, vec_zero_ext.h | Vec, Life, Rand, Dump | `to_poly` (its argument type is declared but never defined) and move assignment (it assigns a pointer to an integer) cannot be used |
| misc.cpp | Misc | the state of the stream beyond flags and fill character, failures of the stream buffer, locales other than "C" |
| misc.h, exceptions.h, build_info | | timers, version strings |
| test/ec_driver.cpp | Driver, DriverMain, Getopt | negative counts of fragments (the constructors are modelled on natural numbers), messages, signals other than a stop between two calls |
| benchmark/benchmark.cpp, benchmark.h, prng.h, iostreambuf.h, stats.h | Bench, BenchMain, BenchStats, Getopt | the clocks (any times are allowed), rounding of `double` in the figures, messages, the random shuffle (any order is allowed), interleavings of threads beyond the shared parameters, counts near 2^32 |
| benchmark/components, other test/ | | all |

## 5. Trusted base

* Lean's kernel (4.33.0) and Mathlib's definitions of the notions used in the
  statements.
* Axioms: `propext`, `Classical.choice`, `Quot.sound`, for every theorem in
  MANIFEST.json.  There is no other axiom, no `sorry`, no `native_decide` and no
  `bv_decide`.  `decide +kernel` is used for closed numeric facts: certificates
  for the eight field polynomials the code lists, witnesses of violations and
  examples.
* The reading of the C++ sources at the cited lines: the model is written by
  hand, nothing is generated from the sources.
* The meaning given to what the code calls: Intel intrinsics (per-lane
  definitions in Model/Simd.lean), `std::sort`, `std::copy_n`, `std::fill`,
  `memcpy`, `operator new`, streams (a stream is a list of bytes that never
  fails before its end).
* The library has no threads and no persistent state but the root cache.  "Every
  schedule" and "every crash point" therefore mean processes that share that file
  (C68; the file program has crash points of its own, see C54).  "Every history" means
  every sequence of calls on an object (`FntCode.Reachable`, which includes decodings of corrupt
  fragments, `Alloc` histories, C interface histories).
* `assert` is modelled as active.  With `NDEBUG` the failed assertions above
  become whatever follows them.

## 6. Wrong programs

`seeded/LOG.jsonl` has one line per edit of the model made in a scratch copy:
the definition, the edit, the claim it breaks, the theorems that stopped
proving and those that had to be tightened.
