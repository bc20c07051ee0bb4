{"id": "C01", "title": "fw_uint arithmetic is arithmetic modulo 2^W", "statement": "For the default software backend, operator+ and operator- on two fw_uint<W> return the sum/difference modulo 2^W, operator* on fw_uint<WA>,fw_uint<WB> returns the exact product in fw_uint<WA+WB>, ~ & | ^ are the bitwise operations on W bits, and every result is again a W-bit number (no stray bits above W survive in the 32/64/128-bit storage word).", "quantifier": "every width W in 1..128 (WA+WB<=128 for the product) and every pair of operand values", "why_tests_cant": "2^(2W) operand pairs for each of 128 widths; masking mistakes only show for particular width/value combinations", "anchors": ["include/thls/tops/fw_uint_on_masked_uint.hpp: fw_uint::operator+, operator-, operator*, operator~, operator&, operator|, operator^, MASK, bits_holder, bits_t"]}
{"id": "C02", "title": "fw_uint comparisons are the numeric order", "statement": "==, !=, <, <=, >, >= on fw_uint<W> decide exactly the corresponding relation between the unsigned integers represented.", "quantifier": "every width and every pair of values", "why_tests_cant": "quadratic in 2^W values per width", "anchors": ["include/thls/tops/fw_uint_on_masked_uint.hpp: operator==, operator!=, operator<, operator<=, operator>, operator>="]}
{"id": "C03", "title": "Slices and concatenation are inverse", "statement": "get_bits<HI,LO>(x) returns bits HI..LO of x; concat(a,b) puts a above b; slicing a concatenation gives back the parts and concatenating adjacent slices gives back the value; take/drop/msb/lsb helpers select exactly the bits their names say.", "quantifier": "every width split and every value", "why_tests_cant": "unbounded family of widths; only a few splits are ever instantiated in tests", "anchors": ["include/thls/tops/fw_uint_on_masked_uint.hpp: get_bits, concat", "include/thls/tops/fw_uint.hpp: take_lsbs, drop_lsbs, take_msbs, drop_msbs, zpad_hi, zpad_lo, opad_hi, opad_lo"]}
{"id": "C04", "title": "Text form of fw_uint round-trips", "statement": "Constructing a fw_uint<W> from the string that to_string prints for x yields x again.", "quantifier": "every width and every value", "why_tests_cant": "exponentially many values per width", "anchors": ["include/thls/tops/fw_uint_on_masked_uint.hpp: fw_uint(const std::string &), to_string"]}
{"id": "C05", "title": "Software 128-bit fallback arithmetic", "statement": "When the compiler has no native 128-bit integer, the two-limb replacement type computes addition, subtraction, shifts and comparisons modulo 2^128 and multiplication modulo 2^128.", "quantifier": "every pair of 128-bit values and every shift distance", "why_tests_cant": "2^256 operand pairs", "anchors": ["include/thls/tops/fw_uint_on_masked_uint.hpp: uint128_t fallback, operator+, operator-, operator*, m32, operator<<, operator>>"]}
{"id": "C06", "title": "FloPoCo fields round-trip through the packed word", "statement": "Building an fp_flopoco<E,F> from (flags, sign, exponent, fraction) and reading the fields back gives the same fields; building it from a packed word and re-packing the fields gives the same word; every word belongs to exactly one of zero, normal, infinity, NaN.", "quantifier": "every E,F and every word", "why_tests_cant": "2^(E+F+3) words per format", "anchors": ["include/thls/tops/fp_flopoco.hpp: fp_flopoco(flags,sign,exp,frac), get_flags, get_sign, get_exp_bits, get_frac_bits, is_zero, is_normal, is_inf, is_nan"]}
{"id": "C07", "title": "equals identifies exactly the numerically identical encodings", "statement": "a.equals(b) is true precisely when a and b denote the same datum (same signed zero, same infinity, both NaN, or the same finite number); it is an equivalence relation and ignores the don't-care exponent/fraction bits of zero, infinity and NaN.", "quantifier": "every format and every pair of encodings, including non-canonical ones", "why_tests_cant": "quadratic in 2^(E+F+3) encodings", "anchors": ["include/thls/tops/fp_flopoco.hpp: equals, get_equality_class"]}
{"id": "C08", "title": "nextup is the successor function", "statement": "nextup(x) of any number below +infinity is the smallest representable number strictly greater than x (in the order in which -0 immediately precedes +0).", "quantifier": "every format and every non-NaN value", "why_tests_cant": "all exponent/fraction boundaries of all formats", "anchors": ["include/thls/tops/fp_flopoco.hpp: nextup"]}
{"id": "C09", "title": "nextdown is the predecessor function and inverts nextup", "statement": "nextdown(x) is the largest representable number strictly smaller than x, and nextdown(nextup(x)) = x for finite x.", "quantifier": "every format and every non-NaN value", "why_tests_cant": "only fails at binade boundaries of each format", "anchors": ["include/thls/tops/fp_flopoco.hpp: nextdown, nextafter"]}
{"id": "C10", "title": "Multiplication is correctly rounded", "statement": "mul<E,FR> of two normal numbers returns the real product rounded to nearest, ties to even, with FR fraction bits; a rounded result below the smallest normal becomes a zero and one above the largest normal becomes an infinity, both with the sign of the product. The one exception: with a one-bit exponent the products of at least 16*(1-2^-(FR+2)), which exist only if FR is shorter than the operands' fractions, become zeros instead of infinities.", "quantifier": "every exponent width, every combination of input and output fraction widths, every pair of normal inputs", "why_tests_cant": "rounding and range corner cases sit at isolated points of a 2^(2(E+F)) space for every format triple", "anchors": ["include/thls/tops/fp_flopoco_mul_v1.hpp: mul", "include/thls/tops/fp_flopoco.hpp: ref_mul"]}
{"id": "C11", "title": "Wide multiplication is exact", "statement": "When the result fraction is at least FX+FY+1 bits, mul returns the exact product, with no rounding, whenever its exponent is in range; so products can be chained without loss as the readme's mul3 example promises.", "quantifier": "every combination of widths satisfying the bound and every pair of normal inputs", "why_tests_cant": "needs every pair of significands and exponents for each format", "anchors": ["include/thls/tops/fp_flopoco_mul_v1.hpp: mul", "readme.md: full-accuracy mul3"]}
{"id": "C12", "title": "Multiplication handles zeros, infinities and NaN", "statement": "NaN propagates, zero times infinity is NaN, infinity times a non-zero is infinity, zero times a finite number is zero, and every zero or infinite result carries the exclusive-or of the operand signs, whatever the don't-care bits of the operands are.", "quantifier": "every format and every pair of encodings where at least one operand is not normal", "why_tests_cant": "the don't-care bits make the special cases an exponentially large set", "anchors": ["include/thls/tops/fp_flopoco_mul_v1.hpp: mul exception table"]}
{"id": "C13", "title": "Multiplication is commutative", "statement": "mul(x,y) and mul(y,x) are equal bit for bit when both operands have the same format.", "quantifier": "every format and pair of encodings", "why_tests_cant": "quadratic input space", "anchors": ["include/thls/tops/fp_flopoco_mul_v1.hpp: mul"]}
{"id": "C14", "title": "The default adder is correctly rounded", "statement": "add<E,F> of two normal numbers whose exact sum is non-zero returns that sum rounded to nearest, ties to even, to F fraction bits, flushing to zero below and to infinity above the exponent range, with the sign of the exact sum.", "quantifier": "every exponent width > 3, every fraction width, every pair of normal inputs", "why_tests_cant": "cancellation, alignment and sticky-bit corner cases for each exponent difference and significand pair in every format", "anchors": ["include/thls/tops/fp_flopoco_add_dual_v1.hpp: add_dual", "include/thls/tops/fp_flopoco.hpp: ref_add"]}
{"id": "C15", "title": "The single-path adder is correctly rounded", "statement": "add_single / add_small returns the correctly rounded (nearest, ties to even) sum with the same range handling as the default adder.", "quantifier": "every supported exponent and fraction width, every pair of normal inputs", "why_tests_cant": "same as the default adder", "anchors": ["include/thls/tops/fp_flopoco_add_single_v1.hpp: add_single", "include/thls/tops/fp_flopoco_add_single_v2.hpp", "include/thls/tops/fp_flopoco_add_single_v4.hpp"]}
{"id": "C16", "title": "Exact cancellation gives positive zero", "statement": "Adding a normal number to its negation returns +0 in both adders, and adding zeros follows round-to-nearest sign rules: (+0)+(+0)=+0, (-0)+(-0)=-0, mixed zeros give +0.", "quantifier": "every format in which the adder cannot fail an assertion (characterised in C19), every normal number, every pair of zero encodings", "why_tests_cant": "every normal number of every format", "anchors": ["include/thls/tops/fp_flopoco_add_dual_v1.hpp: add_dual", "include/thls/tops/fp_flopoco_add_single_v1.hpp: add_single"]}
{"id": "C17", "title": "Addition handles zeros, infinities and NaN", "statement": "x+0 = x for normal x, infinity plus anything finite is that infinity, infinities of opposite sign give NaN, NaN propagates, whatever the don't-care bits are.", "quantifier": "every format in which the adder cannot fail an assertion (characterised in C19) and every pair of encodings where an operand is not normal", "why_tests_cant": "exponentially many encodings of the special values", "anchors": ["include/thls/tops/fp_flopoco_add_dual_v1.hpp", "include/thls/tops/fp_flopoco_add_single_v1.hpp"]}
{"id": "C18", "title": "The two adder architectures agree and addition is commutative", "statement": "The dual-path adder and the single-path adder return equal results (in the sense of equals) on all inputs, and add(x,y) equals add(y,x).", "quantifier": "every supported format and every pair of encodings", "why_tests_cant": "equivalence of two different data paths over the full quadratic input space", "anchors": ["include/thls/tops/fp_flopoco_add_dual_v1.hpp: add_dual", "include/thls/tops/fp_flopoco_add_single_v1.hpp: add_single"]}
{"id": "C19", "title": "Adders never violate fw_uint preconditions", "statement": "No call of an adder triggers an assertion of the integer layer (out-of-range shift distance or width-changing checked cast), for any input values.", "quantifier": "every supported format and all inputs", "why_tests_cant": "only particular exponent differences in particular formats reach the out-of-range distance", "anchors": ["include/thls/tops/fp_flopoco_add_dual_v1.hpp: farPath shifter", "include/thls/tops/fp_flopoco_add_single_v1.hpp: shiftVal", "include/thls/tops/fw_uint_on_masked_uint.hpp: operator>>, checked_cast"]}
{"id": "C20", "title": "Division is correctly rounded", "statement": "div<E,F> of two normal numbers returns the real quotient rounded to nearest, ties to even, with the usual flush to zero or infinity outside the exponent range.", "quantifier": "every format and every pair of normal inputs", "why_tests_cant": "digit-recurrence division is the classic case where a wrong table entry survives billions of tests", "anchors": ["include/thls/tops/fp_flopoco_div_v1.hpp: div", "include/thls/tops/fp_flopoco.hpp: ref_div"]}
{"id": "C21", "title": "Division digit recurrence stays in range and agrees across versions", "statement": "At every one of the iterations the partial remainder stays within the bound for which the digit table is defined, no digit selection reaches an undefined entry, and the two versions of the divider produce identical results.", "quantifier": "every fraction width, every pair of significands and every iteration index", "why_tests_cant": "invariant over an unbounded number of iterations and all significands", "anchors": ["include/thls/tops/fp_flopoco_div_v1.hpp: div_v1 (digit selection table)", "include/thls/tops/fp_flopoco_div_v2.hpp: add_sub variant"]}
{"id": "C22", "title": "Division handles zeros, infinities and NaN", "statement": "0/0 and inf/inf are NaN, x/0 is infinity, x/inf and 0/x are zero, NaN propagates, and the sign is the exclusive-or of the operand signs.", "quantifier": "every format and every pair of encodings where an operand is not normal", "why_tests_cant": "exponentially many encodings of the special values", "anchors": ["include/thls/tops/fp_flopoco_div_v1.hpp: exception handling"]}
{"id": "C23", "title": "Widening conversion is exact", "statement": "Converting an fp_flopoco value to a format with at least as many exponent and fraction bits preserves the value exactly, and converting back returns the original.", "quantifier": "every pair of formats ordered by both widths and every encoding", "why_tests_cant": "all format pairs times all encodings", "anchors": ["include/thls/tops/fp_convert.hpp: convert, convert_frac", "include/thls/tops/fp_promote.hpp: promote"]}
{"id": "C24", "title": "Narrowing conversion is correctly rounded", "statement": "Converting a normal number to any format returns the nearest representable value, ties to even, underflowing to zero and overflowing to infinity with the same sign; zeros, infinities and NaN stay in their class. (The code breaks the last part for zeros and NaNs with certain meaningless bits when only the fraction is narrowed; the multiplier, the divider and the adder produce such zeros.)", "quantifier": "every pair of formats and every encoding", "why_tests_cant": "tie and carry cases for each format pair", "anchors": ["include/thls/tops/fp_convert.hpp: convert, convert_frac"]}
{"id": "C25", "title": "Comparisons agree with the real order", "statement": "less_than, less_than_equal, greater_than, greater_than_equal, equal and not_equal of non-NaN operands (possibly of different formats) decide the corresponding relation between the extended real numbers denoted, with +0 equal to -0; every ordered comparison with NaN is false and not_equal is true.", "quantifier": "every pair of formats and every pair of encodings", "why_tests_cant": "quadratic input space across all format pairs", "anchors": ["include/thls/tops/fp_flopoco_ordering.hpp: equal, not_equal, less_than, less_than_equal, greater_than, greater_than_equal"]}
{"id": "C26", "title": "Comparisons form a consistent order", "statement": "less_than is irreflexive and transitive, exactly one of less_than, equal, greater_than holds for non-NaN operands, less_than_equal is the disjunction of less_than and equal, and greater_than mirrors less_than.", "quantifier": "all pairs and triples of encodings", "why_tests_cant": "cubic input space", "anchors": ["include/thls/tops/fp_flopoco_ordering.hpp"]}
{"id": "C27", "title": "Negation is exact and involutive", "statement": "neg(x) flips the sign of every datum, neg(neg(x)) equals x, and x+neg(x) is zero for every finite x.", "quantifier": "every format and encoding", "why_tests_cant": "all encodings", "anchors": ["include/thls/tops/fp_flopoco_neg_v1.hpp: neg"]}
{"id": "C28", "title": "IEEE and FloPoCo encodings convert losslessly", "statement": "Converting a non-denormal IEEE-754 value to the FloPoCo format of the same widths preserves its value and class, converting back returns the same value; denormals become zeros of the same sign; FloPoCo values outside the IEEE normal range become IEEE zero/infinity.", "quantifier": "every format and every word", "why_tests_cant": "2^(E+F+1) words per format", "anchors": ["include/thls/tops/fp_convert.hpp: convert(fp_flopoco,fp_ieee), convert(fp_ieee,fp_flopoco)", "include/thls/tops/fp_ieee.hpp: get_flags, is_zero, is_normal, is_inf, is_nan"]}
{"id": "C29", "title": "IEEE-on-FloPoCo policy arithmetic", "statement": "The ieee_on_flopoco wrapper's operator* and operator+ return the correctly rounded IEEE result for non-denormal operands whenever the rounded result is a normal IEEE number, and its comparisons agree with the real order.", "quantifier": "every format and every pair of non-denormal words", "why_tests_cant": "quadratic input space", "anchors": ["include/thls/tops/policy_ieee_on_flopoco.hpp: fp_ieee_on_flopoco_wrapper::operator*, operator+, operator<"]}
{"id": "C30", "title": "Reciprocal", "statement": "inv(x) of a normal number is a correctly rounded reciprocal; inv_faithful(x) is 1/x or one of its two neighbours; 1/0 is infinity and 1/infinity is zero.", "quantifier": "every format and every encoding", "why_tests_cant": "all significands and exponent boundaries of all formats", "anchors": ["include/thls/tops/fp_flopoco_inv_v1.hpp: inv_v1", "include/thls/tops/fp_flopoco_inv_nr.hpp: inv_table_newton, inv_direct, round_frac"]}
{"id": "C31", "title": "Fused multiply-add", "statement": "flopoco_fma(x,y,z) returns x*y+z; the product is never rounded on its own and the result is within one unit in the last place of the correctly rounded value.", "quantifier": "every combination of formats and every triple of encodings", "why_tests_cant": "cubic input space; double rounding only shows on isolated triples", "anchors": ["include/thls/tops/fp_flopoco_fma.hpp: flopoco_fma", "include/thls/tops/fp_flopoco.hpp: ref_fma, within_1ulp"]}
{"id": "C32", "title": "Two-term positive dot product rounds down", "statement": "dot2_pos_rndd(a0,a1,b0,b1) on positive normal inputs returns a0*b0+a1*b1 rounded towards minus infinity with a single rounding, and flushes to zero or infinity outside the exponent range.", "quantifier": "every format and every quadruple of positive normal inputs", "why_tests_cant": "quartic input space", "anchors": ["include/thls/tops/fp_flopoco_dot2_pos_rndd.hpp: dot2_pos_rndd, dot2_pos_rndd_ref"]}
{"id": "C33", "title": "Four-term positive dot product rounds down", "statement": "dot4_pos_rndd on eight positive normal inputs returns the exact sum of four products rounded towards minus infinity with a single rounding.", "quantifier": "every format and every 8-tuple of positive normal inputs", "why_tests_cant": "input space is the 8th power of the format size", "anchors": ["include/thls/tops/fp_flopoco_dot4_pos_rndd.hpp: dot4_pos_rndd, rotate4, safe_rshift"]}
{"id": "C34", "title": "Leading-zero counter and normaliser", "statement": "The count/shift unit used by the adders returns the number of leading zeros of a non-zero word and the word shifted left by that count, for every word width; an all-zero word is reported by an all-ones count.", "quantifier": "every word width and every word", "why_tests_cant": "2^W words per width", "anchors": ["include/thls/tops/fp_flopoco_add_single_v1.hpp: LZOCShifterImpl, intlog2", "include/thls/tops/fp_flopoco_add_single_v3.hpp: LZOCShifterCLZ, clz"]}
{"id": "C35", "title": "Bit heaps preserve the sum they represent", "statement": "Converting an unsigned integer to a bit heap and reading the heap back gives the integer; merging two heaps adds the weighted sums of their bits (hence the values read, when the heaps have the same width), shifting multiplies by a power of two, and a compression step, full compression and the final collapse all preserve the value modulo 2^width.", "quantifier": "every heap shape (any number of columns, any column heights) and all bit values; any number of compression steps", "why_tests_cant": "unbounded shapes and steps", "anchors": ["include/thls/tops/bit_heap.hpp: uint_to_bit_heap, bit_heap_to_mpz, merge_bit_heaps, shift_left, compress_step, compress, collapse"]}
{"id": "C36", "title": "Heap compression terminates with at most two rows", "statement": "Repeated compression of any bit heap or row heap stops, with all columns of height at most two (respectively two rows).", "quantifier": "every heap shape", "why_tests_cant": "unbounded shapes", "anchors": ["include/thls/tops/bit_heap.hpp: compress", "include/thls/tops/row_heap.hpp: compress"]}
{"id": "C37", "title": "Tiled bit-heap multiplication is multiplication", "statement": "Multiplying two unsigned integers through bit_heap_mul with any tile size and collapsing gives the exact product.", "quantifier": "all operand widths, tile sizes and operand values", "why_tests_cant": "unbounded widths and recursive tilings", "anchors": ["include/thls/tops/bit_heap_mul.hpp: bit_heap_mul"]}
{"id": "C38", "title": "Row heaps preserve their sum", "statement": "Adding rows, carry-save compression and collapse of a row heap preserve the sum of the rows modulo 2^W.", "quantifier": "every width, number of rows and row values", "why_tests_cant": "unbounded number of rows", "anchors": ["include/thls/tops/row_heap.hpp: operator+, compress, collapse, row_heap_compressor"]}
{"id": "C39", "title": "Compile-time LCG skip-ahead", "statement": "skip_by<n> of the compile-time generators equals n single steps, skips compose additively, and negative skips undo positive ones, for both the modulo-2^32 and the modulo-prime generators.", "quantifier": "every seed and every distance", "why_tests_cant": "2^32 seeds times 2^32 distances", "anchors": ["include/thls/tops/ct/ct_rng_lcg_mod_2y32.hpp: lcg_mod_2y32_state, lcg_mod_2y32_multiplier, make_quick_and_dirty, skip_by", "include/thls/tops/ct/ct_rng_lcg_mod_p.hpp: lcg_mod_p_state, lcg_mod_p_multiplier, make_minstdrand0, make_lcg_mod_2y32m5, skip_by"]}
{"id": "C40", "title": "Compile-time vectors behave like arrays", "statement": "Reading after writing the same index gives the written value and leaves other indices alone; swap exchanges two entries; the random permutation generator returns a permutation of its input.", "quantifier": "every vector length, index, contents and random stream", "why_tests_cant": "unbounded lengths and streams", "anchors": ["include/thls/tops/ct/ct_vec.hpp: ct_vec_read, ct_vec_write, ct_vec_swap", "include/thls/tops/ct/ct_vec_permute.hpp: ct_vec_permute", "include/thls/tops/ct/ct_vec_create.hpp: create_ct_vec, create_ct_vec_rotation"]}
{"id": "C41", "title": "Compile-time unique is sorted deduplication", "statement": "ct_vec_unique returns exactly the distinct values of its input in strictly increasing order, although internally it writes one element past the end.", "quantifier": "every vector of values", "why_tests_cant": "unbounded lengths", "anchors": ["include/thls/tops/ct/ct_vec_unique.hpp: ct_vec_unique, ct_vec_reduce_unique_impl, ct_vec_next_above, ct_vec_compare"]}
{"id": "C42", "title": "LUT-optimised generator step is GF(2)-linear", "statement": "The state update of the lut_opt generator is linear over GF(2): step(a xor b) = step(a) xor step(b), the zero state is fixed, and every next-state bit is the parity of between 1 and T distinct current bits.", "quantifier": "every generator width, tap count, seed and state", "why_tests_cant": "2^(2n) state pairs for each spec", "anchors": ["include/thls/tops/lut_opt.hpp: lut_opt_spec, step"]}
{"id": "C43", "title": "Interval fixed-point result ranges are sound", "statement": "For fixval operands within their declared ranges, the declared range of a sum, product, Horner evaluation, right shift or union contains every possible result, sums, products and Horner evaluations are exact, and no assertion fails and nothing overflows whenever the result type itself is representable.", "quantifier": "every pair of declared ranges and scalings, every pair of values inside them", "why_tests_cant": "unbounded ranges", "anchors": ["include/thls/types/fixval.hpp: add_type, mul_type, shift_right_type, union_type", "include/thls/functions/horner.hpp: horner", "include/thls/functions/product.hpp: product"]}
{"id": "C44", "title": "Correctly rounded operations are monotone", "statement": "For fixed z, x<=y implies add(x,z)<=add(y,z), and mul(x,z)<=mul(y,z) for positive z, in the order denoted by the results.", "quantifier": "every format and all triples of finite inputs", "why_tests_cant": "cubic input space", "anchors": ["include/thls/tops/fp_flopoco_add_dual_v1.hpp", "include/thls/tops/fp_flopoco_mul_v1.hpp"]}
{"id": "C45", "title": "Algebraic identities of the operators", "statement": "x*1 = x, x/1 = x, x/x = 1, x+0 = x and neg(x)*y = neg(x*y) hold exactly for every normal x,y.", "quantifier": "every format and every normal x, y", "why_tests_cant": "all normal numbers of every format", "anchors": ["include/thls/tops/fp_flopoco_mul_v1.hpp", "include/thls/tops/fp_flopoco_div_v1.hpp", "include/thls/tops/fp_flopoco_add_dual_v1.hpp"]}
{"id": "C46", "title": "numeric_limits constants mean what their names say", "statement": "min, max, lowest, epsilon, infinity and quiet_NaN of numeric_limits<fp_flopoco<E,F>> are the smallest positive normal, the largest and most negative finite numbers, the gap above one, infinity and NaN; every finite number lies between lowest and max and every positive normal is at least min.", "quantifier": "every format and every finite number", "why_tests_cant": "all numbers of every format", "anchors": ["include/thls/tops/fp_flopoco.hpp: numeric_limits"]}
{"id": "C47", "title": "MPFR exchange round-trips", "statement": "Extracting a FloPoCo value into an MPFR number of matching precision and constructing from it again gives an equal value.", "quantifier": "every format and every encoding", "why_tests_cant": "2^(E+F+3) encodings per format", "anchors": ["include/thls/tops/fp_flopoco.hpp: fp_flopoco(mpfr_t,bool), get(mpfr_t)"]}
{"id": "C48", "title": "Compile-time big integers", "statement": "The compile-time limb integers' comparison, addition, shift and multiplication compute the corresponding operations on the integers they denote, results have no leading zero limbs, and printing gives a hexadecimal literal of the value.", "quantifier": "integers of any number of limbs", "why_tests_cant": "unbounded limb counts", "anchors": ["include/thls/core/ct_bigint.hpp: ct_less_than, ct_equals, ct_add, ct_shift_left, ct_shift_right, ct_mul"]}
{"id": "C49", "title": "within_1ulp means adjacent or equal", "statement": "x.within_1ulp(o) of two non-NaN numbers is true exactly when no representable number lies strictly between them in the order of the extended reals (so it also works across binades, next to zero and next to infinity); with a NaN operand it is true exactly when both are NaN.", "quantifier": "every format and every pair of encodings", "why_tests_cant": "quadratic in the number of encodings, for every format", "anchors": ["include/thls/tops/fp_flopoco.hpp: within_1ulp"]}
{"id": "C50", "title": "Equality classes", "statement": "get_equality_class returns 0 for NaN, 1 for -infinity, 2 for negative normals, 3 for either zero, 4 for positive normals and 5 for +infinity.", "quantifier": "every format and every encoding", "why_tests_cant": "every encoding of every format, including don't-care bits", "anchors": ["include/thls/tops/fp_flopoco.hpp: get_equality_class"]}
{"id": "C51", "title": "IEEE words: classification, equality, limits and MPFR exchange", "statement": "For fp_ieee, with denormals read as zeros: is_zero/is_normal/is_inf/is_nan/is_positive/is_negative classify the denoted value; equals holds exactly for the same extended real (either zero) or two NaNs; min, max, lowest, infinity, quiet_NaN and the constants one and zero of numeric_limits have the values their names say and bound every normal number; extraction into MPFR is exact and construction from MPFR keeps in-range values and flushes or rejects the others as asked.", "quantifier": "every format, every word, every MPFR number of matching precision", "why_tests_cant": "all words of all formats, and an unbounded set of MPFR exponents", "anchors": ["include/thls/tops/fp_ieee.hpp: fp_ieee, std::numeric_limits<fp_ieee>"]}
{"id": "C52", "title": "Compile-time fixed-point comparison and assignment", "statement": "Comparing two compile-time fixed-point numbers (mantissa and exponent) orders them by value; assigning a fixval to another fixval type compiles only if every value fits, and keeps the value; select returns the selected operand's value.", "quantifier": "every pair of mantissas and exponents, every pair of fixval types and values", "why_tests_cant": "unbounded ranges, and the checks happen while compiling", "anchors": ["include/thls/core/constfunc_helpers.hpp: ctFixCompare, ctFixLessThan, ctFixLessThanEquals, ctFixEquals, ctFixGreaterThanEquals, ctFixGreaterThan", "include/thls/types/fixval.hpp: fixval", "include/thls/functions/select.hpp: select"]}
{"id": "C53", "title": "MPFR reference functions are correctly rounded", "statement": "ref_mul, ref_add, ref_div, ref_fma, ref_convert, ref_neg, ref_inv, ref_ldexp and ref_square return the exact result rounded once (nearest, ties to even, underflow to zero, overflow to infinity), follow the exception rules of the operation, give +0 on cancellation, and never trip their internal checks; ref_inv_faithful returns the reciprocal rounded down and rounded up.", "quantifier": "every pair (or triple) of encodings in any mixture of formats and every result format", "why_tests_cant": "all operand encodings of all formats; the tests use these functions as their oracle and so cannot check them", "anchors": ["include/thls/tops/fp_flopoco.hpp: ref_mul, ref_add, ref_div, ref_fma, ref_convert, ref_neg, ref_inv, ref_inv_faithful, ref_ldexp, ref_square"]}
{"id": "C54", "title": "Operators agree with the reference functions", "statement": "mul, add (dual-path), add (single-path), div and neg return a value equal (in the sense of equals) to what ref_mul, ref_add, ref_div and ref_neg return on the same operands.", "quantifier": "every pair of encodings and every result format the operator supports", "why_tests_cant": "this is exactly what the random tests sample; the pairs are 2^(2(E+F+3)) per format", "anchors": ["include/thls/tops/fp_flopoco_mul_v1.hpp", "include/thls/tops/fp_flopoco_add_dual_v1.hpp", "include/thls/tops/fp_flopoco_add_single_v1.hpp", "include/thls/tops/fp_flopoco_div_v1.hpp", "include/thls/tops/fp_flopoco_neg_v1.hpp", "include/thls/tops/fp_flopoco.hpp: ref_mul, ref_add, ref_div, ref_neg, equals"]}
{"id": "C55", "title": "Construction from double", "statement": "Constructing an fp_flopoco from a double keeps NaN, infinities and zeros and their signs, rounds an ordinary number towards zero to the fraction width, and sends exponents below and above the range to a zero and an infinity of the same sign; a number of a format narrower than double, written as a double and read back, is unchanged.", "quantifier": "every double and every format", "why_tests_cant": "2^64 doubles times every format", "anchors": ["include/thls/tops/fp_flopoco.hpp: fp_flopoco(double), to_double, to_double_approx"]}
{"id": "C56", "title": "Conversion to double", "statement": "to_double_approx gives the double nearest to the number (ties to even, gradual underflow, overflow to infinity) and keeps zeros, infinities and NaN; to_double does so too for formats no wider than double; both are exact when the format has at most 10 exponent and 52 fraction bits.", "quantifier": "every format and every encoding", "why_tests_cant": "all encodings of all formats", "anchors": ["include/thls/tops/fp_flopoco.hpp: to_double, to_double_approx"]}
{"id": "C57", "title": "Accumulation loops", "statement": "Summing n finite values with acc += x, or multiplying and accumulating n pairs with acc += a*b, from a default-constructed accumulator, never violates a precondition. The result is within ((1+u)^(n-1)-1)(sum|v| + smallest/u) of the exact sum, and within ((1+u)^n-1)(sum|ab| + 2 smallest/u) of the exact dot product, with u=2^-(F+1), unless it overflowed, which it does not if that magnitude fits the format. Sums of small multiples of one power of two are exact in any order; sums of non-negative values are non-negative; an infinity or NaN anywhere makes the result non-finite and a NaN makes it NaN. The example programs sum and dot_product on float inherit the bounds.", "quantifier": "every list length, every list of finite encodings, every order, every format on which add is correct", "why_tests_cant": "lists of any length; the error accumulates along an unbounded execution", "anchors": ["src/examples/sum.cpp: sum", "src/examples/dot_product.cpp: dot_product", "include/thls/tops/policy_flopoco.hpp: fp_flopoco_wrapper::operator+=, operator*"]}
{"id": "C58", "title": "Benchmark dot products and matrix products", "statement": "The benchmark kernels dot_product_par4 and mat_mul compute, for every finite input and without violating a precondition, the exact dot product up to the compounded rounding error of their products and sums.", "quantifier": "every factor format, accumulator format at least as wide, matrix size, and finite input", "why_tests_cant": "all inputs of all mixed-format configurations and every matrix size", "anchors": ["src/benchmarks/dot_product/dot_product_par4_tl.hpp: dot_product_par4", "src/benchmarks/dot_product/sweep_types.hpp: flopoco_full_dot_traits, flopoco_round_dot_traits", "src/benchmarks/mat_mul/mat_mul_16x16.hpp: mat_mul", "src/benchmarks/mat_mul/sweep_types.hpp"]}
{"id": "C59", "title": "Width, table, selection, random and double helpers of fw_uint", "statement": "thls_ctLog2Ceil(x) is the least number of bits that holds x; extu keeps the value; add_cin adds the carry modulo 2^W; || and && on single bits are the logical connectives; select returns the value of the first true condition, else the default; a lut returns at each address what its initialiser gave and rejects entries out of range; random_fw_uint returns the top W bits of the words it draws and is exactly uniform over W-bit values when the words are; to_double_approx is exact for every value a double can hold and otherwise has relative error at most (1+2^-53)^ceil(W/32)-1.", "quantifier": "every width up to 128, every value, every table, every word sequence", "why_tests_cant": "uniformity is a statement about all 2^(32n) word sequences, and error bounds about all 2^W values", "anchors": ["include/thls/tops/fw_uint.hpp: thls_ctLog2Ceil, take, extu, add_cin, select, operator||, operator&&, lut, random_fw_uint, to_double_approx"]}
{"id": "C60", "title": "Random test source respects its classes", "statement": "fp_flopoco_random_test_source always returns a value of the selected class with the random words as exponent and fraction; after disable_class(c) no value of class c is ever returned; with every class enabled every encoding can be returned.", "quantifier": "every format, every sequence of disable_class calls, every sequence of random words and every uniform draw", "why_tests_cant": "a disabled class that appears with probability 2^-53 is not seen by sampling", "anchors": ["include/thls/tops/fp_flopoco.hpp: fp_flopoco_random_test_source", "include/thls/tops/fw_uint.hpp: random_fw_uint, randomise"]}
{"id": "C61", "title": "Software floating-point addition", "statement": "Adding two float32_t or two float64_t values gives the IEEE 754 sum rounded to nearest even with gradual underflow and overflow to infinity, with the IEEE rules for NaNs, infinities and signed zeros, and never runs into undefined behaviour; the result word is determined by this unless it is a NaN.", "quantifier": "every pair of 32-bit words and every pair of 64-bit words, every width of uint_fast32_t and uint_fast64_t", "why_tests_cant": "2^64 and 2^128 pairs of words, and platforms with other fast integer widths", "anchors": ["include/thls/tops/policy_softfloat.hpp: operator+", "include/thls/tops/fp_softfloat.hpp: add", "include/thls/tops/softfloat/src/f32_add.c", "include/thls/tops/softfloat/src/f64_add.c", "include/thls/tops/softfloat/src/s_addMagsF32.c", "include/thls/tops/softfloat/src/s_subMagsF32.c", "include/thls/tops/softfloat/src/s_roundPackToF32.c", "include/thls/tops/softfloat/src/s_normRoundPackToF32.c"]}
{"id": "C62", "title": "Software floating-point multiplication", "statement": "Multiplying two float32_t or two float64_t values gives the IEEE 754 product rounded to nearest even with gradual underflow, with the IEEE rules for NaNs, infinities and zeros; no assertion fails; the result word is determined by this unless it is a NaN.", "quantifier": "every pair of 32-bit words and every pair of 64-bit words, every width of uint_fast32_t and uint_fast64_t", "why_tests_cant": "2^64 and 2^128 pairs of words", "anchors": ["include/thls/tops/policy_softfloat.hpp: operator*", "include/thls/tops/fp_softfloat.hpp: mul", "include/thls/tops/softfloat/src/f32_mul.c", "include/thls/tops/softfloat/src/f64_mul.c", "include/thls/tops/softfloat/src/s_normSubnormalF32Sig.c", "include/thls/tops/softfloat/softfloat_inline.hpp: softfloat_mul64To128M"]}
{"id": "C63", "title": "Software floating-point division", "statement": "Dividing two float32_t or two float64_t values gives the IEEE 754 quotient rounded to nearest even with gradual underflow, with the IEEE rules for NaNs, infinities and zeros, although the quotient is computed from a table-based approximate reciprocal; the result word is determined by this unless it is a NaN.", "quantifier": "every pair of 32-bit words and every pair of 64-bit words, every width of uint_fast32_t and uint_fast64_t", "why_tests_cant": "2^64 and 2^128 pairs of words; a reciprocal that is too inaccurate for one divisor shows only on few dividends", "anchors": ["include/thls/tops/policy_softfloat.hpp: operator/", "include/thls/tops/fp_softfloat.hpp: div", "include/thls/tops/softfloat/src/f32_div.c", "include/thls/tops/softfloat/src/f64_div.c", "include/thls/tops/softfloat/src/s_approxRecip32_1.c"]}
{"id": "C64", "title": "Software floating-point comparisons", "statement": "==, !=, <, >, <= and >= on float32_t and float64_t compare the extended real values: the two zeros are equal, and every comparison with a NaN is false except !=.", "quantifier": "every pair of 32-bit words and every pair of 64-bit words", "why_tests_cant": "2^64 and 2^128 pairs of words", "anchors": ["include/thls/tops/policy_softfloat.hpp: operator==, operator!=, operator<, operator>, operator<=, operator>=", "include/thls/tops/softfloat/src/f32_eq.c", "include/thls/tops/softfloat/src/f32_lt.c", "include/thls/tops/softfloat/src/f32_le.c", "include/thls/tops/softfloat/src/f64_eq.c", "include/thls/tops/softfloat/src/f64_lt.c", "include/thls/tops/softfloat/src/f64_le.c"]}
{"id": "C65", "title": "Software floating-point algebra", "statement": "On float32_t and float64_t, + and * are commutative bit for bit; addition, multiplication by a positive operand and division by a positive number are monotone; x*1, x/1 and x+(-0) return x, x/x returns one and x+(-x) returns +0; the difference of two numbers within a factor of two, and every sum below twice the least normal number, is exact; a sum of numbers is a zero exactly if the exact sum is, and has its sign otherwise.", "quantifier": "every pair or triple of words meeting the stated conditions", "why_tests_cant": "2^64 to 2^192 tuples of words", "anchors": ["include/thls/tops/policy_softfloat.hpp: operator+, operator*, operator/"]}
{"id": "C66", "title": "NaN results of software floating-point", "statement": "Every NaN returned by +, * or / on float32_t and float64_t is quiet; with exactly one NaN operand the result carries its payload.", "quantifier": "every pair of 32-bit words and every pair of 64-bit words", "why_tests_cant": "2^24 and 2^53 NaNs times all words", "anchors": ["include/thls/tops/policy_softfloat.hpp: operator+, operator*, operator/", "include/thls/tops/softfloat/src/s_propagateNaNF32UI.c", "include/thls/tops/softfloat/src/s_propagateNaNF64UI.c", "include/thls/tops/softfloat/src/specialize.h"]}
{"id": "C67", "title": "Synthesis and simulation integers agree", "statement": "Every operator, slice, concatenation and helper on fw_uint gives the same number whether the library is built for simulation, on ap_uint or on ac_int, whenever the simulation's assertions hold; on the synthesis types the operators are exact modulo 2^W for every width.", "quantifier": "every backend, every width (up to 128 bits where the simulation is compared) and every operand", "why_tests_cant": "the synthesis types exist only in the vendor tools, and a difference shows in hardware after all simulation tests pass; 2^256 operand pairs per width", "anchors": ["include/thls/tops/fw_uint_on_ap_uint.hpp", "include/thls/tops/fw_uint_on_ac_uint.hpp", "include/thls/tops/fw_uint_on_masked_uint.hpp", "include/thls/tops/fw_uint.hpp"]}
{"id": "C68", "title": "Exchange of synthesis integers", "statement": "A number held in a synthesis integer is printed and read back unchanged, is converted exactly to and from GMP, and to_int and to_uint64 return it whenever the simulation accepts it.", "quantifier": "every width and every number of that width", "why_tests_cant": "unbounded widths and values", "anchors": ["include/thls/tops/fw_uint_on_ap_uint.hpp: to_string, to_mpz_t, to_int, to_uint64, fw_uint(mpz_t), fw_uint(const char *)", "include/thls/tops/fw_uint_on_ac_uint.hpp: to_string, to_mpz_t, to_int, to_uint64, fw_uint(mpz_t), fw_uint(const char *)"]}
{"id": "C69", "title": "Multi-operand adder kernels", "statement": "The four- and eight-operand adders built from bit heaps, from row heaps and from plain additions all return the sum of their operands modulo 2^W, so they are interchangeable.", "quantifier": "every width and every choice of operands", "why_tests_cant": "2^128 to 2^512 operand tuples", "anchors": ["src/fp_ops/mp/compressor/add32x4_compressor.cpp", "src/fp_ops/mp/compressor/add32x8_compressor.cpp", "src/fp_ops/mp/compressor/add64x8_compressor.cpp", "src/fp_ops/mp/compressor/add32x4_row_heap.cpp", "src/fp_ops/mp/compressor/add32x8_row_heap.cpp", "src/fp_ops/mp/compressor/add32x8.cpp", "src/fp_ops/mp/compressor/add64x8.cpp"]}
{"id": "C70", "title": "Array kernels", "statement": "The array sum and dot product accumulate in order of the index; unrolling the dot product by two gives the same bits; on floating-point numbers the error is bounded as for the example loops; the matrix kernels compute the matrix product up to rounding.", "quantifier": "every number type, every array length and every content", "why_tests_cant": "unbounded lengths and contents", "anchors": ["src/fp_ops/mp/fp/composite/fp_dot_product.cpp: fp_dot_product", "src/fp_ops/mp/fp/composite/fp_dot_product_u2.cpp: fp_dot_product_u2", "src/fp_ops/mp/fp/composite/fp_sum_array.cpp", "src/fp_ops/mp/fp/composite/fp_sum_vec4_balanced.cpp", "src/fp_ops/mp/fp/composite/fp_mmm.cpp: mmm", "src/fp_ops/mp/fp/composite/fp_mmm_u2.cpp: mmm"]}
{"id": "C71", "title": "The two IEEE types agree up to denormals", "statement": "The software floating-point operators and the operators on IEEE words converted to the library's own format return the same number, for +, * and /, once denormals are read as zeros and denormal results replaced by zero; on words and results that are not denormal, and not NaN, they return the same bits; comparisons agree likewise.", "quantifier": "every pair of 32-bit words and every pair of 64-bit words", "why_tests_cant": "2^64 and 2^128 operand pairs; the difference is confined to the thinnest slice of the range", "anchors": ["include/thls/tops/policy_softfloat.hpp: operator+, operator*, operator/", "include/thls/tops/policy_ieee_on_flopoco.hpp", "include/thls/tops/fp_softfloat.hpp"]}
{"id": "C72", "title": "Accumulation with software floating-point", "statement": "Sums, dot products, the four-way dot product and matrix products over float32_t (sums and dot products also over float64_t) stay within the classical forward error bounds, with a separate term for underflowing products; sums of small multiples of a power of two are exact; infinities and NaNs are not lost.", "quantifier": "every array length and content", "why_tests_cant": "unbounded lengths; errors grow with the length and with cancellation", "anchors": ["src/fp_ops/mp/fp/composite/fp_sum_array.cpp", "src/fp_ops/mp/fp/composite/fp_dot_product.cpp: fp_dot_product", "include/thls/tops/fp_softfloat.hpp: add, mul", "src/benchmarks/dot_product/sweep_types.hpp: softfloat32_dot_traits", "src/benchmarks/mat_mul/sweep_types.hpp: softfloat32_dot_traits"]}
{"id": "C73", "title": "Reference results of the policies", "statement": "to_mpfr is exact; from_mpfr returns a number of the same value, or the correctly rounded one if that is permitted, or throws; ref_mul, ref_add and ref_div of the native and software policies are the IEEE 754 results with denormals, and the software operators return exactly these; those of the library's own policies, passed through from_mpfr, are the exact results as the format delivers them.", "quantifier": "every pair of operands of every format, every MPFR number", "why_tests_cant": "2^64 to 2^128 operand pairs; the reference rounds twice (reduced range, then subnormalize), which is wrong only in rare ties", "anchors": ["include/thls/tops/policy_native.hpp: from_mpfr, to_mpfr, ref_mul, ref_add, ref_div", "include/thls/tops/policy_softfloat.hpp", "include/thls/tops/policy_flopoco.hpp: ref_mul, ref_add, ref_div", "include/thls/tops/policy_ieee_on_flopoco.hpp: ref_mul, ref_add, ref_div"]}
{"id": "C74", "title": "The policy test decides what it claims", "statement": "test_arithmetic checks six comparisons and three operations on every pair of its inputs and reports a failure exactly if one of them is not the comparison of extended reals or not the value of the correctly rounded result; with the library's own operators it therefore passes on every input without NaNs (and, for the FloPoCo format, without differently encoded infinities).", "quantifier": "every list of inputs, every policy with the given references and arbitrary operators", "why_tests_cant": "ranges over all programs under test and all inputs", "anchors": ["include/thls/tops/policy_test.hpp: test_arithmetic", "include/thls/tops/policy_softfloat.hpp", "include/thls/tops/policy_flopoco.hpp", "include/thls/tops/policy_ieee_on_flopoco.hpp"]}
{"id": "C75", "title": "References and tests of the dot products", "statement": "The reference functions of the two- and four-way dot products return the exact sum of products rounded down once, so that the tests pass exactly if the dot product does; the exhaustive tests cover every combination of positive numbers.", "quantifier": "every format and every tuple of positive numbers, every list of operands drawn", "why_tests_cant": "2^128 and more operand tuples; a wrong reference is only seen where it differs", "anchors": ["include/thls/tops/fp_flopoco_dot2_pos_rndd.hpp: dot2_pos_rndd_ref, test_dot2_pos_rndd, exhaust_dot2_pos_rndd", "include/thls/tops/fp_flopoco_dot4_pos_rndd.hpp: dot4_pos_rndd_ref, test_dot4_pos_rndd, exhaust_dot4_pos_rndd"]}
{"id": "C76", "title": "The loop over all positive numbers", "statement": "The loop from numeric_limits::min() by nextup while the number is normal visits every positive number of the format exactly once, in increasing order, ends, and stops at the first failure of its body.", "quantifier": "every format, every loop body", "why_tests_cant": "2^(E+F) iterations", "anchors": ["include/thls/tops/fp_flopoco_dot2_pos_rndd.hpp: exhaust_dot2_pos_rndd", "include/thls/tops/fp_flopoco.hpp: nextup", "include/thls/tops/fp_flopoco.hpp: numeric_limits"]}
{"id": "C77", "title": "Inputs of the operator tests", "statement": "make_input succeeds exactly for formats with at least three exponent bits (and two fraction bits if there are three); it delivers both zeros, both infinities and, with both signs, the small integers, the extreme numbers, the neighbours of one and of the extremes and the powers of two around one, whatever count is asked for, and only then quotients of random numbers.", "quantifier": "every format, every requested count, every sequence of random draws", "why_tests_cant": "the tests are only as good as their inputs; ranges over all formats and draws", "anchors": ["include/thls/tops/make_input.hpp: make_input"]}
{"id": "C78", "title": "The operator tests decide what they claim", "statement": "The tests of mul, add_dual, add_single, div, fma, convert and the inverses end with success exactly if every check on every combination of their inputs does; the equality check accepts exactly the reference, the faithful check exactly a neighbour of it; run on the library's own operators the tests succeed in every format, whatever count and random numbers are used.", "quantifier": "every format, every requested count, every sequence of random draws", "why_tests_cant": "ranges over all formats and all random inputs; a check that accepts too much, or reads beyond its inputs, cannot be seen by running it", "anchors": ["src/fp_ops/test_mul.cpp", "src/fp_ops/test_mul_different_frac.cpp", "src/fp_ops/test_add_dual.cpp", "src/fp_ops/test_add_single.cpp", "src/fp_ops/test_add_single_different_exp.cpp", "src/fp_ops/test_add_single_different_frac.cpp", "src/fp_ops/test_div.cpp", "src/fp_ops/test_div_v2.cpp", "src/fp_ops/test_fma.cpp", "src/fp_ops/test_fp_convert.cpp", "src/fp_ops/test_inv_nr.cpp"]}
{"id": "C79", "title": "The integer constants and remaining functions of numeric_limits mean what the C++ standard says", "statement": "digits is the number of significand bits of the type, min_exponent the least n such that 2^(n-1) is a normalised value and max_exponent the greatest n such that 2^(n-1) is a finite value, for the FloPoCo and IEEE types, their wrappers and the software single-precision type; epsilon, round_error and the other functions of the IEEE and software types return what the standard says.", "quantifier": "every format; all values of the type", "why_tests_cant": "the constants are claims about all values of every format; a test can only compare them with another constant", "anchors": ["include/thls/tops/fp_flopoco.hpp: numeric_limits", "include/thls/tops/fp_ieee.hpp: numeric_limits", "include/thls/tops/policy_flopoco.hpp: numeric_limits", "include/thls/tops/policy_ieee_on_flopoco.hpp: numeric_limits", "include/thls/tops/fp_softfloat.hpp: numeric_limits"]}
{"id": "C80", "title": "The references of square root, exponential and logarithm are correctly rounded", "statement": "ref_sqrt, ref_exp and ref_log return, for every operand, the real square root, exponential or natural logarithm of its value rounded to nearest even with the range of the result format; the special cases are those of MPFR: NaN for negative operands of sqrt and log, -infinity for the logarithm of either zero, the signed zero for the root of a zero, +0 for the exponential of -infinity.", "quantifier": "every operand of every format, every result format", "why_tests_cant": "the values are irrational; no finite comparison settles correct rounding of all of them in every format", "anchors": ["include/thls/tops/fp_flopoco.hpp: ref_sqrt, ref_exp, ref_log"]}
{"id": "C81", "title": "The references of the IEEE type are correctly rounded, and its operators deliver them", "statement": "ref_mul and ref_add of the IEEE type return, for operands of any formats, the exact product or sum (denormals read as zeros) rounded once to nearest even in the result format; the product and sum of the wrapper around the FloPoCo operators have the same values.", "quantifier": "every operand pair, every combination of three formats", "why_tests_cant": "2^64 pairs and more; the reference is what the tests trust", "anchors": ["include/thls/tops/fp_ieee.hpp: ref_mul, ref_add", "include/thls/tops/policy_ieee_on_flopoco.hpp"]}
{"id": "C82", "title": "Printed forms", "statement": "str() prints the whole word in binary, so that different values are never printed alike, followed by the class of the value; for numbers the printed exponent e satisfies 2^e <= |x| < 2^(e+1) and the printed fraction bits are those of the significand; printing never fails.", "quantifier": "every value of every format of the FloPoCo and IEEE types", "why_tests_cant": "ranges over all words of all formats", "anchors": ["include/thls/tops/fp_flopoco.hpp: str, operator<<", "include/thls/tops/fp_ieee.hpp: str"]}
{"id": "C83", "title": "The generated word-level modules are correctly rounded", "statement": "Each generated module takes packed words and returns a packed word. For every pair of words of its format the product, quotient and sum modules return the exact result rounded to nearest even, with the specials of the format; the modules on IEEE words do the same with denormals read as zeros.", "quantifier": "every generated format (4 to 13 exponent bits, 4 to 112 fraction bits), every pair of words", "why_tests_cant": "1090 formats with up to 2^256 pairs of words each", "anchors": ["src/fp_ops/mp/fp/primitive: fp_mul_flopoco, fp_mul_flopoco_ratio, fp_div_flopoco, fp_div_flopoco_v2, fp_add_flopoco_dual, fp_add_flopoco_single, fp_add_flopoco_single_v2, _v3, _v4, fp_add_flopoco_single_ratio, fp_mul_ieee_on_flopoco, fp_add_ieee_on_flopoco, fp_div_ieee_on_flopoco", "src/fp_ops/mp/fp/primitive/CMakeLists.txt"]}
{"id": "C84", "title": "The benchmark designs that are built work on every input", "statement": "Each of the dot-product and matrix-product designs that are built (one source file each) returns a value for all inputs; the value is NaN if a factor is NaN, is not finite if a factor is not, and if it is finite is close to the exact dot product, within a few units in the last place of the factors' format relative to the sum of the magnitudes of the products.", "quantifier": "All twenty-one hls configurations of src/benchmarks; all factor words; matrices of the built size (and any size for the exceptional values).", "why_tests_cant": "Each design has 2^128 or more inputs; nothing in the repository runs them.", "anchors": ["src/benchmarks/dot_product/dot_product_par4_tl.hpp:dot_product_par4", "src/benchmarks/dot_product/sweep_types.hpp:flopoco_round_dot_traits,flopoco_full_dot_traits", "src/benchmarks/mat_mul/mat_mul_16x16.hpp:mat_mul", "src/benchmarks/mat_mul/sweep_types.hpp"]}
{"id": "C85", "title": "When the test programs of the number types pass", "statement": "Whatever numbers in [0,1) the random generator delivers, the test program of the FloPoCo type (test_fp_flopoco) ends normally if and only if, in each of its twelve formats, no number drawn and no rounded product of two consecutive numbers drawn falls below the least number of the format; likewise the program of the IEEE type in its three formats with the least normal number. Infinities, NaN, steps off both ends, small integers and the literals of single precision always pass. In particular both pass if every draw is zero or at least 2^-15.", "quantifier": "every stream of draws; every format with 3 to 11 exponent bits and 3 to 52 fraction bits", "why_tests_cant": "a run of the test is one stream of draws", "anchors": ["src/fp_ops/test_fp_flopoco.cpp: test1, test2, test_single, main", "src/fp_ops/test_fp_ieee.cpp: test1, test2, test_single, main"]}
{"id": "C86", "title": "The inputs of the policy tests, and what the policy test programs report", "statement": "make_input of the policy test returns 136+4F fixed operands that do not depend on the draws (zeros, infinities, the integers to ten, the ten numbers on either side of one, above the least normal and below the greatest number, the powers of two around one, each with both signs), then rounded quotients of draws with their negatives. test_arithmetic on these inputs reports a failure of right operators only if 0/0 is drawn; a policy test program exits with 0 if the operators are right and does not if a check has failed.", "quantifier": "every number of inputs, every sequence of draws, every format (FloPoCo, IEEE on FloPoCo, softfloat single and double); for the exit code every set of operators", "why_tests_cant": "a run is one sequence of draws and one set of operators; the test cannot test itself", "anchors": ["include/thls/tops/policy_test.hpp: make_input, test_arithmetic", "src/fp_ops/test_policy_flopoco.cpp: main", "src/fp_ops/test_policy_ieee_on_flopoco.cpp: main", "src/fp_ops/test_policy_softfloat.cpp: main"]}
{"id": "C87", "title": "The replaced primitives and the division option of softfloat do not change a result", "statement": "softfloat_inline.hpp replaces three primitives of the library by compiler builtins, f32_mul shortens a product, and platform.h offers SOFTFLOAT_FAST_DIV64TO32. None of these changes a result: leading zero counts and 128-bit products are the mathematical ones and equal the library's, products and quotients of float32_t and float64_t are the same words with and without. The approximate reciprocal is below the true one by less than 2.008 units of the last place.", "quantifier": "every argument word of each primitive, every pair of operands of each operator, every width of unsigned long", "why_tests_cant": "2^64 arguments and 2^128 pairs; only one configuration is compiled", "anchors": ["include/thls/tops/softfloat/softfloat_inline.hpp: softfloat_countLeadingZeros32, softfloat_countLeadingZeros64, softfloat_mul64To128M", "include/thls/tops/softfloat/src/s_mul64To128M.c", "include/thls/tops/softfloat/src/s_countLeadingZeros32.c", "include/thls/tops/softfloat/src/s_countLeadingZeros64.c", "include/thls/tops/softfloat/src/primitives.h", "include/thls/tops/softfloat/src/f32_mul.c", "include/thls/tops/softfloat/src/f32_div.c", "include/thls/tops/softfloat/src/f64_div.c"]}
{"id": "C88", "title": "Conversions between float and the wrapper class", "statement": "to<T>(x), between float and fp_flopoco_wrapper and without permission to overflow, underflow or lose precision, keeps the value, and float to wrapper to float returns the same word.", "quantifier": "every policy, every format of the wrapper class, every float and every wrapper word", "why_tests_cant": "the source asks in a comment whether subnormals are handled; 2^32 floats, 2^34 wrapper words and all formats", "anchors": ["include/thls/tops/policy_test.hpp: to, to_impl, convert_policy", "include/thls/tops/policy_flopoco.hpp: to_impl", "include/thls/tops/fp_convert.hpp: convert"]}
{"id": "C89", "title": "The multi-word integer primitives of softfloat", "statement": "The 128-bit comparisons, sums, differences, shifts, jamming shifts, shifts with an extra word and products that primitives.h defines compute the documented function of the numbers the words form, and the shift into 96 bits loses nothing.", "quantifier": "all words; all shift distances in the documented range; 32-bit and 64-bit uint_fast32_t", "why_tests_cant": "2^128 to 2^256 arguments each; nothing in the repository calls them", "anchors": ["include/thls/tops/softfloat/src/primitives.h: softfloat_eq128, softfloat_le128, softfloat_lt128, softfloat_shortShiftLeft128, softfloat_shortShiftRight128, softfloat_shortShiftRightJam64Extra, softfloat_shortShiftRightJam128, softfloat_shortShiftRightJam128Extra, softfloat_shiftRightJam64Extra, softfloat_add128, softfloat_sub128, softfloat_mul64ByShifted32To128, softfloat_mul128By32, softfloat_shortShiftLeft64To96M"]}
{"id": "C90", "title": "What the tests of the other adder versions, the parameter sweep and the counting program report", "statement": "The tests of versions 1 to 5 of add_single pass only if the adder they test is right up to the neighbouring number; every program of the parameter sweep (E from 4 to 12, F from 3 to 32) passes; the counting program prints the number of sums add_single gets wrong, and prints 'invalid' for the formats add_single does not support.", "quantifier": "every format, every number of inputs, every sequence of draws", "why_tests_cant": "a test cannot show what it lets pass in formats it is not run in; the sweep has 810 programs", "anchors": ["src/fp_ops/test_add_single_v3.cpp: test_impl", "src/fp_ops/test_add_single_v4.cpp: test_impl", "src/fp_ops/test_add_single_different_frac_v5.cpp: test_impl", "src/fp_ops/test_add_single_param.cpp: test_impl, main", "src/fp_ops/test_add_param.cpp", "src/fp_ops/test_mul_param.cpp", "src/fp_ops/test_div_param.cpp", "src/fp_ops/CMakeLists.txt"]}
{"id": "C91", "title": "Converting through an intermediate format", "statement": "convert<E,F>(convert<E',G>(x)) equals convert<E,F>(x), for an intermediate format wider than the result format, unless rounding to the intermediate format moves x onto the midpoint of two neighbouring numbers of the result format.", "quantifier": "every encoding, every triple of formats", "why_tests_cant": "the numbers affected are a vanishing fraction of the inputs; their existence depends on three formats at once", "anchors": ["include/thls/tops/fp_convert.hpp: convert"]}
{"id": "C92", "title": "What the heap tests print", "statement": "The programs test_bit_heap and test_row_heap print no complaint: for every choice of operand widths, and all operands, merging, compressing and collapsing heaps of two, three or four numbers agrees with ordinary modular addition.", "quantifier": "every list of widths for each of the four nested levels, with and without the macro QUICK", "why_tests_cant": "the programs run one width per level; the number of runs grows with the product of the operand ranges", "anchors": ["src/fp_ops/test_bit_heap.cpp: test, test_level_1, test_level_2, test_level_3, test_level_4", "src/fp_ops/test_row_heap.cpp: test, test_level_1, test_level_2, test_level_3, test_level_4"]}
{"id": "C93", "title": "Conversions, fused multiply-adds and dot products preserve order and sign", "statement": "If the operands grow, so does the result: of convert (unless the fraction is narrowed at equal exponent width, where some zeros become infinite), of fma in the addend and in a factor whose cofactor is positive (whenever both results are returned and not NaN), of dot2 and of dot4 in all operands together, although dot4 does not always round down. fma does not depend on the order of its factors, dot4 not on the order of its products or of the factors. convert commutes with neg bit for bit, and fma(-x,y,-z) = -fma(x,y,z) for numbers that do not cancel.", "quantifier": "all formats and encodings (for the monotonicity of fma, intermediate formats with F <= 2^(E+1))", "why_tests_cant": "two runs have to be compared for every pair of operand tuples; in dot4 growing one product lowers the precision of the others", "anchors": ["include/thls/tops/fp_convert.hpp: convert", "include/thls/tops/fp_flopoco_neg_v1.hpp: neg_v1", "include/thls/tops/fp_flopoco_fma.hpp: fma", "include/thls/tops/fp_flopoco_dot2_pos_rndd.hpp: dot2_pos_rndd", "include/thls/tops/fp_flopoco_dot4_pos_rndd.hpp: dot4_pos_rndd"]}
{"id": "C94", "title": "The compile-time generators have the longest possible period", "statement": "From any state, the generator modulo 2^32 reaches every other state by exactly one skip with an int distance, and comes back only after multiples of 2^32 steps; from any non-zero state, the generators modulo 2^31-1 and 2^32-5 reach every other non-zero state by a skip with an int distance, and come back only after multiples of the modulus minus one.", "quantifier": "every state, every number of steps, every pair of states", "why_tests_cant": "the periods are 2^31-2, 2^32-6 and 2^32", "anchors": ["include/thls/tops/ct/ct_rng_lcg_mod_2y32.hpp: skip_by, lcg_mod_2y32_multiplier, make_quick_and_dirty", "include/thls/tops/ct/ct_rng_lcg_mod_p.hpp: skip_by, lcg_mod_p_multiplier, inv_mod, make_minstdrand0, make_lcg_mod_2y32m5"]}
{"id": "C95", "title": "The self-check of the compile-time generators", "statement": "verify_ct_rng of a generator, with any seed the generator accepts, compiles, and succeeds exactly if the listed values are the generator's states after 1, 2, 19937 and 2^24 steps; the three default generators pass with the values in the headers.", "quantifier": "every seed, every choice of listed values", "why_tests_cant": "the headers list values for one seed of each generator", "anchors": ["include/thls/tops/ct/ct_rng.hpp: verify_ct_rng, sample_at", "include/thls/tops/ct/ct_rng_lcg_mod_2y32.hpp: verify_ct_rng_fixed", "include/thls/tops/ct/ct_rng_lcg_mod_p.hpp: verify_ct_rng_fixed"]}
{"id": "C96", "title": "Computing in a wider format and narrowing the result", "statement": "Multiplying two numbers in a format with more exponent and fraction bits and converting the result back gives what the multiplier of the narrow format gives, for all operands, exactly if the wide format has at least 2F+1 fraction bits (or F is 1 or 2); dividing, exactly if it has at least 2F+1; adding, exactly if it has at least 2F+2 (in formats that can hold 2^(-F-2); sufficient in all). For any single pair of operands it fails exactly if the first rounding moves the exact result onto a midpoint of the narrow format. With more fraction bits but the same exponent width the last holds for exact results of at least the least positive number; below it the narrowed product can be an infinity where the direct one is tiny, so that products are right for all operands only if F is 1, however long the wide fraction, whereas quotients are right for all operands exactly if the wide format has at least 2F+1 fraction bits, and sums exactly if it has at least 2F+2.", "quantifier": "all operands, all pairs of formats with E < E' and F < G, or E = E' and F < G (for sums, formats in which the dual-path adder is right)", "why_tests_cant": "the operands for which double rounding shows are a vanishing fraction of all pairs, and which wide formats are safe is a statement about all of them", "anchors": ["include/thls/tops/fp_flopoco_mul_v1.hpp: mul_v1", "include/thls/tops/fp_flopoco_div_v1.hpp: div_v1", "include/thls/tops/fp_flopoco_add_dual_v1.hpp: add_dual", "include/thls/tops/fp_convert.hpp: convert"]}
{"id": "C97", "title": "Exact differences, and the error of a sum or product", "statement": "The difference of two numbers of the same sign, neither more than twice the other, is exact, except that a difference below the smallest positive number becomes zero; so x-y can be zero for different x and y, exactly if |x-y| < 2^-bias. If |b| <= |a| and |b| >= 2^(F-bias), then with s = a+b (finite) the operations z = s-a and b-z are exact, and b-z is the error of the sum. If |xy| >= 2^(2F+1-bias), then with p = xy (finite) fma(x,y,-p) is exactly the error of the product.", "quantifier": "all operands, all formats in which the adder is right", "why_tests_cant": "these identities are the basis of compensated algorithms; they have to hold for every pair of operands", "anchors": ["include/thls/tops/fp_flopoco_add_dual_v1.hpp: add_dual", "include/thls/tops/fp_flopoco_neg_v1.hpp: neg_v1", "include/thls/tops/fp_flopoco_mul_v1.hpp: mul_v1", "include/thls/tops/fp_flopoco_fma.hpp: fma"]}
{"id": "C98", "title": "The test of the word type, and the debugging programs", "statement": "test_bits succeeds; its loops would for every width from 2 to 128 (with one bit, shifting left by one fails an assertion), and its comparison of all-ones words for every width up to 64. The debugging programs of the divider and of the adder return 0 whatever is drawn; the one that looks for a particular pair of operands (3 and -2^27) always finds it and stops there without comparing anything.", "quantifier": "every width, every sequence of random draws", "why_tests_cant": "the program tries two widths; the debugging programs one format each, with fixed seeds", "anchors": ["src/fp_ops/test_bits.cpp: test_bits", "src/fp_ops/test_div_v2_debug.cpp: test_impl", "src/fp_ops/test_add_single_debug.cpp: test_impl", "src/fp_ops/test_add_dual_debug.cpp: test_add, test_impl"]}
{"id": "C99", "title": "Arithmetic on integers and fixed-point numbers is exact", "statement": "Every n*2^k with |n| <= 2^(F+1) and 2^k in range (-bias <= k, k+F <= bias) is a number of the format, and (2^(F+1)+1)*2^k is not. On such numbers sums (both adders), products, quotients that come out even, fused multiply-adds and conversions are exact whenever the exact result is again so bounded; a dot product, and each entry of a matrix product in both benchmark designs, is exact if the sum of the |m_i*n_i| is at most 2^(F+1). Counting up by one is exact to 2^(F+1) and then stands still. In general a correctly rounded operation is exact exactly if its result is a number of the format.", "quantifier": "all operands, scales, vector lengths, matrix sizes and formats in which the adder is right", "why_tests_cant": "an accumulation of integers is exact for every length and every order only if no single step rounds", "anchors": ["include/thls/tops/fp_flopoco_add_dual_v1.hpp: add_dual", "include/thls/tops/fp_flopoco_add_single_v1.hpp: add_single", "include/thls/tops/fp_flopoco_mul_v1.hpp: mul_v1", "include/thls/tops/fp_flopoco_div_v1.hpp: div_v1", "include/thls/tops/fp_flopoco_fma.hpp: fma", "include/thls/tops/fp_convert.hpp: convert", "src/examples/dot_product.cpp: dot_product", "src/examples/sum.cpp: sum", "src/benchmarks/mat_mul/mat_mul_16x16.hpp: mat_mul"]}
{"id": "C100", "title": "Scaling by powers of two commutes with the operations", "statement": "Multiplying the operands by powers of two multiplies the sum (equal powers), product, quotient, fused multiply-add or conversion by the corresponding power of two, whenever that result is in the range of the format: also where the single-path adder or fma rounds wrongly. Multiplying or dividing by a power of two, of either sign, is exact unless the result leaves the range.", "quantifier": "all operands, all powers of two, all formats in which the adder is right", "why_tests_cant": "it relates the results at every exponent to each other; a test samples exponents", "anchors": ["include/thls/tops/fp_flopoco_add_dual_v1.hpp: add_dual", "include/thls/tops/fp_flopoco_add_single_v1.hpp: add_single", "include/thls/tops/fp_flopoco_mul_v1.hpp: mul_v1", "include/thls/tops/fp_flopoco_div_v1.hpp: div_v1", "include/thls/tops/fp_flopoco_fma.hpp: fma", "include/thls/tops/fp_convert.hpp: convert"]}
{"id": "C101", "title": "When results overflow, when they are flushed to zero, and how far off they are otherwise", "statement": "The sum, product, quotient or conversion whose exact value is q is an infinity exactly if |q| >= 2^(2^E-bias)*(1-2^-(F+2)), a zero exactly if |q| < 2^-bias*(1-2^-(F+2)), in both cases with the sign of q, never NaN, and otherwise a number of the same sign within a relative error of 2^-(F+1). For fma both thresholds are lower by 2^-(G+2) of their power of two, where G is the fraction width of its intermediate format, and the relative error is at most u+w+u*w for the two units u and w. The same thresholds and the same bound hold for every version of the single-path adder, whenever it returns, although it does not always round to nearest. Every number of the format lies strictly between the thresholds. For the IEEE type without denormals the powers of two are 2^(bias+1) and 2^(1-bias). For the software types the upper threshold is the same; a result is zero exactly if |q| is at most half the least denormal, within half the least denormal of q below the least normal number, and a sum is zero only if it is exactly zero.", "quantifier": "all operands, all formats in which the adder is right (or, for sums, in which it returns)", "why_tests_cant": "the thresholds are single rational numbers between representable ones; whether they are inclusive shows for no operands a random test meets", "anchors": ["include/thls/tops/fp_flopoco_add_dual_v1.hpp: add_dual", "include/thls/tops/fp_flopoco_mul_v1.hpp: mul_v1", "include/thls/tops/fp_flopoco_div_v1.hpp: div_v1", "include/thls/tops/fp_flopoco_fma.hpp: fma", "include/thls/tops/fp_convert.hpp: convert", "include/thls/tops/policy_ieee_on_flopoco.hpp: fp_ieee_on_flopoco_wrapper", "include/thls/tops/softfloat/src/f32_add.c", "include/thls/tops/softfloat/src/f32_mul.c", "include/thls/tops/softfloat/src/f32_div.c", "include/thls/tops/softfloat/src/s_roundPackToF32.c", "include/thls/tops/softfloat/src/s_roundPackToF64.c"]}
{"id": "C102", "title": "Dividing by a sum of two powers of two and multiplying back gives the dividend", "statement": "If y = +-(2^i + 2^j) is a number of the format (3, 5, 6, 9, 10, 0.75, every power of two, ...) and x is a number whose last fraction bit is not used (n*2^k with |n| < 2^F, for instance any integer below 2^F), then (x / y) * y is exactly x whenever the rounded quotient is a number. The same holds for the operators of the IEEE types, and for the software float types when dividend and quotient are not denormal. Both conditions are needed: 14819003/3*3 and 16196062/7*7 come out wrong in the single-precision format.", "quantifier": "all such dividends and divisors, all formats", "why_tests_cant": "both operations round; that the two errors cancel for every dividend is an integer argument about ties, and almost every other divisor is a counterexample for some dividend", "anchors": ["include/thls/tops/fp_flopoco_div_v1.hpp: div_v1", "include/thls/tops/fp_flopoco_mul_v1.hpp: mul_v1", "include/thls/tops/policy_ieee_on_flopoco.hpp: fp_ieee_on_flopoco_wrapper", "include/thls/tops/softfloat/src/f32_div.c", "include/thls/tops/softfloat/src/f32_mul.c", "include/thls/tops/softfloat/src/f64_div.c", "include/thls/tops/softfloat/src/f64_mul.c"]}
{"id": "C103", "title": "Rounded midpoints stay between the end points", "statement": "For finite x <= y, zeros and underflow included: if x + y is finite then (x + y) / 2 (by a division or a multiplication) is finite and lies between x and y; if y - x is finite then x + (y - x) / 2 is finite and lies between x and y. The latter never fails for end points of equal sign; the former gives an infinity for the greatest number and itself. So every bisection step stays in its interval. The same holds for the operators of the IEEE types (denormal operands count as zero) and of the software float types, denormals included.", "quantifier": "all finite end points, all formats in which the adder is right", "why_tests_cant": "three roundings and two kinds of underflow; a test samples intervals, and the failures in other arithmetics (decimal, overflow) are at rare end points", "anchors": ["include/thls/tops/fp_flopoco_add_dual_v1.hpp: add_dual", "include/thls/tops/fp_flopoco_neg_v1.hpp: neg_v1", "include/thls/tops/fp_flopoco_div_v1.hpp: div_v1", "include/thls/tops/fp_flopoco_mul_v1.hpp: mul_v1", "include/thls/tops/policy_ieee_on_flopoco.hpp: fp_ieee_on_flopoco_wrapper", "include/thls/tops/softfloat/src/f32_add.c", "include/thls/tops/softfloat/src/f32_div.c", "include/thls/tops/softfloat/src/f64_add.c", "include/thls/tops/softfloat/src/f64_div.c"]}
{"id": "C104", "title": "The error of a sum can be recovered exactly, whichever summand is larger", "statement": "Let s = a + b and v = s - a be finite. Then (a - (s - v)) + (b - v), every operation rounded, is exactly a + b - s, and none of its operations overflows. If |b| <= |a| then b - v already is the error. v is finite whenever s is, unless b is the greatest number and a is smaller; in that case it can be an infinity and the last result NaN. For the flushing types the summands must be zero or at least 2^F times the least number (otherwise the error need not be a number of the format); for the software float types all finite summands are allowed, denormals included.", "quantifier": "all finite summands in any order, all formats with at least two fraction bits in which the adder is right, the IEEE types, and both software float types", "why_tests_cant": "six roundings of related values; a single wrong tie or a wrong sticky bit breaks it only for rare pairs of summands", "anchors": ["include/thls/tops/fp_flopoco_add_dual_v1.hpp: add_dual", "include/thls/tops/fp_flopoco_neg_v1.hpp: neg_v1", "include/thls/tops/policy_ieee_on_flopoco.hpp: fp_ieee_on_flopoco_wrapper", "include/thls/tops/softfloat/src/f32_add.c", "include/thls/tops/softfloat/src/f64_add.c"]}
{"id": "C105", "title": "Numbers can be split into halves, and the exact product recovered from them, without a fused operation", "statement": "With c = 2^s + 1, p = c*x, h = p + (x - p), l = x - h, every operation rounded: h + l is exactly x, h has at most F+1-s significant bits (or is a power of two more) and l at most s-1. With s half the number of significant bits, rounded up, and x, y split in this way, (((hx*hy - r) + hx*ly) + lx*hy) + lx*ly is exactly x*y - r, where r = x*y is the rounded product. No operation overflows if 2^(s+1)|x|, 2^(s+1)|y| and 2|x*y| are below the overflow threshold; x, y and x*y must be large enough for their last places to be numbers of the format. Without these bounds both fail: splitting 2^127 in single precision gives NaN.", "quantifier": "all operands within these bounds, all split points for the first part, all formats with at least 5 fraction bits in which the adder is right, the IEEE types, and both software float types (with s = 12 and s = 27)", "why_tests_cant": "seventeen dependent roundings; that each but one is exact is an argument about the number of bits of every intermediate result", "anchors": ["include/thls/tops/fp_flopoco_add_dual_v1.hpp: add_dual", "include/thls/tops/fp_flopoco_neg_v1.hpp: neg_v1", "include/thls/tops/fp_flopoco_mul_v1.hpp: mul_v1", "include/thls/tops/policy_ieee_on_flopoco.hpp: fp_ieee_on_flopoco_wrapper", "include/thls/tops/softfloat/src/f32_add.c", "include/thls/tops/softfloat/src/f32_mul.c", "include/thls/tops/softfloat/src/f64_add.c", "include/thls/tops/softfloat/src/f64_mul.c"]}
{"id": "C106", "title": "Compensated summation is as accurate as summation in twice the precision", "statement": "A loop that adds up a list and, beside it, the errors of its additions (recovered as in C104), and adds the second sum to the first in the end, never overflows if 2(1+u)^(2n) times the sum of magnitudes is below the overflow threshold, and returns the exact sum S within u|S| + (1+u)((1+u)^n - 1)^2 times the sum of magnitudes, with u = 2^-(F+1): one rounding of the result and a term of order u^2, where the plain loop has a term of order u. For the flushing types the terms must be zero or at least 2^F times the least number; for the software float types all finite terms are allowed.", "quantifier": "all lists of finite terms of any length, all formats with at least two fraction bits in which the adder is right, the IEEE types, and both software float types", "why_tests_cant": "the bound is about every list of every length; it holds only because each of seven dependent additions per term is rounded to nearest and six of them lose nothing together", "anchors": ["include/thls/tops/fp_flopoco_add_dual_v1.hpp: add_dual", "include/thls/tops/fp_flopoco_neg_v1.hpp: neg_v1", "include/thls/tops/policy_ieee_on_flopoco.hpp: fp_ieee_on_flopoco_wrapper", "include/thls/tops/softfloat/src/f32_add.c", "include/thls/tops/softfloat/src/f64_add.c"]}
{"id": "C107", "title": "Compensated dot products are as accurate as dot products in twice the precision", "statement": "A loop that adds up products and, beside them, the errors of the products (recovered as in C105) and of the additions (C104), and adds the second sum to the first in the end, never overflows if 2(1+u)^(4n) times the sum of magnitudes of the products is below the overflow threshold, and returns the exact dot product S within u|S| + (1+u)((1+u)^(2n) - 1)^2 times that sum, with u = 2^-(F+1). The factors must be zero or in the range in which they can be split, the products zero or large enough for their errors to be numbers of the format.", "quantifier": "all vectors of any length within these bounds, all formats with at least 5 fraction bits in which the adder is right, the IEEE types, and both software float types", "why_tests_cant": "the bound is about all vectors of every length; each step consists of 25 dependent roundings of which all but four must lose nothing", "anchors": ["include/thls/tops/fp_flopoco_add_dual_v1.hpp: add_dual", "include/thls/tops/fp_flopoco_neg_v1.hpp: neg_v1", "include/thls/tops/fp_flopoco_mul_v1.hpp: mul_v1", "include/thls/tops/policy_ieee_on_flopoco.hpp: fp_ieee_on_flopoco_wrapper", "include/thls/tops/softfloat/src/f32_add.c", "include/thls/tops/softfloat/src/f32_mul.c", "include/thls/tops/softfloat/src/f64_add.c", "include/thls/tops/softfloat/src/f64_mul.c"]}
{"id": "C108", "title": "Order, range and error of the references of square root, exponential and logarithm", "statement": "ref_sqrt, ref_exp and ref_log preserve the order of their operands wherever they are defined, infinities and zeros included. Their results overflow, are flushed to zero and are off exactly as those of the operations: an infinity from 2^(2^E-bias)*(1-2^-(F+2)) on, a zero below 2^-bias*(1-2^-(F+2)), otherwise within a relative error of 2^-(F+1). ref_exp of a zero is exactly one and ref_log of one exactly +0. ref_sqrt of a positive number, in a result format with the same exponent width, is always a positive number.", "quantifier": "all operands, all operand and result formats", "why_tests_cant": "the functions are transcendental and range over all encodings of all formats; order is a statement about all pairs of operands", "anchors": ["include/thls/tops/fp_flopoco.hpp: ref_sqrt, ref_exp, ref_log"]}
{"id": "C109", "title": "Sums and dot products of larger terms are not smaller", "statement": "If no element of an array is larger than its counterpart in another, its accumulated sum is not larger either, whatever was rounded, flushed to zero or overflowed on the way (a NaN result has no order). A sum of elements none of which is negative is at least every element and at least every partial sum. A dot product does not fall when factors that are not negative are enlarged. This holds for the FloPoCo, software floating-point and float interfaces of the loops.", "quantifier": "all arrays of all lengths and all elements, infinities, zeros and denormals included; FloPoCo formats with F <= 2^(E+1), E > 3", "why_tests_cant": "order is a statement about all pairs of arrays of all lengths, and each step rounds", "anchors": ["src/examples/sum.cpp: sum", "src/examples/dot_product.cpp: dot_product", "include/thls/tops/policy_flopoco.hpp: fp_flopoco_wrapper::operator+=, operator*", "include/thls/tops/fp_softfloat.hpp: add, mul", "src/fp_ops/mp/fp/composite/fp_sum_array.cpp", "src/fp_ops/mp/fp/composite/fp_dot_product.cpp: fp_dot_product"]}
{"id": "C110", "title": "Remainders and differences of products with fused operations", "statement": "If |x| >= 2^(2F+1-bias) and the quotient q of x and y is a number, fma(-q,y,x) is exactly the remainder x-q*y; so the quotient is exact exactly if that result is a zero. (For smaller dividends the remainder can be flushed to zero.) With w = c*d and |c*d| >= 2^(2F+1-bias), the difference of products fma(a,b,-w)-fma(c,d,-w) is off by at most about 2u relative to a*b-c*d plus u^2 relative to c*d, u = 2^-(F+1), although the fused operation rounds twice.", "quantifier": "all numbers, all formats in which the adder of the format and of the intermediate format of fma is right", "why_tests_cant": "the claims are about every pair or quadruple of operands in every format; the cancellation cases are a vanishing fraction of all operands", "anchors": ["include/thls/tops/fp_flopoco_fma.hpp: fma", "include/thls/tops/fp_flopoco_div_v1.hpp: div_v1", "include/thls/tops/fp_flopoco_primitives.hpp: mul, add, neg"]}
{"id": "C111", "title": "Neighbours of results enclose the exact value, and interval arithmetic built from them is sound", "statement": "The exact sum, product, quotient, conversion or x*y+z lies between nextdown and nextup of the returned result, whether that is a number, a zero or an infinity, although nextdown is not always the predecessor and fma rounds twice. So interval arithmetic written with the library's operations, nextdown, nextup and comparisons always encloses the exact value of an expression. Taking the minimum of the corner products before its neighbour, instead of after, is unsound.", "quantifier": "all numbers and zeros, all formats; all arithmetic expressions over any number of variables, all real values of the variables within their intervals", "why_tests_cant": "soundness of an enclosure has to hold for every real point of every box and every expression; the underflow case in which the order matters is a single point of the range", "anchors": ["include/thls/tops/fp_flopoco.hpp: nextup, nextdown", "include/thls/tops/fp_flopoco_ordering.hpp: less_than", "include/thls/tops/fp_flopoco_primitives.hpp: add, mul, neg", "include/thls/tops/fp_flopoco_div_v1.hpp: div_v1", "include/thls/tops/fp_flopoco_fma.hpp: fma", "include/thls/tops/fp_convert.hpp: convert"]}
{"id": "C112", "title": "A-priori error bounds of expressions and polynomials", "statement": "The result of any expression built with the library's addition, subtraction, multiplication and division, if the bound computed from magnitudes alone is defined (no overflow and no division by an interval containing zero can occur), is a number or a zero within that bound of the exact value. A polynomial of any degree n evaluated by Horner's rule is, whenever the result is finite, within ((1+u)^(2n)-1) times the sum of the magnitudes of its terms, u = 2^-(F+1), flushing counted as an enlargement of the coefficients by 2*2^-bias/u; and it is finite if those sums stay below the overflow threshold. With the software floating-point types (which have no subtraction and no negation) the same holds with gradual underflow: half the least denormal number is lost per operation, and the enlargement of the coefficients is the least normal number.", "quantifier": "all expressions over any number of variables, all polynomials of all degrees, all numbers and zeros, all formats with F <= 2^(E+1), E > 3", "why_tests_cant": "the bound has to hold for every expression, every degree and every operand; rounding errors of many steps compound", "anchors": ["include/thls/tops/fp_flopoco_primitives.hpp: add, mul, neg", "include/thls/tops/fp_flopoco_div_v1.hpp: div_v1", "include/thls/tops/policy_softfloat.hpp: operator+, operator*, operator/"]}
{"id": "C113", "title": "Sums in any order and bracketing", "statement": "However the additions of a sum are scheduled (in sequence, as a balanced tree, or any other binary tree over the elements in any order), the sum is returned and, if finite, within ((1+u)^h-1) times the sum of the magnitudes of the exact sum, h the number of additions on the longest path; it is finite if the magnitudes are not too large, and an element that is not finite leaves a result that is not finite. Sums of multiples of a power of two whose magnitudes add up to at most 2^(F+1) times that power are exact, so all schedules and both adders return the same value; otherwise the schedule matters. Dot products scheduled in any way are within ((1+u)^(h+1)-1) times the sum of the magnitudes of the products, flushing and gradual underflow counted as a fixed enlargement per operation.", "quantifier": "all schedules (binary trees) of any number of elements, all finite or exceptional elements, all formats with F <= 2^(E+1), E > 3; formats in which the single-path adder does not assert; both software floating-point types", "why_tests_cant": "there are exponentially many schedules of any number of elements, each with a different sequence of roundings", "anchors": ["include/thls/tops/fp_flopoco_add_dual_v1.hpp: add_dual", "include/thls/tops/fp_flopoco_add_single_v1.hpp: add_single", "include/thls/tops/policy_softfloat.hpp: operator+", "src/fp_ops/mp/fp/composite/fp_sum_array.cpp", "src/fp_ops/mp/fp/composite/fp_dot_product.cpp", "src/examples/dot_product.cpp"]}
{"id": "C114", "title": "Products and quotients in any order and bracketing", "statement": "Any expression of multiplications, divisions and negations, in whatever order and bracketing, returns a result; if that is a number other than zero, no input was a zero, an infinity or a NaN, no division was by zero, nothing was lost to underflow or overflow on the way, and the result is the exact value up to a factor of at most (1+u)^k, k the number of multiplications and divisions, u = 2^-(F+1), with the right sign. Products of n numbers: (1+u)^(n-1), whatever the schedule. The software floating-point types do not have this property, because of gradual underflow; with them products are accurate in the same way if every intermediate product is in the normal range.", "quantifier": "all expressions of products, quotients and negations over any number of variables, all schedules of products of any number of factors, all operands including exceptional ones, all formats with E >= 2, F >= 1", "why_tests_cant": "there are exponentially many schedules, and the statement is about intermediate results that a test does not see", "anchors": ["include/thls/tops/fp_flopoco_primitives.hpp: mul, neg", "include/thls/tops/fp_flopoco_mul_v1.hpp: mul_v1", "include/thls/tops/fp_flopoco_div_v1.hpp: div_v1", "include/thls/tops/policy_softfloat.hpp: operator*"]}
{"id": "C115", "title": "Rounding to an integer by adding and subtracting a constant", "statement": "Adding 3*2^(F-1)*2^k to a number or zero of magnitude at most 2^(F-1)*2^k and subtracting the constant again returns the nearest multiple of 2^k, ties to the even one: with k = 0 the nearest integer. The constant exists in every format with -bias <= k and k+F <= bias. Subtracting the rounded value from the number gives the fraction without error, unless the number is below 2^(F-bias). With the software floating-point types the same holds for all numbers including denormal ones.", "quantifier": "all numbers and zeros in the stated range, all k for which the constant is in range, all formats with 2 <= F <= 2^(E+1), E > 3; both software floating-point types", "why_tests_cant": "a single wrong tie or sticky bit among all operands would round some number to the wrong integer", "anchors": ["include/thls/tops/fp_flopoco_add_dual_v1.hpp: add_dual", "include/thls/tops/fp_flopoco_primitives.hpp: add, neg", "include/thls/tops/policy_softfloat.hpp: operator+"]}
{"id": "C116", "title": "Integer quotients from rounded quotients", "statement": "The quotient of two integers a and b computed with the library's division, |a| < 2^(F+1), 0 < |b| <= 2^(F+1), is finite, rounds down and up to the same integers as the exact quotient, and is an integer exactly if b divides a: truncating the floating-point quotient is integer division. The bound matters: beyond it the rounded quotient can be the next integer.", "quantifier": "all integers in the stated range, all formats with E >= 2, F >= 1, F+1 <= bias; both software floating-point types", "why_tests_cant": "there are 2^(2F+4) pairs of operands, and only the few whose quotient is just below an integer could be wrong", "anchors": ["include/thls/tops/fp_flopoco_div_v1.hpp: div_v1", "include/thls/tops/policy_softfloat.hpp: operator/"]}
{"id": "C117", "title": "Interpolation between two numbers", "statement": "x + t*(y-x), every operation rounded: if y-x is finite the result never is a NaN, grows with t when x <= y and falls with t when y <= x, equals x at t = 0 and for t >= 0 is never on the wrong side of x. If the difference is exact, the result for 0 <= t <= 1 is finite, lies between x and y and equals y at t = 1; otherwise it can end on either side of y. The formula (1-t)*x + t*y equals x and y at the ends for all finite x and y, but is not monotone in t.", "quantifier": "all finite end points and parameters, all formats with F <= 2^(E+1), E > 3, F >= 1 in which the adder does not assert; both software floating-point types including denormal numbers", "why_tests_cant": "a test samples some t, but monotonicity is about every pair of neighbouring parameters for every pair of end points", "anchors": ["include/thls/tops/fp_flopoco_add_dual_v1.hpp: add_dual", "include/thls/tops/fp_flopoco_primitives.hpp: add, mul, neg", "include/thls/tops/policy_flopoco.hpp: fp_flopoco_wrapper operator+, operator*", "include/thls/tops/policy_softfloat.hpp: operator+, operator*"]}
