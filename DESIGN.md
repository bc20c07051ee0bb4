# Design of the formal model of template-hls-float

All proofs are in Lean 4 (project `/verif/lean`). The source under `/repo` was read as text only: nothing was built or run.
Every definition of the model cites the file and lines it models.

## Layout

* `Verif/Spec*.lean` - the specification. These files mention no definition of the model.
  * `Spec.lean`: the datum an encoding denotes (NaN, signed infinity, signed zero, rational number); "the nearest `p`-bit number, ties
    to even" stated as *no `p`-bit number is closer, and on a tie the significand is even*; the range rule; exception tables; orders.
  * `SpecIeee`, `SpecOrder`, `SpecHeap`, `SpecCt`, `SpecLut`, `SpecFix`, `SpecBig`, `SpecInv`, `SpecRef`, `SpecDouble`, `SpecLoops`: the same
    for IEEE words, weak order, bit heaps, compile-time random numbers, LUT truth tables, fixed-point ranges, big integers, reciprocals,
    reference functions, `double`, error bounds.
* `Verif/Model/*.lean` - the model, function by function.
* `Verif/Proofs/*.lean` - lemmas.
* `Verif/Props/*.lean` - the property theorems, named `Cxx_...`, each with an `example` showing a concrete case that meets its hypotheses.
* `Verif/Rounding.lean`, `Verif/Denote.lean` - the core rounding lemmas and the link from encodings to data.

## Representation

* `fw_uint<W>` is modelled twice. *Storage level* (`Model/Masked.lean`): the masked software backend, a 32/64/128-bit machine word plus
  the mask, assertions being an explicit `none`; proved to refine arithmetic modulo `2^W` (C01-C03). *Value level* (`Model/Bits.lean`): natural
  numbers with explicit widths (`addW W a b = (a+b) mod 2^W`, `getBits hi lo x`, `concat wb a b`, ...), used by all operators.
* Failed assertions, failed static assertions of a chosen instantiation, out-of-range shifts and failed `checked_cast`s are `none`.
  Theorems that say "never violates a precondition" state that the result is `some`.
* `fp_flopoco<E,F>` is the packed word of `E+F+3` bits (`Model/Flopoco.lean`), with field accessors; `fp_ieee<E,F>` likewise.
* Template parameters are ordinary arguments, so every theorem is about all widths, not about a sample of instantiations.

## Properties: what is modelled and how it is proved

| id | property | model and proof | status |
|----|----------|-----------------|--------|
| C01 | fw_uint arithmetic is arithmetic modulo 2^W | storage level refined to arithmetic mod 2^W, all widths and values | proved |
| C02 | fw_uint comparisons are the numeric order | order of the stored words | proved |
| C03 | Slices and concatenation are inverse | bit identities on naturals | proved |
| C04 | Text form of fw_uint round-trips | `to_string` and the string constructor as functions on character lists; induction on the width | proved |
| C05 | Software 128-bit fallback arithmetic | two-limb fallback refined to mod 2^128; counterexample for `*` | partial |
| C06 | FloPoCo fields round-trip through the packed word | fields of the packed word | proved |
| C07 | equals identifies exactly the numerically identical encodings | `equals` against the denoted datum | proved |
| C08 | nextup is the successor function | order argument on the denoted rational | proved |
| C09 | nextdown is the predecessor function and inverts nextup | same; counterexample families | partial |
| C10 | Multiplication is correctly rounded | core rounding lemma | proved |
| C11 | Wide multiplication is exact | exact product; three failing families | partial |
| C12 | Multiplication handles zeros, infinities and NaN | exception table by cases | proved |
| C13 | Multiplication is commutative | symmetry of the program | proved |
| C14 | The default adder is correctly rounded | dual path: core rounding lemma with a sticky-bit argument on both paths; the wrapped exponent below 2^(-bias-2^(E+1)) gives the exact domain | partial |
| C15 | The single-path adder is correctly rounded | five versions refined to one normalise-and-round core `AddSingleEdge` removes the format hypotheses: with `F+3 = 2^(E-1)` the low `E` bits of the difference are the distance, which fits the shifter unless it is one of the two largest; all other steps are those of the general proof, for one pair with a distance that fits. | partial |
| C16 | Exact cancellation gives positive zero | from C14, C15 | proved |
| C17 | Addition handles zeros, infinities and NaN | exception table | proved |
| C18 | The two adder architectures agree and addition is commutative | uniqueness of rounding | partial |
| C19 | Adders never violate fw_uint preconditions | exact characterisation of the formats whose shifts stay in range For the single-path adder the same is done pair by pair (`Fits`, `fits_iff`). | partial |
| C20 | Division is correctly rounded | SRT result plus core rounding lemma | proved |
| C21 | Division digit recurrence stays in range and agrees across versions | remainder invariant by induction over digits | proved |
| C22 | Division handles zeros, infinities and NaN | exception table | proved |
| C23 | Widening conversion is exact | exactness of widening | proved |
| C24 | Narrowing conversion is correctly rounded | core rounding lemma; failing family | partial |
| C25 | Comparisons agree with the real order | order argument; failing families | partial |
| C26 | Comparisons form a consistent order | Boolean algebra over C25 | proved |
| C27 | Negation is exact and involutive | direct | proved |
| C28 | IEEE and FloPoCo encodings convert losslessly | field-level conversions against the IEEE denotation | partial |
| C29 | IEEE-on-FloPoCo policy arithmetic | operator theorems composed with C28 | partial |
| C30 | Reciprocal | Newton iteration error analysis, table contents computed from binary64 division | partial |
| C31 | Fused multiply-add | composition of conversion, exact product, adder; exactly when the double rounding shows (`RoundsTwice`) from the position of the sum between two neighbours | partial |
| C32 | Two-term positive dot product rounds down | floor arithmetic | proved |
| C33 | Four-term positive dot product rounds down | floor arithmetic; the exact value, an exact criterion (no jump of the format between the truncated and the exact sum), the formats in which no products are truncated below the overflow limit, a failing family for all others | partial |
| C34 | Leading-zero counter and normaliser | induction on the number of stages | proved |
| C35 | Bit heaps preserve the sum they represent | heaps as lists of columns; value invariant | proved |
| C36 | Heap compression terminates with at most two rows | measure | proved |
| C37 | Tiled bit-heap multiplication is multiplication | induction on tiles | proved |
| C38 | Row heaps preserve their sum | induction on rows | proved |
| C39 | Compile-time LCG skip-ahead | algebra of affine maps; modular exponentiation | proved |
| C40 | Compile-time vectors behave like arrays | trees refined to lists | proved |
| C41 | Compile-time unique is sorted deduplication | induction on the search | proved |
| C42 | LUT-optimised generator step is GF(2)-linear | truth tables and parity | proved |
| C43 | Interval fixed-point result ranges are sound | interval arithmetic over the integers | partial |
| C44 | Correctly rounded operations are monotone | monotonicity of rounding `AddSingleEdgeMono` repeats the argument for pairs of returned sums in any format. | partial |
| C45 | Algebraic identities of the operators | corollaries of the rounding theorems | partial |
| C46 | numeric_limits constants mean what their names say | direct | partial |
| C47 | MPFR exchange round-trips | MPFR numbers as sign, exponent, integer significand | proved |
| C48 | Compile-time big integers | lists of 16-bit limbs; induction | partial |
| C49 | within_1ulp means adjacent or equal | direct, against the order of data | proved |
| C50 | Equality classes | direct | proved |
| C51 | IEEE words: classification, equality, limits and MPFR exchange | as C06, C07, C46, C47 for IEEE words | partial |
| C52 | Compile-time fixed-point comparison and assignment | direct; failing families | partial |
| C53 | MPFR reference functions are correctly rounded | MPFR functions as exact rational operations followed by one rounding | proved |
| C54 | Operators agree with the reference functions | uniqueness of rounding, C53 | partial |
| C55 | Construction from double | fields of the binary64 word; truncation | partial |
| C56 | Conversion to double | binary64 rounding proved against "nearest binary64 number" | partial |
| C57 | Accumulation loops | induction over the list with the invariant `error <= ((1+u)^k - 1) * ...` | partial |
| C58 | Benchmark dot products and matrix products | the same invariant, and trees of additions | partial |
| C59 | Width, table, selection, random and double helpers of fw_uint | storage level; counting by a bijection with the numbers below 2^(32n); error induction over 32-bit chunks | proved |
| C60 | Random test source respects its classes | induction over the running sums; C59 | partial |
| C61 | Software floating-point addition | one generic text for both widths; sticky-bit simulation relation, rounding to the nearest gradual number, uniqueness of rounding | proved |
| C62 | Software floating-point multiplication | as C61; product of significands with sticky bits | proved |
| C63 | Software floating-point division | error analysis of the table reciprocal (every table segment), then exactness of the corrected quotient; as C61 | proved |
| C64 | Software floating-point comparisons | order of the denoted data | proved |
| C65 | Software floating-point algebra | uniqueness and monotonicity of rounding over C61-C63 | proved |
| C66 | NaN results of software floating-point | case analysis of the NaN paths | proved |
| C67 | Synthesis and simulation integers agree | simulation relation between the storage word and the vendor word (equal unless the width is zero), composed through the helpers | partial |
| C68 | Exchange of synthesis integers | induction over 32-bit chunks and over the digits | partial |
| C69 | Multi-operand adder kernels | C35, C38 and C01 for the whole kernels | proved |
| C70 | Array kernels | induction over the index; C57; exact arithmetic separates the index from the rounding | partial |
| C71 | The two IEEE types agree up to denormals | both roundings against one specification: nearest gradual number versus nearest number above the least normal one | proved |
| C72 | Accumulation with software floating-point | the invariant of C57 over an abstract adder, instantiated with C61 and C62 | proved |
| C73 | Reference results of the policies | one lemma: rounding in the reduced range followed by subnormalize is one IEEE 754 rounding; then uniqueness of rounding | proved |
| C74 | The policy test decides what it claims | the double loop as a count over pairs by induction; soundness of references (C73) as an interface, so that the operators stay arbitrary | partial |
| C75 | References and tests of the dot products | error of a chain of double additions against the gap around the numbers of the format; exactness of the MPFR sums by bit counts | partial |
| C76 | The loop over all positive numbers | the rank of a positive number as loop variant and invariant, induction on it | proved |
| C77 | Inputs of the operator tests | counting the draws; case analysis | proved |
| C78 | The operator tests decide what they claim | the loops as conjunctions over all pairs by induction; stepping functions as a rank; then C54 | partial |
| C79 | The integer constants and remaining functions of numeric_limits mean what the C++ standard says | direct, against the definition in the C++ standard | partial |
| C80 | The references of square root, exponential and logarithm are correctly rounded | MPFR functions as nearest roundings of reals; uniqueness | proved |
| C81 | The references of the IEEE type are correctly rounded, and its operators deliver them | as C53 | proved |
| C82 | Printed forms | digits of the binary form; injectivity of append | partial |
| C83 | The generated word-level modules are correctly rounded | the operators' theorems carried to packed words by one lemma; the exact set of formats from C14, C15, C19; the finite table of generated formats evaluated in the kernel where an operator fails | partial |
| C84 | The benchmark designs that are built work on every input | the list of designs checked against the hypotheses of C58 by evaluation, the error constants bounded once for all of them; exceptional factors by C12 and the adder's laws | partial |
| C85 | When the test programs of the number types pass | the round trips of C47, C51 and C56, and the midpoint below the least number, for both types at once | proved |
| C86 | The inputs of the policy tests, and what the policy test programs report | one set of lemmas for any policy whose conversions are right on a window of exponents, instantiated four times; the verdicts from C74; the exit code by evaluation of the list of outcomes | partial |
| C87 | The replaced primitives and the division option of softfloat do not change a result | the table of 256 entries checked in the kernel, shifts and carries by arithmetic; both quotients meet the accuracy requirement from which C63 follows, so both are the rounded quotient | partial |
| C88 | Conversions between float and the wrapper class | the static assertions evaluated, then the two conversions of C28 for single precision; the losses listed exactly | partial |
| C89 | The multi-word integer primitives of softfloat | each word split at the shift distance, the rest linear arithmetic | proved |
| C90 | What the tests of the other adder versions, the parameter sweep and the counting program report | any adder that orders its operands is accepted (C15, C53); version 4 by comparing the cut sum with the rounded one and classifying all inputs; the counters by induction over the loops The verdict in the formats with `F+3 = 2^(E-1)` follows from the pairwise exactness in `AddSingleEdge`. | partial |
| C91 | Converting through an intermediate format | rounding twice compared with rounding once: the first rounding is monotone and keeps neighbours and midpoints fixed, so only a move onto a midpoint matters | partial |
| C92 | What the heap tests print | each comparison by C35, C36 and C38; the loops add up zeros | proved |
| C93 | Conversions, fused multiply-adds and dot products preserve order and sign | convert and fma are compositions of monotone roundings (C24, C14) of monotone exact operations; for dot4, when growing operands move the cut-off, the largest product has grown by more than all that is cut off | proved |
| C94 | The compile-time generators have the longest possible period | for 2^32: 1+a+...+a^(n-1) is divisible by the same powers of two as n, if a is one modulo four; for the primes: the order of the multiplier from its powers at the cofactors of the prime divisors of the modulus minus one (computed by the modelled skip in the kernel), which also proves the moduli prime; an orbit as long as the state set fills it | proved |
| C95 | The self-check of the compile-time generators | the checks are equations between skips, which compose (C39); the check that the first step moves is C94 | proved |
| C96 | Computing in a wider format and narrowing the result | an exact product, quotient or sum is a midpoint of the narrow format or far from all of them, measured in units of the wide one; for too narrow wide formats, explicit operands whose result lies next to a midpoint | proved |
| C97 | Exact differences, and the error of a sum or product | the exact result has at most F+1 significant bits, and a number with so few bits in range is returned unchanged by a correctly rounded operation | proved |
| C98 | The test of the word type, and the debugging programs | induction over the loops with C01 and C04; the debugging programs by C77 and C78 | proved |
| C99 | Arithmetic on integers and fixed-point numbers is exact | a small multiple of 2^k has an F+1-bit significand, so correct rounding returns it; the clamp of the single-path adder needs operands further apart; loops by induction with the running bound | proved |
| C100 | Scaling by powers of two commutes with the operations | the nearest significand does not change under scaling, only the range check does; the clamp condition and both roundings of fma are scale invariant | proved |
| C101 | When results overflow, when they are flushed to zero, and how far off they are otherwise | a rounded magnitude reaches a power of two exactly from the midpoint below it on, because the power of two has the even significand; twice for fma | proved |
| C102 | Dividing by a sum of two powers of two and multiplying back gives the dividend | the remainder of the rounded division by 2^F+2^k is a multiple of 2^k and at most half the divisor, hence at most 2^(F-1): the product is within half a unit of the dividend, and a tie goes to its even significand | proved |
| C103 | Rounded midpoints stay between the end points | rounding is monotone and leaves 2x, 2y, x and y alone; the rounded difference is at most twice the difference; one argument for flushed and one for gradual underflow | proved |
| C104 | The error of a sum can be recovered exactly, whichever summand is larger | numbers of F+1 bits on a grid: the error of a sum is on the grid and at most either summand, and differences of nearby numbers are exact; only that results are nearest is used; one argument for flushed and one for gradual underflow | proved |
| C105 | Numbers can be split into halves, and the exact product recovered from them, without a fused operation | the client programs are written once over any addition, multiplication and sign change; the number of bits of every intermediate result is bounded over an abstract correctly rounded arithmetic, with flushed or gradual underflow, and instantiated with C11, C14, C29, C61, C62 | proved |
| C106 | Compensated summation is as accurate as summation in twice the precision | induction over the list with an invariant on both running sums, over the abstract correctly rounded addition of C104 | proved |
| C107 | Compensated dot products are as accurate as dot products in twice the precision | the invariant of C106 with two roundings per term, and the exact products of C105 (zeros treated apart) | proved |
| C108 | Order, range and error of the references of square root, exponential and logarithm | rounding of reals is monotone (a tie is rational, so the rational uniqueness applies); thresholds and errors carry over from rationals by density | proved |
| C109 | Sums and dot products of larger terms are not smaller | addition is monotone in both operands and multiplication in factors that are not negative, over an abstract arithmetic that rounds monotonically; induction over the loops; instantiated with C11, C14, C61, C62 | proved |
| C110 | Remainders and differences of products with fused operations | the remainder is a multiple of the product of the units of q and y and small enough to fit (C20, C31); the difference of products from C97, C101 and the triangle inequality | proved |
| C111 | Neighbours of results enclose the exact value, and interval arithmetic built from them is sound | neighbours from C08, C09 and monotonicity of rounding (a representable number is its own rounding); intervals by corner products and quotients and C25; expressions by induction | proved |
| C112 | A-priori error bounds of expressions and polynomials | error of every operation from its rounding (C10, C14, C20, C61-C63), expressions by structural induction, Horner by induction over the coefficients with the invariant |r-p| <= (g-1)*M | proved |
| C113 | Sums in any order and bracketing | induction over the tree with the invariant |r-s| <= ((1+u)^h-1)*(S+(n-1)*k) for any adder with a bounded relative error (C14, C15, C61); exactness by induction from C99; dot products by the same induction, with the error of a product at the leaves (C20, C61) | proved |
| C114 | Products and quotients in any order and bracketing | induction over the expression with the ratio of computed and exact value as the invariant; zeros, infinities and NaNs are absorbing under products and quotients (C12, C22), so a result other than these had no such operand; one rounding is a factor between 1/(1+u) and 1+u (C10, C20) | proved |
| C115 | Rounding to an integer by adding and subtracting a constant | the sum with the constant is in the binade whose numbers are the multiples of 2^k, so the nearest number (C14, C61) is the nearest multiple, and a tie goes to the even one; the subtraction is exact by C99, the fraction because it is a multiple of the unit in the last place of the number and no larger | proved |
| C116 | Integer quotients from rounded quotients | a quotient that is not an integer is at least 1/|b| away from the integers around it, and the rounding error is at most u|a|/|b| (C20, C63), which is less; a quotient that is an integer is exact (C99) | proved |
| C117 | Interpolation between two numbers | rounding is monotone and keeps the numbers of the format (C44, C103, C109): a product with a difference of known sign is monotone in the other factor, a sum in either term; the missed end, the NaN after an overflowing difference and the fall of the other formula are concrete witnesses | proved |
## What is modelled

| source | model | properties |
|--------|-------|------------|
| `fw_uint.hpp`, `fw_uint_on_masked_uint.hpp`, 128-bit fallback | `Masked`, `Bits`, `FwHelpers` | C01-C05, C59 |
| `fw_uint_on_ap_uint.hpp`, `fw_uint_on_ac_uint.hpp` | `Vendor` | C67, C68 |
| `fp_flopoco.hpp`: `fp_flopoco_random_test_source` | `FwHelpers` | C60 |
| `fp_flopoco.hpp` (fields, classification, `equals`, `nextup`, `nextdown`, `within_1ulp`, equality classes, MPFR exchange, `double` exchange, `numeric_limits`, `ref_*`) | `Flopoco`, `Limits`, `Ref`, `Double` | C06-C09, C46, C47, C49, C50, C53, C55, C56 |
| `fp_flopoco_mul_v1.hpp` | `Mul` | C10-C13 |
| `fp_flopoco_add_dual_v1.hpp`, `fp_flopoco_add_single_v1..v5.hpp` | `Add`, `Lzoc` | C14-C19, C34 |
| `fp_flopoco_div_v1.hpp`, `_v2.hpp` | `Div` | C20-C22 |
| `fp_promote.hpp`, `fp_convert.hpp`, `fp_flopoco_convert.hpp`, comparison functions, `neg` | `Convert`, `Flopoco` | C23-C27 |
| `fp_ieee.hpp`, `fp_ieee_convert*.hpp`, `policy_*` wrappers | `Ieee` | C28, C29, C51 |
| `fp_flopoco_inv_v1.hpp`, `fp_flopoco_inv_nr.hpp` | `Inv` | C30 |
| `fp_flopoco_fma*.hpp`, dot2, dot4 | `Fma`, `Dot` | C31-C33 |
| bit heaps, tiled multiplier, row heaps | `Heap` | C35-C38 |
| compile-time random generators, vectors, `lut_opt` | `CtRng`, `CtVec`, `LutOpt` | C39-C42 |
| `fixval.hpp`, `constfunc_helpers.hpp`, `select.hpp` | `Fixval` | C43, C52 |
| `ct_bigint.hpp` | `CtBig` | C48 |
| `softfloat/*` as compiled by `policy_softfloat.hpp`, `fp_softfloat.hpp` | `SoftFloat` | C61-C66, C71 |
| `to<>` and `convert_policy` of `policy_test.hpp`, `policy_flopoco.hpp` (float to and from double is compiler arithmetic) | `ToConvert` | C88 |
| the multi-word primitives of `softfloat/src/primitives.h` that have a body there | `SoftWords` | C89 |
| the class-and-sign predicates and `to_double_approx` of `fp_ieee.hpp` | `IeeeMore` | C51, C56 |
| the primitives of `softfloat/src` that `softfloat_inline.hpp` replaces, `SOFTFLOAT_FAST_DIV64TO32` | `SoftPrim` | C87 |
| `policy_test.hpp` (`make_input`), `src/fp_ops/test_policy_flopoco.cpp`, `_ieee_on_flopoco.cpp`, `_softfloat.cpp` | `PolicyInput` | C86 |
| `policy_native.hpp` (exchange and references), references of the other policies, `policy_test.hpp` | `Policy` | C73, C74 |
| `src/fp_ops/test_dot2_pos_rndd.cpp`, `src/fp_ops/test_dot4_pos_rndd.cpp` | `DotMain` | C75 |
| `fp_flopoco_dot2_pos_rndd.hpp`, `fp_flopoco_dot4_pos_rndd.hpp`: reference and test functions (random operands: an arbitrary list) | `DotRef` | C75, C76 |
| `make_input.hpp`, `src/fp_ops/test_*.cpp` of mul, add, div, convert, fma and the inverse (random draws: an arbitrary sequence) | `OpTest` | C77, C78 |
| `test_add_single_v3/v4/different_frac_v5.cpp`, `test_add_single_param.cpp` (without the file it writes) and the parameter sweep | `OpTestVariants` | C90 |
| `test_bit_heap.cpp`, `test_row_heap.cpp` (number of complaints printed; `test_level_5` is dead code) | `HeapTest` | C92 |
| `test_bits.cpp`, `test_div_v2_debug.cpp`, `test_add_single_debug.cpp`, `test_add_dual_debug.cpp` (without messages) | `DebugTest` | C98 |
| `ct/ct_rng.hpp` (the self-check `verify_ct_rng`: whether it compiles and whether it exits) | `CtRngTest` | C95 |
| `ref_sqrt`, `ref_exp`, `ref_log` of `fp_flopoco.hpp` over the real numbers (MPFR replaced by its documented behaviour: the real function, rounded to nearest even at the given precision; `ref_pow` is not modelled) | `RefReal` | C80 |
| `str` of `fp_flopoco.hpp`, `fp_ieee.hpp` (the decimal text of a `double` is a parameter), `nextafter`, `ref_mul`/`ref_add` of `fp_ieee.hpp` | `Text` | C08, C09, C81, C82 |
| the generated modules of `src/fp_ops/mp/fp/primitive` | `Model/Modules.lean` | the flopoco, ieee_on_flopoco and (through C61 to C63) softfloat ones; not the native ones, nor `div_v3`, which does not compile; the ratio sum module compiles only when the second operand is not the more precise one, which excludes 10 of the 21 single and 13 of the 26 double precision instances |
| the hls benchmark configurations, `src/benchmarks/*/*_hls*.cpp` | Model/Designs.lean | the list of template arguments, one entry per file |
| `test_fp_flopoco.cpp`, `test_fp_ieee.cpp` with arbitrary draws (what they print is not modelled) | `TypeTest` | C85 |
| `numeric_limits` constants of `fp_flopoco.hpp`, `fp_ieee.hpp`, `policy_flopoco.hpp`, `policy_ieee_on_flopoco.hpp`, `fp_softfloat.hpp` | `Limits`, `LimitConsts` | C46, C79 |
| `src/examples/sum.cpp`, `dot_product.cpp`, `src/benchmarks/dot_product`, `mat_mul` | `Loops` | C57, C58 |
| `src/fp_ops/mp/compressor`, `src/fp_ops/mp/fp/composite` | `Kernels` | C69, C70 |
| `softfloat32_dot_traits` of `dot_product`, `mat_mul` | `SoftLoops` | C72 |

## What is not modelled, and why

* `fp_flopoco_dot2_rndn`, `fp2fix`, `compressor_tree`, `fp_flopoco_div_v3`, `fw_uint_on_cpp_int`: begin with `#error`.
* `carry_select_adder`, `fp_concepts`, `float_acc`, `device`, `composite_dot`, `functions/rom.hpp`, `fp_flopoco_ldexp_const_v1`, ieee-to-flopoco
  `promote`: not valid C++, so they have no behaviour.
* `types/tupleval.hpp`, `core/ct_bigint_{add,compare,core,create,gcd,itf,mul}.hpp`, `ct_bigint-orig.hpp`: unfinished duplicates.
* `fp_sum_array_u2.cpp`, `fp_sum_vec4_left.cpp`: syntax errors. With the built-in types the accumulators of `fp_sum_array`,
  `fp_dot_product` and `mmm` are uninitialised; the model takes their value as a parameter.
* `policy_native` operators: compiler arithmetic. The decimal and hexadecimal string constructors of the synthesis backends are
  vendor functions; `operator^(int)` on `ap_uint` is ambiguous.
* The MPFR constructor of `fp_softfloat32` is declared under another name, so it does not compile.
* `function_utils`, `test_bits`, `test_lut_opt`, `test_bit_heap*`, `test_row_heap` and the report scripts: concrete runs or tools.
* Timing, area and pipelining pragmas have no semantics here.

## Trusted base

* Lean 4.33.0's kernel. No `sorry`, no axioms of our own, no `native_decide`, no `bv_decide`. `decide +kernel` is used only on closed
  witnesses and on whole finite tables.
* Axioms: `propext`, `Classical.choice`, `Quot.sound` (through Mathlib), and nothing else. The exact set for each theorem is below.
* The fidelity of the model to the C++ text, by reading only.
* Documented behaviour of what the code calls: MPFR (`mpfr_add`, `mpfr_mul`, `mpfr_div`, `mpfr_set`, `mpfr_check_range` and friends
  round the exact result once, in the direction asked; `Model/Ref.lean`), and IEEE binary64 arithmetic of the compiler (`double`
  division and `frexp`/`ldexp` in the reciprocal tables and in the exchange with `double`; `Model/Inv.lean`, `Model/Double.lean`).
* Documented behaviour of the vendor integers `ap_uint<n>` and `ac_int<n,false>`: exact integer operations, assignment keeps the low
  bits (`Model/Vendor.lean`).
* `int` is 32 bits, `long long` 64; compile-time arithmetic that would overflow is `none`.

## Where the code does not have the property

Each of these is a theorem about the model, with a witness or a family of witnesses (see the notes in MANIFEST.json).

| finding | theorem |
|---------|---------|
| 128-bit fallback multiplication truncates | `C05_mul_wrong` |
| `nextdown` wrong at binade boundaries | `C09_*` |
| wide `mul` gives NaN on underflow, asserts for a wider exponent, wrong for a narrower one | `C11_*` |
| `add_dual` gives infinity for deep cancellation with very wide fractions | `C14_add_wide_fraction_fails` |
| `add_single` returns the larger operand in the clamp case; v4 rounds the wrong way | `C15_add_single_clamp_wrong`, `C15_add_single_v4_rounds_wrongly` |
| the adders assert in some formats | `C19_*_iff` |
| `convert` turns some zeros and NaNs into infinities | `C24_convert_special_wrong` |
| infinities with different don't-care bits compare as different | `C25_*` |
| IEEE promotion turns infinities, NaNs and zeros into numbers | `C28_ieee_promote_wrong` |
| `inv` asserts on every operand; the table reciprocals wrap around for large operands | `C30_*` |
| `fma` rounds twice | `C31_fma_double_rounding` |
| `dot4` can be off by one: in every format with `8*F + 4 <= 3*2^E` but (2,1) | `C33_dot4_wrong`, `C33_dot4_format_wrong` |
| `fixval` variable right shift gets the range wrong | `C43_shift_right_wrong` |
| `numeric_limits::epsilon` asserts, `signaling_NaN` is zero (infinity for `fp_ieee`) | `C46_*`, `C51_*` |
| compile-time big integers: lost carry, limb 65535 rejected, negative zero | `C48_*` |
| compile-time fixed-point comparison finds everything equal; assignment and `select` lose the value | `C52_*` |
| construction from `double` turns infinities into NaN and -0 into +0; `to_double` of a negative number is positive | `C55_*`, `C56_to_double_negative_wrong` |
| benchmark kernels assert for wider accumulators | `C58_wider_accumulator_asserts` |
| a disabled `PosZero` class is still produced when the uniform draw is zero | `C60_disabled_pos_zero_produced` |
| `take<B>` compiles only for `2B+1` bits; `thls_ctLog2Ceil` is not the ceiling at powers of two; `to_double_approx` rounds twice | `C59_take`, `C59_log2_ceil_not_ceil`, `C59_to_double_not_nearest` |
| SoftFloat NaN plus infinity can change the sign of the NaN | `C66_soft_nan_sign_lost` |
| a `fw_uint<0>` of the synthesis backends can hold a set bit; comparing it or multiplying by it differs from simulation | `C67_zero_width_differs` |
| `fw_uint<W>(mpz_t)` of the synthesis backends loses the high bits for `W > 64`: the test for the word size is inverted | `C68_of_mpz_wide_wrong` |
| `to_int` of the synthesis backends wraps where the simulation asserts; `operator|(int)` accepts what the simulation rejects | `C68_to_int_wraps`, `C67_or_int_differs` |
| `mmm` (src/fp_ops/mp/fp/composite) indexes the second matrix with `r*i+c`: wrong product for every size above one | `C70_mmm_wrong`, `C70_mmm_unrolled_wrong` |
| `test_arithmetic` fails on any input with a NaN although the operators are right (`mpfr_cmp` says NaN equals everything) | `C74_single_verdict`, `C74_double_verdict`, `C74_flopoco_verdict_partial`, `C74_ieee_verdict_partial` |
| the exponent range of `policy_flopoco::ref_*` is one binade too wide below; only `from_mpfr(ref, true)` hides it | `C73_flopoco_raw_below_range` |
| the value returned by `policy_native_*::ref_*` is the ternary value before `mpfr_subnormalize`: zero although inexact | `C73_ternary_wrong` |
| `policy_native_single::from_mpfr(x, true)` throws for inexact denormals, the double version accepts them | `C73_from_mpfr_single`, `C73_from_mpfr_double` |
| `exhaust_dot2_pos_rndd` reports an error when reference and result are equal (the condition is not negated) | `C75_exhaust_dot2_wrong` |
| `dot2_pos_rndd_ref` computes in `double` when the fraction is short, whatever the exponent width: infinity for 2^1024 | `C75_dot2_reference_wrong` |
| `dot4_pos_rndd_ref` fails an assertion when the products lie further apart than its `12*(WF+2)` bits, e.g. for (8,23) | `C75_dot4_reference_large`, `C75_dot4_reference_wrong` |
| `test_fma` indexes its second list of inputs with the length of the first: undefined for its own instance (8,24)x(8,23) | `C78_test_fma_undefined`, `C78_test_fma` |
| the check "faithfully rounded" of the operator tests accepts NaN for any reference, and zeros of the wrong sign | `C78_check_faithful_iff`, `C78_check_faithful_accepts_nan` |
| the test of `add_single` accepts its wrong results (C15) on all operands, so no inputs can reveal them | `C78_add_single_accepted` |
| `inv_direct` computes its table in double and rounds twice: with 52 or more fraction bits in operand and result together, all but seven pairs of widths have a wrong entry, for instance the reciprocal of `1+2^-18` with 34 bits | `C30_direct_iff`, `C30_direct_format_iff` |
| the tests of the inverse never draw an operand from the binade in which the code is wrong (C30) | `C78_test_inv_direct_passes`, `C78_test_inv_faithful_passes` |
| `make_input` throws for formats with fewer than three exponent bits; a random input is NaN when both draws are zero | `C77_inputs_exist_iff`, `C77_random_nan` |
| `min_exponent` and `max_exponent` of the FloPoCo and IEEE types are one too small; in the wrapper of the IEEE type and in `fp_softfloat32`, `min_exponent` is two too small | `C79_flopoco_exponents_wrong`, `C79_ieee_exponents_wrong`, `C79_soft_exponents_wrong` |
| `epsilon()` of the IEEE type is half of what it should be; `fp_softfloat32` has a `max()` that is not the largest value, an `epsilon()` above one and a signalling `quiet_NaN()`; all of these begin with `assert(0)` | `C79_ieee_epsilon_wrong`, `C79_soft_functions_wrong` |
| the reference of the four-term dot product is right on all positive operands of formats with at most 5 fraction bits exactly up to 10 exponent bits | `C75_dot4_reference_small_iff` |
| `fp_ieee::str` reads the fraction with `to_int`, whose assertion fails from `2^31` on: with 32 fraction bits and more (double precision) most numbers cannot be printed | `C82_ieee_str_fails_iff` |
| of the 1090 generated formats the single-path sum module is right for all words in 104 only, none of them a usual one; the dual-path module is wrong in 135 (too long fractions with 4 or 5 exponent bits, and 61 fraction bits with 7 or more exponent bits); the module v4 is wrong in all | `C83_generated_add_single_iff`, `C83_generated_add_dual_iff`, `C83_generated_add_single_v4_wrong` |
| The IEEE sum is wrong exactly in the formats where the alignment shift asserts (there `x + 0` asserts for the `x` with exponent field `2F+4`) or with more than `2^(E+1)+1` fraction bits | `C29_add_correct_format_iff` |
| Seven of the twenty-one hls benchmark designs (all five with the full traits, `mat_mul` hls32_hls16_hls16_round and hls64_hls32_hls32_round) violate `mul`'s precondition on the exponent widths on every input | `C84_par4_full_designs_assert`, `C84_mat_full_designs_assert`, `C84_mat_round_designs` |
| `dot_product_par4_tl_nat64_nat64_nat64_round.cpp` instantiates `native_dot_traits<nat64,nat64,nat32>`, not nat64 throughout (read from the text; native arithmetic is not modelled) | none |
| In formats in which the dual-path adder can assert (`2F+5 >= 2^E` and so on) it does so exactly when the exponents, subtracted modulo `2^E`, differ by `2F+4` or `2F+5`; this includes zeros, infinities and NaNs whose exponent fields hold such values | `C19_add_dual_asserts_all_iff` |
| Although the single-path adder rounds `2^k - y` wrongly just below a tie (C15), its sums never go down when an operand goes up | `C44_add_single_monotone` |
| The test programs of the number types fail, through no fault of the types, on draws whose product underflows: two draws of `2^-20` are enough in the format (6, 4) | `C85_small_draws_fail` |
| In formats with `F > 2^(E+1)` a small sum is multiplied by `2^(2^(E+2))`, so that addition is not monotone there | `C14_add_value`, `C44_add_monotone_format_iff` |
| The policy test programs discard what `test_arithmetic` returns: with operators that return anything at all they exit with 0 | `C86_soft_program_ignores_failures`, `C86_test_never_throws`, `C86_failure_reported_and_ignored` |
| With `F > bias + 1` and more than `136+4F` inputs the policy test of the right FloPoCo operators can fail: a drawn quotient overflows to an infinity that keeps its fraction bits | `C86_flopoco_verdict_partial`, `C86_flopoco_reliable_iff_partial` |
| `softfloat_countLeadingZeros64` as replaced calls `__builtin_clzl`: where `unsigned long` does not have 64 bits (64-bit Windows) it is undefined or wrong; C61 to C66 assume 64 bits | `C87_leading_zeros64_iff` |
| `to<>` between `float` and the wrapper compiles for single precision only, whatever the policy; with policy 0 it still turns subnormals into zeros and the extra exponents of the wrapper into zeros and infinities (the TODO in the source asks about this) | `C88_accepted_iff`, `C88_from_float`, `C88_to_float`, `C88_permission_wrong` |
| version 4 of the single-path adder cuts sums instead of rounding them (a tie goes to the odd neighbour), and stops at an assertion for operands far apart in formats without the clamp | `C15_add_single_v4_value`, `C15_add_single_v4_correct_iff` |
| the test of version 4 of the adder passes although version 4 does not round; it would fail in half precision | `C90_test_add_single_v4_iff` |
| the guard of the counting program (`2^E > F`) is too weak: it is stopped by an assertion when `2^E ≤ F+3` or `F+3 = 2^(E-1)` | `C90_counting_program` |
| in a format with `F+3 = 2^(E-1)`, such as (5,13), the single-path adders assert for two numbers exactly if their exponents differ by at least `2^E-2`; for a zero, an infinity or a NaN the meaningless exponent field decides | `C19_add_single_asserts_all_iff` |
| `fma` rounds twice; it is wrong exactly for sums that the first rounding moves onto a midpoint of the result format | `C31_fma_correct_iff`, `C54_fma_agrees_iff` |
| converting through an intermediate format can give another result than converting directly, whenever the intermediate fraction is strictly between the two others | `C91_convert_chain_iff`, `C91_convert_chain_differs` |
| the heap tests return 0 whatever they print, so no failure would make them fail; `test_level_5` of test_row_heap.cpp is never called | (reading; C92 shows that nothing is printed) |
| `test_dot4_pos_rndd.cpp` can exit with an error in 8 of its 14 formats, among them (4,3) and (6,16) | `C75_dot4_program_wrong` |
| `x-y` can be zero although `x` and `y` differ, in every format: results below the smallest normal number are flushed to zero | `C97_difference_of_distinct_is_zero`, `C97_difference_zero_iff` |
| the multiplier produces zeros with meaningless bits that `convert` to a shorter fraction at equal exponent width turns into infinities: two positive numbers multiplied in (8,47) and narrowed to (8,23) give `+inf`, while their product in (8,23) is the least positive number | `C24_product_narrowed_wrong`, `C96_mul_same_exponent_wrong`, `C96_mul_same_exponent_all_iff` |
| with a one-bit exponent the multiplier returns a zero instead of an infinity for products that round up to 16 (only if the result fraction is shorter than those of the operands) | `C10_mul_one_exponent_bit_iff` |
| so do both adders and the divider: halving a number just below twice the least positive one gives a zero which `convert` to a shorter fraction turns into `+inf` | `C24_quotient_narrowed_wrong`, `C24_single_difference_narrowed_wrong`, `C24_difference_narrowed_wrong` |
| half precision by way of single precision, or single by way of double, is safe for products, quotients and sums; with `G <= 2F` (products, `F >= 3`; quotients) or `G <= 2F+1` (sums) fraction bits in the wide format some results differ | `C96_mul_narrow_iff`, `C96_div_narrow_iff`, `C96_add_narrow_iff` |
| `test_add_dual_debug.cpp` compares no result, and always stops (with success) at the operands 3 and -2^27; `test_add_single_debug.cpp` tests the dual-path adder | `C98_add_dual_debug` |
| `test_bit_heap_mul.cpp` does not compile: words have a member `to_mpz_t`, not `to_mpz` | (reading) |
| recovering the error of a sum can overflow on the way although the sum is finite, but only if the second summand is the greatest number | `C104_two_sum_overflow`, `C104_soft_two_sum_overflow` |

## Wrong programs tried, and what the log does and does not show

`seeded/LOG.jsonl` has one record for each of 1047 edits of the model. In a record

- `failed_declarations` are the declarations at which Lean reported an error. This is what was observed.
- `theorems_failed_directly` are the property theorems among them.
- `theorems_failed` also has the property theorems that use a failed declaration, taken from a dependency list of
  the unedited model. Lean does not reach these, so their failure is inferred: their proof is lost because a lemma
  under it is. It does not by itself show that their statement is false of the edited program.

In 390 records a property theorem failed directly, in 620 only lemmas under property theorems failed, and in 37
nothing that a property theorem uses failed. A record of the second kind is weaker evidence: an edit that keeps the behaviour but breaks
the proof of a lemma looks the same. `claim_broken` was written by hand except in the 142 records with
`claim_source`, whose edits come from a script and whose claims are the titles of the properties whose theorems
were lost. The scripted edits were tried against a snapshot of the theorems of 17 November; the definitions were the
ones of this commit.

Of the records of the second kind, those for the operations of the FloPoCo type (multiplication, both adders,
division, conversion, comparison) and for SoftFloat were replayed: the edited definitions were evaluated on
concrete inputs and compared with the unedited ones (`replayed`). In 180 the results changed, in 10 no result
changed and the record has a note, and 1 could not be evaluated because proofs inside the model file failed.
The rest of the second kind were not replayed. This replay is a test of the log, not part of any proof.

Scripted edits that do not compile are not logged.

## Axioms of each property theorem

**none** (3 theorems):
`C48_mul_wrong`, `C52_convert_wrong`, `C84_designs_listed`

**propext** (17 theorems):
`C01_or_int_all_ones_rejected`, `C02_comparisons`, `C05_mul_wrong`, `C104_soft_two_sum_overflow`, `C35_shift`, `C38_add`, `C38_add_read`, `C38_read`, `C38_uint`, `C39_p_seed`, `C48_value`, `C59_logical`, `C66_soft_nan_sign_lost`, `C67_same_helpers`, `C70_dot_unrolled`, `C78_mpfr_nextabove_special`, `C92_complaint_iff`

**propext, Quot.sound** (28 theorems):
`C01_shift_rejects`, `C03_get_bits_rejects`, `C05_bitwise`, `C17_addSpecial_domain`, `C22_divSpecial_domain`, `C35_pad`, `C39_listed_values`, `C40_permute`, `C40_read`, `C40_read_write`, `C40_rotation`, `C40_swap`, `C40_write`, `C40_write_depth`, `C41_compare`, `C48_zero_ambiguous`, `C52_compare_wrong`, `C52_select_wrong`, `C67_compare_int`, `C67_or_int_differs`, `C67_zero_width_differs`, `C68_to_int`, `C68_to_string`, `C70_in_order`, `C78_loops_iff`, `C86_exit_code_iff`, `C95_check_iff`, `C95_default_checks`

**propext, Classical.choice, Quot.sound** (847 theorems):
`C01_add`, `C01_add_int`, `C01_add_sub`, `C01_add_with_cin`, `C01_and`, `C01_bitwise_int`, `C01_mul`, `C01_not`, `C01_or`, `C01_refines_value_model`, `C01_shl`, `C01_shr`, `C01_square`, `C01_sub`, `C01_sub_int`, `C01_xor`, `C02_comparisons_int`, `C03_checked_cast`, `C03_concat`, `C03_concat3`, `C03_concat4`, `C03_concat_array`, `C03_concat_of_slices`, `C03_copybit`, `C03_get_bits`, `C03_pad`, `C03_resize`, `C03_single_bit`, `C03_slices_of_concat`, `C03_take_drop`, `C04_mpz_round_trip`, `C04_mpz_too_large`, `C04_string_digits`, `C04_string_round_trip`, `C04_to_mpz`, `C05_add`, `C05_comparisons`, `C05_mul_correct_iff`, `C05_mul_small_partial`, `C05_mul_value`, `C05_shl`, `C05_shr`, `C05_sub`, `C06_classes`, `C06_fields_of_pack`, `C06_normal_value`, `C06_pack_of_fields`, `C07_equals_equivalence`, `C07_equals_iff_same_datum`, `C07_equals_ignores_dont_care`, `C08_nextafter_defined_iff`, `C08_nextafter_up`, `C08_nextup_special`, `C08_nextup_strictly_increasing`, `C08_nextup_successor`, `C09_nextafter_down_iff`, `C09_nextdown_correct_iff`, `C09_nextdown_nextup_partial`, `C09_nextdown_predecessor_partial`, `C09_nextdown_wrong_at_powers_of_two`, `C09_nextdown_wrong_below_negative_binade`, `C100_add`, `C100_add_single`, `C100_convert`, `C100_div`, `C100_fma`, `C100_mul`, `C100_power_of_two`, `C101_add`, `C101_add_returned`, `C101_add_single`, `C101_add_single_returned`, `C101_add_single_v3_returned`, `C101_convert`, `C101_div`, `C101_fma`, `C101_ieee_add`, `C101_ieee_div`, `C101_ieee_mul`, `C101_mul`, `C101_numbers_between`, `C101_soft32`, `C101_soft64`, `C101_soft_sum_zero_iff32`, `C101_soft_sum_zero_iff64`, `C102_divide_multiply_back`, `C102_ieee_divide_multiply_back`, `C102_last_bit_needed`, `C102_soft_divide_multiply_back32`, `C102_soft_divide_multiply_back64`, `C102_two_powers_needed`, `C103_ieee_mean`, `C103_ieee_step`, `C103_mean`, `C103_mean_mul`, `C103_mean_overflow`, `C103_soft_midpoint32`, `C103_soft_midpoint64`, `C103_step`, `C103_step_same_sign`, `C104_ieee_sum_error`, `C104_ieee_two_sum`, `C104_second_finite`, `C104_soft_two_sum32`, `C104_soft_two_sum64`, `C104_two_sum`, `C104_two_sum_overflow`, `C104_underflow`, `C105_ieee_split`, `C105_ieee_two_product`, `C105_soft_split32`, `C105_soft_split64`, `C105_soft_split_overflow`, `C105_soft_two_product32`, `C105_soft_two_product64`, `C105_soft_two_product_underflow`, `C105_split`, `C105_two_product`, `C106_compensated_sum`, `C106_ieee_compensated_sum`, `C106_soft_compensated_sum32`, `C106_soft_compensated_sum64`, `C107_compensated_dot`, `C107_ieee_compensated_dot`, `C107_soft_compensated_dot32`, `C107_soft_compensated_dot64`, `C108_exact_points`, `C108_exp_monotone`, `C108_exp_outcome`, `C108_log_monotone`, `C108_log_sqrt_outcome`, `C108_sqrt_in_range`, `C108_sqrt_monotone`, `C109_dot_float_monotone`, `C109_dot_monotone`, `C109_dot_monotone_returned`, `C109_dot_negative_factor`, `C109_soft_dot_monotone32`, `C109_soft_dot_monotone64`, `C109_soft_sum_at_least32`, `C109_soft_sum_at_least64`, `C109_soft_sum_monotone32`, `C109_soft_sum_monotone64`, `C109_sum_at_least`, `C109_sum_float_monotone`, `C109_sum_monotone`, `C109_sum_monotone_returned`, `C10_mul_correctly_rounded`, `C10_mul_one_exponent_bit_iff`, `C10_mul_one_exponent_bit_same`, `C110_difference_of_products`, `C110_division_exact_iff`, `C110_division_remainder`, `C110_small_dividend`, `C111_conversion_enclosed`, `C111_expression`, `C111_fma_enclosed`, `C111_interval_add`, `C111_interval_div`, `C111_interval_mul`, `C111_interval_neg`, `C111_minimum_first_wrong`, `C111_product_enclosed`, `C111_quotient_enclosed`, `C111_sum_enclosed`, `C112_expression_error`, `C112_horner_error`, `C112_soft_expression_error32`, `C112_soft_expression_error64`, `C112_soft_horner_error32`, `C112_soft_horner_error64`, `C113_dot_schedule_error`, `C113_dot_schedule_exceptions`, `C113_schedule_error`, `C113_schedule_error_single`, `C113_schedule_exact`, `C113_schedule_exceptions`, `C113_schedule_matters`, `C113_schedules_agree`, `C113_soft_dot_schedule32`, `C113_soft_dot_schedule64`, `C113_soft_schedule32`, `C113_soft_schedule64`, `C113_soft_schedule_exact32`, `C113_soft_schedule_exact64`, `C114_monomial_error`, `C114_product_schedule`, `C114_soft_product_schedule32`, `C114_soft_product_schedule64`, `C114_soft_underflow`, `C115_constant`, `C115_fraction_exact`, `C115_round_to_multiple`, `C115_soft_round32`, `C115_soft_round64`, `C116_bound_matters`, `C116_integer_quotient`, `C116_soft_integer_quotient32`, `C116_soft_integer_quotient64`, `C117_blend_ends`, `C117_blend_falls`, `C117_lerp_between`, `C117_lerp_end_missed`, `C117_lerp_monotone`, `C117_lerp_overflow`, `C117_lerp_side`, `C117_lerp_start`, `C117_soft_lerp32`, `C117_soft_lerp64`, `C11_mul_narrower_exponent_in_range`, `C11_mul_narrower_exponent_wrong`, `C11_mul_wide_correct_iff`, `C11_mul_wide_exact_partial`, `C11_mul_wide_one_exponent_bit`, `C11_mul_wide_underflow_is_nan`, `C11_mul_wide_value`, `C11_mul_wider_exponent_asserts`, `C12_mul_exceptions`, `C13_mul_comm`, `C14_add_correct_format_iff`, `C14_add_correct_operands_iff`, `C14_add_correctly_rounded_partial`, `C14_add_value`, `C14_add_wide_fraction_fails`, `C15_add_single_clamp_wrong`, `C15_add_single_correct_all_iff`, `C15_add_single_correct_iff`, `C15_add_single_correctly_rounded_partial`, `C15_add_single_v3_correct_all_iff`, `C15_add_single_v3_correct_iff`, `C15_add_single_v3_correctly_rounded_partial`, `C15_add_single_v4_correct_iff`, `C15_add_single_v4_rounds_wrongly`, `C15_add_single_v4_value`, `C15_add_single_v5_correct_all_iff`, `C15_add_single_v5_correct_iff`, `C15_add_single_v5_correctly_rounded_partial`, `C16_add_neg_is_zero`, `C16_add_zeros`, `C17_add_dual_exceptions`, `C17_add_dual_exceptions_returned`, `C17_add_single_exceptions`, `C17_add_single_exceptions_returned`, `C17_add_single_v4_exceptions`, `C18_add_dual_commutative`, `C18_add_dual_commutative_all`, `C18_add_dual_commutative_everywhere`, `C18_add_single_commutative`, `C18_add_single_commutative_all`, `C18_add_single_commutative_mixed`, `C18_adders_agree_partial`, `C18_adders_disagree`, `C19_add_dual_asserts_all_iff`, `C19_add_dual_asserts_iff`, `C19_add_dual_never_asserts_iff`, `C19_add_single_asserts_all_iff`, `C19_add_single_never_asserts_iff`, `C19_add_single_v3_asserts_all_iff`, `C20_div_correctly_rounded`, `C20_div_v2_correctly_rounded`, `C21_div_versions_agree`, `C21_partial_remainder_in_range`, `C21_quotient_digits`, `C22_div_exceptions`, `C23_convert_round_trip`, `C23_convert_widen_exact`, `C23_promote_exact`, `C24_convert_correctly_rounded`, `C24_convert_special_iff`, `C24_convert_special_partial`, `C24_convert_special_wrong`, `C24_difference_narrowed_wrong`, `C24_product_narrowed_wrong`, `C24_quotient_narrowed_wrong`, `C24_single_difference_narrowed_wrong`, `C25_comparisons_nan`, `C25_comparisons_real_order_iff`, `C25_comparisons_real_order_partial`, `C25_infinities_unequal`, `C25_infinities_unequal_mixed`, `C26_derived`, `C26_irreflexive`, `C26_transitive`, `C26_trichotomy`, `C27_neg_datum`, `C27_neg_involutive`, `C27_neg_rounded`, `C28_flopoco_to_ieee`, `C28_ieeeRange_of_word`, `C28_ieee_promote_partial`, `C28_ieee_promote_wrong`, `C28_ieee_to_flopoco`, `C28_promote_to_ieee_exact`, `C28_round_trip`, `C29_add_correct_format_iff`, `C29_add_correct_operands_iff`, `C29_add_partial`, `C29_add_special_partial`, `C29_add_value`, `C29_comparisons`, `C29_div`, `C29_div_special`, `C29_mul`, `C29_mul_special`, `C30_direct_exceptions`, `C30_direct_faithful_partial`, `C30_direct_format_iff`, `C30_direct_iff`, `C30_direct_partial`, `C30_direct_wrap_wrong`, `C30_direct_wrong`, `C30_faithful_defined`, `C30_faithful_defined_iff`, `C30_faithful_exceptions`, `C30_faithful_iff`, `C30_faithful_partial`, `C30_faithful_undefined`, `C30_faithful_wrap_wrong`, `C30_inv_wrong`, `C30_table_division`, `C31_fmaSpecial_domain`, `C31_fma_asserts_iff`, `C31_fma_correct_full_fraction`, `C31_fma_correct_if_sum_fits`, `C31_fma_correct_iff`, `C31_fma_double_rounding`, `C31_fma_exceptions_partial`, `C31_fma_intermediate_partial`, `C31_fma_returned_iff`, `C31_fma_returned_special`, `C31_fma_within_1ulp_partial`, `C32_dot2`, `C32_dot2_precondition`, `C32_dot2_symmetric`, `C33_dot4_error`, `C33_dot4_format_iff`, `C33_dot4_format_right`, `C33_dot4_format_two_one`, `C33_dot4_format_wrong`, `C33_dot4_iff`, `C33_dot4_partial`, `C33_dot4_precondition`, `C33_dot4_value`, `C33_dot4_wrong`, `C34_intlog2`, `C34_lzocClz_normalises`, `C34_lzoc_normalises`, `C34_lzoc_zero`, `C35_collapse`, `C35_compress`, `C35_merge`, `C35_merge_read`, `C35_merge_read_wrong`, `C35_read`, `C35_step`, `C35_uint_roundtrip`, `C36_rows`, `C36_steps`, `C36_two_rows`, `C37_mul`, `C37_mul_heap`, `C38_compress`, `C39_lcg_additive`, `C39_lcg_even_no_undo`, `C39_lcg_forward`, `C39_lcg_period`, `C39_lcg_undo`, `C39_p_additive`, `C39_p_forward`, `C39_p_int_min`, `C39_p_nonzero`, `C39_p_undo`, `C39_quick_seed`, `C40_create`, `C40_depth`, `C40_forEach`, `C40_mapReduce`, `C41_unique`, `C41_unique_canonical`, `C42_all_used`, `C42_linear`, `C42_step`, `C42_taps`, `C42_zero`, `C43_add`, `C43_add_tight`, `C43_constant`, `C43_horner`, `C43_mul`, `C43_mul_tight`, `C43_product`, `C43_shift_const`, `C43_shift_right_iff`, `C43_shift_right_partial`, `C43_shift_right_type_iff`, `C43_shift_right_wrong`, `C43_union`, `C44_add_monotone`, `C44_add_monotone_format_iff`, `C44_add_monotone_partial`, `C44_add_single_monotone`, `C44_add_single_monotone_returned`, `C44_add_single_v3_monotone_returned`, `C44_div_monotone`, `C44_mul_monotone`, `C45_add_zero_partial`, `C45_add_zero_returned`, `C45_div_identities`, `C45_mul_one`, `C45_neg_add`, `C45_neg_add_everywhere`, `C45_neg_add_partial`, `C45_neg_div`, `C45_neg_mul`, `C46_epsilon_and_snan_wrong`, `C46_limits_bound`, `C46_limits_values_partial`, `C47_mpfr_round_trip`, `C47_of_mpfr`, `C47_to_mpfr_exact`, `C48_add_partial`, `C48_add_wrong`, `C48_canonical_wrong`, `C48_compare`, `C48_compare_signed_partial`, `C48_limb_wrong`, `C48_limbs`, `C48_mul_single`, `C48_negative_zero_wrong`, `C48_print`, `C48_shift_canonical`, `C48_shift_left`, `C48_shift_right`, `C49_within_1ulp`, `C49_within_1ulp_nan`, `C50_equality_class`, `C51_classes`, `C51_equals`, `C51_limits_bound`, `C51_limits_values_partial`, `C51_mpfr_round_trip`, `C51_of_mpfr`, `C51_signalling_nan_is_infinity`, `C51_signed_classes`, `C51_to_mpfr`, `C52_compare_equal_partial`, `C52_convert_iff`, `C53_ref_add`, `C53_ref_div`, `C53_ref_fma`, `C53_ref_inv_faithful`, `C53_ref_mul`, `C53_ref_unary`, `C54_add_agrees_iff`, `C54_add_agrees_partial`, `C54_add_single_agrees_iff`, `C54_add_single_agrees_partial`, `C54_add_single_disagrees`, `C54_convert_agrees_iff`, `C54_convert_agrees_partial`, `C54_convert_disagrees`, `C54_div_agrees`, `C54_fma_agrees_iff`, `C54_fma_agrees_partial`, `C54_fma_agrees_returned_iff`, `C54_fma_disagrees`, `C54_inv_faithful_agrees_partial`, `C54_mul_agrees`, `C54_mul_one_exponent_bit_agrees_iff`, `C54_mul_wide_agrees_iff`, `C54_neg_agrees_iff`, `C55_double_round_trip`, `C55_from_double_infinity`, `C55_from_double_partial`, `C55_to_double_round_trip_partial`, `C56_ieee_to_double_approx`, `C56_ieee_to_double_approx_exact`, `C56_to_double_approx`, `C56_to_double_approx_exact`, `C56_to_double_negative_wrong`, `C56_to_double_partial`, `C57_dot_error_partial`, `C57_dot_exceptions`, `C57_dot_float_error`, `C57_dot_returned`, `C57_sum_error_partial`, `C57_sum_exact`, `C57_sum_exceptions`, `C57_sum_float_error`, `C57_sum_nonneg`, `C57_sum_returned`, `C58_dot2_full_error_partial`, `C58_mat_mul_full_error_partial`, `C58_mat_mul_full_returned`, `C58_mat_mul_round_error`, `C58_par4_full_error_partial`, `C58_par4_round_error`, `C58_wider_accumulator_asserts`, `C59_add_cin`, `C59_extu`, `C59_log2_ceil`, `C59_log2_ceil_not_ceil`, `C59_lut`, `C59_lut_rejects`, `C59_random_uniform`, `C59_random_word`, `C59_select`, `C59_take`, `C59_to_double_approx`, `C59_to_double_exact`, `C59_to_double_not_nearest`, `C60_disabled_class_never_partial`, `C60_disabled_pos_zero_produced`, `C60_every_value_reachable`, `C61_soft_add32`, `C61_soft_add32_unique`, `C61_soft_add64`, `C61_soft_add64_unique`, `C62_soft_mul32`, `C62_soft_mul32_unique`, `C62_soft_mul64`, `C62_soft_mul64_unique`, `C63_soft_div32`, `C63_soft_div32_unique`, `C63_soft_div64`, `C63_soft_div64_unique`, `C64_soft_compare32`, `C64_soft_compare64`, `C65_soft_add_monotone32`, `C65_soft_add_monotone64`, `C65_soft_comm32`, `C65_soft_comm64`, `C65_soft_difference_exact32`, `C65_soft_difference_exact64`, `C65_soft_div_monotone32`, `C65_soft_div_monotone64`, `C65_soft_identities32`, `C65_soft_identities64`, `C65_soft_inverses32`, `C65_soft_inverses64`, `C65_soft_mul_monotone32`, `C65_soft_mul_monotone64`, `C65_soft_sum_sign32`, `C65_soft_sum_sign64`, `C65_soft_tiny_sum_exact32`, `C65_soft_tiny_sum_exact64`, `C66_soft_payload32`, `C66_soft_payload64`, `C66_soft_quiet32`, `C66_soft_quiet64`, `C67_ac`, `C67_ac_equals_ap`, `C67_ac_xor_int`, `C67_ap`, `C67_helpers`, `C67_values`, `C67_values_slices`, `C68_of_mpz_partial`, `C68_of_mpz_rejects`, `C68_of_mpz_wide_wrong`, `C68_string_round_trip`, `C68_to_int_wraps`, `C68_to_mpz`, `C68_to_uint64`, `C69_add4`, `C69_add8`, `C69_kernels_agree`, `C70_dot_error_partial`, `C70_flopoco_kernels`, `C70_kernels_returned`, `C70_mmm_computes`, `C70_mmm_unrolled_wrong`, `C70_mmm_wrong`, `C70_sum_vec4_error_partial`, `C70_sum_vec4_returned`, `C71_comparisons_agree32`, `C71_comparisons_agree64`, `C71_denormals_differ`, `C71_operators_agree32`, `C71_operators_agree64`, `C71_same_word32`, `C71_same_word64`, `C72_soft_div`, `C72_soft_dot_error32`, `C72_soft_dot_error64`, `C72_soft_dot_exceptions32`, `C72_soft_dot_exceptions64`, `C72_soft_mat_mul_error`, `C72_soft_par4_error`, `C72_soft_sum_error32`, `C72_soft_sum_error64`, `C72_soft_sum_exact32`, `C72_soft_sum_exact64`, `C72_soft_sum_exceptions32`, `C72_soft_sum_exceptions64`, `C73_double_add`, `C73_double_div`, `C73_double_mul`, `C73_flopoco`, `C73_flopoco_raw_below_range`, `C73_from_mpfr_double`, `C73_from_mpfr_exact`, `C73_from_mpfr_single`, `C73_ieee`, `C73_single_add`, `C73_single_div`, `C73_single_mul`, `C73_ternary_overflow`, `C73_ternary_wrong`, `C73_to_mpfr`, `C74_addition_must_return`, `C74_counts`, `C74_double_oracle`, `C74_double_verdict`, `C74_flopoco_oracle`, `C74_flopoco_verdict_partial`, `C74_flopoco_verdict_returned`, `C74_ieee_oracle`, `C74_ieee_verdict_partial`, `C74_ieee_verdict_returned`, `C74_single_oracle`, `C74_single_verdict`, `C74_verdict`, `C75_dot2_program`, `C75_dot2_reference_partial`, `C75_dot2_reference_wrong`, `C75_dot4_program`, `C75_dot4_program_wrong`, `C75_dot4_reference_large`, `C75_dot4_reference_partial`, `C75_dot4_reference_small`, `C75_dot4_reference_small_iff`, `C75_dot4_reference_small_refused`, `C75_dot4_reference_small_wrong`, `C75_dot4_reference_wrong`, `C75_dot_program_formats`, `C75_double_add`, `C75_double_mul`, `C75_double_ne`, `C75_exhaust_dot2_wrong`, `C75_exhaust_dot4_iff`, `C75_test_dot2_partial`, `C75_test_dot4_detects`, `C75_test_dot4_iff`, `C75_test_dot4_partial`, `C75_test_dot4_passes`, `C75_test_dot4_verdict`, `C76_loop_first_failure`, `C76_loop_length`, `C76_loop_passes_iff`, `C76_loop_visits`, `C77_fixed_inputs_no_nan`, `C77_fixed_inputs_symmetric`, `C77_inputs_contents`, `C77_inputs_exist_iff`, `C77_inputs_structure`, `C77_random_nan`, `C77_small_runs_not_random`, `C78_add_single_accepted`, `C78_check_equals_iff`, `C78_check_faithful_accepts_nan`, `C78_check_faithful_iff`, `C78_fma_accepted`, `C78_mpfr_nextabove`, `C78_mpfr_step_to_zero`, `C78_test_add_dual_iff`, `C78_test_add_dual_passes_partial`, `C78_test_add_single_passes`, `C78_test_convert_passes`, `C78_test_div_passes`, `C78_test_fma`, `C78_test_fma_undefined`, `C78_test_inv_direct_passes`, `C78_test_inv_faithful_passes`, `C78_test_mul`, `C79_flopoco_digits`, `C79_flopoco_exponents_wrong`, `C79_flopoco_round_error`, `C79_ieee_digits`, `C79_ieee_epsilon_wrong`, `C79_ieee_exponents_wrong`, `C79_soft_exponents_wrong`, `C79_soft_functions_wrong`, `C80_ref_exp`, `C80_ref_log`, `C80_ref_sqrt`, `C80_ref_sqrt_exact`, `C80_rounding_agrees`, `C81_ieee_ref_add`, `C81_ieee_ref_mul`, `C81_wrapper_add_is_reference`, `C81_wrapper_mul_is_reference`, `C82_ieee_str_fails_iff`, `C82_ieee_str_injective`, `C82_ieee_str_number_partial`, `C82_ieee_str_special`, `C82_str_injective`, `C82_str_number`, `C82_str_special`, `C82_str_total`, `C83_add_dual_module_iff`, `C83_add_single_module_iff`, `C83_add_single_module_partial`, `C83_add_single_ratio_module_partial`, `C83_add_single_v3_module_iff`, `C83_div_module`, `C83_generated_add_dual_iff`, `C83_generated_add_single_iff`, `C83_generated_add_single_v4_wrong`, `C83_generated_ieee_add_iff`, `C83_ieee_add_module_iff`, `C83_ieee_add_module_partial`, `C83_ieee_mul_div_modules`, `C83_mul_module`, `C83_mul_ratio_module`, `C84_mat_full_designs_assert`, `C84_mat_mul_round_exceptions`, `C84_mat_round_designs`, `C84_par4_full_designs_assert`, `C84_par4_round_designs`, `C84_par4_round_exceptions`, `C85_comparisons`, `C85_flopoco_program_iff`, `C85_flopoco_test_iff`, `C85_ieee_program_iff`, `C85_ieee_test_iff`, `C85_product_test_iff`, `C85_programs_pass`, `C85_single_check_iff`, `C85_small_draws_fail`, `C86_double_inputs`, `C86_double_verdict`, `C86_drawn_nan`, `C86_failure_reported_and_ignored`, `C86_flopoco_completes_iff`, `C86_flopoco_inputs`, `C86_flopoco_inputs_exist_iff`, `C86_flopoco_reliable_iff_partial`, `C86_flopoco_verdict_partial`, `C86_ieee_completes_iff`, `C86_ieee_inputs`, `C86_ieee_inputs_exist_iff`, `C86_ieee_verdict_partial`, `C86_programs_exit`, `C86_programs_tests_pass`, `C86_single_inputs`, `C86_single_verdict`, `C86_soft_program_ignores_failures`, `C86_test_never_throws`, `C87_div32_option`, `C87_div64_option`, `C87_leading_zeros16`, `C87_leading_zeros32`, `C87_leading_zeros64`, `C87_leading_zeros64_iff`, `C87_mul32_same`, `C87_mul64_same`, `C87_product_words`, `C87_reciprocal`, `C88_accepted_iff`, `C88_float_round_trip_iff`, `C88_from_float`, `C88_permission_wrong`, `C88_static_assertions_iff`, `C88_to_float`, `C88_wrapper_round_trip`, `C89_add_sub`, `C89_comparisons`, `C89_products`, `C89_shift_left`, `C89_shift_left_96`, `C89_shift_right`, `C89_shift_right_extra`, `C89_shift_right_extra_any`, `C89_shift_right_jam`, `C90_counting_program`, `C90_counting_program_pass_iff`, `C90_parameter_sweep_passes`, `C90_test_add_single_aborts_iff`, `C90_test_add_single_iff`, `C90_test_add_single_never_fails`, `C90_test_add_single_v3_passes`, `C90_test_add_single_v4_iff`, `C90_test_add_single_v5_passes`, `C91_convert_chain_differs`, `C91_convert_chain_iff`, `C91_convert_chain_same`, `C91_convert_chain_special_iff`, `C92_test_bit_heap`, `C92_test_row_heap`, `C93_convert_monotone_iff`, `C93_convert_neg`, `C93_dot2_monotone`, `C93_dot4_monotone`, `C93_dot4_symmetric`, `C93_fma_comm`, `C93_fma_monotone_addend`, `C93_fma_monotone_factor`, `C93_fma_neg`, `C94_lcg_period`, `C94_lcg_reaches`, `C94_p_period`, `C94_p_reaches`, `C95_prime_check`, `C95_quick_check`, `C96_add_narrow`, `C96_add_narrow_iff`, `C96_add_narrow_operands_iff`, `C96_add_same_exponent`, `C96_add_same_exponent_all_iff`, `C96_add_same_exponent_iff`, `C96_add_same_exponent_operands_iff`, `C96_div_narrow_iff`, `C96_div_narrow_operands_iff`, `C96_div_same_exponent_all_iff`, `C96_div_same_exponent_iff`, `C96_div_same_exponent_operands_iff`, `C96_mul_narrow_iff`, `C96_mul_narrow_operands_iff`, `C96_mul_same_exponent`, `C96_mul_same_exponent_all_iff`, `C96_mul_same_exponent_iff`, `C96_mul_same_exponent_wrong`, `C97_difference_exact`, `C97_difference_of_distinct_is_zero`, `C97_difference_zero_iff`, `C97_product_error`, `C97_sum_error`, `C98_add_dual_debug`, `C98_debug_programs`, `C98_loop_detects`, `C98_loops`, `C98_ones`, `C98_test_bits`, `C99_add_exact`, `C99_add_single_exact`, `C99_bound_sharp`, `C99_convert_exact`, `C99_counting`, `C99_div_exact`, `C99_dot_exact`, `C99_exact_iff_representable`, `C99_fma_exact`, `C99_mat_mul_exact`, `C99_mul_exact`, `C99_representable`, `C99_returned_exact`
