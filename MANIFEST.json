{"claims": [
{"property": "C01", "status": "proved", "theorems": ["Thls.C01_add", "Thls.C01_sub", "Thls.C01_add_int", "Thls.C01_sub_int", "Thls.C01_mul", "Thls.C01_square", "Thls.C01_not", "Thls.C01_and", "Thls.C01_or", "Thls.C01_xor", "Thls.C01_shr", "Thls.C01_shl", "Thls.C01_add_with_cin", "Thls.C01_add_sub", "Thls.C01_refines_value_model", "Thls.C01_or_int_all_ones_rejected", "Thls.C01_bitwise_int", "Thls.C01_shift_rejects"], "note": ""},
{"property": "C02", "status": "proved", "theorems": ["Thls.C02_comparisons", "Thls.C02_comparisons_int"], "note": ""},
{"property": "C03", "status": "proved", "theorems": ["Thls.C03_get_bits", "Thls.C03_concat", "Thls.C03_slices_of_concat", "Thls.C03_concat_of_slices", "Thls.C03_concat3", "Thls.C03_concat4", "Thls.C03_take_drop", "Thls.C03_single_bit", "Thls.C03_checked_cast", "Thls.C03_get_bits_rejects", "Thls.C03_pad", "Thls.C03_resize", "Thls.C03_copybit", "Thls.C03_concat_array"], "note": ""},
{"property": "C04", "status": "proved", "theorems": ["Thls.C04_string_round_trip", "Thls.C04_string_digits", "Thls.C04_to_mpz", "Thls.C04_mpz_round_trip", "Thls.C04_mpz_too_large"], "note": ""},
{"property": "C05", "status": "partial", "theorems": ["Thls.Fallback.C05_mul_value", "Thls.Fallback.C05_mul_correct_iff", "Thls.Fallback.C05_add", "Thls.Fallback.C05_sub", "Thls.Fallback.C05_shr", "Thls.Fallback.C05_shl", "Thls.Fallback.C05_comparisons", "Thls.Fallback.C05_bitwise", "Thls.Fallback.C05_mul_wrong", "Thls.Fallback.C05_mul_small_partial"], "note": "The fallback multiplication is wrong (C05_mul_wrong): what it computes and the operands on which it is right are characterised exactly (C05_mul_value, C05_mul_correct_iff). Everything else proved."},
{"property": "C06", "status": "proved", "theorems": ["Thls.C06_fields_of_pack", "Thls.C06_pack_of_fields", "Thls.C06_classes", "Thls.C06_normal_value"], "note": ""},
{"property": "C07", "status": "proved", "theorems": ["Thls.C07_equals_iff_same_datum", "Thls.C07_equals_equivalence", "Thls.C07_equals_ignores_dont_care"], "note": ""},
{"property": "C08", "status": "proved", "theorems": ["Thls.C08_nextup_successor", "Thls.C08_nextup_special", "Thls.C08_nextup_strictly_increasing", "Thls.C08_nextafter_defined_iff", "Thls.C08_nextafter_up"], "note": ""},
{"property": "C09", "status": "partial", "theorems": ["Thls.C09_nextdown_correct_iff", "Thls.C09_nextdown_predecessor_partial", "Thls.C09_nextdown_nextup_partial", "Thls.C09_nextdown_wrong_at_powers_of_two", "Thls.C09_nextdown_wrong_below_negative_binade", "Thls.C09_nextafter_down_iff"], "note": "False of the code: wrong at positive powers of two and at the bottom of negative binades, and right everywhere else (C09_nextdown_correct_iff is exact)."},
{"property": "C10", "status": "proved", "theorems": ["Thls.C10_mul_correctly_rounded", "Thls.C10_mul_one_exponent_bit_iff", "Thls.C10_mul_one_exponent_bit_same"], "note": "C10_mul_correctly_rounded for at least two exponent bits; for one exponent bit the exact characterisation is C10_mul_one_exponent_bit_iff: products that round up to 16 become zeros instead of infinities; with equal formats there is none (C10_mul_one_exponent_bit_same)."},
{"property": "C11", "status": "partial", "theorems": ["Thls.C11_mul_wide_exact_partial", "Thls.C11_mul_wide_underflow_is_nan", "Thls.C11_mul_wider_exponent_asserts", "Thls.C11_mul_narrower_exponent_wrong", "Thls.C11_mul_wide_value", "Thls.C11_mul_narrower_exponent_in_range", "Thls.C11_mul_wide_correct_iff", "Thls.C11_mul_wide_one_exponent_bit"], "note": "Characterised exactly for every result with at most as many exponent bits as the operands (C11_mul_wide_value, C11_mul_wide_correct_iff): right with equal exponent widths and no underflow. False on underflow (NaN), for a narrower result exponent (every product in range comes out as an infinity or NaN, C11_mul_narrower_exponent_in_range) and for a wider one (an assertion fails on every input)."},
{"property": "C12", "status": "proved", "theorems": ["Thls.C12_mul_exceptions"], "note": ""},
{"property": "C13", "status": "proved", "theorems": ["Thls.C13_mul_comm"], "note": ""},
{"property": "C14", "status": "partial", "theorems": ["Thls.C14_add_correctly_rounded_partial", "Thls.C14_add_wide_fraction_fails", "Thls.C14_add_correct_operands_iff", "Thls.C14_add_correct_format_iff", "Thls.C14_add_value"], "note": "False of the code as listed. Everything is characterised exactly: the formats in which the adder always returns and rounds correctly (C14_add_correct_format_iff: DualFormat and F <= 2^(E+1)), and, in every format that compiles, the operands for which it asserts (C19_add_dual_asserts_iff) or returns a wrong sum (C14_add_correct_operands_iff), and what it then returns (C14_add_value)."},
{"property": "C15", "status": "partial", "theorems": ["Thls.C15_add_single_correctly_rounded_partial", "Thls.C15_add_single_clamp_wrong", "Thls.C15_add_single_v5_correctly_rounded_partial", "Thls.C15_add_single_v3_correctly_rounded_partial", "Thls.C15_add_single_v4_rounds_wrongly", "Thls.C15_add_single_v4_value", "Thls.C15_add_single_v4_correct_iff", "Thls.C15_add_single_correct_all_iff", "Thls.C15_add_single_v5_correct_all_iff", "Thls.C15_add_single_v3_correct_all_iff", "Thls.C15_add_single_v5_correct_iff", "Thls.C15_add_single_v3_correct_iff", "Thls.C15_add_single_correct_iff"], "note": "False of the code in the clamp case and where the adder asserts. Exact in every format, for mixed formats and for v1/v2, v3 and v5: C15_add_single_correct_all_iff, C15_add_single_v3_correct_all_iff, C15_add_single_v5_correct_all_iff. v4 cuts instead of rounding: exactly what it returns in C15_add_single_v4_value, exactly when that is right in C15_add_single_v4_correct_iff."},
{"property": "C16", "status": "proved", "theorems": ["Thls.C16_add_neg_is_zero", "Thls.C16_add_zeros"], "note": ""},
{"property": "C17", "status": "proved", "theorems": ["Thls.C17_add_dual_exceptions", "Thls.C17_add_single_exceptions", "Thls.C17_addSpecial_domain", "Thls.C17_add_single_v4_exceptions", "Thls.C17_add_dual_exceptions_returned", "Thls.C17_add_single_exceptions_returned"], "note": ""},
{"property": "C18", "status": "partial", "theorems": ["Thls.C18_add_dual_commutative", "Thls.C18_add_single_commutative", "Thls.C18_adders_agree_partial", "Thls.C18_adders_disagree", "Thls.C18_add_dual_commutative_all", "Thls.C18_add_single_commutative_all", "Thls.C18_add_dual_commutative_everywhere", "Thls.C18_add_single_commutative_mixed"], "note": "Commutativity of both adders proved in all formats, mixed formats included (asserting on one order means asserting on the other). Agreement proved outside the clamp case, disagreement proved in it."},
{"property": "C19", "status": "partial", "theorems": ["Thls.C19_add_single_never_asserts_iff", "Thls.C19_add_dual_never_asserts_iff", "Thls.C19_add_dual_asserts_all_iff", "Thls.C19_add_dual_asserts_iff", "Thls.C19_add_single_asserts_all_iff", "Thls.C19_add_single_v3_asserts_all_iff"], "note": "False of the code as listed. Exact for both adders: the formats in which no assertion can fail, and in the other formats exactly which pairs of encodings fail (C19_add_dual_asserts_all_iff, C19_add_single_asserts_all_iff)."},
{"property": "C20", "status": "proved", "theorems": ["Thls.C20_div_correctly_rounded", "Thls.C20_div_v2_correctly_rounded"], "note": ""},
{"property": "C21", "status": "proved", "theorems": ["Thls.C21_partial_remainder_in_range", "Thls.C21_div_versions_agree", "Thls.C21_quotient_digits"], "note": ""},
{"property": "C22", "status": "proved", "theorems": ["Thls.C22_div_exceptions", "Thls.C22_divSpecial_domain"], "note": ""},
{"property": "C23", "status": "proved", "theorems": ["Thls.C23_promote_exact", "Thls.C23_convert_widen_exact", "Thls.C23_convert_round_trip"], "note": ""},
{"property": "C24", "status": "partial", "theorems": ["Thls.C24_convert_correctly_rounded", "Thls.C24_convert_special_partial", "Thls.C24_convert_special_wrong", "Thls.C24_convert_special_iff", "Thls.C24_difference_narrowed_wrong", "Thls.C24_quotient_narrowed_wrong", "Thls.C24_product_narrowed_wrong", "Thls.C24_single_difference_narrowed_wrong"], "note": "Correct rounding of every number proved. Zeros, infinities and NaN are kept except for zeros and NaNs with certain don't-care bits, which become infinities; characterised exactly (C24_convert_special_iff). The multiplier, the divider and the adder produce such zeros (C24_product_narrowed_wrong, C24_quotient_narrowed_wrong, C24_difference_narrowed_wrong)."},
{"property": "C25", "status": "partial", "theorems": ["Thls.C25_comparisons_real_order_partial", "Thls.C25_comparisons_nan", "Thls.C25_infinities_unequal", "Thls.C25_infinities_unequal_mixed", "Thls.C25_comparisons_real_order_iff"], "note": "False of the code for two infinities of the same sign whose don't-care bits differ, and right everywhere else (C25_comparisons_real_order_iff is exact)."},
{"property": "C26", "status": "proved", "theorems": ["Thls.C26_irreflexive", "Thls.C26_transitive", "Thls.C26_trichotomy", "Thls.C26_derived"], "note": ""},
{"property": "C27", "status": "proved", "theorems": ["Thls.C27_neg_datum", "Thls.C27_neg_involutive", "Thls.C27_neg_rounded"], "note": ""},
{"property": "C28", "status": "partial", "theorems": ["Thls.C28_ieee_to_flopoco", "Thls.C28_ieeeRange_of_word", "Thls.C28_flopoco_to_ieee", "Thls.C28_round_trip", "Thls.C28_promote_to_ieee_exact", "Thls.C28_ieee_promote_partial", "Thls.C28_ieee_promote_wrong"], "note": "Proved for ieee->flopoco, flopoco->ieee and flopoco->ieee promotion. ieee->ieee promotion is right exactly for normal words, or when the exponent width stays the same: infinities, NaNs and zeros of a narrower exponent come out as numbers (C28_ieee_promote_partial, C28_ieee_promote_wrong together are exact). ieee->flopoco promotion does not compile."},
{"property": "C29", "status": "partial", "theorems": ["Thls.C29_add_value", "Thls.C29_mul", "Thls.C29_mul_special", "Thls.C29_add_partial", "Thls.C29_add_special_partial", "Thls.C29_div", "Thls.C29_div_special", "Thls.C29_comparisons", "Thls.C29_add_correct_operands_iff", "Thls.C29_add_correct_format_iff"], "note": "Products, quotients and comparisons proved for all formats; sums are right for every pair of words exactly when the alignment shift cannot assert and F <= 2^(E+1)+1 (C29_add_correct_format_iff, E > 3, F+2 < 2^(E+2)), and for given numbers exactly when the sum is zero or at least 2^(-bias-2^(E+1)) (C29_add_correct_operands_iff). Partial because the code is wrong in the remaining formats."},
{"property": "C30", "status": "partial", "theorems": ["Thls.C30_inv_wrong", "Thls.C30_faithful_defined", "Thls.C30_faithful_undefined", "Thls.C30_faithful_partial", "Thls.C30_faithful_exceptions", "Thls.C30_faithful_wrap_wrong", "Thls.C30_direct_partial", "Thls.C30_direct_faithful_partial", "Thls.C30_direct_wrong", "Thls.C30_direct_wrap_wrong", "Thls.C30_direct_exceptions", "Thls.C30_faithful_defined_iff", "Thls.C30_faithful_iff", "Thls.Inv.C30_direct_format_iff", "Thls.C30_table_division", "Thls.Inv.C30_direct_iff"], "note": "inv violates a precondition on every operand (C30_inv_wrong). inv_faithful is proved faithful in every format for which it compiles, except for magnitudes strictly between 2^bias and 2^(bias+1), where both functions wrap around (C30_faithful_defined_iff and C30_faithful_iff say exactly where it is defined and right). inv_direct is characterised exactly: for each operand (C30_direct_iff) and for each format (C30_direct_format_iff); the entries of its table are rounded twice, and it loses a factor of two for operands two bits finer than the result (C30_direct_wrong). Exceptional operands proved."},
{"property": "C31", "status": "partial", "theorems": ["Thls.C31_fma_intermediate_partial", "Thls.C31_fma_within_1ulp_partial", "Thls.C31_fma_correct_if_sum_fits", "Thls.C31_fma_exceptions_partial", "Thls.C31_fmaSpecial_domain", "Thls.C31_fma_double_rounding", "Thls.C31_fma_asserts_iff", "Thls.C31_fma_returned_iff", "Thls.C31_fma_returned_special", "Thls.C31_fma_correct_iff", "Thls.C31_fma_correct_full_fraction"], "note": "Proved: the sum is correctly rounded to the intermediate format, the result is within one ulp; exactly when fma asserts (C31_fma_asserts_iff) and, for a result format narrower than the intermediate one, exactly when the returned result is correctly rounded (C31_fma_returned_iff, intermediate formats with F <= 2^(E+1)). Correct rounding in general is false because of double rounding (C31_fma_double_rounding, a family over formats)."},
{"property": "C32", "status": "proved", "theorems": ["Thls.C32_dot2", "Thls.C32_dot2_precondition", "Thls.C32_dot2_symmetric"], "note": ""},
{"property": "C33", "status": "partial", "theorems": ["Thls.C33_dot4_partial", "Thls.C33_dot4_precondition", "Thls.C33_dot4_error", "Thls.C33_dot4_wrong", "Thls.C33_dot4_format_right", "Thls.C33_dot4_format_wrong", "Thls.C33_dot4_format_two_one", "Thls.C33_dot4_format_iff", "Thls.C33_dot4_value", "Thls.C33_dot4_iff"], "note": "Exactly characterised: the value returned (C33_dot4_value: each product cut off at 2^(G-(6F-1)), G the largest sum of binary exponents, the sum then rounded down), exactly when it is the exact sum rounded down (C33_dot4_iff), and exactly the formats in which it is so for all positive operands: 3*2^E < 8*F + 4, or E = 2 and F = 1 (C33_dot4_format_iff). False in all other formats, single and double precision among them: bits dropped from two products can add up."},
{"property": "C34", "status": "proved", "theorems": ["Thls.C34_lzoc_normalises", "Thls.C34_lzoc_zero", "Thls.C34_intlog2", "Thls.C34_lzocClz_normalises"], "note": ""},
{"property": "C35", "status": "proved", "theorems": ["Thls.C35_read", "Thls.C35_uint_roundtrip", "Thls.C35_merge", "Thls.C35_merge_read", "Thls.C35_merge_read_wrong", "Thls.C35_shift", "Thls.C35_pad", "Thls.C35_step", "Thls.C35_compress", "Thls.C35_collapse"], "note": ""},
{"property": "C36", "status": "proved", "theorems": ["Thls.C36_two_rows", "Thls.C36_steps", "Thls.C36_rows"], "note": ""},
{"property": "C37", "status": "proved", "theorems": ["Thls.C37_mul_heap", "Thls.C37_mul"], "note": ""},
{"property": "C38", "status": "proved", "theorems": ["Thls.C38_read", "Thls.C38_uint", "Thls.C38_add", "Thls.C38_add_read", "Thls.C38_compress"], "note": ""},
{"property": "C39", "status": "proved", "theorems": ["Thls.Ct.C39_lcg_forward", "Thls.Ct.C39_lcg_additive", "Thls.Ct.C39_lcg_undo", "Thls.Ct.C39_quick_seed", "Thls.Ct.C39_lcg_period", "Thls.Ct.C39_lcg_even_no_undo", "Thls.Ct.C39_p_forward", "Thls.Ct.C39_p_additive", "Thls.Ct.C39_p_undo", "Thls.Ct.C39_p_nonzero", "Thls.Ct.C39_p_seed", "Thls.Ct.C39_p_int_min", "Thls.Ct.C39_listed_values"], "note": ""},
{"property": "C40", "status": "proved", "theorems": ["Thls.Ct.C40_read", "Thls.Ct.C40_write", "Thls.Ct.C40_read_write", "Thls.Ct.C40_swap", "Thls.Ct.C40_permute", "Thls.Ct.C40_create", "Thls.Ct.C40_rotation", "Thls.Ct.C40_forEach", "Thls.Ct.C40_mapReduce", "Thls.Ct.C40_depth", "Thls.Ct.C40_write_depth"], "note": ""},
{"property": "C41", "status": "proved", "theorems": ["Thls.Ct.C41_unique", "Thls.Ct.C41_unique_canonical", "Thls.Ct.C41_compare"], "note": ""},
{"property": "C42", "status": "proved", "theorems": ["Thls.Ct.LutOpt.C42_step", "Thls.Ct.LutOpt.C42_taps", "Thls.Ct.LutOpt.C42_all_used", "Thls.Ct.LutOpt.C42_linear", "Thls.Ct.LutOpt.C42_zero"], "note": ""},
{"property": "C43", "status": "partial", "theorems": ["Thls.Fix.C43_add", "Thls.Fix.C43_add_tight", "Thls.Fix.C43_mul", "Thls.Fix.C43_mul_tight", "Thls.Fix.C43_shift_const", "Thls.Fix.C43_shift_right_partial", "Thls.Fix.C43_shift_right_wrong", "Thls.Fix.C43_shift_right_iff", "Thls.Fix.C43_shift_right_type_iff", "Thls.Fix.C43_constant", "Thls.Fix.C43_union", "Thls.Fix.C43_horner", "Thls.Fix.C43_product"], "note": "Sums, products, Horner evaluations, products of many, constant right shifts and unions proved for all types. Right shift by a variable is characterised exactly, per value and per type (C43_shift_right_iff, C43_shift_right_type_iff); it is false for every range above zero or below -1 (C43_shift_right_wrong)."},
{"property": "C44", "status": "partial", "theorems": ["Thls.C44_add_monotone", "Thls.C44_add_single_monotone_returned", "Thls.C44_add_single_v3_monotone_returned", "Thls.C44_add_single_monotone", "Thls.C44_add_monotone_format_iff", "Thls.C44_add_monotone_partial", "Thls.C44_mul_monotone", "Thls.C44_div_monotone"], "note": "Products and quotients proved for all formats; dual-path sums are monotone, whenever both sums are returned, exactly in the formats with F <= 2^(E+1) (C44_add_monotone_format_iff); single-path sums (v1/v2, v3, v5) in all formats, whenever both sums are returned. Partial because it is false of the dual-path adder in the remaining formats."},
{"property": "C45", "status": "partial", "theorems": ["Thls.C45_add_zero_returned", "Thls.C45_neg_add", "Thls.C45_neg_add_everywhere", "Thls.C45_mul_one", "Thls.C45_div_identities", "Thls.C45_add_zero_partial", "Thls.C45_neg_mul", "Thls.C45_neg_div", "Thls.C45_neg_add_partial"], "note": "Proved for all formats; the identities involving sums hold whenever the sum is returned at all (the dual-path adder asserts in some formats, C19)."},
{"property": "C46", "status": "partial", "theorems": ["Thls.C46_limits_values_partial", "Thls.C46_limits_bound", "Thls.C46_epsilon_and_snan_wrong"], "note": "Values and bounds proved; epsilon() asserts and its body is half the gap above one, signalling_NaN() is zero (proved)."},
{"property": "C47", "status": "proved", "theorems": ["Thls.C47_to_mpfr_exact", "Thls.C47_mpfr_round_trip", "Thls.C47_of_mpfr"], "note": ""},
{"property": "C48", "status": "partial", "theorems": ["Thls.CtBig.C48_value", "Thls.CtBig.C48_compare", "Thls.CtBig.C48_compare_signed_partial", "Thls.CtBig.C48_negative_zero_wrong", "Thls.CtBig.C48_zero_ambiguous", "Thls.CtBig.C48_limbs", "Thls.CtBig.C48_add_partial", "Thls.CtBig.C48_add_wrong", "Thls.CtBig.C48_shift_left", "Thls.CtBig.C48_shift_right", "Thls.CtBig.C48_mul_single", "Thls.CtBig.C48_mul_wrong", "Thls.CtBig.C48_shift_canonical", "Thls.CtBig.C48_canonical_wrong", "Thls.CtBig.C48_limb_wrong", "Thls.CtBig.C48_print"], "note": "Values, comparison of non-negative numbers, shifts, multiplication by a limb, printing: proved. Signed comparison proved without negative zeros and where it compiles; false otherwise (C48_negative_zero_wrong, C48_zero_ambiguous). Addition drops the carry out of the top limb (C48_add_wrong); multiplication does not compile (C48_mul_wrong); limb 65535 is rejected (C48_limb_wrong); leading zeros (C48_canonical_wrong)."},
{"property": "C49", "status": "proved", "theorems": ["Thls.C49_within_1ulp", "Thls.C49_within_1ulp_nan"], "note": ""},
{"property": "C50", "status": "proved", "theorems": ["Thls.C50_equality_class"], "note": ""},
{"property": "C51", "status": "partial", "theorems": ["Thls.C51_classes", "Thls.C51_equals", "Thls.C51_limits_values_partial", "Thls.C51_signalling_nan_is_infinity", "Thls.C51_limits_bound", "Thls.C51_to_mpfr", "Thls.C51_of_mpfr", "Thls.C51_mpfr_round_trip", "Thls.C51_signed_classes"], "note": "All proved except signalling_NaN(), which is an infinity (proved), and denorm_min(), which is the smallest normal."},
{"property": "C52", "status": "partial", "theorems": ["Thls.Fix.C52_compare_wrong", "Thls.Fix.C52_compare_equal_partial", "Thls.Fix.C52_convert_wrong", "Thls.Fix.C52_convert_iff", "Thls.Fix.C52_select_wrong"], "note": "False of the code: comparison finds all numbers equal, assignment accepts any range and loses the value (exactly which assignments compile: C52_convert_iff), select loses the value (all proved). Only the equal case is proved to be right."},
{"property": "C53", "status": "proved", "theorems": ["Thls.C53_ref_mul", "Thls.C53_ref_add", "Thls.C53_ref_div", "Thls.C53_ref_fma", "Thls.C53_ref_unary", "Thls.C53_ref_inv_faithful"], "note": ""},
{"property": "C54", "status": "partial", "theorems": ["Thls.C54_fma_agrees_returned_iff", "Thls.C54_fma_agrees_iff", "Thls.C54_mul_one_exponent_bit_agrees_iff", "Thls.C54_mul_agrees", "Thls.C54_mul_wide_agrees_iff", "Thls.C54_div_agrees", "Thls.C54_add_agrees_partial", "Thls.C54_add_single_agrees_partial", "Thls.C54_add_single_disagrees", "Thls.C54_convert_agrees_partial", "Thls.C54_convert_disagrees", "Thls.C54_add_agrees_iff", "Thls.C54_add_single_agrees_iff", "Thls.C54_convert_agrees_iff", "Thls.C54_neg_agrees_iff", "Thls.C54_fma_agrees_partial", "Thls.C54_fma_disagrees", "Thls.C54_inv_faithful_agrees_partial"], "note": "Exactly characterised for mul, div, both adders, convert, neg and fma (C54_mul_wide_agrees_iff, C54_add_agrees_iff, C54_add_single_agrees_iff, C54_convert_agrees_iff, C54_neg_agrees_iff, C54_fma_agrees_returned_iff; fma for result formats narrower than the intermediate one); inv_faithful is proved where it is right. Partial because agreement fails in the cases named there."},
{"property": "C55", "status": "partial", "theorems": ["Thls.C55_from_double_partial", "Thls.C55_from_double_infinity", "Thls.C55_double_round_trip", "Thls.C55_to_double_round_trip_partial"], "note": "Numbers, NaN and +0 proved, and the round trip. False for infinities, which become NaN (C55_from_double_infinity), and for -0, which becomes +0 (part of C55_from_double_partial); denormal doubles are flushed, which differs from truncation only for more than 10 exponent bits."},
{"property": "C56", "status": "partial", "theorems": ["Thls.C56_to_double_approx", "Thls.C56_to_double_approx_exact", "Thls.C56_to_double_partial", "Thls.C56_to_double_negative_wrong", "Thls.C56_ieee_to_double_approx", "Thls.C56_ieee_to_double_approx_exact"], "note": "to_double_approx proved in full. to_double proved for everything but negative numbers, all of which come out positive and at least twice as large (C56_to_double_negative_wrong)."},
{"property": "C57", "status": "partial", "theorems": ["Thls.C57_sum_error_partial", "Thls.C57_sum_exceptions", "Thls.C57_sum_exact", "Thls.C57_sum_nonneg", "Thls.C57_dot_error_partial", "Thls.C57_dot_exceptions", "Thls.C57_sum_float_error", "Thls.C57_dot_float_error", "Thls.C57_sum_returned", "Thls.C57_dot_returned"], "note": "Whatever the loops return obeys the bounds in every format with F <= 2^(E+1), E > 3 (C57_sum_returned, C57_dot_returned); they always return where the alignment shift cannot assert (DualFormat, which includes single and double precision; C19 says exactly where it asserts). For F > 2^(E+1) the adder itself is wrong (C14). The float examples are covered without restriction."},
{"property": "C58", "status": "partial", "theorems": ["Thls.C58_par4_round_error", "Thls.C58_wider_accumulator_asserts", "Thls.C58_mat_mul_round_error", "Thls.C58_mat_mul_full_error_partial", "Thls.C58_dot2_full_error_partial", "Thls.C58_par4_full_error_partial", "Thls.C58_mat_mul_full_returned"], "note": "The round traits' dot_product_par4 is proved for all mixed formats; mat_mul for factors with the accumulator's exponent width. False whenever the accumulator has more exponent bits than the factors for the full traits, and for mat_mul with either: every input violates a precondition (C58_wider_accumulator_asserts)."},
{"property": "C59", "status": "proved", "theorems": ["Thls.C59_log2_ceil", "Thls.C59_log2_ceil_not_ceil", "Thls.C59_extu", "Thls.C59_take", "Thls.C59_add_cin", "Thls.C59_logical", "Thls.C59_select", "Thls.C59_lut", "Thls.C59_lut_rejects", "Thls.C59_random_word", "Thls.C59_random_uniform", "Thls.C59_to_double_approx", "Thls.C59_to_double_exact", "Thls.C59_to_double_not_nearest"], "note": "take<B> compiles only for W=2B+1 and then returns B+1 bits (C59_take); thls_ctLog2Ceil is not the ceiling of the logarithm at powers of two, as C59_log2_ceil_not_ceil says exactly; to_double_approx is not always the nearest double (C59_to_double_not_nearest)."},
{"property": "C60", "status": "partial", "theorems": ["Thls.C60_disabled_class_never_partial", "Thls.C60_disabled_pos_zero_produced", "Thls.C60_every_value_reachable"], "note": "Proved except for a disabled PosZero, which is returned when the uniform draw is exactly zero (C60_disabled_pos_zero_produced)."},
{"property": "C61", "status": "proved", "theorems": ["Thls.C61_soft_add32", "Thls.C61_soft_add32_unique", "Thls.C61_soft_add64", "Thls.C61_soft_add64_unique"], "note": ""},
{"property": "C62", "status": "proved", "theorems": ["Thls.C62_soft_mul32", "Thls.C62_soft_mul32_unique", "Thls.C62_soft_mul64", "Thls.C62_soft_mul64_unique"], "note": ""},
{"property": "C63", "status": "proved", "theorems": ["Thls.C63_soft_div32", "Thls.C63_soft_div32_unique", "Thls.C63_soft_div64", "Thls.C63_soft_div64_unique"], "note": ""},
{"property": "C64", "status": "proved", "theorems": ["Thls.C64_soft_compare32", "Thls.C64_soft_compare64"], "note": ""},
{"property": "C65", "status": "proved", "theorems": ["Thls.C65_soft_comm32", "Thls.C65_soft_add_monotone32", "Thls.C65_soft_mul_monotone32", "Thls.C65_soft_div_monotone32", "Thls.C65_soft_identities32", "Thls.C65_soft_inverses32", "Thls.C65_soft_difference_exact32", "Thls.C65_soft_tiny_sum_exact32", "Thls.C65_soft_comm64", "Thls.C65_soft_add_monotone64", "Thls.C65_soft_mul_monotone64", "Thls.C65_soft_div_monotone64", "Thls.C65_soft_identities64", "Thls.C65_soft_inverses64", "Thls.C65_soft_difference_exact64", "Thls.C65_soft_tiny_sum_exact64", "Thls.C65_soft_sum_sign32", "Thls.C65_soft_sum_sign64"], "note": ""},
{"property": "C66", "status": "proved", "theorems": ["Thls.C66_soft_quiet32", "Thls.C66_soft_payload32", "Thls.C66_soft_quiet64", "Thls.C66_soft_payload64", "Thls.C66_soft_nan_sign_lost"], "note": ""},
{"property": "C67", "status": "partial", "theorems": ["Thls.C67_ap", "Thls.C67_ac", "Thls.C67_ac_xor_int", "Thls.C67_compare_int", "Thls.C67_helpers", "Thls.C67_same_helpers", "Thls.C67_values", "Thls.C67_values_slices", "Thls.C67_ac_equals_ap", "Thls.C67_zero_width_differs", "Thls.C67_or_int_differs"], "note": "Proved for every operator and helper. Comparisons and products of zero-width numbers are excluded: the vendor bit behind a fw_uint<0> can be set, and they then differ (C67_zero_width_differs)."},
{"property": "C68", "status": "partial", "theorems": ["Thls.C68_to_string", "Thls.C68_string_round_trip", "Thls.C68_to_mpz", "Thls.C68_of_mpz_partial", "Thls.C68_of_mpz_rejects", "Thls.C68_of_mpz_wide_wrong", "Thls.C68_to_int", "Thls.C68_to_int_wraps", "Thls.C68_to_uint64"], "note": "Text, conversion to GMP and to machine integers proved. Conversion from GMP is exact up to 64 bits; above, every number from 2^64 on loses its high bits (C68_of_mpz_wide_wrong). From 2^31 on to_int wraps instead of failing (C68_to_int_wraps)."},
{"property": "C69", "status": "proved", "theorems": ["Thls.C69_add4", "Thls.C69_add8", "Thls.C69_kernels_agree"], "note": ""},
{"property": "C70", "status": "partial", "theorems": ["Thls.C70_in_order", "Thls.C70_dot_unrolled", "Thls.C70_flopoco_kernels", "Thls.C70_dot_error_partial", "Thls.C70_sum_vec4_error_partial", "Thls.C70_mmm_computes", "Thls.C70_mmm_wrong", "Thls.C70_mmm_unrolled_wrong", "Thls.C70_kernels_returned", "Thls.C70_sum_vec4_returned"], "note": "Sums and dot products proved (error bounds whenever the kernel returns, in every format with F <= 2^(E+1)). The matrix kernels are wrong: they read the second matrix at r*i+c, which stays in bounds but does not give the product for any size above one (C70_mmm_wrong, C70_mmm_unrolled_wrong)."},
{"property": "C71", "status": "proved", "theorems": ["Thls.C71_operators_agree32", "Thls.C71_operators_agree64", "Thls.C71_same_word32", "Thls.C71_same_word64", "Thls.C71_comparisons_agree32", "Thls.C71_comparisons_agree64", "Thls.C71_denormals_differ"], "note": ""},
{"property": "C72", "status": "proved", "theorems": ["Thls.C72_soft_div", "Thls.C72_soft_sum_error32", "Thls.C72_soft_dot_error32", "Thls.C72_soft_sum_exact32", "Thls.C72_soft_sum_exceptions32", "Thls.C72_soft_dot_exceptions32", "Thls.C72_soft_sum_error64", "Thls.C72_soft_dot_error64", "Thls.C72_soft_sum_exact64", "Thls.C72_soft_sum_exceptions64", "Thls.C72_soft_dot_exceptions64", "Thls.C72_soft_par4_error", "Thls.C72_soft_mat_mul_error"], "note": ""},
{"property": "C73", "status": "proved", "theorems": ["Thls.C73_ternary_overflow", "Thls.C73_to_mpfr", "Thls.C73_from_mpfr_exact", "Thls.C73_from_mpfr_double", "Thls.C73_from_mpfr_single", "Thls.C73_single_mul", "Thls.C73_single_add", "Thls.C73_single_div", "Thls.C73_double_mul", "Thls.C73_double_add", "Thls.C73_double_div", "Thls.C73_flopoco", "Thls.C73_ieee", "Thls.C73_flopoco_raw_below_range", "Thls.C73_ternary_wrong"], "note": ""},
{"property": "C74", "status": "partial", "theorems": ["Thls.C74_addition_must_return", "Thls.C74_flopoco_verdict_returned", "Thls.C74_ieee_verdict_returned", "Thls.C74_counts", "Thls.C74_verdict", "Thls.C74_single_oracle", "Thls.C74_double_oracle", "Thls.C74_flopoco_oracle", "Thls.C74_ieee_oracle", "Thls.C74_single_verdict", "Thls.C74_double_verdict", "Thls.C74_flopoco_verdict_partial", "Thls.C74_ieee_verdict_partial"], "note": "Counting, verdict and the oracle property are proved for arbitrary operators, inputs and (with the given references) formats; the verdict for the library's own operators is exact on every input for the software types, and for the FloPoCo-based types in every format with F <= 2^(E+1): the test completes exactly if the adder returns for all pairs of inputs (C74_flopoco_verdict_returned, C74_ieee_verdict_returned). Missing: formats with F > 2^(E+1), whose adder is wrong (C14). The verdict shows the test itself rejects right operators on NaN inputs and on differently encoded infinities."},
{"property": "C75", "status": "partial", "theorems": ["Thls.C75_test_dot4_verdict", "Thls.C75_test_dot4_iff", "Thls.C75_exhaust_dot4_iff", "Thls.C75_dot2_program", "Thls.C75_dot4_program", "Thls.C75_dot4_program_wrong", "Thls.C75_dot_program_formats", "Thls.C75_dot2_reference_partial", "Thls.C75_dot2_reference_wrong", "Thls.C75_test_dot2_partial", "Thls.C75_exhaust_dot2_wrong", "Thls.C75_dot4_reference_small", "Thls.C75_dot4_reference_large", "Thls.C75_dot4_reference_partial", "Thls.C75_dot4_reference_wrong", "Thls.C75_test_dot4_partial", "Thls.C75_test_dot4_passes", "Thls.C75_test_dot4_detects", "Thls.C75_dot4_reference_small_wrong", "Thls.C75_dot4_reference_small_refused", "Thls.C75_dot4_reference_small_iff", "Thls.C75_double_add", "Thls.C75_double_mul", "Thls.C75_double_ne"], "note": "The reference of dot2 is right if the format has at least 12 fraction bits or at most 10 exponent bits, and wrong for some operands in every other format; that of dot4 is right with at most 5 fraction bits and 10 exponent bits, and with 6 fraction bits or more it is right exactly when its assertion holds (characterised); with at most 5 fraction bits it is right exactly if the format has at most 10 exponent bits (C75_dot4_reference_small_iff). The verdict of the test of dot4 is proved up to 10 exponent bits. The exhaustive test of dot2 is wrong. The verdict of the dot4 test is exactly characterised for up to 10 exponent and 52 fraction bits (C75_test_dot4_iff, C75_exhaust_dot4_iff), and so are the two programs: test_dot2_pos_rndd.cpp returns 0 whatever is drawn, test_dot4_pos_rndd.cpp exits with an error exactly if a wrong result is drawn in one of 8 of its 14 formats (C75_dot4_program, C75_dot4_program_wrong)."},
{"property": "C76", "status": "proved", "theorems": ["Thls.C76_loop_visits", "Thls.C76_loop_passes_iff", "Thls.C76_loop_first_failure", "Thls.C76_loop_length"], "note": ""},
{"property": "C77", "status": "proved", "theorems": ["Thls.C77_inputs_exist_iff", "Thls.C77_inputs_structure", "Thls.C77_small_runs_not_random", "Thls.C77_inputs_contents", "Thls.C77_fixed_inputs_no_nan", "Thls.C77_fixed_inputs_symmetric", "Thls.C77_random_nan"], "note": ""},
{"property": "C78", "status": "partial", "theorems": ["Thls.C78_mpfr_nextabove", "Thls.C78_mpfr_nextabove_special", "Thls.C78_mpfr_step_to_zero", "Thls.C78_test_add_dual_iff", "Thls.C78_check_equals_iff", "Thls.C78_check_faithful_iff", "Thls.C78_check_faithful_accepts_nan", "Thls.C78_loops_iff", "Thls.C78_test_mul", "Thls.C78_test_div_passes", "Thls.C78_test_add_dual_passes_partial", "Thls.C78_add_single_accepted", "Thls.C78_test_add_single_passes", "Thls.C78_test_convert_passes", "Thls.C78_fma_accepted", "Thls.C78_test_fma", "Thls.C78_test_fma_undefined", "Thls.C78_test_inv_direct_passes", "Thls.C78_test_inv_faithful_passes"], "note": "the test of fma reads past its inputs in one of its instances (C78_test_fma_undefined, exact condition in C78_test_fma); the test of mul fails for results wider than the product, where mul is wrong (C78_test_mul, C11); the test of add_dual passes exactly in the formats in which the adder is correct, and stops at an assertion or fails in the others (C78_test_add_dual_iff); the faithful check accepts NaN (C78_check_faithful_accepts_nan)"},
{"property": "C79", "status": "partial", "theorems": ["Thls.C79_flopoco_digits", "Thls.C79_flopoco_exponents_wrong", "Thls.C79_flopoco_round_error", "Thls.C79_ieee_digits", "Thls.C79_ieee_exponents_wrong", "Thls.C79_ieee_epsilon_wrong", "Thls.C79_soft_exponents_wrong", "Thls.C79_soft_functions_wrong"], "note": "digits is right everywhere; the exponent constants are wrong by one or two in most types (C79_*_exponents_wrong state the right ones as equivalences), epsilon() is half of what it should be, and most functions of the software type's limits are wrong"},
{"property": "C80", "status": "proved", "theorems": ["Thls.C80_ref_sqrt", "Thls.C80_ref_exp", "Thls.C80_ref_log", "Thls.C80_rounding_agrees", "Thls.C80_ref_sqrt_exact"], "note": ""},
{"property": "C81", "status": "proved", "theorems": ["Thls.C81_ieee_ref_mul", "Thls.C81_ieee_ref_add", "Thls.C81_wrapper_mul_is_reference", "Thls.C81_wrapper_add_is_reference"], "note": ""},
{"property": "C82", "status": "partial", "theorems": ["Thls.C82_str_number", "Thls.C82_str_special", "Thls.C82_str_total", "Thls.C82_str_injective", "Thls.C82_ieee_str_number_partial", "Thls.C82_ieee_str_fails_iff", "Thls.C82_ieee_str_special", "Thls.C82_ieee_str_injective"], "note": "str() of the FloPoCo type is proved in full for exponents of up to 31 bits; str() of the IEEE type fails exactly for numbers whose fraction field is at least 2^31 (C82_ieee_str_fails_iff), so most double precision numbers cannot be printed."},
{"property": "C83", "status": "partial", "theorems": ["Thls.C83_ieee_add_module_iff", "Thls.C83_generated_ieee_add_iff", "Thls.C83_mul_module", "Thls.C83_mul_ratio_module", "Thls.C83_div_module", "Thls.C83_add_dual_module_iff", "Thls.C83_add_single_module_iff", "Thls.C83_add_single_module_partial", "Thls.C83_add_single_ratio_module_partial", "Thls.C83_add_single_v3_module_iff", "Thls.C83_ieee_mul_div_modules", "Thls.C83_ieee_add_module_partial", "Thls.C83_generated_add_single_iff", "Thls.C83_generated_add_dual_iff", "Thls.C83_generated_add_single_v4_wrong"], "note": "products and quotients are right in every format; the sum modules are right exactly in the formats of C83_generated_add_dual_iff, C83_generated_add_single_iff and C83_generated_ieee_add_iff (the single-path module is wrong in all usual formats), v4 is wrong in all of them. Partial because the code is wrong in the remaining formats."},
{"property": "C84", "status": "partial", "theorems": ["Thls.C84_par4_round_exceptions", "Thls.C84_mat_mul_round_exceptions", "Thls.C84_par4_round_designs", "Thls.C84_par4_full_designs_assert", "Thls.C84_designs_listed", "Thls.C84_mat_full_designs_assert", "Thls.C84_mat_round_designs"], "note": "the eleven dot products and three matrix products with the round traits and equal exponent widths work on every input; the five designs with the full traits and the two round matrix products with a wider accumulator violate a precondition of the multiplier on every input (C84_par4_full_designs_assert, C84_mat_full_designs_assert, C84_mat_round_designs), so that the property is false of the code there."},
{"property": "C85", "status": "proved", "theorems": ["Thls.C85_single_check_iff", "Thls.C85_flopoco_test_iff", "Thls.C85_ieee_test_iff", "Thls.C85_flopoco_program_iff", "Thls.C85_ieee_program_iff", "Thls.C85_programs_pass", "Thls.C85_small_draws_fail", "Thls.C85_comparisons", "Thls.C85_product_test_iff"], "note": ""},
{"property": "C86", "status": "partial", "theorems": ["Thls.C86_flopoco_completes_iff", "Thls.C86_ieee_completes_iff", "Thls.C86_flopoco_inputs_exist_iff", "Thls.C86_ieee_inputs_exist_iff", "Thls.C86_flopoco_inputs", "Thls.C86_ieee_inputs", "Thls.C86_single_inputs", "Thls.C86_double_inputs", "Thls.C86_flopoco_verdict_partial", "Thls.C86_drawn_nan", "Thls.C86_flopoco_reliable_iff_partial", "Thls.C86_ieee_verdict_partial", "Thls.C86_single_verdict", "Thls.C86_double_verdict", "Thls.C86_programs_tests_pass", "Thls.C86_exit_code_iff", "Thls.C86_programs_exit", "Thls.C86_soft_program_ignores_failures", "Thls.C86_test_never_throws", "Thls.C86_failure_reported_and_ignored"], "note": "False of the code as listed: the programs ignore failed checks (C86_soft_program_ignores_failures), and with F > bias+1 the FloPoCo test has false alarms (C86_flopoco_reliable_iff_partial). The inputs are characterised in every format; the tests of the FloPoCo-based types complete exactly in the formats in which the adder cannot assert (C86_flopoco_completes_iff, C86_ieee_completes_iff), and there the verdicts are exact."},
{"property": "C87", "status": "partial", "theorems": ["Thls.C87_leading_zeros32", "Thls.C87_leading_zeros64", "Thls.C87_leading_zeros64_iff", "Thls.C87_leading_zeros16", "Thls.C87_product_words", "Thls.C87_mul64_same", "Thls.C87_mul32_same", "Thls.C87_div32_option", "Thls.C87_div64_option", "Thls.C87_reciprocal"], "note": "Holds where unsigned long has 64 bits, and only there (C87_leading_zeros64_iff). Nothing else is missing."},
{"property": "C88", "status": "partial", "theorems": ["Thls.C88_accepted_iff", "Thls.C88_static_assertions_iff", "Thls.C88_from_float", "Thls.C88_to_float", "Thls.C88_float_round_trip_iff", "Thls.C88_wrapper_round_trip", "Thls.C88_permission_wrong"], "note": "False of the code: subnormals and both ends of the wider exponent range are lost without permission (C88_permission_wrong), exactly characterised by C88_from_float, C88_to_float and C88_float_round_trip_iff; the calls exist for single precision only (C88_accepted_iff)."},
{"property": "C89", "status": "proved", "theorems": ["Thls.C89_comparisons", "Thls.C89_add_sub", "Thls.C89_shift_left", "Thls.C89_shift_right", "Thls.C89_shift_right_jam", "Thls.C89_shift_right_extra", "Thls.C89_shift_right_extra_any", "Thls.C89_products", "Thls.C89_shift_left_96"], "note": ""},
{"property": "C90", "status": "partial", "theorems": ["Thls.C90_test_add_single_never_fails", "Thls.C90_test_add_single_aborts_iff", "Thls.C90_test_add_single_v3_passes", "Thls.C90_test_add_single_v5_passes", "Thls.C90_test_add_single_v4_iff", "Thls.C90_parameter_sweep_passes", "Thls.C90_test_add_single_iff", "Thls.C90_counting_program", "Thls.C90_counting_program_pass_iff"], "note": "All verdicts are characterised exactly. The stated claim fails in two ways: the guard of the counting program lets formats through in which add_single asserts (C90_counting_program), and the test of version 1 is stopped by an assertion in the formats with F+3 = 2^(E-1) (C90_test_add_single_aborts_iff)."},
{"property": "C91", "status": "partial", "theorems": ["Thls.C91_convert_chain_iff", "Thls.C91_convert_chain_same", "Thls.C91_convert_chain_special_iff", "Thls.C91_convert_chain_differs"], "note": "Characterised exactly for every encoding (C91_convert_chain_iff, C91_convert_chain_special_iff). Partial because the claim as stated fails for zeros and NaNs whose don't-care bits are all ones when one of the conversions keeps the exponent width."},
{"property": "C92", "status": "proved", "theorems": ["Thls.C92_test_bit_heap", "Thls.C92_test_row_heap", "Thls.C92_complaint_iff"], "note": ""},
{"property": "C93", "status": "proved", "theorems": ["Thls.C93_convert_monotone_iff", "Thls.C93_convert_neg", "Thls.C93_fma_comm", "Thls.C93_fma_monotone_addend", "Thls.C93_fma_monotone_factor", "Thls.C93_fma_neg", "Thls.C93_dot2_monotone", "Thls.C93_dot4_monotone", "Thls.C93_dot4_symmetric"], "note": ""},
{"property": "C94", "status": "proved", "theorems": ["Thls.Ct.C94_lcg_period", "Thls.Ct.C94_lcg_reaches", "Thls.Ct.C94_p_period", "Thls.Ct.C94_p_reaches"], "note": ""},
{"property": "C95", "status": "proved", "theorems": ["Thls.Ct.C95_quick_check", "Thls.Ct.C95_prime_check", "Thls.Ct.C95_default_checks", "Thls.Ct.C95_check_iff"], "note": ""},
{"property": "C96", "status": "proved", "theorems": ["Thls.C96_mul_narrow_operands_iff", "Thls.C96_mul_narrow_iff", "Thls.C96_div_narrow_operands_iff", "Thls.C96_div_narrow_iff", "Thls.C96_add_narrow_operands_iff", "Thls.C96_add_narrow", "Thls.C96_add_narrow_iff", "Thls.C96_mul_same_exponent_all_iff", "Thls.C96_div_same_exponent_operands_iff", "Thls.C96_div_same_exponent_all_iff", "Thls.C96_mul_same_exponent_wrong", "Thls.C96_mul_same_exponent_iff", "Thls.C96_mul_same_exponent", "Thls.C96_div_same_exponent_iff", "Thls.C96_add_same_exponent_iff", "Thls.C96_add_same_exponent_operands_iff", "Thls.C96_add_same_exponent", "Thls.C96_add_same_exponent_all_iff"], "note": ""},
{"property": "C97", "status": "proved", "theorems": ["Thls.C97_difference_exact", "Thls.C97_difference_zero_iff", "Thls.C97_difference_of_distinct_is_zero", "Thls.C97_sum_error", "Thls.C97_product_error"], "note": ""},
{"property": "C98", "status": "proved", "theorems": ["Thls.C98_loops", "Thls.C98_loop_detects", "Thls.C98_ones", "Thls.C98_test_bits", "Thls.C98_debug_programs", "Thls.C98_add_dual_debug"], "note": ""},
{"property": "C99", "status": "proved", "theorems": ["Thls.C99_representable", "Thls.C99_bound_sharp", "Thls.C99_exact_iff_representable", "Thls.C99_add_exact", "Thls.C99_add_single_exact", "Thls.C99_mul_exact", "Thls.C99_div_exact", "Thls.C99_convert_exact", "Thls.C99_fma_exact", "Thls.C99_dot_exact", "Thls.C99_mat_mul_exact", "Thls.C99_counting", "Thls.C99_returned_exact"], "note": ""},
{"property": "C100", "status": "proved", "theorems": ["Thls.C100_add", "Thls.C100_add_single", "Thls.C100_mul", "Thls.C100_div", "Thls.C100_convert", "Thls.C100_fma", "Thls.C100_power_of_two"], "note": ""},
{"property": "C101", "status": "proved", "theorems": ["Thls.C101_add", "Thls.C101_add_returned", "Thls.C101_mul", "Thls.C101_div", "Thls.C101_convert", "Thls.C101_fma", "Thls.C101_numbers_between", "Thls.C101_ieee_mul", "Thls.C101_ieee_div", "Thls.C101_ieee_add", "Thls.C101_soft32", "Thls.C101_soft64", "Thls.C101_soft_sum_zero_iff32", "Thls.C101_soft_sum_zero_iff64", "Thls.C101_add_single", "Thls.C101_add_single_returned", "Thls.C101_add_single_v3_returned"], "note": ""},
{"property": "C102", "status": "proved", "theorems": ["Thls.C102_divide_multiply_back", "Thls.C102_ieee_divide_multiply_back", "Thls.C102_soft_divide_multiply_back32", "Thls.C102_soft_divide_multiply_back64", "Thls.C102_last_bit_needed", "Thls.C102_two_powers_needed"], "note": ""},
{"property": "C103", "status": "proved", "theorems": ["Thls.C103_mean", "Thls.C103_mean_mul", "Thls.C103_step", "Thls.C103_step_same_sign", "Thls.C103_mean_overflow", "Thls.C103_ieee_mean", "Thls.C103_ieee_step", "Thls.C103_soft_midpoint32", "Thls.C103_soft_midpoint64"], "note": ""},
{"property": "C104", "status": "proved", "theorems": ["Thls.C104_two_sum", "Thls.C104_second_finite", "Thls.C104_underflow", "Thls.C104_ieee_sum_error", "Thls.C104_ieee_two_sum", "Thls.C104_soft_two_sum32", "Thls.C104_soft_two_sum64", "Thls.C104_two_sum_overflow", "Thls.C104_soft_two_sum_overflow"], "note": ""},
{"property": "C105", "status": "proved", "theorems": ["Thls.C105_split", "Thls.C105_two_product", "Thls.C105_ieee_split", "Thls.C105_ieee_two_product", "Thls.C105_soft_split32", "Thls.C105_soft_split64", "Thls.C105_soft_two_product32", "Thls.C105_soft_two_product64", "Thls.C105_soft_split_overflow", "Thls.C105_soft_two_product_underflow"], "note": ""},
{"property": "C106", "status": "proved", "theorems": ["Thls.C106_compensated_sum", "Thls.C106_ieee_compensated_sum", "Thls.C106_soft_compensated_sum32", "Thls.C106_soft_compensated_sum64"], "note": ""},
{"property": "C107", "status": "proved", "theorems": ["Thls.C107_compensated_dot", "Thls.C107_ieee_compensated_dot", "Thls.C107_soft_compensated_dot32", "Thls.C107_soft_compensated_dot64"], "note": ""},
{"property": "C108", "status": "proved", "theorems": ["Thls.C108_sqrt_monotone", "Thls.C108_exp_monotone", "Thls.C108_log_monotone", "Thls.C108_exp_outcome", "Thls.C108_exact_points", "Thls.C108_log_sqrt_outcome", "Thls.C108_sqrt_in_range"], "note": ""},
{"property": "C109", "status": "proved", "theorems": ["Thls.C109_sum_monotone", "Thls.C109_sum_monotone_returned", "Thls.C109_sum_at_least", "Thls.C109_dot_monotone", "Thls.C109_dot_monotone_returned", "Thls.C109_dot_negative_factor", "Thls.C109_sum_float_monotone", "Thls.C109_dot_float_monotone", "Thls.C109_soft_sum_monotone32", "Thls.C109_soft_sum_at_least32", "Thls.C109_soft_dot_monotone32", "Thls.C109_soft_sum_monotone64", "Thls.C109_soft_sum_at_least64", "Thls.C109_soft_dot_monotone64"], "note": ""},
{"property": "C110", "status": "proved", "theorems": ["Thls.C110_division_remainder", "Thls.C110_division_exact_iff", "Thls.C110_small_dividend", "Thls.C110_difference_of_products"], "note": ""},
{"property": "C111", "status": "proved", "theorems": ["Thls.C111_sum_enclosed", "Thls.C111_product_enclosed", "Thls.C111_quotient_enclosed", "Thls.C111_conversion_enclosed", "Thls.C111_fma_enclosed", "Thls.C111_interval_neg", "Thls.C111_interval_add", "Thls.C111_interval_mul", "Thls.C111_interval_div", "Thls.C111_expression", "Thls.C111_minimum_first_wrong"], "note": ""},
{"property": "C112", "status": "proved", "theorems": ["Thls.C112_expression_error", "Thls.C112_horner_error", "Thls.C112_soft_expression_error32", "Thls.C112_soft_expression_error64", "Thls.C112_soft_horner_error32", "Thls.C112_soft_horner_error64"], "note": ""},
{"property": "C113", "status": "proved", "theorems": ["Thls.C113_dot_schedule_error", "Thls.C113_dot_schedule_exceptions", "Thls.C113_soft_dot_schedule32", "Thls.C113_soft_dot_schedule64", "Thls.C113_schedule_error", "Thls.C113_schedule_error_single", "Thls.C113_schedule_exceptions", "Thls.C113_schedule_exact", "Thls.C113_schedules_agree", "Thls.C113_schedule_matters", "Thls.C113_soft_schedule32", "Thls.C113_soft_schedule64", "Thls.C113_soft_schedule_exact32", "Thls.C113_soft_schedule_exact64"], "note": ""},
{"property": "C114", "status": "proved", "theorems": ["Thls.C114_monomial_error", "Thls.C114_product_schedule", "Thls.C114_soft_underflow", "Thls.C114_soft_product_schedule32", "Thls.C114_soft_product_schedule64"], "note": ""},
{"property": "C115", "status": "proved", "theorems": ["Thls.C115_round_to_multiple", "Thls.C115_fraction_exact", "Thls.C115_constant", "Thls.C115_soft_round32", "Thls.C115_soft_round64"], "note": ""},
{"property": "C116", "status": "proved", "theorems": ["Thls.C116_integer_quotient", "Thls.C116_soft_integer_quotient32", "Thls.C116_soft_integer_quotient64", "Thls.C116_bound_matters"], "note": ""},
{"property": "C117", "status": "proved", "theorems": ["Thls.C117_lerp_monotone", "Thls.C117_lerp_start", "Thls.C117_lerp_side", "Thls.C117_lerp_between", "Thls.C117_blend_ends", "Thls.C117_lerp_end_missed", "Thls.C117_lerp_overflow", "Thls.C117_blend_falls", "Thls.C117_soft_lerp32", "Thls.C117_soft_lerp64"], "note": ""}
]}
