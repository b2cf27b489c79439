{
 "claims": [
  {
   "property": "C01",
   "status": "proved",
   "theorems": [
    "Verif.BigInt.C01_ofInt",
    "Verif.BigInt.C01_fromSigned",
    "Verif.BigInt.C01_fromUnsigned",
    "Verif.BigInt.C01_intVal",
    "Verif.BigInt.C01_longVal",
    "Verif.BigInt.C01_uintVal",
    "Verif.BigInt.C01_ulongVal",
    "Verif.BigInt.C01_convert"
   ],
   "note": ""
  },
  {
   "property": "C02",
   "status": "proved",
   "theorems": [
    "Verif.BigInt.C02_lt",
    "Verif.BigInt.C02_eq",
    "Verif.BigInt.C02_eqInt",
    "Verif.BigInt.C02_sign"
   ],
   "note": ""
  },
  {
   "property": "C03",
   "status": "proved",
   "theorems": [
    "Verif.BigInt.C03_addAssign",
    "Verif.BigInt.C03_addAssignMove",
    "Verif.BigInt.C03_plus",
    "Verif.BigInt.C03_addDigit",
    "Verif.BigInt.C03_incr_decr"
   ],
   "note": ""
  },
  {
   "property": "C04",
   "status": "proved",
   "theorems": [
    "Verif.BigInt.C04_negate",
    "Verif.BigInt.C04_complement",
    "Verif.BigInt.C04_abs",
    "Verif.BigInt.C04_subAssign",
    "Verif.BigInt.C04_minus",
    "Verif.BigInt.C04_subDigit"
   ],
   "note": ""
  },
  {
   "property": "C05",
   "status": "partial",
   "theorems": [
    "Verif.BigInt.C05_subtractFrom_false",
    "Verif.BigInt.C05_subtractFrom_partial",
    "Verif.BigInt.C05_subtractFromMove_partial",
    "Verif.BigInt.C05_subAssignMove_partial",
    "Verif.BigInt.C05_minus_partial",
    "Verif.BigInt.C05_minus_sign"
   ],
   "note": "False of the code as written (finding F1: C05_subtractFrom_false); the _partial theorems give a sufficient condition under which it holds, and C05_minus_sign says the sign of the result is always right."
  },
  {
   "property": "C06",
   "status": "partial",
   "theorems": [
    "Verif.BigInt.C06_mul",
    "Verif.BigInt.C06_mulDigit_false",
    "Verif.BigInt.C06_mulDigit_zero_witness",
    "Verif.BigInt.C06_mulDigit_partial",
    "Verif.BigInt.C06_mulInt_partial"
   ],
   "note": "operator* is proved in full. Multiplication by a machine digit or int always has the right value but is not canonical for x=0 on a positive number of 2 or more digits (finding F3: C06_mulDigit_false)."
  },
  {
   "property": "C07",
   "status": "partial",
   "theorems": [
    "Verif.BigInt.C07_reduceMod_false",
    "Verif.BigInt.C07_zero",
    "Verif.BigInt.C07_reduceMod_partial",
    "Verif.BigInt.C07_reduceMod_always",
    "Verif.BigInt.C07_operators_partial",
    "Verif.BigInt.C07_shiftModulo"
   ],
   "note": "False of the code as written for some negative divisors (finding F2: C07_reduceMod_false). Proved: always for positive divisors, and for negative divisors outside the F2 situation; division by zero throws; no assertion ever fails."
  },
  {
   "property": "C08",
   "status": "proved",
   "theorems": [
    "Verif.BigInt.C08_andAssign",
    "Verif.BigInt.C08_orAssign",
    "Verif.BigInt.C08_xorAssign",
    "Verif.BigInt.C08_bitwiseSubtract",
    "Verif.BigInt.C08_nondestructive",
    "Verif.BigInt.C08_bitwiseSubset",
    "Verif.BigInt.C08_indexOfSetBit",
    "Verif.BigInt.C08_bitLength_nonneg",
    "Verif.BigInt.C08_bitLength_neg"
   ],
   "note": ""
  },
  {
   "property": "C09",
   "status": "proved",
   "theorems": [
    "Verif.BigInt.C09_gcd",
    "Verif.BigInt.C09_lcm",
    "Verif.BigInt.C09_lcm_zero"
   ],
   "note": ""
  },
  {
   "property": "C10",
   "status": "proved",
   "theorems": [
    "Verif.BigInt.C10_output",
    "Verif.BigInt.C10_read",
    "Verif.BigInt.C10_roundTrip",
    "Verif.BigInt.C10_negative"
   ],
   "note": ""
  },
  {
   "property": "C11",
   "status": "proved",
   "theorems": [
    "Verif.BigInt.C11_power"
   ],
   "note": ""
  },
  {
   "property": "C12",
   "status": "partial",
   "theorems": [
    "Verif.BigInt.C12_ofInt",
    "Verif.BigInt.C12_fromFraction",
    "Verif.BigInt.C12_add",
    "Verif.BigInt.C12_sub_false",
    "Verif.BigInt.C12_sub_partial",
    "Verif.BigInt.C12_addInt",
    "Verif.BigInt.C12_intSub",
    "Verif.BigInt.C12_subInt_partial",
    "Verif.BigInt.C12_subtractFromInt_partial",
    "Verif.BigInt.C12_mulInt",
    "Verif.BigInt.C12_neg",
    "Verif.BigInt.C12_mul",
    "Verif.BigInt.C12_invert",
    "Verif.BigInt.C12_div",
    "Verif.BigInt.C12_divInt",
    "Verif.BigInt.C12_intDiv",
    "Verif.BigInt.C12_compare",
    "Verif.BigInt.C12_floor_ceil",
    "Verif.BigInt.C12_quotient_partial",
    "Verif.BigInt.C12_mod_false",
    "Verif.BigInt.C12_quotientInt_partial",
    "Verif.BigInt.C12_power"
   ],
   "note": "Everything exact except: binary minus, minus integer and subtract_from inherit finding F1 (C12_sub_false), quotient and remainder by negative numbers inherit finding F2 (C12_mod_false); the _partial theorems give conditions under which those hold."
  },
  {
   "property": "C13",
   "status": "proved",
   "theorems": [
    "Verif.Arith.C13_divide",
    "Verif.Arith.C13_remainder",
    "Verif.Arith.C13_division",
    "Verif.Arith.C13_divideU"
   ],
   "note": ""
  },
  {
   "property": "C14",
   "status": "proved",
   "theorems": [
    "Verif.Arith.C14_unsignedGcd",
    "Verif.Arith.C14_gcd",
    "Verif.Arith.C14_divGcd",
    "Verif.Arith.C14_lcm",
    "Verif.Arith.C14_lcm_bezout",
    "Verif.Arith.C14_lcm_doc_false"
   ],
   "note": "The header comment on the multiplier returned by lcm is not quite what the code does when the second argument divides the first (C14_lcm_doc_false, finding F24); the property as stated is proved."
  },
  {
   "property": "C15",
   "status": "proved",
   "theorems": [
    "Verif.Arith.C15_modAdd",
    "Verif.Arith.C15_modProd",
    "Verif.Arith.C15_modProd_large",
    "Verif.Arith.C15_power",
    "Verif.Arith.C15_exp"
   ],
   "note": ""
  },
  {
   "property": "C16",
   "status": "partial",
   "theorems": [
    "Verif.Arith.C16_make",
    "Verif.Arith.C16_add",
    "Verif.Arith.C16_sub",
    "Verif.Arith.C16_add_sub_small",
    "Verif.Arith.C16_mul_false",
    "Verif.Arith.C16_mul_partial",
    "Verif.Arith.C16_div",
    "Verif.Arith.C16_mod",
    "Verif.Arith.C16_neg_inverse",
    "Verif.Arith.C16_addInt",
    "Verif.Arith.C16_mulInt",
    "Verif.Arith.C16_divInt_partial",
    "Verif.Arith.C16_divInt_debug_false",
    "Verif.Arith.C16_modInt",
    "Verif.Arith.C16_rounding",
    "Verif.Arith.C16_compare",
    "Verif.Arith.C16_power"
   ],
   "note": "Everything exact when results are representable, except multiplication of a Rational by a Rational, which is wrong for a negative left operand (finding F5: C16_mul_false; proved for nonnegative numerator), and division by an integer in builds with assertions, which aborts for negative numerators (finding F23: C16_divInt_debug_false)."
  },
  {
   "property": "C17",
   "status": "proved",
   "theorems": [
    "Verif.Arith.C17_make",
    "Verif.Arith.C17_parts",
    "Verif.Arith.C17_eq",
    "Verif.Arith.C17_ring",
    "Verif.Arith.C17_int",
    "Verif.Arith.C17_times"
   ],
   "note": ""
  },
  {
   "property": "C18",
   "status": "proved",
   "theorems": [
    "Verif.Bits.C18_bitCount",
    "Verif.Bits.C18_firstBit",
    "Verif.Bits.C18_lastBit",
    "Verif.Bits.C18_masks"
   ],
   "note": ""
  },
  {
   "property": "C19",
   "status": "proved",
   "theorems": [
    "Verif.BitMap.C19_make",
    "Verif.BitMap.C19_isMember",
    "Verif.BitMap.C19_insert",
    "Verif.BitMap.C19_remove",
    "Verif.BitMap.C19_flip",
    "Verif.BitMap.C19_setTo",
    "Verif.BitMap.C19_setMod2",
    "Verif.BitMap.C19_out_of_range",
    "Verif.BitMap.C19_insertAll",
    "Verif.BitMap.C19_ofList",
    "Verif.BitMap.C19_complement",
    "Verif.BitMap.C19_fillAll",
    "Verif.BitMap.C19_reset",
    "Verif.BitMap.C19_union",
    "Verif.BitMap.C19_symmDiff",
    "Verif.BitMap.C19_andnot",
    "Verif.BitMap.C19_inter",
    "Verif.BitMap.C19_contains",
    "Verif.BitMap.C19_disjoint",
    "Verif.BitMap.C19_eq",
    "Verif.BitMap.C19_eq_capacity_false",
    "Verif.BitMap.C19_empty",
    "Verif.BitMap.C19_front",
    "Verif.BitMap.C19_size",
    "Verif.BitMap.C19_full",
    "Verif.BitMap.C19_next",
    "Verif.BitMap.C19_elements",
    "Verif.BitMap.C19_fillRange",
    "Verif.BitMap.C19_clearRange",
    "Verif.BitMap.C19_setCapacity",
    "Verif.BitMap.C19_extendCapacity",
    "Verif.BitMap.C19_lt_order",
    "Verif.BitMap.C19_history"
   ],
   "note": "Includes C19_history for arbitrary sequences. Equality only compares words, so does not see the capacity (C19_eq_capacity_false, finding F15); for equal capacities it is set equality."
  },
  {
   "property": "C20",
   "status": "proved",
   "theorems": [
    "Verif.BitMap.C20_position",
    "Verif.BitMap.C20_nTh",
    "Verif.BitMap.C20_inverse"
   ],
   "note": ""
  },
  {
   "property": "C21",
   "status": "proved",
   "theorems": [
    "Verif.BitMap.C21_range",
    "Verif.BitMap.C21_setRange",
    "Verif.BitMap.C21_roundTrip"
   ],
   "note": ""
  },
  {
   "property": "C22",
   "status": "partial",
   "theorems": [
    "Verif.BitSet.C22_one_rep",
    "Verif.BitSet.C22_one_eq",
    "Verif.BitSet.C22_one_wide",
    "Verif.BitSet.C22_one_test",
    "Verif.BitSet.C22_one_test_range",
    "Verif.BitSet.C22_one_any",
    "Verif.BitSet.C22_one_anyOf",
    "Verif.BitSet.C22_one_contains",
    "Verif.BitSet.C22_one_count",
    "Verif.BitSet.C22_one_first",
    "Verif.BitSet.C22_one_last",
    "Verif.BitSet.C22_one_position",
    "Verif.BitSet.C22_one_scalarProduct",
    "Verif.BitSet.C22_one_xor",
    "Verif.BitSet.C22_one_or",
    "Verif.BitSet.C22_one_and",
    "Verif.BitSet.C22_one_andnot",
    "Verif.BitSet.C22_one_shl",
    "Verif.BitSet.C22_one_shr",
    "Verif.BitSet.C22_one_set",
    "Verif.BitSet.C22_one_flip",
    "Verif.BitSet.C22_one_reset",
    "Verif.BitSet.C22_one_fill",
    "Verif.BitSet.C22_one_complement",
    "Verif.BitSet.C22_one_truncate",
    "Verif.BitSet.C22_one_slice",
    "Verif.BitSet.C22_one_unslice",
    "Verif.BitSet.C22_one_slice_unslice",
    "Verif.BitSet.C22_one_unslice_slice",
    "Verif.BitSet.C22_one_elements",
    "Verif.BitSet.C22_one_nth",
    "Verif.BitSet.C22_one_position_nth",
    "Verif.BitSet.C22_one_ofVec",
    "Verif.BitSet.C22_two_rep",
    "Verif.BitSet.C22_two_eq",
    "Verif.BitSet.C22_two_wide",
    "Verif.BitSet.C22_two_test",
    "Verif.BitSet.C22_two_any",
    "Verif.BitSet.C22_two_anyOf",
    "Verif.BitSet.C22_two_contains",
    "Verif.BitSet.C22_two_count",
    "Verif.BitSet.C22_two_first",
    "Verif.BitSet.C22_two_first_empty_false",
    "Verif.BitSet.C22_two_last",
    "Verif.BitSet.C22_two_position_partial",
    "Verif.BitSet.C22_two_position_high",
    "Verif.BitSet.C22_two_position_false",
    "Verif.BitSet.C22_two_scalarProduct",
    "Verif.BitSet.C22_two_xor",
    "Verif.BitSet.C22_two_or",
    "Verif.BitSet.C22_two_and",
    "Verif.BitSet.C22_two_andnot",
    "Verif.BitSet.C22_two_shl",
    "Verif.BitSet.C22_two_shr",
    "Verif.BitSet.C22_two_set",
    "Verif.BitSet.C22_two_flip",
    "Verif.BitSet.C22_two_reset",
    "Verif.BitSet.C22_two_fill_false",
    "Verif.BitSet.C22_two_fill_partial",
    "Verif.BitSet.C22_two_complement",
    "Verif.BitSet.C22_two_truncate",
    "Verif.BitSet.C22_two_slice",
    "Verif.BitSet.C22_two_unslice",
    "Verif.BitSet.C22_two_slice_unslice",
    "Verif.BitSet.C22_two_unslice_slice",
    "Verif.BitSet.C22_two_elements",
    "Verif.BitSet.C22_two_nth"
   ],
   "note": "Single-chunk sets (all ranks up to 32, the size the library uses) in full. For two chunks position and fill(limit) are wrong (C22_two_position_false, C22_two_fill_false, C22_two_first_empty_false; findings F9, F10), with partial theorems for the cases that work."
  },
  {
   "property": "C23",
   "status": "proved",
   "theorems": [
    "Verif.Hash.C23_make",
    "Verif.Hash.C23_find",
    "Verif.Hash.C23_match_old",
    "Verif.Hash.C23_match_new",
    "Verif.Hash.C23_history",
    "Verif.Hash.C23_stable",
    "Verif.Hash.C23_injective",
    "Verif.Hash.C23_last_false",
    "Verif.Hash.C23_last_reachable"
   ],
   "note": "Holds for histories in which the number of values stays below the absence code of the number type. The very last number is reported although it collides with the absence code (C23_last_false, finding F11)."
  },
  {
   "property": "C24",
   "status": "partial",
   "theorems": [
    "Verif.Tally.C24_multiplicity",
    "Verif.Tally.C24_sum",
    "Verif.Tally.C24_size",
    "Verif.Tally.C24_new_one",
    "Verif.Tally.C24_new_many_partial",
    "Verif.Tally.C24_new_many_false",
    "Verif.Tally.C24_advance",
    "Verif.Tally.C24_advance_zero_false",
    "Verif.Tally.C24_lower",
    "Verif.Tally.C24_derived"
   ],
   "note": "Multiplicities, sum, size, iteration and derived table exact for every history. The flag returned by tally(i,m) is wrong when an index passed over is first counted with a saturating multiplicity (C24_new_many_false, F12; C24_new_many_partial otherwise); counting zero times breaks advance (C24_advance_zero_false, F29)."
  },
  {
   "property": "C25",
   "status": "partial",
   "theorems": [
    "Verif.Size.C25_primes",
    "Verif.Size.C25_make",
    "Verif.Size.C25_make_message",
    "Verif.Size.C25_make_unrepresentable_false",
    "Verif.Size.C25_make_zero_false",
    "Verif.Size.C25_mul",
    "Verif.Size.C25_mul_overflow_false",
    "Verif.Size.C25_div",
    "Verif.Size.C25_eq",
    "Verif.Size.C25_twoShift",
    "Verif.Size.C25_piece",
    "Verif.Size.C25_toUlong",
    "Verif.Size.C25_factorial",
    "Verif.Size.C25_factorial_false",
    "Verif.Size.C25_weylSize"
   ],
   "note": "Exact arithmetic, with every exponent in range. Unrepresentable arguments, 0 and exponent overflow are not handled by the code: refuted by C25_make_unrepresentable_false, C25_make_zero_false, C25_mul_overflow_false, C25_factorial_false (F30, F31)."
  },
  {
   "property": "C26",
   "status": "proved",
   "theorems": [
    "Verif.Mat.C26_conjugate",
    "Verif.Mat.C26_invConjugate",
    "Verif.Mat.C26_conjugate_inv",
    "Verif.Mat.C26_pullBackColumns",
    "Verif.Perm.C26_identity",
    "Verif.Perm.C26_inverse",
    "Verif.Perm.C26_compose",
    "Verif.Perm.C26_compose_mul",
    "Verif.Perm.C26_inverse_group",
    "Verif.Perm.C26_pullBack",
    "Verif.Perm.C26_permute",
    "Verif.Perm.C26_permute_pullBack",
    "Verif.Perm.C26_permute_inverse",
    "Verif.Perm.C26_permute_mul",
    "Verif.Perm.C26_renumbering",
    "Verif.Perm.C26_renumber",
    "Verif.Perm.C26_renumberSet",
    "Verif.Perm.C26_isIdentity",
    "Verif.Perm.C26_sign",
    "Verif.Perm.C26_isNegative",
    "Verif.Perm.C26_fixedPoints",
    "Verif.Perm.C26_standardize",
    "Verif.Perm.C26_standardize_sorts",
    "Verif.Perm.C26_standardizeBy",
    "Verif.Perm.C26_pullBits",
    "Verif.Perm.C26_permuteBits"
   ],
   "note": "All permutation operations, on vectors, bit sets, numbers and matrices."
  },
  {
   "property": "C27",
   "status": "proved",
   "theorems": [
    "Verif.Part.C27_iterator_any",
    "Verif.Part.C27_iterator",
    "Verif.Part.C27_iterator_complete",
    "Verif.Part.C27_orbits",
    "Verif.Part.C27_make",
    "Verif.Part.C27_unnormalized",
    "Verif.Part.C27_classSize",
    "Verif.Part.C27_classSizes"
   ],
   "note": ""
  },
  {
   "property": "C28",
   "status": "partial",
   "theorems": [
    "Verif.Poly.C28_equal",
    "Verif.Poly.C28_degree",
    "Verif.Poly.C28_construct",
    "Verif.Poly.C28_addAssign",
    "Verif.Poly.C28_subAssign",
    "Verif.Poly.C28_subtractFrom",
    "Verif.Poly.C28_scale",
    "Verif.Poly.C28_mul",
    "Verif.Poly.C28_add_sub_neg",
    "Verif.Poly.C28_canonical_zeroDivisors_false",
    "Verif.Poly.C28_upRemainder",
    "Verif.Poly.C28_upRemainder_unique",
    "Verif.Poly.C28_factorK",
    "Verif.Poly.C28_factor1",
    "Verif.Poly.C28_multiTerm",
    "Verif.Poly.C28_factorK_large_false",
    "Verif.Poly.C28_compare",
    "Verif.Poly.C28_compare_order",
    "Verif.Poly.C28_divAssign",
    "Verif.Poly.C28_divAssign_throw_false",
    "Verif.Poly.C28_safeAdd",
    "Verif.Poly.C28_safeAdd1",
    "Verif.Poly.C28_safeAdd_throw_false",
    "Verif.Poly.C28_safeSubtract",
    "Verif.Poly.C28_safeSubtract_checked",
    "Verif.Poly.C28_safeSubtract1",
    "Verif.Poly.C28_safeDivide",
    "Verif.Poly.C28_safeQuotient"
   ],
   "note": "All operations of Polynomial and Safe_Poly except printing, hashing and type conversion. Exact arithmetic and canonical form are proved over every commutative ring, canonical form of products only without zero divisors (false otherwise, C28_canonical_zeroDivisors_false); signed overflow of coefficients is outside the model. Overflow-checked addition is exact or throws, also for aliased arguments."
  },
  {
   "property": "C29",
   "status": "proved",
   "theorems": [
    "Verif.Free.C29_lookup",
    "Verif.Free.C29_terms",
    "Verif.Free.C29_zero",
    "Verif.Free.C29_mono",
    "Verif.Free.C29_ofVec",
    "Verif.Free.C29_addTerm",
    "Verif.Free.C29_clearCoef",
    "Verif.Free.C29_setCoef",
    "Verif.Free.C29_addMultiple",
    "Verif.Free.C29_mapCoef",
    "Verif.Free.C29_scale",
    "Verif.Free.C29_addMultipleSelf",
    "Verif.Free.C29_isZero",
    "Verif.Free.C29_addAssign",
    "Verif.Free.C29_subAssign",
    "Verif.Free.C29_self",
    "Verif.Free.C29_flatten",
    "Verif.Free.C29_equal",
    "Verif.Free.C29_countTerms",
    "Verif.Free.C29_history",
    "Verif.Free.C29_history_total",
    "Verif.Free.C29_compare_false",
    "Verif.Free.C29_duplicates_false"
   ],
   "note": "Free_Abelian_light over any linearly ordered exponents and commutative ring: blocks, insert with fusion, find, iterators with their stack of triples, add_term, add_multiple (also with itself), scalar operations, flatten, comparison. Histories are an inductive predicate with the group of functions as specification. Requires operator< and Compare to agree (F37). Reverse iteration and the map based Free_Abelian are not modelled."
  },
  {
   "property": "C30",
   "status": "proved",
   "theorems": [
    "Verif.Poset.C30_order",
    "Verif.Poset.C30_make",
    "Verif.Poset.C30_ofHasse",
    "Verif.Poset.C30_extend",
    "Verif.Poset.C30_sorted_links",
    "Verif.Poset.C30_ofLinks",
    "Verif.Poset.C30_newMax",
    "Verif.Poset.C30_resize",
    "Verif.Poset.C30_above",
    "Verif.Poset.C30_below",
    "Verif.Poset.C30_maxima",
    "Verif.Poset.C30_minima",
    "Verif.Poset.C30_coveredBy",
    "Verif.Poset.C30_coversOf",
    "Verif.Poset.C30_hasse",
    "Verif.Poset.C30_covers_generate",
    "Verif.Poset.C30_hasse_roundTrip",
    "Verif.Poset.C30_hasseMax",
    "Verif.Poset.C30_nComparable",
    "Verif.Poset.C30_equal",
    "Verif.Poset.C30_dual",
    "Verif.Poset.C30_dual_empty_false",
    "Verif.Poset.C30_nComparableFromHasse",
    "Verif.Poset.C30_nComparable_agree"
   ],
   "note": "Poset: constructors (Hasse lists, sorted links), extension, accessors, Hasse diagrams, duals and both counting functions; the dual of the empty poset is undefined (F19)"
  },
  {
   "property": "C31",
   "status": "proved",
   "theorems": [
    "Verif.Pre.C31_closure",
    "Verif.Pre.C31_make",
    "Verif.Pre.C31_cliques",
    "Verif.Pre.C31_reversed",
    "Verif.Pre.C31_reversed_closed_partial",
    "Verif.Pre.C31_reversed_closed_false"
   ],
   "note": "closure, cliques and reversal before closure proved; reversal after closure is wrong when there are cycles (F16): negation proved, partial theorem for relations without cycles"
  },
  {
   "property": "C32",
   "status": "proved",
   "theorems": [
    "Verif.Graph.C32_cells",
    "Verif.Graph.C32_cells_order",
    "Verif.Graph.C32_reverseEdges",
    "Verif.Graph.C32_reverseEdges_twice",
    "Verif.Graph.C32_reverseNumbering"
   ],
   "note": "cells, the induced graph, reverseEdges and reverseNumbering; the unused to_unoriented_components is not modelled"
  },
  {
   "property": "C33",
   "status": "proved",
   "theorems": [
    "Verif.F2.C33_dot",
    "Verif.F2.C33_vector",
    "Verif.F2.C33_slice",
    "Verif.F2.C33_unslice",
    "Verif.F2.C33_mulVec",
    "Verif.F2.C33_rightAct",
    "Verif.F2.C33_mulAssign",
    "Verif.F2.C33_addAssign",
    "Verif.F2.C33_transpose",
    "Verif.F2.C33_ofColumns",
    "Verif.F2.C33_gaussJordan",
    "Verif.F2.C33_gaussJordan_canonical",
    "Verif.F2.C33_gaussJordan_iff",
    "Verif.F2.C33_image",
    "Verif.F2.C33_row",
    "Verif.F2.C33_kernel",
    "Verif.F2.C33_section",
    "Verif.F2.C33_combination",
    "Verif.F2.C33_combinationExists",
    "Verif.F2.C33_solvable"
   ],
   "note": "Model of bitvector.h/.cpp: Gauss-Jordan gives the unique reduced echelon basis of the span; image, kernel, combination_exists, solvable, section and the vector and matrix operations agree with linear algebra over Z/2."
  },
  {
   "property": "C34",
   "status": "proved",
   "theorems": [
    "Verif.F2.C34_ofVectors",
    "Verif.F2.C34_ofVectors_size",
    "Verif.F2.C34_ofMatrix",
    "Verif.F2.C34_zero",
    "Verif.F2.C34_unique",
    "Verif.F2.C34_dimension",
    "Verif.F2.C34_basis_bound_false",
    "Verif.F2.C34_representative",
    "Verif.F2.C34_contains",
    "Verif.F2.C34_containsAll",
    "Verif.F2.C34_toBasis",
    "Verif.F2.C34_toBasis_outside",
    "Verif.F2.C34_fromBasis",
    "Verif.F2.C34_apply",
    "Verif.F2.C34_basisPerp",
    "Verif.F2.C34_subquotient",
    "Verif.F2.C34_subquotient_dimension",
    "Verif.F2.C34_subquotient_toBasis",
    "Verif.F2.C34_subquotient_fromBasis",
    "Verif.F2.C34_subquotient_basis",
    "Verif.F2.C34_subquotient_apply",
    "Verif.F2.C34_subquotientMap"
   ],
   "note": "Subspace and Subquotient modelled completely (accessors, constructors, apply, basis_perp, subquotientMap); finding: basis(j) asserts against the rank"
  },
  {
   "property": "C35",
   "status": "partial",
   "theorems": [
    "Verif.F2.C35_repaired_solves",
    "Verif.F2.C35_add_returns",
    "Verif.F2.C35_extend",
    "Verif.F2.C35_consistent_false",
    "Verif.F2.C35_code_partial",
    "Verif.F2.C35_unsolvable_partial"
   ],
   "note": "False of the code as it stands (F18): C35_consistent_false. What holds of the code is C35_code_partial and C35_unsolvable_partial; with the single faulty test replaced, C35_repaired_solves is the full property."
  },
  {
   "property": "C36",
   "status": "proved",
   "theorems": [
    "Verif.Mat.C36_hasSolution",
    "Verif.Mat.C36_findSolution",
    "Verif.Mat.C36_findSolution_throw",
    "Verif.Mat.C36_gcd",
    "Verif.Mat.C36_gcd_value",
    "Verif.Mat.C36_columnEchelon",
    "Verif.Mat.C36_columnEchelon_span",
    "Verif.Mat.C36_echelonSolve",
    "Verif.Mat.C36_echelonSolve_throw",
    "Verif.Mat.C36_inverse",
    "Verif.Mat.C36_inverse_singular",
    "Verif.Mat.C36_inverseExact",
    "Verif.Mat.C36_inverseExact_throw",
    "Verif.Mat.C36_onBasis",
    "Verif.Mat.C36_onBasis_singular"
   ],
   "note": "gcd, column_echelon, echelon_solve, inverse, on_basis, has_solution and find_solution, over unbounded integers"
  },
  {
   "property": "C37",
   "status": "partial",
   "theorems": [
    "Verif.Mat.C37_diagonalise_partial",
    "Verif.Mat.C37_diagonalise_false",
    "Verif.Mat.C37_diagonalise_corrected",
    "Verif.Mat.C37_adaptedBasis",
    "Verif.Mat.C37_adaptedBasis_span",
    "Verif.Mat.C37_smithBasis",
    "Verif.Mat.C37_smithBasis_span"
   ],
   "note": "diagonalise, adapted_basis and Smith_basis proved for all matrices; the claim that the row matrix of diagonalise has determinant 1 is false of the code (C37_diagonalise_false) and proved for the corrected line (C37_diagonalise_corrected). Smith_basis: divisibility needs the exponent of the torsion to be below 2^64"
  },
  {
   "property": "C38",
   "status": "proved",
   "theorems": [
    "Verif.Ab.C38_make",
    "Verif.Ab.C38_numbering",
    "Verif.Ab.C38_toArray",
    "Verif.Ab.C38_toNbr",
    "Verif.Ab.C38_ofWeight",
    "Verif.Ab.C38_toWeight",
    "Verif.Ab.C38_addArray",
    "Verif.Ab.C38_subtract",
    "Verif.Ab.C38_addMixed",
    "Verif.Ab.C38_add",
    "Verif.Ab.C38_prod",
    "Verif.Ab.C38_order",
    "Verif.Ab.C38_annihilator",
    "Verif.Ab.C38_pairing",
    "Verif.Ab.C38_pairingTorsion",
    "Verif.Ab.C38_coset",
    "Verif.Ab.C38_orderModulo",
    "Verif.Ab.C38_generateSubgroup",
    "Verif.Ab.C38_quotReps",
    "Verif.Ab.C38_cycGenerators",
    "Verif.Ab.C38_cycGenerators_again",
    "Verif.Ab.C38_cycGenerators_false",
    "Verif.Ab.C38_isElementaryAbelian",
    "Verif.Ab.C38_leftApply",
    "Verif.Ab.C38_leftApply_add",
    "Verif.Ab.C38_toEndomorphism",
    "Verif.Ab.C38_transpose",
    "Verif.Ab.C38_hom_make",
    "Verif.Ab.C38_hom_apply",
    "Verif.Ab.C38_hom_apply_fail",
    "Verif.Ab.C38_hom_applyNbr_false",
    "Verif.Ab.C38_hom_entries_false",
    "Verif.Ab.C38_basis"
   ],
   "note": "C38_*: conversions, arithmetic, orders, pairing, subgroups, cosets, representatives, cyclic generators, endomorphisms, homomorphisms, bases. C38_cycGenerators_false, C38_hom_applyNbr_false and C38_hom_entries_false record where the code differs from its documentation (F42, F17, F43)."
  },
  {
   "property": "C39",
   "status": "proved",
   "theorems": [
    "Verif.RatVec.C39_zero",
    "Verif.RatVec.C39_make",
    "Verif.RatVec.C39_makeQ",
    "Verif.RatVec.C39_normalize",
    "Verif.RatVec.C39_normalize_throws",
    "Verif.RatVec.C39_canonical",
    "Verif.RatVec.C39_isZero",
    "Verif.RatVec.C39_eq",
    "Verif.RatVec.C39_lt",
    "Verif.RatVec.C39_add",
    "Verif.RatVec.C39_sub",
    "Verif.RatVec.C39_negateAdd",
    "Verif.RatVec.C39_neg",
    "Verif.RatVec.C39_mulInt",
    "Verif.RatVec.C39_divInt",
    "Verif.RatVec.C39_modInt",
    "Verif.RatVec.C39_mulAssignQ",
    "Verif.RatVec.C39_mulQ",
    "Verif.RatVec.C39_divAssignQ",
    "Verif.RatVec.C39_divQ",
    "Verif.RatVec.C39_addVec",
    "Verif.RatVec.C39_subVec",
    "Verif.RatVec.C39_subtractFrom",
    "Verif.RatVec.C39_dot",
    "Verif.RatVec.C39_dotQ",
    "Verif.RatVec.C39_integerDiff",
    "Verif.RatVec.C39_mulMat",
    "Verif.RatVec.C39_vecMulMat",
    "Verif.RatVec.C39_symmetrise",
    "Verif.RatVec.C39_symmetriseDual",
    "Verif.RatVec.C39_div_zero_unchecked"
   ],
   "note": "All of ratvec.h and ratvec.cpp, with 64-bit overflow modelled; bounds are stated in the theorems."
  },
  {
   "property": "C40",
   "status": "proved",
   "theorems": [
    "Verif.Weyl.C40_weylGroup",
    "Verif.Weyl.C40_order"
   ],
   "note": "C40_weylGroup: for every Cartan matrix with components as in Bourbaki (IsDynkin) of rank at most 32, the constructor succeeds and the structure Implements holds for any Coxeter system of the matrix; C40_order gives the order as product over components. The components are taken as the result of the Dynkin classification; the final sort in conjugacy_class is not modelled."
  },
  {
   "property": "C41",
   "status": "proved",
   "theorems": [
    "Verif.Weyl.C41_numbering"
   ],
   "note": "C41_numbering: to_big_int is a bijection onto [0,order) and to_WeylElt its inverse, for all groups of C40."
  },
  {
   "property": "C42",
   "status": "partial",
   "theorems": [
    "Verif.BitMap.C42_backUp_partial",
    "Verif.BitMap.C42_last_partial",
    "Verif.BitMap.C42_backUp_false",
    "Verif.BitMap.C42_shl_partial",
    "Verif.BitMap.C42_shl_false",
    "Verif.BitMap.C42_shr_partial",
    "Verif.BitMap.C42_shr_false"
   ],
   "note": "False of the code as written: left shifts leave members beyond the capacity and right shifts move the last word the wrong way (finding F8: C42_shl_false, C42_shr_false), back_up computes with 32 bits (finding F26: C42_backUp_false). The _partial theorems give the conditions under which it holds."
  },
  {
   "property": "C43",
   "status": "partial",
   "theorems": [
    "Verif.Hash.C43_overflow_partial",
    "Verif.Hash.C43_rehash_false",
    "Verif.Hash.C43_push_false"
   ],
   "note": "False of the code as written (finding F27): C43_rehash_false, C43_push_false give reachable tables damaged by a failing allocation. C43_overflow_partial: the explicit overflow exception leaves the table intact."
  },
  {
   "property": "C44",
   "status": "partial",
   "theorems": [
    "Verif.Tally.C44_bytes",
    "Verif.Tally.C44_bytes_false",
    "Verif.Tally.C44_length",
    "Verif.Tally.C44_dump",
    "Verif.Tally.C44_sum_false",
    "Verif.Tally.C44_resume"
   ],
   "note": "Proved for left-to-right evaluation of + and for multiplicities and size; recovered tables lose the sum (C44_sum_false, F12); with right-to-left evaluation bytes come in the wrong order (C44_bytes_false, F28)."
  },
  {
   "property": "C45",
   "status": "partial",
   "theorems": [
    "Verif.Mat.C45_get",
    "Verif.Mat.C45_set",
    "Verif.Mat.C45_equal",
    "Verif.Mat.C45_equal_dim",
    "Verif.Mat.C45_isZero",
    "Verif.Mat.C45_identity",
    "Verif.Mat.C45_zero",
    "Verif.Mat.C45_rowMatrix",
    "Verif.Mat.C45_columnMatrix",
    "Verif.Mat.C45_ofColumns",
    "Verif.Mat.C45_row",
    "Verif.Mat.C45_column",
    "Verif.Mat.C45_rows",
    "Verif.Mat.C45_columns",
    "Verif.Mat.C45_setRow",
    "Verif.Mat.C45_setColumn",
    "Verif.Mat.C45_addRow",
    "Verif.Mat.C45_addColumn",
    "Verif.Mat.C45_eraseRow",
    "Verif.Mat.C45_eraseColumn",
    "Verif.Mat.C45_add",
    "Verif.Mat.C45_sub",
    "Verif.Mat.C45_scale",
    "Verif.Mat.C45_negate",
    "Verif.Mat.C45_addScalar",
    "Verif.Mat.C45_subScalar",
    "Verif.Mat.C45_scalarSub",
    "Verif.Mat.C45_mul",
    "Verif.Mat.C45_mul_assert",
    "Verif.Mat.C45_apply",
    "Verif.Mat.C45_rightProd",
    "Verif.Mat.C45_dot",
    "Verif.Mat.C45_vecAdd",
    "Verif.Mat.C45_vecSub",
    "Verif.Mat.C45_vecNegAdd",
    "Verif.Mat.C45_vecScale",
    "Verif.Mat.C45_vecNeg",
    "Verif.Mat.C45_vecAddMul",
    "Verif.Mat.C45_vecSubMul",
    "Verif.Mat.C45_transposed",
    "Verif.Mat.C45_transpose",
    "Verif.Mat.C45_negTransposed",
    "Verif.Mat.C45_block",
    "Verif.Mat.C45_transposedBlock",
    "Verif.Mat.C45_getBlock",
    "Verif.Mat.C45_setBlock",
    "Verif.Mat.C45_rowOp",
    "Verif.Mat.C45_colOp",
    "Verif.Mat.C45_rowMul",
    "Verif.Mat.C45_colMul",
    "Verif.Mat.C45_swapRows",
    "Verif.Mat.C45_swapCols",
    "Verif.Mat.C45_rowApply",
    "Verif.Mat.C45_columnApply",
    "Verif.Mat.C45_inverseUpper",
    "Verif.Mat.C45_inverseLower",
    "Verif.Mat.C45_inverse_throw",
    "Verif.Mat.C45_inverse_notSquare",
    "Verif.Mat.C45_standardBasis",
    "Verif.Mat.C45_vecDivExact",
    "Verif.Mat.C45_divScalar",
    "Verif.Mat.C45_divisible",
    "Verif.Mat.C45_vecDivide_partial",
    "Verif.Mat.C45_vecDivide_negative_false",
    "Verif.Mat.C45_vecMod"
   ],
   "note": "Everything except division with rounding by a negative number, where the code rounds up (finding F14: C45_vecDivide_negative_false; C45_vecDivide_partial for positive divisors). Integer entries are unbounded in the model, so overflow is outside it."
  },
  {
   "property": "C46",
   "status": "proved",
   "theorems": [
    "Verif.Mat.C46_baseChange",
    "Verif.Mat.C46_baseChange_throw",
    "Verif.Mat.C46_inverseBaseChange",
    "Verif.Mat.C46_perp",
    "Verif.Mat.C46_kernel",
    "Verif.Mat.C46_eigenLattice",
    "Verif.Mat.C46_rowSaturate"
   ],
   "note": "baseChange, inverseBaseChange, perp, kernel, eigen_lattice, row_saturate, over unbounded integers"
  },
  {
   "property": "C47",
   "status": "proved",
   "theorems": [
    "Verif.Weyl.C47_twisted",
    "Verif.Weyl.C47_involutionLength"
   ],
   "note": "Class TwistedWeylGroup, without the methods that need a root system (simple_images, involution_matrix)."
  },
  {
   "property": "C48",
   "status": "proved",
   "theorems": [
    "Verif.Root.C48_make",
    "Verif.Root.C48_dual",
    "Verif.Root.C48_built",
    "Verif.Root.C48_fits"
   ],
   "note": "RootSystem constructors and accessors; roots are defined from the Cartan matrix in Verif/Root/Spec.lean"
  },
  {
   "property": "C49",
   "status": "proved",
   "theorems": [
    "Verif.Root.C49_exists",
    "Verif.Root.C49_simpleBasis",
    "Verif.Root.C49_posSimples",
    "Verif.Root.C49_basis"
   ],
   "note": "for every object obtained from the constructors, in the numbering given by its accessors"
  },
  {
   "property": "C50",
   "status": "proved",
   "theorems": [
    "Verif.Root.C50_permuted",
    "Verif.Root.C50_reflectionWord",
    "Verif.Root.C50_conjugate",
    "Verif.Root.C50_image",
    "Verif.Root.C50_posToNeg"
   ],
   "note": "for every object obtained from the constructors, in the numbering given by its accessors"
  },
  {
   "property": "C51",
   "status": "proved",
   "theorems": [
    "Verif.Root.C51_extend",
    "Verif.Root.C51_twist"
   ],
   "note": "for every object obtained from the constructors, in the numbering given by its accessors"
  },
  {
   "property": "C52",
   "status": "proved",
   "theorems": [
    "Verif.Root.C52_components",
    "Verif.Root.C52_isLongRoot",
    "Verif.Root.C52_isLongCoroot"
   ],
   "note": "for every object obtained from the constructors, in the numbering given by its accessors"
  },
  {
   "property": "C53",
   "status": "partial",
   "theorems": [
    "Verif.Root.C53_add_partial",
    "Verif.Root.C53_add_false"
   ],
   "note": "the code returns the number of the negative of the sum; that is what is proved"
  },
  {
   "property": "C54",
   "status": "proved",
   "theorems": [
    "Verif.Root.C54_additiveClosure"
   ],
   "note": "for every object obtained from the constructors, in the numbering given by its accessors"
  },
  {
   "property": "C55",
   "status": "partial",
   "theorems": [
    "Verif.Root.C55_longOrthogonalize_partial",
    "Verif.Root.C55_maxOrth",
    "Verif.Root.C55_longOrthogonalize_false"
   ],
   "note": "long_orthogonalize fails for sets with roots of both signs; proved for positive roots, which is the case needed by max_orth"
  },
  {
   "property": "C56",
   "status": "partial",
   "theorems": [
    "Verif.SL.C56_inspect",
    "Verif.SL.C56_construct",
    "Verif.SL.C56_assign",
    "Verif.SL.C56_swap",
    "Verif.SL.C56_insert",
    "Verif.SL.C56_insertRange_partial",
    "Verif.SL.C56_insertRange_false",
    "Verif.SL.C56_erase",
    "Verif.SL.C56_resize",
    "Verif.SL.C56_splice",
    "Verif.SL.C56_spliceSame",
    "Verif.SL.C56_reverse",
    "Verif.SL.C56_remove",
    "Verif.SL.C56_removeValue_partial",
    "Verif.SL.C56_removeValue_false"
   ],
   "note": "All functions of simple_list are proved for all states. The code violates the property in two cases, proved as C56_insertRange_false (insert of an empty range not at the end returns a dangling iterator) and C56_removeValue_false (remove with an element of the list as argument); the _partial theorems cover everything else."
  },
  {
   "property": "C57",
   "status": "partial",
   "theorems": [
    "Verif.SL.C57_inspect",
    "Verif.SL.C57_construct",
    "Verif.SL.C57_dress",
    "Verif.SL.C57_assign",
    "Verif.SL.C57_assignMove_partial",
    "Verif.SL.C57_swap",
    "Verif.SL.C57_insert",
    "Verif.SL.C57_append",
    "Verif.SL.C57_insertRange_partial",
    "Verif.SL.C57_erase",
    "Verif.SL.C57_resize",
    "Verif.SL.C57_splice",
    "Verif.SL.C57_spliceSame_partial",
    "Verif.SL.C57_reverse",
    "Verif.SL.C57_remove",
    "Verif.SL.C57_removeValue_partial",
    "Verif.SL.C57_assignMove_false",
    "Verif.SL.C57_moveCtorAlloc_false",
    "Verif.SL.C57_spliceSame_false",
    "Verif.SL.C57_removeValue_false",
    "Verif.SL.C57_insertRange_false"
   ],
   "note": "All functions of sl_list are proved for all states. The code violates the property for move self-assignment, the move constructor with an equal allocator, splicing the end of a list before its own end, insert of an empty range and remove with an element of the list as argument; each has a theorem with suffix _false, and the _partial theorems cover everything else."
  },
  {
   "property": "C58",
   "status": "proved",
   "theorems": [
    "Verif.SL.C58_merge",
    "Verif.SL.C58_mergeRanges",
    "Verif.SL.C58_sort"
   ],
   "note": "Both classes, whole lists and ranges, with stability; merging ranges of which the first begins where the second ends exchanges their roles, as stated."
  },
  {
   "property": "C59",
   "status": "proved",
   "theorems": [
    "Verif.SL.C59_history"
   ],
   "note": "26 kinds of calls, on any number of lists of both classes."
  },
  {
   "property": "C60",
   "status": "proved",
   "theorems": [
    "Verif.KL.C60_determined",
    "Verif.KL.C60_fill",
    "Verif.KL.C60_undef",
    "Verif.KL.C60_history"
   ],
   "note": "fill and KL_pol for every block, with uniqueness of the polynomials; integrality with natural coefficients and the vanishing lemma of the cited paper are hypotheses on the block (Ctx), met by the block of SL(3,R)"
  },
  {
   "property": "C61",
   "status": "partial",
   "theorems": [
    "Verif.KL.C61_mu_column",
    "Verif.KL.C61_mu_partial",
    "Verif.KL.C61_mu_self_false",
    "Verif.KL.C61_mu_above"
   ],
   "note": "mu_column in full, mu(x,y) for x different from y; mu(y,y) is 1 instead of 0 (F55), shown by C61_mu_self_false"
  },
  {
   "property": "C62",
   "status": "proved",
   "theorems": [
    "Verif.KL.C62_wgraph",
    "Verif.KL.C62_symmetric",
    "Verif.KL.C62_action"
   ],
   "note": "coefficients are reduced modulo 2^16 as in the program (F56)"
  },
  {
   "property": "C63",
   "status": "proved",
   "theorems": [
    "Verif.KL.C63_cells",
    "Verif.KL.C63_decomposed"
   ],
   "note": "cells and DecomposedWGraph; W-graphs as the constructors make them"
  },
  {
   "property": "C64",
   "status": "proved",
   "theorems": [
    "Verif.KL.C64_KL_pol",
    "Verif.KL.C64_mu_column",
    "Verif.KL.C64_mu",
    "Verif.KL.C64_swallow",
    "Verif.KL.C64_fill",
    "Verif.KL.C64_history"
   ],
   "note": "Swallow.lean, SwallowProps.lean. The pool of polynomials and the translation of its indices are not part of this model: a table holds the polynomials themselves."
  },
  {
   "property": "C65",
   "status": "proved",
   "theorems": [
    "Verif.Dynkin.C65_is_Cartan_matrix",
    "Verif.Dynkin.C65_Cartan_matrix_type",
    "Verif.Dynkin.C65_Lie_type_entry",
    "Verif.Dynkin.C65_diagram_entry",
    "Verif.Dynkin.C65_components",
    "Verif.Dynkin.C65_square_false",
    "Verif.Dynkin.C65_size_false"
   ],
   "note": "for matrices of size at most 32, square for is_Cartan_matrix; the two conditions are needed (C65_square_false, C65_size_false)"
  },
  {
   "property": "C66",
   "status": "proved",
   "theorems": [
    "Verif.Tits.C66_titsGroup",
    "Verif.Tits.C66_adjoint"
   ],
   "note": "every function of TitsGroup and TitsElt except those of the class for strong involutions"
  },
  {
   "property": "C67",
   "status": "proved",
   "theorems": [
    "Verif.Tits.C67_titsCoset",
    "Verif.Tits.C67_adjoint",
    "Verif.Tits.C67_fiberDenom",
    "Verif.Tits.C67_isValid_static_false"
   ],
   "note": "TitsCoset over the Tits groups of C66; C67_titsCoset for any root datum and invariant base grading, C67_adjoint for the adjoint constructors, C67_fiberDenom for the reduction subspace, C67_isValid_static_false for the static local in is_valid (F58). grading and simple_imaginary_grading for nonsimple roots are not modelled."
  },
  {
   "property": "C68",
   "status": "proved",
   "theorems": [
    "Verif.KGB.C68_rootDatum",
    "Verif.KGB.C68_kgb"
   ],
   "note": "the predicted size and the involution table are hypotheses, discharged for root data by C68_rootDatum (all twisted involutions in one orbit)"
  },
  {
   "property": "C69",
   "status": "proved",
   "theorems": [
    "Verif.Datum.C69_make",
    "Verif.Datum.C69_exists",
    "Verif.Datum.C69_datum",
    "Verif.Datum.C69_dual"
   ],
   "note": "constructor, dual and all accessors of RootDatum for every root datum of finite type"
  },
  {
   "property": "C70",
   "status": "partial",
   "theorems": [
    "Verif.Datum.C70_dominance",
    "Verif.Datum.C70_reflectionWord",
    "Verif.Datum.C70_dominanceG_partial",
    "Verif.Datum.C70_dominanceSub_partial",
    "Verif.Datum.C70_makeDominantG_false",
    "Verif.Datum.C70_makeCodominantG_false"
   ],
   "note": "all functions proved, except make_dominant and make_codominant with a list of generators, for which the property is false (C70_makeDominantG_false, finding F59)"
  },
  {
   "property": "C71",
   "status": "partial",
   "theorems": [
    "Verif.Datum.C71_orbit",
    "Verif.Datum.C71_coorbit",
    "Verif.Datum.C71_elements",
    "Verif.Datum.C71_coelements",
    "Verif.Datum.C71_orbitG_partial",
    "Verif.Datum.C71_coorbitG_partial",
    "Verif.Datum.C71_elementsG",
    "Verif.Datum.C71_coelementsG",
    "Verif.Datum.C71_orbitG_false"
   ],
   "note": "Proved in full for weights and coweights under the whole Weyl group, and for lists of Weyl group elements, also with generators. Weyl_orbit with generators does not have the property because make_dominant ignores the generators (C71_orbitG_false, F59); the _partial theorems cover the weights that are already dominant."
  },
  {
   "property": "C72",
   "status": "partial",
   "theorems": [
    "Verif.Inv.C72_made",
    "Verif.Inv.C72_describes",
    "Verif.Inv.C72_stable",
    "Verif.Inv.C72_simple",
    "Verif.Inv.C72_descent",
    "Verif.Inv.C72_lambdaUnique",
    "Verif.Inv.C72_yPack",
    "Verif.Inv.C72_yAct",
    "Verif.Inv.C72_totalSize_partial",
    "Verif.Inv.C72_totalSize_fails",
    "Verif.Inv.C72_input",
    "Verif.Inv.C72_kgb",
    "Verif.Inv.C72_totalSize_false"
   ],
   "note": "All of the property is proved for all histories of additions, except the last sentence: total_size ignores its argument (F60, C72_totalSize_false); C72_totalSize_partial says what it gives. The canonical involutions of the classes are a hypothesis (IsClasses), which is discharged by C74_isClasses; their orbit sizes remain a hypothesis."
  },
  {
   "property": "C73",
   "status": "proved",
   "theorems": [
    "Verif.Canon.C73_unique",
    "Verif.Canon.C73_canonicalize",
    "Verif.Canon.C73_fixed",
    "Verif.Canon.C73_iff",
    "Verif.Canon.C73_all",
    "Verif.Canon.C73_classNumber"
   ],
   "note": "the list of canonical involutions that class_number searches is an argument"
  },
  {
   "property": "C74",
   "status": "partial",
   "theorems": [
    "Verif.Canon.C74_many",
    "Verif.Canon.C74_generate_partial",
    "Verif.Canon.C74_generate_false",
    "Verif.Canon.C74_checkLast",
    "Verif.Canon.C74_classNumber",
    "Verif.Canon.C74_isClasses"
   ],
   "note": "All of the property is proved for inner classes with at most 65535 Cartan classes (C74_generate_partial, C74_checkLast, C74_classNumber). With more the construction does not end: F61, C74_generate_false, C74_many."
  },
  {
   "property": "C75",
   "status": "partial",
   "theorems": [
    "Verif.Axis.C75_make",
    "Verif.Axis.C75_unify",
    "Verif.Axis.C75_unify_partial",
    "Verif.Axis.C75_unify_false",
    "Verif.Axis.C75_number",
    "Verif.Axis.C75_substitution",
    "Verif.Axis.C75_mgu",
    "Verif.Axis.C75_restore"
   ],
   "note": "Termination, soundness, generality and restoration proved for all types without tabled types; that failure means the types cannot be unified is proved when the assignable variables of the second type are new and occur once, and is false in general (C75_unify_false, F62). Tabled types are not modelled."
  },
  {
   "property": "C76",
   "status": "proved",
   "theorems": [
    "Verif.Axis.C76_eq",
    "Verif.Axis.C76_specialise",
    "Verif.Axis.C76_canSpecialise",
    "Verif.Axis.C76_symmetric",
    "Verif.Axis.C76_order"
   ],
   "note": "Types without tabled types, as the statement says."
  },
  {
   "property": "C77",
   "status": "partial",
   "theorems": [
    "Verif.Axis.C77_isClose",
    "Verif.Axis.C77_close",
    "Verif.Axis.C77_close_false",
    "Verif.Axis.C77_transitive_false",
    "Verif.Axis.C77_std",
    "Verif.Axis.C77_entry",
    "Verif.Axis.C77_throw",
    "Verif.Axis.C77_add_partial",
    "Verif.Axis.C77_remove",
    "Verif.Axis.C77_reach_partial",
    "Verif.Axis.C77_inexact",
    "Verif.Axis.C77_conflict_false",
    "Verif.Axis.C77_order_false",
    "Verif.Axis.C77_remove_false"
   ],
   "note": "Closeness, lookup after addition, soundness of refusal, removal and the choice of an inexact match are proved; order and absence of conflicts for all histories are proved when the types used are consistent, and are false in general with the coercions of the program (C77_conflict_false, C77_order_false, C77_remove_false; F63-F66). Tabled types are not modelled."
  },
  {
   "property": "C78",
   "status": "proved",
   "theorems": [
    "Verif.Axis.C78_accepts",
    "Verif.Axis.C78_order",
    "Verif.Axis.C78_std",
    "Verif.Axis.C78_order_false",
    "Verif.Axis.C78_join",
    "Verif.Axis.C78_balance",
    "Verif.Axis.C78_open",
    "Verif.Axis.C78_error",
    "Verif.Axis.C78_wrap",
    "Verif.Axis.C78_permute",
    "Verif.Axis.C78_void",
    "Verif.Axis.C78_balance_false"
   ],
   "note": "acceptance, joining and balancing of complete monomorphic types; conversion of expressions and polymorphic types not modelled; non-transitivity for incomplete types and failure although another type accepts all are proved as separate negative theorems"
  },
  {
   "property": "C79",
   "status": "partial",
   "theorems": [
    "Verif.Axis.C79_decides",
    "Verif.Axis.C79_reflexive",
    "Verif.Axis.C79_symmetric",
    "Verif.Axis.C79_equivalence_partial",
    "Verif.Axis.C79_simple",
    "Verif.Axis.C79_group_partial",
    "Verif.Axis.C79_merge",
    "Verif.Axis.C79_history_partial",
    "Verif.Axis.C79_transitive_false",
    "Verif.Axis.C79_loop_false",
    "Verif.Axis.C79_reload_false",
    "Verif.Axis.C79_definiens_false"
   ],
   "note": "Proved without type parameters: in well-formed tables comparison ends, is sound, reflexive and symmetric, and is complete and transitive when no two recursive types can be identified; simple definitions keep the table well formed and give types that can be made identical to their right hand sides, and so do grouped ones all of whose parts are new; grouped definitions in general give each type its name and the complete expansion of its right hand side (C79_merge). Missing: that the table remains well formed when parts of a grouped definition are merged with earlier entries. Reloading, recursion by way of type constructors, and transitivity in general are refuted."
  },
  {
   "property": "C80",
   "status": "partial",
   "theorems": [
    "Verif.Lex.C80_numbering_partial",
    "Verif.Lex.C80_injective_partial",
    "Verif.Lex.C80_unlimited_false"
   ],
   "note": "Proved for up to 36864 different strings; refuted beyond (F73), although numbers up to 65534 are available."
  },
  {
   "property": "C81",
   "status": "proved",
   "theorems": [
    "Verif.Lex.C81_lines",
    "Verif.Lex.C81_characters",
    "Verif.Lex.C81_unshift"
   ],
   "note": "For all texts; input by std::getline."
  },
  {
   "property": "C82",
   "status": "partial",
   "theorems": [
    "Verif.Lex.C82_no_loop",
    "Verif.Lex.C82_push",
    "Verif.Lex.C82_include_partial",
    "Verif.Lex.C82_resume_false",
    "Verif.Lex.C82_abandon_false",
    "Verif.Lex.C82_found_false",
    "Verif.Lex.C82_search",
    "Verif.Lex.C82_close"
   ],
   "note": "Proved after all histories: no loops, which files are read, and reading and resuming for files whose last line is not continued. Refuted: numbers of lines after a continued last line (F74) and after breaking off (F75), and reading of files never read before (F76)."
  },
  {
   "property": "C83",
   "status": "proved",
   "theorems": [
    "Verif.Lex.C83_skip",
    "Verif.Lex.C83_text"
   ],
   "note": "complete"
  },
  {
   "property": "C84",
   "status": "partial",
   "theorems": [
    "Verif.Lex.C84_string",
    "Verif.Lex.C84_broken",
    "Verif.Lex.C84_cases",
    "Verif.Lex.C84_file_false"
   ],
   "note": "proved, except that strings end at the end of the file, which is refuted (F78)"
  },
  {
   "property": "C85",
   "status": "partial",
   "theorems": [
    "Verif.Lex.C85_word",
    "Verif.Lex.C85_number",
    "Verif.Lex.C85_name",
    "Verif.Lex.C85_name_false",
    "Verif.Lex.C85_include"
   ],
   "note": "proved, except that scanning a name of a file always ends, which is refuted (F79)"
  },
  {
   "property": "C86",
   "status": "proved",
   "theorems": [
    "Verif.Lex.C86_newline",
    "Verif.Lex.C86_only",
    "Verif.Lex.C86_ends",
    "Verif.Lex.C86_file_end",
    "Verif.Lex.C86_first",
    "Verif.Lex.C86_keyword",
    "Verif.Lex.C86_groups"
   ],
   "note": "complete"
  },
  {
   "property": "C87",
   "status": "proved",
   "theorems": [
    "Verif.Lex.C87_number",
    "Verif.Lex.C87_scope"
   ],
   "note": "complete"
  },
  {
   "property": "C88",
   "status": "partial",
   "theorems": [
    "Verif.Lex.C88_operator",
    "Verif.Lex.C88_relation",
    "Verif.Lex.C88_tilde",
    "Verif.Lex.C88_tilde_becomes_false",
    "Verif.Lex.C88_pairs",
    "Verif.Lex.C88_single",
    "Verif.Lex.C88_dot_false"
   ],
   "note": "proved, except that each operator after a dot can end a command and that a tilde forms a single token with :=, which are refuted (F81, F82)"
  },
  {
   "property": "C89",
   "status": "partial",
   "theorems": [
    "Verif.Cmd.C89_name",
    "Verif.Cmd.C89_prefix",
    "Verif.Cmd.C89_ambiguous",
    "Verif.Cmd.C89_none",
    "Verif.Cmd.C89_inherit",
    "Verif.Cmd.C89_prefix_false",
    "Verif.Cmd.C89_extensions",
    "Verif.Cmd.C89_add"
   ],
   "note": "proved with occurrences of commands in place of names; that a prefix of just one name suffices is refuted (F83)"
  },
  {
   "property": "C90",
   "status": "partial",
   "theorems": [
    "Verif.Cmd.C90_executes",
    "Verif.Cmd.C90_unknown",
    "Verif.Cmd.C90_ambiguous",
    "Verif.Cmd.C90_ambiguous_false",
    "Verif.Cmd.C90_session"
   ],
   "note": "one turn of the loop; actions that change the stack by other means than leaving modes, exit functions and the help mode are not modelled; ambiguity is not reported when only a lower mode on the stack knows the commands (F84)"
  },
  {
   "property": "C91",
   "status": "partial",
   "theorems": [
    "Verif.Io.C91_digits_big",
    "Verif.Io.C91_digits_negative_false",
    "Verif.Io.C91_digits",
    "Verif.Io.C91_hyphens",
    "Verif.Io.C91_fold",
    "Verif.Io.C91_short",
    "Verif.Io.C91_parts",
    "Verif.Io.C91_width_false"
   ],
   "note": "with breaks after strings lines can exceed the size by the length of such a string (F85); the number of digits of negative numbers is not found (F86)"
  },
  {
   "property": "C92",
   "status": "partial",
   "theorems": [
    "Verif.Io.C92_bytes",
    "Verif.Io.C92_order_false",
    "Verif.Io.C92_info",
    "Verif.Io.C92_coefficients",
    "Verif.Io.C92_degree",
    "Verif.Io.C92_leading",
    "Verif.Io.C92_cached"
   ],
   "note": "operands of the addition in read_bytes are taken to be evaluated from left to right; the language does not specify this, and with the other order the property is false (F87)"
  },
  {
   "property": "C93",
   "status": "partial",
   "theorems": [
    "Verif.Io.C93_block",
    "Verif.Io.C93_primitives",
    "Verif.Io.C93_primitivize"
   ],
   "note": "What is read from a file of a block, the lengths computed from it, the primitive elements and the raising of elements are proved for all blocks within the stated bounds. Assumed: evaluation from left to right in read_bytes (F87). Not modelled: the cache of lists of primitive elements."
  },
  {
   "property": "C94",
   "status": "partial",
   "theorems": [
    "Verif.Io.C94_assertion_false",
    "Verif.Io.C94_find_false",
    "Verif.Io.C94_empty_false",
    "Verif.Io.C94_find_corrected",
    "Verif.Io.C94_primitive"
   ],
   "note": "False of the program as it is (F88): with assertions nothing can be written (C94_assertion_false), without them wrong polynomials are found (C94_find_false) or behaviour is undefined (C94_empty_false). C94_find_corrected proves the property for all tables and all sequences of questions, with and without assertions, when prim_map has the additional bit that write_KL_row expects. C94_primitive holds of the program as it is. Not modelled: the old file format."
  },
  {
   "property": "C95",
   "status": "partial",
   "theorems": [
    "Verif.Io.C95_progress",
    "Verif.Io.C95_size"
   ],
   "note": "Proved for all files with totals below 2^32. Assumed: evaluation from left to right in read_bytes (F87)."
  }
 ]
}