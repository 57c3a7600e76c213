{
 "claims": [
  {
   "property": "C01",
   "status": "proved",
   "theorems": [
    "BitLib.C01_iterator_arithmetic",
    "BitLib.C01_distance_increments",
    "BitLib.C01_distance_assert"
   ],
   "note": "Every width, iterator and signed offset; truncating division of the code is modelled. distance() additionally asserts first<=last."
  },
  {
   "property": "C02",
   "status": "proved",
   "theorems": [
    "BitLib.C02_iterator_order",
    "BitLib.C02_iterator_total_order"
   ],
   "note": "Every pair/triple of iterators."
  },
  {
   "property": "C03",
   "status": "proved",
   "theorems": [
    "BitLib.C03_deref",
    "BitLib.C03_mask",
    "BitLib.C03_read",
    "BitLib.C03_write",
    "BitLib.C03_assign_pos",
    "BitLib.C03_assign_ref",
    "BitLib.C03_unmapped"
   ],
   "note": "Every member operation of bit_reference as a table of bit functions; unmapped bits are a distinct outcome."
  },
  {
   "property": "C04",
   "status": "proved",
   "theorems": [
    "BitLib.C04_swap",
    "BitLib.C04_swap_value"
   ],
   "note": "swap of two references (same or different word, same bit) and of a reference with a value."
  },
  {
   "property": "C05",
   "status": "proved",
   "theorems": [
    "BitLib.C05_construct",
    "BitLib.C05_address_of",
    "BitLib.C05_add_sub",
    "BitLib.C05_inc_dec",
    "BitLib.C05_diff_compare",
    "BitLib.C05_round_trip"
   ],
   "note": "Valid pointers; the null pointer is not modelled."
  },
  {
   "property": "C06",
   "status": "proved",
   "theorems": [
    "BitLib.C06_copy"
   ],
   "note": "Every shift semantics, so no oversized shift; overlap allowed unless d_first is strictly inside (first,last)."
  },
  {
   "property": "C07",
   "status": "proved",
   "theorems": [
    "BitLib.C07_copy_footprint",
    "BitLib.C07_copy_writes"
   ],
   "note": "Stated on the memory in which only the words of the two ranges are accessible."
  },
  {
   "property": "C08",
   "status": "proved",
   "theorems": [
    "BitLib.C08_move",
    "BitLib.C08_move_eq_copy"
   ],
   "note": "Same theorem as copy, and move equals copy as a program."
  },
  {
   "property": "C09",
   "status": "proved",
   "theorems": [
    "BitLib.C09_copy_backward",
    "BitLib.C09_copy_backward_lenient",
    "BitLib.C09_copy_backward_footprint"
   ],
   "note": "When everything is word aligned an oversized shift occurs on 32/64-bit words (see C18); C09_copy_backward_lenient shows the result does not depend on it."
  },
  {
   "property": "C10",
   "status": "proved",
   "theorems": [
    "BitLib.C10_fill",
    "BitLib.C10_fill_footprint"
   ],
   "note": "Every width."
  },
  {
   "property": "C11",
   "status": "proved",
   "theorems": [
    "BitLib.C11_find",
    "BitLib.C11_find_footprint",
    "BitLib.C11_empty_range_reads"
   ],
   "note": "Hypothesis hne excludes only the empty range inside an inaccessible word, where find reads that word (C11_empty_range_reads)."
  },
  {
   "property": "C12",
   "status": "proved",
   "theorems": [
    "BitLib.C12_equal",
    "BitLib.C12_equal_footprint"
   ],
   "note": "Every width and alignment."
  },
  {
   "property": "C13",
   "status": "proved",
   "theorems": [
    "BitLib.C13_count",
    "BitLib.C13_count_complement",
    "BitLib.C13_count_footprint"
   ],
   "note": "Non-empty ranges."
  },
  {
   "property": "C14",
   "status": "partial",
   "theorems": [
    "BitLib.C14_refuted",
    "BitLib.C14_count_empty_partial",
    "BitLib.C14_exact"
   ],
   "note": "False of the code: count dereferences first.base() on an empty range (C14_refuted). C14_exact gives the outcome for every memory: 0 iff that word is accessible, out of bounds otherwise."
  },
  {
   "property": "C15",
   "status": "proved",
   "theorems": [
    "BitLib.C15_reverse",
    "BitLib.C15_reverse_lenient",
    "BitLib.C15_reverse_footprint",
    "BitLib.C15_reverse_involutive",
    "BitLib.C15_empty_range_reads"
   ],
   "note": "Every width, alignment and length. The word-end case needs a shift by the width to be harmless on 32/64-bit words (C15_reverse_lenient; the exact condition is C18_reverse_exact). C15_empty_range_reads: an empty unaligned range still loads its word."
  },
  {
   "property": "C16",
   "status": "proved",
   "theorems": [
    "BitLib.C16_shift_left",
    "BitLib.C16_shift_left_nonpos",
    "BitLib.C16_shift_left_all",
    "BitLib.C16_shift_left_footprint"
   ],
   "note": "Every width, alignment, length and signed n."
  },
  {
   "property": "C17",
   "status": "proved",
   "theorems": [
    "BitLib.C17_shift_right",
    "BitLib.C17_shift_right_nonpos",
    "BitLib.C17_shift_right_all",
    "BitLib.C17_shift_right_footprint"
   ],
   "note": "Every width, alignment, length and signed n."
  },
  {
   "property": "C18",
   "status": "partial",
   "theorems": [
    "BitLib.C18_no_overshift_partial",
    "BitLib.C18_narrow_partial",
    "BitLib.C18_shift_left_exact",
    "BitLib.C18_shift_right_exact",
    "BitLib.C18_reverse_exact",
    "BitLib.C18_copy_backward_exact",
    "BitLib.C18_refuted"
   ],
   "note": "False of the code (C18_refuted): copy_backward, shift_left, shift_right and reverse shift a 32/64-bit word by its width in exactly the cases given by the *_exact theorems, rotate(first,last,last) does too. The partial theorems show the absence of oversized shifts everywhere else, and everywhere for 8- and 16-bit words."
  },
  {
   "property": "C19",
   "status": "partial",
   "theorems": [
    "BitLib.C19_rotate_partial",
    "BitLib.C19_refuted",
    "BitLib.C19_rotate_overflow",
    "BitLib.C19_exact",
    "BitLib.C19_fails_near_half",
    "BitLib.C19_fits"
   ],
   "note": "False of the code for very unequal parts (C19_refuted): the number of block swaps is stored in an unsigned int. C19_rotate_partial covers every range for which no round overflows (RotFits), in particular every range shorter than (2^32+1)*(w+1) bits. C19_exact: for all lengths, rotate is right for all contents iff RotFits; no case is open. C19_fails_near_half: the failing lengths include nearly equal parts."
  },
  {
   "property": "C20",
   "status": "partial",
   "theorems": [
    "BitLib.C20_refuted_return",
    "BitLib.C20_refuted_overshift",
    "BitLib.C20_refuted_bounds",
    "BitLib.C20_refuted",
    "BitLib.C20_rotate_end_partial",
    "BitLib.C20_rotate_end_footprint_partial",
    "BitLib.C20_outcomes",
    "BitLib.C20_exact"
   ],
   "note": "False of the code: wrong return value, oversized shift and out-of-range access (C20_refuted*). C20_exact gives the exact inputs for which it is true and C20_outcomes what happens for each of the others."
  },
  {
   "property": "C21",
   "status": "partial",
   "theorems": [
    "BitLib.C21_rotate_terminates",
    "BitLib.C21_rotate_footprint",
    "BitLib.C21_rotate_restores_partial",
    "BitLib.C21_refuted",
    "BitLib.C21_exact"
   ],
   "note": "Termination and footprint hold for every length. Restoring is shown whenever RotFits holds both ways; C21_exact shows for every length that this is necessary (two wrong rotations never cancel out); C21_refuted gives the witness."
  },
  {
   "property": "C22",
   "status": "proved",
   "theorems": [
    "BitLib.C22_swap_ranges",
    "BitLib.C22_swap_ranges_footprint",
    "BitLib.C22_swap_ranges_involutive"
   ],
   "note": "Every width, both alignments, ranges sharing words included."
  },
  {
   "property": "C23",
   "status": "proved",
   "theorems": [
    "BitLib.C23_transform",
    "BitLib.C23_transform_not_inplace",
    "BitLib.C23_transform_footprint"
   ],
   "note": "Every pair of word/bit operation acting bit by bit."
  },
  {
   "property": "C24",
   "status": "proved",
   "theorems": [
    "BitLib.C24_transform2",
    "BitLib.C24_transform2_footprint"
   ],
   "note": "Every pair of word/bit operation acting bit by bit."
  },
  {
   "property": "C25",
   "status": "proved",
   "theorems": [
    "BitLib.C25_push_back",
    "BitLib.C25_pop_back",
    "BitLib.C25_push_pop"
   ],
   "note": "Every valid state (Rep), every allocation policy, every width; nothing outside the vector's storage changes."
  },
  {
   "property": "C26",
   "status": "partial",
   "theorems": [
    "BitLib.C26_insert_partial",
    "BitLib.C26_insert_promoted",
    "BitLib.C26_exact",
    "BitLib.C26_refuted"
   ],
   "note": "Proved in full for word types narrower than int. For 32- and 64-bit words insert is undefined exactly when pos is word-aligned and exactly one word remains from pos on (C26_exact, C26_refuted)."
  },
  {
   "property": "C27",
   "status": "partial",
   "theorems": [
    "BitLib.C27_insert_count_partial",
    "BitLib.C27_insert_count_small_partial",
    "BitLib.C27_exact_small",
    "BitLib.C27_exact",
    "BitLib.C27_exact_promoted",
    "BitLib.C27_refuted_large",
    "BitLib.C27_refuted_word"
   ],
   "note": "C27_exact/C27_exact_promoted: for every size, insert succeeds with the right contents iff the single-precision size computation is right (always up to 2^24 bits) and, for 32- and 64-bit words, no aligned whole word is moved alone. Refuted at 2^24 bits for every width: one bit too many is written past the end (C27_refuted_large)."
  },
  {
   "property": "C28",
   "status": "partial",
   "theorems": [
    "BitLib.C28_insert_range_partial",
    "BitLib.C28_insert_range_small_partial",
    "BitLib.C28_exact_small",
    "BitLib.C28_exact",
    "BitLib.C28_exact_promoted",
    "BitLib.C28_refuted_large"
   ],
   "note": "As C27 (C28_exact, C28_exact_promoted); source range outside the vector. Refuted at 2^24 bits for every width (C28_refuted_large)."
  },
  {
   "property": "C29",
   "status": "partial",
   "theorems": [
    "BitLib.C29_erase_partial",
    "BitLib.C29_erase_promoted",
    "BitLib.C29_exact",
    "BitLib.C29_refuted"
   ],
   "note": "Proved in full for word types narrower than int; C29_exact gives the over-shift condition for 32- and 64-bit words, C29_refuted the witness."
  },
  {
   "property": "C30",
   "status": "partial",
   "theorems": [
    "BitLib.C30_erase_range_partial",
    "BitLib.C30_exact",
    "BitLib.C30_exact_promoted",
    "BitLib.C30_exact_overshift",
    "BitLib.C30_refuted"
   ],
   "note": "C30_exact/C30_exact_promoted: for every size, erase succeeds with the right contents iff nothing is erased or fewer than 2^32 elements remain and (32- and 64-bit words) the over-shift case does not occur; C30_exact_overshift gives the over-shift condition, C30_refuted the witness."
  },
  {
   "property": "C31",
   "status": "partial",
   "theorems": [
    "BitLib.C31_resize_exact",
    "BitLib.C31_resize_partial",
    "BitLib.C31_resize_keeps",
    "BitLib.C31_refuted"
   ],
   "note": "Refuted for every width: resize leaves stale bits of the last word (C31_refuted). C31_resize_exact says which values the new elements get; the kept elements are always right; the property holds when the unused bits are 0."
  },
  {
   "property": "C32",
   "status": "partial",
   "theorems": [
    "BitLib.C32_value_ignored",
    "BitLib.C32_resize_value_partial",
    "BitLib.C32_shrink",
    "BitLib.C32_refuted"
   ],
   "note": "Refuted for every width: resize(n,v) ignores v (C32_value_ignored, C32_refuted). The kept elements are right."
  },
  {
   "property": "C33",
   "status": "proved",
   "theorems": [
    "BitLib.C33_default",
    "BitLib.C33_count_value",
    "BitLib.C33_count",
    "BitLib.C33_string",
    "BitLib.C33_bool_range",
    "BitLib.C33_bool_list",
    "BitLib.C33_words",
    "BitLib.C33_words_bits",
    "BitLib.C33_bits"
   ],
   "note": "Counts below 2^32, every sequence and string, every width. The constructor from a list of bit_value does not compile and is not modelled."
  },
  {
   "property": "C34",
   "status": "partial",
   "theorems": [
    "BitLib.C34_storage_partial",
    "BitLib.C34_exact",
    "BitLib.C34_max_size_admits",
    "BitLib.C34_refuted"
   ],
   "note": "Refuted: word_count takes unsigned int, so n bits get storage if and only if n < 2^32 (C34_exact, C34_refuted)."
  },
  {
   "property": "C35",
   "status": "partial",
   "theorems": [
    "BitLib.C35_step_partial",
    "BitLib.C35_history_partial",
    "BitLib.C35_history_promoted_partial",
    "BitLib.C35_observe",
    "BitLib.C35_refuted"
   ],
   "note": "All histories over any number of vectors, by induction; hypotheses: each call valid and within the limits found in C26-C34 (Op.Lim). For word types narrower than int only sizes are limited. C35_refuted shows the limits are needed."
  },
  {
   "property": "C36",
   "status": "proved",
   "theorems": [
    "BitLib.C36_get",
    "BitLib.C36_contents",
    "BitLib.C36_unique",
    "BitLib.C36_references",
    "BitLib.C36_at_throws",
    "BitLib.C36_at",
    "BitLib.C36_data"
   ],
   "note": "Every valid state and index; out-of-range at() throws whatever the memory."
  },
  {
   "property": "C37",
   "status": "partial",
   "theorems": [
    "BitLib.C37_debug_string_partial",
    "BitLib.C37_digits",
    "BitLib.C37_round_trip_partial",
    "BitLib.C37_separators",
    "BitLib.C37_exact",
    "BitLib.C37_refuted"
   ],
   "note": "Fewer than 2^31 elements; undefined from 2^31 on (C37_exact: int position overflows)."
  },
  {
   "property": "C38",
   "status": "proved",
   "theorems": [
    "BitLib.C38_reserve",
    "BitLib.C38_shrink_to_fit",
    "BitLib.C38_clear",
    "BitLib.C38_size_le_capacity"
   ],
   "note": "n < 2^32, every allocation policy."
  },
  {
   "property": "C39",
   "status": "proved",
   "theorems": [
    "BitLib.C39_popcnt",
    "BitLib.C39_popcnt_builtin",
    "BitLib.C39_lzcnt",
    "BitLib.C39_lzcnt_builtin",
    "BitLib.C39_tzcnt",
    "BitLib.C39_tzcnt_builtin",
    "BitLib.C39_unique"
   ],
   "note": "Every width and word; the portable loops and the builtin paths; the builtins on 0 are a separate outcome never reached."
  },
  {
   "property": "C40",
   "status": "partial",
   "theorems": [
    "BitLib.C40_bextr_partial",
    "BitLib.C40_bitblend_partial",
    "BitLib.C40_bitblend_mask",
    "BitLib.C40_refuted",
    "BitLib.C40_bextr_exact",
    "BitLib.C40_bitblend_exact"
   ],
   "note": "False of the code for len == digits on 32/64-bit words (C40_refuted: oversized shift). C40_bextr_exact and C40_bitblend_exact give the outcome for every start and len."
  },
  {
   "property": "C41",
   "status": "proved",
   "theorems": [
    "BitLib.C41_bitexch",
    "BitLib.C41_bitexch_same_offset",
    "BitLib.C41_bitexch_mask",
    "BitLib.C41_bitexch_len_zero"
   ],
   "note": "Every width, word, offsets and len; len 0 included."
  },
  {
   "property": "C42",
   "status": "proved",
   "theorems": [
    "BitLib.C42_pdep",
    "BitLib.C42_pext",
    "BitLib.C42_pext_pdep",
    "BitLib.C42_pdep_pext",
    "BitLib.C42_unique"
   ],
   "note": "Every width, source and mask, with uniqueness of the result and the two round trips."
  },
  {
   "property": "C43",
   "status": "proved",
   "theorems": [
    "BitLib.C43_bitswap",
    "BitLib.C43_involutive"
   ],
   "note": "8/16/32/64-bit words, the table-driven and the generic loop."
  },
  {
   "property": "C44",
   "status": "proved",
   "theorems": [
    "BitLib.C44_selected",
    "BitLib.C44_byteswap",
    "BitLib.C44_byteswap128",
    "BitLib.C44_involutive",
    "BitLib.C44_involutive128"
   ],
   "note": "Every whole number of bytes, and the 128-bit overload."
  },
  {
   "property": "C45",
   "status": "partial",
   "theorems": [
    "BitLib.C45_shld_partial",
    "BitLib.C45_shrd_partial",
    "BitLib.C45_zero_narrow",
    "BitLib.C45_refuted",
    "BitLib.C45_refuted_value",
    "BitLib.C45_shld_exact",
    "BitLib.C45_shrd_exact"
   ],
   "note": "False of the code for cnt == 0 on 32/64-bit words (C45_refuted: oversized shift). The partial theorems cover 0 < cnt < digits for every width; C45_zero_narrow covers cnt == 0 on 8/16-bit words; C45_shld_exact and C45_shrd_exact give the outcome for every count."
  },
  {
   "property": "C46",
   "status": "proved",
   "theorems": [
    "BitLib.C46_addcarry",
    "BitLib.C46_subborrow",
    "BitLib.C46_wide",
    "BitLib.C46_add_chain",
    "BitLib.C46_sub_chain"
   ],
   "note": "Every width, operands and carry, and multi-word chains of every length."
  },
  {
   "property": "C47",
   "status": "proved",
   "theorems": [
    "BitLib.C47_mulx",
    "BitLib.C47_mulx_wide"
   ],
   "note": "Every even width; both the wide-type and the half-word branch."
  },
  {
   "property": "C48",
   "status": "partial",
   "theorems": [
    "BitLib.C48_count_fits",
    "BitLib.C48_x86",
    "BitLib.C48_x86_footprint",
    "BitLib.C48_x86_paths_agree",
    "BitLib.C48_popcount64",
    "BitLib.C48_popcnt64",
    "BitLib.C48_neon_unaligned",
    "BitLib.C48_other_partial",
    "BitLib.C48_other_overcounts",
    "BitLib.C48_refuted",
    "BitLib.C48_neon_partial",
    "BitLib.C48_neon_refuted"
   ],
   "note": "Proved in full for x86 (every instruction set path, every buffer) and for NEON with unaligned access. Refuted for the other CPUs and for NEON without unaligned access: after the alignment loop the word loop runs past the end exactly when size >= 8 and the bytes before the first aligned address exceed size % 8 (C48_refuted, C48_other_overcounts)."
  },
  {
   "property": "C49",
   "status": "proved",
   "theorems": [
    "BitLib.C49_empty",
    "BitLib.C49_write_word",
    "BitLib.C49_get_word",
    "BitLib.C49_round_trip",
    "BitLib.C49_write_back",
    "BitLib.C49_footprint"
   ],
   "note": "Every width, position and 1 <= len <= digits."
  },
  {
   "property": "C50",
   "status": "proved",
   "theorems": [
    "BitLib.C50_is_within"
   ],
   "note": "Every N, width, iterator pair."
  },
  {
   "property": "C51",
   "status": "proved",
   "theorems": [
    "BitLib.C51_copy_equal",
    "BitLib.C51_fill_count",
    "BitLib.C51_fill_count_other",
    "BitLib.C51_fill_find",
    "BitLib.C51_find_last_iff_count_zero",
    "BitLib.C51_find_le_count",
    "BitLib.C51_reverse_count",
    "BitLib.C51_rotate_count",
    "BitLib.C51_swap_ranges_count"
   ],
   "note": "Non-empty ranges; the statements run the programs in sequence. rotate keeps the count for every length, also beyond the C19 limit."
  },
  {
   "property": "C52",
   "status": "proved",
   "theorems": [
    "BitLib.C52_extract_digit",
    "BitLib.C52_extract_other",
    "BitLib.C52_extract_no_putback",
    "BitLib.C52_extract_end",
    "BitLib.C52_extract_not_good",
    "BitLib.C52_extract_cases",
    "BitLib.C52_extract_ref",
    "BitLib.C52_insert",
    "BitLib.C52_insert_ref",
    "BitLib.C52_round_trip",
    "BitLib.C52_padding_needed",
    "BitLib.C52_round_trip_list"
   ],
   "note": "Every stream contents, state, flags, width, fill and prior value; buffers that throw or refuse putback included. Round trip for unpadded, left-adjusted or white-space padded fields; C52_padding_needed shows why."
  },
  {
   "property": "C53",
   "status": "proved",
   "theorems": [
    "BitLib.C53_move_assign_self",
    "BitLib.C53_copy",
    "BitLib.C53_copy_assign",
    "BitLib.C53_copy_assign_self",
    "BitLib.C53_move_assign",
    "BitLib.C53_independent",
    "BitLib.C53_history_untouched",
    "BitLib.C53_copy_independent_partial"
   ],
   "note": "Copy construction, copy assignment (also to itself), move assignment from another object. C53_copy_independent_partial carries the limits of C35; independence itself (C53_independent, C53_history_untouched) has no limits. Self-move is not modelled."
  },
  {
   "property": "C54",
   "status": "proved",
   "theorems": [
    "BitLib.C54_operations",
    "BitLib.C54_comparisons",
    "BitLib.C54_of_word",
    "BitLib.C54_of_word_pos",
    "BitLib.C54_of_ref"
   ],
   "note": "Every operation and comparison. bit_value::swap(bit_reference) does not compile when instantiated and is not modelled."
  },
  {
   "property": "C55",
   "status": "partial",
   "theorems": [
    "BitLib.C55_difference_exact",
    "BitLib.C55_difference_partial",
    "BitLib.C55_refuted_difference",
    "BitLib.C55_distance_partial",
    "BitLib.C55_distance_expression",
    "BitLib.C55_add_exact",
    "BitLib.C55_add_partial",
    "BitLib.C55_refuted_add",
    "BitLib.C55_sub_exact",
    "BitLib.C55_sub_partial"
   ],
   "note": "Refuted as stated: operator- overflows a signed product at exactly 2^63, and _position + n wraps for n near 2^63. The exact outcome is proved for every input whose result fits."
  },
  {
   "property": "C56",
   "status": "partial",
   "theorems": [
    "BitLib.C56_bitblend_mask",
    "BitLib.C56_bitblend",
    "BitLib.C56_bitblend_model",
    "BitLib.C56_bitblend_cxx17_partial",
    "BitLib.C56_refuted_cxx17",
    "BitLib.C56_bextr",
    "BitLib.C56_bextr_model",
    "BitLib.C56_shrd",
    "BitLib.C56_shrd_model",
    "BitLib.C56_shld",
    "BitLib.C56_shld_model",
    "BitLib.C56_bitexch_mask",
    "BitLib.C56_bitexch_same_offset",
    "BitLib.C56_bitexch",
    "BitLib.C56_int_sub",
    "BitLib.C56_int_mul",
    "BitLib.C56_int_shl_cxx17",
    "BitLib.C56_shift_semantics"
   ],
   "note": "Proved in full for the C++20 shift rule (which GCC and Clang apply in every mode). Under the C++17 rule, _bitblend with len = digits shifts the negative int -1 (C56_refuted_cxx17); everything else holds there too."
  },
  {
   "property": "C57",
   "status": "proved",
   "theorems": [
    "BitLib.C57_fill",
    "BitLib.C57_find",
    "BitLib.C57_transform_not",
    "BitLib.C57_footprint"
   ],
   "note": "For every vector machine whose vectors divide 64 bytes; equality with the scalar programs, then C10, C11, C23."
  },
  {
   "property": "C58",
   "status": "proved",
   "theorems": [
    "BitLib.C58_shift_left",
    "BitLib.C58_shift_right",
    "BitLib.C58_shift_trivial",
    "BitLib.C58_reverse",
    "BitLib.C58_footprint"
   ],
   "note": "As C57; the inputs with an oversized shift (C18) are excluded for 32/64-bit words, as in C15-C17."
  },
  {
   "property": "C59",
   "status": "proved",
   "theorems": [
    "BitLib.C59_no_misaligned",
    "BitLib.C59_never_misaligned",
    "BitLib.C59_wide_vectors"
   ],
   "note": "Equality of SIMD and scalar outcomes, including failing ones; C59_wide_vectors shows that the 64-byte limit is needed."
  },
  {
   "property": "C60",
   "status": "partial",
   "theorems": [
    "BitLib.C60_begin_partial",
    "BitLib.C60_end_partial",
    "BitLib.C60_begin_overrun",
    "BitLib.C60_end_overrun",
    "BitLib.C60_too_long",
    "BitLib.C60_begin_overshift",
    "BitLib.C60_end_overshift",
    "BitLib.C60_begin_short",
    "BitLib.C60_end_short",
    "BitLib.C60_begin_exact",
    "BitLib.C60_end_exact",
    "BitLib.C60_refuted"
   ],
   "note": "Refuted twice: the assertion ignores the position of first in its word, so copy_arr[B] is written (C60_begin_overrun, C60_end_overrun); and from 2^15 bits beyond the first word on the short counter wraps and uninitialised words are copied back (C60_begin_short, C60_end_short). C60_begin_exact/C60_end_exact: when the words fit the buffer, apart from the whole-word case of C18, the rotation is right iff the counter does not wrap."
  },
  {
   "property": "C61",
   "status": "proved",
   "theorems": [
    "BitLib.C61_padded_read",
    "BitLib.C61_empty",
    "BitLib.C61_empty_overshift"
   ],
   "note": "Nonempty ranges; C61_empty and C61_empty_overshift say what happens on the empty range, which the header calls undefined."
  },
  {
   "property": "C62",
   "status": "partial",
   "theorems": [
    "BitLib.C62_get_word_partial",
    "BitLib.C62_get_word_wide_refuted",
    "BitLib.C62_write_word_exact",
    "BitLib.C62_write_word_partial",
    "BitLib.C62_write_word_refuted",
    "BitLib.C62_same_type"
   ],
   "note": "Refuted: get_word with a wider type asserts by default, write_word with a narrower source clears the upper part of the destination word. C62_write_word_exact gives the exact result inside one word."
  },
  {
   "property": "C63",
   "status": "proved",
   "theorems": [
    "BitLib.C63_word_shift_left",
    "BitLib.C63_word_shift_right",
    "BitLib.C63_trivial",
    "BitLib.C63_no_fill"
   ],
   "note": "C63_no_fill: the header comment about filling with 0 does not describe the code."
  },
  {
   "property": "C64",
   "status": "partial",
   "theorems": [
    "BitLib.C64_copy",
    "BitLib.C64_move",
    "BitLib.C64_copy_backward_partial",
    "BitLib.C64_transform",
    "BitLib.C64_transform2",
    "BitLib.C64_fill",
    "BitLib.C64_find",
    "BitLib.C64_equal",
    "BitLib.C64_count_partial",
    "BitLib.C64_count_empty_refuted",
    "BitLib.C64_count_exact",
    "BitLib.C64_reverse_partial",
    "BitLib.C64_rotate_partial",
    "BitLib.C64_shift_left_partial",
    "BitLib.C64_shift_right_partial",
    "BitLib.C64_swap_ranges",
    "BitLib.C64_swap_ranges_same"
   ],
   "note": "Proved for every state and range, with the limits of C14, C18, C19, C20 as hypotheses in the theorems named _partial. C64_count_empty_refuted: count of an empty vector reads memory that does not exist; C64_count_exact gives the outcome for every range. shift_left/right: 0 < n < length (C16, C17 give the other counts)."
  },
  {
   "property": "C65",
   "status": "partial",
   "theorems": [
    "BitLib.C65_step_partial",
    "BitLib.C65_program_partial",
    "BitLib.C65_observations_partial"
   ],
   "note": "All programs, by induction; hypotheses: each call valid (Call.Pre) and within the limits found in C14, C18-C20, C26-C34, C37 (Call.Lim). The specification has one result per call (vacated elements of shifts as in C77), so what a program observes depends on nothing else (C65_observations_partial)."
  },
  {
   "property": "C66",
   "status": "proved",
   "theorems": [
    "BitLib.C66_example1"
   ],
   "note": "Every ShiftSem and Policy; from C65 by evaluating the specification."
  },
  {
   "property": "C67",
   "status": "partial",
   "theorems": [
    "BitLib.C67_narrowest",
    "BitLib.C67_widest",
    "BitLib.C67_narrower",
    "BitLib.C67_narrower_none",
    "BitLib.C67_wider_exact",
    "BitLib.C67_wider_refuted",
    "BitLib.C67_wide_unreachable",
    "BitLib.C67_addcarry",
    "BitLib.C67_subborrow",
    "BitLib.C67_mulx",
    "BitLib.C67_bitcmp_partial",
    "BitLib.C67_bitcmp_refuted",
    "BitLib.C67_bitcmp_whole_refuted"
   ],
   "note": "_narrowest/_widest/_narrower_type and the three instructions proved. Refuted: _wider_type continues with _narrower_type and never selects a wider type (C67_wider_refuted, C67_wider_exact), so the wider-type branches are dead (C67_wide_unreachable); _bitcmp returns 1 if equal (C67_bitcmp_refuted; C67_bitcmp_partial says what it returns)."
  },
  {
   "property": "C68",
   "status": "partial",
   "theorems": [
    "BitLib.C68_null",
    "BitLib.C68_not_null",
    "BitLib.C68_assign",
    "BitLib.C68_add",
    "BitLib.C68_typed_null_refuted",
    "BitLib.C68_null_add_exact",
    "BitLib.C68_null_add_zero_refuted"
   ],
   "note": "Proved for default construction, nullptr construction and nullptr assignment. Refuted for bit_pointer(static_cast<W*>(nullptr)), which is false but unequal to nullptr (C68_typed_null_refuted), and for p + 0 (C68_null_add_zero_refuted; C68_null_add_exact gives the outcome for every n)."
  },
  {
   "property": "C69",
   "status": "proved",
   "theorems": [
    "BitLib.C69_view",
    "BitLib.C69_make",
    "BitLib.C69_single",
    "BitLib.C69_assign",
    "BitLib.C69_swap",
    "BitLib.C69_ops",
    "BitLib.C69_unmapped"
   ],
   "note": "Byte-level storage, both byte orders, words of any whole number of bytes; C69_view links it to the word memory used by the other theorems. Alignment and effective types are not modelled."
  },
  {
   "property": "C70",
   "status": "proved",
   "theorems": [
    "BitLib.C70_operators",
    "BitLib.C70_pointer_post",
    "BitLib.C70_is_within",
    "BitLib.C70_predicates",
    "BitLib.C70_shift_towards",
    "BitLib.C70_walk",
    "BitLib.C70_walk_write",
    "BitLib.C70_range_for"
   ],
   "note": "Induction over the length; the walk theorems give termination. A reversed range is rejected by the assertion in distance, whose comment promises a negative value."
  },
  {
   "property": "C71",
   "status": "proved",
   "theorems": [
    "BitLib.C71_push_back",
    "BitLib.C71_resize",
    "BitLib.C71_resize_value",
    "BitLib.C71_reserve",
    "BitLib.C71_shrink_to_fit",
    "BitLib.C71_copy_assign",
    "BitLib.C71_at",
    "BitLib.C71_unchanged",
    "BitLib.C71_insert",
    "BitLib.C71_insert_count",
    "BitLib.C71_insert_range",
    "BitLib.C71_never_throw",
    "BitLib.C71_new_count",
    "BitLib.C71_new_count_value",
    "BitLib.C71_new_string",
    "BitLib.C71_new_bool_range",
    "BitLib.C71_new_words",
    "BitLib.C71_new_bits",
    "BitLib.C71_new_copy",
    "BitLib.C71_new_bool_list",
    "BitLib.C71_new_unchanged"
   ],
   "note": "Exact conditions for throwing; after a throw heap and object are the same. That nothing changes holds for all sizes; beyond the size limits the float arithmetic of C27/C28 decides when a call throws. The guarantee of std::vector for a refused request is part of the model."
  },
  {
   "property": "C72",
   "status": "partial",
   "theorems": [
    "BitLib.C72_insert_partial",
    "BitLib.C72_insert_count_partial",
    "BitLib.C72_insert_range_partial",
    "BitLib.C72_no_request_partial",
    "BitLib.C72_step_partial",
    "BitLib.C72_program_partial",
    "BitLib.C72_insert_in_place_partial",
    "BitLib.C72_exact",
    "BitLib.C72_program_exact",
    "BitLib.C72_program_ends",
    "BitLib.C72_step_refuted"
   ],
   "note": "Every program tree, by induction; hypotheses: each call valid (Op.Pre) and within the limits found in C26-C34 (Op.Lim). C72_step_refuted: not without limits. C72_exact, C72_program_exact: which valid calls and programs are right, with any allocator, exactly; C72_program_ends: those run to their end without undefined behaviour."
  },
  {
   "property": "C73",
   "status": "proved",
   "theorems": [
    "BitLib.C73_push_back",
    "BitLib.C73_push_many",
    "BitLib.C73_reserve_push",
    "BitLib.C73_insert",
    "BitLib.C73_resize",
    "BitLib.C73_reserve",
    "BitLib.C73_shrinking"
   ],
   "note": "The size limits are the ones in the statement; beyond them the float arithmetic of C27 and C28 decides what is requested."
  },
  {
   "property": "C74",
   "status": "partial",
   "theorems": [
    "BitLib.C74_move_construct_exact",
    "BitLib.C74_refuted"
   ],
   "note": "Refuted: the noexcept constructor from an rvalue copies its const argument and ends the program if the request is refused (C74_refuted; C74_move_construct_exact: exactly then). Move assignment, clear and the destructor make no request (C72_step_partial, C71_never_throw)."
  },
  {
   "property": "C75",
   "status": "partial",
   "theorems": [
    "BitLib.C75_outcome",
    "BitLib.C75_count_partial",
    "BitLib.C75_x86",
    "BitLib.C75_neon_unaligned",
    "BitLib.C75_words64",
    "BitLib.C75_wrong_iff",
    "BitLib.C75_refuted",
    "BitLib.C75_words32",
    "BitLib.C75_empty"
   ],
   "note": "Right on x86, NEON with unaligned access and for aligned 8-byte words on every CPU; C75_outcome gives the result in all other cases, C75_refuted the out-of-bounds read."
  },
  {
   "property": "C76",
   "status": "partial",
   "theorems": [
    "BitLib.C76_outcome",
    "BitLib.C76_contiguous_partial",
    "BitLib.C76_refuted"
   ],
   "note": "Right if the whole words of the range are contiguous; C76_outcome for every arrangement, C76_refuted for every arrangement with a whole word outside of the block."
  },
  {
   "property": "C77",
   "status": "proved",
   "theorems": [
    "BitLib.C77_shift_left",
    "BitLib.C77_shift_right",
    "BitLib.C77_simd",
    "BitLib.C77_left_vacated",
    "BitLib.C77_right_leaks"
   ],
   "note": "C77_shift_left, C77_shift_right: the whole effect on memory, vacated bits included; C77_right_leaks: bits from before the range end up in it; C77_simd: the same in SIMD builds."
  },
  {
   "property": "C78",
   "status": "partial",
   "theorems": [
    "BitLib.C78_fill",
    "BitLib.C78_copy",
    "BitLib.C78_move",
    "BitLib.C78_copy_backward",
    "BitLib.C78_find",
    "BitLib.C78_equal",
    "BitLib.C78_count",
    "BitLib.C78_transform",
    "BitLib.C78_transform2",
    "BitLib.C78_swap_ranges",
    "BitLib.C78_reverse",
    "BitLib.C78_rotate",
    "BitLib.C78_shift_left",
    "BitLib.C78_shift_right_partial",
    "BitLib.C78_shift_right_exact",
    "BitLib.C78_refuted",
    "BitLib.C78_ref_read",
    "BitLib.C78_ref_write",
    "BitLib.C78_ref_overwrite",
    "BitLib.C78_ref_assign",
    "BitLib.C78_ref_swap",
    "BitLib.C78_simd"
   ],
   "note": "Proved for copy, move, copy_backward, fill, find, equal, count, both transforms, swap_ranges, reverse, rotate (where C19 holds), shift_left, all bit_reference operations and the SIMD builds. Refuted for shift_right (C78_refuted), exactly when bits leak (C78_shift_right_exact); C78_shift_right_partial gives the bits it reads."
  },
  {
   "property": "C79",
   "status": "proved",
   "theorems": [
    "BitLib.C79_sequence",
    "BitLib.C79_commute",
    "BitLib.C79_unobserved",
    "BitLib.C79_fill_fill",
    "BitLib.C79_copy_ref"
   ],
   "note": "C79_sequence and C79_commute for all programs made of isolated operations; instances C79_fill_fill, C79_copy_ref; C79_unobserved."
  },
  {
   "property": "C80",
   "status": "proved",
   "theorems": [
    "BitLib.C80_step",
    "BitLib.C80_history",
    "BitLib.C80_call",
    "BitLib.C80_program"
   ],
   "note": "C80_step and C80_history for every operation of a vector, C80_call and C80_program for algorithms on vectors as well. Excluded by hypothesis: rotations with a round whose swap distance overflows (C19), which are right for some contents only; words wider than 2^32 bits."
  },
  {
   "property": "C81",
   "status": "proved",
   "theorems": [
    "BitLib.Tests.C81_passes",
    "BitLib.Tests.C81_unpromoted",
    "BitLib.Tests.C81_verdict",
    "BitLib.Tests.C81_both",
    "BitLib.Tests.C81_detects",
    "BitLib.Tests.C81_copy",
    "BitLib.Tests.C81_move",
    "BitLib.Tests.C81_equal",
    "BitLib.Tests.C81_swap_ranges",
    "BitLib.Tests.C81_transform_unary",
    "BitLib.Tests.C81_transform_binary",
    "BitLib.Tests.C81_copy_backward",
    "BitLib.Tests.C81_copy_backward_reached",
    "BitLib.Tests.C81_fill",
    "BitLib.Tests.C81_count",
    "BitLib.Tests.C81_find",
    "BitLib.Tests.C81_rotate",
    "BitLib.Tests.C81_reverse",
    "BitLib.Tests.C81_reverse_word",
    "BitLib.Tests.C81_shift_left",
    "BitLib.Tests.C81_shift_right",
    "BitLib.Tests.C81_shift_reached",
    "BitLib.Tests.C81_exactly",
    "BitLib.Tests.C81_insert_at_end1",
    "BitLib.Tests.C81_insert_at_begin1",
    "BitLib.Tests.C81_insert_at_begin1_always",
    "BitLib.Tests.C81_insert_at_rand1",
    "BitLib.Tests.C81_insert_at_end2",
    "BitLib.Tests.C81_insert_at_begin2",
    "BitLib.Tests.C81_insert_at_rand2",
    "BitLib.Tests.C81_insert_at_end3",
    "BitLib.Tests.C81_insert_at_begin3",
    "BitLib.Tests.C81_insert_at_rand3",
    "BitLib.Tests.C81_erase_at_begin1",
    "BitLib.Tests.C81_erase_at_rand1",
    "BitLib.Tests.C81_erase_at_end1",
    "BitLib.Tests.C81_erase_at_begin2",
    "BitLib.Tests.C81_erase_at_end2",
    "BitLib.Tests.C81_erase_at_rand2",
    "BitLib.Tests.C81_push_back",
    "BitLib.Tests.C81_pop_back",
    "BitLib.Tests.C81_bool_iter_pair",
    "BitLib.Tests.C81_copy_constructor",
    "BitLib.Tests.C81_string_constructor",
    "BitLib.Tests.C81_copy_assignment",
    "BitLib.Tests.C81_move_assignment",
    "BitLib.Tests.C81_bracket_read",
    "BitLib.Tests.C81_bracket_write",
    "BitLib.Tests.C81_at_read",
    "BitLib.Tests.C81_clear",
    "BitLib.Tests.C81_copy_assignment_differ",
    "BitLib.Tests.C81_fixture",
    "BitLib.Tests.C81_fixture_two",
    "BitLib.Tests.C81_copy_run",
    "BitLib.Tests.C81_shrink_to_fit"
   ],
   "note": "C81_exactly and one theorem per test of the suite; C81_verdict, C81_both, C81_detects: what a verdict says. Excluded by hypothesis: vectors of 2^32 elements and more. For tests whose draws depend on earlier ones the undefined draws are given by Calm, for the others in closed form. ShrinkToFit depends on the library (C81_shrink_to_fit). Not modelled: the tests' own timing, printing and the random number generator."
  },
  {
   "property": "C82",
   "status": "proved",
   "theorems": [
    "BitLib.C82_threads",
    "BitLib.C82_readers",
    "BitLib.C82_two",
    "BitLib.C82_fill_blocks",
    "BitLib.C82_code",
    "BitLib.C82_code_read",
    "BitLib.C82_shared_word",
    "BitLib.C82_shared_word_read",
    "BitLib.C82_lost_update",
    "BitLib.C82_bits_not_enough",
    "BitLib.C82_text_read",
    "BitLib.C82_copies"
   ],
   "note": "C82_threads for any number of threads, C82_two (both orders), C82_readers, C82_fill_blocks; C82_copies for threads that copy from shared sources (the text of copy itself, interleaved); C82_text_read: the texts that only read contain no store; C82_code and C82_code_read give code for every algorithm; C82_shared_word, C82_shared_word_read, C82_lost_update and C82_bits_not_enough for bits that share a word. Memory accesses are whole words and interleave; weak memory orders are not modelled (without a data race C++ guarantees interleaving)."
  },
  {
   "property": "C83",
   "status": "partial",
   "theorems": [
    "BitLib.C83_word_type_partial",
    "BitLib.C83_shift_differs",
    "BitLib.C83_debug_differs",
    "BitLib.C83_limits_differ"
   ],
   "note": "C83_word_type_partial for any two widths, within the limits of C65 for both; C83_shift_differs, C83_debug_differs and C83_limits_differ show where the width is visible."
  },
  {
   "property": "C84",
   "status": "proved",
   "theorems": [
    "BitLib.C84_flags",
    "BitLib.C84_honest",
    "BitLib.C84_declared",
    "BitLib.C84_popcnt",
    "BitLib.C84_max_leaf",
    "BitLib.C84_executes",
    "BitLib.C84_builds"
   ],
   "note": "C84_flags (exact flags, no fault), C84_honest, C84_popcnt for every build and machine with leaf 7, C84_declared, C84_executes (exact instruction sets per size), C84_builds (exact builds); C84_max_leaf shows that the condition on leaf 7 is needed. The cpuid instruction itself is assumed to exist; the C version of the cached flags is not modelled."
  },
  {
   "property": "C85",
   "status": "proved",
   "theorems": [
    "BitLib.C85_run",
    "BitLib.C85_registered",
    "BitLib.C85_reverse",
    "BitLib.C85_not",
    "BitLib.C85_rotate",
    "BitLib.C85_count",
    "BitLib.C85_find",
    "BitLib.C85_equal",
    "BitLib.C85_profile",
    "BitLib.C85_small",
    "BitLib.C85_float"
   ],
   "note": "C85_run and C85_registered for all benchmarks, contents, draws and iteration counts; C85_equal, C85_find, C85_count, C85_reverse, C85_not, C85_rotate, C85_profile give results; C85_small and C85_float concern sizes that are not registered. A std::vector<uint64_t> is represented by a bit vector that fills its words."
  },
  {
   "property": "C86",
   "status": "partial",
   "theorems": [
    "BitLib.C86_exact",
    "BitLib.C86_first_partial",
    "BitLib.C86_ref_qualified",
    "BitLib.C86_size"
   ],
   "note": "C86_exact characterises every call; C86_first_partial is the property for functions whose call operator is not ref-qualified or that are held by reference; C86_ref_qualified refutes it otherwise; C86_size for size, max_size, empty."
  },
  {
   "property": "C87",
   "status": "proved",
   "theorems": [
    "BitLib.C87_member",
    "BitLib.C87_alg",
    "BitLib.C87_algorithms_keep_rest",
    "BitLib.C87_step",
    "BitLib.C87_elements",
    "BitLib.C87_program",
    "BitLib.C87_observations",
    "BitLib.C87_resize_elements",
    "BitLib.C87_removed_element_returns"
   ],
   "note": "C87_member, C87_alg, C87_step for single calls, C87_program and C87_observations for programs; C87_elements relates it to C65; C87_algorithms_keep_rest, C87_resize_elements and C87_removed_element_returns. The limits of C65 are hypotheses and part of the statement."
  },
  {
   "property": "C88",
   "status": "proved",
   "theorems": [
    "BitLib.C88_step",
    "BitLib.C88_program",
    "BitLib.C88_start"
   ],
   "note": "C88_step and C88_program, from C88_start. The limits of C65 are hypotheses and part of the statement."
  },
  {
   "property": "C89",
   "status": "proved",
   "theorems": [
    "BitLib.C89_exact",
    "BitLib.C89_part",
    "BitLib.C89_independent",
    "BitLib.C89_vector",
    "BitLib.C89_start"
   ],
   "note": "C89_exact (same result or same error), C89_part (a part of the memory), C89_independent (word type, position, builtins), C89_vector and C89_start (the elements of a bit_vector)."
  },
  {
   "property": "C90",
   "status": "partial",
   "theorems": [
    "BitLib.C90_find",
    "BitLib.C90_count",
    "BitLib.C90_equal",
    "BitLib.C90_fill",
    "BitLib.C90_copy",
    "BitLib.C90_copy_backward_partial",
    "BitLib.C90_swap_ranges",
    "BitLib.C90_reverse_partial",
    "BitLib.C90_transform",
    "BitLib.C90_transform2",
    "BitLib.C90_std_rotate",
    "BitLib.C90_rotate_partial",
    "BitLib.C90_rotate_end_partial",
    "BitLib.C90_refuted"
   ],
   "note": "C90_find, C90_count, C90_equal, C90_fill, C90_copy (and move), C90_swap_ranges, C90_transform, C90_transform2; C90_std_rotate for all ranges; C90_copy_backward_partial, C90_reverse_partial, C90_rotate_partial, C90_rotate_end_partial carry the limits of C18, C15, C19, C20, which C90_refuted shows to be needed."
  },
  {
   "property": "C91",
   "status": "proved",
   "theorems": [
    "BitLib.C91_step",
    "BitLib.C91_program",
    "BitLib.C91_start",
    "BitLib.C91_unique",
    "BitLib.C91_independent",
    "BitLib.C91_dangling",
    "BitLib.C91_keepProg"
   ],
   "note": "C91_step, C91_program, C91_start; C91_unique and C91_independent; C91_dangling; C91_keepProg is a program with kept iterators. The limits of C65 are hypotheses and part of the statement. Positions behind an inserted or removed element stay valid as positions, more than the standard promises. reserve(n) with n of 2^32 and more (C34) promises no capacity."
  },
  {
   "property": "C92",
   "status": "proved",
   "theorems": [
    "BitLib.C92_step",
    "BitLib.C92_program",
    "BitLib.C92_start",
    "BitLib.C92_unique",
    "BitLib.C92_same",
    "BitLib.C92_returned",
    "BitLib.C92_range_argument",
    "BitLib.C92_move_constructor"
   ],
   "note": "C92_step, C92_program, C92_start; C92_unique; C92_same (contents and answers as without allocators); C92_returned (nothing is kept); C92_range_argument and C92_move_constructor are the departures from std::vector. The limits of C65 are hypotheses and part of the statement. Allocation succeeds here (C72 has refusals). Move assignment is noexcept in the code but asks for storage if the allocators differ and do not propagate (sources of moveAssign)."
  },
  {
   "property": "C93",
   "status": "proved",
   "theorems": [
    "BitLib.C93_text",
    "BitLib.C93_code",
    "BitLib.C93_copy",
    "BitLib.C93_move",
    "BitLib.C93_copy_backward",
    "BitLib.C93_fill",
    "BitLib.C93_find",
    "BitLib.C93_equal",
    "BitLib.C93_count",
    "BitLib.C93_transform",
    "BitLib.C93_transform2",
    "BitLib.C93_shift_left",
    "BitLib.C93_shift_right",
    "BitLib.C93_reverse",
    "BitLib.C93_swap_ranges",
    "BitLib.C93_rotate",
    "BitLib.C93_client",
    "BitLib.C93_std_fill",
    "BitLib.C93_std_count",
    "BitLib.C93_std_find",
    "BitLib.C93_std_find_none",
    "BitLib.C93_std_reverse",
    "BitLib.C93_std_rotate",
    "BitLib.C93_std_copy",
    "BitLib.C93_std_equal",
    "BitLib.C93_std_swap_ranges",
    "BitLib.C93_std_transform",
    "BitLib.C93_std_transform2",
    "BitLib.C93_std_copy_backward"
   ],
   "note": "C93_text and C93_code tie the counted texts to the model; C93_copy, C93_move, C93_copy_backward, C93_fill, C93_find, C93_equal, C93_count, C93_transform, C93_transform2, C93_shift_left, C93_shift_right, C93_reverse, C93_swap_ranges, C93_rotate are the bounds; C93_client and C93_std_* are the accesses of programs on iterators and the comparison. Source-level accesses; the bounds of fill, find and count are attained, the other constants are not claimed to be the least."
  },
  {
   "property": "C94",
   "status": "proved",
   "theorems": [
    "BitLib.C94_accesses",
    "BitLib.C94_words",
    "BitLib.C94_stores",
    "BitLib.C94_copy",
    "BitLib.C94_move",
    "BitLib.C94_copy_backward",
    "BitLib.C94_fill",
    "BitLib.C94_count",
    "BitLib.C94_transform",
    "BitLib.C94_transform2",
    "BitLib.C94_shift_left",
    "BitLib.C94_shift_right",
    "BitLib.C94_reverse",
    "BitLib.C94_swap_ranges",
    "BitLib.C94_rotate",
    "BitLib.C94_find",
    "BitLib.C94_find_early",
    "BitLib.C94_equal",
    "BitLib.C94_equal_early",
    "BitLib.C94_ref_read",
    "BitLib.C94_ref_update",
    "BitLib.C94_ref_assign",
    "BitLib.C94_ref_swap",
    "BitLib.C94_std_swap_ranges",
    "BitLib.C94_stores_copy",
    "BitLib.C94_stores_move",
    "BitLib.C94_stores_copy_backward",
    "BitLib.C94_stores_transform",
    "BitLib.C94_stores_transform2"
   ],
   "note": "C94_copy, C94_move, C94_copy_backward, C94_fill, C94_count, C94_transform, C94_transform2, C94_shift_left, C94_shift_right, C94_reverse, C94_swap_ranges, C94_rotate: same accesses whatever the contents. C94_find (same result), C94_equal (prefix), C94_find_early and C94_equal_early show that the conditions are needed. C94_words, C94_stores, C94_stores_*: which words. C94_ref_*: references; C94_std_swap_ranges: the standard algorithm depends on the contents. C94_accesses ties the trace to the count of C93. Source-level accesses, not time."
  },
  {
   "property": "C95",
   "status": "proved",
   "theorems": [
    "BitLib.C95_text",
    "BitLib.C95_history",
    "BitLib.C95_push_back",
    "BitLib.C95_read",
    "BitLib.C95_requests",
    "BitLib.C95_reserved",
    "BitLib.C95_constructors",
    "BitLib.C95_members",
    "BitLib.C95_tight"
   ],
   "note": "C95_text: the billed programs are those of C35. C95_history: every history; C95_push_back: n calls of push_back; C95_requests: number of requests; C95_reserved: within the capacity; C95_constructors, C95_members: one request exactly if there are words, or new storage; C95_read; C95_tight: without geometric growth the cost is quadratic. The limits of C65 are hypotheses and part of the statement. Constants are upper bounds, not claimed to be the least. Accesses and requests, not time."
  },
  {
   "property": "C96",
   "status": "proved",
   "theorems": [
    "BitLib.C96_keep",
    "BitLib.C96_shift_left",
    "BitLib.C96_shift_right",
    "BitLib.C96_shift_right_exact",
    "BitLib.C96_reverse",
    "BitLib.C96_rotate_exact",
    "BitLib.C96_rotate",
    "BitLib.C96_insert_count_partial",
    "BitLib.C96_insert_count_exact",
    "BitLib.C96_insert_range_partial",
    "BitLib.C96_insert_range_exact",
    "BitLib.C96_step_partial",
    "BitLib.C96_history_partial",
    "BitLib.C96_step_exact",
    "BitLib.C96_history_exact",
    "BitLib.C96_refuted"
   ],
   "note": "C96_keep: same programs if the library keeps the words. C96_shift_left, C96_reverse, C96_shift_right: every library. C96_shift_right_exact, C96_rotate_exact, C96_insert_count_exact, C96_insert_range_exact, C96_step_exact, C96_history_exact: exactly when every library gives the right result; C96_refuted: a wrong insertion. The limits of C19 and C35 are hypotheses and part of the statement. The libraries in use keep the words, so this is a dependence on what the standard leaves open, not an observed failure. Scalar build."
  },
  {
   "property": "C97",
   "status": "proved",
   "theorems": [
    "BitLib.C97_const",
    "BitLib.C97_blocks",
    "BitLib.C97_one_block",
    "BitLib.C97_const_all",
    "BitLib.C97_reads",
    "BitLib.C97_same",
    "BitLib.C97_const_iterator",
    "BitLib.C97_const_members",
    "BitLib.C97_range_for",
    "BitLib.C97_range_constructor",
    "BitLib.C97_const_reference",
    "BitLib.C97_const_reference_ops",
    "BitLib.C97_conversions",
    "BitLib.C97_assignments",
    "BitLib.C97_algorithms",
    "BitLib.C97_algorithms2",
    "BitLib.C97_no_const_source",
    "BitLib.C97_no_algorithm",
    "BitLib.C97_readers",
    "BitLib.C97_binary_digits",
    "BitLib.C97_traits",
    "BitLib.C97_output",
    "BitLib.C97_bit_iterator_traits",
    "BitLib.C97_is_bit"
   ],
   "note": "C97_const, C97_const_all: no change through const access; C97_blocks, C97_one_block: the divided memory against the plain one. C97_reads, C97_same, C97_const_iterator: exactly which programs compile. C97_const_members, C97_range_for, C97_range_constructor, C97_const_reference, C97_const_reference_ops: bit_vector. C97_algorithms, C97_algorithms2, C97_no_const_source, C97_no_algorithm, C97_readers: algorithms. C97_binary_digits, C97_traits, C97_output, C97_bit_iterator_traits, C97_is_bit: traits. The rules of what compiles were read off the headers; no compiler was run. One word type W and const W; no volatile words; no SIMD branches."
  },
  {
   "property": "C98",
   "status": "proved",
   "theorems": [
    "BitLib.C98_text",
    "BitLib.C98_copy",
    "BitLib.C98_transform2",
    "BitLib.C98_equal",
    "BitLib.C98_fill",
    "BitLib.C98_count",
    "BitLib.C98_copy_backward",
    "BitLib.C98_shift_left",
    "BitLib.C98_shift_right",
    "BitLib.C98_reverse",
    "BitLib.C98_rotate"
   ],
   "note": "C98_text: the checks change nothing else. C98_copy, C98_transform2, C98_equal, C98_fill: never outside. C98_count, C98_copy_backward, C98_shift_left, C98_shift_right, C98_reverse, C98_rotate: exactly when outside; the model's call is assumed to complete in the bad cases, since otherwise an earlier step is undefined. Word iterators are checked when they are moved; that a word read or written exists is checked by the model itself. Scalar build."
  },
  {
   "property": "C99",
   "status": "proved",
   "theorems": [
    "BitLib.C99_text",
    "BitLib.C99_access",
    "BitLib.C99_constructors",
    "BitLib.C99_push_back",
    "BitLib.C99_erase",
    "BitLib.C99_erase_range",
    "BitLib.C99_resize",
    "BitLib.C99_insert",
    "BitLib.C99_insert_count",
    "BitLib.C99_insert_range",
    "BitLib.C99_insert_front"
   ],
   "note": "C99_text: the checks change nothing else. C99_constructors, C99_push_back, C99_erase, C99_erase_range, C99_resize: never outside. C99_access, C99_insert, C99_insert_count, C99_insert_range: exactly when outside; the model's call is assumed to complete in the bad cases, since otherwise an earlier step is undefined (C99_insert_front proves it completes). Sizes are mathematical integers here except where the text converts them (word_count, float)."
  },
  {
   "property": "C100",
   "status": "proved",
   "theorems": [
    "BitLib.Construct.C100_rejected",
    "BitLib.Construct.C100_builds",
    "BitLib.Construct.C100_invalid_range",
    "BitLib.Construct.C100_bit_list_refuted",
    "BitLib.Construct.C100_never_called",
    "BitLib.Construct.C100_number_list",
    "BitLib.Construct.C100_pointers",
    "BitLib.Construct.C100_as_std",
    "BitLib.Construct.C100_words_differ",
    "BitLib.Construct.C100_count_bool_refuted"
   ],
   "note": "C100_rejected: exactly what is rejected, and why; C100_builds: what the rest builds; C100_invalid_range. C100_bit_list_refuted, C100_never_called: the constructors that no call reaches. C100_number_list, C100_pointers: lists in braces. C100_as_std, C100_words_differ, C100_count_bool_refuted: against std::vector<bool>. The rules of the language were written down by hand for the kinds of types listed in Model/Construct; no compiler was run. The table for std::vector<bool> is from the standard. Counts are below 2^32 (C34)."
  },
  {
   "property": "C101",
   "status": "proved",
   "theorems": [
    "BitLib.Expr.C101_compiles",
    "BitLib.Expr.C101_runs",
    "BitLib.Expr.C101_no_mixing",
    "BitLib.Expr.C101_no_chain",
    "BitLib.Expr.C101_no_signed",
    "BitLib.Expr.C101_no_change",
    "BitLib.Expr.C101_std_swap_refuted",
    "BitLib.Expr.C101_order",
    "BitLib.Expr.C101_order_matters",
    "BitLib.Expr.C101_low_bit"
   ],
   "note": "C101_compiles: exactly which expressions compile, with their types. C101_runs: what they compute. C101_no_mixing, C101_no_chain, C101_no_signed, C101_no_change: what does not compile. C101_std_swap_refuted, C101_low_bit: two traps. C101_order, C101_order_matters: order of evaluation. The rules of the language were written down by hand for the kinds of operands in Model/Expr; no compiler was run. The operators of the language on numbers are a parameter."
  },
  {
   "property": "C102",
   "status": "proved",
   "theorems": [
    "BitLib.C102_callee",
    "BitLib.C102_none",
    "BitLib.C102_plain",
    "BitLib.C102_library",
    "BitLib.C102_words",
    "BitLib.C102_value_is_ref",
    "BitLib.C102_swap",
    "BitLib.C102_transform",
    "BitLib.C102_fill",
    "BitLib.C102_find",
    "BitLib.C102_count",
    "BitLib.C102_count_refuted",
    "BitLib.C102_std_bodies",
    "BitLib.C102_const_source"
   ],
   "note": "C102_callee, C102_none: the function called, for every form of call and all arguments. C102_plain, C102_library, C102_words: calls of users and in the headers. C102_value_is_ref, C102_fill, C102_find, C102_count, C102_count_refuted: a reference as the value. C102_swap, C102_transform. C102_std_bodies, C102_const_source: what compiles then. The rules of the language and the declarations of std were written down by hand; no compiler was run."
  },
  {
   "property": "C103",
   "status": "proved",
   "theorems": [
    "BitLib.C103_copy",
    "BitLib.C103_equal",
    "BitLib.C103_count",
    "BitLib.C103_find",
    "BitLib.C103_reverse",
    "BitLib.C103_swap_ranges",
    "BitLib.C103_is_within",
    "BitLib.C103_client"
   ],
   "note": "C103_copy (also move, copy_backward and both transforms), C103_equal, C103_count, C103_find, C103_reverse, C103_swap_ranges, C103_is_within: exactly when the call is a constant expression, and that its result is that at run time. C103_client: programs that use iterators, references and pointers. Which functions are constexpr was read off the declarations and the standard; no compiler was run."
  },
  {
   "property": "C104",
   "status": "proved",
   "theorems": [
    "BitLib.OpCalls.C104_transform",
    "BitLib.OpCalls.C104_transform2",
    "BitLib.OpCalls.C104_plain",
    "BitLib.OpCalls.C104_pure",
    "BitLib.OpCalls.C104_pure2",
    "BitLib.OpCalls.C104_overlap",
    "BitLib.OpCalls.C104_frame",
    "BitLib.OpCalls.C104_frame2",
    "BitLib.OpCalls.C104_calls",
    "BitLib.OpCalls.C104_calls2",
    "BitLib.OpCalls.C104_seen",
    "BitLib.OpCalls.C104_outside",
    "BitLib.OpCalls.C104_own"
   ],
   "note": "C104_transform, C104_transform2: the run of each transform is what SpecOpCalls says, for any operation and overlap. C104_plain: objects that keep nothing. C104_pure, C104_pure2: the models of C23 and C24 are the case of pure operations; C104_overlap: any word operation with any overlap. C104_frame, C104_frame2, C104_calls, C104_calls2, C104_seen: consequences. C104_outside and C104_own are witnesses: bits outside of the range are shown to the operation, and data in the object is lost with a copy."
  },
  {
   "property": "C105",
   "status": "proved",
   "theorems": [
    "BitLib.C105_find_exact",
    "BitLib.C105_find_reversed",
    "BitLib.C105_find_builds",
    "BitLib.C105_call",
    "BitLib.C105_program",
    "BitLib.C105_ok",
    "BitLib.C105_back",
    "BitLib.C105_valid",
    "BitLib.C105_valid_program",
    "BitLib.C105_refused",
    "BitLib.C105_distance",
    "BitLib.C105_find_unchecked",
    "BitLib.C105_exact",
    "BitLib.C105_proper"
   ],
   "note": "C105_call, C105_program: the two builds differ only where an assertion fails; C105_ok, C105_back: both directions. C105_valid, C105_valid_program: the effect in the build with NDEBUG, within the limits of C09, C15, C16, C17, C19, which are part of the statement. C105_refused, C105_exact, C105_proper: exactly which calls fail an assertion, for ranges that overlap in any way. C105_find_unchecked, C105_find_exact, C105_find_reversed, C105_find_builds: find, with any range. Nothing is claimed about a build with NDEBUG where an assertion would have failed, except C105_distance. Not included: bit_vector and the bit objects."
  },
  {
   "property": "C106",
   "status": "proved",
   "theorems": [
    "BitLib.C106_transform",
    "BitLib.C106_copy",
    "BitLib.C106_move",
    "BitLib.C106_period",
    "BitLib.C106_one_word",
    "BitLib.C106_one_word_copy",
    "BitLib.C106_copy_wrong",
    "BitLib.C106_one_word_backward",
    "BitLib.C106_transform2",
    "BitLib.C106_one_word2",
    "BitLib.C106_backward",
    "BitLib.C106_backward_period",
    "BitLib.C106_backward_wrong"
   ],
   "note": "C106_transform, C106_copy, C106_move: what is written for a destination to the right of the source. C106_transform2: binary transform, any places. C106_period: a distance of at least a word. C106_one_word, C106_one_word2, C106_one_word_copy, C106_one_word_backward: right within one word. C106_backward, C106_backward_period: copy_backward. C106_copy_wrong, C106_backward_wrong: otherwise wrong for some contents. Calls that would hand overlapping words to std::copy or std::copy_backward are excluded by hypothesis, since C++ leaves open what happens."
  }
 ]
}