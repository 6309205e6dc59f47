{
 "claims": [
  {
   "property": "C01",
   "status": "proved",
   "theorems": [
    "Bellframe.Props.C01_from_name_iff_to_char",
    "Bellframe.Props.C01_from_name_accepts",
    "Bellframe.Props.C01_from_name_position",
    "Bellframe.Props.C01_from_name_injective",
    "Bellframe.Props.C01_name_of_named",
    "Bellframe.Props.C01_name_cases",
    "Bellframe.Props.C01_number",
    "Bellframe.Props.C01_arithmetic",
    "Bellframe.Props.C01_treble"
   ],
   "note": ""
  },
  {
   "property": "C02",
   "status": "partial",
   "theorems": [
    "Bellframe.Props.C02_no_bell_survives_serde",
    "Bellframe.Props.C02_round_trip_false",
    "Bellframe.Props.C02_round_trip_partial"
   ],
   "note": "False of the code: Bell serialises its zero-based index but deserialises a one-based number. C02_no_bell_survives_serde shows no bell survives; C02_round_trip_partial states what is read back and that numbers/names are read correctly without panics."
  },
  {
   "property": "C03",
   "status": "proved",
   "theorems": [
    "Bellframe.Props.C03_names_agree",
    "Bellframe.Props.C03_name_table",
    "Bellframe.Props.C03_constants",
    "Bellframe.Props.C03_named_stages",
    "Bellframe.Props.C03_names_injective",
    "Bellframe.Props.C03_stage_nonzero",
    "Bellframe.Props.C03_stage_bells"
   ],
   "note": ""
  },
  {
   "property": "C04",
   "status": "partial",
   "theorems": [
    "Bellframe.Props.C04_stage_round_trip",
    "Bellframe.Props.C04_zero_panics",
    "Bellframe.Props.C04_never_panics_false",
    "Bellframe.Props.C04_never_panics_partial",
    "Bellframe.Props.C04_reads_display_name"
   ],
   "note": "Round-trip proved. \"Never panics\" is false: reading the number 0 panics (C04_zero_panics, C04_never_panics_false); C04_never_panics_partial covers every other input."
  },
  {
   "property": "C05",
   "status": "proved",
   "theorems": [
    "Bellframe.Props.C05_parity_group",
    "Bellframe.Props.C05_from_number",
    "Bellframe.Props.C05_encodings",
    "Bellframe.Props.C05_signs"
   ],
   "note": ""
  },
  {
   "property": "C06",
   "status": "proved",
   "theorems": [
    "Bellframe.Props.C06_from_vec_ok",
    "Bellframe.Props.C06_valid_iff",
    "Bellframe.Props.C06_from_vec_err",
    "Bellframe.Props.C06_from_vec_err_true"
   ],
   "note": ""
  },
  {
   "property": "C07",
   "status": "proved",
   "theorems": [
    "Bellframe.Props.C07_never_panics",
    "Bellframe.Props.C07_with_stage_ok",
    "Bellframe.Props.C07_with_stage_valid",
    "Bellframe.Props.C07_with_stage_err"
   ],
   "note": ""
  },
  {
   "property": "C08",
   "status": "proved",
   "theorems": [
    "Bellframe.Props.C08_display_parse",
    "Bellframe.Props.C08_parse_ignores_other_chars",
    "Bellframe.Props.C08_text",
    "Bellframe.Props.C08_display_parse_false_at_34"
   ],
   "note": ""
  },
  {
   "property": "C09",
   "status": "proved",
   "theorems": [
    "Bellframe.Props.C09_named_rows",
    "Bellframe.Props.C09_tests"
   ],
   "note": ""
  },
  {
   "property": "C10",
   "status": "proved",
   "theorems": [
    "Bellframe.Props.C10_mul_spec",
    "Bellframe.Props.C10_mul_perm",
    "Bellframe.Props.C10_mul_assoc",
    "Bellframe.Props.C10_rounds_identity",
    "Bellframe.Props.C10_mul_mismatch",
    "Bellframe.Props.C10_entry_points_agree"
   ],
   "note": ""
  },
  {
   "property": "C11",
   "status": "proved",
   "theorems": [
    "Bellframe.Props.C11_inverse",
    "Bellframe.Props.C11_inverse_of_product",
    "Bellframe.Props.C11_place_of",
    "Bellframe.Props.C11_entry_points_agree"
   ],
   "note": ""
  },
  {
   "property": "C12",
   "status": "proved",
   "theorems": [
    "Bellframe.Props.C12_solve_ax",
    "Bellframe.Props.C12_solve_xa",
    "Bellframe.Props.C12_solutions_exist"
   ],
   "note": ""
  },
  {
   "property": "C13",
   "status": "proved",
   "theorems": [
    "Bellframe.Props.C13_pow_u_product",
    "Bellframe.Props.C13_pow_i_cases",
    "Bellframe.Props.C13_pow_i_laws"
   ],
   "note": ""
  },
  {
   "property": "C14",
   "status": "proved",
   "theorems": [
    "Bellframe.Props.C14_parity_is_sign",
    "Bellframe.Props.C14_parity_leaves_rounds",
    "Bellframe.Props.C14_parity_laws",
    "Bellframe.Props.C14_swaps"
   ],
   "note": ""
  },
  {
   "property": "C15",
   "status": "proved",
   "theorems": [
    "Bellframe.Props.C15_effective_stage",
    "Bellframe.Props.C15_effective_prefix",
    "Bellframe.Props.C15_doc_shortest_prefix_false",
    "Bellframe.Props.C15_fixed_bells"
   ],
   "note": ""
  },
  {
   "property": "C16",
   "status": "proved",
   "theorems": [
    "Bellframe.Props.C16_closure",
    "Bellframe.Props.C16_closure_from_rounds",
    "Bellframe.Props.C16_covers_valid_rows"
   ],
   "note": ""
  },
  {
   "property": "C17",
   "status": "proved",
   "theorems": [
    "Bellframe.Props.C17_products",
    "Bellframe.Props.C17_products_mem",
    "Bellframe.Props.C17_no_sets",
    "Bellframe.Props.C17_stage_error",
    "Bellframe.Props.C17_all_rows_checked_false"
   ],
   "note": ""
  },
  {
   "property": "C18",
   "status": "proved",
   "theorems": [
    "Bellframe.Props.C18_least_group",
    "Bellframe.Props.C18_mixed_stages",
    "Bellframe.Props.C18_empty"
   ],
   "note": ""
  },
  {
   "property": "C19",
   "status": "proved",
   "theorems": [
    "Bellframe.Props.C19_is_group",
    "Bellframe.Props.C19_is_group_intrinsic",
    "Bellframe.Props.C19_degenerate"
   ],
   "note": ""
  },
  {
   "property": "C20",
   "status": "proved",
   "theorems": [
    "Bellframe.Props.C20_wrapping_injective",
    "Bellframe.Props.C20_documented_limits",
    "Bellframe.Props.C20_checked",
    "Bellframe.Props.C20_value"
   ],
   "note": ""
  },
  {
   "property": "C21",
   "status": "proved",
   "theorems": [
    "Bellframe.Props.C21_accumulator",
    "Bellframe.Props.C21_accumulate_product",
    "Bellframe.Props.C21_constructors"
   ],
   "note": ""
  },
  {
   "property": "C22",
   "status": "proved",
   "theorems": [
    "Bellframe.Props.C22_reachable_valid",
    "Bellframe.Props.C22_exact"
   ],
   "note": ""
  },
  {
   "property": "C23",
   "status": "proved",
   "theorems": [
    "Bellframe.Props.C23_step",
    "Bellframe.Props.C23_history",
    "Bellframe.Props.C23_constructors",
    "Bellframe.Props.C23_split",
    "Bellframe.Props.C23_iterator_history"
   ],
   "note": ""
  },
  {
   "property": "C24",
   "status": "partial",
   "theorems": [
    "Bellframe.Props.C24_block_paths",
    "Bellframe.Props.C24_pre_multiply",
    "Bellframe.Props.C24_extend_transposed_partial",
    "Bellframe.Props.C24_extend_transposed_errors",
    "Bellframe.Props.C24_other_stage_unchecked",
    "Bellframe.Props.C24_other_stage_exact",
    "Bellframe.Props.C24_from_within_partial",
    "Bellframe.Props.C24_from_within_past_end",
    "Bellframe.Props.C24_from_within_exact",
    "Bellframe.Props.C24_path_of"
   ],
   "note": "Proved for source vectors of the same stage and ranges inside the vector. False beyond that: extend_transposed never checks the stage of the other vector (C24_other_stage_unchecked) and extend_transposed_from_within past the end copies rows it has just appended (C24_from_within_past_end). C24_other_stage_exact and C24_from_within_exact say what happens for every stage and every range."
  },
  {
   "property": "C25",
   "status": "partial",
   "theorems": [
    "Bellframe.Props.C25_lines_unique",
    "Bellframe.Props.C25_parse_partial",
    "Bellframe.Props.C25_empty_panics"
   ],
   "note": "Proved for every non-empty text. parse(\"\") panics (C25_empty_panics), so \"never panics\" is false."
  },
  {
   "property": "C26",
   "status": "partial",
   "theorems": [
    "Bellframe.Props.C26_wellFormed_iff",
    "Bellframe.Props.C26_constructors",
    "Bellframe.Props.C26_invariant_partial",
    "Bellframe.Props.C26_extend_range_exact",
    "Bellframe.Props.C26_extend_range_breaks",
    "Bellframe.Props.C26_getters",
    "Bellframe.Props.C26_annotations"
   ],
   "note": "False of extend_range: it copies all annotations whatever the range (C26_extend_range_exact, C26_extend_range_breaks). C26_invariant_partial covers every history of the other operations and of extend_range over a whole block."
  },
  {
   "property": "C27",
   "status": "proved",
   "theorems": [
    "Bellframe.Props.C27_extend",
    "Bellframe.Props.C27_extend_from_rounds",
    "Bellframe.Props.C27_extend_assoc",
    "Bellframe.Props.C27_extend_mismatch",
    "Bellframe.Props.C27_extend_from_within"
   ],
   "note": ""
  },
  {
   "property": "C28",
   "status": "proved",
   "theorems": [
    "Bellframe.Props.C28_split"
   ],
   "note": ""
  },
  {
   "property": "C29",
   "status": "proved",
   "theorems": [
    "Bellframe.Props.C29_repeat_iter",
    "Bellframe.Props.C29_edge_cases"
   ],
   "note": ""
  },
  {
   "property": "C30",
   "status": "proved",
   "theorems": [
    "Bellframe.Props.C30_cross",
    "Bellframe.Props.C30_parse",
    "Bellframe.Props.C30_order",
    "Bellframe.Props.C30_places",
    "Bellframe.Props.C30_well_formed"
   ],
   "note": ""
  },
  {
   "property": "C31",
   "status": "proved",
   "theorems": [
    "Bellframe.Props.C31_permute",
    "Bellframe.Props.C31_mismatch",
    "Bellframe.Props.C31_injective"
   ],
   "note": ""
  },
  {
   "property": "C32",
   "status": "proved",
   "theorems": [
    "Bellframe.Props.C32_pn_between",
    "Bellframe.Props.C32_unique",
    "Bellframe.Props.C32_mismatch"
   ],
   "note": ""
  },
  {
   "property": "C33",
   "status": "proved",
   "theorems": [
    "Bellframe.Props.C33_display_parse",
    "Bellframe.Props.C33_display_parse_false_at_34",
    "Bellframe.Props.C33_internal_places"
   ],
   "note": ""
  },
  {
   "property": "C34",
   "status": "proved",
   "theorems": [
    "Bellframe.Props.C34_syntax",
    "Bellframe.Props.C34_total",
    "Bellframe.Props.C34_separated",
    "Bellframe.Props.C34_well_formed"
   ],
   "note": ""
  },
  {
   "property": "C35",
   "status": "partial",
   "theorems": [
    "Bellframe.Props.C35_positions_partial",
    "Bellframe.Props.C35_single_part_partial",
    "Bellframe.Props.C35_positions_false",
    "Bellframe.Props.C35_range_false"
   ],
   "note": "False of the code: positions in parts after a comma are moved by the position of the part (C35_positions_false), and the range of a wrong group of places ends one byte too far (C35_range_false). C35_positions_partial is an equivalence: exactly which texts are rejected, with which error, about the first wrong piece of the first wrong part, and how the reported positions relate to the true ones; C35_single_part_partial shows positions are right without commas, but for the range end."
  },
  {
   "property": "C36",
   "status": "proved",
   "theorems": [
    "Bellframe.Props.C36_rows",
    "Bellframe.Props.C36_mismatch",
    "Bellframe.Props.C36_from_vec",
    "Bellframe.Props.C36_well_formed"
   ],
   "note": ""
  },
  {
   "property": "C37",
   "status": "proved",
   "theorems": [
    "Bellframe.Props.C37_matches",
    "Bellframe.Props.C37_full_row",
    "Bellframe.Props.C37_empty",
    "Bellframe.Props.C37_fix_bells",
    "Bellframe.Props.C37_fix_bells_outside",
    "Bellframe.Props.C37_as_row",
    "Bellframe.Props.C37_as_row_valid",
    "Bellframe.Props.C37_places"
   ],
   "note": ""
  },
  {
   "property": "C38",
   "status": "partial",
   "theorems": [
    "Bellframe.Props.C38_well_formed_iff",
    "Bellframe.Props.C38_compatible",
    "Bellframe.Props.C38_combine",
    "Bellframe.Props.C38_subset_sound",
    "Bellframe.Props.C38_subset_exact",
    "Bellframe.Props.C38_subset_partial",
    "Bellframe.Props.C38_subset_false"
   ],
   "note": "Compatibility and combination proved in full. is_subset_of is sound but misses inclusions when the first mask has exactly one open place (C38_subset_false); C38_subset_partial covers all other masks, C38_subset_exact says exactly when the answer is yes."
  },
  {
   "property": "C39",
   "status": "proved",
   "theorems": [
    "Bellframe.Props.C39_mask_mul_row",
    "Bellframe.Props.C39_row_mul_mask",
    "Bellframe.Props.C39_stage_mismatch"
   ],
   "note": ""
  },
  {
   "property": "C40",
   "status": "partial",
   "theorems": [
    "Bellframe.Props.C40_set_bell",
    "Bellframe.Props.C40_fix",
    "Bellframe.Props.C40_history_partial",
    "Bellframe.Props.C40_constructors_partial",
    "Bellframe.Props.C40_parse_partial",
    "Bellframe.Props.C40_parse_text",
    "Bellframe.Props.C40_false"
   ],
   "note": "False of the safe API: parse does not check its text, set_bell accepts bells outside the stage and panics on places outside it (C40_false). C40_history_partial, C40_constructors_partial and C40_parse_partial say exactly when masks are well-formed; C40_parse_text, C40_set_bell and C40_fix give the effect of parse, set_bell and fix."
  },
  {
   "property": "C41",
   "status": "proved",
   "theorems": [
    "Bellframe.Props.C41_normal",
    "Bellframe.Props.C41_from_vec",
    "Bellframe.Props.C41_parse",
    "Bellframe.Props.C41_text_unique"
   ],
   "note": ""
  },
  {
   "property": "C42",
   "status": "proved",
   "theorems": [
    "Bellframe.Props.C42_normalise",
    "Bellframe.Props.C42_normal_unchanged",
    "Bellframe.Props.C42_keeps"
   ],
   "note": ""
  },
  {
   "property": "C43",
   "status": "proved",
   "theorems": [
    "Bellframe.Props.C43_match_pattern"
   ],
   "note": ""
  },
  {
   "property": "C44",
   "status": "partial",
   "theorems": [
    "Bellframe.Props.C44_runs_front",
    "Bellframe.Props.C44_runs_back",
    "Bellframe.Props.C44_runs_front_or_back",
    "Bellframe.Props.C44_all_runs_partial",
    "Bellframe.Props.C44_all_runs_zero_false"
   ],
   "note": "runs_front, runs_back and runs_front_or_back proved in full. all_runs (and runs with internal runs) with length 0 gives regexes which panic on every row (C44_all_runs_zero_false); C44_all_runs_partial covers all other lengths."
  },
  {
   "property": "C45",
   "status": "partial",
   "theorems": [
    "Bellframe.Props.C45_count",
    "Bellframe.Props.C45_computed",
    "Bellframe.Props.C45_count_partial",
    "Bellframe.Props.C45_count_false",
    "Bellframe.Props.C45_panics",
    "Bellframe.Props.C45_computed_exact",
    "Bellframe.Props.C45_right_iff"
   ],
   "note": "False of the code: counts are wrong for several wildcards or globs and for repeated bells (C45_count_false), and the function panics on some inputs (C45_panics). C45_count gives the true number for every normal regex, C45_computed_exact the answer of the code in all cases (C45_computed if all fits), C45_count_partial the case where they agree: one glob, at most one wildcard, distinct bells of the stage; C45_right_iff says exactly when an answer is right for regexes with at most one glob."
  },
  {
   "property": "C46",
   "status": "proved",
   "theorems": [
    "Bellframe.Props.C46_mask_regex"
   ],
   "note": ""
  },
  {
   "property": "C47",
   "status": "proved",
   "theorems": [
    "Bellframe.Props.C47_choice",
    "Bellframe.Props.C47_choice_underflow",
    "Bellframe.Props.C47_clamp_range",
    "Bellframe.Props.C47_split_vec",
    "Bellframe.Props.C47_run_len",
    "Bellframe.Props.C47_run_len_empty"
   ],
   "note": ""
  },
  {
   "property": "C48",
   "status": "proved",
   "theorems": [
    "Bellframe.Props.C48_row_in_plain_course",
    "Bellframe.Props.C48_plain_course",
    "Bellframe.Props.C48_plain_course_ends",
    "Bellframe.Props.C48_diverges_witness",
    "Bellframe.Props.C48_empty_lead"
   ],
   "note": "C48_plain_course covers leads from rounds; C48_plain_course_ends says exactly when plain_course terminates for all other leads (C48_diverges_witness: it may not); rowInPlainCourse of an empty lead divides by zero (C48_empty_lead)."
  },
  {
   "property": "C49",
   "status": "proved",
   "theorems": [
    "Bellframe.Props.C49_set_label",
    "Bellframe.Props.C49_history",
    "Bellframe.Props.C49_label_indices",
    "Bellframe.Props.C49_set_lead_end_label",
    "Bellframe.Props.C49_with_lead_end"
   ],
   "note": "Note the two different lead end positions: with_lead_end labels the last row, set_lead_end_label the first."
  },
  {
   "property": "C50",
   "status": "proved",
   "theorems": [
    "Bellframe.Props.C50_cycles",
    "Bellframe.Props.C50_principle"
   ],
   "note": ""
  },
  {
   "property": "C51",
   "status": "proved",
   "theorems": [
    "Bellframe.Props.C51_classify",
    "Bellframe.Props.C51_hunt_bell_class",
    "Bellframe.Props.C51_symmetric_hunter",
    "Bellframe.Props.C51_jump_panics",
    "Bellframe.Props.C51_bad_start",
    "Bellframe.Props.C51_class_unique",
    "Bellframe.Props.C51_place_notation",
    "Bellframe.Props.C51_hunt_path",
    "Bellframe.Props.C51_palindromic",
    "Bellframe.Props.C51_jump_witness"
   ],
   "note": "C51_place_notation: never panics for place notation. For other leads classify panics exactly when bells jump at a cross section (C51_classify, C51_jump_panics, C51_jump_witness), or the lead is empty or starts elsewhere (C51_bad_start). is_jump is never set."
  },
  {
   "property": "C52",
   "status": "proved",
   "theorems": [
    "Bellframe.Props.C52_class_name",
    "Bellframe.Props.C52_class_name_injective",
    "Bellframe.Props.C52_title",
    "Bellframe.Props.C52_title_exists",
    "Bellframe.Props.C52_title_panics",
    "Bellframe.Props.C52_spaces",
    "Bellframe.Props.C52_same_title"
   ],
   "note": "C52_title_panics: no titles above 22 bells. C52_same_title: titles of principles and hybrids coincide."
  },
  {
   "property": "C53",
   "status": "partial",
   "theorems": [
    "Bellframe.Props.C53_lookup",
    "Bellframe.Props.C53_lookup_partial",
    "Bellframe.Props.C53_unique",
    "Bellframe.Props.C53_case",
    "Bellframe.Props.C53_from_json",
    "Bellframe.Props.C53_untitled_false"
   ],
   "note": "False for libraries with a title that does not end in the name of its stage: that method is never found (C53_untitled_false). C53_lookup gives the exact result for every library, C53_lookup_partial the claim when all titles end in their stage, C53_from_json shows when that is so. to_lowercase is a parameter assumed to satisfy LowerCase."
  },
  {
   "property": "C54",
   "status": "proved",
   "theorems": [
    "Bellframe.Props.C54_suggestions"
   ],
   "note": "edit_distance is an arbitrary function; the shortlist crate is assumed to satisfy IsShortlist for the number of suggestions asked for; C91 proves this for shortlists on top of a heap."
  },
  {
   "property": "C55",
   "status": "proved",
   "theorems": [
    "Bellframe.Props.C55_round_trip",
    "Bellframe.Props.C55_any_keys",
    "Bellframe.Props.C55_same_lookups",
    "Bellframe.Props.C55_large_stage",
    "Bellframe.Props.C55_large_stage_witness"
   ],
   "note": "JSON is modelled as values (serde_json text is trusted); all iteration orders of hash maps are covered. C55_large_stage: to_json panics for libraries with more than 22 bells."
  },
  {
   "property": "C56",
   "status": "proved",
   "theorems": [
    "Bellframe.Props.C56_calls",
    "Bellframe.Props.C56_transposition"
   ],
   "note": ""
  },
  {
   "property": "C57",
   "status": "partial",
   "theorems": [
    "Bellframe.Props.C57_get_partial",
    "Bellframe.Props.C57_get_debug",
    "Bellframe.Props.C57_get_debug_exact",
    "Bellframe.Props.C57_get_release_exact",
    "Bellframe.Props.C57_not_a_row",
    "Bellframe.Props.C57_wraps"
   ],
   "note": "False in release builds: the index computation wraps, so an index far out of range returns a row (C57_wraps), or even bells that are no row (C57_not_a_row). C57_get_partial covers indices whose byte range fits; C57_get_release_exact and C57_get_debug_exact give the answer for every index, without and with overflow checks."
  },
  {
   "property": "C58",
   "status": "proved",
   "theorems": [
    "Bellframe.Props.C58_text_round_trip",
    "Bellframe.Props.C58_well_formed",
    "Bellframe.Props.C58_beyond_33"
   ],
   "note": ""
  },
  {
   "property": "C59",
   "status": "proved",
   "theorems": [
    "Bellframe.Props.C59_text_round_trip"
   ],
   "note": ""
  },
  {
   "property": "C60",
   "status": "proved",
   "theorems": [
    "Bellframe.Props.C60_mask_count"
   ],
   "note": ""
  },
  {
   "property": "C61",
   "status": "proved",
   "theorems": [
    "Bellframe.Props.C61_from_place_not_string"
   ],
   "note": ""
  },
  {
   "property": "C62",
   "status": "proved",
   "theorems": [
    "Bellframe.Props.C62_block_effective_stage"
   ],
   "note": ""
  },
  {
   "property": "C63",
   "status": "partial",
   "theorems": [
    "Bellframe.Props.C63_from_json_partial",
    "Bellframe.Props.C63_false"
   ],
   "note": "False: C63_false. C63_from_json_partial says exactly when from_json panics."
  },
  {
   "property": "C64",
   "status": "partial",
   "theorems": [
    "Bellframe.Props.C64_mask_witness",
    "Bellframe.Props.C64_vec_witness",
    "Bellframe.Props.C64_memory_safety_partial"
   ],
   "note": "False of the safe API: C64_mask_witness (as_row of a malformed mask) and C64_vec_witness (extend_transposed from another stage, then inv_into_buf) reach the unchecked access out of bounds. C64_memory_safety_partial: every program that does neither is safe."
  },
  {
   "property": "C65",
   "status": "proved",
   "theorems": [
    "Bellframe.Props.C65_call",
    "Bellframe.Props.C65_crash",
    "Bellframe.Props.C65_cache",
    "Bellframe.Props.C65_history",
    "Bellframe.Props.C65_saved",
    "Bellframe.Props.C65_poisoned"
   ],
   "note": "System calls are the atomic steps; serde_json is a parameter assumed to satisfy JsonSyntax (no NUL bytes; an object cut short is not JSON unless only blanks are cut), which C90_syntax proves of the grammar of JSON. C65_poisoned: a cache on which from_json panics (which no history of calls produces) makes every later call panic."
  },
  {
   "property": "C66",
   "status": "partial",
   "theorems": [
    "Bellframe.Props.C66_same_text_partial",
    "Bellframe.Props.C66_contents",
    "Bellframe.Props.C66_results",
    "Bellframe.Props.C66_false"
   ],
   "note": "False if the server changes its text meanwhile: the file is not written atomically, so a call can return a mixture that was never sent (C66_false). C66_same_text_partial covers all schedules, crashes and failures when all calls are sent the same text. For different texts C66_contents says exactly what can get into the cache (every bytewise mixture, and nothing else but zeros) and C66_results what a call can return."
  },
  {
   "property": "C67",
   "status": "proved",
   "theorems": [
    "Bellframe.Props.C67_format",
    "Bellframe.Props.C67_fields"
   ],
   "note": "The text of JSON is trusted to serde_json; the values it gives are modelled."
  },
  {
   "property": "C68",
   "status": "proved",
   "theorems": [
    "Bellframe.Props.C68_never_panics",
    "Bellframe.Props.C68_gap",
    "Bellframe.Props.C68_row_errors",
    "Bellframe.Props.C68_vec_errors",
    "Bellframe.Props.C68_block_errors",
    "Bellframe.Props.C68_stage_errors",
    "Bellframe.Props.C68_incompatible_stages",
    "Bellframe.Props.C68_pn_errors",
    "Bellframe.Props.C68_pn_block_errors",
    "Bellframe.Props.C68_invalid_pn_blocks"
   ],
   "note": "C68_pn_block_errors: the end of the range of a PnBlockParseError is not part of its message, and is all that two errors with the same message can differ in (together with C68_pn_errors)."
  },
  {
   "property": "C69",
   "status": "proved",
   "theorems": [
    "Bellframe.Props.C69_rows",
    "Bellframe.Props.C69_regexes",
    "Bellframe.Props.C69_masks",
    "Bellframe.Props.C69_place_notations",
    "Bellframe.Props.C69_stages",
    "Bellframe.Props.C69_vectors",
    "Bellframe.Props.C69_blocks"
   ],
   "note": "Blocks: provided that the texts of annotations identify them and contain no commas."
  },
  {
   "property": "C70",
   "status": "proved",
   "theorems": [
    "Bellframe.Props.C70_total_order",
    "Bellframe.Props.C70_first_difference",
    "Bellframe.Props.C70_any_stages",
    "Bellframe.Props.C70_extremes"
   ],
   "note": "The derived orders are modelled after the Rust documentation of derive and of slices."
  },
  {
   "property": "C71",
   "status": "proved",
   "theorems": [
    "Bellframe.Props.C71_same_class"
   ],
   "note": "For methods given by place notation, which never panic (C51_place_notation)."
  },
  {
   "property": "C72",
   "status": "proved",
   "theorems": [
    "Bellframe.Props.C72_upside_down"
   ],
   "note": "For methods given by place notation. Rests on treble dodging hunt bells visiting an even number of places when no bell jumps (dodging_places)."
  },
  {
   "property": "C73",
   "status": "proved",
   "theorems": [
    "Bellframe.Props.C73_number",
    "Bellframe.Props.C73_name",
    "Bellframe.Props.C73_add_sub",
    "Bellframe.Props.C73_ranges",
    "Bellframe.Props.C73_powers",
    "Bellframe.Props.C73_run_len",
    "Bellframe.Props.C73_run_len_limits"
   ],
   "note": "Run lengths: exact for bells in the lower half of the words (all bells of rows that fit into memory); C73_run_len_limits has the errors beyond."
  },
  {
   "property": "C74",
   "status": "partial",
   "theorems": [
    "Bellframe.Props.C74_reading_partial",
    "Bellframe.Props.C74_false"
   ],
   "note": "False on 32-bit machines, where numbers are cut off to 32 bits: 2^32+5 is read as bell 5, and 2^32 panics (C74_false). C74_reading_partial: numbers that fit into a word, so all numbers on 64-bit machines."
  },
  {
   "property": "C75",
   "status": "partial",
   "theorems": [
    "Bellframe.Props.C75_rows_partial",
    "Bellframe.Props.C75_contract",
    "Bellframe.Props.C75_false",
    "Bellframe.Props.C75_not_contract"
   ],
   "note": "False: size_hint is not overridden, so it is (0, None) for every iterator (C75_false, C75_not_contract), and skip(n).rev(), skip(n).len(), take(n).len() and zip(..).len() panic. C75_rows_partial has what works; C75_contract shows that keeping the contract would be enough. The adapters are modelled after the source of core::iter."
  },
  {
   "property": "C76",
   "status": "proved",
   "theorems": [
    "Bellframe.Props.C76_change",
    "Bellframe.Props.C76_block"
   ],
   "note": "The number of pairs swapped is half of the number of places not made (swaps)."
  },
  {
   "property": "C77",
   "status": "proved",
   "theorems": [
    "Bellframe.Props.C77_palindrome",
    "Bellframe.Props.C77_symmetric_hunter",
    "Bellframe.Props.C77_text",
    "Bellframe.Props.C77_method"
   ],
   "note": "C77_symmetric_hunter needs a bell that is in its place at the end of both parts: an example shows x,x on four bells, a hybrid."
  },
  {
   "property": "C78",
   "status": "proved",
   "theorems": [
    "Bellframe.Props.C78_table",
    "Bellframe.Props.C78_round_trip",
    "Bellframe.Props.C78_blocks",
    "Bellframe.Props.C78_false_at_34"
   ],
   "note": ""
  },
  {
   "property": "C79",
   "status": "partial",
   "theorems": [
    "Bellframe.Props.C79_split",
    "Bellframe.Props.C79_split_false",
    "Bellframe.Props.C79_index",
    "Bellframe.Props.C79_ranges_partial",
    "Bellframe.Props.C79_ranges_release",
    "Bellframe.Props.C79_ranges_false",
    "Bellframe.Props.C79_blocks"
   ],
   "note": "False in release builds, where products of indices and stages wrap around: split can cut a vector in the middle of a row (C79_split_false), and ranges past the end copy rows, or bells that are no row (C79_ranges_false). C79_split and C79_index give the exact results of split and indexing for every build and index; C79_ranges_partial covers ranges whose ends have places in memory, and all ranges with overflow checks; C79_ranges_release says exactly what every range gives in release builds. C79_blocks: AnnotBlock::split is right for every index and build, since annotations are split first."
  },
  {
   "property": "C80",
   "status": "partial",
   "theorems": [
    "Bellframe.Props.C80_agreement",
    "Bellframe.Props.C80_extend",
    "Bellframe.Props.C80_vectors",
    "Bellframe.Props.C80_vectors_false",
    "Bellframe.Props.C80_extend_range",
    "Bellframe.Props.C80_extend_range_mismatch",
    "Bellframe.Props.C80_extend_from_within",
    "Bellframe.Props.C80_blocks_partial",
    "Bellframe.Props.C80_blocks_false"
   ],
   "note": "False of blocks: a bad range makes extend_range lose the left-over row and extend_from_within add rows without annotations, and a panic of Clone leaves too few annotations (C80_blocks_false). False of vectors when transposing from a larger stage (C80_vectors_false). Proved: vectors are unchanged in all other cases (C80_vectors), keep the rows yielded by an iterator that panics (C80_extend); exact states of blocks in every case (C80_extend_range, C80_extend_range_mismatch, C80_extend_from_within); a block is unchanged or malformed, and when (C80_blocks_partial). C80_agreement ties these models to those of C24, C26, C27. C64 covers programs that go on after a panic."
  },
  {
   "property": "C81",
   "status": "partial",
   "theorems": [
    "Bellframe.Props.C81_checks",
    "Bellframe.Props.C81_release",
    "Bellframe.Props.C81_partial",
    "Bellframe.Props.C81_false"
   ],
   "note": "False: the last product, and the subtractions, are not checked (C81_false): release builds answer 21! mod 2^64 for x* on 21 bells, and divide by zero for 66 wildcards on 65 bells; builds with overflow checks panic. Proved: the answer in all cases, C81_checks (what C45_computed_exact says) and C81_release; C81_partial: the promise holds for the binomial coefficient and the factorials, and the number is right if nothing overflows."
  },
  {
   "property": "C82",
   "status": "proved",
   "theorems": [
    "Bellframe.Props.C82_rows",
    "Bellframe.Props.C82_vectors",
    "Bellframe.Props.C82_blocks",
    "Bellframe.Props.C82_methods",
    "Bellframe.Props.C82_place_notation",
    "Bellframe.Props.C82_music"
   ],
   "note": "One theorem per family of calls; the calls, the values that safe code can make and the conditions are in Spec/Panics.lean. Builds with overflow checks, and sizes that fit into memory; C57, C79, C80 and C81 have the other builds and the limits of machine words."
  },
  {
   "property": "C83",
   "status": "partial",
   "theorems": [
    "Bellframe.Props.C83_false",
    "Bellframe.Props.C83_constructors_partial",
    "Bellframe.Props.C83_get",
    "Bellframe.Props.C83_rows",
    "Bellframe.Props.C83_transposition",
    "Bellframe.Props.C83_mul_other_stages",
    "Bellframe.Props.C83_vectors",
    "Bellframe.Props.C83_from_sorted_slice",
    "Bellframe.Props.C83_permute",
    "Bellframe.Props.C83_pn_block",
    "Bellframe.Props.C83_regex",
    "Bellframe.Props.C83_masks",
    "Bellframe.Props.C83_fix"
   ],
   "note": "False for rows: the documented condition also holds of no bells at all, which are no row (C83_false). C83_constructors_partial: that is the only exception. C83_masks: set_bell_unchecked agrees with set_bell, but the mask is well formed only if the bell is of the stage (as in C40). All other functions are covered as stated. C83_mul_other_stages says what an unchecked product of rows of different stages is."
  },
  {
   "property": "C84",
   "status": "proved",
   "theorems": [
    "Bellframe.Props.C84_once",
    "Bellframe.Props.C84_anywhere",
    "Bellframe.Props.C84_count",
    "Bellframe.Props.C84_total",
    "Bellframe.Props.C84_count_anywhere",
    "Bellframe.Props.C84_run_len"
   ],
   "note": "For regexes of all_runs num_matching_rows is wrong by a factor (n - len + 1), which C84_count_anywhere says exactly (a case of C45)."
  },
  {
   "property": "C85",
   "status": "proved",
   "theorems": [
    "Bellframe.Props.C85_recover",
    "Bellframe.Props.C85_rebuild",
    "Bellframe.Props.C85_unique",
    "Bellframe.Props.C85_impossible"
   ],
   "note": "Both directions, and uniqueness and impossibility as consequences."
  },
  {
   "property": "C86",
   "status": "proved",
   "theorems": [
    "Bellframe.Props.C86_closure",
    "Bellframe.Props.C86_least",
    "Bellframe.Props.C86_fixed_point",
    "Bellframe.Props.C86_sizes"
   ],
   "note": "Sets are lists without repetitions, in any order."
  },
  {
   "property": "C87",
   "status": "partial",
   "theorems": [
    "Bellframe.Props.C87_import",
    "Bellframe.Props.C87_panics",
    "Bellframe.Props.C87_nothing_lost",
    "Bellframe.Props.C87_workflow",
    "Bellframe.Props.C87_direct_partial",
    "Bellframe.Props.C87_direct_false"
   ],
   "note": "The importer does not compile at this commit; it is modelled with three repairs (see Model/ImportXml.lean). False part: the importer stores methods under their titles as written, not in lower case, so get_by_title on the imported library never finds a title with a capital letter (C87_direct_false; exactly what is found: C87_direct_partial). All other parts proved."
  },
  {
   "property": "C88",
   "status": "proved",
   "theorems": [
    "Bellframe.Props.C88_block",
    "Bellframe.Props.C88_comes_round",
    "Bellframe.Props.C88_half_extent"
   ],
   "note": "SwapsPairs counts pairs as (bells - places)/2 from the public list of places. Goes beyond C76 (parity of the last row). C14_swaps (in C14) is the documented meaning of Parity in numbers of swaps."
  },
  {
   "property": "C89",
   "status": "proved",
   "theorems": [
    "Bellframe.Props.C89_hash",
    "Bellframe.Props.C89_borrow",
    "Bellframe.Props.C89_sets",
    "Bellframe.Props.C89_least_group",
    "Bellframe.Props.C89_least_group_mixed",
    "Bellframe.Props.C89_is_group"
   ],
   "note": "Hash tables are lists of buckets, chosen by the hash of what is written modulo the number of buckets; the hasher is an arbitrary function of the writes and the size after each insertion an arbitrary function of the table. C18 and C19 say the same of sets abstractly; C89 derives it for the tables."
  },
  {
   "property": "C90",
   "status": "proved",
   "theorems": [
    "Bellframe.Props.C90_reader",
    "Bellframe.Props.C90_bytes",
    "Bellframe.Props.C90_unambiguous",
    "Bellframe.Props.C90_round_trip",
    "Bellframe.Props.C90_injective",
    "Bellframe.Props.C90_library",
    "Bellframe.Props.C90_valid",
    "Bellframe.Props.C90_from_text",
    "Bellframe.Props.C90_syntax",
    "Bellframe.Props.C90_cache",
    "Bellframe.Props.C90_mixture"
   ],
   "note": "Model/JsonText.lean models serde_json::to_string (compact format) and serde_json::from_str as a writer and a reader; Spec/JsonText.lean gives the grammar of RFC 8259 as inductive relations; C90_reader proves them the same. serde_json is not in /repo: the model follows its documented behaviour, with the simplifications listed at the top of the model file."
  },
  {
   "property": "C91",
   "status": "proved",
   "theorems": [
    "Bellframe.Props.C91_distance",
    "Bellframe.Props.C91_metric",
    "Bellframe.Props.C91_shortlist",
    "Bellframe.Props.C91_suggestions"
   ],
   "note": "Model/Suggestions.lean has the dynamic programming of the edit-distance crate and a shortlist on top of a heap; both crates are not in /repo and are modelled from their documentation and algorithm. C54 holds for any distance and any shortlist meeting IsShortlist; C91 discharges both. Zero suggestions are left to the shortlist crate."
  },
  {
   "property": "C92",
   "status": "partial",
   "theorems": [
    "Bellframe.Props.C92_no_names",
    "Bellframe.Props.C92_false",
    "Bellframe.Props.C92_stage",
    "Bellframe.Props.C92_bell",
    "Bellframe.Props.C92_partial"
   ],
   "note": "False of the code: both types are read with deserialize_u64, for which serde_json accepts numbers only, so no string is read as a stage or bell (C92_no_names, C92_false). C92_stage and C92_bell say exactly which texts are read as what: stages from the integers above zero (a panic at any text beginning with the number zero, even if no JSON follows), bells from one-based numbers, never a panic. C92_partial: numbers are read, stages survive, bells come back as the bell below. serde_json is not in /repo."
  },
  {
   "property": "C93",
   "status": "proved",
   "theorems": [
    "Bellframe.Props.C93_plain_hunt",
    "Bellframe.Props.C93_plain_bob"
   ],
   "note": "C93_plain_hunt, C93_plain_bob. The specification gives the place of every bell in every row in closed form (huntPlace, bobPlace), from the English description of plain hunting, and the texts; nothing of the model is used in it."
  },
  {
   "property": "C94",
   "status": "proved",
   "theorems": [
    "Bellframe.Props.C94_regex",
    "Bellframe.Props.C94_parity",
    "Bellframe.Props.C94_is_group",
    "Bellframe.Props.C94_least_group",
    "Bellframe.Props.C94_palindromic"
   ],
   "note": "The functions of Model/Cost.lean are those of the model with counters added; every theorem also says that the results are the same. The counters are of calls of next, iterations, products, inversions and comparisons as the documentation names them, not of machine instructions; building and querying hash sets is not counted."
  },
  {
   "property": "C95",
   "status": "partial",
   "theorems": [
    "Bellframe.Props.C95_overwrite",
    "Bellframe.Props.C95_accumulator",
    "Bellframe.Props.C95_pow",
    "Bellframe.Props.C95_repeat",
    "Bellframe.Props.C95_capacity_partial",
    "Bellframe.Props.C95_capacity_exact",
    "Bellframe.Props.C95_capacity_false"
   ],
   "note": "False of release builds: the product in with_capacity wraps around, so a vector with capacity for 2^63 rows on two bells has no memory and allocates at the first row (C95_capacity_false). C95_capacity_partial: the promise holds whenever the memory for the rows has a size; C95_capacity_exact says what happens otherwise, for every build. All other parts are proved as stated. Buffers have capacities and addresses, and std is modelled as promising that a vector allocates only when its capacity does not suffice, with an arbitrary function for what it allocates beyond the need."
  },
  {
   "property": "C96",
   "status": "proved",
   "theorems": [
    "Bellframe.Props.C96_grandsire"
   ],
   "note": "For every stage from 5 to 22, with the places given by a formula (Spec/Grandsire.lean) in terms of plain hunting. From 23 bells on the stage has no name and no method can be made (C52)."
  },
  {
   "property": "C97",
   "status": "proved",
   "theorems": [
    "Bellframe.Props.C97_rung",
    "Bellframe.Props.C97_join",
    "Bellframe.Props.C97_splice",
    "Bellframe.Props.C97_called_lead",
    "Bellframe.Props.C97_touch",
    "Bellframe.Props.C97_comes_round"
   ],
   "note": "spliceCall and ringTouch (Spec/Touch.lean) are programs of a user of the API, made of split, extend and empty only. A call that would cover more than is left of the lead is outside the range of split and gives none."
  },
  {
   "property": "C98",
   "status": "proved",
   "theorems": [
    "Bellframe.Props.C98_stedman"
   ],
   "note": "For every odd stage from 5 to 21. The way of a bell is given step by step (Spec/Stedman.lean) without mentioning place notation or permutations. That no row comes twice is proved by looking at which bells are in the front work and where."
  },
  {
   "property": "C99",
   "status": "proved",
   "theorems": [
    "Bellframe.Props.C99_leads",
    "Bellframe.Props.C99_course",
    "Bellframe.Props.C99_touch",
    "Bellframe.Props.C99_extent",
    "Bellframe.Props.C99_tests"
   ],
   "note": "C99_leads, C99_course, C99_touch (for the touches of C97), C99_extent, C99_tests. Spec/Truth.lean defines truth and false lead heads by rows and solve_xa_equals_b only. The left-over row does not count as rung."
  },
  {
   "property": "C100",
   "status": "proved",
   "theorems": [
    "Bellframe.Props.C100_one_call",
    "Bellframe.Props.C100_plain_bob"
   ],
   "note": "C100_one_call, C100_plain_bob. The touches are made with split and extend only (spliceCall and ringTouch of Spec/Touch.lean, oneCallTouch of Spec/OneCall.lean)."
  },
  {
   "property": "C101",
   "status": "proved",
   "theorems": [
    "Bellframe.Props.C101_backwards",
    "Bellframe.Props.C101_elsewhere",
    "Bellframe.Props.C101_upside_down",
    "Bellframe.Props.C101_comma"
   ],
   "note": "C101_backwards, C101_elsewhere, C101_upside_down, C101_comma. Truth as in Spec/Truth.lean (C99); C71 and C72 are about the class of the same methods."
  },
  {
   "property": "C102",
   "status": "proved",
   "theorems": [
    "Bellframe.Props.C102_kent"
   ],
   "note": "C102_kent. Unlike C93, C96 and C98 it goes through the classification of dodging hunt bells and of the changes where they go from one pair of places to the next. The path of the treble and the text are in Spec/Kent.lean."
  },
  {
   "property": "C103",
   "status": "proved",
   "theorems": [
    "Bellframe.Props.C103_extend",
    "Bellframe.Props.C103_steps",
    "Bellframe.Props.C103_arithmetic",
    "Bellframe.Props.C103_closure",
    "Bellframe.Props.C103_text",
    "Bellframe.Props.C103_change",
    "Bellframe.Props.C103_course",
    "Bellframe.Props.C103_class"
   ],
   "note": "C103_extend, C103_steps, C103_arithmetic, C103_closure and C103_text are about rows, C103_change and C103_course about changes and plain courses, and C103_class about the classification."
  },
  {
   "property": "C104",
   "status": "proved",
   "theorems": [
    "Bellframe.Props.C104_relabel",
    "Bellframe.Props.C104_kept",
    "Bellframe.Props.C104_courses",
    "Bellframe.Props.C104_reversed",
    "Bellframe.Props.C104_runs",
    "Bellframe.Props.C104_extent"
   ],
   "note": "C104_relabel, C104_kept, C104_courses, C104_reversed, C104_runs and C104_extent. The number of musical rows of a block is defined in Spec/MusicOf.lean by the rows rung and the answers of matches."
  },
  {
   "property": "C105",
   "status": "proved",
   "theorems": [
    "Bellframe.Props.C105_plain_bob"
   ],
   "note": "C105_plain_bob. The parts of the library are those of C97 (joining leads) and C100 (the same call in every lead); here the list of leads is arbitrary. An example shows a true touch of Minor with bobs only that has exactly half of all rows."
  },
  {
   "property": "C106",
   "status": "proved",
   "theorems": [
    "Bellframe.Props.C106_two_leads",
    "Bellframe.Props.C106_grandsire"
   ],
   "note": "C106_two_leads is the general fact about two kinds of leads, C106_grandsire the one about Grandsire. An example shows a true touch of Doubles with bobs that has half of all rows."
  },
  {
   "property": "C107",
   "status": "proved",
   "theorems": [
    "Bellframe.Props.C107_any_row",
    "Bellframe.Props.C107_moves",
    "Bellframe.Props.C107_backwards"
   ],
   "note": "C107_any_row gives the block (by sorting pairs of neighbours by turns), C107_moves bounds how far a bell goes, C107_backwards shows that fewer changes do not suffice."
  },
  {
   "property": "C108",
   "status": "proved",
   "theorems": [
    "Bellframe.Props.C108_plain_changes"
   ],
   "note": "C108_plain_changes; the rows are those of plain changes, where the heaviest bell hunts through the extent on one bell fewer."
  },
  {
   "property": "C109",
   "status": "proved",
   "theorems": [
    "Bellframe.Props.C109_least",
    "Bellframe.Props.C109_enough",
    "Bellframe.Props.C109_most"
   ],
   "note": "C109_least, C109_enough and C109_most are the three sentences; the pairs are counted by Row.crossed, which asks place_of of both rows."
  },
  {
   "property": "C110",
   "status": "proved",
   "theorems": [
    "Bellframe.Props.C110_reached",
    "Bellframe.Props.C110_group"
   ],
   "note": "C110_reached says where touches end and C110_group counts the rows of the groups; both start from place notation text and calls made by the constructors of Call."
  },
  {
   "property": "C111",
   "status": "proved",
   "theorems": [
    "Bellframe.Props.C111_reached",
    "Bellframe.Props.C111_group"
   ],
   "note": "C111_reached says where touches end and C111_group counts the rows of the groups; method and calls are made from their place notation texts."
  },
  {
   "property": "C112",
   "status": "proved",
   "theorems": [
    "Bellframe.Props.C112_parts",
    "Bellframe.Props.C112_ways"
   ],
   "note": "C112_parts and C112_ways; touches are joined by ringTouch in Spec/Touch.lean, truth is IsTrue in Spec/Truth.lean."
  },
  {
   "property": "C113",
   "status": "proved",
   "theorems": [
    "Bellframe.Props.C113_elsewhere",
    "Bellframe.Props.C113_transposed"
   ],
   "note": "C113_elsewhere and C113_transposed; joined by ringTouch in Spec/Touch.lean, truth is IsTrue and TrueAgainst in Spec/Truth.lean."
  },
  {
   "property": "C114",
   "status": "proved",
   "theorems": [
    "Bellframe.Props.C114_changes",
    "Bellframe.Props.C114_next_rows"
   ],
   "note": "C114_changes and C114_next_rows; a place notation that can exist is WellFormed in Spec/PlaceNot.lean."
  },
  {
   "property": "C115",
   "status": "proved",
   "theorems": [
    "Bellframe.Props.C115_queens",
    "Bellframe.Props.C115_backrounds"
   ],
   "note": "C115_queens and C115_backrounds."
  }
 ]
}