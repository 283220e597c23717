{
 "claims": [
  {
   "property": "C01",
   "status": "proved",
   "theorems": [
    "SV.C01_map_context",
    "SV.C01_map_context_unique",
    "SV.C01_map_id",
    "SV.C01_map_comp",
    "SV.C01_map_context_pure"
   ],
   "note": ""
  },
  {
   "property": "C02",
   "status": "proved",
   "theorems": [
    "SV.C02_remove_context_shape",
    "SV.C02_remove_context_eq_iff"
   ],
   "note": ""
  },
  {
   "property": "C03",
   "status": "proved",
   "theorems": [
    "SV.C03_at",
    "SV.C03_at_chain",
    "SV.C03_at_map_context"
   ],
   "note": ""
  },
  {
   "property": "C04",
   "status": "proved",
   "theorems": [
    "SV.C04_from_int",
    "SV.C04_from_text",
    "SV.C04_accessors",
    "SV.C04_from_bytes",
    "SV.C04_from_vec",
    "SV.C04_from_vec_named",
    "SV.C04_constructors",
    "SV.C04_composite_iter"
   ],
   "note": ""
  },
  {
   "property": "C05",
   "status": "proved",
   "theorems": [
    "SV.C05_display_round_trip"
   ],
   "note": ""
  },
  {
   "property": "C06",
   "status": "proved",
   "theorems": [
    "SV.C06_all_styles_round_trip"
   ],
   "note": ""
  },
  {
   "property": "C07",
   "status": "proved",
   "theorems": [
    "SV.C07_fails_only_for_256",
    "SV.C07_display",
    "SV.C07_with_formatters"
   ],
   "note": ""
  },
  {
   "property": "C08",
   "status": "proved",
   "theorems": [
    "SV.C08_injective"
   ],
   "note": ""
  },
  {
   "property": "C09",
   "status": "proved",
   "theorems": [
    "SV.C09_terminates_with_suffix",
    "SV.C09_consumes"
   ],
   "note": ""
  },
  {
   "property": "C10",
   "status": "proved",
   "theorems": [
    "SV.C10_offsets_are_bytes",
    "SV.C10_error_location",
    "SV.C10_error_location_from_str",
    "SV.C10_end",
    "SV.C10_end_may_not_be_a_boundary"
   ],
   "note": ""
  },
  {
   "property": "C11",
   "status": "proved",
   "theorems": [
    "SV.C11_local",
    "SV.C11_replace_rest"
   ],
   "note": ""
  },
  {
   "property": "C12",
   "status": "proved",
   "theorems": [
    "SV.C12_digits",
    "SV.C12_unsigned",
    "SV.C12_negative",
    "SV.C12_sign_only"
   ],
   "note": ""
  },
  {
   "property": "C13",
   "status": "proved",
   "theorems": [
    "SV.C13_string_round_trip",
    "SV.C13_char_round_trip",
    "SV.C13_string_bad_escape",
    "SV.C13_string_unclosed",
    "SV.C13_char_bad_escape",
    "SV.C13_char_unclosed"
   ],
   "note": ""
  },
  {
   "property": "C14",
   "status": "proved",
   "theorems": [
    "SV.C14_first_answer_wins",
    "SV.C14_declining_is_noop",
    "SV.C14_custom_notations",
    "SV.C14_error_shift"
   ],
   "note": ""
  },
  {
   "property": "C15",
   "status": "proved",
   "theorems": [
    "SV.C15_resumes",
    "SV.C15_exact_iff_ascii",
    "SV.C15_nested",
    "SV.C15_non_ascii_counterexample",
    "SV.C15_non_ascii_counterexample_nested"
   ],
   "note": "The wish that parsing always goes on from the remainder the custom parser left is false of the code (counterexample theorems); what is proved is exactly where it goes on, and that this is the remainder iff the consumed text is ASCII or nothing is left."
  },
  {
   "property": "C16",
   "status": "proved",
   "theorems": [
    "SV.C16_true_false_variants",
    "SV.C16_exactly_printable",
    "SV.C16_display_exactly_printable"
   ],
   "note": ""
  },
  {
   "property": "C17",
   "status": "proved",
   "theorems": [
    "SV.C17_first_accepting",
    "SV.C17_exact",
    "SV.C17_declining_is_noop"
   ],
   "note": ""
  },
  {
   "property": "C18",
   "status": "proved",
   "theorems": [
    "SV.C18_writer_failure",
    "SV.C18_prefix"
   ],
   "note": ""
  },
  {
   "property": "C19",
   "status": "proved",
   "theorems": [
    "SV.C19_compact",
    "SV.C19_normal",
    "SV.C19_pretty",
    "SV.C19_display",
    "SV.C19_display_parts"
   ],
   "note": ""
  },
  {
   "property": "C20",
   "status": "proved",
   "theorems": [
    "SV.C20_ascii_classes",
    "SV.C20_whitespace_insignificant",
    "SV.C20_parser_accepts_exactly_the_grammar",
    "SV.C20_unambiguous"
   ],
   "note": ""
  },
  {
   "property": "C21",
   "status": "proved",
   "theorems": [
    "SV.C21_even",
    "SV.C21_odd",
    "SV.C21_invalid",
    "SV.C21_decline",
    "SV.C21_success_iff",
    "SV.C21_untouched",
    "SV.C21_alphanumeric"
   ],
   "note": ""
  },
  {
   "property": "C22",
   "status": "proved",
   "theorems": [
    "SV.C22_accepts",
    "SV.C22_text",
    "SV.C22_declines",
    "SV.C22_nested_round_trip"
   ],
   "note": ""
  },
  {
   "property": "C23",
   "status": "proved",
   "theorems": [
    "SV.C23_never_undefined",
    "SV.C23_suffix",
    "SV.C23_utf8_bytes"
   ],
   "note": ""
  },
  {
   "property": "C24",
   "status": "proved",
   "theorems": [
    "SV.C24_success_iff",
    "SV.C24_otherwise_declines",
    "SV.C24_builtin_declined",
    "SV.C24_gap"
   ],
   "note": ""
  },
  {
   "property": "C25",
   "status": "proved",
   "theorems": [
    "SV.C25_reencode",
    "SV.C25_canonical"
   ],
   "note": ""
  },
  {
   "property": "C26",
   "status": "proved",
   "theorems": [
    "SV.C26_round_trip",
    "SV.C26_fields",
    "SV.C26_injective",
    "SV.C26_no_256",
    "SV.C26_wrapped_list_bug"
   ],
   "note": ""
  },
  {
   "property": "C27",
   "status": "proved",
   "theorems": [
    "SV.C27_exact",
    "SV.C27_local",
    "SV.C27_truncated",
    "SV.C27_fields_exact",
    "SV.C27_fields_untouched",
    "SV.C27_fields_agree"
   ],
   "note": ""
  },
  {
   "property": "C28",
   "status": "proved",
   "theorems": [
    "SV.C28_contexts",
    "SV.C28_root",
    "SV.C28_unit",
    "SV.C28_any"
   ],
   "note": ""
  },
  {
   "property": "C29",
   "status": "proved",
   "theorems": [
    "SV.C29_append_only",
    "SV.C29_append_only_fields",
    "SV.C29_composite_atomic",
    "SV.C29_leaf_atomic"
   ],
   "note": ""
  },
  {
   "property": "C30",
   "status": "proved",
   "theorems": [
    "SV.C30_encode",
    "SV.C30_encode_fields",
    "SV.C30_display",
    "SV.C30_write",
    "SV.C30_format_hex",
    "SV.C30_serialize",
    "SV.C30_deserialize"
   ],
   "note": ""
  },
  {
   "property": "C31",
   "status": "proved",
   "theorems": [
    "SV.C31_atoms",
    "SV.C31_bytes",
    "SV.C31_bytes_list",
    "SV.C31_bytes_nowhere_else",
    "SV.C31_unnamed",
    "SV.C31_wrapped_value"
   ],
   "note": ""
  },
  {
   "property": "C32",
   "status": "proved",
   "theorems": [
    "SV.C32_fields",
    "SV.C32_variant",
    "SV.C32_struct",
    "SV.C32_order",
    "SV.C32_surplus",
    "SV.C32_missing",
    "SV.C32_wrong_name"
   ],
   "note": ""
  },
  {
   "property": "C33",
   "status": "proved",
   "theorems": [
    "SV.C33_unnamed",
    "SV.C33_wrong_length",
    "SV.C33_one",
    "SV.C33_array",
    "SV.C33_sequence",
    "SV.C33_variant"
   ],
   "note": ""
  },
  {
   "property": "C34",
   "status": "proved",
   "theorems": [
    "SV.C34_bits",
    "SV.C34_composite",
    "SV.C34_not_a_bit"
   ],
   "note": ""
  },
  {
   "property": "C35",
   "status": "proved",
   "theorems": [
    "SV.C35_numbers",
    "SV.C35_char",
    "SV.C35_injective",
    "SV.C35_out_of_range",
    "SV.C35_out_of_range_signed"
   ],
   "note": ""
  },
  {
   "property": "C36",
   "status": "proved",
   "theorems": [
    "SV.C36_plain",
    "SV.C36_traced",
    "SV.C36_short"
   ],
   "note": ""
  },
  {
   "property": "C37",
   "status": "proved",
   "theorems": [
    "SV.C37_traced_then_plain",
    "SV.C37_plain_then_traced",
    "SV.C37_agree",
    "SV.C37_memory"
   ],
   "note": ""
  },
  {
   "property": "C38",
   "status": "proved",
   "theorems": [
    "SV.C38_located",
    "SV.C38_root",
    "SV.C38_complete",
    "SV.C38_same_reason"
   ],
   "note": ""
  },
  {
   "property": "C39",
   "status": "proved",
   "theorems": [
    "SV.C39_no_panic",
    "SV.C39_too_long",
    "SV.C39_not_too_long",
    "SV.C39_plain_panics"
   ],
   "note": ""
  },
  {
   "property": "C40",
   "status": "proved",
   "theorems": [
    "SV.C40_struct",
    "SV.C40_variant",
    "SV.C40_fields"
   ],
   "note": ""
  },
  {
   "property": "C41",
   "status": "proved",
   "theorems": [
    "SV.C41_to_value",
    "SV.C41_from_value",
    "SV.C41_same",
    "SV.C41_composite",
    "SV.C41_variant",
    "SV.C41_primitive",
    "SV.C41_i256",
    "SV.C41_primitive_from_numbers"
   ],
   "note": ""
  },
  {
   "property": "C42",
   "status": "proved",
   "theorems": [
    "SV.C42_to_value",
    "SV.C42_errors",
    "SV.C42_rejects"
   ],
   "note": ""
  },
  {
   "property": "C43",
   "status": "proved",
   "theorems": [
    "SV.C43_numbers",
    "SV.C43_fits"
   ],
   "note": ""
  },
  {
   "property": "C44",
   "status": "proved",
   "theorems": [
    "SV.C44_option"
   ],
   "note": ""
  },
  {
   "property": "C45",
   "status": "proved",
   "theorems": [
    "SV.C45_u128",
    "SV.C45_i128",
    "SV.C45_256"
   ],
   "note": ""
  },
  {
   "property": "C46",
   "status": "proved",
   "theorems": [
    "SV.C46_bits",
    "SV.C46_bits_value",
    "SV.C46_formats",
    "SV.C46_values"
   ],
   "note": ""
  },
  {
   "property": "C47",
   "status": "proved",
   "theorems": [
    "SV.C47_map",
    "SV.C47_formats",
    "SV.C47_order"
   ],
   "note": ""
  },
  {
   "property": "C48",
   "status": "proved",
   "theorems": [
    "SV.C48_round_trip",
    "SV.C48_newtype_scalars",
    "SV.C48_newtype_variants"
   ],
   "note": ""
  },
  {
   "property": "C49",
   "status": "proved",
   "theorems": [
    "SV.C49_by_name",
    "SV.C49_order",
    "SV.C49_in_order",
    "SV.C49_others",
    "SV.C49_bits_tuple",
    "SV.C49_bits"
   ],
   "note": ""
  },
  {
   "property": "C50",
   "status": "proved",
   "theorems": [
    "SV.C50_newtype",
    "SV.C50_variant",
    "SV.C50_option",
    "SV.C50_bits",
    "SV.C50_variant_struct"
   ],
   "note": ""
  },
  {
   "property": "C51",
   "status": "proved",
   "theorems": [
    "SV.C51_one_error",
    "SV.C51_located",
    "SV.C51_located_fields",
    "SV.C51_not_fields",
    "SV.C51_wrong_length",
    "SV.C51_entries",
    "SV.C51_sequence",
    "SV.C51_array",
    "SV.C51_struct",
    "SV.C51_fields",
    "SV.C51_fields_exhaustive",
    "SV.C51_variant",
    "SV.C51_number",
    "SV.C51_atom",
    "SV.C51_not_enum",
    "SV.C51_not_composite",
    "SV.C51_wrapper",
    "SV.C51_256",
    "SV.C51_bits"
   ],
   "note": ""
  },
  {
   "property": "C52",
   "status": "proved",
   "theorems": [
    "SV.C52_bool",
    "SV.C52_char",
    "SV.C52_string",
    "SV.C52_unit",
    "SV.C52_seq",
    "SV.C52_tuple",
    "SV.C52_bytes",
    "SV.C52_enum",
    "SV.C52_map",
    "SV.C52_map_entries"
   ],
   "note": ""
  },
  {
   "property": "C53",
   "status": "proved",
   "theorems": [
    "SV.C53_root",
    "SV.C53_message",
    "SV.C53_panics",
    "SV.C53_decode",
    "SV.C53_writer_failure",
    "SV.C53_writes"
   ],
   "note": ""
  },
  {
   "property": "C54",
   "status": "proved",
   "theorems": [
    "SV.C54_exact",
    "SV.C54_any_limit",
    "SV.C54_unnamed",
    "SV.C54_named",
    "SV.C54_names",
    "SV.C54_trailing_comma",
    "SV.C54_gap",
    "SV.C54_keywords"
   ],
   "note": ""
  },
  {
   "property": "C55",
   "status": "proved",
   "theorems": [
    "SV.C55_reports_exactly_the_fault",
    "SV.C55_text_or_one_fault",
    "SV.C55_before_error_is_viable",
    "SV.C55_char_escape_reported_late",
    "SV.C55_string_escape_location"
   ],
   "note": ""
  },
  {
   "property": "C56",
   "status": "proved",
   "theorems": [
    "SV.C56_decode",
    "SV.C56_encode",
    "SV.C56_total",
    "SV.C56_decoded_is_data",
    "SV.C56_read",
    "SV.C56_injective",
    "SV.C56_empty_struct"
   ],
   "note": ""
  },
  {
   "property": "C57",
   "status": "proved",
   "theorems": [
    "SV.C57_hex_text_then_encode",
    "SV.C57_hex_bytes_text_bytes",
    "SV.C57_encoding_sees_data",
    "SV.C57_text",
    "SV.C57_display",
    "SV.C57_exactly_textual",
    "SV.C57_text_then_encode",
    "SV.C57_bytes_text_bytes"
   ],
   "note": ""
  },
  {
   "property": "C58",
   "status": "proved",
   "theorems": [
    "SV.C58_format",
    "SV.C58_exactly",
    "SV.C58_values_exactly",
    "SV.C58_values",
    "SV.C58_variants",
    "SV.C58_read_as_variant"
   ],
   "note": ""
  },
  {
   "property": "C59",
   "status": "proved",
   "theorems": [
    "SV.C59_size",
    "SV.C59_depth",
    "SV.C59_recursion",
    "SV.C59_recursion_needed"
   ],
   "note": ""
  },
  {
   "property": "C60",
   "status": "proved",
   "theorems": [
    "SV.C60_size",
    "SV.C60_free_elements",
    "SV.C60_depth",
    "SV.C60_recursion",
    "SV.C60_recursion_needed"
   ],
   "note": ""
  },
  {
   "property": "C61",
   "status": "proved",
   "theorems": [
    "SV.C61_location_shown",
    "SV.C61_message_iff",
    "SV.C61_hex_odd",
    "SV.C61_hex_invalid"
   ],
   "note": ""
  },
  {
   "property": "C62",
   "status": "proved",
   "theorems": [
    "SV.C62_only_whitespace",
    "SV.C62_any_two",
    "SV.C62_shortest"
   ],
   "note": ""
  },
  {
   "property": "C63",
   "status": "proved",
   "theorems": [
    "SV.C63_once",
    "SV.C63_nowhere_else",
    "SV.C63_everywhere",
    "SV.C63_no_waste"
   ],
   "note": ""
  },
  {
   "property": "C64",
   "status": "proved",
   "theorems": [
    "SV.C64_stream",
    "SV.C64_unique",
    "SV.C64_print"
   ],
   "note": ""
  },
  {
   "property": "C65",
   "status": "proved",
   "theorems": [
    "SV.C65_value",
    "SV.C65_composite",
    "SV.C65_refused",
    "SV.C65_variant",
    "SV.C65_primitive",
    "SV.C65_numbers",
    "SV.C65_documents"
   ],
   "note": ""
  },
  {
   "property": "C66",
   "status": "proved",
   "theorems": [
    "SV.C66_every_history",
    "SV.C66_map_panics",
    "SV.C66_map",
    "SV.C66_returns",
    "SV.C66_entry",
    "SV.C66_entries_never_panic",
    "SV.C66_seq",
    "SV.C66_struct",
    "SV.C66_returns_seq",
    "SV.C66_to_value"
   ],
   "note": ""
  },
  {
   "property": "C67",
   "status": "proved",
   "theorems": [
    "SV.C67_valid",
    "SV.C67_decodes",
    "SV.C67_stable",
    "SV.C67_prefix_free",
    "SV.C67_fields",
    "SV.C67_same_index"
   ],
   "note": ""
  },
  {
   "property": "C68",
   "status": "proved",
   "theorems": [
    "SV.C68_rules",
    "SV.C68_fails",
    "SV.C68_only",
    "SV.C68_fields",
    "SV.C68_bool",
    "SV.C68_string",
    "SV.C68_variant"
   ],
   "note": ""
  },
  {
   "property": "C69",
   "status": "proved",
   "theorems": [
    "SV.C69_eq",
    "SV.C69_eq_lawful",
    "SV.C69_eq_without_context",
    "SV.C69_apart",
    "SV.C69_into",
    "SV.C69_into_vec"
   ],
   "note": ""
  },
  {
   "property": "C70",
   "status": "proved",
   "theorems": [
    "SV.C70_first_fault",
    "SV.C70_one_fault",
    "SV.C70_rest_does_not_matter",
    "SV.C70_own_errors",
    "SV.C70_texts",
    "SV.C70_messages"
   ],
   "note": ""
  },
  {
   "property": "C71",
   "status": "proved",
   "theorems": [
    "SV.C71_expressible",
    "SV.C71_parsed_can_be_written",
    "SV.C71_same_text_iff_same_data",
    "SV.C71_normal_form",
    "SV.C71_display_iff_same_data"
   ],
   "note": ""
  },
  {
   "property": "C72",
   "status": "proved",
   "theorems": [
    "SV.C72_base58",
    "SV.C72_reads",
    "SV.C72_accepts_only",
    "SV.C72_one_account",
    "SV.C72_digits",
    "SV.C72_nested",
    "SV.C72_encodes_array",
    "SV.C72_encodes_vec"
   ],
   "note": ""
  },
  {
   "property": "C73",
   "status": "proved",
   "theorems": [
    "SV.C73_agree",
    "SV.C73_agree_own",
    "SV.C73_refuses",
    "SV.C73_messages",
    "SV.C73_bool",
    "SV.C73_char",
    "SV.C73_string",
    "SV.C73_num",
    "SV.C73_bytes",
    "SV.C73_unit",
    "SV.C73_unit_struct",
    "SV.C73_option",
    "SV.C73_newtype",
    "SV.C73_newtype_variant",
    "SV.C73_seq",
    "SV.C73_tuple",
    "SV.C73_tuple_struct",
    "SV.C73_struct",
    "SV.C73_struct_unnamed",
    "SV.C73_struct_bits",
    "SV.C73_struct_others",
    "SV.C73_enum",
    "SV.C73_map",
    "SV.C73_value",
    "SV.C73_composite",
    "SV.C73_variant",
    "SV.C73_primitive",
    "SV.C73_expected"
   ],
   "note": ""
  },
  {
   "property": "C74",
   "status": "proved",
   "theorems": [
    "SV.C74_value",
    "SV.C74_composite",
    "SV.C74_variant",
    "SV.C74_primitive",
    "SV.C74_complete",
    "SV.C74_complete_own"
   ],
   "note": ""
  },
  {
   "property": "C75",
   "status": "proved",
   "theorems": [
    "SV.C75_same",
    "SV.C75_buffer",
    "SV.C75_contexts",
    "SV.C75_rules",
    "SV.C75_bound",
    "SV.C75_once",
    "SV.C75_decoded",
    "SV.C75_doubles",
    "SV.C75_wrapped_list"
   ],
   "note": ""
  },
  {
   "property": "C76",
   "status": "proved",
   "theorems": [
    "SV.C76_asks",
    "SV.C76_errors",
    "SV.C76_bound",
    "SV.C76_preorder",
    "SV.C76_taken"
   ],
   "note": ""
  },
  {
   "property": "C77",
   "status": "proved",
   "theorems": [
    "SV.C77_agree"
   ],
   "note": ""
  },
  {
   "property": "C78",
   "status": "proved",
   "theorems": [
    "SV.C78_final",
    "SV.C78_traced_final",
    "SV.C78_truncated",
    "SV.C78_traced_truncated",
    "SV.C78_parts",
    "SV.C78_traced_parts",
    "SV.C78_fields",
    "SV.C78_value_fields",
    "SV.C78_fields_truncated",
    "SV.C78_fields_parts"
   ],
   "note": ""
  },
  {
   "property": "C79",
   "status": "proved",
   "theorems": [
    "SV.C79_gap",
    "SV.C79_copy",
    "SV.C79_from_value",
    "SV.C79_untagged",
    "SV.C79_untagged_first",
    "SV.C79_documents",
    "SV.C79_value",
    "SV.C79_composite",
    "SV.C79_primitive",
    "SV.C79_same"
   ],
   "note": ""
  },
  {
   "property": "C80",
   "status": "proved",
   "theorems": [
    "SV.C80_error",
    "SV.C80_panic",
    "SV.C80_one",
    "SV.C80_fields",
    "SV.C80_fields_panic",
    "SV.C80_tells"
   ],
   "note": ""
  },
  {
   "property": "C81",
   "status": "proved",
   "theorems": [
    "SV.C81_reads",
    "SV.C81_fails",
    "SV.C81_one"
   ],
   "note": ""
  },
  {
   "property": "C82",
   "status": "proved",
   "theorems": [
    "SV.C82_error",
    "SV.C82_one"
   ],
   "note": ""
  },
  {
   "property": "C83",
   "status": "proved",
   "theorems": [
    "SV.C83_composite",
    "SV.C83_variant",
    "SV.C83_primitive",
    "SV.C83_one"
   ],
   "note": ""
  },
  {
   "property": "C84",
   "status": "proved",
   "theorems": [
    "SV.C84_composite_replies",
    "SV.C84_primitive_replies",
    "SV.C84_variant_replies",
    "SV.C84_composite",
    "SV.C84_primitive",
    "SV.C84_variant",
    "SV.C84_variant_option",
    "SV.C84_variant_struct",
    "SV.C84_own"
   ],
   "note": ""
  },
  {
   "property": "C85",
   "status": "proved",
   "theorems": [
    "SV.C85_ends",
    "SV.C85_never",
    "SV.C85_exact",
    "SV.C85_no_bytes",
    "SV.C85_fields",
    "SV.C85_registry",
    "SV.C85_tracing",
    "SV.C85_tracing_registry",
    "SV.C85_cycle"
   ],
   "note": ""
  },
  {
   "property": "C86",
   "status": "proved",
   "theorems": [
    "SV.C86_ends",
    "SV.C86_fields",
    "SV.C86_never",
    "SV.C86_bytes",
    "SV.C86_leaf",
    "SV.C86_number",
    "SV.C86_outcome",
    "SV.C86_composite",
    "SV.C86_variant",
    "SV.C86_both",
    "SV.C86_registry"
   ],
   "note": ""
  },
  {
   "property": "C87",
   "status": "proved",
   "theorems": [
    "SV.C87_reading_sees_data",
    "SV.C87_unsigned",
    "SV.C87_text",
    "SV.C87_typed",
    "SV.C87_display",
    "SV.C87_distinct",
    "SV.C87_bytes",
    "SV.C87_bytes_are_unsigned"
   ],
   "note": ""
  },
  {
   "property": "C88",
   "status": "proved",
   "theorems": [
    "SV.C88_once",
    "SV.C88_once_traced",
    "SV.C88_once_fields",
    "SV.C88_linear",
    "SV.C88_linear_fields",
    "SV.C88_traced",
    "SV.C88_free_elements"
   ],
   "note": ""
  },
  {
   "property": "C89",
   "status": "proved",
   "theorems": [
    "SV.C89_least",
    "SV.C89_compact",
    "SV.C89_normal",
    "SV.C89_pretty",
    "SV.C89_display",
    "SV.C89_display_pretty",
    "SV.C89_pretty_square",
    "SV.C89_reprint",
    "SV.C89_decoded"
   ],
   "note": ""
  },
  {
   "property": "C90",
   "status": "proved",
   "theorems": [
    "SV.C90_bytes",
    "SV.C90_bytes_256",
    "SV.C90_fields",
    "SV.C90_text",
    "SV.C90_same_names"
   ],
   "note": ""
  },
  {
   "property": "C91",
   "status": "proved",
   "theorems": [
    "SV.C91_to_value",
    "SV.C91_value_to_value",
    "SV.C91_again",
    "SV.C91_from_value",
    "SV.C91_document"
   ],
   "note": ""
  },
  {
   "property": "C92",
   "status": "proved",
   "theorems": [
    "SV.C92_decode",
    "SV.C92_decode_fields",
    "SV.C92_tracing",
    "SV.C92_encode",
    "SV.C92_encode_fields",
    "SV.C92_local",
    "SV.C92_same",
    "SV.C92_registry",
    "SV.C92_transfer"
   ],
   "note": ""
  },
  {
   "property": "C93",
   "status": "proved",
   "theorems": [
    "SV.C93_value",
    "SV.C93_composite",
    "SV.C93_variant",
    "SV.C93_claims",
    "SV.C93_honest",
    "SV.C93_sized",
    "SV.C93_from_value",
    "SV.C93_from_value_reserves"
   ],
   "note": ""
  },
  {
   "property": "C94",
   "status": "proved",
   "theorems": [
    "SV.C94_parse_hex",
    "SV.C94_parse_ss58",
    "SV.C94_format_hex",
    "SV.C94_decode_composite",
    "SV.C94_single_entry",
    "SV.C94_option",
    "SV.C94_custom_error",
    "SV.C94_custom_error_within",
    "SV.C94_locations",
    "SV.C94_custom_error_ends",
    "SV.C94_parse_panics"
   ],
   "note": ""
  },
  {
   "property": "C95",
   "status": "proved",
   "theorems": [
    "SV.C95_options_exist",
    "SV.C95_options",
    "SV.C95_any_writer",
    "SV.C95_overridden",
    "SV.C95_order",
    "SV.C95_indents",
    "SV.C95_formatter_order",
    "SV.C95_parser_order",
    "SV.C95_parser_none"
   ],
   "note": ""
  },
  {
   "property": "C96",
   "status": "proved",
   "theorems": [
    "SV.C96_balanced",
    "SV.C96_display_balanced",
    "SV.C96_ends_once",
    "SV.C96_layout_characters",
    "SV.C96_hex",
    "SV.C96_one_line",
    "SV.C96_others_raw"
   ],
   "note": ""
  }
 ]
}