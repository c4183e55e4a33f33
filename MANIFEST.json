{
 "claims": [
  {
   "property": "C01",
   "status": "proved",
   "theorems": [
    "Html.Props.C01_scanning_terminates",
    "Html.Props.C01_scan_loop_bound"
   ],
   "note": ""
  },
  {
   "property": "C02",
   "status": "proved",
   "theorems": [
    "Html.Props.C02_tokens_tile"
   ],
   "note": ""
  },
  {
   "property": "C03",
   "status": "proved",
   "theorems": [
    "Html.Props.C03_tokens_nonempty",
    "Html.Props.C03_only_pseudo_close_empty"
   ],
   "note": ""
  },
  {
   "property": "C04",
   "status": "proved",
   "theorems": [
    "Html.Props.C04_eos",
    "Html.Props.C04_eos_no_panic"
   ],
   "note": ""
  },
  {
   "property": "C05",
   "status": "proved",
   "theorems": [
    "Html.Props.C05_recovery_dead"
   ],
   "note": ""
  },
  {
   "property": "C06",
   "status": "proved",
   "theorems": [
    "Html.Props.C06_token_grammar"
   ],
   "note": ""
  },
  {
   "property": "C07",
   "status": "proved",
   "theorems": [
    "Html.Props.C07_token_text"
   ],
   "note": ""
  },
  {
   "property": "C08",
   "status": "proved",
   "theorems": [
    "Html.Props.C08_panics_iff",
    "Html.Props.C08_split_character",
    "Html.Props.C08_token_text",
    "Html.Props.C08_plain_text_returns",
    "Html.Props.C08_ascii_no_panic",
    "Html.Props.C08_scan_panics_on_nbsp",
    "Html.Props.C08_scan_panics_on_type",
    "Html.Props.C08_token_text_panics"
   ],
   "note": "C08_panics_iff is exact; C08_split_character says which characters can be split; C08_plain_text_returns and C08_ascii_no_panic are sufficient conditions on the text alone; three panics are shown on concrete texts."
  },
  {
   "property": "C09",
   "status": "proved",
   "theorems": [
    "Html.Props.C09_restart",
    "Html.Props.C09_suffix"
   ],
   "note": ""
  },
  {
   "property": "C10",
   "status": "proved",
   "theorems": [
    "Html.Props.C10_raw_text_end",
    "Html.Props.C10_case_matters",
    "Html.Props.C10_longer_name_ends_script"
   ],
   "note": "exact, by uniqueness of the end; the case sensitivity of end tags by witness"
  },
  {
   "property": "C11",
   "status": "proved",
   "theorems": [
    "Html.Props.C11_panics_iff",
    "Html.Props.C11_parser_returns_iff_scanner_does",
    "Html.Props.C11_no_unwrap_fails",
    "Html.Props.C11_ascii_never_panics",
    "Html.Props.C11_utf8_never_panics",
    "Html.Props.C11_parser_panics_with_scanner"
   ],
   "note": ""
  },
  {
   "property": "C12",
   "status": "proved",
   "theorems": [
    "Html.Props.C12_roots_ordered",
    "Html.Props.C12_well_nested"
   ],
   "note": ""
  },
  {
   "property": "C13",
   "status": "proved",
   "theorems": [
    "Html.Props.C13_one_node_per_bracket"
   ],
   "note": ""
  },
  {
   "property": "C14",
   "status": "proved",
   "theorems": [
    "Html.Props.C14_offsets_point_at_brackets",
    "Html.Props.C14_cut_start_tag"
   ],
   "note": ""
  },
  {
   "property": "C15",
   "status": "proved",
   "theorems": [
    "Html.Props.C15_tag_is_source_text",
    "Html.Props.C15_tag_right_behind_bracket"
   ],
   "note": ""
  },
  {
   "property": "C16",
   "status": "proved",
   "theorems": [
    "Html.Props.C16_end_tag_has_own_name",
    "Html.Props.C16_inner_open_end_at_end_tag",
    "Html.Props.C16_left_open_ends_with_parent"
   ],
   "note": ""
  },
  {
   "property": "C17",
   "status": "proved",
   "theorems": [
    "Html.Props.C17_closed_iff",
    "Html.Props.C17_slash_in_value_does_not_close"
   ],
   "note": ""
  },
  {
   "property": "C18",
   "status": "proved",
   "theorems": [
    "Html.Props.C18_attributes_from_own_start_tag",
    "Html.Props.C18_start_tags_exact",
    "Html.Props.C18_value_behind_space_is_lost"
   ],
   "note": ""
  },
  {
   "property": "C19",
   "status": "proved",
   "theorems": [
    "Html.Props.C19_void_elements_have_no_content",
    "Html.Props.C19_void_is_case_sensitive"
   ],
   "note": ""
  },
  {
   "property": "C20",
   "status": "proved",
   "theorems": [
    "Html.Props.C20_parse_inverts_print",
    "Html.Props.C20_ascii_round_trip",
    "Html.Props.C20_utf8_round_trip"
   ],
   "note": ""
  },
  {
   "property": "C21",
   "status": "proved",
   "theorems": [
    "Html.Props.C21_none_iff",
    "Html.Props.C21_innermost"
   ],
   "note": ""
  },
  {
   "property": "C22",
   "status": "proved",
   "theorems": [
    "Html.Props.C22_ancestor_chain"
   ],
   "note": ""
  },
  {
   "property": "C23",
   "status": "proved",
   "theorems": [
    "Html.Props.C23_none_iff",
    "Html.Props.C23_last_node_before"
   ],
   "note": ""
  },
  {
   "property": "C24",
   "status": "proved",
   "theorems": [
    "Html.Props.C24_first_root",
    "Html.Props.C24_covering_root"
   ],
   "note": ""
  },
  {
   "property": "C25",
   "status": "proved",
   "theorems": [
    "Html.Props.C25_panics_iff",
    "Html.Props.C25_element_with_end_tag",
    "Html.Props.C25_source",
    "Html.Props.C25_children_are_content",
    "Html.Props.C25_limits"
   ],
   "note": ""
  },
  {
   "property": "C26",
   "status": "proved",
   "theorems": [
    "Html.Props.C26_ranges_iff",
    "Html.Props.C26_ranges_are_names",
    "Html.Props.C26_texts",
    "Html.Props.C26_length_limit",
    "Html.Props.C26_blank_limit"
   ],
   "note": ""
  },
  {
   "property": "C27",
   "status": "proved",
   "theorems": [
    "Html.Props.C27_position_iff",
    "Html.Props.C27_involution",
    "Html.Props.C27_involution_unicode",
    "Html.Props.C27_cut_end_tag_limit"
   ],
   "note": ""
  },
  {
   "property": "C28",
   "status": "proved",
   "theorems": [
    "Html.Props.C28_edits_iff",
    "Html.Props.C28_texts",
    "Html.Props.C28_length_limit"
   ],
   "note": ""
  },
  {
   "property": "C29",
   "status": "proved",
   "theorems": [
    "Html.Props.C29_rename_keeps_structure",
    "Html.Props.C29_utf8",
    "Html.Props.C29_undo"
   ],
   "note": ""
  },
  {
   "property": "C30",
   "status": "proved",
   "theorems": [
    "Html.Props.C30_highlights"
   ],
   "note": ""
  },
  {
   "property": "C31",
   "status": "proved",
   "theorems": [
    "Html.Props.C31_same_shape",
    "Html.Props.C31_ranges_nested",
    "Html.Props.C31_flat_list"
   ],
   "note": ""
  },
  {
   "property": "C32",
   "status": "proved",
   "theorems": [
    "Html.Props.C32_ranges_justified",
    "Html.Props.C32_comments_complete",
    "Html.Props.C32_elements_complete",
    "Html.Props.C32_regions_complete"
   ],
   "note": "Soundness for every range; completeness for comments, balanced elements and regions."
  },
  {
   "property": "C33",
   "status": "proved",
   "theorems": [
    "Html.Props.C33_subset",
    "Html.Props.C33_bound_nested",
    "Html.Props.C33_bound",
    "Html.Props.C33_nested_considered",
    "Html.Props.C33_limit_exceeded",
    "Html.Props.C33_deep_nesting_dropped"
   ],
   "note": "the bound with the exact excess (C33_bound), the stronger statement for nested or disjoint ranges (C33_bound_nested), and witnesses for the excess and for the loss of deeply nested ranges"
  },
  {
   "property": "C34",
   "status": "proved",
   "theorems": [
    "Html.Props.C34_panics_iff",
    "Html.Props.C34_plain_text_returns",
    "Html.Props.C34_limit_panics"
   ],
   "note": "exact panic condition, with a witness for the index out of bounds"
  },
  {
   "property": "C35",
   "status": "proved",
   "theorems": [
    "Html.Props.C35_one_per_position",
    "Html.Props.C35_strictly_nested_iff",
    "Html.Props.C35_contains_cursor_iff",
    "Html.Props.C35_bare_attribute",
    "Html.Props.C35_attribute",
    "Html.Props.C35_inside_tag",
    "Html.Props.C35_end_tag",
    "Html.Props.C35_elements",
    "Html.Props.C35_contents",
    "Html.Props.C35_outermost",
    "Html.Props.C35_nothing_else",
    "Html.Props.C35_content",
    "Html.Props.C35_panics_iff",
    "Html.Props.C35_panics",
    "Html.Props.C35_plain_text_no_panic",
    "Html.Props.C35_ascii_no_panic",
    "Html.Props.C35_overlap",
    "Html.Props.C35_bracket",
    "Html.Props.C35_outside",
    "Html.Props.C35_left_open"
   ],
   "note": "nesting and containing the cursor are equivalences (C35_strictly_nested_iff, C35_contains_cursor_iff); the exceptions are defects, shown with witnesses (C35_overlap, C35_bracket, C35_outside, C35_left_open, C35_panics)"
  },
  {
   "property": "C36",
   "status": "proved",
   "theorems": [
    "Html.Props.C36_one_edit",
    "Html.Props.C36_whole_document",
    "Html.Props.C36_returns_iff",
    "Html.Props.C36_ascii_returns_iff",
    "Html.Props.C36_ordinary_returns",
    "Html.Props.C36_fails_without_name",
    "Html.Props.C36_fails_at_document_start",
    "Html.Props.C36_range_needs",
    "Html.Props.C36_fails_on_first_line",
    "Html.Props.C36_fails_for_tab_size_zero",
    "Html.Props.C36_range_returns_iff",
    "Html.Props.C36_range_returns_iff_utf8",
    "Html.Props.C36_fails_for_cut_tag"
   ],
   "note": "One edit, whole document; returns exactly when every shown element has a name (UTF-8 documents that parse, ASCII documents); for ranges of UTF-8 documents (and ASCII documents) an exact characterisation. The panics are proved with witnesses."
  },
  {
   "property": "C37",
   "status": "proved",
   "theorems": [
    "Html.Props.C37_pieces",
    "Html.Props.C37_attributes_in_order",
    "Html.Props.C37_printed",
    "Html.Props.C37_preserved",
    "Html.Props.C37_fails"
   ],
   "note": "exact description of the result for all documents (C37_pieces); that not all characters are preserved is proved with witnesses (C37_fails)"
  },
  {
   "property": "C38",
   "status": "proved",
   "theorems": [
    "Html.Props.C38_fails",
    "Html.Props.C38_idempotent",
    "Html.Props.C38_settles",
    "Html.Props.C38_utf8_settles",
    "Html.Props.C38_two_passes_fail"
   ],
   "note": "For all printed (well-formed) documents; for all UTF-8 documents the passes are also shown to return. Idempotence after a single or a second pass is refuted by witnesses. Nothing is claimed for documents that are not well-formed."
  },
  {
   "property": "C39",
   "status": "proved",
   "theorems": [
    "Html.Props.C39_always_offered",
    "Html.Props.C39_offered_iff",
    "Html.Props.C39_needs_equals",
    "Html.Props.C39_switched_off",
    "Html.Props.C39_plain_text_returns",
    "Html.Props.C39_ascii_returns",
    "Html.Props.C39_fails_in_comment"
   ],
   "note": "C39_offered_iff needs that no tag in front of the cursor is cut short by another '<'; C39_fails_in_comment shows that the restriction is needed. C39_needs_equals holds without it."
  },
  {
   "property": "C40",
   "status": "proved",
   "theorems": [
    "Html.Props.C40_behind_start_tag",
    "Html.Props.C40_always_closed",
    "Html.Props.C40_behind_slash",
    "Html.Props.C40_elsewhere",
    "Html.Props.C40_plain_text_returns",
    "Html.Props.C40_ascii_returns",
    "Html.Props.C40_fails_in_comment"
   ],
   "note": "The characterisations need that no tag in front of the cursor is cut short by another '<'; C40_fails_in_comment shows that the restriction is needed."
  },
  {
   "property": "C41",
   "status": "proved",
   "theorems": [
    "Html.Props.C41_in_name",
    "Html.Props.C41_in_blanks",
    "Html.Props.C41_names_for_values",
    "Html.Props.C41_only_enabled"
   ],
   "note": "for documents whose tokens and tree are computed (C08, C11); in_name needs an ASCII name for the end of the range"
  },
  {
   "property": "C42",
   "status": "proved",
   "theorems": [
    "Html.Props.C42_outside",
    "Html.Props.C42_start_tag_name",
    "Html.Props.C42_end_tag_name",
    "Html.Props.C42_attribute_name",
    "Html.Props.C42_attribute_value",
    "Html.Props.C42_entity",
    "Html.Props.C42_content",
    "Html.Props.C42_range_contains",
    "Html.Props.C42_no_panic",
    "Html.Props.C42_plain_text_no_panic",
    "Html.Props.C42_ascii_no_panic",
    "Html.Props.C42_attribute_case_matters",
    "Html.Props.C42_panics"
   ],
   "note": "Tag names, attribute names and values, character references, content, and no answer outside; the range contains the cursor; no panic for documents whose scan returns. C42_attribute_case_matters records that attribute names are compared with their case in case-insensitive mode as well."
  },
  {
   "property": "C43",
   "status": "proved",
   "theorems": [
    "Html.Props.C43_void_elements",
    "Html.Props.C43_sorted",
    "Html.Props.C43_is_void_iff",
    "Html.Props.C43_set_replaces"
   ],
   "note": ""
  },
  {
   "property": "C44",
   "status": "proved",
   "theorems": [
    "Html.Props.C44_path_attribute_iff"
   ],
   "note": ""
  },
  {
   "property": "C45",
   "status": "proved",
   "theorems": [
    "Html.Props.C45_attributes",
    "Html.Props.C45_values",
    "Html.Props.C45_no_panic",
    "Html.Props.C45_uppercase_entry_lost"
   ],
   "note": ""
  },
  {
   "property": "C46",
   "status": "proved",
   "theorems": [
    "Html.Props.C46_none_iff",
    "Html.Props.C46_value"
   ],
   "note": ""
  },
  {
   "property": "C47",
   "status": "proved",
   "theorems": [
    "Html.Props.C47_other_scheme",
    "Html.Props.C47_absolute",
    "Html.Props.C47_file_query_kept",
    "Html.Props.C47_relative",
    "Html.Props.C47_links",
    "Html.Props.C47_exact",
    "Html.Props.C47_local_target",
    "Html.Props.C47_line_and_column",
    "Html.Props.C47_fragment",
    "Html.Props.C47_http",
    "Html.Props.C47_no_link",
    "Html.Props.C47_javascript",
    "Html.Props.C47_no_word",
    "Html.Props.C47_names",
    "Html.Props.C47_protocol_relative"
   ],
   "note": "Exact list of links (C47_exact), their order and ranges, targets of fragments and http references, references that give no link."
  },
  {
   "property": "C48",
   "status": "proved",
   "theorems": [
    "Html.Props.C48_panic_iff",
    "Html.Props.C48_absolute",
    "Html.Props.C48_no_dot_segments",
    "Html.Props.C48_scheme",
    "Html.Props.C48_query_lost",
    "Html.Props.C48_resolved",
    "Html.Props.C48_authority",
    "Html.Props.C48_authority_changed",
    "Html.Props.C48_authority_changed_empty_path",
    "Html.Props.C48_query_of_base",
    "Html.Props.C48_extra_slash"
   ],
   "note": "No dot segments and the scheme: proved for all references and bases. The authority is kept, and the whole result is determined, if the walk does not go up beyond the top; C48_authority_changed and C48_authority_changed_empty_path refute it otherwise. Exact condition for panics. Further defects of the result are recorded (query and fragment lost, query of the base read as path, extra slash). Paths are modelled as on Unix."
  },
  {
   "property": "C49",
   "status": "proved",
   "theorems": [
    "Html.Props.C49_completion_panics_iff",
    "Html.Props.C49_completion_returns",
    "Html.Props.C49_services_return",
    "Html.Props.C49_plain_text_services_return",
    "Html.Props.C49_panics_behind_last_line"
   ],
   "note": "exact panic condition of completion for UTF-8 documents; all services for plain UTF-8 and for ASCII documents; with a lawful position mapping and positions that it yields; links and formatting have their own theorems (C54, C36)"
  },
  {
   "property": "C50",
   "status": "proved",
   "theorems": [
    "Html.Props.C50_reference_document_lawful",
    "Html.Props.C50_position_counts",
    "Html.Props.C50_strictly_monotone"
   ],
   "note": ""
  },
  {
   "property": "C51",
   "status": "proved",
   "theorems": [
    "Html.Props.C51_end_tags_close_their_elements"
   ],
   "note": ""
  },
  {
   "property": "C52",
   "status": "proved",
   "theorems": [
    "Html.Props.C52_contents_kind",
    "Html.Props.C52_hover_format_ignored"
   ],
   "note": "C52_contents_kind is the part that holds; C52_hover_format_ignored refutes the rest: the capability read is that of completion items."
  },
  {
   "property": "C53",
   "status": "proved",
   "theorems": [
    "Html.Props.C53_every_reference",
    "Html.Props.C53_link_swallowed"
   ],
   "note": "Proved for documents without a base tag; C53_link_swallowed refutes the general statement."
  },
  {
   "property": "C54",
   "status": "proved",
   "theorems": [
    "Html.Props.C54_panics_iff",
    "Html.Props.C54_default_context",
    "Html.Props.C54_lone_quote_panics",
    "Html.Props.C54_empty_base_panics",
    "Html.Props.C54_bad_base_panics"
   ],
   "note": "Exact: C54_panics_iff, and C54_default_context for documents without base element; three witnesses of panics. The parser's acceptance of what the code unwraps is a hypothesis (Forgiving)."
  },
  {
   "property": "C55",
   "status": "proved",
   "theorems": [
    "Html.Props.C55_selection",
    "Html.Props.C55_text",
    "Html.Props.C55_fails_never_indents",
    "Html.Props.C55_fails",
    "Html.Props.C55_range_edit",
    "Html.Props.C55_range_determined"
   ],
   "note": "C55_range_edit is an equivalence for all UTF-8 documents; the missing indentation and the wrong start of the edit are recorded as failures with witnesses"
  },
  {
   "property": "C57",
   "status": "proved",
   "theorems": [
    "Html.Props.C57_around_cursor",
    "Html.Props.C57_over_lines"
   ],
   "note": "no hypotheses on document or tree"
  },
  {
   "property": "C58",
   "status": "proved",
   "theorems": [
    "Html.Props.C58_in_name",
    "Html.Props.C58_behind_bracket"
   ],
   "note": "for documents whose tokens and tree are computed (C08, C11) and calls that return; valid UTF-8 for the line indentation"
  },
  {
   "property": "C60",
   "status": "proved",
   "theorems": [
    "Html.Props.C60_behind_bracket",
    "Html.Props.C60_in_blanks",
    "Html.Props.C60_in_name",
    "Html.Props.C60_closes_open",
    "Html.Props.C60_own_end_tag_not_proposed",
    "Html.Props.C60_inserts_in_bracket",
    "Html.Props.C60_leaves_rest_of_name"
   ],
   "note": "for documents whose tokens and tree are computed (C08, C11) and calls that return; the element in front of the cursor is the one C23 describes; white space and name each in their own theorem"
  },
  {
   "property": "C59",
   "status": "proved",
   "theorems": [
    "Html.Props.C59_in_quotes",
    "Html.Props.C59_unquoted",
    "Html.Props.C59_behind_equals",
    "Html.Props.C59_removes_closing_quote",
    "Html.Props.C59_panics"
   ],
   "note": "for documents whose tokens and tree are computed (C08, C11), valid UTF-8, and calls that return"
  },
  {
   "property": "C61",
   "status": "proved",
   "theorems": [
    "Html.Props.C61_in_content",
    "Html.Props.C61_before_elements"
   ],
   "note": "for documents whose tokens and tree are computed (C08, C11), valid UTF-8, positions of the document, and calls that return"
  },
  {
   "property": "C62",
   "status": "proved",
   "theorems": [
    "Html.Props.C62_void_iff",
    "Html.Props.C62_behind_start_tag",
    "Html.Props.C62_proposes_second_end_tag"
   ],
   "note": "for documents whose tokens and tree are computed (C08, C11) and calls that return"
  },
  {
   "property": "C56",
   "status": "proved",
   "theorems": [
    "Html.Props.C56_layout",
    "Html.Props.C56_ends_with_newline",
    "Html.Props.C56_own_line",
    "Html.Props.C56_stays_on_line",
    "Html.Props.C56_several_lines",
    "Html.Props.C56_roots_glued",
    "Html.Props.C56_end_tag_glued",
    "Html.Props.C56_just_fits",
    "Html.Props.C56_attributes_apart"
   ],
   "note": "C56_layout gives the exact text relative to Spec/Layout; the other theorems are consequences a reader can check without it. C56_roots_glued, C56_end_tag_glued, C56_just_fits and C56_attributes_apart are the witnesses of the exceptions."
  },
  {
   "property": "C63",
   "status": "proved",
   "theorems": [
    "Html.Props.C63_state",
    "Html.Props.C63_same_setup_same_answers",
    "Html.Props.C63_questions_change_nothing",
    "Html.Props.C63_managers_independent",
    "Html.Props.C63_participants_independent",
    "Html.Props.C63_hover_setup",
    "Html.Props.C63_completion_setup"
   ],
   "note": "Providers and participants are assumed to be pure."
  },
  {
   "property": "C64",
   "status": "proved",
   "theorems": [
    "Html.Props.C64_void_from_manager",
    "Html.Props.C64_format_ignores_managers",
    "Html.Props.C64_format_builtin_void",
    "Html.Props.C64_format_fails_for_custom_void"
   ],
   "note": "proved for parsing and folding; C64_format_ignores_managers says what formatting does instead, C64_format_fails_for_custom_void is the witness"
  },
  {
   "property": "C65",
   "status": "proved",
   "theorems": [
    "Html.Props.C65_tree_preserved",
    "Html.Props.C65_utf8_tree_preserved",
    "Html.Props.C65_fails_for_open_elements"
   ],
   "note": "For all printed (well-formed) documents; for all UTF-8 documents formatting and both parses are shown to return. A witness shows that it fails for unclosed elements."
  },
  {
   "property": "C66",
   "status": "proved",
   "theorems": [
    "Html.Props.C66_offset",
    "Html.Props.C66_create_scanner"
   ],
   "note": ""
  },
  {
   "property": "C67",
   "status": "proved",
   "theorems": [
    "Html.Props.C67_prefix",
    "Html.Props.C67_concat",
    "Html.Props.C67_needs_bracket"
   ],
   "note": ""
  },
  {
   "property": "C68",
   "status": "proved",
   "theorems": [
    "Html.Props.C68_concat",
    "Html.Props.C68_edit_behind",
    "Html.Props.C68_edit_before",
    "Html.Props.C68_needs_closed"
   ],
   "note": ""
  },
  {
   "property": "C69",
   "status": "proved",
   "theorems": [
    "Html.Props.C69_builtin",
    "Html.Props.C69_custom",
    "Html.Props.C69_parsed"
   ],
   "note": ""
  },
  {
   "property": "C70",
   "status": "proved",
   "theorems": [
    "Html.Props.C70_tags",
    "Html.Props.C70_attributes",
    "Html.Props.C70_found",
    "Html.Props.C70_values",
    "Html.Props.C70_hover",
    "Html.Props.C70_documented",
    "Html.Props.C70_hover_attribute",
    "Html.Props.C70_hides_documentation",
    "Html.Props.C70_proposed",
    "Html.Props.C70_region_twice"
   ],
   "note": ""
  },
  {
   "property": "C71",
   "status": "proved",
   "theorems": [
    "Html.Props.C71_names",
    "Html.Props.C71_semicolon",
    "Html.Props.C71_texts",
    "Html.Props.C71_code",
    "Html.Props.C71_code_of_two",
    "Html.Props.C71_hover",
    "Html.Props.C71_proposed",
    "Html.Props.C71_missing"
   ],
   "note": ""
  },
  {
   "property": "C72",
   "status": "proved",
   "theorems": [
    "Html.Props.C72_closes",
    "Html.Props.C72_once",
    "Html.Props.C72_always",
    "Html.Props.C72_parsed",
    "Html.Props.C72_script_limit",
    "Html.Props.C72_upper_case"
   ],
   "note": ""
  },
  {
   "property": "C73",
   "status": "proved",
   "theorems": [
    "Html.Props.C73_content_of_start_tag",
    "Html.Props.C73_raw_content_only_there",
    "Html.Props.C73_tag_unique",
    "Html.Props.C73_typed_script_is_html"
   ],
   "note": ""
  },
  {
   "property": "C74",
   "status": "proved",
   "theorems": [
    "Html.Props.C74_insert",
    "Html.Props.C74_parsed",
    "Html.Props.C74_inert",
    "Html.Props.C74_typing",
    "Html.Props.C74_needs_complete",
    "Html.Props.C74_needs_content"
   ],
   "note": ""
  },
  {
   "property": "C75",
   "status": "proved",
   "theorems": [
    "Html.Props.C75_matching_iff",
    "Html.Props.C75_rename_edits",
    "Html.Props.C75_linked_without_rename",
    "Html.Props.C75_highlights",
    "Html.Props.C75_blank_limit"
   ],
   "note": ""
  },
  {
   "property": "C76",
   "status": "proved",
   "theorems": [
    "Html.Props.C76_attributes",
    "Html.Props.C76_parsed",
    "Html.Props.C76_typing",
    "Html.Props.C76_needs_type",
    "Html.Props.C76_needs_slash"
   ],
   "note": ""
  },
  {
   "property": "C77",
   "status": "proved",
   "theorems": [
    "Html.Props.C77_accept",
    "Html.Props.C77_accept_in_quotes",
    "Html.Props.C77_new_document"
   ],
   "note": ""
  },
  {
   "property": "C78",
   "status": "proved",
   "theorems": [
    "Html.Props.C78_scanners_agree",
    "Html.Props.C78_exact",
    "Html.Props.C78_elements",
    "Html.Props.C78_other_case",
    "Html.Props.C78_no_name"
   ],
   "note": ""
  },
  {
   "property": "C79",
   "status": "proved",
   "theorems": [
    "Html.Props.C79_links_are_attributes",
    "Html.Props.C79_repeated",
    "Html.Props.C79_cut_short",
    "Html.Props.C79_attributes_are_links"
   ],
   "note": ""
  },
  {
   "property": "C80",
   "status": "proved",
   "theorems": [
    "Html.Props.C80_prefix",
    "Html.Props.C80_edit",
    "Html.Props.C80_parsed",
    "Html.Props.C80_panics_behind",
    "Html.Props.C80_kept",
    "Html.Props.C80_open",
    "Html.Props.C80_needs_content"
   ],
   "note": ""
  },
  {
   "property": "C81",
   "status": "proved",
   "theorems": [
    "Html.Props.C81_closes",
    "Html.Props.C81_own_end_tag",
    "Html.Props.C81_parsed_iff",
    "Html.Props.C81_parsed_before_bracket",
    "Html.Props.C81_parse_limit"
   ],
   "note": ""
  },
  {
   "property": "C82",
   "status": "proved",
   "theorems": [
    "Html.Props.C82_accept",
    "Html.Props.C82_new_document",
    "Html.Props.C82_new_text_parsed",
    "Html.Props.C82_new_text_not_parsed",
    "Html.Props.C82_nameless_limit"
   ],
   "note": ""
  },
  {
   "property": "C83",
   "status": "proved",
   "theorems": [
    "Html.Props.C83_accept",
    "Html.Props.C83_every_proposal",
    "Html.Props.C83_new_document",
    "Html.Props.C83_data_second_value"
   ],
   "note": ""
  },
  {
   "property": "C84",
   "status": "proved",
   "theorems": [
    "Html.Props.C84_offered_iff_no_value",
    "Html.Props.C84_accept",
    "Html.Props.C84_not_again"
   ],
   "note": ""
  },
  {
   "property": "C85",
   "status": "proved",
   "theorems": [
    "Html.Props.C85_proposals",
    "Html.Props.C85_markdown_for_tags"
   ],
   "note": "C85_proposals covers every item of every answer; C85_markdown_for_tags is the departure for clients without Markdown. C62_void_iff says what completion takes for void."
  },
  {
   "property": "C86",
   "status": "proved",
   "theorems": [
    "Html.Props.C86_end_tag",
    "Html.Props.C86_unclosed",
    "Html.Props.C86_only_start_tag",
    "Html.Props.C86_rename",
    "Html.Props.C86_rename_one",
    "Html.Props.C86_undo",
    "Html.Props.C86_needs_fresh_name"
   ],
   "note": "C86_end_tag, C86_unclosed and C86_only_start_tag compare the two trees; C86_rename and C86_rename_one tie them to do_rename and the application of its edits, for UTF-8 documents with success of the second parse, and C86_undo to renaming back. C86_needs_fresh_name is the witness that the condition on the names is needed. The texts around the tags end in content (EndsInContent), so the tags are tags and not part of a comment or of raw text."
  },
  {
   "property": "C87",
   "status": "proved",
   "theorems": [
    "Html.Props.C87_tokens",
    "Html.Props.C87_tree",
    "Html.Props.C87_without_raw_tags",
    "Html.Props.C87_needs_raw_tags",
    "Html.Props.C87_needs_void_spelling"
   ],
   "note": "C87_tokens and C87_tree are proved by comparing the two runs step by step; C87_without_raw_tags gives the first condition for texts without script and style tags. C87_needs_raw_tags and C87_needs_void_spelling show that the conditions are needed."
  },
  {
   "property": "C88",
   "status": "proved",
   "theorems": [
    "Html.Props.C88_element_name",
    "Html.Props.C88_attribute_name",
    "Html.Props.C88_attribute_value",
    "Html.Props.C88_value_place",
    "Html.Props.C88_no_panic",
    "Html.Props.C88_end_tag_no_panic",
    "Html.Props.C88_panics_only"
   ],
   "note": "Strengthens C42 and C43: the conditions are on the tree only, not on the scan that hover does itself. C88_no_panic covers start tags, C88_end_tag_no_panic end tags, C88_panics_only everything else."
  },
  {
   "property": "C89",
   "status": "proved",
   "theorems": [
    "Html.Props.C89_element",
    "Html.Props.C89_accepted",
    "Html.Props.C89_attribute",
    "Html.Props.C89_value",
    "Html.Props.C89_references_only_limit",
    "Html.Props.C89_two_providers_limit"
   ],
   "note": "C89_references_only_limit and C89_two_providers_limit show that the conditions are needed. For elements the proposal is Markdown always, so the texts are the same for clients with Markdown (see C85)."
  },
  {
   "property": "C90",
   "status": "proved",
   "theorems": [
    "Html.Props.C90_leads_to_id",
    "Html.Props.C90_unique",
    "Html.Props.C90_repeated_limit"
   ],
   "note": "C90_repeated_limit is the witness for ids written twice."
  },
  {
   "property": "C91",
   "status": "proved",
   "theorems": [
    "Html.Props.C91_services",
    "Html.Props.C91_positions",
    "Html.Props.C91_folding_limit"
   ],
   "note": "Holds where C87 holds. C91_folding_limit: folding compares names with their case although the parser was told not to."
  },
  {
   "property": "C92",
   "status": "proved",
   "theorems": [
    "Html.Props.C92_tokens",
    "Html.Props.C92_tree",
    "Html.Props.C92_places",
    "Html.Props.C92_positions",
    "Html.Props.C92_services",
    "Html.Props.C92_linked_limit",
    "Html.Props.C92_selection",
    "Html.Props.C92_selection_limit"
   ],
   "note": "C92_tokens and C92_tree are equations, panics included, for every UTF-8 text. C92_positions shows the condition on documents for the reference document when the first text has no `\\r`. C92_linked_limit shows why the names have to be on one line with the brackets: in `<\\nb>` the linked range is the line ending. C92_selection is an equation, panics included, for documents whose offsets are in the order of their positions (as in the reference documents); C92_selection_limit is the exception: in `</p\\n<i>` the line ending is taken for the `>`."
  },
  {
   "property": "C93",
   "status": "proved",
   "theorems": [
    "Html.Props.C93_every_question_ends",
    "Html.Props.C93_number_of_tokens"
   ],
   "note": "The model bounds each loop by a number of rounds and reports `fuel` when they are used up; the theorem says this never happens, also for trees that do not belong to the text. Recursion over trees is structural. Closures given by the client (participants, resolve_reference) are assumed to return."
  },
  {
   "property": "C94",
   "status": "proved",
   "theorems": [
    "Html.Props.C94_linked_editing",
    "Html.Props.C94_matching_tag",
    "Html.Props.C94_rename",
    "Html.Props.C94_highlights",
    "Html.Props.C94_fits",
    "Html.Props.C94_hover_element",
    "Html.Props.C94_hover_attribute",
    "Html.Props.C94_hover_value",
    "Html.Props.C94_reference",
    "Html.Props.C94_needs_content"
   ],
   "note": "Linked editing, matching tag and rename take the length of the name in the start tag for the end tag; the hypothesis NameFits says that this many bytes are in front of the place. It always holds when case matters (C94_fits). C94_reference: the reference document meets the assumption on positions."
  },
  {
   "property": "C95",
   "status": "proved",
   "theorems": [
    "Html.Props.C95_folding",
    "Html.Props.C95_symbols",
    "Html.Props.C95_reference",
    "Html.Props.C95_limit",
    "Html.Props.C95_needs_bracket",
    "Html.Props.C95_needs_closed"
   ],
   "note": "C95_folding and C95_symbols are the property; C95_reference shows that documents of the reference implementation of positions meet the hypothesis on positions. C95_limit, C95_needs_bracket and C95_needs_closed prove that the conditions are needed."
  },
  {
   "property": "C96",
   "status": "proved",
   "theorems": [
    "Html.Props.C96_linked_editing",
    "Html.Props.C96_matching_tag",
    "Html.Props.C96_rename",
    "Html.Props.C96_highlights",
    "Html.Props.C96_symbols",
    "Html.Props.C96_hover",
    "Html.Props.C96_reference",
    "Html.Props.C96_needs_closed"
   ],
   "note": "C96_reference: documents of the reference implementation of positions meet the hypothesis PutBehind. C96_needs_closed: the text in front has to be complete. Selection ranges are in C98, folding in C97, completion in C99 and C100, links in C101. Hover is for services without participants: a participant sees the position and may answer differently."
  },
  {
   "property": "C97",
   "status": "proved",
   "theorems": [
    "Html.Props.C97_folding",
    "Html.Props.C97_reference",
    "Html.Props.C97_needs_balanced"
   ],
   "note": "C97_reference: for the reference implementation of positions there is no condition on positions. C97_needs_balanced: the condition on regions is needed. Balanced is the specification of C32."
  },
  {
   "property": "C98",
   "status": "proved",
   "theorems": [
    "Html.Props.C98_outer_grows",
    "Html.Props.C98_moved",
    "Html.Props.C98_unclosed",
    "Html.Props.C98_unclosed_alone"
   ],
   "note": "C98_outer_grows: elements in front; C98_moved: no elements in front; C98_unclosed, C98_unclosed_alone: in an element without end tag the chain has no range around it. A document without elements is left out: its only range is empty and at the cursor."
  },
  {
   "property": "C99",
   "status": "proved",
   "theorems": [
    "Html.Props.C99_tag_complete",
    "Html.Props.C99_quote_complete",
    "Html.Props.C99_needs_closed"
   ],
   "note": "C99_tag_complete, C99_quote_complete: equality of the answers, panics included. C99_needs_closed: the text in front has to be complete. In front of the first element the node before the cursor is one of the text in front; not claimed there."
  },
  {
   "property": "C100",
   "status": "proved",
   "theorems": [
    "Html.Props.C100_proposals",
    "Html.Props.C100_needs_line_break",
    "Html.Props.C100_needs_no_data"
   ],
   "note": "C100_proposals: all kinds of proposals. C100_needs_line_break and C100_needs_no_data: two of the hypotheses are needed. Participants see the position and may answer differently, so the theorem is for services without them. It says nothing when completion panics without the text in front."
  },
  {
   "property": "C101",
   "status": "proved",
   "theorems": [
    "Html.Props.C101_links",
    "Html.Props.C101_links_elsewhere",
    "Html.Props.C101_reference",
    "Html.Props.C101_needs_no_base",
    "Html.Props.C101_finds_ids_behind"
   ],
   "note": "C101_links: all links; C101_links_elsewhere: equality if no link leads into the document; C101_reference: documents of the reference implementation of positions meet the hypotheses on positions. C101_needs_no_base, C101_finds_ids_behind: witnesses for the two exceptions. Elements may be left open in front."
  },
  {
   "property": "C102",
   "status": "proved",
   "theorems": [
    "Html.Props.C102_format",
    "Html.Props.C102_needs_values",
    "Html.Props.C102_range_limit"
   ],
   "note": "C102_format: equality of the results, panics included, for all options. C102_needs_values: a line end in a value is copied. C102_range_limit: formatting a range depends on the line endings. C92_positions gives the pairs of documents of the reference implementation of positions."
  },
  {
   "property": "C103",
   "status": "proved",
   "theorems": [
    "Html.Props.C103_links",
    "Html.Props.C103_needs_base"
   ],
   "note": "C103_links: equality of the results, panics included. A path value with a line end is never a link, with either line ending. C103_needs_base: a base with a line end shows in the targets if the document context copies it. C92_positions gives the pairs of documents of the reference implementation of positions."
  },
  {
   "property": "C104",
   "status": "proved",
   "theorems": [
    "Html.Props.C104_hover",
    "Html.Props.C104_needs_value"
   ],
   "note": "C104_hover: equality of the results, panics included. C104_needs_value: the participants see the line ends of a value. C92_positions gives the pairs of documents of the reference implementation of positions."
  },
  {
   "property": "C105",
   "status": "proved",
   "theorems": [
    "Html.Props.C105_tag_complete",
    "Html.Props.C105_quote_complete",
    "Html.Props.C105_needs_place"
   ],
   "note": "C105_tag_complete, C105_quote_complete: equality of the answers, panics included. C105_needs_place: the same byte offset is another place of the other text. C92_positions gives the pairs of documents of the reference implementation of positions."
  }
 ]
}
