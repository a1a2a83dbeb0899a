{
 "claims": [
  {
   "property": "C01",
   "status": "proved",
   "theorems": [
    "YamlSubset.C01_literal_roundtrip",
    "YamlSubset.C01_literal_lines"
   ],
   "note": "For every string."
  },
  {
   "property": "C02",
   "status": "proved",
   "theorems": [
    "YamlSubset.C02_folded_iff",
    "YamlSubset.C02_folded_ordinary",
    "YamlSubset.C02_folded_words",
    "YamlSubset.C02_folded_counterexamples"
   ],
   "note": "Exact: if and only if, for all strings and all line lengths of at least 1. The class is in Spec/Fold.lean."
  },
  {
   "property": "C03",
   "status": "proved",
   "theorems": [
    "YamlSubset.C03_literal_keep",
    "YamlSubset.C03_literal_strip",
    "YamlSubset.C03_literal_clip",
    "YamlSubset.C03_folded_strip",
    "YamlSubset.C03_folded_clip",
    "YamlSubset.C03_folded_keep_plain",
    "YamlSubset.C03_folded_keep_blank",
    "YamlSubset.C03_clip_empty_counterexample"
   ],
   "note": "A clipped block without content is one newline; recorded as a proved boundary case."
  },
  {
   "property": "C04",
   "status": "proved",
   "theorems": [
    "YamlSubset.C04_requote_value",
    "YamlSubset.C04_requote_text"
   ],
   "note": "The rendering is read back by an independent reader of single-quoted scalars."
  },
  {
   "property": "C05",
   "status": "proved",
   "theorems": [
    "YamlSubset.C05_serialized_string_value",
    "YamlSubset.C05_string_roundtrip"
   ],
   "note": ""
  },
  {
   "property": "C06",
   "status": "proved",
   "theorems": [
    "YamlSubset.C06_string_stays_string_iff",
    "YamlSubset.C06_counterexample"
   ],
   "note": "Exact: if and only if."
  },
  {
   "property": "C07",
   "status": "proved",
   "theorems": [
    "YamlSubset.C07_some_string_iff",
    "YamlSubset.C07_counterexample"
   ],
   "note": "Exact: if and only if."
  },
  {
   "property": "C08",
   "status": "proved",
   "theorems": [
    "YamlSubset.C08_int_typed",
    "YamlSubset.C08_int_in_range",
    "YamlSubset.C08_int_self_describing",
    "YamlSubset.C08_bool"
   ],
   "note": "All integer types up to 64 bits; the 128-bit types are not implemented by the crate (always an error when read)."
  },
  {
   "property": "C09",
   "status": "proved",
   "theorems": [
    "YamlSubset.C09_typed_roundtrip_exact",
    "YamlSubset.C09_typed_roundtrip",
    "YamlSubset.C09_counterexample_variant",
    "YamlSubset.C09_counterexample_some",
    "YamlSubset.C07_counterexample"
   ],
   "note": "Exact: the value comes back if and only if it is lossless."
  },
  {
   "property": "C10",
   "status": "proved",
   "theorems": [
    "YamlSubset.C10_pretty_roundtrip_exact",
    "YamlSubset.C10_pretty_roundtrip",
    "YamlSubset.C10_counterexample"
   ],
   "note": "Exact: the value comes back if and only if it is lossless and every folded string survives folding."
  },
  {
   "property": "C11",
   "status": "proved",
   "theorems": [
    "YamlSubset.C11_map_keys_unchanged",
    "YamlSubset.C11_field_names_unchanged",
    "YamlSubset.C11_plain_key_accepted"
   ],
   "note": ""
  },
  {
   "property": "C12",
   "status": "proved",
   "theorems": [
    "YamlSubset.C12_dotted_keys_parse"
   ],
   "note": "Unicode names, any number of segments; names may contain inner spaces."
  },
  {
   "property": "C13",
   "status": "proved",
   "theorems": [
    "YamlSubset.C13_rendered_paths_parse",
    "YamlSubset.C13_rendered_root_parses",
    "YamlSubset.C13_counterexample_index_after_condition",
    "YamlSubset.C13_counterexample_leading_space"
   ],
   "note": "An index directly after a condition is excluded: the grammar reads it as a part of the value (counterexample)."
  },
  {
   "property": "C14",
   "status": "proved",
   "theorems": [
    "YamlSubset.C14_insert_assoc",
    "YamlSubset.C14_insert_root",
    "YamlSubset.C14_insert_appends",
    "YamlSubset.C14_insert_dot"
   ],
   "note": "Associativity holds for every receiver, also roots."
  },
  {
   "property": "C15",
   "status": "proved",
   "theorems": [
    "YamlSubset.C15_parsed_no_repeats",
    "YamlSubset.C15_path_parsing_exact",
    "YamlSubset.C15_path_texts_parse",
    "YamlSubset.C15_path_parsing_safe",
    "YamlSubset.C15_path_text_unique",
    "YamlSubset.C15_path_parsing_terminates",
    "YamlSubset.C15_counterexample_overflow",
    "YamlSubset.C15_counterexample_space_in_index",
    "YamlSubset.C15_counterexample_space_before_dot",
    "YamlSubset.C15_counterexample_space_before_stop"
   ],
   "note": "Exact outcome for every text without spaces, and for every path text; the panic on huge indexes and the odd outcomes with spaces are proved as counterexamples."
  },
  {
   "property": "C16",
   "status": "proved",
   "theorems": [
    "YamlSubset.C16_insert_zero",
    "YamlSubset.C16_remove_zero",
    "YamlSubset.C16_rename_zero",
    "YamlSubset.C16_to_object_zero",
    "YamlSubset.C16_move_to_subfield_zero",
    "YamlSubset.C16_move_to_map_zero"
   ],
   "note": ""
  },
  {
   "property": "C17",
   "status": "proved",
   "theorems": [
    "YamlSubset.C17_insert_only_appends",
    "YamlSubset.C24_insert_where"
   ],
   "note": ""
  },
  {
   "property": "C18",
   "status": "proved",
   "theorems": [
    "YamlSubset.C18_insert_then_find_keys",
    "YamlSubset.C18_insert_then_find"
   ],
   "note": "Also for index paths that do not enter inline arrays."
  },
  {
   "property": "C19",
   "status": "proved",
   "theorems": [
    "YamlSubset.C19_insert_idempotent",
    "YamlSubset.C19_second_insert_zero"
   ],
   "note": ""
  },
  {
   "property": "C20",
   "status": "proved",
   "theorems": [
    "YamlSubset.C20_remove_one_entry",
    "YamlSubset.C20_remove_then_find",
    "YamlSubset.C20_duplicate_keys_counterexample",
    "YamlSubset.C24_remove_where"
   ],
   "note": ""
  },
  {
   "property": "C21",
   "status": "proved",
   "theorems": [
    "YamlSubset.C21_rename_only_names",
    "YamlSubset.C21_rename_count",
    "YamlSubset.C21_repeated_index"
   ],
   "note": ""
  },
  {
   "property": "C22",
   "status": "proved",
   "theorems": [
    "YamlSubset.C22_to_object_wraps",
    "YamlSubset.C22_to_object_count",
    "YamlSubset.C22_to_object_then_find_keys",
    "YamlSubset.C22_to_object_then_find"
   ],
   "note": ""
  },
  {
   "property": "C23",
   "status": "proved",
   "theorems": [
    "YamlSubset.C23_find_readonly",
    "YamlSubset.C23_find_exact",
    "YamlSubset.C23_find_is_lookup",
    "YamlSubset.C23_find_parsed",
    "YamlSubset.C23_find_off_inline"
   ],
   "note": "Read-only for all inputs; exact result for every tree (C23_find_exact), for trees without block collections in flow collections, and for parsed documents."
  },
  {
   "property": "C24",
   "status": "proved",
   "theorems": [
    "YamlSubset.C24_conditions",
    "YamlSubset.C24_insert_where",
    "YamlSubset.C24_remove_where",
    "YamlSubset.C24_rename_where_block",
    "YamlSubset.C24_to_object_where_block",
    "YamlSubset.C24_rename_where",
    "YamlSubset.C24_to_object_where"
   ],
   "note": "The where theorems say that the edited places are exactly the addressed ones (whose nodes fit the conditions); for rename and to_object this is for trees without block collections in flow collections (every parsed document), or paths whose index steps meet no flow sequence."
  },
  {
   "property": "C25",
   "status": "proved",
   "theorems": [
    "YamlSubset.C25_flow_sequences",
    "YamlSubset.C25_styles_differ",
    "YamlSubset.C25_edits_same",
    "YamlSubset.C25_inline_array_counterexample",
    "YamlSubset.C25_rename_inline_counterexample"
   ],
   "note": "The naive claim (same values for both styles) is false, see the counterexamples; the exact statement is proved."
  },
  {
   "property": "C26",
   "status": "proved",
   "theorems": [
    "YamlSubset.C26_move_to_subfield",
    "YamlSubset.C26_move_to_subfield_everywhere",
    "YamlSubset.C26_lookup",
    "YamlSubset.C26_panics_iff",
    "YamlSubset.C26_never_fails",
    "YamlSubset.C26_succeeds",
    "YamlSubset.C26_outcome",
    "YamlSubset.C26_repeated_index",
    "YamlSubset.C26_counterexample_not_a_hash",
    "YamlSubset.C26_counterexample_itself",
    "YamlSubset.C26_counterexample_dotted_name"
   ],
   "note": "For clean names, distinct fields and a subfield that is not itself listed. If the subfield exists and is not a block hash, the fields are lost: this outcome is stated too. Without these conditions the claim is false (counterexamples)."
  },
  {
   "property": "C27",
   "status": "proved",
   "theorems": [
    "YamlSubset.C27_move_to_map",
    "YamlSubset.C27_move_to_map_root",
    "YamlSubset.C27_partition",
    "YamlSubset.C27_panics_iff",
    "YamlSubset.C27_never_fails",
    "YamlSubset.C27_succeeds",
    "YamlSubset.C27_outcome",
    "YamlSubset.C27_counterexample_new_map_exists",
    "YamlSubset.C27_anchor_copied"
   ],
   "note": "For clean names. If the name of the new map exists already, the groups are lost: this outcome is stated too."
  },
  {
   "property": "C28",
   "status": "proved",
   "theorems": [
    "YamlSubset.C28_insert_comments",
    "YamlSubset.C28_rename_comments",
    "YamlSubset.C28_to_object_comments",
    "YamlSubset.C28_document_comments"
   ],
   "note": ""
  },
  {
   "property": "C29",
   "status": "proved",
   "theorems": [
    "YamlSubset.C29_map_bottom_up",
    "YamlSubset.C29_map_identity",
    "YamlSubset.C29_map_calls"
   ],
   "note": ""
  },
  {
   "property": "C30",
   "status": "proved",
   "theorems": [
    "YamlSubset.C30_visit_positions",
    "YamlSubset.C30_positions_complete"
   ],
   "note": ""
  },
  {
   "property": "C31",
   "status": "proved",
   "theorems": [
    "YamlSubset.C31_pretty_scalar_iff",
    "YamlSubset.C31_pretty_scalar",
    "YamlSubset.C31_pretty_scalar_in_flow",
    "YamlSubset.C31_counterexample"
   ],
   "note": "Exact: if and only if."
  },
  {
   "property": "C32",
   "status": "proved",
   "theorems": [
    "YamlSubset.C32_pretty_data_iff",
    "YamlSubset.C32_pretty_data_in_flow",
    "YamlSubset.C32_pretty_document_iff",
    "YamlSubset.C32_pretty_data",
    "YamlSubset.C32_pretty_document"
   ],
   "note": "Exact: if and only if."
  },
  {
   "property": "C33",
   "status": "proved",
   "theorems": [
    "YamlSubset.C33_pretty_idempotent_iff",
    "YamlSubset.C33_pretty_stable",
    "YamlSubset.C33_pretty_document_iff",
    "YamlSubset.C33_pretty_document_stable",
    "YamlSubset.C33_pretty_idempotent",
    "YamlSubset.C33_pretty_document",
    "YamlSubset.C33_counterexample"
   ],
   "note": "Exact."
  },
  {
   "property": "C34",
   "status": "proved",
   "theorems": [
    "YamlSubset.C34_no_block_in_flow",
    "YamlSubset.C34_flow_context",
    "YamlSubset.C34_items",
    "YamlSubset.C34_block_scalar_in_flow_counterexample"
   ],
   "note": ""
  },
  {
   "property": "C35",
   "status": "proved",
   "theorems": [
    "YamlSubset.C35_pretty_notes",
    "YamlSubset.C35_needs_condition"
   ],
   "note": "Also for anchor definitions."
  },
  {
   "property": "C36",
   "status": "proved",
   "theorems": [
    "YamlSubset.C36_parsing_terminates"
   ],
   "note": "For the model of the grammar evaluator: the recursion depth is at most 40*(length+1)."
  },
  {
   "property": "C37",
   "status": "proved",
   "theorems": [
    "YamlSubset.C37_parse_no_panic",
    "YamlSubset.C37_parse_no_panic_plain",
    "YamlSubset.C37_consumer_complete",
    "YamlSubset.C37_stack_safe",
    "YamlSubset.C37_counterexample_zero",
    "YamlSubset.C37_counterexample_large",
    "YamlSubset.C37_counterexample_less_indented",
    "YamlSubset.C37_counterexample_huge",
    "YamlSubset.C37_counterexample_not_ascii"
   ],
   "note": "A panic implies a bad block scalar in the text (Spec/BlockScalar); the counterexamples show that each kind of bad block scalar does panic."
  },
  {
   "property": "C38",
   "status": "proved",
   "theorems": [
    "YamlSubset.C38_one_root"
   ],
   "note": ""
  },
  {
   "property": "C39",
   "status": "proved",
   "theorems": [
    "YamlSubset.C39_parsed_well_formed"
   ],
   "note": ""
  },
  {
   "property": "C40",
   "status": "proved",
   "theorems": [
    "YamlSubset.C40_flow_values_parse",
    "YamlSubset.C40_nested_flow_values_parse"
   ],
   "note": ""
  },
  {
   "property": "C41",
   "status": "proved",
   "theorems": [
    "YamlSubset.C41_formatted_documents_parse",
    "YamlSubset.C41_empty_collections",
    "YamlSubset.C41_counterexample_nested_sequences",
    "YamlSubset.C41_counterexample_anchored_mapping",
    "YamlSubset.C41_counterexample_deep_mapping",
    "YamlSubset.C41_counterexample_block_scalar",
    "YamlSubset.C41_counterexample_indicator",
    "YamlSubset.C41_counterexample_empty_line",
    "YamlSubset.C41_counterexample_empty",
    "YamlSubset.C41_counterexample_first_comment",
    "YamlSubset.C41_counterexample_last_comment",
    "YamlSubset.C41_counterexample_inline_comment",
    "YamlSubset.C41_counterexample_comments",
    "YamlSubset.C41_counterexample_colon",
    "YamlSubset.C41_counterexample_shapes"
   ],
   "note": "For every document that meets the specification ReadableDocument (Spec/Readable.lean); the conditions are sharp: a proved counterexample for each of them."
  },
  {
   "property": "C42",
   "status": "proved",
   "theorems": [
    "YamlSubset.C42_values_survive_text",
    "YamlSubset.C42_portable_values_survive_text",
    "YamlSubset.C42_counterexample_nested_sequences",
    "YamlSubset.C42_counterexample_silent",
    "YamlSubset.C42_counterexample_dash",
    "YamlSubset.C42_counterexample_reference",
    "YamlSubset.C42_counterexample_anchor",
    "YamlSubset.C42_counterexample_key",
    "YamlSubset.C42_counterexample_space",
    "YamlSubset.C42_counterexample_root",
    "YamlSubset.C42_counterexample_tuple",
    "YamlSubset.C42_counterexample_map_key"
   ],
   "note": "Once with the conditions on the node (ReadableDocument) and once with all conditions on the value (Spec/Portable.lean); a proved counterexample for each kind of value left out."
  },
  {
   "property": "C43",
   "status": "proved",
   "theorems": [
    "YamlSubset.C43_plain_documents",
    "YamlSubset.C43_readable_documents",
    "YamlSubset.C43_example",
    "YamlSubset.C43_counterexample_next_line",
    "YamlSubset.C43_counterexample_flow_root",
    "YamlSubset.C43_counterexample_comment_after_dash",
    "YamlSubset.C43_counterexample_colon",
    "YamlSubset.C43_counterexample_indicator",
    "YamlSubset.C43_counterexample_flow_colon",
    "YamlSubset.C43_counterexample_first_comment",
    "YamlSubset.C43_counterexample_nested_sequences",
    "YamlSubset.C43_counterexample_nested_scalar"
   ],
   "note": "The property was first listed without the conditions on the layout (for all strings that parse). In that form it is false: the counterexamples are texts that parse. It is restated with conditions (Spec/Tame.lean), which are sufficient; they are not claimed to be necessary. C43_readable_documents has the weaker but more involved conditions of C41."
  },
  {
   "property": "C44",
   "status": "proved",
   "theorems": [
    "YamlSubset.C44_references_expand",
    "YamlSubset.C44_undefined_reference_fails",
    "YamlSubset.C44_undefined_reference_error",
    "YamlSubset.C44_undefined_typed_fails",
    "YamlSubset.C44_undefined_typed_error",
    "YamlSubset.C44_unread_reference_ignored",
    "YamlSubset.C44_struct_fields"
   ],
   "note": "Needs (Spec/Needs.lean) says which references a type reads; references that are reached only through another reference are not among them at types other than the self-describing one. C44_unread_reference_ignored is one example of a reference that is not read."
  },
  {
   "property": "C45",
   "status": "proved",
   "theorems": [
    "YamlSubset.C45_view_determines",
    "YamlSubset.C45_comments_invisible",
    "YamlSubset.C45_flow_style_invisible",
    "YamlSubset.C45_quotes_invisible",
    "YamlSubset.C45_quotes_exact"
   ],
   "note": ""
  },
  {
   "property": "C46",
   "status": "proved",
   "theorems": [
    "YamlSubset.C46_deserialization_terminates",
    "YamlSubset.C46_no_references",
    "YamlSubset.C46_cyclic_counterexample"
   ],
   "note": "Guarded excludes named types that refer to themselves without consuming input, such as struct T(Box<T>)."
  },
  {
   "property": "C47",
   "status": "proved",
   "theorems": [
    "YamlSubset.C47_no_panic",
    "YamlSubset.C47_text",
    "YamlSubset.C47_text_no_panic"
   ],
   "note": ""
  },
  {
   "property": "C48",
   "status": "proved",
   "theorems": [
    "YamlSubset.C48_indentation",
    "YamlSubset.C48_flow_on_one_line",
    "YamlSubset.C48_aliased"
   ],
   "note": "Totality and determinism hold because the model of format is a function; the Rust code writes to a String, which cannot fail."
  },
  {
   "property": "C49",
   "status": "proved",
   "theorems": [
    "YamlSubset.C49_single_quoted_text",
    "YamlSubset.C49_double_quoted_text",
    "YamlSubset.C49_plain_text",
    "YamlSubset.C49_block_scalar_text",
    "YamlSubset.C49_other_quotes"
   ],
   "note": ""
  },
  {
   "property": "C50",
   "status": "proved",
   "theorems": [
    "YamlSubset.C50_pretty_documents_parse",
    "YamlSubset.C50_pretty_readable",
    "YamlSubset.C50_pretty_values_survive_text",
    "YamlSubset.C50_counterexample_comma",
    "YamlSubset.C50_counterexample_return",
    "YamlSubset.C50_counterexample_newline",
    "YamlSubset.C50_counterexample_first_entry",
    "YamlSubset.C50_counterexample_flow",
    "YamlSubset.C50_counterexample_comment",
    "YamlSubset.C50_counterexample_reference"
   ],
   "note": "The conditions are in Spec/PrettySafe.lean; a proved counterexample for each kind of document left out, which pretty breaks."
  },
  {
   "property": "C51",
   "status": "proved",
   "theorems": [
    "YamlSubset.C51_deserialize_exact",
    "YamlSubset.C51_deserialize_error",
    "YamlSubset.C51_decodes_unique",
    "YamlSubset.C51_missing_field"
   ],
   "note": "The rules are Spec/Decode.lean (Decodes). Values of floats are not modelled: a float is the text it was read from. Trees with references: C44."
  },
  {
   "property": "C52",
   "status": "proved",
   "theorems": [
    "YamlSubset.C52_type_soundness",
    "YamlSubset.C52_document_type_soundness"
   ],
   "note": ""
  },
  {
   "property": "C53",
   "status": "proved",
   "theorems": [
    "YamlSubset.C53_every_layout_parses",
    "YamlSubset.C53_one_document",
    "YamlSubset.C53_layout_does_not_matter",
    "YamlSubset.C53_space_separators",
    "YamlSubset.C53_counterexample_empty_value",
    "YamlSubset.C53_counterexample_next_line",
    "YamlSubset.C53_counterexample_blank_line",
    "YamlSubset.C53_counterexample_block_scalar",
    "YamlSubset.C53_counterexample_inner_element"
   ],
   "note": "The relation DocumentText is Spec/Written.lean; a concrete text is shown to meet it; layouts left out have proved counterexamples."
  },
  {
   "property": "C54",
   "status": "proved",
   "theorems": [
    "YamlSubset.C54_visible_text",
    "YamlSubset.C54_only_white_space",
    "YamlSubset.C54_only_white_space_text",
    "YamlSubset.C54_again",
    "YamlSubset.C54_counterexample_less_indented",
    "YamlSubset.C54_counterexample_indicator"
   ],
   "note": "The relation DocumentShown is Spec/Visible.lean: it says which visible characters show a document. Block scalars can lose visible characters: the two counterexamples."
  },
  {
   "property": "C55",
   "status": "proved",
   "theorems": [
    "YamlSubset.C55_rename",
    "YamlSubset.C55_insert",
    "YamlSubset.C55_rename_tidy",
    "YamlSubset.C55_simple_insert",
    "YamlSubset.C55_simple_remove",
    "YamlSubset.C55_simple_rename",
    "YamlSubset.C55_simple_to_object",
    "YamlSubset.C55_simple_move",
    "YamlSubset.C55_simple_regroup",
    "YamlSubset.C55_counterexample_empty",
    "YamlSubset.C55_counterexample_block_scalar",
    "YamlSubset.C55_counterexample_comment",
    "YamlSubset.C55_counterexample_name",
    "YamlSubset.C55_counterexample_selector"
   ],
   "note": "The classes are TidyDocument and SimpleDocument in Spec/Tidy.lean and ReadableDocument (C41); a proved counterexample for each kind of edit left out."
  },
  {
   "property": "C56",
   "status": "proved",
   "theorems": [
    "YamlSubset.C56_insert_then_remove",
    "YamlSubset.C56_insert_then_remove_not_found",
    "YamlSubset.C56_rename_back",
    "YamlSubset.C56_last_write_wins",
    "YamlSubset.C56_overwrite_back",
    "YamlSubset.C56_remove_forgets_insert",
    "YamlSubset.C56_insert_existing_counterexample",
    "YamlSubset.C56_rename_existing_counterexample",
    "YamlSubset.C56_rename_condition_counterexample"
   ],
   "note": "The counterexamples show that the conditions are needed."
  },
  {
   "property": "C57",
   "status": "proved",
   "theorems": [
    "YamlSubset.C57_insert_elsewhere",
    "YamlSubset.C57_remove_elsewhere",
    "YamlSubset.C57_rename_elsewhere",
    "YamlSubset.C57_to_object_elsewhere",
    "YamlSubset.C57_condition_counterexample"
   ],
   "note": "Diverges is in Spec/Frame.lean."
  },
  {
   "property": "C58",
   "status": "proved",
   "theorems": [
    "YamlSubset.C58_line_endings",
    "YamlSubset.C58_same_document",
    "YamlSubset.C58_windows",
    "YamlSubset.C58_windows_accepted",
    "YamlSubset.C58_example",
    "YamlSubset.C58_example_return",
    "YamlSubset.C58_not_the_same",
    "YamlSubset.C58_backslash"
   ],
   "note": "Spec/Breaks.lean says what a line break is and which documents are alike. The differences that remain, and the need for the condition on backslashes, are proved by examples."
  },
  {
   "property": "C59",
   "status": "proved",
   "theorems": [
    "YamlSubset.C59_view_iff",
    "YamlSubset.C59_same_result",
    "YamlSubset.C59_flow",
    "YamlSubset.C59_scalar_exact",
    "YamlSubset.C59_texts",
    "YamlSubset.C59_example",
    "YamlSubset.C59_counterexample_bool",
    "YamlSubset.C59_counterexample_null",
    "YamlSubset.C59_counterexample_anchor"
   ],
   "note": "Spec/Requote.lean lists the 18 words. The necessity of the conditions is proved for scalars (there is a type that tells the difference) and, for trees, as a difference of the views; a tree in which the scalar is under an ignored key is read the same all the same. For texts the document must also be one that formatting keeps (C43) and that pretty does not break (C50)."
  },
  {
   "property": "C60",
   "status": "proved",
   "theorems": [
    "YamlSubset.C60_commute",
    "YamlSubset.C60_count",
    "YamlSubset.C60_any_order",
    "YamlSubset.C60_example",
    "YamlSubset.C60_counterexample_inserts",
    "YamlSubset.C60_counterexample_condition",
    "YamlSubset.C60_counterexample_names"
   ],
   "note": "Independent is in Spec/Commute.lean; a proved counterexample for each of its conditions that is not about the paths alone."
  },
  {
   "property": "C61",
   "status": "proved",
   "theorems": [
    "YamlSubset.C61_exponential",
    "YamlSubset.C61_at_most_exponential",
    "YamlSubset.C61_depth",
    "YamlSubset.C61_depth_at_most_linear",
    "YamlSubset.C61_measures",
    "YamlSubset.C61_example"
   ],
   "note": "Time is counted as the number of grammar expressions that are run, call stack as the number of rules running at the same time (Model/Cost.lean); the results that decide how the run goes on are those of the grammar evaluator."
  },
  {
   "property": "C62",
   "status": "proved",
   "theorems": [
    "YamlSubset.C62_in_the_text",
    "YamlSubset.C62_missing_start",
    "YamlSubset.C62_missing_start_example",
    "YamlSubset.C62_not_too_early",
    "YamlSubset.C62_not_too_early_example",
    "YamlSubset.C62_counterexample_flow",
    "YamlSubset.C62_counterexample_return",
    "YamlSubset.C62_example"
   ],
   "note": "The position is that of pest (attempt_pos): the last position at which a rule that is not silent, not inside an atomic rule, fails, or matches inside a negative lookahead. The messages are not modelled."
  },
  {
   "property": "C63",
   "status": "proved",
   "theorems": [
    "YamlSubset.C63_expanded_size",
    "YamlSubset.C63_no_references",
    "YamlSubset.C63_bound",
    "YamlSubset.C63_parsed_size",
    "YamlSubset.C63_text_without_references",
    "YamlSubset.C63_text_bound",
    "YamlSubset.C63_exponential"
   ],
   "note": "Sizes are counted by Spec/Size.lean. Self-describing values only; typed values: C51."
  },
  {
   "property": "C64",
   "status": "proved",
   "theorems": [
    "YamlSubset.C64_rename",
    "YamlSubset.C64_insert",
    "YamlSubset.C64_overwrite",
    "YamlSubset.C64_remove",
    "YamlSubset.C64_to_object",
    "YamlSubset.C64_rename_length",
    "YamlSubset.C64_no_key",
    "YamlSubset.C64_example"
   ],
   "note": "The pieces are in Spec/Patch.lean. Which places of the tree they belong to is the subject of C24."
  },
  {
   "property": "C65",
   "status": "proved",
   "theorems": [
    "YamlSubset.C65_insert",
    "YamlSubset.C65_remove",
    "YamlSubset.C65_rename",
    "YamlSubset.C65_to_object",
    "YamlSubset.C65_has_value",
    "YamlSubset.C65_rename_text",
    "YamlSubset.C65_example",
    "YamlSubset.C65_counterexample_reference"
   ],
   "note": "The changes of values are in Spec/ValueEdit.lean. Which places they belong to is the subject of C24."
  },
  {
   "property": "C66",
   "status": "proved",
   "theorems": [
    "YamlSubset.C66_unread",
    "YamlSubset.C66_text",
    "YamlSubset.C66_example_unread",
    "YamlSubset.C66_example",
    "YamlSubset.C66_counterexample_new_name",
    "YamlSubset.C66_counterexample_reference",
    "YamlSubset.C66_counterexample_map"
   ],
   "note": "Unread is in Spec/Unread.lean."
  },
  {
   "property": "C67",
   "status": "proved",
   "theorems": [
    "YamlSubset.C67_set",
    "YamlSubset.C67_set_serialized",
    "YamlSubset.C67_unset",
    "YamlSubset.C67_set_text",
    "YamlSubset.C67_value_at",
    "YamlSubset.C67_example_leads",
    "YamlSubset.C67_example_hypotheses",
    "YamlSubset.C67_example",
    "YamlSubset.C67_example_applied",
    "YamlSubset.C67_counterexample_required",
    "YamlSubset.C67_counterexample_references",
    "YamlSubset.C67_counterexample_flow"
   ],
   "note": "Leads and changeAt are in Spec/Field.lean."
  },
  {
   "property": "C68",
   "status": "proved",
   "theorems": [
    "YamlSubset.C68_format_size",
    "YamlSubset.C68_format_square",
    "YamlSubset.C68_nesting",
    "YamlSubset.C68_square_needed",
    "YamlSubset.C68_example"
   ],
   "note": "nesting is in Spec/FormatSize.lean; utf8Length (Spec/BlockScalar.lean) counts bytes."
  },
  {
   "property": "C69",
   "status": "proved",
   "theorems": [
    "YamlSubset.C69_find_in_data",
    "YamlSubset.C69_find_all",
    "YamlSubset.C69_example",
    "YamlSubset.C69_counterexample_flow",
    "YamlSubset.C69_counterexample_number"
   ],
   "note": "valuesAt (a path on values) and the conditions on values are in Spec/FindValue.lean; built on C23 and C51."
  },
  {
   "property": "C70",
   "status": "proved",
   "theorems": [
    "YamlSubset.C70_move",
    "YamlSubset.C70_regroup",
    "YamlSubset.C70_nothing_lost",
    "YamlSubset.C70_partition",
    "YamlSubset.C70_move_text",
    "YamlSubset.C70_regroup_text",
    "YamlSubset.C70_example",
    "YamlSubset.C70_counterexample_flow"
   ],
   "note": "MovesPairs, RegroupsPairs and the two ways to lose entries are in Spec/ValueMove.lean; built on C26, C27, C51 and C65."
  },
  {
   "property": "C71",
   "status": "proved",
   "theorems": [
    "YamlSubset.C71_find",
    "YamlSubset.C71_insert",
    "YamlSubset.C71_remove",
    "YamlSubset.C71_rename",
    "YamlSubset.C71_to_object",
    "YamlSubset.C71_move",
    "YamlSubset.C71_regroup",
    "YamlSubset.C71_pretty",
    "YamlSubset.C71_find_pretty"
   ],
   "note": "Shape and Settled are in Spec/Shape.lean. C71_pretty gives a sufficient condition; the examples in Props/Shape.lean show that flow collections and nested sequences have to be excluded."
  },
  {
   "property": "C72",
   "status": "proved",
   "theorems": [
    "YamlSubset.C72_code_for_hash",
    "YamlSubset.C72_code_edit_hash",
    "YamlSubset.C72_code_for_hash_unique",
    "YamlSubset.C72_tree_operations",
    "YamlSubset.C72_document_operations",
    "YamlSubset.C72_insert_by_call",
    "YamlSubset.C72_anchored_value",
    "YamlSubset.C72_document_item",
    "YamlSubset.C72_entry_data",
    "YamlSubset.C72_comments",
    "YamlSubset.C72_entry_insert_remove",
    "YamlSubset.C72_element_insert_remove",
    "YamlSubset.C72_entry_itself",
    "YamlSubset.C72_entry_below",
    "YamlSubset.C72_entry_nothing",
    "YamlSubset.C72_entry_of_mapping",
    "YamlSubset.C72_element_key",
    "YamlSubset.C72_element_index",
    "YamlSubset.C72_element_nothing",
    "YamlSubset.C72_reports_tree",
    "YamlSubset.C72_reports_anchored",
    "YamlSubset.C72_reports_entry",
    "YamlSubset.C72_reports_entry_data",
    "YamlSubset.C72_reports_element",
    "YamlSubset.C72_reports_item",
    "YamlSubset.C72_reports_document",
    "YamlSubset.C72_counterexample_entry",
    "YamlSubset.C72_counterexample_element"
   ],
   "note": "The trait and its implementations are in Model/Nodes.lean, what is expected of every part in Spec/Nodes.lean. The counterexamples show that lookups and inserts read the same path differently when they start at an entry or an element. A call with side effects is not modelled."
  },
  {
   "property": "C73",
   "status": "proved",
   "theorems": [
    "YamlSubset.C73_mapping_before",
    "YamlSubset.C73_sequence_before",
    "YamlSubset.C73_append_entries",
    "YamlSubset.C73_append_at_margin",
    "YamlSubset.C73_append_elements",
    "YamlSubset.C73_append_is_insert",
    "YamlSubset.C73_counterexample_element",
    "YamlSubset.C73_counterexample_entry"
   ],
   "note": "The texts are those of Spec/Written.lean (C53), split at a line break: Spec/Append.lean. Roots that are flow sequences have no lines to add. The two conditions cannot be left out: C73_counterexample_element, C73_counterexample_entry."
  },
  {
   "property": "C74",
   "status": "proved",
   "theorems": [
    "YamlSubset.C74_read",
    "YamlSubset.C74_read_entry",
    "YamlSubset.C74_replace_value",
    "YamlSubset.C74_replace_key",
    "YamlSubset.C74_wrap_value",
    "YamlSubset.C74_delete_entry",
    "YamlSubset.C74_delete_last"
   ],
   "note": "The texts are those of C53; EntryLines and RestText in Spec/Append.lean are the lines before and after an entry. The lines that are deleted are those up to the next entry, without comments after the entry. edit_middle is a text that meets the hypotheses."
  },
  {
   "property": "C75",
   "status": "proved",
   "theorems": [
    "YamlSubset.C75_documents",
    "YamlSubset.C75_trees",
    "YamlSubset.C75_pretty_trees",
    "YamlSubset.C75_texts",
    "YamlSubset.C75_counterexample_values"
   ],
   "note": "Consequences of C41, C09, C10 and C42."
  },
  {
   "property": "C76",
   "status": "proved",
   "theorems": [
    "YamlSubset.C76_replace_item",
    "YamlSubset.C76_replace_scalar",
    "YamlSubset.C76_replace_in_flow",
    "YamlSubset.C76_replace_in_flow_root",
    "YamlSubset.C76_replace_key",
    "YamlSubset.C76_insert",
    "YamlSubset.C76_rename",
    "YamlSubset.C76_read"
   ],
   "note": "The texts are those of C53. Spec/Place.lean has the places; layout_place is a place in a text that meets the hypotheses. C76_replace_item is the general form, for block collections and block scalars too: the new text must be one that shows a value in the same surroundings."
  },
  {
   "property": "C77",
   "status": "proved",
   "theorems": [
    "YamlSubset.C77_replace",
    "YamlSubset.C77_add_in_mapping",
    "YamlSubset.C77_add_in_sequence",
    "YamlSubset.C77_replace_outside",
    "YamlSubset.C77_replace_leading",
    "YamlSubset.C77_add_on_line",
    "YamlSubset.C77_delete_on_line",
    "YamlSubset.C77_add_on_line_of_element",
    "YamlSubset.C77_delete_on_line_of_element",
    "YamlSubset.C77_read"
   ],
   "note": "The texts are those of C53. Between the first two elements of an inner sequence a comment line is rejected by the grammar, see the last example of Props/CommentEdit.lean and C53."
  },
  {
   "property": "C78",
   "status": "proved",
   "theorems": [
    "YamlSubset.C78_mapping",
    "YamlSubset.C78_sequence",
    "YamlSubset.C78_delete_entries",
    "YamlSubset.C78_delete_elements",
    "YamlSubset.C78_new_entry",
    "YamlSubset.C78_new_element",
    "YamlSubset.C78_swap_entries",
    "YamlSubset.C78_swap_elements",
    "YamlSubset.C78_remove"
   ],
   "note": "The texts are those of C53; Spec/Lines.lean says what the lines of items are. The first item of an inner collection is on the line of the dash, see the last example of Props/MoveLines.lean. Lines at the end of the text are in C73 and C74."
  },
  {
   "property": "C79",
   "status": "proved",
   "theorems": [
    "YamlSubset.C79_format_is_a_layout",
    "YamlSubset.C79_tidy_is_a_layout",
    "YamlSubset.C79_final_line_break",
    "YamlSubset.C79_insert_then_replace",
    "YamlSubset.C79_append_entries",
    "YamlSubset.C79_append_elements",
    "YamlSubset.C79_counterexample_colon",
    "YamlSubset.C79_counterexample_inner_sequence"
   ],
   "note": "DocumentText is the relation of C53 and C73 to C78. The conditions on colons and on the last element are needed, see the counterexamples."
  },
  {
   "property": "C80",
   "status": "proved",
   "theorems": [
    "YamlSubset.C80_texts_parse",
    "YamlSubset.C80_include_layouts",
    "YamlSubset.C80_value_left_out"
   ],
   "note": "The texts are specified in Spec/Lax.lean: the layouts of C53 and three more. C80_value_left_out is the readable case, for the root mapping; nested keys without values are in C80_texts_parse."
  },
  {
   "property": "C81",
   "status": "proved",
   "theorems": [
    "YamlSubset.C81_order",
    "YamlSubset.C81_order_exact",
    "YamlSubset.C81_order_error",
    "YamlSubset.C81_swap_lines",
    "YamlSubset.C81_counterexample_reference"
   ],
   "note": "Spec/Order.lean says when two trees differ by the order of entries only and when two values do. Without the condition on references the claim is false, see the counterexample."
  },
  {
   "property": "C82",
   "status": "proved",
   "theorems": [
    "YamlSubset.C82_types_evolve",
    "YamlSubset.C82_files_stay_readable",
    "YamlSubset.C82_written_by_old",
    "YamlSubset.C82_counterexample_required",
    "YamlSubset.C82_counterexample_key"
   ],
   "note": "Spec/Evolve.lean has the changes of types and says what becomes of a value. The types are those of the model of serde derive: structs and enums without serde attributes (so no default, no deny_unknown_fields)."
  },
  {
   "property": "C83",
   "status": "proved",
   "theorems": [
    "YamlSubset.C83_change_anchors",
    "YamlSubset.C83_rename_anchors",
    "YamlSubset.C83_unused_anchor",
    "YamlSubset.C83_text",
    "YamlSubset.C83_counterexample_capture",
    "YamlSubset.C83_counterexample_used"
   ],
   "note": "changeAnchors, renameAnchors and removeAnchor are in Spec/AnchorNames.lean; Defines and RefersTo in Spec/Anchors.lean. The number of steps (fuel) is the same on both sides, so the claim includes errors and runs that do not end."
  }
 ]
}