# Formal model of yaml-subset

The model lives in `lean/Verif/`. It is written function by function after the
Rust source in `/repo/src`; each definition cites the file and lines it models.

## Layout

| directory | content |
|---|---|
| `Verif/Model/` | the model: one module per source area |
| `Verif/Spec/` | small independent specifications used by the property statements |
| `Verif/Lemmas/` | helper lemmas, invariants, proof machinery |
| `Verif/Props/` | the property theorems, one file per property group, with a concrete non-trivial instance beside each theorem |
| `Verif/Tests.lean`, `Verif/TestsDe.lean` | runs of the model on the inputs of the repository's own tests, compared with the committed snapshots and assertions (fidelity evidence, not proofs) |

| model | source |
|---|---|
| `Ast`, `Basic` | `src/yaml/{mod,aliased,array_data,hash_data,hash_element,document,types}.rs`: types, characters |
| `Strings`, `Numbers` | `src/yaml/string.rs`, `src/utils.rs`: quoting, folding, block scalars, integers |
| `Format`, `Pretty` | `src/yaml/*.rs`: `format`, `pretty_with_options` |
| `MapVisit` | `map_yaml`, `visit_yaml` |
| `Peg`, `Grammar`, `Consume`, `Outcome` | `src/yaml.pest` and `src/yaml/parser.rs` on top of pest and pest_consume |
| `Cost`, `Location` | how many expressions and nested rules a run of the grammar takes; where pest reports an error (`YamlError::location`) |
| `Path` | `src/path.pest`, `src/path.rs` |
| `Insert` | `src/yaml/insert.rs`: find, insert, remove, rename, to_object, move |
| `Ser`, `De` | `src/yaml/serializer.rs`, `src/yaml/deserializer.rs` |

| specification | what it says |
|---|---|
| `Fold`, `FoldedNodes` | the strings that survive folding, and the nodes that pretty would damage |
| `Quoted`, `BlockScalar`, `ScalarText` | what quoted, plain and block scalar texts mean, written without the grammar |
| `Tree`, `Edit`, `EditBlock`, `Move` | what lookups and edits should do to a tree |
| `Path`, `PathText` | path texts |
| `Parsed` | the shape of parsed trees |
| `Readable`, `PrettySafe`, `Layout` | the documents whose formatted text is read back, the documents that pretty keeps, indentation |
| `Frame`, `Commute`, `Undo` | places apart from each other, independent edits, edits that take back others |
| `Unread` | places that a type does not read |
| `Field` | setting and unsetting a field of a typed value; paths that lead to a field of a type |
| `Patch`, `ValueEdit` | texts and values that differ in n places |
| `Size`, `Location` | sizes of trees and values, places in a text |
| `Requote`, `Breaks`, `Tame` | words that need their quotes, line breaks, ordinary values |
| `Visible` | the visible characters that show a document |
| `Tidy` | documents without the shapes that edits can break: tidy and simple documents |
| `Written` | all layouts of a document: which texts show which document |
| `Typed`, `De`, `Decode`, `Anchors`, `Portable` | types, lossless values, the rules of deserialization, expansion of references, values that survive text |

## Representation choices

* A Rust `String` is a `List Char` (`Str`). `String::len` (bytes) is the sum of
  the UTF-8 lengths of the characters.
* `Vec` is `List`; `usize` is `Nat` (overflow is modelled only where the code
  depends on it: parsing an index in a path, parsing an indentation indicator,
  and subtracting one from it).
* `&mut` functions return the new value together with the result.
* Closures `Fn(&mut T) -> A` are functions `T → A × T`. Closures `FnMut` thread
  an explicit state.
* A Rust panic (index out of range, `unwrap` on an error, underflow, slicing at
  a bad offset, `match_nodes!` without a matching arm) is an explicit result
  value, so "does not panic" is a theorem and not an assumption.
* The pest grammar is data (`Expr`), interpreted by one evaluator with fuel. The
  evaluator follows pest's semantics: ordered choice, greedy repetition,
  lookahead, silent/atomic rules, the PUSH/PEEK/POP/DROP stack restored on
  failure, implicit whitespace between sequence parts where a grammar defines
  WHITESPACE. Results: `ok trees rest stack`, `fail`, `panic`, `oof` (out of fuel).
  That the fuel suffices for every text is C36.
* The Unicode tables LETTER and NUMBER are parameters with the axioms-free
  interface `CharTables` (which ASCII characters they contain, and that they
  contain no whitespace); theorems hold for every such table. SPACE_SEPARATOR and `char::is_whitespace` are concrete.
* serde is modelled by a universe of types `Ty` and values `SVal`; the visitors that
  serde generates for the corresponding Rust types are part of the model of the
  deserializer (they are not code of this repository).

## Trusted base

* The Lean 4.33.0 kernel, and the axioms listed at the end for each theorem: at most
  `propext`, `Quot.sound` and `Classical.choice`, the three standard ones. No axioms
  of our own, no `sorry`, no `native_decide`, no `bv_decide`. Closed equations in examples and
  counterexamples are checked by the kernel's own reduction (`decide +kernel`, and the tactic
  `kernel_rfl` of `Lemmas/KernelRfl.lean`, which only builds an `Eq.refl` proof and lets the kernel check it).
* That the model transcribes the Rust source correctly, and that pest, pest_consume
  and serde behave as their documentation says. The tests run the model against
  the repository's committed snapshots.
* Rust's standard library functions used (split, trim, parse of integers and
  the accepted grammar of `f64::from_str`) behave as documented.

Modelled: all of `yaml.pest` and `path.pest`; all consumers of `parser.rs` and `path.rs`; `mod.rs` and the files of the tree types (format, pretty, map, visit);
`string.rs`; `insert.rs`; `serializer.rs`; `deserializer.rs`.

Not modelled: the texts of error messages,
`Debug`/`Display`, floating point values (only which texts are floats),
memory and time (except the number of steps and nested rules of the grammar, C61),
concurrency (there is none), the unused functions in `utils.rs`.

## Properties

For each property: what is modelled, and how it is proved. The status and the
theorem names are in `MANIFEST.json`.

| id | modelled | proof |
|---|---|---|
| C01 | `create_literal`, `parse_literal`, chomping | induction on the string; join/split inverse |
| C02 | `split_on_length`, `create_folded`, `parse_folded` | if and only if: loop invariant over words for the class, analysis of the first bad place for the converse |
| C03 | `handle_ending_newlines` | list lemmas on trimming |
| C04 | `str_to_single_quoted_parts`, rendering | loop invariant |
| C05 | `str_to_yaml`, `as_string` | case analysis on the three branches, loop invariants |
| C06, C07 | `deserialize_any`, `deserialize_option` on scalars | if and only if, by cases on the reading of the text |
| C08 | decimal printing and parsing | induction on digits |
| C09, C10 | universe of types; `serialize`, `deserialize`, `pretty` | if and only if: induction on types and values |
| C11 | `yaml_to_key_string` | case analysis |
| C12–C15 | path grammar as PEG data + `path.rs` consumer | big-step derivations composed by induction on segments; exact outcome for all texts without spaces; counterexamples for panics |
| C16–C28 | `for_hash`, `edit_hash_structure` and the seven operations | induction on the tree, for all paths; counterexamples where the claim fails |
| C29, C30 | state-passing `map_yaml`, `visit_yaml` | structural induction against an independent enumeration |
| C31–C35 | `pretty_with_options` | structural induction; C31–C33 if and only if |
| C36 | grammar data and evaluator | generic termination theorem: well-founded measure (remaining input, rule rank, expression size), with a checked rank/nullability table for the grammar |
| C37–C39 | grammar + consumers | invariants of successful derivations; counterexamples for panics |
| C40, C41, C43 | `format`, grammar, consumers | a calculus of successful and failing readings; induction on the tree; counterexamples |
| C42 | composition | from C09 and C41 |
| C44–C47 | deserializer with anchor table | induction; divergence proved for every fuel |
| C48 | `format` | structural induction |
| C49 | `format` of scalars | against independent readers of scalars |
| C50 | `pretty`, then as C41 | pretty keeps readability on the safe documents |
| C51, C52 | deserializer | rules as an inductive relation; soundness and completeness by induction on fuel and type |
| C53 | grammar, consumers | the same calculus, by induction on the tree, against the relation of texts and documents |
| C54 | grammar, consumers, `format` | the text of a tree is rebuilt from its children (checked against the grammar); induction on derivation trees, then on the document |
| C55 | `insert`, `remove`, `rename`, `to_object`, moves, regrouping, `format`, grammar, consumers | the classes of documents are closed under the edits (induction on the path of places), and contained in the class of C41 |
| C56 | `insert_into_hash`, `remove_from_hash`, `rename_field`, paths | two edits at one path compose to one edit (induction on the path); the composed edit of each mapping is the identity, or the second edit |
| C57 | the same, `to_object`, `find_values` | an edit leaves the values of other keys and elements alone (induction on the two paths), and finding is the lookup of C23 |
| C58 | `src/yaml.pest`, all consumer functions | a simulation: whenever the grammar matches a text it matches the text with line feeds, and fails when it fails (induction on the evaluation, with a list of expressions that treat all breaks alike; quoted scalars by a direct analysis); then each consumer function gives related results on related children |
| C59 | `pretty`, `from_yaml`, `from_yaml_str` | induction on the tree: the view (C45) of the pretty tree is the view of the tree exactly under the conditions; then C45, and C41, C47, C50 for texts |
| C60 | `insert_into_hash`, `remove_from_hash`, `rename_field`, `to_object` | induction on where the paths part: the edits of one mapping are patches of its first entry with a key, which commute; visits of elements commute; then induction on the permutation |
| C61 | the grammar run by `parse_yaml_file`, with a count of steps and of nested rules | lower bounds by induction on the nesting: an expression that is tried costs what its parts cost; upper bounds from the termination measure (C36) |
| C62 | `YamlError::location`, with pest's `attempt_pos` and `line_col` | the position is a maximum over the run; lower bounds from one rule that fails, upper bounds from the whole run of `leading_comments`; texts after a document from the lemmas of C41 |
| C63 | the deserializer at the self-describing type, the parser | sizes of trees and values (Spec/Size.lean); induction over the expansion of references, with a rank for each name; the text bound from the visible characters (C54); the family of texts through C41 and C44 |
| C64 | the edits and the formatter | texts that differ in n pieces (Spec/Patch.lean); induction over the edits of C17, C20, C21 and C22, with the text of a mapping split around the entry |
| C65 | the edits and the deserializer | maps changed n times (Spec/ValueEdit.lean); the value of a tree without references as a function of the tree, by C51; induction over the edits of C17, C20, C21 and C22 |
| C66 | the edits and the deserializer at typed targets | the places a type does not read (Spec/Unread.lean); induction over them, with the edits as in C60 and the rules of decoding of C51 |
| C67 | insert with overwriting and remove, and the deserializer at typed targets | what it is to set a field of a value, and when a path leads to a field of a type (Spec/Field.lean); induction over the latter, with the rules of decoding of C51 |
| C68 | the grammar, the parser and the formatter | nesting of block collections (Spec/FormatSize.lean); every node of a parse tree has at least the bytes of what it says (induction over parse trees), and the formatter writes at most five bytes and one indentation for each of them (induction over trees); the lower bound by a family of texts whose parse is proved by induction |
| C69 | find_values and the deserializer | what a path leads to in values (Spec/FindValue.lean); induction over paths, with the lookup of C23 and the values of C51 |
| C70 | the moves and the deserializer | what a move does to a map of the value (Spec/ValueMove.lean); the descriptions of C26 and C27 carried to the values of the entries, then the induction over edits of C65; nothing lost: by the first entry of each key, and a permutation for the groups |
| C71 | lookups, all edits, pretty | the shape of a tree (Spec/Shape.lean); every visit is a relation-preserving map: induction over the path, with the comments skipped on both sides; for the regrouping loop the states are related |
| C72 | the trait implementations of all parts of a tree (Model/Nodes.lean) | the equations of the code are proved of the tree functions, by induction on the nesting of flow sequences, and have one solution; the parts are compared with the trees in them by computation and cases on the path |
| C73 | the layouts of C53 followed by lines with entries or elements (Spec/Append.lean) | by induction on the value at the end, a text that shows it when nothing follows shows it when a line of a given kind follows, unless it takes this line; then C53; the comparison with insert_into_hash by computation |
| C74 | texts with lines before and after an entry (Spec/Append.lean) and the operations on documents | C73 without its condition, since no value takes a line without indentation; the operations by computation at the first entry with the key |
| C75 | formatting, serialization, pretty printing | each of these has a left inverse on the objects in question (C41, C09, C10, C42) |
| C76 | places in trees (Spec/Place.lean) and the texts of C53 | the relation between documents and texts is split at the place, by induction on the relation for the items of one collection and on the place for the depth; C53 reads the new text; the operations through C24 |
| C77 | comments in trees (Spec/Place.lean) and the texts of C53 | as for C76: the relation between documents and texts is split at the comment, or at the gap before the item, by induction on the relation; C53 reads the new text; what is deserialized through C45 |
| C78 | the lines of items (Spec/Lines.lean) and the texts of C53 | the text of a collection is split into the lines of its items and put together again, by induction on the relation; C53 reads the new text; removing through C24 |
| C79 | the formatter and the texts of C53 | strong induction on the tree: each way in which a value is readable gives a layout that describes what the formatter writes; the condition of the innermost collection and of the next line is carried along |
| C80 | the grammar and the parser, on texts in which keys have no value (Spec/Lax.lean) | the induction of C53, with three more layouts of a value: the alternative mapping on the next line, with one entry, and a mapping with the indentation of the mapping around it |
| C81 | deserialization (`fromYaml`, `fromYamlStr`), the parser for the form about texts | induction on the relation of C51 that says what a tree decodes to: a permutation of the entries gives a permutation of the decoded entries, and the field of a struct is found by its name |
| C82 | deserialization at two types (`fromYaml`, `fromYamlStr`), serialization | induction on the relation of C51 that says what a tree decodes to, for all later types at once; wrappings of the new type are put on at the end |
| C83 | deserialization of trees that differ in their anchors (`changeAnchors`) | simulation: the two runs are in step, with anchor maps that correspond; a lemma (`DeSim.fromYaml_same`) for any relation on trees and anchor maps that the five ways of looking at a tree respect |

Partial results carry the suffix `_partial` and the missing part is described in `MANIFEST.json`.

## Wrong programs

`seeded/LOG.jsonl` has one line for each edit of the model that was tried in a scratch copy, with what then failed.
Edits that survived were answered by tightening the theorems named in the line, or the line says why the edit does not change the program.

Most lines (`"generated": true`) are small edits made by a script, and say less than the others:

* The build was stopped at the first error, so `theorems_failed` has one declaration, most often a helper lemma on which the properties rest.
* It was not checked for each edit that a claim becomes false. Some of them (the order of alternatives that exclude each other, a bound
  that is never used) change no behaviour, and only a proof about the edited definition had to be written in another way.
* Where the declaration is in `Verif/Tests.lean`, a check on literals noticed the edit first, and the line is no evidence about the theorems.

So the number of generated edits that stopped the build is no measure of how strong the theorems are; the survivors, and the lines without
this mark, are what was looked at one by one.

## Axioms of the theorems in the manifest

* **none** (4): C02_folded_counterexamples, C03_folded_clip, C14_insert_root, C72_insert_by_call
* **propext** (67): C03_clip_empty_counterexample, C03_literal_clip, C03_literal_keep, C04_requote_value, C05_serialized_string_value, C06_counterexample, C07_counterexample, C09_counterexample_some, C09_counterexample_variant, C10_counterexample, C11_plain_key_accepted, C13_counterexample_index_after_condition, C13_counterexample_leading_space, C14_insert_appends, C14_insert_assoc, C15_counterexample_overflow, C15_counterexample_space_before_dot, C15_counterexample_space_before_stop, C15_counterexample_space_in_index, C20_duplicate_keys_counterexample, C21_repeated_index, C25_rename_inline_counterexample, C26_counterexample_dotted_name, C26_counterexample_itself, C26_counterexample_not_a_hash, C26_repeated_index, C27_anchor_copied, C27_counterexample_new_map_exists, C29_map_bottom_up, C31_counterexample, C33_counterexample, C34_block_scalar_in_flow_counterexample, C35_needs_condition, C44_unread_reference_ignored, C46_cyclic_counterexample, C48_aliased, C56_insert_existing_counterexample, C56_rename_condition_counterexample, C56_rename_existing_counterexample, C57_condition_counterexample, C59_counterexample_anchor, C60_counterexample_condition, C60_counterexample_inserts, C60_counterexample_names, C65_counterexample_reference, C66_counterexample_map, C66_counterexample_new_name, C67_counterexample_flow, C67_counterexample_references, C67_counterexample_required, C72_anchored_value, C72_comments, C72_counterexample_element, C72_counterexample_entry, C72_document_item, C72_document_operations, C72_element_index, C72_element_insert_remove, C72_element_key, C72_element_nothing, C72_entry_below, C72_entry_data, C72_entry_insert_remove, C72_entry_itself, C72_entry_nothing, C72_tree_operations, C75_counterexample_values
* **Quot.sound, propext** (41): C01_literal_lines, C01_literal_roundtrip, C03_folded_keep_blank, C03_folded_keep_plain, C05_string_roundtrip, C06_string_stays_string_iff, C07_some_string_iff, C08_bool, C11_field_names_unchanged, C11_map_keys_unchanged, C15_parsed_no_repeats, C24_conditions, C29_map_calls, C29_map_identity, C30_positions_complete, C30_visit_positions, C31_pretty_scalar_in_flow, C32_pretty_data_in_flow, C33_pretty_document, C33_pretty_document_iff, C33_pretty_document_stable, C33_pretty_idempotent, C33_pretty_idempotent_iff, C33_pretty_stable, C34_flow_context, C34_items, C34_no_block_in_flow, C35_pretty_notes, C37_stack_safe, C47_no_panic, C48_flow_on_one_line, C48_indentation, C62_in_the_text, C66_counterexample_reference, C66_example_unread, C67_example_hypotheses, C67_example_leads, C72_code_edit_hash, C72_code_for_hash, C72_code_for_hash_unique, C80_include_layouts
* **Classical.choice, Quot.sound, propext** (379): C02_folded_iff, C02_folded_ordinary, C02_folded_words, C03_folded_strip, C03_literal_strip, C04_requote_text, C08_int_in_range, C08_int_self_describing, C08_int_typed, C09_typed_roundtrip, C09_typed_roundtrip_exact, C10_pretty_roundtrip, C10_pretty_roundtrip_exact, C12_dotted_keys_parse, C13_rendered_paths_parse, C13_rendered_root_parses, C14_insert_dot, C15_path_parsing_exact, C15_path_parsing_safe, C15_path_parsing_terminates, C15_path_text_unique, C15_path_texts_parse, C16_insert_zero, C16_move_to_map_zero, C16_move_to_subfield_zero, C16_remove_zero, C16_rename_zero, C16_to_object_zero, C17_insert_only_appends, C18_insert_then_find, C18_insert_then_find_keys, C19_insert_idempotent, C19_second_insert_zero, C20_remove_one_entry, C20_remove_then_find, C21_rename_count, C21_rename_only_names, C22_to_object_count, C22_to_object_then_find, C22_to_object_then_find_keys, C22_to_object_wraps, C23_find_exact, C23_find_is_lookup, C23_find_off_inline, C23_find_parsed, C23_find_readonly, C24_insert_where, C24_remove_where, C24_rename_where, C24_rename_where_block, C24_to_object_where, C24_to_object_where_block, C25_edits_same, C25_flow_sequences, C25_inline_array_counterexample, C25_styles_differ, C26_lookup, C26_move_to_subfield, C26_move_to_subfield_everywhere, C26_never_fails, C26_outcome, C26_panics_iff, C26_succeeds, C27_move_to_map, C27_move_to_map_root, C27_never_fails, C27_outcome, C27_panics_iff, C27_partition, C27_succeeds, C28_document_comments, C28_insert_comments, C28_rename_comments, C28_to_object_comments, C31_pretty_scalar, C31_pretty_scalar_iff, C32_pretty_data, C32_pretty_data_iff, C32_pretty_document, C32_pretty_document_iff, C36_parsing_terminates, C37_consumer_complete, C37_counterexample_huge, C37_counterexample_large, C37_counterexample_less_indented, C37_counterexample_not_ascii, C37_counterexample_zero, C37_parse_no_panic, C37_parse_no_panic_plain, C38_one_root, C39_parsed_well_formed, C40_flow_values_parse, C40_nested_flow_values_parse, C41_counterexample_anchored_mapping, C41_counterexample_block_scalar, C41_counterexample_colon, C41_counterexample_comments, C41_counterexample_deep_mapping, C41_counterexample_empty, C41_counterexample_empty_line, C41_counterexample_first_comment, C41_counterexample_indicator, C41_counterexample_inline_comment, C41_counterexample_last_comment, C41_counterexample_nested_sequences, C41_counterexample_shapes, C41_empty_collections, C41_formatted_documents_parse, C42_counterexample_anchor, C42_counterexample_dash, C42_counterexample_key, C42_counterexample_map_key, C42_counterexample_nested_sequences, C42_counterexample_reference, C42_counterexample_root, C42_counterexample_silent, C42_counterexample_space, C42_counterexample_tuple, C42_portable_values_survive_text, C42_values_survive_text, C43_counterexample_colon, C43_counterexample_comment_after_dash, C43_counterexample_first_comment, C43_counterexample_flow_colon, C43_counterexample_flow_root, C43_counterexample_indicator, C43_counterexample_nested_scalar, C43_counterexample_nested_sequences, C43_counterexample_next_line, C43_example, C43_plain_documents, C43_readable_documents, C44_references_expand, C44_struct_fields, C44_undefined_reference_error, C44_undefined_reference_fails, C44_undefined_typed_error, C44_undefined_typed_fails, C45_comments_invisible, C45_flow_style_invisible, C45_quotes_exact, C45_quotes_invisible, C45_view_determines, C46_deserialization_terminates, C46_no_references, C47_text, C47_text_no_panic, C49_block_scalar_text, C49_double_quoted_text, C49_other_quotes, C49_plain_text, C49_single_quoted_text, C50_counterexample_comma, C50_counterexample_comment, C50_counterexample_first_entry, C50_counterexample_flow, C50_counterexample_newline, C50_counterexample_reference, C50_counterexample_return, C50_pretty_documents_parse, C50_pretty_readable, C50_pretty_values_survive_text, C51_decodes_unique, C51_deserialize_error, C51_deserialize_exact, C51_missing_field, C52_document_type_soundness, C52_type_soundness, C53_counterexample_blank_line, C53_counterexample_block_scalar, C53_counterexample_empty_value, C53_counterexample_inner_element, C53_counterexample_next_line, C53_every_layout_parses, C53_layout_does_not_matter, C53_one_document, C53_space_separators, C54_again, C54_counterexample_indicator, C54_counterexample_less_indented, C54_only_white_space, C54_only_white_space_text, C54_visible_text, C55_counterexample_block_scalar, C55_counterexample_comment, C55_counterexample_empty, C55_counterexample_name, C55_counterexample_selector, C55_insert, C55_rename, C55_rename_tidy, C55_simple_insert, C55_simple_move, C55_simple_regroup, C55_simple_remove, C55_simple_rename, C55_simple_to_object, C56_insert_then_remove, C56_insert_then_remove_not_found, C56_last_write_wins, C56_overwrite_back, C56_remove_forgets_insert, C56_rename_back, C57_insert_elsewhere, C57_remove_elsewhere, C57_rename_elsewhere, C57_to_object_elsewhere, C58_backslash, C58_example, C58_example_return, C58_line_endings, C58_not_the_same, C58_same_document, C58_windows, C58_windows_accepted, C59_counterexample_bool, C59_counterexample_null, C59_example, C59_flow, C59_same_result, C59_scalar_exact, C59_texts, C59_view_iff, C60_any_order, C60_commute, C60_count, C60_example, C61_at_most_exponential, C61_depth, C61_depth_at_most_linear, C61_example, C61_exponential, C61_measures, C62_counterexample_flow, C62_counterexample_return, C62_example, C62_missing_start, C62_missing_start_example, C62_not_too_early, C62_not_too_early_example, C63_bound, C63_expanded_size, C63_exponential, C63_no_references, C63_parsed_size, C63_text_bound, C63_text_without_references, C64_example, C64_insert, C64_no_key, C64_overwrite, C64_remove, C64_rename, C64_rename_length, C64_to_object, C65_example, C65_has_value, C65_insert, C65_remove, C65_rename, C65_rename_text, C65_to_object, C66_example, C66_text, C66_unread, C67_example, C67_example_applied, C67_set, C67_set_serialized, C67_set_text, C67_unset, C67_value_at, C68_example, C68_format_size, C68_format_square, C68_nesting, C68_square_needed, C69_counterexample_flow, C69_counterexample_number, C69_example, C69_find_all, C69_find_in_data, C70_counterexample_flow, C70_example, C70_move, C70_move_text, C70_nothing_lost, C70_partition, C70_regroup, C70_regroup_text, C71_find, C71_find_pretty, C71_insert, C71_move, C71_pretty, C71_regroup, C71_remove, C71_rename, C71_to_object, C72_entry_of_mapping, C72_reports_anchored, C72_reports_document, C72_reports_element, C72_reports_entry, C72_reports_entry_data, C72_reports_item, C72_reports_tree, C73_append_at_margin, C73_append_elements, C73_append_entries, C73_append_is_insert, C73_counterexample_element, C73_counterexample_entry, C73_mapping_before, C73_sequence_before, C74_delete_entry, C74_delete_last, C74_read, C74_read_entry, C74_replace_key, C74_replace_value, C74_wrap_value, C75_documents, C75_pretty_trees, C75_texts, C75_trees, C76_insert, C76_read, C76_rename, C76_replace_in_flow, C76_replace_in_flow_root, C76_replace_item, C76_replace_key, C76_replace_scalar, C77_add_in_mapping, C77_add_in_sequence, C77_add_on_line, C77_add_on_line_of_element, C77_delete_on_line, C77_delete_on_line_of_element, C77_read, C77_replace, C77_replace_leading, C77_replace_outside, C78_delete_elements, C78_delete_entries, C78_mapping, C78_new_element, C78_new_entry, C78_remove, C78_sequence, C78_swap_elements, C78_swap_entries, C79_append_elements, C79_append_entries, C79_counterexample_colon, C79_counterexample_inner_sequence, C79_final_line_break, C79_format_is_a_layout, C79_insert_then_replace, C79_tidy_is_a_layout, C80_texts_parse, C80_value_left_out, C81_counterexample_reference, C81_order, C81_order_error, C81_order_exact, C81_swap_lines, C82_counterexample_key, C82_counterexample_required, C82_files_stay_readable, C82_types_evolve, C82_written_by_old, C83_change_anchors, C83_counterexample_capture, C83_counterexample_used, C83_rename_anchors, C83_text, C83_unused_anchor
