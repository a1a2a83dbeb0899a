{"id": "C01", "title": "Literal block scalars keep the string", "statement": "For every string s, reading back the literal block that `create_literal(s)` produces, with chomping Keep when s ends in a newline and Strip otherwise (the choice `pretty` makes), gives exactly s.", "quantifier": "all strings, of any length and any Unicode content, including empty, only-newline and whitespace-only strings", "why_tests_cant": "The string space is infinite and the interesting cases are combinations of leading/trailing/consecutive newlines of arbitrary number.", "anchors": ["src/yaml/string.rs: create_literal, parse_literal, handle_ending_newlines", "src/yaml/mod.rs: Pretty for Yaml"]}
{"id": "C02", "title": "Which strings a folded block scalar keeps", "statement": "Reading back the folded block that `create_folded(s, n)` produces, with the chomping `pretty` chooses, gives exactly s if and only if s is in an explicit class: s does not start with a newline, no line after the first starts with a space, every line has a first word of less than n bytes and is never wrapped at an empty word; or s starts with newlines followed by a line whose words each overflow, or by an indented last line that fits. (So folding damages some strings: a word of n bytes, runs of spaces at a wrap point, indented lines, leading newlines.)", "quantifier": "all strings and all line lengths n of at least 1", "why_tests_cant": "Whether a wrap point falls on a delicate place depends on unbounded word lengths and positions.", "anchors": ["src/yaml/string.rs: create_folded, split_on_length, parse_folded"]}
{"id": "C03", "title": "Chomping indicators mean what they say", "statement": "The value of a block scalar with Strip never ends in a newline; with Clip it ends in exactly one newline when there is any content; with Keep it is the joined content plus one newline. This holds for literal and folded style.", "quantifier": "all line lists, both block styles, all chomping modes", "why_tests_cant": "Any number of trailing empty lines in any position.", "anchors": ["src/yaml/string.rs: handle_ending_newlines, parse_literal, parse_folded"]}
{"id": "C04", "title": "Requoting a scalar keeps its value", "statement": "The conversion of a plain scalar to a single-quoted scalar used for flow context denotes the same string, and its rendering between quotes contains no unescaped quote, so it is one scalar.", "quantifier": "all strings", "why_tests_cant": "Any number and placement of quote characters.", "anchors": ["src/yaml/mod.rs: str_to_single_quoted_parts", "src/yaml/string.rs: parse_single_quoted_string"]}
{"id": "C05", "title": "Serializing a string loses nothing", "statement": "For every string s, the node produced by serializing s has string value s, and deserializing it as a String gives s.", "quantifier": "all strings", "why_tests_cant": "Three branches (plain, single quoted, double quoted) chosen by unbounded content.", "anchors": ["src/yaml/serializer.rs: str_to_yaml, needs_quoting", "src/yaml/types.rs: as_string", "src/yaml/deserializer.rs: deserialize_str"]}
{"id": "C06", "title": "A serialized string is re-read as a string, with two exceptions", "statement": "For every string s, self-describing deserialization of the node produced by serializing s yields the string s, never a bool or a number, and never null unless s is one of the two words Null and NULL, which are the only exceptions.", "quantifier": "all strings", "why_tests_cant": "The classification (null spellings, bool, i64, u64, f64 grammar) is over all strings.", "anchors": ["src/yaml/serializer.rs: str_to_yaml", "src/yaml/deserializer.rs: deserialize_any", "src/yaml/mod.rs: can_be_unquoted_in_block"]}
{"id": "C07", "title": "Some(string) is not confused with None", "statement": "For every string s, serializing Some(s) and deserializing as Option<String> gives Some(s), except for exactly the two words Null and NULL, which give None.", "quantifier": "all strings", "why_tests_cant": "Depends on the exact agreement of two independent lists of null spellings over all strings.", "anchors": ["src/yaml/deserializer.rs: deserialize_option", "src/yaml/serializer.rs: serialize_some, str_to_yaml"]}
{"id": "C08", "title": "Integers and booleans survive serialization", "statement": "Every i64, u64 and bool serialized to a node deserializes (typed and self-describing) to the same value, and out-of-range text is an error rather than a wrong value.", "quantifier": "all 64-bit signed and unsigned integers, both booleans, all texts for the error part", "why_tests_cant": "2^64 values each, and boundaries of the decimal parser.", "anchors": ["src/yaml/serializer.rs: serialize_i64, serialize_u64, serialize_bool", "src/yaml/deserializer.rs: deserialize_i64, deserialize_u64, deserialize_bool, deserialize_any"]}
{"id": "C09", "title": "Typed values survive serialize then deserialize", "statement": "For every value of a data type built from bool, integers, floats, char, String, bytes, unit, Option, newtypes, Vec, tuples, maps, structs and enums, possibly recursive, if it serializes then deserializing the node at the same type gives back the value if and only if no Some in it holds something written as a null and no enum variant in it carries data (the one exception: a variant named ~ whose content is written as ~).", "quantifier": "all types in that universe, all values of unbounded size and depth", "why_tests_cant": "Types and values are unbounded.", "anchors": ["src/yaml/serializer.rs: YamlSerializer", "src/yaml/deserializer.rs: YamlDeserializer"]}
{"id": "C10", "title": "Pretty printing does not change the deserialized value", "statement": "For every value as in C09, deserializing after serialize and pretty gives back the value if and only if it comes back without pretty and every string that pretty folds, in block context, survives folding (C02).", "quantifier": "all types and values of the universe of C09", "why_tests_cant": "Unbounded depth, and pretty has context-dependent branches.", "anchors": ["src/yaml/mod.rs: Pretty for Yaml", "src/yaml/serializer.rs", "src/yaml/deserializer.rs"]}
{"id": "C11", "title": "Map keys that need quoting are rejected, not mangled", "statement": "Serializing a map either fails or every key is stored unchanged; struct field names are stored unchanged.", "quantifier": "all maps with string keys", "why_tests_cant": "Keys are arbitrary strings.", "anchors": ["src/yaml/serializer.rs: yaml_to_key_string, MapSerializer"]}
{"id": "C12", "title": "Dotted keys parse to the expected path", "statement": "For every non-empty list of key names without `[ ] . |` and without leading or trailing space characters, joining them with dots and parsing gives the path that visits these keys in order.", "quantifier": "all key lists of any length, any Unicode names", "why_tests_cant": "Unbounded number of segments and names.", "anchors": ["src/path.rs: parse, YamlPath::from_str", "src/path.pest"]}
{"id": "C13", "title": "Index and condition suffixes parse to the expected path", "statement": "Rendering a path made of keys, `[n]`, `[*]` and `|field=value` conditions (clean names) and parsing it gives that path back.", "quantifier": "all paths over clean names, any length, any index that fits usize", "why_tests_cant": "Unbounded structure.", "anchors": ["src/path.rs: key, part, path, condition", "src/path.pest"]}
{"id": "C14", "title": "Appending paths is associative and matches dotted concatenation", "statement": "`YamlPath::insert` appends at the end: it is associative on non-root receivers, a root receiver is replaced, and for clean paths inserting the parse of b into the parse of a equals the parse of a.b.", "quantifier": "all paths", "why_tests_cant": "Recursive structure of unbounded depth.", "anchors": ["src/path.rs: YamlPath::insert"]}
{"id": "C15", "title": "Parsing a path gives the path, an error, or a panic for a huge index", "statement": "Parsing a string as a path always ends. For a string without spaces it returns Ok(p) exactly if the string is the text of p (a key, then `.key`, `[digits]`, `[*]` and `|field=value` parts) with every index below 2^64, panics exactly if it is the text of a path with a larger index, and returns Err in all other cases. (So the hoped-for 'never panics' is false; strings with spaces have further outcomes, shown by counterexamples.)", "quantifier": "all strings (termination); all strings without spaces (outcome); all path texts, also with spaces inside names", "why_tests_cant": "Infinite input space.", "anchors": ["src/path.rs: index_number", "src/path.pest"]}
{"id": "C16", "title": "A zero count means nothing changed", "statement": "Whenever insert_into_hash, remove_from_hash, rename_field, to_object, move_to_subfield or move_to_map_with_field_as_key returns 0, the document is unchanged.", "quantifier": "all documents, paths and arguments", "why_tests_cant": "All trees and paths.", "anchors": ["src/yaml/insert.rs", "src/yaml/mod.rs: for_hash, edit_hash_structure"]}
{"id": "C17", "title": "Insert without overwrite never alters existing entries", "statement": "insert_into_hash(path, v, false) leaves every existing hash entry and comment in place; it only appends new entries at the end of hashes addressed by the path.", "quantifier": "all documents, paths and values", "why_tests_cant": "All trees and paths, including paths with repeated indexes.", "anchors": ["src/yaml/insert.rs: insert_into_hash"]}
{"id": "C18", "title": "Inserted values can be found", "statement": "After insert_into_hash(path, v, true) returning n on a path of keys, find_values(path) returns exactly n values, each equal to v.", "quantifier": "all documents and key paths", "why_tests_cant": "All trees and paths.", "anchors": ["src/yaml/insert.rs: insert_into_hash, find_values"]}
{"id": "C19", "title": "Insert is idempotent", "statement": "Repeating insert_into_hash with the same arguments and overwrite leaves the document as after the first call; without overwrite the second call returns 0.", "quantifier": "all documents, paths and values", "why_tests_cant": "All trees and paths.", "anchors": ["src/yaml/insert.rs: insert_into_hash"]}
{"id": "C20", "title": "Removed keys are gone and nothing else is", "statement": "remove_from_hash deletes exactly one entry per counted hash, keeps order and all other entries and comments, and when keys in the addressed hash are distinct a following find_values returns nothing.", "quantifier": "all documents and paths", "why_tests_cant": "All trees and paths.", "anchors": ["src/yaml/insert.rs: remove_from_hash"]}
{"id": "C21", "title": "Rename touches only the key", "statement": "rename_field changes only names of addressed entries: values, order, comments and all other entries are unchanged, and its count equals the number of values find_values reports for the path when the path does not end at an array element or the root and repeats no index (a path parsed from a text never does).", "quantifier": "all documents, paths and names", "why_tests_cant": "All trees and paths.", "anchors": ["src/yaml/insert.rs: rename_field"]}
{"id": "C22", "title": "to_object wraps the value", "statement": "to_object replaces every addressed value v by a one-entry hash {key: v}, keeps everything else, and for a path of keys find_values on the path extended with the new key afterwards returns the former values.", "quantifier": "all documents, key paths and names", "why_tests_cant": "All trees and paths.", "anchors": ["src/yaml/insert.rs: to_object"]}
{"id": "C23", "title": "find_values is read-only and returns values in document order", "statement": "find_values leaves the document unchanged and returns the addressed values in the order of the path's indexes and of the document. For every parsed document it equals a direct recursive lookup of the path in which index steps address the elements of block sequences; it therefore equals the lookup the path notation suggests whenever no index step meets a flow sequence.", "quantifier": "all documents and paths", "why_tests_cant": "All trees and paths.", "anchors": ["src/yaml/insert.rs: find_values", "src/yaml/mod.rs: for_hash"]}
{"id": "C24", "title": "Conditions select exactly the matching hashes", "statement": "A node satisfies conditions iff for each condition the first entry with the field name exists and has exactly the given string value; nodes failing a condition are never edited.", "quantifier": "all nodes and condition lists", "why_tests_cant": "Unbounded condition lists and hashes.", "anchors": ["src/yaml/mod.rs: fits_conditions"]}
{"id": "C25", "title": "What index paths do on flow sequences", "statement": "Index steps find nothing in the flow sequences of a parsed document, although they find the elements of the same sequence written in block style: the results for the two styles are equal exactly if the block style gives nothing. Inserts and removals treat the two styles alike.", "quantifier": "all arrays and index paths", "why_tests_cant": "All trees.", "anchors": ["src/yaml/mod.rs: for_hash (InlineArray arms)", "src/yaml/array_data.rs: for_hash"]}
{"id": "C26", "title": "Moving fields to a subfield loses no field", "statement": "move_to_subfield moves each existing listed field, with its value, into the subfield hash; all other entries stay, and an existing subfield keeps its place, anchor, comments and other fields. Moving never returns an error. At every path that repeats no index it panics exactly if find_values finds a block hash there that has one of the fields, such that the name of such a field, or of a subfield to be created, is not a path; otherwise its count is the number of found block hashes that have one of the fields. (The move loses fields when the subfield already exists and is not a block hash.)", "quantifier": "all hashes, subfield names and field lists (clean names)", "why_tests_cant": "All trees and field lists.", "anchors": ["src/yaml/insert.rs: move_to_subfield"]}
{"id": "C27", "title": "Regrouping a map by a selector loses no entry", "statement": "move_to_map_with_field_as_key partitions the entries of the old map between old and new maps: each entry appears exactly once, minus the selector field, comments included. If an entry with the name of the new map exists already, the entries of the groups are lost. Regrouping never returns an error. At every path that repeats no index it panics exactly if a name it needs at one of the values that find_values finds is not a path; otherwise its count is the number of found block hashes with an entry that goes to a group.", "quantifier": "all hashes and names (clean)", "why_tests_cant": "All trees.", "anchors": ["src/yaml/insert.rs: move_to_map_with_field_as_key"]}
{"id": "C28", "title": "Edits never touch comments", "statement": "insert_into_hash without overwrite, rename_field and to_object preserve the sequence of comments of the whole document, and no edit touches document-level comments.", "quantifier": "all documents, paths and arguments", "why_tests_cant": "All trees.", "anchors": ["src/yaml/insert.rs", "src/yaml/document.rs"]}
{"id": "C29", "title": "map_yaml with the identity is the identity, and it maps bottom-up", "statement": "map_yaml calls the function once per node in left-to-right post-order, on the node whose children are already rewritten, keeps keys, anchors names and comments, and with the identity function returns the same tree.", "quantifier": "all trees and all (stateful) functions", "why_tests_cant": "All trees and functions.", "anchors": ["src/yaml/mod.rs: MapYaml"]}
{"id": "C30", "title": "visit_yaml sees every anchored position exactly once in document order", "statement": "visit_yaml calls the function exactly once for each hash value and block array element, parents before children, in document order; flow nodes contribute none themselves.", "quantifier": "all trees", "why_tests_cant": "All trees.", "anchors": ["src/yaml/mod.rs: VisitYaml"]}
{"id": "C31", "title": "Pretty keeps every scalar's string value", "statement": "For every scalar node, in block or flow context, pretty keeps its string value, except exactly where folding is chosen (block context, quoted, more than 90 bytes, no escape or blank line) for a string outside the class of C02.", "quantifier": "all scalar nodes and contexts", "why_tests_cant": "All strings.", "anchors": ["src/yaml/mod.rs: Pretty for Yaml"]}
{"id": "C32", "title": "Pretty keeps the data tree", "statement": "Forgetting comments, anchor names and style, the tree before and after pretty is the same (keys, order, nesting and scalar strings) if and only if every scalar that pretty folds has a string in the class of C02. In flow context the tree is always kept.", "quantifier": "all trees and documents", "why_tests_cant": "All trees.", "anchors": ["src/yaml/mod.rs: Pretty for Yaml"]}
{"id": "C33", "title": "How often pretty must be applied", "statement": "Applying pretty a second time changes nothing if and only if the first application leaves no plain scalar that contains a flow indicator inside a flow collection, and a third application never changes anything.", "quantifier": "all trees", "why_tests_cant": "All trees.", "anchors": ["src/yaml/mod.rs: Pretty for Yaml"]}
{"id": "C34", "title": "Pretty never puts block nodes inside flow nodes", "statement": "After pretty, no flow array or flow hash contains a block hash or block array at any depth.", "quantifier": "all trees", "why_tests_cant": "All trees.", "anchors": ["src/yaml/mod.rs: Pretty for Yaml"]}
{"id": "C35", "title": "Pretty keeps comments in block context", "statement": "For a tree in which no flow collection holds a block collection, pretty keeps the sequence of comments, except that it drops none and reorders none.", "quantifier": "all such trees", "why_tests_cant": "All trees.", "anchors": ["src/yaml/mod.rs: Pretty for Yaml"]}
{"id": "C36", "title": "Parsing terminates on every input", "statement": "parse_yaml_file returns (or panics) after finitely many steps on every input string.", "quantifier": "all strings", "why_tests_cant": "Infinite input space; PEG repetition can loop on empty matches.", "anchors": ["src/yaml.pest", "src/yaml/parser.rs: parse_yaml_file"]}
{"id": "C37", "title": "Parsing panics only on bad block scalars", "statement": "parse_yaml_file returns Ok or Err on every text that does not contain a bad block scalar: a | or > header whose number is zero, too large or not ASCII, or whose following lines include one from which the indentation cannot be cut. Each of these reasons does make it panic on some text. On every text the indentation stack is never read when empty, and the tree consumer never meets an unexpected shape.", "quantifier": "all strings", "why_tests_cant": "Infinite input space.", "anchors": ["src/yaml.pest", "src/yaml/parser.rs: string_multiline_indent, clean_multiline_strings, match_nodes"]}
{"id": "C38", "title": "A parsed document has exactly one root collection", "statement": "Every successfully parsed document contains exactly one YAML item, surrounded only by comments, and it is a hash, an array or an inline array; from_yaml_str therefore never reports missing content.", "quantifier": "all strings that parse", "why_tests_cant": "Infinite input space.", "anchors": ["src/yaml/parser.rs: yaml, document", "src/yaml/deserializer.rs: from_yaml_str"]}
{"id": "C39", "title": "Parsed trees are well formed", "statement": "In every parsed document keys are non-empty, without trailing whitespace and made of letters, digits, `_`, `-` and space; comments contain no newline; plain scalars contain no newline and do not end in a space; block collections contain at least one element.", "quantifier": "all strings that parse", "why_tests_cant": "Infinite input space.", "anchors": ["src/yaml.pest", "src/yaml/parser.rs"]}
{"id": "C40", "title": "Formatted flow values parse back", "statement": "Formatting a flow value (nested flow arrays and hashes, quoted and plain scalars, anchors references) that satisfies a stated well-formedness condition and parsing it gives the same value.", "quantifier": "all well-formed flow values of any depth and size", "why_tests_cant": "Unbounded nesting.", "anchors": ["src/yaml/mod.rs: format", "src/yaml.pest: inline_array, inline_hash", "src/yaml/parser.rs"]}
{"id": "C41", "title": "Formatted documents parse back", "statement": "Formatting a document that satisfies a stated well-formedness condition and parsing the text gives exactly that document.", "quantifier": "all well-formed documents of any depth and size", "why_tests_cant": "Unbounded nesting with indentation-dependent parsing.", "anchors": ["src/yaml/document.rs: format", "src/yaml/mod.rs: format", "src/yaml/parser.rs: parse_yaml_file", "src/yaml.pest"]}
{"id": "C42", "title": "Serialized values survive a trip through text", "statement": "For every value as in C09 whose node is well formed (C41), serialize, format as a document, parse, deserialize gives the value back. In terms of the value: it is a non-empty sequence, map or struct, its unquoted texts do not look like something else, its keys are valid keys, one-element sequences are not elements of sequences and tuples hold no non-empty sequences or maps.", "quantifier": "all types and values with well-formed nodes", "why_tests_cant": "Unbounded.", "anchors": ["src/yaml/serializer.rs", "src/yaml/document.rs: format", "src/yaml/deserializer.rs: from_yaml_str"]}
{"id": "C43", "title": "Formatting a parsed document that is laid out plainly is lossless", "statement": "Parsing the formatted text of a parsed document gives the same document, and the formatted text is stable, if the document is laid out plainly: its root is a block collection that starts with an entry; plain scalars start with something visible and do not look like an anchor, a sequence entry or a mapping entry; no plain scalar ends in a colon at the end of a line with a comment or in a flow collection; the first line of a block scalar has text, and block scalars do not stand after the first key of a mapping that starts on the line of a dash or below an anchor; comments stand before entries or after values on one line; collections that start on the line of a dash or have an anchor start with an entry, and sequences among them have two elements at least, the first on one line. For parsed documents in general the claim is false, and there are texts that parse, but whose documents do not survive formatting, for the ways to leave the plain layout.", "quantifier": "all strings that parse to a document laid out plainly; single texts for the failures", "why_tests_cant": "Infinite input space.", "anchors": ["src/yaml/document.rs: format", "src/yaml.pest: alternative_array"]}
{"id": "C44", "title": "Undefined anchors are an error, defined ones resolve to the latest definition", "statement": "Reading a tree as a self-describing value succeeds exactly if every reference has a definition when it is met, and then gives the value of the tree with each reference replaced by the value of the definition seen last in traversal order, where the definitions of the elements of a collection are seen on entering it. A reference to a name defined nowhere is an error. At every type, a reference that the type reads, at any depth in the tree (not only behind another reference), to a name defined nowhere is an error. A reference among the fields of a struct stands for the last definition among the entries of the same map.", "quantifier": "all trees; all types", "why_tests_cant": "All trees and definition orders.", "anchors": ["src/yaml/deserializer.rs: register, resolve, into_resolved"]}
{"id": "C45", "title": "Comments and style are invisible to deserialization", "statement": "Removing comments, replacing block collections without anchors by flow ones, or dropping the quotes of texts, does not change the result of deserialization. Quotes matter only for the words for null, true and false and for numbers, and there they do matter: there is a type that tells the quoted text from the plain one.", "quantifier": "all trees, all target types", "why_tests_cant": "All trees.", "anchors": ["src/yaml/deserializer.rs: hash_entries, seq_values"]}
{"id": "C46", "title": "Deserialization terminates", "statement": "Deserializing terminates for every tree without cyclic anchors. (For cyclic anchors it does not: `a: &x [*x]` recurses forever.)", "quantifier": "all trees", "why_tests_cant": "Termination is a statement about all executions.", "anchors": ["src/yaml/deserializer.rs: deserialize_any"]}
{"id": "C47", "title": "Deserialization never panics", "statement": "For every tree and target type of the universe, deserialization returns Ok or Err (when it terminates). Deserializing a text deserializes the one item of the parsed document that is not a comment; it panics only if the parser does, so never for a text without malformed block scalars.", "quantifier": "all trees and types", "why_tests_cant": "All trees and types.", "anchors": ["src/yaml/deserializer.rs"]}
{"id": "C48", "title": "Formatting is total, indentation is uniform", "statement": "Formatting a document never fails; every key, dash and comment at depth n is written at column 2n, with only spaces and dashes before it on its line, and flow values are written on one line when no text in them contains a line break.", "quantifier": "all documents", "why_tests_cant": "All trees.", "anchors": ["src/yaml/mod.rs: format", "src/yaml/aliased.rs: format", "src/utils.rs: indent"]}
{"id": "C49", "title": "The text of a scalar has the value it should have", "statement": "A plain, single-quoted, double-quoted, literal or folded scalar in a text is parsed to a node whose string value is the one its text denotes: doubled quotes and escapes are resolved, line breaks inside quotes are dropped or kept as documented, block scalars are joined and chomped as their marks say.", "quantifier": "all scalar texts (with their well-formedness conditions), in block and flow style", "why_tests_cant": "All texts; the escapes, line break runs and folding rules interact.", "anchors": ["src/yaml.pest", "src/yaml/parser.rs", "src/yaml/string.rs: parse_double_quoted_string, parse_single_quoted_string, parse_folded, parse_literal"]}
{"id": "C50", "title": "Pretty documents parse back", "statement": "Making a document pretty and formatting it gives a text that parses, to a document with the same comments in the same places and the same data, if the document itself survives formatting and parsing, no scalar has to become a block scalar where there can be none or with a text that block scalars cannot hold, no scalar loses quotes it needs, and scalars of sequences inside sequences may stand in flow sequences. Typed values survive serializing, making pretty, formatting, parsing and deserializing in the same way.", "quantifier": "all documents (with these conditions), all values", "why_tests_cant": "All trees; the choices of pretty (style of scalars, flow sequences by length) interact with the choices of the parser.", "anchors": ["src/yaml/mod.rs: pretty_with_options, can_be_unquoted_in_block, inline_breaking_chars", "src/yaml/document.rs: pretty, format", "src/yaml/parser.rs: parse_yaml_file"]}
{"id": "C51", "title": "Deserialization follows rules that can be stated for each type", "statement": "Which trees without references deserialize at which type, and to which value, is given by one rule for each type: booleans are the 18 words true/yes/on and false/no/off in lower case, capitalised or upper case, unquoted; integers are decimal, with an optional sign, within the range of the type; floats are the texts Rust accepts; an unquoted null word (~, null, Null, NULL) is None at an option; sequences and tuples are read from block or flow sequences (a tuple ignores surplus elements), maps and structs from block or flow mappings; a struct finds its fields by name in any order, ignores other entries, rejects a field given twice, reads a missing optional field as None and rejects a missing required one; an enum is a name or a mapping with one entry; a self-describing value is null, a bool, an integer of 64 bits, a float, or a string by the first of these that fits, quoted and block scalars always a string. Everything else is an error.", "quantifier": "all trees without references, all target types, all values", "why_tests_cant": "All trees, types and numbers; tests sample a few documents and Rust types.", "anchors": ["src/yaml/deserializer.rs: YamlDeserializer, VecSeqAccess, VecMapAccess, StrEnumAccess"]}
{"id": "C52", "title": "Deserialized values have the requested type", "statement": "Whenever deserializing succeeds, the value has the requested type, at every depth: integers are within the range of their type, bytes below 256, tuples have as many components as their type, structs all of their fields in the order of declaration, None appears only at options, variants are variants of their enum with the content it declares.", "quantifier": "all trees, references and cyclic anchors included, all target types, all documents", "why_tests_cant": "All trees and types.", "anchors": ["src/yaml/deserializer.rs: from_yaml, from_yaml_str"]}
{"id": "C53", "title": "Every layout of a document parses to the document", "statement": "Every text that shows a document parses to exactly this document, whatever its layout: any indentation deep enough for its nesting (sequences under a key may be as little indented as the key), blank lines between items, spaces before the colon and at the ends of lines, LF or CRLF line breaks, comments on lines of their own at any indentation and at the ends of lines, flow collections over several lines with any spacing, quoted scalars over several lines, block scalars with any indentation, with or without an indentation indicator, collections on the line of a dash or below an anchor, comments before and after the header and at the end. So a text shows at most one document, and the layout makes no difference to deserialization. The layouts outside of this are read in another way.", "quantifier": "all documents and all texts that show them by the relation DocumentText, which does not mention the grammar", "why_tests_cant": "There are infinitely many layouts of each document; tests have a dozen.", "anchors": ["src/yaml.pest", "src/yaml/parser.rs: parse_yaml_file"]}
{"id": "C54", "title": "Parsing and formatting change only white space", "statement": "When a text parses, every character of it that is not white space is in the document, in the same order: keys, values, comments, anchors, references, quotes, escapes, separators, and nothing is made up. The only exception are the characters cut off at the start of the lines of block scalars. So parsing a text without block scalars and formatting the document gives the same text up to white space, whatever the formatter does to the layout, also when the result is parsed and formatted again.", "quantifier": "all texts that parse", "why_tests_cant": "All texts; a test can compare a few documents, but characters are lost in the branches nobody thought of.", "anchors": ["src/yaml.pest", "src/yaml/parser.rs: parse_yaml_file and the consumer functions", "src/yaml/mod.rs: format", "src/yaml/document.rs: format"]}
{"id": "C55", "title": "Edited documents can be written and read back", "statement": "An edited document can be saved and loaded again: formatting it and parsing the text gives exactly the edited document. This holds for renaming a field of any document that formatting preserves, if the new name can be written as a key; for inserting a value at any path into any tidy document (comments, anchors and block scalars allowed), if key and value can be written; and for every sequence of insertions, removals, renames, wrappings, moves into subfields and regroupings of a simple document (without comments and block scalars), as long as no mapping becomes empty and the texts that become names of groups can be keys. Outside of this edits corrupt the saved text: a mapping that becomes empty, an entry inserted after a block scalar on the line of a dash, a comment left at the end of a nested mapping, a name or a selector text that is not a key.", "quantifier": "all documents of the class, all paths, all values", "why_tests_cant": "Documents, paths and values are unbounded, and an edit can put an entry at a place where the formatter writes it wrongly although both the document before and the value are fine.", "anchors": ["src/yaml/insert.rs: insert_into_hash, remove_from_hash, rename_field, to_object", "src/yaml/mod.rs: format", "src/yaml/parser.rs: parse_yaml_file"]}
{"id": "C56", "title": "Edits can be undone, and the last write wins", "statement": "Inserting at a path where nothing is found and then removing at the same path gives back the document, comments included. Renaming to a name that is not in use at the path and renaming back gives back the document, unless the path has a condition on the renamed key. Of two overwriting inserts at the same path only the second one counts, and overwriting with the old value again gives back the document. Removing after an insert is the same as removing, without the insert. Where a condition is left out there is a proved counterexample.", "quantifier": "all documents (all parsed documents and all others without block collections in flow collections), all paths, all values", "why_tests_cant": "Documents and paths are unbounded; the result of an edit at one place can change what a condition of the path selects at another.", "anchors": ["src/yaml/insert.rs: insert_into_hash, remove_from_hash, rename_field", "src/path.rs"]}
{"id": "C57", "title": "Edits do not change what is found elsewhere", "statement": "Inserting, removing, renaming or wrapping at a path does not change what is found at any path that leads elsewhere: a path that, after a common beginning in which conditions and index lists may differ, takes another key or other indexes; for a renaming the other key is neither the old nor the new name. The only exception is a path with a condition on a key the edit touches.", "quantifier": "all documents (all parsed documents and all others without block collections in flow collections), all pairs of paths that diverge, all values", "why_tests_cant": "All documents and all pairs of paths.", "anchors": ["src/yaml/insert.rs: insert_into_hash, remove_from_hash, rename_field, to_object", "src/yaml/insert.rs: find_values", "src/yaml/document.rs: for_hash", "src/path.rs"]}
{"id": "C58", "title": "Line endings do not matter", "statement": "Replacing all line breaks of a text, whether CRLF or CR, by LF changes neither whether it is accepted nor whether parsing it panics, if no line ends with a backslash. If it is accepted, the documents have the same comments, keys, anchors, references, plain scalars and shape: they may differ only in quoted scalars over several lines and in the number of empty lines of block scalars, where the differences are real. So a file without these gives the same document with Windows line endings.", "quantifier": "all texts in which no line ends with a backslash", "why_tests_cant": "All texts; each of some seventy grammar rules could treat a carriage return in its own way, and a test shows one place in one text.", "anchors": ["src/yaml.pest", "src/yaml/parser.rs: parse_yaml_file, block_empty_lines, string_multiline_trailing, clean_multiline_strings"]}
{"id": "C59", "title": "Pretty printing does not change what is deserialized", "statement": "Pretty printing a document and then deserializing it gives the same result as deserializing the document itself, at every type: the same value, or an error as before, also when the pretty document is written and parsed again. The exceptions are exactly known: a long quoted text that does not survive folding, and a single-quoted word for null, true or false in a spelling other than null, ~, true and false ('yes', 'Null', 'OFF'), which loses its quotes and is then read as a boolean or as null.", "quantifier": "all parsed documents and all trees without block collections in flow collections, all target types", "why_tests_cant": "All trees and all types; the list of words protected by pretty printing and the lists of words known to the deserializer are in different files and differ, and a test has to hit one of the 18 words.", "anchors": ["src/yaml/mod.rs: pretty, can_be_unquoted_in_block", "src/yaml/deserializer.rs: deserialize_any, deserialize_bool, deserialize_option"]}
{"id": "C60", "title": "Independent edits can be made in any order", "statement": "Inserts, removals, renamings and wrappings at places that have nothing to do with each other can be made in either order: the resulting document is the same, comments and order of entries included, and each edit reports the same number of changes as without the other. So a whole list of pairwise independent edits can be made in any order. Independent means: the paths part (another key, or other indexes), no condition of one path is on a name the other edit touches, and they are not two inserts into the same mapping, where the order of the new entries is the order of the inserts.", "quantifier": "all documents without block collections in flow collections (all parsed documents), all pairs and all lists of independent edits, all orders", "why_tests_cant": "All documents, all pairs of paths with wildcards, index lists and conditions, and all permutations of a list of edits.", "anchors": ["src/yaml/insert.rs: insert_into_hash, remove_from_hash, rename_field, to_object", "src/path.rs"]}
{"id": "C61", "title": "Cost of parsing", "statement": "The time and the call stack that parsing needs have bounds in the size of the text, and these bounds are reached. The number of grammar expressions tried is at most exponential in the length, and it really is exponential: the document of n nested one-element sequences, written by the formatter as `- - - x` in 2n+7 characters, takes at least 2^n steps. The number of grammar rules running at the same time is at most linear in the length, and it grows with nesting: n opening brackets need at least n, whatever follows, so no fixed stack is enough even to reject a text.", "quantifier": "all texts, all nesting depths", "why_tests_cant": "All texts and all depths: growth is a statement about an infinite family of inputs, and the deepest inputs cannot be run.", "anchors": ["src/yaml.pest: alternative_array, block_array, block_array_aliased_yaml_value, inline_array", "src/yaml/parser.rs: parse_yaml_file"]}
{"id": "C62", "title": "Errors are reported at a place in the text, and not too early", "statement": "When a text is rejected, the location of the error is a line and a column of the text. If the document does not start with `---` after its comments, or starts with blank lines only, the location is the first line that is neither blank nor a comment. If a line that cannot belong to the document comes after correct lines, the location is on that line or after it: no correct line is blamed. This is not so inside of a flow collection over several lines, and lines are only counted by line feeds, though a carriage return alone is accepted as a line break.", "quantifier": "all texts; all heads of comments and blank lines; all documents that survive formatting (C41) followed by any text that starts with a character that cannot start a line of a document", "why_tests_cant": "All texts: the location is the last position reached by any of the alternatives the grammar tries, so it depends on the whole search, and a test sees one text.", "anchors": ["src/yaml/parser.rs: YamlError::location, parse_yaml_file", "src/yaml.pest: yaml, leading_comments"]}
{"id": "C63", "title": "How large a deserialized value can be", "statement": "Read as a self-describing value, a text without references gives a value with fewer parts (scalars, sequences and maps) than the text has characters: as many as the tree has. With references, the value has as many parts as the tree after each reference is replaced by its definition. This is bounded if the definitions are not cyclic: by the length of the text to the power of one plus the number of `&`. And it really is exponential: for every n there is a text with n+1 definitions and of length quadratic in n whose value has more than 2^n parts.", "quantifier": "all texts and all trees; for the lower bound all n", "why_tests_cant": "All texts, and growth is a statement about an infinite family of inputs: the values that matter are those too large to be built.", "anchors": ["src/yaml/deserializer.rs: from_yaml_str, deserialize_any, resolve, VecSeqAccess", "src/yaml/parser.rs: parse_yaml_file"]}
{"id": "C64", "title": "Edits change the text only where they apply", "statement": "After an edit, the formatted text of the document is the old one with as many pieces replaced as the edit reports, and every other character is kept, in its order. For a renaming a piece is an entry whose key is replaced; for an insert it is a new line (or lines) with the new entry, or the replaced text of the value when overwriting; for a removal it is the text of the entry that goes away; for a wrapping it is the text of the value, which moves to a new line after the new key, two columns deeper. Two pieces of white space go along: an emptied mapping becomes `{}`, and when the first entry after a dash goes away the next one takes its place on that line.", "quantifier": "all documents, all paths, all values", "why_tests_cant": "All documents and all paths, with comments, anchors, nested collections and wildcards that change many places at once; a test compares one text before and after.", "anchors": ["src/yaml/insert.rs", "src/yaml/mod.rs: format", "src/yaml/document.rs: format, edit_hash_structure, for_hash"]}
{"id": "C65", "title": "Edits change the deserialized data as expected", "statement": "Reading an edited document as a self-describing value gives the old value with as many maps changed as the edit reports, and everything else in it the same, in the same order: an insert adds the key with the value of what is inserted after the other keys of a map (or replaces the value of the key, when overwriting), a removal takes the entry with the key away, a renaming gives the entry another key, a wrapping puts its value into a map of its own. Comments and the way scalars are written play no role. This is for documents without references: with them, a change inside of a definition shows at each reference.", "quantifier": "all documents without references and with one root, all paths that end with a key, all inserted values without references", "why_tests_cant": "All documents, paths and values: the edits work on the tree with its comments, flow and block collections and the deserializer reads it in another way, so that the two have to agree everywhere.", "anchors": ["src/yaml/insert.rs: insert_into_hash, remove_from_hash, rename_field, to_object", "src/yaml/deserializer.rs: deserialize_any, from_yaml_str", "src/yaml/document.rs: edit_hash_structure, for_hash"]}
{"id": "C66", "title": "Edits at places that a type does not read do not change what it reads", "statement": "If the type does not look at what an edit changes, then deserializing the edited document at this type gives the same value as before, or an error in both cases. That is so for entries that are not fields of the struct at that place, and for everything below such entries; behind fields, elements of sequences, values of maps, components of tuples, options, newtypes and contents of variants the same is asked of what follows. So configuration files can be extended and cleaned up under programs that read only a part of them. A renaming must also not use the name of a field as the new name, and there must be no references.", "quantifier": "all types, recursive ones too, all edits with a path that ends with a key, all documents without references", "why_tests_cant": "All types, documents, paths and values at once: types of any depth, and wildcards, index lists and conditions in paths.", "anchors": ["src/yaml/deserializer.rs: deserialize_struct, deserialize_map, deserialize_seq, deserialize_tuple, deserialize_enum, deserialize_ignored_any", "src/yaml/insert.rs"]}
{"id": "C67", "title": "A field that is set is read back as it was set", "statement": "Let a path lead, in a type, to a field: through fields of structs, entries of maps, all or some elements of sequences, options, newtypes and named types. After a value was inserted there with overwriting, deserializing the document at the type gives the old value with exactly these fields set to what the inserted value is read as; for a value that was serialized this is the value itself (under the conditions of C09). After the entry was removed, the field is None (it must be optional), or the entry is gone from the map. All else in the value is as before. This is for documents without references whose mappings along the path are block mappings (edits do not enter flow mappings).", "quantifier": "all types, recursive ones too, all paths without conditions, all values, all documents without references", "why_tests_cant": "All types, documents, paths and values at once: the edit works on the tree with comments and the deserializer at the type must find exactly the changed entry, also if the key is missing or there several times, at any depth.", "anchors": ["src/yaml/insert.rs: insert_into_hash, remove_from_hash", "src/yaml/deserializer.rs: deserialize_struct, deserialize_map, deserialize_seq, deserialize_option, from_yaml_str", "src/yaml/serializer.rs"]}
{"id": "C68", "title": "How large the formatted text can be", "statement": "Formatting a parsed document writes at most five bytes for every byte of the text that was parsed, and two more for every level of nested block collections; so at most twice the square of the bytes of the text, whatever the text is. A caller who formats untrusted files can rely on this bound. The square cannot be avoided: there are texts of 3n + 9 bytes (many keys on one line) that are formatted to more than n * n bytes. The nesting of the parsed document is bounded by the length of the text, too.", "quantifier": "all texts that parse", "why_tests_cant": "All texts at once: the bound is about the worst layout, nesting and mixture of comments, quoted strings and block scalars there can be.", "anchors": ["src/yaml/parser.rs: parse_yaml_file", "src/yaml.pest", "src/yaml/mod.rs: format", "src/yaml/document.rs: format"]}
{"id": "C69", "title": "What is found at a path is what the path leads to in the data", "statement": "Read a text without references as a self-describing value, and look up a path in the parsed document. Then what is found is, value by value and in the same order, among what the path leads to in the deserialized data: keys lead to the first entry of a map with that key, indexes to elements of sequences, conditions select maps by the text of a scalar in them. If the text has no flow collections and the conditions compare with texts that are not numbers, booleans or null, everything that the path leads to is found. So looking up and deserializing agree on what is at a path. The limits are real: the lookup does not see what is in flow collections, and a condition compares the text of a number.", "quantifier": "all texts that are accepted and have no references, all paths", "why_tests_cant": "All texts and paths: the lookup works on the tree with comments, anchors and scalar styles, the deserializer reads it in another way, and the two have to agree everywhere, with wildcards, index lists, repeated keys and conditions.", "anchors": ["src/yaml/mod.rs: for_hash", "src/yaml/insert.rs: find_values", "src/yaml/document.rs: for_hash", "src/yaml/deserializer.rs: deserialize_any, from_yaml_str"]}
{"id": "C70", "title": "Moves change the deserialized data as expected", "statement": "Take a document without references and flow collections and read it as a self-describing value before and after a move. Moving fields into a subfield changes as many maps of the value as it reports: in each of them the listed fields that are there are now in the map with the subfield's name, which keeps its other entries (or is new, at the end), and every other field has the value it had. The only exception is a map in which the subfield is there and is not a map: there the fields are gone. Regrouping a map by a selector changes as many maps as it reports: each entry of the old map with a scalar selector loses it and is in the group that the selector's text names, in a new map with the groups in order of their names, except for the texts to keep, which stay; all entries are in exactly one place. The exception is a map in which the new name is taken: there the entries that do not stay are gone. The text of the result deserializes to the new value.", "quantifier": "all documents without references and flow collections, all paths, all field lists without repetition, all names", "why_tests_cant": "All documents, paths and lists at once: the moves work on the tree with comments and anchors, with repeated keys, fields that are missing, subfields of any kind and any number of groups, and the deserializer must see exactly the change that was meant.", "anchors": ["src/yaml/insert.rs: move_to_subfield, move_to_map_with_field_as_key", "src/yaml/document.rs", "src/yaml/deserializer.rs: deserialize_any, from_yaml_str"]}
{"id": "C71", "title": "Lookups and edits do not depend on comments, anchor names and quoting", "statement": "Take two documents that differ only in comments, in the names of anchors and in how scalars are written (plain, quoted, literal or folded), not in the entries and elements and not in which collections are block or flow collections. A path finds as many values in both, in the same order, and they again differ only in that way. Every edit (insert, remove, rename, wrap, move fields, regroup) reports the same number on both, panics on both or on neither, and leaves two documents that again differ only in that way. So a user may comment, requote and reformat a file by hand without changing what a migration does to it. Formatting nicely is such a change, if no block collection is empty, no block sequence is directly in a block sequence, and long texts survive folding; a sequence in a sequence can become a flow sequence, in which paths find nothing.", "quantifier": "all pairs of documents of the same shape, all paths, all edits and their arguments", "why_tests_cant": "All pairs of documents, paths and edits at once: comments stand between any entries and shift every position, and the edits search and change the list of entries with the comments in it.", "anchors": ["src/yaml/mod.rs: for_hash, edit_hash_structure, key_value, pretty_with_options", "src/yaml/insert.rs", "src/yaml/document.rs"]}
{"id": "C72", "title": "Edits can start at any part of a tree", "statement": "Looking up and editing by path is offered by every part of a tree: documents, their items, trees, values with an anchor name, entries and elements. On each of them an operation that reports no change has changed nothing, and looking up never changes anything. Values with an anchor name and items of documents pass everything on to the tree in them, comments ignore everything, inserting into and removing from an entry or an element acts on its value with the whole path. Operations that look at existing entries treat the key of an entry as the first key of the path: its key alone or the empty path mean the entry itself, another key or an index nothing, and a longer path leads into the value whatever its first key is; on the mapping that has the entry as its first one with that key, they do the same to it. In an element, a single key acts on the value, an index stands for the element itself, and the empty path and longer paths that begin with a key find nothing. Inserting the result of a call is inserting the value. The functions on trees are the only solution of the equations that the code writes down.", "quantifier": "all documents, trees, entries, elements and comments, all paths, all edits and their arguments", "why_tests_cant": "All parts, paths and arguments at once; the implementations call each other with the path or the rest of it, and the tree functions recur on flow sequences with the same path.", "anchors": ["src/yaml/insert.rs: YamlInsert", "src/yaml/hash_element.rs", "src/yaml/hash_data.rs", "src/yaml/array_data.rs", "src/yaml/aliased.rs", "src/yaml/document.rs", "src/yaml/mod.rs: for_hash, edit_hash_structure"]}
{"id": "C73", "title": "Lines can be added at the end of a file", "statement": "Take a text that ends with a line break and shows a document whose root is a block mapping, in any layout, with any nested values, comments and blank lines. Write lines with further entries after it, with the indentation of the root. The text is accepted, and it is read as the entries that were there, the comments that were at the end, and the new entries, in this order; nothing that was there is read in another way. If the root is not indented there is no other condition. An indented root must not end, going from each value to the last value in it, with a mapping with one entry in a sequence with one element in a sequence: this mapping takes the line. For a root that is a sequence the same holds for lines with elements, unless the last element ends with a sequence with one element in a sequence. Writing an entry with a new key at the end of the file gives the same document as inserting its value at this key.", "quantifier": "all texts of documents with a block mapping or sequence as root that end with a line break, all texts of further entries or elements", "why_tests_cant": "All texts and all added lines at once: a value at the end can be nested in any way, and whether it takes the next line depends on its layout and on what the parser has entered at that point.", "anchors": ["src/yaml.pest", "src/yaml/parser.rs: parse_yaml_file", "src/yaml/insert.rs: insert_into_hash"]}
{"id": "C74", "title": "Editing the lines of an entry does the same as editing the document", "statement": "Take a text that shows a document whose root is a block mapping without indentation, in any layout. Writing another value at an entry, in any layout, and parsing gives the document that inserting this value at the key, overwriting, gives. Writing another key gives the document that renaming the field gives. Writing a mapping with the old value under a new key gives the document that wrapping the value in an object gives. Deleting the lines of the entry gives the document that removing the key gives. The entry is the first with its key and can be anywhere in the mapping; all other entries, comments and blank lines, before and after it, are any. So edits by hand and edits with the library can be mixed.", "quantifier": "all texts of documents with an unindented block mapping as root, all entries of it, all texts of their new values", "why_tests_cant": "All texts, positions and values at once: what is read depends on the layout of all lines, and a value can take lines that follow it.", "anchors": ["src/yaml.pest", "src/yaml/parser.rs: parse_yaml_file", "src/yaml/insert.rs: insert_into_hash, rename_field, to_object, remove_from_hash"]}
{"id": "C75", "title": "Different values and documents are written differently", "statement": "Two documents that the formatter can write (those it can be read back from, C41) have different texts if they differ in anything: an entry, a comment, an anchor name, the style of a scalar. Two values of the same type that are not lost in serialization (C09) are serialized as different trees, also after pretty printing if no text is folded in a way that changes it; if both can be stored as texts (C42), their texts differ. The conditions are needed: None and Some(None) are serialized in the same way, and so are variants of an enum with the same content.", "quantifier": "all pairs of documents, all types, all pairs of values", "why_tests_cant": "All pairs at once: tests can compare some values, not rule out that two others collide.", "anchors": ["src/yaml/document.rs: format", "src/yaml/serializer.rs", "src/yaml/mod.rs: pretty, format"]}
{"id": "C76", "title": "A value or key can be replaced in the text, wherever it is", "statement": "Take a text that shows a document, in any layout. Every value that is on one line (or is a flow collection), at any depth of block collections, is shown by one part of the text. If this part is replaced by the text of any other such value, the text that results is read as the document with the other value at this place and no other change: comments, anchor names, styles and all other values stay. The same holds for the values inside flow collections, at any depth, and for the keys of block mappings. So if a path of the library leads to this place only, then replacing the text and parsing gives the same document as parsing and inserting at the path, overwriting; replacing the key gives the same as renaming the field. A program that reads the text into a type gets the same value as before with the new value in this field.", "quantifier": "all texts in all layouts, all places at any depth, all new values and keys", "why_tests_cant": "All texts, places and replacements at once: which lines belong to which value depends on the whole text before it.", "anchors": ["src/yaml.pest", "src/yaml/parser.rs: parse_yaml_file", "src/yaml/insert.rs: insert_into_hash, rename_field"]}
{"id": "C77", "title": "A comment can be replaced or added in the text, and no value changes", "statement": "Take a text that shows a document, in any layout. Every comment of the document (before the header, before and after the tree, on lines between the items of block collections at any depth, or at the end of the line of an item) is shown by one part of the text after a #. If this part is replaced by any other text without line breaks, the text that results is read as the document with the other comment and no other change. A new comment line, indented by no more than the item, can be added before every entry of a block mapping but the first and before every element of a block sequence but the first two; the text is then read as the document with this comment before the item. In both cases deserializing the text gives the same result as before, for every type: the same value, or an error as before.", "quantifier": "all texts in all layouts, all comments and all items at any depth, all new comments, all types", "why_tests_cant": "All texts, places and comments at once: whether a # line is a comment or part of a block scalar, and to which collection it belongs, depends on the lines before and after it.", "anchors": ["src/yaml.pest", "src/yaml/parser.rs: parse_yaml_file", "src/yaml/deserializer.rs: from_yaml_str"]}
{"id": "C78", "title": "Lines can be deleted, added and moved in the text, in every collection", "statement": "Take a text that shows a document, in any layout. Items in the middle of a block mapping or sequence, at any depth, are shown by lines of their own; the comments that follow an item belong to its lines. If these lines are replaced by other lines that show items with the same indentation, the text that results is read as the document with the other items at this place and no other change. So deleting the lines of items deletes these items; a new line with a key and a value, or with a dash and a value, adds an item; swapping the lines of two neighbours swaps the items. If a path of the library leads to one entry only, deleting its lines and parsing gives the same document as parsing and removing at the path. In the middle means: not the first item, except in the root, and not the last one.", "quantifier": "all texts in all layouts, all collections at any depth, all items and all new lines", "why_tests_cant": "All texts, places and replacements at once: what a line belongs to depends on the lines before and after it.", "anchors": ["src/yaml.pest", "src/yaml/parser.rs: parse_yaml_file", "src/yaml/insert.rs: remove_from_hash"]}
{"id": "C79", "title": "Files that the library has written can be edited by hand", "statement": "The formatted text of a readable document (C41) is one of the texts that show the document, in the sense of C53, if no plain scalar in a block collection ends with a colon; for tidy documents, which edits do not leave (C55), there is no condition. So everything that is stated about hand edits of a text (C73 to C78: adding lines at the end, replacing values and keys, replacing and adding comments, deleting, adding and moving lines) holds for every file that the library has written, also after it has edited the document. A line break at the end of the formatted text, as editors add it, changes nothing, and further entries of a mapping or elements of a sequence can be written after it at the margin. For elements, the last value must not end in a sequence with one element in a sequence: that one takes a line with a dash after it as its own, even at the margin. The condition is needed: when a plain scalar ends with a colon, a space at the end of the line makes the text invalid.", "quantifier": "all readable documents, of any depth and size; all hand edits of C73 to C78", "why_tests_cant": "All documents at once: the layout that the formatter chooses depends on what is next to what.", "anchors": ["src/yaml/mod.rs: format", "src/yaml/aliased.rs: format", "src/yaml/document.rs: format", "src/yaml/parser.rs: parse_yaml_file", "src/yaml.pest"]}
{"id": "C80", "title": "A key without a value takes the entries that follow", "statement": "The library has no empty values. If the value of a key is left out, the file is not rejected and the key does not get a null: at the left margin, with nothing after the colon, the next entry (with the comment on its line) becomes the value of the key and the other entries stay where they are; in an indented mapping, or with a space, an anchor or a comment after the colon, all entries that follow in this mapping become its value. This holds for every text that shows a document with a mapping as root, in any layout (C53), at every place in the mapping, and for texts in which keys without values are nested at any depth.", "quantifier": "all texts in all layouts, all places of the key, all keys, blank lines and comments after it, any depth of nesting", "why_tests_cant": "What the key takes depends on all the lines that follow and on the mappings around it; a test shows it for one file.", "anchors": ["src/yaml.pest: hash_element, hash, alternative_hash", "src/yaml/parser.rs: parse_yaml_file"]}
{"id": "C81", "title": "The order of the entries of mappings does not matter to deserialization", "statement": "If the entries of the mappings of a tree without references are put in another order, at any depth, and comments are added or removed, then every type reads the same value from it, up to the order of the entries of maps (if a key is repeated, a map type may keep another one of its values); exactly the same value if there is no map in it (structs, options, enums, sequences and scalars only). A tree that is an error for a type stays an error for it. So swapping the lines of two groups of entries in a text, in any layout, does not change what is read. With references the order does matter, because a reference can only name an anchor that was read before it.", "quantifier": "all trees without references, all orders of the entries at all depths, all types; all texts in all layouts and all neighbouring groups of entries", "why_tests_cant": "The number of orders grows without bound with the number of entries and the depth; a test tries a few.", "anchors": ["src/yaml/deserializer.rs: deserialize_any, from_yaml_str", "src/yaml/parser.rs: parse_yaml_file", "src/yaml.pest"]}
{"id": "C82", "title": "Types can change without breaking files", "statement": "A file that a program reads at a type stays readable when the type is changed in these ways, at any depth and in recursive types: fields of a struct are dropped, reordered, or added as optional fields; a value becomes optional, is wrapped in or taken out of a newtype, or is not looked at any more; an integer type is replaced by one with more values, a character by a string; components at the end of a tuple are dropped; variants are added to an enum. The new value is the old one: dropped fields are gone, new fields are None, fields are matched by name, and what was read from a word for null is None if it has become optional. The file must have no references, and the names of the new fields must not be keys in it already. A new field that is not optional is an error. So a new version of a program reads what the old version has written.", "quantifier": "all types and all changes of these kinds at any depth, recursive types included; all trees and files without references; all values that survive serialization", "why_tests_cant": "The changes combine without bound and at any depth; a test shows one old and one new type.", "anchors": ["src/yaml/deserializer.rs: deserialize_any, deserialize_option, from_yaml_str", "src/yaml/serializer.rs", "src/yaml/parser.rs: parse_yaml_file"]}
{"id": "C83", "title": "The names of anchors do not matter", "statement": "Give the anchors of a file other names, so that a definition and a reference have the same name afterwards only if they had it before, and remove any anchors to which nothing refers: every type reads the same value as before, or the same error, with references at any depth and with definitions of the same name that replace one another. In particular an anchor that is not used can be added or removed freely, and all names can be changed by an injective function. Two names that become the same change what is read, and removing an anchor that is used makes the file an error.", "quantifier": "all trees and all files, with any number of definitions and references at any depth; all renamings; all types; all values and all errors", "why_tests_cant": "Which definition a reference gets depends on all definitions that are visited before it, on the type that decides what is visited, and on all names; a test shows one file.", "anchors": ["src/yaml/deserializer.rs: Deserializer, deserialize_any, from_yaml_str", "src/yaml/parser.rs: parse_yaml_file"]}
