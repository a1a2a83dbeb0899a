import Verif.Model.Consume
import Verif.Model.Path
import Verif.Model.Pretty
import Verif.Model.Insert

/-! # Fidelity tests: the model against the snapshots and assertions of the repository

Generated from `src/lib.rs`, `src/snapshots/*.snap` and the tests of `src/path.rs`. These are tests of
the model, not proofs. -/

namespace YamlSubset.Tests

open YamlSubset

def parse (s : String) : Out Document := parseYamlFile asciiTables s.toList
def parseP (s : String) : Out YamlPath := YamlPath.parse s.toList
def fmt (o : Out Document) : Option String :=
  match o with
  | .ok d => some (String.ofList d.format)
  | _ => none
def fmtPretty (o : Out Document) : Option String :=
  match o with
  | .ok d => some (String.ofList d.pretty.format)
  | _ => none

/-- Input of the test `basic`. -/
def basic_inp : String :=
  "---\n# test\nk: &anch test\n# hi\nv: &ok\n   - &ok2 test\n# comment\n   - *test\nv: test # maybe\nk: [5, 10, \"e\"]\nvariable_groups: []\ndouble_quoted: \"test\n\nnow a space \\n vs \\\\n\n\"\nsingle_quoted: 'test escaping ''\n\nnow a space \\n vs \\\\n\n'\nl:\n - 'sqrt( {d}^({r*n+m}m+{p}) * x^({r*a+p})  * y^{b*r+q} )'\n - Read the values of the cyclometric numbers off of the circle. <br/> {gon_circle}\n\n# after\n"

#guard parse basic_inp == .ok ⟨[], [(.comment (c!" test")), (.yaml (.hash [(.element ⟨c!"k", ⟨(some c!"anch"), (.unquotedString c!"test")⟩⟩), (.comment (c!" hi")), (.element ⟨c!"v", ⟨(some c!"ok"), (.array [(.element ⟨(some c!"ok2"), (.unquotedString c!"test")⟩), (.comment (c!" comment")), (.element ⟨none, (.anchor c!"test")⟩)])⟩⟩), (.element ⟨c!"v", ⟨none, (.unquotedString c!"test")⟩⟩), (.inlineComment (c!" maybe")), (.element ⟨c!"k", ⟨none, (.inlineArray [(.unquotedString c!"5"), (.unquotedString c!"10"), (.doubleQuotedString [(.string c!"e")])])⟩⟩), (.element ⟨c!"variable_groups", ⟨none, (.inlineArray [])⟩⟩), (.element ⟨c!"double_quoted", ⟨none, (.doubleQuotedString [(.string c!"test"), (.blankLines 1), (.string (c!"now a space ")), (.escapedChar .newline), (.string (c!" vs ")), (.escapedChar .backslash), (.string c!"n"), .removableNewline])⟩⟩), (.element ⟨c!"single_quoted", ⟨none, (.singleQuotedString [(.string (c!"test escaping ")), (.escapedChar .singleQuote), (.blankLines 1), (.string (c!"now a space \\n vs \\\\n")), .removableNewline])⟩⟩), (.element ⟨c!"l", ⟨none, (.array [(.element ⟨none, (.singleQuotedString [(.string (c!"sqrt( {d}^({r*n+m}m+{p}) * x^({r*a+p})  * y^{b*r+q} )"))])⟩), (.element ⟨none, (.unquotedString (c!"Read the values of the cyclometric numbers off of the circle. <br/> {gon_circle}"))⟩)])⟩⟩)])), (.comment (c!" after"))]⟩

#guard fmt (parse basic_inp) == some "---\n# test\nk: &anch test\n# hi\nv: &ok\n  - &ok2 test\n  # comment\n  - *test\nv: test # maybe\nk: [ 5, 10, \"e\" ]\nvariable_groups: []\ndouble_quoted: \"test\n\nnow a space \\n vs \\\\n\n\"\nsingle_quoted: 'test escaping ''\n\nnow a space \\n vs \\\\n\n'\nl:\n  - 'sqrt( {d}^({r*n+m}m+{p}) * x^({r*a+p})  * y^{b*r+q} )'\n  - Read the values of the cyclometric numbers off of the circle. <br/> {gon_circle}\n# after"

/-- Input of the test `inline_hash`. -/
def inline_hash_inp : String :=
  "---\nfield: &test {}\nitem: {}\nitem2: { key: \"value\", other: [a, b]}\nother: # check\n  combine: { key: { key: [l, {a: \"b\"}]} }\n  item: {}\n"

#guard parse inline_hash_inp == .ok ⟨[], [(.yaml (.hash [(.element ⟨c!"field", ⟨(some c!"test"), (.inlineHash [])⟩⟩), (.element ⟨c!"item", ⟨none, (.inlineHash [])⟩⟩), (.element ⟨c!"item2", ⟨none, (.inlineHash [(c!"key", (.doubleQuotedString [(.string c!"value")])), (c!"other", (.inlineArray [(.unquotedString c!"a"), (.unquotedString c!"b")]))])⟩⟩), (.element ⟨c!"other", ⟨none, (.hash [(.comment (c!" check")), (.element ⟨c!"combine", ⟨none, (.inlineHash [(c!"key", (.inlineHash [(c!"key", (.inlineArray [(.unquotedString c!"l"), (.inlineHash [(c!"a", (.doubleQuotedString [(.string c!"b")]))])]))]))])⟩⟩), (.element ⟨c!"item", ⟨none, (.inlineHash [])⟩⟩)])⟩⟩)]))]⟩

#guard fmt (parse inline_hash_inp) == some "---\nfield: &test {}\nitem: {}\nitem2: { key: \"value\", other: [ a, b ] }\nother:\n  # check\n  combine: { key: { key: [ l, { a: \"b\" } ] } }\n  item: {}"

/-- Input of the test `block_delimiters_in_text`. -/
def block_delimiters_in_text_inp : String :=
  "---\ncontent: When you press <em>Submit part</em>.\nabs: An absolute value is written as |x|\n"

#guard parse block_delimiters_in_text_inp == .ok ⟨[], [(.yaml (.hash [(.element ⟨c!"content", ⟨none, (.unquotedString (c!"When you press <em>Submit part</em>."))⟩⟩), (.element ⟨c!"abs", ⟨none, (.unquotedString (c!"An absolute value is written as |x|"))⟩⟩)]))]⟩

#guard fmt (parse block_delimiters_in_text_inp) == some "---\ncontent: When you press <em>Submit part</em>.\nabs: An absolute value is written as |x|"

/-- Input of the test `array_delimiters_in_text`. -/
def array_delimiters_in_text_inp : String :=
  "---\ndefault_value:  random(-9 .. 9 except [0, a])    \n"

#guard parse array_delimiters_in_text_inp == .ok ⟨[], [(.yaml (.hash [(.element ⟨c!"default_value", ⟨none, (.unquotedString (c!"random(-9 .. 9 except [0, a])"))⟩⟩)]))]⟩

#guard fmt (parse array_delimiters_in_text_inp) == some "---\ndefault_value: random(-9 .. 9 except [0, a])"

/-- Input of the test `comments_before_start`. -/
def comments_before_start_inp : String :=
  "\n# a comment\n# another one\n\n---\nx: 5\n\n  "

#guard parse comments_before_start_inp == .ok ⟨[c!" a comment", c!" another one"], [(.yaml (.hash [(.element ⟨c!"x", ⟨none, (.unquotedString c!"5")⟩⟩)]))]⟩

#guard fmt (parse comments_before_start_inp) == some "# a comment\n# another one\n---\nx: 5"

/-- Input of the test `elab`. -/
def elab_inp : String :=
  "---\n# test\nk: &anch test\n# hi\n\nv: &ok\n   - &ok2 test\n# comment\n   - *test # an anchor\nv: test # maybe\nk: &kk [5, 10, \"e\"]\n# after\ny: - x: 5\n     z: &zfield 6 # yess\n\n   - n: 8\n\n   - j\n# between\nz: - *kk\n\n   - ke\nk: - - j\n     - k\n\n     - l\n   - - m\n     - z: k\n\n\n       t: - m: l # comment\n            p: 4 # comment\n          - m # after m\n# wow\n# something else\n"

#guard parse elab_inp == .ok ⟨[], [(.comment (c!" test")), (.yaml (.hash [(.element ⟨c!"k", ⟨(some c!"anch"), (.unquotedString c!"test")⟩⟩), (.comment (c!" hi")), (.element ⟨c!"v", ⟨(some c!"ok"), (.array [(.element ⟨(some c!"ok2"), (.unquotedString c!"test")⟩), (.comment (c!" comment")), (.element ⟨none, (.anchor c!"test")⟩), (.inlineComment (c!" an anchor"))])⟩⟩), (.element ⟨c!"v", ⟨none, (.unquotedString c!"test")⟩⟩), (.inlineComment (c!" maybe")), (.element ⟨c!"k", ⟨(some c!"kk"), (.inlineArray [(.unquotedString c!"5"), (.unquotedString c!"10"), (.doubleQuotedString [(.string c!"e")])])⟩⟩), (.comment (c!" after")), (.element ⟨c!"y", ⟨none, (.array [(.element ⟨none, (.hash [(.element ⟨c!"x", ⟨none, (.unquotedString c!"5")⟩⟩), (.element ⟨c!"z", ⟨(some c!"zfield"), (.unquotedString c!"6")⟩⟩), (.inlineComment (c!" yess"))])⟩), (.element ⟨none, (.hash [(.element ⟨c!"n", ⟨none, (.unquotedString c!"8")⟩⟩)])⟩), (.element ⟨none, (.unquotedString c!"j")⟩)])⟩⟩), (.comment (c!" between")), (.element ⟨c!"z", ⟨none, (.array [(.element ⟨none, (.anchor c!"kk")⟩), (.element ⟨none, (.unquotedString c!"ke")⟩)])⟩⟩), (.element ⟨c!"k", ⟨none, (.array [(.element ⟨none, (.array [(.element ⟨none, (.unquotedString c!"j")⟩), (.element ⟨none, (.unquotedString c!"k")⟩), (.element ⟨none, (.unquotedString c!"l")⟩)])⟩), (.element ⟨none, (.array [(.element ⟨none, (.unquotedString c!"m")⟩), (.element ⟨none, (.hash [(.element ⟨c!"z", ⟨none, (.unquotedString c!"k")⟩⟩), (.element ⟨c!"t", ⟨none, (.array [(.element ⟨none, (.hash [(.element ⟨c!"m", ⟨none, (.unquotedString c!"l")⟩⟩), (.inlineComment (c!" comment")), (.element ⟨c!"p", ⟨none, (.unquotedString c!"4")⟩⟩), (.inlineComment (c!" comment"))])⟩), (.element ⟨none, (.unquotedString c!"m")⟩), (.inlineComment (c!" after m"))])⟩⟩)])⟩)])⟩)])⟩⟩)])), (.comment (c!" wow")), (.comment (c!" something else"))]⟩

#guard fmt (parse elab_inp) == some "---\n# test\nk: &anch test\n# hi\nv: &ok\n  - &ok2 test\n  # comment\n  - *test # an anchor\nv: test # maybe\nk: &kk [ 5, 10, \"e\" ]\n# after\ny:\n  - x: 5\n    z: &zfield 6 # yess\n  - n: 8\n  - j\n# between\nz:\n  - *kk\n  - ke\nk:\n  - - j\n    - k\n    - l\n  - - m\n    - z: k\n      t:\n        - m: l # comment\n          p: 4 # comment\n        - m # after m\n# wow\n# something else"

/-- Input of the test `block_scalars`. -/
def block_scalars_inp : String :=
  "---\n        newlines: &newline |\n                  Several lines of text,\n                  with some \"quotes\" of various 'types',\n                  and also a blank line:\n                  \n                  and some text with\n                    extra indentation\n                  on the next line,\n                  plus another line at the end.\n                  \n        folded: &folded >\n                  Several lines of text,\n                  with some \"quotes\" of various 'types',\n                  and also a blank line:\n                  \n                  and some text with\n                    extra indentation\n                  on the next line,\n                  plus another line at the end.\n                  \n                  \n                  \n        test: 5"

#guard parse block_scalars_inp == .ok ⟨[], [(.yaml (.hash [(.element ⟨c!"newlines", ⟨(some c!"newline"), (.literalString [c!"Several lines of text,", c!"with some \"quotes\" of various 'types',", c!"and also a blank line:", [], c!"and some text with", c!"  extra indentation", c!"on the next line,", c!"plus another line at the end.", []] .clip)⟩⟩), (.element ⟨c!"folded", ⟨(some c!"folded"), (.foldedString [c!"Several lines of text,", c!"with some \"quotes\" of various 'types',", c!"and also a blank line:", [], c!"and some text with", c!"  extra indentation", c!"on the next line,", c!"plus another line at the end.", [], [], []] .clip)⟩⟩), (.element ⟨c!"test", ⟨none, (.unquotedString c!"5")⟩⟩)]))]⟩

#guard fmt (parse block_scalars_inp) == some "---\nnewlines: &newline |\n  Several lines of text,\n  with some \"quotes\" of various 'types',\n  and also a blank line:\n  \n  and some text with\n    extra indentation\n  on the next line,\n  plus another line at the end.\n  \nfolded: &folded >\n  Several lines of text,\n  with some \"quotes\" of various 'types',\n  and also a blank line:\n  \n  and some text with\n    extra indentation\n  on the next line,\n  plus another line at the end.\n  \n  \n  \ntest: 5"

/-- Input of the test `block_scalars_with_chomping`. -/
def block_scalars_with_chomping_inp : String :=
  "---\n        newlines: &newline |-\n                  Several lines of text,\n                  with some \"quotes\" of various 'types',\n                  and also a blank line:\n                  \n                  and some text with\n                    extra indentation\n                  on the next line,\n                  plus another line at the end.\n                  \n        folded: &folded >+\n                  Several lines of text,\n                  with some \"quotes\" of various 'types',\n                  and also a blank line:\n                  \n                  and some text with\n                    extra indentation\n                  on the next line,\n                  plus another line at the end.\n                  \n                  \n                  \n        test: 5"

#guard parse block_scalars_with_chomping_inp == .ok ⟨[], [(.yaml (.hash [(.element ⟨c!"newlines", ⟨(some c!"newline"), (.literalString [c!"Several lines of text,", c!"with some \"quotes\" of various 'types',", c!"and also a blank line:", [], c!"and some text with", c!"  extra indentation", c!"on the next line,", c!"plus another line at the end.", []] .strip)⟩⟩), (.element ⟨c!"folded", ⟨(some c!"folded"), (.foldedString [c!"Several lines of text,", c!"with some \"quotes\" of various 'types',", c!"and also a blank line:", [], c!"and some text with", c!"  extra indentation", c!"on the next line,", c!"plus another line at the end.", [], [], []] .keep)⟩⟩), (.element ⟨c!"test", ⟨none, (.unquotedString c!"5")⟩⟩)]))]⟩

#guard fmt (parse block_scalars_with_chomping_inp) == some "---\nnewlines: &newline |-\n  Several lines of text,\n  with some \"quotes\" of various 'types',\n  and also a blank line:\n  \n  and some text with\n    extra indentation\n  on the next line,\n  plus another line at the end.\n  \nfolded: &folded >+\n  Several lines of text,\n  with some \"quotes\" of various 'types',\n  and also a blank line:\n  \n  and some text with\n    extra indentation\n  on the next line,\n  plus another line at the end.\n  \n  \n  \ntest: 5"

/-- Input of the test `block_scalars_with_indent`. -/
def block_scalars_with_indent_inp : String :=
  "---\n        newlines: &newline |10\n                    Several lines of text,\n                  with some \"quotes\" of various 'types',\n                  and also a blank line:\n                  \n                  and some text with\n                    extra indentation\n                  on the next line,\n                  plus another line at the end.\n                  \n        folded: &folded >10\n                    Several lines of text,\n                  with some \"quotes\" of various 'types',\n                  and also a blank line:\n                  \n                  and some text with\n                    extra indentation\n                  on the next line,\n                  plus another line at the end.\n                  \n                  \n                  \n        test: 5"

#guard parse block_scalars_with_indent_inp == .ok ⟨[], [(.yaml (.hash [(.element ⟨c!"newlines", ⟨(some c!"newline"), (.literalString [c!"  Several lines of text,", c!"with some \"quotes\" of various 'types',", c!"and also a blank line:", [], c!"and some text with", c!"  extra indentation", c!"on the next line,", c!"plus another line at the end.", []] .clip)⟩⟩), (.element ⟨c!"folded", ⟨(some c!"folded"), (.foldedString [c!"  Several lines of text,", c!"with some \"quotes\" of various 'types',", c!"and also a blank line:", [], c!"and some text with", c!"  extra indentation", c!"on the next line,", c!"plus another line at the end.", [], [], []] .clip)⟩⟩), (.element ⟨c!"test", ⟨none, (.unquotedString c!"5")⟩⟩)]))]⟩

#guard fmt (parse block_scalars_with_indent_inp) == some "---\nnewlines: &newline |2\n    Several lines of text,\n  with some \"quotes\" of various 'types',\n  and also a blank line:\n  \n  and some text with\n    extra indentation\n  on the next line,\n  plus another line at the end.\n  \nfolded: &folded >2\n    Several lines of text,\n  with some \"quotes\" of various 'types',\n  and also a blank line:\n  \n  and some text with\n    extra indentation\n  on the next line,\n  plus another line at the end.\n  \n  \n  \ntest: 5"

/-- Input of the test `block_scalars_with_indent_and_empty_lines`. -/
def block_scalars_with_indent_and_empty_lines_inp : String :=
  "---\n        newlines: &newline |10\n                    Several lines of text,\n                  with some \"quotes\" of various 'types',\n                  and also a blank line:\n\n                  and some text with\n                    extra indentation\n                  on the next line,\n                  plus another line at the end.\n                  \n        folded: &folded >10\n                    Several lines of text,\n                  with some \"quotes\" of various 'types',\n                  and also a blank line:\n\n                  and some text with\n                    extra indentation\n                  on the next line,\n                  plus another line at the end.\n                  \n                  \n                  \n        test: 5"

#guard parse block_scalars_with_indent_and_empty_lines_inp == .ok ⟨[], [(.yaml (.hash [(.element ⟨c!"newlines", ⟨(some c!"newline"), (.literalString [c!"  Several lines of text,", c!"with some \"quotes\" of various 'types',", c!"and also a blank line:", [], c!"and some text with", c!"  extra indentation", c!"on the next line,", c!"plus another line at the end.", []] .clip)⟩⟩), (.element ⟨c!"folded", ⟨(some c!"folded"), (.foldedString [c!"  Several lines of text,", c!"with some \"quotes\" of various 'types',", c!"and also a blank line:", [], c!"and some text with", c!"  extra indentation", c!"on the next line,", c!"plus another line at the end.", [], [], []] .clip)⟩⟩), (.element ⟨c!"test", ⟨none, (.unquotedString c!"5")⟩⟩)]))]⟩

#guard fmt (parse block_scalars_with_indent_and_empty_lines_inp) == some "---\nnewlines: &newline |2\n    Several lines of text,\n  with some \"quotes\" of various 'types',\n  and also a blank line:\n  \n  and some text with\n    extra indentation\n  on the next line,\n  plus another line at the end.\n  \nfolded: &folded >2\n    Several lines of text,\n  with some \"quotes\" of various 'types',\n  and also a blank line:\n  \n  and some text with\n    extra indentation\n  on the next line,\n  plus another line at the end.\n  \n  \n  \ntest: 5"

/-- Input of the test `block_scalars_deeper`. -/
def block_scalars_deeper_inp : String :=
  "---\nparts:\n  - \n    type: gapfill\n    marks: 0\n    prompt:\n      content: test\n      other: |\n        8\n        10"

#guard parse block_scalars_deeper_inp == .ok ⟨[], [(.yaml (.hash [(.element ⟨c!"parts", ⟨none, (.array [(.element ⟨none, (.hash [(.element ⟨c!"type", ⟨none, (.unquotedString c!"gapfill")⟩⟩), (.element ⟨c!"marks", ⟨none, (.unquotedString c!"0")⟩⟩), (.element ⟨c!"prompt", ⟨none, (.hash [(.element ⟨c!"content", ⟨none, (.unquotedString c!"test")⟩⟩), (.element ⟨c!"other", ⟨none, (.literalString [c!"8", c!"10"] .clip)⟩⟩)])⟩⟩)])⟩)])⟩⟩)]))]⟩

#guard fmt (parse block_scalars_deeper_inp) == some "---\nparts:\n  - type: gapfill\n    marks: 0\n    prompt:\n      content: test\n      other: |\n        8\n        10"

/-- Input of the test `commas_in_unquoted_string`. -/
def commas_in_unquoted_string_inp : String :=
  "---\ninline_array: [test, 5, hi]\ns: &key test, 5, hi\n"

#guard parse commas_in_unquoted_string_inp == .ok ⟨[], [(.yaml (.hash [(.element ⟨c!"inline_array", ⟨none, (.inlineArray [(.unquotedString c!"test"), (.unquotedString c!"5"), (.unquotedString c!"hi")])⟩⟩), (.element ⟨c!"s", ⟨(some c!"key"), (.unquotedString (c!"test, 5, hi"))⟩⟩)]))]⟩

#guard fmt (parse commas_in_unquoted_string_inp) == some "---\ninline_array: [ test, 5, hi ]\ns: &key test, 5, hi"

/-- Input of the test `alternative_hash_comment_between_first_and_second`. -/
def alternative_hash_comment_between_first_and_second_inp : String :=
  "---\nparts:\n- type: choose_one\n  # prompt: \"file:statement-wrong.html\"\n  answer_data: tmp \n  "

#guard parse alternative_hash_comment_between_first_and_second_inp == .ok ⟨[], [(.yaml (.hash [(.element ⟨c!"parts", ⟨none, (.array [(.element ⟨none, (.hash [(.element ⟨c!"type", ⟨none, (.unquotedString c!"choose_one")⟩⟩), (.comment (c!" prompt: \"file:statement-wrong.html\"")), (.element ⟨c!"answer_data", ⟨none, (.unquotedString c!"tmp")⟩⟩)])⟩)])⟩⟩)]))]⟩

#guard fmt (parse alternative_hash_comment_between_first_and_second_inp) == some "---\nparts:\n  - type: choose_one\n    # prompt: \"file:statement-wrong.html\"\n    answer_data: tmp"

/-- Input of the test `comment_before_first_key`. -/
def comment_before_first_key_inp : String :=
  "---\ndefault_value:\n    content: \n      # NOTE: the 'original' non-shuffled array advr is used, rather than x_advr !!!\n      # Better advice to be written ...? This one does not correctly extend to users of this template!!\n      nl: \"Gebruik het merkwaardig product {if(a*b>0, advr[0], advr[1])}\"\n      en: \"Use the special product {if(a*b>0, advr[0], advr[1])}\""

#guard parse comment_before_first_key_inp == .ok ⟨[], [(.yaml (.hash [(.element ⟨c!"default_value", ⟨none, (.hash [(.element ⟨c!"content", ⟨none, (.hash [(.comment (c!" NOTE: the 'original' non-shuffled array advr is used, rather than x_advr !!!")), (.comment (c!" Better advice to be written ...? This one does not correctly extend to users of this template!!")), (.element ⟨c!"nl", ⟨none, (.doubleQuotedString [(.string (c!"Gebruik het merkwaardig product {if(a*b>0, advr[0], advr[1])}"))])⟩⟩), (.element ⟨c!"en", ⟨none, (.doubleQuotedString [(.string (c!"Use the special product {if(a*b>0, advr[0], advr[1])}"))])⟩⟩)])⟩⟩)])⟩⟩)]))]⟩

#guard fmt (parse comment_before_first_key_inp) == some "---\ndefault_value:\n  content:\n    # NOTE: the 'original' non-shuffled array advr is used, rather than x_advr !!!\n    # Better advice to be written ...? This one does not correctly extend to users of this template!!\n    nl: \"Gebruik het merkwaardig product {if(a*b>0, advr[0], advr[1])}\"\n    en: \"Use the special product {if(a*b>0, advr[0], advr[1])}\""

/-- Input of the test `neg_number_in_list`. -/
def neg_number_in_list_inp : String :=
  "---\nvset_range:\n  - -10\n  - 10\nvset_range_points: 20\n"

#guard parse neg_number_in_list_inp == .ok ⟨[], [(.yaml (.hash [(.element ⟨c!"vset_range", ⟨none, (.array [(.element ⟨none, (.unquotedString c!"-10")⟩), (.element ⟨none, (.unquotedString c!"10")⟩)])⟩⟩), (.element ⟨c!"vset_range_points", ⟨none, (.unquotedString c!"20")⟩⟩)]))]⟩

#guard fmt (parse neg_number_in_list_inp) == some "---\nvset_range:\n  - -10\n  - 10\nvset_range_points: 20"

/-- Input of the test `pretty_long_double_quoted_string`. -/
def pretty_long_double_quoted_string_inp : String :=
  "---\ndefault_value: \"import math\\ndef schuine_zijde(a,b):\\n  pytha = math.sqrt(a**2+b**2)\\n  return pytha\\nprint(schuine_zijde(6,7))\"   \n"

#guard parse pretty_long_double_quoted_string_inp == .ok ⟨[], [(.yaml (.hash [(.element ⟨c!"default_value", ⟨none, (.doubleQuotedString [(.string (c!"import math")), (.escapedChar .newline), (.string (c!"def schuine_zijde(a,b):")), (.escapedChar .newline), (.string (c!"  pytha = math.sqrt(a**2+b**2)")), (.escapedChar .newline), (.string (c!"  return pytha")), (.escapedChar .newline), (.string c!"print(schuine_zijde(6,7))")])⟩⟩)]))]⟩

#guard fmtPretty (parse pretty_long_double_quoted_string_inp) == some "---\ndefault_value: |-\n  import math\n  def schuine_zijde(a,b):\n    pytha = math.sqrt(a**2+b**2)\n    return pytha\n  print(schuine_zijde(6,7))"

/-- Input of the test `pretty_long_double_quoted_string_deeper_level`. -/
def pretty_long_double_quoted_string_deeper_level_inp : String :=
  "---\nsubmission_id: 0195d1a3-9c41-7203-aad8-29603034fd9c\ndatetime_rfc3339: \"2025-03-26T09:48:35.393+01:00\"\ntype_with_data:\n  Programming:\n    content:\n      code: \"import math\\ndef schuine_zijde(a,b):\\n  c = math.sqrt(a.a + b.b)\\n  return c\""

#guard parse pretty_long_double_quoted_string_deeper_level_inp == .ok ⟨[], [(.yaml (.hash [(.element ⟨c!"submission_id", ⟨none, (.unquotedString c!"0195d1a3-9c41-7203-aad8-29603034fd9c")⟩⟩), (.element ⟨c!"datetime_rfc3339", ⟨none, (.doubleQuotedString [(.string c!"2025-03-26T09:48:35.393+01:00")])⟩⟩), (.element ⟨c!"type_with_data", ⟨none, (.hash [(.element ⟨c!"Programming", ⟨none, (.hash [(.element ⟨c!"content", ⟨none, (.hash [(.element ⟨c!"code", ⟨none, (.doubleQuotedString [(.string (c!"import math")), (.escapedChar .newline), (.string (c!"def schuine_zijde(a,b):")), (.escapedChar .newline), (.string (c!"  c = math.sqrt(a.a + b.b)")), (.escapedChar .newline), (.string (c!"  return c"))])⟩⟩)])⟩⟩)])⟩⟩)])⟩⟩)]))]⟩

#guard fmtPretty (parse pretty_long_double_quoted_string_deeper_level_inp) == some "---\nsubmission_id: 0195d1a3-9c41-7203-aad8-29603034fd9c\ndatetime_rfc3339: \"2025-03-26T09:48:35.393+01:00\"\ntype_with_data:\n  Programming:\n    content:\n      code: |-\n        import math\n        def schuine_zijde(a,b):\n          c = math.sqrt(a.a + b.b)\n          return c"

/-- Run an edit on a parsed text and compare count and resulting document. -/
def editIs (inp path : String) (edit : YamlPath → Document → Nat × Document) (n : Nat)
    (out : String) : Bool :=
  match parse inp, parseP path, parse out with
  | .ok d, .ok p, .ok o => edit p d == (n, o)
  | _, _, _ => false

def editOutIs (inp path : String) (edit : YamlPath → Document → Out Nat × Document) (n : Nat)
    (out : String) : Bool :=
  match parse inp, parseP path, parse out with
  | .ok d, .ok p, .ok o => edit p d == (.ok n, o)
  | _, _, _ => false

#guard editIs "---\ninline_array: [test, 5, hi]\ns: &key test, 5, hi\nitem:\n key: value\n" "new" (fun p d => d.insertIntoHash p ⟨none, .unquotedString c!"value"⟩ false) 1 "---\ninline_array: [test, 5, hi]\ns: &key test, 5, hi\nitem:\n key: value\nnew: value\n"

#guard editIs "---\ninline_array: [test, 5, hi]\ns: &key test, 5, hi\nitem:\n key: value\n" "item.key2" (fun p d => d.insertIntoHash p ⟨none, .doubleQuotedString [.string c!"test"]⟩ false) 1 "---\ninline_array: [test, 5, hi]\ns: &key test, 5, hi\nitem:\n key: value\n key2: \"test\"\n"

#guard editIs "---\ninline_array: [test, 5, hi]\ns: &key test, 5, hi\nitem:\n key: value\n key2: \"test\"\n" "item.key2" (fun p d => d.insertIntoHash p ⟨none, .doubleQuotedString [.string c!"test2"]⟩ false) 0 "---\ninline_array: [test, 5, hi]\ns: &key test, 5, hi\nitem:\n key: value\n key2: \"test\"\n"

#guard editIs "---\ninline_array: [test, 5, hi]\ns: &key test, 5, hi\nitem:\n key: value\n key2: \"test\"\n" "item.key2" (fun p d => d.insertIntoHash p ⟨none, .doubleQuotedString [.string c!"test2"]⟩ true) 1 "---\ninline_array: [test, 5, hi]\ns: &key test, 5, hi\nitem:\n key: value\n key2: \"test2\"\n"

#guard editIs "---\ninline_array: [test, 5, hi]\ns: &key test, 5, hi\nitem:\n key: value\n" "item.key" (fun p d => d.renameField p c!"newkey") 1 "---\ninline_array: [test, 5, hi]\ns: &key test, 5, hi\nitem:\n newkey: value\n"

#guard editIs "---\nparts:\n  - type: gapfill\n    gaps:\n      - type: jme\n        old_name: value\n      - type: jme\n        old_name: value\n  - type: random \n    gaps:\n      - type: jme\n        old_name: value\n      - type: jme\n        old_name: value\n  - type: gapfill\n    gaps:\n      - type: jme\n        old_name: value\n      - type: jme\n        old_name: value\n" "parts[*]|type=gapfill.gaps[*].old_name" (fun p d => d.renameField p c!"new_name") 4 "---\nparts:\n  - type: gapfill\n    gaps:\n      - type: jme\n        new_name: value\n      - type: jme\n        new_name: value\n  - type: random \n    gaps:\n      - type: jme\n        old_name: value\n      - type: jme\n        old_name: value\n  - type: gapfill\n    gaps:\n      - type: jme\n        new_name: value\n      - type: jme\n        new_name: value\n"

#guard editIs "---\ninline_array: [test, 5, hi]\ns: &key test, 5, hi\nitem:\n key: value\n" "item.key" (fun p d => d.toObject p c!"subkey") 1 "---\ninline_array: [test, 5, hi]\ns: &key test, 5, hi\nitem:\n key: \n   subkey: value\n"

#guard editIs "---\ninline_array: [test, 5, hi]\ns: &key test, 5, hi\nitem:\n key: value\n" "item.key|key=value" (fun p d => d.toObject p c!"subkey") 1 "---\ninline_array: [test, 5, hi]\ns: &key test, 5, hi\nitem:\n key: \n   subkey: value\n"

#guard editIs "---\ninline_array: [test, 5, hi]\ns: &key test, 5, hi\nitem:\n key: value\n" "item.key|key=other" (fun p d => d.toObject p c!"subkey") 0 "---\ninline_array: [test, 5, hi]\ns: &key test, 5, hi\nitem:\n key: value\n"

#guard editIs "---\ninline_array: [test, 5, hi]\ns: &key test, 5, hi\nitem:\n key: value\n" "item" (fun p d => d.removeFromHash p) 1 "---\ninline_array: [test, 5, hi]\ns: &key test, 5, hi\n"

#guard editIs "---\ninline_array: [test, 5, hi]\ns: &key test, 5, hi\nitem:\n key:\n  item: 5\n  item2: 6\n" "item.key.item" (fun p d => d.removeFromHash p) 1 "---\ninline_array: [test, 5, hi]\ns: &key test, 5, hi\nitem:\n  key:\n    item2: 6\n"

#guard editIs "---\ntype: test\ninline_array: [test, 5, hi]\ns: &key test, 5, hi\nitem:\n key:\n  item: 5\n  item2: 6\n" "item|type=test.key.item" (fun p d => d.removeFromHash p) 1 "---\ntype: test\ninline_array: [test, 5, hi]\ns: &key test, 5, hi\nitem:\n  key:\n    item2: 6\n"

#guard editIs "---\ntype: test\ninline_array: [test, 5, hi]\ns: &key test, 5, hi\nitem:\n key:\n  item: 5\n  item2: 6\n" "item|type=other.key.item" (fun p d => d.removeFromHash p) 0 "---\ntype: test\ninline_array: [test, 5, hi]\ns: &key test, 5, hi\nitem:\n key:\n  item: 5\n  item2: 6\n"

#guard editOutIs "---\na: vala\nb: valb\nc: valc\nd: vald\ne: vale\n" "" (fun p d => d.moveToSubfield p c!"sub" [c!"e", c!"b", c!"d"]) 1 "---\na: vala\nc: valc\nsub:\n    e: vale\n    b: valb\n    d: vald\n"

#guard editOutIs "---\nk:\n  a: vala\n  b: valb\n  c: valc\n  d: vald\n  e: vale\n" "k" (fun p d => d.moveToSubfield p c!"sub" [c!"e", c!"b", c!"d"]) 1 "---\nk:\n  a: vala\n  c: valc\n  sub:\n    e: vale\n    b: valb\n    d: vald\n"

#guard editOutIs "---\nk:\n  a: vala\n  b: valb\n  c: valc\n  d: vald\n  e: vale\n  l:\n    z: valz\n" "k" (fun p d => d.moveToSubfield p c!"l" [c!"e", c!"b", c!"d", c!"kk"]) 1 "---\nk:\n  a: vala\n  c: valc\n  l:\n    z: valz\n    e: vale\n    b: valb\n    d: vald\n"

#guard editOutIs "---\nk:\n  - item1: test0\n    result:\n      yes: three\n  - item1: test1\n" "k[*]" (fun p d => d.moveToSubfield p c!"result" [c!"item1"]) 2 "---\nk:\n  - result:\n      yes: three\n      item1: test0\n  - result:\n      item1: test1\n"

#guard editOutIs "---\nk:\n  - item1: test0\n    result:\n      yes: three\n  - item1: test1\n" "k[0]" (fun p d => d.moveToSubfield p c!"result" [c!"item1"]) 1 "---\nk:\n  - result:\n      yes: three\n      item1: test0\n  - item1: test1\n"

#guard editOutIs "---\nk:\n  - item1: test0\n    result:\n      yes: three\n  - item1: test1\n" "k[*]|item1=test1" (fun p d => d.moveToSubfield p c!"result" [c!"item1"]) 1 "---\nk:\n  - item1: test0\n    result:\n      yes: three      \n  - result:\n      item1: test1\n"

#guard editOutIs "---\nk:\n    - item1: \n        variables:\n            # this specifies the test\n            test: value\n            ke:\n              # comments\n              definition: result\n              group: keep\n            # this one will be moved\n            other:\n              definition: result\n              group: different\n            k: \n              definition: value\n              group: \"\"\n            main:\n              definiton: field\n              group: other\n            other2:\n              definition: result2\n              group: different\n    - item2:\n        variables:\n            # this specifies the test\n            test: value\n        grouped_variables: anything\n" "k[*].item1" (fun p d => d.moveToMap p c!"variables" c!"group" c!"grouped_variables" [c!"keep"]) 1 "---\nk:\n- item1: \n        variables:\n            # this specifies the test\n            test: value\n            ke:\n              # comments\n              definition: result\n            k: \n              definition: value\n        grouped_variables:\n            different:\n                # this one will be moved\n                other:\n                    definition: result\n                other2:\n                    definition: result2\n            other:\n                main:\n                    definiton: field\n- item2:\n    variables:\n        # this specifies the test\n        test: value\n    grouped_variables: anything\n"

#guard (match parse "---\nk:\n  - item1: test0\n    result:\n      yes: three\n  - item1: test1\n", parseP "k[*].item1" with
  | .ok d, .ok p => (d.findValues p).1 == [Yaml.unquotedString c!"test0", Yaml.unquotedString c!"test1"]
  | _, _ => false)

#guard fmtPretty (parse "---\nk: 'hello world'\n") == some "---\nk: hello world"

#guard fmtPretty (parse "---\nk: 'a, b'\n") == some "---\nk: 'a, b'"

#guard parseP "" == .ok (.root [])
#guard parseP "item" == .ok (.key c!"item" [] none)
#guard parseP "item.item2" == .ok (.key c!"item" [] (some (.key c!"item2" [] none)))
#guard parseP "item.item2.item3" ==
  .ok (.key c!"item" [] (some (.key c!"item2" [] (some (.key c!"item3" [] none)))))
#guard parseP "item|field=test.item2" ==
  .ok (.key c!"item" [⟨c!"field", c!"test"⟩] (some (.key c!"item2" [] none)))
#guard parseP "item|field=test|other=something.item2|yeah=oh" ==
  .ok (.key c!"item" [⟨c!"field", c!"test"⟩, ⟨c!"other", c!"something"⟩]
    (some (.key c!"item2" [⟨c!"yeah", c!"oh"⟩] none)))
#guard parseP "item[*]|field=test|other=something.item2|yeah=oh" ==
  .ok (.key c!"item" [] (some (.allIndexes [⟨c!"field", c!"test"⟩, ⟨c!"other", c!"something"⟩]
    (some (.key c!"item2" [⟨c!"yeah", c!"oh"⟩] none)))))
#guard (match parseP "parts[*].gaps|type=gapfill[*]", parseP "minimum_marks" with
  | .ok a, .ok b => Out.ok (a.insert b) == parseP "parts[*].gaps|type=gapfill[*].minimum_marks"
  | _, _ => false)
#guard (match parseP "parts[*]|type=gapfill.gaps[*]", parseP "minimum_marks" with
  | .ok a, .ok b => Out.ok (a.insert b) == parseP "parts[*]|type=gapfill.gaps[*].minimum_marks"
  | _, _ => false)

-- `src/yaml/string.rs`, test `create_folded`
#guard createFolded "Several lines of text, with some \"quotes\" of various 'types', and also a blank line:\nand some text with\n  extra indentation\non the next line, plus another line at the end.\n".toList 40
  == ["Several lines of text, with some", "\"quotes\" of various 'types', and also a", "blank line:", "",
      "and some text with", "", "  extra indentation", "", "on the next line, plus another line at", "the end."].map String.toList


end YamlSubset.Tests
