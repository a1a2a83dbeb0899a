import Verif.Model.Grammar
import Verif.Model.Outcome
import Verif.Model.Strings
import Verif.Model.Numbers

/-! # From parse trees to documents (`src/yaml/parser.rs`)

Each consumer function of `parser.rs` is a function from the text of the node and the
list of its children, given as (rule, outcome of consuming the child). `match_nodes!`
selects an arm by the rules of the children and then consumes the children from left
to right; a list of children that fits no arm is `unmatched`. -/

namespace YamlSubset

open Peg

/-- The results of the consumer functions (their Rust types differ; this is the union): the result types in src/yaml/parser.rs:46-536. -/
inductive Val where
  | unit
  | str (s : Str)
  | nat (n : Nat)
  | optNat (n : Option Nat)
  | strs (l : List Str)
  | dqEsc (c : DQEscapedChar)
  | dqPart (p : DQPart)
  | dqParts (ps : List DQPart)
  | sqEsc (c : SQEscapedChar)
  | sqPart (p : SQPart)
  | sqParts (ps : List SQPart)
  | chomping (c : BlockChomping)
  | yaml (y : Yaml)
  | entry (k : Str) (y : Yaml)
  | aliased (a : AliasedYaml)
  | hashElement (e : HashElement)
  | hashData (ds : List HashData)
  | arrayDatum (d : ArrayData)
  | arrayData (ds : List ArrayData)
  | doc (d : Document)

namespace Val
/-- Projections; a wrong alternative cannot occur in the typed Rust code:
the children bound by the arms of `match_nodes!`, src/yaml/parser.rs:46-536. -/
def asStr : Val → Out Str | .str s => .ok s | _ => .unmatched
/-- The children bound by the arms of `match_nodes!`, src/yaml/parser.rs:46-536. -/
def asNat : Val → Out Nat | .nat n => .ok n | _ => .unmatched
/-- The children bound by the arms of `match_nodes!`, src/yaml/parser.rs:46-536. -/
def asOptNat : Val → Out (Option Nat) | .optNat n => .ok n | _ => .unmatched
/-- The children bound by the arms of `match_nodes!`, src/yaml/parser.rs:46-536. -/
def asStrs : Val → Out (List Str) | .strs l => .ok l | _ => .unmatched
/-- The children bound by the arms of `match_nodes!`, src/yaml/parser.rs:46-536. -/
def asDqEsc : Val → Out DQEscapedChar | .dqEsc c => .ok c | _ => .unmatched
/-- The children bound by the arms of `match_nodes!`, src/yaml/parser.rs:46-536. -/
def asDqPart : Val → Out DQPart | .dqPart c => .ok c | _ => .unmatched
/-- The children bound by the arms of `match_nodes!`, src/yaml/parser.rs:46-536. -/
def asDqParts : Val → Out (List DQPart) | .dqParts c => .ok c | _ => .unmatched
/-- The children bound by the arms of `match_nodes!`, src/yaml/parser.rs:46-536. -/
def asSqEsc : Val → Out SQEscapedChar | .sqEsc c => .ok c | _ => .unmatched
/-- The children bound by the arms of `match_nodes!`, src/yaml/parser.rs:46-536. -/
def asSqPart : Val → Out SQPart | .sqPart c => .ok c | _ => .unmatched
/-- The children bound by the arms of `match_nodes!`, src/yaml/parser.rs:46-536. -/
def asSqParts : Val → Out (List SQPart) | .sqParts c => .ok c | _ => .unmatched
/-- The children bound by the arms of `match_nodes!`, src/yaml/parser.rs:46-536. -/
def asChomping : Val → Out BlockChomping | .chomping c => .ok c | _ => .unmatched
/-- The children bound by the arms of `match_nodes!`, src/yaml/parser.rs:46-536. -/
def asYaml : Val → Out Yaml | .yaml y => .ok y | _ => .unmatched
/-- The children bound by the arms of `match_nodes!`, src/yaml/parser.rs:46-536. -/
def asEntry : Val → Out (Str × Yaml) | .entry k y => .ok (k, y) | _ => .unmatched
/-- The children bound by the arms of `match_nodes!`, src/yaml/parser.rs:46-536. -/
def asAliased : Val → Out AliasedYaml | .aliased a => .ok a | _ => .unmatched
/-- The children bound by the arms of `match_nodes!`, src/yaml/parser.rs:46-536. -/
def asHashElement : Val → Out HashElement | .hashElement a => .ok a | _ => .unmatched
/-- The children bound by the arms of `match_nodes!`, src/yaml/parser.rs:46-536. -/
def asHashData : Val → Out (List HashData) | .hashData a => .ok a | _ => .unmatched
/-- The children bound by the arms of `match_nodes!`, src/yaml/parser.rs:46-536. -/
def asArrayDatum : Val → Out ArrayData | .arrayDatum a => .ok a | _ => .unmatched
/-- The children bound by the arms of `match_nodes!`, src/yaml/parser.rs:46-536. -/
def asArrayData : Val → Out (List ArrayData) | .arrayData a => .ok a | _ => .unmatched
/-- The children bound by the arms of `match_nodes!`, src/yaml/parser.rs:46-536. -/
def asDoc : Val → Out Document | .doc a => .ok a | _ => .unmatched
end Val

/-- Children of a node: rule and outcome of its consumer function: `input.into_children()` in src/yaml/parser.rs:44-536. -/
abbrev Kids := List (Rule × Out Val)

/-- The pattern `r(x)..` at the end of an arm: all remaining children are `r` nodes: for example src/yaml/parser.rs:150. -/
def many {α : Type} (r : Rule) (as : Val → Out α) : Kids → Out (List α)
  | [] => .ok []
  | (r', v) :: t =>
    if r' = r then v.bind fun v => (as v).bind fun a => (many r as t).bind fun l => .ok (a :: l)
    else .unmatched

/-- The pattern `r(x).., last(y)` at the end of an arm: src/yaml/parser.rs:527. -/
def manyThen {α β : Type} (r : Rule) (as : Val → Out α) (last : Rule) (asLast : Val → Out β) :
    Kids → Out (List α × β)
  | [] => .unmatched
  | (r', v) :: t =>
    if r' = last ∧ t = [] then v.bind fun v => (asLast v).bind fun b => .ok ([], b)
    else if r' = r then
      v.bind fun v => (as v).bind fun a =>
        (manyThen r as last asLast t).bind fun p => .ok (a :: p.1, p.2)
    else .unmatched

/-- Rust `str::lines().count()`: used at src/yaml/parser.rs:136. -/
def linesCount (s : Str) : Nat :=
  s.count '\n' + (if s.isEmpty || endsWithChar s '\n' then 0 else 1)

/-- Rust `&s[n..]` for a byte offset; `none` is a panic (out of range or not a
character boundary): used at src/yaml/parser.rs:564. -/
def sliceFrom : Nat → Str → Option Str
  | 0, s => some s
  | _ + 1, [] => none
  | n + 1, c :: t => if c.utf8Size ≤ n + 1 then sliceFrom (n + 1 - c.utf8Size) t else none

/-- `count_whitespace_bytes_at_start`, src/yaml/parser.rs:547-553. -/
def countWhitespaceBytesAtStart (s : Str) : Nat :=
  byteLen (s.takeWhile (fun ch => isWhitespace ch && ch != '\n'))

/-- `clean_multiline_strings`, src/yaml/parser.rs:555-568. -/
def cleanMultilineStrings (ind : Option Nat) (lines : List Str) : Out (List Str) :=
  (match ind, lines with
   | some n, _ => .ok n
   | none, l :: _ => .ok (countWhitespaceBytesAtStart l)
   | none, [] => .panic : Out Nat).bind fun n =>
  Out.all (lines.map fun x => if x.isEmpty then .ok x else Out.unwrapOpt (sliceFrom n x))

namespace Consume

/-- `comment`, src/yaml/parser.rs:55-59; `commentnl`, 61-65; `alias`, 67-71. -/
def oneStr (child : Rule) : Kids → Out Val
  | [(r, v)] => if r = child then v.bind fun v => v.asStr.bind fun s => .ok (.str s) else .unmatched
  | _ => .unmatched

/-- `anchor`, src/yaml/parser.rs:77-81. -/
def anchor : Kids → Out Val
  | [(.alias_name, v)] => v.bind fun v => v.asStr.bind fun s => .ok (.yaml (.anchor s))
  | _ => .unmatched

/-- `inline_hash_element`, src/yaml/parser.rs:83-89. -/
def inlineHashElement : Kids → Out Val
  | [(.hash_key, k), (.inline_array_value, v)] =>
    k.bind fun k => k.asStr.bind fun k => v.bind fun v => v.asYaml.bind fun v =>
      .ok (.entry k v)
  | _ => .unmatched

/-- `inline_hash`, src/yaml/parser.rs:91-99. -/
def inlineHash (kids : Kids) : Out Val :=
  (many .inline_hash_element Val.asEntry kids).bind fun es => .ok (.yaml (.inlineHash es))

/-- `unquoted_string`, src/yaml/parser.rs:101-105; `unquoted_inline_string`, 107-111. -/
def unquoted (text : Str) : Out Val := .ok (.yaml (.unquotedString (trimEndMatches text ' ')))

/-- `escaped_double_quote_char_value`, src/yaml/parser.rs:113-125. -/
def escapedDoubleQuoteCharValue (text : Str) : Out Val :=
  match text with
  | [] => .panic
  | c :: _ =>
    if c = 'n' then .ok (.dqEsc .newline)
    else if c = '\n' then .ok (.dqEsc .realNewline)
    else if c = 'r' then .ok (.dqEsc .carriageReturn)
    else if c = 't' then .ok (.dqEsc .tab)
    else if c = '\\' then .ok (.dqEsc .backslash)
    else if c = '"' then .ok (.dqEsc .quote)
    else .panic

/-- `blank_lines`, src/yaml/parser.rs:135-137 (`usize` underflow panics). -/
def blankLines (text : Str) : Out Val :=
  if linesCount text = 0 then .panic else .ok (.nat (linesCount text - 1))

/-- `double_quote_without_escape`, src/yaml/parser.rs:139-146. -/
def doubleQuoteWithoutEscape : Kids → Out Val
  | [(.escaped_double_quote_char_value, v)] =>
    v.bind fun v => v.asDqEsc.bind fun c => .ok (.dqPart (.escapedChar c))
  | [(.double_quote_text, v)] =>
    v.bind fun v => v.asStr.bind fun s => .ok (.dqPart (.string s))
  | [(.blank_lines, v)] =>
    v.bind fun v => v.asNat.bind fun n => .ok (.dqPart (.blankLines n))
  | [(.removable_newline, v)] =>
    v.bind fun _ => .ok (.dqPart .removableNewline)
  | _ => .unmatched

/-- `double_quote_content`, src/yaml/parser.rs:148-152. -/
def doubleQuoteContent (kids : Kids) : Out Val :=
  (many .double_quote_without_escape Val.asDqPart kids).bind fun ps => .ok (.dqParts ps)

/-- `double_quoted_string`, src/yaml/parser.rs:154-158. -/
def doubleQuotedString : Kids → Out Val
  | [(.double_quote_content, v)] =>
    v.bind fun v => v.asDqParts.bind fun ps => .ok (.yaml (.doubleQuotedString ps))
  | _ => .unmatched

/-- `single_quote`, src/yaml/parser.rs:160-165. -/
def singleQuote (text : Str) : Out Val :=
  match text with
  | [] => .panic
  | c :: _ => if c = '\'' then .ok (.sqEsc .singleQuote) else .panic

/-- `escaped_single_quote_char`, src/yaml/parser.rs:171-178. -/
def escapedSingleQuoteChar : Kids → Out Val
  | [(.single_quote, v)] =>
    v.bind fun v => v.asSqEsc.bind fun c => .ok (.sqPart (.escapedChar c))
  | [(.single_quote_text, v)] =>
    v.bind fun v => v.asStr.bind fun s => .ok (.sqPart (.string s))
  | [(.blank_lines, v)] =>
    v.bind fun v => v.asNat.bind fun n => .ok (.sqPart (.blankLines n))
  | [(.removable_newline, v)] =>
    v.bind fun _ => .ok (.sqPart .removableNewline)
  | _ => .unmatched

/-- `single_quote_content`, src/yaml/parser.rs:180-184. -/
def singleQuoteContent (kids : Kids) : Out Val :=
  (many .escaped_single_quote_char Val.asSqPart kids).bind fun ps => .ok (.sqParts ps)

/-- `single_quoted_string`, src/yaml/parser.rs:186-190. -/
def singleQuotedString : Kids → Out Val
  | [(.single_quote_content, v)] =>
    v.bind fun v => v.asSqParts.bind fun ps => .ok (.yaml (.singleQuotedString ps))
  | _ => .unmatched

/-- A consumer that passes the `Yaml` of its only child through, for the given child rules:
`inline_array_string` (192-197), `inline_array_value` (199-205), `string` (217-222),
`inline_value` (224-230), `yaml_value` (304-311), `array` (463-468), `document` (518-522)
of src/yaml/parser.rs. -/
def passYaml (children : List Rule) : Kids → Out Val
  | [(r, v)] =>
    if children.contains r then v.bind fun v => v.asYaml.bind fun y => .ok (.yaml y)
    else .unmatched
  | _ => .unmatched

/-- `inline_array`, src/yaml/parser.rs:207-215. -/
def inlineArray (kids : Kids) : Out Val :=
  (many .inline_array_value Val.asYaml kids).bind fun es => .ok (.yaml (.inlineArray es))

/-- `block_empty_lines`, src/yaml/parser.rs:236-241. -/
def blockEmptyLines (text : Str) : Out Val := .ok (.strs (List.replicate (byteLen text) []))

/-- `string_block_chomping`, src/yaml/parser.rs:243-249. -/
def stringBlockChomping (text : Str) : Out Val :=
  if text = ['+'] then .ok (.chomping .keep)
  else if text = ['-'] then .ok (.chomping .strip)
  else .panic

/-- `string_multiline_indent`, src/yaml/parser.rs:251-258. `given - 1` on 0 is a panic (in
builds with overflow checks; without them it wraps and the slicing in
`clean_multiline_strings` panics instead as soon as one line is not empty). -/
def stringMultilineIndent (text : Str) : Out Val :=
  if text.isEmpty then .ok (.optNat none)
  else
    match parseU64 text with
    | none => .panic
    | some 0 => .panic
    | some (n + 1) => .ok (.optNat (some n))

/-- `string_multiline_content_part`, src/yaml/parser.rs:260-265. -/
def stringMultilineContentPart : Kids → Out Val
  | [(.block_empty_lines, es), (.block_string, b)] =>
    es.bind fun es => es.asStrs.bind fun es => b.bind fun b => b.asStr.bind fun b =>
      .ok (.strs (es ++ [b]))
  | _ => .unmatched

/-- `string_multiline_trailing`, src/yaml/parser.rs:267-269. -/
def stringMultilineTrailing (text : Str) : Out Val :=
  .ok (.strs (List.replicate (text.count '\n') []))

/-- `string_multiline_content`, src/yaml/parser.rs:271-280. -/
def stringMultilineContent : Kids → Out Val
  | (.block_empty_lines, es) :: (.block_string, b) :: rest =>
    es.bind fun es => es.asStrs.bind fun es => b.bind fun b => b.asStr.bind fun b =>
      (manyThen .string_multiline_content_part Val.asStrs .string_multiline_trailing Val.asStrs
        rest).bind fun p =>
      .ok (.strs (es ++ [b] ++ p.1.flatten ++ p.2))
  | _ => .unmatched

/-- `string_multiline_folded`, src/yaml/parser.rs:282-292, and `string_multiline_literal`,
294-302; `mk` is the constructor of the node. -/
def stringMultiline (mk : List Str → BlockChomping → Yaml) : Kids → Out Val
  | [(.string_multiline_indent, i), (.string_multiline_content, cs)] =>
    i.bind fun i => i.asOptNat.bind fun i => cs.bind fun cs => cs.asStrs.bind fun cs =>
      (cleanMultilineStrings i cs).bind fun ls => .ok (.yaml (mk ls .clip))
  | [(.string_block_chomping, c), (.string_multiline_indent, i),
      (.string_multiline_content, cs)] =>
    c.bind fun c => c.asChomping.bind fun c =>
    i.bind fun i => i.asOptNat.bind fun i => cs.bind fun cs => cs.asStrs.bind fun cs =>
      (cleanMultilineStrings i cs).bind fun ls => .ok (.yaml (mk ls c))
  | _ => .unmatched

/-- `aliased_yaml_value`, src/yaml/parser.rs:313-323. -/
def aliasedYamlValue : Kids → Out Val
  | [(.alias, a), (.yaml_value, v)] =>
    a.bind fun a => a.asStr.bind fun a => v.bind fun v => v.asYaml.bind fun v =>
      .ok (.aliased ⟨some a, v⟩)
  | [(.yaml_value, v)] =>
    v.bind fun v => v.asYaml.bind fun v => .ok (.aliased ⟨none, v⟩)
  | _ => .unmatched

/-- `block_array_aliased_yaml_value`, src/yaml/parser.rs:325-329. -/
def blockArrayAliasedYamlValue : Kids → Out Val
  | [(.alternative_aliased_yaml_value, v)] =>
    v.bind fun v => v.asAliased.bind fun v => .ok (.aliased v)
  | [(.aliased_yaml_value, v)] =>
    v.bind fun v => v.asAliased.bind fun v => .ok (.aliased v)
  | _ => .unmatched

/-- `alternative_aliased_yaml_value`, src/yaml/parser.rs:331-349. -/
def alternativeAliasedYamlValue : Kids → Out Val
  | [(.alias, a), (.alternative_hash, v)] =>
    a.bind fun a => a.asStr.bind fun a => v.bind fun v => v.asYaml.bind fun v =>
      .ok (.aliased ⟨some a, v⟩)
  | [(.alternative_hash, v)] =>
    v.bind fun v => v.asYaml.bind fun v => .ok (.aliased ⟨none, v⟩)
  | [(.alias, a), (.alternative_array, v)] =>
    a.bind fun a => a.asStr.bind fun a => v.bind fun v => v.asYaml.bind fun v =>
      .ok (.aliased ⟨some a, v⟩)
  | [(.alternative_array, v)] =>
    v.bind fun v => v.asYaml.bind fun v => .ok (.aliased ⟨none, v⟩)
  | _ => .unmatched

/-- `hash_element`, src/yaml/parser.rs:355-360. -/
def hashElement : Kids → Out Val
  | [(.hash_key, k), (.block_array_aliased_yaml_value, v)] =>
    k.bind fun k => k.asStr.bind fun k => v.bind fun v => v.asAliased.bind fun v =>
      .ok (.hashElement ⟨k, v⟩)
  | _ => .unmatched

/-- `first_hash_element`, src/yaml/parser.rs:362-370. -/
def firstHashElement : Kids → Out Val
  | [(.hash_element, e), (.comment, c)] =>
    e.bind fun e => e.asHashElement.bind fun e => c.bind fun c => c.asStr.bind fun c =>
      .ok (.hashData [.element e, .inlineComment c])
  | [(.hash_element, e)] =>
    e.bind fun e => e.asHashElement.bind fun e => .ok (.hashData [.element e])
  | _ => .unmatched

/-- `hash_element_data`, src/yaml/parser.rs:372-387. -/
def hashElementData : Kids → Out Val
  | [(.commentnls, cs), (.hash_element, e), (.comment, c)] =>
    cs.bind fun cs => cs.asStrs.bind fun cs =>
    e.bind fun e => e.asHashElement.bind fun e => c.bind fun c => c.asStr.bind fun c =>
      .ok (.hashData (cs.map .comment ++ [.element e, .inlineComment c]))
  | [(.commentnls, cs), (.hash_element, e)] =>
    cs.bind fun cs => cs.asStrs.bind fun cs =>
    e.bind fun e => e.asHashElement.bind fun e =>
      .ok (.hashData (cs.map .comment ++ [.element e]))
  | _ => .unmatched

/-- `hash`, src/yaml/parser.rs:389-402. -/
def hash : Kids → Out Val
  | (.commentnls, cs) :: (.first_hash_element, e1) :: rest =>
    cs.bind fun cs => cs.asStrs.bind fun cs => e1.bind fun e1 => e1.asHashData.bind fun e1 =>
      (manyThen .hash_element_data Val.asHashData .commentnls Val.asStrs rest).bind fun p =>
      .ok (.yaml (.hash (cs.map .comment ++ e1 ++ p.1.flatten ++ p.2.map .comment)))
  | _ => .unmatched

/-- `alternative_hash_continuation`, src/yaml/parser.rs:404-413. -/
def alternativeHashContinuation : Kids → Out Val
  | (.commentnls, cs) :: (.first_hash_element, e1) :: rest =>
    cs.bind fun cs => cs.asStrs.bind fun cs => e1.bind fun e1 => e1.asHashData.bind fun e1 =>
      (many .hash_element_data Val.asHashData rest).bind fun l =>
      .ok (.hashData (cs.map .comment ++ e1 ++ l.flatten))
  | _ => .unmatched

/-- `alternative_hash`, src/yaml/parser.rs:415-433. -/
def alternativeHash : Kids → Out Val
  | [(.first_hash_element, e1), (.alternative_hash_continuation, ct), (.commentnls, cs)] =>
    e1.bind fun e1 => e1.asHashData.bind fun e1 => ct.bind fun ct => ct.asHashData.bind fun ct =>
    cs.bind fun cs => cs.asStrs.bind fun cs =>
      .ok (.yaml (.hash (e1 ++ ct ++ cs.map .comment)))
  | [(.first_hash_element, e1), (.commentnls, cs)] =>
    e1.bind fun e1 => e1.asHashData.bind fun e1 => cs.bind fun cs => cs.asStrs.bind fun cs =>
      .ok (.yaml (.hash (e1 ++ cs.map .comment)))
  | _ => .unmatched

/-- `block_array_element`, src/yaml/parser.rs:435-439. -/
def blockArrayElement : Kids → Out Val
  | [(.block_array_aliased_yaml_value, v)] =>
    v.bind fun v => v.asAliased.bind fun v => .ok (.arrayDatum (.element v))
  | _ => .unmatched

/-- `first_block_array_element`, src/yaml/parser.rs:441-446. -/
def firstBlockArrayElement : Kids → Out Val
  | [(.block_array_element, e), (.comment, c)] =>
    e.bind fun e => e.asArrayDatum.bind fun e => c.bind fun c => c.asStr.bind fun c =>
      .ok (.arrayData [e, .inlineComment c])
  | [(.block_array_element, e)] =>
    e.bind fun e => e.asArrayDatum.bind fun e => .ok (.arrayData [e])
  | _ => .unmatched

/-- `block_array_data`, src/yaml/parser.rs:448-461. -/
def blockArrayData : Kids → Out Val
  | [(.commentnls, cs), (.block_array_element, e), (.comment, c)] =>
    cs.bind fun cs => cs.asStrs.bind fun cs =>
    e.bind fun e => e.asArrayDatum.bind fun e => c.bind fun c => c.asStr.bind fun c =>
      .ok (.arrayData (cs.map .comment ++ [e, .inlineComment c]))
  | [(.commentnls, cs), (.block_array_element, e)] =>
    cs.bind fun cs => cs.asStrs.bind fun cs =>
    e.bind fun e => e.asArrayDatum.bind fun e =>
      .ok (.arrayData (cs.map .comment ++ [e]))
  | _ => .unmatched

/-- `block_array`, src/yaml/parser.rs:470-481. -/
def blockArray : Kids → Out Val
  | (.commentnls, cs) :: (.first_block_array_element, e1) :: rest =>
    cs.bind fun cs => cs.asStrs.bind fun cs => e1.bind fun e1 => e1.asArrayData.bind fun e1 =>
      (manyThen .block_array_data Val.asArrayData .commentnls Val.asStrs rest).bind fun p =>
      .ok (.yaml (.array (cs.map .comment ++ e1 ++ p.1.flatten ++ p.2.map .comment)))
  | _ => .unmatched

/-- `alternative_array`, src/yaml/parser.rs:483-494. -/
def alternativeArray : Kids → Out Val
  | (.first_block_array_element, e1) :: (.first_block_array_element, e2) :: rest =>
    e1.bind fun e1 => e1.asArrayData.bind fun e1 => e2.bind fun e2 => e2.asArrayData.bind fun e2 =>
      (manyThen .block_array_data Val.asArrayData .commentnls Val.asStrs rest).bind fun p =>
      .ok (.yaml (.array (e1 ++ e2 ++ p.1.flatten ++ p.2.map .comment)))
  | _ => .unmatched

/-- `commentnls`, src/yaml/parser.rs:496-505; `leading_comments`, 507-516. -/
def commentnls (kids : Kids) : Out Val :=
  (many .commentnl Val.asStr kids).bind fun cs => .ok (.strs cs)

/-- `yaml`, src/yaml/parser.rs:524-535. -/
def yaml : Kids → Out Val
  | (.leading_comments, before) :: (.commentnls, cs) :: (.document, val) :: rest =>
    before.bind fun before => before.asStrs.bind fun before =>
    cs.bind fun cs => cs.asStrs.bind fun cs =>
    val.bind fun val => val.asYaml.bind fun val =>
      (manyThen .comment Val.asStr .EOI .ok rest).bind fun p =>
      .ok (.doc ⟨before, cs.map .comment ++ [.yaml val] ++ p.1.map .comment⟩)
  | _ => .unmatched

end Consume

/-- Dispatch to the consumer function of a rule. Rules without a consumer function never
occur as children in a `match_nodes!` arm: the functions of src/yaml/parser.rs:46-536. -/
def act (r : Rule) (text : Str) (kids : Kids) : Out Val :=
  match r with
  | .EOI => .ok .unit
  | .comment_text => .ok (.str text)
  | .comment => Consume.oneStr .comment_text kids
  | .commentnl => Consume.oneStr .comment_text kids
  | .alias => Consume.oneStr .alias_name kids
  | .alias_name => .ok (.str text)
  | .anchor => Consume.anchor kids
  | .inline_hash_element => Consume.inlineHashElement kids
  | .inline_hash => Consume.inlineHash kids
  | .unquoted_string => Consume.unquoted text
  | .unquoted_inline_string => Consume.unquoted text
  | .escaped_double_quote_char_value => Consume.escapedDoubleQuoteCharValue text
  | .double_quote_text => .ok (.str text)
  | .removable_newline => .ok .unit
  | .blank_lines => Consume.blankLines text
  | .double_quote_without_escape => Consume.doubleQuoteWithoutEscape kids
  | .double_quote_content => Consume.doubleQuoteContent kids
  | .double_quoted_string => Consume.doubleQuotedString kids
  | .single_quote => Consume.singleQuote text
  | .single_quote_text => .ok (.str text)
  | .escaped_single_quote_char => Consume.escapedSingleQuoteChar kids
  | .single_quote_content => Consume.singleQuoteContent kids
  | .single_quoted_string => Consume.singleQuotedString kids
  | .inline_array_string =>
    Consume.passYaml [.unquoted_inline_string, .double_quoted_string, .single_quoted_string] kids
  | .inline_array_value =>
    Consume.passYaml [.anchor, .inline_array, .inline_hash, .inline_array_string] kids
  | .inline_array => Consume.inlineArray kids
  | .string =>
    Consume.passYaml [.unquoted_string, .double_quoted_string, .single_quoted_string] kids
  | .inline_value => Consume.passYaml [.anchor, .inline_array, .inline_hash, .string] kids
  | .block_string => .ok (.str text)
  | .block_empty_lines => Consume.blockEmptyLines text
  | .string_block_chomping => Consume.stringBlockChomping text
  | .string_multiline_indent => Consume.stringMultilineIndent text
  | .string_multiline_content_part => Consume.stringMultilineContentPart kids
  | .string_multiline_trailing => Consume.stringMultilineTrailing text
  | .string_multiline_content => Consume.stringMultilineContent kids
  | .string_multiline_folded => Consume.stringMultiline .foldedString kids
  | .string_multiline_literal => Consume.stringMultiline .literalString kids
  | .yaml_value =>
    Consume.passYaml
      [.hash, .array, .string_multiline_literal, .string_multiline_folded, .inline_value] kids
  | .aliased_yaml_value => Consume.aliasedYamlValue kids
  | .block_array_aliased_yaml_value => Consume.blockArrayAliasedYamlValue kids
  | .alternative_aliased_yaml_value => Consume.alternativeAliasedYamlValue kids
  -- `hash_key`, src/yaml/parser.rs:351-353
  | .hash_key => .ok (.str (trimEnd text))
  | .hash_element => Consume.hashElement kids
  | .first_hash_element => Consume.firstHashElement kids
  | .hash_element_data => Consume.hashElementData kids
  | .hash => Consume.hash kids
  | .alternative_hash_continuation => Consume.alternativeHashContinuation kids
  | .alternative_hash => Consume.alternativeHash kids
  | .block_array_element => Consume.blockArrayElement kids
  | .first_block_array_element => Consume.firstBlockArrayElement kids
  | .block_array_data => Consume.blockArrayData kids
  | .array => Consume.passYaml [.inline_array, .block_array] kids
  | .block_array => Consume.blockArray kids
  | .alternative_array => Consume.alternativeArray kids
  | .commentnls => Consume.commentnls kids
  | .leading_comments => Consume.commentnls kids
  | .document => Consume.passYaml [.hash, .array] kids
  | .yaml => Consume.yaml kids
  | _ => .unmatched

mutual
/-- Consume a parse tree node: what pest_consume generates for src/yaml/parser.rs:44-536. -/
def sem : Tree Rule → Out Val
  | .node r text cs => act r text (semKids cs)
/-- Children with their outcomes: `into_children` in src/yaml/parser.rs:44-536. -/
def semKids : List (Tree Rule) → Kids
  | [] => []
  | .node r text cs :: ts => (r, sem (.node r text cs)) :: semKids ts
end

/-- Fuel for the evaluator; proved sufficient for every input in `Props/Termination.lean`:
no counterpart; it is there because the recursion of `YamlParser::parse`, src/yaml/parser.rs:540, is not structural. -/
def yamlFuel (input : Str) : Nat := 400 * (input.length + 1)

/-- Turn the result of the grammar into the result of the consumer: src/yaml/parser.rs:540-544, with `inputs.single()?`. -/
def finishYaml : Res Rule → Out Document
  | .ok [t] _ _ => (sem t).bind Val.asDoc
  | .ok _ _ _ => .err
  | .fail => .err
  | .panic => .panic
  | .oof => .oof

/-- `parse_yaml_file`, src/yaml/parser.rs:538-545. -/
def parseYamlFile (T : CharTables) (input : Str) : Out Document :=
  finishYaml (eval (yamlGrammar T) (yamlFuel input) (.rule .yaml) input [])

end YamlSubset
