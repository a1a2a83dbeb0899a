import Verif.Model.Consume

/-! # Where a parse error is reported

`YamlError::location` (src/yaml/parser.rs:27-34) returns the line and the column pest stored in the error. pest keeps the last
position at which it tried a rule that did not apply (`attempt_pos` in pest's `ParserState::track`, called from
`ParserState::rule`), and reports this position when parsing fails. pest also keeps the names of these rules, for the message of
the error; they are not modelled. -/

namespace YamlSubset.Peg

/-- Inside a lookahead, pest's `Lookahead`: the run of `YamlParser::parse` at src/yaml/parser.rs:540. -/
inductive Look where
  | none | positive | negative
  deriving DecidableEq

/-- `&e` inside a lookahead: the run of `YamlParser::parse` at src/yaml/parser.rs:540. -/
def Look.and : Look → Look
  | .negative => .negative
  | _ => .positive

/-- `!e` inside a lookahead: the run of `YamlParser::parse` at src/yaml/parser.rs:540. -/
def Look.not : Look → Look
  | .negative => .positive
  | _ => .negative

/-- A rule counts if it fails, and inside a negative lookahead if it matches: the run of `YamlParser::parse` at src/yaml/parser.rs:540. -/
def counts {R : Type} (look : Look) : Res R → Bool
  | .fail => look != .negative
  | .ok _ _ _ => look == .negative
  | _ => false

/-- The last position at which a rule was tried that counts, 0 if there is none. `total` is the length of the whole text, so the
position is `total` minus what is left. Silent rules (`_{}`) are not tracked, and nothing is tracked inside atomic rules (`@{}`):
the run of `YamlParser::parse` at src/yaml/parser.rs:540. -/
def attempted {R : Type} (g : Grammar R) (total : Nat) : Nat → Look → Bool → Expr R → Str → List Str → Nat
  | 0, _, _, _, _, _ => 0
  | n + 1, look, atomic, e, inp, stk =>
    match e with
    | .eoi _ => if !atomic && counts look (eval g (n + 1) e inp stk) then total - inp.length else 0
    | .rule r =>
      match g.kind r with
      | .silent => attempted g total n look atomic (g.body r) inp stk
      | k =>
        max (attempted g total n look (atomic || k == .atomic) (g.body r) inp stk)
          (if !atomic && counts look (eval g n (g.body r) inp stk) then total - inp.length else 0)
    | .seq a b =>
      max (attempted g total n look atomic a inp stk) (match eval g n a inp stk with
        | .ok _ rest stk' => attempted g total n look atomic b rest stk'
        | _ => 0)
    | .alt a b =>
      max (attempted g total n look atomic a inp stk) (match eval g n a inp stk with
        | .fail => attempted g total n look atomic b inp stk
        | _ => 0)
    | .opt a => attempted g total n look atomic a inp stk
    | .star a =>
      max (attempted g total n look atomic a inp stk) (match eval g n a inp stk with
        | .ok _ rest stk' => attempted g total n look atomic (.star a) rest stk'
        | _ => 0)
    | .and a => attempted g total n look.and atomic a inp stk
    | .not a => attempted g total n look.not atomic a inp stk
    | .push a => attempted g total n look atomic a inp stk
    | _ => 0

end YamlSubset.Peg

namespace YamlSubset

open Peg

/-- Line and column of the end of a text, both from 1: pest's `Position::line_col`. A `\r\n` and a `\n` end a line, a `\r` does not:
read at src/yaml/parser.rs:28-33. -/
def lineColFrom (line col : Nat) : Str → Nat × Nat
  | [] => (line, col)
  | '\r' :: '\n' :: s => lineColFrom (line + 1) 1 s
  | '\n' :: s => lineColFrom (line + 1) 1 s
  | _ :: s => lineColFrom line (col + 1) s

/-- The number of characters before the position of the error. pest counts bytes; it reports lines and columns in characters:
src/yaml/parser.rs:538-545. -/
def errorOffset (T : CharTables) (input : Str) : Nat :=
  attempted (yamlGrammar T) input.length (yamlFuel input) .none false (.rule .yaml) input []

/-- `parse_yaml_file(input).unwrap_err().location()`, src/yaml/parser.rs:27-34 and 538-545; nothing if there is no error. -/
def errorLocation (T : CharTables) (input : Str) : Option (Nat × Nat) :=
  match parseYamlFile T input with
  | .err => some (lineColFrom 1 1 (input.take (errorOffset T input)))
  | _ => none

end YamlSubset
