import Verif.Model.Consume

/-! # How much work parsing is

pest runs the grammar without memoization: every expression that is tried is run again each time it is tried. `steps` counts
the expressions that are run by `eval` (`Model/Peg.lean`); the results that decide how the run goes on are those of `eval`. -/

namespace YamlSubset.Peg

/-- The number of expressions that are run when an expression is run: the run of `YamlParser::parse` at src/yaml/parser.rs:540. -/
def steps {R : Type} (g : Grammar R) : Nat → Expr R → Str → List Str → Nat
  | 0, _, _, _ => 0
  | n + 1, e, inp, stk =>
    match e with
    | .rule r => steps g n (g.body r) inp stk + 1
    | .seq a b =>
      steps g n a inp stk + (match eval g n a inp stk with
        | .ok _ rest stk' => steps g n b rest stk'
        | _ => 0) + 1
    | .alt a b =>
      steps g n a inp stk + (match eval g n a inp stk with
        | .fail => steps g n b inp stk
        | _ => 0) + 1
    | .opt a => steps g n a inp stk + 1
    | .star a =>
      steps g n a inp stk + (match eval g n a inp stk with
        | .ok _ rest stk' => steps g n (.star a) rest stk'
        | _ => 0) + 1
    | .and a => steps g n a inp stk + 1
    | .not a => steps g n a inp stk + 1
    | .push a => steps g n a inp stk + 1
    | _ => 1

/-- The largest number of grammar rules that are running at the same time when an expression is run. pest compiles each rule
to a function, so this is what decides how much of the call stack is used; a repetition is a loop and does not count:
the run of `YamlParser::parse` at src/yaml/parser.rs:540. -/
def depth {R : Type} (g : Grammar R) : Nat → Expr R → Str → List Str → Nat
  | 0, _, _, _ => 0
  | n + 1, e, inp, stk =>
    match e with
    | .rule r => depth g n (g.body r) inp stk + 1
    | .seq a b =>
      max (depth g n a inp stk) (match eval g n a inp stk with
        | .ok _ rest stk' => depth g n b rest stk'
        | _ => 0)
    | .alt a b =>
      max (depth g n a inp stk) (match eval g n a inp stk with
        | .fail => depth g n b inp stk
        | _ => 0)
    | .opt a => depth g n a inp stk
    | .star a =>
      max (depth g n a inp stk) (match eval g n a inp stk with
        | .ok _ rest stk' => depth g n (.star a) rest stk'
        | _ => 0)
    | .and a => depth g n a inp stk
    | .not a => depth g n a inp stk
    | .push a => depth g n a inp stk
    | _ => 0

end YamlSubset.Peg

namespace YamlSubset

open Peg

/-- The number of grammar expressions that `parse_yaml_file` (src/yaml/parser.rs:538-545) runs on a text. -/
def parseSteps (T : CharTables) (input : Str) : Nat := steps (yamlGrammar T) (yamlFuel input) (.rule .yaml) input []

/-- The largest number of grammar rules that are running at the same time when `parse_yaml_file` reads a text: src/yaml/parser.rs:538-545. -/
def parseDepth (T : CharTables) (input : Str) : Nat := depth (yamlGrammar T) (yamlFuel input) (.rule .yaml) input []

end YamlSubset
