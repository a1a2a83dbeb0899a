import Verif.Model.Peg
import Verif.Model.Outcome
import Verif.Model.Numbers

/-! # Paths (`src/path.rs`, `src/path.pest`) -/

namespace YamlSubset

open Peg

/-- `Condition`, src/path.rs:86-90. -/
structure Condition where
  field : Str
  value : Str
  deriving Repr, DecidableEq

/-- `YamlPath`, src/path.rs:92-98. -/
inductive YamlPath where
  | root (cs : List Condition)
  | key (k : Str) (cs : List Condition) (rest : Option YamlPath)
  | allIndexes (cs : List Condition) (rest : Option YamlPath)
  | indexes (is : List Nat) (cs : List Condition) (rest : Option YamlPath)
  deriving Repr, BEq

/-- `YamlPath::insert`, src/path.rs:108-120. -/
def YamlPath.insert (self : YamlPath) (p : YamlPath) : YamlPath :=
  match self with
  | .root _ => p
  | .key k cs (some o) => .key k cs (some (o.insert p))
  | .allIndexes cs (some o) => .allIndexes cs (some (o.insert p))
  | .indexes is cs (some o) => .indexes is cs (some (o.insert p))
  | .key k cs none => .key k cs (some p)
  | .allIndexes cs none => .allIndexes cs (some p)
  | .indexes is cs none => .indexes is cs (some p)

/-- Names of the rules of `src/path.pest`. -/
inductive PRule where
  | EOI | WHITESPACE | key_items | pure_key | field | value | condition | key
  | index_number | index_all | index | part | path | root_key | root | final_path
  deriving DecidableEq, Repr

namespace PRule

/-- Kinds of the rules of `src/path.pest`. -/
def kind : PRule → Kind
  | .key_items | .index => .silent
  | _ => .normal

/-- A one-character literal: for example src/path.pest:8. -/
abbrev lit (c : Char) : Expr PRule := .str [c]
/-- pest built-in `ANY`: used at src/path.pest:3, 6, 7. -/
def ANY : Expr PRule := .cls (fun _ => true)
/-- The implicit whitespace skipped between the parts of a sequence in a non-atomic rule: src/path.pest:1. -/
def skip : Expr PRule := .star (.rule .WHITESPACE)
/-- `a ~ b` in a non-atomic rule of a grammar with a `WHITESPACE` rule: used at src/path.pest:8-19. -/
def sq (a b : Expr PRule) : Expr PRule := .seq a (.seq skip b)
/-- `e*` in such a rule: used at src/path.pest:9, 13, 16, 18. -/
def st (e : Expr PRule) : Expr PRule := .opt (.seq e (.star (.seq skip e)))
/-- `e+` in such a rule, unrolled to `e ~ e*`: used at src/path.pest:4, 6, 7, 11. -/
def pl (e : Expr PRule) : Expr PRule := sq e (st e)

/-- `( "|" ~ condition )*`, src/path.pest:9, 13, 18. -/
def conds : Expr PRule := st (sq (lit '|') (.rule condition))

/-- Bodies of the rules of `src/path.pest`, with the implicit whitespace made explicit. -/
def body : PRule → Expr PRule
  | .EOI => .eoi .EOI
  -- 1
  | .WHITESPACE => lit ' '
  -- 3
  | .key_items => sq (.not (.alts [lit '[', lit ']', lit '.', lit '|'])) ANY
  -- 4
  | .pure_key => pl (.rule key_items)
  -- 6
  | .field => pl (sq (.not (lit '=')) ANY)
  -- 7
  | .value => pl (sq (.not (.alts [lit '.', lit '|'])) ANY)
  -- 8
  | .condition => sq (.rule field) (sq (lit '=') (.rule value))
  -- 9
  | .key => sq (.rule pure_key) conds
  -- 11
  | .index_number => pl (.cls isDigit)
  -- 12
  | .index_all => lit '*'
  -- 13
  | .index =>
    sq (lit '[') (sq (.alt (.rule index_number) (.rule index_all)) (sq (lit ']') conds))
  -- 15
  | .part => .alt (sq (lit '.') (.rule key)) (.rule index)
  -- 16
  | .path => sq (.rule key) (st (.rule part))
  -- 17
  | .root_key => .str []
  -- 18
  | .root => sq (.rule root_key) conds
  -- 19
  | .final_path => sq (.alt (.rule path) (.rule root)) (.eoi .EOI)

end PRule

/-- The grammar `src/path.pest`. -/
def pathGrammar : Grammar PRule := ⟨PRule.kind, PRule.body⟩

/-- Results of the consumer functions of `src/path.rs`. -/
inductive PVal where
  | unit
  | str (s : Str)
  | cond (c : Condition)
  | idx (is : List Nat)
  | path (p : YamlPath)

namespace PVal
/-- The children bound by the arms of `match_nodes!`, src/path.rs:10-75. -/
def asStr : PVal → Out Str | .str s => .ok s | _ => .unmatched
/-- The children bound by the arms of `match_nodes!`, src/path.rs:10-75. -/
def asCond : PVal → Out Condition | .cond c => .ok c | _ => .unmatched
/-- The children bound by the arms of `match_nodes!`, src/path.rs:10-75. -/
def asIdx : PVal → Out (List Nat) | .idx c => .ok c | _ => .unmatched
/-- The children bound by the arms of `match_nodes!`, src/path.rs:10-75. -/
def asPath : PVal → Out YamlPath | .path c => .ok c | _ => .unmatched
end PVal

/-- `input.into_children()` in src/path.rs:10-75, with their results. -/
abbrev PKids := List (PRule × Out PVal)

/-- The pattern `r(x)..` at the end of an arm: for example src/path.rs:30. -/
def pmany {α : Type} (r : PRule) (as : PVal → Out α) : PKids → Out (List α)
  | [] => .ok []
  | (r', v) :: t =>
    if r' = r then v.bind fun v => (as v).bind fun a => (pmany r as t).bind fun l => .ok (a :: l)
    else .unmatched

/-- The consumer functions of `src/path.rs:9-75`. -/
def pact (r : PRule) (text : Str) (kids : PKids) : Out PVal :=
  match r with
  | .EOI => .ok .unit
  -- 14-22
  | .pure_key => .ok (.str text)
  | .field => .ok (.str text)
  | .value => .ok (.str text)
  -- 23-27
  | .condition =>
    match kids with
    | [(.field, f), (.value, v)] =>
      f.bind fun f => f.asStr.bind fun f => v.bind fun v => v.asStr.bind fun v =>
        .ok (.cond ⟨f, v⟩)
    | _ => .unmatched
  -- 28-32
  | .key =>
    match kids with
    | (.pure_key, k) :: cs =>
      k.bind fun k => k.asStr.bind fun k => (pmany .condition PVal.asCond cs).bind fun cs =>
        .ok (.path (.key k cs none))
    | _ => .unmatched
  -- 34-36
  | .index_number => (Out.unwrapOpt (parseU64 text)).bind fun n => .ok (.idx [n])
  -- 37-39
  | .index_all => .ok .unit
  -- 40-47
  | .part =>
    match kids with
    | (.index_all, i) :: cs =>
      i.bind fun _ => (pmany .condition PVal.asCond cs).bind fun cs =>
        .ok (.path (.allIndexes cs none))
    | (.index_number, i) :: cs =>
      i.bind fun i => i.asIdx.bind fun i => (pmany .condition PVal.asCond cs).bind fun cs =>
        .ok (.path (.indexes i cs none))
    | [(.key, k)] => k.bind fun k => k.asPath.bind fun k => .ok (.path k)
    | _ => .unmatched
  -- 48-58
  | .path =>
    match kids with
    | (.key, s) :: vals =>
      s.bind fun s => s.asPath.bind fun s => (pmany .part PVal.asPath vals).bind fun vals =>
        .ok (.path (vals.foldl YamlPath.insert s))
    | _ => .unmatched
  -- 59-61
  | .root_key => .ok .unit
  -- 62-68
  | .root =>
    match kids with
    | (.root_key, s) :: cs =>
      s.bind fun _ => (pmany .condition PVal.asCond cs).bind fun cs => .ok (.path (.root cs))
    | _ => .unmatched
  -- 69-74
  | .final_path =>
    match kids with
    | [(.path, p), (.EOI, e)] =>
      p.bind fun p => p.asPath.bind fun p => e.bind fun _ => .ok (.path p)
    | [(.root, p), (.EOI, e)] =>
      p.bind fun p => p.asPath.bind fun p => e.bind fun _ => .ok (.path p)
    | _ => .unmatched
  | _ => .unmatched

mutual
/-- Consume a parse tree node: what pest_consume generates for src/path.rs:9-75. -/
def psem : Tree PRule → Out PVal
  | .node r text cs => pact r text (psemKids cs)
/-- Children with their outcomes: `into_children` in src/path.rs:10-75. -/
def psemKids : List (Tree PRule) → PKids
  | [] => []
  | .node r text cs :: ts => (r, psem (.node r text cs)) :: psemKids ts
end

/-- Fuel for the evaluator; proved sufficient for every input in `Props/Termination.lean`:
no counterpart; it is there because the recursion of `PathParser::parse`, src/path.rs:79, is not structural. -/
def pathFuel (input : Str) : Nat := 100 * (input.length + 1)

/-- Turn the result of the grammar into the result of the consumer: src/path.rs:79-83, with `inputs.single()?`. -/
def finishPath : Res PRule → Out YamlPath
  | .ok [t] _ _ => (psem t).bind PVal.asPath
  | .ok _ _ _ => .err
  | .fail => .err
  | .panic => .panic
  | .oof => .oof

/-- `parse`, src/path.rs:77-84, and `YamlPath::from_str`, 100-106. -/
def YamlPath.parse (s : Str) : Out YamlPath :=
  finishPath (eval pathGrammar (pathFuel s) (.rule .final_path) s [])

end YamlSubset
