import Verif.Model.Basic

/-! # Parsing expressions with pest's semantics

pest is a dependency, not part of the repository; this module models the subset of its
semantics the two grammars `src/yaml.pest` and `src/path.pest` use. `Expr` is the
abstract syntax of grammar expressions and `eval` runs one.

* Ordered choice, greedy repetition, lookahead without tokens.
* A normal rule produces one tree node; a silent rule (`_{}`) produces its children; an
  atomic rule (`@{}`) produces one node without children.
* The stack (`PUSH`, `PEEK`, `PEEK[-2..]`, `POP`, `DROP`) is restored whenever an
  alternative, an option or a repetition step fails (pest wraps these in
  `restore_on_err`) and after lookahead, so a failure carries no state.
* `PEEK`/`POP` on an empty stack panic; `PEEK[-2..]` and `DROP` fail.
* `SOI` always succeeds: in the grammars it occurs only at the start of the start rule.
* Fuel bounds the recursion depth; `oof` is "out of fuel". That a fuel linear in the
  input always suffices is a theorem (`Props/Termination.lean`).
-/

namespace YamlSubset.Peg

/-- Kind of a rule: `{}`, `_{}`, `@{}`: pest, for src/yaml.pest and src/path.pest. -/
inductive Kind where
  | normal | silent | atomic
  deriving DecidableEq, Repr

/-- Grammar expressions over rule names `R`: pest, for src/yaml.pest and src/path.pest. -/
inductive Expr (R : Type) where
  /-- `"..."` -/
  | str (s : Str)
  /-- a character class such as `ASCII_DIGIT`, `LETTER`, `SPACE_SEPARATOR`, `ANY` -/
  | cls (p : Char → Bool)
  | soi
  /-- `EOI`: succeeds at the end and produces the node `r` (the rule `EOI`) -/
  | eoi (r : R)
  | rule (r : R)
  | seq (a b : Expr R)
  | alt (a b : Expr R)
  | opt (a : Expr R)
  | star (a : Expr R)
  /-- `&e` -/
  | and (a : Expr R)
  /-- `!e` -/
  | not (a : Expr R)
  | push (a : Expr R)
  | peek
  /-- `PEEK[-2..]` -/
  | peek2
  | pop
  | drop

/-- A node of the parse tree: rule, matched text, children: pest, for src/yaml.pest and src/path.pest. -/
inductive Tree (R : Type) where
  | node (r : R) (text : Str) (children : List (Tree R))
  deriving Repr

/-- A grammar: kind and body of each rule: pest, for src/yaml.pest and src/path.pest. -/
structure Grammar (R : Type) where
  kind : R → Kind
  body : R → Expr R

/-- Result of running an expression: trees, remaining input, stack (top first): pest, for src/yaml.pest and src/path.pest. -/
inductive Res (R : Type) where
  | ok (ts : List (Tree R)) (rest : Str) (stk : List Str)
  | fail
  | panic
  | oof

/-- Strip a prefix: pest, for src/yaml.pest and src/path.pest. -/
def stripPrefix : Str → Str → Option Str
  | [], s => some s
  | _ :: _, [] => none
  | p :: ps, c :: cs => if p = c then stripPrefix ps cs else none

/-- Match a literal text: pest, for src/yaml.pest and src/path.pest. -/
def matchText {R : Type} (t inp : Str) (stk : List Str) : Res R :=
  match stripPrefix t inp with
  | some rest => .ok [] rest stk
  | none => .fail

/-- The text consumed between two input positions (`rest` is a suffix of `inp`): pest, for src/yaml.pest and src/path.pest. -/
def consumed (inp rest : Str) : Str := inp.take (inp.length - rest.length)

/-- Wrap the trees produced by the body of rule `r`: pest, for src/yaml.pest and src/path.pest. -/
def wrap {R : Type} (k : Kind) (r : R) (inp rest : Str) (ts : List (Tree R)) : List (Tree R) :=
  match k with
  | .normal => [.node r (consumed inp rest) ts]
  | .silent => ts
  | .atomic => [.node r (consumed inp rest) []]

/-- Run an expression: pest, as called at src/yaml/parser.rs:540 and src/path.rs:79. -/
def eval {R : Type} (g : Grammar R) : Nat → Expr R → Str → List Str → Res R
  | 0, _, _, _ => .oof
  | n + 1, e, inp, stk =>
    match e with
    | .str s => matchText s inp stk
    | .cls p =>
      match inp with
      | [] => .fail
      | c :: rest => if p c then .ok [] rest stk else .fail
    | .soi => .ok [] inp stk
    | .eoi r =>
      match inp with
      | [] => .ok [.node r [] []] [] stk
      | _ :: _ => .fail
    | .rule r =>
      match eval g n (g.body r) inp stk with
      | .ok ts rest stk' => .ok (wrap (g.kind r) r inp rest ts) rest stk'
      | x => x
    | .seq a b =>
      match eval g n a inp stk with
      | .ok ts rest stk' =>
        match eval g n b rest stk' with
        | .ok ts' rest' stk'' => .ok (ts ++ ts') rest' stk''
        | x => x
      | x => x
    | .alt a b =>
      match eval g n a inp stk with
      | .fail => eval g n b inp stk
      | x => x
    | .opt a =>
      match eval g n a inp stk with
      | .fail => .ok [] inp stk
      | x => x
    | .star a =>
      match eval g n a inp stk with
      | .fail => .ok [] inp stk
      | .ok ts rest stk' =>
        match eval g n (.star a) rest stk' with
        | .ok ts' rest' stk'' => .ok (ts ++ ts') rest' stk''
        | x => x
      | x => x
    | .and a =>
      match eval g n a inp stk with
      | .ok _ _ _ => .ok [] inp stk
      | x => x
    | .not a =>
      match eval g n a inp stk with
      | .ok _ _ _ => .fail
      | .fail => .ok [] inp stk
      | x => x
    | .push a =>
      match eval g n a inp stk with
      | .ok ts rest stk' => .ok ts rest (consumed inp rest :: stk')
      | x => x
    | .peek =>
      match stk with
      | [] => .panic
      | t :: _ => matchText t inp stk
    | .peek2 =>
      match stk with
      | t :: u :: _ => matchText (u ++ t) inp stk
      | _ => .fail
    | .pop =>
      match stk with
      | [] => .panic
      | t :: stk' => matchText t inp stk'
    | .drop =>
      match stk with
      | [] => .fail
      | _ :: stk' => .ok [] inp stk'

/-- `e+`, which pest unrolls to `e ~ e*`: for example src/yaml.pest:4. -/
def Expr.plus {R : Type} (e : Expr R) : Expr R := .seq e (.star e)

/-- Sequence of several expressions: for example src/yaml.pest:3. -/
def Expr.seqs {R : Type} : List (Expr R) → Expr R
  | [] => .str []
  | [e] => e
  | e :: es => .seq e (Expr.seqs es)

/-- Choice of several expressions: for example src/yaml.pest:12. -/
def Expr.alts {R : Type} : List (Expr R) → Expr R
  | [] => .not (.str [])
  | [e] => e
  | e :: es => .alt e (Expr.alts es)

end YamlSubset.Peg
