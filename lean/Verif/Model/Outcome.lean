import Verif.Model.Basic

/-! # Outcomes of the Rust functions that can fail -/

namespace YamlSubset

/-- Result of a parse function: a value, an `Err`, a panic, a `match_nodes!` without a
matching arm, or out of fuel. (Whether `match_nodes!` reports an unexpected shape by
panicking or by an error is a matter of pest_consume; the model keeps it apart from
both.): `Result` and panics in src/yaml/parser.rs, src/path.rs, src/yaml/insert.rs:133-306 and src/yaml/deserializer.rs. -/
inductive Out (α : Type) where
  | ok (a : α)
  | err
  | panic
  | unmatched
  | oof
  deriving Repr, DecidableEq, BEq

namespace Out

/-- Sequencing (`?` and unwinding): for example src/yaml/parser.rs:540-542. -/
def bind {α β : Type} (x : Out α) (f : α → Out β) : Out β :=
  match x with
  | .ok a => f a
  | .err => .err
  | .panic => .panic
  | .unmatched => .unmatched
  | .oof => .oof

/-- The same (`?` at src/yaml/parser.rs:540-542) as a monad. -/
instance : Monad Out where
  pure := .ok
  bind := Out.bind

/-- `unwrap` of an optional result: src/yaml/parser.rs:255 and src/path.rs:35. -/
def unwrapOpt {α : Type} : Option α → Out α
  | some a => .ok a
  | none => .panic

/-- Collect a list of outcomes, first problem wins: the patterns `r(x)..` of `match_nodes!`, for example src/yaml/parser.rs:150. -/
def all {α : Type} : List (Out α) → Out (List α)
  | [] => .ok []
  | x :: xs => x.bind fun a => (all xs).bind fun as => .ok (a :: as)

end Out

end YamlSubset
