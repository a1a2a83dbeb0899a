import Verif.Model.De

/-! # Fidelity tests of the serializer and deserializer models

From the tests of `src/yaml/deserializer.rs` that use no serde attributes (560-1246). These are tests of
the model, not proofs. -/

namespace YamlSubset.Tests

open YamlSubset

/-- No recursive types. -/
def noRefs : Nat → Ty := fun _ => .unit

/-- `round_trip`, src/yaml/deserializer.rs:569-575. -/
def roundTrips (ty : Ty) (v : SVal) : Bool :=
  match v.ser with
  | some y => fromYaml noRefs 100 ty (y.pretty false false) == .ok v
  | none => false

def fromText (ty : Ty) (s : String) : Out SVal := fromYamlStr asciiTables noRefs 100 ty s.toList

#guard roundTrips .bool (.bool true)
#guard roundTrips .bool (.bool false)
#guard roundTrips (.int .i64) (.int 42)
#guard roundTrips (.int .i64) (.int (-7))
#guard roundTrips (.int .i64) (.int 0)
#guard roundTrips (.int .u64) (.int (2 ^ 64 - 1))
#guard roundTrips .float (.float c!"3.14")
#guard roundTrips .str (.str c!"hello")
#guard roundTrips .str (.str c!"say \"hello\"")
#guard roundTrips .str (.str c!"path\\to\\file")
#guard roundTrips .str (.str c!"line one\nline two\nline three\n")
#guard roundTrips .str (.str ((List.replicate 37 c!"word ").flatten ++ c!"word\n"))
#guard roundTrips (.option (.int .i64)) (.some (.int 42))
#guard roundTrips (.option (.int .i64)) .none
#guard roundTrips .unit .unit
#guard roundTrips (.seq (.int .i64)) (.seq [.int 1, .int 2, .int 3, .int 4, .int 5])
#guard roundTrips (.seq .str) (.seq [.str c!"alpha", .str c!"beta"])
#guard roundTrips (.seq (.int .i64)) (.seq [])
#guard (SVal.tuple [.str c!"hello", .int 42]).ser ==
  some (.inlineArray [.unquotedString c!"hello", .unquotedString c!"42"])
#guard roundTrips (.tuple [.str, .int .i64, .bool]) (.tuple [.str c!"hello", .int 42, .bool true])
#guard ((SVal.tuple [.str c!"is_even", .seq [.int 6], .bool true]).ser.map (Yaml.pretty false false)) ==
  some (.inlineArray [.unquotedString c!"is_even", .inlineArray [.unquotedString c!"6"],
    .unquotedString c!"true"])
#guard roundTrips (.tuple [.str, .seq (.int .i64), .bool]) (.tuple [.str c!"is_even", .seq [.int 6], .bool true])

def point : Ty := .struct [(c!"x", .int .i64), (c!"y", .int .i64)]
#guard roundTrips point (.struct [(c!"x", .int 3), (c!"y", .int (-1))])
#guard roundTrips (.struct [(c!"name", .str), (c!"point", point), (c!"tags", .seq .str)])
  (.struct [(c!"name", .str c!"origin"), (c!"point", .struct [(c!"x", .int 0), (c!"y", .int 0)]),
    (c!"tags", .seq [.str c!"a", .str c!"b"])])
def withOption : Ty := .struct [(c!"value", .option (.int .i64)), (c!"label", .option .str)]
#guard roundTrips withOption (.struct [(c!"value", .some (.int 7)), (c!"label", .some (.str c!"hello"))])
#guard roundTrips withOption (.struct [(c!"value", .none), (c!"label", .none)])
def color : Ty := .enum [(c!"Red", .unit), (c!"Green", .unit), (c!"Blue", .unit)]
#guard roundTrips color (.unitVariant c!"Red")
#guard roundTrips color (.unitVariant c!"Blue")
def pyBool : Ty := .enum [(c!"True", .unit), (c!"False", .unit)]
#guard roundTrips pyBool (.unitVariant c!"True")
#guard fromYaml noRefs 100 pyBool (.unquotedString c!"True") == .ok (.unitVariant c!"True")

def chooseOne : Ty := .struct [(c!"options", .seq .str), (c!"solution", .str)]
#guard fromText chooseOne "---\noptions:\n  - &correct answer_a\n  - answer_b\nsolution: *correct\n" ==
  .ok (.struct [(c!"options", .seq [.str c!"answer_a", .str c!"answer_b"]), (c!"solution", .str c!"answer_a")])
#guard fromText chooseOne "---\nsolution: *missing\noptions: []" == .err
#guard fromText (.struct [(c!"solution", .str)])
  "---\nsolution: |\n  for i in range(5,21):\n    print(i)\n" ==
  .ok (.struct [(c!"solution", .str c!"for i in range(5,21):\n  print(i)\n")])
#guard fromText (.struct [(c!"value", .str)]) "---\nvalue: |+\n  hello\n\n" ==
  .ok (.struct [(c!"value", .str c!"hello\n\n")])
#guard fromText (.struct [(c!"value", .str), (c!"next", .str)]) "---\nvalue: |+\n  hello\n\n\nnext: done\n" ==
  .ok (.struct [(c!"value", .str c!"hello\n\n\n"), (c!"next", .str c!"done")])
#guard fromText (.struct [(c!"type", .str), (c!"x", .int .u32)]) "---\ntype : foo\nx: 7\n" ==
  .ok (.struct [(c!"type", .str c!"foo"), (c!"x", .int 7)])
def hasOutput : Ty := .struct [(c!"expected_output", .str), (c!"points", .int .i64)]
#guard roundTrips hasOutput (.struct [(c!"expected_output",
  .str c!"   September 2021\n Mo Tu We Th Fr Sa Su\n"), (c!"points", .int 5)])
#guard fromText hasOutput "---\nexpected_output: |2\n     leading spaces here\npoints: 42\n" ==
  .ok (.struct [(c!"expected_output", .str c!"   leading spaces here\n"), (c!"points", .int 42)])
#guard fromText (.struct [(c!"items", .seq (.struct [(c!"a", .int .i64), (c!"b", .int .i64)]))])
  "---\nitems:\n  - a: 1\n    b: 2\n  - a: 3\n    b: 4\n" ==
  .ok (.struct [(c!"items", .seq [.struct [(c!"a", .int 1), (c!"b", .int 2)],
    .struct [(c!"a", .int 3), (c!"b", .int 4)]])])

end YamlSubset.Tests
