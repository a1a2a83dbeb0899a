/-!
# Basic types of the model

A Rust `String`/`&str` is modelled as a list of characters; a `Vec` as a `List`.
-/

namespace YamlSubset

/-- Rust `String` / `&str` (a sequence of Unicode scalar values):
used for every text in src/yaml.pest, src/path.pest and src/yaml/*.rs; for example src/yaml/mod.rs:43-55. -/
abbrev Str := List Char

/-- `c!"abc"` is the character list `['a', 'b', 'c']`. -/
syntax:max "c!" str : term
macro_rules
  | `(c!$s) => do
    let cs := s.getString.toList.map (fun c => Lean.Syntax.mkCharLit c)
    `([ $[$(cs.toArray)],* ])

/-- Rust `str::len`: the number of bytes of the UTF-8 encoding:
used at src/yaml/string.rs:81, src/yaml/mod.rs:681, 704, 719 and src/yaml/parser.rs:237, 551. -/
def byteLen : Str → Nat
  | [] => 0
  | c :: t => c.utf8Size + byteLen t

/-- Rust `str::ends_with(char)`: used at src/yaml/mod.rs:582, 705, 720 and src/yaml/string.rs:31, 103. -/
def endsWithChar (s : Str) (c : Char) : Bool := s.getLast? == some c

/-- Rust `str::starts_with(char)` (also `starts_with(" ")` for a one-character pattern):
used at src/yaml/mod.rs:452, 465, 582 and src/yaml/string.rs:57. -/
def startsWithChar (s : Str) (c : Char) : Bool := s.head? == some c

/-- Rust `str::trim_end_matches(char)` (also with a one-character `&str` pattern):
used at src/yaml/string.rs:12, 16 and src/yaml/parser.rs:103, 109. -/
def trimEndMatches (s : Str) (c : Char) : Str := (s.reverse.dropWhile (· == c)).reverse

/-- Rust `str::split(char)` (also with a one-character `&str` pattern): always at
least one piece, and one more piece than separators: used at src/yaml/string.rs:30, 80, 105. -/
def splitChar (c : Char) : Str → List Str
  | [] => [[]]
  | x :: xs =>
    if x = c then [] :: splitChar c xs
    else match splitChar c xs with
      | [] => [[x]]
      | l :: ls => (x :: l) :: ls

/-- Rust `lines.join("\n")`: used at src/yaml/string.rs:22. -/
def joinLines : List Str → Str
  | [] => []
  | [l] => l
  | l :: ls => l ++ '\n' :: joinLines ls

/-- Rust `str::contains(&str)`: used at src/yaml/mod.rs:589 and src/utils.rs:6, 10. -/
def containsStr (pat : Str) : Str → Bool
  | [] => pat.isEmpty
  | s@(_ :: t) => pat.isPrefixOf s || containsStr pat t

/-- Rust `char::is_whitespace`: the Unicode property `White_Space`: used at src/yaml/parser.rs:550, and by `trim_end` at 352. -/
def isWhitespace (c : Char) : Bool :=
  let n := c.toNat
  (0x09 ≤ n && n ≤ 0x0D) || n == 0x20 || n == 0x85 || n == 0xA0 || n == 0x1680
    || (0x2000 ≤ n && n ≤ 0x200A) || n == 0x2028 || n == 0x2029 || n == 0x202F
    || n == 0x205F || n == 0x3000

/-- Rust `str::trim_end`: used at src/yaml/parser.rs:352. -/
def trimEnd (s : Str) : Str := (s.reverse.dropWhile isWhitespace).reverse

end YamlSubset
