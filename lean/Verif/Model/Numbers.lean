import Verif.Model.Basic

/-! # Number texts: the parts of Rust's standard library the crate relies on -/

namespace YamlSubset

/-- ASCII digit: `ASCII_DIGIT` of src/path.pest:11, and the digits of `parse` at src/yaml/deserializer.rs:159-166. -/
def isDigit (c : Char) : Bool := 48 ≤ c.toNat && c.toNat ≤ 57

/-- The value of a digit string, most significant digit first: `parse` at src/yaml/deserializer.rs:159-166 and src/path.rs:35. -/
def digitsValue (s : Str) : Nat := s.foldl (fun n c => 10 * n + (c.toNat - 48)) 0

/-- A non-empty string of ASCII digits, read as a number: `parse` at src/yaml/deserializer.rs:159-166 and src/path.rs:35. -/
def parseDigits (s : Str) : Option Nat :=
  if s.isEmpty then none else if s.all isDigit then some (digitsValue s) else none

/-- Rust `str::parse::<u64>` (also `usize` on 64-bit targets): optional `+`, digits,
range check: src/yaml/deserializer.rs:162, 250, src/yaml/parser.rs:255 and src/path.rs:35. -/
def parseU64 (s : Str) : Option Nat :=
  let body := match s with
    | '+' :: t => t
    | t => t
  match parseDigits body with
  | some n => if n < 2 ^ 64 then some n else none
  | none => none

/-- Rust `str::parse::<i64>`: optional `+` or `-`, digits, range check: src/yaml/deserializer.rs:159, 231. -/
def parseI64 (s : Str) : Option Int :=
  match s with
  | '-' :: t => match parseDigits t with
    | some n => if n ≤ 2 ^ 63 then some (-(n : Int)) else none
    | none => none
  | '+' :: t => match parseDigits t with
    | some n => if n < 2 ^ 63 then some (n : Int) else none
    | none => none
  | t => match parseDigits t with
    | some n => if n < 2 ^ 63 then some (n : Int) else none
    | none => none

/-- ASCII lower case, as used by the case-insensitive words of `f64::from_str`: src/yaml/deserializer.rs:166, 263. -/
def lowerAscii (c : Char) : Char :=
  if 65 ≤ c.toNat && c.toNat ≤ 90 then Char.ofNat (c.toNat + 32) else c

/-- `Exp?` of the grammar in the documentation of `f64::from_str`:
empty, or `e`/`E`, optional sign, one or more digits: src/yaml/deserializer.rs:166, 263. -/
def isFloatExp (s : Str) : Bool :=
  match s with
  | [] => true
  | c :: t =>
    (c == 'e' || c == 'E') &&
      (let body := match t with
        | '+' :: u => u
        | '-' :: u => u
        | u => u
       !body.isEmpty && body.all isDigit)

/-- `Number` of the grammar in the documentation of `f64::from_str`: src/yaml/deserializer.rs:166, 263. -/
def isFloatNumber (s : Str) : Bool :=
  let int := s.takeWhile isDigit
  let rest := s.dropWhile isDigit
  match rest with
  | '.' :: t =>
    let frac := t.takeWhile isDigit
    let rest := t.dropWhile isDigit
    (!int.isEmpty || !frac.isEmpty) && isFloatExp rest
  | _ => !int.isEmpty && isFloatExp rest

/-- Which texts Rust's `str::parse::<f64>` accepts (the value is not modelled): src/yaml/deserializer.rs:166, 263. -/
def isF64 (s : Str) : Bool :=
  let body := match s with
    | '+' :: t => t
    | '-' :: t => t
    | t => t
  let low := body.map lowerAscii
  low == c!"inf" || low == c!"infinity" || low == c!"nan" || isFloatNumber body

/-- A decimal digit as a character: `to_string` at src/yaml/serializer.rs:179-206. -/
def digitChar (n : Nat) : Char := Char.ofNat (48 + n)

/-- Decimal digits of `n`, with fuel (`n + 1` steps are more than enough): `to_string` at src/yaml/serializer.rs:194-206. -/
def natToStrAux : Nat → Nat → Str → Str
  | 0, _, acc => acc
  | fuel + 1, n, acc =>
    if n < 10 then digitChar n :: acc
    else natToStrAux fuel (n / 10) (digitChar (n % 10) :: acc)

/-- Rust `to_string` on an unsigned integer: src/yaml/serializer.rs:194-206, 223. -/
def natToStr (n : Nat) : Str := natToStrAux (n + 1) n []

/-- Rust `to_string` on a signed integer: src/yaml/serializer.rs:179-191. -/
def intToStr : Int → Str
  | .ofNat n => natToStr n
  | .negSucc n => '-' :: natToStr (n + 1)

end YamlSubset
