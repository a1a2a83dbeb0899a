import Verif.Model.Strings

/-! # Rendering (`format`, src/yaml/mod.rs, aliased.rs, document.rs, utils.rs)

`write!` on a `String` never fails, so the `Result` of the Rust functions is dropped
and the text appended to the buffer is returned. -/

namespace YamlSubset

/-- `indent`, src/utils.rs:1-3. -/
def indent (amount : Nat) : Str := List.replicate amount ' '

/-- `BlockChomping::write`, src/yaml/mod.rs:751-757. -/
def BlockChomping.write : BlockChomping → Str
  | .clip => []
  | .strip => ['-']
  | .keep => ['+']

/-- `Parent`, src/yaml/aliased.rs:44-48. -/
inductive Parent where
  | hash | array
  deriving DecidableEq, Repr

/-- Double-quoted part in `format`, src/yaml/mod.rs:406-421. -/
def DQPart.format : DQPart → Str
  | .string s => s
  | .escapedChar c => ['\\', c.char]
  | .blankLines nb => List.replicate (nb + 1) '\n'
  | .removableNewline => ['\n']

/-- Single-quoted part in `format`, src/yaml/mod.rs:428-443. -/
def SQPart.format : SQPart → Str
  | .string s => s
  | .escapedChar c => ['\'', c.char]
  | .blankLines nb => List.replicate (nb + 1) '\n'
  | .removableNewline => ['\n']

/-- The lines of a block scalar in `format`, src/yaml/mod.rs:448-457 and 461-470.
An empty list of lines writes nothing at all, not even the indicator. -/
def formatBlockLines (indicator : Char) (lines : List Str) (chomping : BlockChomping)
    (spaces : Nat) : Str :=
  match lines with
  | [] => []
  | line :: rest =>
    [' ', indicator] ++ chomping.write ++ (if startsWithChar line ' ' then ['2'] else [])
      ++ '\n' :: (indent spaces ++ line)
      ++ rest.flatMap (fun l => '\n' :: (indent spaces ++ l))

mutual
/-- `Yaml::format`, src/yaml/mod.rs:308-475. -/
def Yaml.format (spaces : Nat) (parent : Option Parent) : Yaml → Str
  | .inlineHash v =>
    [' ', '{'] ++ formatInlineEntries true v ++ (if v.isEmpty then [] else [' ']) ++ ['}']
  | .hash v =>
    if v.isEmpty then [' ', '{', '}'] else formatHash spaces parent true v
  | .inlineArray v =>
    [' ', '['] ++ formatInlineElements true v ++ (if v.isEmpty then [] else [' ']) ++ [']']
  | .array v =>
    if v.isEmpty then [' ', '[', ']'] else formatArray spaces parent true v
  | .unquotedString s => ' ' :: s
  | .doubleQuotedString parts => [' ', '"'] ++ parts.flatMap DQPart.format ++ ['"']
  | .singleQuotedString parts => [' ', '\''] ++ parts.flatMap SQPart.format ++ ['\'']
  | .literalString lines chomping => formatBlockLines '|' lines chomping spaces
  | .foldedString lines chomping => formatBlockLines '>' lines chomping spaces
  | .anchor a => [' ', '*'] ++ a
/-- The loop over inline hash entries, src/yaml/mod.rs:317-323; `first` is `idx == 0`. -/
def formatInlineEntries (first : Bool) : List (Str × Yaml) → Str
  | [] => []
  | (k, y) :: t =>
    (if first then [] else [',']) ++ ' ' :: (k ++ ':' :: Yaml.format 0 none y)
      ++ formatInlineEntries false t
/-- The loop over inline array elements, src/yaml/mod.rs:361-366; `first` is `idx == 0`. -/
def formatInlineElements (first : Bool) : List Yaml → Str
  | [] => []
  | y :: t =>
    (if first then [] else [',']) ++ Yaml.format 0 none y ++ formatInlineElements false t
/-- The loop over hash data, src/yaml/mod.rs:333-356 (with the element's value
formatted as in src/yaml/aliased.rs:51-63); `first` is `idx == 0`. -/
def formatHash (spaces : Nat) (parent : Option Parent) (first : Bool) : List HashData → Str
  | [] => []
  | .comment c :: t => '\n' :: (indent spaces ++ '#' :: c) ++ formatHash spaces parent false t
  | .inlineComment c :: t => [' ', '#'] ++ c ++ formatHash spaces parent false t
  | .element ⟨key, ⟨alias, value⟩⟩ :: t =>
    (if parent = some .array && first then ' ' :: (key ++ [':'])
     else '\n' :: (indent spaces ++ key ++ [':']))
      ++ (match alias with
          | some a => [' ', '&'] ++ a ++ Yaml.format (spaces + 2) none value
          | none => Yaml.format (spaces + 2) (some .hash) value)
      ++ formatHash spaces parent false t
/-- The loop over array data, src/yaml/mod.rs:376-397 (with the element
formatted as in src/yaml/aliased.rs:51-63); `first` is `idx == 0`. -/
def formatArray (spaces : Nat) (parent : Option Parent) (first : Bool) : List ArrayData → Str
  | [] => []
  | .comment c :: t => '\n' :: (indent spaces ++ '#' :: c) ++ formatArray spaces parent false t
  | .inlineComment c :: t => [' ', '#'] ++ c ++ formatArray spaces parent false t
  | .element ⟨alias, value⟩ :: t =>
    (if parent = some .array && first then [' ', '-']
     else '\n' :: (indent spaces ++ ['-']))
      ++ (match alias with
          | some a => [' ', '&'] ++ a ++ Yaml.format (spaces + 2) none value
          | none => Yaml.format (spaces + 2) (some .array) value)
      ++ formatArray spaces parent false t
end

/-- `AliasedYaml::format`, src/yaml/aliased.rs:51-63. -/
def AliasedYaml.format (spaces : Nat) (parent : Option Parent) (a : AliasedYaml) : Str :=
  match a.alias with
  | some n => [' ', '&'] ++ n ++ a.value.format (spaces + 2) none
  | none => a.value.format (spaces + 2) parent

/-- One item in `Document::format`, src/yaml/document.rs:83-86. -/
def DocumentData.format : DocumentData → Str
  | .comment c => ['\n', '#'] ++ c
  | .yaml y => y.format 0 none

/-- `Document::format`, src/yaml/document.rs:75-89. -/
def Document.format (d : Document) : Str :=
  d.leadingComments.flatMap (fun c => '#' :: (c ++ ['\n'])) ++ c!"---"
    ++ d.items.flatMap DocumentData.format

end YamlSubset
