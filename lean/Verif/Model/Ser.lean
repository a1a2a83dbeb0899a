import Verif.Model.Pretty

/-! # Serialization (`src/yaml/serializer.rs`) -/

namespace YamlSubset

/-- `needs_quoting`, src/yaml/serializer.rs:39-41. -/
def needsQuoting (s : Str) : Bool := !canBeUnquotedInBlock s || inlineBreakingChars s

/-- Push the buffer if it is not empty (`std::mem::take`), src/yaml/serializer.rs:61-63 and
the other copies of this idiom. -/
def flushDQ (parts : List DQPart) (buf : Str) : List DQPart :=
  if !buf.isEmpty then parts ++ [.string buf] else parts

/-- The loop src/yaml/serializer.rs:59-73 (only backslashes are escaped). -/
def dqBackslashLoop (parts : List DQPart) (buf : Str) : Str → List DQPart
  | [] => flushDQ parts buf
  | ch :: rest =>
    if ch = '\\' then dqBackslashLoop (flushDQ parts buf ++ [.escapedChar .backslash]) [] rest
    else dqBackslashLoop parts (buf ++ [ch]) rest

/-- The loop src/yaml/serializer.rs:79-93 (single quotes are doubled); the same loop as
`str_to_single_quoted_parts` in src/yaml/mod.rs:605-617. -/
def sqQuoteLoop (parts : List SQPart) (buf : Str) : Str → List SQPart
  | [] => if !buf.isEmpty then parts ++ [.string buf] else parts
  | ch :: rest =>
    if ch = '\'' then
      sqQuoteLoop ((if !buf.isEmpty then parts ++ [.string buf] else parts)
        ++ [.escapedChar .singleQuote]) [] rest
    else sqQuoteLoop parts (buf ++ [ch]) rest

/-- The loop src/yaml/serializer.rs:100-139. -/
def dqNewlineLoop (parts : List DQPart) (buf : Str) : Str → List DQPart
  | [] => flushDQ parts buf
  | ch :: rest =>
    if ch = '\n' then dqNewlineLoop (flushDQ parts buf ++ [.escapedChar .newline]) [] rest
    else if ch = '\r' then
      dqNewlineLoop (flushDQ parts buf ++ [.escapedChar .carriageReturn]) [] rest
    else if ch = '"' then dqNewlineLoop (flushDQ parts buf ++ [.escapedChar .quote]) [] rest
    else if ch = '\\' then
      dqNewlineLoop (flushDQ parts buf ++ [.escapedChar .backslash]) [] rest
    else dqNewlineLoop parts (buf ++ [ch]) rest

/-- `str_to_yaml`, src/yaml/serializer.rs:48-141. -/
def strToYaml (s : Str) : Yaml :=
  if !needsQuoting s then .unquotedString s
  else if !s.contains '\n' && !s.contains '\r' then
    if s.contains '\'' && !s.contains '"' then .doubleQuotedString (dqBackslashLoop [] [] s)
    else .singleQuotedString (sqQuoteLoop [] [] s)
  else .doubleQuotedString (dqNewlineLoop [] [] s)

/-- `yaml_to_key_string`, src/yaml/serializer.rs:143-150; `none` is the error. -/
def yamlToKeyString : Yaml → Option Str
  | .unquotedString s => some s
  | .doubleQuotedString parts => some (parseDoubleQuoted parts)
  | _ => none

/-- A value as it is presented to a serializer by its `Serialize` impl (the serde data
model). A float is represented by a text that denotes it; for serialization that is the text
`to_string` prints: what is handed to src/yaml/serializer.rs:162-311. -/
inductive SVal where
  | bool (b : Bool)
  | int (i : Int)
  | float (text : Str)
  | char (c : Char)
  | str (s : Str)
  | bytes (bs : List Nat)
  | unit
  | none
  | some (v : SVal)
  | newtype (v : SVal)
  | unitVariant (name : Str)
  | newtypeVariant (name : Str) (v : SVal)
  | tupleVariant (name : Str) (vs : List SVal)
  | structVariant (name : Str) (fs : List (Str × SVal))
  | seq (vs : List SVal)
  | tuple (vs : List SVal)
  | map (es : List (SVal × SVal))
  | struct (fs : List (Str × SVal))
  deriving Repr, BEq

/-- `SeqSerializer::end`, src/yaml/serializer.rs:330-337. -/
def seqNode (ys : List Yaml) : Yaml := .array (ys.map fun y => .element ⟨none, y⟩)

/-- `MapSerializer::end`, src/yaml/serializer.rs:416-428. -/
def mapNode (es : List (Str × Yaml)) : Yaml :=
  .hash (es.map fun kv => .element ⟨kv.1, ⟨none, kv.2⟩⟩)

mutual
/-- `Serialize` into the `YamlSerializer`, src/yaml/serializer.rs:162-311; `none` is an
error. -/
def SVal.ser : SVal → Option Yaml
  -- 173-177
  | .bool b => Option.some (.unquotedString (if b then c!"true" else c!"false"))
  -- 178-207
  | .int i => Option.some (.unquotedString (intToStr i))
  -- 208-213
  | .float t => Option.some (.unquotedString t)
  -- 214-216
  | .char c => Option.some (strToYaml [c])
  -- 217-219
  | .str s => Option.some (strToYaml s)
  -- 220-226
  | .bytes bs => Option.some (seqNode (bs.map fun b => .unquotedString (natToStr b)))
  -- 227-229
  | .none => Option.some (.unquotedString ['~'])
  -- 230-232
  | .some v => v.ser
  -- 233-238
  | .unit => Option.some (.unquotedString ['~'])
  -- 239-246
  | .unitVariant name => Option.some (strToYaml name)
  -- 247-253
  | .newtype v => v.ser
  -- 254-262: the variant name is dropped
  | .newtypeVariant _ v => v.ser
  -- 263-267, 317-338
  | .seq vs => (serList vs).map seqNode
  -- 268-279, 346-375
  | .tuple vs => (serList vs).map .inlineArray
  -- 280-288: the variant name is dropped
  | .tupleVariant _ vs => (serList vs).map .inlineArray
  -- 289-294, 397-428
  | .map es => (serEntries es).map mapNode
  -- 295-301, 431-448
  | .struct fs => (serFields fs).map mapNode
  -- 302-310: the variant name is dropped
  | .structVariant _ fs => (serFields fs).map mapNode
/-- Elements, src/yaml/serializer.rs:325-328. -/
def serList : List SVal → Option (List Yaml)
  | [] => Option.some []
  | v :: t =>
    match v.ser with
    | Option.some y => (serList t).map (y :: ·)
    | Option.none => Option.none
/-- Map entries, src/yaml/serializer.rs:401-414. -/
def serEntries : List (SVal × SVal) → Option (List (Str × Yaml))
  | [] => Option.some []
  | (k, v) :: t =>
    match k.ser.bind yamlToKeyString with
    | Option.some ks =>
      match v.ser with
      | Option.some y => (serEntries t).map ((ks, y) :: ·)
      | Option.none => Option.none
    | Option.none => Option.none
/-- Struct fields, src/yaml/serializer.rs:435-443. -/
def serFields : List (Str × SVal) → Option (List (Str × Yaml))
  | [] => Option.some []
  | (k, v) :: t =>
    match v.ser with
    | Option.some y => (serFields t).map ((k, y) :: ·)
    | Option.none => Option.none
end

end YamlSubset
