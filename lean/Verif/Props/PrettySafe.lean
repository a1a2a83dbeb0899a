import Verif.Lemmas.PrettySafe
import Verif.Props.Portable
import Verif.Props.Pretty
import Verif.Props.De

/-! # Pretty documents parse back (C50) -/

namespace YamlSubset

open Peg Spec

variable {T : CharTables}

/-! ## the data -/

theorem dataOf_pretty_flow (y : Yaml) (c : Bool) : dataOf (y.pretty true c) = dataOf y := by
  induction y using Yaml.induct generalizing c with
  | hIH es ih =>
    simp only [Yaml.pretty, dataOf, prettyEntries_eq, entriesData_eq, List.map_map]
    refine congrArg _ (List.map_congr_left fun e he => ?_)
    obtain ⟨k, v⟩ := e
    simp only [Function.comp]
    rw [ih k v he]
  | hH ds ih =>
    simp only [Yaml.pretty]
    split
    · rename_i he; simp at he; subst he; rfl
    · simp only [if_true, dataOf, hashToEntries_eq, entriesData_eq, List.map_map, hashData_eq]
      refine congrArg _ (List.map_congr_left fun e he => ?_)
      obtain ⟨a, ha⟩ := HashData.mem_entry.1 he
      simp only [Function.comp]
      rw [ih _ a _ ha]
  | hIA es ih =>
    simp only [Yaml.pretty, dataOf, prettyYamls_eq, yamlsData_eq, List.map_map]
    exact congrArg _ (List.map_congr_left fun v hv => ih v hv _)
  | hA ds ih =>
    simp only [Yaml.pretty]
    split
    · rename_i he; simp at he; subst he; rfl
    · simp only [if_true, dataOf, arrayToYamls_eq, yamlsData_eq, List.map_map, arrayData_eq]
      refine congrArg _ (List.map_congr_left fun v hv => ?_)
      obtain ⟨a, ha⟩ := ArrayData.mem_value.1 hv
      exact ih a v ha _
  | hS ps =>
    simp only [Yaml.pretty, prettySingleQuoted]
    split
    · simp [dataOf, literal_roundtrip]
    · simp
  | hD ps => rfl
  | hU s =>
    simp only [Yaml.pretty]
    split
    · simp only [dataOf, strToSingleQuotedParts, strToSQPartsAux_value]; rfl
    · rfl
  | hF ls c => rfl
  | hL ls c => rfl
  | hN a => rfl

theorem prettySafeHash_mem {ds : List HashData} : ∀ {deep : Bool}, PrettySafeHash T deep ds → ∀ k a v, .element ⟨k, ⟨a, v⟩⟩ ∈ ds →
    ∃ deep alt comment, PrettySafe T deep alt false comment false v := by
  induction ds with
  | nil => intro _ _ k a v h; simp at h
  | cons d t ih =>
    intro deep hs k a v hm
    rw [List.mem_cons] at hm
    match d with
    | .element ⟨l, ⟨b, w⟩⟩ =>
      rw [PrettySafeHash] at hs
      rcases hm with hm | hm
      · simp at hm; obtain ⟨rfl, rfl, rfl⟩ := hm; exact ⟨_, _, _, hs.1⟩
      · exact ih hs.2 k a v hm
    | .comment c => rw [PrettySafeHash] at hs; exact ih hs k a v (by simpa using hm)
    | .inlineComment c => rw [PrettySafeHash] at hs; exact ih hs k a v (by simpa using hm)

theorem prettyDoubleQuoted_escape {ps : List DQPart} (h : ∃ e, DQPart.escapedChar e ∈ ps) : dataOf (prettyDoubleQuoted false ps) = .str (parseDoubleQuoted ps) := by
  unfold prettyDoubleQuoted
  rw [if_neg (by simp)]
  dsimp only
  split
  · simp [dataOf, literal_roundtrip]
  · rename_i hn
    exact absurd ((any_escape_iff ps).2 h) hn

theorem prettySingleQuoted_blank {ps : List SQPart} (h : ∃ n, SQPart.blankLines n ∈ ps) : dataOf (prettySingleQuoted false ps) = .str (parseSingleQuoted ps) := by
  unfold prettySingleQuoted
  dsimp only
  split
  · simp [dataOf, literal_roundtrip]
  · rename_i hn
    exact absurd ((any_blank_iff ps).2 h) hn

theorem dataOf_pretty_safe (y : Yaml) {deep alt elem comment flow : Bool} (h : PrettySafe T deep alt elem comment flow y) :
    dataOf (y.pretty false elem) = dataOf y := by
  induction y using Yaml.induct generalizing deep alt elem comment flow with
  | hIH es ih =>
    have := dataOf_pretty_flow (.inlineHash es) elem
    rw [Yaml.pretty] at this ⊢
    exact this
  | hIA es ih =>
    have := dataOf_pretty_flow (.inlineArray es) elem
    rw [Yaml.pretty] at this ⊢
    exact this
  | hH ds ih =>
    rw [PrettySafe] at h
    simp only [Yaml.pretty]
    split
    · rename_i he; simp at he; subst he; rfl
    · simp only [Bool.false_eq_true, if_false, dataOf, prettyHashData_eq, hashData_eq, HashData.onValue_entry, List.map_map]
      refine congrArg _ (List.map_congr_left fun e he => ?_)
      obtain ⟨a, ha⟩ := HashData.mem_entry.1 he
      obtain ⟨_, _, _, hs⟩ := prettySafeHash_mem h _ a _ ha
      simp only [Function.comp]
      rw [ih _ a _ ha hs]
  | hA ds ih =>
    rw [PrettySafe] at h
    simp only [Yaml.pretty]
    split
    · rename_i he; simp at he; subst he; rfl
    · simp only [Bool.false_eq_true, if_false]
      rw [dataOf_autoInline]
      simp only [dataOf, prettyArrayData_eq, arrayData_eq, ArrayData.onValue_value, List.map_map]
      refine congrArg _ (List.map_congr_left fun v hv => ?_)
      obtain ⟨a, ha⟩ := ArrayData.mem_value.1 hv
      obtain ⟨_, _, hs⟩ := prettySafeArray_mem h a v ha
      exact ih a v ha hs
  | hS ps =>
    rw [PrettySafe] at h
    rw [Yaml.pretty]
    rcases h _ rfl with ⟨-, hl, -⟩ | ⟨-, -, -, hb | ⟨-, hf⟩⟩
    · exact dataOf_prettySingleQuoted (.inl hl)
    · exact prettySingleQuoted_blank hb
    · exact dataOf_prettySingleQuoted (.inr (.inl hf))
  | hD ps =>
    rw [PrettySafe] at h
    rw [Yaml.pretty]
    rcases h _ rfl with ⟨-, hl⟩ | ⟨-, -, -, hb | hf⟩
    · exact dataOf_prettyDoubleQuoted (.inl hl)
    · exact prettyDoubleQuoted_escape hb
    · exact dataOf_prettyDoubleQuoted (.inr (.inl hf))
  | hU s => simp [Yaml.pretty]
  | hF ls c => rfl
  | hL ls c => rfl
  | hN a => rfl

mutual
theorem pretty_flowEmpty : (y : Yaml) → ∀ i c, (flowEmpty y).pretty i c = y.pretty i c
  | .inlineHash es, i, c => by simp [flowEmpty, Yaml.pretty, pretty_flowEmptyEntries es]
  | .hash [], i, c => by simp [flowEmpty, Yaml.pretty, prettyEntries]
  | .hash (d :: ds), i, c => by
    have h1 := pretty_flowEmptyHash (d :: ds)
    have h2 := pretty_flowEmptyHashIn (d :: ds)
    have he : (flowEmptyHash (d :: ds)).isEmpty = false := by
      match d with
      | .element ⟨k, ⟨a, v⟩⟩ => rfl
      | .comment c => rfl
      | .inlineComment c => rfl
    simp only [flowEmpty, Yaml.pretty, he, h1, h2, List.isEmpty_cons]
  | .inlineArray es, i, c => by simp [flowEmpty, Yaml.pretty, pretty_flowEmptyYamls es]
  | .array [], i, c => by simp [flowEmpty, Yaml.pretty, prettyYamls]
  | .array (d :: ds), i, c => by
    have h1 := pretty_flowEmptyArray (d :: ds)
    have h2 := pretty_flowEmptyArrayIn (d :: ds)
    have he : (flowEmptyArray (d :: ds)).isEmpty = false := by
      match d with
      | .element ⟨a, v⟩ => rfl
      | .comment c => rfl
      | .inlineComment c => rfl
    simp only [flowEmpty, Yaml.pretty, he, h1, h2, List.isEmpty_cons]
  | .singleQuotedString _, _, _ => by rw [flowEmpty]
  | .doubleQuotedString _, _, _ => by rw [flowEmpty]
  | .unquotedString _, _, _ => by rw [flowEmpty]
  | .foldedString _ _, _, _ => by rw [flowEmpty]
  | .literalString _ _, _, _ => by rw [flowEmpty]
  | .anchor _, _, _ => by rw [flowEmpty]
theorem pretty_flowEmptyEntries : (es : List (Str × Yaml)) → prettyEntries (flowEmptyEntries es) = prettyEntries es
  | [] => rfl
  | (k, v) :: t => by simp [flowEmptyEntries, prettyEntries, pretty_flowEmpty v, pretty_flowEmptyEntries t]
theorem pretty_flowEmptyHash : (ds : List HashData) → prettyHashData (flowEmptyHash ds) = prettyHashData ds
  | [] => rfl
  | .element ⟨k, ⟨a, v⟩⟩ :: t => by simp [flowEmptyHash, prettyHashData, pretty_flowEmpty v, pretty_flowEmptyHash t]
  | .comment c :: t => by simp [flowEmptyHash, prettyHashData, pretty_flowEmptyHash t]
  | .inlineComment c :: t => by simp [flowEmptyHash, prettyHashData, pretty_flowEmptyHash t]
theorem pretty_flowEmptyHashIn : (ds : List HashData) → hashToEntries (flowEmptyHash ds) = hashToEntries ds
  | [] => rfl
  | .element ⟨k, ⟨a, v⟩⟩ :: t => by simp [flowEmptyHash, hashToEntries, pretty_flowEmpty v, pretty_flowEmptyHashIn t]
  | .comment c :: t => by simp [flowEmptyHash, hashToEntries, pretty_flowEmptyHashIn t]
  | .inlineComment c :: t => by simp [flowEmptyHash, hashToEntries, pretty_flowEmptyHashIn t]
theorem pretty_flowEmptyYamls : (es : List Yaml) → prettyYamls (flowEmptyYamls es) = prettyYamls es
  | [] => rfl
  | v :: t => by simp [flowEmptyYamls, prettyYamls, pretty_flowEmpty v, pretty_flowEmptyYamls t]
theorem pretty_flowEmptyArray : (ds : List ArrayData) → prettyArrayData (flowEmptyArray ds) = prettyArrayData ds
  | [] => rfl
  | .element ⟨a, v⟩ :: t => by simp [flowEmptyArray, prettyArrayData, pretty_flowEmpty v, pretty_flowEmptyArray t]
  | .comment c :: t => by simp [flowEmptyArray, prettyArrayData, pretty_flowEmptyArray t]
  | .inlineComment c :: t => by simp [flowEmptyArray, prettyArrayData, pretty_flowEmptyArray t]
theorem pretty_flowEmptyArrayIn : (ds : List ArrayData) → arrayToYamls (flowEmptyArray ds) = arrayToYamls ds
  | [] => rfl
  | .element ⟨a, v⟩ :: t => by simp [flowEmptyArray, arrayToYamls, pretty_flowEmpty v, pretty_flowEmptyArrayIn t]
  | .comment c :: t => by simp [flowEmptyArray, arrayToYamls, pretty_flowEmptyArrayIn t]
  | .inlineComment c :: t => by simp [flowEmptyArray, arrayToYamls, pretty_flowEmptyArrayIn t]
end

/-! ## C50 -/

theorem readableRoot_pretty {y : Yaml} (h : ReadableRoot T y) (hs : PrettySafe T false false false false false y) :
    ReadableRoot T (y.pretty false false) := by
  cases h with
  | @hash e ds h =>
    obtain ⟨k, ⟨a, v⟩⟩ := e
    rw [PrettySafe] at hs
    have := entries_pretty h (by simpa using hs) fun _ _ v _ => staysReadable v
    rw [Yaml.pretty, if_neg (by simp), if_neg (by simp)]
    rw [prettyHashData] at this ⊢
    exact .hash this
  | @array e ds h =>
    obtain ⟨a, v⟩ := e
    rw [PrettySafe] at hs
    have := elements_pretty h (by simpa using hs) fun _ v _ => staysReadable v
    rw [Yaml.pretty, if_neg (by simp), if_neg (by simp), autoInline, Bool.false_and, Bool.false_and, if_neg (by simp)]
    rw [prettyArrayData] at this ⊢
    exact .array this

/-- **C50** The document made by `pretty` is one that survives formatting and parsing. -/
theorem C50_pretty_readable (T : CharTables) (d : Document) (h : ReadableDocument T d) (hs : PrettySafeDocument T d) : ReadableDocument T d.pretty := by
  obtain ⟨lead, items⟩ := d
  obtain ⟨hlead, pre, post, root, hitems, hcs, hroot⟩ := h
  dsimp only at hitems hlead
  subst hitems
  refine ⟨hlead, pre, post, root.pretty false false, ?_, hcs, readableRoot_pretty hroot (hs root (by simp))⟩
  simp [Document.pretty, DocumentData.pretty, Function.comp_def]

/-- **C50** The text of a document made by `pretty` parses, and gives a document with the same comments in the same places and the
same data as the document before `pretty`. -/
theorem C50_pretty_documents_parse (T : CharTables) (d : Document) (h : ReadableDocument T d) (hs : PrettySafeDocument T d) :
    ∃ d', parseYamlFile T d.pretty.format = .ok d' ∧ d'.leadingComments = d.leadingComments ∧ d'.items.length = d.items.length ∧
      ∀ i (hi : i < d.items.length), match d.items[i], d'.items[i]? with
        | .comment c, some (.comment c') => c' = c
        | .yaml y, some (.yaml y') => dataOf y' = dataOf y
        | _, _ => False := by
  refine ⟨d.pretty, C41_formatted_documents_parse T _ (C50_pretty_readable T d h hs), rfl, by simp [Document.pretty], fun i hi => ?_⟩
  simp only [Document.pretty, List.getElem?_map, List.getElem?_eq_getElem hi, Option.map_some]
  have hm : d.items[i] ∈ d.items := List.getElem_mem hi
  match hd : d.items[i] with
  | .comment c => rfl
  | .yaml y =>
    simp only [DocumentData.pretty]
    exact dataOf_pretty_safe (T := T) y (hs y (by rw [← hd]; exact hm))

/-- **C50** Serializing a value, making the node pretty, formatting, parsing and deserializing gives the value back. -/
theorem C50_pretty_values_survive_text (T : CharTables) (Γ : Nat → Ty) (ty : Ty) (v : SVal) (ht : HasTy Γ ty v) (hl : Lossless v)
    (hf : AllText (fun s => byteLen s ≤ 90 ∨ SurvivesFolding 90 s) v) (y : Yaml) (hs : v.ser = some y)
    (hr : ReadableDocument T (docOf (flowEmpty y))) (hp : PrettySafeDocument T (docOf (flowEmpty y))) :
    ∃ n, ∀ m, n ≤ m → fromYamlStr T Γ m ty (docOf y).pretty.format = .ok v := by
  obtain ⟨n, hn⟩ := C10_pretty_roundtrip Γ ty v ht hl hf y hs false false
  refine ⟨n, fun m hm => ?_⟩
  have h := C41_formatted_documents_parse T _ (C50_pretty_readable T _ hr hp)
  have he : (docOf (flowEmpty y)).pretty = docOf (y.pretty false false) := by
    simp [docOf, Document.pretty, DocumentData.pretty, pretty_flowEmpty]
  have he' : (docOf y).pretty = docOf (y.pretty false false) := by
    simp [docOf, Document.pretty, DocumentData.pretty]
  rw [he] at h
  rw [he', fromYamlStr_docOf h]
  exact hn m hm

/-! ## examples -/

/-- Quoted scalars that change their style, sequences that become flow sequences, empty collections. -/
def prettyExample : Document where
  leadingComments := [c!" top"]
  items := [.yaml (.hash [
    kv c!"text" (.doubleQuotedString [.string c!"one", .escapedChar .newline, .string c!"two"]),
    kv c!"word" (.singleQuotedString [.string c!"a b"]), .inlineComment c!" w",
    kv c!"number" (.singleQuotedString [.string c!"5"]),
    kv c!"rows" (.array [elem (.array [elem (.unquotedString c!"1"), elem (.singleQuotedString [.string c!"b"])]),
      elem (.inlineArray [.unquotedString c!">", .inlineHash []]),
      .comment c!" r", elem (.hash [kv c!"k" (.singleQuotedString [.string c!"v, w"])])])]), .comment c!" after"]

example : String.ofList prettyExample.format = "# top
---
text: \"one\\ntwo\"
word: 'a b' # w
number: '5'
rows:
  - - 1
    - 'b'
  - [ >, {} ]
  # r
  - k: 'v, w'
# after" := by decide +kernel

example : String.ofList prettyExample.pretty.format = "# top
---
text: |-
  one
  two
word: a b # w
number: '5'
rows:
  - [ 1, b ]
  - [ '>', {} ]
  # r
  - k: 'v, w'
# after" := by decide +kernel

theorem prettyExample_readable : ReadableDocument asciiTables prettyExample := by
  have hk : ∀ {k : Str}, _ → KeyText asciiTables k := fun h => keyText_of (k := _) h
  refine ⟨by decide, [], [c!" after"], _, rfl, by decide, ?_⟩
  refine .hash (.entry (hk (by decide)) no_name (.oneLine (.double ?_)) (.entryComment (hk (by decide)) no_name (.single (.one (by decide))) trivial (by decide)
    (.entry (hk (by decide)) no_name (.oneLine (.single (.one (by decide)))) (.last (hk (by decide)) no_name (.array ?_)))))
  · exact .cons (by decide) (by simp) (by simp) (.cons (by decide) (by simp) (by simp) (.one (by decide)))
  · refine .element no_name ?_ (.element no_name (.oneLine (.array (.array ?_))) (.comment (by decide) (.last no_name ?_)))
    · exact .seqMore (.inl rfl) no_name (.oneLine (.plain (blockPlain_simple (by decide)))) (.last no_name (.oneLine (.single (.one (by decide)))))
    · intro v hv
      simp only [List.mem_cons, List.not_mem_nil, or_false] at hv
      rcases hv with rfl | rfl
      · exact .plain ⟨by decide, by decide, by decide, by decide, (by intro a b h; have := congrArg List.length h; simp at this; omega), by decide, by decide, (by simp)⟩
      · exact .hash (by simp) (by simp)
    · exact .altOne (.inl rfl) (by simp) (hk (by decide)) no_name (.oneLine (.single (.one (by decide))))

theorem prettyExample_safe : PrettySafeDocument asciiTables prettyExample := by
  have h1 : ∀ {y : Yaml}, DocumentData.yaml y ∈ prettyExample.items → prettyExample.items[0] = .yaml y := by
    intro y h
    simp only [prettyExample, List.mem_cons, List.not_mem_nil, or_false, reduceCtorEq] at h
    rw [h]; rfl
  intro y hy
  have := h1 hy
  simp only [prettyExample, List.getElem_cons_zero, DocumentData.yaml.injEq] at this
  subst this
  simp only [PrettySafe, PrettySafeHash, PrettySafeArray, kv, elem, inlineNextHash, inlineNextArray, ScalarSafe, Yaml.asString, Option.some.injEq, forall_eq']
  refine ⟨?_, ⟨.inl ⟨by simp, by decide, portableText_simple (by decide)⟩, .inl ⟨by simp, by decide, portableText_simple (by decide)⟩, ?_, trivial⟩⟩
  · exact .inr ⟨by simp, by simp, ⟨⟨'o', c!"ne\ntwo", rfl, by decide⟩, by decide⟩, .inl ⟨_, List.mem_cons_of_mem _ List.mem_cons_self⟩⟩
  · refine ⟨⟨fun _ => flowPlain_simple (by decide), .inl ⟨by simp, by decide, portableText_simple (by decide)⟩, trivial⟩, ?_,
      ⟨.inl ⟨by simp, by decide, portableText_simple (by decide)⟩, trivial⟩, trivial⟩
    refine .array fun v hv => ?_
    simp only [List.mem_cons, List.not_mem_nil, or_false] at hv
    rcases hv with rfl | rfl
    · exact .plain
    · exact .hash (by simp)

example : parseYamlFile asciiTables prettyExample.pretty.format = .ok prettyExample.pretty :=
  C41_formatted_documents_parse _ _ (C50_pretty_readable _ _ prettyExample_readable prettyExample_safe)

/-- The node of the example value. -/
def exampleNode : Yaml := .hash [kv c!"name" (.singleQuotedString [.string c!"null"]),
  kv c!"pts" (.array [elem (.inlineArray [plain c!"-5", plain c!"true"])]),
  kv c!"m" (.hash [kv c!"k" (plain c!"18446744073709551615")]),
  kv c!"list" (.hash [kv c!"head" (.doubleQuotedString [.string c!"a", .escapedChar .newline, .string c!"b"]), kv c!"tail" (plain c!"~")])]

theorem exampleNode_ser : exampleVal.ser = some exampleNode := by kernel_rfl

theorem exampleNode_safe : PrettySafeDocument asciiTables (docOf (flowEmpty exampleNode)) := by
  intro y hy
  have he : flowEmpty exampleNode = exampleNode := by kernel_rfl
  simp only [docOf, List.mem_singleton, DocumentData.yaml.injEq, he] at hy
  subst hy
  simp only [exampleNode, PrettySafe, PrettySafeHash, PrettySafeArray, kv, elem, plain, inlineNextHash, inlineNextArray, ScalarSafe, Yaml.asString,
    Option.some.injEq, forall_eq']
  refine ⟨.inl ⟨by simp, by decide, portableText_simple (by decide)⟩, ⟨.array fun v hv => ?_, trivial⟩, ⟨by simp, trivial⟩, ⟨?_, by simp, trivial⟩, trivial⟩
  · simp only [List.mem_cons, List.not_mem_nil, or_false] at hv
    rcases hv with rfl | rfl <;> exact .plain
  · exact .inr ⟨by simp, by simp, ⟨⟨'a', c!"\nb", rfl, by decide⟩, by decide⟩, .inl ⟨_, List.mem_cons_of_mem _ List.mem_cons_self⟩⟩

example : ∃ n, ∀ m, n ≤ m → fromYamlStr asciiTables exampleEnv m exampleTy (docOf exampleNode).pretty.format = .ok exampleVal :=
  C50_pretty_values_survive_text _ _ _ _ exampleVal_hasTy exampleVal_lossless exampleVal_allText _ exampleNode_ser
    ⟨by simp [docOf], [], [], flowEmpty exampleNode, rfl, by simp, portableRoot_readable exampleVal_portable exampleNode_ser⟩ exampleNode_safe

/-! ## documents that `pretty` breaks -/

/-- The document survives formatting and parsing, but after `pretty` its text is read as `o`. -/
def Breaks (T : CharTables) (d : Document) (o : Out Document) : Prop := parseYamlFile T d.format = .ok d ∧ parseYamlFile T d.pretty.format = o

/-- **C50** A plain scalar with a comma, in a sequence inside a sequence, becomes two elements. -/
theorem C50_counterexample_comma :
    Breaks asciiTables (docOf (.array [elem (.array [elem (plain c!"a, b"), elem (plain c!"c")])]))
      (.ok (docOf (.array [elem (.inlineArray [plain c!"a", plain c!"b", plain c!"c"])]))) := ⟨by kernel_rfl, by kernel_rfl⟩

/-- **C50** A text with a carriage return and a line break loses the carriage return. -/
theorem C50_counterexample_return :
    Breaks asciiTables (docOf (.hash [kv c!"a" (.doubleQuotedString [.string c!"x", .escapedChar .carriageReturn, .escapedChar .newline, .string c!"y"])]))
      (.ok (docOf (.hash [kv c!"a" (.literalString [c!"x", c!"y"] .strip)]))) := ⟨by kernel_rfl, by kernel_rfl⟩

/-- **C50** A text that starts with a line break loses it. -/
theorem C50_counterexample_newline :
    Breaks asciiTables (docOf (.hash [kv c!"a" (.doubleQuotedString [.escapedChar .newline, .string c!"x"])]))
      (.ok (docOf (.hash [kv c!"a" (.literalString [c!"x"] .strip)]))) := ⟨by kernel_rfl, by kernel_rfl⟩

/-- **C50** A quoted text in the first entry of a mapping inside a sequence becomes a block scalar and takes the next entry. -/
theorem C50_counterexample_first_entry :
    Breaks asciiTables (docOf (.array [elem (.hash [kv c!"k" (.doubleQuotedString [.string c!"x", .escapedChar .newline]), kv c!"l" (plain c!"v")])]))
      (.ok (docOf (.array [elem (.hash [kv c!"k" (.literalString [c!"x", c!" v"] .keep)])]))) := ⟨by kernel_rfl, by kernel_rfl⟩

/-- **C50** A single-quoted text with a blank line in a flow sequence becomes a block scalar: the text does not parse. -/
theorem C50_counterexample_flow :
    Breaks asciiTables (docOf (.hash [kv c!"k" (.inlineArray [.singleQuotedString [.string c!"x", .blankLines 1, .string c!"y"]])])) .err :=
  ⟨by kernel_rfl, by kernel_rfl⟩

/-- **C50** A quoted text in front of a comment becomes a block scalar, and the comment becomes a part of it. -/
theorem C50_counterexample_comment :
    Breaks asciiTables (docOf (.hash [kv c!"k" (.doubleQuotedString [.string c!"x", .escapedChar .newline, .string c!"y"]), .inlineComment c!" c"]))
      (.ok (docOf (.hash [kv c!"k" (.literalString [c!"x", c!"y # c"] .strip)]))) := ⟨by kernel_rfl, by kernel_rfl⟩

/-- **C50** A single-quoted text that looks like a reference loses its quotes and becomes one. -/
theorem C50_counterexample_reference :
    Breaks asciiTables (docOf (.hash [kv c!"k" (.singleQuotedString [.string c!"*x"])]))
      (.ok (docOf (.hash [kv c!"k" (.anchor c!"x")]))) := ⟨by kernel_rfl, by kernel_rfl⟩

end YamlSubset
