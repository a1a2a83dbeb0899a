import Verif.Lemmas.PrettyView
import Verif.Props.FromStr
import Verif.Props.RoundTrip

/-! # Pretty printing and deserialization (C59) -/

namespace YamlSubset

open Spec

variable {T : CharTables}

/-- **C59** Pretty printing keeps everything that deserialization can see exactly when no text is damaged by folding and no quotes are
dropped that matter. -/
theorem C59_view_iff (y : Yaml) (h : BlockOutsideFlow y) (c : Bool) : viewOf (y.pretty false c) = viewOf y ↔ KeepsReading y :=
  view_pretty_iff h c

/-- **C59** Under these conditions the pretty tree is deserialized to the same result at every type: the same value, or an error like before. -/
theorem C59_same_result (y : Yaml) (h : BlockOutsideFlow y) (hk : KeepsReading y) (c : Bool) (Γ : Nat → Ty) (n : Nat) (ty : Ty) :
    fromYaml Γ n ty (y.pretty false c) = fromYaml Γ n ty y :=
  fromYaml_same Γ n ty ((view_pretty_iff h c).2 hk)

/-- **C59** Inside flow collections no conditions are needed. -/
theorem C59_flow (y : Yaml) (h : FlowOnly y) (c : Bool) (Γ : Nat → Ty) (n : Nat) (ty : Ty) :
    fromYaml Γ n ty (y.pretty true c) = fromYaml Γ n ty y :=
  fromYaml_same Γ n ty (view_pretty_flow h c)

/-- **C59** For a single scalar the conditions are necessary: when they do not hold there is a type that tells the difference. -/
theorem C59_scalar_exact (y : Yaml) (s : Str) (hy : y.asString = some s) (c : Bool) :
    (∀ Γ n ty, fromYaml Γ n ty (y.pretty false c) = fromYaml Γ n ty y) ↔ KeepsReading y := by
  have hb : BlockOutsideFlow y := by
    cases y <;> simp [Yaml.asString] at hy
    · exact .flow (.singleQuotedString _)
    · exact .flow (.doubleQuotedString _)
    · exact .flow (.unquotedString _)
    · exact .flow (.foldedString _ _)
    · exact .flow (.literalString _ _)
  constructor
  · intro h z hz
    have hz' : z = y := by cases hz <;> first | rfl | simp [Yaml.asString] at hy
    subst hz'
    constructor
    · intro hl
      cases hl with
      | mk ps hbl hw =>
        obtain ⟨h1, h2, h3⟩ := looseWords_unquotable _ hw
        have hp : (Yaml.singleQuotedString ps).pretty false c = .unquotedString (parseSingleQuoted ps) := by
          simp only [Yaml.pretty, prettySingleQuoted]
          split
          · rename_i hx; exact absurd (hx.symm.trans (any_blank_false.2 hbl)) (by decide)
          · simp [h1, h2, h3, maxLineLength]
        rw [hp] at h
        have h := (C45_quotes_exact _ (.singleQuotedString ps) rfl (by simp)).1 h
        rw [special_of_unquotable h1] at h
        exact h hw
    · intro t hf
      have h := h (fun _ => .any) 1 .str
      have hs : ∀ z : Yaml, ∀ x, z.asString = some x → fromYaml (fun _ => .any) 1 .str z = .ok (.str x) := by
        intro z x hx
        simp [fromYaml, de, intoResolved_of_string hx, hx, Out.bind]
      have ht := folded_data hf
      rw [← asString_iff] at ht
      rw [hy] at ht
      cases ht
      obtain ⟨x, hx⟩ : ∃ x, (z.pretty false c).asString = some x := by
        rw [pretty_folded hf]; exact ⟨_, rfl⟩
      rw [hs _ _ hx, hs _ _ hy] at h
      cases h
      have := (C31_pretty_scalar_iff z _ false c hy).1 hx
      exact Classical.byContradiction fun hn => this ⟨rfl, hf, hn⟩
  · intro hk Γ n ty; exact C59_same_result y hb hk c Γ n ty

/-- **C59** For texts: if a text is read as a document that formatting keeps (C41, C43) and that `pretty` does not break (C50), then
the text of the pretty document is deserialized to the same result at every type. -/
theorem C59_texts (s : Str) (d : Document) (h : parseYamlFile T s = .ok d) (hr : ReadableDocument T d) (hs : PrettySafeDocument T d)
    (hk : ∀ y ∈ yamlItems d, KeepsReading y) (Γ : Nat → Ty) (n : Nat) (ty : Ty) :
    fromYamlStr T Γ n ty d.pretty.format = fromYamlStr T Γ n ty s := by
  obtain ⟨root, hroot, hv⟩ := (C47_text T Γ n ty s).1 d h
  have hp := C41_formatted_documents_parse T _ (C50_pretty_readable T d hr hs)
  obtain ⟨root', hroot', hv'⟩ := (C47_text T Γ n ty _).1 _ hp
  have he : yamlItems d.pretty = (yamlItems d).map (Yaml.pretty false false) := by
    simp only [yamlItems, Document.pretty, List.filterMap_map, List.map_filterMap]
    congr 1
    funext i
    cases i <;> rfl
  rw [he, hroot] at hroot'
  simp only [List.map_cons, List.map_nil, List.cons.injEq, and_true] at hroot'
  subst hroot'
  rw [hv, hv']
  have hb : BlockOutsideFlow root := by
    obtain ⟨pre, post, r, hi, hpv⟩ := (C39_parsed_well_formed h).items
    have : r ∈ yamlItems d := by
      simp only [yamlItems, List.mem_filterMap]
      exact ⟨.yaml r, by simp [hi], rfl⟩
    rw [hroot, List.mem_singleton] at this
    subst this
    exact parsed_blockOutsideFlow (by first | exact hpv | exact hpv.1 | exact hpv.2.1 | exact hpv.2.2 | exact hpv.2.2.1)
  exact C59_same_result root hb (hk root (by simp [hroot])) false Γ n ty

/-! ## examples -/

theorem prettyExample_keeps : ∀ y ∈ yamlItems prettyExample, KeepsReading y := by
  intro y hy
  have h : yamlItems prettyExample = [y] := by
    simp only [yamlItems, prettyExample, List.filterMap_cons, List.filterMap_nil, List.mem_singleton] at hy ⊢
    rw [hy]
  have hv : viewOf (y.pretty false false) = viewOf y := by
    simp only [yamlItems, prettyExample, List.filterMap_cons, List.filterMap_nil, List.mem_singleton] at hy
    subst hy
    kernel_rfl
  refine (C59_view_iff y ?_ false).1 hv
  have hp : parseYamlFile asciiTables prettyExample.format = .ok prettyExample := C41_formatted_documents_parse _ _ prettyExample_readable
  obtain ⟨pre, post, r, hi, -, -, hpv⟩ := (C39_parsed_well_formed hp).items
  have : r ∈ yamlItems prettyExample := by
    simp only [yamlItems, List.mem_filterMap]
    exact ⟨.yaml r, by simp [hi], rfl⟩
  rw [h, List.mem_singleton] at this
  subst this
  exact parsed_blockOutsideFlow hpv

/-- **C59** An example with a text that becomes a block scalar, quotes that are dropped, quotes that are kept and sequences that change their style. -/
theorem C59_example (Γ : Nat → Ty) (n : Nat) (ty : Ty) :
    fromYamlStr asciiTables Γ n ty prettyExample.pretty.format = fromYamlStr asciiTables Γ n ty prettyExample.format :=
  C59_texts _ _ (C41_formatted_documents_parse _ _ prettyExample_readable) prettyExample_readable prettyExample_safe prettyExample_keeps Γ n ty

/-- … and what is read from both texts. -/
example : fromYamlStr asciiTables (fun _ => .any) 20 .any prettyExample.pretty.format =
    .ok (.map [(.str c!"text", .str c!"one\ntwo"), (.str c!"word", .str c!"a b"), (.str c!"number", .str c!"5"),
      (.str c!"rows", .seq [.seq [.int 1, .str c!"b"], .seq [.str c!">", .map []], .map [(.str c!"k", .str c!"v, w")]])]) := by
  kernel_rfl

/-- What is read at a type from a text and from the text of the pretty document. -/
def readBefore (ty : Ty) (s : Str) : Out SVal := fromYamlStr asciiTables (fun _ => .any) 20 ty s
def readAfter (ty : Ty) (s : Str) : Out SVal := (parseYamlFile asciiTables s).bind fun d => fromYamlStr asciiTables (fun _ => .any) 20 ty d.pretty.format

/-- **C59** The quotes of `'yes'` are dropped: the string becomes a boolean. -/
theorem C59_counterexample_bool : readBefore (.struct [(c!"a", .bool)]) c!"---\na: 'yes'\n" = .err ∧
    readAfter (.struct [(c!"a", .bool)]) c!"---\na: 'yes'\n" = .ok (.struct [(c!"a", .bool true)]) := by
  constructor <;> kernel_rfl

/-- **C59** The quotes of `'Null'` are dropped: the string becomes null, at optional strings and where the type is not known. -/
theorem C59_counterexample_null : readBefore (.struct [(c!"a", .option .str)]) c!"---\na: 'Null'\n" = .ok (.struct [(c!"a", .some (.str c!"Null"))]) ∧
    readAfter (.struct [(c!"a", .option .str)]) c!"---\na: 'Null'\n" = .ok (.struct [(c!"a", .none)]) ∧
    readBefore .any c!"---\na: 'Null'\n" = .ok (.map [(.str c!"a", .str c!"Null")]) ∧
    readAfter .any c!"---\na: 'Null'\n" = .ok (.map [(.str c!"a", .unit)]) := by
  refine ⟨?_, ?_, ?_, ?_⟩ <;> kernel_rfl

/-- **C59** In a tree where a flow collection contains a block collection, an anchor definition is lost, and its reference cannot be read. -/
theorem C59_counterexample_anchor :
    let y := Yaml.inlineArray [.array [.element ⟨some c!"x", .unquotedString c!"1"⟩], .anchor c!"x"]
    fromYaml (fun _ => .any) 20 .any y = .ok (.seq [.seq [.int 1], .int 1]) ∧ fromYaml (fun _ => .any) 20 .any (y.pretty false false) = .err := by
  constructor <;> kernel_rfl

end YamlSubset
