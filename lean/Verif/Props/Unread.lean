import Verif.Lemmas.Unread
import Verif.Props.EditCommute
import Verif.Props.ValueEdit

/-! # Edits at places that a type does not read (C66) -/

namespace YamlSubset

open Spec

/-- The document has one root, and this is deserialized to `v` at the type. -/
def DocReads (Γ : Nat → Ty) (ty : Ty) (d : Document) (v : SVal) : Prop := ∃ root n, yamlItems d = [root] ∧ fromYaml Γ n ty root = .ok v

/-- What a parsed document is deserialized to is what its text is deserialized to. -/
theorem docReads_text (T : CharTables) (Γ : Nat → Ty) (ty : Ty) {s : Str} {d : Document} (h : parseYamlFile T s = .ok d) (v : SVal) :
    DocReads Γ ty d v ↔ ∃ n, fromYamlStr T Γ n ty s = .ok v := by
  constructor
  · rintro ⟨root, n, hr, hv⟩
    obtain ⟨root', hr', e⟩ := (C47_text T Γ n ty s).1 d h
    rw [hr] at hr'
    cases hr'
    exact ⟨n, by rw [e, hv]⟩
  · rintro ⟨n, hv⟩
    obtain ⟨root, hr, e⟩ := (C47_text T Γ n ty s).1 d h
    exact ⟨root, n, hr, by rw [← e, hv]⟩

theorem run_noRefs {e : Edit} (hl : (lastKey e.path).isSome) (hn : e.NoRefs) {d : Document} (hr : DocNoRefs d) {root : Yaml} (hroot : yamlItems d = [root]) :
    DocNoRefs (e.run d).2 := by
  obtain ⟨k, hk⟩ := Option.isSome_iff_exists.1 hl
  obtain ⟨v, hv, -⟩ := C65_has_value (fun _ => .any) d hr hroot
  match e, hk, hn with
  | .insert p h o, hk, hn =>
    refine (docEdits_value (F := fun _ _ => True) ?_ _ (insert_edits d p h o) hr hv).1
    rintro ds ds' ⟨k', hk', he | ⟨-, he⟩⟩ hd
    · exact ⟨(appends_value hn he hd).1, trivial⟩
    · exact ⟨(overwrites_value hn he hd).1, trivial⟩
  | .remove p, hk, hn =>
    refine (docEdits_value (F := fun _ _ => True) ?_ _ (C20_remove_one_entry d p) hr hv).1
    rintro ds ds' ⟨k', hk', he⟩ hd
    exact ⟨(removes_value he hd).1, trivial⟩
  | .rename p new, hk, hn =>
    refine (docEdits_value (F := fun _ _ => True) ?_ _ (C21_rename_only_names d p new) hr hv).1
    rintro ds ds' ⟨k', hk', he⟩ hd
    exact ⟨(renames_value he hd).1, trivial⟩
  | .toObject p obj, hk, hn =>
    refine (docEdits_value (F := fun _ _ => True) ?_ _ (C22_to_object_wraps d p obj) hr hv).1
    rintro ds ds' ⟨k', hk', he⟩ hd
    exact ⟨(wraps_value he hd).1, trivial⟩

/-- **C66.** An edit at a place that a type does not read does not change what the document is deserialized to at this type: the same
value, or an error in both cases. For every document without references (and without block collections in flow collections, as every
parsed one), every type and every edit. -/
theorem C66_unread (Γ : Nat → Ty) (ty : Ty) (e : Edit) (hl : (lastKey e.path).isSome) (hu : Unread Γ e.names ty e.path) (hp : e.Plain) (hn : e.NoRefs)
    (d : Document) (hd : ∀ y ∈ yamlItems d, BlockOutsideFlow y) (hr : DocNoRefs d) (v : SVal) :
    DocReads Γ ty d v ↔ DocReads Γ ty (e.run d).2 v := by
  obtain ⟨g, f, k, P, E⟩ := editsAs e hl hp
  have hitems : yamlItems (e.run d).2 = (yamlItems d).map fun y => (g y).2 := by rw [E.run, overItems_items]
  have key : ∀ root, yamlItems d = [root] → ((∃ n, fromYaml Γ n ty root = .ok v) ↔ ∃ n, fromYaml Γ n ty (g root).2 = .ok v) := by
    intro root hroot
    have h1 : NoRefs root := hr root (by rw [hroot]; simp)
    have h2 : NoRefs (g root).2 := run_noRefs hl hn hr hroot _ (by rw [hitems, hroot]; simp)
    rw [C51_deserialize_exact Γ ty h1, C51_deserialize_exact Γ ty h2, E.tree root (hd root (by rw [hroot]; simp))]
    exact editHash_unread E.patch hu E.last root v
  constructor
  · rintro ⟨root, n, hroot, hv⟩
    obtain ⟨m, hm⟩ := (key root hroot).1 ⟨n, hv⟩
    exact ⟨_, m, by rw [hitems, hroot]; rfl, hm⟩
  · rintro ⟨root', n, hroot', hv⟩
    rw [hitems] at hroot'
    obtain ⟨root, hroot, rfl⟩ : ∃ root, yamlItems d = [root] ∧ (g root).2 = root' := by
      match hm : yamlItems d, hroot' with
      | [root], h => exact ⟨root, rfl, by simpa using h⟩
    obtain ⟨m, hm⟩ := (key root hroot).2 ⟨n, hv⟩
    exact ⟨root, m, hroot, hm⟩

/-- **C66.** The same from text to text: the text is parsed, edited and written. The written text must be readable as the edited document
(C55 says when this is so). -/
theorem C66_text (T : CharTables) (Γ : Nat → Ty) (ty : Ty) (e : Edit) (hl : (lastKey e.path).isSome) (hu : Unread Γ e.names ty e.path) (hp : e.Plain)
    (hn : e.NoRefs) (s : Str) (d : Document) (hs : parseYamlFile T s = .ok d) (hw : parseYamlFile T (e.run d).2.format = .ok (e.run d).2)
    (hr : DocNoRefs d) (v : SVal) :
    (∃ n, fromYamlStr T Γ n ty s = .ok v) ↔ ∃ n, fromYamlStr T Γ n ty (e.run d).2.format = .ok v := by
  rw [← docReads_text T Γ ty hs, ← docReads_text T Γ ty hw]
  exact C66_unread Γ ty e hl hu hp hn d (parsed_items hs) hr v

/-! ## Examples -/

/-- A type for `jobs`, each with a name and perhaps a size. -/
def jobsTy : Ty := .struct [(c!"jobs", .seq (.struct [(c!"name", .str), (c!"size", .option (.int .u8))]))]

/-- A new entry in each job that is not a field of the type, a renaming of an entry that is not a field to another one that is not, and
a whole new entry: the type does not see them. -/
theorem C66_example_unread (Γ : Nat → Ty) (h : AliasedYaml) (o : Bool) :
    Unread Γ (Edit.names (.insert (.key c!"jobs" [] (some (.allIndexes [⟨c!"name", c!"a"⟩] (some (.key c!"kind" [] none))))) h o)) jobsTy
      (.key c!"jobs" [] (some (.allIndexes [⟨c!"name", c!"a"⟩] (some (.key c!"kind" [] none))))) ∧
    Unread Γ (Edit.names (.rename (.key c!"jobs" [] (some (.indexes [1] [] (some (.key c!"kind" [] none))))) c!"sort")) jobsTy
      (.key c!"jobs" [] (some (.indexes [1] [] (some (.key c!"kind" [] none))))) ∧
    Unread Γ (Edit.names (.insert (.key c!"other" [] (some (.key c!"name" [] none))) h o)) jobsTy
      (.key c!"other" [] (some (.key c!"name" [] none))) := by
  refine ⟨.field rfl (.seqAll (.last ?_)), .field rfl (.seqSome (.last ?_)), .noField ?_⟩
  · simp [Edit.names, lastKey]
  · simp [Edit.names, lastKey]
  · simp

theorem C66_example (Γ : Nat → Ty) :
    fromYamlStr asciiTables Γ 9 jobsTy c!"---\njobs:\n  - name: a\n    size: 3\n  - name: b\n    kind: x\n" =
      .ok (.struct [(c!"jobs", .seq [.struct [(c!"name", .str c!"a"), (c!"size", .some (.int 3))], .struct [(c!"name", .str c!"b"), (c!"size", .none)]])]) ∧
    ∃ d, parseYamlFile asciiTables c!"---\njobs:\n  - name: a\n    size: 3\n  - name: b\n    kind: x\n" = .ok d ∧
      let e : Edit := .rename (.key c!"jobs" [] (some (.indexes [1] [] (some (.key c!"kind" [] none))))) c!"sort"
      (e.run d).1 = 1 ∧ fromYamlStr asciiTables Γ 9 jobsTy (e.run d).2.format =
      .ok (.struct [(c!"jobs", .seq [.struct [(c!"name", .str c!"a"), (c!"size", .some (.int 3))], .struct [(c!"name", .str c!"b"), (c!"size", .none)]])]) :=
  ⟨by kernel_rfl, _, rfl, by kernel_rfl, by kernel_rfl⟩

/-- **C66 (limit).** The new name of a renaming counts, too: a field that is given now, or twice. -/
theorem C66_counterexample_new_name (Γ : Nat → Ty) :
    let ty : Ty := .struct [(c!"a", .option .str)]
    let y : Yaml := .hash [kv c!"b" (plain c!"x")]
    fromYaml Γ 5 ty y = .ok (.struct [(c!"a", .none)]) ∧
    fromYaml Γ 5 ty (Yaml.renameField (.key c!"b" [] none) c!"a" y).2 = .ok (.struct [(c!"a", .some (.str c!"x"))]) :=
  ⟨by kernel_rfl, by kernel_rfl⟩

/-- **C66 (limit).** With references: an entry that is not a field can have a definition that a field refers to. -/
theorem C66_counterexample_reference (Γ : Nat → Ty) :
    let ty : Ty := .struct [(c!"a", .map .str .str)]
    let y : Yaml := .hash [.element ⟨c!"b", ⟨some c!"n", .hash [kv c!"x" (plain c!"u")]⟩⟩, kv c!"a" (.anchor c!"n")]
    Unread Γ (Edit.names (.rename (.key c!"b" [] (some (.key c!"x" [] none))) c!"y")) ty (.key c!"b" [] (some (.key c!"x" [] none))) ∧
    fromYaml Γ 5 ty y = .ok (.struct [(c!"a", .map [(.str c!"x", .str c!"u")])]) ∧
    fromYaml Γ 5 ty (Yaml.renameField (.key c!"b" [] (some (.key c!"x" [] none))) c!"y" y).2 = .ok (.struct [(c!"a", .map [(.str c!"y", .str c!"u")])]) :=
  ⟨.noField (by simp), by kernel_rfl, by kernel_rfl⟩

/-- **C66 (limit).** A map reads all of its entries. -/
theorem C66_counterexample_map (Γ : Nat → Ty) :
    let y : Yaml := .hash [kv c!"b" (plain c!"x")]
    fromYaml Γ 5 (.map .str .str) y = .ok (.map [(.str c!"b", .str c!"x")]) ∧
    fromYaml Γ 5 (.map .str .str) (Yaml.removeFromHash (.key c!"b" [] none) y).2 = .ok (.map []) :=
  ⟨by kernel_rfl, by kernel_rfl⟩

end YamlSubset
