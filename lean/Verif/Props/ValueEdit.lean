import Verif.Lemmas.ValueEdit
import Verif.Props.EditText
import Verif.Props.Decode
import Verif.Props.FromStr

/-! # What edits do to the deserialized value -/

namespace YamlSubset

open Spec

/-- The tree is deserialized to the value `v` at the self-describing type. -/
def HasValue (Γ : Nat → Ty) (y : Yaml) (v : SVal) : Prop := ∃ n, fromYaml Γ n .any y = .ok v

/-- The same for a document: it has one root, and this is deserialized to `v`. -/
def DocHasValue (Γ : Nat → Ty) (d : Document) (v : SVal) : Prop := ∃ root, yamlItems d = [root] ∧ HasValue Γ root v

/-- The document has no references `*name`. -/
def DocNoRefs (d : Document) : Prop := ∀ y ∈ yamlItems d, ∀ b, ¬RefersTo y b

theorem hasValue_iff (Γ : Nat → Ty) {y : Yaml} (h : NoRefs y) (v : SVal) : HasValue Γ y v ↔ v = anyValue y := by
  unfold HasValue
  rw [C51_deserialize_exact Γ .any h]
  exact ⟨fun hd => C51_decodes_unique h hd (decodes_anyValue Γ y h), fun e => e ▸ decodes_anyValue Γ y h⟩

/-- The value of a document is what is deserialized from its text. -/
theorem docHasValue_text (T : CharTables) (Γ : Nat → Ty) {s : Str} {d : Document} (h : parseYamlFile T s = .ok d) (v : SVal) :
    DocHasValue Γ d v ↔ ∃ n, fromYamlStr T Γ n .any s = .ok v := by
  constructor
  · rintro ⟨root, hr, n, hv⟩
    obtain ⟨root', hr', e⟩ := (C47_text T Γ n .any s).1 d h
    rw [hr] at hr'
    cases hr'
    exact ⟨n, by rw [e, hv]⟩
  · rintro ⟨n, hv⟩
    obtain ⟨root, hr, e⟩ := (C47_text T Γ n .any s).1 d h
    exact ⟨root, hr, n, by rw [← e, hv]⟩

theorem itemsEdit_roots {E} {n : Nat} {is is' : List DocumentData} (h : ItemsEdit E n is is') :
    ∀ {c c' : List Str} {y : Yaml}, yamlItems ⟨c, is⟩ = [y] → ∃ y' ls, yamlItems ⟨c', is'⟩ = [y'] ∧ ls.length = n ∧ Edits E ls y y' := by
  have nilcase : ∀ {n is is'}, ItemsEdit E n is is' → ∀ {c c' : List Str}, yamlItems ⟨c, is⟩ = [] → n = 0 ∧ yamlItems ⟨c', is'⟩ = [] := by
    intro n is is' h
    induction h with
    | nil => intro c c' _; exact ⟨rfl, rfl⟩
    | comment _ ih =>
      intro c c' hc
      simp only [yamlItems, List.filterMap_cons] at hc ⊢
      exact ih (c := c) (c' := c') hc
    | yaml h ht ih =>
      intro c c' hc
      simp [yamlItems, List.filterMap_cons] at hc
  induction h with
  | nil => intro c c' y hc; simp [yamlItems] at hc
  | comment _ ih =>
    intro c c' y hc
    simp only [yamlItems, List.filterMap_cons] at hc ⊢
    exact ih (c := c) (c' := c') hc
  | @yaml n ls z z' t t' h ht ih =>
    intro c c' y hc
    simp only [yamlItems, List.filterMap_cons, List.cons.injEq] at hc ⊢
    obtain ⟨rfl, hc⟩ := hc
    obtain ⟨rfl, h2⟩ := nilcase ht (c := c) (c' := c') hc
    exact ⟨z', ls, ⟨rfl, h2⟩, rfl, h⟩

/-- Edits of documents without references are changes of their values. -/
theorem docEdits_value {E F} (hE : ∀ ds ds', E ds ds' → NoRefs (.hash ds) → NoRefs (.hash ds') ∧ F (hashVals ds) (hashVals ds')) (Γ : Nat → Ty)
    {n : Nat} {d d' : Document} (h : DocEdits E n d d') (hr : DocNoRefs d) {v : SVal} (hv : DocHasValue Γ d v) :
    DocNoRefs d' ∧ ∃ v', DocHasValue Γ d' v' ∧ ValueEdits F n v v' := by
  obtain ⟨root, hroot, hv⟩ := hv
  have h1 : NoRefs root := hr root (by rw [hroot]; simp)
  rw [hasValue_iff Γ h1] at hv
  subst hv
  obtain ⟨y', ls, hy', rfl, he⟩ := itemsEdit_roots (c := d.leadingComments) (c' := d'.leadingComments) h.2 hroot
  obtain ⟨h2, h3⟩ := edits_value hE he h1
  have hy'' : yamlItems d' = [y'] := hy'
  refine ⟨fun y hy => ?_, anyValue y', ⟨y', hy'', (hasValue_iff Γ h2 _).2 rfl⟩, h3⟩
  rw [hy''] at hy
  simp only [List.mem_singleton] at hy
  exact hy ▸ h2

/-- **C65.** Without references, every document with one root has a value. -/
theorem C65_has_value (Γ : Nat → Ty) (d : Document) (hr : DocNoRefs d) {root : Yaml} (h : yamlItems d = [root]) :
    ∃ v, DocHasValue Γ d v ∧ ∀ w, DocHasValue Γ d w → w = v := by
  have h1 : NoRefs root := hr root (by rw [h]; simp)
  refine ⟨anyValue root, ⟨root, h, (hasValue_iff Γ h1 _).2 rfl⟩, ?_⟩
  rintro w ⟨root', h', hw⟩
  rw [h] at h'
  cases h'
  exact (hasValue_iff Γ h1 w).1 hw

/-- **C65.** Inserting adds the key with the value of what is inserted to as many maps as it returns; with overwriting it may also replace
the value of the key. -/
theorem C65_insert (Γ : Nat → Ty) (d : Document) (path : YamlPath) (k : Str) (h : AliasedYaml) (o : Bool) (hk : lastKey path = some k)
    (hr : DocNoRefs d) (hh : ∀ b, ¬RefersTo h.value b) {v x : SVal} (hv : DocHasValue Γ d v) (hx : HasValue Γ h.value x) :
    ∃ v', DocHasValue Γ (d.insertIntoHash path h o).2 v' ∧
      ValueEdits (fun es es' => AddsPair k x es es' ∨ (o = true ∧ SetsPair k x es es')) (d.insertIntoHash path h o).1 v v' := by
  have hx' := (hasValue_iff Γ hh x).1 hx
  subst hx'
  refine (docEdits_value ?_ Γ (insert_edits d path h o) hr hv).2
  rintro ds ds' ⟨k', hk', he⟩ hd
  rw [hk, Option.some.injEq] at hk'
  subst hk'
  rcases he with he | ⟨ho, he⟩
  · obtain ⟨h1, h2⟩ := appends_value hh he hd
    exact ⟨h1, .inl h2⟩
  · obtain ⟨h1, h2⟩ := overwrites_value hh he hd
    exact ⟨h1, .inr ⟨ho, h2⟩⟩

/-- **C65.** Removing drops the key from as many maps as it returns. -/
theorem C65_remove (Γ : Nat → Ty) (d : Document) (path : YamlPath) (k : Str) (hk : lastKey path = some k)
    (hr : DocNoRefs d) {v : SVal} (hv : DocHasValue Γ d v) :
    ∃ v', DocHasValue Γ (d.removeFromHash path).2 v' ∧ ValueEdits (DropsPair k) (d.removeFromHash path).1 v v' := by
  refine (docEdits_value ?_ Γ (C20_remove_one_entry d path) hr hv).2
  rintro ds ds' ⟨k', hk', he⟩ hd
  rw [hk, Option.some.injEq] at hk'
  subst hk'
  exact removes_value he hd

/-- **C65.** Renaming changes the key in as many maps as it returns. -/
theorem C65_rename (Γ : Nat → Ty) (d : Document) (path : YamlPath) (k new : Str) (hk : lastKey path = some k)
    (hr : DocNoRefs d) {v : SVal} (hv : DocHasValue Γ d v) :
    ∃ v', DocHasValue Γ (d.renameField path new).2 v' ∧ ValueEdits (RenamesPair k new) (d.renameField path new).1 v v' := by
  refine (docEdits_value ?_ Γ (C21_rename_only_names d path new) hr hv).2
  rintro ds ds' ⟨k', hk', he⟩ hd
  rw [hk, Option.some.injEq] at hk'
  subst hk'
  exact renames_value he hd

/-- **C65.** Wrapping puts the value of the key into a map of its own, in as many maps as it returns. -/
theorem C65_to_object (Γ : Nat → Ty) (d : Document) (path : YamlPath) (k obj : Str) (hk : lastKey path = some k)
    (hr : DocNoRefs d) {v : SVal} (hv : DocHasValue Γ d v) :
    ∃ v', DocHasValue Γ (d.toObject path obj).2 v' ∧ ValueEdits (WrapsPair k obj) (d.toObject path obj).1 v v' := by
  refine (docEdits_value ?_ Γ (C22_to_object_wraps d path obj) hr hv).2
  rintro ds ds' ⟨k', hk', he⟩ hd
  rw [hk, Option.some.injEq] at hk'
  subst hk'
  exact wraps_value he hd

/-- **C65.** From text to text, for a renaming: the text is parsed, edited and written, and this text is deserialized. (For the other
edits C55 says when the written text is read back.) -/
theorem C65_rename_text (T : CharTables) (Γ : Nat → Ty) (s : Str) (d : Document) (path : YamlPath) (k new : Str) (hk : lastKey path = some k)
    (hp : parseYamlFile T s = .ok d) (hd : ReadableDocument T d) (hn : KeyText T new) (hr : DocNoRefs d) :
    ∃ n v v', fromYamlStr T Γ n .any s = .ok v ∧ fromYamlStr T Γ n .any (d.renameField path new).2.format = .ok v' ∧
      ValueEdits (RenamesPair k new) (d.renameField path new).1 v v' := by
  obtain ⟨root, hroot, -⟩ := (C47_text T Γ 0 .any s).1 d hp
  obtain ⟨v, hv, -⟩ := C65_has_value Γ d hr hroot
  obtain ⟨v', hv', he⟩ := C65_rename Γ d path k new hk hr hv
  obtain ⟨n, h1⟩ := (docHasValue_text T Γ hp v).1 hv
  have hp' := (C55_rename d path new hd hn).2
  obtain ⟨m, h2⟩ := (docHasValue_text T Γ hp' v').1 hv'
  have mono : ∀ {a b : Nat} {t : Str} {e : Document} {w : SVal}, parseYamlFile T t = .ok e → a ≤ b → fromYamlStr T Γ a .any t = .ok w →
      fromYamlStr T Γ b .any t = .ok w := by
    intro a b t e w ht hab hw
    obtain ⟨r, hr, e1⟩ := (C47_text T Γ a .any t).1 e ht
    obtain ⟨r', hr', e2⟩ := (C47_text T Γ b .any t).1 e ht
    rw [hr] at hr'
    cases hr'
    rw [e1, fromYaml, Out.bind_eq_ok] at hw
    obtain ⟨q, hq, hw⟩ := hw
    rw [e2, fromYaml, de_mono Γ hab hq (by nofun)]
    exact hw
  exact ⟨max n m, v, v', mono hp (Nat.le_max_left ..) h1, mono hp' (Nat.le_max_right ..) h2, he⟩

/-! ## an example -/

theorem C65_example (Γ : Nat → Ty) :
    fromYamlStr asciiTables Γ 5 .any c!"---\nxs:\n  - a: 1 # c\n    b: on\n  - a: 'x'\n" =
      .ok (.map [(.str c!"xs", .seq [.map [(.str c!"a", .int 1), (.str c!"b", .str c!"on")], .map [(.str c!"a", .str c!"x")]])]) ∧
    fromYamlStr asciiTables Γ 5 .any c!"---\nxs:\n  - z: 1 # c\n    b: on\n  - z: 'x'" =
      .ok (.map [(.str c!"xs", .seq [.map [(.str c!"z", .int 1), (.str c!"b", .str c!"on")], .map [(.str c!"z", .str c!"x")]])]) ∧
    ∃ d, parseYamlFile asciiTables c!"---\nxs:\n  - a: 1 # c\n    b: on\n  - a: 'x'\n" = .ok d ∧
      (d.renameField (.key c!"xs" [] (some (.allIndexes [] (some (.key c!"a" [] none))))) c!"z").1 = 2 ∧
      (d.renameField (.key c!"xs" [] (some (.allIndexes [] (some (.key c!"a" [] none))))) c!"z").2.format =
        c!"---\nxs:\n  - z: 1 # c\n    b: on\n  - z: 'x'" :=
  ⟨by kernel_rfl, by kernel_rfl, _, rfl, by kernel_rfl, by kernel_rfl⟩

/-- **C65.** With references it is different: a change inside a definition shows at every reference. -/
theorem C65_counterexample_reference (Γ : Nat → Ty) :
    fromYaml Γ 5 .any (.hash [.element ⟨c!"a", ⟨some c!"n", .hash [kv c!"x" (plain c!"1")]⟩⟩, kv c!"b" (.anchor c!"n")]) =
      .ok (.map [(.str c!"a", .map [(.str c!"x", .int 1)]), (.str c!"b", .map [(.str c!"x", .int 1)])]) ∧
    ((Yaml.renameField (.key c!"a" [] (some (.key c!"x" [] none))) c!"y"
      (.hash [.element ⟨c!"a", ⟨some c!"n", .hash [kv c!"x" (plain c!"1")]⟩⟩, kv c!"b" (.anchor c!"n")])).1 = 1 ∧
    fromYaml Γ 5 .any (Yaml.renameField (.key c!"a" [] (some (.key c!"x" [] none))) c!"y"
      (.hash [.element ⟨c!"a", ⟨some c!"n", .hash [kv c!"x" (plain c!"1")]⟩⟩, kv c!"b" (.anchor c!"n")])).2 =
      .ok (.map [(.str c!"a", .map [(.str c!"y", .int 1)]), (.str c!"b", .map [(.str c!"y", .int 1)])])) :=
  ⟨by kernel_rfl, by kernel_rfl, by kernel_rfl⟩

end YamlSubset
