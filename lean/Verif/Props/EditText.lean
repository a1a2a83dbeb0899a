import Verif.Props.Edit
import Verif.Props.MoveOutcome
import Verif.Props.RoundTrip
import Verif.Lemmas.TidyRead

/-! # Editing a document and writing it back (C55) -/

namespace YamlSubset

open Spec

variable {T : CharTables}

theorem docEdits_readable {E : List HashData → List HashData → Prop} {n : Nat} {d d' : Document} (h : ReadableDocument T d)
    (he : DocEdits E n d d')
    (hE : ∀ ds ds', E ds ds' → ∀ p par nm, Readable T p par nm (.hash ds) → Readable T p par nm (.hash ds'))
    (hE' : ∀ ds ds', E ds ds' → ReadableRoot T (.hash ds) → ReadableRoot T (.hash ds')) : ReadableDocument T d' := by
  obtain ⟨hl, pre, post, root, hi, hc, hr⟩ := h
  obtain ⟨h1, h2⟩ := he
  rw [hi] at h2
  obtain ⟨root', ls, hi', hed⟩ := itemsEdit_root h2
  exact ⟨h1 ▸ hl, pre, post, root', hi', hc, hr.edits hE hE' hed⟩

theorem docEdits_tidy {E : List HashData → List HashData → Prop} {n : Nat} {d d' : Document} (h : TidyDocument T d) (he : DocEdits E n d d')
    (hE : ∀ ds ds', E ds ds' → ∀ sp nm, Tidy T sp nm (.hash ds) → Tidy T sp nm (.hash ds'))
    (hE' : ∀ ds ds', E ds ds' → TidyRoot T (.hash ds) → TidyRoot T (.hash ds')) : TidyDocument T d' := by
  obtain ⟨hl, pre, post, root, hi, hc, hr⟩ := h
  obtain ⟨h1, h2⟩ := he
  rw [hi] at h2
  obtain ⟨root', ls, hi', hed⟩ := itemsEdit_root h2
  exact ⟨h1 ▸ hl, pre, post, root', hi', hc, hr.edits hE hE' hed⟩

/-- An edit keeps the kind of a block collection. -/
theorem edits_kind {E : List HashData → List HashData → Prop} {ls : List Loc} {y y' : Yaml} (h : Edits E ls y y')
    (hy : (∃ ds, y = .hash ds) ∨ ∃ ds, y = .array ds) : (∃ ds, y' = .hash ds) ∨ ∃ ds, y' = .array ds := by
  induction h with
  | none => exact hy
  | here => exact .inl ⟨_, rfl⟩
  | inHash => exact .inl ⟨_, rfl⟩
  | inArray => exact .inr ⟨_, rfl⟩
  | inInlineArray => rcases hy with ⟨_, h⟩ | ⟨_, h⟩ <;> cases h
  | seq _ _ ih ih' => exact ih' (ih hy)

theorem docEdits_simple {E : List HashData → List HashData → Prop} {n : Nat} {d d' : Document} (h : SimpleDocument T d) (he : DocEdits E n d d')
    (hE : ∀ ds ds', E ds ds' → ∀ b, Simple T b (.hash ds) → Simple T b (.hash ds')) : SimpleDocument T d' := by
  obtain ⟨hl, pre, post, root, hi, hc, hk, hr⟩ := h
  obtain ⟨h1, h2⟩ := he
  rw [hi] at h2
  obtain ⟨root', ls, hi', hed⟩ := itemsEdit_root h2
  exact ⟨h1 ▸ hl, pre, post, root', hi', hc, edits_kind hed hk, hr.edits hE hed⟩

/-- A simple document without empty mappings is tidy. -/
theorem Spec.SimpleDocument.tidy {d : Document} (h : SimpleDocument T d) (hn : ∀ y, DocumentData.yaml y ∈ d.items → NoEmptyMapping y) :
    TidyDocument T d := by
  obtain ⟨hl, pre, post, root, hi, hc, hk, hr⟩ := h
  have hne := hn root (by rw [hi]; simp)
  have ht := Spec.Simple.tidy root (sp := .entry) (nm := false) hr hne (by simp) (by simp) (.inl rfl)
  refine ⟨hl, pre, post, root, hi, hc, ?_⟩
  rcases hk with ⟨ds, rfl⟩ | ⟨ds, rfl⟩
  · cases ht with
    | oneLine h => cases h
    | hereOne hs => rcases hs with h | ⟨-, h⟩ <;> cases h
    | hereOneComment hs => rcases hs with h | ⟨-, h⟩ <;> cases h
    | hereMore hs => rcases hs with h | ⟨-, h⟩ <;> cases h
    | hereMoreComment hs => rcases hs with h | ⟨-, h⟩ <;> cases h
    | hash hs h =>
      cases hr with
      | oneLine h => cases h
      | hash he _ _ _ =>
        cases ds with
        | nil => cases h
        | cons d ds =>
          obtain ⟨e, rfl⟩ := he d (List.mem_cons_self ..)
          exact .hash h
  · cases ht with
    | oneLine h => cases h
    | array hs h =>
      cases hr with
      | oneLine h => cases h
      | array _ he _ _ =>
        cases ds with
        | nil => cases h
        | cons d ds =>
          obtain ⟨e, rfl⟩ := he d (List.mem_cons_self ..)
          exact .array h

/-! ## renaming -/

theorem firstEntry_set {k : Str} {ds pre post : List HashData} {v : AliasedYaml} (h : FirstEntry k ds pre v post) (d : HashData) :
    ds[pre.length]? = some (.element ⟨k, v⟩) ∧ pre ++ d :: post = ds.set pre.length d := by
  obtain ⟨rfl, -⟩ := h
  simp

/-- **C55.** Renaming keeps every readable document readable, whatever the path, if the new name can be a key: the formatted text of the
edited document parses to the edited document. -/
theorem C55_rename (d : Document) (path : YamlPath) (new : Str) (h : ReadableDocument T d) (hn : KeyText T new) :
    ReadableDocument T (d.renameField path new).2 ∧ parseYamlFile T (d.renameField path new).2.format = .ok (d.renameField path new).2 := by
  have key : ∀ ds ds', AtLastKey path (fun k => Renames k new) ds ds' → ∃ i k a v, ds[i]? = some (.element ⟨k, ⟨a, v⟩⟩) ∧
      ds' = ds.set i (.element ⟨new, ⟨a, v⟩⟩) := by
    rintro ds ds' ⟨k, hk, pre, ⟨a, v⟩, post, hf, rfl⟩
    obtain ⟨h1, h2⟩ := firstEntry_set hf (.element ⟨new, ⟨a, v⟩⟩)
    exact ⟨_, _, _, _, h1, h2⟩
  have hr := docEdits_readable h (C21_rename_only_names d path new)
    (fun ds ds' he p par nm hr => by
      obtain ⟨i, k, a, v, hi, rfl⟩ := key ds ds' he
      exact hr.replaceEntry hi (fun _ => hn) ⟨id, fun _ _ h => h, fun h h' => ⟨h, h'⟩⟩)
    (fun ds ds' he hr => by
      obtain ⟨i, k, a, v, hi, rfl⟩ := key ds ds' he
      exact hr.replaceEntry hi (fun _ => hn) ⟨id, fun _ _ h => h, fun h h' => ⟨h, h'⟩⟩)
  exact ⟨hr, C41_formatted_documents_parse T _ hr⟩

/-! ## inserting -/

/-- The value of an entry that insert may bring into a tidy document: any tidy value, but only a value on one line if it may replace
another one (which may have a comment after it). -/
structure Insertable (T : CharTables) (overwrite : Bool) (h : AliasedYaml) : Prop where
  name : ∀ n, h.alias = some n → NameText T n
  value : Tidy T .entry h.alias.isSome h.value
  line : overwrite = true → OneLine T h.value ∧ Commentable h.value

/-- **C55.** Inserting into a tidy document, with or without overwriting, gives a tidy document, and its formatted text parses to it. -/
theorem C55_insert (d : Document) (path : YamlPath) (h : AliasedYaml) (o : Bool) (hd : TidyDocument T d)
    (hk : ∀ k, lastKey path = some k → KeyText T k) (hh : Insertable T o h) :
    TidyDocument T (d.insertIntoHash path h o).2 ∧
      parseYamlFile T (d.insertIntoHash path h o).2.format = .ok (d.insertIntoHash path h o).2 := by
  obtain ⟨a, v⟩ := h
  obtain ⟨hname, hval, hline⟩ := hh
  have fits : o = true → ∀ a' v', FitsTidy T a' v' a v := fun ho a' v' =>
    ⟨fun _ => hname, fun _ _ => .oneLine (hline ho).1 (hline ho).2, fun _ _ => hline ho⟩
  have hr := docEdits_tidy hd (insert_edits d path ⟨a, v⟩ o)
    (fun ds ds' he sp nm hr => by
      obtain ⟨k, hl, ⟨-, rfl⟩ | ⟨ho, pre, ⟨a', v'⟩, post, hf, rfl⟩⟩ := he
      · exact hr.append (hk k hl) hname hval
      · obtain ⟨h1, h2⟩ := firstEntry_set hf (.element ⟨k, ⟨a, v⟩⟩)
        rw [h2]
        exact hr.replaceEntry h1 (fun _ => hk k hl) (fits ho a' v'))
    (fun ds ds' he hr => by
      obtain ⟨k, hl, ⟨-, rfl⟩ | ⟨ho, pre, ⟨a', v'⟩, post, hf, rfl⟩⟩ := he
      · exact hr.append (hk k hl) hname hval
      · obtain ⟨h1, h2⟩ := firstEntry_set hf (.element ⟨k, ⟨a, v⟩⟩)
        rw [h2]
        exact hr.replaceEntry h1 (fun _ => hk k hl) (fits ho a' v'))
  exact ⟨hr, C41_formatted_documents_parse T _ hr.readable⟩

/-- **C55.** Renaming keeps tidy documents tidy, so that edits can follow one another. -/
theorem C55_rename_tidy (d : Document) (path : YamlPath) (new : Str) (h : TidyDocument T d) (hn : KeyText T new) :
    TidyDocument T (d.renameField path new).2 := by
  refine docEdits_tidy h (C21_rename_only_names d path new) ?_ ?_
  · rintro ds ds' ⟨k, hk, pre, ⟨a, v⟩, post, hf, rfl⟩ sp nm hr
    obtain ⟨h1, h2⟩ := firstEntry_set hf (.element ⟨new, ⟨a, v⟩⟩)
    rw [h2]
    exact hr.replaceEntry h1 (fun _ => hn) ⟨id, fun _ h => h, fun h h' => ⟨h, h'⟩⟩
  · rintro ds ds' ⟨k, hk, pre, ⟨a, v⟩, post, hf, rfl⟩ hr
    obtain ⟨h1, h2⟩ := firstEntry_set hf (.element ⟨new, ⟨a, v⟩⟩)
    rw [h2]
    exact hr.replaceEntry h1 (fun _ => hn) ⟨id, fun _ h => h, fun h h' => ⟨h, h'⟩⟩

/-! ## simple documents -/

theorem Spec.Simple.of_mem {b : Bool} {ds ds' : List HashData} (h : Simple T b (.hash ds)) (hm : ∀ d ∈ ds', d ∈ ds ∨
      ∃ k a v, d = .element ⟨k, ⟨a, v⟩⟩ ∧ KeyText T k ∧ (∀ n, a = some n → NameText T n ∧ OneLine T v ∧ Commentable v) ∧ Simple T false v) :
    Simple T b (.hash ds') := by
  cases h with
  | oneLine h => cases h
  | hash he hk ha hv =>
    refine .hash ?_ ?_ ?_ ?_
    · intro d hd
      rcases hm d hd with h | ⟨k, a, v, rfl, -⟩
      · exact he d h
      · exact ⟨_, rfl⟩
    · intro k a v hd
      rcases hm _ hd with h | ⟨k', a', v', h, h1, h2, h3⟩
      · exact hk _ _ _ h
      · cases h; exact h1
    · intro k a v n hd hn
      rcases hm _ hd with h | ⟨k', a', v', h, h1, h2, h3⟩
      · exact ha _ _ _ n h hn
      · cases h; exact h2 n hn
    · intro k a v hd
      rcases hm _ hd with h | ⟨k', a', v', h, h1, h2, h3⟩
      · exact hv _ _ _ h
      · cases h; exact h3

/-- What is said of a simple document after an edit. -/
def StaysSimple (T : CharTables) (d : Document) : Prop :=
  SimpleDocument T d ∧ ((∀ y, DocumentData.yaml y ∈ d.items → NoEmptyMapping y) → parseYamlFile T d.format = .ok d)

theorem staysSimple {d : Document} (h : SimpleDocument T d) : StaysSimple T d :=
  ⟨h, fun hn => C41_formatted_documents_parse T _ (h.tidy hn).readable⟩

/-- **C55.** Every edit of a simple document gives a simple document, and if no mapping has become empty its formatted text parses to it.
Inserting: -/
theorem C55_simple_insert (d : Document) (path : YamlPath) (h : AliasedYaml) (o : Bool) (hd : SimpleDocument T d)
    (hk : ∀ k, lastKey path = some k → KeyText T k) (ha : ∀ n, h.alias = some n → NameText T n ∧ OneLine T h.value ∧ Commentable h.value)
    (hv : Simple T false h.value) : StaysSimple T (d.insertIntoHash path h o).2 := by
  obtain ⟨a, v⟩ := h
  refine staysSimple (docEdits_simple hd (insert_edits d path ⟨a, v⟩ o) fun ds ds' he b hs => hs.of_mem fun d hd => ?_)
  obtain ⟨k, hl, ⟨-, rfl⟩ | ⟨ho, pre, v', post, ⟨rfl, -⟩, rfl⟩⟩ := he
  · rcases List.mem_append.1 hd with h | h
    · exact .inl h
    · exact .inr ⟨k, a, v, by simpa using h, hk k hl, ha, hv⟩
  · rcases List.mem_append.1 hd with h | h
    · exact .inl (by simp [h])
    · rcases List.mem_cons.1 h with h | h
      · exact .inr ⟨k, a, v, h, hk k hl, ha, hv⟩
      · exact .inl (by simp [h])

/-- **C55.** Removing. -/
theorem C55_simple_remove (d : Document) (path : YamlPath) (hd : SimpleDocument T d) : StaysSimple T (d.removeFromHash path).2 := by
  refine staysSimple (docEdits_simple hd (C20_remove_one_entry d path) fun ds ds' he b hs => hs.of_mem fun d hd => .inl ?_)
  obtain ⟨k, hl, pre, v, post, ⟨rfl, -⟩, rfl⟩ := he
  rcases List.mem_append.1 hd with h | h <;> simp [h]

/-- **C55.** Renaming. -/
theorem C55_simple_rename (d : Document) (path : YamlPath) (new : Str) (hd : SimpleDocument T d) (hn : KeyText T new) :
    StaysSimple T (d.renameField path new).2 := by
  refine staysSimple (docEdits_simple hd (C21_rename_only_names d path new) fun ds ds' he b hs => hs.of_mem fun d hd => ?_)
  obtain ⟨k, hl, pre, ⟨a, v⟩, post, ⟨rfl, -⟩, rfl⟩ := he
  rcases List.mem_append.1 hd with h | h
  · exact .inl (by simp [h])
  · rcases List.mem_cons.1 h with h | h
    · cases hs with
      | oneLine hs => cases hs
      | hash he hk ha hv =>
        exact .inr ⟨new, a, v, h, hn, fun n => ha k a v n (by simp), hv k a v (by simp)⟩
    · exact .inl (by simp [h])

/-- **C55.** Wrapping a value in an object. -/
theorem C55_simple_to_object (d : Document) (path : YamlPath) (obj : Str) (hd : SimpleDocument T d) (hn : KeyText T obj) :
    StaysSimple T (d.toObject path obj).2 := by
  refine staysSimple (docEdits_simple hd (C22_to_object_wraps d path obj) fun ds ds' he b hs => hs.of_mem fun d hd => ?_)
  obtain ⟨k, hl, pre, ⟨a, v⟩, post, ⟨rfl, -⟩, rfl⟩ := he
  rcases List.mem_append.1 hd with h | h
  · exact .inl (by simp [h])
  · rcases List.mem_cons.1 h with h | h
    · cases hs with
      | oneLine hs => cases hs
      | hash he hk ha hv =>
        refine .inr ⟨k, none, _, h, hk k a v (by simp), by simp, .hash ?_ ?_ ?_ ?_⟩
        · intro d hd; exact ⟨_, List.mem_singleton.1 hd⟩
        · intro k' a' v' hm; cases List.mem_singleton.1 hm; exact hn
        · intro k' a' v' n hm; cases List.mem_singleton.1 hm; exact ha k a v n (by simp)
        · intro k' a' v' hm; cases List.mem_singleton.1 hm; exact hv k a v (by simp)
    · exact .inl (by simp [h])

theorem mem_put {k : Str} {v : AliasedYaml} {ds : List HashData} {d : HashData} (h : d ∈ put k v ds) :
    d ∈ ds ∨ d = .element ⟨k, v⟩ := by
  rcases first_or k ds with h' | ⟨pre, w, post, h'⟩
  · rw [put_new h'] at h
    rcases List.mem_append.1 h with h | h
    · exact .inl h
    · exact .inr (by simpa using h)
  · rw [put_old h'] at h
    rcases List.mem_append.1 h with h | h
    · exact .inl (by rw [h'.1]; simp [h])
    · rcases List.mem_cons.1 h with h | h
      · exact .inr h
      · exact .inl (by rw [h'.1]; simp [h])

theorem mem_putAll {kvs : List (Str × AliasedYaml)} {ds : List HashData} {d : HashData} (h : d ∈ putAll kvs ds) :
    d ∈ ds ∨ ∃ kv ∈ kvs, d = .element ⟨kv.1, kv.2⟩ := by
  induction kvs generalizing ds with
  | nil => exact .inl h
  | cons kv t ih =>
    rcases ih (ds := put kv.1 kv.2 ds) h with h | ⟨kv', h, h'⟩
    · rcases mem_put h with h | h
      · exact .inl h
      · exact .inr ⟨kv, by simp, h⟩
    · exact .inr ⟨kv', by simp [h], h'⟩

theorem firstIn_mem {k : Str} {v : AliasedYaml} {ds : List HashData} (h : firstIn k ds = some v) : HashData.element ⟨k, v⟩ ∈ ds := by
  rw [← firstIn_eq] at h
  obtain ⟨pre, post, h⟩ := keyValueIn_spec _ _ _ h
  rw [h.1]
  simp

theorem found_in {fields : List Str} {ds : List HashData} {kv : Str × AliasedYaml} (h : kv ∈ foundFields fields ds) :
    HashData.element ⟨kv.1, kv.2⟩ ∈ ds := by
  obtain ⟨k, -, h⟩ := List.mem_filterMap.1 h
  cases hf : firstIn k ds with
  | none => simp [hf] at h
  | some v =>
    simp only [hf, Option.map_some, Option.some.injEq] at h
    subst h
    exact firstIn_mem hf

theorem mem_dropFirst {ks : List Str} {ds : List HashData} {d : HashData} (h : d ∈ dropFirst ks ds) : d ∈ ds := by
  induction ds generalizing ks with
  | nil => simp [dropFirst] at h
  | cons c t ih =>
    cases c with
    | element e =>
      simp only [dropFirst] at h
      split at h
      · exact List.mem_cons_of_mem _ (ih h)
      · rcases List.mem_cons.1 h with h | h
        · simp [h]
        · exact List.mem_cons_of_mem _ (ih h)
    | comment s =>
      rcases List.mem_cons.1 h with h | h
      · simp [h]
      · exact List.mem_cons_of_mem _ (ih h)
    | inlineComment s =>
      rcases List.mem_cons.1 h with h | h
      · simp [h]
      · exact List.mem_cons_of_mem _ (ih h)

/-- **C55.** Moving fields into a subfield, whatever this is. -/
theorem C55_simple_move (d : Document) (path : YamlPath) {sub : Str} {fields : List Str} (hd : SimpleDocument T d) (hk : KeyText T sub)
    (hsub : CleanKey sub) (hf : ∀ k ∈ fields, CleanKey k) (hn : fields.Nodup) (hs : sub ∉ fields) :
    StaysSimple T (d.moveToSubfield path sub fields).2 := by
  obtain ⟨n, hok⟩ := C26_succeeds d path (clean_path hsub) fun k hk => clean_path (hf k hk)
  refine staysSimple (docEdits_simple hd (C26_move_to_subfield_everywhere d path hsub hf hn hs hok) fun ds ds' he b hs => ?_)
  -- the entries of the mapping
  have entry : ∀ {ds : List HashData} {b : Bool}, Simple T b (.hash ds) → ∀ {k a v}, HashData.element ⟨k, ⟨a, v⟩⟩ ∈ ds →
      KeyText T k ∧ (∀ n, a = some n → NameText T n ∧ OneLine T v ∧ Commentable v) ∧ Simple T false v := by
    intro ds b h k a v hm
    cases h with
    | oneLine h => cases h
    | hash he hk ha hv => exact ⟨hk _ _ _ hm, fun n => ha _ _ _ n hm, hv _ _ _ hm⟩
  -- the moved entries
  have moved : ∀ {d : HashData} {kv}, kv ∈ foundFields fields ds → d = .element ⟨kv.1, kv.2⟩ →
      ∃ k a v, d = .element ⟨k, ⟨a, v⟩⟩ ∧ KeyText T k ∧ (∀ n, a = some n → NameText T n ∧ OneLine T v ∧ Commentable v) ∧ Simple T false v := by
    rintro d ⟨k, ⟨a, v⟩⟩ hkv rfl
    obtain ⟨h1, h2, h3⟩ := entry hs (found_in hkv)
    exact ⟨k, a, v, rfl, h1, h2, h3⟩
  refine hs.of_mem fun d hd => ?_
  rcases he with ⟨-, hm⟩ | ⟨-, rfl⟩
  · cases hm with
    | @existing pre a sd post h =>
      have hin : HashData.element ⟨sub, ⟨a, .hash sd⟩⟩ ∈ ds := by rw [h.1]; simp
      obtain ⟨h1, h2, h3⟩ := entry hs hin
      rcases List.mem_append.1 (mem_dropFirst hd) with h' | h'
      · exact .inl (by rw [h.1]; simp [h'])
      · rcases List.mem_cons.1 h' with h' | h'
        · refine .inr ⟨sub, a, _, h', h1, fun n hn => ?_, h3.of_mem fun d hd => ?_⟩
          · obtain ⟨-, h4, -⟩ := h2 n hn
            cases h4
          · rcases mem_putAll hd with hd | ⟨kv, hkv, hd⟩
            · exact .inl hd
            · exact .inr (moved hkv hd)
        · exact .inl (by rw [h.1]; simp [h'])
    | new h =>
      rcases List.mem_append.1 hd with hd | hd
      · exact .inl (mem_dropFirst hd)
      · refine .inr ⟨sub, none, _, by simpa using hd, hk, by simp, ?_⟩
        refine Spec.Simple.of_mem (ds := []) (.hash (by simp) (by simp) (by simp) (by simp)) fun d hd => ?_
        obtain ⟨kv, hkv, rfl⟩ := List.mem_map.1 hd
        exact .inr (moved hkv rfl)
  · exact .inl (mem_dropFirst hd)

/-! ## examples -/

/-- A document with comments, an anchor and a block scalar. -/
def tidyText : Str := c!"# top\n---\nbase: &b\n  x: 1 # one\n  # two\n  y: 2\nlist:\n  - name: first\n    text: |\n      abc\n  - *b\n"

/-- The document of this text. -/
def tidyDoc : Document := ⟨[c!" top"], [.yaml (.hash [
  .element ⟨c!"base", ⟨some c!"b", .hash [kv c!"x" (plain c!"1"), .inlineComment c!" one", .comment c!" two", kv c!"y" (plain c!"2")]⟩⟩,
  kv c!"list" (.array [elem (.hash [kv c!"name" (plain c!"first"), kv c!"text" (.literalString [c!"abc"] .clip)]), elem (.anchor c!"b")])])]⟩

theorem tidyDoc_parsed : parseYamlFile asciiTables tidyText = .ok tidyDoc := by kernel_rfl

theorem tidy_plain {s : Str} {sp nm} (h : s ≠ [] ∧ (∀ c ∈ s, c ≠ '\n' ∧ c ≠ '\r' ∧ c ≠ '#' ∧ c ≠ ':') ∧ s.getLast? ≠ some ' ' ∧
    (∀ c, s.head? = some c → c ∉ ['[', ']', '{', '}', '"', '\'', '>', '|', '&', '*', '-'] ∧ isSpaceSeparator c = false) ∧
    s.getLast? ≠ some ':') : Tidy T sp nm (plain s) :=
  .oneLine (.plain (blockPlain_simple ⟨h.1, h.2.1, h.2.2.1, h.2.2.2.1⟩)) h.2.2.2.2

theorem tidyDoc_tidy : TidyDocument asciiTables tidyDoc := by
  have hk : ∀ {k : Str}, _ → KeyText asciiTables k := fun h => keyText_of (k := _) h
  refine ⟨by decide, [], [], _, rfl, by simp, .hash (.entry (hk (by decide)) (by decide) ?_ (.last (hk (by decide)) no_name ?_))⟩
  · exact .hereMoreComment (.inr ⟨rfl, rfl⟩) (hk (by decide)) no_name (.plain (blockPlain_simple (by decide))) (by simp [Commentable]) (by decide)
      (.comment (by decide) (.last (hk (by decide)) no_name (tidy_plain (by decide))))
  · refine .array (by simp) (.element no_name ?_ (.last no_name (.oneLine (.reference (by decide)) trivial)))
    exact .hereMore (.inl rfl) (hk (by decide)) no_name (tidy_plain (by decide))
      (.last (hk (by decide)) no_name (.literal (by simp) ⟨by decide, _, _, rfl, .inl ⟨_, _, rfl, by decide⟩⟩))

/-- An entry is inserted into every mapping of the list: the text is what one expects, and parses to the edited document. -/
example :
    let path := YamlPath.key c!"list" [] (some (.allIndexes [] (some (.key c!"new" [] none))))
    let q := tidyDoc.insertIntoHash path ⟨none, plain c!"v"⟩ true
    q.1 = 1 ∧ q.2.format = c!"# top\n---\nbase: &b\n  x: 1 # one\n  # two\n  y: 2\nlist:\n  - name: first\n    text: |\n      abc\n    new: v\n  - *b" ∧
    parseYamlFile asciiTables q.2.format = .ok q.2 := by
  refine ⟨by decide +kernel, by decide +kernel, ?_⟩
  refine (C55_insert tidyDoc _ _ _ tidyDoc_tidy (fun k hk => ?_) ⟨no_name, tidy_plain (by decide), fun _ => ⟨.plain (blockPlain_simple (by decide)), ?_⟩⟩).2
  · cases hk; exact keyText_of (by decide)
  · simp [Commentable]

/-- A simple document. -/
def simpleDoc : Document := docOf (.hash [kv c!"a" (.hash [kv c!"b" (plain c!"1"), kv c!"c" (plain c!"2")]), kv c!"l" (.array [elem (.hash [kv c!"b" (plain c!"3"), kv c!"d" (plain c!"4")])])])

theorem simple_plain {s : Str} {b} (h : s ≠ [] ∧ (∀ c ∈ s, c ≠ '\n' ∧ c ≠ '\r' ∧ c ≠ '#' ∧ c ≠ ':') ∧ s.getLast? ≠ some ' ' ∧
    (∀ c, s.head? = some c → c ∉ ['[', ']', '{', '}', '"', '\'', '>', '|', '&', '*', '-'] ∧ isSpaceSeparator c = false) ∧
    s.getLast? ≠ some ':') : Simple T b (plain s) :=
  .oneLine (.plain (blockPlain_simple ⟨h.1, h.2.1, h.2.2.1, h.2.2.2.1⟩)) h.2.2.2.2

theorem simple_hash {b : Bool} {es : List (Str × Yaml)} (hk : ∀ k v, (k, v) ∈ es → KeyText T k) (hv : ∀ k v, (k, v) ∈ es → Simple T false v) :
    Simple T b (.hash (es.map fun e => kv e.1 e.2)) := by
  refine .hash ?_ ?_ ?_ ?_
  · intro d hd
    obtain ⟨e, -, rfl⟩ := List.mem_map.1 hd
    exact ⟨_, rfl⟩
  · intro k a v hd
    obtain ⟨⟨k', v'⟩, he, h⟩ := List.mem_map.1 hd
    cases h; exact hk _ _ he
  · intro k a v n hd
    obtain ⟨⟨k', v'⟩, he, h⟩ := List.mem_map.1 hd
    cases h; simp
  · intro k a v hd
    obtain ⟨⟨k', v'⟩, he, h⟩ := List.mem_map.1 hd
    cases h; exact hv _ _ he

theorem simpleDoc_simple : SimpleDocument asciiTables simpleDoc := by
  have hk : ∀ {k : Str}, _ → KeyText asciiTables k := fun h => keyText_of (k := _) h
  refine ⟨by simp [simpleDoc, docOf], [], [], _, rfl, by simp, .inl ⟨_, rfl⟩, simple_hash (es := [(_, _), (_, _)]) ?_ ?_⟩
  · simp only [List.mem_cons, Prod.mk.injEq, List.not_mem_nil, or_false]
    rintro k v (⟨rfl, rfl⟩ | ⟨rfl, rfl⟩) <;> exact hk (by decide)
  · simp only [List.mem_cons, Prod.mk.injEq, List.not_mem_nil, or_false]
    rintro k v (⟨rfl, rfl⟩ | ⟨rfl, rfl⟩)
    · refine simple_hash (es := [(_, _), (_, _)]) ?_ ?_ <;> simp only [List.mem_cons, Prod.mk.injEq, List.not_mem_nil, or_false]
      · rintro k v (⟨rfl, rfl⟩ | ⟨rfl, rfl⟩) <;> exact hk (by decide)
      · rintro k v (⟨rfl, rfl⟩ | ⟨rfl, rfl⟩) <;> exact simple_plain (by decide)
    · refine .array (by simp) (by simp [elem]) ?_ ?_
      · intro a v n hm hn
        cases List.mem_singleton.1 hm
        cases hn
      intro a v hm
      cases List.mem_singleton.1 hm
      refine simple_hash (es := [(_, _), (_, _)]) ?_ ?_ <;> simp only [List.mem_cons, Prod.mk.injEq, List.not_mem_nil, or_false]
      · rintro k v (⟨rfl, rfl⟩ | ⟨rfl, rfl⟩) <;> exact hk (by decide)
      · rintro k v (⟨rfl, rfl⟩ | ⟨rfl, rfl⟩) <;> exact simple_plain (by decide)

/-- Removing an entry of the mapping in the list. -/
example :
    let q := simpleDoc.removeFromHash (.key c!"l" [] (some (.allIndexes [] (some (.key c!"b" [] none)))))
    q.1 = 1 ∧ q.2.format = c!"---\na:\n  b: 1\n  c: 2\nl:\n  - d: 4" ∧ StaysSimple asciiTables q.2 :=
  ⟨by decide +kernel, by decide +kernel, C55_simple_remove _ _ simpleDoc_simple⟩

/-- Moving an entry into a subfield. -/
example :
    let q := simpleDoc.moveToSubfield (.key c!"a" [] none) c!"s" [c!"b"]
    q.1 = .ok 1 ∧ q.2.format = c!"---\na:\n  c: 2\n  s:\n    b: 1\nl:\n  - b: 3\n    d: 4" ∧ StaysSimple asciiTables q.2 :=
  ⟨by kernel_rfl, by decide +kernel, C55_simple_move _ _ simpleDoc_simple (keyText_of (by decide)) ⟨by decide, by decide, by decide, by decide⟩
    (by simp only [List.mem_singleton]; rintro k rfl; exact ⟨by decide, by decide, by decide, by decide⟩) (by simp) (by decide)⟩

/-! ## edits that break documents -/

/-- The text is parsed, edited and formatted, and the result is parsed. -/
def editedText (edit : Document → Document) (s : Str) : Out (Document × Document) :=
  (parseYamlFile asciiTables s).bind fun d => (parseYamlFile asciiTables (edit d).format).bind fun d' => .ok (edit d, d')

/-- **C55.** Removing the only entry of a mapping leaves an empty block mapping, which is read as a flow mapping. -/
theorem C55_counterexample_empty :
    editedText (fun d => (d.removeFromHash (.key c!"a" [] (some (.key c!"b" [] none)))).2) c!"---\na:\n  b: 1\n" =
      .ok (docOf (.hash [kv c!"a" (.hash [])]), docOf (.hash [kv c!"a" (.inlineHash [])])) := by kernel_rfl

/-- **C55.** Inserting an entry after a block scalar, in a mapping that starts on the line of its dash: the new entry becomes a part of the
scalar, without its first characters. -/
theorem C55_counterexample_block_scalar :
    editedText (fun d => (d.insertIntoHash (.allIndexes [] (some (.key c!"new" [] none))) ⟨none, plain c!"v"⟩ false).2) c!"---\n- k: |\n    a\n" =
      .ok (docOf (.array [elem (.hash [kv c!"k" (.literalString [c!"a"] .clip), kv c!"new" (plain c!"v")])]),
        docOf (.array [elem (.hash [kv c!"k" (.literalString [c!"a", c!"w: v"] .clip)])])) := by kernel_rfl

/-- **C55.** Removing an entry before which there is a comment, at the end of a nested mapping: the comment moves to the outer mapping. -/
theorem C55_counterexample_comment :
    editedText (fun d => (d.removeFromHash (.key c!"a" [] (some (.key c!"c" [] none)))).2) c!"---\na:\n  b: 1\n  # x\n  c: 2\nd: 3\n" =
      .ok (docOf (.hash [kv c!"a" (.hash [kv c!"b" (plain c!"1"), .comment c!" x"]), kv c!"d" (plain c!"3")]),
        docOf (.hash [kv c!"a" (.hash [kv c!"b" (plain c!"1")]), .comment c!" x", kv c!"d" (plain c!"3")])) := by kernel_rfl

/-- **C55.** Renaming to a name that cannot be a key: another document. -/
theorem C55_counterexample_name :
    editedText (fun d => (d.renameField (.key c!"a" [] none) c!"b: c").2) c!"---\na: 1\n" =
      .ok (docOf (.hash [kv c!"b: c" (plain c!"1")]), docOf (.hash [kv c!"b" (.hash [kv c!"c" (plain c!"1")])])) := by kernel_rfl

end YamlSubset
