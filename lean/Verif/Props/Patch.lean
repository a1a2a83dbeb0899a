import Verif.Spec.Patch
import Verif.Props.Edit
import Verif.Model.Consume
import Verif.Lemmas.KernelRfl

/-! # What edits do to the text of a document -/

namespace YamlSubset

open Spec

theorem Spec.Patched.trans {R n m s t u} (h : Patched R n s t) (h' : Patched R m t u) : Patched R (n + m) s u := by
  induction h' with
  | none s => exact h
  | step pre post _ hr ih => exact .step pre post (ih h) hr

theorem Spec.Patched.context {R n s t} (a b : Str) (h : Patched R n s t) : Patched R n (a ++ s ++ b) (a ++ t ++ b) := by
  induction h with
  | none s => exact .none _
  | @step n s old new pre post _ hr ih =>
    have := Patched.step (R := R) (n := n) (s := a ++ s ++ b) (old := old) (new := new) (a ++ pre) (post ++ b) (by simpa using ih) hr
    simpa using this

theorem Spec.Patched.mono {R S : Str → Str → Prop} (hs : ∀ x y, R x y → S x y) {n s t} (h : Patched R n s t) : Patched S n s t := by
  induction h with
  | none s => exact .none _
  | step pre post _ hr ih => exact .step pre post ih (hs _ _ hr)

/-- One replacement. -/
theorem Spec.Patched.one {R : Str → Str → Prop} {old new : Str} (pre post : Str) (hr : R old new) :
    Patched R 1 (pre ++ old ++ post) (pre ++ new ++ post) := .step pre post (.none _) hr

theorem formatHash_append (n : Nat) (p : Option Parent) (f : Bool) (a b : List HashData) :
    formatHash n p f (a ++ b) = formatHash n p f a ++ formatHash n p (f && a.isEmpty) b := by
  induction a generalizing f with
  | nil => simp [formatHash]
  | cons x t ih =>
    rcases x with c | c | ⟨k, a, v⟩ <;> simp [formatHash, ih]

theorem formatArray_append (n : Nat) (p : Option Parent) (f : Bool) (a b : List ArrayData) :
    formatArray n p f (a ++ b) = formatArray n p f a ++ formatArray n p (f && a.isEmpty) b := by
  induction a generalizing f with
  | nil => simp [formatArray]
  | cons x t ih =>
    rcases x with c | c | ⟨a, v⟩ <;> simp [formatArray, ih]

theorem formatInlineElements_append (f : Bool) (a b : List Yaml) :
    formatInlineElements f (a ++ b) = formatInlineElements f a ++ formatInlineElements (f && a.isEmpty) b := by
  induction a generalizing f with
  | nil => simp [formatInlineElements]
  | cons x t ih => simp [formatInlineElements, ih]

/-- An entry in the text of a mapping. -/
theorem formatHash_element (n : Nat) (p : Option Parent) (f : Bool) (k : Str) (v : AliasedYaml) (t : List HashData) :
    formatHash n p f (.element ⟨k, v⟩ :: t) = entryText n (decide (p = some .array) && f) k v ++ formatHash n p false t := by
  obtain ⟨a, v⟩ := v
  simp only [formatHash, entryText, entryStart, indent, AliasedYaml.format]
  cases a <;> by_cases h : p = some Parent.array <;> cases f <;> simp [h]

/-- Changes of texts of mappings carry over to the documents around them. -/
theorem edits_text {E R} (hE : ∀ ds ds', E ds ds' → ∀ n p, Patched R 1 ((Yaml.hash ds).format n p) ((Yaml.hash ds').format n p))
    {ls : List Loc} {y y' : Yaml} (h : Edits E ls y y') (n : Nat) (p : Option Parent) :
    Patched R ls.length (y.format n p) (y'.format n p) := by
  induction h generalizing n p with
  | none y => exact .none _
  | here h => exact hE _ _ h _ _
  | @inHash ds i k a v v' ls hi _ ih =>
    obtain ⟨l, r, rfl, rfl⟩ := split_at hi
    rw [set_append_length, List.length_map]
    have ha : ∀ v, (Yaml.hash (l ++ .element ⟨k, ⟨a, v⟩⟩ :: r)).format n p = formatHash n p true (l ++ .element ⟨k, ⟨a, v⟩⟩ :: r) := by
      intro v; simp [Yaml.format]
    rw [ha, ha, formatHash_append, formatHash_append, formatHash_element, formatHash_element]
    generalize formatHash n p true l = x
    generalize (decide (p = some Parent.array) && (true && l.isEmpty)) = f
    generalize formatHash n p false r = z
    cases a with
    | none =>
      have := (ih (n + 2) (some .hash)).context (x ++ entryStart n f ++ k ++ [':']) z
      simpa [entryText, AliasedYaml.format] using this
    | some a =>
      have := (ih (n + 2) none).context (x ++ entryStart n f ++ k ++ c!": &" ++ a) z
      simpa [entryText, AliasedYaml.format] using this
  | @inArray ds i a v v' ls hi _ ih =>
    obtain ⟨l, r, rfl, rfl⟩ := split_at hi
    rw [set_append_length, List.length_map]
    have ha : ∀ v, (Yaml.array (l ++ .element ⟨a, v⟩ :: r)).format n p = formatArray n p true (l ++ .element ⟨a, v⟩ :: r) := by
      intro v; simp [Yaml.format]
    rw [ha, ha, formatArray_append, formatArray_append]
    generalize formatArray n p true l = x
    generalize (true && l.isEmpty) = f
    simp only [formatArray]
    generalize formatArray n p false r = z
    generalize (if (decide (p = some Parent.array) && f) = true then [' ', '-'] else '\n' :: (indent n ++ ['-'])) = w
    cases a with
    | none =>
      have := (ih (n + 2) (some .array)).context (x ++ w) z
      simpa using this
    | some a =>
      have := (ih (n + 2) none).context (x ++ w ++ c!" &" ++ a) z
      simpa using this
  | @inInlineArray es i v v' ls hi _ ih =>
    obtain ⟨l, r, rfl, rfl⟩ := split_at hi
    rw [set_append_length, List.length_map]
    simp only [Yaml.format, formatInlineElements_append, formatInlineElements]
    have := (ih 0 none).context (c!" [" ++ formatInlineElements true l ++ (if (true && l.isEmpty) = true then [] else [','])) (formatInlineElements false r ++ c!" ]")
    simpa using this
  | seq _ _ ih1 ih2 =>
    rw [List.length_append]
    exact Patched.trans (ih1 n p) (ih2 n p)

theorem docEdits_text {E R} (hE : ∀ ds ds', E ds ds' → ∀ n p, Patched R 1 ((Yaml.hash ds).format n p) ((Yaml.hash ds').format n p))
    {n : Nat} {d d' : Document} (h : DocEdits E n d d') : Patched R n d.format d'.format := by
  obtain ⟨h1, h2⟩ := h
  unfold Document.format
  rw [h1]
  generalize d.leadingComments.flatMap (fun c => '#' :: (c ++ ['\n'])) ++ c!"---" = pre
  generalize d.items = is at h2 ⊢
  generalize d'.items = is' at h2 ⊢
  clear h1
  have key : Patched R n (is.flatMap DocumentData.format) (is'.flatMap DocumentData.format) := by
    induction h2 with
    | nil => exact .none _
    | @comment n c t t' _ ih =>
      have := ih.context (DocumentData.format (.comment c)) []
      simpa using this
    | @yaml n ls y y' t t' h _ ih =>
      have a := (edits_text hE h 0 none).context [] (t.flatMap DocumentData.format)
      have b := ih.context (y'.format 0 none) []
      simp only [List.nil_append, List.append_nil] at a b
      simpa [DocumentData.format] using Patched.trans a b
  have := key.context pre []
  simpa using this

/-! ## the changes of one mapping -/

theorem format_hash_cons (n : Nat) (p : Option Parent) (l : List HashData) (h : l ≠ []) : (Yaml.hash l).format n p = formatHash n p true l := by
  cases l with
  | nil => exact absurd rfl h
  | cons => simp [Yaml.format]

/-- The text of a mapping around one of its entries. -/
theorem format_hash_at (n : Nat) (p : Option Parent) (l r : List HashData) (k : Str) (v : AliasedYaml) :
    (Yaml.hash (l ++ .element ⟨k, v⟩ :: r)).format n p =
      formatHash n p true l ++ entryText n (decide (p = some .array) && l.isEmpty) k v ++ formatHash n p false r := by
  rw [format_hash_cons _ _ _ (by simp), formatHash_append, formatHash_element]
  simp

theorem renames_text {k new : Str} {ds ds' : List HashData} (h : Renames k new ds ds') (n : Nat) (p : Option Parent) :
    Patched (RenamedText k new) 1 ((Yaml.hash ds).format n p) ((Yaml.hash ds').format n p) := by
  obtain ⟨pre, v, post, ⟨rfl, -⟩, rfl⟩ := h
  rw [format_hash_at, format_hash_at]
  exact .one _ _ (.key _ _ _)

theorem overwrites_text {k : Str} {h : AliasedYaml} {ds ds' : List HashData} (hw : Overwrites k h ds ds') (n : Nat) (p : Option Parent) :
    Patched (OverwrittenText k h) 1 ((Yaml.hash ds).format n p) ((Yaml.hash ds').format n p) := by
  obtain ⟨pre, v, post, ⟨rfl, -⟩, rfl⟩ := hw
  rw [format_hash_at, format_hash_at]
  exact .one _ _ (.value _ _ _)

theorem wraps_text {k obj : Str} {ds ds' : List HashData} (hw : Wraps k obj ds ds') (n : Nat) (p : Option Parent) :
    Patched (WrappedText k obj) 1 ((Yaml.hash ds).format n p) ((Yaml.hash ds').format n p) := by
  obtain ⟨pre, v, post, ⟨rfl, -⟩, rfl⟩ := hw
  rw [format_hash_at, format_hash_at]
  have e : (Yaml.hash [.element ⟨obj, v⟩]).format (n + 2) (some .hash) = entryText (n + 2) false obj v := by
    rw [format_hash_cons _ _ _ (by simp), formatHash_element]
    simp [formatHash]
  generalize (decide (p = some Parent.array) && pre.isEmpty) = f
  have := Patched.one (formatHash n p true pre) (formatHash n p false post) (WrappedText.value (k := k) (obj := obj) n f v)
  rw [← e] at this
  exact this

theorem appends_text {k : Str} {h : AliasedYaml} {ds ds' : List HashData} (hw : Appends k h ds ds') (n : Nat) (p : Option Parent) :
    Patched (InsertedText k h) 1 ((Yaml.hash ds).format n p) ((Yaml.hash ds').format n p) := by
  obtain ⟨-, rfl⟩ := hw
  rw [format_hash_at]
  cases ds with
  | nil =>
    have := Patched.one [] [] (InsertedText.first (k := k) (h := h) n (decide (p = some Parent.array)))
    simpa [formatHash, Yaml.format] using this
  | cons x t =>
    rw [format_hash_cons _ _ _ (by simp)]
    have := Patched.one (formatHash n p true (x :: t)) [] (InsertedText.entry (k := k) (h := h) n)
    simpa [formatHash] using this

theorem removes_text {k : Str} {ds ds' : List HashData} (hw : Removes k ds ds') (n : Nat) (p : Option Parent) :
    Patched (RemovedText k) 1 ((Yaml.hash ds).format n p) ((Yaml.hash ds').format n p) := by
  obtain ⟨pre, v, post, ⟨rfl, -⟩, rfl⟩ := hw
  rw [format_hash_at]
  cases pre with
  | cons x t =>
    rw [format_hash_cons _ _ _ (by simp), formatHash_append]
    have := Patched.one (formatHash n p true (x :: t)) (formatHash n p false post) (RemovedText.entry (k := k) n false v)
    simpa using this
  | nil =>
    rcases post with _ | ⟨y, t⟩
    · have := Patched.one [] [] (RemovedText.only (k := k) n (decide (p = some Parent.array)) v)
      simpa [formatHash, Yaml.format] using this
    · rw [List.nil_append, format_hash_cons _ _ _ (by simp)]
      have plain : formatHash n p true (y :: t) = formatHash n p false (y :: t) →
          Patched (RemovedText k) 1 (formatHash n p true [] ++ entryText n (decide (p = some .array) && ([] : List HashData).isEmpty) k v ++
            formatHash n p false (y :: t)) (formatHash n p true (y :: t)) := by
        intro e
        rw [e]
        have := Patched.one [] (formatHash n p false (y :: t)) (RemovedText.entry (k := k) n (decide (p = some Parent.array)) v)
        simpa [formatHash] using this
      rcases y with c | c | ⟨k', v'⟩
      · exact plain (by simp [formatHash])
      · exact plain (by simp [formatHash])
      · by_cases hp : p = some .array
        · have := Patched.one [] (k' ++ ':' :: v'.format n (some .hash) ++ formatHash n p false t) (RemovedText.next (k := k) n v)
          rw [formatHash_element, formatHash_element]
          simpa [formatHash, hp, entryText] using this
        · exact plain (by rw [formatHash_element, formatHash_element]; simp [hp])

/-! ## C64 -/

/-- **C64.** Renaming replaces as many keys in the text as it returns, and changes nothing else. -/
theorem C64_rename (d : Document) (path : YamlPath) (k new : Str) (hk : lastKey path = some k) :
    Patched (RenamedText k new) (d.renameField path new).1 d.format (d.renameField path new).2.format := by
  refine docEdits_text ?_ (C21_rename_only_names d path new)
  rintro ds ds' ⟨k', hk', h⟩ n p
  rw [hk, Option.some.injEq] at hk'
  subst hk'
  exact renames_text h n p

/-- **C64.** Inserting without overwriting adds as many entries to the text as it returns, and changes nothing else. -/
theorem C64_insert (d : Document) (path : YamlPath) (k : Str) (h : AliasedYaml) (hk : lastKey path = some k) :
    Patched (InsertedText k h) (d.insertIntoHash path h false).1 d.format (d.insertIntoHash path h false).2.format := by
  refine docEdits_text ?_ (C17_insert_only_appends d path h)
  rintro ds ds' ⟨k', hk', h⟩ n p
  rw [hk, Option.some.injEq] at hk'
  subst hk'
  exact appends_text h n p

/-- **C64.** Inserting with overwriting adds entries to the text or replaces the texts of values, as many as it returns. -/
theorem C64_overwrite (d : Document) (path : YamlPath) (k : Str) (h : AliasedYaml) (hk : lastKey path = some k) :
    Patched (fun s t => InsertedText k h s t ∨ OverwrittenText k h s t) (d.insertIntoHash path h true).1 d.format
      (d.insertIntoHash path h true).2.format := by
  refine docEdits_text ?_ (insert_edits d path h true)
  rintro ds ds' ⟨k', hk', h⟩ n p
  rw [hk, Option.some.injEq] at hk'
  subst hk'
  rcases h with h | ⟨-, h⟩
  · exact (appends_text h n p).mono fun _ _ => .inl
  · exact (overwrites_text h n p).mono fun _ _ => .inr

/-- **C64.** Removing takes as many entries from the text as it returns, and changes nothing else. -/
theorem C64_remove (d : Document) (path : YamlPath) (k : Str) (hk : lastKey path = some k) :
    Patched (RemovedText k) (d.removeFromHash path).1 d.format (d.removeFromHash path).2.format := by
  refine docEdits_text ?_ (C20_remove_one_entry d path)
  rintro ds ds' ⟨k', hk', h⟩ n p
  rw [hk, Option.some.injEq] at hk'
  subst hk'
  exact removes_text h n p

/-- **C64.** Wrapping values in objects replaces the texts of as many values as it returns, and changes nothing else. -/
theorem C64_to_object (d : Document) (path : YamlPath) (k obj : Str) (hk : lastKey path = some k) :
    Patched (WrappedText k obj) (d.toObject path obj).1 d.format (d.toObject path obj).2.format := by
  refine docEdits_text ?_ (C22_to_object_wraps d path obj)
  rintro ds ds' ⟨k', hk', h⟩ n p
  rw [hk, Option.some.injEq] at hk'
  subst hk'
  exact wraps_text h n p

/-- **C64.** So renaming changes the length of the text by the difference of the lengths of the keys, for each key. -/
theorem C64_rename_length (d : Document) (path : YamlPath) (k new : Str) (hk : lastKey path = some k) :
    (d.renameField path new).2.format.length + (d.renameField path new).1 * k.length =
      d.format.length + (d.renameField path new).1 * new.length := by
  have h := C64_rename d path k new hk
  generalize (d.renameField path new).1 = n at h ⊢
  generalize (d.renameField path new).2.format = t at h ⊢
  generalize d.format = s at h ⊢
  induction h with
  | none s => simp
  | step pre post _ hr ih =>
    obtain ⟨n, f, v⟩ := hr
    simp only [List.length_append, Nat.add_mul, entryText] at ih ⊢
    omega

/-- **C64.** Without a key at the end of the path, nothing changes. -/
theorem C64_no_key (d : Document) (path : YamlPath) (h : AliasedYaml) (o : Bool) (new : Str) (hk : lastKey path = none) :
    (d.insertIntoHash path h o).2.format = d.format ∧ (d.removeFromHash path).2.format = d.format ∧
      (d.renameField path new).2.format = d.format ∧ (d.toObject path new).2.format = d.format := by
  have key : ∀ {E : Str → List HashData → List HashData → Prop} {n d'}, DocEdits (AtLastKey path E) n d d' → d'.format = d.format := by
    intro E n d' hd
    have := docEdits_text (R := fun _ _ => False) (by rintro ds ds' ⟨k, hk', -⟩; rw [hk] at hk'; cases hk') hd
    generalize d'.format = t at this
    generalize d.format = s at this
    cases this with
    | none => rfl
    | step _ _ _ h => cases h
  exact ⟨key (insert_edits d path h o), key (C20_remove_one_entry d path), key (C21_rename_only_names d path new), key (C22_to_object_wraps d path new)⟩

/-! ## an example: the texts before and after -/

/-- The text of an edited text. -/
def editText (edit : Document → Nat × Document) (s : Str) : Out (Nat × Str) :=
  (parseYamlFile asciiTables s).bind fun d => .ok ((edit d).1, (edit d).2.format)

theorem C64_example :
    editText (fun d => d.renameField (.key c!"xs" [] (some (.allIndexes [] (some (.key c!"a" [] none))))) c!"zz") c!"---\n# c\nxs:\n  - a: 1 # d\n    b: 2\n  - a: 3\ny: &n [4]" =
      .ok (2, c!"---\n# c\nxs:\n  - zz: 1 # d\n    b: 2\n  - zz: 3\ny: &n [ 4 ]") ∧
    editText (fun d => d.removeFromHash (.key c!"xs" [] (some (.allIndexes [] (some (.key c!"a" [] none)))))) c!"---\n# c\nxs:\n  - a: 1\n    b: 2\n  - a: 3\ny: &n [ 4 ]" =
      .ok (2, c!"---\n# c\nxs:\n  - b: 2\n  - {}\ny: &n [ 4 ]") ∧
    editText (fun d => d.insertIntoHash (.key c!"xs" [] (some (.allIndexes [] (some (.key c!"b" [] none))))) ⟨none, .hash [.element ⟨c!"k", ⟨none, .unquotedString c!"v"⟩⟩]⟩ false)
        c!"---\n# c\nxs:\n  - a: 1\n    b: 2\n  - a: 3\ny: &n [ 4 ]" =
      .ok (1, c!"---\n# c\nxs:\n  - a: 1\n    b: 2\n  - a: 3\n    b:\n      k: v\ny: &n [ 4 ]") ∧
    editText (fun d => d.toObject (.key c!"y" [] none) c!"o") c!"---\n# c\nxs:\n  - a: 1\ny: &n [ 4 ]" =
      .ok (1, c!"---\n# c\nxs:\n  - a: 1\ny:\n  o: &n [ 4 ]") :=
  ⟨by kernel_rfl, by kernel_rfl, by kernel_rfl, by kernel_rfl⟩

end YamlSubset
