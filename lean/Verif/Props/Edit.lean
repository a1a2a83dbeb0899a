import Verif.Lemmas.EditLists

/-! # Properties of path edits (C16, C17, C20, C21, C22, C24, C28) -/

namespace YamlSubset

open Spec

variable {A : Type} [Additive A]

/-! ## documents -/

theorem overItems_none {C : Counting A} {g : Yaml → A × Yaml} (is : List DocumentData) (c : A)
    (hc : C.cnt c = none) : C.cnt (Document.overItems.go g c is).1 = none := by
  have hadd : ∀ a b : A, C.cnt a = none → C.cnt (Additive.add a b) = none := by
    intro a b ha
    cases hh : C.cnt (Additive.add a b) with
    | none => rfl
    | some k => obtain ⟨i, j, hi, _⟩ := C.add _ _ _ hh; rw [ha] at hi; cases hi
  induction is generalizing c with
  | nil => exact hc
  | cons d t ih =>
    cases d with
    | comment s => exact ih _ (hadd _ _ hc)
    | yaml y => exact ih _ (hadd _ _ hc)

theorem overItems_edits {C : Counting A} {E} {g : Yaml → A × Yaml} (hg : EditsBy C E g)
    (d : Document) (n : Nat) (hn : C.cnt (d.overItems g).1 = some n) : DocEdits E n d (d.overItems g).2 := by
  have key : ∀ (is : List DocumentData) (c : A) (m n : Nat), C.cnt c = some m →
      C.cnt (Document.overItems.go g c is).1 = some n →
      ∃ j, n = m + j ∧ ItemsEdit E j is (Document.overItems.go g c is).2 := by
    intro is
    induction is with
    | nil =>
      intro c m n hc hn
      simp only [Document.overItems.go, hc, Option.some.injEq] at hn
      exact ⟨0, by simp [hn], .nil⟩
    | cons i t ih =>
      intro c m n hc hn
      cases i with
      | comment s =>
        simp only [Document.overItems.go] at hn ⊢
        cases hadd : C.cnt (Additive.add c (Additive.zero : A)) with
        | none => rw [overItems_none _ _ hadd] at hn; cases hn
        | some k =>
          obtain ⟨i, j, hi, hj, rfl⟩ := C.add _ _ _ hadd
          rw [hc] at hi; cases hi
          rw [C.zero] at hj; cases hj
          obtain ⟨j, hj, he⟩ := ih _ _ _ hadd hn
          exact ⟨j, by omega, .comment he⟩
      | yaml y =>
        simp only [Document.overItems.go] at hn ⊢
        cases hadd : C.cnt (Additive.add c (g y).1) with
        | none => rw [overItems_none _ _ hadd] at hn; cases hn
        | some k =>
          obtain ⟨i, j, hi, hj, rfl⟩ := C.add _ _ _ hadd
          rw [hc] at hi; cases hi
          obtain ⟨ls, hl, he⟩ := hg y j hj
          obtain ⟨j', hj', he'⟩ := ih _ _ _ hadd hn
          exact ⟨ls.length + j', by omega, .yaml he he'⟩
  obtain ⟨j, hj, he⟩ := key d.items Additive.zero 0 n C.zero hn
  simp only [Nat.zero_add] at hj; subst hj
  exact ⟨rfl, he⟩

theorem Spec.ItemsEdit.zero {E} {n : Nat} {is is' : List DocumentData} (h : ItemsEdit E n is is') (hn : n = 0) :
    is = is' := by
  induction h with
  | nil => rfl
  | comment _ ih => rw [ih hn]
  | yaml h _ ih =>
    rw [h.nil_eq (List.eq_nil_of_length_eq_zero (by omega)), ih (by omega)]

theorem Spec.DocEdits.zero {E} {d d' : Document} (h : DocEdits E 0 d d') : d' = d := by
  obtain ⟨h1, h2⟩ := h
  cases d; cases d'
  simp only at h1 h2
  rw [h1, ItemsEdit.zero h2 rfl]

theorem Spec.DocEdits.mono {E E' : List HashData → List HashData → Prop} (hE : ∀ a b, E a b → E' a b)
    {n : Nat} {d d' : Document} (h : DocEdits E n d d') : DocEdits E' n d d' := by
  obtain ⟨h1, h2⟩ := h
  refine ⟨h1, ?_⟩
  generalize d.items = is at h2
  generalize d'.items = is' at h2
  clear h1
  induction h2 with
  | nil => exact .nil
  | comment _ ih => exact .comment ih
  | yaml h _ ih => exact .yaml (h.mono hE) ih

theorem overItems_no_edit {g : Yaml → Nat × Yaml} (hg : ∀ y, g y = (0, y)) (d : Document) :
    d.overItems g = (0, d) := by
  have key : ∀ is : List DocumentData, Document.overItems.go g 0 is = (0, is) := by
    intro is
    induction is with
    | nil => rfl
    | cons i t ih =>
      cases i with
      | comment s =>
        show ((Document.overItems.go g 0 t).1, DocumentData.comment s :: (Document.overItems.go g 0 t).2) = _
        rw [ih]
      | yaml y =>
        show ((Document.overItems.go g (0 + (g y).1) t).1,
          DocumentData.yaml (g y).2 :: (Document.overItems.go g (0 + (g y).1) t).2) = _
        rw [hg]
        show ((Document.overItems.go g 0 t).1, DocumentData.yaml y :: (Document.overItems.go g 0 t).2) = _
        rw [ih]
  show ((Document.overItems.go g 0 d.items).1, { d with items := (Document.overItems.go g 0 d.items).2 }) = _
  rw [key]

/-! ## the edits -/

theorem insertClosure_spec (h : AliasedYaml) (o : Bool) (data : List HashData) (k : Str) :
    let q := insertClosure h o data k (data.findIdx? (HashData.hasKey k))
    (q.1 = 0 ∧ q.2 = data) ∨
      (q.1 = 1 ∧ (Appends k h data q.2 ∨ (o = true ∧ Overwrites k h data q.2))) := by
  simp only [insertClosure]
  cases hi : data.findIdx? (HashData.hasKey k) with
  | none => exact .inr ⟨rfl, .inl ⟨findIdx_none _ _ hi, rfl⟩⟩
  | some i =>
    obtain ⟨pre, v, post, hfe, rfl⟩ := findIdx_spec _ _ _ hi
    cases o with
    | false => exact .inl ⟨rfl, rfl⟩
    | true =>
      refine .inr ⟨rfl, .inr ⟨rfl, pre, v, post, hfe, ?_⟩⟩
      simp only [if_true]
      rw [hfe.1, set_append_length]

theorem removeClosure_spec (data : List HashData) (k : Str) :
    let q := removeClosure data k (data.findIdx? (HashData.hasKey k))
    (q.1 = 0 ∧ q.2 = data) ∨ (q.1 = 1 ∧ Removes k data q.2) := by
  simp only [removeClosure]
  cases hi : data.findIdx? (HashData.hasKey k) with
  | none => exact .inl ⟨rfl, rfl⟩
  | some i =>
    obtain ⟨pre, v, post, hfe, rfl⟩ := findIdx_spec _ _ _ hi
    refine .inr ⟨rfl, pre, v, post, hfe, ?_⟩
    simp only
    rw [hfe.1, List.eraseIdx_append_of_length_le (Nat.le_refl _)]
    simp

theorem insert_editsBy (path : YamlPath) (k : Str) (hk : lastKey path = some k) (h : AliasedYaml) (o : Bool) :
    EditsBy natCounting (fun ds ds' => Appends k h ds ds' ∨ (o = true ∧ Overwrites k h ds ds'))
      (Yaml.insertIntoHash path h o) :=
  editHash_edits (fun k ds ds' => Appends k h ds ds' ∨ (o = true ∧ Overwrites k h ds ds')) _
    (fun data k => insertClosure_spec h o data k) path k hk

theorem remove_editsBy (path : YamlPath) (k : Str) (hk : lastKey path = some k) :
    EditsBy natCounting (Removes k) (Yaml.removeFromHash path) :=
  editHash_edits Removes _ (fun data k => removeClosure_spec data k) path k hk

theorem editsBy_zero (E) : EditsBy natCounting E (fun y => ((0 : Nat), y)) := by
  intro v n hn
  simp only [natCounting, Option.some.injEq] at hn
  exact ⟨[], by simpa using hn, .none _⟩

/-- The relation of an edit of the entry with the last key of a path, if it has one. -/
def AtLastKey (path : YamlPath) (R : Str → List HashData → List HashData → Prop)
    (ds ds' : List HashData) : Prop :=
  ∃ k, lastKey path = some k ∧ R k ds ds'

theorem rename_editsBy (path : YamlPath) (new : Str) :
    EditsBy natCounting (AtLastKey path fun k => Renames k new) (Yaml.renameField path new) := by
  apply forHash_edits natCounting _ _ _ path _ (editsBy_zero _)
  intro k ds pre v post n hk hfe hn
  simp only [natCounting, Option.some.injEq] at hn
  exact ⟨[[]], by simpa using hn, .here ⟨k, hk, pre, v, post, hfe, rfl⟩⟩

theorem toObject_editsBy (path : YamlPath) (obj : Str) :
    EditsBy natCounting (AtLastKey path fun k => Wraps k obj) (Yaml.toObject path obj) := by
  apply forHash_edits natCounting _ _ _ path _ (editsBy_zero _)
  intro k ds pre v post n hk hfe hn
  simp only [natCounting, Option.some.injEq] at hn
  exact ⟨[[]], by simpa using hn, .here ⟨k, hk, pre, v, post, hfe, rfl⟩⟩

theorem editHash_hash (f : List HashData → Str → Option Nat → Nat × List HashData) (path : YamlPath)
    (ds : List HashData) : ∃ ds', (Yaml.editHash f path (.hash ds)).2 = .hash ds' := by
  match path with
  | .root _ => exact ⟨ds, rfl⟩
  | .key k cs none =>
    simp only [Yaml.editHash]
    split <;> exact ⟨_, rfl⟩
  | .key k cs (some p) =>
    simp only [Yaml.editHash]
    split
    · split
      · split <;> exact ⟨_, rfl⟩
      · exact ⟨_, rfl⟩
    · exact ⟨_, rfl⟩
  | .allIndexes cs none => exact ⟨ds, rfl⟩
  | .allIndexes cs (some p) => exact ⟨ds, by simp [Yaml.editHash]⟩
  | .indexes is cs none => exact ⟨ds, rfl⟩
  | .indexes is cs (some p) => exact ⟨ds, by simp [Yaml.editHash]⟩

theorem removeFields_hash (keys : List Str) (ds : List HashData) (y : Yaml)
    (h : removeFields keys (.hash ds) = .ok y) : ∃ ds', y = .hash ds' := by
  induction keys generalizing ds with
  | nil => simp only [removeFields, Out.ok.injEq] at h; exact ⟨ds, h.symm⟩
  | cons k t ih =>
    simp only [removeFields] at h
    cases hp : parsePathUnwrap k with
    | ok p =>
      rw [hp] at h
      simp only [Out.bind] at h
      obtain ⟨ds', hd⟩ := editHash_hash removeClosure p ds
      unfold Yaml.removeFromHash at h
      rw [hd] at h
      exact ih ds' h
    | _ => rw [hp] at h; simp [Out.bind] at h

theorem putIntoSubfield_hash (sub : Str) (fields : List (Str × AliasedYaml)) (ds : List HashData) (y : Yaml)
    (h : putIntoSubfield sub fields ds = .ok y) : ∃ ds', y = .hash ds' := by
  unfold putIntoSubfield at h
  split at h
  · rename_i s _
    cases hi : insertFields fields s.value with
    | ok v => rw [hi] at h; simp only [Out.bind, Out.ok.injEq] at h; exact ⟨_, h.symm⟩
    | _ => rw [hi] at h; simp [Out.bind] at h
  · cases hp : parsePathUnwrap sub with
    | ok p =>
      rw [hp] at h; simp only [Out.bind, Out.ok.injEq] at h
      obtain ⟨ds', hd⟩ := editHash_hash (insertClosure _ false) p ds
      unfold Yaml.insertIntoHash at h
      rw [hd] at h
      exact ⟨ds', h.symm⟩
    | _ => rw [hp] at h; simp [Out.bind] at h

/-- What `move_to_subfield` does at a counted node: a block hash is replaced by the result of the move. -/
def MovesToSubfield (sub : Str) (fields : List Str) (ds ds' : List HashData) : Prop :=
  moveToSubfieldAt sub fields (.hash ds) = .ok (1, .hash ds')

/-- What `move_to_map_with_field_as_key` does at a counted node. -/
def MovesToMap (old sel new : Str) (keeps : List Str) (ds ds' : List HashData) : Prop :=
  moveToMapAt old sel new keeps (.hash ds) = .ok (1, .hash ds')

theorem countedEdit_editsBy {E} (m : Yaml → Out (Nat × Yaml))
    (hm : ∀ y n y', m y = .ok (n, y') → (n = 0 ∧ y' = y) ∨ (n = 1 ∧ ∃ ds ds', y = .hash ds ∧ y' = .hash ds' ∧ E ds ds')) :
    EditsBy outCounting E (fun y => countedEdit y (m y)) := by
  intro v n hn
  cases hmv : m v with
  | ok q =>
    obtain ⟨j, y'⟩ := q
    simp only [hmv, countedEdit, outCounting, Option.some.injEq] at hn ⊢
    subst hn
    rcases hm v j y' hmv with ⟨rfl, rfl⟩ | ⟨rfl, ds, ds', rfl, rfl, he⟩
    · exact ⟨[], rfl, .none _⟩
    · exact ⟨[[]], rfl, .here he⟩
  | _ => simp [hmv, countedEdit, outCounting] at hn

theorem onElementValue_edits {E} (path : YamlPath) (r : Yaml → Out Nat × Yaml) (hr : EditsBy outCounting E r) :
    EditsBy outCounting E (Yaml.forHash (onElementValue r) r path) := by
  apply forHash_edits outCounting _ _ _ path _ hr
  intro k ds pre v post n hk hfe hn
  obtain ⟨a, v⟩ := v
  obtain ⟨ls, hl, he⟩ := hr v n hn
  refine ⟨ls.map (pre.length :: ·), by simpa using hl, ?_⟩
  have := Edits.inHash hfe.get he
  rw [hfe.1, set_append_length] at this
  rw [hfe.1]
  exact this

theorem moveToSubfield_editsBy (path : YamlPath) (sub : Str) (fields : List Str) :
    EditsBy outCounting (MovesToSubfield sub fields) (Yaml.moveToSubfield path sub fields) := by
  apply onElementValue_edits
  apply countedEdit_editsBy
  intro y n y' h
  unfold moveToSubfieldAt at h
  split at h
  · rename_i ds
    simp only at h
    split at h
    · simp only [Out.ok.injEq, Prod.mk.injEq] at h; exact .inl ⟨h.1.symm, h.2.symm⟩
    · rename_i hf
      have h0 := h
      cases hp : putIntoSubfield sub (fieldsFound (.hash ds) fields) ds with
      | ok y1 =>
        rw [hp] at h
        simp only [Out.bind] at h
        obtain ⟨ds1, rfl⟩ := putIntoSubfield_hash _ _ _ _ hp
        cases hr : removeFields ((fieldsFound (.hash ds) fields).map Prod.fst) (.hash ds1) with
        | ok y2 =>
          rw [hr] at h
          simp only [Out.ok.injEq, Prod.mk.injEq] at h
          obtain ⟨rfl, rfl⟩ := h
          obtain ⟨ds2, rfl⟩ := removeFields_hash _ _ _ hr
          refine .inr ⟨rfl, ds, ds2, rfl, rfl, ?_⟩
          unfold MovesToSubfield moveToSubfieldAt
          simp only [hf]
          exact h0
        | _ => rw [hr] at h; simp at h
      | _ => rw [hp] at h; simp [Out.bind] at h
  · simp only [Out.ok.injEq, Prod.mk.injEq] at h; exact .inl ⟨h.1.symm, h.2.symm⟩

theorem moveToMap_editsBy (path : YamlPath) (old sel new : Str) (keeps : List Str) :
    EditsBy outCounting (MovesToMap old sel new keeps) (Yaml.moveToMap path old sel new keeps) := by
  apply onElementValue_edits
  apply countedEdit_editsBy
  intro y n y' h
  have h0 := h
  unfold moveToMapAt at h
  split at h
  · rename_i ds
    split at h
    · rename_i alias hd hk
      cases hl : moveToMapLoop sel keeps hd ⟨[], [], [], none⟩ with
      | ok st =>
        rw [hl] at h
        simp only [Out.bind] at h
        split at h
        · simp only [Out.ok.injEq, Prod.mk.injEq] at h; exact .inl ⟨h.1.symm, h.2.symm⟩
        · cases hn : parsePathUnwrap new with
          | ok pn =>
            rw [hn] at h
            simp only at h
            cases ho : parsePathUnwrap old with
            | ok po =>
              rw [ho] at h
              simp only [Out.ok.injEq, Prod.mk.injEq] at h
              obtain ⟨rfl, rfl⟩ := h
              unfold Yaml.insertIntoHash at h0 ⊢
              obtain ⟨ds1, h1⟩ := editHash_hash (insertClosure
                ⟨alias, .hash ((moveToMapFinish st).1.map fun kv => .element ⟨kv.1, ⟨none, .hash kv.2⟩⟩)⟩ false) pn ds
              rw [h1] at h0 ⊢
              obtain ⟨ds2, h2⟩ := editHash_hash (insertClosure
                ⟨alias, .hash (moveToMapFinish st).2⟩ true) po ds1
              rw [h2] at h0 ⊢
              exact .inr ⟨rfl, ds, ds2, rfl, rfl, h0⟩
            | _ => rw [ho] at h; simp at h
          | _ => rw [hn] at h; simp at h
      | _ => rw [hl] at h; simp [Out.bind] at h
    · simp only [Out.ok.injEq, Prod.mk.injEq] at h; exact .inl ⟨h.1.symm, h.2.symm⟩
  · simp only [Out.ok.injEq, Prod.mk.injEq] at h; exact .inl ⟨h.1.symm, h.2.symm⟩

/-! ## C16 -/

/-- **C16.** An edit that returns 0 leaves the document unchanged: insert. -/
theorem C16_insert_zero (d : Document) (path : YamlPath) (h : AliasedYaml) (o : Bool)
    (h0 : (d.insertIntoHash path h o).1 = 0) : (d.insertIntoHash path h o).2 = d := by
  unfold Document.insertIntoHash at *
  cases hk : lastKey path with
  | none => rw [overItems_no_edit (g := Yaml.insertIntoHash path h o) (fun y => editHash_no_key _ path hk y)]
  | some k =>
    have := overItems_edits (insert_editsBy path k hk h o) d 0 (by rw [h0]; rfl)
    exact this.zero

/-- **C16.** remove. -/
theorem C16_remove_zero (d : Document) (path : YamlPath) (h0 : (d.removeFromHash path).1 = 0) :
    (d.removeFromHash path).2 = d := by
  unfold Document.removeFromHash at *
  cases hk : lastKey path with
  | none => rw [overItems_no_edit (g := Yaml.removeFromHash path) (fun y => editHash_no_key _ path hk y)]
  | some k =>
    have := overItems_edits (remove_editsBy path k hk) d 0 (by rw [h0]; rfl)
    exact this.zero

/-- **C16.** rename. -/
theorem C16_rename_zero (d : Document) (path : YamlPath) (new : Str) (h0 : (d.renameField path new).1 = 0) :
    (d.renameField path new).2 = d := by
  unfold Document.renameField at *
  have := overItems_edits (rename_editsBy path new) d 0 (by rw [h0]; rfl)
  exact this.zero

/-- **C16.** to_object. -/
theorem C16_to_object_zero (d : Document) (path : YamlPath) (obj : Str) (h0 : (d.toObject path obj).1 = 0) :
    (d.toObject path obj).2 = d := by
  unfold Document.toObject at *
  have := overItems_edits (toObject_editsBy path obj) d 0 (by rw [h0]; rfl)
  exact this.zero

/-- **C16.** move_to_subfield (when it does not panic). -/
theorem C16_move_to_subfield_zero (d : Document) (path : YamlPath) (sub : Str) (fields : List Str)
    (h0 : (d.moveToSubfield path sub fields).1 = .ok 0) : (d.moveToSubfield path sub fields).2 = d := by
  unfold Document.moveToSubfield at *
  have := overItems_edits (moveToSubfield_editsBy path sub fields) d 0 (by rw [h0]; rfl)
  exact this.zero

/-- **C16.** move_to_map_with_field_as_key (when it does not panic). -/
theorem C16_move_to_map_zero (d : Document) (path : YamlPath) (old sel new : Str) (keeps : List Str)
    (h0 : (d.moveToMap path old sel new keeps).1 = .ok 0) : (d.moveToMap path old sel new keeps).2 = d := by
  unfold Document.moveToMap at *
  have := overItems_edits (moveToMap_editsBy path old sel new keeps) d 0 (by rw [h0]; rfl)
  exact this.zero

/-- `{a: 1}` as a document. -/
def sampleDoc : Document :=
  ⟨["top".toList], [.yaml (.hash [.comment "c".toList, .element ⟨"a".toList, ⟨none, .hash
    [.element ⟨"b".toList, ⟨none, .unquotedString "1".toList⟩⟩]⟩⟩]), .comment "end".toList]⟩

/-- C16 is not vacuous: an edit that returns 0 … -/
example : (sampleDoc.insertIntoHash (.key "a".toList [] (some (.key "b".toList [] none)))
    ⟨none, .unquotedString "2".toList⟩ false).1 = 0 := by decide +kernel
/-- … and one that does not. -/
example : (sampleDoc.insertIntoHash (.key "a".toList [] (some (.key "c".toList [] none)))
    ⟨none, .unquotedString "2".toList⟩ false).1 = 1 := by decide +kernel

/-! ## C17, C20, C21, C22: what an edit changes, and how often -/

/-- **C17.** Insert without overwrite only appends entries with new keys at the ends of block
hashes, as many as it returns; every other entry, comment and value stays in place. -/
theorem C17_insert_only_appends (d : Document) (path : YamlPath) (h : AliasedYaml) :
    DocEdits (AtLastKey path fun k => Appends k h) (d.insertIntoHash path h false).1 d
      (d.insertIntoHash path h false).2 := by
  unfold Document.insertIntoHash
  have hz : ∀ n (g : Yaml → Nat × Yaml) (hg : EditsBy natCounting (AtLastKey path fun k => Appends k h) g),
      n = (d.overItems g).1 → DocEdits (AtLastKey path fun k => Appends k h) n d (d.overItems g).2 := by
    intro n g hg hn
    exact overItems_edits hg d n (by rw [hn]; rfl)
  apply hz _ _ _ rfl
  cases hk : lastKey path with
  | none =>
    intro v n hn
    have := editHash_no_key (insertClosure h false) path hk v
    unfold Yaml.insertIntoHash at *
    rw [this] at hn ⊢
    simp only [natCounting, Option.some.injEq] at hn
    exact ⟨[], by simpa using hn, .none _⟩
  | some k =>
    intro v n hn
    obtain ⟨ls, hl, he⟩ := insert_editsBy path k hk h false v n hn
    refine ⟨ls, hl, he.mono ?_⟩
    rintro a b (h | ⟨h, -⟩)
    · exact ⟨k, hk, h⟩
    · cases h

/-- The general form of an insert: an entry is appended, or (with overwrite) the value of the first entry
with the key is replaced. -/
theorem insert_edits (d : Document) (path : YamlPath) (h : AliasedYaml) (o : Bool) :
    DocEdits (AtLastKey path fun k ds ds' => Appends k h ds ds' ∨ (o = true ∧ Overwrites k h ds ds'))
      (d.insertIntoHash path h o).1 d (d.insertIntoHash path h o).2 := by
  unfold Document.insertIntoHash
  apply overItems_edits (C := natCounting) _ _ _ rfl
  cases hk : lastKey path with
  | none =>
    intro v n hn
    have := editHash_no_key (insertClosure h o) path hk v
    unfold Yaml.insertIntoHash at *
    rw [this] at hn ⊢
    simp only [natCounting, Option.some.injEq] at hn
    exact ⟨[], by simpa using hn, .none _⟩
  | some k =>
    intro v n hn
    obtain ⟨ls, hl, he⟩ := insert_editsBy path k hk h o v n hn
    exact ⟨ls, hl, he.mono fun _ _ h => ⟨k, hk, h⟩⟩

/-- **C20.** Remove deletes exactly one entry, the first with the last key of the path, per counted
hash; everything else stays, in order. -/
theorem C20_remove_one_entry (d : Document) (path : YamlPath) :
    DocEdits (AtLastKey path Removes) (d.removeFromHash path).1 d (d.removeFromHash path).2 := by
  unfold Document.removeFromHash
  apply overItems_edits (C := natCounting) _ _ _ rfl
  cases hk : lastKey path with
  | none =>
    intro v n hn
    have := editHash_no_key removeClosure path hk v
    unfold Yaml.removeFromHash at *
    rw [this] at hn ⊢
    simp only [natCounting, Option.some.injEq] at hn
    exact ⟨[], by simpa using hn, .none _⟩
  | some k =>
    intro v n hn
    obtain ⟨ls, hl, he⟩ := remove_editsBy path k hk v n hn
    exact ⟨ls, hl, he.mono fun _ _ h => ⟨k, hk, h⟩⟩

/-- **C21.** Rename changes the names of counted entries and nothing else. -/
theorem C21_rename_only_names (d : Document) (path : YamlPath) (new : Str) :
    DocEdits (AtLastKey path fun k => Renames k new) (d.renameField path new).1 d
      (d.renameField path new).2 :=
  overItems_edits (rename_editsBy path new) d _ rfl

/-- **C22.** to_object wraps the values of counted entries and changes nothing else. -/
theorem C22_to_object_wraps (d : Document) (path : YamlPath) (obj : Str) :
    DocEdits (AtLastKey path fun k => Wraps k obj) (d.toObject path obj).1 d (d.toObject path obj).2 :=
  overItems_edits (toObject_editsBy path obj) d _ rfl

/-- The theorems are about real changes: each edit of `a.b` in `a: {b: 1}` counts one. -/
example : (sampleDoc.removeFromHash (.key "a".toList [] (some (.key "b".toList [] none)))).1 = 1 ∧
    (sampleDoc.renameField (.key "a".toList [] (some (.key "b".toList [] none))) "x".toList).1 = 1 ∧
    (sampleDoc.toObject (.key "a".toList [] (some (.key "b".toList [] none))) "x".toList).1 = 1 := by
  decide +kernel

/-! ## C28: comments -/

/-- Comments (and anchors) of the YAML items of a document. -/
def docNotes (d : Document) : List Note :=
  d.items.flatMap fun
    | .comment _ => []
    | .yaml y => notes y

/-- Comment items of a document, by position. -/
def docComments (d : Document) : List (Option Str) :=
  d.items.map fun
    | .comment s => some s
    | .yaml _ => none

theorem hashNotes_append (a b : List HashData) : hashNotes (a ++ b) = hashNotes a ++ hashNotes b := by
  induction a with
  | nil => simp [hashNotes]
  | cons d t ih =>
    match d with
    | .element ⟨k, ⟨al, v⟩⟩ => simp [hashNotes, ih]
    | .comment c => simp [hashNotes, ih]
    | .inlineComment c => simp [hashNotes, ih]

theorem arrayNotes_append (a b : List ArrayData) : arrayNotes (a ++ b) = arrayNotes a ++ arrayNotes b := by
  induction a with
  | nil => simp [arrayNotes]
  | cons d t ih =>
    match d with
    | .element ⟨al, v⟩ => simp [arrayNotes, ih]
    | .comment c => simp [arrayNotes, ih]
    | .inlineComment c => simp [arrayNotes, ih]

theorem yamlsNotes_append (a b : List Yaml) : yamlsNotes (a ++ b) = yamlsNotes a ++ yamlsNotes b := by
  induction a with
  | nil => simp [yamlsNotes]
  | cons d t ih => simp [yamlsNotes, ih]

theorem split_at {α} {l : List α} {i : Nat} {x : α} (h : l[i]? = some x) :
    ∃ a b, l = a ++ x :: b ∧ a.length = i := by
  obtain ⟨hi, hx⟩ := List.getElem?_eq_some_iff.1 h
  refine ⟨l.take i, l.drop (i + 1), ?_, by simp; omega⟩
  rw [← hx, List.getElem_cons_drop, List.take_append_drop]

/-- Edits whose changes respect a relation of notes respect it as a whole. -/
theorem edits_notes {E} (R : List Note → List Note → Prop) (hrefl : ∀ l, R l l)
    (htrans : ∀ a b c, R a b → R b c → R a c) (happ : ∀ a b x y, R x y → R (a ++ x ++ b) (a ++ y ++ b))
    (hE : ∀ ds ds', E ds ds' → R (hashNotes ds) (hashNotes ds')) {ls : List Loc} {y y' : Yaml}
    (h : Edits E ls y y') : R (notes y) (notes y') := by
  induction h with
  | none y => exact hrefl _
  | here h => exact hE _ _ h
  | @inHash ds i k a v v' ls hi _ ih =>
    obtain ⟨p, q, rfl, rfl⟩ := split_at hi
    rw [set_append_length]
    simp only [notes, hashNotes_append, hashNotes]
    have := happ (hashNotes p ++ anchorNote a) (hashNotes q) _ _ ih
    simpa using this
  | @inArray ds i a v v' ls hi _ ih =>
    obtain ⟨p, q, rfl, rfl⟩ := split_at hi
    rw [set_append_length]
    simp only [notes, arrayNotes_append, arrayNotes]
    have := happ (arrayNotes p ++ anchorNote a) (arrayNotes q) _ _ ih
    simpa using this
  | @inInlineArray es i v v' ls hi _ ih =>
    obtain ⟨p, q, rfl, rfl⟩ := split_at hi
    rw [set_append_length]
    simp only [notes, yamlsNotes_append, yamlsNotes]
    have := happ (yamlsNotes p) (yamlsNotes q) _ _ ih
    simpa using this
  | seq _ _ ih1 ih2 => exact htrans _ _ _ ih1 ih2

theorem docEdits_notes {E} (R : List Note → List Note → Prop) (hrefl : ∀ l, R l l)
    (htrans : ∀ a b c, R a b → R b c → R a c) (happ : ∀ a b x y, R x y → R (a ++ x ++ b) (a ++ y ++ b))
    (hE : ∀ ds ds', E ds ds' → R (hashNotes ds) (hashNotes ds')) {n : Nat} {d d' : Document}
    (h : DocEdits E n d d') :
    d'.leadingComments = d.leadingComments ∧ docComments d' = docComments d ∧ R (docNotes d) (docNotes d') := by
  obtain ⟨h1, h2⟩ := h
  refine ⟨h1, ?_⟩
  unfold docComments docNotes
  generalize d.items = is at h2 ⊢
  generalize d'.items = is' at h2 ⊢
  clear h1
  induction h2 with
  | nil => exact ⟨rfl, hrefl _⟩
  | comment _ ih => simpa using ih
  | @yaml n ls y y' t t' h _ ih =>
    refine ⟨by simpa using ih.1, ?_⟩
    simp only [List.flatMap_cons]
    have a := happ [] (t.flatMap fun | .comment _ => [] | .yaml y => notes y) _ _
      (edits_notes R hrefl htrans happ hE h)
    have b := happ (notes y') [] _ _ ih.2
    simp only [List.nil_append, List.append_nil] at a b
    exact htrans _ _ _ a b

theorem renames_notes {k new : Str} {ds ds' : List HashData} (h : Renames k new ds ds') :
    hashNotes ds = hashNotes ds' := by
  obtain ⟨pre, v, post, ⟨rfl, -⟩, rfl⟩ := h
  obtain ⟨a, v⟩ := v
  simp [hashNotes_append, hashNotes]

theorem wraps_notes {k obj : Str} {ds ds' : List HashData} (h : Wraps k obj ds ds') :
    hashNotes ds = hashNotes ds' := by
  obtain ⟨pre, v, post, ⟨rfl, -⟩, rfl⟩ := h
  obtain ⟨a, v⟩ := v
  simp [hashNotes_append, hashNotes, notes, anchorNote]

theorem appends_notes {k : Str} {h : AliasedYaml} {ds ds' : List HashData} (hh : Appends k h ds ds') :
    hashNotes ds' = hashNotes ds ++ (anchorNote h.alias ++ notes h.value) := by
  obtain ⟨-, rfl⟩ := hh
  obtain ⟨a, v⟩ := h
  simp [hashNotes_append, hashNotes]

/-- **C28.** Rename keeps all comments and anchors, in order, and the document-level comments. -/
theorem C28_rename_comments (d : Document) (path : YamlPath) (new : Str) :
    let d' := (d.renameField path new).2
    d'.leadingComments = d.leadingComments ∧ docComments d' = docComments d ∧ docNotes d' = docNotes d := by
  have := docEdits_notes (· = ·) (fun _ => rfl) (fun _ _ _ h h' => h.trans h')
    (fun a b x y h => by rw [h]) (fun ds ds' h => by obtain ⟨k, -, h⟩ := h; exact renames_notes h)
    (C21_rename_only_names d path new)
  exact ⟨this.1, this.2.1, this.2.2.symm⟩

/-- **C28.** to_object keeps all comments and anchors, in order, and the document-level comments. -/
theorem C28_to_object_comments (d : Document) (path : YamlPath) (obj : Str) :
    let d' := (d.toObject path obj).2
    d'.leadingComments = d.leadingComments ∧ docComments d' = docComments d ∧ docNotes d' = docNotes d := by
  have := docEdits_notes (· = ·) (fun _ => rfl) (fun _ _ _ h h' => h.trans h')
    (fun a b x y h => by rw [h]) (fun ds ds' h => by obtain ⟨k, -, h⟩ := h; exact wraps_notes h)
    (C22_to_object_wraps d path obj)
  exact ⟨this.1, this.2.1, this.2.2.symm⟩

/-- **C28.** Insert without overwrite keeps all comments and anchors, in order (those of the inserted value are
added), and the document-level comments. -/
theorem C28_insert_comments (d : Document) (path : YamlPath) (h : AliasedYaml) :
    let d' := (d.insertIntoHash path h false).2
    d'.leadingComments = d.leadingComments ∧ docComments d' = docComments d ∧
      (docNotes d).Sublist (docNotes d') ∧
      (anchorNote h.alias ++ notes h.value = [] → docNotes d' = docNotes d) := by
  have h1 := docEdits_notes List.Sublist (fun _ => .refl _) (fun _ _ _ h h' => h.trans h')
    (fun a b x y h => by simpa using ((List.Sublist.refl a).append h).append (List.Sublist.refl b))
    (fun ds ds' h => by obtain ⟨k, -, h⟩ := h; rw [appends_notes h]; exact List.sublist_append_left _ _)
    (C17_insert_only_appends d path h)
  refine ⟨h1.1, h1.2.1, h1.2.2, fun hn => ?_⟩
  have h2 := docEdits_notes (· = ·) (fun _ => rfl) (fun _ _ _ h h' => h.trans h')
    (fun a b x y h => by rw [h])
    (fun ds ds' h => by obtain ⟨k, -, h⟩ := h; rw [appends_notes h, hn, List.append_nil])
    (C17_insert_only_appends d path h)
  exact h2.2.2.symm

/-- **C28.** No edit touches document-level comments. -/
theorem C28_document_comments (d : Document) :
    (∀ path h o, let d' := (d.insertIntoHash path h o).2
      d'.leadingComments = d.leadingComments ∧ docComments d' = docComments d) ∧
    (∀ path, let d' := (d.removeFromHash path).2
      d'.leadingComments = d.leadingComments ∧ docComments d' = docComments d) ∧
    (∀ path sub fields n, (d.moveToSubfield path sub fields).1 = .ok n →
      let d' := (d.moveToSubfield path sub fields).2
      d'.leadingComments = d.leadingComments ∧ docComments d' = docComments d) ∧
    (∀ path old sel new keeps n, (d.moveToMap path old sel new keeps).1 = .ok n →
      let d' := (d.moveToMap path old sel new keeps).2
      d'.leadingComments = d.leadingComments ∧ docComments d' = docComments d) := by
  have key : ∀ {E n d'}, DocEdits E n d d' → d'.leadingComments = d.leadingComments ∧ docComments d' = docComments d := by
    intro E n d' h
    have := docEdits_notes (fun _ _ => True) (fun _ => trivial) (fun _ _ _ _ _ => trivial)
      (fun _ _ _ _ _ => trivial) (fun _ _ _ => trivial) h
    exact ⟨this.1, this.2.1⟩
  refine ⟨fun path h o => key (insert_edits d path h o), fun path => key (C20_remove_one_entry d path), ?_, ?_⟩
  · intro path sub fields n hn
    exact key (overItems_edits (moveToSubfield_editsBy path sub fields) d n (by
      unfold Document.moveToSubfield at hn; rw [hn]; rfl))
  · intro path old sel new keeps n hn
    exact key (overItems_edits (moveToMap_editsBy path old sel new keeps) d n (by
      unfold Document.moveToMap at hn; rw [hn]; rfl))

end YamlSubset
