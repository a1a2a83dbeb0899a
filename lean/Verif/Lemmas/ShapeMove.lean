import Verif.Lemmas.Shape
import Verif.Lemmas.BreaksSem

/-! # Moves on trees of the same shape -/

namespace YamlSubset
open Spec

/-- Trees of the same shape. -/
def SameShape (y y' : Yaml) : Prop := shapeOf y = shapeOf y'

/-- Fields with the same names, and values of the same shape. -/
def SameField (a b : Str × AliasedYaml) : Prop := a.1 = b.1 ∧ shapeOf a.2.value = shapeOf b.2.value

/-- Results of a move. -/
def SameMoved (a b : Nat × Yaml) : Prop := a.1 = b.1 ∧ shapeOf a.2 = shapeOf b.2

theorem insert_shape {y y' : Yaml} (hy : shapeOf y = shapeOf y') (p : YamlPath) {h h' : AliasedYaml} (hh : shapeOf h.value = shapeOf h'.value) (o : Bool) :
    shapeOf (y.insertIntoHash p h o).2 = shapeOf (y'.insertIntoHash p h' o).2 := (editHash_agree (insert_same hh o) p y y' hy).2

theorem remove_shape {y y' : Yaml} (hy : shapeOf y = shapeOf y') (p : YamlPath) : shapeOf (y.removeFromHash p).2 = shapeOf (y'.removeFromHash p).2 :=
  (editHash_agree remove_same p y y' hy).2

theorem insertFields_same {fs fs' : List (Str × AliasedYaml)} (h : List2 SameField fs fs') {y y' : Yaml} (hy : shapeOf y = shapeOf y') :
    SameOut SameShape (insertFields fs y) (insertFields fs' y') := by
  induction h generalizing y y' with
  | nil => exact hy
  | cons he ht ih =>
    rename_i a b t t'
    obtain ⟨k, v⟩ := a
    obtain ⟨k', v'⟩ := b
    obtain ⟨h1, h2⟩ := he
    simp only at h1 h2
    subst h1
    refine (SameOut.eq (parsePathUnwrap k)).bind ?_
    rintro p _ rfl
    exact ih (insert_shape hy p h2 true)

theorem removeFields_same (ks : List Str) {y y' : Yaml} (hy : shapeOf y = shapeOf y') : SameOut SameShape (removeFields ks y) (removeFields ks y') := by
  induction ks generalizing y y' with
  | nil => exact hy
  | cons k t ih =>
    refine (SameOut.eq (parsePathUnwrap k)).bind ?_
    rintro p _ rfl
    exact ih (remove_shape hy p)

theorem fieldsFound_same {y y' : Yaml} (hy : shapeOf y = shapeOf y') (fields : List Str) : List2 SameField (fieldsFound y fields) (fieldsFound y' fields) := by
  unfold fieldsFound
  induction fields with
  | nil => exact .nil
  | cons k t ih =>
    simp only [List.filterMap_cons]
    rcases keyValue_shape k hy with ⟨h1, h2⟩ | ⟨v, v', h1, h2, hv⟩
    · simpa [h1, h2] using ih
    · simp only [h1, h2, Option.map_some]
      exact .cons ⟨rfl, hv⟩ ih

theorem fields_names {fs fs' : List (Str × AliasedYaml)} (h : List2 SameField fs fs') : fs.map Prod.fst = fs'.map Prod.fst := by
  induction h with
  | nil => rfl
  | cons he ht ih => simp [he.1, ih]

theorem fields_shape {fs fs' : List (Str × AliasedYaml)} (h : List2 SameField fs fs') :
    hashShape (fs.map fun kv => .element ⟨kv.1, kv.2⟩) = hashShape (fs'.map fun kv => .element ⟨kv.1, kv.2⟩) := by
  induction h with
  | nil => rfl
  | cons he ht ih => simp only [List.map_cons, shape_entry, he.1, he.2, ih]

theorem putIntoSubfield_same (sub : Str) {fs fs' : List (Str × AliasedYaml)} (h : List2 SameField fs fs') {ds ds' : List HashData}
    (hd : hashShape ds = hashShape ds') : SameOut SameShape (putIntoSubfield sub fs ds) (putIntoSubfield sub fs' ds') := by
  unfold putIntoSubfield
  rcases first_shape sub hd with ⟨h1, h2⟩ | ⟨pre, v, post, pre', v', post', hf1, hf2, hp, hv, hq⟩
  · rw [keyValueIn_none h1, keyValueIn_none h2]
    refine (SameOut.eq (parsePathUnwrap sub)).bind ?_
    rintro p _ rfl
    exact insert_shape (by simp only [shapeOf, hd]) p (by simp only [shapeOf, fields_shape h]) false
  · rw [hf1.keyValueIn, hf2.keyValueIn]
    refine (insertFields_same h hv).bind fun w w' hw => ?_
    show shapeOf _ = shapeOf _
    rw [setKeyValue_eq hf1, setKeyValue_eq hf2]
    have hw : shapeOf w = shapeOf w' := hw
    simp only [shapeOf, hashShape_append, shape_entry, hp, hq, hw]

theorem moveToSubfieldAt_same (sub : Str) (fields : List Str) {y y' : Yaml} (hy : shapeOf y = shapeOf y') :
    SameOut SameMoved (moveToSubfieldAt sub fields y) (moveToSubfieldAt sub fields y') := by
  rcases shape_cases hy with ⟨ds, ds', rfl, rfl, hd⟩ | ⟨ds, ds', rfl, rfl, hd⟩ | ⟨ds, ds', rfl, rfl, hd⟩ | ⟨⟨h1, -⟩, ⟨h2, -⟩⟩
  · simp only [moveToSubfieldAt]
    have hf := fieldsFound_same hy fields
    have he : (fieldsFound (.hash ds) fields).isEmpty = (fieldsFound (.hash ds') fields).isEmpty := by
      generalize fieldsFound (.hash ds) fields = a at hf
      generalize fieldsFound (.hash ds') fields = b at hf
      cases hf <;> rfl
    rw [he]
    split
    · exact ⟨rfl, hy⟩
    · refine (putIntoSubfield_same sub hf hd).bind fun w w' hw => ?_
      rw [fields_names hf]
      exact (removeFields_same _ hw).bind fun z z' hz => ⟨rfl, hz⟩
  · exact ⟨rfl, hy⟩
  · exact ⟨rfl, hy⟩
  · have e : ∀ {y : Yaml}, (∀ ds, y ≠ .hash ds) → moveToSubfieldAt sub fields y = .ok (0, y) := by
      intro y h; cases y <;> first | rfl | exact absurd rfl (h _)
    rw [e h1, e h2]
    exact ⟨rfl, hy⟩

/-! ## regrouping -/

/-- Groups with the same names, and entries of the same shape. -/
def SameGroup (a b : Str × List HashData) : Prop := a.1 = b.1 ∧ hashShape a.2 = hashShape b.2

theorem extend_same {m m' : GroupMap} (h : List2 SameGroup m m') (k : Str) {items items' : List HashData} (hi : hashShape items = hashShape items') :
    List2 SameGroup (m.extend k items) (m'.extend k items') := by
  induction h with
  | nil => exact .cons ⟨rfl, hi⟩ .nil
  | cons he ht ih =>
    rename_i a b t t'
    obtain ⟨k1, l1⟩ := a
    obtain ⟨k2, l2⟩ := b
    obtain ⟨h1, h2⟩ := he
    simp only at h1 h2
    subst h1
    simp only [GroupMap.extend]
    split
    · exact .cons ⟨rfl, by simp only [hashShape_append, h2, hi]⟩ ht
    · split
      · exact .cons ⟨rfl, hi⟩ (.cons ⟨rfl, h2⟩ ht)
      · exact .cons ⟨rfl, h2⟩ ih

/-- States of the loop. -/
structure SameState (a b : MoveState) : Prop where
  new : List2 SameGroup a.newHashes b.newHashes
  old : hashShape a.oldHashes = hashShape b.oldHashes
  commentsL : hashShape a.comments = []
  commentsR : hashShape b.comments = []
  last : a.lastAddedTo = b.lastAddedTo

theorem loop_comments (sel : Str) (keeps : List Str) {pre : List HashData} (h : hashShape pre = []) (rest : List HashData) (st : MoveState) :
    moveToMapLoop sel keeps (pre ++ rest) st = moveToMapLoop sel keeps rest { st with comments := st.comments ++ pre } := by
  induction pre generalizing st with
  | nil => simp
  | cons d t ih =>
    rcases d with c | c | ⟨k, a, v⟩
    · rw [List.cons_append, moveToMapLoop, moveToMapStep]
      · rw [Out.bind_ok, ih h]; simp
      · simp
    · rw [List.cons_append, moveToMapLoop, moveToMapStep]
      · rw [Out.bind_ok, ih h]; simp
      · simp
    · simp [hashShape] at h

theorem step_same (sel : Str) (keeps : List Str) {st st' : MoveState} (hst : SameState st st') {k : Str} {v v' : AliasedYaml} (hv : shapeOf v.value = shapeOf v'.value) :
    SameOut SameState (moveToMapStep sel keeps st (.element ⟨k, v⟩)) (moveToMapStep sel keeps st' (.element ⟨k, v'⟩)) := by
  simp only [moveToMapStep]
  have hs : ((v.value.keyValue sel).bind fun key => key.value.asString) = ((v'.value.keyValue sel).bind fun key => key.value.asString) := by
    rcases keyValue_shape sel hv with ⟨h1, h2⟩ | ⟨w, w', h1, h2, hw⟩
    · rw [h1, h2]
    · rw [h1, h2, Option.bind_some, Option.bind_some, asString_shape hw]
  rw [hs]
  cases ((v'.value.keyValue sel).bind fun key => key.value.asString) with
  | none =>
    exact ⟨hst.new, by simp only [hashShape_append, shape_entry, hst.old, hst.commentsL, hst.commentsR, hv], rfl, rfl, rfl⟩
  | some s =>
    refine (SameOut.eq (parsePathUnwrap sel)).bind ?_
    rintro p _ rfl
    have hr := remove_shape hv p
    split
    · exact ⟨hst.new, by simp only [hashShape_append, shape_entry, hst.old, hst.commentsL, hst.commentsR, hr], rfl, rfl, rfl⟩
    · exact ⟨extend_same hst.new s (by simp only [hashShape_append, shape_entry, hst.commentsL, hst.commentsR, hr]), hst.old, rfl, rfl, rfl⟩

theorem loop_same (sel : Str) (keeps : List Str) {ds ds' : List HashData} (hd : hashShape ds = hashShape ds') {st st' : MoveState} (hst : SameState st st') :
    SameOut SameState (moveToMapLoop sel keeps ds st) (moveToMapLoop sel keeps ds' st') := by
  have skip : ∀ {st st' : MoveState} (c : HashData), hashShape [c] = [] → SameState st st' → SameState { st with comments := st.comments ++ [c] } st' := by
    intro st st' c hc h
    exact ⟨h.new, h.old, by simp only [hashShape_append, h.commentsL, hc, List.append_nil], h.commentsR, h.last⟩
  induction ds generalizing ds' st st' with
  | nil =>
    have := loop_comments sel keeps (pre := ds') (hd.symm.trans rfl) [] st'
    rw [List.append_nil] at this
    rw [this]
    exact ⟨hst.new, hst.old, hst.commentsL, by simp only [hashShape_append, hst.commentsR, ← hd, hashShape, List.append_nil], hst.last⟩
  | cons d t ih =>
    rcases d with c | c | ⟨k, v⟩
    · exact ih hd (skip _ rfl hst)
    · exact ih hd (skip _ rfl hst)
    · rw [shape_entry] at hd
      obtain ⟨pre', v', post', ⟨rfl, -⟩, h1, h2, h3⟩ := split_shape (a := []) hd.symm (by simp)
      rw [loop_comments sel keeps h1, moveToMapLoop, moveToMapLoop]
      have hs : SameState st { st' with comments := st'.comments ++ pre' } :=
        ⟨hst.new, hst.old, hst.commentsL, by simp only [hashShape_append, hst.commentsR, h1, List.append_nil], hst.last⟩
      refine (step_same sel keeps hs h2.symm).bind ?_
      exact fun a b hab => ih h3.symm hab

theorem finish_same {st st' : MoveState} (h : SameState st st') :
    List2 SameGroup (moveToMapFinish st).1 (moveToMapFinish st').1 ∧ hashShape (moveToMapFinish st).2 = hashShape (moveToMapFinish st').2 := by
  unfold moveToMapFinish
  rw [h.last]
  cases st'.lastAddedTo with
  | none => exact ⟨h.new, by simp only [hashShape_append, h.old, h.commentsL, h.commentsR]⟩
  | some s => exact ⟨extend_same h.new s (by rw [h.commentsL, h.commentsR]), h.old⟩

theorem groups_shape {m m' : GroupMap} (h : List2 SameGroup m m') :
    hashShape (m.map fun kv => .element ⟨kv.1, ⟨none, .hash kv.2⟩⟩) = hashShape (m'.map fun kv => .element ⟨kv.1, ⟨none, .hash kv.2⟩⟩) := by
  induction h with
  | nil => rfl
  | cons he ht ih => simp only [List.map_cons, hashShape, shapeOf, he.1, he.2, ih]

theorem moveToMapAt_same (old sel new : Str) (keeps : List Str) {y y' : Yaml} (hy : shapeOf y = shapeOf y') :
    SameOut SameMoved (moveToMapAt old sel new keeps y) (moveToMapAt old sel new keeps y') := by
  rcases shape_cases hy with ⟨ds, ds', rfl, rfl, hd⟩ | ⟨ds, ds', rfl, rfl, hd⟩ | ⟨ds, ds', rfl, rfl, hd⟩ | ⟨⟨h1, -⟩, ⟨h2, -⟩⟩
  · simp only [moveToMapAt]
    rcases keyValue_shape old hy with ⟨h1, h2⟩ | ⟨⟨a, v⟩, ⟨a', v'⟩, h1, h2, hv⟩
    · rw [h1, h2]; exact ⟨rfl, hy⟩
    · rw [h1, h2]
      rcases shape_cases hv with ⟨od, od', e1, e2, ho⟩ | ⟨od, od', e1, e2, ho⟩ | ⟨od, od', e1, e2, ho⟩ | ⟨⟨h1, -⟩, ⟨h2, -⟩⟩
      · simp only at e1 e2
        subst e1 e2
        refine (loop_same sel keeps ho (st := ⟨[], [], [], none⟩) (st' := ⟨[], [], [], none⟩) ⟨.nil, rfl, rfl, rfl, rfl⟩).bind fun st st' hst => ?_
        obtain ⟨hg, hold⟩ := finish_same hst
        have he : (moveToMapFinish st).1.isEmpty = (moveToMapFinish st').1.isEmpty := by
          generalize (moveToMapFinish st).1 = x at hg
          generalize (moveToMapFinish st').1 = z at hg
          cases hg <;> rfl
        simp only [he]
        split
        · exact ⟨rfl, hy⟩
        · refine (SameOut.eq (parsePathUnwrap new)).bind ?_
          rintro pn _ rfl
          refine (SameOut.eq (parsePathUnwrap old)).bind ?_
          rintro po _ rfl
          refine ⟨rfl, insert_shape (insert_shape hy pn ?_ false) po ?_ true⟩
          · simp only [shapeOf, groups_shape hg]
          · simp only [shapeOf, hold]
      · simp only at e1 e2
        subst e1 e2
        exact ⟨rfl, hy⟩
      · simp only at e1 e2
        subst e1 e2
        exact ⟨rfl, hy⟩
      · simp only at h1 h2
        cases v <;> first | exact absurd rfl (h1 _) | (cases v' <;> first | exact absurd rfl (h2 _) | exact ⟨rfl, hy⟩)
  · exact ⟨rfl, hy⟩
  · exact ⟨rfl, hy⟩
  · have e : ∀ {y : Yaml}, (∀ ds, y ≠ .hash ds) → moveToMapAt old sel new keeps y = .ok (0, y) := by
      intro y h; cases y <;> first | rfl | exact absurd rfl (h _)
    rw [e h1, e h2]
    exact ⟨rfl, hy⟩

theorem counted_same {f : Yaml → Out (Nat × Yaml)} (hf : ∀ {y y' : Yaml}, shapeOf y = shapeOf y' → SameOut SameMoved (f y) (f y')) :
    SameVisit (id : Out Nat → Out Nat) (fun h => countedEdit h (f h)) (fun h => countedEdit h (f h)) := by
  intro y y' h
  have := hf h
  dsimp only
  cases h1 : f y <;> cases h2 : f y' <;> rw [h1, h2] at this <;> simp only [SameOut] at this
  · obtain ⟨e1, e2⟩ := this
    exact ⟨by simp [countedEdit, e1], e2⟩
  all_goals exact ⟨rfl, h⟩

theorem sumMap_out : SumMap (id : Out Nat → Out Nat) := by
  refine ⟨rfl, fun _ _ => rfl, fun b => ?_⟩
  cases b <;> rfl

theorem onElement_same {A B : Type} {φ : A → B} {r r' : Yaml → A × Yaml} (hr : SameVisit φ r r') : SameEntryVisit φ (onElementValue r) (onElementValue r') := by
  intro k v v' hv
  obtain ⟨h1, h2⟩ := hr _ _ hv
  exact ⟨h1, rfl, h2⟩

end YamlSubset
