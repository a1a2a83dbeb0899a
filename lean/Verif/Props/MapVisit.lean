import Verif.Model.MapVisit
import Verif.Lemmas.Induct
import Verif.Spec.Tree

/-! # Properties of `map_yaml` and `visit_yaml` (C29, C30) -/

namespace YamlSubset

open Spec

/-! ## Lemmas -/

theorem mapEntries_eq {σ} (f : Yaml → σ → Yaml × σ) (es : List (Str × Yaml)) (st : σ) :
    mapEntries f es st =
      let r := runList (fun c st => c.mapYaml f st) (es.map Prod.snd) st
      (es.zipWith (fun e v => (e.1, v)) r.1, r.2) := by
  induction es generalizing st with
  | nil => rfl
  | cons e t ih => obtain ⟨k, v⟩ := e; simp [mapEntries, runList, ih]

theorem mapHashData_eq {σ} (f : Yaml → σ → Yaml × σ) (ds : List HashData) (st : σ) :
    mapHashData f ds st =
      let r := runList (fun c st => c.mapYaml f st) (children (.hash ds)) st
      (setHashValues ds r.1, r.2) := by
  induction ds generalizing st with
  | nil => rfl
  | cons d t ih =>
    match d with
    | .element ⟨k, ⟨a, v⟩⟩ => simp [mapHashData, ih, runList, children, setHashValues]
    | .comment c => simp [mapHashData, ih, children, setHashValues]
    | .inlineComment c => simp [mapHashData, ih, children, setHashValues]

theorem mapArrayData_eq {σ} (f : Yaml → σ → Yaml × σ) (ds : List ArrayData) (st : σ) :
    mapArrayData f ds st =
      let r := runList (fun c st => c.mapYaml f st) (children (.array ds)) st
      (setArrayValues ds r.1, r.2) := by
  induction ds generalizing st with
  | nil => rfl
  | cons d t ih =>
    match d with
    | .element ⟨a, v⟩ => simp [mapArrayData, ih, runList, children, setArrayValues]
    | .comment c => simp [mapArrayData, ih, children, setArrayValues]
    | .inlineComment c => simp [mapArrayData, ih, children, setArrayValues]

theorem mapYamls_eq {σ} (f : Yaml → σ → Yaml × σ) (es : List Yaml) (st : σ) :
    mapYamls f es st = runList (fun c st => c.mapYaml f st) es st := by
  induction es generalizing st with
  | nil => rfl
  | cons v t ih => simp [mapYamls, ih, runList]

theorem setHashValues_children (ds : List HashData) :
    setHashValues ds (children (.hash ds)) = ds := by
  induction ds with
  | nil => rfl
  | cons d t ih =>
    match d with
    | .element ⟨k, ⟨a, v⟩⟩ => simpa [children, setHashValues] using ih
    | .comment c => simpa [children, setHashValues] using ih
    | .inlineComment c => simpa [children, setHashValues] using ih

theorem setArrayValues_children (ds : List ArrayData) :
    setArrayValues ds (children (.array ds)) = ds := by
  induction ds with
  | nil => rfl
  | cons d t ih =>
    match d with
    | .element ⟨a, v⟩ => simpa [children, setArrayValues] using ih
    | .comment c => simpa [children, setArrayValues] using ih
    | .inlineComment c => simpa [children, setArrayValues] using ih

/-- Sanity of the specification: putting back the children changes nothing. -/
theorem withChildren_children (y : Yaml) : withChildren y (children y) = y := by
  cases y <;> simp only [withChildren]
  · rename_i es
    congr 1
    induction es with
    | nil => rfl
    | cons e t ih => simpa [children] using ih
  · rw [setHashValues_children]
  · rfl
  · rw [setArrayValues_children]

/-- Sanity of the specification: the children are the ones put in. -/
theorem children_withChildren (y : Yaml) (vs : List Yaml) (h : vs.length = (children y).length) :
    children (withChildren y vs) = vs := by
  cases y with
  | inlineHash es =>
    simp only [withChildren, children, List.length_map] at h ⊢
    induction es generalizing vs with
    | nil => cases vs with | nil => rfl | cons => simp at h
    | cons e t ih =>
      cases vs with
      | nil => simp at h
      | cons v vs => simp at h; simp [ih vs h]
  | hash ds =>
    simp only [withChildren]
    induction ds generalizing vs with
    | nil => cases vs with | nil => rfl | cons => simp [children] at h
    | cons d t ih =>
      match d with
      | .element ⟨k, ⟨a, v⟩⟩ =>
        cases vs with
        | nil => simp [children] at h
        | cons v vs =>
          simp [children] at h
          have := ih vs (by simpa [children] using h)
          simp only [children] at this
          simp [setHashValues, children, this]
      | .comment c =>
        have := ih vs (by simpa [children] using h)
        simpa [setHashValues, children] using this
      | .inlineComment c =>
        have := ih vs (by simpa [children] using h)
        simpa [setHashValues, children] using this
  | array ds =>
    simp only [withChildren]
    induction ds generalizing vs with
    | nil => cases vs with | nil => rfl | cons => simp [children] at h
    | cons d t ih =>
      match d with
      | .element ⟨a, v⟩ =>
        cases vs with
        | nil => simp [children] at h
        | cons v vs =>
          simp [children] at h
          have := ih vs (by simpa [children] using h)
          simp only [children] at this
          simp [setArrayValues, children, this]
      | .comment c =>
        have := ih vs (by simpa [children] using h)
        simpa [setArrayValues, children] using this
      | .inlineComment c =>
        have := ih vs (by simpa [children] using h)
        simpa [setArrayValues, children] using this
  | inlineArray es => rfl
  | _ => simp_all [children, withChildren]

/-! ## C29 -/

/-- **C29** `map_yaml` rewrites the children from left to right, threading the state of the
function, and then calls the function once on the node with the rewritten children in place
of the old ones; keys, anchor names and comments are kept. -/
theorem C29_map_bottom_up {σ : Type} (f : Yaml → σ → Yaml × σ) (y : Yaml) (st : σ) :
    y.mapYaml f st =
      let r := runList (fun c st => c.mapYaml f st) (children y) st
      f (withChildren y r.1) r.2 := by
  cases y <;> simp [Yaml.mapYaml, mapEntries_eq, mapHashData_eq, mapArrayData_eq, mapYamls_eq,
    withChildren, children, runList]

theorem runList_pure {α σ : Type} (f : α → σ → α × σ) (l : List α) (st : σ)
    (h : ∀ a ∈ l, ∀ st, f a st = (a, st)) : runList f l st = (l, st) := by
  induction l generalizing st with
  | nil => rfl
  | cons a t ih => simp [runList, h a (by simp), ih _ (fun b hb => h b (by simp [hb]))]

theorem mem_children_hash {v : Yaml} {ds : List HashData} :
    v ∈ children (.hash ds) ↔ ∃ k a, HashData.element ⟨k, ⟨a, v⟩⟩ ∈ ds := by
  simp only [children, List.mem_filterMap]
  constructor
  · rintro ⟨d, hd, h⟩
    match d with
    | .element ⟨k, ⟨a, w⟩⟩ => simp at h; subst h; exact ⟨k, a, hd⟩
    | .comment c => simp at h
    | .inlineComment c => simp at h
  · rintro ⟨k, a, h⟩; exact ⟨_, h, rfl⟩

theorem mem_children_array {v : Yaml} {ds : List ArrayData} :
    v ∈ children (.array ds) ↔ ∃ a, ArrayData.element ⟨a, v⟩ ∈ ds := by
  simp only [children, List.mem_filterMap]
  constructor
  · rintro ⟨d, hd, h⟩
    match d with
    | .element ⟨a, w⟩ => simp at h; subst h; exact ⟨a, hd⟩
    | .comment c => simp at h
    | .inlineComment c => simp at h
  · rintro ⟨a, h⟩; exact ⟨_, h, rfl⟩

/-- Induction on trees by children. -/
theorem Yaml.childInduct {P : Yaml → Prop} (h : ∀ y, (∀ c ∈ children y, P c) → P y) (y : Yaml) :
    P y := by
  induction y using Yaml.induct with
  | hIH es ih =>
    refine h _ fun c hc => ?_
    simp [children] at hc
    obtain ⟨k, hk⟩ := hc
    exact ih k c hk
  | hH ds ih =>
    refine h _ fun c hc => ?_
    obtain ⟨k, a, hk⟩ := mem_children_hash.1 hc
    exact ih k a c hk
  | hIA es ih => exact h _ fun c hc => ih c hc
  | hA ds ih =>
    refine h _ fun c hc => ?_
    obtain ⟨a, hk⟩ := mem_children_array.1 hc
    exact ih a c hk
  | _ => exact h _ fun c hc => by simp [children] at hc

/-- **C29** With the identity function the tree and the state are unchanged. -/
theorem C29_map_identity {σ : Type} (y : Yaml) (st : σ) :
    y.mapYaml (fun v st => (v, st)) st = (y, st) := by
  induction y using Yaml.childInduct generalizing st with
  | h y ih => rw [C29_map_bottom_up, runList_pure _ _ _ (fun c hc st => ih c hc st)]; simp [withChildren_children]

theorem postorder_eq (y : Yaml) : postorder y = (children y).flatMap postorder ++ [y] := by
  cases y with
  | inlineHash es =>
    simp only [postorder, children]; congr 1
    induction es with
    | nil => rfl
    | cons e t ih => obtain ⟨k, v⟩ := e; simp [postorderEntries, ih]
  | hash ds =>
    simp only [postorder, children]; congr 1
    induction ds with
    | nil => rfl
    | cons d t ih =>
      match d with
      | .element ⟨k, ⟨a, v⟩⟩ => simp [postorderHash, ih]
      | .comment c => simp [postorderHash, ih]
      | .inlineComment c => simp [postorderHash, ih]
  | inlineArray es =>
    simp only [postorder, children]; congr 1
    induction es with
    | nil => rfl
    | cons v t ih => simp [postorderYamls, ih]
  | array ds =>
    simp only [postorder, children]; congr 1
    induction ds with
    | nil => rfl
    | cons d t ih =>
      match d with
      | .element ⟨a, v⟩ => simp [postorderArray, ih]
      | .comment c => simp [postorderArray, ih]
      | .inlineComment c => simp [postorderArray, ih]
  | _ => simp [postorder, children]

/-- **C29** The function is called exactly once for each node, in left-to-right post-order: a
function that only records its arguments records that list. -/
theorem C29_map_calls (y : Yaml) (log : List Yaml) :
    y.mapYaml (fun v log => (v, log ++ [v])) log = (y, log ++ postorder y) := by
  induction y using Yaml.childInduct generalizing log with
  | h y ih =>
    rw [C29_map_bottom_up]
    have : ∀ (l : List Yaml) (log : List Yaml), (∀ c ∈ l, c ∈ children y) →
        runList (fun c st => c.mapYaml (fun v log => (v, log ++ [v])) st) l log =
          (l, log ++ l.flatMap postorder) := by
      intro l
      induction l with
      | nil => intro log _; simp [runList]
      | cons a t iht =>
        intro log h
        simp [runList, ih a (h a (by simp)), iht _ (fun c hc => h c (by simp [hc]))]
    rw [this _ _ (fun _ h => h)]
    simp [withChildren_children, postorder_eq y]

example : (Yaml.hash [.comment c!"c", .element ⟨c!"a", ⟨some c!"x", .inlineArray [.unquotedString c!"1", .anchor c!"x"]⟩⟩]).mapYaml
    (fun v (n : Nat) => (match v with | .unquotedString _ => .unquotedString c!"z" | v => v, n + 1)) 0 =
    (.hash [.comment c!"c", .element ⟨c!"a", ⟨some c!"x", .inlineArray [.unquotedString c!"z", .anchor c!"x"]⟩⟩], 4) := rfl

/-! ## C30 -/

mutual
theorem visitYaml_positions {σ : Type} (f : AliasedYaml → σ → σ) :
    (y : Yaml) → (st : σ) → y.visitYaml f st = (positions y).foldl (fun st a => f a st) st
  | .hash data, st => visitHashData_positions f data st
  | .inlineHash data, st => visitEntries_positions f data st
  | .array data, st => visitArrayData_positions f data st
  | .inlineArray data, st => visitYamls_positions f data st
  | .singleQuotedString _, _ => rfl
  | .doubleQuotedString _, _ => rfl
  | .unquotedString _, _ => rfl
  | .foldedString _ _, _ => rfl
  | .literalString _ _, _ => rfl
  | .anchor _, _ => rfl
theorem visitHashData_positions {σ : Type} (f : AliasedYaml → σ → σ) : (ds : List HashData) →
    (st : σ) → visitHashData f ds st = (positionsHash ds).foldl (fun st a => f a st) st
  | [], _ => rfl
  | .element ⟨_, ⟨a, v⟩⟩ :: t, st => by
    simp [visitHashData, positionsHash, visitYaml_positions f v, visitHashData_positions f t]
  | .comment _ :: t, st => by simp [visitHashData, positionsHash, visitHashData_positions f t]
  | .inlineComment _ :: t, st => by simp [visitHashData, positionsHash, visitHashData_positions f t]
theorem visitEntries_positions {σ : Type} (f : AliasedYaml → σ → σ) : (es : List (Str × Yaml)) →
    (st : σ) → visitEntries f es st = (positionsEntries es).foldl (fun st a => f a st) st
  | [], _ => rfl
  | (_, v) :: t, st => by
    simp [visitEntries, positionsEntries, visitYaml_positions f v, visitEntries_positions f t]
theorem visitArrayData_positions {σ : Type} (f : AliasedYaml → σ → σ) : (ds : List ArrayData) →
    (st : σ) → visitArrayData f ds st = (positionsArray ds).foldl (fun st a => f a st) st
  | [], _ => rfl
  | .element ⟨a, v⟩ :: t, st => by
    simp [visitArrayData, positionsArray, visitYaml_positions f v, visitArrayData_positions f t]
  | .comment _ :: t, st => by simp [visitArrayData, positionsArray, visitArrayData_positions f t]
  | .inlineComment _ :: t, st => by
    simp [visitArrayData, positionsArray, visitArrayData_positions f t]
theorem visitYamls_positions {σ : Type} (f : AliasedYaml → σ → σ) : (es : List Yaml) →
    (st : σ) → visitYamls f es st = (positionsYamls es).foldl (fun st a => f a st) st
  | [], _ => rfl
  | v :: t, st => by
    simp [visitYamls, positionsYamls, visitYaml_positions f v, visitYamls_positions f t]
end

/-- **C30** `visit_yaml` calls the function once for each anchorable position of the tree, in
document order, parents before children, and for nothing else. -/
theorem C30_visit_positions {σ : Type} (f : AliasedYaml → σ → σ) (y : Yaml) (st : σ) :
    y.visitYaml f st = (positions y).foldl (fun st a => f a st) st := visitYaml_positions f y st

theorem mem_positionsHash {a : AliasedYaml} {ds : List HashData} :
    a ∈ positionsHash ds ↔ ∃ k b, HashData.element ⟨k, b⟩ ∈ ds ∧ (a = b ∨ a ∈ positions b.value) := by
  induction ds with
  | nil => simp [positionsHash]
  | cons d t ih =>
    match d with
    | .element ⟨k, ⟨b, v⟩⟩ =>
      simp only [positionsHash, List.cons_append, List.mem_cons, List.mem_append, ih]
      constructor
      · rintro (rfl | h | ⟨k', b', h, h'⟩)
        · exact ⟨k, _, .inl rfl, .inl rfl⟩
        · exact ⟨k, _, .inl rfl, .inr h⟩
        · exact ⟨k', b', .inr h, h'⟩
      · rintro ⟨k', b', h | h, h'⟩
        · simp at h; obtain ⟨rfl, rfl⟩ := h
          rcases h' with rfl | h'
          · exact .inl rfl
          · exact .inr (.inl h')
        · exact .inr (.inr ⟨k', b', h, h'⟩)
    | .comment c => simp [positionsHash, ih]
    | .inlineComment c => simp [positionsHash, ih]

theorem mem_positionsArray {a : AliasedYaml} {ds : List ArrayData} :
    a ∈ positionsArray ds ↔ ∃ b, ArrayData.element b ∈ ds ∧ (a = b ∨ a ∈ positions b.value) := by
  induction ds with
  | nil => simp [positionsArray]
  | cons d t ih =>
    match d with
    | .element ⟨b, v⟩ =>
      simp only [positionsArray, List.cons_append, List.mem_cons, List.mem_append, ih]
      constructor
      · rintro (rfl | h | ⟨b', h, h'⟩)
        · exact ⟨_, .inl rfl, .inl rfl⟩
        · exact ⟨_, .inl rfl, .inr h⟩
        · exact ⟨b', .inr h, h'⟩
      · rintro ⟨b', h | h, h'⟩
        · simp at h; subst h
          rcases h' with rfl | h'
          · exact .inl rfl
          · exact .inr (.inl h')
        · exact .inr (.inr ⟨b', h, h'⟩)
    | .comment c => simp [positionsArray, ih]
    | .inlineComment c => simp [positionsArray, ih]

theorem mem_positionsEntries {a : AliasedYaml} {es : List (Str × Yaml)} :
    a ∈ positionsEntries es ↔ ∃ k v, (k, v) ∈ es ∧ a ∈ positions v := by
  induction es with
  | nil => simp [positionsEntries]
  | cons e t ih =>
    obtain ⟨k, v⟩ := e
    simp only [positionsEntries, List.mem_append, ih, List.mem_cons]
    constructor
    · rintro (h | ⟨k', v', h, h'⟩)
      · exact ⟨k, v, .inl rfl, h⟩
      · exact ⟨k', v', .inr h, h'⟩
    · rintro ⟨k', v', h | h, h'⟩
      · simp at h; rw [h.2] at h'; exact .inl h'
      · exact .inr ⟨k', v', h, h'⟩

theorem mem_positionsYamls {a : AliasedYaml} {es : List Yaml} :
    a ∈ positionsYamls es ↔ ∃ v, v ∈ es ∧ a ∈ positions v := by
  induction es with
  | nil => simp [positionsYamls]
  | cons v t ih => simp [positionsYamls, ih]

/-- **C30** The positions visited are exactly the anchorable values that occur in the tree. -/
theorem C30_positions_complete (a : AliasedYaml) (y : Yaml) : a ∈ positions y ↔ Holds a y := by
  constructor
  · intro h
    induction y using Yaml.induct with
    | hIH es ih =>
      obtain ⟨k, v, h1, h2⟩ := mem_positionsEntries.1 h
      exact .inlineHash h1 (ih k v h1 h2)
    | hH ds ih =>
      obtain ⟨k, ⟨b, v⟩, h1, h2⟩ := mem_positionsHash.1 h
      rcases h2 with rfl | h2
      · exact .hashHere h1
      · exact .hash h1 (ih k b v h1 h2)
    | hIA es ih =>
      obtain ⟨v, h1, h2⟩ := mem_positionsYamls.1 h
      exact .inlineArray h1 (ih v h1 h2)
    | hA ds ih =>
      obtain ⟨⟨b, v⟩, h1, h2⟩ := mem_positionsArray.1 h
      rcases h2 with rfl | h2
      · exact .arrayHere h1
      · exact .array h1 (ih b v h1 h2)
    | _ => simp [positions] at h
  · intro h
    induction h with
    | hashHere h => exact mem_positionsHash.2 ⟨_, _, h, .inl rfl⟩
    | hash h _ ih => exact mem_positionsHash.2 ⟨_, _, h, .inr ih⟩
    | arrayHere h => exact mem_positionsArray.2 ⟨_, h, .inl rfl⟩
    | array h _ ih => exact mem_positionsArray.2 ⟨_, h, .inr ih⟩
    | inlineHash h _ ih => exact mem_positionsEntries.2 ⟨_, _, h, ih⟩
    | inlineArray h _ ih => exact mem_positionsYamls.2 ⟨_, h, ih⟩

example : positions (.hash [.element ⟨c!"a", ⟨some c!"x", .array [.element ⟨none, .anchor c!"x"⟩]⟩⟩,
      .comment c!"c", .element ⟨c!"b", ⟨none, .unquotedString c!"1"⟩⟩]) =
    [⟨some c!"x", .array [.element ⟨none, .anchor c!"x"⟩]⟩, ⟨none, .anchor c!"x"⟩,
      ⟨none, .unquotedString c!"1"⟩] := rfl

end YamlSubset
