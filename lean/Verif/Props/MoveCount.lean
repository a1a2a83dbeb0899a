import Verif.Props.MoveOutcome
import Verif.Props.EditAfter

/-! # C26, C27: the outcome of moving entries at any path

What a move reports, in terms of what the same path finds: it panics exactly if it panics at one of the found values, and otherwise it
counts the found mappings in which there is something to move. -/

namespace YamlSubset

open Spec

namespace Spec

/-- The value is a block mapping that has one of the fields. -/
def hasOneOf (fields : List Str) : Yaml → Bool
  | .hash ds => fields.any fun k => (keysOf ds).contains k
  | _ => false

/-- The value is a block mapping whose old map is a block mapping in which an entry goes to a group. -/
def hasGroup (old sel : Str) (keeps : List Str) : Yaml → Bool
  | .hash ds =>
    match firstIn old ds with
    | some ⟨_, .hash od⟩ => od.any fun
      | .element e => (groupOf sel keeps e).isSome
      | _ => false
    | _ => false
  | _ => false

end Spec

/-! ## a pass that edits and the pass that finds -/

section
variable {A : Type} [Additive A] {R : A → List Yaml → Prop} (h0 : R Additive.zero [])
  (hadd : ∀ {a b l m}, R a l → R b m → R (Additive.add a b) (l ++ m))

include hadd in
theorem overInline_with {g : Yaml → A × Yaml} {g' : Yaml → List Yaml × Yaml} (hg : ∀ y, R (g y).1 (g' y).1) (cs : List Condition) :
    ∀ (es : List Yaml) {c : A} {l : List Yaml}, R c l → R (overInline cs g c es).1 (overInline cs g' l es).1
  | [], _, _, hc => hc
  | e :: t, c, l, hc => by
    simp only [overInline]
    split
    · exact overInline_with hg cs t (hadd hc (hg e))
    · exact overInline_with hg cs t hc

include hadd in
theorem atInline_with {g : Yaml → A × Yaml} {g' : Yaml → List Yaml × Yaml} (hg : ∀ y, R (g y).1 (g' y).1) (hr : ∀ e, (g' e).2 = e)
    (cs : List Condition) (is : List Nat) (hn : is.Nodup) (es : List Yaml) {c : A} {l : List Yaml} (hc : R c l) :
    R (atInline cs g is c es).1 (atInline cs g' is l es).1 := by
  have key : ∀ (is : List Nat), is.Nodup → ∀ (es es' : List Yaml), (∀ i ∈ is, es[i]? = es'[i]?) → ∀ {c : A} {l : List Yaml}, R c l →
      R (atInline cs g is c es).1 (atInline cs g' is l es').1 := by
    intro is
    induction is with
    | nil => intro _ es es' _ c l hc; exact hc
    | cons i is ih =>
      intro hn es es' he c l hc
      rw [List.nodup_cons] at hn
      have hi := he i (by simp)
      have ht : ∀ j ∈ is, es[j]? = es'[j]? := fun j hj => he j (by simp [hj])
      simp only [atInline, ← hi]
      cases hv : es[i]? with
      | none => exact ih hn.2 es es' ht hc
      | some e =>
        simp only
        split
        · refine ih hn.2 _ _ (fun j hj => ?_) (hadd hc (hg e))
          have : i ≠ j := fun h => hn.1 (h ▸ hj)
          rw [List.getElem?_set_ne this, List.getElem?_set_ne this]
          exact ht j hj
        · exact ih hn.2 es es' ht hc
  exact key is hn es es (fun _ _ => rfl) hc

include h0 hadd in
theorem forAllIndexes_with {g : Yaml → A × Yaml} {g' : Yaml → List Yaml × Yaml} (hg : ∀ y, R (g y).1 (g' y).1) (cs : List Condition) :
    ∀ n y, R (forAllIndexes cs g n y).1 (forAllIndexes cs g' n y).1 := by
  intro n
  induction n with
  | zero => exact fun _ => h0
  | succ n ih =>
    intro y
    cases y with
    | inlineArray es => exact overInline_with hadd ih cs es h0
    | array ds => simp only [forAllIndexes, overArray_values]; exact overInline_with hadd hg cs _ h0
    | _ => exact h0

include h0 hadd in
theorem forIndexes_with {g : Yaml → A × Yaml} {g' : Yaml → List Yaml × Yaml} (hg : ∀ y, R (g y).1 (g' y).1) (hr : ∀ e, (g' e).2 = e)
    (is : List Nat) (hn : is.Nodup) (cs : List Condition) :
    ∀ n y, R (forIndexes is cs g n y).1 (forIndexes is cs g' n y).1 ∧ (forIndexes is cs g' n y).2 = y := by
  intro n
  induction n with
  | zero => exact fun _ => ⟨h0, rfl⟩
  | succ n ih =>
    intro y
    cases y with
    | inlineArray es =>
      refine ⟨atInline_with hadd (fun e => (ih e).1) (fun e => (ih e).2) cs is hn es h0, ?_⟩
      simp only [forIndexes]
      rw [atInline_list _ _ fun e => (ih e).2]
    | array ds =>
      simp only [forIndexes, atArray_values]
      refine ⟨atInline_with hadd hg hr cs is hn _ h0, ?_⟩
      rw [atInline_list _ _ hr, setValues_self]
    | _ => exact ⟨h0, rfl⟩

include h0 in
theorem forKey_with {k : Str} {g : HashElement → A × HashElement} {g' : HashElement → List Yaml × HashElement}
    (hg : ∀ v, R (g ⟨k, v⟩).1 (g' ⟨k, v⟩).1) (cs : List Condition) (y : Yaml) : R (forKey k cs g y).1 (forKey k cs g' y).1 := by
  unfold forKey
  split
  · cases y with
    | hash data =>
      simp only [Yaml.keyIndex]
      cases hi : data.findIdx? (HashData.hasKey k) with
      | none => exact h0
      | some i =>
        obtain ⟨pre, v, post, hfe, rfl⟩ := findIdx_spec _ _ _ hi
        simp only [hfe.get]
        exact hg v
    | _ => exact h0
  · exact h0

include h0 hadd in
theorem forHash_with {r : Yaml → A × Yaml} (hr : ∀ y, R (r y).1 [y]) (path : YamlPath) (hn : NoRepeats path) (y : Yaml) :
    R (Yaml.forHash (onElementValue r) r path y).1 (y.findValues path).1 := by
  unfold Yaml.findValues
  induction path using lastKey.induct generalizing y with
  | case1 cs =>
    simp only [Yaml.forHash]
    split
    · exact hr y
    · exact h0
  | case2 k cs => exact forKey_with h0 (fun v => by simpa [onElementValue] using hr v.value) _ _
  | case3 k cs p ih => exact forKey_with h0 (fun v => ih hn _) _ _
  | case4 cs => exact forAllIndexes_with h0 hadd (fun y => hr y) _ _ _
  | case5 cs p ih => exact forAllIndexes_with h0 hadd (ih hn) _ _ _
  | case6 is cs => exact (forIndexes_with h0 hadd (fun y => hr y) (fun _ => rfl) is hn _ _ _).1
  | case7 is cs p ih => exact (forIndexes_with h0 hadd (ih hn.2) (find_readonly p) is hn.1 _ _ _).1

include h0 hadd in
theorem overItems_with {g : Yaml → A × Yaml} {g' : Yaml → List Yaml × Yaml} (hg : ∀ y, R (g y).1 (g' y).1) (d : Document) :
    R (d.overItems g).1 (d.overItems g').1 := by
  have : ∀ (is : List DocumentData) (c : A) (l : List Yaml), R c l →
      R (Document.overItems.go g c is).1 (Document.overItems.go g' l is).1 := by
    intro is
    induction is with
    | nil => exact fun _ _ hc => hc
    | cons i t ih =>
      intro c l hc
      cases i with
      | comment s => exact ih _ _ (hadd hc h0)
      | yaml y => exact ih _ _ (hadd hc (hg y))
  exact this d.items _ _ h0

end

/-- The outcome of a pass that panics at some values and counts some of the others. -/
def OutcomeOn (bad : Yaml → Prop) (count : Yaml → Bool) (a : Out Nat) (l : List Yaml) : Prop :=
  (a = .panic ∧ ∃ y ∈ l, bad y) ∨ (a = .ok (l.countP count) ∧ ∀ y ∈ l, ¬ bad y)

theorem OutcomeOn.nil {bad count} : OutcomeOn bad count Additive.zero [] := .inr ⟨rfl, by simp⟩

theorem OutcomeOn.add {bad count a b l m} (h : OutcomeOn bad count a l) (h' : OutcomeOn bad count b m) :
    OutcomeOn bad count (Additive.add a b) (l ++ m) := by
  rcases h with ⟨rfl, y, h1, h2⟩ | ⟨rfl, h1⟩
  · exact .inl ⟨rfl, y, by simp [h1], h2⟩
  · rcases h' with ⟨rfl, y, h3, h4⟩ | ⟨rfl, h3⟩
    · exact .inl ⟨rfl, y, by simp [h3], h4⟩
    · refine .inr ⟨by rw [List.countP_append]; rfl, fun y hy => ?_⟩
      rcases List.mem_append.1 hy with hy | hy
      · exact h1 y hy
      · exact h3 y hy

theorem OutcomeOn.result {bad count a l} (h : OutcomeOn bad count a l) :
    (a = .panic ↔ ∃ y ∈ l, bad y) ∧ ((∀ y ∈ l, ¬ bad y) → a = .ok (l.countP count)) := by
  rcases h with ⟨rfl, y, h1, h2⟩ | ⟨rfl, h1⟩
  · exact ⟨⟨fun _ => ⟨y, h1, h2⟩, fun _ => rfl⟩, fun h => absurd h2 (h y h1)⟩
  · exact ⟨⟨nofun, fun ⟨y, h2, h3⟩ => absurd h3 (h1 y h2)⟩, fun _ => rfl⟩

theorem hasOneOf_iff {fields : List Str} {ds : List HashData} : hasOneOf fields (.hash ds) = true ↔ ∃ k ∈ fields, k ∈ keysOf ds := by
  simp [hasOneOf]

theorem bind_count {α : Type} {n : Nat} {f : α → Yaml} {o : Out α} {y : Yaml} {m : Nat}
    (h : (countedEdit y (o.bind fun x => .ok (n, f x))).1 = .ok m) : m = n := by
  cases o with
  | ok x => simp only [Out.bind_ok, countedEdit, Out.ok.injEq] at h; exact h.symm
  | _ => simp [Out.bind, countedEdit] at h

/-- At one mapping: the number is one if there is a field to move, else zero. -/
theorem moveToSubfieldAt_count {sub : Str} {fields : List Str} {ds : List HashData} {n : Nat}
    (h : (countedEdit (.hash ds) (moveToSubfieldAt sub fields (.hash ds))).1 = .ok n) :
    n = if hasOneOf fields (.hash ds) then 1 else 0 := by
  have hsome : hasOneOf fields (.hash ds) = true ↔ foundFields fields ds ≠ [] := by
    rw [hasOneOf_iff]
    constructor
    · rintro ⟨k, h1, h2⟩ h0
      have := mem_found.2 ⟨h1, h2⟩
      simp [h0] at this
    · intro h
      obtain ⟨⟨k, v⟩, hkv⟩ := List.exists_mem_of_ne_nil _ h
      exact ⟨k, mem_found.1 (List.mem_map.2 ⟨(k, v), hkv, rfl⟩)⟩
  simp only [moveToSubfieldAt, fieldsFound_eq] at h
  by_cases h0 : foundFields fields ds = []
  · have h1 : ¬ hasOneOf fields (.hash ds) = true := fun h => hsome.1 h h0
    rw [if_neg h1]
    simp only [h0, List.isEmpty_nil, if_true, countedEdit, Out.ok.injEq] at h
    exact h.symm
  · have h0' : (foundFields fields ds).isEmpty = false := by simpa using h0
    rw [if_pos (hsome.2 h0)]
    simp only [h0', Bool.false_eq_true, if_false] at h
    cases hp : putIntoSubfield sub (foundFields fields ds) ds with
    | ok y' => rw [hp, Out.bind_ok] at h; exact bind_count h
    | _ => rw [hp] at h; simp [Out.bind, countedEdit] at h

/-- **C26, outcomes at any path.** For every path that repeats no index, moving fields panics exactly if the path finds a block mapping
that has one of the fields such that the name of a field in it, or of a subfield that is to be created, is not a path. Otherwise it
reports the number of found block mappings that have one of the fields. -/
theorem C26_outcome (d : Document) (path : YamlPath) (sub : Str) (fields : List Str) (hn : NoRepeats path) :
    ((d.moveToSubfield path sub fields).1 = .panic ↔ ∃ ds, .hash ds ∈ (d.findValues path).1 ∧ (∃ k ∈ fields, k ∈ keysOf ds) ∧
      ((∃ k ∈ fields, k ∈ keysOf ds ∧ NoPath k) ∨ (sub ∉ keysOf ds ∧ NoPath sub))) ∧
    ((d.moveToSubfield path sub fields).1 ≠ .panic →
      (d.moveToSubfield path sub fields).1 = .ok ((d.findValues path).1.countP (hasOneOf fields))) := by
  let bad : Yaml → Prop := fun y => ∃ ds, y = .hash ds ∧ (∃ k ∈ fields, k ∈ keysOf ds) ∧
      ((∃ k ∈ fields, k ∈ keysOf ds ∧ NoPath k) ∨ (sub ∉ keysOf ds ∧ NoPath sub))
  have hr : ∀ y : Yaml, OutcomeOn bad (hasOneOf fields) (countedEdit y (moveToSubfieldAt sub fields y)).1 [y] := by
    intro y
    cases y with
    | hash ds =>
      obtain ⟨h1, h2⟩ := C26_panics_iff (sub := sub) (fields := fields) (ds := ds)
      have hrr : Yaml.moveToSubfield (.root []) sub fields (.hash ds) =
        countedEdit (.hash ds) (moveToSubfieldAt sub fields (.hash ds)) := rfl
      rw [hrr] at h1 h2
      rcases h2 with h2 | ⟨n, h2⟩
      · exact .inl ⟨h2, _, by simp, ds, rfl, h1.1 h2⟩
      · refine .inr ⟨?_, ?_⟩
        · rw [h2, moveToSubfieldAt_count h2, List.countP_singleton]
        · intro y hy
          obtain rfl := List.mem_singleton.1 hy
          rintro ⟨ds', he, hb⟩
          cases he
          rw [h1.2 hb] at h2
          cases h2
    | _ => exact .inr ⟨rfl, fun y hy => by obtain rfl := List.mem_singleton.1 hy; rintro ⟨_, he, _⟩; cases he⟩
  have h : OutcomeOn bad (hasOneOf fields) (d.moveToSubfield path sub fields).1 (d.findValues path).1 :=
    overItems_with (R := OutcomeOn bad (hasOneOf fields)) .nil .add
      (fun y => forHash_with (R := OutcomeOn bad (hasOneOf fields)) .nil .add hr path hn y) d
  refine ⟨h.result.1.trans ⟨?_, ?_⟩, fun hne => h.result.2 fun y hy hb => hne (h.result.1.2 ⟨y, hy, hb⟩)⟩
  · rintro ⟨y, hy, ds, rfl, hb⟩; exact ⟨ds, hy, hb⟩
  · rintro ⟨ds, hy, hb⟩; exact ⟨_, hy, ds, rfl, hb⟩

theorem hasGroup_iff {old sel : Str} {keeps : List Str} {ds : List HashData} : hasGroup old sel keeps (.hash ds) = true ↔
    ∃ a od, firstIn old ds = some ⟨a, .hash od⟩ ∧ ∃ e, HashData.element e ∈ od ∧ (groupOf sel keeps e).isSome := by
  simp only [hasGroup]
  cases hf : firstIn old ds with
  | none => simp
  | some v =>
    obtain ⟨a, v⟩ := v
    cases v with
    | hash od =>
      simp only [List.any_eq_true]
      constructor
      · rintro ⟨x, hx, h⟩
        cases x with
        | element e => exact ⟨a, od, rfl, e, hx, h⟩
        | _ => cases h
      · rintro ⟨a', od', h, e, he, hg⟩
        cases h
        exact ⟨.element e, he, hg⟩
    | _ =>
      refine ⟨nofun, ?_⟩
      rintro ⟨a', od', h, -⟩
      cases h

/-- At one mapping: the number is one if there is an entry that goes to a group, else zero. -/
theorem moveToMapAt_count {old sel new : Str} {keeps : List Str} {ds : List HashData} {n : Nat}
    (h : (countedEdit (.hash ds) (moveToMapAt old sel new keeps (.hash ds))).1 = .ok n) :
    n = if hasGroup old sel keeps (.hash ds) then 1 else 0 := by
  simp only [moveToMapAt, Yaml.keyValue, firstIn_eq] at h
  cases hk : firstIn old ds with
  | none =>
    rw [hk] at h
    have : hasGroup old sel keeps (.hash ds) = false := by simp [hasGroup, hk]
    simp only [countedEdit, Out.ok.injEq] at h
    rw [this, ← h]; rfl
  | some v =>
    obtain ⟨a, v⟩ := v
    rw [hk] at h
    cases v with
    | hash od =>
      simp only at h
      rcases loop_outcome (sel := sel) (keeps := keeps) od ⟨[], [], [], none⟩ (by simp) with ⟨h1, h2, h3⟩ | ⟨st', h1, h2, h3⟩
      · rw [h1] at h; simp [Out.bind, countedEdit] at h
      · rw [h1, Out.bind_ok] at h
        have hg : hasGroup old sel keeps (.hash ds) = true ↔ (moveToMapFinish st').1 ≠ [] := by
          rw [hasGroup_iff, ne_eq, h3]
          constructor
          · rintro ⟨a', od', he, e, hm, hs⟩ ⟨-, hall⟩
            rw [hk] at he
            cases he
            rw [hall e hm] at hs
            cases hs
          · intro hn
            refine ⟨a, od, hk, Classical.byContradiction fun hx => hn ⟨rfl, fun e hm => ?_⟩⟩
            cases hgo : groupOf sel keeps e with
            | none => rfl
            | some s => exact absurd ⟨e, hm, by simp [hgo]⟩ hx
        by_cases he : (moveToMapFinish st').1 = []
        · rw [if_neg (fun hh => hg.1 hh he)]
          simp only [he, List.isEmpty_nil, if_true, countedEdit, Out.ok.injEq] at h
          exact h.symm
        · have he' : (moveToMapFinish st').1.isEmpty = false := by simpa using he
          rw [if_pos (hg.2 he)]
          simp only [he', Bool.false_eq_true, if_false] at h
          rcases path_or new with ⟨p, hp⟩ | hp
          · rw [unwrap_ok hp, Out.bind_ok] at h
            exact bind_count h
          · rw [unwrap_panic hp] at h; simp [Out.bind, countedEdit] at h
    | _ =>
      have : hasGroup old sel keeps (.hash ds) = false := by simp [hasGroup, hk]
      simp only [countedEdit, Out.ok.injEq] at h
      rw [this, ← h]; rfl

/-- **C27, outcomes at any path.** For every path that repeats no index, regrouping panics exactly if the path finds a block mapping
whose old map is a block mapping such that an entry has a selector text and the selector is not a path, or an entry goes to a group and
the name of the new or of the old map is not a path. Otherwise it reports the number of found block mappings with an entry that goes to
a group. -/
theorem C27_outcome (d : Document) (path : YamlPath) (old sel new : Str) (keeps : List Str) (hn : NoRepeats path) :
    ((d.moveToMap path old sel new keeps).1 = .panic ↔ ∃ ds, .hash ds ∈ (d.findValues path).1 ∧
      ∃ a od, firstIn old ds = some ⟨a, .hash od⟩ ∧
        ((NoPath sel ∧ ∃ e, HashData.element e ∈ od ∧ (selectorText sel e).isSome) ∨
        ((NoPath new ∨ NoPath old) ∧ ∃ e, HashData.element e ∈ od ∧ (groupOf sel keeps e).isSome))) ∧
    ((d.moveToMap path old sel new keeps).1 ≠ .panic →
      (d.moveToMap path old sel new keeps).1 = .ok ((d.findValues path).1.countP (hasGroup old sel keeps))) := by
  let bad : Yaml → Prop := fun y => ∃ ds, y = .hash ds ∧ ∃ a od, firstIn old ds = some ⟨a, .hash od⟩ ∧
        ((NoPath sel ∧ ∃ e, HashData.element e ∈ od ∧ (selectorText sel e).isSome) ∨
        ((NoPath new ∨ NoPath old) ∧ ∃ e, HashData.element e ∈ od ∧ (groupOf sel keeps e).isSome))
  have hr : ∀ y : Yaml, OutcomeOn bad (hasGroup old sel keeps) (countedEdit y (moveToMapAt old sel new keeps y)).1 [y] := by
    intro y
    cases y with
    | hash ds =>
      obtain ⟨h1, h2⟩ := C27_panics_iff (old := old) (sel := sel) (new := new) (keeps := keeps) (ds := ds)
      have hrr : Yaml.moveToMap (.root []) old sel new keeps (.hash ds) =
        countedEdit (.hash ds) (moveToMapAt old sel new keeps (.hash ds)) := rfl
      rw [hrr] at h1 h2
      rcases h2 with h2 | ⟨n, h2⟩
      · exact .inl ⟨h2, _, by simp, ds, rfl, h1.1 h2⟩
      · refine .inr ⟨?_, ?_⟩
        · rw [h2, moveToMapAt_count h2, List.countP_singleton]
        · intro y hy
          obtain rfl := List.mem_singleton.1 hy
          rintro ⟨ds', he, hb⟩
          cases he
          rw [h1.2 hb] at h2
          cases h2
    | _ => exact .inr ⟨rfl, fun y hy => by obtain rfl := List.mem_singleton.1 hy; rintro ⟨_, he, _⟩; cases he⟩
  have h : OutcomeOn bad (hasGroup old sel keeps) (d.moveToMap path old sel new keeps).1 (d.findValues path).1 :=
    overItems_with (R := OutcomeOn bad (hasGroup old sel keeps)) .nil .add
      (fun y => forHash_with (R := OutcomeOn bad (hasGroup old sel keeps)) .nil .add hr path hn y) d
  refine ⟨h.result.1.trans ⟨?_, ?_⟩, fun hne => h.result.2 fun y hy hb => hne (h.result.1.2 ⟨y, hy, hb⟩)⟩
  · rintro ⟨y, hy, ds, rfl, hb⟩; exact ⟨ds, hy, hb⟩
  · rintro ⟨ds, hy, hb⟩; exact ⟨_, hy, ds, rfl, hb⟩

/-- Two mappings in a sequence, one of which has a field to move. -/
example :
    let d : Document := ⟨[], [.yaml (.hash [.element ⟨c!"xs", ⟨none, .array [
      .element ⟨none, .hash [.element ⟨c!"a", ⟨none, .unquotedString c!"1"⟩⟩]⟩,
      .element ⟨none, .hash [.element ⟨c!"b", ⟨none, .unquotedString c!"2"⟩⟩]⟩]⟩⟩])]⟩
    let p : YamlPath := .key c!"xs" [] (some (.allIndexes [] none))
    NoRepeats p ∧ (d.moveToSubfield p c!"s" [c!"a"]).1 = .ok 1 ∧ (d.findValues p).1.countP (hasOneOf [c!"a"]) = 1 ∧
      (d.findValues p).1.length = 2 ∧ (d.moveToSubfield p c!"s[" [c!"a"]).1 = .panic ∧ (d.moveToSubfield p c!"s[" [c!"x"]).1 = .ok 0 := by
  refine ⟨trivial, ?_, ?_, ?_, ?_, ?_⟩ <;> kernel_rfl

/-- A repeated index makes the difference: at the second visit the fields are gone. -/
theorem C26_repeated_index :
    let d : Document := ⟨[], [.yaml (.array [.element ⟨none, .hash [.element ⟨c!"a", ⟨none, .unquotedString c!"1"⟩⟩]⟩])]⟩
    let p : YamlPath := .indexes [0, 0] [] none
    (d.moveToSubfield p c!"s" [c!"a"]).1 = .ok 1 ∧ (d.findValues p).1.countP (hasOneOf [c!"a"]) = 2 := by
  refine ⟨?_, ?_⟩ <;> kernel_rfl

end YamlSubset
