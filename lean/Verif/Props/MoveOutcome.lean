import Verif.Props.Move

/-! # C26, C27: the outcomes of moving entries

The names of fields are parsed as paths, and the code unwraps the result. So a name that is not a path makes the move panic. Here it is
said exactly when. -/

namespace YamlSubset

open Spec

/-! ## results of passes -/

section
variable {A : Type} [Additive A] {P : A → Prop} (h0 : P Additive.zero) (hadd : ∀ {a b}, P a → P b → P (Additive.add a b))

include hadd in
theorem overInline_inv {g : Yaml → A × Yaml} (hg : ∀ y, P (g y).1) (cs : List Condition) :
    ∀ (es : List Yaml) {c : A}, P c → P (overInline cs g c es).1
  | [], c, hc => hc
  | e :: t, c, hc => by
    simp only [overInline]
    split
    · exact overInline_inv hg cs t (hadd hc (hg e))
    · exact overInline_inv hg cs t hc

include hadd in
theorem overArray_inv {g : Yaml → A × Yaml} (hg : ∀ y, P (g y).1) (cs : List Condition) :
    ∀ (ds : List ArrayData) {c : A}, P c → P (overArray cs g c ds).1
  | [], c, hc => hc
  | .element ⟨a, v⟩ :: t, c, hc => by
    simp only [overArray]
    split
    · exact overArray_inv hg cs t (hadd hc (hg v))
    · exact overArray_inv hg cs t hc
  | .comment s :: t, c, hc => overArray_inv hg cs t hc
  | .inlineComment s :: t, c, hc => overArray_inv hg cs t hc

include hadd in
theorem atInline_inv {g : Yaml → A × Yaml} (hg : ∀ y, P (g y).1) (cs : List Condition) :
    ∀ (is : List Nat) {c : A} (es : List Yaml), P c → P (atInline cs g is c es).1
  | [], c, es, hc => hc
  | i :: is, c, es, hc => by
    simp only [atInline]
    split
    · split
      · exact atInline_inv hg cs is _ (hadd hc (hg _))
      · exact atInline_inv hg cs is _ hc
    · exact atInline_inv hg cs is _ hc

include hadd in
theorem atArray_inv {g : Yaml → A × Yaml} (hg : ∀ y, P (g y).1) (cs : List Condition) :
    ∀ (is : List Nat) {c : A} (ds : List ArrayData), P c → P (atArray cs g is c ds).1
  | [], c, es, hc => hc
  | i :: is, c, es, hc => by
    simp only [atArray]
    split
    · split
      · exact atArray_inv hg cs is _ (hadd hc (hg _))
      · exact atArray_inv hg cs is _ hc
    · exact atArray_inv hg cs is _ hc

include h0 hadd in
theorem forAllIndexes_inv {g : Yaml → A × Yaml} (hg : ∀ y, P (g y).1) (cs : List Condition) :
    ∀ (n : Nat) (y : Yaml), P (forAllIndexes cs g n y).1
  | 0, _ => h0
  | n + 1, y => by
    cases y with
    | inlineArray es => exact overInline_inv hadd (forAllIndexes_inv hg cs n) cs es h0
    | array ds => exact overArray_inv hadd hg cs ds h0
    | _ => exact h0

include h0 hadd in
theorem forIndexes_inv {g : Yaml → A × Yaml} (hg : ∀ y, P (g y).1) (is : List Nat) (cs : List Condition) :
    ∀ (n : Nat) (y : Yaml), P (forIndexes is cs g n y).1
  | 0, _ => h0
  | n + 1, y => by
    cases y with
    | inlineArray es => exact atInline_inv hadd (forIndexes_inv hg is cs n) cs is es h0
    | array ds => exact atArray_inv hadd hg cs is ds h0
    | _ => exact h0

include h0 in
theorem forKey_inv {g : HashElement → A × HashElement} (hg : ∀ e, P (g e).1) (k : Str) (cs : List Condition) (y : Yaml) :
    P (forKey k cs g y).1 := by
  simp only [forKey]
  split
  · split
    · split
      · exact hg _
      · exact h0
    · exact h0
  · exact h0

include h0 hadd in
/-- If the results of the edits of single entries and nodes have a property that sums keep, the result of the whole edit has it. -/
theorem forHash_inv {f : HashElement → A × HashElement} {r : Yaml → A × Yaml} (hf : ∀ e, P (f e).1) (hr : ∀ y, P (r y).1) :
    ∀ (path : YamlPath) (y : Yaml), P (Yaml.forHash f r path y).1
  | .root cs, y => by
    simp only [Yaml.forHash]
    split
    · exact hr y
    · exact h0
  | .key k cs none, y => by
    refine forKey_inv h0 (fun e => ?_) k cs y
    split
    · exact hf e
    · exact h0
  | .key k cs (some other), y => forKey_inv h0 (fun e => forHash_inv hf hr other e.value.value) k cs y
  | .allIndexes cs none, y => forAllIndexes_inv h0 hadd hr cs _ y
  | .allIndexes cs (some other), y => forAllIndexes_inv h0 hadd (forHash_inv hf hr other) cs _ y
  | .indexes is cs none, y => forIndexes_inv h0 hadd hr is cs _ y
  | .indexes is cs (some other), y => forIndexes_inv h0 hadd (forHash_inv hf hr other) is cs _ y

include h0 hadd in
theorem overItems_inv {g : Yaml → A × Yaml} (hg : ∀ y, P (g y).1) (d : Document) : P (d.overItems g).1 := by
  have : ∀ (is : List DocumentData) (c : A), P c → P (Document.overItems.go g c is).1 := by
    intro is
    induction is with
    | nil => exact fun c hc => hc
    | cons i t ih =>
      intro c hc
      cases i with
      | comment s => exact ih _ (hadd hc h0)
      | yaml y => exact ih _ (hadd hc (hg y))
  exact this d.items _ h0

end

/-- The outcome is a count. -/
def Counts (a : Out Nat) : Prop := ∃ n, a = .ok n

/-- The outcome is a count or a panic: not an error. -/
def CountsOrPanics (a : Out Nat) : Prop := a = .panic ∨ ∃ n, a = .ok n

theorem Counts.add {a b : Out Nat} : Counts a → Counts b → Counts (Additive.add a b) := by
  rintro ⟨n, rfl⟩ ⟨m, rfl⟩; exact ⟨n + m, rfl⟩

theorem CountsOrPanics.add {a b : Out Nat} : CountsOrPanics a → CountsOrPanics b → CountsOrPanics (Additive.add a b) := by
  rintro (rfl | ⟨n, rfl⟩) (rfl | ⟨m, rfl⟩)
  · exact .inl rfl
  · exact .inl rfl
  · exact .inl rfl
  · exact .inr ⟨n + m, rfl⟩

theorem counts_zero : Counts Additive.zero := ⟨0, rfl⟩

/-! ## C26 -/

/-- **C26, outcomes.** Moving fields never returns an error: it counts the moves or panics. -/
theorem C26_never_fails (d : Document) (path : YamlPath) (sub : Str) (fields : List Str) :
    (d.moveToSubfield path sub fields).1 = .panic ∨ ∃ n, (d.moveToSubfield path sub fields).1 = .ok n := by
  have hr : ∀ y : Yaml, CountsOrPanics (countedEdit y (moveToSubfieldAt sub fields y)).1 := by
    intro y
    cases y with
    | hash ds => exact (C26_panics_iff (sub := sub) (fields := fields) (ds := ds)).2
    | _ => exact .inr ⟨0, rfl⟩
  exact overItems_inv (P := CountsOrPanics) (.inr ⟨0, rfl⟩) CountsOrPanics.add
    (fun y => forHash_inv (.inr ⟨0, rfl⟩) CountsOrPanics.add (fun e => hr _) hr path y) d

/-- **C26, outcomes.** If all names are paths, moving succeeds. -/
theorem C26_succeeds (d : Document) (path : YamlPath) {sub : Str} {fields : List Str} (hs : ¬ NoPath sub)
    (hf : ∀ k ∈ fields, ¬ NoPath k) : ∃ n, (d.moveToSubfield path sub fields).1 = .ok n := by
  have hr : ∀ y : Yaml, Counts (countedEdit y (moveToSubfieldAt sub fields y)).1 := by
    intro y
    cases y with
    | hash ds =>
      have h := C26_panics_iff (sub := sub) (fields := fields) (ds := ds)
      rcases h.2 with h' | h'
      · obtain ⟨-, ⟨k, h1, -, h2⟩ | ⟨-, h2⟩⟩ := h.1.1 h'
        · exact absurd h2 (hf k h1)
        · exact absurd h2 hs
      · exact h'
    | _ => exact ⟨0, rfl⟩
  exact overItems_inv (P := Counts) counts_zero Counts.add
    (fun y => forHash_inv counts_zero Counts.add (fun e => hr _) hr path y) d

theorem clean_path {k : Str} (h : CleanKey k) : ¬ NoPath k := by
  intro hn
  have h1 := parsePathUnwrap_key h
  rw [unwrap_panic hn] at h1
  cases h1

/-- The moves of C26 succeed: its names are paths. -/
example (d : Document) (path : YamlPath) {sub : Str} {fields : List Str} (hs : CleanKey sub) (hf : ∀ k ∈ fields, CleanKey k) :
    ∃ n, (d.moveToSubfield path sub fields).1 = .ok n :=
  C26_succeeds d path (clean_path hs) fun k hk => clean_path (hf k hk)

/-! ## C27 -/

theorem extend_ne {k : Str} {items : List HashData} {m : GroupMap} : GroupMap.extend k items m ≠ [] := by
  cases m with
  | nil => simp [GroupMap.extend]
  | cons kv t =>
    obtain ⟨k', l⟩ := kv
    simp only [GroupMap.extend]
    split
    · simp
    · split <;> simp

/-- The loop over the items of the old map, for every selector. -/
theorem loop_outcome {sel : Str} {keeps : List Str} (od : List HashData) (st : MoveState)
    (hl : ∀ s, st.lastAddedTo = some s → st.newHashes ≠ []) :
    (moveToMapLoop sel keeps od st = .panic ∧ NoPath sel ∧ ∃ e, HashData.element e ∈ od ∧ (selectorText sel e).isSome) ∨
    ∃ st', moveToMapLoop sel keeps od st = .ok st' ∧ (NoPath sel → ∀ e, HashData.element e ∈ od → selectorText sel e = none) ∧
      ((moveToMapFinish st').1 = [] ↔ st.newHashes = [] ∧ ∀ e, HashData.element e ∈ od → groupOf sel keeps e = none) := by
  induction od generalizing st with
  | nil =>
    refine .inr ⟨st, rfl, by simp, ?_⟩
    cases h : st.lastAddedTo with
    | none => simp [moveToMapFinish, h]
    | some s => simp [moveToMapFinish, h, extend_ne, hl s h]
  | cons d t ih =>
    -- the step
    have next : ∀ st1 : MoveState, (∀ s, st1.lastAddedTo = some s → st1.newHashes ≠ []) →
        moveToMapStep sel keeps st d = .ok st1 →
        (NoPath sel → ∀ e, d = .element e → selectorText sel e = none) →
        (st1.newHashes = [] ↔ st.newHashes = [] ∧ ∀ e, d = .element e → groupOf sel keeps e = none) →
        (moveToMapLoop sel keeps (d :: t) st = .panic ∧ NoPath sel ∧ ∃ e, HashData.element e ∈ d :: t ∧ (selectorText sel e).isSome) ∨
        ∃ st', moveToMapLoop sel keeps (d :: t) st = .ok st' ∧
          (NoPath sel → ∀ e, HashData.element e ∈ d :: t → selectorText sel e = none) ∧
          ((moveToMapFinish st').1 = [] ↔ st.newHashes = [] ∧ ∀ e, HashData.element e ∈ d :: t → groupOf sel keeps e = none) := by
      intro st1 hl1 h1 hs hg
      rw [moveToMapLoop, h1, Out.bind_ok]
      rcases ih st1 hl1 with ⟨h2, h3, e, h4, h5⟩ | ⟨st', h2, h3, h4⟩
      · exact .inl ⟨h2, h3, e, by simp [h4], h5⟩
      · refine .inr ⟨st', h2, fun hn e he => ?_, ?_⟩
        · rcases List.mem_cons.1 he with he | he
          · exact hs hn e he.symm
          · exact h3 hn e he
        · rw [h4, hg]
          constructor
          · rintro ⟨⟨h5, h6⟩, h7⟩
            refine ⟨h5, fun e he => ?_⟩
            rcases List.mem_cons.1 he with he | he
            · exact h6 e he.symm
            · exact h7 e he
          · rintro ⟨h5, h6⟩
            exact ⟨⟨h5, fun e he => h6 e (by simp [he])⟩, fun e he => h6 e (by simp [he])⟩
    cases d with
    | comment s => exact next ⟨st.newHashes, st.oldHashes, st.comments ++ [.comment s], st.lastAddedTo⟩ hl rfl (by simp) (by simp)
    | inlineComment s => exact next ⟨st.newHashes, st.oldHashes, st.comments ++ [.inlineComment s], st.lastAddedTo⟩ hl rfl (by simp) (by simp)
    | element e =>
      have hsel := selector_eq sel e
      cases hs : selectorText sel e with
      | none =>
        rw [hs] at hsel
        refine next ⟨st.newHashes, st.oldHashes ++ st.comments ++ [.element e], [], none⟩ (by simp) ?_ ?_ ?_
        · simp [moveToMapStep, hsel]
        · rintro - e' he'; cases he'; exact hs
        · simp [groupOf, hs]
      | some s =>
        rw [hs] at hsel
        rcases path_or sel with ⟨p, hp⟩ | hp
        · by_cases hk : s ∈ keeps ∨ s = []
          · refine next ⟨st.newHashes, st.oldHashes ++ st.comments ++ [.element ⟨e.key, ⟨e.value.alias, (e.value.value.removeFromHash p).2⟩⟩],
                [], none⟩ (by simp) ?_ ?_ ?_
            · simp only [moveToMapStep, hsel, unwrap_ok hp, Out.bind_ok]
              rw [if_pos (by simpa using hk)]
            · exact fun hn => absurd hp (hn p)
            · simp [groupOf, hs, hk]
          · refine next ⟨st.newHashes.extend s (st.comments ++ [.element ⟨e.key, ⟨e.value.alias, (e.value.value.removeFromHash p).2⟩⟩]),
                st.oldHashes, [], some s⟩ (fun _ _ => extend_ne) ?_ ?_ ?_
            · simp only [moveToMapStep, hsel, unwrap_ok hp, Out.bind_ok]
              rw [if_neg (by simpa using hk)]
            · exact fun hn => absurd hp (hn p)
            · simp [groupOf, hs, hk, extend_ne]
        · refine .inl ⟨?_, hp, e, by simp, by simp [hs]⟩
          rw [moveToMapLoop]
          simp only [moveToMapStep, hsel, unwrap_panic hp]
          rfl

/-- **C27, names that are not paths.** Regrouping never returns an error. It panics exactly if the old map is a block hash and either
an entry has a selector text and the selector is not a path, or an entry goes to a group and the name of the new or of the old map is
not a path. -/
theorem C27_panics_iff {old sel new : Str} {keeps : List Str} {ds : List HashData} :
    ((Yaml.moveToMap (.root []) old sel new keeps (.hash ds)).1 = .panic ↔
      ∃ a od, firstIn old ds = some ⟨a, .hash od⟩ ∧
        ((NoPath sel ∧ ∃ e, HashData.element e ∈ od ∧ (selectorText sel e).isSome) ∨
        ((NoPath new ∨ NoPath old) ∧ ∃ e, HashData.element e ∈ od ∧ (groupOf sel keeps e).isSome))) ∧
    ((Yaml.moveToMap (.root []) old sel new keeps (.hash ds)).1 = .panic ∨
      ∃ n, (Yaml.moveToMap (.root []) old sel new keeps (.hash ds)).1 = .ok n) := by
  have hr : Yaml.moveToMap (.root []) old sel new keeps (.hash ds) =
      countedEdit (.hash ds) (moveToMapAt old sel new keeps (.hash ds)) := rfl
  rw [hr]
  simp only [moveToMapAt, Yaml.keyValue, firstIn_eq]
  cases hk : firstIn old ds with
  | none => exact ⟨⟨nofun, by rintro ⟨a, od, h, -⟩; cases h⟩, .inr ⟨0, rfl⟩⟩
  | some v =>
    obtain ⟨a, v⟩ := v
    cases v with
    | hash od =>
      simp only [Option.some.injEq, AliasedYaml.mk.injEq, Yaml.hash.injEq]
      rcases loop_outcome (sel := sel) (keeps := keeps) od ⟨[], [], [], none⟩ (by simp) with ⟨h1, h2, h3⟩ | ⟨st', h1, h2, h3⟩
      · rw [h1]
        exact ⟨⟨fun _ => ⟨a, od, ⟨rfl, rfl⟩, .inl ⟨h2, h3⟩⟩, fun _ => rfl⟩, .inl rfl⟩
      · rw [h1, Out.bind_ok]
        have hno : NoPath sel → ¬ ∃ e, HashData.element e ∈ od ∧ (selectorText sel e).isSome := by
          rintro hn ⟨e, he, hs⟩
          rw [h2 hn e he] at hs
          cases hs
        by_cases he : (moveToMapFinish st').1 = []
        · have hg := (h3.1 he).2
          simp only [he, List.isEmpty_nil, if_true, countedEdit]
          refine ⟨⟨nofun, ?_⟩, .inr ⟨0, rfl⟩⟩
          rintro ⟨a', od', ⟨rfl, rfl⟩, ⟨hn, h⟩ | ⟨-, e, h4, h5⟩⟩
          · exact absurd h (hno hn)
          · rw [hg e h4] at h5; cases h5
        · have he' : (moveToMapFinish st').1.isEmpty = false := by simpa using he
          simp only [he', Bool.false_eq_true, if_false]
          have hg : ∃ e, HashData.element e ∈ od ∧ (groupOf sel keeps e).isSome := Classical.byContradiction fun hn => he (h3.2 ⟨rfl, fun e hm => by
            cases hgo : groupOf sel keeps e with
            | none => rfl
            | some s => exact absurd ⟨e, hm, by simp [hgo]⟩ hn⟩)
          rcases path_or new with ⟨p, hp⟩ | hp
          · rcases path_or old with ⟨q, hq⟩ | hq
            · rw [unwrap_ok hp, Out.bind_ok, unwrap_ok hq, Out.bind_ok]
              refine ⟨⟨nofun, ?_⟩, .inr ⟨1, rfl⟩⟩
              rintro ⟨a', od', ⟨rfl, rfl⟩, ⟨hn, h⟩ | ⟨h4 | h4, -⟩⟩
              · exact absurd h (hno hn)
              · exact absurd hp (h4 p)
              · exact absurd hq (h4 q)
            · rw [unwrap_ok hp, Out.bind_ok, unwrap_panic hq]
              exact ⟨⟨fun _ => ⟨a, od, ⟨rfl, rfl⟩, .inr ⟨.inr hq, hg⟩⟩, fun _ => rfl⟩, .inl rfl⟩
          · rw [unwrap_panic hp]
            exact ⟨⟨fun _ => ⟨a, od, ⟨rfl, rfl⟩, .inr ⟨.inl hp, hg⟩⟩, fun _ => rfl⟩, .inl rfl⟩
    | _ =>
      refine ⟨⟨nofun, ?_⟩, .inr ⟨0, rfl⟩⟩
      rintro ⟨a', od', h, -⟩
      simp only [Option.some.injEq, AliasedYaml.mk.injEq] at h
      cases h.2

/-- **C27, outcomes.** Regrouping never returns an error: it counts the regroupings or panics. -/
theorem C27_never_fails (d : Document) (path : YamlPath) (old sel new : Str) (keeps : List Str) :
    (d.moveToMap path old sel new keeps).1 = .panic ∨ ∃ n, (d.moveToMap path old sel new keeps).1 = .ok n := by
  have hr : ∀ y : Yaml, CountsOrPanics (countedEdit y (moveToMapAt old sel new keeps y)).1 := by
    intro y
    cases y with
    | hash ds => exact (C27_panics_iff (old := old) (sel := sel) (new := new) (keeps := keeps) (ds := ds)).2
    | _ => exact .inr ⟨0, rfl⟩
  exact overItems_inv (P := CountsOrPanics) (.inr ⟨0, rfl⟩) CountsOrPanics.add
    (fun y => forHash_inv (.inr ⟨0, rfl⟩) CountsOrPanics.add (fun e => hr _) hr path y) d

/-- **C27, outcomes.** If all names are paths, regrouping succeeds. -/
theorem C27_succeeds (d : Document) (path : YamlPath) {old sel new : Str} {keeps : List Str} (ho : ¬ NoPath old) (hs : ¬ NoPath sel)
    (hn : ¬ NoPath new) : ∃ n, (d.moveToMap path old sel new keeps).1 = .ok n := by
  have hr : ∀ y : Yaml, Counts (countedEdit y (moveToMapAt old sel new keeps y)).1 := by
    intro y
    cases y with
    | hash ds =>
      have h := C27_panics_iff (old := old) (sel := sel) (new := new) (keeps := keeps) (ds := ds)
      rcases h.2 with h' | h'
      · obtain ⟨a, od, -, ⟨h1, -⟩ | ⟨h1 | h1, -⟩⟩ := h.1.1 h'
        · exact absurd h1 hs
        · exact absurd h1 hn
        · exact absurd h1 ho
      · exact h'
    | _ => exact ⟨0, rfl⟩
  exact overItems_inv (P := Counts) counts_zero Counts.add
    (fun y => forHash_inv counts_zero Counts.add (fun e => hr _) hr path y) d

theorem noPath_bracket : NoPath c!"a[" := fun p h => by
  have : YamlPath.parse c!"a[" = .err := by kernel_rfl
  rw [this] at h
  cases h

/-- A selector that is not a path, in a map with a field of this name. -/
example : (Yaml.moveToMap (.root []) c!"m" c!"a[" c!"n" [] (.hash [.element ⟨c!"m", ⟨none, .hash [.element ⟨c!"x", ⟨none, .hash [
      .element ⟨c!"a[", ⟨none, .unquotedString c!"1"⟩⟩]⟩⟩]⟩⟩])).1 = .panic :=
  C27_panics_iff.1.2 ⟨none, _, rfl, .inl ⟨noPath_bracket, _, List.mem_singleton.2 rfl, rfl⟩⟩

end YamlSubset
