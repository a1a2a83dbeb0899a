import Verif.Spec.ValueMove
import Verif.Props.FindValue
import Verif.Props.Move
import Verif.Props.EditText

/-! # Moves as changes of values -/

namespace YamlSubset
open Spec

/-! ## the operations -/

theorem pairOf_hashVals (k : Str) (ds : List HashData) : pairOf k (hashVals ds) = (firstIn k ds).map fun v => anyValue v.value := by
  induction ds with
  | nil => rfl
  | cons d t ih =>
    rcases d with c | c | ⟨k', a, v⟩
    · simpa [hashVals, firstIn] using ih
    · simpa [hashVals, firstIn] using ih
    · simp only [hashVals, pairOf, firstIn]
      split
      · rfl
      · exact ih

theorem dropPairs_hashVals (ks : List Str) (ds : List HashData) : hashVals (dropFirst ks ds) = dropPairs ks (hashVals ds) := by
  induction ds generalizing ks with
  | nil => rfl
  | cons d t ih =>
    rcases d with c | c | ⟨k', a, v⟩
    · simpa [hashVals, dropFirst] using ih ks
    · simpa [hashVals, dropFirst] using ih ks
    · simp only [hashVals, dropPairs, dropFirst]
      split
      · exact ih _
      · simp only [hashVals, ih]

theorem putPair_hashVals (k : Str) (v : AliasedYaml) (ds : List HashData) : hashVals (put k v ds) = putPair k (anyValue v.value) (hashVals ds) := by
  obtain ⟨b, w⟩ := v
  induction ds with
  | nil => rfl
  | cons d t ih =>
    rcases d with c | c | ⟨k', a, v⟩
    · simpa [hashVals, put] using ih
    · simpa [hashVals, put] using ih
    · simp only [hashVals, putPair, put]
      split
      · rfl
      · simp only [hashVals, ih]

theorem foundPairs_hashVals (fields : List Str) (ds : List HashData) :
    foundPairs fields (hashVals ds) = (foundFields fields ds).map fun kv => (kv.1, anyValue kv.2.value) := by
  unfold foundPairs foundFields
  induction fields with
  | nil => rfl
  | cons k t ih =>
    simp only [List.filterMap_cons, pairOf_hashVals]
    simp only [pairOf_hashVals] at ih
    cases firstIn k ds <;> simp only [Option.map_none, Option.map_some, List.map_cons, ih]

theorem putPairs_hashVals (kvs : List (Str × AliasedYaml)) (sd : List HashData) :
    hashVals (putAll kvs sd) = (kvs.map fun kv => (kv.1, anyValue kv.2.value)).foldl (fun sd kv => putPair kv.1 kv.2 sd) (hashVals sd) := by
  unfold putAll
  induction kvs generalizing sd with
  | nil => rfl
  | cons kv t ih => simp only [List.foldl_cons, List.map_cons, ih, putPair_hashVals]

theorem hashVals_entries (kvs : List (Str × AliasedYaml)) :
    hashVals (kvs.map fun kv => .element ⟨kv.1, kv.2⟩) = (kvs.map fun kv => (kv.1, anyValue kv.2.value)).map fun kv => (.str kv.1, kv.2) := by
  induction kvs with
  | nil => rfl
  | cons kv t ih => obtain ⟨k, a, v⟩ := kv; simp only [List.map_cons, hashVals, ih]

/-! ## no references, no flow collections -/

/-- A property of trees that is passed on to the values of block mappings, and from them. -/
def OfEntries (P : Yaml → Prop) : Prop := ∀ ds, P (.hash ds) ↔ ∀ k a v, HashData.element ⟨k, ⟨a, v⟩⟩ ∈ ds → P v

theorem noRefs_ofEntries : OfEntries (fun y => NoRefs y) := noRefs_hash

theorem noFlow_ofEntries : OfEntries NoFlow := by
  intro ds
  constructor
  · intro h; cases h with | hash h => exact h
  · exact .hash

theorem mem_foundFields {fields : List Str} {ds : List HashData} {kv : Str × AliasedYaml} (h : kv ∈ foundFields fields ds) :
    HashData.element ⟨kv.1, kv.2⟩ ∈ ds := by
  obtain ⟨k, -, h⟩ := List.mem_filterMap.1 h
  cases hk : firstIn k ds with
  | none => rw [hk] at h; cases h
  | some v => rw [hk] at h; cases h; exact firstIn_mem hk

theorem drop_ofEntries {P : Yaml → Prop} (hP : OfEntries P) {ks : List Str} {ds : List HashData} (h : P (.hash ds)) : P (.hash (dropFirst ks ds)) := by
  rw [hP] at h ⊢
  exact fun k a v hm => h k a v (mem_dropFirst hm)

theorem moved_ofEntries {P : Yaml → Prop} (hP : OfEntries P) {sub : Str} {fields : List Str} {ds ds' : List HashData} (hm : MovedInto sub fields ds ds')
    (h : P (.hash ds)) : P (.hash ds') := by
  have hf : ∀ kv ∈ foundFields fields ds, P kv.2.value := by
    rintro ⟨k, a, v⟩ hkv
    exact (hP ds).1 h k a v (mem_foundFields hkv)
  cases hm with
  | @existing pre a sd post he =>
    obtain ⟨rfl, -⟩ := he
    apply drop_ofEntries hP
    have hd := (hP _).1 h
    rw [hP]
    intro k b v hv
    simp only [List.mem_append, List.mem_cons, HashData.element.injEq, HashElement.mk.injEq, AliasedYaml.mk.injEq] at hv
    rcases hv with hv | ⟨-, -, rfl⟩ | hv
    · exact hd k b v (by simp [hv])
    · rw [hP]
      intro k' b' w hw
      rcases mem_putAll hw with hw | ⟨kv, hkv, e⟩
      · exact (hP sd).1 (hd sub a (.hash sd) (by simp)) k' b' w hw
      · have := hf kv hkv
        obtain ⟨k2, a2, v2⟩ := kv
        simp only [HashData.element.injEq, HashElement.mk.injEq, AliasedYaml.mk.injEq] at e
        obtain ⟨-, -, rfl⟩ := e
        exact this
    · exact hd k b v (by simp [hv])
  | new hn =>
    have hd := (hP _).1 (drop_ofEntries hP (ks := fields) h)
    rw [hP]
    intro k b v hv
    simp only [List.mem_append, List.mem_singleton, HashData.element.injEq, HashElement.mk.injEq, AliasedYaml.mk.injEq] at hv
    rcases hv with hv | ⟨-, -, rfl⟩
    · exact hd k b v hv
    · rw [hP]
      intro k' b' w hw
      obtain ⟨kv, hkv, e⟩ := List.mem_map.1 hw
      have := hf kv hkv
      obtain ⟨k2, a2, v2⟩ := kv
      simp only [HashData.element.injEq, HashElement.mk.injEq, AliasedYaml.mk.injEq] at e
      obtain ⟨-, -, rfl⟩ := e
      exact this

/-! ## moving -/

theorem moved_value {sub : Str} {fields : List Str} {ds ds' : List HashData} (hm : MovedInto sub fields ds ds') :
    MovesPairs sub fields (hashVals ds) (hashVals ds') := by
  cases hm with
  | @existing pre a sd post he =>
    have hp := firstPair_of he
    simp only [anyValue] at hp
    have := MovesPairs.existing (fields := fields) hp
    rw [foundPairs_hashVals, ← putPairs_hashVals] at this
    rw [dropPairs_hashVals, hashVals_append, hashVals]
    simpa only [anyValue] using this
  | new hn =>
    have := MovesPairs.new (fields := fields) (sub := sub) (es := hashVals ds) (not_mem_hashVals hn)
    rw [foundPairs_hashVals, ← hashVals_entries] at this
    rw [hashVals_append, dropPairs_hashVals]
    simpa only [hashVals, anyValue] using this

theorem not_map_of {y : Yaml} (hf : NoFlow y) (hh : ∀ ds, y ≠ .hash ds) (m : List (SVal × SVal)) : anyValue y ≠ .map m := by
  cases hf with
  | hash h => exact absurd rfl (hh _)
  | unquoted s => exact plain_not_map s m
  | _ => simp [anyValue]

theorem not_usable_value {sub : Str} {fields : List Str} {ds : List HashData} (hu : ¬Usable sub ds) (hf : NoFlow (.hash ds)) :
    LosesPairs sub fields (hashVals ds) (hashVals (dropFirst fields ds)) := by
  rcases first_or sub ds with h | ⟨pre, ⟨a, v⟩, post, h⟩
  · exact absurd (.inl h) hu
  · refine ⟨⟨_, _, _, firstPair_of h, ?_⟩, dropPairs_hashVals ..⟩
    have hv : NoFlow v := (noFlow_ofEntries ds).1 hf sub a v (by rw [h.1]; simp)
    refine not_map_of hv fun sd e => hu (.inr ⟨pre, a, sd, post, ?_⟩)
    subst e; exact h

/-! ## regrouping -/

theorem asString_scalar {v : Yaml} {t : Str} (h : v.asString = some t) : anyValue v = .str t ∨ anyValue v = deAnyPlain t := by
  cases v <;> simp_all [Yaml.asString, anyValue]

theorem scalar_asString {v : Yaml} (hr : NoRefs v) (h : Scalar (anyValue v)) : ∃ t, v.asString = some t := by
  cases v with
  | hash ds => exact absurd rfl (h.1 _)
  | inlineHash ds => exact absurd rfl (h.1 _)
  | array ds => exact absurd rfl (h.2 _)
  | inlineArray ds => exact absurd rfl (h.2 _)
  | anchor a => exact absurd rfl (((noRefs_iff _).1 hr).1 a)
  | _ => exact ⟨_, rfl⟩

theorem firstIn_entry {k : Str} {v : AliasedYaml} {ds : List HashData} (h : firstIn k ds = some v) : ∃ pre post, FirstEntry k ds pre v post := by
  induction ds with
  | nil => cases h
  | cons x t ih =>
    have step : ∀ {x : HashData}, (∀ e, x = .element e → e.key ≠ k) → (∃ pre post, FirstEntry k t pre v post) → ∃ pre post, FirstEntry k (x :: t) pre v post := by
      rintro x hx ⟨pre, post, rfl, hn⟩
      refine ⟨x :: pre, post, rfl, ?_⟩
      rcases x with c | c | e
      · simpa [keysOf] using hn
      · simpa [keysOf] using hn
      · simp only [keysOf, List.filterMap_cons, List.mem_cons, not_or]
        exact ⟨fun e' => hx e rfl e'.symm, by simpa [keysOf] using hn⟩
    rcases x with c | c | ⟨k', w⟩
    · exact step (by nofun) (ih h)
    · exact step (by nofun) (ih h)
    · simp only [firstIn] at h
      split at h
      · rename_i e; cases h; subst e; exact ⟨[], t, rfl, by simp [keysOf]⟩
      · rename_i e; exact step (fun e' he' => by cases he'; exact e) (ih h)

theorem dropFirst_one {k : Str} {ds pre post : List HashData} {v : AliasedYaml} (h : FirstEntry k ds pre v post) : dropFirst [k] ds = pre ++ post := by
  obtain ⟨rfl, hn⟩ := h
  have h0 : ∀ t : List HashData, dropFirst [] t = t := fun t => dropFirst_not (by simp)
  induction pre with
  | nil => simp [dropFirst, h0]
  | cons x t ih =>
    rcases x with c | c | e
    · simp only [List.cons_append, dropFirst]; rw [ih (by simpa [keysOf] using hn)]
    · simp only [List.cons_append, dropFirst]; rw [ih (by simpa [keysOf] using hn)]
    · simp only [keysOf, List.filterMap_cons, List.mem_cons, not_or] at hn
      simp only [List.cons_append, dropFirst, List.mem_singleton, Ne.symm hn.1, if_false]
      rw [ih (by simpa [keysOf] using hn.2)]

/-- An entry as a pair. -/
def pairIs (e : HashElement) : SVal × SVal := (.str e.key, anyValue e.value.value)

/-- The stripped entry as a pair. -/
def strippedPair (sel : Str) (e : HashElement) : SVal × SVal :=
  match strip sel (.element e) with
  | .element e' => pairIs e'
  | _ => pairIs e

theorem sorted_entry {sel : Str} {keeps : List Str} {e : HashElement} (hr : NoRefs e.value.value) (hf : NoFlow e.value.value) :
    SortedPair sel keeps (pairIs e) (groupOf sel keeps e) (strippedPair sel e) := by
  obtain ⟨k, a, y⟩ := e
  simp only at hr hf
  by_cases hh : ∃ ds, y = .hash ds
  · obtain ⟨ds, rfl⟩ := hh
    cases hs : selectorText sel ⟨k, ⟨a, .hash ds⟩⟩ with
    | none =>
      have hg : groupOf sel keeps ⟨k, ⟨a, .hash ds⟩⟩ = none := by simp [groupOf, hs]
      have hst : strippedPair sel ⟨k, ⟨a, .hash ds⟩⟩ = pairIs ⟨k, ⟨a, .hash ds⟩⟩ := by simp [strippedPair, strip, hs]
      rw [hg, hst]
      refine .same ?_
      intro m pre x post hm hp hx
      simp only [anyValue, SVal.map.injEq] at hm
      subst hm
      have h1 : pairOf sel (hashVals ds) = some x := by
        obtain ⟨e, hn⟩ := hp
        rw [e]
        clear e hs hg hst
        induction pre with
        | nil => simp [pairOf]
        | cons q t ih =>
          obtain ⟨q1, q2⟩ := q
          have h2 := ih (fun w hw => hn w (by simp [hw]))
          cases q1 <;> simp only [List.cons_append, pairOf] <;> try exact h2
          rename_i s
          rw [if_neg (fun e => hn q2 (by simp [e])), h2]
      rw [pairOf_hashVals] at h1
      cases hfi : firstIn sel ds with
      | none => rw [hfi] at h1; cases h1
      | some v =>
        rw [hfi] at h1
        simp only [Option.map_some, Option.some.injEq] at h1
        subst h1
        obtain ⟨b, v⟩ := v
        obtain ⟨t, ht⟩ := scalar_asString ((noRefs_hash ds).1 hr sel b v (firstIn_mem hfi)) hx
        simp [selectorText, hfi, ht] at hs
    | some t =>
      have hst : strippedPair sel ⟨k, ⟨a, .hash ds⟩⟩ = (.str k, .map (hashVals (dropFirst [sel] ds))) := by
        simp [strippedPair, strip, hs, pairIs, anyValue]
      have hs' := hs
      simp only [selectorText] at hs'
      cases hfi : firstIn sel ds with
      | none => rw [hfi] at hs'; cases hs'
      | some v =>
        rw [hfi] at hs'
        simp only [Option.bind_some] at hs'
        obtain ⟨pre, post, hfe⟩ := firstIn_entry hfi
        rw [hst, dropFirst_one hfe, hashVals_append]
        have hp := firstPair_of hfe
        have ht := asString_scalar hs'
        by_cases hk : t ∈ keeps ∨ t = []
        · have hg : groupOf sel keeps ⟨k, ⟨a, .hash ds⟩⟩ = none := by simp only [groupOf, hs, hk, if_true]
          rw [hg]
          exact .stays hp ht hk
        · have hg : groupOf sel keeps ⟨k, ⟨a, .hash ds⟩⟩ = some t := by simp only [groupOf, hs, hk, if_false]
          rw [hg]
          exact .goes hp ht (fun h => hk (.inl h)) (fun h => hk (.inr h))
  · have hs : selectorText sel ⟨k, ⟨a, y⟩⟩ = none := by
      cases y with
      | hash ds => exact absurd ⟨ds, rfl⟩ hh
      | _ => rfl
    have hg : groupOf sel keeps ⟨k, ⟨a, y⟩⟩ = none := by simp [groupOf, hs]
    have hst : strippedPair sel ⟨k, ⟨a, y⟩⟩ = pairIs ⟨k, ⟨a, y⟩⟩ := by
      cases y with
      | hash ds => exact absurd ⟨ds, rfl⟩ hh
      | _ => rfl
    rw [hg, hst]
    exact .same fun m pre x post hm _ _ => not_map_of hf (fun ds e => hh ⟨ds, e⟩) m hm

/-- The sorted entries of a mapping. -/
def sortedOf (sel : Str) (keeps : List Str) (od : List HashData) : List (Option Str × (SVal × SVal) × (SVal × SVal)) :=
  od.filterMap fun
    | .element e => some (groupOf sel keeps e, pairIs e, strippedPair sel e)
    | _ => none

theorem strip_element (sel : Str) (e : HashElement) : ∃ e', strip sel (.element e) = .element e' := by
  obtain ⟨k, a, y⟩ := e
  cases y with
  | hash ds => simp only [strip]; split <;> exact ⟨_, rfl⟩
  | _ => exact ⟨_, rfl⟩

theorem itemsOf_value (sel : Str) (keeps : List Str) (od : List HashData) (g : Option Str) :
    hashVals (itemsOf sel keeps od g) = groupPairs (sortedOf sel keeps od) g := by
  unfold itemsOf
  generalize (none : Option Str) = last
  induction od generalizing last with
  | nil => rfl
  | cons d t ih =>
    rcases d with c | c | e
    · have ih := ih last
      have hs : sortedOf sel keeps (.inlineComment c :: t) = sortedOf sel keeps t := rfl
      rw [hs, ← ih]
      simp only [groups, List.filterMap_cons]
      by_cases hg : nextGroup sel keeps last t = g
      · simp only [hg, if_true]; rfl
      · simp only [hg, if_false]
    · have ih := ih last
      have hs : sortedOf sel keeps (.comment c :: t) = sortedOf sel keeps t := rfl
      rw [hs, ← ih]
      simp only [groups, List.filterMap_cons]
      by_cases hg : nextGroup sel keeps last t = g
      · simp only [hg, if_true]; rfl
      · simp only [hg, if_false]
    · have ih := ih (groupOf sel keeps e)
      simp only [groups, List.filterMap_cons, sortedOf, groupPairs]
      by_cases hg : groupOf sel keeps e = g
      · simp only [hg, if_true]
        obtain ⟨e', he'⟩ := strip_element sel e
        rw [hg] at ih
        have : strippedPair sel e = pairIs e' := by simp [strippedPair, he']
        obtain ⟨k', a', v'⟩ := e'
        rw [he', this]
        simp only [hashVals, pairIs]
        rw [ih]; rfl
      · simp only [hg, if_false]
        rw [ih]; rfl

theorem sortedOf_before (sel : Str) (keeps : List Str) (od : List HashData) : (sortedOf sel keeps od).map (fun x => x.2.1) = hashVals od := by
  induction od with
  | nil => rfl
  | cons d t ih =>
    rcases d with c | c | ⟨k, a, v⟩
    · simpa [sortedOf, hashVals] using ih
    · simpa [sortedOf, hashVals] using ih
    · simp only [sortedOf, List.filterMap_cons, List.map_cons, hashVals, pairIs] at ih ⊢
      rw [ih]

theorem sortedOf_sorted {sel : Str} {keeps : List Str} {od : List HashData} (hr : NoRefs (.hash od)) (hf : NoFlow (.hash od)) :
    ∀ x ∈ sortedOf sel keeps od, SortedPair sel keeps x.2.1 x.1 x.2.2 := by
  intro x hx
  obtain ⟨d, hd, h⟩ := List.mem_filterMap.1 hx
  rcases d with c | c | ⟨k, a, v⟩
  · cases h
  · cases h
  · simp only [Option.some.injEq] at h
    subst h
    exact sorted_entry ((noRefs_hash od).1 hr k a v hd) ((noFlow_ofEntries od).1 hf k a v hd)

theorem mem_sortedOf {sel : Str} {keeps : List Str} {od : List HashData} {g : Str} :
    (∃ x ∈ sortedOf sel keeps od, x.1 = some g) ↔ ∃ k v, HashData.element ⟨k, v⟩ ∈ od ∧ groupOf sel keeps ⟨k, v⟩ = some g := by
  constructor
  · rintro ⟨x, hx, hg⟩
    obtain ⟨d, hd, h⟩ := List.mem_filterMap.1 hx
    rcases d with c | c | ⟨k, v⟩
    · cases h
    · cases h
    · simp only [Option.some.injEq] at h
      subst h
      exact ⟨k, v, hd, hg⟩
  · rintro ⟨k, v, hm, hg⟩
    exact ⟨_, List.mem_filterMap.2 ⟨_, hm, rfl⟩, hg⟩

theorem hashVals_groups (gs : List Str) (f : Str → List HashData) :
    hashVals (gs.map fun g => .element ⟨g, ⟨none, .hash (f g)⟩⟩) = gs.map fun g => (.str g, .map (hashVals (f g))) := by
  induction gs with
  | nil => rfl
  | cons g t ih => simp only [List.map_cons, hashVals, anyValue, ih]

theorem regrouped_value {old sel new : Str} {keeps : List Str} {ds ds' : List HashData} (h : Regrouped old sel new keeps ds ds')
    (hr : NoRefs (.hash ds)) (hf : NoFlow (.hash ds)) : RegroupsPairs old sel new keeps (hashVals ds) (hashVals ds') := by
  cases h with
  | @intro pre a od post gs h sorted names =>
    have hp := firstPair_of h
    simp only [anyValue] at hp
    have hm : HashData.element ⟨old, ⟨a, .hash od⟩⟩ ∈ ds := by rw [h.1]; simp
    have hr' := (noRefs_hash ds).1 hr _ _ _ hm
    have hf' := (noFlow_ofEntries ds).1 hf _ _ _ hm
    refine ⟨_, _, _, sortedOf sel keeps od, gs, hp, sortedOf_before .., sortedOf_sorted hr' hf', sorted, fun g => ?_, ?_⟩
    · rw [names, mem_sortedOf]
    · simp only [hashVals_append, hashVals, anyValue, hashVals_groups, itemsOf_value]

theorem groupsLost_value {old sel new : Str} {keeps : List Str} {ds ds' : List HashData} (hn : new ∈ keysOf ds) (h : GroupsLost old sel keeps ds ds')
    (hr : NoRefs (.hash ds)) (hf : NoFlow (.hash ds)) : LosesGroups old sel new keeps (hashVals ds) (hashVals ds') := by
  cases h with
  | @intro pre a od post h =>
    have hp := firstPair_of h
    simp only [anyValue] at hp
    have hm : HashData.element ⟨old, ⟨a, .hash od⟩⟩ ∈ ds := by rw [h.1]; simp
    have hr' := (noRefs_hash ds).1 hr _ _ _ hm
    have hf' := (noFlow_ofEntries ds).1 hf _ _ _ hm
    refine ⟨?_, _, _, _, sortedOf sel keeps od, hp, sortedOf_before .., sortedOf_sorted hr' hf', ?_⟩
    · rcases first_or new ds with hx | ⟨_, v, _, hx⟩
      · exact absurd hn hx
      · exact ⟨anyValue v.value, by rw [(firstPair_of hx).1]; simp⟩
    · simp only [hashVals_append, hashVals, anyValue, itemsOf_value]

theorem strip_ofEntries {P : Yaml → Prop} (hP : OfEntries P) {sel k : Str} {a : Option Str} {v : Yaml} {d : HashData}
    (h : ∀ k a v, d = .element ⟨k, ⟨a, v⟩⟩ → P v) (hd : strip sel d = .element ⟨k, ⟨a, v⟩⟩) : P v := by
  rcases d with c | c | ⟨k', a', y⟩
  · cases hd
  · cases hd
  · have h := h k' a' y rfl
    cases y with
    | hash ds =>
      simp only [strip] at hd
      split at hd
      · simp only [HashData.element.injEq, HashElement.mk.injEq, AliasedYaml.mk.injEq] at hd
        obtain ⟨-, -, rfl⟩ := hd
        exact drop_ofEntries hP h
      · simp only [HashData.element.injEq, HashElement.mk.injEq, AliasedYaml.mk.injEq] at hd
        obtain ⟨-, -, rfl⟩ := hd
        exact h
    | _ =>
      simp only [strip, HashData.element.injEq, HashElement.mk.injEq, AliasedYaml.mk.injEq] at hd
      obtain ⟨-, -, rfl⟩ := hd
      exact h

theorem mem_groups {sel : Str} {keeps : List Str} {last : Option Str} {od : List HashData} {x} (h : x ∈ groups sel keeps last od) : x.2 ∈ od := by
  have := groups_snd sel keeps last od
  rw [← this]
  exact List.mem_map.2 ⟨x, h, rfl⟩

theorem itemsOf_ofEntries {P : Yaml → Prop} (hP : OfEntries P) {sel : Str} {keeps : List Str} {od : List HashData} (h : P (.hash od)) (g : Option Str) :
    P (.hash (itemsOf sel keeps od g)) := by
  rw [hP] at h ⊢
  intro k a v hm
  obtain ⟨x, hx, hs⟩ := List.mem_filterMap.1 hm
  split at hs
  · simp only [Option.some.injEq] at hs
    exact strip_ofEntries hP (fun k' a' v' e => h k' a' v' (e ▸ mem_groups hx)) hs
  · cases hs

theorem regrouped_ofEntries {P : Yaml → Prop} (hP : OfEntries P) {old sel new : Str} {keeps : List Str} {ds ds' : List HashData}
    (h : Regrouped old sel new keeps ds ds') (hd : P (.hash ds)) : P (.hash ds') := by
  cases h with
  | @intro pre a od post gs h sorted names =>
    obtain ⟨rfl, -⟩ := h
    rw [hP] at hd
    have ho := hd old a (.hash od) (by simp)
    rw [hP]
    intro k b v hv
    simp only [List.append_assoc, List.cons_append, List.mem_append, List.mem_cons, HashData.element.injEq, HashElement.mk.injEq, AliasedYaml.mk.injEq,
      List.not_mem_nil, or_false] at hv
    rcases hv with hv | ⟨-, -, rfl⟩ | hv | ⟨-, -, rfl⟩
    · exact hd k b v (by simp [hv])
    · exact itemsOf_ofEntries hP ho none
    · exact hd k b v (by simp [hv])
    · rw [hP]
      intro k' b' w hw
      obtain ⟨g, -, e⟩ := List.mem_map.1 hw
      simp only [HashData.element.injEq, HashElement.mk.injEq, AliasedYaml.mk.injEq] at e
      obtain ⟨-, -, rfl⟩ := e
      exact itemsOf_ofEntries hP ho (some g)

theorem groupsLost_ofEntries {P : Yaml → Prop} (hP : OfEntries P) {old sel : Str} {keeps : List Str} {ds ds' : List HashData}
    (h : GroupsLost old sel keeps ds ds') (hd : P (.hash ds)) : P (.hash ds') := by
  cases h with
  | @intro pre a od post h =>
    obtain ⟨rfl, -⟩ := h
    rw [hP] at hd
    have ho := hd old a (.hash od) (by simp)
    rw [hP]
    intro k b v hv
    simp only [List.mem_append, List.mem_cons, HashData.element.injEq, HashElement.mk.injEq, AliasedYaml.mk.injEq] at hv
    rcases hv with hv | ⟨-, -, rfl⟩ | hv
    · exact hd k b v (by simp [hv])
    · exact itemsOf_ofEntries hP ho none
    · exact hd k b v (by simp [hv])

/-! ## edits of trees without flow collections -/

theorem noFlow_ofElements (ds : List ArrayData) : NoFlow (.array ds) ↔ ∀ a v, ArrayData.element ⟨a, v⟩ ∈ ds → NoFlow v := by
  constructor
  · intro h; cases h with | array h => exact h
  · exact .array

theorem edits_noFlow {E} (hE : ∀ ds ds', E ds ds' → NoFlow (.hash ds) → NoFlow (.hash ds')) {ls : List Loc} {y y' : Yaml} (h : Edits E ls y y') :
    NoFlow y → NoFlow y' ∧ Edits (fun ds ds' => E ds ds' ∧ NoFlow (.hash ds)) ls y y' := by
  induction h with
  | none y => exact fun h => ⟨h, .none _⟩
  | here h => exact fun hr => ⟨hE _ _ h hr, .here ⟨h, hr⟩⟩
  | @inHash ds i k a v v' ls hi _ ih =>
    intro hr
    have hd := (noFlow_ofEntries ds).1 hr
    obtain ⟨h1, h2⟩ := ih (hd k a v (List.mem_iff_getElem?.2 ⟨i, hi⟩))
    refine ⟨(noFlow_ofEntries _).2 fun k' a' w hw => ?_, .inHash hi h2⟩
    rcases List.mem_or_eq_of_mem_set hw with hw | e
    · exact hd k' a' w hw
    · simp only [HashData.element.injEq, HashElement.mk.injEq, AliasedYaml.mk.injEq] at e
      obtain ⟨-, -, rfl⟩ := e
      exact h1
  | @inArray ds i a v v' ls hi _ ih =>
    intro hr
    have hd := (noFlow_ofElements ds).1 hr
    obtain ⟨h1, h2⟩ := ih (hd a v (List.mem_iff_getElem?.2 ⟨i, hi⟩))
    refine ⟨(noFlow_ofElements _).2 fun a' w hw => ?_, .inArray hi h2⟩
    rcases List.mem_or_eq_of_mem_set hw with hw | e
    · exact hd a' w hw
    · simp only [ArrayData.element.injEq, AliasedYaml.mk.injEq] at e
      obtain ⟨-, rfl⟩ := e
      exact h1
  | inInlineArray _ _ _ => intro hr; cases hr
  | seq _ _ ih1 ih2 =>
    intro hr
    obtain ⟨h1, h2⟩ := ih1 hr
    obtain ⟨h3, h4⟩ := ih2 h1
    exact ⟨h3, .seq h2 h4⟩

theorem docEdits_noFlow {E} (hE : ∀ ds ds', E ds ds' → NoFlow (.hash ds) → NoFlow (.hash ds')) {n : Nat} {d d' : Document} (h : DocEdits E n d d')
    (hf : ∀ y ∈ yamlItems d, NoFlow y) :
    (∀ y ∈ yamlItems d', NoFlow y) ∧ DocEdits (fun ds ds' => E ds ds' ∧ NoFlow (.hash ds)) n d d' := by
  obtain ⟨hl, h⟩ := h
  have key : ∀ {n is is'}, ItemsEdit E n is is' → ∀ {c c' : List Str}, (∀ y ∈ yamlItems ⟨c, is⟩, NoFlow y) →
      (∀ y ∈ yamlItems ⟨c', is'⟩, NoFlow y) ∧ ItemsEdit (fun ds ds' => E ds ds' ∧ NoFlow (.hash ds)) n is is' := by
    intro n is is' h
    induction h with
    | nil => intro c c' _; exact ⟨by simp [yamlItems], .nil⟩
    | comment _ ih =>
      intro c c' hc
      obtain ⟨h1, h2⟩ := ih (c := c) (c' := c') (by simpa [yamlItems] using hc)
      exact ⟨by simpa [yamlItems] using h1, .comment h2⟩
    | yaml he _ ih =>
      intro c c' hc
      simp only [yamlItems, List.filterMap_cons, List.mem_cons, forall_eq_or_imp] at hc
      obtain ⟨h1, h2⟩ := ih (c := c) (c' := c') (by simpa [yamlItems] using hc.2)
      obtain ⟨h3, h4⟩ := edits_noFlow hE he hc.1
      refine ⟨?_, .yaml h4 h2⟩
      simp only [yamlItems, List.filterMap_cons, List.mem_cons, forall_eq_or_imp]
      exact ⟨h3, by simpa [yamlItems] using h1⟩
  obtain ⟨h1, h2⟩ := key h (c := d.leadingComments) (c' := d'.leadingComments) hf
  exact ⟨h1, hl, h2⟩

end YamlSubset
