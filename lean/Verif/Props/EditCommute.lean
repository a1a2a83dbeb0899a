import Verif.Lemmas.EditCommute
import Verif.Lemmas.KernelRfl

/-! # Independent edits commute (C60) -/

namespace YamlSubset

open Spec

/-- An edit of the API as an edit of entries. -/
structure EditsAs (e : Edit) (g : Yaml → Nat × Yaml) (f : Closure) (k : Str) (P : Patch) : Prop where
  run : ∀ d, e.run d = d.overItems g
  last : lastKey e.path = some k
  patch : PatchEdit f k e.names P
  tree : ∀ y, BlockOutsideFlow y → g y = Yaml.editHash f e.path y
  block : ∀ y, BlockOutsideFlow y → BlockOutsideFlow (g y).2
  app : e.isInsert = false → P.app = []

theorem editsAs (e : Edit) (hk : (lastKey e.path).isSome) (hp : e.Plain) : ∃ g f k P, EditsAs e g f k P := by
  obtain ⟨k, hl⟩ := Option.isSome_iff_exists.1 hk
  match e, hl, hp with
  | .insert p h o, hl, hp =>
    refine ⟨Yaml.insertIntoHash p h o, insertClosure h o, k, insertPatch k h o, fun _ => rfl, hl, ⟨insert_isPatch k h o, ?_, ?_, ?_⟩,
      fun _ _ => rfl, fun y hy => blockOutsideFlow_editHash _ (blockOutsideFlow_insert hp o) p y hy, nofun⟩
    · have : lastKey p = some k := hl
      constructor <;> simp [insertPatch, keysOf, Edit.names, this]
    · have : lastKey p = some k := hl
      simpa [Edit.names, this] using insert_frames h o k
    · have : lastKey p = some k := hl
      simp [Edit.names, this]
  | .remove p, hl, hp =>
    refine ⟨Yaml.removeFromHash p, removeClosure, k, removePatch, fun _ => rfl, hl, ⟨remove_isPatch k, ?_, ?_, ?_⟩,
      fun _ _ => rfl, fun y hy => blockOutsideFlow_editHash _ blockOutsideFlow_remove p y hy, fun _ => rfl⟩
    · constructor <;> simp [removePatch, keysOf]
    · have : lastKey p = some k := hl
      simpa [Edit.names, this] using remove_frames k
    · have : lastKey p = some k := hl
      simp [Edit.names, this]
  | .rename p new, hl, hp =>
    have hl' : lastKey p = some k := hl
    have ht : ∀ y, BlockOutsideFlow y → Yaml.renameField p new y = Yaml.editHash (elementClosure _) p y :=
      fun y hy => forHash_eq_editHash_block _ (fun _ h => h) p (by simp [hl']) y hy
    refine ⟨Yaml.renameField p new, _, k, elementPatch k _, fun _ => rfl, hl, ⟨element_isPatch k _, ?_, ?_, ?_⟩,
      ht, fun y hy => ?_, fun _ => rfl⟩
    · constructor <;> simp [elementPatch, keysOf, Edit.names, hl']
    · simpa [Edit.names, hl'] using element_frames (fun e => (1, (⟨new, e.value⟩ : HashElement))) k new fun _ => rfl
    · simp [Edit.names, hl']
    · rw [ht y hy]; exact blockOutsideFlow_editHash _ (blockOutsideFlow_element _ fun _ h => h) p y hy
  | .toObject p obj, hl, hp =>
    have hl' : lastKey p = some k := hl
    have hw : ∀ e : HashElement, BlockOutsideFlow e.value.value →
        BlockOutsideFlow (Yaml.hash [.element ⟨obj, e.value⟩]) := by
      rintro ⟨k, ⟨a, v⟩⟩ h
      refine .hash fun k' a' v' hm => ?_
      simp only [List.mem_singleton, HashData.element.injEq, HashElement.mk.injEq, AliasedYaml.mk.injEq] at hm
      obtain ⟨-, -, rfl⟩ := hm
      exact h
    have ht : ∀ y, BlockOutsideFlow y → Yaml.toObject p obj y = Yaml.editHash (elementClosure _) p y :=
      fun y hy => forHash_eq_editHash_block _ hw p (by simp [hl']) y hy
    refine ⟨Yaml.toObject p obj, _, k, elementPatch k _, fun _ => rfl, hl, ⟨element_isPatch k _, ?_, ?_, ?_⟩,
      ht, fun y hy => ?_, fun _ => rfl⟩
    · constructor <;> simp [elementPatch, keysOf, Edit.names, hl']
    · have hfr := element_frames (fun e => (1, (⟨e.key, ⟨none, .hash [.element ⟨obj, e.value⟩]⟩⟩ : HashElement))) k k fun _ => rfl
      simp only [Edit.names, hl', Option.toList_some]
      exact fun ds k' hk => hfr ds k' (by simpa using hk)
    · simp [Edit.names, hl']
    · rw [ht y hy]; exact blockOutsideFlow_editHash _ (blockOutsideFlow_element _ hw) p y hy

theorem independent_commute {e e' : Edit} (h : Independent e e') (hp : e.Plain) (hp' : e'.Plain) (d : Document)
    (hd : ∀ y ∈ yamlItems d, BlockOutsideFlow y) :
    (e'.run (e.run d).2).2 = (e.run (e'.run d).2).2 ∧ (e'.run (e.run d).2).1 = (e'.run d).1 := by
  obtain ⟨g, f, k, P, E⟩ := editsAs e h.ends hp
  obtain ⟨g', f', l, Q, E'⟩ := editsAs e' h.ends' hp'
  have happ : endTogether e.path e'.path = false ∨ P.app = [] ∨ Q.app = [] := by
    cases h1 : e.isInsert with
    | false => exact .inr (.inl (E.app h1))
    | true =>
      cases h2 : e'.isInsert with
      | false => exact .inr (.inr (E'.app h2))
      | true => exact .inl (h.inserts h1 h2)
  have key : ∀ y ∈ yamlItems d, CommutesWith g g' y := by
    intro y hy
    have := editHash_commute E.patch E'.patch E.last E'.last h.apart h.apart' h.conditions h.conditions' happ y
    have hy := hd y hy
    unfold CommutesWith at this ⊢
    rw [E'.tree _ (E.block y hy), E.tree _ (E'.block y hy), E.tree y hy, E'.tree y hy]
    exact this
  rw [E.run, E'.run, E'.run, E.run]
  constructor
  · rw [overItems_compose (t := fun y => g (g' y).2) d fun y hy => (key y hy).1]
    exact (overItems_compose (f := g') (g := g) d fun y hy => rfl).symm
  · rw [overItems_nat, overItems_nat, overItems_items, List.map_map]
    congr 1
    exact List.map_congr_left fun y hy => (key y hy).2

/-- **C60.** Independent edits can be applied in either order: the document is the same. For every two independent edits and every document
without block collections in flow collections (every parsed document). -/
theorem C60_commute {e e' : Edit} (h : Independent e e') (hp : e.Plain) (hp' : e'.Plain) (d : Document)
    (hd : ∀ y ∈ yamlItems d, BlockOutsideFlow y) : (e'.run (e.run d).2).2 = (e.run (e'.run d).2).2 :=
  (independent_commute h hp hp' d hd).1

/-- **C60.** An edit makes the same number of changes whether an independent edit was made before or not. -/
theorem C60_count {e e' : Edit} (h : Independent e e') (hp : e.Plain) (hp' : e'.Plain) (d : Document)
    (hd : ∀ y ∈ yamlItems d, BlockOutsideFlow y) : (e'.run (e.run d).2).1 = (e'.run d).1 :=
  (independent_commute h hp hp' d hd).2

theorem Spec.Independent.symm {e e' : Edit} (h : Independent e e') : Independent e' e := by
  refine ⟨h.ends', h.ends, h.apart', h.apart, h.conditions', h.conditions, fun h1 h2 => ?_⟩
  have := h.inserts h2 h1
  rw [← this]
  have comm : ∀ p q, endTogether q p = endTogether p q := by
    intro p q
    fun_induction endTogether p q with
    | case1 => rfl
    | case2 k cs p k' cs' q ih => simp only [endTogether, ih, Bool.beq_comm]
    | case3 cs p cs' q ih => simp only [endTogether, ih]
    | case4 cs p is cs' q ih => simp only [endTogether, ih]
    | case5 is cs p cs' q ih => simp only [endTogether, ih]
    | case6 is cs p js cs' q ih => simp only [endTogether, ih]
    | case7 p q h1 h2 h3 h4 h5 h6 =>
      unfold endTogether
      split
      · exact absurd rfl (h1 _ _ _ _ rfl)
      · exact absurd rfl (h2 _ _ _ _ _ _ rfl)
      · exact absurd rfl (h3 _ _ _ _ rfl)
      · exact absurd rfl (h5 _ _ _ _ _ rfl)
      · exact absurd rfl (h4 _ _ _ _ _ rfl)
      · exact absurd rfl (h6 _ _ _ _ _ _ rfl)
      · rfl
  exact comm _ _

theorem run_block {e : Edit} (hk : (lastKey e.path).isSome) (hp : e.Plain) (d : Document) (hd : ∀ y ∈ yamlItems d, BlockOutsideFlow y) :
    ∀ y ∈ yamlItems (e.run d).2, BlockOutsideFlow y := by
  obtain ⟨g, f, k, P, E⟩ := editsAs e hk hp
  intro y hy
  rw [E.run, overItems_items, List.mem_map] at hy
  obtain ⟨z, hz, rfl⟩ := hy
  exact E.block z (hd z hz)

/-- **C60.** Any number of edits, pairwise independent, can be applied in any order: the document and the number of changes are the same. -/
theorem C60_any_order {es es' : List Edit} (hperm : es.Perm es') (hp : ∀ e ∈ es, (lastKey e.path).isSome ∧ e.Plain)
    (hi : es.Pairwise Independent) (d : Document) (hd : ∀ y ∈ yamlItems d, BlockOutsideFlow y) : runAll es d = runAll es' d := by
  induction hperm generalizing d with
  | nil => rfl
  | @cons e t t' hperm ih =>
    simp only [runAll]
    rw [ih (fun e he => hp e (by simp [he])) (List.pairwise_cons.1 hi).2 _ (run_block (hp e (by simp)).1 (hp e (by simp)).2 d hd)]
  | @swap e e' t =>
    have hind : Independent e' e := (List.pairwise_cons.1 hi).1 e (by simp)
    have h1 := independent_commute hind (hp e' (by simp)).2 (hp e (by simp)).2 d hd
    have h2 := independent_commute hind.symm (hp e (by simp)).2 (hp e' (by simp)).2 d hd
    simp only [runAll, h1.1, h1.2, h2.2]
    rw [Prod.mk.injEq]
    exact ⟨by omega, rfl⟩
  | @trans t t' t'' h1 h2 ih1 ih2 =>
    rw [ih1 hp hi d hd, ih2 (fun e he => hp e (h1.mem_iff.2 he)) (h1.pairwise hi fun h => h.symm) d hd]

/-! ### The hypotheses can be met, and are needed -/

/-- Three edits: a name in the jobs of one kind, no size in the first job, and a new entry in the document. -/
def jobsEdits : List Edit :=
  [.insert (.key c!"jobs" [] (some (.allIndexes [⟨c!"kind", c!"y"⟩] (some (.key c!"name" [] none))))) ⟨none, .unquotedString c!"n"⟩ true,
   .remove (.key c!"jobs" [] (some (.indexes [0] [] (some (.key c!"size" [] none))))),
   .insert (.key c!"other" [] none) ⟨none, .unquotedString c!"o"⟩ false]

theorem jobsEdits_independent : jobsEdits.Pairwise Independent := by
  have h12 : Independent jobsEdits[0] jobsEdits[1] :=
    ⟨rfl, rfl, .key (.allSome (.last (by decide))), .key (.someAll (.last (by decide))), by decide, by decide, by decide⟩
  have h13 : Independent jobsEdits[0] jobsEdits[2] := ⟨rfl, rfl, .keys (by decide), .last (by decide), by decide, by decide, by decide⟩
  have h23 : Independent jobsEdits[1] jobsEdits[2] := ⟨rfl, rfl, .keys (by decide), .last (by decide), by decide, by decide, by decide⟩
  refine .cons ?_ (.cons ?_ (.cons nofun .nil))
  · simp only [List.mem_cons, List.not_mem_nil, or_false]
    rintro _ (rfl | rfl)
    · exact h12
    · exact h13
  · simp only [List.mem_cons, List.not_mem_nil, or_false]
    rintro _ rfl
    exact h23

/-- The edits change the document three times, and can be made in the reverse order. -/
theorem C60_example : (runAll jobsEdits jobsDoc).1 = 3 ∧ runAll jobsEdits jobsDoc = runAll jobsEdits.reverse jobsDoc := by
  refine ⟨by decide +kernel, C60_any_order (List.reverse_perm _).symm ?_ jobsEdits_independent _ ?_⟩
  · simp only [jobsEdits, List.mem_cons, List.not_mem_nil, or_false]
    rintro _ (rfl | rfl | rfl)
    · exact ⟨rfl, .flow (.unquotedString _)⟩
    · exact ⟨rfl, trivial⟩
    · exact ⟨rfl, .flow (.unquotedString _)⟩
  · exact parsed_items jobsDoc_parsed

/-- **C60 (limit).** Two inserts into the same mapping: the order of the new entries is the order of the inserts. -/
theorem C60_counterexample_inserts :
    let e : Edit := .insert (.key c!"a" [] none) ⟨none, .unquotedString c!"1"⟩ false
    let e' : Edit := .insert (.key c!"b" [] none) ⟨none, .unquotedString c!"2"⟩ false
    (e'.run (e.run jobsDoc).2).2.format ≠ (e.run (e'.run jobsDoc).2).2.format := by
  decide +kernel

/-- **C60 (limit).** A condition on a key that the other edit touches. -/
theorem C60_counterexample_condition :
    let e : Edit := .remove (.key c!"jobs" [] (some (.indexes [0] [] (some (.key c!"size" [] none)))))
    let e' : Edit := .rename (.key c!"jobs" [] (some (.allIndexes [⟨c!"size", c!"1"⟩] (some (.key c!"kind" [] none))))) c!"sort"
    (e'.run (e.run jobsDoc).2).1 = 0 ∧ (e'.run jobsDoc).1 = 1 := by
  decide +kernel

/-- **C60 (limit).** Renaming to a name that the other edit uses. -/
theorem C60_counterexample_names :
    let e : Edit := .rename (.key c!"jobs" [] (some (.indexes [0] [] (some (.key c!"size" [] none))))) c!"weight"
    let e' : Edit := .remove (.key c!"jobs" [] (some (.indexes [0] [] (some (.key c!"weight" [] none)))))
    (e'.run (e.run jobsDoc).2).1 = 1 ∧ (e'.run jobsDoc).1 = 0 := by
  decide +kernel

end YamlSubset
