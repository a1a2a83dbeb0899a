import Verif.Lemmas.ValueMove
import Verif.Props.MoveOutcome
import Verif.Lemmas.KernelRfl
import Verif.Props.EditText

/-! # C70: moves change the deserialized data as expected -/

namespace YamlSubset
open Spec

/-- **C70.** After fields were moved into a subfield, the document has a value, and it is the old one with as many maps changed as the move reports; in each of
them the fields are moved, or are lost because the subfield is there and is not a map. -/
theorem C70_move (Γ : Nat → Ty) (d : Document) (path : YamlPath) {sub : Str} {fields : List Str} {n : Nat}
    (hsub : CleanKey sub) (hf : ∀ k ∈ fields, CleanKey k) (hn : fields.Nodup) (hs : sub ∉ fields)
    (h : (d.moveToSubfield path sub fields).1 = .ok n) (hr : DocNoRefs d) (hfl : ∀ y ∈ yamlItems d, NoFlow y) {v : SVal} (hv : DocHasValue Γ d v) :
    ∃ v', DocHasValue Γ (d.moveToSubfield path sub fields).2 v' ∧
      ValueEdits (fun es es' => MovesPairs sub fields es es' ∨ LosesPairs sub fields es es') n v v' := by
  have he := (docEdits_noFlow ?_ (C26_move_to_subfield_everywhere d path hsub hf hn hs h) hfl).2
  · refine (docEdits_value ?_ Γ he hr hv).2
    rintro ds ds' ⟨⟨-, hm⟩ | ⟨hu, rfl⟩, hd⟩ hr
    · exact ⟨moved_ofEntries noRefs_ofEntries hm hr, .inl (moved_value hm)⟩
    · exact ⟨drop_ofEntries noRefs_ofEntries hr, .inr (not_usable_value hu hd)⟩
  · rintro ds ds' (⟨-, hm⟩ | ⟨hu, rfl⟩) hd
    · exact moved_ofEntries noFlow_ofEntries hm hd
    · exact drop_ofEntries noFlow_ofEntries hd

/-- **C70.** The same for regrouping a map by a selector: in each changed map the entries are regrouped, or those that do not stay are lost because the
name of the new map is taken. -/
theorem C70_regroup (Γ : Nat → Ty) (d : Document) (path : YamlPath) {old sel new : Str} {keeps : List Str} {n : Nat} (ho : CleanKey old)
    (hsel : CleanKey sel) (hnew : CleanKey new) (h : (d.moveToMap path old sel new keeps).1 = .ok n) (hr : DocNoRefs d)
    (hfl : ∀ y ∈ yamlItems d, NoFlow y) {v : SVal} (hv : DocHasValue Γ d v) :
    ∃ v', DocHasValue Γ (d.moveToMap path old sel new keeps).2 v' ∧
      ValueEdits (fun es es' => ((∀ x, (.str new, x) ∉ es) ∧ RegroupsPairs old sel new keeps es es') ∨ LosesGroups old sel new keeps es es') n v v' := by
  have he := (docEdits_noFlow ?_ (C27_move_to_map d path ho hsel hnew h) hfl).2
  · refine (docEdits_value ?_ Γ he hr hv).2
    rintro ds ds' ⟨⟨hn, hm⟩ | ⟨hn, hm⟩, hd⟩ hr
    · exact ⟨regrouped_ofEntries noRefs_ofEntries hm hr, .inl ⟨not_mem_hashVals hn, regrouped_value hm hr hd⟩⟩
    · exact ⟨groupsLost_ofEntries noRefs_ofEntries hm hr, .inr (groupsLost_value hn hm hr hd)⟩
  · rintro ds ds' (⟨-, hm⟩ | ⟨-, hm⟩) hd
    · exact regrouped_ofEntries noFlow_ofEntries hm hd
    · exact groupsLost_ofEntries noFlow_ofEntries hm hd

/-! ## nothing is lost -/

theorem pairOf_append (k : Str) (a b : List (SVal × SVal)) : pairOf k (a ++ b) = (pairOf k a).or (pairOf k b) := by
  induction a with
  | nil => rfl
  | cons e t ih =>
    obtain ⟨x, v⟩ := e
    cases x <;> simp only [List.cons_append, pairOf] <;> try exact ih
    split
    · rfl
    · exact ih

theorem pairOf_none {k : Str} {es : List (SVal × SVal)} (h : ∀ w, (.str k, w) ∉ es) : pairOf k es = none := by
  induction es with
  | nil => rfl
  | cons e t ih =>
    obtain ⟨x, v⟩ := e
    have := ih fun w hw => h w (by simp [hw])
    cases x <;> simp only [pairOf] <;> try exact this
    rw [if_neg (fun e => h v (by simp [e])), this]

theorem pairOf_first {k : Str} {es pre post : List (SVal × SVal)} {x : SVal} (h : FirstPair k es pre x post) : pairOf k es = some x := by
  obtain ⟨rfl, hn⟩ := h
  rw [pairOf_append, pairOf_none hn]
  simp [pairOf]

theorem pairOf_dropPairs {k : Str} {ks : List Str} (h : k ∉ ks) (es : List (SVal × SVal)) : pairOf k (dropPairs ks es) = pairOf k es := by
  induction es generalizing ks with
  | nil => rfl
  | cons e t ih =>
    obtain ⟨x, v⟩ := e
    cases x <;> simp only [dropPairs, pairOf] <;> try exact ih h
    rename_i s
    by_cases hs : s ∈ ks
    · have : s ≠ k := fun e => h (e ▸ hs)
      rw [if_pos hs, if_neg this, ih fun hm => h (List.mem_filter.1 hm).1]
    · rw [if_neg hs]
      simp only [pairOf, ih h]

theorem pairOf_putPair_self (k : Str) (x : SVal) (es : List (SVal × SVal)) : pairOf k (putPair k x es) = some x := by
  induction es with
  | nil => simp [putPair, pairOf]
  | cons e t ih =>
    obtain ⟨y, v⟩ := e
    cases y <;> simp only [putPair, pairOf] <;> try exact ih
    split
    · simp [pairOf]
    · rename_i h; simp only [pairOf, if_neg h, ih]

theorem pairOf_putPair_other {k j : Str} (h : j ≠ k) (x : SVal) (es : List (SVal × SVal)) : pairOf j (putPair k x es) = pairOf j es := by
  induction es with
  | nil => simp [putPair, pairOf, Ne.symm h]
  | cons e t ih =>
    obtain ⟨y, v⟩ := e
    cases y <;> simp only [putPair, pairOf] <;> try exact ih
    rename_i s
    by_cases hs : s = k
    · subst hs; simp [pairOf, Ne.symm h]
    · rw [if_neg hs]; simp only [pairOf, ih]

theorem pairOf_putPairs {k : Str} {x : SVal} {kvs : List (Str × SVal)} (hm : (k, x) ∈ kvs) (hu : ∀ y, (k, y) ∈ kvs → y = x) (es : List (SVal × SVal)) :
    pairOf k (kvs.foldl (fun sd kv => putPair kv.1 kv.2 sd) es) = some x := by
  have other : ∀ {kvs : List (Str × SVal)}, (∀ y, (k, y) ∉ kvs) → ∀ es, pairOf k (kvs.foldl (fun sd kv => putPair kv.1 kv.2 sd) es) = pairOf k es := by
    intro kvs
    induction kvs with
    | nil => intro _ es; rfl
    | cons kv t ih =>
      intro h es
      rw [List.foldl_cons, ih (fun y hy => h y (by simp [hy])), pairOf_putPair_other]
      rintro rfl
      exact h kv.2 (by simp)
  induction kvs generalizing es with
  | nil => simp at hm
  | cons kv t ih =>
    rw [List.foldl_cons]
    by_cases ht : ∃ y, (k, y) ∈ t
    · obtain ⟨y, hy⟩ := ht
      have := hu y (by simp [hy])
      subst this
      exact ih hy (fun z hz => hu z (by simp [hz])) _
    · rw [other (fun y hy => ht ⟨y, hy⟩)]
      rcases List.mem_cons.1 hm with e | hm
      · subst e; exact pairOf_putPair_self ..
      · exact absurd ⟨x, hm⟩ ht

theorem mem_foundPairs {fields : List Str} {es : List (SVal × SVal)} {k : Str} {y : SVal} (h : (k, y) ∈ foundPairs fields es) :
    k ∈ fields ∧ pairOf k es = some y := by
  obtain ⟨j, hj, h⟩ := List.mem_filterMap.1 h
  cases hp : pairOf j es with
  | none => rw [hp] at h; cases h
  | some w => rw [hp] at h; cases h; exact ⟨hj, hp⟩

theorem foundPairs_mem {fields : List Str} {es : List (SVal × SVal)} {k : Str} {y : SVal} (hk : k ∈ fields) (h : pairOf k es = some y) :
    (k, y) ∈ foundPairs fields es := List.mem_filterMap.2 ⟨k, hk, by rw [h]; rfl⟩

/-- **C70.** Moving loses nothing: each listed field has its value under the subfield, the other entries of the subfield are kept, and every other field has the
value it had. -/
theorem C70_nothing_lost {sub : Str} {fields : List Str} {es es' : List (SVal × SVal)} (hs : sub ∉ fields) (h : MovesPairs sub fields es es') :
    (∃ sd', pairOf sub es' = some (.map sd') ∧ (∀ k x, k ∈ fields → pairOf k es = some x → pairOf k sd' = some x) ∧
      ∀ sd, pairOf sub es = some (.map sd) → ∀ k, k ∉ fields → pairOf k sd' = pairOf k sd) ∧
    ∀ k, k ∉ fields → k ≠ sub → pairOf k es' = pairOf k es := by
  have other : ∀ {k : Str} {kvs : List (Str × SVal)}, (∀ y, (k, y) ∉ kvs) → ∀ es, pairOf k (kvs.foldl (fun sd kv => putPair kv.1 kv.2 sd) es) = pairOf k es := by
    intro k kvs
    induction kvs with
    | nil => intro _ es; rfl
    | cons kv t ih =>
      intro h es
      rw [List.foldl_cons, ih (fun y hy => h y (by simp [hy])), pairOf_putPair_other]
      rintro rfl
      exact h kv.2 (by simp)
  cases h with
  | @existing pre sd post h =>
    refine ⟨⟨_, ?_, fun k x hk hx => pairOf_putPairs (foundPairs_mem hk hx) (fun y hy => ?_) sd, fun sd0 h0 k hk => ?_⟩, fun k hk hne => ?_⟩
    · rw [pairOf_dropPairs hs, pairOf_append, pairOf_none h.2]; simp [pairOf]
    · have := (mem_foundPairs hy).2
      rw [hx] at this
      exact (Option.some.inj this).symm
    · rw [pairOf_first h] at h0
      cases h0
      exact other (fun y hy => hk (mem_foundPairs hy).1) sd
    · rw [pairOf_dropPairs hk, h.1, pairOf_append, pairOf_append]
      simp only [pairOf, if_neg (Ne.symm hne)]
  | new h =>
    have hfound : ∀ k, ∀ kvs : List (Str × SVal), pairOf k (kvs.map fun kv => (.str kv.1, kv.2)) = (kvs.find? fun kv => kv.1 = k).map (·.2) := by
      intro k kvs
      induction kvs with
      | nil => rfl
      | cons kv t ih =>
        simp only [List.map_cons, pairOf, List.find?_cons]
        by_cases hk : kv.1 = k
        · simp [hk]
        · simp [hk, ih]
    refine ⟨⟨(foundPairs fields es).map fun kv => (.str kv.1, kv.2), ?_, fun k x hk hx => ?_, fun sd0 h0 => ?_⟩, fun k hk hne => ?_⟩
    · rw [pairOf_append, pairOf_dropPairs hs, pairOf_none h]; simp [pairOf]
    · rw [hfound]
      cases hf : (foundPairs fields es).find? fun kv => kv.1 = k with
      | none =>
        rw [List.find?_eq_none] at hf
        exact absurd (by simp) (hf (k, x) (foundPairs_mem hk hx))
      | some kv =>
        have h1 := List.find?_some hf
        have h2 := (mem_foundPairs (k := kv.1) (y := kv.2) (List.mem_of_find?_eq_some hf)).2
        simp only [decide_eq_true_eq] at h1
        rw [h1, hx] at h2
        rw [Option.map_some, ← h2]
    · rw [pairOf_none h] at h0; cases h0
    · rw [pairOf_append, pairOf_dropPairs hk]
      simp [pairOf, Ne.symm hne]

/-- **C70.** Regrouping loses nothing: the entries in the old map and in the groups of the new one together are all entries that the old map had, without their
selectors, each once. -/
theorem C70_partition (l : List (Option Str × (SVal × SVal) × (SVal × SVal))) {gs : List Str} (hs : gs.Pairwise Less)
    (hn : ∀ g, g ∈ gs ↔ ∃ x ∈ l, x.1 = some g) :
    (groupPairs l none ++ (gs.map fun g => groupPairs l (some g)).flatten).Perm (l.map fun x => x.2.2) := by
  have hnd : (none :: gs.map some : List (Option Str)).Nodup := by
    rw [List.nodup_cons]
    refine ⟨by simp, ?_⟩
    rw [List.nodup_iff_pairwise_ne, List.pairwise_map]
    exact hs.imp fun h h' => by cases h'; exact less_irrefl _ h
  have := perm_groups hnd (fun x : (SVal × SVal) × (SVal × SVal) => x.2) l (fun x hx => by
    obtain ⟨o, d⟩ := x
    cases o with
    | none => simp
    | some g => simp [(hn g).2 ⟨_, hx, rfl⟩])
  simp only [List.map_cons, List.flatten_cons, List.map_map] at this
  exact this

/-- **C70.** The same for texts: a simple document with no references and no flow collections, if no mapping becomes empty. The text of the moved document has the
value that is described above. -/
theorem C70_move_text (T : CharTables) (Γ : Nat → Ty) (s : Str) (d : Document) (path : YamlPath) {sub : Str} {fields : List Str}
    (hp : parseYamlFile T s = .ok d) (hd : SimpleDocument T d) (hk : KeyText T sub) (hsub : CleanKey sub) (hf : ∀ k ∈ fields, CleanKey k) (hn : fields.Nodup)
    (hs : sub ∉ fields) (hr : DocNoRefs d) (hfl : ∀ y ∈ yamlItems d, NoFlow y)
    (he : ∀ y, DocumentData.yaml y ∈ (d.moveToSubfield path sub fields).2.items → NoEmptyMapping y) :
    ∃ n m m' v v', (d.moveToSubfield path sub fields).1 = .ok n ∧ fromYamlStr T Γ m .any s = .ok v ∧
      fromYamlStr T Γ m' .any (d.moveToSubfield path sub fields).2.format = .ok v' ∧
      ValueEdits (fun es es' => MovesPairs sub fields es es' ∨ LosesPairs sub fields es es') n v v' := by
  obtain ⟨root, hroot, -⟩ := (C47_text T Γ 0 .any s).1 d hp
  obtain ⟨v, hv, -⟩ := C65_has_value Γ d hr hroot
  obtain ⟨n, hok⟩ := C26_succeeds d path (clean_path hsub) fun k hk => clean_path (hf k hk)
  obtain ⟨v', hv', hed⟩ := C70_move Γ d path hsub hf hn hs hok hr hfl hv
  obtain ⟨m, h1⟩ := (docHasValue_text T Γ hp v).1 hv
  obtain ⟨m', h2⟩ := (docHasValue_text T Γ ((C55_simple_move d path hd hk hsub hf hn hs).2 he) v').1 hv'
  exact ⟨n, m, m', v, v', hok, h1, h2, hed⟩

/-! ## examples -/

/-- The document of the examples. -/
def movable : Document := docOf (.hash [kv c!"jobs" (.hash [
  kv c!"a" (.hash [kv c!"kind" (plain c!"fast"), kv c!"n" (plain c!"1")]),
  kv c!"b" (.hash [kv c!"n" (plain c!"2"), kv c!"kind" (plain c!"slow")]),
  kv c!"c" (.hash [kv c!"kind" (plain c!"main"), kv c!"n" (plain c!"3")])])])

theorem movable_parsed : parseYamlFile asciiTables c!"---\njobs:\n  a:\n    kind: fast\n    n: 1\n  b:\n    n: 2\n    kind: slow\n  c:\n    kind: main\n    n: 3\n" = .ok movable := by
  kernel_rfl

theorem movable_noRefs : DocNoRefs movable := by
  intro y hy
  simp only [yamlItems, movable, docOf, List.filterMap_cons, List.filterMap_nil, List.mem_singleton] at hy
  subst hy
  refine noRefs_map rfl fun k w hw => ?_
  simp only [entriesOf, kv, List.filterMap_cons, List.filterMap_nil, List.mem_singleton, Prod.mk.injEq] at hw
  obtain ⟨-, rfl⟩ := hw
  refine noRefs_map rfl fun k w hw => ?_
  simp only [entriesOf, kv, List.filterMap_cons, List.filterMap_nil, List.mem_cons, List.not_mem_nil, or_false, Prod.mk.injEq] at hw
  rcases hw with ⟨-, rfl⟩ | ⟨-, rfl⟩ | ⟨-, rfl⟩ <;> refine noRefs_map rfl fun k w hw => ?_ <;>
    simp only [entriesOf, kv, List.filterMap_cons, List.filterMap_nil, List.mem_cons, List.not_mem_nil, or_false, Prod.mk.injEq] at hw <;>
    rcases hw with ⟨-, rfl⟩ | ⟨-, rfl⟩ <;> exact noRefs_scalar rfl

theorem movable_noFlow : ∀ y ∈ yamlItems movable, NoFlow y := by
  intro y hy
  simp only [yamlItems, movable, docOf, List.filterMap_cons, List.filterMap_nil, List.mem_singleton] at hy
  subst hy
  refine .hash ?_
  simp only [kv, plain, List.mem_singleton, HashData.element.injEq, HashElement.mk.injEq, AliasedYaml.mk.injEq, and_imp]
  rintro _ _ _ rfl rfl rfl
  refine .hash ?_
  simp only [List.mem_cons, HashData.element.injEq, HashElement.mk.injEq, AliasedYaml.mk.injEq, List.not_mem_nil, or_false]
  rintro _ _ _ (⟨rfl, rfl, rfl⟩ | ⟨rfl, rfl, rfl⟩ | ⟨rfl, rfl, rfl⟩) <;> refine .hash ?_ <;>
    simp only [List.mem_cons, HashData.element.injEq, HashElement.mk.injEq, AliasedYaml.mk.injEq, List.not_mem_nil, or_false] <;>
    rintro _ _ _ (⟨rfl, rfl, rfl⟩ | ⟨rfl, rfl, rfl⟩) <;> exact .unquoted _

/-- A move and a regrouping of this document, which meet the hypotheses, and what the texts of the results deserialize to. -/
theorem C70_example (Γ : Nat → Ty) :
    let q := movable.moveToSubfield (.key c!"jobs" [] (some (.key c!"a" [] none))) c!"opts" [c!"n", c!"x"]
    let r := movable.moveToMap (.root []) c!"jobs" c!"kind" c!"groups" [c!"main"]
    CleanKey c!"opts" ∧ (∀ k ∈ [c!"n", c!"x"], CleanKey k) ∧ CleanKey c!"jobs" ∧ CleanKey c!"kind" ∧ CleanKey c!"groups" ∧
    DocNoRefs movable ∧ (∀ y ∈ yamlItems movable, NoFlow y) ∧ q.1 = .ok 1 ∧ r.1 = .ok 1 ∧
    fromYamlStr asciiTables Γ 9 .any q.2.format = .ok (.map [(.str c!"jobs", .map [
      (.str c!"a", .map [(.str c!"kind", .str c!"fast"), (.str c!"opts", .map [(.str c!"n", .int 1)])]),
      (.str c!"b", .map [(.str c!"n", .int 2), (.str c!"kind", .str c!"slow")]),
      (.str c!"c", .map [(.str c!"kind", .str c!"main"), (.str c!"n", .int 3)])])]) ∧
    fromYamlStr asciiTables Γ 9 .any r.2.format = .ok (.map [(.str c!"jobs", .map [(.str c!"c", .map [(.str c!"n", .int 3)])]),
      (.str c!"groups", .map [(.str c!"fast", .map [(.str c!"a", .map [(.str c!"n", .int 1)])]),
        (.str c!"slow", .map [(.str c!"b", .map [(.str c!"n", .int 2)])])])]) := by
  refine ⟨cleanText (by decide), by simp only [List.mem_cons, List.not_mem_nil, or_false]; rintro k (rfl | rfl) <;> exact cleanText (by decide),
    cleanText (by decide), cleanText (by decide), cleanText (by decide), movable_noRefs, movable_noFlow, ?_, ?_, ?_, ?_⟩ <;> kernel_rfl

/-- With flow maps it is not all: a flow map is a map of the data, and is not one that fields are moved from. -/
theorem C70_counterexample_flow (Γ : Nat → Ty) :
    ∃ d v, parseYamlFile asciiTables c!"---\na: {x: 1}\nb: 2\n" = .ok d ∧ fromYamlStr asciiTables Γ 5 .any c!"---\na: {x: 1}\nb: 2\n" = .ok v ∧
      v = .map [(.str c!"a", .map [(.str c!"x", .int 1)]), (.str c!"b", .int 2)] ∧
      (d.moveToSubfield (.root []) c!"a" [c!"b"]).1 = .ok 1 ∧
      fromYamlStr asciiTables Γ 5 .any (d.moveToSubfield (.root []) c!"a" [c!"b"]).2.format = .ok (.map [(.str c!"a", .map [(.str c!"x", .int 1)])]) :=
  ⟨docOf (.hash [kv c!"a" (.inlineHash [(c!"x", plain c!"1")]), kv c!"b" (plain c!"2")]), _, by kernel_rfl, by kernel_rfl, rfl, by kernel_rfl, by kernel_rfl⟩

end YamlSubset
