import Verif.Lemmas.Field
import Verif.Lemmas.RoundTripExact
import Verif.Props.Unread
import Verif.Props.De

/-! # Setting a field and reading at a type (C67) -/

namespace YamlSubset

open Spec

theorem docReads_change {Γ : Nat → Ty} {ty t : Ty} {p : YamlPath} {e : Bool} {f : Closure} {c : Change} (C : ChangeEdit Γ f c t e)
    (hl : Leads Γ ty p t e) {d d' : Document} (hd : d' = (d.overItems (Yaml.editHash f p)).2) (hr : DocNoRefs d) (hr' : DocNoRefs d')
    (hb : ∀ y ∈ yamlItems d, BlockAlong p y) {v : SVal} (hv : DocReads Γ ty d v) : DocReads Γ ty d' (changeAt c p v) := by
  obtain ⟨root, n, hroot, hv⟩ := hv
  have h1 : NoRefs root := hr root (by rw [hroot]; simp)
  have hitems : yamlItems d' = [(Yaml.editHash f p root).2] := by rw [hd, overItems_items, hroot]; rfl
  have h2 : NoRefs (Yaml.editHash f p root).2 := hr' _ (by rw [hitems]; simp)
  have := change_decodes C hl root (hb root (by rw [hroot]; simp)) v ((C51_deserialize_exact Γ ty h1 v).1 ⟨n, hv⟩)
  obtain ⟨m, hm⟩ := (C51_deserialize_exact Γ ty h2 _).2 this
  exact ⟨_, m, hitems, hm⟩

/-- **C67.** Set fields and read: after a value was inserted (with overwriting) at a path that leads to fields of a type, the document is
read as the old value with these fields set to what the inserted value is read as. -/
theorem C67_set (Γ : Nat → Ty) (ty t : Ty) (p : YamlPath) (e : Bool) (hl : Leads Γ ty p t e) (h : AliasedYaml) (hh : ∀ b, ¬RefersTo h.value b)
    (x : SVal) (hx : ∃ n, fromYaml Γ n t h.value = .ok x) (d : Document) (hr : DocNoRefs d) (hb : ∀ y ∈ yamlItems d, BlockAlong p y)
    (v : SVal) (hv : DocReads Γ ty d v) : DocReads Γ ty (d.insertIntoHash p h true).2 (changeAt (.set x) p v) := by
  have hroot := hv
  obtain ⟨root, -, hroot, -⟩ := hroot
  refine docReads_change (changeSet ((C51_deserialize_exact Γ t hh x).1 hx) e) hl rfl hr ?_ hb hv
  exact run_noRefs (e := .insert p h true) (leads_last hl) hh hr hroot

/-- **C67.** The same for a value that is serialized: it is read back as it was (if it is one that serialization keeps, C09). -/
theorem C67_set_serialized (Γ : Nat → Ty) (ty t : Ty) (p : YamlPath) (e : Bool) (hl : Leads Γ ty p t e) (x : SVal) (ht : HasTy Γ t x) (hx : Lossless x)
    (y : Yaml) (hy : x.ser = some y) (d : Document) (hr : DocNoRefs d) (hb : ∀ y ∈ yamlItems d, BlockAlong p y) (v : SVal) (hv : DocReads Γ ty d v) :
    DocReads Γ ty (d.insertIntoHash p ⟨none, y⟩ true).2 (changeAt (.set x) p v) := by
  obtain ⟨n, hn⟩ := C09_typed_roundtrip Γ t x ht hx y hy
  exact C67_set Γ ty t p e hl ⟨none, y⟩ (noRefs_ser ht hy) x ⟨n, hn n (Nat.le_refl n)⟩ d hr hb v hv

/-- **C67.** Unset fields and read: after the entries at a path were removed, optional fields are `None`, and entries of maps are gone. -/
theorem C67_unset (Γ : Nat → Ty) (ty t : Ty) (p : YamlPath) (e : Bool) (hl : Leads Γ ty p t e) (ht : e = false → OptionTy Γ t)
    (d : Document) (hr : DocNoRefs d) (hb : ∀ y ∈ yamlItems d, BlockAlong p y) (v : SVal) (hv : DocReads Γ ty d v) :
    DocReads Γ ty (d.removeFromHash p).2 (changeAt .unset p v) := by
  have hroot := hv
  obtain ⟨root, -, hroot, -⟩ := hroot
  refine docReads_change (changeUnset ht) hl rfl hr ?_ hb hv
  exact run_noRefs (e := .remove p) (leads_last hl) trivial hr hroot

/-- **C67.** From text to text: the text is parsed, the field is set, and the document is written. The written text must be readable as the
edited document (C55 says when this is so). -/
theorem C67_set_text (T : CharTables) (Γ : Nat → Ty) (ty t : Ty) (p : YamlPath) (e : Bool) (hl : Leads Γ ty p t e) (h : AliasedYaml)
    (hh : ∀ b, ¬RefersTo h.value b) (x : SVal) (hx : ∃ n, fromYaml Γ n t h.value = .ok x) (s : Str) (d : Document) (hs : parseYamlFile T s = .ok d)
    (hw : parseYamlFile T (d.insertIntoHash p h true).2.format = .ok (d.insertIntoHash p h true).2) (hr : DocNoRefs d)
    (hb : ∀ y ∈ yamlItems d, BlockAlong p y) (v : SVal) (hv : ∃ n, fromYamlStr T Γ n ty s = .ok v) :
    ∃ n, fromYamlStr T Γ n ty (d.insertIntoHash p h true).2.format = .ok (changeAt (.set x) p v) := by
  rw [← docReads_text T Γ ty hs] at hv
  rw [← docReads_text T Γ ty hw]
  exact C67_set Γ ty t p e hl h hh x hx d hr hb v hv

/-! ## Reading what was set -/

theorem stripped_through (F : SVal → SVal) (hF : ∀ v, stripped v = v → stripped (F v) = F v) (v : SVal) :
    stripped (through F v) = F (stripped v) := by
  fun_induction through F v with
  | case1 v ih => exact ih
  | case2 v ih => exact ih
  | case3 v h1 h2 =>
    have hv : stripped v = v := by
      unfold stripped
      split
      · exact absurd rfl (h1 _)
      · exact absurd rfl (h2 _)
      · rfl
    rw [hv, hF v hv]

theorem lookup_inField (k : Str) (g : SVal → SVal) (vs : List (Str × SVal)) (k' : Str) :
    (inField k g vs).lookup k' = (vs.lookup k').map fun v => if k' = k then g v else v := by
  induction vs with
  | nil => rfl
  | cons e t ih =>
    obtain ⟨k0, v0⟩ := e
    simp only [inField, List.map_cons] at ih ⊢
    by_cases h0 : k0 = k
    · subst h0
      simp only [if_true, List.lookup_cons]
      by_cases h1 : k' = k0
      · subst h1; simp
      · have : (k' == k0) = false := by simp [h1]
        rw [this]
        exact ih
    · simp only [h0, if_false, List.lookup_cons]
      by_cases h1 : k' = k0
      · subst h1; simp [h0]
      · have : (k' == k0) = false := by simp [h1]
        rw [this]
        exact ih

theorem pairAt_inPair (k : Str) (g : SVal → SVal) (es : List (SVal × SVal)) : pairAt k (inPair k g es) = (pairAt k es).map g := by
  fun_induction inPair k g es <;> simp_all [pairAt]

theorem pairAt_setPair (k : Str) (x : SVal) (es : List (SVal × SVal)) : pairAt k (setPair k x es) = some x := by
  fun_induction setPair k x es <;> simp_all [pairAt]

/-- **C67.** What is set is what is at the path afterwards, if there was something before. -/
theorem C67_value_at (x : SVal) (p : YamlPath) (v : SVal) (h : (valueAt p v).isSome) : valueAt p (changeAt (.set x) p v) = some x := by
  fun_induction valueAt p v with
  | case1 k cs v vs hs =>
    simp only [changeAt, valueAt]
    rw [stripped_through _ (by intro v hv; split <;> first | rfl | exact hv), hs]
    simp only [lookup_inField]
    cases hl : vs.lookup k with
    | none => simp [hl] at h
    | some u => simp [Change.value]
  | case2 k cs v es hs =>
    simp only [changeAt, valueAt]
    rw [stripped_through _ (by intro v hv; split <;> first | rfl | exact hv), hs]
    exact pairAt_setPair k x es
  | case3 => simp at h
  | case4 k cs p v vs hs ih =>
    simp only [changeAt, valueAt]
    rw [stripped_through _ (by intro v hv; split <;> first | rfl | exact hv), hs]
    simp only [lookup_inField]
    cases hl : vs.lookup k with
    | none => simp [hl] at h
    | some u =>
      simp only [hl, Option.bind_some] at h
      simp only [Option.map_some, if_true, Option.bind_some]
      exact ih u h
  | case5 k cs p v es hs ih =>
    simp only [changeAt, valueAt]
    rw [stripped_through _ (by intro v hv; split <;> first | rfl | exact hv), hs]
    simp only [pairAt_inPair]
    cases hl : pairAt k es with
    | none => simp [hl] at h
    | some u =>
      simp only [hl, Option.bind_some] at h
      simp only [Option.map_some, Option.bind_some]
      exact ih u h
  | case6 => simp at h
  | case7 i cs p v vs hs ih =>
    simp only [changeAt, valueAt]
    rw [stripped_through _ (by intro v hv; split <;> first | rfl | exact hv), hs]
    simp only [List.foldl_cons, List.foldl_nil, List.getElem?_modify, if_true]
    cases hl : vs[i]? with
    | none => simp [hl] at h
    | some u =>
      simp only [hl, Option.bind_some] at h
      exact ih u h
  | case8 => simp at h
  | case9 => simp at h

/-! ## Examples -/

/-- The size of the second job. -/
def sizePath : YamlPath := .key c!"jobs" [] (some (.indexes [1] [] (some (.key c!"size" [] none))))

theorem C67_example_leads (Γ : Nat → Ty) : Leads Γ jobsTy sizePath (.option (.int .u8)) false :=
  .inField rfl (.some (by simp) (.field rfl (by simp)))

/-- Two jobs, the second one without a size. -/
def sizedDoc : Document := docOf (.hash [kv c!"jobs" (.array [elem (.hash [kv c!"name" (plain c!"a"), kv c!"size" (plain c!"3")]),
  elem (.hash [kv c!"name" (plain c!"b"), .inlineComment c!" last"])])])

/-- What they are read as. -/
def jobsVal (size : SVal) : SVal :=
  .struct [(c!"jobs", .seq [.struct [(c!"name", .str c!"a"), (c!"size", .some (.int 3))], .struct [(c!"name", .str c!"b"), (c!"size", size)]])]

theorem C67_example_hypotheses : DocNoRefs sizedDoc ∧ ∀ y ∈ yamlItems sizedDoc, BlockAlong sizePath y := by
  have hi : yamlItems sizedDoc = [.hash [kv c!"jobs" (.array [elem (.hash [kv c!"name" (plain c!"a"), kv c!"size" (plain c!"3")]),
      elem (.hash [kv c!"name" (plain c!"b"), .inlineComment c!" last"])])]] := rfl
  constructor
  · intro y hy
    rw [hi, List.mem_singleton] at hy
    subst hy
    refine noRefs_map rfl fun k w hw => ?_
    simp only [entriesOf, kv, List.filterMap_cons, List.filterMap_nil, List.mem_singleton, Prod.mk.injEq] at hw
    obtain ⟨-, rfl⟩ := hw
    refine noRefs_seq rfl fun w hw => ?_
    simp only [elementsOf, elem, List.filterMap_cons, List.filterMap_nil, List.mem_cons, List.not_mem_nil, or_false] at hw
    rcases hw with rfl | rfl <;> refine noRefs_map rfl fun k w hw => ?_ <;>
      simp only [entriesOf, kv, List.filterMap_cons, List.filterMap_nil, List.mem_cons, List.not_mem_nil, or_false, Prod.mk.injEq] at hw
    · rcases hw with ⟨-, rfl⟩ | ⟨-, rfl⟩ <;> exact noRefs_plain _
    · obtain ⟨-, rfl⟩ := hw
      exact noRefs_plain _
  · intro y hy
    rw [hi, List.mem_singleton] at hy
    subst hy
    simp only [sizePath, BlockAlong, mapPairs, entriesOf, kv]
    refine ⟨by simp, fun es w he hw => ?_⟩
    cases he
    simp only [List.filterMap_cons, List.filterMap_nil, List.mem_singleton, Prod.mk.injEq, true_and] at hw
    subst hw
    intro ys w he hw
    cases he
    simp only [elementsOf, elem, List.filterMap_cons, List.filterMap_nil, List.mem_cons, List.not_mem_nil, or_false] at hw
    rcases hw with rfl | rfl <;> simp

theorem C67_example (Γ : Nat → Ty) :
    parseYamlFile asciiTables c!"---\njobs:\n  - name: a\n    size: 3\n  - name: b # last\n" = .ok sizedDoc ∧
    fromYamlStr asciiTables Γ 9 jobsTy c!"---\njobs:\n  - name: a\n    size: 3\n  - name: b # last\n" = .ok (jobsVal .none) ∧
    (sizedDoc.insertIntoHash sizePath ⟨none, plain c!"7"⟩ true).2.format = c!"---\njobs:\n  - name: a\n    size: 3\n  - name: b # last\n    size: 7" ∧
    fromYaml Γ 9 (.option (.int .u8)) (plain c!"7") = .ok (.some (.int 7)) ∧
    changeAt (.set (.some (.int 7))) sizePath (jobsVal .none) = jobsVal (.some (.int 7)) ∧
    fromYamlStr asciiTables Γ 9 jobsTy (sizedDoc.insertIntoHash sizePath ⟨none, plain c!"7"⟩ true).2.format = .ok (jobsVal (.some (.int 7))) :=
  ⟨by kernel_rfl, by kernel_rfl, by kernel_rfl, by kernel_rfl, by kernel_rfl, by kernel_rfl⟩

theorem C67_example_reads (Γ : Nat → Ty) : DocReads Γ jobsTy sizedDoc (jobsVal .none) := ⟨_, 9, rfl, by kernel_rfl⟩

/-- All hypotheses are met: the size of the second job is set, and removed again. -/
theorem C67_example_applied (Γ : Nat → Ty) :
    DocReads Γ jobsTy (sizedDoc.insertIntoHash sizePath ⟨none, plain c!"7"⟩ true).2 (jobsVal (.some (.int 7))) ∧
    DocReads Γ jobsTy (sizedDoc.removeFromHash sizePath).2 (jobsVal .none) :=
  ⟨C67_set Γ jobsTy (.option (.int .u8)) sizePath false (C67_example_leads Γ) ⟨none, plain c!"7"⟩ (noRefs_plain _) (.some (.int 7)) ⟨9, by kernel_rfl⟩
      sizedDoc C67_example_hypotheses.1 C67_example_hypotheses.2 (jobsVal .none) (C67_example_reads Γ),
    C67_unset Γ jobsTy (.option (.int .u8)) sizePath false (C67_example_leads Γ) (fun _ => .inl ⟨_, rfl⟩) sizedDoc C67_example_hypotheses.1
      C67_example_hypotheses.2 (jobsVal .none) (C67_example_reads Γ)⟩

/-- **C67 (limit).** A field that is not optional cannot be unset: then the document is not read any more. -/
theorem C67_counterexample_required (Γ : Nat → Ty) :
    let y : Yaml := .hash [kv c!"a" (plain c!"1"), kv c!"b" (plain c!"2")]
    let ty : Ty := .struct [(c!"a", .int .u8), (c!"b", .int .u8)]
    fromYaml Γ 5 ty y = .ok (.struct [(c!"a", .int 1), (c!"b", .int 2)]) ∧ fromYaml Γ 5 ty (Yaml.removeFromHash (.key c!"a" [] none) y).2 = .err :=
  ⟨by kernel_rfl, by kernel_rfl⟩

/-- **C67 (limit).** With references: the value that is replaced can have the definition that another field refers to. -/
theorem C67_counterexample_references (Γ : Nat → Ty) :
    let y : Yaml := .hash [.element ⟨c!"a", ⟨some c!"x", plain c!"1"⟩⟩, kv c!"b" (.anchor c!"x")]
    let ty : Ty := .struct [(c!"a", .int .u8), (c!"b", .int .u8)]
    fromYaml Γ 5 ty y = .ok (.struct [(c!"a", .int 1), (c!"b", .int 1)]) ∧
    fromYaml Γ 5 ty (Yaml.insertIntoHash (.key c!"a" [] none) ⟨none, plain c!"2"⟩ true y).2 = .err :=
  ⟨by kernel_rfl, by kernel_rfl⟩

/-- **C67 (limit).** In a flow mapping nothing is set. -/
theorem C67_counterexample_flow (Γ : Nat → Ty) :
    (Yaml.insertIntoHash (.key c!"a" [] none) ⟨none, plain c!"2"⟩ true (.inlineHash [(c!"a", plain c!"1")])) = (0, .inlineHash [(c!"a", plain c!"1")]) ∧
    fromYaml Γ 5 (.struct [(c!"a", .int .u8)]) (.inlineHash [(c!"a", plain c!"1")]) = .ok (.struct [(c!"a", .int 1)]) :=
  ⟨by kernel_rfl, by kernel_rfl⟩

end YamlSubset
