import Verif.Lemmas.Order
import Verif.Props.Unread
import Verif.Props.MoveLines
import Verif.Lemmas.KernelRfl

/-! # C81: the order of the entries of mappings does not matter to deserialization -/

namespace YamlSubset

open Spec

variable {T : CharTables}

namespace Ord

theorem child_parts {c y : Yaml} (h : Child c y) : (∃ ys, seqElements y = some ys ∧ c ∈ ys) ∨ ∃ es k, mapPairs y = some es ∧ (k, c) ∈ es := by
  cases h with
  | inlineHash h => exact .inr ⟨_, _, rfl, h⟩
  | hash h =>
    obtain ⟨⟨k, _⟩, hm, rfl⟩ := List.mem_map.1 (entriesOf_of_child (.hash h))
    exact .inr ⟨_, k, rfl, hm⟩
  | inlineArray h => exact .inl ⟨_, rfl, h⟩
  | array h => exact .inl ⟨_, rfl, elementsOf_of_child (.array h)⟩

/-- References are not lost or added. -/
theorem noRefs_reordered {y y' : Yaml} (h : Reordered y y') (hy : NoRefs y) : NoRefs y' := by
  induction h with
  | same => exact hy
  | @seq y y' ys ys' hs hs' hl h ih =>
    refine (noRefs_iff y').2 ⟨fun a ha => by rw [ha] at hs'; simp [seqElements, mapPairs] at hs', fun c hc => ?_⟩
    rcases child_parts hc with ⟨zs, hz, hm⟩ | ⟨es, k, hz, hm⟩
    · rw [hs'] at hz
      cases hz
      obtain ⟨i, hi⟩ := List.mem_iff_getElem?.1 hm
      obtain ⟨w, hw⟩ := partner hl.symm hi
      exact ih i w c hw hi (hy.child (child_seq hs (List.mem_iff_getElem?.2 ⟨i, hw⟩)))
    · cases y' <;> simp [seqElements, mapPairs] at hs' hz
  | @map y y' es es' es₁ hs hs' hl hk h hp ih =>
    refine (noRefs_iff y').2 ⟨fun a ha => by rw [ha] at hs'; simp [seqElements, mapPairs] at hs', fun c hc => ?_⟩
    rcases child_parts hc with ⟨zs, hz, hm⟩ | ⟨zs, k, hz, hm⟩
    · cases y' <;> simp [seqElements, mapPairs] at hs' hz
    · rw [hs'] at hz
      cases hz
      obtain ⟨i, hi⟩ := List.mem_iff_getElem?.1 (hp.mem_iff.2 hm)
      obtain ⟨⟨k', w⟩, hw⟩ := partner hl.symm hi
      exact ih i k' w k c hw hi (hy.child (child_map hs (List.mem_iff_getElem?.2 ⟨i, hw⟩)))

theorem pointwise {α : Type} {R : α → α → Prop} (hr : ∀ a, R a a) {x x' : α} (h : R x x') (B : List α) : ∀ (A : List α) (i : Nat) (a b : α),
    (A ++ x :: B)[i]? = some a → (A ++ x' :: B)[i]? = some b → R a b := by
  intro A
  induction A with
  | nil =>
    intro i a b h1 h2
    cases i with
    | zero => simp at h1 h2; subst h1 h2; exact h
    | succ i => simp at h1 h2; rw [h1] at h2; cases h2; exact hr _
  | cons y A ih =>
    intro i a b h1 h2
    cases i with
    | zero => simp at h1 h2; subst h1 h2; exact hr _
    | succ i => exact ih i a b (by simpa using h1) (by simpa using h2)

theorem split_at {α : Type} {ds : List α} {i : Nat} {d : α} (h : ds[i]? = some d) (d' : α) : ∃ A B, ds = A ++ d :: B ∧ ds.set i d' = A ++ d' :: B := by
  induction ds generalizing i with
  | nil => simp at h
  | cons e ds ih =>
    cases i with
    | zero => simp at h; subst h; exact ⟨[], ds, rfl, rfl⟩
    | succ i =>
      obtain ⟨A, B, h1, h2⟩ := ih (i := i) (by simpa using h)
      exact ⟨e :: A, B, by simp [← h1], by simp [h2]⟩

theorem reordered_changeNode {f : Yaml → Yaml} : ∀ {l : Loc} {y p : Yaml}, nodeAt l y = some p → Reordered p (f p) → Reordered y (changeNode f l y) := by
  intro l
  induction l with
  | nil => intro y p h hr; simp only [nodeAt, Option.some.injEq] at h; subst h; exact hr
  | cons i l ih =>
    intro y p h hr
    rw [nodeAt] at h
    rw [changeNode]
    cases hc : childAt i y with
    | none => rw [hc] at h; cases h
    | some w =>
      rw [hc] at h
      have hr' := ih h hr
      obtain ⟨a, w⟩ := w
      show Reordered y (setChild i ⟨a, changeNode f l w⟩ y)
      have hw : Reordered w (changeNode f l w) := hr'
      cases y with
      | hash ds =>
        simp only [childAt] at hc
        cases hd : ds[i]? with
        | none => simp [hd] at hc
        | some d =>
          cases d with
          | comment c => simp [hd] at hc
          | inlineComment c => simp [hd] at hc
          | element e =>
            obtain ⟨k, v⟩ := e
            simp only [hd, Option.some.injEq] at hc
            subst hc
            obtain ⟨A, B, h1, h2⟩ := split_at hd (.element ⟨k, ⟨a, changeNode f l w⟩⟩)
            have h3 : setChild i ⟨a, changeNode f l w⟩ (.hash ds) = .hash (A ++ .element ⟨k, ⟨a, changeNode f l w⟩⟩ :: B) := by simp [setChild, hd, h2]
            rw [h3, h1]
            have he : ∀ x, entriesOf (A ++ HashData.element ⟨k, ⟨a, x⟩⟩ :: B) = entriesOf A ++ (k, x) :: entriesOf B := fun x => by simp [entriesOf, List.filterMap_append]
            refine .map rfl rfl (es₁ := entriesOf (A ++ .element ⟨k, ⟨a, changeNode f l w⟩⟩ :: B)) ?_ ?_ ?_ (.refl _)
            · rw [he, he]; simp
            · rw [he, he]; exact fun i k w k' w' h1 h2 => pointwise (R := fun a b => a.1 = b.1) (fun _ => rfl) (by simp) _ _ i (k, w) (k', w') h1 h2
            · rw [he, he]; exact fun i k w k' w' h1 h2 => pointwise (R := fun a b => Reordered a.2 b.2) (fun _ => .same) hw _ _ i (k, w) (k', w') h1 h2
      | array ds =>
        simp only [childAt] at hc
        cases hd : ds[i]? with
        | none => simp [hd] at hc
        | some d =>
          cases d with
          | comment c => simp [hd] at hc
          | inlineComment c => simp [hd] at hc
          | element v =>
            simp only [hd, Option.some.injEq] at hc
            subst hc
            obtain ⟨A, B, h1, h2⟩ := split_at hd (.element ⟨a, changeNode f l w⟩)
            have h3 : setChild i ⟨a, changeNode f l w⟩ (.array ds) = .array (A ++ .element ⟨a, changeNode f l w⟩ :: B) := by simp [setChild, hd, h2]
            rw [h3, h1]
            have he : ∀ x, elementsOf (A ++ ArrayData.element ⟨a, x⟩ :: B) = elementsOf A ++ x :: elementsOf B := fun x => by simp [elementsOf, List.filterMap_append]
            refine .seq rfl rfl ?_ ?_
            · rw [he, he]; simp
            · rw [he, he]; exact pointwise (R := Reordered) (fun _ => .same) hw _ _
      | _ => simp [childAt] at hc

/-- Other entries of a block mapping, which are the same up to their order. -/
theorem reordered_hash {ds ds' : List HashData} (h : (entriesOf ds).Perm (entriesOf ds')) : Reordered (.hash ds) (.hash ds') :=
  .map (es₁ := entriesOf ds) rfl rfl rfl (fun i k w k' w' h1 h2 => by rw [h1] at h2; cases h2; rfl)
    (fun i k w k' w' h1 h2 => by rw [h1] at h2; cases h2; exact .same) h

end Ord

/-- **C81** If the entries of the mappings of a tree without references are put in another order, at any depth, then the tree is still read, at every type, and the
value is the same up to the order of the entries of maps. (The fields of a struct are found by their names.) -/
theorem C81_order (Γ : Nat → Ty) (ty : Ty) {y y' : Yaml} (hr : Reordered y y') (hy : ∀ b, ¬RefersTo y b) {v : SVal} (h : ∃ n, fromYaml Γ n ty y = .ok v) :
    ∃ v', SameUpToOrder v v' ∧ ∃ n, fromYaml Γ n ty y' = .ok v' := by
  obtain ⟨v', h1, h2⟩ := Ord.decodes_reordered ((C51_deserialize_exact Γ ty hy v).1 h) hr
  exact ⟨v', h2, (C51_deserialize_exact Γ ty (Ord.noRefs_reordered hr hy) v').2 h1⟩

/-- **C81** If there are no maps (with two or more entries) in the value, it is exactly the same. -/
theorem C81_order_exact (Γ : Nat → Ty) (ty : Ty) {y y' : Yaml} (hr : Reordered y y') (hy : ∀ b, ¬RefersTo y b) {v : SVal} (hv : NoMaps v) :
    (∃ n, fromYaml Γ n ty y = .ok v) ↔ ∃ n, fromYaml Γ n ty y' = .ok v := by
  constructor
  · intro h
    obtain ⟨v', h1, h2⟩ := C81_order Γ ty hr hy h
    rw [Ord.same_eq h1 hv]
    exact h2
  · intro h
    obtain ⟨v', h1, h2⟩ := C81_order Γ ty (Ord.Reordered.symm hr) (Ord.noRefs_reordered hr hy) h
    rw [Ord.same_eq h1 hv]
    exact h2

/-- **C81** If one of the trees is an error, the other one is, too. -/
theorem C81_order_error {Γ : Nat → Ty} (hΓ : Guarded Γ) (ty : Ty) {y y' : Yaml} (hr : Reordered y y') (hy : ∀ b, ¬RefersTo y b)
    (h : ∃ n, ∀ m, n ≤ m → fromYaml Γ m ty y = .err) : ∃ n, ∀ m, n ≤ m → fromYaml Γ m ty y' = .err := by
  obtain ⟨n, hn⟩ := h
  refine C51_deserialize_error hΓ ty (Ord.noRefs_reordered hr hy) fun v hv => ?_
  obtain ⟨v', h1, -⟩ := Ord.decodes_reordered hv (Ord.Reordered.symm hr)
  obtain ⟨k, hk⟩ := (C51_deserialize_exact Γ ty hy v').2 h1
  have e := fromYaml_depth Γ (Nat.le_max_left k n) (ty := ty) (y := y) (by rw [hk]; nofun)
  rw [hk, hn _ (Nat.le_max_right ..)] at e
  cases e

/-- **C81** In the text of a document, in any layout, the lines of two groups of entries of a block mapping, at any depth, are swapped: what every type reads from the text is the
same, up to the order of the entries of maps. -/
theorem C81_swap_lines (T : CharTables) {d x root l pre one two post} (h : DocumentText T d x) (hr : DocumentData.yaml root ∈ d.items)
    (hp : nodeAt l root = some (.hash (pre ++ (one ++ two) ++ post))) (hpre : l = [] ∨ ∃ e, HashData.element e ∈ pre) (h1 : StartsWithEntry one) (h2 : StartsWithEntry two)
    (hpost : StartsWithEntry post) (hno : DocNoRefs d) :
    ∃ A z₁ z₂ B c, x = A ++ z₁ ++ z₂ ++ B ∧ EntryBlocks T c one z₁ ∧ EntryBlocks T c two z₂ ∧ ∀ Γ ty v, (∃ n, fromYamlStr T Γ n ty x = .ok v) →
      ∃ v', SameUpToOrder v v' ∧ ∃ n, fromYamlStr T Γ n ty (A ++ z₂ ++ z₁ ++ B) = .ok v' := by
  obtain ⟨A, z₁, z₂, B, c, hx, hz₁, hz₂, hparse⟩ := C78_swap_entries T h hr hp hpre h1 h2 hpost
  refine ⟨A, z₁, z₂, B, c, hx, hz₁, hz₂, fun Γ ty v hv => ?_⟩
  have hread := (docReads_text T Γ ty (C53_every_layout_parses T _ _ h) v).2 hv
  obtain ⟨root', n, hitems, hroot⟩ := hread
  have hmem : root ∈ yamlItems d := List.mem_filterMap.2 ⟨_, hr, rfl⟩
  rw [hitems] at hmem
  obtain rfl : root = root' := by simpa using hmem
  have hre : Reordered root (changeNode (fun _ => .hash (pre ++ (two ++ one) ++ post)) l root) := by
    refine Ord.reordered_changeNode hp (Ord.reordered_hash ?_)
    simp only [entriesOf, List.filterMap_append]
    exact (List.Perm.append_left _ List.perm_append_comm).append_right _
  obtain ⟨v', h3, h4⟩ := C81_order Γ ty hre (hno root (by rw [hitems]; simp)) ⟨n, hroot⟩
  refine ⟨v', h3, (docReads_text T Γ ty hparse v').1 ?_⟩
  obtain ⟨m, h4⟩ := h4
  refine ⟨_, m, ?_, h4⟩
  have : yamlItems (onTrees (changeNode (fun _ => .hash (pre ++ (two ++ one) ++ post)) l) d) = (yamlItems d).map (changeNode (fun _ => .hash (pre ++ (two ++ one) ++ post)) l) := by
    simp only [yamlItems, onTrees, List.filterMap_map, List.map_filterMap]
    congr 1
    funext i
    cases i <;> rfl
  rw [this, hitems]
  rfl

/-! ## examples -/

/-- A list of structs, with the entries in another order in each of them. -/
example (Γ : Nat → Ty) :
    let ty : Ty := .struct [(c!"n", .int .u8), (c!"jobs", .seq (.struct [(c!"name", .str), (c!"size", .option (.int .i32))]))]
    let y : Yaml := .hash [kv c!"n" (plain c!"1"), kv c!"jobs" (.array [elem (.hash [kv c!"name" (plain c!"a"), .comment c!" c", kv c!"size" (plain c!"2")]),
      elem (.inlineHash [(c!"name", plain c!"b")])])]
    let y' : Yaml := .hash [kv c!"jobs" (.array [elem (.hash [kv c!"size" (plain c!"2"), kv c!"name" (plain c!"a")]), elem (.inlineHash [(c!"name", plain c!"b")])]),
      kv c!"n" (plain c!"1")]
    let v : SVal := .struct [(c!"n", .int 1), (c!"jobs", .seq [.struct [(c!"name", .str c!"a"), (c!"size", .some (.int 2))], .struct [(c!"name", .str c!"b"), (c!"size", .none)]])]
    Reordered y y' ∧ NoMaps v ∧ (∀ b, ¬RefersTo y b) ∧ fromYaml Γ 9 ty y = .ok v ∧ ∃ n, fromYaml Γ n ty y' = .ok v := by
  intro ty y y' v
  have hr : Reordered y y' := by
    refine .map (es₁ := [(c!"n", plain c!"1"), (c!"jobs", (.array [elem (.hash [kv c!"size" (plain c!"2"), kv c!"name" (plain c!"a")]), elem (.inlineHash [(c!"name", plain c!"b")])]))])
      rfl rfl rfl ?_ ?_ (.swap ..)
    · intro i k w k' w' h1 h2
      match i with
      | 0 => cases h1; cases h2; rfl
      | 1 => cases h1; cases h2; rfl
      | i + 2 => cases h1
    · intro i k w k' w' h1 h2
      match i with
      | 0 => cases h1; cases h2; exact .same
      | 1 =>
        cases h1; cases h2
        refine .seq rfl rfl rfl fun j w w' h1 h2 => ?_
        match j with
        | 0 => cases h1; cases h2; exact Ord.reordered_hash (.swap ..)
        | 1 => cases h1; cases h2; exact .same
        | j + 2 => cases h1
      | i + 2 => cases h1
  have hv : NoMaps v := by
    refine .struct fun k v h => ?_
    simp only [List.mem_cons, Prod.mk.injEq, List.not_mem_nil, or_false] at h
    rcases h with ⟨-, rfl⟩ | ⟨-, rfl⟩
    · exact .int _
    · refine .seq fun v h => ?_
      simp only [List.mem_cons, List.not_mem_nil, or_false] at h
      rcases h with rfl | rfl
      · refine .struct fun k v h => ?_
        simp only [List.mem_cons, Prod.mk.injEq, List.not_mem_nil, or_false] at h
        rcases h with ⟨-, rfl⟩ | ⟨-, rfl⟩
        · exact .str _
        · exact .some (.int _)
      · refine .struct fun k v h => ?_
        simp only [List.mem_cons, Prod.mk.injEq, List.not_mem_nil, or_false] at h
        rcases h with ⟨-, rfl⟩ | ⟨-, rfl⟩
        · exact .str _
        · exact .none
  have hn : NoRefs y := by
    have leaf : ∀ s, NoRefs (plain s) := fun s => (noRefs_iff _).2 ⟨by nofun, fun c hc => by cases hc⟩
    have flow : NoRefs (.inlineHash [(c!"name", plain c!"b")]) := (noRefs_iff _).2 ⟨by nofun, fun c hc => by
      cases hc with
      | inlineHash h => simp at h; rw [h.2]; exact leaf _⟩
    have inner : NoRefs (.hash [kv c!"name" (plain c!"a"), .comment c!" c", kv c!"size" (plain c!"2")]) := (noRefs_hash _).2 fun k a v h => by
      simp only [kv, List.mem_cons, HashData.element.injEq, HashElement.mk.injEq, AliasedYaml.mk.injEq, List.not_mem_nil, or_false, reduceCtorEq, false_or] at h
      rcases h with ⟨-, -, rfl⟩ | ⟨-, -, rfl⟩ <;> exact leaf _
    have list : NoRefs (.array [elem (.hash [kv c!"name" (plain c!"a"), .comment c!" c", kv c!"size" (plain c!"2")]), elem (.inlineHash [(c!"name", plain c!"b")])]) :=
      (noRefs_array _).2 fun a v h => by
        simp only [elem, List.mem_cons, ArrayData.element.injEq, AliasedYaml.mk.injEq, List.not_mem_nil, or_false] at h
        rcases h with ⟨-, rfl⟩ | ⟨-, rfl⟩
        · exact inner
        · exact flow
    refine (noRefs_hash _).2 fun k a v h => ?_
    simp only [kv, List.mem_cons, HashData.element.injEq, HashElement.mk.injEq, AliasedYaml.mk.injEq, List.not_mem_nil, or_false] at h
    rcases h with ⟨-, -, rfl⟩ | ⟨-, -, rfl⟩
    · exact leaf _
    · exact list
  have hy : fromYaml Γ 9 ty y = .ok v := by kernel_rfl
  exact ⟨hr, hv, hn, hy, (C81_order_exact Γ ty hr hn hv).1 ⟨9, hy⟩⟩

/-- Two lines of the text with many layouts are swapped. -/
example (Γ : Nat → Ty) : ∃ A z₁ z₂ B c, layoutText = A ++ z₁ ++ z₂ ++ B ∧ EntryBlocks asciiTables c [kv c!"a" (.unquotedString c!"1")] z₁ ∧
    EntryBlocks asciiTables c [kv c!"b" (.array layoutList)] z₂ ∧
    ∃ n, fromYamlStr asciiTables Γ n (.struct [(c!"a", .int .i8), (c!"c", .str)]) (A ++ z₂ ++ z₁ ++ B) = .ok (.struct [(c!"a", .int 1), (c!"c", .str c!"one\n\n two\n")]) := by
  obtain ⟨A, z₁, z₂, B, c, hx, h1, h2, h⟩ := C81_swap_lines asciiTables layoutText_shows layoutRoot_mem (l := []) (pre := []) (one := [kv c!"a" (.unquotedString c!"1")])
    (two := [kv c!"b" (.array layoutList)]) rfl (.inl rfl) ⟨_, _, rfl⟩ ⟨_, _, rfl⟩ (post := [kv c!"c" (.literalString [c!"one", c!"", c!" two"] .keep)]) ⟨_, _, rfl⟩ layout_noRefs
  obtain ⟨v', h3, h4⟩ := h Γ (.struct [(c!"a", .int .i8), (c!"c", .str)]) (.struct [(c!"a", .int 1), (c!"c", .str c!"one\n\n two\n")]) ⟨9, by kernel_rfl⟩
  have hv : NoMaps (.struct [(c!"a", .int 1), (c!"c", .str c!"one\n\n two\n")]) := by
    refine .struct fun k v h => ?_
    simp only [List.mem_cons, Prod.mk.injEq, List.not_mem_nil, or_false] at h
    rcases h with ⟨-, rfl⟩ | ⟨-, rfl⟩
    · exact .int _
    · exact .str _
  rw [← Ord.same_eq h3 hv] at h4
  exact ⟨A, z₁, z₂, B, c, hx, h1, h2, h4⟩

/-- **C81** With references the order matters: the definition in `b` is seen when `b` is read. -/
theorem C81_counterexample_reference (Γ : Nat → Ty) :
    let ty : Ty := .struct [(c!"a", .str), (c!"b", .struct [(c!"c", .str)])]
    fromYamlStr asciiTables Γ 9 ty c!"---\nb:\n  c: &x 1\na: *x\n" = .ok (.struct [(c!"a", .str c!"1"), (c!"b", .struct [(c!"c", .str c!"1")])]) ∧
    fromYamlStr asciiTables Γ 9 ty c!"---\na: *x\nb:\n  c: &x 1\n" = .err :=
  ⟨by kernel_rfl, by kernel_rfl⟩

end YamlSubset
