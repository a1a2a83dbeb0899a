import Verif.Lemmas.Portable

/-! # Values through text (C42) -/

namespace YamlSubset

open Peg Spec

variable {T : CharTables}

/-- **C41** An empty block collection is written like an empty flow collection, and read as one: nothing else
changes. -/
theorem C41_empty_collections (T : CharTables) (d : Document) (h : ReadableDocument T (flowEmptyDocument d)) :
    parseYamlFile T d.format = .ok (flowEmptyDocument d) := by
  rw [← format_flowEmptyDocument]
  exact C41_formatted_documents_parse T _ h

example : ReadableDocument asciiTables (flowEmptyDocument (docOf (.hash [kv c!"a" (.hash []), kv c!"b" (.array [])]))) ∧
    ¬ Survives asciiTables (docOf (.hash [kv c!"a" (.hash []), kv c!"b" (.array [])])) := by
  have hr : ReadableDocument asciiTables (flowEmptyDocument (docOf (.hash [kv c!"a" (.hash []), kv c!"b" (.array [])]))) :=
    ⟨by simp [flowEmptyDocument, docOf], [], [], .hash [kv c!"a" (.inlineHash []), kv c!"b" (.inlineArray [])], rfl, by simp,
      .hash (.entry (keyText_of (by decide)) no_name (.oneLine (.hash (.hash (by simp) (by simp)))) (.last (keyText_of (by decide)) no_name (.oneLine (.array (.array (by simp))))))⟩
  exact ⟨hr, lost_of_other (C41_empty_collections _ _ hr) (by simp [flowEmptyDocument, docOf, flowEmpty, flowEmptyHash, kv])⟩

/-- Reading a document with one node deserializes the node. -/
theorem fromYamlStr_docOf {Γ : Nat → Ty} {n : Nat} {ty : Ty} {s : Str} {y : Yaml} (h : parseYamlFile T s = .ok (docOf y)) :
    fromYamlStr T Γ n ty s = fromYaml Γ n ty y := by
  rw [fromYamlStr, h]
  rfl

/-- **C42** Serializing a value, formatting the node as a document, parsing the text and deserializing gives the value
back, if the value survives without the text (`Lossless`, C09) and the node survives without the types
(`ReadableDocument`, C41). -/
theorem C42_values_survive_text (T : CharTables) (Γ : Nat → Ty) (ty : Ty) (v : SVal) (ht : HasTy Γ ty v) (hl : Lossless v) (y : Yaml)
    (hs : v.ser = some y) (hr : ReadableDocument T (docOf (flowEmpty y))) :
    ∃ n, ∀ m, n ≤ m → fromYamlStr T Γ m ty (docOf y).format = .ok v := by
  obtain ⟨n, hn⟩ := C09_typed_roundtrip Γ ty v ht hl y hs
  refine ⟨n, fun m hm => ?_⟩
  have hp : parseYamlFile T (docOf y).format = .ok (docOf (flowEmpty y)) := C41_empty_collections T (docOf y) hr
  rw [fromYamlStr_docOf hp, fromYaml_same Γ m ty (y' := y) (view_flowEmpty y)]
  exact hn m hm

theorem portableRoot_readable {v : SVal} (h : PortableRoot T v) {y : Yaml} (hs : v.ser = some y) : ReadableRoot T (flowEmpty y) := by
  induction h with
  | some _ ih => exact ih (by simpa only [SVal.ser] using hs)
  | newtype _ ih => exact ih (by simpa only [SVal.ser] using hs)
  | @bytes bs h =>
    simp only [SVal.ser, Option.some.injEq] at hs; subst hs
    match bs, h with
    | b :: t, _ =>
      exact .array (elements_nodes (ys := (b :: t).map fun b => .unquotedString (natToStr b)) (by simp) fun z hz => by
        obtain ⟨q, hq, rfl⟩ := List.mem_map.1 hz
        exact nodeOk_number (natToStr_ne_nil q) (natToStr_no_sign q []).2 (natToStr_floatChars q))
  | @seq vs h hv =>
    have hn := node_of_portable hv hs ⟨false, false, .none⟩
    simp only [SVal.ser, Option.map_eq_some_iff] at hs
    obtain ⟨ys, hy, rfl⟩ := hs
    obtain ⟨ps, rfl, rfl, hp⟩ := serList_map (fun v => v) (qs := vs) (by simpa using hy)
    match ps, h with
    | p :: ps, _ =>
      cases hv with
      | seq _ _ hv =>
        exact .array (elements_nodes (ys := (p :: ps).map fun p => p.2) (by simp) fun z hz => by
          obtain ⟨q, hq, rfl⟩ := List.mem_map.1 hz
          exact node_of_portable (hv q.1 (List.mem_map.2 ⟨_, hq, rfl⟩)) (hp q hq))
  | @map es h hv =>
    simp only [SVal.ser, Option.map_eq_some_iff] at hs
    obtain ⟨ys, hy, rfl⟩ := hs
    obtain ⟨ps, rfl, rfl, hp⟩ := serEntries_map hy
    match ps, h with
    | p :: ps, _ =>
      cases hv with
      | map _ hk hv =>
        refine .hash (entries_nodes (es := (p :: ps).map fun p => (p.2.1, p.2.2.2)) (by simp) (fun k z hz => ?_) fun k z hz => ?_)
        · simp only [List.mem_map, Prod.mk.injEq] at hz
          obtain ⟨q, hq, rfl, rfl⟩ := hz
          have hkey := (hp q hq).1
          simp only [Option.bind_eq_some_iff] at hkey
          obtain ⟨x, hx, hkey⟩ := hkey
          refine hk _ _ _ (List.mem_map.2 ⟨_, hq, rfl⟩) (keyText_of_ser _ hx ?_)
          cases x <;> simp [yamlToKeyString] at hkey <;> simp [Yaml.asString, hkey]
        · simp only [List.mem_map, Prod.mk.injEq] at hz
          obtain ⟨q, hq, rfl, rfl⟩ := hz
          exact node_of_portable (hv _ _ (List.mem_map.2 ⟨_, hq, rfl⟩)) (hp q hq).2
  | @struct fs h hv =>
    simp only [SVal.ser, Option.map_eq_some_iff] at hs
    obtain ⟨ys, hy, rfl⟩ := hs
    obtain ⟨ps, rfl, rfl, hp⟩ := serFields_map (fun q : Str × SVal => q.1) (fun q => q.2) (qs := fs) (by simpa using hy)
    match ps, h with
    | p :: ps, _ =>
      cases hv with
      | struct _ hk hv =>
        refine .hash (entries_nodes (es := (p :: ps).map fun p => (p.1.1, p.2)) (by simp) (fun k z hz => ?_) fun k z hz => ?_)
        · simp only [List.mem_map, Prod.mk.injEq] at hz
          obtain ⟨q, hq, rfl, rfl⟩ := hz
          exact hk _ _ (List.mem_map.2 ⟨_, hq, rfl⟩)
        · simp only [List.mem_map, Prod.mk.injEq] at hz
          obtain ⟨q, hq, rfl, rfl⟩ := hz
          exact node_of_portable (hv _ _ (List.mem_map.2 ⟨_, hq, rfl⟩)) (hp q hq)

/-- **C42** The same with all conditions on the value: it can be the root of a document, its texts are not mistaken for
something else and the texts of its keys are valid keys. -/
theorem C42_portable_values_survive_text (T : CharTables) (Γ : Nat → Ty) (ty : Ty) (v : SVal) (ht : HasTy Γ ty v) (hl : Lossless v)
    (hp : PortableRoot T v) (y : Yaml) (hs : v.ser = some y) : ∃ n, ∀ m, n ≤ m → fromYamlStr T Γ m ty (docOf y).format = .ok v :=
  C42_values_survive_text T Γ ty v ht hl y hs
    ⟨by simp [docOf], [], [], flowEmpty y, rfl, by simp, portableRoot_readable hp hs⟩

theorem portableText_simple {spot : Spot} {s : Str} (h : (∀ c ∈ s, c ≠ ':') ∧ ∀ c, s.head? = some c → c ∉ ['&', '*', '-'] ∧ isSpaceSeparator c = false) :
    PortableText T spot s := by
  obtain ⟨h1, h2⟩ := h
  refine .inr ⟨fun c hc hs => ?_, fun c d t he hcd => ?_, fun t he => ?_, fun c k t he => absurd rfl (h1 ':' (by simp [he])), fun _ hl => h1 _ (List.mem_of_getLast? hl) rfl⟩
  · rw [(h2 c hc).2] at hs; exact nomatch hs
  · have := (h2 c (by simp [he])).1
    rcases hcd with rfl | rfl <;> simp at this
  · have := (h2 '-' (by simp [he])).1
    simp at this

theorem exampleVal_portable : PortableRoot asciiTables exampleVal := by
  have hk : ∀ {k : Str}, _ → KeyText asciiTables k := fun h => keyText_of (k := _) h
  refine .struct (by simp) (.struct (by simp) (fun k v h => ?_) fun k v h => ?_)
  · simp only [List.mem_cons, Prod.mk.injEq, List.not_mem_nil, or_false] at h
    rcases h with ⟨rfl, -⟩ | ⟨rfl, -⟩ | ⟨rfl, -⟩ | ⟨rfl, -⟩ <;> exact hk (by decide)
  · simp only [List.mem_cons, Prod.mk.injEq, List.not_mem_nil, or_false] at h
    rcases h with ⟨-, rfl⟩ | ⟨-, rfl⟩ | ⟨-, rfl⟩ | ⟨-, rfl⟩
    · exact .some (.str (portableText_simple (by decide)))
    · refine .seq (by simp) (by simp) fun v hv => ?_
      simp only [List.mem_singleton] at hv
      subst hv
      refine .tuple fun v h => ?_
      simp only [List.mem_cons, List.not_mem_nil, or_false] at h
      rcases h with rfl | rfl
      · exact .int _
      · exact .bool _
    · refine .map (by simp) (fun k v s h hs => ?_) fun k v h => ?_ <;> simp only [List.mem_singleton, Prod.mk.injEq] at h <;> obtain ⟨rfl, rfl⟩ := h
      · cases hs; exact hk (by decide)
      · exact .int _
    · refine .some (.struct (by simp) (fun k v h => ?_) fun k v h => ?_)
      · simp only [List.mem_cons, Prod.mk.injEq, List.not_mem_nil, or_false] at h
        rcases h with ⟨rfl, -⟩ | ⟨rfl, -⟩ <;> exact hk (by decide)
      · simp only [List.mem_cons, Prod.mk.injEq, List.not_mem_nil, or_false] at h
        rcases h with ⟨-, rfl⟩ | ⟨-, rfl⟩
        · exact .str (.inl (.inl ⟨'\n', by decide, by decide⟩))
        · exact .none

example : ∃ y, exampleVal.ser = some y ∧ ∃ n, ∀ m, n ≤ m → fromYamlStr asciiTables exampleEnv m exampleTy (docOf y).format = .ok exampleVal :=
  ⟨_, rfl, C42_portable_values_survive_text _ _ _ _ exampleVal_hasTy exampleVal_lossless exampleVal_portable _ rfl⟩


/-- The value is serialized, and reading the text gives `o`. -/
def ThroughText (T : CharTables) (Γ : Nat → Ty) (n : Nat) (ty : Ty) (v : SVal) (o : Out SVal) : Prop :=
  ∃ y, v.ser = some y ∧ fromYamlStr T Γ n ty (docOf y).format = o

theorem throughText_of {Γ : Nat → Ty} {n : Nat} {ty : Ty} {v : SVal} {y : Yaml} (z : Yaml) (hs : v.ser = some y) {o : Out SVal}
    (hp : parseYamlFile T (docOf y).format = .ok (docOf z)) (ho : fromYaml Γ n ty z = o) : ThroughText T Γ n ty v o :=
  ⟨y, hs, by rw [fromYamlStr_docOf hp, ho]⟩

theorem throughText_err {Γ : Nat → Ty} {n : Nat} {ty : Ty} {v : SVal} {y : Yaml} (hs : v.ser = some y)
    (hp : parseYamlFile T (docOf y).format = .err) : ThroughText T Γ n ty v .err :=
  ⟨y, hs, by rw [fromYamlStr, hp]; rfl⟩

/-- **C42** `vec![vec![1], vec![2]]` does not survive: the second inner sequence becomes an element of the first. -/
theorem C42_counterexample_nested_sequences (Γ : Nat → Ty) (n : Nat) :
    ThroughText asciiTables Γ (n + 5) (.seq (.seq (.int .i64))) (.seq [.seq [.int 1], .seq [.int 2]]) .err :=
  throughText_of (.array [elem (.array [elem (plain c!"1"), elem (.array [elem (plain c!"2")])])]) rfl (by kernel_rfl) (by kernel_rfl)

/-- **C42** Another value is read in the place of `vec![Some(vec![None]), None]` without an error. -/
theorem C42_counterexample_silent (Γ : Nat → Ty) (n : Nat) :
    ThroughText asciiTables Γ (n + 5) (.seq (.option (.seq (.option .bool)))) (.seq [.some (.seq [.none]), .none])
      (.ok (.seq [.some (.seq [.none, .none])])) :=
  throughText_of (.array [elem (.array [elem (plain c!"~"), elem (plain c!"~")])]) rfl (by kernel_rfl) (by kernel_rfl)

/-- **C42** A text like a sequence entry is read as a sequence. -/
theorem C42_counterexample_dash (Γ : Nat → Ty) (n : Nat) :
    ThroughText asciiTables Γ (n + 5) (.seq .str) (.seq [.str c!"- a"]) .err :=
  throughText_of (.array [elem (.array [elem (plain c!"a")])]) rfl (by kernel_rfl) (by kernel_rfl)

/-- **C42** A text like a reference is read as a reference. -/
theorem C42_counterexample_reference (Γ : Nat → Ty) (n : Nat) :
    ThroughText asciiTables Γ (n + 5) (.seq .str) (.seq [.str c!"*a"]) .err :=
  throughText_of (.array [elem (.anchor c!"a")]) rfl (by kernel_rfl) (by kernel_rfl)

/-- **C42** A text that starts like an anchor loses the anchor. -/
theorem C42_counterexample_anchor (Γ : Nat → Ty) (n : Nat) :
    ThroughText asciiTables Γ (n + 5) (.seq .str) (.seq [.str c!"&a b"]) (.ok (.seq [.str c!"b"])) :=
  throughText_of (.array [.element ⟨some c!"a", plain c!"b"⟩]) rfl (by kernel_rfl) (by kernel_rfl)

/-- **C42** A text with a colon at its end is read as a key with the next element as its value. -/
theorem C42_counterexample_key (Γ : Nat → Ty) (n : Nat) :
    ThroughText asciiTables Γ (n + 5) (.seq .str) (.seq [.str c!"k:", .str c!"b"]) .err :=
  throughText_of (.array [elem (.hash [kv c!"k" (.array [elem (plain c!"b")])])]) rfl (by kernel_rfl) (by kernel_rfl)

/-- **C42** A no-break space at the start of a text is lost. -/
theorem C42_counterexample_space (Γ : Nat → Ty) (n : Nat) :
    ThroughText asciiTables Γ (n + 5) (.seq .str) (.seq [.str [' ', 'a']]) (.ok (.seq [.str c!"a"])) :=
  throughText_of (.array [elem (plain c!"a")]) rfl (by kernel_rfl) (by kernel_rfl)

/-- **C42** A scalar, an empty sequence or a tuple cannot be the root. -/
theorem C42_counterexample_root (Γ : Nat → Ty) (n : Nat) :
    ThroughText asciiTables Γ n .str (.str c!"a") .err ∧ ThroughText asciiTables Γ n (.seq .str) (.seq []) .err ∧
    ThroughText asciiTables Γ n (.tuple [.bool]) (.tuple [.bool true]) .err :=
  ⟨throughText_err rfl (by kernel_rfl), throughText_err rfl (by kernel_rfl), throughText_err rfl (by kernel_rfl)⟩

/-- **C42** A sequence or map that is not empty cannot be inside a tuple; a sequence there is read as a text. -/
theorem C42_counterexample_tuple (Γ : Nat → Ty) (n : Nat) :
    ThroughText asciiTables Γ (n + 5) (.seq (.tuple [.seq .bool])) (.seq [.tuple [.seq [.bool true]]]) .err ∧
    ThroughText asciiTables Γ n (.seq (.tuple [.map .str .bool])) (.seq [.tuple [.map [(.str c!"k", .bool true)]]]) .err :=
  ⟨throughText_of (.array [elem (.inlineArray [plain c!"- true"])]) rfl (by kernel_rfl) (by kernel_rfl), throughText_err rfl (by kernel_rfl)⟩

/-- **C42** Keys are never written in quotes. -/
theorem C42_counterexample_map_key (Γ : Nat → Ty) (n : Nat) :
    ThroughText asciiTables Γ n (.map .str .bool) (.map [(.str c!"a.b", .bool true)]) .err :=
  throughText_err rfl (by kernel_rfl)

end YamlSubset
