import Verif.Lemmas.DeHalt
import Verif.Lemmas.DeAnchors
import Verif.Props.De

/-! # Properties of anchors in deserialization (C44, C46) -/

namespace YamlSubset

open Spec

/-! ## C46 -/

/-- **C46** Deserializing a tree without cyclic anchors ends: some recursion depth is enough, and the result does not
change with more. `Guarded` excludes Rust types without values, such as `struct T(Box<T>)`. -/
theorem C46_deserialization_terminates {Γ : Nat → Ty} (hΓ : Guarded Γ) {y : Yaml} (hy : Acyclic y) (ty : Ty) :
    ∃ n r, r ≠ .oof ∧ ∀ m, n ≤ m → fromYaml Γ m ty y = r := by
  obtain ⟨n, hn⟩ := de_halts hΓ hy ty
  have h : fromYaml Γ n ty y ≠ .oof := by
    unfold fromYaml
    cases hd : de Γ n ty y [] <;> simp_all
  exact ⟨n, _, h, fun m hm => fromYaml_depth Γ hm h⟩

/-- **C46** In particular, trees without references are deserialized in finitely many steps. -/
theorem C46_no_references {Γ : Nat → Ty} (hΓ : Guarded Γ) {y : Yaml} (hy : ∀ b, ¬RefersTo y b) (ty : Ty) :
    ∃ n r, r ≠ .oof ∧ ∀ m, n ≤ m → fromYaml Γ m ty y = r := by
  refine C46_deserialization_terminates hΓ ⟨fun _ => 0, fun a v ⟨c, hc, hd⟩ b hb => ?_⟩ ty
  have hw : ∀ {c d e : Yaml}, Within c d → Within d e → Within c e := by
    intro c d e h1 h2
    induction h2 with
    | self => exact h1
    | step hc _ ih => exact .step hc ih
  have hch : Child v c := child_of_def hd
  exact absurd (hw hb (hw (.step hch .self) hc)) (hy b)

/-- `[&x [*x]]` -/
def cyclicTree : Yaml := .array [.element ⟨some c!"x", .array [.element ⟨none, .anchor c!"x"⟩]⟩]

/-- **C46** Acyclicity is needed: reading `[&x [*x]]` as a self-describing value never ends. -/
theorem C46_cyclic_counterexample (Γ : Nat → Ty) (n : Nat) : fromYaml Γ n .any cyclicTree = .oof := by
  let inner : Yaml := .array [.element ⟨none, .anchor c!"x"⟩]
  have key : ∀ n σ, resolve σ c!"x" = some inner →
      de Γ n .any inner σ = .oof ∧ de Γ n .any (.anchor c!"x") σ = .oof := by
    intro n
    induction n with
    | zero => exact fun _ _ => ⟨rfl, rfl⟩
    | succ n ih =>
      intro σ hσ
      obtain ⟨h1, h2⟩ := ih σ hσ
      constructor
      · rw [de_any]
        simp [inner, plainOf, refOf, Yaml.asString, asSeq, seqValues, register, deElems, h2]
      · rw [de_any]
        simp only [plainOf, refOf, hσ, h1]
  unfold fromYaml cyclicTree
  cases n with
  | zero => rfl
  | succ n =>
    have h := (key n [(c!"x", inner)] rfl).1
    rw [de_any]
    simp only [plainOf, refOf, Yaml.asString, asSeq, seqValues, register, deElems]
    simp only [inner] at h
    rw [h]
    rfl

theorem cyclicTree_cyclic : ¬Acyclic cyclicTree := by
  rintro ⟨rank, h⟩
  have := h c!"x" _ ⟨_, .self, .array (List.mem_singleton.2 rfl)⟩ c!"x"
    (.step (.array (List.mem_singleton.2 rfl)) .self)
  omega

/-- A tree with a nested use of an anchor: `a: &x [1]`, `b: &y [*x]`, `c: *y`. -/
def acyclicTree : Yaml := .hash [
  .element ⟨c!"a", ⟨some c!"x", .inlineArray [.unquotedString c!"1"]⟩⟩,
  .element ⟨c!"b", ⟨some c!"y", .inlineArray [.anchor c!"x"]⟩⟩,
  .element ⟨c!"c", ⟨none, .anchor c!"y"⟩⟩]

theorem within_inv {b : Str} {y : Yaml} (h : RefersTo y b) : y = .anchor b ∨ ∃ c, Child c y ∧ RefersTo c b := by
  unfold RefersTo at h
  cases h with
  | self => exact .inl rfl
  | step hc hw => exact .inr ⟨_, hc, hw⟩

theorem acyclicTree_acyclic : Acyclic acyclicTree := by
  have r1 : ∀ b, ¬RefersTo (.inlineArray [.unquotedString c!"1"]) b := by
    intro b h
    rcases within_inv h with h | ⟨c, hc, h⟩
    · cases h
    · cases hc with
      | inlineArray hm =>
        rw [List.mem_singleton] at hm
        subst hm
        rcases within_inv h with h | ⟨c, hc, h⟩
        · cases h
        · cases hc
  have r2 : ∀ b, RefersTo (.inlineArray [.anchor c!"x"]) b → b = c!"x" := by
    intro b h
    rcases within_inv h with h | ⟨c, hc, h⟩
    · cases h
    · cases hc with
      | inlineArray hm =>
        rw [List.mem_singleton] at hm
        subst hm
        rcases within_inv h with h | ⟨c, hc, h⟩
        · cases h; rfl
        · cases hc
  refine ⟨fun s => if s = c!"y" then 1 else 0, fun a v ⟨c, hc, hd⟩ b hb => ?_⟩
  have hdef : (a = c!"x" ∧ v = .inlineArray [.unquotedString c!"1"]) ∨
      (a = c!"y" ∧ v = .inlineArray [.anchor c!"x"]) := by
    cases hc with
    | self =>
      cases hd with
      | hash h =>
        simp only [List.mem_cons, HashData.element.injEq, HashElement.mk.injEq, AliasedYaml.mk.injEq,
          Option.some.injEq, List.not_mem_nil, or_false] at h
        rcases h with ⟨-, rfl, rfl⟩ | ⟨-, rfl, rfl⟩ | ⟨-, h, -⟩
        · exact .inl ⟨rfl, rfl⟩
        · exact .inr ⟨rfl, rfl⟩
        · cases h
    | step hch hw =>
      exfalso
      cases hch with
      | hash h =>
        simp only [List.mem_cons, HashData.element.injEq, HashElement.mk.injEq, AliasedYaml.mk.injEq,
          List.not_mem_nil, or_false] at h
        rcases h with ⟨-, -, rfl⟩ | ⟨-, -, rfl⟩ | ⟨-, -, rfl⟩
        · cases hw with
          | self => cases hd
          | step h2 hw =>
            cases h2 with
            | inlineArray hm =>
              rw [List.mem_singleton] at hm
              subst hm
              cases hw with
              | self => cases hd
              | step h3 _ => cases h3
        · cases hw with
          | self => cases hd
          | step h2 hw =>
            cases h2 with
            | inlineArray hm =>
              rw [List.mem_singleton] at hm
              subst hm
              cases hw with
              | self => cases hd
              | step h3 _ => cases h3
        · cases hw with
          | self => cases hd
          | step h2 hw => cases h2
  rcases hdef with ⟨rfl, rfl⟩ | ⟨rfl, rfl⟩
  · exact absurd hb (r1 b)
  · rw [r2 b hb]
    decide

/-- A recursive type: `struct T { next: Option<Box<T>> }`. -/
theorem guarded_list : Guarded fun _ => .struct [(c!"next", .option (.ref 0))] :=
  ⟨fun _ => 1, fun _ => by simp [inputFreeSteps]⟩

example : ∃ n r, r ≠ .oof ∧ ∀ m, n ≤ m →
    fromYaml (fun _ => .struct [(c!"next", .option (.ref 0))]) m .any acyclicTree = r :=
  C46_deserialization_terminates guarded_list acyclicTree_acyclic .any

/-! ## C44 -/

/-- **C44** Reading a tree as a self-describing value gives `v` exactly if the tree, with every reference replaced by
its current definition, expands to a tree that reads as `v`. (`Spec.Expand` says what the current definition is: the
last one seen, where the definitions of the elements of a collection are seen on entering the collection.) -/
theorem C44_references_expand (Γ : Nat → Ty) (y : Yaml) (v : SVal) :
    (∃ n, fromYaml Γ n .any y = .ok v) ↔ ∃ t, ExpandsTo y t ∧ ∃ n, fromYaml Γ n .any t = .ok v := by
  have fin : ∀ {n z w}, fromYaml Γ n .any z = .ok w → ∃ σ', deElems (de Γ n .any) [z] [] = .ok ([w], σ') := by
    intro n z w h
    unfold fromYaml at h
    obtain ⟨⟨u, σ'⟩, h1, h2⟩ := Out.bind_eq_ok.1 h
    cases h2
    exact ⟨σ', by simp [deElems, h1]⟩
  have same : ∀ {n m z w w'}, fromYaml Γ n .any z = .ok w → fromYaml Γ m .any z = .ok w' → w = w' := by
    intro n m z w w' h1 h2
    have e1 := fromYaml_depth Γ (Nat.le_max_left n m) (ty := .any) (y := z) (by rw [h1]; nofun)
    have e2 := fromYaml_depth Γ (Nat.le_max_right n m) (ty := .any) (y := z) (by rw [h2]; nofun)
    rw [e2, h1, h2] at e1
    cases e1
    rfl
  have both : ∀ {t}, ExpandsTo y t → ∃ w, (∃ n, fromYaml Γ n .any y = .ok w) ∧ ∃ n, fromYaml Γ n .any t = .ok w := by
    rintro t ⟨D, h⟩
    obtain ⟨ws, h1, h2⟩ := h.reads Γ
    cases h1 with
    | cons hw hn =>
      cases hn
      rename_i w
      obtain ⟨n, σ', -, h3⟩ := h2 [] rfl
      obtain ⟨m, hm⟩ := hw
      refine ⟨w, ⟨n, ?_⟩, m, ?_⟩
      · simp only [deElems] at h3
        obtain ⟨r, hr, h4⟩ := Out.bind_eq_ok.1 h3
        cases h4
        simp [fromYaml, hr]
      · simp [fromYaml, hm []]
  constructor
  · rintro ⟨n, h⟩
    obtain ⟨σ', h1⟩ := fin h
    obtain ⟨ts, h2⟩ := expand_of_reads h1
    match ts, h2.length with
    | [t], _ =>
      have ht : ExpandsTo y t := ⟨_, h2⟩
      obtain ⟨w, ⟨m, h3⟩, h4⟩ := both ht
      cases same h h3
      exact ⟨t, ht, h4⟩
  · rintro ⟨t, ht, n, h⟩
    obtain ⟨w, h3, m, h4⟩ := both ht
    cases same h h4
    exact h3

/-- **C44** A tree with a reference to a name that is defined nowhere in the tree is never read as a self-describing
value. -/
theorem C44_undefined_reference_fails (Γ : Nat → Ty) {y : Yaml} {b : Str} (hb : RefersTo y b)
    (hd : ∀ w, ¬Defines y b w) (n : Nat) (v : SVal) : fromYaml Γ n .any y ≠ .ok v := by
  intro h
  obtain ⟨t, ⟨D, ht⟩, -⟩ := (C44_references_expand Γ y v).1 ⟨n, h⟩
  have hu : Undefined b fun _ => none := ⟨rfl, by nofun⟩
  exact (ht.undefined hu (by simpa using hd)).2 y (by simp) hb

/-- **C44** It is an error, or the anchors are cyclic. -/
theorem C44_undefined_reference_error {Γ : Nat → Ty} (hΓ : Guarded Γ) {y : Yaml} {b : Str} (hb : RefersTo y b)
    (hd : ∀ w, ¬Defines y b w) (ha : Acyclic y) : ∃ n, ∀ m, n ≤ m → fromYaml Γ m .any y = .err := by
  obtain ⟨n, r, hr, h⟩ := C46_deserialization_terminates hΓ ha .any
  have h1 := h n (Nat.le_refl n)
  have hs : (fromYaml Γ n .any y).Safe := (de_safe Γ n .any y []).bind fun r => Out.safe_ok _
  refine ⟨n, fun m hm => ?_⟩
  rw [h m hm]
  cases r with
  | err => rfl
  | oof => exact absurd rfl hr
  | ok v => exact absurd h1 (C44_undefined_reference_fails Γ hb hd n v)
  | panic => exact absurd h1 hs.1
  | unmatched => exact absurd h1 hs.2

/-- `*b` reads as an element of a collection with the entries `ds`: the last definition of `b` among the entries. -/
def Spec.LastHashDef (ds : List HashData) (b : Str) (v : Yaml) : Prop :=
  ∃ pre k post, ds = pre ++ .element ⟨k, ⟨some b, v⟩⟩ :: post ∧ ∀ k' w, HashData.element ⟨k', ⟨some b, w⟩⟩ ∉ post

theorem defs_hash_other {ds : List HashData} {b : Str} (D : Defs)
    (h : ∀ k' w, HashData.element ⟨k', ⟨some b, w⟩⟩ ∉ ds) : D.hash ds b = D b := by
  induction ds generalizing D with
  | nil => rfl
  | cons d t ih =>
    have ht : ∀ k' w, HashData.element ⟨k', ⟨some b, w⟩⟩ ∉ t := fun k' w hm => h k' w (by simp [hm])
    match d with
    | .comment _ => exact ih D ht
    | .inlineComment _ => exact ih D ht
    | .element ⟨k, ⟨none, v⟩⟩ => exact ih D ht
    | .element ⟨k, ⟨some a, v⟩⟩ =>
      simp only [Defs.hash]
      rw [ih _ ht]
      have : b ≠ a := by rintro rfl; exact h k v (by simp)
      simp [Defs.define, this]

theorem defs_hash_last {ds : List HashData} {b : Str} {v : Yaml} (D : Defs) (h : LastHashDef ds b v) :
    D.hash ds b = some v := by
  obtain ⟨pre, k, post, rfl, hp⟩ := h
  induction pre generalizing D with
  | nil =>
    simp only [List.nil_append, Defs.hash]
    rw [defs_hash_other _ hp]
    simp [Defs.define]
  | cons d t ih =>
    match d with
    | .comment _ => exact ih D
    | .inlineComment _ => exact ih D
    | .element ⟨k, ⟨none, v⟩⟩ => exact ih D
    | .element ⟨k, ⟨some a, v⟩⟩ => exact ih _

/-- What the field `k` of a block map reads as: the serialization of `x`, or a reference whose last definition in the
map is the serialization of `x`. -/
inductive Spec.Shows (ds : List HashData) (x : SVal) : Yaml → Prop
  | direct {y} (h : x.ser = some y) : Shows ds x y
  | ref {b y} (h : x.ser = some y) (hl : LastHashDef ds b y) : Shows ds x (.anchor b)

/-- **C44** A struct read from a block map whose fields are given directly or by references to definitions among the
entries of the same map: every reference stands for its last definition there, at every type, wherever the
definition stands. -/
theorem C44_struct_fields (Γ : Nat → Ty) (ds : List HashData) (ps : List (Str × Ty × SVal × Yaml))
    (hds : entriesOf ds = ps.map fun p => (p.1, p.2.2.2)) (hn : (ps.map fun p => p.1).Nodup)
    (hp : ∀ k t x y, (k, t, x, y) ∈ ps → HasTy Γ t x ∧ Lossless x ∧ Shows ds x y) :
    ∃ n, ∀ m, n ≤ m → fromYaml Γ m (.struct (ps.map fun p => (p.1, p.2.1))) (.hash ds) =
      .ok (.struct (ps.map fun p => (p.1, p.2.2.1))) := by
  obtain ⟨e1, e2⟩ := hashEntries_defs ds []
  have hr : ∀ p ∈ ps, ∃ n, de Γ n p.2.1 p.2.2.2 (hashEntries [] ds).2 = .ok (p.2.2.1, (hashEntries [] ds).2) := by
    rintro ⟨k, t, x, y⟩ hm
    obtain ⟨h1, h2, h3⟩ := hp k t x y hm
    cases h3 with
    | direct h =>
      obtain ⟨n, hn⟩ := de_repr (repr_ser h1 h2 h)
      exact ⟨n, hn _⟩
    | ref h hl =>
      rename_i b y
      have hd := repr_ser h1 h2 h
      obtain ⟨n, hn⟩ := de_repr hd
      have hl' : resolve (hashEntries [] ds).2 b = some y := by
        have := defs_hash_last (defsOf []) hl
        rw [← e2] at this
        exact this
      have hle := de_ref Γ n t hl' hd.refOf
      rw [hn] at hle
      exact ⟨n + 1, hle.eq (by nofun)⟩
  obtain ⟨n, hb⟩ := exists_bound ps
    (fun n p => de Γ n p.2.1 p.2.2.2 (hashEntries [] ds).2 = .ok (p.2.2.1, (hashEntries [] ds).2))
    (fun n m a hnm h => de_mono Γ hnm h (by nofun)) hr
  have key : fromYaml Γ (n + 1) (.struct (ps.map fun p => (p.1, p.2.1))) (.hash ds) =
      .ok (.struct (ps.map fun p => (p.1, p.2.2.1))) := by
    unfold fromYaml
    rw [de.eq_def]
    dsimp only
    rw [deStruct_reads ps hn (fun k t v z hp => hb (k, t, v, z) hp) (y := .hash ds) (σ := [])]
    · rfl
    · show some (hashEntries [] ds) = _
      rw [← hds, ← e1]
  exact ⟨n + 1, fun m hm => by rw [fromYaml_depth Γ hm (by rw [key]; nofun), key]⟩

/-- `a: &x 1`, `b: *x`, `c: &x 2`: the reference between the definitions reads as the last one. -/
example : ∃ n, ∀ m, n ≤ m → fromYaml (fun _ => .str) m
    (.struct [(c!"a", .int .u8), (c!"b", .int .u8), (c!"c", .int .u8)])
    (.hash [.element ⟨c!"a", ⟨some c!"x", .unquotedString c!"1"⟩⟩, .element ⟨c!"b", ⟨none, .anchor c!"x"⟩⟩,
      .element ⟨c!"c", ⟨some c!"x", .unquotedString c!"2"⟩⟩]) =
    .ok (.struct [(c!"a", .int 1), (c!"b", .int 2), (c!"c", .int 2)]) := by
  refine C44_struct_fields (fun _ => .str) _
    [(c!"a", .int .u8, .int 1, .unquotedString c!"1"), (c!"b", .int .u8, .int 2, .anchor c!"x"),
      (c!"c", .int .u8, .int 2, .unquotedString c!"2")] rfl (by decide) ?_
  intro k t x y h
  simp only [List.mem_cons, Prod.mk.injEq, List.not_mem_nil, or_false] at h
  rcases h with ⟨rfl, rfl, rfl, rfl⟩ | ⟨rfl, rfl, rfl, rfl⟩ | ⟨rfl, rfl, rfl, rfl⟩
  · exact ⟨.int (by decide) (by decide), .int _, .direct rfl⟩
  · refine ⟨.int (by decide) (by decide), .int _, .ref (y := .unquotedString c!"2") rfl ?_⟩
    exact ⟨[_, _], c!"c", [], rfl, by simp⟩
  · exact ⟨.int (by decide) (by decide), .int _, .direct rfl⟩

/-- The references of `acyclicTree` expand. -/
example : ExpandsTo acyclicTree (.inlineHash [(c!"a", .inlineArray [.unquotedString c!"1"]),
    (c!"b", .inlineArray [.inlineArray [.unquotedString c!"1"]]),
    (c!"c", .inlineArray [.inlineArray [.unquotedString c!"1"]])]) := by
  let D : Defs := Defs.define (Defs.define (fun _ => none) c!"x" (.inlineArray [.unquotedString c!"1"])) c!"y"
    (.inlineArray [.anchor c!"x"])
  refine ⟨D, .hash (D1 := D) (us := [.inlineArray [.unquotedString c!"1"], .inlineArray [.inlineArray [.unquotedString c!"1"]],
    .inlineArray [.inlineArray [.unquotedString c!"1"]]]) ?_ .nil⟩
  have one : ∀ D, Expand D [.unquotedString c!"1"] [.unquotedString c!"1"] D := fun D => .scalar rfl .nil
  refine .inlineArray (one _) (.inlineArray (.ref (v := .inlineArray [.unquotedString c!"1"]) rfl
    (.inlineArray (one _) .nil) .nil) (.ref (v := .inlineArray [.anchor c!"x"]) rfl (.inlineArray (.ref
      (v := .inlineArray [.unquotedString c!"1"]) rfl (.inlineArray (one _) .nil) .nil) .nil) .nil))

/-- `[*y]` has no definition of `y`. -/
example (Γ : Nat → Ty) (n : Nat) (v : SVal) : fromYaml Γ n .any (.inlineArray [.anchor c!"y"]) ≠ .ok v := by
  refine C44_undefined_reference_fails Γ (b := c!"y") (.step (.inlineArray (List.mem_singleton.2 rfl)) .self) ?_ n v
  rintro w ⟨c, hc, hd⟩
  cases hc with
  | self => cases hd
  | step h hc =>
    cases h with
    | inlineArray hm =>
      rw [List.mem_singleton] at hm
      subst hm
      cases hc with
      | self => cases hd
      | step h _ => cases h

/-- `[*x, [&x 1]]` is an error, as the definition is in a collection that has not been entered yet; `[*x, &x 1]` is
fine. -/
example (Γ : Nat → Ty) (n : Nat) : fromYaml Γ (n + 2) .any (.array [.element ⟨none, .anchor c!"x"⟩,
      .element ⟨none, .array [.element ⟨some c!"x", .unquotedString c!"1"⟩]⟩]) = .err ∧
    fromYaml Γ (n + 3) .any (.array [.element ⟨none, .anchor c!"x"⟩,
      .element ⟨some c!"x", .unquotedString c!"1"⟩]) = .ok (.seq [.int 1, .int 1]) := ⟨rfl, rfl⟩

end YamlSubset
