import Verif.Lemmas.Decode
import Verif.Props.DeAnchors

/-! # C51, C52: what deserialization means -/

namespace YamlSubset

open Spec

/-- **C51** A tree without references is deserialized to `v` exactly if it means `v` at the type, by the rules of
`Spec.Decodes`. -/
theorem C51_deserialize_exact (Γ : Nat → Ty) (ty : Ty) {y : Yaml} (hy : ∀ b, ¬RefersTo y b) (v : SVal) :
    (∃ n, fromYaml Γ n ty y = .ok v) ↔ Decodes Γ ty y v := by
  constructor
  · rintro ⟨n, h⟩
    rw [fromYaml, Out.bind_eq_ok] at h
    obtain ⟨r, h1, h2⟩ := h
    cases h2
    exact reads_decodes h1 hy
  · intro h
    obtain ⟨n, σ, h⟩ := decodes_reads h hy []
    exact ⟨n, by rw [fromYaml]; simp only at h; rw [h]; rfl⟩

/-- **C51** A tree without references that means no value at the type is reported as an error. -/
theorem C51_deserialize_error {Γ : Nat → Ty} (hΓ : Guarded Γ) (ty : Ty) {y : Yaml} (hy : ∀ b, ¬RefersTo y b)
    (h : ∀ v, ¬Decodes Γ ty y v) : ∃ n, ∀ m, n ≤ m → fromYaml Γ m ty y = .err := by
  obtain ⟨n, r, hr, hn⟩ := C46_no_references hΓ hy ty
  have h1 := hn n (Nat.le_refl n)
  have hs : (fromYaml Γ n ty y).Safe := (de_safe Γ n ty y []).bind fun _ => Out.safe_ok _
  rw [h1] at hs
  cases r with
  | ok v => exact absurd ((C51_deserialize_exact Γ ty hy v).1 ⟨n, h1⟩) (h v)
  | err => exact ⟨n, hn⟩
  | panic => exact absurd rfl hs.1
  | unmatched => exact absurd rfl hs.2
  | oof => exact absurd rfl hr

/-- **C51** A tree without references has at most one meaning at a type. -/
theorem C51_decodes_unique {Γ : Nat → Ty} {ty : Ty} {y : Yaml} (hy : ∀ b, ¬RefersTo y b) {v v' : SVal}
    (h : Decodes Γ ty y v) (h' : Decodes Γ ty y v') : v = v' :=
  (decodes_reads h hy).unique (decodes_reads h' hy)

/-- **C51** A struct with a required field that the mapping does not have is reported as an error. -/
theorem C51_missing_field {Γ : Nat → Ty} (hΓ : Guarded Γ) {fs : List (Str × Ty)} {k : Str} {t : Ty}
    (hk : (k, t) ∈ fs) (ht : ¬OptionTy Γ t) {y : Yaml} (hy : ∀ b, ¬RefersTo y b) {es : List (Str × Yaml)}
    (he : mapPairs y = some es) (hno : ∀ w, (k, w) ∉ es) :
    ∃ n, ∀ m, n ≤ m → fromYaml Γ m (.struct fs) y = .err := by
  refine C51_deserialize_error hΓ _ hy fun v h => ?_
  cases h with
  | struct he' hn h1 hv hm hmv =>
    rw [he] at he'
    cases he'
    exact ht (hm k t hk hno)

/-- A struct with a number, an optional text and a list of flags. -/
def serverTy : Ty :=
  .struct [(c!"port", .int .u16), (c!"name", .option .str), (c!"flags", .seq .bool)]

/-- The mapping `{flags: [on, No], extra: x, port: "8080"}`. -/
def serverTree : Yaml :=
  .inlineHash [(c!"flags", .inlineArray [.unquotedString c!"on", .unquotedString c!"No"]),
    (c!"extra", .unquotedString c!"x"), (c!"port", .unquotedString c!"8080")]

theorem serverTree_noRefs (b : Str) : ¬RefersTo serverTree b := by
  intro h
  rcases within_inv h with h | ⟨c, hc, h⟩
  · cases h
  · cases hc with
    | inlineHash hm =>
      simp only [List.mem_cons, Prod.mk.injEq, List.not_mem_nil, or_false] at hm
      rcases hm with ⟨-, rfl⟩ | ⟨-, rfl⟩ | ⟨-, rfl⟩
      · rcases within_inv h with h | ⟨c, hc, h⟩
        · cases h
        · cases hc with
          | inlineArray hm =>
            simp only [List.mem_cons, List.not_mem_nil, or_false] at hm
            rcases hm with rfl | rfl <;> exact noRefs_plain _ b h
      · exact noRefs_plain _ b h
      · exact noRefs_plain _ b h

/-- Not vacuous: the mapping means a server with port 8080, no name and two flags. -/
example (Γ : Nat → Ty) : Decodes Γ serverTy serverTree
    (.struct [(c!"port", .int 8080), (c!"name", .none), (c!"flags", .seq [.bool true, .bool false])]) :=
  (C51_deserialize_exact Γ serverTy serverTree_noRefs _).1 ⟨3, by kernel_rfl⟩

/-- Not vacuous: without the port it is an error. -/
example : ∃ n, ∀ m, n ≤ m →
    fromYaml (fun _ => .unit) m serverTy (.inlineHash [(c!"flags", .inlineArray [])]) = .err :=
  C51_missing_field ⟨fun _ => 1, fun _ => by simp [inputFreeSteps]⟩ (k := c!"port") (t := .int .u16) (.head _)
    (by rintro (⟨u, h⟩ | ⟨n, u, h, -⟩) <;> cases h)
    (by
      intro b h
      rcases within_inv h with h | ⟨c, hc, h⟩
      · cases h
      · cases hc with
        | inlineHash hm =>
          simp only [List.mem_cons, Prod.mk.injEq, List.not_mem_nil, or_false] at hm
          obtain ⟨-, rfl⟩ := hm
          rcases within_inv h with h | ⟨c, hc, h⟩
          · cases h
          · cases hc with
            | inlineArray hm => cases hm)
    rfl (by intro w h; simp at h)

/-- **C52** Whatever the tree, references and cycles included: a deserialized value has the requested type. -/
theorem C52_type_soundness (Γ : Nat → Ty) (n : Nat) (ty : Ty) (y : Yaml) {v : SVal} (h : fromYaml Γ n ty y = .ok v) :
    OfTy Γ ty v := by
  rw [fromYaml, Out.bind_eq_ok] at h
  obtain ⟨r, h1, h2⟩ := h
  cases h2
  exact de_ofTy h1

/-- **C52** So it is with documents. -/
theorem C52_document_type_soundness (T : CharTables) (Γ : Nat → Ty) (n : Nat) (ty : Ty) (s : Str) {v : SVal}
    (h : fromYamlStr T Γ n ty s = .ok v) : OfTy Γ ty v := by
  rw [fromYamlStr, Out.bind_eq_ok] at h
  obtain ⟨doc, -, h⟩ := h
  split at h
  · exact C52_type_soundness Γ n ty _ h
  · cases h

/-- Not vacuous: a document with an anchor. -/
example : fromYamlStr asciiTables (fun _ => .struct [(c!"k", .int .i8)]) 5
    (.struct [(c!"a", .ref 0), (c!"b", .option (.ref 0))]) c!"---\na: &x\n  k: -5\nb: *x\n" =
    .ok (.struct [(c!"a", .struct [(c!"k", .int (-5))]), (c!"b", .some (.struct [(c!"k", .int (-5))]))]) := by
  kernel_rfl

end YamlSubset
