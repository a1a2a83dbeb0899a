import Verif.Lemmas.Evolve
import Verif.Props.Unread
import Verif.Props.Portable
import Verif.Lemmas.RoundTripExact
import Verif.Lemmas.KernelRfl

/-! # C82: types can change without breaking files -/

namespace YamlSubset

open Spec

variable {T : CharTables}

/-- **C82** A tree without references that is read at a type is also read at every later version of the type, and the value is the old one without the dropped fields and with
`None` in the new fields. The names of the new fields must not be keys of the tree already. -/
theorem C82_types_evolve {Γ Γ' : Nat → Ty} {N : List Str} {R : Nat → Nat → Prop} (hR : ∀ n m, R n m → Evolves Γ Γ' N R (Γ n) (Γ' m)) {ty ty' : Ty} (he : Evolves Γ Γ' N R ty ty')
    {y : Yaml} (hy : ∀ b, ¬RefersTo y b) (hN : ∀ k ∈ N, ¬KeyIn k y) {v : SVal} (h : ∃ n, fromYaml Γ n ty y = .ok v) :
    ∃ v', Adapted N v v' ∧ ∃ n, fromYaml Γ' n ty' y = .ok v' := by
  obtain ⟨v', h1, h2⟩ := Evo.decodes_evolves hR ((C51_deserialize_exact Γ ty hy v).1 h) he hN
  exact ⟨v', h2, (C51_deserialize_exact Γ' ty' hy v').2 h1⟩

/-- **C82** The same for files. -/
theorem C82_files_stay_readable (T : CharTables) {Γ Γ' : Nat → Ty} {N : List Str} {R : Nat → Nat → Prop} (hR : ∀ n m, R n m → Evolves Γ Γ' N R (Γ n) (Γ' m)) {ty ty' : Ty}
    (he : Evolves Γ Γ' N R ty ty') {s : Str} {d : Document} (hp : parseYamlFile T s = .ok d) (hd : ∀ root ∈ yamlItems d, (∀ b, ¬RefersTo root b) ∧ ∀ k ∈ N, ¬KeyIn k root)
    {v : SVal} (h : ∃ n, fromYamlStr T Γ n ty s = .ok v) : ∃ v', Adapted N v v' ∧ ∃ n, fromYamlStr T Γ' n ty' s = .ok v' := by
  obtain ⟨root, n, hr, hv⟩ := (docReads_text T Γ ty hp v).2 h
  obtain ⟨h1, h2⟩ := hd root (by simp [hr])
  obtain ⟨v', h3, m, h4⟩ := C82_types_evolve hR he h1 h2 ⟨n, hv⟩
  exact ⟨v', h3, (docReads_text T Γ' ty' hp v').1 ⟨root, m, hr, h4⟩⟩

/-- **C82** What the old program has written, the new program can read: for values that survive serialization (C09). -/
theorem C82_written_by_old {Γ Γ' : Nat → Ty} {N : List Str} {R : Nat → Nat → Prop} (hR : ∀ n m, R n m → Evolves Γ Γ' N R (Γ n) (Γ' m)) {ty ty' : Ty} (he : Evolves Γ Γ' N R ty ty')
    {v : SVal} (ht : HasTy Γ ty v) (hl : Lossless v) {y : Yaml} (hs : v.ser = some y) (hN : ∀ k ∈ N, ¬KeyIn k y) :
    ∃ v', Adapted N v v' ∧ ∃ n, fromYaml Γ' n ty' y = .ok v' := by
  obtain ⟨n, hn⟩ := C09_typed_roundtrip Γ ty v ht hl y hs
  exact C82_types_evolve hR he (noRefs_ser ht hs) hN ⟨n, hn n (Nat.le_refl _)⟩

/-- **C82** A new field must be optional. -/
theorem C82_counterexample_required (Γ : Nat → Ty) :
    fromYamlStr asciiTables Γ 9 (.struct [(c!"a", .str)]) c!"---\na: 1\n" = .ok (.struct [(c!"a", .str c!"1")]) ∧
    fromYamlStr asciiTables Γ 9 (.struct [(c!"a", .str), (c!"b", .str)]) c!"---\na: 1\n" = .err :=
  ⟨by kernel_rfl, by kernel_rfl⟩

/-- **C82** The name of a new field must be new in the file, too: entries that the old type ignores need not fit the new one. -/
theorem C82_counterexample_key (Γ : Nat → Ty) :
    fromYamlStr asciiTables Γ 9 (.struct [(c!"a", .str)]) c!"---\na: 1\nb: x\n" = .ok (.struct [(c!"a", .str c!"1")]) ∧
    fromYamlStr asciiTables Γ 9 (.struct [(c!"a", .str), (c!"b", .option .bool)]) c!"---\na: 1\nb: x\n" = .err :=
  ⟨by kernel_rfl, by kernel_rfl⟩

/-! ## examples -/

theorem no_key_map {k : Str} {y : Yaml} {es : List (Str × Yaml)} (hy : mapPairs y = some es) (h : ∀ e ∈ es, e.1 ≠ k ∧ ¬KeyIn k e.2) : ¬KeyIn k y := by
  intro hk
  cases hk with
  | here hy' hm => rw [hy] at hy'; cases hy'; exact (h _ hm).1 rfl
  | seq hy' => cases y <;> simp [seqElements, mapPairs] at hy hy'
  | map hy' hm hk => rw [hy] at hy'; cases hy'; exact (h _ hm).2 hk

theorem no_key_seq {k : Str} {y : Yaml} {ys : List Yaml} (hy : seqElements y = some ys) (h : ∀ w ∈ ys, ¬KeyIn k w) : ¬KeyIn k y := by
  intro hk
  cases hk with
  | here hy' => cases y <;> simp [seqElements, mapPairs] at hy hy'
  | seq hy' hm hk => rw [hy] at hy'; cases hy'; exact h _ hm hk
  | map hy' => cases y <;> simp [seqElements, mapPairs] at hy hy'

/-- The old program: a tree of jobs. -/
def oldJob : Nat → Ty := fun _ => .struct [(c!"name", .str), (c!"size", .int .u8), (c!"mode", .enum [(c!"Fast", .unit)]), (c!"after", .seq (.ref 0))]

/-- The new program: the size is optional and larger, the mode is dropped, there is a new field. -/
def newJob : Nat → Ty := fun _ => .struct [(c!"after", .seq (.ref 0)), (c!"size", .option (.int .i32)), (c!"owner", .option .str), (c!"name", .newtype .str)]

theorem job_evolves {R : Nat → Nat → Prop} (hR : R 0 0) : Evolves oldJob newJob [c!"owner"] R (oldJob 0) (newJob 0) := by
  refine .struct (by decide) (by decide) ?_ ?_ ?_ ?_
  · intro k t' h hk
    simp only [List.mem_cons, List.not_mem_nil, or_false, Prod.mk.injEq] at h hk
    subst hk
    rcases h with ⟨h, rfl⟩ | ⟨h, rfl⟩ | ⟨h, rfl⟩ | ⟨h, rfl⟩
    · exact absurd h (by decide)
    · exact .inl ⟨_, rfl⟩
    · exact .inl ⟨_, rfl⟩
    · exact absurd h (by decide)
  · intro k t' h hk
    simp only [List.mem_cons, List.not_mem_nil, or_false, Prod.mk.injEq] at h hk
    rcases h with ⟨rfl, rfl⟩ | ⟨rfl, rfl⟩ | ⟨rfl, rfl⟩ | ⟨rfl, rfl⟩
    · exact ⟨_, by simp; rfl⟩
    · exact ⟨.int .u8, by simp⟩
    · exact absurd rfl hk
    · exact ⟨.str, by simp⟩
  · intro k t t' h h' hk ho
    simp only [List.mem_cons, List.not_mem_nil, or_false, Prod.mk.injEq] at h
    rcases h with ⟨rfl, rfl⟩ | ⟨rfl, rfl⟩ | ⟨rfl, rfl⟩ | ⟨rfl, rfl⟩ <;> obtain ⟨u, hu⟩ | ⟨n, u, hu, _⟩ := ho <;> cases hu
  · intro k t t' h h' hk
    simp only [List.mem_cons, List.not_mem_nil, or_false, Prod.mk.injEq] at h h' hk
    rcases h with ⟨rfl, rfl⟩ | ⟨rfl, rfl⟩ | ⟨rfl, rfl⟩ | ⟨rfl, rfl⟩ <;> rcases h' with ⟨h', rfl⟩ | ⟨h', rfl⟩ | ⟨h', rfl⟩ | ⟨h', rfl⟩ <;>
      first
      | exact absurd h' (by decide)
      | exact .wrap .str
      | exact .seq (.ref hR)
      | exact .optional (.int (fun i h => by simp only [InRange] at h ⊢; revert h; simp [bits]; omega) (by simp [Signed]))

/-- A file of the old program, read by both. -/
example : let s := c!"---\nname: a\nsize: 3 # three\nmode: Fast\nafter:\n  - {name: b, size: 1, mode: Fast, after: []}\n"
    (∃ n, fromYamlStr asciiTables oldJob n (.ref 0) s = .ok (.struct [(c!"name", .str c!"a"), (c!"size", .int 3), (c!"mode", .unitVariant c!"Fast"), (c!"after", .seq
      [.struct [(c!"name", .str c!"b"), (c!"size", .int 1), (c!"mode", .unitVariant c!"Fast"), (c!"after", .seq [])]])])) ∧
    (∃ n, fromYamlStr asciiTables newJob n (.ref 0) s = .ok (.struct [(c!"after", .seq [.struct [(c!"after", .seq []), (c!"size", .some (.int 1)), (c!"owner", .none),
      (c!"name", .newtype (.str c!"b"))]]), (c!"size", .some (.int 3)), (c!"owner", .none), (c!"name", .newtype (.str c!"a"))])) ∧
    ∀ v, (∃ n, fromYamlStr asciiTables oldJob n (.ref 0) s = .ok v) → ∃ v', Adapted [c!"owner"] v v' ∧ ∃ n, fromYamlStr asciiTables newJob n (.ref 0) s = .ok v' := by
  intro s
  refine ⟨⟨20, by kernel_rfl⟩, ⟨20, by kernel_rfl⟩, fun v h => ?_⟩
  have hp : parseYamlFile asciiTables s = .ok (docOf (.hash [kv c!"name" (plain c!"a"), kv c!"size" (plain c!"3"), .inlineComment c!" three", kv c!"mode" (plain c!"Fast"),
      kv c!"after" (.array [elem (.inlineHash [(c!"name", plain c!"b"), (c!"size", plain c!"1"), (c!"mode", plain c!"Fast"), (c!"after", .inlineArray [])])])])) := by kernel_rfl
  refine C82_files_stay_readable asciiTables (R := fun n m => n = 0 ∧ m = 0) ?_ (.ref ⟨rfl, rfl⟩) hp ?_ h
  · rintro n m ⟨rfl, rfl⟩
    exact job_evolves ⟨rfl, rfl⟩
  · intro root hroot
    simp only [docOf, yamlItems, List.filterMap_cons, List.filterMap_nil, List.mem_singleton] at hroot
    subst hroot
    have leaf : ∀ s, NoRefs (plain s) := fun s => (noRefs_iff _).2 ⟨by nofun, fun c hc => by cases hc⟩
    refine ⟨(noRefs_hash _).2 fun k a v h => ?_, fun k hk => ?_⟩
    · simp only [kv, List.mem_cons, HashData.element.injEq, HashElement.mk.injEq, AliasedYaml.mk.injEq, List.not_mem_nil, or_false, reduceCtorEq, false_or] at h
      rcases h with ⟨-, -, rfl⟩ | ⟨-, -, rfl⟩ | ⟨-, -, rfl⟩ | ⟨-, -, rfl⟩
      · exact leaf _
      · exact leaf _
      · exact leaf _
      · refine (noRefs_array _).2 fun a v h => ?_
        simp only [elem, List.mem_cons, ArrayData.element.injEq, AliasedYaml.mk.injEq, List.not_mem_nil, or_false] at h
        obtain ⟨-, rfl⟩ := h
        refine (noRefs_iff _).2 ⟨by nofun, fun c hc => ?_⟩
        cases hc with
        | inlineHash h =>
          simp only [List.mem_cons, Prod.mk.injEq, List.not_mem_nil, or_false] at h
          rcases h with ⟨-, rfl⟩ | ⟨-, rfl⟩ | ⟨-, rfl⟩ | ⟨-, rfl⟩
          · exact leaf _
          · exact leaf _
          · exact leaf _
          · exact (noRefs_iff _).2 ⟨by nofun, fun c hc => by cases hc with | inlineArray h => cases h⟩
    · have e : k = c!"owner" := by simpa using hk
      subst e
      refine no_key_map rfl fun e he => ?_
      simp only [entriesOf, kv, List.filterMap_cons, List.filterMap_nil, List.mem_cons, List.not_mem_nil, or_false] at he
      have scalar : ∀ s, ¬KeyIn c!"owner" (plain s) := fun s => Evo.fresh_plain (N := [c!"owner"]) _ (List.mem_cons_self ..)
      rcases he with rfl | rfl | rfl | rfl
      · exact ⟨by decide, scalar _⟩
      · exact ⟨by decide, scalar _⟩
      · exact ⟨by decide, scalar _⟩
      · refine ⟨by decide, no_key_seq rfl fun w hw => ?_⟩
        simp only [elementsOf, elem, List.filterMap_cons, List.filterMap_nil, List.mem_cons, List.not_mem_nil, or_false] at hw
        subst hw
        refine no_key_map rfl fun e he => ?_
        simp only [List.mem_cons, List.not_mem_nil, or_false] at he
        rcases he with rfl | rfl | rfl | rfl
        · exact ⟨by decide, scalar _⟩
        · exact ⟨by decide, scalar _⟩
        · exact ⟨by decide, scalar _⟩
        · exact ⟨by decide, no_key_seq rfl (by simp)⟩

end YamlSubset
