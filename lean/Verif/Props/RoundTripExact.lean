import Verif.Lemmas.RoundTripExact
import Verif.Props.De
import Verif.Props.Decode
import Verif.Props.FoldExact

/-! # Which values survive serialization and deserialization (C09, C10) -/

namespace YamlSubset

open Spec

/-- **C09** A value of a type that is serialized comes back from deserialization at this type if and only if it is lossless: nothing
null-like is inside a `Some`, and no enum variant carries data (except for a variant named `~` with a content that is written as `~`). -/
theorem C09_typed_roundtrip_exact (Γ : Nat → Ty) (ty : Ty) (v : SVal) (ht : HasTy Γ ty v) (y : Yaml) (h : v.ser = some y) :
    (∃ n, fromYaml Γ n ty y = .ok v) ↔ Lossless v := by
  constructor
  · intro hd
    have hr := noRefs_ser ht h
    rw [C51_deserialize_exact Γ ty hr] at hd
    exact lossless_of_decodes ht h (restyle_refl y hr) hd
  · intro hl
    obtain ⟨n, hn⟩ := C09_typed_roundtrip Γ ty v ht hl y h
    exact ⟨n, hn n (Nat.le_refl n)⟩

/-- Both directions are used: a value that comes back, two that do not, and the odd case. -/
example : (∃ n, fromYaml (fun _ => .any) n (.option .str) (.unquotedString c!"abc") = .ok (.some (.str c!"abc"))) ∧
    (¬∃ n, fromYaml (fun _ => .any) n (.option .str) (.unquotedString c!"NULL") = .ok (.some (.str c!"NULL"))) ∧
    (¬∃ n, fromYaml (fun _ => .any) n (.enum [(c!"A", .newtype (.int .u8))]) (.unquotedString c!"5") =
      .ok (.newtypeVariant c!"A" (.int 5))) ∧
    ∃ n, fromYaml (fun _ => .any) n (.enum [(c!"~", .newtype .unit)]) (.unquotedString c!"~") =
      .ok (.newtypeVariant c!"~" .unit) := by
  refine ⟨?_, ?_, ?_, ?_⟩
  · refine (C09_typed_roundtrip_exact _ _ (.some (.str c!"abc")) (.some (.str _)) _ rfl).2 (.some (.str _) fun h => ?_)
    cases h with
    | str h => exact absurd h (by decide)
  · intro h
    have := (C09_typed_roundtrip_exact _ _ (.some (.str c!"NULL")) (.some (.str _)) _ rfl).1 h
    cases this with
    | some h hn => exact hn (.str (.inr rfl))
  · intro h
    have ht : HasTy (fun _ => .any) (.enum [(c!"A", .newtype (.int .u8))]) (.newtypeVariant c!"A" (.int 5)) :=
      .newtypeVariant (t := .int .u8) rfl (.int (by decide) (by decide))
    have := (C09_typed_roundtrip_exact _ _ _ ht _ rfl).1 h
    nomatch this
  · have ht : HasTy (fun _ => .any) (.enum [(c!"~", .newtype .unit)]) (.newtypeVariant c!"~" .unit) :=
      .newtypeVariant (t := .unit) rfl .unit
    exact (C09_typed_roundtrip_exact _ _ _ ht _ rfl).2 (.newtypeVariant .unit)

/-- **C10** If the tree of a value is made pretty before it is deserialized, the value comes back if and only if it is lossless (C09) and, outside
flow context, every string that `pretty` folds survives folding (C02). -/
theorem C10_pretty_roundtrip_exact (Γ : Nat → Ty) (ty : Ty) (v : SVal) (ht : HasTy Γ ty v) (y : Yaml) (h : v.ser = some y)
    (inInline childOfArray : Bool) :
    (∃ n, fromYaml Γ n ty (y.pretty inInline childOfArray) = .ok v) ↔
      Lossless v ∧ (inInline = false → ∀ z s, InBlock z y → IsFolded z s → SurvivesFolding 90 s) := by
  have hr := noRefs_ser ht h
  have hp := restyle_pretty y hr inInline childOfArray
  have key : (∃ n, fromYaml Γ n ty (y.pretty inInline childOfArray) = .ok v) ↔
      Lossless v ∧ dataOf (y.pretty inInline childOfArray) = dataOf y := by
    constructor
    · intro hd
      rw [C51_deserialize_exact Γ ty hp.noRefs] at hd
      exact ⟨lossless_of_decodes ht h hp hd, data_of_decodes ht h hp hd⟩
    · rintro ⟨hl, hd⟩
      obtain ⟨n, hn⟩ := de_repr ((repr_ser ht hl h).pretty_of_data _ _ hd)
      exact ⟨n, fromYaml_of_reads hn (Nat.le_refl n)⟩
  rw [key]
  cases inInline with
  | true => simp [C32_pretty_data_in_flow]
  | false => simp [C32_pretty_data_iff]

set_option maxRecDepth 20000 in
/-- The condition on folding is needed: a long word that has to be quoted does not come back in block context, but it does in flow context. -/
example : (¬∃ n, fromYaml (fun _ => .any) n .str ((strToYaml ('#' :: List.replicate 91 'a')).pretty false false) = .ok (.str ('#' :: List.replicate 91 'a'))) ∧
    ∃ n, fromYaml (fun _ => .any) n .str ((strToYaml ('#' :: List.replicate 91 'a')).pretty true false) = .ok (.str ('#' :: List.replicate 91 'a')) := by
  constructor
  · rw [C10_pretty_roundtrip_exact _ _ _ (.str _) _ rfl]
    rintro ⟨-, h⟩
    have hf : IsFolded (.singleQuotedString [.string ('#' :: List.replicate 91 'a')]) (parseSingleQuoted [.string ('#' :: List.replicate 91 'a')]) :=
      .singleQuoted _ (by decide +kernel) (by simp)
    have := h rfl _ _ .here hf
    rw [← C02_folded_iff 90 (by decide)] at this
    exact absurd this (by unfold FoldingKeeps; decide +kernel)
  · exact (C10_pretty_roundtrip_exact _ _ _ (.str _) _ rfl _ _).2 ⟨.str _, nofun⟩

end YamlSubset
