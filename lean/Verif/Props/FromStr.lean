import Verif.Props.De
import Verif.Props.FindExact
import Verif.Props.Parse
import Verif.Lemmas.KernelRfl

/-! # Deserializing a text (C47) -/

namespace YamlSubset

open Spec

/-- **C47.** Deserializing a text parses it and deserializes the one item of the document that is not a comment; an error of the
parser is an error, a panic of the parser a panic. -/
theorem C47_text (T : CharTables) (Γ : Nat → Ty) (n : Nat) (ty : Ty) (s : Str) :
    (∀ d, parseYamlFile T s = .ok d → ∃ root, yamlItems d = [root] ∧ fromYamlStr T Γ n ty s = fromYaml Γ n ty root) ∧
      (parseYamlFile T s = .err → fromYamlStr T Γ n ty s = .err) ∧
      (parseYamlFile T s = .panic → fromYamlStr T Γ n ty s = .panic) := by
  refine ⟨fun d hp => ?_, fun hp => ?_, fun hp => ?_⟩
  · obtain ⟨pre, post, root, hi, -⟩ := (C39_parsed_well_formed hp).items
    refine ⟨root, ?_, ?_⟩
    · have hc : ∀ (cs : List Str) (rest : List DocumentData), yamlItems ⟨d.leadingComments, cs.map .comment ++ rest⟩ =
          yamlItems ⟨d.leadingComments, rest⟩ := by
        intro cs rest
        induction cs with
        | nil => rfl
        | cons c t ih => exact ih
      have hd : d = ⟨d.leadingComments, pre.map .comment ++ ([.yaml root] ++ (post.map .comment ++ []))⟩ := by
        rw [List.append_nil, ← List.append_assoc, ← hi]
      rw [hd, hc]
      exact congrArg (root :: ·) (hc post [])
    · have hf : ∀ (cs : List Str) (rest : List DocumentData), (cs.map DocumentData.comment ++ rest).findSome? (fun
          | .yaml y => some y
          | .comment _ => none) = rest.findSome? (fun
          | .yaml y => some y
          | .comment _ => none) := by
        intro cs rest
        induction cs with
        | nil => rfl
        | cons c t ih => exact ih
      simp only [fromYamlStr, hp, Out.bind, hi, List.append_assoc]
      have := hf pre ([.yaml root] ++ post.map .comment)
      split
      · next y hy =>
        have h2 := this.symm.trans hy
        simp only [List.singleton_append, List.findSome?_cons] at h2
        cases h2
        rfl
      · next hy =>
        have h2 := this.symm.trans hy
        simp only [List.singleton_append, List.findSome?_cons] at h2
        cases h2
  · rw [fromYamlStr, hp]; rfl
  · rw [fromYamlStr, hp]; rfl

/-- **C47.** Deserializing a text without bad block scalars never panics. -/
theorem C47_text_no_panic (T : CharTables) (Γ : Nat → Ty) (n : Nat) (ty : Ty) (s : Str) (h : ¬ BadBlockScalar T s) :
    (∃ v, fromYamlStr T Γ n ty s = .ok v) ∨ fromYamlStr T Γ n ty s = .err ∨ fromYamlStr T Γ n ty s = .oof := by
  obtain ⟨h1, h3, -⟩ := C47_text T Γ n ty s
  rcases C37_parse_no_panic T s h with hp | ⟨d, hp⟩
  · exact .inr (.inl (h3 hp))
  · obtain ⟨y, -, hy⟩ := h1 d hp
    rw [hy]; exact C47_no_panic Γ n ty y

/-- All cases occur: a value after a comment, only a comment, a bad block scalar. -/
example : fromYamlStr asciiTables (fun _ => .any) 9 (.seq .any) c!"---\n# c\n- a\n" = .ok (.seq [.str c!"a"]) := by kernel_rfl
example : fromYamlStr asciiTables (fun _ => .any) 9 .any c!"---\n# c\n" = .err := by kernel_rfl
example : fromYamlStr asciiTables (fun _ => .any) 9 .any c!"---\na: |0\n  b\n" = .panic := by kernel_rfl

end YamlSubset
