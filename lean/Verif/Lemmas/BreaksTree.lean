import Verif.Lemmas.ParseGood
import Verif.Lemmas.BreaksAct

/-! # Parsing texts that differ in their line breaks -/

namespace YamlSubset

open Peg Spec

variable {T : CharTables}

theorem byteLen_eq_zero {t : Str} : byteLen t = 0 ↔ t = [] := by
  constructor
  · intro h
    cases t with
    | nil => rfl
    | cons c t =>
      have := Char.utf8Size_pos c
      simp [byteLen] at h
      omega
  · rintro rfl; rfl

theorem replicate_filter (n : Nat) : (List.replicate n ([] : Str)).filter (· ≠ []) = [] := by
  simp

theorem empty_lines_rel (t : Str) : SameOut VLinesH (Consume.blockEmptyLines t) (Consume.blockEmptyLines (unixBreaks t)) := by
  refine ⟨_, _, rfl, rfl, ⟨by rw [replicate_filter, replicate_filter], ?_⟩, ?_⟩
  · intro h
    rw [List.mem_replicate] at h
    have h0 : byteLen (unixBreaks t) = 0 := by
      by_cases h0 : byteLen (unixBreaks t) = 0
      · exact h0
      · exact absurd ⟨h0, rfl⟩ h
    have : t = [] := ub_eq_nil (byteLen_eq_zero.1 h0)
    subst this
    rfl
  · cases t with
    | nil => rfl
    | cons c t =>
      have h1 : byteLen (c :: t) ≠ 0 := fun h => by cases byteLen_eq_zero.1 h
      have h2 : byteLen (unixBreaks (c :: t)) ≠ 0 := fun h => by cases ub_eq_nil (byteLen_eq_zero.1 h)
      rw [List.head?_replicate, List.head?_replicate, if_neg h1, if_neg h2]

theorem trailing_rel (t : Str) : SameOut VLines (Consume.stringMultilineTrailing t) (Consume.stringMultilineTrailing (unixBreaks t)) := by
  refine ⟨_, _, rfl, rfl, ⟨by rw [replicate_filter, replicate_filter], ?_⟩⟩
  intro h
  rw [List.mem_replicate] at h
  have h0 : '\n' ∉ unixBreaks t := by
    intro hm
    exact h ⟨by have := List.count_pos_iff.2 hm; omega, rfl⟩
  rw [ub_line (ub_newline.1 h0)]

set_option maxHeartbeats 800000 in
/-- Each consumer function gives related results. -/
theorem act_rel {r : Rule} {s rest : Str} {k k' : List Str} {us : List (Tree Rule)} (hq : r.quotedPart = false)
    (hy : Yes (yamlGrammar T) (r.body T) s k us rest k') {ks ks' : Kids} (hkids : r.kind = .normal → kidsOf r (ks.map Prod.fst))
    (hk : KidsRel ks ks') : SameOut (VR r) (act r (consumed s rest) ks) (act r (unixBreaks (consumed s rest)) ks') := by
  cases r
  case comment_text => rw [consumed_line lm_comment_text hy]; exact VRel.same _
  case alias_name => rw [consumed_line lm_alias_name hy]; exact VRel.same _
  case hash_key => rw [consumed_line lm_hash_key hy]; exact VRel.same _
  case unquoted_string => rw [consumed_line lm_unquoted hy]; exact VRel.same _
  case unquoted_inline_string => rw [consumed_line lm_unquoted_inline hy]; exact VRel.same _
  case block_string => rw [consumed_line lm_block_string hy]; exact VRel.same _
  case string_block_chomping =>
    rw [consumed_line lm_chomping hy]
    exact (SameOut.eq (Consume.stringBlockChomping _)).mono fun a b h => h ▸ VRel.same a
  case string_multiline_indent =>
    rw [consumed_line lm_indent hy]
    exact (SameOut.eq (Consume.stringMultilineIndent _)).mono fun a b h => h ▸ VRel.same a
  case block_empty_lines => exact empty_lines_rel _
  case string_multiline_trailing => exact trailing_rel _
  case comment => exact oneStr_rel (hkids rfl) hk rfl
  case commentnl => exact oneStr_rel (hkids rfl) hk rfl
  case alias => exact oneStr_rel (hkids rfl) hk rfl
  case anchor =>
    obtain ⟨o, o', rfl, rfl, h1⟩ := kidsr1 (hkids rfl) hk
    refine h1.bind fun v v' hv => (asStr_rel hv).bind ?_
    rintro c c' rfl
    exact VRel.same _
  case inline_hash_element =>
    obtain ⟨o, o', p, p', rfl, rfl, h1, h2⟩ := kidsr2 (hkids rfl) hk
    refine h1.bind fun v v' hv => (asStr_rel hv).bind ?_
    rintro c c' rfl
    exact h2.bind fun v v' hv => (asYaml_rel hv).bind fun y y' hy => VRel.entry hy
  case inline_hash =>
    exact (many_rel (r := .inline_hash_element) (as := Val.asEntry) (Q := EntryRel) (fun v v' hv => asEntry_rel hv) hk).bind
      fun l l' hl => VRel.yaml (.flowHash (entries_rel hl))
  case inline_array =>
    exact (many_rel (r := .inline_array_value) (as := Val.asYaml) (Q := Alike) (fun v v' hv => asYaml_rel hv) hk).bind
      fun l l' hl => VRel.yaml (.flowArray (values_rel hl))
  case inline_array_string => rcases hkids rfl with hl | hl | hl <;> exact pass_rel hl hk rfl
  case inline_array_value => rcases hkids rfl with hl | hl | hl | hl <;> exact pass_rel hl hk rfl
  case string => rcases hkids rfl with hl | hl | hl <;> exact pass_rel hl hk rfl
  case inline_value => rcases hkids rfl with hl | hl | hl | hl <;> exact pass_rel hl hk rfl
  case yaml_value => rcases hkids rfl with hl | hl | hl | hl | hl <;> exact pass_rel hl hk rfl
  case array => rcases hkids rfl with hl | hl <;> exact pass_rel hl hk rfl
  case document => rcases hkids rfl with hl | hl <;> exact pass_rel hl hk rfl
  case double_quoted_string =>
    obtain ⟨o, o', rfl, rfl, h1⟩ := kidsr1 (hkids rfl) hk
    refine h1.bind fun v v' hv => ?_
    have hv : VRel v v' := hv
    cases hv <;> first | exact (SameOut.eq _).mono fun a b h => h ▸ VRel.same a | trivial
  case single_quoted_string =>
    obtain ⟨o, o', rfl, rfl, h1⟩ := kidsr1 (hkids rfl) hk
    refine h1.bind fun v v' hv => ?_
    have hv : VRel v v' := hv
    cases hv <;> first | exact (SameOut.eq _).mono fun a b h => h ▸ VRel.same a | trivial
  case string_multiline_content_part => exact content_part_rel (hkids rfl) hk
  case string_multiline_content =>
    obtain ⟨l, -, hl⟩ := hkids rfl
    exact content_rel hl hk
  case string_multiline_folded => exact multiline_rel (mk := .foldedString) (fun c l l' h => .folded h) (hkids rfl) hk
  case string_multiline_literal => exact multiline_rel (mk := .literalString) (fun c l l' h => .literal h) (hkids rfl) hk
  case aliased_yaml_value =>
    rcases hkids rfl with hl | hl
    · obtain ⟨o, o', p, p', rfl, rfl, h1, h2⟩ := kidsr2 hl hk
      exact anchored_rel h1 h2
    · obtain ⟨o, o', rfl, rfl, h1⟩ := kidsr1 hl hk
      exact plain_rel h1
  case block_array_aliased_yaml_value =>
    rcases hkids rfl with hl | hl <;>
    · obtain ⟨o, o', rfl, rfl, h1⟩ := kidsr1 hl hk
      exact h1.bind fun v v' hv => (asAliased_rel hv).bind fun a a' ha => ha.val
  case alternative_aliased_yaml_value =>
    rcases hkids rfl with (hl | hl) | hl | hl
    · obtain ⟨o, o', p, p', rfl, rfl, h1, h2⟩ := kidsr2 hl hk
      exact anchored_rel h1 h2
    · obtain ⟨o, o', p, p', rfl, rfl, h1, h2⟩ := kidsr2 hl hk
      exact anchored_rel h1 h2
    · obtain ⟨o, o', rfl, rfl, h1⟩ := kidsr1 hl hk
      exact plain_rel h1
    · obtain ⟨o, o', rfl, rfl, h1⟩ := kidsr1 hl hk
      exact plain_rel h1
  case hash_element =>
    obtain ⟨o, o', p, p', rfl, rfl, h1, h2⟩ := kidsr2 (hkids rfl) hk
    refine h1.bind fun v v' hv => (asStr_rel hv).bind ?_
    rintro c c' rfl
    refine h2.bind fun v v' hv => (asAliased_rel hv).bind fun a a' ha => ?_
    cases ha with
    | mk h => exact VRel.hashElement h
  case first_hash_element => exact first_hash_rel (hkids rfl) hk
  case hash_element_data => exact hash_data_rel (hkids rfl) hk
  case hash =>
    obtain ⟨l, -, hl⟩ := hkids rfl
    exact hash_like_rel hl hk
  case alternative_hash_continuation =>
    obtain ⟨l, -, hl⟩ := hkids rfl
    exact continuation_rel hl hk
  case alternative_hash => exact alternative_hash_rel (hkids rfl) hk
  case block_array_element =>
    obtain ⟨o, o', rfl, rfl, h1⟩ := kidsr1 (hkids rfl) hk
    refine h1.bind fun v v' hv => (asAliased_rel hv).bind fun a a' ha => ?_
    cases ha with
    | mk h => exact VRel.arrayDatum h
  case first_block_array_element => exact first_array_rel (hkids rfl) hk
  case block_array_data => exact array_data_rel (hkids rfl) hk
  case block_array =>
    obtain ⟨l, -, hl⟩ := hkids rfl
    exact array_like_rel hl hk
  case alternative_array =>
    obtain ⟨l, -, hl⟩ := hkids rfl
    exact alternative_array_rel hl hk
  case commentnls =>
    refine (many_rel (r := .commentnl) (as := Val.asStr) (Q := Eq) (fun v v' hv => asStr_rel hv) hk).bind fun l l' hl => ?_
    rw [hl.eq]; exact VRel.same _
  case leading_comments =>
    refine (many_rel (r := .commentnl) (as := Val.asStr) (Q := Eq) (fun v v' hv => asStr_rel hv) hk).bind fun l l' hl => ?_
    rw [hl.eq]; exact VRel.same _
  case yaml =>
    obtain ⟨l, -, hl⟩ := hkids rfl
    exact yaml_rel hl hk
  all_goals first | exact trivial | (cases hq; done)

theorem TreeRel.root_eq {t t' : Tree Rule} (h : TreeRel T t t') : t.root = t'.root := by
  cases h with
  | quoted hr => exact hr
  | _ => rfl

theorem semKids_cons (t : Tree Rule) (ts : List (Tree Rule)) : semKids (t :: ts) = (t.root, sem t) :: semKids ts := by
  obtain ⟨r, x, cs⟩ := t; rw [semKids]; rfl

mutual
theorem sem_rel {t t' : Tree Rule} : TreeRel T t t' → SameOut (VR t.root) (sem t) (sem t')
  | .node hr hq hy h => by
    rw [sem, sem]
    refine act_rel hq hy ?_ (semKids_rel h)
    intro _
    rw [semKids_fst]
    exact kidsOf_ok _ _ (Yes.lang silentKids_ok hy)
  | .leaf hr hq hy => by
    rw [sem, sem]
    refine act_rel hq hy ?_ .nil
    intro h
    rw [hr] at h
    cases h
  | .eoi => VRel.same _
  | .quoted hr hq h => by
    have e : VR t.root = VRel := by rcases hq with h | h <;> (rw [h]; rfl)
    rw [e]
    exact h
theorem semKids_rel {ts ts' : List (Tree Rule)} : TreesRel T ts ts' → KidsRel (semKids ts) (semKids ts')
  | .nil => .nil
  | .cons h hs => by
    rw [semKids_cons, semKids_cons, ← h.root_eq]
    exact .cons (sem_rel h) (semKids_rel hs)
end

end YamlSubset
