import Verif.Lemmas.BreaksSem

/-! # Consumer functions on related children -/

namespace YamlSubset

open Peg Spec

variable {T : CharTables}

theorem pass_rel {children : List Rule} {ks ks' : Kids} {r : Rule} (hl : ks.map Prod.fst = [r]) (h : KidsRel ks ks')
    (hv : VR r = VRel) : SameOut VRel (Consume.passYaml children ks) (Consume.passYaml children ks') := by
  obtain ⟨o, o', rfl, rfl, h1⟩ := kidsr1 hl h
  rw [hv] at h1
  simp only [Consume.passYaml]
  split
  · exact h1.bind fun v v' hv => (asYaml_rel hv).bind fun y y' hy => .yaml hy
  · trivial

theorem oneStr_rel {child : Rule} {ks ks' : Kids} (hl : ks.map Prod.fst = [child]) (h : KidsRel ks ks') (hv : VR child = VRel) :
    SameOut VRel (Consume.oneStr child ks) (Consume.oneStr child ks') := by
  obtain ⟨o, o', rfl, rfl, h1⟩ := kidsr1 hl h
  rw [hv] at h1
  simp only [Consume.oneStr, if_true]
  refine h1.bind fun v v' hv => (asStr_rel hv).bind ?_
  rintro s s' rfl
  exact .same _

theorem entries_rel {l l' : List (Str × Yaml)} (h : List2 EntryRel l l') : AlikeEntries l l' := by
  induction h with
  | nil => exact .nil
  | @cons a b _ _ h _ ih =>
    obtain ⟨k, v⟩ := a
    obtain ⟨k', v'⟩ := b
    obtain ⟨rfl, h⟩ := h
    exact .cons h ih

theorem values_rel {l l' : List Yaml} (h : List2 Alike l l') : AlikeValues l l' := by
  induction h with
  | nil => exact .nil
  | cons h _ ih => exact .cons h ih

theorem hash_like_rel {ks ks' : Kids} {l : List Rule} (hl : ks.map Prod.fst = .commentnls :: .first_hash_element :: l) (h : KidsRel ks ks') :
    SameOut VRel (Consume.hash ks) (Consume.hash ks') := by
  obtain ⟨o, o', t, t', rfl, rfl, h1, hl, h⟩ := kidsr_cons hl h
  obtain ⟨p, p', t, t', rfl, rfl, h2, hl, h⟩ := kidsr_cons hl h
  refine h1.bind fun v v' hv => (asStrs_rel hv).bind ?_
  rintro cs cs' rfl
  refine h2.bind fun v v' hv => (asHashData_rel hv).bind fun e e' he => ?_
  refine (manyThen_rel (r := .hash_element_data) (last := .commentnls) (as := Val.asHashData) (asLast := Val.asStrs) (Q := AlikeItems) (S := Eq)
     (fun v v' hv => asHashData_rel hv) (fun v v' hv => asStrs_rel hv) h).bind ?_
  rintro ⟨m, c⟩ ⟨m', c'⟩ ⟨hm, hc⟩
  obtain rfl : c = c' := hc
  exact .yaml (.hash ((((AlikeItems.refl _).append he).append (AlikeItems.flatten hm)).append (AlikeItems.refl _)))

theorem continuation_rel {ks ks' : Kids} {l : List Rule} (hl : ks.map Prod.fst = .commentnls :: .first_hash_element :: l) (h : KidsRel ks ks') :
    SameOut VRel (Consume.alternativeHashContinuation ks) (Consume.alternativeHashContinuation ks') := by
  obtain ⟨o, o', t, t', rfl, rfl, h1, hl, h⟩ := kidsr_cons hl h
  obtain ⟨p, p', t, t', rfl, rfl, h2, hl, h⟩ := kidsr_cons hl h
  refine h1.bind fun v v' hv => (asStrs_rel hv).bind ?_
  rintro cs cs' rfl
  refine h2.bind fun v v' hv => (asHashData_rel hv).bind fun e e' he => ?_
  refine (many_rel (r := .hash_element_data) (as := Val.asHashData) (Q := AlikeItems) (fun v v' hv => asHashData_rel hv) h).bind fun m m' hm => ?_
  exact .hashData (((AlikeItems.refl _).append he).append (AlikeItems.flatten hm))

theorem array_like_rel {ks ks' : Kids} {l : List Rule} (hl : ks.map Prod.fst = .commentnls :: .first_block_array_element :: l)
    (h : KidsRel ks ks') : SameOut VRel (Consume.blockArray ks) (Consume.blockArray ks') := by
  obtain ⟨o, o', t, t', rfl, rfl, h1, hl, h⟩ := kidsr_cons hl h
  obtain ⟨p, p', t, t', rfl, rfl, h2, hl, h⟩ := kidsr_cons hl h
  refine h1.bind fun v v' hv => (asStrs_rel hv).bind ?_
  rintro cs cs' rfl
  refine h2.bind fun v v' hv => (asArrayData_rel hv).bind fun e e' he => ?_
  refine (manyThen_rel (r := .block_array_data) (last := .commentnls) (as := Val.asArrayData) (asLast := Val.asStrs) (Q := AlikeElements) (S := Eq)
     (fun v v' hv => asArrayData_rel hv) (fun v v' hv => asStrs_rel hv) h).bind ?_
  rintro ⟨m, c⟩ ⟨m', c'⟩ ⟨hm, hc⟩
  obtain rfl : c = c' := hc
  exact .yaml (.array ((((AlikeElements.refl _).append he).append (AlikeElements.flatten hm)).append (AlikeElements.refl _)))

theorem alternative_array_rel {ks ks' : Kids} {l : List Rule}
    (hl : ks.map Prod.fst = .first_block_array_element :: .first_block_array_element :: l)
    (h : KidsRel ks ks') : SameOut VRel (Consume.alternativeArray ks) (Consume.alternativeArray ks') := by
  obtain ⟨o, o', t, t', rfl, rfl, h1, hl, h⟩ := kidsr_cons hl h
  obtain ⟨p, p', t, t', rfl, rfl, h2, hl, h⟩ := kidsr_cons hl h
  refine h1.bind fun v v' hv => (asArrayData_rel hv).bind fun d d' hd => ?_
  refine h2.bind fun v v' hv => (asArrayData_rel hv).bind fun e e' he => ?_
  refine (manyThen_rel (r := .block_array_data) (last := .commentnls) (as := Val.asArrayData) (asLast := Val.asStrs) (Q := AlikeElements) (S := Eq)
     (fun v v' hv => asArrayData_rel hv) (fun v v' hv => asStrs_rel hv) h).bind ?_
  rintro ⟨m, c⟩ ⟨m', c'⟩ ⟨hm, hc⟩
  obtain rfl : c = c' := hc
  exact .yaml (.array (((hd.append he).append (AlikeElements.flatten hm)).append (AlikeElements.refl _)))

theorem alternative_hash_rel {ks ks' : Kids} (hl : ks.map Prod.fst = [.first_hash_element, .alternative_hash_continuation, .commentnls] ∨
      ks.map Prod.fst = [.first_hash_element, .commentnls]) (h : KidsRel ks ks') :
    SameOut VRel (Consume.alternativeHash ks) (Consume.alternativeHash ks') := by
  rcases hl with hl | hl
  · obtain ⟨o, o', p, p', u, u', rfl, rfl, h1, h2, h3⟩ := kidsr3 hl h
    refine h1.bind fun v v' hv => (asHashData_rel hv).bind fun d d' hd => ?_
    refine h2.bind fun v v' hv => (asHashData_rel hv).bind fun e e' he => ?_
    refine h3.bind fun v v' hv => (asStrs_rel hv).bind ?_
    rintro cs cs' rfl
    exact .yaml (.hash ((hd.append he).append (AlikeItems.refl _)))
  · obtain ⟨o, o', p, p', rfl, rfl, h1, h2⟩ := kidsr2 hl h
    refine h1.bind fun v v' hv => (asHashData_rel hv).bind fun d d' hd => ?_
    refine h2.bind fun v v' hv => (asStrs_rel hv).bind ?_
    rintro cs cs' rfl
    exact .yaml (.hash (hd.append (AlikeItems.refl _)))

theorem ElementRel.item {e e' : HashElement} (h : ElementRel e e') {ds ds' : List HashData} (hs : AlikeItems ds ds') :
    AlikeItems (.element e :: ds) (.element e' :: ds') := by
  cases h with
  | mk h => exact .element h hs

theorem AliasedRel.val {a a' : AliasedYaml} (h : AliasedRel a a') : VRel (.aliased a) (.aliased a') := by
  cases h with
  | mk h => exact .aliased h

theorem hash_data_rel {ks ks' : Kids} (hl : ks.map Prod.fst = [.commentnls, .hash_element, .comment] ∨
      ks.map Prod.fst = [.commentnls, .hash_element]) (h : KidsRel ks ks') :
    SameOut VRel (Consume.hashElementData ks) (Consume.hashElementData ks') := by
  rcases hl with hl | hl
  · obtain ⟨o, o', p, p', u, u', rfl, rfl, h1, h2, h3⟩ := kidsr3 hl h
    refine h1.bind fun v v' hv => (asStrs_rel hv).bind ?_
    rintro cs cs' rfl
    refine h2.bind fun v v' hv => (asHashElement_rel hv).bind fun e e' he => ?_
    refine h3.bind fun v v' hv => (asStr_rel hv).bind ?_
    rintro c c' rfl
    exact .hashData ((AlikeItems.refl _).append (he.item (AlikeItems.refl _)))
  · obtain ⟨o, o', p, p', rfl, rfl, h1, h2⟩ := kidsr2 hl h
    refine h1.bind fun v v' hv => (asStrs_rel hv).bind ?_
    rintro cs cs' rfl
    refine h2.bind fun v v' hv => (asHashElement_rel hv).bind fun e e' he => ?_
    exact .hashData ((AlikeItems.refl _).append (he.item (AlikeItems.refl _)))

theorem first_hash_rel {ks ks' : Kids} (hl : ks.map Prod.fst = [.hash_element, .comment] ∨
      ks.map Prod.fst = [.hash_element]) (h : KidsRel ks ks') :
    SameOut VRel (Consume.firstHashElement ks) (Consume.firstHashElement ks') := by
  rcases hl with hl | hl
  · obtain ⟨p, p', u, u', rfl, rfl, h2, h3⟩ := kidsr2 hl h
    refine h2.bind fun v v' hv => (asHashElement_rel hv).bind fun e e' he => ?_
    refine h3.bind fun v v' hv => (asStr_rel hv).bind ?_
    rintro c c' rfl
    exact .hashData (he.item (AlikeItems.refl _))
  · obtain ⟨p, p', rfl, rfl, h2⟩ := kidsr1 hl h
    refine h2.bind fun v v' hv => (asHashElement_rel hv).bind fun e e' he => ?_
    exact .hashData (he.item (AlikeItems.refl _))

theorem array_data_rel {ks ks' : Kids} (hl : ks.map Prod.fst = [.commentnls, .block_array_element, .comment] ∨
      ks.map Prod.fst = [.commentnls, .block_array_element]) (h : KidsRel ks ks') :
    SameOut VRel (Consume.blockArrayData ks) (Consume.blockArrayData ks') := by
  rcases hl with hl | hl
  · obtain ⟨o, o', p, p', u, u', rfl, rfl, h1, h2, h3⟩ := kidsr3 hl h
    refine h1.bind fun v v' hv => (asStrs_rel hv).bind ?_
    rintro cs cs' rfl
    refine h2.bind fun v v' hv => (asArrayDatum_rel hv).bind fun e e' he => ?_
    refine h3.bind fun v v' hv => (asStr_rel hv).bind ?_
    rintro c c' rfl
    exact .arrayData ((AlikeElements.refl _).append (he.items (AlikeElements.refl _)))
  · obtain ⟨o, o', p, p', rfl, rfl, h1, h2⟩ := kidsr2 hl h
    refine h1.bind fun v v' hv => (asStrs_rel hv).bind ?_
    rintro cs cs' rfl
    refine h2.bind fun v v' hv => (asArrayDatum_rel hv).bind fun e e' he => ?_
    exact .arrayData ((AlikeElements.refl _).append (he.items (AlikeElements.refl _)))

theorem first_array_rel {ks ks' : Kids} (hl : ks.map Prod.fst = [.block_array_element, .comment] ∨
      ks.map Prod.fst = [.block_array_element]) (h : KidsRel ks ks') :
    SameOut VRel (Consume.firstBlockArrayElement ks) (Consume.firstBlockArrayElement ks') := by
  rcases hl with hl | hl
  · obtain ⟨p, p', u, u', rfl, rfl, h2, h3⟩ := kidsr2 hl h
    refine h2.bind fun v v' hv => (asArrayDatum_rel hv).bind fun e e' he => ?_
    refine h3.bind fun v v' hv => (asStr_rel hv).bind ?_
    rintro c c' rfl
    exact .arrayData (he.items (AlikeElements.refl _))
  · obtain ⟨p, p', rfl, rfl, h2⟩ := kidsr1 hl h
    refine h2.bind fun v v' hv => (asArrayDatum_rel hv).bind fun e e' he => ?_
    exact .arrayData (he.items (AlikeElements.refl _))

/-- An anchor followed by a value. -/
theorem anchored_rel {p p' q q' : Out Val} (h1 : SameOut VRel p p') (h2 : SameOut VRel q q') :
    SameOut VRel (p.bind fun a => a.asStr.bind fun a => q.bind fun v => v.asYaml.bind fun v => .ok (.aliased ⟨some a, v⟩))
      (p'.bind fun a => a.asStr.bind fun a => q'.bind fun v => v.asYaml.bind fun v => .ok (.aliased ⟨some a, v⟩)) := by
  refine h1.bind fun v v' hv => (asStr_rel hv).bind ?_
  rintro c c' rfl
  exact h2.bind fun v v' hv => (asYaml_rel hv).bind fun e e' he => .aliased he

theorem plain_rel {q q' : Out Val} (h2 : SameOut VRel q q') :
    SameOut VRel (q.bind fun v => v.asYaml.bind fun v => .ok (.aliased ⟨none, v⟩))
      (q'.bind fun v => v.asYaml.bind fun v => .ok (.aliased ⟨none, v⟩)) :=
  h2.bind fun v v' hv => (asYaml_rel hv).bind fun e e' he => .aliased he

theorem yaml_rel {ks ks' : Kids} {l : List Rule} (hl : ks.map Prod.fst = .leading_comments :: .commentnls :: .document :: l)
    (h : KidsRel ks ks') : SameOut VRel (Consume.yaml ks) (Consume.yaml ks') := by
  obtain ⟨o, o', t, t', rfl, rfl, h1, hl, h⟩ := kidsr_cons hl h
  obtain ⟨p, p', t, t', rfl, rfl, h2, hl, h⟩ := kidsr_cons hl h
  obtain ⟨q, q', t, t', rfl, rfl, h3, hl, h⟩ := kidsr_cons hl h
  refine h1.bind fun v v' hv => (asStrs_rel hv).bind ?_
  rintro cs cs' rfl
  refine h2.bind fun v v' hv => (asStrs_rel hv).bind ?_
  rintro bs bs' rfl
  refine h3.bind fun v v' hv => (asYaml_rel hv).bind fun y y' hy => ?_
  refine (manyThen_rel (r := .comment) (last := .EOI) (as := Val.asStr) (asLast := .ok) (Q := Eq) (S := VRel)
     (fun v v' hv => asStr_rel hv) (fun v v' hv => hv) h).bind ?_
  rintro ⟨m, c⟩ ⟨m', c'⟩ ⟨hm, hc⟩
  obtain rfl := hm.eq
  exact .doc (.mk hy)

theorem content_part_rel {ks ks' : Kids} (hl : ks.map Prod.fst = [.block_empty_lines, .block_string]) (h : KidsRel ks ks') :
    SameOut VLinesH (Consume.stringMultilineContentPart ks) (Consume.stringMultilineContentPart ks') := by
  obtain ⟨o, o', p, p', rfl, rfl, h1, h2⟩ := kidsr2 hl h
  refine h1.bind fun v v' hv => (asLines_rel hv).bind fun l l' hl => ?_
  refine h2.bind fun v v' hv => (asStr_rel hv).bind ?_
  rintro c c' rfl
  refine ⟨_, _, rfl, rfl, LinesAlike.append hl.1 (LinesAlike.refl _), ?_⟩
  rw [List.head?_append, List.head?_append, hl.2]

theorem content_rel {ks ks' : Kids} {l : List Rule} (hl : ks.map Prod.fst = .block_empty_lines :: .block_string :: l) (h : KidsRel ks ks') :
    SameOut VLinesH (Consume.stringMultilineContent ks) (Consume.stringMultilineContent ks') := by
  obtain ⟨o, o', t, t', rfl, rfl, h1, hl, h⟩ := kidsr_cons hl h
  obtain ⟨p, p', t, t', rfl, rfl, h2, hl, h⟩ := kidsr_cons hl h
  refine h1.bind fun v v' hv => (asLines_rel hv).bind fun l l' hl => ?_
  refine h2.bind fun v v' hv => (asStr_rel hv).bind ?_
  rintro c c' rfl
  refine (manyThen_rel (r := .string_multiline_content_part) (last := .string_multiline_trailing) (as := Val.asStrs) (asLast := Val.asStrs)
    (Q := LinesAlike) (S := LinesAlike) (fun v v' hv => (asLines_rel hv).mono fun _ _ h => h.1)
    (fun v v' hv => asTrailing_rel hv) h).bind ?_
  rintro ⟨m, d⟩ ⟨m', d'⟩ ⟨hm, hd⟩
  refine ⟨_, _, rfl, rfl, LinesAlike.append (LinesAlike.append (LinesAlike.append hl.1 (LinesAlike.refl _)) (LinesAlike.flatten (fun _ _ h => h) hm)) hd, ?_⟩
  simp only [List.append_assoc, List.singleton_append, List.cons_append, List.head?_append, List.head?_cons, hl.2]

/-! ## leaves -/

theorem consumed_line {e : Expr Rule} (he : LineMatch T e) {s rest : Str} {k k' : List Str} {ts : List (Tree Rule)}
    (h : Yes (yamlGrammar T) e s k ts rest k') : unixBreaks (consumed s rest) = consumed s rest := by
  obtain ⟨t, rfl, ht⟩ := he _ _ _ _ _ h
  rw [consumed_eq rfl]
  exact ub_line ht

theorem LineMatch.opt {a : Expr Rule} (ha : LineMatch T a) : LineMatch T (.opt a) := by
  intro x k ts r k' h
  rcases yes_opt.1 h with h | h
  · exact ha _ _ _ _ _ h
  · obtain ⟨-, -, rfl, -⟩ := h
    exact ⟨[], rfl, line_nil⟩

/-- Solve a `LineMatch` goal. -/
macro "line_match" : tactic => `(tactic|
  (simp only [Rule.body, Expr.seqs, Expr.alts, Expr.plus]
   repeat' first
    | exact LineMatch.cls sp_not_break
    | exact LineMatch.cls number_break
    | exact LineMatch.cls letter_break
    | exact LineMatch.str (by simp [LineText])
    | refine LineMatch.notAny stops_newline
    | apply LineMatch.notAny
    | exact stops_newline
    | apply stops_rule
    | apply stops_alt
    | apply LineMatch.seq
    | apply LineMatch.alt
    | apply LineMatch.opt
    | apply LineMatch.star
    | apply LineMatch.rule))

theorem lm_comment_text : LineMatch T (Rule.body T .comment_text) := by line_match
theorem lm_alias_name : LineMatch T (Rule.body T .alias_name) := by line_match
theorem lm_hash_key : LineMatch T (Rule.body T .hash_key) := by line_match
theorem lm_unquoted : LineMatch T (Rule.body T .unquoted_string) := by line_match
theorem lm_unquoted_inline : LineMatch T (Rule.body T .unquoted_inline_string) := by line_match
theorem lm_block_string : LineMatch T (Rule.body T .block_string) := by line_match
theorem lm_chomping : LineMatch T (Rule.body T .string_block_chomping) := by line_match
theorem lm_indent : LineMatch T (Rule.body T .string_multiline_indent) := by line_match

end YamlSubset
