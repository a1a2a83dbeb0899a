import Verif.Props.Parse
import Verif.Lemmas.VisibleFormat

/-! # Parsing reads every visible character, and formatting writes them back (C54) -/

namespace YamlSubset

open Peg Spec

theorem yaml_rest {T : CharTables} {s : Str} {k : List Str} {us : List (Tree Rule)} {rest : Str} {k' : List Str}
    (h : Yes (yamlGrammar T) ((yamlGrammar T).body .yaml) s k us rest k') : rest = [] := by
  simp only [yamlGrammar, Rule.body, Expr.seqs] at h
  iterate 9 obtain ⟨_, _, _, _, -, h, -⟩ := yes_seq.1 h
  exact (yes_eoi.1 h).2.2.1

/-- **C54.** The visible characters of a text that parses are those of the document: every character that is not white space is
accounted for, in order. Only the characters a block scalar loses at the start of its lines are not in the document. -/
theorem C54_visible_text {T : CharTables} {s : Str} {d : Document} (h : parseYamlFile T s = .ok d) : DocumentShown d (visible s) := by
  unfold parseYamlFile at h
  cases he : eval (yamlGrammar T) (yamlFuel s) (.rule .yaml) s [] with
  | fail => rw [he] at h; cases h
  | panic => rw [he] at h; cases h
  | oof => rw [he] at h; cases h
  | ok ts rest k =>
    rw [he] at h
    have hy : Yes (yamlGrammar T) (.rule .yaml) s [] ts rest k := ⟨_, he⟩
    have hd := hy.derived (I := Spaces) (req := yamlIndents) (known := pushesSpaces) (st := []) (st' := []) (inp := s)
      (yaml_pushes T) (yamlIndents_ok T) (yaml_eoi T) (by simp [pushed]) rfl (by simp [eoiRules]) ⟨[], rfl⟩ trivial
    obtain ⟨us, hus, rfl⟩ := yes_rule.1 hy
    obtain rfl := yaml_rest hus
    have hw : wrap ((yamlGrammar T).kind .yaml) .yaml s [] us = [.node .yaml (consumed s []) us] := rfl
    rw [hw] at hd h
    have hs := sees_tree (hd _ (List.mem_singleton.2 rfl))
    have h' : (sem (.node .yaml (consumed s []) us)).bind Val.asDoc = .ok d := h
    obtain ⟨v, hv, hd'⟩ := Out.ok_of_bind h'
    obtain ⟨d', rfl, hx⟩ := hs v hv
    cases hd'
    simpa [Tree.text, consumed] using hx

theorem visible_comments (cs : List Str) : visible (cs.flatMap fun c => '#' :: (c ++ ['\n'])) = commentsShown cs :=
  visible_flatMap _ _ (fun c => by simp [visible_cons_ink ink_chars.1, visible_append, visible_cons_dark dark_chars.2, visible_nil]) cs

theorem visible_items (cs : List Str) : visible ((cs.map DocumentData.comment).flatMap DocumentData.format) = commentsShown cs := by
  rw [List.flatMap_map]
  exact visible_flatMap _ _ (fun c => by simp [DocumentData.format, visible_cons_ink ink_chars.1, visible_cons_dark dark_chars.2]) cs

/-- **C54.** Parsing a text and formatting the document changes nothing but white space, if no block scalar is in the document. -/
theorem C54_only_white_space {T : CharTables} {s : Str} {d : Document} (h : parseYamlFile T s = .ok d)
    (hb : ∀ y, DocumentData.yaml y ∈ d.items → NoBlockScalar y) : visible d.format = visible s := by
  have hs := C54_visible_text h
  obtain ⟨_, pre', post', root', he, _, _, hp⟩ := C39_parsed_well_formed h
  generalize hx : visible s = z at hs
  cases hs with
  | @mk leading pre post root x hr =>
  have hroot : root' = root := by
    have : DocumentData.yaml root' ∈ pre.map DocumentData.comment ++ [.yaml root] ++ post.map .comment := by
      have e : pre.map DocumentData.comment ++ [.yaml root] ++ post.map .comment =
        pre'.map .comment ++ [.yaml root'] ++ post'.map .comment := he
      rw [e]; simp
    simpa using this
  subst hroot
  have e := (visible_format root').1 (hb _ (by simp)) hp _ hr 0 none
  simp only [Document.format]
  rw [visible_append, visible_append, visible_comments, List.flatMap_append, List.flatMap_append, visible_append, visible_append,
    visible_items, visible_items]
  simp only [List.flatMap_cons, List.flatMap_nil, List.append_nil, DocumentData.format, e]
  rw [show visible c!"---" = ['-', '-', '-'] by decide]
  simp [List.append_assoc]

/-! ## texts without `|` and `>` -/

theorem entries_parts {ds : List HashData} {x : Str} (h : EntriesShown Shown ds x) :
    ∀ k a v, HashData.element ⟨k, ⟨a, v⟩⟩ ∈ ds → ∃ z, Shown v z ∧ ∀ c ∈ z, c ∈ x := by
  induction ds generalizing x with
  | nil => intro _ _ _ h; cases h
  | cons d ds ih =>
    intro k a v hm
    cases h with
    | comment h =>
      obtain ⟨z, hz, hc⟩ := ih h k a v (by simpa using hm)
      exact ⟨z, hz, fun c h => by simp [hc c h]⟩
    | inlineComment h =>
      obtain ⟨z, hz, hc⟩ := ih h k a v (by simpa using hm)
      exact ⟨z, hz, fun c h => by simp [hc c h]⟩
    | @element k' a' v' ds x z hp h =>
      rcases List.mem_cons.1 hm with hm | hm
      · cases hm
        exact ⟨x, hp, fun c h => by simp [h]⟩
      · obtain ⟨z, hz, hc⟩ := ih h k a v hm
        exact ⟨z, hz, fun c h => by simp [hc c h]⟩

theorem elements_parts {ds : List ArrayData} {x : Str} (h : ElementsShown Shown ds x) :
    ∀ a v, ArrayData.element ⟨a, v⟩ ∈ ds → ∃ z, Shown v z ∧ ∀ c ∈ z, c ∈ x := by
  induction ds generalizing x with
  | nil => intro _ _ h; cases h
  | cons d ds ih =>
    intro a v hm
    cases h with
    | comment h =>
      obtain ⟨z, hz, hc⟩ := ih h a v (by simpa using hm)
      exact ⟨z, hz, fun c h => by simp [hc c h]⟩
    | inlineComment h =>
      obtain ⟨z, hz, hc⟩ := ih h a v (by simpa using hm)
      exact ⟨z, hz, fun c h => by simp [hc c h]⟩
    | @element a' v' ds x z hp h =>
      rcases List.mem_cons.1 hm with hm | hm
      · cases hm
        exact ⟨x, hp, fun c h => by simp [h]⟩
      · obtain ⟨z, hz, hc⟩ := ih h a v hm
        exact ⟨z, hz, fun c h => by simp [hc c h]⟩

theorem flowEntries_parts {es : List (Str × Yaml)} {x : Str} (h : FlowEntriesShown Shown es x) :
    ∀ k v, (k, v) ∈ es → ∃ z, Shown v z ∧ ∀ c ∈ z, c ∈ x := by
  induction es generalizing x with
  | nil => intro _ _ h; cases h
  | cons e es ih =>
    intro k v hm
    cases h with
    | @one k' v' x hp =>
      simp only [List.mem_singleton] at hm
      cases hm
      exact ⟨x, hp, fun c h => by simp [h]⟩
    | @more k' v' e' es' x z hp h =>
      rcases List.mem_cons.1 hm with hm | hm
      · cases hm
        exact ⟨x, hp, fun c h => by simp [h]⟩
      · obtain ⟨z, hz, hc⟩ := ih h k v hm
        exact ⟨z, hz, fun c h => by simp [hc c h]⟩

theorem flowElements_parts {es : List Yaml} {x : Str} (h : FlowElementsShown Shown es x) :
    ∀ v ∈ es, ∃ z, Shown v z ∧ ∀ c ∈ z, c ∈ x := by
  induction es generalizing x with
  | nil => intro _ h; cases h
  | cons e es ih =>
    intro v hm
    cases h with
    | one hp =>
      simp only [List.mem_singleton] at hm
      cases hm
      exact ⟨x, hp, fun c h => by simp [h]⟩
    | more hp h =>
      rcases List.mem_cons.1 hm with hm | hm
      · cases hm
        exact ⟨_, hp, fun c h => by simp [h]⟩
      · obtain ⟨z, hz, hc⟩ := ih h v hm
        exact ⟨z, hz, fun c h => by simp [hc c h]⟩

theorem noBlockScalar_of_shown (y : Yaml) : ∀ x, Shown y x → '|' ∉ x → '>' ∉ x → NoBlockScalar y := by
  induction y using Yaml.induct with
  | hS ps => exact fun _ _ _ _ => .single
  | hD ps => exact fun _ _ _ _ => .double
  | hU s => exact fun _ _ _ _ => .plain
  | hN a => exact fun _ _ _ _ => .reference
  | hF ls c => intro x hx _ h; cases hx; simp at h
  | hL ls c => intro x hx h _; cases hx; simp at h
  | hIH es ih =>
    intro x hx h1 h2
    cases hx with
    | flowHash hx =>
      refine .flowHash fun k v hm => ?_
      obtain ⟨z, hz, hc⟩ := flowEntries_parts hx k v hm
      exact ih k v hm z hz (fun h => h1 (by simp [hc _ h])) (fun h => h2 (by simp [hc _ h]))
  | hIA es ih =>
    intro x hx h1 h2
    cases hx with
    | flowArray hx =>
      refine .flowArray fun v hm => ?_
      obtain ⟨z, hz, hc⟩ := flowElements_parts hx v hm
      exact ih v hm z hz (fun h => h1 (by simp [hc _ h])) (fun h => h2 (by simp [hc _ h]))
  | hH ds ih =>
    intro x hx h1 h2
    cases hx with
    | hash hx =>
      refine .hash fun k a v hm => ?_
      obtain ⟨z, hz, hc⟩ := entries_parts hx k a v hm
      exact ih k a v hm z hz (fun h => h1 (hc _ h)) (fun h => h2 (hc _ h))
  | hA ds ih =>
    intro x hx h1 h2
    cases hx with
    | array hx =>
      refine .array fun a v hm => ?_
      obtain ⟨z, hz, hc⟩ := elements_parts hx a v hm
      exact ih a v hm z hz (fun h => h1 (hc _ h)) (fun h => h2 (hc _ h))

/-- **C54.** A text without `|` and `>`, parsed and formatted, differs from the original only in white space. -/
theorem C54_only_white_space_text {T : CharTables} {s : Str} {d : Document} (h : parseYamlFile T s = .ok d) (h1 : '|' ∉ s) (h2 : '>' ∉ s) :
    visible d.format = visible s := by
  refine C54_only_white_space h fun y hy => ?_
  have hs := C54_visible_text h
  have h1' : '|' ∉ visible s := fun hm => h1 (List.mem_filter.1 hm).1
  have h2' : '>' ∉ visible s := fun hm => h2 (List.mem_filter.1 hm).1
  generalize visible s = z at hs h1' h2'
  cases hs with
  | @mk leading pre post root x hr =>
    have : y = root := by simpa using hy
    subst this
    exact noBlockScalar_of_shown y x hr (fun h => h1' (by simp [h])) (fun h => h2' (by simp [h]))

/-- **C54.** The same holds for a second round: a formatted document that parses again is formatted with the same visible text, whether or
not it is the same document. -/
theorem C54_again {T : CharTables} {s : Str} {d d' : Document} (h : parseYamlFile T s = .ok d) (h' : parseYamlFile T d.format = .ok d')
    (h1 : '|' ∉ s) (h2 : '>' ∉ s) : visible d'.format = visible s := by
  have e := C54_only_white_space_text h h1 h2
  have k1 : '|' ∉ visible d.format := fun hm => h1 (List.mem_filter.1 (e ▸ hm)).1
  have k2 : '>' ∉ visible d.format := fun hm => h2 (List.mem_filter.1 (e ▸ hm)).1
  have dark : ∀ c, isWhitespace c = false → c ∉ visible d.format → c ∉ d.format := fun c hc hn hm => hn (List.mem_filter.2 ⟨hm, by simp [hc]⟩)
  rw [C54_only_white_space_text h' (dark _ (by decide) k1) (dark _ (by decide) k2), e]

/-! ## examples -/

/-- A document with comments, anchors, quoted strings and collections of both kinds, badly laid out. -/
def untidy : Str := c!"# top\n---\n\n# c\na:   &n  [ 1 ,2,  {x: 'it''s'} ]   # d\nb:\n      - \"q\\n\"\n      -   k: *n\n          l:  v w\n\n# e\n"

theorem untidy_parses : parseYamlFile asciiTables untidy =
    .ok ⟨[c!" top"], [.comment c!" c", .yaml (.hash [
      .element ⟨c!"a", ⟨some c!"n", .inlineArray [.unquotedString c!"1", .unquotedString c!"2",
        .inlineHash [(c!"x", .singleQuotedString [.string c!"it", .escapedChar .singleQuote, .string c!"s"])]]⟩⟩,
      .inlineComment c!" d",
      .element ⟨c!"b", ⟨none, .array [.element ⟨none, .doubleQuotedString [.string c!"q", .escapedChar .newline]⟩,
        .element ⟨none, .hash [.element ⟨c!"k", ⟨none, .anchor c!"n"⟩⟩, .element ⟨c!"l", ⟨none, .unquotedString c!"v w"⟩⟩]⟩]⟩⟩]), .comment c!" e"]⟩ := by kernel_rfl

example : visible untidy = c!"#top---#ca:&n[1,2,{x:'it''s'}]#db:-\"q\\n\"-k:*nl:vw#e" := by decide +kernel

/-- The hypotheses of `C54_only_white_space_text` hold for it, and the text does change. -/
example : ∃ d, parseYamlFile asciiTables untidy = .ok d ∧ d.format ≠ untidy ∧ visible d.format = visible untidy :=
  ⟨_, untidy_parses, by decide +kernel, C54_only_white_space_text untidy_parses (by decide +kernel) (by decide +kernel)⟩

/-- A block scalar whose later line is less indented than its first loses visible characters … -/
theorem C54_counterexample_less_indented :
    (parseYamlFile asciiTables c!"---\nk: |\n    abc\n  defgh\n").bind (fun d => .ok d.format) = .ok c!"---\nk: |\n  abc\n  fgh" := by
  kernel_rfl

/-- … and so does one with an indentation indicator that is too large. -/
theorem C54_counterexample_indicator :
    (parseYamlFile asciiTables c!"---\nk: |5\n  abcdef\n").bind (fun d => .ok d.format) = .ok c!"---\nk: |\n  def" := by
  kernel_rfl

/-- The relation does not hold for a document that drops an entry of the text. -/
example : ¬ DocumentShown ⟨[], [.yaml (.hash [.element ⟨c!"a", ⟨none, .unquotedString c!"b"⟩⟩])]⟩ (visible c!"---\na: b\nc: d\n") := by
  intro h
  generalize hz : visible c!"---\na: b\nc: d\n" = z at h
  generalize hd : (⟨[], [.yaml (.hash [.element ⟨c!"a", ⟨none, .unquotedString c!"b"⟩⟩])]⟩ : Document) = d at h
  cases h with
  | @mk leading pre post root x hr =>
    obtain ⟨rfl, hi⟩ : ([] : List Str) = leading ∧ _ = _ := by simpa using hd
    have hroot : root = .hash [.element ⟨c!"a", ⟨none, .unquotedString c!"b"⟩⟩] := by
      have : DocumentData.yaml root ∈ [DocumentData.yaml (.hash [.element ⟨c!"a", ⟨none, .unquotedString c!"b"⟩⟩])] := by
        rw [hi]; simp
      simpa using this
    subst hroot
    have hpre : pre = [] := by
      cases pre with
      | nil => rfl
      | cons a l => simp at hi
    subst hpre
    have hpost : post = [] := by
      cases post with
      | nil => rfl
      | cons a l => simp at hi
    subst hpost
    cases hr with
    | hash hr =>
      cases hr with
      | element hp h =>
        cases hp; cases h
        revert hz
        decide

end YamlSubset
