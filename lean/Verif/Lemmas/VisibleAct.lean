import Verif.Lemmas.VisibleNodes

/-! # The visible text of a document and of the tree it is parsed to -/

namespace YamlSubset

open Peg Spec

variable {T : CharTables}

local notation "Gy" => yamlGrammar T

/-- One child. -/
theorem spells_one {q : Rule} (hq : q.kind ≠ .silent) {us : List (Tree Rule)} {x : Str} (h : spells (.rule q) us x) :
    ∃ t, us = [t] ∧ t.root = q ∧ x = visible t.text := (spells_rule hq us x).1 h

theorem flatMap_map {α β : Type} (us : List α) (f : α → List β) : us.flatMap f = (us.map f).flatten := List.flatMap_def

/-- A child passed on. -/
theorem seen_pass {children : List Rule} {t : Tree Rule} {v : Val} (hc : ∀ r ∈ children, ∀ v x, Seen r v x → ∃ y, v = .yaml y ∧ Shown y x)
    (hs : Sees t) (hv : Consume.passYaml children (semKids [t]) = .ok v) : ∃ y, v = .yaml y ∧ Shown y (visible t.text) := by
  rw [semKids_cons] at hv
  simp only [semKids, Consume.passYaml] at hv
  split at hv
  · rename_i hm
    obtain ⟨w, hw, hv⟩ := Out.ok_of_bind hv
    obtain ⟨y, hy, hv⟩ := Out.ok_of_bind hv
    cases hv
    obtain rfl := asYaml_ok hy
    obtain ⟨y', h1, h2⟩ := hc t.root (by simpa using hm) _ _ (hs _ hw)
    exact ⟨y', h1, h2⟩
  · cases hv

theorem seen_oneStr {child : Rule} {t : Tree Rule} {v : Val} (hc : ∀ v x, Seen child v x → ∃ s, v = .str s ∧ x = visible s)
    (hr : t.root = child) (hs : Sees t) (hv : Consume.oneStr child (semKids [t]) = .ok v) : ∃ s, v = .str s ∧ visible t.text = visible s := by
  rw [semKids_cons] at hv
  simp only [semKids, Consume.oneStr, hr, if_true] at hv
  obtain ⟨w, hw, hv⟩ := Out.ok_of_bind hv
  obtain ⟨y, hy, hv⟩ := Out.ok_of_bind hv
  cases hv
  exact hc _ _ (by obtain rfl := asStr_ok hy; exact hr ▸ hs _ hw)

/-- Comments, one after the other. -/
theorem seen_comments {us : List (Tree Rule)} {v : Val} (hr : ∀ t ∈ us, t.root = .commentnl) (hk : ∀ t ∈ us, Sees t)
    (hv : Consume.commentnls (semKids us) = .ok v) : ∃ cs, v = .strs cs ∧ (us.flatMap fun t => visible t.text) = commentsShown cs := by
  obtain ⟨cs, hcs, hv⟩ := Out.ok_of_bind hv
  cases hv
  obtain ⟨xs, rfl, h2, h3⟩ := many_seen (Q := fun s x => x = '#' :: visible s) (by
    intro t ht w a hw ha
    obtain rfl := asStr_ok ha
    obtain ⟨s, h1, h2⟩ := (hk t ht).ok (hr t ht) hw
    cases h1
    exact h2) hcs
  refine ⟨_, rfl, ?_⟩
  rw [flatMap_map, h2, commentsShown, List.flatMap_map, flatMap_map]
  congr 1
  refine List.map_congr_left ?_
  intro p hp
  exact h3 p hp

theorem flowEntries_more {xs : List ((Str × Yaml) × Str)}
    (h : ∀ p ∈ xs, ∃ z, p.2 = visible p.1.1 ++ ':' :: z ∧ Shown p.1.2 z) {p : (Str × Yaml) × Str}
    (hp : ∃ z, p.2 = visible p.1.1 ++ ':' :: z ∧ Shown p.1.2 z) :
    FlowEntriesShown Shown ((p :: xs).map Prod.fst) (p.2 ++ (xs.map fun q => ',' :: q.2).flatten) := by
  induction xs generalizing p with
  | nil =>
    obtain ⟨z, h1, h2⟩ := hp
    obtain ⟨⟨k, y⟩, x⟩ := p
    simp only at h1 h2
    subst h1
    simpa using FlowEntriesShown.one h2
  | cons q xs ih =>
    obtain ⟨z, h1, h2⟩ := hp
    obtain ⟨⟨k, y⟩, x⟩ := p
    simp only at h1 h2
    subst h1
    have := FlowEntriesShown.more (k := k) h2 (ih (fun p hp => h p (by simp [hp])) (h q (by simp)))
    simpa using this

theorem flowElements_more {xs : List (Yaml × Str)} (h : ∀ p ∈ xs, Shown p.1 p.2) {p : Yaml × Str} (hp : Shown p.1 p.2) :
    FlowElementsShown Shown ((p :: xs).map Prod.fst) (p.2 ++ (xs.map fun q => ',' :: q.2).flatten) := by
  induction xs generalizing p with
  | nil => simpa using FlowElementsShown.one hp
  | cons q xs ih =>
    have := FlowElementsShown.more hp (ih (fun p hp => h p (by simp [hp])) (h q (by simp)))
    simpa using this

theorem map_comma {α : Type} {us : List (Tree Rule)} {xs : List (α × Str)} (h : (us.map fun t => visible t.text) = xs.map Prod.snd) :
    (us.map fun t => ',' :: visible t.text) = xs.map fun q => ',' :: q.2 := by
  have : (us.map fun t => ',' :: visible t.text) = (us.map fun t => visible t.text).map (',' :: ·) := by simp
  rw [this, h]; simp

/-- The children of a flow collection. -/
theorem spells_flow {o c : Char} (ho : isWhitespace o = false) (hc : isWhitespace c = false) {q : Rule} (hq : q.kind ≠ .silent) {us x}
    (h : spells (.seqs [.str [o], .opt (.seqs [.rule .spaces, .rule q, .star (.seqs [.rule .spaces, .str [','], .rule .spaces, .rule q])]),
      .rule .spaces, .str [c]]) us x) :
    (∀ t ∈ us, t.root = q) ∧ ((us = [] ∧ x = [o, c]) ∨
      ∃ t ts, us = t :: ts ∧ x = o :: (visible t.text ++ (ts.map fun t => ',' :: visible t.text).flatten ++ [c])) := by
  obtain ⟨_, _, _, _, ⟨rfl, rfl⟩, h, rfl, rfl⟩ := h
  obtain ⟨_, _, _, _, h1, h, rfl, rfl⟩ := h
  rw [show Expr.seqs [.rule Rule.spaces, .str [c]] = .seq (.rule Rule.spaces) (.str [c]) from rfl] at h
  obtain ⟨rfl, rfl⟩ := (spells_seq_nil spells_spaces _ _).1 h
  rw [lit_ink ho, lit_ink hc]
  rcases h1 with h1 | ⟨rfl, rfl⟩
  · have h1 := (spells_seq_nil spells_spaces _ _).1 h1
    obtain ⟨_, _, _, _, h2, h3, rfl, rfl⟩ := h1
    obtain ⟨t, rfl, ht, rfl⟩ := spells_one hq h2
    obtain ⟨h4, rfl⟩ := spells_star_one (q := q) (f := fun t => ',' :: visible t.text) (by
      intro ts x h
      have h := (spells_seq_nil spells_spaces _ _).1 h
      obtain ⟨_, _, _, _, ⟨rfl, rfl⟩, h', rfl, rfl⟩ := h
      have h'' := (spells_seq_nil spells_spaces _ _).1 h'
      obtain ⟨t, rfl, ht, rfl⟩ := spells_one hq h''
      exact ⟨t, rfl, ht, rfl⟩) h3
    refine ⟨?_, .inr ⟨t, _, by simp; rfl, by simp [flatMap_map]⟩⟩
    intro u hu
    simp only [List.nil_append, List.append_nil, List.cons_append, List.mem_cons] at hu
    rcases hu with rfl | hu
    · exact ht
    · exact h4 u hu
  · exact ⟨by simp, .inl ⟨rfl, rfl⟩⟩

theorem seen_inline_hash {us : List (Tree Rule)} {x : Str} {v : Val} (h : spells (Rule.body T .inline_hash) us x) (hk : ∀ t ∈ us, Sees t)
    (hv : Consume.inlineHash (semKids us) = .ok v) : ∃ y, v = .yaml y ∧ Shown y x := by
  obtain ⟨hr, h⟩ := spells_flow (by decide) (by decide) (by decide) h
  obtain ⟨es, hes, hv⟩ := Out.ok_of_bind hv
  cases hv
  obtain ⟨xs, rfl, h2, h3⟩ := many_seen (Q := fun (e : Str × Yaml) x => ∃ z, x = visible e.1 ++ ':' :: z ∧ Shown e.2 z) (by
    rintro t ht w ⟨k, y⟩ hw ha
    obtain rfl := asEntry_ok ha
    obtain ⟨k', y', z, h1, h2, h3⟩ := (hk t ht).ok (hr t ht) hw
    cases h1
    exact ⟨z, h2, h3⟩) hes
  refine ⟨_, rfl, ?_⟩
  rcases h with ⟨rfl, rfl⟩ | ⟨t, ts, rfl, rfl⟩
  · cases xs with
    | nil => exact .flowHash .nil
    | cons p xs => cases h2
  · cases xs with
    | nil => cases h2
    | cons p xs =>
      rw [List.map_cons, List.map_cons, List.cons.injEq] at h2
      rw [h2.1, map_comma h2.2]
      exact .flowHash (flowEntries_more (fun q hq => h3 q (by simp [hq])) (h3 p (by simp)))

theorem seen_inline_array {us : List (Tree Rule)} {x : Str} {v : Val} (h : spells (Rule.body T .inline_array) us x) (hk : ∀ t ∈ us, Sees t)
    (hv : Consume.inlineArray (semKids us) = .ok v) : ∃ y, v = .yaml y ∧ Shown y x := by
  obtain ⟨hr, h⟩ := spells_flow (by decide) (by decide) (by decide) h
  obtain ⟨es, hes, hv⟩ := Out.ok_of_bind hv
  cases hv
  obtain ⟨xs, rfl, h2, h3⟩ := many_seen (Q := Shown) (by
    intro t ht w y hw ha
    obtain rfl := asYaml_ok ha
    obtain ⟨y', h1, h3⟩ := (hk t ht).ok (hr t ht) hw
    cases h1
    exact h3) hes
  refine ⟨_, rfl, ?_⟩
  rcases h with ⟨rfl, rfl⟩ | ⟨t, ts, rfl, rfl⟩
  · cases xs with
    | nil => exact .flowArray .nil
    | cons p xs => cases h2
  · cases xs with
    | nil => cases h2
    | cons p xs =>
      rw [List.map_cons, List.map_cons, List.cons.injEq] at h2
      rw [h2.1, map_comma h2.2]
      exact .flowArray (flowElements_more (fun q hq => h3 q (by simp [hq])) (h3 p (by simp)))

/-! ## block collections -/

/-- A value with an anchor. -/
theorem seen_aliased {a v : Tree Rule} {q : Rule} (ha : a.root = .alias) (hv : v.root = q) (hq : ∀ v x, Seen q v x → ∃ y, v = .yaml y ∧ Shown y x)
    (ka : Sees a) (kv : Sees v) {w : Val}
    (h : ((sem a).bind fun a => a.asStr.bind fun a => (sem v).bind fun v => v.asYaml.bind fun v => Out.ok (Val.aliased ⟨some a, v⟩)) = .ok w) :
    ∃ n y z, w = .aliased ⟨n, y⟩ ∧ visible a.text ++ visible v.text = anchorShown n ++ z ∧ Shown y z := by
  obtain ⟨w1, h1, h⟩ := Out.ok_of_bind h
  obtain ⟨s, h2, h⟩ := Out.ok_of_bind h
  obtain ⟨w2, h3, h⟩ := Out.ok_of_bind h
  obtain ⟨y, h4, h⟩ := Out.ok_of_bind h
  cases h
  obtain rfl := asStr_ok h2
  obtain rfl := asYaml_ok h4
  obtain ⟨s', h5, h6⟩ := ka.ok ha h1
  cases h5
  obtain ⟨y', h7, h8⟩ := hq _ _ (kv.ok hv h3)
  cases h7
  exact ⟨some s, y, _, rfl, by rw [h6]; rfl, h8⟩

theorem seen_unaliased {v : Tree Rule} {q : Rule} (hv : v.root = q) (hq : ∀ v x, Seen q v x → ∃ y, v = .yaml y ∧ Shown y x)
    (kv : Sees v) {w : Val}
    (h : ((sem v).bind fun v => v.asYaml.bind fun v => Out.ok (Val.aliased ⟨none, v⟩)) = .ok w) :
    ∃ n y z, w = .aliased ⟨n, y⟩ ∧ visible v.text = anchorShown n ++ z ∧ Shown y z := by
  obtain ⟨w2, h3, h⟩ := Out.ok_of_bind h
  obtain ⟨y, h4, h⟩ := Out.ok_of_bind h
  cases h
  obtain rfl := asYaml_ok h4
  obtain ⟨y', h7, h8⟩ := hq _ _ (kv.ok hv h3)
  cases h7
  exact ⟨none, y, _, rfl, rfl, h8⟩

theorem seen_rest_hash {us : List (Tree Rule)} (hr : ∀ t ∈ us, t.root = .hash_element_data) (hk : ∀ t ∈ us, Sees t) {l : List (List HashData)}
    (h : many .hash_element_data Val.asHashData (semKids us) = .ok l) :
    EntriesShown Shown l.flatten (us.flatMap fun t => visible t.text) := by
  obtain ⟨xs, rfl, h2, h3⟩ := many_seen (Q := EntriesShown Shown) (by
    intro t ht w ds hw ha
    obtain rfl := asHashData_ok ha
    obtain ⟨ds', h1, h3⟩ := (hk t ht).ok (hr t ht) hw
    cases h1
    exact h3) h
  rw [flatMap_map, h2]
  exact .flatten h3

theorem seen_rest_array {us : List (Tree Rule)} (hr : ∀ t ∈ us, t.root = .block_array_data) (hk : ∀ t ∈ us, Sees t) {l : List (List ArrayData)}
    (h : many .block_array_data Val.asArrayData (semKids us) = .ok l) :
    ElementsShown Shown l.flatten (us.flatMap fun t => visible t.text) := by
  obtain ⟨xs, rfl, h2, h3⟩ := many_seen (Q := ElementsShown Shown) (by
    intro t ht w ds hw ha
    obtain rfl := asArrayData_ok ha
    obtain ⟨ds', h1, h3⟩ := (hk t ht).ok (hr t ht) hw
    cases h1
    exact h3) h
  rw [flatMap_map, h2]
  exact .flatten h3

theorem Sees.comments {t : Tree Rule} (h : Sees t) (hr : t.root = .commentnls) {v cs} (hv : sem t = .ok v) (hc : v.asStrs = .ok cs) :
    visible t.text = commentsShown cs := by
  obtain rfl := asStrs_ok hc
  obtain ⟨cs', h1, h2⟩ := h.ok hr hv
  cases h1
  exact h2

theorem Sees.comment {t : Tree Rule} (h : Sees t) (hr : t.root = .comment) {v s} (hv : sem t = .ok v) (hc : v.asStr = .ok s) :
    visible t.text = '#' :: visible s := by
  obtain rfl := asStr_ok hc
  obtain ⟨cs', h1, h2⟩ := h.ok hr hv
  cases h1
  exact h2

theorem Sees.hashElement {t : Tree Rule} (h : Sees t) (hr : t.root = .hash_element) {v e} (hv : sem t = .ok v) (hc : v.asHashElement = .ok e) :
    EntriesShown Shown [.element e] (visible t.text) := by
  obtain rfl := asHashElement_ok hc
  obtain ⟨cs', h1, h2⟩ := h.ok hr hv
  cases h1
  exact h2

theorem Sees.hashData {t : Tree Rule} (h : Sees t) (hr : t.root = .first_hash_element ∨ t.root = .alternative_hash_continuation)
    {v ds} (hv : sem t = .ok v) (hc : v.asHashData = .ok ds) : EntriesShown Shown ds (visible t.text) := by
  obtain rfl := asHashData_ok hc
  rcases hr with hr | hr
  · obtain ⟨cs', h1, h2⟩ := h.ok hr hv
    cases h1
    exact h2
  · obtain ⟨cs', h1, h2⟩ := h.ok hr hv
    cases h1
    exact h2

theorem Sees.arrayDatum {t : Tree Rule} (h : Sees t) (hr : t.root = .block_array_element) {v e} (hv : sem t = .ok v) (hc : v.asArrayDatum = .ok e) :
    ElementsShown Shown [e] (visible t.text) := by
  obtain rfl := asArrayDatum_ok hc
  obtain ⟨cs', h1, h2⟩ := h.ok hr hv
  cases h1
  exact h2

theorem Sees.arrayData {t : Tree Rule} (h : Sees t) (hr : t.root = .first_block_array_element)
    {v ds} (hv : sem t = .ok v) (hc : v.asArrayData = .ok ds) : ElementsShown Shown ds (visible t.text) := by
  obtain rfl := asArrayData_ok hc
  obtain ⟨cs', h1, h2⟩ := h.ok hr hv
  cases h1
  exact h2

theorem Sees.aliased {t : Tree Rule} (h : Sees t) (hr : t.root = .block_array_aliased_yaml_value)
    {v a} (hv : sem t = .ok v) (hc : v.asAliased = .ok a) : ∃ n y z, a = ⟨n, y⟩ ∧ visible t.text = anchorShown n ++ z ∧ Shown y z := by
  obtain rfl := asAliased_ok hc
  obtain ⟨n, y, z, h1, h2, h3⟩ := h.ok hr hv
  cases h1
  exact ⟨n, y, z, rfl, h2, h3⟩

theorem Sees.strs {t : Tree Rule} (h : Sees t) (hr : t.root = .block_empty_lines ∨ t.root = .string_multiline_trailing ∨ t.root = .string_multiline_content_part)
    {v ls} (hv : sem t = .ok v) (hc : v.asStrs = .ok ls) : visible t.text = ls.flatMap visible ∧ ∀ l ∈ ls, LineText l := by
  obtain rfl := asStrs_ok hc
  rcases hr with hr | hr | hr
  all_goals
    obtain ⟨cs', h1, h2⟩ := h.ok hr hv
    cases h1
    exact h2

theorem Sees.line {t : Tree Rule} (h : Sees t) (hr : t.root = .block_string) {v s} (hv : sem t = .ok v) (hc : v.asStr = .ok s) :
    visible t.text = visible s ∧ LineText s := by
  obtain rfl := asStr_ok hc
  obtain ⟨cs', h1, h2⟩ := h.ok hr hv
  cases h1
  exact h2

theorem Sees.key {t : Tree Rule} (h : Sees t) (hr : t.root = .hash_key) {v s} (hv : sem t = .ok v) (hc : v.asStr = .ok s) :
    visible t.text = visible s := by
  obtain rfl := asStr_ok hc
  obtain ⟨cs', h1, h2⟩ := h.ok hr hv
  cases h1
  exact h2

end YamlSubset
