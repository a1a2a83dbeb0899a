import Verif.Lemmas.VisibleSpell

/-! # The visible text of what the consumer functions return -/

namespace YamlSubset

open Peg Spec

variable {T : CharTables}

/-- What the result of a consumer function says about the visible text of its node. -/
def Seen (r : Rule) (v : Val) (x : Str) : Prop :=
  match r with
  | .comment_text | .alias_name | .double_quote_text | .single_quote_text | .hash_key => ∃ s, v = .str s ∧ x = visible s
  | .block_string => ∃ s, v = .str s ∧ x = visible s ∧ LineText s
  | .comment | .commentnl => ∃ s, v = .str s ∧ x = '#' :: visible s
  | .alias => ∃ s, v = .str s ∧ x = '&' :: visible s
  | .commentnls | .leading_comments => ∃ cs, v = .strs cs ∧ x = commentsShown cs
  | .escaped_double_quote_char_value => ∃ c, v = .dqEsc c ∧ '\\' :: x = dqShown (.escapedChar c)
  | .single_quote => ∃ c, v = .sqEsc c ∧ '\'' :: x = sqShown (.escapedChar c)
  | .removable_newline | .EOI => x = []
  | .blank_lines => (∃ n, v = .nat n) ∧ x = []
  | .double_quote_without_escape => ∃ p, v = .dqPart p ∧ x = dqShown p
  | .escaped_single_quote_char => ∃ p, v = .sqPart p ∧ x = sqShown p
  | .double_quote_content => ∃ ps, v = .dqParts ps ∧ x = ps.flatMap dqShown
  | .single_quote_content => ∃ ps, v = .sqParts ps ∧ x = ps.flatMap sqShown
  | .inline_hash_element => ∃ k y z, v = .entry k y ∧ x = visible k ++ ':' :: z ∧ Shown y z
  | .aliased_yaml_value | .alternative_aliased_yaml_value | .block_array_aliased_yaml_value =>
    ∃ a y z, v = .aliased ⟨a, y⟩ ∧ x = anchorShown a ++ z ∧ Shown y z
  | .hash_element => ∃ e, v = .hashElement e ∧ EntriesShown Shown [.element e] x
  | .first_hash_element | .hash_element_data | .alternative_hash_continuation => ∃ ds, v = .hashData ds ∧ EntriesShown Shown ds x
  | .block_array_element => ∃ d, v = .arrayDatum d ∧ ElementsShown Shown [d] x
  | .first_block_array_element | .block_array_data => ∃ ds, v = .arrayData ds ∧ ElementsShown Shown ds x
  | .string_block_chomping => ∃ c, v = .chomping c ∧ x = chompingShown c
  | .string_multiline_indent => (∀ d ∈ x, 48 ≤ d.toNat ∧ d.toNat ≤ 57) ∧
      ((x = [] ∧ v = .optNat none) ∨ (x ≠ [] ∧ v = .optNat (some (decimalValue x - 1))))
  | .block_empty_lines | .string_multiline_trailing | .string_multiline_content_part =>
    ∃ ls, v = .strs ls ∧ x = ls.flatMap visible ∧ ∀ l ∈ ls, LineText l
  | .string_multiline_content => ∃ ls, v = .strs ls ∧ x = ls.flatMap visible ∧ ls ≠ [] ∧ ∀ l ∈ ls, LineText l
  | .yaml => ∃ d, v = .doc d ∧ DocumentShown d x
  | _ => ∃ y, v = .yaml y ∧ Shown y x

/-- What a node contributes. -/
def Sees (t : Tree Rule) : Prop := ∀ v, sem t = .ok v → Seen t.root v (visible t.text)

section
variable {α : Type}

theorem Out.ok_of_bind {β : Type} {o : Out α} {f : α → Out β} {b : β} (h : o.bind f = .ok b) : ∃ a, o = .ok a ∧ f a = .ok b := by
  cases o with
  | ok a => exact ⟨a, rfl, h⟩
  | _ => cases h

end

theorem visible_append (a b : Str) : visible (a ++ b) = visible a ++ visible b := List.filter_append ..
theorem visible_nil : visible [] = [] := rfl

/-- All children of one kind. -/
theorem many_seen {α : Type} {r : Rule} {as : Val → Out α} {Q : α → Str → Prop} {us : List (Tree Rule)}
    (h : ∀ t ∈ us, ∀ v a, sem t = .ok v → as v = .ok a → Q a (visible t.text)) {l : List α} (hm : many r as (semKids us) = .ok l) :
    ∃ xs : List (α × Str), l = xs.map Prod.fst ∧ (us.map fun t => visible t.text) = xs.map Prod.snd ∧ ∀ p ∈ xs, Q p.1 p.2 := by
  induction us generalizing l with
  | nil => cases hm; exact ⟨[], rfl, rfl, by simp⟩
  | cons t us ih =>
    obtain ⟨r', x, cs⟩ := t
    simp only [semKids, many] at hm
    split at hm
    · obtain ⟨v, hv, hm⟩ := Out.ok_of_bind hm
      obtain ⟨a, ha, hm⟩ := Out.ok_of_bind hm
      obtain ⟨l', hl', hm⟩ := Out.ok_of_bind hm
      cases hm
      obtain ⟨xs, h1, h2, h3⟩ := ih (fun t ht => h t (by simp [ht])) hl'
      refine ⟨(a, visible x) :: xs, by simp [h1], by rw [List.map_cons, List.map_cons, h2]; rfl, ?_⟩
      intro p hp
      rcases List.mem_cons.1 hp with rfl | hp
      · exact h _ (List.mem_cons_self ..) v a hv ha
      · exact h3 p hp
    · cases hm

theorem manyThen_seen {α β : Type} {r last : Rule} {as : Val → Out α} {asLast : Val → Out β} {us : List (Tree Rule)} {t : Tree Rule}
    (ht : t.root = last) {p : List α × β} (hm : manyThen r as last asLast (semKids (us ++ [t])) = .ok p) :
    many r as (semKids us) = .ok p.1 ∧ ∃ v, sem t = .ok v ∧ asLast v = .ok p.2 := by
  induction us generalizing p with
  | nil =>
    obtain ⟨r', x, cs⟩ := t
    subst ht
    simp only [List.nil_append, semKids, manyThen, Tree.root, and_self, if_true] at hm
    obtain ⟨v, hv, hm⟩ := Out.ok_of_bind hm
    obtain ⟨a, ha, hm⟩ := Out.ok_of_bind hm
    cases hm
    exact ⟨rfl, v, hv, ha⟩
  | cons u us ih =>
    obtain ⟨r', x, cs⟩ := u
    have hne : semKids (us ++ [t]) ≠ [] := by
      obtain ⟨r', x, cs⟩ := t
      rw [semKids_append]; simp [semKids]
    simp only [List.cons_append, semKids, manyThen, hne, and_false, if_false] at hm
    split at hm
    · rename_i hr
      obtain ⟨v, hv, hm⟩ := Out.ok_of_bind hm
      obtain ⟨a, ha, hm⟩ := Out.ok_of_bind hm
      obtain ⟨q, hq, hm⟩ := Out.ok_of_bind hm
      cases hm
      obtain ⟨h1, h2⟩ := ih hq
      refine ⟨?_, h2⟩
      simp only [semKids, many, hr, if_true]
      subst hr
      rw [hv]
      simp only [Out.bind, ha, h1]
    · cases hm

/-! ## appending items -/

theorem Spec.EntriesShown.append {P : Yaml → Str → Prop} {a b : List HashData} {x z : Str} (ha : EntriesShown P a x) (hb : EntriesShown P b z) :
    EntriesShown P (a ++ b) (x ++ z) := by
  induction ha with
  | nil => exact hb
  | comment h ih => simpa using ih.comment
  | inlineComment h ih => simpa using ih.inlineComment
  | element hv h ih => simpa using ih.element hv

theorem Spec.ElementsShown.append {P : Yaml → Str → Prop} {a b : List ArrayData} {x z : Str} (ha : ElementsShown P a x) (hb : ElementsShown P b z) :
    ElementsShown P (a ++ b) (x ++ z) := by
  induction ha with
  | nil => exact hb
  | comment h ih => simpa using ih.comment
  | inlineComment h ih => simpa using ih.inlineComment
  | element hv h ih => simpa using ih.element hv

theorem Spec.EntriesShown.comments {P : Yaml → Str → Prop} (cs : List Str) : EntriesShown P (cs.map .comment) (commentsShown cs) := by
  induction cs with
  | nil => exact .nil
  | cons c cs ih => simpa [commentsShown] using ih.comment (c := c)

theorem Spec.ElementsShown.comments {P : Yaml → Str → Prop} (cs : List Str) : ElementsShown P (cs.map .comment) (commentsShown cs) := by
  induction cs with
  | nil => exact .nil
  | cons c cs ih => simpa [commentsShown] using ih.comment (c := c)

theorem Spec.EntriesShown.flatten {P : Yaml → Str → Prop} {xs : List (List HashData × Str)} (h : ∀ p ∈ xs, EntriesShown P p.1 p.2) :
    EntriesShown P (xs.map Prod.fst).flatten (xs.map Prod.snd).flatten := by
  induction xs with
  | nil => exact .nil
  | cons p xs ih => exact (h p (by simp)).append (ih fun q hq => h q (by simp [hq]))

theorem Spec.ElementsShown.flatten {P : Yaml → Str → Prop} {xs : List (List ArrayData × Str)} (h : ∀ p ∈ xs, ElementsShown P p.1 p.2) :
    ElementsShown P (xs.map Prod.fst).flatten (xs.map Prod.snd).flatten := by
  induction xs with
  | nil => exact .nil
  | cons p xs ih => exact (h p (by simp)).append (ih fun q hq => h q (by simp [hq]))

/-- The results of the children. -/
theorem Sees.ok {r : Rule} {t : Tree Rule} (h : Sees t) (hr : t.root = r) {v : Val} (hv : sem t = .ok v) : Seen r v (visible t.text) :=
  hr ▸ h v hv

theorem asYaml_ok {v : Val} {y : Yaml} (h : v.asYaml = .ok y) : v = .yaml y := by
  cases v <;> cases h; rfl
theorem asStr_ok {v : Val} {y : Str} (h : v.asStr = .ok y) : v = .str y := by
  cases v <;> cases h; rfl
theorem asStrs_ok {v : Val} {y : List Str} (h : v.asStrs = .ok y) : v = .strs y := by
  cases v <;> cases h; rfl
theorem asNat_ok {v : Val} {y : Nat} (h : v.asNat = .ok y) : v = .nat y := by
  cases v <;> cases h; rfl
theorem asOptNat_ok {v : Val} {y : Option Nat} (h : v.asOptNat = .ok y) : v = .optNat y := by
  cases v <;> cases h; rfl
theorem asDqEsc_ok {v : Val} {y} (h : v.asDqEsc = .ok y) : v = .dqEsc y := by
  cases v <;> cases h; rfl
theorem asSqEsc_ok {v : Val} {y} (h : v.asSqEsc = .ok y) : v = .sqEsc y := by
  cases v <;> cases h; rfl
theorem asDqPart_ok {v : Val} {y} (h : v.asDqPart = .ok y) : v = .dqPart y := by
  cases v <;> cases h; rfl
theorem asSqPart_ok {v : Val} {y} (h : v.asSqPart = .ok y) : v = .sqPart y := by
  cases v <;> cases h; rfl
theorem asDqParts_ok {v : Val} {y} (h : v.asDqParts = .ok y) : v = .dqParts y := by
  cases v <;> cases h; rfl
theorem asSqParts_ok {v : Val} {y} (h : v.asSqParts = .ok y) : v = .sqParts y := by
  cases v <;> cases h; rfl
theorem asChomping_ok {v : Val} {y} (h : v.asChomping = .ok y) : v = .chomping y := by
  cases v <;> cases h; rfl
theorem asEntry_ok {v : Val} {y} (h : v.asEntry = .ok y) : v = .entry y.1 y.2 := by
  cases v <;> simp only [Val.asEntry] at h <;> cases h; rfl
theorem asAliased_ok {v : Val} {y} (h : v.asAliased = .ok y) : v = .aliased y := by
  cases v <;> cases h; rfl
theorem asHashElement_ok {v : Val} {y} (h : v.asHashElement = .ok y) : v = .hashElement y := by
  cases v <;> cases h; rfl
theorem asHashData_ok {v : Val} {y} (h : v.asHashData = .ok y) : v = .hashData y := by
  cases v <;> cases h; rfl
theorem asArrayDatum_ok {v : Val} {y} (h : v.asArrayDatum = .ok y) : v = .arrayDatum y := by
  cases v <;> cases h; rfl
theorem asArrayData_ok {v : Val} {y} (h : v.asArrayData = .ok y) : v = .arrayData y := by
  cases v <;> cases h; rfl

/-- A node with its rule. -/
theorem Tree_eq_node {t : Tree Rule} {r : Rule} (h : t.root = r) : ∃ x cs, t = .node r x cs := by
  obtain ⟨r', x, cs⟩ := t; exact ⟨x, cs, by rw [← h]; rfl⟩

theorem semKids_cons (t : Tree Rule) (us : List (Tree Rule)) : semKids (t :: us) = (t.root, sem t) :: semKids us := by
  obtain ⟨r, x, cs⟩ := t; rfl

end YamlSubset
