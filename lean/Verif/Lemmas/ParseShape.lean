import Verif.Lemmas.ParseText
import Verif.Model.Consume

/-! # The consumer functions on parse trees

For every tree the grammar produces, the consumer finds a matching arm, and its result is well formed. -/

namespace YamlSubset

open Peg Spec

variable {T : CharTables}

/-- A good value, or a panic and then `B`. -/
def Fine {α : Type} (B : Prop) (P : α → Prop) (o : Out α) : Prop :=
  (o = .panic ∧ B) ∨ ∃ v, o = .ok v ∧ P v

theorem Fine.bind {α β : Type} {B : Prop} {P : α → Prop} {Q : β → Prop} {o : Out α} {f : α → Out β}
    (h : Fine B P o) (hf : ∀ v, P v → Fine B Q (f v)) : Fine B Q (o.bind f) := by
  rcases h with ⟨rfl, hb⟩ | ⟨v, rfl, hv⟩
  · exact .inl ⟨rfl, hb⟩
  · exact hf v hv

theorem Fine.ok {α : Type} {B : Prop} {P : α → Prop} {v : α} (h : P v) : Fine B P (.ok v) := .inr ⟨v, rfl, h⟩

theorem Fine.mono {α : Type} {B : Prop} {P Q : α → Prop} {o : Out α} (h : Fine B P o) (hpq : ∀ v, P v → Q v) : Fine B Q o := by
  rcases h with h | ⟨v, h, hv⟩
  · exact .inl h
  · exact .inr ⟨v, h, hpq v hv⟩

/-- Good block hash data. -/
structure HashPart (T : CharTables) (ds : List HashData) : Prop where
  keys : ∀ e, HashData.element e ∈ ds → KeyText T e.key
  anchors : ∀ e a, HashData.element e ∈ ds → e.value.alias = some a → NameText T a
  values : ∀ e, HashData.element e ∈ ds → ParsedValue T e.value.value
  comments : ∀ c, HashData.comment c ∈ ds ∨ HashData.inlineComment c ∈ ds → LineText c
  inline : InlineAfterElement (fun d => ∃ c, d = HashData.inlineComment c) (fun d => ∃ e, d = .element e) ds

/-- Good block array data. -/
structure ArrayPart (T : CharTables) (ds : List ArrayData) : Prop where
  anchors : ∀ e a, ArrayData.element e ∈ ds → e.alias = some a → NameText T a
  values : ∀ e, ArrayData.element e ∈ ds → ParsedValue T e.value
  comments : ∀ c, ArrayData.comment c ∈ ds ∨ ArrayData.inlineComment c ∈ ds → LineText c
  inline : InlineAfterElement (fun d => ∃ c, d = ArrayData.inlineComment c) (fun d => ∃ e, d = .element e) ds

theorem Spec.InlineAfterElement.append {α : Type} {I E : α → Prop} {a b : List α} (ha : InlineAfterElement I E a)
    (hb : InlineAfterElement I E b) : InlineAfterElement I E (a ++ b) := by
  intro pre d post h hd
  rcases List.append_eq_append_iff.1 h with ⟨x, hx, hx'⟩ | ⟨x, hx, hx'⟩
  · -- pre = a ++ x
    obtain ⟨pre', e, h1, h2⟩ := hb x d post hx' hd
    exact ⟨a ++ pre', e, by rw [hx, h1]; simp, h2⟩
  · cases x with
    | nil =>
      simp only [List.append_nil] at hx
      obtain ⟨pre', e, h1, h2⟩ := hb [] d post (by simpa using hx'.symm) hd
      simp at h1
    | cons y x =>
      simp only [List.cons_append, List.cons.injEq] at hx'
      obtain ⟨rfl, hx'⟩ := hx'
      exact ha pre _ x hx hd

theorem Spec.InlineAfterElement.of_none {α : Type} {I E : α → Prop} {a : List α} (h : ∀ d ∈ a, ¬ I d) : InlineAfterElement I E a := by
  rintro pre d post rfl hd
  exact absurd hd (h d (by simp))

theorem Spec.InlineAfterElement.pair {α : Type} {I E : α → Prop} {x y : α} (hx : ¬ I x) (hE : E x) : InlineAfterElement I E [x, y] := by
  intro pre d post h hd
  cases pre with
  | nil => simp only [List.nil_append, List.cons.injEq] at h; exact absurd (h.1 ▸ hd) hx
  | cons p pre =>
    cases pre with
    | nil => simp only [List.cons_append, List.nil_append, List.cons.injEq] at h; exact ⟨[], p, rfl, h.1 ▸ hE⟩
    | cons q pre =>
      simp only [List.cons_append, List.cons.injEq] at h
      have := h.2.2
      simp at this

theorem HashPart.append {a b : List HashData} (ha : HashPart T a) (hb : HashPart T b) : HashPart T (a ++ b) where
  keys e h := (List.mem_append.1 h).elim (ha.keys e) (hb.keys e)
  anchors e x h := (List.mem_append.1 h).elim (ha.anchors e x) (hb.anchors e x)
  values e h := (List.mem_append.1 h).elim (ha.values e) (hb.values e)
  comments c h := by
    rcases h with h | h <;> rcases List.mem_append.1 h with h | h
    · exact ha.comments c (.inl h)
    · exact hb.comments c (.inl h)
    · exact ha.comments c (.inr h)
    · exact hb.comments c (.inr h)
  inline := ha.inline.append hb.inline

theorem ArrayPart.append {a b : List ArrayData} (ha : ArrayPart T a) (hb : ArrayPart T b) : ArrayPart T (a ++ b) where
  anchors e x h := (List.mem_append.1 h).elim (ha.anchors e x) (hb.anchors e x)
  values e h := (List.mem_append.1 h).elim (ha.values e) (hb.values e)
  comments c h := by
    rcases h with h | h <;> rcases List.mem_append.1 h with h | h
    · exact ha.comments c (.inl h)
    · exact hb.comments c (.inl h)
    · exact ha.comments c (.inr h)
    · exact hb.comments c (.inr h)
  inline := ha.inline.append hb.inline

theorem HashPart.ofComments {cs : List Str} (h : ∀ c ∈ cs, LineText c) : HashPart T (cs.map .comment) where
  keys e h := by simp at h
  anchors e x h := by simp at h
  values e h := by simp at h
  comments c hc := by
    rcases hc with hc | hc
    · simp at hc; exact h c hc
    · simp at hc
  inline := .of_none (by simp)

theorem ArrayPart.ofComments {cs : List Str} (h : ∀ c ∈ cs, LineText c) : ArrayPart T (cs.map .comment) where
  anchors e x h := by simp at h
  values e h := by simp at h
  comments c hc := by
    rcases hc with hc | hc
    · simp at hc; exact h c hc
    · simp at hc
  inline := .of_none (by simp)

/-- A good value with a good anchor name. -/
structure AliasedOk (T : CharTables) (a : AliasedYaml) : Prop where
  name : ∀ n, a.alias = some n → NameText T n
  value : ParsedValue T a.value

theorem HashPart.single {e : HashElement} (hk : KeyText T e.key) (hv : AliasedOk T e.value) : HashPart T [.element e] where
  keys e' h := by simp at h; exact h ▸ hk
  anchors e' x h := by simp at h; exact h ▸ hv.name x
  values e' h := by simp at h; exact h ▸ hv.value
  comments c h := by simp at h
  inline := .of_none (by simp)

theorem HashPart.pair {e : HashElement} {c : Str} (hk : KeyText T e.key) (hv : AliasedOk T e.value) (hc : LineText c) :
    HashPart T [.element e, .inlineComment c] where
  keys e' h := by simp at h; exact h ▸ hk
  anchors e' x h := by simp at h; exact h ▸ hv.name x
  values e' h := by simp at h; exact h ▸ hv.value
  comments c h := by simp at h; exact h ▸ hc
  inline := .pair (by simp) ⟨e, rfl⟩

theorem ArrayPart.single {e : AliasedYaml} (hv : AliasedOk T e) : ArrayPart T [.element e] where
  anchors e' x h := by simp at h; exact h ▸ hv.name x
  values e' h := by simp at h; exact h ▸ hv.value
  comments c h := by simp at h
  inline := .of_none (by simp)

theorem ArrayPart.pair {e : AliasedYaml} {c : Str} (hv : AliasedOk T e) (hc : LineText c) :
    ArrayPart T [.element e, .inlineComment c] where
  anchors e' x h := by simp at h; exact h ▸ hv.name x
  values e' h := by simp at h; exact h ▸ hv.value
  comments c h := by simp at h; exact h ▸ hc
  inline := .pair (by simp) ⟨e, rfl⟩

theorem HashPart.flatten {l : List (List HashData)} (h : ∀ ds ∈ l, HashPart T ds) : HashPart T l.flatten := by
  induction l with
  | nil => exact HashPart.ofComments (cs := []) (by simp)
  | cons d l ih =>
    rw [List.flatten_cons]
    exact (h d (by simp)).append (ih fun x hx => h x (by simp [hx]))

theorem ArrayPart.flatten {l : List (List ArrayData)} (h : ∀ ds ∈ l, ArrayPart T ds) : ArrayPart T l.flatten := by
  induction l with
  | nil => exact ArrayPart.ofComments (cs := []) (by simp)
  | cons d l ih =>
    rw [List.flatten_cons]
    exact (h d (by simp)).append (ih fun x hx => h x (by simp [hx]))

theorem HashPart.toValue {ds : List HashData} (h : HashPart T ds) (hne : ∃ e, HashData.element e ∈ ds) : ParsedValue T (.hash ds) :=
  .hash hne h.keys h.anchors h.values h.comments h.inline

theorem ArrayPart.toValue {ds : List ArrayData} (h : ArrayPart T ds) (hne : ∃ e, ArrayData.element e ∈ ds) : ParsedValue T (.array ds) :=
  .array hne h.anchors h.values h.comments h.inline

/-- A document tree with a property. -/
def IsYaml (P : Yaml → Prop) (v : Val) : Prop := ∃ y, v = .yaml y ∧ P y
/-- A string with a property. -/
def IsStr (P : Str → Prop) (v : Val) : Prop := ∃ s, v = .str s ∧ P s
/-- A list of lines. -/
def IsLines (P : List Str → Prop) (v : Val) : Prop := ∃ l, v = .strs l ∧ (∀ s ∈ l, LineText s) ∧ P l

/-- A parsed value, or a plain scalar that is not yet known not to be a reference. -/
def BlockWeak (T : CharTables) (y : Yaml) : Prop := (∃ s, y = .unquotedString s ∧ WeakPlain s) ∨ ParsedValue T y
/-- A parsed flow value, or a plain scalar of which the start is not yet known. -/
def FlowWeak (T : CharTables) (y : Yaml) : Prop := (∃ s, y = .unquotedString s ∧ WeakFlowPlain s) ∨ ParsedFlow T y

/-- What the consumer of each rule returns; `none` for rules without a consumer function. -/
def result (T : CharTables) : Rule → Option (Val → Prop)
  | .EOI | .removable_newline => some fun v => v = .unit
  | .comment_text | .comment | .commentnl | .block_string => some (IsStr LineText)
  | .alias | .alias_name => some (IsStr (NameText T))
  | .anchor => some (IsYaml fun y => ParsedFlow T y ∧ ParsedValue T y)
  | .hash_key => some (IsStr (KeyText T))
  | .inline_hash_element => some fun v => ∃ k y, v = .entry k y ∧ KeyText T k ∧ ParsedFlow T y
  | .inline_hash => some (IsYaml fun y => ParsedFlow T y ∧ ParsedValue T y)
  | .inline_array => some (IsYaml fun y => ParsedFlow T y ∧ ParsedValue T y ∧ RootCollection y)
  | .unquoted_string | .string => some (IsYaml (BlockWeak T))
  | .inline_value | .yaml_value | .string_multiline_literal | .string_multiline_folded
  | .alternative_hash | .alternative_array => some (IsYaml (ParsedValue T))
  | .unquoted_inline_string | .inline_array_string | .inline_array_value => some (IsYaml (FlowWeak T))
  | .hash | .array | .block_array | .document => some (IsYaml fun y => ParsedValue T y ∧ RootCollection y)
  | .escaped_double_quote_char_value => some fun v => ∃ c, v = .dqEsc c
  | .double_quote_text => some (IsStr fun s => DQPartText (.string s))
  | .blank_lines => some fun v => ∃ n, v = .nat n ∧ 1 ≤ n
  | .double_quote_without_escape => some fun v => ∃ p, v = .dqPart p ∧ DQPartText p
  | .double_quote_content => some fun v => ∃ ps, v = .dqParts ps ∧ DQChain ps
  | .double_quoted_string | .single_quoted_string => some (IsYaml fun y => ParsedFlow T y ∧ ParsedValue T y)
  | .single_quote => some fun v => ∃ c, v = .sqEsc c
  | .single_quote_text => some (IsStr fun s => SQPartText (.string s))
  | .escaped_single_quote_char => some fun v => ∃ p, v = .sqPart p ∧ SQPartText p
  | .single_quote_content => some fun v => ∃ ps, v = .sqParts ps ∧ SQChain ps
  | .block_empty_lines | .string_multiline_trailing | .string_multiline_content_part | .commentnls | .leading_comments =>
    some (IsLines fun _ => True)
  | .string_multiline_content => some (IsLines fun l => l ≠ [])
  | .string_block_chomping => some fun v => ∃ c, v = .chomping c
  | .aliased_yaml_value | .block_array_aliased_yaml_value | .alternative_aliased_yaml_value =>
    some fun v => ∃ a, v = .aliased a ∧ AliasedOk T a
  | .hash_element => some fun v => ∃ e, v = .hashElement e ∧ KeyText T e.key ∧ AliasedOk T e.value
  | .first_hash_element | .hash_element_data | .alternative_hash_continuation =>
    some fun v => ∃ ds, v = .hashData ds ∧ HashPart T ds ∧ ∃ e, HashData.element e ∈ ds
  | .block_array_element => some fun v => ∃ e, v = .arrayDatum (.element e) ∧ AliasedOk T e
  | .first_block_array_element | .block_array_data =>
    some fun v => ∃ ds, v = .arrayData ds ∧ ArrayPart T ds ∧ ∃ e, ArrayData.element e ∈ ds
  | .yaml => some fun v => ∃ d, v = .doc d ∧ ParsedDocument T d
  | _ => none

/-- The outcome of consuming a node is as expected. -/
def Good (T : CharTables) (B : Prop) (r : Rule) (o : Out Val) : Prop :=
  match r with
  | .string_multiline_indent => o = .panic ∨ ∃ n, o = .ok (.optNat n)
  | r => match result T r with
    | some P => Fine B P o
    | none => True

/-- The silent rules produce these children. -/
def silentKids (r : Rule) (l : List Rule) : Prop :=
  match r with
  | .escaped_double_quote_char => l = [.escaped_double_quote_char_value]
  | .single_quote_char => l = [.single_quote]
  | .comment_base => l = [.comment_text]
  | _ => l = []

theorem silentKids_ok (r : Rule) (h : (yamlGrammar T).kind r = .silent) (l : List Rule)
    (hl : lang (yamlGrammar T).kind silentKids ((yamlGrammar T).body r) l) : silentKids r l := by
  cases r <;> first
    | (exfalso; revert h; simp [yamlGrammar, Rule.kind]; done)
    | (simp [yamlGrammar, Rule.body, lang, Rule.kind, silentKids, Expr.seqs, Expr.alts, Expr.plus, Rule.NEWLINE, Rule.ANY, Rule.SP,
        star_nil] at hl ⊢; exact hl)

/-! ## lists of children -/

theorem kids_cons {ks : Kids} {r : Rule} {l : List Rule} (h : ks.map Prod.fst = r :: l) :
    ∃ o t, ks = (r, o) :: t ∧ t.map Prod.fst = l := by
  cases ks with
  | nil => cases h
  | cons x t =>
    obtain ⟨r', o⟩ := x
    simp only [List.map_cons, List.cons.injEq] at h
    exact ⟨o, t, by rw [h.1], h.2⟩

theorem kids_append {ks : Kids} {l₁ l₂ : List Rule} (h : ks.map Prod.fst = l₁ ++ l₂) :
    ∃ t₁ t₂, ks = t₁ ++ t₂ ∧ t₁.map Prod.fst = l₁ ∧ t₂.map Prod.fst = l₂ := by
  obtain ⟨t₁, t₂, h1, h2, h3⟩ := List.map_eq_append_iff.1 h
  exact ⟨t₁, t₂, h1, h2, h3⟩

theorem many_fine {α : Type} {B : Prop} {r : Rule} {as : Val → Out α} {P : Val → Prop} {Q : α → Prop}
    (has : ∀ v, P v → Fine B Q (as v)) {ks : Kids} (hr : ∀ x ∈ ks.map Prod.fst, x = r) (hk : ∀ x ∈ ks, Fine B P x.2) :
    Fine B (fun l => ∀ a ∈ l, Q a) (many r as ks) := by
  induction ks with
  | nil => exact .ok (by simp)
  | cons x ks ih =>
    obtain ⟨r', o⟩ := x
    obtain rfl : r' = r := hr r' (by simp)
    simp only [many, if_true]
    refine (hk (r', o) (by simp)).bind fun v hv => (has v hv).bind fun a ha => ?_
    refine (ih (fun x hx => hr x (by simp only [List.map_cons, List.mem_cons]; exact .inr hx)) (fun x hx => hk x (by simp [hx]))).bind fun l hl => .ok ?_
    intro b hb
    rcases List.mem_cons.1 hb with rfl | hb
    · exact ha
    · exact hl b hb

theorem manyThen_fine {α β : Type} {B : Prop} {r last : Rule} {as : Val → Out α} {asLast : Val → Out β} {P : Val → Prop} {Q : α → Prop}
    {P' : Val → Prop} {Q' : β → Prop} (hne : r ≠ last)
    (has : ∀ v, P v → Fine B Q (as v)) (has' : ∀ v, P' v → Fine B Q' (asLast v)) {ks : Kids} {o : Out Val}
    (hr : ∀ x ∈ ks.map Prod.fst, x = r) (hk : ∀ x ∈ ks, Fine B P x.2) (ho : Fine B P' o) :
    Fine B (fun p => (∀ a ∈ p.1, Q a) ∧ Q' p.2) (manyThen r as last asLast (ks ++ [(last, o)])) := by
  induction ks with
  | nil =>
    simp only [List.nil_append, manyThen, and_self, if_true]
    exact ho.bind fun v hv => (has' v hv).bind fun b hb => .ok ⟨by simp, hb⟩
  | cons x ks ih =>
    obtain ⟨r', o'⟩ := x
    obtain rfl : r' = r := hr r' (by simp)
    simp only [List.cons_append, manyThen, hne, false_and, if_false, if_true]
    refine (hk (r', o') (by simp)).bind fun v hv => (has v hv).bind fun a ha => ?_
    refine (ih (fun x hx => hr x (by simp only [List.map_cons, List.mem_cons]; exact .inr hx)) (fun x hx => hk x (by simp [hx]))).bind fun l hl => .ok ⟨?_, hl.2⟩
    intro b hb
    rcases List.mem_cons.1 hb with rfl | hb
    · exact ha
    · exact hl.1 b hb

theorem passYaml_fine {B : Prop} {children : List Rule} {r : Rule} {o : Out Val} {P Q : Yaml → Prop} (hr : r ∈ children)
    (ho : Fine B (IsYaml P) o) (hpq : ∀ y, P y → Q y) : Fine B (IsYaml Q) (Consume.passYaml children [(r, o)]) := by
  simp only [Consume.passYaml, List.contains_iff_mem, hr, if_true]
  refine ho.bind ?_
  rintro v ⟨y, rfl, hy⟩
  exact .ok ⟨y, rfl, hpq y hy⟩

theorem isStr_fine {B : Prop} {P : Str → Prop} (v : Val) (h : IsStr P v) : Fine B P v.asStr := by
  obtain ⟨s, rfl, hs⟩ := h; exact .ok hs

theorem isYaml_fine {B : Prop} {P : Yaml → Prop} (v : Val) (h : IsYaml P v) : Fine B P v.asYaml := by
  obtain ⟨s, rfl, hs⟩ := h; exact .ok hs

theorem isLines_fine {B : Prop} {P : List Str → Prop} (v : Val) (h : IsLines P v) :
    Fine B (fun l => (∀ s ∈ l, LineText s) ∧ P l) v.asStrs := by
  obtain ⟨s, rfl, hs⟩ := h; exact .ok hs

theorem sliceFrom_suffix {n : Nat} {s t : Str} (h : sliceFrom n s = some t) : ∃ u, s = u ++ t := by
  induction s generalizing n with
  | nil =>
    cases n with
    | zero => simp only [sliceFrom, Option.some.injEq] at h; exact ⟨[], by simp [h]⟩
    | succ n => cases h
  | cons c s ih =>
    cases n with
    | zero => simp only [sliceFrom, Option.some.injEq] at h; exact ⟨[], by simp [h]⟩
    | succ n =>
      simp only [sliceFrom] at h
      split at h
      · obtain ⟨u, rfl⟩ := ih h
        exact ⟨c :: u, rfl⟩
      · cases h

theorem all_lines_fine {B : Prop} (hb : B) {n : Nat} {ls : List Str} (h : ∀ l ∈ ls, LineText l) :
    Fine B (fun l => (∀ s ∈ l, LineText s) ∧ l.length = ls.length)
      (Out.all (ls.map fun x => if x.isEmpty then .ok x else Out.unwrapOpt (sliceFrom n x))) := by
  induction ls with
  | nil => exact .ok ⟨by simp, rfl⟩
  | cons x ls ih =>
    simp only [List.map_cons, Out.all]
    have hx : LineText x := h x (by simp)
    have hstep : Fine B LineText (if x.isEmpty then .ok x else Out.unwrapOpt (sliceFrom n x)) := by
      split
      · exact .ok hx
      · cases hs : sliceFrom n x with
        | none => exact .inl ⟨rfl, hb⟩
        | some y =>
          obtain ⟨u, rfl⟩ := sliceFrom_suffix hs
          refine .ok ⟨fun h => hx.1 (by simp [h]), fun h => hx.2 (by simp [h])⟩
    refine hstep.bind fun a ha => (ih fun l hl => h l (by simp [hl])).bind fun l hl => .ok ⟨?_, by simp [hl.2]⟩
    intro s hs
    rcases List.mem_cons.1 hs with rfl | hs
    · exact ha
    · exact hl.1 s hs

theorem clean_fine {B : Prop} (hb : B) {ind : Option Nat} {ls : List Str} (h : ∀ l ∈ ls, LineText l) (hne : ls ≠ []) :
    Fine B (fun l => (∀ s ∈ l, LineText s) ∧ l ≠ []) (cleanMultilineStrings ind ls) := by
  have hlen : ∀ l : List Str, l.length = ls.length → l ≠ [] := by
    rintro l hl rfl
    exact hne (List.eq_nil_of_length_eq_zero hl.symm)
  cases ind with
  | some n => exact (all_lines_fine hb h).mono fun l hl => ⟨hl.1, hlen l hl.2⟩
  | none =>
    cases ls with
    | nil => exact absurd rfl hne
    | cons x ls => exact (all_lines_fine hb h).mono fun l hl => ⟨hl.1, hlen l hl.2⟩

end YamlSubset
