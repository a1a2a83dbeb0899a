import Verif.Spec.Layout
import Verif.Model.Format
import Verif.Lemmas.KernelRfl

/-! # Layout of formatted documents (C48) -/

namespace YamlSubset

open Spec

/-- The item is at a column, or on the first line (which starts in the middle of a line of the text). -/
def Placed (parent : Option Parent) (spaces n : Nat) (t text : Str) : Prop :=
  AtColumn (spaces + 2 * n) t text ∨
    (parent = some .array ∧ ∃ lead after, text = lead ++ t ++ after ∧ lead.length = 2 * n + 1 ∧ ∀ c ∈ lead, c = ' ' ∨ c = '-')

theorem Spec.AtColumn.append {col : Nat} {t text : Str} (h : AtColumn col t text) (pre post : Str) : AtColumn col t (pre ++ text ++ post) := by
  obtain ⟨b, l, a, rfl, hl, hc⟩ := h
  exact ⟨pre ++ b, l, a ++ post, by simp, hl, hc⟩

theorem Placed.after {parent : Option Parent} {spaces n : Nat} {t text : Str} (h : Placed parent spaces n t text) (post : Str) :
    Placed parent spaces n t (text ++ post) := by
  rcases h with h | ⟨hp, l, a, rfl, hl, hc⟩
  · exact .inl (by simpa using h.append [] post)
  · exact .inr ⟨hp, l, a ++ post, by simp, hl, hc⟩

theorem atColumn_indent {spaces : Nat} {t : Str} (post : Str) : AtColumn spaces t ('\n' :: (indent spaces ++ t) ++ post) :=
  ⟨[], indent spaces, post, by simp, by simp [indent], by simp [indent]⟩

theorem Placed.none {spaces n : Nat} {t text : Str} (h : Placed none spaces n t text) : AtColumn (spaces + 2 * n) t text := by
  rcases h with h | ⟨hp, _⟩
  · exact h
  · exact nomatch hp

/-- The text of a value with its anchor. -/
def nodeText (spaces : Nat) (p : Option Parent) (a : Option Str) (v : Yaml) : Str :=
  match a with
  | some a => [' ', '&'] ++ a ++ Yaml.format (spaces + 2) none v
  | none => Yaml.format (spaces + 2) p v

theorem formatHash_node (spaces : Nat) (parent : Option Parent) (first : Bool) (k : Str) (a : Option Str) (v : Yaml) (t : List HashData) :
    formatHash spaces parent first (.element ⟨k, ⟨a, v⟩⟩ :: t) =
      (if parent = some .array && first then ' ' :: (k ++ [':']) else '\n' :: (indent spaces ++ k ++ [':'])) ++ nodeText spaces (some .hash) a v ++
        formatHash spaces parent false t := by
  cases a <;> simp [formatHash, nodeText]

theorem formatArray_node (spaces : Nat) (parent : Option Parent) (first : Bool) (a : Option Str) (v : Yaml) (t : List ArrayData) :
    formatArray spaces parent first (.element ⟨a, v⟩ :: t) =
      (if parent = some .array && first then [' ', '-'] else '\n' :: (indent spaces ++ ['-'])) ++ nodeText spaces (some .array) a v ++
        formatArray spaces parent false t := by
  cases a <;> simp [formatArray, nodeText]

/-- The value of an element, with its anchor. -/
theorem placed_value {spaces n : Nat} {t : Str} {v : Yaml} (pre : Str) (a : Option Str) (p : Option Parent)
    (ih : ∀ p, Placed p (spaces + 2) n t (v.format (spaces + 2) p)) (hp : p = some .hash) (post : Str) :
    AtColumn (spaces + 2 * (n + 1)) t (pre ++ nodeText spaces p a v ++ post) := by
  have e : spaces + 2 * (n + 1) = spaces + 2 + 2 * n := by omega
  rw [e]
  cases a with
  | some a => simpa [nodeText] using (ih none).none.append (pre ++ [' ', '&'] ++ a) post
  | none =>
    subst hp
    rcases ih (some .hash) with h | ⟨h, _⟩
    · exact h.append _ _
    · exact nomatch h

theorem formatHash_placed {spaces n : Nat} {t : Str} (P : HashData → Prop) (parent : Option Parent) :
    (ds : List HashData) → (first : Bool) → (d : HashData) → d ∈ ds → P d →
    (∀ first rest, P d → Placed (if first then parent else none) spaces n t (formatHash spaces parent first (d :: rest))) →
    Placed (if first then parent else none) spaces n t (formatHash spaces parent first ds)
  | [], _, _, h, _, _ => by simp at h
  | d' :: ds, first, d, h, hP, hd => by
    rcases List.mem_cons.1 h with rfl | h
    · exact hd first ds hP
    · have ih := (formatHash_placed P parent ds false d h hP hd).none
      have : ∃ x, formatHash spaces parent first (d' :: ds) = x ++ formatHash spaces parent false ds := by
        match d' with
        | .comment c => exact ⟨_, by rw [formatHash]⟩
        | .inlineComment c => exact ⟨_, by rw [formatHash]⟩
        | .element ⟨k, ⟨a, v⟩⟩ => exact ⟨_, by rw [formatHash_node]⟩
      obtain ⟨x, hx⟩ := this
      rw [hx]
      exact .inl (by simpa using ih.append x [])

theorem formatArray_placed {spaces n : Nat} {t : Str} (parent : Option Parent) :
    (ds : List ArrayData) → (first : Bool) → (d : ArrayData) → d ∈ ds →
    (∀ first rest, Placed (if first then parent else none) spaces n t (formatArray spaces parent first (d :: rest))) →
    Placed (if first then parent else none) spaces n t (formatArray spaces parent first ds)
  | [], _, _, h, _ => by simp at h
  | d' :: ds, first, d, h, hd => by
    rcases List.mem_cons.1 h with rfl | h
    · exact hd first ds
    · have ih := (formatArray_placed parent ds false d h hd).none
      have : ∃ x, formatArray spaces parent first (d' :: ds) = x ++ formatArray spaces parent false ds := by
        match d' with
        | .comment c => exact ⟨_, by rw [formatArray]⟩
        | .inlineComment c => exact ⟨_, by rw [formatArray]⟩
        | .element ⟨a, v⟩ => exact ⟨_, by rw [formatArray_node]⟩
      obtain ⟨x, hx⟩ := this
      rw [hx]
      exact .inl (by simpa using ih.append x [])

theorem placed_item {n : Nat} {t : Str} {y : Yaml} (h : ItemAt n t y) : ∀ (spaces : Nat) (parent : Option Parent), Placed parent spaces n t (y.format spaces parent) := by
  have hne : ∀ {α : Type} {ds : List α} {x : α}, x ∈ ds → ds.isEmpty = false := by
    intro α ds x h; cases ds <;> simp_all
  induction h with
  | @key ds k v h =>
    intro spaces parent
    rw [Yaml.format, hne h]
    obtain ⟨a, v⟩ := v
    refine formatHash_placed (fun _ => True) parent ds true _ h trivial fun first rest _ => ?_
    rw [formatHash_node]
    by_cases hp : parent = some .array ∧ first = true
    · obtain ⟨rfl, rfl⟩ := hp
      exact .inr ⟨rfl, [' '], nodeText spaces (some .hash) a v ++ formatHash spaces (some .array) false rest, by simp, by simp, by simp⟩
    · rw [if_neg (show ¬ ((decide (parent = some Parent.array) && first) = true) by simpa using hp)]
      refine .inl ?_
      have := atColumn_indent (spaces := spaces) (t := k ++ [':']) (nodeText spaces (some .hash) a v ++ formatHash spaces parent false rest)
      simpa using this
  | @hashComment ds c h =>
    intro spaces parent
    rw [Yaml.format, hne h]
    refine formatHash_placed (fun _ => True) parent ds true _ h trivial fun first rest _ => ?_
    rw [formatHash]
    exact .inl (atColumn_indent _)
  | @dash ds v h =>
    intro spaces parent
    rw [Yaml.format, hne h]
    obtain ⟨a, v⟩ := v
    refine formatArray_placed parent ds true _ h fun first rest => ?_
    rw [formatArray_node]
    by_cases hp : parent = some .array ∧ first = true
    · obtain ⟨rfl, rfl⟩ := hp
      exact .inr ⟨rfl, [' '], nodeText spaces (some .array) a v ++ formatArray spaces (some .array) false rest, by simp, by simp, by simp⟩
    · rw [if_neg (show ¬ ((decide (parent = some Parent.array) && first) = true) by simpa using hp)]
      refine .inl ?_
      have := atColumn_indent (spaces := spaces) (t := ['-']) (nodeText spaces (some .array) a v ++ formatArray spaces parent false rest)
      simpa using this
  | @arrayComment ds c h =>
    intro spaces parent
    rw [Yaml.format, hne h]
    refine formatArray_placed parent ds true _ h fun first rest => ?_
    rw [formatArray]
    exact .inl (atColumn_indent _)
  | @inHash ds n t k a v h hv ih =>
    intro spaces parent
    rw [Yaml.format, hne h]
    refine formatHash_placed (fun _ => True) parent ds true _ h trivial fun first rest _ => ?_
    rw [formatHash_node]
    exact .inl (placed_value _ a _ (fun p => ih (spaces + 2) p) rfl _)
  | @inArray ds n t a v h hv ih =>
    intro spaces parent
    rw [Yaml.format, hne h]
    refine formatArray_placed parent ds true _ h fun first rest => ?_
    rw [formatArray_node]
    have e : spaces + 2 * (n + 1) = spaces + 2 + 2 * n := by omega
    cases a with
    | some a =>
      refine .inl ?_
      rw [e]
      have := (ih (spaces + 2) none).none.append ((if (parent = some Parent.array && first) = true then [' ', '-'] else '\n' :: (indent spaces ++ ['-'])) ++ ([' ', '&'] ++ a)) (formatArray spaces parent false rest)
      simpa [nodeText] using this
    | none =>
      rcases ih (spaces + 2) (some .array) with hc | ⟨-, l, x, hx, hl, hc⟩
      · refine .inl ?_
        rw [e]
        exact hc.append _ _
      · by_cases hp : parent = some .array ∧ first = true
        · obtain ⟨rfl, rfl⟩ := hp
          refine .inr ⟨rfl, [' ', '-'] ++ l, x ++ formatArray spaces (some .array) false rest, ?_, by simp [hl]; omega, ?_⟩
          · simp [nodeText, hx]
          · simpa using hc
        · rw [if_neg (show ¬ ((decide (parent = some Parent.array) && first) = true) by simpa using hp)]
          refine .inl ⟨[], indent spaces ++ ['-'] ++ l, x ++ formatArray spaces parent false rest, by simp [nodeText, hx], by simp [indent, hl]; omega, ?_⟩
          intro c hcc
          simp only [indent, List.mem_append, List.mem_replicate, List.mem_singleton] at hcc
          rcases hcc with (h | h) | h
          · exact .inl h.2
          · exact .inr h
          · exact hc c h

/-- **C48** Every item at depth `n` of a document is written at column `2 * n`. -/
theorem C48_indentation (d : Document) (y : Yaml) (hy : .yaml y ∈ d.items) (n : Nat) (t : Str) (h : ItemAt n t y) : AtColumn (2 * n) t d.format := by
  obtain ⟨pre, post, hi⟩ := List.append_of_mem hy
  have := (placed_item h 0 none).none.append (d.leadingComments.flatMap (fun c => '#' :: (c ++ ['\n'])) ++ c!"---" ++ pre.flatMap DocumentData.format)
    (post.flatMap DocumentData.format)
  simpa [Document.format, hi, DocumentData.format] using this

theorem noBreak_format {y : Yaml} (h : NoBreak y) : ∀ (spaces : Nat) (parent : Option Parent), '\n' ∉ y.format spaces parent := by
  induction h with
  | @inlineHash es keys values ih =>
    intro spaces parent
    have : ∀ first, '\n' ∉ formatInlineEntries first es := by
      clear values
      induction es with
      | nil => simp [formatInlineEntries]
      | cons e t iht =>
        obtain ⟨k, v⟩ := e
        intro first
        have h1 := keys k v (by simp)
        have h2 := ih k v (by simp) 0 none
        have h3 := iht (fun k v h => keys k v (by simp [h])) (fun k v h => ih k v (by simp [h])) false
        cases first <;> simp [formatInlineEntries, h1, h2, h3]
    cases es <;> simp [Yaml.format, this]
  | @inlineArray es h ih =>
    intro spaces parent
    have : ∀ first, '\n' ∉ formatInlineElements first es := by
      clear h
      induction es with
      | nil => simp [formatInlineElements]
      | cons v t iht =>
        intro first
        have h2 := ih v (by simp) 0 none
        have h3 := iht (fun v h => ih v (by simp [h])) false
        cases first <;> simp [formatInlineElements, h2, h3]
    cases es <;> simp [Yaml.format, this]
  | hash => intro spaces parent; simp [Yaml.format]
  | array => intro spaces parent; simp [Yaml.format]
  | plain h => intro spaces parent; simpa [Yaml.format] using h
  | single h =>
    intro spaces parent
    simp only [Yaml.format, List.mem_append, List.mem_flatMap, not_or, not_exists, not_and]
    refine ⟨⟨by simp, fun p hp => ?_⟩, by simp⟩
    rcases h p hp with rfl | ⟨s, rfl, hs⟩
    · simp [SQPart.format, SQEscapedChar.char]
    · exact hs
  | double h =>
    intro spaces parent
    simp only [Yaml.format, List.mem_append, List.mem_flatMap, not_or, not_exists, not_and]
    refine ⟨⟨by simp, fun p hp => ?_⟩, by simp⟩
    rcases h p hp with ⟨e, rfl, he⟩ | ⟨s, rfl, hs⟩
    · cases e <;> simp [DQPart.format, DQEscapedChar.char] at he ⊢
    · exact hs
  | anchor h => intro spaces parent; simpa [Yaml.format] using h

/-- **C48** A flow value without line breaks in its texts is written without line breaks, so on one line. -/
theorem C48_flow_on_one_line (y : Yaml) (h : NoBreak y) (spaces : Nat) (parent : Option Parent) : '\n' ∉ y.format spaces parent :=
  noBreak_format h spaces parent

/-- **C48** A node with an anchor is written by itself exactly as it is written in a mapping after its key, and in a sequence after its
dash. -/
theorem C48_aliased (spaces : Nat) (k : Str) (v : AliasedYaml) :
    Yaml.format spaces none (.hash [.element ⟨k, v⟩]) = '\n' :: (indent spaces ++ k ++ [':'] ++ v.format spaces (some .hash)) ∧
    Yaml.format spaces none (.array [.element v]) = '\n' :: (indent spaces ++ ['-'] ++ v.format spaces (some .array)) := by
  obtain ⟨a, v⟩ := v
  cases a <;> simp [Yaml.format, formatHash, formatArray, AliasedYaml.format]

/-- A mapping in a sequence in a mapping, with an anchor and comments. -/
def layoutExample : Yaml :=
  .hash [.element ⟨c!"a", ⟨none, .array [.element ⟨none, .hash [.element ⟨c!"b", ⟨none, .unquotedString c!"1"⟩⟩, .comment c!"x",
    .element ⟨c!"c", ⟨some c!"n", .hash [.element ⟨c!"d", ⟨none, .inlineArray [.unquotedString c!"2"]⟩⟩]⟩⟩]⟩]⟩⟩]

example : ItemAt 2 c!"b:" layoutExample ∧ ItemAt 2 c!"#x" layoutExample ∧ ItemAt 3 c!"d:" layoutExample ∧ ItemAt 1 c!"-" layoutExample ∧
    NoBreak (.inlineArray [.unquotedString c!"2"]) ∧
    (Document.format ⟨[], [.yaml layoutExample]⟩) = c!"---\na:\n  - b: 1\n    #x\n    c: &n\n      d: [ 2 ]" :=
  ⟨.inHash (.head _) (.inArray (.head _) (.key (k := c!"b") (.head _))), .inHash (.head _) (.inArray (.head _) (.hashComment (.tail _ (.head _)))),
    .inHash (.head _) (.inArray (.head _) (.inHash (.tail _ (.tail _ (.head _))) (.key (k := c!"d") (.head _)))), .inHash (.head _) (.dash (.head _)),
    .inlineArray (by simpa using .plain (by decide)), by kernel_rfl⟩

end YamlSubset
