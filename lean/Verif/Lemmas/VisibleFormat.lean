import Verif.Lemmas.VisibleSees
import Verif.Lemmas.Induct
import Verif.Spec.Parsed

/-! # The visible text the formatter writes -/

namespace YamlSubset

open Spec

theorem visible_cons_dark {c : Char} (h : isWhitespace c = true) (s : Str) : visible (c :: s) = visible s := by
  simp [visible, h]

theorem visible_cons_ink {c : Char} (h : isWhitespace c = false) (s : Str) : visible (c :: s) = c :: visible s := by
  simp [visible, h]

theorem visible_indent (n : Nat) : visible (indent n) = [] := by
  apply visible_white
  intro c hc
  rw [indent, List.mem_replicate] at hc
  rw [hc.2]; decide

theorem visible_newlines (n : Nat) : visible (List.replicate n '\n') = [] := by
  apply visible_white
  intro c hc
  rw [List.mem_replicate] at hc
  rw [hc.2]; decide

theorem visible_dqFormat (p : DQPart) : visible p.format = dqShown p := by
  cases p with
  | string s => rfl
  | escapedChar c => cases c <;> decide
  | blankLines n => exact visible_newlines _
  | removableNewline => decide

theorem visible_sqFormat (p : SQPart) : visible p.format = sqShown p := by
  cases p with
  | string s => rfl
  | escapedChar c => cases c; decide
  | blankLines n => exact visible_newlines _
  | removableNewline => decide

theorem visible_flatMap {α : Type} (f g : α → Str) (h : ∀ a, visible (f a) = g a) (l : List α) : visible (l.flatMap f) = l.flatMap g := by
  induction l with
  | nil => rfl
  | cons a l ih => rw [List.flatMap_cons, List.flatMap_cons, visible_append, ih, h]

/-- The characters the formatter writes itself. -/
theorem ink_chars : isWhitespace '#' = false ∧ isWhitespace ':' = false ∧ isWhitespace '-' = false ∧ isWhitespace ',' = false ∧
    isWhitespace '{' = false ∧ isWhitespace '}' = false ∧ isWhitespace '[' = false ∧ isWhitespace ']' = false ∧
    isWhitespace '&' = false ∧ isWhitespace '*' = false ∧ isWhitespace '"' = false ∧ isWhitespace '\'' = false := by decide

theorem dark_chars : isWhitespace ' ' = true ∧ isWhitespace '\n' = true := by decide

section
variable {P : Yaml → Str → Prop}

theorem visible_formatHash {ds : List HashData} {x : Str} (h : EntriesShown P ds x)
    (hv : ∀ k a v, HashData.element ⟨k, ⟨a, v⟩⟩ ∈ ds → ∀ z, P v z → ∀ sp par, visible (v.format sp par) = z) (sp : Nat) (par : Option Parent) (first : Bool) :
    visible (formatHash sp par first ds) = x := by
  obtain ⟨i1, i2, i3, i4, i5, i6, i7, i8, i9, i10, i11, i12⟩ := ink_chars
  obtain ⟨d1, d2⟩ := dark_chars
  induction ds generalizing x first with
  | nil => cases h; simp [formatHash, visible]
  | cons d ds ih =>
    have hv' : ∀ k a v, HashData.element ⟨k, ⟨a, v⟩⟩ ∈ ds → ∀ z, P v z → ∀ sp par, visible (v.format sp par) = z :=
      fun k a v hm => hv k a v (List.mem_cons_of_mem _ hm)
    cases h with
    | comment h => simp [formatHash, visible_cons_dark, visible_cons_ink, visible_append, visible_indent, ih h hv', *]
    | inlineComment h => simp [formatHash, visible_cons_dark, visible_cons_ink, visible_append, visible_indent, ih h hv', *]
    | @element k a v ds x z hp h =>
      have e := hv k a v (List.mem_cons_self ..) _ hp
      have e' := ih h hv'
      simp only [formatHash]
      rw [visible_append, visible_append, e']
      cases a <;> split <;>
        simp [visible_cons_dark, visible_cons_ink, visible_append, visible_indent, visible_nil, anchorShown, d1, d2, i1, i2, i9, e]

theorem visible_formatArray {ds : List ArrayData} {x : Str} (h : ElementsShown P ds x)
    (hv : ∀ a v, ArrayData.element ⟨a, v⟩ ∈ ds → ∀ z, P v z → ∀ sp par, visible (v.format sp par) = z) (sp : Nat) (par : Option Parent) (first : Bool) :
    visible (formatArray sp par first ds) = x := by
  obtain ⟨i1, i2, i3, i4, i5, i6, i7, i8, i9, i10, i11, i12⟩ := ink_chars
  obtain ⟨d1, d2⟩ := dark_chars
  induction ds generalizing x first with
  | nil => cases h; simp [formatArray, visible]
  | cons d ds ih =>
    have hv' : ∀ a v, ArrayData.element ⟨a, v⟩ ∈ ds → ∀ z, P v z → ∀ sp par, visible (v.format sp par) = z :=
      fun a v hm => hv a v (List.mem_cons_of_mem _ hm)
    cases h with
    | comment h => simp [formatArray, visible_cons_dark, visible_cons_ink, visible_append, visible_indent, ih h hv', *]
    | inlineComment h => simp [formatArray, visible_cons_dark, visible_cons_ink, visible_append, visible_indent, ih h hv', *]
    | @element a v ds x z hp h =>
      have e := hv a v (List.mem_cons_self ..) _ hp
      have e' := ih h hv'
      simp only [formatArray]
      rw [visible_append, visible_append, e']
      cases a <;> split <;>
        simp [visible_cons_dark, visible_cons_ink, visible_append, visible_indent, visible_nil, anchorShown, d1, d2, i3, i9, e]

theorem visible_formatEntries {es : List (Str × Yaml)} {x : Str} (h : FlowEntriesShown P es x)
    (hv : ∀ k v, (k, v) ∈ es → ∀ z, P v z → ∀ sp par, visible (v.format sp par) = z) (first : Bool) :
    visible (formatInlineEntries first es) = (if first || es.isEmpty then [] else [',']) ++ x := by
  obtain ⟨i1, i2, i3, i4, i5, i6, i7, i8, i9, i10, i11, i12⟩ := ink_chars
  obtain ⟨d1, d2⟩ := dark_chars
  induction es generalizing x first with
  | nil => cases h; simp [formatInlineEntries, visible]
  | cons e es ih =>
    have hv' : ∀ k v, (k, v) ∈ es → ∀ z, P v z → ∀ sp par, visible (v.format sp par) = z :=
      fun k v hm => hv k v (List.mem_cons_of_mem _ hm)
    cases h with
    | @one k v x hp =>
      have e := hv k v (List.mem_cons_self ..) _ hp
      cases first <;> simp [formatInlineEntries, visible_cons_dark, visible_cons_ink, visible_append, visible_nil, d1, i2, i4, e]
    | @more k v e' es x z hp h =>
      have e := hv k v (List.mem_cons_self ..) _ hp
      have e2 := ih h hv' false
      rw [formatInlineEntries, visible_append, e2]
      cases first <;> simp [visible_cons_dark, visible_cons_ink, visible_append, visible_nil, d1, i2, i4, e]

theorem visible_formatElements {es : List Yaml} {x : Str} (h : FlowElementsShown P es x)
    (hv : ∀ v ∈ es, ∀ z, P v z → ∀ sp par, visible (v.format sp par) = z) (first : Bool) :
    visible (formatInlineElements first es) = (if first || es.isEmpty then [] else [',']) ++ x := by
  obtain ⟨i1, i2, i3, i4, i5, i6, i7, i8, i9, i10, i11, i12⟩ := ink_chars
  obtain ⟨d1, d2⟩ := dark_chars
  induction es generalizing x first with
  | nil => cases h; simp [formatInlineElements, visible]
  | cons e es ih =>
    have hv' : ∀ v ∈ es, ∀ z, P v z → ∀ sp par, visible (v.format sp par) = z :=
      fun v hm => hv v (List.mem_cons_of_mem _ hm)
    cases h with
    | one hp =>
      have e := hv _ (List.mem_cons_self ..) _ hp
      cases first <;> simp [formatInlineElements, visible_cons_dark, visible_cons_ink, visible_append, visible_nil, d1, i4, e]
    | more hp h =>
      have e := hv _ (List.mem_cons_self ..) _ hp
      have e2 := ih h hv' false
      rw [formatInlineElements, visible_append, e2]
      cases first <;> simp [visible_cons_dark, visible_cons_ink, visible_append, visible_nil, d1, i4, e]

end

/-- The formatter writes a value with the visible characters it was read from. -/
theorem visible_format {T : CharTables} (y : Yaml) : (NoBlockScalar y → ParsedValue T y → ∀ x, Shown y x → ∀ sp par, visible (y.format sp par) = x) ∧
    (NoBlockScalar y → ParsedFlow T y → ∀ x, Shown y x → ∀ sp par, visible (y.format sp par) = x) := by
  obtain ⟨i1, i2, i3, i4, i5, i6, i7, i8, i9, i10, i11, i12⟩ := ink_chars
  obtain ⟨d1, d2⟩ := dark_chars
  induction y using Yaml.induct with
  | hS ps =>
    have : ∀ x, Shown (.singleQuotedString ps) x → ∀ sp par, visible ((Yaml.singleQuotedString ps).format sp par) = x := by
      intro x hx sp par
      cases hx
      simp [Yaml.format, visible_cons_dark, visible_cons_ink, visible_append, visible_nil, d1, i12, visible_flatMap _ _ visible_sqFormat]
    exact ⟨fun _ _ => this, fun _ _ => this⟩
  | hD ps =>
    have : ∀ x, Shown (.doubleQuotedString ps) x → ∀ sp par, visible ((Yaml.doubleQuotedString ps).format sp par) = x := by
      intro x hx sp par
      cases hx
      simp [Yaml.format, visible_cons_dark, visible_cons_ink, visible_append, visible_nil, d1, i11, visible_flatMap _ _ visible_dqFormat]
    exact ⟨fun _ _ => this, fun _ _ => this⟩
  | hU s =>
    have : ∀ x, Shown (.unquotedString s) x → ∀ sp par, visible ((Yaml.unquotedString s).format sp par) = x := by
      intro x hx sp par
      cases hx
      simp [Yaml.format, visible_cons_dark, d1]
    exact ⟨fun _ _ => this, fun _ _ => this⟩
  | hN a =>
    have : ∀ x, Shown (.anchor a) x → ∀ sp par, visible ((Yaml.anchor a).format sp par) = x := by
      intro x hx sp par
      cases hx
      simp [Yaml.format, visible_cons_dark, visible_cons_ink, d1, i10]
    exact ⟨fun _ _ => this, fun _ _ => this⟩
  | hF ls c => exact ⟨(by intro h; cases h), (by intro h; cases h)⟩
  | hL ls c => exact ⟨(by intro h; cases h), (by intro h; cases h)⟩
  | hIH es ih =>
    have : NoBlockScalar (.inlineHash es) → ParsedFlow T (.inlineHash es) → ∀ x, Shown (.inlineHash es) x → ∀ sp par,
        visible ((Yaml.inlineHash es).format sp par) = x := by
      intro hn hp x hx sp par
      cases hn with
      | flowHash hn =>
      cases hx with
      | flowHash hx =>
      cases hp with
      | inlineHash hk hp =>
      have e := visible_formatEntries hx (fun k v hm z hz => (ih k v hm).2 (hn k v hm) (hp k v hm) z hz) true
      rw [Yaml.format, visible_append, visible_append, visible_append, e]
      cases es <;> simp [visible_cons_dark, visible_cons_ink, visible_nil, d1, i5, i6]
    exact ⟨fun hn hp => this hn (by cases hp; assumption), this⟩
  | hIA es ih =>
    have : NoBlockScalar (.inlineArray es) → ParsedFlow T (.inlineArray es) → ∀ x, Shown (.inlineArray es) x → ∀ sp par,
        visible ((Yaml.inlineArray es).format sp par) = x := by
      intro hn hp x hx sp par
      cases hn with
      | flowArray hn =>
      cases hx with
      | flowArray hx =>
      cases hp with
      | inlineArray hp =>
      have e := visible_formatElements hx (fun v hm z hz => (ih v hm).2 (hn v hm) (hp _ hm) z hz) true
      rw [Yaml.format, visible_append, visible_append, visible_append, e]
      cases es <;> simp [visible_cons_dark, visible_cons_ink, visible_nil, d1, i7, i8]
    exact ⟨fun hn hp => this hn (by cases hp; assumption), this⟩
  | hH ds ih =>
    refine ⟨?_, fun _ hp => by cases hp⟩
    intro hn hp x hx sp par
    cases hn with
    | hash hn =>
    cases hx with
    | hash hx =>
    cases hp with
    | hash he _ _ hvs _ _ =>
    have e := visible_formatHash hx (fun k a v hm z hz => (ih k a v hm).1 (hn k a v hm) (hvs _ hm) z hz) sp par true
    rw [Yaml.format]
    obtain ⟨d, hd⟩ := he
    cases ds with
    | nil => cases hd
    | cons d ds => simpa using e
  | hA ds ih =>
    refine ⟨?_, fun _ hp => by cases hp⟩
    intro hn hp x hx sp par
    cases hn with
    | array hn =>
    cases hx with
    | array hx =>
    cases hp with
    | array he _ hvs _ _ =>
    have e := visible_formatArray hx (fun a v hm z hz => (ih a v hm).1 (hn a v hm) (hvs _ hm) z hz) sp par true
    rw [Yaml.format]
    obtain ⟨d, hd⟩ := he
    cases ds with
    | nil => cases hd
    | cons d ds => simpa using e

end YamlSubset
