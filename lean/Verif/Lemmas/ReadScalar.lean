import Verif.Lemmas.Reads
import Verif.Spec.Readable

/-! # Reading formatted scalars and flow collections -/

namespace YamlSubset

open Peg Spec

variable {T : CharTables}

theorem many_oks {α : Type} (q : Rule) (as : Val → Out α) (f : α → Val) (h : ∀ x, as (f x) = .ok x) (xs : List α) :
    many q as (oks (xs.map fun x => (q, f x))) = .ok xs := by
  induction xs with
  | nil => rfl
  | cons x xs ih => simp [many, h, ih]

theorem manyThen_oks {α β : Type} (q : Rule) (as : Val → Out α) (f : α → Val) (h : ∀ x, as (f x) = .ok x) (xs : List α)
    (p : Rule) (bs : Val → Out β) (v : Val) (b : β) (hb : bs v = .ok b) :
    manyThen q as p bs (oks (xs.map (fun x => (q, f x)) ++ [(p, v)])) = .ok (xs, b) := by
  induction xs with
  | nil => simp [manyThen, hb]
  | cons x xs ih =>
    have hn : oks (xs.map (fun x => (q, f x)) ++ [(p, v)]) ≠ [] := by simp [oks]
    simp [manyThen, h, ih, hn]

/-! ## names and keys -/

/-- Name characters below 128. -/
def asciiName (c : Char) : Bool :=
  (65 ≤ c.toNat && c.toNat ≤ 90) || (97 ≤ c.toNat && c.toNat ≤ 122) || (48 ≤ c.toNat && c.toNat ≤ 57) || c == '_'

theorem nameChar_ascii {c : Char} (h : c.toNat < 128) : NameChar T c ↔ asciiName c = true := by
  simp only [NameChar, T.letter_ascii c h, T.number_ascii c h, asciiName, Bool.or_eq_true, beq_iff_eq]
  grind

theorem not_nameChar {c : Char} (h : c.toNat < 128 ∧ asciiName c = false) : ¬ NameChar T c := by
  rw [nameChar_ascii h.1, h.2]; simp

theorem not_keyChar {c : Char} (h : c.toNat < 128 ∧ asciiName c = false ∧ c ≠ '-' ∧ c ≠ ' ') : ¬ KeyChar T c := by
  rintro (hc | hc | hc)
  · exact not_nameChar ⟨h.1, h.2.1⟩ hc
  · exact h.2.2.1 hc
  · exact h.2.2.2 hc

theorem single_name : Single T (Expr.alts [.cls T.letter, .cls T.number, Rule.lit '_']) (NameChar T) :=
  ((single_cls _).alt ((single_cls _).alt (single_lit '_'))).congr fun _ => Iff.rfl

theorem single_key : Single T (Expr.alts [.cls T.letter, .cls T.number, Rule.lit '_', Rule.lit '-', Rule.lit ' ']) (KeyChar T) := by
  refine ((single_cls _).alt ((single_cls _).alt ((single_lit '_').alt ((single_lit '-').alt (single_lit ' '))))).congr fun c => ?_
  simp only [KeyChar, NameChar, or_assoc]

/-- The next character does not continue a name. -/
def NotName (T : CharTables) (r : Str) : Prop := ∀ c, r.head? = some c → ¬ NameChar T c

theorem reads_alias_name {a r : Str} (ha : NameText T a) (hr : NotName T r) (k) :
    Reads T (.rule .alias_name) (a ++ r) k [(.alias_name, .str a)] r k :=
  .ruleText rfl (single_name.plus ha.1 ha.2 hr k) rfl

theorem not_alias_name {r : Str} (hr : NotName T r) (k) : Not T (.rule .alias_name) r k :=
  .rule (.plus (single_name.no _ _ hr))

theorem reads_alias {a r : Str} (ha : NameText T a) (hr : NotName T r) (k) :
    Reads T (.rule .alias) ('&' :: (a ++ r)) k [(.alias, .str a)] r k :=
  .rule rfl (.seq (.lit '&' _ k) (reads_alias_name ha hr k)) fun _ => rfl

theorem reads_anchor {a r : Str} (ha : NameText T a) (hr : NotName T r) (k) :
    Reads T (.rule .anchor) ('*' :: (a ++ r)) k [(.anchor, .yaml (.anchor a))] r k :=
  .rule rfl (.seq (.lit '*' _ k) (reads_alias_name ha hr k)) fun _ => rfl

theorem trimEnd_of_last {s : Str} (h : ∀ c, s.getLast? = some c → isWhitespace c = false) : trimEnd s = s := by
  obtain ⟨u, hu, hw, -⟩ := trimEnd_append s
  cases hl : u.getLast? with
  | none => rw [List.getLast?_eq_none_iff] at hl; rw [hl] at hu; simpa using hu.symm
  | some c =>
    have hm : c ∈ u := List.mem_of_getLast? hl
    have : s.getLast? = some c := by rw [hu, List.getLast?_append, hl]; rfl
    have := h c this
    rw [hw c hm] at this; cases this

theorem reads_key_run {c : Char} {u v : Str} (hc : NameChar T c) (hu : ∀ d ∈ u, KeyChar T d) (hv : ∀ d, v.head? = some d → ¬ KeyChar T d) (k) :
    Reads T (.rule .hash_key) (c :: u ++ v) k [(.hash_key, .str (trimEnd (c :: u)))] v k :=
  .ruleText rfl (.seq (single_name.yes c (u ++ v) k hc) (single_key.star hu hv k)) rfl

theorem reads_hash_key {s r : Str} (h : KeyText T s) (k) :
    Reads T (.rule .hash_key) (s ++ ':' :: r) k [(.hash_key, .str s)] (':' :: r) k := by
  cases s with
  | nil => exact absurd rfl h.nonempty
  | cons c s =>
    have := reads_key_run (u := s) (v := ':' :: r) (h.first c rfl) (fun d hd => h.chars d (by simp [hd]))
      (by simpa using not_keyChar (T := T) (c := ':') (by decide)) k
    rwa [trimEnd_of_last h.last] at this

theorem not_hash_key {s : Str} (h : NotName T s) (k) : Not T (.rule .hash_key) s k :=
  .rule (.seqL (single_name.no _ _ h))

theorem Spec.KeyText.notSp {s : Str} (h : KeyText T s) (r : Str) : ∃ c t, s ++ r = c :: t ∧ NameChar T c := by
  cases s with
  | nil => exact absurd rfl h.nonempty
  | cons c s => exact ⟨c, s ++ r, rfl, h.first c rfl⟩

theorem space_white {c : Char} (h : isSpaceSeparator c = true) : isWhitespace c = true := by
  simp only [isSpaceSeparator, isWhitespace, Bool.or_eq_true, Bool.and_eq_true, beq_iff_eq, decide_eq_true_eq] at *
  omega

theorem nameChar_black {c : Char} (h : NameChar T c) : isSpaceSeparator c = false ∧ c ≠ '\n' ∧ c ≠ '\r' ∧ c ≠ '#' := by
  have hw := nameChar_not_white h
  refine ⟨?_, ?_, ?_, ?_⟩
  · cases hs : isSpaceSeparator c with
    | false => rfl
    | true => rw [space_white hs] at hw; cases hw
  · rintro rfl; revert hw; decide
  · rintro rfl; revert hw; decide
  · rintro rfl; exact not_nameChar (by decide) h

/-- The longest prefix of characters with a property. -/
theorem exists_run (p : Char → Prop) (s : Str) : ∃ u v, s = u ++ v ∧ (∀ c ∈ u, p c) ∧ ∀ c, v.head? = some c → ¬ p c := by
  induction s with
  | nil => exact ⟨[], [], rfl, by simp, by simp⟩
  | cons c s ih =>
    by_cases h : p c
    · obtain ⟨u, v, rfl, hu, hv⟩ := ih
      refine ⟨c :: u, v, rfl, ?_, hv⟩
      intro d hd
      rcases List.mem_cons.1 hd with rfl | hd
      · exact h
      · exact hu d hd
    · exact ⟨[], c :: s, rfl, by simp, by simpa using h⟩

/-! ## what is not a collection -/

/-- No mapping or sequence entry starts here. -/
structure NoColl (T : CharTables) (s : Str) : Prop where
  bare : Bare s
  key : ∀ k, Not T (.rule .hash_element) s k
  dash : ∀ k, Not T (.rule .block_array_element) s k

/-- No anchor starts here. -/
def NoAlias (T : CharTables) (s : Str) : Prop := ∀ k, Not T (.rule .alias) s k

theorem not_hash_element_head {s : Str} (h : NotName T s) (k) : Not T (.rule .hash_element) s k :=
  .rule (.seqL (not_hash_key h k))

theorem not_element_head {s : Str} (h : s.head? ≠ some '-') (k) : Not T (.rule .block_array_element) s k :=
  .rule (.seqL (.lit h))

theorem noAlias_head {s : Str} (h : s.head? ≠ some '&') : NoAlias T s := fun _ => .rule (.seqL (.lit h))

/-- Values that start with punctuation. -/
theorem noColl_head {c : Char} {s : Str} (h : c.toNat < 128 ∧ asciiName c = false ∧ c ∉ ['-', ' ', '#', '\n', '\r']) : NoColl T (c :: s) := by
  obtain ⟨h1, h2, h3⟩ := h
  simp only [List.mem_cons, List.not_mem_nil, or_false, not_or] at h3
  refine ⟨?_, fun k => not_hash_element_head (by simpa [NotName] using not_nameChar ⟨h1, h2⟩) k, fun k => not_element_head (by simpa using h3.1) k⟩
  simp only [Bare, List.head?_cons, Option.some.injEq, forall_eq']
  refine ⟨?_, h3.2.2.2.1, h3.2.2.2.2, h3.2.2.1⟩
  have hn : c.toNat ≠ 32 := fun h => h3.2.1 (by rw [← Char.ofNat_toNat c, h])
  simp only [isSpaceSeparator, Bool.or_eq_false_iff, Bool.and_eq_false_iff, beq_eq_false_iff_ne, decide_eq_false_iff_not]
  omega

theorem not_first_hash_element {s : Str} {k} (h : Not T (.rule .hash_element) s k) : Not T (.rule .first_hash_element) s k :=
  .rule (.seqL h)

theorem not_first_element {s : Str} {k} (h : Not T (.rule .block_array_element) s k) : Not T (.rule .first_block_array_element) s k :=
  .rule (.seqL h)

theorem not_alternative {s : Str} {k} (h : Not T (.rule .hash_element) s k) (h' : Not T (.rule .block_array_element) s k) :
    Not T (.alt (.rule .alternative_hash) (.rule .alternative_array)) s k :=
  .alt (.rule (.seqL (not_first_hash_element h))) (.rule (.seqL (not_first_element h')))

theorem not_hash_here {s : Str} (h : NoColl T s) (k) : Not T (.rule .hash) s k := by
  refine .rule (.seqR (.optNone (not_newline h.bare.black.notNl)) (.seqR (reads_commentnls_nil (n := 0) h.bare.notSp h.bare.notHash k)
    (.seqR (reads_blank_none (n := 0) h.bare.black k) (.seqR (.push (t := []) (reads_sps_nil h.bare.notSp k)) (.seqL ?_)))))
  exact not_first_hash_element (h.key _)

theorem not_block_array_here {s : Str} (h : NoColl T s) (k) : Not T (.rule .block_array) s k := by
  refine .rule (.seqR (reads_commentnls_nil (n := 0) h.bare.notSp h.bare.notHash k)
    (.seqR (reads_blank_none (n := 0) h.bare.black k) (.seqR (.push (t := []) (reads_sps_nil h.bare.notSp k)) (.seqL ?_))))
  exact not_first_element (h.dash _)

theorem not_inline_array {s : Str} (h : s.head? ≠ some '[') (k) : Not T (.rule .inline_array) s k := .rule (.seqL (.lit h))
theorem not_inline_hash {s : Str} (h : s.head? ≠ some '{') (k) : Not T (.rule .inline_hash) s k := .rule (.seqL (.lit h))
theorem not_literal {s : Str} (h : s.head? ≠ some '|') (k) : Not T (.rule .string_multiline_literal) s k := .rule (.seqL (.lit h))
theorem not_folded {s : Str} (h : s.head? ≠ some '>') (k) : Not T (.rule .string_multiline_folded) s k := .rule (.seqL (.lit h))

theorem reads_spaces {n : Nat} {r : Str} (h : ∀ c, r.head? = some c → c ≠ ' ' ∧ c ≠ '\n' ∧ c ≠ '\r') (k) :
    Reads T (.rule .spaces) (indent n ++ r) k [] r k := by
  refine .silent rfl ?_
  induction n with
  | zero =>
    exact .starNil (.rule (.alt (.lit fun hc => (h _ hc).1 rfl) (not_newline fun c hc => (h c hc).2)))
  | succ n ih =>
    have h1 : Reads T (.rule .space) (' ' :: (indent n ++ r)) k [] (indent n ++ r) k := .silent rfl (.altL (.lit ' ' _ k))
    exact Reads.star h1 ih

theorem Bare.spaces {r : Str} (h : Bare r) : ∀ c, r.head? = some c → c ≠ ' ' ∧ c ≠ '\n' ∧ c ≠ '\r' := by
  intro c hc
  obtain ⟨h1, h2, h3, -⟩ := h c hc
  refine ⟨?_, h2, h3⟩
  rintro rfl; revert h1; decide

/-- A value that is not a collection, after a key or a dash. -/
theorem reads_value {s r : Str} {k k' : List Str} {y : Yaml} (h : NoColl T s) (ha : NoAlias T s)
    (hv : Reads T (.rule .yaml_value) s k [(.yaml_value, .yaml y)] r k') :
    Reads T (.rule .block_array_aliased_yaml_value) s k [(.block_array_aliased_yaml_value, .aliased ⟨none, y⟩)] r k' := by
  have h1 : Not T (.rule .alternative_aliased_yaml_value) s k :=
    .rule (.seqR (.optNone (.seqL (ha k))) (not_alternative (h.key k) (h.dash k)))
  have h2 : Reads T (.rule .aliased_yaml_value) s k [(.aliased_yaml_value, .aliased ⟨none, y⟩)] r k' :=
    .rule rfl (.seq (.optNone (.seqL (ha k))) hv) fun _ => rfl
  exact .rule rfl (.altR h1 h2) fun _ => rfl

theorem notName_sp (r : Str) : NotName T (' ' :: r) := by
  simpa [NotName] using not_nameChar (T := T) (c := ' ') (by decide)

/-- The same with an anchor. -/
theorem reads_value_named {a s r : Str} {k k' : List Str} {y : Yaml} (hn : NameText T a) (h : NoColl T s)
    (hv : Reads T (.rule .yaml_value) s k [(.yaml_value, .yaml y)] r k') :
    Reads T (.rule .block_array_aliased_yaml_value) ('&' :: (a ++ ' ' :: s)) k [(.block_array_aliased_yaml_value, .aliased ⟨some a, y⟩)] r k' := by
  have h1 : Not T (.rule .alternative_aliased_yaml_value) ('&' :: (a ++ ' ' :: s)) k :=
    .rule (.seqR (.opt (.seq (reads_alias hn (notName_sp s) k) (reads_spaces (n := 1) h.bare.spaces k))) (not_alternative (h.key k) (h.dash k)))
  have h2 : Reads T (.rule .aliased_yaml_value) ('&' :: (a ++ ' ' :: s)) k [(.aliased_yaml_value, .aliased ⟨some a, y⟩)] r k' :=
    .rule rfl (.seq (.opt (.seq (reads_alias hn (notName_sp s) k) (reads_sps (n := 1) h.bare.notSp k))) hv) fun _ => rfl
  exact .rule rfl (.altR h1 h2) fun _ => rfl

/-! ## plain scalars -/

/-- The end of a value on one line: the end of the line or a comment. -/
def After (r : Str) : Prop := LineEnd r ∨ ∃ t, r = ' ' :: '#' :: t

theorem After.notName {r : Str} (h : After r) : NotName T r := by
  intro c hc
  rcases h with (rfl | h) | ⟨t, rfl⟩
  · simp at hc
  · rw [h] at hc; cases hc; exact not_nameChar (by decide)
  · cases hc; exact not_nameChar (by decide)

theorem not_noteq {s : Str} {c : Char} (h : ∀ d, s.head? = some d → d ≠ c) : s.head? ≠ some c := fun hc => h c hc rfl

theorem Spec.BlockPlain.cons {s : Str} (h : BlockPlain T s) : ∃ c t, s = c :: t := by
  cases s with
  | nil => exact absurd rfl h.nonempty
  | cons c t => exact ⟨c, t, rfl⟩

theorem not_blankStart {t : Str} (h : ¬ BlankStart t) : ∃ c u, t = c :: u ∧ isSpaceSeparator c = false := by
  cases t with
  | nil => exact absurd (by simp [BlankStart]) h
  | cons c u => exact ⟨c, u, rfl, by simpa [BlankStart] using h⟩

theorem Spec.BlockPlain.bare {s : Str} (h : BlockPlain T s) (r : Str) : Bare (s ++ r) := by
  obtain ⟨c, t, rfl⟩ := h.cons
  have hl := LineText.mem h.line c (by simp)
  simp only [Bare, List.cons_append, List.head?_cons, Option.some.injEq, forall_eq']
  refine ⟨(h.first c rfl).2, hl.1, hl.2, ?_⟩
  rintro rfl; exact h.noHash (by simp)

theorem not_blanknl_head {c : Char} {t : Str} (h1 : isSpaceSeparator c = false) (h2 : c ≠ '\n' ∧ c ≠ '\r') (k) :
    Not T (.alt (.plus Rule.SP) (.rule .blanknl)) (c :: t) k :=
  .alt (not_sp1 (by simpa [NotSp] using h1) k) (not_blanknl (n := 0) (by simpa [Black] using ⟨h1, h2⟩) k)

theorem Spec.BlockPlain.noColl {s : Str} (h : BlockPlain T s) {r : Str} (hr : After r) : NoColl T (s ++ r) := by
  obtain ⟨c, t, rfl⟩ := h.cons
  refine ⟨h.bare r, ?_, ?_⟩
  · intro k
    by_cases hc : NameChar T c
    · obtain ⟨u, v, rfl, hu, hv⟩ := exists_run (KeyChar T) t
      cases v with
      | nil =>
        rcases hr with hr | ⟨w, rfl⟩
        · have hr' : ∀ d, r.head? = some d → ¬ KeyChar T d := by
            intro d hd
            rcases hr with rfl | hr
            · simp at hd
            · rw [hr] at hd; cases hd; exact not_keyChar (by decide)
          have := reads_key_run (T := T) hc hu hr' k
          simp only [List.append_nil]
          refine .rule (.seqR this (.seqL (.lit ?_)))
          rcases hr with rfl | hr
          · simp
          · simp [hr]
        · have := reads_key_run (T := T) (u := u ++ [' ']) (v := '#' :: w) hc (by
            intro d hd
            rcases List.mem_append.1 hd with hd | hd
            · exact hu d hd
            · simp at hd; subst hd; exact .inr (.inr rfl)) (by simpa using not_keyChar (T := T) (c := '#') (by decide)) k
          simp only [List.append_nil]
          simp only [List.cons_append, List.append_assoc, List.nil_append] at this ⊢
          exact .rule (.seqR this (.seqL (.lit (by simp))))
      | cons d v =>
        have := reads_key_run (T := T) (v := d :: v ++ r) hc hu (by simpa using hv) k
        simp only [List.cons_append, List.append_assoc] at this ⊢
        by_cases hd : d = ':'
        · subst hd
          obtain ⟨e, w, rfl, he⟩ := not_blankStart (h.notKey c u v (by simp) hc hu)
          have hl := LineText.mem h.line e (by simp)
          exact .rule (.seqR this (.seqR (.lit ':' _ k) (.seqL (not_blanknl_head he hl k))))
        · exact .rule (.seqR this (.seqL (.lit (by simpa using hd))))
    · exact not_hash_element_head (by simpa [NotName] using hc) k
  · intro k
    by_cases hc : c = '-'
    · subst hc
      obtain ⟨e, w, rfl, he⟩ := not_blankStart (h.notDash t rfl)
      exact .rule (.seqR (.lit '-' _ k) (.seqL (not_sp1 (by simpa [NotSp] using he) k)))
    · exact not_element_head (by simpa using hc) k

theorem not_mark {c : Char} {s r : Str} (h : ∀ d t, s = c :: d :: t → ¬ NameChar T d) (hr : NotName T r) (hs : s ≠ []) (k) :
    Not T (.seq (Rule.lit c) (.rule .alias_name)) (s ++ r) k := by
  cases s with
  | nil => exact absurd rfl hs
  | cons d s =>
    by_cases hd : d = c
    · subst hd
      refine .seqR (.lit d _ k) (not_alias_name ?_ k)
      cases s with
      | nil => exact hr
      | cons e s => simpa [NotName] using h e s rfl
    · exact .seqL (.lit (by simpa using hd))

theorem Spec.BlockPlain.noAlias {s : Str} (h : BlockPlain T s) {r : Str} (hr : After r) : NoAlias T (s ++ r) :=
  fun k => .rule (not_mark (fun d t he => h.notMark _ d t he (.inl rfl)) hr.notName h.nonempty k)

theorem not_alts (l : List (Expr Rule)) {s : Str} {k} (hl : l ≠ []) (h : ∀ e ∈ l, Not T e s k) : Not T (.alts l) s k := by
  induction l with
  | nil => exact absurd rfl hl
  | cons e l ih =>
    cases l with
    | nil => exact h e (by simp)
    | cons f l => exact .alt (h e (by simp)) (ih (by simp) fun g hg => h g (by simp [hg]))

/-- The text of a plain scalar up to where it ends. -/
theorem passes_plain {w r : Str} (hw : w ≠ []) (hl : LineText w) (hh : '#' ∉ w) (hcs : ∀ a b, w ≠ a ++ ':' :: ' ' :: b)
    (hf : ∀ c, w.head? = some c → c ∉ ['[', ']', '{', '}', '"', '\'', '>', '|'])
    (hr : r = [] ∨ r.head? = some '\n' ∨ r.head? = some '\r' ∨ r.head? = some '#') (k) :
    Passes T (Rule.body T .unquoted_string) (w ++ r) k r k := by
  have hnl : ∀ c t, c ∈ w → Not T Rule.NEWLINE (c :: t) k := fun c t hc => not_newline (by simpa using LineText.mem hl c hc)
  have hcs' : ∀ pre c t, w = pre ++ c :: t → Not T (.str [':', ' ']) (c :: (t ++ r)) k := by
    intro pre c t he
    refine no_lit2.2 fun u hu => ?_
    simp only [List.cons.injEq] at hu
    obtain ⟨rfl, hu⟩ := hu
    cases t with
    | nil =>
      simp only [List.nil_append] at hu
      subst hu
      rcases hr with h | h | h | h <;> cases h
    | cons x t =>
      simp only [List.cons_append, List.cons.injEq] at hu
      exact hcs pre t (by rw [he, hu.1])
  cases w with
  | nil => exact absurd rfl hw
  | cons c w =>
    refine .seq (.rule (.seq (.not (.rule ?_)) (.any c _ k))) (.run ?_ ?_)
    · have hc := hf c rfl
      simp only [List.mem_cons, List.not_mem_nil, or_false, not_or] at hc
      refine not_alts _ (by simp) ?_
      have hcc : c ≠ '#' := by rintro rfl; exact hh (by simp)
      have h1 := hcs' [] c w rfl
      have h2 := hnl c (w ++ r) (by simp)
      simp only [List.mem_cons, List.not_mem_nil, or_false, forall_eq_or_imp, forall_eq]
      refine ⟨.lit ?_, .lit ?_, .lit ?_, .lit ?_, h1, .lit ?_, .lit ?_, .lit ?_, .lit ?_, .lit ?_, h2⟩ <;> simp <;> grind
    · intro pre d t he
      have h1 := hcs' (c :: pre) d t (by rw [he]; rfl)
      have h2 := hnl d (t ++ r) (by rw [he]; simp)
      have hd : d ≠ '#' := by rintro rfl; exact hh (by rw [he]; simp)
      refine .rule (.seq (.not (.rule ?_)) (.any d _ k))
      exact .alt h1 (.alt (.lit (by simpa using hd)) h2)
    · refine .rule ?_
      cases r with
      | nil => exact .seqR (.not (.rule (.alt (no_lit2.2 (by simp)) (.alt (.lit (by simp)) (not_newline (by simp)))))) (.cls (by simp))
      | cons d r =>
        obtain ⟨r', k', hp⟩ : ∃ r' k', Passes T (.alt (Rule.lit '#') Rule.NEWLINE) (d :: r) k r' k' := by
          rcases hr with h | h | h | h
          · cases h
          · cases h
            obtain ⟨r', k', hp⟩ := passes_newline (T := T) (.inl rfl) r k
            exact ⟨r', k', .altR (.lit (by simp)) hp⟩
          · cases h
            obtain ⟨r', k', hp⟩ := passes_newline (T := T) (.inr rfl) r k
            exact ⟨r', k', .altR (.lit (by simp)) hp⟩
          · cases h; exact ⟨r, k, .altL (.lit '#' r k)⟩
        refine .seqL (.not (.rule (.altR (no_lit2.2 ?_) hp)))
        rintro u hu
        rcases hr with h | h | h | h
        · cases h
        all_goals (cases h; cases hu)

theorem trim_plain {s : Str} (h : s.getLast? ≠ some ' ') (n : Nat) : trimEndMatches (s ++ indent n) ' ' = s :=
  trimEndMatches_append_replicate n (by simpa [endsWithChar] using h)

theorem colonSpace_sp {s : Str} (h : ∀ a b, s ≠ a ++ ':' :: ' ' :: b) (hl : s.getLast? ≠ some ':') :
    ∀ a b, s ++ [' '] ≠ a ++ ':' :: ' ' :: b := by
  intro a b he
  rcases List.append_eq_append_iff.1 he with ⟨u, h1, h2⟩ | ⟨u, h1, h2⟩
  · have := congrArg List.length h2
    simp at this
    omega
  · cases u with
    | nil => simp at h2
    | cons x u =>
      simp only [List.cons_append, List.cons.injEq] at h2
      obtain ⟨rfl, h2⟩ := h2
      cases u with
      | nil => apply hl; rw [h1]; simp
      | cons y u =>
        simp only [List.cons_append, List.cons.injEq] at h2
        obtain ⟨rfl, h2⟩ := h2
        exact h a u h1

theorem colonSpace_sps {s : Str} (h : ∀ a b, s ≠ a ++ ':' :: ' ' :: b) (hl : s.getLast? ≠ some ':') (n : Nat) :
    ∀ a b, s ++ indent n ≠ a ++ ':' :: ' ' :: b := by
  induction n with
  | zero => simpa [indent] using h
  | succ n ih =>
    have : s ++ indent (n + 1) = (s ++ indent n) ++ [' '] := by simp [indent, List.replicate_succ']
    rw [this]
    refine colonSpace_sp ih ?_
    cases n with
    | zero => simpa [indent] using hl
    | succ n => simp [indent, List.replicate_succ']

/-- What the rest of a line may look like after reading a value. -/
def Left (r r' : Str) : Prop := r' = r ∨ r = ' ' :: r'

end YamlSubset
