import Verif.Lemmas.PegText
import Verif.Lemmas.ParseGood
import Verif.Lemmas.ReadScalar
import Verif.Spec.Visible

/-! # The visible text of the nodes of a parse tree, in terms of the visible text of their children -/

namespace YamlSubset

open Peg Spec

variable {T : CharTables}

/-- Not white space. -/
abbrev ink (c : Char) : Bool := !isWhitespace c

/-- What silent rules match. -/
def silentText (r : Rule) (ts : List (Tree Rule)) (x : Str) : Prop :=
  match r with
  | .escaped_double_quote_char => ∃ t, ts = [t] ∧ t.root = .escaped_double_quote_char_value ∧ x = '\\' :: visible t.text
  | .single_quote_char => ∃ t, ts = [t] ∧ t.root = .single_quote ∧ x = '\'' :: visible t.text
  | .comment_base => ∃ t, ts = [t] ∧ t.root = .comment_text ∧ x = '#' :: visible t.text
  | _ => ts = [] ∧ x = []

/-- What an expression matches. -/
abbrev spells (e : Expr Rule) (ts : List (Tree Rule)) (x : Str) : Prop := spell Rule.kind ink silentText e ts x

theorem spaces_ink {t : Str} (h : Spaces t) : t.filter ink = [] := by
  simp only [List.filter_eq_nil_iff]
  intro c hc
  simp [space_white (h c hc)]

theorem spells_star_nil {e : Expr Rule} (h : ∀ ts x, spells e ts x ↔ ts = [] ∧ x = []) (ts x) : spells (.star e) ts x ↔ ts = [] ∧ x = [] := by
  constructor
  · rintro ⟨l, hl, rfl, rfl⟩
    induction l with
    | nil => exact ⟨rfl, rfl⟩
    | cons p l ih =>
      obtain ⟨h1, h2⟩ := (h _ _).1 (hl p (by simp))
      obtain ⟨h3, h4⟩ := ih fun q hq => hl q (by simp [hq])
      simp only [treesOf, textOf] at h3 h4 ⊢
      simp [h1, h2, h3, h4]
  · rintro ⟨rfl, rfl⟩
    exact ⟨[], by simp, rfl, rfl⟩

theorem spells_sp (ts x) : spells Rule.SP ts x ↔ ts = [] ∧ x = [] := by
  constructor
  · rintro ⟨rfl, c, hc, rfl⟩
    exact ⟨rfl, spaces_ink (by simpa [Spaces] using hc)⟩
  · rintro ⟨rfl, rfl⟩
    exact ⟨rfl, ' ', by decide, by decide⟩

theorem spells_seq {a b : Expr Rule} (ts x) : spells (.seq a b) ts x ↔ ∃ ts₁ x₁ ts₂ x₂, spells a ts₁ x₁ ∧ spells b ts₂ x₂ ∧ ts = ts₁ ++ ts₂ ∧ x = x₁ ++ x₂ :=
  Iff.rfl

theorem spells_seq_nil {a b : Expr Rule} (ha : ∀ ts x, spells a ts x ↔ ts = [] ∧ x = []) (ts x) : spells (.seq a b) ts x ↔ spells b ts x := by
  rw [spells_seq]
  constructor
  · rintro ⟨_, _, _, _, h, hb, rfl, rfl⟩
    obtain ⟨rfl, rfl⟩ := (ha _ _).1 h
    exact hb
  · intro h
    exact ⟨_, _, _, _, (ha _ _).2 ⟨rfl, rfl⟩, h, rfl, rfl⟩

theorem spells_newline (ts x) : spells Rule.NEWLINE ts x ↔ ts = [] ∧ x = [] := by
  simp only [Rule.NEWLINE, Expr.alts, spells, spell]
  have h1 : (['\n'] : Str).filter ink = [] := by decide
  have h2 : (['\r', '\n'] : Str).filter ink = [] := by decide
  have h3 : (['\r'] : Str).filter ink = [] := by decide
  rw [h1, h2, h3]
  simp

theorem spells_stars (ts x) : spells (.star Rule.SP) ts x ↔ ts = [] ∧ x = [] := spells_star_nil spells_sp ts x
theorem spells_line (ts x) : spells (.seq (.star Rule.SP) Rule.NEWLINE) ts x ↔ ts = [] ∧ x = [] := by
  rw [spells_seq_nil spells_stars]; exact spells_newline ts x
theorem spells_lines (ts x) : spells (.star (.seq (.star Rule.SP) Rule.NEWLINE)) ts x ↔ ts = [] ∧ x = [] := spells_star_nil spells_line ts x
theorem spells_newlines (ts x) : spells (.star Rule.NEWLINE) ts x ↔ ts = [] ∧ x = [] := spells_star_nil spells_newline ts x

theorem spells_alt {a b : Expr Rule} (ts x) : spells (.alt a b) ts x ↔ spells a ts x ∨ spells b ts x := Iff.rfl
theorem spells_opt {a : Expr Rule} (ts x) : spells (.opt a) ts x ↔ spells a ts x ∨ (ts = [] ∧ x = []) := Iff.rfl
theorem spells_str {t : Str} (ts x) : spells (.str t) ts x ↔ ts = [] ∧ x = t.filter ink := Iff.rfl
theorem spells_push {a : Expr Rule} (ts x) : spells (.push a) ts x ↔ spells a ts x := Iff.rfl
theorem spells_peek (ts x) : spells .peek ts x ↔ ts = [] ∧ x = [] := Iff.rfl
theorem spells_peek2 (ts x) : spells .peek2 ts x ↔ ts = [] ∧ x = [] := Iff.rfl
theorem spells_soi (ts x) : spells .soi ts x ↔ ts = [] ∧ x = [] := Iff.rfl
theorem spells_drop (ts x) : spells .drop ts x ↔ ts = [] ∧ x = [] := Iff.rfl
theorem spells_and {a : Expr Rule} (ts x) : spells (.and a) ts x ↔ ts = [] ∧ x = [] := Iff.rfl
theorem spells_not {a : Expr Rule} (ts x) : spells (.not a) ts x ↔ ts = [] ∧ x = [] := Iff.rfl
theorem spells_eoi {q : Rule} (ts x) : spells (.eoi q) ts x ↔ ts = [.node q [] []] ∧ x = [] := Iff.rfl

theorem spells_rule {q : Rule} (hq : q.kind ≠ .silent) (ts x) : spells (.rule q) ts x ↔ ∃ t, ts = [t] ∧ t.root = q ∧ x = visible t.text := by
  simp only [spells, spell]
  exact Iff.rfl

theorem spells_silent {q : Rule} (hq : q.kind = .silent) (ts x) : spells (.rule q) ts x ↔ silentText q ts x := by
  simp only [spells, spell, hq]

/-- Repetition of something that produces one node. -/
theorem spells_star_one {e : Expr Rule} {q : Rule} {f : Tree Rule → Str}
    (h : ∀ ts x, spells e ts x → ∃ t, ts = [t] ∧ t.root = q ∧ x = f t) {ts x} (hs : spells (.star e) ts x) :
    (∀ t ∈ ts, t.root = q) ∧ x = ts.flatMap f := by
  obtain ⟨l, hl, rfl, rfl⟩ := hs
  induction l with
  | nil => exact ⟨by simp [treesOf], rfl⟩
  | cons p l ih =>
    obtain ⟨t, h1, h2, h3⟩ := h _ _ (hl p (by simp))
    obtain ⟨h4, h5⟩ := ih fun q hq => hl q (by simp [hq])
    simp only [treesOf, textOf] at h4 h5 ⊢
    simp only [List.map_cons, List.flatten_cons, h1, h3, h5, List.mem_append]
    refine ⟨?_, by simp⟩
    rintro u (hu | hu)
    · simp only [List.mem_singleton] at hu; exact hu ▸ h2
    · exact h4 u hu

theorem lit_ink {c : Char} (h : isWhitespace c = false) : ([c] : Str).filter ink = [c] := by simp [h]

theorem spells_space (ts x) : spells (.rule .space) ts x ↔ ts = [] ∧ x = [] := spells_silent rfl ts x
theorem spells_spaces (ts x) : spells (.rule .spaces) ts x ↔ ts = [] ∧ x = [] := spells_silent rfl ts x
theorem spells_blank (ts x) : spells (.rule .blank) ts x ↔ ts = [] ∧ x = [] := spells_silent rfl ts x
theorem spells_blanknl (ts x) : spells (.rule .blanknl) ts x ↔ ts = [] ∧ x = [] := spells_silent rfl ts x

/-- The silent rules match what `silentText` says. -/
theorem silentText_ok (q : Rule) (h : q.kind = .silent) (ts : List (Tree Rule)) (x : Str) (hs : spells (Rule.body T q) ts x) :
    silentText q ts x := by
  cases q <;> first
    | (exfalso; revert h; simp [Rule.kind]; done)
    | skip
  case space =>
    rcases hs with hs | hs
    · exact hs
    · exact (spells_newline _ _).1 hs
  case spaces => exact (spells_star_nil spells_space ts x).1 hs
  case blank =>
    simp only [Rule.body, Expr.seqs, Expr.plus, spells_alt, spells_opt, spells_seq_nil spells_stars, spells_seq_nil spells_newline,
      spells_seq_nil spells_line, spells_lines, spells_newline, or_self] at hs
    exact hs
  case blanknl =>
    simp only [Rule.body, Expr.seqs, Expr.plus, spells_alt, spells_seq_nil spells_stars, spells_seq_nil spells_newline,
      spells_seq_nil spells_line, spells_lines, spells_newline, or_self] at hs
    exact hs
  case escaped_double_quote_char =>
    obtain ⟨_, _, _, _, ⟨rfl, rfl⟩, ⟨t, rfl, h1, rfl⟩, rfl, rfl⟩ := hs
    exact ⟨t, rfl, h1, rfl⟩
  case single_quote_char =>
    obtain ⟨_, _, _, _, ⟨rfl, rfl⟩, ⟨t, rfl, h1, rfl⟩, rfl, rfl⟩ := hs
    exact ⟨t, rfl, h1, rfl⟩
  case comment_base =>
    simp only [Rule.body, Expr.seqs, spells_seq_nil spells_stars] at hs
    obtain ⟨_, _, _, _, ⟨rfl, rfl⟩, ⟨t, rfl, h1, rfl⟩, rfl, rfl⟩ := hs
    exact ⟨t, rfl, h1, rfl⟩

/-- Every `PEEK` of the grammar sees an indentation. -/
theorem yaml_peeks (T : CharTables) (r : Rule) :
    peekCheck yamlIndents pushesSpaces ((yamlGrammar T).body r) (List.replicate (yamlIndents r) true) = true := by
  cases r <;> rfl

theorem body_spells {r : Rule} {s rest : Str} {k k' : List Str} {us : List (Tree Rule)} (hi : YamlStack r k)
    (h : Yes (yamlGrammar T) ((yamlGrammar T).body r) s k us rest k') : spells (Rule.body T r) us (visible (consumed s rest)) :=
  Yes.spell (g := yamlGrammar T) (I := Spaces) (fun _ h => spaces_ink h) (yaml_pushes T) (yamlIndents_ok T) (yaml_peeks T)
    (fun q hq ts x => silentText_ok q hq ts x) (yaml_pushes T r) (yamlIndents_ok T r) (yaml_peeks T r) h hi

end YamlSubset
