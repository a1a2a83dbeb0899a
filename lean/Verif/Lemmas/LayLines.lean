import Verif.Lemmas.ReadBlock
import Verif.Spec.Written

/-! # Reading lines in any layout -/

namespace YamlSubset.Lay

open Peg Spec

variable {T : CharTables}

theorem pad_eq (n : Nat) : pad n = indent n := rfl

/-! ## line breaks -/

theorem _root_.YamlSubset.Spec.Break.reads {nl : Str} (h : Break nl) (q : Str) (k) : Reads T Rule.NEWLINE (nl ++ q) k [] q k := by
  rcases h with rfl | rfl
  · exact reads_newline q k
  · exact .altR (.lit (by simp)) (.altL (.str ['\r', '\n'] q k))

theorem _root_.YamlSubset.Spec.Break.notSp {nl : Str} (h : Break nl) (q : Str) : NotSp (nl ++ q) := by
  rcases h with rfl | rfl <;> simp [NotSp] <;> decide

theorem _root_.YamlSubset.Spec.Break.head {nl : Str} (h : Break nl) (q : Str) : (nl ++ q).head? = some '\n' ∨ (nl ++ q).head? = some '\r' := by
  rcases h with rfl | rfl <;> simp

/-- The end of a line. -/
def Eol (r : Str) : Prop := r = [] ∨ r.head? = some '\n' ∨ r.head? = some '\r'

theorem _root_.YamlSubset.Spec.Break.eol {nl : Str} (h : Break nl) (q : Str) : Eol (nl ++ q) := .inr (h.head q)

theorem Eol.stop {r : Str} (h : Eol r) : ∀ c, r.head? = some c → ¬ (c ≠ '\n' ∧ c ≠ '\r') := by
  intro c hc hn
  rcases h with rfl | h | h
  · simp at hc
  · rw [h] at hc; cases hc; exact hn.1 rfl
  · rw [h] at hc; cases hc; exact hn.2 rfl

theorem Eol.notSp {r : Str} (h : Eol r) : NotSp r := by
  intro c hc
  rcases h with rfl | h | h
  · simp at hc
  · rw [h] at hc; cases hc; decide
  · rw [h] at hc; cases hc; decide

theorem Eol.noHash {r : Str} (h : Eol r) : r.head? ≠ some '#' := by
  rcases h with rfl | h | h <;> simp [*]

theorem Eol.cons {c : Char} {r : Str} (h : Eol (c :: r)) : c = '\n' ∨ c = '\r' := by
  rcases h with h | h | h
  · cases h
  · exact .inl (by simpa using h)
  · exact .inr (by simpa using h)

/-! ## blank lines -/

/-- A blank line as the grammar has it. -/
def blankLine : Expr Rule := .seq (.star Rule.SP) Rule.NEWLINE

theorem reads_blankLine {nl : Str} (h : Break nl) (n : Nat) (q : Str) (k) : Reads T blankLine (indent n ++ (nl ++ q)) k [] q k :=
  .seq (l₁ := []) (reads_sps (h.notSp q) k) (h.reads q k)

theorem not_blankLine_full {q : Str} (h : FullLine q) (k) : Not T blankLine q k := by
  obtain ⟨n, r, rfl, h⟩ := h
  exact not_blankLine h k

theorem _root_.YamlSubset.Spec.Blanks.star {b : Str} (h : Blanks b) {q : Str} (hq : FullLine q) (k) : Reads T (.star blankLine) (b ++ q) k [] q k := by
  induction h with
  | nil => exact .starNil (not_blankLine_full hq k)
  | @line n nl x hn h ih =>
    have := Reads.star (reads_blankLine hn n (x ++ q) k) ih
    simpa [pad_eq] using this

theorem _root_.YamlSubset.Spec.Blanks.append {a b : Str} (ha : Blanks a) (hb : Blanks b) : Blanks (a ++ b) := by
  induction ha with
  | nil => exact hb
  | line hn h ih => rw [List.append_assoc]; exact .line hn ih

/-- The rest of a line and blank lines. -/
theorem reads_blanknl_lines {n : Nat} {nl b q : Str} (hn : Break nl) (hb : Blanks b) (hq : FullLine q) (k) :
    Reads T (.rule .blanknl) (indent n ++ (nl ++ (b ++ q))) k [] q k := by
  refine .silent rfl ?_
  cases hb with
  | nil =>
    refine .altR (.seqR (reads_sps (hn.notSp _) k) (.seqR (hn.reads _ k) (.plus (not_blankLine_full hq k)))) ?_
    exact reads_blankLine hn n q k
  | @line m nl' x hn' h =>
    refine .altL (.seq (l₁ := []) (reads_sps (hn.notSp _) k) (.seq (l₁ := []) (hn.reads _ k) ?_))
    have := Reads.plus (reads_blankLine hn' m (x ++ q) k) (Blanks.star h hq k (T := T))
    simpa [pad_eq, blankLine, Expr.seqs] using this

theorem reads_blank_lines {n : Nat} {nl b q : Str} (hn : Break nl) (hb : Blanks b) (hq : FullLine q) (k) :
    Reads T (.rule .blank) (indent n ++ (nl ++ (b ++ q))) k [] q k := by
  refine .silent rfl ?_
  cases hb with
  | nil =>
    refine .altR (.seqR (reads_sps (hn.notSp _) k) (.seqR (hn.reads _ k) (.plus (not_blankLine_full hq k)))) (.opt ?_)
    exact reads_blankLine hn n q k
  | @line m nl' x hn' h =>
    refine .altL (.seq (l₁ := []) (reads_sps (hn.notSp _) k) (.seq (l₁ := []) (hn.reads _ k) ?_))
    have := Reads.plus (reads_blankLine hn' m (x ++ q) k) (Blanks.star h hq k (T := T))
    simpa [pad_eq, blankLine, Expr.seqs] using this

/-- No or some blank lines. -/
theorem reads_blanks {b q : Str} (hb : Blanks b) (hq : FullLine q) (k) : Reads T (.rule .blank) (b ++ q) k [] q k := by
  cases hb with
  | nil =>
    obtain ⟨n, r, rfl, h⟩ := hq
    exact reads_blank_none h k
  | @line m nl' x hn' h =>
    have := reads_blank_lines (T := T) (n := m) hn' h hq k
    simpa [pad_eq] using this

theorem not_blanknl_full {q : Str} (h : FullLine q) (k) : Not T (.rule .blanknl) q k := by
  obtain ⟨n, r, rfl, h⟩ := h
  exact not_blanknl h k

theorem blank_none_full {q : Str} (h : FullLine q) (k) : Reads T (.rule .blank) q k [] q k := by
  obtain ⟨n, r, rfl, h⟩ := h
  exact reads_blank_none h k

/-! ## comments -/

theorem reads_comment_base {n : Nat} {c r : Str} (hc : LineText c) (hr : Eol r) (k) :
    Reads T (.rule .comment_base) (indent n ++ '#' :: (c ++ r)) k [(.comment_text, .str c)] r k := by
  refine .silent rfl (.seq (reads_sps (by simp [NotSp]; decide) k) (.seq (.lit '#' _ k) ?_))
  exact .ruleText rfl (single_line.star (LineText.mem hc) hr.stop k) rfl

theorem reads_comment {n : Nat} {c r : Str} (hc : LineText c) (hr : Eol r) (k) :
    Reads T (.rule .comment) (indent n ++ '#' :: (c ++ r)) k [(.comment, .str c)] r k :=
  .rule rfl (reads_comment_base hc hr k) fun _ => rfl

theorem reads_commentnl {m : Nat} {c nl b q : Str} (hc : LineText c) (hn : Break nl) (hb : Blanks b) (hq : FullLine q) (k) :
    Reads T (.rule .commentnl) (indent m ++ '#' :: (c ++ (nl ++ (b ++ q)))) k [(.commentnl, .str c)] q k :=
  .rule rfl (.seq (reads_comment_base hc (hn.eol _) k) (reads_blank_lines (n := 0) hn hb hq k)) fun _ => rfl

theorem fullLine_hash (m : Nat) (y : Str) : FullLine (indent m ++ '#' :: y) := ⟨m, '#' :: y, rfl, by simp [Black]; decide⟩

theorem fullLine_indent (n : Nat) : FullLine (indent n) := ⟨n, [], by simp, bare_nil.black⟩

/-- How comment lines start. -/
theorem _root_.YamlSubset.Spec.CommentLines.shape {cs : List Str} {x : Str} (h : CommentLines cs x) (q : Str) :
    (cs = [] ∧ x = []) ∨ cs ≠ [] ∧ ∃ m y, x = indent m ++ '#' :: y ∧ x ++ q = indent m ++ '#' :: (y ++ q) := by
  cases h with
  | nil => exact .inl ⟨rfl, rfl⟩
  | @line m c nl b cs x hc hn hb h =>
    exact .inr ⟨by simp, m, c ++ (nl ++ (b ++ x)), by simp [pad_eq], by simp [pad_eq]⟩

theorem _root_.YamlSubset.Spec.CommentLines.full {cs : List Str} {x : Str} (h : CommentLines cs x) {q : Str} (hq : FullLine q) : FullLine (x ++ q) := by
  rcases h.shape q with ⟨-, rfl⟩ | ⟨-, m, y, -, he⟩
  · exact hq
  · rw [he]; exact fullLine_hash _ _

theorem _root_.YamlSubset.Spec.CommentLines.lineText {cs : List Str} {x : Str} (h : CommentLines cs x) : ∀ c ∈ cs, LineText c := by
  induction h with
  | nil => simp
  | line hc hn hb h ih => simpa using ⟨hc, ih⟩

theorem _root_.YamlSubset.Spec.CommentLines.star {cs : List Str} {x : Str} (h : CommentLines cs x) {q : Str} (hq : FullLine q) {l : List (Rule × Val)} {r : Str} {k : List Str}
    (hr : Reads T (.star (.rule .commentnl)) q k l r k) :
    Reads T (.star (.rule .commentnl)) (x ++ q) k (cs.map (fun c => (.commentnl, .str c)) ++ l) r k := by
  induction h with
  | nil => exact hr
  | @line m c nl b cs x hc hn hb h ih =>
    have := Reads.star (reads_commentnl (T := T) (m := m) hc hn hb (h.full hq) k) ih
    simpa [pad_eq] using this

/-- Comment lines before something that is not a comment, or before the end. -/
theorem _root_.YamlSubset.Spec.CommentLines.reads {cs : List Str} {x : Str} (h : CommentLines cs x) {n : Nat} {y : Str} (hy : Bare y) (k) :
    Reads T (.rule .commentnls) (x ++ (indent n ++ y)) k [(.commentnls, .strs cs)] (indent n ++ y) k := by
  refine .rule (l := cs.map fun c => (.commentnl, .str c)) rfl ?_ fun t => act_commentnls t cs
  have := CommentLines.star (T := T) h ⟨n, y, rfl, hy.black⟩ (.starNil (not_commentnl hy.notSp hy.notHash k))
  simpa [Rule.body] using this

/-- Comment lines before a comment that is the end. -/
theorem _root_.YamlSubset.Spec.CommentLines.reads_end {cs : List Str} {x : Str} (h : CommentLines cs x) {n : Nat} {d : Str} (hd : LineText d) (k) :
    Reads T (.rule .commentnls) (x ++ (indent n ++ '#' :: d)) k [(.commentnls, .strs (cs ++ [d]))] [] k := by
  refine .rule (l := (cs ++ [d]).map fun c => (.commentnl, .str c)) rfl ?_ fun t => act_commentnls t _
  have h1 : Reads T (.rule .commentnl) (indent n ++ '#' :: (d ++ [])) k [(.commentnl, .str d)] [] k :=
    .rule rfl (.seq (reads_comment_base hd (.inl rfl) k) (reads_blank_none (n := 0) bare_nil.black k)) fun _ => rfl
  have h2 := Reads.star h1 (.starNil (not_commentnl (n := 0) bare_nil.notSp (by simp) k))
  have := CommentLines.star (T := T) h (fullLine_hash n d) (by simpa using h2)
  simpa [Rule.body] using this

/-! ## spaces at the end of a line -/

/-- Spaces were taken off. -/
def Trim (r r' : Str) : Prop := ∃ n, r = indent n ++ r'

theorem Trim.refl (r : Str) : Trim r r := ⟨0, rfl⟩

theorem Trim.trans {a b c : Str} (h : Trim a b) (h' : Trim b c) : Trim a c := by
  obtain ⟨n, rfl⟩ := h
  obtain ⟨m, rfl⟩ := h'
  exact ⟨n + m, by rw [indent_add, List.append_assoc]⟩

/-- What is left of spaces and the rest of a text. -/
theorem Trim.split {n : Nat} {r1 r' : Str} (h : Trim (indent n ++ r1) r') (h1 : NotSp r1) : ∃ m, m ≤ n ∧ r' = indent m ++ r1 := by
  obtain ⟨j, h⟩ := h
  by_cases hj : j ≤ n
  · refine ⟨n - j, by omega, ?_⟩
    have : indent n = indent j ++ indent (n - j) := by rw [← indent_add]; congr; omega
    rw [this, List.append_assoc] at h
    exact (List.append_cancel_left h).symm
  · exact absurd h (indent_no_prefix (by omega) h1)

end YamlSubset.Lay
