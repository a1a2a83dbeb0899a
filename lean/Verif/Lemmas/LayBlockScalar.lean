import Verif.Lemmas.LayScalar

/-! # Reading block scalars in any layout -/

namespace YamlSubset.Lay

open Peg Spec

variable {T : CharTables}

/-- A line break before a line that is not blank, whatever spaces it starts with. -/
theorem reads_blanknl_sps {m : Nat} {nl u r : Str} (hn : Break nl) (hu : ∀ c ∈ u, isSpaceSeparator c = true) (h : Black r) (k) :
    Reads T (.rule .blanknl) (indent m ++ (nl ++ (u ++ r))) k [] (u ++ r) k := by
  have h1 : Not T (.seq (.star Rule.SP) Rule.NEWLINE) (u ++ r) k :=
    .seqR (single_sp.star hu (fun c hc => by simp [h.notSp c hc]) k) (not_newline h.notNl)
  refine .silent rfl (.altR ?_ ?_)
  · exact .seqR (reads_sps (hn.notSp _) k) (.seqR (hn.reads _ k) (.plus h1))
  · exact .seq (reads_sps (hn.notSp _) k) (hn.reads _ k)

theorem reads_block_string {u r : Str} (hu : LineText u) (hr : Eol r) (k) :
    Reads T (.rule .block_string) (u ++ r) k [(.block_string, .str u)] r k := by
  refine .atomic rfl ?_ rfl
  cases u with
  | nil => exact .altR (.plus (single_line.no _ _ hr.stop)) (Reads.str [] r k).passes
  | cons c u => exact .altL (single_line.plus (by simp) (LineText.mem hu) hr.stop k).passes

/-- The next line is indented by at most `t`. -/
def Shallow (t : Nat) (r : Str) : Prop := r = [] ∨ ∃ nl n x, r = nl ++ (indent n ++ x) ∧ Break nl ∧ n ≤ t ∧ Black x

theorem Shallow.eol {t : Nat} {r : Str} (h : Shallow t r) : Eol r := by
  rcases h with rfl | ⟨nl, n, x, rfl, hn, -⟩
  · exact .inl rfl
  · exact hn.eol _

theorem byteLen_newlines (n : Nat) : byteLen (List.replicate n '\n') = n := by
  induction n with
  | zero => rfl
  | succ n ih =>
    have : ('\n' : Char).utf8Size = 1 := rfl
    rw [List.replicate_succ, byteLen, ih, this]; omega

theorem passes_newlines {n : Nat} {r : Str} (hr : ∀ c, r.head? = some c → c ≠ '\n' ∧ c ≠ '\r') (k) :
    Reads T (.star Rule.NEWLINE) (List.replicate n '\n' ++ r) k [] r k := by
  induction n with
  | zero => exact .starNil (not_newline hr)
  | succ n ih => exact Reads.star (l₁ := []) (l₂ := []) (reads_newline _ k) ih

theorem reads_empty_lines {n : Nat} {r : Str} (hr : ∀ c, r.head? = some c → c ≠ '\n' ∧ c ≠ '\r') (k) :
    Reads T (.rule .block_empty_lines) (List.replicate n '\n' ++ r) k [(.block_empty_lines, .strs (List.replicate n []))] r k := by
  refine .atomic rfl (passes_newlines hr k).passes ?_
  show Consume.blockEmptyLines _ = _
  rw [Consume.blockEmptyLines, byteLen_newlines]

theorem line_indent {d : Nat} {l : Str} (hl : LineText l) : LineText (indent d ++ l) := by
  apply line_of_not
  intro c hc
  rcases List.mem_append.1 hc with hc | hc
  · rw [List.eq_of_mem_replicate hc]; decide
  · exact LineText.mem hl c hc

theorem reads_part {t d n : Nat} {nl l r : Str} (hn : Break nl) (hl : LineText l) (hr : Eol r) (k) :
    Reads T (.rule .string_multiline_content_part) (nl ++ (List.replicate n '\n' ++ (indent (t + 1 + d) ++ (l ++ r)))) ([' '] :: indent t :: k)
      [(.string_multiline_content_part, .strs (List.replicate n [] ++ [indent d ++ l]))] r ([' '] :: indent t :: k) := by
  have he : indent (t + 1 + d) ++ (l ++ r) = indent t ++ [' '] ++ ((indent d ++ l) ++ r) := by
    rw [indent_add, indent_add]; simp [indent]
  have hsp : ∀ c, (indent t ++ [' '] ++ ((indent d ++ l) ++ r)).head? = some c → c ≠ '\n' ∧ c ≠ '\r' := by
    cases t with
    | zero => simp [indent]
    | succ n => simp [indent_succ]
  rw [he]
  exact .rule rfl (.seq (hn.reads _ _) (.seq (reads_empty_lines hsp _) (.seq (.peek2 [' '] (indent t) _ k)
    (reads_block_string (line_indent hl) hr _)))) fun _ => rfl

theorem no_peek2_indent {t n : Nat} {x : Str} (hn : n ≤ t) (hx : Black x) (k) : Not T .peek2 (indent n ++ x) ([' '] :: indent t :: k) := by
  refine no_peek2.2 ?_
  rintro ⟨a, b, l, y, hk, he⟩
  cases hk
  have : indent t ++ [' '] = indent (t + 1) := by rw [indent_add]; rfl
  rw [this] at he
  exact indent_no_prefix (by omega) hx.notSp he

theorem not_part {t : Nat} {r : Str} (h : Shallow t r) (k) :
    Not T (.rule .string_multiline_content_part) r ([' '] :: indent t :: k) := by
  rcases h with rfl | ⟨nl, n, x, rfl, hb, hn, hx⟩
  · exact .rule (.seqL (not_newline (by simp)))
  · exact .rule (.seqR (hb.reads _ _) (.seqR (reads_empty_lines (n := 0) (indent_head hx) _) (.seqL (no_peek2_indent hn hx k))))

theorem newline_snoc {n : Nat} {nl r : Str} (hn : Break nl) (hr : ∀ c, r.head? = some c → c ≠ '\n' ∧ c ≠ '\r') (k) :
    ∃ t, Reads T (.rule .block_empty_lines) (List.replicate n '\n' ++ (nl ++ r)) k [(.block_empty_lines, t)] r k := by
  have h : Reads T (.star Rule.NEWLINE) (List.replicate n '\n' ++ (nl ++ r)) k [] r k := by
    induction n with
    | zero => exact Reads.star (l₁ := []) (l₂ := []) (hn.reads r k) (.starNil (not_newline hr))
    | succ n ih => exact Reads.star (l₁ := []) (l₂ := []) (reads_newline _ k) ih
  have he : List.replicate n '\n' ++ (nl ++ r) = (List.replicate n '\n' ++ nl) ++ r := by simp
  rw [he] at h ⊢
  exact ⟨_, .atomic rfl h.passes rfl⟩

theorem not_part_blanks {t n m : Nat} {nl x : Str} (hb : Break nl) (hm : m ≤ t) (hx : Black x) (k) :
    Not T (.rule .string_multiline_content_part) (List.replicate (n + 1) '\n' ++ (nl ++ (indent m ++ x))) ([' '] :: indent t :: k) := by
  obtain ⟨v, hv⟩ := newline_snoc (T := T) (n := n) hb (indent_head (n := m) hx) ([' '] :: indent t :: k)
  exact .rule (.seqR (reads_newline _ _) (.seqR hv (.seqL (no_peek2_indent hm hx k))))

theorem reads_trailing {t : Nat} {r : Str} (h : Shallow t r) (k) :
    Reads T (.rule .string_multiline_trailing) r k [(.string_multiline_trailing, .strs [])] r k := by
  have hn : Not T (.seq Rule.NEWLINE (.and Rule.NEWLINE)) r k := by
    rcases h with rfl | ⟨nl, n, x, rfl, hb, hn, hx⟩
    · exact .seqL (not_newline (by simp))
    · exact .seqR (hb.reads _ _) (.and (not_newline (indent_head hx)))
  exact Reads.atomic (T := T) (q := .string_multiline_trailing) (v := .strs []) (t := []) (r := r) (k := k) (k' := k) rfl
    (.starNil hn) rfl

theorem reads_trailing_blanks {n m : Nat} {nl x : Str} (hb : Break nl) (hx : Black x) (k) :
    Reads T (.rule .string_multiline_trailing) (List.replicate n '\n' ++ (nl ++ (indent m ++ x))) k
      [(.string_multiline_trailing, .strs (List.replicate n []))] (nl ++ (indent m ++ x)) k := by
  have h : Reads T (.star (.seq Rule.NEWLINE (.and Rule.NEWLINE))) (List.replicate n '\n' ++ (nl ++ (indent m ++ x))) k [] (nl ++ (indent m ++ x)) k := by
    induction n with
    | zero => exact .starNil (.seqR (hb.reads _ _) (.and (not_newline (indent_head hx))))
    | succ n ih =>
      refine Reads.star (l₁ := []) (l₂ := []) (.seq (l₁ := []) (l₂ := []) (reads_newline _ k) ?_) ih
      cases n with
      | zero => exact .and (hb.reads _ k)
      | succ n => exact .and (reads_newline _ k)
  refine .atomic rfl h.passes ?_
  show Consume.stringMultilineTrailing _ = _
  rw [Consume.stringMultilineTrailing]
  simp

/-- What the rest of a block scalar is followed by. -/
def ScalarEnd (t : Nat) (cl : Closing) (r : Str) : Prop := cl.tight → Shallow t r ∧ (cl = .blanks → r ≠ [])

/-- The lines as they are read: indented, or empty. -/
inductive Lifted (d : Nat) : List Str → List Str → Prop
  | nil : Lifted d [] []
  | line {l ls ls'} (h : Lifted d ls ls') : Lifted d (l :: ls) ((indent d ++ l) :: ls')
  | empty {ls ls'} (h : Lifted d ls ls') : Lifted d ([] :: ls) ([] :: ls')

theorem Lifted.empties {d n : Nat} {ls ls' : List Str} (h : Lifted d ls ls') : Lifted d (List.replicate n [] ++ ls) (List.replicate n [] ++ ls') := by
  induction n with
  | zero => exact h
  | succ n ih => exact .empty ih

theorem _root_.YamlSubset.Spec.BlockRest.tight {w : Nat} {cl ls x} (h : BlockRest w cl ls x) : cl.tight := by
  induction h with
  | nil => exact .inl rfl
  | blanks => exact .inr rfl
  | line _ _ _ ih => exact ih

theorem _root_.YamlSubset.Spec.BlockRest.eol {w t : Nat} {cl ls x} (h : BlockRest w cl ls x) {r : Str} (hr : ScalarEnd t cl r) : Eol (x ++ r) := by
  cases h with
  | nil => exact (hr (.inl rfl)).1.eol
  | blanks => exact .inr (.inl rfl)
  | line hn hl h => simp only [List.append_assoc]; exact hn.eol _

theorem _root_.YamlSubset.Spec.BlockRest.reads {t d : Nat} {cl ls x} (h : BlockRest (t + 1 + d) cl ls x) {r : Str} (hr : ScalarEnd t cl r) (k) :
    ∃ (parts : List (List Str)) (tr : List Str) (rest : Str), Lifted d ls (parts.flatten ++ tr) ∧
      Reads T (.star (.rule .string_multiline_content_part)) (x ++ r) ([' '] :: indent t :: k)
        (parts.map fun x => (.string_multiline_content_part, .strs x)) rest ([' '] :: indent t :: k) ∧
      Reads T (.rule .string_multiline_trailing) rest ([' '] :: indent t :: k) [(.string_multiline_trailing, .strs tr)] r ([' '] :: indent t :: k) := by
  induction h with
  | nil => exact ⟨[], [], r, .nil, .starNil (not_part (hr (.inl rfl)).1 k), reads_trailing (hr (.inl rfl)).1 _⟩
  | @blanks n =>
    obtain ⟨hs, hb⟩ := hr (.inr rfl)
    rcases hs with rfl | ⟨nl, m, x, rfl, hnl, hm, hx⟩
    · exact absurd rfl (hb rfl)
    · refine ⟨[], List.replicate (n + 1) [], _, ?_, .starNil (not_part_blanks hnl hm hx k), reads_trailing_blanks hnl hx _⟩
      have := Lifted.empties (d := d) (n := n + 1) .nil
      simpa using this
  | @line cl n nl l ls x hn hl h ih =>
    obtain ⟨parts, tr, rest, h1, h2, h3⟩ := ih hr
    refine ⟨(List.replicate n [] ++ [indent d ++ l]) :: parts, tr, rest, ?_, ?_, h3⟩
    · have := Lifted.empties (n := n) (Lifted.line (l := l) h1)
      simpa using this
    · have := Reads.star (reads_part (T := T) (t := t) (d := d) (n := n) hn hl (h.eol hr) k) h2
      simpa [pad_eq] using this

theorem firstLine_of {l : Str} (h : ∃ c ∈ l, isSpaceSeparator c = false) : FirstLine l := by
  obtain ⟨c, hm, hcs⟩ := h
  obtain ⟨u, v, rfl, hu, hv⟩ := exists_run (fun c => isSpaceSeparator c = true) l
  cases v with
  | nil =>
    rw [List.append_nil] at hm
    have hm := hu c hm
    rw [hcs] at hm; cases hm
  | cons x v => exact ⟨u, x :: v, rfl, hu, x, v, rfl, by simpa using hv⟩

theorem reads_content {t d m : Nat} {cl} {nl l x : Str} {ls : List Str} {r : Str} (hn : Break nl) (hf : FirstLine l) (hl : LineText l)
    (h : BlockRest (t + 1 + d) cl ls x) (hr : ScalarEnd t cl r) (k) :
    ∃ ls', Lifted d ls ls' ∧ Reads T (.rule .string_multiline_content) (indent m ++ (nl ++ (indent (t + 1 + d) ++ (l ++ (x ++ r))))) (indent t :: k)
      [(.string_multiline_content, .strs ((indent d ++ l) :: ls'))] r (indent t :: k) := by
  obtain ⟨parts, tr, rest, hlift, hparts, htr⟩ := h.reads (T := T) hr k
  refine ⟨_, hlift, ?_⟩
  have heol := h.eol hr
  generalize hq : x ++ r = q at hparts heol ⊢
  have he : indent (t + 1 + d) ++ (l ++ q) = indent t ++ ([' '] ++ ((indent d ++ l) ++ q)) := by
    rw [indent_add, indent_add]; simp [indent]
  have hb : Reads T (.rule .blanknl) (indent m ++ (nl ++ (indent (t + 1 + d) ++ (l ++ q)))) (indent t :: k) [] (indent (t + 1 + d) ++ (l ++ q)) (indent t :: k) := by
    obtain ⟨u, y, rfl, hu, c, z, rfl, hc⟩ := hf
    have hcl := LineText.mem hl c (by simp)
    have := reads_blanknl_sps (T := T) (m := m) (nl := nl) (u := indent (t + 1 + d) ++ u) (r := c :: z ++ q) hn (by
      intro z hz
      rcases List.mem_append.1 hz with hz | hz
      · exact indent_sp _ z hz
      · exact hu z hz) (by simpa [Black] using ⟨hc, hcl⟩) (indent t :: k)
    simpa using this
  have hsp : ∀ c, (indent t ++ ([' '] ++ ((indent d ++ l) ++ q))).head? = some c → c ≠ '\n' ∧ c ≠ '\r' := by
    cases t with
    | zero => simp [indent]
    | succ n => simp [indent_succ]
  rw [he] at hb ⊢
  have h3 : Reads T (.seqs [.peek, .push (Rule.lit ' '), .rule .block_string]) (indent t ++ ([' '] ++ ((indent d ++ l) ++ q))) (indent t :: k)
      [(.block_string, .str (indent d ++ l))] q ([' '] :: indent t :: k) := by
    have := Reads.seq (.peek (indent t) ([' '] ++ ((indent d ++ l) ++ q)) k)
      (.seq (.push (t := [' ']) (.lit ' ' _ _)) (reads_block_string (T := T) (line_indent hl) heol ([' '] :: indent t :: k)))
    simpa [Expr.seqs] using this
  have hall := Reads.seq hb (.seq (reads_empty_lines (n := 0) hsp _) (.seq h3 (.seq hparts (.seq htr (.drop [' '] r (indent t :: k))))))
  refine .rule rfl hall fun _ => ?_
  simp only [List.nil_append, List.append_nil, List.cons_append]
  simp only [oks_cons, act, Consume.stringMultilineContent, Out.bind_ok, Val.asStrs, Val.asStr]
  rw [manyThen_oks _ _ Val.strs (fun _ => rfl) _ _ _ _ tr rfl]
  simp

/-! ## taking the indentation off -/

theorem Lifted.clean {d : Nat} {ls ls' : List Str} (h : Lifted d ls ls') :
    Out.all (ls'.map fun x => if x.isEmpty then Out.ok x else Out.unwrapOpt (sliceFrom d x)) = .ok ls := by
  induction h with
  | nil => rfl
  | @line l ls ls' h ih =>
    simp only [List.map_cons, Out.all, ih]
    split
    · rename_i h
      simp only [List.isEmpty_iff, List.append_eq_nil_iff] at h
      simp [h]
    · rw [sliceFrom_indent]; rfl
  | empty h ih =>
    simp only [List.map_cons, Out.all, ih]
    rfl

theorem clean_given {d : Nat} {ls ls' : List Str} (h : Lifted d ls ls') : cleanMultilineStrings (some d) ls' = .ok ls := by
  simp only [cleanMultilineStrings, Out.bind_ok]
  exact h.clean

theorem clean_counted {d : Nat} {c : Char} {u : Str} (hw : isWhitespace c = false) {ls ls' : List Str} (h : Lifted d ls ls') :
    cleanMultilineStrings none ((indent d ++ c :: u) :: ls') = .ok ((c :: u) :: ls) := by
  have := (Lifted.line (l := c :: u) h).clean
  simp only [List.map_cons, cleanMultilineStrings, Out.bind_ok, count_indent hw] at this ⊢
  exact this

/-! ## the header -/

theorem mark_eq (c : BlockChomping) : chompingMark c = c.write := by cases c <;> rfl

/-- After the mark there is a digit, a space or a line break. -/
theorem reads_chomp (c : BlockChomping) {x : Str} (hx : x.head? ≠ some '-' ∧ x.head? ≠ some '+') (k) :
    Reads T (.opt (.rule .string_block_chomping)) (chompingMark c ++ x) k (if c = .clip then [] else [(.string_block_chomping, .chomping c)]) x k := by
  by_cases hc : c = .clip
  · subst hc
    exact .optNone (.rule (.alt (.lit hx.1) (.lit hx.2)))
  · rw [if_neg hc, mark_eq]
    exact .opt (reads_chomping c hc _ _)

theorem header_head {m : Nat} {nl : Str} (hn : Break nl) (q : Str) : ∀ c, (indent m ++ (nl ++ q)).head? = some c → c = ' ' ∨ c = '\n' ∨ c = '\r' := by
  intro c hc
  cases m with
  | zero => rcases hn with rfl | rfl <;> simp [indent] at hc <;> simp [← hc]
  | succ m => simp [indent_succ] at hc; simp [← hc]

theorem not_number {c : Char} (h : c = ' ' ∨ c = '\n' ∨ c = '\r') : T.number c = false := by
  rcases h with rfl | rfl | rfl <;> (rw [T.number_ascii _ (by decide)]; rfl)

theorem reads_no_indicator {x : Str} (h : ∀ c, x.head? = some c → c = ' ' ∨ c = '\n' ∨ c = '\r') (k) :
    Reads T (.rule .string_multiline_indent) x k [(.string_multiline_indent, .optNat none)] x k := by
  have hstop : Not T (.plus (.cls T.number)) x k := .plus (.cls fun c hc => not_number (h c hc))
  exact Reads.ruleText (T := T) (q := .string_multiline_indent) (t := []) (l := []) rfl (.starNil hstop) rfl

theorem digit_value : ∀ d, d < 9 → (Consume.stringMultilineIndent [Char.ofNat ('1'.toNat + d)] = .ok (.optNat (some d)))
  | 0, _ => by kernel_rfl
  | 1, _ => by kernel_rfl
  | 2, _ => by kernel_rfl
  | 3, _ => by kernel_rfl
  | 4, _ => by kernel_rfl
  | 5, _ => by kernel_rfl
  | 6, _ => by kernel_rfl
  | 7, _ => by kernel_rfl
  | 8, _ => by kernel_rfl

theorem reads_digit {digit : Char} {d : Nat} (hd : d < 9 ∧ digit.toNat = '1'.toNat + d) {x : Str} (h : ∀ c, x.head? = some c → c = ' ' ∨ c = '\n' ∨ c = '\r') (k) :
    Reads T (.rule .string_multiline_indent) (digit :: x) k [(.string_multiline_indent, .optNat (some d))] x k := by
  have hstop : Not T (.plus (.cls T.number)) x k := .plus (.cls fun c hc => not_number (h c hc))
  have hnum : T.number digit = true := by
    have : digit.toNat < 128 := by have : '1'.toNat = 49 := rfl; omega
    rw [T.number_ascii digit this]
    have : '1'.toNat = 49 := rfl
    have h0 : '0'.toNat = 48 := rfl
    have h9 : '9'.toNat = 57 := rfl
    simp
    omega
  have h1 : Reads T (.plus (.cls T.number)) (digit :: x) k [] x k :=
    (single_cls T.number).plus (s := [digit]) (by simp) (by simpa using hnum) (fun c hc => by simp [not_number (T := T) (h c hc)]) k
  refine Reads.ruleText (T := T) (q := .string_multiline_indent) (t := [digit]) (l := []) rfl (.star (l₁ := []) (l₂ := []) h1 (.starNil hstop)) ?_
  show Consume.stringMultilineIndent [digit] = _
  have hdig : digit = Char.ofNat ('1'.toNat + d) := by rw [← hd.2, Char.ofNat_toNat]
  obtain ⟨hd, -⟩ := hd
  subst hdig
  exact digit_value d hd

theorem not_mark_head {x : Str} (h : ∀ c, x.head? = some c → c = ' ' ∨ c = '\n' ∨ c = '\r') : x.head? ≠ some '-' ∧ x.head? ≠ some '+' := by
  constructor <;> (intro hc; rcases h _ hc with h | h | h <;> cases h)

/-- A block scalar after its `|` or `>`. -/
theorem _root_.YamlSubset.Spec.BlockScalarText.reads {t : Nat} {cl ls chomping x} (h : BlockScalarText t cl ls chomping x) {r : Str} (hr : ScalarEnd t cl r) (k) :
    ∃ i ls', cleanMultilineStrings i ls' = .ok ls ∧
      Reads T (.seqs [.opt (.rule .string_block_chomping), .rule .string_multiline_indent, .rule .string_multiline_content]) (x ++ r) (indent t :: k)
        ((if chomping = .clip then [] else [(.string_block_chomping, .chomping chomping)]) ++
          [(.string_multiline_indent, .optNat i), (.string_multiline_content, .strs ls')]) r (indent t :: k) := by
  cases h with
  | @plain l ls _ m nl d x hn hl hf h =>
    obtain ⟨c, u, rfl, hw⟩ := hf
    have hs : isSpaceSeparator c = false := by
      cases hs : isSpaceSeparator c with
      | false => rfl
      | true => rw [space_white hs] at hw; cases hw
    obtain ⟨ls', hlift, hc⟩ := reads_content (T := T) (m := m) hn (firstLine_of ⟨c, by simp, hs⟩) hl h hr k
    refine ⟨none, _, clean_counted hw hlift, ?_⟩
    have hh := header_head (m := m) hn (indent (t + 1 + d) ++ (c :: u ++ (x ++ r)))
    have := Reads.seq (reads_chomp (T := T) chomping (not_mark_head hh) (indent t :: k)) (.seq (reads_no_indicator hh _) hc)
    simpa [Expr.seqs, pad_eq] using this
  | @indicated l ls _ digit m nl d x hn hl hf hd h =>
    obtain ⟨ls', hlift, hc⟩ := reads_content (T := T) (m := m) hn (firstLine_of hf) hl h hr k
    refine ⟨some d, _, clean_given (.line hlift), ?_⟩
    have hh := header_head (m := m) hn (indent (t + 1 + d) ++ (l ++ (x ++ r)))
    have hdig : digit ≠ '-' ∧ digit ≠ '+' := by
      constructor <;> (rintro rfl; have := hd.2; revert this; simp <;> omega)
    have := Reads.seq (reads_chomp (T := T) chomping (x := digit :: (indent m ++ (nl ++ (indent (t + 1 + d) ++ (l ++ (x ++ r)))))) (by simpa using hdig) (indent t :: k))
      (.seq (reads_digit hd hh _) hc)
    simpa [Expr.seqs, pad_eq] using this

theorem _root_.YamlSubset.Spec.BlockScalarText.tight {t : Nat} {cl ls chomping x} (h : BlockScalarText t cl ls chomping x) : cl.tight := by
  cases h with
  | plain _ _ _ h => exact h.tight
  | indicated _ _ _ _ h => exact h.tight

theorem literal_value {t : Nat} {cl ls chomping x} (h : BlockScalarText t cl ls chomping x) {r : Str} (hr : ScalarEnd t cl r) (k) :
    ValueAt T (indent t :: k) ('|' :: x) r r (.literalString ls chomping) := by
  have hc : NoColl T ('|' :: x ++ r) := noColl_head (by decide)
  refine ⟨hc, noAlias_head (by simp), .refl r, ?_⟩
  obtain ⟨i, ls', hclean, hbody⟩ := h.reads (T := T) hr k
  have hlit : Reads T (.rule .string_multiline_literal) ('|' :: x ++ r) (indent t :: k)
      [(.string_multiline_literal, .yaml (.literalString ls chomping))] r (indent t :: k) :=
    .rule rfl (.seq (.lit '|' _ _) hbody) fun _ => act_block hclean
  refine .rule rfl (.altR (not_hash_here hc _) (.altR (.rule (.alt (not_inline_array (by simp) _) (not_block_array_here hc _))) (.altL hlit))) fun _ => rfl

theorem folded_value {t : Nat} {cl ls chomping x} (h : BlockScalarText t cl ls chomping x) {r : Str} (hr : ScalarEnd t cl r) (k) :
    ValueAt T (indent t :: k) ('>' :: x) r r (.foldedString ls chomping) := by
  have hc : NoColl T ('>' :: x ++ r) := noColl_head (by decide)
  refine ⟨hc, noAlias_head (by simp), .refl r, ?_⟩
  obtain ⟨i, ls', hclean, hbody⟩ := h.reads (T := T) hr k
  have hlit : Reads T (.rule .string_multiline_folded) ('>' :: x ++ r) (indent t :: k)
      [(.string_multiline_folded, .yaml (.foldedString ls chomping))] r (indent t :: k) :=
    .rule rfl (.seq (.lit '>' _ _) hbody) fun _ => act_block hclean
  refine .rule rfl (.altR (not_hash_here hc _) (.altR (.rule (.alt (not_inline_array (by simp) _) (not_block_array_here hc _)))
    (.altR (not_literal (by simp) _) (.altL hlit)))) fun _ => rfl

end YamlSubset.Lay
