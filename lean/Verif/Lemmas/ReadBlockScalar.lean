import Verif.Lemmas.ReadFlow
import Verif.Lemmas.KernelRfl

/-! # Reading formatted block scalars -/

namespace YamlSubset

open Peg Spec

variable {T : CharTables}

/-- A line break before a line that is not blank, whatever spaces it starts with. -/
theorem reads_blanknl_ws {u r : Str} (hu : ∀ c ∈ u, isSpaceSeparator c = true) (h : Black r) (k) :
    Reads T (.rule .blanknl) ('\n' :: (u ++ r)) k [] (u ++ r) k := by
  have h1 : Not T (.seq (.star Rule.SP) Rule.NEWLINE) (u ++ r) k :=
    .seqR (single_sp.star hu (fun c hc => by simp [h.notSp c hc]) k) (not_newline h.notNl)
  refine .silent rfl (.altR ?_ ?_)
  · exact .seqR (reads_sps_nil (notSp_nl _) k) (.seqR (reads_newline _ k) (.plus h1))
  · exact .seq (reads_sps_nil (notSp_nl _) k) (reads_newline _ k)

theorem reads_block_string {u r : Str} (hu : LineText u) (hr : LineEnd r) (k) :
    Reads T (.rule .block_string) (u ++ r) k [(.block_string, .str u)] r k := by
  refine .atomic rfl ?_ rfl
  cases u with
  | nil => exact .altR (.plus (single_line.no _ _ hr.stop)) (Reads.str [] r k).passes
  | cons c u => exact .altL (single_line.plus (by simp) (LineText.mem hu) hr.stop k).passes

theorem reads_empty_lines {r : Str} (hr : ∀ c, r.head? = some c → c ≠ '\n' ∧ c ≠ '\r') (k) :
    Reads T (.rule .block_empty_lines) r k [(.block_empty_lines, .strs [])] r k := by
  have := Reads.atomic (T := T) (q := .block_empty_lines) (v := .strs []) (t := []) (r := r) (k := k) (k' := k) rfl
    (.starNil (not_newline hr)) rfl
  exact this

theorem indent_add (a b : Nat) : indent (a + b) = indent a ++ indent b := by simp [indent, List.replicate_append_replicate]

theorem indent_succ (n : Nat) : indent (n + 1) = ' ' :: indent n := rfl

theorem indent_head {n : Nat} {r : Str} (h : Black r) : ∀ c, (indent n ++ r).head? = some c → c ≠ '\n' ∧ c ≠ '\r' := by
  cases n with
  | zero => exact h.notNl
  | succ n => simp [indent_succ]

/-- Less indentation does not start with more. -/
theorem indent_no_prefix {n m : Nat} {x y : Str} (h : n < m) (hx : NotSp x) : indent n ++ x ≠ indent m ++ y := by
  induction n generalizing m with
  | zero =>
    obtain ⟨m, rfl⟩ : ∃ m', m = m' + 1 := ⟨m - 1, by omega⟩
    rintro he
    have he : x = ' ' :: (indent m ++ y) := he
    have := hx ' ' (by rw [he]; rfl)
    revert this; decide
  | succ n ih =>
    obtain ⟨m, rfl⟩ : ∃ m', m = m' + 1 := ⟨m - 1, by omega⟩
    intro he
    simp only [indent_succ, List.cons_append, List.cons.injEq, true_and] at he
    exact ih (by omega) he

/-- The next line is indented by at most `t`. -/
def Shallow (t : Nat) (r : Str) : Prop := r = [] ∨ ∃ n x, r = '\n' :: (indent n ++ x) ∧ n ≤ t ∧ Black x

theorem Shallow.lineEnd {t : Nat} {r : Str} (h : Shallow t r) : LineEnd r := by
  rcases h with rfl | ⟨n, x, rfl, -⟩
  · exact .inl rfl
  · exact .inr rfl

theorem reads_part {t d : Nat} {l r : Str} (hl : LineText l) (hr : LineEnd r) (k) :
    Reads T (.rule .string_multiline_content_part) ('\n' :: (indent (t + 1 + d) ++ (l ++ r))) ([' '] :: indent t :: k)
      [(.string_multiline_content_part, .strs [indent d ++ l])] r ([' '] :: indent t :: k) := by
  have he : indent (t + 1 + d) ++ (l ++ r) = indent t ++ [' '] ++ ((indent d ++ l) ++ r) := by
    rw [indent_add, indent_add]; simp [indent]
  have hsp : ∀ c, (indent t ++ [' '] ++ ((indent d ++ l) ++ r)).head? = some c → c ≠ '\n' ∧ c ≠ '\r' := by
    cases t with
    | zero => simp [indent]
    | succ n => simp [indent_succ]
  have hl' : LineText (indent d ++ l) := by
    apply line_of_not
    intro c hc
    rcases List.mem_append.1 hc with hc | hc
    · rw [List.eq_of_mem_replicate hc]; decide
    · exact LineText.mem hl c hc
  rw [he]
  exact .rule rfl (.seq (reads_newline _ _) (.seq (reads_empty_lines hsp _) (.seq (.peek2 [' '] (indent t) _ k)
    (reads_block_string hl' hr _)))) fun _ => rfl

theorem not_part {t : Nat} {r : Str} (h : Shallow t r) (k) :
    Not T (.rule .string_multiline_content_part) r ([' '] :: indent t :: k) := by
  rcases h with rfl | ⟨n, x, rfl, hn, hx⟩
  · exact .rule (.seqL (not_newline (by simp)))
  · refine .rule (.seqR (reads_newline _ _) (.seqR (reads_empty_lines (indent_head hx) _) (.seqL (no_peek2.2 ?_))))
    rintro ⟨a, b, l, y, hk, he⟩
    cases hk
    have : indent t ++ [' '] = indent (t + 1) := by rw [indent_add]; rfl
    rw [this] at he
    exact indent_no_prefix (by omega) hx.notSp he

theorem reads_trailing {t : Nat} {r : Str} (h : Shallow t r) (k) :
    Reads T (.rule .string_multiline_trailing) r k [(.string_multiline_trailing, .strs [])] r k := by
  have hn : Not T (.seq Rule.NEWLINE (.and Rule.NEWLINE)) r k := by
    rcases h with rfl | ⟨n, x, rfl, hn, hx⟩
    · exact .seqL (not_newline (by simp))
    · exact .seqR (reads_newline _ _) (.and (not_newline (indent_head hx)))
  exact Reads.atomic (T := T) (q := .string_multiline_trailing) (v := .strs []) (t := []) (r := r) (k := k) (k' := k) rfl
    (.starNil hn) rfl

theorem reads_parts {t d : Nat} {ls : List Str} {r : Str} (hl : ∀ l ∈ ls, LineText l) (hr : Shallow t r) (k) :
    Reads T (.star (.rule .string_multiline_content_part)) (ls.flatMap (fun l => '\n' :: (indent (t + 1 + d) ++ l)) ++ r) ([' '] :: indent t :: k)
      ((ls.map fun l => [indent d ++ l]).map fun x => (.string_multiline_content_part, .strs x)) r ([' '] :: indent t :: k) := by
  induction ls with
  | nil => exact .starNil (not_part hr k)
  | cons l ls ih =>
    have ih := ih fun x hx => hl x (by simp [hx])
    have hr' : LineEnd (ls.flatMap (fun l => '\n' :: (indent (t + 1 + d) ++ l)) ++ r) := by
      cases ls with
      | nil => exact hr.lineEnd
      | cons x xs => exact .inr (by simp)
    have h1 := reads_part (T := T) (t := t) (d := d) (hl l (by simp)) hr' k
    have := Reads.star h1 ih
    simpa using this

theorem flatten_singletons {α β : Type} (f : α → β) (l : List α) : (l.map fun x => [f x]).flatten = l.map f := by
  induction l with
  | nil => rfl
  | cons x l ih => simp [ih]

/-- The first line of a block scalar is not blank. -/
def FirstLine (l : Str) : Prop := ∃ u x, l = u ++ x ∧ (∀ c ∈ u, isSpaceSeparator c = true) ∧ ∃ c t, x = c :: t ∧ isSpaceSeparator c = false

theorem reads_content {t d : Nat} {l : Str} {ls : List Str} {r : Str} (hf : FirstLine l) (hl : ∀ x ∈ l :: ls, LineText x) (hr : Shallow t r) (k) :
    Reads T (.rule .string_multiline_content)
      ('\n' :: (indent (t + 1 + d) ++ l) ++ ls.flatMap (fun l => '\n' :: (indent (t + 1 + d) ++ l)) ++ r) (indent t :: k)
      [(.string_multiline_content, .strs ((l :: ls).map fun l => indent d ++ l))] r (indent t :: k) := by
  have he : indent (t + 1 + d) ++ l = indent t ++ ([' '] ++ (indent d ++ l)) := by
    rw [indent_add, indent_add]; simp [indent]
  have hr' : LineEnd (ls.flatMap (fun l => '\n' :: (indent (t + 1 + d) ++ l)) ++ r) := by
    cases ls with
    | nil => exact hr.lineEnd
    | cons x xs => exact .inr (by simp)
  have hl' : LineText (indent d ++ l) := by
    apply line_of_not
    intro c hc
    rcases List.mem_append.1 hc with hc | hc
    · rw [List.eq_of_mem_replicate hc]; decide
    · exact LineText.mem (hl l (by simp)) c hc
  generalize hrest : ls.flatMap (fun l => '\n' :: (indent (t + 1 + d) ++ l)) ++ r = rest at hr'
  have hb : Reads T (.rule .blanknl) ('\n' :: (indent (t + 1 + d) ++ l ++ rest)) (indent t :: k) [] (indent (t + 1 + d) ++ l ++ rest) (indent t :: k) := by
    obtain ⟨u, x, rfl, hu, c, y, rfl, hc⟩ := hf
    have hcl := LineText.mem (hl (u ++ c :: y) (by simp)) c (by simp)
    have := reads_blanknl_ws (T := T) (u := indent (t + 1 + d) ++ u) (r := c :: y ++ rest) (by
      intro z hz
      rcases List.mem_append.1 hz with hz | hz
      · exact indent_sp _ z hz
      · exact hu z hz) (by simpa [Black] using ⟨hc, hcl⟩) (indent t :: k)
    simpa using this
  have hsp : ∀ c, (indent t ++ ([' '] ++ (indent d ++ l)) ++ rest).head? = some c → c ≠ '\n' ∧ c ≠ '\r' := by
    cases t with
    | zero => simp [indent]
    | succ n => simp [indent_succ]
  have hparts := reads_parts (T := T) (t := t) (d := d) (ls := ls) (fun x hx => hl x (by simp [hx])) hr k
  rw [hrest] at hparts
  rw [List.append_assoc, hrest, List.cons_append]
  rw [he] at hb ⊢
  have h3 : Reads T (.seqs [.peek, .push (Rule.lit ' '), .rule .block_string]) (indent t ++ ([' '] ++ (indent d ++ l)) ++ rest) (indent t :: k)
      [(.block_string, .str (indent d ++ l))] rest ([' '] :: indent t :: k) := by
    have := Reads.seq (.peek (indent t) ([' '] ++ ((indent d ++ l) ++ rest)) k)
      (.seq (.push (t := [' ']) (.lit ' ' _ _)) (reads_block_string (T := T) hl' hr' ([' '] :: indent t :: k)))
    simpa [Expr.seqs] using this
  have hall := Reads.seq hb (.seq (reads_empty_lines hsp _) (.seq h3 (.seq hparts (.seq (reads_trailing hr _) (.drop [' '] r (indent t :: k))))))
  refine .rule rfl hall fun _ => ?_
  simp only [List.nil_append, List.append_nil, List.cons_append]
  simp only [oks_cons, act, Consume.stringMultilineContent, Out.bind_ok, Val.asStrs, Val.asStr]
  rw [manyThen_oks _ _ Val.strs (fun _ => rfl) _ _ _ _ [] rfl]
  simp [flatten_singletons]

/-! ## taking the indentation off -/

theorem sliceFrom_indent (d : Nat) (l : Str) : sliceFrom d (indent d ++ l) = some l := by
  induction d with
  | zero => cases l <;> rfl
  | succ d ih =>
    rw [indent_succ, List.cons_append, sliceFrom]
    have : (' ' : Char).utf8Size = 1 := rfl
    simp [this, ih]

theorem byteLen_indent (d : Nat) : byteLen (indent d) = d := by
  induction d with
  | zero => rfl
  | succ d ih =>
    have : (' ' : Char).utf8Size = 1 := rfl
    rw [indent_succ, byteLen, ih, this]; omega

theorem count_indent {d : Nat} {c : Char} {l : Str} (h : isWhitespace c = false) :
    countWhitespaceBytesAtStart (indent d ++ c :: l) = d := by
  have : (indent d ++ c :: l).takeWhile (fun ch => isWhitespace ch && ch != '\n') = indent d := by
    rw [List.takeWhile_append_of_pos]
    · simp [h]
    · intro x hx
      rw [List.eq_of_mem_replicate hx]; decide
  rw [countWhitespaceBytesAtStart, this, byteLen_indent]

theorem clean_all (d : Nat) (ls : List Str) :
    Out.all ((ls.map fun l => indent d ++ l).map fun x => if x.isEmpty then Out.ok x else Out.unwrapOpt (sliceFrom d x)) = .ok ls := by
  induction ls with
  | nil => rfl
  | cons l ls ih =>
    simp only [List.map_cons, Out.all, ih]
    split
    · rename_i h
      simp only [List.isEmpty_iff, List.append_eq_nil_iff] at h
      simp [h]
    · rw [sliceFrom_indent]; rfl

theorem clean_given (d : Nat) (ls : List Str) : cleanMultilineStrings (some d) (ls.map fun l => indent d ++ l) = .ok ls := by
  simp only [cleanMultilineStrings, Out.bind_ok]
  exact clean_all d ls

theorem clean_counted (d : Nat) {c : Char} (t : Str) (h : isWhitespace c = false) (ls : List Str) :
    cleanMultilineStrings none (((c :: t) :: ls).map fun l => indent d ++ l) = .ok ((c :: t) :: ls) := by
  have := clean_all d ((c :: t) :: ls)
  simp only [List.map_cons, cleanMultilineStrings, Out.bind_ok, count_indent h] at this ⊢
  exact this

/-! ## block scalars -/

theorem reads_chomping (c : BlockChomping) (hc : c ≠ .clip) (r : Str) (k) :
    Reads T (.rule .string_block_chomping) (c.write ++ r) k [(.string_block_chomping, .chomping c)] r k := by
  cases c with
  | clip => exact absurd rfl hc
  | strip => exact .ruleText (t := ['-']) rfl (.altL (.lit '-' r k)) rfl
  | keep => exact .ruleText (t := ['+']) rfl (.altR (.lit (by simp)) (.lit '+' r k)) rfl

theorem reads_indicator (two : Bool) (r : Str) (k) :
    Reads T (.rule .string_multiline_indent) ((if two then ['2'] else []) ++ '\n' :: r) k
      [(.string_multiline_indent, .optNat (if two then some 1 else none))] ('\n' :: r) k := by
  have hn : T.number '\n' = false := by rw [T.number_ascii '\n' (by decide)]; rfl
  have h2 : T.number '2' = true := by rw [T.number_ascii '2' (by decide)]; rfl
  have hstop : Not T (.plus (.cls T.number)) ('\n' :: r) k := .plus (.cls (by simpa using hn))
  cases two with
  | false =>
    exact Reads.ruleText (T := T) (q := .string_multiline_indent) (t := []) (l := []) rfl (.starNil hstop) rfl
  | true =>
    have h1 : Reads T (.plus (.cls T.number)) ('2' :: '\n' :: r) k [] ('\n' :: r) k :=
      (single_cls T.number).plus (s := ['2']) (by simp) (by simpa using h2) (by simpa using hn) k
    exact Reads.ruleText (T := T) (q := .string_multiline_indent) (t := ['2']) (l := []) rfl (.star (l₁ := []) (l₂ := []) h1 (.starNil hstop)) (by
      show Consume.stringMultilineIndent ['2'] = _
      kernel_rfl)

theorem reads_block_body {t d : Nat} {l : Str} {ls : List Str} {r : Str} (c : BlockChomping) (hf : FirstLine l) (hl : ∀ x ∈ l :: ls, LineText x)
    (hr : Shallow t r) (k) :
    Reads T (.seqs [.opt (.rule .string_block_chomping), .rule .string_multiline_indent, .rule .string_multiline_content])
      (c.write ++ ((if startsWithChar l ' ' then ['2'] else []) ++
        '\n' :: (indent (t + 1 + d) ++ l) ++ ls.flatMap (fun l => '\n' :: (indent (t + 1 + d) ++ l)) ++ r)) (indent t :: k)
      ((if c = .clip then [] else [(.string_block_chomping, .chomping c)]) ++
        [(.string_multiline_indent, .optNat (if startsWithChar l ' ' then some 1 else none)),
          (.string_multiline_content, .strs ((l :: ls).map fun l => indent d ++ l))]) r (indent t :: k) := by
  have hc := reads_content (T := T) (t := t) (d := d) hf hl hr k
  have hi := reads_indicator (T := T) (startsWithChar l ' ')
    ((indent (t + 1 + d) ++ l) ++ ls.flatMap (fun l => '\n' :: (indent (t + 1 + d) ++ l)) ++ r) (indent t :: k)
  have h2 := Reads.seq hi hc
  have hcc : Reads T (.opt (.rule .string_block_chomping)) (c.write ++ ((if startsWithChar l ' ' then ['2'] else []) ++
        '\n' :: ((indent (t + 1 + d) ++ l) ++ ls.flatMap (fun l => '\n' :: (indent (t + 1 + d) ++ l)) ++ r))) (indent t :: k)
      (if c = .clip then [] else [(.string_block_chomping, .chomping c)]) ((if startsWithChar l ' ' then ['2'] else []) ++
        '\n' :: ((indent (t + 1 + d) ++ l) ++ ls.flatMap (fun l => '\n' :: (indent (t + 1 + d) ++ l)) ++ r)) (indent t :: k) := by
    by_cases hc : c = .clip
    · subst hc
      refine .optNone (.rule (.alt (.lit ?_) (.lit ?_))) <;> cases startsWithChar l ' ' <;> simp [BlockChomping.write]
    · rw [if_neg hc]
      exact .opt (reads_chomping c hc _ _)
  have := Reads.seq hcc h2
  simpa [Expr.seqs] using this

/-- The first line of a block scalar, and how it is read back. -/
theorem blockLines_first {flush : Bool} {ls : List Str} (h : BlockLines flush ls) (d : Nat) (hd : flush = true → d = 1) :
    ∃ l rest, ls = l :: rest ∧ FirstLine l ∧
      cleanMultilineStrings (if startsWithChar l ' ' then some 1 else none) (ls.map fun l => indent d ++ l) = .ok ls := by
  obtain ⟨l, rest, rfl, hc⟩ := h.first
  refine ⟨l, rest, rfl, ?_⟩
  rcases hc with ⟨c, t, rfl, hw⟩ | ⟨hfl, hsp, c, hm, hcs⟩
  · have hs : isSpaceSeparator c = false := by
      cases hs : isSpaceSeparator c with
      | false => rfl
      | true => rw [space_white hs] at hw; cases hw
    refine ⟨⟨[], c :: t, rfl, by simp, c, t, rfl, hs⟩, ?_⟩
    have : startsWithChar (c :: t) ' ' = false := by
      simp only [startsWithChar, List.head?_cons]
      cases hb : (some c == some ' ') with
      | false => rfl
      | true =>
        have : c = ' ' := by simpa using hb
        subst this
        revert hw; decide
    rw [this]
    exact clean_counted d t hw rest
  · refine ⟨?_, ?_⟩
    · obtain ⟨u, v, rfl, hu, hv⟩ := exists_run (fun c => isSpaceSeparator c = true) l
      cases v with
      | nil =>
        rw [List.append_nil] at hm
        have hm := hu c hm
        rw [hcs] at hm; cases hm
      | cons x v => exact ⟨u, x :: v, rfl, hu, x, v, rfl, by simpa using hv⟩
    · have : startsWithChar l ' ' = true := by simp [startsWithChar, hsp]
      rw [this, hd hfl]
      exact clean_given 1 (l :: rest)

theorem act_block {mk : List Str → BlockChomping → Yaml} {c : BlockChomping} {i : Option Nat} {ls ls' : List Str}
    (h : cleanMultilineStrings i ls' = .ok ls) :
    Consume.stringMultiline mk (oks ((if c = .clip then [] else [(.string_block_chomping, .chomping c)]) ++
        [(.string_multiline_indent, .optNat i), (.string_multiline_content, .strs ls')])) = .ok (.yaml (mk ls c)) := by
  cases c <;> simp [Consume.stringMultiline, Val.asChomping, Val.asOptNat, Val.asStrs, h]

theorem formatBlockLines_cons (i : Char) (l : Str) (ls : List Str) (c : BlockChomping) (s : Nat) (r : Str) :
    formatBlockLines i (l :: ls) c s ++ r = ' ' :: i :: (c.write ++ ((if startsWithChar l ' ' then ['2'] else []) ++
        '\n' :: (indent s ++ l) ++ ls.flatMap (fun l => '\n' :: (indent s ++ l)) ++ r)) := by
  simp [formatBlockLines]

theorem valueAt_literal {flush : Bool} {ls : List Str} (h : BlockLines flush ls) (c : BlockChomping) {t s : Nat} (hts : t < s) (hd : flush = true → s = t + 2)
    {r : Str} (hr : Shallow t r) (k p) :
    ∃ body, (Yaml.literalString ls c).format s p = ' ' :: body ∧ ValueAt T (indent t :: k) body r r (.literalString ls c) := by
  obtain ⟨d, rfl⟩ : ∃ d, s = t + 1 + d := ⟨s - (t + 1), by omega⟩
  obtain ⟨l, rest, he, hf, hclean⟩ := blockLines_first h d fun h => by have := hd h; omega
  obtain ⟨body, hb⟩ : ∃ body, (Yaml.literalString ls c).format (t + 1 + d) p = ' ' :: '|' :: body := by
    have := formatBlockLines_cons '|' l rest c (t + 1 + d) []
    rw [List.append_nil] at this
    rw [Yaml.format, he]
    exact ⟨_, this⟩
  have hbr : '|' :: body ++ r = '|' :: (c.write ++ ((if startsWithChar l ' ' then ['2'] else []) ++
        '\n' :: (indent (t + 1 + d) ++ l) ++ rest.flatMap (fun l => '\n' :: (indent (t + 1 + d) ++ l)) ++ r)) := by
    have := formatBlockLines_cons '|' l rest c (t + 1 + d) r
    rw [← he] at this
    have hb' : formatBlockLines '|' ls c (t + 1 + d) = ' ' :: '|' :: body := by rw [← hb, Yaml.format]
    rw [hb'] at this
    simpa using this
  have hc : NoColl T ('|' :: body ++ r) := noColl_head (by decide)
  refine ⟨'|' :: body, hb, hc, noAlias_head (by simp), .inl rfl, ?_⟩
  have hlit : Reads T (.rule .string_multiline_literal) ('|' :: body ++ r) (indent t :: k)
      [(.string_multiline_literal, .yaml (.literalString ls c))] r (indent t :: k) := by
    rw [hbr]
    have hbody := reads_block_body (T := T) (t := t) (d := d) c hf (by rw [← he]; exact h.lines) hr k
    rw [← he] at hbody
    exact .rule rfl (.seq (.lit '|' _ _) hbody) fun _ => act_block hclean
  refine .rule rfl (.altR (not_hash_here hc _) (.altR (.rule (.alt (not_inline_array (by simp) _) (not_block_array_here hc _))) (.altL hlit))) fun _ => rfl

theorem valueAt_folded {flush : Bool} {ls : List Str} (h : BlockLines flush ls) (c : BlockChomping) {t s : Nat} (hts : t < s) (hd : flush = true → s = t + 2)
    {r : Str} (hr : Shallow t r) (k p) :
    ∃ body, (Yaml.foldedString ls c).format s p = ' ' :: body ∧ ValueAt T (indent t :: k) body r r (.foldedString ls c) := by
  obtain ⟨d, rfl⟩ : ∃ d, s = t + 1 + d := ⟨s - (t + 1), by omega⟩
  obtain ⟨l, rest, he, hf, hclean⟩ := blockLines_first h d fun h => by have := hd h; omega
  obtain ⟨body, hb⟩ : ∃ body, (Yaml.foldedString ls c).format (t + 1 + d) p = ' ' :: '>' :: body := by
    have := formatBlockLines_cons '>' l rest c (t + 1 + d) []
    rw [List.append_nil] at this
    rw [Yaml.format, he]
    exact ⟨_, this⟩
  have hbr : '>' :: body ++ r = '>' :: (c.write ++ ((if startsWithChar l ' ' then ['2'] else []) ++
        '\n' :: (indent (t + 1 + d) ++ l) ++ rest.flatMap (fun l => '\n' :: (indent (t + 1 + d) ++ l)) ++ r)) := by
    have := formatBlockLines_cons '>' l rest c (t + 1 + d) r
    rw [← he] at this
    have hb' : formatBlockLines '>' ls c (t + 1 + d) = ' ' :: '>' :: body := by rw [← hb, Yaml.format]
    rw [hb'] at this
    simpa using this
  have hc : NoColl T ('>' :: body ++ r) := noColl_head (by decide)
  refine ⟨'>' :: body, hb, hc, noAlias_head (by simp), .inl rfl, ?_⟩
  have hlit : Reads T (.rule .string_multiline_folded) ('>' :: body ++ r) (indent t :: k)
      [(.string_multiline_folded, .yaml (.foldedString ls c))] r (indent t :: k) := by
    rw [hbr]
    have hbody := reads_block_body (T := T) (t := t) (d := d) c hf (by rw [← he]; exact h.lines) hr k
    rw [← he] at hbody
    exact .rule rfl (.seq (.lit '>' _ _) hbody) fun _ => act_block hclean
  refine .rule rfl (.altR (not_hash_here hc _) (.altR (.rule (.alt (not_inline_array (by simp) _) (not_block_array_here hc _)))
    (.altR (not_literal (by simp) _) (.altL hlit)))) fun _ => rfl

end YamlSubset
