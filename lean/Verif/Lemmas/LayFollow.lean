import Verif.Lemmas.LayBlockScalar

/-! # What comes after a value in any layout, and where the parser stops -/

namespace YamlSubset.Lay

open Peg Spec

variable {T : CharTables}

/-- The next line that is not blank or a comment. -/
structure NextLine (T : CharTables) (hold : Holder) (b : Nat) (next : LineKind) (s n : Nat) (x : Char) (tail : Str) : Prop where
  le : n ≤ b
  bare : Bare (x :: tail)
  dash : next ≠ .dash → x ≠ '-'
  key : (∀ m, next ≠ .key m) → ¬ NameChar T x
  keyAt : ∀ m, next = .key m → n ≤ m
  dashLt : hold = .key → x = '-' → n < s

/-- The end of the text or a line. -/
def Onward (T : CharTables) (hold : Holder) (b : Nat) (next : LineKind) (s : Nat) (z : Str) : Prop :=
  (∃ e, z = indent e) ∨ ∃ n x tail, z = indent n ++ x :: tail ∧ NextLine T hold b next s n x tail

/-- The text after a value in a line with indentation `s`, in a collection that is indented by `b`: the rest of the line, blank lines and comments, then the
end of the text or a line of this or an outer collection. -/
def Follow (T : CharTables) (hold : Holder) (cl : Closing) (b : Nat) (next : LineKind) (s : Nat) (r : Str) : Prop :=
  ∃ n r1, r = indent n ++ r1 ∧ (cl ≠ .loose → n = 0) ∧
    ((r1 = [] ∧ cl ≠ .blanks) ∨ ∃ nl bl q cs z, r1 = nl ++ (bl ++ q) ∧ Break nl ∧ Blanks bl ∧ FullLine q ∧
      (∀ K, Reads T (.rule .commentnls) q K [(.commentnls, .strs cs)] z K) ∧ (q = z ∨ ∃ m y, q = indent m ++ '#' :: y) ∧
      (cl.tight → bl = [] ∧ ∃ m y, q = indent m ++ y ∧ m ≤ b ∧ Black y) ∧ Onward T hold b next s z)

theorem Follow.mono {hold hold' : Holder} {cl : Closing} {b b' : Nat} {next : LineKind} {s s' : Nat} {r : Str} (h : Follow T hold cl b next s r) (hb : b ≤ b')
    (hd : hold' = .key → b < s' ∨ (hold = .key ∧ s ≤ s')) : Follow T hold' cl b' next s' r := by
  obtain ⟨n, r1, hr, hn, h⟩ := h
  refine ⟨n, r1, hr, hn, ?_⟩
  rcases h with h | ⟨nl, bl, q, cs, z, h1, h2, h3, h4, h5, h6, h7, h8⟩
  · exact .inl h
  · refine .inr ⟨nl, bl, q, cs, z, h1, h2, h3, h4, h5, h6, fun ht => ?_, ?_⟩
    · obtain ⟨h7, m, y, h9, h10, h11⟩ := h7 ht
      exact ⟨h7, m, y, h9, by omega, h11⟩
    · rcases h8 with h8 | ⟨n, x, tail, h8, h9⟩
      · exact .inl h8
      · refine .inr ⟨n, x, tail, h8, by have := h9.le; omega, h9.bare, h9.dash, h9.key, h9.keyAt, fun hh hx => ?_⟩
        rcases hd hh with hd | ⟨hd, hs⟩
        · have := h9.le; omega
        · have := h9.dashLt hd hx; omega

theorem Follow.trim {hold : Holder} {cl : Closing} {b : Nat} {next : LineKind} {s : Nat} {r r' : Str} (h : Follow T hold cl b next s r) (ht : Trim r r') :
    Follow T hold cl b next s r' := by
  obtain ⟨n, r1, rfl, hn, h⟩ := h
  have h1 : NotSp r1 := by
    rcases h with ⟨rfl, -⟩ | ⟨nl, bl, q, cs, z, rfl, hb, -⟩
    · exact bare_nil.notSp
    · exact hb.notSp _
  obtain ⟨m, hm, rfl⟩ := ht.split h1
  exact ⟨m, r1, rfl, fun hc => by have := hn hc; omega, h⟩

/-- After a value there are spaces and the end of the line. -/
theorem Follow.line {hold : Holder} {cl : Closing} {b : Nat} {next : LineKind} {s : Nat} {r : Str} (h : Follow T hold cl b next s r) :
    ∃ n r1, r = indent n ++ r1 ∧ Eol r1 ∧ (cl ≠ .loose → n = 0) := by
  obtain ⟨n, r1, rfl, hn, h⟩ := h
  refine ⟨n, r1, rfl, ?_, hn⟩
  rcases h with ⟨rfl, -⟩ | ⟨nl, bl, q, cs, z, rfl, hb, -⟩
  · exact .inl rfl
  · exact hb.eol _

theorem Follow.tails {hold : Holder} {cl : Closing} {b : Nat} {next : LineKind} {s : Nat} {r : Str} (h : Follow T hold cl b next s r) : Tails r := by
  obtain ⟨n, r1, rfl, h, -⟩ := h.line
  exact h.tails n

theorem Follow.no_comment {hold : Holder} {cl : Closing} {b : Nat} {next : LineKind} {s : Nat} {r : Str} (h : Follow T hold cl b next s r) (k) :
    Reads T (.opt (.rule .comment)) r k [] r k := by
  obtain ⟨n, r1, rfl, h, -⟩ := h.line
  exact .optNone (not_comment h.notSp h.noHash k)

theorem Follow.no_comments {hold : Holder} {cl : Closing} {b : Nat} {next : LineKind} {s : Nat} {r : Str} (h : Follow T hold cl b next s r) (k) :
    Reads T (.rule .commentnls) r k [(.commentnls, .strs [])] r k := by
  obtain ⟨n, r1, rfl, h, -⟩ := h.line
  exact reads_commentnls_nil h.notSp h.noHash k

theorem Follow.scalarEnd {hold : Holder} {cl : Closing} {b : Nat} {next : LineKind} {s : Nat} {r : Str} (h : Follow T hold cl b next s r) : ScalarEnd b cl r := by
  intro ht
  obtain ⟨n, r1, rfl, hn, h⟩ := h
  have hn := hn (by rcases ht with rfl | rfl <;> simp)
  subst hn
  rcases h with ⟨rfl, hc⟩ | ⟨nl, bl, q, cs, z, rfl, h2, h3, h4, h5, h6, h7, h8⟩
  · exact ⟨.inl rfl, fun hb => absurd hb hc⟩
  · obtain ⟨rfl, m, y, rfl, hm, hy⟩ := h7 ht
    refine ⟨.inr ⟨nl, m, y, rfl, h2, hm, hy⟩, fun _ => ?_⟩
    rcases h2 with rfl | rfl <;> simp [indent]

/-- Skipping the rest of the line, blank lines and comments. -/
theorem Follow.skip {hold : Holder} {cl : Closing} {b : Nat} {next : LineKind} {s : Nat} {r : Str} (h : Follow T hold cl b next s r) :
    (∃ n, r = indent n) ∨ ∃ q cs z, FullLine q ∧ (∀ K, Reads T (.rule .blank) r K [] q K) ∧ (∀ K, Reads T (.rule .blanknl) r K [] q K) ∧
      (∀ K, Reads T (.rule .commentnls) q K [(.commentnls, .strs cs)] z K) ∧ (q = z ∨ ∃ m y, q = indent m ++ '#' :: y) ∧ Onward T hold b next s z := by
  obtain ⟨n, r1, rfl, -, h⟩ := h
  rcases h with ⟨rfl, -⟩ | ⟨nl, bl, q, cs, z, rfl, h2, h3, h4, h5, h6, -, h8⟩
  · exact .inl ⟨n, by simp⟩
  · exact .inr ⟨q, cs, z, h4, reads_blank_lines h2 h3 h4, reads_blanknl_lines h2 h3 h4, h5, h6, h8⟩

theorem not_blanknl_sps (n : Nat) (k) : Not T (.rule .blanknl) (indent n) k := not_blanknl_full (fullLine_indent n) k

theorem blank_sps (n : Nat) (k) : Reads T (.rule .blank) (indent n) k [] (indent n) k := blank_none_full (fullLine_indent n) k

theorem commentnls_sps (n : Nat) (k) : Reads T (.rule .commentnls) (indent n) k [(.commentnls, .strs [])] (indent n) k := by
  have := reads_commentnls_nil (T := T) (n := n) (r := []) bare_nil.notSp (by simp) k
  simpa using this

/-- The indentation is there, or it is not. -/
theorem peek_indent (e c : Nat) (r : Str) (hr : NotSp r) (k) :
    (e < c ∧ Not T .peek (indent e ++ r) (indent c :: k)) ∨
      c ≤ e ∧ Reads T .peek (indent e ++ r) (indent c :: k) [] (indent (e - c) ++ r) (indent c :: k) := by
  by_cases h : e < c
  · refine .inl ⟨h, no_peek.2 ⟨_, _, rfl, ?_⟩⟩
    rintro ⟨y, hy⟩
    exact indent_no_prefix h hr hy
  · refine .inr ⟨by omega, ?_⟩
    have h1 := Reads.peek (T := T) (indent c) (indent (e - c) ++ r) k
    rw [← List.append_assoc, ← indent_add] at h1
    have : c + (e - c) = e := by omega
    rwa [this] at h1

theorem not_name_indent (n : Nat) : NotName T (indent n) := by
  cases n with
  | zero => exact notName_nil
  | succ n => simpa [indent_succ] using notName_sp (T := T) (indent n)

theorem not_dash_indent (n : Nat) : (indent n).head? ≠ some '-' := by
  cases n with
  | zero => simp [indent]
  | succ n => simp [indent_succ]

/-- No key at the column `c`. -/
theorem Onward.no_key {hold : Holder} {b : Nat} {next : LineKind} {s c : Nat} {z : Str} (h : Onward T hold b next s z) (hb : b < c ∨ ∀ m, next ≠ .key m) (e : Expr Rule) (k) :
    Not T (.seq .peek (.seq (.rule .hash_element) e)) z (indent c :: k) := by
  rcases h with ⟨m, rfl⟩ | ⟨n, x, tail, rfl, hn⟩
  · rcases peek_indent (T := T) m c [] bare_nil.notSp k with ⟨-, h⟩ | ⟨-, h⟩
    · rw [List.append_nil] at h; exact .seqL h
    · rw [List.append_nil, List.append_nil] at h
      exact .seqR h (.seqL (not_hash_element_head (not_name_indent _) _))
  · rcases peek_indent (T := T) n c (x :: tail) hn.bare.notSp k with ⟨-, h⟩ | ⟨hc, h⟩
    · exact .seqL h
    · refine .seqR h (.seqL (not_hash_element_head ?_ _))
      have hnk : ∀ m, next ≠ .key m := hb.resolve_left (by have := hn.le; omega)
      cases n - c with
      | zero => simpa [NotName, indent] using hn.key hnk
      | succ m => exact notName_sps m _

/-- No dash at the column `c`. -/
theorem Onward.no_dash {hold : Holder} {b : Nat} {next : LineKind} {s c : Nat} {z : Str} (h : Onward T hold b next s z)
    (hb : b < c ∨ (hold = .key ∧ s ≤ c) ∨ next ≠ .dash) (e : Expr Rule) (k) :
    Not T (.seq .peek (.seq (.rule .block_array_element) e)) z (indent c :: k) := by
  rcases h with ⟨m, rfl⟩ | ⟨n, x, tail, rfl, hn⟩
  · rcases peek_indent (T := T) m c [] bare_nil.notSp k with ⟨-, h⟩ | ⟨-, h⟩
    · rw [List.append_nil] at h; exact .seqL h
    · rw [List.append_nil, List.append_nil] at h
      exact .seqR h (.seqL (not_element_head (not_dash_indent _) _))
  · rcases peek_indent (T := T) n c (x :: tail) hn.bare.notSp k with ⟨-, h⟩ | ⟨hc, h⟩
    · exact .seqL h
    · refine .seqR h (.seqL (not_element_head ?_ _))
      cases hm : n - c with
      | zero =>
        simp only [indent, List.replicate_zero, List.nil_append, List.head?_cons, ne_eq, Option.some.injEq]
        rcases hb with hb | ⟨hb, hs⟩ | hb
        · have := hn.le; omega
        · intro hx
          have := hn.dashLt hb hx
          omega
        · exact hn.dash hb
      | succ m => simp [indent_succ]

/-- No further entry of a mapping at `c`. -/
theorem Follow.not_hash_data {hold : Holder} {cl : Closing} {b : Nat} {next : LineKind} {s c : Nat} {r : Str} (h : Follow T hold cl b next s r)
    (hb : b < c ∨ ∀ m, next ≠ .key m) (k) : Not T (.rule .hash_element_data) r (indent c :: k) := by
  rcases h.skip with ⟨n, rfl⟩ | ⟨q, cs, z, -, -, h1, h2, -, h3⟩
  · exact .rule (.seqL (not_blanknl_sps n _))
  · exact .rule (.seqR (h1 _) (.seqR (h2 _) (h3.no_key hb _ k)))

theorem onward_end (hold : Holder) (b : Nat) (next : LineKind) (s n : Nat) : Onward T hold b next s (indent n) := .inl ⟨n, rfl⟩

/-- No further element of a sequence at `c`. -/
theorem Follow.not_array_data {hold : Holder} {cl : Closing} {b : Nat} {next : LineKind} {s c : Nat} {r : Str} (h : Follow T hold cl b next s r)
    (hb : b < c ∨ (hold = .key ∧ s ≤ c) ∨ next ≠ .dash) {q : Rule} (hq : q = .blank ∨ q = .blanknl) (k) :
    Not T (.seq (.rule q) (.rule .block_array_data)) r (indent c :: k) := by
  rcases h.skip with ⟨n, rfl⟩ | ⟨q', cs, z, -, h0, h1, h2, -, h3⟩
  · rcases hq with rfl | rfl
    · refine .seqR (blank_sps n _) (.rule (.seqR (commentnls_sps n _) ((onward_end (T := T) hold b next s n).no_dash hb _ k)))
    · exact .seqL (not_blanknl_sps n _)
  · rcases hq with rfl | rfl
    · exact .seqR (h0 _) (.rule (.seqR (h2 _) (h3.no_dash hb _ k)))
    · exact .seqR (h1 _) (.rule (.seqR (h2 _) (h3.no_dash hb _ k)))

theorem reads_deeper {t d : Nat} {r : Str} (hr : NotSp r) (k) :
    Reads T (.and (.seq .peek (.plus Rule.SP))) (indent (t + (d + 1)) ++ r) (indent t :: k) [] (indent (t + (d + 1)) ++ r) (indent t :: k) := by
  have h1 := Reads.peek (T := T) (indent t) (indent (d + 1) ++ r) k
  have h2 : Reads T (.plus Rule.SP) (indent (d + 1) ++ r) (indent t :: k) [] r (indent t :: k) := reads_sps1 hr _
  rw [← List.append_assoc, ← indent_add] at h1
  exact .and (.seq h1 h2)

/-- A line is not deeper, or it is. -/
theorem deeper {n t : Nat} {r : Str} (hr : NotSp r) (k) :
    (n ≤ t ∧ Not T (.and (.seq .peek (.plus Rule.SP))) (indent n ++ r) (indent t :: k)) ∨
      t < n ∧ Reads T (.and (.seq .peek (.plus Rule.SP))) (indent n ++ r) (indent t :: k) [] (indent n ++ r) (indent t :: k) := by
  by_cases h : n ≤ t
  · refine .inl ⟨h, .and ?_⟩
    rcases peek_indent (T := T) n t r hr k with ⟨-, h⟩ | ⟨h', h2⟩
    · exact .seqL h
    · have : n - t = 0 := by omega
      rw [this] at h2
      exact .seqR h2 (not_sp1 hr _)
  · obtain ⟨d, rfl⟩ : ∃ d, n = t + (d + 1) := ⟨n - t - 1, by omega⟩
    exact .inr ⟨by omega, reads_deeper hr k⟩

/-- A mapping does not go on after its first entry. -/
theorem Follow.not_continuation {hold : Holder} {cl : Closing} {b : Nat} {next : LineKind} {s u : Nat} {r : Str} (h : Follow T hold cl b next s r)
    (hb : b ≤ u ∨ ∀ m, next = .key m → m = 0) (k) : Not T (.rule .alternative_hash_continuation) r (indent u :: k) := by
  rcases h.skip with ⟨n, rfl⟩ | ⟨q, cs, z, -, -, h1, h2, -, h3⟩
  · exact .rule (.seqL (not_blanknl_sps n _))
  · refine .rule (.seqR (h1 _) (.seqR (h2 _) ?_))
    rcases h3 with ⟨m, rfl⟩ | ⟨n, x, tail, rfl, hn⟩
    · rcases deeper (T := T) (n := m) (t := u) (r := []) bare_nil.notSp k with ⟨-, h⟩ | ⟨-, h⟩
      · rw [List.append_nil] at h; exact .seqL h
      · have hsp := reads_sps (T := T) (n := m) (r := []) bare_nil.notSp (indent u :: k)
        rw [List.append_nil] at h hsp
        have hsp : Reads T (.star Rule.SP) (indent m ++ []) (indent u :: k) [] [] (indent u :: k) := by simpa using hsp
        have := Not.seqR (b := .seq (.push (.star Rule.SP)) (.seq (.rule .first_hash_element) (.seq (.star (.rule .hash_element_data)) .drop))) h
          (.seqR (by simpa using Reads.push hsp) (.seqL (not_first_hash_element (not_hash_element_head notName_nil _))))
        exact this
    · rcases deeper (T := T) (n := n) (t := u) (r := x :: tail) hn.bare.notSp k with ⟨-, h⟩ | ⟨hlt, h⟩
      · exact .seqL h
      · have hx : ¬ NameChar T x := hn.key fun m hm => by
          have h1 := hn.keyAt m hm
          have h2 := hb.resolve_left (by have := hn.le; omega) m hm
          omega
        exact .seqR h (.seqR (.push (reads_sps hn.bare.notSp _)) (.seqL (not_first_hash_element
          (not_hash_element_head (by simpa [NotName] using hx) _))))

/-- The rest of the rule for a sequence on the line of its dash. -/
theorem Follow.not_second {hold : Holder} {cl : Closing} {b : Nat} {next : LineKind} {s : Nat} {r : Str} (h : Follow T hold cl b next s r)
    (hb : next ≠ .dash ∨ hold = .key ∧ s = 0) (e : Expr Rule) (k) :
    Not T (.seq (.rule .blanknl) (.seq (.push (.star Rule.SP)) (.seq (.rule .first_block_array_element) e))) r k := by
  rcases h.skip with ⟨n, rfl⟩ | ⟨q, cs, z, -, -, h1, h2, hqz, h3⟩
  · exact .seqL (not_blanknl_sps n _)
  · refine .seqR (h1 _) ?_
    rcases hqz with rfl | ⟨m, y, rfl⟩
    · rcases h3 with ⟨m, rfl⟩ | ⟨n, x, tail, rfl, hn⟩
      · have hsp : Reads T (.star Rule.SP) (indent m ++ []) k [] [] k := reads_sps bare_nil.notSp _
        exact .seqR (by simpa using Reads.push hsp) (.seqL (not_first_element (not_element_head (by simp) _)))
      · refine .seqR (.push (reads_sps hn.bare.notSp _)) (.seqL (not_first_element (not_element_head ?_ _)))
        simp only [List.head?_cons, ne_eq, Option.some.injEq]
        rcases hb with hb | ⟨hb, rfl⟩
        · exact hn.dash hb
        · intro hx
          have := hn.dashLt hb hx
          omega
    · exact .seqR (.push (reads_sps (by simp [NotSp]; decide) _)) (.seqL (not_first_element (not_element_head (by simp) _)))

/-! ## gaps between items -/

/-- The text between two items. -/
theorem _root_.YamlSubset.Spec.Gap.shape {cl : Closing} {c : Nat} {cs : List Str} {g : Str} (h : Gap cl c cs g) (Z : Str) :
    ∃ n nl b x, g ++ Z = indent n ++ (nl ++ (b ++ (x ++ Z))) ∧ Break nl ∧ Blanks b ∧ CommentLines cs x ∧ (cl ≠ .loose → n = 0) ∧
      (cl.tight → b = [] ∧ ∀ m y, x = pad m ++ '#' :: y → m ≤ c) := by
  obtain ⟨hn, hb, h, hcl, ht⟩ := h
  exact ⟨_, _, _, _, by simp [pad_eq], hn, hb, h, hcl, ht⟩

/-- A gap and the next item follow a value. -/
theorem _root_.YamlSubset.Spec.Gap.follow {cl : Closing} {c : Nat} {cs : List Str} {g : Str} (h : Gap cl c cs g) {hold : Holder} {next : LineKind} {x : Char} {tail : Str}
    (hx : Bare (x :: tail)) (hd : next ≠ .dash → x ≠ '-') (hk : (∀ m, next ≠ .key m) → ¬ NameChar T x) (hm : ∀ m, next = .key m → c ≤ m) (hh : hold = .key → x ≠ '-') :
    Follow T hold cl c next c (g ++ (indent c ++ x :: tail)) := by
  obtain ⟨n, nl, b, y, he, hn, hb, hc, hcl, ht⟩ := h.shape (indent c ++ x :: tail)
  rw [he]
  refine ⟨n, _, rfl, hcl, .inr ⟨nl, b, _, cs, _, rfl, hn, hb, hc.full ⟨c, _, rfl, hx.black⟩, fun K => hc.reads hx K, ?_, fun h => ?_, ?_⟩⟩
  · rcases hc.shape (indent c ++ x :: tail) with ⟨-, rfl⟩ | ⟨-, m, z, -, hz⟩
    · exact .inl rfl
    · exact .inr ⟨m, _, hz⟩
  · obtain ⟨h1, h2⟩ := ht h
    refine ⟨h1, ?_⟩
    rcases hc.shape (indent c ++ x :: tail) with ⟨-, rfl⟩ | ⟨-, m, z, hz, hz'⟩
    · exact ⟨c, x :: tail, rfl, Nat.le_refl _, hx.black⟩
    · exact ⟨m, _, hz', h2 m z hz, by simp [Black]; decide⟩
  · exact .inr ⟨c, x, tail, rfl, Nat.le_refl _, hx, hd, hk, hm, fun h h' => absurd h' (hh h)⟩

/-- Skipping a gap. -/
theorem _root_.YamlSubset.Spec.Gap.skip {cl : Closing} {c : Nat} {cs : List Str} {g : Str} (h : Gap cl c cs g) {m : Nat} {y r' : Str} (hy : Bare y)
    (ht : Trim (g ++ (indent m ++ y)) r') : ∃ q, (∀ K, Reads T (.rule .blank) r' K [] q K) ∧ (∀ K, Reads T (.rule .blanknl) r' K [] q K) ∧
      (∀ K, Reads T (.rule .commentnls) q K [(.commentnls, .strs cs)] (indent m ++ y) K) ∧ (cs = [] → q = indent m ++ y) ∧
      (cs ≠ [] → ∃ j z, q = indent j ++ '#' :: z) := by
  obtain ⟨n, nl, b, x, he, hn, hb, hc, -, -⟩ := h.shape (indent m ++ y)
  rw [he] at ht
  obtain ⟨j, -, rfl⟩ := ht.split (hn.notSp _)
  have hf : FullLine (x ++ (indent m ++ y)) := hc.full ⟨m, y, rfl, hy.black⟩
  refine ⟨x ++ (indent m ++ y), reads_blank_lines hn hb hf, reads_blanknl_lines hn hb hf, fun K => hc.reads hy K, ?_, ?_⟩
  · rcases hc.shape (indent m ++ y) with ⟨-, rfl⟩ | ⟨h, -⟩
    · exact fun _ => rfl
    · exact fun h' => absurd h' h
  · rcases hc.shape (indent m ++ y) with ⟨h, -⟩ | ⟨-, m, z, -, hz⟩
    · exact fun h' => absurd h h'
    · exact fun _ => ⟨m, _, hz⟩

end YamlSubset.Lay
