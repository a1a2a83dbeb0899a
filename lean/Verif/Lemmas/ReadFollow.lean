import Verif.Lemmas.ReadBlockScalar

/-! # What comes after a value, and where the parser stops -/

namespace YamlSubset

open Peg Spec

variable {T : CharTables}

/-- The next line that is not a comment. -/
structure NextLine (T : CharTables) (deep : Bool) (next : Next) (s t n : Nat) (x : Char) (tail : Str) : Prop where
  lt : n < s
  le : deep = false → n ≤ t
  bare : Bare (x :: tail)
  dash : next ≠ .dash → x ≠ '-'
  key : next ≠ .key → ¬ NameChar T x

/-- The text after a value that is indented by `s`, in a collection that is indented by `t`: comment lines, then the end
of the text or a line of an outer collection. -/
def Follow (T : CharTables) (deep : Bool) (next : Next) (s t : Nat) (r : Str) : Prop :=
  ∃ m cs r', r = lines m cs ++ r' ∧ (∀ c ∈ cs, LineText c) ∧ (cs ≠ [] → m < s ∧ (deep = false → m ≤ t)) ∧
    (r' = [] ∨ ∃ n x tail, r' = '\n' :: (indent n ++ x :: tail) ∧ NextLine T deep next s t n x tail)

theorem lines_append (m : Nat) (a b : List Str) : lines m (a ++ b) = lines m a ++ lines m b := by simp [lines]

theorem lines_snoc (m : Nat) (cs : List Str) (c : Str) : lines m (cs ++ [c]) = '\n' :: (linesNl m cs ++ (indent m ++ '#' :: c)) := by
  rw [lines_append, ← lines_nl]
  simp [lines]

theorem Follow.mono {deep deep' : Bool} {next : Next} {s s' t t' : Nat} {r : Str} (h : Follow T deep next s t r) (hs : s ≤ s')
    (hd : deep' = false → deep = false ∧ t ≤ t') : Follow T deep' next s' t' r := by
  obtain ⟨m, cs, r', he, hcs, hm, hr⟩ := h
  refine ⟨m, cs, r', he, hcs, fun h => ⟨by have := (hm h).1; omega, fun hf => by have := (hm h).2 (hd hf).1; have := (hd hf).2; omega⟩, ?_⟩
  rcases hr with hr | ⟨n, x, tail, hr, hn⟩
  · exact .inl hr
  · exact .inr ⟨n, x, tail, hr, by have := hn.lt; omega, fun hf => by have := hn.le (hd hf).1; have := (hd hf).2; omega, hn.bare, hn.dash, hn.key⟩

/-- What follows a collection follows its last value. -/
theorem Follow.inner {deep : Bool} {next : Next} {s t : Nat} {r : Str} (h : Follow T deep next s t r) : Follow T false next (s + 2) s r := by
  obtain ⟨m, cs, r', he, hcs, hm, hr⟩ := h
  refine ⟨m, cs, r', he, hcs, fun h => ⟨by have := (hm h).1; omega, fun _ => by have := (hm h).1; omega⟩, ?_⟩
  rcases hr with hr | ⟨n, x, tail, hr, hn⟩
  · exact .inl hr
  · exact .inr ⟨n, x, tail, hr, by have := hn.lt; omega, fun _ => by have := hn.lt; omega, hn.bare, hn.dash, hn.key⟩

theorem Follow.lineEnd {deep : Bool} {next : Next} {s t : Nat} {r : Str} (h : Follow T deep next s t r) : LineEnd r := by
  obtain ⟨m, cs, r', rfl, -, -, hr⟩ := h
  apply lines_lineEnd
  rcases hr with rfl | ⟨n, x, tail, rfl, -⟩
  · exact .inl rfl
  · exact .inr rfl

theorem Follow.shallow {next : Next} {s t : Nat} {r : Str} (h : Follow T false next s t r) : Shallow t r := by
  obtain ⟨m, cs, r', rfl, -, hm, hr⟩ := h
  cases cs with
  | nil =>
    rcases hr with rfl | ⟨n, x, tail, rfl, hn⟩
    · exact .inl rfl
    · exact .inr ⟨n, x :: tail, rfl, hn.le rfl, hn.bare.black⟩
  | cons c cs =>
    refine .inr ⟨m, '#' :: (c ++ (lines m cs ++ r')), by simp [lines], (hm (by simp)).2 rfl, by simp [Black]; decide⟩

/-- Skipping the line break and the comment lines. -/
theorem Follow.skip {deep : Bool} {next : Next} {s t : Nat} {r : Str} (h : Follow T deep next s t r) :
    r = [] ∨ ∃ q cs z, r = '\n' :: q ∧ FullLine q ∧ (∀ K, Reads T (.rule .commentnls) q K [(.commentnls, .strs cs)] z K) ∧
      (q = z ∨ ∃ m y, q = indent m ++ '#' :: y) ∧
      (z = [] ∨ ∃ n x tail, z = indent n ++ x :: tail ∧ NextLine T deep next s t n x tail) := by
  obtain ⟨m, cs, r', rfl, hcs, hm, hr⟩ := h
  rcases hr with rfl | ⟨n, x, tail, rfl, hn⟩
  · rcases List.eq_nil_or_concat cs with rfl | ⟨cs, c, rfl⟩
    · exact .inl rfl
    · rw [List.concat_eq_append] at hcs
      refine .inr ⟨linesNl m cs ++ (indent m ++ '#' :: c), cs ++ [c], [], ?_, ?_, ?_, ?_, .inl rfl⟩
      · rw [List.append_nil, List.concat_eq_append, lines_snoc]
      · exact FullLine.linesNl ⟨m, '#' :: c, rfl, by simp [Black]; decide⟩
      · exact fun K => reads_commentnls_end (fun d hd => hcs d (by simp [hd])) (hcs c (by simp)) K
      · cases cs with
        | nil => exact .inr ⟨m, c, rfl⟩
        | cons d cs => exact .inr ⟨m, d ++ ['\n'] ++ linesNl m cs ++ (indent m ++ '#' :: c), by simp [linesNl]⟩
  · refine .inr ⟨linesNl m cs ++ (indent n ++ x :: tail), cs, indent n ++ x :: tail, lines_nl m cs _, ?_, ?_, ?_, .inr ⟨n, x, tail, rfl, hn⟩⟩
    · exact FullLine.linesNl ⟨n, x :: tail, rfl, hn.bare.black⟩
    · exact fun K => reads_commentnls hcs hn.bare K
    · cases cs with
      | nil => exact .inl rfl
      | cons d cs => exact .inr ⟨m, d ++ ['\n'] ++ linesNl m cs ++ (indent n ++ x :: tail), by simp [linesNl]⟩

theorem not_peek {n s : Nat} {x : Char} {tail : Str} (h : n < s) (hb : Bare (x :: tail)) (k) :
    Not T .peek (indent n ++ x :: tail) (indent s :: k) := by
  refine no_peek.2 ⟨_, _, rfl, ?_⟩
  rintro ⟨y, hy⟩
  exact indent_no_prefix h hb.notSp hy

theorem not_peek_nil {s : Nat} (h : 0 < s) (k) : Not T .peek [] (indent s :: k) := by
  refine no_peek.2 ⟨_, _, rfl, ?_⟩
  rintro ⟨y, hy⟩
  obtain ⟨s, rfl⟩ : ∃ s', s = s' + 1 := ⟨s - 1, by omega⟩
  simp [indent_succ] at hy

theorem not_blanknl_nil (k) : Not T (.rule .blanknl) [] k := not_blanknl (n := 0) bare_nil.black k

theorem notName_nil : NotName T [] := by simp [NotName]

/-- No further entry of a mapping at `s`. -/
theorem Follow.not_hash_data {deep : Bool} {next : Next} {s t : Nat} {r : Str} (h : Follow T deep next s t r) (hs : 0 < s) (k) :
    Not T (.rule .hash_element_data) r (indent s :: k) := by
  rcases h.skip with rfl | ⟨q, cs, z, rfl, hq, hc, -, hz⟩
  · exact .rule (.seqL (not_blanknl_nil _))
  · refine .rule (.seqR (hq.blanknl _) (.seqR (hc _) (.seqL ?_)))
    rcases hz with rfl | ⟨n, x, tail, rfl, hn⟩
    · exact not_peek_nil hs k
    · exact not_peek hn.lt hn.bare k

/-- No further element of a sequence at `s`. -/
theorem Follow.not_array_data {deep : Bool} {next : Next} {s t : Nat} {r : Str} (h : Follow T deep next s t r) (hs : 0 < s) (k) :
    Not T (.seq (.rule .blank) (.rule .block_array_data)) r (indent s :: k) := by
  rcases h.skip with rfl | ⟨q, cs, z, rfl, hq, hc, -, hz⟩
  · exact .seqR (reads_blank_none (n := 0) bare_nil.black _) (.rule (.seqR (reads_commentnls_nil (n := 0) bare_nil.notSp (by simp) _)
      (.seqL (not_peek_nil hs k))))
  · refine .seqR (hq.blank _) (.rule (.seqR (hc _) (.seqL ?_)))
    rcases hz with rfl | ⟨n, x, tail, rfl, hn⟩
    · exact not_peek_nil hs k
    · exact not_peek hn.lt hn.bare k

theorem Follow.not_array_data' {deep : Bool} {next : Next} {s t : Nat} {r : Str} (h : Follow T deep next s t r) (hs : 0 < s) (k) :
    Not T (.seq (.rule .blanknl) (.rule .block_array_data)) r (indent s :: k) := by
  rcases h.skip with rfl | ⟨q, cs, z, rfl, hq, hc, -, hz⟩
  · exact .seqL (not_blanknl_nil _)
  · refine .seqR (hq.blanknl _) (.rule (.seqR (hc _) (.seqL ?_)))
    rcases hz with rfl | ⟨n, x, tail, rfl, hn⟩
    · exact not_peek_nil hs k
    · exact not_peek hn.lt hn.bare k

/-- No further element after the only element of a sequence whose dash is on the line of the outer dash. -/
theorem Follow.not_array_data_zero {deep : Bool} {next : Next} {s t : Nat} {r : Str} (h : Follow T deep next s t r) (hd : next ≠ .dash) (k) :
    Not T (.seq (.rule .blank) (.rule .block_array_data)) r (indent 0 :: k) := by
  rcases h.skip with rfl | ⟨q, cs, z, rfl, hq, hc, -, hz⟩
  · exact .seqR (reads_blank_none (n := 0) bare_nil.black _) (.rule (.seqR (reads_commentnls_nil (n := 0) bare_nil.notSp (by simp) _)
      (.seqR (.peek [] [] k) (.seqL (not_element_head (by simp) _)))))
  · refine .seqR (hq.blank _) (.rule (.seqR (hc _) (.seqR (.peek [] z k) (.seqL (not_element_head ?_ _)))))
    rcases hz with rfl | ⟨n, x, tail, rfl, hn⟩
    · simp
    · cases n with
      | zero => simpa [indent] using hn.dash hd
      | succ n => simp [indent_succ]

theorem Follow.not_array_data_zero' {deep : Bool} {next : Next} {s t : Nat} {r : Str} (h : Follow T deep next s t r) (hd : next ≠ .dash) (k) :
    Not T (.seq (.rule .blanknl) (.rule .block_array_data)) r (indent 0 :: k) := by
  rcases h.skip with rfl | ⟨q, cs, z, rfl, hq, hc, -, hz⟩
  · exact .seqL (not_blanknl_nil _)
  · refine .seqR (hq.blanknl _) (.rule (.seqR (hc _) (.seqR (.peek [] z k) (.seqL (not_element_head ?_ _)))))
    rcases hz with rfl | ⟨n, x, tail, rfl, hn⟩
    · simp
    · cases n with
      | zero => simpa [indent] using hn.dash hd
      | succ n => simp [indent_succ]

/-- A mapping does not go on after its first entry. -/
theorem Follow.not_continuation {deep : Bool} {next : Next} {s t : Nat} {r : Str} (h : Follow T deep next s t r)
    (hsteal : ¬ (deep = true ∧ next = .key)) (k) : Not T (.rule .alternative_hash_continuation) r (indent t :: k) := by
  rcases h.skip with rfl | ⟨q, cs, z, rfl, hq, hc, -, hz⟩
  · exact .rule (.seqL (not_blanknl_nil _))
  · refine .rule (.seqR (hq.blanknl _) (.seqR (hc _) ?_))
    rcases hz with rfl | ⟨n, x, tail, rfl, hn⟩
    · refine .seqL (.and ?_)
      cases t with
      | zero => exact .seqR (.peek [] [] k) (not_sp1 bare_nil.notSp _)
      | succ t => exact .seqL (not_peek_nil (by omega) k)
    · by_cases hlt : n < t
      · exact .seqL (.and (.seqL (not_peek hlt hn.bare k)))
      · by_cases hnt : n = t
        · subst hnt
          exact .seqL (.and (.seqR (.peek (indent n) _ k) (not_sp1 hn.bare.notSp _)))
        · have hx : ¬ NameChar T x := by
            apply hn.key
            rintro rfl
            apply hsteal
            refine ⟨?_, rfl⟩
            cases deep with
            | true => rfl
            | false => have := hn.le rfl; omega
          obtain ⟨d, rfl⟩ : ∃ d, n = t + (d + 1) := ⟨n - t - 1, by omega⟩
          have hpk : Reads T (.and (.seq .peek (.plus Rule.SP))) (indent (t + (d + 1)) ++ x :: tail) (indent t :: k) []
              (indent (t + (d + 1)) ++ x :: tail) (indent t :: k) := by
            have h1 := Reads.peek (T := T) (indent t) (indent (d + 1) ++ x :: tail) k
            have h2 : Reads T (.plus Rule.SP) (indent (d + 1) ++ x :: tail) (indent t :: k) [] (x :: tail) (indent t :: k) :=
              single_sp.plus (by simp [indent_succ]) (indent_sp _) (fun c hc => by simp [hn.bare.notSp c hc]) _
            rw [← List.append_assoc, ← indent_add] at h1
            exact .and (.seq h1 h2)
          exact .seqR hpk (.seqR (.push (reads_sps hn.bare.notSp _)) (.seqL (not_first_hash_element
            (not_hash_element_head (by simpa [NotName] using hx) _))))

/-- A sequence does not go on after its first element. -/
theorem Follow.not_second {deep : Bool} {next : Next} {s t : Nat} {r : Str} (h : Follow T deep next s t r) (hd : next ≠ .dash) (e : Expr Rule) (k) :
    Not T (.seq (.rule .blanknl) (.seq (.push (.star Rule.SP)) (.seq (.rule .first_block_array_element) e))) r k := by
  rcases h.skip with rfl | ⟨q, cs, z, rfl, hq, hc, hqz, hz⟩
  · exact .seqL (not_blanknl_nil _)
  · refine .seqR (hq.blanknl _) ?_
    rcases hqz with rfl | ⟨m, y, rfl⟩
    · rcases hz with rfl | ⟨n, x, tail, rfl, hn⟩
      · exact .seqR (.push (t := []) (reads_sps_nil bare_nil.notSp _)) (.seqL (not_first_element (not_element_head (by simp) _)))
      · exact .seqR (.push (reads_sps hn.bare.notSp _)) (.seqL (not_first_element (not_element_head (by simpa using hn.dash hd) _)))
    · exact .seqR (.push (reads_sps (by simp [NotSp]; decide) _)) (.seqL (not_first_element (not_element_head (by simp) _)))

end YamlSubset
