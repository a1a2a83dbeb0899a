import Verif.Lemmas.LayLines
import Verif.Lemmas.Induct

/-! # Reading flow collections and values on one line in any layout -/

namespace YamlSubset.Lay

open Peg Spec

variable {T : CharTables}

theorem _root_.YamlSubset.Spec.Ws.nil : Ws [] := by simp [Ws]

theorem _root_.YamlSubset.Spec.Ws.tail {c : Char} {w : Str} (h : Ws (c :: w)) : Ws w := fun d hd => h d (by simp [hd])

theorem _root_.YamlSubset.Spec.Ws.append {a b : Str} (ha : Ws a) (hb : Ws b) : Ws (a ++ b) := by
  intro c hc
  rcases List.mem_append.1 hc with hc | hc
  · exact ha c hc
  · exact hb c hc

/-- The next character is not blank. -/
def Dark (r : Str) : Prop := ∀ c, r.head? = some c → c ≠ ' ' ∧ c ≠ '\n' ∧ c ≠ '\r'

/-- The spaces at the start of blanks. -/
theorem _root_.YamlSubset.Spec.Ws.split {w : Str} (h : Ws w) :
    ∃ n w1, w = indent n ++ w1 ∧ Ws w1 ∧ (w1 = [] ∨ w1.head? = some '\n' ∨ w1.head? = some '\r') := by
  induction w with
  | nil => exact ⟨0, [], rfl, Ws.nil, .inl rfl⟩
  | cons c w ih =>
    rcases h c (by simp) with rfl | rfl | rfl
    · obtain ⟨n, w1, rfl, h1, h2⟩ := ih h.tail
      exact ⟨n + 1, w1, by simp [indent, List.replicate_succ], h1, h2⟩
    · exact ⟨0, '\n' :: w, rfl, h, .inr (.inl rfl)⟩
    · exact ⟨0, '\r' :: w, rfl, h, .inr (.inr rfl)⟩

theorem _root_.YamlSubset.Spec.Ws.reads {w : Str} (h : Ws w) {r : Str} (hr : Dark r) (k) : Reads T (.rule .spaces) (w ++ r) k [] r k := by
  refine .silent rfl ?_
  induction hl : w.length using Nat.strongRecOn generalizing w with
  | ind l ih =>
  subst hl
  cases w with
  | nil => exact .starNil (.rule (.alt (.lit fun hc => (hr _ hc).1 rfl) (not_newline fun c hc => (hr c hc).2)))
  | cons c w =>
    have hw := ih w.length (by simp) h.tail rfl
    rcases h c (by simp) with rfl | rfl | rfl
    · exact Reads.star (l₁ := []) (.silent rfl (.altL (.lit ' ' _ k))) hw
    · exact Reads.star (l₁ := []) (.silent rfl (.altR (.lit (by simp)) (reads_newline _ k))) hw
    · by_cases hn : ∃ t, w ++ r = '\n' :: t
      · obtain ⟨t, ht⟩ := hn
        cases w with
        | nil =>
          simp only [List.nil_append] at ht
          exact absurd rfl (hr '\n' (by rw [ht]; rfl)).2.1
        | cons d w =>
          simp only [List.cons_append, List.cons.injEq] at ht
          obtain ⟨rfl, ht⟩ := ht
          have hw' := ih w.length (by simp only [List.length_cons]; omega) h.tail.tail rfl
          refine Reads.star (l₁ := []) (s₁ := w ++ r) (k₁ := k) (.silent rfl (.altR (.lit (by simp)) (.altR (.lit (by simp)) (.altL ?_)))) hw'
          exact Reads.str ['\r', '\n'] (w ++ r) k
      · refine Reads.star (l₁ := []) (s₁ := w ++ r) (k₁ := k) (.silent rfl (.altR (.lit (by simp)) (.altR (.lit (by simp)) (.altR ?_ ?_)))) hw
        · exact no_lit2.2 fun t ht => hn ⟨t, by simpa using ht⟩
        · exact .lit '\r' (w ++ r) k

/-- Punctuation of flow collections. -/
def Punct (p : Str) : Prop := p.head? = some ',' ∨ p.head? = some ']' ∨ p.head? = some '}'

theorem Punct.dark {p : Str} (h : Punct p) : Dark p := by
  intro c hc
  rcases h with h | h | h <;> (rw [h] at hc; cases hc; decide)

theorem Punct.notSp {p : Str} (h : Punct p) : NotSp p := by
  intro c hc
  rcases h with h | h | h <;> (rw [h] at hc; cases hc; decide)

/-- A value in a flow collection is read. -/
def FlowReads (T : CharTables) (y : Yaml) (x : Str) : Prop := ∀ w p k, Ws w → Punct p →
  Dark (x ++ (w ++ p)) ∧ ∃ w', Ws w' ∧ Reads T (.rule .inline_array_value) (x ++ (w ++ p)) k [(.inline_array_value, .yaml y)] (w' ++ p) k

/-- The rest of blanks after the spaces. -/
theorem ws_rest {w1 p : Str} (h : w1 = [] ∨ w1.head? = some '\n' ∨ w1.head? = some '\r') (hp : Punct p) :
    NotSp (w1 ++ p) ∧ ((w1 ++ p).head? = some ',' ∨ (w1 ++ p).head? = some ']' ∨ (w1 ++ p).head? = some '}' ∨
      (w1 ++ p).head? = some '\n' ∨ (w1 ++ p).head? = some '\r') := by
  cases w1 with
  | nil =>
    refine ⟨hp.notSp, ?_⟩
    rcases hp with h | h | h <;> simp [h]
  | cons c w1 =>
    rcases h with h | h | h
    · cases h
    · cases h; exact ⟨by simp [NotSp]; decide, by simp⟩
    · cases h; exact ⟨by simp [NotSp]; decide, by simp⟩

theorem ws_head {w p : Str} (hw : Ws w) (hp : Punct p) {c : Char} (hc : (w ++ p).head? = some c) :
    c ∈ [' ', '\n', '\r', ',', ']', '}'] := by
  cases w with
  | nil => rcases hp with h | h | h <;> (rw [List.nil_append, h] at hc; cases hc; simp)
  | cons d w =>
    cases hc
    rcases hw c (by simp) with rfl | rfl | rfl <;> simp

theorem ws_notName {w p : Str} (hw : Ws w) (hp : Punct p) : NotName T (w ++ p) := by
  intro c hc
  have := ws_head hw hp hc
  simp only [List.mem_cons, List.not_mem_nil, or_false] at this
  rcases this with rfl | rfl | rfl | rfl | rfl | rfl <;> exact not_nameChar (by decide)

theorem ws_noQuote {w p : Str} (hw : Ws w) (hp : Punct p) : (w ++ p).head? ≠ some '\'' := by
  intro hc
  simpa using ws_head hw hp hc

theorem flowReads_plain {s : Str} (h : FlowPlain T s) : FlowReads T (.unquotedString s) s := by
  intro w p k hw hp
  obtain ⟨n, w1, rfl, hw1, hs1⟩ := hw.split
  obtain ⟨c, t, hs⟩ : ∃ c t, s = c :: t := List.exists_cons_of_ne_nil h.nonempty
  have hmem : ∀ d ∈ s ++ indent n, d ∈ s ∨ d = ' ' := by
    intro d hd
    rcases List.mem_append.1 hd with hd | hd
    · exact .inl hd
    · exact .inr (List.eq_of_mem_replicate hd)
  have hp' : Passes T (Rule.body T .unquoted_inline_string) ((s ++ indent n) ++ (w1 ++ p)) k (w1 ++ p) k := by
    refine passes_flowPlain (by simp [h.nonempty]) ?_ ?_ ?_ ?_ (by rw [hs]; simpa [hs] using h.first.2) (ws_rest hs1 hp).2 k
    · apply line_of_not
      intro d hd
      rcases hmem d hd with hd | rfl
      · exact LineText.mem h.line d hd
      · decide
    · exact colonSpace_sps h.noColonSpace h.last.2 n
    · intro d hd
      rcases hmem d hd with hd | rfl
      · exact h.chars d hd
      · decide
    · intro d hd
      rw [hs, List.cons_append, List.tail_cons] at hd
      rcases List.mem_append.1 hd with hd | hd
      · exact h.tail d (by simpa [hs] using hd)
      · rw [List.eq_of_mem_replicate hd]; decide
  have hread := Reads.atomic (q := .unquoted_inline_string) (v := .yaml (.unquotedString s)) rfl hp' (by
    show Out.ok _ = _
    rw [trim_plain h.last.1 n])
  rw [List.append_assoc] at hread
  have hc := h.chars c (by simp [hs])
  have hh : (s ++ (indent n ++ w1 ++ p)).head? = some c := by simp [hs]
  refine ⟨?_, w1, hw1, ?_⟩
  · intro d hd
    rw [hh] at hd
    cases hd
    refine ⟨?_, LineText.mem h.line c (by simp [hs])⟩
    rintro rfl
    exact h.first.1 (by simp [hs])
  · refine reads_flow_string (.rule (not_mark (fun d t he => h.notReference d t he) (ws_notName hw hp) h.nonempty k))
      (not_head_of hh hc (by simp)) (not_head_of hh hc (by simp)) ?_
    rw [List.append_assoc]
    exact .rule rfl (.altL hread) fun _ => rfl

theorem dqPartText_eq (p : DQPart) : dqPartText p = p.format := by
  cases p with
  | escapedChar e => cases e <;> rfl
  | _ => rfl

theorem sqPartText_eq (p : SQPart) : sqPartText p = p.format := by
  cases p with
  | escapedChar e => cases e; rfl
  | _ => rfl

theorem dqText_eq (ps : List DQPart) : ps.flatMap dqPartText = ps.flatMap DQPart.format := by
  congr 1; funext p; exact dqPartText_eq p

theorem sqText_eq (ps : List SQPart) : ps.flatMap sqPartText = ps.flatMap SQPart.format := by
  congr 1; funext p; exact sqPartText_eq p

theorem flowReads_double {ps : List DQPart} (h : DQChain ps) : FlowReads T (.doubleQuotedString ps) ('"' :: (ps.flatMap dqPartText ++ ['"'])) := by
  intro w p k hw hp
  obtain ⟨n, w1, rfl, hw1, hs1⟩ := hw.split
  refine ⟨by simp [Dark], w1, hw1, ?_⟩
  rw [dqText_eq]
  have hx : '"' :: (ps.flatMap DQPart.format ++ ['"']) ++ (indent n ++ w1 ++ p) = '"' :: (ps.flatMap DQPart.format ++ '"' :: (indent n ++ (w1 ++ p))) := by simp
  rw [hx]
  refine reads_flow_string (not_anchor_head (by simp) k) (by simp) (by simp) ?_
  exact .rule rfl (.altR (not_unquoted_inline_head (by simp) _ k) (.altL (reads_double_quoted h rfl (ws_rest hs1 hp).1 k))) fun _ => rfl

theorem flowReads_single {ps : List SQPart} (h : SQChain ps) : FlowReads T (.singleQuotedString ps) ('\'' :: (ps.flatMap sqPartText ++ ['\''])) := by
  intro w p k hw hp
  have hq := ws_noQuote hw hp
  obtain ⟨n, w1, rfl, hw1, hs1⟩ := hw.split
  refine ⟨by simp [Dark], w1, hw1, ?_⟩
  rw [sqText_eq]
  have hx : '\'' :: (ps.flatMap SQPart.format ++ ['\'']) ++ (indent n ++ w1 ++ p) = '\'' :: (ps.flatMap SQPart.format ++ '\'' :: (indent n ++ (w1 ++ p))) := by simp
  rw [hx]
  rw [List.append_assoc] at hq
  refine reads_flow_string (not_anchor_head (by simp) k) (by simp) (by simp) ?_
  exact .rule rfl (.altR (not_unquoted_inline_head (by simp) _ k) (.altR (not_double (by simp) k) (reads_single_quoted h rfl (ws_rest hs1 hp).1 hq k))) fun _ => rfl

theorem flowReads_reference {a : Str} (h : NameText T a) : FlowReads T (.anchor a) ('*' :: a) := by
  intro w p k hw hp
  exact ⟨by simp [Dark], w, hw, .rule rfl (.altL (reads_anchor h (ws_notName hw hp) k)) fun _ => rfl⟩

/-! ## flow sequences -/

theorem reads_flowElements {P : Yaml → Str → Prop} {es : List Yaml} {x : Str} (h : FlowElements P es x) (hP : ∀ y ∈ es, ∀ x, P y x → FlowReads T y x)
    (r : Str) (k) : ∃ v es' q w', es = v :: es' ∧ Ws w' ∧
      Reads T (.seq (.rule .spaces) (.rule .inline_array_value)) (x ++ ']' :: r) k [(.inline_array_value, .yaml v)] q k ∧
      Reads T (.star (.seqs [.rule .spaces, Rule.lit ',', .rule .spaces, .rule .inline_array_value])) q k
        (es'.map fun y => (.inline_array_value, .yaml y)) (w' ++ ']' :: r) k := by
  induction h with
  | @last v w x w' hw h hw' =>
    obtain ⟨hd, w1, hw1, hread⟩ := hP v (by simp) x h w' (']' :: r) k hw' (.inr (.inl rfl))
    refine ⟨v, [], w1 ++ ']' :: r, w1, rfl, hw1, ?_, ?_⟩
    · have := Reads.seq (hw.reads hd k) hread
      simpa using this
    · exact .starNil (.seqR (hw1.reads (by simp [Dark]) k) (.seqL (.lit (by simp))))
  | @more v es w x w' rest hw h hw' hr ih =>
    obtain ⟨v', es', q, w2, rfl, hw2, h1, h2⟩ := ih fun y hy => hP y (by simp [hy])
    obtain ⟨hd, w1, hw1, hread⟩ := hP v (by simp) x h w' (',' :: (rest ++ ']' :: r)) k hw' (.inl rfl)
    refine ⟨v, v' :: es', w1 ++ ',' :: (rest ++ ']' :: r), w2, rfl, hw2, ?_, ?_⟩
    · have := Reads.seq (hw.reads hd k) hread
      simpa using this
    · exact Reads.star (.seq (hw1.reads (by simp [Dark]) k) (.seq (.lit ',' _ k) h1)) h2

theorem reads_array_text {P : Yaml → Str → Prop} {es : List Yaml} {x : Str} (h : FlowElements P es x) (hP : ∀ y ∈ es, ∀ x, P y x → FlowReads T y x)
    (r : Str) (k) : Reads T (.rule .inline_array) ('[' :: (x ++ ']' :: r)) k [(.inline_array, .yaml (.inlineArray es))] r k := by
  refine .rule (l := es.map fun y => (.inline_array_value, .yaml y)) rfl ?_ fun t => act_inline_array t es
  obtain ⟨v, es', q, w', rfl, hw', h1, h2⟩ := reads_flowElements h hP r k
  obtain ⟨ts1, h1, hs1⟩ := h1
  obtain ⟨ts2, h2, hs2⟩ := h2
  obtain ⟨_, _, a1, a2, ha1, ha2, rfl⟩ := yes_seq.1 h1
  have hin : Reads T (.seqs [.rule .spaces, .rule .inline_array_value, .star (.seqs [.rule .spaces, Rule.lit ',', .rule .spaces, .rule .inline_array_value])])
      (x ++ ']' :: r) k ((v :: es').map fun y => (.inline_array_value, .yaml y)) (w' ++ ']' :: r) k := by
    refine ⟨_, yes_seq.2 ⟨_, _, _, _, ha1, yes_seq.2 ⟨_, _, _, _, ha2, h2, rfl⟩, rfl⟩, ?_⟩
    rw [semKids_append, semKids_append, ← List.append_assoc, ← semKids_append, hs1, hs2]
    rfl
  have := Reads.seq (.lit '[' _ k) (.seq (.opt hin) (.seq (hw'.reads (r := ']' :: r) (by simp [Dark]) k) (.lit ']' r k)))
  simp only [List.append_nil, List.nil_append] at this
  exact this

theorem reads_array_empty {w : Str} (hw : Ws w) (r : Str) (k) :
    Reads T (.rule .inline_array) ('[' :: (w ++ ']' :: r)) k [(.inline_array, .yaml (.inlineArray []))] r k := by
  refine .rule (l := []) rfl ?_ fun t => act_inline_array t []
  have h0 := hw.reads (T := T) (r := ']' :: r) (by simp [Dark]) k
  exact .seq (l₂ := []) (.lit '[' _ k) (.seq (l₁ := []) (l₂ := []) (.optNone (.seqR h0 (.seqL (not_array_value_bracket (.inl rfl) r k)))) (.seq h0 (.lit ']' r k)))

/-! ## flow mappings -/

/-- A key with blanks after it. -/
theorem reads_key_ws {s w r : Str} (h : KeyText T s) (hw : Ws w) (k) :
    ∃ w', Ws w' ∧ Reads T (.rule .hash_key) (s ++ (w ++ ':' :: r)) k [(.hash_key, .str s)] (w' ++ ':' :: r) k := by
  obtain ⟨n, w1, rfl, hw1, hs1⟩ := hw.split
  refine ⟨w1, hw1, ?_⟩
  cases s with
  | nil => exact absurd rfl h.nonempty
  | cons c s =>
    have hu : ∀ d ∈ s ++ indent n, KeyChar T d := by
      intro d hd
      rcases List.mem_append.1 hd with hd | hd
      · exact h.chars d (by simp [hd])
      · rw [List.eq_of_mem_replicate hd]; exact .inr (.inr rfl)
    have hv : ∀ d, (w1 ++ ':' :: r).head? = some d → ¬ KeyChar T d := by
      intro d hd
      cases w1 with
      | nil => cases hd; exact not_keyChar (by decide)
      | cons e w1 =>
        cases hd
        rcases hs1 with h | h | h
        · cases h
        · cases h; exact not_keyChar (by decide)
        · cases h; exact not_keyChar (by decide)
    have := reads_key_run (h.first c rfl) hu hv k
    have ht : trimEnd (c :: (s ++ indent n)) = c :: s := by
      obtain ⟨u, hu, hw, hl⟩ := trimEnd_append (c :: (s ++ indent n))
      have h1 : ∀ m, trimEnd (c :: s ++ indent m) = c :: s := by
        intro m
        induction m with
        | zero => simpa [indent] using trimEnd_of_last h.last
        | succ m ih =>
          have : c :: s ++ indent (m + 1) = (c :: s ++ indent m) ++ [' '] := by simp [indent, List.replicate_succ']
          rw [this]
          simp only [trimEnd] at ih ⊢
          rw [List.reverse_append]
          simpa [List.dropWhile, show isWhitespace ' ' = true by decide] using ih
      exact h1 n
    rw [ht] at this
    simpa using this

theorem reads_flow_entry {y : Yaml} {key wk wv x w p : Str} (hk : KeyText T key) (hwk : Ws wk) (hwv : Ws wv) (h : FlowReads T y x) (hw : Ws w) (hp : Punct p) (k) :
    ∃ w', Ws w' ∧ Reads T (.rule .inline_hash_element) (key ++ (wk ++ ':' :: (wv ++ (x ++ (w ++ p))))) k [(.inline_hash_element, .entry key y)] (w' ++ p) k := by
  obtain ⟨hd, w1, hw1, hread⟩ := h w p k hw hp
  obtain ⟨w2, hw2, hkey⟩ := reads_key_ws (r := wv ++ (x ++ (w ++ p))) hk hwk k
  refine ⟨w1, hw1, .rule rfl (.seq hkey (.seq (hw2.reads (by simp [Dark]) k) (.seq (.lit ':' _ k) (.seq (hwv.reads hd k) hread)))) fun _ => rfl⟩

theorem reads_flowEntries {P : Yaml → Str → Prop} {es : List (Str × Yaml)} {x : Str} (h : FlowEntries T P es x)
    (hP : ∀ k y, (k, y) ∈ es → ∀ x, P y x → FlowReads T y x) (r : Str) (k) : ∃ v es' q w', es = v :: es' ∧ Ws w' ∧
      Reads T (.seq (.rule .spaces) (.rule .inline_hash_element)) (x ++ '}' :: r) k [(.inline_hash_element, .entry v.1 v.2)] q k ∧
      Reads T (.star (.seqs [.rule .spaces, Rule.lit ',', .rule .spaces, .rule .inline_hash_element])) q k
        (es'.map fun y => (.inline_hash_element, .entry y.1 y.2)) (w' ++ '}' :: r) k := by
  induction h with
  | @last key v w wk wv x w' hw hk hwk hwv h hw' =>
    obtain ⟨w1, hw1, hread⟩ := reads_flow_entry (p := '}' :: r) hk hwk hwv (hP key v (by simp) x h) hw' (.inr (.inr rfl)) k
    refine ⟨(key, v), [], w1 ++ '}' :: r, w1, rfl, hw1, ?_, ?_⟩
    · have := Reads.seq (hw.reads (hk.spaces _) k) hread
      simpa using this
    · exact .starNil (.seqR (hw1.reads (by simp [Dark]) k) (.seqL (.lit (by simp))))
  | @more key v es w wk wv x w' rest hw hk hwk hwv h hw' hr ih =>
    obtain ⟨v', es', q, w2, rfl, hw2, h1, h2⟩ := ih fun k y hy => hP k y (by simp [hy])
    obtain ⟨w1, hw1, hread⟩ := reads_flow_entry (p := ',' :: (rest ++ '}' :: r)) hk hwk hwv (hP key v (by simp) x h) hw' (.inl rfl) k
    refine ⟨(key, v), v' :: es', w1 ++ ',' :: (rest ++ '}' :: r), w2, rfl, hw2, ?_, ?_⟩
    · have := Reads.seq (hw.reads (hk.spaces _) k) hread
      simpa using this
    · exact Reads.star (.seq (hw1.reads (by simp [Dark]) k) (.seq (.lit ',' _ k) h1)) h2

theorem reads_hash_text {P : Yaml → Str → Prop} {es : List (Str × Yaml)} {x : Str} (h : FlowEntries T P es x)
    (hP : ∀ k y, (k, y) ∈ es → ∀ x, P y x → FlowReads T y x) (r : Str) (k) :
    Reads T (.rule .inline_hash) ('{' :: (x ++ '}' :: r)) k [(.inline_hash, .yaml (.inlineHash es))] r k := by
  refine .rule (l := es.map fun y => (.inline_hash_element, .entry y.1 y.2)) rfl ?_ fun t => act_inline_hash t es
  obtain ⟨v, es', q, w', rfl, hw', h1, h2⟩ := reads_flowEntries h hP r k
  obtain ⟨ts1, h1, hs1⟩ := h1
  obtain ⟨ts2, h2, hs2⟩ := h2
  obtain ⟨_, _, a1, a2, ha1, ha2, rfl⟩ := yes_seq.1 h1
  have hin : Reads T (.seqs [.rule .spaces, .rule .inline_hash_element, .star (.seqs [.rule .spaces, Rule.lit ',', .rule .spaces, .rule .inline_hash_element])])
      (x ++ '}' :: r) k ((v :: es').map fun y => (.inline_hash_element, .entry y.1 y.2)) (w' ++ '}' :: r) k := by
    refine ⟨_, yes_seq.2 ⟨_, _, _, _, ha1, yes_seq.2 ⟨_, _, _, _, ha2, h2, rfl⟩, rfl⟩, ?_⟩
    rw [semKids_append, semKids_append, ← List.append_assoc, ← semKids_append, hs1, hs2]
    rfl
  have := Reads.seq (.lit '{' _ k) (.seq (.opt hin) (.seq (hw'.reads (r := '}' :: r) (by simp [Dark]) k) (.lit '}' r k)))
  simp only [List.append_nil, List.nil_append] at this
  exact this

theorem reads_hash_empty {w : Str} (hw : Ws w) (r : Str) (k) :
    Reads T (.rule .inline_hash) ('{' :: (w ++ '}' :: r)) k [(.inline_hash, .yaml (.inlineHash []))] r k := by
  refine .rule (l := []) rfl ?_ fun t => act_inline_hash t []
  have h0 := hw.reads (T := T) (r := '}' :: r) (by simp [Dark]) k
  exact .seq (l₂ := []) (.lit '{' _ k) (.seq (l₁ := []) (l₂ := []) (.optNone (.seqR h0 (.seqL (.rule (.seqL
    (not_hash_key (by simpa [NotName] using not_nameChar (T := T) (c := '}') (by decide)) k)))))) (.seq h0 (.lit '}' r k)))

/-! ## flow values -/

/-- Every value in a flow collection is read. -/
theorem _root_.YamlSubset.Spec.FlowText.reads {y : Yaml} : ∀ {x : Str}, FlowText T y x → FlowReads T y x := by
  induction y using Yaml.induct with
  | hIH es ih =>
    intro x h w p k hw hp
    refine ⟨by cases h <;> simp [Dark], w, hw, ?_⟩
    cases h with
    | @emptyHash u hu =>
      have := reads_hash_empty (T := T) hu (w ++ p) k
      rw [show '{' :: (u ++ ['}']) ++ (w ++ p) = '{' :: (u ++ '}' :: (w ++ p)) by simp]
      exact .rule rfl (.altR (not_anchor_head (by simp) k) (.altR (not_inline_array (by simp) k) (.altL this))) fun _ => rfl
    | @hash es x h =>
      have := reads_hash_text h (fun k y hm x hx => ih k y hm hx) (w ++ p) k
      rw [show '{' :: (x ++ ['}']) ++ (w ++ p) = '{' :: (x ++ '}' :: (w ++ p)) by simp]
      exact .rule rfl (.altR (not_anchor_head (by simp) k) (.altR (not_inline_array (by simp) k) (.altL this))) fun _ => rfl
  | hIA es ih =>
    intro x h w p k hw hp
    refine ⟨by cases h <;> simp [Dark], w, hw, ?_⟩
    cases h with
    | @emptyArray u hu =>
      have := reads_array_empty (T := T) hu (w ++ p) k
      rw [show '[' :: (u ++ [']']) ++ (w ++ p) = '[' :: (u ++ ']' :: (w ++ p)) by simp]
      exact .rule rfl (.altR (not_anchor_head (by simp) k) (.altL this)) fun _ => rfl
    | @array es x h =>
      have := reads_array_text h (fun y hm x hx => ih y hm hx) (w ++ p) k
      rw [show '[' :: (x ++ [']']) ++ (w ++ p) = '[' :: (x ++ ']' :: (w ++ p)) by simp]
      exact .rule rfl (.altR (not_anchor_head (by simp) k) (.altL this)) fun _ => rfl
  | hH ds ih => intro x h; cases h
  | hA ds ih => intro x h; cases h
  | hS ps => intro x h; cases h with | single h => exact flowReads_single h
  | hD ps => intro x h; cases h with | double h => exact flowReads_double h
  | hU s => intro x h; cases h with | plain h => exact flowReads_plain h
  | hF ls c => intro x h; cases h
  | hL ls c => intro x h; cases h
  | hN a => intro x h; cases h with | reference h => exact flowReads_reference h

theorem _root_.YamlSubset.Spec.FlowText.reads_array {es : List Yaml} {x : Str} (h : FlowText T (.inlineArray es) x) (r : Str) (k) :
    Reads T (.rule .inline_array) (x ++ r) k [(.inline_array, .yaml (.inlineArray es))] r k ∧ x.head? = some '[' := by
  cases h with
  | @emptyArray u hu => exact ⟨by simpa using reads_array_empty (T := T) hu r k, rfl⟩
  | @array es x h => exact ⟨by simpa using reads_array_text h (fun y _ x hx => FlowText.reads hx) r k, rfl⟩

theorem _root_.YamlSubset.Spec.FlowText.reads_hash {es : List (Str × Yaml)} {x : Str} (h : FlowText T (.inlineHash es) x) (r : Str) (k) :
    Reads T (.rule .inline_hash) (x ++ r) k [(.inline_hash, .yaml (.inlineHash es))] r k ∧ x.head? = some '{' := by
  cases h with
  | @emptyHash u hu => exact ⟨by simpa using reads_hash_empty (T := T) hu r k, rfl⟩
  | @hash es x h => exact ⟨by simpa using reads_hash_text h (fun _ y _ x hx => FlowText.reads hx) r k, rfl⟩

end YamlSubset.Lay
