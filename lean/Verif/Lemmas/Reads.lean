import Verif.Lemmas.ParseText
import Verif.Lemmas.De

/-! # Reading a text: success of the grammar together with the values of the trees -/

namespace YamlSubset

open Peg Spec

variable {T : CharTables}

/-- Children that were all consumed. -/
def oks (l : List (Rule × Val)) : Kids := l.map fun x => (x.1, .ok x.2)

@[simp] theorem oks_nil : oks [] = [] := rfl
@[simp] theorem oks_cons (q : Rule) (v : Val) (l) : oks ((q, v) :: l) = (q, .ok v) :: oks l := rfl
theorem oks_append (a b : List (Rule × Val)) : oks (a ++ b) = oks a ++ oks b := by simp [oks]

theorem semKids_append (a b : List (Tree Rule)) : semKids (a ++ b) = semKids a ++ semKids b := by
  induction a with
  | nil => rfl
  | cons t a ih => obtain ⟨r, s, cs⟩ := t; simp [semKids, ih]

/-- `e` matches and leaves `r`; the trees it makes are consumed to `l`. -/
def Reads (T : CharTables) (e : Expr Rule) (s : Str) (k : List Str) (l : List (Rule × Val)) (r : Str) (k' : List Str) : Prop :=
  ∃ ts, Yes (yamlGrammar T) e s k ts r k' ∧ semKids ts = oks l

/-- `e` matches and leaves `r`. -/
def Passes (T : CharTables) (e : Expr Rule) (s : Str) (k : List Str) (r : Str) (k' : List Str) : Prop :=
  ∃ ts, Yes (yamlGrammar T) e s k ts r k'

theorem Reads.passes {e : Expr Rule} {s r : Str} {k k' : List Str} {l : List (Rule × Val)} (h : Reads T e s k l r k') :
    Passes T e s k r k' := by
  obtain ⟨ts, h, -⟩ := h
  exact ⟨ts, h⟩

/-- `e` does not match. -/
abbrev Not (T : CharTables) (e : Expr Rule) (s : Str) (k : List Str) : Prop := No (yamlGrammar T) e s k

namespace Reads

variable {e a b : Expr Rule} {s s₁ r : Str} {k k₁ k' : List Str} {l l₁ l₂ : List (Rule × Val)}

theorem of_yes (h : Yes (yamlGrammar T) e s k [] r k') : Reads T e s k [] r k' := ⟨[], h, rfl⟩

theorem seq (ha : Reads T a s k l₁ s₁ k₁) (hb : Reads T b s₁ k₁ l₂ r k') : Reads T (.seq a b) s k (l₁ ++ l₂) r k' := by
  obtain ⟨ts, h1, h2⟩ := ha
  obtain ⟨us, h3, h4⟩ := hb
  exact ⟨ts ++ us, yes_seq.2 ⟨_, _, _, _, h1, h3, rfl⟩, by rw [semKids_append, h2, h4, oks_append]⟩

theorem altL (h : Reads T a s k l r k') : Reads T (.alt a b) s k l r k' := by
  obtain ⟨ts, h1, h2⟩ := h
  exact ⟨ts, yes_alt.2 (.inl h1), h2⟩

theorem altR (hn : Not T a s k) (h : Reads T b s k l r k') : Reads T (.alt a b) s k l r k' := by
  obtain ⟨ts, h1, h2⟩ := h
  exact ⟨ts, yes_alt.2 (.inr ⟨hn, h1⟩), h2⟩

theorem opt (h : Reads T a s k l r k') : Reads T (.opt a) s k l r k' := by
  obtain ⟨ts, h1, h2⟩ := h
  exact ⟨ts, yes_opt.2 (.inl h1), h2⟩

theorem optNone (h : Not T a s k) : Reads T (.opt a) s k [] s k :=
  ⟨[], yes_opt.2 (.inr ⟨h, rfl, rfl, rfl⟩), rfl⟩

theorem starNil (h : Not T a s k) : Reads T (.star a) s k [] s k :=
  ⟨[], yes_star.2 (.inl ⟨h, rfl, rfl, rfl⟩), rfl⟩

theorem star (ha : Reads T a s k l₁ s₁ k₁) (hb : Reads T (.star a) s₁ k₁ l₂ r k') : Reads T (.star a) s k (l₁ ++ l₂) r k' := by
  obtain ⟨ts, h1, h2⟩ := ha
  obtain ⟨us, h3, h4⟩ := hb
  exact ⟨ts ++ us, yes_star.2 (.inr ⟨_, _, _, _, h1, h3, rfl⟩), by rw [semKids_append, h2, h4, oks_append]⟩

theorem plus (ha : Reads T a s k l₁ s₁ k₁) (hb : Reads T (.star a) s₁ k₁ l₂ r k') : Reads T (.plus a) s k (l₁ ++ l₂) r k' :=
  seq ha hb

theorem str (t r : Str) (k) : Reads T (.str t) (t ++ r) k [] r k := of_yes (yes_str.2 ⟨rfl, rfl, rfl⟩)

theorem lit (c : Char) (r : Str) (k) : Reads T (Rule.lit c) (c :: r) k [] r k := str [c] r k

theorem cls {p : Char → Bool} {c : Char} (h : p c = true) (r : Str) (k) : Reads T (.cls p) (c :: r) k [] r k :=
  of_yes (yes_cls.2 ⟨c, rfl, h, rfl, rfl⟩)

theorem any (c : Char) (r : Str) (k) : Reads T Rule.ANY (c :: r) k [] r k := cls rfl r k

theorem and (h : Reads T a s k l s₁ k₁) : Reads T (.and a) s k [] s k := by
  obtain ⟨ts, h1, -⟩ := h
  exact of_yes (yes_and.2 ⟨⟨_, _, _, h1⟩, rfl, rfl, rfl⟩)

theorem not (h : Not T a s k) : Reads T (.not a) s k [] s k := of_yes (yes_not.2 ⟨h, rfl, rfl, rfl⟩)

theorem push {t : Str} (h : Reads T a (t ++ r) k l r k') : Reads T (.push a) (t ++ r) k l r (t :: k') := by
  obtain ⟨ts, h1, h2⟩ := h
  exact ⟨ts, yes_push.2 ⟨k', h1, by rw [Peg.consumed_append]⟩, h2⟩

theorem peek (t r : Str) (k) : Reads T .peek (t ++ r) (t :: k) [] r (t :: k) :=
  of_yes (yes_peek.2 ⟨t, k, rfl, rfl, rfl, rfl⟩)

theorem peek2 (t u r : Str) (k) : Reads T .peek2 (u ++ t ++ r) (t :: u :: k) [] r (t :: u :: k) :=
  of_yes (yes_peek2.2 ⟨t, u, k, rfl, rfl, rfl, rfl⟩)

theorem pop (t r : Str) (k) : Reads T .pop (t ++ r) (t :: k) [] r k := of_yes (yes_pop.2 ⟨t, rfl, rfl, rfl⟩)

theorem drop (t s : Str) (k) : Reads T .drop s (t :: k) [] s k := of_yes (yes_drop.2 ⟨⟨t, rfl⟩, rfl, rfl⟩)

theorem soi (s : Str) (k) : Reads T .soi s k [] s k := of_yes (yes_soi.2 ⟨rfl, rfl, rfl⟩)

/-- A rule that makes a node whose value does not depend on the text. -/
theorem rule {q : Rule} {v : Val} (hq : q.kind = .normal) (h : Reads T (q.body T) s k l r k')
    (ha : ∀ t, act q t (oks l) = .ok v) : Reads T (.rule q) s k [(q, v)] r k' := by
  obtain ⟨ts, h1, h2⟩ := h
  refine ⟨[.node q (consumed s r) ts], yes_rule.2 ⟨ts, h1, ?_⟩, ?_⟩
  · simp [wrap, yamlGrammar, hq]
  · simp [semKids, sem, h2, ha]

/-- A rule that makes a node, with its text. -/
theorem ruleText {q : Rule} {v : Val} {t : Str} (hq : q.kind = .normal) (h : Reads T (q.body T) (t ++ r) k l r k')
    (ha : act q t (oks l) = .ok v) : Reads T (.rule q) (t ++ r) k [(q, v)] r k' := by
  obtain ⟨ts, h1, h2⟩ := h
  refine ⟨[.node q t ts], yes_rule.2 ⟨ts, h1, ?_⟩, ?_⟩
  · simp [wrap, yamlGrammar, hq, Peg.consumed_append]
  · simp [semKids, sem, h2, ha]

/-- An atomic rule. -/
theorem atomic {q : Rule} {v : Val} {t : Str} (hq : q.kind = .atomic) (h : Passes T (q.body T) (t ++ r) k r k')
    (ha : act q t [] = .ok v) : Reads T (.rule q) (t ++ r) k [(q, v)] r k' := by
  obtain ⟨ts, h1⟩ := h
  refine ⟨[.node q t []], yes_rule.2 ⟨ts, h1, ?_⟩, ?_⟩
  · simp [wrap, yamlGrammar, hq, Peg.consumed_append]
  · simp [semKids, sem, ha]

/-- A silent rule. -/
theorem silent {q : Rule} (hq : q.kind = .silent) (h : Reads T (q.body T) s k l r k') : Reads T (.rule q) s k l r k' := by
  obtain ⟨ts, h1, h2⟩ := h
  exact ⟨ts, yes_rule.2 ⟨ts, h1, by simp [wrap, yamlGrammar, hq]⟩, h2⟩

end Reads

namespace Passes

variable {e a b : Expr Rule} {s s₁ r : Str} {k k₁ k' : List Str}

theorem seq (ha : Passes T a s k s₁ k₁) (hb : Passes T b s₁ k₁ r k') : Passes T (.seq a b) s k r k' := by
  obtain ⟨ts, h1⟩ := ha
  obtain ⟨us, h3⟩ := hb
  exact ⟨ts ++ us, yes_seq.2 ⟨_, _, _, _, h1, h3, rfl⟩⟩

theorem altL (h : Passes T a s k r k') : Passes T (.alt a b) s k r k' := by
  obtain ⟨ts, h1⟩ := h
  exact ⟨ts, yes_alt.2 (.inl h1)⟩

theorem altR (hn : Not T a s k) (h : Passes T b s k r k') : Passes T (.alt a b) s k r k' := by
  obtain ⟨ts, h1⟩ := h
  exact ⟨ts, yes_alt.2 (.inr ⟨hn, h1⟩)⟩

/-- A choice of which the second alternative matches; the first may match too. -/
theorem alt (h : Passes T a s k s₁ k₁ ∨ Not T a s k) (hb : ∃ r k', Passes T b s k r k') : ∃ r k', Passes T (.alt a b) s k r k' := by
  rcases h with h | h
  · exact ⟨_, _, .altL h⟩
  · obtain ⟨r, k', hb⟩ := hb
    exact ⟨_, _, .altR h hb⟩

theorem starNil (h : Not T a s k) : Passes T (.star a) s k s k := ⟨[], yes_star.2 (.inl ⟨h, rfl, rfl, rfl⟩)⟩

theorem star (ha : Passes T a s k s₁ k₁) (hb : Passes T (.star a) s₁ k₁ r k') : Passes T (.star a) s k r k' := by
  obtain ⟨ts, h1⟩ := ha
  obtain ⟨us, h3⟩ := hb
  exact ⟨ts ++ us, yes_star.2 (.inr ⟨_, _, _, _, h1, h3, rfl⟩)⟩

theorem rule {q : Rule} (h : Passes T (q.body T) s k r k') : Passes T (.rule q) s k r k' := by
  obtain ⟨ts, h1⟩ := h
  exact ⟨_, yes_rule.2 ⟨ts, h1, rfl⟩⟩

theorem lit (c : Char) (r : Str) (k) : Passes T (Rule.lit c) (c :: r) k r k := (Reads.lit c r k).passes

theorem not (h : Not T a s k) : Passes T (.not a) s k s k := (Reads.not h).passes

theorem any (c : Char) (r : Str) (k) : Passes T Rule.ANY (c :: r) k r k := (Reads.any c r k).passes

/-- A repetition over a text, one character each time. -/
theorem run {s r : Str} (hyes : ∀ pre c t, s = pre ++ c :: t → Passes T a (c :: (t ++ r)) k (t ++ r) k) (hno : Not T a r k) :
    Passes T (.star a) (s ++ r) k r k := by
  induction s with
  | nil => exact .starNil hno
  | cons c s ih => exact .star (hyes [] c s rfl) (ih fun pre d t h => hyes (c :: pre) d t (by simp [h]))

end Passes

namespace Not

variable {e a b : Expr Rule} {s s₁ r : Str} {k k₁ k' : List Str} {l : List (Rule × Val)}

theorem seqL (h : Not T a s k) : Not T (.seq a b) s k := no_seq.2 (.inl h)

theorem seqR (ha : Reads T a s k l s₁ k₁) (h : Not T b s₁ k₁) : Not T (.seq a b) s k := by
  obtain ⟨ts, h1, -⟩ := ha
  exact no_seq.2 (.inr ⟨_, _, _, h1, h⟩)

theorem alt (ha : Not T a s k) (hb : Not T b s k) : Not T (.alt a b) s k := no_alt.2 ⟨ha, hb⟩

theorem rule {q : Rule} (h : Not T (q.body T) s k) : Not T (.rule q) s k := no_rule.2 h

theorem push (h : Not T a s k) : Not T (.push a) s k := no_push.2 h

theorem and (h : Not T a s k) : Not T (.and a) s k := no_and.2 h

theorem not (h : Passes T a s k s₁ k₁) : Not T (.not a) s k := by
  obtain ⟨ts, h1⟩ := h
  exact no_not.2 ⟨_, _, _, h1⟩

theorem lit {c : Char} (h : s.head? ≠ some c) : Not T (Rule.lit c) s k := no_lit.2 h

theorem cls {p : Char → Bool} (h : ∀ c, s.head? = some c → p c = false) : Not T (.cls p) s k :=
  no_cls.2 fun c r hr => h c (by simp [hr])

theorem plus (h : Not T a s k) : Not T (.plus a) s k := seqL h

end Not

/-! ## runs of characters -/

/-- An expression that matches one character. -/
structure Single (T : CharTables) (e : Expr Rule) (p : Char → Prop) : Prop where
  yes : ∀ c r k, p c → Reads T e (c :: r) k [] r k
  no : ∀ r k, (∀ c, r.head? = some c → ¬ p c) → Not T e r k

theorem Single.star {e : Expr Rule} {p : Char → Prop} (h : Single T e p) {s r : Str} (hs : ∀ c ∈ s, p c)
    (hr : ∀ c, r.head? = some c → ¬ p c) (k) : Reads T (.star e) (s ++ r) k [] r k := by
  induction s with
  | nil => exact .starNil (h.no _ _ hr)
  | cons c s ih =>
    have := Reads.star (h.yes c (s ++ r) k (hs c (by simp))) (ih fun d hd => hs d (by simp [hd]))
    exact this

theorem Single.plus {e : Expr Rule} {p : Char → Prop} (h : Single T e p) {s r : Str} (hn : s ≠ []) (hs : ∀ c ∈ s, p c)
    (hr : ∀ c, r.head? = some c → ¬ p c) (k) : Reads T (.plus e) (s ++ r) k [] r k := by
  cases s with
  | nil => exact absurd rfl hn
  | cons c s =>
    exact Reads.plus (h.yes c (s ++ r) k (hs c (by simp))) (h.star (fun d hd => hs d (by simp [hd])) hr k)

theorem single_cls (p : Char → Bool) : Single T (.cls p) (fun c => p c = true) :=
  ⟨fun _ r k h => .cls h r k, fun _ _ h => .cls fun c hc => by simpa using h c hc⟩

theorem single_sp : Single T Rule.SP (fun c => isSpaceSeparator c = true) := single_cls _

theorem single_lit (d : Char) : Single T (Rule.lit d) (fun c => c = d) :=
  ⟨fun c r k h => by subst h; exact .lit c r k, fun _ _ h => .lit fun hc => h d hc rfl⟩

theorem Single.alt {a b : Expr Rule} {p q : Char → Prop} (ha : Single T a p) (hb : Single T b q) :
    Single T (.alt a b) (fun c => p c ∨ q c) := by
  constructor
  · intro c r k h
    by_cases hp : p c
    · exact .altL (ha.yes c r k hp)
    · refine .altR (ha.no _ _ (by simpa using hp)) (hb.yes c r k ?_)
      rcases h with h | h
      · exact absurd h hp
      · exact h
  · intro r k h
    exact .alt (ha.no _ _ fun c hc hp => h c hc (.inl hp)) (hb.no _ _ fun c hc hp => h c hc (.inr hp))

theorem Single.congr {e : Expr Rule} {p q : Char → Prop} (h : Single T e p) (hpq : ∀ c, p c ↔ q c) : Single T e q :=
  ⟨fun c r k hc => h.yes c r k ((hpq c).2 hc), fun r k hr => h.no r k fun c hc hp => hr c hc ((hpq c).1 hp)⟩

/-- `!e ~ ANY` -/
theorem Single.but {e : Expr Rule} {p : Char → Prop} (hno : ∀ c r k, p c → Not T e (c :: r) k)
    (hnil : ∀ k, Not T e [] k) (hyes : ∀ c r k, ¬ p c → ∃ r' k', Passes T e (c :: r) k r' k') :
    Single T (.seq (.not e) Rule.ANY) p := by
  constructor
  · intro c r k h
    exact Reads.seq (.not (hno c r k h)) (.any c r k)
  · intro r k h
    cases r with
    | nil => exact .seqR (.not (hnil k)) (.cls (by simp))
    | cons c r =>
      obtain ⟨r', k', h⟩ := hyes c r k (h c rfl)
      exact .seqL (.not h)

/-! ## line breaks and indentation -/

theorem reads_newline (r : Str) (k) : Reads T Rule.NEWLINE ('\n' :: r) k [] r k := .altL (.lit '\n' r k)

theorem not_newline {s : Str} {k} (h : ∀ c, s.head? = some c → c ≠ '\n' ∧ c ≠ '\r') : Not T Rule.NEWLINE s k :=
  no_newline.2 ⟨fun hc => (h _ hc).1 rfl, fun hc => (h _ hc).2 rfl⟩

theorem passes_newline {c : Char} (h : c = '\n' ∨ c = '\r') (r : Str) (k) :
    ∃ r' k', Passes T Rule.NEWLINE (c :: r) k r' k' := by
  rcases h with rfl | rfl
  · exact ⟨_, _, (reads_newline r k).passes⟩
  · by_cases hr : ∃ t, r = '\n' :: t
    · obtain ⟨t, rfl⟩ := hr
      exact ⟨_, _, .altR (.lit (by simp)) (.altL (Reads.str ['\r', '\n'] t k).passes)⟩
    · exact ⟨_, _, .altR (.lit (by simp)) (.altR (no_lit2.2 fun t ht => hr ⟨t, by simpa using ht⟩) (.lit '\r' r k))⟩

/-- The next character is not a space separator. -/
def NotSp (r : Str) : Prop := ∀ c, r.head? = some c → isSpaceSeparator c = false

/-- The next character is neither a space separator, nor does it end the line. -/
def Black (r : Str) : Prop := ∀ c, r.head? = some c → isSpaceSeparator c = false ∧ c ≠ '\n' ∧ c ≠ '\r'

/-- The next character is moreover not the start of a comment. -/
def Bare (r : Str) : Prop := ∀ c, r.head? = some c → isSpaceSeparator c = false ∧ c ≠ '\n' ∧ c ≠ '\r' ∧ c ≠ '#'

theorem Bare.black {r : Str} (h : Bare r) : Black r := fun c hc => ⟨(h c hc).1, (h c hc).2.1, (h c hc).2.2.1⟩
theorem Black.notSp {r : Str} (h : Black r) : NotSp r := fun c hc => (h c hc).1
theorem Bare.notSp {r : Str} (h : Bare r) : NotSp r := h.black.notSp
theorem Bare.notHash {r : Str} (h : Bare r) : r.head? ≠ some '#' := fun hc => (h _ hc).2.2.2 rfl
theorem Black.notNl {r : Str} (h : Black r) : ∀ c, r.head? = some c → c ≠ '\n' ∧ c ≠ '\r' := fun c hc => (h c hc).2
theorem bare_nil : Bare [] := by simp [Bare]
theorem notSp_nl (r : Str) : NotSp ('\n' :: r) := by simp [NotSp]; decide

theorem indent_sp (n : Nat) : ∀ c ∈ indent n, isSpaceSeparator c = true := by
  intro c hc
  rw [List.eq_of_mem_replicate hc]
  decide

theorem reads_sps {n : Nat} {r : Str} (h : NotSp r) (k) : Reads T (.star Rule.SP) (indent n ++ r) k [] r k :=
  single_sp.star (indent_sp n) (fun c hc => by simp [h c hc]) k

theorem reads_sps_nil {r : Str} (h : NotSp r) (k) : Reads T (.star Rule.SP) r k [] r k := reads_sps (n := 0) h k

theorem reads_sp1 {r : Str} (h : NotSp r) (k) : Reads T (.plus Rule.SP) (' ' :: r) k [] r k :=
  single_sp.plus (s := [' ']) (by simp) (by simp; decide) (fun c hc => by simp [h c hc]) k

theorem not_sp1 {r : Str} (h : NotSp r) (k) : Not T (.plus Rule.SP) r k :=
  .plus (single_sp.no _ _ fun c hc => by simp [h c hc])

theorem not_blankLine {n : Nat} {r : Str} (h : Black r) (k) : Not T (.seq (.star Rule.SP) Rule.NEWLINE) (indent n ++ r) k :=
  .seqR (reads_sps h.notSp k) (not_newline h.notNl)

/-- A line break before a line that is not blank. -/
theorem reads_blanknl {n : Nat} {r : Str} (h : Black r) (k) : Reads T (.rule .blanknl) ('\n' :: (indent n ++ r)) k [] (indent n ++ r) k := by
  refine .silent rfl (.altR ?_ ?_)
  · exact .seqR (reads_sps_nil (notSp_nl _) k) (.seqR (reads_newline _ k) (.plus (not_blankLine h k)))
  · exact .seq (reads_sps_nil (notSp_nl _) k) (reads_newline _ k)

theorem not_blanknl {n : Nat} {r : Str} (h : Black r) (k) : Not T (.rule .blanknl) (indent n ++ r) k :=
  .rule (.alt (.seqR (reads_sps h.notSp k) (.seqL (not_newline h.notNl))) (not_blankLine h k))

theorem reads_blank {n : Nat} {r : Str} (h : Black r) (k) : Reads T (.rule .blank) ('\n' :: (indent n ++ r)) k [] (indent n ++ r) k := by
  refine .silent rfl (.altR ?_ (.opt ?_))
  · exact .seqR (reads_sps_nil (notSp_nl _) k) (.seqR (reads_newline _ k) (.plus (not_blankLine h k)))
  · exact .seq (reads_sps_nil (notSp_nl _) k) (reads_newline _ k)

theorem reads_blank_none {n : Nat} {r : Str} (h : Black r) (k) : Reads T (.rule .blank) (indent n ++ r) k [] (indent n ++ r) k :=
  .silent rfl (.altR (.seqR (reads_sps h.notSp k) (.seqL (not_newline h.notNl))) (.optNone (not_blankLine h k)))

/-! ## comments -/

theorem single_line : Single T (.seq (.not Rule.NEWLINE) Rule.ANY) (fun c => c ≠ '\n' ∧ c ≠ '\r') := by
  refine .but (fun c r k h => not_newline (by simpa using h)) (fun k => not_newline (by simp)) fun c r k h => passes_newline ?_ r k
  by_cases h1 : c = '\n'
  · exact .inl h1
  · by_cases h2 : c = '\r'
    · exact .inr h2
    · exact absurd ⟨h1, h2⟩ h

/-- The end of a line. -/
def LineEnd (r : Str) : Prop := r = [] ∨ r.head? = some '\n'

theorem LineEnd.stop {r : Str} (h : LineEnd r) : ∀ c, r.head? = some c → ¬ (c ≠ '\n' ∧ c ≠ '\r') := by
  intro c hc hn
  rcases h with rfl | h
  · simp at hc
  · rw [h] at hc; cases hc; exact hn.1 rfl

theorem LineEnd.notSp {r : Str} (h : LineEnd r) : NotSp r := by
  intro c hc
  rcases h with rfl | h
  · simp at hc
  · rw [h] at hc; cases hc; decide

theorem LineText.mem {c : Str} (h : LineText c) : ∀ d ∈ c, d ≠ '\n' ∧ d ≠ '\r' := by
  intro d hd
  constructor
  · rintro rfl; exact h.1 hd
  · rintro rfl; exact h.2 hd

theorem reads_comment_base {n : Nat} {c r : Str} (hc : LineText c) (hr : LineEnd r) (k) :
    Reads T (.rule .comment_base) (indent n ++ '#' :: (c ++ r)) k [(.comment_text, .str c)] r k := by
  refine .silent rfl (.seq (reads_sps (by simp [NotSp]; decide) k) (.seq (.lit '#' _ k) ?_))
  exact .ruleText rfl (single_line.star (LineText.mem hc) hr.stop k) rfl

theorem reads_comment {n : Nat} {c r : Str} (hc : LineText c) (hr : LineEnd r) (k) :
    Reads T (.rule .comment) (indent n ++ '#' :: (c ++ r)) k [(.comment, .str c)] r k :=
  .rule rfl (reads_comment_base hc hr k) fun _ => rfl

theorem not_comment_base {n : Nat} {r : Str} (h : NotSp r) (h' : r.head? ≠ some '#') (k) :
    Not T (.rule .comment_base) (indent n ++ r) k :=
  .rule (.seqR (reads_sps h k) (.seqL (.lit h')))

theorem not_comment {n : Nat} {r : Str} (h : NotSp r) (h' : r.head? ≠ some '#') (k) : Not T (.rule .comment) (indent n ++ r) k :=
  .rule (not_comment_base h h' k)

theorem not_commentnl {n : Nat} {r : Str} (h : NotSp r) (h' : r.head? ≠ some '#') (k) : Not T (.rule .commentnl) (indent n ++ r) k :=
  .rule (.seqL (not_comment_base h h' k))

theorem LineEnd.noHash {r : Str} (h : LineEnd r) : r.head? ≠ some '#' := by
  rcases h with rfl | h
  · simp
  · rw [h]; simp

theorem reads_commentnls_nil {n : Nat} {r : Str} (h : NotSp r) (h' : r.head? ≠ some '#') (k) :
    Reads T (.rule .commentnls) (indent n ++ r) k [(.commentnls, .strs [])] (indent n ++ r) k :=
  .rule rfl (.starNil (not_commentnl h h' k)) fun _ => rfl

/-- Comment lines, each after a line break. -/
def lines (m : Nat) (cs : List Str) : Str := cs.flatMap fun c => '\n' :: (indent m ++ '#' :: c)

/-- Comment lines, each with its line break. -/
def linesNl (m : Nat) (cs : List Str) : Str := cs.flatMap fun c => indent m ++ '#' :: (c ++ ['\n'])

theorem lines_nl (m : Nat) (cs : List Str) (q : Str) : lines m cs ++ '\n' :: q = '\n' :: (linesNl m cs ++ q) := by
  induction cs with
  | nil => rfl
  | cons c cs ih =>
    have e1 : lines m (c :: cs) = '\n' :: (indent m ++ '#' :: c) ++ lines m cs := by simp [lines]
    have e2 : linesNl m (c :: cs) = (indent m ++ '#' :: (c ++ ['\n'])) ++ linesNl m cs := by simp [linesNl]
    rw [e1, e2, List.append_assoc, ih]
    simp

theorem lines_lineEnd (m : Nat) (cs : List Str) {r : Str} (h : LineEnd r) : LineEnd (lines m cs ++ r) := by
  cases cs with
  | nil => exact h
  | cons c cs => exact .inr (by simp [lines])

/-- The next line is not blank. -/
def FullLine (q : Str) : Prop := ∃ n r, q = indent n ++ r ∧ Black r

theorem FullLine.blanknl {q : Str} (h : FullLine q) (k) : Reads T (.rule .blanknl) ('\n' :: q) k [] q k := by
  obtain ⟨n, r, rfl, h⟩ := h
  exact reads_blanknl h k

theorem FullLine.blank {q : Str} (h : FullLine q) (k) : Reads T (.rule .blank) ('\n' :: q) k [] q k := by
  obtain ⟨n, r, rfl, h⟩ := h
  exact reads_blank h k

theorem FullLine.linesNl {m : Nat} {cs : List Str} {q : Str} (h : FullLine q) : FullLine (linesNl m cs ++ q) := by
  cases cs with
  | nil => exact h
  | cons c cs => exact ⟨m, '#' :: (c ++ ['\n']) ++ (YamlSubset.linesNl m cs ++ q), by simp [YamlSubset.linesNl], by simp [Black]; decide⟩

theorem act_commentnls (t : Str) (cs : List Str) : act .commentnls t (oks (cs.map fun c => (Rule.commentnl, Val.str c))) = .ok (.strs cs) := by
  have : many .commentnl Val.asStr (oks (cs.map fun c => (Rule.commentnl, Val.str c))) = .ok cs := by
    induction cs with
    | nil => rfl
    | cons c cs ih => simp [many, ih, Val.asStr, Out.bind_ok]
  simp only [act, Consume.commentnls, this, Out.bind_ok]

/-- Comment lines before a line that is not a comment. -/
theorem reads_commentnls {m n : Nat} {cs : List Str} {r : Str} (hc : ∀ c ∈ cs, LineText c) (h : Bare r) (k) :
    Reads T (.rule .commentnls) (linesNl m cs ++ (indent n ++ r)) k [(.commentnls, .strs cs)] (indent n ++ r) k := by
  refine .rule (l := cs.map fun c => (.commentnl, .str c)) rfl ?_ fun t => act_commentnls t cs
  induction cs with
  | nil => exact .starNil (not_commentnl h.notSp h.notHash k)
  | cons c cs ih =>
    have hf : FullLine (linesNl m cs ++ (indent n ++ r)) := FullLine.linesNl ⟨n, r, rfl, h.black⟩
    have h1 : Reads T (.rule .commentnl) (indent m ++ '#' :: (c ++ '\n' :: (linesNl m cs ++ (indent n ++ r)))) k
        [(.commentnl, .str c)] (linesNl m cs ++ (indent n ++ r)) k :=
      .rule rfl (.seq (reads_comment_base (hc c (by simp)) (.inr rfl) k) (hf.blank k)) fun _ => rfl
    have := Reads.star h1 (ih fun c hm => hc c (by simp [hm]))
    simpa [linesNl, Rule.body] using this

/-- Comment lines at the end of the text. -/
theorem reads_commentnls_end {m : Nat} {cs : List Str} {c : Str} (hc : ∀ c ∈ cs, LineText c) (h : LineText c) (k) :
    Reads T (.rule .commentnls) (linesNl m cs ++ (indent m ++ '#' :: c)) k [(.commentnls, .strs (cs ++ [c]))] [] k := by
  refine .rule (l := (cs ++ [c]).map fun c => (.commentnl, .str c)) rfl ?_ fun t => act_commentnls t _
  induction cs with
  | nil =>
    have h1 : Reads T (.rule .commentnl) (indent m ++ '#' :: (c ++ [])) k [(.commentnl, .str c)] [] k :=
      .rule rfl (.seq (reads_comment_base h (.inl rfl) k) (reads_blank_none (n := 0) bare_nil.black k)) fun _ => rfl
    have := Reads.star h1 (.starNil (not_commentnl (n := 0) bare_nil.notSp (by simp) k))
    simpa [linesNl, Rule.body] using this
  | cons d cs ih =>
    have hf : FullLine (linesNl m cs ++ (indent m ++ '#' :: c)) := FullLine.linesNl ⟨m, '#' :: c, rfl, by simp [Black]; decide⟩
    have h1 : Reads T (.rule .commentnl) (indent m ++ '#' :: (d ++ '\n' :: (linesNl m cs ++ (indent m ++ '#' :: c)))) k
        [(.commentnl, .str d)] (linesNl m cs ++ (indent m ++ '#' :: c)) k :=
      .rule rfl (.seq (reads_comment_base (hc d (by simp)) (.inr rfl) k) (hf.blank k)) fun _ => rfl
    have := Reads.star h1 (ih fun c hm => hc c (by simp [hm]))
    simpa [linesNl, Rule.body] using this

end YamlSubset
