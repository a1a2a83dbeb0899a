import Verif.Lemmas.ParseText
import Verif.Spec.Breaks

/-! # Line breaks in texts -/

namespace YamlSubset

open Peg Spec

theorem ub_nil : unixBreaks [] = [] := rfl

theorem ub_cons {c : Char} (h : c ≠ '\r') (t : Str) : unixBreaks (c :: t) = c :: unixBreaks t := by
  simp [unixBreaks, h]

theorem ub_crlf (t : Str) : unixBreaks ('\r' :: '\n' :: t) = '\n' :: unixBreaks t := by
  simp [unixBreaks]

theorem ub_cr {t : Str} (h : t.head? ≠ some '\n') : unixBreaks ('\r' :: t) = '\n' :: unixBreaks t := by
  simp [unixBreaks, h]

/-- The three ways to take a text apart. -/
theorem ub_cases (s : Str) : (s = [] ∧ unixBreaks s = []) ∨ (∃ c t, s = c :: t ∧ c ≠ '\n' ∧ c ≠ '\r' ∧ unixBreaks s = c :: unixBreaks t) ∨
    ∃ b t, s = b ++ t ∧ (b = ['\n'] ∨ b = ['\r', '\n'] ∨ (b = ['\r'] ∧ t.head? ≠ some '\n')) ∧ unixBreaks s = '\n' :: unixBreaks t := by
  cases s with
  | nil => exact .inl ⟨rfl, rfl⟩
  | cons c t =>
    right
    by_cases hn : c = '\n'
    · subst hn
      exact .inr ⟨['\n'], t, rfl, .inl rfl, ub_cons (by decide) t⟩
    · by_cases hr : c = '\r'
      · subst hr
        by_cases ht : t.head? = some '\n'
        · cases t with
          | nil => cases ht
          | cons d t =>
            simp only [List.head?_cons, Option.some.injEq] at ht
            subst ht
            exact .inr ⟨['\r', '\n'], t, rfl, .inr (.inl rfl), ub_crlf t⟩
        · exact .inr ⟨['\r'], t, rfl, .inr (.inr ⟨rfl, ht⟩), ub_cr ht⟩
      · exact .inl ⟨c, t, rfl, hn, hr, ub_cons hr t⟩

theorem ub_eq_nil {s : Str} (h : unixBreaks s = []) : s = [] := by
  rcases ub_cases s with ⟨h, -⟩ | ⟨c, t, -, -, -, h'⟩ | ⟨b, t, -, -, h'⟩
  · exact h
  · rw [h'] at h; cases h
  · rw [h'] at h; cases h

/-- A cut that does not separate a carriage return from its line feed. -/
def CleanCut (s r : Str) : Prop := ∃ t, s = t ++ r ∧ ¬ (t.getLast? = some '\r' ∧ r.head? = some '\n')

theorem CleanCut.refl (s : Str) : CleanCut s s := ⟨[], rfl, by simp⟩

theorem CleanCut.trans {a b c : Str} (h : CleanCut a b) (h' : CleanCut b c) : CleanCut a c := by
  obtain ⟨t, rfl, ht⟩ := h
  obtain ⟨u, rfl, hu⟩ := h'
  refine ⟨t ++ u, by simp, ?_⟩
  rw [List.getLast?_append]
  cases u with
  | nil => simpa using ht
  | cons x u =>
    intro ⟨h1, h2⟩
    apply hu
    refine ⟨?_, h2⟩
    cases hl : (x :: u).getLast? with
    | none => simp at hl
    | some y => rw [hl] at h1; simpa using h1

theorem ub_append {t r : Str} (h : ¬ (t.getLast? = some '\r' ∧ r.head? = some '\n')) : unixBreaks (t ++ r) = unixBreaks t ++ unixBreaks r := by
  induction t with
  | nil => rfl
  | cons c t ih =>
    cases t with
    | nil =>
      by_cases hc : c = '\r'
      · subst hc
        have : r.head? ≠ some '\n' := fun h' => h ⟨rfl, h'⟩
        simp [unixBreaks, this]
      · simp [unixBreaks, hc]
    | cons d t =>
      have ih := ih (by simpa [List.getLast?_cons_cons] using h)
      have e : ∀ u, unixBreaks (c :: d :: u) =
          if c = '\r' then (if d = '\n' then unixBreaks (d :: u) else '\n' :: unixBreaks (d :: u)) else c :: unixBreaks (d :: u) := by
        intro u; rw [unixBreaks]; simp only [List.head?_cons, Option.some.injEq]
      simp only [List.cons_append] at ih ⊢
      rw [e, e, ih]
      split
      · split <;> rfl
      · rfl

theorem CleanCut.ub {s r : Str} (h : CleanCut s r) : consumed (unixBreaks s) (unixBreaks r) = unixBreaks (consumed s r) := by
  obtain ⟨t, rfl, ht⟩ := h
  rw [ub_append ht, Peg.consumed_append, Peg.consumed_append]

theorem ub_line {t : Str} (h : LineText t) : unixBreaks t = t := by
  induction t with
  | nil => rfl
  | cons c t ih =>
    have h1 := h.1; have h2 := h.2
    simp only [List.mem_cons, not_or] at h1 h2
    rw [ub_cons (Ne.symm h2.1), ih ⟨h1.2, h2.2⟩]

theorem line_last {t : Str} (h : LineText t) : t.getLast? ≠ some '\r' := by
  intro hl
  exact h.2 (List.mem_of_getLast? hl)

theorem ub_line_append {t : Str} (h : LineText t) (r : Str) : unixBreaks (t ++ r) = t ++ unixBreaks r := by
  rw [ub_append (fun h' => line_last h h'.1), ub_line h]

theorem cleanCut_line {t : Str} (h : LineText t) (r : Str) : CleanCut (t ++ r) r := ⟨t, rfl, fun h' => line_last h h'.1⟩

theorem cleanCut_head {s r : Str} (h : ∃ t, s = t ++ r) (hr : r.head? ≠ some '\n') : CleanCut s r := by
  obtain ⟨t, ht⟩ := h
  exact ⟨t, ht, fun h' => hr h'.2⟩

/-- A prefix without breaks of the normalized text is a prefix of the text. -/
theorem ub_prefix {t s r : Str} (h : LineText t) (hs : unixBreaks s = t ++ r) : ∃ r', s = t ++ r' := by
  induction t generalizing s with
  | nil => exact ⟨s, rfl⟩
  | cons c t ih =>
    have h1 := h.1; have h2 := h.2
    simp only [List.mem_cons, not_or] at h1 h2
    rcases ub_cases s with ⟨-, h'⟩ | ⟨d, u, rfl, -, -, h'⟩ | ⟨b, u, -, -, h'⟩
    · rw [h'] at hs; cases hs
    · rw [h'] at hs
      simp only [List.cons_append, List.cons.injEq] at hs
      obtain ⟨rfl, hs⟩ := hs
      obtain ⟨r', rfl⟩ := ih ⟨h1.2, h2.2⟩ hs
      exact ⟨r', rfl⟩
    · rw [h'] at hs
      simp only [List.cons_append, List.cons.injEq] at hs
      exact absurd hs.1 h1.1

theorem ub_no_cr (s : Str) : '\r' ∉ unixBreaks s := by
  induction s with
  | nil => simp [unixBreaks]
  | cons c t ih =>
    simp only [unixBreaks]
    split
    · split
      · exact ih
      · simp [ih]
    · rename_i h; simp [ih, Ne.symm h]

theorem ub_newline {s : Str} : '\n' ∉ unixBreaks s ↔ LineText s := by
  constructor
  · intro h
    induction s with
    | nil => simp [LineText]
    | cons c t ih =>
      rcases ub_cases (c :: t) with ⟨h', -⟩ | ⟨d, u, h1, hn, hr, h'⟩ | ⟨b, u, -, -, h'⟩
      · cases h'
      · cases h1
        rw [h'] at h
        simp only [List.mem_cons, not_or] at h
        have := ih h.2
        simp only [LineText, List.mem_cons, not_or]
        exact ⟨⟨Ne.symm hn, this.1⟩, Ne.symm hr, this.2⟩
      · rw [h'] at h; simp at h
  · intro h; rw [ub_line h]; exact h.1

theorem ub_unix {s : Str} (h : '\r' ∉ s) : unixBreaks s = s := by
  induction s with
  | nil => rfl
  | cons c t ih =>
    simp only [List.mem_cons, not_or] at h
    rw [ub_cons (Ne.symm h.1), ih h.2]

theorem nbb_suffix {t s : Str} (h : NoBackslashBreak (t ++ s)) : NoBackslashBreak s := by
  rintro a c b rfl
  exact h (t ++ a) c b (by simp)

theorem nbb_cut {s r : Str} (h : NoBackslashBreak s) (hc : CleanCut s r) : NoBackslashBreak r := by
  obtain ⟨t, rfl, -⟩ := hc
  exact nbb_suffix h

theorem nbb_tail {c : Char} {s : Str} (h : NoBackslashBreak (c :: s)) : NoBackslashBreak s :=
  nbb_suffix (t := [c]) h

/-- Normalizing does not put a break behind a backslash. -/
theorem nbb_ub {x : Str} (hx : NoBackslashBreak x) : NoBackslashBreak (unixBreaks x) := by
  have key : ∀ a b, unixBreaks x ≠ a ++ '\\' :: '\n' :: b := by
    generalize hn : x.length = n
    induction n using Nat.strongRecOn generalizing x with
    | ind n ih =>
      intro a b h
      rcases ub_cases x with ⟨-, h'⟩ | ⟨c, t, rfl, -, -, h'⟩ | ⟨d, t, rfl, hd, h'⟩
      · rw [h'] at h; cases a <;> cases h
      · rw [h'] at h
        cases a with
        | nil =>
          simp only [List.nil_append, List.cons.injEq] at h
          obtain ⟨rfl, h⟩ := h
          rcases ub_cases t with ⟨-, h''⟩ | ⟨c, u, rfl, hc, -, h''⟩ | ⟨d, u, rfl, hd, -⟩
          · rw [h''] at h; cases h
          · rw [h''] at h; simp only [List.cons.injEq] at h; exact hc h.1
          · rcases hd with rfl | rfl | ⟨rfl, -⟩
            · exact (hx [] '\n' u rfl).1 rfl
            · exact (hx [] '\r' ('\n' :: u) rfl).2 rfl
            · exact (hx [] '\r' u rfl).2 rfl
        | cons e a =>
          simp only [List.cons_append, List.cons.injEq] at h
          exact ih t.length (by simp at hn; omega) (nbb_tail hx) rfl a b h.2
      · rw [h'] at h
        cases a with
        | nil => simp at h
        | cons e a =>
          simp only [List.cons_append, List.cons.injEq] at h
          refine ih t.length ?_ (nbb_suffix hx) rfl a b h.2
          rw [← hn]
          rcases hd with rfl | rfl | ⟨rfl, -⟩ <;> simp
          omega
  intro a c b h
  refine ⟨?_, ?_⟩
  · rintro rfl; exact key a b h
  · rintro rfl; exact ub_no_cr x (by rw [h]; simp)

/-- Dropping characters that are not breaks. -/
theorem ub_dropWhile {p : Char → Bool} (hp : p '\n' = false ∧ p '\r' = false) (z : Str) :
    (unixBreaks z).dropWhile p = unixBreaks (z.dropWhile p) ∧ CleanCut z (z.dropWhile p) := by
  induction z with
  | nil => exact ⟨rfl, .refl _⟩
  | cons c t ih =>
    cases hc : p c with
    | true =>
      have h1 : c ≠ '\r' := by rintro rfl; rw [hp.2] at hc; cases hc
      have h2 : c ≠ '\n' := by rintro rfl; rw [hp.1] at hc; cases hc
      rw [ub_cons h1]
      simp only [List.dropWhile_cons, hc, if_true]
      exact ⟨ih.1, (cleanCut_line (t := [c]) (by simp [LineText, Ne.symm h1, Ne.symm h2]) t).trans ih.2⟩
    | false =>
      have e : (c :: t).dropWhile p = c :: t := by simp [hc]
      rw [e]
      refine ⟨?_, .refl _⟩
      rcases ub_cases (c :: t) with ⟨h, -⟩ | ⟨d, u, h, -, -, hu⟩ | ⟨d, u, -, -, hu⟩
      · cases h
      · cases h; rw [hu]; simp [hc]
      · rw [hu]; simp [hp.1]

end YamlSubset
