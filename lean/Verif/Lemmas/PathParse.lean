import Verif.Lemmas.ParseText
import Verif.Lemmas.Numbers
import Verif.Lemmas.De
import Verif.Spec.Path

/-! # Parsing the text of a path -/

namespace YamlSubset

open Peg Spec PRule

local notation "G" => pathGrammar

/-- The next character is not a space. -/
abbrev NoSpace (r : Str) : Prop := r.head? ≠ some ' '

theorem yes_skip_nil {r : Str} {k} (h : NoSpace r) : Yes G skip r k [] r k :=
  yes_star.2 (.inl ⟨no_rule.2 (no_lit.2 h), rfl, rfl, rfl⟩)

theorem yes_skip (n : Nat) {r : Str} {k} (h : NoSpace r) : ∃ ts, Yes G skip (List.replicate n ' ' ++ r) k ts r k := by
  induction n with
  | zero => exact ⟨[], yes_skip_nil h⟩
  | succ n ih =>
    obtain ⟨ts, ih⟩ := ih
    exact ⟨_, yes_star.2 (.inr ⟨_, _, _, _, yes_rule.2 ⟨_, yes_str.2 ⟨rfl, rfl, rfl⟩, rfl⟩, ih, rfl⟩)⟩

theorem yes_sq {a b : Expr PRule} {s k ts₁ s₁ k₁ ts₂ r k'} (ha : Yes G a s k ts₁ s₁ k₁) (hs : NoSpace s₁)
    (hb : Yes G b s₁ k₁ ts₂ r k') : Yes G (sq a b) s k (ts₁ ++ ts₂) r k' :=
  yes_seq.2 ⟨_, _, _, _, ha, yes_seq.2 ⟨_, _, _, _, yes_skip_nil hs, hb, rfl⟩, by simp⟩

theorem no_sq_left {a b : Expr PRule} {s k} (h : No G a s k) : No G (sq a b) s k := no_seq.2 (.inl h)

theorem no_sq_right {a b : Expr PRule} {s k ts s₁ k₁} (ha : Yes G a s k ts s₁ k₁) (hs : NoSpace s₁)
    (hb : No G b s₁ k₁) : No G (sq a b) s k :=
  no_seq.2 (.inr ⟨_, _, _, ha, no_seq.2 (.inr ⟨_, _, _, yes_skip_nil hs, hb⟩)⟩)

theorem yes_st_nil {e : Expr PRule} {s k} (h : No G e s k) : Yes G (st e) s k [] s k :=
  yes_opt.2 (.inr ⟨no_seq.2 (.inl h), rfl, rfl, rfl⟩)

/-! ## runs of characters -/

/-- An expression for one character, of which a run is taken. -/
structure OneChar (e : Expr PRule) (p : Char → Bool) : Prop where
  yes : ∀ c r k, p c = true → c ≠ ' ' → Yes G e (c :: r) k [] r k
  no : ∀ r k, (∀ c, r.head? = some c → p c = false) → No G e r k

/-- Where a run ends. -/
structure RunEnd (p : Char → Bool) (r : Str) : Prop where
  stop : ∀ c, r.head? = some c → p c = false
  space : NoSpace r

theorem spaces_split (s : Str) (h : s.getLast? ≠ some ' ') :
    ∃ n u, s = List.replicate n ' ' ++ u ∧ NoSpace u ∧ u.getLast? ≠ some ' ' ∧ (u = [] → s = []) := by
  induction s with
  | nil => exact ⟨0, [], rfl, by simp [NoSpace], by simp, fun _ => rfl⟩
  | cons c t ih =>
    by_cases hc : c = ' '
    · subst hc
      have ht : t ≠ [] := by rintro rfl; simp at h
      have hl : t.getLast? ≠ some ' ' := by
        rw [List.getLast?_cons, List.getLast?_eq_some_getLast ht] at h
        rw [List.getLast?_eq_some_getLast ht]
        simpa using h
      obtain ⟨n, u, h1, h2, h3, h4⟩ := ih hl
      refine ⟨n + 1, u, ?_, h2, h3, fun hu => absurd (h4 hu) ht⟩
      rw [h1, List.replicate_succ]
      rfl
    · exact ⟨0, c :: t, rfl, by simpa [NoSpace] using hc, h, fun h => h⟩

theorem yes_run_star {e : Expr PRule} {p : Char → Bool} (he : OneChar e p) {s r : Str} (hl : s.getLast? ≠ some ' ')
    (hp : ∀ c ∈ s, p c = true) (hr : RunEnd p r) (k) :
    ∃ ts, Yes G (.star (.seq skip e)) (s ++ r) k ts r k := by
  have key : ∀ n (s : Str), s.length ≤ n → s.getLast? ≠ some ' ' → (∀ c ∈ s, p c = true) →
      ∃ ts, Yes G (.star (.seq skip e)) (s ++ r) k ts r k := by
    intro n
    induction n with
    | zero =>
      intro s hn _ _
      have : s = [] := List.length_eq_zero_iff.1 (by omega)
      subst this
      exact ⟨[], yes_star.2 (.inl ⟨no_seq.2 (.inr ⟨_, _, _, yes_skip_nil hr.space, he.no _ _ hr.stop⟩), rfl, rfl, rfl⟩)⟩
    | succ n ih =>
      intro s hn hl hp
      obtain ⟨m, u, rfl, h2, h3, h4⟩ := spaces_split s hl
      cases u with
      | nil =>
        have : List.replicate m ' ' = [] := by simpa using h4 rfl
        simp only [this]
        exact ⟨[], yes_star.2 (.inl ⟨no_seq.2 (.inr ⟨_, _, _, yes_skip_nil hr.space, he.no _ _ hr.stop⟩), rfl, rfl, rfl⟩)⟩
      | cons c u =>
        have hu : u.getLast? ≠ some ' ' := by
          intro hh
          apply h3
          rw [List.getLast?_cons, hh]
          rfl
        obtain ⟨ts, hts⟩ := ih u (by simp at hn; omega) hu fun d hd => hp d (by simp [hd])
        obtain ⟨ws, hws⟩ := yes_skip m (r := (c :: u) ++ r) (k := k) h2
        refine ⟨ws ++ ts, yes_star.2 (.inr ⟨ws, u ++ r, k, ts, yes_seq.2 ⟨ws, c :: (u ++ r), k, [], ?_, ?_, by simp⟩, hts, rfl⟩)⟩
        · simpa using hws
        · exact he.yes c _ k (hp c (by simp)) (by simpa [NoSpace] using h2)
  exact key s.length s (Nat.le_refl _) hl hp

/-- A run of characters without space at the ends. -/
theorem yes_run {e : Expr PRule} {p : Char → Bool} (he : OneChar e p) {s r : Str} (hn : s ≠ []) (hf : NoSpace s)
    (hl : s.getLast? ≠ some ' ') (hp : ∀ c ∈ s, p c = true) (hr : RunEnd p r) (k) :
    ∃ ts, Yes G (pl e) (s ++ r) k ts r k := by
  cases s with
  | nil => exact absurd rfl hn
  | cons c s =>
    have h1 := he.yes c (s ++ r) k (hp c (by simp)) (by simpa [NoSpace] using hf)
    have hl' : s.getLast? ≠ some ' ' := by
      intro hh
      apply hl
      rw [List.getLast?_cons, hh]
      rfl
    obtain ⟨m, u, rfl, h2, h3, h4⟩ := spaces_split s hl'
    cases u with
    | nil =>
      have : List.replicate m ' ' = [] := by simpa using h4 rfl
      simp only [this] at h1 ⊢
      exact ⟨_, yes_sq h1 hr.space (yes_st_nil (he.no _ _ hr.stop))⟩
    | cons d u =>
      have hu : u.getLast? ≠ some ' ' := by
        intro hh
        apply h3
        rw [List.getLast?_cons, hh]
        rfl
      obtain ⟨ts, hts⟩ := yes_run_star he hu (fun x hx => hp x (by simp [hx])) hr k
      obtain ⟨ws, hws⟩ := yes_skip m (r := (d :: u) ++ r) (k := k) h2
      have h5 := he.yes d (u ++ r) k (hp d (by simp)) (by simpa [NoSpace] using h2)
      refine ⟨_, yes_seq.2 ⟨_, _, _, _, h1, yes_seq.2 ⟨ws, _, k, _, by simpa using hws,
        yes_opt.2 (.inl (yes_seq.2 ⟨_, _, _, _, h5, hts, rfl⟩)), rfl⟩, rfl⟩⟩

/-- `!stop ~ ANY` -/
theorem oneChar_not {stopE : Expr PRule} {p : Char → Bool}
    (hno : ∀ r k, (∀ c, r.head? = some c → p c = true) → No G stopE r k)
    (hyes : ∀ c r k, p c = false → ∃ ts r' k', Yes G stopE (c :: r) k ts r' k') :
    OneChar (sq (.not stopE) ANY) p := by
  constructor
  · intro c r k hp hc
    exact yes_sq (yes_not.2 ⟨hno _ _ (by simpa using hp), rfl, rfl, rfl⟩) (by simpa [NoSpace] using hc)
      (yes_cls.2 ⟨c, rfl, rfl, rfl, rfl⟩)
  · intro r k h
    cases r with
    | nil =>
      exact no_sq_right (yes_not.2 ⟨hno _ _ (by simp), rfl, rfl, rfl⟩) (by simp [NoSpace]) (no_cls.2 (by simp))
    | cons c r =>
      exact no_sq_left (no_not.2 (hyes c r k (h c rfl)))

def keyChar (c : Char) : Bool := c ≠ '[' && c ≠ ']' && c ≠ '.' && c ≠ '|'
def fieldChar (c : Char) : Bool := c ≠ '='
def valueChar (c : Char) : Bool := c ≠ '.' && c ≠ '|'

theorem oneChar_key : OneChar (.rule key_items) keyChar := by
  have h : OneChar (sq (.not (.alts [lit '[', lit ']', lit '.', lit '|'])) ANY) keyChar := by
    refine oneChar_not (fun r k h => ?_) fun c r k h => ?_
    · refine no_alt.2 ⟨no_lit.2 ?_, no_alt.2 ⟨no_lit.2 ?_, no_alt.2 ⟨no_lit.2 ?_, no_lit.2 ?_⟩⟩⟩ <;>
      · intro hh
        have := h _ hh
        simp [keyChar] at this
    · have : c = '[' ∨ c = ']' ∨ c = '.' ∨ c = '|' := by
        simp only [keyChar] at h
        by_cases h1 : c = '[' <;> by_cases h2 : c = ']' <;> by_cases h3 : c = '.' <;> by_cases h4 : c = '|' <;>
          simp_all
      refine ⟨[], r, k, ?_⟩
      rcases this with rfl | rfl | rfl | rfl
      · exact yes_alt.2 (.inl (yes_str.2 ⟨rfl, rfl, rfl⟩))
      · exact yes_alt.2 (.inr ⟨no_lit.2 (by simp), yes_alt.2 (.inl (yes_str.2 ⟨rfl, rfl, rfl⟩))⟩)
      · exact yes_alt.2 (.inr ⟨no_lit.2 (by simp), yes_alt.2 (.inr ⟨no_lit.2 (by simp),
          yes_alt.2 (.inl (yes_str.2 ⟨rfl, rfl, rfl⟩))⟩)⟩)
      · exact yes_alt.2 (.inr ⟨no_lit.2 (by simp), yes_alt.2 (.inr ⟨no_lit.2 (by simp),
          yes_alt.2 (.inr ⟨no_lit.2 (by simp), yes_str.2 ⟨rfl, rfl, rfl⟩⟩)⟩)⟩)
  exact ⟨fun c r k hp hc => yes_rule.2 ⟨_, h.yes c r k hp hc, rfl⟩, fun r k hh => no_rule.2 (h.no r k hh)⟩

theorem oneChar_field : OneChar (sq (.not (lit '=')) ANY) fieldChar := by
  refine oneChar_not (fun r k h => no_lit.2 fun hh => ?_) fun c r k h => ?_
  · have := h _ hh
    simp [fieldChar] at this
  · have : c = '=' := by simpa [fieldChar] using h
    subst this
    exact ⟨[], r, k, yes_str.2 ⟨rfl, rfl, rfl⟩⟩

theorem oneChar_value : OneChar (sq (.not (.alts [lit '.', lit '|'])) ANY) valueChar := by
  refine oneChar_not (fun r k h => ?_) fun c r k h => ?_
  · refine no_alt.2 ⟨no_lit.2 ?_, no_lit.2 ?_⟩ <;>
    · intro hh
      have := h _ hh
      simp [valueChar] at this
  · have : c = '.' ∨ c = '|' := by
      simp only [valueChar] at h
      by_cases h3 : c = '.' <;> by_cases h4 : c = '|' <;> simp_all
    refine ⟨[], r, k, ?_⟩
    rcases this with rfl | rfl
    · exact yes_alt.2 (.inl (yes_str.2 ⟨rfl, rfl, rfl⟩))
    · exact yes_alt.2 (.inr ⟨no_lit.2 (by simp), yes_str.2 ⟨rfl, rfl, rfl⟩⟩)

theorem oneChar_digit : OneChar (.cls isDigit) isDigit :=
  ⟨fun c r _ hp _ => yes_cls.2 ⟨c, rfl, hp, rfl, rfl⟩,
    fun r _ h => no_cls.2 fun c t hr => h c (by simp [hr])⟩

/-! ## the rules -/

theorem consumed_app (s r : Str) : consumed (s ++ r) r = s := consumed_append s r

/-- What may come after conditions `cs`. -/
structure AfterSegment (cs : List Condition) (r : Str) : Prop where
  head : ∀ c, r.head? = some c → c = '.' ∨ c = '['
  value : cs ≠ [] → r.head? ≠ some '['

theorem AfterSegment.noSpace {cs : List Condition} {r : Str} (h : AfterSegment cs r) : NoSpace r := by
  intro hh
  rcases h.head _ hh with h | h <;> cases h

theorem yes_condition {c : Condition} (hc : CleanCondition c) {r : Str}
    (hr : ∀ d, r.head? = some d → d = '.' ∨ d = '|') (k) :
    ∃ t, Yes G (sq (lit '|') (.rule condition)) ('|' :: (c.field ++ '=' :: (c.value ++ r))) k [t] r k ∧
      psemKids [t] = [(condition, .ok (.cond c))] := by
  have hr1 : RunEnd fieldChar ('=' :: (c.value ++ r)) := ⟨by simp [fieldChar], by simp [NoSpace]⟩
  have hr2 : RunEnd valueChar r := by
    constructor
    · intro d hd
      rcases hr d hd with rfl | rfl <;> rfl
    · intro hd
      rcases hr _ hd with h | h <;> cases h
  obtain ⟨ws, hws⟩ := yes_run oneChar_field hc.field.nonempty hc.field.first hc.field.last
    (fun d hd => by simpa [fieldChar] using hc.field.inner d hd) hr1 k
  obtain ⟨vs, hvs⟩ := yes_run oneChar_value hc.value.nonempty hc.value.first hc.value.last
    (fun d hd => by simpa [valueChar] using hc.value.inner d hd) hr2 k
  have h1 : Yes G (.rule field) (c.field ++ '=' :: (c.value ++ r)) k [.node field c.field ws] ('=' :: (c.value ++ r)) k :=
    yes_rule.2 ⟨ws, hws, by simp [wrap, pathGrammar, PRule.kind, consumed_app]⟩
  have h2 : Yes G (.rule value) (c.value ++ r) k [.node value c.value vs] r k :=
    yes_rule.2 ⟨vs, hvs, by simp [wrap, pathGrammar, PRule.kind, consumed_app]⟩
  have hv0 : NoSpace (c.value ++ r) := by
    have := hc.value.first
    cases hv : c.value with
    | nil => exact absurd hv hc.value.nonempty
    | cons d t => rw [hv] at this; simpa [NoSpace] using this
  have hf0 : NoSpace (c.field ++ '=' :: (c.value ++ r)) := by
    have := hc.field.first
    cases hv : c.field with
    | nil => exact absurd hv hc.field.nonempty
    | cons d t => rw [hv] at this; simpa [NoSpace] using this
  have h3 : Yes G (sq (lit '=') (.rule value)) ('=' :: (c.value ++ r)) k ([] ++ [.node value c.value vs]) r k :=
    yes_sq (yes_str.2 ⟨rfl, rfl, rfl⟩) hv0 h2
  have h4 : Yes G (.rule condition) (c.field ++ '=' :: (c.value ++ r)) k
      [.node condition (c.field ++ '=' :: c.value) [.node field c.field ws, .node value c.value vs]] r k :=
    yes_rule.2 ⟨_, yes_sq h1 (by simp [NoSpace]) h3, by
      have : consumed (c.field ++ '=' :: (c.value ++ r)) r = c.field ++ '=' :: c.value := consumed_eq (by simp)
      simp [wrap, pathGrammar, PRule.kind, this]⟩
  exact ⟨_, yes_sq (yes_str.2 ⟨rfl, rfl, rfl⟩) hf0 h4, rfl⟩

theorem no_condition {r : Str} {cs : List Condition} (hr : AfterSegment cs r) (k) :
    No G (sq (lit '|') (.rule condition)) r k := by
  refine no_sq_left (no_lit.2 fun h => ?_)
  rcases hr.head _ h with h | h <;> cases h

theorem pmany_append {α : Type} {q : PRule} {as : PVal → Out α} {v : PVal} {a : α} (h : as v = .ok a) {l : PKids}
    {as' : List α} (hl : pmany q as l = .ok as') : pmany q as ((q, .ok v) :: l) = .ok (a :: as') := by
  simp only [pmany, if_true, Out.bind_ok, h, hl]

theorem psemKids_append (a b : List (Tree PRule)) : psemKids (a ++ b) = psemKids a ++ psemKids b := by
  induction a with
  | nil => rfl
  | cons t a ih => obtain ⟨r, s, cs⟩ := t; simp [psemKids, ih]

theorem yes_conds_star (cs : List Condition) (hc : ∀ c ∈ cs, CleanCondition c) {r : Str} (hr : AfterSegment cs r) (k) :
    ∃ ts, Yes G (.star (.seq skip (sq (lit '|') (.rule condition)))) (renderConditions cs ++ r) k ts r k ∧
      pmany condition PVal.asCond (psemKids ts) = .ok cs := by
  induction cs with
  | nil =>
    exact ⟨[], yes_star.2 (.inl ⟨no_seq.2 (.inr ⟨_, _, _, yes_skip_nil hr.noSpace, no_condition hr k⟩), rfl, rfl, rfl⟩), rfl⟩
  | cons c cs ih =>
    have hr' : AfterSegment cs r := ⟨hr.head, fun _ => hr.value (by simp)⟩
    obtain ⟨ts, h1, h2⟩ := ih (fun c hm => hc c (by simp [hm])) hr'
    have hn : ∀ d, (renderConditions cs ++ r).head? = some d → d = '.' ∨ d = '|' := by
      intro d hd
      cases cs with
      | nil =>
        have hd : r.head? = some d := hd
        rcases hr.head d hd with h | h
        · exact .inl h
        · subst h; exact absurd hd (hr.value (by simp))
      | cons c' cs => simp [renderConditions] at hd; exact .inr hd.symm
    obtain ⟨t, h3, h4⟩ := yes_condition (hc c (by simp)) hn k
    refine ⟨[t] ++ ts, yes_star.2 (.inr ⟨[t], _, k, ts, yes_seq.2 ⟨[], _, k, [t], yes_skip_nil (by simp [NoSpace, renderConditions]), ?_, rfl⟩, h1, rfl⟩), ?_⟩
    · simpa [renderConditions] using h3
    · rw [psemKids_append, h4]
      exact pmany_append (as := PVal.asCond) rfl h2

theorem yes_conds (cs : List Condition) (hc : ∀ c ∈ cs, CleanCondition c) {r : Str} (hr : AfterSegment cs r) (k) :
    ∃ ts, Yes G conds (renderConditions cs ++ r) k ts r k ∧ pmany condition PVal.asCond (psemKids ts) = .ok cs := by
  cases cs with
  | nil => exact ⟨[], yes_st_nil (no_condition hr k), rfl⟩
  | cons c cs =>
    have hr' : AfterSegment cs r := ⟨hr.head, fun _ => hr.value (by simp)⟩
    obtain ⟨ts, h1, h2⟩ := yes_conds_star cs (fun c hm => hc c (by simp [hm])) hr' k
    have hn : ∀ d, (renderConditions cs ++ r).head? = some d → d = '.' ∨ d = '|' := by
      intro d hd
      cases cs with
      | nil =>
        have hd : r.head? = some d := hd
        rcases hr.head d hd with h | h
        · exact .inl h
        · subst h; exact absurd hd (hr.value (by simp))
      | cons c' cs => simp [renderConditions] at hd; exact .inr hd.symm
    obtain ⟨t, h3, h4⟩ := yes_condition (hc c (by simp)) hn k
    refine ⟨[t] ++ ts, yes_opt.2 (.inl (yes_seq.2 ⟨[t], _, k, ts, ?_, h1, rfl⟩)), ?_⟩
    · simpa [renderConditions] using h3
    · rw [psemKids_append, h4]
      exact pmany_append (as := PVal.asCond) rfl h2

theorem head_conditions (cs : List Condition) {r : Str} (hr : AfterSegment cs r) :
    ∀ d, (renderConditions cs ++ r).head? = some d → d = '.' ∨ d = '[' ∨ d = '|' := by
  intro d hd
  cases cs with
  | nil =>
    have hd : r.head? = some d := hd
    rcases hr.head d hd with h | h
    · exact .inl h
    · exact .inr (.inl h)
  | cons c cs => simp [renderConditions] at hd; exact .inr (.inr hd.symm)

theorem yes_key {key' : Str} (hk : CleanKey key') (cs : List Condition) (hc : ∀ c ∈ cs, CleanCondition c) {r : Str}
    (hr : AfterSegment cs r) (k) :
    ∃ t, Yes G (.rule key) (key' ++ (renderConditions cs ++ r)) k [t] r k ∧
      psemKids [t] = [(key, .ok (.path (.key key' cs none)))] := by
  have hh := head_conditions cs hr
  have hn : NoSpace (renderConditions cs ++ r) := by
    intro h
    rcases hh _ h with h | h | h <;> cases h
  have he : RunEnd keyChar (renderConditions cs ++ r) := by
    refine ⟨fun d hd => ?_, hn⟩
    rcases hh d hd with rfl | rfl | rfl <;> rfl
  obtain ⟨ws, hws⟩ := yes_run oneChar_key hk.nonempty hk.first hk.last
    (fun d hd => by simpa [keyChar, and_assoc] using hk.inner d hd) he k
  obtain ⟨ts, h1, h2⟩ := yes_conds cs hc hr k
  have h3 : Yes G (.rule pure_key) (key' ++ (renderConditions cs ++ r)) k [.node pure_key key' ws]
      (renderConditions cs ++ r) k :=
    yes_rule.2 ⟨ws, hws, by simp [wrap, pathGrammar, PRule.kind, consumed_app]⟩
  refine ⟨_, yes_rule.2 ⟨_, yes_sq h3 hn h1, rfl⟩, ?_⟩
  simp only [psemKids, psem, List.singleton_append, pact, Out.bind_ok, PVal.asStr, h2]

theorem no_part_nil (k) : No G (.rule part) [] k :=
  no_rule.2 (no_alt.2 ⟨no_sq_left (no_lit.2 (by simp)), no_rule.2 (no_sq_left (no_lit.2 (by simp)))⟩)

/-- A step as a path of its own. -/
def stepPath : Step → YamlPath
  | .key k cs => .key k cs none
  | .all cs => .allIndexes cs none
  | .index n cs => .indexes [n] cs none

theorem yes_part {s : Step} (hs : CleanStep s) {r : Str} (hr : AfterSegment s.conditions r) (k) :
    ∃ t, Yes G (.rule part) (s.render ++ r) k [t] r k ∧ psemKids [t] = [(part, .ok (.path (stepPath s)))] := by
  have hci := hs.conditions
  cases s with
  | key k' cs =>
    have hk := hs.key k' cs rfl
    obtain ⟨t, h1, h2⟩ := yes_key hk cs hci hr k
    have hn : NoSpace (k' ++ (renderConditions cs ++ r)) := by
      have := hk.first
      cases hv : k' with
      | nil => exact absurd hv hk.nonempty
      | cons d t => rw [hv] at this; simpa [NoSpace] using this
    have h3 : Yes G (sq (lit '.') (.rule key)) ('.' :: (k' ++ (renderConditions cs ++ r))) k ([] ++ [t]) r k :=
      yes_sq (yes_str.2 ⟨rfl, rfl, rfl⟩) hn h1
    refine ⟨.node part (consumed ('.' :: (k' ++ (renderConditions cs ++ r))) r) [t], ?_, ?_⟩
    · have : Step.render (.key k' cs) ++ r = '.' :: (k' ++ (renderConditions cs ++ r)) := by simp [Step.render]
      rw [this]
      exact yes_rule.2 ⟨_, yes_alt.2 (.inl h3), rfl⟩
    · simp only [psemKids, psem, h2, pact, Out.bind_ok, PVal.asPath, stepPath]
  | all cs =>
    obtain ⟨ts, h1, h2⟩ := yes_conds cs hci hr k
    have hh := head_conditions cs hr
    have hn : NoSpace (renderConditions cs ++ r) := by
      intro h
      rcases hh _ h with h | h | h <;> cases h
    have h3 : Yes G (.rule index_all) ('*' :: ']' :: (renderConditions cs ++ r)) k [.node index_all ['*'] []]
        (']' :: (renderConditions cs ++ r)) k :=
      yes_rule.2 ⟨[], yes_str.2 ⟨rfl, rfl, rfl⟩, by
        have : '*' :: ']' :: (renderConditions cs ++ r) = ['*'] ++ (']' :: (renderConditions cs ++ r)) := rfl
        rw [this]
        simp only [wrap, pathGrammar, PRule.kind, consumed_app]⟩
    have h4 : No G (.rule index_number) ('*' :: ']' :: (renderConditions cs ++ r)) k :=
      no_rule.2 (no_sq_left (no_cls.2 (by intro c t h; cases h; rfl)))
    have h5 := yes_sq (yes_str (t := ['[']) (s := '[' :: '*' :: ']' :: (renderConditions cs ++ r)) |>.2 ⟨rfl, rfl, rfl⟩)
      (by simp [NoSpace]) (yes_sq (yes_alt.2 (.inr ⟨h4, h3⟩)) (by simp [NoSpace])
        (yes_sq (yes_str (t := [']']) |>.2 ⟨rfl, rfl, rfl⟩) hn h1))
    refine ⟨.node part (consumed ('[' :: '*' :: ']' :: (renderConditions cs ++ r)) r) (.node index_all ['*'] [] :: ts), ?_, ?_⟩
    · have : Step.render (.all cs) ++ r = '[' :: '*' :: ']' :: (renderConditions cs ++ r) := by simp [Step.render]
      rw [this]
      exact yes_rule.2 ⟨_, yes_alt.2 (.inr ⟨no_sq_left (no_lit.2 (by simp)), yes_rule.2 ⟨_, h5, rfl⟩⟩), rfl⟩
    · simp only [psemKids, psem, pact, Out.bind_ok, h2, stepPath]
  | index n cs =>
    have hn64 := hs.index n cs rfl
    obtain ⟨ts, h1, h2⟩ := yes_conds cs hci hr k
    have hh := head_conditions cs hr
    have hn : NoSpace (renderConditions cs ++ r) := by
      intro h
      rcases hh _ h with h | h | h <;> cases h
    have hd : ∀ c ∈ natToStr n, isDigit c = true := List.all_eq_true.1 (natToStr_all n)
    have hsp : ∀ c ∈ natToStr n, c ≠ ' ' := by
      rintro c hc rfl
      have := hd _ hc
      simp [isDigit] at this
    have hf : NoSpace (natToStr n) := fun h => hsp _ (List.mem_of_mem_head? h) rfl
    have hl : (natToStr n).getLast? ≠ some ' ' := fun h => hsp _ (List.mem_of_getLast? h) rfl
    obtain ⟨ws, hws⟩ := yes_run oneChar_digit (natToStr_ne_nil n) hf hl hd
      (r := ']' :: (renderConditions cs ++ r)) ⟨by simp [isDigit], by simp [NoSpace]⟩ k
    have h3 : Yes G (.rule index_number) (natToStr n ++ ']' :: (renderConditions cs ++ r)) k
        [.node index_number (natToStr n) ws] (']' :: (renderConditions cs ++ r)) k :=
      yes_rule.2 ⟨ws, hws, by simp [wrap, pathGrammar, PRule.kind, consumed_app]⟩
    have hf' : NoSpace (natToStr n ++ ']' :: (renderConditions cs ++ r)) := by
      obtain ⟨c, t, hct, -⟩ := natToStr_head n
      rw [hct] at hf ⊢
      simpa [NoSpace] using hf
    have h5 := yes_sq (yes_str (t := ['[']) (s := '[' :: (natToStr n ++ ']' :: (renderConditions cs ++ r))) |>.2 ⟨rfl, rfl, rfl⟩)
      hf' (yes_sq (yes_alt (b := .rule index_all) |>.2 (.inl h3)) (by simp [NoSpace])
        (yes_sq (yes_str (t := [']']) |>.2 ⟨rfl, rfl, rfl⟩) hn h1))
    refine ⟨.node part (consumed ('[' :: (natToStr n ++ ']' :: (renderConditions cs ++ r))) r) (.node index_number (natToStr n) ws :: ts), ?_, ?_⟩
    · have : Step.render (.index n cs) ++ r = '[' :: (natToStr n ++ ']' :: (renderConditions cs ++ r)) := by
        simp [Step.render]
      rw [this]
      exact yes_rule.2 ⟨_, yes_alt.2 (.inr ⟨no_sq_left (no_lit.2 (by simp)), yes_rule.2 ⟨_, h5, rfl⟩⟩), rfl⟩
    · simp only [psemKids, psem, pact, Out.bind_ok, h2, stepPath, parseU64_natToStr hn64, Out.unwrapOpt, PVal.asIdx]

/-- What a list of steps starts with. -/
theorem after_steps {cs : List Condition} {steps : List Step} (h : Separated cs steps) :
    AfterSegment cs (steps.map Step.render).flatten := by
  cases steps with
  | nil => exact ⟨by simp, by simp⟩
  | cons s t =>
    constructor
    · intro c hc
      cases s <;> simp [Step.render] at hc <;> subst hc <;> simp
    · intro hne hh
      have := h.1 hne
      cases s <;> simp [Step.isKey] at this
      simp [Step.render] at hh

theorem yes_parts_star (steps : List Step) (hs : ∀ s ∈ steps, CleanStep s) {cs : List Condition}
    (hsep : Separated cs steps) (k) :
    ∃ ts, Yes G (.star (.seq skip (.rule part))) (steps.map Step.render).flatten k ts [] k ∧
      pmany part PVal.asPath (psemKids ts) = .ok (steps.map stepPath) := by
  induction steps generalizing cs with
  | nil =>
    exact ⟨[], yes_star.2 (.inl ⟨no_seq.2 (.inr ⟨_, _, _, yes_skip_nil (by simp [NoSpace]), no_part_nil k⟩), rfl, rfl, rfl⟩), rfl⟩
  | cons s t ih =>
    obtain ⟨ts, h1, h2⟩ := ih (fun s hm => hs s (by simp [hm])) hsep.2
    obtain ⟨u, h3, h4⟩ := yes_part (hs s (by simp)) (after_steps hsep.2) k
    have hn := (after_steps hsep).noSpace
    refine ⟨[u] ++ ts, yes_star.2 (.inr ⟨[u], _, k, ts, yes_seq.2 ⟨[], _, k, [u], yes_skip_nil hn, ?_, rfl⟩, h1, rfl⟩), ?_⟩
    · simpa using h3
    · rw [psemKids_append, h4]
      exact pmany_append (as := PVal.asPath) rfl h2

theorem yes_parts (steps : List Step) (hs : ∀ s ∈ steps, CleanStep s) {cs : List Condition}
    (hsep : Separated cs steps) (k) :
    ∃ ts, Yes G (st (.rule part)) (steps.map Step.render).flatten k ts [] k ∧
      pmany part PVal.asPath (psemKids ts) = .ok (steps.map stepPath) := by
  cases steps with
  | nil => exact ⟨[], yes_st_nil (no_part_nil k), rfl⟩
  | cons s t =>
    obtain ⟨ts, h1, h2⟩ := yes_parts_star t (fun s hm => hs s (by simp [hm])) hsep.2 k
    obtain ⟨u, h3, h4⟩ := yes_part (hs s (by simp)) (after_steps hsep.2) k
    refine ⟨[u] ++ ts, yes_opt.2 (.inl (yes_seq.2 ⟨[u], _, k, ts, ?_, h1, rfl⟩)), ?_⟩
    · simpa using h3
    · rw [psemKids_append, h4]
      exact pmany_append (as := PVal.asPath) rfl h2

/-! ## putting steps together -/

theorem insert_assoc (a b c : YamlPath) : (a.insert b).insert c = a.insert (b.insert c) :=
  match a with
  | .root _ => rfl
  | .key _ _ none => rfl
  | .allIndexes _ none => rfl
  | .indexes _ _ none => rfl
  | .key k cs (some o) => by simp only [YamlPath.insert, insert_assoc o b c]
  | .allIndexes cs (some o) => by simp only [YamlPath.insert, insert_assoc o b c]
  | .indexes is cs (some o) => by simp only [YamlPath.insert, insert_assoc o b c]

/-- Steps after a path. -/
def appendSteps (p : YamlPath) (steps : List Step) : YamlPath :=
  match pathOf steps with
  | none => p
  | some q => p.insert q

theorem foldl_insert (steps : List Step) (p : YamlPath) :
    (steps.map stepPath).foldl YamlPath.insert p = appendSteps p steps := by
  induction steps generalizing p with
  | nil => rfl
  | cons s t ih =>
    simp only [List.map_cons, List.foldl_cons, ih, appendSteps]
    cases s <;> simp only [pathOf, stepPath] <;> cases pathOf t <;>
      simp only [insert_assoc] <;> rfl

/-- The text of a clean path parses to the path. -/
theorem parse_render {k : Str} {cs : List Condition} {steps : List Step} (hk : CleanKey k)
    (hc : ∀ c ∈ cs, CleanCondition c) (hs : ∀ s ∈ steps, CleanStep s) (hsep : Separated cs steps) :
    ∃ t, Yes G (.rule final_path) (renderPath k cs steps) [] [t] [] [] ∧
      psem t = .ok (.path (.key k cs (pathOf steps))) := by
  obtain ⟨t, h1, h2⟩ := yes_key hk cs hc (after_steps hsep) []
  obtain ⟨ts, h3, h4⟩ := yes_parts steps hs hsep []
  have h5 : Yes G (.rule path) (renderPath k cs steps) [] [.node path (renderPath k cs steps) (t :: ts)] [] [] := by
    refine yes_rule.2 ⟨_, yes_sq (by simpa [renderPath] using h1) (after_steps hsep).noSpace h3, ?_⟩
    have := consumed_app (renderPath k cs steps) []
    simp only [List.append_nil] at this
    simp [wrap, pathGrammar, PRule.kind, this]
  refine ⟨_, yes_rule.2 ⟨_, yes_sq (yes_alt.2 (.inl h5)) (by simp [NoSpace]) (yes_eoi.2 ⟨rfl, rfl, rfl, rfl⟩), rfl⟩, ?_⟩
  have h6 : psemKids (t :: ts) = (key, .ok (.path (.key k cs none))) :: psemKids ts := by
    have := psemKids_append [t] ts
    rw [h2] at this
    exact this
  simp only [psem, psemKids, List.singleton_append, pact, h6, Out.bind_ok, PVal.asPath, h4, foldl_insert, appendSteps]
  cases pathOf steps <;> rfl

theorem yes_root (cs : List Condition) (hc : ∀ c ∈ cs, CleanCondition c) :
    ∃ t, Yes G (.rule final_path) (renderConditions cs) [] [t] [] [] ∧ psem t = .ok (.path (.root cs)) := by
  have ha : AfterSegment cs [] := ⟨by simp, by simp⟩
  obtain ⟨ts, h1, h2⟩ := yes_conds cs hc ha []
  rw [List.append_nil] at h1
  have hn : NoSpace (renderConditions cs) := by cases cs <;> simp [NoSpace, renderConditions]
  have hno : No G (.rule path) (renderConditions cs) [] := by
    refine no_rule.2 (no_sq_left (no_rule.2 (no_sq_left (no_rule.2 (no_sq_left (oneChar_key.no _ _ ?_))))))
    intro c h
    cases cs with
    | nil => simp [renderConditions] at h
    | cons d cs => simp [renderConditions] at h; subst h; rfl
  have h3 : Yes G (.rule root) (renderConditions cs) [] [.node root (renderConditions cs) (.node root_key [] [] :: ts)] [] [] := by
    refine yes_rule.2 ⟨_, yes_sq (yes_rule.2 ⟨[], yes_str (t := []) |>.2 ⟨rfl, rfl, rfl⟩, rfl⟩) hn h1, ?_⟩
    have := consumed_app (renderConditions cs) []
    simp only [List.append_nil] at this
    have h0 : consumed (renderConditions cs) (renderConditions cs) = [] := consumed_eq rfl
    simp [wrap, pathGrammar, PRule.kind, this, h0]
  refine ⟨_, yes_rule.2 ⟨_, yes_sq (yes_alt.2 (.inr ⟨hno, h3⟩)) (by simp [NoSpace]) (yes_eoi.2 ⟨rfl, rfl, rfl, rfl⟩), rfl⟩, ?_⟩
  simp only [psem, psemKids, List.singleton_append, pact, Out.bind_ok, PVal.asPath, h2]

end YamlSubset
