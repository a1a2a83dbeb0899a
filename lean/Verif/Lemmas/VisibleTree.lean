import Verif.Lemmas.VisibleAct

/-! # Every node -/

namespace YamlSubset

open Peg Spec

variable {T : CharTables}

local notation "Gy" => yamlGrammar T

/-- The second step through a sequence. -/
theorem spells_cons {q : Rule} (hq : q.kind ≠ .silent) {b : Expr Rule} {us x} (h : spells (.seq (.rule q) b) us x) :
    ∃ t us' x', us = t :: us' ∧ t.root = q ∧ x = visible t.text ++ x' ∧ spells b us' x' := by
  obtain ⟨_, _, _, _, h1, h2, rfl, rfl⟩ := h
  obtain ⟨t, rfl, ht, rfl⟩ := spells_one hq h1
  exact ⟨t, _, _, rfl, ht, rfl, h2⟩

/-- An optional node at the end. -/
theorem spells_opt_one {q : Rule} (hq : q.kind ≠ .silent) {us x} (h : spells (.opt (.rule q)) us x) :
    (us = [] ∧ x = []) ∨ ∃ t, us = [t] ∧ t.root = q ∧ x = visible t.text := by
  rcases h with h | h
  · exact .inr (spells_one hq h)
  · exact .inl h

theorem spells_star_rule {q : Rule} (hq : q.kind ≠ .silent) {us x} (h : spells (.star (.rule q)) us x) :
    (∀ t ∈ us, t.root = q) ∧ x = us.flatMap fun t => visible t.text :=
  spells_star_one (fun _ _ h => spells_one hq h) h

/-- A repetition between other things. -/
theorem spells_star_then {q : Rule} (hq : q.kind ≠ .silent) {e b : Expr Rule} (he : ∀ us x, spells e us x → spells (.rule q) us x) {us x}
    (h : spells (.seq (.star e) b) us x) :
    ∃ ts us' x', us = ts ++ us' ∧ (∀ t ∈ ts, t.root = q) ∧ x = (ts.flatMap fun t => visible t.text) ++ x' ∧ spells b us' x' := by
  obtain ⟨_, _, _, _, h1, h2, rfl, rfl⟩ := h
  obtain ⟨h3, rfl⟩ := spells_star_one (q := q) (f := fun t => visible t.text) (fun _ _ h => spells_one hq (he _ _ h)) h1
  exact ⟨_, _, _, rfl, h3, rfl, h2⟩

theorem spells_lit {c : Char} (hc : isWhitespace c = false) {b : Expr Rule} {us x} (h : spells (.seq (.str [c]) b) us x) :
    ∃ x', x = c :: x' ∧ spells b us x' := by
  obtain ⟨_, _, _, _, ⟨rfl, rfl⟩, h2, rfl, rfl⟩ := h
  rw [lit_ink hc]
  exact ⟨_, rfl, h2⟩

theorem spells_pushed (ts x) : spells (.push (.star Rule.SP)) ts x ↔ ts = [] ∧ x = [] := spells_stars ts x
theorem spells_pushed_space (ts x) : spells (.push (.str [' '])) ts x ↔ ts = [] ∧ x = [] := by
  have : ([' '] : Str).filter ink = [] := by decide
  rw [spells_push, spells_str, this]
theorem spells_opt_newline (ts x) : spells (.opt Rule.NEWLINE) ts x ↔ ts = [] ∧ x = [] := by
  rw [spells_opt, spells_newline, or_self]
theorem spells_gap (ts x) : spells (.plus Rule.SP) ts x ↔ ts = [] ∧ x = [] := by
  rw [Expr.plus, spells_seq_nil spells_sp, spells_stars]
theorem spells_gap_or (ts x) : spells (.alt (.plus Rule.SP) (.rule .blanknl)) ts x ↔ ts = [] ∧ x = [] := by
  rw [spells_alt, spells_gap, spells_blanknl, or_self]

theorem seen_dqEsc {c : Char} (h : c ∈ ['n', '\\', 'r', 't', '"', '\n']) {v : Val} (hv : Consume.escapedDoubleQuoteCharValue [c] = .ok v) :
    ∃ e, v = .dqEsc e ∧ '\\' :: visible [c] = dqShown (.escapedChar e) := by
  simp only [List.mem_cons, List.not_mem_nil, or_false] at h
  rcases h with rfl | rfl | rfl | rfl | rfl | rfl
  all_goals
    simp only [Consume.escapedDoubleQuoteCharValue] at hv
    cases hv
    exact ⟨_, rfl, by decide⟩

/-- A hash. -/
theorem seen_hash {us x} (h : spells (Rule.body T .hash) us x) (hk : ∀ t ∈ us, Sees t) {v} (hv : Consume.hash (semKids us) = .ok v) :
    ∃ y, v = .yaml y ∧ Shown y x := by
  have g1 := (spells_seq_nil spells_opt_newline _ _).1 h
  obtain ⟨t₁, us₁, x₁, rfl, r₁, rfl, g2⟩ := spells_cons (by decide) g1
  have g3 := (spells_seq_nil spells_blank _ _).1 g2
  have g4 := (spells_seq_nil spells_pushed _ _).1 g3
  obtain ⟨t₂, us₂, x₂, rfl, r₂, rfl, g5⟩ := spells_cons (by decide) g4
  obtain ⟨ts, us₃, x₃, rfl, r₃, rfl, g6⟩ := spells_star_then (q := .hash_element_data) (by decide) (fun _ _ h => h) g5
  have g7 := (spells_seq_nil spells_drop _ _).1 g6
  obtain ⟨t₄, rfl, r₄, rfl⟩ := spells_one (by decide) g7
  simp only [semKids_cons, r₁, r₂, Consume.hash] at hv
  obtain ⟨w₁, e₁, hv⟩ := Out.ok_of_bind hv
  obtain ⟨cs, e₂, hv⟩ := Out.ok_of_bind hv
  obtain ⟨w₂, e₃, hv⟩ := Out.ok_of_bind hv
  obtain ⟨ds, e₄, hv⟩ := Out.ok_of_bind hv
  obtain ⟨p, e₅, hv⟩ := Out.ok_of_bind hv
  cases hv
  obtain ⟨m₁, w₃, m₂, m₃⟩ := manyThen_seen r₄ e₅
  refine ⟨_, rfl, .hash ?_⟩
  have k₁ := (hk t₁ (by simp)).comments r₁ e₁ e₂
  have k₂ := (hk t₂ (by simp)).hashData (.inl r₂) e₃ e₄
  have k₃ := seen_rest_hash r₃ (fun t ht => hk t (by simp [ht])) m₁
  have k₄ := (hk t₄ (by simp)).comments r₄ m₂ m₃
  rw [k₁, k₄]
  have := (((EntriesShown.comments cs).append k₂).append k₃).append (.comments p.2)
  simpa using this

theorem seen_continuation {us x} (h : spells (Rule.body T .alternative_hash_continuation) us x) (hk : ∀ t ∈ us, Sees t) {v}
    (hv : Consume.alternativeHashContinuation (semKids us) = .ok v) : ∃ ds, v = .hashData ds ∧ EntriesShown Shown ds x := by
  have g1 := (spells_seq_nil spells_blanknl _ _).1 h
  obtain ⟨t₁, us₁, x₁, rfl, r₁, rfl, g2⟩ := spells_cons (by decide) g1
  have g3 := (spells_seq_nil spells_and _ _).1 g2
  have g4 := (spells_seq_nil spells_pushed _ _).1 g3
  obtain ⟨t₂, us₂, x₂, rfl, r₂, rfl, g5⟩ := spells_cons (by decide) g4
  obtain ⟨ts, us₃, x₃, rfl, r₃, rfl, g6⟩ := spells_star_then (q := .hash_element_data) (by decide) (fun _ _ h => h) g5
  obtain ⟨rfl, rfl⟩ := (spells_drop _ _).1 g6
  simp only [semKids_cons, r₁, r₂, Consume.alternativeHashContinuation, List.append_nil] at hv
  obtain ⟨w₁, e₁, hv⟩ := Out.ok_of_bind hv
  obtain ⟨cs, e₂, hv⟩ := Out.ok_of_bind hv
  obtain ⟨w₂, e₃, hv⟩ := Out.ok_of_bind hv
  obtain ⟨ds, e₄, hv⟩ := Out.ok_of_bind hv
  obtain ⟨l, e₅, hv⟩ := Out.ok_of_bind hv
  cases hv
  refine ⟨_, rfl, ?_⟩
  have k₁ := (hk t₁ (by simp)).comments r₁ e₁ e₂
  have k₂ := (hk t₂ (by simp)).hashData (.inl r₂) e₃ e₄
  have k₃ := seen_rest_hash r₃ (fun t ht => hk t (by simp [ht])) e₅
  rw [k₁]
  have := ((EntriesShown.comments cs).append k₂).append k₃
  simpa using this

theorem seen_alternative_hash {us x} (h : spells (Rule.body T .alternative_hash) us x) (hk : ∀ t ∈ us, Sees t) {v}
    (hv : Consume.alternativeHash (semKids us) = .ok v) : ∃ y, v = .yaml y ∧ Shown y x := by
  obtain ⟨t₁, us₁, x₁, rfl, r₁, rfl, g1⟩ := spells_cons (by decide) h
  obtain ⟨us₂, x₂, us₃, x₃, h2, h3, rfl, rfl⟩ := g1
  obtain ⟨t₃, rfl, r₃, rfl⟩ := spells_one (by decide) h3
  rcases spells_opt_one (by decide) h2 with ⟨rfl, rfl⟩ | ⟨t₂, rfl, r₂, rfl⟩
  · simp only [List.nil_append, semKids_cons, semKids, r₁, r₃, Consume.alternativeHash] at hv
    obtain ⟨w₁, e₁, hv⟩ := Out.ok_of_bind hv
    obtain ⟨ds, e₂, hv⟩ := Out.ok_of_bind hv
    obtain ⟨w₂, e₃, hv⟩ := Out.ok_of_bind hv
    obtain ⟨cs, e₄, hv⟩ := Out.ok_of_bind hv
    cases hv
    refine ⟨_, rfl, .hash ?_⟩
    have k₁ := (hk t₁ (by simp)).hashData (.inl r₁) e₁ e₂
    have k₄ := (hk t₃ (by simp)).comments r₃ e₃ e₄
    rw [k₄]
    simpa using k₁.append (.comments cs)
  · simp only [List.cons_append, List.nil_append, semKids_cons, semKids, r₁, r₂, r₃, Consume.alternativeHash] at hv
    obtain ⟨w₁, e₁, hv⟩ := Out.ok_of_bind hv
    obtain ⟨ds, e₂, hv⟩ := Out.ok_of_bind hv
    obtain ⟨w₃, e₅, hv⟩ := Out.ok_of_bind hv
    obtain ⟨ds', e₆, hv⟩ := Out.ok_of_bind hv
    obtain ⟨w₂, e₃, hv⟩ := Out.ok_of_bind hv
    obtain ⟨cs, e₄, hv⟩ := Out.ok_of_bind hv
    cases hv
    refine ⟨_, rfl, .hash ?_⟩
    have k₁ := (hk t₁ (by simp)).hashData (.inl r₁) e₁ e₂
    have k₂ := (hk t₂ (by simp)).hashData (.inr r₂) e₅ e₆
    have k₄ := (hk t₃ (by simp)).comments r₃ e₃ e₄
    rw [k₄]
    simpa using (k₁.append k₂).append (.comments cs)

theorem seen_block_array {us x} (h : spells (Rule.body T .block_array) us x) (hk : ∀ t ∈ us, Sees t) {v}
    (hv : Consume.blockArray (semKids us) = .ok v) : ∃ y, v = .yaml y ∧ Shown y x := by
  obtain ⟨t₁, us₁, x₁, rfl, r₁, rfl, g1⟩ := spells_cons (by decide) h
  have g2 := (spells_seq_nil spells_blank _ _).1 g1
  have g3 := (spells_seq_nil spells_pushed _ _).1 g2
  obtain ⟨t₂, us₂, x₂, rfl, r₂, rfl, g4⟩ := spells_cons (by decide) g3
  have g5 := (spells_seq_nil spells_stars _ _).1 g4
  obtain ⟨ts, us₃, x₃, rfl, r₃, rfl, g6⟩ := spells_star_then (q := .block_array_data) (by decide)
    (fun _ _ h => (spells_seq_nil spells_blank _ _).1 h) g5
  have g7 := (spells_seq_nil spells_drop _ _).1 g6
  obtain ⟨t₄, rfl, r₄, rfl⟩ := spells_one (by decide) g7
  simp only [semKids_cons, r₁, r₂, Consume.blockArray] at hv
  obtain ⟨w₁, e₁, hv⟩ := Out.ok_of_bind hv
  obtain ⟨cs, e₂, hv⟩ := Out.ok_of_bind hv
  obtain ⟨w₂, e₃, hv⟩ := Out.ok_of_bind hv
  obtain ⟨ds, e₄, hv⟩ := Out.ok_of_bind hv
  obtain ⟨p, e₅, hv⟩ := Out.ok_of_bind hv
  cases hv
  obtain ⟨m₁, w₃, m₂, m₃⟩ := manyThen_seen r₄ e₅
  refine ⟨_, rfl, .array ?_⟩
  have k₁ := (hk t₁ (by simp)).comments r₁ e₁ e₂
  have k₂ := (hk t₂ (by simp)).arrayData r₂ e₃ e₄
  have k₃ := seen_rest_array r₃ (fun t ht => hk t (by simp [ht])) m₁
  have k₄ := (hk t₄ (by simp)).comments r₄ m₂ m₃
  rw [k₁, k₄]
  have := (((ElementsShown.comments cs).append k₂).append k₃).append (.comments p.2)
  simpa using this

theorem seen_alternative_array {us x} (h : spells (Rule.body T .alternative_array) us x) (hk : ∀ t ∈ us, Sees t) {v}
    (hv : Consume.alternativeArray (semKids us) = .ok v) : ∃ y, v = .yaml y ∧ Shown y x := by
  obtain ⟨t₁, us₁, x₁, rfl, r₁, rfl, g1⟩ := spells_cons (by decide) h
  have g2 := (spells_seq_nil spells_blanknl _ _).1 g1
  have g3 := (spells_seq_nil spells_pushed _ _).1 g2
  obtain ⟨t₂, us₂, x₂, rfl, r₂, rfl, g4⟩ := spells_cons (by decide) g3
  have g5 := (spells_seq_nil spells_stars _ _).1 g4
  obtain ⟨ts, us₃, x₃, rfl, r₃, rfl, g6⟩ := spells_star_then (q := .block_array_data) (by decide)
    (fun _ _ h => (spells_seq_nil spells_blanknl _ _).1 h) g5
  have g7 := (spells_seq_nil spells_drop _ _).1 g6
  obtain ⟨t₄, rfl, r₄, rfl⟩ := spells_one (by decide) g7
  simp only [semKids_cons, r₁, r₂, Consume.alternativeArray] at hv
  obtain ⟨w₁, e₁, hv⟩ := Out.ok_of_bind hv
  obtain ⟨ds₁, e₂, hv⟩ := Out.ok_of_bind hv
  obtain ⟨w₂, e₃, hv⟩ := Out.ok_of_bind hv
  obtain ⟨ds, e₄, hv⟩ := Out.ok_of_bind hv
  obtain ⟨p, e₅, hv⟩ := Out.ok_of_bind hv
  cases hv
  obtain ⟨m₁, w₃, m₂, m₃⟩ := manyThen_seen r₄ e₅
  refine ⟨_, rfl, .array ?_⟩
  have k₁ := (hk t₁ (by simp)).arrayData r₁ e₁ e₂
  have k₂ := (hk t₂ (by simp)).arrayData r₂ e₃ e₄
  have k₃ := seen_rest_array r₃ (fun t ht => hk t (by simp [ht])) m₁
  have k₄ := (hk t₄ (by simp)).comments r₄ m₂ m₃
  rw [k₄]
  have := ((k₁.append k₂).append k₃).append (.comments p.2)
  simpa using this

end YamlSubset
