import Verif.Lemmas.LayWritten
import Verif.Spec.Place

/-! # The text of an item in the text of a document -/

namespace YamlSubset

open Spec

namespace Lay

variable {T : CharTables}

/-- An element in a list that starts with an element and other things. -/
theorem split_after {α : Type} {p : α → Prop} {e₀ e : α} {cs ds pre post : List α} (h : e₀ :: (cs ++ ds) = pre ++ e :: post) (hc : ∀ c ∈ cs, ¬ p c) (he : p e) :
    (pre = [] ∧ e₀ = e ∧ post = cs ++ ds) ∨ ∃ pre', pre = e₀ :: (cs ++ pre') ∧ ds = pre' ++ e :: post := by
  cases pre with
  | nil => simp at h; exact .inl ⟨rfl, h.1, h.2.symm⟩
  | cons a pre =>
    simp only [List.cons_append, List.cons.injEq] at h
    obtain ⟨rfl, h⟩ := h
    refine .inr ?_
    rcases List.append_eq_append_iff.1 h with ⟨l, h1, h2⟩ | ⟨l, h1, h2⟩
    · exact ⟨l, by rw [h1], h2⟩
    · cases l with
      | nil => simp at h1 h2; exact ⟨[], by simp [h1], by simp [h2]⟩
      | cons b l =>
        simp only [List.cons_append, List.cons.injEq] at h2
        exact absurd he (hc e (by simp [h1, h2.1]))

/-- The text of an entry in the text of a mapping. -/
theorem entries_slot {P : ValueText} {c next cl ds x} (h : EntryTexts T P c next cl ds x) : ∀ {pre k v post}, ds = pre ++ HashData.element ⟨k, v⟩ :: post →
    ∃ A n s B nx cl₀ ps, x = A ++ k ++ pad n ++ ':' :: s ++ B ∧ KeyText T k ∧ ItemText T P (some c) nx c .key cl₀ v ps s ∧
      ∀ k' v' s', KeyText T k' → ItemText T P (some c) nx c .key cl₀ v' ps s' →
        EntryTexts T P c next cl (pre ++ .element ⟨k', v'⟩ :: post) (A ++ k' ++ pad n ++ ':' :: s' ++ B) := by
  induction h with
  | @last c next cl k₀ n v₀ ps x hk hv =>
    intro pre k v post hd
    have hd : HashData.element ⟨k₀, v₀⟩ :: (ps.map .inlineComment ++ []) = pre ++ .element ⟨k, v⟩ :: post := by simpa using hd
    rcases split_after (p := fun d => ∃ e, d = .element e) hd (by simp) ⟨_, rfl⟩ with ⟨rfl, he, rfl⟩ | ⟨pre', _, h2⟩
    · injection he with he
      injection he with h1 h2
      subst h1; subst h2
      refine ⟨[], n, x, [], _, _, ps, by simp, hk, hv, fun k' v' s' hk' hv' => ?_⟩
      simpa using EntryTexts.last hk' hv'
    · simp at h2
  | @more c next cl cl' k₀ n v₀ ps x cs g ds rest hk hv hg h ih =>
    intro pre k v post hd
    have hd : HashData.element ⟨k₀, v₀⟩ :: ((ps.map .inlineComment ++ cs.map .comment) ++ ds) = pre ++ .element ⟨k, v⟩ :: post := by simpa using hd
    rcases split_after (p := fun d => ∃ e, d = .element e) hd (by simp only [List.mem_append, List.mem_map]; rintro c (⟨_, _, rfl⟩ | ⟨_, _, rfl⟩) <;> simp)
      ⟨_, rfl⟩ with ⟨rfl, he, rfl⟩ | ⟨pre', rfl, h2⟩
    · injection he with he
      injection he with h1 h2
      subst h1; subst h2
      refine ⟨[], n, x, g ++ pad c ++ rest, _, _, ps, by simp, hk, hv, fun k' v' s' hk' hv' => ?_⟩
      have := EntryTexts.more (n := n) hk' hv' hg h
      simpa using this
    · obtain ⟨A, m, s, B, nx, cl₀, ps', hx, hk', hv', hr⟩ := ih h2
      refine ⟨k₀ ++ pad n ++ ':' :: x ++ g ++ pad c ++ A, m, s, B, nx, cl₀, ps', by simp [hx], hk', hv', fun k' v' s' hk'' hv'' => ?_⟩
      have := EntryTexts.more (n := n) hk hv hg (hr k' v' s' hk'' hv'')
      simpa using this

/-- The text of an element in the text of a sequence. -/
theorem elements_slot {P : ValueText} {c next cl ds x} (h : ElementTexts T P c next cl ds x) : ∀ {pre v post}, ds = pre ++ ArrayData.element v :: post →
    ∃ A s B nx cl₀ ps, x = A ++ '-' :: s ++ B ∧ ItemText T P (some c) nx c .dash cl₀ v ps s ∧
      ∀ v' s', ItemText T P (some c) nx c .dash cl₀ v' ps s' →
        ElementTexts T P c next cl (pre ++ .element v' :: post) (A ++ '-' :: s' ++ B) := by
  induction h with
  | @last c next cl v₀ ps x hv =>
    intro pre v post hd
    have hd : ArrayData.element v₀ :: (ps.map .inlineComment ++ []) = pre ++ .element v :: post := by simpa using hd
    rcases split_after (p := fun d => ∃ e, d = .element e) hd (by simp) ⟨_, rfl⟩ with ⟨rfl, he, rfl⟩ | ⟨pre', _, h2⟩
    · injection he with he
      subst he
      refine ⟨[], x, [], _, _, ps, by simp, hv, fun v' s' hv' => ?_⟩
      simpa using ElementTexts.last hv'
    · simp at h2
  | @more c next cl cl' v₀ ps x cs g ds rest hv hg h ih =>
    intro pre v post hd
    have hd : ArrayData.element v₀ :: ((ps.map .inlineComment ++ cs.map .comment) ++ ds) = pre ++ .element v :: post := by simpa using hd
    rcases split_after (p := fun d => ∃ e, d = .element e) hd (by simp only [List.mem_append, List.mem_map]; rintro c (⟨_, _, rfl⟩ | ⟨_, _, rfl⟩) <;> simp)
      ⟨_, rfl⟩ with ⟨rfl, he, rfl⟩ | ⟨pre', rfl, h2⟩
    · injection he with he
      subst he
      refine ⟨[], x, g ++ pad c ++ rest, _, _, ps, by simp, hv, fun v' s' hv' => ?_⟩
      have := ElementTexts.more hv' hg h
      simpa using this
    · obtain ⟨A, s, B, nx, cl₀, ps', hx, hv', hr⟩ := ih h2
      refine ⟨'-' :: x ++ g ++ pad c ++ A, s, B, nx, cl₀, ps', by simp [hx], hv', fun v' s' hv'' => ?_⟩
      have := ElementTexts.more hv hg (hr v' s' hv'')
      simpa using this

/-- The text of an entry in the text of a value that is a mapping. -/
theorem written_entry {t next s hold cl a pre k v post x}
    (h : Written T t next s hold cl ⟨a, .hash (pre ++ .element ⟨k, v⟩ :: post)⟩ x) :
    ∃ A n z B t₀ nx c cl₀ ps, x = A ++ k ++ pad n ++ ':' :: z ++ B ∧ KeyText T k ∧ ItemText T (Written T) t₀ nx c .key cl₀ v ps z ∧
      ∀ k' v' z', KeyText T k' → ItemText T (Written T) t₀ nx c .key cl₀ v' ps z' →
        Written T t next s hold cl ⟨a, .hash (pre ++ .element ⟨k', v'⟩ :: post)⟩ (A ++ k' ++ pad n ++ ':' :: z' ++ B) := by
  generalize hd : pre ++ HashData.element ⟨k, v⟩ :: post = es at h
  cases h with
  | scalar ha h =>
    cases h with
    | flow _ h => nomatch h
  | @hash _ _ _ c _ _ _ cs lead ds x hs hl h =>
    have hp : ∃ pre', pre = cs.map .comment ++ pre' ∧ ds = pre' ++ .element ⟨k, v⟩ :: post := by
      rcases List.append_eq_append_iff.1 hd with ⟨l, h1, h2⟩ | ⟨l, h1, h2⟩
      · cases l with
        | nil => simp at h1 h2; exact ⟨[], by simp [h1], by simp [h2]⟩
        | cons b l =>
          simp only [List.cons_append, List.cons.injEq] at h2
          have : HashData.element ⟨k, v⟩ ∈ cs.map HashData.comment := by rw [h1, h2.1]; simp
          simp at this
      · exact ⟨l, h1, h2⟩
    obtain ⟨pre', rfl, hd'⟩ := hp
    obtain ⟨A, n, z, B, nx, cl₀, ps, hx, hk, hv, hr⟩ := entries_slot h hd'
    refine ⟨lead ++ pad c ++ A, n, z, B, _, nx, c, cl₀, ps, by simp [hx], hk, hv, fun k' v' z' hk' hv' => ?_⟩
    have := Written.hash (t := t) hs hl (hr k' v' z' hk' hv')
    simpa using this
  | @innerOne _ _ _ c _ _ _ lead k₀ n v₀ ps x hs hl hd' hk hv =>
    have hd : HashData.element ⟨k₀, v₀⟩ :: (ps.map .inlineComment ++ []) = pre ++ .element ⟨k, v⟩ :: post := by simpa using hd.symm
    rcases split_after (p := fun d => ∃ e, d = .element e) hd (by simp) ⟨_, rfl⟩ with ⟨rfl, he, rfl⟩ | ⟨pre', _, h2⟩
    · injection he with he
      injection he with h1 h2
      subst h1; subst h2
      refine ⟨lead, n, x, [], t, next, c, cl, ps, by simp, hk, hv, fun k' v' z' hk' hv' => ?_⟩
      have := Written.innerOne (n := n) hs hl hd' hk' hv'
      simpa using this
    · simp at h2
  | @innerMore _ _ _ c _ _ cl' _ lead k₀ n v₀ ps x cs g ds rest hs hl hk hv hg h =>
    have hd : HashData.element ⟨k₀, v₀⟩ :: ((ps.map .inlineComment ++ cs.map .comment) ++ ds) = pre ++ .element ⟨k, v⟩ :: post := by simpa using hd.symm
    rcases split_after (p := fun d => ∃ e, d = .element e) hd (by simp only [List.mem_append, List.mem_map]; rintro c (⟨_, _, rfl⟩ | ⟨_, _, rfl⟩) <;> simp)
      ⟨_, rfl⟩ with ⟨rfl, he, rfl⟩ | ⟨pre', rfl, h2⟩
    · injection he with he
      injection he with h1 h2
      subst h1; subst h2
      refine ⟨lead, n, x, g ++ pad c ++ rest, _, _, c, cl', ps, by simp, hk, hv, fun k' v' z' hk' hv' => ?_⟩
      have := Written.innerMore (t := t) (n := n) hs hl hk' hv' hg h
      simpa using this
    · obtain ⟨A, m, z, B, nx, cl₀, ps', hx, hk', hv', hr⟩ := entries_slot h h2
      refine ⟨lead ++ k₀ ++ pad n ++ ':' :: x ++ g ++ pad c ++ A, m, z, B, _, nx, c, cl₀, ps', by simp [hx], hk', hv', fun k' v' z' hk'' hv'' => ?_⟩
      have := Written.innerMore (t := t) (n := n) hs hl hk hv hg (hr k' v' z' hk'' hv'')
      simpa using this

/-- The text of an element in the text of a value that is a sequence. -/
theorem written_element {t next s hold cl a pre v post x}
    (h : Written T t next s hold cl ⟨a, .array (pre ++ .element v :: post)⟩ x) :
    ∃ A z B t₀ nx c cl₀ ps, x = A ++ '-' :: z ++ B ∧ ItemText T (Written T) t₀ nx c .dash cl₀ v ps z ∧
      ∀ v' z', ItemText T (Written T) t₀ nx c .dash cl₀ v' ps z' →
        Written T t next s hold cl ⟨a, .array (pre ++ .element v' :: post)⟩ (A ++ '-' :: z' ++ B) := by
  generalize hd : pre ++ ArrayData.element v :: post = es at h
  cases h with
  | scalar ha h =>
    cases h with
    | flow _ h => nomatch h
  | @array _ _ _ c _ _ _ cs lead ds x hs hl h =>
    have hp : ∃ pre', pre = cs.map .comment ++ pre' ∧ ds = pre' ++ .element v :: post := by
      rcases List.append_eq_append_iff.1 hd with ⟨l, h1, h2⟩ | ⟨l, h1, h2⟩
      · cases l with
        | nil => simp at h1 h2; exact ⟨[], by simp [h1], by simp [h2]⟩
        | cons b l =>
          simp only [List.cons_append, List.cons.injEq] at h2
          have : ArrayData.element v ∈ cs.map ArrayData.comment := by rw [h1, h2.1]; simp
          simp at this
      · exact ⟨l, h1, h2⟩
    obtain ⟨pre', rfl, hd'⟩ := hp
    obtain ⟨A, z, B, nx, cl₀, ps, hx, hv, hr⟩ := elements_slot h hd'
    refine ⟨lead ++ pad c ++ A, z, B, _, nx, c, cl₀, ps, by simp [hx], hv, fun v' z' hv' => ?_⟩
    have := Written.array (t := t) hs hl (hr v' z' hv')
    simpa using this
  | @innerElement _ _ _ c _ _ _ lead v₀ ps x hs hl hd' hv =>
    have hd : ArrayData.element v₀ :: (ps.map .inlineComment ++ []) = pre ++ .element v :: post := by simpa using hd.symm
    rcases split_after (p := fun d => ∃ e, d = .element e) hd (by simp) ⟨_, rfl⟩ with ⟨rfl, he, rfl⟩ | ⟨pre', _, h2⟩
    · injection he with he
      subst he
      refine ⟨lead, x, [], _, next, c, cl, ps, by simp, hv, fun v' z' hv' => ?_⟩
      have := Written.innerElement (t := t) hs hl hd' hv'
      simpa using this
    · simp at h2
  | @innerElements _ _ _ c _ _ cl' _ lead v₀ ps x g ds rest hs hl hv hg h =>
    have hd : ArrayData.element v₀ :: (ps.map .inlineComment ++ ds) = pre ++ .element v :: post := by simpa using hd.symm
    rcases split_after (p := fun d => ∃ e, d = .element e) hd (by simp) ⟨_, rfl⟩ with ⟨rfl, he, rfl⟩ | ⟨pre', rfl, h2⟩
    · injection he with he
      subst he
      refine ⟨lead, x, g ++ pad c ++ rest, _, _, c, cl', ps, by simp, hv, fun v' z' hv' => ?_⟩
      have := Written.innerElements (t := t) hs hl hv' hg h
      simpa using this
    · obtain ⟨A, z, B, nx, cl₀, ps', hx, hv', hr⟩ := elements_slot h h2
      refine ⟨lead ++ '-' :: x ++ g ++ pad c ++ A, z, B, _, nx, c, cl₀, ps', by simp [hx], hv', fun v' z' hv'' => ?_⟩
      have := Written.innerElements (t := t) hs hl hv hg (hr v' z' hv'')
      simpa using this

/-! ## any place -/

theorem at_index {α : Type} {ds : List α} {i : Nat} {e : α} (h : ds[i]? = some e) :
    ds = ds.take i ++ e :: ds.drop (i + 1) ∧ ∀ e', ds.set i e' = ds.take i ++ e' :: ds.drop (i + 1) := by
  obtain ⟨hi, he⟩ := List.getElem?_eq_some_iff.1 h
  refine ⟨?_, fun e' => by rw [List.set_eq_take_append_cons_drop, if_pos hi]⟩
  rw [← he, List.getElem_cons_drop, List.take_append_drop]

/-- In the texts of values with `R`, the texts of the items can be replaced. -/
def Slots (T : CharTables) (R : Yaml → Str → Prop) : Prop :=
  ∀ y x i v, R y x → childAt i y = some v → ∃ A z B t nx c hold cl ps, x = A ++ z ++ B ∧ ItemText T (Written T) t nx c hold cl v ps z ∧
    ∀ v' z', ItemText T (Written T) t nx c hold cl v' ps z' → R (setChild i v' y) (A ++ z' ++ B)

/-- The same for keys. -/
def KeySlots (T : CharTables) (R : Yaml → Str → Prop) : Prop :=
  ∀ y x i k, R y x → keyAt i y = some k → ∃ A B, x = A ++ k ++ B ∧ KeyText T k ∧ ∀ k', KeyText T k' → R (setKey i k' y) (A ++ k' ++ B)

theorem childAt_cases {i : Nat} {y : Yaml} {v : AliasedYaml} (h : childAt i y = some v) :
    (∃ ds k, y = .hash ds ∧ ds[i]? = some (.element ⟨k, v⟩)) ∨ ∃ ds, y = .array ds ∧ ds[i]? = some (.element v) := by
  cases y with
  | hash ds =>
    simp only [childAt] at h
    split at h
    · rename_i e he
      obtain ⟨k, w⟩ := e
      exact .inl ⟨ds, k, rfl, by rw [he]; simpa using h⟩
    · cases h
  | array ds =>
    simp only [childAt] at h
    split at h
    · rename_i w he
      exact .inr ⟨ds, rfl, by rw [he]; simpa using h⟩
    · cases h
  | _ => cases h

theorem keyAt_cases {i : Nat} {y : Yaml} {k : Str} (h : keyAt i y = some k) : ∃ ds v, y = .hash ds ∧ ds[i]? = some (.element ⟨k, v⟩) := by
  cases y with
  | hash ds =>
    simp only [keyAt] at h
    split at h
    · rename_i e he
      obtain ⟨k', w⟩ := e
      exact ⟨ds, w, rfl, by rw [he]; simpa using h⟩
    · cases h
  | _ => cases h

theorem written_slots {t next s hold cl a} : Slots T fun y x => Written T t next s hold cl ⟨a, y⟩ x := by
  intro y x i v h hv
  rcases childAt_cases hv with ⟨ds, k, rfl, hi⟩ | ⟨ds, rfl, hi⟩
  · obtain ⟨h1, h2⟩ := at_index hi
    have h' : Written T t next s hold cl ⟨a, .hash (ds.take i ++ .element ⟨k, v⟩ :: ds.drop (i + 1))⟩ x := h1 ▸ h
    obtain ⟨A, n, z, B, t₀, nx, c, cl₀, ps, hx, hk, hv, hr⟩ := written_entry h'
    refine ⟨A ++ k ++ pad n ++ [':'], z, B, t₀, nx, c, .key, cl₀, ps, by simp [hx], hv, fun v' z' hv' => ?_⟩
    have := hr k v' z' hk hv'
    simpa [setChild, hi, h2] using this
  · obtain ⟨h1, h2⟩ := at_index hi
    have h' : Written T t next s hold cl ⟨a, .array (ds.take i ++ .element v :: ds.drop (i + 1))⟩ x := h1 ▸ h
    obtain ⟨A, z, B, t₀, nx, c, cl₀, ps, hx, hv, hr⟩ := written_element h'
    refine ⟨A ++ ['-'], z, B, t₀, nx, c, .dash, cl₀, ps, by simp [hx], hv, fun v' z' hv' => ?_⟩
    have := hr v' z' hv'
    simpa [setChild, hi, h2] using this

theorem written_keys {t next s hold cl a} : KeySlots T fun y x => Written T t next s hold cl ⟨a, y⟩ x := by
  intro y x i k h hk
  obtain ⟨ds, v, rfl, hi⟩ := keyAt_cases hk
  obtain ⟨h1, h2⟩ := at_index hi
  have h' : Written T t next s hold cl ⟨a, .hash (ds.take i ++ .element ⟨k, v⟩ :: ds.drop (i + 1))⟩ x := h1 ▸ h
  obtain ⟨A, n, z, B, t₀, nx, c, cl₀, ps, hx, hk, hv, hr⟩ := written_entry h'
  refine ⟨A, pad n ++ ':' :: z ++ B, by simp [hx], hk, fun k' hk' => ?_⟩
  have := hr k' v z hk' hv
  simpa [setKey, hi, h2] using this

theorem root_slots {c cl} : Slots T fun y x => RootText T c cl y x := by
  intro y x i v h hv
  rcases childAt_cases hv with ⟨ds, k, rfl, hi⟩ | ⟨ds, rfl, hi⟩
  · obtain ⟨h1, h2⟩ := at_index hi
    cases h with
    | hash h =>
      obtain ⟨A, n, z, B, nx, cl₀, ps, hx, hk, hv, hr⟩ := entries_slot h h1
      refine ⟨pad c ++ A ++ k ++ pad n ++ [':'], z, B, _, nx, c, .key, cl₀, ps, by simp [hx], hv, fun v' z' hv' => ?_⟩
      have := RootText.hash (hr k v' z' hk hv')
      simpa [setChild, hi, h2] using this
  · obtain ⟨h1, h2⟩ := at_index hi
    cases h with
    | array h =>
      obtain ⟨A, z, B, nx, cl₀, ps, hx, hv, hr⟩ := elements_slot h h1
      refine ⟨pad c ++ A ++ ['-'], z, B, _, nx, c, .dash, cl₀, ps, by simp [hx], hv, fun v' z' hv' => ?_⟩
      have := RootText.array (hr v' z' hv')
      simpa [setChild, hi, h2] using this

theorem root_keys {c cl} : KeySlots T fun y x => RootText T c cl y x := by
  intro y x i k h hk
  obtain ⟨ds, v, rfl, hi⟩ := keyAt_cases hk
  obtain ⟨h1, h2⟩ := at_index hi
  cases h with
  | hash h =>
    obtain ⟨A, n, z, B, nx, cl₀, ps, hx, hk, hv, hr⟩ := entries_slot h h1
    refine ⟨pad c ++ A, pad n ++ ':' :: z ++ B, by simp [hx], hk, fun k' hk' => ?_⟩
    have := RootText.hash (hr k' v z hk' hv)
    simpa [setKey, hi, h2] using this

/-- The text of a block collection in the text of a value. -/
theorem node_text : ∀ {l : Loc} {R : Yaml → Str → Prop} (_ : Slots T R) {y x p}, R y x → l ≠ [] → nodeAt l y = some p → (∀ t, ¬ ScalarText T p t) →
    ∃ A z B t nx c hold cl a, x = A ++ z ++ B ∧ Written T t nx c hold cl ⟨a, p⟩ z ∧
      ∀ f z', Written T t nx c hold cl ⟨a, f p⟩ z' → R (changeNode f l y) (A ++ z' ++ B) := by
  intro l
  induction l with
  | nil => intro _ _ _ _ _ _ h; exact absurd rfl h
  | cons i l ih =>
    intro R hs y x p h _ hp hb
    simp only [nodeAt] at hp
    cases hc : childAt i y with
    | none => simp [hc] at hp
    | some w =>
      obtain ⟨a, w⟩ := w
      simp only [hc] at hp
      obtain ⟨A, z, B, t, nx, c, hold, cl, ps, hx, hi, hr⟩ := hs y x i _ h hc
      cases l with
      | nil =>
        simp only [nodeAt, Option.some.injEq] at hp
        subst hp
        cases hi with
        | value hi =>
          refine ⟨A, z, B, t, nx, c, hold, cl, a, hx, hi, fun f z' hz => ?_⟩
          have := hr _ _ (.value hz)
          simpa [changeNode, hc] using this
        | comment _ h _ => exact absurd h (hb _)
      | cons j l =>
        cases hi with
        | value hi =>
          obtain ⟨A', z', B', t', nx', c', hold', cl', a', hx', hw, hr'⟩ := ih written_slots hi (by simp) hp hb
          refine ⟨A ++ A', z', B' ++ B, t', nx', c', hold', cl', a', by simp [hx, hx'], hw, fun f z'' hz => ?_⟩
          have := hr _ _ (.value (hr' f z'' hz))
          simpa [changeNode, hc] using this
        | comment _ h _ =>
          simp only [nodeAt] at hp
          split at hp
          · rename_i u hu
            rcases childAt_cases hu with ⟨ds, k, rfl, _⟩ | ⟨ds, rfl, _⟩ <;> (cases h with | flow _ h => nomatch h)
          · cases hp

theorem child_not_line {i : Nat} {y : Yaml} {v : AliasedYaml} (h : childAt i y = some v) (t : Str) : ¬ ScalarText T y t := by
  intro hs
  rcases childAt_cases h with ⟨ds, k, rfl, _⟩ | ⟨ds, rfl, _⟩ <;> (cases hs with | flow _ h => nomatch h)

/-- The text of an item at a place. -/
theorem item_text {R : Yaml → Str → Prop} (hs : Slots T R) {l : Loc} {y x p i v} (h : R y x) (hp : nodeAt l y = some p) (hv : childAt i p = some v) :
    ∃ A z B t nx c hold cl ps, x = A ++ z ++ B ∧ ItemText T (Written T) t nx c hold cl v ps z ∧
      ∀ v' z', ItemText T (Written T) t nx c hold cl v' ps z' → R (changeNode (setChild i v') l y) (A ++ z' ++ B) := by
  by_cases hl : l = []
  · subst hl
    simp only [nodeAt, Option.some.injEq] at hp
    subst hp
    exact hs y x i v h hv
  · obtain ⟨A, z, B, t, nx, c, hold, cl, a, hx, hw, hr⟩ := node_text hs h hl hp (child_not_line hv)
    obtain ⟨A', z', B', t', nx', c', hold', cl', ps, hx', hi, hr'⟩ := written_slots p z i v hw hv
    refine ⟨A ++ A', z', B' ++ B, t', nx', c', hold', cl', ps, by simp [hx, hx'], hi, fun v' z'' hz => ?_⟩
    have := hr (setChild i v') _ (hr' v' z'' hz)
    simpa using this

/-- The text of a key at a place. -/
theorem key_text {R : Yaml → Str → Prop} (hs : Slots T R) (hks : KeySlots T R) {l : Loc} {y x p i k} (h : R y x) (hp : nodeAt l y = some p) (hk : keyAt i p = some k) :
    ∃ A B, x = A ++ k ++ B ∧ KeyText T k ∧ ∀ k', KeyText T k' → R (changeNode (setKey i k') l y) (A ++ k' ++ B) := by
  by_cases hl : l = []
  · subst hl
    simp only [nodeAt, Option.some.injEq] at hp
    subst hp
    exact hks y x i k h hk
  · obtain ⟨ds, v, rfl, hi⟩ := keyAt_cases hk
    obtain ⟨A, z, B, t, nx, c, hold, cl, a, hx, hw, hr⟩ := node_text hs h hl hp (by intro t h; cases h with | flow _ h => nomatch h)
    obtain ⟨A', B', hx', hk', hr'⟩ := written_keys _ z i k hw hk
    refine ⟨A ++ A', B' ++ B, by simp [hx, hx'], hk', fun k' hk'' => ?_⟩
    have := hr (setKey i k') _ (hr' k' hk'')
    simpa using this

/-! ## flow collections -/

theorem flow_elements_slot {P : Yaml → Str → Prop} {es x} (h : FlowElements P es x) : ∀ {i v}, es[i]? = some v →
    ∃ A z B, x = A ++ z ++ B ∧ P v z ∧ ∀ v' z', P v' z' → FlowElements P (es.set i v') (A ++ z' ++ B) := by
  induction h with
  | @last v₀ w z w' hw h hw' =>
    intro i v hi
    cases i with
    | zero =>
      simp only [List.getElem?_cons_zero, Option.some.injEq] at hi
      subst hi
      exact ⟨w, z, w', rfl, h, fun v' z' h' => .last hw h' hw'⟩
    | succ i => simp at hi
  | @more v₀ es w z w' rest hw h hw' hr ih =>
    intro i v hi
    cases i with
    | zero =>
      simp only [List.getElem?_cons_zero, Option.some.injEq] at hi
      subst hi
      exact ⟨w, z, w' ++ ',' :: rest, by simp, h, fun v' z' h' => by simpa using FlowElements.more hw h' hw' hr⟩
    | succ i =>
      obtain ⟨A, z', B, hx, hv, hr'⟩ := ih (i := i) (by simpa using hi)
      exact ⟨w ++ z ++ w' ++ ',' :: A, z', B, by simp [hx], hv, fun v' z'' h' => by simpa using FlowElements.more hw h hw' (hr' v' z'' h')⟩

theorem flow_entries_slot {P : Yaml → Str → Prop} {es x} (h : FlowEntries T P es x) : ∀ {i k v}, es[i]? = some (k, v) →
    ∃ A z B, x = A ++ z ++ B ∧ P v z ∧ ∀ v' z', P v' z' → FlowEntries T P (es.set i (k, v')) (A ++ z' ++ B) := by
  induction h with
  | @last k₀ v₀ w wk wv z w' hw hk hwk hwv h hw' =>
    intro i k v hi
    cases i with
    | zero =>
      simp only [List.getElem?_cons_zero, Option.some.injEq, Prod.mk.injEq] at hi
      obtain ⟨rfl, rfl⟩ := hi
      exact ⟨w ++ k₀ ++ wk ++ ':' :: wv, z, w', by simp, h, fun v' z' h' => by simpa using FlowEntries.last hw hk hwk hwv h' hw'⟩
    | succ i => simp at hi
  | @more k₀ v₀ es w wk wv z w' rest hw hk hwk hwv h hw' hr ih =>
    intro i k v hi
    cases i with
    | zero =>
      simp only [List.getElem?_cons_zero, Option.some.injEq, Prod.mk.injEq] at hi
      obtain ⟨rfl, rfl⟩ := hi
      exact ⟨w ++ k₀ ++ wk ++ ':' :: wv, z, w' ++ ',' :: rest, by simp, h, fun v' z' h' => by simpa using FlowEntries.more hw hk hwk hwv h' hw' hr⟩
    | succ i =>
      obtain ⟨A, z', B, hx, hv, hr'⟩ := ih (i := i) (by simpa using hi)
      exact ⟨w ++ k₀ ++ wk ++ ':' :: (wv ++ z ++ w') ++ ',' :: A, z', B, by simp [hx], hv,
        fun v' z'' h' => by simpa using FlowEntries.more hw hk hwk hwv h hw' (hr' v' z'' h')⟩

/-- The text of a value at a place in flow collections. -/
theorem flow_text : ∀ {m : Loc} {y x u}, FlowText T y x → flowAt m y = some u →
    ∃ A z B, x = A ++ z ++ B ∧ FlowText T u z ∧ ∀ u' z', FlowText T u' z' → FlowText T (setFlow u' m y) (A ++ z' ++ B) := by
  intro m
  induction m with
  | nil =>
    intro y x u h hu
    simp only [flowAt, Option.some.injEq] at hu
    subst hu
    exact ⟨[], x, [], by simp, h, fun u' z' h' => by simpa [setFlow] using h'⟩
  | cons i m ih =>
    intro y x u h hu
    cases h with
    | emptyArray => simp [flowAt] at hu
    | emptyHash => simp [flowAt] at hu
    | @array es x h =>
      simp only [flowAt] at hu
      cases hi : es[i]? with
      | none => simp [hi] at hu
      | some v =>
        simp only [hi] at hu
        obtain ⟨A, z, B, hx, hv, hr⟩ := flow_elements_slot h hi
        obtain ⟨A', z', B', hx', hv', hr'⟩ := ih hv hu
        refine ⟨'[' :: (A ++ A'), z', B' ++ B ++ [']'], by simp [hx, hx'], hv', fun u' z'' h' => ?_⟩
        have := FlowText.array (hr _ _ (hr' u' z'' h'))
        simpa [setFlow, hi] using this
    | @hash es x h =>
      simp only [flowAt] at hu
      cases hi : es[i]? with
      | none => simp [hi] at hu
      | some kv =>
        obtain ⟨k, v⟩ := kv
        simp only [hi] at hu
        obtain ⟨A, z, B, hx, hv, hr⟩ := flow_entries_slot h hi
        obtain ⟨A', z', B', hx', hv', hr'⟩ := ih hv hu
        refine ⟨'{' :: (A ++ A'), z', B' ++ B ++ ['}'], by simp [hx, hx'], hv', fun u' z'' h' => ?_⟩
        have := FlowText.hash (hr _ _ (hr' u' z'' h'))
        simpa [setFlow, hi] using this
    | _ => simp [flowAt] at hu

end Lay

end YamlSubset
