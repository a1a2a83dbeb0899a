import Verif.Model.Insert
import Verif.Lemmas.Induct
import Verif.Spec.Edit

/-! # Lemmas about path edits: every traversal is a sequence of single edits -/

namespace YamlSubset

open Spec

/-- A way to read a count off the result type of a traversal. -/
structure Counting (A : Type) [Additive A] where
  cnt : A → Option Nat
  zero : cnt Additive.zero = some 0
  add : ∀ a b n, cnt (Additive.add a b) = some n → ∃ i j, cnt a = some i ∧ cnt b = some j ∧ n = i + j

/-- Counts of infallible edits. -/
def natCounting : Counting Nat where
  cnt := some
  zero := rfl
  add := fun a b n h => ⟨a, b, rfl, rfl, (Option.some.inj h).symm⟩

/-- Counts of edits that may panic. -/
def outCounting : Counting (Out Nat) where
  cnt := fun | .ok n => some n | _ => none
  zero := rfl
  add := fun a b n h => by
    cases a <;> cases b <;> simp_all [Additive.add, Out.bind]

variable {A : Type} [Additive A]

/-- `g` is a sequence of edits, as many as it counts. -/
def EditsBy (C : Counting A) (E : List HashData → List HashData → Prop) (g : Yaml → A × Yaml) : Prop :=
  ∀ v n, C.cnt (g v).1 = some n → ∃ ls, ls.length = n ∧ Edits E ls v (g v).2

theorem overInline_edits {C : Counting A} {E} {g : Yaml → A × Yaml} (hg : EditsBy C E g)
    (cs : List Condition) (es : List Yaml) (pre : List Yaml) (c : A) (n m : Nat)
    (hc : C.cnt c = some m) (h : C.cnt (overInline cs g c es).1 = some n) :
    ∃ ls, n = m + ls.length ∧
      Edits E ls (.inlineArray (pre ++ es)) (.inlineArray (pre ++ (overInline cs g c es).2)) := by
  induction es generalizing pre c m with
  | nil =>
    simp only [overInline, hc, Option.some.injEq] at h
    exact ⟨[], by simp [h], .none _⟩
  | cons e t ih =>
    simp only [overInline] at h ⊢
    split
    · rename_i hf
      simp only [hf, if_true] at h
      cases hadd : C.cnt (Additive.add c (g e).1) with
      | none =>
        -- the count of a prefix is defined when the whole is
        exfalso
        have : ∀ (t : List Yaml) (c : A), C.cnt c = none → C.cnt (overInline cs g c t).1 = none := by
          intro t
          induction t with
          | nil => intro c hc; exact hc
          | cons e t iht =>
            intro c hc
            simp only [overInline]
            split
            · apply iht
              cases hh : C.cnt (Additive.add c (g e).1) with
              | none => rfl
              | some k => obtain ⟨i, j, hi, _⟩ := C.add _ _ _ hh; rw [hc] at hi; cases hi
            · exact iht _ hc
        rw [this _ _ hadd] at h; cases h
      | some k =>
        obtain ⟨i, j, hi, hj, rfl⟩ := C.add _ _ _ hadd
        rw [hc] at hi; cases hi
        obtain ⟨ls, hl, he⟩ := hg e j hj
        obtain ⟨ms, hm, he'⟩ := ih (pre ++ [(g e).2]) _ _ hadd h
        refine ⟨ls.map (pre.length :: ·) ++ ms, by simp [hl]; omega, ?_⟩
        refine .seq (y := .inlineArray (pre ++ (g e).2 :: t)) ?_ (by simpa using he')
        have := Edits.inInlineArray (es := pre ++ e :: t) (i := pre.length) (by simp) he
        simpa using this
    · rename_i hf
      simp only [hf] at h
      obtain ⟨ms, hm, he'⟩ := ih (pre ++ [e]) _ _ hc h
      exact ⟨ms, hm, by simpa using he'⟩

theorem overArray_none {C : Counting A} {g : Yaml → A × Yaml} {cs : List Condition} (t : List ArrayData) (c : A)
    (hc : C.cnt c = none) : C.cnt (overArray cs g c t).1 = none := by
  induction t generalizing c with
  | nil => exact hc
  | cons e t iht =>
    match e with
    | .element ⟨a, v⟩ =>
      simp only [overArray]
      split
      · apply iht
        cases hh : C.cnt (Additive.add c (g v).1) with
        | none => rfl
        | some k => obtain ⟨i, j, hi, _⟩ := C.add _ _ _ hh; rw [hc] at hi; cases hi
      · exact iht _ hc
    | .comment s => exact iht _ hc
    | .inlineComment s => exact iht _ hc

theorem overArray_edits {C : Counting A} {E} {g : Yaml → A × Yaml} (hg : EditsBy C E g)
    (cs : List Condition) (es : List ArrayData) (pre : List ArrayData) (c : A) (n m : Nat)
    (hc : C.cnt c = some m) (h : C.cnt (overArray cs g c es).1 = some n) :
    ∃ ls, n = m + ls.length ∧
      Edits E ls (.array (pre ++ es)) (.array (pre ++ (overArray cs g c es).2)) := by
  induction es generalizing pre c m with
  | nil =>
    simp only [overArray, hc, Option.some.injEq] at h
    exact ⟨[], by simp [h], .none _⟩
  | cons d t ih =>
    match d with
    | .element ⟨a, e⟩ =>
      simp only [overArray] at h ⊢
      split
      · rename_i hf
        simp only [hf, if_true] at h
        cases hadd : C.cnt (Additive.add c (g e).1) with
        | none => rw [overArray_none _ _ hadd] at h; cases h
        | some k =>
          obtain ⟨i, j, hi, hj, rfl⟩ := C.add _ _ _ hadd
          rw [hc] at hi; cases hi
          obtain ⟨ls, hl, he⟩ := hg e j hj
          obtain ⟨ms, hm, he'⟩ := ih (pre ++ [.element ⟨a, (g e).2⟩]) _ _ hadd h
          refine ⟨ls.map (pre.length :: ·) ++ ms, by simp [hl]; omega, ?_⟩
          refine .seq (y := .array (pre ++ .element ⟨a, (g e).2⟩ :: t)) ?_ (by simpa using he')
          have := Edits.inArray (ds := pre ++ .element ⟨a, e⟩ :: t) (i := pre.length) (a := a) (by simp) he
          simpa using this
      · rename_i hf
        simp only [hf] at h
        obtain ⟨ms, hm, he'⟩ := ih (pre ++ [.element ⟨a, e⟩]) _ _ hc h
        exact ⟨ms, hm, by simpa using he'⟩
    | .comment s =>
      simp only [overArray] at h ⊢
      obtain ⟨ms, hm, he'⟩ := ih (pre ++ [.comment s]) _ _ hc h
      exact ⟨ms, hm, by simpa using he'⟩
    | .inlineComment s =>
      simp only [overArray] at h ⊢
      obtain ⟨ms, hm, he'⟩ := ih (pre ++ [.inlineComment s]) _ _ hc h
      exact ⟨ms, hm, by simpa using he'⟩

theorem atInline_edits {C : Counting A} {E} {g : Yaml → A × Yaml} (hg : EditsBy C E g)
    (cs : List Condition) (is : List Nat) (es : List Yaml) (c : A) (n m : Nat)
    (hc : C.cnt c = some m) (h : C.cnt (atInline cs g is c es).1 = some n) :
    ∃ ls, n = m + ls.length ∧
      Edits E ls (.inlineArray es) (.inlineArray (atInline cs g is c es).2) := by
  have hnone : ∀ (is : List Nat) (es : List Yaml) (c : A), C.cnt c = none →
      C.cnt (atInline cs g is c es).1 = none := by
    intro is
    induction is with
    | nil => intro es c hc; exact hc
    | cons i is ih =>
      intro es c hc
      simp only [atInline]
      split
      · split
        · apply ih
          cases hh : C.cnt (Additive.add c (g _).1) with
          | none => rfl
          | some k => obtain ⟨i, j, hi, _⟩ := C.add _ _ _ hh; rw [hc] at hi; cases hi
        · exact ih _ _ hc
      · exact ih _ _ hc
  induction is generalizing es c m with
  | nil =>
    simp only [atInline, hc, Option.some.injEq] at h
    exact ⟨[], by simp [h], .none _⟩
  | cons i is ih =>
    simp only [atInline] at h ⊢
    split
    · rename_i e hi
      simp only [hi] at h
      split
      · rename_i hf
        simp only [hf, if_true] at h
        cases hadd : C.cnt (Additive.add c (g e).1) with
        | none => rw [hnone _ _ _ hadd] at h; cases h
        | some k =>
          obtain ⟨i', j, hi', hj, rfl⟩ := C.add _ _ _ hadd
          rw [hc] at hi'; cases hi'
          obtain ⟨ls, hl, he⟩ := hg e j hj
          obtain ⟨ms, hm, he'⟩ := ih _ _ _ hadd h
          exact ⟨ls.map (i :: ·) ++ ms, by simp [hl]; omega, .seq (.inInlineArray hi he) he'⟩
      · rename_i hf
        simp only [hf] at h
        exact ih _ _ _ hc h
    · rename_i hi
      simp only [hi] at h
      exact ih _ _ _ hc h

theorem nthElement_spec (ds : List ArrayData) (n : Nat) (e : AliasedYaml)
    (h : nthElement ds n = some e) :
    ∃ i, ds[i]? = some (.element e) ∧ elementCount (ds.take i) = n ∧
      ∀ e', setNthElement ds n e' = ds.set i (.element e') := by
  induction ds generalizing n with
  | nil => simp [nthElement] at h
  | cons d t ih =>
    match d with
    | .element e₀ =>
      cases n with
      | zero =>
        simp only [nthElement, Option.some.injEq] at h
        subst h
        exact ⟨0, rfl, rfl, fun _ => rfl⟩
      | succ n =>
        simp only [nthElement] at h
        obtain ⟨i, h1, h2, h3⟩ := ih n h
        refine ⟨i + 1, by simpa using h1, ?_, fun e' => by simp [setNthElement, h3]⟩
        simp only [elementCount, List.take_succ_cons] at h2 ⊢
        simp [h2]
    | .comment s =>
      simp only [nthElement] at h
      obtain ⟨i, h1, h2, h3⟩ := ih n h
      refine ⟨i + 1, by simpa using h1, ?_, fun e' => by simp [setNthElement, h3]⟩
      simpa [elementCount] using h2
    | .inlineComment s =>
      simp only [nthElement] at h
      obtain ⟨i, h1, h2, h3⟩ := ih n h
      refine ⟨i + 1, by simpa using h1, ?_, fun e' => by simp [setNthElement, h3]⟩
      simpa [elementCount] using h2

theorem atArray_edits {C : Counting A} {E} {g : Yaml → A × Yaml} (hg : EditsBy C E g)
    (cs : List Condition) (is : List Nat) (ds : List ArrayData) (c : A) (n m : Nat)
    (hc : C.cnt c = some m) (h : C.cnt (atArray cs g is c ds).1 = some n) :
    ∃ ls, n = m + ls.length ∧ Edits E ls (.array ds) (.array (atArray cs g is c ds).2) := by
  have hnone : ∀ (is : List Nat) (ds : List ArrayData) (c : A), C.cnt c = none →
      C.cnt (atArray cs g is c ds).1 = none := by
    intro is
    induction is with
    | nil => intro es c hc; exact hc
    | cons i is ih =>
      intro es c hc
      simp only [atArray]
      split
      · split
        · apply ih
          cases hh : C.cnt (Additive.add c (g _).1) with
          | none => rfl
          | some k => obtain ⟨i, j, hi, _⟩ := C.add _ _ _ hh; rw [hc] at hi; cases hi
        · exact ih _ _ hc
      · exact ih _ _ hc
  induction is generalizing ds c m with
  | nil =>
    simp only [atArray, hc, Option.some.injEq] at h
    exact ⟨[], by simp [h], .none _⟩
  | cons i is ih =>
    simp only [atArray] at h ⊢
    split
    · rename_i a e hi
      simp only [hi] at h
      split
      · rename_i hf
        simp only [hf, if_true] at h
        cases hadd : C.cnt (Additive.add c (g e).1) with
        | none => rw [hnone _ _ _ hadd] at h; cases h
        | some k =>
          obtain ⟨i', j, hi', hj, rfl⟩ := C.add _ _ _ hadd
          rw [hc] at hi'; cases hi'
          obtain ⟨ls, hl, he⟩ := hg e j hj
          obtain ⟨ms, hm, he'⟩ := ih _ _ _ hadd h
          obtain ⟨r, hr, -, hset⟩ := nthElement_spec _ _ _ hi
          refine ⟨ls.map (r :: ·) ++ ms, by simp [hl]; omega, .seq ?_ he'⟩
          rw [hset]
          exact .inArray hr he
      · rename_i hf
        simp only [hf] at h
        exact ih _ _ _ hc h
    · rename_i hi
      simp only [hi] at h
      exact ih _ _ _ hc h

theorem findIdx_spec (k : Str) (ds : List HashData) (i : Nat)
    (h : ds.findIdx? (HashData.hasKey k) = some i) :
    ∃ pre v post, FirstEntry k ds pre v post ∧ pre.length = i := by
  induction ds generalizing i with
  | nil => simp at h
  | cons d t ih =>
    rw [List.findIdx?_cons] at h
    match d with
    | .element ⟨k', v⟩ =>
      by_cases hk : k' = k
      · subst hk
        simp [HashData.hasKey] at h
        exact ⟨[], v, t, ⟨rfl, by simp [keysOf]⟩, h⟩
      · have hk' : (HashData.hasKey k (.element ⟨k', v⟩)) = false := by simp [HashData.hasKey, hk]
        rw [hk'] at h
        simp only [Bool.false_eq_true, if_false, Option.map_eq_some_iff] at h
        obtain ⟨j, hj, rfl⟩ := h
        obtain ⟨pre, w, post, ⟨h1, h2⟩, h3⟩ := ih j hj
        refine ⟨.element ⟨k', v⟩ :: pre, w, post, ⟨by simp [h1], ?_⟩, by simp [h3]⟩
        simp only [keysOf, List.filterMap_cons, List.mem_cons, not_or] at h2 ⊢
        exact ⟨fun h => hk h.symm, h2⟩
    | .comment s =>
      simp only [HashData.hasKey, Bool.false_eq_true, if_false, Option.map_eq_some_iff] at h
      obtain ⟨j, hj, rfl⟩ := h
      obtain ⟨pre, w, post, ⟨h1, h2⟩, h3⟩ := ih j hj
      refine ⟨.comment s :: pre, w, post, ⟨by simp [h1], ?_⟩, by simp [h3]⟩
      simpa [keysOf] using h2
    | .inlineComment s =>
      simp only [HashData.hasKey, Bool.false_eq_true, if_false, Option.map_eq_some_iff] at h
      obtain ⟨j, hj, rfl⟩ := h
      obtain ⟨pre, w, post, ⟨h1, h2⟩, h3⟩ := ih j hj
      refine ⟨.inlineComment s :: pre, w, post, ⟨by simp [h1], ?_⟩, by simp [h3]⟩
      simpa [keysOf] using h2

theorem findIdx_none (k : Str) (ds : List HashData)
    (h : ds.findIdx? (HashData.hasKey k) = none) : k ∉ keysOf ds := by
  simp only [List.findIdx?_eq_none_iff] at h
  simp only [keysOf, List.mem_filterMap, not_exists, not_and]
  intro d hd he
  match d with
  | .element ⟨k', v⟩ =>
    have := h _ hd
    simp [HashData.hasKey] at this he
    exact this he
  | .comment s => simp at he
  | .inlineComment s => simp at he

theorem Spec.FirstEntry.findIdx {k : Str} {ds pre post : List HashData} {v : AliasedYaml}
    (h : FirstEntry k ds pre v post) : ds.findIdx? (HashData.hasKey k) = some pre.length := by
  obtain ⟨rfl, h⟩ := h
  induction pre with
  | nil => rw [List.nil_append, List.findIdx?_cons]; simp [HashData.hasKey]
  | cons d t ih =>
    have ht : k ∉ keysOf t := by
      intro hk; apply h
      simp only [keysOf, List.mem_filterMap] at hk ⊢
      obtain ⟨d', hd', h'⟩ := hk
      exact ⟨d', by simp [hd'], h'⟩
    have hd : HashData.hasKey k d = false := by
      match d with
      | .element ⟨k', v⟩ =>
        simp only [keysOf, List.filterMap_cons, List.mem_cons, not_or] at h
        simp [HashData.hasKey, Ne.symm h.1]
      | .comment s => rfl
      | .inlineComment s => rfl
    rw [List.cons_append, List.findIdx?_cons, hd, ih ht]
    simp

theorem Spec.FirstEntry.get {k : Str} {ds pre post : List HashData} {v : AliasedYaml}
    (h : FirstEntry k ds pre v post) : ds[pre.length]? = some (.element ⟨k, v⟩) := by
  obtain ⟨rfl, h⟩ := h; simp

theorem Spec.FirstEntry.keyValueIn {k : Str} {ds pre post : List HashData} {v : AliasedYaml}
    (h : FirstEntry k ds pre v post) : keyValueIn k ds = some v := by
  obtain ⟨rfl, h⟩ := h
  induction pre with
  | nil => simp [YamlSubset.keyValueIn]
  | cons d t ih =>
    have ht : k ∉ keysOf t := by
      intro hk; apply h
      simp only [keysOf, List.mem_filterMap] at hk ⊢
      obtain ⟨d', hd', h'⟩ := hk
      exact ⟨d', by simp [hd'], h'⟩
    match d with
    | .element ⟨k', w⟩ =>
      simp only [keysOf, List.filterMap_cons, List.mem_cons, not_or] at h
      simp [YamlSubset.keyValueIn, Ne.symm h.1, ih ht]
    | .comment s => simp [YamlSubset.keyValueIn, ih ht]
    | .inlineComment s => simp [YamlSubset.keyValueIn, ih ht]

theorem keyValueIn_spec (k : Str) (ds : List HashData) (v : AliasedYaml)
    (h : keyValueIn k ds = some v) : ∃ pre post, FirstEntry k ds pre v post := by
  induction ds with
  | nil => simp [keyValueIn] at h
  | cons d t ih =>
    match d with
    | .element ⟨k', w⟩ =>
      simp only [keyValueIn] at h
      split at h
      · rename_i hk; subst hk
        simp only [Option.some.injEq] at h; subst h
        exact ⟨[], t, rfl, by simp [keysOf]⟩
      · rename_i hk
        obtain ⟨pre, post, h1, h2⟩ := ih h
        refine ⟨.element ⟨k', w⟩ :: pre, post, by simp [h1], ?_⟩
        simp only [keysOf, List.filterMap_cons, List.mem_cons, not_or] at h2 ⊢
        exact ⟨fun h => hk h.symm, h2⟩
    | .comment s =>
      obtain ⟨pre, post, h1, h2⟩ := ih h
      refine ⟨.comment s :: pre, post, by simp [h1], ?_⟩
      simpa [keysOf] using h2
    | .inlineComment s =>
      obtain ⟨pre, post, h1, h2⟩ := ih h
      refine ⟨.inlineComment s :: pre, post, by simp [h1], ?_⟩
      simpa [keysOf] using h2

theorem fitsConditions_iff (y : Yaml) (cs : List Condition) : y.fitsConditions cs = true ↔ Fits cs y := by
  unfold Yaml.fitsConditions Fits
  simp only [Bool.not_eq_true', List.any_eq_false]
  constructor
  · intro h c hc
    have := h c hc
    revert this
    cases hk : y.keyValue c.field with
    | none => simp
    | some v =>
      cases hs : v.value.asString with
      | none => simp [hs]
      | some s =>
        intro hne
        have hsc : s = c.value := by simpa [hs] using hne
        subst hsc
        cases y <;> simp only [Yaml.keyValue] at hk <;> try contradiction
        rename_i ds
        obtain ⟨pre, post, hf⟩ := keyValueIn_spec _ _ _ hk
        exact ⟨ds, pre, v, post, rfl, hf, hs⟩
  · intro h c hc
    obtain ⟨ds, pre, v, post, rfl, hf, hs⟩ := h c hc
    simp [Yaml.keyValue, hf.keyValueIn, hs]

/-! ## the traversals -/

theorem set_append_length {α} (pre : List α) (x y : α) (post : List α) :
    (pre ++ x :: post).set pre.length y = pre ++ y :: post := by simp

theorem editHash_key_other (f : List HashData → Str → Option Nat → Nat × List HashData) (k : Str)
    (cs : List Condition) (rest : Option YamlPath) (y : Yaml) (h : ∀ ds, y ≠ .hash ds) :
    Yaml.editHash f (.key k cs rest) y = (0, y) := by
  rw [Yaml.editHash.eq_4 _ _ _ _ _ (fun ds hd => h ds hd)]
  split <;> rfl

/-- `edit_hash_structure` is a sequence of edits by its closure. -/
theorem editHash_edits (E : Str → List HashData → List HashData → Prop)
    (f : List HashData → Str → Option Nat → Nat × List HashData)
    (hf : ∀ data k, let q := f data k (data.findIdx? (HashData.hasKey k))
      (q.1 = 0 ∧ q.2 = data) ∨ (q.1 = 1 ∧ E k data q.2))
    (path : YamlPath) (k : Str) (hk : lastKey path = some k) :
    EditsBy natCounting (E k) (Yaml.editHash f path) := by
  induction path using lastKey.induct with
  | case1 cs => simp [lastKey] at hk
  | case2 k' cs =>
    simp only [lastKey, Option.some.injEq] at hk; subst hk
    intro v n hn
    simp only [natCounting, Option.some.injEq] at hn
    subst hn
    cases v with
    | hash data =>
      simp only [Yaml.editHash]
      split
      · rcases hf data k' with ⟨h0, h1⟩ | ⟨h0, h1⟩
        · simp only [Yaml.keyIndex] at h0 h1 ⊢; rw [h0, h1]
          exact ⟨[], rfl, .none _⟩
        · simp only [Yaml.keyIndex]; rw [h0]
          exact ⟨[[]], rfl, .here h1⟩
      · exact ⟨[], rfl, .none _⟩
    | _ => rw [editHash_key_other _ _ _ _ _ (by simp)]; exact ⟨[], rfl, .none _⟩
  | case3 k' cs p ih =>
    simp only [lastKey] at hk
    intro v n hn
    simp only [natCounting, Option.some.injEq] at hn
    subst hn
    cases v with
    | hash data =>
      simp only [Yaml.editHash]
      split
      · simp only [Yaml.keyIndex]
        cases hi : data.findIdx? (HashData.hasKey k') with
        | none => exact ⟨[], rfl, .none _⟩
        | some i =>
          obtain ⟨pre, ⟨a, w⟩, post, hfe, rfl⟩ := findIdx_spec _ _ _ hi
          simp only [hfe.get]
          obtain ⟨ls, hl, he⟩ := ih hk w _ rfl
          exact ⟨ls.map (pre.length :: ·), by simpa using hl, .inHash hfe.get he⟩
      · exact ⟨[], rfl, .none _⟩
    | _ => rw [editHash_key_other _ _ _ _ _ (by simp)]; exact ⟨[], rfl, .none _⟩
  | case4 cs => simp [lastKey] at hk
  | case5 cs p ih =>
    simp only [lastKey] at hk
    intro v n hn
    simp only [natCounting, Option.some.injEq] at hn
    subst hn
    cases v with
    | inlineArray es =>
      obtain ⟨ls, hl, he⟩ := overInline_edits (ih hk) cs es [] 0 _ 0 rfl rfl
      exact ⟨ls, by rw [Yaml.editHash]; simpa using hl.symm, by rw [Yaml.editHash]; simpa using he⟩
    | array ds =>
      obtain ⟨ls, hl, he⟩ := overArray_edits (ih hk) cs ds [] 0 _ 0 rfl rfl
      exact ⟨ls, by rw [Yaml.editHash]; simpa using hl.symm, by rw [Yaml.editHash]; simpa using he⟩
    | _ => exact ⟨[], rfl, .none _⟩
  | case6 is cs => simp [lastKey] at hk
  | case7 is cs p ih =>
    simp only [lastKey] at hk
    intro v n hn
    simp only [natCounting, Option.some.injEq] at hn
    subst hn
    cases v with
    | inlineArray es =>
      obtain ⟨ls, hl, he⟩ := atInline_edits (ih hk) cs is es 0 _ 0 rfl rfl
      exact ⟨ls, by rw [Yaml.editHash]; simpa using hl.symm, by rw [Yaml.editHash]; simpa using he⟩
    | array ds =>
      obtain ⟨ls, hl, he⟩ := atArray_edits (ih hk) cs is ds 0 _ 0 rfl rfl
      exact ⟨ls, by rw [Yaml.editHash]; simpa using hl.symm, by rw [Yaml.editHash]; simpa using he⟩
    | _ => exact ⟨[], rfl, .none _⟩

/-- A path that does not end in a key edits nothing. -/
theorem editHash_no_key (f : List HashData → Str → Option Nat → Nat × List HashData)
    (path : YamlPath) (hk : lastKey path = none) (y : Yaml) : y.editHash f path = (0, y) := by
  have hin : ∀ (p : YamlPath) (cs) (es : List Yaml), (∀ y, Yaml.editHash f p y = (0, y)) →
      overInline cs (Yaml.editHash f p) 0 es = (0, es) := by
    intro p cs es ih
    induction es with
    | nil => rfl
    | cons e t iht => simp [overInline, ih, Additive.add, iht]
  have har : ∀ (p : YamlPath) (cs) (es : List ArrayData), (∀ y, Yaml.editHash f p y = (0, y)) →
      overArray cs (Yaml.editHash f p) 0 es = (0, es) := by
    intro p cs es ih
    induction es with
    | nil => rfl
    | cons e t iht =>
      match e with
      | .element ⟨a, v⟩ => simp [overArray, ih, Additive.add, iht]
      | .comment s => simp [overArray, iht]
      | .inlineComment s => simp [overArray, iht]
  have hset : ∀ (es : List Yaml) (i : Nat) (e : Yaml), es[i]? = some e → es.set i e = es := by
    intro es i e h
    apply List.ext_getElem?
    intro j
    rw [List.getElem?_set]
    split
    · rename_i hij; subst hij
      rw [h]
      simp; exact (List.getElem?_eq_some_iff.1 h).1
    · rfl
  have hiin : ∀ (p : YamlPath) (cs) (is : List Nat) (es : List Yaml), (∀ y, Yaml.editHash f p y = (0, y)) →
      atInline cs (Yaml.editHash f p) is 0 es = (0, es) := by
    intro p cs is es ih
    induction is with
    | nil => rfl
    | cons i is iht =>
      simp only [atInline, ih, Additive.add, iht]
      split
      · rename_i e he; simp [hset _ _ _ he, iht]
      · rfl
  have hset' : ∀ (ds : List ArrayData) (i : Nat) (e : AliasedYaml), nthElement ds i = some e →
      setNthElement ds i e = ds := by
    intro ds i e h
    obtain ⟨r, h1, -, h3⟩ := nthElement_spec _ _ _ h
    rw [h3]
    apply List.ext_getElem?
    intro j
    rw [List.getElem?_set]
    split
    · rename_i hij; subst hij
      rw [h1]
      simp; exact (List.getElem?_eq_some_iff.1 h1).1
    · rfl
  have hiar : ∀ (p : YamlPath) (cs) (is : List Nat) (es : List ArrayData), (∀ y, Yaml.editHash f p y = (0, y)) →
      atArray cs (Yaml.editHash f p) is 0 es = (0, es) := by
    intro p cs is es ih
    induction is with
    | nil => rfl
    | cons i is iht =>
      simp only [atArray, ih, Additive.add, iht]
      split
      · rename_i a e he; simp [hset' _ _ _ he, iht]
      · rfl
  induction path using lastKey.induct generalizing y with
  | case1 cs => rfl
  | case2 k' cs => simp [lastKey] at hk
  | case3 k' cs p ih =>
    simp only [lastKey] at hk
    cases y with
    | hash data =>
      simp only [Yaml.editHash]
      split
      · simp only [Yaml.keyIndex]
        cases hi : data.findIdx? (HashData.hasKey k') with
        | none => rfl
        | some i =>
          obtain ⟨pre, ⟨a, w⟩, post, hfe, rfl⟩ := findIdx_spec _ _ _ hi
          simp only [hfe.get, ih hk]
          rw [hfe.1, set_append_length]
      · rfl
    | _ => rw [editHash_key_other _ _ _ _ _ (by simp)]
  | case4 cs => cases y <;> rfl
  | case5 cs p ih =>
    simp only [lastKey] at hk
    cases y with
    | inlineArray es => simp only [Yaml.editHash, hin p cs es (ih hk)]
    | array ds => simp only [Yaml.editHash, har p cs ds (ih hk)]
    | _ => rfl
  | case6 is cs => cases y <;> rfl
  | case7 is cs p ih =>
    simp only [lastKey] at hk
    cases y with
    | inlineArray es => simp only [Yaml.editHash, hiin p cs is es (ih hk)]
    | array ds => simp only [Yaml.editHash, hiar p cs is ds (ih hk)]
    | _ => rfl

theorem forAllIndexes_edits {C : Counting A} {E} {g : Yaml → A × Yaml} (hg : EditsBy C E g)
    (cs : List Condition) (fuel : Nat) : EditsBy C E (forAllIndexes cs g fuel) := by
  induction fuel with
  | zero =>
    intro v n hn
    simp only [forAllIndexes, C.zero, Option.some.injEq] at hn
    exact ⟨[], by simpa using hn, .none _⟩
  | succ fuel ih =>
    intro v n hn
    cases v with
    | inlineArray es =>
      simp only [forAllIndexes] at hn ⊢
      obtain ⟨ls, hl, he⟩ := overInline_edits ih cs es [] _ _ 0 C.zero hn
      exact ⟨ls, by simpa using hl.symm, by simpa using he⟩
    | array ds =>
      simp only [forAllIndexes] at hn ⊢
      obtain ⟨ls, hl, he⟩ := overArray_edits hg cs ds [] _ _ 0 C.zero hn
      exact ⟨ls, by simpa using hl.symm, by simpa using he⟩
    | _ =>
      simp only [forAllIndexes, C.zero, Option.some.injEq] at hn
      exact ⟨[], by simpa using hn, .none _⟩

theorem forIndexes_edits {C : Counting A} {E} {g : Yaml → A × Yaml} (hg : EditsBy C E g)
    (is : List Nat) (cs : List Condition) (fuel : Nat) : EditsBy C E (forIndexes is cs g fuel) := by
  induction fuel with
  | zero =>
    intro v n hn
    simp only [forIndexes, C.zero, Option.some.injEq] at hn
    exact ⟨[], by simpa using hn, .none _⟩
  | succ fuel ih =>
    intro v n hn
    cases v with
    | inlineArray es =>
      simp only [forIndexes] at hn ⊢
      obtain ⟨ls, hl, he⟩ := atInline_edits ih cs is es _ _ 0 C.zero hn
      exact ⟨ls, by simpa using hl.symm, by simpa using he⟩
    | array ds =>
      simp only [forIndexes] at hn ⊢
      obtain ⟨ls, hl, he⟩ := atArray_edits hg cs is ds _ _ 0 C.zero hn
      exact ⟨ls, by simpa using hl.symm, by simpa using he⟩
    | _ =>
      simp only [forIndexes, C.zero, Option.some.injEq] at hn
      exact ⟨[], by simpa using hn, .none _⟩

/-- `for_hash` is a sequence of edits by its closures. The closure for hash elements may be used at
an entry with the last key of the path. -/
theorem forHash_edits (C : Counting A) (E : List HashData → List HashData → Prop)
    (f : HashElement → A × HashElement) (r : Yaml → A × Yaml)
    (path : YamlPath)
    (hf : ∀ k ds pre v post n, lastKey path = some k → FirstEntry k ds pre v post →
      C.cnt (f ⟨k, v⟩).1 = some n →
      ∃ ls, ls.length = n ∧ Edits E ls (.hash ds) (.hash (pre ++ .element (f ⟨k, v⟩).2 :: post)))
    (hr : EditsBy C E r) : EditsBy C E (Yaml.forHash f r path) := by
  have hzero : ∀ v n, C.cnt (Additive.zero : A) = some n → ∃ ls : List Loc, ls.length = n ∧ Edits E ls v v := by
    intro v n hn
    rw [C.zero, Option.some.injEq] at hn
    exact ⟨[], by simpa using hn, .none _⟩
  induction path using lastKey.induct with
  | case1 cs =>
    intro v n hn
    simp only [Yaml.forHash] at hn ⊢
    split
    · rename_i h; simp only [h, if_true] at hn; exact hr v n hn
    · rename_i h; simp only [h] at hn; exact hzero v n hn
  | case2 k' cs =>
    intro v n hn
    simp only [Yaml.forHash, forKey] at hn ⊢
    split
    · rename_i hfit
      simp only [hfit, if_true] at hn
      cases v with
      | hash data =>
        simp only [Yaml.keyIndex] at hn ⊢
        cases hi : data.findIdx? (HashData.hasKey k') with
        | none => rw [hi] at hn; exact hzero _ _ hn
        | some i =>
          obtain ⟨pre, ⟨a, w⟩, post, hfe, rfl⟩ := findIdx_spec _ _ _ hi
          simp only [hi, hfe.get, if_true] at hn ⊢
          have := hf k' data pre ⟨a, w⟩ post n (by simp [lastKey]) hfe hn
          rw [hfe.1, set_append_length]
          rw [hfe.1] at this
          exact this
      | _ => exact hzero _ _ hn
    · rename_i h; simp only [h] at hn; exact hzero v n hn
  | case3 k' cs p ih =>
    intro v n hn
    simp only [Yaml.forHash, forKey] at hn ⊢
    split
    · rename_i hfit
      simp only [hfit, if_true] at hn
      cases v with
      | hash data =>
        simp only [Yaml.keyIndex] at hn ⊢
        cases hi : data.findIdx? (HashData.hasKey k') with
        | none => rw [hi] at hn; exact hzero _ _ hn
        | some i =>
          obtain ⟨pre, ⟨a, w⟩, post, hfe, rfl⟩ := findIdx_spec _ _ _ hi
          simp only [hi, hfe.get] at hn ⊢
          obtain ⟨ls, hl, he⟩ := ih (fun k ds pre v post n hk => hf k ds pre v post n (by simpa [lastKey] using hk)) w n hn
          exact ⟨ls.map (pre.length :: ·), by simpa using hl, .inHash hfe.get he⟩
      | _ => exact hzero _ _ hn
    · rename_i h; simp only [h] at hn; exact hzero v n hn
  | case4 cs => exact fun v n hn => forAllIndexes_edits hr cs _ v n hn
  | case5 cs p ih =>
    exact fun v n hn => forAllIndexes_edits (ih (fun k ds pre v post n hk => hf k ds pre v post n (by simpa [lastKey] using hk))) cs _ v n hn
  | case6 is cs => exact fun v n hn => forIndexes_edits hr is cs _ v n hn
  | case7 is cs p ih =>
    exact fun v n hn => forIndexes_edits (ih (fun k ds pre v post n hk => hf k ds pre v post n (by simpa [lastKey] using hk))) is cs _ v n hn

/-! ## consequences of `Edits` -/

theorem Spec.Edits.nil_eq {E} {ls : List Loc} {y y' : Yaml} (h : Edits E ls y y') (hl : ls = []) : y = y' := by
  have hset : ∀ {α} (es : List α) (i : Nat) (e : α), es[i]? = some e → es.set i e = es := by
    intro α es i e h
    apply List.ext_getElem?
    intro j
    rw [List.getElem?_set]
    split
    · rename_i hij; subst hij
      rw [h]
      simp; exact (List.getElem?_eq_some_iff.1 h).1
    · rfl
  induction h with
  | none => rfl
  | here => cases hl
  | inHash hi _ ih =>
    have := ih (by simpa using hl); subst this
    rw [hset _ _ _ hi]
  | inArray hi _ ih =>
    have := ih (by simpa using hl); subst this
    rw [hset _ _ _ hi]
  | inInlineArray hi _ ih =>
    have := ih (by simpa using hl); subst this
    rw [hset _ _ _ hi]
  | seq _ _ ih1 ih2 =>
    simp at hl
    exact (ih1 hl.1).trans (ih2 hl.2)

theorem Spec.Edits.mono {E E' : List HashData → List HashData → Prop} (hE : ∀ a b, E a b → E' a b)
    {ls : List Loc} {y y' : Yaml} (h : Edits E ls y y') : Edits E' ls y y' := by
  induction h with
  | none y => exact .none y
  | here h => exact .here (hE _ _ h)
  | inHash hi _ ih => exact .inHash hi ih
  | inArray hi _ ih => exact .inArray hi ih
  | inInlineArray hi _ ih => exact .inInlineArray hi ih
  | seq _ _ ih1 ih2 => exact .seq ih1 ih2

end YamlSubset
