import Verif.Lemmas.Unread
import Verif.Lemmas.BreaksSem
import Verif.Spec.Field

/-! # Setting and unsetting fields -/

namespace YamlSubset

open Spec

variable {Γ : Nat → Ty}

/-! ## Entries of trees -/

def setEntry (k : Str) (w : Yaml) : List (Str × Yaml) → List (Str × Yaml)
  | [] => [(k, w)]
  | (k', v) :: t => if k' = k then (k', w) :: t else (k', v) :: setEntry k w t

def dropEntry (k : Str) : List (Str × Yaml) → List (Str × Yaml)
  | [] => []
  | (k', v) :: t => if k' = k then t else (k', v) :: dropEntry k t

def inEntry (k : Str) (f : Yaml → Yaml) : List (Str × Yaml) → List (Str × Yaml)
  | [] => []
  | (k', v) :: t => if k' = k then (k', f v) :: t else (k', v) :: inEntry k f t

theorem entriesOf_element (k : Str) (a : Option Str) (v : Yaml) (t : List HashData) : entriesOf (.element ⟨k, ⟨a, v⟩⟩ :: t) = (k, v) :: entriesOf t := rfl

theorem entriesOf_insert (k : Str) (h : AliasedYaml) (ds : List HashData) :
    entriesOf ((insertPatch k h true).run k ds).2 = setEntry k h.value (entriesOf ds) := by
  induction ds with
  | nil => rfl
  | cons d t ih =>
    match d with
    | .comment c => exact ih
    | .inlineComment c => exact ih
    | .element ⟨k', ⟨a, w⟩⟩ =>
      obtain ⟨b, u⟩ := h
      unfold Patch.run
      rw [entriesOf_element, setEntry]
      split
      · rename_i hk; subst hk; rfl
      · rw [entriesOf_element, ih]

theorem entriesOf_remove (k : Str) (ds : List HashData) : entriesOf (removePatch.run k ds).2 = dropEntry k (entriesOf ds) := by
  induction ds with
  | nil => rfl
  | cons d t ih =>
    match d with
    | .comment c => exact ih
    | .inlineComment c => exact ih
    | .element ⟨k', ⟨a, w⟩⟩ =>
      unfold Patch.run
      rw [entriesOf_element, dropEntry]
      split
      · rfl
      · rw [entriesOf_element, ih]

theorem entriesOf_value (k : Str) (F : Yaml → Nat × Yaml) (ds : List HashData) :
    entriesOf ((valuePatch k F).run k ds).2 = inEntry k (fun w => (F w).2) (entriesOf ds) := by
  induction ds with
  | nil => rfl
  | cons d t ih =>
    match d with
    | .comment c => exact ih
    | .inlineComment c => exact ih
    | .element ⟨k', ⟨a, w⟩⟩ =>
      unfold Patch.run
      rw [entriesOf_element, inEntry]
      split
      · rename_i hk; subst hk; rfl
      · rw [entriesOf_element, ih]

/-! ## Entries of maps -/

/-- An entry of a tree and of a value. -/
def EntryReads (Γ : Nat → Ty) (t : Ty) (e : Str × Yaml) (p : SVal × SVal) : Prop := p.1 = .str e.1 ∧ Decodes Γ t e.2 p.2

theorem decodes_key {k : Str} {a : SVal} : Decodes Γ .str (.unquotedString k) a ↔ a = .str k := by
  constructor
  · intro h
    cases h with
    | str h => simp only [scalarText, Option.some.injEq] at h; rw [h]
  · rintro rfl
    exact .str rfl

theorem decodes_strMap {t : Ty} {y : Yaml} {v : SVal} :
    Decodes Γ (.map .str t) y v ↔ ∃ es vs, mapPairs y = some es ∧ v = .map vs ∧ List2 (EntryReads Γ t) es vs := by
  constructor
  · intro h
    cases h with
    | @map _ _ _ es vs hy hl hk hv =>
      refine ⟨es, vs, hy, rfl, ?_⟩
      clear hy
      induction es generalizing vs with
      | nil => cases vs with
        | nil => exact .nil
        | cons _ _ => simp at hl
      | cons e es ih => cases vs with
        | nil => simp at hl
        | cons p vs =>
          obtain ⟨k, w⟩ := e
          obtain ⟨a, b⟩ := p
          exact .cons ⟨decodes_key.1 (hk k w a b (by simp)), hv k w a b (by simp)⟩
            (ih (by simpa using hl) (fun k w a b h => hk k w a b (by simp [h])) fun k w a b h => hv k w a b (by simp [h]))
  · rintro ⟨es, vs, hy, rfl, h⟩
    have hz : es.length = vs.length ∧ ∀ e p, (e, p) ∈ es.zip vs → EntryReads Γ t e p := by
      clear hy
      induction h with
      | nil => simp
      | @cons e p _ _ h _ ih =>
        refine ⟨by simp [ih.1], fun e' p' hm => ?_⟩
        simp only [List.zip_cons_cons, List.mem_cons, Prod.mk.injEq] at hm
        rcases hm with ⟨rfl, rfl⟩ | hm
        · exact h
        · exact ih.2 _ _ hm
    exact .map hy hz.1 (fun k w a b hm => decodes_key.2 (hz.2 _ _ hm).1) fun k w a b hm => (hz.2 _ _ hm).2

theorem setEntry_reads {t : Ty} {k : Str} {w : Yaml} {x : SVal} (hx : Decodes Γ t w x) {es vs} (h : List2 (EntryReads Γ t) es vs) :
    List2 (EntryReads Γ t) (setEntry k w es) (setPair k x vs) := by
  induction h with
  | nil => exact .cons ⟨rfl, hx⟩ .nil
  | @cons e p es vs hep ht ih =>
    obtain ⟨k', u⟩ := e
    obtain ⟨a, b⟩ := p
    obtain ⟨h1, h2⟩ := hep
    cases h1
    simp only [setEntry, setPair]
    split
    · exact .cons ⟨rfl, hx⟩ ht
    · exact .cons ⟨rfl, h2⟩ ih

theorem dropEntry_reads {t : Ty} {k : Str} {es vs} (h : List2 (EntryReads Γ t) es vs) :
    List2 (EntryReads Γ t) (dropEntry k es) (dropPair k vs) := by
  induction h with
  | nil => exact .nil
  | @cons e p es vs hep ht ih =>
    obtain ⟨k', u⟩ := e
    obtain ⟨a, b⟩ := p
    obtain ⟨h1, h2⟩ := hep
    cases h1
    simp only [dropEntry, dropPair]
    split
    · exact ht
    · exact .cons ⟨rfl, h2⟩ ih

theorem inEntry_reads {t : Ty} {k : Str} {f : Yaml → Yaml} {g : SVal → SVal} {es vs} (h : List2 (EntryReads Γ t) es vs)
    (hf : ∀ w v, (k, w) ∈ es → Decodes Γ t w v → Decodes Γ t (f w) (g v)) :
    List2 (EntryReads Γ t) (inEntry k f es) (inPair k g vs) := by
  induction h with
  | nil => exact .nil
  | @cons e p es vs hep ht ih =>
    obtain ⟨k', u⟩ := e
    obtain ⟨a, b⟩ := p
    obtain ⟨h1, h2⟩ := hep
    cases h1
    simp only [inEntry, inPair]
    split
    · rename_i hk; subst hk
      exact .cons ⟨rfl, hf u b (by simp) h2⟩ ht
    · exact .cons ⟨rfl, h2⟩ (ih fun w v hm => hf w v (by simp [hm]))

/-! ## Fields of structs -/

theorem filter_setEntry_other {k k' : Str} (h : k' ≠ k) (w : Yaml) (es : List (Str × Yaml)) :
    (setEntry k w es).filter (fun e => e.1 = k') = es.filter (fun e => e.1 = k') := by
  induction es with
  | nil => simp [setEntry, Ne.symm h]
  | cons e t ih =>
    obtain ⟨k0, v⟩ := e
    rw [setEntry]
    split
    · rename_i hk; subst hk; simp [Ne.symm h]
    · simp [List.filter_cons, ih]

theorem filter_dropEntry_other {k k' : Str} (h : k' ≠ k) (es : List (Str × Yaml)) :
    (dropEntry k es).filter (fun e => e.1 = k') = es.filter (fun e => e.1 = k') := by
  induction es with
  | nil => rfl
  | cons e t ih =>
    obtain ⟨k0, v⟩ := e
    rw [dropEntry]
    split
    · rename_i hk; subst hk; simp [Ne.symm h]
    · simp [List.filter_cons, ih]

theorem filter_inEntry_other {k k' : Str} (h : k' ≠ k) (f : Yaml → Yaml) (es : List (Str × Yaml)) :
    (inEntry k f es).filter (fun e => e.1 = k') = es.filter (fun e => e.1 = k') := by
  induction es with
  | nil => rfl
  | cons e t ih =>
    obtain ⟨k0, v⟩ := e
    rw [inEntry]
    split
    · rename_i hk; subst hk; simp [Ne.symm h]
    · simp [List.filter_cons, ih]

theorem filter_setEntry {k : Str} {w : Yaml} {es : List (Str × Yaml)} (h : (es.filter fun e => e.1 = k).length ≤ 1) :
    (setEntry k w es).filter (fun e => e.1 = k) = [(k, w)] := by
  induction es with
  | nil => simp [setEntry]
  | cons e t ih =>
    obtain ⟨k0, v⟩ := e
    rw [setEntry]
    split
    · rename_i hk; subst hk
      simp only [List.filter_cons, decide_true, if_true, List.length_cons] at h ⊢
      rw [List.eq_nil_of_length_eq_zero (by omega : (t.filter fun e => e.1 = k0).length = 0)]
    · rename_i hk
      simp only [List.filter_cons, hk, decide_false, Bool.false_eq_true, if_false] at h ⊢
      exact ih h

theorem filter_dropEntry {k : Str} {es : List (Str × Yaml)} (h : (es.filter fun e => e.1 = k).length ≤ 1) :
    (dropEntry k es).filter (fun e => e.1 = k) = [] := by
  induction es with
  | nil => rfl
  | cons e t ih =>
    obtain ⟨k0, v⟩ := e
    rw [dropEntry]
    split
    · rename_i hk; subst hk
      simp only [List.filter_cons, decide_true, if_true, List.length_cons] at h
      exact List.eq_nil_of_length_eq_zero (by omega)
    · rename_i hk
      simp only [List.filter_cons, hk, decide_false, Bool.false_eq_true, if_false] at h ⊢
      exact ih h

theorem filter_inEntry {k : Str} {f : Yaml → Yaml} {es : List (Str × Yaml)} (h : (es.filter fun e => e.1 = k).length ≤ 1) :
    (inEntry k f es).filter (fun e => e.1 = k) = (es.filter fun e => e.1 = k).map fun e => (e.1, f e.2) := by
  induction es with
  | nil => rfl
  | cons e t ih =>
    obtain ⟨k0, v⟩ := e
    rw [inEntry]
    split
    · rename_i hk; subst hk
      simp only [List.filter_cons, decide_true, if_true, List.length_cons] at h ⊢
      rw [List.eq_nil_of_length_eq_zero (by omega : (t.filter fun e => e.1 = k0).length = 0)]
      rfl
    · rename_i hk
      simp only [List.filter_cons, hk, decide_false, Bool.false_eq_true, if_false] at h ⊢
      exact ih h

theorem mem_filter_key {k : Str} {w : Yaml} {es : List (Str × Yaml)} : (k, w) ∈ es ↔ (k, w) ∈ es.filter fun e => e.1 = k := by
  rw [List.mem_filter]; simp

theorem lookup_mem {α : Type} {fs : List (Str × α)} {k : Str} {t : α} (h : fs.lookup k = some t) : (k, t) ∈ fs := by
  induction fs with
  | nil => simp at h
  | cons a fs ih =>
    obtain ⟨a, b⟩ := a
    rw [List.lookup_cons] at h
    split at h
    · rename_i he
      cases h
      simp [eq_of_beq he]
    · exact List.mem_cons_of_mem _ (ih h)

theorem mem_lookup {α : Type} {fs : List (Str × α)} {k : Str} {t : α} (h : (k, t) ∈ fs) : ∃ t', fs.lookup k = some t' := by
  induction fs with
  | nil => simp at h
  | cons a fs ih =>
    obtain ⟨a, b⟩ := a
    rw [List.lookup_cons]
    split
    · exact ⟨b, rfl⟩
    · rename_i he
      refine ih ?_
      simp only [List.mem_cons, Prod.mk.injEq] at h
      rcases h with ⟨rfl, -⟩ | h
      · simp at he
      · exact h

/-- A struct with one field changed. -/
theorem decodes_inField {fs : List (Str × Ty)} {y y' : Yaml} {es es' : List (Str × Yaml)} {k : Str} {t : Ty} {g : SVal → SVal}
    {vs : List (Str × SVal)} (hd : Decodes Γ (.struct fs) y (.struct vs)) (hy : mapPairs y = some es) (hy' : mapPairs y' = some es')
    (hk : fs.lookup k = some t) (hother : ∀ k', k' ≠ k → es'.filter (fun e => e.1 = k') = es.filter (fun e => e.1 = k'))
    (hlen : (es.filter fun e => e.1 = k).length ≤ 1 → (es'.filter fun e => e.1 = k).length ≤ 1)
    (hval : (es.filter fun e => e.1 = k).length ≤ 1 → ∀ w', (k, w') ∈ es' → ∀ v, (k, v) ∈ vs →
      ((∀ w, (k, w) ∈ es → Decodes Γ t w v) ∧ ((∀ w, (k, w) ∉ es) → v = .none)) → Decodes Γ t w' (g v))
    (hmiss : (es.filter fun e => e.1 = k).length ≤ 1 → (∀ w, (k, w) ∉ es') →
      ((∀ w, (k, w) ∉ es) → ∀ t', (k, t') ∈ fs → OptionTy Γ t') → (∀ t', (k, t') ∈ fs → OptionTy Γ t') ∧
        ∀ v, (k, v) ∈ vs → ((∀ w, (k, w) ∉ es) → v = .none) → g v = .none) :
    Decodes Γ (.struct fs) y' (.struct (inField k g vs)) := by
  cases hd with
  | @struct _ _ es0 _ hy0 hn h1 hv hm hmv =>
    rw [hy] at hy0
    cases hy0
    have hk' := lookup_mem hk
    have hle := h1 k t hk'
    have mem : ∀ k', k' ≠ k → ∀ w, (k', w) ∈ es' ↔ (k', w) ∈ es := by
      intro k' hne w
      rw [mem_filter_key, hother k' hne, ← mem_filter_key]
    have split : ∀ k' v', (k', v') ∈ inField k g vs → (k' ≠ k ∧ (k', v') ∈ vs) ∨ (k' = k ∧ ∃ v, v' = g v ∧ (k, v) ∈ vs) := by
      intro k' v' hm
      simp only [inField, List.mem_map] at hm
      obtain ⟨⟨k0, v0⟩, h1, h2⟩ := hm
      by_cases h : k0 = k
      · subst h
        simp only [if_true, Prod.mk.injEq] at h2
        exact .inr ⟨h2.1.symm, v0, h2.2.symm, h1⟩
      · simp only [h, if_false, Prod.mk.injEq] at h2
        obtain ⟨rfl, rfl⟩ := h2
        exact .inl ⟨h, h1⟩
    refine .struct hy' ?_ (fun k' t' hm' => ?_) (fun k' t' w v' hl hw hx => ?_) (fun k' t' hf ha => ?_) fun k' v' hx ha => ?_
    · rw [← hn]
      simp only [inField, List.map_map]
      refine List.map_congr_left fun e _ => ?_
      simp only [Function.comp]
      split <;> rfl
    · by_cases h : k' = k
      · subst h; exact hlen hle
      · rw [hother k' h]; exact h1 k' t' hm'
    · rcases split k' v' hx with ⟨h, hx⟩ | ⟨rfl, v, rfl, hx1⟩
      · exact hv k' t' w v' hl ((mem k' h w).1 hw) hx
      · rw [hk] at hl
        cases hl
        exact hval hle w hw v hx1 ⟨fun w0 hw0 => hv _ _ w0 v hk hw0 hx1, fun ha => hmv _ v hx1 ha⟩
    · by_cases h : k' = k
      · subst h
        exact (hmiss hle ha fun hno t'' hf'' => hm _ t'' hf'' hno).1 t' hf
      · exact hm k' t' hf fun w hw => ha w ((mem k' h w).2 hw)
    · rcases split k' v' hx with ⟨h, hx⟩ | ⟨rfl, v, rfl, hx1⟩
      · exact hmv k' v' hx fun w hw => ha w ((mem k' h w).2 hw)
      · exact (hmiss hle ha fun hno t'' hf'' => hm _ t'' hf'' hno).2 v hx1 (hmv _ v hx1)

/-! ## Elements of sequences -/

theorem modify_nodup {α : Type} (G : α → α) {is : List Nat} (hn : is.Nodup) (es : List α) (j : Nat) :
    (is.foldl (fun es i => es.modify i G) es)[j]? = if j ∈ is then es[j]?.map G else es[j]? := by
  induction is generalizing es with
  | nil => simp
  | cons i is ih =>
    rw [List.nodup_cons] at hn
    rw [List.foldl_cons, ih hn.2, List.getElem?_modify]
    by_cases h1 : j = i
    · subst h1
      simp [hn.1]
    · simp only [List.mem_cons, h1, false_or]
      have h2 : ¬ i = j := fun h => h1 h.symm
      cases es[j]? <;> simp [h2]

theorem modify_len {α : Type} (G : α → α) (is : List Nat) (es : List α) : (is.foldl (fun es i => es.modify i G) es).length = es.length := by
  induction is generalizing es with
  | nil => rfl
  | cons i is ih => rw [List.foldl_cons, ih, List.length_modify]

theorem decodes_seq_iff {t : Ty} {y : Yaml} {v : SVal} : Decodes Γ (.seq t) y v ↔ ∃ ys vs, seqElements y = some ys ∧ v = .seq vs ∧ ys.length = vs.length ∧
    ∀ (i : Nat) (w : Yaml) (u : SVal), ys[i]? = some w → vs[i]? = some u → Decodes Γ t w u := by
  constructor
  · intro h
    cases h with
    | @seq _ _ ys vs hy hl hv =>
      exact ⟨ys, vs, hy, rfl, hl, fun i w u h1 h2 => hv w u (List.mem_iff_getElem?.2 ⟨i, List.getElem?_zip_eq_some.2 ⟨h1, h2⟩⟩)⟩
  · rintro ⟨ys, vs, hy, rfl, hl, hv⟩
    refine .seq hy hl fun w u hm => ?_
    obtain ⟨i, hi⟩ := List.mem_iff_getElem?.1 hm
    rw [List.getElem?_zip_eq_some] at hi
    exact hv i w u hi.1 hi.2

/-! ## Changes -/

/-- The edit is the change at entries for fields of the type `t`. -/
structure ChangeEdit (Γ : Nat → Ty) (f : Closure) (c : Change) (t : Ty) (e : Bool) where
  E : Str → List (Str × Yaml) → List (Str × Yaml)
  edit : ∀ k ds, entriesOf (f ds k (ds.findIdx? (HashData.hasKey k))).2 = E k (entriesOf ds)
  other : ∀ k k' es, k' ≠ k → (E k es).filter (fun e => e.1 = k') = es.filter (fun e => e.1 = k')
  once : ∀ k es, (es.filter fun e => e.1 = k).length ≤ 1 → ((E k es).filter fun e => e.1 = k).length ≤ 1
  value : ∀ k es, (es.filter fun e => e.1 = k).length ≤ 1 → ∀ w, (k, w) ∈ E k es → Decodes Γ t w c.value
  missing : ∀ k es, (es.filter fun e => e.1 = k).length ≤ 1 → (∀ w, (k, w) ∉ E k es) → c.value = .none ∧ (e = false → OptionTy Γ t)
  pairs : ∀ k es vs, List2 (EntryReads Γ t) es vs → List2 (EntryReads Γ t) (E k es) (c.pairs k vs)

def changeSet {h : AliasedYaml} {t : Ty} {x : SVal} (hx : Decodes Γ t h.value x) (e : Bool) : ChangeEdit Γ (insertClosure h true) (.set x) t e where
  E k := setEntry k h.value
  edit k ds := by rw [insert_isPatch k h true ds, entriesOf_insert]
  other k k' es hne := filter_setEntry_other hne ..
  once k es hl := by rw [filter_setEntry hl]; simp
  value k es hl w hw := by
    rw [mem_filter_key, filter_setEntry hl] at hw
    simp only [List.mem_singleton, Prod.mk.injEq, true_and] at hw
    exact hw ▸ hx
  missing k es hl ha := absurd (by rw [mem_filter_key, filter_setEntry hl]; simp) (ha h.value)
  pairs k es vs hr := setEntry_reads hx hr

def changeUnset {t : Ty} {e : Bool} (ht : e = false → OptionTy Γ t) : ChangeEdit Γ removeClosure .unset t e where
  E k := dropEntry k
  edit k ds := by rw [remove_isPatch k ds, entriesOf_remove]
  other k k' es hne := filter_dropEntry_other hne ..
  once k es hl := by rw [filter_dropEntry hl]; simp
  value k es hl w hw := by
    rw [mem_filter_key, filter_dropEntry hl] at hw
    simp at hw
  missing k es hl ha := ⟨rfl, ht⟩
  pairs k es vs hr := dropEntry_reads hr

theorem changeAt_some (c : Change) (p : YamlPath) (v : SVal) (h : (lastKey p).isSome) : changeAt c p (.some v) = .some (changeAt c p v) := by
  match p with
  | .root _ => simp [lastKey] at h
  | .key _ _ none => rfl
  | .key _ _ (some _) => rfl
  | .allIndexes _ none => simp [lastKey] at h
  | .allIndexes _ (some _) => rfl
  | .indexes _ _ none => simp [lastKey] at h
  | .indexes _ _ (some _) => rfl

theorem changeAt_newtype (c : Change) (p : YamlPath) (v : SVal) (h : (lastKey p).isSome) : changeAt c p (.newtype v) = .newtype (changeAt c p v) := by
  match p with
  | .root _ => simp [lastKey] at h
  | .key _ _ none => rfl
  | .key _ _ (some _) => rfl
  | .allIndexes _ none => simp [lastKey] at h
  | .allIndexes _ (some _) => rfl
  | .indexes _ _ none => simp [lastKey] at h
  | .indexes _ _ (some _) => rfl

theorem changeAt_none (c : Change) (p : YamlPath) : changeAt c p .none = .none := by
  match p with
  | .root _ => rfl
  | .key _ _ none => rfl
  | .key _ _ (some _) => rfl
  | .allIndexes _ none => rfl
  | .allIndexes _ (some _) => rfl
  | .indexes _ _ none => rfl
  | .indexes _ _ (some _) => rfl

theorem leads_last {ty : Ty} {p : YamlPath} {t : Ty} {e : Bool} (h : Leads Γ ty p t e) : (lastKey p).isSome := by
  induction h <;> simp_all [lastKey]

theorem editHash_plain (f : Closure) (p : YamlPath) (y : Yaml) (s : Str) (h : (Yaml.editHash f p y).2 = .unquotedString s) : y = .unquotedString s := by
  match p with
  | .root _ => simpa [Yaml.editHash] using h
  | .key k cs none =>
    cases y <;> simp only [Yaml.editHash] at h <;> split at h <;> first | exact h | simp at h
  | .key k cs (some q) =>
    cases y <;> simp only [Yaml.editHash] at h <;> split at h <;> (try exact h) <;> (try simp at h) <;> split at h <;> (try simp at h) <;>
      split at h <;> simp at h
  | .allIndexes _ none => simpa [Yaml.editHash] using h
  | .allIndexes _ (some _) => cases y <;> simp [Yaml.editHash] at h ⊢; exact h
  | .indexes _ _ none => simpa [Yaml.editHash] using h
  | .indexes _ _ (some _) => cases y <;> simp [Yaml.editHash] at h ⊢; exact h

/-- The change of a tree is read as the change of the value. -/
theorem change_decodes {f : Closure} {c : Change} {t : Ty} {e : Bool} (C : ChangeEdit Γ f c t e) {ty : Ty} {p : YamlPath} (hl : Leads Γ ty p t e) :
    ∀ y, BlockAlong p y → ∀ v, Decodes Γ ty y v → Decodes Γ ty (Yaml.editHash f p y).2 (changeAt c p v) := by
  have keyLast : ∀ k ds, (Yaml.editHash f (.key k [] none) (.hash ds)).2 = .hash (f ds k (ds.findIdx? (HashData.hasKey k))).2 := by
    intro k ds
    simp only [Yaml.editHash, fitsConditions_nil, if_true, Yaml.keyIndex]
  have keyMid : ∀ k p ds, (Yaml.editHash f (.key k [] (some p)) (.hash ds)).2 = .hash ((valuePatch k (Yaml.editHash f p)).run k ds).2 := by
    intro k p ds
    rw [editHash_key (P := removePatch) (by simp), fitsConditions_nil]
    rfl
  have keyNot : ∀ k o y, mapPairs y = none → (Yaml.editHash f (.key k [] o) y).2 = y := by
    intro k o y hy
    cases y <;> cases o <;> simp [Yaml.editHash, mapPairs] at hy ⊢
  have isHash : ∀ {k cs o y es}, BlockAlong (.key k cs o) y → mapPairs y = some es → ∃ ds, y = .hash ds ∧ entriesOf ds = es := by
    intro k cs o y es hb hy
    have hb' : ∀ es, y ≠ .inlineHash es := by cases o <;> exact hb.1
    cases y <;> simp [mapPairs] at hy
    · exact absurd rfl (hb' _)
    · exact ⟨_, rfl, hy⟩
  have seqAt : ∀ is p y, (Yaml.editHash f (indexStep is [] p) y).2 = y ∧ seqElements y = none ∨
      ∃ ys, seqElements y = some ys ∧ seqElements (Yaml.editHash f (indexStep is [] p) y).2 = some (visitList is [] (Yaml.editHash f p) ys).2 := by
    intro is p y
    rw [editHash_indexStep]
    cases y with
    | inlineArray es => exact .inr ⟨es, rfl, rfl⟩
    | array ds =>
      refine .inr ⟨elementValues ds, ?_, ?_⟩
      · simp only [seqElements, elementsOf_eq]
      · simp only [seqElements, elementsOf_eq]
        rw [elementValues_setValues _ _ (visitList_length ..)]
    | inlineHash _ => exact .inl ⟨rfl, rfl⟩
    | hash _ => exact .inl ⟨rfl, rfl⟩
    | singleQuotedString _ => exact .inl ⟨rfl, rfl⟩
    | doubleQuotedString _ => exact .inl ⟨rfl, rfl⟩
    | unquotedString _ => exact .inl ⟨rfl, rfl⟩
    | foldedString _ _ => exact .inl ⟨rfl, rfl⟩
    | literalString _ _ => exact .inl ⟨rfl, rfl⟩
    | anchor _ => exact .inl ⟨rfl, rfl⟩
  have visit0 : ∀ p, visitTree [] (Yaml.editHash f p) = fun e => (Yaml.editHash f p e).2 := by
    intro p; funext e; simp [visitTree, fitsConditions_nil]
  -- maps
  have lastMap : ∀ {k : Str} {y : Yaml} {v : SVal}, e = true → BlockAlong (.key k [] none) y → Decodes Γ (.map .str t) y v →
      Decodes Γ (.map .str t) (Yaml.editHash f (.key k [] none) y).2 (changeAt c (.key k [] none) v) := by
    intro k y v _ hb hd
    obtain ⟨es, vs, hy, rfl, hr⟩ := decodes_strMap.1 hd
    obtain ⟨ds, rfl, rfl⟩ := isHash hb hy
    rw [keyLast]
    exact decodes_strMap.2 ⟨_, _, rfl, rfl, by rw [C.edit]; exact C.pairs k _ _ hr⟩
  have inMap : ∀ {u : Ty} {k : Str} {p : YamlPath} {y : Yaml} {v : SVal}, BlockAlong (.key k [] (some p)) y →
      (∀ y, BlockAlong p y → ∀ v, Decodes Γ u y v → Decodes Γ u (Yaml.editHash f p y).2 (changeAt c p v)) → Decodes Γ (.map .str u) y v →
      Decodes Γ (.map .str u) (Yaml.editHash f (.key k [] (some p)) y).2 (changeAt c (.key k [] (some p)) v) := by
    intro u k p y v hb ih hd
    obtain ⟨es, vs, hy, rfl, hr⟩ := decodes_strMap.1 hd
    obtain ⟨ds, rfl, rfl⟩ := isHash hb hy
    rw [keyMid]
    refine decodes_strMap.2 ⟨_, _, rfl, rfl, ?_⟩
    rw [entriesOf_value]
    exact inEntry_reads hr fun w v hm hw => ih w (hb.2 _ w rfl hm) v hw
  -- sequences
  have inSeq : ∀ {u : Ty} {is : Option (List Nat)} {p : YamlPath} {y : Yaml} {v : SVal}, (∀ l, is = some l → l.Nodup) →
      BlockAlong (indexStep is [] p) y →
      (∀ y, BlockAlong p y → ∀ v, Decodes Γ u y v → Decodes Γ u (Yaml.editHash f p y).2 (changeAt c p v)) → Decodes Γ (.seq u) y v →
      Decodes Γ (.seq u) (Yaml.editHash f (indexStep is [] p) y).2 (changeAt c (indexStep is [] p) v) := by
    intro u is p y v hn hb ih hd
    obtain ⟨ys, vs, hy, rfl, hlen, hv⟩ := decodes_seq_iff.1 hd
    have hb' : ∀ w ∈ ys, BlockAlong p w := by
      intro w hw
      cases is <;> exact hb ys w hy hw
    rcases seqAt is p y with ⟨-, h⟩ | ⟨ys', h1, h2⟩
    · rw [h] at hy; cases hy
    · rw [hy] at h1
      cases h1
      cases is with
      | none =>
        refine decodes_seq_iff.2 ⟨_, _, h2, rfl, by rw [visitList_length, List.length_map, hlen], fun i w u hw hu => ?_⟩
        simp only [visitList, overInline_snd, visit0, List.getElem?_map, Option.map_eq_some_iff] at hw hu
        obtain ⟨w0, hw0, rfl⟩ := hw
        obtain ⟨u0, hu0, rfl⟩ := hu
        exact ih w0 (hb' w0 (List.mem_iff_getElem?.2 ⟨i, hw0⟩)) u0 (hv i w0 u0 hw0 hu0)
      | some is =>
        refine decodes_seq_iff.2 ⟨_, _, h2, rfl, by rw [visitList_length, modify_len, hlen], fun i w u hw hu => ?_⟩
        simp only [visitList, atInline_snd, visit0] at hw
        rw [modify_nodup _ (hn is rfl)] at hw hu
        by_cases hi : i ∈ is
        · simp only [hi, if_true, Option.map_eq_some_iff] at hw hu
          obtain ⟨w0, hw0, rfl⟩ := hw
          obtain ⟨u0, hu0, rfl⟩ := hu
          exact ih w0 (hb' w0 (List.mem_iff_getElem?.2 ⟨i, hw0⟩)) u0 (hv i w0 u0 hw0 hu0)
        · simp only [hi, if_false] at hw hu
          exact hv i w u hw hu
  -- self-describing values
  have anyKey : ∀ {k : Str} {o : Option YamlPath} {y : Yaml} {v : SVal}, (∀ vs, v = .map vs → Decodes Γ (.map .str .any) y v →
        Decodes Γ (.map .str .any) (Yaml.editHash f (.key k [] o) y).2 (changeAt c (.key k [] o) v)) → Decodes Γ .any y v →
      Decodes Γ .any (Yaml.editHash f (.key k [] o) y).2 (changeAt c (.key k [] o) v) := by
    intro k o y v hm hd
    have plainCase : mapPairs y = none → changeAt c (.key k [] o) v = v → Decodes Γ .any (Yaml.editHash f (.key k [] o) y).2 (changeAt c (.key k [] o) v) := by
      intro h1 h2
      rw [keyNot k o y h1, h2]
      exact hd
    have hd0 := hd
    cases hd with
    | anyMap h =>
      have := hm _ rfl h
      cases o <;> exact .anyMap this
    | anyNull h => exact plainCase rfl (by cases o <;> rfl)
    | anyTrue => exact plainCase rfl (by cases o <;> rfl)
    | anyFalse => exact plainCase rfl (by cases o <;> rfl)
    | anyInt h => exact plainCase rfl (by cases o <;> rfl)
    | anyFloat _ h => exact plainCase rfl (by cases o <;> rfl)
    | anyPlain _ _ _ _ h => exact plainCase rfl (by cases o <;> rfl)
    | anyText hp hy => exact plainCase (by cases y <;> simp [scalarText, mapPairs] at hy ⊢) (by cases o <;> rfl)
    | anySeq h =>
      obtain ⟨ys, vs, hy, -⟩ := decodes_seq_iff.1 h
      exact plainCase (by cases y <;> simp [seqElements, mapPairs] at hy ⊢) (by cases o <;> rfl)
  have anyIndex : ∀ {is : Option (List Nat)} {p : YamlPath} {y : Yaml} {v : SVal}, (∀ vs, v = .seq vs → Decodes Γ (.seq .any) y v →
        Decodes Γ (.seq .any) (Yaml.editHash f (indexStep is [] p) y).2 (changeAt c (indexStep is [] p) v)) → Decodes Γ .any y v →
      Decodes Γ .any (Yaml.editHash f (indexStep is [] p) y).2 (changeAt c (indexStep is [] p) v) := by
    intro is p y v hm hd
    have plainCase : seqElements y = none → changeAt c (indexStep is [] p) v = v →
        Decodes Γ .any (Yaml.editHash f (indexStep is [] p) y).2 (changeAt c (indexStep is [] p) v) := by
      intro h1 h2
      rcases seqAt is p y with ⟨h, -⟩ | ⟨ys, h, -⟩
      · rw [h, h2]; exact hd
      · rw [h1] at h; cases h
    have hd0 := hd
    cases hd with
    | anySeq h =>
      have := hm _ rfl h
      cases is <;> exact .anySeq this
    | anyNull h => exact plainCase rfl (by cases is <;> rfl)
    | anyTrue => exact plainCase rfl (by cases is <;> rfl)
    | anyFalse => exact plainCase rfl (by cases is <;> rfl)
    | anyInt h => exact plainCase rfl (by cases is <;> rfl)
    | anyFloat _ h => exact plainCase rfl (by cases is <;> rfl)
    | anyPlain _ _ _ _ h => exact plainCase rfl (by cases is <;> rfl)
    | anyText hp hy => exact plainCase (by cases y <;> simp [scalarText, seqElements] at hy ⊢) (by cases is <;> rfl)
    | anyMap h =>
      obtain ⟨ys, vs, hy, -⟩ := decodes_strMap.1 h
      exact plainCase (by cases y <;> simp [seqElements, mapPairs] at hy ⊢) (by cases is <;> rfl)
  induction hl with
  | @field fs k t hk h1 =>
    intro y hb v hd
    have hd0 := hd
    cases hd with
    | @struct _ _ es vs hy hn ho hv hm hmv =>
      obtain ⟨ds, rfl, rfl⟩ := isHash hb hy
      rw [keyLast]
      refine decodes_inField hd0 rfl rfl hk ?_ ?_ ?_ ?_
      · intro k' hne; rw [C.edit]; exact C.other k k' _ hne
      · intro hl; rw [C.edit]; exact C.once k _ hl
      · intro hl w hw v _ _; rw [C.edit] at hw; exact C.value k _ hl w hw
      · intro hl ha _
        rw [C.edit] at ha
        obtain ⟨h2, h3⟩ := C.missing k _ hl ha
        exact ⟨fun t' ht' => by rw [h1 t' ht']; exact h3 rfl, fun _ _ _ => h2⟩
  | entry => exact fun y hb v hd => lastMap rfl hb hd
  | anyEntry => exact fun y hb v hd => anyKey (fun vs _ h => lastMap rfl hb h) hd
  | @inField fs k u p t e hk h ih =>
    intro y hb v hd
    have hd0 := hd
    cases hd with
    | @struct _ _ es vs hy hn ho hv hm hmv =>
      obtain ⟨ds, rfl, rfl⟩ := isHash hb hy
      rw [keyMid]
      refine decodes_inField hd0 rfl rfl hk ?_ ?_ ?_ ?_
      · intro k' hne; rw [entriesOf_value]; exact filter_inEntry_other hne ..
      · intro hl; rw [entriesOf_value, filter_inEntry hl, List.length_map]; exact hl
      · intro hl w hw v hx ⟨h2, h3⟩
        rw [entriesOf_value, mem_filter_key, filter_inEntry hl, List.mem_map] at hw
        obtain ⟨⟨k0, w0⟩, hm0, he⟩ := hw
        simp only [Prod.mk.injEq] at he
        obtain ⟨rfl, rfl⟩ := he
        rw [← mem_filter_key] at hm0
        exact ih C lastMap w0 (hb.2 _ w0 rfl hm0) v (h2 w0 hm0)
      · intro hl ha hopt
        have hno : ∀ w, (k, w) ∉ entriesOf ds := by
          intro w hw
          refine ha (Yaml.editHash f p w).2 ?_
          rw [entriesOf_value, mem_filter_key, filter_inEntry hl]
          exact List.mem_map.2 ⟨(k, w), mem_filter_key.1 hw, rfl⟩
        exact ⟨hopt hno, fun v _ hv => by rw [hv hno]; exact changeAt_none c p⟩
  | inEntry h ih => exact fun y hb v hd => inMap hb (ih C lastMap) hd
  | inAny h ih => exact fun y hb v hd => anyKey (fun vs _ h => inMap hb (ih C lastMap) h) hd
  | all h ih => exact fun y hb v hd => inSeq (is := none) nofun hb (ih C lastMap) hd
  | @some u is p t e hn h ih => exact fun y hb v hd => inSeq (is := .some is) (fun l hl => by cases hl; exact hn) hb (ih C lastMap) hd
  | anyAll h ih => exact fun y hb v hd => anyIndex (is := none) (fun vs _ h => inSeq (is := none) nofun hb (ih C lastMap) h) hd
  | @anySome is p e hn h ih =>
    exact fun y hb v hd => anyIndex (is := .some is) (fun vs _ h => inSeq (is := .some is) (fun l hl => by cases hl; exact hn) hb (ih C lastMap) h) hd
  | @option u p t e h ih =>
    intro y hb v hd
    have hsome := leads_last h
    cases hd with
    | @none _ s hs =>
      rw [changeAt_none]
      have : (Yaml.editHash f p (.unquotedString s)).2 = .unquotedString s := by
        match p, hsome with
        | .key k cs none, _ => simp [Yaml.editHash]
        | .key k cs (.some _), _ => simp [Yaml.editHash]
        | .allIndexes cs (.some _), _ => rfl
        | .indexes is cs (.some _), _ => rfl
      rw [this]
      exact .none hs
    | @some _ _ v hn hd =>
      rw [changeAt_some c p v hsome]
      refine .some (fun s hs => ?_) (ih C lastMap y hb v hd)
      exact hn s (editHash_plain f p y s hs)
  | @newtype u p t e h ih =>
    intro y hb v hd
    cases hd with
    | @newtype _ _ v hd =>
      rw [changeAt_newtype c p v (leads_last h)]
      exact .newtype (ih C lastMap y hb v hd)
  | @ref n p t e h ih =>
    intro y hb v hd
    cases hd with
    | ref hd => exact .ref (ih C lastMap y hb v hd)

end YamlSubset
