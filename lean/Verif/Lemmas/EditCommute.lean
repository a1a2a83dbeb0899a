import Verif.Props.EditFrame
import Verif.Spec.Commute

/-! # Edits at different places commute -/

namespace YamlSubset

open Spec

/-! ## The data of a hash -/

/-- An edit of the data of a hash that depends on the first entry with a key only. -/
structure Patch where
  /-- What is appended if there is no such entry. -/
  app : List HashData
  /-- What the entry is replaced by. -/
  mid : AliasedYaml → List HashData
  /-- The counts in these two cases. -/
  count0 : Nat
  count1 : AliasedYaml → Nat

/-- Apply a patch. -/
def Patch.run (P : Patch) (k : Str) : List HashData → Nat × List HashData
  | [] => (P.count0, P.app)
  | .element ⟨k', v⟩ :: t =>
    if k' = k then (P.count1 v, P.mid v ++ t) else ((P.run k t).1, .element ⟨k', v⟩ :: (P.run k t).2)
  | .comment c :: t => ((P.run k t).1, .comment c :: (P.run k t).2)
  | .inlineComment c :: t => ((P.run k t).1, .inlineComment c :: (P.run k t).2)

/-- All entries the patch writes have these names. -/
def Patch.Writes (P : Patch) (names : List Str) : Prop := (∀ k ∈ keysOf P.app, k ∈ names) ∧ ∀ v, ∀ k ∈ keysOf (P.mid v), k ∈ names

theorem Patch.run_append (P : Patch) {k : Str} {l : List HashData} (h : k ∉ keysOf l) (t : List HashData) :
    P.run k (l ++ t) = ((P.run k t).1, l ++ (P.run k t).2) := by
  induction l with
  | nil => rfl
  | cons d l ih =>
    match d with
    | .element ⟨k', v⟩ =>
      simp only [keysOf, List.filterMap_cons, List.mem_cons, not_or] at h
      have ih := ih (by simpa [keysOf] using h.2)
      simp only [List.cons_append, Patch.run, ih, Ne.symm h.1, if_false]
    | .comment c =>
      have ih := ih (by simpa [keysOf, List.filterMap_cons] using h)
      simp only [List.cons_append, Patch.run, ih]
    | .inlineComment c =>
      have ih := ih (by simpa [keysOf, List.filterMap_cons] using h)
      simp only [List.cons_append, Patch.run, ih]

theorem Patch.run_absent (P : Patch) {k : Str} {l : List HashData} (h : k ∉ keysOf l) : P.run k l = (P.count0, l ++ P.app) := by
  have := P.run_append h []
  simpa [Patch.run] using this

theorem Patch.run_present (P : Patch) {k : Str} {pre post : List HashData} {v : AliasedYaml} (h : k ∉ keysOf pre) :
    P.run k (pre ++ .element ⟨k, v⟩ :: post) = (P.count1 v, pre ++ (P.mid v ++ post)) := by
  rw [P.run_append h]
  simp [Patch.run]

/-- Two patches for different entries commute, unless both append. -/
theorem Patch.commute {P Q : Patch} {k l : Str} {names names' : List Str} (hP : P.Writes names) (hQ : Q.Writes names') (hk : k ∉ names')
    (hl : l ∉ names) (hkl : k ≠ l) (happ : P.app = [] ∨ Q.app = []) (ds : List HashData) :
    (Q.run l (P.run k ds).2).2 = (P.run k (Q.run l ds).2).2 ∧ (Q.run l (P.run k ds).2).1 = (Q.run l ds).1 := by
  have hPa : l ∉ keysOf P.app := fun h => hl (hP.1 _ h)
  have hPm : ∀ v, l ∉ keysOf (P.mid v) := fun v h => hl (hP.2 v _ h)
  have hQa : k ∉ keysOf Q.app := fun h => hk (hQ.1 _ h)
  have hQm : ∀ v, k ∉ keysOf (Q.mid v) := fun v h => hk (hQ.2 v _ h)
  induction ds with
  | nil =>
    simp only [Patch.run, Q.run_absent hPa, P.run_absent hQa]
    rcases happ with h | h <;> simp [h]
  | cons d t ih =>
    match d with
    | .comment c => simp only [Patch.run, ih.1, ih.2, and_self]
    | .inlineComment c => simp only [Patch.run, ih.1, ih.2, and_self]
    | .element ⟨k', v⟩ =>
      by_cases h1 : k' = k
      · subst h1
        simp only [Patch.run, if_true, hkl, if_false, Q.run_append (hPm v), and_self]
      · by_cases h2 : k' = l
        · subst h2
          simp only [Patch.run, if_true, h1, if_false, P.run_append (hQm v), and_self]
        · simp only [Patch.run, h1, h2, if_false, ih.1, ih.2, and_self]

/-- The patch that edits the value. -/
def valuePatch (k : Str) (F : Yaml → Nat × Yaml) : Patch where
  app := []
  mid v := [.element ⟨k, ⟨v.alias, (F v.value).2⟩⟩]
  count0 := 0
  count1 v := (F v.value).1

theorem valuePatch_writes (k : Str) (F : Yaml → Nat × Yaml) : (valuePatch k F).Writes [k] := by
  constructor <;> simp [valuePatch, keysOf]

theorem valuePatch_commute {k : Str} {F G : Yaml → Nat × Yaml} (h : ∀ y, (G (F y).2).2 = (F (G y).2).2 ∧ (G (F y).2).1 = (G y).1)
    (ds : List HashData) : ((valuePatch k G).run k ((valuePatch k F).run k ds).2).2 = ((valuePatch k F).run k ((valuePatch k G).run k ds).2).2 ∧
      ((valuePatch k G).run k ((valuePatch k F).run k ds).2).1 = ((valuePatch k G).run k ds).1 := by
  induction ds with
  | nil => exact ⟨rfl, rfl⟩
  | cons d t ih =>
    match d with
    | .comment c => simp only [Patch.run, ih.1, ih.2, and_self]
    | .inlineComment c => simp only [Patch.run, ih.1, ih.2, and_self]
    | .element ⟨k', v⟩ =>
      by_cases h1 : k' = k
      · subst h1
        simp only [Patch.run, valuePatch, if_true, List.singleton_append, (h v.value).1, (h v.value).2, and_self]
      · simp only [Patch.run, h1, if_false, ih.1, ih.2, and_self]

/-- A closure that is a patch at a key. -/
def Closure.IsPatch (f : Closure) (k : Str) (P : Patch) : Prop := ∀ ds, f ds k (ds.findIdx? (HashData.hasKey k)) = P.run k ds

def insertPatch (k : Str) (h : AliasedYaml) (o : Bool) : Patch where
  app := [.element ⟨k, h⟩]
  mid v := [.element ⟨k, if o then h else v⟩]
  count0 := 1
  count1 _ := if o then 1 else 0

def removePatch : Patch where
  app := []
  mid _ := []
  count0 := 0
  count1 _ := 1

def elementPatch (k : Str) (f : HashElement → Nat × HashElement) : Patch where
  app := []
  mid v := [.element (f ⟨k, v⟩).2]
  count0 := 0
  count1 v := (f ⟨k, v⟩).1

theorem insert_isPatch (k : Str) (h : AliasedYaml) (o : Bool) : Closure.IsPatch (insertClosure h o) k (insertPatch k h o) := by
  intro ds
  rcases absent_or_first k ds with ha | ⟨pre, v, post, hfe⟩
  · rw [findIdx_absent ha, Patch.run_absent _ ha]; rfl
  · rw [hfe.findIdx]
    obtain ⟨rfl, ha⟩ := hfe
    rw [Patch.run_present _ ha]
    cases o <;> simp [insertClosure, insertPatch, set_append_length]

theorem remove_isPatch (k : Str) : Closure.IsPatch removeClosure k removePatch := by
  intro ds
  rcases absent_or_first k ds with ha | ⟨pre, v, post, hfe⟩
  · rw [findIdx_absent ha, Patch.run_absent _ ha]; simp [removeClosure, removePatch]
  · rw [hfe.findIdx]
    obtain ⟨rfl, ha⟩ := hfe
    rw [Patch.run_present _ ha]
    simp only [removeClosure, removePatch, List.nil_append]
    rw [List.eraseIdx_append_of_length_le (by simp)]
    simp

theorem element_isPatch (k : Str) (f : HashElement → Nat × HashElement) : Closure.IsPatch (elementClosure f) k (elementPatch k f) := by
  intro ds
  rcases absent_or_first k ds with ha | ⟨pre, v, post, hfe⟩
  · rw [findIdx_absent ha, Patch.run_absent _ ha]; simp [elementClosure, elementPatch]
  · rw [hfe.findIdx]
    simp only [elementClosure, hfe.get]
    obtain ⟨rfl, ha⟩ := hfe
    rw [Patch.run_present _ ha, set_append_length]
    rfl

/-! ## Key steps -/

/-- The patch of a key step. -/
def keyPatch (f : Closure) (P : Patch) (k : Str) : Option YamlPath → Patch
  | none => P
  | some p => valuePatch k (Yaml.editHash f p)

theorem editHash_key {f : Closure} {P : Patch} {k : Str} {o : Option YamlPath} (hf : o = none → f.IsPatch k P) (cs : List Condition)
    (ds : List HashData) : Yaml.editHash f (.key k cs o) (.hash ds) =
      if (Yaml.hash ds).fitsConditions cs then (((keyPatch f P k o).run k ds).1, .hash ((keyPatch f P k o).run k ds).2) else (0, .hash ds) := by
  cases o with
  | none =>
    simp only [Yaml.editHash, Yaml.keyIndex, keyPatch]
    have := hf rfl ds
    rw [this]
  | some p =>
    simp only [Yaml.editHash, Yaml.keyIndex, keyPatch]
    split
    · rcases absent_or_first k ds with ha | ⟨pre, v, post, hfe⟩
      · rw [findIdx_absent ha, Patch.run_absent _ ha]; simp [valuePatch]
      · obtain ⟨a, v⟩ := v
        rw [hfe.findIdx]
        simp only [hfe.get]
        obtain ⟨rfl, ha⟩ := hfe
        rw [Patch.run_present _ ha, set_append_length]
        rfl
    · rfl

theorem fitsConditions_frame {f : Closure} {last : Str} {names : List Str} (hf : f.Frames last names) {path : YamlPath}
    (hl : lastKey path = some last) (y : Yaml) {cs : List Condition} (hc : ∀ c ∈ cs, c.field ∉ names) :
    (Yaml.editHash f path y).2.fitsConditions cs = y.fitsConditions cs := by
  rw [Bool.eq_iff_iff, fitsConditions_iff, fitsConditions_iff]
  exact fits_frame hf hl y hc

/-- The second edit commutes with the first, and its count is the same. -/
def CommutesWith (F G : Yaml → Nat × Yaml) (y : Yaml) : Prop := (G (F y).2).2 = (F (G y).2).2 ∧ (G (F y).2).1 = (G y).1

theorem key_commute {f g : Closure} {P Q : Patch} {k l : Str} {cs cs' : List Condition} {o o' : Option YamlPath}
    (hf : o = none → f.IsPatch k P) (hg : o' = none → g.IsPatch l Q)
    (hfit : ∀ y, (Yaml.editHash f (.key k cs o) y).2.fitsConditions cs' = y.fitsConditions cs')
    (hfit' : ∀ y, (Yaml.editHash g (.key l cs' o') y).2.fitsConditions cs = y.fitsConditions cs)
    (hc : ∀ ds, ((keyPatch g Q l o').run l ((keyPatch f P k o).run k ds).2).2 = ((keyPatch f P k o).run k ((keyPatch g Q l o').run l ds).2).2 ∧
      ((keyPatch g Q l o').run l ((keyPatch f P k o).run k ds).2).1 = ((keyPatch g Q l o').run l ds).1) (y : Yaml) :
    CommutesWith (Yaml.editHash f (.key k cs o)) (Yaml.editHash g (.key l cs' o')) y := by
  unfold CommutesWith
  cases y with
  | hash ds =>
    have h1 := hfit (.hash ds)
    have h2 := hfit' (.hash ds)
    simp only [editHash_key hf, editHash_key hg] at h1 h2 ⊢
    by_cases a : (Yaml.hash ds).fitsConditions cs = true
    · by_cases b : (Yaml.hash ds).fitsConditions cs' = true
      · simp only [a, b, if_true] at h1 h2 ⊢
        simp only [editHash_key hf, editHash_key hg, h1, h2, if_true, (hc ds).1, (hc ds).2, and_self]
      · simp only [a, b, if_true, Bool.false_eq_true, if_false] at h1 h2 ⊢
        simp only [editHash_key hf, editHash_key hg, h1, a, if_true, Bool.false_eq_true, if_false, and_self]
    · by_cases b : (Yaml.hash ds).fitsConditions cs' = true
      · simp only [a, b, if_true, Bool.false_eq_true, if_false] at h1 h2 ⊢
        simp only [editHash_key hf, editHash_key hg, h2, b, if_true, Bool.false_eq_true, if_false, and_self]
      · simp only [a, b, Bool.false_eq_true, if_false] at h1 h2 ⊢
        simp only [editHash_key hf, editHash_key hg, a, b, Bool.false_eq_true, if_false, and_self]
  | _ => simp [editHash_key_other]

/-! ## Index steps -/

/-- Visit the listed elements, or all. -/
def visitList (is : Option (List Nat)) (cs : List Condition) (F : Yaml → Nat × Yaml) (es : List Yaml) : Nat × List Yaml :=
  match is with
  | none => overInline cs F 0 es
  | some is => atInline cs F is 0 es

theorem visitList_length (is : Option (List Nat)) (cs : List Condition) (F : Yaml → Nat × Yaml) (es : List Yaml) :
    (visitList is cs F es).2.length = es.length := by
  cases is with
  | none => simp [visitList, overInline_snd]
  | some is => exact atInline_length ..

theorem editHash_indexStep (f : Closure) (is : Option (List Nat)) (cs : List Condition) (p : YamlPath) (y : Yaml) :
    Yaml.editHash f (indexStep is cs p) y = match y with
      | .inlineArray es => ((visitList is cs (Yaml.editHash f p) es).1, .inlineArray (visitList is cs (Yaml.editHash f p) es).2)
      | .array ds => ((visitList is cs (Yaml.editHash f p) (elementValues ds)).1, .array (setValues ds (visitList is cs (Yaml.editHash f p) (elementValues ds)).2))
      | y => (0, y) := by
  cases is <;> cases y <;> simp only [indexStep, Yaml.editHash, visitList, overArray_values, atArray_values]

theorem modify_modify_comm {G H : Yaml → Yaml} (h : ∀ e, H (G e) = G (H e)) (es : List Yaml) (i j : Nat) :
    (es.modify i G).modify j H = (es.modify j H).modify i G := by
  apply List.ext_getElem?
  intro n
  simp only [List.getElem?_modify]
  cases es[n]? with
  | none => simp
  | some e =>
    simp only [Option.map_eq_map, Option.map_some]
    by_cases h1 : i = n <;> by_cases h2 : j = n <;> simp [h1, h2, h]

theorem modify_modify_ne {G H : Yaml → Yaml} (es : List Yaml) {i j : Nat} (h : i ≠ j) :
    (es.modify i G).modify j H = (es.modify j H).modify i G := by
  apply List.ext_getElem?
  intro n
  simp only [List.getElem?_modify]
  cases es[n]? with
  | none => simp
  | some e =>
    simp only [Option.map_eq_map, Option.map_some]
    by_cases h1 : i = n <;> by_cases h2 : j = n <;> simp [h1, h2]
    exact absurd (h1.trans h2.symm) h

theorem modify_map_comm {G H : Yaml → Yaml} (h : ∀ e, H (G e) = G (H e)) (es : List Yaml) (i : Nat) :
    (es.modify i G).map H = (es.map H).modify i G := by
  apply List.ext_getElem?
  intro n
  simp only [List.getElem?_modify, List.getElem?_map]
  cases es[n]? with
  | none => simp
  | some e =>
    simp only [Option.map_eq_map, Option.map_some]
    by_cases h1 : i = n <;> simp [h1, h]

theorem foldl_modify_map {G H : Yaml → Yaml} (h : ∀ e, H (G e) = G (H e)) (is : List Nat) (es : List Yaml) :
    (is.foldl (fun es i => es.modify i G) es).map H = is.foldl (fun es i => es.modify i G) (es.map H) := by
  induction is generalizing es with
  | nil => rfl
  | cons i is ih => rw [List.foldl_cons, List.foldl_cons, ih, modify_map_comm h]

theorem foldl_modify_modify {G H : Yaml → Yaml} {is : List Nat} {j : Nat}
    (h : ∀ i ∈ is, ∀ es : List Yaml, (es.modify i G).modify j H = (es.modify j H).modify i G) (es : List Yaml) :
    (is.foldl (fun es i => es.modify i G) es).modify j H = is.foldl (fun es i => es.modify i G) (es.modify j H) := by
  induction is generalizing es with
  | nil => rfl
  | cons i is ih => rw [List.foldl_cons, List.foldl_cons, ih fun i hi => h i (by simp [hi]), h i (by simp)]

theorem foldl_foldl_modify {G H : Yaml → Yaml} {is js : List Nat}
    (h : ∀ i ∈ is, ∀ j ∈ js, ∀ es : List Yaml, (es.modify i G).modify j H = (es.modify j H).modify i G) (es : List Yaml) :
    js.foldl (fun es i => es.modify i H) (is.foldl (fun es i => es.modify i G) es) =
      is.foldl (fun es i => es.modify i G) (js.foldl (fun es i => es.modify i H) es) := by
  induction js generalizing es with
  | nil => rfl
  | cons j js ih =>
    rw [List.foldl_cons, List.foldl_cons, foldl_modify_modify fun i hi => h i hi j (by simp)]
    exact ih (fun i hi j hj => h i hi j (by simp [hj])) _

/-- The same edit some times. -/
def times : Nat → (Yaml → Yaml) → Yaml → Yaml
  | 0, _, e => e
  | n + 1, G, e => G (times n G e)

/-- Related elements in two lists. -/
def ElementsRel (S : Yaml → Yaml → Prop) (es es' : List Yaml) (j : Nat) : Prop :=
  (es[j]? = none ∧ es'[j]? = none) ∨ ∃ e e', es[j]? = some e ∧ es'[j]? = some e' ∧ S e e'

theorem foldl_modify_rel (G : Yaml → Yaml) (is : List Nat) (es : List Yaml) (j : Nat) :
    ElementsRel (fun e e' => ∃ n, e' = times n G e) es (is.foldl (fun es i => es.modify i G) es) j := by
  have key : ∀ (es' : List Yaml), ElementsRel (fun e e' => ∃ n, e' = times n G e) es es' j →
      ElementsRel (fun e e' => ∃ n, e' = times n G e) es (is.foldl (fun es i => es.modify i G) es') j := by
    induction is with
    | nil => intro es' h; exact h
    | cons i is ih =>
      intro es' h
      rw [List.foldl_cons]
      apply ih
      rcases h with ⟨h1, h2⟩ | ⟨e, e', h1, h2, n, rfl⟩
      · exact .inl ⟨h1, by simp [List.getElem?_modify, h2]⟩
      · right
        refine ⟨e, _, h1, by rw [List.getElem?_modify, h2]; rfl, ?_⟩
        by_cases hij : i = j
        · exact ⟨n + 1, by simp [hij, times]⟩
        · exact ⟨n, by simp [hij]⟩
  apply key
  cases h : es[j]? with
  | none => exact .inl ⟨h, h⟩
  | some e => exact .inr ⟨e, e, h, h, 0, rfl⟩

theorem atInline_count {S : Yaml → Yaml → Prop} {cs : List Condition} {g : Yaml → Nat × Yaml}
    (hS : ∀ e e', S e e' → visitVal cs g e' = visitVal cs g e ∧ S (visitTree cs g e) (visitTree cs g e')) (js : List Nat) :
    ∀ (c : Nat) (es es' : List Yaml), (∀ j ∈ js, ElementsRel S es es' j) → (atInline cs g js c es').1 = (atInline cs g js c es).1 := by
  induction js with
  | nil => intro c es es' _; rfl
  | cons i js ih =>
    intro c es es' h
    have step : ∀ (c : Nat) (es : List Yaml) (e : Yaml), es[i]? = some e → (atInline cs g (i :: js) c es).1 =
        (atInline cs g js (c + visitVal cs g e) (es.set i (visitTree cs g e))).1 := by
      intro c es e he
      simp only [atInline, he, visitVal, visitTree]
      split
      · rfl
      · simp only [Additive.zero, Nat.add_zero]
        congr 1
        congr 1
        apply List.ext_getElem?
        intro n
        rw [List.getElem?_set]
        split
        · rename_i hn; subst hn; split
          · rw [he]
          · rename_i hlt; rw [List.getElem?_eq_none (by omega)]
        · rfl
    rcases h i (by simp) with ⟨h1, h2⟩ | ⟨e, e', h1, h2, hs⟩
    · simp only [atInline, h1, h2]
      exact ih c es es' fun j hj => h j (by simp [hj])
    · rw [step c es e h1, step c es' e' h2, (hS e e' hs).1]
      apply ih
      intro j hj
      by_cases hij : i = j
      · subst hij
        right
        refine ⟨_, _, ?_, ?_, (hS e e' hs).2⟩
        · rw [List.getElem?_set_self (List.getElem?_eq_some_iff.1 h1).1]
        · rw [List.getElem?_set_self (List.getElem?_eq_some_iff.1 h2).1]
      · unfold ElementsRel
        rw [List.getElem?_set_ne hij, List.getElem?_set_ne hij]
        exact h j (by simp [hj])

/-- Visits with edits that commute on every element. -/
theorem visitList_commute {cs cs' : List Condition} {F G : Yaml → Nat × Yaml}
    (ht : ∀ e, visitTree cs' G (visitTree cs F e) = visitTree cs F (visitTree cs' G e))
    (hv : ∀ e, visitVal cs' G (visitTree cs F e) = visitVal cs' G e) (is js : Option (List Nat)) (es : List Yaml) :
    (visitList js cs' G (visitList is cs F es).2).2 = (visitList is cs F (visitList js cs' G es).2).2 ∧
      (visitList js cs' G (visitList is cs F es).2).1 = (visitList js cs' G es).1 := by
  have htimes : ∀ n e, visitVal cs' G (times n (visitTree cs F) e) = visitVal cs' G e ∧
      visitTree cs' G (times n (visitTree cs F) e) = times n (visitTree cs F) (visitTree cs' G e) := by
    intro n
    induction n with
    | zero => intro e; exact ⟨rfl, rfl⟩
    | succ n ih => intro e; simp only [times, hv, ht, (ih e).1, (ih e).2, and_self]
  have hrel : ∀ j, ElementsRel (fun e e' => ∃ n, e' = times n (visitTree cs F) e) es (visitList is cs F es).2 j := by
    intro j
    cases is with
    | none =>
      simp only [visitList, overInline_snd]
      unfold ElementsRel
      simp only [List.getElem?_map]
      cases es[j]? with
      | none => exact .inl ⟨rfl, rfl⟩
      | some e => exact .inr ⟨e, _, rfl, rfl, 1, rfl⟩
    | some is => simp only [visitList, atInline_snd]; exact foldl_modify_rel _ _ _ _
  constructor
  · cases is with
    | none =>
      cases js with
      | none => simp only [visitList, overInline_snd, List.map_map]; exact List.map_congr_left fun e _ => ht e
      | some js => simp only [visitList, overInline_snd, atInline_snd]; exact (foldl_modify_map (fun e => (ht e).symm) js es).symm
    | some is =>
      cases js with
      | none => simp only [visitList, overInline_snd, atInline_snd]; exact foldl_modify_map ht is es
      | some js => simp only [visitList, atInline_snd]; exact foldl_foldl_modify (fun i _ j _ es => modify_modify_comm ht es i j) es
  · cases js with
    | none =>
      simp only [visitList, overInline_nat, Nat.zero_add]
      congr 1
      apply List.ext_getElem?
      intro j
      simp only [List.getElem?_map]
      rcases hrel j with ⟨h1, h2⟩ | ⟨e, e', h1, h2, n, rfl⟩
      · simp only [visitList] at h2 ⊢; rw [h1, h2]
      · simp only [visitList] at h2 ⊢; rw [h1, h2]; simp [(htimes n e).1]
    | some js =>
      refine atInline_count ?_ js 0 es _ fun j _ => hrel j
      rintro e e' ⟨n, rfl⟩
      exact ⟨(htimes n e).1, n, (htimes n e).2⟩

/-- Visits of different elements. -/
theorem visitList_disjoint {cs cs' : List Condition} {F G : Yaml → Nat × Yaml} {is js : List Nat} (h : ∀ j ∈ js, j ∉ is) (es : List Yaml) :
    (visitList (some js) cs' G (visitList (some is) cs F es).2).2 = (visitList (some is) cs F (visitList (some js) cs' G es).2).2 ∧
      (visitList (some js) cs' G (visitList (some is) cs F es).2).1 = (visitList (some js) cs' G es).1 := by
  constructor
  · simp only [visitList, atInline_snd]
    exact foldl_foldl_modify (fun i hi j hj es => modify_modify_ne es fun he => h j hj (he ▸ hi)) es
  · simp only [visitList]
    refine atInline_count (S := Eq) ?_ js 0 es _ fun j hj => ?_
    · rintro e e' rfl; exact ⟨rfl, rfl⟩
    · rw [atInline_snd]
      unfold ElementsRel
      rw [foldl_modify_not_mem _ _ _ _ (h j hj)]
      cases es[j]? with
      | none => exact .inl ⟨rfl, rfl⟩
      | some e => exact .inr ⟨e, e, rfl, rfl, rfl⟩

theorem index_commute {f g : Closure} {p q : YamlPath} {is js : Option (List Nat)} {cs cs' : List Condition}
    (h : ∀ es, (visitList js cs' (Yaml.editHash g q) (visitList is cs (Yaml.editHash f p) es).2).2 =
        (visitList is cs (Yaml.editHash f p) (visitList js cs' (Yaml.editHash g q) es).2).2 ∧
      (visitList js cs' (Yaml.editHash g q) (visitList is cs (Yaml.editHash f p) es).2).1 = (visitList js cs' (Yaml.editHash g q) es).1) (y : Yaml) :
    CommutesWith (Yaml.editHash f (indexStep is cs p)) (Yaml.editHash g (indexStep js cs' q)) y := by
  unfold CommutesWith
  simp only [editHash_indexStep]
  cases y with
  | inlineArray es => simp only [(h es).1, (h es).2, and_self]
  | array ds =>
    have l1 := visitList_length is cs (Yaml.editHash f p) (elementValues ds)
    have l2 := visitList_length js cs' (Yaml.editHash g q) (elementValues ds)
    simp only [elementValues_setValues ds _ l1, elementValues_setValues ds _ l2]
    rw [setValues_setValues ds _ _ l1 (by rw [visitList_length, l1]), setValues_setValues ds _ _ l2 (by rw [visitList_length, l2])]
    simp only [(h (elementValues ds)).1, (h (elementValues ds)).2, and_self]
  | _ => simp

/-- What is needed of an edit: it is a patch at the last key of its path. -/
structure PatchEdit (f : Closure) (last : Str) (names : List Str) (P : Patch) : Prop where
  patch : f.IsPatch last P
  writes : P.Writes names
  frames : f.Frames last names
  own : last ∈ names

theorem visit_commute {f g : Closure} {k l : Str} {names names' : List Str} {P Q : Patch} (hf : PatchEdit f k names P) (hg : PatchEdit g l names' Q)
    {p q : YamlPath} (hp : lastKey p = some k) (hq : lastKey q = some l) {cs cs' : List Condition} (hc : ∀ c ∈ cs, c.field ∉ names')
    (hc' : ∀ c ∈ cs', c.field ∉ names) (ih : ∀ y, CommutesWith (Yaml.editHash f p) (Yaml.editHash g q) y) (is js : Option (List Nat)) (y : Yaml) :
    CommutesWith (Yaml.editHash f (indexStep is cs p)) (Yaml.editHash g (indexStep js cs' q)) y := by
  apply index_commute
  intro es
  apply visitList_commute
  · intro e
    have h1 := fitsConditions_frame hf.frames hp e hc'
    have h2 := fitsConditions_frame hg.frames hq e hc
    unfold visitTree
    by_cases a : e.fitsConditions cs = true <;> by_cases b : e.fitsConditions cs' = true <;> simp [a, b, h1, h2, (ih e).1]
  · intro e
    have h1 := fitsConditions_frame hf.frames hp e hc'
    unfold visitTree visitVal
    by_cases a : e.fitsConditions cs = true <;> by_cases b : e.fitsConditions cs' = true <;> simp [a, b, h1, (ih e).2]

theorem editHash_commute {f g : Closure} {k l : Str} {names names' : List Str} {P Q : Patch} (hf : PatchEdit f k names P) (hg : PatchEdit g l names' Q)
    {p q : YamlPath} (hp : lastKey p = some k) (hq : lastKey q = some l) (hd : Diverges names p q) (hd' : Diverges names' q p)
    (hc : ∀ c ∈ conditionsOf p, c.field ∉ names') (hc' : ∀ c ∈ conditionsOf q, c.field ∉ names)
    (happ : endTogether p q = false ∨ P.app = [] ∨ Q.app = []) (y : Yaml) :
    CommutesWith (Yaml.editHash f p) (Yaml.editHash g q) y := by
  have keyStep : ∀ {k0 l0 : Str} {cs cs' : List Condition} {o o' : Option YamlPath}, lastKey (.key k0 cs o) = some k → lastKey (.key l0 cs' o') = some l →
      (∀ c ∈ cs, c.field ∉ names') → (∀ c ∈ cs', c.field ∉ names) →
      k0 ≠ l0 → (o = none → l0 ∉ names) → (o' = none → k0 ∉ names') → (o = none → o' = none → P.app = [] ∨ Q.app = []) →
      ∀ y, CommutesWith (Yaml.editHash f (.key k0 cs o)) (Yaml.editHash g (.key l0 cs' o')) y := by
    intro k0 l0 cs cs' o o' hp hq hc hc' hne h1 h2 h3 y
    have e1 : o = none → f.IsPatch k0 P := by rintro rfl; cases hp; exact hf.patch
    have e2 : o' = none → g.IsPatch l0 Q := by rintro rfl; cases hq; exact hg.patch
    refine key_commute (P := P) (Q := Q) e1 e2 (fun y => fitsConditions_frame hf.frames hp y hc') (fun y => fitsConditions_frame hg.frames hq y hc) (fun ds => ?_) y
    cases o with
    | none =>
      cases o' with
      | none => exact Patch.commute hf.writes hg.writes (h2 rfl) (h1 rfl) hne (h3 rfl rfl) ds
      | some q => exact Patch.commute hf.writes (valuePatch_writes _ _) (by simpa using hne) (h1 rfl) hne (.inr rfl) ds
    | some p =>
      cases o' with
      | none => exact Patch.commute (valuePatch_writes _ _) hg.writes (h2 rfl) (by simpa using Ne.symm hne) hne (.inl rfl) ds
      | some q => exact Patch.commute (valuePatch_writes _ _) (valuePatch_writes _ _) (by simpa using hne) (by simpa using Ne.symm hne) hne (.inl rfl) ds
  induction hd generalizing y with
  | @last k0 l0 cs cs' o h =>
    have hk0 : k0 = k := by simpa [lastKey] using hp
    refine keyStep hp hq (fun c hm => hc c (by simp [conditionsOf, hm])) (fun c hm => hc' c (by cases o <;> simp [conditionsOf, hm]))
      (fun he => h (he ▸ hk0 ▸ hf.own)) (fun _ => h) ?_ ?_ y
    · rintro rfl; cases hd' with | last h' => exact h'
    · rintro - rfl
      rcases happ with h | h
      · simp [endTogether] at h
      · exact h
  | @keys k0 l0 cs cs' p o h =>
    refine keyStep hp hq (fun c hm => hc c (by simp [conditionsOf, hm])) (fun c hm => hc' c (by cases o <;> simp [conditionsOf, hm]))
      (Ne.symm h) nofun ?_ nofun y
    rintro rfl; cases hd' with | last h' => exact h'
  | @indexes is js cs cs' p o h =>
    cases o with
    | none => cases hq
    | some q => exact index_commute (is := some is) (js := some js) (visitList_disjoint h) y
  | @key k0 cs cs' p q h ih =>
    have hd'' : Diverges names' q p := by
      cases hd' with
      | keys h => exact absurd rfl h
      | key h => exact h
    have ih := fun y => ih hp hq hd'' (fun c hm => hc c (by simp [conditionsOf, hm])) (fun c hm => hc' c (by simp [conditionsOf, hm])) (by simpa [endTogether] using happ) y
    refine key_commute (P := P) (Q := Q) (cs := cs) (cs' := cs') (o := some p) (o' := some q) (fun he => nomatch he) (fun he => nomatch he) (fun y => fitsConditions_frame hf.frames hp y fun c hm => hc' c (by simp [conditionsOf, hm]))
      (fun y => fitsConditions_frame hg.frames hq y fun c hm => hc c (by simp [conditionsOf, hm])) (fun ds => ?_) y
    exact valuePatch_commute ih ds
  | @allAll cs cs' p q h ih =>
    have hd'' : Diverges names' q p := by cases hd' with | allAll h => exact h
    exact visit_commute (p := p) (q := q) (cs := cs) (cs' := cs') hf hg hp hq (fun c hm => hc c (by simp [conditionsOf, hm])) (fun c hm => hc' c (by simp [conditionsOf, hm]))
      (ih hp hq hd'' (fun c hm => hc c (by simp [conditionsOf, hm])) (fun c hm => hc' c (by simp [conditionsOf, hm])) (by simpa [endTogether] using happ)) none none y
  | @allSome js cs cs' p q h ih =>
    have hd'' : Diverges names' q p := by cases hd' with | someAll h => exact h
    exact visit_commute (p := p) (q := q) (cs := cs) (cs' := cs') hf hg hp hq (fun c hm => hc c (by simp [conditionsOf, hm])) (fun c hm => hc' c (by simp [conditionsOf, hm]))
      (ih hp hq hd'' (fun c hm => hc c (by simp [conditionsOf, hm])) (fun c hm => hc' c (by simp [conditionsOf, hm])) (by simpa [endTogether] using happ)) none (some js) y
  | @someAll is cs cs' p q h ih =>
    have hd'' : Diverges names' q p := by cases hd' with | allSome h => exact h
    exact visit_commute (p := p) (q := q) (cs := cs) (cs' := cs') hf hg hp hq (fun c hm => hc c (by simp [conditionsOf, hm])) (fun c hm => hc' c (by simp [conditionsOf, hm]))
      (ih hp hq hd'' (fun c hm => hc c (by simp [conditionsOf, hm])) (fun c hm => hc' c (by simp [conditionsOf, hm])) (by simpa [endTogether] using happ)) (some is) none y
  | @someSome is js cs cs' p q h ih =>
    cases hd' with
    | indexes h' => exact index_commute (is := some is) (js := some js) (visitList_disjoint fun j hj hi => h' j hi hj) y
    | someSome hd'' =>
      exact visit_commute (p := p) (q := q) (cs := cs) (cs' := cs') hf hg hp hq (fun c hm => hc c (by simp [conditionsOf, hm])) (fun c hm => hc' c (by simp [conditionsOf, hm]))
        (ih hp hq hd'' (fun c hm => hc c (by simp [conditionsOf, hm])) (fun c hm => hc' c (by simp [conditionsOf, hm])) (by simpa [endTogether] using happ)) (some is) (some js) y

end YamlSubset
