import Verif.Spec.Undo
import Verif.Props.EditAfter

/-! # Two edits at the same place, one after the other -/

namespace YamlSubset

open Spec

/-- The closures of `edit_hash_structure`. -/
abbrev Closure := List HashData → Str → Option Nat → Nat × List HashData

/-- What a closure does to the data of a hash. -/
def Closure.run (f : Closure) (k : Str) (ds : List HashData) : List HashData :=
  (f ds k (ds.findIdx? (HashData.hasKey k))).2

/-- Visits of listed positions, when a second visit changes nothing. -/
theorem foldl_modify_idem (T : Yaml → Yaml) (is : List Nat) (es : List Yaml)
    (h : ∀ i ∈ is, ∀ e, es[i]? = some e → T (T e) = T e) (j : Nat) (hj : j ∈ is) :
    (is.foldl (fun es i => es.modify i T) es)[j]? = es[j]?.map T := by
  induction is generalizing es with
  | nil => cases hj
  | cons i is ih =>
    rw [List.foldl_cons]
    have h1 : ∀ i' ∈ is, ∀ e, (es.modify i T)[i']? = some e → T (T e) = T e := by
      intro i' hi' e he
      rw [List.getElem?_modify] at he
      obtain ⟨x, hx, rfl⟩ := Option.map_eq_some_iff.1 he
      have := h i' (by simp [hi']) x hx
      split
      · rw [this, this]
      · exact this
    by_cases hm : j ∈ is
    · rw [ih _ h1 hm, List.getElem?_modify]
      cases he : es[j]? with
      | none => rfl
      | some e =>
        have := h j (by simp [hm]) e he
        simp only [Option.map_some, Option.map_eq_map]
        split
        · rw [this]
        · rfl
    · rw [foldl_modify_not_mem _ _ _ _ hm, List.getElem?_modify]
      have : i = j := by
        rcases List.mem_cons.1 hj with h | h
        · exact h.symm
        · exact absurd h hm
      simp [this]

theorem foldl_modify_length' (T : Yaml → Yaml) (is : List Nat) (es : List Yaml) :
    (is.foldl (fun es i => es.modify i T) es).length = es.length := by
  induction is generalizing es with
  | nil => rfl
  | cons i is ih => rw [List.foldl_cons, ih, List.length_modify]

theorem foldl_modify_compose (G G' T : Yaml → Yaml) (is : List Nat) (es : List Yaml)
    (h : ∀ i ∈ is, ∀ e, es[i]? = some e → G' (G e) = T e)
    (h' : is.Nodup ∨ ∀ i ∈ is, ∀ e, es[i]? = some e → G (G e) = G e ∧ G' (T e) = T e ∧ T (T e) = T e) :
    is.foldl (fun es i => es.modify i G') (is.foldl (fun es i => es.modify i G) es) =
      is.foldl (fun es i => es.modify i T) es := by
  apply List.ext_getElem?
  intro j
  by_cases hj : j ∈ is
  · rcases h' with hn | h'
    · rw [foldl_modify_nodup _ _ hn _ _ hj, foldl_modify_nodup _ _ hn _ _ hj, foldl_modify_nodup _ _ hn _ _ hj]
      cases he : es[j]? with
      | none => rfl
      | some e => simp [h j hj e he]
    · have h1 := foldl_modify_idem G is es (fun i hi e he => (h' i hi e he).1)
      have h2 : ∀ i ∈ is, ∀ x, (is.foldl (fun es i => es.modify i G) es)[i]? = some x → G' (G' x) = G' x := by
        intro i hi x hx
        rw [h1 i hi] at hx
        obtain ⟨e, he, rfl⟩ := Option.map_eq_some_iff.1 hx
        rw [h i hi e he, (h' i hi e he).2.1]
      rw [foldl_modify_idem G' is _ h2 j hj, h1 j hj,
        foldl_modify_idem T is es (fun i hi e he => (h' i hi e he).2.2) j hj]
      cases he : es[j]? with
      | none => rfl
      | some e => simp [h j hj e he]
  · rw [foldl_modify_not_mem _ _ _ _ hj, foldl_modify_not_mem _ _ _ _ hj, foldl_modify_not_mem _ _ _ _ hj]

/-! ## Conditions after an edit -/

theorem fits_iff_keyValue {cs : List Condition} {y : Yaml} :
    Fits cs y ↔ ∀ c ∈ cs, ∃ v, y.keyValue c.field = some v ∧ v.value.asString = some c.value := by
  constructor
  · intro h c hc
    obtain ⟨ds, pre, v, post, rfl, hf, hv⟩ := h c hc
    exact ⟨v, hf.keyValueIn, hv⟩
  · intro h c hc
    obtain ⟨v, h1, hv⟩ := h c hc
    cases y with
    | hash ds =>
      obtain ⟨pre, post, rfl, hp⟩ := keyValueIn_spec _ _ _ h1
      exact ⟨_, pre, v, post, rfl, ⟨rfl, hp⟩, hv⟩
    | _ => cases h1

theorem keyValueIn_other {k k' new : Str} {v v' : AliasedYaml} {pre post : List HashData} (h : k' ≠ k) (h' : k' ≠ new) :
    keyValueIn k' (pre ++ .element ⟨new, v'⟩ :: post) = keyValueIn k' (pre ++ .element ⟨k, v⟩ :: post) := by
  induction pre with
  | nil => simp [keyValueIn, Ne.symm h, Ne.symm h']
  | cons d t ih =>
    match d with
    | .element e => simp only [List.cons_append, keyValueIn, ih]
    | .comment _ => simpa only [List.cons_append, keyValueIn] using ih
    | .inlineComment _ => simpa only [List.cons_append, keyValueIn] using ih

theorem keyValueIn_append {k : Str} {v : AliasedYaml} {ds t : List HashData} (h : keyValueIn k ds = some v) :
    keyValueIn k (ds ++ t) = some v := by
  induction ds with
  | nil => cases h
  | cons d ds ih =>
    match d with
    | .element e =>
      simp only [List.cons_append, keyValueIn] at h ⊢
      split at h
      · rename_i he; rw [if_pos he]; exact h
      · rename_i he; rw [if_neg he]; exact ih h
    | .comment _ => exact ih h
    | .inlineComment _ => exact ih h

theorem editHash_string (f : Closure) (path : YamlPath) (y : Yaml) {s : Str} (h : y.asString = some s) :
    (Yaml.editHash f path y).2 = y := by
  match path with
  | .root cs => rfl
  | .key k cs o => rw [editHash_key_other _ _ _ _ _ (by rintro ds rfl; cases h)]
  | .allIndexes cs none => rfl
  | .indexes is cs none => rfl
  | .allIndexes cs (some p) => cases y <;> first | rfl | cases h
  | .indexes is cs (some p) => cases y <;> first | rfl | cases h

/-- A condition that held before an edit holds after it. -/
theorem fits_editHash {f : Closure} {path : YamlPath} {last : Str} (hl : lastKey path = some last) {y : Yaml} {cs : List Condition}
    (hH : ∀ l ds, Addresses path y l last ds → Fits cs (.hash ds) → Fits cs (.hash (f.run last ds)))
    (h : Fits cs y) : Fits cs (Yaml.editHash f path y).2 := by
  by_cases hcs : cs = []
  · subst hcs; exact fits_nil _
  · obtain ⟨ds, rfl⟩ : ∃ ds, y = .hash ds := by
      cases cs with
      | nil => exact absurd rfl hcs
      | cons c cs => obtain ⟨ds, _, _, _, rfl, _⟩ := h c (by simp); exact ⟨ds, rfl⟩
    match path with
    | .root _ => exact h
    | .allIndexes _ none => exact h
    | .indexes _ _ none => exact h
    | .allIndexes _ (some p) => exact h
    | .indexes _ _ (some p) => exact h
    | .key k cs' none =>
      simp only [lastKey, Option.some.injEq] at hl
      subst hl
      simp only [Yaml.editHash]
      split
      · rename_i hf
        exact hH [] ds (.here ((fitsConditions_iff _ _).1 hf)) h
      · exact h
    | .key k cs' (some p) =>
      simp only [Yaml.editHash]
      split
      · simp only [Yaml.keyIndex]
        cases hi : ds.findIdx? (HashData.hasKey k) with
        | none => exact h
        | some i =>
          obtain ⟨pre, ⟨a, w⟩, post, hfe, rfl⟩ := findIdx_spec _ _ _ hi
          simp only [hfe.get]
          rw [hfe.1, set_append_length]
          rw [hfe.1] at h
          rw [fits_iff_keyValue] at h ⊢
          intro c hc
          obtain ⟨v, h1, h2⟩ := h c hc
          by_cases hk : c.field = k
          · have hfe' : FirstEntry k (pre ++ .element ⟨k, ⟨a, w⟩⟩ :: post) pre ⟨a, w⟩ post := ⟨rfl, hfe.2⟩
            have hfe'' : FirstEntry k (pre ++ .element ⟨k, ⟨a, (Yaml.editHash f p w).2⟩⟩ :: post) pre
              ⟨a, (Yaml.editHash f p w).2⟩ post := ⟨rfl, hfe.2⟩
            rw [hk, Yaml.keyValue, hfe'.keyValueIn] at h1
            cases h1
            refine ⟨_, by rw [hk, Yaml.keyValue, hfe''.keyValueIn], ?_⟩
            simp only at h2 ⊢
            rw [editHash_string f p w h2]; exact h2
          · refine ⟨v, ?_, h2⟩
            rw [← h1]
            exact keyValueIn_other hk hk
      · exact h

/-! ## One edit after the other -/

theorem visitTree_compose {cs : List Condition} {f g t : Yaml → Nat × Yaml} {e : Yaml}
    (hs : e.fitsConditions cs = true → (f e).2.fitsConditions cs = true ∨ (f e).2 = (t e).2)
    (h : e.fitsConditions cs = true → (g (f e).2).2 = (t e).2) :
    visitTree cs g (visitTree cs f e) = visitTree cs t e := by
  unfold visitTree
  by_cases he : e.fitsConditions cs = true
  · simp only [he, if_true]
    rcases hs he with hs | hs
    · simp only [hs, if_true, h he]
    · split
      · exact h he
      · exact hs
  · simp [he]

theorem mem_elements_at {ds : List ArrayData} {n : Nat} {v : Yaml} (h : (elementValues ds)[n]? = some v) :
    ∃ i a, ds[i]? = some (.element ⟨a, v⟩) ∧ elementCount (ds.take i) = n := by
  induction ds generalizing n with
  | nil => simp [elementValues] at h
  | cons d t ih =>
    match d, n with
    | .element ⟨a, w⟩, 0 =>
      simp [elementValues] at h
      subst h
      exact ⟨0, a, rfl, rfl⟩
    | .element ⟨a, w⟩, n + 1 =>
      obtain ⟨i, b, h1, h2⟩ := ih (n := n) (by simpa [elementValues] using h)
      exact ⟨i + 1, b, by simpa using h1, by simpa [elementCount] using h2⟩
    | .comment c, n =>
      obtain ⟨i, b, h1, h2⟩ := ih (n := n) (by simpa [elementValues] using h)
      exact ⟨i + 1, b, by simpa using h1, by simpa [elementCount] using h2⟩
    | .inlineComment c, n =>
      obtain ⟨i, b, h1, h2⟩ := ih (n := n) (by simpa [elementValues] using h)
      exact ⟨i + 1, b, by simpa using h1, by simpa [elementCount] using h2⟩

theorem endingIn_self {path : YamlPath} {last : Str} (hl : lastKey path = some last) : endingIn last path = path := by
  induction path using lastKey.induct with
  | case1 cs => cases hl
  | case2 k cs => simp only [lastKey, Option.some.injEq] at hl; simp [endingIn, hl]
  | case3 k cs p ih => simp only [endingIn, ih hl]
  | case4 cs => cases hl
  | case5 cs p ih => simp only [endingIn, ih hl]
  | case6 is cs => cases hl
  | case7 is cs p ih => simp only [endingIn, ih hl]

/-- A closure after which, on these data, a second run changes nothing. -/
def Closure.Idem (t : Closure) (k : Str) (ds : List HashData) : Prop := t.run k (t.run k ds) = t.run k ds

/-- If on the data of each addressed hash the closure `g` after the closure `f` gives what the closure `t` gives, the edit with
`g` after the edit with `f` is the edit with `t`. The edit with `f` must not make a condition of the path false, and either
no index of the path is repeated or second visits change nothing. -/
theorem editHash_compose (f g t : Closure) {last : Str} (new : Str) (path : YamlPath) (hl : lastKey path = some last) (y : Yaml)
    (once : ∀ l ds, Addresses path y l last ds → g.run new (f.run last ds) = t.run last ds)
    (stable : f = t ∨ ∀ cs, (∀ c ∈ cs, c ∈ conditionsOf path) → ∀ l ds, Addresses path y l last ds →
      Fits cs (.hash ds) → Fits cs (.hash (f.run last ds)))
    (again : NoRepeats path ∨ ∀ l ds, Addresses path y l last ds →
      f.Idem last ds ∧ t.Idem last ds ∧ g.run new (t.run last ds) = t.run last ds) :
    (Yaml.editHash g (endingIn new path) (Yaml.editHash f path y).2).2 = (Yaml.editHash t path y).2 := by
  induction path using lastKey.induct generalizing f g t new y with
  | case1 cs => cases hl
  | case2 k cs =>
    simp only [lastKey, Option.some.injEq] at hl
    subst hl
    cases y with
    | hash ds =>
      simp only [Yaml.editHash, endingIn]
      by_cases hf : (Yaml.hash ds).fitsConditions cs = true
      · simp only [hf, if_true]
        have ha : Addresses (.key k cs none) (.hash ds) [] k ds := .here ((fitsConditions_iff _ _).1 hf)
        have h1 := once [] ds ha
        have h2 : Fits cs (.hash (f.run k ds)) ∨ f.run k ds = t.run k ds := by
          rcases stable with rfl | stable
          · exact .inr rfl
          · exact .inl (stable cs (fun c hc => hc) [] ds ha ((fitsConditions_iff _ _).1 hf))
        rcases h2 with h2 | h2
        · have h3 : (Yaml.hash (f ds k (Yaml.keyIndex k (.hash ds))).2).fitsConditions cs = true :=
            (fitsConditions_iff _ _).2 h2
          simp only [Yaml.editHash, h3, if_true]
          exact congrArg Yaml.hash h1
        · simp only [Yaml.editHash]
          split
          · exact congrArg Yaml.hash h1
          · exact congrArg Yaml.hash h2
      · simp only [hf, Bool.false_eq_true, if_false]
        simp [Yaml.editHash, hf]
    | _ => simp [editHash_key_other, endingIn]
  | case3 k cs p ih =>
    simp only [lastKey] at hl
    cases y with
    | hash ds =>
      simp only [Yaml.editHash, endingIn]
      by_cases hf : (Yaml.hash ds).fitsConditions cs = true
      · simp only [hf, if_true, Yaml.keyIndex]
        cases hi : ds.findIdx? (HashData.hasKey k) with
        | none => simp only [Yaml.editHash, hf, if_true, Yaml.keyIndex, hi]
        | some i =>
          obtain ⟨pre, ⟨a, w⟩, post, hfe, rfl⟩ := findIdx_spec _ _ _ hi
          simp only [hfe.get]
          have hfit := (fitsConditions_iff _ _).1 hf
          have hsub : ∀ l ds', Addresses p w l last ds' →
              Addresses (.key k cs (some p)) (.hash ds) (pre.length :: l) last ds' :=
            fun l ds' h => .key hfit hfe h
          have hkey := ih f g t new hl w (fun l ds' h => once _ _ (hsub l ds' h))
            (stable.imp_right fun st cs' hc l ds' h => st cs' (fun c hm => by simp [conditionsOf, hc c hm]) _ _ (hsub l ds' h))
            (again.imp id fun ag l ds' h => ag _ _ (hsub l ds' h))
          have hst : Fits cs (Yaml.editHash f (.key k cs (some p)) (.hash ds)).2 ∨ f = t := by
            rcases stable with h | stable
            · exact .inr h
            · exact .inl (fits_editHash (path := .key k cs (some p)) hl
                (fun l ds' h => stable cs (fun c hm => by simp [conditionsOf, hm]) l ds' h) hfit)
          rcases hst with hst | rfl
          · rw [← fitsConditions_iff] at hst
            simp only [Yaml.editHash, hf, if_true, Yaml.keyIndex, hi, hfe.get] at hst
            simp only [Yaml.editHash, hst, if_true, Yaml.keyIndex]
            rw [hfe.1, set_append_length]
            have hfe' : FirstEntry k (pre ++ .element ⟨k, ⟨a, (Yaml.editHash f p w).2⟩⟩ :: post) pre
                ⟨a, (Yaml.editHash f p w).2⟩ post := ⟨rfl, hfe.2⟩
            simp only [hfe'.findIdx, hfe'.get, hkey]
            rw [set_append_length, set_append_length]
          · simp only [Yaml.editHash, Yaml.keyIndex]
            split
            · rw [hfe.1, set_append_length]
              have hfe' : FirstEntry k (pre ++ .element ⟨k, ⟨a, (Yaml.editHash f p w).2⟩⟩ :: post) pre
                ⟨a, (Yaml.editHash f p w).2⟩ post := ⟨rfl, hfe.2⟩
              simp only [hfe'.findIdx, hfe'.get, hkey]
              rw [set_append_length]
            · rfl
      · simp only [hf, Bool.false_eq_true, if_false]
        simp [Yaml.editHash, hf]
    | _ => simp [editHash_key_other, endingIn]
  | case4 cs => cases hl
  | case5 cs p ih =>
    simp only [lastKey] at hl
    have key : ∀ (es : List Yaml) (hsub : ∀ e ∈ es, Fits cs e → ∃ i, ∀ l ds', Addresses p e l last ds' →
          Addresses (.allIndexes cs (some p)) y (i :: l) last ds'),
        (es.map (visitTree cs (Yaml.editHash f p))).map (visitTree cs (Yaml.editHash g (endingIn new p))) =
          es.map (visitTree cs (Yaml.editHash t p)) := by
      intro es hsub
      rw [List.map_map]
      apply List.map_congr_left
      intro e he
      apply visitTree_compose
      · intro hf
        rw [fitsConditions_iff] at hf ⊢
        obtain ⟨i, hi⟩ := hsub e he hf
        rcases stable with rfl | stable
        · exact .inr rfl
        · exact .inl (fits_editHash hl (fun l ds' h => stable cs (fun c hm => by simp [conditionsOf, hm]) _ ds' (hi l ds' h)) hf)
      · intro hf
        rw [fitsConditions_iff] at hf
        obtain ⟨i, hi⟩ := hsub e he hf
        exact ih f g t new hl e (fun l ds' h => once _ _ (hi l ds' h))
          (stable.imp_right fun st cs' hc l ds' h => st cs' (fun c hm => by simp [conditionsOf, hc c hm]) _ _ (hi l ds' h))
          (again.imp id fun ag l ds' h => ag _ _ (hi l ds' h))
    cases y with
    | inlineArray es =>
      simp only [Yaml.editHash, endingIn, overInline_snd]
      rw [key es]
      intro e he hf
      obtain ⟨i, hi⟩ := List.mem_iff_getElem?.1 he
      exact ⟨i, fun l ds' h => .allInline hi hf h⟩
    | array ds =>
      simp only [Yaml.editHash, endingIn, overArray_values, overInline_snd]
      rw [elementValues_setValues _ _ (by simp), setValues_setValues _ _ _ (by simp) (by simp), key]
      intro e he hf
      obtain ⟨n, hn⟩ := List.mem_iff_getElem?.1 he
      obtain ⟨i, a, hi, -⟩ := mem_elements_at hn
      exact ⟨i, fun l ds' h => .allArray hi hf h⟩
    | _ => rfl
  | case6 is cs => cases hl
  | case7 is cs p ih =>
    simp only [lastKey] at hl
    have key : ∀ (es : List Yaml) (hsub : ∀ j ∈ is, ∀ e, es[j]? = some e → Fits cs e → ∃ i, ∀ l ds', Addresses p e l last ds' →
          Addresses (.indexes is cs (some p)) y (i :: l) last ds'),
        is.foldl (fun es i => es.modify i (visitTree cs (Yaml.editHash g (endingIn new p))))
          (is.foldl (fun es i => es.modify i (visitTree cs (Yaml.editHash f p))) es) =
          is.foldl (fun es i => es.modify i (visitTree cs (Yaml.editHash t p))) es := by
      intro es hsub
      apply foldl_modify_compose
      · intro j hj e he
        apply visitTree_compose
        · intro hf
          rw [fitsConditions_iff] at hf ⊢
          obtain ⟨i, hi⟩ := hsub j hj e he hf
          rcases stable with rfl | stable
          · exact .inr rfl
          · exact .inl (fits_editHash hl (fun l ds' h => stable cs (fun c hm => by simp [conditionsOf, hm]) _ ds' (hi l ds' h)) hf)
        · intro hf
          rw [fitsConditions_iff] at hf
          obtain ⟨i, hi⟩ := hsub j hj e he hf
          exact ih f g t new hl e (fun l ds' h => once _ _ (hi l ds' h))
            (stable.imp_right fun st cs' hc l ds' h => st cs' (fun c hm => by simp [conditionsOf, hc c hm]) _ _ (hi l ds' h))
            (again.imp And.right fun ag l ds' h => ag _ _ (hi l ds' h))
      · rcases again with hn | ag
        · exact .inl hn.1
        · right
          intro j hj e he
          refine ⟨visitTree_compose (fun _ => .inr rfl) fun hf => ?_, visitTree_compose (fun _ => .inr rfl) fun hf => ?_,
            visitTree_compose (fun _ => .inr rfl) fun hf => ?_⟩ <;>
            (rw [fitsConditions_iff] at hf
             obtain ⟨i, hi⟩ := hsub j hj e he hf)
          · have := ih f f f last hl e (fun l ds' h => (ag _ _ (hi l ds' h)).1) (.inl rfl)
              (.inr fun l ds' h => ⟨(ag _ _ (hi l ds' h)).1, (ag _ _ (hi l ds' h)).1, (ag _ _ (hi l ds' h)).1⟩)
            rwa [endingIn_self hl] at this
          · exact ih t g t new hl e (fun l ds' h => (ag _ _ (hi l ds' h)).2.2) (.inl rfl)
              (.inr fun l ds' h => ⟨(ag _ _ (hi l ds' h)).2.1, (ag _ _ (hi l ds' h)).2.1, (ag _ _ (hi l ds' h)).2.2⟩)
          · have := ih t t t last hl e (fun l ds' h => (ag _ _ (hi l ds' h)).2.1) (.inl rfl)
              (.inr fun l ds' h => ⟨(ag _ _ (hi l ds' h)).2.1, (ag _ _ (hi l ds' h)).2.1, (ag _ _ (hi l ds' h)).2.1⟩)
            rwa [endingIn_self hl] at this
    cases y with
    | inlineArray es =>
      simp only [Yaml.editHash, endingIn, atInline_snd]
      rw [key es]
      intro j hj e he hf
      exact ⟨j, fun l ds' h => .inline hj he hf h⟩
    | array ds =>
      simp only [Yaml.editHash, endingIn, atArray_values, atInline_snd]
      rw [elementValues_setValues _ _ (foldl_modify_length' _ _ _),
        setValues_setValues _ _ _ (foldl_modify_length' _ _ _) (by rw [foldl_modify_length', foldl_modify_length']), key]
      intro j hj e he hf
      obtain ⟨i, a, hi, hc⟩ := mem_elements_at he
      exact ⟨i, fun l ds' h => .array hj hi hc hf h⟩
    | _ => rfl

/-! ## Documents -/

theorem overItems_compose {f g t : Yaml → Nat × Yaml} (d : Document)
    (h : ∀ y ∈ yamlItems d, (g (f y).2).2 = (t y).2) : ((d.overItems f).2.overItems g).2 = (d.overItems t).2 := by
  have key : ∀ (is : List DocumentData) c c' c'',
      (∀ y, DocumentData.yaml y ∈ is → (g (f y).2).2 = (t y).2) →
      (Document.overItems.go g c' (Document.overItems.go f c is).2).2 = (Document.overItems.go t c'' is).2 := by
    intro is
    induction is with
    | nil => intro c c' c'' _; rfl
    | cons i u ih =>
      intro c c' c'' h
      cases i with
      | comment s => simp only [Document.overItems.go, ih _ _ (Additive.add c'' Additive.zero) fun y hy => h y (by simp [hy])]
      | yaml y =>
        simp only [Document.overItems.go, ih _ _ (Additive.add c'' (t y).1) fun y hy => h y (by simp [hy]), h y (by simp)]
  simp only [Document.overItems]
  rw [key _ _ _ _ fun y hy => h y ?_]
  simp only [yamlItems, List.mem_filterMap]
  exact ⟨_, hy, rfl⟩

end YamlSubset
