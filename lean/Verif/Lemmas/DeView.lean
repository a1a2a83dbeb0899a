import Verif.Lemmas.De
import Verif.Lemmas.FloatWords
import Verif.Lemmas.Induct
import Verif.Spec.De

/-! # Deserialization depends on the view only -/

namespace YamlSubset

open Spec

/-- The text of a plain scalar. -/
def plainOf : Yaml → Option Str
  | .unquotedString s => some s
  | _ => none

/-- The text of a plain scalar that could be read as something else than a string. -/
def specialOf : Yaml → Option Str
  | .unquotedString s => if SpecialText s then some s else none
  | _ => none

theorem not_special {s : Str} (h : ¬ SpecialText s) : isNullWord s = false ∧ s ∉ trueWords ∧ s ∉ falseWords ∧ deAnyPlain s = .str s := by
  simp only [SpecialText, not_or] at h
  obtain ⟨h1, h2, h3, h4⟩ := h
  have hn : isNullWord s = false := by simpa [isNullWord, and_assoc] using h1
  refine ⟨hn, h2, h3, ?_⟩
  have ht : s ≠ c!"true" := fun h => h2 (by simp [h])
  have hf : s ≠ c!"false" := fun h => h3 (by simp [h])
  have hi : parseI64 s = none := by
    cases h : parseI64 s with
    | none => rfl
    | some i => exact absurd (f64_of_parseI64 h) h4
  have hu : parseU64 s = none := by
    cases h : parseU64 s with
    | none => rfl
    | some i => exact absurd (f64_of_parseU64 h) h4
  simp [deAnyPlain, hn, ht, hf, hi, hu, h4]

/-- The name of a reference. -/
def refOf : Yaml → Option Str
  | .anchor a => some a
  | _ => none

theorem de_option (Γ : Nat → Ty) (n : Nat) (t : Ty) (y : Yaml) (σ : Anchors) :
    de Γ (n + 1) (.option t) y σ = match intoResolved σ y with
      | some y => match plainOf y with
        | some s => if isNullWord s then .ok (.none, σ)
          else (de Γ n t y σ).bind fun r => .ok (.some r.1, r.2)
        | none => (de Γ n t y σ).bind fun r => .ok (.some r.1, r.2)
      | none => .err := by
  rw [de.eq_def]
  dsimp only
  cases intoResolved σ y with
  | none => rfl
  | some y => cases y <;> rfl

theorem de_any (Γ : Nat → Ty) (n : Nat) (y : Yaml) (σ : Anchors) :
    de Γ (n + 1) .any y σ = match plainOf y with
      | some s => .ok (deAnyPlain s, σ)
      | none => match refOf y with
        | some name => match resolve σ name with
          | some y => de Γ n .any y σ
          | none => .err
        | none => match y.asString with
          | some s => .ok (.str s, σ)
          | none => match asSeq σ y with
            | some (ys, σ) => (deElems (de Γ n .any) ys σ).bind fun r => .ok (.seq r.1, r.2)
            | none => match asMap σ y with
              | some (es, σ) =>
                (deEntries (de Γ n .str) (de Γ n .any) es σ).bind fun r => .ok (.map r.1, r.2)
              | none => .err := by
  rw [de.eq_def]
  cases y <;> rfl

theorem de_option_special (Γ : Nat → Ty) (n : Nat) (t : Ty) (y : Yaml) (σ : Anchors) :
    de Γ (n + 1) (.option t) y σ = match intoResolved σ y with
      | some y => match specialOf y with
        | some s => if isNullWord s then .ok (.none, σ)
          else (de Γ n t y σ).bind fun r => .ok (.some r.1, r.2)
        | none => (de Γ n t y σ).bind fun r => .ok (.some r.1, r.2)
      | none => .err := by
  rw [de.eq_def]
  dsimp only
  cases intoResolved σ y with
  | none => rfl
  | some y =>
    cases y with
    | unquotedString s =>
      by_cases h : SpecialText s
      · simp [specialOf, h]
      · simp [specialOf, h, (not_special h).1]
    | _ => rfl

theorem de_any_special (Γ : Nat → Ty) (n : Nat) (y : Yaml) (σ : Anchors) :
    de Γ (n + 1) .any y σ = match specialOf y with
      | some s => .ok (deAnyPlain s, σ)
      | none => match refOf y with
        | some name => match resolve σ name with
          | some y => de Γ n .any y σ
          | none => .err
        | none => match y.asString with
          | some s => .ok (.str s, σ)
          | none => match asSeq σ y with
            | some (ys, σ) => (deElems (de Γ n .any) ys σ).bind fun r => .ok (.seq r.1, r.2)
            | none => match asMap σ y with
              | some (es, σ) =>
                (deEntries (de Γ n .str) (de Γ n .any) es σ).bind fun r => .ok (.map r.1, r.2)
              | none => .err := by
  rw [de.eq_def]
  cases y with
  | unquotedString s =>
    by_cases h : SpecialText s
    · simp [specialOf, h]
    · simp [specialOf, h, refOf, Yaml.asString, (not_special h).2.2.2]
  | _ => rfl

theorem intoResolved_of_refOf {y : Yaml} (h : refOf y = none) (σ : Anchors) : intoResolved σ y = some y := by
  cases y <;> simp [refOf] at h <;> rfl

/-- Same view. -/
def Same (y y' : Yaml) : Prop := viewOf y = viewOf y'

/-- Same views, pointwise. -/
def SameList (l l' : List Yaml) : Prop := l.map viewOf = l'.map viewOf

/-- Same keys and views. -/
def SameKeyed (l l' : List (Str × Yaml)) : Prop :=
  l.map (fun p => (p.1, viewOf p.2)) = l'.map (fun p => (p.1, viewOf p.2))

/-! ## The accessors in terms of the view -/

theorem specialOf_view (y : Yaml) : specialOf y = match viewOf y with
    | .plain s => some s
    | _ => none := by
  cases y <;> simp [specialOf, viewOf]
  rename_i s; by_cases h : SpecialText s <;> simp [h]

theorem refOf_view (y : Yaml) : refOf y = match viewOf y with
    | .ref s => some s
    | _ => none := by
  cases y <;> simp [refOf, viewOf]
  rename_i s; by_cases h : SpecialText s <;> simp [h]

theorem asString_view (y : Yaml) : y.asString = match viewOf y with
    | .plain s => some s
    | .text s => some s
    | _ => none := by
  cases y <;> simp [Yaml.asString, viewOf]
  rename_i s; by_cases h : SpecialText s <;> simp [h]

theorem Same.specialOf {y y' : Yaml} (h : Same y y') : specialOf y = specialOf y' := by
  rw [specialOf_view, specialOf_view, h]

theorem Same.refOf {y y' : Yaml} (h : Same y y') : refOf y = refOf y' := by
  rw [refOf_view, refOf_view, h]

theorem Same.asString {y y' : Yaml} (h : Same y y') : y.asString = y'.asString := by
  rw [asString_view, asString_view, h]

/-- Register the anchors of a list of anchored views. -/
def regView (ρ : List (Str × View)) : List (Option Str × View) → List (Str × View)
  | [] => ρ
  | (some a, v) :: t => regView ((a, v) :: ρ) t
  | (none, _) :: t => regView ρ t

/-- The views of an anchor map. -/
def anchorsView (σ : Anchors) : List (Str × View) := σ.map fun p => (p.1, viewOf p.2)

theorem seqValues_view (ds : List ArrayData) (σ : Anchors) :
    (seqValues σ ds).1.map viewOf = (arrayView ds).map Prod.snd ∧
    anchorsView (seqValues σ ds).2 = regView (anchorsView σ) (arrayView ds) := by
  induction ds generalizing σ with
  | nil => simp [seqValues, arrayView, regView]
  | cons d t ih =>
    cases d with
    | element e =>
      obtain ⟨a, v⟩ := e
      cases a <;> simp [seqValues, arrayView, regView, register, ih] <;> simp [anchorsView]
    | comment => simpa [seqValues, arrayView] using ih σ
    | inlineComment => simpa [seqValues, arrayView] using ih σ

theorem hashEntries_view (ds : List HashData) (σ : Anchors) :
    (hashEntries σ ds).1.map (fun p => (p.1, viewOf p.2)) = (hashView ds).map (fun p => (p.1, p.2.2)) ∧
    anchorsView (hashEntries σ ds).2 = regView (anchorsView σ) ((hashView ds).map Prod.snd) := by
  induction ds generalizing σ with
  | nil => simp [hashEntries, hashView, regView]
  | cons d t ih =>
    cases d with
    | element e =>
      obtain ⟨k, ⟨a, v⟩⟩ := e
      cases a <;> simp [hashEntries, hashView, regView, register, ih] <;> simp [anchorsView]
    | comment => simpa [hashEntries, hashView] using ih σ
    | inlineComment => simpa [hashEntries, hashView] using ih σ

theorem yamlsView_eq (es : List Yaml) : yamlsView es = es.map fun y => (none, viewOf y) := by
  induction es with
  | nil => rfl
  | cons y t ih => simp [yamlsView, ih]

theorem entriesView_eq (es : List (Str × Yaml)) :
    entriesView es = es.map fun p => (p.1, none, viewOf p.2) := by
  induction es with
  | nil => rfl
  | cons y t ih => simp [entriesView, ih]

theorem regView_none {α : Type} (ρ : List (Str × View)) (l : List α) (f : α → View) :
    regView ρ (l.map fun y => (none, f y)) = ρ := by
  induction l with
  | nil => rfl
  | cons y t ih => simpa [regView] using ih

theorem asSeq_view (σ : Anchors) (y : Yaml) :
    (asSeq σ y).map (fun p => (p.1.map viewOf, anchorsView p.2)) = match viewOf y with
      | .seq vs => some (vs.map Prod.snd, regView (anchorsView σ) vs)
      | _ => none := by
  cases y <;> simp [asSeq, viewOf, seqValues_view, yamlsView_eq, regView_none]
  rename_i s; by_cases h : SpecialText s <;> simp [h]

theorem asMap_view (σ : Anchors) (y : Yaml) :
    (asMap σ y).map (fun p => (p.1.map (fun p => (p.1, viewOf p.2)), anchorsView p.2)) =
      match viewOf y with
      | .map es => some (es.map (fun p => (p.1, p.2.2)), regView (anchorsView σ) (es.map Prod.snd))
      | _ => none := by
  cases y <;> simp [asMap, viewOf, hashEntries_view, entriesView_eq, regView_none, Function.comp_def]
  rename_i s; by_cases h : SpecialText s <;> simp [h]

theorem resolve_view (σ : Anchors) (name : Str) :
    (resolve σ name).map viewOf = (anchorsView σ).lookup name := by
  induction σ with
  | nil => rfl
  | cons p t ih =>
    simp only [resolve, anchorsView, List.map_cons, List.lookup] at *
    cases name == p.1
    · exact ih
    · rfl

theorem intoResolved_view (σ : Anchors) (y : Yaml) :
    (intoResolved σ y).map viewOf = match viewOf y with
      | .ref name => (anchorsView σ).lookup name
      | v => some v := by
  cases y <;> simp [intoResolved, viewOf, resolve_view]
  rename_i s; by_cases h : SpecialText s <;> simp [h]

/-! ## Outcomes -/

/-- Outcomes related by `R`. -/
inductive OutRel {α β : Type} (R : α → β → Prop) : Out α → Out β → Prop
  | ok {a b} (h : R a b) : OutRel R (.ok a) (.ok b)
  | err : OutRel R .err .err
  | panic : OutRel R .panic .panic
  | unmatched : OutRel R .unmatched .unmatched
  | oof : OutRel R .oof .oof

theorem OutRel.bind {α β γ δ : Type} {R : α → β → Prop} {S : γ → δ → Prop} {a : Out α} {b : Out β}
    {f : α → Out γ} {g : β → Out δ} (h : OutRel R a b) (hf : ∀ x y, R x y → OutRel S (f x) (g y)) :
    OutRel S (a.bind f) (b.bind g) := by
  cases h with
  | ok h => exact hf _ _ h
  | err => exact .err
  | panic => exact .panic
  | unmatched => exact .unmatched
  | oof => exact .oof

/-- Equal values and anchor maps with the same views. -/
def Agree {α : Type} (p q : α × Anchors) : Prop := p.1 = q.1 ∧ anchorsView p.2 = anchorsView q.2

/-- The step gives the same values on the same views. -/
def DeSame (f g : DeFn) : Prop := ∀ y y' σ σ', Same y y' → anchorsView σ = anchorsView σ' →
  OutRel Agree (f y σ) (g y' σ')

theorem deElems_same {f g : DeFn} (h : DeSame f g) {ys ys' : List Yaml} {σ σ' : Anchors}
    (hy : SameList ys ys') (hσ : anchorsView σ = anchorsView σ') :
    OutRel Agree (deElems f ys σ) (deElems g ys' σ') := by
  induction ys generalizing ys' σ σ' with
  | nil => cases ys' with
    | nil => exact .ok ⟨rfl, hσ⟩
    | cons => simp [SameList] at hy
  | cons y t ih => cases ys' with
    | nil => simp [SameList] at hy
    | cons y' t' =>
      simp only [SameList, List.map_cons, List.cons.injEq] at hy
      refine (h y y' σ σ' hy.1 hσ).bind fun r r' hr => (ih hy.2 hr.2).bind fun q q' hq => ?_
      exact .ok ⟨by rw [hr.1, hq.1], hq.2⟩

theorem deTuple_same {f g : Ty → DeFn} (h : ∀ t, DeSame (f t) (g t)) {ts : List Ty} {ys ys' : List Yaml}
    {σ σ' : Anchors} (hy : SameList ys ys') (hσ : anchorsView σ = anchorsView σ') :
    OutRel Agree (deTuple f ts ys σ) (deTuple g ts ys' σ') := by
  induction ts generalizing ys ys' σ σ' with
  | nil => exact .ok ⟨rfl, hσ⟩
  | cons t ts ih => cases ys with
    | nil => cases ys' with
      | nil => exact .err
      | cons => simp [SameList] at hy
    | cons y ys => cases ys' with
      | nil => simp [SameList] at hy
      | cons y' ys' =>
        simp only [SameList, List.map_cons, List.cons.injEq] at hy
        refine (h t y y' σ σ' hy.1 hσ).bind fun r r' hr => (ih hy.2 hr.2).bind fun q q' hq => ?_
        exact .ok ⟨by rw [hr.1, hq.1], hq.2⟩

theorem deEntries_same {fk gk fv gv : DeFn} (hk : DeSame fk gk) (hv : DeSame fv gv)
    {es es' : List (Str × Yaml)} {σ σ' : Anchors} (he : SameKeyed es es')
    (hσ : anchorsView σ = anchorsView σ') :
    OutRel Agree (deEntries fk fv es σ) (deEntries gk gv es' σ') := by
  induction es generalizing es' σ σ' with
  | nil => cases es' with
    | nil => exact .ok ⟨rfl, hσ⟩
    | cons => simp [SameKeyed] at he
  | cons e t ih => cases es' with
    | nil => simp [SameKeyed] at he
    | cons e' t' =>
      obtain ⟨k, y⟩ := e
      obtain ⟨k', y'⟩ := e'
      simp only [SameKeyed, List.map_cons, List.cons.injEq, Prod.mk.injEq] at he
      obtain ⟨⟨rfl, hy⟩, he⟩ := he
      rw [deEntries_cons, deEntries_cons]
      refine (hk _ _ σ σ' rfl hσ).bind fun r r' hr => (hv _ _ _ _ hy hr.2).bind fun s s' hs =>
        (ih he hs.2).bind fun q q' hq => ?_
      exact .ok ⟨by rw [hr.1, hs.1, hq.1], hq.2⟩

theorem structLoop_same {f g : Ty → DeFn} (h : ∀ t, DeSame (f t) (g t)) (fs : List (Str × Ty)) (n : Nat)
    {es es' : List (Str × Yaml)} {σ σ' : Anchors} (he : SameKeyed es es')
    (hσ : anchorsView σ = anchorsView σ') (p p' : Option Yaml) (acc : List (Str × SVal)) :
    OutRel Agree (structLoop f fs n ⟨es, p⟩ acc σ) (structLoop g fs n ⟨es', p'⟩ acc σ') := by
  induction n generalizing es es' σ σ' acc p p' with
  | zero => exact .oof
  | succ n ih => cases es with
    | nil => cases es' with
      | nil => exact .ok ⟨rfl, hσ⟩
      | cons => simp [SameKeyed] at he
    | cons e t => cases es' with
      | nil => simp [SameKeyed] at he
      | cons e' t' =>
        obtain ⟨k, y⟩ := e
        obtain ⟨k', y'⟩ := e'
        simp only [SameKeyed, List.map_cons, List.cons.injEq, Prod.mk.injEq] at he
        obtain ⟨⟨rfl, hy⟩, he⟩ := he
        rw [structLoop_cons, structLoop_cons]
        split
        · exact ih he hσ ..
        · split
          · exact .err
          · refine (h _ _ _ _ _ hy hσ).bind fun r r' hr => ?_
            rw [hr.1]
            exact ih he hr.2 ..

/-- Optional results related by `R`. -/
inductive OptRel {α β : Type} (R : α → β → Prop) : Option α → Option β → Prop
  | some {a b} (h : R a b) : OptRel R (some a) (some b)
  | none : OptRel R none none

theorem OptRel.of_map {α β : Type} {a b : Option α} (f : α → β) (h : a.map f = b.map f) :
    OptRel (fun x y => f x = f y) a b := by
  cases a <;> cases b <;> simp at h
  · exact .none
  · exact .some h

theorem intoResolved_same {y y' : Yaml} {σ σ' : Anchors} (hy : Same y y')
    (hσ : anchorsView σ = anchorsView σ') : OptRel Same (intoResolved σ y) (intoResolved σ' y') :=
  OptRel.of_map viewOf (by rw [intoResolved_view, intoResolved_view, hy, hσ])

theorem resolve_same {σ σ' : Anchors} (hσ : anchorsView σ = anchorsView σ') (name : Str) :
    OptRel Same (resolve σ name) (resolve σ' name) :=
  OptRel.of_map viewOf (by rw [resolve_view, resolve_view, hσ])

theorem asSeq_same {y y' : Yaml} {σ σ' : Anchors} (hy : Same y y') (hσ : anchorsView σ = anchorsView σ') :
    OptRel (fun p q => SameList p.1 q.1 ∧ anchorsView p.2 = anchorsView q.2) (asSeq σ y) (asSeq σ' y') := by
  have h := asSeq_view σ y
  rw [hy, hσ, ← asSeq_view] at h
  have := OptRel.of_map _ h
  revert this
  cases asSeq σ y <;> cases asSeq σ' y' <;> intro h <;> cases h
  · exact .none
  · rename_i h; exact .some (by simpa [SameList] using h)

theorem asMap_same {y y' : Yaml} {σ σ' : Anchors} (hy : Same y y') (hσ : anchorsView σ = anchorsView σ') :
    OptRel (fun p q => SameKeyed p.1 q.1 ∧ anchorsView p.2 = anchorsView q.2) (asMap σ y) (asMap σ' y') := by
  have h := asMap_view σ y
  rw [hy, hσ, ← asMap_view] at h
  have := OptRel.of_map _ h
  revert this
  cases asMap σ y <;> cases asMap σ' y' <;> intro h <;> cases h
  · exact .none
  · rename_i h; exact .some (by simpa [SameKeyed] using h)

theorem deTupleNode_same {f g : Ty → DeFn} (h : ∀ t, DeSame (f t) (g t)) {ts : List Ty} {y y' : Yaml}
    {σ σ' : Anchors} (hy : Same y y') (hσ : anchorsView σ = anchorsView σ') :
    OutRel Agree (deTupleNode f ts y σ) (deTupleNode g ts y' σ') := by
  simp only [deTupleNode]
  have hr0 := intoResolved_same hy hσ
  generalize intoResolved σ y = o at hr0 ⊢
  generalize intoResolved σ' y' = o' at hr0 ⊢
  cases hr0 with
  | none => exact .err
  | some hy =>
    dsimp only
    have hr0 := asSeq_same hy hσ
    generalize asSeq σ _ = o at hr0 ⊢
    generalize asSeq σ' _ = o' at hr0 ⊢
    cases hr0 with
    | none => exact .err
    | some h' => exact deTuple_same h h'.1 h'.2

theorem deStruct_same {Γ : Nat → Ty} {f g : Ty → DeFn} (h : ∀ t, DeSame (f t) (g t)) {fs : List (Str × Ty)}
    {y y' : Yaml} {σ σ' : Anchors} (hy : Same y y') (hσ : anchorsView σ = anchorsView σ') :
    OutRel Agree (deStruct Γ f fs y σ) (deStruct Γ g fs y' σ') := by
  simp only [deStruct]
  have hr0 := intoResolved_same hy hσ
  generalize intoResolved σ y = o at hr0 ⊢
  generalize intoResolved σ' y' = o' at hr0 ⊢
  cases hr0 with
  | none => exact .err
  | some hy =>
    dsimp only
    have hr0 := asMap_same hy hσ
    generalize asMap σ _ = o at hr0 ⊢
    generalize asMap σ' _ = o' at hr0 ⊢
    cases hr0 with
    | none => exact .err
    | some h' =>
      rename_i p q
      have hl : p.1.length = q.1.length := by
        have := congrArg List.length h'.1
        simpa using this
      simp only [deFields]
      rw [hl]
      refine (structLoop_same h fs _ h'.1 h'.2 none none []).bind fun r r' hr => ?_
      rw [hr.1]
      cases collectFields Γ r'.1 fs with
      | ok q => exact .ok ⟨rfl, hr.2⟩
      | err => exact .err
      | panic => exact .panic
      | unmatched => exact .unmatched
      | oof => exact .oof

theorem enumParts_same {y y' : Yaml} {σ σ' : Anchors} (hy : Same y y')
    (hσ : anchorsView σ = anchorsView σ') :
    OutRel (fun p q => p.1 = q.1 ∧ Same p.2.1 q.2.1 ∧ anchorsView p.2.2 = anchorsView q.2.2)
      (enumParts σ y) (enumParts σ' y') := by
  simp only [enumParts]
  rw [← hy.asString]
  cases y.asString with
  | some s => exact .ok ⟨rfl, rfl, hσ⟩
  | none =>
    have hr0 := asMap_same hy hσ
    generalize asMap σ _ = o at hr0 ⊢
    generalize asMap σ' _ = o' at hr0 ⊢
    cases hr0 with
    | none => exact .err
    | some h =>
      rename_i p q
      obtain ⟨es, ρ⟩ := p
      obtain ⟨es', ρ'⟩ := q
      obtain ⟨h, hρ⟩ := h
      dsimp only at *
      have hl : es.length = es'.length := by
        have := congrArg List.length h
        simpa using this
      rw [hl]
      split
      · cases es with
        | nil => cases es' with
          | nil => exact .panic
          | cons => simp at hl
        | cons e t => cases es' with
          | nil => simp at hl
          | cons e' t' =>
            simp only [SameKeyed, List.map_cons, List.cons.injEq, Prod.mk.injEq] at h
            exact .ok ⟨h.1.1, h.1.2, hρ⟩
      · exact .err

theorem deVariant_same {Γ : Nat → Ty} {f g : Ty → DeFn} (h : ∀ t, DeSame (f t) (g t)) (name : Str)
    (v : Variant) {y y' : Yaml} {σ σ' : Anchors} (hy : Same y y') (hσ : anchorsView σ = anchorsView σ') :
    OutRel Agree (deVariant Γ f name v y σ) (deVariant Γ g name v y' σ') := by
  cases v with
  | unit => exact .ok ⟨rfl, hσ⟩
  | newtype t => exact (h t _ _ _ _ hy hσ).bind fun r r' hr => .ok ⟨by rw [hr.1], hr.2⟩
  | tuple ts => exact (deTupleNode_same h hy hσ).bind fun r r' hr => .ok ⟨by rw [hr.1], hr.2⟩
  | struct fs => exact (deStruct_same h hy hσ).bind fun r r' hr => .ok ⟨by rw [hr.1], hr.2⟩

theorem OutRel.ofEq {α β : Type} {S : β → β → Prop} (a : Out α) {f g : α → Out β}
    (h : ∀ x, OutRel S (f x) (g x)) : OutRel S (a.bind f) (a.bind g) := by
  cases a with
  | ok x => exact h x
  | err => exact .err
  | panic => exact .panic
  | unmatched => exact .unmatched
  | oof => exact .oof

theorem de_same (Γ : Nat → Ty) (n : Nat) (ty : Ty) : DeSame (de Γ n ty) (de Γ n ty) := by
  induction n generalizing ty with
  | zero => exact fun _ _ _ _ _ _ => .oof
  | succ n ih =>
    intro y y' σ σ' hy hσ
    cases ty with
    | bool =>
      rw [de.eq_def, de.eq_def]; dsimp only
      have hr0 := intoResolved_same hy hσ
      generalize intoResolved σ y = o at hr0 ⊢
      generalize intoResolved σ' y' = o' at hr0 ⊢
      cases hr0 with
      | none => exact .err
      | some hy =>
        dsimp only
        rename_i a b
        have : deBool a = deBool b := by
          have e : ∀ y, deBool y = match specialOf y with
              | some s => if s ∈ trueWords then .ok (.bool true)
                else if s ∈ falseWords then .ok (.bool false) else .err
              | none => .err := fun y => by
            cases y with
            | unquotedString s =>
              by_cases h : SpecialText s
              · simp [specialOf, h, deBool]
              · simp [specialOf, h, deBool, (not_special h).2.1, (not_special h).2.2.1]
            | _ => rfl
          rw [e, e, hy.specialOf]
        rw [this]
        exact OutRel.ofEq _ fun _ => .ok ⟨rfl, hσ⟩
    | int k =>
      rw [de.eq_def, de.eq_def]; dsimp only
      have hr0 := intoResolved_same hy hσ
      generalize intoResolved σ y = o at hr0 ⊢
      generalize intoResolved σ' y' = o' at hr0 ⊢
      cases hr0 with
      | none => exact .err
      | some hy =>
        simp only [deInt, hy.asString]
        exact OutRel.ofEq _ fun _ => .ok ⟨rfl, hσ⟩
    | float =>
      rw [de.eq_def, de.eq_def]; dsimp only
      have hr0 := intoResolved_same hy hσ
      generalize intoResolved σ y = o at hr0 ⊢
      generalize intoResolved σ' y' = o' at hr0 ⊢
      cases hr0 with
      | none => exact .err
      | some hy =>
        simp only [hy.asString]
        repeat' split
        all_goals first | exact .err | exact .ok ⟨rfl, hσ⟩
    | char =>
      rw [de.eq_def, de.eq_def]; dsimp only
      have hr0 := intoResolved_same hy hσ
      generalize intoResolved σ y = o at hr0 ⊢
      generalize intoResolved σ' y' = o' at hr0 ⊢
      cases hr0 with
      | none => exact .err
      | some hy =>
        simp only [hy.asString]
        repeat' split
        all_goals first | exact .err | exact .ok ⟨rfl, hσ⟩
    | str =>
      rw [de.eq_def, de.eq_def]; dsimp only
      have hr0 := intoResolved_same hy hσ
      generalize intoResolved σ y = o at hr0 ⊢
      generalize intoResolved σ' y' = o' at hr0 ⊢
      cases hr0 with
      | none => exact .err
      | some hy =>
        simp only [hy.asString]
        repeat' split
        all_goals first | exact .err | exact .ok ⟨rfl, hσ⟩
    | bytes =>
      rw [de.eq_def, de.eq_def]; dsimp only
      have hr0 := intoResolved_same hy hσ
      generalize intoResolved σ y = o at hr0 ⊢
      generalize intoResolved σ' y' = o' at hr0 ⊢
      cases hr0 with
      | none => exact .err
      | some hy =>
        dsimp only
        have hr0 := asSeq_same hy hσ
        generalize asSeq σ _ = o at hr0 ⊢
        generalize asSeq σ' _ = o' at hr0 ⊢
        cases hr0 with
        | none => exact .err
        | some h => exact (deElems_same (ih _) h.1 h.2).bind fun r r' hr => .ok ⟨by rw [hr.1], hr.2⟩
    | unit => rw [de.eq_def, de.eq_def]; exact .ok ⟨rfl, hσ⟩
    | option t =>
      rw [de_option_special, de_option_special]
      have hr0 := intoResolved_same hy hσ
      generalize intoResolved σ y = o at hr0 ⊢
      generalize intoResolved σ' y' = o' at hr0 ⊢
      cases hr0 with
      | none => exact .err
      | some hy =>
        dsimp only
        rw [hy.specialOf]
        repeat' split
        · exact .ok ⟨rfl, hσ⟩
        · exact (ih _ _ _ _ _ hy hσ).bind fun r r' hr => .ok ⟨by rw [hr.1], hr.2⟩
        · exact (ih _ _ _ _ _ hy hσ).bind fun r r' hr => .ok ⟨by rw [hr.1], hr.2⟩
    | newtype t =>
      rw [de.eq_def, de.eq_def]; dsimp only
      exact (ih _ _ _ _ _ hy hσ).bind fun r r' hr => .ok ⟨by rw [hr.1], hr.2⟩
    | seq t =>
      rw [de.eq_def, de.eq_def]; dsimp only
      have hr0 := intoResolved_same hy hσ
      generalize intoResolved σ y = o at hr0 ⊢
      generalize intoResolved σ' y' = o' at hr0 ⊢
      cases hr0 with
      | none => exact .err
      | some hy =>
        dsimp only
        have hr0 := asSeq_same hy hσ
        generalize asSeq σ _ = o at hr0 ⊢
        generalize asSeq σ' _ = o' at hr0 ⊢
        cases hr0 with
        | none => exact .err
        | some h => exact (deElems_same (ih _) h.1 h.2).bind fun r r' hr => .ok ⟨by rw [hr.1], hr.2⟩
    | tuple ts =>
      rw [de.eq_def, de.eq_def]; dsimp only
      exact (deTupleNode_same ih hy hσ).bind fun r r' hr => .ok ⟨by rw [hr.1], hr.2⟩
    | map k v =>
      rw [de.eq_def, de.eq_def]; dsimp only
      have hr0 := intoResolved_same hy hσ
      generalize intoResolved σ y = o at hr0 ⊢
      generalize intoResolved σ' y' = o' at hr0 ⊢
      cases hr0 with
      | none => exact .err
      | some hy =>
        dsimp only
        have hr0 := asMap_same hy hσ
        generalize asMap σ _ = o at hr0 ⊢
        generalize asMap σ' _ = o' at hr0 ⊢
        cases hr0 with
        | none => exact .err
        | some h =>
          exact (deEntries_same (ih _) (ih _) h.1 h.2).bind fun r r' hr => .ok ⟨by rw [hr.1], hr.2⟩
    | struct fs =>
      rw [de.eq_def, de.eq_def]; dsimp only
      exact (deStruct_same ih hy hσ).bind fun r r' hr => .ok ⟨by rw [hr.1], hr.2⟩
    | enum vs =>
      rw [de.eq_def, de.eq_def]; dsimp only
      have hr0 := intoResolved_same hy hσ
      generalize intoResolved σ y = o at hr0 ⊢
      generalize intoResolved σ' y' = o' at hr0 ⊢
      cases hr0 with
      | none => exact .err
      | some hy =>
        dsimp only
        refine (enumParts_same hy hσ).bind fun p q hp => ?_
        rw [hp.1]
        split
        · exact deVariant_same ih _ _ hp.2.1 hp.2.2
        · exact .err
    | any =>
      rw [de_any_special, de_any_special, hy.specialOf, hy.refOf, hy.asString]
      split
      · exact .ok ⟨rfl, hσ⟩
      · split
        · rename_i nm _
          have hr0 := resolve_same hσ nm
          generalize resolve σ _ = o at hr0 ⊢
          generalize resolve σ' _ = o' at hr0 ⊢
          cases hr0 with
          | none => exact .err
          | some h => exact ih _ _ _ _ _ h hσ
        · split
          · exact .ok ⟨rfl, hσ⟩
          · have hr0 := asSeq_same hy hσ
            generalize asSeq σ _ = o at hr0 ⊢
            generalize asSeq σ' _ = o' at hr0 ⊢
            cases hr0 with
            | some h =>
              exact (deElems_same (ih _) h.1 h.2).bind fun r r' hr => .ok ⟨by rw [hr.1], hr.2⟩
            | none =>
              dsimp only
              have hr0 := asMap_same hy hσ
              generalize asMap σ _ = o at hr0 ⊢
              generalize asMap σ' _ = o' at hr0 ⊢
              cases hr0 with
              | none => exact .err
              | some h =>
                exact (deEntries_same (ih _) (ih _) h.1 h.2).bind fun r r' hr => .ok ⟨by rw [hr.1], hr.2⟩
    | ignored => rw [de.eq_def, de.eq_def]; exact .ok ⟨rfl, hσ⟩
    | ref m => rw [de.eq_def, de.eq_def]; exact ih _ _ _ _ _ hy hσ

theorem fromYaml_same (Γ : Nat → Ty) (n : Nat) (ty : Ty) {y y' : Yaml} (h : Same y y') :
    fromYaml Γ n ty y = fromYaml Γ n ty y' := by
  have := de_same Γ n ty y y' [] [] h rfl
  rw [fromYaml, fromYaml]
  generalize de Γ n ty y [] = o at this ⊢
  generalize de Γ n ty y' [] = o' at this ⊢
  cases this with
  | ok h => simp [h.1]
  | _ => rfl

/-! ## Trees with the same view -/

mutual
theorem view_strip : (y : Yaml) → viewOf (stripComments y) = viewOf y
  | .inlineHash es => by simp [stripComments, viewOf, view_stripEntries es]
  | .hash ds => by simp [stripComments, viewOf, view_stripHash ds]
  | .inlineArray es => by simp [stripComments, viewOf, view_stripYamls es]
  | .array ds => by simp [stripComments, viewOf, view_stripArray ds]
  | .singleQuotedString _ => rfl
  | .doubleQuotedString _ => rfl
  | .unquotedString _ => rfl
  | .foldedString _ _ => rfl
  | .literalString _ _ => rfl
  | .anchor _ => rfl
theorem view_stripEntries : (es : List (Str × Yaml)) → entriesView (stripEntries es) = entriesView es
  | [] => rfl
  | (k, v) :: t => by simp [stripEntries, entriesView, view_strip v, view_stripEntries t]
theorem view_stripHash : (ds : List HashData) → hashView (stripHash ds) = hashView ds
  | [] => rfl
  | .element ⟨k, ⟨a, v⟩⟩ :: t => by simp [stripHash, hashView, view_strip v, view_stripHash t]
  | .comment _ :: t => by simp [stripHash, hashView, view_stripHash t]
  | .inlineComment _ :: t => by simp [stripHash, hashView, view_stripHash t]
theorem view_stripYamls : (es : List Yaml) → yamlsView (stripYamls es) = yamlsView es
  | [] => rfl
  | v :: t => by simp [stripYamls, yamlsView, view_strip v, view_stripYamls t]
theorem view_stripArray : (ds : List ArrayData) → arrayView (stripArray ds) = arrayView ds
  | [] => rfl
  | .element ⟨a, v⟩ :: t => by simp [stripArray, arrayView, view_strip v, view_stripArray t]
  | .comment _ :: t => by simp [stripArray, arrayView, view_stripArray t]
  | .inlineComment _ :: t => by simp [stripArray, arrayView, view_stripArray t]
end

mutual
theorem view_flow : (y : Yaml) → viewOf (preferFlow y) = viewOf y
  | .inlineHash es => by simp [preferFlow, viewOf, view_flowEntries es]
  | .hash ds => by
    rw [preferFlow]
    split
    · rename_i h; simp [viewOf, view_flowHash ds h]
    · simp [viewOf, view_flowHashKeep ds]
  | .inlineArray es => by simp [preferFlow, viewOf, view_flowYamls es]
  | .array ds => by
    rw [preferFlow]
    split
    · rename_i h; simp [viewOf, view_flowArray ds h]
    · simp [viewOf, view_flowArrayKeep ds]
  | .singleQuotedString _ => rfl
  | .doubleQuotedString _ => rfl
  | .unquotedString _ => rfl
  | .foldedString _ _ => rfl
  | .literalString _ _ => rfl
  | .anchor _ => rfl
theorem view_flowEntries : (es : List (Str × Yaml)) → entriesView (flowEntries es) = entriesView es
  | [] => rfl
  | (k, v) :: t => by simp [flowEntries, entriesView, view_flow v, view_flowEntries t]
theorem view_flowHash : (ds : List HashData) →
    ds.all (fun d => match d with | .element ⟨_, ⟨some _, _⟩⟩ => false | _ => true) = true →
    entriesView (flowHash ds) = hashView ds
  | [], _ => rfl
  | .element ⟨k, ⟨some a, v⟩⟩ :: t, h => by simp at h
  | .element ⟨k, ⟨none, v⟩⟩ :: t, h => by
    simp only [List.all_cons, Bool.true_and] at h
    simp [flowHash, entriesView, hashView, view_flow v, view_flowHash t h]
  | .comment _ :: t, h => by
    simp only [List.all_cons, Bool.true_and] at h
    simp [flowHash, hashView, view_flowHash t h]
  | .inlineComment _ :: t, h => by
    simp only [List.all_cons, Bool.true_and] at h
    simp [flowHash, hashView, view_flowHash t h]
theorem view_flowHashKeep : (ds : List HashData) → hashView (flowHashKeep ds) = hashView ds
  | [] => rfl
  | .element ⟨k, ⟨a, v⟩⟩ :: t => by simp [flowHashKeep, hashView, view_flow v, view_flowHashKeep t]
  | .comment _ :: t => by simp [flowHashKeep, hashView, view_flowHashKeep t]
  | .inlineComment _ :: t => by simp [flowHashKeep, hashView, view_flowHashKeep t]
theorem view_flowYamls : (es : List Yaml) → yamlsView (flowYamls es) = yamlsView es
  | [] => rfl
  | v :: t => by simp [flowYamls, yamlsView, view_flow v, view_flowYamls t]
theorem view_flowArray : (ds : List ArrayData) →
    ds.all (fun d => match d with | .element ⟨some _, _⟩ => false | _ => true) = true →
    yamlsView (flowArray ds) = arrayView ds
  | [], _ => rfl
  | .element ⟨some a, v⟩ :: t, h => by simp at h
  | .element ⟨none, v⟩ :: t, h => by
    simp only [List.all_cons, Bool.true_and] at h
    simp [flowArray, yamlsView, arrayView, view_flow v, view_flowArray t h]
  | .comment _ :: t, h => by
    simp only [List.all_cons, Bool.true_and] at h
    simp [flowArray, arrayView, view_flowArray t h]
  | .inlineComment _ :: t, h => by
    simp only [List.all_cons, Bool.true_and] at h
    simp [flowArray, arrayView, view_flowArray t h]
theorem view_flowArrayKeep : (ds : List ArrayData) → arrayView (flowArrayKeep ds) = arrayView ds
  | [] => rfl
  | .element ⟨a, v⟩ :: t => by simp [flowArrayKeep, arrayView, view_flow v, view_flowArrayKeep t]
  | .comment _ :: t => by simp [flowArrayKeep, arrayView, view_flowArrayKeep t]
  | .inlineComment _ :: t => by simp [flowArrayKeep, arrayView, view_flowArrayKeep t]
end

mutual
theorem view_drop : (y : Yaml) → viewOf (dropQuotes y) = viewOf y
  | .inlineHash es => by simp [dropQuotes, viewOf, view_dropEntries es]
  | .hash ds => by simp [dropQuotes, viewOf, view_dropHash ds]
  | .inlineArray es => by simp [dropQuotes, viewOf, view_dropYamls es]
  | .array ds => by simp [dropQuotes, viewOf, view_dropArray ds]
  | .singleQuotedString ps => by by_cases h : SpecialText (parseSingleQuoted ps) <;> simp [dropQuotes, viewOf, h]
  | .doubleQuotedString ps => by by_cases h : SpecialText (parseDoubleQuoted ps) <;> simp [dropQuotes, viewOf, h]
  | .unquotedString s => rfl
  | .foldedString ls c => by by_cases h : SpecialText (parseFolded ls c) <;> simp [dropQuotes, viewOf, h]
  | .literalString ls c => by by_cases h : SpecialText (parseLiteral ls c) <;> simp [dropQuotes, viewOf, h]
  | .anchor a => rfl
theorem view_dropEntries : (es : List (Str × Yaml)) → entriesView (dropEntries es) = entriesView es
  | [] => rfl
  | (k, v) :: t => by simp [dropEntries, entriesView, view_drop v, view_dropEntries t]
theorem view_dropHash : (ds : List HashData) → hashView (dropHash ds) = hashView ds
  | [] => rfl
  | .element ⟨k, ⟨a, v⟩⟩ :: t => by simp [dropHash, hashView, view_drop v, view_dropHash t]
  | .comment _ :: t => by simp [dropHash, hashView, view_dropHash t]
  | .inlineComment _ :: t => by simp [dropHash, hashView, view_dropHash t]
theorem view_dropYamls : (es : List Yaml) → yamlsView (dropYamls es) = yamlsView es
  | [] => rfl
  | v :: t => by simp [dropYamls, yamlsView, view_drop v, view_dropYamls t]
theorem view_dropArray : (ds : List ArrayData) → arrayView (dropArray ds) = arrayView ds
  | [] => rfl
  | .element ⟨a, v⟩ :: t => by simp [dropArray, arrayView, view_drop v, view_dropArray t]
  | .comment _ :: t => by simp [dropArray, arrayView, view_dropArray t]
  | .inlineComment _ :: t => by simp [dropArray, arrayView, view_dropArray t]
end

end YamlSubset
