import Verif.Lemmas.DeView

/-! # Deserialization on trees that are related -/

namespace YamlSubset.DeSim

open Spec

/-- Related elements. -/
def SameList (S : Yaml → Yaml → Prop) : List Yaml → List Yaml → Prop
  | [], [] => True
  | y :: t, y' :: t' => S y y' ∧ SameList S t t'
  | [], _ :: _ => False
  | _ :: _, [] => False

/-- Related entries with the same keys. -/
def SameKeyed (S : Yaml → Yaml → Prop) : List (Str × Yaml) → List (Str × Yaml) → Prop
  | [], [] => True
  | (k, y) :: t, (k', y') :: t' => (k = k' ∧ S y y') ∧ SameKeyed S t t'
  | [], _ :: _ => False
  | _ :: _, [] => False

/-- What must be known of a relation between trees and one between anchor maps. -/
structure Sim (S : Yaml → Yaml → Prop) (A : Anchors → Anchors → Prop) : Prop where
  key : ∀ k, S (.unquotedString k) (.unquotedString k)
  special : ∀ {y y'}, S y y' → specialOf y = specialOf y'
  string : ∀ {y y'}, S y y' → y.asString = y'.asString
  ref : ∀ {y y'}, S y y' → (refOf y).isSome = (refOf y').isSome
  resolved : ∀ {y y' σ σ'}, S y y' → A σ σ' → OptRel S (intoResolved σ y) (intoResolved σ' y')
  seq : ∀ {y y' σ σ'}, S y y' → A σ σ' → OptRel (fun p q => SameList S p.1 q.1 ∧ A p.2 q.2) (asSeq σ y) (asSeq σ' y')
  map : ∀ {y y' σ σ'}, S y y' → A σ σ' → OptRel (fun p q => SameKeyed S p.1 q.1 ∧ A p.2 q.2) (asMap σ y) (asMap σ' y')

variable {S : Yaml → Yaml → Prop} {A : Anchors → Anchors → Prop}

theorem SameKeyed.length {es es' : List (Str × Yaml)} (h : SameKeyed S es es') : es.length = es'.length := by
  induction es generalizing es' with
  | nil => cases es' with | nil => rfl | cons => simp [SameKeyed] at h
  | cons e t ih =>
    cases es' with
    | nil => simp [SameKeyed] at h
    | cons e' t' => simp [SameKeyed] at h; simp [ih h.2]

/-- Equal values and related anchor maps. -/
def Agree {α : Type} (A : Anchors → Anchors → Prop) (p q : α × Anchors) : Prop := p.1 = q.1 ∧ A p.2 q.2

/-- The step gives the same values on related trees. -/
def DeSame (S : Yaml → Yaml → Prop) (A : Anchors → Anchors → Prop) (f g : DeFn) : Prop := ∀ y y' σ σ', S y y' → A σ σ' → OutRel (Agree A) (f y σ) (g y' σ')

theorem deElems_same {f g : DeFn} (h : DeSame S A f g) {ys ys' : List Yaml} {σ σ' : Anchors}
    (hy : SameList S ys ys') (hσ : A σ σ') :
    OutRel (Agree A) (deElems f ys σ) (deElems g ys' σ') := by
  induction ys generalizing ys' σ σ' with
  | nil => cases ys' with
    | nil => exact .ok ⟨rfl, hσ⟩
    | cons => simp [SameList] at hy
  | cons y t ih => cases ys' with
    | nil => simp [SameList] at hy
    | cons y' t' =>
      simp only [SameList] at hy
      refine (h y y' σ σ' hy.1 hσ).bind fun r r' hr => (ih hy.2 hr.2).bind fun q q' hq => ?_
      exact .ok ⟨by rw [hr.1, hq.1], hq.2⟩

theorem deTuple_same {f g : Ty → DeFn} (h : ∀ t, DeSame S A (f t) (g t)) {ts : List Ty} {ys ys' : List Yaml}
    {σ σ' : Anchors} (hy : SameList S ys ys') (hσ : A σ σ') :
    OutRel (Agree A) (deTuple f ts ys σ) (deTuple g ts ys' σ') := by
  induction ts generalizing ys ys' σ σ' with
  | nil => exact .ok ⟨rfl, hσ⟩
  | cons t ts ih => cases ys with
    | nil => cases ys' with
      | nil => exact .err
      | cons => simp [SameList] at hy
    | cons y ys => cases ys' with
      | nil => simp [SameList] at hy
      | cons y' ys' =>
        simp only [SameList] at hy
        refine (h t y y' σ σ' hy.1 hσ).bind fun r r' hr => (ih hy.2 hr.2).bind fun q q' hq => ?_
        exact .ok ⟨by rw [hr.1, hq.1], hq.2⟩

theorem deEntries_same (hs : Sim S A) {fk gk fv gv : DeFn} (hk : DeSame S A fk gk) (hv : DeSame S A fv gv)
    {es es' : List (Str × Yaml)} {σ σ' : Anchors} (he : SameKeyed S es es')
    (hσ : A σ σ') :
    OutRel (Agree A) (deEntries fk fv es σ) (deEntries gk gv es' σ') := by
  induction es generalizing es' σ σ' with
  | nil => cases es' with
    | nil => exact .ok ⟨rfl, hσ⟩
    | cons => simp [SameKeyed] at he
  | cons e t ih => cases es' with
    | nil => simp [SameKeyed] at he
    | cons e' t' =>
      obtain ⟨k, y⟩ := e
      obtain ⟨k', y'⟩ := e'
      simp only [SameKeyed] at he
      obtain ⟨⟨rfl, hy⟩, he⟩ := he
      rw [deEntries_cons, deEntries_cons]
      refine (hk _ _ σ σ' (hs.key _) hσ).bind fun r r' hr => (hv _ _ _ _ hy hr.2).bind fun s s' hs =>
        (ih he hs.2).bind fun q q' hq => ?_
      exact .ok ⟨by rw [hr.1, hs.1, hq.1], hq.2⟩

theorem structLoop_same {f g : Ty → DeFn} (h : ∀ t, DeSame S A (f t) (g t)) (fs : List (Str × Ty)) (n : Nat)
    {es es' : List (Str × Yaml)} {σ σ' : Anchors} (he : SameKeyed S es es')
    (hσ : A σ σ') (p p' : Option Yaml) (acc : List (Str × SVal)) :
    OutRel (Agree A) (structLoop f fs n ⟨es, p⟩ acc σ) (structLoop g fs n ⟨es', p'⟩ acc σ') := by
  induction n generalizing es es' σ σ' acc p p' with
  | zero => exact .oof
  | succ n ih => cases es with
    | nil => cases es' with
      | nil => exact .ok ⟨rfl, hσ⟩
      | cons => simp [SameKeyed] at he
    | cons e t => cases es' with
      | nil => simp [SameKeyed] at he
      | cons e' t' =>
        obtain ⟨k, y⟩ := e
        obtain ⟨k', y'⟩ := e'
        simp only [SameKeyed] at he
        obtain ⟨⟨rfl, hy⟩, he⟩ := he
        rw [structLoop_cons, structLoop_cons]
        split
        · exact ih he hσ ..
        · split
          · exact .err
          · refine (h _ _ _ _ _ hy hσ).bind fun r r' hr => ?_
            rw [hr.1]
            exact ih he hr.2 ..

theorem deTupleNode_same (hs : Sim S A) {f g : Ty → DeFn} (h : ∀ t, DeSame S A (f t) (g t)) {ts : List Ty} {y y' : Yaml}
    {σ σ' : Anchors} (hy : S y y') (hσ : A σ σ') :
    OutRel (Agree A) (deTupleNode f ts y σ) (deTupleNode g ts y' σ') := by
  simp only [deTupleNode]
  have hr0 := hs.resolved hy hσ
  generalize intoResolved σ y = o at hr0 ⊢
  generalize intoResolved σ' y' = o' at hr0 ⊢
  cases hr0 with
  | none => exact .err
  | some hy =>
    dsimp only
    have hr0 := hs.seq hy hσ
    generalize asSeq σ _ = o at hr0 ⊢
    generalize asSeq σ' _ = o' at hr0 ⊢
    cases hr0 with
    | none => exact .err
    | some h' => exact deTuple_same h h'.1 h'.2

theorem deStruct_same (hs : Sim S A) {Γ : Nat → Ty} {f g : Ty → DeFn} (h : ∀ t, DeSame S A (f t) (g t)) {fs : List (Str × Ty)}
    {y y' : Yaml} {σ σ' : Anchors} (hy : S y y') (hσ : A σ σ') :
    OutRel (Agree A) (deStruct Γ f fs y σ) (deStruct Γ g fs y' σ') := by
  simp only [deStruct]
  have hr0 := hs.resolved hy hσ
  generalize intoResolved σ y = o at hr0 ⊢
  generalize intoResolved σ' y' = o' at hr0 ⊢
  cases hr0 with
  | none => exact .err
  | some hy =>
    dsimp only
    have hr0 := hs.map hy hσ
    generalize asMap σ _ = o at hr0 ⊢
    generalize asMap σ' _ = o' at hr0 ⊢
    cases hr0 with
    | none => exact .err
    | some h' =>
      rename_i p q
      have hl : p.1.length = q.1.length := h'.1.length
      simp only [deFields]
      rw [hl]
      refine (structLoop_same h fs _ h'.1 h'.2 none none []).bind fun r r' hr => ?_
      rw [hr.1]
      cases collectFields Γ r'.1 fs with
      | ok q => exact .ok ⟨rfl, hr.2⟩
      | err => exact .err
      | panic => exact .panic
      | unmatched => exact .unmatched
      | oof => exact .oof

theorem enumParts_same (hs : Sim S A) {y y' : Yaml} {σ σ' : Anchors} (hy : S y y')
    (hσ : A σ σ') :
    OutRel (fun p q => p.1 = q.1 ∧ S p.2.1 q.2.1 ∧ A p.2.2 q.2.2)
      (enumParts σ y) (enumParts σ' y') := by
  simp only [enumParts]
  rw [← hs.string hy]
  cases y.asString with
  | some s => exact .ok ⟨rfl, hs.key _, hσ⟩
  | none =>
    have hr0 := hs.map hy hσ
    generalize asMap σ _ = o at hr0 ⊢
    generalize asMap σ' _ = o' at hr0 ⊢
    cases hr0 with
    | none => exact .err
    | some h =>
      rename_i p q
      obtain ⟨es, ρ⟩ := p
      obtain ⟨es', ρ'⟩ := q
      obtain ⟨h, hρ⟩ := h
      dsimp only at *
      have hl : es.length = es'.length := h.length
      rw [hl]
      split
      · cases es with
        | nil => cases es' with
          | nil => exact .panic
          | cons => simp at hl
        | cons e t => cases es' with
          | nil => simp at hl
          | cons e' t' =>
            simp only [SameKeyed] at h
            exact .ok ⟨h.1.1, h.1.2, hρ⟩
      · exact .err

theorem deVariant_same (hs : Sim S A) {Γ : Nat → Ty} {f g : Ty → DeFn} (h : ∀ t, DeSame S A (f t) (g t)) (name : Str)
    (v : Variant) {y y' : Yaml} {σ σ' : Anchors} (hy : S y y') (hσ : A σ σ') :
    OutRel (Agree A) (deVariant Γ f name v y σ) (deVariant Γ g name v y' σ') := by
  cases v with
  | unit => exact .ok ⟨rfl, hσ⟩
  | newtype t => exact (h t _ _ _ _ hy hσ).bind fun r r' hr => .ok ⟨by rw [hr.1], hr.2⟩
  | tuple ts => exact (deTupleNode_same hs h hy hσ).bind fun r r' hr => .ok ⟨by rw [hr.1], hr.2⟩
  | struct fs => exact (deStruct_same hs h hy hσ).bind fun r r' hr => .ok ⟨by rw [hr.1], hr.2⟩

theorem de_same (hs : Sim S A) (Γ : Nat → Ty) (n : Nat) (ty : Ty) : DeSame S A (de Γ n ty) (de Γ n ty) := by
  induction n generalizing ty with
  | zero => exact fun _ _ _ _ _ _ => .oof
  | succ n ih =>
    intro y y' σ σ' hy hσ
    cases ty with
    | bool =>
      rw [de.eq_def, de.eq_def]; dsimp only
      have hr0 := hs.resolved hy hσ
      generalize intoResolved σ y = o at hr0 ⊢
      generalize intoResolved σ' y' = o' at hr0 ⊢
      cases hr0 with
      | none => exact .err
      | some hy =>
        dsimp only
        rename_i a b
        have : deBool a = deBool b := by
          have e : ∀ y, deBool y = match specialOf y with
              | some s => if s ∈ trueWords then .ok (.bool true)
                else if s ∈ falseWords then .ok (.bool false) else .err
              | none => .err := fun y => by
            cases y with
            | unquotedString s =>
              by_cases h : SpecialText s
              · simp [specialOf, h, deBool]
              · simp [specialOf, h, deBool, (not_special h).2.1, (not_special h).2.2.1]
            | _ => rfl
          rw [e, e, hs.special hy]
        rw [this]
        exact OutRel.ofEq _ fun _ => .ok ⟨rfl, hσ⟩
    | int k =>
      rw [de.eq_def, de.eq_def]; dsimp only
      have hr0 := hs.resolved hy hσ
      generalize intoResolved σ y = o at hr0 ⊢
      generalize intoResolved σ' y' = o' at hr0 ⊢
      cases hr0 with
      | none => exact .err
      | some hy =>
        simp only [deInt, hs.string hy]
        exact OutRel.ofEq _ fun _ => .ok ⟨rfl, hσ⟩
    | float =>
      rw [de.eq_def, de.eq_def]; dsimp only
      have hr0 := hs.resolved hy hσ
      generalize intoResolved σ y = o at hr0 ⊢
      generalize intoResolved σ' y' = o' at hr0 ⊢
      cases hr0 with
      | none => exact .err
      | some hy =>
        simp only [hs.string hy]
        repeat' split
        all_goals first | exact .err | exact .ok ⟨rfl, hσ⟩
    | char =>
      rw [de.eq_def, de.eq_def]; dsimp only
      have hr0 := hs.resolved hy hσ
      generalize intoResolved σ y = o at hr0 ⊢
      generalize intoResolved σ' y' = o' at hr0 ⊢
      cases hr0 with
      | none => exact .err
      | some hy =>
        simp only [hs.string hy]
        repeat' split
        all_goals first | exact .err | exact .ok ⟨rfl, hσ⟩
    | str =>
      rw [de.eq_def, de.eq_def]; dsimp only
      have hr0 := hs.resolved hy hσ
      generalize intoResolved σ y = o at hr0 ⊢
      generalize intoResolved σ' y' = o' at hr0 ⊢
      cases hr0 with
      | none => exact .err
      | some hy =>
        simp only [hs.string hy]
        repeat' split
        all_goals first | exact .err | exact .ok ⟨rfl, hσ⟩
    | bytes =>
      rw [de.eq_def, de.eq_def]; dsimp only
      have hr0 := hs.resolved hy hσ
      generalize intoResolved σ y = o at hr0 ⊢
      generalize intoResolved σ' y' = o' at hr0 ⊢
      cases hr0 with
      | none => exact .err
      | some hy =>
        dsimp only
        have hr0 := hs.seq hy hσ
        generalize asSeq σ _ = o at hr0 ⊢
        generalize asSeq σ' _ = o' at hr0 ⊢
        cases hr0 with
        | none => exact .err
        | some h => exact (deElems_same (ih _) h.1 h.2).bind fun r r' hr => .ok ⟨by rw [hr.1], hr.2⟩
    | unit => rw [de.eq_def, de.eq_def]; exact .ok ⟨rfl, hσ⟩
    | option t =>
      rw [de_option_special, de_option_special]
      have hr0 := hs.resolved hy hσ
      generalize intoResolved σ y = o at hr0 ⊢
      generalize intoResolved σ' y' = o' at hr0 ⊢
      cases hr0 with
      | none => exact .err
      | some hy =>
        dsimp only
        rw [hs.special hy]
        repeat' split
        · exact .ok ⟨rfl, hσ⟩
        · exact (ih _ _ _ _ _ hy hσ).bind fun r r' hr => .ok ⟨by rw [hr.1], hr.2⟩
        · exact (ih _ _ _ _ _ hy hσ).bind fun r r' hr => .ok ⟨by rw [hr.1], hr.2⟩
    | newtype t =>
      rw [de.eq_def, de.eq_def]; dsimp only
      exact (ih _ _ _ _ _ hy hσ).bind fun r r' hr => .ok ⟨by rw [hr.1], hr.2⟩
    | seq t =>
      rw [de.eq_def, de.eq_def]; dsimp only
      have hr0 := hs.resolved hy hσ
      generalize intoResolved σ y = o at hr0 ⊢
      generalize intoResolved σ' y' = o' at hr0 ⊢
      cases hr0 with
      | none => exact .err
      | some hy =>
        dsimp only
        have hr0 := hs.seq hy hσ
        generalize asSeq σ _ = o at hr0 ⊢
        generalize asSeq σ' _ = o' at hr0 ⊢
        cases hr0 with
        | none => exact .err
        | some h => exact (deElems_same (ih _) h.1 h.2).bind fun r r' hr => .ok ⟨by rw [hr.1], hr.2⟩
    | tuple ts =>
      rw [de.eq_def, de.eq_def]; dsimp only
      exact (deTupleNode_same hs ih hy hσ).bind fun r r' hr => .ok ⟨by rw [hr.1], hr.2⟩
    | map k v =>
      rw [de.eq_def, de.eq_def]; dsimp only
      have hr0 := hs.resolved hy hσ
      generalize intoResolved σ y = o at hr0 ⊢
      generalize intoResolved σ' y' = o' at hr0 ⊢
      cases hr0 with
      | none => exact .err
      | some hy =>
        dsimp only
        have hr0 := hs.map hy hσ
        generalize asMap σ _ = o at hr0 ⊢
        generalize asMap σ' _ = o' at hr0 ⊢
        cases hr0 with
        | none => exact .err
        | some h =>
          exact (deEntries_same hs (ih _) (ih _) h.1 h.2).bind fun r r' hr => .ok ⟨by rw [hr.1], hr.2⟩
    | struct fs =>
      rw [de.eq_def, de.eq_def]; dsimp only
      exact (deStruct_same hs ih hy hσ).bind fun r r' hr => .ok ⟨by rw [hr.1], hr.2⟩
    | enum vs =>
      rw [de.eq_def, de.eq_def]; dsimp only
      have hr0 := hs.resolved hy hσ
      generalize intoResolved σ y = o at hr0 ⊢
      generalize intoResolved σ' y' = o' at hr0 ⊢
      cases hr0 with
      | none => exact .err
      | some hy =>
        dsimp only
        refine (enumParts_same hs hy hσ).bind fun p q hp => ?_
        rw [hp.1]
        split
        · exact deVariant_same hs ih _ _ hp.2.1 hp.2.2
        · exact .err
    | any =>
      rw [de_any_special, de_any_special, hs.special hy, hs.string hy]
      split
      · exact .ok ⟨rfl, hσ⟩
      · have hr := hs.ref hy
        have hr0 := hs.resolved hy hσ
        cases h1 : refOf y with
        | some a =>
          obtain ⟨a', h2⟩ : ∃ a', refOf y' = some a' := by
            rw [h1] at hr
            exact Option.isSome_iff_exists.1 hr.symm
          have e1 : y = .anchor a := by cases y <;> simp [refOf] at h1; rw [h1]
          have e2 : y' = .anchor a' := by cases y' <;> simp [refOf] at h2; rw [h2]
          rw [h2]
          rw [e1, e2] at hr0
          simp only [intoResolved] at hr0
          dsimp only
          generalize resolve σ _ = o at hr0 ⊢
          generalize resolve σ' _ = o' at hr0 ⊢
          cases hr0 with
          | none => exact .err
          | some h => exact ih _ _ _ _ _ h hσ
        | none =>
          have h2 : refOf y' = none := by
            rw [h1] at hr
            exact Option.not_isSome_iff_eq_none.1 (by rw [← hr]; simp)
          rw [h2]
          dsimp only
          split
          · exact .ok ⟨rfl, hσ⟩
          · have hr0 := hs.seq hy hσ
            generalize asSeq σ _ = o at hr0 ⊢
            generalize asSeq σ' _ = o' at hr0 ⊢
            cases hr0 with
            | some h =>
              exact (deElems_same (ih _) h.1 h.2).bind fun r r' hr => .ok ⟨by rw [hr.1], hr.2⟩
            | none =>
              dsimp only
              have hr0 := hs.map hy hσ
              generalize asMap σ _ = o at hr0 ⊢
              generalize asMap σ' _ = o' at hr0 ⊢
              cases hr0 with
              | none => exact .err
              | some h =>
                exact (deEntries_same hs (ih _) (ih _) h.1 h.2).bind fun r r' hr => .ok ⟨by rw [hr.1], hr.2⟩
    | ignored => rw [de.eq_def, de.eq_def]; exact .ok ⟨rfl, hσ⟩
    | ref m => rw [de.eq_def, de.eq_def]; exact ih _ _ _ _ _ hy hσ

theorem fromYaml_same (hs : Sim S A) (h0 : A [] []) (Γ : Nat → Ty) (n : Nat) (ty : Ty) {y y' : Yaml} (h : S y y') :
    fromYaml Γ n ty y = fromYaml Γ n ty y' := by
  have := de_same hs Γ n ty y y' [] [] h h0
  rw [fromYaml, fromYaml]
  generalize de Γ n ty y [] = o at this ⊢
  generalize de Γ n ty y' [] = o' at this ⊢
  cases this with
  | ok h => simp [h.1]
  | _ => rfl

end YamlSubset.DeSim
