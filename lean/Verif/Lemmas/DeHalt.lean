import Verif.Lemmas.DeView
import Verif.Lemmas.Induct
import Verif.Spec.Anchors

/-! # Deserialization of trees without cyclic anchors ends -/

namespace YamlSubset

open Spec

/-! ## Functions of the depth that give a result at some depth -/

/-- More depth only helps. -/
def MonoOut {α : Type} (F : Nat → Out α) : Prop := ∀ n m, n ≤ m → Out.Le (F n) (F m)

/-- Some depth is enough, and a result keeps the invariant on the anchors. -/
def Halts {α : Type} (I : Anchors → Prop) (F : Nat → Out (α × Anchors)) : Prop :=
  ∃ n, F n ≠ .oof ∧ ∀ r, F n = .ok r → I r.2

theorem Halts.ok {α : Type} {I : Anchors → Prop} {a : α} {σ : Anchors} (h : I σ) :
    Halts I fun _ => .ok (a, σ) :=
  ⟨0, by nofun, fun r hr => by cases hr; exact h⟩

theorem Halts.err {α : Type} {I : Anchors → Prop} : Halts (α := α) I fun _ => .err :=
  ⟨0, by nofun, by nofun⟩

theorem Halts.bind {α β : Type} {I : Anchors → Prop} {G : Nat → Out (α × Anchors)}
    {K : Nat → α × Anchors → Out (β × Anchors)} (mG : MonoOut G) (mK : ∀ r, MonoOut fun n => K n r)
    (hG : Halts I G) (hK : ∀ r, I r.2 → Halts I fun n => K n r) :
    Halts I fun n => (G n).bind (K n) := by
  obtain ⟨n, hn, hi⟩ := hG
  cases hg : G n with
  | ok r =>
    obtain ⟨m, hm, hj⟩ := hK r (hi r hg)
    have h1 : G (max n m) = .ok r := by rw [← hg]; exact (mG n _ (by omega)).eq hn
    have h2 : K (max n m) r = K m r := (mK r m _ (by omega)).eq hm
    refine ⟨max n m, ?_, ?_⟩
    · simpa [h1, h2] using hm
    · simpa [h1, h2] using hj
  | err => exact ⟨n, by simp [hg], by simp [hg]⟩
  | panic => exact ⟨n, by simp [hg], by simp [hg]⟩
  | unmatched => exact ⟨n, by simp [hg], by simp [hg]⟩
  | oof => exact absurd hg hn

theorem Halts.map {α β : Type} {I : Anchors → Prop} {G : Nat → Out (α × Anchors)} {f : α × Anchors → β}
    (mG : MonoOut G) (hG : Halts I G) : Halts I fun n => (G n).bind fun r => .ok (f r, r.2) :=
  Halts.bind mG (fun _ _ _ _ => .refl _) hG fun _ hr => .ok hr

theorem Halts.succ {α : Type} {I : Anchors → Prop} {F : Nat → Out (α × Anchors)}
    (h : Halts I fun n => F (n + 1)) : Halts I F := by
  obtain ⟨n, h⟩ := h
  exact ⟨n + 1, h⟩

theorem mono_de (Γ : Nat → Ty) (ty : Ty) (y : Yaml) (σ : Anchors) : MonoOut fun n => de Γ n ty y σ :=
  fun _ _ h => de_le Γ h ty y σ

theorem mono_elems (Γ : Nat → Ty) (ty : Ty) (ys : List Yaml) (σ : Anchors) :
    MonoOut fun n => deElems (de Γ n ty) ys σ := fun _ _ h => deElems_le (de_le Γ h ty) ys σ

theorem mono_tuple (Γ : Nat → Ty) (ts : List Ty) (ys : List Yaml) (σ : Anchors) :
    MonoOut fun n => deTuple (de Γ n) ts ys σ := fun _ _ h => deTuple_le (fun t => de_le Γ h t) ts ys σ

theorem mono_entries (Γ : Nat → Ty) (kt vt : Ty) (es : List (Str × Yaml)) (σ : Anchors) :
    MonoOut fun n => deEntries (de Γ n kt) (de Γ n vt) es σ :=
  fun _ _ h => deEntries_le (de_le Γ h kt) (de_le Γ h vt) es σ

theorem mono_struct (Γ : Nat → Ty) (fs : List (Str × Ty)) (k : Nat) (es : List (Str × Yaml)) (p : Option Yaml)
    (acc : List (Str × SVal)) (σ : Anchors) :
    MonoOut fun n => structLoop (de Γ n) fs k ⟨es, p⟩ acc σ :=
  fun _ _ h => structLoop_le (fun t => de_le Γ h t) fs k es p acc σ

theorem MonoOut.bindConst {α β : Type} {G : Nat → Out α} (mG : MonoOut G) (f : α → Out β) :
    MonoOut fun n => (G n).bind f := fun n m h => (mG n m h).bind fun _ => .refl _

/-! ## The parts of a collection -/

/-- Reading the node ends at every type. -/
def HaltsOn (Γ : Nat → Ty) (I : Anchors → Prop) (y : Yaml) : Prop :=
  ∀ ty σ, I σ → Halts I fun n => de Γ n ty y σ

theorem halts_elems {Γ : Nat → Ty} {I : Anchors → Prop} (ty : Ty) (ys : List Yaml)
    (h : ∀ c ∈ ys, HaltsOn Γ I c) (σ : Anchors) (hσ : I σ) : Halts I fun n => deElems (de Γ n ty) ys σ := by
  induction ys generalizing σ with
  | nil => exact .ok hσ
  | cons y t ih =>
    simp only [deElems]
    refine Halts.bind (mono_de Γ ty y σ) (fun r => (mono_elems Γ ty t r.2).bindConst _)
      (h y (by simp) ty σ hσ) fun r hr => ?_
    exact Halts.map (mono_elems Γ ty t r.2) (ih (fun c hc => h c (by simp [hc])) r.2 hr)

theorem halts_tuple {Γ : Nat → Ty} {I : Anchors → Prop} (ts : List Ty) (ys : List Yaml)
    (h : ∀ c ∈ ys, HaltsOn Γ I c) (σ : Anchors) (hσ : I σ) : Halts I fun n => deTuple (de Γ n) ts ys σ := by
  induction ts generalizing ys σ with
  | nil => simpa only [deTuple] using .ok hσ
  | cons ty ts ih =>
    cases ys with
    | nil => exact .err
    | cons y t =>
      simp only [deTuple]
      refine Halts.bind (mono_de Γ ty y σ) (fun r => (mono_tuple Γ ts t r.2).bindConst _)
        (h y (by simp) ty σ hσ) fun r hr => ?_
      exact Halts.map (mono_tuple Γ ts t r.2) (ih t (fun c hc => h c (by simp [hc])) r.2 hr)

theorem halts_entries {Γ : Nat → Ty} {I : Anchors → Prop} (kt vt : Ty) (es : List (Str × Yaml))
    (hk : ∀ s, HaltsOn Γ I (.unquotedString s)) (h : ∀ k c, (k, c) ∈ es → HaltsOn Γ I c) (σ : Anchors) (hσ : I σ) :
    Halts I fun n => deEntries (de Γ n kt) (de Γ n vt) es σ := by
  induction es generalizing σ with
  | nil => exact .ok hσ
  | cons e t ih =>
    obtain ⟨k, y⟩ := e
    simp only [deEntries_cons]
    have m2 : ∀ σ, MonoOut fun n => (de Γ n vt y σ).bind fun rv =>
        (deEntries (de Γ n kt) (de Γ n vt) t rv.2) := fun σ n m h =>
      Out.Le.bind (mono_de Γ vt y σ n m h) fun r => mono_entries Γ kt vt t r.2 n m h
    refine Halts.bind (mono_de Γ kt _ σ) (fun r n m hnm => ?_) (hk k kt σ hσ) fun r hr => ?_
    · exact Out.Le.bind (mono_de Γ vt y r.2 n m hnm) fun r' =>
        ((mono_entries Γ kt vt t r'.2).bindConst _) n m hnm
    · refine Halts.bind (mono_de Γ vt y r.2) (fun r' => (mono_entries Γ kt vt t r'.2).bindConst _)
        (h k y (by simp) vt r.2 hr) fun r' hr' => ?_
      exact Halts.map (mono_entries Γ kt vt t r'.2) (ih (fun k c hc => h k c (by simp [hc])) r'.2 hr')

theorem halts_struct {Γ : Nat → Ty} {I : Anchors → Prop} (fs : List (Str × Ty)) (es : List (Str × Yaml))
    (h : ∀ k c, (k, c) ∈ es → HaltsOn Γ I c) (p : Option Yaml) (acc : List (Str × SVal)) (σ : Anchors) (hσ : I σ) :
    Halts I fun n => structLoop (de Γ n) fs (es.length + 1) ⟨es, p⟩ acc σ := by
  induction es generalizing σ p acc with
  | nil => exact .ok hσ
  | cons e t ih =>
    obtain ⟨k, y⟩ := e
    simp only [List.length_cons, structLoop_cons]
    cases hl : fs.lookup k with
    | none => exact ih (fun k c hc => h k c (by simp [hc])) _ _ σ hσ
    | some ty =>
      dsimp only
      by_cases ha : (acc.lookup k).isSome = true
      · simp only [ha, if_true]; exact .err
      · simp only [ha]
        refine Halts.bind (mono_de Γ ty y σ) (fun r => mono_struct Γ fs _ t _ _ r.2)
          (h k y (by simp) ty σ hσ) fun r hr => ?_
        exact ih (fun k c hc => h k c (by simp [hc])) _ _ r.2 hr

theorem collectFields_ne_oof (Γ : Nat → Ty) (acc : List (Str × SVal)) (fs : List (Str × Ty)) :
    collectFields Γ acc fs ≠ .oof := by
  induction fs with
  | nil => nofun
  | cons f t ih =>
    obtain ⟨k, ty⟩ := f
    simp only [collectFields]
    cases hc : collectFields Γ acc t with
    | oof => exact absurd hc ih
    | _ => repeat' split
           all_goals simp

theorem mono_deStruct (Γ : Nat → Ty) (fs : List (Str × Ty)) (y : Yaml) (σ : Anchors) :
    MonoOut fun n => deStruct Γ (de Γ n) fs y σ := fun _ _ h => deStruct_le (fun t => de_le Γ h t) fs y σ

theorem halts_deStruct {Γ : Nat → Ty} {I : Anchors → Prop} (fs : List (Str × Ty)) (y : Yaml)
    (hmap : ∀ σ z es σ', I σ → intoResolved σ y = some z → asMap σ z = some (es, σ') →
      I σ' ∧ (∀ k c, (k, c) ∈ es → HaltsOn Γ I c)) (σ : Anchors) (hσ : I σ) :
    Halts I fun n => deStruct Γ (de Γ n) fs y σ := by
  simp only [deStruct]
  cases hz : intoResolved σ y with
  | none => exact .err
  | some z =>
    dsimp only
    cases hs : asMap σ z with
    | none => exact .err
    | some p =>
      obtain ⟨es, σ'⟩ := p
      obtain ⟨h1, h2⟩ := hmap σ z es σ' hσ hz hs
      refine Halts.bind (mono_struct Γ fs _ es none [] σ') (fun _ _ _ _ => .refl _)
        (halts_struct fs es h2 none [] σ' h1) fun r hr => ?_
      cases hc : collectFields Γ r.1 fs with
      | ok q => exact .ok hr
      | err => exact .err
      | panic => exact absurd hc (collectFields_safe Γ r.1 fs).1
      | unmatched => exact absurd hc (collectFields_safe Γ r.1 fs).2
      | oof => exact absurd hc (collectFields_ne_oof Γ r.1 fs)

theorem halts_tupleVariant {Γ : Nat → Ty} {I : Anchors → Prop} {ts : List Ty} {c : Yaml} {σ : Anchors} (name : Str)
    (h : Halts I fun n => de Γ n (.tuple ts) c σ) :
    Halts I fun n => deVariant Γ (de Γ n) name (.tuple ts) c σ := by
  obtain ⟨n, h1, h2⟩ := h
  cases n with
  | zero => exact absurd rfl h1
  | succ n =>
    refine ⟨n, ?_, ?_⟩
    all_goals
      simp only [de, deVariant] at h1 h2 ⊢
      cases hd : deTupleNode (de Γ n) ts c σ <;> simp_all

theorem halts_structVariant {Γ : Nat → Ty} {I : Anchors → Prop} {fs : List (Str × Ty)} {c : Yaml} {σ : Anchors}
    (name : Str) (h : Halts I fun n => de Γ n (.struct fs) c σ) :
    Halts I fun n => deVariant Γ (de Γ n) name (.struct fs) c σ := by
  obtain ⟨n, h1, h2⟩ := h
  cases n with
  | zero => exact absurd rfl h1
  | succ n =>
    refine ⟨n, ?_, ?_⟩
    all_goals
      simp only [de, deVariant] at h1 h2 ⊢
      cases hd : deStruct Γ (de Γ n) fs c σ <;> simp_all

/-! ## One step -/

def tilde : Yaml := .unquotedString ['~']

theorem tildeSteps_lookup {g : Nat → Nat} {vs : List (Str × Variant)} {t : Ty}
    (h : vs.lookup ['~'] = some (.newtype t)) : inputFreeSteps g t < tildeSteps g vs := by
  induction vs with
  | nil => simp at h
  | cons p vs ih =>
    obtain ⟨name, v⟩ := p
    by_cases hn : name = ['~']
    · subst hn
      simp only [List.lookup, beq_self_eq_true, Option.some.injEq] at h
      subst h
      simp only [tildeSteps, if_true]
      omega
    · have hb : (['~'] == name) = false := by simpa using fun h => hn h.symm
      simp only [List.lookup, hb] at h
      have := ih h
      cases v <;> simp only [tildeSteps] <;> omega

/-- One step of deserialization ends if the steps it leads to do. -/
theorem halts_step {Γ : Nat → Ty} {I : Anchors → Prop} {g : Nat → Nat}
    (hg : ∀ n, inputFreeSteps g (Γ n) < g n) {y : Yaml} {ty : Ty}
    (hty : ∀ ty', inputFreeSteps g ty' < inputFreeSteps g ty → ∀ σ, I σ → Halts I fun n => de Γ n ty' y σ)
    (hres : ∀ σ z, I σ → intoResolved σ y = some z → refOf y ≠ none → HaltsOn Γ I z)
    (hseq : ∀ σ z ys σ', I σ → intoResolved σ y = some z → asSeq σ z = some (ys, σ') →
      I σ' ∧ ∀ c ∈ ys, HaltsOn Γ I c)
    (hmap : ∀ σ z es σ', I σ → intoResolved σ y = some z → asMap σ z = some (es, σ') →
      I σ' ∧ (∀ k c, (k, c) ∈ es → HaltsOn Γ I c) ∧ ∀ s, HaltsOn Γ I (.unquotedString s))
    (htilde : y = tilde ∨ HaltsOn Γ I tilde) (σ : Anchors) (hσ : I σ) :
    Halts I fun n => de Γ n ty y σ := by
  apply Halts.succ
  cases ty with
  | bool =>
    simp only [de.eq_def]
    cases intoResolved σ y with
    | none => exact .err
    | some z =>
      dsimp only
      cases hb : deBool z with
      | ok v => exact .ok hσ
      | err => exact .err
      | panic => exact absurd hb (deBool_safe z).1
      | unmatched => exact absurd hb (deBool_safe z).2
      | oof =>
        unfold deBool at hb
        repeat' split at hb
        all_goals simp at hb
  | int k =>
    simp only [de.eq_def]
    cases intoResolved σ y with
    | none => exact .err
    | some z =>
      dsimp only
      cases hb : deInt k z with
      | ok v => exact .ok hσ
      | err => exact .err
      | panic => exact absurd hb (deInt_safe k z).1
      | unmatched => exact absurd hb (deInt_safe k z).2
      | oof =>
        unfold deInt at hb
        repeat' split at hb
        all_goals simp at hb
  | float =>
    simp only [de.eq_def]
    repeat' split
    all_goals first | exact .err | exact .ok hσ
  | char =>
    simp only [de.eq_def]
    repeat' split
    all_goals first | exact .err | exact .ok hσ
  | str =>
    simp only [de.eq_def]
    repeat' split
    all_goals first | exact .err | exact .ok hσ
  | bytes =>
    simp only [de]
    cases hz : intoResolved σ y with
    | none => exact .err
    | some z =>
      dsimp only
      cases hs : asSeq σ z with
      | none => exact .err
      | some p =>
        obtain ⟨ys, σ'⟩ := p
        obtain ⟨h1, h2⟩ := hseq σ z ys σ' hσ hz hs
        exact Halts.map (mono_elems Γ _ ys σ') (halts_elems _ ys h2 σ' h1)
  | unit => simp only [de]; exact .ok hσ
  | option t =>
    simp only [de_option]
    cases hz : intoResolved σ y with
    | none => exact .err
    | some z =>
      have hz' : Halts I fun n => de Γ n t z σ := by
        by_cases he : refOf y = none
        · rw [intoResolved_of_refOf he] at hz
          cases hz
          exact hty t (by simp only [inputFreeSteps]; omega) σ hσ
        · exact hres σ z hσ hz he t σ hσ
      dsimp only
      cases plainOf z with
      | none => exact Halts.map (mono_de Γ t z σ) hz'
      | some s =>
        dsimp only
        split
        · exact .ok hσ
        · exact Halts.map (mono_de Γ t z σ) hz'
  | newtype t =>
    simp only [de]
    exact Halts.map (mono_de Γ t y σ) (hty t (by simp only [inputFreeSteps]; omega) σ hσ)
  | seq t =>
    simp only [de]
    cases hz : intoResolved σ y with
    | none => exact .err
    | some z =>
      dsimp only
      cases hs : asSeq σ z with
      | none => exact .err
      | some p =>
        obtain ⟨ys, σ'⟩ := p
        obtain ⟨h1, h2⟩ := hseq σ z ys σ' hσ hz hs
        exact Halts.map (mono_elems Γ _ ys σ') (halts_elems _ ys h2 σ' h1)
  | tuple ts =>
    simp only [de, deTupleNode]
    cases hz : intoResolved σ y with
    | none => exact .err
    | some z =>
      dsimp only
      cases hs : asSeq σ z with
      | none => exact .err
      | some p =>
        obtain ⟨ys, σ'⟩ := p
        obtain ⟨h1, h2⟩ := hseq σ z ys σ' hσ hz hs
        exact Halts.map (mono_tuple Γ _ ys σ') (halts_tuple _ ys h2 σ' h1)
  | map kt vt =>
    simp only [de]
    cases hz : intoResolved σ y with
    | none => exact .err
    | some z =>
      dsimp only
      cases hs : asMap σ z with
      | none => exact .err
      | some p =>
        obtain ⟨es, σ'⟩ := p
        obtain ⟨h1, h2, h3⟩ := hmap σ z es σ' hσ hz hs
        exact Halts.map (mono_entries Γ _ _ es σ') (halts_entries _ _ es h3 h2 σ' h1)
  | struct fs =>
    simp only [de]
    exact Halts.map (mono_deStruct Γ fs y σ) (halts_deStruct fs y
      (fun σ z es σ' h1 h2 h3 => ⟨(hmap σ z es σ' h1 h2 h3).1, (hmap σ z es σ' h1 h2 h3).2.1⟩) σ hσ)
  | enum vs =>
    simp only [de]
    cases hz : intoResolved σ y with
    | none => exact .err
    | some z =>
      dsimp only
      rw [show enumParts σ z = enumParts σ z from rfl]
      simp only [enumParts]
      cases hs : z.asString with
      | some s =>
        dsimp only [Out.bind_ok]
        cases hl : vs.lookup s with
        | none => exact .err
        | some v =>
          dsimp only
          cases v with
          | unit => exact .ok hσ
          | newtype t =>
            refine Halts.map (mono_de Γ t tilde σ) ?_
            rcases htilde with rfl | ht
            · have : z = tilde := by simpa [tilde, intoResolved] using hz.symm
              subst this
              have : s = ['~'] := by simpa [tilde, Yaml.asString] using hs.symm
              subst this
              exact hty t (by simp only [inputFreeSteps]; exact tildeSteps_lookup hl) σ hσ
            · exact ht t σ hσ
          | tuple ts =>
            simp only [deVariant, deTupleNode, intoResolved, asSeq]
            exact .err
          | struct fs =>
            simp only [deVariant, deStruct, intoResolved, asMap]
            exact .err
      | none =>
        dsimp only
        cases hm : asMap σ z with
        | none => exact .err
        | some p =>
          obtain ⟨es, σ'⟩ := p
          obtain ⟨h1, h2, h3⟩ := hmap σ z es σ' hσ hz hm
          dsimp only
          match es, h2 with
          | [], _ => exact .err
          | _ :: _ :: _, _ => exact .err
          | [(k, c)], h2 =>
            simp only [List.length_cons, List.length_nil, Nat.zero_add, if_true, Out.bind_ok]
            have hc : HaltsOn Γ I c := h2 k c (by simp)
            cases hl : vs.lookup k with
            | none => exact .err
            | some v =>
              dsimp only
              cases v with
              | unit => exact .ok h1
              | newtype t => exact Halts.map (mono_de Γ t c σ') (hc t σ' h1)
              | tuple ts => exact halts_tupleVariant k (hc (.tuple ts) σ' h1)
              | struct fs => exact halts_structVariant k (hc (.struct fs) σ' h1)
  | any =>
    simp only [de_any]
    cases plainOf y with
    | some s => exact .ok hσ
    | none =>
      dsimp only
      cases hr : refOf y with
      | some name =>
        have hy : y = .anchor name := by cases y <;> simp [refOf] at hr; rw [hr]
        subst hy
        dsimp only
        cases hz : resolve σ name with
        | none => exact .err
        | some z => exact hres σ z hσ hz (by simp [refOf]) .any σ hσ
      | none =>
        have hi := intoResolved_of_refOf hr σ
        dsimp only
        cases y.asString with
        | some s => exact .ok hσ
        | none =>
          dsimp only
          cases hs : asSeq σ y with
          | some p =>
            obtain ⟨ys, σ'⟩ := p
            obtain ⟨h1, h2⟩ := hseq σ y ys σ' hσ hi hs
            exact Halts.map (mono_elems Γ _ ys σ') (halts_elems _ ys h2 σ' h1)
          | none =>
            dsimp only
            cases hm : asMap σ y with
            | none => exact .err
            | some p =>
              obtain ⟨es, σ'⟩ := p
              obtain ⟨h1, h2, h3⟩ := hmap σ y es σ' hσ hi hm
              exact Halts.map (mono_entries Γ _ _ es σ') (halts_entries _ _ es h3 h2 σ' h1)
  | ignored => simp only [de]; exact .ok hσ
  | ref m =>
    simp only [de]
    exact hty (Γ m) (by simp only [inputFreeSteps]; exact hg m) σ hσ

/-! ## Trees -/

/-- All references in `y` have rank below `k`. -/
def RefsBelow (rank : Str → Nat) (k : Nat) (y : Yaml) : Prop := ∀ b, RefersTo y b → rank b < k

/-- Definitions in `y` refer only to names of lower rank. -/
def Ranked (rank : Str → Nat) (y : Yaml) : Prop := ∀ a v, Defines y a v → RefsBelow rank (rank a) v

/-- The same for the definitions seen so far. -/
def RankedAnchors (rank : Str → Nat) (σ : Anchors) : Prop :=
  ∀ a v, (a, v) ∈ σ → RefsBelow rank (rank a) v ∧ Ranked rank v

theorem RefsBelow.child {rank : Str → Nat} {k : Nat} {c y : Yaml} (h : RefsBelow rank k y) (hc : Child c y) :
    RefsBelow rank k c := fun b hb => h b (.step hc hb)

theorem Ranked.child {rank : Str → Nat} {c y : Yaml} (h : Ranked rank y) (hc : Child c y) : Ranked rank c :=
  fun a v ⟨d, hd, hv⟩ => h a v ⟨d, .step hc hd, hv⟩

theorem child_of_def {y v : Yaml} {a : Str} (h : DirectDef y a v) : Child v y := by
  cases h with
  | hash h => exact .hash h
  | array h => exact .array h

theorem RankedAnchors.cons {rank : Str → Nat} {σ : Anchors} (h : RankedAnchors rank σ) {y v : Yaml} {a : Str}
    (hy : Ranked rank y) (hd : DirectDef y a v) : RankedAnchors rank ((a, v) :: σ) := by
  intro b w hb
  rcases List.mem_cons.1 hb with hb | hb
  · cases hb
    exact ⟨hy a v ⟨y, .self, hd⟩, hy.child (child_of_def hd)⟩
  · exact h b w hb

theorem asSeq_ranked {rank : Str → Nat} {σ σ' : Anchors} {z : Yaml} {ys : List Yaml} (h : asSeq σ z = some (ys, σ'))
    (hσ : RankedAnchors rank σ) (hz : Ranked rank z) : RankedAnchors rank σ' ∧ ∀ c ∈ ys, Child c z := by
  cases z <;> simp only [asSeq, reduceCtorEq, Option.some.injEq, Prod.mk.injEq] at h
  case inlineArray es =>
    obtain ⟨rfl, rfl⟩ := h
    exact ⟨hσ, fun c hc => .inlineArray hc⟩
  case array ds =>
    have key : ∀ (ds' : List ArrayData) σ, (∀ d ∈ ds', d ∈ ds) → RankedAnchors rank σ →
        RankedAnchors rank (seqValues σ ds').2 ∧ ∀ c ∈ (seqValues σ ds').1, Child c (.array ds) := by
      intro ds' σ hm hσ
      induction ds' generalizing σ with
      | nil => exact ⟨hσ, by simp [seqValues]⟩
      | cons d t ih =>
        match d with
        | .comment _ => exact ih σ (fun d hd => hm d (by simp [hd])) hσ
        | .inlineComment _ => exact ih σ (fun d hd => hm d (by simp [hd])) hσ
        | .element ⟨a, v⟩ =>
          have hd := hm (.element ⟨a, v⟩) (by simp)
          have hσ' : RankedAnchors rank (register σ ⟨a, v⟩) := by
            cases a with
            | none => exact hσ
            | some a => exact hσ.cons hz (.array hd)
          obtain ⟨h1, h2⟩ := ih _ (fun d hd => hm d (by simp [hd])) hσ'
          refine ⟨h1, fun c hc => ?_⟩
          simp only [seqValues, List.mem_cons] at hc
          rcases hc with rfl | hc
          · exact .array hd
          · exact h2 c hc
    have := key ds σ (fun _ h => h) hσ
    rw [h] at this
    exact this

theorem asMap_ranked {rank : Str → Nat} {σ σ' : Anchors} {z : Yaml} {es : List (Str × Yaml)}
    (h : asMap σ z = some (es, σ')) (hσ : RankedAnchors rank σ) (hz : Ranked rank z) :
    RankedAnchors rank σ' ∧ ∀ k c, (k, c) ∈ es → Child c z := by
  cases z <;> simp only [asMap, reduceCtorEq, Option.some.injEq, Prod.mk.injEq] at h
  case inlineHash es =>
    obtain ⟨rfl, rfl⟩ := h
    exact ⟨hσ, fun k c hc => .inlineHash hc⟩
  case hash ds =>
    have key : ∀ (ds' : List HashData) σ, (∀ d ∈ ds', d ∈ ds) → RankedAnchors rank σ →
        RankedAnchors rank (hashEntries σ ds').2 ∧ ∀ k c, (k, c) ∈ (hashEntries σ ds').1 → Child c (.hash ds) := by
      intro ds' σ hm hσ
      induction ds' generalizing σ with
      | nil => exact ⟨hσ, by simp [hashEntries]⟩
      | cons d t ih =>
        match d with
        | .comment _ => exact ih σ (fun d hd => hm d (by simp [hd])) hσ
        | .inlineComment _ => exact ih σ (fun d hd => hm d (by simp [hd])) hσ
        | .element ⟨k, ⟨a, v⟩⟩ =>
          have hd := hm (.element ⟨k, ⟨a, v⟩⟩) (by simp)
          have hσ' : RankedAnchors rank (register σ ⟨a, v⟩) := by
            cases a with
            | none => exact hσ
            | some a => exact hσ.cons hz (.hash hd)
          obtain ⟨h1, h2⟩ := ih _ (fun d hd => hm d (by simp [hd])) hσ'
          refine ⟨h1, fun k' c hc => ?_⟩
          simp only [hashEntries, List.mem_cons, Prod.mk.injEq] at hc
          rcases hc with ⟨-, rfl⟩ | hc
          · exact .hash hd
          · exact h2 k' c hc
    have := key ds σ (fun _ h => h) hσ
    rw [h] at this
    exact this

section
variable {Γ : Nat → Ty} {g : Nat → Nat} (hg : ∀ n, inputFreeSteps g (Γ n) < g n) (rank : Str → Nat)
include hg

/-- The step lemma with the induction over types done. -/
theorem haltsOn_of_parts {I : Anchors → Prop} {y : Yaml}
    (hres : ∀ σ z, I σ → intoResolved σ y = some z → refOf y ≠ none → HaltsOn Γ I z)
    (hseq : ∀ σ z ys σ', I σ → intoResolved σ y = some z → asSeq σ z = some (ys, σ') →
      I σ' ∧ ∀ c ∈ ys, HaltsOn Γ I c)
    (hmap : ∀ σ z es σ', I σ → intoResolved σ y = some z → asMap σ z = some (es, σ') →
      I σ' ∧ (∀ k c, (k, c) ∈ es → HaltsOn Γ I c) ∧ ∀ s, HaltsOn Γ I (.unquotedString s))
    (htilde : y = tilde ∨ HaltsOn Γ I tilde) : HaltsOn Γ I y := by
  have : ∀ r ty, inputFreeSteps g ty = r → ∀ σ, I σ → Halts I fun n => de Γ n ty y σ := by
    intro r
    induction r using Nat.strongRecOn with
    | ind r ih =>
      rintro ty rfl σ hσ
      exact halts_step hg (fun ty' hlt => ih _ hlt ty' rfl) hres hseq hmap htilde σ hσ
  exact fun ty σ hσ => this _ ty rfl σ hσ

theorem haltsOn_scalar {I : Anchors → Prop} {y : Yaml} {s : Str} (hs : y.asString = some s) : HaltsOn Γ I y := by
  have key : ∀ y : Yaml, (∃ s, y.asString = some s) → (y = tilde ∨ HaltsOn Γ I tilde) → HaltsOn Γ I y := by
    rintro y ⟨s, hs⟩ ht
    have hr : refOf y = none := by cases y <;> simp [Yaml.asString] at hs <;> rfl
    refine haltsOn_of_parts hg (fun _ _ _ _ h => absurd hr h) (fun σ z ys σ' _ hz hq => ?_)
      (fun σ z ys σ' _ hz hq => ?_) ht
    all_goals
      rw [intoResolved_of_refOf hr] at hz
      cases hz
      cases y <;> simp [Yaml.asString] at hs <;> simp [asSeq, asMap] at hq
  exact key y ⟨s, hs⟩ (.inr (key tilde ⟨_, rfl⟩ (.inl rfl)))

/-- Reading a ranked tree ends. -/
theorem haltsOn_ranked (k : Nat) (y : Yaml) (hk : RefsBelow rank k y) (hy : Ranked rank y) :
    HaltsOn Γ (RankedAnchors rank) y := by
  induction k using Nat.strongRecOn generalizing y with
  | ind k ihk =>
    have coll : ∀ y, Ranked rank y → refOf y = none → (∀ c, Child c y → HaltsOn Γ (RankedAnchors rank) c) →
        HaltsOn Γ (RankedAnchors rank) y := by
      intro y hy hr hc
      refine haltsOn_of_parts hg (fun _ _ _ _ h => absurd hr h) (fun σ z ys σ' hσ hz hq => ?_)
        (fun σ z ys σ' hσ hz hq => ?_) (.inr (haltsOn_scalar hg (s := ['~']) rfl))
      all_goals
        rw [intoResolved_of_refOf hr] at hz
        cases hz
      · obtain ⟨h1, h2⟩ := asSeq_ranked hq hσ hy
        exact ⟨h1, fun c hm => hc c (h2 c hm)⟩
      · obtain ⟨h1, h2⟩ := asMap_ranked hq hσ hy
        exact ⟨h1, fun k c hm => hc c (h2 k c hm), fun s => haltsOn_scalar hg rfl⟩
    induction y using Yaml.induct with
    | hIH es ih =>
      refine coll _ hy rfl fun c hc => ?_
      have h1 := hk.child hc
      have h2 := hy.child hc
      cases hc with
      | inlineHash h => exact ih _ _ h h1 h2
    | hH ds ih =>
      refine coll _ hy rfl fun c hc => ?_
      have h1 := hk.child hc
      have h2 := hy.child hc
      cases hc with
      | hash h => exact ih _ _ _ h h1 h2
    | hIA es ih =>
      refine coll _ hy rfl fun c hc => ?_
      have h1 := hk.child hc
      have h2 := hy.child hc
      cases hc with
      | inlineArray h => exact ih _ h h1 h2
    | hA ds ih =>
      refine coll _ hy rfl fun c hc => ?_
      have h1 := hk.child hc
      have h2 := hy.child hc
      cases hc with
      | array h => exact ih _ _ h h1 h2
    | hS ps => exact haltsOn_scalar hg rfl
    | hD ps => exact haltsOn_scalar hg rfl
    | hU s => exact haltsOn_scalar hg rfl
    | hF ls c => exact haltsOn_scalar hg rfl
    | hL ls c => exact haltsOn_scalar hg rfl
    | hN a =>
      have hlt : rank a < k := hk a .self
      have hv : ∀ σ z, RankedAnchors rank σ → intoResolved σ (.anchor a) = some z →
          RefsBelow rank (rank a) z ∧ Ranked rank z := by
        intro σ z hσ hz
        refine hσ a z ?_
        simp only [intoResolved, resolve] at hz
        clear hσ
        induction σ with
        | nil => simp at hz
        | cons p t ih =>
          obtain ⟨b, w⟩ := p
          by_cases hb : a = b
          · subst hb
            simp [List.lookup] at hz
            subst hz
            simp
          · have : (a == b) = false := by simpa using hb
            simp only [List.lookup, this] at hz
            simp [ih hz]
      refine haltsOn_of_parts hg (fun σ z hσ hz _ => ?_) (fun σ z ys σ' hσ hz hq => ?_)
        (fun σ z ys σ' hσ hz hq => ?_) (.inr (haltsOn_scalar hg (s := ['~']) rfl))
      all_goals obtain ⟨hz1, hz2⟩ := hv σ z hσ hz
      · exact ihk _ hlt z hz1 hz2
      · obtain ⟨h1, h2⟩ := asSeq_ranked hq hσ hz2
        exact ⟨h1, fun c hm => ihk _ hlt c (hz1.child (h2 c hm)) (hz2.child (h2 c hm))⟩
      · obtain ⟨h1, h2⟩ := asMap_ranked hq hσ hz2
        exact ⟨h1, fun k c hm => ihk _ hlt c (hz1.child (h2 k c hm)) (hz2.child (h2 k c hm)),
          fun s => haltsOn_scalar hg rfl⟩

end

/-- The references of a tree have bounded ranks. -/
theorem exists_refsBelow (rank : Str → Nat) (y : Yaml) : ∃ k, RefsBelow rank k y := by
  have bound : ∀ (cs : List Yaml), (∀ c ∈ cs, ∃ k, RefsBelow rank k c) → ∃ k, ∀ c ∈ cs, RefsBelow rank k c := by
    intro cs h
    induction cs with
    | nil => exact ⟨0, by simp⟩
    | cons c t ih =>
      obtain ⟨k, hk⟩ := ih fun c hc => h c (by simp [hc])
      obtain ⟨l, hl⟩ := h c (by simp)
      refine ⟨max k l, fun d hd => ?_⟩
      rcases List.mem_cons.1 hd with rfl | hd
      · exact fun b hb => by have := hl b hb; omega
      · exact fun b hb => by have := hk d hd b hb; omega
  have leaf : ∀ y : Yaml, (∀ c, ¬Child c y) → refOf y = none → RefsBelow rank 0 y := by
    intro y hc hr b hb
    unfold RefersTo at hb
    generalize hz : Yaml.anchor b = z at hb
    cases hb with
    | self => subst hz; simp [refOf] at hr
    | step h _ => exact absurd h (hc _)
  have coll : ∀ (y : Yaml) (cs : List Yaml), refOf y = none → (∀ c, Child c y → c ∈ cs) →
      (∀ c ∈ cs, ∃ k, RefsBelow rank k c) → ∃ k, RefsBelow rank k y := by
    intro y cs hr hc h
    obtain ⟨k, hk⟩ := bound cs h
    refine ⟨k, fun b hb => ?_⟩
    unfold RefersTo at hb
    generalize hz : Yaml.anchor b = z at hb
    cases hb with
    | self => subst hz; simp [refOf] at hr
    | step h hw => subst hz; exact hk _ (hc _ h) b hw
  induction y using Yaml.induct with
  | hIH es ih =>
    refine coll _ (es.map fun e => e.2) rfl (fun c hc => ?_) fun c hc => ?_
    · cases hc with | inlineHash h => exact List.mem_map.2 ⟨_, h, rfl⟩
    · obtain ⟨⟨k, v⟩, h, rfl⟩ := List.mem_map.1 hc
      exact ih k v h
  | hH ds ih =>
    refine coll _ (ds.filterMap fun d => match d with | .element e => some e.value.value | _ => none) rfl
      (fun c hc => ?_) fun c hc => ?_
    · cases hc with | hash h => exact List.mem_filterMap.2 ⟨_, h, rfl⟩
    · obtain ⟨d, h, hd⟩ := List.mem_filterMap.1 hc
      match d, hd with
      | .element ⟨k, ⟨a, v⟩⟩, hd => cases hd; exact ih k a v h
  | hIA es ih =>
    refine coll _ es rfl (fun c hc => ?_) fun c hc => ih c hc
    cases hc with | inlineArray h => exact h
  | hA ds ih =>
    refine coll _ (ds.filterMap fun d => match d with | .element e => some e.value | _ => none) rfl
      (fun c hc => ?_) fun c hc => ?_
    · cases hc with | array h => exact List.mem_filterMap.2 ⟨_, h, rfl⟩
    · obtain ⟨d, h, hd⟩ := List.mem_filterMap.1 hc
      match d, hd with
      | .element ⟨a, v⟩, hd => cases hd; exact ih a v h
  | hS ps => exact ⟨0, leaf _ (by nofun) rfl⟩
  | hD ps => exact ⟨0, leaf _ (by nofun) rfl⟩
  | hU s => exact ⟨0, leaf _ (by nofun) rfl⟩
  | hF ls c => exact ⟨0, leaf _ (by nofun) rfl⟩
  | hL ls c => exact ⟨0, leaf _ (by nofun) rfl⟩
  | hN a =>
    refine ⟨rank a + 1, fun b hb => ?_⟩
    unfold RefersTo at hb
    generalize hz : Yaml.anchor b = z at hb
    generalize hz' : Yaml.anchor a = z' at hb
    cases hb with
    | self => rw [← hz'] at hz; cases hz; omega
    | step h _ => subst hz'; cases h

theorem de_halts {Γ : Nat → Ty} (hΓ : Guarded Γ) {y : Yaml} (hy : Acyclic y) (ty : Ty) :
    ∃ n, de Γ n ty y [] ≠ .oof := by
  obtain ⟨g, hg⟩ := hΓ
  obtain ⟨rank, hr⟩ := hy
  obtain ⟨k, hk⟩ := exists_refsBelow rank y
  obtain ⟨n, hn, -⟩ := haltsOn_ranked hg rank k y hk hr ty [] (by nofun)
  exact ⟨n, hn⟩

end YamlSubset
