import Verif.Lemmas.Typed
import Verif.Spec.Anchors

/-! # References and their definitions while deserializing -/

namespace YamlSubset

open Spec

/-- The anchor map as a function. -/
def defsOf (σ : Anchors) : Defs := fun a => resolve σ a

theorem defsOf_cons (σ : Anchors) (a : Str) (v : Yaml) : defsOf ((a, v) :: σ) = (defsOf σ).define a v := by
  funext b
  simp only [defsOf, resolve, Defs.define, List.lookup]
  by_cases h : b = a
  · simp [h]
  · have : (b == a) = false := by simpa using h
    simp [this, h]

theorem seqValues_defs (ds : List ArrayData) (σ : Anchors) :
    (seqValues σ ds).1 = elementsOf ds ∧ defsOf (seqValues σ ds).2 = (defsOf σ).array ds := by
  induction ds generalizing σ with
  | nil => exact ⟨rfl, rfl⟩
  | cons d t ih =>
    match d with
    | .comment _ => exact ih σ
    | .inlineComment _ => exact ih σ
    | .element ⟨none, v⟩ =>
      obtain ⟨h1, h2⟩ := ih (register σ ⟨none, v⟩)
      exact ⟨by simp [seqValues, elementsOf] at h1 ⊢; exact h1, h2⟩
    | .element ⟨some a, v⟩ =>
      obtain ⟨h1, h2⟩ := ih (register σ ⟨some a, v⟩)
      refine ⟨by simp [seqValues, elementsOf] at h1 ⊢; exact h1, ?_⟩
      simp only [seqValues, h2]
      simp only [register, defsOf_cons]
      rfl

theorem hashEntries_defs (ds : List HashData) (σ : Anchors) :
    (hashEntries σ ds).1 = entriesOf ds ∧ defsOf (hashEntries σ ds).2 = (defsOf σ).hash ds := by
  induction ds generalizing σ with
  | nil => exact ⟨rfl, rfl⟩
  | cons d t ih =>
    match d with
    | .comment _ => exact ih σ
    | .inlineComment _ => exact ih σ
    | .element ⟨k, ⟨none, v⟩⟩ =>
      obtain ⟨h1, h2⟩ := ih (register σ ⟨none, v⟩)
      exact ⟨by simp [hashEntries, entriesOf] at h1 ⊢; exact h1, h2⟩
    | .element ⟨k, ⟨some a, v⟩⟩ =>
      obtain ⟨h1, h2⟩ := ih (register σ ⟨some a, v⟩)
      refine ⟨by simp [hashEntries, entriesOf] at h1 ⊢; exact h1, ?_⟩
      simp only [hashEntries, h2]
      simp only [register, defsOf_cons]
      rfl

/-! ## Maps of self-describing values -/

theorem deEntries_any {Γ : Nat → Ty} {n : Nat} (es : List (Str × Yaml)) (σ : Anchors) :
    deEntries (de Γ (n + 1) .str) (de Γ (n + 1) .any) es σ =
      (deElems (de Γ (n + 1) .any) (es.map fun e => e.2) σ).bind fun r =>
        .ok (((es.map fun e => SVal.str e.1).zip r.1), r.2) := by
  induction es generalizing σ with
  | nil => rfl
  | cons e t ih =>
    obtain ⟨k, y⟩ := e
    rw [deEntries_cons]
    have hk : de Γ (n + 1) .str (.unquotedString k) σ = .ok (.str k, σ) := rfl
    simp only [hk, Out.bind_ok, List.map_cons, deElems, Out.bind_assoc, ih]
    rfl

/-- The tree reads as `v`, whatever the anchors. -/
def AnyVal (Γ : Nat → Ty) (v : SVal) (t : Yaml) : Prop := ∃ n, Yields (de Γ n .any) v t

/-- The lists read element by element. -/
inductive AnyVals (Γ : Nat → Ty) : List SVal → List Yaml → Prop
  | nil : AnyVals Γ [] []
  | cons {v vs t ts} (h : AnyVal Γ v t) (hr : AnyVals Γ vs ts) : AnyVals Γ (v :: vs) (t :: ts)

theorem AnyVals.reads {Γ : Nat → Ty} {vs : List SVal} {ts : List Yaml} (h : AnyVals Γ vs ts) :
    ∃ n, ∀ σ, deElems (de Γ n .any) ts σ = .ok (vs, σ) := by
  induction h with
  | nil => exact ⟨0, fun _ => rfl⟩
  | cons h _ ih =>
    rename_i ts _
    obtain ⟨n, hn⟩ := h
    obtain ⟨m, hm⟩ := ih
    refine ⟨max n m, fun σ => ?_⟩
    simp only [deElems, hn.mono (Nat.le_max_left n m) σ, Out.bind_ok]
    have := deElems_le (de_le Γ (Nat.le_max_right n m) .any) ts σ
    rw [hm σ] at this
    rw [this.eq (by nofun)]
    rfl

theorem AnyVals.length {Γ : Nat → Ty} {vs : List SVal} {ts : List Yaml} (h : AnyVals Γ vs ts) :
    vs.length = ts.length := by
  induction h with
  | nil => rfl
  | cons _ _ ih => simp [ih]

theorem AnyVals.array {Γ : Nat → Ty} {vs : List SVal} {ts : List Yaml} (h : AnyVals Γ vs ts) :
    AnyVal Γ (.seq vs) (.inlineArray ts) := by
  obtain ⟨n, hn⟩ := h.reads
  refine ⟨n + 1, fun σ => ?_⟩
  rw [de_any]
  simp [plainOf, refOf, Yaml.asString, asSeq, hn]

theorem AnyVals.hash {Γ : Nat → Ty} {vs : List SVal} {ts : List Yaml} (ks : List Str) (hl : ks.length = ts.length)
    (h : AnyVals Γ vs ts) :
    AnyVal Γ (.map ((ks.map SVal.str).zip vs)) (.inlineHash (ks.zip ts)) := by
  obtain ⟨n, hn⟩ := h.reads
  refine ⟨n + 2, fun σ => ?_⟩
  rw [de_any]
  have h1 : (ks.zip ts).map (fun e => e.2) = ts := List.map_snd_zip (by omega)
  have h2 : (ks.zip ts).map (fun e => SVal.str e.1) = ks.map SVal.str := by
    have : (ks.zip ts).map (fun e => e.1) = ks := List.map_fst_zip (by omega)
    rw [← this, List.map_map]
    rw [this]
    rfl
  have h3 := deElems_le (de_le Γ (Nat.le_succ n) .any) ts σ
  rw [hn σ] at h3
  simp only [plainOf, refOf, Yaml.asString, asSeq, asMap, deEntries_any, h1, h2, h3.eq (by nofun)]
  rfl

theorem Spec.Expand.length {D D' : Defs} {ys ts : List Yaml} (h : Expand D ys ts D') : ys.length = ts.length := by
  induction h <;> simp_all

theorem anyVal_scalar (Γ : Nat → Ty) {y : Yaml} {s : Str} (h : y.asString = some s) :
    ∃ v, ∀ n, Yields (de Γ (n + 1) .any) v y := by
  cases hp : plainOf y with
  | some s' => exact ⟨_, fun n σ => by rw [de_any, hp]⟩
  | none =>
    have hr : refOf y = none := by cases y <;> simp [Yaml.asString] at h <;> rfl
    exact ⟨.str s, fun n σ => by rw [de_any, hp, hr]; simp [h]⟩

theorem elems_mono {Γ : Nat → Ty} {n m : Nat} (h : n ≤ m) {ty : Ty} {ys : List Yaml} {σ : Anchors}
    {r : List SVal × Anchors} (hr : deElems (de Γ n ty) ys σ = .ok r) : deElems (de Γ m ty) ys σ = .ok r := by
  have := deElems_le (de_le Γ h ty) ys σ
  rw [hr] at this
  exact this.eq (by nofun)

/-- Prepending one element to a list that reads. -/
theorem elems_cons {Γ : Nat → Ty} {ty : Ty} {y : Yaml} {ys : List Yaml} {σ σ1 σ' : Anchors} {v : SVal}
    {vs : List SVal} {n m : Nat} (h : de Γ n ty y σ = .ok (v, σ1)) (hr : deElems (de Γ m ty) ys σ1 = .ok (vs, σ')) :
    deElems (de Γ (max n m) ty) (y :: ys) σ = .ok (v :: vs, σ') := by
  have h1 := de_mono Γ (Nat.le_max_left n m) h (by nofun)
  have h2 := elems_mono (Nat.le_max_right n m) hr
  simp [deElems, h1, h2]

/-- An expansion is what the deserializer reads. -/
theorem Spec.Expand.reads (Γ : Nat → Ty) {D D' : Defs} {ys ts : List Yaml} (h : Expand D ys ts D') :
    ∃ vs, AnyVals Γ vs ts ∧ ∀ σ, defsOf σ = D → ∃ n σ', defsOf σ' = D' ∧
      deElems (de Γ n .any) ys σ = .ok (vs, σ') := by
  induction h with
  | nil => exact ⟨[], .nil, fun σ hσ => ⟨0, σ, hσ, rfl⟩⟩
  | scalar h _ ih =>
    obtain ⟨vs, h1, h2⟩ := ih
    obtain ⟨v, hv⟩ := anyVal_scalar Γ h
    refine ⟨v :: vs, .cons ⟨1, hv 0⟩ h1, fun σ hσ => ?_⟩
    obtain ⟨n, σ', h3, h4⟩ := h2 σ hσ
    exact ⟨_, σ', h3, elems_cons (hv 0 σ) h4⟩
  | ref hd _ _ ih1 ih2 =>
    rename_i D D1 D' a w t ys ts _ _
    obtain ⟨us, h1, h2⟩ := ih1
    obtain ⟨vs, h3, h4⟩ := ih2
    cases h1 with
    | cons hu hn =>
      cases hn
      rename_i u
      refine ⟨u :: vs, .cons hu h3, fun σ hσ => ?_⟩
      obtain ⟨n, σ1, h5, h6⟩ := h2 σ hσ
      obtain ⟨m, σ', h7, h8⟩ := h4 σ1 h5
      have h6' : de Γ n .any w σ = .ok (u, σ1) := by
        simp only [deElems] at h6
        obtain ⟨r, hr, h6⟩ := Out.bind_eq_ok.1 h6
        cases h6
        exact hr
      have h9 : de Γ (n + 1) .any (.anchor a) σ = .ok (u, σ1) := by
        have : resolve σ a = some w := by rw [← hσ] at hd; exact hd
        rw [de_any]
        simp only [plainOf, refOf, this, h6']
      exact ⟨_, σ', h7, elems_cons h9 h8⟩
  | inlineArray _ _ ih1 ih2 =>
    rename_i D D1 D' es us ys ts _ _
    obtain ⟨us, h1, h2⟩ := ih1
    obtain ⟨vs, h3, h4⟩ := ih2
    refine ⟨.seq us :: vs, .cons h1.array h3, fun σ hσ => ?_⟩
    obtain ⟨n, σ1, h5, h6⟩ := h2 σ hσ
    obtain ⟨m, σ', h7, h8⟩ := h4 σ1 h5
    have h9 : de Γ (n + 1) .any (.inlineArray es) σ = .ok (.seq us, σ1) := by
      rw [de_any]
      simp only [plainOf, refOf, Yaml.asString, asSeq, h6]
      rfl
    exact ⟨_, σ', h7, elems_cons h9 h8⟩
  | array _ _ ih1 ih2 =>
    rename_i D D1 D' ds us ys ts _ _
    obtain ⟨us, h1, h2⟩ := ih1
    obtain ⟨vs, h3, h4⟩ := ih2
    refine ⟨.seq us :: vs, .cons h1.array h3, fun σ hσ => ?_⟩
    obtain ⟨e1, e2⟩ := seqValues_defs ds σ
    obtain ⟨n, σ1, h5, h6⟩ := h2 (seqValues σ ds).2 (by rw [e2, hσ])
    obtain ⟨m, σ', h7, h8⟩ := h4 σ1 h5
    rw [← e1] at h6
    have h9 : de Γ (n + 1) .any (.array ds) σ = .ok (.seq us, σ1) := by
      rw [de_any]
      simp only [plainOf, refOf, Yaml.asString, asSeq, h6]
      rfl
    exact ⟨_, σ', h7, elems_cons h9 h8⟩
  | inlineHash he _ ih1 ih2 =>
    rename_i D D1 D' es us0 ys ts _
    obtain ⟨us, h1, h2⟩ := ih1
    obtain ⟨vs, h3, h4⟩ := ih2
    have hl := he.length
    refine ⟨_ :: vs, .cons (h1.hash (es.map fun e => e.1) (by simpa using hl)) h3, fun σ hσ => ?_⟩
    obtain ⟨n, σ1, h5, h6⟩ := h2 σ hσ
    obtain ⟨m, σ', h7, h8⟩ := h4 σ1 h5
    refine ⟨_, σ', h7, elems_cons (n := n + 2) ?_ h8⟩
    · rw [de_any]
      simp only [plainOf, refOf, Yaml.asString, asSeq, asMap, deEntries_any, elems_mono (Nat.le_succ n) h6,
        List.map_map]
      rfl
  | hash he _ ih1 ih2 =>
    rename_i D D1 D' ds us0 ys ts _
    obtain ⟨us, h1, h2⟩ := ih1
    obtain ⟨vs, h3, h4⟩ := ih2
    have hl := he.length
    refine ⟨_ :: vs, .cons (h1.hash ((entriesOf ds).map fun e => e.1) (by simpa using hl)) h3, fun σ hσ => ?_⟩
    obtain ⟨e1, e2⟩ := hashEntries_defs ds σ
    obtain ⟨n, σ1, h5, h6⟩ := h2 (hashEntries σ ds).2 (by rw [e2, hσ])
    obtain ⟨m, σ', h7, h8⟩ := h4 σ1 h5
    refine ⟨_, σ', h7, elems_cons (n := n + 2) ?_ h8⟩
    · rw [de_any]
      simp only [plainOf, refOf, Yaml.asString, asSeq, asMap, deEntries_any, e1, elems_mono (Nat.le_succ n) h6,
        List.map_map]
      rfl

/-- What the deserializer reads has an expansion. -/
theorem expand_of_reads {Γ : Nat → Ty} {n : Nat} {ys : List Yaml} {σ σ' : Anchors} {vs : List SVal}
    (h : deElems (de Γ n .any) ys σ = .ok (vs, σ')) : ∃ ts, Expand (defsOf σ) ys ts (defsOf σ') := by
  induction n generalizing ys σ σ' vs with
  | zero =>
    cases ys with
    | nil => cases h; exact ⟨[], .nil⟩
    | cons y t => simp [deElems, de] at h
  | succ n ih =>
    induction ys generalizing σ vs with
    | nil => cases h; exact ⟨[], .nil⟩
    | cons y ys ihy =>
      simp only [deElems] at h
      obtain ⟨⟨v, σ1⟩, h1, h⟩ := Out.bind_eq_ok.1 h
      obtain ⟨⟨us, σ2⟩, h2, h⟩ := Out.bind_eq_ok.1 h
      cases h
      obtain ⟨ts, hts⟩ := ihy h2
      cases hs : y.asString with
      | some s =>
        obtain ⟨w, hw⟩ := anyVal_scalar Γ hs
        rw [hw n σ] at h1
        cases h1
        exact ⟨_, .scalar hs hts⟩
      | none =>
        rw [de_any] at h1
        have entries : ∀ es σ0, (deEntries (de Γ n .str) (de Γ n .any) es σ0).bind
            (fun r => Out.ok (SVal.map r.1, r.2)) = .ok (v, σ1) →
            ∃ us, Expand (defsOf σ0) (es.map fun e => e.2) us (defsOf σ1) := by
          intro es σ0 he
          cases n with
          | zero =>
            cases es with
            | nil => simp [deEntries_nil] at he; rw [he.2]; exact ⟨[], .nil⟩
            | cons e t => obtain ⟨k, z⟩ := e; simp [deEntries_cons, de] at he
          | succ n =>
            rw [deEntries_any, Out.bind_assoc] at he
            obtain ⟨⟨ws, σ2⟩, he', hq⟩ := Out.bind_eq_ok.1 he
            simp only [Out.bind_ok, Out.ok.injEq, Prod.mk.injEq] at hq
            obtain ⟨-, rfl⟩ := hq
            exact ih he'
        cases y <;> simp only [Yaml.asString, reduceCtorEq] at hs <;>
          simp only [plainOf, refOf, Yaml.asString, asSeq, asMap] at h1
        case inlineHash es =>
          obtain ⟨us', h3⟩ := entries es σ h1
          exact ⟨_, .inlineHash h3 hts⟩
        case hash ds =>
          obtain ⟨e1, e2⟩ := hashEntries_defs ds σ
          obtain ⟨us', h3⟩ := entries _ _ h1
          rw [e1, e2] at h3
          exact ⟨_, .hash h3 hts⟩
        case inlineArray es =>
          obtain ⟨⟨ws, σ3⟩, h3, h4⟩ := Out.bind_eq_ok.1 h1
          cases h4
          obtain ⟨us', h5⟩ := ih h3
          exact ⟨_, .inlineArray h5 hts⟩
        case array ds =>
          obtain ⟨e1, e2⟩ := seqValues_defs ds σ
          obtain ⟨⟨ws, σ3⟩, h3, h4⟩ := Out.bind_eq_ok.1 h1
          cases h4
          obtain ⟨us', h5⟩ := ih h3
          rw [e1, e2] at h5
          exact ⟨_, .array h5 hts⟩
        case anchor a =>
          cases hr : resolve σ a with
          | none => simp [hr] at h1
          | some w =>
            simp only [hr] at h1
            have h2 : deElems (de Γ n .any) [w] σ = .ok ([v], σ1) := by simp [deElems, h1]
            obtain ⟨us', h5⟩ := ih h2
            have hl := h5.length
            match us', hl with
            | [u], _ => exact ⟨_, .ref hr h5 hts⟩

/-! ## Names without definition -/

theorem child_of_elementsOf {ds : List ArrayData} {c : Yaml} (h : c ∈ elementsOf ds) : Child c (.array ds) := by
  obtain ⟨d, hd, he⟩ := List.mem_filterMap.1 h
  match d, he with
  | .element ⟨a, v⟩, he => cases he; exact .array hd

theorem elementsOf_of_child {ds : List ArrayData} {c : Yaml} (h : Child c (.array ds)) : c ∈ elementsOf ds := by
  cases h with
  | array h => exact List.mem_filterMap.2 ⟨_, h, rfl⟩

theorem child_of_entriesOf {ds : List HashData} {c : Yaml} (h : c ∈ (entriesOf ds).map fun e => e.2) :
    Child c (.hash ds) := by
  obtain ⟨⟨k, v⟩, h', rfl⟩ := List.mem_map.1 h
  obtain ⟨d, hd, he⟩ := List.mem_filterMap.1 h'
  match d, he with
  | .element ⟨k, ⟨a, v⟩⟩, he => cases he; exact .hash hd

theorem entriesOf_of_child {ds : List HashData} {c : Yaml} (h : Child c (.hash ds)) :
    c ∈ (entriesOf ds).map fun e => e.2 := by
  cases h with
  | hash h => exact List.mem_map.2 ⟨_, List.mem_filterMap.2 ⟨_, h, rfl⟩, rfl⟩

/-- `b` has no definition in `D`, nor in the values there. -/
def Undefined (b : Str) (D : Defs) : Prop := D b = none ∧ ∀ a v, D a = some v → ∀ w, ¬Defines v b w

theorem Undefined.define {b a : Str} {D : Defs} {v : Yaml} (h : Undefined b D) (hne : a ≠ b)
    (hv : ∀ w, ¬Defines v b w) : Undefined b (D.define a v) := by
  refine ⟨?_, fun c w hc => ?_⟩
  · simp [Defs.define, Ne.symm hne, h.1]
  · simp only [Defs.define] at hc
    split at hc
    · cases hc; exact hv
    · exact h.2 c w hc

theorem Undefined.array {b : Str} {D : Defs} (h : Undefined b D) (ds : List ArrayData)
    (hv : ∀ w, ¬Defines (.array ds) b w) : Undefined b (D.array ds) := by
  have key : ∀ (ds' : List ArrayData) D, (∀ d ∈ ds', d ∈ ds) → Undefined b D → Undefined b (D.array ds') := by
    intro ds' D hm h
    induction ds' generalizing D with
    | nil => exact h
    | cons d t ih =>
      have ht : ∀ d ∈ t, d ∈ ds := fun d hd => hm d (by simp [hd])
      match d with
      | .comment _ => exact ih D ht h
      | .inlineComment _ => exact ih D ht h
      | .element ⟨none, v⟩ => exact ih D ht h
      | .element ⟨some a, v⟩ =>
        have hd := hm (.element ⟨some a, v⟩) (by simp)
        refine ih _ ht (h.define ?_ fun w ⟨c, hc, hw⟩ => hv w ⟨c, .step (.array hd) hc, hw⟩)
        rintro rfl
        exact hv v ⟨_, .self, .array hd⟩
  exact key ds D (fun _ h => h) h

theorem Undefined.hash {b : Str} {D : Defs} (h : Undefined b D) (ds : List HashData)
    (hv : ∀ w, ¬Defines (.hash ds) b w) : Undefined b (D.hash ds) := by
  have key : ∀ (ds' : List HashData) D, (∀ d ∈ ds', d ∈ ds) → Undefined b D → Undefined b (D.hash ds') := by
    intro ds' D hm h
    induction ds' generalizing D with
    | nil => exact h
    | cons d t ih =>
      have ht : ∀ d ∈ t, d ∈ ds := fun d hd => hm d (by simp [hd])
      match d with
      | .comment _ => exact ih D ht h
      | .inlineComment _ => exact ih D ht h
      | .element ⟨k, ⟨none, v⟩⟩ => exact ih D ht h
      | .element ⟨k, ⟨some a, v⟩⟩ =>
        have hd := hm (.element ⟨k, ⟨some a, v⟩⟩) (by simp)
        refine ih _ ht (h.define ?_ fun w ⟨c, hc, hw⟩ => hv w ⟨c, .step (.hash hd) hc, hw⟩)
        rintro rfl
        exact hv v ⟨_, .self, .hash hd⟩
  exact key ds D (fun _ h => h) h

theorem Spec.Expand.undefined {b : Str} {D D' : Defs} {ys ts : List Yaml} (h : Expand D ys ts D')
    (hD : Undefined b D) (hy : ∀ y ∈ ys, ∀ w, ¬Defines y b w) : Undefined b D' ∧ ∀ y ∈ ys, ¬RefersTo y b := by
  have coll : ∀ (y : Yaml) (cs : List Yaml), refOf y = none → (∀ c, Child c y → c ∈ cs) →
      (∀ c ∈ cs, ¬RefersTo c b) → ¬RefersTo y b := by
    intro y cs hr hc h hb
    unfold RefersTo at hb
    generalize hz : Yaml.anchor b = z at hb
    cases hb with
    | self => subst hz; simp [refOf] at hr
    | step h1 hw => subst hz; exact h _ (hc _ h1) hw
  have sub : ∀ {y c : Yaml}, Child c y → (∀ w, ¬Defines y b w) → ∀ w, ¬Defines c b w :=
    fun hc hv w ⟨d, hd, hw⟩ => hv w ⟨d, .step hc hd, hw⟩
  induction h with
  | nil => exact ⟨hD, by simp⟩
  | scalar h _ ih =>
    obtain ⟨h1, h2⟩ := ih hD fun y hm => hy y (by simp [hm])
    refine ⟨h1, fun y hm => ?_⟩
    rcases List.mem_cons.1 hm with rfl | hm
    · refine coll _ [] (by cases y <;> simp [Yaml.asString] at h <;> rfl) (fun c hc => ?_) (by simp)
      cases hc <;> simp [Yaml.asString] at h
    · exact h2 y hm
  | ref hd _ _ ih1 ih2 =>
    rename_i D D1 D' a v t ys ts _ _
    obtain ⟨h1, h2⟩ := ih1 hD fun y hm => by simp at hm; subst hm; exact hD.2 a _ hd
    obtain ⟨h3, h4⟩ := ih2 h1 fun y hm => hy y (by simp [hm])
    refine ⟨h3, fun y hm => ?_⟩
    rcases List.mem_cons.1 hm with rfl | hm
    · intro hb
      unfold RefersTo at hb
      generalize hz : Yaml.anchor b = z at hb
      generalize hz' : Yaml.anchor a = z' at hb
      cases hb with
      | self => rw [← hz'] at hz; cases hz; rw [hD.1] at hd; cases hd
      | step h _ => subst hz'; cases h
    · exact h4 y hm
  | inlineArray _ _ ih1 ih2 =>
    rename_i D D1 D' es us ys ts _ _
    have hv := hy (.inlineArray es) (by simp)
    obtain ⟨h1, h2⟩ := ih1 hD fun y hm => sub (.inlineArray hm) hv
    obtain ⟨h3, h4⟩ := ih2 h1 fun y hm => hy y (by simp [hm])
    refine ⟨h3, fun y hm => ?_⟩
    rcases List.mem_cons.1 hm with rfl | hm
    · exact coll _ es rfl (fun c hc => by cases hc; assumption) h2
    · exact h4 y hm
  | array _ _ ih1 ih2 =>
    rename_i D D1 D' ds us ys ts _ _
    have hv := hy (.array ds) (by simp)
    obtain ⟨h1, h2⟩ := ih1 (hD.array ds hv) fun y hm => sub (child_of_elementsOf hm) hv
    obtain ⟨h3, h4⟩ := ih2 h1 fun y hm => hy y (by simp [hm])
    refine ⟨h3, fun y hm => ?_⟩
    rcases List.mem_cons.1 hm with rfl | hm
    · exact coll _ _ rfl (fun c hc => elementsOf_of_child hc) h2
    · exact h4 y hm
  | inlineHash _ _ ih1 ih2 =>
    rename_i D D1 D' es us ys ts _ _
    have hv := hy (.inlineHash es) (by simp)
    obtain ⟨h1, h2⟩ := ih1 hD fun y hm => by
      obtain ⟨⟨k, v⟩, hm', rfl⟩ := List.mem_map.1 hm
      exact sub (.inlineHash hm') hv
    obtain ⟨h3, h4⟩ := ih2 h1 fun y hm => hy y (by simp [hm])
    refine ⟨h3, fun y hm => ?_⟩
    rcases List.mem_cons.1 hm with rfl | hm
    · exact coll _ _ rfl (fun c hc => by cases hc with | inlineHash h => exact List.mem_map.2 ⟨_, h, rfl⟩) h2
    · exact h4 y hm
  | hash _ _ ih1 ih2 =>
    rename_i D D1 D' ds us ys ts _ _
    have hv := hy (.hash ds) (by simp)
    obtain ⟨h1, h2⟩ := ih1 (hD.hash ds hv) fun y hm => sub (child_of_entriesOf hm) hv
    obtain ⟨h3, h4⟩ := ih2 h1 fun y hm => hy y (by simp [hm])
    refine ⟨h3, fun y hm => ?_⟩
    rcases List.mem_cons.1 hm with rfl | hm
    · exact coll _ _ rfl (fun c hc => entriesOf_of_child hc) h2
    · exact h4 y hm

/-! ## References at other types -/

/-- A reference reads, at every type, as the value of its current definition. -/
theorem de_ref (Γ : Nat → Ty) (n : Nat) (ty : Ty) {a : Str} {v : Yaml} {σ : Anchors} (hr : resolve σ a = some v)
    (hv : refOf v = none) : Out.Le (de Γ n ty v σ) (de Γ (n + 1) ty (.anchor a) σ) := by
  have hi : intoResolved σ (.anchor a) = intoResolved σ v := by
    rw [intoResolved_of_refOf hv]
    exact hr
  have ha : ∀ ty, ty ≠ .any → (∀ n, ty ≠ .ref n) → (∀ t, ty ≠ .newtype t) → ty ≠ .ignored → ∀ n,
      de Γ (n + 1) ty (.anchor a) σ = de Γ (n + 1) ty v σ := by
    intro ty h1 h2 h3 h4 n
    cases ty <;> first | exact absurd rfl h1 | exact absurd rfl (h2 _) | exact absurd rfl (h3 _) |
      exact absurd rfl h4 | skip
    case option t => rw [de_option, de_option, hi]
    all_goals simp only [de, deTupleNode, deStruct, hi]
  induction n generalizing ty with
  | zero => exact .inl rfl
  | succ n ih =>
    by_cases h1 : ty = .any
    · subst h1
      have : de Γ (n + 1 + 1) .any (.anchor a) σ = de Γ (n + 1) .any v σ := by
        rw [de_any]
        simp [plainOf, refOf, hr]
      rw [this]
      exact .refl _
    by_cases h2 : ty = .ignored
    · subst h2
      simp only [de]
      exact .refl _
    cases ty
    case ref m => simp only [de]; exact ih (Γ m)
    case newtype t => simp only [de]; exact (ih t).bind fun _ => .refl _
    all_goals
      rw [ha _ h1 (by nofun) (by nofun) h2]
      exact de_le Γ (Nat.le_succ _) _ _ _

end YamlSubset
