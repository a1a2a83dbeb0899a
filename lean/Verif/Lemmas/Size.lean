import Verif.Lemmas.DeAnchors
import Verif.Lemmas.DeHalt
import Verif.Spec.Size
import Verif.Spec.Visible

/-! # Sizes of trees and of the values read from them -/

namespace YamlSubset

open Spec

/-! ## Parts of a tree -/

theorem treeSize_pos (y : Yaml) : 1 ≤ treeSize y := by
  cases y <;> simp [treeSize]

theorem flowEntriesSize_eq (es : List (Str × Yaml)) : flowEntriesSize es = treesSize (es.map fun e => e.2) := by
  induction es with
  | nil => rfl
  | cons e t ih => simp [flowEntriesSize, treesSize, ih]

theorem entriesSize_eq (ds : List HashData) : entriesSize ds = treesSize ((entriesOf ds).map fun e => e.2) := by
  induction ds with
  | nil => rfl
  | cons d t ih =>
    match d with
    | .comment _ => exact ih
    | .inlineComment _ => exact ih
    | .element ⟨k, ⟨a, v⟩⟩ =>
      simp only [entriesSize, ih]
      rfl

theorem elementsSize_eq (ds : List ArrayData) : elementsSize ds = treesSize (elementsOf ds) := by
  induction ds with
  | nil => rfl
  | cons d t ih =>
    match d with
    | .comment _ => exact ih
    | .inlineComment _ => exact ih
    | .element ⟨a, v⟩ =>
      simp only [elementsSize, ih]
      rfl

theorem treesSize_zip {ks : List Str} {us : List Yaml} (h : us.length ≤ ks.length) :
    flowEntriesSize (ks.zip us) = treesSize us := by
  rw [flowEntriesSize_eq]
  congr 1
  exact List.map_snd_zip h

theorem treesSize_mem {y : Yaml} {ys : List Yaml} (h : y ∈ ys) : treeSize y ≤ treesSize ys := by
  induction ys with
  | nil => cases h
  | cons z t ih =>
    simp only [treesSize]
    rcases List.mem_cons.1 h with rfl | h
    · omega
    · have := ih h
      omega

theorem treeSize_child {c y : Yaml} (h : Child c y) : treeSize c < treeSize y := by
  cases h with
  | inlineHash h =>
    simp only [treeSize, flowEntriesSize_eq]
    have : c ∈ List.map (fun e : Str × Yaml => e.2) _ := List.mem_map.2 ⟨(_, c), h, rfl⟩
    have := treesSize_mem this
    omega
  | @hash ds k a v h =>
    simp only [treeSize, entriesSize_eq]
    have : c ∈ (entriesOf ds).map fun e => e.2 := by
      refine List.mem_map.2 ⟨(k, c), ?_, rfl⟩
      exact List.mem_filterMap.2 ⟨_, h, rfl⟩
    have := treesSize_mem this
    omega
  | inlineArray h =>
    simp only [treeSize]
    have := treesSize_mem h
    omega
  | array h =>
    simp only [treeSize, elementsSize_eq]
    have : c ∈ elementsOf _ := List.mem_filterMap.2 ⟨_, h, rfl⟩
    have := treesSize_mem this
    omega

theorem treeSize_within {c y : Yaml} (h : Within c y) : treeSize c ≤ treeSize y := by
  induction h with
  | self => exact Nat.le_refl _
  | step hc _ ih =>
    have := treeSize_child hc
    omega

/-! ## Values have the size of the expanded tree -/

theorem mapSize_zip {ks : List SVal} {vs : List SVal} (h : vs.length ≤ ks.length) :
    mapSize (ks.zip vs) = valuesSize vs := by
  induction vs generalizing ks with
  | nil => simp [mapSize, valuesSize]
  | cons v t ih =>
    cases ks with
    | nil => simp at h
    | cons k ks =>
      simp only [List.zip_cons_cons, mapSize, valuesSize]
      rw [ih (by simpa using h)]

theorem valueSize_plain (s : Str) : valueSize (deAnyPlain s) = 1 := by
  unfold deAnyPlain
  repeat' split
  all_goals rfl

theorem scalar_size {Γ : Nat → Ty} {y : Yaml} {s : Str} {n : Nat} {σ σ' : Anchors} {v : SVal} (h : y.asString = some s)
    (hv : de Γ (n + 1) .any y σ = .ok (v, σ')) : valueSize v = treeSize y ∧ σ' = σ := by
  have h1 : treeSize y = 1 := by cases y <;> simp [Yaml.asString] at h <;> rfl
  rw [h1]
  rw [de_any] at hv
  cases hp : plainOf y with
  | some t =>
    rw [hp] at hv
    cases hv
    exact ⟨valueSize_plain t, rfl⟩
  | none =>
    have hr : refOf y = none := by cases y <;> simp [Yaml.asString] at h <;> rfl
    simp only [hp, hr, h] at hv
    cases hv
    exact ⟨rfl, rfl⟩

theorem elems_length {f : DeFn} {ys : List Yaml} {σ σ' : Anchors} {vs : List SVal}
    (h : deElems f ys σ = .ok (vs, σ')) : vs.length = ys.length := by
  induction ys generalizing σ vs with
  | nil => cases h; rfl
  | cons y t ih =>
    simp only [deElems] at h
    obtain ⟨⟨v, σ1⟩, h1, h⟩ := Out.bind_eq_ok.1 h
    obtain ⟨⟨us, σ2⟩, h2, h⟩ := Out.bind_eq_ok.1 h
    cases h
    simp [ih h2]

/-- What the deserializer reads has an expansion of the same size. -/
theorem expand_size {Γ : Nat → Ty} {n : Nat} {ys : List Yaml} {σ σ' : Anchors} {vs : List SVal}
    (h : deElems (de Γ n .any) ys σ = .ok (vs, σ')) :
    ∃ ts, Expand (defsOf σ) ys ts (defsOf σ') ∧ valuesSize vs = treesSize ts := by
  induction n generalizing ys σ σ' vs with
  | zero =>
    cases ys with
    | nil => cases h; exact ⟨[], .nil, rfl⟩
    | cons y t => simp [deElems, de] at h
  | succ n ih =>
    induction ys generalizing σ vs with
    | nil => cases h; exact ⟨[], .nil, rfl⟩
    | cons y ys ihy =>
      simp only [deElems] at h
      obtain ⟨⟨v, σ1⟩, h1, h⟩ := Out.bind_eq_ok.1 h
      obtain ⟨⟨us, σ2⟩, h2, h⟩ := Out.bind_eq_ok.1 h
      cases h
      obtain ⟨ts, hts, hsz⟩ := ihy h2
      simp only [valuesSize]
      cases hs : y.asString with
      | some s =>
        obtain ⟨hv, rfl⟩ := scalar_size hs h1
        exact ⟨_, .scalar hs hts, by simp [treesSize, hv, hsz]⟩
      | none =>
        rw [de_any] at h1
        have entries : ∀ es σ0, (deEntries (de Γ n .str) (de Γ n .any) es σ0).bind
            (fun r => Out.ok (SVal.map r.1, r.2)) = .ok (v, σ1) →
            ∃ us, Expand (defsOf σ0) (es.map fun e => e.2) us (defsOf σ1) ∧ valueSize v = treesSize us + 1 := by
          intro es σ0 he
          cases n with
          | zero =>
            cases es with
            | nil =>
              simp only [deEntries_nil, Out.bind_ok, Out.ok.injEq, Prod.mk.injEq] at he
              obtain ⟨rfl, rfl⟩ := he
              exact ⟨[], .nil, rfl⟩
            | cons e t => obtain ⟨k, z⟩ := e; simp [deEntries_cons, de] at he
          | succ n =>
            rw [deEntries_any, Out.bind_assoc] at he
            obtain ⟨⟨ws, σ2⟩, he', hq⟩ := Out.bind_eq_ok.1 he
            simp only [Out.bind_ok, Out.ok.injEq, Prod.mk.injEq] at hq
            obtain ⟨rfl, rfl⟩ := hq
            obtain ⟨us, hu, hz⟩ := ih he'
            refine ⟨us, hu, ?_⟩
            have hl := elems_length he'
            simp only [valueSize]
            rw [mapSize_zip (by simp at hl ⊢; omega), hz]
        have zipped : ∀ {D D' : Defs} {es : List (Str × Yaml)} {us : List Yaml},
            Expand D (es.map fun e => e.2) us D' → valueSize v = treesSize us + 1 →
            valueSize v = treeSize (.inlineHash ((es.map fun e => e.1).zip us)) := by
          intro D D' es us hu hz
          have hl := hu.length
          simp only [treeSize]
          rw [treesSize_zip (by simp at hl ⊢; omega), hz]
        cases y <;> simp only [Yaml.asString, reduceCtorEq] at hs <;>
          simp only [plainOf, refOf, Yaml.asString, asSeq, asMap] at h1
        case inlineHash es =>
          obtain ⟨us', h3, hz⟩ := entries es σ h1
          exact ⟨_, .inlineHash h3 hts, by simp only [treesSize, hsz, ← zipped h3 hz]⟩
        case hash ds =>
          obtain ⟨e1, e2⟩ := hashEntries_defs ds σ
          obtain ⟨us', h3, hz⟩ := entries _ _ h1
          rw [e1, e2] at h3
          exact ⟨_, .hash h3 hts, by simp only [treesSize, hsz, ← zipped h3 hz]⟩
        case inlineArray es =>
          obtain ⟨⟨ws, σ3⟩, h3, h4⟩ := Out.bind_eq_ok.1 h1
          cases h4
          obtain ⟨us', h5, hz⟩ := ih h3
          exact ⟨_, .inlineArray h5 hts, by simp only [treesSize, hsz, treeSize, valueSize, hz]⟩
        case array ds =>
          obtain ⟨e1, e2⟩ := seqValues_defs ds σ
          obtain ⟨⟨ws, σ3⟩, h3, h4⟩ := Out.bind_eq_ok.1 h1
          cases h4
          obtain ⟨us', h5, hz⟩ := ih h3
          rw [e1, e2] at h5
          exact ⟨_, .array h5 hts, by simp only [treesSize, hsz, treeSize, valueSize, hz]⟩
        case anchor a =>
          cases hr : resolve σ a with
          | none => simp [hr] at h1
          | some w =>
            simp only [hr] at h1
            have h2 : deElems (de Γ n .any) [w] σ = .ok ([v], σ1) := by simp [deElems, h1]
            obtain ⟨us', h5, hz⟩ := ih h2
            have hl := h5.length
            match us', hl with
            | [u], _ =>
              simp only [valuesSize, treesSize, Nat.add_zero] at hz
              exact ⟨_, .ref hr h5 hts, by simp only [treesSize, hsz, hz]⟩

theorem fromYaml_size {Γ : Nat → Ty} {n : Nat} {y : Yaml} {v : SVal} (h : fromYaml Γ n .any y = .ok v) :
    ∃ t, ExpandsTo y t ∧ valueSize v = treeSize t := by
  unfold fromYaml at h
  obtain ⟨⟨u, σ'⟩, h1, h2⟩ := Out.bind_eq_ok.1 h
  cases h2
  obtain ⟨ts, h3, hz⟩ := expand_size (Γ := Γ) (n := n) (ys := [y]) (σ := []) (vs := [u]) (σ' := σ') (by simp [deElems, h1])
  have hl := h3.length
  match ts, hl with
  | [t], _ =>
    simp only [valuesSize, treesSize, Nat.add_zero] at hz
    exact ⟨t, ⟨_, h3⟩, hz⟩

/-- The expansion is unique. -/
theorem Spec.Expand.unique {D D1 D2 : Defs} {ys ts us : List Yaml} (h1 : Expand D ys ts D1) (h2 : Expand D ys us D2) :
    ts = us ∧ D1 = D2 := by
  induction h1 generalizing us D2 with
  | nil => cases h2; exact ⟨rfl, rfl⟩
  | scalar h _ ih =>
    cases h2 with
    | scalar h' hr =>
      obtain ⟨rfl, rfl⟩ := ih hr
      exact ⟨rfl, rfl⟩
    | _ => simp [Yaml.asString] at h
  | ref hd _ _ ih1 ih2 =>
    cases h2 with
    | scalar h' hr => simp [Yaml.asString] at h'
    | ref hd' h hr =>
      rw [hd] at hd'
      cases hd'
      obtain ⟨e, rfl⟩ := ih1 h
      cases e
      obtain ⟨rfl, rfl⟩ := ih2 hr
      exact ⟨rfl, rfl⟩
  | inlineArray _ _ ih1 ih2 =>
    cases h2 with
    | scalar h' hr => simp [Yaml.asString] at h'
    | inlineArray h hr =>
      obtain ⟨rfl, rfl⟩ := ih1 h
      obtain ⟨rfl, rfl⟩ := ih2 hr
      exact ⟨rfl, rfl⟩
  | array _ _ ih1 ih2 =>
    cases h2 with
    | scalar h' hr => simp [Yaml.asString] at h'
    | array h hr =>
      obtain ⟨rfl, rfl⟩ := ih1 h
      obtain ⟨rfl, rfl⟩ := ih2 hr
      exact ⟨rfl, rfl⟩
  | inlineHash _ _ ih1 ih2 =>
    cases h2 with
    | scalar h' hr => simp [Yaml.asString] at h'
    | inlineHash h hr =>
      obtain ⟨rfl, rfl⟩ := ih1 h
      obtain ⟨rfl, rfl⟩ := ih2 hr
      exact ⟨rfl, rfl⟩
  | hash _ _ ih1 ih2 =>
    cases h2 with
    | scalar h' hr => simp [Yaml.asString] at h'
    | hash h hr =>
      obtain ⟨rfl, rfl⟩ := ih1 h
      obtain ⟨rfl, rfl⟩ := ih2 hr
      exact ⟨rfl, rfl⟩

theorem expandsTo_unique {y t u : Yaml} (h1 : ExpandsTo y t) (h2 : ExpandsTo y u) : t = u := by
  obtain ⟨_, h1⟩ := h1
  obtain ⟨_, h2⟩ := h2
  have := (h1.unique h2).1
  cases this
  rfl

/-! ## Trees without references -/

theorem Spec.Expand.size_eq {D D' : Defs} {ys ts : List Yaml} (h : Expand D ys ts D')
    (hr : ∀ y ∈ ys, ∀ b, ¬RefersTo y b) : treesSize ts = treesSize ys := by
  induction h with
  | nil => rfl
  | scalar h _ ih => simp only [treesSize, ih fun y hy => hr y (by simp [hy])]
  | @ref D D1 D' a v t ys ts hd h hr' ih1 ih2 => exact absurd .self (hr (.anchor a) (by simp) a)
  | inlineArray h h' ih1 ih2 =>
    simp only [treesSize, treeSize, ih2 fun y hy => hr y (by simp [hy])]
    rw [ih1 fun y hy b hb => hr _ (by simp) b (.step (.inlineArray hy) hb)]
  | array h h' ih1 ih2 =>
    simp only [treesSize, treeSize, ih2 fun y hy => hr y (by simp [hy])]
    rw [ih1 fun y hy b hb => hr _ (by simp) b (.step (child_of_elementsOf hy) hb), elementsSize_eq]
  | inlineHash h h' ih1 ih2 =>
    simp only [treesSize, treeSize, ih2 fun y hy => hr y (by simp [hy])]
    have hl := h.length
    rw [treesSize_zip (by simp at hl ⊢; omega), ih1, flowEntriesSize_eq]
    intro y hy b hb
    obtain ⟨⟨k, y⟩, he, rfl⟩ := List.mem_map.1 hy
    exact hr _ (by simp) b (.step (.inlineHash he) hb)
  | hash h h' ih1 ih2 =>
    simp only [treesSize, treeSize, ih2 fun y hy => hr y (by simp [hy])]
    have hl := h.length
    rw [treesSize_zip (by simp at hl ⊢; omega), ih1, entriesSize_eq]
    exact fun y hy b hb => hr _ List.mem_cons_self b (.step (child_of_entriesOf hy) hb)

/-! ## The bound for acyclic definitions -/

theorem within_trans {c d e : Yaml} (h1 : Within c d) (h2 : Within d e) : Within c e := by
  induction h2 with
  | self => exact h1
  | step hc _ ih => exact .step hc ih

theorem array_defs {D : Defs} {ds : List ArrayData} {a : Str} {v : Yaml} (h : D.array ds a = some v) :
    D a = some v ∨ DirectDef (.array ds) a v := by
  induction ds generalizing D with
  | nil => exact .inl h
  | cons d t ih =>
    have lift : DirectDef (.array t) a v → DirectDef (.array (d :: t)) a v := by
      intro h
      cases h with
      | array h => exact .array (List.mem_cons_of_mem _ h)
    match d with
    | .comment _ => exact (ih h).imp id lift
    | .inlineComment _ => exact (ih h).imp id lift
    | .element ⟨none, w⟩ => exact (ih h).imp id lift
    | .element ⟨some b, w⟩ =>
      rcases ih h with h | h
      · simp only [Defs.define] at h
        split at h
        · rename_i e
          cases h
          subst e
          exact .inr (.array (by simp))
        · exact .inl h
      · exact .inr (lift h)

theorem hash_defs {D : Defs} {ds : List HashData} {a : Str} {v : Yaml} (h : D.hash ds a = some v) :
    D a = some v ∨ DirectDef (.hash ds) a v := by
  induction ds generalizing D with
  | nil => exact .inl h
  | cons d t ih =>
    have lift : DirectDef (.hash t) a v → DirectDef (.hash (d :: t)) a v := by
      intro h
      cases h with
      | hash h => exact .hash (List.mem_cons_of_mem _ h)
    match d with
    | .comment _ => exact (ih h).imp id lift
    | .inlineComment _ => exact (ih h).imp id lift
    | .element ⟨k, ⟨none, w⟩⟩ => exact (ih h).imp id lift
    | .element ⟨k, ⟨some b, w⟩⟩ =>
      rcases ih h with h | h
      · simp only [Defs.define] at h
        split at h
        · rename_i e
          cases h
          subst e
          exact .inr (.hash (k := k) (by simp))
        · exact .inl h
      · exact .inr (lift h)

theorem pow_pos' {N : Nat} (h : 1 ≤ N) (k : Nat) : 1 ≤ N ^ k := Nat.pow_pos h

/-- Expanding multiplies the size at most by `N` for each level of references. -/
theorem Spec.Expand.size_le {Y : Yaml} {rank : Str → Nat}
    (hrank : ∀ a v b w, Defines Y a v → RefersTo v b → Defines Y b w → rank b < rank a)
    {D D' : Defs} {ys ts : List Yaml} (h : Expand D ys ts D') (hD : ∀ a v, D a = some v → Defines Y a v)
    (hY : ∀ y ∈ ys, Within y Y) :
    (∀ a v, D' a = some v → Defines Y a v) ∧
      ∀ k, (∀ y ∈ ys, ∀ b w, RefersTo y b → Defines Y b w → rank b < k) → treesSize ts ≤ treesSize ys * treeSize Y ^ k := by
  have hN := treeSize_pos Y
  have node : ∀ {k a b c d : Nat}, a ≤ b * treeSize Y ^ k → c ≤ d * treeSize Y ^ k →
      (a + 1) + c ≤ ((b + 1) + d) * treeSize Y ^ k := by
    intro k a b c d h1 h2
    have := pow_pos' hN k
    rw [Nat.add_mul, Nat.add_mul]
    omega
  induction h with
  | nil => exact ⟨hD, fun k _ => by simp [treesSize]⟩
  | @scalar D D' y s ys ts h _ ih =>
    obtain ⟨h1, h2⟩ := ih hD fun y hy => hY y (by simp [hy])
    refine ⟨h1, fun k hk => ?_⟩
    have := h2 k fun y hy => hk y (by simp [hy])
    have h3 : treeSize y = 1 := by cases y <;> simp [Yaml.asString] at h <;> rfl
    simp only [treesSize, h3]
    have := node (k := k) (a := 0) (b := 0) (by omega) this
    simpa using this
  | @ref D D1 D' a v t ys ts hd h _ ih1 ih2 =>
    have hdef := hD _ _ hd
    obtain ⟨c, hc, hcd⟩ := hdef
    have hv : Within v Y := within_trans (.step (child_of_def hcd) .self) hc
    obtain ⟨h1, h2⟩ := ih1 hD (by simpa using hv)
    obtain ⟨h3, h4⟩ := ih2 h1 fun y hy => hY y (by simp [hy])
    refine ⟨h3, fun k hk => ?_⟩
    have hak : rank a < k := hk (.anchor a) (by simp) a v .self ⟨c, hc, hcd⟩
    have e1 := h2 (rank a) (by simpa using fun b w hb hw => hrank a v b w ⟨c, hc, hcd⟩ hb hw)
    have e2 := h4 k fun y hy => hk y (by simp [hy])
    simp only [treesSize, Nat.add_zero, treeSize] at e1 ⊢
    have e3 : treeSize v * treeSize Y ^ rank a ≤ treeSize Y ^ k := by
      refine Nat.le_trans (Nat.mul_le_mul_right _ (treeSize_within hv)) ?_
      rw [Nat.mul_comm, ← Nat.pow_succ]
      exact Nat.pow_le_pow_right hN hak
    rw [Nat.add_mul]
    omega
  | @inlineArray D D1 D' es us ys ts h _ ih1 ih2 =>
    obtain ⟨h1, h2⟩ := ih1 hD fun y hy => within_trans (.step (.inlineArray hy) .self) (hY _ (by simp))
    obtain ⟨h3, h4⟩ := ih2 h1 fun y hy => hY y (by simp [hy])
    refine ⟨h3, fun k hk => ?_⟩
    simp only [treesSize, treeSize]
    exact node (h2 k fun y hy b w hb => hk _ (by simp) b w (.step (.inlineArray hy) hb))
      (h4 k fun y hy => hk y (by simp [hy]))
  | @array D D1 D' ds us ys ts h _ ih1 ih2 =>
    have hw := hY (.array ds) (by simp)
    obtain ⟨h1, h2⟩ := ih1 (fun a v hav => (array_defs hav).elim (hD a v) fun hd => ⟨_, hw, hd⟩)
      fun y hy => within_trans (.step (child_of_elementsOf hy) .self) hw
    obtain ⟨h3, h4⟩ := ih2 h1 fun y hy => hY y (by simp [hy])
    refine ⟨h3, fun k hk => ?_⟩
    simp only [treesSize, treeSize, elementsSize_eq]
    exact node (h2 k fun y hy b w hb => hk _ (by simp) b w (.step (child_of_elementsOf hy) hb))
      (h4 k fun y hy => hk y (by simp [hy]))
  | @inlineHash D D1 D' es us ys ts h _ ih1 ih2 =>
    have hch : ∀ y ∈ es.map fun e => e.2, Child y (.inlineHash es) := by
      intro y hy
      obtain ⟨⟨k, y⟩, he, rfl⟩ := List.mem_map.1 hy
      exact .inlineHash he
    obtain ⟨h1, h2⟩ := ih1 hD fun y hy => within_trans (.step (hch y hy) .self) (hY _ (by simp))
    obtain ⟨h3, h4⟩ := ih2 h1 fun y hy => hY y (by simp [hy])
    refine ⟨h3, fun k hk => ?_⟩
    have hl := h.length
    simp only [treesSize, treeSize]
    rw [treesSize_zip (by simp at hl ⊢; omega), flowEntriesSize_eq]
    exact node (h2 k fun y hy b w hb => hk _ (by simp) b w (.step (hch y hy) hb))
      (h4 k fun y hy => hk y (by simp [hy]))
  | @hash D D1 D' ds us ys ts h _ ih1 ih2 =>
    have hw := hY (.hash ds) (by simp)
    have hch : ∀ y ∈ (entriesOf ds).map fun e => e.2, Child y (.hash ds) := by
      exact fun y hy => child_of_entriesOf hy
    obtain ⟨h1, h2⟩ := ih1 (fun a v hav => (hash_defs hav).elim (hD a v) fun hd => ⟨_, hw, hd⟩)
      fun y hy => within_trans (.step (hch y hy) .self) hw
    obtain ⟨h3, h4⟩ := ih2 h1 fun y hy => hY y (by simp [hy])
    refine ⟨h3, fun k hk => ?_⟩
    have hl := h.length
    simp only [treesSize, treeSize]
    rw [treesSize_zip (by simp at hl ⊢; omega), entriesSize_eq]
    exact node (h2 k fun y hy b w hb => hk _ (by simp) b w (.step (hch y hy) hb))
      (h4 k fun y hy => hk y (by simp [hy]))

/-! ## The number of definitions bounds the levels -/

theorem treesNames_mem {y : Yaml} {ys : List Yaml} (h : y ∈ ys) {a : Str} (ha : a ∈ anchorNames y) : a ∈ treesNames ys := by
  induction ys with
  | nil => cases h
  | cons z t ih =>
    simp only [treesNames, List.mem_append]
    rcases List.mem_cons.1 h with rfl | h
    · exact .inl ha
    · exact .inr (ih h)

theorem flowNames_mem {k : Str} {y : Yaml} {es : List (Str × Yaml)} (h : (k, y) ∈ es) {a : Str} (ha : a ∈ anchorNames y) :
    a ∈ flowEntriesNames es := by
  induction es with
  | nil => cases h
  | cons z t ih =>
    obtain ⟨k', y'⟩ := z
    simp only [flowEntriesNames, List.mem_append]
    rcases List.mem_cons.1 h with e | h
    · cases e; exact .inl ha
    · exact .inr (ih h)

theorem entriesNames_mem {k : Str} {n : Option Str} {y : Yaml} {ds : List HashData}
    (h : HashData.element ⟨k, ⟨n, y⟩⟩ ∈ ds) {a : Str} (ha : a ∈ anchorNames y ∨ n = some a) : a ∈ entriesNames ds := by
  induction ds with
  | nil => cases h
  | cons d t ih =>
    rcases List.mem_cons.1 h with e | h
    · subst e
      simp only [entriesNames, List.mem_append, Option.mem_toList]
      rcases ha with ha | ha
      · exact .inl (.inr ha)
      · exact .inl (.inl ha)
    · have := ih h
      match d with
      | .comment _ => exact this
      | .inlineComment _ => exact this
      | .element ⟨_, ⟨_, _⟩⟩ => exact List.mem_append_right _ this

theorem elementsNames_mem {n : Option Str} {y : Yaml} {ds : List ArrayData}
    (h : ArrayData.element ⟨n, y⟩ ∈ ds) {a : Str} (ha : a ∈ anchorNames y ∨ n = some a) : a ∈ elementsNames ds := by
  induction ds with
  | nil => cases h
  | cons d t ih =>
    rcases List.mem_cons.1 h with e | h
    · subst e
      simp only [elementsNames, List.mem_append, Option.mem_toList]
      rcases ha with ha | ha
      · exact .inl (.inr ha)
      · exact .inl (.inl ha)
    · have := ih h
      match d with
      | .comment _ => exact this
      | .inlineComment _ => exact this
      | .element ⟨_, _⟩ => exact List.mem_append_right _ this

theorem anchorNames_child {c y : Yaml} (h : Child c y) {a : Str} (ha : a ∈ anchorNames c) : a ∈ anchorNames y := by
  cases h with
  | inlineHash h => exact flowNames_mem h ha
  | hash h => exact entriesNames_mem h (.inl ha)
  | inlineArray h => exact treesNames_mem h ha
  | array h => exact elementsNames_mem h (.inl ha)

theorem anchorNames_of_defines {y : Yaml} {a : Str} {v : Yaml} (h : Defines y a v) : a ∈ anchorNames y := by
  obtain ⟨c, hc, hd⟩ := h
  induction hc with
  | self =>
    cases hd with
    | hash h => exact entriesNames_mem h (.inr rfl)
    | array h => exact elementsNames_mem h (.inr rfl)
  | step hch _ ih => exact anchorNames_child hch ih

theorem countP_lt {α : Type} {p q : α → Bool} {l : List α} (hpq : ∀ x ∈ l, p x = true → q x = true) {z : α} (hz : z ∈ l)
    (hp : p z = false) (hq : q z = true) : l.countP p < l.countP q := by
  induction l with
  | nil => cases hz
  | cons x t ih =>
    have mono : t.countP p ≤ t.countP q := List.countP_mono_left fun y hy => hpq y (by simp [hy])
    simp only [List.countP_cons]
    rcases List.mem_cons.1 hz with rfl | hz
    · simp [hp, hq]
      omega
    · have := ih (fun y hy => hpq y (by simp [hy])) hz
      have hx := hpq x (by simp)
      by_cases h : p x = true
      · simp [h, hx h]; omega
      · simp [h]
        split <;> omega

/-- The value of an acyclic tree: at most the size of the tree to the power of the number of definitions, plus one. -/
theorem expandsTo_size_le {y t : Yaml} (hy : Acyclic y) (h : ExpandsTo y t) :
    treeSize t ≤ treeSize y ^ ((anchorNames y).length + 1) := by
  obtain ⟨D, h⟩ := h
  obtain ⟨rank, hr⟩ := hy
  let low : Str → Nat := fun a => (anchorNames y).countP fun b => decide (rank b < rank a)
  have hlow : ∀ a v b w, Defines y a v → RefersTo v b → Defines y b w → low b < low a := by
    intro a v b w hav hvb hbw
    have h1 := hr a v hav b hvb
    refine countP_lt (z := b) ?_ (anchorNames_of_defines hbw) ?_ ?_
    · simp only [decide_eq_true_eq]
      intro x _ hx
      omega
    · simp
    · simpa using h1
  have hlen : ∀ b w, Defines y b w → low b < (anchorNames y).length := by
    intro b w hbw
    have : low b < (anchorNames y).countP fun _ => true :=
      countP_lt (z := b) (by simp) (anchorNames_of_defines hbw) (by simp) rfl
    simpa using this
  have := (h.size_le hlow (by simp) (by simpa using .self)).2 (anchorNames y).length
    (fun z _ b w _ hbw => hlen b w hbw)
  simp only [treesSize, Nat.add_zero] at this
  rw [Nat.pow_succ, Nat.mul_comm]
  exact this

/-! ## Trees and texts -/

theorem shown_size {y : Yaml} {x : Str} (h : Shown y x) : treeSize y ≤ x.length + 1 := by
  induction y using Yaml.induct generalizing x with
  | hIH es ih =>
    cases h with
    | flowHash h =>
      simp only [treeSize, List.length_cons, List.length_append, List.length_nil]
      have key : ∀ {es x}, FlowEntriesShown Shown es x → (∀ k v, (k, v) ∈ es → ∀ {x}, Shown v x → treeSize v ≤ x.length + 1) →
          flowEntriesSize es ≤ x.length + 1 := by
        intro es x h
        induction h with
        | nil => intro _; simp [flowEntriesSize]
        | one hv =>
          intro ih
          have := ih _ _ List.mem_cons_self hv
          simp only [flowEntriesSize, List.length_append, List.length_cons]
          omega
        | more hv _ ih' =>
          intro ih
          have h1 := ih _ _ List.mem_cons_self hv
          have h2 := ih' fun k v hm => ih k v (by simp [hm])
          rw [flowEntriesSize]
          simp only [List.length_append, List.length_cons]
          omega
      have := key h ih
      omega
  | hIA es ih =>
    cases h with
    | flowArray h =>
      simp only [treeSize, List.length_cons, List.length_append, List.length_nil]
      have key : ∀ {es x}, FlowElementsShown Shown es x → (∀ v, v ∈ es → ∀ {x}, Shown v x → treeSize v ≤ x.length + 1) →
          treesSize es ≤ x.length + 1 := by
        intro es x h
        induction h with
        | nil => intro _; simp [treesSize]
        | one hv =>
          intro ih
          have := ih _ List.mem_cons_self hv
          simp only [treesSize]
          omega
        | more hv _ ih' =>
          intro ih
          have h1 := ih _ List.mem_cons_self hv
          have h2 := ih' fun v hm => ih v (by simp [hm])
          rw [treesSize]
          simp only [List.length_append, List.length_cons]
          omega
      have := key h ih
      omega
  | hH ds ih =>
    cases h with
    | hash h =>
      simp only [treeSize, Nat.add_le_add_iff_right]
      have key : ∀ {ds x}, EntriesShown Shown ds x → (∀ k a v, HashData.element ⟨k, ⟨a, v⟩⟩ ∈ ds → ∀ {x}, Shown v x → treeSize v ≤ x.length + 1) →
          entriesSize ds ≤ x.length := by
        intro ds x h
        induction h with
        | nil => intro _; simp [entriesSize]
        | comment _ ih' =>
          intro ih
          have h2 := ih' fun k a v hm => ih k a v (by simp [hm])
          simp only [entriesSize, List.length_append, List.length_cons]
          omega
        | inlineComment _ ih' =>
          intro ih
          have h2 := ih' fun k a v hm => ih k a v (by simp [hm])
          simp only [entriesSize, List.length_append, List.length_cons]
          omega
        | element hv _ ih' =>
          intro ih
          have h1 := ih _ _ _ List.mem_cons_self hv
          have h2 := ih' fun k a v hm => ih k a v (by simp [hm])
          simp only [entriesSize, List.length_append, List.length_cons]
          omega
      exact key h ih
  | hA ds ih =>
    cases h with
    | array h =>
      simp only [treeSize, Nat.add_le_add_iff_right]
      have key : ∀ {ds x}, ElementsShown Shown ds x → (∀ a v, ArrayData.element ⟨a, v⟩ ∈ ds → ∀ {x}, Shown v x → treeSize v ≤ x.length + 1) →
          elementsSize ds ≤ x.length := by
        intro ds x h
        induction h with
        | nil => intro _; simp [elementsSize]
        | comment _ ih' =>
          intro ih
          have h2 := ih' fun a v hm => ih a v (by simp [hm])
          simp only [elementsSize, List.length_append, List.length_cons]
          omega
        | inlineComment _ ih' =>
          intro ih
          have h2 := ih' fun a v hm => ih a v (by simp [hm])
          simp only [elementsSize, List.length_append, List.length_cons]
          omega
        | element hv _ ih' =>
          intro ih
          have h1 := ih _ _ List.mem_cons_self hv
          have h2 := ih' fun a v hm => ih a v (by simp [hm])
          simp only [elementsSize, List.length_append, List.length_cons]
          omega
      exact key h ih
  | hS ps => simp [treeSize]
  | hD ps => simp [treeSize]
  | hU s => simp [treeSize]
  | hF ls c => simp [treeSize]
  | hL ls c => simp [treeSize]
  | hN a => simp [treeSize]

/-- A reference is written with a star. -/
theorem shown_star {y : Yaml} {b : Str} (hb : RefersTo y b) : ∀ {x : Str}, Shown y x → '*' ∈ x := by
  unfold RefersTo at hb
  induction hb with
  | self =>
    intro x h
    cases h
    simp
  | step hc _ ih =>
    intro x h
    cases hc with
    | inlineHash hm =>
      cases h with
      | flowHash h =>
        have key : ∀ {es x}, FlowEntriesShown Shown es x → ∀ {k v}, (k, v) ∈ es → (∀ {x}, Shown v x → '*' ∈ x) → '*' ∈ x := by
          intro es x h
          induction h with
          | nil => intro k v hm; cases hm
          | one hv =>
            intro k v hm hx
            rw [List.mem_singleton] at hm
            cases hm
            have := hx hv
            simp [this]
          | more hv _ ih' =>
            intro k v hm hx
            rcases List.mem_cons.1 hm with e | hm
            · cases e
              have := hx hv
              simp [this]
            · have := ih' hm hx
              simp [this]
        have := key h hm ih
        simp [this]
    | inlineArray hm =>
      cases h with
      | flowArray h =>
        have key : ∀ {es x}, FlowElementsShown Shown es x → ∀ {v}, v ∈ es → (∀ {x}, Shown v x → '*' ∈ x) → '*' ∈ x := by
          intro es x h
          induction h with
          | nil => intro v hm; cases hm
          | one hv =>
            intro v hm hx
            rw [List.mem_singleton] at hm
            cases hm
            exact hx hv
          | more hv _ ih' =>
            intro v hm hx
            rcases List.mem_cons.1 hm with e | hm
            · cases e
              have := hx hv
              simp [this]
            · have := ih' hm hx
              simp [this]
        have := key h hm ih
        simp [this]
    | hash hm =>
      cases h with
      | hash h =>
        have key : ∀ {ds x}, EntriesShown Shown ds x → ∀ {k a v}, HashData.element ⟨k, ⟨a, v⟩⟩ ∈ ds →
            (∀ {x}, Shown v x → '*' ∈ x) → '*' ∈ x := by
          intro ds x h
          induction h with
          | nil => intro k a v hm; cases hm
          | comment _ ih' =>
            intro k a v hm hx
            have := ih' (by simpa using hm) hx
            simp [this]
          | inlineComment _ ih' =>
            intro k a v hm hx
            have := ih' (by simpa using hm) hx
            simp [this]
          | element hv _ ih' =>
            intro k a v hm hx
            rcases List.mem_cons.1 hm with e | hm
            · cases e
              have := hx hv
              simp [this]
            · have := ih' hm hx
              simp [this]
        exact key h hm ih
    | array hm =>
      cases h with
      | array h =>
        have key : ∀ {ds x}, ElementsShown Shown ds x → ∀ {a v}, ArrayData.element ⟨a, v⟩ ∈ ds →
            (∀ {x}, Shown v x → '*' ∈ x) → '*' ∈ x := by
          intro ds x h
          induction h with
          | nil => intro a v hm; cases hm
          | comment _ ih' =>
            intro a v hm hx
            have := ih' (by simpa using hm) hx
            simp [this]
          | inlineComment _ ih' =>
            intro a v hm hx
            have := ih' (by simpa using hm) hx
            simp [this]
          | element hv _ ih' =>
            intro a v hm hx
            rcases List.mem_cons.1 hm with e | hm
            · cases e
              have := hx hv
              simp [this]
            · have := ih' hm hx
              simp [this]
        exact key h hm ih

theorem anchorShown_count (a : Option Str) : a.toList.length ≤ (anchorShown a).count '&' := by
  cases a <;> simp [anchorShown]

/-- Each definition is written with an ampersand. -/
theorem shown_ampersands {y : Yaml} {x : Str} (h : Shown y x) : (anchorNames y).length ≤ x.count '&' := by
  induction y using Yaml.induct generalizing x with
  | hIH es ih =>
    cases h with
    | flowHash h =>
      have key : ∀ {es x}, FlowEntriesShown Shown es x →
          (∀ k v, (k, v) ∈ es → ∀ {x}, Shown v x → (anchorNames v).length ≤ x.count '&') →
          (flowEntriesNames es).length ≤ x.count '&' := by
        intro es x h
        induction h with
        | nil => intro _; simp [flowEntriesNames]
        | one hv =>
          intro ih
          have := ih _ _ List.mem_cons_self hv
          simp only [flowEntriesNames, List.length_append, List.count_append, List.count_cons, List.length_nil]
          omega
        | more hv _ ih' =>
          intro ih
          have h1 := ih _ _ List.mem_cons_self hv
          have h2 := ih' fun k v hm => ih k v (by simp [hm])
          rw [flowEntriesNames]
          simp only [List.length_append, List.count_append, List.count_cons]
          omega
      have := key h ih
      simp only [anchorNames, List.count_append, List.count_cons]
      omega
  | hIA es ih =>
    cases h with
    | flowArray h =>
      have key : ∀ {es x}, FlowElementsShown Shown es x →
          (∀ v, v ∈ es → ∀ {x}, Shown v x → (anchorNames v).length ≤ x.count '&') →
          (treesNames es).length ≤ x.count '&' := by
        intro es x h
        induction h with
        | nil => intro _; simp [treesNames]
        | one hv =>
          intro ih
          have := ih _ List.mem_cons_self hv
          simp only [treesNames, List.length_append, List.length_nil]
          omega
        | more hv _ ih' =>
          intro ih
          have h1 := ih _ List.mem_cons_self hv
          have h2 := ih' fun v hm => ih v (by simp [hm])
          rw [treesNames]
          simp only [List.length_append, List.count_append, List.count_cons]
          omega
      have := key h ih
      simp only [anchorNames, List.count_append, List.count_cons]
      omega
  | hH ds ih =>
    cases h with
    | hash h =>
      have key : ∀ {ds x}, EntriesShown Shown ds x →
          (∀ k a v, HashData.element ⟨k, ⟨a, v⟩⟩ ∈ ds → ∀ {x}, Shown v x → (anchorNames v).length ≤ x.count '&') →
          (entriesNames ds).length ≤ x.count '&' := by
        intro ds x h
        induction h with
        | nil => intro _; simp [entriesNames]
        | comment _ ih' =>
          intro ih
          have h2 := ih' fun k a v hm => ih k a v (by simp [hm])
          simp only [entriesNames, List.count_append, List.count_cons]
          omega
        | inlineComment _ ih' =>
          intro ih
          have h2 := ih' fun k a v hm => ih k a v (by simp [hm])
          simp only [entriesNames, List.count_append, List.count_cons]
          omega
        | @element k a v ds x z hv _ ih' =>
          intro ih
          have h1 := ih _ _ _ List.mem_cons_self hv
          have h2 := ih' fun k a v hm => ih k a v (by simp [hm])
          have h3 := anchorShown_count a
          simp only [entriesNames, List.length_append, List.count_append, List.count_cons]
          omega
      exact key h ih
  | hA ds ih =>
    cases h with
    | array h =>
      have key : ∀ {ds x}, ElementsShown Shown ds x →
          (∀ a v, ArrayData.element ⟨a, v⟩ ∈ ds → ∀ {x}, Shown v x → (anchorNames v).length ≤ x.count '&') →
          (elementsNames ds).length ≤ x.count '&' := by
        intro ds x h
        induction h with
        | nil => intro _; simp [elementsNames]
        | comment _ ih' =>
          intro ih
          have h2 := ih' fun a v hm => ih a v (by simp [hm])
          simp only [elementsNames, List.count_append, List.count_cons]
          omega
        | inlineComment _ ih' =>
          intro ih
          have h2 := ih' fun a v hm => ih a v (by simp [hm])
          simp only [elementsNames, List.count_append, List.count_cons]
          omega
        | @element a v ds x z hv _ ih' =>
          intro ih
          have h1 := ih _ _ List.mem_cons_self hv
          have h2 := ih' fun a v hm => ih a v (by simp [hm])
          have h3 := anchorShown_count a
          simp only [elementsNames, List.length_append, List.count_append, List.count_cons]
          omega
      exact key h ih
  | hS ps => simp [anchorNames]
  | hD ps => simp [anchorNames]
  | hU s => simp [anchorNames]
  | hF ls c => simp [anchorNames]
  | hL ls c => simp [anchorNames]
  | hN a => simp [anchorNames]

end YamlSubset
