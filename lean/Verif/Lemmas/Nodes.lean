import Verif.Model.Nodes

/-! # The tree functions do what the code does, without fuel and without inlining -/

namespace YamlSubset

variable {A : Type} [Additive A]

theorem overInline_on {cs : List Condition} {g g' : Yaml → A × Yaml} :
    ∀ (es : List Yaml) (c : A), (∀ e ∈ es, g e = g' e) → overInline cs g c es = overInline cs g' c es
  | [], _, _ => rfl
  | e :: t, c, h => by
    have ht : ∀ c, overInline cs g c t = overInline cs g' c t := fun c =>
      overInline_on t c fun e he => h e (List.mem_cons_of_mem _ he)
    simp only [overInline, ht, h e (List.mem_cons_self ..)]

theorem inlineDepth_mem {es : List Yaml} {e : Yaml} (h : e ∈ es) : inlineDepth e ≤ inlineDepthList es := by
  induction es with
  | nil => cases h
  | cons x t ih =>
    simp only [inlineDepthList]
    rcases List.mem_cons.1 h with rfl | h
    · omega
    · have := ih h; omega

theorem inlineDepthList_le {es : List Yaml} {n : Nat} (h : ∀ e ∈ es, inlineDepth e ≤ n) : inlineDepthList es ≤ n := by
  induction es with
  | nil => exact Nat.zero_le _
  | cons x t ih =>
    simp only [inlineDepthList]
    have := h x (List.mem_cons_self ..)
    have := ih fun e he => h e (List.mem_cons_of_mem _ he)
    omega

theorem atInline_depth {cs : List Condition} {g : Yaml → A × Yaml} {n : Nat}
    (hg : ∀ e, inlineDepth (g e).2 ≤ inlineDepth e) :
    ∀ (is : List Nat) (c : A) (es : List Yaml), (∀ e ∈ es, inlineDepth e ≤ n) →
      ∀ e ∈ (atInline cs g is c es).2, inlineDepth e ≤ n
  | [], _, _, h => h
  | i :: is, c, es, h => by
    unfold atInline
    cases he : es[i]? with
    | none => exact atInline_depth hg is c es h
    | some e =>
      dsimp only
      split
      · refine atInline_depth hg is _ _ fun x hx => ?_
        rcases List.mem_or_eq_of_mem_set hx with hx | rfl
        · exact h x hx
        · exact Nat.le_trans (hg e) (h e (List.mem_of_getElem? he))
      · exact atInline_depth hg is c es h

theorem forIndexes_depth (is : List Nat) (cs : List Condition) (g : Yaml → A × Yaml) :
    ∀ (n : Nat) (y : Yaml), inlineDepth (forIndexes is cs g n y).2 ≤ inlineDepth y
  | 0, _ => Nat.le_refl _
  | n + 1, y => by
    cases y with
    | inlineArray es =>
      simp only [forIndexes, inlineDepth]
      exact Nat.succ_le_succ (inlineDepthList_le (atInline_depth (forIndexes_depth is cs g n) is _ es
        fun e he => inlineDepth_mem he))
    | _ => simp [forIndexes, inlineDepth]

theorem atInline_on {cs : List Condition} {g g' : Yaml → A × Yaml} {n : Nat}
    (hg : ∀ e, inlineDepth e ≤ n → g e = g' e) (hd : ∀ e, inlineDepth (g e).2 ≤ inlineDepth e) :
    ∀ (is : List Nat) (c : A) (es : List Yaml), (∀ e ∈ es, inlineDepth e ≤ n) →
      atInline cs g is c es = atInline cs g' is c es
  | [], _, _, _ => rfl
  | i :: is, c, es, h => by
    unfold atInline
    cases he : es[i]? with
    | none => exact atInline_on hg hd is c es h
    | some e =>
      have hn := h e (List.mem_of_getElem? he)
      dsimp only
      rw [← hg e hn]
      split
      · refine atInline_on hg hd is _ _ fun x hx => ?_
        rcases List.mem_or_eq_of_mem_set hx with hx | rfl
        · exact h x hx
        · exact Nat.le_trans (hd e) hn
      · exact atInline_on hg hd is c es h

theorem forAllIndexes_fuel (cs : List Condition) (g : Yaml → A × Yaml) :
    ∀ (n m : Nat) (y : Yaml), inlineDepth y < n → inlineDepth y < m →
      forAllIndexes cs g n y = forAllIndexes cs g m y
  | 0, _, _, h, _ => absurd h (Nat.not_lt_zero _)
  | _, 0, _, _, h => absurd h (Nat.not_lt_zero _)
  | n + 1, m + 1, y, hn, hm => by
    cases y with
    | inlineArray es =>
      simp only [inlineDepth] at hn hm
      have : overInline cs (forAllIndexes cs g n) Additive.zero es =
          overInline cs (forAllIndexes cs g m) Additive.zero es :=
        overInline_on es _ fun e he =>
          have := inlineDepth_mem he
          forAllIndexes_fuel cs g n m e (by omega) (by omega)
      simp only [forAllIndexes, this]
    | _ => rfl

theorem forIndexes_fuel (is : List Nat) (cs : List Condition) (g : Yaml → A × Yaml) :
    ∀ (n m : Nat) (y : Yaml), inlineDepth y < n → inlineDepth y < m →
      forIndexes is cs g n y = forIndexes is cs g m y
  | 0, _, _, h, _ => absurd h (Nat.not_lt_zero _)
  | _, 0, _, _, h => absurd h (Nat.not_lt_zero _)
  | n + 1, m + 1, y, hn, hm => by
    cases y with
    | inlineArray es =>
      simp only [inlineDepth] at hn hm
      have : atInline cs (forIndexes is cs g n) is Additive.zero es =
          atInline cs (forIndexes is cs g m) is Additive.zero es :=
        atInline_on (n := inlineDepthList es)
          (fun e he => forIndexes_fuel is cs g n m e (by omega) (by omega))
          (forIndexes_depth is cs g n) is _ es fun e he => inlineDepth_mem he
      simp only [forIndexes, this]
    | _ => rfl

theorem fitsNoConditions (y : Yaml) : y.fitsConditions [] = true := rfl

/-- What is done at an element of a block sequence. -/
theorem overArray_overData {cs : List Condition} {g : Yaml → A × Yaml} {g' : ArrayData → A × ArrayData}
    (hg : ∀ a v, g' (.element ⟨a, v⟩) = ((g v).1, .element ⟨a, (g v).2⟩)) :
    ∀ (ds : List ArrayData) (c : A), overData cs g' c ds = overArray cs g c ds
  | [], _ => rfl
  | .element ⟨a, v⟩ :: t, c => by
    have ht := overArray_overData (cs := cs) hg t
    simp only [overData, overArray, ArrayData.fitsConditions, hg, ht]
  | .comment s :: t, c => by
    have ht := overArray_overData (cs := cs) hg t
    simp [overData, overArray, ArrayData.fitsConditions, ht]
  | .inlineComment s :: t, c => by
    have ht := overArray_overData (cs := cs) hg t
    simp [overData, overArray, ArrayData.fitsConditions, ht]

theorem elementPlaces_spec : ∀ (ds : List ArrayData) (n i : Nat),
    match (elementPlaces n ds)[i]? with
    | some p => n ≤ p ∧ ∃ a, ds[p - n]? = some (.element a) ∧ nthElement ds i = some a ∧
        ∀ a', setNthElement ds i a' = ds.set (p - n) (.element a') ∧
          elementPlaces n (setNthElement ds i a') = elementPlaces n ds
    | none => nthElement ds i = none
  | [], n, i => by simp [elementPlaces, nthElement]
  | .element a :: t, n, 0 => by
    simp [elementPlaces, nthElement, setNthElement]
  | .element a :: t, n, i + 1 => by
    have h := elementPlaces_spec t (n + 1) i
    simp only [elementPlaces, List.getElem?_cons_succ]
    cases hp : (elementPlaces (n + 1) t)[i]? with
    | none => rw [hp] at h; exact h
    | some p =>
      rw [hp] at h
      obtain ⟨hl, b, h1, h2, h3⟩ := h
      have e : p - n = (p - (n + 1)) + 1 := by omega
      refine ⟨by omega, b, ?_, h2, fun a' => ?_⟩
      · rw [e]; exact h1
      · rw [e]; simp only [setNthElement, List.set_cons_succ, (h3 a').1, elementPlaces]
        exact ⟨trivial, by rw [← (h3 a').1, (h3 a').2]⟩
  | .comment s :: t, n, i => by
    have h := elementPlaces_spec t (n + 1) i
    simp only [elementPlaces]
    cases hp : (elementPlaces (n + 1) t)[i]? with
    | none => rw [hp] at h; exact h
    | some p =>
      rw [hp] at h
      obtain ⟨hl, b, h1, h2, h3⟩ := h
      have e : p - n = (p - (n + 1)) + 1 := by omega
      refine ⟨by omega, b, ?_, h2, fun a' => ?_⟩
      · rw [e]; exact h1
      · rw [e]; simp only [setNthElement, List.set_cons_succ, (h3 a').1, elementPlaces]
        exact ⟨trivial, by rw [← (h3 a').1, (h3 a').2]⟩
  | .inlineComment s :: t, n, i => by
    have h := elementPlaces_spec t (n + 1) i
    simp only [elementPlaces]
    cases hp : (elementPlaces (n + 1) t)[i]? with
    | none => rw [hp] at h; exact h
    | some p =>
      rw [hp] at h
      obtain ⟨hl, b, h1, h2, h3⟩ := h
      have e : p - n = (p - (n + 1)) + 1 := by omega
      refine ⟨by omega, b, ?_, h2, fun a' => ?_⟩
      · rw [e]; exact h1
      · rw [e]; simp only [setNthElement, List.set_cons_succ, (h3 a').1, elementPlaces]
        exact ⟨trivial, by rw [← (h3 a').1, (h3 a').2]⟩

theorem atArray_atData {cs : List Condition} {g : Yaml → A × Yaml} {g' : ArrayData → A × ArrayData}
    (hg : ∀ a v, g' (.element ⟨a, v⟩) = ((g v).1, .element ⟨a, (g v).2⟩)) (places : List Nat) :
    ∀ (is : List Nat) (c : A) (ds : List ArrayData), places = elementPlaces 0 ds →
      atData cs g' places is c ds = atArray cs g is c ds
  | [], _, _, _ => rfl
  | i :: is, c, ds, hp => by
    have h := elementPlaces_spec ds 0 i
    have ih := atArray_atData (cs := cs) hg places is
    unfold atData atArray
    rw [hp]
    cases hq : (elementPlaces 0 ds)[i]? with
    | none =>
      rw [hq] at h
      simp only [h]
      rw [← hp]; exact ih c ds hp
    | some p =>
      rw [hq] at h
      obtain ⟨_, ⟨a, v⟩, h1, h2, h3⟩ := h
      rw [Nat.sub_zero] at h1 h3
      simp only [h1, h2, ArrayData.fitsConditions, hg]
      rw [← hp]
      split
      · rw [(h3 _).1.symm]
        exact ih _ _ (by rw [(h3 _).2]; exact hp)
      · exact ih c ds hp

end YamlSubset
