import Verif.Lemmas.Nodes

/-! # C72: edits that start at a part of a tree -/

namespace YamlSubset

theorem set_there {α : Type} : ∀ {l : List α} {i : Nat} {a : α}, l[i]? = some a → l.set i a = l
  | [], _, _, h => by simp at h
  | x :: t, 0, a, h => by simp at h; simp [h]
  | x :: t, i + 1, a, h => by simp at h; simp [set_there h]

/-- `for_hash` of a tree satisfies the equation that the code writes down. -/
theorem C72_code_for_hash {A : Type} [Additive A] (f : HashElement → A × HashElement) (r : Yaml → A × Yaml)
    (path : YamlPath) (y : Yaml) : y.forHash f r path = forHashBody f r (Yaml.forHash f r) path y := by
  have hkey : ∀ k cs o, y.forHash f r (.key k cs o) = forHashBody f r (Yaml.forHash f r) (.key k cs o) y := by
    intro k cs o
    have key : ∀ (g : HashElement → A × HashElement),
        (∀ e, YamlInsert.forHash f r (.key k cs o) (HashData.element e) = ((g e).1, .element (g e).2)) →
        forKey k cs g y = forHashBody f r (Yaml.forHash f r) (.key k cs o) y := by
      intro g hg
      unfold forKey forHashBody
      dsimp only
      cases hf : y.fitsConditions cs with
      | false => rfl
      | true =>
        cases y with
        | hash data =>
          dsimp only
          cases hi : (Yaml.hash data).keyIndex k with
          | none => rfl
          | some i =>
            dsimp only
            cases hd : data[i]? with
            | none => rfl
            | some d =>
              have hset : data.set i d = data := set_there hd
              cases d with
              | element e => simp only [hg]; rfl
              | comment c => simp [YamlInsert.forHash, hset]
              | inlineComment c => simp [YamlInsert.forHash, hset]
        | _ => simp [Yaml.keyIndex]
    cases o with
    | none =>
      exact key _ fun e => by
        simp only [YamlInsert.forHash, HashElement.forHash]
    | some other => exact key _ fun e => rfl
  cases path with
  | root cs =>
    simp only [Yaml.forHash, forHashBody]
    cases y.fitsConditions cs <;> rfl
  | key k cs o => exact hkey k cs o
  | allIndexes cs o =>
    have main : ∀ g : Yaml → A × Yaml,
        (∀ a v, YamlInsert.forHash f r (.allIndexes cs o) (ArrayData.element ⟨a, v⟩) = ((g v).1, .element ⟨a, (g v).2⟩)) →
        (∀ v, Yaml.forHash f r (.allIndexes cs o) v = forAllIndexes cs g (inlineDepth v + 1) v) →
        y.forHash f r (.allIndexes cs o) = forHashBody f r (Yaml.forHash f r) (.allIndexes cs o) y := by
      intro g hg hv
      rw [hv]
      cases y with
      | inlineArray es =>
        have h : overInline cs (forAllIndexes cs g (inlineDepthList es + 1)) Additive.zero es =
            overInline cs (Yaml.forHash f r (.allIndexes cs o)) Additive.zero es :=
          overInline_on es _ fun e he => by
            rw [hv]
            have := inlineDepth_mem he
            exact forAllIndexes_fuel cs g _ _ e (by omega) (by omega)
        show ((overInline cs (forAllIndexes cs g (inlineDepthList es + 1)) Additive.zero es).1,
          Yaml.inlineArray (overInline cs (forAllIndexes cs g (inlineDepthList es + 1)) Additive.zero es).2) = _
        rw [h]; rfl
      | array ds =>
        simp only [forHashBody, forAllIndexes, overArray_overData hg]
      | _ => rfl
    cases o with
    | none => exact main r (fun a v => by simp [YamlInsert.forHash, ArrayData.forHash, Yaml.forHash, fitsNoConditions]) fun v => rfl
    | some other => exact main (Yaml.forHash f r other) (fun a v => rfl) fun v => rfl
  | indexes is cs o =>
    have main : ∀ g : Yaml → A × Yaml,
        (∀ a v, YamlInsert.forHash f r (.indexes is cs o) (ArrayData.element ⟨a, v⟩) = ((g v).1, .element ⟨a, (g v).2⟩)) →
        (∀ v, Yaml.forHash f r (.indexes is cs o) v = forIndexes is cs g (inlineDepth v + 1) v) →
        y.forHash f r (.indexes is cs o) = forHashBody f r (Yaml.forHash f r) (.indexes is cs o) y := by
      intro g hg hv
      rw [hv]
      cases y with
      | inlineArray es =>
        have h : atInline cs (forIndexes is cs g (inlineDepthList es + 1)) is Additive.zero es =
            atInline cs (Yaml.forHash f r (.indexes is cs o)) is Additive.zero es :=
          atInline_on (n := inlineDepthList es) (fun e he => by
              rw [hv]; exact forIndexes_fuel is cs g _ _ e (by omega) (by omega))
            (forIndexes_depth is cs g _) is _ es fun e he => inlineDepth_mem he
        show ((atInline cs (forIndexes is cs g (inlineDepthList es + 1)) is Additive.zero es).1,
          Yaml.inlineArray (atInline cs (forIndexes is cs g (inlineDepthList es + 1)) is Additive.zero es).2) = _
        rw [h]; rfl
      | array ds =>
        simp only [forHashBody, forIndexes, atArray_atData hg _ is _ ds rfl]
      | _ => rfl
    cases o with
    | none => exact main r (fun a v => by simp [YamlInsert.forHash, ArrayData.forHash, Yaml.forHash, fitsNoConditions]) fun v => rfl
    | some other => exact main (Yaml.forHash f r other) (fun a v => rfl) fun v => rfl

/-- `edit_hash_structure` of a tree satisfies the equation that the code writes down. -/
theorem C72_code_edit_hash (f : List HashData → Str → Option Nat → Nat × List HashData) (path : YamlPath) (y : Yaml) :
    y.editHash f path = editHashBody f (Yaml.editHash f) path y := by
  cases path with
  | root cs => rw [Yaml.editHash.eq_def]; rfl
  | key k cs o =>
    rw [Yaml.editHash.eq_def]
    unfold editHashBody
    dsimp only
    cases hf : y.fitsConditions cs with
    | false => rfl
    | true =>
      cases y with
      | hash data =>
        dsimp only
        cases o with
        | none => rfl
        | some other =>
          dsimp only
          cases hi : (Yaml.hash data).keyIndex k with
          | none => rfl
          | some i =>
            dsimp only
            cases hd : data[i]? with
            | none => rfl
            | some d =>
              have hset : data.set i d = data := set_there hd
              cases d with
              | element e => obtain ⟨k, ⟨a, v⟩⟩ := e; rfl
              | comment c => simp [YamlInsert.editHash, hset]
              | inlineComment c => simp [YamlInsert.editHash, hset]
      | _ => rfl
  | allIndexes cs o =>
    rw [Yaml.editHash.eq_def]
    cases o with
    | none => rfl
    | some other =>
      cases y with
      | array ds => simp only [editHashBody]; rw [overArray_overData (g := Yaml.editHash f other) (fun a v => rfl)]
      | _ => rfl
  | indexes is cs o =>
    rw [Yaml.editHash.eq_def]
    cases o with
    | none => rfl
    | some other =>
      cases y with
      | array ds =>
        simp only [editHashBody]
        rw [atArray_atData (g := Yaml.editHash f other) (fun a v => rfl) _ is _ ds rfl]
      | _ => rfl

end YamlSubset
