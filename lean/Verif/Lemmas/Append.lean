import Verif.Lemmas.LayWritten
import Verif.Spec.Append

/-! # A text shows the same value when another line follows -/

namespace YamlSubset

open Spec

namespace Lay

variable {T : CharTables}

theorem item_next {P : ValueText} {t s hold cl v post x nx} (h : ItemText T P t .none s hold cl v post x)
    (hP : ∀ cl x, P t .none s hold cl v x → P t nx s hold cl v x) : ItemText T P t nx s hold cl v post x := by
  cases h with
  | value h => exact .value (hP _ _ h)
  | comment ha h hc => exact .comment ha h hc

theorem entries_next {P : ValueText} {nx next : LineKind} {c cl ds x} (h : EntryTexts T P c next cl ds x) (hn : next = .none)
    (hP : ∀ pre k v, ∀ post : List Str, ds = pre ++ .element ⟨k, v⟩ :: post.map .inlineComment →
      ∀ cl x, P (some c) .none c .key cl v x → P (some c) nx c .key cl v x) : EntryTexts T P c nx cl ds x := by
  induction h with
  | last hk hv => subst hn; exact .last hk (item_next hv (hP [] _ _ _ rfl))
  | @more _ _ _ _ k' _ v' post' _ cs _ _ _ hk hv hg h ih =>
    refine .more hk hv hg (ih hn fun pre k v post hd =>
      hP (.element ⟨k', v'⟩ :: post'.map .inlineComment ++ cs.map .comment ++ pre) k v post ?_)
    simp only [hd, List.append_assoc]

theorem elements_next {P : ValueText} {nx next : LineKind} {c cl ds x} (h : ElementTexts T P c next cl ds x) (hn : next = .none)
    (hP : ∀ pre v, ∀ post : List Str, ds = pre ++ .element v :: post.map .inlineComment →
      ∀ cl x, P (some c) .none c .dash cl v x → P (some c) nx c .dash cl v x) : ElementTexts T P c nx cl ds x := by
  induction h with
  | last hv => subst hn; exact .last (item_next hv (hP [] _ _ rfl))
  | @more _ _ _ _ v' post' _ cs _ _ _ hv hg h ih =>
    refine .more hv hg (ih hn fun pre v post hd =>
      hP (.element v' :: post'.map .inlineComment ++ cs.map .comment ++ pre) v post ?_)
    simp only [hd, List.append_assoc]

theorem innerLead_holds {hold a s c x} (h : InnerLead T hold a s c x) : hold = .dash ∨ a ≠ none := by
  cases h with
  | dash => exact .inl rfl
  | named => exact .inr (by simp)

/-- A text shows the same value when the next line is not the end, unless the value takes this line. -/
theorem written_next (nx : LineKind) (y : Yaml) : ∀ a t s hold cl x, Written T t .none s hold cl ⟨a, y⟩ x →
    (t = none → ∀ n, nx = .key n → n ≠ 0 → ¬ OneEntry ⟨a, y⟩) → ¬ EndsIn (Takes nx) hold ⟨a, y⟩ → Written T t nx s hold cl ⟨a, y⟩ x := by
  induction y using Yaml.induct with
  | hH es ih =>
    have hP : ∀ key v, HashData.element ⟨key, v⟩ ∈ es → ∀ t s hold cl x, Written T t .none s hold cl v x →
        (t = none → ∀ n, nx = .key n → n ≠ 0 → ¬ OneEntry v) → ¬ EndsIn (Takes nx) hold v → Written T t nx s hold cl v x := by
      intro key v hm t s hold cl x h
      obtain ⟨a, v⟩ := v
      exact ih key a v hm a t s hold cl x h
    intro a t s hold cl x h ho he
    cases h with
    | scalar ha h => exact .scalar ha h
    | @hash _ _ _ c _ _ _ cs lead ds x hs hl h =>
      refine .hash hs hl (entries_next h rfl fun pre k v post hd cl x hv => ?_)
      refine hP k v (by simp [hd]) _ _ _ _ _ hv (by simp) fun hb => he ?_
      rw [hd, ← List.append_assoc]
      exact .entry hb
    | @innerOne _ _ _ c _ _ _ lead key n v post x hs hl hd hk hv =>
      refine .innerOne hs hl (fun ht n hn => Classical.byContradiction fun h0 => ho ht n hn h0 ⟨key, v, post, rfl⟩) hk (item_next hv fun cl x hv => ?_)
      exact hP key v (by simp) _ _ _ _ _ hv (fun ht n hn h0 => absurd ⟨key, v, post, rfl⟩ (ho ht n hn h0)) fun hb => he (.entry (pre := []) hb)
    | @innerMore _ _ _ c _ _ cl' _ lead key n v post x cs g ds rest hs hl hk hv hg h =>
      refine .innerMore hs hl hk hv hg (entries_next h rfl fun pre k v' post' hd cl x hv => ?_)
      refine hP k v' (by simp [hd]) _ _ _ _ _ hv (by simp) fun hb => he ?_
      rw [hd, ← List.append_assoc]
      exact .entry hb
  | hA es ih =>
    have hP : ∀ v, ArrayData.element v ∈ es → ∀ t s hold cl x, Written T t .none s hold cl v x →
        (t = none → ∀ n, nx = .key n → n ≠ 0 → ¬ OneEntry v) → ¬ EndsIn (Takes nx) hold v → Written T t nx s hold cl v x := by
      intro v hm t s hold cl x h
      obtain ⟨a, v⟩ := v
      exact ih a v hm a t s hold cl x h
    intro a t s hold cl x h ho he
    cases h with
    | scalar ha h => exact .scalar ha h
    | @array _ _ _ c _ _ _ cs lead ds x hs hl h =>
      refine .array hs hl (elements_next h rfl fun pre v post hd cl x hv => ?_)
      refine hP v (by simp [hd]) _ _ _ _ _ hv (by simp) fun hb => he ?_
      rw [hd, ← List.append_assoc]
      exact .element hb
    | @innerElement _ _ _ c _ _ _ lead v post x hs hl hd hv =>
      have hin : InnerSequence hold ⟨a, .array (.element v :: post.map .inlineComment)⟩ v := ⟨innerLead_holds hl, post, rfl⟩
      refine .innerElement hs hl (fun hn => he (.here ?_)) (item_next hv fun cl x hv => ?_)
      · subst hn; exact ⟨v, hin⟩
      · refine hP v (by simp) _ _ _ _ _ hv (fun _ n hn h0 h1 => he (.here ?_)) fun hb => he (.element (pre := []) hb)
        subst hn; exact ⟨h0, v, hin, h1⟩
    | @innerElements _ _ _ c _ _ cl' _ lead v post x g ds rest hs hl hv hg h =>
      refine .innerElements hs hl hv hg (elements_next h rfl fun pre v' post' hd cl x hv => ?_)
      refine hP v' (by simp [hd]) _ _ _ _ _ hv (by simp) fun hb => he ?_
      rw [hd, ← List.append_assoc]
      exact .element hb
  | _ =>
    intros
    rename_i h _ _
    cases h
    all_goals first
      | exact .scalar (by assumption) (by assumption)
      | exact .literal (by assumption) (by assumption)
      | exact .folded (by assumption) (by assumption)

theorem entries_append {P : ValueText} {c cl cl' nx ds ds' cs x g y next} (h : EntryTexts T P c nx cl ds x) (hn : nx = .key c) (hg : Gap cl c cs g)
    (h' : EntryTexts T P c next cl' ds' y) : EntryTexts T P c next cl' (ds ++ cs.map .comment ++ ds') (x ++ g ++ pad c ++ y) := by
  induction h with
  | last hk hv => subst hn; simpa using EntryTexts.more hk hv hg h'
  | more hk hv hg' h ih => simpa using EntryTexts.more hk hv hg' (ih hn hg h')

theorem elements_append {P : ValueText} {c cl cl' nx ds ds' cs x g y next} (h : ElementTexts T P c nx cl ds x) (hn : nx = .dash) (hg : Gap cl c cs g)
    (h' : ElementTexts T P c next cl' ds' y) : ElementTexts T P c next cl' (ds ++ cs.map .comment ++ ds') (x ++ g ++ pad c ++ y) := by
  induction h with
  | last hv => subst hn; simpa using ElementTexts.more hv hg h'
  | more hv hg' h ih => simpa using ElementTexts.more hv hg' (ih hn hg h')

end Lay

end YamlSubset
