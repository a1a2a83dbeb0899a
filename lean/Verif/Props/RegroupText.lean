import Verif.Props.EditText
import Verif.Props.ValueMove

/-! # C55 and C70 for regrouping: the regrouped document can be written and read back -/

namespace YamlSubset
open Spec

variable {T : CharTables} {sel : Str} {P : Str → Prop}

theorem Spec.SelectorTexts.entries {ds : List HashData} (h : SelectorTexts sel P (.hash ds)) :
    (∀ a v s, HashData.element ⟨sel, ⟨a, v⟩⟩ ∈ ds → v.asString = some s → P s) ∧ ∀ k a v, HashData.element ⟨k, ⟨a, v⟩⟩ ∈ ds → SelectorTexts sel P v := by
  cases h with
  | hash h h' => exact ⟨h, h'⟩
  | other h1 => exact absurd rfl (h1 _)

theorem edits_string {E : List HashData → List HashData → Prop} {ls : List Loc} {y y' : Yaml} (h : Edits E ls y y') {s : Str} (hs : y'.asString = some s) :
    y.asString = some s := by
  induction h with
  | none => exact hs
  | seq _ _ ih ih' => exact ih (ih' hs)
  | _ => simp [Yaml.asString] at hs

/-- An edit that keeps the selector texts in order where it is made keeps them in order everywhere, and is only made where they are in order. -/
theorem edits_selectors {E : List HashData → List HashData → Prop} (hE : ∀ ds ds', E ds ds' → SelectorTexts sel P (.hash ds) → SelectorTexts sel P (.hash ds'))
    {ls : List Loc} {y y' : Yaml} (h : Edits E ls y y') (hy : SelectorTexts sel P y) :
    Edits (fun ds ds' => E ds ds' ∧ SelectorTexts sel P (.hash ds)) ls y y' ∧ SelectorTexts sel P y' := by
  induction h with
  | none => exact ⟨.none _, hy⟩
  | here h => exact ⟨.here ⟨h, hy⟩, hE _ _ h hy⟩
  | @inHash ds i k a v v' ls hi h ih =>
    have hm := List.mem_of_getElem? hi
    obtain ⟨h1, h2⟩ := hy.entries
    obtain ⟨h3, h4⟩ := ih (h2 _ _ _ hm)
    refine ⟨.inHash hi h3, .hash ?_ ?_⟩
    · intro a' w s hd hs
      rcases List.mem_or_eq_of_mem_set hd with hd | hd
      · exact h1 _ _ _ hd hs
      · cases hd; exact h1 _ _ _ hm (edits_string h hs)
    · intro k' a' w hd
      rcases List.mem_or_eq_of_mem_set hd with hd | hd
      · exact h2 _ _ _ hd
      · cases hd; exact h4
  | @inArray ds i a v v' ls hi h ih =>
    have hm := List.mem_of_getElem? hi
    cases hy with
    | array hy =>
      obtain ⟨h3, h4⟩ := ih (hy _ _ hm)
      refine ⟨.inArray hi h3, .array fun a' w hd => ?_⟩
      rcases List.mem_or_eq_of_mem_set hd with hd | hd
      · exact hy _ _ hd
      · cases hd; exact h4
    | other h1 h2 h3 => exact absurd rfl (h2 _)
  | @inInlineArray es i v v' ls hi h ih =>
    have hm := List.mem_of_getElem? hi
    cases hy with
    | inlineArray hy =>
      obtain ⟨h3, h4⟩ := ih (hy _ hm)
      refine ⟨.inInlineArray hi h3, .inlineArray fun w hd => ?_⟩
      rcases List.mem_or_eq_of_mem_set hd with hd | hd
      · exact hy _ hd
      · cases hd; exact h4
    | other h1 h2 h3 => exact absurd rfl (h3 _)
  | seq _ _ ih ih' =>
    obtain ⟨h1, h2⟩ := ih hy
    obtain ⟨h3, h4⟩ := ih' h2
    exact ⟨.seq h1 h3, h4⟩

theorem docEdits_selectors {E : List HashData → List HashData → Prop} (hE : ∀ ds ds', E ds ds' → SelectorTexts sel P (.hash ds) → SelectorTexts sel P (.hash ds'))
    {n : Nat} {d d' : Document} (h : DocEdits E n d d') (hd : ∀ y, DocumentData.yaml y ∈ d.items → SelectorTexts sel P y) :
    DocEdits (fun ds ds' => E ds ds' ∧ SelectorTexts sel P (.hash ds)) n d d' := by
  obtain ⟨h1, h2⟩ := h
  refine ⟨h1, ?_⟩
  generalize d.items = is at h2 hd
  generalize d'.items = is' at h2
  induction h2 with
  | nil => exact .nil
  | comment h ih => exact .comment (ih fun y hy => hd y (by simp [hy]))
  | yaml h ht ih => exact .yaml (edits_selectors hE h (hd _ (by simp))).1 (ih fun y hy => hd y (by simp [hy]))

/-- The items of a group are items of the map, without the selector. -/
theorem itemsOf_mem {keeps : List Str} {od : List HashData} {g : Option Str} {d : HashData} (h : d ∈ itemsOf sel keeps od g) :
    ∃ d0 ∈ od, d = strip sel d0 := by
  have key : ∀ (last : Option Str) (od : List HashData) (x), x ∈ groups sel keeps last od → x.2 ∈ od := by
    intro last od
    induction od generalizing last with
    | nil => simp [groups]
    | cons c t ih =>
      rcases c with c | c | e <;> intro x hx <;> simp only [groups, List.mem_cons] at hx <;> rcases hx with rfl | hx <;>
        first | (simp; done) | (have := ih _ x hx; simp [this])
  obtain ⟨x, hx, hd⟩ := List.mem_filterMap.1 h
  split at hd
  · cases hd; exact ⟨x.2, key _ _ _ hx, rfl⟩
  · cases hd

/-- An entry without the selector. -/
theorem strip_entry {k : Str} {a : Option Str} {v : Yaml} :
    ∃ v', strip sel (.element ⟨k, ⟨a, v⟩⟩) = .element ⟨k, ⟨a, v'⟩⟩ ∧ (v' = v ∨ ∃ ds, v = .hash ds ∧ v' = .hash (dropFirst [sel] ds)) := by
  cases v with
  | hash ds =>
    simp only [strip]
    split
    · exact ⟨_, rfl, .inr ⟨_, rfl, rfl⟩⟩
    · exact ⟨_, rfl, .inl rfl⟩
  | _ => exact ⟨_, rfl, .inl rfl⟩

theorem selectors_sub {ds ds' : List HashData} (h : SelectorTexts sel P (.hash ds)) (hm : ∀ d ∈ ds', d ∈ ds ∨ ∃ k a v, d = .element ⟨k, ⟨a, v⟩⟩ ∧
    (k = sel → ∀ s, v.asString = some s → P s) ∧ SelectorTexts sel P v) : SelectorTexts sel P (.hash ds') := by
  obtain ⟨h1, h2⟩ := h.entries
  refine .hash ?_ ?_
  · intro a v s hd hs
    rcases hm _ hd with hd | ⟨k', a', v', hd, h3, -⟩
    · exact h1 _ _ _ hd hs
    · cases hd; exact h3 rfl s hs
  · intro k a v hd
    rcases hm _ hd with hd | ⟨k', a', v', hd, -, h4⟩
    · exact h2 _ _ _ hd
    · cases hd; exact h4

theorem selectors_items {keeps : List Str} {od : List HashData} (h : SelectorTexts sel P (.hash od)) (g : Option Str) :
    SelectorTexts sel P (.hash (itemsOf sel keeps od g)) := by
  obtain ⟨h1, h2⟩ := h.entries
  refine selectors_sub h fun d hd => ?_
  obtain ⟨d0, hm, rfl⟩ := itemsOf_mem hd
  rcases d0 with c | c | ⟨k, a, v⟩
  · exact .inl hm
  · exact .inl hm
  · obtain ⟨v', he, rfl | ⟨ds, rfl, rfl⟩⟩ := strip_entry (sel := sel) (k := k) (a := a) (v := v)
    · rw [he]; exact .inl hm
    · refine .inr ⟨k, a, _, he, fun _ s hs => by simp [Yaml.asString] at hs, ?_⟩
      exact selectors_sub (h2 _ _ _ hm) fun d hd => .inl (mem_dropFirst hd)

/-- Regrouping keeps the selector texts in order. -/
theorem regroup_selectors {old new : Str} {keeps : List Str} {ds ds' : List HashData}
    (h : (new ∉ keysOf ds ∧ Regrouped old sel new keeps ds ds') ∨ (new ∈ keysOf ds ∧ GroupsLost old sel keeps ds ds'))
    (hs : SelectorTexts sel P (.hash ds)) : SelectorTexts sel P (.hash ds') := by
  obtain ⟨h1, h2⟩ := hs.entries
  have str : ∀ {l : List HashData} {k : Str}, k = sel → ∀ s, (Yaml.hash l).asString = some s → P s := fun _ s h => by simp [Yaml.asString] at h
  refine selectors_sub hs fun d hd => ?_
  rcases h with ⟨-, @⟨pre, a, od, post, gs, hf, -, -⟩⟩ | ⟨-, @⟨pre, a, od, post, hf⟩⟩
  · have ho := h2 old a (.hash od) (by rw [hf.1]; simp)
    rcases List.mem_append.1 hd with hd | hd
    · rcases List.mem_append.1 hd with hd | hd
      · exact .inl (by rw [hf.1]; simp [hd])
      · rcases List.mem_cons.1 hd with rfl | hd
        · exact .inr ⟨_, _, _, rfl, str, selectors_items ho _⟩
        · exact .inl (by rw [hf.1]; simp [hd])
    · simp only [List.mem_singleton] at hd
      subst hd
      refine .inr ⟨_, _, _, rfl, str, selectors_sub (ds := []) (.hash (by simp) (by simp)) fun d hd => ?_⟩
      obtain ⟨g, -, rfl⟩ := List.mem_map.1 hd
      exact .inr ⟨_, _, _, rfl, str, selectors_items ho _⟩
  · have ho := h2 old a (.hash od) (by rw [hf.1]; simp)
    rcases List.mem_append.1 hd with hd | hd
    · exact .inl (by rw [hf.1]; simp [hd])
    · rcases List.mem_cons.1 hd with rfl | hd
      · exact .inr ⟨_, _, _, rfl, str, selectors_items ho _⟩
      · exact .inl (by rw [hf.1]; simp [hd])

theorem simple_entry {ds : List HashData} {b : Bool} (h : Simple T b (.hash ds)) {k a v} (hm : HashData.element ⟨k, ⟨a, v⟩⟩ ∈ ds) :
    KeyText T k ∧ (∀ n, a = some n → NameText T n ∧ OneLine T v ∧ Commentable v) ∧ Simple T false v := by
  cases h with
  | oneLine h => cases h
  | hash he hk ha hv => exact ⟨hk _ _ _ hm, fun n => ha _ _ _ n hm, hv _ _ _ hm⟩

theorem simple_items {keeps : List Str} {od : List HashData} {b b' : Bool} (h : Simple T b (.hash od)) (g : Option Str) :
    Simple T b' (.hash (itemsOf sel keeps od g)) := by
  refine Spec.Simple.of_mem (ds := []) (.hash (by simp) (by simp) (by simp) (by simp)) fun d hd => .inr ?_
  obtain ⟨d0, hm, rfl⟩ := itemsOf_mem hd
  have hel : ∃ e, d0 = .element e := by cases h with
    | oneLine h => cases h
    | hash he => exact he _ hm
  obtain ⟨⟨k, a, v⟩, rfl⟩ := hel
  obtain ⟨h1, h2, h3⟩ := simple_entry h hm
  obtain ⟨v', he, rfl | ⟨ds, rfl, rfl⟩⟩ := strip_entry (sel := sel) (k := k) (a := a) (v := v)
  · exact ⟨k, a, _, he, h1, h2, h3⟩
  · refine ⟨k, a, _, he, h1, fun n hn => ?_, h3.of_mem fun d hd => .inl (mem_dropFirst hd)⟩
    obtain ⟨-, h4, -⟩ := h2 n hn
    cases h4

/-- What the selector texts must be: texts to keep, empty, or texts that can be keys. -/
def GroupNames (T : CharTables) (keeps : List Str) (s : Str) : Prop := s ∈ keeps ∨ s = [] ∨ KeyText T s

theorem regroup_simple {old new : Str} {keeps : List Str} {ds ds' : List HashData} (hnew : KeyText T new)
    (h : (new ∉ keysOf ds ∧ Regrouped old sel new keeps ds ds') ∨ (new ∈ keysOf ds ∧ GroupsLost old sel keeps ds ds'))
    (hsel : SelectorTexts sel (GroupNames T keeps) (.hash ds)) {b : Bool} (hs : Simple T b (.hash ds)) : Simple T b (.hash ds') := by
  refine hs.of_mem fun d hd => ?_
  rcases h with ⟨-, @⟨pre, a, od, post, gs, hf, -, hn⟩⟩ | ⟨-, @⟨pre, a, od, post, hf⟩⟩
  · have hin : HashData.element ⟨old, ⟨a, .hash od⟩⟩ ∈ ds := by rw [hf.1]; simp
    obtain ⟨h1, h2, h3⟩ := simple_entry hs hin
    have ha : ∀ n, a = some n → ∀ l : List HashData, NameText T n ∧ OneLine T (.hash l) ∧ Commentable (.hash l) := by
      intro n hn l
      obtain ⟨-, h4, -⟩ := h2 n hn
      cases h4
    rcases List.mem_append.1 hd with hd | hd
    · rcases List.mem_append.1 hd with hd | hd
      · exact .inl (by rw [hf.1]; simp [hd])
      · rcases List.mem_cons.1 hd with rfl | hd
        · exact .inr ⟨_, _, _, rfl, h1, fun n hn => ha n hn _, simple_items h3 _⟩
        · exact .inl (by rw [hf.1]; simp [hd])
    · simp only [List.mem_singleton] at hd
      subst hd
      refine .inr ⟨_, _, _, rfl, hnew, fun n hn => ha n hn _, ?_⟩
      refine Spec.Simple.of_mem (ds := []) (.hash (by simp) (by simp) (by simp) (by simp)) fun d hd => ?_
      obtain ⟨g, hg, rfl⟩ := List.mem_map.1 hd
      refine .inr ⟨_, _, _, rfl, ?_, by simp, simple_items h3 _⟩
      obtain ⟨k, ⟨ka, kv⟩, hm, hgr⟩ := (hn g).1 hg
      have hk := (hsel.entries.2 _ _ _ hin).entries.2 _ _ _ hm
      simp only [groupOf, selectorText] at hgr
      cases kv with
      | hash kd =>
        simp only at hgr
        cases hfi : firstIn sel kd with
        | none => simp [hfi] at hgr
        | some w =>
          obtain ⟨wa, w⟩ := w
          cases hst : w.asString with
          | none => simp [hfi, hst] at hgr
          | some s =>
            simp only [hfi, Option.bind_some, hst] at hgr
            split at hgr
            · cases hgr
            · rename_i hno
              cases hgr
              rcases hk.entries.1 _ _ _ (firstIn_mem hfi) hst with h | h | h
              · exact absurd (.inl h) hno
              · exact absurd (.inr h) hno
              · exact h
      | _ => simp at hgr
  · have hin : HashData.element ⟨old, ⟨a, .hash od⟩⟩ ∈ ds := by rw [hf.1]; simp
    obtain ⟨h1, h2, h3⟩ := simple_entry hs hin
    rcases List.mem_append.1 hd with hd | hd
    · exact .inl (by rw [hf.1]; simp [hd])
    · rcases List.mem_cons.1 hd with rfl | hd
      · refine .inr ⟨_, _, _, rfl, h1, fun n hn => ?_, simple_items h3 _⟩
        obtain ⟨-, h4, -⟩ := h2 n hn
        cases h4
      · exact .inl (by rw [hf.1]; simp [hd])

/-- **C55.** Regrouping a map of a simple document gives a simple document, if the texts of the selectors can be keys; and if no mapping has become empty its
formatted text parses to it. -/
theorem C55_simple_regroup (d : Document) (path : YamlPath) {old sel new : Str} {keeps : List Str} (hd : SimpleDocument T d) (hk : KeyText T new)
    (ho : CleanKey old) (hsel : CleanKey sel) (hnew : CleanKey new)
    (hg : ∀ y, DocumentData.yaml y ∈ d.items → SelectorTexts sel (fun s => s ∈ keeps ∨ s = [] ∨ KeyText T s) y) :
    StaysSimple T (d.moveToMap path old sel new keeps).2 := by
  obtain ⟨n, hok⟩ := C27_succeeds d path (keeps := keeps) (clean_path ho) (clean_path hsel) (clean_path hnew)
  have he := docEdits_selectors (fun _ _ h => regroup_selectors h) (C27_move_to_map d path ho hsel hnew hok) hg
  exact staysSimple (docEdits_simple hd he fun ds ds' h b hs => regroup_simple hk h.1 h.2 hs)

/-- **C70.** Regrouping, for texts: a simple document with no references and no flow collections whose selector texts can be keys, if no mapping becomes empty. The
text of the regrouped document has the value that is described in C70. -/
theorem C70_regroup_text (T : CharTables) (Γ : Nat → Ty) (s : Str) (d : Document) (path : YamlPath) {old sel new : Str} {keeps : List Str}
    (hp : parseYamlFile T s = .ok d) (hd : SimpleDocument T d) (hk : KeyText T new) (ho : CleanKey old) (hsel : CleanKey sel) (hnew : CleanKey new)
    (hg : ∀ y, DocumentData.yaml y ∈ d.items → SelectorTexts sel (fun s => s ∈ keeps ∨ s = [] ∨ KeyText T s) y) (hr : DocNoRefs d)
    (hfl : ∀ y ∈ yamlItems d, NoFlow y)
    (he : ∀ y, DocumentData.yaml y ∈ (d.moveToMap path old sel new keeps).2.items → NoEmptyMapping y) :
    ∃ n m m' v v', (d.moveToMap path old sel new keeps).1 = .ok n ∧ fromYamlStr T Γ m .any s = .ok v ∧
      fromYamlStr T Γ m' .any (d.moveToMap path old sel new keeps).2.format = .ok v' ∧
      ValueEdits (fun es es' => ((∀ x, (.str new, x) ∉ es) ∧ RegroupsPairs old sel new keeps es es') ∨ LosesGroups old sel new keeps es es') n v v' := by
  obtain ⟨root, hroot, -⟩ := (C47_text T Γ 0 .any s).1 d hp
  obtain ⟨v, hv, -⟩ := C65_has_value Γ d hr hroot
  obtain ⟨n, hok⟩ := C27_succeeds d path (keeps := keeps) (clean_path ho) (clean_path hsel) (clean_path hnew)
  obtain ⟨v', hv', hed⟩ := C70_regroup Γ d path ho hsel hnew hok hr hfl hv
  obtain ⟨m, h1⟩ := (docHasValue_text T Γ hp v).1 hv
  obtain ⟨m', h2⟩ := (docHasValue_text T Γ ((C55_simple_regroup d path hd hk ho hsel hnew hg).2 he) v').1 hv'
  exact ⟨n, m, m', v, v', hok, h1, h2, hed⟩

/-! ## examples -/

theorem movable_simple : SimpleDocument asciiTables movable := by
  have hk : ∀ {k : Str}, _ → KeyText asciiTables k := fun h => keyText_of (k := _) h
  refine ⟨by simp [movable, docOf], [], [], _, rfl, by simp, .inl ⟨_, rfl⟩, simple_hash (es := [(_, _)]) ?_ ?_⟩ <;>
    simp only [List.mem_cons, Prod.mk.injEq, List.not_mem_nil, or_false] <;> rintro k v ⟨rfl, rfl⟩
  · exact hk (by decide)
  refine simple_hash (es := [(_, _), (_, _), (_, _)]) ?_ ?_ <;> simp only [List.mem_cons, Prod.mk.injEq, List.not_mem_nil, or_false] <;>
    rintro k v (⟨rfl, rfl⟩ | ⟨rfl, rfl⟩ | ⟨rfl, rfl⟩)
  iterate 3 exact hk (by decide)
  all_goals
    refine simple_hash (es := [(_, _), (_, _)]) ?_ ?_ <;> simp only [List.mem_cons, Prod.mk.injEq, List.not_mem_nil, or_false] <;>
      rintro k v (⟨rfl, rfl⟩ | ⟨rfl, rfl⟩) <;> first | exact hk (by decide) | exact simple_plain (by decide)

theorem movable_selectors : ∀ y, DocumentData.yaml y ∈ movable.items →
    SelectorTexts c!"kind" (fun s => s ∈ [c!"main"] ∨ s = [] ∨ KeyText asciiTables s) y := by
  intro y hy
  simp only [movable, docOf, List.mem_singleton, DocumentData.yaml.injEq] at hy
  subst hy
  have hk : ∀ {k : Str}, _ → KeyText asciiTables k := fun h => keyText_of (k := _) h
  have leaf : ∀ s P, SelectorTexts c!"kind" P (plain s) := fun s P => .other (by simp [plain]) (by simp [plain]) (by simp [plain])
  refine .hash ?_ ?_ <;> simp only [kv, List.mem_singleton, HashData.element.injEq, HashElement.mk.injEq, AliasedYaml.mk.injEq, and_imp]
  · intro a v s h; exact absurd h (by decide)
  rintro _ _ _ rfl rfl rfl
  refine .hash ?_ ?_ <;> simp only [List.mem_cons, HashData.element.injEq, HashElement.mk.injEq, AliasedYaml.mk.injEq, List.not_mem_nil, or_false]
  · rintro a v s (⟨h, -⟩ | ⟨h, -⟩ | ⟨h, -⟩) <;> exact absurd h (by decide)
  rintro _ _ _ (⟨rfl, rfl, rfl⟩ | ⟨rfl, rfl, rfl⟩ | ⟨rfl, rfl, rfl⟩) <;> refine .hash ?_ ?_ <;>
    simp only [List.mem_cons, HashData.element.injEq, HashElement.mk.injEq, AliasedYaml.mk.injEq, List.not_mem_nil, or_false] <;>
    first
    | (rintro _ _ _ (⟨rfl, rfl, rfl⟩ | ⟨rfl, rfl, rfl⟩) <;> exact leaf _ _)
    | (rintro _ _ s (⟨h, -, rfl⟩ | ⟨h, -, rfl⟩) hs <;>
        first
        | exact absurd h (by decide)
        | (cases hs; first | exact .inr (.inr (hk (by decide))) | exact .inl rfl))

/-- A regrouping that meets the hypotheses of both theorems, with its text. -/
example :
    let q := movable.moveToMap (.root []) c!"jobs" c!"kind" c!"groups" [c!"main"]
    q.1 = .ok 1 ∧ q.2.format = c!"---\njobs:\n  c:\n    n: 3\ngroups:\n  fast:\n    a:\n      n: 1\n  slow:\n    b:\n      n: 2" ∧
    StaysSimple asciiTables q.2 ∧ parseYamlFile asciiTables q.2.format = .ok q.2 := by
  refine ⟨by kernel_rfl, by decide +kernel, C55_simple_regroup _ _ movable_simple (keyText_of (by decide)) (cleanText (by decide)) (cleanText (by decide))
    (cleanText (by decide)) movable_selectors, by kernel_rfl⟩

/-- A selector text that cannot be a key: the text of the regrouped document has another meaning. -/
theorem C55_counterexample_selector :
    editedText (fun d => (d.moveToMap (.root []) c!"jobs" c!"kind" c!"groups" []).2) c!"---\njobs:\n  a:\n    kind: \"x: y\"\n    n: 1\n  b:\n    n: 2\n" =
      .ok (docOf (.hash [kv c!"jobs" (.hash [kv c!"b" (.hash [kv c!"n" (plain c!"2")])]),
        kv c!"groups" (.hash [kv c!"x: y" (.hash [kv c!"a" (.hash [kv c!"n" (plain c!"1")])])])]),
        docOf (.hash [kv c!"jobs" (.hash [kv c!"b" (.hash [kv c!"n" (plain c!"2")])]),
          kv c!"groups" (.hash [kv c!"x" (.hash [kv c!"y" (.hash [kv c!"a" (.hash [kv c!"n" (plain c!"1")])])])])])) := by kernel_rfl

end YamlSubset
