import Verif.Lemmas.BreaksSafe

/-! # Consuming related parse trees -/

namespace YamlSubset

open Peg Spec

variable {T : CharTables}

theorem SameOut.bind {α β α' β' : Type} {R : α → α' → Prop} {S : β → β' → Prop} {x : Out α} {x' : Out α'} {f : α → Out β} {f' : α' → Out β'}
    (h : SameOut R x x') (hf : ∀ a a', R a a' → SameOut S (f a) (f' a')) : SameOut S (x.bind f) (x'.bind f') := by
  cases x <;> cases x' <;> first | exact h.elim | exact hf _ _ h | exact trivial

theorem SameOut.eq {α : Type} (x : Out α) : SameOut Eq x x := by cases x <;> first | rfl | trivial

theorem SameOut.mono {α β : Type} {R S : α → β → Prop} {x : Out α} {x' : Out β} (h : SameOut R x x') (hs : ∀ a b, R a b → S a b) :
    SameOut S x x' := by
  cases x <;> cases x' <;> first | exact h.elim | exact hs _ _ h | exact trivial

/-- Lists of the same length with related elements. -/
inductive List2 {α β : Type} (R : α → β → Prop) : List α → List β → Prop
  | nil : List2 R [] []
  | cons {a b l l'} (h : R a b) (t : List2 R l l') : List2 R (a :: l) (b :: l')

theorem List2.eq {α : Type} {l l' : List α} (h : List2 Eq l l') : l = l' := by
  induction h with
  | nil => rfl
  | cons h _ ih => rw [h, ih]

/-! ## alike trees -/

theorem Spec.AlikeItems.append {a a' b b' : List HashData} (h : AlikeItems a a') (h' : AlikeItems b b') : AlikeItems (a ++ b) (a' ++ b') := by
  induction a generalizing a' with
  | nil => cases h; exact h'
  | cons x a ih =>
    cases h with
    | comment h => exact .comment (ih h)
    | inlineComment h => exact .inlineComment (ih h)
    | element hv h => exact .element hv (ih h)

theorem Spec.AlikeItems.refl (a : List HashData) : AlikeItems a a := by
  induction a with
  | nil => exact .nil
  | cons x a ih =>
    cases x with
    | comment c => exact .comment ih
    | inlineComment c => exact .inlineComment ih
    | element e => obtain ⟨k, a, y⟩ := e; exact .element (.same y) ih

theorem Spec.AlikeItems.flatten {l l' : List (List HashData)} (h : List2 AlikeItems l l') : AlikeItems l.flatten l'.flatten := by
  induction h with
  | nil => exact .nil
  | cons h _ ih => exact AlikeItems.append h ih

theorem Spec.AlikeElements.append {a a' b b' : List ArrayData} (h : AlikeElements a a') (h' : AlikeElements b b') : AlikeElements (a ++ b) (a' ++ b') := by
  induction a generalizing a' with
  | nil => cases h; exact h'
  | cons x a ih =>
    cases h with
    | comment h => exact .comment (ih h)
    | inlineComment h => exact .inlineComment (ih h)
    | element hv h => exact .element hv (ih h)

theorem Spec.AlikeElements.refl (a : List ArrayData) : AlikeElements a a := by
  induction a with
  | nil => exact .nil
  | cons x a ih =>
    cases x with
    | comment c => exact .comment ih
    | inlineComment c => exact .inlineComment ih
    | element e => obtain ⟨a, y⟩ := e; exact .element (.same y) ih

theorem Spec.AlikeElements.flatten {l l' : List (List ArrayData)} (h : List2 AlikeElements l l') : AlikeElements l.flatten l'.flatten := by
  induction h with
  | nil => exact .nil
  | cons h _ ih => exact AlikeElements.append h ih

theorem Spec.LinesAlike.append {a a' b b' : List Str} (h : LinesAlike a a') (h' : LinesAlike b b') : LinesAlike (a ++ b) (a' ++ b') := by
  refine ⟨by rw [List.filter_append, List.filter_append, h.1, h'.1], ?_⟩
  intro hn
  simp only [List.mem_append, not_or] at hn
  rw [h.2 hn.1, h'.2 hn.2]

theorem Spec.LinesAlike.refl (a : List Str) : LinesAlike a a := ⟨rfl, fun _ => rfl⟩

theorem Spec.LinesAlike.flatten {R : List Str → List Str → Prop} (hR : ∀ a b, R a b → LinesAlike a b) {l l' : List (List Str)} (h : List2 R l l') :
    LinesAlike l.flatten l'.flatten := by
  induction h with
  | nil => exact LinesAlike.refl _
  | cons h _ ih => exact LinesAlike.append (hR _ _ h) ih

/-! ## projections -/

section
variable {v v' : Val}
theorem asStr_rel (h : VRel v v') : SameOut Eq v.asStr v'.asStr := by cases h <;> first | exact SameOut.eq _ | trivial
theorem asStrs_rel (h : VRel v v') : SameOut Eq v.asStrs v'.asStrs := by cases h <;> first | exact SameOut.eq _ | trivial
theorem asOptNat_rel (h : VRel v v') : SameOut Eq v.asOptNat v'.asOptNat := by cases h <;> first | exact SameOut.eq _ | trivial
theorem asChomping_rel (h : VRel v v') : SameOut Eq v.asChomping v'.asChomping := by cases h <;> first | exact SameOut.eq _ | trivial
theorem asYaml_rel (h : VRel v v') : SameOut Alike v.asYaml v'.asYaml := by
  cases h with
  | yaml h => exact h
  | same v => exact (SameOut.eq _).mono fun a b h => h ▸ .same a
  | _ => trivial
/-- Entries. -/
def EntryRel (a b : Str × Yaml) : Prop := a.1 = b.1 ∧ Alike a.2 b.2
theorem asEntry_rel (h : VRel v v') : SameOut EntryRel v.asEntry v'.asEntry := by
  cases h with
  | entry h => exact ⟨rfl, h⟩
  | same v => exact (SameOut.eq _).mono fun a b h => h ▸ ⟨rfl, .same _⟩
  | _ => trivial
/-- Anchored values. -/
inductive AliasedRel : AliasedYaml → AliasedYaml → Prop
  | mk {a y y'} (h : Alike y y') : AliasedRel ⟨a, y⟩ ⟨a, y'⟩
theorem asAliased_rel (h : VRel v v') : SameOut AliasedRel v.asAliased v'.asAliased := by
  cases h with
  | aliased h => exact .mk h
  | same v => refine (SameOut.eq _).mono ?_; rintro ⟨a, y⟩ b rfl; exact .mk (.same _)
  | _ => trivial
/-- Entries of block mappings. -/
inductive ElementRel : HashElement → HashElement → Prop
  | mk {k a y y'} (h : Alike y y') : ElementRel ⟨k, ⟨a, y⟩⟩ ⟨k, ⟨a, y'⟩⟩
theorem asHashElement_rel (h : VRel v v') : SameOut ElementRel v.asHashElement v'.asHashElement := by
  cases h with
  | hashElement h => exact .mk h
  | same v => refine (SameOut.eq _).mono ?_; rintro ⟨k, a, y⟩ b rfl; exact .mk (.same _)
  | _ => trivial
theorem asHashData_rel (h : VRel v v') : SameOut AlikeItems v.asHashData v'.asHashData := by
  cases h with
  | hashData h => exact h
  | same v => exact (SameOut.eq _).mono fun a b h => h ▸ AlikeItems.refl a
  | _ => trivial
/-- Items of block sequences. -/
inductive DatumRel : ArrayData → ArrayData → Prop
  | same (d : ArrayData) : DatumRel d d
  | mk {a y y'} (h : Alike y y') : DatumRel (.element ⟨a, y⟩) (.element ⟨a, y'⟩)
theorem asArrayDatum_rel (h : VRel v v') : SameOut DatumRel v.asArrayDatum v'.asArrayDatum := by
  cases h with
  | arrayDatum h => exact .mk h
  | same v => exact (SameOut.eq _).mono fun a b h => h ▸ .same a
  | _ => trivial
theorem asArrayData_rel (h : VRel v v') : SameOut AlikeElements v.asArrayData v'.asArrayData := by
  cases h with
  | arrayData h => exact h
  | same v => exact (SameOut.eq _).mono fun a b h => h ▸ AlikeElements.refl a
  | _ => trivial
end

theorem DatumRel.items {d d' : ArrayData} (h : DatumRel d d') {ds ds' : List ArrayData} (hs : AlikeElements ds ds') :
    AlikeElements (d :: ds) (d' :: ds') := by
  cases h with
  | same d =>
    cases d with
    | comment c => exact .comment hs
    | inlineComment c => exact .inlineComment hs
    | element e => obtain ⟨a, y⟩ := e; exact .element (.same y) hs
  | mk h => exact .element h hs

/-! ## children -/

/-- Lines of block scalars. -/
def VLines (v v' : Val) : Prop := ∃ l l', v = .strs l ∧ v' = .strs l' ∧ LinesAlike l l'
/-- Lines of block scalars with the same first line. -/
def VLinesH (v v' : Val) : Prop := ∃ l l', v = .strs l ∧ v' = .strs l' ∧ LinesAlike l l' ∧ l.head? = l'.head?

/-- Related results of a rule. -/
def VR : Rule → Val → Val → Prop
  | .block_empty_lines | .string_multiline_content_part | .string_multiline_content => VLinesH
  | .string_multiline_trailing => VLines
  | _ => VRel

/-- Related children. -/
inductive KidsRel : Kids → Kids → Prop
  | nil : KidsRel [] []
  | cons {r o o' ks ks'} (h : SameOut (VR r) o o') (t : KidsRel ks ks') : KidsRel ((r, o) :: ks) ((r, o') :: ks')

theorem asLines_rel {v v' : Val} (h : VLinesH v v') : SameOut (fun l l' => LinesAlike l l' ∧ l.head? = l'.head?) v.asStrs v'.asStrs := by
  obtain ⟨l, l', rfl, rfl, h⟩ := h; exact h
theorem asTrailing_rel {v v' : Val} (h : VLines v v') : SameOut LinesAlike v.asStrs v'.asStrs := by
  obtain ⟨l, l', rfl, rfl, h⟩ := h; exact h

theorem many_rel {α : Type} {Q : α → α → Prop} {r : Rule} {as : Val → Out α} (has : ∀ v v', VR r v v' → SameOut Q (as v) (as v'))
    {ks ks' : Kids} (h : KidsRel ks ks') : SameOut (List2 Q) (many r as ks) (many r as ks') := by
  induction h with
  | nil => exact List2.nil
  | @cons q o o' ks ks' h t ih =>
    simp only [many]
    split
    · rename_i hq
      subst hq
      exact h.bind fun v v' hv => (has v v' hv).bind fun a a' ha => ih.bind fun l l' hl => List2.cons ha hl
    · trivial

theorem manyThen_rel {α β : Type} {Q : α → α → Prop} {S : β → β → Prop} {r last : Rule} {as : Val → Out α} {asLast : Val → Out β}
    (has : ∀ v v', VR r v v' → SameOut Q (as v) (as v')) (hlast : ∀ v v', VR last v v' → SameOut S (asLast v) (asLast v'))
    {ks ks' : Kids} (h : KidsRel ks ks') :
    SameOut (fun p p' => List2 Q p.1 p'.1 ∧ S p.2 p'.2) (manyThen r as last asLast ks) (manyThen r as last asLast ks') := by
  induction h with
  | nil => trivial
  | @cons q o o' ks ks' h t ih =>
    simp only [manyThen]
    have hnil : ks = [] ↔ ks' = [] := by cases t <;> simp
    by_cases hq : q = last ∧ ks = []
    · have hq' : q = last ∧ ks' = [] := ⟨hq.1, hnil.1 hq.2⟩
      simp only [if_pos hq, if_pos hq']
      obtain ⟨rfl, -⟩ := hq
      exact h.bind fun v v' hv => (hlast v v' hv).bind fun b b' hb => ⟨List2.nil, hb⟩
    · have hq' : ¬(q = last ∧ ks' = []) := fun h => hq ⟨h.1, hnil.2 h.2⟩
      simp only [if_neg hq, if_neg hq']
      by_cases hr : q = r
      · subst hr
        rw [if_pos rfl, if_pos rfl]
        exact h.bind fun v v' hv => (has v v' hv).bind fun a a' ha => ih.bind fun p p' hp => ⟨List2.cons ha hp.1, hp.2⟩
      · rw [if_neg hr, if_neg hr]; trivial

theorem kidsr_cons {ks ks' : Kids} {r : Rule} {l : List Rule} (hl : ks.map Prod.fst = r :: l) (h : KidsRel ks ks') :
    ∃ o o' t t', ks = (r, o) :: t ∧ ks' = (r, o') :: t' ∧ SameOut (VR r) o o' ∧ t.map Prod.fst = l ∧ KidsRel t t' := by
  obtain ⟨o, t, rfl, ht⟩ := kids_cons hl
  cases h with
  | cons h hs => exact ⟨o, _, t, _, rfl, rfl, h, ht, hs⟩

theorem kidsr_nil {ks ks' : Kids} (hl : ks.map Prod.fst = []) (h : KidsRel ks ks') : ks = [] ∧ ks' = [] := by
  obtain rfl := List.map_eq_nil_iff.1 hl
  cases h
  exact ⟨rfl, rfl⟩

theorem kidsr1 {ks ks' : Kids} {r : Rule} (hl : ks.map Prod.fst = [r]) (h : KidsRel ks ks') :
    ∃ o o', ks = [(r, o)] ∧ ks' = [(r, o')] ∧ SameOut (VR r) o o' := by
  obtain ⟨o, o', t, t', rfl, rfl, h1, hl, h⟩ := kidsr_cons hl h
  obtain ⟨rfl, rfl⟩ := kidsr_nil hl h
  exact ⟨o, o', rfl, rfl, h1⟩

theorem kidsr2 {ks ks' : Kids} {r q : Rule} (hl : ks.map Prod.fst = [r, q]) (h : KidsRel ks ks') :
    ∃ o o' p p', ks = [(r, o), (q, p)] ∧ ks' = [(r, o'), (q, p')] ∧ SameOut (VR r) o o' ∧ SameOut (VR q) p p' := by
  obtain ⟨o, o', t, t', rfl, rfl, h1, hl, h⟩ := kidsr_cons hl h
  obtain ⟨p, p', rfl, rfl, h2⟩ := kidsr1 hl h
  exact ⟨o, o', p, p', rfl, rfl, h1, h2⟩

theorem kidsr3 {ks ks' : Kids} {r q s : Rule} (hl : ks.map Prod.fst = [r, q, s]) (h : KidsRel ks ks') :
    ∃ o o' p p' u u', ks = [(r, o), (q, p), (s, u)] ∧ ks' = [(r, o'), (q, p'), (s, u')] ∧ SameOut (VR r) o o' ∧ SameOut (VR q) p p' ∧
      SameOut (VR s) u u' := by
  obtain ⟨o, o', t, t', rfl, rfl, h1, hl, h⟩ := kidsr_cons hl h
  obtain ⟨p, p', u, u', rfl, rfl, h2, h3⟩ := kidsr2 hl h
  exact ⟨o, o', p, p', u, u', rfl, rfl, h1, h2, h3⟩

/-! ## the lines of block scalars -/

theorem all_unwrap (o : Str → Option Str) (l : List Str) :
    Out.all (l.map fun x => Out.unwrapOpt (o x)) = if l.all (fun x => (o x).isSome) then .ok (l.filterMap o) else .panic := by
  induction l with
  | nil => rfl
  | cons x l ih =>
    rw [List.map_cons, Out.all, ih, List.all_cons]
    rcases Option.eq_none_or_eq_some (o x) with hx | ⟨y, hx⟩
    · rw [hx]; rfl
    · rw [List.filterMap_cons_some hx, hx]
      cases l.all (fun x => (o x).isSome) <;> rfl

theorem slice_rel {o : Str → Option Str} (ho : o [] = some []) {l l' : List Str} (h : LinesAlike l l') :
    SameOut LinesAlike (Out.all (l.map fun x => Out.unwrapOpt (o x))) (Out.all (l'.map fun x => Out.unwrapOpt (o x))) := by
  have hall : ∀ l : List Str, l.all (fun x => (o x).isSome) = (l.filter (· ≠ [])).all (fun x => (o x).isSome) := by
    intro l
    induction l with
    | nil => rfl
    | cons x l ih =>
      by_cases hx : x = []
      · subst hx; simp [ho, ih]
      · simp [hx, ih]
  have hfil : ∀ l : List Str, (l.filterMap o).filter (· ≠ []) = ((l.filter (· ≠ [])).filterMap o).filter (· ≠ []) := by
    intro l
    induction l with
    | nil => rfl
    | cons x l ih =>
      by_cases hx : x = []
      · subst hx
        simp only [List.filterMap_cons, ho]
        simpa using ih
      · simp only [List.filterMap_cons, List.filter_cons, hx, ne_eq, not_false_eq_true, decide_true, if_true]
        cases o x with
        | none => simpa using ih
        | some y => simp only [List.filter_cons]; split <;> simpa using ih
  rw [all_unwrap, all_unwrap, hall l, hall l', h.1]
  split
  · refine ⟨by rw [hfil l, hfil l', h.1], ?_⟩
    intro hn
    rw [h.2]
    intro hm
    exact hn (List.mem_filterMap.2 ⟨[], hm, ho⟩)
  · trivial

theorem clean_rel {i : Option Nat} {l l' : List Str} (h : LinesAlike l l') (hh : l.head? = l'.head?) :
    SameOut LinesAlike (cleanMultilineStrings i l) (cleanMultilineStrings i l') := by
  have e : ∀ n (l : List Str), (l.map fun x => if x.isEmpty then Out.ok x else Out.unwrapOpt (sliceFrom n x)) =
      l.map fun x => Out.unwrapOpt (if x.isEmpty then some x else sliceFrom n x) := by
    intro n l
    apply List.map_congr_left
    intro x _
    cases x <;> rfl
  have key : ∀ n, SameOut LinesAlike (Out.all (l.map fun x => if x.isEmpty then Out.ok x else Out.unwrapOpt (sliceFrom n x)))
      (Out.all (l'.map fun x => if x.isEmpty then Out.ok x else Out.unwrapOpt (sliceFrom n x))) := by
    intro n
    rw [e, e]
    exact slice_rel (o := fun x => if x.isEmpty then some x else sliceFrom n x) rfl h
  simp only [cleanMultilineStrings]
  cases i with
  | some n => exact key n
  | none =>
    cases l with
    | nil =>
      cases l' with
      | nil => trivial
      | cons => cases hh
    | cons a l =>
      cases l' with
      | nil => cases hh
      | cons b l' =>
        simp only [List.head?_cons, Option.some.injEq] at hh
        subst hh
        exact key _

theorem multiline_rel {mk : List Str → BlockChomping → Yaml} (hmk : ∀ c l l', LinesAlike l l' → Alike (mk l c) (mk l' c)) {ks ks' : Kids}
    (hl : ks.map Prod.fst = [.string_block_chomping, .string_multiline_indent, .string_multiline_content] ∨
      ks.map Prod.fst = [.string_multiline_indent, .string_multiline_content]) (h : KidsRel ks ks') :
    SameOut VRel (Consume.stringMultiline mk ks) (Consume.stringMultiline mk ks') := by
  rcases hl with hl | hl
  · obtain ⟨o, o', p, p', u, u', rfl, rfl, h1, h2, h3⟩ := kidsr3 hl h
    refine h1.bind fun v v' hv => (asChomping_rel hv).bind ?_
    rintro c c' rfl
    refine h2.bind fun v v' hv => (asOptNat_rel hv).bind ?_
    rintro i i' rfl
    exact h3.bind fun v v' hv => (asLines_rel hv).bind fun l l' hl => (clean_rel hl.1 hl.2).bind fun m m' hm => .yaml (hmk c _ _ hm)
  · obtain ⟨o, o', p, p', rfl, rfl, h1, h2⟩ := kidsr2 hl h
    refine h1.bind fun v v' hv => (asOptNat_rel hv).bind ?_
    rintro i i' rfl
    exact h2.bind fun v v' hv => (asLines_rel hv).bind fun l l' hl => (clean_rel hl.1 hl.2).bind fun m m' hm => .yaml (hmk .clip _ _ hm)

end YamlSubset
