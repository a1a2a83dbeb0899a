import Verif.Lemmas.TypedSer
import Verif.Lemmas.Decode
import Verif.Props.MapVisit

/-! # Only lossless values are read back -/

namespace YamlSubset

open Spec

/-! ## Elements and entries are children -/

theorem child_of_seqElements {y : Yaml} {ys : List Yaml} {w : Yaml} (h : seqElements y = some ys) (hw : w ∈ ys) :
    Child w y := by
  cases y <;> simp only [seqElements, Option.some.injEq, reduceCtorEq] at h <;> subst h
  · exact .inlineArray hw
  · exact child_of_elementsOf hw

theorem child_of_mapPairs {y : Yaml} {es : List (Str × Yaml)} {k : Str} {w : Yaml} (h : mapPairs y = some es)
    (hw : (k, w) ∈ es) : Child w y := by
  cases y <;> simp only [mapPairs, Option.some.injEq, reduceCtorEq] at h <;> subst h
  · exact .inlineHash hw
  · exact child_of_entriesOf (List.mem_map.2 ⟨_, hw, rfl⟩)

theorem mem_of_child {c y : Yaml} (h : Child c y) :
    (∃ ys, seqElements y = some ys ∧ c ∈ ys) ∨ ∃ es k, mapPairs y = some es ∧ (k, c) ∈ es := by
  cases h with
  | inlineHash h => exact .inr ⟨_, _, rfl, h⟩
  | hash h =>
    have := entriesOf_of_child (.hash h)
    rw [List.mem_map] at this
    obtain ⟨⟨k, v⟩, h1, rfl⟩ := this
    exact .inr ⟨_, k, rfl, h1⟩
  | inlineArray h => exact .inl ⟨_, rfl, h⟩
  | array h => exact .inl ⟨_, rfl, elementsOf_of_child (.array h)⟩

theorem child_sizeOf {c y : Yaml} (h : Child c y) : sizeOf c < sizeOf y := by
  cases h with
  | inlineHash h => have := List.sizeOf_lt_of_mem h; simp at this ⊢; omega
  | hash h => have := List.sizeOf_lt_of_mem h; simp at this ⊢; omega
  | inlineArray h => have := List.sizeOf_lt_of_mem h; simp at this ⊢; omega
  | array h => have := List.sizeOf_lt_of_mem h; simp at this ⊢; omega

theorem childRec {P : Yaml → Prop} (h : ∀ y, (∀ c, Child c y → P c) → P y) (y : Yaml) : P y :=
  h y fun c hc => childRec h c
termination_by sizeOf y
decreasing_by exact child_sizeOf hc

/-! ## Depth -/

/-- `Deep y n`: `y` has at least `n` levels of collections. -/
inductive Deep : Yaml → Nat → Prop
  | zero (y) : Deep y 0
  | seq {y ys} (h : seqElements y = some ys) : Deep y 1
  | map {y es} (h : mapPairs y = some es) : Deep y 1
  | elem {y ys w n} (h : seqElements y = some ys) (hw : w ∈ ys) (hd : Deep w n) : Deep y (n + 1)
  | entry {y es k w n} (h : mapPairs y = some es) (hw : (k, w) ∈ es) (hd : Deep w n) : Deep y (n + 1)

theorem Deep.bound {y : Yaml} {n : Nat} (h : Deep y n) : n ≤ sizeOf y := by
  have pos : ∀ y : Yaml, 1 ≤ sizeOf y := by intro y; cases y <;> simp <;> omega
  induction h with
  | zero => omega
  | seq => exact pos _
  | map => exact pos _
  | elem h hw _ ih => have := child_sizeOf (child_of_seqElements h hw); omega
  | entry h hw _ ih => have := child_sizeOf (child_of_mapPairs h hw); omega

theorem Deep.mono {y : Yaml} {n : Nat} (h : Deep y n) : ∀ m, m ≤ n → Deep y m := by
  induction h with
  | zero => intro m hm; obtain rfl : m = 0 := by omega
            exact .zero _
  | seq h => intro m hm; match m, hm with
    | 0, _ => exact .zero _
    | 1, _ => exact .seq h
  | map h => intro m hm; match m, hm with
    | 0, _ => exact .zero _
    | 1, _ => exact .map h
  | elem h hw _ ih =>
    intro m hm
    match m with
    | 0 => exact .zero _
    | m + 1 => exact .elem h hw (ih m (by omega))
  | entry h hw _ ih =>
    intro m hm
    match m with
    | 0 => exact .zero _
    | m + 1 => exact .entry h hw (ih m (by omega))

/-- The content of a variant is not deeper than the node, and less deep if it is in the node. -/
theorem Deep.variant {y c : Yaml} {name : Str} {n : Nat} (hc : VariantParts y name c) (h : Deep c n) :
    Deep y n ∧ ((∀ s, scalarText y ≠ some s) → Deep y (n + 1)) := by
  cases hc with
  | name hs =>
    have : n = 0 := by
      cases h with
      | zero => rfl
      | seq h => cases h
      | map h => cases h
      | elem h => cases h
      | entry h => cases h
    subst this
    exact ⟨.zero _, fun h => absurd hs (h _)⟩
  | entry he =>
    have := Deep.entry he (List.mem_singleton.2 rfl) h
    exact ⟨this.mono n (by omega), fun _ => this⟩

theorem Deep.of_scalar {y : Yaml} {n : Nat} (h : Deep y n) {s : Str} (hs : scalarText y = some s) : n = 0 := by
  cases h with
  | zero => rfl
  | seq h => cases y <;> simp [seqElements, scalarText] at h hs
  | map h => cases y <;> simp [mapPairs, scalarText] at h hs
  | elem h => cases y <;> simp [seqElements, scalarText] at h hs
  | entry h => cases y <;> simp [mapPairs, scalarText] at h hs

theorem elementsOf_seqNode (ys : List Yaml) : seqElements (seqNode ys) = some ys := by
  simp only [seqNode, seqElements, elementsOf, Option.some.injEq, List.filterMap_map]
  induction ys with
  | nil => rfl
  | cons y t ih => simp only [List.filterMap_cons, Function.comp_apply] ; rw [ih]

theorem mapPairs_mapNode (es : List (Str × Yaml)) : mapPairs (mapNode es) = some es := by
  simp only [mapNode, mapPairs, entriesOf, Option.some.injEq, List.filterMap_map]
  induction es with
  | nil => rfl
  | cons y t ih => simp only [List.filterMap_cons, Function.comp_apply] ; rw [ih]

theorem mapPairs_of_seq {y : Yaml} {ys : List Yaml} (h : seqElements y = some ys) : mapPairs y = none := by
  cases y <;> simp [seqElements] at h <;> rfl

theorem seqElements_of_map {y : Yaml} {es : List (Str × Yaml)} (h : mapPairs y = some es) : seqElements y = none := by
  cases y <;> simp [mapPairs] at h <;> rfl

theorem scalarText_of_seq {y : Yaml} {ys : List Yaml} (h : seqElements y = some ys) : scalarText y = none := by
  cases y <;> simp [seqElements] at h <;> rfl

theorem scalarText_of_map {y : Yaml} {es : List (Str × Yaml)} (h : mapPairs y = some es) : scalarText y = none := by
  cases y <;> simp [mapPairs] at h <;> rfl

/-- A deep sequence has no levels, one, or a deep element. -/
theorem Deep.seq_cases {y : Yaml} {n : Nat} (h : Deep y n) {ys : List Yaml} (hy : seqElements y = some ys) :
    n ≤ 1 ∨ ∃ m w, n = m + 1 ∧ w ∈ ys ∧ Deep w m := by
  cases h with
  | zero => exact .inl (by omega)
  | seq => exact .inl (by omega)
  | map => exact .inl (by omega)
  | elem h hw hd => rw [hy] at h; cases h; exact .inr ⟨_, _, rfl, hw, hd⟩
  | entry h hw hd => rw [mapPairs_of_seq hy] at h; cases h

theorem Deep.map_cases {y : Yaml} {n : Nat} (h : Deep y n) {es : List (Str × Yaml)} (hy : mapPairs y = some es) :
    n ≤ 1 ∨ ∃ m k w, n = m + 1 ∧ (k, w) ∈ es ∧ Deep w m := by
  cases h with
  | zero => exact .inl (by omega)
  | seq => exact .inl (by omega)
  | map => exact .inl (by omega)
  | elem h hw hd => rw [seqElements_of_map hy] at h; cases h
  | entry h hw hd => rw [hy] at h; cases h; exact .inr ⟨_, _, _, rfl, hw, hd⟩

theorem Deep.seq_le {y : Yaml} {ys : List Yaml} (hy : seqElements y = some ys) {n : Nat} (h : n ≤ 1) : Deep y n := by
  match n, h with
  | 0, _ => exact .zero _
  | 1, _ => exact .seq hy

theorem Deep.map_le {y : Yaml} {es : List (Str × Yaml)} (hy : mapPairs y = some es) {n : Nat} (h : n ≤ 1) :
    Deep y n := by
  match n, h with
  | 0, _ => exact .zero _
  | 1, _ => exact .map hy

theorem scalarText_strToYaml (s : Str) : scalarText (strToYaml s) = some s := by
  rw [← asString_eq]; exact C05_serialized_string_value s

theorem zip_mem_of_mem {α β : Type} {as : List α} {bs : List β} (hl : as.length = bs.length) {b : β} (hb : b ∈ bs) :
    ∃ a, (a, b) ∈ as.zip bs := by
  obtain ⟨i, hi, rfl⟩ := List.mem_iff_getElem.1 hb
  exact ⟨as[i]'(by omega), List.mem_iff_getElem.2 ⟨i, by simp; omega, by simp⟩⟩

theorem lookup_of_fst {α : Type} {fs : List (Str × α)} {k : Str} (h : k ∈ fs.map fun f => f.1) :
    ∃ t, fs.lookup k = some t := by
  induction fs with
  | nil => cases h
  | cons f r ih =>
    obtain ⟨a, b⟩ := f
    by_cases hk : k = a
    · subst hk; exact ⟨b, by simp [List.lookup]⟩
    · have : (k == a) = false := by simpa using hk
      simp only [List.lookup, this]
      exact ih (by simpa [hk] using h)

/-- A tree that is read as a value has at least the depth of the tree that the value is written as. -/
theorem deep_of_decodes {Γ : Nat → Ty} {t : Ty} {c : Yaml} {x : SVal} (h : Decodes Γ t c x) :
    ∀ (y : Yaml) (n : Nat), x.ser = some y → Deep y n → Deep c n := by
  have sc : ∀ {c y : Yaml} {n : Nat} {s : Str}, scalarText y = some s → Deep y n → Deep c n := by
    intro c y n s hs hd
    rw [hd.of_scalar hs]
    exact .zero _
  induction h with
  | true => intro y n hy hd; cases hy; exact sc rfl hd
  | false => intro y n hy hd; cases hy; exact sc rfl hd
  | signed => intro y n hy hd; cases hy; exact sc rfl hd
  | unsigned => intro y n hy hd; cases hy; exact sc rfl hd
  | float => intro y n hy hd; cases hy; exact sc rfl hd
  | char => intro y n hy hd; cases hy; exact sc (scalarText_strToYaml _) hd
  | str => intro y n hy hd; cases hy; exact sc (scalarText_strToYaml _) hd
  | bytes hc hl h ih =>
    intro y n hy hd
    simp only [SVal.ser, Option.some.injEq] at hy
    subst hy
    rcases hd.seq_cases (elementsOf_seqNode _) with h1 | ⟨m, w, rfl, hw, hd⟩
    · exact .seq_le hc h1
    · obtain ⟨b, _, rfl⟩ := List.mem_map.1 hw
      rw [hd.of_scalar rfl]
      exact .seq hc
  | unit => intro y n hy hd; cases hy; exact sc rfl hd
  | none => intro y n hy hd; cases hy; exact sc rfl hd
  | some _ _ ih => intro y n hy hd; exact ih y n (by simpa [SVal.ser] using hy) hd
  | newtype _ ih => intro y n hy hd; exact ih y n (by simpa [SVal.ser] using hy) hd
  | @seq t c ys vs hc hl h ih =>
    intro y n hy hd
    simp only [SVal.ser, Option.map_eq_some_iff] at hy
    obtain ⟨zs, hz, rfl⟩ := hy
    obtain ⟨ps, h1, rfl, hp⟩ := serList_map (fun v => v) (qs := vs) (by simpa using hz)
    rcases hd.seq_cases (elementsOf_seqNode _) with h1 | ⟨m, w, rfl, hw, hd⟩
    · exact .seq_le hc h1
    · obtain ⟨p, hm, rfl⟩ := List.mem_map.1 hw
      have hv : p.1 ∈ vs := by rw [← h1]; exact List.mem_map.2 ⟨p, hm, rfl⟩
      obtain ⟨w', hz'⟩ := zip_mem_of_mem hl hv
      exact .elem hc (List.of_mem_zip hz').1 (ih _ _ hz' _ _ (hp p hm) hd)
  | @tuple ts c ys vs hc hl hv h ih =>
    intro y n hy hd
    simp only [SVal.ser, Option.map_eq_some_iff] at hy
    obtain ⟨zs, hz, rfl⟩ := hy
    obtain ⟨ps, h1, rfl, hp⟩ := serList_map (fun v => v) (qs := vs) (by simpa using hz)
    rcases hd.seq_cases rfl with h1 | ⟨m, w, rfl, hw, hd⟩
    · exact .seq_le hc h1
    · obtain ⟨p, hm, rfl⟩ := List.mem_map.1 hw
      have hv' : p.1 ∈ vs := by rw [← h1]; exact List.mem_map.2 ⟨p, hm, rfl⟩
      obtain ⟨i, hi, he⟩ := List.mem_iff_getElem.1 hv'
      have hz' : (ts[i]'(by omega), ys[i]'(by omega), p.1) ∈ ts.zip (ys.zip vs) :=
        List.mem_iff_getElem.2 ⟨i, by simp; omega, by simp [he]⟩
      exact .elem hc (List.getElem_mem (by omega)) (ih _ _ _ hz' _ _ (hp p hm) hd)
  | @map kt vt c es vs hc hl hk hv ihk ihv =>
    intro y n hy hd
    simp only [SVal.ser, Option.map_eq_some_iff] at hy
    obtain ⟨zs, hz, rfl⟩ := hy
    obtain ⟨ps, h1, rfl, hp⟩ := serEntries_map hz
    rcases hd.map_cases (mapPairs_mapNode _) with h1 | ⟨m, k, w, rfl, hw, hd⟩
    · exact .map_le hc h1
    · obtain ⟨p, hm, he⟩ := List.mem_map.1 hw
      cases he
      have hv' : (p.1, p.2.2.1) ∈ vs := by rw [← h1]; exact List.mem_map.2 ⟨p, hm, rfl⟩
      obtain ⟨⟨k', w'⟩, hz'⟩ := zip_mem_of_mem hl hv'
      exact .entry hc (List.of_mem_zip hz').1 (ihv _ _ _ _ hz' _ _ (hp p hm).2 hd)
  | @struct fs c es vs hc hn h1 hv hm hmv ih =>
    intro y n hy hd
    simp only [SVal.ser, Option.map_eq_some_iff] at hy
    obtain ⟨zs, hz, rfl⟩ := hy
    obtain ⟨ps, h1, rfl, hp⟩ := serFields_map (fun q : Str × SVal => q.1) (fun q => q.2) (qs := vs) (by simpa using hz)
    rcases hd.map_cases (mapPairs_mapNode _) with h1 | ⟨m, k, w, rfl, hw, hd⟩
    · exact .map_le hc h1
    · obtain ⟨p, hm', he⟩ := List.mem_map.1 hw
      cases he
      have hv' : (p.1.1, p.1.2) ∈ vs := by rw [← h1]; exact List.mem_map.2 ⟨p, hm', rfl⟩
      by_cases hex : ∃ w', (p.1.1, w') ∈ es
      · obtain ⟨w', hw'⟩ := hex
        have hk : p.1.1 ∈ fs.map fun f => f.1 := by rw [← hn]; exact List.mem_map.2 ⟨_, hv', rfl⟩
        obtain ⟨t, ht⟩ := lookup_of_fst hk
        exact .entry hc hw' (ih _ _ _ _ ht hw' hv' _ _ (hp p hm') hd)
      · have hx := hmv _ _ hv' (fun w' hw' => hex ⟨w', hw'⟩)
        have := hp p hm'
        rw [hx] at this
        simp only [SVal.ser, Option.some.injEq] at this
        rw [hd.of_scalar (s := ['~']) (by rw [← this]; rfl)]
        exact .map hc
  | unitVariant => intro y n hy hd; cases hy; exact sc (scalarText_strToYaml _) hd
  | newtypeVariant hy' hl h ih =>
    intro y n hy hd
    have := ih y n (by simpa [SVal.ser] using hy) hd
    exact (Deep.variant hy' this).1
  | tupleVariant hy' hl h ih =>
    intro y n hy hd
    exact (Deep.variant hy' (ih y n (by simpa [SVal.ser] using hy) hd)).1
  | structVariant hy' hl h ih =>
    intro y n hy hd
    exact (Deep.variant hy' (ih y n (by simpa [SVal.ser] using hy) hd)).1
  | anyNull => intro y n hy hd; cases hy; exact sc rfl hd
  | anyTrue => intro y n hy hd; cases hy; exact sc rfl hd
  | anyFalse => intro y n hy hd; cases hy; exact sc rfl hd
  | anyInt => intro y n hy hd; cases hy; exact sc rfl hd
  | anyFloat => intro y n hy hd; cases hy; exact sc rfl hd
  | anyPlain => intro y n hy hd; cases hy; exact sc (scalarText_strToYaml _) hd
  | anyText => intro y n hy hd; cases hy; exact sc (scalarText_strToYaml _) hd
  | anySeq _ ih => exact ih
  | anyMap _ ih => exact ih
  | ignored => intro y n hy hd; cases hy; exact sc rfl hd
  | ref _ ih => exact ih

/-! ## Restyled trees -/

/-- `Restyle y y'`: `y'` has the same structure as `y`, ordinary plain scalars are kept and so is the text `~`. -/
inductive Restyle : Yaml → Yaml → Prop
  | scalar {y y' s s'} (hs : scalarText y = some s) (hs' : scalarText y' = some s')
      (hn : ∀ w, inlineBreakingChars w = false → y = .unquotedString w → y' = .unquotedString w) (ht : s = ['~'] → s' = ['~']) :
      Restyle y y'
  | seq {y y'} (ps : List (Yaml × Yaml)) (hy : seqElements y = some (ps.map fun p => p.1))
      (hy' : seqElements y' = some (ps.map fun p => p.2)) (h : ∀ a b, (a, b) ∈ ps → Restyle a b) : Restyle y y'
  | map {y y'} (ps : List (Str × Yaml × Yaml)) (hy : mapPairs y = some (ps.map fun p => (p.1, p.2.1)))
      (hy' : mapPairs y' = some (ps.map fun p => (p.1, p.2.2))) (h : ∀ k a b, (k, a, b) ∈ ps → Restyle a b) :
      Restyle y y'

theorem Restyle.deep {y y' : Yaml} (h : Restyle y y') : ∀ n, Deep y' n → Deep y n := by
  induction h with
  | scalar hs hs' => intro n hd; rw [hd.of_scalar hs']; exact .zero _
  | seq ps hy hy' h ih =>
    intro n hd
    rcases hd.seq_cases hy' with h1 | ⟨m, w, rfl, hw, hd⟩
    · exact .seq_le hy h1
    · obtain ⟨p, hm, rfl⟩ := List.mem_map.1 hw
      exact .elem hy (List.mem_map.2 ⟨p, hm, rfl⟩) (ih p.1 p.2 hm m hd)
  | map ps hy hy' h ih =>
    intro n hd
    rcases hd.map_cases hy' with h1 | ⟨m, k, w, rfl, hw, hd⟩
    · exact .map_le hy h1
    · obtain ⟨p, hm, he⟩ := List.mem_map.1 hw
      cases he
      exact .entry hy (List.mem_map.2 ⟨p, hm, rfl⟩) (ih p.1 p.2.1 p.2.2 hm m hd)

/-- A value is not read from the content of a restyled tree that it is written as. -/
theorem Restyle.not_content {y y' c : Yaml} (hr : Restyle y y') {name : Str} (hc : VariantParts y' name c)
    (hs : ∀ s, scalarText y' ≠ some s) (h : ∀ n, Deep y n → Deep c n) : False := by
  have key : ∀ n, Deep y n := by
    intro n
    induction n with
    | zero => exact .zero _
    | succ n ih => exact hr.deep _ ((Deep.variant hc (h n ih)).2 hs)
  have := (key (sizeOf y + 1)).bound
  omega

theorem Restyle.noRefs {y y' : Yaml} (h : Restyle y y') : NoRefs y' := by
  induction h with
  | @scalar y y' s s' hs hs' =>
    intro b hb
    cases hb with
    | self => cases hs'
    | step hc hw => cases hc <;> cases hs'
  | seq ps hy hy' h ih =>
    intro b hb
    cases hb with
    | self => cases hy'
    | step hc hw =>
      rcases mem_of_child hc with ⟨ys, he, hm⟩ | ⟨es, k, he, hm⟩
      · rw [hy'] at he; cases he
        obtain ⟨p, hp, rfl⟩ := List.mem_map.1 hm
        exact ih p.1 p.2 hp b hw
      · rw [mapPairs_of_seq hy'] at he; cases he
  | map ps hy hy' h ih =>
    intro b hb
    cases hb with
    | self => cases hy'
    | step hc hw =>
      rcases mem_of_child hc with ⟨ys, he, hm⟩ | ⟨es, k, he, hm⟩
      · rw [seqElements_of_map hy'] at he; cases he
      · rw [hy'] at he; cases he
        obtain ⟨p, hp, he⟩ := List.mem_map.1 hm
        cases he
        exact ih p.1 p.2.1 p.2.2 hp b hw

/-! ## The main lemma -/

theorem not_intText_tilde {i : Int} : ¬IntText ['~'] i := by
  have hd : ¬Digits ['~'] := fun h => absurd (h '~' (by simp)) (by decide)
  intro h
  cases h with
  | nonneg h => cases h with | digits h _ => exact hd h

theorem not_natText_tilde {n : Nat} : ¬NatText ['~'] n := fun h => not_intText_tilde (.nonneg h)

theorem Spec.VariantParts.plain {s name : Str} {c : Yaml} (h : VariantParts (.unquotedString s) name c) :
    name = s ∧ c = .unquotedString ['~'] := by
  cases h with
  | name h => cases h; exact ⟨rfl, rfl⟩
  | entry h => cases h

/-- The values read from a plain `~`. -/
theorem tilde_of_decodes {Γ : Nat → Ty} {t : Ty} {v : SVal} (ht : HasTy Γ t v)
    (h : Decodes Γ t (.unquotedString ['~']) v) : Tilde v := by
  induction ht with
  | bool =>
    cases h with
    | true h => obtain ⟨w, hw, h⟩ := h; simp at hw; rcases hw with rfl | rfl | rfl <;> exact absurd h (by decide)
    | false h => obtain ⟨w, hw, h⟩ := h; simp at hw; rcases hw with rfl | rfl | rfl <;> exact absurd h (by decide)
  | int =>
    cases h with
    | signed _ hy h => cases hy; exact absurd h not_intText_tilde
    | unsigned _ hy h => cases hy; exact absurd h not_natText_tilde
  | float hf => cases h with | float hy h => cases hy; exact absurd hf (by decide)
  | char => cases h with | char hy => cases hy; exact .char
  | str => cases h with | str hy => cases hy; exact .str
  | bytes => cases h with | bytes hy => cases hy
  | unit => exact .unit
  | none => exact .none
  | some => cases h with | some hn => exact absurd (by unfold NullWord; decide) (hn _ rfl)
  | newtype _ ih => cases h with | newtype h => exact .newtype (ih h)
  | seq => cases h with | seq hy => cases hy
  | tuple => cases h with | tuple hy => cases hy
  | map => cases h with | map hy => cases hy
  | struct => cases h with | struct hy => cases hy
  | unitVariant => cases h with | unitVariant hy => rw [hy.plain.1]; exact .unitVariant
  | newtypeVariant hl _ ih =>
    cases h with
    | newtypeVariant hy hl' h =>
      rw [hl] at hl'
      cases hl'
      obtain ⟨rfl, rfl⟩ := hy.plain
      exact .newtypeVariant (ih h)
  | tupleVariant =>
    cases h with
    | tupleVariant hy hl' h => obtain ⟨rfl, rfl⟩ := hy.plain; cases h with | tuple hy => cases hy
  | structVariant =>
    cases h with
    | structVariant hy hl' h => obtain ⟨rfl, rfl⟩ := hy.plain; cases h with | struct hy => cases hy
  | ref _ ih => cases h with | ref h => exact ih h

theorem nullLike_ser {v : SVal} (h : NullLike v) {y : Yaml} (hy : v.ser = some y) :
    ∃ w, NullWord w ∧ y = .unquotedString w := by
  induction h with
  | unit => cases hy; exact ⟨_, by unfold NullWord; decide, rfl⟩
  | none => cases hy; exact ⟨_, by unfold NullWord; decide, rfl⟩
  | some _ ih => exact ih (by simpa [SVal.ser] using hy)
  | newtype _ ih => exact ih (by simpa [SVal.ser] using hy)
  | str h =>
    simp only [SVal.ser, Option.some.injEq] at hy
    rcases h with rfl | rfl <;> exact ⟨_, by unfold NullWord; decide, hy.symm.trans rfl⟩
  | unitVariant h =>
    simp only [SVal.ser, Option.some.injEq] at hy
    rcases h with rfl | rfl <;> exact ⟨_, by unfold NullWord; decide, hy.symm.trans rfl⟩
  | newtypeVariant _ ih => exact ih (by simpa [SVal.ser] using hy)

theorem inlineBreaking_of_null {w : Str} (hw : NullWord w) : inlineBreakingChars w = false := by
  simp only [NullWord, List.mem_cons, List.not_mem_nil, or_false] at hw
  rcases hw with rfl | rfl | rfl | rfl <;> decide

theorem Restyle.plain {y y' : Yaml} (h : Restyle y y') {w : Str} (hw : inlineBreakingChars w = false)
    (hy : y = .unquotedString w) : y' = .unquotedString w := by
  subst hy
  cases h with
  | scalar _ _ hn _ => exact hn w hw rfl
  | seq _ hy => cases hy
  | map _ hy => cases hy

theorem Restyle.of_seq {y y' : Yaml} (h : Restyle y y') {ys ys' : List Yaml} (hy : seqElements y = some ys)
    (hy' : seqElements y' = some ys') :
    ys.length = ys'.length ∧ ∀ (i : Nat) (h1 : i < ys.length) (h2 : i < ys'.length), Restyle ys[i] ys'[i] := by
  cases h with
  | scalar hs => rw [scalarText_of_seq hy] at hs; cases hs
  | seq ps hs hs' h =>
    rw [hy] at hs; rw [hy'] at hs'
    cases hs; cases hs'
    refine ⟨by simp, fun i h1 h2 => ?_⟩
    simp only [List.getElem_map]
    exact h _ _ (List.getElem_mem (by simpa using h1))
  | map ps hs => rw [mapPairs_of_seq hy] at hs; cases hs

theorem Restyle.of_map {y y' : Yaml} (h : Restyle y y') {es es' : List (Str × Yaml)} (hy : mapPairs y = some es)
    (hy' : mapPairs y' = some es') :
    es.length = es'.length ∧ ∀ (i : Nat) (h1 : i < es.length) (h2 : i < es'.length),
      es[i].1 = es'[i].1 ∧ Restyle es[i].2 es'[i].2 := by
  cases h with
  | scalar hs => rw [scalarText_of_map hy] at hs; cases hs
  | seq ps hs => rw [seqElements_of_map hy] at hs; cases hs
  | map ps hs hs' h =>
    rw [hy] at hs; rw [hy'] at hs'
    cases hs; cases hs'
    refine ⟨by simp, fun i h1 h2 => ?_⟩
    simp only [List.getElem_map]
    exact ⟨trivial, h _ _ _ (List.getElem_mem (by simpa using h1))⟩

theorem restyle_key {y : Yaml} {s : Str} (h : yamlToKeyString y = some s) : Restyle y (.unquotedString s) := by
  cases y <;> simp only [yamlToKeyString, Option.some.injEq, reduceCtorEq] at h
  · subst h
    exact .scalar rfl rfl (by nofun) id
  · subst h
    exact .scalar rfl rfl (fun w _ h => h) id

/-- A value that is read from the (restyled) tree it is written as is lossless. -/
theorem lossless_of_decodes {Γ : Nat → Ty} {ty : Ty} {v : SVal} (ht : HasTy Γ ty v) :
    ∀ {y y' : Yaml}, v.ser = some y → Restyle y y' → Decodes Γ ty y' v → Lossless v := by
  induction ht with
  | bool => intros; exact .bool _
  | int => intros; exact .int _
  | float => intros; exact .float _
  | char => intros; exact .char _
  | str => intros; exact .str _
  | bytes => intros; exact .bytes _
  | unit => intros; exact .unit
  | none => intros; exact .none
  | some _ ih =>
    intro y y' h hr hd
    simp only [SVal.ser] at h
    cases hd with
    | some hn hd =>
      refine .some (ih h hr hd) fun hnl => ?_
      obtain ⟨w, hw, rfl⟩ := nullLike_ser hnl h
      exact hn w (hr.plain (inlineBreaking_of_null hw) rfl) hw
  | newtype _ ih =>
    intro y y' h hr hd
    simp only [SVal.ser] at h
    cases hd with
    | newtype hd => exact .newtype (ih h hr hd)
  | @seq t vs ht ih =>
    intro y y' h hr hd
    simp only [SVal.ser, Option.map_eq_some_iff] at h
    obtain ⟨zs, hz, rfl⟩ := h
    obtain ⟨ps, rfl, rfl, hp⟩ := serList_map (fun v => v) (qs := vs) (by simpa using hz)
    cases hd with
    | @seq _ _ ys' _ hy hl hd =>
      obtain ⟨hl', hr'⟩ := hr.of_seq (elementsOf_seqNode _) hy
      refine .seq fun v hv => ?_
      obtain ⟨i, hi, rfl⟩ := List.mem_iff_getElem.1 hv
      have hi' : i < ps.length := by simpa using hi
      have h1 := hr' i (by simpa using hi) (by omega)
      simp only [List.getElem_map] at h1 ⊢
      have hz' : (ys'[i]'(by omega), (ps[i]).1) ∈ ys'.zip (ps.map fun p => p.1) :=
        List.mem_iff_getElem.2 ⟨i, by simp; omega, by simp⟩
      exact ih _ (List.mem_map.2 ⟨ps[i], List.getElem_mem _, rfl⟩) (hp _ (List.getElem_mem _)) h1 (hd _ _ hz')
  | tuple qs ht ih =>
    intro y y' h hr hd
    simp only [SVal.ser, Option.map_eq_some_iff] at h
    obtain ⟨zs, hz, rfl⟩ := h
    obtain ⟨ps, rfl, rfl, hp⟩ := serList_map (fun q : Ty × SVal => q.2) (qs := qs) hz
    cases hd with
    | @tuple _ _ ys' _ hy hl _ hd =>
      obtain ⟨hl', hr'⟩ := hr.of_seq rfl hy
      refine .tuple fun v hv => ?_
      obtain ⟨i, hi, rfl⟩ := List.mem_iff_getElem.1 hv
      have hi' : i < ps.length := by simpa using hi
      simp only [List.length_map] at hl hl'
      have h1 := hr' i (by simpa using hi) (by omega)
      simp only [List.getElem_map] at h1 ⊢
      refine ih _ _ (List.mem_map.2 ⟨ps[i], List.getElem_mem _, rfl⟩) (hp _ (List.getElem_mem _)) h1 (hd _ _ _ ?_)
      exact List.mem_iff_getElem.2 ⟨i, by simp; omega, by simp⟩
  | @map kt vt es hk hv ihk ihv =>
    intro y y' h hr hd
    simp only [SVal.ser, Option.map_eq_some_iff] at h
    obtain ⟨zs, hz, rfl⟩ := h
    obtain ⟨ps, rfl, rfl, hp⟩ := serEntries_map hz
    cases hd with
    | @map _ _ _ es' _ hy hl hdk hdv =>
      obtain ⟨hl', hr'⟩ := hr.of_map (mapPairs_mapNode _) hy
      simp only [List.length_map] at hl hl'
      have key : ∀ i (hi : i < ps.length), Lossless (ps[i]).1 ∧ Lossless (ps[i]).2.2.1 := by
        intro i hi
        have h1 := hr' i (by simpa using hi) (by omega)
        simp only [List.getElem_map] at h1
        have hm := hp _ (List.getElem_mem hi)
        have hz' : (((ps[i]).2.1, (es'[i]'(by omega)).2), ((ps[i]).1, (ps[i]).2.2.1)) ∈
            es'.zip (ps.map fun p => (p.1, p.2.2.1)) :=
          List.mem_iff_getElem.2 ⟨i, by simp; omega, by simp [h1.1]⟩
        have hmem : ((ps[i]).1, (ps[i]).2.2.1) ∈ ps.map fun p => (p.1, p.2.2.1) :=
          List.mem_map.2 ⟨ps[i], List.getElem_mem _, rfl⟩
        obtain ⟨k, hk1, hk2⟩ := Option.bind_eq_some_iff.1 hm.1
        exact ⟨ihk _ _ hmem hk1 (restyle_key hk2) (hdk _ _ _ _ hz'), ihv _ _ hmem hm.2 h1.2 (hdv _ _ _ _ hz')⟩
      refine .map (fun k v hm => ?_) (fun k v hm => ?_)
      all_goals
        obtain ⟨p, hp', he⟩ := List.mem_map.1 hm
        cases he
        obtain ⟨i, hi, rfl⟩ := List.mem_iff_getElem.1 hp'
      · exact (key i hi).1
      · exact (key i hi).2
  | struct qs hn ht ih =>
    intro y y' h hr hd
    simp only [SVal.ser, Option.map_eq_some_iff] at h
    obtain ⟨zs, hz, rfl⟩ := h
    obtain ⟨ps, rfl, rfl, hp⟩ := serFields_map (fun q : Str × Ty × SVal => q.1) (fun q => q.2.2) hz
    cases hd with
    | @struct _ _ es' _ hy _ _ hdv _ _ =>
      obtain ⟨hl', hr'⟩ := hr.of_map (mapPairs_mapNode _) hy
      simp only [List.length_map] at hl'
      refine .struct fun k v hm => ?_
      obtain ⟨q, hq, he⟩ := List.mem_map.1 hm
      cases he
      obtain ⟨p, hp', rfl⟩ := List.mem_map.1 hq
      obtain ⟨i, hi, rfl⟩ := List.mem_iff_getElem.1 hp'
      have h1 := hr' i (by simpa using hi) (by omega)
      simp only [List.getElem_map] at h1
      refine ih _ _ _ hq (hp _ hp') h1.2 (hdv (ps[i]).1.1 _ _ _ ?_ ?_ hm)
      · refine lookup_eq_some ?_ (List.mem_map.2 ⟨_, hq, rfl⟩)
        simpa only [List.map_map, Function.comp_def] using hn
      · rw [h1.1]; exact List.getElem_mem _
  | unitVariant => intros; exact .unitVariant _
  | newtypeVariant hl ht ih =>
    intro y y' h hr hd
    simp only [SVal.ser] at h
    cases hd with
    | newtypeVariant hy hl' hd =>
      rw [hl] at hl'
      cases hl'
      by_cases hs : ∃ s, scalarText y' = some s
      · obtain ⟨s, hs⟩ := hs
        cases hy with
        | name hs' =>
          have hT := tilde_of_decodes ht hd
          have h2 := hT.ser h
          rw [asString_eq] at h2
          cases hr with
          | scalar h3 h4 _ h5 =>
            rw [h2] at h3; cases h3
            rw [hs'] at h4; cases h4
            rw [h5 rfl]
            exact .newtypeVariant hT
          | seq _ h3 => rw [scalarText_of_seq h3] at h2; cases h2
          | map _ h3 => rw [scalarText_of_map h3] at h2; cases h2
        | entry he => rw [scalarText_of_map he] at hs; cases hs
      · exact (hr.not_content hy (fun s h => hs ⟨s, h⟩) fun n => deep_of_decodes hd y n h).elim
  | tupleVariant qs hl ht =>
    intro y y' h hr hd
    cases hd with
    | tupleVariant hy hl' hd =>
      by_cases hs : ∃ s, scalarText y' = some s
      · obtain ⟨s, hs⟩ := hs
        cases hy with
        | name hs' => cases hd with | tuple h => cases h
        | entry he => rw [scalarText_of_map he] at hs; cases hs
      · exact (hr.not_content hy (fun s h => hs ⟨s, h⟩)
          fun n => deep_of_decodes hd y n (by simpa [SVal.ser] using h)).elim
  | structVariant qs hl hn ht =>
    intro y y' h hr hd
    cases hd with
    | structVariant hy hl' hd =>
      by_cases hs : ∃ s, scalarText y' = some s
      · obtain ⟨s, hs⟩ := hs
        cases hy with
        | name hs' => cases hd with | struct h => cases h
        | entry he => rw [scalarText_of_map he] at hs; cases hs
      · exact (hr.not_content hy (fun s h => hs ⟨s, h⟩)
          fun n => deep_of_decodes hd y n (by simpa [SVal.ser] using h)).elim
  | ref _ ih =>
    intro y y' h hr hd
    cases hd with
    | ref hd => exact ih h hr hd

/-! ## Serialized trees, and pretty serialized trees -/

theorem noRefs_scalar {y : Yaml} {s : Str} (h : scalarText y = some s) : NoRefs y := by
  intro b hb
  cases hb with
  | self => cases h
  | step hc hw => cases hc <;> cases h

theorem noRefs_seq {y : Yaml} {ys : List Yaml} (hy : seqElements y = some ys) (h : ∀ w ∈ ys, NoRefs w) : NoRefs y := by
  intro b hb
  cases hb with
  | self => cases hy
  | step hc hw =>
    rcases mem_of_child hc with ⟨ys, he, hm⟩ | ⟨es, k, he, hm⟩
    · rw [hy] at he; cases he
      exact h _ hm b hw
    · rw [mapPairs_of_seq hy] at he; cases he

theorem noRefs_map {y : Yaml} {es : List (Str × Yaml)} (hy : mapPairs y = some es) (h : ∀ k w, (k, w) ∈ es → NoRefs w) :
    NoRefs y := by
  intro b hb
  cases hb with
  | self => cases hy
  | step hc hw =>
    rcases mem_of_child hc with ⟨ys, he, hm⟩ | ⟨es, k, he, hm⟩
    · rw [seqElements_of_map hy] at he; cases he
    · rw [hy] at he; cases he
      exact h _ _ hm b hw

theorem noRefs_ser {Γ : Nat → Ty} {ty : Ty} {v : SVal} (ht : HasTy Γ ty v) : ∀ {y : Yaml}, v.ser = some y → NoRefs y := by
  induction ht with
  | bool => intro y h; cases h; exact noRefs_plain _
  | int => intro y h; cases h; exact noRefs_plain _
  | float => intro y h; cases h; exact noRefs_plain _
  | char => intro y h; cases h; exact noRefs_scalar (scalarText_strToYaml _)
  | str => intro y h; cases h; exact noRefs_scalar (scalarText_strToYaml _)
  | bytes =>
    intro y h; cases h
    refine noRefs_seq (elementsOf_seqNode _) fun w hw => ?_
    obtain ⟨b, _, rfl⟩ := List.mem_map.1 hw
    exact noRefs_plain _
  | unit => intro y h; cases h; exact noRefs_plain _
  | none => intro y h; cases h; exact noRefs_plain _
  | some _ ih => intro y h; exact ih (by simpa [SVal.ser] using h)
  | newtype _ ih => intro y h; exact ih (by simpa [SVal.ser] using h)
  | @seq t vs ht ih =>
    intro y h
    simp only [SVal.ser, Option.map_eq_some_iff] at h
    obtain ⟨zs, hz, rfl⟩ := h
    obtain ⟨ps, rfl, rfl, hp⟩ := serList_map (fun v => v) (qs := vs) (by simpa using hz)
    refine noRefs_seq (elementsOf_seqNode _) fun w hw => ?_
    obtain ⟨p, hm, rfl⟩ := List.mem_map.1 hw
    exact ih _ (List.mem_map.2 ⟨p, hm, rfl⟩) (hp p hm)
  | tuple qs ht ih =>
    intro y h
    simp only [SVal.ser, Option.map_eq_some_iff] at h
    obtain ⟨zs, hz, rfl⟩ := h
    obtain ⟨ps, rfl, rfl, hp⟩ := serList_map (fun q : Ty × SVal => q.2) (qs := qs) hz
    refine noRefs_seq rfl fun w hw => ?_
    obtain ⟨p, hm, rfl⟩ := List.mem_map.1 hw
    exact ih _ _ (List.mem_map.2 ⟨p, hm, rfl⟩) (hp p hm)
  | @map kt vt es hk hv ihk ihv =>
    intro y h
    simp only [SVal.ser, Option.map_eq_some_iff] at h
    obtain ⟨zs, hz, rfl⟩ := h
    obtain ⟨ps, rfl, rfl, hp⟩ := serEntries_map hz
    refine noRefs_map (mapPairs_mapNode _) fun k w hw => ?_
    obtain ⟨p, hm, he⟩ := List.mem_map.1 hw
    cases he
    exact ihv _ _ (List.mem_map.2 ⟨p, hm, rfl⟩) (hp p hm).2
  | struct qs hn ht ih =>
    intro y h
    simp only [SVal.ser, Option.map_eq_some_iff] at h
    obtain ⟨zs, hz, rfl⟩ := h
    obtain ⟨ps, rfl, rfl, hp⟩ := serFields_map (fun q : Str × Ty × SVal => q.1) (fun q => q.2.2) hz
    refine noRefs_map (mapPairs_mapNode _) fun k w hw => ?_
    obtain ⟨p, hm, he⟩ := List.mem_map.1 hw
    cases he
    exact ih _ _ _ (List.mem_map.2 ⟨p, hm, rfl⟩) (hp p hm)
  | unitVariant => intro y h; cases h; exact noRefs_scalar (scalarText_strToYaml _)
  | newtypeVariant _ _ ih => intro y h; exact ih (by simpa [SVal.ser] using h)
  | tupleVariant qs hl ht ih =>
    intro y h
    simp only [SVal.ser, Option.map_eq_some_iff] at h
    obtain ⟨zs, hz, rfl⟩ := h
    obtain ⟨ps, rfl, rfl, hp⟩ := serList_map (fun q : Ty × SVal => q.2) (qs := qs) hz
    refine noRefs_seq rfl fun w hw => ?_
    obtain ⟨p, hm, rfl⟩ := List.mem_map.1 hw
    exact ih _ _ (List.mem_map.2 ⟨p, hm, rfl⟩) (hp p hm)
  | structVariant qs hl hn ht ih =>
    intro y h
    simp only [SVal.ser, Option.map_eq_some_iff] at h
    obtain ⟨zs, hz, rfl⟩ := h
    obtain ⟨ps, rfl, rfl, hp⟩ := serFields_map (fun q : Str × Ty × SVal => q.1) (fun q => q.2.2) hz
    refine noRefs_map (mapPairs_mapNode _) fun k w hw => ?_
    obtain ⟨p, hm, he⟩ := List.mem_map.1 hw
    cases he
    exact ih _ _ _ (List.mem_map.2 ⟨p, hm, rfl⟩) (hp p hm)
  | ref _ ih => exact ih

/-- The three kinds of nodes that are not references. -/
theorem NoRefs.kinds {y : Yaml} (h : NoRefs y) :
    (∃ s, scalarText y = some s) ∨ (∃ ys, seqElements y = some ys) ∨ ∃ es, mapPairs y = some es := by
  cases y
  case anchor a => exact absurd .self (h a)
  all_goals simp [scalarText, seqElements, mapPairs]

theorem elementsOf_value (ds : List ArrayData) : elementsOf ds = ds.filterMap ArrayData.value? := by
  unfold elementsOf
  congr 1
  funext d
  match d with
  | .element ⟨_, _⟩ => rfl
  | .comment _ => rfl
  | .inlineComment _ => rfl

theorem entriesOf_entry (ds : List HashData) : entriesOf ds = ds.filterMap HashData.entry? := by
  unfold entriesOf
  congr 1
  funext d
  match d with
  | .element ⟨_, ⟨_, _⟩⟩ => rfl
  | .comment _ => rfl
  | .inlineComment _ => rfl

theorem entry_onValue (g : Yaml → Yaml) (ds : List HashData) :
    (ds.map (HashData.onValue g)).filterMap HashData.entry? =
      (ds.filterMap HashData.entry?).map fun e => (e.1, g e.2) := by
  induction ds with
  | nil => rfl
  | cons d t ih =>
    match d with
    | .element ⟨_, ⟨_, _⟩⟩ => simp [HashData.onValue, HashData.entry?, ih]
    | .comment _ => exact ih
    | .inlineComment _ => exact ih

theorem seqElements_pretty {y : Yaml} {ys : List Yaml} (h : seqElements y = some ys) (i c : Bool) :
    ∃ i' c', seqElements (y.pretty i c) = some (ys.map (Yaml.pretty i' c')) := by
  cases y <;> simp only [seqElements, Option.some.injEq, reduceCtorEq] at h <;> subst h
  case inlineArray es => exact ⟨true, false, by simp [Yaml.pretty, prettyYamls_eq, seqElements]⟩
  case array ds =>
    simp only [Yaml.pretty]
    split
    · rename_i he
      simp at he
      subst he
      exact ⟨true, false, rfl⟩
    · split
      · exact ⟨true, false, by simp [seqElements, arrayToYamls_eq, elementsOf_value]⟩
      · refine ⟨false, true, ?_⟩
        unfold autoInline
        split
        · rw [arrayDataValues_eq, prettyArrayData_eq, ArrayData.onValue_value, elementsOf_value]; rfl
        · rw [prettyArrayData_eq, seqElements, elementsOf_value, ArrayData.onValue_value, elementsOf_value]

theorem mapPairs_pretty {y : Yaml} {es : List (Str × Yaml)} (h : mapPairs y = some es) (i c : Bool) :
    ∃ i' c', mapPairs (y.pretty i c) = some (es.map fun e => (e.1, e.2.pretty i' c')) := by
  cases y <;> simp only [mapPairs, Option.some.injEq, reduceCtorEq] at h <;> subst h
  case inlineHash es => exact ⟨true, false, by simp [Yaml.pretty, prettyEntries_eq, mapPairs]⟩
  case hash ds =>
    simp only [Yaml.pretty]
    split
    · rename_i he
      simp at he
      subst he
      exact ⟨true, false, rfl⟩
    · split
      · exact ⟨true, false, by simp [mapPairs, hashToEntries_eq, entriesOf_entry]⟩
      · refine ⟨false, false, ?_⟩
        rw [prettyHashData_eq, mapPairs, entriesOf_entry, entry_onValue, entriesOf_entry]

theorem scalarText_pretty {y : Yaml} {s : Str} (h : scalarText y = some s) (i c : Bool) :
    ∃ s', scalarText (y.pretty i c) = some s' := by
  have key : ∀ o : Option Str, o.isSome = true → ∃ s', o = some s' := by
    intro o h; cases o with | none => cases h | some s => exact ⟨s, rfl⟩
  refine key _ ?_
  cases y <;> simp only [scalarText, reduceCtorEq] at h <;> simp only [Yaml.pretty]
  case singleQuotedString =>
    unfold prettySingleQuoted
    simp only
    repeat' split
    all_goals rfl
  case doubleQuotedString =>
    unfold prettyDoubleQuoted
    simp only
    repeat' split
    all_goals rfl
  case unquotedString => split <;> rfl
  case foldedString => rfl
  case literalString => rfl

theorem restyle_refl (y : Yaml) : NoRefs y → Restyle y y := by
  induction y using childRec with
  | h y ih =>
    intro hr
    rcases hr.kinds with ⟨s, hs⟩ | ⟨ys, hy⟩ | ⟨es, hy⟩
    · exact .scalar hs hs (fun w _ h => h) id
    · refine .seq (ys.map fun w => (w, w)) (by simpa [Function.comp_def] using hy)
        (by simpa [Function.comp_def] using hy) fun a b hm => ?_
      obtain ⟨w, hw, he⟩ := List.mem_map.1 hm
      obtain ⟨rfl, rfl⟩ := Prod.mk.inj he
      exact ih w (child_of_seqElements hy hw) (hr.child (child_of_seqElements hy hw))
    · refine .map (es.map fun e => (e.1, e.2, e.2)) (by simpa [Function.comp_def] using hy)
        (by simpa [Function.comp_def] using hy) fun k a b hm => ?_
      obtain ⟨⟨k', w⟩, hw, he⟩ := List.mem_map.1 hm
      simp only [Prod.mk.injEq] at he
      obtain ⟨rfl, rfl, rfl⟩ := he
      exact ih w (child_of_mapPairs hy hw) (hr.child (child_of_mapPairs hy hw))

theorem restyle_pretty (y : Yaml) : NoRefs y → ∀ i c, Restyle y (y.pretty i c) := by
  induction y using childRec with
  | h y ih =>
    intro hr i c
    rcases hr.kinds with ⟨s, hs⟩ | ⟨ys, hy⟩ | ⟨es, hy⟩
    · obtain ⟨s', hs'⟩ := scalarText_pretty hs i c
      refine .scalar hs hs' (fun w hw h => ?_) fun h => ?_
      · subst h
        exact pretty_plain hw i c
      · subst h
        rw [← asString_eq] at hs hs'
        rw [C31_pretty_scalar _ _ i c hs (.inl (by decide))] at hs'
        cases hs'; rfl
    · obtain ⟨i', c', hy'⟩ := seqElements_pretty hy i c
      refine .seq (ys.map fun w => (w, w.pretty i' c')) (by simpa [Function.comp_def] using hy)
        (by simpa [Function.comp_def] using hy') fun a b hm => ?_
      obtain ⟨w, hw, he⟩ := List.mem_map.1 hm
      obtain ⟨rfl, rfl⟩ := Prod.mk.inj he
      exact ih w (child_of_seqElements hy hw) (hr.child (child_of_seqElements hy hw)) _ _
    · obtain ⟨i', c', hy'⟩ := mapPairs_pretty hy i c
      refine .map (es.map fun e => (e.1, e.2, e.2.pretty i' c')) (by simpa [Function.comp_def] using hy)
        (by simpa [Function.comp_def] using hy') fun k a b hm => ?_
      obtain ⟨⟨k', w⟩, hw, he⟩ := List.mem_map.1 hm
      simp only [Prod.mk.injEq] at he
      obtain ⟨rfl, rfl, rfl⟩ := he
      exact ih w (child_of_mapPairs hy hw) (hr.child (child_of_mapPairs hy hw)) _ _

/-! ## The data of restyled trees -/

theorem dataOf_scalar {y : Yaml} {s : Str} (h : scalarText y = some s) : dataOf y = .str s := by
  cases y <;> simp [scalarText] at h <;> subst h <;> rfl

theorem yamlsData_map (ys : List Yaml) : yamlsData ys = ys.map dataOf := by
  induction ys with
  | nil => rfl
  | cons y t ih => simp [yamlsData, ih]

theorem entriesData_map (es : List (Str × Yaml)) : entriesData es = es.map fun e => (e.1, dataOf e.2) := by
  induction es with
  | nil => rfl
  | cons e t ih => obtain ⟨k, v⟩ := e; simp [entriesData, ih]

theorem arrayData_map (ds : List ArrayData) : arrayData ds = (elementsOf ds).map dataOf := by
  rw [elementsOf_value]
  induction ds with
  | nil => rfl
  | cons d t ih =>
    match d with
    | .element ⟨_, _⟩ => simp [arrayData, ArrayData.value?, ih]
    | .comment _ => exact ih
    | .inlineComment _ => exact ih

theorem hashData_map (ds : List HashData) : hashData ds = (entriesOf ds).map fun e => (e.1, dataOf e.2) := by
  rw [entriesOf_entry]
  induction ds with
  | nil => rfl
  | cons d t ih =>
    match d with
    | .element ⟨_, ⟨_, _⟩⟩ => simp [hashData, HashData.entry?, ih]
    | .comment _ => exact ih
    | .inlineComment _ => exact ih

theorem dataOf_seq {y : Yaml} {ys : List Yaml} (h : seqElements y = some ys) : dataOf y = .seq (ys.map dataOf) := by
  cases y <;> simp only [seqElements, Option.some.injEq, reduceCtorEq] at h <;> subst h
  · rw [dataOf, yamlsData_map]
  · rw [dataOf, arrayData_map]

theorem dataOf_map {y : Yaml} {es : List (Str × Yaml)} (h : mapPairs y = some es) :
    dataOf y = .map (es.map fun e => (e.1, dataOf e.2)) := by
  cases y <;> simp only [mapPairs, Option.some.injEq, reduceCtorEq] at h <;> subst h
  · rw [dataOf, entriesData_map]
  · rw [dataOf, hashData_map]

/-- A value is read from the restyled tree it is written as only if the restyling keeps the data. -/
theorem data_of_decodes {Γ : Nat → Ty} {ty : Ty} {v : SVal} (ht : HasTy Γ ty v) :
    ∀ {y y' : Yaml}, v.ser = some y → Restyle y y' → Decodes Γ ty y' v → dataOf y' = dataOf y := by
  have pl : ∀ {y y' : Yaml} {w : Str}, inlineBreakingChars w = false → y = .unquotedString w → Restyle y y' →
      dataOf y' = dataOf y := by
    intro y y' w hw hy hr
    rw [hr.plain hw hy, hy]
  induction ht with
  | bool b =>
    intro y y' h hr hd
    simp only [SVal.ser, Option.some.injEq] at h
    exact pl (by cases b <;> decide) h.symm hr
  | int =>
    intro y y' h hr hd
    simp only [SVal.ser, Option.some.injEq] at h
    exact pl (inlineBreaking_of_floatChars (intToStr_floatChars _)) h.symm hr
  | float hf =>
    intro y y' h hr hd
    simp only [SVal.ser, Option.some.injEq] at h
    exact pl (inlineBreaking_of_floatChars (f64_chars hf)) h.symm hr
  | char =>
    intro y y' h hr hd
    simp only [SVal.ser, Option.some.injEq] at h
    cases hd with
    | char hy => rw [dataOf_scalar hy, ← h, dataOf_scalar (scalarText_strToYaml _)]
  | str =>
    intro y y' h hr hd
    simp only [SVal.ser, Option.some.injEq] at h
    cases hd with
    | str hy => rw [dataOf_scalar hy, ← h, dataOf_scalar (scalarText_strToYaml _)]
  | @bytes bs hb =>
    intro y y' h hr hd
    simp only [SVal.ser, Option.some.injEq] at h
    subst h
    cases hd with
    | @bytes _ ys' _ hy hl hd =>
      obtain ⟨hl', hr'⟩ := hr.of_seq (elementsOf_seqNode _) hy
      rw [dataOf_seq hy, dataOf_seq (elementsOf_seqNode _)]
      congr 1
      refine List.ext_getElem (by simpa using hl'.symm) fun i h1 h2 => ?_
      simp only [List.length_map] at h1 h2
      have := hr' i (by simpa using h2) h1
      simp only [List.getElem_map] at this ⊢
      exact pl (inlineBreaking_of_floatChars (natToStr_floatChars _)) rfl this
  | unit =>
    intro y y' h hr hd
    simp only [SVal.ser, Option.some.injEq] at h
    exact pl (by decide) h.symm hr
  | none =>
    intro y y' h hr hd
    simp only [SVal.ser, Option.some.injEq] at h
    exact pl (by decide) h.symm hr
  | some _ ih =>
    intro y y' h hr hd
    simp only [SVal.ser] at h
    cases hd with
    | some hn hd => exact ih h hr hd
  | newtype _ ih =>
    intro y y' h hr hd
    simp only [SVal.ser] at h
    cases hd with
    | newtype hd => exact ih h hr hd
  | @seq t vs ht ih =>
    intro y y' h hr hd
    simp only [SVal.ser, Option.map_eq_some_iff] at h
    obtain ⟨zs, hz, rfl⟩ := h
    obtain ⟨ps, rfl, rfl, hp⟩ := serList_map (fun v => v) (qs := vs) (by simpa using hz)
    cases hd with
    | @seq _ _ ys' _ hy hl hd =>
      obtain ⟨hl', hr'⟩ := hr.of_seq (elementsOf_seqNode _) hy
      rw [dataOf_seq hy, dataOf_seq (elementsOf_seqNode _)]
      congr 1
      refine List.ext_getElem (by simpa using hl'.symm) fun i h1 h2 => ?_
      simp only [List.length_map] at h1 h2
      have h3 := hr' i (by simpa using h2) h1
      simp only [List.getElem_map] at h3 ⊢
      have hz' : (ys'[i], (ps[i]).1) ∈ ys'.zip (ps.map fun p => p.1) :=
        List.mem_iff_getElem.2 ⟨i, by simp; omega, by simp⟩
      exact ih _ (List.mem_map.2 ⟨ps[i], List.getElem_mem _, rfl⟩) (hp _ (List.getElem_mem _)) h3 (hd _ _ hz')
  | tuple qs ht ih =>
    intro y y' h hr hd
    simp only [SVal.ser, Option.map_eq_some_iff] at h
    obtain ⟨zs, hz, rfl⟩ := h
    obtain ⟨ps, rfl, rfl, hp⟩ := serList_map (fun q : Ty × SVal => q.2) (qs := qs) hz
    cases hd with
    | @tuple _ _ ys' _ hy hl _ hd =>
      obtain ⟨hl', hr'⟩ := hr.of_seq rfl hy
      rw [dataOf_seq hy, dataOf_seq (y := .inlineArray _) rfl]
      congr 1
      refine List.ext_getElem (by simpa using hl'.symm) fun i h1 h2 => ?_
      simp only [List.length_map] at h1 h2
      have h3 := hr' i (by simpa using h2) h1
      simp only [List.getElem_map] at h3 ⊢
      refine ih _ _ (List.mem_map.2 ⟨ps[i], List.getElem_mem _, rfl⟩) (hp _ (List.getElem_mem _)) h3 (hd _ _ _ ?_)
      exact List.mem_iff_getElem.2 ⟨i, by simp; omega, by simp⟩
  | @map kt vt es hk hv ihk ihv =>
    intro y y' h hr hd
    simp only [SVal.ser, Option.map_eq_some_iff] at h
    obtain ⟨zs, hz, rfl⟩ := h
    obtain ⟨ps, rfl, rfl, hp⟩ := serEntries_map hz
    cases hd with
    | @map _ _ _ es' _ hy hl hdk hdv =>
      obtain ⟨hl', hr'⟩ := hr.of_map (mapPairs_mapNode _) hy
      rw [dataOf_map hy, dataOf_map (mapPairs_mapNode _)]
      congr 1
      refine List.ext_getElem (by simpa using hl'.symm) fun i h1 h2 => ?_
      simp only [List.length_map] at h1 h2
      have h3 := hr' i (by simpa using h2) h1
      simp only [List.getElem_map] at h3 ⊢
      have hm := hp _ (List.getElem_mem h2)
      have hz' : (((ps[i]).2.1, (es'[i]).2), ((ps[i]).1, (ps[i]).2.2.1)) ∈ es'.zip (ps.map fun p => (p.1, p.2.2.1)) :=
        List.mem_iff_getElem.2 ⟨i, by simp; omega, by simp [h3.1]⟩
      have hmem : ((ps[i]).1, (ps[i]).2.2.1) ∈ ps.map fun p => (p.1, p.2.2.1) :=
        List.mem_map.2 ⟨ps[i], List.getElem_mem _, rfl⟩
      rw [h3.1, ihv _ _ hmem hm.2 h3.2 (hdv _ _ _ _ hz')]
  | struct qs hn ht ih =>
    intro y y' h hr hd
    simp only [SVal.ser, Option.map_eq_some_iff] at h
    obtain ⟨zs, hz, rfl⟩ := h
    obtain ⟨ps, rfl, rfl, hp⟩ := serFields_map (fun q : Str × Ty × SVal => q.1) (fun q => q.2.2) hz
    cases hd with
    | @struct _ _ es' _ hy _ _ hdv _ _ =>
      obtain ⟨hl', hr'⟩ := hr.of_map (mapPairs_mapNode _) hy
      rw [dataOf_map hy, dataOf_map (mapPairs_mapNode _)]
      congr 1
      refine List.ext_getElem (by simpa using hl'.symm) fun i h1 h2 => ?_
      simp only [List.length_map] at h1 h2
      have h3 := hr' i (by simpa using h2) h1
      simp only [List.getElem_map] at h3 ⊢
      have hq : (ps[i]).1 ∈ ps.map fun p => p.1 := List.mem_map.2 ⟨ps[i], List.getElem_mem _, rfl⟩
      rw [h3.1, ih _ _ _ hq (hp _ (List.getElem_mem _)) h3.2 (hdv (ps[i]).1.1 _ _ _ ?_ ?_ (List.mem_map.2 ⟨_, hq, rfl⟩))]
      · refine lookup_eq_some ?_ (List.mem_map.2 ⟨_, hq, rfl⟩)
        simpa only [List.map_map, Function.comp_def] using hn
      · rw [h3.1]; exact List.getElem_mem _
  | @unitVariant vs name _ =>
    intro y y' h hr hd
    simp only [SVal.ser, Option.some.injEq] at h
    cases hd with
    | unitVariant hy =>
      have h1 := scalarText_strToYaml name
      rw [h] at h1
      cases hr with
      | scalar h2 h3 =>
        cases hy with
        | name hy => rw [dataOf_scalar hy, dataOf_scalar h1]
        | entry he => rw [scalarText_of_map he] at h3; cases h3
      | seq _ h2 => rw [scalarText_of_seq h2] at h1; cases h1
      | map _ h2 => rw [scalarText_of_map h2] at h1; cases h1
  | newtypeVariant hl ht ih =>
    intro y y' h hr hd
    have hlo := lossless_of_decodes (.newtypeVariant hl ht) h hr hd
    simp only [SVal.ser] at h
    cases hlo with
    | newtypeVariant hT =>
      have h1 := hT.ser h
      rw [asString_eq] at h1
      cases hr with
      | scalar h2 h3 _ h5 =>
        rw [h1] at h2; cases h2
        rw [h5 rfl] at h3
        rw [dataOf_scalar h3, dataOf_scalar h1]
      | seq _ h2 => rw [scalarText_of_seq h2] at h1; cases h1
      | map _ h2 => rw [scalarText_of_map h2] at h1; cases h1
  | tupleVariant qs hl ht => intro y y' h hr hd; exact nomatch lossless_of_decodes (.tupleVariant qs hl ht) h hr hd
  | structVariant qs hl hn ht =>
    intro y y' h hr hd; exact nomatch lossless_of_decodes (.structVariant qs hl hn ht) h hr hd
  | ref _ ih =>
    intro y y' h hr hd
    cases hd with
    | ref hd => exact ih h hr hd

/-! ## Pretty trees with the same data represent the same value -/

theorem asSeq_data {y : Yaml} {ys : List Yaml} {σ : Anchors} (h : asSeq σ y = some (ys, σ)) :
    dataOf y = .seq (ys.map dataOf) := by
  refine dataOf_seq ?_
  cases y <;> simp only [asSeq, Option.some.injEq, Prod.mk.injEq, reduceCtorEq] at h
  · obtain ⟨rfl, -⟩ := h; rfl
  · rw [seqElements, elementsOf_value, (seqValues_onValue (fun y => y) h σ).2]

theorem asMap_data {y : Yaml} {es : List (Str × Yaml)} {σ : Anchors} (h : asMap σ y = some (es, σ)) :
    dataOf y = .map (es.map fun e => (e.1, dataOf e.2)) := by
  refine dataOf_map ?_
  cases y <;> simp only [asMap, Option.some.injEq, Prod.mk.injEq, reduceCtorEq] at h
  · obtain ⟨rfl, -⟩ := h; rfl
  · rw [mapPairs, entriesOf_entry, (hashEntries_onValue (fun y => y) h σ).2]

theorem asString_of_data {y y' : Yaml} (h : dataOf y = dataOf y') : y.asString = y'.asString := by
  cases y <;> cases y' <;> simp [dataOf] at h <;> simp [Yaml.asString, h]

/-- `pretty` keeps representing trees if it keeps their data. -/
theorem Denotes.pretty_of_data {Γ : Nat → Ty} {ty : Ty} {v : SVal} {y : Yaml} (h : Denotes Γ ty v y) :
    ∀ (i c : Bool), dataOf (y.pretty i c) = dataOf y → Denotes Γ ty v (y.pretty i c) := by
  induction h with
  | @bool b y h => intro i c _; exact .bool (pretty_plainOf h (by cases b <;> decide) i c)
  | int hk hr h =>
    intro i c _
    exact .int hk hr (pretty_plainOf h (inlineBreaking_of_floatChars (intToStr_floatChars _)) i c)
  | float hf h =>
    intro i c _
    exact .float hf (pretty_plainOf h (inlineBreaking_of_floatChars (f64_chars hf)) i c)
  | char h => intro i c hd; exact .char ((asString_of_data hd).trans h)
  | str h => intro i c hd; exact .str ((asString_of_data hd).trans h)
  | bytes hb h =>
    intro i c _
    obtain ⟨i', c', hh⟩ := asSeq_pretty h i c
    refine .bytes hb fun σ => ?_
    rw [hh σ, List.map_map]
    congr 3
    funext b
    exact pretty_plain (inlineBreaking_of_floatChars (natToStr_floatChars b)) _ _
  | unit h => intro i c _; exact .unit (pretty_plainOf h (by decide) i c)
  | none h => intro i c _; exact .none (pretty_plainOf h (by decide) i c)
  | @some t v y h hr hn ih =>
    intro i c hd
    have ha := asString_of_data hd
    refine .some (ih i c hd) (refOf_pretty hr i c) fun s hs hw => ?_
    rw [ha] at hs
    obtain ⟨h1, h2⟩ := hn s hs hw
    refine ⟨?_, h2⟩
    cases hp : plainOf (y.pretty i c) with
    | none => rfl
    | some s' =>
      exfalso
      have hs' : s' = s := by
        rw [eq_of_plainOf hp, hs] at ha
        simpa [Yaml.asString] using ha
      rcases plainOf_pretty hp with hq | hq
      · rw [h1] at hq; simp at hq
      · rw [hs', h2] at hq; simp at hq
  | newtype h ih => intro i c hd; exact .newtype (ih i c hd)
  | @seq t y ps h h' ih =>
    intro i c hd
    obtain ⟨i', c', hh⟩ := asSeq_pretty h' i c
    rw [asSeq_data (h' []), asSeq_data (hh []), Data.seq.injEq, List.map_map, List.map_map, List.map_map,
      List.map_inj_left] at hd
    have := Denotes.seq (Γ := Γ) (ps.map fun p => (p.1, p.2.pretty i' c')) (t := t) (y := y.pretty i c) ?_ ?_
    · simpa only [List.map_map, Function.comp_def] using this
    · intro v z hm
      simp only [List.mem_map, Prod.mk.injEq] at hm
      obtain ⟨p, hm, rfl, rfl⟩ := hm
      exact ih _ _ hm i' c' (hd p hm)
    · intro σ
      rw [hh σ]; simp [Function.comp_def]
  | @tuple y ps h h' ih =>
    intro i c hd
    obtain ⟨i', c', hh⟩ := asSeq_pretty h' i c
    rw [asSeq_data (h' []), asSeq_data (hh []), Data.seq.injEq, List.map_map, List.map_map, List.map_map,
      List.map_inj_left] at hd
    have := Denotes.tuple (Γ := Γ) (ps.map fun p => (p.1, p.2.1, p.2.2.pretty i' c')) (y := y.pretty i c) ?_ ?_
    · simpa only [List.map_map, Function.comp_def] using this
    · intro t v z hm
      simp only [List.mem_map, Prod.mk.injEq] at hm
      obtain ⟨p, hm, rfl, rfl, rfl⟩ := hm
      exact ih _ _ _ hm i' c' (hd p hm)
    · intro σ
      rw [hh σ]; simp [Function.comp_def]
  | @map kt vt y ps hk hv h' ihk ihv =>
    intro i c hd
    obtain ⟨i', c', hh⟩ := asMap_pretty h' i c
    rw [asMap_data (h' []), asMap_data (hh []), Data.map.injEq, List.map_map, List.map_map, List.map_map,
      List.map_inj_left] at hd
    have := Denotes.map (Γ := Γ) (ps.map fun p => (p.1, p.2.1, p.2.2.1, p.2.2.2.pretty i' c'))
      (kt := kt) (vt := vt) (y := y.pretty i c) ?_ ?_ ?_
    · simpa only [List.map_map, Function.comp_def] using this
    · intro k s v z hm
      simp only [List.mem_map, Prod.mk.injEq] at hm
      obtain ⟨p, hm, rfl, rfl, rfl, rfl⟩ := hm
      exact hk _ _ _ _ hm
    · intro k s v z hm
      simp only [List.mem_map, Prod.mk.injEq] at hm
      obtain ⟨p, hm, rfl, rfl, rfl, rfl⟩ := hm
      exact ihv _ _ _ _ hm i' c' (by simpa using hd p hm)
    · intro σ
      rw [hh σ]; simp [Function.comp_def]
  | @struct y ps hn h h' ih =>
    intro i c hd
    obtain ⟨i', c', hh⟩ := asMap_pretty h' i c
    rw [asMap_data (h' []), asMap_data (hh []), Data.map.injEq, List.map_map, List.map_map, List.map_map,
      List.map_inj_left] at hd
    have := Denotes.struct (Γ := Γ) (ps.map fun p => (p.1, p.2.1, p.2.2.1, p.2.2.2.pretty i' c'))
      (y := y.pretty i c) ?_ ?_ ?_
    · simpa only [List.map_map, Function.comp_def] using this
    · simpa only [List.map_map, Function.comp_def] using hn
    · intro k t v z hm
      simp only [List.mem_map, Prod.mk.injEq] at hm
      obtain ⟨p, hm, rfl, rfl, rfl, rfl⟩ := hm
      exact ih _ _ _ _ hm i' c' (by simpa using hd p hm)
    · intro σ
      rw [hh σ]; simp [Function.comp_def]
  | unitVariant hl h => intro i c hd; exact .unitVariant hl ((asString_of_data hd).trans h)
  | newtypeVariant hl h h' _ => intro i c hd; exact .newtypeVariant hl ((asString_of_data hd).trans h) h'
  | ref h ih => intro i c hd; exact .ref (ih i c hd)

end YamlSubset
