import Verif.Lemmas.EditCommute
import Verif.Spec.Unread

/-! # Reading does not look at places that are not read -/

namespace YamlSubset

open Spec

/-- Entry by entry: the same key and related values. -/
def EntriesAlike (R : Str → Yaml → Yaml → Prop) (es es' : List (Str × Yaml)) : Prop :=
  es'.length = es.length ∧ ∀ (i : Nat) (k : Str) (w : Yaml), es[i]? = some (k, w) → ∃ w', es'[i]? = some (k, w') ∧ R k w w'

theorem entriesAlike_nil (R) : EntriesAlike R [] [] := ⟨rfl, by simp⟩

theorem entriesAlike_cons {R} {k : Str} {w w' : Yaml} {es es'} (h : R k w w') (ht : EntriesAlike R es es') :
    EntriesAlike R ((k, w) :: es) ((k, w') :: es') := by
  refine ⟨by simp [ht.1], fun i k' u hi => ?_⟩
  cases i with
  | zero =>
    simp only [List.getElem?_cons_zero, Option.some.injEq, Prod.mk.injEq] at hi
    obtain ⟨rfl, rfl⟩ := hi
    exact ⟨w', by simp, h⟩
  | succ i =>
    simp only [List.getElem?_cons_succ] at hi ⊢
    exact ht.2 i k' u hi

theorem entriesAlike_refl {R} (h : ∀ k w, R k w w) (es) : EntriesAlike R es es := ⟨rfl, fun _ k w hi => ⟨w, hi, h k w⟩⟩

theorem entriesAlike_back {R} {es es'} (h : EntriesAlike R es es') {i : Nat} {k : Str} {w' : Yaml} (hi : es'[i]? = some (k, w')) :
    ∃ w, es[i]? = some (k, w) ∧ R k w w' := by
  have hl : i < es.length := by rw [← h.1]; exact (List.getElem?_eq_some_iff.1 hi).1
  obtain ⟨⟨k0, w0⟩, hp⟩ : ∃ e, es[i] = e := ⟨_, rfl⟩
  have he : es[i]? = some (k0, w0) := by rw [List.getElem?_eq_getElem hl, hp]
  obtain ⟨w1, h1, h2⟩ := h.2 i k0 w0 he
  rw [hi] at h1
  cases h1
  exact ⟨w0, he, h2⟩

theorem entriesAlike_symm {R} {es es'} (h : EntriesAlike R es es') : EntriesAlike (fun k w w' => R k w' w) es' es :=
  ⟨h.1.symm, fun _ _ _ hi => entriesAlike_back h hi⟩

theorem entriesAlike_mono {R S : Str → Yaml → Yaml → Prop} (h : ∀ k w w', R k w w' → S k w w') {es es'} (ha : EntriesAlike R es es') : EntriesAlike S es es' :=
  ⟨ha.1, fun i k w hi => by obtain ⟨w', h1, h2⟩ := ha.2 i k w hi; exact ⟨w', h1, h _ _ _ h2⟩⟩

theorem entriesAlike_filter {R} {es es'} (h : EntriesAlike R es es') (k : Str) :
    (es'.filter fun e => e.1 = k).length = (es.filter fun e => e.1 = k).length := by
  have hk : es'.map (fun e => e.1) = es.map (fun e => e.1) := by
    apply List.ext_getElem?
    intro i
    rw [List.getElem?_map, List.getElem?_map]
    cases hi : es[i]? with
    | none =>
      have : es'[i]? = none := by rw [List.getElem?_eq_none_iff] at hi ⊢; rw [h.1]; exact hi
      rw [this]
    | some e =>
      obtain ⟨k', w⟩ := e
      obtain ⟨w', h1, -⟩ := h.2 i k' w hi
      rw [h1]; rfl
  have hc : ∀ l : List (Str × Yaml), (l.filter fun e => e.1 = k).length = ((l.map fun e => e.1).filter fun x => x = k).length := by
    intro l
    rw [List.filter_map, List.length_map]
    rfl
  rw [hc, hc, hk]

theorem valuePatch_entries (k : Str) (F : Yaml → Nat × Yaml) (ds : List HashData) :
    EntriesAlike (fun k' w w' => w' = w ∨ (k' = k ∧ w' = (F w).2)) (entriesOf ds) (entriesOf ((valuePatch k F).run k ds).2) := by
  induction ds with
  | nil => exact entriesAlike_nil _
  | cons d t ih =>
    match d with
    | .comment c => simpa [Patch.run, entriesOf, List.filterMap_cons] using ih
    | .inlineComment c => simpa [Patch.run, entriesOf, List.filterMap_cons] using ih
    | .element ⟨k', ⟨a, w⟩⟩ =>
      unfold Patch.run
      split
      · rename_i hk
        subst hk
        simp only [valuePatch, entriesOf, List.cons_append, List.nil_append, List.filterMap_cons]
        exact entriesAlike_cons (.inr ⟨rfl, rfl⟩) (entriesAlike_refl (fun _ _ => .inl rfl) _)
      · simp only [entriesOf, List.filterMap_cons]
        exact entriesAlike_cons (.inl rfl) ih

/-! ## The rules of decoding -/

variable {Γ : Nat → Ty}

/-- Two trees are read the same at a type. -/
def ReadsAlike (Γ : Nat → Ty) (t : Ty) (y y' : Yaml) : Prop := ∀ v, Decodes Γ t y v ↔ Decodes Γ t y' v

theorem ReadsAlike.refl (t : Ty) (y : Yaml) : ReadsAlike Γ t y y := fun _ => Iff.rfl
theorem ReadsAlike.symm {t : Ty} {y y' : Yaml} (h : ReadsAlike Γ t y y') : ReadsAlike Γ t y' y := fun v => (h v).symm
theorem ReadsAlike.trans {t : Ty} {y y' z : Yaml} (h : ReadsAlike Γ t y y') (h' : ReadsAlike Γ t y' z) : ReadsAlike Γ t y z := fun v => (h v).trans (h' v)

theorem decodes_map_of {kt vt : Ty} {y y' : Yaml} {es es' : List (Str × Yaml)} (hy : mapPairs y = some es) (hy' : mapPairs y' = some es')
    (h : EntriesAlike (fun _ w w' => ReadsAlike Γ vt w w') es es') {v : SVal} (hd : Decodes Γ (.map kt vt) y v) : Decodes Γ (.map kt vt) y' v := by
  cases hd with
  | @map _ _ _ es0 vs hy0 hl hk hv =>
    rw [hy] at hy0
    cases hy0
    refine .map hy' (by rw [h.1, hl]) (fun k w a b hm => ?_) fun k w a b hm => ?_ <;>
    · obtain ⟨i, hi⟩ := List.mem_iff_getElem?.1 hm
      rw [List.getElem?_zip_eq_some] at hi
      obtain ⟨w0, h1, h2⟩ := entriesAlike_back h hi.1
      have hm0 : ((k, w0), (a, b)) ∈ es.zip vs := List.mem_iff_getElem?.2 ⟨i, List.getElem?_zip_eq_some.2 ⟨h1, hi.2⟩⟩
      first
      | exact hk k w0 a b hm0
      | exact (h2 b).1 (hv k w0 a b hm0)

theorem decodes_struct_of {fs : List (Str × Ty)} {y y' : Yaml} {es es' : List (Str × Yaml)} (hy : mapPairs y = some es) (hy' : mapPairs y' = some es')
    (hlen : ∀ k t, (k, t) ∈ fs → (es'.filter fun e => e.1 = k).length = (es.filter fun e => e.1 = k).length)
    (hval : ∀ k t, fs.lookup k = some t → ∀ w', (k, w') ∈ es' → ∃ w, (k, w) ∈ es ∧ ReadsAlike Γ t w w')
    {v : SVal} (hd : Decodes Γ (.struct fs) y v) : Decodes Γ (.struct fs) y' v := by
  cases hd with
  | @struct _ _ es0 vs hy0 hn h1 hv hm hmv =>
    rw [hy] at hy0
    cases hy0
    have habs : ∀ k t, (k, t) ∈ fs → (∀ w, (k, w) ∉ es') → ∀ w, (k, w) ∉ es := by
      intro k t hk ha w hw
      have h0 : (es'.filter fun e => e.1 = k) = [] := by
        rw [List.filter_eq_nil_iff]
        rintro ⟨k', w'⟩ hm he
        simp only [decide_eq_true_eq] at he
        exact ha w' (he ▸ hm)
      have := hlen k t hk
      rw [h0] at this
      have hmem : (k, w) ∈ es.filter fun e => e.1 = k := List.mem_filter.2 ⟨hw, by simp⟩
      rw [List.eq_nil_of_length_eq_zero this.symm] at hmem
      simp at hmem
    refine .struct hy' hn (fun k t hk => by rw [hlen k t hk]; exact h1 k t hk) (fun k t w v hl hw hx => ?_) (fun k t hk ha => hm k t hk (habs k t hk ha))
      fun k v hx ha => ?_
    · obtain ⟨w0, h2, h3⟩ := hval k t hl w hw
      exact (h3 v).1 (hv k t w0 v hl h2 hx)
    · have hkn : k ∈ fs.map fun f => f.1 := by rw [← hn]; exact List.mem_map.2 ⟨_, hx, rfl⟩
      obtain ⟨⟨k', t⟩, hf, rfl⟩ := List.mem_map.1 hkn
      exact hmv _ v hx (habs _ t hf ha)

/-- Elements of sequences, one by one. -/
def ElementsAlike (R : Nat → Yaml → Yaml → Prop) (ys ys' : List Yaml) : Prop :=
  ys'.length = ys.length ∧ ∀ (i : Nat) (w' : Yaml), ys'[i]? = some w' → ∃ w, ys[i]? = some w ∧ R i w w'

theorem decodes_seq_of {t : Ty} {y y' : Yaml} {ys ys' : List Yaml} (hy : seqElements y = some ys) (hy' : seqElements y' = some ys')
    (h : ElementsAlike (fun _ w w' => ReadsAlike Γ t w w') ys ys') {v : SVal} (hd : Decodes Γ (.seq t) y v) : Decodes Γ (.seq t) y' v := by
  cases hd with
  | @seq _ _ ys0 vs hy0 hl hv =>
    rw [hy] at hy0
    cases hy0
    refine .seq hy' (by rw [h.1, hl]) fun w v hm => ?_
    obtain ⟨i, hi⟩ := List.mem_iff_getElem?.1 hm
    rw [List.getElem?_zip_eq_some] at hi
    obtain ⟨w0, h1, h2⟩ := h.2 i w hi.1
    exact (h2 v).1 (hv w0 v (List.mem_iff_getElem?.2 ⟨i, List.getElem?_zip_eq_some.2 ⟨h1, hi.2⟩⟩))

theorem decodes_tuple_of {ts : List Ty} {y y' : Yaml} {ys ys' : List Yaml} (hy : seqElements y = some ys) (hy' : seqElements y' = some ys')
    (h : ElementsAlike (fun i w w' => ∀ t, ts[i]? = some t → ReadsAlike Γ t w w') ys ys') {v : SVal} (hd : Decodes Γ (.tuple ts) y v) :
    Decodes Γ (.tuple ts) y' v := by
  cases hd with
  | @tuple _ _ ys0 vs hy0 hl hlv hv =>
    rw [hy] at hy0
    cases hy0
    refine .tuple hy' (by rw [h.1]; exact hl) hlv fun t w v hm => ?_
    obtain ⟨i, hi⟩ := List.mem_iff_getElem?.1 hm
    rw [List.getElem?_zip_eq_some, List.getElem?_zip_eq_some] at hi
    obtain ⟨w0, h1, h2⟩ := h.2 i w hi.2.1
    exact (h2 t hi.1 v).1 (hv t w0 v (List.mem_iff_getElem?.2 ⟨i, List.getElem?_zip_eq_some.2 ⟨hi.1, List.getElem?_zip_eq_some.2 ⟨h1, hi.2.2⟩⟩⟩))

theorem elementsOf_eq (ds : List ArrayData) : elementsOf ds = elementValues ds := by
  induction ds with
  | nil => rfl
  | cons d t ih =>
    rcases d with c | c | ⟨a, v⟩ <;> simp only [elementsOf, elementValues, List.filterMap_cons] <;> simpa [elementsOf, elementValues] using ih

theorem times_alike {t : Ty} {G : Yaml → Yaml} (h : ∀ e, ReadsAlike Γ t (G e) e) (n : Nat) (e : Yaml) : ReadsAlike Γ t (times n G e) e := by
  induction n with
  | zero => exact ReadsAlike.refl t e
  | succ n ih => exact (h _).trans ih

theorem foldl_modify_other (G : Yaml → Yaml) {is : List Nat} {j : Nat} (h : j ∉ is) (es : List Yaml) :
    (is.foldl (fun es i => es.modify i G) es)[j]? = es[j]? := by
  induction is generalizing es with
  | nil => rfl
  | cons i is ih =>
    simp only [List.mem_cons, not_or] at h
    rw [List.foldl_cons, ih h.2, List.getElem?_modify]
    cases es[j]? <;> simp [Ne.symm h.1]

/-- The elements after a visit. -/
theorem visitList_alike (is : Option (List Nat)) (cs : List Condition) (F : Yaml → Nat × Yaml) (es : List Yaml) :
    ElementsAlike (fun i w w' => w' = w ∨ ((∀ l, is = some l → i ∈ l) ∧ ∃ n, w' = times n (visitTree cs F) w)) es (visitList is cs F es).2 := by
  refine ⟨visitList_length .., fun i w' hi => ?_⟩
  cases is with
  | none =>
    simp only [visitList, overInline_snd, List.getElem?_map, Option.map_eq_some_iff] at hi
    obtain ⟨w, h1, rfl⟩ := hi
    exact ⟨w, h1, .inr ⟨nofun, 1, rfl⟩⟩
  | some is =>
    simp only [visitList, atInline_snd] at hi
    by_cases hm : i ∈ is
    · rcases foldl_modify_rel (visitTree cs F) is es i with ⟨-, h2⟩ | ⟨e, e', h1, h2, n, rfl⟩
      · rw [hi] at h2; cases h2
      · rw [hi] at h2
        cases h2
        exact ⟨e, h1, .inr ⟨fun l hl => by cases hl; exact hm, n, rfl⟩⟩
    · rw [foldl_modify_other _ hm] at hi
      exact ⟨w', hi, .inl rfl⟩

theorem elementsAlike_symm {R} {ys ys'} (h : ElementsAlike R ys ys') : ElementsAlike (fun i w w' => R i w' w) ys' ys := by
  refine ⟨h.1.symm, fun i w hi => ?_⟩
  have hl : i < ys'.length := by rw [h.1]; exact (List.getElem?_eq_some_iff.1 hi).1
  have he : ys'[i]? = some ys'[i] := List.getElem?_eq_getElem hl
  obtain ⟨w0, h1, h2⟩ := h.2 i _ he
  rw [hi] at h1
  cases h1
  exact ⟨_, he, h2⟩

theorem elementsAlike_mono {R S : Nat → Yaml → Yaml → Prop} (h : ∀ i w w', R i w w' → S i w w') {ys ys'} (ha : ElementsAlike R ys ys') :
    ElementsAlike S ys ys' :=
  ⟨ha.1, fun i w hi => by obtain ⟨w', h1, h2⟩ := ha.2 i w hi; exact ⟨w', h1, h _ _ _ h2⟩⟩

/-! ## Edits -/

variable {f : Closure} {last : Str} {names : List Str} {P : Patch}

/-- An edit changes nothing, or a mapping or a sequence. -/
theorem editHash_cases (hf : f.IsPatch last P) (p : YamlPath) (hl : lastKey p = some last) (y : Yaml) :
    (Yaml.editHash f p y).2 = y ∨
    (∃ k cs o ds, p = .key k cs o ∧ y = .hash ds ∧ (Yaml.editHash f p y).2 = .hash ((keyPatch f P k o).run k ds).2) ∨
    ∃ is cs q ys ys', p = indexStep is cs q ∧ seqElements y = some ys ∧ seqElements (Yaml.editHash f p y).2 = some ys' ∧
      ElementsAlike (fun i w w' => w' = w ∨ ((∀ l, is = some l → i ∈ l) ∧ ∃ n, w' = times n (visitTree cs (Yaml.editHash f q)) w)) ys ys' := by
  have step : ∀ is cs q, p = indexStep is cs q → (Yaml.editHash f p y).2 = y ∨
      ∃ is cs q ys ys', p = indexStep is cs q ∧ seqElements y = some ys ∧ seqElements (Yaml.editHash f p y).2 = some ys' ∧
        ElementsAlike (fun i w w' => w' = w ∨ ((∀ l, is = some l → i ∈ l) ∧ ∃ n, w' = times n (visitTree cs (Yaml.editHash f q)) w)) ys ys' := by
    rintro is cs q rfl
    rw [editHash_indexStep]
    cases y with
    | inlineArray es => exact .inr ⟨is, cs, q, es, _, rfl, rfl, rfl, visitList_alike ..⟩
    | array ds =>
      refine .inr ⟨is, cs, q, elementValues ds, _, rfl, ?_, ?_, visitList_alike is cs (Yaml.editHash f q) (elementValues ds)⟩
      · simp only [seqElements, elementsOf_eq]
      · simp only [seqElements, elementsOf_eq]
        rw [elementValues_setValues _ _ (visitList_length ..)]
    | inlineHash _ => exact .inl rfl
    | hash _ => exact .inl rfl
    | singleQuotedString _ => exact .inl rfl
    | doubleQuotedString _ => exact .inl rfl
    | unquotedString _ => exact .inl rfl
    | foldedString _ _ => exact .inl rfl
    | literalString _ _ => exact .inl rfl
    | anchor _ => exact .inl rfl
  match p with
  | .root cs => simp [lastKey] at hl
  | .allIndexes cs none => simp [lastKey] at hl
  | .indexes is cs none => simp [lastKey] at hl
  | .allIndexes cs (some q) =>
    rcases step none cs q rfl with h | h
    · exact .inl h
    · exact .inr (.inr h)
  | .indexes is cs (some q) =>
    rcases step (some is) cs q rfl with h | h
    · exact .inl h
    · exact .inr (.inr h)
  | .key k cs o =>
    cases y with
    | hash ds =>
      have hk : o = none → f.IsPatch k P := by
        rintro rfl
        simp only [lastKey, Option.some.injEq] at hl
        exact hl ▸ hf
      rw [editHash_key hk]
      split
      · exact .inr (.inl ⟨k, cs, o, ds, rfl, rfl, rfl⟩)
      · exact .inl rfl
    | _ => exact .inl (by cases o <;> simp [Yaml.editHash])

theorem patch_entries (hf : P.Writes names) {k : Str} (hk : k ∈ names) {k' : Str} (h : k' ∉ names) (ds : List HashData) :
    (entriesOf (P.run k ds).2).filter (fun e => e.1 = k') = (entriesOf ds).filter (fun e => e.1 = k') := by
  have none_of : ∀ l : List HashData, (∀ x ∈ keysOf l, x ∈ names) → (entriesOf l).filter (fun e => e.1 = k') = [] := by
    intro l hl
    rw [List.filter_eq_nil_iff]
    rintro ⟨x, w⟩ hm he
    simp only [decide_eq_true_eq] at he
    subst he
    refine h (hl _ ?_)
    simp only [entriesOf, List.mem_filterMap] at hm
    obtain ⟨d, hd, he⟩ := hm
    rcases d with c | c | ⟨k', a, v'⟩ <;> simp at he
    obtain ⟨rfl, rfl⟩ := he
    exact List.mem_filterMap.2 ⟨_, hd, rfl⟩
  have happ : ∀ a b : List HashData, entriesOf (a ++ b) = entriesOf a ++ entriesOf b := fun a b => List.filterMap_append ..
  rcases absent_or_first k ds with ha | ⟨pre, v, post, rfl, ha⟩
  · rw [P.run_absent ha]
    simp only [happ, List.filter_append, none_of _ hf.1, List.append_nil]
  · rw [P.run_present ha]
    have h1 : pre ++ HashData.element ⟨k, v⟩ :: post = pre ++ ([HashData.element ⟨k, v⟩] ++ post) := rfl
    rw [h1]
    simp only [happ, List.filter_append, none_of _ (hf.2 v)]
    rw [none_of [.element ⟨k, v⟩] (by simpa [keysOf] using hk)]

/-- Edits at places that are not read do not change what is read. -/
theorem editHash_unread (hf : PatchEdit f last names P) {ty : Ty} {p : YamlPath} (hu : Unread Γ names ty p) :
    lastKey p = some last → ∀ y, ReadsAlike Γ ty y (Yaml.editHash f p y).2 := by
  have rewrap : ∀ {p : YamlPath}, lastKey p = some last → ∀ (y : Yaml) (s : Str), y = .unquotedString s ↔ (Yaml.editHash f p y).2 = .unquotedString s := by
    intro p hl y s
    rcases editHash_cases hf.patch p hl y with h | ⟨k, cs, o, ds, -, rfl, h⟩ | ⟨is, cs, q, ys, ys', -, h1, h2, -⟩
    · rw [h]
    · rw [h]; simp
    · constructor
      · rintro rfl; simp [seqElements] at h1
      · intro he; rw [he] at h2; simp [seqElements] at h2
  have visit : ∀ {t : Ty} {q : YamlPath} (cs : List Condition), (∀ y, ReadsAlike Γ t y (Yaml.editHash f q y).2) →
      ∀ e, ReadsAlike Γ t (visitTree cs (Yaml.editHash f q) e) e := by
    intro t q cs h e
    unfold visitTree
    split
    · exact (h e).symm
    · exact ReadsAlike.refl t e
  have seqStep : ∀ {t : Ty} {is : Option (List Nat)} {cs : List Condition} {q : YamlPath}, lastKey (indexStep is cs q) = some last →
      (∀ y, ReadsAlike Γ t y (Yaml.editHash f q y).2) → ∀ y, ReadsAlike Γ (.seq t) y (Yaml.editHash f (indexStep is cs q) y).2 := by
    intro t is cs q hl ih y
    rcases editHash_cases hf.patch (indexStep is cs q) hl y with h | ⟨k, cs, o, ds, he, -, -⟩ | ⟨is', cs', q', ys, ys', he, h1, h2, h3⟩
    · rw [h]; exact ReadsAlike.refl _ y
    · cases is <;> cases he
    · have hq : q' = q ∧ cs' = cs := by cases is <;> cases is' <;> cases he <;> exact ⟨rfl, rfl⟩
      obtain ⟨rfl, rfl⟩ := hq
      have key : ElementsAlike (fun _ w w' => ReadsAlike Γ t w w') ys ys' := by
        refine elementsAlike_mono ?_ h3
        rintro i w w' (rfl | ⟨-, n, rfl⟩)
        · exact ReadsAlike.refl t _
        · exact (times_alike (visit cs' ih) n w).symm
      exact fun v => ⟨decodes_seq_of h1 h2 key, decodes_seq_of h2 h1 (elementsAlike_mono (fun _ _ _ h => h.symm) (elementsAlike_symm key))⟩
  have tupleStep : ∀ {ts : List Ty} {is : Option (List Nat)} {cs : List Condition} {q : YamlPath}, lastKey (indexStep is cs q) = some last →
      (∀ (i : Nat) (t : Ty), (∀ l, is = some l → i ∈ l) → ts[i]? = some t → ∀ y, ReadsAlike Γ t y (Yaml.editHash f q y).2) →
      ∀ y, ReadsAlike Γ (.tuple ts) y (Yaml.editHash f (indexStep is cs q) y).2 := by
    intro ts is cs q hl ih y
    rcases editHash_cases hf.patch (indexStep is cs q) hl y with h | ⟨k, cs, o, ds, he, -, -⟩ | ⟨is', cs', q', ys, ys', he, h1, h2, h3⟩
    · rw [h]; exact ReadsAlike.refl _ y
    · cases is <;> cases he
    · have hq : q' = q ∧ cs' = cs ∧ is' = is := by cases is <;> cases is' <;> cases he <;> exact ⟨rfl, rfl, rfl⟩
      obtain ⟨rfl, rfl, rfl⟩ := hq
      have key : ElementsAlike (fun i w w' => ∀ t, ts[i]? = some t → ReadsAlike Γ t w w') ys ys' := by
        refine elementsAlike_mono ?_ h3
        rintro i w w' (rfl | ⟨hi, n, rfl⟩) t ht
        · exact ReadsAlike.refl t _
        · exact (times_alike (visit cs' (ih i t hi ht)) n w).symm
      exact fun v => ⟨decodes_tuple_of h1 h2 key, decodes_tuple_of h2 h1 (elementsAlike_mono (fun _ _ _ h t ht => (h t ht).symm) (elementsAlike_symm key))⟩
  have keyCases : ∀ {k : Str} {cs : List Condition} {q : YamlPath}, lastKey (.key k cs (some q)) = some last → ∀ y,
      (Yaml.editHash f (.key k cs (some q)) y).2 = y ∨ ∃ es es', mapPairs y = some es ∧ mapPairs (Yaml.editHash f (.key k cs (some q)) y).2 = some es' ∧
        EntriesAlike (fun k' w w' => w' = w ∨ (k' = k ∧ w' = (Yaml.editHash f q w).2)) es es' := by
    intro k cs q hl y
    rcases editHash_cases hf.patch _ hl y with h | ⟨k', cs', o, ds, he, rfl, h⟩ | ⟨is', cs', q', ys, ys', he, h1, h2, h3⟩
    · exact .inl h
    · cases he
      exact .inr ⟨_, _, rfl, by rw [h]; rfl, valuePatch_entries ..⟩
    · cases is' <;> cases he
  have structStep : ∀ {fs : List (Str × Ty)} {k : Str} {cs : List Condition} {q : YamlPath}, lastKey (.key k cs (some q)) = some last →
      (∀ t, fs.lookup k = some t → ∀ y, ReadsAlike Γ t y (Yaml.editHash f q y).2) →
      ∀ y, ReadsAlike Γ (.struct fs) y (Yaml.editHash f (.key k cs (some q)) y).2 := by
    intro fs k cs q hl ih y
    rcases keyCases hl y with h | ⟨es, es', h1, h2, h3⟩
    · rw [h]; exact ReadsAlike.refl _ y
    · have key : EntriesAlike (fun k' w w' => ∀ t, fs.lookup k' = some t → ReadsAlike Γ t w w') es es' := by
        refine entriesAlike_mono ?_ h3
        rintro k' w w' (rfl | ⟨rfl, rfl⟩) t ht
        · exact ReadsAlike.refl t _
        · exact ih t ht w
      have val : ∀ {es es' : List (Str × Yaml)}, EntriesAlike (fun k' w w' => ∀ t, fs.lookup k' = some t → ReadsAlike Γ t w w') es es' →
          ∀ k t, fs.lookup k = some t → ∀ w', (k, w') ∈ es' → ∃ w, (k, w) ∈ es ∧ ReadsAlike Γ t w w' := by
        intro es es' h k t hl w' hw
        obtain ⟨i, hi⟩ := List.mem_iff_getElem?.1 hw
        obtain ⟨w, h1, h2⟩ := entriesAlike_back h hi
        exact ⟨w, List.mem_iff_getElem?.2 ⟨i, h1⟩, h2 t hl⟩
      have key' : EntriesAlike (fun k' w w' => ∀ t, fs.lookup k' = some t → ReadsAlike Γ t w w') es' es :=
        entriesAlike_mono (fun _ _ _ h t ht => (h t ht).symm) (entriesAlike_symm key)
      exact fun v => ⟨decodes_struct_of h1 h2 (fun k _ _ => entriesAlike_filter key k) (val key),
        decodes_struct_of h2 h1 (fun k _ _ => entriesAlike_filter key' k) (val key')⟩
  induction hu with
  | @last fs k cs h =>
    intro hl y
    rcases editHash_cases hf.patch _ hl y with h' | ⟨k', cs', o, ds, he, rfl, h'⟩ | ⟨is', cs', q', ys, ys', he, h1, h2, h3⟩
    · rw [h']; exact ReadsAlike.refl _ y
    · cases he
      simp only [lastKey, Option.some.injEq] at hl
      subst hl
      rw [h']
      have hn : ∀ x t, (x, t) ∈ fs → x ∉ names := fun x t hx hm => h x hm t hx
      have hfil : ∀ x t, (x, t) ∈ fs → (entriesOf (P.run k ds).2).filter (fun e => e.1 = x) = (entriesOf ds).filter (fun e => e.1 = x) :=
        fun x t hx => patch_entries hf.writes hf.own (hn x t hx) ds
      have hlook : ∀ x t, fs.lookup x = some t → ∃ t', (x, t') ∈ fs := by
        intro x t hx
        clear hfil hn h' h
        induction fs with
        | nil => simp at hx
        | cons a fs ih =>
          obtain ⟨a, b⟩ := a
          rw [List.lookup_cons] at hx
          split at hx
          · rename_i he
            exact ⟨b, by simp [eq_of_beq he]⟩
          · obtain ⟨t', ht'⟩ := ih hx
            exact ⟨t', by simp [ht']⟩
      have mem : ∀ {es es' : List (Str × Yaml)}, (∀ x t, (x, t) ∈ fs → es'.filter (fun e => e.1 = x) = es.filter (fun e => e.1 = x)) →
          ∀ k t, fs.lookup k = some t → ∀ w', (k, w') ∈ es' → ∃ w, (k, w) ∈ es ∧ ReadsAlike Γ t w w' := by
        intro es es' hq k t hl w' hw
        obtain ⟨t', ht'⟩ := hlook k t hl
        have : (k, w') ∈ es'.filter (fun e => e.1 = k) := List.mem_filter.2 ⟨hw, by simp⟩
        rw [hq k t' ht'] at this
        exact ⟨w', (List.mem_filter.1 this).1, ReadsAlike.refl t w'⟩
      exact fun v => ⟨decodes_struct_of rfl rfl (fun x t hx => by rw [hfil x t hx]) (mem hfil),
        decodes_struct_of rfl rfl (fun x t hx => by rw [hfil x t hx]) (mem fun x t hx => (hfil x t hx).symm)⟩
    · cases is' <;> cases he
  | @noField fs k cs q h =>
    intro hl
    refine structStep hl fun t ht => ?_
    exfalso
    clear hl
    induction fs with
    | nil => simp at ht
    | cons a fs ih =>
      obtain ⟨a, b⟩ := a
      rw [List.lookup_cons] at ht
      split at ht
      · rename_i he
        exact h b (by simp [eq_of_beq he])
      · exact ih (fun t ht => h t (by simp [ht])) ht
  | @field fs k cs q t hk _ ih =>
    intro hl
    refine structStep hl fun t' ht' => ?_
    rw [hk] at ht'
    cases ht'
    exact ih hl
  | @map kt vt k cs q _ ih =>
    intro hl y
    rcases keyCases hl y with h | ⟨es, es', h1, h2, h3⟩
    · rw [h]; exact ReadsAlike.refl _ y
    · have key : EntriesAlike (fun _ w w' => ReadsAlike Γ vt w w') es es' := by
        refine entriesAlike_mono ?_ h3
        rintro k' w w' (rfl | ⟨rfl, rfl⟩)
        · exact ReadsAlike.refl vt _
        · exact ih hl w
      exact fun v => ⟨decodes_map_of h1 h2 key, decodes_map_of h2 h1 (entriesAlike_mono (fun _ _ _ h => h.symm) (entriesAlike_symm key))⟩
  | @seqAll t cs q _ ih => exact fun hl => seqStep (is := none) hl (ih hl)
  | @seqSome t is cs q _ ih => exact fun hl => seqStep (is := some is) hl (ih hl)
  | @tupleAll ts cs q _ ih =>
    exact fun hl => tupleStep (is := none) hl fun i t _ ht => ih t (List.mem_iff_getElem?.2 ⟨i, ht⟩) hl
  | @tupleSome ts is cs q _ ih => exact fun hl => tupleStep (is := some is) hl fun i t hi ht => ih i (hi is rfl) t ht hl
  | @variant vs k cs q hn ht hs ihn iht ihs =>
    intro hl y
    rcases keyCases hl y with h | ⟨es, es', h1, h2, h3⟩
    · rw [h]; exact ReadsAlike.refl _ y
    · have noText : ∀ {y : Yaml} {es : List (Str × Yaml)} {s : Str}, mapPairs y = some es → scalarText y ≠ some s := by
        intro y es s h; cases y <;> simp [mapPairs, scalarText] at h ⊢
      have go : ∀ {y y' : Yaml} {es es' : List (Str × Yaml)}, mapPairs y = some es → mapPairs y' = some es' →
          EntriesAlike (fun k' w w' => w' = w ∨ (k' = k ∧ (∀ t, vs.lookup k = some (.newtype t) → ReadsAlike Γ t w w') ∧
            (∀ ts, vs.lookup k = some (.tuple ts) → ReadsAlike Γ (.tuple ts) w w') ∧
            (∀ fs, vs.lookup k = some (.struct fs) → ReadsAlike Γ (.struct fs) w w'))) es es' →
          ∀ v, Decodes Γ (.enum vs) y v → Decodes Γ (.enum vs) y' v := by
        intro y y' es es' h1 h2 h3 v hd
        have parts : ∀ {name c}, VariantParts y name c → ∃ c', VariantParts y' name c' ∧ (c' = c ∨ (name = k ∧
            (∀ t, vs.lookup k = some (.newtype t) → ReadsAlike Γ t c c') ∧ (∀ ts, vs.lookup k = some (.tuple ts) → ReadsAlike Γ (.tuple ts) c c') ∧
            (∀ fs, vs.lookup k = some (.struct fs) → ReadsAlike Γ (.struct fs) c c'))) := by
          intro name c hp
          cases hp with
          | name h => exact absurd h (noText h1)
          | entry h =>
            rw [h1] at h
            cases h
            obtain ⟨c', h4, h5⟩ := h3.2 0 name c rfl
            have hl1 : es'.length = 1 := h3.1
            obtain ⟨e, rfl⟩ := List.length_eq_one_iff.1 hl1
            simp only [List.getElem?_cons_zero, Option.some.injEq] at h4
            subst h4
            exact ⟨c', .entry h2, h5⟩
        cases hd with
        | unitVariant hy hv =>
          obtain ⟨c', hp, -⟩ := parts hy
          exact .unitVariant hp hv
        | newtypeVariant hy hv h =>
          obtain ⟨c', hp, rfl | ⟨rfl, h6, -, -⟩⟩ := parts hy
          · exact .newtypeVariant hp hv h
          · exact .newtypeVariant hp hv ((h6 _ hv _).1 h)
        | tupleVariant hy hv h =>
          obtain ⟨c', hp, rfl | ⟨rfl, -, h6, -⟩⟩ := parts hy
          · exact .tupleVariant hp hv h
          · exact .tupleVariant hp hv ((h6 _ hv _).1 h)
        | structVariant hy hv h =>
          obtain ⟨c', hp, rfl | ⟨rfl, -, -, h6⟩⟩ := parts hy
          · exact .structVariant hp hv h
          · exact .structVariant hp hv ((h6 _ hv _).1 h)
      have key := entriesAlike_mono (S := fun k' w w' => w' = w ∨ (k' = k ∧ (∀ t, vs.lookup k = some (.newtype t) → ReadsAlike Γ t w w') ∧
            (∀ ts, vs.lookup k = some (.tuple ts) → ReadsAlike Γ (.tuple ts) w w') ∧
            (∀ fs, vs.lookup k = some (.struct fs) → ReadsAlike Γ (.struct fs) w w'))) (by
        rintro k' w w' (rfl | ⟨rfl, rfl⟩)
        · exact .inl rfl
        · exact .inr ⟨rfl, fun t ht' => ihn t ht' hl w, fun ts hts => iht ts hts hl w, fun fs hfs => ihs fs hfs hl w⟩) h3
      refine fun v => ⟨go h1 h2 key v, go h2 h1 (entriesAlike_mono ?_ (entriesAlike_symm key)) v⟩
      rintro k' w w' (rfl | ⟨rfl, h4, h5, h6⟩)
      · exact .inl rfl
      · exact .inr ⟨rfl, fun t ht' => (h4 t ht').symm, fun t ht' => (h5 t ht').symm, fun t ht' => (h6 t ht').symm⟩
  | @option t q _ ih =>
    intro hl y v
    constructor
    · intro hd
      cases hd with
      | @none _ s hs =>
        rw [(rewrap hl (.unquotedString s) s).1 rfl]
        exact .none hs
      | some hn hd => exact .some (fun s hs => hn s ((rewrap hl y s).2 hs)) ((ih hl y _).1 hd)
    · generalize hz : (Yaml.editHash f q y).2 = z
      intro hd
      cases hd with
      | @none _ s hs =>
        rw [(rewrap hl y s).2 hz]
        exact .none hs
      | some hn hd =>
        rw [← hz] at hd
        exact .some (fun s hs => hn s (by rw [← hz]; exact (rewrap hl y s).1 hs)) ((ih hl y _).2 hd)
  | @newtype t q _ ih =>
    intro hl y v
    constructor
    · intro hd
      cases hd with
      | newtype hd => exact .newtype ((ih hl y _).1 hd)
    · intro hd
      cases hd with
      | newtype hd => exact .newtype ((ih hl y _).2 hd)
  | @ref n q _ ih =>
    intro hl y v
    constructor
    · intro hd
      cases hd with
      | ref hd => exact .ref ((ih hl y _).1 hd)
    · intro hd
      cases hd with
      | ref hd => exact .ref ((ih hl y _).2 hd)
  | unit =>
    intro _ y v
    constructor <;> intro hd <;> cases hd <;> exact .unit
  | ignored =>
    intro _ y v
    constructor <;> intro hd <;> cases hd <;> exact .ignored
  | @scalar t q ht =>
    intro hl y
    have no : ∀ {z : Yaml} {v : SVal}, scalarText z = none → ¬Decodes Γ t z v := by
      intro z v hz hd
      rcases ht with rfl | rfl | rfl | rfl | ⟨k, rfl⟩ <;> cases hd <;> simp_all [scalarText]
    rcases editHash_cases hf.patch _ hl y with h | ⟨k, cs, o, ds, -, rfl, h⟩ | ⟨is, cs, q, ys, ys', -, h1, h2, -⟩
    · rw [h]; exact ReadsAlike.refl t y
    · rw [h]
      exact fun v => ⟨fun hd => absurd hd (no rfl), fun hd => absurd hd (no rfl)⟩
    · have hs : ∀ {z : Yaml} {l : List Yaml}, seqElements z = some l → scalarText z = none := by
        intro z l hz; cases z <;> simp [seqElements, scalarText] at hz ⊢
      exact fun v => ⟨fun hd => absurd hd (no (hs h1)), fun hd => absurd hd (no (hs h2))⟩

end YamlSubset
