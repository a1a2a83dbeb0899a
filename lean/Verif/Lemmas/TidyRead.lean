import Verif.Lemmas.EditReadable

/-! # Tidy and simple documents are readable, and edits keep them so -/

namespace YamlSubset

open Spec

variable {T : CharTables} {E : List HashData → List HashData → Prop}

section
variable {P Q : Place → Holder → Bool → Yaml → Prop}

theorem Spec.Entries.imp {nx nx' : Next} {ds : List HashData} (h : Entries T P nx ds)
    (hPQ : ∀ k a v, HashData.element ⟨k, ⟨a, v⟩⟩ ∈ ds → ∀ p nx', P p .key a.isSome v → Q ⟨false, true, nx'⟩ .key a.isSome v) : Entries T Q nx' ds := by
  induction h with
  | comment hc h ih => exact .comment hc (ih fun k a v hm => hPQ k a v (List.mem_cons_of_mem _ hm))
  | last hk ha hv => exact .last hk ha (hPQ _ _ _ (List.mem_cons_self ..) _ _ hv)
  | lastComment hk ha hv hv' hc => exact .lastComment hk ha hv hv' hc
  | entry hk ha hv h ih =>
    exact .entry hk ha (hPQ _ _ _ (List.mem_cons_self ..) _ _ hv) (ih fun k a v hm => hPQ k a v (List.mem_cons_of_mem _ hm))
  | entryComment hk ha hv hv' hc h ih =>
    exact .entryComment hk ha hv hv' hc (ih fun k a v hm => hPQ k a v (List.mem_cons_of_mem _ (List.mem_cons_of_mem _ hm)))

theorem Spec.Elements.imp {nx nx' : Next} {ds : List ArrayData} (h : Elements T P nx ds)
    (hPQ : ∀ a v, ArrayData.element ⟨a, v⟩ ∈ ds → ∀ p nx', P p .dash a.isSome v → Q ⟨false, true, nx'⟩ .dash a.isSome v) : Elements T Q nx' ds := by
  induction h with
  | comment hc h ih => exact .comment hc (ih fun a v hm => hPQ a v (List.mem_cons_of_mem _ hm))
  | last ha hv => exact .last ha (hPQ _ _ (List.mem_cons_self ..) _ _ hv)
  | lastComment ha hv hv' hc => exact .lastComment ha hv hv' hc
  | element ha hv h ih =>
    exact .element ha (hPQ _ _ (List.mem_cons_self ..) _ _ hv) (ih fun a v hm => hPQ a v (List.mem_cons_of_mem _ hm))
  | elementComment ha hv hv' hc h ih =>
    exact .elementComment ha hv hv' hc (ih fun a v hm => hPQ a v (List.mem_cons_of_mem _ (List.mem_cons_of_mem _ hm)))

/-- One more entry at the end. -/
theorem Spec.Entries.append (hP : ∀ {p p' par n v}, P p par n v → P p' par n v) {nx : Next} {ds : List HashData} (h : Entries T P nx ds)
    {k : Str} {a : Option Str} {v : Yaml} (hk : KeyText T k) (ha : ∀ n, a = some n → NameText T n) (hv : ∀ p, P p .key a.isSome v) :
    Entries T P nx (ds ++ [.element ⟨k, ⟨a, v⟩⟩]) := by
  induction h with
  | comment hc h ih => exact .comment hc ih
  | last hk' ha' hv' => exact .entry hk' ha' (hP hv') (.last hk ha (hv _))
  | lastComment hk' ha' hv1 hv2 hc => exact .entryComment hk' ha' hv1 hv2 hc (.last hk ha (hv _))
  | entry hk' ha' hv' h ih => exact .entry hk' ha' hv' ih
  | entryComment hk' ha' hv1 hv2 hc h ih => exact .entryComment hk' ha' hv1 hv2 hc ih

end

/-! ## tidy documents are readable -/

/-- The places and holders of a spot. -/
def spotOk : Site → Place → Holder → Prop
  | .entry, p, h => p.deep = false ∧ p.flush = true ∧ h = .key
  | .first, _, h => h = .key
  | .element, p, h => p.deep = false ∧ p.flush = true ∧ h = .dash

theorem Spec.Tidy.readable (y : Yaml) : ∀ {sp nm p par}, Tidy T sp nm y → spotOk sp p par → Readable T p par nm y := by
  induction y using Yaml.induct with
  | hIH es ih => intro sp nm p par h _; cases h with | oneLine h h' => exact .oneLine h
  | hIA es ih => intro sp nm p par h _; cases h with | oneLine h h' => exact .oneLine h
  | hS ps => intro sp nm p par h _; cases h with | oneLine h h' => exact .oneLine h
  | hD ps => intro sp nm p par h _; cases h with | oneLine h h' => exact .oneLine h
  | hU s => intro sp nm p par h _; cases h with | oneLine h h' => exact .oneLine h
  | hN a => intro sp nm p par h _; cases h with | oneLine h h' => exact .oneLine h
  | hF ls c =>
    intro sp nm p par h hs
    cases h with
    | oneLine h => cases h
    | folded hne h =>
      obtain ⟨h1, h2⟩ : p.deep = false ∧ p.flush = true := by
        cases sp with
        | first => exact absurd rfl hne
        | entry => exact ⟨hs.1, hs.2.1⟩
        | element => exact ⟨hs.1, hs.2.1⟩
      exact .folded h1 (h2 ▸ h)
  | hL ls c =>
    intro sp nm p par h hs
    cases h with
    | oneLine h => cases h
    | literal hne h =>
      obtain ⟨h1, h2⟩ : p.deep = false ∧ p.flush = true := by
        cases sp with
        | first => exact absurd rfl hne
        | entry => exact ⟨hs.1, hs.2.1⟩
        | element => exact ⟨hs.1, hs.2.1⟩
      exact .literal h1 (h2 ▸ h)
  | hH ds ih =>
    intro sp nm p par h hs
    have alt : (sp = .element ∨ sp = .entry ∧ nm = true) → p.deep = false ∧ (par = .dash ∨ nm = true) := by
      rintro (rfl | ⟨rfl, rfl⟩)
      · exact ⟨hs.1, .inl hs.2.2⟩
      · exact ⟨hs.1, .inr rfl⟩
    cases h with
    | oneLine h => cases h
    | hash hne h =>
      have hpar : par = .key := by
        cases sp with
        | first => exact hs
        | entry => exact hs.2.2
        | element => exact absurd rfl hne
      subst hpar
      exact .hash (h.imp fun k a v hm p nx hv => ih k a v hm hv ⟨rfl, rfl, rfl⟩)
    | hereOne hsp hk ha hv =>
      obtain ⟨hd, hp⟩ := alt hsp
      exact .altOne hp (by simp [hd]) hk ha (ih _ _ _ (List.mem_cons_self ..) hv rfl)
    | hereOneComment hsp hk ha hv hv' hc =>
      obtain ⟨hd, hp⟩ := alt hsp
      exact .altOneComment hp (by simp [hd]) hk ha hv hv' hc
    | hereMore hsp hk ha hv h =>
      obtain ⟨hd, hp⟩ := alt hsp
      exact .altMore hp hk ha (ih _ _ _ (List.mem_cons_self ..) hv rfl)
        (h.imp fun k a v hm p nx hv => ih k a v (List.mem_cons_of_mem _ hm) hv ⟨rfl, rfl, rfl⟩)
    | hereMoreComment hsp hk ha hv hv' hc h =>
      obtain ⟨hd, hp⟩ := alt hsp
      exact .altMoreComment hp hk ha hv hv' hc
        (h.imp fun k a v hm p nx hv => ih k a v (List.mem_cons_of_mem _ (List.mem_cons_of_mem _ hm)) hv ⟨rfl, rfl, rfl⟩)
  | hA ds ih =>
    intro sp nm p par h hs
    cases h with
    | oneLine h => cases h
    | array hne h =>
      have hpar : par = .key := by
        cases sp with
        | first => exact hs
        | entry => exact hs.2.2
        | element => exact absurd rfl hne
      subst hpar
      exact .array (h.imp fun a v hm p nx hv => ih a v hm hv ⟨rfl, rfl, rfl⟩)

theorem Spec.TidyRoot.readable {y : Yaml} (h : TidyRoot T y) : ReadableRoot T y := by
  cases h with
  | hash h => exact .hash (h.imp fun k a v _ p nx hv => Spec.Tidy.readable v hv ⟨rfl, rfl, rfl⟩)
  | array h => exact .array (h.imp fun a v _ p nx hv => Spec.Tidy.readable v hv ⟨rfl, rfl, rfl⟩)

theorem Spec.TidyDocument.readable {d : Document} (h : TidyDocument T d) : ReadableDocument T d := by
  obtain ⟨hl, pre, post, root, hi, hc, hr⟩ := h
  exact ⟨hl, pre, post, root, hi, hc, hr.readable⟩

/-! ## edits keep documents tidy -/

/-- `v'` with the anchor `a'` may stand wherever `v` with the anchor `a` may. -/
structure FitsTidy (T : CharTables) (a : Option Str) (v : Yaml) (a' : Option Str) (v' : Yaml) : Prop where
  name : (∀ n, a = some n → NameText T n) → ∀ n, a' = some n → NameText T n
  value : ∀ sp, Tidy T sp a.isSome v → Tidy T sp a'.isSome v'
  line : OneLine T v → Commentable v → OneLine T v' ∧ Commentable v'

theorem Spec.Tidy.replaceEntry {sp : Site} {nm : Bool} {ds : List HashData} (h : Tidy T sp nm (.hash ds)) {i : Nat}
    {k k' : Str} {a a' : Option Str} {v v' : Yaml} (hi : ds[i]? = some (.element ⟨k, ⟨a, v⟩⟩)) (hk : KeyText T k → KeyText T k')
    (hf : FitsTidy T a v a' v') : Tidy T sp nm (.hash (ds.set i (.element ⟨k', ⟨a', v'⟩⟩))) := by
  cases h with
  | oneLine h => cases h
  | hash hs h => exact .hash hs (h.replace hi hk hf.name (fun _ => hf.value _) hf.line)
  | hereOne hp hk' ha hv =>
    cases i with
    | zero =>
      obtain ⟨rfl, rfl, rfl⟩ : _ ∧ _ ∧ _ := by simpa using hi
      exact .hereOne hp (hk hk') (hf.name ha) (hf.value _ hv)
    | succ i => simp at hi
  | hereOneComment hp hk' ha hv hv' hc =>
    cases i with
    | zero =>
      obtain ⟨rfl, rfl, rfl⟩ : _ ∧ _ ∧ _ := by simpa using hi
      exact .hereOneComment hp (hk hk') (hf.name ha) (hf.line hv hv').1 (hf.line hv hv').2 hc
    | succ i => cases i <;> simp at hi
  | hereMore hp hk' ha hv h =>
    cases i with
    | zero =>
      obtain ⟨rfl, rfl, rfl⟩ : _ ∧ _ ∧ _ := by simpa using hi
      exact .hereMore hp (hk hk') (hf.name ha) (hf.value _ hv) h
    | succ i => exact .hereMore hp hk' ha hv (h.replace (by simpa using hi) hk hf.name (fun _ => hf.value _) hf.line)
  | hereMoreComment hp hk' ha hv hv' hc h =>
    cases i with
    | zero =>
      obtain ⟨rfl, rfl, rfl⟩ : _ ∧ _ ∧ _ := by simpa using hi
      exact .hereMoreComment hp (hk hk') (hf.name ha) (hf.line hv hv').1 (hf.line hv hv').2 hc h
    | succ i =>
      cases i with
      | zero => simp at hi
      | succ i => exact .hereMoreComment hp hk' ha hv hv' hc (h.replace (by simpa using hi) hk hf.name (fun _ => hf.value _) hf.line)

theorem Spec.Tidy.append {sp : Site} {nm : Bool} {ds : List HashData} (h : Tidy T sp nm (.hash ds)) {k : Str} {a : Option Str} {v : Yaml}
    (hk : KeyText T k) (ha : ∀ n, a = some n → NameText T n) (hv : Tidy T .entry a.isSome v) :
    Tidy T sp nm (.hash (ds ++ [.element ⟨k, ⟨a, v⟩⟩])) := by
  have app : ∀ {ds}, Entries T (fun _ _ => Tidy T .entry) .none ds → Entries T (fun _ _ => Tidy T .entry) .none (ds ++ [.element ⟨k, ⟨a, v⟩⟩]) :=
    fun h => h.append (fun h => h) hk ha (fun _ => hv)
  cases h with
  | oneLine h => cases h
  | hash hs h => exact .hash hs (app h)
  | hereOne hp hk' ha' hv' => exact .hereMore hp hk' ha' hv' (.last hk ha hv)
  | hereOneComment hp hk' ha' hv1 hv2 hc => exact .hereMoreComment hp hk' ha' hv1 hv2 hc (.last hk ha hv)
  | hereMore hp hk' ha' hv' h => exact .hereMore hp hk' ha' hv' (app h)
  | hereMoreComment hp hk' ha' hv1 hv2 hc h => exact .hereMoreComment hp hk' ha' hv1 hv2 hc (app h)

theorem Spec.Tidy.edits (hE : ∀ ds ds', E ds ds' → ∀ sp nm, Tidy T sp nm (.hash ds) → Tidy T sp nm (.hash ds'))
    {ls : List Loc} {y y' : Yaml} (h : Edits E ls y y') : ∀ {sp nm}, Tidy T sp nm y → Tidy T sp nm y' := by
  induction h with
  | none => exact id
  | here h => exact hE _ _ h _ _
  | inHash hi h ih =>
    intro sp nm hr
    exact hr.replaceEntry hi id ⟨id, fun _ => ih, fun ho hc => by rw [oneLine_edits h ho]; exact ⟨ho, hc⟩⟩
  | @inArray ds i a v v' ls hi h ih =>
    intro sp nm hr
    cases hr with
    | oneLine hr => cases hr
    | array hs hr =>
      exact .array hs (hr.replace hi (a' := a) id (fun _ => ih) (fun ho hc => by rw [oneLine_edits h ho]; exact ⟨ho, hc⟩))
  | inInlineArray hi h ih =>
    intro sp nm hr
    cases hr with
    | oneLine hr hc =>
      cases hr with
      | array hr =>
        cases hr with
        | array hr =>
        rw [flow_edits h (hr _ (List.mem_of_getElem? hi)), set_same hi]
        exact .oneLine (.array (.array hr)) hc
  | seq h h' ih ih' => exact fun hr => ih' (ih hr)

theorem Spec.TidyRoot.edits (hE : ∀ ds ds', E ds ds' → ∀ sp nm, Tidy T sp nm (.hash ds) → Tidy T sp nm (.hash ds'))
    (hE' : ∀ ds ds', E ds ds' → TidyRoot T (.hash ds) → TidyRoot T (.hash ds'))
    {ls : List Loc} {y y' : Yaml} (h : Edits E ls y y') : TidyRoot T y → TidyRoot T y' := by
  induction h with
  | none => exact id
  | here h => exact hE' _ _ h
  | @inHash ds i k a v v' ls hi h ih =>
    intro hr
    cases hr with
    | hash hr =>
      have := hr.replace hi (k' := k) (a' := a) (v' := v') id id (fun _ => Spec.Tidy.edits hE h) (fun ho hc => by rw [oneLine_edits h ho]; exact ⟨ho, hc⟩)
      cases i <;> exact .hash this
  | @inArray ds i a v v' ls hi h ih =>
    intro hr
    cases hr with
    | array hr =>
      have := hr.replace hi (a' := a) (v' := v') id (fun _ => Spec.Tidy.edits hE h) (fun ho hc => by rw [oneLine_edits h ho]; exact ⟨ho, hc⟩)
      cases i <;> exact .array this
  | inInlineArray hi h ih => intro hr; cases hr
  | seq h h' ih ih' => exact fun hr => ih' (ih hr)

theorem Spec.TidyRoot.replaceEntry {ds : List HashData} (h : TidyRoot T (.hash ds)) {i : Nat}
    {k k' : Str} {a a' : Option Str} {v v' : Yaml} (hi : ds[i]? = some (.element ⟨k, ⟨a, v⟩⟩)) (hk : KeyText T k → KeyText T k')
    (hf : FitsTidy T a v a' v') : TidyRoot T (.hash (ds.set i (.element ⟨k', ⟨a', v'⟩⟩))) := by
  cases h with
  | hash h =>
    have := h.replace hi hk hf.name (fun _ => hf.value _) hf.line
    cases i <;> exact .hash this

theorem Spec.TidyRoot.append {ds : List HashData} (h : TidyRoot T (.hash ds)) {k : Str} {a : Option Str} {v : Yaml}
    (hk : KeyText T k) (ha : ∀ n, a = some n → NameText T n) (hv : Tidy T .entry a.isSome v) :
    TidyRoot T (.hash (ds ++ [.element ⟨k, ⟨a, v⟩⟩])) := by
  cases h with
  | hash h => exact .hash (h.append (fun h => h) hk ha (fun _ => hv))

/-! ## simple documents -/

theorem Spec.Simple.entries {ds : List HashData} (ih : ∀ k a v, HashData.element ⟨k, ⟨a, v⟩⟩ ∈ ds → Simple T false v → NoEmptyMapping v →
      ∀ sp nm, sp ≠ .element → nm = false ∨ OneLine T v ∧ Commentable v → Tidy T sp nm v)
    (he : ∀ d ∈ ds, ∃ e, d = .element e) (hk : ∀ k a v, HashData.element ⟨k, ⟨a, v⟩⟩ ∈ ds → KeyText T k)
    (ha : ∀ k a v n, HashData.element ⟨k, ⟨a, v⟩⟩ ∈ ds → a = some n → NameText T n ∧ OneLine T v ∧ Commentable v)
    (hv : ∀ k a v, HashData.element ⟨k, ⟨a, v⟩⟩ ∈ ds → Simple T false v)
    (hn : ∀ k a v, HashData.element ⟨k, ⟨a, v⟩⟩ ∈ ds → NoEmptyMapping v) (hne : ds ≠ []) :
    Entries T (fun _ _ => Tidy T .entry) .none ds := by
  induction ds with
  | nil => exact absurd rfl hne
  | cons d ds ihd =>
    obtain ⟨⟨k, ⟨a, v⟩⟩, rfl⟩ := he d (List.mem_cons_self ..)
    have hm : HashData.element ⟨k, ⟨a, v⟩⟩ ∈ HashData.element ⟨k, ⟨a, v⟩⟩ :: ds := List.mem_cons_self ..
    have h1 := hk _ _ _ hm
    have h2 : ∀ n, a = some n → NameText T n := fun n h => (ha _ _ _ n hm h).1
    have h3 : Tidy T .entry a.isSome v := by
      refine ih _ _ _ hm (hv _ _ _ hm) (hn _ _ _ hm) _ _ (by simp) ?_
      cases a with
      | none => exact .inl rfl
      | some n => exact .inr (ha _ _ _ n hm rfl).2
    cases ds with
    | nil => exact .last h1 h2 h3
    | cons d' ds =>
      refine .entry h1 h2 h3 (ihd ?_ ?_ ?_ ?_ ?_ ?_ (by simp))
      · exact fun k a v hm => ih k a v (List.mem_cons_of_mem _ hm)
      · exact fun d hd => he d (List.mem_cons_of_mem _ hd)
      · exact fun k a v hm => hk k a v (List.mem_cons_of_mem _ hm)
      · exact fun k a v n hm => ha k a v n (List.mem_cons_of_mem _ hm)
      · exact fun k a v hm => hv k a v (List.mem_cons_of_mem _ hm)
      · exact fun k a v hm => hn k a v (List.mem_cons_of_mem _ hm)

theorem Spec.Simple.elements {ds : List ArrayData} (ih : ∀ a v, ArrayData.element ⟨a, v⟩ ∈ ds → Simple T true v → NoEmptyMapping v →
      ∀ nm, nm = false ∨ OneLine T v ∧ Commentable v → Tidy T .element nm v)
    (he : ∀ d ∈ ds, ∃ e, d = .element e)
    (ha : ∀ a v n, ArrayData.element ⟨a, v⟩ ∈ ds → a = some n → NameText T n ∧ OneLine T v ∧ Commentable v)
    (hv : ∀ a v, ArrayData.element ⟨a, v⟩ ∈ ds → Simple T true v)
    (hn : ∀ a v, ArrayData.element ⟨a, v⟩ ∈ ds → NoEmptyMapping v) (hne : ds ≠ []) :
    Elements T (fun _ _ => Tidy T .element) .none ds := by
  induction ds with
  | nil => exact absurd rfl hne
  | cons d ds ihd =>
    obtain ⟨⟨a, v⟩, rfl⟩ := he d (List.mem_cons_self ..)
    have hm : ArrayData.element ⟨a, v⟩ ∈ ArrayData.element ⟨a, v⟩ :: ds := List.mem_cons_self ..
    have h2 : ∀ n, a = some n → NameText T n := fun n h => (ha _ _ n hm h).1
    have h3 : Tidy T .element a.isSome v := by
      refine ih _ _ hm (hv _ _ hm) (hn _ _ hm) _ ?_
      cases a with
      | none => exact .inl rfl
      | some n => exact .inr (ha _ _ n hm rfl).2
    cases ds with
    | nil => exact .last h2 h3
    | cons d' ds =>
      refine .element h2 h3 (ihd ?_ ?_ ?_ ?_ ?_ (by simp))
      · exact fun a v hm => ih a v (List.mem_cons_of_mem _ hm)
      · exact fun d hd => he d (List.mem_cons_of_mem _ hd)
      · exact fun a v n hm => ha a v n (List.mem_cons_of_mem _ hm)
      · exact fun a v hm => hv a v (List.mem_cons_of_mem _ hm)
      · exact fun a v hm => hn a v (List.mem_cons_of_mem _ hm)

/-- A simple value without empty mappings is tidy. -/
theorem Spec.Simple.tidy (y : Yaml) : ∀ {b : Bool} {sp : Site} {nm : Bool}, Simple T b y → NoEmptyMapping y → (b = true → sp = .element) →
    (b = false → sp ≠ .element) → (nm = false ∨ OneLine T y ∧ Commentable y) → Tidy T sp nm y := by
  induction y using Yaml.induct with
  | hIH es ih => intro b sp nm h _ _ _ _; cases h with | oneLine h h' => exact .oneLine h h'
  | hIA es ih => intro b sp nm h _ _ _ _; cases h with | oneLine h h' => exact .oneLine h h'
  | hS ps => intro b sp nm h _ _ _ _; cases h with | oneLine h h' => exact .oneLine h h'
  | hD ps => intro b sp nm h _ _ _ _; cases h with | oneLine h h' => exact .oneLine h h'
  | hU s => intro b sp nm h _ _ _ _; cases h with | oneLine h h' => exact .oneLine h h'
  | hN a => intro b sp nm h _ _ _ _; cases h with | oneLine h h' => exact .oneLine h h'
  | hF ls c => intro b sp nm h _ _ _ _; cases h with | oneLine h h' => cases h
  | hL ls c => intro b sp nm h _ _ _ _; cases h with | oneLine h h' => cases h
  | hH ds ih =>
    intro b sp nm h hn hb hb' hnm
    obtain rfl : nm = false := by
      rcases hnm with h | ⟨h, _⟩
      · exact h
      · cases h
    cases h with
    | oneLine h => cases h
    | hash he hk ha hv =>
      cases hn with
      | other h1 h2 => exact absurd rfl (h1 ds)
      | hash hne hn =>
        have ih' : ∀ k a v, HashData.element ⟨k, ⟨a, v⟩⟩ ∈ ds → Simple T false v → NoEmptyMapping v →
            ∀ sp nm, sp ≠ .element → nm = false ∨ OneLine T v ∧ Commentable v → Tidy T sp nm v :=
          fun k a v hm hs hn sp nm hsp hnm => ih k a v hm hs hn (by simp) (fun _ => hsp) hnm
        cases b with
        | false => exact .hash (hb' rfl) (Spec.Simple.entries ih' he hk ha hv hn hne)
        | true =>
          obtain rfl := hb rfl
          cases ds with
          | nil => exact absurd rfl hne
          | cons d ds =>
            obtain ⟨⟨k, ⟨a, v⟩⟩, rfl⟩ := he d (List.mem_cons_self ..)
            have hm : HashData.element ⟨k, ⟨a, v⟩⟩ ∈ HashData.element ⟨k, ⟨a, v⟩⟩ :: ds := List.mem_cons_self ..
            have h1 := hk _ _ _ hm
            have h2 : ∀ n, a = some n → NameText T n := fun n h => (ha _ _ _ n hm h).1
            have h3 : Tidy T .first a.isSome v := by
              refine ih' _ _ _ hm (hv _ _ _ hm) (hn _ _ _ hm) _ _ (by simp) ?_
              cases a with
              | none => exact .inl rfl
              | some n => exact .inr (ha _ _ _ n hm rfl).2
            cases ds with
            | nil => exact .hereOne (.inl rfl) h1 h2 h3
            | cons d' ds =>
              refine .hereMore (.inl rfl) h1 h2 h3 (Spec.Simple.entries ?_ ?_ ?_ ?_ ?_ ?_ (by simp))
              · exact fun k a v hm => ih' k a v (List.mem_cons_of_mem _ hm)
              · exact fun d hd => he d (List.mem_cons_of_mem _ hd)
              · exact fun k a v hm => hk k a v (List.mem_cons_of_mem _ hm)
              · exact fun k a v n hm => ha k a v n (List.mem_cons_of_mem _ hm)
              · exact fun k a v hm => hv k a v (List.mem_cons_of_mem _ hm)
              · exact fun k a v hm => hn k a v (List.mem_cons_of_mem _ hm)
  | hA ds ih =>
    intro b sp nm h hn hb hb' hnm
    obtain rfl : nm = false := by
      rcases hnm with h | ⟨h, _⟩
      · exact h
      · cases h
    cases h with
    | oneLine h => cases h
    | array hne he ha hv =>
      cases hn with
      | other h1 h2 => exact absurd rfl (h2 ds)
      | array hn =>
        exact .array (hb' rfl) (Spec.Simple.elements (fun a v hm hs hn nm hnm => ih a v hm hs hn (fun _ => rfl) (by simp) hnm) he ha hv hn hne)

/-- Every block mapping of the tree may become one that meets the conditions of simple mappings. -/
theorem Spec.Simple.edits (hE : ∀ ds ds', E ds ds' → ∀ b, Simple T b (.hash ds) → Simple T b (.hash ds'))
    {ls : List Loc} {y y' : Yaml} (h : Edits E ls y y') : ∀ {b}, Simple T b y → Simple T b y' := by
  induction h with
  | none => exact id
  | here h => exact hE _ _ h _
  | @inHash ds i k a v v' ls hi h ih =>
    intro b hr
    have hm := List.mem_of_getElem? hi
    cases hr with
    | oneLine hr => cases hr
    | hash he hk ha hv =>
      have hmem : ∀ d ∈ ds.set i (.element ⟨k, ⟨a, v'⟩⟩), d ∈ ds ∨ d = .element ⟨k, ⟨a, v'⟩⟩ := fun d hd => (List.mem_or_eq_of_mem_set hd)
      refine .hash ?_ ?_ ?_ ?_
      · intro d hd
        rcases hmem d hd with h | rfl
        · exact he d h
        · exact ⟨_, rfl⟩
      · intro k' a' w hd
        rcases hmem _ hd with h | h
        · exact hk _ _ _ h
        · cases h; exact hk _ _ _ hm
      · intro k' a' w n hd hn
        rcases hmem _ hd with h' | h'
        · exact ha _ _ _ n h' hn
        · cases h'
          have := ha _ _ _ n hm hn
          rw [oneLine_edits h this.2.1]; exact this
      · intro k' a' w hd
        rcases hmem _ hd with h' | h'
        · exact hv _ _ _ h'
        · cases h'; exact ih (hv _ _ _ hm)
  | @inArray ds i a v v' ls hi h ih =>
    intro b hr
    have hm := List.mem_of_getElem? hi
    cases hr with
    | oneLine hr => cases hr
    | array hne he ha hv =>
      have hmem : ∀ d ∈ ds.set i (.element ⟨a, v'⟩), d ∈ ds ∨ d = .element ⟨a, v'⟩ := fun d hd => (List.mem_or_eq_of_mem_set hd)
      refine .array (by simpa using hne) ?_ ?_ ?_
      · intro d hd
        rcases hmem d hd with h | rfl
        · exact he d h
        · exact ⟨_, rfl⟩
      · intro a' w n hd hn
        rcases hmem _ hd with h' | h'
        · exact ha _ _ n h' hn
        · cases h'
          have := ha _ _ n hm hn
          rw [oneLine_edits h this.2.1]; exact this
      · intro a' w hd
        rcases hmem _ hd with h' | h'
        · exact hv _ _ h'
        · cases h'; exact ih (hv _ _ hm)
  | inInlineArray hi h ih =>
    intro b hr
    cases hr with
    | oneLine hr hc =>
      cases hr with
      | array hr =>
        cases hr with
        | array hr =>
        rw [flow_edits h (hr _ (List.mem_of_getElem? hi)), set_same hi]
        exact .oneLine (.array (.array hr)) hc
  | seq h h' ih ih' => exact fun hr => ih' (ih hr)

end YamlSubset
