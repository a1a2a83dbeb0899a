import Verif.Spec.Tidy
import Verif.Lemmas.Induct

/-! # Edits keep documents readable -/

namespace YamlSubset

open Spec

variable {T : CharTables} {E : List HashData → List HashData → Prop}

/-! ## there is nothing to edit in flow collections -/

theorem set_same {α : Type} {l : List α} {i : Nat} {a : α} (h : l[i]? = some a) : l.set i a = l := by
  apply List.ext_getElem?
  intro j
  rw [List.getElem?_set]
  split
  · rename_i hij; subst hij
    split
    · exact h.symm
    · rename_i hl; rw [List.getElem?_eq_none (Nat.le_of_not_lt hl)]
  · rfl

theorem flow_edits {ls : List Loc} {y y' : Yaml} (h : Edits E ls y y') (hf : Flow T y) : y' = y := by
  induction h with
  | none => rfl
  | here => cases hf
  | inHash => cases hf
  | inArray => cases hf
  | inInlineArray hi h ih =>
    cases hf with
    | array hf =>
      rw [ih (hf _ (List.mem_of_getElem? hi)), set_same hi]
  | seq h h' ih ih' =>
    obtain rfl := ih hf
    exact ih' hf

theorem oneLine_edits {ls : List Loc} {y y' : Yaml} (h : Edits E ls y y') (hf : OneLine T y) : y' = y := by
  induction h with
  | none => rfl
  | here => cases hf
  | inHash => cases hf
  | inArray => cases hf
  | inInlineArray hi h ih =>
    cases hf with
    | array hf =>
      cases hf with
      | array hf =>
      rw [flow_edits h (hf _ (List.mem_of_getElem? hi)), set_same hi]
  | seq h h' ih ih' =>
    obtain rfl := ih hf
    exact ih' hf

/-! ## replacing one entry -/

section
variable {P : Place → Holder → Bool → Yaml → Prop}

theorem Spec.Entries.replace {nx : Next} {ds : List HashData} (h : Entries T P nx ds) {i : Nat} {k k' : Str} {a a' : Option Str} {v v' : Yaml}
    (hi : ds[i]? = some (.element ⟨k, ⟨a, v⟩⟩)) (hk : KeyText T k → KeyText T k')
    (ha : (∀ n, a = some n → NameText T n) → ∀ n, a' = some n → NameText T n)
    (hP : ∀ p, P p .key a.isSome v → P p .key a'.isSome v') (hO : OneLine T v → Commentable v → OneLine T v' ∧ Commentable v') :
    Entries T P nx (ds.set i (.element ⟨k', ⟨a', v'⟩⟩)) := by
  induction h generalizing i with
  | comment hc h ih =>
    cases i with
    | zero => simp at hi
    | succ i => exact .comment hc (ih (by simpa using hi))
  | last hk' ha' hv =>
    cases i with
    | zero =>
      cases (by simpa using hi : _ ∧ _ ∧ _)
      rename_i h1 h2; obtain ⟨h2, h3⟩ := h2; subst h1; subst h2; subst h3
      exact .last (hk hk') (ha ha') (hP _ hv)
    | succ i => simp at hi
  | lastComment hk' ha' hv hv' hc =>
    cases i with
    | zero =>
      cases (by simpa using hi : _ ∧ _ ∧ _)
      rename_i h1 h2; obtain ⟨h2, h3⟩ := h2; subst h1; subst h2; subst h3
      exact .lastComment (hk hk') (ha ha') (hO hv hv').1 (hO hv hv').2 hc
    | succ i => cases i <;> simp at hi
  | entry hk' ha' hv h ih =>
    cases i with
    | zero =>
      cases (by simpa using hi : _ ∧ _ ∧ _)
      rename_i h1 h2; obtain ⟨h2, h3⟩ := h2; subst h1; subst h2; subst h3
      exact .entry (hk hk') (ha ha') (hP _ hv) h
    | succ i => exact .entry hk' ha' hv (ih (by simpa using hi))
  | entryComment hk' ha' hv hv' hc h ih =>
    cases i with
    | zero =>
      cases (by simpa using hi : _ ∧ _ ∧ _)
      rename_i h1 h2; obtain ⟨h2, h3⟩ := h2; subst h1; subst h2; subst h3
      exact .entryComment (hk hk') (ha ha') (hO hv hv').1 (hO hv hv').2 hc h
    | succ i =>
      cases i with
      | zero => simp at hi
      | succ i => exact .entryComment hk' ha' hv hv' hc (ih (by simpa using hi))

theorem Spec.Elements.replace {nx : Next} {ds : List ArrayData} (h : Elements T P nx ds) {i : Nat} {a a' : Option Str} {v v' : Yaml}
    (hi : ds[i]? = some (.element ⟨a, v⟩))
    (ha : (∀ n, a = some n → NameText T n) → ∀ n, a' = some n → NameText T n)
    (hP : ∀ p, P p .dash a.isSome v → P p .dash a'.isSome v') (hO : OneLine T v → Commentable v → OneLine T v' ∧ Commentable v') :
    Elements T P nx (ds.set i (.element ⟨a', v'⟩)) := by
  induction h generalizing i with
  | comment hc h ih =>
    cases i with
    | zero => simp at hi
    | succ i => exact .comment hc (ih (by simpa using hi))
  | last ha' hv =>
    cases i with
    | zero =>
      obtain ⟨rfl, rfl⟩ : _ ∧ _ := by simpa using hi
      exact .last (ha ha') (hP _ hv)
    | succ i => simp at hi
  | lastComment ha' hv hv' hc =>
    cases i with
    | zero =>
      obtain ⟨rfl, rfl⟩ : _ ∧ _ := by simpa using hi
      exact .lastComment (ha ha') (hO hv hv').1 (hO hv hv').2 hc
    | succ i => cases i <;> simp at hi
  | element ha' hv h ih =>
    cases i with
    | zero =>
      obtain ⟨rfl, rfl⟩ : _ ∧ _ := by simpa using hi
      exact .element (ha ha') (hP _ hv) h
    | succ i => exact .element ha' hv (ih (by simpa using hi))
  | elementComment ha' hv hv' hc h ih =>
    cases i with
    | zero =>
      obtain ⟨rfl, rfl⟩ : _ ∧ _ := by simpa using hi
      exact .elementComment (ha ha') (hO hv hv').1 (hO hv hv').2 hc h
    | succ i =>
      cases i with
      | zero => simp at hi
      | succ i => exact .elementComment ha' hv hv' hc (ih (by simpa using hi))

end

/-- `v'` with the anchor `a'` may stand wherever `v` with the anchor `a` may. -/
structure Fits' (T : CharTables) (a : Option Str) (v : Yaml) (a' : Option Str) (v' : Yaml) : Prop where
  name : (∀ n, a = some n → NameText T n) → ∀ n, a' = some n → NameText T n
  value : ∀ p par, Readable T p par a.isSome v → Readable T p par a'.isSome v'
  line : OneLine T v → Commentable v → OneLine T v' ∧ Commentable v'

theorem Spec.Readable.replaceEntry {p : Place} {par : Holder} {nm : Bool} {ds : List HashData} (h : Readable T p par nm (.hash ds)) {i : Nat}
    {k k' : Str} {a a' : Option Str} {v v' : Yaml} (hi : ds[i]? = some (.element ⟨k, ⟨a, v⟩⟩)) (hk : KeyText T k → KeyText T k')
    (hf : Fits' T a v a' v') : Readable T p par nm (.hash (ds.set i (.element ⟨k', ⟨a', v'⟩⟩))) := by
  cases h with
  | oneLine h => cases h
  | hash h => exact .hash (h.replace hi hk hf.name (fun p => hf.value p _) hf.line)
  | hashNamed h =>
    cases i with
    | zero => simp at hi
    | succ i =>
      have := h.replace hi hk hf.name (fun p => hf.value p _) hf.line
      exact .hashNamed this
  | altOne hp hs hk' ha hv =>
    cases i with
    | zero =>
      obtain ⟨rfl, rfl, rfl⟩ : _ ∧ _ ∧ _ := by simpa using hi
      exact .altOne hp hs (hk hk') (hf.name ha) (hf.value _ _ hv)
    | succ i => simp at hi
  | altOneComment hp hs hk' ha hv hv' hc =>
    cases i with
    | zero =>
      obtain ⟨rfl, rfl, rfl⟩ : _ ∧ _ ∧ _ := by simpa using hi
      exact .altOneComment hp hs (hk hk') (hf.name ha) (hf.line hv hv').1 (hf.line hv hv').2 hc
    | succ i => cases i <;> simp at hi
  | altMore hp hk' ha hv h =>
    cases i with
    | zero =>
      obtain ⟨rfl, rfl, rfl⟩ : _ ∧ _ ∧ _ := by simpa using hi
      exact .altMore hp (hk hk') (hf.name ha) (hf.value _ _ hv) h
    | succ i => exact .altMore hp hk' ha hv (h.replace (by simpa using hi) hk hf.name (fun p => hf.value p _) hf.line)
  | altMoreComment hp hk' ha hv hv' hc h =>
    cases i with
    | zero =>
      obtain ⟨rfl, rfl, rfl⟩ : _ ∧ _ ∧ _ := by simpa using hi
      exact .altMoreComment hp (hk hk') (hf.name ha) (hf.line hv hv').1 (hf.line hv hv').2 hc h
    | succ i =>
      cases i with
      | zero => simp at hi
      | succ i => exact .altMoreComment hp hk' ha hv hv' hc (h.replace (by simpa using hi) hk hf.name (fun p => hf.value p _) hf.line)

theorem Spec.Readable.replaceElement {p : Place} {par : Holder} {nm : Bool} {ds : List ArrayData} (h : Readable T p par nm (.array ds)) {i : Nat}
    {a a' : Option Str} {v v' : Yaml} (hi : ds[i]? = some (.element ⟨a, v⟩))
    (hf : Fits' T a v a' v') : Readable T p par nm (.array (ds.set i (.element ⟨a', v'⟩))) := by
  cases h with
  | oneLine h => cases h
  | array h => exact .array (h.replace hi hf.name (fun p => hf.value p _) hf.line)
  | seqOne hp hs ha hv =>
    cases i with
    | zero =>
      obtain ⟨rfl, rfl⟩ : _ ∧ _ := by simpa using hi
      exact .seqOne hp hs (hf.name ha) (hf.value _ _ hv)
    | succ i => simp at hi
  | seqOneComment hp hs ha hv hv' hc =>
    cases i with
    | zero =>
      obtain ⟨rfl, rfl⟩ : _ ∧ _ := by simpa using hi
      exact .seqOneComment hp hs (hf.name ha) (hf.line hv hv').1 (hf.line hv hv').2 hc
    | succ i => cases i <;> simp at hi
  | @seqMore p par named a0 v0 e ds hp ha hv h =>
    cases i with
    | zero =>
      obtain ⟨rfl, rfl⟩ : _ ∧ _ := by simpa using hi
      exact .seqMore hp (hf.name ha) (hf.value _ _ hv) h
    | succ i =>
      have := h.replace (i := i) (by simpa using hi) hf.name (fun p => hf.value p _) hf.line
      cases i <;> exact .seqMore hp ha hv this
  | @seqMoreComment p par named a0 v0 c e ds hp ha hv hv' hc h =>
    cases i with
    | zero =>
      obtain ⟨rfl, rfl⟩ : _ ∧ _ := by simpa using hi
      exact .seqMoreComment hp (hf.name ha) (hf.line hv hv').1 (hf.line hv hv').2 hc h
    | succ i =>
      cases i with
      | zero => simp at hi
      | succ i =>
        have := h.replace (i := i) (by simpa using hi) hf.name (fun p => hf.value p _) hf.line
        cases i <;> exact .seqMoreComment hp ha hv hv' hc this

/-- Edits that keep mappings readable keep values readable. -/
theorem Spec.Readable.edits (hE : ∀ ds ds', E ds ds' → ∀ p par nm, Readable T p par nm (.hash ds) → Readable T p par nm (.hash ds'))
    {ls : List Loc} {y y' : Yaml} (h : Edits E ls y y') : ∀ {p par nm}, Readable T p par nm y → Readable T p par nm y' := by
  induction h with
  | none => exact id
  | here h => exact hE _ _ h _ _ _
  | inHash hi h ih =>
    intro p par nm hr
    exact hr.replaceEntry hi id ⟨id, fun _ _ => ih, fun ho hc => by rw [oneLine_edits h ho]; exact ⟨ho, hc⟩⟩
  | inArray hi h ih =>
    intro p par nm hr
    exact hr.replaceElement hi ⟨id, fun _ _ => ih, fun ho hc => by rw [oneLine_edits h ho]; exact ⟨ho, hc⟩⟩
  | inInlineArray hi h ih =>
    intro p par nm hr
    cases hr with
    | oneLine hr =>
      cases hr with
      | array hr => 
        cases hr with
        | array hr =>
        rw [flow_edits h (hr _ (List.mem_of_getElem? hi)), set_same hi]
        exact .oneLine (.array (.array hr))
  | seq h h' ih ih' => exact fun hr => ih' (ih hr)

theorem Spec.ReadableRoot.edits (hE : ∀ ds ds', E ds ds' → ∀ p par nm, Readable T p par nm (.hash ds) → Readable T p par nm (.hash ds'))
    (hE' : ∀ ds ds', E ds ds' → ReadableRoot T (.hash ds) → ReadableRoot T (.hash ds'))
    {ls : List Loc} {y y' : Yaml} (h : Edits E ls y y') : ReadableRoot T y → ReadableRoot T y' := by
  induction h with
  | none => exact id
  | here h => exact hE' _ _ h
  | @inHash ds i k a v v' ls hi h ih =>
    intro hr
    cases hr with
    | hash hr =>
      have := hr.replace hi (k' := k) (a' := a) (v' := v') id id (fun p => Spec.Readable.edits hE h) (fun ho hc => by rw [oneLine_edits h ho]; exact ⟨ho, hc⟩)
      cases i <;> exact .hash this
  | @inArray ds i a v v' ls hi h ih =>
    intro hr
    cases hr with
    | array hr =>
      have := hr.replace hi (a' := a) (v' := v') id (fun p => Spec.Readable.edits hE h) (fun ho hc => by rw [oneLine_edits h ho]; exact ⟨ho, hc⟩)
      cases i <;> exact .array this
  | inInlineArray hi h ih => intro hr; cases hr
  | seq h h' ih ih' => exact fun hr => ih' (ih hr)

theorem Spec.ReadableRoot.replaceEntry {ds : List HashData} (h : ReadableRoot T (.hash ds)) {i : Nat}
    {k k' : Str} {a a' : Option Str} {v v' : Yaml} (hi : ds[i]? = some (.element ⟨k, ⟨a, v⟩⟩)) (hk : KeyText T k → KeyText T k')
    (hf : Fits' T a v a' v') : ReadableRoot T (.hash (ds.set i (.element ⟨k', ⟨a', v'⟩⟩))) := by
  cases h with
  | hash h =>
    have := h.replace hi hk hf.name (fun p => hf.value p _) hf.line
    cases i <;> exact .hash this

/-! ## edits of documents -/

/-- What holds of the root of a document: edits of the document are edits of its root. -/
theorem itemsEdit_root {pre post : List Str} {root : Yaml} {n : Nat} {is : List DocumentData}
    (h : ItemsEdit E n (pre.map .comment ++ [.yaml root] ++ post.map .comment) is) :
    ∃ root' ls, is = pre.map .comment ++ [.yaml root'] ++ post.map .comment ∧ Edits E ls root root' := by
  have hpost : ∀ {post : List Str} {n is}, ItemsEdit E n (post.map .comment) is → is = post.map .comment := by
    intro post
    induction post with
    | nil => intro n is h; cases h; rfl
    | cons c post ih =>
      intro n is h
      cases h with
      | comment h => rw [ih h]; rfl
  induction pre generalizing n is with
  | nil =>
    cases h with
    | yaml h ht => exact ⟨_, _, by rw [hpost ht]; rfl, h⟩
  | cons c pre ih =>
    cases h with
    | comment h =>
      obtain ⟨root', ls, rfl, h'⟩ := ih h
      exact ⟨root', ls, rfl, h'⟩

end YamlSubset
