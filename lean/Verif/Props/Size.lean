import Verif.Lemmas.Size
import Verif.Props.Visible
import Verif.Props.RoundTrip
import Verif.Props.DeAnchors
import Verif.Lemmas.KernelRfl

/-! # How large a deserialized value can be (C63) -/

namespace YamlSubset

open Spec

/-! ## C63: values and trees -/

/-- **C63** The value read from a tree has the size of the tree with its references expanded, and there is only one such tree. -/
theorem C63_expanded_size {Γ : Nat → Ty} {n : Nat} {y : Yaml} {v : SVal} (h : fromYaml Γ n .any y = .ok v) :
    (∃ t, ExpandsTo y t) ∧ ∀ t, ExpandsTo y t → valueSize v = treeSize t := by
  obtain ⟨t, ht, hz⟩ := fromYaml_size h
  exact ⟨⟨t, ht⟩, fun u hu => by rw [← expandsTo_unique ht hu, hz]⟩

/-- **C63** Without references the value has exactly the size of the tree: nothing is dropped and nothing is added. -/
theorem C63_no_references {Γ : Nat → Ty} {n : Nat} {y : Yaml} {v : SVal} (h : fromYaml Γ n .any y = .ok v)
    (hr : ∀ b, ¬RefersTo y b) : valueSize v = treeSize y := by
  obtain ⟨t, ⟨D, ht⟩, hz⟩ := fromYaml_size h
  have := ht.size_eq (by simpa using hr)
  simp only [treesSize, Nat.add_zero] at this
  omega

/-- **C63** If the definitions are not cyclic, the value has at most the size of the tree to the power of one plus the number of
definitions. -/
theorem C63_bound {Γ : Nat → Ty} {n : Nat} {y : Yaml} {v : SVal} (h : fromYaml Γ n .any y = .ok v) (hy : Acyclic y) :
    valueSize v ≤ treeSize y ^ ((anchorNames y).length + 1) := by
  obtain ⟨t, ht, hz⟩ := fromYaml_size h
  rw [hz]
  exact expandsTo_size_le hy ht

/-! ## C63: values and texts -/

theorem visible_root {T : CharTables} {s : Str} {d : Document} {y : Yaml} (h : parseYamlFile T s = .ok d)
    (hy : .yaml y ∈ d.items) : ∃ l x r, visible s = l ++ x ++ r ∧ 3 ≤ l.length ∧ Shown y x := by
  have hv := C54_visible_text h
  generalize hs : visible s = z at hv
  cases hv with
  | @mk leading pre post root x hx =>
    have : y = root := by simpa using hy
    subst this
    exact ⟨commentsShown leading ++ ['-', '-', '-'] ++ commentsShown pre, x, commentsShown post, by simp, by simp; omega, hx⟩

theorem visible_length (s : Str) : (visible s).length ≤ s.length := List.length_filter_le _ _

/-- **C63** A parsed tree has fewer values than the text has characters. -/
theorem C63_parsed_size {T : CharTables} {s : Str} {d : Document} {y : Yaml} (h : parseYamlFile T s = .ok d)
    (hy : .yaml y ∈ d.items) : treeSize y < s.length := by
  obtain ⟨l, x, r, hs, hl, hx⟩ := visible_root h hy
  have h1 := shown_size hx
  have h2 := visible_length s
  rw [hs] at h2
  simp only [List.length_append] at h2
  omega

theorem fromYamlStr_parts {T : CharTables} {Γ : Nat → Ty} {n : Nat} {ty : Ty} {s : Str} {v : SVal}
    (h : fromYamlStr T Γ n ty s = .ok v) :
    ∃ d y, parseYamlFile T s = .ok d ∧ .yaml y ∈ d.items ∧ fromYaml Γ n ty y = .ok v := by
  unfold fromYamlStr at h
  obtain ⟨d, h1, h2⟩ := Out.bind_eq_ok.1 h
  split at h2
  · rename_i y hf
    obtain ⟨e, he, hz⟩ := List.exists_of_findSome?_eq_some hf
    cases e with
    | comment c => cases hz
    | yaml z => cases hz; exact ⟨d, _, h1, he, h2⟩
  · cases h2

/-- **C63** The value read from a text without `*` is smaller than the text. -/
theorem C63_text_without_references {T : CharTables} {Γ : Nat → Ty} {n : Nat} {s : Str} {v : SVal}
    (h : fromYamlStr T Γ n .any s = .ok v) (hs : '*' ∉ s) : valueSize v < s.length := by
  obtain ⟨d, y, h1, h2, h3⟩ := fromYamlStr_parts h
  rw [C63_no_references h3]
  · exact C63_parsed_size h1 h2
  · intro b hb
    obtain ⟨l, x, r, hx, -, hsh⟩ := visible_root h1 h2
    have : '*' ∈ visible s := by rw [hx]; simp [shown_star hb hsh]
    exact hs (List.mem_filter.1 this).1

/-- **C63** The value read from a text whose definitions are not cyclic: at most the length of the text to the power of one plus the
number of its ampersands. -/
theorem C63_text_bound {T : CharTables} {Γ : Nat → Ty} {n : Nat} {s : Str} {v : SVal} (h : fromYamlStr T Γ n .any s = .ok v)
    (ha : ∀ d y, parseYamlFile T s = .ok d → .yaml y ∈ d.items → Acyclic y) :
    valueSize v ≤ s.length ^ (s.count '&' + 1) := by
  obtain ⟨d, y, h1, h2, h3⟩ := fromYamlStr_parts h
  have hb := C63_bound h3 (ha d y h1 h2)
  have hp := C63_parsed_size h1 h2
  obtain ⟨l, x, r, hx, -, hsh⟩ := visible_root h1 h2
  have hc : (anchorNames y).length ≤ s.count '&' := by
    have e1 := shown_ampersands hsh
    have e2 : (visible s).count '&' ≤ s.count '&' := (List.filter_sublist).count_le _
    rw [hx] at e2
    simp only [List.count_append] at e2
    omega
  have hpos := treeSize_pos y
  exact Nat.le_trans hb (Nat.le_trans (Nat.pow_le_pow_left (by omega) _) (Nat.pow_le_pow_right (by omega) (by omega)))

/-! ## C63: small texts with large values -/

/-- The `i`-th name: `_`, `__`, `___`, … -/
def laughName (i : Nat) : Str := List.replicate (i + 1) '_'

/-- The `i`-th value: `[]`, `[ *_, *_ ]`, `[ *__, *__ ]`, … -/
def laughBody : Nat → Yaml
  | 0 => .inlineArray []
  | i + 1 => .inlineArray [.anchor (laughName i), .anchor (laughName i)]

/-- `m` elements `- &name value`, starting with the `i`-th. -/
def laughItems (i : Nat) : Nat → List ArrayData
  | 0 => []
  | m + 1 => .element ⟨some (laughName i), laughBody i⟩ :: laughItems (i + 1) m

/-- ```yaml
---
- &_ []
- &__ [ *_, *_ ]
- &___ [ *__, *__ ]
…
``` -/
def laughs (n : Nat) : Yaml := .array (laughItems 0 (n + 1))

/-- What the `i`-th value expands to. -/
def laughTree : Nat → Yaml
  | 0 => .inlineArray []
  | i + 1 => .inlineArray [laughTree i, laughTree i]

theorem laughTree_size (i : Nat) : treeSize (laughTree i) + 1 = 2 ^ (i + 1) := by
  induction i with
  | zero => rfl
  | succ i ih =>
    simp only [laughTree, treeSize, treesSize]
    rw [Nat.pow_succ]
    omega

theorem laughName_inj {i j : Nat} (h : laughName i = laughName j) : i = j := by
  have := congrArg List.length h
  simpa [laughName] using this

theorem laughItems_defs (D : Defs) (i m j : Nat) :
    D.array (laughItems i m) (laughName j) = if i ≤ j ∧ j < i + m then some (laughBody j) else D (laughName j) := by
  induction m generalizing D i with
  | zero =>
    rw [if_neg (by omega)]
    rfl
  | succ m ih =>
    simp only [laughItems, Defs.array, ih, Defs.define]
    by_cases h : j = i
    · subst h
      simp
    · have : laughName j ≠ laughName i := fun e => h (laughName_inj e)
      simp only [this, if_false]
      by_cases h1 : i ≤ j ∧ j < i + (m + 1)
      · rw [if_pos h1, if_pos (by omega)]
      · rw [if_neg h1, if_neg (by omega)]

theorem laughBody_expand {D : Defs} {n i : Nat} (hD : ∀ j, j ≤ n → D (laughName j) = some (laughBody j)) (hi : i ≤ n)
    {ys ts : List Yaml} {D' : Defs} (h : Expand D ys ts D') : Expand D (laughBody i :: ys) (laughTree i :: ts) D' := by
  induction i generalizing ys ts D' with
  | zero => exact .inlineArray .nil h
  | succ i ih =>
    have one : ∀ {ys ts D'}, Expand D ys ts D' → Expand D (.anchor (laughName i) :: ys) (laughTree i :: ts) D' :=
      fun h => .ref (hD i (by omega)) (ih (by omega) .nil) h
    exact .inlineArray (one (one .nil)) h

theorem laughItems_expand {D : Defs} {n : Nat} (hD : ∀ j, j ≤ n → D (laughName j) = some (laughBody j)) (i m : Nat)
    (h : i + m ≤ n + 1) : ∃ ts, Expand D (elementsOf (laughItems i m)) ts D ∧ ∀ j, i ≤ j → j < i + m → laughTree j ∈ ts := by
  induction m generalizing i with
  | zero => exact ⟨[], .nil, fun j h1 h2 => by omega⟩
  | succ m ih =>
    obtain ⟨ts, h1, h2⟩ := ih (i + 1) (by omega)
    refine ⟨laughTree i :: ts, laughBody_expand hD (by omega) h1, fun j h3 h4 => ?_⟩
    by_cases e : j = i
    · subst e
      exact List.mem_cons_self
    · exact List.mem_cons_of_mem _ (h2 j (by omega) (by omega))

theorem laughs_expand (n : Nat) : ∃ t, ExpandsTo (laughs n) t ∧ 2 ^ (n + 1) ≤ treeSize t := by
  have hD : ∀ j, j ≤ n → (Defs.array (fun _ => none) (laughItems 0 (n + 1))) (laughName j) = some (laughBody j) := by
    intro j hj
    rw [laughItems_defs, if_pos (by omega)]
  obtain ⟨ts, h1, h2⟩ := laughItems_expand hD 0 (n + 1) (by omega)
  refine ⟨.inlineArray ts, ⟨_, .array h1 .nil⟩, ?_⟩
  have h3 := treesSize_mem (h2 n (by omega) (by omega))
  have h4 := laughTree_size n
  simp only [treeSize]
  omega

theorem laughName_text (T : CharTables) (i : Nat) : NameText T (laughName i) := by
  refine ⟨by simp [laughName, List.replicate_succ], fun c hc => ?_⟩
  exact .inr (.inr (List.eq_of_mem_replicate hc))

theorem laughBody_oneLine (T : CharTables) (i : Nat) : OneLine T (laughBody i) := by
  cases i with
  | zero => exact .array (.array (by simp))
  | succ i =>
    refine .array (.array ?_)
    intro v hv
    simp only [List.mem_cons, List.not_mem_nil, or_false, or_self] at hv
    subst hv
    exact .reference (laughName_text T i)

theorem laughItems_readable (T : CharTables) (i m : Nat) : Elements T (Readable T) .none (laughItems i (m + 1)) := by
  have ha : ∀ i n, some (laughName i) = some n → NameText T n := by
    intro i n h
    cases h
    exact laughName_text T i
  induction m generalizing i with
  | zero => exact .last (ha i) (.oneLine (laughBody_oneLine T i))
  | succ m ih => exact .element (ha i) (.oneLine (laughBody_oneLine T i)) (ih (i + 1))

theorem laughs_readable (T : CharTables) (n : Nat) : ReadableDocument T ⟨[], [.yaml (laughs n)]⟩ :=
  ⟨by simp, [], [], laughs n, rfl, by simp, .array (laughItems_readable T 0 n)⟩

theorem laughBody_format (s i : Nat) : ((laughBody i).format s none).length ≤ 2 * i + 9 := by
  cases i with
  | zero => simp [laughBody, Yaml.format, formatInlineElements]
  | succ i =>
    simp [laughBody, Yaml.format, formatInlineElements, laughName]
    omega

theorem laughItems_format (first : Bool) (i m n : Nat) (h : i + m ≤ n + 1) :
    (formatArray 0 none first (laughItems i m)).length ≤ m * (3 * n + 14) := by
  induction m generalizing i first with
  | zero => simp [laughItems, formatArray]
  | succ m ih =>
    have h1 := ih false (i + 1) (by omega)
    have h2 := laughBody_format 2 i
    have h3 : (laughName i).length = i + 1 := by simp [laughName]
    simp only [laughItems, formatArray, indent, List.replicate, List.nil_append, reduceCtorEq, decide_false, Bool.false_and,
      Bool.false_eq_true, if_false, List.length_append, List.length_cons, List.length_nil, Nat.zero_add, h3]
    rw [Nat.add_mul]
    omega

theorem laughBody_refers {i : Nat} {b : Str} (h : RefersTo (laughBody i) b) : ∃ j, j < i ∧ b = laughName j := by
  cases i with
  | zero =>
    rcases within_inv h with h | ⟨c, hc, -⟩
    · cases h
    · cases hc with
      | inlineArray h => cases h
  | succ i =>
    rcases within_inv h with h | ⟨c, hc, h⟩
    · cases h
    · cases hc with
      | inlineArray hm =>
        simp only [List.mem_cons, List.not_mem_nil, or_false, or_self] at hm
        subst hm
        rcases within_inv h with h | ⟨c, hc, -⟩
        · cases h
          exact ⟨i, by omega, rfl⟩
        · cases hc

theorem laughBody_defines {i : Nat} {a : Str} {v : Yaml} : ¬Defines (laughBody i) a v := by
  rintro ⟨c, hc, hd⟩
  have leaf : ∀ {c : Yaml} {b : Str}, Within c (.anchor b) → c = .anchor b := by
    intro c b h
    cases h with
    | self => rfl
    | step hc _ => cases hc
  cases i with
  | zero =>
    cases hc with
    | self => cases hd
    | step hc _ => cases hc with
      | inlineArray h => cases h
  | succ i =>
    cases hc with
    | self => cases hd
    | step hc hw =>
      cases hc with
      | inlineArray hm =>
        simp only [List.mem_cons, List.not_mem_nil, or_false, or_self] at hm
        subst hm
        have := leaf hw
        subst this
        cases hd

theorem laughItems_mem {i m : Nat} {d : ArrayData} (h : d ∈ laughItems i m) :
    ∃ j, d = .element ⟨some (laughName j), laughBody j⟩ := by
  induction m generalizing i with
  | zero => cases h
  | succ m ih =>
    rcases List.mem_cons.1 h with h | h
    · exact ⟨i, h⟩
    · exact ih h

theorem laughs_acyclic (n : Nat) : Acyclic (laughs n) := by
  refine ⟨List.length, fun a v ⟨c, hc, hd⟩ b hb => ?_⟩
  have hdef : ∃ j, a = laughName j ∧ v = laughBody j := by
    cases hc with
    | self =>
      cases hd with
      | array h =>
        obtain ⟨j, e⟩ := laughItems_mem h
        cases e
        exact ⟨j, rfl, rfl⟩
    | step hch hw =>
      cases hch with
      | array h =>
        obtain ⟨j, e⟩ := laughItems_mem h
        cases e
        exact absurd ⟨c, hw, hd⟩ laughBody_defines
  obtain ⟨j, rfl, rfl⟩ := hdef
  obtain ⟨k, hk, rfl⟩ := laughBody_refers hb
  simpa [laughName] using hk

theorem laughs_names (n : Nat) : (anchorNames (laughs n)).length = n + 1 := by
  have hb : ∀ i, anchorNames (laughBody i) = [] := by
    intro i
    cases i <;> rfl
  have key : ∀ m i, (elementsNames (laughItems i m)).length = m := by
    intro m
    induction m with
    | zero => intro i; rfl
    | succ m ih =>
      intro i
      simp [laughItems, elementsNames, hb, ih]
  exact key (n + 1) 0

/-- **C63** Small texts can have large values: for every `n` there is a text of quadratic length in `n`, with `n + 1` definitions that
are not cyclic, whose value has more than `2 ^ n` parts. -/
theorem C63_exponential (T : CharTables) (Γ : Nat → Ty) (n : Nat) :
    ∃ s d y fuel v, s.length ≤ 3 * (n + 5) ^ 2 ∧ parseYamlFile T s = .ok d ∧ .yaml y ∈ d.items ∧ Acyclic y ∧
      (anchorNames y).length = n + 1 ∧ fromYamlStr T Γ fuel .any s = .ok v ∧ 2 ^ n < valueSize v := by
  obtain ⟨t, ht, hsize⟩ := laughs_expand n
  have hparse := C41_formatted_documents_parse T _ (laughs_readable T n)
  obtain ⟨ws, hw, -⟩ := (ht.choose_spec).reads Γ
  match ws, hw with
  | [w], .cons hw .nil =>
    obtain ⟨m, hm⟩ := hw
    obtain ⟨k, hk⟩ := (C44_references_expand Γ (laughs n) w).2 ⟨t, ht, m, by simp [fromYaml, hm []]⟩
    refine ⟨Document.format ⟨[], [.yaml (laughs n)]⟩, _, laughs n, k, w, ?_, hparse, by simp, laughs_acyclic n, laughs_names n, ?_, ?_⟩
    · have h1 := laughItems_format true 0 (n + 1) n (by omega)
      have h2 : ((laughs n).format 0 none).length ≤ (n + 1) * (3 * n + 14) := by
        unfold laughs
        rw [Yaml.format]
        exact h1
      have h3 : (Document.format ⟨[], [.yaml (laughs n)]⟩).length = 3 + ((laughs n).format 0 none).length := by
        simp [Document.format, DocumentData.format]
        omega
      rw [h3, Nat.pow_two]
      have h4 : (n + 1) * (3 * n + 14) + 3 ≤ 3 * ((n + 5) * (n + 5)) := by
        simp only [Nat.add_mul, Nat.mul_add]
        rw [Nat.mul_comm n (3 * n), Nat.mul_assoc]
        omega
      omega
    · unfold fromYamlStr
      rw [hparse]
      exact hk
    · rw [(C63_expanded_size hk).2 t ht]
      have := Nat.pow_succ (n := 2) (m := n)
      have := Nat.pow_pos (n := n) (show 0 < 2 by omega)
      omega

/-- The text for `n = 2`. -/
example : Document.format ⟨[], [.yaml (laughs 2)]⟩ = c!"---
- &_ []
- &__ [ *_, *_ ]
- &___ [ *__, *__ ]" := by decide +kernel

/-- A text without references: 9 values in 39 characters. -/
example : (fromYamlStr asciiTables (fun _ => .any) 10 .any c!"---
a: [1, 2, {x: y}]
b:
  - c
  - \"d\"
").bind (fun v => .ok (valueSize v)) = .ok 9 := by kernel_rfl

end YamlSubset
