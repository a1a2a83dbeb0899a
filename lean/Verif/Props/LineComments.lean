import Verif.Props.MoveLines
import Verif.Props.FormatText
import Verif.Lemmas.KernelRfl

/-! # C77: comments on the lines of the elements of block sequences -/

namespace YamlSubset

open Spec

/-- The lines of one element. -/
theorem Lay.one_element {c v z} {ps cs : List Str} (h : ElementBlocks T c (.element v :: ps.map .inlineComment ++ cs.map .comment) z) :
    ∃ cl x g, z = pad c ++ '-' :: x ++ g ∧ ItemText T (Written T) (some c) .dash c .dash cl v ps x ∧ Gap cl c cs g := by
  have split : ∀ {ps ps' cs cs' : List Str} {ds : List ArrayData}, ps.map ArrayData.inlineComment ++ cs.map .comment = ps'.map .inlineComment ++ (cs'.map .comment ++ ds) →
      (ds = [] ∨ StartsWithElement ds) → ps' = ps ∧ cs' = cs ∧ ds = [] := by
    intro ps
    induction ps with
    | nil =>
      intro ps' cs cs' ds h hd
      cases ps' with
      | cons p ps' => cases cs <;> simp at h
      | nil =>
        induction cs generalizing cs' with
        | nil => cases cs' <;> simp at h; exact ⟨rfl, rfl, h⟩
        | cons c cs ih =>
          cases cs' with
          | nil =>
            rcases hd with rfl | ⟨e, r, rfl⟩
            · simp at h
            · simp at h
          | cons c' cs' =>
            simp only [List.map_nil, List.map_cons, List.nil_append, List.cons_append, List.cons.injEq, ArrayData.comment.injEq] at h
            obtain ⟨-, h1, h2⟩ := ih (cs' := cs') (by simpa using h.2)
            exact ⟨rfl, by rw [h.1, h1], h2⟩
    | cons p ps ih =>
      intro ps' cs cs' ds h hd
      cases ps' with
      | nil =>
        cases cs' with
        | nil =>
          rcases hd with rfl | ⟨e, r, rfl⟩
          · simp at h
          · simp at h
        | cons => simp at h
      | cons p' ps' =>
        simp only [List.map_cons, List.cons_append, List.cons.injEq, ArrayData.inlineComment.injEq] at h
        obtain ⟨h1, h2, h3⟩ := ih h.2 hd
        exact ⟨by rw [h.1, h1], h2, h3⟩
  generalize hm : ArrayData.element v :: ps.map .inlineComment ++ cs.map .comment = mid at h
  cases h with
  | nil => simp at hm
  | @cons cl v₀ ps' x cs' g ds rest hv hg h =>
    simp only [List.cons_append, List.append_assoc, List.cons.injEq, ArrayData.element.injEq] at hm
    obtain ⟨rfl, hm⟩ := hm
    obtain ⟨rfl, rfl, rfl⟩ := split hm (by
      cases h with
      | nil => exact .inl rfl
      | cons => exact .inr ⟨_, _, rfl⟩)
    have : rest = [] := by
      generalize he : ([] : List ArrayData) = ds at h
      cases h with
      | nil => rfl
      | cons => simp at he
    subst this
    exact ⟨cl, x, g, by simp, hv, hg⟩

/-- **C77** A comment after a value on its line, for an element of a block sequence that is not the last one. Spaces at the end of the line are replaced. -/
theorem C77_add_on_line_of_element (T : CharTables) {d x root l pre a y post} {cs : List Str} (h : DocumentText T d x) (hr : DocumentData.yaml root ∈ d.items)
    (hp : nodeAt l root = some (.array (pre ++ .element ⟨a, y⟩ :: cs.map .comment ++ post))) (hpre : l = [] ∨ ∃ e, ArrayData.element e ∈ pre) (hy : OnLine y)
    (hpost : StartsWithElement post) :
    ∃ A z n nl B, x = A ++ z ++ pad n ++ nl ++ B ∧ ScalarText T y z ∧ Break nl ∧ ∀ m c, LineText c → parseYamlFile T (A ++ z ++ pad (m + 1) ++ '#' :: c ++ nl ++ B) =
      .ok (onTrees (changeNode (fun _ => .array (pre ++ .element ⟨a, y⟩ :: .inlineComment c :: cs.map .comment ++ post)) l) d) := by
  obtain ⟨A, z, B, c, rfl, hz, -, hre⟩ := C78_sequence T h hr (mid := .element ⟨a, y⟩ :: cs.map .comment) (by simpa using hp) hpre ⟨_, _, rfl⟩ hpost
  obtain ⟨cl, x, g, rfl, hv, hg⟩ := Lay.one_element (ps := []) (by simpa using hz)
  cases hv with
  | value hv =>
    obtain ⟨lead, u, rfl, hcl, ha, hu⟩ : ∃ lead u, x = lead ++ u ∧ cl = .loose ∧ Lead T a lead ∧ ScalarText T y u := by
      cases hv with
      | scalar ha hu => exact ⟨_, _, rfl, rfl, ha, hu⟩
      | literal => exact absurd rfl (hy.2.2.1 _ _)
      | folded => exact absurd rfl (hy.2.2.2 _ _)
      | hash => exact absurd rfl (hy.1 _)
      | innerOne => exact absurd rfl (hy.1 _)
      | innerMore => exact absurd rfl (hy.1 _)
      | array => exact absurd rfl (hy.2.1 _)
      | innerElement => exact absurd rfl (hy.2.1 _)
      | innerElements => exact absurd rfl (hy.2.1 _)
    subst hcl
    cases hg with
    | @intro j nl b _ x hn hb hcs _ _ =>
      refine ⟨A ++ pad c ++ '-' :: lead, u, j, nl, b ++ x ++ B, by simp, hu, hn, fun m co hco => ?_⟩
      have := hre _ _ (.cons (.comment (n := m) ha hu hco) (Gap.intro (n := 0) hn hb hcs (by simp) (by simp [Closing.tight])) .nil)
      simpa [pad] using this

/-- **C77** The comment after a value on its line can be deleted, for an element of a block sequence. -/
theorem C77_delete_on_line_of_element (T : CharTables) {d x root l pre v c post} {cs : List Str} (h : DocumentText T d x) (hr : DocumentData.yaml root ∈ d.items)
    (hp : nodeAt l root = some (.array (pre ++ .element v :: .inlineComment c :: cs.map .comment ++ post))) (hpre : l = [] ∨ ∃ e, ArrayData.element e ∈ pre)
    (hpost : StartsWithElement post) :
    ∃ A n nl B, x = A ++ pad (n + 1) ++ '#' :: c ++ nl ++ B ∧ Break nl ∧ ∀ m, parseYamlFile T (A ++ pad m ++ nl ++ B) =
      .ok (onTrees (changeNode (fun _ => .array (pre ++ .element v :: cs.map .comment ++ post)) l) d) := by
  obtain ⟨A, z, B, col, rfl, hz, -, hre⟩ := C78_sequence T h hr (mid := .element v :: .inlineComment c :: cs.map .comment) (by simpa using hp) hpre ⟨_, _, rfl⟩ hpost
  obtain ⟨cl, x, g, rfl, hv, hg⟩ := Lay.one_element (ps := [c]) (by simpa using hz)
  cases hv with
  | @comment _ _ _ _ a y lead u j _ ha hu hc =>
    cases hg with
    | @intro i nl b _ x hn hb hcs hcl _ =>
      obtain rfl : i = 0 := hcl (by simp)
      refine ⟨A ++ pad col ++ '-' :: lead ++ u, j, nl, b ++ x ++ B, by simp [pad], hn, fun m => ?_⟩
      have := hre _ _ (.cons (post := []) (.value (.scalar ha hu)) (Gap.intro (n := m) hn hb hcs (by simp) (by simp [Closing.tight])) .nil)
      simpa using this

/-! ## texts that meet the hypotheses -/

/-- A comment on the line of the second element of `b[1]`; the line after it is a comment. -/
example : ∃ A z n nl B, layoutText = A ++ z ++ pad n ++ nl ++ B ∧ ScalarText asciiTables (.doubleQuotedString [.string c!"y"]) z ∧ Break nl ∧ ∀ m c, LineText c →
    parseYamlFile asciiTables (A ++ z ++ pad (m + 1) ++ '#' :: c ++ nl ++ B) = .ok (onTrees (changeNode (fun _ => .array
      [.element ⟨some c!"n", .unquotedString c!"x"⟩, elem (.doubleQuotedString [.string c!"y"]), .inlineComment c, .comment c!" c", elem (.unquotedString c!"z")]) [1, 3])
        layoutDocument) :=
  C77_add_on_line_of_element asciiTables layoutText_shows layoutRoot_mem (l := [1, 3]) (pre := [.element ⟨some c!"n", .unquotedString c!"x"⟩]) (a := none)
    (y := .doubleQuotedString [.string c!"y"]) (cs := [c!" c"]) (post := [elem (.unquotedString c!"z")]) rfl (.inr ⟨_, List.mem_cons_self ..⟩) ⟨nofun, nofun, nofun, nofun⟩ ⟨_, _, rfl⟩

/-- A sequence with a comment on the line of its first element. -/
def commented : Document := docOf (.array [elem (plain c!"a"), .inlineComment c!" c", elem (plain c!"b")])

theorem commented_shown : DocumentText asciiTables commented c!"---\n- a # c\n- b" := by
  have hf : commented.format = c!"---\n- a # c\n- b" := by kernel_rfl
  rw [← hf]
  refine C79_format_is_a_layout _ _ ⟨by simp [commented, docOf], [], [], _, rfl, by simp, .array (.elementComment no_name (.plain (blockPlain_simple (by decide)))
    (by simp [Commentable]) (by decide) (.last no_name (.oneLine (.plain (blockPlain_simple (by decide))))))⟩ fun y s hy hs => ?_
  simp only [commented, docOf, List.mem_cons, DocumentData.yaml.injEq, List.not_mem_nil, or_false] at hy
  subst hy
  simp [Fmt.inBlock_array, Fmt.inBlock_leaf, and_assoc, elem, plain] at hs
  rcases hs with rfl | rfl <;> decide

example : ∃ A n nl B, c!"---\n- a # c\n- b" = A ++ pad (n + 1) ++ '#' :: c!" c" ++ nl ++ B ∧ Break nl ∧ ∀ m, parseYamlFile asciiTables (A ++ pad m ++ nl ++ B) =
    .ok (docOf (.array [elem (plain c!"a"), elem (plain c!"b")])) :=
  C77_delete_on_line_of_element asciiTables commented_shown (List.mem_cons_self ..) (l := []) (pre := []) (cs := []) (post := [elem (plain c!"b")]) rfl (.inl rfl) ⟨_, _, rfl⟩

end YamlSubset
