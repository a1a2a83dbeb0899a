import Verif.Lemmas.Place

/-! # The text of a comment in the text of a document -/

namespace YamlSubset

open Spec

namespace Lay

variable {T : CharTables}

theorem split_append {α : Type} {a b pre post : List α} {d : α} (h : a ++ b = pre ++ d :: post) :
    (∃ post', a = pre ++ d :: post' ∧ post = post' ++ b) ∨ ∃ pre', pre = a ++ pre' ∧ b = pre' ++ d :: post := by
  rcases List.append_eq_append_iff.1 h with ⟨l, h1, h2⟩ | ⟨l, h1, h2⟩
  · exact .inr ⟨l, h1, h2⟩
  · cases l with
    | nil => simp at h1 h2; exact .inr ⟨[], by simp [h1], by simp [h2]⟩
    | cons e l =>
      simp only [List.cons_append, List.cons.injEq] at h2
      obtain ⟨rfl, rfl⟩ := h2
      exact .inl ⟨l, h1, rfl⟩

theorem split_map {α β : Type} {f : α → β} {l : List α} {pre post : List β} {d : β} (h : l.map f = pre ++ d :: post) :
    ∃ l₁ e l₂, l = l₁ ++ e :: l₂ ∧ l₁.map f = pre ∧ f e = d ∧ l₂.map f = post := by
  obtain ⟨l₁, l', rfl, h1, h2⟩ := List.map_eq_append_iff.1 h
  obtain ⟨e, l₂, rfl, h3, h4⟩ := List.map_eq_cons_iff.1 h2
  exact ⟨l₁, e, l₂, rfl, h1, h3, h4⟩

theorem pad_hash {m n : Nat} {x y : Str} (h : pad m ++ '#' :: x = pad n ++ '#' :: y) : m = n := by
  induction m generalizing n with
  | zero => cases n with
    | zero => rfl
    | succ n => simp [pad, List.replicate_succ] at h
  | succ m ih => cases n with
    | zero => simp [pad, List.replicate_succ] at h
    | succ n => simp only [pad, List.replicate_succ, List.cons_append, List.cons.injEq, true_and] at h; rw [ih h]

/-- A comment in comment lines. -/
theorem comments_slot {cs x} (h : CommentLines cs x) : ∀ {cs₁ c cs₂}, cs = cs₁ ++ c :: cs₂ →
    ∃ A B, x = A ++ '#' :: c ++ B ∧ ∀ c', LineText c' → CommentLines (cs₁ ++ c' :: cs₂) (A ++ '#' :: c' ++ B) ∧
      ∀ m y, A ++ '#' :: c' ++ B = pad m ++ '#' :: y → ∃ y', x = pad m ++ '#' :: y' := by
  induction h with
  | nil => intro cs₁ c cs₂ h; simp at h
  | @line m c₀ nl b cs x hc hn hb h ih =>
    intro cs₁ c cs₂ hd
    cases cs₁ with
    | nil =>
      simp only [List.nil_append, List.cons.injEq] at hd
      obtain ⟨rfl, rfl⟩ := hd
      refine ⟨pad m, nl ++ b ++ x, by simp, fun c' hc' => ⟨by simpa using CommentLines.line (m := m) hc' hn hb h, fun m' y hy => ?_⟩⟩
      have := pad_hash (m := m) (n := m') (by simpa using hy)
      subst this
      exact ⟨c₀ ++ nl ++ b ++ x, by simp⟩
    | cons d cs₁ =>
      simp only [List.cons_append, List.cons.injEq] at hd
      obtain ⟨rfl, rfl⟩ := hd
      obtain ⟨A, B, hx, hr⟩ := ih rfl
      refine ⟨pad m ++ '#' :: c₀ ++ nl ++ b ++ A, B, by simp [hx], fun c' hc' => ⟨?_, fun m' y hy => ?_⟩⟩
      · simpa using CommentLines.line (m := m) hc hn hb (hr c' hc').1
      · have := pad_hash (m := m) (n := m') (by simpa using hy)
        subst this
        exact ⟨c₀ ++ nl ++ b ++ x, by simp⟩

/-- A comment between two items. -/
theorem gap_slot {cl c cs g} (h : Gap cl c cs g) {cs₁ cm cs₂} (hd : cs = cs₁ ++ cm :: cs₂) :
    ∃ A B, g = A ++ '#' :: cm ++ B ∧ ∀ cm', LineText cm' → Gap cl c (cs₁ ++ cm' :: cs₂) (A ++ '#' :: cm' ++ B) := by
  cases h with
  | @intro n nl b _ x hn hb h hcl ht =>
    obtain ⟨A, B, hx, hr⟩ := comments_slot h hd
    refine ⟨pad n ++ nl ++ b ++ A, B, by simp [hx], fun cm' hc => ?_⟩
    have := Gap.intro (n := n) hn hb (hr cm' hc).1 hcl fun h => ⟨(ht h).1, fun m y hy => by
      obtain ⟨y', hy'⟩ := (hr cm' hc).2 m y hy
      exact (ht h).2 m y' hy'⟩
    simpa using this

/-- A comment line more between two items. -/
theorem gap_add {cl c cs g} (h : Gap cl c cs g) {m cm nl} (hm : m ≤ c) (hc : LineText cm) (hnl : Break nl) :
    Gap cl c (cs ++ [cm]) (g ++ (pad m ++ '#' :: cm ++ nl)) := by
  cases h with
  | @intro n nl' b _ x hn hb h hcl ht =>
    have add : ∀ {cs x}, CommentLines cs x → CommentLines (cs ++ [cm]) (x ++ (pad m ++ '#' :: cm ++ nl)) := by
      intro cs x h
      induction h with
      | nil => simpa using CommentLines.line (m := m) hc hnl .nil .nil
      | @line m' _ _ _ _ _ hc' hn' hb' _ ih => simpa using CommentLines.line (m := m') hc' hn' hb' ih
    have := Gap.intro (n := n) (c := c) hn hb (add h) hcl fun ht' => ⟨(ht ht').1, fun m' y hy => by
      cases h with
      | nil =>
        have : m = m' := pad_hash (x := cm ++ nl) (y := y) (by simpa using hy)
        omega
      | @line m₀ c₀ nl₀ b₀ _ x₀ _ _ _ _ =>
        have : m₀ = m' := pad_hash (x := c₀ ++ nl₀ ++ b₀ ++ x₀ ++ (pad m ++ '#' :: cm ++ nl)) (y := y) (by simpa using hy)
        subst this
        exact (ht ht').2 m₀ (c₀ ++ nl₀ ++ b₀ ++ x₀) (by simp)⟩
    simpa using this

/-- A comment on the line of an item. -/
theorem item_comment_slot {P : ValueText} {t next s hold cl v ps x} (h : ItemText T P t next s hold cl v ps x) {p₁ cm p₂} (hd : ps = p₁ ++ cm :: p₂) :
    ∃ A, x = A ++ '#' :: cm ∧ ∀ cm', LineText cm' → ItemText T P t next s hold cl v (p₁ ++ cm' :: p₂) (A ++ '#' :: cm') := by
  cases h with
  | value h => simp at hd
  | @comment _ _ _ _ a y lead x n c ha h hc =>
    cases p₁ with
    | nil =>
      simp only [List.nil_append, List.cons.injEq] at hd
      obtain ⟨rfl, rfl⟩ := hd
      exact ⟨lead ++ x ++ pad (n + 1), by simp, fun cm' hc' => by simpa using ItemText.comment (n := n) ha h hc'⟩
    | cons a p₁ => simp at hd

/-- A comment of a mapping: `.comment` or `.inlineComment`. -/
def hashComment : Bool → Str → HashData
  | true, c => .inlineComment c
  | false, c => .comment c

/-- The same for sequences. -/
def arrayComment : Bool → Str → ArrayData
  | true, c => .inlineComment c
  | false, c => .comment c

theorem entries_comment {P : ValueText} {c next cl ds x} (h : EntryTexts T P c next cl ds x) : ∀ {pre b cm post}, ds = pre ++ hashComment b cm :: post →
    ∃ A B, x = A ++ '#' :: cm ++ B ∧ ∀ cm', LineText cm' → EntryTexts T P c next cl (pre ++ hashComment b cm' :: post) (A ++ '#' :: cm' ++ B) := by
  induction h with
  | @last c next cl k₀ n v₀ ps x hk hv =>
    intro pre b cm post hd
    have hd : [HashData.element ⟨k₀, v₀⟩] ++ ps.map .inlineComment = pre ++ hashComment b cm :: post := hd
    rcases split_append hd with ⟨post', h1, -⟩ | ⟨pre', rfl, h2⟩
    · have : hashComment b cm ∈ [HashData.element ⟨k₀, v₀⟩] := by rw [h1]; simp
      cases b <;> simp [hashComment] at this
    · obtain ⟨p₁, e, p₂, rfl, rfl, he, rfl⟩ := split_map h2
      cases b with
      | false => simp [hashComment] at he
      | true =>
        simp only [hashComment, HashData.inlineComment.injEq] at he
        subst he
        obtain ⟨A, hx, hr⟩ := item_comment_slot hv rfl
        refine ⟨k₀ ++ pad n ++ ':' :: A, [], by simp [hx], fun cm' hc => ?_⟩
        simpa [hashComment] using EntryTexts.last (n := n) hk (hr cm' hc)
  | @more c next cl cl' k₀ n v₀ ps x cs g ds rest hk hv hg h ih =>
    intro pre b cm post hd
    have hd : [HashData.element ⟨k₀, v₀⟩] ++ (ps.map .inlineComment ++ (cs.map .comment ++ ds)) = pre ++ hashComment b cm :: post := by simpa using hd
    rcases split_append hd with ⟨post', h1, -⟩ | ⟨pre', rfl, h2⟩
    · have : hashComment b cm ∈ [HashData.element ⟨k₀, v₀⟩] := by rw [h1]; simp
      cases b <;> simp [hashComment] at this
    rcases split_append h2 with ⟨post', h1, rfl⟩ | ⟨pre'', hp, h3⟩
    · obtain ⟨p₁, e, p₂, rfl, rfl, he, rfl⟩ := split_map h1
      cases b with
      | false => simp [hashComment] at he
      | true =>
        simp only [hashComment, HashData.inlineComment.injEq] at he
        subst he
        obtain ⟨A, hx, hr⟩ := item_comment_slot hv rfl
        refine ⟨k₀ ++ pad n ++ ':' :: A, g ++ pad c ++ rest, by simp [hx], fun cm' hc => ?_⟩
        simpa [hashComment] using EntryTexts.more (n := n) hk (hr cm' hc) hg h
    subst hp
    rcases split_append h3 with ⟨post', h1, rfl⟩ | ⟨pre', hp, h4⟩
    · obtain ⟨p₁, e, p₂, rfl, rfl, he, rfl⟩ := split_map h1
      cases b with
      | true => simp [hashComment] at he
      | false =>
        simp only [hashComment, HashData.comment.injEq] at he
        subst he
        obtain ⟨A, B, hx, hr⟩ := gap_slot hg rfl
        refine ⟨k₀ ++ pad n ++ ':' :: x ++ A, B ++ pad c ++ rest, by simp [hx], fun cm' hc => ?_⟩
        simpa [hashComment] using EntryTexts.more (n := n) hk hv (hr cm' hc) h
    · subst hp
      obtain ⟨A, B, hx, hr⟩ := ih h4
      refine ⟨k₀ ++ pad n ++ ':' :: x ++ g ++ pad c ++ A, B, by simp [hx], fun cm' hc => ?_⟩
      simpa using EntryTexts.more (n := n) hk hv hg (hr cm' hc)

theorem elements_comment {P : ValueText} {c next cl ds x} (h : ElementTexts T P c next cl ds x) : ∀ {pre b cm post}, ds = pre ++ arrayComment b cm :: post →
    ∃ A B, x = A ++ '#' :: cm ++ B ∧ ∀ cm', LineText cm' → ElementTexts T P c next cl (pre ++ arrayComment b cm' :: post) (A ++ '#' :: cm' ++ B) := by
  induction h with
  | @last c next cl v₀ ps x hv =>
    intro pre b cm post hd
    have hd : [ArrayData.element v₀] ++ ps.map .inlineComment = pre ++ arrayComment b cm :: post := hd
    rcases split_append hd with ⟨post', h1, -⟩ | ⟨pre', rfl, h2⟩
    · have : arrayComment b cm ∈ [ArrayData.element v₀] := by rw [h1]; simp
      cases b <;> simp [arrayComment] at this
    · obtain ⟨p₁, e, p₂, rfl, rfl, he, rfl⟩ := split_map h2
      cases b with
      | false => simp [arrayComment] at he
      | true =>
        simp only [arrayComment, ArrayData.inlineComment.injEq] at he
        subst he
        obtain ⟨A, hx, hr⟩ := item_comment_slot hv rfl
        refine ⟨'-' :: A, [], by simp [hx], fun cm' hc => ?_⟩
        simpa [arrayComment] using ElementTexts.last (hr cm' hc)
  | @more c next cl cl' v₀ ps x cs g ds rest hv hg h ih =>
    intro pre b cm post hd
    have hd : [ArrayData.element v₀] ++ (ps.map .inlineComment ++ (cs.map .comment ++ ds)) = pre ++ arrayComment b cm :: post := by simpa using hd
    rcases split_append hd with ⟨post', h1, -⟩ | ⟨pre', rfl, h2⟩
    · have : arrayComment b cm ∈ [ArrayData.element v₀] := by rw [h1]; simp
      cases b <;> simp [arrayComment] at this
    rcases split_append h2 with ⟨post', h1, rfl⟩ | ⟨pre'', hp, h3⟩
    · obtain ⟨p₁, e, p₂, rfl, rfl, he, rfl⟩ := split_map h1
      cases b with
      | false => simp [arrayComment] at he
      | true =>
        simp only [arrayComment, ArrayData.inlineComment.injEq] at he
        subst he
        obtain ⟨A, hx, hr⟩ := item_comment_slot hv rfl
        refine ⟨'-' :: A, g ++ pad c ++ rest, by simp [hx], fun cm' hc => ?_⟩
        simpa [arrayComment] using ElementTexts.more (hr cm' hc) hg h
    subst hp
    rcases split_append h3 with ⟨post', h1, rfl⟩ | ⟨pre', hp, h4⟩
    · obtain ⟨p₁, e, p₂, rfl, rfl, he, rfl⟩ := split_map h1
      cases b with
      | true => simp [arrayComment] at he
      | false =>
        simp only [arrayComment, ArrayData.comment.injEq] at he
        subst he
        obtain ⟨A, B, hx, hr⟩ := gap_slot hg rfl
        refine ⟨'-' :: x ++ A, B ++ pad c ++ rest, by simp [hx], fun cm' hc => ?_⟩
        simpa [arrayComment] using ElementTexts.more hv (hr cm' hc) h
    · subst hp
      obtain ⟨A, B, hx, hr⟩ := ih h4
      refine ⟨'-' :: x ++ g ++ pad c ++ A, B, by simp [hx], fun cm' hc => ?_⟩
      simpa using ElementTexts.more hv hg (hr cm' hc)

theorem blockLead_slot {map hold a cs lead} (h : BlockLead T map hold a cs lead) {cs₁ cm cs₂} (hd : cs = cs₁ ++ cm :: cs₂) :
    ∃ A B, lead = A ++ '#' :: cm ++ B ∧ ∀ cm', LineText cm' → BlockLead T map hold a (cs₁ ++ cm' :: cs₂) (A ++ '#' :: cm' ++ B) := by
  cases h with
  | @nextLine _ _ nl b x hn hb h =>
    obtain ⟨A, B, hx, hr⟩ := comments_slot h hd
    exact ⟨nl ++ b ++ A, B, by simp [hx], fun cm' hc => by simpa using BlockLead.nextLine (T := T) (map := map) hn hb (hr cm' hc).1⟩
  | spaces => simp at hd
  | @comment _ _ _ _ l x hl hne h =>
    obtain ⟨A, B, hx, hr⟩ := comments_slot h hd
    exact ⟨l ++ A, B, by simp [hx], fun cm' hc => by simpa using BlockLead.comment (map := map) (hold := hold) hl (by simp) (hr cm' hc).1⟩
  | @named _ a _ n m nl x ha hn hne h =>
    obtain ⟨A, B, hx, hr⟩ := comments_slot h hd
    exact ⟨pad (n + 1) ++ '&' :: a ++ pad m ++ nl ++ A, B, by simp [hx],
      fun cm' hc => by simpa using BlockLead.named (hold := hold) (n := n) (m := m) ha hn (by simp) (hr cm' hc).1⟩

theorem written_hash_comment {t next s hold cl a pre b cm post x} (h : Written T t next s hold cl ⟨a, .hash (pre ++ hashComment b cm :: post)⟩ x) :
    ∃ A B, x = A ++ '#' :: cm ++ B ∧ ∀ cm', LineText cm' → Written T t next s hold cl ⟨a, .hash (pre ++ hashComment b cm' :: post)⟩ (A ++ '#' :: cm' ++ B) := by
  generalize hd : pre ++ hashComment b cm :: post = es at h
  cases h with
  | scalar ha h =>
    cases h with
    | flow _ h => nomatch h
  | @hash _ _ _ c _ _ _ cs lead ds x hs hl h =>
    rcases split_append hd.symm with ⟨post', h1, rfl⟩ | ⟨pre', rfl, h2⟩
    · obtain ⟨p₁, e, p₂, rfl, rfl, he, rfl⟩ := split_map h1
      cases b with
      | true => simp [hashComment] at he
      | false =>
        simp only [hashComment, HashData.comment.injEq] at he
        subst he
        obtain ⟨A, B, hx, hr⟩ := blockLead_slot hl rfl
        refine ⟨A, B ++ pad c ++ x, by simp [hx], fun cm' hc => ?_⟩
        simpa [hashComment] using Written.hash (t := t) hs (hr cm' hc) h
    · obtain ⟨A, B, hx, hr⟩ := entries_comment h h2
      refine ⟨lead ++ pad c ++ A, B, by simp [hx], fun cm' hc => ?_⟩
      simpa using Written.hash (t := t) hs hl (hr cm' hc)
  | @innerOne _ _ _ c _ _ _ lead k₀ n v₀ ps x hs hl hd' hk hv =>
    have hd : [HashData.element ⟨k₀, v₀⟩] ++ ps.map .inlineComment = pre ++ hashComment b cm :: post := by simpa using hd.symm
    rcases split_append hd with ⟨post', h1, -⟩ | ⟨pre', rfl, h2⟩
    · have : hashComment b cm ∈ [HashData.element ⟨k₀, v₀⟩] := by rw [h1]; simp
      cases b <;> simp [hashComment] at this
    · obtain ⟨p₁, e, p₂, rfl, rfl, he, rfl⟩ := split_map h2
      cases b with
      | false => simp [hashComment] at he
      | true =>
        simp only [hashComment, HashData.inlineComment.injEq] at he
        subst he
        obtain ⟨A, hx, hr⟩ := item_comment_slot hv rfl
        refine ⟨lead ++ k₀ ++ pad n ++ ':' :: A, [], by simp [hx], fun cm' hc => ?_⟩
        simpa [hashComment] using Written.innerOne (n := n) hs hl hd' hk (hr cm' hc)
  | @innerMore _ _ _ c _ _ cl' _ lead k₀ n v₀ ps x cs g ds rest hs hl hk hv hg h =>
    have hd : [HashData.element ⟨k₀, v₀⟩] ++ (ps.map .inlineComment ++ (cs.map .comment ++ ds)) = pre ++ hashComment b cm :: post := by simpa using hd.symm
    rcases split_append hd with ⟨post', h1, -⟩ | ⟨pre', rfl, h2⟩
    · have : hashComment b cm ∈ [HashData.element ⟨k₀, v₀⟩] := by rw [h1]; simp
      cases b <;> simp [hashComment] at this
    rcases split_append h2 with ⟨post', h1, rfl⟩ | ⟨pre'', hp, h3⟩
    · obtain ⟨p₁, e, p₂, rfl, rfl, he, rfl⟩ := split_map h1
      cases b with
      | false => simp [hashComment] at he
      | true =>
        simp only [hashComment, HashData.inlineComment.injEq] at he
        subst he
        obtain ⟨A, hx, hr⟩ := item_comment_slot hv rfl
        refine ⟨lead ++ k₀ ++ pad n ++ ':' :: A, g ++ pad c ++ rest, by simp [hx], fun cm' hc => ?_⟩
        simpa [hashComment] using Written.innerMore (t := t) (n := n) hs hl hk (hr cm' hc) hg h
    subst hp
    rcases split_append h3 with ⟨post', h1, rfl⟩ | ⟨pre', hp, h4⟩
    · obtain ⟨p₁, e, p₂, rfl, rfl, he, rfl⟩ := split_map h1
      cases b with
      | true => simp [hashComment] at he
      | false =>
        simp only [hashComment, HashData.comment.injEq] at he
        subst he
        obtain ⟨A, B, hx, hr⟩ := gap_slot hg rfl
        refine ⟨lead ++ k₀ ++ pad n ++ ':' :: x ++ A, B ++ pad c ++ rest, by simp [hx], fun cm' hc => ?_⟩
        simpa [hashComment] using Written.innerMore (t := t) (n := n) hs hl hk hv (hr cm' hc) h
    · subst hp
      obtain ⟨A, B, hx, hr⟩ := entries_comment h h4
      refine ⟨lead ++ k₀ ++ pad n ++ ':' :: x ++ g ++ pad c ++ A, B, by simp [hx], fun cm' hc => ?_⟩
      simpa using Written.innerMore (t := t) (n := n) hs hl hk hv hg (hr cm' hc)

theorem written_array_comment {t next s hold cl a pre b cm post x} (h : Written T t next s hold cl ⟨a, .array (pre ++ arrayComment b cm :: post)⟩ x) :
    ∃ A B, x = A ++ '#' :: cm ++ B ∧ ∀ cm', LineText cm' → Written T t next s hold cl ⟨a, .array (pre ++ arrayComment b cm' :: post)⟩ (A ++ '#' :: cm' ++ B) := by
  generalize hd : pre ++ arrayComment b cm :: post = es at h
  cases h with
  | scalar ha h =>
    cases h with
    | flow _ h => nomatch h
  | @array _ _ _ c _ _ _ cs lead ds x hs hl h =>
    rcases split_append hd.symm with ⟨post', h1, rfl⟩ | ⟨pre', rfl, h2⟩
    · obtain ⟨p₁, e, p₂, rfl, rfl, he, rfl⟩ := split_map h1
      cases b with
      | true => simp [arrayComment] at he
      | false =>
        simp only [arrayComment, ArrayData.comment.injEq] at he
        subst he
        obtain ⟨A, B, hx, hr⟩ := blockLead_slot hl rfl
        refine ⟨A, B ++ pad c ++ x, by simp [hx], fun cm' hc => ?_⟩
        simpa [arrayComment] using Written.array (t := t) hs (hr cm' hc) h
    · obtain ⟨A, B, hx, hr⟩ := elements_comment h h2
      refine ⟨lead ++ pad c ++ A, B, by simp [hx], fun cm' hc => ?_⟩
      simpa using Written.array (t := t) hs hl (hr cm' hc)
  | @innerElement _ _ _ c _ _ _ lead v₀ ps x hs hl hd' hv =>
    have hd : [ArrayData.element v₀] ++ ps.map .inlineComment = pre ++ arrayComment b cm :: post := by simpa using hd.symm
    rcases split_append hd with ⟨post', h1, -⟩ | ⟨pre', rfl, h2⟩
    · have : arrayComment b cm ∈ [ArrayData.element v₀] := by rw [h1]; simp
      cases b <;> simp [arrayComment] at this
    · obtain ⟨p₁, e, p₂, rfl, rfl, he, rfl⟩ := split_map h2
      cases b with
      | false => simp [arrayComment] at he
      | true =>
        simp only [arrayComment, ArrayData.inlineComment.injEq] at he
        subst he
        obtain ⟨A, hx, hr⟩ := item_comment_slot hv rfl
        refine ⟨lead ++ '-' :: A, [], by simp [hx], fun cm' hc => ?_⟩
        simpa [arrayComment] using Written.innerElement (t := t) hs hl hd' (hr cm' hc)
  | @innerElements _ _ _ c _ _ cl' _ lead v₀ ps x g ds rest hs hl hv hg h =>
    have hd : [ArrayData.element v₀] ++ (ps.map .inlineComment ++ ds) = pre ++ arrayComment b cm :: post := by simpa using hd.symm
    rcases split_append hd with ⟨post', h1, -⟩ | ⟨pre', rfl, h2⟩
    · have : arrayComment b cm ∈ [ArrayData.element v₀] := by rw [h1]; simp
      cases b <;> simp [arrayComment] at this
    rcases split_append h2 with ⟨post', h1, rfl⟩ | ⟨pre'', hp, h3⟩
    · obtain ⟨p₁, e, p₂, rfl, rfl, he, rfl⟩ := split_map h1
      cases b with
      | false => simp [arrayComment] at he
      | true =>
        simp only [arrayComment, ArrayData.inlineComment.injEq] at he
        subst he
        obtain ⟨A, hx, hr⟩ := item_comment_slot hv rfl
        refine ⟨lead ++ '-' :: A, g ++ pad c ++ rest, by simp [hx], fun cm' hc => ?_⟩
        simpa [arrayComment] using Written.innerElements (t := t) hs hl (hr cm' hc) hg h
    · subst hp
      obtain ⟨A, B, hx, hr⟩ := elements_comment h h3
      refine ⟨lead ++ '-' :: x ++ g ++ pad c ++ A, B, by simp [hx], fun cm' hc => ?_⟩
      simpa using Written.innerElements (t := t) hs hl hv hg (hr cm' hc)

/-! ## comment lines that are added -/

theorem break_ends {nl} (h : Break nl) : ∃ g, nl = g ++ ['\n'] := by
  rcases h with rfl | rfl
  · exact ⟨[], rfl⟩
  · exact ⟨['\r'], rfl⟩

theorem blanks_ends {b} (h : Blanks b) : b = [] ∨ ∃ g, b = g ++ ['\n'] := by
  induction h with
  | nil => exact .inl rfl
  | @line n nl x hn _ ih =>
    rcases ih with rfl | ⟨g, rfl⟩
    · obtain ⟨g, rfl⟩ := break_ends hn
      exact .inr ⟨pad n ++ g, by simp⟩
    · exact .inr ⟨pad n ++ nl ++ g, by simp⟩

theorem comments_ends {cs x} (h : CommentLines cs x) : x = [] ∨ ∃ g, x = g ++ ['\n'] := by
  induction h with
  | nil => exact .inl rfl
  | @line m c nl b cs x hc hn hb _ ih =>
    rcases ih with rfl | ⟨g, rfl⟩
    · rcases blanks_ends hb with rfl | ⟨g, rfl⟩
      · obtain ⟨g, rfl⟩ := break_ends hn
        exact .inr ⟨pad m ++ '#' :: c ++ g, by simp⟩
      · exact .inr ⟨pad m ++ '#' :: c ++ nl ++ g, by simp⟩
    · exact .inr ⟨pad m ++ '#' :: c ++ nl ++ b ++ g, by simp⟩

theorem gap_ends {cl c cs g} (h : Gap cl c cs g) : ∃ g', g = g' ++ ['\n'] := by
  cases h with
  | @intro n nl b _ x hn hb h hcl ht =>
    rcases comments_ends h with rfl | ⟨g, rfl⟩
    · rcases blanks_ends hb with rfl | ⟨g, rfl⟩
      · obtain ⟨g, rfl⟩ := break_ends hn
        exact ⟨pad n ++ g, by simp⟩
      · exact ⟨pad n ++ nl ++ g, by simp⟩
    · exact ⟨pad n ++ nl ++ b ++ g, by simp⟩

theorem entries_first {P : ValueText} {c next cl ds x} (h : EntryTexts T P c next cl ds x) : ∃ e ds', ds = .element e :: ds' ∧ ∃ B, x = e.key ++ B := by
  cases h with
  | last hk hv => exact ⟨_, _, rfl, _, by simp; rfl⟩
  | more hk hv hg h => exact ⟨_, _, by simp; exact ⟨rfl, rfl⟩, _, by simp; rfl⟩

theorem elements_first {P : ValueText} {c next cl ds x} (h : ElementTexts T P c next cl ds x) : ∃ e ds', ds = .element e :: ds' ∧ ∃ B, x = '-' :: B := by
  cases h with
  | last hv => exact ⟨_, _, rfl, _, rfl⟩
  | more hv hg h => exact ⟨_, _, by simp; exact ⟨rfl, rfl⟩, _, by simp; rfl⟩

/-- A comment line before an entry that is not the first one. -/
theorem entries_add {P : ValueText} {c next cl ds x} (h : EntryTexts T P c next cl ds x) : ∀ {pre k v post}, ds = pre ++ HashData.element ⟨k, v⟩ :: post → pre ≠ [] →
    ∃ A B, x = A ++ '\n' :: (pad c ++ k ++ B) ∧ ∀ m cm nl, m ≤ c → LineText cm → Break nl →
      EntryTexts T P c next cl (pre ++ .comment cm :: .element ⟨k, v⟩ :: post) (A ++ '\n' :: (pad m ++ '#' :: cm ++ nl) ++ (pad c ++ k ++ B)) := by
  induction h with
  | @last c next cl k₀ n v₀ ps x hk hv =>
    intro pre k v post hd hne
    have hd : HashData.element ⟨k₀, v₀⟩ :: (ps.map .inlineComment ++ []) = pre ++ .element ⟨k, v⟩ :: post := by simpa using hd
    rcases split_after (p := fun d => ∃ e, d = .element e) hd (by simp) ⟨_, rfl⟩ with ⟨rfl, he, rfl⟩ | ⟨pre', _, h2⟩
    · exact absurd rfl hne
    · simp at h2
  | @more c next cl cl' k₀ n v₀ ps x cs g ds rest hk hv hg h ih =>
    intro pre k v post hd hne
    have hd : HashData.element ⟨k₀, v₀⟩ :: ((ps.map .inlineComment ++ cs.map .comment) ++ ds) = pre ++ .element ⟨k, v⟩ :: post := by simpa using hd
    rcases split_after (p := fun d => ∃ e, d = .element e) hd (by simp only [List.mem_append, List.mem_map]; rintro c (⟨_, _, rfl⟩ | ⟨_, _, rfl⟩) <;> simp)
      ⟨_, rfl⟩ with ⟨rfl, he, rfl⟩ | ⟨pre', rfl, h2⟩
    · exact absurd rfl hne
    by_cases hp : pre' = []
    · subst hp
      obtain ⟨e, ds', rfl, B, rfl⟩ := entries_first h
      simp only [List.nil_append, List.cons.injEq, HashData.element.injEq] at h2
      obtain ⟨rfl, rfl⟩ := h2
      obtain ⟨g', hg'⟩ := gap_ends hg
      refine ⟨k₀ ++ pad n ++ ':' :: x ++ g', B, by simp [hg'], fun m cm nl hm hc hnl => ?_⟩
      have := EntryTexts.more (n := n) hk hv (gap_add hg hm hc hnl) h
      simpa [hg'] using this
    · obtain ⟨A, B, hx, hr⟩ := ih h2 hp
      refine ⟨k₀ ++ pad n ++ ':' :: x ++ g ++ pad c ++ A, B, by simp [hx], fun m cm nl hm hc hnl => ?_⟩
      have := EntryTexts.more (n := n) hk hv hg (hr m cm nl hm hc hnl)
      simpa using this

/-- A comment line before an element that is not the first one. -/
theorem elements_add {P : ValueText} {c next cl ds x} (h : ElementTexts T P c next cl ds x) : ∀ {pre v post}, ds = pre ++ ArrayData.element v :: post → pre ≠ [] →
    ∃ A B, x = A ++ '\n' :: (pad c ++ '-' :: B) ∧ ∀ m cm nl, m ≤ c → LineText cm → Break nl →
      ElementTexts T P c next cl (pre ++ .comment cm :: .element v :: post) (A ++ '\n' :: (pad m ++ '#' :: cm ++ nl) ++ (pad c ++ '-' :: B)) := by
  induction h with
  | @last c next cl v₀ ps x hv =>
    intro pre v post hd hne
    have hd : ArrayData.element v₀ :: (ps.map .inlineComment ++ []) = pre ++ .element v :: post := by simpa using hd
    rcases split_after (p := fun d => ∃ e, d = .element e) hd (by simp) ⟨_, rfl⟩ with ⟨rfl, he, rfl⟩ | ⟨pre', _, h2⟩
    · exact absurd rfl hne
    · simp at h2
  | @more c next cl cl' v₀ ps x cs g ds rest hv hg h ih =>
    intro pre v post hd hne
    have hd : ArrayData.element v₀ :: ((ps.map .inlineComment ++ cs.map .comment) ++ ds) = pre ++ .element v :: post := by simpa using hd
    rcases split_after (p := fun d => ∃ e, d = .element e) hd (by simp only [List.mem_append, List.mem_map]; rintro c (⟨_, _, rfl⟩ | ⟨_, _, rfl⟩) <;> simp)
      ⟨_, rfl⟩ with ⟨rfl, he, rfl⟩ | ⟨pre', rfl, h2⟩
    · exact absurd rfl hne
    by_cases hp : pre' = []
    · subst hp
      obtain ⟨e, ds', rfl, B, rfl⟩ := elements_first h
      simp only [List.nil_append, List.cons.injEq, ArrayData.element.injEq] at h2
      obtain ⟨rfl, rfl⟩ := h2
      obtain ⟨g', hg'⟩ := gap_ends hg
      refine ⟨'-' :: x ++ g', B, by simp [hg'], fun m cm nl hm hc hnl => ?_⟩
      have := ElementTexts.more hv (gap_add hg hm hc hnl) h
      simpa [hg'] using this
    · obtain ⟨A, B, hx, hr⟩ := ih h2 hp
      refine ⟨'-' :: x ++ g ++ pad c ++ A, B, by simp [hx], fun m cm nl hm hc hnl => ?_⟩
      have := ElementTexts.more hv hg (hr m cm nl hm hc hnl)
      simpa using this

theorem written_hash_add {t next s hold cl a pre k v post x} (h : Written T t next s hold cl ⟨a, .hash (pre ++ .element ⟨k, v⟩ :: post)⟩ x)
    (hne : ∃ e, HashData.element e ∈ pre) :
    ∃ A c B, x = A ++ '\n' :: (pad c ++ k ++ B) ∧ ∀ m cm nl, m ≤ c → LineText cm → Break nl →
      Written T t next s hold cl ⟨a, .hash (pre ++ .comment cm :: .element ⟨k, v⟩ :: post)⟩ (A ++ '\n' :: (pad m ++ '#' :: cm ++ nl) ++ (pad c ++ k ++ B)) := by
  generalize hd : pre ++ HashData.element ⟨k, v⟩ :: post = es at h
  cases h with
  | scalar ha h =>
    cases h with
    | flow _ h => nomatch h
  | @hash _ _ _ c _ _ _ cs lead ds x hs hl h =>
    rcases split_append hd.symm with ⟨post', h1, -⟩ | ⟨pre', rfl, h2⟩
    · have : HashData.element ⟨k, v⟩ ∈ cs.map HashData.comment := by rw [h1]; simp
      simp at this
    · obtain ⟨e, he⟩ := hne
      have hp : pre' ≠ [] := by rintro rfl; simp at he
      obtain ⟨A, B, hx, hr⟩ := entries_add h h2 hp
      refine ⟨lead ++ pad c ++ A, c, B, by simp [hx], fun m cm nl hm hc hnl => ?_⟩
      simpa using Written.hash (t := t) hs hl (hr m cm nl hm hc hnl)
  | @innerOne _ _ _ c _ _ _ lead k₀ n v₀ ps x hs hl hd' hk hv =>
    have hd : HashData.element ⟨k₀, v₀⟩ :: (ps.map .inlineComment ++ []) = pre ++ .element ⟨k, v⟩ :: post := by simpa using hd.symm
    rcases split_after (p := fun d => ∃ e, d = .element e) hd (by simp) ⟨_, rfl⟩ with ⟨rfl, he, rfl⟩ | ⟨pre', _, h2⟩
    · obtain ⟨e, he⟩ := hne; simp at he
    · simp at h2
  | @innerMore _ _ _ c _ _ cl' _ lead k₀ n v₀ ps x cs g ds rest hs hl hk hv hg h =>
    have hd : HashData.element ⟨k₀, v₀⟩ :: ((ps.map .inlineComment ++ cs.map .comment) ++ ds) = pre ++ .element ⟨k, v⟩ :: post := by simpa using hd.symm
    rcases split_after (p := fun d => ∃ e, d = .element e) hd (by simp only [List.mem_append, List.mem_map]; rintro c (⟨_, _, rfl⟩ | ⟨_, _, rfl⟩) <;> simp)
      ⟨_, rfl⟩ with ⟨rfl, he, rfl⟩ | ⟨pre', rfl, h2⟩
    · obtain ⟨e, he⟩ := hne; simp at he
    by_cases hp : pre' = []
    · subst hp
      obtain ⟨e, ds', rfl, B, rfl⟩ := entries_first h
      simp only [List.nil_append, List.cons.injEq, HashData.element.injEq] at h2
      obtain ⟨rfl, rfl⟩ := h2
      obtain ⟨g', hg'⟩ := gap_ends hg
      refine ⟨lead ++ k₀ ++ pad n ++ ':' :: x ++ g', c, B, by simp [hg'], fun m cm nl hm hc hnl => ?_⟩
      have := Written.innerMore (t := t) (n := n) hs hl hk hv (gap_add hg hm hc hnl) h
      simpa [hg'] using this
    · obtain ⟨A, B, hx, hr⟩ := entries_add h h2 hp
      refine ⟨lead ++ k₀ ++ pad n ++ ':' :: x ++ g ++ pad c ++ A, c, B, by simp [hx], fun m cm nl hm hc hnl => ?_⟩
      have := Written.innerMore (t := t) (n := n) hs hl hk hv hg (hr m cm nl hm hc hnl)
      simpa using this

theorem elementCount_comments (cs : List Str) : elementCount (cs.map .comment) = 0 := by
  simp [elementCount, List.filter_map, Function.comp_def]

theorem elementCount_inline (v : AliasedYaml) (ps : List Str) : elementCount (.element v :: ps.map .inlineComment) = 1 := by
  simp [elementCount, List.filter_map, Function.comp_def]

theorem written_array_add {t next s hold cl a pre v post x} (h : Written T t next s hold cl ⟨a, .array (pre ++ .element v :: post)⟩ x)
    (hne : 2 ≤ elementCount pre) :
    ∃ A c B, x = A ++ '\n' :: (pad c ++ '-' :: B) ∧ ∀ m cm nl, m ≤ c → LineText cm → Break nl →
      Written T t next s hold cl ⟨a, .array (pre ++ .comment cm :: .element v :: post)⟩ (A ++ '\n' :: (pad m ++ '#' :: cm ++ nl) ++ (pad c ++ '-' :: B)) := by
  generalize hd : pre ++ ArrayData.element v :: post = es at h
  cases h with
  | scalar ha h =>
    cases h with
    | flow _ h => nomatch h
  | @array _ _ _ c _ _ _ cs lead ds x hs hl h =>
    rcases split_append hd.symm with ⟨post', h1, -⟩ | ⟨pre', rfl, h2⟩
    · have : ArrayData.element v ∈ cs.map ArrayData.comment := by rw [h1]; simp
      simp at this
    · have hp : pre' ≠ [] := by rintro rfl; simp [elementCount_comments] at hne
      obtain ⟨A, B, hx, hr⟩ := elements_add h h2 hp
      refine ⟨lead ++ pad c ++ A, c, B, by simp [hx], fun m cm nl hm hc hnl => ?_⟩
      simpa using Written.array (t := t) hs hl (hr m cm nl hm hc hnl)
  | @innerElement _ _ _ c _ _ _ lead v₀ ps x hs hl hd' hv =>
    have hd : ArrayData.element v₀ :: (ps.map .inlineComment ++ []) = pre ++ .element v :: post := by simpa using hd.symm
    rcases split_after (p := fun d => ∃ e, d = .element e) hd (by simp) ⟨_, rfl⟩ with ⟨rfl, he, rfl⟩ | ⟨pre', _, h2⟩
    · simp [elementCount] at hne
    · simp at h2
  | @innerElements _ _ _ c _ _ cl' _ lead v₀ ps x g ds rest hs hl hv hg h =>
    have hd : ArrayData.element v₀ :: (ps.map .inlineComment ++ ds) = pre ++ .element v :: post := by simpa using hd.symm
    rcases split_after (p := fun d => ∃ e, d = .element e) hd (by simp) ⟨_, rfl⟩ with ⟨rfl, he, rfl⟩ | ⟨pre', rfl, h2⟩
    · simp [elementCount] at hne
    have hp : pre' ≠ [] := by rintro rfl; simp [elementCount_inline] at hne
    obtain ⟨A, B, hx, hr⟩ := elements_add h h2 hp
    refine ⟨lead ++ '-' :: x ++ g ++ pad c ++ A, c, B, by simp [hx], fun m cm nl hm hc hnl => ?_⟩
    have := Written.innerElements (t := t) hs hl hv hg (hr m cm nl hm hc hnl)
    simpa using this

end Lay

end YamlSubset
