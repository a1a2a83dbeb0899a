import Verif.Lemmas.ParseShape
import Verif.Spec.BlockScalar
import Verif.Lemmas.Numbers

/-! # Block scalars that make the consumer panic -/

namespace YamlSubset

open Peg Spec

section
variable {R : Type} {g : Grammar R}

/-- Induction on the number of repetitions. -/
theorem Yes.star_ind {a : Expr R} {C : Str → List Str → List (Tree R) → Prop} {r : Str} {k' : List Str}
    (nil : No g a r k' → C r k' [])
    (cons : ∀ s k ts₁ s₁ k₁ ts₂, Yes g a s k ts₁ s₁ k₁ → Yes g (.star a) s₁ k₁ ts₂ r k' → C s₁ k₁ ts₂ → C s k (ts₁ ++ ts₂))
    {s k ts} (h : Yes g (.star a) s k ts r k') : C s k ts := by
  obtain ⟨n, h⟩ := h
  induction n generalizing s k ts with
  | zero => cases h
  | succ n ih =>
    simp only [eval] at h
    cases ha : eval g n a s k with
    | fail =>
      rw [ha] at h
      simp only [Res.ok.injEq] at h
      obtain ⟨rfl, rfl, rfl⟩ := h
      exact nil ⟨n, ha⟩
    | ok ts₁ s₁ k₁ =>
      rw [ha] at h
      simp only at h
      cases hb : eval g n (.star a) s₁ k₁ with
      | ok ts₂ s₂ k₂ =>
        rw [hb] at h
        simp only [Res.ok.injEq] at h
        obtain ⟨rfl, rfl, rfl⟩ := h
        exact cons _ _ _ _ _ _ ⟨n, ha⟩ ⟨n, hb⟩ (ih hb)
      | _ => rw [hb] at h; cases h
    | _ => rw [ha] at h; cases h

end

variable {T : CharTables}

theorem semKids_append (a b : List (Tree Rule)) : semKids (a ++ b) = semKids a ++ semKids b := by
  induction a with
  | nil => rfl
  | cons t a ih => obtain ⟨r, x, cs⟩ := t; simp [semKids, ih]

local notation "Gy" => yamlGrammar T

/-- A text of space separators. -/
def Spaces (t : Str) : Prop := ∀ c ∈ t, isSpaceSeparator c = true

theorem yes_spaces {s k ts r k'} (h : Yes Gy (.star Rule.SP) s k ts r k') : ∃ sp, s = sp ++ r ∧ Spaces sp ∧ ts = [] ∧ k' = k := by
  refine Yes.star_ind (r := r) (k' := k') (C := fun s k ts => ∃ sp, s = sp ++ r ∧ Spaces sp ∧ ts = [] ∧ k' = k) ?_ ?_ h
  · intro _; exact ⟨[], rfl, by simp [Spaces], rfl, rfl⟩
  · rintro s k ts₁ s₁ k₁ ts₂ h1 - ⟨sp, rfl, h2, rfl, rfl⟩
    obtain ⟨c, rfl, h3, rfl, rfl⟩ := yes_cls.1 h1
    exact ⟨c :: sp, rfl, by simpa [Spaces, h3] using h2, rfl, rfl⟩

theorem yes_newline' {s k ts r k'} (h : Yes Gy Rule.NEWLINE s k ts r k') : ∃ nl, s = nl ++ r ∧ Newline nl ∧ ts = [] ∧ k' = k := by
  obtain ⟨h1, rfl, rfl⟩ := yes_newline h
  rcases h1 with rfl | rfl | rfl
  · exact ⟨['\n'], rfl, .inl rfl, rfl, rfl⟩
  · exact ⟨['\r', '\n'], rfl, .inr (.inl rfl), rfl, rfl⟩
  · exact ⟨['\r'], rfl, .inr (.inr rfl), rfl, rfl⟩

theorem noBlank_of_no {s k} (h : No Gy (.seq (.star Rule.SP) Rule.NEWLINE) s k) : ¬ StartsBlank s := by
  rintro ⟨sp, r, rfl, hsp, hr⟩
  have hr' : r ≠ [] ∧ ∀ c t, r = c :: t → isSpaceSeparator c = false := by
    constructor
    · rintro rfl; simp at hr
    · rintro c t rfl
      simp only [List.head?_cons, Option.some.injEq] at hr
      rcases hr with rfl | rfl <;> decide
  rcases no_seq.1 h with h | ⟨ts, s₁, k₁, h1, h2⟩
  · exact absurd h no_star
  · have h3 : s₁ = r := by
      clear h h2
      induction sp generalizing k ts with
      | nil =>
        rcases yes_star.1 h1 with ⟨-, -, rfl, -⟩ | ⟨_, _, _, _, h1, -, -⟩
        · rfl
        · obtain ⟨c, h4, h5, -, -⟩ := yes_cls.1 h1
          rw [hr'.2 c _ h4] at h5
          cases h5
      | cons c sp ih =>
        rcases yes_star.1 h1 with ⟨h1, -, -, -⟩ | ⟨_, _, _, _, h1, h4, -⟩
        · have := no_cls.1 h1 c (sp ++ r) rfl
          rw [hsp c (by simp)] at this
          cases this
        · obtain ⟨d, h5, h6, -, -⟩ := yes_cls.1 h1
          cases h5
          exact ih (fun c hc => hsp c (by simp [hc])) _ h4
    subst h3
    have h4 := no_newline.1 h2
    rcases hr with hr | hr
    · exact h4.1 hr
    · exact h4.2 hr

theorem yes_blank_line {s k ts r k'} (h : Yes Gy (.seq (.star Rule.SP) Rule.NEWLINE) s k ts r k') :
    ts = [] ∧ k' = k ∧ ∃ sp nl, s = (sp ++ nl) ++ r ∧ Spaces sp ∧ Newline nl := by
  obtain ⟨_, s₁, _, _, h1, h2, rfl⟩ := yes_seq.1 h
  obtain ⟨sp, rfl, h3, rfl, rfl⟩ := yes_spaces h1
  obtain ⟨nl, rfl, h4, rfl, rfl⟩ := yes_newline' h2
  exact ⟨rfl, rfl, sp, nl, by simp, h3, h4⟩

theorem yes_blank_lines {s k ts r k'} (h : Yes Gy (.star (.seq (.star Rule.SP) Rule.NEWLINE)) s k ts r k') :
    ts = [] ∧ k' = k ∧ ¬ StartsBlank r ∧ ∃ l : List Str, (∀ x ∈ l, ∃ sp nl, x = sp ++ nl ∧ Spaces sp ∧ Newline nl) ∧ s = l.flatten ++ r := by
  refine Yes.star_ind (r := r) (k' := k') (C := fun s k ts => ts = [] ∧ k' = k ∧ ¬ StartsBlank r ∧
    ∃ l : List Str, (∀ x ∈ l, ∃ sp nl, x = sp ++ nl ∧ Spaces sp ∧ Newline nl) ∧ s = l.flatten ++ r) ?_ ?_ h
  · intro h; exact ⟨rfl, rfl, noBlank_of_no h, [], by simp, rfl⟩
  · rintro s k ts₁ s₁ k₁ ts₂ h1 - ⟨rfl, rfl, h2, l, h3, rfl⟩
    obtain ⟨rfl, rfl, sp, nl, rfl, h4, h5⟩ := yes_blank_line h1
    refine ⟨rfl, rfl, h2, (sp ++ nl) :: l, ?_, by simp⟩
    intro x hx
    rcases List.mem_cons.1 hx with rfl | hx
    · exact ⟨sp, nl, rfl, h4, h5⟩
    · exact h3 x hx

/-- `blanknl` takes all blank lines. -/
theorem yes_blanknl {s k ts r k'} (h : Yes Gy (.rule .blanknl) s k ts r k') :
    ts = [] ∧ k' = k ∧ ¬ StartsBlank r ∧ ∃ bl, s = bl ++ r ∧ BlankLines bl := by
  obtain ⟨us, hbody, rfl⟩ := yes_rule.1 h
  replace h := hbody
  clear hbody
  rcases yes_alt.1 h with h | ⟨hno, h⟩
  · obtain ⟨_, s₁, _, _, h1, h2, rfl⟩ := yes_seq.1 h
    obtain ⟨_, s₂, _, _, h3, h4, rfl⟩ := yes_seq.1 h2
    obtain ⟨_, s₃, _, _, h5, h6, rfl⟩ := yes_seq.1 h4
    obtain ⟨sp, rfl, h7, rfl, rfl⟩ := yes_spaces h1
    obtain ⟨nl, rfl, h8, rfl, rfl⟩ := yes_newline' h3
    obtain ⟨rfl, rfl, sp', nl', rfl, h9, h10⟩ := yes_blank_line h5
    obtain ⟨rfl, rfl, h11, l, h12, rfl⟩ := yes_blank_lines h6
    refine ⟨rfl, rfl, h11, ((sp ++ nl) :: (sp' ++ nl') :: l).flatten, by simp, _, by simp, ?_, rfl⟩
    intro x hx
    simp only [List.mem_cons] at hx
    rcases hx with rfl | rfl | hx
    · exact ⟨sp, nl, rfl, h7, h8⟩
    · exact ⟨sp', nl', rfl, h9, h10⟩
    · exact h12 x hx
  · obtain ⟨_, s₁, _, _, h1, h2, rfl⟩ := yes_seq.1 h
    have hr : ¬ StartsBlank r := by
      rcases no_seq.1 hno with h' | ⟨_, s₁', _, h1', h'⟩
      · exact absurd h' no_star
      · obtain ⟨-, rfl, rfl⟩ := h1.unique h1'
        rcases no_seq.1 h' with h' | ⟨_, s₂', _, h2', h'⟩
        · exact (h2.not_no h').elim
        · obtain ⟨-, rfl, rfl⟩ := h2.unique h2'
          rcases no_seq.1 h' with h' | ⟨_, s₂', _, h2', h'⟩
          · exact noBlank_of_no h'
          · exact absurd h' no_star
    obtain ⟨sp, rfl, h7, rfl, rfl⟩ := yes_spaces h1
    obtain ⟨nl, rfl, h8, rfl, rfl⟩ := yes_newline' h2
    refine ⟨rfl, rfl, hr, sp ++ nl, by simp, [sp ++ nl], by simp, ?_, by simp⟩
    intro x hx
    simp only [List.mem_singleton] at hx
    exact ⟨sp, nl, hx, h7, h8⟩

theorem yes_empty_lines {s k ts r k'} (h : Yes Gy (.rule .block_empty_lines) s k ts r k') :
    ∃ es, s = es ++ r ∧ Newlines es ∧ ts = [.node .block_empty_lines es []] ∧ k' = k := by
  obtain ⟨us, hbody, rfl⟩ := yes_rule.1 h
  replace h := hbody
  clear hbody
  have : ∃ es, s = es ++ r ∧ Newlines es ∧ k' = k := by
    refine Yes.star_ind (r := r) (k' := k') (C := fun s k _ => ∃ es, s = es ++ r ∧ Newlines es ∧ k' = k) ?_ ?_ h
    · intro _; exact ⟨[], rfl, ⟨[], by simp, rfl⟩, rfl⟩
    · rintro s k ts₁ s₁ k₁ ts₂ h1 - ⟨es, rfl, ⟨l, h2, rfl⟩, rfl⟩
      obtain ⟨nl, rfl, h4, rfl, rfl⟩ := yes_newline' h1
      refine ⟨nl ++ l.flatten, by simp, ⟨nl :: l, ?_, by simp⟩, rfl⟩
      intro x hx
      rcases List.mem_cons.1 hx with rfl | hx
      · exact h4
      · exact h2 x hx
  obtain ⟨es, rfl, h1, rfl⟩ := this
  refine ⟨es, rfl, h1, ?_, rfl⟩
  show [Tree.node _ (consumed (es ++ r) r) []] = _
  rw [consumed_append]

theorem yes_block_string {s k ts r k'} (h : Yes Gy (.rule .block_string) s k ts r k') :
    ∃ x, s = x ++ r ∧ LineText x ∧ ts = [.node .block_string x []] ∧ k' = k ∧ AtLineEnd r := by
  obtain ⟨us, hbody, rfl⟩ := yes_rule.1 h
  replace h := hbody
  clear hbody
  refine ⟨consumed s r, h.consumed_append, text_block_string h, rfl, ?_⟩
  have hend : ∀ {r k}, No Gy (.seq (.not Rule.NEWLINE) Rule.ANY) r k → AtLineEnd r := by
    intro r k h
    rcases no_seq.1 h with h | ⟨_, _, _, h1, h2⟩
    · obtain ⟨_, _, _, h⟩ := no_not.1 h
      obtain ⟨h, -, -⟩ := yes_newline h
      rcases h with rfl | rfl | rfl
      · exact .inr (.inl rfl)
      · exact .inr (.inr rfl)
      · exact .inr (.inr rfl)
    · obtain ⟨-, -, h3, -⟩ := yes_not.1 h1
      rw [h3] at h2
      cases r with
      | nil => exact .inl rfl
      | cons c r => exact absurd (no_cls.1 h2 c r rfl) (by simp)
  rcases yes_alt.1 h with h | ⟨hno, h⟩
  · obtain ⟨_, s₁, _, _, h1, h2, rfl⟩ := yes_seq.1 h
    obtain ⟨-, -, -, rfl⟩ := yes_not_any.1 h1
    refine Yes.star_ind (r := r) (k' := k') (C := fun _ k _ => k' = k ∧ AtLineEnd r) (fun h => ⟨rfl, hend h⟩) ?_ h2
    rintro s k ts₁ s₁ k₁ ts₂ h1 - ⟨rfl, hr⟩
    obtain ⟨-, -, -, rfl⟩ := yes_not_any.1 h1
    exact ⟨rfl, hr⟩
  · obtain ⟨-, rfl, rfl⟩ := yes_str.1 h
    refine ⟨rfl, ?_⟩
    rcases no_seq.1 hno with h | ⟨_, _, _, -, h⟩
    · exact hend h
    · exact absurd h no_star

theorem yes_scalar_line {s k ts r k'} (h : Yes Gy (.rule .string_multiline_content_part) s k ts r k') :
    ∃ t u l nl es x, k = t :: u :: l ∧ k' = k ∧ s = nl ++ (es ++ ((u ++ t) ++ (x ++ r))) ∧ Newline nl ∧ Newlines es ∧ LineText x ∧ AtLineEnd r ∧
      ∃ txt, ts = [.node .string_multiline_content_part txt [.node .block_empty_lines es [], .node .block_string x []]] := by
  obtain ⟨us, hbody, rfl⟩ := yes_rule.1 h
  replace h := hbody
  clear hbody
  obtain ⟨_, s₁, _, _, h1, h2, rfl⟩ := yes_seq.1 h
  obtain ⟨_, s₂, _, _, h3, h4, rfl⟩ := yes_seq.1 h2
  obtain ⟨_, s₃, _, _, h5, h6, rfl⟩ := yes_seq.1 h4
  obtain ⟨nl, rfl, h7, rfl, rfl⟩ := yes_newline' h1
  obtain ⟨es, rfl, h8, rfl, rfl⟩ := yes_empty_lines h3
  obtain ⟨t, u, l, rfl, rfl, rfl, rfl⟩ := yes_peek2.1 h5
  obtain ⟨x, rfl, h9, rfl, rfl, h10⟩ := yes_block_string h6
  exact ⟨t, u, l, nl, es, x, rfl, rfl, by simp, h7, h8, h9, h10, _, rfl⟩

/-- The lines of a block scalar after the first. -/
theorem yes_scalar_lines {t u : Str} {l : List Str} {s ts r k'} {last : Rule × Out Val} {tl : List Str}
    (hlast : last = (.string_multiline_trailing, .ok (.strs tl)))
    (h : Yes Gy (.star (.rule .string_multiline_content_part)) s (t :: u :: l) ts r k') :
    k' = t :: u :: l ∧ (AtLineEnd s → AtLineEnd r) ∧ ∃ ls' t' pss, s = t' ++ r ∧
      (∀ ls text, ScalarLines (u ++ t) ls text → ScalarLines (u ++ t) (ls ++ ls') (text ++ t')) ∧
      manyThen .string_multiline_content_part Val.asStrs .string_multiline_trailing Val.asStrs (semKids ts ++ [last]) = .ok (pss, tl) ∧
      ∀ y ∈ pss.flatten, y = [] ∨ y ∈ ls' := by
  refine Yes.star_ind (r := r) (k' := k') (C := fun s k ts => k = t :: u :: l → k' = t :: u :: l ∧ (AtLineEnd s → AtLineEnd r) ∧ ∃ ls' t' pss, s = t' ++ r ∧
      (∀ ls text, ScalarLines (u ++ t) ls text → ScalarLines (u ++ t) (ls ++ ls') (text ++ t')) ∧
      manyThen .string_multiline_content_part Val.asStrs .string_multiline_trailing Val.asStrs (semKids ts ++ [last]) = .ok (pss, tl) ∧
      ∀ y ∈ pss.flatten, y = [] ∨ y ∈ ls') ?_ ?_ h rfl
  · rintro - rfl
    refine ⟨rfl, id, [], [], [], rfl, by simp, ?_, by simp⟩
    subst hlast
    rfl
  · rintro s k ts₁ s₁ k₁ ts₂ h1 - ih rfl
    obtain ⟨t₁, u₁, l₁, nl, es, x, hk, rfl, rfl, hn, he, hx, hend, txt, rfl⟩ := yes_scalar_line h1
    cases hk
    obtain ⟨rfl, h0, ls', t', pss, rfl, h2, h3, h4⟩ := ih rfl
    refine ⟨rfl, fun _ => h0 hend, x :: ls', nl ++ (es ++ (u ++ t ++ (x ++ t'))), (List.replicate (byteLen es) [] ++ [x]) :: pss, by simp, ?_, ?_, ?_⟩
    · intro ls text hls
      have := h2 _ _ (ScalarLines.more hls hn he hx)
      simpa using this
    · have : semKids ([Tree.node Rule.string_multiline_content_part txt [.node .block_empty_lines es [], .node .block_string x []]] ++ ts₂) =
        (.string_multiline_content_part, .ok (.strs (List.replicate (byteLen es) [] ++ [x]))) :: semKids ts₂ := rfl
      rw [this, List.cons_append, manyThen, if_neg (by simp), if_pos rfl]
      simp only [Out.bind, Val.asStrs]
      rw [h3]
    · intro y hy
      simp only [List.flatten_cons, List.mem_append, List.mem_replicate, List.mem_singleton] at hy
      rcases hy with (⟨-, rfl⟩ | rfl) | hy
      · exact .inl rfl
      · exact .inr (by simp)
      · rcases h4 y hy with h | h
        · exact .inl h
        · exact .inr (by simp [h])

/-- The lines of a block scalar. -/
theorem yes_content {p : Str} {l : List Str} {s ts r k'} (h : Yes Gy (.rule .string_multiline_content) s (p :: l) ts r k') :
    ∃ bl ls text post x cs txt us, s = bl ++ (text ++ post) ∧ BlankLines bl ∧ ¬ StartsBlank (text ++ post) ∧ AtLineEnd post ∧ ScalarLines (p ++ [' ']) ls text ∧
      ts = [.node .string_multiline_content txt us] ∧ sem (.node .string_multiline_content txt us) = .ok (.strs (x :: cs)) ∧
      ls.headD [] = x ∧ ∀ y ∈ x :: cs, y = [] ∨ y ∈ ls := by
  obtain ⟨us, hbody, rfl⟩ := yes_rule.1 h
  replace h := hbody
  clear hbody
  obtain ⟨_, s₁, _, _, h1, h2, rfl⟩ := yes_seq.1 h
  obtain ⟨_, s₂, _, _, h3, h4, rfl⟩ := yes_seq.1 h2
  obtain ⟨_, s₃, _, _, h5, h6, rfl⟩ := yes_seq.1 h4
  obtain ⟨tsp, s₄, _, _, h7, h8, rfl⟩ := yes_seq.1 h6
  obtain ⟨_, s₅, _, _, h9, h10, rfl⟩ := yes_seq.1 h8
  obtain ⟨rfl, rfl, hnb, bl, rfl, hbl⟩ := yes_blanknl h1
  obtain ⟨es, rfl, hes, rfl, rfl⟩ := yes_empty_lines h3
  have he : es = [] := by
    obtain ⟨l, hl, rfl⟩ := hes
    cases l with
    | nil => rfl
    | cons a l =>
      exfalso
      refine hnb ⟨[], _, rfl, by simp, ?_⟩
      rcases hl a (by simp) with rfl | rfl | rfl <;> simp
  subst he
  obtain ⟨_, s₆, _, _, h11, h12, rfl⟩ := yes_seq.1 h5
  obtain ⟨_, s₇, _, _, h13, h14, rfl⟩ := yes_seq.1 h12
  obtain ⟨t, l', hk, rfl, rfl, rfl⟩ := yes_peek.1 h11
  cases hk
  obtain ⟨k₁, h15, rfl⟩ := yes_push.1 h13
  obtain ⟨rfl, rfl, rfl⟩ := yes_str.1 h15
  obtain ⟨x, rfl, hx, rfl, rfl, hend⟩ := yes_block_string h14
  rw [consumed_append] at h7
  obtain ⟨us₁, h16, rfl⟩ := yes_rule.1 h9
  obtain ⟨rfl, hend', ls', t', pss, rfl, h17, h18, h19⟩ := yes_scalar_lines (tl := List.replicate ((consumed s₄ s₅).count '\n') [])
    (last := (.string_multiline_trailing, .ok (.strs (List.replicate ((consumed s₄ s₅).count '\n') [])))) rfl h7
  obtain ⟨-, rfl, rfl⟩ := yes_drop.1 h10
  refine ⟨bl, [x] ++ ls', p ++ [' '] ++ x ++ t', s₄, x, pss.flatten ++ List.replicate ((consumed s₄ r).count '\n') [], _, _, ?_, hbl, ?_, hend' hend, ?_, rfl, ?_, rfl, ?_⟩
  rotate_left
  · simpa using hnb
  · exact h17 _ _ (ScalarLines.first hx)
  · show Consume.stringMultilineContent ((.block_empty_lines, .ok (.strs [])) :: (.block_string, .ok (.str x)) ::
      semKids (tsp ++ [.node .string_multiline_trailing (consumed s₄ r) []])) = _
    rw [semKids_append]
    simp only [Consume.stringMultilineContent, Out.bind, Val.asStrs, Val.asStr]
    rw [show semKids [Tree.node Rule.string_multiline_trailing (consumed s₄ r) []] = [(.string_multiline_trailing,
      .ok (.strs (List.replicate ((consumed s₄ r).count '\n') [])))] from rfl, h18]
    simp
  · intro y hy
    simp only [List.mem_cons, List.mem_append, List.mem_replicate] at hy
    rcases hy with rfl | hy | ⟨-, rfl⟩
    · exact .inr (by simp)
    · rcases h19 y hy with h | h
      · exact .inl h
      · exact .inr (by simp [h])
    · exact .inl rfl
  · simp

theorem byteLen_eq (s : Str) : byteLen s = utf8Length s := by
  induction s with
  | nil => rfl
  | cons c s ih => simp [byteLen, utf8Length, ih]

theorem sliceFrom_none {n : Nat} {x : Str} (h : sliceFrom n x = none) (u v : Str) (hx : x = u ++ v) : utf8Length u ≠ n := by
  induction x generalizing n u with
  | nil =>
    cases n with
    | zero => cases h
    | succ n =>
      obtain ⟨rfl, -⟩ := List.append_eq_nil_iff.1 hx.symm
      simp [utf8Length]
  | cons c t ih =>
    cases n with
    | zero => cases h
    | succ n =>
      cases u with
      | nil => simp [utf8Length]
      | cons d u =>
        simp only [List.cons_append, List.cons.injEq] at hx
        obtain ⟨rfl, rfl⟩ := hx
        have hu : utf8Length (c :: u) = c.utf8Size + utf8Length u := by simp [utf8Length]
        simp only [sliceFrom] at h
        split at h
        · have := ih h u rfl
          omega
        · omega

theorem all_panic {n : Nat} {ls : List Str}
    (h : Out.all (ls.map fun x => if x.isEmpty then .ok x else Out.unwrapOpt (sliceFrom n x)) = .panic) : ∃ x ∈ ls, CannotCut n x := by
  induction ls with
  | nil => cases h
  | cons x ls ih =>
    simp only [List.map_cons, Out.all] at h
    by_cases hx : x = []
    · subst hx
      simp only [List.isEmpty_nil, if_true, Out.bind] at h
      split at h
      all_goals first | cases h | skip
      obtain ⟨y, hy, h⟩ := ih (by assumption)
      exact ⟨y, by simp [hy], h⟩
    · cases hs : sliceFrom n x with
      | none => exact ⟨x, by simp, hx, sliceFrom_none hs⟩
      | some y =>
        have hx' : x.isEmpty = false := by simpa using hx
        rw [hs, hx'] at h
        simp only [Bool.false_eq_true, if_false, Out.unwrapOpt, Out.bind] at h
        split at h
        all_goals first | cases h | skip
        obtain ⟨y, hy, h⟩ := ih (by assumption)
        exact ⟨y, by simp [hy], h⟩

theorem takeWhile_line {x : Str} (h : LineText x) :
    x.takeWhile (fun ch => isWhitespace ch && ch != '\n') = x.takeWhile isWhitespace := by
  induction x with
  | nil => rfl
  | cons c x ih =>
    have hc : (c != '\n') = true := by
      simp only [bne_iff_ne, ne_eq]
      rintro rfl
      exact h.1 (by simp)
    have := ih ⟨fun hm => h.1 (by simp [hm]), fun hm => h.2 (by simp [hm])⟩
    simp [List.takeWhile_cons, hc, this]

theorem indent_ok {ind : Str} (hb : ¬ BadIndicator ind) : ∃ v, Consume.stringMultilineIndent ind = .ok (.optNat v) ∧
    ((ind = [] ∧ v = none) ∨ (ind ≠ [] ∧ v = some (decimalValue ind - 1))) := by
  by_cases hn : ind = []
  · subst hn; exact ⟨none, rfl, .inl ⟨rfl, rfl⟩⟩
  · simp only [BadIndicator, hn, ne_eq, not_false_eq_true, true_and, not_or, not_exists, not_and] at hb
    obtain ⟨h1, h2, h3⟩ := hb
    have hd : ind.all isDigit = true := by
      simp only [List.all_eq_true, isDigit, Bool.and_eq_true, decide_eq_true_eq]
      intro x hx
      have := h1 x hx
      omega
    have hp := parseU64_digits hn hd
    have hv : digitsValue ind = decimalValue ind := rfl
    rw [hv, if_pos (by omega)] at hp
    have he : ind.isEmpty = false := by simpa using hn
    unfold Consume.stringMultilineIndent
    rw [hp, he]
    cases hdv : decimalValue ind with
    | zero => exact absurd hdv h2
    | succ n => exact ⟨some n, rfl, .inr ⟨hn, by simp⟩⟩

theorem scalarLines_line {p : Str} {ls : List Str} {text : Str} (h : ScalarLines p ls text) : ∀ x ∈ ls, LineText x := by
  induction h with
  | first hx => intro x h; simp only [List.mem_singleton] at h; exact h ▸ hx
  | more h _ _ hx ih =>
    intro y hy
    rcases List.mem_append.1 hy with hy | hy
    · exact ih y hy
    · simp only [List.mem_singleton] at hy; exact hy ▸ hx

theorem clean_panic {ind : Str} {v : Option Nat} {x : Str} {cs ls : List Str} (hl : ∀ x ∈ ls, LineText x)
    (hv : (ind = [] ∧ v = none) ∨ (ind ≠ [] ∧ v = some (decimalValue ind - 1))) (hx : ls.headD [] = x)
    (hcs : ∀ y ∈ x :: cs, y = [] ∨ y ∈ ls) (h : cleanMultilineStrings v (x :: cs) = .panic) :
    ∃ y ∈ ls, CannotCut (bytesCut ind ls) y := by
  have key : Out.all ((x :: cs).map fun x => if x.isEmpty then .ok x else Out.unwrapOpt (sliceFrom (bytesCut ind ls) x)) = .panic := by
    rcases hv with ⟨rfl, rfl⟩ | ⟨h1, rfl⟩
    · have hxl : LineText x := by
        cases ls with
        | nil => subst hx; simp [LineText]
        | cons a l => subst hx; exact hl _ (by simp)
      have hb : bytesCut [] ls = countWhitespaceBytesAtStart x := by
        rw [bytesCut, if_pos rfl, hx, countWhitespaceBytesAtStart, takeWhile_line hxl, byteLen_eq]
      rw [hb]
      exact h
    · rw [bytesCut, if_neg h1]
      exact h
  obtain ⟨y, hy, hc⟩ := all_panic key
  rcases hcs y hy with rfl | h
  · exact absurd rfl hc.1
  · exact ⟨y, h, hc⟩

theorem yes_numbers {s k ts r k'} (h : Yes Gy (.star (.cls T.number)) s k ts r k') :
    ∃ ind, s = ind ++ r ∧ (∀ d ∈ ind, T.number d = true) ∧ ts = [] ∧ k' = k := by
  refine Yes.star_ind (r := r) (k' := k') (C := fun s k ts => ∃ ind, s = ind ++ r ∧ (∀ d ∈ ind, T.number d = true) ∧ ts = [] ∧ k' = k) ?_ ?_ h
  · intro _; exact ⟨[], rfl, by simp, rfl, rfl⟩
  · rintro s k ts₁ s₁ k₁ ts₂ h1 - ⟨sp, rfl, h2, rfl, rfl⟩
    obtain ⟨c, rfl, h3, rfl, rfl⟩ := yes_cls.1 h1
    exact ⟨c :: sp, rfl, by simpa [h3] using h2, rfl, rfl⟩

theorem yes_indent {s k ts r k'} (h : Yes Gy (.rule .string_multiline_indent) s k ts r k') :
    ∃ ind, s = ind ++ r ∧ (∀ d ∈ ind, T.number d = true) ∧ ts = [.node .string_multiline_indent ind []] ∧ k' = k ∧ ∀ d, r.head? = some d → T.number d = false := by
  obtain ⟨us, hbody, rfl⟩ := yes_rule.1 h
  have h1 : ∃ ind, s = ind ++ r ∧ (∀ d ∈ ind, T.number d = true) ∧ us = [] ∧ k' = k ∧ ∀ d, r.head? = some d → T.number d = false := by
    refine Yes.star_ind (r := r) (k' := k') (C := fun s k ts => ∃ ind, s = ind ++ r ∧ (∀ d ∈ ind, T.number d = true) ∧ ts = [] ∧ k' = k ∧
      ∀ d, r.head? = some d → T.number d = false) ?_ ?_ hbody
    · intro h
      refine ⟨[], rfl, by simp, rfl, rfl, ?_⟩
      intro d hd
      rcases no_seq.1 h with h | ⟨_, _, _, -, h⟩
      · cases r with
        | nil => cases hd
        | cons c r => cases hd; exact no_cls.1 h _ _ rfl
      · exact absurd h no_star
    · rintro s k ts₁ s₁ k₁ ts₂ h1 - ⟨sp, rfl, h2, rfl, rfl, hmax⟩
      obtain ⟨_, s₂, _, _, h3, h4, rfl⟩ := yes_seq.1 h1
      obtain ⟨c, rfl, h5, rfl, rfl⟩ := yes_cls.1 h3
      obtain ⟨ind, rfl, h6, rfl, rfl⟩ := yes_numbers h4
      refine ⟨c :: (ind ++ sp), by simp, ?_, rfl, rfl, hmax⟩
      intro d hd
      simp only [List.mem_cons, List.mem_append] at hd
      rcases hd with rfl | hd | hd
      · exact h5
      · exact h6 d hd
      · exact h2 d hd
  obtain ⟨ind, rfl, h2, rfl, rfl, hmax⟩ := h1
  refine ⟨ind, rfl, h2, ?_, rfl, hmax⟩
  show [Tree.node _ (consumed (ind ++ r) r) []] = _
  rw [consumed_append]

theorem multiline_panic {c : Char} (hc : c = '|' ∨ c = '>') {mk : List Str → BlockChomping → Yaml} {p : Str} {l : List Str} {s us r k'}
    (hp : Spaces p) (h : Yes Gy (.seqs [.str [c], .opt (.rule .string_block_chomping), .rule .string_multiline_indent,
      .rule .string_multiline_content]) s (p :: l) us r k')
    (hpanic : Consume.stringMultiline mk (semKids us) = .panic) (pre : Str) : BadBlockScalar T (pre ++ s) := by
  obtain ⟨_, s₁, _, _, h1, h2, rfl⟩ := yes_seq.1 h
  obtain ⟨w, s₂, k₂, _, h3, h4, rfl⟩ := yes_seq.1 h2
  obtain ⟨_, s₃, _, _, h5, h6, rfl⟩ := yes_seq.1 h4
  obtain ⟨rfl, rfl, rfl⟩ := yes_str.1 h1
  have hchomp : ∃ chomp tc, s₁ = chomp ++ s₂ ∧ (chomp = [] ∨ chomp = ['-'] ∨ chomp = ['+']) ∧ w = tc ∧ k₂ = p :: l ∧
      (tc = [] ∨ ∃ ch, semKids tc = [(.string_block_chomping, .ok (.chomping ch))]) := by
    rcases yes_opt.1 h3 with h3 | ⟨-, rfl, rfl, rfl⟩
    · obtain ⟨_, hb, rfl⟩ := yes_rule.1 h3
      rcases yes_alt.1 hb with hb | ⟨-, hb⟩
      · obtain ⟨rfl, rfl, rfl⟩ := yes_str.1 hb
        refine ⟨['-'], _, rfl, .inr (.inl rfl), rfl, rfl, .inr ⟨.strip, ?_⟩⟩
        show [(_, Consume.stringBlockChomping (consumed (['-'] ++ s₂) s₂))] = _
        rw [consumed_append]; rfl
      · obtain ⟨rfl, rfl, rfl⟩ := yes_str.1 hb
        refine ⟨['+'], _, rfl, .inr (.inr rfl), rfl, rfl, .inr ⟨.keep, ?_⟩⟩
        show [(_, Consume.stringBlockChomping (consumed (['+'] ++ s₂) s₂))] = _
        rw [consumed_append]; rfl
    · exact ⟨[], [], rfl, .inl rfl, rfl, rfl, .inl rfl⟩
  obtain ⟨chomp, tc, rfl, hchomp, rfl, rfl, htc⟩ := hchomp
  obtain ⟨ind, rfl, hind, rfl, rfl, hmax⟩ := yes_indent h5
  obtain ⟨bl, ls, text, post, x, cs, txt, us, rfl, hbl, hnb, hend, hls, rfl, hsem, hhd, hcs⟩ := yes_content h6
  refine ⟨pre, c, chomp, ind, bl ++ (text ++ post), by simp, hc, hchomp, hind, hmax, ?_⟩
  by_cases hb : BadIndicator ind
  · exact .inl hb
  · refine .inr ⟨bl, p ++ [' '], ls, text, post, rfl, hbl, hnb, hend, ⟨by simp, ?_⟩, hls, ?_⟩
    · intro d hd
      rcases List.mem_append.1 hd with hd | hd
      · exact hp d hd
      · simp only [List.mem_singleton] at hd; subst hd; decide
    · obtain ⟨v, hv, hvs⟩ := indent_ok hb
      refine clean_panic (scalarLines_line hls) hvs hhd hcs ?_
      have hk : semKids ([] ++ (w ++ ([.node .string_multiline_indent ind []] ++ [.node .string_multiline_content txt us]))) =
          semKids w ++ [(.string_multiline_indent, .ok (.optNat v)), (.string_multiline_content, .ok (.strs (x :: cs)))] := by
        rw [List.nil_append, semKids_append, semKids_append]
        show semKids w ++ [(_, Consume.stringMultilineIndent ind), (_, sem (.node .string_multiline_content txt us))] = _
        rw [hsem, hv]
      rw [hk] at hpanic
      rcases htc with rfl | ⟨ch, hch⟩
      · simp only [semKids, List.nil_append, Consume.stringMultiline, Out.bind, Val.asOptNat, Val.asStrs] at hpanic
        split at hpanic
        all_goals first | assumption | cases hpanic
      · rw [hch] at hpanic
        simp only [List.cons_append, List.nil_append, Consume.stringMultiline, Out.bind, Val.asOptNat, Val.asStrs, Val.asChomping] at hpanic
        split at hpanic
        all_goals first | assumption | cases hpanic

end YamlSubset
