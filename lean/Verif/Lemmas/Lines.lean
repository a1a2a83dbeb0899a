import Verif.Spec.Lines
import Verif.Lemmas.CommentPlace

/-! # Splitting the text of a block collection into the lines of its items -/

namespace YamlSubset

open Spec

namespace Lay

variable {T : CharTables}

theorem entries_blocks {c next cl ds x} (h : EntryTexts T (Written T) c next cl ds x) : ∀ {mid post}, ds = mid ++ post → StartsWithEntry post →
    ∃ z y, pad c ++ x = z ++ (pad c ++ y) ∧ EntryBlocks T c mid z ∧ EntryTexts T (Written T) c next cl post y := by
  generalize hP : Written T = P at h
  induction h with
  | @last c next cl k₀ n v₀ ps x hk hv =>
    subst hP
    rintro mid post hd ⟨e, post, rfl⟩
    have hd' : HashData.element ⟨k₀, v₀⟩ :: (ps.map .inlineComment ++ []) = mid ++ .element e :: post := by simpa using hd
    rcases split_after (p := fun d => ∃ e, d = .element e) hd' (by simp) ⟨_, rfl⟩ with ⟨rfl, he, rfl⟩ | ⟨pre', _, h2⟩
    · refine ⟨[], _, rfl, .nil, ?_⟩
      simp only [List.nil_append] at hd
      rw [← hd]
      exact .last hk hv
    · simp at h2
  | @more c next cl cl' k₀ n v₀ ps x cs g ds rest hk hv hg h ih =>
    subst hP
    rintro mid post hd ⟨e, post, rfl⟩
    have hd' : HashData.element ⟨k₀, v₀⟩ :: ((ps.map .inlineComment ++ cs.map .comment) ++ ds) = mid ++ .element e :: post := by simpa using hd
    rcases split_after (p := fun d => ∃ e, d = .element e) hd' (by simp only [List.mem_append, List.mem_map]; rintro c (⟨_, _, rfl⟩ | ⟨_, _, rfl⟩) <;> simp)
      ⟨_, rfl⟩ with ⟨rfl, he, _⟩ | ⟨pre', rfl, h2⟩
    · refine ⟨[], _, rfl, .nil, ?_⟩
      simp only [List.nil_append] at hd
      rw [← hd]
      exact .more hk hv hg h
    · obtain ⟨z, y, hx, hb, he⟩ := ih h2 ⟨e, post, rfl⟩
      refine ⟨pad c ++ k₀ ++ pad n ++ ':' :: x ++ g ++ z, y, by simp [← hx], ?_, he⟩
      have := EntryBlocks.cons (n := n) hk hv hg hb
      simpa using this

theorem blocks_entries {c mid z} (h : EntryBlocks T c mid z) : ∀ {next cl post y}, EntryTexts T (Written T) c next cl post y →
    ∃ x, pad c ++ x = z ++ (pad c ++ y) ∧ EntryTexts T (Written T) c next cl (mid ++ post) x := by
  induction h with
  | nil => intro next cl post y h; exact ⟨y, rfl, h⟩
  | @cons cl' k n v ps x cs g ds rest hk hv hg _ ih =>
    intro next cl post y h
    obtain ⟨x', hx, he⟩ := ih h
    refine ⟨k ++ pad n ++ ':' :: x ++ g ++ pad c ++ x', by simp [hx], ?_⟩
    have := EntryTexts.more (n := n) hk hv hg he
    simpa using this

theorem elements_blocks {c next cl ds x} (h : ElementTexts T (Written T) c next cl ds x) : ∀ {mid post}, ds = mid ++ post → StartsWithElement post →
    ∃ z y, pad c ++ x = z ++ (pad c ++ y) ∧ ElementBlocks T c mid z ∧ ElementTexts T (Written T) c next cl post y := by
  generalize hP : Written T = P at h
  induction h with
  | @last c next cl v₀ ps x hv =>
    subst hP
    rintro mid post hd ⟨e, post, rfl⟩
    have hd' : ArrayData.element v₀ :: (ps.map .inlineComment ++ []) = mid ++ .element e :: post := by simpa using hd
    rcases split_after (p := fun d => ∃ e, d = .element e) hd' (by simp) ⟨_, rfl⟩ with ⟨rfl, he, rfl⟩ | ⟨pre', _, h2⟩
    · refine ⟨[], _, rfl, .nil, ?_⟩
      simp only [List.nil_append] at hd
      rw [← hd]
      exact .last hv
    · simp at h2
  | @more c next cl cl' v₀ ps x cs g ds rest hv hg h ih =>
    subst hP
    rintro mid post hd ⟨e, post, rfl⟩
    have hd' : ArrayData.element v₀ :: ((ps.map .inlineComment ++ cs.map .comment) ++ ds) = mid ++ .element e :: post := by simpa using hd
    rcases split_after (p := fun d => ∃ e, d = .element e) hd' (by simp only [List.mem_append, List.mem_map]; rintro c (⟨_, _, rfl⟩ | ⟨_, _, rfl⟩) <;> simp)
      ⟨_, rfl⟩ with ⟨rfl, he, _⟩ | ⟨pre', rfl, h2⟩
    · refine ⟨[], _, rfl, .nil, ?_⟩
      simp only [List.nil_append] at hd
      rw [← hd]
      exact .more hv hg h
    · obtain ⟨z, y, hx, hb, he⟩ := ih h2 ⟨e, post, rfl⟩
      refine ⟨pad c ++ '-' :: x ++ g ++ z, y, by simp [← hx], ?_, he⟩
      have := ElementBlocks.cons hv hg hb
      simpa using this

theorem blocks_elements {c mid z} (h : ElementBlocks T c mid z) : ∀ {next cl post y}, ElementTexts T (Written T) c next cl post y →
    ∃ x, pad c ++ x = z ++ (pad c ++ y) ∧ ElementTexts T (Written T) c next cl (mid ++ post) x := by
  induction h with
  | nil => intro next cl post y h; exact ⟨y, rfl, h⟩
  | @cons cl' v ps x cs g ds rest hv hg _ ih =>
    intro next cl post y h
    obtain ⟨x', hx, he⟩ := ih h
    refine ⟨'-' :: x ++ g ++ pad c ++ x', by simp [hx], ?_⟩
    have := ElementTexts.more hv hg he
    simpa using this

/-- Some entries of a mapping and their lines, which can be replaced. -/
theorem entries_middle {c next cl ds x pre mid post} (h : EntryTexts T (Written T) c next cl ds x) (hd : ds = pre ++ mid ++ post) (hm : StartsWithEntry (mid ++ post))
    (hp : StartsWithEntry post) :
    ∃ A z B, pad c ++ x = A ++ z ++ (pad c ++ B) ∧ EntryBlocks T c mid z ∧ EntryTexts T (Written T) c next cl post B ∧ ∀ mid' z', EntryBlocks T c mid' z' →
      ∃ x', pad c ++ x' = A ++ z' ++ (pad c ++ B) ∧ EntryTexts T (Written T) c next cl (pre ++ mid' ++ post) x' := by
  obtain ⟨A, y, h1, hA, hy⟩ := entries_blocks h (mid := pre) (post := mid ++ post) (by simp [hd]) hm
  obtain ⟨z, B, h2, hz, hB⟩ := entries_blocks hy rfl hp
  refine ⟨A, z, B, by rw [h1, h2]; simp, hz, hB, fun mid' z' hz' => ?_⟩
  obtain ⟨y', h3, hy'⟩ := blocks_entries hz' hB
  obtain ⟨x', h4, hx'⟩ := blocks_entries hA hy'
  exact ⟨x', by rw [h4, h3]; simp, by simpa using hx'⟩

theorem elements_middle {c next cl ds x pre mid post} (h : ElementTexts T (Written T) c next cl ds x) (hd : ds = pre ++ mid ++ post) (hm : StartsWithElement (mid ++ post))
    (hp : StartsWithElement post) :
    ∃ A z B, pad c ++ x = A ++ z ++ (pad c ++ B) ∧ ElementBlocks T c mid z ∧ ElementTexts T (Written T) c next cl post B ∧ ∀ mid' z', ElementBlocks T c mid' z' →
      ∃ x', pad c ++ x' = A ++ z' ++ (pad c ++ B) ∧ ElementTexts T (Written T) c next cl (pre ++ mid' ++ post) x' := by
  obtain ⟨A, y, h1, hA, hy⟩ := elements_blocks h (mid := pre) (post := mid ++ post) (by simp [hd]) hm
  obtain ⟨z, B, h2, hz, hB⟩ := elements_blocks hy rfl hp
  refine ⟨A, z, B, by rw [h1, h2]; simp, hz, hB, fun mid' z' hz' => ?_⟩
  obtain ⟨y', h3, hy'⟩ := blocks_elements hz' hB
  obtain ⟨x', h4, hx'⟩ := blocks_elements hA hy'
  exact ⟨x', by rw [h4, h3]; simp, by simpa using hx'⟩

theorem written_entries_middle {t next s hold cl a pre mid post x} (h : Written T t next s hold cl ⟨a, .hash (pre ++ mid ++ post)⟩ x)
    (hpre : ∃ e, HashData.element e ∈ pre) (hm : StartsWithEntry (mid ++ post)) (hp : StartsWithEntry post) :
    ∃ A z B c, x = A ++ z ++ (pad c ++ B) ∧ EntryBlocks T c mid z ∧ EntryTexts T (Written T) c next cl post B ∧ ∀ mid' z', EntryBlocks T c mid' z' →
      Written T t next s hold cl ⟨a, .hash (pre ++ mid' ++ post)⟩ (A ++ z' ++ (pad c ++ B)) := by
  obtain ⟨e, ds₀, hm'⟩ := hm
  generalize hd : pre ++ mid ++ post = es at h
  have hd₀ : es = pre ++ .element e :: ds₀ := by rw [← hd, ← hm']; simp
  cases h with
  | scalar ha h =>
    cases h with
    | flow _ h => nomatch h
  | @hash _ _ _ c _ _ _ cs lead ds x hs hl h =>
    rcases split_append hd₀ with ⟨post', h1, -⟩ | ⟨pre', hpre', h2⟩
    · have : HashData.element e ∈ cs.map HashData.comment := by rw [h1]; simp
      simp at this
    · subst hpre'
      rw [← hm'] at h2
      obtain ⟨A, z, B, hx, hz, hB, hr⟩ := entries_middle h (pre := pre') (mid := mid) (post := post) (by simp [h2]) ⟨e, ds₀, hm'⟩ hp
      refine ⟨lead ++ A, z, B, c, by simp [hx], hz, hB, fun mid' z' hz' => ?_⟩
      obtain ⟨x', hx', hr⟩ := hr mid' z' hz'
      have := Written.hash (t := t) hs hl hr
      rw [List.append_assoc _ (pad c) x', hx'] at this
      simpa using this
  | @innerOne _ _ _ c _ _ _ lead k₀ n v₀ ps x hs hl hd' hk hv =>
    have hd : HashData.element ⟨k₀, v₀⟩ :: (ps.map .inlineComment ++ []) = pre ++ .element e :: ds₀ := by simpa using hd₀
    rcases split_after (p := fun d => ∃ e, d = .element e) hd (by simp) ⟨_, rfl⟩ with ⟨rfl, he, rfl⟩ | ⟨pre', _, h2⟩
    · obtain ⟨e, he⟩ := hpre; simp at he
    · simp at h2
  | @innerMore _ _ _ c _ _ cl' _ lead k₀ n v₀ ps x cs g ds rest hs hl hk hv hg h =>
    have hd : HashData.element ⟨k₀, v₀⟩ :: ((ps.map .inlineComment ++ cs.map .comment) ++ ds) = pre ++ .element e :: ds₀ := by simpa using hd₀
    rcases split_after (p := fun d => ∃ e, d = .element e) hd (by simp only [List.mem_append, List.mem_map]; rintro c (⟨_, _, rfl⟩ | ⟨_, _, rfl⟩) <;> simp)
      ⟨_, rfl⟩ with ⟨rfl, he, rfl⟩ | ⟨pre', hpre', h2⟩
    · obtain ⟨e, he⟩ := hpre; simp at he
    subst hpre'
    rw [← hm'] at h2
    obtain ⟨A, z, B, hx, hz, hB, hr⟩ := entries_middle h (pre := pre') (mid := mid) (post := post) (by simp [h2]) ⟨e, ds₀, hm'⟩ hp
    refine ⟨lead ++ k₀ ++ pad n ++ ':' :: x ++ g ++ A, z, B, c, by simp [hx], hz, hB, fun mid' z' hz' => ?_⟩
    obtain ⟨x', hx', hr⟩ := hr mid' z' hz'
    have := Written.innerMore (t := t) (n := n) hs hl hk hv hg hr
    rw [List.append_assoc _ (pad c) x', hx'] at this
    simpa using this

theorem written_elements_middle {t next s hold cl a pre mid post x} (h : Written T t next s hold cl ⟨a, .array (pre ++ mid ++ post)⟩ x)
    (hpre : ∃ e, ArrayData.element e ∈ pre) (hm : StartsWithElement (mid ++ post)) (hp : StartsWithElement post) :
    ∃ A z B c, x = A ++ z ++ (pad c ++ B) ∧ ElementBlocks T c mid z ∧ ElementTexts T (Written T) c next cl post B ∧ ∀ mid' z', ElementBlocks T c mid' z' →
      Written T t next s hold cl ⟨a, .array (pre ++ mid' ++ post)⟩ (A ++ z' ++ (pad c ++ B)) := by
  obtain ⟨e, ds₀, hm'⟩ := hm
  generalize hd : pre ++ mid ++ post = es at h
  have hd₀ : es = pre ++ .element e :: ds₀ := by rw [← hd, ← hm']; simp
  cases h with
  | scalar ha h =>
    cases h with
    | flow _ h => nomatch h
  | @array _ _ _ c _ _ _ cs lead ds x hs hl h =>
    rcases split_append hd₀ with ⟨post', h1, -⟩ | ⟨pre', hpre', h2⟩
    · have : ArrayData.element e ∈ cs.map ArrayData.comment := by rw [h1]; simp
      simp at this
    · subst hpre'
      rw [← hm'] at h2
      obtain ⟨A, z, B, hx, hz, hB, hr⟩ := elements_middle h (pre := pre') (mid := mid) (post := post) (by simp [h2]) ⟨e, ds₀, hm'⟩ hp
      refine ⟨lead ++ A, z, B, c, by simp [hx], hz, hB, fun mid' z' hz' => ?_⟩
      obtain ⟨x', hx', hr⟩ := hr mid' z' hz'
      have := Written.array (t := t) hs hl hr
      rw [List.append_assoc _ (pad c) x', hx'] at this
      simpa using this
  | @innerElement _ _ _ c _ _ _ lead v₀ ps x hs hl hd' hv =>
    have hd : ArrayData.element v₀ :: (ps.map .inlineComment ++ []) = pre ++ .element e :: ds₀ := by simpa using hd₀
    rcases split_after (p := fun d => ∃ e, d = .element e) hd (by simp) ⟨_, rfl⟩ with ⟨rfl, he, rfl⟩ | ⟨pre', _, h2⟩
    · obtain ⟨e, he⟩ := hpre; simp at he
    · simp at h2
  | @innerElements _ _ _ c _ _ cl' _ lead v₀ ps x g ds rest hs hl hv hg h =>
    have hd : ArrayData.element v₀ :: (ps.map .inlineComment ++ ds) = pre ++ .element e :: ds₀ := by simpa using hd₀
    rcases split_after (p := fun d => ∃ e, d = .element e) hd (by simp) ⟨_, rfl⟩ with ⟨rfl, he, rfl⟩ | ⟨pre', hpre', h2⟩
    · obtain ⟨e, he⟩ := hpre; simp at he
    subst hpre'
    rw [← hm'] at h2
    obtain ⟨A, z, B, hx, hz, hB, hr⟩ := elements_middle h (pre := pre') (mid := mid) (post := post) (by simp [h2]) ⟨e, ds₀, hm'⟩ hp
    refine ⟨lead ++ '-' :: x ++ g ++ A, z, B, c, by simp [hx], hz, hB, fun mid' z' hz' => ?_⟩
    obtain ⟨x', hx', hr⟩ := hr mid' z' hz'
    have := Written.innerElements (t := t) hs hl hv hg hr
    rw [List.append_assoc _ (pad c) x', hx'] at this
    simpa using this

/-! ## lists of lines -/

theorem entryBlocks_append {c a x} (h : EntryBlocks T c a x) : ∀ {b y}, EntryBlocks T c b y → EntryBlocks T c (a ++ b) (x ++ y) := by
  induction h with
  | nil => intro b y h; exact h
  | @cons cl k n v ps x cs g ds rest hk hv hg _ ih =>
    intro b y h
    have := EntryBlocks.cons (n := n) hk hv hg (ih h)
    simpa using this

theorem elementBlocks_append {c a x} (h : ElementBlocks T c a x) : ∀ {b y}, ElementBlocks T c b y → ElementBlocks T c (a ++ b) (x ++ y) := by
  induction h with
  | nil => intro b y h; exact h
  | @cons cl v ps x cs g ds rest hv hg _ ih =>
    intro b y h
    have := ElementBlocks.cons hv hg (ih h)
    simpa using this

theorem entryBlocks_split {c ds x} (h : EntryBlocks T c ds x) : ∀ {a b}, ds = a ++ b → StartsWithEntry b →
    ∃ y z, x = y ++ z ∧ EntryBlocks T c a y ∧ EntryBlocks T c b z := by
  induction h with
  | nil => rintro a b h ⟨e, b, rfl⟩; simp at h
  | @cons cl k₀ n v₀ ps x cs g ds rest hk hv hg h ih =>
    rintro a b hd ⟨e, b, rfl⟩
    have hd' : HashData.element ⟨k₀, v₀⟩ :: ((ps.map .inlineComment ++ cs.map .comment) ++ ds) = a ++ .element e :: b := by simpa using hd
    rcases split_after (p := fun d => ∃ e, d = .element e) hd' (by simp only [List.mem_append, List.mem_map]; rintro c (⟨_, _, rfl⟩ | ⟨_, _, rfl⟩) <;> simp)
      ⟨_, rfl⟩ with ⟨rfl, he, _⟩ | ⟨pre', rfl, h2⟩
    · refine ⟨[], _, rfl, .nil, ?_⟩
      simp only [List.nil_append] at hd
      rw [← hd]
      exact .cons hk hv hg h
    · obtain ⟨y, z, hx, hb, he⟩ := ih h2 ⟨e, b, rfl⟩
      refine ⟨pad c ++ k₀ ++ pad n ++ ':' :: x ++ g ++ y, z, by simp [hx], ?_, he⟩
      have := EntryBlocks.cons (n := n) hk hv hg hb
      simpa using this

theorem elementBlocks_split {c ds x} (h : ElementBlocks T c ds x) : ∀ {a b}, ds = a ++ b → StartsWithElement b →
    ∃ y z, x = y ++ z ∧ ElementBlocks T c a y ∧ ElementBlocks T c b z := by
  induction h with
  | nil => rintro a b h ⟨e, b, rfl⟩; simp at h
  | @cons cl v₀ ps x cs g ds rest hv hg h ih =>
    rintro a b hd ⟨e, b, rfl⟩
    have hd' : ArrayData.element v₀ :: ((ps.map .inlineComment ++ cs.map .comment) ++ ds) = a ++ .element e :: b := by simpa using hd
    rcases split_after (p := fun d => ∃ e, d = .element e) hd' (by simp only [List.mem_append, List.mem_map]; rintro c (⟨_, _, rfl⟩ | ⟨_, _, rfl⟩) <;> simp)
      ⟨_, rfl⟩ with ⟨rfl, he, _⟩ | ⟨pre', rfl, h2⟩
    · refine ⟨[], _, rfl, .nil, ?_⟩
      simp only [List.nil_append] at hd
      rw [← hd]
      exact .cons hv hg h
    · obtain ⟨y, z, hx, hb, he⟩ := ih h2 ⟨e, b, rfl⟩
      refine ⟨pad c ++ '-' :: x ++ g ++ y, z, by simp [hx], ?_, he⟩
      have := ElementBlocks.cons hv hg hb
      simpa using this

end Lay

end YamlSubset
