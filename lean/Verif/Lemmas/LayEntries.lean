import Verif.Lemmas.LayFollow

/-! # Reading the items of block collections in any layout -/

namespace YamlSubset.Lay

open Peg Spec

variable {T : CharTables}

/-- A value is read in its place. -/
def VReads (T : CharTables) (t : Option Nat) (next : LineKind) (s : Nat) (hold : Holder) (cl : Closing) (v : AliasedYaml) (x : Str) : Prop :=
  ∀ u k r, u ≤ s → t = some u ∨ t = none → Follow T hold cl (t.getD s) next s r →
    ∃ r', Trim r r' ∧ Reads T (leadExpr hold) (x ++ r) (indent u :: k) [(.block_array_aliased_yaml_value, .aliased v)] r' (indent u :: k)

/-! ## items -/

theorem reads_key_pad {s r : Str} (h : KeyText T s) (n : Nat) (k) :
    Reads T (.rule .hash_key) (s ++ (indent n ++ ':' :: r)) k [(.hash_key, .str s)] (':' :: r) k := by
  cases s with
  | nil => exact absurd rfl h.nonempty
  | cons c s =>
    have hu : ∀ d ∈ s ++ indent n, KeyChar T d := by
      intro d hd
      rcases List.mem_append.1 hd with hd | hd
      · exact h.chars d (by simp [hd])
      · rw [List.eq_of_mem_replicate hd]; exact keyChar_sp
    have := reads_key_run (T := T) (u := s ++ indent n) (v := ':' :: r) (h.first c rfl) hu (by simpa using not_keyChar (T := T) (c := ':') (by decide)) k
    have ht : trimEnd (c :: (s ++ indent n)) = c :: s := by
      have h1 : ∀ m, trimEnd (c :: s ++ indent m) = c :: s := by
        intro m
        induction m with
        | zero => simpa [indent] using trimEnd_of_last h.last
        | succ m ih =>
          have : c :: s ++ indent (m + 1) = (c :: s ++ indent m) ++ [' '] := by simp [indent, List.replicate_succ']
          rw [this]
          simp only [trimEnd] at ih ⊢
          rw [List.reverse_append]
          simpa [List.dropWhile, show isWhitespace ' ' = true by decide] using ih
      exact h1 n
    rw [ht] at this
    simpa using this

theorem reads_hash_element {key x r : Str} {n : Nat} {k : List Str} {v : AliasedYaml} (hk : KeyText T key)
    (h : Reads T (leadExpr .key) x k [(.block_array_aliased_yaml_value, .aliased v)] r k) :
    Reads T (.rule .hash_element) (key ++ (indent n ++ ':' :: x)) k [(.hash_element, .hashElement ⟨key, v⟩)] r k :=
  .rule rfl (.seq (reads_key_pad hk n k) (.seq (.lit ':' _ k) h)) fun _ => rfl

/-- A comment at the end of a line, after spaces that may have been taken off. -/
theorem reads_end_comment {n : Nat} {c r r' : Str} (hc : LineText c) (hr : Eol r) (h : Trim (indent (n + 1) ++ '#' :: (c ++ r)) r') (k) :
    Reads T (.opt (.rule .comment)) r' k [(.comment, .str c)] r k := by
  obtain ⟨m, -, rfl⟩ := h.split (by simp [NotSp]; decide)
  exact .opt (reads_comment hc hr k)

theorem hash_tails (n : Nat) (x : Str) : Tails (indent (n + 1) ++ '#' :: x) := ⟨n + 1, '#' :: x, rfl, .inr ⟨by omega, rfl⟩⟩

theorem item_entry {P : ValueText} {t next s cl v post x} (h : ItemText T P t next s .key cl v post x)
    (hP : ∀ t next s hold cl x, P t next s hold cl v x → VReads T t next s hold cl v x) {key : Str} (hk : KeyText T key) (n : Nat)
    (u : Nat) (k : List Str) (r : Str) (hu : u ≤ s) (ht : t = some u ∨ t = none) (hf : Follow T .key cl (t.getD s) next s r) :
    ∃ l r', EntryKids l (.element ⟨key, v⟩ :: post.map .inlineComment) ∧ Trim r r' ∧
      Reads T entryExpr (key ++ (indent n ++ ':' :: (x ++ r))) (indent u :: k) l r' (indent u :: k) := by
  cases h with
  | value h =>
    obtain ⟨r', htr, hrd⟩ := hP _ _ _ _ _ _ h u k r hu ht hf
    exact ⟨_, r', .inl ⟨_, rfl, rfl⟩, htr, .seq (reads_hash_element hk hrd) ((hf.trim htr).no_comment _)⟩
  | @comment _ _ _ _ a y lead x m c ha h hc =>
    obtain ⟨n0, r1, rfl, he, h0⟩ := hf.line
    have h0 := h0 (by simp)
    subst h0
    obtain ⟨r', hv⟩ := h.value (hash_tails m (c ++ r1)) (indent u :: k)
    have hrd := ha.value (hold := .key) hv
    refine ⟨_, r1, .inr ⟨_, c, rfl, rfl⟩, ⟨0, rfl⟩, ?_⟩
    have := Reads.seq (reads_hash_element (n := n) hk hrd) (reads_end_comment hc he hv.trim _)
    simpa [indent, pad, entryExpr] using this

theorem item_element {P : ValueText} {t next s cl v post x} (h : ItemText T P t next s .dash cl v post x)
    (hP : ∀ t next s hold cl x, P t next s hold cl v x → VReads T t next s hold cl v x)
    (u : Nat) (k : List Str) (r : Str) (hu : u ≤ s) (ht : t = some u ∨ t = none) (hf : Follow T .dash cl (t.getD s) next s r) :
    ∃ l r', ElementKids l (.element v :: post.map .inlineComment) ∧ Trim r r' ∧
      Reads T elementExpr ('-' :: (x ++ r)) (indent u :: k) l r' (indent u :: k) := by
  cases h with
  | value h =>
    obtain ⟨r', htr, hrd⟩ := hP _ _ _ _ _ _ h u k r hu ht hf
    exact ⟨_, r', .inl ⟨_, rfl, rfl⟩, htr, .seq (reads_block_array_element hrd) ((hf.trim htr).no_comment _)⟩
  | @comment _ _ _ _ a y lead x m c ha h hc =>
    obtain ⟨n0, r1, rfl, he, h0⟩ := hf.line
    have h0 := h0 (by simp)
    subst h0
    obtain ⟨r', hv⟩ := h.value (hash_tails m (c ++ r1)) (indent u :: k)
    have hrd := ha.value (hold := .dash) hv
    refine ⟨_, r1, .inr ⟨_, c, rfl, rfl⟩, ⟨0, rfl⟩, ?_⟩
    have := Reads.seq (reads_block_array_element hrd) (reads_end_comment hc he hv.trim _)
    simpa [indent, pad, elementExpr] using this

/-! ## entries of a mapping -/

theorem _root_.YamlSubset.Spec.EntryTexts.head {P : ValueText} {c next cl ds x} (h : EntryTexts T P c next cl ds x) : ∃ ch tl, x = ch :: tl ∧ NameChar T ch := by
  cases h with
  | @last _ _ _ k n v post x hk hv =>
    obtain ⟨ch, tl, he, hc⟩ := hk.notSp (pad n ++ ':' :: x)
    exact ⟨ch, tl, by simpa using he, hc⟩
  | @more _ _ _ cl' k n v post x cs g ds rest hk hv hg h =>
    obtain ⟨ch, tl, he, hc⟩ := hk.notSp (pad n ++ (':' :: x ++ g ++ pad c ++ rest))
    exact ⟨ch, tl, by simpa using he, hc⟩

/-- The entries of a mapping whose indentation the parser has entered. -/
def EntriesAt (T : CharTables) (c : Nat) (k : List Str) (ds : List HashData) (x r : Str) : Prop :=
  ∃ (e1 : List HashData) (more : List (List HashData)) (l : List (Rule × Val)) (rest r' : Str), ds = e1 ++ more.flatten ∧ EntryKids l e1 ∧ Trim r r' ∧
    Reads T entryExpr (x ++ r) (indent c :: k) l rest (indent c :: k) ∧
    Reads T (.star (.rule .hash_element_data)) rest (indent c :: k) (more.map fun d => (.hash_element_data, .hashData d)) r' (indent c :: k)

theorem reads_hash_element_data {c : Nat} {cs : List Str} {x q r0 r : Str} {k : List Str} {l ds}
    (hb : ∀ K, Reads T (.rule .blanknl) r0 K [] q K) (hc : ∀ K, Reads T (.rule .commentnls) q K [(.commentnls, .strs cs)] (indent c ++ x) K)
    (hl : EntryKids l ds) (h : Reads T entryExpr x (indent c :: k) l r (indent c :: k)) :
    Reads T (.rule .hash_element_data) r0 (indent c :: k) [(.hash_element_data, .hashData (cs.map .comment ++ ds))] r (indent c :: k) := by
  have h0 : Reads T ((Rule.hash_element_data).body T) r0 (indent c :: k) ((.commentnls, .strs cs) :: l) r (indent c :: k) :=
    .seq (hb _) (.seq (hc _) (.seq (.peek _ _ k) h))
  rcases hl with ⟨e, rfl, rfl⟩ | ⟨e, c, rfl, rfl⟩ <;> exact .rule rfl h0 fun _ => rfl

theorem _root_.YamlSubset.Spec.EntryTexts.follow {P : ValueText} {c next cl ds x} (h : EntryTexts T P c next cl ds x) {cl' cs g} (hg : Gap cl' c cs g) (r : Str) :
    Follow T .key cl' c (.key c) c (g ++ (indent c ++ (x ++ r))) := by
  obtain ⟨ch, tl, rfl, hch⟩ := h.head
  have hne : ch ≠ '-' := by rintro rfl; exact not_nameChar (by decide) hch
  exact hg.follow (bare_name hch) (fun _ => hne) (by simp) (by simp) fun _ => hne

theorem entries_reads {P : ValueText} {c next cl ds x} (h : EntryTexts T P c next cl ds x)
    (hP : ∀ key v, HashData.element ⟨key, v⟩ ∈ ds → ∀ t next s hold cl x, P t next s hold cl v x → VReads T t next s hold cl v x)
    (k : List Str) (r : Str) (hf : Follow T .key cl c next c r)
    (hstop : ∀ r', Trim r r' → Not T (.rule .hash_element_data) r' (indent c :: k)) : EntriesAt T c k ds x r := by
  induction h with
  | @last c next cl key n v post x hk hv =>
    obtain ⟨l, r', hl, htr, hrd⟩ := item_entry hv (hP key v (by simp)) hk n c k r (Nat.le_refl _) (.inl rfl) hf
    exact ⟨_, [], l, r', r', by simp, hl, htr, by simpa [pad_eq] using hrd, .starNil (hstop r' htr)⟩
  | @more c next cl cl' key n v post x cs g ds rest hk hv hg h ih =>
    obtain ⟨e1, more, l, rest', r', rfl, hl, htr, h1, h2⟩ := ih (fun key v hm => hP key v (by simp at hm ⊢; grind)) hf hstop
    obtain ⟨ch, tl, hx, hch⟩ := h.head
    obtain ⟨l0, r0, hl0, htr0, hrd⟩ := item_entry hv (hP key v (by simp)) hk n c k (g ++ (indent c ++ (rest ++ r))) (Nat.le_refl _) (.inl rfl) (h.follow hg r)
    obtain ⟨q, -, hb, hc, -, -⟩ := hg.skip (T := T) (m := c) (y := rest ++ r) (by rw [hx]; exact bare_name hch) htr0
    refine ⟨_, (cs.map .comment ++ e1) :: more, l0, r0, r', by simp, hl0, htr, by simpa [pad_eq] using hrd, ?_⟩
    exact Reads.star (reads_hash_element_data hb hc hl h1) h2

/-! ## elements of a sequence -/

theorem _root_.YamlSubset.Spec.ElementTexts.head {P : ValueText} {c next cl ds x} (h : ElementTexts T P c next cl ds x) : ∃ tl, x = '-' :: tl := by
  cases h with
  | last hv => exact ⟨_, rfl⟩
  | more hv hg h => exact ⟨_, rfl⟩

/-- The two ways the grammar goes on to the next element. -/
def ElementsStar (T : CharTables) (c : Nat) (k : List Str) (more : List (List ArrayData)) (rest r : Str) : Prop :=
  ∀ q, q = .blank ∨ q = .blanknl → Reads T (.star (.seq (.rule q) (.rule .block_array_data))) rest (indent c :: k)
    (more.map fun d => (.block_array_data, .arrayData d)) r (indent c :: k)

/-- After an element there are spaces and the end of the line. -/
def Spaced (r : Str) : Prop := ∃ n r1, r = indent n ++ r1 ∧ Eol r1

theorem Follow.spaced {hold : Holder} {cl : Closing} {b : Nat} {next : LineKind} {s : Nat} {r : Str} (h : Follow T hold cl b next s r) : Spaced r := by
  obtain ⟨n, r1, h1, h2, -⟩ := h.line
  exact ⟨n, r1, h1, h2⟩

/-- The elements of a sequence whose indentation the parser has entered. -/
def ElementsAt (T : CharTables) (c : Nat) (k : List Str) (ds : List ArrayData) (x r : Str) : Prop :=
  ∃ (e1 : List ArrayData) (more : List (List ArrayData)) (l : List (Rule × Val)) (rest : Str), ds = e1 ++ more.flatten ∧ ElementKids l e1 ∧
    Reads T elementExpr (x ++ r) (indent c :: k) l rest (indent c :: k) ∧ Spaced rest ∧
    ∀ rest', Trim rest rest' → ∃ r', Trim r r' ∧ ElementsStar T c k more rest' r'

theorem reads_block_array_data {c : Nat} {cs : List Str} {x q r0 r : Str} {k : List Str} {l ds} {p : Rule}
    (hb : ∀ K, Reads T (.rule p) r0 K [] q K) (hc : ∀ K, Reads T (.rule .commentnls) q K [(.commentnls, .strs cs)] (indent c ++ x) K)
    (hl : ElementKids l ds) (h : Reads T elementExpr x (indent c :: k) l r (indent c :: k)) :
    Reads T (.seq (.rule p) (.rule .block_array_data)) r0 (indent c :: k) [(.block_array_data, .arrayData (cs.map .comment ++ ds))] r (indent c :: k) := by
  have h0 : Reads T ((Rule.block_array_data).body T) q (indent c :: k) ((.commentnls, .strs cs) :: l) r (indent c :: k) :=
    .seq (hc _) (.seq (.peek _ _ k) h)
  rcases hl with ⟨e, rfl, rfl⟩ | ⟨e, c, rfl, rfl⟩ <;> exact .seq (hb _) (.rule rfl h0 fun _ => rfl)

theorem _root_.YamlSubset.Spec.ElementTexts.follow {P : ValueText} {c next cl ds x} (h : ElementTexts T P c next cl ds x) {cl' cs g} (hg : Gap cl' c cs g) (r : Str) :
    Follow T .dash cl' c .dash c (g ++ (indent c ++ (x ++ r))) := by
  obtain ⟨tl, rfl⟩ := h.head
  exact hg.follow (bare_dash _) (by simp) (fun _ => not_nameChar (by decide)) (by simp) (by simp)

theorem elements_reads {P : ValueText} {c next cl ds x} (h : ElementTexts T P c next cl ds x)
    (hP : ∀ v, ArrayData.element v ∈ ds → ∀ t next s hold cl x, P t next s hold cl v x → VReads T t next s hold cl v x)
    (k : List Str) (r : Str) (hf : Follow T .dash cl c next c r)
    (hstop : ∀ q r', q = .blank ∨ q = .blanknl → Trim r r' → Not T (.seq (.rule q) (.rule .block_array_data)) r' (indent c :: k)) : ElementsAt T c k ds x r := by
  induction h with
  | @last c next cl v post x hv =>
    obtain ⟨l, r', hl, htr, hrd⟩ := item_element hv (hP v (by simp)) c k r (Nat.le_refl _) (.inl rfl) hf
    refine ⟨_, [], l, r', by simp, hl, by simpa using hrd, (hf.trim htr).spaced, fun rest' ht => ⟨rest', htr.trans ht, fun q hq => ?_⟩⟩
    exact .starNil (hstop q rest' hq (htr.trans ht))
  | @more c next cl cl' v post x cs g ds rest hv hg h ih =>
    obtain ⟨e1, more, l, rest', rfl, hl, h1, hsp, h2⟩ := ih (fun v hm => hP v (by simp at hm ⊢; grind)) hf hstop
    obtain ⟨tl, hx⟩ := h.head
    have hfol := h.follow hg r
    obtain ⟨l0, r0, hl0, htr0, hrd⟩ := item_element hv (hP v (by simp)) c k (g ++ (indent c ++ (rest ++ r))) (Nat.le_refl _) (.inl rfl) hfol
    obtain ⟨r', htr, hst⟩ := h2 rest' (.refl _)
    refine ⟨_, (cs.map .comment ++ e1) :: more, l0, r0, by simp, hl0, by simpa [pad_eq] using hrd, (hfol.trim htr0).spaced, fun r1 ht => ⟨r', htr, fun p hp => ?_⟩⟩
    obtain ⟨q, hb, hbn, hc, -, -⟩ := hg.skip (T := T) (m := c) (y := rest ++ r) (by rw [hx]; exact bare_dash _) (htr0.trans ht)
    have hq : ∀ K, Reads T (.rule p) r1 K [] q K := by
      rcases hp with rfl | rfl
      · exact hb
      · exact hbn
    exact Reads.star (reads_block_array_data hq hc hl h1) (hst p hp)

end YamlSubset.Lay
