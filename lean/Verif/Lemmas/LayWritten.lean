import Verif.Lemmas.LayBlock
import Verif.Lemmas.Induct

/-! # Reading values in any layout -/

namespace YamlSubset.Lay

open Peg Spec

variable {T : CharTables}

theorem getD_le {t : Option Nat} {u s : Nat} (hu : u ≤ s) (ht : t = some u ∨ t = none) : t.getD s ≤ s := by
  rcases ht with rfl | rfl <;> simp [hu]

theorem scalar_reads {t next s hold a y lead x} (ha : Lead T a lead) (h : ScalarText T y x) : VReads T t next s hold .loose ⟨a, y⟩ (lead ++ x) := by
  intro u k r hu ht hf
  obtain ⟨r', hv⟩ := h.value hf.tails (indent u :: k)
  exact ⟨r', hv.trim, ha.value hv⟩

theorem literal_reads {t next s hold cl a ls c lead x} (ha : Lead T a lead) (h : BlockScalarText t cl ls c x) :
    VReads T (some t) next s hold cl ⟨a, .literalString ls c⟩ (lead ++ '|' :: x) := by
  intro u k r hu ht hf
  obtain rfl : t = u := by simpa using ht
  exact ⟨r, .refl _, ha.value (literal_value h hf.scalarEnd _)⟩

theorem folded_reads {t next s hold cl a ls c lead x} (ha : Lead T a lead) (h : BlockScalarText t cl ls c x) :
    VReads T (some t) next s hold cl ⟨a, .foldedString ls c⟩ (lead ++ '>' :: x) := by
  intro u k r hu ht hf
  obtain rfl : t = u := by simpa using ht
  exact ⟨r, .refl _, ha.value (folded_value h hf.scalarEnd _)⟩

theorem bare_head {P : ValueText} {c next cl ds x} (h : EntryTexts T P c next cl ds x) (r : Str) :
    Bare (x ++ r) ∧ (x ++ r).head? ≠ some '[' ∧ (x ++ r).head? ≠ some '&' := by
  obtain ⟨ch, tl, rfl, hch⟩ := h.head
  refine ⟨bare_name hch, ?_, ?_⟩ <;> (intro he; simp at he; subst he; exact not_nameChar (by decide) hch)

theorem key_head {key : Str} (hk : KeyText T key) (r : Str) : Bare (key ++ r) ∧ (key ++ r).head? ≠ some '[' ∧ (key ++ r).head? ≠ some '&' := by
  obtain ⟨ch, tl, he, hch⟩ := hk.notSp r
  rw [he]
  refine ⟨bare_name hch, ?_, ?_⟩ <;> (intro he; simp at he; subst he; exact not_nameChar (by decide) hch)

theorem not_alternative_indent (c : Nat) (z : Str) (k) : Not T (.alt (.rule .alternative_hash) (.rule .alternative_array)) (indent (c + 1) ++ z) k :=
  not_alternative_head (by simpa [indent_succ] using notName_sp (T := T) (indent c ++ z)) (by simp [indent_succ]) k

/-- The elements of a sequence after a key at the left margin. -/
theorem margin_elements {P : ValueText} {cl next ds x} (h : ElementTexts T P 0 next cl ds x)
    (hP : ∀ v, ArrayData.element v ∈ ds → ∀ t next s hold cl x, P t next s hold cl v x → VReads T t next s hold cl v x)
    {b : Nat} (k : List Str) (r : Str) (hf : Follow T .key cl b next 0 r) (hf' : Follow T .dash cl 0 next 0 r) :
    ∃ r', Trim r r' ∧ Reads T (.rule .block_array_aliased_yaml_value) (x ++ r) (indent 0 :: k)
      [(.block_array_aliased_yaml_value, .aliased ⟨none, .array ds⟩)] r' (indent 0 :: k) := by
  have hat : ElementsAt T 0 (indent 0 :: k) ds x r :=
    elements_reads h hP _ r hf' fun q r' hq htr => (hf.trim htr).not_array_data (.inr (.inl ⟨rfl, Nat.le_refl _⟩)) hq _
  obtain ⟨r', htr, hv⟩ := array_value (cs := []) h.head hat hf
  obtain ⟨tl, hx⟩ := h.head
  have hb : Bare (x ++ r) := by rw [hx]; exact bare_dash _
  have hh : (x ++ r).head? ≠ some '[' ∧ (x ++ r).head? ≠ some '&' := by rw [hx]; simp
  have hval := (hv _ (start_comments (x := []) (c := 0) .nil hb hh.1)).2
  have hname : NotName T (x ++ r) := by rw [hx]; exact notName_dash _
  have hnoh : Not T (.rule .alternative_hash) (x ++ r) (indent 0 :: k) := .rule (.seqL (not_first_hash_element (not_hash_element_head hname _)))
  cases h with
  | @last _ _ _ v post x hv' =>
    refine ⟨r', htr, value_coll hh.2 ?_ (by simpa [indent] using hval)⟩
    obtain ⟨l, r1, hl, htr1, hrd⟩ := item_element hv' (hP v (by simp)) 0 k r (Nat.le_refl _) (.inl rfl) hf'
    exact .alt hnoh (.rule (.seqR (reads_first_element hl hrd) ((hf.trim htr1).not_second (.inr ⟨rfl, rfl⟩) _ _)))
  | @more _ _ _ cl' v post x cs g ds rest hv' hg h =>
    obtain ⟨l, r1, hl, htr1, hrd⟩ := item_element hv' (hP v (by simp)) 0 k (g ++ (indent 0 ++ (rest ++ r))) (Nat.le_refl _) (.inl rfl) (h.follow hg r)
    obtain ⟨tl', hx'⟩ := h.head
    obtain ⟨q, -, hbn, hc, hq1, hq2⟩ := hg.skip (T := T) (m := 0) (y := rest ++ r) (by rw [hx']; exact bare_dash _) htr1
    have htext : '-' :: x ++ g ++ pad 0 ++ rest ++ r = '-' :: (x ++ (g ++ (indent 0 ++ (rest ++ r)))) := by simp [pad_eq]
    cases cs with
    | nil =>
      have hq1 := hq1 rfl
      subst hq1
      have hat' : ElementsAt T 0 (indent 0 :: k) ds rest r :=
        elements_reads h (fun v hm => hP v (by simp [hm])) _ r hf' fun q r' hq htr => (hf.trim htr).not_array_data (.inr (.inl ⟨rfl, Nat.le_refl _⟩)) hq _
      obtain ⟨r2, htr2, halt⟩ := alternative_elements (c := 0) hl hrd hbn (by rw [hx']; exact (bare_dash _).notSp) hat' hf
      refine ⟨r2, htr2, ?_⟩
      have := value_alternative (.inr rfl) (by simp) (Reads.altR (by rw [← htext]; exact hnoh) halt)
      rw [htext]
      simpa using this
    | cons c0 cs =>
      obtain ⟨j, z, rfl⟩ := hq2 (by simp)
      refine ⟨r', htr, value_coll hh.2 ?_ (by simpa [indent] using hval)⟩
      rw [htext] at hnoh ⊢
      refine .alt hnoh (.rule (.seqR (reads_first_element hl hrd) (.seqR (hbn _) (.seqR (.push (reads_sps (by simp [NotSp]; decide) _)) (.seqL ?_)))))
      exact not_first_element (not_element_head (by simp) _)

/-- **Every text of a value is read as this value.** -/
theorem written_reads (y : Yaml) : ∀ a t next s hold cl x, Written T t next s hold cl ⟨a, y⟩ x → VReads T t next s hold cl ⟨a, y⟩ x := by
  induction y using Yaml.induct with
  | hIH es ih => intro a t next s hold cl x h; cases h with | scalar ha h => exact scalar_reads ha h
  | hIA es ih => intro a t next s hold cl x h; cases h with | scalar ha h => exact scalar_reads ha h
  | hS => intro a t next s hold cl x h; cases h with | scalar ha h => exact scalar_reads ha h
  | hD => intro a t next s hold cl x h; cases h with | scalar ha h => exact scalar_reads ha h
  | hU => intro a t next s hold cl x h; cases h with | scalar ha h => exact scalar_reads ha h
  | hN => intro a t next s hold cl x h; cases h with | scalar ha h => exact scalar_reads ha h
  | hF =>
    intro a t next s hold cl x h
    cases h with
    | scalar ha h => exact scalar_reads ha h
    | folded ha h => exact folded_reads ha h
  | hL =>
    intro a t next s hold cl x h
    cases h with
    | scalar ha h => exact scalar_reads ha h
    | literal ha h => exact literal_reads ha h
  | hH es ih =>
    have hP : ∀ key v, HashData.element ⟨key, v⟩ ∈ es → ∀ t next s hold cl x, Written T t next s hold cl v x → VReads T t next s hold cl v x := by
      intro key v hm t next s hold cl x h
      obtain ⟨a, v⟩ := v
      exact ih key a v hm a t next s hold cl x h
    intro a t next s hold cl x h
    cases h with
    | scalar ha h => cases h with | flow _ h => cases h
    | @hash _ _ _ c _ _ _ cs lead ds x hs hl h =>
      intro u k r hu ht hf
      have hb := getD_le hu ht
      have hat : EntriesAt T c (indent u :: k) ds x r :=
        entries_reads h (fun key v hm => hP key v (by simp [hm])) _ r (hf.mono (by omega) fun _ => .inl (by omega)) fun r' htr => (hf.trim htr).not_hash_data (.inl (by omega)) _
      have hh := bare_head h r
      obtain ⟨r', htr, hv⟩ := hash_value (map := true) (cs := cs) hh.1.notSp hat hf
      obtain ⟨c, rfl⟩ : ∃ d, c = d + 1 := ⟨c - 1, by omega⟩
      have := hl.value (c := c + 1) (z := x ++ r) hh.1 hh.2 (fun _ => not_alternative_indent c _ _)
        fun start hs => .rule rfl (.altL (hv start hs)) fun _ => rfl
      exact ⟨r', htr, by simpa [pad_eq] using this⟩
    | @innerOne _ _ _ c _ _ _ lead key n v post x hs hl hd hk hv =>
      intro u k r hu ht hf
      have hb := getD_le hu ht
      have hf' : Follow T .key cl (t.getD c) next c r := hf.mono (by rcases ht with rfl | rfl <;> simp; omega) fun _ => .inl (by omega)
      obtain ⟨l, r', hkids, htr, hrd⟩ := item_entry hv (hP key v (by simp)) hk n u k r (by omega) ht hf'
      have hno := (hf.trim htr).not_continuation (u := u) (by
        rcases ht with rfl | rfl
        · exact .inl (Nat.le_refl _)
        · exact .inr (hd rfl)) k
      have hh := key_head (T := T) hk (indent n ++ ':' :: (x ++ r))
      have := hl.alternative (.inl rfl) hh.1 hh.2.2 (.altL (alternative_one hkids hrd hno (hf.trim htr)))
      exact ⟨r', htr, by simpa [pad_eq] using this⟩
    | @innerMore _ _ _ c _ _ cl' _ lead key n v post x cs g ds rest hs hl hk hv hg h =>
      intro u k r hu ht hf
      have hb := getD_le hu ht
      obtain ⟨l, r0, hkids, htr0, hrd⟩ := item_entry hv (hP key v (by simp)) hk n u k (g ++ (indent c ++ (rest ++ r))) (by omega) (.inr rfl) (h.follow hg r)
      have hh := bare_head h r
      obtain ⟨q, -, hbn, hc, -, -⟩ := hg.skip (T := T) hh.1 htr0
      have hat : EntriesAt T c (indent u :: k) ds rest r :=
        entries_reads h (fun key v hm => hP key v (by simp [hm])) _ r (hf.mono (by omega) fun _ => .inl (by omega)) fun r' htr => (hf.trim htr).not_hash_data (.inl (by omega)) _
      obtain ⟨r', htr, halt⟩ := alternative_more (by omega) hkids hrd hbn hc hh.1.notSp hat hf
      have hh' := key_head (T := T) hk (indent n ++ ':' :: (x ++ (g ++ (indent c ++ (rest ++ r)))))
      have := hl.alternative (.inl rfl) hh'.1 hh'.2.2 (.altL halt)
      exact ⟨r', htr, by simpa [pad_eq] using this⟩
  | hA es ih =>
    have hP : ∀ v, ArrayData.element v ∈ es → ∀ t next s hold cl x, Written T t next s hold cl v x → VReads T t next s hold cl v x := by
      intro v hm t next s hold cl x h
      obtain ⟨a, v⟩ := v
      exact ih a v hm a t next s hold cl x h
    intro a t next s hold cl x h
    cases h with
    | scalar ha h => cases h with | flow _ h => cases h
    | @array _ _ _ c _ _ _ cs lead ds x hs hl h =>
      intro u k r hu ht hf
      have hb := getD_le hu ht
      have hf' : Follow T .dash cl c next c r := hf.mono (by omega) (by simp)
      have hat : ElementsAt T c (indent u :: k) ds x r :=
        elements_reads h (fun v hm => hP v (by simp [hm])) _ r hf' fun q r' hq htr => (hf.trim htr).not_array_data (by
          rcases hs with hs | ⟨rfl, rfl⟩
          · exact .inl (by omega)
          · exact .inr (.inl ⟨rfl, Nat.le_refl _⟩)) hq _
      obtain ⟨tl, hx⟩ := h.head
      have hh : Bare (x ++ r) ∧ (x ++ r).head? ≠ some '[' ∧ (x ++ r).head? ≠ some '&' := by rw [hx]; exact ⟨bare_dash _, by simp, by simp⟩
      obtain ⟨r', htr, hv⟩ := array_value (cs := cs) h.head hat hf
      by_cases hno : (∃ nl b, Break nl ∧ Blanks b ∧ lead = nl ++ b ∧ hold = .key ∧ a = none ∧ cs = []) →
          Not T (.alt (.rule .alternative_hash) (.rule .alternative_array)) (indent c ++ (x ++ r)) (indent u :: k)
      · have := hl.value (c := c) (z := x ++ r) hh.1 hh.2 hno fun start hs => (hv start hs).2
        exact ⟨r', htr, by simpa [pad_eq] using this⟩
      · have hc0 : c = 0 := by
          cases c with
          | zero => rfl
          | succ c => exact absurd (fun _ => not_alternative_indent c _ _) hno
        subst hc0
        obtain ⟨⟨nl, b, hn, hb', rfl, rfl, rfl, rfl⟩, -⟩ := Classical.not_imp.1 hno
        obtain rfl : s = 0 := by omega
        obtain rfl : u = 0 := by omega
        obtain ⟨r1, htr1, hv1⟩ := margin_elements h (fun v hm => hP v (by simp [hm])) k r hf hf'
        refine ⟨r1, htr1, ?_⟩
        have := Reads.seq (l₁ := []) (.altR (not_sp1 (hn.notSp (b ++ (indent 0 ++ (x ++ r)))) _)
          (reads_blanknl_lines (T := T) (n := 0) hn hb' ⟨0, x ++ r, rfl, hh.1.black⟩ (indent 0 :: k))) hv1
        simpa [leadExpr, pad, indent] using this
    | @innerElement _ _ _ c _ _ _ lead v post x hs hl hd hv =>
      intro u k r hu ht hf
      have hb := getD_le hu ht
      have hf' : Follow T .dash cl c next c r := hf.mono (by omega) (by simp)
      have hP' := hP v (by simp)
      have hno : Not T (.alt (.rule .alternative_hash) (.rule .alternative_array)) ('-' :: (x ++ r)) (indent u :: k) := by
        obtain ⟨l, r1, hl, htr1, hrd⟩ := item_element hv hP' u k r (by omega) (.inr rfl) hf'
        exact .alt (.rule (.seqL (not_first_hash_element (not_hash_element_head (notName_dash _) _))))
          (.rule (.seqR (reads_first_element hl hrd) ((hf.trim htr1).not_second (.inl hd) _ _)))
      have := hl.value (z := '-' :: (x ++ r)) (r := r) (y := .array (.element v :: post.map .inlineComment)) (bare_dash _) (by simp) hno fun start c' hc' hst => by
        obtain ⟨l, r1, hl, htr1, hrd⟩ := item_element hv hP' c' (indent u :: k) r hc' (.inr rfl) hf'
        have hat : ElementsAt T c' (indent u :: k) (.element v :: post.map .inlineComment) ('-' :: x) r :=
          ⟨_, [], l, r1, by simp, hl, by simpa using hrd, (hf.trim htr1).spaced, fun rest' ht' => ⟨rest', htr1.trans ht', fun q hq =>
            .starNil ((hf.trim (htr1.trans ht')).not_array_data (.inr (.inr hd)) hq _)⟩⟩
        obtain ⟨r', htr, hval⟩ := array_value (cs := []) ⟨_, rfl⟩ hat hf
        exact ⟨r', htr, by simpa using (hval start (by simpa using hst)).2⟩
      simpa using this
    | @innerElements _ _ _ c _ _ cl' _ lead v post x g ds rest hs hl hv hg h =>
      intro u k r hu ht hf
      have hb := getD_le hu ht
      have hf' : Follow T .dash cl c next c r := hf.mono (by omega) (by simp)
      obtain ⟨l, r0, hkids, htr0, hrd⟩ := item_element hv (hP v (by simp)) u k (g ++ (indent c ++ (rest ++ r))) (by omega) (.inr rfl) (h.follow hg r)
      obtain ⟨tl, hx⟩ := h.head
      have hbare : Bare (rest ++ r) := by rw [hx]; exact bare_dash _
      obtain ⟨q, -, hbn, -, hq, -⟩ := hg.skip (T := T) hbare htr0
      have hq := hq rfl
      subst hq
      have hat : ElementsAt T c (indent u :: k) ds rest r :=
        elements_reads h (fun v hm => hP v (by simp [hm])) _ r hf' fun q r' hq htr => (hf.trim htr).not_array_data (by
          rcases hs with hs | ⟨rfl, rfl⟩
          · exact .inl (by omega)
          · exact .inr (.inl ⟨rfl, Nat.le_refl _⟩)) hq _
      obtain ⟨r', htr, halt⟩ := alternative_elements hkids hrd hbn hbare.notSp hat hf
      have hnoh : Not T (.rule .alternative_hash) ('-' :: (x ++ (g ++ (indent c ++ (rest ++ r))))) (indent u :: k) :=
        .rule (.seqL (not_first_hash_element (not_hash_element_head (notName_dash _) _)))
      have := hl.alternative (.inr rfl) (bare_dash _) (by simp) (.altR hnoh halt)
      exact ⟨r', htr, by simpa [pad_eq] using this⟩

end YamlSubset.Lay
