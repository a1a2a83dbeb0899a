import Verif.Spec.Lax
import Verif.Lemmas.Lines
import Verif.Lemmas.LayDocument

/-! # Reading texts in which a key has no value -/

namespace YamlSubset.Lay

open Peg Spec

variable {T : CharTables}

/-- No further entry of a mapping at `c`, if the next key is at a smaller indentation. -/
theorem Follow.not_hash_data' {hold : Holder} {cl : Closing} {b : Nat} {next : LineKind} {s c : Nat} {r : Str} (h : Follow T hold cl b next s r)
    (hn : ∀ m, next = .key m → m < c) (k) : Not T (.rule .hash_element_data) r (indent c :: k) := by
  by_cases hk : ∃ m, next = .key m
  · obtain ⟨m, rfl⟩ := hk
    have hm := hn m rfl
    rcases h.skip with ⟨n, rfl⟩ | ⟨q, cs, z, -, -, h1, h2, -, h3⟩
    · exact .rule (.seqL (not_blanknl_sps n _))
    · refine .rule (.seqR (h1 _) (.seqR (h2 _) ?_))
      have h4 : Onward T hold m (.key m) s z := by
        rcases h3 with h3 | ⟨n, x, tail, h3, h4⟩
        · exact .inl h3
        · exact .inr ⟨n, x, tail, h3, h4.keyAt m rfl, h4.bare, h4.dash, h4.key, h4.keyAt, h4.dashLt⟩
      exact h4.no_key (.inl hm) _ k
  · exact h.not_hash_data (.inr fun m hm => hk ⟨m, hm⟩) k

/-- An alternative collection on the line after a key. -/
theorem below_alternative {nl b key x r r' : Str} {n : Nat} {K : List Str} {y : Yaml} (hn : Break nl) (hb : Blanks b) (hk : KeyText T key)
    (h : Reads T (.rule .alternative_hash) (key ++ (indent n ++ ':' :: (x ++ r))) K [(.alternative_hash, .yaml y)] r' K) :
    Reads T (leadExpr .key) (nl ++ b ++ key ++ pad n ++ ':' :: x ++ r) K [(.block_array_aliased_yaml_value, .aliased ⟨none, y⟩)] r' K := by
  have hh := key_head (T := T) hk (indent n ++ ':' :: (x ++ r))
  have := Reads.seq (l₁ := []) (.altR (not_sp1 (hn.notSp (b ++ (key ++ (indent n ++ ':' :: (x ++ r))))) K)
    (reads_blanknl_lines (T := T) (n := 0) hn hb ⟨0, _, rfl, hh.1.black⟩ K)) (value_alternative (.inl rfl) hh.2.2 (.altL h))
  simpa [leadExpr, pad_eq, indent] using this

/-- **Every text of a value is read as this value.** -/
theorem lax_reads (y : Yaml) : ∀ a t next s hold cl x, Lax T t next s hold cl ⟨a, y⟩ x → VReads T t next s hold cl ⟨a, y⟩ x := by
  induction y using Yaml.induct with
  | hIH es ih => intro a t next s hold cl x h; cases h with | scalar ha h => exact scalar_reads ha h
  | hIA es ih => intro a t next s hold cl x h; cases h with | scalar ha h => exact scalar_reads ha h
  | hS => intro a t next s hold cl x h; cases h with | scalar ha h => exact scalar_reads ha h
  | hD => intro a t next s hold cl x h; cases h with | scalar ha h => exact scalar_reads ha h
  | hU => intro a t next s hold cl x h; cases h with | scalar ha h => exact scalar_reads ha h
  | hN => intro a t next s hold cl x h; cases h with | scalar ha h => exact scalar_reads ha h
  | hF =>
    intro a t next s hold cl x h
    cases h with
    | scalar ha h => exact scalar_reads ha h
    | folded ha h => exact folded_reads ha h
  | hL =>
    intro a t next s hold cl x h
    cases h with
    | scalar ha h => exact scalar_reads ha h
    | literal ha h => exact literal_reads ha h
  | hH es ih =>
    have hP : ∀ key v, HashData.element ⟨key, v⟩ ∈ es → ∀ t next s hold cl x, Lax T t next s hold cl v x → VReads T t next s hold cl v x := by
      intro key v hm t next s hold cl x h
      obtain ⟨a, v⟩ := v
      exact ih key a v hm a t next s hold cl x h
    intro a t next s hold cl x h
    cases h with
    | scalar ha h => cases h with | flow _ h => cases h
    | @hash _ _ _ c _ _ _ cs lead ds x hs hl h =>
      intro u k r hu ht hf
      have hb := getD_le hu ht
      have hat : EntriesAt T c (indent u :: k) ds x r :=
        entries_reads h (fun key v hm => hP key v (by simp [hm])) _ r (hf.mono (by omega) fun _ => .inl (by omega)) fun r' htr => (hf.trim htr).not_hash_data (.inl (by omega)) _
      have hh := bare_head h r
      obtain ⟨r', htr, hv⟩ := hash_value (map := true) (cs := cs) hh.1.notSp hat hf
      obtain ⟨c, rfl⟩ : ∃ d, c = d + 1 := ⟨c - 1, by omega⟩
      have := hl.value (c := c + 1) (z := x ++ r) hh.1 hh.2 (fun _ => not_alternative_indent c _ _)
        fun start hs => .rule rfl (.altL (hv start hs)) fun _ => rfl
      exact ⟨r', htr, by simpa [pad_eq] using this⟩
    | @innerOne _ _ _ c _ _ _ lead key n v post x hs hl hd hk hv =>
      intro u k r hu ht hf
      have hb := getD_le hu ht
      have hf' : Follow T .key cl (t.getD c) next c r := hf.mono (by rcases ht with rfl | rfl <;> simp; omega) fun _ => .inl (by omega)
      obtain ⟨l, r', hkids, htr, hrd⟩ := item_entry hv (hP key v (by simp)) hk n u k r (by omega) ht hf'
      have hno := (hf.trim htr).not_continuation (u := u) (by
        rcases ht with rfl | rfl
        · exact .inl (Nat.le_refl _)
        · exact .inr (hd rfl)) k
      have hh := key_head (T := T) hk (indent n ++ ':' :: (x ++ r))
      have := hl.alternative (.inl rfl) hh.1 hh.2.2 (.altL (alternative_one hkids hrd hno (hf.trim htr)))
      exact ⟨r', htr, by simpa [pad_eq] using this⟩
    | @innerMore _ _ _ c _ _ cl' _ lead key n v post x cs g ds rest hs hl hk hv hg h =>
      intro u k r hu ht hf
      have hb := getD_le hu ht
      obtain ⟨l, r0, hkids, htr0, hrd⟩ := item_entry hv (hP key v (by simp)) hk n u k (g ++ (indent c ++ (rest ++ r))) (by omega) (.inr rfl) (h.follow hg r)
      have hh := bare_head h r
      obtain ⟨q, -, hbn, hc, -, -⟩ := hg.skip (T := T) hh.1 htr0
      have hat : EntriesAt T c (indent u :: k) ds rest r :=
        entries_reads h (fun key v hm => hP key v (by simp [hm])) _ r (hf.mono (by omega) fun _ => .inl (by omega)) fun r' htr => (hf.trim htr).not_hash_data (.inl (by omega)) _
      obtain ⟨r', htr, halt⟩ := alternative_more (by omega) hkids hrd hbn hc hh.1.notSp hat hf
      have hh' := key_head (T := T) hk (indent n ++ ':' :: (x ++ (g ++ (indent c ++ (rest ++ r)))))
      have := hl.alternative (.inl rfl) hh'.1 hh'.2.2 (.altL halt)
      exact ⟨r', htr, by simpa [pad_eq] using this⟩
    | @takesOne _ _ nl b key n v post x hn hb hk hv =>
      intro u k r hu ht hf
      obtain rfl : u = 0 := by omega
      obtain ⟨l, r', hkids, htr, hrd⟩ := item_entry hv (hP key v (by simp)) hk n 0 k r (Nat.le_refl _) (.inl rfl) hf
      have hno := (hf.trim htr).not_continuation (u := 0) (.inl (Nat.le_refl _)) k
      exact ⟨r', htr, below_alternative hn hb hk (alternative_one hkids hrd hno (hf.trim htr))⟩
    | @takesOutdented _ _ _ nl b key n a' y lead x hd hn hb hk ha h =>
      intro u k r hu ht hf
      obtain ⟨r', hv⟩ := h.value hf.tails (indent u :: k)
      have hrd := ha.value (hold := .key) hv
      have htr := hv.trim
      have hno := (hf.trim htr).not_continuation (u := u) (by
        rcases ht with rfl | rfl
        · exact .inl (Nat.le_refl _)
        · exact .inr (hd rfl)) k
      have := alternative_one (.inl ⟨_, rfl, rfl⟩) (.seq (reads_hash_element (n := n) hk hrd) ((hf.trim htr).no_comment _)) hno (hf.trim htr)
      refine ⟨r', htr, ?_⟩
      have := below_alternative (n := n) (x := lead ++ x) (r := r) hn hb hk (by simpa using this)
      simpa using this
    | @takesAll _ _ _ _ cs lead ds x hc hn hl h =>
      intro u k r hu ht hf
      obtain rfl : u = s := by have : s = u := by simpa using ht
                               exact this.symm
      have hf : Follow T .key cl u next u r := hf
      have hat : EntriesAt T u (indent u :: k) ds x r :=
        entries_reads h (fun key v hm => hP key v (by simp [hm])) _ r hf fun r' htr => (hf.trim htr).not_hash_data' hn _
      have hh := bare_head h r
      obtain ⟨r', htr, hv⟩ := hash_value (map := true) (cs := cs) hh.1.notSp hat hf
      have := hl.value (c := u) (z := x ++ r) hh.1 hh.2 (fun ⟨nl, b, hnl, _, he, _, _, hcs⟩ => by
          rcases hc with hc | hc | hc
          · obtain ⟨c, rfl⟩ : ∃ d, u = d + 1 := ⟨u - 1, by omega⟩
            exact not_alternative_indent c _ _
          · exact absurd hcs hc
          · rw [he] at hc
            rcases hnl with rfl | rfl <;> simp at hc)
        fun start hs => .rule rfl (.altL (hv start hs)) fun _ => rfl
      exact ⟨r', htr, by simpa [pad_eq] using this⟩
  | hA es ih =>
    have hP : ∀ v, ArrayData.element v ∈ es → ∀ t next s hold cl x, Lax T t next s hold cl v x → VReads T t next s hold cl v x := by
      intro v hm t next s hold cl x h
      obtain ⟨a, v⟩ := v
      exact ih a v hm a t next s hold cl x h
    intro a t next s hold cl x h
    cases h with
    | scalar ha h => cases h with | flow _ h => cases h
    | @array _ _ _ c _ _ _ cs lead ds x hs hl h =>
      intro u k r hu ht hf
      have hb := getD_le hu ht
      have hf' : Follow T .dash cl c next c r := hf.mono (by omega) (by simp)
      have hat : ElementsAt T c (indent u :: k) ds x r :=
        elements_reads h (fun v hm => hP v (by simp [hm])) _ r hf' fun q r' hq htr => (hf.trim htr).not_array_data (by
          rcases hs with hs | ⟨rfl, rfl⟩
          · exact .inl (by omega)
          · exact .inr (.inl ⟨rfl, Nat.le_refl _⟩)) hq _
      obtain ⟨tl, hx⟩ := h.head
      have hh : Bare (x ++ r) ∧ (x ++ r).head? ≠ some '[' ∧ (x ++ r).head? ≠ some '&' := by rw [hx]; exact ⟨bare_dash _, by simp, by simp⟩
      obtain ⟨r', htr, hv⟩ := array_value (cs := cs) h.head hat hf
      by_cases hno : (∃ nl b, Break nl ∧ Blanks b ∧ lead = nl ++ b ∧ hold = .key ∧ a = none ∧ cs = []) →
          Not T (.alt (.rule .alternative_hash) (.rule .alternative_array)) (indent c ++ (x ++ r)) (indent u :: k)
      · have := hl.value (c := c) (z := x ++ r) hh.1 hh.2 hno fun start hs => (hv start hs).2
        exact ⟨r', htr, by simpa [pad_eq] using this⟩
      · have hc0 : c = 0 := by
          cases c with
          | zero => rfl
          | succ c => exact absurd (fun _ => not_alternative_indent c _ _) hno
        subst hc0
        obtain ⟨⟨nl, b, hn, hb', rfl, rfl, rfl, rfl⟩, -⟩ := Classical.not_imp.1 hno
        obtain rfl : s = 0 := by omega
        obtain rfl : u = 0 := by omega
        obtain ⟨r1, htr1, hv1⟩ := margin_elements h (fun v hm => hP v (by simp [hm])) k r hf hf'
        refine ⟨r1, htr1, ?_⟩
        have := Reads.seq (l₁ := []) (.altR (not_sp1 (hn.notSp (b ++ (indent 0 ++ (x ++ r)))) _)
          (reads_blanknl_lines (T := T) (n := 0) hn hb' ⟨0, x ++ r, rfl, hh.1.black⟩ (indent 0 :: k))) hv1
        simpa [leadExpr, pad, indent] using this
    | @innerElement _ _ _ c _ _ _ lead v post x hs hl hd hv =>
      intro u k r hu ht hf
      have hb := getD_le hu ht
      have hf' : Follow T .dash cl c next c r := hf.mono (by omega) (by simp)
      have hP' := hP v (by simp)
      have hno : Not T (.alt (.rule .alternative_hash) (.rule .alternative_array)) ('-' :: (x ++ r)) (indent u :: k) := by
        obtain ⟨l, r1, hl, htr1, hrd⟩ := item_element hv hP' u k r (by omega) (.inr rfl) hf'
        exact .alt (.rule (.seqL (not_first_hash_element (not_hash_element_head (notName_dash _) _))))
          (.rule (.seqR (reads_first_element hl hrd) ((hf.trim htr1).not_second (.inl hd) _ _)))
      have := hl.value (z := '-' :: (x ++ r)) (r := r) (y := .array (.element v :: post.map .inlineComment)) (bare_dash _) (by simp) hno fun start c' hc' hst => by
        obtain ⟨l, r1, hl, htr1, hrd⟩ := item_element hv hP' c' (indent u :: k) r hc' (.inr rfl) hf'
        have hat : ElementsAt T c' (indent u :: k) (.element v :: post.map .inlineComment) ('-' :: x) r :=
          ⟨_, [], l, r1, by simp, hl, by simpa using hrd, (hf.trim htr1).spaced, fun rest' ht' => ⟨rest', htr1.trans ht', fun q hq =>
            .starNil ((hf.trim (htr1.trans ht')).not_array_data (.inr (.inr hd)) hq _)⟩⟩
        obtain ⟨r', htr, hval⟩ := array_value (cs := []) ⟨_, rfl⟩ hat hf
        exact ⟨r', htr, by simpa using (hval start (by simpa using hst)).2⟩
      simpa using this
    | @innerElements _ _ _ c _ _ cl' _ lead v post x g ds rest hs hl hv hg h =>
      intro u k r hu ht hf
      have hb := getD_le hu ht
      have hf' : Follow T .dash cl c next c r := hf.mono (by omega) (by simp)
      obtain ⟨l, r0, hkids, htr0, hrd⟩ := item_element hv (hP v (by simp)) u k (g ++ (indent c ++ (rest ++ r))) (by omega) (.inr rfl) (h.follow hg r)
      obtain ⟨tl, hx⟩ := h.head
      have hbare : Bare (rest ++ r) := by rw [hx]; exact bare_dash _
      obtain ⟨q, -, hbn, -, hq, -⟩ := hg.skip (T := T) hbare htr0
      have hq := hq rfl
      subst hq
      have hat : ElementsAt T c (indent u :: k) ds rest r :=
        elements_reads h (fun v hm => hP v (by simp [hm])) _ r hf' fun q r' hq htr => (hf.trim htr).not_array_data (by
          rcases hs with hs | ⟨rfl, rfl⟩
          · exact .inl (by omega)
          · exact .inr (.inl ⟨rfl, Nat.le_refl _⟩)) hq _
      obtain ⟨r', htr, halt⟩ := alternative_elements hkids hrd hbn hbare.notSp hat hf
      have hnoh : Not T (.rule .alternative_hash) ('-' :: (x ++ (g ++ (indent c ++ (rest ++ r))))) (indent u :: k) :=
        .rule (.seqL (not_first_hash_element (not_hash_element_head (notName_dash _) _)))
      have := hl.alternative (.inr rfl) (bare_dash _) (by simp) (.altR hnoh halt)
      exact ⟨r', htr, by simpa [pad_eq] using this⟩

theorem lax_document {d : Document} {x : Str} (h : LaxText T d x) : parseYamlFile T x = .ok d := by
  cases h with
  | @intro leading pre post ds c cl lead n nl b preText x tail hl hn hb hp hr ht =>
    refine document_of_root n hl hn hb hp ht ?_
    have hf : ∀ hold, Follow T hold cl c .none c tail := fun hold => ht.follow hold
    have hat : EntriesAt T c [] ds x tail := entries_reads hr (fun _ v _ t next s hold cl x hw => by obtain ⟨a, y⟩ := v; exact lax_reads y a t next s hold cl x hw) _ tail
      (hf .key) fun r' htr => ((hf .key).trim htr).not_hash_data (.inr (by simp)) _
    have hh := bare_head hr tail
    obtain ⟨r', htr, hv⟩ := hash_value (map := true) (cs := []) hh.1.notSp hat (hf .key)
    have := hv _ (start_comments (x := []) .nil hh.1 hh.2.1)
    refine ⟨⟨x ++ tail, by simp [pad_eq], hh.1⟩, r', htr, .rule (l := [(.hash, .yaml (.hash ds))]) rfl (.altL ?_) fun _ => rfl⟩
    simpa [pad_eq] using this

/-! ## every layout is one of these texts -/

theorem item_mono {P Q : ValueText} {t next s hold cl v post x} (h : ItemText T P t next s hold cl v post x)
    (hPQ : ∀ t next s hold cl x, P t next s hold cl v x → Q t next s hold cl v x) : ItemText T Q t next s hold cl v post x := by
  cases h with
  | value h => exact .value (hPQ _ _ _ _ _ _ h)
  | comment ha h hc => exact .comment ha h hc

theorem entries_mono {P Q : ValueText} {c next cl ds x} (h : EntryTexts T P c next cl ds x)
    (hPQ : ∀ k v, HashData.element ⟨k, v⟩ ∈ ds → ∀ t next s hold cl x, P t next s hold cl v x → Q t next s hold cl v x) : EntryTexts T Q c next cl ds x := by
  induction h with
  | last hk hv => exact .last hk (item_mono hv (hPQ _ _ (List.mem_cons_self ..)))
  | more hk hv hg h ih => exact .more hk (item_mono hv (hPQ _ _ (List.mem_cons_self ..))) hg (ih fun k v hm => hPQ k v (by simp [hm]))

theorem elements_mono {P Q : ValueText} {c next cl ds x} (h : ElementTexts T P c next cl ds x)
    (hPQ : ∀ v, ArrayData.element v ∈ ds → ∀ t next s hold cl x, P t next s hold cl v x → Q t next s hold cl v x) : ElementTexts T Q c next cl ds x := by
  induction h with
  | last hv => exact .last (item_mono hv (hPQ _ (by simp)))
  | more hv hg h ih => exact .more (item_mono hv (hPQ _ (by simp))) hg (ih fun v hm => hPQ v (by simp [hm]))

theorem written_lax (y : Yaml) : ∀ a t next s hold cl x, Written T t next s hold cl ⟨a, y⟩ x → Lax T t next s hold cl ⟨a, y⟩ x := by
  induction y using Yaml.induct with
  | hH es ih =>
    have hP : ∀ k v, HashData.element ⟨k, v⟩ ∈ es → ∀ t next s hold cl x, Written T t next s hold cl v x → Lax T t next s hold cl v x := by
      intro k v hm t next s hold cl x h
      obtain ⟨a, v⟩ := v
      exact ih k a v hm a t next s hold cl x h
    intro a t next s hold cl x h
    cases h with
    | scalar ha h => exact .scalar ha h
    | hash hs hl h => exact .hash hs hl (entries_mono h fun k v hm => hP k v (by simp [hm]))
    | innerOne hs hl hd hk hv => exact .innerOne hs hl hd hk (item_mono hv (hP _ _ (List.mem_cons_self ..)))
    | innerMore hs hl hk hv hg h => exact .innerMore hs hl hk (item_mono hv (hP _ _ (List.mem_cons_self ..))) hg (entries_mono h fun k v hm => hP k v (by simp [hm]))
  | hA es ih =>
    have hP : ∀ v, ArrayData.element v ∈ es → ∀ t next s hold cl x, Written T t next s hold cl v x → Lax T t next s hold cl v x := by
      intro v hm t next s hold cl x h
      obtain ⟨a, v⟩ := v
      exact ih a v hm a t next s hold cl x h
    intro a t next s hold cl x h
    cases h with
    | scalar ha h => exact .scalar ha h
    | array hs hl h => exact .array hs hl (elements_mono h fun v hm => hP v (by simp [hm]))
    | innerElement hs hl hd hv => exact .innerElement hs hl hd (item_mono hv (hP _ (by simp)))
    | innerElements hs hl hv hg h => exact .innerElements hs hl (item_mono hv (hP _ (by simp))) hg (elements_mono h fun v hm => hP v (by simp [hm]))
  | hF => intro a t next s hold cl x h; cases h with | scalar ha h => exact .scalar ha h | folded ha h => exact .folded ha h
  | hL => intro a t next s hold cl x h; cases h with | scalar ha h => exact .scalar ha h | literal ha h => exact .literal ha h
  | _ => intro a t next s hold cl x h; cases h with | scalar ha h => exact .scalar ha h

theorem item_lax {t next s hold cl v post x} (h : ItemText T (Written T) t next s hold cl v post x) : ItemText T (Lax T) t next s hold cl v post x :=
  item_mono h fun t next s hold cl x h => by obtain ⟨a, y⟩ := v; exact written_lax y a t next s hold cl x h

theorem entries_lax {c next cl ds x} (h : EntryTexts T (Written T) c next cl ds x) : EntryTexts T (Lax T) c next cl ds x :=
  entries_mono h fun _ v _ t next s hold cl x h => by obtain ⟨a, y⟩ := v; exact written_lax y a t next s hold cl x h

theorem blocks_lax {c mid z} (h : EntryBlocks T c mid z) : ∀ {next cl post y}, EntryTexts T (Lax T) c next cl post y →
    ∃ x, pad c ++ x = z ++ (pad c ++ y) ∧ EntryTexts T (Lax T) c next cl (mid ++ post) x := by
  induction h with
  | nil => intro next cl post y h; exact ⟨y, rfl, h⟩
  | @cons cl' k n v ps x cs g ds rest hk hv hg _ ih =>
    intro next cl post y h
    obtain ⟨x', hx, he⟩ := ih h
    refine ⟨k ++ pad n ++ ':' :: x ++ g ++ pad c ++ x', by simp [hx], ?_⟩
    have := EntryTexts.more (n := n) hk (item_lax hv) hg he
    simpa using this

/-- The first entry of a mapping at the margin becomes the value of a key. -/
theorem takes_first {next cl ds y e rest key n nl b} {ps : List Str} (h : EntryTexts T (Written T) 0 next cl ds y) (hd : ds = .element e :: ps.map HashData.inlineComment ++ rest)
    (hr : ∀ c r, rest ≠ .inlineComment c :: r) (hk : KeyText T key) (hn : Break nl) (hb : Blanks b) :
    EntryTexts T (Lax T) 0 next cl (.element ⟨key, ⟨none, .hash (.element e :: ps.map .inlineComment)⟩⟩ :: rest) (key ++ pad n ++ ':' :: (nl ++ b) ++ y) := by
  have inl : ∀ {ps ps' : List Str} {u v : List HashData}, ps.map HashData.inlineComment ++ u = ps'.map HashData.inlineComment ++ v →
      (∀ c r, u ≠ .inlineComment c :: r) → (∀ c r, v ≠ .inlineComment c :: r) → ps = ps' ∧ u = v := by
    intro ps
    induction ps with
    | nil =>
      intro ps' u v h hu hv
      cases ps' with
      | nil => exact ⟨rfl, by simpa using h⟩
      | cons p ps' => exact absurd (by simpa using h) (hu p (ps'.map .inlineComment ++ v))
    | cons p ps ih =>
      intro ps' u v h hu hv
      cases ps' with
      | nil => exact absurd (by simpa using h.symm) (hv p (ps.map .inlineComment ++ u))
      | cons p' ps' =>
        simp only [List.map_cons, List.cons_append, List.cons.injEq, HashData.inlineComment.injEq] at h
        obtain ⟨h1, h2⟩ := ih h.2 hu hv
        exact ⟨by rw [h.1, h1], h2⟩
  cases h with
  | @last _ _ _ k₀ n₀ v₀ ps₀ x hk₀ hv =>
    simp only [List.cons_append, List.cons.injEq, HashData.element.injEq] at hd
    obtain ⟨rfl, hd⟩ := hd
    obtain ⟨rfl, rfl⟩ := inl (u := []) (by simpa using hd) (by simp) hr
    have := EntryTexts.last (P := Lax T) (post := []) (n := n) hk (.value (Lax.takesOne (n := n₀) hn hb hk₀ (item_lax hv)))
    simpa using this
  | @more _ _ _ cl' k₀ n₀ v₀ ps₀ x cs g ds rest₀ hk₀ hv hg h =>
    simp only [List.cons_append, List.append_assoc, List.cons.injEq, HashData.element.injEq] at hd
    obtain ⟨rfl, hd⟩ := hd
    obtain ⟨rfl, rfl⟩ := inl hd (by
      intro c r he
      cases cs with
      | nil =>
        obtain ⟨e, rest', he', -⟩ := entries_first h
        rw [he'] at he
        simp at he
      | cons => simp at he) hr
    have := EntryTexts.more (P := Lax T) (post := []) (n := n) hk (.value (Lax.takesOne (n := n₀) hn hb hk₀ (item_lax hv))) hg (entries_lax h)
    simpa [pad] using this

/-- All entries become the value of a key. -/
theorem takes_entries {c cl ds y key n a cs lead} (h : EntryTexts T (Written T) c .none cl ds y) (hk : KeyText T key)
    (hc : 0 < c ∨ cs ≠ [] ∨ lead.head? = some ' ') (hl : BlockLead T true .key a cs lead) :
    EntryTexts T (Lax T) c .none cl [.element ⟨key, ⟨a, .hash (cs.map .comment ++ ds)⟩⟩] (key ++ pad n ++ ':' :: lead ++ pad c ++ y) := by
  have := EntryTexts.last (P := Lax T) (post := []) (n := n) hk (.value (Lax.takesAll hc (by simp) hl (entries_lax h)))
  simpa using this

end YamlSubset.Lay
