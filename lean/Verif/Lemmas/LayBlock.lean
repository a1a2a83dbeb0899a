import Verif.Lemmas.LayEntries

/-! # Reading block collections in any layout -/

namespace YamlSubset.Lay

open Peg Spec

variable {T : CharTables}

theorem notNl_full {q : Str} (h : FullLine q) : ∀ c, q.head? = some c → c ≠ '\n' ∧ c ≠ '\r' := by
  obtain ⟨n, x, rfl, hx⟩ := h
  exact indent_head hx

theorem _root_.YamlSubset.Spec.Blanks.no_comments {b : Str} (h : Blanks b) {n : Nat} {y : Str} (hy : Bare y) (k) :
    Reads T (.rule .commentnls) (b ++ (indent n ++ y)) k [(.commentnls, .strs [])] (b ++ (indent n ++ y)) k := by
  cases h with
  | nil => exact reads_commentnls_nil hy.notSp hy.notHash k
  | @line m nl x hn h =>
    have := reads_commentnls_nil (T := T) (n := m) (hn.notSp (x ++ (indent n ++ y))) (hn.eol _).noHash k
    simpa [pad_eq] using this

/-! ## from the start of a collection to its first item -/

/-- From `start` on the parser finds the comments `cs` and then `Z`, which is the line of the first item. -/
structure Start (T : CharTables) (map : Bool) (cs : List Str) (start Z : Str) : Prop where
  hash : ∀ K, ∃ s1 mid, Reads T (.opt Rule.NEWLINE) start K [] s1 K ∧ Reads T (.rule .commentnls) s1 K [(.commentnls, .strs cs)] mid K ∧
    Reads T (.rule .blank) mid K [] Z K
  coll : map = false → ∀ K, ∃ mid, Reads T (.rule .commentnls) start K [(.commentnls, .strs cs)] mid K ∧ Reads T (.rule .blank) mid K [] Z K
  bracket : start.head? ≠ some '['

/-- The comments come at once. -/
theorem start_comments {map : Bool} {cs : List Str} {x : Str} (h : CommentLines cs x) {c : Nat} {y : Str} (hy : Bare y) (hb : y.head? ≠ some '[') :
    Start T map cs (x ++ (indent c ++ y)) (indent c ++ y) := by
  have hz : FullLine (indent c ++ y) := ⟨c, y, rfl, hy.black⟩
  refine ⟨fun K => ⟨_, _, .optNone (not_newline (notNl_full (h.full hz))), h.reads hy K, blank_none_full hz K⟩,
    fun _ K => ⟨_, h.reads hy K, blank_none_full hz K⟩, ?_⟩
  rcases h.shape (indent c ++ y) with ⟨-, rfl⟩ | ⟨-, m, z, -, he⟩
  · cases c with
    | zero => simpa [indent] using hb
    | succ c => simp [indent_succ]
  · rw [he]
    cases m with
    | zero => simp [indent]
    | succ c => simp [indent_succ]

/-- There is a line break, then blank lines. -/
theorem start_blanks {map : Bool} {nl b : Str} (hn : Break nl) (hb : Blanks b) {c : Nat} {y : Str} (hy : Bare y) :
    Start T map [] (nl ++ (b ++ (indent c ++ y))) (indent c ++ y) := by
  have hz : FullLine (indent c ++ y) := ⟨c, y, rfl, hy.black⟩
  refine ⟨fun K => ⟨_, _, .opt (hn.reads _ K), hb.no_comments hy K, reads_blanks hb hz K⟩,
    fun _ K => ⟨_, reads_commentnls_nil (n := 0) (hn.notSp _) (hn.eol _).noHash K, reads_blank_lines (n := 0) hn hb hz K⟩, ?_⟩
  rcases hn with rfl | rfl <;> simp

/-- There is a line break, then comments: only for mappings. -/
theorem start_lines {cs : List Str} {nl x : Str} (hn : Break nl) (h : CommentLines cs x) {c : Nat} {y : Str} (hy : Bare y) :
    Start T true cs (nl ++ (x ++ (indent c ++ y))) (indent c ++ y) := by
  have hz : FullLine (indent c ++ y) := ⟨c, y, rfl, hy.black⟩
  refine ⟨fun K => ⟨_, _, .opt (hn.reads _ K), h.reads hy K, blank_none_full hz K⟩, by simp, ?_⟩
  rcases hn with rfl | rfl <;> simp

/-! ## mappings -/

theorem hash_value {map : Bool} {cs : List Str} {x r : Str} {c : Nat} {K : List Str} {ds : List HashData} {hold cl b next s}
    (hx : NotSp (x ++ r)) (he : EntriesAt T c K ds x r) (hf : Follow T hold cl b next s r) :
    ∃ r', Trim r r' ∧ ∀ start, Start T map cs start (indent c ++ (x ++ r)) →
      Reads T (.rule .hash) start K [(.hash, .yaml (.hash (cs.map .comment ++ ds)))] r' K := by
  obtain ⟨e1, more, l, rest, r', rfl, hl, htr, h1, h2⟩ := he
  refine ⟨r', htr, fun start hs => ?_⟩
  obtain ⟨s1, mid, hs1, hs2, hs3⟩ := hs.hash K
  have hb : Reads T ((Rule.hash).body T) start K
      ([] ++ ([(.commentnls, .strs cs)] ++ ([] ++ ([] ++ ([(.first_hash_element, .hashData e1)] ++ (more.map (fun d => (Rule.hash_element_data, Val.hashData d)) ++
        ([] ++ [(.commentnls, .strs [])]))))))) r' K :=
    .seq hs1 (.seq hs2 (.seq hs3 (.seq (.push (reads_sps hx K)) (.seq (reads_first_hash_element hl h1) (.seq h2 (.seq (.drop _ _ K) ((hf.trim htr).no_comments K)))))))
  refine .rule rfl hb fun t => ?_
  simp only [List.cons_append, List.nil_append, oks_cons, act, Consume.hash, Out.bind_ok, Val.asStrs, Val.asHashData]
  rw [manyThen_oks .hash_element_data Val.asHashData Val.hashData (fun _ => rfl) more .commentnls Val.asStrs (.strs []) [] rfl]
  simp

/-- A mapping on the line of a dash or with an anchor, with one entry. -/
theorem alternative_one {x r' : Str} {k : List Str} {l e1} {hold cl b next s} (hl : EntryKids l e1) (h : Reads T entryExpr x k l r' k)
    (hno : Not T (.rule .alternative_hash_continuation) r' k) (hf : Follow T hold cl b next s r') :
    Reads T (.rule .alternative_hash) x k [(.alternative_hash, .yaml (.hash e1))] r' k := by
  refine .rule rfl (.seq (reads_first_hash_element hl h) (.seq (.optNone hno) (hf.no_comments k))) fun _ => ?_
  simp [act, Consume.alternativeHash, Val.asHashData, Val.asStrs]

/-- A mapping on the line of a dash or with an anchor, with more entries. -/
theorem alternative_more {u c : Nat} {k : List Str} {x y r r0 q : Str} {cs : List Str} {l e1} {ds : List HashData} {hold cl b next s} (huc : u < c)
    (hl : EntryKids l e1) (h1 : Reads T entryExpr x (indent u :: k) l r0 (indent u :: k))
    (hb : ∀ K, Reads T (.rule .blanknl) r0 K [] q K) (hc : ∀ K, Reads T (.rule .commentnls) q K [(.commentnls, .strs cs)] (indent c ++ (y ++ r)) K)
    (hy : NotSp (y ++ r)) (he : EntriesAt T c (indent u :: k) ds y r) (hf : Follow T hold cl b next s r) :
    ∃ r', Trim r r' ∧ Reads T (.rule .alternative_hash) x (indent u :: k) [(.alternative_hash, .yaml (.hash (e1 ++ cs.map .comment ++ ds)))] r' (indent u :: k) := by
  obtain ⟨e2, more, l', rest, r', rfl, hl', htr, h2, h3⟩ := he
  refine ⟨r', htr, ?_⟩
  obtain ⟨d, rfl⟩ : ∃ d, c = u + (d + 1) := ⟨c - u - 1, by omega⟩
  have hc : Reads T (.rule .alternative_hash_continuation) r0 (indent u :: k)
      [(.alternative_hash_continuation, .hashData (cs.map .comment ++ e2 ++ more.flatten))] r' (indent u :: k) := by
    have hb : Reads T ((Rule.alternative_hash_continuation).body T) r0 (indent u :: k)
        ([] ++ ([(.commentnls, .strs cs)] ++ ([] ++ ([] ++ ([(.first_hash_element, .hashData e2)] ++ (more.map (fun d => (Rule.hash_element_data, Val.hashData d)) ++ [])))))) r' (indent u :: k) :=
      .seq (hb _) (.seq (hc _) (.seq (reads_deeper hy k) (.seq (.push (reads_sps hy _)) (.seq (reads_first_hash_element hl' h2) (.seq h3 (.drop _ _ _))))))
    refine .rule rfl hb fun t => ?_
    simp only [List.cons_append, List.nil_append, List.append_nil, oks_cons, act, Consume.alternativeHashContinuation, Out.bind_ok, Val.asStrs, Val.asHashData]
    rw [many_oks .hash_element_data Val.asHashData Val.hashData (fun _ => rfl) more]
    simp
  refine .rule rfl (.seq (reads_first_hash_element hl h1) (.seq (.opt hc) ((hf.trim htr).no_comments _))) fun _ => ?_
  simp [act, Consume.alternativeHash, Val.asHashData, Val.asStrs]

/-! ## sequences -/

theorem Spaced.reads {r : Str} (h : Spaced r) (k) : ∃ r1, Trim r r1 ∧ Reads T (.star Rule.SP) r k [] r1 k := by
  obtain ⟨n, r1, rfl, h⟩ := h
  exact ⟨r1, ⟨n, rfl⟩, reads_sps h.notSp k⟩

theorem notName_dash (x : Str) : NotName T ('-' :: x) := by simpa [NotName] using not_nameChar (T := T) (c := '-') (by decide)

/-- There is no mapping where a sequence starts. -/
theorem Start.not_hash {map : Bool} {cs : List Str} {start x : Str} {c : Nat} (h : Start T map cs start (indent c ++ '-' :: x)) (K) : Not T (.rule .hash) start K := by
  obtain ⟨s1, mid, hs1, hs2, hs3⟩ := h.hash K
  exact .rule (.seqR hs1 (.seqR hs2 (.seqR hs3 (.seqR (.push (reads_sps (bare_dash x).notSp K)) (.seqL (not_first_hash_element (not_hash_element_head (notName_dash x) _)))))))

theorem array_value {cs : List Str} {x r : Str} {c : Nat} {K : List Str} {ds : List ArrayData} {hold cl b next s}
    (hx : ∃ tl, x = '-' :: tl) (he : ElementsAt T c K ds x r) (hf : Follow T hold cl b next s r) :
    ∃ r', Trim r r' ∧ ∀ start, Start T false cs start (indent c ++ (x ++ r)) →
      Reads T (.rule .array) start K [(.array, .yaml (.array (cs.map .comment ++ ds)))] r' K ∧
      Reads T (.rule .yaml_value) start K [(.yaml_value, .yaml (.array (cs.map .comment ++ ds)))] r' K := by
  obtain ⟨tl, rfl⟩ := hx
  obtain ⟨e1, more, l, rest, rfl, hl, h1, hsp, h2⟩ := he
  obtain ⟨rest', ht, hsps⟩ := hsp.reads (T := T) (indent c :: K)
  obtain ⟨r', htr, hst⟩ := h2 rest' ht
  refine ⟨r', htr, fun start hs => ?_⟩
  obtain ⟨mid, hs1, hs2⟩ := hs.coll rfl K
  have hb : Reads T ((Rule.block_array).body T) start K
      ([(.commentnls, .strs cs)] ++ ([] ++ ([] ++ ([(.first_block_array_element, .arrayData e1)] ++ ([] ++ (more.map (fun d => (Rule.block_array_data, Val.arrayData d)) ++
        ([] ++ [(.commentnls, .strs [])]))))))) r' K :=
    .seq hs1 (.seq hs2 (.seq (.push (reads_sps (bare_dash _).notSp K)) (.seq (reads_first_element hl h1) (.seq hsps (.seq (hst .blank (.inl rfl))
      (.seq (.drop _ _ K) ((hf.trim htr).no_comments K)))))))
  have := reads_array_value (hs.not_hash K) hs.bracket (.rule rfl hb fun t => act_block_array cs e1 more t)
  simpa using this

/-- A sequence on the line of a dash or with an anchor, with more elements. -/
theorem alternative_elements {c : Nat} {k : List Str} {x y r r0 : Str} {l e1} {ds : List ArrayData} {hold cl b next s}
    (hl : ElementKids l e1) (h1 : Reads T elementExpr x k l r0 k)
    (hb : ∀ K, Reads T (.rule .blanknl) r0 K [] (indent c ++ (y ++ r)) K)
    (hy : NotSp (y ++ r)) (he : ElementsAt T c k ds y r) (hf : Follow T hold cl b next s r) :
    ∃ r', Trim r r' ∧ Reads T (.rule .alternative_array) x k [(.alternative_array, .yaml (.array (e1 ++ ds)))] r' k := by
  obtain ⟨e2, more, l', rest, rfl, hl', h2, hsp, h3⟩ := he
  obtain ⟨rest', ht, hsps⟩ := hsp.reads (T := T) (indent c :: k)
  obtain ⟨r', htr, hst⟩ := h3 rest' ht
  refine ⟨r', htr, ?_⟩
  have hb : Reads T ((Rule.alternative_array).body T) x k
      ([(.first_block_array_element, .arrayData e1)] ++ ([] ++ ([] ++ ([(.first_block_array_element, .arrayData e2)] ++ ([] ++
        (more.map (fun d => (Rule.block_array_data, Val.arrayData d)) ++ ([] ++ [(.commentnls, .strs [])]))))))) r' k :=
    .seq (reads_first_element hl h1) (.seq (hb _) (.seq (.push (reads_sps hy _)) (.seq (reads_first_element hl' h2) (.seq hsps
      (.seq (hst .blanknl (.inr rfl)) (.seq (.drop _ _ _) ((hf.trim htr).no_comments _)))))))
  refine .rule rfl hb fun t => ?_
  simp only [List.cons_append, List.nil_append, oks_cons, act, Consume.alternativeArray, Out.bind_ok, Val.asArrayData]
  rw [manyThen_oks .block_array_data Val.asArrayData Val.arrayData (fun _ => rfl) more .commentnls Val.asStrs (.strs []) [] rfl]
  simp

/-! ## where collections start -/

theorem not_alternative_head {s : Str} (h : NotName T s) (h' : s.head? ≠ some '-') (k) : Not T (.alt (.rule .alternative_hash) (.rule .alternative_array)) s k :=
  not_alternative (not_hash_element_head h k) (not_element_head h' k)

theorem value_coll {start r : Str} {k : List Str} {y : Yaml} (ha : start.head? ≠ some '&')
    (hno : Not T (.alt (.rule .alternative_hash) (.rule .alternative_array)) start k)
    (h : Reads T (.rule .yaml_value) start k [(.yaml_value, .yaml y)] r k) :
    Reads T (.rule .block_array_aliased_yaml_value) start k [(.block_array_aliased_yaml_value, .aliased ⟨none, y⟩)] r k := by
  have h1 : Not T (.rule .alternative_aliased_yaml_value) start k := .rule (.seqR (.optNone (.seqL (noAlias_head ha k))) hno)
  have h2 : Reads T (.rule .aliased_yaml_value) start k [(.aliased_yaml_value, .aliased ⟨none, y⟩)] r k :=
    .rule rfl (.seq (.optNone (.seqL (noAlias_head ha k))) h) fun _ => rfl
  exact .rule rfl (.altR h1 h2) fun _ => rfl

theorem value_coll_named {a w z start r : Str} {m : Nat} {k : List Str} {y : Yaml} (hn : NameText T a) (hname : NotName T (indent m ++ start))
    (hw : indent m ++ start = w ++ z) (hws : Ws w) (hz : Dark z) (hno : Not T (.alt (.rule .alternative_hash) (.rule .alternative_array)) z k)
    (hs : NotSp start) (h : Reads T (.rule .yaml_value) start k [(.yaml_value, .yaml y)] r k) :
    Reads T (.rule .block_array_aliased_yaml_value) ('&' :: (a ++ (indent m ++ start))) k [(.block_array_aliased_yaml_value, .aliased ⟨some a, y⟩)] r k := by
  have h1 : Not T (.rule .alternative_aliased_yaml_value) ('&' :: (a ++ (indent m ++ start))) k := by
    refine .rule (.seqR (.opt (.seq (l₂ := []) (reads_alias hn hname k) ?_)) hno)
    rw [hw]
    exact hws.reads hz k
  have h2 : Reads T (.rule .aliased_yaml_value) ('&' :: (a ++ (indent m ++ start))) k [(.aliased_yaml_value, .aliased ⟨some a, y⟩)] r k :=
    .rule rfl (.seq (.opt (.seq (reads_alias hn hname k) (reads_sps hs k))) h) fun _ => rfl
  exact .rule rfl (.altR h1 h2) fun _ => rfl

theorem value_alternative {x r : Str} {k : List Str} {y : Yaml} {q : Rule} (hq : q = .alternative_hash ∨ q = .alternative_array)
    (ha : x.head? ≠ some '&') (h : Reads T (.alt (.rule .alternative_hash) (.rule .alternative_array)) x k [(q, .yaml y)] r k) :
    Reads T (.rule .block_array_aliased_yaml_value) x k [(.block_array_aliased_yaml_value, .aliased ⟨none, y⟩)] r k := by
  have h1 : Reads T (.rule .alternative_aliased_yaml_value) x k [(.alternative_aliased_yaml_value, .aliased ⟨none, y⟩)] r k := by
    refine .rule rfl (.seq (.optNone (.seqL (noAlias_head ha k))) h) fun _ => ?_
    rcases hq with rfl | rfl <;> rfl
  exact .rule rfl (.altL h1) fun _ => rfl

theorem value_alternative_named {a w x r : Str} {k : List Str} {y : Yaml} {q : Rule} (hq : q = .alternative_hash ∨ q = .alternative_array)
    (hn : NameText T a) (hname : NotName T (w ++ x)) (hws : Ws w) (hx : Dark x)
    (h : Reads T (.alt (.rule .alternative_hash) (.rule .alternative_array)) x k [(q, .yaml y)] r k) :
    Reads T (.rule .block_array_aliased_yaml_value) ('&' :: (a ++ (w ++ x))) k [(.block_array_aliased_yaml_value, .aliased ⟨some a, y⟩)] r k := by
  have h1 : Reads T (.rule .alternative_aliased_yaml_value) ('&' :: (a ++ (w ++ x))) k [(.alternative_aliased_yaml_value, .aliased ⟨some a, y⟩)] r k := by
    refine .rule rfl (.seq (.opt (.seq (reads_alias hn hname k) (hws.reads hx k))) h) fun _ => ?_
    rcases hq with rfl | rfl <;> rfl
  exact .rule rfl (.altL h1) fun _ => rfl

theorem ws_indent (n : Nat) : Ws (indent n) := fun c hc => .inl (List.eq_of_mem_replicate hc)

theorem ws_break {nl : Str} (h : Break nl) : Ws nl := by
  rcases h with rfl | rfl <;> simp [Ws]

theorem _root_.YamlSubset.Spec.Blanks.ws {b : Str} (h : Blanks b) : Ws b := by
  induction h with
  | nil => exact Ws.nil
  | line hn h ih => exact ((ws_indent _).append (ws_break hn)).append ih

theorem Bare.dark {y : Str} (h : Bare y) : Dark y := h.spaces

theorem notName_break {m : Nat} {nl : Str} (hn : Break nl) (q : Str) : NotName T (indent m ++ (nl ++ q)) := by
  intro c hc
  rcases header_head hn q c hc with rfl | rfl | rfl <;> exact not_nameChar (by decide)

theorem not_dash_break {nl : Str} (hn : Break nl) (q : Str) : (nl ++ q).head? ≠ some '-' ∧ (nl ++ q).head? ≠ some '&' := by
  rcases hn with rfl | rfl <;> simp

theorem notName_hash (q : Str) : NotName T ('#' :: q) := by simpa [NotName] using not_nameChar (T := T) (c := '#') (by decide)

/-- Comment lines without the spaces before the first. -/
theorem _root_.YamlSubset.Spec.CommentLines.split {cs : List Str} {x : Str} (h : CommentLines cs x) (hcs : cs ≠ []) :
    ∃ m x', x = indent m ++ x' ∧ CommentLines cs x' ∧ ∃ y, x' = '#' :: y := by
  cases h with
  | nil => exact absurd rfl hcs
  | @line m c nl b cs x hc hn hb h =>
    refine ⟨m, '#' :: c ++ nl ++ b ++ x, by simp [pad_eq], ?_, _, rfl⟩
    have := CommentLines.line (m := 0) hc hn hb h
    simpa [pad] using this

/-- A collection on lines of its own. -/
theorem _root_.YamlSubset.Spec.BlockLead.value {map : Bool} {hold : Holder} {a : Option Str} {cs : List Str} {lead : Str} (h : BlockLead T map hold a cs lead)
    {c : Nat} {z r' : Str} {k : List Str} {y : Yaml} (hz : Bare z) (hz' : z.head? ≠ some '[' ∧ z.head? ≠ some '&')
    (hno : (∃ nl b, Break nl ∧ Blanks b ∧ lead = nl ++ b ∧ hold = .key ∧ a = none ∧ cs = []) → Not T (.alt (.rule .alternative_hash) (.rule .alternative_array)) (indent c ++ z) k)
    (hv : ∀ start, Start T map cs start (indent c ++ z) → Reads T (.rule .yaml_value) start k [(.yaml_value, .yaml y)] r' k) :
    Reads T (leadExpr hold) (lead ++ (indent c ++ z)) k [(.block_array_aliased_yaml_value, .aliased ⟨a, y⟩)] r' k := by
  have hfull : FullLine (indent c ++ z) := ⟨c, z, rfl, hz.black⟩
  cases h with
  | @nextLine _ cs nl b x hn hb h =>
    have hst := hv _ (start_comments (map := map) h hz hz'.1)
    have hval : Reads T (.rule .block_array_aliased_yaml_value) (x ++ (indent c ++ z)) k [(.block_array_aliased_yaml_value, .aliased ⟨none, y⟩)] r' k := by
      rcases h.shape (indent c ++ z) with ⟨hcs, rfl⟩ | ⟨-, m, w, -, he⟩
      · refine value_coll ?_ (hno ⟨nl, b, hn, hb, by simp, rfl, rfl, hcs⟩) hst
        cases c with
        | zero => simpa [indent] using hz'.2
        | succ c => simp [indent_succ]
      · rw [he] at hst ⊢
        cases m with
        | zero => exact value_coll (by simp [indent]) (not_alternative_head (notName_hash _) (by simp [indent]) k) hst
        | succ m => exact value_coll (by simp [indent_succ]) (not_alternative_head (notName_sps m _) (by simp [indent_succ]) k) hst
    have := Reads.seq (l₁ := []) (.altR (not_sp1 (hn.notSp (b ++ (x ++ (indent c ++ z)))) k) (reads_blanknl_lines (T := T) (n := 0) hn hb (h.full hfull) k)) hval
    simpa [leadExpr, indent] using this
  | @spaces _ hold n nl b hn hb =>
    have hst := hv _ (start_blanks (map := map) hn hb hz)
    have hd := not_dash_break hn (b ++ (indent c ++ z))
    have := reads_leads (hold := hold) (n := n) (hn.notSp _) (value_coll hd.2 (not_alternative_head (notName_break (m := 0) hn _) hd.1 k) hst)
    simpa [pad_eq] using this
  | @comment _ hold a cs l x hl hcs h =>
    obtain ⟨m, x', rfl, h', w, rfl⟩ := h.split hcs
    have hst := hv _ (start_comments (map := map) h' hz hz'.1)
    cases hl with
    | @plain n =>
      have := reads_leads (hold := hold) (n := n + m) (by simp [NotSp]; decide)
        (value_coll (start := '#' :: w ++ (indent c ++ z)) (by simp) (not_alternative_head (notName_hash _) (by simp) k) hst)
      have he : indent (n + m + 1) = indent (n + 1) ++ indent m := by rw [← indent_add]; congr 1; omega
      rw [he] at this
      simpa [pad_eq] using this
    | @named a n j ha =>
      have hnn : NotName T (indent (j + 1 + m) ++ ('#' :: w ++ (indent c ++ z))) := by
        have he : j + 1 + m = (j + m) + 1 := by omega
        rw [he]; exact notName_sps _ _
      have := reads_leads (hold := hold) (n := n) (notSp_amp _) (value_coll_named (m := j + 1 + m) ha hnn rfl (ws_indent _) (by simp [Dark])
        (not_alternative_head (notName_hash _) (by simp) k) (by simp [NotSp]; decide) hst)
      rw [indent_add (j + 1) m] at this
      simpa [pad_eq] using this
  | @named hold a cs n m nl x ha hn hcs h =>
    have hst := hv _ (start_lines hn h hz)
    obtain ⟨j, x', rfl, h', w, rfl⟩ := h.split hcs
    have := reads_leads (hold := hold) (n := n) (notSp_amp _) (value_coll_named (m := m) (w := indent m ++ (nl ++ indent j)) (z := '#' :: w ++ (indent c ++ z)) ha
      (notName_break hn _) (by simp) ((ws_indent m).append ((ws_break hn).append (ws_indent j))) (by simp [Dark])
      (not_alternative_head (notName_hash _) (by simp) k) (hn.notSp _) hst)
    simpa [pad_eq] using this

/-- A collection that an alternative rule reads. -/
theorem _root_.YamlSubset.Spec.InnerLead.alternative {hold : Holder} {a : Option Str} {s c : Nat} {lead : Str} (h : InnerLead T hold a s c lead)
    {z r' : Str} {k : List Str} {y : Yaml} {q : Rule} (hq : q = .alternative_hash ∨ q = .alternative_array) (hz : Bare z) (hz' : z.head? ≠ some '&')
    (hv : Reads T (.alt (.rule .alternative_hash) (.rule .alternative_array)) z k [(q, .yaml y)] r' k) :
    Reads T (leadExpr hold) (lead ++ z) k [(.block_array_aliased_yaml_value, .aliased ⟨a, y⟩)] r' k := by
  cases h with
  | @dash n => exact reads_leads hz.notSp (value_alternative hq hz' hv)
  | @named hold a s c n m nl b ha hn hb =>
    have := reads_leads (hold := hold) (n := n) (notSp_amp _) (value_alternative_named (w := indent m ++ (nl ++ (b ++ indent c))) (x := z) hq ha
      (by simpa using notName_break (T := T) hn (b ++ (indent c ++ z))) ((ws_indent m).append ((ws_break hn).append (hb.ws.append (ws_indent c)))) (Bare.dark hz) hv)
    simpa [pad_eq] using this

/-- A collection that the alternative rules do not read. -/
theorem _root_.YamlSubset.Spec.InnerLead.value {hold : Holder} {a : Option Str} {s c : Nat} {lead : Str} (h : InnerLead T hold a s c lead)
    {z r : Str} {k : List Str} {y : Yaml} (hz : Bare z) (hz' : z.head? ≠ some '[' ∧ z.head? ≠ some '&')
    (hno : Not T (.alt (.rule .alternative_hash) (.rule .alternative_array)) z k)
    (hv : ∀ start c', c' ≤ c → Start T false [] start (indent c' ++ z) → ∃ r', Trim r r' ∧ Reads T (.rule .yaml_value) start k [(.yaml_value, .yaml y)] r' k) :
    ∃ r', Trim r r' ∧ Reads T (leadExpr hold) (lead ++ z) k [(.block_array_aliased_yaml_value, .aliased ⟨a, y⟩)] r' k := by
  cases h with
  | @dash n =>
    obtain ⟨r', htr, hst⟩ := hv _ 0 (by omega) (start_comments (map := false) (x := []) (c := 0) .nil hz hz'.1)
    exact ⟨r', htr, reads_leads hz.notSp (value_coll hz'.2 hno hst)⟩
  | @named hold a s c n m nl b ha hn hb =>
    obtain ⟨r', htr, hst⟩ := hv _ c (by omega) (start_blanks (map := false) hn hb hz)
    refine ⟨r', htr, ?_⟩
    have := reads_leads (hold := hold) (n := n) (notSp_amp _) (value_coll_named (m := m) (w := indent m ++ (nl ++ (b ++ indent c))) (z := z) ha
      (notName_break hn _) (by simp) ((ws_indent m).append ((ws_break hn).append (hb.ws.append (ws_indent c)))) (Bare.dark hz) hno (hn.notSp _) hst)
    simpa [pad_eq] using this

end YamlSubset.Lay
