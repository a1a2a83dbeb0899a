import Verif.Lemmas.ReadFollow
import Verif.Lemmas.Induct

/-! # Reading formatted block collections -/

namespace YamlSubset

open Peg Spec

variable {T : CharTables}

/-- The parent the formatter passes on. -/
def holderParent : Holder → Parent
  | .key => .hash
  | .dash => .array

/-- The text of a value after its key or dash. -/
def valueText (s : Nat) (h : Holder) (a : Option Str) (y : Yaml) : Str :=
  match a with
  | some n => [' ', '&'] ++ n ++ y.format s none
  | none => y.format s (some (holderParent h))

/-- What the grammar has after the colon of a key, or after a dash. -/
def leadExpr : Holder → Expr Rule
  | .key => .seq (.alt (.plus Rule.SP) (.rule .blanknl)) (.rule .block_array_aliased_yaml_value)
  | .dash => .seq (.plus Rule.SP) (.rule .block_array_aliased_yaml_value)

theorem reads_lead {h : Holder} {s r : Str} {k k' : List Str} {l} (hs : NotSp s)
    (hr : Reads T (.rule .block_array_aliased_yaml_value) s k l r k') : Reads T (leadExpr h) (' ' :: s) k l r k' := by
  cases h with
  | key => exact Reads.seq (.altL (reads_sp1 hs k)) hr
  | dash => exact Reads.seq (reads_sp1 hs k) hr

/-- Values on one line and block scalars. -/
theorem reads_lead_value {hold : Holder} {s : Nat} {a : Option Str} {r : Str} {k : List Str} {y : Yaml}
    (ha : ∀ n, a = some n → NameText T n) (h : ∀ p, ∃ body r', y.format s p = ' ' :: body ∧ ValueAt T k body r r' y) :
    ∃ r', Left r r' ∧ Reads T (leadExpr hold) (valueText s hold a y ++ r) k [(.block_array_aliased_yaml_value, .aliased ⟨a, y⟩)] r' k := by
  cases a with
  | none =>
    obtain ⟨body, r', hb, hv⟩ := h (some (holderParent hold))
    refine ⟨r', hv.left, ?_⟩
    simp only [valueText, hb, List.cons_append]
    exact reads_lead hv.coll.bare.notSp (reads_value hv.coll hv.alias hv.reads)
  | some n =>
    obtain ⟨body, r', hb, hv⟩ := h none
    refine ⟨r', hv.left, ?_⟩
    simp only [valueText, hb, List.cons_append, List.nil_append, List.append_assoc]
    exact reads_lead (by simp [NotSp]; decide) (reads_value_named (ha n rfl) hv.coll hv.reads)

theorem reads_oneLine {hold : Holder} {s : Nat} {a : Option Str} {r : Str} {k : List Str} {y : Yaml}
    (ha : ∀ n, a = some n → NameText T n) (h : OneLine T y) (hr : LineEnd r ∨ ((∃ t, r = ' ' :: '#' :: t) ∧ Commentable y)) :
    ∃ r', Left r r' ∧ Reads T (leadExpr hold) (valueText s hold a y ++ r) k [(.block_array_aliased_yaml_value, .aliased ⟨a, y⟩)] r' k :=
  reads_lead_value ha fun p => h.reads hr s p k

theorem Left.lineEnd {r r' : Str} (h : Left r r') (hr : LineEnd r) : r' = r := by
  rcases h with h | h
  · exact h
  · subst h; rcases hr with hr | hr <;> simp at hr

/-! ## mapping entries -/

/-- The children of an entry with an optional comment at the end of its line, and the items they make. -/
def EntryKids (l : List (Rule × Val)) (ds : List HashData) : Prop :=
  (∃ e, l = [(.hash_element, .hashElement e)] ∧ ds = [.element e]) ∨
    ∃ e c, l = [(.hash_element, .hashElement e), (.comment, .str c)] ∧ ds = [.element e, .inlineComment c]

/-- An entry with an optional comment. -/
def entryExpr : Expr Rule := .seq (.rule .hash_element) (.opt (.rule .comment))

theorem reads_no_comment {r : Str} (h : LineEnd r) (k) : Reads T (.opt (.rule .comment)) r k [] r k :=
  .optNone (not_comment (n := 0) h.notSp h.noHash k)

theorem reads_commentnls_none {r : Str} (h : LineEnd r) (k) : Reads T (.rule .commentnls) r k [(.commentnls, .strs [])] r k :=
  reads_commentnls_nil (n := 0) h.notSp h.noHash k

theorem reads_hash_element {key x r : Str} {k : List Str} {v : AliasedYaml} (hk : KeyText T key)
    (h : Reads T (leadExpr .key) x k [(.block_array_aliased_yaml_value, .aliased v)] r k) :
    Reads T (.rule .hash_element) (key ++ ':' :: x) k [(.hash_element, .hashElement ⟨key, v⟩)] r k :=
  .rule rfl (.seq (reads_hash_key hk k) (.seq (.lit ':' _ k) h)) fun _ => rfl

theorem reads_entry {key x r : Str} {k : List Str} {v : AliasedYaml} (hk : KeyText T key)
    (h : Reads T (leadExpr .key) x k [(.block_array_aliased_yaml_value, .aliased v)] r k) (hr : LineEnd r) :
    ∃ l, EntryKids l [.element ⟨key, v⟩] ∧ Reads T entryExpr (key ++ ':' :: x) k l r k :=
  ⟨_, .inl ⟨_, rfl, rfl⟩, .seq (reads_hash_element hk h) (reads_no_comment hr k)⟩

theorem reads_left_comment {c r r' : Str} (hc : LineText c) (hr : LineEnd r) (h : Left (' ' :: '#' :: (c ++ r)) r') (k) :
    Reads T (.opt (.rule .comment)) r' k [(.comment, .str c)] r k := by
  rcases h with rfl | h
  · exact .opt (reads_comment (n := 1) hc hr k)
  · simp only [List.cons.injEq, true_and] at h
    subst h
    exact .opt (reads_comment (n := 0) hc hr k)

theorem reads_entry_comment {key c r : Str} {s : Nat} {a : Option Str} {v : Yaml} (hk : KeyText T key)
    (ha : ∀ n, a = some n → NameText T n) (hv : OneLine T v) (hv' : Commentable v) (hc : LineText c) (hr : LineEnd r) (k) :
    ∃ l, EntryKids l [.element ⟨key, ⟨a, v⟩⟩, .inlineComment c] ∧
      Reads T entryExpr (key ++ ':' :: (valueText s .key a v ++ ' ' :: '#' :: (c ++ r))) k l r k := by
  obtain ⟨r', hl, hrd⟩ := reads_oneLine (hold := .key) (s := s) (k := k) ha hv (r := ' ' :: '#' :: (c ++ r)) (.inr ⟨⟨_, rfl⟩, hv'⟩)
  exact ⟨_, .inr ⟨_, _, rfl, rfl⟩, .seq (reads_hash_element hk hrd) (reads_left_comment hc hr hl k)⟩

theorem reads_first_hash_element {x r : Str} {k : List Str} {l ds} (hl : EntryKids l ds) (h : Reads T entryExpr x k l r k) :
    Reads T (.rule .first_hash_element) x k [(.first_hash_element, .hashData ds)] r k := by
  rcases hl with ⟨e, rfl, rfl⟩ | ⟨e, c, rfl, rfl⟩ <;> exact .rule rfl h fun _ => rfl

theorem reads_hash_element_data {s : Nat} {cs : List Str} {x r : Str} {k : List Str} {l ds} (hcs : ∀ c ∈ cs, LineText c) (hx : Bare x)
    (hl : EntryKids l ds) (h : Reads T entryExpr x (indent s :: k) l r (indent s :: k)) :
    Reads T (.rule .hash_element_data) (lines s cs ++ '\n' :: (indent s ++ x)) (indent s :: k)
      [(.hash_element_data, .hashData (cs.map .comment ++ ds))] r (indent s :: k) := by
  rw [lines_nl]
  have h0 : Reads T ((Rule.hash_element_data).body T) ('\n' :: (linesNl s cs ++ (indent s ++ x))) (indent s :: k)
      ((.commentnls, .strs cs) :: l) r (indent s :: k) :=
    .seq (FullLine.blanknl (FullLine.linesNl ⟨s, x, rfl, hx.black⟩) _) (.seq (reads_commentnls hcs hx _) (.seq (.peek _ _ k) h))
  rcases hl with ⟨e, rfl, rfl⟩ | ⟨e, c, rfl, rfl⟩ <;> exact .rule rfl h0 fun _ => rfl

/-- The entries of a mapping whose indentation the parser has entered. -/
def EntriesAt (T : CharTables) (s : Nat) (k : List Str) (ds : List HashData) (text r : Str) : Prop :=
  ∃ (cs : List Str) (e1 : List HashData) (more : List (List HashData)) (x : Char) (tail rest : Str) (l : List (Rule × Val)), (∀ c ∈ cs, LineText c) ∧ ds = cs.map .comment ++ e1 ++ more.flatten ∧
    text = lines s cs ++ '\n' :: (indent s ++ (x :: tail)) ∧ NameChar T x ∧ EntryKids l e1 ∧
    Reads T entryExpr (x :: tail) (indent s :: k) l rest (indent s :: k) ∧
    Reads T (.star (.rule .hash_element_data)) rest (indent s :: k) (more.map fun d => (.hash_element_data, .hashData d)) r (indent s :: k)

theorem bare_name {x : Char} {t : Str} (h : NameChar T x) : Bare (x :: t) := by
  simpa [Bare] using nameChar_black h

theorem EntriesAt.comment {s : Nat} {k ds text r} {c : Str} (h : EntriesAt T s k ds text r) (hc : LineText c) :
    EntriesAt T s k (.comment c :: ds) ('\n' :: (indent s ++ '#' :: c) ++ text) r := by
  obtain ⟨cs, e1, more, x, tail, rest, l, hcs, rfl, rfl, hx, hl, h1, h2⟩ := h
  refine ⟨c :: cs, e1, more, x, tail, rest, l, by simpa using ⟨hc, hcs⟩, by simp, by simp [lines], hx, hl, h1, h2⟩

/-- The entries that follow are the rest of the mapping. -/
theorem EntriesAt.star {s : Nat} {k ds text r} (h : EntriesAt T s k ds text r) :
    ∃ more : List (List HashData), ds = more.flatten ∧
      Reads T (.star (.rule .hash_element_data)) text (indent s :: k) (more.map fun d => (.hash_element_data, .hashData d)) r (indent s :: k) := by
  obtain ⟨cs, e1, more, x, tail, rest, l, hcs, rfl, rfl, hx, hl, h1, h2⟩ := h
  refine ⟨(cs.map .comment ++ e1) :: more, by simp, ?_⟩
  exact Reads.star (reads_hash_element_data hcs (bare_name hx) hl h1) h2

theorem EntriesAt.entry {s : Nat} {k ds text r} {key x : Str} {l e1} (h : EntriesAt T s k ds text r) (hk : KeyText T key) (hl : EntryKids l e1)
    (hrd : Reads T entryExpr (key ++ x) (indent s :: k) l text (indent s :: k)) :
    EntriesAt T s k (e1 ++ ds) ('\n' :: (indent s ++ (key ++ x))) r := by
  obtain ⟨more, rfl, hst⟩ := h.star
  obtain ⟨c, t, hct, hc⟩ := hk.notSp x
  rw [hct] at hrd ⊢
  exact ⟨[], e1, more, c, t, text, l, by simp, by simp, by simp [lines], hc, hl, hrd, hst⟩

theorem entriesAt_last {s : Nat} {k r} {key x : Str} {l e1} (hk : KeyText T key) (hl : EntryKids l e1)
    (hrd : Reads T entryExpr (key ++ x) (indent s :: k) l r (indent s :: k)) (hstop : Not T (.rule .hash_element_data) r (indent s :: k)) :
    EntriesAt T s k e1 ('\n' :: (indent s ++ (key ++ x))) r := by
  obtain ⟨c, t, hct, hc⟩ := hk.notSp x
  rw [hct] at hrd ⊢
  exact ⟨[], e1, [], c, t, r, l, by simp, by simp, by simp [lines], hc, hl, hrd, .starNil hstop⟩

theorem EntriesAt.follow {s t : Nat} {k ds text r} (h : EntriesAt T s k ds text r) : Follow T true .key (s + 2) t text := by
  obtain ⟨cs, e1, more, x, tail, rest, l, hcs, rfl, rfl, hx, hl, h1, h2⟩ := h
  refine ⟨s, cs, _, rfl, hcs, fun _ => ⟨by omega, by simp⟩, .inr ⟨s, x, tail, rfl, by omega, by simp, bare_name hx, fun _ => ?_, by simp⟩⟩
  rintro rfl; exact not_nameChar (by decide) hx

theorem EntriesAt.follow_flat {s : Nat} {k ds text r} (h : EntriesAt T s k ds text r) : Follow T false .key (s + 2) s text := by
  obtain ⟨cs, e1, more, x, tail, rest, l, hcs, rfl, rfl, hx, hl, h1, h2⟩ := h
  refine ⟨s, cs, _, rfl, hcs, fun _ => ⟨by omega, by simp⟩, .inr ⟨s, x, tail, rfl, by omega, by simp, bare_name hx, fun _ => ?_, by simp⟩⟩
  rintro rfl; exact not_nameChar (by decide) hx

/-! ## formatted mappings -/

theorem formatHash_entry (s : Nat) (par : Option Parent) (first : Bool) (hp : (par = some .array && first) = false) (key : Str) (a : Option Str)
    (v : Yaml) (ds : List HashData) :
    formatHash s par first (.element ⟨key, ⟨a, v⟩⟩ :: ds) =
      '\n' :: (indent s ++ (key ++ ':' :: (valueText (s + 2) .key a v ++ formatHash s par false ds))) := by
  cases a <;> simp [formatHash, valueText, holderParent, hp]

theorem formatHash_dash (s : Nat) (key : Str) (a : Option Str) (v : Yaml) (ds : List HashData) :
    formatHash s (some .array) true (.element ⟨key, ⟨a, v⟩⟩ :: ds) =
      ' ' :: (key ++ ':' :: (valueText (s + 2) .key a v ++ formatHash s (some .array) false ds)) := by
  cases a <;> simp [formatHash, valueText, holderParent]

theorem formatHash_comment (s : Nat) (par : Option Parent) (first : Bool) (c : Str) (ds : List HashData) :
    formatHash s par first (.comment c :: ds) = '\n' :: (indent s ++ '#' :: c) ++ formatHash s par false ds := by
  simp [formatHash]

theorem formatHash_inlineComment (s : Nat) (par : Option Parent) (first : Bool) (c : Str) (ds : List HashData) :
    formatHash s par first (.inlineComment c :: ds) = ' ' :: '#' :: (c ++ formatHash s par false ds) := by
  simp [formatHash]

/-- A value is read in its place. -/
def ValueReads (T : CharTables) (p : Place) (hold : Holder) (named : Bool) (y : Yaml) : Prop :=
  ∀ (a : Option Str) (s t : Nat) (k : List Str) (r : Str), a.isSome = named → (∀ n, a = some n → NameText T n) → t < s →
    (p.flush = true → s = t + 2) → Follow T p.deep p.next s t r →
    Reads T (leadExpr hold) (valueText s hold a y ++ r) (indent t :: k) [(.block_array_aliased_yaml_value, .aliased ⟨a, y⟩)] r (indent t :: k)

theorem entries_reads {P : Place → Holder → Bool → Yaml → Prop} {next : Next} {ds : List HashData} (h : Entries T P next ds)
    (hP : ∀ key a v, HashData.element ⟨key, ⟨a, v⟩⟩ ∈ ds → ∀ p hold named, P p hold named v → ValueReads T p hold named v)
    (s : Nat) (par : Option Parent) (k : List Str) (r : Str) (hf : Follow T false next (s + 2) s r)
    (hstop : Not T (.rule .hash_element_data) r (indent s :: k)) : EntriesAt T s k ds (formatHash s par false ds ++ r) r := by
  induction h with
  | comment hc h ih =>
    rw [formatHash_comment, List.append_assoc]
    exact (ih (fun key a v hm => hP key a v (by simp [hm])) hf).comment hc
  | @last next key a v hk ha hv =>
    rw [formatHash_entry _ _ _ (by simp)]
    obtain ⟨l, hl, hrd⟩ := reads_entry hk (hP key a v (by simp) _ _ _ hv a (s + 2) s k r rfl ha (by omega) (fun _ => rfl) hf) hf.lineEnd
    simp only [formatHash, List.append_nil, List.cons_append, List.append_assoc]
    exact entriesAt_last hk hl hrd hstop
  | @lastComment next key a v c hk ha hv hv' hc =>
    rw [formatHash_entry _ _ _ (by simp), formatHash_inlineComment]
    obtain ⟨l, hl, hrd⟩ := reads_entry_comment (s := s + 2) hk ha hv hv' hc hf.lineEnd (indent s :: k)
    simp only [formatHash, List.append_nil, List.cons_append, List.append_assoc]
    exact entriesAt_last hk hl hrd hstop
  | @entry next key a v ds hk ha hv h ih =>
    have ih := ih (fun key a v hm => hP key a v (by simp [hm])) hf
    rw [formatHash_entry _ _ _ (by simp)]
    obtain ⟨l, hl, hrd⟩ := reads_entry hk (hP key a v (by simp) _ _ _ hv a (s + 2) s k _ rfl ha (by omega) (fun _ => rfl) ih.follow_flat)
      ih.follow_flat.lineEnd
    simp only [List.cons_append, List.append_assoc]
    exact ih.entry hk hl hrd
  | @entryComment next key a v c ds hk ha hv hv' hc h ih =>
    have ih := ih (fun key a v hm => hP key a v (by simp [hm])) hf
    rw [formatHash_entry _ _ _ (by simp), formatHash_inlineComment]
    obtain ⟨l, hl, hrd⟩ := reads_entry_comment (s := s + 2) hk ha hv hv' hc ih.follow_flat.lineEnd (indent s :: k)
    simp only [List.cons_append, List.append_assoc]
    exact ih.entry hk hl hrd

/-! ## mappings -/

theorem linesNl_head (s : Nat) (cs : List Str) (x : Str) (h : 0 < s) : (linesNl s cs ++ (indent s ++ x)).head? = some ' ' := by
  obtain ⟨s, rfl⟩ : ∃ s', s = s' + 1 := ⟨s - 1, by omega⟩
  cases cs <;> simp [linesNl, indent_succ]

/-- A mapping on lines of its own, before or after the first line break. -/
theorem EntriesAt.hash {s : Nat} {k ds text r} (h : EntriesAt T s k ds text r) (hr : LineEnd r) :
    (∃ q, text = '\n' :: q ∧ FullLine q ∧ (0 < s → q.head? = some ' ') ∧ Reads T (.rule .hash) q k [(.hash, .yaml (.hash ds))] r k) ∧
      Reads T (.rule .hash) text k [(.hash, .yaml (.hash ds))] r k := by
  obtain ⟨cs, e1, more, x, tail, rest, l, hcs, rfl, rfl, hx, hl, h1, h2⟩ := h
  have hbare := bare_name (t := tail) hx
  have hb : Reads T (.seqs [.rule .commentnls, .rule .blank, .push (.star Rule.SP),
      .rule .first_hash_element, .star (.rule .hash_element_data), .drop, .rule .commentnls]) (linesNl s cs ++ (indent s ++ x :: tail)) k
      ([(.commentnls, .strs cs)] ++ ([(.first_hash_element, .hashData e1)] ++ (more.map (fun d => (Rule.hash_element_data, Val.hashData d)) ++ [(.commentnls, .strs [])]))) r k :=
    .seq (reads_commentnls hcs hbare k) (.seq (l₁ := []) (reads_blank_none hbare.black k) (.seq (l₁ := []) (.push (reads_sps hbare.notSp k))
      (.seq (reads_first_hash_element hl h1) (.seq h2 (.seq (l₁ := []) (.drop _ _ k) (reads_commentnls_none hr k))))))
  have hact : ∀ t, act .hash t (oks ([(.commentnls, .strs cs)] ++ ([(.first_hash_element, .hashData e1)] ++
      (more.map (fun d => (Rule.hash_element_data, Val.hashData d)) ++ [(.commentnls, .strs [])])))) =
      .ok (.yaml (.hash (cs.map .comment ++ e1 ++ more.flatten))) := by
    intro t
    simp only [List.cons_append, List.nil_append, oks_cons, act, Consume.hash, Out.bind_ok, Val.asStrs, Val.asHashData]
    rw [manyThen_oks .hash_element_data Val.asHashData Val.hashData (fun _ => rfl) more .commentnls Val.asStrs (.strs []) [] rfl]
    simp
  have hfull : FullLine (linesNl s cs ++ (indent s ++ x :: tail)) := FullLine.linesNl ⟨s, _, rfl, hbare.black⟩
  rw [lines_nl]
  refine ⟨⟨_, rfl, hfull, linesNl_head s cs _, ?_⟩, ?_⟩
  · refine .rule rfl (.seq (l₁ := []) (.optNone ?_) hb) hact
    obtain ⟨n, q, hq, hqb⟩ := hfull
    rw [hq]
    cases n with
    | zero => exact not_newline hqb.notNl
    | succ n => exact not_newline (by simp [indent_succ])
  · exact .rule rfl (.seq (l₁ := []) (.opt (reads_newline _ k)) hb) hact

/-- An alternative mapping with one entry. -/
theorem reads_alternative_one {x r : Str} {k : List Str} {l e1} (hl : EntryKids l e1) (h : Reads T entryExpr x k l r k)
    (hno : Not T (.rule .alternative_hash_continuation) r k) (hr : LineEnd r) :
    Reads T (.rule .alternative_hash) x k [(.alternative_hash, .yaml (.hash e1))] r k := by
  refine .rule rfl (.seq (reads_first_hash_element hl h) (.seq (.optNone hno) (reads_commentnls_none hr k))) fun _ => ?_
  simp [act, Consume.alternativeHash, Val.asHashData, Val.asStrs]

/-- An alternative mapping with more entries. -/
theorem EntriesAt.alternative {s t : Nat} {k ds text r} {x : Str} {l e1} (h : EntriesAt T s (indent t :: k) ds text r) (hts : t < s) (hr : LineEnd r)
    (hl : EntryKids l e1) (h1 : Reads T entryExpr x (indent t :: k) l text (indent t :: k)) :
    Reads T (.rule .alternative_hash) x (indent t :: k) [(.alternative_hash, .yaml (.hash (e1 ++ ds)))] r (indent t :: k) := by
  obtain ⟨cs, e2, more, y, tail, rest, l', hcs, rfl, rfl, hy, hl', h2, h3⟩ := h
  have hbare := bare_name (t := tail) hy
  obtain ⟨d, rfl⟩ : ∃ d, s = t + (d + 1) := ⟨s - t - 1, by omega⟩
  have hc : Reads T (.rule .alternative_hash_continuation) (lines (t + (d + 1)) cs ++ '\n' :: (indent (t + (d + 1)) ++ y :: tail)) (indent t :: k)
      [(.alternative_hash_continuation, .hashData (cs.map .comment ++ e2 ++ more.flatten))] r (indent t :: k) := by
    rw [lines_nl]
    have hpk : Reads T (.and (.seq .peek (.plus Rule.SP))) (indent (t + (d + 1)) ++ y :: tail) (indent t :: k) []
        (indent (t + (d + 1)) ++ y :: tail) (indent t :: k) := by
      have h1 := Reads.peek (T := T) (indent t) (indent (d + 1) ++ y :: tail) k
      have h2 : Reads T (.plus Rule.SP) (indent (d + 1) ++ y :: tail) (indent t :: k) [] (y :: tail) (indent t :: k) :=
        single_sp.plus (by simp [indent_succ]) (indent_sp _) (fun c hc => by simp [hbare.notSp c hc]) _
      rw [← List.append_assoc, ← indent_add] at h1
      exact .and (.seq h1 h2)
    have hb : Reads T ((Rule.alternative_hash_continuation).body T) ('\n' :: (linesNl (t + (d + 1)) cs ++ (indent (t + (d + 1)) ++ y :: tail))) (indent t :: k)
        ([(.commentnls, .strs cs)] ++ ([(.first_hash_element, .hashData e2)] ++ (more.map (fun d => (Rule.hash_element_data, Val.hashData d)) ++ []))) r (indent t :: k) :=
      .seq (l₁ := []) (FullLine.blanknl (FullLine.linesNl ⟨_, _, rfl, hbare.black⟩) _) (.seq (reads_commentnls hcs hbare _)
        (.seq (l₁ := []) hpk (.seq (l₁ := []) (.push (reads_sps hbare.notSp _)) (.seq (reads_first_hash_element hl' h2) (.seq h3 (.drop _ _ _))))))
    refine .rule rfl hb fun u => ?_
    simp only [List.cons_append, List.nil_append, List.append_nil, oks_cons, act, Consume.alternativeHashContinuation, Out.bind_ok, Val.asStrs, Val.asHashData]
    rw [many_oks .hash_element_data Val.asHashData Val.hashData (fun _ => rfl) more]
    simp
  refine .rule rfl (.seq (reads_first_hash_element hl h1) (.seq (.opt hc) (reads_commentnls_none hr _))) fun _ => ?_
  simp [act, Consume.alternativeHash, Val.asHashData, Val.asStrs]

/-! ## sequence elements -/

/-- The children of an element with an optional comment at the end of its line, and the items they make. -/
def ElementKids (l : List (Rule × Val)) (ds : List ArrayData) : Prop :=
  (∃ e, l = [(.block_array_element, .arrayDatum (.element e))] ∧ ds = [.element e]) ∨
    ∃ e c, l = [(.block_array_element, .arrayDatum (.element e)), (.comment, .str c)] ∧ ds = [.element e, .inlineComment c]

/-- An element with an optional comment. -/
def elementExpr : Expr Rule := .seq (.rule .block_array_element) (.opt (.rule .comment))

theorem reads_block_array_element {x r : Str} {k : List Str} {v : AliasedYaml}
    (h : Reads T (leadExpr .dash) x k [(.block_array_aliased_yaml_value, .aliased v)] r k) :
    Reads T (.rule .block_array_element) ('-' :: x) k [(.block_array_element, .arrayDatum (.element v))] r k :=
  .rule rfl (.seq (.lit '-' _ k) h) fun _ => rfl

theorem reads_element {x r : Str} {k : List Str} {v : AliasedYaml}
    (h : Reads T (leadExpr .dash) x k [(.block_array_aliased_yaml_value, .aliased v)] r k) (hr : LineEnd r) :
    ∃ l, ElementKids l [.element v] ∧ Reads T elementExpr ('-' :: x) k l r k :=
  ⟨_, .inl ⟨_, rfl, rfl⟩, .seq (reads_block_array_element h) (reads_no_comment hr k)⟩

theorem reads_element_comment {c r : Str} {s : Nat} {a : Option Str} {v : Yaml}
    (ha : ∀ n, a = some n → NameText T n) (hv : OneLine T v) (hv' : Commentable v) (hc : LineText c) (hr : LineEnd r) (k) :
    ∃ l, ElementKids l [.element ⟨a, v⟩, .inlineComment c] ∧
      Reads T elementExpr ('-' :: (valueText s .dash a v ++ ' ' :: '#' :: (c ++ r))) k l r k := by
  obtain ⟨r', hl, hrd⟩ := reads_oneLine (hold := .dash) (s := s) (k := k) ha hv (r := ' ' :: '#' :: (c ++ r)) (.inr ⟨⟨_, rfl⟩, hv'⟩)
  exact ⟨_, .inr ⟨_, _, rfl, rfl⟩, .seq (reads_block_array_element hrd) (reads_left_comment hc hr hl k)⟩

theorem reads_first_element {x r : Str} {k : List Str} {l ds} (hl : ElementKids l ds) (h : Reads T elementExpr x k l r k) :
    Reads T (.rule .first_block_array_element) x k [(.first_block_array_element, .arrayData ds)] r k := by
  rcases hl with ⟨e, rfl, rfl⟩ | ⟨e, c, rfl, rfl⟩ <;> exact .rule rfl h fun _ => rfl

theorem bare_dash (t : Str) : Bare ('-' :: t) := by simp [Bare]; decide

theorem reads_block_array_data {s : Nat} {cs : List Str} {x r : Str} {k : List Str} {l ds} (hcs : ∀ c ∈ cs, LineText c) (hx : Bare x)
    (hl : ElementKids l ds) (h : Reads T elementExpr x (indent s :: k) l r (indent s :: k)) :
    Reads T (.rule .block_array_data) (linesNl s cs ++ (indent s ++ x)) (indent s :: k)
      [(.block_array_data, .arrayData (cs.map .comment ++ ds))] r (indent s :: k) := by
  have h0 : Reads T ((Rule.block_array_data).body T) (linesNl s cs ++ (indent s ++ x)) (indent s :: k)
      ((.commentnls, .strs cs) :: l) r (indent s :: k) :=
    .seq (reads_commentnls hcs hx _) (.seq (.peek _ _ k) h)
  rcases hl with ⟨e, rfl, rfl⟩ | ⟨e, c, rfl, rfl⟩ <;> exact .rule rfl h0 fun _ => rfl

/-- The two ways the grammar goes on to the next element. -/
def ElementsStar (T : CharTables) (s : Nat) (k : List Str) (more : List (List ArrayData)) (text r : Str) : Prop :=
  ∀ q, q = .blank ∨ q = .blanknl → Reads T (.star (.seq (.rule q) (.rule .block_array_data))) text (indent s :: k)
    (more.map fun d => (.block_array_data, .arrayData d)) r (indent s :: k)

/-- The elements of a sequence whose indentation the parser has entered. -/
def ElementsAt (T : CharTables) (s : Nat) (k : List Str) (ds : List ArrayData) (text r : Str) : Prop :=
  ∃ (cs : List Str) (e1 : List ArrayData) (more : List (List ArrayData)) (tail rest : Str) (l : List (Rule × Val)), (∀ c ∈ cs, LineText c) ∧
    ds = cs.map .comment ++ e1 ++ more.flatten ∧
    text = lines s cs ++ '\n' :: (indent s ++ ('-' :: tail)) ∧ ElementKids l e1 ∧
    Reads T elementExpr ('-' :: tail) (indent s :: k) l rest (indent s :: k) ∧ NotSp rest ∧ ElementsStar T s k more rest r

theorem ElementsAt.comment {s : Nat} {k ds text r} {c : Str} (h : ElementsAt T s k ds text r) (hc : LineText c) :
    ElementsAt T s k (.comment c :: ds) ('\n' :: (indent s ++ '#' :: c) ++ text) r := by
  obtain ⟨cs, e1, more, tail, rest, l, hcs, rfl, rfl, hl, h1, hn, h2⟩ := h
  refine ⟨c :: cs, e1, more, tail, rest, l, by simpa using ⟨hc, hcs⟩, by simp, by simp [lines], hl, h1, hn, h2⟩

/-- The elements that follow are the rest of the sequence. -/
theorem ElementsAt.star {s : Nat} {k ds text r} (h : ElementsAt T s k ds text r) :
    ∃ more : List (List ArrayData), ds = more.flatten ∧ ElementsStar T s k more text r := by
  obtain ⟨cs, e1, more, tail, rest, l, hcs, rfl, rfl, hl, h1, hn, h2⟩ := h
  refine ⟨(cs.map .comment ++ e1) :: more, by simp, fun q hq => ?_⟩
  rw [lines_nl]
  have hfull : FullLine (linesNl s cs ++ (indent s ++ '-' :: tail)) := FullLine.linesNl ⟨s, _, rfl, (bare_dash tail).black⟩
  have hq1 : Reads T (.rule q) ('\n' :: (linesNl s cs ++ (indent s ++ '-' :: tail))) (indent s :: k) [] (linesNl s cs ++ (indent s ++ '-' :: tail)) (indent s :: k) := by
    rcases hq with rfl | rfl
    · exact hfull.blank _
    · exact hfull.blanknl _
  exact Reads.star (.seq hq1 (reads_block_array_data hcs (bare_dash tail) hl h1)) (h2 q hq)

theorem ElementsAt.lineEnd {s : Nat} {k ds text r} (h : ElementsAt T s k ds text r) : LineEnd text := by
  obtain ⟨cs, e1, more, tail, rest, l, hcs, rfl, rfl, hl, h1, hn, h2⟩ := h
  exact lines_lineEnd _ _ (.inr rfl)

theorem ElementsAt.element {s : Nat} {k ds text r} {x : Str} {l e1} (h : ElementsAt T s k ds text r) (hl : ElementKids l e1)
    (hrd : Reads T elementExpr ('-' :: x) (indent s :: k) l text (indent s :: k)) :
    ElementsAt T s k (e1 ++ ds) ('\n' :: (indent s ++ '-' :: x)) r := by
  have hn := h.lineEnd.notSp
  obtain ⟨more, rfl, hst⟩ := h.star
  exact ⟨[], e1, more, x, text, l, by simp, by simp, by simp [lines], hl, hrd, hn, hst⟩

theorem elementsAt_last {s : Nat} {k r} {x : Str} {l e1} (hl : ElementKids l e1)
    (hrd : Reads T elementExpr ('-' :: x) (indent s :: k) l r (indent s :: k)) (hn : NotSp r)
    (hstop : ∀ q, q = .blank ∨ q = .blanknl → Not T (.seq (.rule q) (.rule .block_array_data)) r (indent s :: k)) :
    ElementsAt T s k e1 ('\n' :: (indent s ++ '-' :: x)) r :=
  ⟨[], e1, [], x, r, l, by simp, by simp, by simp [lines], hl, hrd, hn, fun q hq => .starNil (hstop q hq)⟩

theorem ElementsAt.follow {s t : Nat} {k ds text r} (h : ElementsAt T s k ds text r) : Follow T true .dash (s + 2) t text := by
  obtain ⟨cs, e1, more, tail, rest, l, hcs, rfl, rfl, hl, h1, hn, h2⟩ := h
  exact ⟨s, cs, _, rfl, hcs, fun _ => ⟨by omega, by simp⟩, .inr ⟨s, '-', tail, rfl, by omega, by simp, bare_dash tail, by simp, fun _ => not_nameChar (by decide)⟩⟩

theorem ElementsAt.follow_flat {s : Nat} {k ds text r} (h : ElementsAt T s k ds text r) : Follow T false .dash (s + 2) s text := by
  obtain ⟨cs, e1, more, tail, rest, l, hcs, rfl, rfl, hl, h1, hn, h2⟩ := h
  exact ⟨s, cs, _, rfl, hcs, fun _ => ⟨by omega, by simp⟩, .inr ⟨s, '-', tail, rfl, by omega, by simp, bare_dash tail, by simp, fun _ => not_nameChar (by decide)⟩⟩

/-! ## formatted sequences -/

theorem formatArray_element (s : Nat) (par : Option Parent) (first : Bool) (hp : (par = some .array && first) = false) (a : Option Str)
    (v : Yaml) (ds : List ArrayData) :
    formatArray s par first (.element ⟨a, v⟩ :: ds) =
      '\n' :: (indent s ++ '-' :: (valueText (s + 2) .dash a v ++ formatArray s par false ds)) := by
  cases a <;> simp [formatArray, valueText, holderParent, hp]

theorem formatArray_dash (s : Nat) (a : Option Str) (v : Yaml) (ds : List ArrayData) :
    formatArray s (some .array) true (.element ⟨a, v⟩ :: ds) =
      ' ' :: '-' :: (valueText (s + 2) .dash a v ++ formatArray s (some .array) false ds) := by
  cases a <;> simp [formatArray, valueText, holderParent]

theorem formatArray_comment (s : Nat) (par : Option Parent) (first : Bool) (c : Str) (ds : List ArrayData) :
    formatArray s par first (.comment c :: ds) = '\n' :: (indent s ++ '#' :: c) ++ formatArray s par false ds := by
  simp [formatArray]

theorem formatArray_inlineComment (s : Nat) (par : Option Parent) (first : Bool) (c : Str) (ds : List ArrayData) :
    formatArray s par first (.inlineComment c :: ds) = ' ' :: '#' :: (c ++ formatArray s par false ds) := by
  simp [formatArray]

theorem elements_reads {P : Place → Holder → Bool → Yaml → Prop} {next : Next} {ds : List ArrayData} (h : Elements T P next ds)
    (hP : ∀ a v, ArrayData.element ⟨a, v⟩ ∈ ds → ∀ p hold named, P p hold named v → ValueReads T p hold named v)
    (s : Nat) (par : Option Parent) (k : List Str) (r : Str) (hf : Follow T false next (s + 2) s r)
    (hstop : ∀ q, q = .blank ∨ q = .blanknl → Not T (.seq (.rule q) (.rule .block_array_data)) r (indent s :: k)) :
    ElementsAt T s k ds (formatArray s par false ds ++ r) r := by
  induction h with
  | comment hc h ih =>
    rw [formatArray_comment, List.append_assoc]
    exact (ih (fun a v hm => hP a v (by simp [hm])) hf).comment hc
  | @last next a v ha hv =>
    rw [formatArray_element _ _ _ (by simp)]
    obtain ⟨l, hl, hrd⟩ := reads_element (hP a v (by simp) _ _ _ hv a (s + 2) s k r rfl ha (by omega) (fun _ => rfl) hf) hf.lineEnd
    simp only [formatArray, List.append_nil, List.cons_append, List.append_assoc]
    exact elementsAt_last hl hrd hf.lineEnd.notSp hstop
  | @lastComment next a v c ha hv hv' hc =>
    rw [formatArray_element _ _ _ (by simp), formatArray_inlineComment]
    obtain ⟨l, hl, hrd⟩ := reads_element_comment (s := s + 2) ha hv hv' hc hf.lineEnd (indent s :: k)
    simp only [formatArray, List.append_nil, List.cons_append, List.append_assoc]
    exact elementsAt_last hl hrd hf.lineEnd.notSp hstop
  | @element next a v ds ha hv h ih =>
    have ih := ih (fun a v hm => hP a v (by simp [hm])) hf
    rw [formatArray_element _ _ _ (by simp)]
    obtain ⟨l, hl, hrd⟩ := reads_element (hP a v (by simp) _ _ _ hv a (s + 2) s k _ rfl ha (by omega) (fun _ => rfl) ih.follow_flat) ih.lineEnd
    simp only [List.cons_append, List.append_assoc]
    exact ih.element hl hrd
  | @elementComment next a v c ds ha hv hv' hc h ih =>
    have ih := ih (fun a v hm => hP a v (by simp [hm])) hf
    rw [formatArray_element _ _ _ (by simp), formatArray_inlineComment]
    obtain ⟨l, hl, hrd⟩ := reads_element_comment (s := s + 2) ha hv hv' hc ih.lineEnd (indent s :: k)
    simp only [List.cons_append, List.append_assoc]
    exact ih.element hl hrd

/-! ## sequences -/

theorem act_block_array (cs : List Str) (e1 : List ArrayData) (more : List (List ArrayData)) (t : Str) :
    act .block_array t (oks ([(.commentnls, .strs cs)] ++ ([(.first_block_array_element, .arrayData e1)] ++
      (more.map (fun d => (Rule.block_array_data, Val.arrayData d)) ++ [(.commentnls, .strs [])])))) =
      .ok (.yaml (.array (cs.map .comment ++ e1 ++ more.flatten))) := by
  simp only [List.cons_append, List.nil_append, oks_cons, act, Consume.blockArray, Out.bind_ok, Val.asStrs, Val.asArrayData]
  rw [manyThen_oks .block_array_data Val.asArrayData Val.arrayData (fun _ => rfl) more .commentnls Val.asStrs (.strs []) [] rfl]
  simp

/-- `block_array` from the first dash on. -/
theorem reads_block_array_tail {s : Nat} {k : List Str} {tail rest r : Str} {l e1 more} (hl : ElementKids l e1)
    (h1 : Reads T elementExpr ('-' :: tail) (indent s :: k) l rest (indent s :: k)) (hn : NotSp rest) (h2 : ElementsStar T s k more rest r)
    (hr : LineEnd r) :
    Reads T (.seqs [.push (.star Rule.SP), .rule .first_block_array_element,
      .star Rule.SP, .star (.seq (.rule .blank) (.rule .block_array_data)), .drop, .rule .commentnls]) (indent s ++ '-' :: tail) k
      ([(.first_block_array_element, .arrayData e1)] ++ (more.map (fun d => (Rule.block_array_data, Val.arrayData d)) ++ [(.commentnls, .strs [])])) r k :=
  .seq (l₁ := []) (.push (reads_sps (bare_dash tail).notSp k)) (.seq (reads_first_element hl h1) (.seq (l₁ := []) (reads_sps_nil hn _)
    (.seq (h2 .blank (.inl rfl)) (.seq (l₁ := []) (.drop _ _ k) (reads_commentnls_none hr k)))))

theorem not_hash_lines {s : Nat} {cs : List Str} {tail : Str} (hcs : ∀ c ∈ cs, LineText c) (k) :
    Not T (.rule .hash) (linesNl s cs ++ (indent s ++ '-' :: tail)) k := by
  have hfull : FullLine (linesNl s cs ++ (indent s ++ '-' :: tail)) := FullLine.linesNl ⟨s, _, rfl, (bare_dash tail).black⟩
  refine .rule (.seqR (.optNone ?_) (.seqR (reads_commentnls hcs (bare_dash tail) k) (.seqR (reads_blank_none (bare_dash tail).black k)
    (.seqR (.push (reads_sps (bare_dash tail).notSp k)) (.seqL (not_first_hash_element (not_hash_element_head ?_ _)))))))
  · obtain ⟨n, q, hq, hqb⟩ := hfull
    rw [hq]
    cases n with
    | zero => exact not_newline hqb.notNl
    | succ n => exact not_newline (by simp [indent_succ])
  · simpa [NotName] using not_nameChar (T := T) (c := '-') (by decide)

theorem not_hash_nl {s : Nat} {tail : Str} (k) : Not T (.rule .hash) ('\n' :: (indent s ++ '-' :: tail)) k := by
  refine .rule (.seqR (.opt (reads_newline _ k)) (.seqR (reads_commentnls (m := 0) (cs := []) (by simp) (bare_dash tail) k)
    (.seqR (reads_blank_none (bare_dash tail).black k)
    (.seqR (.push (reads_sps (bare_dash tail).notSp k)) (.seqL (not_first_hash_element (not_hash_element_head ?_ _)))))))
  simpa [NotName] using not_nameChar (T := T) (c := '-') (by decide)

theorem reads_array_value {x r : Str} {k : List Str} {y : Yaml} (hn : Not T (.rule .hash) x k) (hb : x.head? ≠ some '[')
    (h : Reads T (.rule .block_array) x k [(.block_array, .yaml y)] r k) :
    Reads T (.rule .array) x k [(.array, .yaml y)] r k ∧ Reads T (.rule .yaml_value) x k [(.yaml_value, .yaml y)] r k := by
  have h1 : Reads T (.rule .array) x k [(.array, .yaml y)] r k := .rule rfl (.altR (not_inline_array hb k) h) fun _ => rfl
  exact ⟨h1, .rule rfl (.altR hn (.altL h1)) fun _ => rfl⟩

/-- A sequence on lines of its own. -/
theorem ElementsAt.array {s : Nat} {k ds text r} (h : ElementsAt T s k ds text r) (hr : LineEnd r) :
    ∃ q, text = '\n' :: q ∧ FullLine q ∧ (0 < s → q.head? = some ' ') ∧ Not T (.rule .hash) q k ∧
      Reads T (.rule .array) q k [(.array, .yaml (.array ds))] r k ∧ Reads T (.rule .yaml_value) q k [(.yaml_value, .yaml (.array ds))] r k := by
  obtain ⟨cs, e1, more, tail, rest, l, hcs, rfl, rfl, hl, h1, hn, h2⟩ := h
  have hb : Reads T (.rule .block_array) (linesNl s cs ++ (indent s ++ '-' :: tail)) k
      [(.block_array, .yaml (.array (cs.map .comment ++ e1 ++ more.flatten)))] r k :=
    .rule rfl (.seq (reads_commentnls hcs (bare_dash tail) k) (.seq (l₁ := []) (reads_blank_none (bare_dash tail).black k)
      (reads_block_array_tail hl h1 hn h2 hr))) (act_block_array cs e1 more)
  have hnh := not_hash_lines (T := T) (s := s) (tail := tail) hcs k
  refine ⟨_, lines_nl _ _ _, FullLine.linesNl ⟨s, _, rfl, (bare_dash tail).black⟩, linesNl_head s cs _, hnh, reads_array_value hnh ?_ hb⟩
  cases s with
  | zero => cases cs <;> simp [linesNl, indent]
  | succ s => simp [linesNl_head (s + 1) cs ('-' :: tail) (by omega)]

/-- An alternative sequence with more elements. -/
theorem ElementsAt.alternative {s t : Nat} {k ds e text r} {x : Str} {l e1} (h : ElementsAt T s (indent t :: k) (.element e :: ds) text r) (hr : LineEnd r)
    (hl : ElementKids l e1) (h1 : Reads T elementExpr x (indent t :: k) l text (indent t :: k)) :
    Reads T (.rule .alternative_array) x (indent t :: k) [(.alternative_array, .yaml (.array (e1 ++ .element e :: ds)))] r (indent t :: k) := by
  obtain ⟨cs, e2, more, tail, rest, l', hcs, hds, rfl, hl', h2, hn, h3⟩ := h
  have hcs0 : cs = [] := by
    cases cs with
    | nil => rfl
    | cons c cs => simp at hds
  subst hcs0
  rw [hds]
  have hb : Reads T ((Rule.alternative_array).body T) x (indent t :: k)
      ([(.first_block_array_element, .arrayData e1)] ++ ([(.first_block_array_element, .arrayData e2)] ++
        (more.map (fun d => (Rule.block_array_data, Val.arrayData d)) ++ [(.commentnls, .strs [])]))) r (indent t :: k) :=
    .seq (reads_first_element hl h1) (.seq (l₁ := []) (FullLine.blanknl ⟨s, _, rfl, (bare_dash tail).black⟩ _)
      (.seq (l₁ := []) (.push (reads_sps (bare_dash tail).notSp _)) (.seq (reads_first_element hl' h2) (.seq (l₁ := []) (reads_sps_nil hn _)
        (.seq (h3 .blanknl (.inr rfl)) (.seq (l₁ := []) (.drop _ _ _) (reads_commentnls_none hr _)))))))
  refine .rule rfl hb fun u => ?_
  simp only [List.cons_append, List.nil_append, oks_cons, act, Consume.alternativeArray, Out.bind_ok, Val.asArrayData]
  rw [manyThen_oks .block_array_data Val.asArrayData Val.arrayData (fun _ => rfl) more .commentnls Val.asStrs (.strs []) [] rfl]
  simp

/-! ## where collections start -/

/-- A collection on lines of its own after a key. -/
theorem reads_key_coll {q r : Str} {k : List Str} {y : Yaml} (hq : q.head? = some ' ') (hf : FullLine q)
    (h : Reads T (.rule .yaml_value) q k [(.yaml_value, .yaml y)] r k) :
    Reads T (leadExpr .key) ('\n' :: q) k [(.block_array_aliased_yaml_value, .aliased ⟨none, y⟩)] r k := by
  have hna : Not T (.rule .alias) q k := noAlias_head (by simp [hq]) k
  have h1 : Not T (.rule .alternative_aliased_yaml_value) q k :=
    .rule (.seqR (.optNone (.seqL hna)) (not_alternative (not_hash_element_head (by
      rw [NotName, hq]; simpa using not_nameChar (T := T) (c := ' ') (by decide)) k) (not_element_head (by simp [hq]) k)))
  have h2 : Reads T (.rule .aliased_yaml_value) q k [(.aliased_yaml_value, .aliased ⟨none, y⟩)] r k :=
    .rule rfl (.seq (.optNone (.seqL hna)) h) fun _ => rfl
  exact Reads.seq (.altR (not_sp1 (notSp_nl q) k) (hf.blanknl k)) (.rule rfl (.altR h1 h2) fun _ => rfl)

theorem reads_spaces_nl {n : Nat} {r : Str} (h : Black r) (k) : Reads T (.rule .spaces) ('\n' :: (indent n ++ r)) k [] r k := by
  have hs : ∀ n, Reads T (.star (.rule .space)) (indent n ++ r) k [] r k := by
    intro n
    induction n with
    | zero =>
      refine .starNil (.rule (.alt (.lit fun hc => ?_) (not_newline h.notNl)))
      have := (h _ hc).1
      revert this; decide
    | succ n ih =>
      have h1 : Reads T (.rule .space) (' ' :: (indent n ++ r)) k [] (indent n ++ r) k := .silent rfl (.altL (.lit ' ' _ k))
      exact Reads.star h1 ih
  have h1 : Reads T (.rule .space) ('\n' :: (indent n ++ r)) k [] (indent n ++ r) k :=
    .silent rfl (.altR (.lit (by simp)) (reads_newline _ k))
  exact .silent rfl (Reads.star h1 (hs n))

theorem notName_nl (r : Str) : NotName T ('\n' :: r) := by
  simpa [NotName] using not_nameChar (T := T) (c := '\n') (by decide)

/-- A collection with an anchor that the alternative rules do not read. -/
theorem reads_named_coll {hold : Holder} {n : Str} {s : Nat} {x r : Str} {k : List Str} {y : Yaml} (hn : NameText T n) (hx : Black x)
    (hno : Not T (.alt (.rule .alternative_hash) (.rule .alternative_array)) x k)
    (h : Reads T (.rule .yaml_value) ('\n' :: (indent s ++ x)) k [(.yaml_value, .yaml y)] r k) :
    Reads T (leadExpr hold) (' ' :: '&' :: (n ++ '\n' :: (indent s ++ x))) k [(.block_array_aliased_yaml_value, .aliased ⟨some n, y⟩)] r k := by
  have h1 : Not T (.rule .alternative_aliased_yaml_value) ('&' :: (n ++ '\n' :: (indent s ++ x))) k :=
    .rule (.seqR (.opt (.seq (reads_alias hn (notName_nl _) k) (reads_spaces_nl hx k))) hno)
  have h2 : Reads T (.rule .aliased_yaml_value) ('&' :: (n ++ '\n' :: (indent s ++ x))) k [(.aliased_yaml_value, .aliased ⟨some n, y⟩)] r k :=
    .rule rfl (.seq (.opt (.seq (reads_alias hn (notName_nl _) k) (reads_sps_nil (notSp_nl _) k))) h) fun _ => rfl
  exact reads_lead (by simp [NotSp]; decide) (.rule rfl (.altR h1 h2) fun _ => rfl)

/-- An alternative collection with an anchor. -/
theorem reads_named_alternative {hold : Holder} {n : Str} {s : Nat} {x r : Str} {k : List Str} {y : Yaml} {q : Rule} (hq : q = .alternative_hash ∨ q = .alternative_array)
    (hn : NameText T n) (hx : Black x) (h : Reads T (.alt (.rule .alternative_hash) (.rule .alternative_array)) x k [(q, .yaml y)] r k) :
    Reads T (leadExpr hold) (' ' :: '&' :: (n ++ '\n' :: (indent s ++ x))) k [(.block_array_aliased_yaml_value, .aliased ⟨some n, y⟩)] r k := by
  have h1 : Reads T (.rule .alternative_aliased_yaml_value) ('&' :: (n ++ '\n' :: (indent s ++ x))) k
      [(.alternative_aliased_yaml_value, .aliased ⟨some n, y⟩)] r k := by
    refine .rule rfl (.seq (.opt (.seq (reads_alias hn (notName_nl _) k) (reads_spaces_nl hx k))) h) fun _ => ?_
    rcases hq with rfl | rfl <;> rfl
  exact reads_lead (by simp [NotSp]; decide) (.rule rfl (.altL h1) fun _ => rfl)

/-- An alternative collection on the line of a dash. -/
theorem reads_dash_alternative {x r : Str} {k : List Str} {y : Yaml} {q : Rule} (hq : q = .alternative_hash ∨ q = .alternative_array)
    (hx : Black x) (hna : x.head? ≠ some '&') (h : Reads T (.alt (.rule .alternative_hash) (.rule .alternative_array)) x k [(q, .yaml y)] r k) :
    Reads T (leadExpr .dash) (' ' :: x) k [(.block_array_aliased_yaml_value, .aliased ⟨none, y⟩)] r k := by
  have h1 : Reads T (.rule .alternative_aliased_yaml_value) x k [(.alternative_aliased_yaml_value, .aliased ⟨none, y⟩)] r k := by
    refine .rule rfl (.seq (.optNone (.seqL (noAlias_head hna k))) h) fun _ => ?_
    rcases hq with rfl | rfl <;> rfl
  exact reads_lead hx.notSp (.rule rfl (.altL h1) fun _ => rfl)

/-- A collection on the line of a dash that the alternative rules do not read. -/
theorem reads_dash_coll {x r : Str} {k : List Str} {y : Yaml} (hx : Black x) (hna : x.head? ≠ some '&')
    (hno : Not T (.alt (.rule .alternative_hash) (.rule .alternative_array)) x k)
    (h : Reads T (.rule .yaml_value) x k [(.yaml_value, .yaml y)] r k) :
    Reads T (leadExpr .dash) (' ' :: x) k [(.block_array_aliased_yaml_value, .aliased ⟨none, y⟩)] r k := by
  have h1 : Not T (.rule .alternative_aliased_yaml_value) x k := .rule (.seqR (.optNone (.seqL (noAlias_head hna k))) hno)
  have h2 : Reads T (.rule .aliased_yaml_value) x k [(.aliased_yaml_value, .aliased ⟨none, y⟩)] r k :=
    .rule rfl (.seq (.optNone (.seqL (noAlias_head hna k))) h) fun _ => rfl
  exact reads_lead hx.notSp (.rule rfl (.altR h1 h2) fun _ => rfl)

/-- An alternative mapping in its place. -/
theorem reads_alternative_hash {hold : Holder} {a : Option Str} {s : Nat} {key : Str} {a' : Option Str} {v : Yaml} {ds : List HashData} {r : Str}
    {k : List Str} (hp : hold = .dash ∨ a.isSome = true) (ha : ∀ n, a = some n → NameText T n) (hk : KeyText T key)
    (h : ∀ par, Reads T (.rule .alternative_hash) (key ++ ':' :: (valueText (s + 2) .key a' v ++ (formatHash s par false ds ++ r))) k
      [(.alternative_hash, .yaml (.hash (.element ⟨key, ⟨a', v⟩⟩ :: ds)))] r k) :
    Reads T (leadExpr hold) (valueText s hold a (.hash (.element ⟨key, ⟨a', v⟩⟩ :: ds)) ++ r) k
      [(.block_array_aliased_yaml_value, .aliased ⟨a, .hash (.element ⟨key, ⟨a', v⟩⟩ :: ds)⟩)] r k := by
  cases a with
  | some n =>
    have h := h none
    obtain ⟨c, t, hct, hc⟩ := hk.notSp (':' :: (valueText (s + 2) .key a' v ++ (formatHash s none false ds ++ r)))
    have := reads_named_alternative (hold := hold) (s := s) (.inl rfl) (ha n rfl) (by rw [hct]; exact (bare_name hc).black) (Reads.altL (b := .rule .alternative_array) h)
    simpa [valueText, Yaml.format, formatHash_entry] using this
  | none =>
    have hp : hold = .dash := by simpa using hp
    subst hp
    have h := h (some .array)
    obtain ⟨c, t, hct, hc⟩ := hk.notSp (':' :: (valueText (s + 2) .key a' v ++ (formatHash s (some .array) false ds ++ r)))
    have := reads_dash_alternative (.inl rfl) (by rw [hct]; exact (bare_name hc).black) (by
      rw [hct]; simp only [List.head?_cons, ne_eq, Option.some.injEq]; rintro rfl; exact not_nameChar (by decide) hc) (Reads.altL (b := .rule .alternative_array) h)
    simpa [valueText, Yaml.format, formatHash_dash, holderParent] using this

theorem not_alternative_hash_dash {x : Str} (k) : Not T (.rule .alternative_hash) ('-' :: x) k :=
  .rule (.seqL (not_first_hash_element (not_hash_element_head (by simpa [NotName] using not_nameChar (T := T) (c := '-') (by decide)) k)))

/-- An alternative sequence in its place. -/
theorem reads_alternative_array {hold : Holder} {a : Option Str} {s : Nat} {a' : Option Str} {v : Yaml} {ds : List ArrayData} {r : Str}
    {k : List Str} (hp : hold = .dash ∨ a.isSome = true) (ha : ∀ n, a = some n → NameText T n)
    (h : ∀ par, Reads T (.rule .alternative_array) ('-' :: (valueText (s + 2) .dash a' v ++ (formatArray s par false ds ++ r))) k
      [(.alternative_array, .yaml (.array (.element ⟨a', v⟩ :: ds)))] r k) :
    Reads T (leadExpr hold) (valueText s hold a (.array (.element ⟨a', v⟩ :: ds)) ++ r) k
      [(.block_array_aliased_yaml_value, .aliased ⟨a, .array (.element ⟨a', v⟩ :: ds)⟩)] r k := by
  cases a with
  | some n =>
    have := reads_named_alternative (hold := hold) (s := s) (.inr rfl) (ha n rfl) (bare_dash _).black (Reads.altR (not_alternative_hash_dash k) (h none))
    simpa [valueText, Yaml.format, formatArray_element] using this
  | none =>
    have hp : hold = .dash := by simpa using hp
    subst hp
    have := reads_dash_alternative (.inr rfl) (bare_dash _).black (by simp) (Reads.altR (not_alternative_hash_dash k) (h (some .array)))
    simpa [valueText, Yaml.format, formatArray_dash, holderParent] using this

/-- A sequence with one element that the alternative rule does not read. -/
theorem reads_seq_one {hold : Holder} {a : Option Str} {s : Nat} {a' : Option Str} {v : Yaml} {ds : List ArrayData} {r : Str}
    {t : Nat} {k : List Str} {deep : Bool} {next : Next} (hp : hold = .dash ∨ a.isSome = true) (ha : ∀ n, a = some n → NameText T n)
    (hs : 0 < s) (hf : Follow T deep next s t r) (hd : next ≠ .dash)
    (h : ∀ u k par, u < s + 2 → ∃ l, ElementKids l (.element ⟨a', v⟩ :: ds) ∧
      Reads T elementExpr ('-' :: (valueText (s + 2) .dash a' v ++ (formatArray s par false ds ++ r))) (indent u :: k) l r (indent u :: k))
    (ht : t < s) :
    Reads T (leadExpr hold) (valueText s hold a (.array (.element ⟨a', v⟩ :: ds)) ++ r) (indent t :: k)
      [(.block_array_aliased_yaml_value, .aliased ⟨a, .array (.element ⟨a', v⟩ :: ds)⟩)] r (indent t :: k) := by
  have hno : ∀ par, Not T (.alt (.rule .alternative_hash) (.rule .alternative_array)) ('-' :: (valueText (s + 2) .dash a' v ++ (formatArray s par false ds ++ r)))
      (indent t :: k) := by
    intro par
    obtain ⟨l, hl, hrd⟩ := h t k par (by omega)
    exact .alt (not_alternative_hash_dash _) (.rule (.seqR (reads_first_element hl hrd) (hf.not_second hd _ _)))
  cases a with
  | some n =>
    obtain ⟨l, hl, hrd⟩ := h s (indent t :: k) none (by omega)
    have hb : Reads T (.rule .block_array) ('\n' :: (indent s ++ '-' :: (valueText (s + 2) .dash a' v ++ (formatArray s none false ds ++ r)))) (indent t :: k)
        [(.block_array, .yaml (.array (.element ⟨a', v⟩ :: ds)))] r (indent t :: k) := by
      refine .rule rfl (.seq (reads_commentnls_none (.inr rfl) _) (.seq (l₁ := []) (FullLine.blank ⟨s, _, rfl, (bare_dash _).black⟩ _)
        (reads_block_array_tail (more := []) hl hrd hf.lineEnd.notSp ?_ hf.lineEnd))) fun u => ?_
      · intro q hq
        rcases hq with rfl | rfl
        · exact .starNil (hf.not_array_data hs _)
        · exact .starNil (hf.not_array_data' hs _)
      · exact (act_block_array [] _ [] u).trans (by simp)
    have := reads_named_coll (hold := hold) (s := s) (ha n rfl) (bare_dash _).black (hno none) (reads_array_value (not_hash_nl _) (by simp) hb).2
    simpa [valueText, Yaml.format, formatArray_element] using this
  | none =>
    have hp : hold = .dash := by simpa using hp
    subst hp
    obtain ⟨l, hl, hrd⟩ := h 0 (indent t :: k) (some .array) (by omega)
    have hb : Reads T (.rule .block_array) ('-' :: (valueText (s + 2) .dash a' v ++ (formatArray s (some .array) false ds ++ r))) (indent t :: k)
        [(.block_array, .yaml (.array (.element ⟨a', v⟩ :: ds)))] r (indent t :: k) := by
      refine .rule rfl (.seq (reads_commentnls_nil (n := 0) (bare_dash _).notSp (by simp) _) (.seq (l₁ := []) (reads_blank_none (n := 0) (bare_dash _).black _)
        (reads_block_array_tail (s := 0) (more := []) hl hrd hf.lineEnd.notSp ?_ hf.lineEnd))) fun u => ?_
      · intro q hq
        rcases hq with rfl | rfl
        · exact .starNil (hf.not_array_data_zero hd _)
        · exact .starNil (hf.not_array_data_zero' hd _)
      · exact (act_block_array [] _ [] u).trans (by simp)
    have := reads_dash_coll (bare_dash _).black (by simp) (hno (some .array))
      (reads_array_value (x := '-' :: _) (not_hash_lines (s := 0) (cs := []) (by simp) _) (by simp) hb).2
    simpa [valueText, Yaml.format, formatArray_dash, holderParent] using this

end YamlSubset
