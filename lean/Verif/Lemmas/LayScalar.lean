import Verif.Lemmas.LayFlow

/-! # Reading values in any layout: scalars -/

namespace YamlSubset.Lay

open Peg Spec

variable {T : CharTables}

/-! ## the end of a value on one line -/

/-- The end of a value on one line: spaces, then the end of the line or a comment. -/
def Tails (r : Str) : Prop := ∃ n r0, r = indent n ++ r0 ∧ (Eol r0 ∨ 0 < n ∧ r0.head? = some '#')

theorem Eol.tails {r : Str} (h : Eol r) (n : Nat) : Tails (indent n ++ r) := ⟨n, r, rfl, .inl h⟩

theorem tails_head {r0 : Str} {n : Nat} (h : Eol r0 ∨ 0 < n ∧ r0.head? = some '#') :
    NotSp r0 ∧ (r0 = [] ∨ r0.head? = some '\n' ∨ r0.head? = some '\r' ∨ r0.head? = some '#') := by
  rcases h with h | ⟨-, h⟩
  · refine ⟨h.notSp, ?_⟩
    rcases h with h | h | h
    · exact .inl h
    · exact .inr (.inl h)
    · exact .inr (.inr (.inl h))
  · refine ⟨?_, .inr (.inr (.inr h))⟩
    intro c hc
    rw [h] at hc; cases hc; decide

theorem Tails.head {r : Str} (h : Tails r) : ∀ c, r.head? = some c → c = ' ' ∨ c = '\n' ∨ c = '\r' := by
  obtain ⟨n, r0, rfl, h⟩ := h
  intro c hc
  cases n with
  | zero =>
    rcases h with h | ⟨h, -⟩
    · rcases h with rfl | h | h
      · simp [indent] at hc
      · simp only [indent, List.replicate_zero, List.nil_append] at hc; rw [h] at hc; cases hc; simp
      · simp only [indent, List.replicate_zero, List.nil_append] at hc; rw [h] at hc; cases hc; simp
    · omega
  | succ n => simp [indent_succ] at hc; exact .inl hc.symm

theorem Tails.notName {r : Str} (h : Tails r) : NotName T r := by
  intro c hc
  rcases h.head c hc with rfl | rfl | rfl <;> exact not_nameChar (by decide)

theorem Tails.noQuote {r : Str} (h : Tails r) : r.head? ≠ some '\'' := by
  intro hc
  rcases h.head _ hc with h | h | h <;> cases h

theorem keyChar_sp : KeyChar T ' ' := .inr (.inr rfl)

theorem plain_noColl {s : Str} (h : BlockPlain T s) {r : Str} (hr : Tails r) : NoColl T (s ++ r) := by
  obtain ⟨c, t, rfl⟩ := h.cons
  refine ⟨h.bare r, ?_, ?_⟩
  · intro k
    by_cases hc : NameChar T c
    · obtain ⟨u, v, rfl, hu, hv⟩ := exists_run (KeyChar T) t
      cases v with
      | nil =>
        obtain ⟨n, r0, rfl, hr⟩ := hr
        obtain ⟨-, hr⟩ := tails_head hr
        have hr' : ∀ d, r0.head? = some d → ¬ KeyChar T d := by
          intro d hd
          rcases hr with rfl | hr | hr | hr
          · simp at hd
          all_goals (rw [hr] at hd; cases hd; exact not_keyChar (by decide))
        have hu' : ∀ d ∈ u ++ indent n, KeyChar T d := by
          intro d hd
          rcases List.mem_append.1 hd with hd | hd
          · exact hu d hd
          · rw [List.eq_of_mem_replicate hd]; exact keyChar_sp
        have := reads_key_run (T := T) hc hu' hr' k
        simp only [List.append_nil]
        simp only [List.cons_append, List.append_assoc] at this ⊢
        refine .rule (.seqR this (.seqL (.lit ?_)))
        rcases hr with rfl | hr | hr | hr <;> simp [*]
      | cons d v =>
        have := reads_key_run (T := T) (v := d :: v ++ r) hc hu (by simpa using hv) k
        simp only [List.cons_append, List.append_assoc] at this ⊢
        by_cases hd : d = ':'
        · subst hd
          obtain ⟨e, w, rfl, he⟩ := not_blankStart (h.notKey c u v (by simp) hc hu)
          have hl := LineText.mem h.line e (by simp)
          exact .rule (.seqR this (.seqR (.lit ':' _ k) (.seqL (not_blanknl_head he hl k))))
        · exact .rule (.seqR this (.seqL (.lit (by simpa using hd))))
    · exact not_hash_element_head (by simpa [NotName] using hc) k
  · intro k
    by_cases hc : c = '-'
    · subst hc
      obtain ⟨e, w, rfl, he⟩ := not_blankStart (h.notDash t rfl)
      exact .rule (.seqR (.lit '-' _ k) (.seqL (not_sp1 (by simpa [NotSp] using he) k)))
    · exact not_element_head (by simpa using hc) k

/-- A value that is not a block collection is read, except for spaces after it. -/
structure ValueAt (T : CharTables) (k : List Str) (x r r' : Str) (y : Yaml) : Prop where
  coll : NoColl T (x ++ r)
  alias : NoAlias T (x ++ r)
  trim : Trim r r'
  reads : Reads T (.rule .yaml_value) (x ++ r) k [(.yaml_value, .yaml y)] r' k

theorem plain_value {s r : Str} (h : BlockPlain T s) (hl : s.getLast? ≠ some ':') (hr : Tails r) (k) : ∃ r', ValueAt T k s r r' (.unquotedString s) := by
  have hc := plain_noColl h hr
  have ha : NoAlias T (s ++ r) := fun k => .rule (not_mark (fun d t he => h.notMark _ d t he (.inl rfl)) hr.notName h.nonempty k)
  have hm : Not T (.rule .anchor) (s ++ r) k := .rule (not_mark (fun d t he => h.notMark _ d t he (.inr rfl)) hr.notName h.nonempty k)
  obtain ⟨n, r0, rfl, hr0⟩ := hr
  obtain ⟨hns, hr0⟩ := tails_head hr0
  obtain ⟨c, t, hs⟩ := h.cons
  have hf : ∀ d, (s ++ indent n).head? = some d → d ∉ ['[', ']', '{', '}', '"', '\'', '>', '|'] := by
    intro d hd
    exact (h.first d (by rw [hs] at hd ⊢; simpa using hd)).1
  have hlt : LineText (s ++ indent n) := by
    apply line_of_not
    intro d hd
    rcases List.mem_append.1 hd with hd | hd
    · exact LineText.mem h.line d hd
    · rw [List.eq_of_mem_replicate hd]; decide
  have hhash : '#' ∉ s ++ indent n := by
    intro hd
    rcases List.mem_append.1 hd with hd | hd
    · exact h.noHash hd
    · have := List.eq_of_mem_replicate hd; revert this; decide
  have hp : Reads T (.rule .unquoted_string) (s ++ indent n ++ r0) k [(.unquoted_string, .yaml (.unquotedString s))] r0 k :=
    .atomic rfl (passes_plain (by simp [hs]) hlt hhash (colonSpace_sps h.noColonSpace hl n) hf hr0 k) (by
      show Out.ok _ = _
      rw [trim_plain h.last])
  rw [List.append_assoc] at hp
  have hh : ∀ d, (s ++ (indent n ++ r0)).head? = some d → d ∉ ['[', ']', '{', '}', '"', '\'', '>', '|'] := by
    intro d hd
    exact (h.first d (by rw [hs] at hd ⊢; simpa using hd)).1
  refine ⟨r0, hc, ha, ⟨n, rfl⟩, reads_inline_value hc (fun h => hh _ h (by simp)) (fun h => hh _ h (by simp)) (fun h => hh _ h (by simp))
    (reads_string_value hm (fun h => hh _ h (by simp)) (fun h => hh _ h (by simp)) ?_)⟩
  exact .rule rfl (.altL hp) fun _ => rfl

theorem _root_.YamlSubset.Spec.ScalarText.value {y : Yaml} {x r : Str} (h : ScalarText T y x) (hr : Tails r) (k) : ∃ r', ValueAt T k x r r' y := by
  cases h with
  | plain h hl => exact plain_value h hl hr k
  | flow hy h =>
    cases h with
    | plain h => exact absurd rfl (hy _)
    | @double ps h =>
      obtain ⟨n, r', rfl, hr'⟩ := hr
      have hx : '"' :: (ps.flatMap dqPartText ++ ['"']) ++ (indent n ++ r') = '"' :: (ps.flatMap DQPart.format ++ '"' :: (indent n ++ r')) := by simp [dqText_eq]
      have hc : NoColl T ('"' :: (ps.flatMap DQPart.format ++ '"' :: (indent n ++ r'))) := noColl_head (by decide)
      refine ⟨r', by rw [hx]; exact hc, by rw [hx]; exact noAlias_head (by simp), ⟨n, rfl⟩, ?_⟩
      rw [hx]
      refine reads_inline_value hc (by simp) (by simp) (by simp) (reads_string_value (not_anchor_head (by simp) k) (by simp) (by simp) ?_)
      exact .rule rfl (.altR (not_unquoted_head (by simp) _ k) (.altL (reads_double_quoted h rfl (tails_head hr').1 k))) fun _ => rfl
    | @single ps h =>
      have hq := hr.noQuote
      obtain ⟨n, r', rfl, hr'⟩ := hr
      have hx : '\'' :: (ps.flatMap sqPartText ++ ['\'']) ++ (indent n ++ r') = '\'' :: (ps.flatMap SQPart.format ++ '\'' :: (indent n ++ r')) := by simp [sqText_eq]
      have hc : NoColl T ('\'' :: (ps.flatMap SQPart.format ++ '\'' :: (indent n ++ r'))) := noColl_head (by decide)
      refine ⟨r', by rw [hx]; exact hc, by rw [hx]; exact noAlias_head (by simp), ⟨n, rfl⟩, ?_⟩
      rw [hx]
      refine reads_inline_value hc (by simp) (by simp) (by simp) (reads_string_value (not_anchor_head (by simp) k) (by simp) (by simp) ?_)
      exact .rule rfl (.altR (not_unquoted_head (by simp) _ k) (.altR (not_double (by simp) k) (reads_single_quoted h rfl (tails_head hr').1 hq k))) fun _ => rfl
    | @reference a h =>
      have hc : NoColl T ('*' :: a ++ r) := noColl_head (by decide)
      refine ⟨r, hc, noAlias_head (by simp), .refl r, reads_inline_value hc (by simp) (by simp) (by simp) ?_⟩
      exact .rule rfl (.altL (reads_anchor h hr.notName k)) fun _ => rfl
    | emptyArray hw => exact flow_array (.emptyArray hw)
    | array h => exact flow_array (.array h)
    | emptyHash hw => exact flow_hash (.emptyHash hw)
    | hash h => exact flow_hash (.hash h)
where
  flow_array {es : List Yaml} {x r : Str} {k : List Str} (h : FlowText T (.inlineArray es) x) : ∃ r', ValueAt T k x r r' (.inlineArray es) := by
    obtain ⟨hrd, hh⟩ := h.reads_array r k
    cases x with
    | nil => cases hh
    | cons c x =>
      cases hh
      have hc : NoColl T ('[' :: x ++ r) := noColl_head (by decide)
      refine ⟨r, hc, noAlias_head (by simp), .refl r, ?_⟩
      exact .rule rfl (.altR (not_hash_here hc k) (.altL (.rule rfl (.altL hrd) fun _ => rfl))) fun _ => rfl
  flow_hash {es : List (Str × Yaml)} {x r : Str} {k : List Str} (h : FlowText T (.inlineHash es) x) : ∃ r', ValueAt T k x r r' (.inlineHash es) := by
    obtain ⟨hrd, hh⟩ := h.reads_hash r k
    cases x with
    | nil => cases hh
    | cons c x =>
      cases hh
      have hc : NoColl T ('{' :: x ++ r) := noColl_head (by decide)
      refine ⟨r, hc, noAlias_head (by simp), .refl r, ?_⟩
      refine reads_inline_value hc (by simp) (by simp) (by simp) ?_
      exact .rule rfl (.altR (not_anchor_head (by simp) k) (.altR (not_inline_array (by simp) k) (.altL hrd))) fun _ => rfl

/-! ## what is before a value on the same line -/

theorem reads_sps1 {n : Nat} {r : Str} (h : NotSp r) (k) : Reads T (.plus Rule.SP) (indent (n + 1) ++ r) k [] r k :=
  single_sp.plus (by simp [indent_succ]) (indent_sp _) (fun c hc => by simp [h c hc]) _

theorem reads_leads {hold : Holder} {n : Nat} {s r : Str} {k k' : List Str} {l} (hs : NotSp s)
    (hr : Reads T (.rule .block_array_aliased_yaml_value) s k l r k') : Reads T (leadExpr hold) (indent (n + 1) ++ s) k l r k' := by
  cases hold with
  | key => exact Reads.seq (.altL (reads_sps1 hs k)) hr
  | dash => exact Reads.seq (reads_sps1 hs k) hr

theorem notSp_amp (s : Str) : NotSp ('&' :: s) := by simp [NotSp]; decide

theorem notName_sps (m : Nat) (r : Str) : NotName T (indent (m + 1) ++ r) := notName_sp _

theorem reads_values_named {a s r : Str} {m : Nat} {k k' : List Str} {y : Yaml} (hn : NameText T a) (h : NoColl T s)
    (hv : Reads T (.rule .yaml_value) s k [(.yaml_value, .yaml y)] r k') :
    Reads T (.rule .block_array_aliased_yaml_value) ('&' :: (a ++ (indent (m + 1) ++ s))) k [(.block_array_aliased_yaml_value, .aliased ⟨some a, y⟩)] r k' := by
  have h1 : Not T (.rule .alternative_aliased_yaml_value) ('&' :: (a ++ (indent (m + 1) ++ s))) k :=
    .rule (.seqR (.opt (.seq (reads_alias hn (notName_sps m s) k) (reads_spaces (n := m + 1) h.bare.spaces k))) (not_alternative (h.key k) (h.dash k)))
  have h2 : Reads T (.rule .aliased_yaml_value) ('&' :: (a ++ (indent (m + 1) ++ s))) k [(.aliased_yaml_value, .aliased ⟨some a, y⟩)] r k' :=
    .rule rfl (.seq (.opt (.seq (reads_alias hn (notName_sps m s) k) (reads_sps (n := m + 1) h.bare.notSp k))) hv) fun _ => rfl
  exact .rule rfl (.altR h1 h2) fun _ => rfl

/-- A value after a key or a dash on the same line. -/
theorem _root_.YamlSubset.Spec.Lead.value {hold : Holder} {a : Option Str} {lead x r r' : Str} {k : List Str} {y : Yaml} (h : Lead T a lead) (hv : ValueAt T k x r r' y) :
    Reads T (leadExpr hold) (lead ++ x ++ r) k [(.block_array_aliased_yaml_value, .aliased ⟨a, y⟩)] r' k := by
  cases h with
  | @plain n =>
    rw [List.append_assoc]
    exact reads_leads hv.coll.bare.notSp (reads_value hv.coll hv.alias hv.reads)
  | @named a n m ha =>
    have := reads_leads (hold := hold) (n := n) (notSp_amp _) (reads_values_named (m := m) ha hv.coll hv.reads)
    simpa [pad_eq] using this

end YamlSubset.Lay
