import Verif.Spec.PrettySafe
import Verif.Lemmas.Portable
import Verif.Lemmas.Pretty
import Verif.Lemmas.FoldExact

/-! # `pretty` keeps safe documents readable -/

namespace YamlSubset

open Spec

variable {T : CharTables}

/-! ## block scalars made from texts -/

theorem popIfLastEmpty_subset (ls : List Str) : ∀ l ∈ popIfLastEmpty ls, l ∈ ls := by
  intro l hl
  unfold popIfLastEmpty at hl
  split at hl
  · exact List.dropLast_subset _ hl
  · exact hl

theorem popIfLastEmpty_cons {l : Str} (ls : List Str) (h : l ≠ []) : ∃ rest, popIfLastEmpty (l :: ls) = l :: rest := by
  unfold popIfLastEmpty
  split
  · cases ls with
    | nil => rename_i hl; simp at hl; exact absurd hl h
    | cons m ms => exact ⟨_, by rw [List.dropLast_cons_of_ne_nil (by simp)]⟩
  · exact ⟨_, rfl⟩

theorem splitChar_head {sep c : Char} {t : Str} (h : c ≠ sep) : ∃ u rest, splitChar sep (c :: t) = (c :: u) :: rest := by
  rw [splitChar, if_neg h]
  split
  · exact ⟨_, _, rfl⟩
  · exact ⟨_, _, rfl⟩

theorem blockLines_literal {flush : Bool} {s : Str} (h : BlockText s) : BlockLines flush (createLiteral s) := by
  obtain ⟨⟨c, t, rfl, hc⟩, hr⟩ := h
  have hn : c ≠ '\n' := by rintro rfl; exact absurd hc (by decide)
  obtain ⟨u, rest, hs⟩ := splitChar_head (t := t) hn
  have hsub : ∀ l ∈ createLiteral (c :: t), l ∈ splitChar '\n' (c :: t) := by
    intro l hl
    unfold createLiteral at hl
    dsimp only at hl
    split at hl
    · exact popIfLastEmpty_subset _ l hl
    · exact hl
  refine ⟨fun l hl => ⟨splitChar_not_mem '\n' _ l (hsub l hl), fun hm => hr (splitChar_subset _ _ l (hsub l hl) _ hm)⟩, ?_⟩
  unfold createLiteral
  rw [hs]
  dsimp only
  split
  · obtain ⟨r', hr'⟩ := popIfLastEmpty_cons (l := c :: u) rest (by simp)
    exact ⟨_, _, hr', .inl ⟨c, u, rfl, hc⟩⟩
  · exact ⟨_, _, rfl, .inl ⟨c, u, rfl, hc⟩⟩

theorem blockLines_folded {flush : Bool} {s : Str} (h : BlockText s) (hf : Foldable 90 s) : BlockLines flush (createFolded s 90) := by
  obtain ⟨⟨c, t, rfl, hc⟩, hr⟩ := h
  have hn : c ≠ '\n' := by rintro rfl; exact absurd hc (by decide)
  have hsp : c ≠ ' ' := by rintro rfl; exact absurd hc (by decide)
  obtain ⟨u, rest, hs⟩ := splitChar_head (t := t) hn
  obtain ⟨-, hlines, -⟩ := hf
  rw [hs] at hlines
  obtain ⟨p, ps, hp, hj, -⟩ := splitOnLength_pieces (hlines (c :: u) (by simp)) (by simp)
  have hp1 : ∃ v, p = c :: v := by
    cases p with
    | nil =>
      cases ps with
      | nil => simp [joinSp] at hj
      | cons q qs => simp [joinSp] at hj; exact absurd hj.1.symm hsp
    | cons d v =>
      cases ps with
      | nil => simp [joinSp] at hj; exact ⟨v, by rw [hj.1]⟩
      | cons q qs => simp [joinSp] at hj; exact ⟨v, by rw [hj.1]⟩
  obtain ⟨v, rfl⟩ := hp1
  have hall : ∀ l ∈ (splitChar '\n' (c :: t)).flatMap (fun x => splitOnLength x 90 ++ [[]]), LineText l := by
    intro l hl
    simp only [List.mem_flatMap, List.mem_append, List.mem_singleton] at hl
    obtain ⟨x, hx, hl | rfl⟩ := hl
    · have := splitOnLength_subset 90 x l hl
      refine ⟨fun hm => ?_, fun hm => ?_⟩
      · rcases this _ hm with h | h
        · exact splitChar_not_mem '\n' _ x hx h
        · exact absurd h (by decide)
      · rcases this _ hm with h | h
        · exact hr (splitChar_subset _ _ x hx _ h)
        · exact absurd h (by decide)
    · exact ⟨by simp, by simp⟩
  have hfirst : ∃ more, (splitChar '\n' (c :: t)).flatMap (fun x => splitOnLength x 90 ++ [[]]) = (c :: v) :: more := by
    rw [hs, List.flatMap_cons, hp]
    exact ⟨_, rfl⟩
  obtain ⟨more, hmore⟩ := hfirst
  rw [createFolded]
  split
  · refine ⟨fun l hl => hall l (popIfLastEmpty_subset _ _ (popIfLastEmpty_subset _ _ hl)), ?_⟩
    rw [hmore]
    obtain ⟨m1, e1⟩ := popIfLastEmpty_cons (l := c :: v) more (by simp)
    obtain ⟨m2, e2⟩ := popIfLastEmpty_cons (l := c :: v) m1 (by simp)
    exact ⟨_, _, by rw [e1, e2], .inl ⟨c, v, rfl, hc⟩⟩
  · refine ⟨hall, ?_⟩
    rw [hmore]
    exact ⟨_, _, rfl, .inl ⟨c, v, rfl, hc⟩⟩

/-! ## flow collections -/

theorem strToSQPartsAux_parts (s : Str) (parts : List SQPart) (buf : Str) : strToSQPartsAux parts buf s = parts ++ strToSQPartsAux [] buf s := by
  induction s generalizing parts buf with
  | nil => unfold strToSQPartsAux; split <;> simp
  | cons c t ih =>
    unfold strToSQPartsAux
    split
    · dsimp only
      rw [ih]
      conv => rhs; rw [ih]
      split <;> simp
    · exact ih _ _

theorem strToSQParts_chain (s buf : Str) (hb : ∀ c ∈ buf, c ≠ '\'' ∧ c ≠ '\n') (hs : '\n' ∉ s) : SQChain (strToSQPartsAux [] buf s) := by
  induction s generalizing buf with
  | nil =>
    unfold strToSQPartsAux
    cases buf with
    | nil => exact .nil
    | cons b bs => exact .one ⟨by simp, hb⟩
  | cons c t ih =>
    unfold strToSQPartsAux
    split
    · dsimp only
      rw [strToSQPartsAux_parts]
      have h := sqChain_escape (ih [] (by simp) (fun hm => hs (by simp [hm])))
      cases buf with
      | nil => exact h
      | cons b bs => exact sqChain_text ⟨by simp, hb⟩ h
    · rename_i hc
      refine ih (buf ++ [c]) (fun d hd => ?_) (fun hm => hs (by simp [hm]))
      simp only [List.mem_append, List.mem_singleton] at hd
      rcases hd with hd | rfl
      · exact hb d hd
      · exact ⟨hc, fun h => hs (by simp [h])⟩

theorem flow_pretty {y : Yaml} (h : Flow T y) (hs : FlowSafe y) (b : Bool) : Flow T (y.pretty true b) := by
  induction h generalizing b with
  | hash keys _ ih =>
    rw [Yaml.pretty, prettyEntries_eq]
    cases hs with
    | hash hs =>
      refine .hash (fun k v hkv => ?_) fun k v hkv => ?_ <;> simp only [List.mem_map, Prod.mk.injEq] at hkv <;> obtain ⟨⟨k, v⟩, hm, rfl, rfl⟩ := hkv
      · exact keys _ _ hm
      · exact ih _ _ hm (hs _ _ hm) _
  | array _ ih =>
    rw [Yaml.pretty, prettyYamls_eq]
    cases hs with
    | array hs =>
      refine .array fun v hv => ?_
      obtain ⟨v, hm, rfl⟩ := List.mem_map.1 hv
      exact ih _ hm (hs _ hm) _
  | plain h =>
    rw [Yaml.pretty]
    split
    · exact .single (strToSQParts_chain _ _ (by simp) h.line.1)
    · exact .plain h
  | double h => rw [Yaml.pretty, prettyDoubleQuoted, if_pos rfl]; exact .double h
  | @single ps h =>
    cases hs with
    | single hs =>
      rw [Yaml.pretty, prettySingleQuoted]
      have : (ps.any fun x => match x with | .blankLines _ => true | _ => false) = false := by
        rw [List.any_eq_false]
        intro x hx
        cases x <;> simp
        exact hs _ hx
      simp only [Bool.not_true, Bool.false_and, Bool.false_eq_true, if_false, if_true]
      split
      · rename_i hany
        rw [List.any_eq_true] at hany
        obtain ⟨x, hx, h1⟩ := hany
        have h2 := (List.any_eq_false.1 this) x hx
        cases x <;> simp_all
      · exact .single h
  | reference h => rw [Yaml.pretty]; exact .reference h

/-! ## values on one line -/

/-- What `pretty` makes of the value `y₀` on one line. -/
def StaysGood (T : CharTables) (deep comment flow : Bool) (y₀ y : Yaml) : Prop :=
  (OneLine T y ∧ (Commentable y₀ → comment = true → Commentable y) ∧ (flow = true → Flow T y)) ∨
  (deep = false ∧ comment = false ∧ isInlineable y = false ∧ ∀ flush, ∃ ls c, BlockLines flush ls ∧ (y = .literalString ls c ∨ y = .foldedString ls c))

theorem StaysGood.readable {p : Place} {par : Holder} {named comment flow : Bool} {y₀ y : Yaml} (h : StaysGood T p.deep comment flow y₀ y) : Readable T p par named y := by
  rcases h with ⟨h, -⟩ | ⟨hd, -, -, h⟩
  · exact .oneLine h
  · obtain ⟨ls, c, hl, rfl | rfl⟩ := h p.flush
    · exact .literal hd hl
    · exact .folded hd hl

theorem StaysGood.oneLine {deep flow : Bool} {y₀ y : Yaml} (h : StaysGood T deep true flow y₀ y) : OneLine T y := by
  rcases h with ⟨h, -⟩ | ⟨-, hc, -⟩
  · exact h
  · exact nomatch hc

theorem StaysGood.commentable {deep flow : Bool} {y₀ y : Yaml} (h : StaysGood T deep true flow y₀ y) (hc : Commentable y₀) : Commentable y := by
  rcases h with ⟨-, h, -⟩ | ⟨-, hc, -⟩
  · exact h hc rfl
  · exact nomatch hc

theorem StaysGood.flow {deep comment : Bool} {y₀ y : Yaml} (h : StaysGood T deep comment true y₀ y) (hi : isInlineable y = true) : Flow T y := by
  rcases h with ⟨-, -, h⟩ | ⟨-, -, hn, -⟩
  · exact h rfl
  · rw [hi] at hn; exact nomatch hn

theorem any_escape_iff (ps : List DQPart) : (ps.any fun x => match x with | .escapedChar _ => true | _ => false) = true ↔ ∃ e, DQPart.escapedChar e ∈ ps := by
  rw [List.any_eq_true]
  constructor
  · rintro ⟨x, hx, h⟩
    cases x <;> simp at h
    exact ⟨_, hx⟩
  · rintro ⟨e, he⟩
    exact ⟨_, he, rfl⟩

theorem any_blank_iff (ps : List SQPart) : (ps.any fun x => match x with | .blankLines _ => true | _ => false) = true ↔ ∃ n, SQPart.blankLines n ∈ ps := by
  rw [List.any_eq_true]
  constructor
  · rintro ⟨x, hx, h⟩
    cases x <;> simp at h
    exact ⟨_, hx⟩
  · rintro ⟨e, he⟩
    exact ⟨_, he, rfl⟩

theorem prettyDoubleQuoted_good {deep comment flow : Bool} {ps : List DQPart} (h : DQChain ps) (hs : ScalarSafe T deep comment flow (.doubleQuotedString ps)) :
    StaysGood T deep comment flow (.doubleQuotedString ps) (prettyDoubleQuoted false ps) := by
  have hstay : StaysGood T deep comment flow (.doubleQuotedString ps) (.doubleQuotedString ps) := .inl ⟨.double h, fun _ _ => trivial, fun _ => .double h⟩
  rw [prettyDoubleQuoted, if_neg (by simp)]
  dsimp only
  rcases hs _ rfl with ⟨hne, hlen⟩ | ⟨hd, hc, hb, hor⟩
  · rw [if_neg, if_neg]
    · exact hstay
    · exact Nat.not_lt.2 hlen
    · exact fun h => let ⟨e, he⟩ := (any_escape_iff ps).1 h; hne e he
  · split
    · exact .inr ⟨hd, hc, rfl, fun flush => ⟨_, _, blockLines_literal hb, .inl rfl⟩⟩
    · rename_i hno
      have hno := mt (any_escape_iff ps).2 hno
      split
      · exact .inr ⟨hd, hc, rfl, fun flush => ⟨_, _, blockLines_folded hb (hor.resolve_left hno), .inr rfl⟩⟩
      · exact hstay

theorem prettySingleQuoted_good {deep comment flow : Bool} {ps : List SQPart} (h : SQChain ps) (hs : ScalarSafe T deep comment flow (.singleQuotedString ps)) :
    StaysGood T deep comment flow (.singleQuotedString ps) (prettySingleQuoted false ps) := by
  have hstay : StaysGood T deep comment flow (.singleQuotedString ps) (.singleQuotedString ps) := .inl ⟨.single h, fun _ _ => trivial, fun _ => .single h⟩
  rw [prettySingleQuoted]
  rcases hs _ rfl with ⟨hne, hlen, ht⟩ | ⟨hd, hc, hb, hor⟩
  · split
    · rename_i h
      obtain ⟨e, he⟩ := (any_blank_iff ps).1 h
      exact absurd he (hne e)
    split
    · rename_i hq
      have hq : needsQuoting (parseSingleQuoted ps) = false := by
        simp only [Bool.not_false, Bool.true_and, Bool.and_eq_true, Bool.not_eq_true'] at hq
        simp [needsQuoting, hq.1.1, hq.1.2]
      have hsafe := ht.safe hq
      refine .inl ⟨.plain (hsafe.block hq), fun _ hc => ?_, fun hf => ?_⟩
      · rw [hc, Bool.true_or, if_pos rfl] at hsafe
        exact hsafe.colon rfl
      · rw [hf, Bool.or_true, if_pos rfl] at hsafe
        exact .plain (hsafe.flow hq)
    · rw [if_neg (by simp), if_neg (show ¬ byteLen (parseSingleQuoted ps) > maxLineLength from Nat.not_lt.2 hlen)]
      exact hstay
  · split
    · exact .inr ⟨hd, hc, rfl, fun flush => ⟨_, _, blockLines_literal hb, .inl rfl⟩⟩
    · rename_i hno
      have hno := mt (any_blank_iff ps).2 hno
      obtain ⟨hlen, hf⟩ := hor.resolve_left hno
      rw [if_neg, if_neg (by simp), if_pos (show byteLen (parseSingleQuoted ps) > maxLineLength from hlen)]
      · exact .inr ⟨hd, hc, rfl, fun flush => ⟨_, _, blockLines_folded hb hf, .inr rfl⟩⟩
      · simp only [Bool.not_false, Bool.true_and, Bool.and_eq_true, not_and, maxLineLength]
        intro _ h; exact Nat.not_le.2 hlen (of_decide_eq_true h)

theorem oneLine_pretty {deep alt elem comment flow : Bool} {y : Yaml} (h : OneLine T y) (hs : PrettySafe T deep alt elem comment flow y) :
    StaysGood T deep comment flow y (y.pretty false elem) := by
  cases h with
  | hash h =>
    rw [PrettySafe] at hs
    have := flow_pretty h hs elem
    rw [Yaml.pretty] at this ⊢
    exact .inl ⟨.hash this, fun _ _ => trivial, fun _ => this⟩
  | array h =>
    rw [PrettySafe] at hs
    have := flow_pretty h hs elem
    rw [Yaml.pretty] at this ⊢
    exact .inl ⟨.array this, fun _ _ => trivial, fun _ => this⟩
  | plain h =>
    rw [PrettySafe] at hs
    rw [Yaml.pretty, Bool.false_and, if_neg (by simp)]
    exact .inl ⟨.plain h, fun h _ => h, fun hf => .plain (hs hf)⟩
  | double h =>
    rw [PrettySafe] at hs
    rw [Yaml.pretty]
    exact prettyDoubleQuoted_good h hs
  | single h =>
    rw [PrettySafe] at hs
    rw [Yaml.pretty]
    exact prettySingleQuoted_good h hs
  | reference h =>
    rw [Yaml.pretty]
    exact .inl ⟨.reference h, fun _ _ => trivial, fun _ => .reference h⟩

/-! ## block collections -/

/-- The value stays readable in its place. -/
def StaysReadable (T : CharTables) (y : Yaml) : Prop :=
  (∀ p par named elem comment flow, Readable T p par named y → PrettySafe T p.deep (decide (par = .dash) || named) elem comment flow y →
    Readable T p par named (y.pretty false elem)) ∧
  ∀ p par named deep alt comment, Readable T p par named y → PrettySafe T deep alt true comment true y → isInlineable (y.pretty false true) = true →
    Flow T (y.pretty false true)

theorem entries_pretty {next : Next} {ds : List HashData} (h : Entries T (Readable T) next ds) (hs : PrettySafeHash T false ds)
    (ih : ∀ k a v, .element ⟨k, ⟨a, v⟩⟩ ∈ ds → StaysReadable T v) : Entries T (Readable T) next (prettyHashData ds) := by
  induction h with
  | comment hc _ IH =>
    rw [PrettySafeHash] at hs
    rw [prettyHashData]
    exact .comment hc (IH hs (fun k a v h => ih k a v (by simp [h])))
  | last hk ha hv =>
    rw [PrettySafeHash] at hs
    rw [prettyHashData]
    exact .last hk ha ((ih _ _ _ List.mem_cons_self).1 _ _ _ _ _ _ hv hs.1)
  | lastComment hk ha hv hv' hc =>
    rw [PrettySafeHash] at hs
    have := oneLine_pretty hv hs.1
    rw [prettyHashData, prettyHashData, prettyHashData]
    exact .lastComment hk ha this.oneLine (this.commentable hv') hc
  | entry hk ha hv _ IH =>
    rw [PrettySafeHash] at hs
    rw [prettyHashData]
    exact .entry hk ha ((ih _ _ _ List.mem_cons_self).1 _ _ _ _ _ _ hv hs.1) (IH hs.2 (fun k a v h => ih k a v (by simp [h])))
  | entryComment hk ha hv hv' hc _ IH =>
    rw [PrettySafeHash, PrettySafeHash] at hs
    have := oneLine_pretty hv hs.1
    rw [prettyHashData, prettyHashData]
    exact .entryComment hk ha this.oneLine (this.commentable hv') hc (IH hs.2 (fun k a v h => ih k a v (by simp [h])))

theorem elements_pretty {flow : Bool} {next : Next} {ds : List ArrayData} (h : Elements T (Readable T) next ds) (hs : PrettySafeArray T false flow ds)
    (ih : ∀ a v, .element ⟨a, v⟩ ∈ ds → StaysReadable T v) : Elements T (Readable T) next (prettyArrayData ds) := by
  induction h with
  | comment hc _ IH =>
    rw [PrettySafeArray] at hs
    rw [prettyArrayData]
    exact .comment hc (IH hs (fun a v h => ih a v (by simp [h])))
  | last ha hv =>
    rw [PrettySafeArray] at hs
    rw [prettyArrayData]
    exact .last ha ((ih _ _ List.mem_cons_self).1 _ _ _ _ _ _ hv hs.1)
  | lastComment ha hv hv' hc =>
    rw [PrettySafeArray] at hs
    have := oneLine_pretty hv hs.1
    rw [prettyArrayData, prettyArrayData, prettyArrayData]
    exact .lastComment ha this.oneLine (this.commentable hv') hc
  | element ha hv _ IH =>
    rw [PrettySafeArray] at hs
    rw [prettyArrayData]
    exact .element ha ((ih _ _ List.mem_cons_self).1 _ _ _ _ _ _ hv hs.1) (IH hs.2 (fun a v h => ih a v (by simp [h])))
  | elementComment ha hv hv' hc _ IH =>
    rw [PrettySafeArray, PrettySafeArray] at hs
    have := oneLine_pretty hv hs.1
    rw [prettyArrayData, prettyArrayData]
    exact .elementComment ha this.oneLine (this.commentable hv') hc (IH hs.2 (fun a v h => ih a v (by simp [h])))

theorem elements_values {P : Place → Holder → Bool → Yaml → Prop} (hP : ∀ p par named y, OneLine T y → P p par named y) {next : Next} {ds : List ArrayData}
    (h : Elements T P next ds) : ∀ a v, .element ⟨a, v⟩ ∈ ds → ∃ p par named, P p par named v := by
  induction h with
  | comment _ _ ih => intro a v hm; exact ih a v (by simpa using hm)
  | last _ hv => intro a v hm; simp at hm; obtain ⟨rfl, rfl⟩ := hm; exact ⟨_, _, _, hv⟩
  | lastComment _ hv => intro a v hm; simp at hm; obtain ⟨rfl, rfl⟩ := hm; exact ⟨⟨false, true, .none⟩, .key, false, hP _ _ _ _ hv⟩
  | element _ hv _ ih =>
    intro a v hm
    simp only [List.mem_cons, ArrayData.element.injEq, AliasedYaml.mk.injEq] at hm
    rcases hm with ⟨rfl, rfl⟩ | hm
    · exact ⟨_, _, _, hv⟩
    · exact ih a v hm
  | elementComment _ hv _ _ _ ih =>
    intro a v hm
    simp only [List.mem_cons, ArrayData.element.injEq, AliasedYaml.mk.injEq, reduceCtorEq, false_or] at hm
    rcases hm with ⟨rfl, rfl⟩ | hm
    · exact ⟨⟨false, true, .none⟩, .key, false, hP _ _ _ _ hv⟩
    · exact ih a v hm

theorem readable_values {p : Place} {par : Holder} {named : Bool} {ds : List ArrayData} (h : Readable T p par named (.array ds)) :
    ∀ a v, .element ⟨a, v⟩ ∈ ds → ∃ p par named, Readable T p par named v := by
  have hone : ∀ p par named y, OneLine T y → Readable T p par named y := fun _ _ _ _ h => .oneLine h
  intro a v hm
  cases h with
  | oneLine h => cases h
  | array h => exact elements_values hone h a v hm
  | seqOne _ _ _ hv => simp at hm; obtain ⟨rfl, rfl⟩ := hm; exact ⟨_, _, _, hv⟩
  | seqOneComment _ _ _ hv => simp at hm; obtain ⟨rfl, rfl⟩ := hm; exact ⟨⟨false, true, .none⟩, .key, false, hone _ _ _ _ hv⟩
  | seqMore _ _ hv h =>
    rw [List.mem_cons] at hm
    rcases hm with hm | hm
    · simp at hm; obtain ⟨rfl, rfl⟩ := hm; exact ⟨_, _, _, hv⟩
    · exact elements_values hone h a v hm
  | seqMoreComment _ _ hv _ _ h =>
    rw [List.mem_cons, List.mem_cons] at hm
    rcases hm with hm | hm | hm
    · simp at hm; obtain ⟨rfl, rfl⟩ := hm; exact ⟨⟨false, true, .none⟩, .key, false, hone _ _ _ _ hv⟩
    · exact nomatch hm
    · exact elements_values hone h a v hm

theorem prettySafeArray_mem {flow : Bool} {ds : List ArrayData} : ∀ {deep : Bool}, PrettySafeArray T deep flow ds → ∀ a v, .element ⟨a, v⟩ ∈ ds →
    ∃ deep comment, PrettySafe T deep true true comment flow v := by
  induction ds with
  | nil => intro _ _ a v h; simp at h
  | cons d t ih =>
    intro deep hs a v hm
    rw [List.mem_cons] at hm
    match d with
    | .element ⟨b, w⟩ =>
      rw [PrettySafeArray] at hs
      rcases hm with hm | hm
      · simp at hm; obtain ⟨rfl, rfl⟩ := hm; exact ⟨_, _, hs.1⟩
      · exact ih hs.2 a v hm
    | .comment c => rw [PrettySafeArray] at hs; exact ih hs a v (by simpa using hm)
    | .inlineComment c => rw [PrettySafeArray] at hs; exact ih hs a v (by simpa using hm)

theorem autoInline_cases (elem : Bool) (ds : List ArrayData) : autoInline elem (prettyArrayData ds) = .array (prettyArrayData ds) ∨
    (elem = true ∧ ∃ es, autoInline elem (prettyArrayData ds) = .inlineArray es ∧
      ∀ w ∈ es, ∃ a v, ArrayData.element ⟨a, v⟩ ∈ ds ∧ v.pretty false true = w ∧ isInlineable w = true) := by
  unfold autoInline
  split
  · rename_i h
    simp only [Bool.and_eq_true, List.all_eq_true] at h
    obtain ⟨⟨he, hall⟩, -⟩ := h
    refine .inr ⟨he, _, rfl, fun w hw => ?_⟩
    rw [arrayDataValues_eq, ArrayData.mem_value] at hw
    obtain ⟨a, ha⟩ := hw
    have := hall _ ha
    simp only [arrayDataInlineable, Bool.and_eq_true] at this
    rw [prettyArrayData_eq, mem_map_onValue_array] at ha
    obtain ⟨v, hv, hw⟩ := ha
    exact ⟨a, v, hv, hw, this.2⟩
  · exact .inl rfl

theorem autoInline_flow {p : Place} {par : Holder} {named deep : Bool} {ds : List ArrayData} (h : Readable T p par named (.array ds))
    (hs : PrettySafeArray T deep true ds) (ih : ∀ a v, .element ⟨a, v⟩ ∈ ds → StaysReadable T v) {es : List Yaml}
    (hes : ∀ w ∈ es, ∃ a v, ArrayData.element ⟨a, v⟩ ∈ ds ∧ v.pretty false true = w ∧ isInlineable w = true) : Flow T (.inlineArray es) := by
  refine .array fun w hw => ?_
  obtain ⟨a, v, hm, rfl, hi⟩ := hes w hw
  obtain ⟨p', par', named', hr⟩ := readable_values h a v hm
  obtain ⟨deep', comment', hs'⟩ := prettySafeArray_mem hs a v hm
  exact (ih a v hm).2 _ _ _ _ _ _ hr hs' hi

theorem staysReadable (y : Yaml) : StaysReadable T y := by
  have single : ∀ {y : Yaml}, (∀ p par named, Readable T p par named y → OneLine T y) → StaysReadable T y := fun ho =>
    ⟨fun p par named elem comment flow hr hs => (oneLine_pretty (ho _ _ _ hr) hs).readable,
      fun p par named deep alt comment hr hs hi => (oneLine_pretty (ho _ _ _ hr) hs).flow hi⟩
  induction y using Yaml.induct with
  | hIH es _ => exact single fun p par named h => by cases h; assumption
  | hIA es _ => exact single fun p par named h => by cases h; assumption
  | hS ps => exact single fun p par named h => by cases h; assumption
  | hD ps => exact single fun p par named h => by cases h; assumption
  | hU s => exact single fun p par named h => by cases h; assumption
  | hN a => exact single fun p par named h => by cases h; assumption
  | hF ls c =>
    refine ⟨fun p par named elem comment flow hr hs => ?_, fun p par named deep alt comment hr hs hi => ?_⟩
    · rw [Yaml.pretty]; exact hr
    · rw [Yaml.pretty] at hi; exact nomatch hi
  | hL ls c =>
    refine ⟨fun p par named elem comment flow hr hs => ?_, fun p par named deep alt comment hr hs hi => ?_⟩
    · rw [Yaml.pretty]; exact hr
    · rw [Yaml.pretty] at hi; exact nomatch hi
  | hH ds ih =>
    have hpre : ∀ {ds : List HashData} (elem : Bool), ds ≠ [] → Yaml.pretty false elem (.hash ds) = .hash (prettyHashData ds) := by
      intro ds elem h
      rw [Yaml.pretty, if_neg (by simpa using h), if_neg (by simp)]
    have hmem : ∀ {x : HashData} {t ds : List HashData}, ds = x :: t → (∀ k a v, .element ⟨k, ⟨a, v⟩⟩ ∈ ds → StaysReadable T v) →
        ∀ k a v, .element ⟨k, ⟨a, v⟩⟩ ∈ t → StaysReadable T v := by
      rintro x t ds rfl ih k a v h
      exact ih k a v (by simp [h])
    refine ⟨fun p par named elem comment flow hr hs => ?_, fun p par named deep alt comment hr hs hi => ?_⟩
    · rw [PrettySafe] at hs
      cases hr with
      | oneLine h => cases h
      | hash h =>
        rw [hpre elem (by rintro rfl; cases h)]
        exact .hash (entries_pretty h (by simpa using hs) ih)
      | hashNamed h =>
        rw [PrettySafeHash] at hs
        rw [hpre elem (by simp)]
        have := entries_pretty h (by rw [PrettySafeHash]; exact hs) ih
        rw [prettyHashData] at this ⊢
        exact .hashNamed this
      | altOne hp hsteal hk ha hv =>
        rw [hpre elem (by simp), prettyHashData, prettyHashData]
        have hal : (decide (par = Holder.dash) || named) = true := by simpa using hp
        rw [PrettySafeHash, hal] at hs
        exact .altOne hp hsteal hk ha ((ih _ _ _ List.mem_cons_self).1 _ _ _ _ _ _ hv (by simpa [inlineNextHash] using hs.1))
      | altOneComment hp hsteal hk ha hv hv' hc =>
        rw [hpre elem (by simp), prettyHashData, prettyHashData, prettyHashData]
        rw [PrettySafeHash] at hs
        have := oneLine_pretty hv hs.1
        exact .altOneComment hp hsteal hk ha this.oneLine (this.commentable hv') hc
      | altMore hp hk ha hv h =>
        rw [hpre elem (by simp), prettyHashData]
        have hal : (decide (par = Holder.dash) || named) = true := by simpa using hp
        rename_i k a v ds
        have hlen : (HashData.element ⟨k, ⟨a, v⟩⟩ :: ds).length ≠ 1 := by
          cases ds
          · cases h
          · simp
        rw [PrettySafeHash, hal, decide_eq_true hlen] at hs
        exact .altMore hp hk ha ((ih _ _ _ List.mem_cons_self).1 _ _ _ _ _ _ hv (by simpa using hs.1)) (entries_pretty h hs.2 (hmem rfl ih))
      | altMoreComment hp hk ha hv hv' hc h =>
        rw [hpre elem (by simp), prettyHashData, prettyHashData]
        rw [PrettySafeHash, PrettySafeHash] at hs
        have := oneLine_pretty hv hs.1
        exact .altMoreComment hp hk ha this.oneLine (this.commentable hv') hc (entries_pretty h hs.2 (hmem rfl (hmem rfl ih)))
    · rw [hpre] at hi
      · exact nomatch hi
      · rintro rfl
        cases hr with
        | oneLine h => cases h
        | hash h => cases h
  | hA ds ih =>
    have hpre : ∀ {ds : List ArrayData} (elem : Bool), ds ≠ [] → Yaml.pretty false elem (.array ds) = autoInline elem (prettyArrayData ds) := by
      intro ds elem h
      rw [Yaml.pretty, if_neg (by simpa using h), if_neg (by simp)]
    have hne : ∀ p par named, Readable T p par named (.array ds) → ds ≠ [] := by
      rintro p par named hr rfl
      cases hr with
      | oneLine h => cases h
      | array h => cases h
    have hmem : ∀ {x : ArrayData} {t ds : List ArrayData}, ds = x :: t → (∀ a v, .element ⟨a, v⟩ ∈ ds → StaysReadable T v) →
        ∀ a v, .element ⟨a, v⟩ ∈ t → StaysReadable T v := by
      rintro x t ds rfl ih a v h
      exact ih a v (by simp [h])
    refine ⟨fun p par named elem comment flow hr hs => ?_, fun p par named deep alt comment hr hs hi => ?_⟩
    · rw [PrettySafe] at hs
      rw [hpre elem (hne _ _ _ hr)]
      rcases autoInline_cases elem ds with he | ⟨rfl, es, he, hes⟩
      · rw [he]
        cases hr with
        | oneLine h => cases h
        | array h => exact .array (elements_pretty h (by simpa using hs) ih)
        | seqOne hp hsteal ha hv =>
          rw [prettyArrayData, prettyArrayData]
          have hal : (decide (par = Holder.dash) || named) = true := by simpa using hp
          rw [PrettySafeArray, hal] at hs
          exact .seqOne hp hsteal ha ((ih _ _ List.mem_cons_self).1 _ _ _ _ _ _ hv (by simpa using hs.1))
        | seqOneComment hp hsteal ha hv hv' hc =>
          rw [prettyArrayData, prettyArrayData, prettyArrayData]
          rw [PrettySafeArray] at hs
          have := oneLine_pretty hv hs.1
          exact .seqOneComment hp hsteal ha this.oneLine (this.commentable hv') hc
        | seqMore hp ha hv h =>
          rename_i a v e ds
          obtain ⟨b, w⟩ := e
          have hal : (decide (par = Holder.dash) || named) = true := by simpa using hp
          rw [PrettySafeArray, hal] at hs
          have := elements_pretty h hs.2 (hmem rfl ih)
          rw [prettyArrayData]
          rw [prettyArrayData] at this ⊢
          exact .seqMore hp ha ((ih _ _ List.mem_cons_self).1 _ _ _ _ _ _ hv (by simpa using hs.1)) this
        | seqMoreComment hp ha hv hv' hc h =>
          rename_i a v c e ds
          obtain ⟨b, w⟩ := e
          rw [PrettySafeArray, PrettySafeArray] at hs
          have h1 := oneLine_pretty hv hs.1
          have := elements_pretty h hs.2 (hmem rfl (hmem rfl ih))
          rw [prettyArrayData, prettyArrayData]
          rw [prettyArrayData] at this ⊢
          exact .seqMoreComment hp ha h1.oneLine (h1.commentable hv') hc this
      · rw [he]
        exact .oneLine (.array (autoInline_flow hr hs ih hes))
    · rw [PrettySafe] at hs
      rw [hpre true (hne _ _ _ hr)] at hi ⊢
      rcases autoInline_cases true ds with he | ⟨-, es, he, hes⟩
      · rw [he] at hi; exact nomatch hi
      · rw [he]; exact autoInline_flow hr hs ih hes

end YamlSubset
