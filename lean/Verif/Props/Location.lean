import Verif.Spec.Location
import Verif.Lemmas.Location
import Verif.Lemmas.KernelRfl
import Verif.Props.Parse
import Verif.Props.Cost

/-! # Where errors are reported (C62) -/

namespace YamlSubset

open Peg Spec

variable {T : CharTables}

/-! ## lines and columns -/

theorem lineColFrom_spec (l c : Nat) (s : Str) :
    ('\n' ∉ s ∧ lineColFrom l c s = (l, c + s.length)) ∨
      ∃ w cur, s = w ++ '\n' :: cur ∧ '\n' ∉ cur ∧ lineColFrom l c s = (l + w.count '\n' + 1, cur.length + 1) := by
  fun_induction lineColFrom l c s with
  | case1 l c => exact .inl ⟨by simp, by simp⟩
  | case2 l c s ih =>
    right
    rcases ih with ⟨h1, h2⟩ | ⟨w, cur, rfl, h1, h2⟩
    · exact ⟨['\r'], s, rfl, h1, by rw [h2]; simp [Nat.add_comm]⟩
    · exact ⟨'\r' :: '\n' :: w, cur, rfl, h1, by rw [h2]; simp; omega⟩
  | case3 l c s ih =>
    right
    rcases ih with ⟨h1, h2⟩ | ⟨w, cur, rfl, h1, h2⟩
    · exact ⟨[], s, rfl, h1, by rw [h2]; simp [Nat.add_comm]⟩
    · exact ⟨'\n' :: w, cur, rfl, h1, by rw [h2]; simp; omega⟩
  | case4 l c a s h1 h2 ih =>
    have ha : a ≠ '\n' := fun h => h2 h
    rcases ih with ⟨h3, h4⟩ | ⟨w, cur, rfl, h3, h4⟩
    · exact .inl ⟨by simp [h3, Ne.symm ha], by rw [h4]; simp; omega⟩
    · exact .inr ⟨a :: w, cur, rfl, h3, by rw [h4]; simp [List.count_cons, ha]⟩

theorem lineCol_lineColumn (s : Str) : LineColumn s (lineColFrom 1 1 s) := by
  rcases lineColFrom_spec 1 1 s with ⟨h1, h2⟩ | ⟨w, cur, rfl, h1, h2⟩
  · exact ⟨[], s, rfl, .inl rfl, h1, by rw [h2]; simp [Nat.add_comm]⟩
  · exact ⟨w ++ ['\n'], cur, by simp, .inr ⟨w, rfl⟩, h1, by rw [h2]; simp; omega⟩

/-- A place has one line and one column. -/
theorem lineColumn_unique {s : Str} {p : Nat × Nat} (h : LineColumn s p) : p = lineColFrom 1 1 s := by
  obtain ⟨a, cur, rfl, ha, hc, rfl⟩ := h
  rcases lineColFrom_spec 1 1 (a ++ cur) with ⟨h1, h2⟩ | ⟨w, cur', he, h1, h2⟩
  · rcases ha with rfl | ⟨w, rfl⟩
    · rw [h2]; simp [Nat.add_comm]
    · exact absurd h1 (by simp)
  · rw [h2]
    rcases ha with rfl | ⟨w', rfl⟩
    · simp only [List.nil_append] at he
      exact absurd hc (by simp [he])
    · have he' : w' ++ '\n' :: cur = w ++ '\n' :: cur' := by simpa using he
      obtain ⟨rfl, rfl⟩ := split_last he' hc h1
      simp; omega
where
  split_last {w w' cur cur' : Str} (h : w ++ '\n' :: cur = w' ++ '\n' :: cur') (h1 : '\n' ∉ cur) (h2 : '\n' ∉ cur') : w = w' ∧ cur = cur' := by
    rcases List.append_eq_append_iff.1 h with ⟨x, rfl, hx⟩ | ⟨x, rfl, hx⟩
    · cases x with
      | nil => simpa using hx
      | cons a x =>
        simp only [List.cons_append, List.cons.injEq] at hx
        exact absurd h1 (by simp [hx.2])
    · cases x with
      | nil => simpa [eq_comm] using hx
      | cons a x =>
        simp only [List.cons_append, List.cons.injEq] at hx
        exact absurd h2 (by simp [hx.2])

/-! ## errors -/

/-- There is an error exactly if the grammar does not match. -/
theorem parse_err_iff (T : CharTables) (s : Str) : parseYamlFile T s = .err ↔ No (yamlGrammar T) (.rule .yaml) s [] := by
  constructor
  · intro h
    refine ⟨yamlFuel s, ?_⟩
    cases he : eval (yamlGrammar T) (yamlFuel s) (.rule .yaml) s [] with
    | fail => rfl
    | panic => exact absurd he (yaml_eval_ne_panic T _ _)
    | oof => exact absurd he (yaml_eval_ne_oof T _)
    | ok ts rest k =>
      exfalso
      have hy : Yes (yamlGrammar T) (.rule .yaml) s [] ts rest k := ⟨_, he⟩
      have hd := hy.derived (I := Spaces) (req := yamlIndents) (known := pushesSpaces) (st := []) (st' := []) (inp := s)
        (yaml_pushes T) (yamlIndents_ok T) (yaml_eoi T) (by simp [pushed]) rfl (by simp [eoiRules]) ⟨[], rfl⟩ trivial
      obtain ⟨us, hus, rfl⟩ := yes_rule.1 hy
      have hw : wrap ((yamlGrammar T).kind .yaml) .yaml s rest us = [.node .yaml (consumed s rest) us] := rfl
      rw [hw] at hd he
      have hg := good_tree (hd _ (List.mem_singleton.2 rfl))
      have := (good_fine hg (by nofun) rfl : Fine (BadBlockScalar T s) (fun v => ∃ d, v = .doc d ∧ ParsedDocument T d) _)
      have h2 : parseYamlFile T s = (sem (.node .yaml (consumed s rest) us)).bind Val.asDoc := by simp only [parseYamlFile, he, finishYaml]
      rw [h2] at h
      rcases this with ⟨hp, -⟩ | ⟨v, hv, d, rfl, -⟩
      · rw [hp] at h; cases h
      · rw [hv] at h; cases h
  · intro h
    have := h.eval_eq (yaml_eval_ne_oof T s)
    simp only [parseYamlFile, this, finishYaml]

theorem errorLocation_of_no {s : Str} (h : No (yamlGrammar T) (.rule .yaml) s []) :
    parseYamlFile T s = .err ∧ errorLocation T s = some (lineColFrom 1 1 (s.take (errorOffset T s))) := by
  have := (parse_err_iff T s).2 h
  exact ⟨this, by rw [errorLocation, this]⟩

theorem errorOffset_ge {s : Str} {p : Nat} (h : Tried (yamlGrammar T) s.length (.rule .yaml) s [] p) : p ≤ errorOffset T s := by
  obtain ⟨n, h⟩ := h
  have h1 := attempted_mono (g := yamlGrammar T) (N := s.length) (Nat.le_max_left n (yamlFuel s)) .none false (.rule .yaml) s []
  have h2 := attempted_stable (g := yamlGrammar T) (N := s.length) (Nat.le_max_right n (yamlFuel s)) .none false (.rule .yaml) s [] (yaml_eval_ne_oof T s)
  unfold errorOffset
  omega

/-- **C62** An error has a place, and it is in the text: at a character, or at the end. -/
theorem C62_in_the_text (T : CharTables) (s : Str) (h : parseYamlFile T s = .err) :
    ∃ before after p, s = before ++ after ∧ LineColumn before p ∧ errorLocation T s = some p := by
  refine ⟨s.take (errorOffset T s), s.drop (errorOffset T s), _, (List.take_append_drop _ _).symm, lineCol_lineColumn _, ?_⟩
  rw [errorLocation, h]

/-! ## a missing start of the document -/

/-- The text of lines before the document. -/
def headText (ls : List HeadLine) : Str := ls.flatMap HeadLine.text

def blanks (ns : List Nat) : Str := ns.flatMap fun n => indent n ++ ['\n']

theorem reads_blankLines {ns : List Nat} {q : Str} (hq : FullLine q) (k) :
    Reads T (.star (.seq (.star Rule.SP) Rule.NEWLINE)) (blanks ns ++ q) k [] q k := by
  obtain ⟨m, r, rfl, hr⟩ := hq
  induction ns with
  | nil => exact .starNil (not_blankLine hr k)
  | cons n ns ih =>
    have : blanks (n :: ns) ++ (indent m ++ r) = indent n ++ '\n' :: (blanks ns ++ (indent m ++ r)) := by simp [blanks]
    rw [this]
    exact .star (l₁ := []) (.seq (l₁ := []) (reads_sps (notSp_nl _) k) (reads_newline _ k)) ih

theorem reads_blanknl_lines {n : Nat} {ns : List Nat} {q : Str} (hq : FullLine q) (k) :
    Reads T (.rule .blanknl) (blanks (n :: ns) ++ q) k [] q k := by
  have e : blanks (n :: ns) ++ q = indent n ++ '\n' :: (blanks ns ++ q) := by simp [blanks]
  cases ns with
  | nil =>
    obtain ⟨m, r, rfl, hr⟩ := hq
    rw [e]
    refine .silent rfl (.altR ?_ (.seq (l₁ := []) (reads_sps (notSp_nl _) k) (reads_newline _ k)))
    exact .seqR (reads_sps (notSp_nl _) k) (.seqR (reads_newline _ k) (.plus (not_blankLine hr k)))
  | cons n' ns =>
    have e' : blanks (n' :: ns) ++ q = indent n' ++ '\n' :: (blanks ns ++ q) := by simp [blanks]
    rw [e]
    refine .silent rfl (.altL (.seq (l₁ := []) (reads_sps (notSp_nl _) k) (.seq (l₁ := []) (reads_newline _ k) ?_)))
    rw [e']
    exact .seq (l₁ := []) (.seq (l₁ := []) (reads_sps (notSp_nl _) k) (reads_newline _ k)) (reads_blankLines hq k)

theorem reads_blank_then {ns : List Nat} {q : Str} (hq : FullLine q) (k) :
    Reads T (.rule .blank) ('\n' :: (blanks ns ++ q)) k [] q k := by
  cases ns with
  | nil => exact hq.blank k
  | cons n' ns =>
    have e' : blanks (n' :: ns) ++ q = indent n' ++ '\n' :: (blanks ns ++ q) := by simp [blanks]
    refine .silent rfl (.altL (.seq (l₁ := []) (reads_sps_nil (notSp_nl _) k) (.seq (l₁ := []) (reads_newline _ k) ?_)))
    rw [e']
    exact .seq (l₁ := []) (.seq (l₁ := []) (reads_sps (notSp_nl _) k) (reads_newline _ k)) (reads_blankLines hq k)

theorem FullLine.not_blanknl {q : Str} (h : FullLine q) (k) : Not T (.rule .blanknl) q k := by
  obtain ⟨m, r, rfl, hr⟩ := h
  exact YamlSubset.not_blanknl hr k

theorem reads_blanknls {ns : List Nat} {q : Str} (hq : FullLine q) (k) : Reads T (.star (.rule .blanknl)) (blanks ns ++ q) k [] q k := by
  cases ns with
  | nil => exact .starNil (hq.not_blanknl k)
  | cons n ns => exact .star (l₁ := []) (reads_blanknl_lines hq k) (.starNil (hq.not_blanknl k))

theorem _root_.YamlSubset.Peg.AtMost.starAll {R : Type} {g : Grammar R} {N p : Nat} {look : Look} {atomic : Bool} {a : Expr R}
    (h : ∀ s k, AtMost g N look atomic a s k p) (s : Str) (k : List Str) : AtMost g N look atomic (.star a) s k p := by
  intro n
  induction n generalizing s k with
  | zero => exact Nat.zero_le _
  | succ n ih =>
    refine Nat.max_le.2 ⟨h _ _ n, ?_⟩
    split
    · exact ih _ _
    · exact Nat.zero_le _

theorem atMost_blanknls {N p : Nat} {look : Look} (s : Str) (k : List Str) : AtMost (yamlGrammar T) N look false (.star (.rule .blanknl)) s k p :=
  .starAll (fun _ _ => .silent rfl (.quiet rfl)) s k

/-- The blank lines at the start. -/
theorem head_split (ls : List HeadLine) : ∃ (ns : List Nat) (l' : List HeadLine), ls = ns.map .blank ++ l' ∧ (l' = [] ∨ ∃ n c l, l' = .comment n c :: l) := by
  induction ls with
  | nil => exact ⟨[], [], rfl, .inl rfl⟩
  | cons x ls ih =>
    cases x with
    | blank n =>
      obtain ⟨ns, l', rfl, h⟩ := ih
      exact ⟨n :: ns, l', rfl, h⟩
    | comment n c => exact ⟨[], _, rfl, .inr ⟨n, c, ls, rfl⟩⟩

theorem headText_blanks (ns : List Nat) (l : List HeadLine) (r : Str) : headText (ns.map .blank ++ l) ++ r = blanks ns ++ (headText l ++ r) := by
  induction ns with
  | nil => rfl
  | cons n ns ih =>
    simp only [headText, List.map_cons, List.cons_append, List.flatMap_cons, List.append_assoc, blanks, HeadLine.text] at ih ⊢
    rw [ih]; rfl

theorem headText_full {l : List HeadLine} {r : Str} (hr : Black r) (h : l = [] ∨ ∃ n c l', l = .comment n c :: l') : FullLine (headText l ++ r) := by
  rcases h with rfl | ⟨n, c, l, rfl⟩
  · exact ⟨0, r, rfl, hr⟩
  · exact ⟨n, '#' :: (c ++ '\n' :: (headText l ++ r)), by simp [headText, HeadLine.text, indent], by simp [Black]; decide⟩

/-- The body of the repetition in `leading_comments`. -/
abbrev leadingExpr : Expr Rule := .seqs [.star (.rule .blanknl), .rule .commentnl, .star (.rule .blanknl)]

theorem leading_run {rest : Str} (hr : Bare rest) (N : Nat) (k : List Str) (ls : List HeadLine) (hls : ∀ l ∈ ls, l.Ok) :
    AtMost (yamlGrammar T) N .none false (.star leadingExpr) (headText ls ++ rest) k (N - rest.length) ∧
    Tried (yamlGrammar T) N (.star leadingExpr) (headText ls ++ rest) k (N - rest.length) ∧
    ∃ cs : List Str, Reads T (.star leadingExpr) (headText ls ++ rest) k (cs.map fun c => (.commentnl, .str c)) (if ls.any HeadLine.isComment then rest else headText ls ++ rest) k := by
  induction hn : ls.length using Nat.strongRecOn generalizing ls with
  | _ len ih =>
  obtain ⟨ns, l', rfl, hl'⟩ := head_split ls
  rw [headText_blanks]
  have hfull := headText_full hr.black hl'
  have hb := reads_blanknls (T := T) (ns := ns) hfull k
  obtain ⟨tsb, hyb, -⟩ := id hb
  have hnoblank : ∀ ns : List Nat, (ns.map HeadLine.blank).any HeadLine.isComment = false := by
    intro ns; induction ns <;> simp_all [HeadLine.isComment]
  rcases hl' with rfl | ⟨n, c, l, rfl⟩
  · have hno : Not T (.rule .commentnl) rest k := not_commentnl (n := 0) hr.notSp hr.notHash k
    have hbody : Not T leadingExpr (blanks ns ++ (headText [] ++ rest)) k := .seqR hb (.seqL hno)
    refine ⟨.starNo (.seqYes (atMost_blanknls _ _) hyb (.seqNo (.rule (.seqNo ?_ (not_comment_base (n := 0) hr.notSp hr.notHash k)) (Nat.le_refl _)) hno)) hbody,
      .starL (.seqR hyb (.seqL (.fails hno (show Kind.normal ≠ Kind.silent by decide)))), [], ?_⟩
    · exact .silent rfl (.seqYes (.quiet rfl) (reads_sps_nil hr.notSp k).choose_spec.1 (.seqNo (.quiet rfl) (show Not T (Rule.lit '#') rest k from .lit hr.notHash)))
    · have : (ns.map HeadLine.blank ++ []).any HeadLine.isComment = false := by rw [List.append_nil]; exact hnoblank ns
      rw [if_neg (by rw [this]; simp)]
      exact .starNil hbody
  · obtain ⟨ns', l', rfl, hl'⟩ := head_split l
    have hc : LineText c := hls (.comment n c) (by simp)
    have hfull' := headText_full hr.black hl'
    have e : headText (.comment n c :: (ns'.map .blank ++ l')) ++ rest = indent n ++ '#' :: (c ++ '\n' :: (blanks ns' ++ (headText l' ++ rest))) := by
      rw [← headText_blanks]
      simp [headText, HeadLine.text, indent]
    rw [e] at hb hyb ⊢
    have hbase := reads_comment_base (T := T) (n := n) (c := c) (r := '\n' :: (blanks ns' ++ (headText l' ++ rest))) hc (.inr rfl) k
    have hcn : Reads T (.rule .commentnl) (indent n ++ '#' :: (c ++ '\n' :: (blanks ns' ++ (headText l' ++ rest)))) k [(.commentnl, .str c)] (headText l' ++ rest) k :=
      .rule rfl (.seq hbase (reads_blank_then hfull' k)) fun _ => rfl
    have hbn : Reads T (.star (.rule .blanknl)) (headText l' ++ rest) k [] (headText l' ++ rest) k := .starNil (hfull'.not_blanknl k)
    have hbody : Reads T leadingExpr (blanks ns ++ (indent n ++ '#' :: (c ++ '\n' :: (blanks ns' ++ (headText l' ++ rest))))) k [(.commentnl, .str c)] (headText l' ++ rest) k :=
      .seq (l₁ := []) hb (.seq (l₂ := []) hcn hbn)
    obtain ⟨ih1, ih2, cs, ih3⟩ := ih l'.length (by rw [← hn]; simp; omega) l' (fun x hx => hls x (by simp [hx])) rfl
    obtain ⟨tsc, hyc, -⟩ := id hcn
    obtain ⟨tsl, hyl, -⟩ := id hbody
    obtain ⟨tsa, hya, -⟩ := id hbase
    refine ⟨.starYes (.seqYes (atMost_blanknls _ _) hyb (.seqYes (.ruleYes hyc (by simp) (.seqYes ?_ hya (.silent rfl (.quiet rfl)))) hyc (atMost_blanknls _ _))) hyl ih1,
      .starR hyl ih2, c :: cs, ?_⟩
    · refine .silent rfl (.seqYes (.quiet rfl) (reads_sps (T := T) (by simp [NotSp]; decide) k).choose_spec.1 (.seqYes (.quiet rfl) (Reads.lit '#' _ k).choose_spec.1 ?_))
      exact .ruleYes (single_line (T := T) |>.star (LineText.mem hc) (LineEnd.stop (.inr rfl)) k |> fun h => (Reads.ruleText (q := .comment_text) rfl h rfl).choose_spec.1) (by simp) (.quiet rfl)
    · have h1 : (ns.map HeadLine.blank ++ HeadLine.comment n c :: (ns'.map HeadLine.blank ++ l')).any HeadLine.isComment = true := by simp [HeadLine.isComment]
      rw [if_pos h1]
      refine Reads.star (l₁ := [(.commentnl, .str c)]) hbody ?_
      have h2 : (if l'.any HeadLine.isComment then rest else headText l' ++ rest) = rest := by
        rcases hl' with rfl | ⟨n, c, l, rfl⟩
        · rfl
        · simp [HeadLine.isComment]
      rwa [h2] at ih3

theorem reads_leading_run {rest : Str} (hr : Bare rest) (k : List Str) (ls : List HeadLine) (hls : ∀ l ∈ ls, l.Ok) :
    ∃ cs, Reads T (.rule .leading_comments) (headText ls ++ rest) k [(.leading_comments, .strs cs)]
      (if ls.any HeadLine.isComment then rest else headText ls ++ rest) k := by
  obtain ⟨-, -, cs, h⟩ := leading_run (T := T) hr 0 k ls hls
  refine ⟨cs, .rule rfl h fun t => ?_⟩
  simp only [act, Consume.commentnls]
  rw [many_oks .commentnl Val.asStr Val.str (fun _ => rfl) cs]
  rfl

theorem headText_lineColumn (ls : List HeadLine) (hls : ∀ l ∈ ls, l.Ok) : LineColumn (headText ls) (ls.length + 1, 1) := by
  refine ⟨headText ls, [], by simp, ?_, by simp, ?_⟩
  · rcases List.eq_nil_or_concat ls with rfl | ⟨ls, l, rfl⟩
    · exact .inl rfl
    · right
      cases l with
      | blank n => exact ⟨headText ls ++ indent n, by simp [headText, HeadLine.text, indent]⟩
      | comment n c => exact ⟨headText ls ++ (indent n ++ '#' :: c), by simp [headText, HeadLine.text, indent]⟩
  · have : (headText ls).count '\n' = ls.length := by
      induction ls with
      | nil => rfl
      | cons l ls ih =>
        have h1 := ih fun x hx => hls x (by simp [hx])
        have h2 : l.text.count '\n' = 1 := by
          have hi : ∀ n, (List.replicate n ' ').count '\n' = 0 := by intro n; simp [List.count_replicate]
          cases l with
          | blank n => simp [HeadLine.text, hi]
          | comment n c =>
            have hc : LineText c := hls (.comment n c) (by simp)
            simp [HeadLine.text, hi, List.count_eq_zero.2 hc.1]
        simp only [headText, List.flatMap_cons, List.count_append, h2, List.length_cons] at h1 ⊢
        omega
    rw [this]; rfl

/-- **C62** A document that does not start with `---` after its comments, or that starts with blank lines only, is rejected, and the
error is reported at the first line that is neither blank nor a comment. -/
theorem C62_missing_start (T : CharTables) (ls : List HeadLine) (rest : Str) (hls : ∀ l ∈ ls, l.Ok) (hr : Visible rest)
    (h : (¬ ∃ t, rest = c!"---" ++ t) ∨ (ls ≠ [] ∧ ∀ l ∈ ls, l.isComment = false)) :
    parseYamlFile T (ls.flatMap HeadLine.text ++ rest) = .err ∧ errorLocation T (ls.flatMap HeadLine.text ++ rest) = some (ls.length + 1, 1) := by
  change parseYamlFile T (headText ls ++ rest) = .err ∧ errorLocation T (headText ls ++ rest) = _
  have hb : Bare rest := by
    obtain ⟨c, t, rfl, h1, h2, h3, h4⟩ := hr
    simp [Bare, h1, h2, h3, h4]
  obtain ⟨cs, hl⟩ := reads_leading_run (T := T) hb [] ls hls
  obtain ⟨hmost, htried, -⟩ := leading_run (T := T) hb (headText ls ++ rest).length [] ls hls
  have hno : Not T (.str c!"---") (if ls.any HeadLine.isComment then rest else headText ls ++ rest) [] := by
    refine no_str.2 ?_
    rintro ⟨t, ht⟩
    rcases h with h | ⟨hne, hall⟩
    · split at ht
      · exact h ⟨t, ht⟩
      · next hc =>
        cases ls with
        | nil => exact h ⟨t, ht⟩
        | cons l ls =>
          cases l with
          | comment n c => simp [HeadLine.isComment] at hc
          | blank n => cases n <;> simp [headText, HeadLine.text, List.replicate_succ] at ht
    · have hc : ls.any HeadLine.isComment = false := by simpa using hall
      rw [if_neg (by rw [hc]; simp)] at ht
      cases ls with
      | nil => exact hne rfl
      | cons l ls =>
        cases l with
        | comment n c => simp [HeadLine.isComment] at hc
        | blank n => cases n <;> simp [headText, HeadLine.text, List.replicate_succ] at ht
  obtain ⟨_, hls1, -⟩ := id hl
  obtain ⟨_, hsoi, -⟩ := Reads.soi (T := T) (headText ls ++ rest) []
  have hfail : Not T (.rule .yaml) (headText ls ++ rest) [] := .rule (.seqR (.soi _ _) (.seqR hl (.seqL hno)))
  obtain ⟨herr, hloc⟩ := errorLocation_of_no hfail
  refine ⟨herr, ?_⟩
  have hge := errorOffset_ge (.rule (.seqR hsoi (.seqL (.rule htried (show Kind.normal ≠ Kind.atomic by decide)))) (show Kind.normal ≠ Kind.atomic by decide))
  have hle : AtMost (yamlGrammar T) (headText ls ++ rest).length .none false (.rule .yaml) (headText ls ++ rest) [] ((headText ls ++ rest).length - rest.length) :=
    .rule (.seqYes (.quiet rfl) hsoi (.seqYes (.ruleYes hls1 (by simp) hmost) hls1 (.seqNo (.quiet rfl) hno))) (by simp)
  have hoff : errorOffset T (headText ls ++ rest) = (headText ls).length := by
    have := hle (yamlFuel (headText ls ++ rest))
    unfold errorOffset at hge ⊢
    simp only [List.length_append] at hge this ⊢
    omega
  rw [hloc, hoff, List.take_left]
  exact congrArg some (lineColumn_unique (headText_lineColumn ls hls)).symm

/-- An example: a comment, a blank line, and a misspelt start. -/
theorem C62_missing_start_example :
    errorLocation asciiTables c!"# settings\n  \n--\na: 1" = some (3, 1) ∧ errorLocation asciiTables c!"\n\n---\na: 1" = some (3, 1) := by
  refine ⟨(C62_missing_start _ [.comment 0 c!" settings", .blank 2] c!"--\na: 1" ?_ ?_ ?_).2,
    (C62_missing_start _ [.blank 0, .blank 0] c!"---\na: 1" ?_ ?_ (.inr ?_)).2⟩
  · simp [HeadLine.Ok, LineText]
  · exact ⟨_, _, rfl, by decide⟩
  · exact .inl (by simp)
  · simp [HeadLine.Ok]
  · exact ⟨_, _, rfl, by decide⟩
  · simp [HeadLine.isComment]

/-! ## a line that does not belong to the document -/

theorem not_hash_data_before {r : Str} (hf : Follow T false .none 1 0 r) (k) : Not T (.rule .hash_element_data) r (indent 0 :: k) := by
  rcases hf.skip with he | ⟨q, cs', z, he, hq, hc, -, hz⟩ <;> rw [he]
  · exact .rule (.seqL (not_blanknl_nil _))
  · refine .rule (.seqR (hq.blanknl _) (.seqR (hc _) (.seqR (.peek [] z k) (.seqL (not_hash_element_head ?_ _)))))
    rcases hz with rfl | ⟨n, x, tail, rfl, hn⟩
    · exact notName_nil
    · have := hn.lt
      obtain rfl : n = 0 := by omega
      simpa [indent, NotName] using hn.key (by simp)

theorem not_array_data_before {r : Str} (hf : Follow T false .none 1 0 r) (k) {q : Rule} (hq : q = .blank ∨ q = .blanknl) :
    Not T (.seq (.rule q) (.rule .block_array_data)) r (indent 0 :: k) := by
  rcases hq with rfl | rfl
  · exact hf.not_array_data_zero (by simp) k
  · exact hf.not_array_data_zero' (by simp) k

/-- The root of a document, whatever follows that cannot belong to it. -/
theorem Spec.ReadableRoot.reads_before {y : Yaml} (h : ReadableRoot T y) {r : Str} (hf : Follow T false .none 1 0 r) :
    ∃ q, y.format 0 none ++ r = '\n' :: q ∧ Bare q ∧ Reads T (.rule .document) q [] [(.document, .yaml y)] r [] := by
  have hend : LineEnd r := hf.lineEnd
  have hf' : ∀ s t, 0 < s → Follow T false .none s t r := fun s t hs => hf.mono (by omega) (by simp)
  cases h with
  | @hash e ds h =>
    have he := entries_reads h (fun _ _ _ _ _ _ _ h => h.reads) 0 none [] r (hf' _ _ (by omega)) (not_hash_data_before hf _)
    obtain ⟨⟨q, hq, -, -, hrd⟩, -⟩ := he.hash hend
    obtain ⟨key, a, v⟩ := e
    have hk : KeyText T key := by cases h <;> assumption
    rw [formatHash_entry _ _ _ (by simp)] at hq
    simp only [indent, List.replicate_zero, List.nil_append, List.cons_append, List.cons.injEq, true_and, List.append_assoc] at hq
    obtain ⟨c, t, hct, hc⟩ := hk.notSp (':' :: (valueText (0 + 2) .key a v ++ (formatHash 0 none false ds ++ r)))
    refine ⟨q, ?_, by rw [← hq, hct]; exact bare_name hc, .rule rfl (.altL hrd) fun _ => rfl⟩
    rw [← hq]
    simp [Yaml.format, formatHash_entry, indent]
  | @array e ds h =>
    have he := elements_reads h (fun _ _ _ _ _ _ h => h.reads) 0 none [] r (hf' _ _ (by omega)) (fun _ hq => not_array_data_before hf _ hq)
    obtain ⟨q, hq, -, -, hnh, hrd, -⟩ := he.array hend
    obtain ⟨a, v⟩ := e
    rw [formatArray_element _ _ _ (by simp)] at hq
    simp only [indent, List.replicate_zero, List.nil_append, List.cons_append, List.cons.injEq, true_and, List.append_assoc] at hq
    refine ⟨q, ?_, by rw [← hq]; exact bare_dash _, .rule rfl (.altR hnh hrd) fun _ => rfl⟩
    rw [← hq]
    simp [Yaml.format, formatArray_element, indent]

theorem reads_post_before {cs : List Str} (h : ∀ c ∈ cs, LineText c) {x : Char} {tail : Str} (hx : Bare (x :: tail)) (k) :
    Reads T (.seq (.rule .blank) (.star (.seq (.rule .comment) (.rule .blank)))) (lines 0 cs ++ '\n' :: x :: tail) k
      (cs.map fun c => (.comment, .str c)) (x :: tail) k := by
  have hstop : Reads T (.star (.seq (.rule .comment) (.rule .blank))) (x :: tail) k [] (x :: tail) k :=
    .starNil (.seqL (not_comment (n := 0) hx.notSp hx.notHash k))
  have hstar : ∀ (cs : List Str) (c : Str), (∀ c ∈ cs, LineText c) → LineText c →
      Reads T (.star (.seq (.rule .comment) (.rule .blank))) ('#' :: (c ++ (lines 0 cs ++ '\n' :: x :: tail))) k ((c :: cs).map fun c => (.comment, .str c)) (x :: tail) k := by
    intro cs
    induction cs with
    | nil =>
      intro c _ hc
      exact Reads.star (l₁ := [(.comment, .str c)]) (.seq (reads_comment (n := 0) hc (.inr rfl) k) (reads_blank (n := 0) hx.black k)) hstop
    | cons d cs ih =>
      intro c hcs hc
      refine Reads.star (l₁ := [(.comment, .str c)]) (.seq (reads_comment (n := 0) hc (.inr rfl) k) ?_) (ih d (fun e he => hcs e (by simp [he])) (hcs d (by simp)))
      have : lines 0 (d :: cs) ++ '\n' :: x :: tail = '\n' :: (indent 0 ++ ('#' :: (d ++ (lines 0 cs ++ '\n' :: x :: tail)))) := by simp [lines, indent]
      rw [this]
      exact reads_blank (n := 0) (by simp [Black]; decide) k
  cases cs with
  | nil => exact .seq (l₁ := []) (reads_blank (n := 0) hx.black k) hstop
  | cons c cs =>
    have : lines 0 (c :: cs) ++ '\n' :: x :: tail = '\n' :: (indent 0 ++ ('#' :: (c ++ (lines 0 cs ++ '\n' :: x :: tail)))) := by simp [lines, indent]
    rw [this]
    exact .seq (l₁ := []) (reads_blank (n := 0) (by simp [Black]; decide) k) (hstar cs c (fun d hd => h d (by simp [hd])) (h c (by simp)))

/-- The earliest place on the line of a text that comes after `before` and a line break. -/
theorem lineCol_after {before s : Str} {n : Nat} (hn : before.length + 1 ≤ n) (hs : ∃ t, s = before ++ '\n' :: t) :
    before.count '\n' + 2 ≤ (lineColFrom 1 1 (s.take n)).1 := by
  obtain ⟨t, rfl⟩ := hs
  have he : (before ++ '\n' :: t).take n = before ++ '\n' :: t.take (n - before.length - 1) := by
    rw [List.take_append, List.take_of_length_le (by omega)]
    obtain ⟨m, hm⟩ : ∃ m, n - before.length = m + 1 := ⟨n - before.length - 1, by omega⟩
    rw [hm, List.take_succ_cons]; rfl
  rw [he]
  obtain ⟨a, cur, hac, ha, hc, hp⟩ := lineCol_lineColumn (before ++ '\n' :: t.take (n - before.length - 1))
  have hcount : (before ++ '\n' :: t.take (n - before.length - 1)).count '\n' = a.count '\n' := by
    rw [hac, List.count_append, List.count_eq_zero.2 hc]; rfl
  rw [hp]
  simp only [List.count_append, List.count_cons_self] at hcount ⊢
  omega

/-- Everything is read but the end of the text. -/
theorem yaml_stops {s s2 s3 s4 s5 s6 s7 s8 s9 : Str} {k2 k3 k4 k5 k6 k7 k8 k9 : List Str} {t2 t3 t4 t5 t6 t7 t8 t9}
    (y2 : Yes (yamlGrammar T) (.rule .leading_comments) s [] t2 s2 k2) (y3 : Yes (yamlGrammar T) (.str ['-', '-', '-']) s2 k2 t3 s3 k3)
    (y4 : Yes (yamlGrammar T) (.rule .blanknl) s3 k3 t4 s4 k4) (y5 : Yes (yamlGrammar T) (.rule .commentnls) s4 k4 t5 s5 k5)
    (y6 : Yes (yamlGrammar T) (.rule .document) s5 k5 t6 s6 k6) (y7 : Yes (yamlGrammar T) (.rule .blank) s6 k6 t7 s7 k7)
    (y8 : Yes (yamlGrammar T) (.star (.seq (.rule .comment) (.rule .blank))) s7 k7 t8 s8 k8)
    (y9 : Yes (yamlGrammar T) (.rule .spaces) s8 k8 t9 s9 k9) (h : s9 ≠ []) :
    No (yamlGrammar T) (.rule .yaml) s [] ∧ ∀ N, Tried (yamlGrammar T) N (.rule .yaml) s [] (N - s9.length) := by
  obtain ⟨_, y1, -⟩ := Reads.soi (T := T) s []
  constructor
  · exact no_rule.2 (no_seq.2 (.inr ⟨_, _, _, y1, no_seq.2 (.inr ⟨_, _, _, y2, no_seq.2 (.inr ⟨_, _, _, y3, no_seq.2 (.inr ⟨_, _, _, y4,
      no_seq.2 (.inr ⟨_, _, _, y5, no_seq.2 (.inr ⟨_, _, _, y6, no_seq.2 (.inr ⟨_, _, _, y7, no_seq.2 (.inr ⟨_, _, _, y8,
      no_seq.2 (.inr ⟨_, _, _, y9, no_eoi.2 h⟩)⟩)⟩)⟩)⟩)⟩)⟩)⟩)⟩))
  · exact fun N => .rule (.seqR y1 (.seqR y2 (.seqR y3 (.seqR y4 (.seqR y5 (.seqR y6 (.seqR y7 (.seqR y8 (.seqR y9 (.eoi h))))))))))
      (show Kind.normal ≠ Kind.atomic by decide)

/-- **C62** If a line that cannot belong to a document comes after one, the text is rejected and the error is not reported before this
line: no correct line is blamed. -/
theorem C62_not_too_early (T : CharTables) (d : Document) (h : ReadableDocument T d) (x : Char) (tail : Str)
    (hx : Visible (x :: tail)) (hdash : x ≠ '-') (hname : ¬ NameChar T x) :
    parseYamlFile T (d.format ++ '\n' :: x :: tail) = .err ∧
    ∃ line col, errorLocation T (d.format ++ '\n' :: x :: tail) = some (line, col) ∧ d.format.count '\n' + 2 ≤ line := by
  have hb : Bare (x :: tail) := by
    obtain ⟨c, t, he, h1, h2, h3, h4⟩ := hx
    cases he
    simp [Bare, h1, h2, h3, h4]
  obtain ⟨lead, items⟩ := d
  obtain ⟨hlead, pre, post, root, hitems, hcs, hroot⟩ := h
  dsimp only at hitems hlead
  subst hitems
  have hpre : ∀ c ∈ pre, LineText c := fun c hc => hcs c (by simp [hc])
  have hpost : ∀ c ∈ post, LineText c := fun c hc => hcs c (by simp [hc])
  have hfol : Follow T false .none 1 0 (lines 0 post ++ '\n' :: x :: tail) :=
    ⟨0, post, '\n' :: x :: tail, rfl, hpost, fun _ => ⟨by omega, fun _ => by omega⟩,
      .inr ⟨0, x, tail, by simp [indent], by omega, fun _ => by omega, hb, fun _ => hdash, fun _ => hname⟩⟩
  obtain ⟨q, hq, hbare, hrd⟩ := hroot.reads_before hfol
  have hfm : ∀ cs : List Str, (cs.map DocumentData.comment).flatMap DocumentData.format = lines 0 cs := by
    intro cs
    induction cs with
    | nil => rfl
    | cons c cs ih => simp [lines, DocumentData.format, indent] at ih ⊢; exact ih
  have htext : Document.format ⟨lead, pre.map .comment ++ [.yaml root] ++ post.map .comment⟩ ++ '\n' :: x :: tail =
      linesNl 0 lead ++ '-' :: '-' :: '-' :: '\n' :: (linesNl 0 pre ++ (indent 0 ++ q)) := by
    have h1 : lines 0 pre ++ (root.format 0 none ++ (lines 0 post ++ '\n' :: x :: tail)) = '\n' :: (linesNl 0 pre ++ q) := by rw [hq, lines_nl]
    simp only [Document.format, List.flatMap_append, hfm, List.flatMap_cons, List.flatMap_nil, DocumentData.format, List.append_nil, List.append_assoc]
    rw [h1]
    simp [linesNl, indent]
  have hd0 : Reads T (.str ['-', '-', '-']) ('-' :: '-' :: '-' :: '\n' :: (linesNl 0 pre ++ (indent 0 ++ q))) [] []
      ('\n' :: (linesNl 0 pre ++ (indent 0 ++ q))) [] := .str ['-', '-', '-'] _ []
  obtain ⟨ts1, hp1, hp2⟩ := reads_post_before (T := T) hpost hb []
  obtain ⟨sb, kb, ta, tb, hb1, hb2, rfl⟩ := yes_seq.1 hp1
  obtain ⟨_, hsp, -⟩ := reads_spaces (T := T) (n := 0) hb.spaces []
  obtain ⟨_, y2, -⟩ := reads_leading (T := T) (r := '-' :: '-' :: '\n' :: (linesNl 0 pre ++ (indent 0 ++ q))) hlead []
  obtain ⟨_, y3, -⟩ := id hd0
  obtain ⟨_, y4, -⟩ := FullLine.blanknl (T := T) (FullLine.linesNl (m := 0) (cs := pre) ⟨0, q, rfl, hbare.black⟩) []
  obtain ⟨_, y5, -⟩ := reads_commentnls (T := T) (m := 0) (n := 0) hpre hbare []
  obtain ⟨_, y6, -⟩ := hrd
  obtain ⟨hno, htry⟩ := yaml_stops y2 y3 y4 y5 y6 hb1 hb2 hsp (by simp)
  generalize Document.format ⟨lead, pre.map .comment ++ [.yaml root] ++ post.map .comment⟩ = dt at htext ⊢
  rw [← htext] at hno htry
  obtain ⟨herr, hloc⟩ := errorLocation_of_no hno
  have hge := errorOffset_ge (htry _)
  generalize errorOffset T (dt ++ '\n' :: x :: tail) = m at hge hloc
  have hline := lineCol_after (before := dt) (s := dt ++ '\n' :: x :: tail) (n := m)
    (by simp only [List.length_append, List.length_cons] at hge ⊢; omega) ⟨_, rfl⟩
  generalize lineColFrom 1 1 ((dt ++ '\n' :: x :: tail).take m) = p at hline hloc
  exact ⟨herr, p.1, p.2, hloc, hline⟩

/-- A case that meets the conditions: the offending line is the third one. -/
theorem C62_not_too_early_example :
    ReadableDocument asciiTables (nestedDocument 1) ∧ Visible c!"]b" ∧ ¬ NameChar asciiTables ']' ∧
    errorLocation asciiTables ((nestedDocument 1).format ++ c!"\n]b") = some (3, 1) :=
  ⟨nestedDocument_readable 1, ⟨_, _, rfl, by decide⟩, not_nameChar (by decide), by kernel_rfl⟩

/-- In a flow collection over several lines a missing comma is reported before the place where it is missing, on another line. -/
theorem C62_counterexample_flow : errorLocation asciiTables c!"---\n['a'\n'b']" = some (2, 5) := by kernel_rfl

/-- A carriage return does not count as the end of a line, though the parser accepts it as a line break. -/
theorem C62_counterexample_return :
    errorLocation asciiTables c!"---\na: 1\nb" = some (3, 1) ∧ errorLocation asciiTables c!"---\ra: 1\rb" = some (1, 10) ∧
    parseYamlFile asciiTables c!"---\ra: 1\rb: 2" = parseYamlFile asciiTables c!"---\na: 1\nb: 2" := by
  refine ⟨by kernel_rfl, by kernel_rfl, by kernel_rfl⟩

/-- Other examples: an unfinished flow sequence, an entry without a value, a line that is indented too much, a quote that is not closed. -/
theorem C62_example :
    errorLocation asciiTables c!"---\na: 1\nb: [1, 2\n" = some (3, 8) ∧
    errorLocation asciiTables c!"---\na: 1\nb\nc: 3" = some (3, 1) ∧
    errorLocation asciiTables c!"---\na: 1\n  b: 2\nc: 3" = some (3, 3) ∧
    errorLocation asciiTables c!"---\na: \"x\nc: 3" = some (3, 5) ∧
    errorLocation asciiTables c!"---\na: 1" = none := by
  refine ⟨by kernel_rfl, by kernel_rfl, by kernel_rfl, by kernel_rfl, by kernel_rfl⟩

end YamlSubset
