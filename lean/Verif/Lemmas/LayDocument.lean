import Verif.Lemmas.LayWritten
import Verif.Props.RoundTrip

/-! # Reading documents in any layout -/

namespace YamlSubset.Lay

open Peg Spec

variable {T : CharTables}

/-! ## the end -/

theorem _root_.YamlSubset.Spec.Tail.follow {cl : Closing} {c : Nat} {cs : List Str} {r : Str} (h : Tail cl c cs r) (hold : Holder) :
    Follow T hold cl c .none c r := by
  cases h with
  | @spaces c n => exact ⟨n, [], by simp [pad_eq], by simp, .inl ⟨rfl, by simp⟩⟩
  | nil hcl => exact ⟨0, [], rfl, by simp, .inl ⟨rfl, hcl⟩⟩
  | @lines cl c cs g n hg hn =>
    obtain ⟨m, nl, b, x, he, hnl, hb, hc, hcl, ht⟩ := hg.shape (indent n)
    rw [pad_eq, he]
    have hrd : ∀ K, Reads T (.rule .commentnls) (x ++ indent n) K [(.commentnls, .strs cs)] (indent n) K := by
      intro K
      have := hc.reads (T := T) (n := n) (y := []) bare_nil K
      simpa using this
    refine ⟨m, _, rfl, hcl, .inr ⟨nl, b, _, cs, _, rfl, hnl, hb, hc.full (fullLine_indent n), hrd, ?_, fun h => ?_, .inl ⟨n, rfl⟩⟩⟩
    · rcases hc.shape (indent n) with ⟨-, rfl⟩ | ⟨-, m, z, -, hz⟩
      · exact .inl rfl
      · exact .inr ⟨m, _, hz⟩
    · obtain ⟨h1, h2⟩ := ht h
      refine ⟨h1, ?_⟩
      rcases hc.shape (indent n) with ⟨h3, rfl⟩ | ⟨-, m, z, hz, hz'⟩
      · exact ⟨n, [], by simp, hn h h3, bare_nil.black⟩
      · exact ⟨m, _, hz', h2 m z hz, by simp [Black]; decide⟩
  | @comment cl c cs g n d hg hn hd =>
    obtain ⟨m, nl, b, x, he, hnl, hb, hc, hcl, ht⟩ := hg.shape (indent n ++ '#' :: d)
    rw [pad_eq, List.append_assoc, he]
    refine ⟨m, _, rfl, hcl, .inr ⟨nl, b, _, cs ++ [d], [], rfl, hnl, hb, hc.full (fullLine_hash n d), fun K => hc.reads_end hd K, ?_, fun h => ?_, .inl ⟨0, rfl⟩⟩⟩
    · rcases hc.shape (indent n ++ '#' :: d) with ⟨-, rfl⟩ | ⟨-, m, z, -, hz⟩
      · exact .inr ⟨n, d, rfl⟩
      · exact .inr ⟨m, _, hz⟩
    · obtain ⟨h1, h2⟩ := ht h
      refine ⟨h1, ?_⟩
      rcases hc.shape (indent n ++ '#' :: d) with ⟨h3, rfl⟩ | ⟨-, m, z, hz, hz'⟩
      · exact ⟨n, _, rfl, hn h h3, by simp [Black]; decide⟩
      · exact ⟨m, _, hz', h2 m z hz, by simp [Black]; decide⟩

/-- The comments after the root, as the grammar has them. -/
def endExpr : Expr Rule := .star (.seq (.rule .comment) (.rule .blank))

theorem not_end_comment (n : Nat) (k) : Not T (.seq (.rule .comment) (.rule .blank)) (indent n) k := by
  have := not_comment (T := T) (n := n) (r := []) bare_nil.notSp (by simp) k
  rw [List.append_nil] at this
  exact .seqL this

theorem _root_.YamlSubset.Spec.CommentLines.end {cs : List Str} {x : Str} (h : CommentLines cs x) {q : Str} (hq : FullLine q) {l : List (Rule × Val)} {r : Str} {k : List Str}
    (hr : Reads T endExpr q k l r k) : Reads T endExpr (x ++ q) k (cs.map (fun c => (.comment, .str c)) ++ l) r k := by
  induction h with
  | nil => exact hr
  | @line m c nl b cs x hc hn hb h ih =>
    have := Reads.star (Reads.seq (reads_comment (T := T) (n := m) hc (hn.eol _) k) (reads_blank_lines (n := 0) hn hb (h.full hq) k)) ih
    simpa [pad_eq, indent, endExpr] using this

theorem _root_.YamlSubset.Spec.Tail.reads {cl : Closing} {c : Nat} {cs : List Str} {r r' : Str} (h : Tail cl c cs r) (ht : Trim r r') (k) :
    ∃ q n, Reads T (.rule .blank) r' k [] q k ∧ Reads T endExpr q k (cs.map fun c => (.comment, .str c)) (indent n) k := by
  cases h with
  | @spaces c n =>
    obtain ⟨m, -, rfl⟩ := Trim.split (n := n) (r1 := []) (by simpa [pad_eq] using ht) bare_nil.notSp
    rw [List.append_nil]
    exact ⟨_, m, blank_none_full (fullLine_indent m) k, .starNil (not_end_comment m k)⟩
  | nil hcl =>
    obtain ⟨m, -, rfl⟩ := Trim.split (n := 0) (r1 := []) (by simpa [indent] using ht) bare_nil.notSp
    rw [List.append_nil]
    exact ⟨_, m, blank_none_full (fullLine_indent m) k, .starNil (not_end_comment m k)⟩
  | @lines cl c cs g n hg hn =>
    obtain ⟨m, nl, b, x, he, hnl, hb, hc, -, -⟩ := hg.shape (indent n)
    rw [pad_eq, he] at ht
    obtain ⟨j, -, rfl⟩ := ht.split (hnl.notSp _)
    have := hc.end (T := T) (fullLine_indent n) (.starNil (not_end_comment n k))
    exact ⟨_, n, reads_blank_lines hnl hb (hc.full (fullLine_indent n)) k, by simpa using this⟩
  | @comment cl c cs g n d hg hn hd =>
    obtain ⟨m, nl, b, x, he, hnl, hb, hc, -, -⟩ := hg.shape (indent n ++ '#' :: d)
    rw [pad_eq, List.append_assoc, he] at ht
    obtain ⟨j, -, rfl⟩ := ht.split (hnl.notSp _)
    have h1 : Reads T endExpr (indent n ++ '#' :: (d ++ [])) k [(.comment, .str d)] (indent 0) k :=
      Reads.star (Reads.seq (reads_comment hd (.inl rfl) k) (blank_none_full (fullLine_indent 0) k)) (.starNil (not_end_comment 0 k))
    have := hc.end (T := T) (fullLine_hash n d) (by simpa using h1)
    exact ⟨_, 0, reads_blank_lines hnl hb (hc.full (fullLine_hash n d)) k, by simpa using this⟩

/-! ## the root -/

theorem _root_.YamlSubset.Spec.RootText.reads {c : Nat} {cl : Closing} {y : Yaml} {x : Str} (h : RootText T c cl y x) {r : Str}
    (hf : ∀ hold, Follow T hold cl c .none c r) :
    (∃ z, x ++ r = indent c ++ z ∧ Bare z) ∧ ∃ r', Trim r r' ∧ Reads T (.rule .document) (x ++ r) [] [(.document, .yaml y)] r' [] := by
  cases h with
  | @hash c cl ds x h =>
    have hat : EntriesAt T c [] ds x r := entries_reads h (fun _ v _ t next s hold cl x hw => by obtain ⟨a, y⟩ := v; exact written_reads y a t next s hold cl x hw) _ r
      (hf .key) fun r' htr => ((hf .key).trim htr).not_hash_data (.inr (by simp)) _
    have hh := bare_head h r
    obtain ⟨r', htr, hv⟩ := hash_value (map := true) (cs := []) hh.1.notSp hat (hf .key)
    have := hv _ (start_comments (x := []) .nil hh.1 hh.2.1)
    refine ⟨⟨x ++ r, by simp [pad_eq], hh.1⟩, r', htr, .rule (l := [(.hash, .yaml (.hash ds))]) rfl (.altL ?_) fun _ => rfl⟩
    simpa [pad_eq] using this
  | @array c cl ds x h =>
    have hat : ElementsAt T c [] ds x r := elements_reads h (fun v _ t next s hold cl x hw => by obtain ⟨a, y⟩ := v; exact written_reads y a t next s hold cl x hw) _ r
      (hf .dash) fun q r' hq htr => ((hf .dash).trim htr).not_array_data (.inr (.inr (by simp))) hq _
    obtain ⟨tl, hx⟩ := h.head
    have hh : Bare (x ++ r) ∧ (x ++ r).head? ≠ some '[' := by rw [hx]; exact ⟨bare_dash _, by simp⟩
    obtain ⟨r', htr, hv⟩ := array_value (cs := []) h.head hat (hf .dash)
    have hst : Start T false [] (indent c ++ (x ++ r)) (indent c ++ (x ++ r)) := start_comments (x := []) .nil hh.1 hh.2
    have := (hv _ hst).1
    refine ⟨⟨x ++ r, by simp [pad_eq], hh.1⟩, r', htr, .rule (l := [(.array, .yaml (.array ds))]) rfl (.altR ?_ ?_) fun _ => rfl⟩
    · rw [hx] at hst ⊢
      have := hst.not_hash []
      simpa [pad_eq] using this
    · simpa [pad_eq] using this
  | @flow es x h =>
    obtain ⟨hrd, hhd⟩ := h.reads_array r []
    cases x with
    | nil => simp at hhd
    | cons ch x =>
      obtain rfl : ch = '[' := by simpa using hhd
      have hcoll : NoColl T ('[' :: x ++ r) := noColl_head (by decide)
      refine ⟨⟨'[' :: x ++ r, by simp [indent], hcoll.bare⟩, r, .refl _, .rule (l := [(.array, .yaml (.inlineArray es))]) rfl (.altR (not_hash_here hcoll []) ?_) fun _ => rfl⟩
      exact .rule rfl (.altL hrd) fun _ => rfl

/-! ## before the header -/

theorem leading_star {cs : List Str} {x : Str} (h : CommentLines cs x) (r : Str) (k) :
    Reads T (.star (.seqs [.star (.rule .blanknl), .rule .commentnl, .star (.rule .blanknl)])) (x ++ '-' :: r) k (cs.map fun c => (.commentnl, .str c)) ('-' :: r) k := by
  have hd : FullLine ('-' :: r) := ⟨0, '-' :: r, rfl, (bare_dash r).black⟩
  induction h with
  | nil => exact .starNil (.seqR (.starNil (not_blanknl_full hd k)) (.seqL (not_commentnl (n := 0) (bare_dash r).notSp (by simp) k)))
  | @line m c nl b cs x hc hn hb h ih =>
    have hq := h.full hd
    have := Reads.star (l₁ := [(.commentnl, .str c)]) (Reads.seq (l₁ := []) (.starNil (not_blanknl_full (fullLine_hash m _) k))
      (.seq (l₂ := []) (reads_commentnl (T := T) (m := m) hc hn hb hq k) (.starNil (not_blanknl_full hq k)))) ih
    simpa [pad_eq, Expr.seqs] using this

theorem _root_.YamlSubset.Spec.Blanks.star_blanknl {b : Str} (h : Blanks b) {q : Str} (hq : FullLine q) (k) : Reads T (.star (.rule .blanknl)) (b ++ q) k [] q k := by
  cases h with
  | nil => exact .starNil (not_blanknl_full hq k)
  | @line m nl x hn h =>
    have := Reads.star (l₁ := []) (reads_blanknl_lines (T := T) (n := m) hn h hq k) (.starNil (not_blanknl_full hq k))
    simpa [pad_eq] using this

theorem _root_.YamlSubset.Spec.LeadingText.reads {cs : List Str} {x : Str} (h : LeadingText cs x) (r : Str) (k) :
    Reads T (.rule .leading_comments) (x ++ '-' :: r) k [(.leading_comments, .strs cs)] ('-' :: r) k := by
  refine .rule (l := cs.map fun c => (.commentnl, .str c)) rfl ?_ fun t => ?_
  · have hd : FullLine ('-' :: r) := ⟨0, '-' :: r, rfl, (bare_dash r).black⟩
    cases h with
    | nil => exact leading_star .nil r k
    | @comments b cs x hb hcs h =>
      cases h with
      | nil => exact absurd rfl hcs
      | @line m c nl b' cs x hc hn hb' h =>
        have hq := h.full hd
        have := Reads.star (l₁ := [(.commentnl, .str c)]) (Reads.seq (l₁ := []) (hb.star_blanknl (fullLine_hash m _) k)
          (.seq (l₂ := []) (reads_commentnl (T := T) (m := m) hc hn hb' hq k) (.starNil (not_blanknl_full hq k)))) (leading_star h r k)
        simpa [pad_eq, Rule.body, Expr.seqs] using this
  · simp only [act, Consume.commentnls]
    rw [many_oks .commentnl Val.asStr Val.str (fun _ => rfl) cs]
    rfl

/-! ## documents -/

/-- The text of a document is parsed, if the text of its root is. -/
theorem document_of_root {leading pre post : List Str} {root : Yaml} {c : Nat} {cl : Closing} {lead nl b preText rootText tail : Str} (n : Nat) (hl : LeadingText leading lead)
    (hn : Break nl) (hb : Blanks b) (hp : CommentLines pre preText) (ht : Tail cl c post tail)
    (hr : (∃ z, rootText ++ tail = indent c ++ z ∧ Bare z) ∧ ∃ r', Trim tail r' ∧ Reads T (.rule .document) (rootText ++ tail) [] [(.document, .yaml root)] r' []) :
    parseYamlFile T (lead ++ ['-', '-', '-'] ++ pad n ++ nl ++ b ++ preText ++ rootText ++ tail) = .ok ⟨leading, pre.map .comment ++ [.yaml root] ++ post.map .comment⟩ := by
  obtain ⟨⟨z, hz, hbare⟩, r', htr, hroot⟩ := hr
  obtain ⟨q, m, hblank, hend⟩ := ht.reads (T := T) htr []
  have hfull : FullLine (preText ++ (rootText ++ tail)) := by rw [hz]; exact hp.full ⟨c, z, rfl, hbare.black⟩
  have hpre : Reads T (.rule .commentnls) (preText ++ (rootText ++ tail)) [] [(.commentnls, .strs pre)] (rootText ++ tail) [] := by
    rw [hz]; exact hp.reads hbare []
  have hsp : Reads T (.rule .spaces) (indent m) [] [] [] [] := by
    have := (ws_indent m).reads (T := T) (r := []) bare_nil.spaces []
    simpa using this
  have hbody : Reads T ((Rule.yaml).body T) (lead ++ '-' :: ('-' :: '-' :: (indent n ++ (nl ++ (b ++ (preText ++ (rootText ++ tail))))))) []
      ([(.leading_comments, .strs leading)] ++ ([(.commentnls, .strs pre)] ++ ([(.document, .yaml root)] ++
        (post.map (fun c => (Rule.comment, Val.str c)) ++ [(.EOI, .unit)])))) [] [] :=
    .seq (l₁ := []) (.soi _ _) (.seq (hl.reads _ _) (.seq (l₁ := []) (.str ['-', '-', '-'] _ _) (.seq (l₁ := []) (reads_blanknl_lines hn hb hfull _)
      (.seq hpre (.seq hroot (.seq (l₁ := []) hblank (.seq hend (.seq (l₁ := []) hsp (Reads.eoi []))))))))) 
  have : Reads T (.rule .yaml) (lead ++ '-' :: ('-' :: '-' :: (indent n ++ (nl ++ (b ++ (preText ++ (rootText ++ tail))))))) []
      [(.yaml, .doc ⟨leading, pre.map .comment ++ [.yaml root] ++ post.map .comment⟩)] [] [] := by
    refine Reads.rule (q := .yaml) rfl hbody fun u => ?_
    simp only [List.cons_append, List.nil_append, oks_cons, act, Consume.yaml, Out.bind_ok, Val.asStrs, Val.asYaml]
    rw [manyThen_oks .comment Val.asStr Val.str (fun _ => rfl) post .EOI .ok .unit .unit rfl]
    simp
  simpa [pad_eq] using this.parse

/-- **Every text of a document is parsed to this document.** -/
theorem document_parses {d : Document} {x : Str} (h : DocumentText T d x) : parseYamlFile T x = .ok d := by
  cases h with
  | @intro leading pre post root c cl lead n nl b preText rootText tail hl hn hb hp hr ht =>
    exact document_of_root n hl hn hb hp ht (hr.reads (r := tail) fun hold => ht.follow hold)

end YamlSubset.Lay
