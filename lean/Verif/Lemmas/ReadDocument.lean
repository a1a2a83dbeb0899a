import Verif.Lemmas.ReadBlock
import Verif.Lemmas.ParseText

/-! # Reading formatted documents -/

namespace YamlSubset

open Peg Spec

variable {T : CharTables}

theorem valueReads_oneLine {p : Place} {hold : Holder} {named : Bool} {y : Yaml} (h : OneLine T y) : ValueReads T p hold named y := by
  intro a s t k r _ ha _ _ hf
  obtain ⟨r', hl, hr⟩ := reads_oneLine (hold := hold) (s := s) (k := indent t :: k) ha h (.inl hf.lineEnd)
  rwa [hl.lineEnd hf.lineEnd] at hr

theorem valueReads_hash {p : Place} {hold : Holder} {named : Bool} {ds : List HashData}
    (ih : ∀ key a v, HashData.element ⟨key, ⟨a, v⟩⟩ ∈ ds → ∀ p hold named, Readable T p hold named v → ValueReads T p hold named v)
    (h : Readable T p hold named (.hash ds)) : ValueReads T p hold named (.hash ds) := by
  intro a s t k r hnamed ha hts hflush hf
  have hentries : ∀ ds', (∀ d ∈ ds', d ∈ ds) → Entries T (Readable T) p.next ds' → ∀ par, EntriesAt T s (indent t :: k) ds' (formatHash s par false ds' ++ r) r := by
    intro ds' hsub he par
    exact entries_reads he (fun key a v hm => ih key a v (hsub _ hm)) s par _ r hf.inner (hf.not_hash_data (by omega) _)
  cases h with
  | oneLine h => cases h
  | hash h =>
    have ha0 : a = none := by simpa using hnamed
    subst ha0
    obtain ⟨⟨q, hq, hfull, hhead, hrd⟩, -⟩ := (hentries ds (fun _ h => h) h (some .hash)).hash hf.lineEnd
    have hne : ds ≠ [] := by rintro rfl; cases h
    have htext : valueText s .key none (.hash ds) ++ r = '\n' :: q := by
      rw [← hq]
      cases h <;> simp [valueText, Yaml.format, holderParent, formatHash]
    rw [htext]
    exact reads_key_coll (hhead (by omega)) hfull (.rule rfl (.altL hrd) fun _ => rfl)
  | @hashNamed _ _ c ds h =>
    obtain ⟨n, rfl⟩ := Option.isSome_iff_exists.1 hnamed
    have hrd := ((hentries _ (fun _ h => h) h none).hash hf.lineEnd).2
    have hv : Reads T (.rule .yaml_value) ('\n' :: (indent s ++ '#' :: (c ++ (formatHash s none false ds ++ r)))) (indent t :: k)
        [(.yaml_value, .yaml (.hash (.comment c :: ds)))] r (indent t :: k) := by
      refine .rule rfl (.altL (l := [(.hash, .yaml (.hash (.comment c :: ds)))]) ?_) fun _ => rfl
      simpa [formatHash] using hrd
    have := reads_named_coll (hold := hold) (ha n rfl) (by simp [Black]; decide)
      (not_alternative (not_hash_element_head (by simpa [NotName] using not_nameChar (T := T) (c := '#') (by decide)) _) (not_element_head (by simp) _)) hv
    simpa [valueText, Yaml.format, formatHash] using this
  | @altOne _ _ _ key a' v hp hsteal hk ha' hv =>
    refine reads_alternative_hash (hp.imp id fun h => by rw [hnamed, h]) ha hk fun par => ?_
    obtain ⟨l, hl, hrd⟩ := reads_entry hk (ih key a' v (by simp) _ _ _ hv a' (s + 2) t k r rfl ha' (by omega) (by simp)
      (hf.mono (by omega) fun h => ⟨h, by omega⟩)) hf.lineEnd
    simpa [formatHash] using reads_alternative_one hl hrd (hf.not_continuation hsteal k) hf.lineEnd
  | @altOneComment _ _ _ key a' v c hp hsteal hk ha' hv hv' hc =>
    refine reads_alternative_hash (hp.imp id fun h => by rw [hnamed, h]) ha hk fun par => ?_
    obtain ⟨l, hl, hrd⟩ := reads_entry_comment (s := s + 2) hk ha' hv hv' hc hf.lineEnd (indent t :: k)
    simpa [formatHash] using reads_alternative_one hl hrd (hf.not_continuation hsteal k) hf.lineEnd
  | @altMore _ _ _ key a' v ds hp hk ha' hv h =>
    refine reads_alternative_hash (hp.imp id fun h => by rw [hnamed, h]) ha hk fun par => ?_
    have he := hentries ds (fun _ h => by simp [h]) h par
    obtain ⟨l, hl, hrd⟩ := reads_entry hk (ih key a' v (by simp) _ _ _ hv a' (s + 2) t k _ rfl ha' (by omega) (by simp) he.follow) (he.follow (t := t)).lineEnd
    exact he.alternative hts hf.lineEnd hl hrd
  | @altMoreComment _ _ _ key a' v c ds hp hk ha' hv hv' hc h =>
    refine reads_alternative_hash (hp.imp id fun h => by rw [hnamed, h]) ha hk fun par => ?_
    have he := hentries ds (fun _ h => by simp [h]) h par
    obtain ⟨l, hl, hrd⟩ := reads_entry_comment (s := s + 2) hk ha' hv hv' hc (he.follow (t := t)).lineEnd (indent t :: k)
    simpa [formatHash_inlineComment] using he.alternative hts hf.lineEnd hl hrd

theorem valueReads_array {p : Place} {hold : Holder} {named : Bool} {ds : List ArrayData}
    (ih : ∀ a v, ArrayData.element ⟨a, v⟩ ∈ ds → ∀ p hold named, Readable T p hold named v → ValueReads T p hold named v)
    (h : Readable T p hold named (.array ds)) : ValueReads T p hold named (.array ds) := by
  intro a s t k r hnamed ha hts hflush hf
  have helements : ∀ ds', (∀ d ∈ ds', d ∈ ds) → Elements T (Readable T) p.next ds' → ∀ par, ElementsAt T s (indent t :: k) ds' (formatArray s par false ds' ++ r) r := by
    intro ds' hsub he par
    refine elements_reads he (fun a v hm => ih a v (hsub _ hm)) s par _ r hf.inner fun q hq => ?_
    rcases hq with rfl | rfl
    · exact hf.not_array_data (by omega) _
    · exact hf.not_array_data' (by omega) _
  cases h with
  | oneLine h => cases h
  | array h =>
    have ha0 : a = none := by simpa using hnamed
    subst ha0
    obtain ⟨q, hq, hfull, hhead, -, -, hrd⟩ := (helements ds (fun _ h => h) h (some .hash)).array hf.lineEnd
    have htext : valueText s .key none (.array ds) ++ r = '\n' :: q := by
      rw [← hq]
      cases h <;> simp [valueText, Yaml.format, holderParent, formatArray]
    rw [htext]
    exact reads_key_coll (hhead (by omega)) hfull hrd
  | @seqOne _ _ _ a' v hp hsteal ha' hv =>
    refine reads_seq_one (hp.imp id fun h => by rw [hnamed, h]) ha (by omega) hf hsteal (fun u k' par hu => ?_) hts
    obtain ⟨l, hl, hrd⟩ := reads_element (ih a' v (by simp) _ _ _ hv a' (s + 2) u k' r rfl ha' (by omega) (by simp)
      (hf.mono (by omega) (by simp))) hf.lineEnd
    exact ⟨l, hl, by simpa [formatArray] using hrd⟩
  | @seqOneComment _ _ _ a' v c hp hsteal ha' hv hv' hc =>
    refine reads_seq_one (hp.imp id fun h => by rw [hnamed, h]) ha (by omega) hf hsteal (fun u k' par hu => ?_) hts
    obtain ⟨l, hl, hrd⟩ := reads_element_comment (s := s + 2) ha' hv hv' hc hf.lineEnd (indent u :: k')
    exact ⟨l, hl, by simpa [formatArray] using hrd⟩
  | @seqMore _ _ _ a' v e ds hp ha' hv h =>
    refine reads_alternative_array (hp.imp id fun h => by rw [hnamed, h]) ha fun par => ?_
    have he := helements (.element e :: ds) (fun d h => by simp at h ⊢; exact .inr h) h par
    obtain ⟨l, hl, hrd⟩ := reads_element (ih a' v (by simp) _ _ _ hv a' (s + 2) t k _ rfl ha' (by omega) (by simp) he.follow) he.lineEnd
    exact he.alternative hf.lineEnd hl hrd
  | @seqMoreComment _ _ _ a' v c e ds hp ha' hv hv' hc h =>
    refine reads_alternative_array (hp.imp id fun h => by rw [hnamed, h]) ha fun par => ?_
    have he := helements (.element e :: ds) (fun d h => by simp at h ⊢; exact .inr (.inr h)) h par
    obtain ⟨l, hl, hrd⟩ := reads_element_comment (s := s + 2) ha' hv hv' hc he.lineEnd (indent t :: k)
    simpa [formatArray_inlineComment] using he.alternative hf.lineEnd hl hrd

/-- Every value that meets the specification is read in its place. -/
theorem Spec.Readable.reads {y : Yaml} : ∀ {p : Place} {hold : Holder} {named : Bool}, Readable T p hold named y → ValueReads T p hold named y := by
  induction y using Yaml.induct with
  | hH ds ih => exact fun h => valueReads_hash (fun key a v hm p hold named => ih key a v hm) h
  | hA ds ih => exact fun h => valueReads_array (fun a v hm p hold named => ih a v hm) h
  | hIH es _ => intro p hold named h; cases h with | oneLine h => exact valueReads_oneLine h
  | hIA es _ => intro p hold named h; cases h with | oneLine h => exact valueReads_oneLine h
  | hS ps => intro p hold named h; cases h with | oneLine h => exact valueReads_oneLine h
  | hD ps => intro p hold named h; cases h with | oneLine h => exact valueReads_oneLine h
  | hU s => intro p hold named h; cases h with | oneLine h => exact valueReads_oneLine h
  | hN a => intro p hold named h; cases h with | oneLine h => exact valueReads_oneLine h
  | hF ls c =>
    intro p hold named h
    cases h with
    | oneLine h => cases h
    | folded hd h =>
      intro a s t k r _ ha hts hflush hf
      rw [hd] at hf
      obtain ⟨r', hl, hr⟩ := reads_lead_value (hold := hold) (k := indent t :: k) ha fun p => by
        obtain ⟨body, hb⟩ := valueAt_folded (T := T) h c hts hflush hf.shallow k p
        exact ⟨body, r, hb⟩
      rwa [hl.lineEnd hf.lineEnd] at hr
  | hL ls c =>
    intro p hold named h
    cases h with
    | oneLine h => cases h
    | literal hd h =>
      intro a s t k r _ ha hts hflush hf
      rw [hd] at hf
      obtain ⟨r', hl, hr⟩ := reads_lead_value (hold := hold) (k := indent t :: k) ha fun p => by
        obtain ⟨body, hb⟩ := valueAt_literal (T := T) h c hts hflush hf.shallow k p
        exact ⟨body, r, hb⟩
      rwa [hl.lineEnd hf.lineEnd] at hr

/-! ## documents -/

theorem lines_follow {s t : Nat} {cs : List Str} (h : ∀ c ∈ cs, LineText c) (hs : 0 < s) : Follow T false .none s t (lines 0 cs) :=
  ⟨0, cs, [], by simp, h, fun _ => ⟨hs, fun _ => by omega⟩, .inl rfl⟩

theorem not_hash_data_end {cs : List Str} (h : ∀ c ∈ cs, LineText c) (k) : Not T (.rule .hash_element_data) (lines 0 cs) (indent 0 :: k) := by
  rcases (lines_follow (T := T) (s := 1) (t := 0) h (by omega)).skip with he | ⟨q, cs', z, he, hq, hc, -, hz⟩ <;> rw [he]
  · exact .rule (.seqL (not_blanknl_nil _))
  · refine .rule (.seqR (hq.blanknl _) (.seqR (hc _) (.seqR (.peek [] z k) (.seqL (not_hash_element_head ?_ _)))))
    rcases hz with rfl | ⟨n, x, tail, rfl, hn⟩
    · exact notName_nil
    · have := hn.lt
      obtain rfl : n = 0 := by omega
      simpa [indent, NotName] using hn.key (by simp)

theorem not_array_data_end {cs : List Str} (h : ∀ c ∈ cs, LineText c) (k) {q : Rule} (hq : q = .blank ∨ q = .blanknl) :
    Not T (.seq (.rule q) (.rule .block_array_data)) (lines 0 cs) (indent 0 :: k) := by
  have hf := lines_follow (T := T) (s := 1) (t := 0) h (by omega)
  rcases hq with rfl | rfl
  · exact hf.not_array_data_zero (by simp) k
  · exact hf.not_array_data_zero' (by simp) k

/-- The root of a document. -/
theorem Spec.ReadableRoot.reads {y : Yaml} (h : ReadableRoot T y) {post : List Str} (hpost : ∀ c ∈ post, LineText c) :
    ∃ q x, y.format 0 none ++ lines 0 post = '\n' :: q ∧ (∃ t, q = x :: t) ∧ Bare q ∧
      Reads T (.rule .document) q [] [(.document, .yaml y)] (lines 0 post) [] := by
  have hend : LineEnd (lines 0 post) := (lines_follow (T := T) (s := 1) (t := 0) hpost (by omega)).lineEnd
  cases h with
  | @hash e ds h =>
    have he := entries_reads h (fun _ _ _ _ _ _ _ h => h.reads) 0 none [] (lines 0 post) (lines_follow hpost (by omega)) (not_hash_data_end hpost _)
    obtain ⟨⟨q, hq, -, -, hrd⟩, -⟩ := he.hash hend
    obtain ⟨key, a, v⟩ := e
    have hk : KeyText T key := by cases h <;> assumption
    rw [formatHash_entry _ _ _ (by simp)] at hq
    simp only [indent, List.replicate_zero, List.nil_append, List.cons_append, List.cons.injEq, true_and, List.append_assoc] at hq
    obtain ⟨c, t, hct, hc⟩ := hk.notSp (':' :: (valueText (0 + 2) .key a v ++ (formatHash 0 none false ds ++ lines 0 post)))
    refine ⟨q, c, ?_, ⟨t, by rw [← hq, hct]⟩, by rw [← hq, hct]; exact bare_name hc, .rule rfl (.altL hrd) fun _ => rfl⟩
    rw [← hq]
    simp [Yaml.format, formatHash_entry, indent]
  | @array e ds h =>
    have he := elements_reads h (fun _ _ _ _ _ _ h => h.reads) 0 none [] (lines 0 post) (lines_follow hpost (by omega)) (fun _ hq => not_array_data_end hpost _ hq)
    obtain ⟨q, hq, -, -, hnh, hrd, -⟩ := he.array hend
    obtain ⟨a, v⟩ := e
    rw [formatArray_element _ _ _ (by simp)] at hq
    simp only [indent, List.replicate_zero, List.nil_append, List.cons_append, List.cons.injEq, true_and, List.append_assoc] at hq
    refine ⟨q, '-', ?_, ⟨_, hq.symm⟩, by rw [← hq]; exact bare_dash _, .rule rfl (.altR hnh hrd) fun _ => rfl⟩
    rw [← hq]
    simp [Yaml.format, formatArray_element, indent]

theorem reads_leading {cs : List Str} {r : Str} (h : ∀ c ∈ cs, LineText c) (k) :
    Reads T (.rule .leading_comments) (linesNl 0 cs ++ '-' :: r) k [(.leading_comments, .strs cs)] ('-' :: r) k := by
  have hstep : ∀ cs : List Str, (∀ c ∈ cs, LineText c) →
      Reads T (.star (.seqs [.star (.rule .blanknl), .rule .commentnl, .star (.rule .blanknl)])) (linesNl 0 cs ++ '-' :: r) k
        (cs.map fun c => (.commentnl, .str c)) ('-' :: r) k := by
    intro cs h
    induction cs with
    | nil =>
      exact .starNil (.seqR (.starNil (not_blanknl (n := 0) (bare_dash r).black k)) (.seqL (not_commentnl (n := 0) (bare_dash r).notSp (by simp) k)))
    | cons c cs ih =>
      have ih := ih fun d hd => h d (by simp [hd])
      have hfull : ∃ x t, linesNl 0 cs ++ '-' :: r = x :: t ∧ Black (x :: t) := by
        cases cs with
        | nil => exact ⟨'-', r, rfl, (bare_dash r).black⟩
        | cons d cs => exact ⟨'#', _, by simp [linesNl, indent]; rfl, by simp [Black]; decide⟩
      obtain ⟨x, t, hxt, hb⟩ := hfull
      have hc : Reads T (.rule .commentnl) ('#' :: (c ++ '\n' :: (x :: t))) k [(.commentnl, .str c)] (x :: t) k :=
        .rule rfl (.seq (reads_comment_base (n := 0) (h c (by simp)) (.inr rfl) k) (reads_blank (n := 0) hb k)) fun _ => rfl
      rw [hxt] at ih
      have htext : linesNl 0 (c :: cs) ++ '-' :: r = '#' :: (c ++ '\n' :: (x :: t)) := by rw [← hxt]; simp [linesNl, indent]
      rw [htext]
      refine Reads.star (l₁ := [(.commentnl, .str c)]) (.seq (l₁ := []) (.starNil (not_blanknl (n := 0) (by simp [Black]; decide) k))
        (.seq (l₂ := []) hc (.starNil (not_blanknl (n := 0) hb k)))) ih
  refine .rule rfl (hstep cs h) fun t => ?_
  simp only [act, Consume.commentnls]
  rw [many_oks .commentnl Val.asStr Val.str (fun _ => rfl) cs]
  rfl

theorem reads_post {cs : List Str} (h : ∀ c ∈ cs, LineText c) (k) :
    Reads T (.seq (.rule .blank) (.star (.seq (.rule .comment) (.rule .blank)))) (lines 0 cs) k (cs.map fun c => (.comment, .str c)) [] k := by
  have hstar : ∀ (cs : List Str) (c : Str), (∀ c ∈ cs, LineText c) → LineText c →
      Reads T (.star (.seq (.rule .comment) (.rule .blank))) ('#' :: (c ++ lines 0 cs)) k ((c :: cs).map fun c => (.comment, .str c)) [] k := by
    intro cs
    induction cs with
    | nil =>
      intro c _ hc
      refine Reads.star (l₁ := [(.comment, .str c)]) (.seq (reads_comment (n := 0) hc (.inl rfl) k) (reads_blank_none (n := 0) bare_nil.black k)) ?_
      exact .starNil (.seqL (not_comment (n := 0) bare_nil.notSp (by simp [lines]) k))
    | cons d cs ih =>
      intro c hcs hc
      refine Reads.star (l₁ := [(.comment, .str c)]) (.seq (reads_comment (n := 0) hc (.inr rfl) k) ?_) (ih d (fun e he => hcs e (by simp [he])) (hcs d (by simp)))
      have : lines 0 (d :: cs) = '\n' :: (indent 0 ++ ('#' :: (d ++ lines 0 cs))) := by simp [lines, indent]
      rw [this]
      exact reads_blank (n := 0) (by simp [Black]; decide) k
  cases cs with
  | nil => exact .seq (l₁ := []) (reads_blank_none (n := 0) bare_nil.black k) (.starNil (.seqL (not_comment (n := 0) bare_nil.notSp (by simp) k)))
  | cons c cs =>
    have : lines 0 (c :: cs) = '\n' :: (indent 0 ++ ('#' :: (c ++ lines 0 cs))) := by simp [lines, indent]
    rw [this]
    exact .seq (l₁ := []) (reads_blank (n := 0) (by simp [Black]; decide) k) (hstar cs c (fun d hd => h d (by simp [hd])) (h c (by simp)))

end YamlSubset
