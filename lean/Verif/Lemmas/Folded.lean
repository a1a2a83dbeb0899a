import Verif.Lemmas.Strings
import Verif.Spec.Fold

/-! # Lemmas about folded block scalars -/

namespace YamlSubset

open Spec

/-- `join(" ")`. -/
def joinSp : List Str → Str
  | [] => []
  | [l] => l
  | l :: ls => l ++ ' ' :: joinSp ls

theorem joinSp_cons_cons (l m : Str) (ms : List Str) :
    joinSp (l :: m :: ms) = l ++ ' ' :: joinSp (m :: ms) := rfl

theorem joinSp_append_singleton (l : Str) (ls : List Str) (w : Str) :
    joinSp (l :: ls ++ [w]) = joinSp (l :: ls) ++ ' ' :: w := by
  induction ls generalizing l with
  | nil => simp [joinSp]
  | cons m ms ih =>
    have := ih m
    simp only [List.cons_append, joinSp_cons_cons, List.append_assoc] at this ⊢
    rw [this]

theorem joinSp_concat_modify (ls : List Str) (l w : Str) :
    joinSp (ls ++ [l ++ ' ' :: w]) = joinSp (ls ++ [l]) ++ ' ' :: w := by
  induction ls with
  | nil => simp [joinSp]
  | cons m ms ih =>
    cases ms with
    | nil => simp [joinSp]
    | cons m' ms' =>
      simp only [List.cons_append, joinSp_cons_cons, List.append_assoc] at ih ⊢
      rw [ih]

theorem joinSp_splitChar (s : Str) : joinSp (splitChar ' ' s) = s := by
  induction s with
  | nil => simp [splitChar, joinSp]
  | cons x xs ih =>
    by_cases h : x = ' '
    · subst h
      rw [splitChar_cons_sep]
      cases hs : splitChar ' ' xs with
      | nil => exact absurd hs (splitChar_ne_nil _ _)
      | cons l ls => rw [joinSp_cons_cons, ← hs, ih]; rfl
    · obtain ⟨l, ls, h1, h2⟩ := splitChar_cons_ne h xs
      rw [h2]; rw [h1] at ih
      cases ls with
      | nil => simpa [joinSp] using ih
      | cons m ms => rw [joinSp_cons_cons] at ih ⊢; simp [ih]

/-- A piece after the first: not empty and without leading space. -/
def GoodPiece (q : Str) : Prop := q ≠ [] ∧ startsWithChar q ' ' = false

theorem GoodPiece.append {q : Str} (h : GoodPiece q) (t : Str) : GoodPiece (q ++ t) := by
  obtain ⟨h1, h2⟩ := h
  cases q with
  | nil => exact absurd rfl h1
  | cons a as => exact ⟨by simp, by simpa [startsWithChar] using h2⟩

/-- Loop invariant of `split_on_length` after the text `t` has been read. -/
structure SplitInv (st : SplitState) (t : Str) : Prop where
  first : st.first = false
  pieces : ∃ p ps, st.result ++ [st.s] = p :: ps ∧ joinSp (p :: ps) = t ∧ ∀ q ∈ ps, GoodPiece q

theorem concat_modify_head {α} {r : List α} {s p : α} {ps : List α}
    (h : r ++ [s] = p :: ps) :
    (r = [] ∧ p = s ∧ ps = []) ∨ (∃ qs, r = p :: qs ∧ ps = qs ++ [s]) := by
  cases r with
  | nil => simp at h; exact .inl ⟨rfl, h.1.symm, h.2⟩
  | cons a as => simp at h; exact .inr ⟨as, by simp [h.1], h.2.symm⟩

theorem splitInv_words (n : Nat) (ws : List Str) (st : SplitState) (t : Str)
    (hws : ∀ w ∈ ws, ' ' ∉ w) (hb : BreaksAtWords n (byteLen st.s) ws) (h : SplitInv st t) :
    SplitInv (ws.foldl (splitOnLengthStep n) st) (ws.foldl (fun acc w => acc ++ ' ' :: w) t) := by
  induction ws generalizing st t with
  | nil => exact h
  | cons w ws ih =>
    obtain ⟨hf, p, ps, hp, hj, hg⟩ := h
    simp only [List.foldl_cons]
    have hw := hws w (by simp)
    simp only [BreaksAtWords] at hb
    by_cases hlen : byteLen st.s + byteLen w + 1 > n
    · rw [if_pos hlen] at hb
      refine ih _ _ (fun v hv => hws v (by simp [hv])) ?_ ?_
      · simpa [splitOnLengthStep, hlen] using hb.2
      · refine ⟨by simp [splitOnLengthStep, hlen, hf], p, ps ++ [w], ?_, ?_, ?_⟩
        · simp [splitOnLengthStep, hlen, hp]
        · rw [← List.cons_append, joinSp_append_singleton, hj]
        · intro q hq
          simp at hq
          rcases hq with hq | rfl
          · exact hg q hq
          · refine ⟨hb.1, ?_⟩
            cases q with
            | nil => exact absurd rfl hb.1
            | cons a as =>
              simp only [startsWithChar, List.head?_cons]
              have : a ≠ ' ' := by rintro rfl; simp at hw
              simp [this]
    · rw [if_neg hlen] at hb
      have hstep : splitOnLengthStep n st w = ⟨st.result, st.s ++ ' ' :: w, false⟩ := by
        simp [splitOnLengthStep, hlen, hf]
      rw [hstep]
      refine ih _ _ (fun v hv => hws v (by simp [hv])) ?_ ?_
      · have : byteLen (st.s ++ ' ' :: w) = byteLen st.s + 1 + byteLen w := by
          have happ : ∀ a b : Str, byteLen (a ++ b) = byteLen a + byteLen b := by
            intro a b; induction a with
            | nil => simp [byteLen]
            | cons x xs ih => simp [byteLen, ih]; omega
          rw [happ]; simp only [byteLen]
          have : Char.utf8Size ' ' = 1 := rfl
          omega
        rw [this]; exact hb
      · refine ⟨rfl, ?_⟩
        rcases concat_modify_head hp with ⟨hr, hps, hpn⟩ | ⟨qs, hr, hps⟩
        · subst hps; subst hpn
          refine ⟨st.s ++ ' ' :: w, [], by simp [hr], ?_, by simp⟩
          simp [joinSp] at hj ⊢; rw [hj]
        · refine ⟨p, qs ++ [st.s ++ ' ' :: w], by simp [hr], ?_, ?_⟩
          · rw [← List.cons_append, joinSp_concat_modify, List.cons_append, ← hps, hj]
          · intro q hq
            simp at hq
            rcases hq with hq | rfl
            · exact hg q (by rw [hps]; simp [hq])
            · exact (hg st.s (by rw [hps]; simp)).append _

theorem foldl_joinSp (w : Str) (ws : List Str) :
    ws.foldl (fun acc w => acc ++ ' ' :: w) w = joinSp (w :: ws) := by
  induction ws generalizing w with
  | nil => simp [joinSp]
  | cons v vs ih =>
    rw [List.foldl_cons, ih, joinSp_cons_cons]
    cases vs with
    | nil => simp [joinSp]
    | cons u us => simp only [joinSp_cons_cons, List.append_assoc, List.cons_append]

/-- The pieces of a cleanly wrapping, non-empty line. -/
theorem splitOnLength_pieces {n : Nat} {x : Str} (h : LineFoldable n x) (hx : x ≠ []) :
    ∃ p ps, splitOnLength x n = p :: ps ∧ joinSp (p :: ps) = x ∧ ∀ q ∈ ps, GoodPiece q := by
  unfold LineFoldable at h
  have hnm := splitChar_not_mem ' ' x
  have hj := joinSp_splitChar x
  unfold splitOnLength
  cases hs : splitChar ' ' x with
  | nil => exact absurd hs (splitChar_ne_nil _ _)
  | cons w ws =>
    rw [hs] at h hnm hj
    simp only at h
    have hstep : splitOnLengthStep n ⟨[], [], true⟩ w = ⟨[], w, false⟩ := by
      have : ¬ (byteLen w + 1 > n) := by omega
      simp [splitOnLengthStep, byteLen, this]
    have hinv := splitInv_words n ws ⟨[], w, false⟩ w (fun v hv => hnm v (by simp [hv])) h.2
      ⟨rfl, w, [], rfl, rfl, by simp⟩
    rw [foldl_joinSp, hj] at hinv
    rw [List.foldl_cons, hstep]
    generalize hst : List.foldl (splitOnLengthStep n) ⟨[], w, false⟩ ws = st at hinv
    obtain ⟨-, p, ps, hp, hjp, hg⟩ := hinv
    simp only
    cases hse : st.s with
    | nil =>
      exfalso
      rcases concat_modify_head hp with ⟨hr, hps, hpn⟩ | ⟨qs, hr, hps⟩
      · subst hpn; rw [hps, hse] at hjp; simp [joinSp] at hjp; exact hx hjp
      · exact (hg st.s (by rw [hps]; simp)).1 hse
    | cons a as =>
      refine ⟨p, ps, ?_, hjp, hg⟩
      rw [hse] at hp
      simpa using hp

theorem splitOnLength_nil {n : Nat} (h : LineFoldable n []) : splitOnLength [] n = [] := by
  have hn : ¬ (1 > n) := by
    simp [LineFoldable, splitChar, byteLen] at h; omega
  simp [splitOnLength, splitChar, splitOnLengthStep, byteLen, hn]

/-! ## reading back -/

theorem parseFolded_pieces (ps : List Str) (h : ∀ q ∈ ps, GoodPiece q) (acc : Str) :
    ps.foldl parseFoldedStep (acc, false) = (ps.foldl (fun acc w => acc ++ ' ' :: w) acc, false) := by
  induction ps generalizing acc with
  | nil => rfl
  | cons p ps ih =>
    obtain ⟨h1, h2⟩ := h p (by simp)
    have : p.isEmpty = false := by cases p with | nil => exact absurd rfl h1 | cons => rfl
    simp only [List.foldl_cons]
    have hstep : parseFoldedStep (acc, false) p = (acc ++ ' ' :: p, false) := by
      simp [parseFoldedStep, this, h2]
    rw [hstep, ih (fun q hq => h q (by simp [hq]))]

/-- A line after the first, read after a line break. -/
theorem parseFolded_line {n : Nat} {x : Str} (h : LineFoldable n x)
    (hsp : startsWithChar x ' ' = false) (acc : Str) :
    (splitOnLength x n ++ [[]]).foldl parseFoldedStep (acc, true) = (acc ++ x ++ ['\n'], true) := by
  by_cases hx : x = []
  · subst hx; simp [splitOnLength_nil h, parseFoldedStep]
  · obtain ⟨p, ps, hp, hj, hg⟩ := splitOnLength_pieces h hx
    have hpg : GoodPiece p := by
      constructor
      · rintro rfl
        cases ps with
        | nil => simp [joinSp] at hj; exact hx hj
        | cons q qs => rw [joinSp_cons_cons] at hj; rw [← hj] at hsp; simp [startsWithChar] at hsp
      · cases p with
        | nil => rfl
        | cons a as =>
          cases ps with
          | nil => simp [joinSp] at hj; rw [← hj] at hsp; exact hsp
          | cons q qs => rw [joinSp_cons_cons] at hj; rw [← hj] at hsp; exact hsp
    have hpe : p.isEmpty = false := by cases p with | nil => exact absurd rfl hpg.1 | cons => rfl
    rw [hp, List.cons_append, List.foldl_cons]
    have hstep : parseFoldedStep (acc, true) p = (acc ++ p, false) := by
      simp [parseFoldedStep, hpe, hpg.2]
    rw [hstep, List.foldl_append, parseFolded_pieces ps hg]
    have hfold : ∀ (ps : List Str) (acc p : Str),
        ps.foldl (fun acc w => acc ++ ' ' :: w) (acc ++ p) = acc ++ joinSp (p :: ps) := by
      intro ps
      induction ps with
      | nil => intro acc p; simp [joinSp]
      | cons q qs ih =>
        intro acc p
        rw [List.foldl_cons, List.append_assoc, ih, joinSp_cons_cons]
        cases qs with
        | nil => simp [joinSp]
        | cons r rs => simp only [joinSp_cons_cons, List.append_assoc, List.cons_append]
    rw [hfold, hj]
    simp [parseFoldedStep]

theorem parseFolded_lines {n : Nat} (xs : List Str) (h : ∀ x ∈ xs, LineFoldable n x)
    (hsp : ∀ x ∈ xs, startsWithChar x ' ' = false) (acc : Str) :
    (xs.flatMap (fun x => splitOnLength x n ++ [[]])).foldl parseFoldedStep (acc, true) =
      (acc ++ xs.flatMap (fun x => x ++ ['\n']), true) := by
  induction xs generalizing acc with
  | nil => simp
  | cons x xs ih =>
    rw [List.flatMap_cons, List.foldl_append,
      parseFolded_line (h x (by simp)) (hsp x (by simp)),
      ih (fun y hy => h y (by simp [hy])) (fun y hy => hsp y (by simp [hy]))]
    simp

/-- `parse_folded` before the newlines at the end are handled. -/
def foldedContent : List Str → Str
  | [] => []
  | l :: ls => (ls.foldl parseFoldedStep (l, false)).1

/-- All lines of a string whose first line is not empty. -/
theorem foldedContent_all {n : Nat} {x : Str} {xs : List Str} (hx : x ≠ [])
    (h : ∀ y ∈ x :: xs, LineFoldable n y) (hsp : ∀ y ∈ xs, startsWithChar y ' ' = false) :
    foldedContent ((x :: xs).flatMap (fun x => splitOnLength x n ++ [[]])) =
      (x :: xs).flatMap (fun x => x ++ ['\n']) := by
  obtain ⟨p, ps, hp, hj, hg⟩ := splitOnLength_pieces (h x (by simp)) hx
  simp only [List.flatMap_cons, hp, List.cons_append, foldedContent, List.append_assoc,
    List.foldl_append, parseFolded_pieces ps hg, foldl_joinSp, hj]
  have : parseFoldedStep (x, false) [] = (x ++ ['\n'], true) := by
    simp [parseFoldedStep]
  rw [List.foldl_cons, this, List.nil_append, parseFolded_lines xs (fun y hy => h y (by simp [hy])) hsp]
  simp

theorem parseFolded_eq (l : Str) (ls : List Str) (c : BlockChomping) :
    parseFolded (l :: ls) c = handleEndingNewlines (foldedContent (l :: ls)) c := rfl

theorem foldedContent_append_nil (l : Str) (ls : List Str) :
    foldedContent (l :: ls ++ [[]]) = foldedContent (l :: ls) ++ ['\n'] := by
  simp only [foldedContent, List.cons_append, List.foldl_append, List.foldl_cons, List.foldl_nil]
  generalize ls.foldl parseFoldedStep (l, false) = r
  obtain ⟨a, b⟩ := r
  simp [parseFoldedStep]

theorem flatMap_concat_nil (n : Nat) (xs : List Str) (h : xs ≠ []) :
    ∃ M, xs.flatMap (fun x => splitOnLength x n ++ [[]]) = M ++ [[]] := by
  have := List.dropLast_concat_getLast h
  refine ⟨xs.dropLast.flatMap (fun x => splitOnLength x n ++ [[]]) ++
    splitOnLength (xs.getLast h) n, ?_⟩
  conv => lhs; rw [← this]
  simp

theorem folded_roundtrip {n : Nat} {s : Str} (h : Foldable n s) :
    parseFolded (createFolded s n) (chompingFor s) = s := by
  obtain ⟨hnl, hlines, hsp⟩ := h
  have hsplit : ∀ {t : Str} {x xs}, splitChar '\n' t = x :: xs → startsWithChar t '\n' = false →
      t ≠ [] → x ≠ [] := by
    intro t x xs ht hst htne hxe
    cases t with
    | nil => exact htne rfl
    | cons a as =>
      by_cases ha : a = '\n'
      · subst ha; simp [startsWithChar] at hst
      · obtain ⟨l, ls, h1, h2⟩ := splitChar_cons_ne ha as
        rw [h2] at ht; simp at ht; rw [← ht.1] at hxe; simp at hxe
  cases he : endsWithChar s '\n' with
  | false =>
    simp only [createFolded, chompingFor, he]
    by_cases hs : s = []
    · subst hs
      have hl := hlines [] (by simp [splitChar])
      simp [splitChar, splitOnLength_nil hl, parseFolded, handleEndingNewlines, trimEndMatches]
    · cases hx : splitChar '\n' s with
      | nil => exact absurd hx (splitChar_ne_nil _ _)
      | cons x xs =>
        rw [hx] at hlines hsp
        have hc := foldedContent_all (hsplit hx hnl hs) hlines hsp
        rw [← hx, splitChar_flatMap] at hc
        rw [hx] at hc
        cases hL : (x :: xs).flatMap (fun x => splitOnLength x n ++ [[]]) with
        | nil => simp at hL
        | cons l ls =>
          simp only [Bool.false_eq_true, if_false, parseFolded_eq]
          rw [← hL, hc]
          simp [handleEndingNewlines, trimEndMatches_append_singleton,
            trimEndMatches_of_not_endsWith he]
  | true =>
    obtain ⟨t, rfl⟩ := (endsWithChar_iff _ _).1 he
    simp only [createFolded, chompingFor, he, if_true]
    rw [splitChar_append_sep] at hlines hsp ⊢
    have ht : t ≠ [] := by rintro rfl; simp [startsWithChar] at hnl
    have htn : startsWithChar t '\n' = false := by
      cases t with
      | nil => exact absurd rfl ht
      | cons a as => simpa [startsWithChar] using hnl
    have hn0 := hlines [] (by simp)
    cases hx : splitChar '\n' t with
    | nil => exact absurd hx (splitChar_ne_nil _ _)
    | cons x xs =>
      rw [hx] at hlines hsp
      have hc := foldedContent_all (n := n) (hsplit hx htn ht) (xs := xs)
        (fun y hy => hlines y (List.mem_append_left _ hy))
        (fun y hy => hsp y (by simp [hy]))
      rw [← hx, splitChar_flatMap] at hc
      obtain ⟨M, hM⟩ := flatMap_concat_nil n (splitChar '\n' t) (splitChar_ne_nil _ _)
      rw [← hx]
      rw [hM] at hc
      simp only [List.flatMap_append, hM, List.flatMap_cons, splitOnLength_nil hn0,
        List.flatMap_nil, List.append_nil, List.nil_append, popIfLastEmpty_append_nil]
      cases M with
      | nil => simp [foldedContent] at hc
      | cons l ls =>
        rw [foldedContent_append_nil] at hc
        rw [parseFolded_eq, List.append_cancel_right hc]
        rfl

end YamlSubset
