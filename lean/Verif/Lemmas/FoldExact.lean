import Verif.Lemmas.Folded

/-! # Exactly which strings survive folding -/

namespace YamlSubset

open Spec

theorem byteLen_append (a b : Str) : byteLen (a ++ b) = byteLen a + byteLen b := by
  induction a with
  | nil => simp [byteLen]
  | cons x xs ih => simp [byteLen, ih]; omega

theorem byteLen_sp (a b : Str) : byteLen (a ++ ' ' :: b) = byteLen a + byteLen b + 1 := by
  rw [byteLen_append]
  simp only [byteLen]
  have : Char.utf8Size ' ' = 1 := rfl
  omega

/-! ## the pieces of a line -/

/-- The pieces after the first word that fits. -/
def goPieces (n : Nat) (s : Str) : List Str → List Str
  | [] => if s.isEmpty then [] else [s]
  | w :: ws => if byteLen s + byteLen w + 1 > n then s :: goPieces n w ws else goPieces n (s ++ ' ' :: w) ws

/-- The pieces as long as no word fits. -/
def goLong (n : Nat) (s : Str) : List Str → List Str
  | [] => if s.isEmpty then [] else [s]
  | w :: ws => if byteLen s + byteLen w + 1 > n then s :: goLong n w ws else goPieces n (s ++ w) ws

/-- The end of `split_on_length`. -/
def splitResult (st : SplitState) : List Str := if !st.s.isEmpty then st.result ++ [st.s] else st.result

theorem splitResult_go (n : Nat) (ws : List Str) (r : List Str) (s : Str) :
    splitResult (ws.foldl (splitOnLengthStep n) ⟨r, s, false⟩) = r ++ goPieces n s ws := by
  induction ws generalizing r s with
  | nil => simp only [List.foldl_nil, splitResult, goPieces]; cases s <;> simp
  | cons w ws ih =>
    rw [List.foldl_cons, goPieces, splitOnLengthStep]
    split
    · rw [ih]; simp
    · rw [if_pos (by simp), ih]; simp

theorem splitResult_goLong (n : Nat) (ws : List Str) (r : List Str) (s : Str) :
    splitResult (ws.foldl (splitOnLengthStep n) ⟨r, s, true⟩) = r ++ goLong n s ws := by
  induction ws generalizing r s with
  | nil => simp only [List.foldl_nil, splitResult, goLong]; cases s <;> simp
  | cons w ws ih =>
    rw [List.foldl_cons, goLong, splitOnLengthStep]
    split
    · rw [ih]; simp
    · rw [if_neg (by simp), splitResult_go]

theorem splitOnLength_eq {n : Nat} {x w : Str} {ws : List Str} (h : splitChar ' ' x = w :: ws) :
    splitOnLength x n = if byteLen w + 1 > n then [] :: goLong n w ws else goPieces n w ws := by
  have : splitOnLength x n = splitResult ((splitChar ' ' x).foldl (splitOnLengthStep n) ⟨[], [], true⟩) := rfl
  rw [this, h, List.foldl_cons, splitOnLengthStep]
  have h0 : byteLen [] + byteLen w + 1 = byteLen w + 1 := by simp [byteLen]
  rw [h0]
  split
  · rw [splitResult_goLong]; rfl
  · rw [if_neg (by simp), splitResult_go]; rfl

theorem goPieces_head (n : Nat) (ws : List Str) (s h : Str) (t : List Str) (he : goPieces n s ws = h :: t) : ∃ u, h = s ++ u := by
  induction ws generalizing s with
  | nil => rw [goPieces] at he; split at he <;> simp at he; exact ⟨[], by simp [he.1]⟩
  | cons w ws ih =>
    rw [goPieces] at he
    split at he
    · simp at he; exact ⟨[], by simp [he.1]⟩
    · obtain ⟨u, rfl⟩ := ih _ he; exact ⟨' ' :: w ++ u, by simp⟩

theorem goPieces_eq_nil {n : Nat} {ws : List Str} {s : Str} (he : goPieces n s ws = []) : s = [] ∧ ws = [] := by
  induction ws generalizing s with
  | nil => rw [goPieces] at he; split at he <;> simp_all
  | cons w ws ih =>
    rw [goPieces] at he
    split at he
    · simp at he
    · have := (ih he).1; simp at this

theorem goLong_eq_nil {n : Nat} {ws : List Str} {s : Str} (he : goLong n s ws = []) : s = [] := by
  cases ws with
  | nil => rw [goLong] at he; split at he <;> simp_all
  | cons w ws =>
    rw [goLong] at he
    split at he
    · simp at he
    · have := (goPieces_eq_nil he).1; simp at this; exact this.1

theorem goLong_head (n : Nat) (ws : List Str) (s h : Str) (t : List Str) (he : goLong n s ws = h :: t) : ∃ u, h = s ++ u := by
  cases ws with
  | nil => rw [goLong] at he; split at he <;> simp at he; exact ⟨[], by simp [he.1]⟩
  | cons w ws =>
    rw [goLong] at he
    split at he
    · simp at he; exact ⟨[], by simp [he.1]⟩
    · obtain ⟨u, rfl⟩ := goPieces_head _ _ _ _ _ he; exact ⟨w ++ u, by simp⟩

theorem joinSp_cons {l : Str} {ls : List Str} (h : ls ≠ []) : joinSp (l :: ls) = l ++ ' ' :: joinSp ls := by
  cases ls with
  | nil => exact absurd rfl h
  | cons m ms => rfl

theorem joinSp_merge (s w : Str) (ws : List Str) : joinSp (s :: w :: ws) = joinSp ((s ++ ' ' :: w) :: ws) := by
  cases ws with
  | nil => rfl
  | cons v vs => simp [joinSp_cons_cons]

theorem goPieces_length (n : Nat) (ws : List Str) (s : Str) : (joinSp (goPieces n s ws)).length ≤ (joinSp (s :: ws)).length := by
  induction ws generalizing s with
  | nil => rw [goPieces]; split <;> simp [joinSp]
  | cons w ws ih =>
    rw [goPieces]
    split
    · have := ih w
      by_cases hg : goPieces n w ws = []
      · rw [hg, joinSp_cons_cons]; simp [joinSp]
      · rw [joinSp_cons hg, joinSp_cons_cons]; simp; omega
    · rw [joinSp_merge]; exact ih _

theorem startsWith_append {s t : Str} (c : Char) (h : s ≠ []) : startsWithChar (s ++ t) c = startsWithChar s c := by
  cases s with
  | nil => exact absurd rfl h
  | cons a as => rfl

/-- If the pieces are good and make up the words, the line breaks only at words. -/
theorem goPieces_breaks (n : Nat) (ws : List Str) (s : Str) (hg : ∀ q ∈ (goPieces n s ws).tail, GoodPiece q)
    (hj : joinSp (goPieces n s ws) = joinSp (s :: ws)) : BreaksAtWords n (byteLen s) ws := by
  induction ws generalizing s with
  | nil => trivial
  | cons w ws ih =>
    rw [goPieces] at hg hj
    rw [BreaksAtWords]
    split at hg
    · rename_i hb
      rw [if_pos hb] at hj ⊢
      rw [List.tail_cons] at hg
      have hne : goPieces n w ws ≠ [] := by
        intro h0
        rw [h0, joinSp_cons_cons] at hj
        have := congrArg List.length hj
        simp [joinSp] at this
      rw [joinSp_cons hne, joinSp_cons_cons] at hj
      have hj' := List.append_cancel_left hj
      simp only [List.cons.injEq, true_and] at hj'
      refine ⟨?_, ih w (fun q hq => hg q (List.mem_of_mem_tail hq)) hj'⟩
      rintro rfl
      cases ws with
      | nil => simp [goPieces] at hne
      | cons v vs =>
        rw [goPieces] at hg hne
        split at hg
        · exact (hg [] (by simp)).1 rfl
        · rename_i hnb
          rw [if_neg hnb] at hne
          cases hc : goPieces n ([] ++ ' ' :: v) vs with
          | nil => exact hne hc
          | cons h t =>
            obtain ⟨u, rfl⟩ := goPieces_head _ _ _ _ _ hc
            have := (hg _ (by rw [hc]; exact List.mem_cons_self)).2
            simp [startsWithChar] at this
    · rename_i hb
      rw [if_neg hb] at hj ⊢
      have := ih _ hg (by rw [hj, joinSp_merge])
      rw [byteLen_sp] at this
      rw [show byteLen s + 1 + byteLen w = byteLen s + byteLen w + 1 by omega]
      exact this

theorem goLong_noTwoFit (n : Nat) (ws : List Str) (s : Str) (hg : ∀ q ∈ goLong n s ws, GoodPiece q)
    (hj : joinSp (goLong n s ws) = joinSp (s :: ws)) (hs : goLong n s ws ≠ []) : NoTwoFit n (s :: ws) := by
  induction ws generalizing s with
  | nil =>
    rw [goLong] at hs
    split at hs
    · exact absurd rfl hs
    · rename_i h; rw [NoTwoFit]; simpa using h
  | cons w ws ih =>
    rw [goLong] at hg hj
    rw [NoTwoFit]
    split at hg
    · rename_i hb
      rw [if_pos hb] at hj
      have hne : goLong n w ws ≠ [] := by
        intro h0
        rw [h0, joinSp_cons_cons] at hj
        have := congrArg List.length hj
        simp [joinSp] at this
      rw [joinSp_cons hne, joinSp_cons_cons] at hj
      have hj' := List.append_cancel_left hj
      simp only [List.cons.injEq, true_and] at hj'
      exact ⟨(hg s (by simp)).1, by omega, ih w (fun q hq => hg q (by simp [hq])) hj' hne⟩
    · rename_i hb
      rw [if_neg hb] at hj
      exfalso
      have := goPieces_length n ws (s ++ w)
      rw [hj, joinSp_merge] at this
      cases ws with
      | nil => simp [joinSp] at this; omega
      | cons v vs => simp [joinSp_cons_cons] at this; omega

theorem goLong_of_noTwoFit (n : Nat) (ws : List Str) (s : Str) (h : NoTwoFit n (s :: ws)) : goLong n s ws = s :: ws := by
  induction ws generalizing s with
  | nil => rw [NoTwoFit] at h; rw [goLong, if_neg (by simpa using h)]
  | cons w ws ih =>
    rw [NoTwoFit] at h
    rw [goLong, if_pos (by omega), ih w h.2.2]

theorem goPieces_one (n : Nat) (ws : List Str) (s : Str) (h : goPieces n s ws = [joinSp (s :: ws)]) (hs : byteLen s ≤ n) : byteLen (joinSp (s :: ws)) ≤ n := by
  induction ws generalizing s with
  | nil => simpa [joinSp] using hs
  | cons w ws ih =>
    rw [goPieces] at h
    split at h
    · simp only [List.cons.injEq] at h
      have := congrArg List.length h.1
      rw [joinSp_cons_cons] at this
      simp at this
    · rw [joinSp_merge] at h ⊢
      exact ih _ h (by rw [byteLen_sp]; omega)

theorem goPieces_fits (n : Nat) (ws : List Str) (s : Str) (h : byteLen (joinSp (s :: ws)) ≤ n) (hne : joinSp (s :: ws) ≠ []) : goPieces n s ws = [joinSp (s :: ws)] := by
  induction ws generalizing s with
  | nil => rw [goPieces, if_neg (by simpa [joinSp] using hne)]; rfl
  | cons w ws ih =>
    have hle : byteLen (s ++ ' ' :: w) ≤ byteLen (joinSp (s :: w :: ws)) := by
      rw [joinSp_merge]
      cases ws with
      | nil => simp [joinSp]
      | cons v vs => rw [joinSp_cons_cons, byteLen_append (s ++ ' ' :: w)]; omega
    rw [byteLen_sp] at hle
    rw [goPieces, if_neg (by omega)]
    rw [joinSp_merge] at h hne ⊢
    exact ih _ h hne

/-! ## newlines -/

/-- The newlines that reading a line of a folded block scalar adds. -/
def pieceWeight (l : Str) : Nat := if l.isEmpty then 1 else if startsWithChar l ' ' then 2 else 0

def weights (ls : List Str) : Nat := (ls.map pieceWeight).sum

theorem weights_append (a b : List Str) : weights (a ++ b) = weights a + weights b := by simp [weights]

theorem weights_cons (a : Str) (b : List Str) : weights (a :: b) = pieceWeight a + weights b := by simp [weights]

theorem weight_zero {l : Str} : pieceWeight l = 0 ↔ GoodPiece l := by
  unfold pieceWeight GoodPiece
  cases l with
  | nil => simp
  | cons a as => cases h : startsWithChar (a :: as) ' ' <;> simp

theorem weights_zero {ls : List Str} : weights ls = 0 ↔ ∀ l ∈ ls, GoodPiece l := by
  induction ls with
  | nil => simp [weights]
  | cons a as ih => rw [weights_cons]; simp [ih, weight_zero]

theorem weight_special {l : Str} (h : startsWithChar l ' ' = true) : pieceWeight l = 2 := by
  unfold pieceWeight
  cases l with
  | nil => simp [startsWithChar] at h
  | cons a as => simp [h]

theorem weight_mem {ls : List Str} {l : Str} (h : l ∈ ls) : pieceWeight l ≤ weights ls := by
  induction ls with
  | nil => simp at h
  | cons a as ih =>
    rw [weights_cons]
    rcases List.mem_cons.1 h with rfl | h
    · omega
    · have := ih h; omega

theorem count_step (acc : Str) (b : Bool) (l : Str) (h : '\n' ∉ l) :
    (parseFoldedStep (acc, b) l).1.count '\n' = acc.count '\n' + pieceWeight l := by
  have hl : l.count '\n' = 0 := List.count_eq_zero.2 h
  unfold parseFoldedStep pieceWeight
  dsimp only
  split
  · simp
  · split
    · simp [hl]
    · cases b <;> simp [hl]

theorem count_fold (ls : List Str) (st : Str × Bool) (h : ∀ l ∈ ls, '\n' ∉ l) :
    (ls.foldl parseFoldedStep st).1.count '\n' = st.1.count '\n' + weights ls := by
  induction ls generalizing st with
  | nil => simp [weights]
  | cons l ls ih =>
    obtain ⟨acc, b⟩ := st
    rw [List.foldl_cons, ih _ (fun l hl => h l (by simp [hl])), count_step _ _ _ (h l (by simp)), weights_cons]
    simp only
    omega

theorem fold_prefix (ls : List Str) (st : Str × Bool) : ∃ u, (ls.foldl parseFoldedStep st).1 = st.1 ++ u := by
  induction ls generalizing st with
  | nil => exact ⟨[], by simp⟩
  | cons l ls ih =>
    obtain ⟨acc, b⟩ := st
    obtain ⟨u, hu⟩ := ih (parseFoldedStep (acc, b) l)
    have : ∃ v, (parseFoldedStep (acc, b) l).1 = acc ++ v := by
      unfold parseFoldedStep
      dsimp only
      split
      · exact ⟨_, rfl⟩
      · split
        · exact ⟨'\n' :: l ++ ['\n'], by simp⟩
        · cases b
          · exact ⟨' ' :: l, by simp⟩
          · exact ⟨l, by simp⟩
    obtain ⟨v, hv⟩ := this
    exact ⟨v ++ u, by rw [List.foldl_cons, hu, hv]; simp⟩

/-! ## reading good pieces -/

theorem foldl_sp (ps : List Str) (acc : Str) : ps.foldl (fun acc w => acc ++ ' ' :: w) acc = joinSp (acc :: ps) := foldl_joinSp acc ps

/-- Good pieces after an empty line. -/
theorem fold_good_line (P : List Str) (h : ∀ q ∈ P, GoodPiece q) (acc : Str) (b : Bool) :
    (([] : Str) :: P).foldl parseFoldedStep (acc, b) = (acc ++ '\n' :: joinSp P, P.isEmpty) := by
  rw [List.foldl_cons]
  have : parseFoldedStep (acc, b) [] = (acc ++ ['\n'], true) := by simp [parseFoldedStep]
  rw [this]
  cases P with
  | nil => simp [joinSp]
  | cons p ps =>
    obtain ⟨hp, hp'⟩ := h p (by simp)
    have : parseFoldedStep (acc ++ ['\n'], true) p = (acc ++ ['\n'] ++ p, false) := by
      simp [parseFoldedStep, hp, hp']
    rw [List.foldl_cons, this, parseFolded_pieces ps (fun q hq => h q (by simp [hq])), foldl_sp]
    cases ps with
    | nil => simp [joinSp]
    | cons q qs => simp [joinSp_cons_cons]

theorem fold_good_lines (n : Nat) (xs : List Str) (h : ∀ x ∈ xs, ∀ q ∈ splitOnLength x n, GoodPiece q) (acc : Str) (b : Bool) :
    ((xs.flatMap fun x => [] :: splitOnLength x n).foldl parseFoldedStep (acc, b)).1 = acc ++ xs.flatMap fun x => '\n' :: joinSp (splitOnLength x n) := by
  induction xs generalizing acc b with
  | nil => simp
  | cons x xs ih =>
    rw [List.flatMap_cons, List.foldl_append, fold_good_line _ (h x (by simp)), ih (fun y hy => h y (by simp [hy]))]
    simp

/-! ## the lines of the block -/

/-- The lines of the block without the empty one at the end. -/
def foldBody (n : Nat) : List Str → List Str
  | [] => []
  | x :: xs => splitOnLength x n ++ xs.flatMap fun y => [] :: splitOnLength y n

theorem foldBody_eq (n : Nat) (x : Str) (xs : List Str) :
    (x :: xs).flatMap (fun x => splitOnLength x n ++ [[]]) = foldBody n (x :: xs) ++ [[]] := by
  have : ∀ (xs : List Str), (([] : Str) :: xs.flatMap fun x => splitOnLength x n ++ [[]]) = (xs.flatMap fun y => [] :: splitOnLength y n) ++ [[]] := by
    intro xs
    induction xs with
    | nil => rfl
    | cons y ys ih =>
      rw [List.flatMap_cons, List.flatMap_cons, List.append_assoc, List.cons_append, List.append_assoc, ← ih]
      simp
  rw [List.flatMap_cons, foldBody, List.append_assoc, List.append_assoc, ← this]
  rfl

theorem joinLines_cons (x : Str) (xs : List Str) : joinLines (x :: xs) = x ++ xs.flatMap fun y => '\n' :: y := by
  induction xs generalizing x with
  | nil => simp [joinLines]
  | cons y ys ih => rw [joinLines, ih]; simp; intro h; simp at h

theorem split_joinLines (x : Str) (xs : List Str) (h : ∀ y ∈ x :: xs, '\n' ∉ y) : splitChar '\n' (joinLines (x :: xs)) = x :: xs := by
  induction xs generalizing x with
  | nil =>
    simp only [joinLines]
    induction x with
    | nil => rfl
    | cons a as ih =>
      obtain ⟨l, ls, h1, h2⟩ := splitChar_cons_ne (c := '\n') (x := a) (by rintro rfl; exact h _ List.mem_cons_self (by simp)) as
      rw [h2]
      rw [ih (fun y hy => by
        simp only [List.mem_singleton] at hy
        subst hy
        intro hm
        exact h _ List.mem_cons_self (by simp [hm]))] at h1
      simp at h1
      rw [h1.1, h1.2]
  | cons y ys ih =>
    have key : ∀ (u t : Str), '\n' ∉ u → splitChar '\n' (u ++ '\n' :: t) = u :: splitChar '\n' t := by
      intro u t hu
      induction u with
      | nil => exact splitChar_cons_sep _ _
      | cons a as ih =>
        obtain ⟨l, ls, h1, h2⟩ := splitChar_cons_ne (c := '\n') (x := a) (by rintro rfl; simp at hu) (as ++ '\n' :: t)
        rw [List.cons_append, h2]
        rw [ih (fun hm => hu (by simp [hm]))] at h1
        simp at h1
        rw [h1.1, h1.2]
    have he : joinLines (x :: y :: ys) = x ++ '\n' :: joinLines (y :: ys) := by rw [joinLines_cons, joinLines_cons]; simp
    rw [he, key _ _ (h x (by simp)), ih y (fun z hz => h z (by simp [hz]))]

theorem joinSp_no_newline {ps : List Str} (h : ∀ p ∈ ps, '\n' ∉ p) : '\n' ∉ joinSp ps := by
  induction ps with
  | nil => simp [joinSp]
  | cons p ps ih =>
    by_cases hp : ps = []
    · subst hp; simpa [joinSp] using h
    · rw [joinSp_cons hp]
      simp only [List.mem_append, List.mem_cons, not_or]
      exact ⟨h p (by simp), by decide, ih fun q hq => h q (by simp [hq])⟩

theorem splitChar_subset (sep : Char) (s : Str) : ∀ l ∈ splitChar sep s, ∀ c ∈ l, c ∈ s := by
  induction s with
  | nil => simp [splitChar]
  | cons x t ih =>
    intro l hl c hc
    by_cases h : x = sep
    · simp only [splitChar, h, if_true, List.mem_cons] at hl
      rcases hl with rfl | hl
      · simp at hc
      · simp [ih l hl c hc]
    · rw [splitChar, if_neg h] at hl
      split at hl
      · rename_i he
        rw [he] at ih
        simp at hl
        subst hl
        simp at hc
        simp [hc]
      · rename_i m ms he
        rw [he] at ih
        simp only [List.mem_cons] at hl
        rcases hl with rfl | hl
        · simp only [List.mem_cons] at hc
          rcases hc with rfl | hc
          · simp
          · simp [ih m (by simp) c hc]
        · simp [ih l (by simp [hl]) c hc]

theorem splitOnLength_subset (n : Nat) (x : Str) : ∀ l ∈ splitOnLength x n, ∀ c ∈ l, c ∈ x ∨ c = ' ' := by
  have key : ∀ (ws : List Str) (st : SplitState), (∀ w ∈ ws, ∀ c ∈ w, c ∈ x ∨ c = ' ') → (∀ l ∈ st.result ++ [st.s], ∀ c ∈ l, c ∈ x ∨ c = ' ') →
      ∀ l ∈ (ws.foldl (splitOnLengthStep n) st).result ++ [(ws.foldl (splitOnLengthStep n) st).s], ∀ c ∈ l, c ∈ x ∨ c = ' ' := by
    intro ws
    induction ws with
    | nil => intro st _ h; exact h
    | cons w ws ih =>
      intro st hw h
      refine ih _ (fun v hv => hw v (by simp [hv])) ?_
      have hww := hw w (by simp)
      unfold splitOnLengthStep
      split
      · intro l hl
        simp only [List.mem_append, List.mem_singleton] at hl h
        rcases hl with (hl | hl) | hl
        · exact h l (.inl hl)
        · exact h l (.inr hl)
        · subst hl; exact hww
      · intro l hl
        simp only [List.mem_append, List.mem_singleton] at hl h
        rcases hl with hl | hl
        · exact h l (.inl hl)
        · subst hl
          intro c hc
          split at hc
          · simp only [List.mem_append, List.mem_singleton] at hc
            rcases hc with (hc | hc) | hc
            · exact h st.s (.inr rfl) c hc
            · exact .inr hc
            · exact hww c hc
          · simp only [List.mem_append] at hc
            rcases hc with hc | hc
            · exact h st.s (.inr rfl) c hc
            · exact hww c hc
  intro l hl
  have := key (splitChar ' ' x) ⟨[], [], true⟩ (fun w hw c hc => .inl (splitChar_subset _ _ w hw c hc)) (by simp)
  unfold splitOnLength at hl
  dsimp only at hl
  split at hl
  · exact this l hl
  · exact this l (by simp [hl])

theorem piece_no_newline {n : Nat} {x : Str} (h : '\n' ∉ x) : ∀ l ∈ splitOnLength x n, '\n' ∉ l := by
  intro l hl hm
  rcases splitOnLength_subset n x l hl _ hm with h' | h'
  · exact h h'
  · exact absurd h' (by decide)

theorem splitOnLength_empty {n : Nat} (hn : 0 < n) : splitOnLength [] n = [] :=
  splitOnLength_nil (by simp [LineFoldable, splitChar, byteLen, BreaksAtWords, hn])

theorem splitOnLength_eq_nil {n : Nat} {x : Str} (h : splitOnLength x n = []) : x = [] := by
  cases hs : splitChar ' ' x with
  | nil => exact absurd hs (splitChar_ne_nil _ _)
  | cons w ws =>
    rw [splitOnLength_eq hs] at h
    split at h
    · simp at h
    · obtain ⟨rfl, rfl⟩ := goPieces_eq_nil h
      have := joinSp_splitChar x
      rw [hs] at this
      simpa [joinSp] using this.symm

theorem foldBody_no_newline {n : Nat} {xs : List Str} (h : ∀ x ∈ xs, '\n' ∉ x) : ∀ l ∈ foldBody n xs, '\n' ∉ l := by
  cases xs with
  | nil => simp [foldBody]
  | cons x xs =>
    intro l hl
    simp only [foldBody, List.mem_append, List.mem_flatMap, List.mem_cons] at hl
    rcases hl with hl | ⟨y, hy, rfl | hl⟩
    · exact piece_no_newline (h x (by simp)) l hl
    · simp
    · exact piece_no_newline (h y (by simp [hy])) l hl

theorem weights_flatMap (n : Nat) (xs : List Str) :
    weights (xs.flatMap fun y => [] :: splitOnLength y n) = xs.length + weights (xs.flatMap fun y => splitOnLength y n) := by
  induction xs with
  | nil => rfl
  | cons y ys ih =>
    rw [List.flatMap_cons, List.flatMap_cons, weights_append, weights_append, ih, weights_cons, List.length_cons]
    have : pieceWeight [] = 1 := rfl
    omega

theorem count_joinLines (x : Str) (xs : List Str) (h : ∀ y ∈ x :: xs, '\n' ∉ y) : (joinLines (x :: xs)).count '\n' = xs.length := by
  rw [joinLines_cons, List.count_append, List.count_eq_zero.2 (h x (by simp)), Nat.zero_add]
  have : ∀ y ∈ xs, '\n' ∉ y := fun y hy => h y (by simp [hy])
  induction xs with
  | nil => rfl
  | cons y ys ih =>
    rw [List.flatMap_cons, List.count_append, ih (fun z hz => h z (by simp at hz ⊢; rcases hz with hz | hz <;> simp [hz])) (fun z hz => this z (by simp [hz])),
      List.count_cons_self, List.count_eq_zero.2 (this y (by simp)), List.length_cons]
    omega

/-- A line with good pieces that make it up. -/
theorem lineFoldable_of_good {n : Nat} {y : Str} (hn : 0 < n) (hg : ∀ q ∈ splitOnLength y n, GoodPiece q) (hj : joinSp (splitOnLength y n) = y) :
    LineFoldable n y ∧ startsWithChar y ' ' = false := by
  have hsp := joinSp_splitChar y
  cases hs : splitChar ' ' y with
  | nil => exact absurd hs (splitChar_ne_nil _ _)
  | cons w ws =>
    rw [hs] at hsp
    have he := splitOnLength_eq (n := n) hs
    split at he
    · exact absurd rfl (hg [] (by rw [he]; simp)).1
    · rename_i hw
      refine ⟨?_, ?_⟩
      · unfold LineFoldable
        rw [hs]
        refine ⟨by omega, goPieces_breaks n ws w (fun q hq => hg q (by rw [he]; exact List.mem_of_mem_tail hq)) ?_⟩
        rw [← he, hj, hsp]
      · cases hP : splitOnLength y n with
        | nil => rw [splitOnLength_eq_nil hP]; rfl
        | cons q qs =>
          have hq := hg q (by rw [hP]; simp)
          rw [hP] at hj
          rw [← hj]
          by_cases hqs : qs = []
          · subst hqs; exact hq.2
          · rw [joinSp_cons hqs, startsWith_append _ hq.1]; exact hq.2

/-- The first line: its first piece may be anything. -/
theorem lineFoldable_first {n : Nat} {y : Str} (hn : 0 < n) (hg : ∀ q ∈ (splitOnLength y n).tail, GoodPiece q) (hj : joinSp (splitOnLength y n) = y) :
    LineFoldable n y := by
  have hsp := joinSp_splitChar y
  have hnm := splitChar_not_mem ' ' y
  cases hs : splitChar ' ' y with
  | nil => exact absurd hs (splitChar_ne_nil _ _)
  | cons w ws =>
    rw [hs] at hsp hnm
    have he := splitOnLength_eq (n := n) hs
    unfold LineFoldable
    rw [hs]
    split at he
    · rename_i hw
      exfalso
      have hwne : w ≠ [] := by rintro rfl; simp [byteLen] at hw; omega
      rw [he, joinSp_cons (fun hnil => hwne (goLong_eq_nil hnil)), ← hsp] at hj
      cases w with
      | nil => exact hwne rfl
      | cons a as =>
        have ha : a = ' ' := by
          cases ws with
          | nil => simp [joinSp] at hj; exact hj.1.symm
          | cons v vs => rw [joinSp_cons_cons] at hj; simp at hj; exact hj.1.symm
        exact hnm _ List.mem_cons_self (by simp [ha])
    · refine ⟨by omega, goPieces_breaks n ws w (by rw [← he]; exact hg) ?_⟩
      rw [← he, hj, hsp]

/-! ## the exact class -/

/-- `s` has only newlines after `t`. -/
theorem replicate_head {k : Nat} {u v : Str} {c : Char} (h : List.replicate k '\n' ++ c :: u = List.replicate (k + 1) '\n' ++ v) : c = '\n' := by
  have : List.replicate (k + 1) '\n' ++ v = List.replicate k '\n' ++ '\n' :: v := by rw [List.replicate_succ']; simp
  rw [this] at h
  have := List.append_cancel_left h
  simp at this
  exact this.1

theorem flatMap_blank (k : Nat) : (List.replicate k ([] : Str)).flatMap (fun y => '\n' :: y) = List.replicate k '\n' := by
  induction k with
  | zero => rfl
  | succ k ih => rw [List.replicate_succ, List.flatMap_cons, ih]; simp [List.replicate_succ]

theorem lines_cases (xs : List Str) : (∃ k, xs = List.replicate k []) ∨ ∃ k x xs', xs = List.replicate k [] ++ x :: xs' ∧ x ≠ [] := by
  induction xs with
  | nil => exact .inl ⟨0, rfl⟩
  | cons x xs ih =>
    by_cases hx : x = []
    · subst hx
      rcases ih with ⟨k, rfl⟩ | ⟨k, y, ys, rfl, hy⟩
      · exact .inl ⟨k + 1, rfl⟩
      · exact .inr ⟨k + 1, y, ys, rfl, hy⟩
    · exact .inr ⟨0, x, xs, rfl, hx⟩

theorem foldBody_blank {n : Nat} (hn : 0 < n) (k : Nat) (x : Str) (xs : List Str) :
    foldBody n (List.replicate (k + 1) [] ++ x :: xs) = List.replicate (k + 1) [] ++ splitOnLength x n ++ xs.flatMap fun y => [] :: splitOnLength y n := by
  have hb : ∀ k (l : List Str), (List.replicate k ([] : Str) ++ l).flatMap (fun y => [] :: splitOnLength y n) =
      List.replicate k [] ++ l.flatMap fun y => [] :: splitOnLength y n := by
    intro k l
    induction k with
    | zero => simp
    | succ k ih => rw [List.replicate_succ, List.cons_append, List.flatMap_cons, ih, splitOnLength_empty hn]; rfl
  rw [List.replicate_succ, List.cons_append, foldBody, splitOnLength_empty hn, List.nil_append, hb, List.flatMap_cons]
  rw [← List.replicate_succ, List.replicate_succ']
  simp

theorem fold_blank (k : Nat) (acc : Str) (b : Bool) : (List.replicate k ([] : Str)).foldl parseFoldedStep (acc, b) = (acc ++ List.replicate k '\n', decide (0 < k) || b) := by
  induction k generalizing acc b with
  | zero => simp
  | succ k ih =>
    have : parseFoldedStep (acc, b) [] = (acc ++ ['\n'], true) := by simp [parseFoldedStep]
    rw [List.replicate_succ, List.foldl_cons, this, ih]
    simp [List.replicate_succ]

/-- A string (given by its lines) is what its block says, maybe with newlines at the end: then it is in one of the three classes. -/
theorem foldBody_exact {n : Nat} (hn : 0 < n) (x : Str) (xs : List Str) (hnl : ∀ y ∈ x :: xs, '\n' ∉ y) (j : Nat)
    (hj : j = 0 ∨ (j = 1 ∧ ∃ pre p, pre ≠ [] ∧ foldBody n (x :: xs) = pre ++ [p] ∧ startsWithChar p ' ' = true))
    (h : foldedContent (foldBody n (x :: xs)) = joinLines (x :: xs) ++ List.replicate j '\n') :
    (x ≠ [] ∧ LineFoldable n x ∧ ∀ y ∈ xs, LineFoldable n y ∧ startsWithChar y ' ' = false) ∨ (x = [] ∧ xs = []) ∨
    ∃ k z zs, x :: xs = List.replicate (k + 1) [] ++ z :: zs ∧
      ((LineOverflows n z ∧ ∀ y ∈ zs, LineFoldable n y ∧ startsWithChar y ' ' = false) ∨ (startsWithChar z ' ' = true ∧ byteLen z ≤ n ∧ zs = [] ∧ j = 1)) := by
  have hcount := congrArg (List.count '\n') h
  rw [List.count_append, count_joinLines x xs hnl, List.count_replicate_self] at hcount
  by_cases hx : x = []
  · subst hx
    right
    rcases lines_cases xs with ⟨k, rfl⟩ | ⟨k, z, zs, rfl, hz⟩
    · cases k with
      | zero => exact .inl ⟨rfl, rfl⟩
      | succ k =>
        exfalso
        have : foldBody n ([] :: List.replicate (k + 1) []) = List.replicate (k + 1) [] := by
          rw [List.replicate_succ' (n := k)]
          have := foldBody_blank hn k ([] : Str) []
          rw [List.replicate_succ, List.cons_append] at this
          rw [this, splitOnLength_empty hn]
          rw [← List.replicate_succ' (n := k), List.replicate_succ (n := k)]
          simp
        rw [this, List.replicate_succ, foldedContent, fold_blank] at hcount
        simp at hcount
        omega
    · right
      refine ⟨k, z, zs, rfl, ?_⟩
      have hbody := foldBody_blank hn k z zs
      rw [List.replicate_succ, List.cons_append] at hbody
      rw [hbody] at h hcount hj
      have hbl := foldBody_no_newline (n := n) hnl
      rw [hbody] at hbl
      cases hP : splitOnLength z n with
      | nil => exact absurd (splitOnLength_eq_nil hP) hz
      | cons q qs =>
        rw [hP] at h hcount hj hbl
        simp only [List.cons_append, List.append_assoc] at h hcount hj hbl
        rw [foldedContent, List.foldl_append, fold_blank] at h hcount
        have hbl' : ∀ l ∈ q :: (qs ++ zs.flatMap fun y => [] :: splitOnLength y n), '\n' ∉ l := by
          intro l hl
          exact hbl l (List.mem_cons_of_mem _ (List.mem_append_right _ hl))
        rw [count_fold _ _ hbl', weights_cons, weights_append, weights_flatMap] at hcount
        simp only [List.nil_append, List.count_replicate_self, List.length_append, List.length_replicate, List.length_cons] at hcount
        have hs : joinLines ([] :: (List.replicate k [] ++ z :: zs)) = List.replicate (k + 1) '\n' ++ (z ++ zs.flatMap fun y => '\n' :: y) := by
          rw [joinLines_cons, List.nil_append, List.flatMap_append, List.flatMap_cons]
          have : (List.replicate k ([] : Str)).flatMap (fun y => '\n' :: y) = List.replicate k '\n' := flatMap_blank k
          rw [this, List.replicate_succ']
          simp
        rw [hs] at h
        -- the last piece, if it is special, is `q` or comes after it
        have hspecial : j = 1 → ∃ p, (p = q ∧ qs = [] ∧ zs = [] ∨ p ∈ qs ++ zs.flatMap fun y => splitOnLength y n) ∧ startsWithChar p ' ' = true := by
          intro hj1
          rcases hj with hj | ⟨-, pre, p, -, hp, hsp⟩
          · omega
          · refine ⟨p, ?_, hsp⟩
            have hpne : p ≠ [] := by rintro rfl; simp [startsWithChar] at hsp
            have hlast : ([] :: (List.replicate k ([] : Str) ++ q :: (qs ++ zs.flatMap fun y => [] :: splitOnLength y n))).getLast? = some p := by
              rw [hp]; simp
            have hm : (q :: (qs ++ zs.flatMap fun y => [] :: splitOnLength y n)).getLast? = some p := by
              rw [← List.cons_append, List.getLast?_append] at hlast
              rw [List.getLast?_eq_some_getLast (List.cons_ne_nil _ _)] at hlast ⊢
              simpa using hlast
            have hcase : (qs ++ zs.flatMap fun y => [] :: splitOnLength y n) = [] ∨ p ∈ qs ++ zs.flatMap fun y => [] :: splitOnLength y n := by
              by_cases hr : (qs ++ zs.flatMap fun y => [] :: splitOnLength y n) = []
              · exact .inl hr
              · right
                rw [List.getLast?_cons_of_ne_nil hr] at hm
                exact List.mem_of_getLast? hm
            rcases hcase with hr | hr
            · rw [hr] at hm
              simp only [List.append_eq_nil_iff] at hr
              refine .inl ⟨by simpa using hm.symm, hr.1, ?_⟩
              cases zs with
              | nil => rfl
              | cons y ys => simp at hr
            · right
              simp only [List.mem_append, List.mem_flatMap, List.mem_cons] at hr ⊢
              rcases hr with hr | ⟨y, hy, rfl | hr⟩
              · exact .inl hr
              · exact absurd rfl hpne
              · exact .inr ⟨y, hy, hr⟩
        by_cases hq : q = []
        · -- an empty piece makes up for the newline
          subst hq
          left
          have hw : pieceWeight [] = 1 := rfl
          rw [hw] at hcount
          have hj0 : j = 0 := by
            rcases hj with hj | hj
            · exact hj
            · obtain ⟨p, hp, hsp⟩ := hspecial hj.1
              rcases hp with ⟨rfl, -⟩ | hp
              · simp [startsWithChar] at hsp
              · have := weight_mem hp
                rw [weights_append, weight_special hsp] at this
                omega
          subst hj0
          have hg1 : ∀ p ∈ qs, GoodPiece p := weights_zero.1 (by omega)
          have hg2 : ∀ y ∈ zs, ∀ p ∈ splitOnLength y n, GoodPiece p := by
            have : weights (zs.flatMap fun y => splitOnLength y n) = 0 := by omega
            intro y hy p hp
            exact weights_zero.1 this p (List.mem_flatMap.2 ⟨y, hy, hp⟩)
          rw [← List.cons_append, List.foldl_append, fold_good_line qs hg1, fold_good_lines n zs hg2] at h
          have heq : joinLines (joinSp qs :: zs.map fun y => joinSp (splitOnLength y n)) = joinLines (z :: zs) := by
            rw [joinLines_cons, joinLines_cons, List.flatMap_map]
            simp only [List.nil_append, List.replicate_zero, List.append_nil] at h
            rw [List.replicate_succ'] at h
            simp only [List.append_assoc, List.cons_append, List.nil_append] at h
            have := List.append_cancel_left h
            simpa using this
          have hq1 : ∀ p ∈ qs, '\n' ∉ p := fun p hp => hbl' p (by simp [hp])
          have hlines := congrArg (splitChar '\n') heq
          rw [split_joinLines, split_joinLines] at hlines
          rotate_left
          · intro y hy; exact hnl y (by simp at hy ⊢; rcases hy with hy | hy <;> simp [hy])
          · intro y hy
            rcases List.mem_cons.1 hy with rfl | hy
            · exact joinSp_no_newline hq1
            · obtain ⟨w, hw, rfl⟩ := List.mem_map.1 hy
              exact joinSp_no_newline (piece_no_newline (hnl w (by simp [hw])))
          simp only [List.cons.injEq] at hlines
          obtain ⟨hzq, hzs⟩ := hlines
          have hjs : ∀ y ∈ zs, joinSp (splitOnLength y n) = y := by
            intro y hy
            have := List.map_inj_left.1 (show zs.map (fun y => joinSp (splitOnLength y n)) = zs.map id by simpa using hzs) y hy
            simpa using this
          refine ⟨?_, fun y hy => lineFoldable_of_good hn (hg2 y hy) (hjs y hy)⟩
          have hsp := joinSp_splitChar z
          have hnm := splitChar_not_mem ' ' z
          cases hsz : splitChar ' ' z with
          | nil => exact absurd hsz (splitChar_ne_nil _ _)
          | cons w ws =>
            rw [hsz] at hsp hnm
            have he := splitOnLength_eq (n := n) hsz
            rw [hP] at he
            split at he
            · rename_i hw
              simp only [List.cons.injEq, true_and] at he
              refine ⟨⟨w, ws, hsz, by omega⟩, ?_⟩
              rw [hsz]
              refine goLong_noTwoFit n ws w (by rw [← he]; exact hg1) (by rw [← he, hzq, hsp]) ?_
              rw [← he]
              rintro rfl
              exact hz (by rw [← hzq]; rfl)
            · rename_i hw
              exfalso
              obtain ⟨u, hu⟩ := goPieces_head _ _ _ _ _ he.symm
              have hw0 : w = [] := by
                cases w with
                | nil => rfl
                | cons a as => simp at hu
              subst hw0
              cases ws with
              | nil => exact hz (by rw [← hsp]; rfl)
              | cons v vs =>
                rw [joinSp_cons_cons] at hsp
                cases qs with
                | nil => exact hz (by rw [← hzq]; rfl)
                | cons p ps =>
                  have hp := hg1 p (by simp)
                  have h1 : startsWithChar z ' ' = false := by
                    rw [← hzq]
                    by_cases hps : ps = []
                    · subst hps; exact hp.2
                    · rw [joinSp_cons hps, startsWith_append _ hp.1]; exact hp.2
                  rw [← hsp] at h1
                  simp [startsWithChar] at h1
        · by_cases hqs : startsWithChar q ' ' = true
          · right
            rw [weight_special hqs] at hcount
            have hj1 : j = 1 := by
              rcases hj with hj | hj
              · omega
              · exact hj.1
            obtain ⟨p, hp, hsp⟩ := hspecial hj1
            rcases hp with ⟨rfl, hq0, hz0⟩ | hp
            · subst hq0; subst hz0
              simp only [List.flatMap_nil, List.append_nil, List.foldl_cons, List.foldl_nil] at h
              have hstep : parseFoldedStep ([] ++ List.replicate k '\n', decide (0 < k) || false) p = (List.replicate k '\n' ++ ['\n'] ++ p ++ ['\n'], true) := by
                simp [parseFoldedStep, hq, hqs]
              rw [hstep, hj1, ← List.replicate_succ'] at h
              simp only [List.append_assoc, List.replicate_one] at h
              have hzp : p = z := List.append_cancel_right (List.append_cancel_left h)
              subst hzp
              refine ⟨hqs, ?_, rfl, hj1⟩
              have hsp' := joinSp_splitChar p
              cases hsz : splitChar ' ' p with
              | nil => exact absurd hsz (splitChar_ne_nil _ _)
              | cons w ws =>
                rw [hsz] at hsp'
                have he := splitOnLength_eq (n := n) hsz
                rw [hP] at he
                split at he
                · simp only [List.cons.injEq] at he; exact absurd he.1 hq
                · rename_i hw
                  rw [← hsp']
                  refine goPieces_one n ws w ?_ (by omega)
                  rw [← he, hsp']
            · have := weight_mem hp
              rw [weights_append, weight_special hsp] at this
              omega
          · -- a good piece: the newline is missing
            exfalso
            obtain ⟨u, hu⟩ := fold_prefix (qs ++ zs.flatMap fun y => [] :: splitOnLength y n) (parseFoldedStep ([] ++ List.replicate k '\n', decide (0 < k) || false) q)
            rw [List.foldl_cons, hu] at h
            have hqn : '\n' ∉ q := hbl' q (by simp)
            cases q with
            | nil => exact hq rfl
            | cons a as =>
              have ha : a ≠ '\n' := by rintro rfl; simp at hqn
              by_cases hk : 0 < k
              · have hstep : parseFoldedStep ([] ++ List.replicate k '\n', decide (0 < k) || false) (a :: as) = (List.replicate k '\n' ++ a :: as, false) := by
                  simp [parseFoldedStep, hqs, hk]
                rw [hstep] at h
                simp only [List.append_assoc, List.cons_append] at h
                exact ha (replicate_head h)
              · have hk0 : k = 0 := by omega
                subst hk0
                have hstep : parseFoldedStep ([] ++ List.replicate 0 '\n', decide (0 < 0) || false) (a :: as) = (' ' :: a :: as, false) := by
                  simp [parseFoldedStep, hqs]
                rw [hstep] at h
                simp at h
  · left
    refine ⟨hx, ?_⟩
    have hbl := foldBody_no_newline (n := n) hnl
    rw [foldBody] at h hcount hj hbl
    cases hP : splitOnLength x n with
    | nil => exact absurd (splitOnLength_eq_nil hP) hx
    | cons p ps =>
      rw [hP] at h hcount hj hbl
      rw [List.cons_append, foldedContent] at h hcount
      rw [count_fold _ _ (fun l hl => hbl l (by simp at hl ⊢; right; exact hl)), weights_append, weights_flatMap] at hcount
      simp only [List.count_eq_zero.2 (hbl p (by simp))] at hcount
      have hj0 : j = 0 := by
        rcases hj with hj | ⟨hj1, pre, q, hpre, hq, hsp⟩
        · exact hj
        · exfalso
          cases pre with
          | nil => exact hpre rfl
          | cons r rs =>
            rw [List.cons_append, List.cons_append] at hq
            simp only [List.cons.injEq] at hq
            have hm : q ∈ ps ++ xs.flatMap fun y => [] :: splitOnLength y n := by rw [hq.2]; simp
            have := weight_mem hm
            have hqne : q ≠ [] := by rintro rfl; simp [startsWithChar] at hsp
            have hm' : q ∈ ps ++ xs.flatMap fun y => splitOnLength y n := by
              simp only [List.mem_append, List.mem_flatMap, List.mem_cons] at hm ⊢
              rcases hm with hm | ⟨y, hy, rfl | hm⟩
              · exact .inl hm
              · exact absurd rfl hqne
              · exact .inr ⟨y, hy, hm⟩
            have := weight_mem hm'
            rw [weights_append, weight_special hsp] at this
            omega
      subst hj0
      have hg1 : ∀ q ∈ ps, GoodPiece q := weights_zero.1 (by omega)
      have hg2 : ∀ y ∈ xs, ∀ p ∈ splitOnLength y n, GoodPiece p := by
        have : weights (xs.flatMap fun y => splitOnLength y n) = 0 := by omega
        intro y hy p hp
        exact weights_zero.1 this p (List.mem_flatMap.2 ⟨y, hy, hp⟩)
      rw [List.foldl_append, parseFolded_pieces ps hg1, foldl_sp, fold_good_lines n xs hg2] at h
      have heq : joinLines (joinSp (p :: ps) :: xs.map fun y => joinSp (splitOnLength y n)) = joinLines (x :: xs) := by
        rw [joinLines_cons, List.flatMap_map]
        simpa using h
      have hlines := congrArg (splitChar '\n') heq
      rw [split_joinLines, split_joinLines _ _ hnl] at hlines
      rotate_left
      · intro y hy
        rcases List.mem_cons.1 hy with rfl | hy
        · exact joinSp_no_newline (fun q hq => hbl q (by simp at hq ⊢; rcases hq with hq | hq <;> simp [hq]))
        · obtain ⟨w, hw, rfl⟩ := List.mem_map.1 hy
          exact joinSp_no_newline (piece_no_newline (hnl w (by simp [hw])))
      simp only [List.cons.injEq] at hlines
      obtain ⟨hxp, hxs⟩ := hlines
      have hjs : ∀ y ∈ xs, joinSp (splitOnLength y n) = y := by
        intro y hy
        have := List.map_inj_left.1 (show xs.map (fun y => joinSp (splitOnLength y n)) = xs.map id by simpa using hxs) y hy
        simpa using this
      refine ⟨lineFoldable_first hn (by rw [hP]; exact hg1) (by rw [hP]; exact hxp), fun y hy => lineFoldable_of_good hn (hg2 y hy) (hjs y hy)⟩

theorem nil_or_snoc {α} (l : List α) : l = [] ∨ ∃ a b, l = a ++ [b] := by
  rcases List.eq_nil_or_concat l with h | ⟨a, b, h⟩
  · exact .inl h
  · exact .inr ⟨a, b, by rw [h, List.concat_eq_append]⟩

theorem goPieces_last {n : Nat} (hn : 0 < n) (ws : List Str) (s : Str) : (goPieces n s ws).getLast? ≠ some [] := by
  induction ws generalizing s with
  | nil =>
    rw [goPieces]
    split
    · simp
    · rename_i h; simpa using h
  | cons w ws ih =>
    rw [goPieces]
    split
    · rename_i hb
      by_cases hg : goPieces n w ws = []
      · obtain ⟨rfl, rfl⟩ := goPieces_eq_nil hg
        rw [hg]
        simp only [List.getLast?_singleton, ne_eq, Option.some.injEq]
        rintro rfl
        simp [byteLen] at hb
        omega
      · rw [List.getLast?_cons_of_ne_nil hg]; exact ih w
    · exact ih _

theorem goLong_last {n : Nat} (hn : 0 < n) (ws : List Str) (s : Str) : (goLong n s ws).getLast? ≠ some [] := by
  induction ws generalizing s with
  | nil =>
    rw [goLong]
    split
    · simp
    · rename_i h; simpa using h
  | cons w ws ih =>
    rw [goLong]
    split
    · rename_i hb
      by_cases hg : goLong n w ws = []
      · rw [hg]
        simp only [List.getLast?_singleton, ne_eq, Option.some.injEq]
        rintro rfl
        rw [goLong_eq_nil hg] at hb
        simp [byteLen] at hb
        omega
      · rw [List.getLast?_cons_of_ne_nil hg]; exact ih w
    · exact goPieces_last hn _ _

theorem splitOnLength_last {n : Nat} (hn : 0 < n) (x : Str) : (splitOnLength x n).getLast? ≠ some [] := by
  cases hs : splitChar ' ' x with
  | nil => exact absurd hs (splitChar_ne_nil _ _)
  | cons w ws =>
    rw [splitOnLength_eq hs]
    split
    · rename_i hw
      have : goLong n w ws ≠ [] := by
        intro h
        rw [goLong_eq_nil h] at hw
        simp [byteLen] at hw
        omega
      rw [List.getLast?_cons_of_ne_nil this]
      exact goLong_last hn _ _
    · exact goPieces_last hn _ _

/-- The last line of the block is blank only if the last line of the string is. -/
theorem foldBody_last {n : Nat} (hn : 0 < n) (x : Str) (xs : List Str) (h : (foldBody n (x :: xs)).getLast? = some []) :
    xs.getLast? = some [] := by
  rw [foldBody] at h
  rcases nil_or_snoc xs with rfl | ⟨ys, y, rfl⟩
  · simp at h; exact absurd h (splitOnLength_last hn x)
  · simp only [List.flatMap_append, List.flatMap_cons, List.flatMap_nil, List.append_nil, List.getLast?_append] at h
    by_cases hy : splitOnLength y n = []
    · simp [splitOnLength_eq_nil hy]
    · rw [List.getLast?_cons_of_ne_nil hy, List.getLast?_eq_some_getLast hy] at h
      simp only [Option.some_or, Option.some.injEq] at h
      exact absurd (by rw [List.getLast?_eq_some_getLast hy, h]) (splitOnLength_last hn y)

theorem lines_last_blank {s x : Str} {xs : List Str} (h : splitChar '\n' s = x :: xs) (hl : xs.getLast? = some []) : endsWithChar s '\n' = true := by
  have hs := joinLines_splitChar s
  rw [h] at hs
  rcases nil_or_snoc xs with rfl | ⟨ys, y, rfl⟩
  · simp at hl
  · simp at hl
    subst hl
    rw [endsWithChar_iff, ← hs, joinLines_cons]
    exact ⟨x ++ ys.flatMap fun y => '\n' :: y, by simp⟩

theorem splitChar_foldBody_nil {n : Nat} {s x : Str} {xs : List Str} (h : splitChar '\n' s = x :: xs) (hb : foldBody n (x :: xs) = []) : s = [] := by
  have hs := joinLines_splitChar s
  rw [h] at hs
  rw [foldBody, List.append_eq_nil_iff] at hb
  rw [← hs, splitOnLength_eq_nil hb.1]
  cases xs with
  | nil => rfl
  | cons y ys => simp at hb

theorem lines_no_newline {s x : Str} {xs : List Str} (h : splitChar '\n' s = x :: xs) : ∀ y ∈ x :: xs, '\n' ∉ y := by
  rw [← h]; exact splitChar_not_mem '\n' s

/-- The last piece is not special: the block's text does not end in a newline. -/
theorem foldedContent_end {n : Nat} (hn : 0 < n) {s x : Str} {xs : List Str} (hs : splitChar '\n' s = x :: xs) (hne : s ≠ [])
    (he : endsWithChar s '\n' = false) (j : Nat) (h : foldedContent (foldBody n (x :: xs)) = s ++ List.replicate j '\n') :
    j = 0 ∨ (j = 1 ∧ ∃ pre p, pre ≠ [] ∧ foldBody n (x :: xs) = pre ++ [p] ∧ startsWithChar p ' ' = true) := by
  have hbl := foldBody_no_newline (n := n) (lines_no_newline hs)
  rcases nil_or_snoc (foldBody n (x :: xs)) with hb | ⟨pre, p, hb⟩
  · exact absurd (splitChar_foldBody_nil hs hb) hne
  · have hp : p ≠ [] := by
      rintro rfl
      have := lines_last_blank hs (foldBody_last hn x xs (by rw [hb]; simp))
      rw [this] at he; simp at he
    have hpn : '\n' ∉ p := hbl p (by rw [hb]; simp)
    have hend : ∀ (u : Str) (i : Nat), u ++ p ++ List.replicate i '\n' = s ++ List.replicate j '\n' → i = j := by
      intro u i hu
      have h1 := congrArg (fun l => trimEndMatches l '\n') hu
      have hup : endsWithChar (u ++ p) '\n' = false := by
        rw [endsWithChar]
        rw [List.getLast?_append, List.getLast?_eq_some_getLast hp]
        simp only [Option.some_or]
        rw [beq_eq_false_iff_ne]
        intro hc
        exact hpn (by rw [← Option.some.inj hc]; exact List.getLast_mem hp)
      simp only [trimEndMatches_append_replicate _ hup, trimEndMatches_append_replicate _ he] at h1
      rw [h1] at hu
      have := congrArg List.length (List.append_cancel_left hu)
      simpa using this
    cases pre with
    | nil =>
      left
      rw [hb] at h
      simp [foldedContent] at h
      exact (hend [] 0 (by simpa using h)).symm
    | cons q qs =>
      rw [hb] at h
      rw [List.cons_append, foldedContent, List.foldl_append, List.foldl_cons, List.foldl_nil] at h
      generalize qs.foldl parseFoldedStep (q, false) = st at h
      obtain ⟨acc, b⟩ := st
      by_cases hsp : startsWithChar p ' ' = true
      · right
        have hst : parseFoldedStep (acc, b) p = (acc ++ ['\n'] ++ p ++ ['\n'], true) := by simp [parseFoldedStep, hp, hsp]
        rw [hst] at h
        exact ⟨(hend (acc ++ ['\n']) 1 h).symm, q :: qs, p, by simp, hb, hsp⟩
      · left
        have hst : parseFoldedStep (acc, b) p = ((if !b then acc ++ [' '] else acc) ++ p, false) := by
          simp [parseFoldedStep, hp, hsp]
        rw [hst] at h
        exact (hend _ 0 (by simpa using h)).symm

/-- Folding and reading, in terms of the lines of the block. -/
theorem folded_strip {n : Nat} {s x : Str} {xs : List Str} (hs : splitChar '\n' s = x :: xs) (he : endsWithChar s '\n' = false) (hne : s ≠ []) :
    parseFolded (createFolded s n) (chompingFor s) = trimEndMatches (foldedContent (foldBody n (x :: xs))) '\n' := by
  rw [createFolded, chompingFor, he, hs, foldBody_eq]
  simp only [Bool.false_eq_true, if_false]
  cases hb : foldBody n (x :: xs) with
  | nil => exact absurd (splitChar_foldBody_nil hs hb) hne
  | cons l ls =>
    rw [List.cons_append, parseFolded_eq, ← List.cons_append, foldedContent_append_nil]
    simp [handleEndingNewlines, trimEndMatches_append_singleton]

theorem folded_keep {n : Nat} (hn : 0 < n) {t x : Str} {xs : List Str} (hs : splitChar '\n' t = x :: xs) :
    parseFolded (createFolded (t ++ ['\n']) n) (chompingFor (t ++ ['\n'])) = if foldBody n (x :: xs) = [] then [] else foldedContent (foldBody n (x :: xs)) ++ ['\n'] := by
  have he : endsWithChar (t ++ ['\n']) '\n' = true := (endsWithChar_iff _ _).2 ⟨t, rfl⟩
  rw [createFolded, chompingFor, he, splitChar_append_sep, hs, List.flatMap_append, foldBody_eq]
  simp only [if_true, List.flatMap_cons, List.flatMap_nil, List.append_nil, splitOnLength_empty hn, List.nil_append, popIfLastEmpty_append_nil]
  cases hb : foldBody n (x :: xs) with
  | nil => simp [parseFolded]
  | cons l ls => rw [parseFolded_eq, if_neg (by simp)]; rfl

theorem parts_of_lines {n k : Nat} {z : Str} {zs : List Str} (hz : LineOverflows n z ∧ ∀ y ∈ zs, LineFoldable n y ∧ startsWithChar y ' ' = false) (hn : 0 < n) :
    foldedContent (List.replicate (k + 1) [] ++ splitOnLength z n ++ zs.flatMap fun y => [] :: splitOnLength y n) = joinLines (List.replicate (k + 1) [] ++ z :: zs) := by
  obtain ⟨⟨⟨w, ws, hsz, hw⟩, hnt⟩, hzs⟩ := hz
  have hsp := joinSp_splitChar z
  have hnm := splitChar_not_mem ' ' z
  rw [hsz] at hnt hsp hnm
  have hP := splitOnLength_eq (n := n) hsz
  rw [if_pos (by omega), goLong_of_noTwoFit n ws w hnt] at hP
  have hg1 : ∀ q ∈ w :: ws, GoodPiece q := by
    have hne : ∀ (l : List Str), NoTwoFit n l → ∀ q ∈ l, q ≠ [] := by
      intro l
      induction l with
      | nil => intro _ q hq; simp at hq
      | cons a as ih =>
        intro hl q hq
        cases as with
        | nil => simp at hq; subst hq; exact hl
        | cons b bs =>
          rcases List.mem_cons.1 hq with rfl | hq
          · exact hl.1
          · exact ih hl.2.2 q hq
    intro q hq
    refine ⟨hne _ hnt q hq, ?_⟩
    cases q with
    | nil => rfl
    | cons c cs =>
      simp only [startsWithChar, List.head?_cons]
      rw [beq_eq_false_iff_ne]
      intro hc
      have hc : c = ' ' := by simpa using hc
      exact hnm _ hq (by simp [hc])
  have hg2 : ∀ y ∈ zs, (∀ q ∈ splitOnLength y n, GoodPiece q) ∧ joinSp (splitOnLength y n) = y := by
    intro y hy
    by_cases hye : y = []
    · subst hye; rw [splitOnLength_empty hn]; simp [joinSp]
    · obtain ⟨p, ps, hp, hj, hg⟩ := splitOnLength_pieces (hzs y hy).1 hye
      rw [hp]
      refine ⟨?_, hj⟩
      intro q hq
      rcases List.mem_cons.1 hq with rfl | hq
      · by_cases hq0 : q = []
        · subst hq0
          exfalso
          cases ps with
          | nil => simp [joinSp] at hj; exact hye hj
          | cons a as => rw [joinSp_cons_cons] at hj; have := (hzs y hy).2; rw [← hj] at this; simp [startsWithChar] at this
        · refine ⟨hq0, ?_⟩
          have := (hzs y hy).2
          rw [← hj] at this
          cases ps with
          | nil => exact this
          | cons a as => rw [joinSp_cons_cons, startsWith_append _ hq0] at this; exact this
      · exact hg q hq
  rw [hP, List.replicate_succ]
  simp only [List.cons_append, List.append_assoc]
  rw [foldedContent, List.foldl_append, fold_blank, ← List.cons_append, ← List.cons_append, List.foldl_append, fold_good_line _ hg1, fold_good_lines n zs (fun y hy => (hg2 y hy).1), joinLines_cons,
    List.flatMap_append, flatMap_blank, hsp, List.flatMap_cons]
  have : (zs.flatMap fun y => '\n' :: joinSp (splitOnLength y n)) = zs.flatMap fun y => '\n' :: y := by
    rw [List.flatMap_def, List.flatMap_def]
    congr 1
    exact List.map_congr_left fun y hy => by rw [(hg2 y hy).2]
  rw [this]
  simp

/-- Exactly these strings survive folding. -/
theorem folded_iff {n : Nat} (hn : 0 < n) (s : Str) : parseFolded (createFolded s n) (chompingFor s) = s ↔ Foldable n s ∨ FoldableLate n s := by
  constructor
  · intro h
    by_cases hne : s = []
    · subst hne
      refine .inl ⟨rfl, ?_, by simp [splitChar]⟩
      intro x hx
      simp [splitChar] at hx
      subst hx
      simp [LineFoldable, splitChar, byteLen, BreaksAtWords, hn]
    cases he : endsWithChar s '\n' with
    | false =>
      cases hs : splitChar '\n' s with
      | nil => exact absurd hs (splitChar_ne_nil _ _)
      | cons x xs =>
        rw [folded_strip hs he hne] at h
        obtain ⟨j, hj⟩ : ∃ j, foldedContent (foldBody n (x :: xs)) = s ++ List.replicate j '\n' := by
          obtain ⟨-, j, hj⟩ := trimEndMatches_spec (foldedContent (foldBody n (x :: xs))) '\n'
          rw [h] at hj
          exact ⟨j, hj⟩
        have hjl := joinLines_splitChar s
        rw [hs] at hjl
        rcases foldBody_exact hn x xs (lines_no_newline hs) j (foldedContent_end hn hs hne he j hj) (by rw [hj, hjl]) with ⟨hx, hf, hr⟩ | ⟨rfl, rfl⟩ | ⟨k, z, zs, hz, hc⟩
        · left
          refine ⟨?_, ?_, ?_⟩
          · rw [← hjl, joinLines_cons, startsWith_append _ hx]
            cases x with
            | nil => exact absurd rfl hx
            | cons c cs =>
              simp only [startsWithChar, List.head?_cons]
              rw [beq_eq_false_iff_ne]
              intro hc
              have hc : c = '\n' := by simpa using hc
              exact lines_no_newline hs _ List.mem_cons_self (by simp [hc])
          · rw [hs]; intro y hy
            rcases List.mem_cons.1 hy with rfl | hy
            · exact hf
            · exact (hr y hy).1
          · rw [hs]; intro y hy; exact (hr y hy).2
        · exact absurd hjl.symm hne
        · right
          refine ⟨k, z, zs, by rw [hs, hz], ?_⟩
          rcases hc with hc | ⟨h1, h2, h3, -⟩
          · exact .inl hc
          · exact .inr ⟨h1, h2, h3⟩
    | true =>
      obtain ⟨t, rfl⟩ := (endsWithChar_iff _ _).1 he
      cases hs : splitChar '\n' t with
      | nil => exact absurd hs (splitChar_ne_nil _ _)
      | cons x xs =>
        rw [folded_keep hn hs] at h
        split at h
        · simp at h
        · rename_i hb
          have hjl := joinLines_splitChar t
          rw [hs] at hjl
          have h0 : LineFoldable n [] := by simp [LineFoldable, splitChar, byteLen, BreaksAtWords, hn]
          rcases foldBody_exact hn x xs (lines_no_newline hs) 0 (.inl rfl) (by rw [List.append_cancel_right h, hjl]; simp) with ⟨hx, hf, hr⟩ | ⟨rfl, rfl⟩ | ⟨k, z, zs, hz, hc⟩
          · left
            refine ⟨?_, ?_, ?_⟩
            · rw [← hjl, joinLines_cons, List.append_assoc, startsWith_append _ hx]
              cases x with
              | nil => exact absurd rfl hx
              | cons c cs =>
                simp only [startsWithChar, List.head?_cons]
                rw [beq_eq_false_iff_ne]
                intro hc
                have hc : c = '\n' := by simpa using hc
                exact lines_no_newline hs _ List.mem_cons_self (by simp [hc])
            · rw [splitChar_append_sep, hs]; intro y hy
              rcases List.mem_append.1 hy with hy | hy
              · rcases List.mem_cons.1 hy with rfl | hy
                · exact hf
                · exact (hr y hy).1
              · simp at hy; subst hy; exact h0
            · rw [splitChar_append_sep, hs]; intro y hy
              rcases List.mem_append.1 (show y ∈ xs ++ [[]] from hy) with hy | hy
              · exact (hr y hy).2
              · simp at hy; subst hy; rfl
          · simp [foldBody, splitOnLength_empty hn] at hb
          · right
            rcases hc with hc | ⟨-, -, -, h4⟩
            · refine ⟨k, z, zs ++ [[]], by rw [splitChar_append_sep, hs, hz]; simp, .inl ⟨hc.1, ?_⟩⟩
              intro y hy
              rcases List.mem_append.1 hy with hy | hy
              · exact hc.2 y hy
              · simp at hy; subst hy; exact ⟨h0, rfl⟩
            · omega
  · rintro (h | ⟨k, z, zs, hz, hc⟩)
    · exact folded_roundtrip h
    have hne : s ≠ [] := by
      rintro rfl
      rw [splitChar] at hz
      have := congrArg List.length hz
      simp at this
      omega
    have hjl := joinLines_splitChar s
    rw [hz] at hjl
    rcases hc with hc | ⟨h1, h2, rfl⟩
    · cases he : endsWithChar s '\n' with
      | false =>
        have hs : splitChar '\n' s = [] :: (List.replicate k [] ++ z :: zs) := by rw [hz, List.replicate_succ]; rfl
        rw [folded_strip hs he hne, ← List.cons_append, ← List.replicate_succ, foldBody_blank hn, parts_of_lines hc hn, hjl, trimEndMatches_of_not_endsWith he]
      | true =>
        obtain ⟨t, rfl⟩ := (endsWithChar_iff _ _).1 he
        rw [splitChar_append_sep] at hz
        have hzne : z ≠ [] := by
          rintro rfl
          obtain ⟨⟨⟨w, ws, hw, hl⟩, -⟩, -⟩ := hc
          simp [splitChar] at hw
          rw [hw.1] at hl
          simp [byteLen] at hl
          omega
        rcases nil_or_snoc zs with rfl | ⟨ys, y, rfl⟩
        · exfalso
          have := congrArg List.getLast? hz
          simp at this
          exact hzne this
        · have hz' : (splitChar '\n' t) ++ [[]] = (List.replicate (k + 1) [] ++ z :: ys) ++ [y] := by rw [hz]; simp
          have hts : splitChar '\n' t = List.replicate (k + 1) [] ++ z :: ys := by
            have := congrArg List.dropLast hz'
            simpa only [List.dropLast_concat] using this
          have htj := joinLines_splitChar t
          rw [hts] at htj
          have hs : splitChar '\n' t = [] :: (List.replicate k [] ++ z :: ys) := by rw [hts, List.replicate_succ]; rfl
          rw [folded_keep hn hs, ← List.cons_append, ← List.replicate_succ, foldBody_blank hn, parts_of_lines ⟨hc.1, fun y hy => hc.2 y (by simp [hy])⟩ hn, htj, if_neg (by simp)]
    · have hs : splitChar '\n' s = [] :: (List.replicate k [] ++ [z]) := by rw [hz, List.replicate_succ]; rfl
      have hzne : z ≠ [] := by rintro rfl; simp [startsWithChar] at h1
      have hzn : '\n' ∉ z := lines_no_newline hs z (by simp)
      have hse : s = List.replicate (k + 1) '\n' ++ z := by
        rw [← hjl, List.replicate_succ, List.cons_append, joinLines_cons, List.flatMap_append, flatMap_blank, List.replicate_succ']
        simp
      have he : endsWithChar s '\n' = false := by
        rw [hse, endsWithChar, List.getLast?_append, List.getLast?_eq_some_getLast hzne]
        simp only [Option.some_or]
        rw [beq_eq_false_iff_ne]
        intro hc
        exact hzn (by rw [← Option.some.inj hc]; exact List.getLast_mem hzne)
      rw [folded_strip hs he hne, ← List.cons_append, ← List.replicate_succ, foldBody_blank hn]
      have hP : splitOnLength z n = [z] := by
        have hsp' := joinSp_splitChar z
        cases hsz : splitChar ' ' z with
        | nil => exact absurd hsz (splitChar_ne_nil _ _)
        | cons w ws =>
          rw [hsz] at hsp'
          have hw : w = [] := by
            cases w with
            | nil => rfl
            | cons a as =>
              exfalso
              have hnm := splitChar_not_mem ' ' z
              rw [hsz] at hnm
              have ha : a = ' ' := by
                rw [← hsp'] at h1
                cases ws with
                | nil => simpa [joinSp, startsWithChar] using h1
                | cons v vs => rw [joinSp_cons_cons] at h1; simpa [startsWithChar] using h1
              exact hnm _ List.mem_cons_self (by simp [ha])
          subst hw
          rw [splitOnLength_eq hsz, if_neg (by simp [byteLen]; omega), goPieces_fits n ws [] (by rw [hsp']; exact h2) (by rw [hsp']; exact hzne), hsp']
      rw [hP, List.replicate_succ]
      simp only [List.flatMap_nil, List.append_nil, List.cons_append]
      rw [foldedContent, List.foldl_append, fold_blank, List.foldl_cons, List.foldl_nil]
      have hst : parseFoldedStep ([] ++ List.replicate k '\n', decide (0 < k) || false) z = (List.replicate k '\n' ++ ['\n'] ++ z ++ ['\n'], true) := by
        simp [parseFoldedStep, hzne, h1]
      rw [hst, ← List.replicate_succ', ← hse, trimEndMatches_append_singleton, trimEndMatches_of_not_endsWith he]

end YamlSubset
