import Verif.Model.Location
import Verif.Lemmas.Cost
import Verif.Props.RoundTrip

/-! # Lemmas on where errors are reported -/

namespace YamlSubset.Peg

variable {R : Type} {g : Grammar R} {N : Nat}

theorem counts_oof (look : Look) : counts look (.oof : Res R) = false := rfl

/-- What a rule adds. -/
theorem own_mono {n m : Nat} (h : n ≤ m) (look : Look) (atomic : Bool) (e : Expr R) (s : Str) (k : List Str) (p : Nat) :
    (if !atomic && counts look (eval g n e s k) then p else 0) ≤ (if !atomic && counts look (eval g m e s k) then p else 0) := by
  by_cases ho : eval g n e s k = .oof
  · rw [ho]; simp [counts]
  · rw [eval_mono h ho]; exact Nat.le_refl _

theorem attempted_mono {n m : Nat} (h : n ≤ m) (look : Look) (atomic : Bool) (e : Expr R) (s : Str) (k : List Str) :
    attempted g N n look atomic e s k ≤ attempted g N m look atomic e s k := by
  induction n generalizing m look atomic e s k with
  | zero => exact Nat.zero_le _
  | succ n ih =>
    obtain ⟨m, rfl⟩ : ∃ m', m = m' + 1 := ⟨m - 1, by omega⟩
    have h : n ≤ m := by omega
    have two : ∀ a b, (match eval g n a s k with | .ok _ rest stk' => attempted g N n look atomic b rest stk' | _ => 0) ≤
        (match eval g m a s k with | .ok _ rest stk' => attempted g N m look atomic b rest stk' | _ => 0) := by
      intro a b
      by_cases ho : eval g n a s k = .oof
      · rw [ho]; exact Nat.zero_le _
      · rw [eval_mono h ho]
        split
        · exact ih h _ _ _ _ _
        · exact Nat.le_refl _
    have two' : ∀ a b, (match eval g n a s k with | .fail => attempted g N n look atomic b s k | _ => 0) ≤
        (match eval g m a s k with | .fail => attempted g N m look atomic b s k | _ => 0) := by
      intro a b
      by_cases ho : eval g n a s k = .oof
      · rw [ho]; exact Nat.zero_le _
      · rw [eval_mono h ho]
        split
        · exact ih h _ _ _ _ _
        · exact Nat.le_refl _
    cases e with
    | eoi r => exact Nat.le_refl _
    | rule r =>
      simp only [attempted]
      cases g.kind r with
      | silent => exact ih h _ _ _ _ _
      | _ => exact max_le_max (ih h _ _ _ _ _) (own_mono h _ _ _ _ _ _)
    | seq a b => exact max_le_max (ih h _ _ _ _ _) (two a b)
    | alt a b => exact max_le_max (ih h _ _ _ _ _) (two' a b)
    | star a => exact max_le_max (ih h _ _ _ _ _) (two a (.star a))
    | opt a => exact ih h _ _ _ _ _
    | and a => exact ih h _ _ _ _ _
    | not a => exact ih h _ _ _ _ _
    | push a => exact ih h _ _ _ _ _
    | _ => exact Nat.le_refl _

/-- With more fuel than needed the position does not change. -/
theorem attempted_stable {n m : Nat} (h : n ≤ m) (look : Look) (atomic : Bool) (e : Expr R) (s : Str) (k : List Str) (ho : eval g n e s k ≠ .oof) :
    attempted g N m look atomic e s k = attempted g N n look atomic e s k := by
  induction n generalizing m look atomic e s k with
  | zero => exact absurd rfl ho
  | succ n ih =>
    obtain ⟨m, rfl⟩ : ∃ m', m = m' + 1 := ⟨m - 1, by omega⟩
    have h : n ≤ m := by omega
    cases e with
    | eoi r => rfl
    | rule r =>
      have h1 : eval g n (g.body r) s k ≠ .oof := by intro hh; exact ho (by simp only [eval, hh])
      simp only [attempted, eval_mono h h1]
      cases g.kind r <;> simp only [ih h _ _ _ _ _ h1]
    | seq a b =>
      have h1 : eval g n a s k ≠ .oof := by intro hh; exact ho (by simp only [eval, hh])
      simp only [attempted, ih h _ _ _ _ _ h1, eval_mono h h1]
      cases ha : eval g n a s k with
      | ok ts r k' =>
        have h2 : eval g n b r k' ≠ .oof := by intro hh; exact ho (by simp only [eval, ha, hh])
        simp only [ih h _ _ _ _ _ h2]
      | _ => rfl
    | alt a b =>
      have h1 : eval g n a s k ≠ .oof := by intro hh; exact ho (by simp only [eval, hh])
      simp only [attempted, ih h _ _ _ _ _ h1, eval_mono h h1]
      cases ha : eval g n a s k with
      | fail =>
        have h2 : eval g n b s k ≠ .oof := by intro hh; exact ho (by simp only [eval, ha, hh])
        simp only [ih h _ _ _ _ _ h2]
      | _ => rfl
    | star a =>
      have h1 : eval g n a s k ≠ .oof := by intro hh; exact ho (by simp only [eval, hh])
      simp only [attempted, ih h _ _ _ _ _ h1, eval_mono h h1]
      cases ha : eval g n a s k with
      | ok ts r k' =>
        have h2 : eval g n (.star a) r k' ≠ .oof := by intro hh; exact ho (by simp only [eval, ha, hh])
        simp only [ih h _ _ _ _ _ h2]
      | _ => rfl
    | opt a =>
      have h1 : eval g n a s k ≠ .oof := by intro hh; exact ho (by simp only [eval, hh])
      exact ih h _ _ _ _ _ h1
    | and a =>
      have h1 : eval g n a s k ≠ .oof := by intro hh; exact ho (by simp only [eval, hh])
      exact ih h _ _ _ _ _ h1
    | not a =>
      have h1 : eval g n a s k ≠ .oof := by intro hh; exact ho (by simp only [eval, hh])
      exact ih h _ _ _ _ _ h1
    | push a =>
      have h1 : eval g n a s k ≠ .oof := by intro hh; exact ho (by simp only [eval, hh])
      exact ih h _ _ _ _ _ h1
    | _ => rfl

theorem attempted_le (n : Nat) (look : Look) (atomic : Bool) (e : Expr R) (s : Str) (k : List Str) : attempted g N n look atomic e s k ≤ N := by
  have own : ∀ (b : Bool) (s : Str), (if b then N - s.length else 0) ≤ N := by intro b s; split <;> omega
  induction n generalizing look atomic e s k with
  | zero => exact Nat.zero_le _
  | succ n ih =>
    have two : ∀ a (x : Nat), x ≤ N → max (attempted g N n look atomic a s k) x ≤ N := fun a x hx => by have := ih look atomic a s k; omega
    cases e with
    | eoi r => exact own _ _
    | rule r =>
      simp only [attempted]
      cases g.kind r with
      | silent => exact ih _ _ _ _ _
      | _ => exact Nat.max_le.2 ⟨ih _ _ _ _ _, own _ _⟩
    | seq a b => refine two _ _ ?_; split <;> first | exact ih _ _ _ _ _ | exact Nat.zero_le _
    | alt a b => refine two _ _ ?_; split <;> first | exact ih _ _ _ _ _ | exact Nat.zero_le _
    | star a => refine two _ _ ?_; split <;> first | exact ih _ _ _ _ _ | exact Nat.zero_le _
    | opt a => exact ih _ _ _ _ _
    | and a => exact ih _ _ _ _ _
    | not a => exact ih _ _ _ _ _
    | push a => exact ih _ _ _ _ _
    | _ => exact Nat.zero_le _

/-! ## lower bounds -/

/-- A rule that counts is tried at the position or after it, outside of lookaheads and atomic rules. -/
def Tried (g : Grammar R) (N : Nat) (e : Expr R) (s : Str) (k : List Str) (p : Nat) : Prop := ∃ n, p ≤ attempted g N n .none false e s k

namespace Tried

variable {e a b : Expr R} {s s₁ r : Str} {k k₁ k' : List Str} {p : Nat}

theorem fails {q : R} (h : No g (.rule q) s k) (hk : g.kind q ≠ .silent) : Tried g N (.rule q) s k (N - s.length) := by
  obtain ⟨n, h⟩ := no_rule.1 h
  refine ⟨n + 1, ?_⟩
  simp only [attempted]
  cases hq : g.kind q with
  | silent => exact absurd hq hk
  | _ => simp [h, counts, Nat.le_max_right]

theorem eoi {q : R} (h : s ≠ []) : Tried g N (.eoi q) s k (N - s.length) := by
  refine ⟨1, ?_⟩
  cases s with
  | nil => exact absurd rfl h
  | cons c s => simp [attempted, eval, counts]

theorem rule {q : R} (h : Tried g N (g.body q) s k p) (hk : g.kind q ≠ .atomic) : Tried g N (.rule q) s k p := by
  obtain ⟨n, h⟩ := h
  refine ⟨n + 1, ?_⟩
  simp only [attempted]
  cases hq : g.kind q with
  | silent => exact h
  | normal => exact Nat.le_trans h (Nat.le_max_left _ _)
  | atomic => exact absurd hq hk

theorem seqL (h : Tried g N a s k p) : Tried g N (.seq a b) s k p := by
  obtain ⟨n, h⟩ := h
  exact ⟨n + 1, by simp only [attempted]; omega⟩

theorem seqR {ts} (ha : Yes g a s k ts s₁ k₁) (h : Tried g N b s₁ k₁ p) : Tried g N (.seq a b) s k p := by
  obtain ⟨n, h⟩ := h
  obtain ⟨m, ha⟩ := ha
  refine ⟨max n m + 1, ?_⟩
  have h1 := eval_mono (g := g) (Nat.le_max_right n m) (by rw [ha]; simp)
  have h2 := attempted_mono (g := g) (N := N) (Nat.le_max_left n m) .none false b s₁ k₁
  simp only [attempted, h1, ha]
  omega

theorem starL (h : Tried g N a s k p) : Tried g N (.star a) s k p := by
  obtain ⟨n, h⟩ := h
  exact ⟨n + 1, by simp only [attempted]; omega⟩

theorem starR {ts} (ha : Yes g a s k ts s₁ k₁) (h : Tried g N (.star a) s₁ k₁ p) : Tried g N (.star a) s k p := by
  obtain ⟨n, h⟩ := h
  obtain ⟨m, ha⟩ := ha
  refine ⟨max n m + 1, ?_⟩
  have h1 := eval_mono (g := g) (Nat.le_max_right n m) (by rw [ha]; simp)
  have h2 := attempted_mono (g := g) (N := N) (Nat.le_max_left n m) .none false (.star a) s₁ k₁
  simp only [attempted, h1, ha]
  omega

end Tried

/-! ## upper bounds -/

/-- No rule that counts is tried after the position. -/
def AtMost (g : Grammar R) (N : Nat) (look : Look) (atomic : Bool) (e : Expr R) (s : Str) (k : List Str) (p : Nat) : Prop :=
  ∀ n, attempted g N n look atomic e s k ≤ p

/-- An expression without rules. -/
def quiet : Expr R → Bool
  | .rule _ | .eoi _ => false
  | .seq a b | .alt a b => quiet a && quiet b
  | .opt a | .star a | .and a | .not a | .push a => quiet a
  | _ => true

namespace AtMost

variable {e a b : Expr R} {s s₁ r : Str} {k k₁ k' : List Str} {p : Nat} {look : Look} {atomic : Bool}

theorem quiet (h : quiet e = true) : AtMost g N look atomic e s k p := by
  intro n
  suffices attempted g N n look atomic e s k = 0 by omega
  induction n generalizing look atomic e s k with
  | zero => rfl
  | succ n ih =>
    cases e with
    | rule r => simp [Peg.quiet] at h
    | eoi r => simp [Peg.quiet] at h
    | seq a b =>
      simp only [Peg.quiet, Bool.and_eq_true] at h
      simp only [attempted, ih h.1]
      split <;> simp [ih h.2]
    | alt a b =>
      simp only [Peg.quiet, Bool.and_eq_true] at h
      simp only [attempted, ih h.1]
      split <;> simp [ih h.2]
    | star a =>
      have ha : Peg.quiet a = true := h
      simp only [attempted, ih ha]
      split <;> simp [ih (e := .star a) h]
    | opt a => exact ih (e := a) h
    | and a => exact ih (e := a) h
    | not a => exact ih (e := a) h
    | push a => exact ih (e := a) h
    | _ => rfl

theorem silent {q : R} (hk : g.kind q = .silent) (h : AtMost g N look atomic (g.body q) s k p) : AtMost g N look atomic (.rule q) s k p := by
  intro n
  cases n with
  | zero => exact Nat.zero_le _
  | succ n => simp only [attempted, hk]; exact h n

theorem rule {q : R} (h : AtMost g N look (atomic || g.kind q == .atomic) (g.body q) s k p) (hp : N - s.length ≤ p) :
    AtMost g N look atomic (.rule q) s k p := by
  intro n
  cases n with
  | zero => exact Nat.zero_le _
  | succ n =>
    have h1 := h n
    simp only [attempted]
    cases hq : g.kind q with
    | silent => rw [hq, show (Kind.silent == Kind.atomic) = false from rfl, Bool.or_false] at h1; exact h1
    | _ => rw [hq] at h1; refine Nat.max_le.2 ⟨by simpa using h1, ?_⟩; split <;> omega

theorem ruleYes {q : R} {ts} (hy : Yes g (.rule q) s k ts s₁ k₁) (hl : look ≠ .negative)
    (h : AtMost g N look (atomic || g.kind q == .atomic) (g.body q) s k p) : AtMost g N look atomic (.rule q) s k p := by
  intro n
  cases n with
  | zero => exact Nat.zero_le _
  | succ n =>
    have h1 := h n
    simp only [attempted]
    obtain ⟨us, ⟨m, hu⟩, -⟩ := yes_rule.1 hy
    have hc : counts look (eval g n (g.body q) s k) = false := by
      by_cases ho : eval g n (g.body q) s k = .oof
      · rw [ho]; rfl
      · rw [ev_unique rfl hu ho (by simp)]
        cases look <;> simp [counts] at hl ⊢
    cases hq : g.kind q with
    | silent => rw [hq, show (Kind.silent == Kind.atomic) = false from rfl, Bool.or_false] at h1; exact h1
    | _ => rw [hq] at h1; simpa [hc] using h1

theorem seq (h : AtMost g N look atomic a s k p) (h' : ∀ ts s₁ k₁, Yes g a s k ts s₁ k₁ → AtMost g N look atomic b s₁ k₁ p) :
    AtMost g N look atomic (.seq a b) s k p := by
  intro n
  cases n with
  | zero => exact Nat.zero_le _
  | succ n =>
    refine Nat.max_le.2 ⟨h n, ?_⟩
    split
    · next ts r k' he => exact h' _ _ _ ⟨n, he⟩ n
    · exact Nat.zero_le _

theorem star (h : AtMost g N look atomic a s k p) (h' : ∀ ts s₁ k₁, Yes g a s k ts s₁ k₁ → AtMost g N look atomic (.star a) s₁ k₁ p) :
    AtMost g N look atomic (.star a) s k p := by
  intro n
  cases n with
  | zero => exact Nat.zero_le _
  | succ n =>
    refine Nat.max_le.2 ⟨h n, ?_⟩
    split
    · next ts r k' he => exact h' _ _ _ ⟨n, he⟩ n
    · exact Nat.zero_le _

theorem seqYes {ts} (h : AtMost g N look atomic a s k p) (ha : Yes g a s k ts s₁ k₁) (h' : AtMost g N look atomic b s₁ k₁ p) :
    AtMost g N look atomic (.seq a b) s k p := by
  refine .seq h fun _ _ _ hy => ?_
  obtain ⟨-, rfl, rfl⟩ := ha.unique hy
  exact h'

theorem starYes {ts} (h : AtMost g N look atomic a s k p) (ha : Yes g a s k ts s₁ k₁) (h' : AtMost g N look atomic (.star a) s₁ k₁ p) :
    AtMost g N look atomic (.star a) s k p := by
  refine .star h fun _ _ _ hy => ?_
  obtain ⟨-, rfl, rfl⟩ := ha.unique hy
  exact h'

theorem seqNo (h : AtMost g N look atomic a s k p) (ha : No g a s k) : AtMost g N look atomic (.seq a b) s k p :=
  .seq h fun _ _ _ hy => (hy.not_no ha).elim

theorem starNo (h : AtMost g N look atomic a s k p) (ha : No g a s k) : AtMost g N look atomic (.star a) s k p :=
  .star h fun _ _ _ hy => (hy.not_no ha).elim

end AtMost

end YamlSubset.Peg
