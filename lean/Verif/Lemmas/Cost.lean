import Verif.Model.Cost
import Verif.Props.Termination

/-! # Lemmas on the number of steps -/

namespace YamlSubset.Peg

variable {R : Type} {g : Grammar R}

theorem steps_mono {n m : Nat} (h : n ≤ m) (e : Expr R) (s : Str) (k : List Str) : steps g n e s k ≤ steps g m e s k := by
  induction n generalizing m e s k with
  | zero => exact Nat.zero_le _
  | succ n ih =>
    obtain ⟨m, rfl⟩ : ∃ m', m = m' + 1 := ⟨m - 1, by omega⟩
    have h : n ≤ m := by omega
    have two : ∀ a b, (match eval g n a s k with | .ok _ rest stk' => steps g n b rest stk' | _ => 0) ≤
        (match eval g m a s k with | .ok _ rest stk' => steps g m b rest stk' | _ => 0) := by
      intro a b
      by_cases ho : eval g n a s k = .oof
      · rw [ho]; exact Nat.zero_le _
      · rw [eval_mono h ho]
        split
        · exact ih h _ _ _
        · exact Nat.le_refl _
    have two' : ∀ a b, (match eval g n a s k with | .fail => steps g n b s k | _ => 0) ≤
        (match eval g m a s k with | .fail => steps g m b s k | _ => 0) := by
      intro a b
      by_cases ho : eval g n a s k = .oof
      · rw [ho]; exact Nat.zero_le _
      · rw [eval_mono h ho]
        split
        · exact ih h _ _ _
        · exact Nat.le_refl _
    cases e with
    | rule r => exact Nat.add_le_add_right (ih h _ _ _) 1
    | seq a b => exact Nat.add_le_add_right (Nat.add_le_add (ih h _ _ _) (two a b)) 1
    | alt a b => exact Nat.add_le_add_right (Nat.add_le_add (ih h _ _ _) (two' a b)) 1
    | star a => exact Nat.add_le_add_right (Nat.add_le_add (ih h _ _ _) (two a (.star a))) 1
    | opt a => exact Nat.add_le_add_right (ih h _ _ _) 1
    | and a => exact Nat.add_le_add_right (ih h _ _ _) 1
    | not a => exact Nat.add_le_add_right (ih h _ _ _) 1
    | push a => exact Nat.add_le_add_right (ih h _ _ _) 1
    | _ => exact Nat.le_refl _

/-- With more fuel than needed the number of steps does not change. -/
theorem steps_stable {n m : Nat} (h : n ≤ m) (e : Expr R) (s : Str) (k : List Str) (ho : eval g n e s k ≠ .oof) :
    steps g m e s k = steps g n e s k := by
  induction n generalizing m e s k with
  | zero => exact absurd rfl ho
  | succ n ih =>
    obtain ⟨m, rfl⟩ : ∃ m', m = m' + 1 := ⟨m - 1, by omega⟩
    have h : n ≤ m := by omega
    cases e with
    | rule r =>
      have h1 : eval g n (g.body r) s k ≠ .oof := by intro hh; exact ho (by simp only [eval, hh])
      exact congrArg (· + 1) (ih h _ _ _ h1)
    | seq a b =>
      have h1 : eval g n a s k ≠ .oof := by intro hh; exact ho (by simp only [eval, hh])
      simp only [steps, ih h _ _ _ h1, eval_mono h h1]
      cases ha : eval g n a s k with
      | ok ts r k' =>
        have h2 : eval g n b r k' ≠ .oof := by intro hh; exact ho (by simp only [eval, ha, hh])
        simp only [ih h _ _ _ h2]
      | _ => rfl
    | alt a b =>
      have h1 : eval g n a s k ≠ .oof := by intro hh; exact ho (by simp only [eval, hh])
      simp only [steps, ih h _ _ _ h1, eval_mono h h1]
      cases ha : eval g n a s k with
      | fail =>
        have h2 : eval g n b s k ≠ .oof := by intro hh; exact ho (by simp only [eval, ha, hh])
        simp only [ih h _ _ _ h2]
      | _ => rfl
    | star a =>
      have h1 : eval g n a s k ≠ .oof := by intro hh; exact ho (by simp only [eval, hh])
      simp only [steps, ih h _ _ _ h1, eval_mono h h1]
      cases ha : eval g n a s k with
      | ok ts r k' =>
        have h2 : eval g n (.star a) r k' ≠ .oof := by intro hh; exact ho (by simp only [eval, ha, hh])
        simp only [ih h _ _ _ h2]
      | _ => rfl
    | opt a =>
      have h1 : eval g n a s k ≠ .oof := by intro hh; exact ho (by simp only [eval, hh])
      exact congrArg (· + 1) (ih h _ _ _ h1)
    | and a =>
      have h1 : eval g n a s k ≠ .oof := by intro hh; exact ho (by simp only [eval, hh])
      exact congrArg (· + 1) (ih h _ _ _ h1)
    | not a =>
      have h1 : eval g n a s k ≠ .oof := by intro hh; exact ho (by simp only [eval, hh])
      exact congrArg (· + 1) (ih h _ _ _ h1)
    | push a =>
      have h1 : eval g n a s k ≠ .oof := by intro hh; exact ho (by simp only [eval, hh])
      exact congrArg (· + 1) (ih h _ _ _ h1)
    | _ => rfl

/-- Every expression starts at most two others one level deeper. -/
theorem steps_lt (n : Nat) (e : Expr R) (s : Str) (k : List Str) : steps g n e s k < 2 ^ n := by
  induction n generalizing e s k with
  | zero => exact Nat.one_pos
  | succ n ih =>
    have h0 : 0 < 2 ^ n := Nat.two_pow_pos n
    have hp : 2 ^ (n + 1) = 2 ^ n + 2 ^ n := by omega
    have one : ∀ a, steps g n a s k + 1 < 2 ^ (n + 1) := fun a => by have := ih a s k; omega
    have two : ∀ a (x : Nat), x < 2 ^ n → steps g n a s k + x + 1 < 2 ^ (n + 1) := fun a x hx => by have := ih a s k; omega
    cases e with
    | rule r => exact one _
    | seq a b => refine two _ _ ?_; split <;> first | exact ih _ _ _ | exact h0
    | alt a b => refine two _ _ ?_; split <;> first | exact ih _ _ _ | exact h0
    | star a => refine two _ _ ?_; split <;> first | exact ih _ _ _ | exact h0
    | opt a => exact one _
    | and a => exact one _
    | not a => exact one _
    | push a => exact one _
    | _ => show 1 < _; omega

/-- Running the expression takes at least so many steps. -/
def AtLeast (g : Grammar R) (e : Expr R) (s : Str) (k : List Str) (c : Nat) : Prop := ∃ n, c ≤ steps g n e s k

namespace AtLeast

variable {e a b : Expr R} {s s₁ r : Str} {k k₁ k' : List Str} {c d : Nat}

theorem one (g : Grammar R) (e : Expr R) (s : Str) (k : List Str) : AtLeast g e s k 1 := by
  refine ⟨1, ?_⟩
  cases e <;> simp [steps]

theorem rule {q : R} (h : AtLeast g (g.body q) s k c) : AtLeast g (.rule q) s k c := by
  obtain ⟨n, h⟩ := h
  exact ⟨n + 1, Nat.le_succ_of_le h⟩

theorem seqL (h : AtLeast g a s k c) : AtLeast g (.seq a b) s k c := by
  obtain ⟨n, h⟩ := h
  exact ⟨n + 1, by simp only [steps]; omega⟩

theorem seqR {ts} (ha : Yes g a s k ts s₁ k₁) (h : AtLeast g b s₁ k₁ c) : AtLeast g (.seq a b) s k c := by
  obtain ⟨n, h⟩ := h
  obtain ⟨m, ha⟩ := ha
  refine ⟨max n m + 1, ?_⟩
  have h1 := eval_mono (g := g) (Nat.le_max_right n m) (by rw [ha]; simp)
  have h2 := steps_mono (g := g) (Nat.le_max_left n m) b s₁ k₁
  simp only [steps, h1, ha]
  omega

theorem altL (h : AtLeast g a s k c) : AtLeast g (.alt a b) s k c := by
  obtain ⟨n, h⟩ := h
  exact ⟨n + 1, by simp only [steps]; omega⟩

theorem alt (hn : No g a s k) (h : AtLeast g a s k c) (h' : AtLeast g b s k d) : AtLeast g (.alt a b) s k (c + d) := by
  obtain ⟨n, h⟩ := h
  obtain ⟨n', h'⟩ := h'
  obtain ⟨m, hn⟩ := hn
  have h1 := eval_mono (g := g) (m := max (max n n') m) (Nat.le_max_right _ m) (by rw [hn]; simp)
  have h2 := steps_mono (g := g) (m := max (max n n') m) (n := n) (by omega) a s k
  have h3 := steps_mono (g := g) (m := max (max n n') m) (n := n') (by omega) b s k
  refine ⟨max (max n n') m + 1, ?_⟩
  simp only [steps, h1, hn]
  omega

theorem altR (hn : No g a s k) (h : AtLeast g b s k c) : AtLeast g (.alt a b) s k c := by
  obtain ⟨n, h⟩ := alt hn (one g a s k) h
  exact ⟨n, by omega⟩

end AtLeast

theorem max_le_max {a b c d : Nat} (h : a ≤ b) (h' : c ≤ d) : max a c ≤ max b d := by omega

theorem depth_mono {n m : Nat} (h : n ≤ m) (e : Expr R) (s : Str) (k : List Str) : depth g n e s k ≤ depth g m e s k := by
  induction n generalizing m e s k with
  | zero => exact Nat.zero_le _
  | succ n ih =>
    obtain ⟨m, rfl⟩ : ∃ m', m = m' + 1 := ⟨m - 1, by omega⟩
    have h : n ≤ m := by omega
    have two : ∀ a b, (match eval g n a s k with | .ok _ rest stk' => depth g n b rest stk' | _ => 0) ≤
        (match eval g m a s k with | .ok _ rest stk' => depth g m b rest stk' | _ => 0) := by
      intro a b
      by_cases ho : eval g n a s k = .oof
      · rw [ho]; exact Nat.zero_le _
      · rw [eval_mono h ho]
        split
        · exact ih h _ _ _
        · exact Nat.le_refl _
    have two' : ∀ a b, (match eval g n a s k with | .fail => depth g n b s k | _ => 0) ≤
        (match eval g m a s k with | .fail => depth g m b s k | _ => 0) := by
      intro a b
      by_cases ho : eval g n a s k = .oof
      · rw [ho]; exact Nat.zero_le _
      · rw [eval_mono h ho]
        split
        · exact ih h _ _ _
        · exact Nat.le_refl _
    cases e with
    | rule r => exact Nat.add_le_add_right (ih h _ _ _) 1
    | seq a b => exact max_le_max (ih h _ _ _) (two a b)
    | alt a b => exact max_le_max (ih h _ _ _) (two' a b)
    | star a => exact max_le_max (ih h _ _ _) (two a (.star a))
    | opt a => exact ih h _ _ _
    | and a => exact ih h _ _ _
    | not a => exact ih h _ _ _
    | push a => exact ih h _ _ _
    | _ => exact Nat.le_refl _

/-- With more fuel than needed the depth does not change. -/
theorem depth_stable {n m : Nat} (h : n ≤ m) (e : Expr R) (s : Str) (k : List Str) (ho : eval g n e s k ≠ .oof) :
    depth g m e s k = depth g n e s k := by
  induction n generalizing m e s k with
  | zero => exact absurd rfl ho
  | succ n ih =>
    obtain ⟨m, rfl⟩ : ∃ m', m = m' + 1 := ⟨m - 1, by omega⟩
    have h : n ≤ m := by omega
    cases e with
    | rule r =>
      have h1 : eval g n (g.body r) s k ≠ .oof := by intro hh; exact ho (by simp only [eval, hh])
      exact congrArg (· + 1) (ih h _ _ _ h1)
    | seq a b =>
      have h1 : eval g n a s k ≠ .oof := by intro hh; exact ho (by simp only [eval, hh])
      simp only [depth, ih h _ _ _ h1, eval_mono h h1]
      cases ha : eval g n a s k with
      | ok ts r k' =>
        have h2 : eval g n b r k' ≠ .oof := by intro hh; exact ho (by simp only [eval, ha, hh])
        simp only [ih h _ _ _ h2]
      | _ => rfl
    | alt a b =>
      have h1 : eval g n a s k ≠ .oof := by intro hh; exact ho (by simp only [eval, hh])
      simp only [depth, ih h _ _ _ h1, eval_mono h h1]
      cases ha : eval g n a s k with
      | fail =>
        have h2 : eval g n b s k ≠ .oof := by intro hh; exact ho (by simp only [eval, ha, hh])
        simp only [ih h _ _ _ h2]
      | _ => rfl
    | star a =>
      have h1 : eval g n a s k ≠ .oof := by intro hh; exact ho (by simp only [eval, hh])
      simp only [depth, ih h _ _ _ h1, eval_mono h h1]
      cases ha : eval g n a s k with
      | ok ts r k' =>
        have h2 : eval g n (.star a) r k' ≠ .oof := by intro hh; exact ho (by simp only [eval, ha, hh])
        simp only [ih h _ _ _ h2]
      | _ => rfl
    | opt a =>
      have h1 : eval g n a s k ≠ .oof := by intro hh; exact ho (by simp only [eval, hh])
      exact ih h _ _ _ h1
    | and a =>
      have h1 : eval g n a s k ≠ .oof := by intro hh; exact ho (by simp only [eval, hh])
      exact ih h _ _ _ h1
    | not a =>
      have h1 : eval g n a s k ≠ .oof := by intro hh; exact ho (by simp only [eval, hh])
      exact ih h _ _ _ h1
    | push a =>
      have h1 : eval g n a s k ≠ .oof := by intro hh; exact ho (by simp only [eval, hh])
      exact ih h _ _ _ h1
    | _ => rfl

theorem depth_le (n : Nat) (e : Expr R) (s : Str) (k : List Str) : depth g n e s k ≤ n := by
  induction n generalizing e s k with
  | zero => exact Nat.le_refl 0
  | succ n ih =>
    have one : ∀ a, depth g n a s k ≤ n + 1 := fun a => by have := ih a s k; omega
    have two : ∀ a (x : Nat), x ≤ n → max (depth g n a s k) x ≤ n + 1 := fun a x hx => by have := ih a s k; omega
    cases e with
    | rule r => exact Nat.succ_le_succ (ih _ _ _)
    | seq a b => refine two _ _ ?_; split <;> first | exact ih _ _ _ | exact Nat.zero_le _
    | alt a b => refine two _ _ ?_; split <;> first | exact ih _ _ _ | exact Nat.zero_le _
    | star a => refine two _ _ ?_; split <;> first | exact ih _ _ _ | exact Nat.zero_le _
    | opt a => exact one _
    | and a => exact one _
    | not a => exact one _
    | push a => exact one _
    | _ => exact Nat.zero_le _

/-- Running the expression has at least so many rules running at the same time. -/
def Deep (g : Grammar R) (e : Expr R) (s : Str) (k : List Str) (c : Nat) : Prop := ∃ n, c ≤ depth g n e s k

namespace Deep

variable {e a b : Expr R} {s s₁ r : Str} {k k₁ k' : List Str} {c d : Nat}

theorem zero (g : Grammar R) (e : Expr R) (s : Str) (k : List Str) : Deep g e s k 0 := ⟨0, Nat.le_refl _⟩

theorem rule {q : R} (h : Deep g (g.body q) s k c) : Deep g (.rule q) s k (c + 1) := by
  obtain ⟨n, h⟩ := h
  exact ⟨n + 1, Nat.succ_le_succ h⟩

theorem less (h : Deep g e s k c) (hd : d ≤ c) : Deep g e s k d := by
  obtain ⟨n, h⟩ := h
  exact ⟨n, by omega⟩

theorem opt (h : Deep g a s k c) : Deep g (.opt a) s k c := by
  obtain ⟨n, h⟩ := h
  exact ⟨n + 1, h⟩

theorem seqL (h : Deep g a s k c) : Deep g (.seq a b) s k c := by
  obtain ⟨n, h⟩ := h
  exact ⟨n + 1, by simp only [depth]; omega⟩

theorem seqR {ts} (ha : Yes g a s k ts s₁ k₁) (h : Deep g b s₁ k₁ c) : Deep g (.seq a b) s k c := by
  obtain ⟨n, h⟩ := h
  obtain ⟨m, ha⟩ := ha
  refine ⟨max n m + 1, ?_⟩
  have h1 := eval_mono (g := g) (Nat.le_max_right n m) (by rw [ha]; simp)
  have h2 := depth_mono (g := g) (Nat.le_max_left n m) b s₁ k₁
  simp only [depth, h1, ha]
  omega

theorem altL (h : Deep g a s k c) : Deep g (.alt a b) s k c := by
  obtain ⟨n, h⟩ := h
  exact ⟨n + 1, by simp only [depth]; omega⟩

theorem altR (hn : No g a s k) (h : Deep g b s k c) : Deep g (.alt a b) s k c := by
  obtain ⟨n, h⟩ := h
  obtain ⟨m, hn⟩ := hn
  have h1 := eval_mono (g := g) (Nat.le_max_right n m) (by rw [hn]; simp)
  have h2 := depth_mono (g := g) (Nat.le_max_left n m) b s k
  refine ⟨max n m + 1, ?_⟩
  simp only [depth, h1, hn]
  omega

end Deep

end YamlSubset.Peg

namespace YamlSubset

open Peg

theorem parseDepth_ge {T : CharTables} {s : Str} {c : Nat} (h : Deep (yamlGrammar T) (.rule .yaml) s [] c) : c ≤ parseDepth T s := by
  obtain ⟨n, h⟩ := h
  have h1 := depth_mono (g := yamlGrammar T) (Nat.le_max_left n (yamlFuel s)) (.rule .yaml) s []
  have h2 := depth_stable (g := yamlGrammar T) (Nat.le_max_right n (yamlFuel s)) (.rule .yaml) s [] (yaml_eval_ne_oof T s)
  unfold parseDepth
  omega

theorem parseDepth_le (T : CharTables) (s : Str) : parseDepth T s ≤ 40 * (s.length + 1) := by
  have h := yaml_rule_terminates T .yaml s [] _ (Nat.le_refl _)
  unfold parseDepth
  rw [depth_stable (n := 40 * (s.length + 1)) (by unfold yamlFuel; omega) _ _ _ h]
  exact depth_le _ _ _ _

theorem parseSteps_ge {T : CharTables} {s : Str} {c : Nat} (h : AtLeast (yamlGrammar T) (.rule .yaml) s [] c) : c ≤ parseSteps T s := by
  obtain ⟨n, h⟩ := h
  have h1 := steps_mono (g := yamlGrammar T) (Nat.le_max_left n (yamlFuel s)) (.rule .yaml) s []
  have h2 := steps_stable (g := yamlGrammar T) (Nat.le_max_right n (yamlFuel s)) (.rule .yaml) s [] (yaml_eval_ne_oof T s)
  unfold parseSteps
  omega

theorem parseSteps_lt (T : CharTables) (s : Str) : parseSteps T s < 2 ^ (40 * (s.length + 1)) := by
  have h := yaml_rule_terminates T .yaml s [] _ (Nat.le_refl _)
  unfold parseSteps
  rw [steps_stable (n := 40 * (s.length + 1)) (by unfold yamlFuel; omega) _ _ _ h]
  exact steps_lt _ _ _ _

end YamlSubset
