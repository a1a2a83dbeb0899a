import Verif.Lemmas.Peg

/-! # The shape of parse trees -/

namespace YamlSubset.Peg

variable {R : Type} {g : Grammar R}

/-- The rule of a node. -/
def Tree.root : Tree R → R
  | .node r _ _ => r

/-- Children kept for a rule of a given kind. -/
def keptKids (k : Kind) (us : List (Tree R)) : List (Tree R) :=
  match k with
  | .atomic => []
  | _ => us

/-- The end-of-input rules in an expression. -/
def eoiRules : Expr R → List R
  | .eoi q => [q]
  | .seq a b => eoiRules a ++ eoiRules b
  | .alt a b => eoiRules a ++ eoiRules b
  | .opt a => eoiRules a
  | .star a => eoiRules a
  | .push a => eoiRules a
  | _ => []

/-- The expressions in an expression whose text is pushed onto the stack. -/
def pushed : Expr R → List (Expr R)
  | .seq a b => pushed a ++ pushed b
  | .alt a b => pushed a ++ pushed b
  | .opt a => pushed a
  | .star a => pushed a
  | .push a => a :: pushed a
  | _ => []

/-- Every text that `a` matches satisfies `I`. -/
def Matches (g : Grammar R) (I : Str → Prop) (a : Expr R) : Prop :=
  ∀ s k ts r k', Yes g a s k ts r k' → I (consumed s r)

/-- The top entries of the stack; where the flag is set the entry satisfies `I`. -/
def Typed (I : Str → Prop) : List Bool → List Str → Prop
  | [], _ => True
  | b :: st, t :: k => (b = true → I t) ∧ Typed I st k
  | _ :: _, [] => False

theorem typed_append {I : Str → Prop} {a b : List Bool} {k : List Str} :
    Typed I (a ++ b) k ↔ Typed I a k ∧ Typed I b (k.drop a.length) := by
  induction a generalizing k with
  | nil => simp [Typed]
  | cons x a ih =>
    cases k with
    | nil => simp [Typed]
    | cons t k => simp [Typed, ih, and_assoc]

/-- Static check of the stack: what is known about its top entries before and after an expression matches. `known` tells of which
pushed expressions the texts satisfy the invariant; `req` how many entries each rule needs to satisfy it. -/
def tyCheck (req : R → Nat) (known : Expr R → Bool) : Expr R → List Bool → Option (List Bool)
  | .rule q, st => if st = List.replicate (req q) true ++ st.drop (req q) then some st else none
  | .seq a b, st => (tyCheck req known a st).bind (tyCheck req known b)
  | .alt a b, st => (tyCheck req known a st).bind fun x => (tyCheck req known b st).bind fun y => if x = y then some x else none
  | .opt a, st => (tyCheck req known a st).bind fun x => if x = st then some st else none
  | .star a, st => (tyCheck req known a st).bind fun x => if x = st then some st else none
  | .push a, st => (tyCheck req known a st).bind fun x => some (known a :: x)
  | .pop, _ :: st => some st
  | .pop, [] => none
  | .drop, _ :: st => some st
  | .drop, [] => none
  | _, st => some st

/-- What `tyCheck` computes is true, and the entries below are not touched. -/
theorem Yes.stack {I : Str → Prop} {req : R → Nat} {known : Expr R → Bool}
    (hK : ∀ r a, a ∈ pushed (g.body r) → known a = true → Matches g I a)
    (hR : ∀ r, tyCheck req known (g.body r) (List.replicate (req r) true) = some (List.replicate (req r) true))
    {e : Expr R} {s k ts r k'} {st st' : List Bool}
    (he : ∀ a, a ∈ pushed e → known a = true → Matches g I a) (hc : tyCheck req known e st = some st')
    (h : Yes g e s k ts r k') (hk : Typed I st k) : Typed I st' k' ∧ k'.drop st'.length = k.drop st.length := by
  obtain ⟨n, h⟩ := h
  induction n generalizing e s k ts r k' st st' with
  | zero => cases h
  | succ n ih =>
    have hy : Yes g e s k ts r k' := ⟨n + 1, h⟩
    cases e with
    | str t => obtain ⟨-, rfl, -⟩ := yes_str.1 hy; cases hc; exact ⟨hk, rfl⟩
    | cls p => obtain ⟨c, -, -, -, rfl⟩ := yes_cls.1 hy; cases hc; exact ⟨hk, rfl⟩
    | soi => obtain ⟨-, -, rfl⟩ := yes_soi.1 hy; cases hc; exact ⟨hk, rfl⟩
    | eoi q => obtain ⟨-, -, -, rfl⟩ := yes_eoi.1 hy; cases hc; exact ⟨hk, rfl⟩
    | rule q =>
      simp only [tyCheck] at hc
      split at hc
      · rename_i hst
        cases hc
        simp only [eval] at h
        split at h
        · rename_i us rest stk heq
          simp only [Res.ok.injEq] at h
          obtain ⟨rfl, rfl, rfl⟩ := h
          rw [hst] at hk
          obtain ⟨h1, h2⟩ := typed_append.1 hk
          obtain ⟨h3, h4⟩ := ih (hK q) (hR q) h1 heq
          rw [← h4] at h2
          refine ⟨by rw [hst]; exact typed_append.2 ⟨h3, h2⟩, ?_⟩
          rw [hst, List.length_append, ← List.drop_drop, ← List.drop_drop, h4]
        · rename_i hne; exact absurd h (hne _ _ _)
      · cases hc
    | seq a b =>
      simp only [tyCheck, Option.bind_eq_some_iff] at hc
      obtain ⟨x, hx, hc⟩ := hc
      simp only [eval] at h
      cases ha : eval g n a s k with
      | ok ts₁ s₁ k₁ =>
        rw [ha] at h
        simp only at h
        cases hb : eval g n b s₁ k₁ with
        | ok ts₂ s₂ k₂ =>
          rw [hb] at h
          simp only [Res.ok.injEq] at h
          obtain ⟨rfl, rfl, rfl⟩ := h
          obtain ⟨h1, h2⟩ := ih (fun q hq => he q (by simp [pushed, hq])) hx hk ha
          obtain ⟨h3, h4⟩ := ih (fun q hq => he q (by simp [pushed, hq])) hc h1 hb
          exact ⟨h3, h4.trans h2⟩
        | _ => rw [hb] at h; cases h
      | _ => rw [ha] at h; cases h
    | alt a b =>
      simp only [tyCheck, Option.bind_eq_some_iff] at hc
      obtain ⟨x, hx, y, hy', hc⟩ := hc
      split at hc
      · rename_i hxy
        cases hc
        subst hxy
        simp only [eval] at h
        cases ha : eval g n a s k with
        | fail => rw [ha] at h; exact ih (fun q hq => he q (by simp [pushed, hq])) hy' hk h
        | ok ts₁ s₁ k₁ => rw [ha] at h; exact ih (fun q hq => he q (by simp [pushed, hq])) hx hk (ha.trans h)
        | _ => rw [ha] at h; cases h
      · cases hc
    | opt a =>
      simp only [tyCheck, Option.bind_eq_some_iff] at hc
      obtain ⟨x, hx, hc⟩ := hc
      split at hc
      · rename_i hxy
        cases hc
        subst hxy
        simp only [eval] at h
        cases ha : eval g n a s k with
        | fail => rw [ha] at h; simp only [Res.ok.injEq] at h; rw [← h.2.2]; exact ⟨hk, rfl⟩
        | ok ts₁ s₁ k₁ => rw [ha] at h; exact ih (fun q hq => he q (by simp [pushed, hq])) hx hk (ha.trans h)
        | _ => rw [ha] at h; cases h
      · cases hc
    | star a =>
      have hc' := hc
      simp only [tyCheck, Option.bind_eq_some_iff] at hc
      obtain ⟨x, hx, hc⟩ := hc
      split at hc
      · rename_i hxy
        cases hc
        subst hxy
        simp only [eval] at h
        cases ha : eval g n a s k with
        | fail => rw [ha] at h; simp only [Res.ok.injEq] at h; rw [← h.2.2]; exact ⟨hk, rfl⟩
        | ok ts₁ s₁ k₁ =>
          rw [ha] at h
          simp only at h
          cases hb : eval g n (.star a) s₁ k₁ with
          | ok ts₂ s₂ k₂ =>
            rw [hb] at h
            simp only [Res.ok.injEq] at h
            obtain ⟨rfl, rfl, rfl⟩ := h
            obtain ⟨h1, h2⟩ := ih (fun q hq => he q (by simp [pushed, hq])) hx hk ha
            obtain ⟨h3, h4⟩ := ih he hc' h1 hb
            exact ⟨h3, h4.trans h2⟩
          | _ => rw [hb] at h; cases h
        | _ => rw [ha] at h; cases h
      · cases hc
    | and a => obtain ⟨-, -, -, rfl⟩ := yes_and.1 hy; cases hc; exact ⟨hk, rfl⟩
    | not a => obtain ⟨-, -, -, rfl⟩ := yes_not.1 hy; cases hc; exact ⟨hk, rfl⟩
    | push a =>
      simp only [tyCheck, Option.bind_eq_some_iff] at hc
      obtain ⟨x, hx, hc⟩ := hc
      cases hc
      simp only [eval] at h
      cases ha : eval g n a s k with
      | ok ts₁ s₁ k₁ =>
        rw [ha] at h
        simp only [Res.ok.injEq] at h
        obtain ⟨rfl, rfl, rfl⟩ := h
        obtain ⟨h1, h2⟩ := ih (fun q hq => he q (by simp [pushed, hq])) hx hk ha
        exact ⟨⟨fun hn => he a (by simp [pushed]) hn _ _ _ _ _ ⟨n, ha⟩, h1⟩, by simpa using h2⟩
      | _ => rw [ha] at h; cases h
    | peek => obtain ⟨t, l, -, -, rfl, -⟩ := yes_peek.1 hy; cases hc; exact ⟨hk, rfl⟩
    | peek2 => obtain ⟨t, u, l, -, -, rfl, -⟩ := yes_peek2.1 hy; cases hc; exact ⟨hk, rfl⟩
    | pop =>
      obtain ⟨t, rfl, -⟩ := yes_pop.1 hy
      cases st with
      | nil => cases hc
      | cons b st => cases hc; exact ⟨hk.2, by simp⟩
    | drop =>
      obtain ⟨⟨t, rfl⟩, -⟩ := yes_drop.1 hy
      cases st with
      | nil => cases hc
      | cons b st => cases hc; exact ⟨hk.2, by simp⟩

/-- A tree produced from some part of the input `inp`, with stacks as `J` says. -/
inductive Derived (g : Grammar R) (J : R → List Str → Prop) (inp : Str) : Tree R → Prop
  | node {r : R} {pre s rest : Str} {k k' : List Str} {us : List (Tree R)} (hs : inp = pre ++ s) (hi : J r k)
      (h : Yes g (g.body r) s k us rest k') (hk : ∀ t ∈ keptKids (g.kind r) us, Derived g J inp t) :
      Derived g J inp (.node r (consumed s rest) (keptKids (g.kind r) us))
  | eoi {r : R} (h : g.body r = .eoi r) : Derived g J inp (.node r [] [])

/-- All nodes produced are derived. -/
theorem Yes.derived {I : Str → Prop} {req : R → Nat} {known : Expr R → Bool}
    (hK : ∀ r a, a ∈ pushed (g.body r) → known a = true → Matches g I a)
    (hR : ∀ r, tyCheck req known (g.body r) (List.replicate (req r) true) = some (List.replicate (req r) true))
    (hE : ∀ r q, q ∈ eoiRules (g.body r) → g.body q = .eoi q) {inp : Str} {e : Expr R} {s k ts r k'}
    {st st' : List Bool} (hp : ∀ a, a ∈ pushed e → known a = true → Matches g I a)
    (hc : tyCheck req known e st = some st') (he : ∀ q, q ∈ eoiRules e → g.body q = .eoi q) (h : Yes g e s k ts r k')
    (hs : ∃ pre, inp = pre ++ s) (hi : Typed I st k) : ∀ t ∈ ts, Derived g (fun r k => Typed I (List.replicate (req r) true) k) inp t := by
  obtain ⟨n, h⟩ := h
  induction n generalizing e s k ts r k' st st' with
  | zero => cases h
  | succ n ih =>
    have hy : Yes g e s k ts r k' := ⟨n + 1, h⟩
    have hsuf : ∀ {e s k ts r k'}, eval g n e s k = .ok ts r k' → (∃ pre, inp = pre ++ s) → ∃ pre, inp = pre ++ r := by
      rintro e s k ts r k' h ⟨pre, rfl⟩
      obtain ⟨t, rfl⟩ := Yes.suffix ⟨n, h⟩
      exact ⟨pre ++ t, by simp⟩
    cases e with
    | str t => obtain ⟨rfl, -⟩ := yes_str.1 hy; simp
    | cls p => obtain ⟨c, -, -, rfl, -⟩ := yes_cls.1 hy; simp
    | soi => obtain ⟨rfl, -⟩ := yes_soi.1 hy; simp
    | eoi q =>
      obtain ⟨rfl, rfl, -⟩ := yes_eoi.1 hy
      intro t ht
      simp only [List.mem_singleton] at ht
      subst ht
      exact .eoi (he q (by simp [eoiRules]))
    | rule q =>
      simp only [tyCheck] at hc
      split at hc
      case isFalse => cases hc
      rename_i hst
      rw [hst] at hi
      have hi := (typed_append.1 hi).1
      simp only [eval] at h
      split at h
      · rename_i us rest stk heq
        simp only [Res.ok.injEq] at h
        obtain ⟨rfl, rfl, rfl⟩ := h
        have hk := ih (hK q) (hR q) (hE q) hs hi heq
        obtain ⟨pre, hpre⟩ := hs
        intro t ht
        cases hkind : g.kind q with
        | silent => rw [hkind] at ht; exact hk t ht
        | normal =>
          rw [hkind] at ht
          simp only [wrap, List.mem_singleton] at ht
          subst ht
          have := Derived.node (r := q) (J := fun r k => Typed I (List.replicate (req r) true) k) hpre hi ⟨n, heq⟩ (by rw [hkind]; exact hk)
          rw [hkind] at this
          exact this
        | atomic =>
          rw [hkind] at ht
          simp only [wrap, List.mem_singleton] at ht
          subst ht
          have := Derived.node (r := q) (J := fun r k => Typed I (List.replicate (req r) true) k) hpre hi ⟨n, heq⟩ (by rw [hkind]; simp [keptKids])
          rw [hkind] at this
          exact this
      · rename_i hne; exact absurd h (hne _ _ _)
    | seq a b =>
      simp only [tyCheck, Option.bind_eq_some_iff] at hc
      obtain ⟨x, hx, hc⟩ := hc
      simp only [eval] at h
      cases ha : eval g n a s k with
      | ok ts₁ s₁ k₁ =>
        rw [ha] at h
        simp only at h
        cases hb : eval g n b s₁ k₁ with
        | ok ts₂ s₂ k₂ =>
          rw [hb] at h
          simp only [Res.ok.injEq] at h
          obtain ⟨rfl, rfl, rfl⟩ := h
          intro t ht
          rcases List.mem_append.1 ht with ht | ht
          · exact ih (fun q hq => hp q (by simp [pushed, hq])) hx (fun q hq => he q (by simp [eoiRules, hq])) hs hi ha t ht
          · exact ih (fun q hq => hp q (by simp [pushed, hq])) hc (fun q hq => he q (by simp [eoiRules, hq])) (hsuf ha hs) (Yes.stack hK hR (fun q hq => hp q (by simp [pushed, hq])) hx ⟨n, ha⟩ hi).1 hb t ht
        | _ => rw [hb] at h; cases h
      | _ => rw [ha] at h; cases h
    | alt a b =>
      simp only [tyCheck, Option.bind_eq_some_iff] at hc
      obtain ⟨x, hx, y, hy', hc⟩ := hc
      simp only [eval] at h
      cases ha : eval g n a s k with
      | fail => rw [ha] at h; exact ih (fun q hq => hp q (by simp [pushed, hq])) hy' (fun q hq => he q (by simp [eoiRules, hq])) hs hi h
      | ok ts₁ s₁ k₁ => rw [ha] at h; exact ih (fun q hq => hp q (by simp [pushed, hq])) hx (fun q hq => he q (by simp [eoiRules, hq])) hs hi (ha.trans h)
      | _ => rw [ha] at h; cases h
    | opt a =>
      simp only [tyCheck, Option.bind_eq_some_iff] at hc
      obtain ⟨x, hx, hc⟩ := hc
      simp only [eval] at h
      cases ha : eval g n a s k with
      | fail => rw [ha] at h; simp only [Res.ok.injEq] at h; rw [← h.1]; simp
      | ok ts₁ s₁ k₁ => rw [ha] at h; exact ih (fun q hq => hp q (by simp [pushed, hq])) hx (fun q hq => he q (by simp [eoiRules, hq])) hs hi (ha.trans h)
      | _ => rw [ha] at h; cases h
    | star a =>
      have hc' := hc
      simp only [tyCheck, Option.bind_eq_some_iff] at hc
      obtain ⟨x, hx, hc⟩ := hc
      split at hc
      case isFalse => cases hc
      rename_i hxy
      cases hc
      subst hxy
      simp only [eval] at h
      cases ha : eval g n a s k with
      | fail => rw [ha] at h; simp only [Res.ok.injEq] at h; rw [← h.1]; simp
      | ok ts₁ s₁ k₁ =>
        rw [ha] at h
        simp only at h
        cases hb : eval g n (.star a) s₁ k₁ with
        | ok ts₂ s₂ k₂ =>
          rw [hb] at h
          simp only [Res.ok.injEq] at h
          obtain ⟨rfl, rfl, rfl⟩ := h
          intro t ht
          rcases List.mem_append.1 ht with ht | ht
          · exact ih (fun q hq => hp q (by simp [pushed, hq])) hx (fun q hq => he q (by simp [eoiRules, hq])) hs hi ha t ht
          · exact ih hp hc' he (hsuf ha hs) (Yes.stack hK hR (fun q hq => hp q (by simp [pushed, hq])) hx ⟨n, ha⟩ hi).1 hb t ht
        | _ => rw [hb] at h; cases h
      | _ => rw [ha] at h; cases h
    | and a => obtain ⟨-, rfl, -⟩ := yes_and.1 hy; simp
    | not a => obtain ⟨-, rfl, -⟩ := yes_not.1 hy; simp
    | push a =>
      simp only [tyCheck, Option.bind_eq_some_iff] at hc
      obtain ⟨x, hx, hc⟩ := hc
      simp only [eval] at h
      cases ha : eval g n a s k with
      | ok ts₁ s₁ k₁ =>
        rw [ha] at h
        simp only [Res.ok.injEq] at h
        obtain ⟨rfl, rfl, rfl⟩ := h
        exact ih (fun q hq => hp q (by simp [pushed, hq])) hx (fun q hq => he q (by simp [eoiRules, hq])) hs hi ha
      | _ => rw [ha] at h; cases h
    | peek => obtain ⟨t, l, -, rfl, -⟩ := yes_peek.1 hy; simp
    | peek2 => obtain ⟨t, u, l, -, rfl, -⟩ := yes_peek2.1 hy; simp
    | pop => obtain ⟨t, -, rfl, -⟩ := yes_pop.1 hy; simp
    | drop => obtain ⟨-, rfl, -⟩ := yes_drop.1 hy; simp

/-- The lists of rules an expression can produce (an over-approximation); `sl` is the answer for silent rules. -/
def lang (kind : R → Kind) (sl : R → List R → Prop) : Expr R → List R → Prop
  | .rule q, l => match kind q with
    | .silent => sl q l
    | _ => l = [q]
  | .eoi q, l => l = [q]
  | .seq a b, l => ∃ l₁ l₂, lang kind sl a l₁ ∧ lang kind sl b l₂ ∧ l = l₁ ++ l₂
  | .alt a b, l => lang kind sl a l ∨ lang kind sl b l
  | .opt a, l => lang kind sl a l ∨ l = []
  | .star a, l => ∃ ls : List (List R), (∀ x ∈ ls, lang kind sl a x) ∧ l = ls.flatten
  | .push a, l => lang kind sl a l
  | _, l => l = []

theorem Yes.lang {sl : R → List R → Prop}
    (hsl : ∀ q, g.kind q = .silent → ∀ l, lang g.kind sl (g.body q) l → sl q l)
    {e : Expr R} {s k ts r k'} (h : Yes g e s k ts r k') : lang g.kind sl e (ts.map Tree.root) := by
  obtain ⟨n, h⟩ := h
  induction n generalizing e s k ts r k' with
  | zero => cases h
  | succ n ih =>
    have hy : Yes g e s k ts r k' := ⟨n + 1, h⟩
    cases e with
    | str t => obtain ⟨rfl, -⟩ := yes_str.1 hy; rfl
    | cls p => obtain ⟨c, -, -, rfl, -⟩ := yes_cls.1 hy; rfl
    | soi => obtain ⟨rfl, -⟩ := yes_soi.1 hy; rfl
    | eoi q => obtain ⟨rfl, rfl, -⟩ := yes_eoi.1 hy; rfl
    | rule q =>
      simp only [eval] at h
      split at h
      · rename_i us rest stk heq
        simp only [Res.ok.injEq] at h
        obtain ⟨rfl, rfl, rfl⟩ := h
        have hk := ih heq
        cases hkind : g.kind q with
        | silent => simp only [Peg.lang, hkind, wrap]; exact hsl q hkind _ hk
        | normal => simp [Peg.lang, hkind, wrap, Tree.root]
        | atomic => simp [Peg.lang, hkind, wrap, Tree.root]
      · rename_i hne; exact absurd h (hne _ _ _)
    | seq a b =>
      simp only [eval] at h
      cases ha : eval g n a s k with
      | ok ts₁ s₁ k₁ =>
        rw [ha] at h
        simp only at h
        cases hb : eval g n b s₁ k₁ with
        | ok ts₂ s₂ k₂ =>
          rw [hb] at h
          simp only [Res.ok.injEq] at h
          obtain ⟨rfl, rfl, rfl⟩ := h
          exact ⟨_, _, ih ha, ih hb, List.map_append⟩
        | _ => rw [hb] at h; cases h
      | _ => rw [ha] at h; cases h
    | alt a b =>
      simp only [eval] at h
      cases ha : eval g n a s k with
      | fail => rw [ha] at h; exact .inr (ih h)
      | ok ts₁ s₁ k₁ => rw [ha] at h; exact .inl (ih (ha.trans h))
      | _ => rw [ha] at h; cases h
    | opt a =>
      simp only [eval] at h
      cases ha : eval g n a s k with
      | fail => rw [ha] at h; simp only [Res.ok.injEq] at h; rw [← h.1]; exact .inr rfl
      | ok ts₁ s₁ k₁ => rw [ha] at h; exact .inl (ih (ha.trans h))
      | _ => rw [ha] at h; cases h
    | star a =>
      simp only [eval] at h
      cases ha : eval g n a s k with
      | fail => rw [ha] at h; simp only [Res.ok.injEq] at h; rw [← h.1]; exact ⟨[], by simp, rfl⟩
      | ok ts₁ s₁ k₁ =>
        rw [ha] at h
        simp only at h
        cases hb : eval g n (.star a) s₁ k₁ with
        | ok ts₂ s₂ k₂ =>
          rw [hb] at h
          simp only [Res.ok.injEq] at h
          obtain ⟨rfl, rfl, rfl⟩ := h
          obtain ⟨ls, hls, heq⟩ := ih hb
          refine ⟨ts₁.map Tree.root :: ls, ?_, by simp [heq]⟩
          intro x hx
          rcases List.mem_cons.1 hx with rfl | hx
          · exact ih ha
          · exact hls x hx
        | _ => rw [hb] at h; cases h
      | _ => rw [ha] at h; cases h
    | and a => obtain ⟨-, rfl, -⟩ := yes_and.1 hy; rfl
    | not a => obtain ⟨-, rfl, -⟩ := yes_not.1 hy; rfl
    | push a =>
      simp only [eval] at h
      cases ha : eval g n a s k with
      | ok ts₁ s₁ k₁ =>
        rw [ha] at h
        simp only [Res.ok.injEq] at h
        obtain ⟨rfl, rfl, rfl⟩ := h
        exact (ih ha : Peg.lang g.kind sl a _)
      | _ => rw [ha] at h; cases h
    | peek => obtain ⟨t, l, -, rfl, -⟩ := yes_peek.1 hy; rfl
    | peek2 => obtain ⟨t, u, l, -, rfl, -⟩ := yes_peek2.1 hy; rfl
    | pop => obtain ⟨t, -, rfl, -⟩ := yes_pop.1 hy; rfl
    | drop => obtain ⟨-, rfl, -⟩ := yes_drop.1 hy; rfl

/-! ## simplification of `lang` -/

theorem flatten_map_singleton {α : Type} (l : List α) : (l.map fun x => [x]).flatten = l := by
  induction l with
  | nil => rfl
  | cons a l ih => simp [ih]

theorem star_single (q : R) (l : List R) : (∃ ls : List (List R), (∀ x ∈ ls, x = [q]) ∧ l = ls.flatten) ↔ ∀ x ∈ l, x = q := by
  constructor
  · rintro ⟨ls, h, rfl⟩ x hx
    obtain ⟨y, hy, hxy⟩ := List.mem_flatten.1 hx
    rw [h y hy] at hxy
    simpa using hxy
  · intro h
    refine ⟨l.map fun x => [x], ?_, (flatten_map_singleton l).symm⟩
    intro x hx
    obtain ⟨y, hy, rfl⟩ := List.mem_map.1 hx
    rw [h y hy]

theorem star_nil (l : List R) : (∃ ls : List (List R), (∀ x ∈ ls, x = []) ∧ l = ls.flatten) ↔ l = [] := by
  constructor
  · rintro ⟨ls, h, rfl⟩
    exact List.flatten_eq_nil_iff.2 h
  · rintro rfl; exact ⟨[], by simp, rfl⟩

/-! ## text of repetitions -/

/-- If every step of a repetition consumes one character with a property of it and the input after it, then so does every
character consumed by the repetition. -/
theorem Yes.star_chars {a : Expr R} {P : Char → Str → Prop} {s k ts r k'}
    (ha : ∀ s k ts r k', Yes g a s k ts r k' → ∃ c, s = c :: r ∧ P c r)
    (h : Yes g (.star a) s k ts r k') :
    ∃ t, s = t ++ r ∧ ∀ t₁ c t₂, t = t₁ ++ c :: t₂ → P c (t₂ ++ r) := by
  obtain ⟨n, h⟩ := h
  induction n generalizing s k ts r k' with
  | zero => cases h
  | succ n ih =>
    simp only [eval] at h
    cases hr : eval g n a s k with
    | fail =>
      rw [hr] at h
      simp only [Res.ok.injEq] at h
      exact ⟨[], by simp [h.2.1], by simp⟩
    | ok ts₁ s₁ k₁ =>
      rw [hr] at h
      simp only at h
      cases hb : eval g n (.star a) s₁ k₁ with
      | ok ts₂ s₂ k₂ =>
        rw [hb] at h
        simp only [Res.ok.injEq] at h
        obtain ⟨rfl, rfl, rfl⟩ := h
        obtain ⟨c, rfl, hc⟩ := ha _ _ _ _ _ ⟨n, hr⟩
        obtain ⟨t, rfl, ht⟩ := ih hb
        refine ⟨c :: t, rfl, ?_⟩
        intro t₁ d t₂ heq
        cases t₁ with
        | nil => simp only [List.nil_append, List.cons.injEq] at heq; obtain ⟨rfl, rfl⟩ := heq; exact hc
        | cons x t₁ => simp only [List.cons_append, List.cons.injEq] at heq; exact ht _ _ _ heq.2
      | _ => rw [hb] at h; cases h
    | _ => rw [hr] at h; cases h

theorem Yes.star_all {a : Expr R} {P : Char → Prop} {s k ts r k'}
    (ha : ∀ s k ts r k', Yes g a s k ts r k' → ∃ c, s = c :: r ∧ P c)
    (h : Yes g (.star a) s k ts r k') : ∃ t, s = t ++ r ∧ ∀ c ∈ t, P c := by
  obtain ⟨t, hs, ht⟩ := Yes.star_chars (P := fun c _ => P c) ha h
  refine ⟨t, hs, fun c hc => ?_⟩
  obtain ⟨t₁, t₂, rfl⟩ := List.append_of_mem hc
  exact ht _ _ _ rfl

end YamlSubset.Peg
