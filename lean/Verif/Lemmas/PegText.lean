import Verif.Lemmas.PegShape

/-! # The text of parse trees -/

namespace YamlSubset.Peg

variable {R : Type} {g : Grammar R}

/-- The text of a node. -/
def Tree.text : Tree R → Str
  | .node _ x _ => x

/-- Every `PEEK` sees entries of the stack that satisfy the invariant. -/
def peekCheck (req : R → Nat) (known : Expr R → Bool) : Expr R → List Bool → Bool
  | .seq a b, st => peekCheck req known a st && (match tyCheck req known a st with
    | some x => peekCheck req known b x
    | none => false)
  | .alt a b, st => peekCheck req known a st && peekCheck req known b st
  | .opt a, st => peekCheck req known a st
  | .star a, st => peekCheck req known a st
  | .push a, st => peekCheck req known a st
  | .peek, true :: _ => true
  | .peek, _ => false
  | .peek2, true :: true :: _ => true
  | .peek2, _ => false
  | _, _ => true

/-- Flatten the trees of a list of matches. -/
def treesOf (l : List (List (Tree R) × Str)) : List (Tree R) := (l.map Prod.fst).flatten
/-- Flatten the texts of a list of matches. -/
def textOf (l : List (List (Tree R) × Str)) : Str := (l.map Prod.snd).flatten

/-- The trees and the characters satisfying `w` that an expression can match (an over-approximation); `sl` is the answer for silent
rules. What a `POP` matches is left open. -/
def spell (kind : R → Kind) (w : Char → Bool) (sl : R → List (Tree R) → Str → Prop) : Expr R → List (Tree R) → Str → Prop
  | .str t, ts, x => ts = [] ∧ x = t.filter w
  | .cls p, ts, x => ts = [] ∧ ∃ c, p c = true ∧ x = [c].filter w
  | .rule q, ts, x => match kind q with
    | .silent => sl q ts x
    | _ => ∃ t, ts = [t] ∧ t.root = q ∧ x = t.text.filter w
  | .eoi q, ts, x => ts = [.node q [] []] ∧ x = []
  | .seq a b, ts, x => ∃ ts₁ x₁ ts₂ x₂, spell kind w sl a ts₁ x₁ ∧ spell kind w sl b ts₂ x₂ ∧ ts = ts₁ ++ ts₂ ∧ x = x₁ ++ x₂
  | .alt a b, ts, x => spell kind w sl a ts x ∨ spell kind w sl b ts x
  | .opt a, ts, x => spell kind w sl a ts x ∨ (ts = [] ∧ x = [])
  | .star a, ts, x => ∃ l : List (List (Tree R) × Str), (∀ p ∈ l, spell kind w sl a p.1 p.2) ∧ ts = treesOf l ∧ x = textOf l
  | .push a, ts, x => spell kind w sl a ts x
  | .pop, ts, _ => ts = []
  | _, ts, x => ts = [] ∧ x = []

theorem consumed_append' (t r : Str) : consumed (t ++ r) r = t := by simp [consumed]

theorem Yes.spell {w : Char → Bool} {I : Str → Prop} (hI : ∀ t, I t → t.filter w = []) {req : R → Nat} {known : Expr R → Bool}
    {sl : R → List (Tree R) → Str → Prop}
    (hK : ∀ r a, a ∈ pushed (g.body r) → known a = true → Matches g I a)
    (hR : ∀ r, tyCheck req known (g.body r) (List.replicate (req r) true) = some (List.replicate (req r) true))
    (hP : ∀ r, peekCheck req known (g.body r) (List.replicate (req r) true) = true)
    (hsl : ∀ q, g.kind q = .silent → ∀ ts x, spell g.kind w sl (g.body q) ts x → sl q ts x)
    {e : Expr R} {s k ts r k'} {st st' : List Bool} (he : ∀ a, a ∈ pushed e → known a = true → Matches g I a)
    (hc : tyCheck req known e st = some st') (hpk : peekCheck req known e st = true)
    (h : Yes g e s k ts r k') (hk : Typed I st k) : spell g.kind w sl e ts ((consumed s r).filter w) := by
  obtain ⟨n, h⟩ := h
  induction n generalizing e s k ts r k' st st' with
  | zero => cases h
  | succ n ih =>
    have hy : Yes g e s k ts r k' := ⟨n + 1, h⟩
    cases e with
    | str t => obtain ⟨rfl, rfl, rfl⟩ := yes_str.1 hy; rw [consumed_append']; exact ⟨rfl, rfl⟩
    | cls p =>
      obtain ⟨c, rfl, hp, rfl, rfl⟩ := yes_cls.1 hy
      rw [show c :: r = [c] ++ r from rfl, consumed_append']
      exact ⟨rfl, c, hp, rfl⟩
    | soi => obtain ⟨rfl, rfl, rfl⟩ := yes_soi.1 hy; exact ⟨rfl, by simp [consumed]⟩
    | eoi q => obtain ⟨rfl, rfl, rfl, -⟩ := yes_eoi.1 hy; exact ⟨rfl, by simp [consumed]⟩
    | rule q =>
      simp only [tyCheck] at hc
      split at hc
      case isFalse => cases hc
      rename_i hst
      rw [hst] at hk
      have hk := (typed_append.1 hk).1
      simp only [eval] at h
      split at h
      · rename_i us rest stk heq
        simp only [Res.ok.injEq] at h
        obtain ⟨rfl, rfl, rfl⟩ := h
        have hb := ih (hK q) (hR q) (hP q) hk heq
        cases hkind : g.kind q with
        | silent => simp only [Peg.spell, hkind, wrap]; exact hsl q hkind _ _ hb
        | normal => simp [Peg.spell, hkind, wrap, Tree.root, Tree.text]
        | atomic => simp [Peg.spell, hkind, wrap, Tree.root, Tree.text]
      · rename_i hne; exact absurd h (hne _ _ _)
    | seq a b =>
      simp only [tyCheck, Option.bind_eq_some_iff] at hc
      obtain ⟨x, hx, hc⟩ := hc
      simp only [peekCheck, hx, Bool.and_eq_true] at hpk
      simp only [eval] at h
      cases ha : eval g n a s k with
      | ok ts₁ s₁ k₁ =>
        rw [ha] at h
        simp only at h
        cases hb : eval g n b s₁ k₁ with
        | ok ts₂ s₂ k₂ =>
          rw [hb] at h
          simp only [Res.ok.injEq] at h
          obtain ⟨rfl, rfl, rfl⟩ := h
          have h1 := ih (fun q hq => he q (by simp [pushed, hq])) hx hpk.1 hk ha
          have hst := (Yes.stack hK hR (fun q hq => he q (by simp [pushed, hq])) hx ⟨n, ha⟩ hk).1
          have h2 := ih (fun q hq => he q (by simp [pushed, hq])) hc hpk.2 hst hb
          refine ⟨_, _, _, _, h1, h2, rfl, ?_⟩
          obtain ⟨t₁, rfl⟩ := Yes.suffix ⟨n, ha⟩
          obtain ⟨t₂, rfl⟩ := Yes.suffix ⟨n, hb⟩
          rw [consumed_append', consumed_append', ← List.append_assoc, consumed_append', List.filter_append]
        | _ => rw [hb] at h; cases h
      | _ => rw [ha] at h; cases h
    | alt a b =>
      simp only [tyCheck, Option.bind_eq_some_iff] at hc
      obtain ⟨x, hx, y, hy', hc⟩ := hc
      simp only [peekCheck, Bool.and_eq_true] at hpk
      simp only [eval] at h
      cases ha : eval g n a s k with
      | fail => rw [ha] at h; exact .inr (ih (fun q hq => he q (by simp [pushed, hq])) hy' hpk.2 hk h)
      | ok ts₁ s₁ k₁ => rw [ha] at h; exact .inl (ih (fun q hq => he q (by simp [pushed, hq])) hx hpk.1 hk (ha.trans h))
      | _ => rw [ha] at h; cases h
    | opt a =>
      simp only [tyCheck, Option.bind_eq_some_iff] at hc
      obtain ⟨x, hx, hc⟩ := hc
      simp only [eval] at h
      cases ha : eval g n a s k with
      | fail =>
        rw [ha] at h
        simp only [Res.ok.injEq] at h
        obtain ⟨rfl, rfl, rfl⟩ := h
        exact .inr ⟨rfl, by simp [consumed]⟩
      | ok ts₁ s₁ k₁ => rw [ha] at h; exact .inl (ih (fun q hq => he q (by simp [pushed, hq])) hx hpk hk (ha.trans h))
      | _ => rw [ha] at h; cases h
    | star a =>
      have hc' := hc
      simp only [tyCheck, Option.bind_eq_some_iff] at hc
      obtain ⟨x, hx, hc⟩ := hc
      split at hc
      case isFalse => cases hc
      rename_i hxy
      cases hc
      subst hxy
      simp only [eval] at h
      cases ha : eval g n a s k with
      | fail =>
        rw [ha] at h
        simp only [Res.ok.injEq] at h
        obtain ⟨rfl, rfl, rfl⟩ := h
        exact ⟨[], by simp, rfl, by simp [consumed, textOf]⟩
      | ok ts₁ s₁ k₁ =>
        rw [ha] at h
        simp only at h
        cases hb : eval g n (.star a) s₁ k₁ with
        | ok ts₂ s₂ k₂ =>
          rw [hb] at h
          simp only [Res.ok.injEq] at h
          obtain ⟨rfl, rfl, rfl⟩ := h
          have h1 := ih (fun q hq => he q (by simp [pushed, hq])) hx hpk hk ha
          have hst := (Yes.stack hK hR (fun q hq => he q (by simp [pushed, hq])) hx ⟨n, ha⟩ hk).1
          obtain ⟨l, hl, hts, htx⟩ := ih he hc' hpk hst hb
          refine ⟨(ts₁, (consumed s s₁).filter w) :: l, ?_, by simp [treesOf, hts], ?_⟩
          · intro p hp
            rcases List.mem_cons.1 hp with rfl | hp
            · exact h1
            · exact hl p hp
          · obtain ⟨t₁, rfl⟩ := Yes.suffix ⟨n, ha⟩
            obtain ⟨t₂, rfl⟩ := Yes.suffix ⟨n, hb⟩
            rw [consumed_append'] at htx
            rw [consumed_append', ← List.append_assoc, consumed_append', List.filter_append, htx]
            simp [textOf]
        | _ => rw [hb] at h; cases h
      | _ => rw [ha] at h; cases h
    | and a => obtain ⟨-, rfl, rfl, -⟩ := yes_and.1 hy; exact ⟨rfl, by simp [consumed]⟩
    | not a => obtain ⟨-, rfl, rfl, -⟩ := yes_not.1 hy; exact ⟨rfl, by simp [consumed]⟩
    | push a =>
      simp only [tyCheck, Option.bind_eq_some_iff] at hc
      obtain ⟨x, hx, hc⟩ := hc
      simp only [eval] at h
      cases ha : eval g n a s k with
      | ok ts₁ s₁ k₁ =>
        rw [ha] at h
        simp only [Res.ok.injEq] at h
        obtain ⟨rfl, rfl, rfl⟩ := h
        exact (ih (fun q hq => he q (by simp [pushed, hq])) hx hpk hk ha : Peg.spell g.kind w sl a _ _)
      | _ => rw [ha] at h; cases h
    | peek =>
      obtain ⟨t, l, rfl, rfl, rfl, rfl⟩ := yes_peek.1 hy
      rw [consumed_append']
      match st, hpk, hk with
      | true :: st, _, hk => exact ⟨rfl, hI t (hk.1 rfl)⟩
    | peek2 =>
      obtain ⟨t, u, l, rfl, rfl, rfl, rfl⟩ := yes_peek2.1 hy
      rw [consumed_append']
      match st, hpk, hk with
      | true :: true :: st, _, hk => exact ⟨rfl, by rw [List.filter_append, hI t (hk.1 rfl), hI u (hk.2.1 rfl)]; rfl⟩
    | pop => obtain ⟨t, -, rfl, -⟩ := yes_pop.1 hy; rfl
    | drop => obtain ⟨-, rfl, rfl, -⟩ := yes_drop.1 hy; exact ⟨rfl, by simp [consumed]⟩

end YamlSubset.Peg
