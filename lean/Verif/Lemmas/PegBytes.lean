import Verif.Lemmas.PegText
import Verif.Lemmas.FoldExact

/-! # The bytes of parse trees -/

namespace YamlSubset.Peg

variable {R : Type} {g : Grammar R}

/-- The bytes of the texts of nodes. -/
def kidBytes (ts : List (Tree R)) : Nat := (ts.map fun t => byteLen t.text).sum

theorem kidBytes_nil : kidBytes ([] : List (Tree R)) = 0 := rfl
theorem kidBytes_cons (t : Tree R) (ts) : kidBytes (t :: ts) = byteLen t.text + kidBytes ts := by simp [kidBytes]
theorem kidBytes_append (ts us : List (Tree R)) : kidBytes (ts ++ us) = kidBytes ts + kidBytes us := by simp [kidBytes]

/-- How many bytes an expression matches at least, the nodes it produces not counted; `sl` is the answer for silent rules. -/
def lits (kind : R → Kind) (sl : R → Nat) : Expr R → Nat
  | .str t => byteLen t
  | .cls _ => 1
  | .rule q => match kind q with
    | .silent => sl q
    | _ => 0
  | .seq a b => lits kind sl a + lits kind sl b
  | .alt a b => min (lits kind sl a) (lits kind sl b)
  | .push a => lits kind sl a
  | _ => 0

theorem utf8Size_pos (c : Char) : 1 ≤ c.utf8Size := c.utf8Size_pos

theorem byteLen_consumed {s m r : Str} (h1 : ∃ t, s = t ++ m) (h2 : ∃ t, m = t ++ r) : byteLen (consumed s r) = byteLen (consumed s m) + byteLen (consumed m r) := by
  obtain ⟨a, rfl⟩ := h1
  obtain ⟨b, rfl⟩ := h2
  rw [consumed_append', consumed_append', ← List.append_assoc, consumed_append', byteLen_append]

theorem Yes.bytes {sl : R → Nat} (hsl : ∀ q, g.kind q = .silent → sl q ≤ lits g.kind sl (g.body q)) {e : Expr R} {s k ts r k'} (h : Yes g e s k ts r k') :
    kidBytes ts + lits g.kind sl e ≤ byteLen (consumed s r) := by
  obtain ⟨n, h⟩ := h
  induction n generalizing e s k ts r k' with
  | zero => cases h
  | succ n ih =>
    have hy : Yes g e s k ts r k' := ⟨n + 1, h⟩
    cases e with
    | str t => obtain ⟨rfl, rfl, rfl⟩ := yes_str.1 hy; rw [consumed_append']; simp [kidBytes, lits]
    | cls p =>
      obtain ⟨c, rfl, hp, rfl, rfl⟩ := yes_cls.1 hy
      rw [show c :: r = [c] ++ r from rfl, consumed_append']
      have := utf8Size_pos c
      simp only [kidBytes_nil, lits, byteLen]
      omega
    | soi => obtain ⟨rfl, rfl, rfl⟩ := yes_soi.1 hy; simp [kidBytes, lits]
    | eoi q => obtain ⟨rfl, rfl, rfl, -⟩ := yes_eoi.1 hy; simp [kidBytes, lits, Tree.text, byteLen]
    | rule q =>
      simp only [eval] at h
      split at h
      · rename_i us rest stk heq
        simp only [Res.ok.injEq] at h
        obtain ⟨rfl, rfl, rfl⟩ := h
        have hb := ih heq
        cases hkind : g.kind q with
        | silent =>
          simp only [lits, hkind, wrap]
          have := hsl q hkind
          omega
        | normal => simp [lits, hkind, wrap, Tree.text, kidBytes]
        | atomic => simp [lits, hkind, wrap, Tree.text, kidBytes]
      · rename_i hne; exact absurd h (hne _ _ _)
    | seq a b =>
      simp only [eval] at h
      cases ha : eval g n a s k with
      | ok ts₁ s₁ k₁ =>
        rw [ha] at h
        simp only at h
        cases hb : eval g n b s₁ k₁ with
        | ok ts₂ s₂ k₂ =>
          rw [hb] at h
          simp only [Res.ok.injEq] at h
          obtain ⟨rfl, rfl, rfl⟩ := h
          have h1 := ih ha
          have h2 := ih hb
          rw [byteLen_consumed (Yes.suffix ⟨n, ha⟩) (Yes.suffix ⟨n, hb⟩), kidBytes_append]
          simp only [lits]
          omega
        | _ => rw [hb] at h; cases h
      | _ => rw [ha] at h; cases h
    | alt a b =>
      simp only [eval] at h
      cases ha : eval g n a s k with
      | fail => rw [ha] at h; have := ih h; simp only [lits]; omega
      | ok ts₁ s₁ k₁ => rw [ha] at h; have := ih (ha.trans h); simp only [lits]; omega
      | _ => rw [ha] at h; cases h
    | opt a =>
      simp only [eval] at h
      cases ha : eval g n a s k with
      | fail =>
        rw [ha] at h
        simp only [Res.ok.injEq] at h
        obtain ⟨rfl, rfl, rfl⟩ := h
        simp [kidBytes, lits]
      | ok ts₁ s₁ k₁ => rw [ha] at h; have := ih (ha.trans h); simp only [lits]; omega
      | _ => rw [ha] at h; cases h
    | star a =>
      simp only [eval] at h
      cases ha : eval g n a s k with
      | fail =>
        rw [ha] at h
        simp only [Res.ok.injEq] at h
        obtain ⟨rfl, rfl, rfl⟩ := h
        simp [kidBytes, lits]
      | ok ts₁ s₁ k₁ =>
        rw [ha] at h
        simp only at h
        cases hb : eval g n (.star a) s₁ k₁ with
        | ok ts₂ s₂ k₂ =>
          rw [hb] at h
          simp only [Res.ok.injEq] at h
          obtain ⟨rfl, rfl, rfl⟩ := h
          have h1 := ih ha
          have h2 := ih hb
          rw [byteLen_consumed (Yes.suffix ⟨n, ha⟩) (Yes.suffix ⟨n, hb⟩), kidBytes_append]
          simp only [lits] at h2 ⊢
          omega
        | _ => rw [hb] at h; cases h
      | _ => rw [ha] at h; cases h
    | and a => obtain ⟨-, rfl, rfl, -⟩ := yes_and.1 hy; simp [kidBytes, lits]
    | not a => obtain ⟨-, rfl, rfl, -⟩ := yes_not.1 hy; simp [kidBytes, lits]
    | push a =>
      simp only [eval] at h
      cases ha : eval g n a s k with
      | ok ts₁ s₁ k₁ =>
        rw [ha] at h
        simp only [Res.ok.injEq] at h
        obtain ⟨rfl, rfl, rfl⟩ := h
        have := ih ha
        simpa only [lits] using this
      | _ => rw [ha] at h; cases h
    | peek => obtain ⟨t, l, rfl, rfl, rfl, rfl⟩ := yes_peek.1 hy; simp [kidBytes, lits]
    | peek2 => obtain ⟨t, u, l, rfl, rfl, rfl, rfl⟩ := yes_peek2.1 hy; simp [kidBytes, lits]
    | pop => obtain ⟨t, -, rfl, -⟩ := yes_pop.1 hy; simp [kidBytes, lits]
    | drop => obtain ⟨-, rfl, rfl, -⟩ := yes_drop.1 hy; simp [kidBytes, lits]

end YamlSubset.Peg
