import Verif.Model.Peg

/-! # Big-step rules for parsing expressions

`Yes e s k ts r k'`: with some fuel, `e` on input `s` and stack `k` produces the trees `ts` and leaves input
`r` and stack `k'`. `No e s k`: with some fuel it fails. The rules for each kind of expression are proved
from the evaluator. -/

namespace YamlSubset.Peg

variable {R : Type} {g : Grammar R}

/-- More fuel does not change a result. -/
theorem eval_mono {n m : Nat} {e : Expr R} {s : Str} {k : List Str} (hm : n ≤ m) (h : eval g n e s k ≠ .oof) :
    eval g m e s k = eval g n e s k := by
  induction n generalizing m e s k with
  | zero => exact absurd rfl h
  | succ n ih =>
    cases m with
    | zero => omega
    | succ m =>
      have hm : n ≤ m := by omega
      have ih' : ∀ {e s k}, eval g n e s k ≠ .oof → eval g m e s k = eval g n e s k := fun h => ih hm h
      cases e with
      | rule r =>
        simp only [eval] at h ⊢
        rw [ih']
        intro h'; rw [h'] at h; exact h rfl
      | seq a b =>
        simp only [eval] at h ⊢
        have ha : eval g n a s k ≠ .oof := by intro h'; rw [h'] at h; exact h rfl
        rw [ih' ha]
        cases hr : eval g n a s k with
        | ok ts r k' =>
          rw [hr] at h
          simp only at h ⊢
          rw [ih']
          intro h'; rw [h'] at h; exact h rfl
        | _ => rfl
      | alt a b =>
        simp only [eval] at h ⊢
        have ha : eval g n a s k ≠ .oof := by intro h'; rw [h'] at h; exact h rfl
        rw [ih' ha]
        cases hr : eval g n a s k with
        | fail =>
          rw [hr] at h
          exact ih' h
        | _ => rfl
      | star a =>
        simp only [eval] at h ⊢
        have ha : eval g n a s k ≠ .oof := by intro h'; rw [h'] at h; exact h rfl
        rw [ih' ha]
        cases hr : eval g n a s k with
        | ok ts r k' =>
          rw [hr] at h
          simp only at h ⊢
          rw [ih']
          intro h'; rw [h'] at h; exact h rfl
        | _ => rfl
      | opt a | and a | not a | push a =>
        simp only [eval] at h ⊢
        rw [ih']
        intro h'; rw [h'] at h; exact h rfl
      | _ => rfl

/-- `e` succeeds. -/
def Yes (g : Grammar R) (e : Expr R) (s : Str) (k : List Str) (ts : List (Tree R)) (r : Str) (k' : List Str) : Prop :=
  ∃ n, eval g n e s k = .ok ts r k'

/-- `e` fails. -/
def No (g : Grammar R) (e : Expr R) (s : Str) (k : List Str) : Prop :=
  ∃ n, eval g n e s k = .fail

theorem Yes.of_eval {n : Nat} {e : Expr R} {s k ts r k'} (h : eval g n e s k = .ok ts r k') : Yes g e s k ts r k' :=
  ⟨n, h⟩

theorem ev_unique {n m : Nat} {e : Expr R} {s k} {x y : Res R} (h : eval g n e s k = x) (h' : eval g m e s k = y)
    (hx : x ≠ .oof) (hy : y ≠ .oof) : x = y := by
  subst h h'
  rcases Nat.le_total n m with hnm | hnm
  · exact (eval_mono hnm hx).symm
  · exact eval_mono hnm hy

theorem Yes.unique {e : Expr R} {s k ts r k' ts' r' k''} (h : Yes g e s k ts r k') (h' : Yes g e s k ts' r' k'') :
    ts = ts' ∧ r = r' ∧ k' = k'' := by
  obtain ⟨n, h⟩ := h
  obtain ⟨m, h'⟩ := h'
  have := ev_unique h h' (by simp) (by simp)
  simpa using this

theorem Yes.not_no {e : Expr R} {s k ts r k'} (h : Yes g e s k ts r k') (h' : No g e s k) : False := by
  obtain ⟨n, h⟩ := h
  obtain ⟨m, h'⟩ := h'
  have := ev_unique h h' (by simp) (by simp)
  cases this

/-- The result for a given fuel that suffices. -/
theorem Yes.eval_eq {e : Expr R} {s k ts r k' n} (h : Yes g e s k ts r k') (hn : eval g n e s k ≠ .oof) :
    eval g n e s k = .ok ts r k' := by
  obtain ⟨m, h⟩ := h
  exact (ev_unique h rfl (by simp) hn).symm

theorem No.eval_eq {e : Expr R} {s k n} (h : No g e s k) (hn : eval g n e s k ≠ .oof) : eval g n e s k = .fail := by
  obtain ⟨m, h⟩ := h
  exact (ev_unique h rfl (by simp) hn).symm

/-! ## success -/

theorem yes_str {t s k ts r k'} : Yes g (.str t) s k ts r k' ↔ ts = [] ∧ k' = k ∧ s = t ++ r := by
  have hs : ∀ (t s r : Str), stripPrefix t s = some r ↔ s = t ++ r := by
    intro t
    induction t with
    | nil => intro s r; simp [stripPrefix]
    | cons c t ih =>
      intro s r
      cases s with
      | nil => simp [stripPrefix]
      | cons d s =>
        simp only [stripPrefix, List.cons_append, List.cons.injEq]
        split
        · rename_i h; simp [h, ih]
        · rename_i h; simp [Ne.symm h]
  constructor
  · rintro ⟨n, h⟩
    cases n with
    | zero => cases h
    | succ n =>
      simp only [eval, matchText] at h
      cases hp : stripPrefix t s with
      | none => rw [hp] at h; cases h
      | some r' =>
        rw [hp] at h
        simp only [Res.ok.injEq] at h
        exact ⟨h.1.symm, h.2.2.symm, (hs _ _ _).1 (h.2.1 ▸ hp)⟩
  · rintro ⟨rfl, rfl, h⟩
    exact ⟨1, by simp [eval, matchText, (hs t s r).2 h]⟩

theorem yes_cls {p s k ts r k'} : Yes g (.cls p) s k ts r k' ↔ ∃ c, s = c :: r ∧ p c = true ∧ ts = [] ∧ k' = k := by
  constructor
  · rintro ⟨n, h⟩
    cases n with
    | zero => cases h
    | succ n =>
      simp only [eval] at h
      split at h
      · cases h
      · split at h
        · rename_i c rest hp
          simp only [Res.ok.injEq] at h
          exact ⟨c, by simp [h], hp, h.1.symm, h.2.2.symm⟩
        · cases h
  · rintro ⟨c, rfl, hp, rfl, rfl⟩
    exact ⟨1, by simp [eval, hp]⟩

theorem yes_soi {s k ts r k'} : Yes g .soi s k ts r k' ↔ ts = [] ∧ r = s ∧ k' = k := by
  constructor
  · rintro ⟨n, h⟩
    cases n with
    | zero => cases h
    | succ n => simp only [eval, Res.ok.injEq] at h; exact ⟨h.1.symm, h.2.1.symm, h.2.2.symm⟩
  · rintro ⟨rfl, rfl, rfl⟩; exact ⟨1, rfl⟩

theorem yes_eoi {q : R} {s k ts r k'} :
    Yes g (.eoi q) s k ts r k' ↔ s = [] ∧ ts = [.node q [] []] ∧ r = [] ∧ k' = k := by
  constructor
  · rintro ⟨n, h⟩
    cases n with
    | zero => cases h
    | succ n =>
      simp only [eval] at h
      split at h
      · simp only [Res.ok.injEq] at h; exact ⟨rfl, h.1.symm, h.2.1.symm, h.2.2.symm⟩
      · cases h
  · rintro ⟨rfl, rfl, rfl, rfl⟩; exact ⟨1, rfl⟩

theorem yes_rule {q : R} {s k ts r k'} :
    Yes g (.rule q) s k ts r k' ↔ ∃ us, Yes g (g.body q) s k us r k' ∧ ts = wrap (g.kind q) q s r us := by
  constructor
  · rintro ⟨n, h⟩
    cases n with
    | zero => cases h
    | succ n =>
      simp only [eval] at h
      split at h
      · rename_i us rest stk heq
        simp only [Res.ok.injEq] at h
        obtain ⟨h1, rfl, rfl⟩ := h
        exact ⟨us, ⟨n, heq⟩, h1.symm⟩
      · rename_i hne; exact absurd h (by intro h; exact hne _ _ _ h)
  · rintro ⟨us, ⟨n, h⟩, rfl⟩
    exact ⟨n + 1, by simp [eval, h]⟩

theorem yes_seq {a b : Expr R} {s k ts r k'} :
    Yes g (.seq a b) s k ts r k' ↔ ∃ ts₁ s₁ k₁ ts₂, Yes g a s k ts₁ s₁ k₁ ∧ Yes g b s₁ k₁ ts₂ r k' ∧ ts = ts₁ ++ ts₂ := by
  constructor
  · rintro ⟨n, h⟩
    cases n with
    | zero => cases h
    | succ n =>
      simp only [eval] at h
      cases ha : eval g n a s k with
      | ok ts₁ s₁ k₁ =>
        rw [ha] at h
        simp only at h
        cases hb : eval g n b s₁ k₁ with
        | ok ts₂ s₂ k₂ =>
          rw [hb] at h
          simp only [Res.ok.injEq] at h
          obtain ⟨rfl, rfl, rfl⟩ := h
          exact ⟨ts₁, s₁, k₁, ts₂, ⟨n, ha⟩, ⟨n, hb⟩, rfl⟩
        | _ => rw [hb] at h; cases h
      | _ => rw [ha] at h; cases h
  · rintro ⟨ts₁, s₁, k₁, ts₂, ⟨n, ha⟩, ⟨m, hb⟩, rfl⟩
    refine ⟨max n m + 1, ?_⟩
    simp only [eval]
    rw [eval_mono (Nat.le_max_left n m) (by simp [ha]), ha]
    simp only
    rw [eval_mono (Nat.le_max_right n m) (by simp [hb]), hb]

theorem yes_alt {a b : Expr R} {s k ts r k'} :
    Yes g (.alt a b) s k ts r k' ↔ Yes g a s k ts r k' ∨ (No g a s k ∧ Yes g b s k ts r k') := by
  constructor
  · rintro ⟨n, h⟩
    cases n with
    | zero => cases h
    | succ n =>
      simp only [eval] at h
      cases ha : eval g n a s k with
      | fail => rw [ha] at h; exact .inr ⟨⟨n, ha⟩, ⟨n, h⟩⟩
      | ok ts₁ s₁ k₁ => rw [ha] at h; exact .inl ⟨n, by rw [ha]; exact h⟩
      | _ => rw [ha] at h; cases h
  · rintro (⟨n, h⟩ | ⟨⟨n, ha⟩, ⟨m, hb⟩⟩)
    · exact ⟨n + 1, by simp [eval, h]⟩
    · refine ⟨max n m + 1, ?_⟩
      simp only [eval]
      rw [eval_mono (Nat.le_max_left n m) (by simp [ha]), ha]
      simp only
      rw [eval_mono (Nat.le_max_right n m) (by simp [hb]), hb]

theorem yes_opt {a : Expr R} {s k ts r k'} :
    Yes g (.opt a) s k ts r k' ↔ Yes g a s k ts r k' ∨ (No g a s k ∧ ts = [] ∧ r = s ∧ k' = k) := by
  constructor
  · rintro ⟨n, h⟩
    cases n with
    | zero => cases h
    | succ n =>
      simp only [eval] at h
      cases ha : eval g n a s k with
      | fail =>
        rw [ha] at h
        simp only [Res.ok.injEq] at h
        exact .inr ⟨⟨n, ha⟩, h.1.symm, h.2.1.symm, h.2.2.symm⟩
      | ok ts₁ s₁ k₁ => rw [ha] at h; exact .inl ⟨n, by rw [ha]; exact h⟩
      | _ => rw [ha] at h; cases h
  · rintro (⟨n, h⟩ | ⟨⟨n, ha⟩, rfl, rfl, rfl⟩)
    · exact ⟨n + 1, by simp [eval, h]⟩
    · exact ⟨n + 1, by simp [eval, ha]⟩

theorem yes_star {a : Expr R} {s k ts r k'} :
    Yes g (.star a) s k ts r k' ↔ (No g a s k ∧ ts = [] ∧ r = s ∧ k' = k) ∨
      ∃ ts₁ s₁ k₁ ts₂, Yes g a s k ts₁ s₁ k₁ ∧ Yes g (.star a) s₁ k₁ ts₂ r k' ∧ ts = ts₁ ++ ts₂ := by
  constructor
  · rintro ⟨n, h⟩
    cases n with
    | zero => cases h
    | succ n =>
      simp only [eval] at h
      cases ha : eval g n a s k with
      | fail =>
        rw [ha] at h
        simp only [Res.ok.injEq] at h
        exact .inl ⟨⟨n, ha⟩, h.1.symm, h.2.1.symm, h.2.2.symm⟩
      | ok ts₁ s₁ k₁ =>
        rw [ha] at h
        simp only at h
        cases hb : eval g n (.star a) s₁ k₁ with
        | ok ts₂ s₂ k₂ =>
          rw [hb] at h
          simp only [Res.ok.injEq] at h
          obtain ⟨rfl, rfl, rfl⟩ := h
          exact .inr ⟨ts₁, s₁, k₁, ts₂, ⟨n, ha⟩, ⟨n, hb⟩, rfl⟩
        | _ => rw [hb] at h; cases h
      | _ => rw [ha] at h; cases h
  · rintro (⟨⟨n, ha⟩, rfl, rfl, rfl⟩ | ⟨ts₁, s₁, k₁, ts₂, ⟨n, ha⟩, ⟨m, hb⟩, rfl⟩)
    · exact ⟨n + 1, by simp [eval, ha]⟩
    · refine ⟨max n m + 1, ?_⟩
      simp only [eval]
      rw [eval_mono (Nat.le_max_left n m) (by simp [ha]), ha]
      simp only
      rw [eval_mono (Nat.le_max_right n m) (by simp [hb]), hb]

theorem yes_and {a : Expr R} {s k ts r k'} :
    Yes g (.and a) s k ts r k' ↔ (∃ us t l, Yes g a s k us t l) ∧ ts = [] ∧ r = s ∧ k' = k := by
  constructor
  · rintro ⟨n, h⟩
    cases n with
    | zero => cases h
    | succ n =>
      simp only [eval] at h
      cases ha : eval g n a s k with
      | ok ts₁ s₁ k₁ =>
        rw [ha] at h
        simp only [Res.ok.injEq] at h
        exact ⟨⟨ts₁, s₁, k₁, n, ha⟩, h.1.symm, h.2.1.symm, h.2.2.symm⟩
      | _ => rw [ha] at h; cases h
  · rintro ⟨⟨us, t, l, n, h⟩, rfl, rfl, rfl⟩
    exact ⟨n + 1, by simp [eval, h]⟩

theorem yes_not {a : Expr R} {s k ts r k'} :
    Yes g (.not a) s k ts r k' ↔ No g a s k ∧ ts = [] ∧ r = s ∧ k' = k := by
  constructor
  · rintro ⟨n, h⟩
    cases n with
    | zero => cases h
    | succ n =>
      simp only [eval] at h
      cases ha : eval g n a s k with
      | fail =>
        rw [ha] at h
        simp only [Res.ok.injEq] at h
        exact ⟨⟨n, ha⟩, h.1.symm, h.2.1.symm, h.2.2.symm⟩
      | _ => rw [ha] at h; cases h
  · rintro ⟨⟨n, h⟩, rfl, rfl, rfl⟩
    exact ⟨n + 1, by simp [eval, h]⟩

theorem yes_push {a : Expr R} {s k ts r k'} :
    Yes g (.push a) s k ts r k' ↔ ∃ k₁, Yes g a s k ts r k₁ ∧ k' = consumed s r :: k₁ := by
  constructor
  · rintro ⟨n, h⟩
    cases n with
    | zero => cases h
    | succ n =>
      simp only [eval] at h
      cases ha : eval g n a s k with
      | ok ts₁ s₁ k₁ =>
        rw [ha] at h
        simp only [Res.ok.injEq] at h
        obtain ⟨rfl, rfl, rfl⟩ := h
        exact ⟨k₁, ⟨n, ha⟩, rfl⟩
      | _ => rw [ha] at h; cases h
  · rintro ⟨k₁, ⟨n, h⟩, rfl⟩
    exact ⟨n + 1, by simp [eval, h]⟩

theorem matchText_ok {t s : Str} {k ts r k'} : (matchText t s k : Res R) = .ok ts r k' ↔ ts = [] ∧ k' = k ∧ s = t ++ r := by
  rw [← yes_str (g := (⟨fun _ => .normal, fun _ => .soi⟩ : Grammar R))]
  constructor
  · intro h; exact ⟨1, h⟩
  · rintro ⟨n, h⟩
    cases n with
    | zero => cases h
    | succ n => exact h

theorem yes_peek {s k ts r k'} : Yes g .peek s k ts r k' ↔ ∃ t l, k = t :: l ∧ ts = [] ∧ k' = k ∧ s = t ++ r := by
  constructor
  · rintro ⟨n, h⟩
    cases n with
    | zero => cases h
    | succ n =>
      simp only [eval] at h
      split at h
      · cases h
      · obtain ⟨h1, h2, h3⟩ := matchText_ok.1 h
        exact ⟨_, _, rfl, h1, h2, h3⟩
  · rintro ⟨t, l, rfl, rfl, rfl, h⟩
    exact ⟨1, by simp only [eval]; exact matchText_ok.2 ⟨rfl, rfl, h⟩⟩

theorem yes_peek2 {s k ts r k'} :
    Yes g .peek2 s k ts r k' ↔ ∃ t u l, k = t :: u :: l ∧ ts = [] ∧ k' = k ∧ s = u ++ t ++ r := by
  constructor
  · rintro ⟨n, h⟩
    cases n with
    | zero => cases h
    | succ n =>
      simp only [eval] at h
      split at h
      · obtain ⟨h1, h2, h3⟩ := matchText_ok.1 h
        exact ⟨_, _, _, rfl, h1, h2, h3⟩
      · cases h
  · rintro ⟨t, u, l, rfl, rfl, rfl, h⟩
    exact ⟨1, by simp only [eval]; exact matchText_ok.2 ⟨rfl, rfl, h⟩⟩

theorem yes_pop {s k ts r k'} : Yes g .pop s k ts r k' ↔ ∃ t, k = t :: k' ∧ ts = [] ∧ s = t ++ r := by
  constructor
  · rintro ⟨n, h⟩
    cases n with
    | zero => cases h
    | succ n =>
      simp only [eval] at h
      split at h
      · cases h
      · obtain ⟨h1, h2, h3⟩ := matchText_ok.1 h
        subst h2
        exact ⟨_, rfl, h1, h3⟩
  · rintro ⟨t, rfl, rfl, h⟩
    exact ⟨1, by simp only [eval]; exact matchText_ok.2 ⟨rfl, rfl, h⟩⟩

theorem yes_drop {s k ts r k'} : Yes g .drop s k ts r k' ↔ (∃ t, k = t :: k') ∧ ts = [] ∧ r = s := by
  constructor
  · rintro ⟨n, h⟩
    cases n with
    | zero => cases h
    | succ n =>
      simp only [eval] at h
      split at h
      · cases h
      · simp only [Res.ok.injEq] at h
        obtain ⟨rfl, rfl, rfl⟩ := h
        exact ⟨⟨_, rfl⟩, rfl, rfl⟩
  · rintro ⟨⟨t, rfl⟩, rfl, rfl⟩
    exact ⟨1, rfl⟩

/-! ## failure -/

theorem matchText_fail {t s : Str} {k} : (matchText t s k : Res R) = .fail ↔ ¬ ∃ r, s = t ++ r := by
  constructor
  · rintro h ⟨r, hr⟩
    have := (matchText_ok (R := R) (k := k)).2 ⟨rfl, rfl, hr⟩
    rw [h] at this; cases this
  · intro h
    cases hm : (matchText t s k : Res R) with
    | ok ts r k' => exact absurd ⟨r, (matchText_ok.1 hm).2.2⟩ h
    | fail => rfl
    | panic => simp only [matchText] at hm; split at hm <;> cases hm
    | oof => simp only [matchText] at hm; split at hm <;> cases hm

theorem no_str {t s k} : No g (.str t) s k ↔ ¬ ∃ r, s = t ++ r := by
  rw [← matchText_fail (R := R) (k := k)]
  constructor
  · rintro ⟨n, h⟩
    cases n with
    | zero => cases h
    | succ n => exact h
  · intro h; exact ⟨1, h⟩

theorem no_cls {p s k} : No g (.cls p) s k ↔ ∀ c r, s = c :: r → p c = false := by
  constructor
  · rintro ⟨n, h⟩
    cases n with
    | zero => cases h
    | succ n =>
      rintro c r rfl
      simp only [eval] at h
      cases hp : p c with
      | false => rfl
      | true => simp [hp] at h
  · intro h
    refine ⟨1, ?_⟩
    simp only [eval]
    split
    · rfl
    · rename_i c r; simp [h c r rfl]

theorem no_soi {s k} : ¬ No g (.soi : Expr R) s k := by
  rintro ⟨n, h⟩
  cases n <;> cases h

theorem no_eoi {q : R} {s k} : No g (.eoi q) s k ↔ s ≠ [] := by
  constructor
  · rintro ⟨n, h⟩ rfl
    cases n <;> cases h
  · intro h
    refine ⟨1, ?_⟩
    cases s with
    | nil => exact absurd rfl h
    | cons => rfl

theorem no_rule {q : R} {s k} : No g (.rule q) s k ↔ No g (g.body q) s k := by
  constructor
  · rintro ⟨n, h⟩
    cases n with
    | zero => cases h
    | succ n =>
      simp only [eval] at h
      split at h
      · cases h
      · exact ⟨n, h⟩
  · rintro ⟨n, h⟩; exact ⟨n + 1, by simp [eval, h]⟩

theorem no_seq {a b : Expr R} {s k} :
    No g (.seq a b) s k ↔ No g a s k ∨ ∃ ts₁ s₁ k₁, Yes g a s k ts₁ s₁ k₁ ∧ No g b s₁ k₁ := by
  constructor
  · rintro ⟨n, h⟩
    cases n with
    | zero => cases h
    | succ n =>
      simp only [eval] at h
      cases ha : eval g n a s k with
      | ok ts₁ s₁ k₁ =>
        rw [ha] at h
        simp only at h
        cases hb : eval g n b s₁ k₁ with
        | fail => exact .inr ⟨ts₁, s₁, k₁, ⟨n, ha⟩, ⟨n, hb⟩⟩
        | _ => rw [hb] at h; cases h
      | fail => exact .inl ⟨n, ha⟩
      | _ => rw [ha] at h; cases h
  · rintro (⟨n, ha⟩ | ⟨ts₁, s₁, k₁, ⟨n, ha⟩, ⟨m, hb⟩⟩)
    · exact ⟨n + 1, by simp [eval, ha]⟩
    · refine ⟨max n m + 1, ?_⟩
      simp only [eval]
      rw [eval_mono (Nat.le_max_left n m) (by simp [ha]), ha]
      simp only
      rw [eval_mono (Nat.le_max_right n m) (by simp [hb]), hb]

theorem no_alt {a b : Expr R} {s k} : No g (.alt a b) s k ↔ No g a s k ∧ No g b s k := by
  constructor
  · rintro ⟨n, h⟩
    cases n with
    | zero => cases h
    | succ n =>
      simp only [eval] at h
      cases ha : eval g n a s k with
      | fail => rw [ha] at h; exact ⟨⟨n, ha⟩, ⟨n, h⟩⟩
      | _ => rw [ha] at h; cases h
  · rintro ⟨⟨n, ha⟩, ⟨m, hb⟩⟩
    refine ⟨max n m + 1, ?_⟩
    simp only [eval]
    rw [eval_mono (Nat.le_max_left n m) (by simp [ha]), ha]
    simp only
    rw [eval_mono (Nat.le_max_right n m) (by simp [hb]), hb]

theorem no_opt {a : Expr R} {s k} : ¬ No g (.opt a) s k := by
  rintro ⟨n, h⟩
  cases n with
  | zero => cases h
  | succ n =>
    simp only [eval] at h
    cases ha : eval g n a s k <;> rw [ha] at h <;> cases h

theorem no_star {a : Expr R} {s k} : ¬ No g (.star a) s k := by
  rintro ⟨n, h⟩
  induction n generalizing s k with
  | zero => cases h
  | succ n ih =>
    simp only [eval] at h
    cases ha : eval g n a s k with
    | ok ts₁ s₁ k₁ =>
      rw [ha] at h
      simp only at h
      cases hb : eval g n (.star a) s₁ k₁ with
      | fail => exact ih hb
      | _ => rw [hb] at h; cases h
    | _ => rw [ha] at h; cases h

theorem no_and {a : Expr R} {s k} : No g (.and a) s k ↔ No g a s k := by
  constructor
  · rintro ⟨n, h⟩
    cases n with
    | zero => cases h
    | succ n =>
      simp only [eval] at h
      cases ha : eval g n a s k with
      | fail => exact ⟨n, ha⟩
      | _ => rw [ha] at h; cases h
  · rintro ⟨n, h⟩; exact ⟨n + 1, by simp [eval, h]⟩

theorem no_not {a : Expr R} {s k} : No g (.not a) s k ↔ ∃ us t l, Yes g a s k us t l := by
  constructor
  · rintro ⟨n, h⟩
    cases n with
    | zero => cases h
    | succ n =>
      simp only [eval] at h
      cases ha : eval g n a s k with
      | ok ts₁ s₁ k₁ => exact ⟨ts₁, s₁, k₁, n, ha⟩
      | _ => rw [ha] at h; cases h
  · rintro ⟨us, t, l, n, h⟩; exact ⟨n + 1, by simp [eval, h]⟩

theorem no_push {a : Expr R} {s k} : No g (.push a) s k ↔ No g a s k := by
  constructor
  · rintro ⟨n, h⟩
    cases n with
    | zero => cases h
    | succ n =>
      simp only [eval] at h
      cases ha : eval g n a s k with
      | fail => exact ⟨n, ha⟩
      | _ => rw [ha] at h; cases h
  · rintro ⟨n, h⟩; exact ⟨n + 1, by simp [eval, h]⟩

theorem no_peek {s k} : No g .peek s k ↔ ∃ t l, k = t :: l ∧ ¬ ∃ r, s = t ++ r := by
  constructor
  · rintro ⟨n, h⟩
    cases n with
    | zero => cases h
    | succ n =>
      simp only [eval] at h
      split at h
      · cases h
      · exact ⟨_, _, rfl, matchText_fail.1 h⟩
  · rintro ⟨t, l, rfl, h⟩; exact ⟨1, matchText_fail.2 h⟩

theorem no_peek2 {s k} : No g .peek2 s k ↔ ¬ ∃ t u l r, k = t :: u :: l ∧ s = u ++ t ++ r := by
  constructor
  · rintro ⟨n, h⟩ ⟨t, u, l, r, rfl, hs⟩
    cases n with
    | zero => cases h
    | succ n => simp only [eval] at h; exact matchText_fail.1 h ⟨r, hs⟩
  · intro h
    refine ⟨1, ?_⟩
    simp only [eval]
    split
    · rename_i t u l
      exact matchText_fail.2 fun ⟨r, hr⟩ => h ⟨t, u, l, r, rfl, hr⟩
    · rfl

theorem no_pop {s k} : No g .pop s k ↔ ∃ t l, k = t :: l ∧ ¬ ∃ r, s = t ++ r := by
  constructor
  · rintro ⟨n, h⟩
    cases n with
    | zero => cases h
    | succ n =>
      simp only [eval] at h
      split at h
      · cases h
      · exact ⟨_, _, rfl, matchText_fail.1 h⟩
  · rintro ⟨t, l, rfl, h⟩; exact ⟨1, matchText_fail.2 h⟩

theorem no_drop {s k} : No g .drop s k ↔ k = [] := by
  constructor
  · rintro ⟨n, h⟩
    cases n with
    | zero => cases h
    | succ n =>
      simp only [eval] at h
      split at h
      · rfl
      · cases h
  · rintro rfl; exact ⟨1, rfl⟩

/-! ## what is consumed -/

/-- The remaining input is a suffix. -/
theorem Yes.suffix {e : Expr R} {s k ts r k'} (h : Yes g e s k ts r k') : ∃ t, s = t ++ r := by
  obtain ⟨n, h⟩ := h
  induction n generalizing e s k ts r k' with
  | zero => cases h
  | succ n ih =>
    have hy : Yes g e s k ts r k' := ⟨n + 1, h⟩
    cases e with
    | str t => exact ⟨t, (yes_str.1 hy).2.2⟩
    | cls p => obtain ⟨c, rfl, -⟩ := yes_cls.1 hy; exact ⟨[c], rfl⟩
    | soi => obtain ⟨-, rfl, -⟩ := yes_soi.1 hy; exact ⟨[], rfl⟩
    | eoi q => obtain ⟨rfl, -, rfl, -⟩ := yes_eoi.1 hy; exact ⟨[], rfl⟩
    | rule q =>
      simp only [eval] at h
      split at h
      · rename_i heq
        simp only [Res.ok.injEq] at h
        obtain ⟨-, rfl, -⟩ := h
        exact ih heq
      · rename_i hne; exact absurd h (hne _ _ _)
    | seq a b =>
      simp only [eval] at h
      cases ha : eval g n a s k with
      | ok ts₁ s₁ k₁ =>
        rw [ha] at h
        simp only at h
        cases hb : eval g n b s₁ k₁ with
        | ok ts₂ s₂ k₂ =>
          rw [hb] at h
          simp only [Res.ok.injEq] at h
          obtain ⟨rfl, rfl, rfl⟩ := h
          obtain ⟨t, rfl⟩ := ih ha
          obtain ⟨u, rfl⟩ := ih hb
          exact ⟨t ++ u, by simp⟩
        | _ => rw [hb] at h; cases h
      | _ => rw [ha] at h; cases h
    | alt a b =>
      simp only [eval] at h
      cases ha : eval g n a s k with
      | fail => rw [ha] at h; exact ih h
      | ok ts₁ s₁ k₁ => rw [ha] at h; exact ih (ha.trans h)
      | _ => rw [ha] at h; cases h
    | opt a =>
      simp only [eval] at h
      cases ha : eval g n a s k with
      | fail => rw [ha] at h; simp only [Res.ok.injEq] at h; exact ⟨[], h.2.1⟩
      | ok ts₁ s₁ k₁ => rw [ha] at h; exact ih (ha.trans h)
      | _ => rw [ha] at h; cases h
    | star a =>
      simp only [eval] at h
      cases ha : eval g n a s k with
      | fail => rw [ha] at h; simp only [Res.ok.injEq] at h; exact ⟨[], h.2.1⟩
      | ok ts₁ s₁ k₁ =>
        rw [ha] at h
        simp only at h
        cases hb : eval g n (.star a) s₁ k₁ with
        | ok ts₂ s₂ k₂ =>
          rw [hb] at h
          simp only [Res.ok.injEq] at h
          obtain ⟨rfl, rfl, rfl⟩ := h
          obtain ⟨t, rfl⟩ := ih ha
          obtain ⟨u, rfl⟩ := ih hb
          exact ⟨t ++ u, by simp⟩
        | _ => rw [hb] at h; cases h
      | _ => rw [ha] at h; cases h
    | and a => obtain ⟨-, -, rfl, -⟩ := yes_and.1 hy; exact ⟨[], rfl⟩
    | not a => obtain ⟨-, -, rfl, -⟩ := yes_not.1 hy; exact ⟨[], rfl⟩
    | push a =>
      simp only [eval] at h
      cases ha : eval g n a s k with
      | ok ts₁ s₁ k₁ =>
        rw [ha] at h
        simp only [Res.ok.injEq] at h
        obtain ⟨rfl, rfl, rfl⟩ := h
        exact ih ha
      | _ => rw [ha] at h; cases h
    | peek => obtain ⟨t, l, -, -, -, h⟩ := yes_peek.1 hy; exact ⟨t, h⟩
    | peek2 => obtain ⟨t, u, l, -, -, -, h⟩ := yes_peek2.1 hy; exact ⟨u ++ t, h⟩
    | pop => obtain ⟨t, -, -, h⟩ := yes_pop.1 hy; exact ⟨t, h⟩
    | drop => obtain ⟨-, -, rfl⟩ := yes_drop.1 hy; exact ⟨[], rfl⟩

theorem consumed_append (t r : Str) : consumed (t ++ r) r = t := by
  simp [consumed]

theorem Yes.consumed_append {e : Expr R} {s k ts r k'} (h : Yes g e s k ts r k') : s = consumed s r ++ r := by
  obtain ⟨t, rfl⟩ := h.suffix
  rw [Peg.consumed_append]

/-! ## termination -/

/-- Can an expression succeed without consuming input (an over-approximation), given an answer for rules? -/
def nullE (nul : R → Bool) : Expr R → Bool
  | .str s => s.isEmpty
  | .cls _ => false
  | .rule r => nul r
  | .seq a b => nullE nul a && nullE nul b
  | .alt a b => nullE nul a || nullE nul b
  | .push a => nullE nul a
  | _ => true

/-- Depth of the evaluation until input is consumed, given a bound for rules. -/
def leftDepth (nul : R → Bool) (w : R → Nat) : Expr R → Nat
  | .rule r => w r
  | .seq a b => 1 + max (leftDepth nul w a) (if nullE nul a then leftDepth nul w b else 0)
  | .alt a b => 1 + max (leftDepth nul w a) (leftDepth nul w b)
  | .opt a => 1 + leftDepth nul w a
  | .star a => 1 + leftDepth nul w a
  | .and a => 1 + leftDepth nul w a
  | .not a => 1 + leftDepth nul w a
  | .push a => 1 + leftDepth nul w a
  | _ => 1

/-- No repetition of something that may consume nothing, and all depths are below `c`. -/
def wellFormed (nul : R → Bool) (w : R → Nat) (c : Nat) (e : Expr R) : Bool :=
  decide (leftDepth nul w e + 1 ≤ c) &&
  match e with
  | .seq a b => wellFormed nul w c a && wellFormed nul w c b
  | .alt a b => wellFormed nul w c a && wellFormed nul w c b
  | .opt a => wellFormed nul w c a
  | .star a => wellFormed nul w c a && !nullE nul a
  | .and a => wellFormed nul w c a
  | .not a => wellFormed nul w c a
  | .push a => wellFormed nul w c a
  | _ => true

theorem eval_consumes (nul : R → Bool) (hnul : ∀ r, nullE nul (g.body r) = true → nul r = true)
    {n : Nat} {e : Expr R} {s k ts r k'} (h : eval g n e s k = .ok ts r k') (he : nullE nul e = false) :
    r.length < s.length := by
  induction n generalizing e s k ts r k' with
  | zero => cases h
  | succ n ih =>
    have hy : Yes g e s k ts r k' := ⟨n + 1, h⟩
    have hle : ∀ {e s k ts r k'}, eval g n e s k = .ok ts r k' → r.length ≤ s.length := by
      intro e s k ts r k' h
      obtain ⟨t, rfl⟩ := Yes.suffix ⟨n, h⟩
      simp
    cases e with
    | str t =>
      obtain ⟨-, -, rfl⟩ := yes_str.1 hy
      cases t with
      | nil => simp [nullE] at he
      | cons c t => simp; omega
    | cls p => obtain ⟨c, rfl, -⟩ := yes_cls.1 hy; simp
    | rule q =>
      have hb : nullE nul (g.body q) = false := by
        cases hb : nullE nul (g.body q) with
        | false => rfl
        | true => simp [nullE, hnul q hb] at he
      simp only [eval] at h
      split at h
      · rename_i heq
        simp only [Res.ok.injEq] at h
        obtain ⟨-, rfl, -⟩ := h
        exact ih heq hb
      · rename_i hne; exact absurd h (hne _ _ _)
    | seq a b =>
      simp only [nullE, Bool.and_eq_false_iff] at he
      simp only [eval] at h
      cases ha : eval g n a s k with
      | ok ts₁ s₁ k₁ =>
        rw [ha] at h
        simp only at h
        cases hb : eval g n b s₁ k₁ with
        | ok ts₂ s₂ k₂ =>
          rw [hb] at h
          simp only [Res.ok.injEq] at h
          obtain ⟨rfl, rfl, rfl⟩ := h
          have h1 := hle ha
          have h2 := hle hb
          rcases he with he | he
          · have := ih ha he; omega
          · have := ih hb he; omega
        | _ => rw [hb] at h; cases h
      | _ => rw [ha] at h; cases h
    | alt a b =>
      simp only [nullE, Bool.or_eq_false_iff] at he
      simp only [eval] at h
      cases ha : eval g n a s k with
      | fail => rw [ha] at h; exact ih h he.2
      | ok ts₁ s₁ k₁ => rw [ha] at h; exact ih (ha.trans h) he.1
      | _ => rw [ha] at h; cases h
    | push a =>
      simp only [eval] at h
      cases ha : eval g n a s k with
      | ok ts₁ s₁ k₁ =>
        rw [ha] at h
        simp only [Res.ok.injEq] at h
        obtain ⟨rfl, rfl, rfl⟩ := h
        exact ih ha he
      | _ => rw [ha] at h; cases h
    | _ => simp [nullE] at he

/-- Fuel linear in the input suffices. -/
theorem eval_terminates (nul : R → Bool) (w : R → Nat) (c : Nat)
    (hnul : ∀ r, nullE nul (g.body r) = true → nul r = true)
    (hw : ∀ r, leftDepth nul w (g.body r) + 1 ≤ w r)
    (hwf : ∀ r, wellFormed nul w c (g.body r) = true)
    (n : Nat) (e : Expr R) (s : Str) (k : List Str) (he : wellFormed nul w c e = true)
    (hn : leftDepth nul w e + c * s.length ≤ n) : eval g n e s k ≠ .oof := by
  have hpos : ∀ e : Expr R, 1 ≤ leftDepth nul w e := by
    intro e
    cases e with
    | rule r => have := hw r; simp only [leftDepth]; omega
    | _ => simp only [leftDepth]; omega
  induction n generalizing e s k with
  | zero => have := hpos e; omega
  | succ n ih =>
    -- after consuming something, any well-formed expression has enough fuel
    have hsmall : ∀ (b : Expr R) (r : Str) (k' : List Str), wellFormed nul w c b = true → r.length < s.length →
        eval g n b r k' ≠ .oof := by
      intro b r k' hb hr
      have h1 : leftDepth nul w b + 1 ≤ c := by
        unfold wellFormed at hb
        simp only [Bool.and_eq_true, decide_eq_true_eq] at hb
        exact hb.1
      apply ih b r k' hb
      have h2 : c * (r.length + 1) ≤ c * s.length := Nat.mul_le_mul_left c hr
      rw [Nat.mul_add] at h2
      have := hpos e
      omega
    have hle : ∀ {e s k ts r k'}, eval g n e s k = .ok ts r k' → r.length ≤ s.length := by
      intro e s k ts r k' h
      obtain ⟨t, rfl⟩ := Yes.suffix ⟨n, h⟩
      simp
    cases e with
    | rule q =>
      simp only [eval]
      have := ih (g.body q) s k (hwf q) (by have := hw q; simp only [leftDepth] at hn; omega)
      split
      · simp
      · exact this
    | seq a b =>
      unfold wellFormed at he
      simp only [Bool.and_eq_true, decide_eq_true_eq] at he
      simp only [leftDepth] at hn
      simp only [eval]
      have ha := ih a s k he.2.1 (by omega)
      cases har : eval g n a s k with
      | ok ts₁ s₁ k₁ =>
        simp only
        have hb : eval g n b s₁ k₁ ≠ .oof := by
          cases hna : nullE nul a with
          | false => exact hsmall b s₁ k₁ he.2.2 (eval_consumes nul hnul har hna)
          | true =>
            rw [hna] at hn
            simp only [if_true] at hn
            have := hle har
            have h2 : c * s₁.length ≤ c * s.length := Nat.mul_le_mul_left c this
            exact ih b s₁ k₁ he.2.2 (by omega)
        cases hbr : eval g n b s₁ k₁ with
        | oof => exact absurd hbr hb
        | _ => simp
      | oof => exact absurd har ha
      | _ => simp
    | alt a b =>
      unfold wellFormed at he
      simp only [Bool.and_eq_true, decide_eq_true_eq] at he
      simp only [leftDepth] at hn
      simp only [eval]
      have ha := ih a s k he.2.1 (by omega)
      cases har : eval g n a s k with
      | fail => exact ih b s k he.2.2 (by omega)
      | oof => exact absurd har ha
      | _ => simp
    | opt a =>
      unfold wellFormed at he
      simp only [Bool.and_eq_true, decide_eq_true_eq] at he
      simp only [leftDepth] at hn
      simp only [eval]
      have ha := ih a s k he.2 (by omega)
      cases har : eval g n a s k with
      | oof => exact absurd har ha
      | _ => simp
    | and a =>
      unfold wellFormed at he
      simp only [Bool.and_eq_true, decide_eq_true_eq] at he
      simp only [leftDepth] at hn
      simp only [eval]
      have ha := ih a s k he.2 (by omega)
      cases har : eval g n a s k with
      | oof => exact absurd har ha
      | _ => simp
    | not a =>
      unfold wellFormed at he
      simp only [Bool.and_eq_true, decide_eq_true_eq] at he
      simp only [leftDepth] at hn
      simp only [eval]
      have ha := ih a s k he.2 (by omega)
      cases har : eval g n a s k with
      | oof => exact absurd har ha
      | _ => simp
    | push a =>
      unfold wellFormed at he
      simp only [Bool.and_eq_true, decide_eq_true_eq] at he
      simp only [leftDepth] at hn
      simp only [eval]
      have ha := ih a s k he.2 (by omega)
      cases har : eval g n a s k with
      | oof => exact absurd har ha
      | _ => simp
    | star a =>
      have he' := he
      unfold wellFormed at he
      simp only [Bool.and_eq_true, decide_eq_true_eq, Bool.not_eq_true'] at he
      simp only [leftDepth] at hn
      simp only [eval]
      have ha := ih a s k he.2.1 (by omega)
      cases har : eval g n a s k with
      | ok ts₁ s₁ k₁ =>
        simp only
        have hb := hsmall (.star a) s₁ k₁ he' (eval_consumes nul hnul har he.2.2)
        cases hbr : eval g n (.star a) s₁ k₁ with
        | oof => exact absurd hbr hb
        | _ => simp
      | oof => exact absurd har ha
      | _ => simp
    | str t => simp only [eval, matchText]; split <;> simp
    | cls p => simp only [eval]; (repeat' split) <;> simp
    | soi => simp [eval]
    | eoi q => simp only [eval]; split <;> simp
    | peek => simp only [eval, matchText]; (repeat' split) <;> simp
    | peek2 => simp only [eval, matchText]; (repeat' split) <;> simp
    | pop => simp only [eval, matchText]; (repeat' split) <;> simp
    | drop => simp only [eval]; split <;> simp

/-! ## the stack -/

/-- Static check of the stack: `stackCheck req e h = some h'` means that from a stack of at least `h` entries `e` does not
read an empty stack, and that it leaves at least `h'` entries (relative to `h`) when it succeeds. `req` is the least height for rules, which
are to leave the height unchanged. -/
def stackCheck (req : R → Nat) : Expr R → Nat → Option Nat
  | .rule r, h => if req r ≤ h then some h else none
  | .seq a b, h => (stackCheck req a h).bind (stackCheck req b)
  | .alt a b, h => (stackCheck req a h).bind fun x => (stackCheck req b h).bind fun y => if x = y then some x else none
  | .opt a, h => (stackCheck req a h).bind fun x => if x = h then some h else none
  | .star a, h => (stackCheck req a h).bind fun x => if x = h then some h else none
  | .and a, h => (stackCheck req a h).bind fun _ => some h
  | .not a, h => (stackCheck req a h).bind fun _ => some h
  | .push a, h => (stackCheck req a h).bind fun x => some (x + 1)
  | .peek, h => if 1 ≤ h then some h else none
  | .pop, h => if 1 ≤ h then some (h - 1) else none
  | .drop, h => if 1 ≤ h then some (h - 1) else none
  | _, h => some h

/-- The static check is sound: no panic, and heights are as computed. -/
theorem stackCheck_sound (req : R → Nat) (hreq : ∀ r, stackCheck req (g.body r) (req r) = some (req r))
    (n : Nat) (e : Expr R) (s : Str) (k : List Str) (h h' : Nat) (hc : stackCheck req e h = some h') (hk : h ≤ k.length) :
    eval g n e s k ≠ .panic ∧ ∀ ts r k', eval g n e s k = .ok ts r k' → k'.length + h = k.length + h' := by
  induction n generalizing e s k h h' with
  | zero => exact ⟨by simp [eval], by simp [eval]⟩
  | succ n ih =>
    cases e with
    | rule q =>
      simp only [stackCheck] at hc
      split at hc
      · rename_i hq
        obtain ⟨h1, h2⟩ := ih (g.body q) s k _ _ (hreq q) (by omega)
        simp only [Option.some.injEq] at hc
        subst hc
        simp only [eval]
        split
        · rename_i ts r k' heq
          refine ⟨by simp, ?_⟩
          rintro ts' r' k'' heq'
          simp only [Res.ok.injEq] at heq'
          obtain ⟨-, -, rfl⟩ := heq'
          have := h2 _ _ _ heq
          omega
        · rename_i hne
          exact ⟨h1, fun ts r k' heq => absurd heq (hne _ _ _)⟩
      · cases hc
    | seq a b =>
      simp only [stackCheck, Option.bind_eq_some_iff] at hc
      obtain ⟨x, hx, hy⟩ := hc
      obtain ⟨h1, h2⟩ := ih a s k _ _ hx hk
      simp only [eval]
      cases ha : eval g n a s k with
      | ok ts₁ s₁ k₁ =>
        have h3 := h2 _ _ _ ha
        obtain ⟨h4, h5⟩ := ih b s₁ k₁ _ _ hy (by omega)
        simp only
        cases hb : eval g n b s₁ k₁ with
        | ok ts₂ s₂ k₂ =>
          refine ⟨by simp, ?_⟩
          rintro ts' r' k'' heq'
          simp only [Res.ok.injEq] at heq'
          obtain ⟨-, -, rfl⟩ := heq'
          have := h5 _ _ _ hb
          omega
        | panic => exact absurd hb h4
        | _ => simp
      | panic => exact absurd ha h1
      | _ => simp
    | alt a b =>
      simp only [stackCheck, Option.bind_eq_some_iff] at hc
      obtain ⟨x, hx, y, hy, hxy⟩ := hc
      split at hxy
      · rename_i hxy'
        subst hxy'
        simp only [Option.some.injEq] at hxy
        subst hxy
        obtain ⟨h1, h2⟩ := ih a s k _ _ hx hk
        simp only [eval]
        cases ha : eval g n a s k with
        | fail => exact ih b s k _ _ hy hk
        | ok ts₁ s₁ k₁ =>
          refine ⟨by simp, ?_⟩
          rintro ts' r' k'' heq'
          simp only [Res.ok.injEq] at heq'
          obtain ⟨-, -, rfl⟩ := heq'
          exact h2 _ _ _ ha
        | panic => exact absurd ha h1
        | _ => simp
      · cases hxy
    | opt a =>
      simp only [stackCheck, Option.bind_eq_some_iff] at hc
      obtain ⟨x, hx, hxy⟩ := hc
      split at hxy
      · rename_i hxy'
        simp only [Option.some.injEq] at hxy
        subst hxy' hxy
        obtain ⟨h1, h2⟩ := ih a s k _ _ hx hk
        simp only [eval]
        cases ha : eval g n a s k with
        | fail =>
          refine ⟨by simp, ?_⟩
          rintro ts' r' k'' heq'
          simp only [Res.ok.injEq] at heq'
          obtain ⟨-, -, rfl⟩ := heq'
          rfl
        | ok ts₁ s₁ k₁ =>
          refine ⟨by simp, ?_⟩
          rintro ts' r' k'' heq'
          simp only [Res.ok.injEq] at heq'
          obtain ⟨-, -, rfl⟩ := heq'
          exact h2 _ _ _ ha
        | panic => exact absurd ha h1
        | _ => simp
      · cases hxy
    | star a =>
      have hc' := hc
      simp only [stackCheck, Option.bind_eq_some_iff] at hc
      obtain ⟨x, hx, hxy⟩ := hc
      split at hxy
      · rename_i hxy'
        simp only [Option.some.injEq] at hxy
        subst hxy' hxy
        obtain ⟨h1, h2⟩ := ih a s k _ _ hx hk
        simp only [eval]
        cases ha : eval g n a s k with
        | fail =>
          refine ⟨by simp, ?_⟩
          rintro ts' r' k'' heq'
          simp only [Res.ok.injEq] at heq'
          obtain ⟨-, -, rfl⟩ := heq'
          rfl
        | ok ts₁ s₁ k₁ =>
          have h3 := h2 _ _ _ ha
          obtain ⟨h4, h5⟩ := ih (.star a) s₁ k₁ _ _ hc' (by omega)
          simp only
          cases hb : eval g n (.star a) s₁ k₁ with
          | ok ts₂ s₂ k₂ =>
            refine ⟨by simp, ?_⟩
            rintro ts' r' k'' heq'
            simp only [Res.ok.injEq] at heq'
            obtain ⟨-, -, rfl⟩ := heq'
            have := h5 _ _ _ hb
            omega
          | panic => exact absurd hb h4
          | _ => simp
        | panic => exact absurd ha h1
        | _ => simp
      · cases hxy
    | and a =>
      simp only [stackCheck, Option.bind_eq_some_iff] at hc
      obtain ⟨x, hx, hxy⟩ := hc
      simp only [Option.some.injEq] at hxy
      subst hxy
      obtain ⟨h1, h2⟩ := ih a s k _ _ hx hk
      simp only [eval]
      cases ha : eval g n a s k with
      | ok ts₁ s₁ k₁ =>
        refine ⟨by simp, ?_⟩
        rintro ts' r' k'' heq'
        simp only [Res.ok.injEq] at heq'
        obtain ⟨-, -, rfl⟩ := heq'
        rfl
      | panic => exact absurd ha h1
      | _ => simp
    | not a =>
      simp only [stackCheck, Option.bind_eq_some_iff] at hc
      obtain ⟨x, hx, hxy⟩ := hc
      simp only [Option.some.injEq] at hxy
      subst hxy
      obtain ⟨h1, h2⟩ := ih a s k _ _ hx hk
      simp only [eval]
      cases ha : eval g n a s k with
      | fail =>
        refine ⟨by simp, ?_⟩
        rintro ts' r' k'' heq'
        simp only [Res.ok.injEq] at heq'
        obtain ⟨-, -, rfl⟩ := heq'
        rfl
      | panic => exact absurd ha h1
      | _ => simp
    | push a =>
      simp only [stackCheck, Option.bind_eq_some_iff] at hc
      obtain ⟨x, hx, hxy⟩ := hc
      simp only [Option.some.injEq] at hxy
      subst hxy
      obtain ⟨h1, h2⟩ := ih a s k _ _ hx hk
      simp only [eval]
      cases ha : eval g n a s k with
      | ok ts₁ s₁ k₁ =>
        refine ⟨by simp, ?_⟩
        rintro ts' r' k'' heq'
        simp only [Res.ok.injEq] at heq'
        obtain ⟨-, -, rfl⟩ := heq'
        have := h2 _ _ _ ha
        simp only [List.length_cons]
        omega
      | panic => exact absurd ha h1
      | _ => simp
    | str t =>
      simp only [stackCheck, Option.some.injEq] at hc
      subst hc
      refine ⟨by simp only [eval, matchText]; split <;> simp, fun ts r k' hy => ?_⟩
      obtain ⟨-, rfl, -⟩ := (yes_str (g := g)).1 ⟨n + 1, hy⟩; rfl
    | cls p =>
      simp only [stackCheck, Option.some.injEq] at hc
      subst hc
      refine ⟨by simp only [eval]; (repeat' split) <;> simp, fun ts r k' hy => ?_⟩
      obtain ⟨c, -, -, -, rfl⟩ := (yes_cls (g := g)).1 ⟨n + 1, hy⟩; rfl
    | soi =>
      simp only [stackCheck, Option.some.injEq] at hc
      subst hc
      refine ⟨by simp [eval], fun ts r k' hy => ?_⟩
      obtain ⟨-, -, rfl⟩ := (yes_soi (g := g)).1 ⟨n + 1, hy⟩; rfl
    | eoi q =>
      simp only [stackCheck, Option.some.injEq] at hc
      subst hc
      refine ⟨by simp only [eval]; split <;> simp, fun ts r k' hy => ?_⟩
      obtain ⟨-, -, -, rfl⟩ := (yes_eoi (g := g)).1 ⟨n + 1, hy⟩; rfl
    | peek =>
      simp only [stackCheck] at hc
      split at hc
      · simp only [Option.some.injEq] at hc
        subst hc
        refine ⟨?_, fun ts r k' hy => ?_⟩
        · cases k with
          | nil => simp at hk; omega
          | cons t l => simp only [eval, matchText]; split <;> simp
        · obtain ⟨t, l, -, -, rfl, -⟩ := (yes_peek (g := g)).1 ⟨n + 1, hy⟩; rfl
      · cases hc
    | peek2 =>
      simp only [stackCheck, Option.some.injEq] at hc
      subst hc
      refine ⟨by simp only [eval, matchText]; (repeat' split) <;> simp, fun ts r k' hy => ?_⟩
      obtain ⟨t, u, l, -, -, rfl, -⟩ := (yes_peek2 (g := g)).1 ⟨n + 1, hy⟩; rfl
    | pop =>
      simp only [stackCheck] at hc
      split at hc
      · simp only [Option.some.injEq] at hc
        subst hc
        refine ⟨?_, fun ts r k' hy => ?_⟩
        · cases k with
          | nil => simp at hk; omega
          | cons t l => simp only [eval, matchText]; split <;> simp
        · obtain ⟨t, rfl, -, -⟩ := (yes_pop (g := g)).1 ⟨n + 1, hy⟩
          simp only [List.length_cons]; omega
      · cases hc
    | drop =>
      simp only [stackCheck] at hc
      split at hc
      · simp only [Option.some.injEq] at hc
        subst hc
        refine ⟨by simp only [eval]; split <;> simp, fun ts r k' hy => ?_⟩
        obtain ⟨⟨t, rfl⟩, -, -⟩ := (yes_drop (g := g)).1 ⟨n + 1, hy⟩
        simp only [List.length_cons]; omega
      · cases hc

end YamlSubset.Peg
