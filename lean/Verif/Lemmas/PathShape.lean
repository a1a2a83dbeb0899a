import Verif.Lemmas.PegShape
import Verif.Lemmas.PathParse
import Verif.Props.Termination

/-! # Path parse trees of inputs without spaces -/

namespace YamlSubset

open Peg Spec PRule

local notation "G" => pathGrammar

/-- The input contains a number that does not fit 64 bits. -/
def BigNumber (inp : Str) : Prop :=
  ∃ pre t post, inp = pre ++ t ++ post ∧ t ≠ [] ∧ t.all isDigit = true ∧ 2 ^ 64 ≤ digitsValue t

/-- A good value, or a panic caused by a big number. -/
def PFine {α : Type} (inp : Str) (P : α → Prop) (o : Out α) : Prop :=
  (o = .panic ∧ BigNumber inp) ∨ ∃ v, o = .ok v ∧ P v

theorem PFine.bind {α β : Type} {inp : Str} {P : α → Prop} {Q : β → Prop} {o : Out α} {f : α → Out β}
    (h : PFine inp P o) (hf : ∀ v, P v → PFine inp Q (f v)) : PFine inp Q (o.bind f) := by
  rcases h with ⟨rfl, hb⟩ | ⟨v, rfl, hv⟩
  · exact .inl ⟨rfl, hb⟩
  · exact hf v hv

theorem PFine.ok {α : Type} {inp : Str} {P : α → Prop} {v : α} (h : P v) : PFine inp P (.ok v) := .inr ⟨v, rfl, h⟩

/-- Kinds of results. -/
def PVal.Fits : PRule → PVal → Prop
  | .pure_key, v | .field, v | .value, v => ∃ s, v = .str s
  | .condition, v => ∃ c, v = .cond c
  | .index_number, v => ∃ is, v = .idx is
  | .key, v | .part, v | .path, v | .root, v | .final_path, v => ∃ p, v = .path p
  | _, _ => True

/-- What a node must give. -/
def GoodNode (inp : Str) (t : Tree PRule) : Prop :=
  pathGrammar.kind t.root = .normal → PFine inp (PVal.Fits t.root) (psem t)

/-! ## lists of rules -/

/-- What the silent rules produce. -/
def sl : PRule → List PRule → Prop
  | .key_items, l => ∀ x ∈ l, x = WHITESPACE
  | .index, l => WHITESPACE ∈ l ∨ ∃ i cs, l = i :: cs ∧ (i = index_number ∨ i = index_all) ∧ ∀ x ∈ cs, x = condition
  | _, _ => True

abbrev L (e : Expr PRule) (l : List PRule) : Prop := lang PRule.kind sl e l

theorem lang_skip {l : List PRule} (h : L skip l) (hw : WHITESPACE ∉ l) : l = [] := by
  have := (star_single WHITESPACE l).1 h
  cases l with
  | nil => rfl
  | cons a t => exact absurd (by rw [this a (by simp)]; simp) hw

theorem lang_sq {a b : Expr PRule} {l : List PRule} (h : L (sq a b) l) (hw : WHITESPACE ∉ l) :
    ∃ l₁ l₂, L a l₁ ∧ L b l₂ ∧ l = l₁ ++ l₂ := by
  obtain ⟨l₁, l₂, h1, ⟨l₃, l₄, h3, h4, rfl⟩, rfl⟩ := h
  have : l₃ = [] := lang_skip h3 fun h => hw (by simp [h])
  subst this
  exact ⟨l₁, l₄, h1, h4, rfl⟩

theorem lang_st {e : Expr PRule} {l : List PRule} (h : L (st e) l) (hw : WHITESPACE ∉ l) :
    ∃ ls : List (List PRule), (∀ x ∈ ls, L e x) ∧ l = ls.flatten := by
  rcases h with ⟨l₁, l₂, h1, ⟨ls, h2, rfl⟩, rfl⟩ | rfl
  · refine ⟨l₁ :: ls, fun x hx => ?_, rfl⟩
    rcases List.mem_cons.1 hx with rfl | hx
    · exact h1
    · obtain ⟨m₁, m₂, h3, h4, rfl⟩ := h2 x hx
      have : m₁ = [] := lang_skip h3 fun h => hw (by
        simp only [List.mem_append, List.mem_flatten]
        exact .inr ⟨_, hx, by simp [h]⟩)
      subst this
      exact h4
  · exact ⟨[], by simp, rfl⟩

theorem lang_conds {l : List PRule} (h : L conds l) (hw : WHITESPACE ∉ l) : ∀ x ∈ l, x = condition := by
  obtain ⟨ls, h1, rfl⟩ := lang_st h hw
  intro x hx
  obtain ⟨y, hy, hxy⟩ := List.mem_flatten.1 hx
  have hwy : WHITESPACE ∉ y := fun h => hw (List.mem_flatten.2 ⟨y, hy, h⟩)
  obtain ⟨m₁, m₂, h3, h4, rfl⟩ := lang_sq (h1 y hy) hwy
  have h3 : m₁ = [] := h3
  have h4 : m₂ = [condition] := h4
  subst h3 h4
  simpa using hxy

theorem sl_ok (q : PRule) (hq : pathGrammar.kind q = .silent) (l : List PRule) (h : lang pathGrammar.kind sl (pathGrammar.body q) l) : sl q l := by
  cases q <;> try (simp [pathGrammar, PRule.kind] at hq; done)
  · -- key_items
    obtain ⟨l₁, l₂, h1, ⟨l₃, l₄, h3, h4, rfl⟩, rfl⟩ := h
    have h1 : l₁ = [] := h1
    have h4 : l₄ = [] := h4
    subst h1 h4
    have := (star_single WHITESPACE l₃).1 h3
    intro x hx
    exact this x (by simpa using hx)
  · -- index
    by_cases hw : WHITESPACE ∈ l
    · exact .inl hw
    · right
      obtain ⟨l₁, l₂, h1, h2, rfl⟩ := lang_sq h hw
      have h1 : l₁ = [] := h1
      subst h1
      obtain ⟨l₃, l₄, h3, h4, rfl⟩ := lang_sq h2 (by simpa using hw)
      obtain ⟨l₅, l₆, h5, h6, rfl⟩ := lang_sq h4 (fun h => hw (by simp [h]))
      have h5 : l₅ = [] := h5
      subst h5
      have h7 := lang_conds h6 (fun h => hw (by simp [h]))
      rcases h3 with h3 | h3
      · have h3 : l₃ = [index_number] := h3
        subst h3
        exact ⟨_, _, rfl, .inl rfl, h7⟩
      · have h3 : l₃ = [index_all] := h3
        subst h3
        exact ⟨_, _, rfl, .inr rfl, h7⟩

/-! ## the consumer -/

theorem pfine_many {inp : Str} {q : PRule} (hq' : pathGrammar.kind q = .normal) {α : Type} {as : PVal → Out α}
    (hq : ∀ v, PVal.Fits q v → ∃ a, as v = .ok a) {us : List (Tree PRule)} (hr : ∀ u ∈ us, u.root = q)
    (hg : ∀ u ∈ us, GoodNode inp u) : PFine inp (fun _ => True) (pmany q as (psemKids us)) := by
  induction us with
  | nil => exact .ok trivial
  | cons u us ih =>
    obtain ⟨r, text, cs⟩ := u
    have h1 : r = q := hr (.node r text cs) (by simp)
    subst h1
    have h2 := hg _ (List.mem_cons_self ..) hq'
    simp only [psemKids, pmany, if_true]
    refine h2.bind fun v hv => ?_
    obtain ⟨a, ha⟩ := hq v hv
    rw [ha, Out.bind_ok]
    exact (ih (fun u hu => hr u (by simp [hu])) fun u hu => hg u (by simp [hu])).bind fun _ _ => .ok trivial

theorem fits_cond (v : PVal) (h : PVal.Fits condition v) : ∃ a, v.asCond = .ok a := by
  obtain ⟨c, rfl⟩ := h; exact ⟨c, rfl⟩

theorem fits_part (v : PVal) (h : PVal.Fits part v) : ∃ a, v.asPath = .ok a := by
  obtain ⟨c, rfl⟩ := h; exact ⟨c, rfl⟩

theorem all_root {us : List (Tree PRule)} {q : PRule} (h : ∀ x ∈ us.map Tree.root, x = q) : ∀ u ∈ us, u.root = q :=
  fun u hu => h u.root (List.mem_map.2 ⟨u, hu, rfl⟩)

theorem roots_cons {us : List (Tree PRule)} {q : PRule} {l : List PRule} (h : us.map Tree.root = q :: l) :
    ∃ u vs, us = u :: vs ∧ u.root = q ∧ vs.map Tree.root = l := by
  cases us with
  | nil => simp at h
  | cons u vs => simp only [List.map_cons, List.cons.injEq] at h; exact ⟨u, vs, rfl, h.1, h.2⟩

theorem roots_two {us : List (Tree PRule)} {p q : PRule} (h : us.map Tree.root = [p, q]) :
    ∃ u v, us = [u, v] ∧ u.root = p ∧ v.root = q := by
  obtain ⟨u, vs, rfl, hu, h⟩ := roots_cons h
  obtain ⟨v, vs, rfl, hv, h⟩ := roots_cons h
  have : vs = [] := by simpa using h
  subst this
  exact ⟨u, v, rfl, hu, hv⟩

/-- If every round of a repetition consumes text with a property of characters, so does the repetition. -/
theorem star_text {R : Type} {g : Grammar R} {a : Expr R} {P : Char → Prop} {s k ts r k'}
    (ha : ∀ s k ts r k', Yes g a s k ts r k' → ∃ t, s = t ++ r ∧ ∀ c ∈ t, P c)
    (h : Yes g (.star a) s k ts r k') : ∃ t, s = t ++ r ∧ ∀ c ∈ t, P c := by
  obtain ⟨n, h⟩ := h
  induction n generalizing s k ts r k' with
  | zero => cases h
  | succ n ih =>
    simp only [eval] at h
    cases hr : eval g n a s k with
    | fail =>
      rw [hr] at h
      simp only [Res.ok.injEq] at h
      exact ⟨[], by simp [h.2.1], by simp⟩
    | ok ts₁ s₁ k₁ =>
      rw [hr] at h
      simp only at h
      cases hb : eval g n (.star a) s₁ k₁ with
      | ok ts₂ s₂ k₂ =>
        rw [hb] at h
        simp only [Res.ok.injEq] at h
        obtain ⟨rfl, rfl, rfl⟩ := h
        obtain ⟨u, rfl, hu⟩ := ha _ _ _ _ _ ⟨n, hr⟩
        obtain ⟨t, rfl, ht⟩ := ih hb
        refine ⟨u ++ t, by simp, fun c hc => ?_⟩
        rcases List.mem_append.1 hc with hc | hc
        · exact hu c hc
        · exact ht c hc
      | _ => rw [hb] at h; cases h
    | _ => rw [hr] at h; cases h

/-- Digits and spaces. -/
def DigitOrSpace (c : Char) : Prop := isDigit c = true ∨ c = ' '

theorem skip_text {s k ts r k'} (h : Yes G skip s k ts r k') : ∃ t, s = t ++ r ∧ ∀ c ∈ t, DigitOrSpace c :=
  star_text (fun s k ts r k' hy => by
    obtain ⟨us, h1, -⟩ := yes_rule.1 hy
    obtain ⟨-, -, h2⟩ := yes_str.1 h1
    exact ⟨[' '], h2, by simp [DigitOrSpace]⟩) h

theorem seq_text {R : Type} {g : Grammar R} {a b : Expr R} {P : Char → Prop}
    (ha : ∀ s k ts r k', Yes g a s k ts r k' → ∃ t, s = t ++ r ∧ ∀ c ∈ t, P c)
    (hb : ∀ s k ts r k', Yes g b s k ts r k' → ∃ t, s = t ++ r ∧ ∀ c ∈ t, P c)
    (s k ts r k') (h : Yes g (.seq a b) s k ts r k') : ∃ t, s = t ++ r ∧ ∀ c ∈ t, P c := by
  obtain ⟨ts₁, s₁, k₁, ts₂, h1, h2, -⟩ := yes_seq.1 h
  obtain ⟨t, rfl, ht⟩ := ha _ _ _ _ _ h1
  obtain ⟨u, rfl, hu⟩ := hb _ _ _ _ _ h2
  refine ⟨t ++ u, by simp, fun c hc => ?_⟩
  rcases List.mem_append.1 hc with hc | hc
  · exact ht c hc
  · exact hu c hc

theorem digit_text (s k ts r k') (h : Yes G (.cls isDigit) s k ts r k') : ∃ t, s = t ++ r ∧ ∀ c ∈ t, DigitOrSpace c := by
  obtain ⟨c, rfl, hc, -, -⟩ := yes_cls.1 h
  exact ⟨[c], rfl, by simp [DigitOrSpace, hc]⟩

/-- The text of an index starts with a digit and contains digits and spaces. -/
theorem index_text {s k ts r k'} (h : Yes G (pl (.cls isDigit)) s k ts r k') :
    ∃ c t, s = c :: t ++ r ∧ isDigit c = true ∧ ∀ c ∈ t, DigitOrSpace c := by
  obtain ⟨ts₁, s₁, k₁, ts₂, h1, h2, -⟩ := yes_seq.1 h
  obtain ⟨c, rfl, hc, -, -⟩ := yes_cls.1 h1
  have hskip : ∀ s k ts r k', Yes G skip s k ts r k' → ∃ t, s = t ++ r ∧ ∀ c ∈ t, DigitOrSpace c :=
    fun _ _ _ _ _ h => skip_text h
  obtain ⟨t, rfl, ht⟩ := seq_text hskip (fun s k ts r k' h => by
    rcases yes_opt.1 h with h | ⟨-, -, rfl, -⟩
    · exact seq_text digit_text (fun s k ts r k' h => star_text (seq_text hskip digit_text) h) _ _ _ _ _ h
    · exact ⟨[], rfl, by simp⟩) _ _ _ _ _ h2
  exact ⟨c, t, rfl, hc, ht⟩

theorem white_good {J : PRule → List Str → Prop} {inp : Str} (hin : ' ' ∉ inp) {t : Tree PRule} (h : Derived G J inp t) : t.root ≠ WHITESPACE := by
  cases h with
  | @node r pre s rest k k' us hs _ h hk =>
    intro hr
    have hr : r = WHITESPACE := hr
    subst hr
    obtain ⟨-, -, h2⟩ := yes_str.1 h
    exact hin (by rw [hs, h2]; simp)
  | eoi h =>
    rename_i r
    intro hr
    have hr : r = WHITESPACE := hr
    subst hr
    cases h

theorem path_eoi (r q : PRule) (h : q ∈ eoiRules (pathGrammar.body r)) : pathGrammar.body q = .eoi q := by
  cases r <;> simp [pathGrammar, PRule.body, eoiRules, sq, st, pl, lit, skip, conds, ANY, Expr.alts] at h <;> subst h <;> rfl

/-- Every node of a tree for an input without spaces gives a value, or panics because of a big number. -/
theorem node_fine {J : PRule → List Str → Prop} {inp : Str} (hin : ' ' ∉ inp) {t : Tree PRule} (h : Derived G J inp t) : GoodNode inp t := by
  induction h with
  | eoi h =>
    rename_i r
    cases r <;> first | (cases h; done) | exact fun _ => .ok trivial
  | @node r pre s rest k k' us hs _ h hk ih =>
    have hl : L (pathGrammar.body r) (us.map Tree.root) := Yes.lang (sl := sl) sl_ok h
    have hk' : keptKids (pathGrammar.kind r) us = us := by cases r <;> rfl
    rw [hk'] at hk ih ⊢
    have hw : WHITESPACE ∉ us.map Tree.root := by
      intro hm
      obtain ⟨u, hu, hr⟩ := List.mem_map.1 hm
      exact white_good hin (hk u hu) hr
    intro hnorm
    simp only [psem, Tree.root]
    cases r
    case EOI => exact .ok trivial
    case pure_key => exact .ok ⟨_, rfl⟩
    case field => exact .ok ⟨_, rfl⟩
    case value => exact .ok ⟨_, rfl⟩
    case index_all => exact .ok trivial
    case root_key => exact .ok trivial
    case index_number =>
      obtain ⟨c, t, rfl, hc, ht⟩ := index_text h
      have hcon : consumed (c :: t ++ rest) rest = c :: t := consumed_append _ _
      have hd : (c :: t).all isDigit = true := by
        simp only [List.all_cons, hc, Bool.true_and, List.all_eq_true]
        intro d hd
        rcases ht d hd with h | rfl
        · exact h
        · exact absurd (by rw [hs]; simp [hd]) hin
      simp only [pact, hcon, parseU64_digits (by simp) hd]
      split
      · exact .ok ⟨_, rfl⟩
      · exact .inl ⟨rfl, pre, c :: t, rest, by rw [hs]; simp, by simp, hd, by omega⟩
    case condition =>
      obtain ⟨l₁, l₂, h1, h2, he⟩ := lang_sq hl hw
      obtain ⟨l₃, l₄, h3, h4, rfl⟩ := lang_sq h2 (fun hm => hw (by rw [he]; simp [hm]))
      have h1 : l₁ = [field] := h1
      have h3 : l₃ = [] := h3
      have h4 : l₄ = [value] := h4
      subst h1 h3 h4
      obtain ⟨u, v, rfl, hu, hv⟩ := roots_two he
      obtain ⟨r₁, t₁, c₁⟩ := u
      obtain ⟨r₂, t₂, c₂⟩ := v
      have hu : r₁ = field := hu
      have hv : r₂ = value := hv
      subst hu hv
      simp only [psemKids, pact]
      refine (ih _ (by simp) rfl).bind fun v hv => ?_
      obtain ⟨x, rfl⟩ := hv
      simp only [PVal.asStr, Out.bind_ok]
      refine (ih (.node value t₂ c₂) (by simp) rfl).bind fun v hv => ?_
      obtain ⟨y, rfl⟩ := hv
      exact .ok ⟨_, rfl⟩
    case key =>
      obtain ⟨l₁, l₂, h1, h2, he⟩ := lang_sq hl hw
      have h1 : l₁ = [pure_key] := h1
      subst h1
      obtain ⟨u, us, rfl, hu, hus⟩ := roots_cons he
      obtain ⟨r₁, t₁, c₁⟩ := u
      have hu : r₁ = pure_key := hu
      subst hu
      have h3 := lang_conds h2 (fun hm => hw (by rw [he]; simp [hm]))
      rw [← show _ = l₂ from hus] at h3
      simp only [psemKids, pact]
      refine (ih _ (by simp) rfl).bind fun v hv => ?_
      obtain ⟨x, rfl⟩ := hv
      refine (pfine_many (inp := inp) rfl fits_cond (all_root h3) fun u hu => ih u (by simp [hu])).bind fun v _ => ?_
      exact .ok ⟨_, rfl⟩
    case root =>
      obtain ⟨l₁, l₂, h1, h2, he⟩ := lang_sq hl hw
      have h1 : l₁ = [root_key] := h1
      subst h1
      obtain ⟨u, us, rfl, hu, hus⟩ := roots_cons he
      obtain ⟨r₁, t₁, c₁⟩ := u
      have hu : r₁ = root_key := hu
      subst hu
      have h3 := lang_conds h2 (fun hm => hw (by rw [he]; simp [hm]))
      rw [← show _ = l₂ from hus] at h3
      simp only [psemKids, pact]
      refine (ih _ (by simp) rfl).bind fun v hv => ?_
      refine (pfine_many (inp := inp) rfl fits_cond (all_root h3) fun u hu => ih u (by simp [hu])).bind fun v _ => ?_
      exact .ok ⟨_, rfl⟩
    case part =>
      rcases hl with hl | hl
      · obtain ⟨l₁, l₂, h1, h2, he⟩ := lang_sq hl hw
        have h1 : l₁ = [] := h1
        have h2 : l₂ = [key] := h2
        subst h1 h2
        obtain ⟨u, us, rfl, hu, hus⟩ := roots_cons he
        have : us = [] := by simpa using hus
        subst this
        obtain ⟨r₁, t₁, c₁⟩ := u
        have hu : r₁ = key := hu
        subst hu
        simp only [psemKids, pact]
        refine (ih _ (by simp) rfl).bind fun v hv => ?_
        obtain ⟨x, rfl⟩ := hv
        exact .ok ⟨_, rfl⟩
      · have hl : sl index (us.map Tree.root) := hl
        rcases hl with hl | ⟨i, cs, he, hi, hcs⟩
        · exact absurd hl hw
        · obtain ⟨u, us, rfl, hu, hus⟩ := roots_cons (l := cs) he
          rw [← hus] at hcs
          obtain ⟨r₁, t₁, c₁⟩ := u
          have hu : r₁ = i := hu
          subst hu
          rcases hi with rfl | rfl
          · simp only [psemKids, pact]
            refine (ih _ (by simp) rfl).bind fun v hv => ?_
            obtain ⟨x, rfl⟩ := hv
            refine (pfine_many (inp := inp) rfl fits_cond (all_root hcs) fun u hu => ih u (by simp [hu])).bind fun v _ => ?_
            exact .ok ⟨_, rfl⟩
          · simp only [psemKids, pact]
            refine (ih _ (by simp) rfl).bind fun v hv => ?_
            refine (pfine_many (inp := inp) rfl fits_cond (all_root hcs) fun u hu => ih u (by simp [hu])).bind fun v _ => ?_
            exact .ok ⟨_, rfl⟩
    case path =>
      obtain ⟨l₁, l₂, h1, h2, he⟩ := lang_sq hl hw
      have h1 : l₁ = [key] := h1
      subst h1
      obtain ⟨u, us, rfl, hu, hus⟩ := roots_cons he
      obtain ⟨r₁, t₁, c₁⟩ := u
      have hu : r₁ = key := hu
      subst hu
      obtain ⟨ls, h3, rfl⟩ := lang_st h2 (fun hm => hw (by rw [he]; simp [hm]))
      have h4 : ∀ x ∈ us.map Tree.root, x = part := by
        rw [show us.map Tree.root = ls.flatten from hus]
        exact (star_single part _).1 ⟨ls, h3, rfl⟩
      simp only [psemKids, pact]
      refine (ih _ (by simp) rfl).bind fun v hv => ?_
      obtain ⟨x, rfl⟩ := hv
      refine (pfine_many (inp := inp) rfl fits_part (all_root h4) fun u hu => ih u (by simp [hu])).bind fun v _ => ?_
      exact .ok ⟨_, rfl⟩
    case final_path =>
      obtain ⟨l₁, l₂, h1, h2, he⟩ := lang_sq hl hw
      have h2 : l₂ = [EOI] := h2
      subst h2
      have h1 : l₁ = [path] ∨ l₁ = [root] := h1
      rcases h1 with rfl | rfl
      all_goals
        obtain ⟨u, v, rfl, hu, hv⟩ := roots_two he
        obtain ⟨r₁, t₁, c₁⟩ := u
        obtain ⟨r₂, t₂, c₂⟩ := v
        simp only [Tree.root] at hu hv
        subst hu hv
        simp only [psemKids, pact]
        refine (ih _ (by simp) rfl).bind fun v hv => ?_
        obtain ⟨x, rfl⟩ := hv
        simp only [PVal.asPath, Out.bind_ok]
        refine (ih (.node EOI t₂ c₂) (by simp) rfl).bind fun v hv => ?_
        exact .ok ⟨_, rfl⟩
    case WHITESPACE => exact absurd rfl (white_good hin (.node hs (by assumption) h hk))
    case key_items => cases hnorm
    case index => cases hnorm

theorem path_eval_ne_panic (n : Nat) (s : Str) : eval pathGrammar n (.rule .final_path) s [] ≠ .panic :=
  (stackCheck_sound (g := pathGrammar) (fun _ => 0) (fun r => by cases r <;> rfl) n (.rule .final_path) s [] 0 0 rfl (Nat.le_refl _)).1

/-- Parsing a path without spaces. -/
theorem parsePath_fine {inp : Str} (hin : ' ' ∉ inp) :
    YamlPath.parse inp = .err ∨ PFine inp (fun _ => True) (YamlPath.parse inp) := by
  unfold YamlPath.parse
  cases h : eval pathGrammar (pathFuel inp) (.rule .final_path) inp [] with
  | fail => exact .inl rfl
  | panic => exact absurd h (path_eval_ne_panic _ _)
  | oof => exact absurd h (path_eval_ne_oof _)
  | ok ts rest k =>
    right
    have hy : Yes G (.rule final_path) inp [] ts rest k := ⟨_, h⟩
    have hd := hy.derived (I := fun _ => True) (req := fun _ => 0) (known := fun _ => true) (st := []) (st' := []) (inp := inp)
      (fun _ _ _ _ _ _ _ _ _ _ => trivial) (fun r => by cases r <;> rfl) path_eoi (fun _ _ _ _ _ _ _ _ _ => trivial) rfl
      (by simp [eoiRules]) ⟨[], rfl⟩ trivial
    obtain ⟨us, hus, rfl⟩ := yes_rule.1 hy
    have hw : wrap (pathGrammar.kind final_path) final_path inp rest us = [.node final_path (consumed inp rest) us] := rfl
    rw [hw] at hd ⊢
    refine (node_fine hin (hd _ (List.mem_singleton.2 rfl)) rfl).bind fun v hv => ?_
    obtain ⟨p, rfl⟩ := hv
    exact .ok trivial

end YamlSubset
