import Verif.Lemmas.VisibleText

/-! # The visible text of every node -/

namespace YamlSubset

open Peg Spec

variable {T : CharTables}

local notation "Gy" => yamlGrammar T

/-! ## leaves -/

theorem visible_white {u : Str} (h : ∀ c ∈ u, isWhitespace c = true) : visible u = [] := by
  simp only [visible, List.filter_eq_nil_iff]
  intro c hc
  simp [h c hc]

theorem visible_trimEnd (s : Str) : visible (trimEnd s) = visible s := by
  obtain ⟨u, hs, hu, -⟩ := trimEnd_append s
  conv => rhs; rw [hs]
  rw [visible_append, visible_white hu, List.append_nil]

theorem visible_trimEndMatches (s : Str) : visible (trimEndMatches s ' ') = visible s := by
  obtain ⟨u, hs, hu, -⟩ := trimEndMatches_append s ' '
  conv => rhs; rw [hs]
  rw [visible_append, visible_white (u := u), List.append_nil]
  intro c hc
  rw [hu c hc]; decide

theorem visible_digits {s : Str} (h : ∀ d ∈ s, 48 ≤ d.toNat ∧ d.toNat ≤ 57) : visible s = s := by
  simp only [visible, List.filter_eq_self]
  intro c hc
  have := h c hc
  simp only [isWhitespace, Bool.not_eq_true', Bool.or_eq_false_iff, Bool.and_eq_false_iff, decide_eq_false_iff_not, beq_eq_false_iff_ne]
  omega

theorem visible_blank (n : Nat) : (List.replicate n ([] : Str)).flatMap visible = [] := by
  induction n with
  | zero => rfl
  | succ n ih => rw [List.replicate_succ, List.flatMap_cons, ih]; rfl

theorem seen_unquoted {text : Str} {v : Val} (hv : Consume.unquoted text = .ok v) : ∃ y, v = .yaml y ∧ Shown y (visible text) := by
  cases hv
  exact ⟨_, rfl, by rw [← visible_trimEndMatches text]; exact .plain⟩

theorem parseU64_some {t : Str} {m : Nat} (hp : ∀ u, t ≠ '+' :: u) (h : parseU64 t = some m) : t.all isDigit = true ∧ m = digitsValue t := by
  unfold parseU64 at h
  split at h
  · exact absurd rfl (hp _)
  · simp only [parseDigits] at h
    split at h
    · rename_i n hb
      split at hb
      · cases hb
      · split at hb
        · rename_i hall
          cases hb
          split at h
          · cases h; exact ⟨hall, rfl⟩
          · cases h
        · cases hb
    · cases h

theorem seen_indent {s k ts r k'} (h : Yes Gy (.rule .string_multiline_indent) s k ts r k') {v : Val}
    (hv : Consume.stringMultilineIndent (consumed s r) = .ok v) : Seen .string_multiline_indent v (visible (consumed s r)) := by
  obtain ⟨ind, rfl, hn, -, -, -⟩ := yes_indent h
  rw [consumed_append] at hv ⊢
  simp only [Consume.stringMultilineIndent] at hv
  split at hv
  · rename_i he
    have : ind = [] := by simpa using he
    subst this
    cases hv
    exact ⟨by simp [visible], .inl ⟨rfl, rfl⟩⟩
  · rename_i he
    have hne : ind ≠ [] := by simpa using he
    have hplus : ∀ t, ind ≠ '+' :: t := by
      rintro t rfl
      have := hn '+' (by simp)
      rw [T.number_ascii _ (by decide)] at this
      exact absurd this (by decide)
    cases hp : parseU64 ind with
    | none => rw [hp] at hv; cases hv
    | some m =>
      have hd := parseU64_some hplus hp
      obtain ⟨hall, rfl⟩ := hd
      have hdig : ∀ d ∈ ind, 48 ≤ d.toNat ∧ d.toNat ≤ 57 := fun d hd' => isDigit_range (List.all_eq_true.1 hall d hd')
      rw [visible_digits hdig]
      refine ⟨hdig, .inr ⟨hne, ?_⟩⟩
      rw [hp] at hv
      have hval : digitsValue ind = decimalValue ind := rfl
      rw [← hval]
      cases hdv : digitsValue ind with
      | zero => rw [hdv] at hv; cases hv
      | succ n => rw [hdv] at hv; cases hv; rfl

/-- The stack is as before. -/
theorem rule_stack {q : Rule} (hq : yamlIndents q = 0) {s k ts r k'} (h : Yes Gy (.rule q) s k ts r k') : k' = k := by
  have h1 := (Yes.stack (g := Gy) (I := Spaces) (st := []) (st' := []) (yaml_pushes T) (yamlIndents_ok T) (by simp [pushed])
    (by simp [tyCheck, hq]) h trivial).2
  simpa using h1

/-- A quoted scalar. -/
theorem yes_quoted {c : Char} {q : Rule} (hq : yamlIndents q = 0) (hn : q.kind = .normal) (hw : isWhitespace c = false) {s k us r k'}
    (h : Yes Gy (.seqs [.push (.str [c]), .rule q, .pop, .star Rule.SP]) s k us r k') :
    ∃ t, us = [t] ∧ t.root = q ∧ visible (consumed s r) = c :: (visible t.text ++ [c]) := by
  obtain ⟨_, s₁, _, _, h1, h2, rfl⟩ := yes_seq.1 h
  obtain ⟨_, s₂, _, _, h3, h4, rfl⟩ := yes_seq.1 h2
  obtain ⟨_, s₃, _, _, h5, h6, rfl⟩ := yes_seq.1 h4
  obtain ⟨k₁, h7, rfl⟩ := yes_push.1 h1
  obtain ⟨rfl, rfl, rfl⟩ := yes_str.1 h7
  rw [consumed_append] at h3
  obtain rfl := rule_stack hq h3
  obtain ⟨us, hb, rfl⟩ := yes_rule.1 h3
  obtain ⟨t, hk, rfl, rfl⟩ := yes_pop.1 h5
  cases hk
  obtain ⟨sp, rfl, hsp, rfl, rfl⟩ := yes_spaces h6
  obtain ⟨u, hu⟩ := hb.suffix
  have hkind : (Gy).kind q = .normal := hn
  refine ⟨.node q u us, ?_, rfl, ?_⟩
  · rw [hu]; simp only [wrap, hkind, consumed_append]; rfl
  · have : consumed ([c] ++ s₁) r = [c] ++ u ++ [c] ++ sp := by
      rw [hu, show [c] ++ (u ++ ([c] ++ (sp ++ r))) = ([c] ++ u ++ [c] ++ sp) ++ r by simp, consumed_append]
    rw [this]
    have hc : visible [c] = [c] := lit_ink hw
    rw [visible_append, visible_append, visible_append, hc, visible_white (fun d hd => space_white (hsp d hd))]
    simp only [List.append_nil, List.append_assoc]; rfl

/-! ## block scalars -/

theorem sliceFrom_cut {n : Nat} {x y : Str} (h : sliceFrom n x = some y) : ∃ u, x = u ++ y ∧ utf8Length u = n := by
  induction x generalizing n with
  | nil =>
    cases n with
    | zero => cases h; exact ⟨[], rfl, rfl⟩
    | succ n => cases h
  | cons c t ih =>
    cases n with
    | zero => cases h; exact ⟨[], rfl, rfl⟩
    | succ n =>
      simp only [sliceFrom] at h
      split at h
      · obtain ⟨u, rfl, hu⟩ := ih h
        refine ⟨c :: u, rfl, ?_⟩
        have : utf8Length (c :: u) = c.utf8Size + utf8Length u := by simp [utf8Length]
        omega
      · cases h

theorem all_cut {n : Nat} {raw ls : List Str}
    (h : Out.all (raw.map fun x => if x.isEmpty then .ok x else Out.unwrapOpt (sliceFrom n x)) = .ok ls) : Cut n raw ls := by
  induction raw generalizing ls with
  | nil => cases h; exact .nil
  | cons x raw ih =>
    simp only [List.map_cons, Out.all] at h
    obtain ⟨y, hy, h⟩ := Out.ok_of_bind h
    obtain ⟨l, hl, h⟩ := Out.ok_of_bind h
    cases h
    split at hy
    · rename_i he
      have : x = [] := by simpa using he
      subst this
      cases hy
      exact .empty (ih hl)
    · rename_i he
      cases hs : sliceFrom n x with
      | none => rw [hs] at hy; cases hy
      | some z =>
        rw [hs] at hy
        cases hy
        obtain ⟨u, rfl, hu⟩ := sliceFrom_cut hs
        exact .line hu (by simpa using he) (ih hl)

theorem seen_clean {ind : Str} {v : Option Nat} {raw ls : List Str} {c : BlockChomping} (hi : ∀ d ∈ ind, 48 ≤ d.toNat ∧ d.toNat ≤ 57)
    (hv : (ind = [] ∧ Val.optNat v = .optNat none) ∨ (ind ≠ [] ∧ Val.optNat v = .optNat (some (decimalValue ind - 1))))
    (hr : raw ≠ []) (hl : ∀ l ∈ raw, LineText l) (h : cleanMultilineStrings v raw = .ok ls) :
    BlockShown ls c (chompingShown c ++ ind ++ raw.flatMap visible) := by
  refine .mk hi hr ?_
  rcases hv with ⟨rfl, hv⟩ | ⟨hne, hv⟩
  · cases hv
    cases raw with
    | nil => exact absurd rfl hr
    | cons x raw =>
      simp only [cleanMultilineStrings, Out.bind] at h
      have := all_cut h
      rwa [countWhitespaceBytesAtStart, takeWhile_line (hl x (by simp)), byteLen_eq] at this
  · cases hv
    have hb : bytesCut ind raw = decimalValue ind - 1 := by simp [bytesCut, hne]
    rw [hb]
    cases raw with
    | nil => exact absurd rfl hr
    | cons x raw =>
      simp only [cleanMultilineStrings, Out.bind] at h
      exact all_cut h

end YamlSubset
