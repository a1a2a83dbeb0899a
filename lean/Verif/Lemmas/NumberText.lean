import Verif.Lemmas.Numbers
import Verif.Spec.Decode

/-! # The number parsers accept exactly the number texts of the specification -/

namespace YamlSubset

open Spec

theorem digits_iff {s : Str} : Digits s ↔ s.all isDigit = true := by
  simp [Digits, isDigit, List.all_eq_true]

theorem Spec.Digits.cons {c : Char} {s : Str} (h : Digits (c :: s)) : c ≠ '+' ∧ c ≠ '-' ∧ c ≠ '.' := by
  have := h c (.head _)
  refine ⟨?_, ?_, ?_⟩ <;> rintro rfl <;> revert this <;> decide

theorem foldl_decimal (s : Str) (a : Nat) :
    s.foldl (fun n c => 10 * n + (c.toNat - 48)) a = a * 10 ^ s.length + numberOf s := by
  induction s generalizing a with
  | nil => simp [numberOf]
  | cons c t ih =>
    rw [List.foldl_cons, ih, numberOf, List.length_cons, Nat.pow_succ, Nat.add_mul]
    have h1 : 10 * a * 10 ^ t.length = a * (10 ^ t.length * 10) := by
      rw [Nat.mul_comm 10 a, Nat.mul_assoc, Nat.mul_comm 10]
    rw [h1, Nat.add_assoc]
    rfl

theorem digitsValue_eq (s : Str) : digitsValue s = numberOf s := by
  rw [digitsValue, foldl_decimal]; simp

theorem parseDigits_iff {s : Str} {n : Nat} : parseDigits s = some n ↔ Digits s ∧ s ≠ [] ∧ n = numberOf s := by
  rw [parseDigits, digits_iff]
  cases s with
  | nil => simp
  | cons c t =>
    simp only [List.isEmpty_cons, Bool.false_eq_true, if_false]
    split
    · rename_i h
      rw [digitsValue_eq]
      simp only [Option.some.injEq, ne_eq, reduceCtorEq, not_false_eq_true, true_and, h]
      exact eq_comm
    · rename_i h
      simp [h]

theorem parseU64_iff {s : Str} {n : Nat} : parseU64 s = some n ↔ NatText s n ∧ n < 2 ^ 64 := by
  have key : ∀ b : Str, (match parseDigits b with
      | some n => if n < 2 ^ 64 then some n else none
      | none => none) = some n ↔ (Digits b ∧ b ≠ [] ∧ n = numberOf b) ∧ n < 2 ^ 64 := by
    intro b
    rw [← parseDigits_iff]
    cases parseDigits b with
    | none => simp
    | some m =>
      simp only [Option.some.injEq]
      split
      · rename_i h
        simp only [Option.some.injEq]
        exact ⟨fun e => ⟨e, e ▸ h⟩, fun e => e.1⟩
      · rename_i h
        simp only [reduceCtorEq, false_iff]
        rintro ⟨rfl, h'⟩
        exact h h'
  rw [parseU64.eq_def]
  simp only
  refine Iff.trans (key _) ?_
  split
  · rename_i s'
    constructor
    · rintro ⟨⟨h, h0, rfl⟩, hr⟩
      exact ⟨.plus h h0, hr⟩
    · rintro ⟨h, hr⟩
      refine ⟨?_, hr⟩
      generalize hu : '+' :: s' = u at h
      cases h with
      | digits h h0 =>
        subst hu
        exact absurd rfl (Digits.cons h).1
      | plus h h0 =>
        simp only [List.cons.injEq, true_and] at hu
        subst hu
        exact ⟨h, h0, rfl⟩
  · rename_i hne
    constructor
    · rintro ⟨⟨h, h0, rfl⟩, hr⟩
      exact ⟨.digits h h0, hr⟩
    · rintro ⟨h, hr⟩
      refine ⟨?_, hr⟩
      cases h with
      | digits h h0 => exact ⟨h, h0, rfl⟩
      | plus h h0 => exact absurd rfl (hne _)

theorem Spec.NatText.value {s : Str} {n m : Nat} (h : NatText s n) (h' : NatText s m) : n = m := by
  cases h with
  | digits h h0 =>
    cases h' with
    | digits => rfl
    | plus => exact absurd rfl (Digits.cons h).1
  | plus h h0 =>
    generalize hu : '+' :: _ = u at h'
    cases h' with
    | digits h' => subst hu; exact absurd rfl (Digits.cons h').1
    | plus =>
      simp only [List.cons.injEq, true_and] at hu
      rw [hu]

theorem Spec.NatText.not_minus {t : Str} {n : Nat} (h : NatText ('-' :: t) n) : False := by
  generalize hu : '-' :: t = u at h
  cases h with
  | digits h => subst hu; exact absurd rfl (Digits.cons h).2.1
  | plus h => simp at hu

theorem parseI64_iff {s : Str} {i : Int} : parseI64 s = some i ↔ IntText s i ∧ -2 ^ 63 ≤ i ∧ i < 2 ^ 63 := by
  have key : ∀ b : Str, (match parseDigits b with
      | some n => if n < 2 ^ 63 then some (n : Int) else none
      | none => none) = some i ↔ ∃ n : Nat, (Digits b ∧ b ≠ [] ∧ n = numberOf b) ∧ n < 2 ^ 63 ∧ i = n := by
    intro b
    simp only [← parseDigits_iff]
    cases parseDigits b with
    | none => simp
    | some m =>
      simp only [Option.some.injEq]
      split
      · rename_i h
        simp only [Option.some.injEq]
        exact ⟨fun e => ⟨m, rfl, h, e.symm⟩, fun ⟨_, e, _, e'⟩ => by rw [e', e]⟩
      · rename_i h
        simp only [reduceCtorEq, false_iff]
        rintro ⟨_, rfl, h', _⟩
        exact h h'
  rw [parseI64.eq_def]
  split
  · rename_i t
    cases hp : parseDigits t with
    | none =>
      simp only [reduceCtorEq, false_iff]
      rintro ⟨h, -⟩
      generalize hu : '-' :: t = u at h
      cases h with
      | nonneg h => subst hu; exact h.not_minus
      | minus h h0 =>
        simp only [List.cons.injEq, true_and] at hu
        subst hu
        have := parseDigits_iff.2 ⟨h, h0, rfl⟩
        rw [hp] at this
        cases this
    | some n =>
      obtain ⟨h, h0, rfl⟩ := parseDigits_iff.1 hp
      simp only
      constructor
      · intro e
        split at e
        · cases e
          exact ⟨.minus h h0, by omega, by omega⟩
        · cases e
      · rintro ⟨hi, hr⟩
        generalize hu : '-' :: t = u at hi
        cases hi with
        | nonneg h => subst hu; exact h.not_minus.elim
        | minus h h0 =>
          simp only [List.cons.injEq, true_and] at hu
          subst hu
          rw [if_pos (by omega)]
  · rename_i t
    refine Iff.trans (key _) ?_
    constructor
    · rintro ⟨n, ⟨h, h0, rfl⟩, hr, rfl⟩
      exact ⟨.nonneg (.plus h h0), by omega, by omega⟩
    · rintro ⟨hi, hr⟩
      generalize hu : '+' :: t = u at hi
      cases hi with
      | nonneg h =>
        cases h with
        | digits h => subst hu; exact absurd rfl (Digits.cons h).1
        | plus h h0 =>
          simp only [List.cons.injEq, true_and] at hu
          subst hu
          exact ⟨_, ⟨h, h0, rfl⟩, by omega, rfl⟩
      | minus h h0 => simp at hu
  · rename_i hne hne'
    refine Iff.trans (key _) ?_
    constructor
    · rintro ⟨n, ⟨h, h0, rfl⟩, hr, rfl⟩
      exact ⟨.nonneg (.digits h h0), by omega, by omega⟩
    · rintro ⟨hi, hr⟩
      cases hi with
      | nonneg h =>
        cases h with
        | digits h h0 => exact ⟨_, ⟨h, h0, rfl⟩, by omega, rfl⟩
        | plus h h0 => exact absurd rfl (hne' _)
      | minus h h0 => exact absurd rfl (hne _)

theorem wordSized_iff {s : Str} {i : Int} :
    WordSized s i ↔ parseI64 s = some i ∨ ∃ n, parseU64 s = some n ∧ i = n := by
  constructor
  · intro h
    cases h with
    | signed h hr => exact .inl (parseI64_iff.2 ⟨h, hr⟩)
    | unsigned h hr => exact .inr ⟨_, parseU64_iff.2 ⟨h, hr⟩, rfl⟩
  · rintro (h | ⟨n, h, rfl⟩)
    · obtain ⟨h, hr⟩ := parseI64_iff.1 h
      exact .signed h hr
    · obtain ⟨h, hr⟩ := parseU64_iff.1 h
      exact .unsigned h hr

theorem Spec.IntText.value {s : Str} {i j : Int} (h : IntText s i) (h' : IntText s j) : i = j := by
  cases h with
  | nonneg h =>
    cases h' with
    | nonneg h' => rw [NatText.value h h']
    | minus => exact h.not_minus.elim
  | minus h h0 =>
    generalize hu : '-' :: _ = u at h'
    cases h' with
    | nonneg h' => subst hu; exact h'.not_minus.elim
    | minus =>
      simp only [List.cons.injEq, true_and] at hu
      rw [hu]

/-! ## Floating point texts -/

theorem takeWhile_all_append {p : Char → Bool} {a b : Str} (ha : a.all p = true) :
    (a ++ b).takeWhile p = a ++ b.takeWhile p ∧ (a ++ b).dropWhile p = b.dropWhile p := by
  induction a with
  | nil => simp
  | cons c t ih =>
    simp only [List.all_cons, Bool.and_eq_true] at ha
    obtain ⟨h1, h2⟩ := ih ha.2
    simp [List.takeWhile_cons, List.dropWhile_cons, ha.1, h1, h2]

theorem lowerAscii_eq (c : Char) : lowerAscii c = c.toLower := by
  rw [lowerAscii, Char.toLower]
  simp only [Char.toNat]
  by_cases h : c.val.toNat ≥ 65 ∧ c.val.toNat ≤ 90
  · have h1 : c.val ≥ 'A'.val ∧ c.val ≤ 'Z'.val := by
      simp only [ge_iff_le, UInt32.le_iff_toNat_le]; exact h
    rw [if_pos (by simpa using h), dif_pos h1]
    apply Char.ext
    have hv : (c.val.toNat + 32).isValidChar := .inl (by omega)
    rw [Char.ofNat, dif_pos hv]
    apply UInt32.toNat.inj
    simp only [Char.ofNatAux, UInt32.toNat_add]
    have : ('a'.val - 'A'.val).toNat = 32 := by decide
    rw [this]
    simp only [UInt32.toNat]
    have hb := h.2
    rw [Nat.mod_eq_of_lt]
    · rfl
    · simp only [UInt32.toNat] at hb; omega
  · have h1 : ¬(c.val ≥ 'A'.val ∧ c.val ≤ 'Z'.val) := by
      simp only [ge_iff_le, UInt32.le_iff_toNat_le]; exact h
    rw [if_neg (by simpa using h), dif_neg h1]

theorem floatExp_iff {s : Str} : isFloatExp s = true ↔ ExponentText s := by
  have sign : ∀ (P : Str → Prop) (t : Str), (∀ b, P b ↔ b ≠ [] ∧ Digits b) →
      (P (match t with
        | '+' :: u => u
        | '-' :: u => u
        | u => u) ↔ ∃ sign ds, SignText sign ∧ Digits ds ∧ ds ≠ [] ∧ t = sign ++ ds) := by
    intro P t hP
    rw [hP]
    split
    · rename_i u
      constructor
      · exact fun h => ⟨['+'], u, .inr (.inl rfl), h.2, h.1, rfl⟩
      · rintro ⟨sign, ds, rfl | rfl | rfl, h, h0, e⟩
        · simp only [List.nil_append] at e
          subst e
          exact absurd rfl h.cons.1
        · simp only [List.cons_append, List.nil_append, List.cons.injEq, true_and] at e
          subst e
          exact ⟨h0, h⟩
        · simp at e
    · rename_i u
      constructor
      · exact fun h => ⟨['-'], u, .inr (.inr rfl), h.2, h.1, rfl⟩
      · rintro ⟨sign, ds, rfl | rfl | rfl, h, h0, e⟩
        · simp only [List.nil_append] at e
          subst e
          exact absurd rfl h.cons.2.1
        · simp at e
        · simp only [List.cons_append, List.nil_append, List.cons.injEq, true_and] at e
          subst e
          exact ⟨h0, h⟩
    · rename_i h1 h2
      constructor
      · exact fun h => ⟨[], t, .inl rfl, h.2, h.1, rfl⟩
      · rintro ⟨sign, ds, rfl | rfl | rfl, h, h0, rfl⟩
        · exact ⟨h0, h⟩
        · exact absurd rfl (h1 _)
        · exact absurd rfl (h2 _)
  cases s with
  | nil => exact ⟨fun _ => .inl rfl, fun _ => rfl⟩
  | cons c t =>
    have hs := sign (fun b => (!b.isEmpty && b.all isDigit) = true) t (fun b => by
      simp [digits_iff])
    rw [isFloatExp.eq_def]
    simp only
    rw [Bool.and_eq_true, Bool.or_eq_true, beq_iff_eq, beq_iff_eq]
    refine Iff.trans (and_congr Iff.rfl hs) ?_
    clear hs
    constructor
    · rintro ⟨hc, sign, ds, hs, hd, h0, rfl⟩
      exact .inr ⟨c, sign, ds, hc, hs, hd, h0, rfl⟩
    · rintro (h | ⟨e, sign, ds, hc, hs, hd, h0, h⟩)
      · cases h
      · simp only [List.cons.injEq] at h
        obtain ⟨rfl, rfl⟩ := h
        exact ⟨hc, sign, ds, hs, hd, h0, rfl⟩

theorem Spec.ExponentText.head {e : Str} (h : ExponentText e) :
    e.takeWhile isDigit = [] ∧ e.dropWhile isDigit = e ∧ ∀ t, e ≠ '.' :: t := by
  rcases h with rfl | ⟨c, sign, ds, rfl | rfl, -, -, -, rfl⟩
  · exact ⟨rfl, rfl, nofun⟩
  · refine ⟨rfl, rfl, fun t h => ?_⟩
    simp at h
  · refine ⟨rfl, rfl, fun t h => ?_⟩
    simp at h

theorem floatNumber_iff {s : Str} : isFloatNumber s = true ↔
    (∃ a e, Digits a ∧ a ≠ [] ∧ ExponentText e ∧ s = a ++ e) ∨
    ∃ a b e, Digits a ∧ Digits b ∧ (a ≠ [] ∨ b ≠ []) ∧ ExponentText e ∧ s = a ++ '.' :: b ++ e := by
  have hw : ∀ t : Str, Digits (t.takeWhile isDigit) := by
    intro t
    rw [digits_iff, List.all_eq_true]
    induction t with
    | nil => exact fun c hc => nomatch hc
    | cons d t ih =>
      rw [List.takeWhile_cons]
      split
      · rename_i hd
        intro c hc
        rcases List.mem_cons.1 hc with rfl | hc
        · exact hd
        · exact ih c hc
      · exact fun c hc => nomatch hc
  constructor
  · intro h
    simp only [isFloatNumber] at h
    split at h
    · rename_i t ht
      simp only [Bool.and_eq_true, Bool.or_eq_true, Bool.not_eq_true', List.isEmpty_eq_false_iff] at h
      refine .inr ⟨_, _, _, hw s, hw t, h.1, floatExp_iff.1 h.2, ?_⟩
      rw [List.append_assoc, List.cons_append, List.takeWhile_append_dropWhile, ← ht, List.takeWhile_append_dropWhile]
    · simp only [Bool.and_eq_true, Bool.not_eq_true', List.isEmpty_eq_false_iff] at h
      exact .inl ⟨_, _, hw s, h.1, floatExp_iff.1 h.2, List.takeWhile_append_dropWhile.symm⟩
  · rintro (⟨a, e, ha, h0, he, rfl⟩ | ⟨a, b, e, ha, hb, h0, he, rfl⟩)
    · obtain ⟨h1, h2⟩ := takeWhile_all_append (b := e) (digits_iff.1 ha)
      obtain ⟨e1, e2, e3⟩ := he.head
      rw [e1, List.append_nil] at h1
      rw [e2] at h2
      simp only [isFloatNumber, h1, h2]
      simp [floatExp_iff.2 he, h0]
    · rw [List.append_assoc, List.cons_append]
      obtain ⟨h1, h2⟩ := takeWhile_all_append (b := '.' :: (b ++ e)) (digits_iff.1 ha)
      obtain ⟨h3, h4⟩ := takeWhile_all_append (b := e) (digits_iff.1 hb)
      obtain ⟨e1, e2, e3⟩ := he.head
      rw [e1, List.append_nil] at h3
      rw [e2] at h4
      have hd : isDigit '.' = false := by decide
      rw [List.takeWhile_cons, hd] at h1
      rw [List.dropWhile_cons, hd] at h2
      simp only [Bool.false_eq_true, if_false, List.append_nil] at h1 h2
      simp only [isFloatNumber, h1, h2, h3, h4]
      simp [floatExp_iff.2 he, h0]

theorem isF64_iff {s : Str} : isF64 s = true ↔ FloatText s := by
  have body : ∀ b : Str, (b.map lowerAscii == c!"inf" || b.map lowerAscii == c!"infinity" || b.map lowerAscii == c!"nan"
      || isFloatNumber b) = true ↔ b.map Char.toLower ∈ [c!"inf", c!"infinity", c!"nan"] ∨
        isFloatNumber b = true := by
    intro b
    have : lowerAscii = Char.toLower := funext lowerAscii_eq
    simp only [this, Bool.or_eq_true, beq_iff_eq, List.mem_cons, List.not_mem_nil, or_false, or_assoc]
  have build : ∀ {sign b : Str}, SignText sign → (b.map Char.toLower ∈ [c!"inf", c!"infinity", c!"nan"] ∨
      isFloatNumber b = true) → FloatText (sign ++ b) := by
    rintro sign b hs (h | h)
    · exact .word hs h
    · rcases floatNumber_iff.1 h with ⟨a, e, ha, h0, he, rfl⟩ | ⟨a, b, e, ha, hb, h0, he, rfl⟩
      · rw [← List.append_assoc]; exact .whole hs ha h0 he
      · rw [List.append_assoc a, ← List.append_assoc sign, ← List.append_assoc]; exact .point hs ha hb h0 he
  have noSign : ∀ {b : Str}, (b.map Char.toLower ∈ [c!"inf", c!"infinity", c!"nan"] ∨ isFloatNumber b = true) →
      ∀ t, b ≠ '+' :: t ∧ b ≠ '-' :: t := by
    rintro b (h | h) t
    · have hc : ∀ c : Char, c = '+' ∨ c = '-' → b ≠ c :: t := by
        rintro c hc rfl
        simp only [List.map_cons, List.mem_cons, List.cons.injEq, List.not_mem_nil, or_false] at h
        rcases hc with rfl | rfl <;> rcases h with h | h | h <;> exact absurd h.1 (by decide)
      exact ⟨hc _ (.inl rfl), hc _ (.inr rfl)⟩
    · have hc : ∀ c : Char, c = '+' ∨ c = '-' → b ≠ c :: t := by
        rintro c hc rfl
        have hd : isDigit c = false := by rcases hc with rfl | rfl <;> decide
        simp only [isFloatNumber, List.takeWhile_cons, List.dropWhile_cons, hd, Bool.false_eq_true, if_false,
          List.isEmpty_nil, Bool.not_true, Bool.false_and] at h
        split at h
        · rename_i heq
          simp only [List.cons.injEq] at heq
          rcases hc with rfl | rfl <;> exact absurd heq.1 (by decide)
        · cases h
      exact ⟨hc _ (.inl rfl), hc _ (.inr rfl)⟩
  constructor
  · intro h
    rw [isF64.eq_def] at h
    replace h := (body _).1 h
    split at h
    · exact build (.inr (.inl rfl)) h
    · exact build (.inr (.inr rfl)) h
    · exact build (.inl rfl) h
  · intro h
    have : ∃ sign b, SignText sign ∧ s = sign ++ b ∧ (b.map Char.toLower ∈ [c!"inf", c!"infinity", c!"nan"] ∨
        isFloatNumber b = true) := by
      cases h with
      | word hs h => exact ⟨_, _, hs, rfl, .inl h⟩
      | whole hs ha h0 he =>
        exact ⟨_, _, hs, List.append_assoc .., .inr (floatNumber_iff.2 (.inl ⟨_, _, ha, h0, he, rfl⟩))⟩
      | point hs ha hb h0 he =>
        refine ⟨_, _, hs, ?_, .inr (floatNumber_iff.2 (.inr ⟨_, _, _, ha, hb, h0, he, rfl⟩))⟩
        simp
    clear h
    obtain ⟨sign, b, hs, rfl, h⟩ := this
    rw [isF64.eq_def]
    refine (body _).2 ?_
    rcases hs with rfl | rfl | rfl
    · simp only [List.nil_append]
      split
      · exact absurd rfl (noSign h _).1
      · exact absurd rfl (noSign h _).2
      · exact h
    · exact h
    · exact h

end YamlSubset
