import Verif.Model.De

/-! # Number texts -/

namespace YamlSubset

theorem digitChar_digit {n : Nat} (h : n < 10) : isDigit (digitChar n) = true := by
  have : n = 0 ∨ n = 1 ∨ n = 2 ∨ n = 3 ∨ n = 4 ∨ n = 5 ∨ n = 6 ∨ n = 7 ∨ n = 8 ∨ n = 9 := by omega
  rcases this with rfl | rfl | rfl | rfl | rfl | rfl | rfl | rfl | rfl | rfl <;> rfl

theorem digitChar_val {n : Nat} (h : n < 10) : (digitChar n).toNat - 48 = n := by
  have : n = 0 ∨ n = 1 ∨ n = 2 ∨ n = 3 ∨ n = 4 ∨ n = 5 ∨ n = 6 ∨ n = 7 ∨ n = 8 ∨ n = 9 := by omega
  rcases this with rfl | rfl | rfl | rfl | rfl | rfl | rfl | rfl | rfl | rfl <;> rfl

/-- The value of a text after digits worth `a`. -/
def valueFrom (a : Nat) (s : Str) : Nat := s.foldl (fun n c => 10 * n + (c.toNat - 48)) a

theorem natToStrAux_all (f n : Nat) (acc : Str) (h : acc.all isDigit = true) :
    (natToStrAux f n acc).all isDigit = true := by
  induction f generalizing n acc with
  | zero => exact h
  | succ f ih =>
    rw [natToStrAux]
    split
    · simp only [List.all_cons, h, Bool.and_true]
      exact digitChar_digit (by assumption)
    · refine ih _ _ ?_
      simp only [List.all_cons, h, Bool.and_true]
      exact digitChar_digit (Nat.mod_lt _ (by omega))

theorem natToStrAux_value (f n : Nat) (acc : Str) (hf : n < f) :
    digitsValue (natToStrAux f n acc) = valueFrom n acc := by
  induction f generalizing n acc with
  | zero => omega
  | succ f ih =>
    rw [natToStrAux]
    split
    · rename_i h
      rw [digitsValue, List.foldl_cons, digitChar_val h]
      simp [valueFrom]
    · rename_i h
      rw [ih _ _ (by omega)]
      simp only [valueFrom, List.foldl_cons]
      rw [digitChar_val (Nat.mod_lt _ (by omega))]
      congr 1
      omega

theorem natToStrAux_ne_nil (f n : Nat) (acc : Str) (hf : n < f) : natToStrAux f n acc ≠ [] := by
  induction f generalizing n acc with
  | zero => omega
  | succ f ih =>
    rw [natToStrAux]
    split
    · simp
    · exact ih _ _ (by omega)

theorem natToStr_all (n : Nat) : (natToStr n).all isDigit = true := natToStrAux_all _ _ _ rfl

theorem natToStr_ne_nil (n : Nat) : natToStr n ≠ [] := natToStrAux_ne_nil _ _ _ (by omega)

theorem natToStr_value (n : Nat) : digitsValue (natToStr n) = n := by
  rw [natToStr, natToStrAux_value _ _ _ (by omega)]; rfl

theorem parseDigits_natToStr (n : Nat) : parseDigits (natToStr n) = some n := by
  rw [parseDigits, if_neg (by simpa using natToStr_ne_nil n), if_pos (natToStr_all n), natToStr_value]

theorem natToStr_head (n : Nat) : ∃ c t, natToStr n = c :: t ∧ isDigit c = true := by
  cases h : natToStr n with
  | nil => exact absurd h (natToStr_ne_nil n)
  | cons c t =>
    refine ⟨c, t, rfl, ?_⟩
    have := natToStr_all n
    rw [h] at this
    simpa using (by simpa using this : _ ∧ _).1

theorem natToStr_no_sign (n : Nat) (t : Str) : natToStr n ≠ '+' :: t ∧ natToStr n ≠ '-' :: t := by
  obtain ⟨c, u, hc, hd⟩ := natToStr_head n
  rw [hc]
  constructor
  · intro h; simp only [List.cons.injEq] at h; rw [h.1] at hd; exact absurd hd (by decide)
  · intro h; simp only [List.cons.injEq] at h; rw [h.1] at hd; exact absurd hd (by decide)

theorem parseU64_digits {t : Str} (h0 : t ≠ []) (h : t.all isDigit = true) :
    parseU64 t = if digitsValue t < 2 ^ 64 then some (digitsValue t) else none := by
  cases t with
  | nil => exact absurd rfl h0
  | cons c t =>
    have hc : c ≠ '+' := by
      rintro rfl
      simp [isDigit] at h
    unfold parseU64
    split
    · rename_i heq; cases heq; exact absurd rfl hc
    · simp [parseDigits, h]

theorem parseU64_natToStr {n : Nat} (h : n < 2 ^ 64) : parseU64 (natToStr n) = some n := by
  rw [parseU64, parseDigits_natToStr]
  · simp [h]
  · exact fun t ht => (natToStr_no_sign n t).1 ht

theorem parseI64_natToStr {n : Nat} (h : n < 2 ^ 63) : parseI64 (natToStr n) = some (n : Int) := by
  rw [parseI64, parseDigits_natToStr]
  · simp [h]
  · exact fun t ht => (natToStr_no_sign n t).2 ht
  · exact fun t ht => (natToStr_no_sign n t).1 ht

theorem parseI64_intToStr {i : Int} (h : -2 ^ 63 ≤ i ∧ i < 2 ^ 63) : parseI64 (intToStr i) = some i := by
  cases i with
  | ofNat n => exact parseI64_natToStr (by simp at h; omega)
  | negSucc n =>
    rw [intToStr, parseI64, parseDigits_natToStr]
    have : n + 1 ≤ 2 ^ 63 := by omega
    simp only [this, if_true]
    congr 1

theorem parseU64_intToStr {i : Int} (h : 0 ≤ i ∧ i < 2 ^ 64) :
    (parseU64 (intToStr i)).map (fun n => (n : Int)) = some i := by
  cases i with
  | ofNat n => rw [intToStr, parseU64_natToStr (by simp at h; omega)]; rfl
  | negSucc n => omega

/-! ## What a parsed text means -/

/-- Every value of `parse::<i64>` is in range. -/
theorem parseI64_range {s : Str} {i : Int} (h : parseI64 s = some i) : -2 ^ 63 ≤ i ∧ i < 2 ^ 63 := by
  unfold parseI64 at h
  split at h
  all_goals
    split at h
    · split at h
      · simp only [Option.some.injEq] at h; omega
      · simp at h
    · simp at h

theorem parseU64_range {s : Str} {n : Nat} (h : parseU64 s = some n) : n < 2 ^ 64 := by
  unfold parseU64 at h
  simp only at h
  generalize (match s with
    | '+' :: t => t
    | t => t) = body at h
  split at h
  · split at h
    · simp only [Option.some.injEq] at h; omega
    · simp at h
  · simp at h

theorem isDigit_range {c : Char} (h : isDigit c = true) : 48 ≤ c.toNat ∧ c.toNat ≤ 57 := by
  simpa [isDigit] using h

/-! ## Texts that are numbers are not words -/

/-- The characters of float texts. -/
def floatChar (c : Char) : Bool :=
  isDigit c || c == '.' || c == '+' || c == '-' || c == 'e' || c == 'E' ||
    c!"infinityna".contains (lowerAscii c)

theorem floatExp_chars {s : Str} (h : isFloatExp s = true) : s.all floatChar = true := by
  have hd : ∀ u : Str, u.all isDigit = true → u.all floatChar = true := by
    intro u hu
    rw [List.all_eq_true] at *
    intro c hc
    simp [floatChar, hu c hc]
  unfold isFloatExp at h
  split at h
  · rfl
  · rename_i c t
    simp only [Bool.and_eq_true, Bool.or_eq_true, beq_iff_eq] at h
    obtain ⟨hc, _, h⟩ := h
    rw [List.all_cons, Bool.and_eq_true]
    constructor
    · rcases hc with rfl | rfl <;> decide
    · split at h
      · rw [List.all_cons, hd _ h]; decide
      · rw [List.all_cons, hd _ h]; decide
      · exact hd _ h

theorem takeWhile_digits (s : Str) : (s.takeWhile isDigit).all floatChar = true := by
  induction s with
  | nil => rfl
  | cons c t ih =>
    rw [List.takeWhile_cons]
    split
    · rename_i h; simp [ih, floatChar, h]
    · rfl

theorem floatNumber_chars {s : Str} (h : isFloatNumber s = true) : s.all floatChar = true := by
  unfold isFloatNumber at h
  simp only at h
  rw [← List.takeWhile_append_dropWhile (p := isDigit) (l := s), List.all_append, takeWhile_digits,
    Bool.true_and]
  split at h
  · rename_i rest t ht
    simp only [Bool.and_eq_true] at h
    rw [ht, List.all_cons, ← List.takeWhile_append_dropWhile (p := isDigit) (l := t), List.all_append,
      takeWhile_digits, floatExp_chars h.2]
    decide
  · simp only [Bool.and_eq_true] at h
    exact floatExp_chars h.2

theorem f64_chars {s : Str} (h : isF64 s = true) : s.all floatChar = true := by
  unfold isF64 at h
  simp only at h
  have key : ∀ body : Str, (body.map lowerAscii == c!"inf" || body.map lowerAscii == c!"infinity"
      || body.map lowerAscii == c!"nan" || isFloatNumber body) = true → body.all floatChar = true := by
    intro body hb
    have hw : ∀ w : Str, w.all (fun c => c!"infinityna".contains c) = true → body.map lowerAscii = w →
        body.all floatChar = true := by
      intro w hw hm
      rw [List.all_eq_true]
      intro c hc
      rw [List.all_eq_true] at hw
      have := hw (lowerAscii c) (by rw [← hm]; exact List.mem_map_of_mem hc)
      simp only [floatChar, this, Bool.or_true]
    simp only [Bool.or_eq_true, beq_iff_eq] at hb
    rcases hb with ((hb | hb) | hb) | hb
    · exact hw _ (by decide) hb
    · exact hw _ (by decide) hb
    · exact hw _ (by decide) hb
    · exact floatNumber_chars hb
  split at h
  · rw [List.all_cons, key _ h]; decide
  · rw [List.all_cons, key _ h]; decide
  · exact key _ h

end YamlSubset
