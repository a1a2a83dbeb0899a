import Verif.Model.Numbers

/-! # Integers are floats -/

namespace YamlSubset

theorem digits_span {b : Str} (h : b.all isDigit = true) :
    b.takeWhile isDigit = b ∧ b.dropWhile isDigit = [] := by
  induction b with
  | nil => exact ⟨rfl, rfl⟩
  | cons c t ih =>
    simp only [List.all_cons, Bool.and_eq_true] at h
    simp [h.1, ih h.2]

/-- Digits are a float. -/
theorem float_of_digits (b : Str) (hb : (parseDigits b).isSome = true) : isFloatNumber b = true := by
  unfold parseDigits at hb
  split at hb
  · simp at hb
  · rename_i he
    split at hb
    · rename_i hd
      obtain ⟨h1, h2⟩ := digits_span hd
      simp only [isFloatNumber, h1, h2]
      simpa [isFloatExp] using he
    · simp at hb

theorem f64_of_parseU64 {s : Str} {n : Nat} (h : parseU64 s = some n) : isF64 s = true := by
  have key : ∀ b : Str, (parseDigits b).isSome = true → isFloatNumber b = true := by
    intro b hb
    unfold parseDigits at hb
    split at hb
    · simp at hb
    · rename_i he
      split at hb
      · rename_i hd
        obtain ⟨h1, h2⟩ := digits_span hd
        simp only [isFloatNumber, h1, h2]
        simpa [isFloatExp] using he
      · simp at hb
  unfold parseU64 at h
  unfold isF64
  split at h
  · rename_i t
    simp only at h
    cases hp : parseDigits t with
    | none => simp [hp] at h
    | some k => simp [key t (by simp [hp])]
  · rename_i t hne
    simp only at h
    cases hp : parseDigits s with
    | none => simp [hp] at h
    | some k =>
      have hk := key s (by simp [hp])
      match s, hne, hp with
      | [], _, hp => simp [parseDigits] at hp
      | '+' :: t, hne, _ => exact absurd rfl (hne t)
      | c :: t, hne, hp =>
        simp only
        split
        · simp_all
        · rename_i he
          simp only [List.cons.injEq] at he
          obtain ⟨rfl, rfl⟩ := he
          simp [parseDigits, isDigit] at hp
        · simp [hk]

theorem f64_of_parseI64 {s : Str} {n : Int} (h : parseI64 s = some n) : isF64 s = true := by
  unfold parseI64 at h
  unfold isF64
  split at h
  · rename_i t
    cases hp : parseDigits t with
    | none => simp [hp] at h
    | some k => simp [float_of_digits t (by simp [hp])]
  · rename_i t
    cases hp : parseDigits t with
    | none => simp [hp] at h
    | some k => simp [float_of_digits t (by simp [hp])]
  · rename_i t hm hp'
    cases hp : parseDigits s with
    | none => simp [hp] at h
    | some k =>
      have hk := float_of_digits s (by simp [hp])
      dsimp only
      split
      · rename_i u; exact absurd rfl (hp' u)
      · rename_i u; exact absurd rfl (hm u)
      · simp [hk]

end YamlSubset
