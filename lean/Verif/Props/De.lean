import Verif.Lemmas.TypedSer
import Verif.Lemmas.KernelRfl

/-! # Properties of serialization and deserialization (C05 - C11, C45, C47)

`fromYaml Γ n ty y` runs with recursion depth at most `n`; a result other than `.oof` does not depend on the
depth (`fromYaml_depth`), and the theorems give results for all sufficiently large depths. -/

namespace YamlSubset

open Spec

/-- A result does not change when more depth is allowed. -/
theorem fromYaml_depth (Γ : Nat → Ty) {n m : Nat} (h : n ≤ m) {ty : Ty} {y : Yaml}
    (hn : fromYaml Γ n ty y ≠ .oof) : fromYaml Γ m ty y = fromYaml Γ n ty y := by
  unfold fromYaml at *
  rw [de_mono Γ h rfl]
  intro ho
  rw [ho] at hn
  exact hn rfl

theorem fromYaml_of_reads {Γ : Nat → Ty} {n : Nat} {ty : Ty} {y : Yaml} {v : SVal}
    (h : Yields (de Γ n ty) v y) {m : Nat} (hm : n ≤ m) : fromYaml Γ m ty y = .ok v := by
  rw [fromYaml, h.mono hm []]; rfl

/-! ## C05 -/

/-- **C05** Reading the node made for a string as a `String` gives the string. -/
theorem C05_string_roundtrip (Γ : Nat → Ty) (s : Str) :
    ∃ y, (SVal.str s).ser = some y ∧ y.asString = some s ∧
      ∀ n, 0 < n → fromYaml Γ n .str y = .ok (.str s) := by
  refine ⟨strToYaml s, by simp [SVal.ser], C05_serialized_string_value s, fun n hn => ?_⟩
  refine fromYaml_of_reads (n := 1) (fun σ => ?_) hn
  rw [de.eq_def]
  simp [intoResolved_of_string (C05_serialized_string_value s), C05_serialized_string_value]

example : ∃ y, (SVal.str c!"it's\n\"5\"").ser = some y ∧ fromYaml (fun _ => .str) 1 .str y =
    .ok (.str c!"it's\n\"5\"") := by
  obtain ⟨y, h1, -, h2⟩ := C05_string_roundtrip (fun _ => .str) c!"it's\n\"5\""
  exact ⟨y, h1, h2 1 (by decide)⟩

/-! ## C06 -/

theorem canBeUnquoted_spec {s : Str} (h : canBeUnquotedInBlock s = true) :
    parseI64 s = none ∧ isF64 s = false ∧ s ≠ c!"true" ∧ s ≠ c!"false" ∧ s ≠ c!"null" ∧ s ≠ c!"~" := by
  unfold canBeUnquotedInBlock at h
  split at h
  · simp at h
  · split at h
    all_goals
      split at h
      · simp at h
      · first
        | (split at h
           · simp at h
           · simpa [and_assoc] using h)
        | simpa [and_assoc] using h

/-- **C06** Self-describing reading of the node made for a string gives that string exactly if the
string is not one of the two words `Null` and `NULL`. -/
theorem C06_string_stays_string_iff (Γ : Nat → Ty) (s : Str) {n : Nat} (hn : 0 < n) :
    fromYaml Γ n .any (strToYaml s) = .ok (.str s) ↔ ¬(s = c!"Null" ∨ s = c!"NULL") := by
  obtain ⟨n, rfl⟩ : ∃ k, n = k + 1 := ⟨n - 1, by omega⟩
  constructor
  · rintro h (rfl | rfl) <;> exact absurd h (by nofun)
  · intro hs
    have hv := C05_serialized_string_value s
    have hd : de Γ (n + 1) .any (strToYaml s) [] = .ok (.str s, []) := by
      cases hy : strToYaml s with
      | unquotedString t =>
        rw [hy] at hv
        simp only [Yaml.asString, Option.some.injEq] at hv
        subst hv
        rw [de_any]
        dsimp only [plainOf]
        have hq : needsQuoting t = false := by
          rw [Bool.eq_false_iff]
          intro hq
          unfold strToYaml at hy
          rw [hq] at hy
          simp only [Bool.not_true, Bool.false_eq_true, if_false] at hy
          split at hy
          · split at hy <;> simp at hy
          · simp at hy
        simp only [needsQuoting, Bool.or_eq_false_iff, Bool.not_eq_false'] at hq
        obtain ⟨hi, hf, h1, h2, h3, h4⟩ := canBeUnquoted_spec hq.1
        have hw : isNullWord t = false := by
          rw [Bool.eq_false_iff]
          intro hw
          rcases isNullWord_iff.1 hw with h | h | h | h
          · exact h4 h
          · exact h3 h
          · exact hs (.inl h)
          · exact hs (.inr h)
        have hu : parseU64 t = none := by
          cases hu : parseU64 t with
          | none => rfl
          | some k => rw [f64_of_parseU64 hu] at hf; simp at hf
        simp [deAnyPlain, hw, h1, h2, hi, hu, hf]
      | doubleQuotedString ps => rw [hy] at hv; rw [de.eq_def]; simp [hv]
      | singleQuotedString ps => rw [hy] at hv; rw [de.eq_def]; simp [hv]
      | literalString ls c => rw [hy] at hv; rw [de.eq_def]; simp [hv]
      | foldedString ls c => rw [hy] at hv; rw [de.eq_def]; simp [hv]
      | hash => rw [hy] at hv; simp [Yaml.asString] at hv
      | inlineHash => rw [hy] at hv; simp [Yaml.asString] at hv
      | array => rw [hy] at hv; simp [Yaml.asString] at hv
      | inlineArray => rw [hy] at hv; simp [Yaml.asString] at hv
      | anchor => rw [hy] at hv; simp [Yaml.asString] at hv
    rw [fromYaml, hd]; rfl

example : ¬(c!"18446744073709551615" = c!"Null" ∨ c!"18446744073709551615" = c!"NULL") := by decide

/-- **C06** The exception: `Null` is written plain and read as a null. -/
theorem C06_counterexample : (SVal.str c!"Null").ser = some (.unquotedString c!"Null") ∧
    fromYaml (fun _ => .any) 1 .any (.unquotedString c!"Null") = .ok .unit := ⟨rfl, by kernel_rfl⟩

/-! ## C08 -/

theorem parseI64_intToStr_none {i : Int} (h : ¬(-2 ^ 63 ≤ i ∧ i < 2 ^ 63)) :
    parseI64 (intToStr i) = none := by
  cases i with
  | ofNat n =>
    have : ¬ n < 2 ^ 63 := by simp at h; omega
    rw [intToStr, parseI64, parseDigits_natToStr]
    · simp only [this, if_false]
    · exact fun t ht => (natToStr_no_sign n t).2 ht
    · exact fun t ht => (natToStr_no_sign n t).1 ht
  | negSucc n =>
    have : ¬ n + 1 ≤ 2 ^ 63 := by omega
    rw [intToStr, parseI64, parseDigits_natToStr]
    simp only [this, if_false]

theorem parseU64_intToStr_none {i : Int} (h : ¬(0 ≤ i ∧ i < 2 ^ 64)) : parseU64 (intToStr i) = none := by
  cases i with
  | ofNat n =>
    have : ¬ n < 2 ^ 64 := by simp at h; omega
    rw [intToStr, parseU64, parseDigits_natToStr]
    · simp only [this, if_false]
    · exact fun t ht => (natToStr_no_sign n t).1 ht
  | negSucc n =>
    have hd : parseDigits ('-' :: natToStr (n + 1)) = none := by simp [parseDigits, isDigit]
    show (match parseDigits ('-' :: natToStr (n + 1)) with
      | some n => if n < 2 ^ 64 then some n else none
      | none => none) = none
    rw [hd]

/-- **C08** For every integer and every integer type up to 64 bits: the text of the integer is read as the
integer if it is in the range of the type, and is an error otherwise. -/
theorem C08_int_typed (Γ : Nat → Ty) (k : IntTy) (hk : k ≠ .i128 ∧ k ≠ .u128) (i : Int) {n : Nat} (hn : 0 < n) :
    ∃ y, (SVal.int i).ser = some y ∧
      fromYaml Γ n (.int k) y = if InRange k i then .ok (.int i) else .err := by
  obtain ⟨n, rfl⟩ : ∃ k, n = k + 1 := ⟨n - 1, by omega⟩
  refine ⟨.unquotedString (intToStr i), by simp [SVal.ser], ?_⟩
  by_cases h : k.min ≤ i ∧ i ≤ k.max
  · rw [if_pos (inRange_iff.2 h)]
    exact fromYaml_of_reads (de_int_plain (n := n) hk h) (by omega)
  · rw [if_neg (mt inRange_iff.1 h), fromYaml, de.eq_def]
    simp only [intoResolved, deInt, Yaml.asString]
    cases hp : parseInt k (intToStr i) with
    | none => rfl
    | some j =>
      have hj : j = i := by
        cases k <;> simp only [parseInt] at hp
        all_goals first
          | (simp at hk; done)
          | (by_cases hr : -2 ^ 63 ≤ i ∧ i < 2 ^ 63
             · rw [parseI64_intToStr hr] at hp; simpa using hp.symm
             · rw [parseI64_intToStr_none hr] at hp; simp at hp)
          | (by_cases hr : 0 ≤ i ∧ i < 2 ^ 64
             · rw [parseU64_intToStr hr] at hp; simpa using hp.symm
             · rw [parseU64_intToStr_none hr] at hp; simp at hp)
      subst hj
      simp [h]

/-- **C08** For every text: a value read at an integer type is in the range of the type. -/
theorem C08_int_in_range (Γ : Nat → Ty) (k : IntTy) (n : Nat) (y : Yaml) (v : SVal)
    (h : fromYaml Γ n (.int k) y = .ok v) : ∃ i, v = .int i ∧ InRange k i := by
  cases n with
  | zero => simp [fromYaml, de] at h
  | succ n =>
    rw [fromYaml, de.eq_def] at h
    dsimp only at h
    cases hr : intoResolved [] y with
    | none => simp [hr, Out.bind] at h
    | some z =>
      rw [hr] at h
      simp only [deInt] at h
      split at h
      · split at h
        · split at h
          · rename_i i _ hi
            simp only [Out.bind_ok, Out.ok.injEq] at h
            exact ⟨i, h.symm, inRange_iff.2 hi⟩
          · simp [Out.bind] at h
        · simp [Out.bind] at h
      · simp [Out.bind] at h

/-- **C08** Self-describing reading gives every `i64` and every `u64` back. -/
theorem C08_int_self_describing (Γ : Nat → Ty) (i : Int) (h : -2 ^ 63 ≤ i ∧ i < 2 ^ 64) {n : Nat} (hn : 0 < n) :
    ∃ y, (SVal.int i).ser = some y ∧ fromYaml Γ n .any y = .ok (.int i) := by
  obtain ⟨n, rfl⟩ : ∃ k, n = k + 1 := ⟨n - 1, by omega⟩
  refine ⟨.unquotedString (intToStr i), by simp [SVal.ser], ?_⟩
  rw [fromYaml, de_any]
  dsimp only [plainOf]
  have hne : ∀ w : Str, w.all floatChar = false → intToStr i ≠ w := by
    intro w hw he
    rw [← he, intToStr_floatChars] at hw; simp at hw
  rw [deAnyPlain, isNullWord_intToStr, if_neg (by simp), if_neg (hne _ (by decide)), if_neg (hne _ (by decide))]
  by_cases hr : -2 ^ 63 ≤ i ∧ i < 2 ^ 63
  · rw [parseI64_intToStr hr]; rfl
  · rw [parseI64_intToStr_none hr]
    have := parseU64_intToStr (i := i) (by omega)
    cases hu : parseU64 (intToStr i) with
    | none => simp [hu] at this
    | some k =>
      rw [hu] at this
      have hk : (k : Int) = i := by simpa using this
      simp [hk, Out.bind]

/-- **C08** Booleans, typed and self-describing. -/
theorem C08_bool (Γ : Nat → Ty) (b : Bool) {n : Nat} (hn : 0 < n) :
    ∃ y, (SVal.bool b).ser = some y ∧ fromYaml Γ n .bool y = .ok (.bool b) ∧
      fromYaml Γ n .any y = .ok (.bool b) := by
  obtain ⟨n, rfl⟩ : ∃ k, n = k + 1 := ⟨n - 1, by omega⟩
  exact ⟨.unquotedString (if b then c!"true" else c!"false"), by cases b <;> rfl, by cases b <;> rfl,
    by cases b <;> rfl⟩

example : fromYaml (fun _ => .any) 1 (.int .u8) (.unquotedString c!"255") = .ok (.int 255) ∧
    fromYaml (fun _ => .any) 1 (.int .u8) (.unquotedString c!"256") = .err ∧
    fromYaml (fun _ => .any) 1 (.int .u8) (.unquotedString c!"-1") = .err ∧
    fromYaml (fun _ => .any) 1 (.int .i64) (.unquotedString c!"9223372036854775808") = .err ∧
    fromYaml (fun _ => .any) 1 .any (.unquotedString c!"9223372036854775808") = .ok (.int 9223372036854775808) := by
  refine ⟨?_, ?_, ?_, ?_, ?_⟩ <;> kernel_rfl

/-! ## C09 -/

/-- **C09** For every value of every type built from booleans, integers up to 64 bits, floats,
characters, strings, byte buffers, unit, `Option`, newtypes, sequences, tuples, maps, structs with distinct field
names, unit variants and recursive types: if serialization succeeds, deserialization at the type gives the value
back, unless the value has enum variants with data or null-like values inside `Some` (`Lossless`). For those the value does not come back, see
`C09_typed_roundtrip_exact`. Serialization fails only at keys of maps, see `C11_map_keys_unchanged`. -/
theorem C09_typed_roundtrip (Γ : Nat → Ty) (ty : Ty) (v : SVal) (ht : HasTy Γ ty v) (hl : Lossless v) (y : Yaml)
    (h : v.ser = some y) : ∃ n, ∀ m, n ≤ m → fromYaml Γ m ty y = .ok v := by
  obtain ⟨n, hn⟩ := de_repr (repr_ser ht hl h)
  exact ⟨n, fun m hm => fromYaml_of_reads hn hm⟩

/-- A struct with an optional field, a sequence of tuples, a map and a recursive type (a list). -/
def exampleTy : Ty := .struct [(c!"name", .option .str), (c!"pts", .seq (.tuple [.int .i32, .bool])),
  (c!"m", .map .str (.int .u64)), (c!"list", .ref 0)]

def exampleEnv : Nat → Ty
  | _ => .option (.struct [(c!"head", .str), (c!"tail", .ref 0)])

def exampleVal : SVal := .struct [(c!"name", .some (.str c!"null")), (c!"pts", .seq [.tuple [.int (-5), .bool true]]),
  (c!"m", .map [(.str c!"k", .int 18446744073709551615)]),
  (c!"list", .some (.struct [(c!"head", .str c!"a\nb"), (c!"tail", .none)]))]

theorem exampleVal_hasTy : HasTy exampleEnv exampleTy exampleVal := by
  refine .struct [(_, _, _), (_, _, _), (_, _, _), (_, _, _)] (by decide) fun k t v h => ?_
  simp only [List.mem_cons, Prod.mk.injEq, List.not_mem_nil, or_false] at h
  rcases h with ⟨-, rfl, rfl⟩ | ⟨-, rfl, rfl⟩ | ⟨-, rfl, rfl⟩ | ⟨-, rfl, rfl⟩
  · exact .some (.str _)
  · refine .seq fun v hv => ?_
    simp only [List.mem_singleton] at hv
    subst hv
    refine .tuple [(_, _), (_, _)] fun t v h => ?_
    simp only [List.mem_cons, Prod.mk.injEq, List.not_mem_nil, or_false] at h
    rcases h with ⟨rfl, rfl⟩ | ⟨rfl, rfl⟩
    · exact .int (by decide) (by decide)
    · exact .bool _
  · refine .map (fun k v h => ?_) (fun k v h => ?_)
    all_goals
      simp only [List.mem_singleton, Prod.mk.injEq] at h
      obtain ⟨rfl, rfl⟩ := h
    · exact .str _
    · exact .int (by decide) (by decide)
  · refine .ref (.some (.struct [(_, _, _), (_, _, _)] (by decide) fun k t v h => ?_))
    simp only [List.mem_cons, Prod.mk.injEq, List.not_mem_nil, or_false] at h
    rcases h with ⟨-, rfl, rfl⟩ | ⟨-, rfl, rfl⟩
    · exact .str _
    · exact .ref (.none _)

theorem exampleVal_lossless : Lossless exampleVal := by
  refine .struct fun k v h => ?_
  simp only [List.mem_cons, Prod.mk.injEq, List.not_mem_nil, or_false] at h
  rcases h with ⟨-, rfl⟩ | ⟨-, rfl⟩ | ⟨-, rfl⟩ | ⟨-, rfl⟩
  · refine .some (.str _) fun h => ?_
    cases h with
    | str h => exact absurd h (by decide)
  · refine .seq fun v hv => ?_
    simp only [List.mem_singleton] at hv
    subst hv
    refine .tuple fun v h => ?_
    simp only [List.mem_cons, List.not_mem_nil, or_false] at h
    rcases h with rfl | rfl
    · exact .int _
    · exact .bool _
  · refine .map (fun k v h => ?_) (fun k v h => ?_)
    all_goals
      simp only [List.mem_singleton, Prod.mk.injEq] at h
      obtain ⟨rfl, rfl⟩ := h
    · exact .str _
    · exact .int _
  · refine .some (.struct fun k v h => ?_) (by nofun)
    simp only [List.mem_cons, Prod.mk.injEq, List.not_mem_nil, or_false] at h
    rcases h with ⟨-, rfl⟩ | ⟨-, rfl⟩
    · exact .str _
    · exact .none

example : ∃ y, exampleVal.ser = some y ∧ ∃ n, ∀ m, n ≤ m → fromYaml exampleEnv m exampleTy y = .ok exampleVal :=
  ⟨_, rfl, C09_typed_roundtrip _ _ _ exampleVal_hasTy exampleVal_lossless _ rfl⟩

/-- **C09** fails for variants that carry data: the name of the variant is not written, so reading fails. -/
theorem C09_counterexample_variant (Γ : Nat → Ty) (n : Nat) :
    (SVal.newtypeVariant c!"A" (.int 5)).ser = some (.unquotedString c!"5") ∧
    fromYaml Γ (n + 1) (.enum [(c!"A", .newtype (.int .i64))]) (.unquotedString c!"5") = .err := ⟨rfl, rfl⟩

/-- **C09** fails for `Some(None)`. -/
theorem C09_counterexample_some (Γ : Nat → Ty) (n : Nat) :
    (SVal.some .none).ser = some (.unquotedString c!"~") ∧
    fromYaml Γ (n + 1) (.option (.option .bool)) (.unquotedString c!"~") = .ok .none := ⟨rfl, rfl⟩

/-! ## C07 -/

/-- **C07** `Some(s)` is read back exactly if `s` is not one of the words `Null` and `NULL`. -/
theorem C07_some_string_iff (Γ : Nat → Ty) (s : Str) {n : Nat} (hn : 1 < n) :
    ∃ y, (SVal.some (.str s)).ser = some y ∧
      (fromYaml Γ n (.option .str) y = .ok (.some (.str s)) ↔ ¬(s = c!"Null" ∨ s = c!"NULL")) := by
  obtain ⟨n, rfl⟩ : ∃ k, n = k + 2 := ⟨n - 2, by omega⟩
  refine ⟨strToYaml s, by simp [SVal.ser], ?_, fun hs => ?_⟩
  · rintro h (rfl | rfl) <;> exact absurd h (by nofun)
  · have hnn := notNull_of_strToYaml hs
    have hv := C05_serialized_string_value s
    refine fromYaml_of_reads (n := 2) (fun σ => ?_) (by omega)
    have h1 : de Γ 1 .str (strToYaml s) σ = .ok (.str s, σ) := by
      rw [de.eq_def]
      simp [intoResolved_of_string hv, hv]
    rw [de_option, intoResolved_of_string hv]
    dsimp only
    rw [h1]
    cases hp : plainOf (strToYaml s) with
    | none => rfl
    | some t =>
      dsimp only
      rw [if_neg]
      · rfl
      · intro hw
        have ht : t = s := by
          rw [eq_of_plainOf hp] at hv
          simpa [Yaml.asString] using hv
        subst ht
        have := (hnn t hv hw).1
        rw [hp] at this
        simp at this

example : ¬(c!"~" = c!"Null" ∨ c!"~" = c!"NULL") ∧
    (SVal.some (.str c!"~")).ser = some (.singleQuotedString [.string c!"~"]) := ⟨by decide, rfl⟩

/-- **C07** fails for `Some("NULL")`. -/
theorem C07_counterexample (Γ : Nat → Ty) (n : Nat) :
    (SVal.some (.str c!"NULL")).ser = some (.unquotedString c!"NULL") ∧
    fromYaml Γ (n + 1) (.option .str) (.unquotedString c!"NULL") = .ok .none := ⟨rfl, rfl⟩

/-! ## C10 -/

/-- **C10** As C09, with `pretty` in between, in every context, if every text of more than 90 bytes wraps
cleanly (the class of C02). The exact condition is in `C10_pretty_roundtrip_exact`. -/
theorem C10_pretty_roundtrip (Γ : Nat → Ty) (ty : Ty) (v : SVal) (ht : HasTy Γ ty v) (hl : Lossless v)
    (hs : AllText (fun s => byteLen s ≤ 90 ∨ SurvivesFolding 90 s) v) (y : Yaml) (h : v.ser = some y)
    (inInline childOfArray : Bool) :
    ∃ n, ∀ m, n ≤ m → fromYaml Γ m ty (y.pretty inInline childOfArray) = .ok v := by
  obtain ⟨n, hn⟩ := de_repr ((repr_ser ht hl h).pretty hs inInline childOfArray)
  exact ⟨n, fun m hm => fromYaml_of_reads hn hm⟩

theorem exampleVal_allText : AllText (fun s => byteLen s ≤ 90 ∨ SurvivesFolding 90 s) exampleVal := by
  refine .struct fun k v h => ?_
  simp only [List.mem_cons, Prod.mk.injEq, List.not_mem_nil, or_false] at h
  rcases h with ⟨-, rfl⟩ | ⟨-, rfl⟩ | ⟨-, rfl⟩ | ⟨-, rfl⟩
  · exact .some (.str (.inl (by decide)))
  · refine .seq fun v hv => ?_
    simp only [List.mem_singleton] at hv
    subst hv
    refine .tuple fun v h => ?_
    simp only [List.mem_cons, List.not_mem_nil, or_false] at h
    rcases h with rfl | rfl
    · exact .int _
    · exact .bool _
  · refine .map (fun k v h => ?_)
    simp only [List.mem_singleton, Prod.mk.injEq] at h
    obtain ⟨rfl, rfl⟩ := h
    exact .int _
  · refine .some (.struct fun k v h => ?_)
    simp only [List.mem_cons, Prod.mk.injEq, List.not_mem_nil, or_false] at h
    rcases h with ⟨-, rfl⟩ | ⟨-, rfl⟩
    · exact .str (.inl (by decide))
    · exact .none

set_option maxRecDepth 20000 in
/-- **C10** fails for a long word that needs quotes: it gets a space in front. -/
theorem C10_counterexample : ∃ y, (SVal.str ('#' :: List.replicate 91 'a')).ser = some y ∧
    fromYaml (fun _ => .any) 1 .str (y.pretty false false) = .ok (.str (' ' :: '#' :: List.replicate 91 'a')) :=
  ⟨_, rfl, by kernel_rfl⟩

/-! ## C11 -/

theorem keyText_of_ser (v : SVal) {y : Yaml} {s : Str} (h : v.ser = some y) (hs : y.asString = some s) :
    KeyString v s := by
  match v with
  | .bool b => simp [SVal.ser] at h; subst h; simp [Yaml.asString] at hs; subst hs; exact .bool b
  | .int i => simp [SVal.ser] at h; subst h; simp [Yaml.asString] at hs; subst hs; exact .int i
  | .float i => simp [SVal.ser] at h; subst h; simp [Yaml.asString] at hs; subst hs; exact .float i
  | .char c =>
    simp [SVal.ser] at h; subst h; rw [C05_serialized_string_value] at hs; cases hs; constructor
  | .str c =>
    simp [SVal.ser] at h; subst h; rw [C05_serialized_string_value] at hs; cases hs; constructor
  | .unit => simp [SVal.ser] at h; subst h; simp [Yaml.asString] at hs; subst hs; exact .unit
  | .none => simp [SVal.ser] at h; subst h; simp [Yaml.asString] at hs; subst hs; exact .none
  | .some v => exact .some (keyText_of_ser v (by simpa [SVal.ser] using h) hs)
  | .newtype v => exact .newtype (keyText_of_ser v (by simpa [SVal.ser] using h) hs)
  | .unitVariant c =>
    simp [SVal.ser] at h; subst h; rw [C05_serialized_string_value] at hs; cases hs; constructor
  | .newtypeVariant _ v => exact .newtypeVariant (keyText_of_ser v (by simpa [SVal.ser] using h) hs)
  | .bytes bs => simp [SVal.ser] at h; subst h; simp [Yaml.asString, seqNode] at hs
  | .seq bs => simp [SVal.ser] at h; obtain ⟨_, _, rfl⟩ := h; simp [Yaml.asString, seqNode] at hs
  | .tuple bs => simp [SVal.ser] at h; obtain ⟨_, _, rfl⟩ := h; simp [Yaml.asString] at hs
  | .tupleVariant _ bs => simp [SVal.ser] at h; obtain ⟨_, _, rfl⟩ := h; simp [Yaml.asString] at hs
  | .map bs => simp [SVal.ser] at h; obtain ⟨_, _, rfl⟩ := h; simp [Yaml.asString, mapNode] at hs
  | .struct bs => simp [SVal.ser] at h; obtain ⟨_, _, rfl⟩ := h; simp [Yaml.asString, mapNode] at hs
  | .structVariant _ bs => simp [SVal.ser] at h; obtain ⟨_, _, rfl⟩ := h; simp [Yaml.asString, mapNode] at hs

/-- **C11** If serializing a map succeeds, the result is a block hash with one element for each entry, in order,
whose key is the text of the key unchanged and whose value is the serialized value. -/
theorem C11_map_keys_unchanged (es : List (SVal × SVal)) (y : Yaml) (h : (SVal.map es).ser = some y) :
    ∃ ds, y = .hash ds ∧ ds.length = es.length ∧
      ∀ i (hi : i < es.length), ∃ key z, ds[i]? = some (.element ⟨key, ⟨none, z⟩⟩) ∧
        KeyString es[i].1 key ∧ es[i].2.ser = some z := by
  simp only [SVal.ser, Option.map_eq_some_iff] at h
  obtain ⟨ys, hy, rfl⟩ := h
  obtain ⟨ps, rfl, rfl, hp⟩ := serEntries_map hy
  refine ⟨_, rfl, by simp, fun i hi => ?_⟩
  simp only [List.length_map] at hi
  simp only [List.getElem?_map, List.getElem?_eq_getElem hi, Option.map_some, List.getElem_map]
  obtain ⟨hk, hv⟩ := hp ps[i] (List.getElem_mem hi)
  refine ⟨_, _, rfl, ?_, hv⟩
  simp only [Option.bind_eq_some_iff] at hk
  obtain ⟨z, hz, hk⟩ := hk
  refine keyText_of_ser _ hz ?_
  cases z <;> simp [yamlToKeyString] at hk <;> simp [Yaml.asString, hk]

/-- **C11** Struct field names are stored unchanged, in order. -/
theorem C11_field_names_unchanged (fs : List (Str × SVal)) (y : Yaml) (h : (SVal.struct fs).ser = some y) :
    ∃ ds, y = .hash ds ∧ ds.length = fs.length ∧
      ∀ i (hi : i < fs.length), ∃ z, ds[i]? = some (.element ⟨fs[i].1, ⟨none, z⟩⟩) ∧ fs[i].2.ser = some z := by
  simp only [SVal.ser, Option.map_eq_some_iff] at h
  obtain ⟨ys, hy, rfl⟩ := h
  obtain ⟨ps, rfl, rfl, hp⟩ := serFields_map (fun q : Str × SVal => q.1) (fun q => q.2) (qs := fs)
    (by simpa using hy)
  refine ⟨_, rfl, by simp, fun i hi => ?_⟩
  simp only [List.length_map] at hi
  simp only [List.getElem?_map, List.getElem?_eq_getElem hi, Option.map_some, List.getElem_map]
  exact ⟨_, rfl, hp ps[i] (List.getElem_mem hi)⟩

/-- A string that is written plain is always accepted as a key. -/
theorem C11_plain_key_accepted (s : Str) (h : needsQuoting s = false) :
    (SVal.str s).ser.bind yamlToKeyString = some s := by
  simp [SVal.ser, strToYaml, h, yamlToKeyString]

example : (SVal.map [(.str c!"a b", .int 1), (.int 7, .str c!"x"), (.str c!"two\nlines", .unit)]).ser =
    some (.hash [.element ⟨c!"a b", ⟨none, .unquotedString c!"1"⟩⟩, .element ⟨c!"7", ⟨none, .unquotedString c!"x"⟩⟩,
      .element ⟨c!"two\nlines", ⟨none, .unquotedString c!"~"⟩⟩]) := rfl

/-- A key whose node is single quoted is rejected. -/
example : (SVal.map [(.str c!"a: b", .int 1)]).ser = none := rfl

/-! ## C45 -/

/-- **C45** Deserialization depends only on the view of a tree, which knows neither comments nor whether a
collection is written in block or in flow style, nor which style a scalar has, unless it is plain and its text is a word for null, true or
false or a number. -/
theorem C45_view_determines (Γ : Nat → Ty) (n : Nat) (ty : Ty) (y y' : Yaml) (h : viewOf y = viewOf y') :
    fromYaml Γ n ty y = fromYaml Γ n ty y' := fromYaml_same Γ n ty h

/-- **C45** Removing all comments does not change the result. -/
theorem C45_comments_invisible (Γ : Nat → Ty) (n : Nat) (ty : Ty) (y : Yaml) :
    fromYaml Γ n ty (stripComments y) = fromYaml Γ n ty y := fromYaml_same Γ n ty (view_strip y)

/-- **C45** Writing all block collections without anchor definitions in flow style does not change the result. -/
theorem C45_flow_style_invisible (Γ : Nat → Ty) (n : Nat) (ty : Ty) (y : Yaml) :
    fromYaml Γ n ty (preferFlow y) = fromYaml Γ n ty y := fromYaml_same Γ n ty (view_flow y)

/-- **C45** Writing all quoted and block scalars as plain ones, except those whose text is a word for null, true or false or a number,
does not change the result. -/
theorem C45_quotes_invisible (Γ : Nat → Ty) (n : Nat) (ty : Ty) (y : Yaml) :
    fromYaml Γ n ty (dropQuotes y) = fromYaml Γ n ty y := fromYaml_same Γ n ty (view_drop y)

/-- **C45** The exceptions are needed: for the words and the numbers there is a type at which the plain scalar and a quoted scalar are
read differently, for all other texts there is none. -/
theorem C45_quotes_exact (s : Str) (y : Yaml) (hy : y.asString = some s) (hq : y ≠ .unquotedString s) :
    (∀ Γ n ty, fromYaml Γ n ty (.unquotedString s) = fromYaml Γ n ty y) ↔ ¬ SpecialText s := by
  constructor
  · intro h hs
    have hbool : ∀ Γ : Nat → Ty, fromYaml Γ 1 .bool y = .err := by
      intro Γ
      cases y <;> simp [Yaml.asString] at hy <;> first | exact absurd (congrArg Yaml.unquotedString hy) hq | rfl
    have hany : ∀ Γ : Nat → Ty, fromYaml Γ 1 .any y = .ok (.str s) := by
      intro Γ
      cases y <;> simp [Yaml.asString] at hy <;> first | exact absurd (congrArg Yaml.unquotedString hy) hq | (subst hy; rfl)
    have hp : ∀ Γ : Nat → Ty, fromYaml Γ 1 .any (.unquotedString s) = .ok (deAnyPlain s) := fun _ => rfl
    have hb : ∀ Γ : Nat → Ty, fromYaml Γ 1 .bool (.unquotedString s) =
        if s ∈ trueWords then .ok (.bool true) else if s ∈ falseWords then .ok (.bool false) else .err := by
      intro Γ
      simp only [fromYaml, de, intoResolved, deBool]
      split
      · rfl
      · split <;> rfl
    have h1 := h (fun _ => .any) 1 .any
    have h2 := h (fun _ => .any) 1 .bool
    rw [hp, hany] at h1
    rw [hb, hbool] at h2
    simp only [Out.ok.injEq] at h1
    rcases hs with hs | hs | hs | hs
    · have : isNullWord s = true := by simpa [isNullWord, or_assoc] using hs
      simp [deAnyPlain, this] at h1
    · have : s ∈ trueWords := hs
      rw [if_pos this] at h2; cases h2
    · have : s ∈ falseWords := hs
      rw [if_pos this] at h2
      split at h2 <;> cases h2
    · unfold deAnyPlain at h1
      rw [if_pos hs] at h1
      split at h1
      · cases h1
      · split at h1
        · cases h1
        · split at h1
          · cases h1
          · split at h1
            · cases h1
            · split at h1 <;> cases h1
  · intro hs Γ n ty
    refine fromYaml_same Γ n ty ?_
    show viewOf _ = viewOf y
    have : viewOf y = .text s := by
      cases y <;> simp [Yaml.asString] at hy <;> first | exact absurd (congrArg Yaml.unquotedString hy) hq | (subst hy; rfl)
    rw [this]
    simp [viewOf, hs]

example : dropQuotes (.inlineArray [.singleQuotedString [.string c!"a"], .doubleQuotedString [.string c!"5"], .literalString [c!"on"] .strip,
      .foldedString [c!"off", c!"on"] .strip]) =
    .inlineArray [.unquotedString c!"a", .doubleQuotedString [.string c!"5"], .literalString [c!"on"] .strip, .unquotedString c!"off on"] := by
  kernel_rfl

example : stripComments (.hash [.comment c!" c", .element ⟨c!"a", ⟨some c!"x", .array [.inlineComment c!" i",
      .element ⟨none, .unquotedString c!"1"⟩]⟩⟩]) =
    .hash [.element ⟨c!"a", ⟨some c!"x", .array [.element ⟨none, .unquotedString c!"1"⟩]⟩⟩] ∧
    preferFlow (.hash [.comment c!" c", .element ⟨c!"a", ⟨some c!"x", .array [.inlineComment c!" i",
      .element ⟨none, .unquotedString c!"1"⟩]⟩⟩]) =
    .hash [.comment c!" c", .element ⟨c!"a", ⟨some c!"x", .inlineArray [.unquotedString c!"1"]⟩⟩] := ⟨rfl, rfl⟩

/-! ## C47 -/

/-- **C47** Deserialization returns `Ok` or `Err`, at every type and for every tree, unless it does not end. -/
theorem C47_no_panic (Γ : Nat → Ty) (n : Nat) (ty : Ty) (y : Yaml) :
    (∃ v, fromYaml Γ n ty y = .ok v) ∨ fromYaml Γ n ty y = .err ∨ fromYaml Γ n ty y = .oof := by
  have h := de_safe Γ n ty y []
  unfold fromYaml
  cases hd : de Γ n ty y [] with
  | ok r => exact .inl ⟨r.1, rfl⟩
  | err => exact .inr (.inl rfl)
  | panic => exact absurd hd h.1
  | unmatched => exact absurd hd h.2
  | oof => exact .inr (.inr rfl)

/-- All three cases occur. -/
example (Γ : Nat → Ty) : fromYaml Γ 9 (.seq .any) (.inlineArray [.unquotedString c!"~"]) = .ok (.seq [.unit]) ∧
    fromYaml Γ 9 (.seq .any) (.unquotedString c!"~") = .err ∧
    fromYaml Γ 9 (.seq .any) (.array [.element ⟨some c!"x", .inlineArray [.anchor c!"x"]⟩]) = .oof := by
  refine ⟨rfl, rfl, ?_⟩
  kernel_rfl

end YamlSubset
