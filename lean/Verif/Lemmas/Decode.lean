import Verif.Lemmas.NumberText
import Verif.Lemmas.DeHalt
import Verif.Lemmas.DeAnchors
import Verif.Lemmas.KernelRfl

/-! # The deserializer computes `Decodes` -/

namespace YamlSubset

open Spec

/-- No references anywhere in the tree. -/
def NoRefs (y : Yaml) : Prop := ∀ b, ¬RefersTo y b

theorem NoRefs.child {c y : Yaml} (h : NoRefs y) (hc : Child c y) : NoRefs c := fun b hb => h b (.step hc hb)

theorem NoRefs.refOf {y : Yaml} (h : NoRefs y) : refOf y = none := by
  cases y <;> first | rfl | exact absurd Within.self (h _)

theorem NoRefs.resolved {y : Yaml} (h : NoRefs y) (σ : Anchors) : intoResolved σ y = some y :=
  intoResolved_of_refOf h.refOf σ

theorem noRefs_plain (s : Str) : NoRefs (.unquotedString s) := by
  intro b h
  unfold RefersTo at h
  cases h with
  | step hc => cases hc

/-! ## Accessors -/

theorem asString_eq (y : Yaml) : y.asString = scalarText y := by cases y <;> rfl

theorem asSeq_eq (σ : Anchors) (y : Yaml) : (asSeq σ y).map (fun p => p.1) = seqElements y := by
  cases y <;> simp [asSeq, seqElements, seqValues_defs]

theorem asMap_eq (σ : Anchors) (y : Yaml) : (asMap σ y).map (fun p => p.1) = mapPairs y := by
  cases y <;> simp [asMap, mapPairs, hashEntries_defs]

theorem asSeq_of {σ : Anchors} {y : Yaml} {ys : List Yaml} (h : seqElements y = some ys) :
    ∃ σ', asSeq σ y = some (ys, σ') := by
  rw [← asSeq_eq σ] at h
  cases hs : asSeq σ y with
  | none => rw [hs] at h; cases h
  | some p => rw [hs] at h; cases h; exact ⟨_, rfl⟩

theorem asMap_of {σ : Anchors} {y : Yaml} {es : List (Str × Yaml)} (h : mapPairs y = some es) :
    ∃ σ', asMap σ y = some (es, σ') := by
  rw [← asMap_eq σ] at h
  cases hs : asMap σ y with
  | none => rw [hs] at h; cases h
  | some p => rw [hs] at h; cases h; exact ⟨_, rfl⟩

theorem child_seq {y c : Yaml} {ys : List Yaml} (h : seqElements y = some ys) (hc : c ∈ ys) : Child c y := by
  cases y <;> simp only [seqElements, Option.some.injEq, reduceCtorEq] at h <;> subst h
  · exact .inlineArray hc
  · exact child_of_elementsOf hc

theorem child_map {y c : Yaml} {k : Str} {es : List (Str × Yaml)} (h : mapPairs y = some es) (hc : (k, c) ∈ es) :
    Child c y := by
  cases y <;> simp only [mapPairs, Option.some.injEq, reduceCtorEq] at h <;> subst h
  · exact .inlineHash hc
  · exact child_of_entriesOf (List.mem_map.2 ⟨_, hc, rfl⟩)

/-! ## Words -/

theorem nullWord_iff {s : Str} : isNullWord s = true ↔ NullWord s := by
  simp [isNullWord, NullWord, or_assoc]

theorem trueWord_iff {s : Str} : s ∈ trueWords ↔ TrueWord s := by
  have : trueWords = ([c!"true", c!"yes", c!"on"] : List Str).flatMap spellings := by decide
  rw [this, List.mem_flatMap]
  rfl

theorem falseWord_iff {s : Str} : s ∈ falseWords ↔ FalseWord s := by
  have : falseWords = ([c!"false", c!"no", c!"off"] : List Str).flatMap spellings := by decide
  rw [this, List.mem_flatMap]
  rfl

theorem true_not_false {s : Str} (h : s ∈ falseWords) : s ∉ trueWords := by
  revert s
  decide

theorem deBool_iff {y : Yaml} {v : SVal} : deBool y = .ok v ↔
    ∃ s, y = .unquotedString s ∧ (TrueWord s ∧ v = .bool true ∨ FalseWord s ∧ v = .bool false) := by
  cases y <;> simp only [deBool, reduceCtorEq, false_and, exists_false]
  rename_i s
  simp only [Yaml.unquotedString.injEq, ← trueWord_iff, ← falseWord_iff]
  constructor
  · intro h
    split at h
    · rename_i ht
      cases h
      exact ⟨s, rfl, .inl ⟨ht, rfl⟩⟩
    · split at h
      · rename_i hf
        cases h
        exact ⟨s, rfl, .inr ⟨hf, rfl⟩⟩
      · cases h
  · rintro ⟨_, rfl, ⟨h, rfl⟩ | ⟨h, rfl⟩⟩
    · rw [if_pos h]
    · rw [if_neg (true_not_false h), if_pos h]

theorem deInt_iff {k : IntTy} {y : Yaml} {v : SVal} : deInt k y = .ok v ↔
    ∃ s, scalarText y = some s ∧
      ((Signed k ∧ ∃ i, IntText s i ∧ InRange k i ∧ v = .int i) ∨
        (Unsigned k ∧ ∃ n : Nat, NatText s n ∧ InRange k n ∧ v = .int n)) := by
  rw [deInt, asString_eq]
  cases scalarText y with
  | none => simp
  | some s =>
    simp only [Option.some.injEq, exists_eq_left']
    have hs : Signed k → parseInt k s = parseI64 s ∧ -2 ^ 63 ≤ k.min ∧ k.max < 2 ^ 63 := by
      rintro (rfl | rfl | rfl | rfl) <;> exact ⟨rfl, by decide, by decide⟩
    have hu : Unsigned k → parseInt k s = (parseU64 s).map (fun n : Nat => (n : Int)) ∧ k.min = 0 ∧ k.max < 2 ^ 64 := by
      rintro (rfl | rfl | rfl | rfl) <;> refine ⟨?_, by decide, by decide⟩ <;>
        (rw [parseInt]; cases parseU64 s <;> rfl)
    constructor
    · intro h
      split at h
      · rename_i i hi
        split at h
        · rename_i hr
          cases h
          have hk : Signed k ∨ Unsigned k := by
            cases k <;> first | (exfalso; cases hi; done) | (left; simp [Signed]; done) | (right; simp [Unsigned]; done)
          rcases hk with hk | hk
          · rw [(hs hk).1] at hi
            exact .inl ⟨hk, i, (parseI64_iff.1 hi).1, inRange_iff.2 hr, rfl⟩
          · rw [(hu hk).1, Option.map_eq_some_iff] at hi
            obtain ⟨n, hn, rfl⟩ := hi
            exact .inr ⟨hk, n, (parseU64_iff.1 hn).1, inRange_iff.2 hr, rfl⟩
        · cases h
      · cases h
    · rintro (⟨hk, i, hi, hr, rfl⟩ | ⟨hk, n, hn, hr, rfl⟩)
      · rw [inRange_iff] at hr
        obtain ⟨h1, h2, h3⟩ := hs hk
        rw [h1, parseI64_iff.2 ⟨hi, by omega, by omega⟩]
        simp [hr]
      · rw [inRange_iff] at hr
        obtain ⟨h1, h2, h3⟩ := hu hk
        have : parseU64 s = some n := parseU64_iff.2 ⟨hn, by omega⟩
        rw [h1, this]
        simp [h2, hr]

theorem number_not_word {s : Str} {i : Int} (h : WordSized s i) :
    isNullWord s = false ∧ s ≠ c!"true" ∧ s ≠ c!"false" := by
  have : ∃ c t, s = c :: t ∧ (c = '+' ∨ c = '-' ∨ isDigit c = true) := by
    have hn : ∀ {s : Str} {n : Nat}, NatText s n → ∃ c t, s = c :: t ∧ (c = '+' ∨ c = '-' ∨ isDigit c = true) := by
      intro s n h
      cases h with
      | digits h h0 =>
        cases s with
        | nil => exact absurd rfl h0
        | cons c t =>
          have := digits_iff.1 h
          simp only [List.all_cons, Bool.and_eq_true] at this
          exact ⟨c, t, rfl, .inr (.inr this.1)⟩
      | plus => exact ⟨_, _, rfl, .inl rfl⟩
    cases h with
    | signed h =>
      cases h with
      | nonneg h => exact hn h
      | minus => exact ⟨_, _, rfl, .inr (.inl rfl)⟩
    | unsigned h => exact hn h
  obtain ⟨c, t, rfl, hc⟩ := this
  have h1 : c ≠ '~' ∧ c ≠ 'n' ∧ c ≠ 'N' ∧ c ≠ 't' ∧ c ≠ 'f' := by
    refine ⟨?_, ?_, ?_, ?_, ?_⟩ <;> rintro rfl <;> revert hc <;> decide
  simp [isNullWord, h1]

theorem float_not_word {s : Str} (h : FloatText s) : isNullWord s = false ∧ s ≠ c!"true" ∧ s ≠ c!"false" := by
  have hc := f64_chars (isF64_iff.2 h)
  refine ⟨?_, ?_, ?_⟩
  · cases hn : isNullWord s with
    | false => rfl
    | true =>
      rw [nullWord_iff] at hn
      exfalso
      simp only [NullWord, List.mem_cons, List.not_mem_nil, or_false] at hn
      rcases hn with rfl | rfl | rfl | rfl <;> revert hc <;> decide
  · rintro rfl; revert hc; decide
  · rintro rfl; revert hc; decide

theorem anyPlain_int {s : Str} {i : Int} (h : WordSized s i) : deAnyPlain s = .int i := by
  obtain ⟨h1, h2, h3⟩ := number_not_word h
  rw [deAnyPlain, h1]
  simp only [Bool.false_eq_true, if_false, h2, h3]
  rcases wordSized_iff.1 h with h | ⟨n, hu, rfl⟩
  · rw [h]
  · replace h := hu
    clear hu
    cases hi : parseI64 s with
    | some j =>
      have a := (parseI64_iff.1 hi).1
      have b := IntText.nonneg (parseU64_iff.1 h).1
      simp only [a.value b]
    | none => simp only [h]

theorem notWordSized {s : Str} (hi : ∀ i, ¬WordSized s i) : parseI64 s = none ∧ parseU64 s = none := by
  constructor
  · cases h : parseI64 s with
    | none => rfl
    | some i => exact absurd (wordSized_iff.2 (.inl h)) (hi i)
  · cases h : parseU64 s with
    | none => rfl
    | some n => exact absurd (wordSized_iff.2 (.inr ⟨n, h, rfl⟩)) (hi n)

theorem anyPlain_float {s : Str} (hi : ∀ i, ¬WordSized s i) (h : FloatText s) : deAnyPlain s = .float s := by
  obtain ⟨h1, h2, h3⟩ := float_not_word h
  obtain ⟨h4, h5⟩ := notWordSized hi
  simp only [deAnyPlain, h1, h2, h3, h4, h5, isF64_iff.2 h, Bool.false_eq_true, if_false, if_true]

theorem anyPlain_text {s : Str} (hn : ¬NullWord s) (ht : s ≠ c!"true") (hf : s ≠ c!"false")
    (hi : ∀ i, ¬WordSized s i) (h : ¬FloatText s) : deAnyPlain s = .str s := by
  obtain ⟨h4, h5⟩ := notWordSized hi
  simp [deAnyPlain, mt nullWord_iff.1 hn, ht, hf, h4, h5, mt isF64_iff.1 h]

theorem decodes_anyPlain (Γ : Nat → Ty) (s : Str) : Decodes Γ .any (.unquotedString s) (deAnyPlain s) := by
  by_cases h1 : NullWord s
  · rw [deAnyPlain, if_pos (nullWord_iff.2 h1)]; exact .anyNull h1
  by_cases h2 : s = c!"true"
  · subst h2; exact .anyTrue
  by_cases h3 : s = c!"false"
  · subst h3; exact .anyFalse
  by_cases h4 : ∃ i, WordSized s i
  · obtain ⟨i, h4⟩ := h4
    rw [anyPlain_int h4]; exact .anyInt h4
  have h4 : ∀ i, ¬WordSized s i := fun i h => h4 ⟨i, h⟩
  by_cases h5 : FloatText s
  · rw [anyPlain_float h4 h5]; exact .anyFloat h4 h5
  · rw [anyPlain_text h1 h2 h3 h4 h5]; exact .anyPlain h1 h2 h3 h4 h5

/-! ## Enums -/

theorem enumParts_of {y c : Yaml} {name : Str} (h : VariantParts y name c) (σ : Anchors) :
    ∃ σ', enumParts σ y = .ok (name, c, σ') := by
  cases h with
  | name h => exact ⟨σ, by simp [enumParts, asString_eq, h]⟩
  | entry h =>
    obtain ⟨σ', hs⟩ := asMap_of (σ := σ) h
    have h0 : scalarText y = none := by cases y <;> first | rfl | cases h
    exact ⟨σ', by simp [enumParts, asString_eq, h0, hs]⟩

theorem parts_of_enumParts {y : Yaml} {σ : Anchors} {r : Str × Yaml × Anchors} (h : enumParts σ y = .ok r) :
    VariantParts y r.1 r.2.1 := by
  rw [enumParts, asString_eq] at h
  split at h
  · rename_i s hs
    cases h
    exact .name hs
  · split at h
    · rename_i es σ' hs
      split at h
      · split at h
        · cases h
        · rename_i k v t hl
          cases h
          have : t = [] := by simpa using hl
          subst this
          refine .entry ?_
          rw [← asMap_eq σ, hs]
          rfl
      · cases h
    · cases h

theorem Spec.VariantParts.noRefs {y c : Yaml} {name : Str} (h : VariantParts y name c) (hr : NoRefs y) : NoRefs c := by
  cases h with
  | name => exact noRefs_plain _
  | entry h => exact hr.child (child_map h (.head _))

/-! ## Results of reading -/

/-- At some depth the result is the value `v`. -/
def Gives {α : Type} (F : Nat → Out (α × Anchors)) (v : α) : Prop := ∃ n σ', F n = .ok (v, σ')

theorem Gives.bind {α β : Type} {G : Nat → Out (α × Anchors)} {K : Nat → α × Anchors → Out (β × Anchors)} {a : α}
    {b : β} (mG : MonoOut G) (mK : ∀ r, MonoOut fun n => K n r) (hG : Gives G a)
    (hK : ∀ σ, Gives (fun n => K n (a, σ)) b) : Gives (fun n => (G n).bind (K n)) b := by
  obtain ⟨n, σ, hn⟩ := hG
  obtain ⟨m, σ', hm⟩ := hK σ
  have h1 : G (max n m) = .ok (a, σ) := by
    rw [← hn]; exact (mG n _ (by omega)).eq (by rw [hn]; nofun)
  have h2 : K (max n m) (a, σ) = .ok (b, σ') := by
    rw [← hm]; exact (mK _ m _ (by omega)).eq (by simp [hm])
  exact ⟨max n m, σ', by simp [h1, h2]⟩

theorem Gives.map {α β : Type} {G : Nat → Out (α × Anchors)} {a : α} {f : α → β} (hG : Gives G a) :
    Gives (fun n => (G n).bind fun r => .ok (f r.1, r.2)) (f a) := by
  obtain ⟨n, σ, hn⟩ := hG
  exact ⟨n, σ, by simp [hn]⟩

theorem Gives.succ {α : Type} {F : Nat → Out (α × Anchors)} {a : α} (h : Gives (fun n => F (n + 1)) a) : Gives F a := by
  obtain ⟨n, h⟩ := h
  exact ⟨n + 1, h⟩

theorem Gives.const {α : Type} (a : α) (σ : Anchors) : Gives (fun _ => Out.ok (a, σ)) a := ⟨0, σ, rfl⟩

theorem monoConst {α : Type} (o : Out α) : MonoOut fun _ => o := fun _ _ _ => .refl _

/-- The node reads as `v` at the type, whatever the anchors. -/
def ReadsAs (Γ : Nat → Ty) (t : Ty) (y : Yaml) (v : SVal) : Prop := ∀ σ, Gives (fun n => de Γ n t y σ) v

theorem ReadsAs.unique {Γ : Nat → Ty} {t : Ty} {y : Yaml} {v v' : SVal} (h : ReadsAs Γ t y v) (h' : ReadsAs Γ t y v') :
    v = v' := by
  obtain ⟨n, σ, hn⟩ := h []
  obtain ⟨m, σ', hm⟩ := h' []
  have h1 := de_mono Γ (Nat.le_max_left n m) hn (by nofun)
  have h2 := de_mono Γ (Nat.le_max_right n m) hm (by nofun)
  rw [h1] at h2
  cases h2
  rfl

theorem elems_back {Γ : Nat → Ty} {t : Ty} {ys : List Yaml} {vs : List SVal} (hl : ys.length = vs.length)
    (h : ∀ w v, (w, v) ∈ ys.zip vs → ReadsAs Γ t w v) (σ : Anchors) :
    Gives (fun n => deElems (de Γ n t) ys σ) vs := by
  induction ys generalizing vs σ with
  | nil =>
    cases vs with
    | nil => exact .const [] σ
    | cons => simp at hl
  | cons y ys ih =>
    cases vs with
    | nil => simp at hl
    | cons v vs =>
      simp only [List.zip_cons_cons, List.mem_cons] at h
      refine Gives.bind (mono_de Γ t y σ) (fun r => (mono_elems Γ t ys _).bindConst _) (h y v (.inl rfl) σ) fun σ' => ?_
      exact (ih (by simpa using hl) (fun w v hm => h w v (.inr hm)) σ').map

theorem elems_forth {f : DeFn} {ys : List Yaml} {vs : List SVal} {σ σ' : Anchors} (h : deElems f ys σ = .ok (vs, σ')) :
    ys.length = vs.length ∧ ∀ w v, (w, v) ∈ ys.zip vs → ∃ σ1 σ2, f w σ1 = .ok (v, σ2) := by
  induction ys generalizing vs σ with
  | nil =>
    cases h
    exact ⟨rfl, fun _ _ h => nomatch h⟩
  | cons y ys ih =>
    rw [deElems, Out.bind_eq_ok] at h
    obtain ⟨r, hr, h⟩ := h
    rw [Out.bind_eq_ok] at h
    obtain ⟨q, hq, h⟩ := h
    cases h
    obtain ⟨h1, h2⟩ := ih hq
    refine ⟨by simp [h1], fun w v hm => ?_⟩
    simp only [List.zip_cons_cons, List.mem_cons] at hm
    rcases hm with hm | hm
    · cases hm; exact ⟨σ, r.2, hr⟩
    · exact h2 w v hm

theorem tuple_back {Γ : Nat → Ty} {ts : List Ty} {ys : List Yaml} {vs : List SVal} (hl : ts.length ≤ ys.length)
    (hv : vs.length = ts.length) (h : ∀ t w v, (t, w, v) ∈ ts.zip (ys.zip vs) → ReadsAs Γ t w v) (σ : Anchors) :
    Gives (fun n => deTuple (de Γ n) ts ys σ) vs := by
  induction ts generalizing ys vs σ with
  | nil =>
    cases vs with
    | nil => exact .const [] σ
    | cons => simp at hv
  | cons t ts ih =>
    cases ys with
    | nil => simp at hl
    | cons y ys =>
      cases vs with
      | nil => simp at hv
      | cons v vs =>
        simp only [List.zip_cons_cons, List.mem_cons] at h
        refine Gives.bind (mono_de Γ t y σ) (fun r => (mono_tuple Γ ts ys _).bindConst _) (h t y v (.inl rfl) σ)
          fun σ' => ?_
        exact (ih (by simpa using hl) (by simpa using hv) (fun t w v hm => h t w v (.inr hm)) σ').map

theorem tuple_forth {f : Ty → DeFn} {ts : List Ty} {ys : List Yaml} {vs : List SVal} {σ σ' : Anchors}
    (h : deTuple f ts ys σ = .ok (vs, σ')) :
    ts.length ≤ ys.length ∧ vs.length = ts.length ∧
      ∀ t w v, (t, w, v) ∈ ts.zip (ys.zip vs) → ∃ σ1 σ2, f t w σ1 = .ok (v, σ2) := by
  induction ts generalizing ys vs σ with
  | nil =>
    cases h
    exact ⟨Nat.zero_le _, rfl, fun _ _ _ h => nomatch h⟩
  | cons t ts ih =>
    cases ys with
    | nil => cases h
    | cons y ys =>
      rw [deTuple, Out.bind_eq_ok] at h
      obtain ⟨r, hr, h⟩ := h
      rw [Out.bind_eq_ok] at h
      obtain ⟨q, hq, h⟩ := h
      cases h
      obtain ⟨h1, h2, h3⟩ := ih hq
      refine ⟨by simp [h1], by simp [h2], fun t' w v hm => ?_⟩
      simp only [List.zip_cons_cons, List.mem_cons] at hm
      rcases hm with hm | hm
      · cases hm; exact ⟨σ, r.2, hr⟩
      · exact h3 t' w v hm

theorem entries_back {Γ : Nat → Ty} {kt vt : Ty} {es : List (Str × Yaml)} {vs : List (SVal × SVal)}
    (hl : es.length = vs.length)
    (hk : ∀ k w a b, ((k, w), (a, b)) ∈ es.zip vs → ReadsAs Γ kt (.unquotedString k) a)
    (hv : ∀ k w a b, ((k, w), (a, b)) ∈ es.zip vs → ReadsAs Γ vt w b) (σ : Anchors) :
    Gives (fun n => deEntries (de Γ n kt) (de Γ n vt) es σ) vs := by
  induction es generalizing vs σ with
  | nil =>
    cases vs with
    | nil => exact .const [] σ
    | cons => simp at hl
  | cons e es ih =>
    cases vs with
    | nil => simp at hl
    | cons v vs =>
      obtain ⟨k, y⟩ := e
      obtain ⟨a, b⟩ := v
      simp only [List.zip_cons_cons, List.mem_cons] at hk hv
      simp only [deEntries_cons]
      refine Gives.bind (mono_de Γ kt _ σ) (fun r n m h => ?_) (hk k y a b (.inl rfl) σ) fun σ' => ?_
      · exact (mono_de Γ vt y _ n m h).bind fun r' => (mono_entries Γ kt vt es _ n m h).bind fun _ => .refl _
      · refine Gives.bind (mono_de Γ vt _ σ') (fun r => (mono_entries Γ kt vt es _).bindConst _)
          (hv k y a b (.inl rfl) σ') fun σ'' => ?_
        exact (ih (by simpa using hl) (fun k w a b hm => hk k w a b (.inr hm))
          (fun k w a b hm => hv k w a b (.inr hm)) σ'').map

theorem entries_forth {fk fv : DeFn} {es : List (Str × Yaml)} {vs : List (SVal × SVal)} {σ σ' : Anchors}
    (h : deEntries fk fv es σ = .ok (vs, σ')) :
    es.length = vs.length ∧ ∀ k w a b, ((k, w), (a, b)) ∈ es.zip vs →
      (∃ σ1 σ2, fk (.unquotedString k) σ1 = .ok (a, σ2)) ∧ ∃ σ1 σ2, fv w σ1 = .ok (b, σ2) := by
  induction es generalizing vs σ with
  | nil =>
    cases h
    exact ⟨rfl, fun _ _ _ _ h => nomatch h⟩
  | cons e es ih =>
    obtain ⟨k, y⟩ := e
    rw [deEntries_cons, Out.bind_eq_ok] at h
    obtain ⟨r, hr, h⟩ := h
    rw [Out.bind_eq_ok] at h
    obtain ⟨r', hr', h⟩ := h
    rw [Out.bind_eq_ok] at h
    obtain ⟨q, hq, h⟩ := h
    cases h
    obtain ⟨h1, h2⟩ := ih hq
    refine ⟨by simp [h1], fun k' w a b hm => ?_⟩
    simp only [List.zip_cons_cons, List.mem_cons] at hm
    rcases hm with hm | hm
    · cases hm; exact ⟨⟨σ, r.2, hr⟩, r.2, r'.2, hr'⟩
    · exact h2 k' w a b hm

/-! ## Structs -/

theorem lookup_some_of_mem {α : Type} {l : List (Str × α)} {k : Str} {x : α} (h : (k, x) ∈ l) :
    ∃ y, l.lookup k = some y ∧ (k, y) ∈ l := by
  induction l with
  | nil => cases h
  | cons p l ih =>
    obtain ⟨k', x'⟩ := p
    rw [List.lookup]
    by_cases hk : k = k'
    · subst hk
      exact ⟨x', by simp, .head _⟩
    · have : (k == k') = false := by simpa using hk
      rw [this]
      rcases List.mem_cons.1 h with h | h
      · cases h; exact absurd rfl hk
      · obtain ⟨y, h1, h2⟩ := ih h
        exact ⟨y, h1, .tail _ h2⟩

theorem mem_of_lookup {α : Type} {l : List (Str × α)} {k : Str} {x : α} (h : l.lookup k = some x) : (k, x) ∈ l := by
  induction l with
  | nil => cases h
  | cons p l ih =>
    obtain ⟨k', x'⟩ := p
    rw [List.lookup] at h
    by_cases hk : k = k'
    · subst hk
      simp at h
      subst h
      exact .head _
    · have : (k == k') = false := by simpa using hk
      rw [this] at h
      exact .tail _ (ih h)

theorem lookup_cons_eq {α : Type} (l : List (Str × α)) (k k' : Str) (x : α) :
    List.lookup k ((k', x) :: l) = if k = k' then some x else l.lookup k := by
  rw [List.lookup]
  by_cases hk : k = k'
  · simp [hk]
  · have : (k == k') = false := by simpa using hk
    simp [this, hk]

theorem struct_forth {f : Ty → DeFn} {fs : List (Str × Ty)} {n : Nat} {es : List (Str × Yaml)} {p : Option Yaml}
    {acc acc' : List (Str × SVal)} {σ σ' : Anchors} (h : structLoop f fs n ⟨es, p⟩ acc σ = .ok (acc', σ')) :
    (∀ k t, fs.lookup k = some t →
      (es.filter fun e => e.1 = k).length + (if (acc.lookup k).isSome then 1 else 0) ≤ 1) ∧
    (∀ k v, acc.lookup k = some v → acc'.lookup k = some v) ∧
    (∀ k t w, fs.lookup k = some t → (k, w) ∈ es → ∃ v σ1 σ2, acc'.lookup k = some v ∧ f t w σ1 = .ok (v, σ2)) ∧
    (∀ k v, acc'.lookup k = some v → acc.lookup k = some v ∨ ∃ w, (k, w) ∈ es) := by
  induction n generalizing es p acc σ with
  | zero => cases h
  | succ n ih =>
    cases es with
    | nil =>
      cases h
      refine ⟨fun k t _ => ?_, fun k v h => h, ⟨fun k t w _ h => absurd h List.not_mem_nil, fun k v h => .inl h⟩⟩
      simp only [List.filter_nil, List.length_nil]
      split <;> omega
    | cons e es =>
      obtain ⟨k0, y⟩ := e
      rw [structLoop_cons] at h
      split at h
      · rename_i hf
        obtain ⟨h1, h2, h3, h4⟩ := ih h
        refine ⟨fun k t hk => ?_, h2, fun k t w hk hm => ?_, fun k v hk => ?_⟩
        · have hne : k0 ≠ k := by rintro rfl; rw [hf] at hk; cases hk
          rw [List.filter_cons]
          simp only [hne, decide_false, Bool.false_eq_true, if_false]
          exact h1 k t hk
        · rcases List.mem_cons.1 hm with hm | hm
          · cases hm; rw [hf] at hk; cases hk
          · exact h3 k t w hk hm
        · rcases h4 k v hk with h | ⟨w, h⟩
          · exact .inl h
          · exact .inr ⟨w, .tail _ h⟩
      · rename_i ty hf
        split at h
        · cases h
        · rename_i hno
          rw [Out.bind_eq_ok] at h
          obtain ⟨r, hr, h⟩ := h
          obtain ⟨h1, h2, h3, h4⟩ := ih h
          have hno : acc.lookup k0 = none := Option.not_isSome_iff_eq_none.1 hno
          refine ⟨fun k t hk => ?_, fun k v hk => ?_, fun k t w hk hm => ?_, fun k v hk => ?_⟩
          · have := h1 k t hk
            rw [lookup_cons_eq] at this
            rw [List.filter_cons]
            by_cases hne : k0 = k
            · subst hne
              simp only [if_true, Option.isSome_some, decide_true, List.length_cons, hno, Option.isSome_none,
                Bool.false_eq_true, if_false] at this ⊢
              omega
            · simp only [hne, Ne.symm hne, decide_false, Bool.false_eq_true, if_false] at this ⊢
              exact this
          · refine h2 k v ?_
            rw [lookup_cons_eq]
            have hne : k ≠ k0 := by rintro rfl; rw [hno] at hk; cases hk
            rw [if_neg hne, hk]
          · rcases List.mem_cons.1 hm with hm | hm
            · cases hm
              rw [hf] at hk
              cases hk
              refine ⟨r.1, σ, r.2, h2 _ _ ?_, hr⟩
              rw [lookup_cons_eq, if_pos rfl]
            · exact h3 k t w hk hm
          · rcases h4 k v hk with h | ⟨w, h⟩
            · rw [lookup_cons_eq] at h
              split at h
              · rename_i he
                subst he
                exact .inr ⟨y, .head _⟩
              · exact .inl h
            · exact .inr ⟨w, .tail _ h⟩

theorem isOption_iff {Γ : Nat → Ty} {t : Ty} : isOption Γ t = true ↔ OptionTy Γ t := by
  cases t <;> simp [isOption, OptionTy]
  rename_i n
  cases Γ n <;> simp

theorem collect_forth {Γ : Nat → Ty} {acc : List (Str × SVal)} {fs : List (Str × Ty)} {vs : List (Str × SVal)}
    (h : collectFields Γ acc fs = .ok vs) :
    vs.map (fun v => v.1) = fs.map (fun f => f.1) ∧
    (∀ k v, (k, v) ∈ vs → acc.lookup k = some v ∨ acc.lookup k = none ∧ v = .none) ∧
    (∀ k t, (k, t) ∈ fs → acc.lookup k = none → OptionTy Γ t) := by
  induction fs generalizing vs with
  | nil =>
    cases h
    exact ⟨rfl, fun _ _ h => absurd h List.not_mem_nil, fun _ _ h => absurd h List.not_mem_nil⟩
  | cons f fs ih =>
    obtain ⟨k0, t0⟩ := f
    rw [collectFields] at h
    split at h
    · rename_i v hv
      rw [Out.bind_eq_ok] at h
      obtain ⟨q, hq, h⟩ := h
      cases h
      obtain ⟨h1, h2, h3⟩ := ih hq
      refine ⟨by simp [h1], fun k v hm => ?_, fun k t hm hn => ?_⟩
      · rcases List.mem_cons.1 hm with hm | hm
        · cases hm; exact .inl hv
        · exact h2 k v hm
      · rcases List.mem_cons.1 hm with hm | hm
        · cases hm; rw [hv] at hn; cases hn
        · exact h3 k t hm hn
    · rename_i hv
      split at h
      · rename_i ho
        rw [Out.bind_eq_ok] at h
        obtain ⟨q, hq, h⟩ := h
        cases h
        obtain ⟨h1, h2, h3⟩ := ih hq
        refine ⟨by simp [h1], fun k v hm => ?_, fun k t hm hn => ?_⟩
        · rcases List.mem_cons.1 hm with hm | hm
          · cases hm; exact .inr ⟨hv, rfl⟩
          · exact h2 k v hm
        · rcases List.mem_cons.1 hm with hm | hm
          · cases hm; exact isOption_iff.1 ho
          · exact h3 k t hm hn
      · cases h

theorem collect_back {Γ : Nat → Ty} {acc : List (Str × SVal)} {fs : List (Str × Ty)} {vs : List (Str × SVal)}
    (h1 : vs.map (fun v => v.1) = fs.map (fun f => f.1))
    (h2 : ∀ k v, (k, v) ∈ vs → acc.lookup k = some v ∨ acc.lookup k = none ∧ v = .none)
    (h3 : ∀ k t, (k, t) ∈ fs → acc.lookup k = none → OptionTy Γ t) : collectFields Γ acc fs = .ok vs := by
  induction fs generalizing vs with
  | nil =>
    cases vs with
    | nil => rfl
    | cons => simp at h1
  | cons f fs ih =>
    cases vs with
    | nil => simp at h1
    | cons v vs =>
      obtain ⟨k0, t0⟩ := f
      obtain ⟨k1, v⟩ := v
      simp only [List.map_cons, List.cons.injEq] at h1
      obtain ⟨rfl, h1⟩ := h1
      have hr := ih h1 (fun k v hm => h2 k v (.tail _ hm)) (fun k t hm => h3 k t (.tail _ hm))
      rw [collectFields]
      rcases h2 k1 v (.head _) with h | ⟨h, rfl⟩
      · simp [h, hr]
      · simp [h, hr, isOption_iff.2 (h3 k1 t0 (.head _) h)]

theorem struct_back {Γ : Nat → Ty} {fs : List (Str × Ty)} {es : List (Str × Yaml)} {V : Str → SVal}
    {acc : List (Str × SVal)}
    (h1 : ∀ k t, fs.lookup k = some t →
      (es.filter fun e => e.1 = k).length + (if (acc.lookup k).isSome then 1 else 0) ≤ 1)
    (hv : ∀ k t w, fs.lookup k = some t → (k, w) ∈ es → ReadsAs Γ t w (V k)) (p : Option Yaml) (σ : Anchors) :
    ∃ acc', Gives (fun n => structLoop (de Γ n) fs (es.length + 1) ⟨es, p⟩ acc σ) acc' ∧
      ∀ k, acc'.lookup k = match acc.lookup k with
        | some v => some v
        | none => if (fs.lookup k).isSome ∧ k ∈ es.map (fun e => e.1) then some (V k) else none := by
  induction es generalizing acc p σ with
  | nil =>
    refine ⟨acc, .const acc σ, fun k => ?_⟩
    cases acc.lookup k <;> simp
  | cons e es ih =>
    obtain ⟨k0, y⟩ := e
    simp only [List.length_cons, structLoop_cons]
    cases hf : fs.lookup k0 with
    | none =>
      simp only
      have hne : ∀ k t, fs.lookup k = some t → k0 ≠ k := by rintro k t hk rfl; rw [hf] at hk; cases hk
      obtain ⟨acc', hg, hl⟩ := ih (acc := acc) (fun k t hk => by
        have := h1 k t hk
        rw [List.filter_cons] at this
        simpa [hne k t hk] using this) (fun k t w hk hm => hv k t w hk (.tail _ hm)) none σ
      refine ⟨acc', hg, fun k => ?_⟩
      rw [hl k]
      cases hak : acc.lookup k with
      | some v => rfl
      | none =>
        cases hfk : fs.lookup k with
        | none => simp
        | some t =>
          have : k ∈ ((k0, y) :: es).map (fun e => e.1) ↔ k ∈ es.map (fun e => e.1) := by
            rw [List.map_cons, List.mem_cons]
            exact ⟨fun h => h.resolve_left (Ne.symm (hne k t hfk)), .inr⟩
          simp only [this]
    | some t0 =>
      have h0 := h1 k0 t0 hf
      rw [List.filter_cons] at h0
      simp only [decide_true, if_true, List.length_cons] at h0
      have hno : acc.lookup k0 = none := by
        cases h : acc.lookup k0 with
        | none => rfl
        | some v => simp [h] at h0
      simp only [hno, Option.isSome_none, Bool.false_eq_true, if_false] at h0 ⊢
      have hgone : k0 ∉ es.map (fun e => e.1) := by
        intro hm
        obtain ⟨e, he, rfl⟩ := List.mem_map.1 hm
        have : e ∈ es.filter fun e' => e'.1 = e.1 := by simp [he]
        have := List.length_pos_of_mem this
        omega
      have hcond : ∀ k t, fs.lookup k = some t → (es.filter fun e => e.1 = k).length +
          (if (List.lookup k ((k0, V k0) :: acc)).isSome then 1 else 0) ≤ 1 := by
        intro k t hk
        have := h1 k t hk
        rw [List.filter_cons] at this
        rw [lookup_cons_eq]
        by_cases he : k = k0
        · subst he
          simp only [if_true, Option.isSome_some]
          have : (es.filter fun e => e.1 = k) = [] := by
            rw [List.filter_eq_nil_iff]
            intro e he hk
            exact hgone (List.mem_map.2 ⟨e, he, by simpa using hk⟩)
          simp [this]
        · rw [if_neg he]
          rw [if_neg (by simpa using Ne.symm he)] at this
          exact this
      have hread := hv k0 t0 y hf (.head _)
      obtain ⟨n0, σ0, hn0⟩ := hread σ
      obtain ⟨acc', hg, hl⟩ := ih (acc := (k0, V k0) :: acc) hcond
        (fun k t w hk hm => hv k t w hk (.tail _ hm)) none σ0
      refine ⟨acc', ?_, fun k => ?_⟩
      · obtain ⟨n1, σ1, hn1⟩ := hg
        refine ⟨max n0 n1, σ1, ?_⟩
        simp only
        rw [de_mono Γ (Nat.le_max_left n0 n1) hn0 (by nofun)]
        simp only [Out.bind_ok]
        rw [← hn1]
        exact (mono_struct Γ fs _ es none _ _ n1 _ (by omega)).eq (by simp [hn1])
      · rw [hl k, lookup_cons_eq]
        by_cases he : k = k0
        · subst he
          simp [hno, hf]
        · simp only [he, if_false]
          cases acc.lookup k with
          | some v => rfl
          | none =>
            have : k ∈ ((k0, y) :: es).map (fun e => e.1) ↔ k ∈ es.map (fun e => e.1) := by
              rw [List.map_cons, List.mem_cons]
              exact ⟨fun h => h.resolve_left he, .inr⟩
            simp only [this]

/-! ## Both directions -/

theorem ReadsAs.seq {Γ : Nat → Ty} {t : Ty} {y : Yaml} {ys : List Yaml} {vs : List SVal} (hr : NoRefs y)
    (hy : seqElements y = some ys) (hl : ys.length = vs.length) (h : ∀ w v, (w, v) ∈ ys.zip vs → ReadsAs Γ t w v) :
    ReadsAs Γ (.seq t) y (.seq vs) := by
  intro σ
  obtain ⟨σ', hs⟩ := asSeq_of (σ := σ) hy
  apply Gives.succ
  simp only [de, hr.resolved σ, hs]
  exact (elems_back hl h σ').map

theorem ReadsAs.map {Γ : Nat → Ty} {kt vt : Ty} {y : Yaml} {es : List (Str × Yaml)} {vs : List (SVal × SVal)}
    (hr : NoRefs y) (hy : mapPairs y = some es) (hl : es.length = vs.length)
    (hk : ∀ k w a b, ((k, w), (a, b)) ∈ es.zip vs → ReadsAs Γ kt (.unquotedString k) a)
    (hv : ∀ k w a b, ((k, w), (a, b)) ∈ es.zip vs → ReadsAs Γ vt w b) : ReadsAs Γ (.map kt vt) y (.map vs) := by
  intro σ
  obtain ⟨σ', hs⟩ := asMap_of (σ := σ) hy
  apply Gives.succ
  simp only [de, hr.resolved σ, hs]
  exact (entries_back hl hk hv σ').map

theorem zip_left {α β : Type} {l : List α} {m : List β} {a : α} {b : β} (h : (a, b) ∈ l.zip m) : a ∈ l :=
  (List.of_mem_zip h).1

theorem decodes_reads {Γ : Nat → Ty} {t : Ty} {y : Yaml} {v : SVal} (h : Decodes Γ t y v) :
    NoRefs y → ReadsAs Γ t y v := by
  induction h with
  | true h =>
    intro hr σ
    refine ⟨1, σ, ?_⟩
    simp only [de, hr.resolved σ, deBool_iff.2 ⟨_, rfl, .inl ⟨h, rfl⟩⟩, Out.bind_ok]
  | false h =>
    intro hr σ
    refine ⟨1, σ, ?_⟩
    simp only [de, hr.resolved σ, deBool_iff.2 ⟨_, rfl, .inr ⟨h, rfl⟩⟩, Out.bind_ok]
  | signed hk hy h hrng =>
    intro hr σ
    refine ⟨1, σ, ?_⟩
    simp only [de, hr.resolved σ, deInt_iff.2 ⟨_, hy, .inl ⟨hk, _, h, hrng, rfl⟩⟩, Out.bind_ok]
  | unsigned hk hy h hrng =>
    intro hr σ
    refine ⟨1, σ, ?_⟩
    simp only [de, hr.resolved σ, deInt_iff.2 ⟨_, hy, .inr ⟨hk, _, h, hrng, rfl⟩⟩, Out.bind_ok]
  | float hy h =>
    intro hr σ
    refine ⟨1, σ, ?_⟩
    simp only [de, hr.resolved σ, asString_eq, hy, isF64_iff.2 h, if_true]
  | char hy =>
    intro hr σ
    refine ⟨1, σ, ?_⟩
    simp only [de, hr.resolved σ, asString_eq, hy]
  | str hy =>
    intro hr σ
    refine ⟨1, σ, ?_⟩
    simp only [de, hr.resolved σ, asString_eq, hy]
  | @bytes y ys bs hy hl h ih =>
    intro hr σ
    obtain ⟨σ', hs⟩ := asSeq_of (σ := σ) hy
    apply Gives.succ
    simp only [de, hr.resolved σ, hs]
    have hg : Gives (fun n => deElems (de Γ n (.int .u8)) ys σ') (bs.map fun b => SVal.int (b : Nat)) := by
      refine elems_back (by simpa using hl) (fun w v hm => ?_) σ'
      rw [List.zip_map_right] at hm
      obtain ⟨⟨w', b⟩, hb, he⟩ := List.mem_map.1 hm
      cases he
      exact ih w' b hb (hr.child (child_seq hy (zip_left hb)))
    obtain ⟨n, σ'', hn⟩ := hg
    refine ⟨n, σ'', ?_⟩
    simp [hn, Function.comp_def]
  | unit => exact fun _ σ => ⟨1, σ, rfl⟩
  | none h =>
    intro hr σ
    refine ⟨1, σ, ?_⟩
    simp only [de, hr.resolved σ, nullWord_iff.2 h, if_true]
  | @some t y v hn h ih =>
    intro hr σ
    apply Gives.succ
    simp only [de_option, hr.resolved σ]
    have hg := (ih hr σ).map (f := SVal.some)
    cases hp : plainOf y with
    | none => exact hg
    | some s =>
      have : isNullWord s = false := by
        cases hb : isNullWord s with
        | false => rfl
        | true =>
          refine absurd (nullWord_iff.1 hb) (hn s ?_)
          cases y <;> cases hp
          rfl
      simp only [this, Bool.false_eq_true, if_false]
      exact hg
  | newtype h ih =>
    intro hr σ
    exact Gives.succ (ih hr σ).map
  | seq hy hl h ih =>
    intro hr
    exact .seq hr hy hl fun w v hm => ih w v hm (hr.child (child_seq hy (zip_left hm)))
  | tuple hy hl hv h ih =>
    intro hr σ
    obtain ⟨σ', hs⟩ := asSeq_of (σ := σ) hy
    apply Gives.succ
    simp only [de, deTupleNode, hr.resolved σ, hs]
    exact (tuple_back hl hv (fun t w v hm => ih t w v hm
      (hr.child (child_seq hy (zip_left (List.of_mem_zip hm).2)))) σ').map
  | map hy hl hk hv ihk ihv =>
    intro hr
    exact .map hr hy hl (fun k w a b hm => ihk k w a b hm (noRefs_plain k))
      fun k w a b hm => ihv k w a b hm (hr.child (child_map hy (zip_left hm)))
  | @struct fs y es vs hy hn h1 hv hm hmv ih =>
    intro hr σ
    obtain ⟨σ', hs⟩ := asMap_of (σ := σ) hy
    apply Gives.succ
    simp only [de, deStruct, hr.resolved σ, hs]
    have hmem : ∀ k t, fs.lookup k = some t → ∃ v, vs.lookup k = some v ∧ (k, v) ∈ vs := by
      intro k t hk
      have : k ∈ vs.map (fun v => v.1) := by
        rw [hn]; exact List.mem_map.2 ⟨_, mem_of_lookup hk, rfl⟩
      obtain ⟨⟨k', v⟩, hv, rfl⟩ := List.mem_map.1 this
      exact lookup_some_of_mem hv
    obtain ⟨acc', ⟨n, σ'', hg⟩, hl⟩ := struct_back (Γ := Γ) (fs := fs) (es := es) (acc := [])
      (V := fun k => (vs.lookup k).getD .none)
      (fun k t hk => by simpa using h1 k t (mem_of_lookup hk))
      (fun k t w hk hw => by
        obtain ⟨v, hv1, hv2⟩ := hmem k t hk
        simp only [hv1, Option.getD_some]
        exact ih k t w v hk hw hv2 (hr.child (child_map hy hw))) none σ'
    have hc : collectFields Γ acc' fs = .ok vs := by
      refine collect_back hn (fun k v hkv => ?_) (fun k t hkt hno => ?_)
      · have hk : k ∈ fs.map (fun f => f.1) := by
          rw [← hn]; exact List.mem_map.2 ⟨_, hkv, rfl⟩
        obtain ⟨⟨k', t'⟩, ht', rfl⟩ := List.mem_map.1 hk
        obtain ⟨t, ht, -⟩ := lookup_some_of_mem ht'
        rw [hl]
        by_cases hes : k' ∈ es.map (fun e => e.1)
        · left
          simp only [List.lookup, ht, Option.isSome_some, hes, and_self, if_true, Option.some.injEq]
          obtain ⟨v', hv1, hv2⟩ := hmem k' t ht
          simp only [hv1, Option.getD_some]
          obtain ⟨⟨k'', w⟩, hw, rfl⟩ := List.mem_map.1 hes
          have hc := hr.child (child_map hy hw)
          exact (ih _ t w v' ht hw hv2 hc).unique (ih _ t w v ht hw hkv hc)
        · right
          refine ⟨by simp [hes], hmv k' v hkv fun w hw => hes (List.mem_map.2 ⟨_, hw, rfl⟩)⟩
      · refine hm k t hkt fun w hw => ?_
        obtain ⟨t', ht', -⟩ := lookup_some_of_mem hkt
        rw [hl] at hno
        have : k ∈ es.map (fun e => e.1) := List.mem_map.2 ⟨_, hw, rfl⟩
        simp [ht', this] at hno
    exact ⟨n, σ'', by simp [deFields, hg, hc]⟩
  | unitVariant hy hl =>
    intro hr σ
    obtain ⟨σ', hp⟩ := enumParts_of hy σ
    exact ⟨1, σ', by simp [de, hr.resolved σ, hp, hl, deVariant]⟩
  | newtypeVariant hy hl h ih =>
    intro hr σ
    obtain ⟨σ', hp⟩ := enumParts_of hy σ
    apply Gives.succ
    simp only [de, hr.resolved σ, hp, Out.bind_ok, hl, deVariant]
    exact (ih (hy.noRefs hr) σ').map
  | @tupleVariant vs y name c ts xs hy hl h ih =>
    intro hr σ
    obtain ⟨σ', hp⟩ := enumParts_of hy σ
    apply Gives.succ
    simp only [de, hr.resolved σ, hp, Out.bind_ok, hl, deVariant]
    obtain ⟨n, σ'', hn⟩ := ih (hy.noRefs hr) σ'
    cases n with
    | zero => cases hn
    | succ n =>
      simp only [de] at hn
      rw [Out.bind_eq_ok] at hn
      obtain ⟨r, hr1, hr2⟩ := hn
      cases hr2
      exact ⟨n, r.2, by simp [hr1]⟩
  | @structVariant vs y name c fs xs hy hl h ih =>
    intro hr σ
    obtain ⟨σ', hp⟩ := enumParts_of hy σ
    apply Gives.succ
    simp only [de, hr.resolved σ, hp, Out.bind_ok, hl, deVariant]
    obtain ⟨n, σ'', hn⟩ := ih (hy.noRefs hr) σ'
    cases n with
    | zero => cases hn
    | succ n =>
      simp only [de] at hn
      rw [Out.bind_eq_ok] at hn
      obtain ⟨r, hr1, hr2⟩ := hn
      cases hr2
      exact ⟨n, r.2, by simp [hr1]⟩
  | anyNull h =>
    intro _ σ
    exact ⟨1, σ, by simp [de, deAnyPlain, nullWord_iff.2 h]⟩
  | anyTrue =>
    intro _ σ
    exact ⟨1, σ, by kernel_rfl⟩
  | anyFalse =>
    intro _ σ
    exact ⟨1, σ, by kernel_rfl⟩
  | anyInt h =>
    intro _ σ
    exact ⟨1, σ, by simp only [de, anyPlain_int h]⟩
  | anyFloat hi h =>
    intro _ σ
    exact ⟨1, σ, by simp only [de, anyPlain_float hi h]⟩
  | anyPlain hn ht hf hi h =>
    intro _ σ
    exact ⟨1, σ, by simp only [de, anyPlain_text hn ht hf hi h]⟩
  | @anyText y s hp hy =>
    intro hr σ
    refine ⟨1, σ, ?_⟩
    have h1 : plainOf y = none := by cases y <;> first | rfl | exact absurd rfl (hp _)
    simp only [de_any, h1, hr.refOf, asString_eq, hy]
  | @anySeq y vs h ih =>
    intro hr σ
    obtain ⟨n, σ', hn⟩ := ih hr σ
    cases n with
    | zero => cases hn
    | succ n =>
      simp only [de, hr.resolved] at hn
      refine ⟨n + 1, σ', ?_⟩
      split at hn
      · rename_i ys σ1 hs
        have h1 : plainOf y = none := by cases y <;> first | rfl | cases hs
        have h2 : y.asString = none := by cases y <;> first | rfl | cases hs
        simp only [de_any, h1, hr.refOf, h2, hs]
        exact hn
      · cases hn
  | @anyMap y vs h ih =>
    intro hr σ
    obtain ⟨n, σ', hn⟩ := ih hr σ
    cases n with
    | zero => cases hn
    | succ n =>
      simp only [de, hr.resolved] at hn
      refine ⟨n + 1, σ', ?_⟩
      split at hn
      · rename_i es σ1 hs
        have h1 : plainOf y = none := by cases y <;> first | rfl | cases hs
        have h2 : y.asString = none := by cases y <;> first | rfl | cases hs
        have h3 : asSeq σ y = none := by cases y <;> first | rfl | cases hs
        simp only [de_any, h1, hr.refOf, h2, h3, hs]
        exact hn
      · cases hn
  | ignored => exact fun _ σ => ⟨1, σ, rfl⟩
  | ref h ih =>
    intro hr σ
    exact Gives.succ (ih hr σ)

theorem seq_decodes {Γ : Nat → Ty} {f : DeFn} {t : Ty} {y : Yaml} {ys : List Yaml} {vs : List SVal}
    {σ σ1 σ' : Anchors} (hr : NoRefs y) (hs : asSeq σ y = some (ys, σ1)) (h : deElems f ys σ1 = .ok (vs, σ'))
    (hf : ∀ {w v σ1 σ2}, f w σ1 = .ok (v, σ2) → NoRefs w → Decodes Γ t w v) : Decodes Γ (.seq t) y (.seq vs) := by
  have hy : seqElements y = some ys := by rw [← asSeq_eq σ, hs]; rfl
  obtain ⟨h1, h2⟩ := elems_forth h
  refine .seq hy h1 fun w v hm => ?_
  obtain ⟨_, _, h⟩ := h2 w v hm
  exact hf h (hr.child (child_seq hy (zip_left hm)))

theorem tupleNode_decodes {Γ : Nat → Ty} {f : Ty → DeFn} {ts : List Ty} {y : Yaml} {vs : List SVal}
    {σ σ' : Anchors} (hr : NoRefs y) (h : deTupleNode f ts y σ = .ok (vs, σ'))
    (hf : ∀ {t w v σ1 σ2}, f t w σ1 = .ok (v, σ2) → NoRefs w → Decodes Γ t w v) :
    Decodes Γ (.tuple ts) y (.tuple vs) := by
  simp only [deTupleNode, hr.resolved] at h
  split at h
  · cases h
  · rename_i ys σ1 hs
    have hy : seqElements y = some ys := by rw [← asSeq_eq σ, hs]; rfl
    obtain ⟨h1, h2, h3⟩ := tuple_forth h
    refine .tuple hy h1 h2 fun t w v hm => ?_
    obtain ⟨_, _, h⟩ := h3 t w v hm
    exact hf h (hr.child (child_seq hy (zip_left (List.of_mem_zip hm).2)))

theorem map_decodes {Γ : Nat → Ty} {fk fv : DeFn} {kt vt : Ty} {y : Yaml} {es : List (Str × Yaml)}
    {vs : List (SVal × SVal)} {σ σ1 σ' : Anchors} (hr : NoRefs y) (hs : asMap σ y = some (es, σ1))
    (h : deEntries fk fv es σ1 = .ok (vs, σ'))
    (hk : ∀ {w v σ1 σ2}, fk w σ1 = .ok (v, σ2) → NoRefs w → Decodes Γ kt w v)
    (hv : ∀ {w v σ1 σ2}, fv w σ1 = .ok (v, σ2) → NoRefs w → Decodes Γ vt w v) :
    Decodes Γ (.map kt vt) y (.map vs) := by
  have hy : mapPairs y = some es := by rw [← asMap_eq σ, hs]; rfl
  obtain ⟨h1, h2⟩ := entries_forth h
  refine .map hy h1 (fun k w a b hm => ?_) fun k w a b hm => ?_
  · obtain ⟨⟨_, _, h⟩, -⟩ := h2 k w a b hm
    exact hk h (noRefs_plain k)
  · obtain ⟨-, _, _, h⟩ := h2 k w a b hm
    exact hv h (hr.child (child_map hy (zip_left hm)))

theorem unique_of_filter {α : Type} {es : List (Str × α)} {k : Str} (h : (es.filter fun e => e.1 = k).length ≤ 1)
    {w w' : α} (hw : (k, w) ∈ es) (hw' : (k, w') ∈ es) : w = w' := by
  have h1 : (k, w) ∈ es.filter fun e => e.1 = k := by simp [hw]
  have h2 : (k, w') ∈ es.filter fun e => e.1 = k := by simp [hw']
  match hl : es.filter fun e => e.1 = k with
  | [] => rw [hl] at h1; cases h1
  | [x] =>
    rw [hl, List.mem_singleton] at h1 h2
    rw [← h1] at h2
    cases h2
    rfl
  | x :: y :: t => rw [hl] at h; simp at h

theorem structNode_decodes {Γ : Nat → Ty} {f : Ty → DeFn} {fs : List (Str × Ty)} {y : Yaml}
    {vs : List (Str × SVal)} {σ σ' : Anchors} (hr : NoRefs y) (h : deStruct Γ f fs y σ = .ok (vs, σ'))
    (hf : ∀ {t w v σ1 σ2}, f t w σ1 = .ok (v, σ2) → NoRefs w → Decodes Γ t w v) :
    Decodes Γ (.struct fs) y (.struct vs) := by
  simp only [deStruct, hr.resolved] at h
  split at h
  · cases h
  · rename_i es σ1 hs
    have hy : mapPairs y = some es := by rw [← asMap_eq σ, hs]; rfl
    rw [Out.bind_eq_ok] at h
    obtain ⟨r, h1, h⟩ := h
    rw [Out.bind_eq_ok] at h
    obtain ⟨q, h2, h⟩ := h
    cases h
    obtain ⟨a1, -, a3, a4⟩ := struct_forth h1
    obtain ⟨b1, b2, b3⟩ := collect_forth h2
    have look : ∀ {k t}, (k, t) ∈ fs → ∃ t', fs.lookup k = some t' := fun h =>
      let ⟨t', h, _⟩ := lookup_some_of_mem h
      ⟨t', h⟩
    refine .struct hy b1 (fun k t hk => ?_) (fun k t w v hk hw hv => ?_) (fun k t hk hno => ?_) fun k v hv hno => ?_
    · obtain ⟨t', ht'⟩ := look hk
      simpa using a1 k t' ht'
    · obtain ⟨v', _, _, hv1, hv2⟩ := a3 k t w hk hw
      have : v = v' := by
        rcases b2 k v hv with h | ⟨h, -⟩
        · rw [hv1] at h; cases h; rfl
        · rw [hv1] at h; cases h
      subst this
      exact hf hv2 (hr.child (child_map hy hw))
    · refine b3 k t hk ?_
      cases hl : r.1.lookup k with
      | none => rfl
      | some v =>
        rcases a4 k v hl with h | ⟨w, h⟩
        · cases h
        · exact absurd h (hno w)
    · rcases b2 k v hv with h | ⟨-, h⟩
      · rcases a4 k v h with h | ⟨w, h⟩
        · cases h
        · exact absurd h (hno w)
      · exact h

theorem bytes_decodes {Γ : Nat → Ty} {w : Yaml} {v : SVal} (h : Decodes Γ (.int .u8) w v) :
    ∃ b : Nat, v = .int (b : Int) := by
  cases h with
  | signed hk => rcases hk with h | h | h | h <;> cases h
  | unsigned hk hy h hr => exact ⟨_, rfl⟩

theorem reads_decodes {Γ : Nat → Ty} {n : Nat} {t : Ty} {y : Yaml} {v : SVal} {σ σ' : Anchors}
    (h : de Γ n t y σ = .ok (v, σ')) (hr : NoRefs y) : Decodes Γ t y v := by
  induction n generalizing t y v σ σ' with
  | zero => cases h
  | succ n ih =>
    cases t with
    | bool =>
      simp only [de, hr.resolved] at h
      rw [Out.bind_eq_ok] at h
      obtain ⟨w, h1, h2⟩ := h
      cases h2
      obtain ⟨s, rfl, ⟨h, rfl⟩ | ⟨h, rfl⟩⟩ := deBool_iff.1 h1
      · exact .true h
      · exact .false h
    | int k =>
      simp only [de, hr.resolved] at h
      rw [Out.bind_eq_ok] at h
      obtain ⟨w, h1, h2⟩ := h
      cases h2
      obtain ⟨s, hs, ⟨hk, i, hi, hrng, rfl⟩ | ⟨hk, i, hi, hrng, rfl⟩⟩ := deInt_iff.1 h1
      · exact .signed hk hs hi hrng
      · exact .unsigned hk hs hi hrng
    | float =>
      simp only [de, hr.resolved, asString_eq] at h
      split at h
      · rename_i s hs
        split at h
        · rename_i hf
          cases h
          exact .float hs (isF64_iff.1 hf)
        · cases h
      · cases h
    | char =>
      simp only [de, hr.resolved, asString_eq] at h
      split at h
      · rename_i c hs
        cases h
        exact .char hs
      · cases h
    | str =>
      simp only [de, hr.resolved, asString_eq] at h
      split at h
      · rename_i s hs
        cases h
        exact .str hs
      · cases h
    | bytes =>
      simp only [de, hr.resolved] at h
      split at h
      · rename_i ys σ1 hs
        rw [Out.bind_eq_ok] at h
        obtain ⟨r, h1, h2⟩ := h
        cases h2
        have hd := seq_decodes (Γ := Γ) hr hs h1 ih
        cases hd with
        | seq hy hl hd =>
          refine .bytes hy (by simpa using hl) fun w b hm => ?_
          rw [List.zip_map_right] at hm
          obtain ⟨⟨w', v⟩, hb, he⟩ := List.mem_map.1 hm
          have hv := hd w' v hb
          obtain ⟨b', rfl⟩ := bytes_decodes hv
          simp only [Prod.map_apply, id_eq, Int.toNat_natCast, Prod.mk.injEq] at he
          obtain ⟨rfl, rfl⟩ := he
          exact hv
      · cases h
    | unit =>
      cases h
      exact .unit
    | option t =>
      simp only [de_option, hr.resolved] at h
      have done : (de Γ n t y σ).bind (fun r => .ok (SVal.some r.1, r.2)) = .ok (v, σ') →
          (∀ s, y = .unquotedString s → ¬NullWord s) → Decodes Γ (.option t) y v := by
        intro h hn
        rw [Out.bind_eq_ok] at h
        obtain ⟨r, h1, h2⟩ := h
        cases h2
        exact .some hn (ih h1 hr)
      split at h
      · rename_i s hs
        have hy : y = .unquotedString s := by cases y <;> cases hs; rfl
        split at h
        · rename_i hn
          cases h
          rw [hy]
          exact .none (nullWord_iff.1 hn)
        · rename_i hn
          refine done h fun s' hs' hw => ?_
          rw [hy] at hs'
          cases hs'
          exact hn (nullWord_iff.2 hw)
      · rename_i hs
        refine done h fun s' hs' => ?_
        rw [hs'] at hs
        cases hs
    | newtype t =>
      simp only [de] at h
      rw [Out.bind_eq_ok] at h
      obtain ⟨r, h1, h2⟩ := h
      cases h2
      exact .newtype (ih h1 hr)
    | seq t =>
      simp only [de, hr.resolved] at h
      split at h
      · rename_i ys σ1 hs
        rw [Out.bind_eq_ok] at h
        obtain ⟨r, h1, h2⟩ := h
        cases h2
        exact seq_decodes hr hs h1 ih
      · cases h
    | tuple ts =>
      simp only [de] at h
      rw [Out.bind_eq_ok] at h
      obtain ⟨r, h1, h2⟩ := h
      cases h2
      exact tupleNode_decodes hr h1 ih
    | map k t =>
      simp only [de, hr.resolved] at h
      split at h
      · rename_i es σ1 hs
        rw [Out.bind_eq_ok] at h
        obtain ⟨r, h1, h2⟩ := h
        cases h2
        exact map_decodes hr hs h1 ih ih
      · cases h
    | struct fs =>
      simp only [de] at h
      rw [Out.bind_eq_ok] at h
      obtain ⟨r, h1, h2⟩ := h
      cases h2
      exact structNode_decodes hr h1 ih
    | enum vs =>
      simp only [de, hr.resolved] at h
      rw [Out.bind_eq_ok] at h
      obtain ⟨p, hp, h⟩ := h
      have hy := parts_of_enumParts hp
      split at h
      · rename_i w hl
        cases w with
        | unit =>
          cases h
          exact .unitVariant hy hl
        | newtype t =>
          simp only [deVariant] at h
          rw [Out.bind_eq_ok] at h
          obtain ⟨r, h1, h2⟩ := h
          cases h2
          exact .newtypeVariant hy hl (ih h1 (hy.noRefs hr))
        | tuple ts =>
          simp only [deVariant] at h
          rw [Out.bind_eq_ok] at h
          obtain ⟨r, h1, h2⟩ := h
          cases h2
          exact .tupleVariant hy hl (tupleNode_decodes (hy.noRefs hr) h1 ih)
        | struct fs =>
          simp only [deVariant] at h
          rw [Out.bind_eq_ok] at h
          obtain ⟨r, h1, h2⟩ := h
          cases h2
          exact .structVariant hy hl (structNode_decodes (hy.noRefs hr) h1 ih)
      · cases h
    | any =>
      simp only [de_any, hr.refOf] at h
      split at h
      · rename_i s hs
        have hy : y = .unquotedString s := by cases y <;> cases hs; rfl
        cases h
        rw [hy]
        exact decodes_anyPlain Γ s
      · rename_i hp
        rw [asString_eq] at h
        split at h
        · rename_i s hs
          cases h
          exact .anyText (by rintro s rfl; cases hp) hs
        · split at h
          · rename_i ys σ1 hs
            rw [Out.bind_eq_ok] at h
            obtain ⟨r, h1, h2⟩ := h
            cases h2
            exact .anySeq (seq_decodes hr hs h1 ih)
          · split at h
            · rename_i es σ1 hs
              rw [Out.bind_eq_ok] at h
              obtain ⟨r, h1, h2⟩ := h
              cases h2
              exact .anyMap (map_decodes hr hs h1 ih ih)
            · cases h
    | ignored =>
      cases h
      exact .ignored
    | ref m => exact .ref (ih h hr)

/-! ## Type soundness -/

theorem zip_right_mem {α β : Type} {l : List α} {m : List β} (hl : l.length = m.length) {b : β} (h : b ∈ m) :
    ∃ a, (a, b) ∈ l.zip m := by
  induction l generalizing m with
  | nil =>
    cases m with
    | nil => cases h
    | cons => simp at hl
  | cons a l ih =>
    cases m with
    | nil => cases h
    | cons b' m =>
      rcases List.mem_cons.1 h with rfl | h
      · exact ⟨a, .head _⟩
      · obtain ⟨a', h'⟩ := ih (by simpa using hl) h
        exact ⟨a', .tail _ h'⟩

theorem zip_mid {ts : List Ty} {ys : List Yaml} {vs : List SVal} (hl : ts.length ≤ ys.length) {t : Ty} {v : SVal}
    (h : (t, v) ∈ ts.zip vs) : ∃ w, (t, w, v) ∈ ts.zip (ys.zip vs) := by
  induction ts generalizing ys vs with
  | nil => cases h
  | cons t' ts ih =>
    cases ys with
    | nil => simp at hl
    | cons y ys =>
      cases vs with
      | nil => cases h
      | cons v' vs =>
        simp only [List.zip_cons_cons, List.mem_cons] at h ⊢
        rcases h with h | h
        · cases h; exact ⟨y, .inl rfl⟩
        · obtain ⟨w, hw⟩ := ih (by simpa using hl) h
          exact ⟨w, .inr hw⟩

theorem ofTy_seq {Γ : Nat → Ty} {f : DeFn} {t : Ty} {ys : List Yaml} {vs : List SVal} {σ σ' : Anchors}
    (h : deElems f ys σ = .ok (vs, σ')) (hf : ∀ {w v σ1 σ2}, f w σ1 = .ok (v, σ2) → OfTy Γ t v) :
    OfTy Γ (.seq t) (.seq vs) := by
  obtain ⟨h1, h2⟩ := elems_forth h
  refine .seq fun v hv => ?_
  obtain ⟨w, hw⟩ := zip_right_mem h1 hv
  obtain ⟨_, _, h⟩ := h2 w v hw
  exact hf h

theorem ofTy_tuple {Γ : Nat → Ty} {f : Ty → DeFn} {ts : List Ty} {y : Yaml} {vs : List SVal} {σ σ' : Anchors}
    (h : deTupleNode f ts y σ = .ok (vs, σ')) (hf : ∀ {t w v σ1 σ2}, f t w σ1 = .ok (v, σ2) → OfTy Γ t v) :
    OfTy Γ (.tuple ts) (.tuple vs) := by
  simp only [deTupleNode] at h
  split at h
  · cases h
  · split at h
    · cases h
    · obtain ⟨h1, h2, h3⟩ := tuple_forth h
      refine .tuple h2.symm fun t v hm => ?_
      obtain ⟨w, hw⟩ := zip_mid h1 hm
      obtain ⟨_, _, h⟩ := h3 t w v hw
      exact hf h

theorem ofTy_map {Γ : Nat → Ty} {fk fv : DeFn} {kt vt : Ty} {es : List (Str × Yaml)} {vs : List (SVal × SVal)}
    {σ σ' : Anchors} (h : deEntries fk fv es σ = .ok (vs, σ'))
    (hk : ∀ {w v σ1 σ2}, fk w σ1 = .ok (v, σ2) → OfTy Γ kt v)
    (hv : ∀ {w v σ1 σ2}, fv w σ1 = .ok (v, σ2) → OfTy Γ vt v) : OfTy Γ (.map kt vt) (.map vs) := by
  obtain ⟨h1, h2⟩ := entries_forth h
  refine .map (fun a b hm => ?_) fun a b hm => ?_
  · obtain ⟨⟨k, w⟩, hw⟩ := zip_right_mem h1 hm
    obtain ⟨⟨_, _, h⟩, -⟩ := h2 k w a b hw
    exact hk h
  · obtain ⟨⟨k, w⟩, hw⟩ := zip_right_mem h1 hm
    obtain ⟨-, _, _, h⟩ := h2 k w a b hw
    exact hv h

theorem ofTy_struct {Γ : Nat → Ty} {f : Ty → DeFn} {fs : List (Str × Ty)} {y : Yaml} {vs : List (Str × SVal)}
    {σ σ' : Anchors} (h : deStruct Γ f fs y σ = .ok (vs, σ'))
    (hf : ∀ {t w v σ1 σ2}, f t w σ1 = .ok (v, σ2) → OfTy Γ t v) : OfTy Γ (.struct fs) (.struct vs) := by
  simp only [deStruct] at h
  split at h
  · cases h
  · split at h
    · cases h
    · rename_i es σ1 hs
      rw [Out.bind_eq_ok] at h
      obtain ⟨r, h1, h⟩ := h
      rw [Out.bind_eq_ok] at h
      obtain ⟨q, h2, h⟩ := h
      cases h
      obtain ⟨-, -, a3, a4⟩ := struct_forth h1
      obtain ⟨b1, b2, b3⟩ := collect_forth h2
      refine .struct b1 fun k t v hk hv => ?_
      rcases b2 k v hv with h | ⟨h, rfl⟩
      · rcases a4 k v h with h' | ⟨w, hw⟩
        · cases h'
        · obtain ⟨v', _, _, hv1, hv2⟩ := a3 k t w hk hw
          rw [h] at hv1
          cases hv1
          exact hf hv2
      · rcases b3 k t (mem_of_lookup hk) h with ⟨u, rfl⟩ | ⟨n, u, rfl, hn⟩
        · exact .none u
        · exact .ref (hn ▸ .none u)

theorem ofTy_anyPlain (Γ : Nat → Ty) (s : Str) : OfTy Γ .any (deAnyPlain s) := by
  have h := decodes_anyPlain Γ s
  generalize deAnyPlain s = v at h
  cases h with
  | anyNull => exact .anyNull
  | anyTrue => exact .anyBool _
  | anyFalse => exact .anyBool _
  | anyInt h =>
    cases h with
    | signed h hr => exact .anyInt ⟨hr.1, by omega⟩
    | unsigned h hr => exact .anyInt ⟨by omega, by omega⟩
  | anyFloat _ h => exact .anyFloat h
  | anyPlain => exact .anyStr _
  | anyText => exact .anyStr _
  | anySeq h => cases h with | seq hy => cases hy
  | anyMap h => cases h with | map hy => cases hy

theorem de_ofTy {Γ : Nat → Ty} {n : Nat} {t : Ty} {y : Yaml} {v : SVal} {σ σ' : Anchors}
    (h : de Γ n t y σ = .ok (v, σ')) : OfTy Γ t v := by
  induction n generalizing t y v σ σ' with
  | zero => cases h
  | succ n ih =>
    cases t with
    | bool =>
      simp only [de] at h
      split at h
      · rw [Out.bind_eq_ok] at h
        obtain ⟨w, h1, h2⟩ := h
        cases h2
        obtain ⟨s, rfl, ⟨h, rfl⟩ | ⟨h, rfl⟩⟩ := deBool_iff.1 h1
        · exact .bool _
        · exact .bool _
      · cases h
    | int k =>
      simp only [de] at h
      split at h
      · rw [Out.bind_eq_ok] at h
        obtain ⟨w, h1, h2⟩ := h
        cases h2
        obtain ⟨s, hs, ⟨hk, i, hi, hrng, rfl⟩ | ⟨hk, i, hi, hrng, rfl⟩⟩ := deInt_iff.1 h1
        · exact .int hrng
        · exact .int hrng
      · cases h
    | float =>
      simp only [de] at h
      split at h
      · split at h
        · split at h
          · rename_i hf
            cases h
            exact .float (isF64_iff.1 hf)
          · cases h
        · cases h
      · cases h
    | char =>
      simp only [de] at h
      split at h
      · split at h
        · cases h
          exact .char _
        · cases h
      · cases h
    | str =>
      simp only [de] at h
      split at h
      · split at h
        · cases h
          exact .str _
        · cases h
      · cases h
    | bytes =>
      simp only [de] at h
      split at h
      · split at h
        · rw [Out.bind_eq_ok] at h
          obtain ⟨r, h1, h2⟩ := h
          cases h2
          have hd := ofTy_seq (Γ := Γ) h1 ih
          cases hd with
          | seq hd =>
            refine .bytes fun b hb => ?_
            obtain ⟨v, hv, rfl⟩ := List.mem_map.1 hb
            have := hd v hv
            cases this with
            | int h =>
              rw [inRange_iff] at h
              have h1 : (0 : Int) ≤ _ := h.1
              have h2 : _ ≤ (2 ^ 8 - 1 : Int) := h.2
              simp only
              omega
        · cases h
      · cases h
    | unit =>
      cases h
      exact .unit
    | option t =>
      simp only [de_option] at h
      have done : ∀ {y}, (de Γ n t y σ).bind (fun r => .ok (SVal.some r.1, r.2)) = .ok (v, σ') →
          OfTy Γ (.option t) v := by
        intro y h
        rw [Out.bind_eq_ok] at h
        obtain ⟨r, h1, h2⟩ := h
        cases h2
        exact .some (ih h1)
      split at h
      · split at h
        · split at h
          · cases h
            exact .none t
          · exact done h
        · exact done h
      · cases h
    | newtype t =>
      simp only [de] at h
      rw [Out.bind_eq_ok] at h
      obtain ⟨r, h1, h2⟩ := h
      cases h2
      exact .newtype (ih h1)
    | seq t =>
      simp only [de] at h
      split at h
      · split at h
        · rw [Out.bind_eq_ok] at h
          obtain ⟨r, h1, h2⟩ := h
          cases h2
          exact ofTy_seq h1 ih
        · cases h
      · cases h
    | tuple ts =>
      simp only [de] at h
      rw [Out.bind_eq_ok] at h
      obtain ⟨r, h1, h2⟩ := h
      cases h2
      exact ofTy_tuple h1 ih
    | map k t =>
      simp only [de] at h
      split at h
      · split at h
        · rw [Out.bind_eq_ok] at h
          obtain ⟨r, h1, h2⟩ := h
          cases h2
          exact ofTy_map h1 ih ih
        · cases h
      · cases h
    | struct fs =>
      simp only [de] at h
      rw [Out.bind_eq_ok] at h
      obtain ⟨r, h1, h2⟩ := h
      cases h2
      exact ofTy_struct h1 ih
    | enum vs =>
      simp only [de] at h
      split at h
      · rw [Out.bind_eq_ok] at h
        obtain ⟨p, hp, h⟩ := h
        split at h
        · rename_i w hl
          cases w with
          | unit =>
            cases h
            exact .unitVariant hl
          | newtype t =>
            simp only [deVariant] at h
            rw [Out.bind_eq_ok] at h
            obtain ⟨r, h1, h2⟩ := h
            cases h2
            exact .newtypeVariant hl (ih h1)
          | tuple ts =>
            simp only [deVariant] at h
            rw [Out.bind_eq_ok] at h
            obtain ⟨r, h1, h2⟩ := h
            cases h2
            exact .tupleVariant hl (ofTy_tuple h1 ih)
          | struct fs =>
            simp only [deVariant] at h
            rw [Out.bind_eq_ok] at h
            obtain ⟨r, h1, h2⟩ := h
            cases h2
            exact .structVariant hl (ofTy_struct h1 ih)
        · cases h
      · cases h
    | any =>
      simp only [de_any] at h
      split at h
      · cases h
        exact ofTy_anyPlain Γ _
      · split at h
        · split at h
          · exact ih h
          · cases h
        · split at h
          · cases h
            exact .anyStr _
          · split at h
            · rw [Out.bind_eq_ok] at h
              obtain ⟨r, h1, h2⟩ := h
              cases h2
              exact .anySeq (ofTy_seq h1 ih)
            · split at h
              · rw [Out.bind_eq_ok] at h
                obtain ⟨r, h1, h2⟩ := h
                cases h2
                exact .anyMap (ofTy_map h1 ih ih)
              · cases h
    | ignored =>
      cases h
      exact .ignored
    | ref m => exact .ref (ih h)

end YamlSubset
