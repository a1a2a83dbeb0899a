import Verif.Spec.Ints

/-! # Lemmas about the deserializer: loop equations, fuel, panics -/

namespace YamlSubset

@[simp] theorem Out.bind_ok {α β : Type} (a : α) (f : α → Out β) : (Out.ok a).bind f = f a := rfl
@[simp] theorem Out.bind_err {α β : Type} (f : α → Out β) : (Out.err : Out α).bind f = .err := rfl
@[simp] theorem Out.bind_panic {α β : Type} (f : α → Out β) : (Out.panic : Out α).bind f = .panic := rfl
@[simp] theorem Out.bind_unmatched {α β : Type} (f : α → Out β) :
    (Out.unmatched : Out α).bind f = .unmatched := rfl
@[simp] theorem Out.bind_oof {α β : Type} (f : α → Out β) : (Out.oof : Out α).bind f = .oof := rfl

theorem Out.bind_assoc {α β γ : Type} (x : Out α) (f : α → Out β) (g : β → Out γ) :
    (x.bind f).bind g = x.bind fun a => (f a).bind g := by
  cases x <;> rfl

theorem Out.bind_eq_ok {α β : Type} {x : Out α} {f : α → Out β} {b : β} :
    x.bind f = .ok b ↔ ∃ a, x = .ok a ∧ f a = .ok b := by
  cases x <;> simp

/-! ## Loop equations -/

theorem deEntries_nil (fk fv : DeFn) (σ : Anchors) : deEntries fk fv [] σ = .ok ([], σ) := rfl

theorem mapLoop_pending (fk fv : DeFn) (n : Nat) (es : List (Str × Yaml)) (p : Option Yaml) (σ : Anchors) :
    mapLoop fk fv n ⟨es, p⟩ σ = mapLoop fk fv n ⟨es, none⟩ σ := by
  cases n with
  | zero => rfl
  | succ n => cases es with
    | nil => rfl
    | cons e t => rfl

theorem deEntries_cons (fk fv : DeFn) (k : Str) (y : Yaml) (t : List (Str × Yaml)) (σ : Anchors) :
    deEntries fk fv ((k, y) :: t) σ = (fk (.unquotedString k) σ).bind fun rk =>
      (fv y rk.2).bind fun rv =>
        (deEntries fk fv t rv.2).bind fun q => .ok ((rk.1, rv.1) :: q.1, q.2) := by
  simp only [deEntries, List.length_cons]
  rw [mapLoop]
  simp only [MapAccess.nextKey, Out.bind_assoc, Out.bind_ok, MapAccess.nextValue]

theorem structLoop_nil (f : Ty → DeFn) (fs : List (Str × Ty)) (n : Nat) (p : Option Yaml)
    (acc : List (Str × SVal)) (σ : Anchors) : structLoop f fs (n + 1) ⟨[], p⟩ acc σ = .ok (acc, σ) := rfl

theorem structLoop_cons (f : Ty → DeFn) (fs : List (Str × Ty)) (n : Nat) (k : Str) (y : Yaml)
    (t : List (Str × Yaml)) (p : Option Yaml) (acc : List (Str × SVal)) (σ : Anchors) :
    structLoop f fs (n + 1) ⟨(k, y) :: t, p⟩ acc σ =
      match fs.lookup k with
      | none => structLoop f fs n ⟨t, none⟩ acc σ
      | some ty =>
        if (acc.lookup k).isSome then .err
        else (f ty y σ).bind fun r => structLoop f fs n ⟨t, none⟩ ((k, r.1) :: acc) r.2 := by
  rw [structLoop]
  simp only [MapAccess.nextName, MapAccess.nextValue, deIgnored, Out.bind_ok, Out.bind_assoc]
  cases fs.lookup k <;> rfl

/-! ## More fuel gives the same outcome -/

/-- `a` ran out of fuel or agrees with `b`. -/
def Out.Le {α : Type} (a b : Out α) : Prop := a = .oof ∨ a = b

theorem Out.Le.refl {α : Type} (a : Out α) : Out.Le a a := .inr rfl

theorem Out.Le.bind {α β : Type} {a b : Out α} {f g : α → Out β} (h : Out.Le a b)
    (hf : ∀ x, Out.Le (f x) (g x)) : Out.Le (a.bind f) (b.bind g) := by
  rcases h with rfl | rfl
  · exact .inl rfl
  · cases a with
    | ok x => exact hf x
    | _ => exact .inr rfl

theorem Out.Le.eq {α : Type} {a b : Out α} (h : Out.Le a b) (hn : a ≠ .oof) : b = a := by
  rcases h with h | h
  · exact absurd h hn
  · exact h.symm

/-- Pointwise comparison of steps. -/
def DeLe (f g : DeFn) : Prop := ∀ y σ, Out.Le (f y σ) (g y σ)

theorem deElems_le {f g : DeFn} (h : DeLe f g) (ys : List Yaml) (σ : Anchors) :
    Out.Le (deElems f ys σ) (deElems g ys σ) := by
  induction ys generalizing σ with
  | nil => exact .refl _
  | cons y t ih => exact (h y σ).bind fun r => (ih r.2).bind fun _ => .refl _

theorem deTuple_le {f g : Ty → DeFn} (h : ∀ t, DeLe (f t) (g t)) (ts : List Ty) (ys : List Yaml)
    (σ : Anchors) : Out.Le (deTuple f ts ys σ) (deTuple g ts ys σ) := by
  induction ts generalizing ys σ with
  | nil => exact .refl _
  | cons t ts ih => cases ys with
    | nil => exact .refl _
    | cons y ys => exact (h t y σ).bind fun r => (ih ys r.2).bind fun _ => .refl _

theorem deEntries_le {fk gk fv gv : DeFn} (hk : DeLe fk gk) (hv : DeLe fv gv) (es : List (Str × Yaml))
    (σ : Anchors) : Out.Le (deEntries fk fv es σ) (deEntries gk gv es σ) := by
  induction es generalizing σ with
  | nil => exact .refl _
  | cons e t ih =>
    obtain ⟨k, y⟩ := e
    rw [deEntries_cons, deEntries_cons]
    exact (hk _ σ).bind fun r => (hv y _).bind fun s => (ih s.2).bind fun _ => .refl _

theorem structLoop_le {f g : Ty → DeFn} (h : ∀ t, DeLe (f t) (g t)) (fs : List (Str × Ty)) (n : Nat)
    (es : List (Str × Yaml)) (p : Option Yaml) (acc : List (Str × SVal)) (σ : Anchors) :
    Out.Le (structLoop f fs n ⟨es, p⟩ acc σ) (structLoop g fs n ⟨es, p⟩ acc σ) := by
  induction n generalizing es p acc σ with
  | zero => exact .refl _
  | succ n ih => cases es with
    | nil => exact .refl _
    | cons e t =>
      obtain ⟨k, y⟩ := e
      rw [structLoop_cons, structLoop_cons]
      split
      · exact ih ..
      · split
        · exact .refl _
        · exact (h _ _ _).bind fun r => ih ..

theorem deStruct_le {Γ : Nat → Ty} {f g : Ty → DeFn} (h : ∀ t, DeLe (f t) (g t)) (fs : List (Str × Ty))
    (y : Yaml) (σ : Anchors) : Out.Le (deStruct Γ f fs y σ) (deStruct Γ g fs y σ) := by
  simp only [deStruct]
  split
  · exact .refl _
  · split
    · exact .refl _
    · exact (structLoop_le h ..).bind fun r => .refl _

theorem deTupleNode_le {f g : Ty → DeFn} (h : ∀ t, DeLe (f t) (g t)) (ts : List Ty)
    (y : Yaml) (σ : Anchors) : Out.Le (deTupleNode f ts y σ) (deTupleNode g ts y σ) := by
  simp only [deTupleNode]
  split
  · exact .refl _
  · split
    · exact .refl _
    · exact deTuple_le h ..

theorem deVariant_le {Γ : Nat → Ty} {f g : Ty → DeFn} (h : ∀ t, DeLe (f t) (g t)) (name : Str)
    (v : Variant) (y : Yaml) (σ : Anchors) :
    Out.Le (deVariant Γ f name v y σ) (deVariant Γ g name v y σ) := by
  cases v with
  | unit => exact .refl _
  | newtype t => exact (h t y σ).bind fun _ => .refl _
  | tuple ts => exact (deTupleNode_le h ..).bind fun _ => .refl _
  | struct fs => exact (deStruct_le h ..).bind fun _ => .refl _

theorem de_le_succ (Γ : Nat → Ty) (n : Nat) (ty : Ty) : DeLe (de Γ n ty) (de Γ (n + 1) ty) := by
  induction n generalizing ty with
  | zero => exact fun _ _ => .inl rfl
  | succ n ih =>
    intro y σ
    rw [de.eq_def Γ (n + 1), de.eq_def Γ (n + 1 + 1)]
    cases ty with
    | bool | int | float | char | str | unit | ignored => exact .refl _
    | bytes =>
      dsimp only
      repeat' split
      all_goals first | exact .refl _ | exact (deElems_le (ih _) ..).bind fun _ => .refl _
    | option t =>
      dsimp only
      repeat' split
      all_goals first | exact .refl _ | exact (ih ..).bind fun _ => .refl _
    | newtype t => exact (ih ..).bind fun _ => .refl _
    | seq t =>
      dsimp only
      repeat' split
      all_goals first | exact .refl _ | exact (deElems_le (ih _) ..).bind fun _ => .refl _
    | tuple ts => exact (deTupleNode_le ih ..).bind fun _ => .refl _
    | map k v =>
      dsimp only
      repeat' split
      all_goals first | exact .refl _ | exact (deEntries_le (ih _) (ih _) ..).bind fun _ => .refl _
    | struct fs => exact (deStruct_le ih ..).bind fun _ => .refl _
    | enum vs =>
      dsimp only
      split
      · refine (Out.Le.refl _).bind fun p => ?_
        split
        · exact deVariant_le ih ..
        · exact .refl _
      · exact .refl _
    | any =>
      dsimp only
      repeat' split
      all_goals first
        | exact .refl _
        | exact ih ..
        | exact (deElems_le (ih _) ..).bind fun _ => .refl _
        | exact (deEntries_le (ih _) (ih _) ..).bind fun _ => .refl _
    | ref m => exact ih ..

theorem de_le (Γ : Nat → Ty) {n m : Nat} (h : n ≤ m) (ty : Ty) : DeLe (de Γ n ty) (de Γ m ty) := by
  induction h with
  | refl => exact fun _ _ => .refl _
  | step _ ih =>
    intro y σ
    rcases ih y σ with h | h
    · exact .inl h
    · rw [h]; exact de_le_succ Γ _ ty y σ

/-- More fuel does not change an outcome. -/
theorem de_mono (Γ : Nat → Ty) {n m : Nat} (h : n ≤ m) {ty : Ty} {y : Yaml} {σ : Anchors} {o : DeOut}
    (ho : de Γ n ty y σ = o) (hn : o ≠ .oof) : de Γ m ty y σ = o := by
  rw [← ho] at hn ⊢
  exact (de_le Γ h ty y σ).eq hn

/-! ## No panics -/

/-- Neither a panic nor an unmatched node. -/
def Out.Safe {α : Type} (o : Out α) : Prop := o ≠ .panic ∧ o ≠ .unmatched

theorem Out.Safe.bind {α β : Type} {a : Out α} {f : α → Out β} (h : a.Safe) (hf : ∀ x, (f x).Safe) :
    (a.bind f).Safe := by
  cases a with
  | ok x => exact hf x
  | err => exact ⟨by nofun, by nofun⟩
  | oof => exact ⟨by nofun, by nofun⟩
  | panic => exact absurd rfl h.1
  | unmatched => exact absurd rfl h.2

theorem Out.safe_ok {α : Type} (a : α) : (Out.ok a).Safe := ⟨by nofun, by nofun⟩
theorem Out.safe_err {α : Type} : (Out.err : Out α).Safe := ⟨by nofun, by nofun⟩
theorem Out.safe_oof {α : Type} : (Out.oof : Out α).Safe := ⟨by nofun, by nofun⟩

/-- All outcomes of a step are safe. -/
def DeSafe (f : DeFn) : Prop := ∀ y σ, (f y σ).Safe

theorem deElems_safe {f : DeFn} (h : DeSafe f) (ys : List Yaml) (σ : Anchors) : (deElems f ys σ).Safe := by
  induction ys generalizing σ with
  | nil => exact Out.safe_ok _
  | cons y t ih => exact (h y σ).bind fun r => (ih r.2).bind fun _ => Out.safe_ok _

theorem deTuple_safe {f : Ty → DeFn} (h : ∀ t, DeSafe (f t)) (ts : List Ty) (ys : List Yaml)
    (σ : Anchors) : (deTuple f ts ys σ).Safe := by
  induction ts generalizing ys σ with
  | nil => exact Out.safe_ok _
  | cons t ts ih => cases ys with
    | nil => exact Out.safe_err
    | cons y ys => exact (h t y σ).bind fun r => (ih ys r.2).bind fun _ => Out.safe_ok _

theorem deEntries_safe {fk fv : DeFn} (hk : DeSafe fk) (hv : DeSafe fv) (es : List (Str × Yaml))
    (σ : Anchors) : (deEntries fk fv es σ).Safe := by
  induction es generalizing σ with
  | nil => exact Out.safe_ok _
  | cons e t ih =>
    obtain ⟨k, y⟩ := e
    rw [deEntries_cons]
    exact (hk _ σ).bind fun r => (hv y _).bind fun s => (ih s.2).bind fun _ => Out.safe_ok _

theorem structLoop_safe {f : Ty → DeFn} (h : ∀ t, DeSafe (f t)) (fs : List (Str × Ty)) (n : Nat)
    (es : List (Str × Yaml)) (p : Option Yaml) (acc : List (Str × SVal)) (σ : Anchors) :
    (structLoop f fs n ⟨es, p⟩ acc σ).Safe := by
  induction n generalizing es p acc σ with
  | zero => exact Out.safe_oof
  | succ n ih => cases es with
    | nil => exact Out.safe_ok _
    | cons e t =>
      obtain ⟨k, y⟩ := e
      rw [structLoop_cons]
      split
      · exact ih ..
      · split
        · exact Out.safe_err
        · exact (h _ _ _).bind fun r => ih ..

theorem collectFields_safe (Γ : Nat → Ty) (acc : List (Str × SVal)) (fs : List (Str × Ty)) :
    (collectFields Γ acc fs).Safe := by
  induction fs with
  | nil => exact Out.safe_ok _
  | cons f t ih =>
    obtain ⟨k, ty⟩ := f
    rw [collectFields]
    repeat' split
    all_goals first | exact ih.bind fun _ => Out.safe_ok _ | exact Out.safe_err

theorem deStruct_safe {Γ : Nat → Ty} {f : Ty → DeFn} (h : ∀ t, DeSafe (f t)) (fs : List (Str × Ty))
    (y : Yaml) (σ : Anchors) : (deStruct Γ f fs y σ).Safe := by
  simp only [deStruct]
  split
  · exact Out.safe_err
  · split
    · exact Out.safe_err
    · exact (structLoop_safe h ..).bind fun r => (collectFields_safe ..).bind fun _ => Out.safe_ok _

theorem deTupleNode_safe {f : Ty → DeFn} (h : ∀ t, DeSafe (f t)) (ts : List Ty)
    (y : Yaml) (σ : Anchors) : (deTupleNode f ts y σ).Safe := by
  simp only [deTupleNode]
  split
  · exact Out.safe_err
  · split
    · exact Out.safe_err
    · exact deTuple_safe h ..

theorem enumParts_safe (σ : Anchors) (y : Yaml) : (enumParts σ y).Safe := by
  rw [enumParts]
  split
  · exact Out.safe_ok _
  · split
    · split
      · split
        · contradiction
        · exact Out.safe_ok _
      · exact Out.safe_err
    · exact Out.safe_err

theorem deBool_safe (y : Yaml) : (deBool y).Safe := by
  unfold deBool
  repeat' split
  all_goals first | exact Out.safe_ok _ | exact Out.safe_err

/-- The bounds that the deserializer uses are those of the type. -/
theorem inRange_iff {k : IntTy} {i : Int} : Spec.InRange k i ↔ k.min ≤ i ∧ i ≤ k.max := by
  cases k <;> simp only [Spec.InRange, Spec.bits, IntTy.min, IntTy.max] <;> simp <;> omega

theorem deInt_safe (k : IntTy) (y : Yaml) : (deInt k y).Safe := by
  unfold deInt
  repeat' split
  all_goals first | exact Out.safe_ok _ | exact Out.safe_err

theorem deVariant_safe {Γ : Nat → Ty} {f : Ty → DeFn} (h : ∀ t, DeSafe (f t)) (name : Str)
    (v : Variant) (y : Yaml) (σ : Anchors) : (deVariant Γ f name v y σ).Safe := by
  cases v with
  | unit => exact Out.safe_ok _
  | newtype t => exact (h t y σ).bind fun _ => Out.safe_ok _
  | tuple ts => exact (deTupleNode_safe h ..).bind fun _ => Out.safe_ok _
  | struct fs => exact (deStruct_safe h ..).bind fun _ => Out.safe_ok _

theorem de_safe (Γ : Nat → Ty) (n : Nat) (ty : Ty) : DeSafe (de Γ n ty) := by
  induction n generalizing ty with
  | zero => exact fun _ _ => Out.safe_oof
  | succ n ih =>
    intro y σ
    rw [de.eq_def]
    cases ty
    all_goals dsimp only
    all_goals repeat' split
    all_goals first
      | exact Out.safe_ok _
      | exact Out.safe_err
      | exact ih ..
      | exact (deBool_safe _).bind fun _ => Out.safe_ok _
      | exact (deInt_safe _ _).bind fun _ => Out.safe_ok _
      | exact (ih ..).bind fun _ => Out.safe_ok _
      | exact (deElems_safe (ih _) ..).bind fun _ => Out.safe_ok _
      | exact (deEntries_safe (ih _) (ih _) ..).bind fun _ => Out.safe_ok _
      | exact (deTupleNode_safe ih ..).bind fun _ => Out.safe_ok _
      | exact (deStruct_safe ih ..).bind fun _ => Out.safe_ok _
      | skip
    refine (enumParts_safe _ _).bind fun p => ?_
    split
    · exact deVariant_safe ih ..
    · exact Out.safe_err

end YamlSubset
