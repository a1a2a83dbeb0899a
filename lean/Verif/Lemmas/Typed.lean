import Verif.Lemmas.DeView
import Verif.Lemmas.Numbers
import Verif.Lemmas.Pretty
import Verif.Spec.Typed

/-! # Trees that represent typed values -/

namespace YamlSubset

open Spec

/-- A node that is not read as a null, and will not be after requoting. -/
def NotNull (y : Yaml) : Prop :=
  ∀ s, y.asString = some s → isNullWord s = true → plainOf y = none ∧ canBeUnquotedInBlock s = false

/-- `Denotes Γ ty v y`: the tree `y`, which defines no anchors, represents the value `v` of type `ty`. -/
inductive Denotes (Γ : Nat → Ty) : Ty → SVal → Yaml → Prop
  | bool {b : Bool} {y} (h : plainOf y = some (if b then c!"true" else c!"false")) : Denotes Γ .bool (.bool b) y
  | int {k i y} (hk : k ≠ .i128 ∧ k ≠ .u128) (hr : InRange k i)
      (h : plainOf y = some (intToStr i)) : Denotes Γ (.int k) (.int i) y
  | float {t y} (ht : isF64 t = true) (h : plainOf y = some t) : Denotes Γ .float (.float t) y
  | char {c y} (h : y.asString = some [c]) : Denotes Γ .char (.char c) y
  | str {s y} (h : y.asString = some s) : Denotes Γ .str (.str s) y
  | bytes {bs y} (hb : ∀ b ∈ bs, b < 256)
      (h : ∀ σ, asSeq σ y = some (bs.map fun b => .unquotedString (natToStr b), σ)) :
      Denotes Γ .bytes (.bytes bs) y
  | unit {y} (h : plainOf y = some ['~']) : Denotes Γ .unit .unit y
  | none {t y} (h : plainOf y = some ['~']) : Denotes Γ (.option t) .none y
  | some {t v y} (h : Denotes Γ t v y) (hr : refOf y = none) (hn : NotNull y) :
      Denotes Γ (.option t) (.some v) y
  | newtype {t v y} (h : Denotes Γ t v y) : Denotes Γ (.newtype t) (.newtype v) y
  | seq {t y} (ps : List (SVal × Yaml)) (h : ∀ v z, (v, z) ∈ ps → Denotes Γ t v z)
      (hs : ∀ σ, asSeq σ y = some (ps.map (fun p => p.2), σ)) :
      Denotes Γ (.seq t) (.seq (ps.map fun p => p.1)) y
  | tuple {y} (ps : List (Ty × SVal × Yaml)) (h : ∀ t v z, (t, v, z) ∈ ps → Denotes Γ t v z)
      (hs : ∀ σ, asSeq σ y = some (ps.map (fun p => p.2.2), σ)) :
      Denotes Γ (.tuple (ps.map fun p => p.1)) (.tuple (ps.map fun p => p.2.1)) y
  | map {kt vt y} (ps : List (SVal × Str × SVal × Yaml))
      (hk : ∀ k s v z, (k, s, v, z) ∈ ps → Denotes Γ kt k (.unquotedString s))
      (hv : ∀ k s v z, (k, s, v, z) ∈ ps → Denotes Γ vt v z)
      (hs : ∀ σ, asMap σ y = some (ps.map (fun p => (p.2.1, p.2.2.2)), σ)) :
      Denotes Γ (.map kt vt) (.map (ps.map fun p => (p.1, p.2.2.1))) y
  | struct {y} (ps : List (Str × Ty × SVal × Yaml)) (hn : (ps.map fun p => p.1).Nodup)
      (h : ∀ k t v z, (k, t, v, z) ∈ ps → Denotes Γ t v z)
      (hs : ∀ σ, asMap σ y = some (ps.map (fun p => (p.1, p.2.2.2)), σ)) :
      Denotes Γ (.struct (ps.map fun p => (p.1, p.2.1))) (.struct (ps.map fun p => (p.1, p.2.2.1))) y
  | unitVariant {vs name y} (hl : vs.lookup name = Option.some .unit) (h : y.asString = Option.some name) :
      Denotes Γ (.enum vs) (.unitVariant name) y
  | newtypeVariant {vs t v y} (hl : vs.lookup ['~'] = some (.newtype t)) (hs : y.asString = some ['~'])
      (h : Denotes Γ t v (.unquotedString ['~'])) : Denotes Γ (.enum vs) (.newtypeVariant ['~'] v) y
  | ref {n v y} (h : Denotes Γ (Γ n) v y) : Denotes Γ (.ref n) v y

/-! ## Reading a representing tree -/

/-- The step reads `v` from `y` for all anchor maps, which it does not change. -/
def Yields (f : DeFn) (v : SVal) (y : Yaml) : Prop := ∀ σ, f y σ = .ok (v, σ)

theorem Yields.mono {Γ : Nat → Ty} {n m : Nat} (h : n ≤ m) {ty : Ty} {v : SVal} {y : Yaml}
    (hr : Yields (de Γ n ty) v y) : Yields (de Γ m ty) v y :=
  fun σ => de_mono Γ h (hr σ) (by nofun)

theorem exists_bound {α : Type} (l : List α) (P : Nat → α → Prop)
    (hm : ∀ n m a, n ≤ m → P n a → P m a) (h : ∀ a ∈ l, ∃ n, P n a) : ∃ n, ∀ a ∈ l, P n a := by
  induction l with
  | nil => exact ⟨0, by simp⟩
  | cons a t ih =>
    obtain ⟨n, hn⟩ := ih fun b hb => h b (by simp [hb])
    obtain ⟨m, hmm⟩ := h a (by simp)
    refine ⟨max n m, fun b hb => ?_⟩
    rcases List.mem_cons.1 hb with rfl | hb
    · exact hm m _ _ (by omega) hmm
    · exact hm n _ _ (by omega) (hn b hb)

theorem intoResolved_of_string {y : Yaml} {s : Str} (h : y.asString = some s) (σ : Anchors) :
    intoResolved σ y = some y := by
  cases y <;> simp [Yaml.asString] at h <;> rfl

theorem eq_of_plainOf {y : Yaml} {s : Str} (h : plainOf y = some s) : y = .unquotedString s := by
  cases y <;> simp [plainOf] at h
  rw [h]

theorem intoResolved_of_seq {y : Yaml} {r : List Yaml × Anchors} {σ : Anchors} (h : asSeq σ y = some r)
    (σ' : Anchors) : intoResolved σ' y = some y := by
  cases y <;> simp [asSeq] at h <;> rfl

theorem intoResolved_of_map {y : Yaml} {r : List (Str × Yaml) × Anchors} {σ : Anchors}
    (h : asMap σ y = some r) (σ' : Anchors) : intoResolved σ' y = some y := by
  cases y <;> simp [asMap] at h <;> rfl

theorem deElems_reads {f : DeFn} (ps : List (SVal × Yaml)) (h : ∀ v z, (v, z) ∈ ps → Yields f v z)
    (σ : Anchors) : deElems f (ps.map fun p => p.2) σ = .ok (ps.map fun p => p.1, σ) := by
  induction ps with
  | nil => rfl
  | cons p t ih =>
    obtain ⟨v, z⟩ := p
    simp only [List.map_cons, deElems]
    rw [h v z (by simp) σ, Out.bind_ok, ih fun v z hp => h v z (by simp [hp])]
    rfl

theorem deTuple_reads {f : Ty → DeFn} (ps : List (Ty × SVal × Yaml))
    (h : ∀ t v z, (t, v, z) ∈ ps → Yields (f t) v z) (σ : Anchors) :
    deTuple f (ps.map fun p => p.1) (ps.map fun p => p.2.2) σ = .ok (ps.map fun p => p.2.1, σ) := by
  induction ps with
  | nil => rfl
  | cons p t ih =>
    obtain ⟨ty, v, z⟩ := p
    simp only [List.map_cons, deTuple]
    rw [h ty v z (by simp) σ, Out.bind_ok, ih fun t v z hp => h t v z (by simp [hp])]
    rfl

theorem deEntries_reads {fk fv : DeFn} (ps : List (SVal × Str × SVal × Yaml))
    (hk : ∀ k s v z, (k, s, v, z) ∈ ps → Yields fk k (.unquotedString s))
    (hv : ∀ k s v z, (k, s, v, z) ∈ ps → Yields fv v z) (σ : Anchors) :
    deEntries fk fv (ps.map fun p => (p.2.1, p.2.2.2)) σ = .ok (ps.map fun p => (p.1, p.2.2.1), σ) := by
  induction ps with
  | nil => rfl
  | cons p t ih =>
    obtain ⟨k, s, v, z⟩ := p
    simp only [List.map_cons, deEntries_cons]
    rw [hk k s v z (by simp) σ, Out.bind_ok, hv k s v z (by simp) σ, Out.bind_ok,
      ih (fun k s v z hp => hk k s v z (by simp [hp])) (fun k s v z hp => hv k s v z (by simp [hp]))]
    rfl

theorem lookup_eq_none {α : Type} {k : Str} {l : List (Str × α)} (h : k ∉ l.map fun p => p.1) :
    l.lookup k = none := by
  induction l with
  | nil => rfl
  | cons p t ih =>
    simp only [List.map_cons, List.mem_cons, not_or] at h
    rw [List.lookup, ih h.2]
    have : (k == p.1) = false := by simpa using h.1
    rw [this]

theorem lookup_eq_some {α : Type} {k : Str} {a : α} {l : List (Str × α)}
    (hn : (l.map fun p => p.1).Nodup) (h : (k, a) ∈ l) : l.lookup k = some a := by
  induction l with
  | nil => simp at h
  | cons p t ih =>
    obtain ⟨k', a'⟩ := p
    simp only [List.map_cons, List.nodup_cons] at hn
    rcases List.mem_cons.1 h with h1 | h1
    · simp only [Prod.mk.injEq] at h1
      obtain ⟨rfl, rfl⟩ := h1
      simp [List.lookup]
    · have : (k == k') = false := by
        have : k ≠ k' := by
          rintro rfl
          exact hn.1 (List.mem_map.2 ⟨_, h1, rfl⟩)
        simpa using this
      rw [List.lookup, this]
      exact ih hn.2 h1

theorem structLoop_reads {f : Ty → DeFn} {fs : List (Str × Ty)} (ps : List (Str × Ty × SVal × Yaml))
    (hl : ∀ k t v z, (k, t, v, z) ∈ ps → fs.lookup k = some t) (σ : Anchors)
    (h : ∀ k t v z, (k, t, v, z) ∈ ps → f t z σ = .ok (v, σ)) (hn : (ps.map fun p => p.1).Nodup)
    (acc : List (Str × SVal)) (ha : ∀ k ∈ ps.map (fun p => p.1), k ∉ acc.map fun p => p.1)
    (q : Option Yaml) :
    structLoop f fs (ps.length + 1) ⟨ps.map fun p => (p.1, p.2.2.2), q⟩ acc σ =
      .ok ((ps.map fun p => (p.1, p.2.2.1)).reverse ++ acc, σ) := by
  induction ps generalizing acc q with
  | nil => rfl
  | cons p t ih =>
    obtain ⟨k, ty, v, z⟩ := p
    simp only [List.map_cons, List.length_cons, List.nodup_cons] at hn ⊢
    rw [structLoop_cons, hl k ty v z (by simp)]
    dsimp only
    rw [lookup_eq_none (ha k (by simp))]
    simp only [Option.isSome_none, Bool.false_eq_true, if_false]
    rw [h k ty v z (by simp), Out.bind_ok]
    rw [ih (fun k t v z hp => hl k t v z (by simp [hp])) (fun k t v z hp => h k t v z (by simp [hp])) hn.2]
    · simp
    · intro k' hk'
      simp only [List.map_cons, List.mem_cons, not_or]
      refine ⟨?_, ha k' (by simp only [List.map_cons, List.mem_cons]; exact .inr hk')⟩
      rintro rfl
      exact hn.1 hk'

theorem collectFields_reads (Γ : Nat → Ty) (acc : List (Str × SVal)) (ps : List (Str × Ty × SVal))
    (h : ∀ k t v, (k, t, v) ∈ ps → acc.lookup k = some v) :
    collectFields Γ acc (ps.map fun p => (p.1, p.2.1)) = .ok (ps.map fun p => (p.1, p.2.2)) := by
  induction ps with
  | nil => rfl
  | cons p t ih =>
    obtain ⟨k, ty, v⟩ := p
    simp only [List.map_cons, collectFields]
    rw [h k ty v (by simp), ih fun k t v hp => h k t v (by simp [hp])]
    rfl

theorem deStruct_reads {Γ : Nat → Ty} {f : Ty → DeFn} {y : Yaml} (ps : List (Str × Ty × SVal × Yaml))
    (hn : (ps.map fun p => p.1).Nodup) {σ σ' : Anchors}
    (h : ∀ k t v z, (k, t, v, z) ∈ ps → f t z σ' = .ok (v, σ'))
    (hs : asMap σ y = some (ps.map (fun p => (p.1, p.2.2.2)), σ')) :
    deStruct Γ f (ps.map fun p => (p.1, p.2.1)) y σ = .ok (ps.map fun p => (p.1, p.2.2.1), σ') := by
  rw [deStruct, intoResolved_of_map hs]
  dsimp only
  rw [hs]
  dsimp only
  rw [deFields, List.length_map, structLoop_reads ps _ σ' h hn [] (by simp) none, Out.bind_ok]
  · have hc := collectFields_reads Γ ((ps.map fun p => (p.1, p.2.2.1)).reverse)
      (ps.map fun p => (p.1, p.2.1, p.2.2.1)) ?_
    · simp only [List.map_map, Function.comp_def] at hc
      simp only [List.append_nil, hc, Out.bind_ok]
    · intro k t v hp
      simp only [List.mem_map, Prod.mk.injEq] at hp
      obtain ⟨⟨k', t', v', z⟩, hp, rfl, rfl, rfl⟩ := hp
      refine lookup_eq_some ?_ ?_
      · simp only [List.map_reverse, List.map_map, Function.comp_def]
        rw [(List.reverse_perm _).nodup_iff]
        exact hn
      · simp only [List.mem_reverse, List.mem_map, Prod.mk.injEq]
        exact ⟨_, hp, rfl, rfl⟩
  · intro k t v z hp
    refine lookup_eq_some ?_ ?_
    · simp only [List.map_map, Function.comp_def]; exact hn
    · simp only [List.mem_map, Prod.mk.injEq]
      exact ⟨_, hp, rfl, rfl⟩

theorem parseInt_intToStr {k : IntTy} {i : Int} (hk : k ≠ .i128 ∧ k ≠ .u128) (h : k.min ≤ i ∧ i ≤ k.max) :
    parseInt k (intToStr i) = some i := by
  cases k <;> simp only [IntTy.min, IntTy.max] at h <;> simp only [parseInt] <;>
    first
    | exact parseI64_intToStr (by omega)
    | exact parseU64_intToStr (by omega)
    | simp at hk

theorem de_int_plain {Γ : Nat → Ty} {n : Nat} {k : IntTy} {i : Int} (hk : k ≠ .i128 ∧ k ≠ .u128)
    (h : k.min ≤ i ∧ i ≤ k.max) : Yields (de Γ (n + 1) (.int k)) (.int i) (.unquotedString (intToStr i)) := by
  intro σ
  rw [de.eq_def]
  simp [intoResolved, deInt, Yaml.asString, parseInt_intToStr hk h, h]

/-- A representing tree is read as the value it represents. -/
theorem de_repr {Γ : Nat → Ty} {ty : Ty} {v : SVal} {y : Yaml} (h : Denotes Γ ty v y) :
    ∃ n, Yields (de Γ n ty) v y := by
  induction h with
  | @bool b y h =>
    refine ⟨1, fun σ => ?_⟩
    rw [eq_of_plainOf h]
    cases b <;> rfl
  | int hk hr h => exact ⟨1, by rw [eq_of_plainOf h]; exact de_int_plain hk (inRange_iff.1 hr)⟩
  | float ht h =>
    refine ⟨1, fun σ => ?_⟩
    rw [eq_of_plainOf h, de.eq_def]
    simp [intoResolved, Yaml.asString, ht]
  | char h =>
    refine ⟨1, fun σ => ?_⟩
    rw [de.eq_def]
    simp [intoResolved_of_string h, h]
  | str h =>
    refine ⟨1, fun σ => ?_⟩
    rw [de.eq_def]
    simp [intoResolved_of_string h, h]
  | @bytes bs y hb h =>
    refine ⟨2, fun σ => ?_⟩
    rw [de.eq_def]
    dsimp only
    rw [intoResolved_of_seq (h σ)]
    dsimp only
    rw [h σ]
    dsimp only
    have := deElems_reads (f := de Γ 1 (.int .u8))
      (bs.map fun (b : Nat) => (.int (Int.ofNat b), .unquotedString (natToStr b))) ?_ σ
    · simp only [List.map_map, Function.comp_def] at this
      rw [this]
      simp [Function.comp_def]
    · intro v z hp
      simp only [List.mem_map, Prod.mk.injEq] at hp
      obtain ⟨b, hb', rfl, rfl⟩ := hp
      have := hb b hb'
      exact de_int_plain (k := .u8) (i := Int.ofNat b) ⟨by decide, by decide⟩
        ⟨by simp only [IntTy.min, Int.ofNat_eq_natCast]; omega,
          by simp only [IntTy.max, Int.ofNat_eq_natCast]; omega⟩
  | unit h => exact ⟨1, fun σ => rfl⟩
  | none h =>
    refine ⟨1, fun σ => ?_⟩
    rw [eq_of_plainOf h]; rfl
  | @some t v y h hr hn ih =>
    obtain ⟨n, ih⟩ := ih
    refine ⟨n + 1, fun σ => ?_⟩
    rw [de_option, intoResolved_of_refOf hr]
    dsimp only
    rw [ih σ]
    cases hp : plainOf y with
    | none => rfl
    | some s =>
      dsimp only
      have he := eq_of_plainOf hp
      rw [if_neg]
      · rfl
      · intro hw
        have := (hn s (by rw [he]; rfl) hw).1
        rw [hp] at this
        simp at this
  | newtype h ih =>
    obtain ⟨n, ih⟩ := ih
    refine ⟨n + 1, fun σ => ?_⟩
    rw [de.eq_def]
    dsimp only
    rw [ih σ]; rfl
  | @seq t y ps h hs ih =>
    obtain ⟨n, hn⟩ := exists_bound ps (fun n p => Yields (de Γ n t) p.1 p.2)
      (fun n m a hnm hr => hr.mono hnm) (fun p hp => ih p.1 p.2 hp)
    refine ⟨n + 1, fun σ => ?_⟩
    rw [de.eq_def]
    dsimp only
    rw [intoResolved_of_seq (hs σ)]
    dsimp only
    rw [hs σ]
    dsimp only
    rw [deElems_reads ps (fun v z hp => hn (v, z) hp)]
    rfl
  | @tuple y ps h hs ih =>
    obtain ⟨n, hn⟩ := exists_bound ps (fun n p => Yields (de Γ n p.1) p.2.1 p.2.2)
      (fun n m a hnm hr => hr.mono hnm) (fun p hp => ih p.1 p.2.1 p.2.2 hp)
    refine ⟨n + 1, fun σ => ?_⟩
    rw [de.eq_def]
    dsimp only
    rw [deTupleNode, intoResolved_of_seq (hs σ)]
    dsimp only
    rw [hs σ]
    dsimp only
    rw [deTuple_reads ps (fun t v z hp => hn (t, v, z) hp)]
    rfl
  | @map kt vt y ps hk hv hs ihk ihv =>
    obtain ⟨n, hn⟩ := exists_bound ps (fun n p => Yields (de Γ n kt) p.1 (.unquotedString p.2.1))
      (fun n m a hnm hr => hr.mono hnm) (fun p hp => ihk p.1 p.2.1 p.2.2.1 p.2.2.2 hp)
    obtain ⟨m, hm⟩ := exists_bound ps (fun n p => Yields (de Γ n vt) p.2.2.1 p.2.2.2)
      (fun n m a hnm hr => hr.mono hnm) (fun p hp => ihv p.1 p.2.1 p.2.2.1 p.2.2.2 hp)
    refine ⟨max n m + 1, fun σ => ?_⟩
    rw [de.eq_def]
    dsimp only
    rw [intoResolved_of_map (hs σ)]
    dsimp only
    rw [hs σ]
    dsimp only
    rw [deEntries_reads ps (fun k s v z hp => (hn (k, s, v, z) hp).mono (by omega))
      (fun k s v z hp => (hm (k, s, v, z) hp).mono (by omega))]
    rfl
  | @struct y ps hn h hs ih =>
    obtain ⟨n, hb⟩ := exists_bound ps (fun n p => Yields (de Γ n p.2.1) p.2.2.1 p.2.2.2)
      (fun n m a hnm hr => hr.mono hnm) (fun p hp => ih p.1 p.2.1 p.2.2.1 p.2.2.2 hp)
    refine ⟨n + 1, fun σ => ?_⟩
    rw [de.eq_def]
    dsimp only
    rw [deStruct_reads ps hn (fun k t v z hp => hb (k, t, v, z) hp σ) (hs σ)]
    rfl
  | @unitVariant vs name y hl h =>
    refine ⟨1, fun σ => ?_⟩
    rw [de.eq_def]
    dsimp only
    rw [intoResolved_of_string h]
    dsimp only
    rw [enumParts, h]
    dsimp only [Out.bind_ok]
    rw [hl]
    rfl
  | newtypeVariant hl hs h ih =>
    obtain ⟨n, ih⟩ := ih
    refine ⟨n + 1, fun σ => ?_⟩
    rw [de.eq_def]
    dsimp only
    rw [intoResolved_of_string hs]
    dsimp only
    rw [enumParts, hs]
    dsimp only [Out.bind_ok]
    rw [hl]
    dsimp only [deVariant]
    rw [ih σ]
    rfl
  | ref h ih =>
    obtain ⟨n, ih⟩ := ih
    refine ⟨n + 1, fun σ => ?_⟩
    rw [de.eq_def]
    exact ih σ

theorem Denotes.refOf {Γ : Nat → Ty} {ty : Ty} {v : SVal} {y : Yaml} (h : Denotes Γ ty v y) :
    refOf y = Option.none := by
  have hp : ∀ y s, plainOf y = Option.some s → YamlSubset.refOf y = Option.none := by
    intro y s h; cases y <;> simp [plainOf] at h <;> rfl
  have hs : ∀ (y : Yaml) s, y.asString = Option.some s → YamlSubset.refOf y = Option.none := by
    intro y s h; cases y <;> simp [Yaml.asString] at h <;> rfl
  have hq : ∀ y r, asSeq [] y = Option.some r → YamlSubset.refOf y = Option.none := by
    intro y s h; cases y <;> simp [asSeq] at h <;> rfl
  have hm : ∀ y r, asMap [] y = Option.some r → YamlSubset.refOf y = Option.none := by
    intro y s h; cases y <;> simp [asMap] at h <;> rfl
  induction h with
  | bool h => exact hp _ _ h
  | int _ _ h => exact hp _ _ h
  | float _ h => exact hp _ _ h
  | char h => exact hs _ _ h
  | str h => exact hs _ _ h
  | bytes _ h => exact hq _ _ (h [])
  | unit h => exact hp _ _ h
  | none h => exact hp _ _ h
  | some _ hr _ _ => exact hr
  | newtype _ ih => exact ih
  | seq _ _ h _ => exact hq _ _ (h [])
  | tuple _ _ h _ => exact hq _ _ (h [])
  | map _ _ _ h _ _ => exact hm _ _ (h [])
  | struct _ _ _ h _ => exact hm _ _ (h [])
  | unitVariant _ h => exact hs _ _ h
  | newtypeVariant _ h _ _ => exact hs _ _ h
  | ref _ ih => exact ih

end YamlSubset
