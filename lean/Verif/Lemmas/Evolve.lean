import Verif.Spec.Evolve
import Verif.Lemmas.Order

/-! # Reading a tree at a type that has changed -/

namespace YamlSubset.Evo

open Spec

variable {Γ Γ' : Nat → Ty} {N : List Str} {R : Nat → Nat → Prop}

/-! ## words for null -/

theorem nat_float {s : Str} {n : Nat} (h : NatText s n) : FloatText s := by
  cases h with
  | digits h h0 => simpa using FloatText.whole (sign := []) (e := []) (.inl rfl) h h0 (.inl rfl)
  | plus h h0 => simpa using FloatText.whole (sign := ['+']) (e := []) (.inr (.inl rfl)) h h0 (.inl rfl)

theorem int_float {s : Str} {i : Int} (h : IntText s i) : FloatText s := by
  cases h with
  | nonneg h => exact nat_float h
  | minus h h0 => simpa using FloatText.whole (sign := ['-']) (e := []) (.inr (.inr rfl)) h h0 (.inl rfl)

theorem not_null {s : Str} (h : FloatText s) (hn : NullWord s) : False := by
  rw [← nullWord_iff, (float_not_word h).1] at hn
  cases hn

theorem fromNull {t : Ty} {y : Yaml} {v : SVal} (h : Decodes Γ t y v) : ∀ {s}, y = .unquotedString s → NullWord s → FromNull v := by
  induction h with
  | @true w h =>
    intro s e hn
    cases e
    simp only [NullWord, TrueWord, spellings, List.mem_cons, List.not_mem_nil, or_false] at hn h
    exfalso
    obtain ⟨x, hx, h⟩ := h
    rcases hn with rfl | rfl | rfl | rfl <;> rcases hx with rfl | rfl | rfl <;> revert h <;> decide
  | @false w h =>
    intro s e hn
    cases e
    simp only [NullWord, FalseWord, spellings, List.mem_cons, List.not_mem_nil, or_false] at hn h
    exfalso
    obtain ⟨x, hx, h⟩ := h
    rcases hn with rfl | rfl | rfl | rfl <;> rcases hx with rfl | rfl | rfl <;> revert h <;> decide
  | signed _ hy h => intro s e hn; subst e; cases hy; exact (not_null (int_float h) hn).elim
  | unsigned _ hy h => intro s e hn; subst e; cases hy; exact (not_null (nat_float h) hn).elim
  | float hy h => intro s e hn; subst e; cases hy; exact (not_null h hn).elim
  | char hy => intro s e hn; subst e; cases hy; simp [NullWord] at hn; subst hn; exact .char
  | str hy => intro s e hn; subst e; cases hy; exact .str hn
  | bytes hy => intro s e; subst e; cases hy
  | unit => intros; exact .unit
  | none => intros; exact .none
  | some hn => intro s e h; exact absurd h (hn s e)
  | newtype _ ih => intro s e h; exact .newtype (ih e h)
  | seq hy => intro s e; subst e; cases hy
  | tuple hy => intro s e; subst e; cases hy
  | map hy => intro s e; subst e; cases hy
  | struct hy => intro s e; subst e; cases hy
  | unitVariant hy =>
    intro s e hn
    subst e
    cases hy with
    | name h => cases h; exact .unitVariant hn
    | entry h => cases h
  | newtypeVariant hy =>
    intro s e hn
    subst e
    cases hy with
    | name h => cases h; exact .newtypeVariant hn
    | entry h => cases h
  | tupleVariant hy _ h =>
    intro s e hn
    subst e
    cases hy with
    | name _ => cases h with | tuple h => cases h
    | entry h => cases h
  | structVariant hy _ h =>
    intro s e hn
    subst e
    cases hy with
    | name _ => cases h with | struct h => cases h
    | entry h => cases h
  | anyNull => intros; exact .unit
  | anyTrue => intro s e hn; cases e; exact absurd hn (by unfold NullWord; decide)
  | anyFalse => intro s e hn; cases e; exact absurd hn (by unfold NullWord; decide)
  | anyInt h => intro s e hn; cases e; rw [← nullWord_iff, (number_not_word h).1] at hn; cases hn
  | anyFloat _ h => intro s e hn; cases e; exact (not_null h hn).elim
  | anyPlain h => intro s e hn; cases e; exact absurd hn h
  | anyText hp => intro s e; exact absurd e (hp s)
  | anySeq _ ih => intro s e hn; exact nomatch ih e hn
  | anyMap _ ih => intro s e hn; exact nomatch ih e hn
  | ignored => intros; exact .unit
  | ref _ ih => exact ih

/-! ## types without names -/

def Plain (t : Ty) : Prop := t = .any ∨ t = .seq .any ∨ t = .map .str .any ∨ t = .str ∨ t = .bytes ∨ ∃ k, t = .int k

theorem decodes_env {t : Ty} {y : Yaml} {v : SVal} (h : Decodes Γ t y v) (ht : Plain t) : Decodes Γ' t y v := by
  induction h with
  | true h => exact .true h
  | false h => exact .false h
  | signed a b c d => exact .signed a b c d
  | unsigned a b c d => exact .unsigned a b c d
  | float a b => exact .float a b
  | char a => exact .char a
  | str a => exact .str a
  | bytes a b _ ih => exact .bytes a b fun w x hm => ih w x hm (by simp [Plain])
  | unit => exact .unit
  | none h => exact .none h
  | some => simp [Plain] at ht
  | newtype => simp [Plain] at ht
  | @seq t _ _ _ a b _ ih =>
    have : t = Ty.any := by simpa [Plain] using ht
    exact .seq a b fun w x hm => ih w x hm (by simp [Plain, this])
  | tuple => simp [Plain] at ht
  | @map kt vt _ _ _ a b _ _ ih1 ih2 =>
    have : kt = Ty.str ∧ vt = Ty.any := by simpa [Plain] using ht
    exact .map a b (fun k w x z hm => ih1 k w x z hm (by simp [Plain, this])) fun k w x z hm => ih2 k w x z hm (by simp [Plain, this])
  | struct => simp [Plain] at ht
  | unitVariant a b => exact .unitVariant a b
  | newtypeVariant => simp [Plain] at ht
  | tupleVariant => simp [Plain] at ht
  | structVariant => simp [Plain] at ht
  | anyNull h => exact .anyNull h
  | anyTrue => exact .anyTrue
  | anyFalse => exact .anyFalse
  | anyInt h => exact .anyInt h
  | anyFloat a b => exact .anyFloat a b
  | anyPlain a b c d e => exact .anyPlain a b c d e
  | anyText a b => exact .anyText a b
  | anySeq _ ih => exact .anySeq (ih (by simp [Plain]))
  | anyMap _ ih => exact .anyMap (ih (by simp [Plain]))
  | ignored => exact .ignored
  | ref => simp [Plain] at ht

/-! ## a change of the outermost type, then wrappings -/

inductive Wraps : Ty → Ty → Prop
  | refl {t} : Wraps t t
  | option {t t'} (h : Wraps t t') : Wraps t (.option t')
  | newtype {t t'} (h : Wraps t t') : Wraps t (.newtype t')

inductive Core (Γ Γ' : Nat → Ty) (N : List Str) (R : Nat → Nat → Prop) : Ty → Ty → Prop
  | bool : Core Γ Γ' N R .bool .bool
  | int {k k'} (hr : ∀ i, InRange k i → InRange k' i) (hk : Signed k' ∨ Unsigned k') : Core Γ Γ' N R (.int k) (.int k')
  | float : Core Γ Γ' N R .float .float
  | char : Core Γ Γ' N R .char .char
  | str : Core Γ Γ' N R .str .str
  | bytes : Core Γ Γ' N R .bytes .bytes
  | any : Core Γ Γ' N R .any .any
  | charStr : Core Γ Γ' N R .char .str
  | unit {t} : Core Γ Γ' N R t .unit
  | ignored {t} : Core Γ Γ' N R t .ignored
  | option {t t'} (h : Evolves Γ Γ' N R t t') : Core Γ Γ' N R (.option t) (.option t')
  | newtype {t t'} (h : Evolves Γ Γ' N R t t') : Core Γ Γ' N R (.newtype t) (.newtype t')
  | unwrap {t t'} (h : Evolves Γ Γ' N R t t') : Core Γ Γ' N R (.newtype t) t'
  | seq {t t'} (h : Evolves Γ Γ' N R t t') : Core Γ Γ' N R (.seq t) (.seq t')
  | tuple {ts ts' : List Ty} (hl : ts'.length ≤ ts.length) (h : ∀ (i : Nat) (t t' : Ty), ts[i]? = some t → ts'[i]? = some t' → Evolves Γ Γ' N R t t') :
      Core Γ Γ' N R (.tuple ts) (.tuple ts')
  | map {kt kt' vt vt'} (hk : Evolves Γ Γ' N R kt kt') (hv : Evolves Γ Γ' N R vt vt') : Core Γ Γ' N R (.map kt vt) (.map kt' vt')
  | struct {fs fs' : List (Str × Ty)} (hnd : (fs.map fun f => f.1).Nodup) (hnd' : (fs'.map fun f => f.1).Nodup)
      (hnew : ∀ k t', (k, t') ∈ fs' → k ∈ N → OptionTy Γ' t')
      (hold : ∀ k t', (k, t') ∈ fs' → k ∉ N → ∃ t, (k, t) ∈ fs)
      (hopt : ∀ k t t', (k, t) ∈ fs → (k, t') ∈ fs' → k ∉ N → OptionTy Γ t → OptionTy Γ' t')
      (h : ∀ k t t', (k, t) ∈ fs → (k, t') ∈ fs' → k ∉ N → Evolves Γ Γ' N R t t') : Core Γ Γ' N R (.struct fs) (.struct fs')
  | enum {vs vs' : List (Str × Variant)} (hu : ∀ k, vs.lookup k = some .unit → vs'.lookup k = some .unit)
      (hn : ∀ k t, vs.lookup k = some (.newtype t) → ∃ t', vs'.lookup k = some (.newtype t'))
      (ht : ∀ k ts, vs.lookup k = some (.tuple ts) → ∃ ts', vs'.lookup k = some (.tuple ts'))
      (hs : ∀ k fs, vs.lookup k = some (.struct fs) → ∃ fs', vs'.lookup k = some (.struct fs'))
      (hn' : ∀ k t t', vs.lookup k = some (.newtype t) → vs'.lookup k = some (.newtype t') → Evolves Γ Γ' N R t t')
      (ht' : ∀ k ts ts', vs.lookup k = some (.tuple ts) → vs'.lookup k = some (.tuple ts') → Evolves Γ Γ' N R (.tuple ts) (.tuple ts'))
      (hs' : ∀ k fs fs', vs.lookup k = some (.struct fs) → vs'.lookup k = some (.struct fs') → Evolves Γ Γ' N R (.struct fs) (.struct fs')) :
      Core Γ Γ' N R (.enum vs) (.enum vs')
  | ref {n m} (h : R n m) : Core Γ Γ' N R (.ref n) (.ref m)

theorem core {t t' : Ty} (h : Evolves Γ Γ' N R t t') : ∃ u, Core Γ Γ' N R t u ∧ Wraps u t' := by
  induction h with
  | bool => exact ⟨_, .bool, .refl⟩
  | int a b => exact ⟨_, .int a b, .refl⟩
  | float => exact ⟨_, .float, .refl⟩
  | char => exact ⟨_, .char, .refl⟩
  | str => exact ⟨_, .str, .refl⟩
  | bytes => exact ⟨_, .bytes, .refl⟩
  | any => exact ⟨_, .any, .refl⟩
  | charStr => exact ⟨_, .charStr, .refl⟩
  | unit => exact ⟨_, .unit, .refl⟩
  | ignored => exact ⟨_, .ignored, .refl⟩
  | option h => exact ⟨_, .option h, .refl⟩
  | optional h ih => obtain ⟨u, h1, h2⟩ := ih; exact ⟨u, h1, .option h2⟩
  | newtype h => exact ⟨_, .newtype h, .refl⟩
  | wrap h ih => obtain ⟨u, h1, h2⟩ := ih; exact ⟨u, h1, .newtype h2⟩
  | unwrap h => exact ⟨_, .unwrap h, .refl⟩
  | seq h => exact ⟨_, .seq h, .refl⟩
  | tuple a b => exact ⟨_, .tuple a b, .refl⟩
  | map a b => exact ⟨_, .map a b, .refl⟩
  | struct a b c d e f => exact ⟨_, .struct a b c d e f, .refl⟩
  | enum a b c d e f g => exact ⟨_, .enum a b c d e f g, .refl⟩
  | ref h => exact ⟨_, .ref h, .refl⟩

/-- Wrappings. -/
theorem wrapped {u t' : Ty} (h : Wraps u t') {y : Yaml} {v v' : SVal} (hnull : ∀ s, y = .unquotedString s → NullWord s → FromNull v) (hd : Decodes Γ' u y v') (ha : Adapted N v v') :
    ∃ v', Decodes Γ' t' y v' ∧ Adapted N v v' := by
  induction h with
  | refl => exact ⟨v', hd, ha⟩
  | option _ ih =>
    obtain ⟨x, h1, h2⟩ := ih
    by_cases hn : ∃ s, y = .unquotedString s ∧ NullWord s
    · obtain ⟨s, rfl, hn⟩ := hn
      exact ⟨.none, .none hn, .null (hnull s rfl hn)⟩
    · exact ⟨.some x, .some (fun s e h => hn ⟨s, e, h⟩) h1, .optional h2⟩
  | newtype _ ih =>
    obtain ⟨x, h1, h2⟩ := ih
    exact ⟨.newtype x, .newtype h1, .wrap h2⟩

/-! ## the main induction -/

theorem int_case {k k' : IntTy} {y : Yaml} {v : SVal} (h : Decodes Γ (.int k) y v) (hr : ∀ i, InRange k i → InRange k' i) (hk : Signed k' ∨ Unsigned k') : Decodes Γ' (.int k') y v := by
  cases h with
  | signed hs hy h hi =>
    rcases hk with hk | hk
    · exact .signed hk hy h (hr _ hi)
    · have := hr (-1) (by rcases hs with rfl | rfl | rfl | rfl <;> decide)
      rcases hk with rfl | rfl | rfl | rfl <;> exact absurd this (by decide)
  | unsigned hs hy h hi =>
    rcases hk with hk | hk
    · exact .signed hk hy (.nonneg h) (hr _ hi)
    · exact .unsigned hk hy h (hr _ hi)

theorem lookup_of_mem {α : Type} {fs : List (Str × α)} (hnd : (fs.map fun f => f.1).Nodup) {k : Str} {t : α} (h : (k, t) ∈ fs) : fs.lookup k = some t := by
  induction fs with
  | nil => cases h
  | cons f fs ih =>
    obtain ⟨k₀, t₀⟩ := f
    simp only [List.map_cons, List.nodup_cons] at hnd
    rcases List.mem_cons.1 h with h | h
    · cases h; simp
    · have : k ≠ k₀ := fun e => hnd.1 (e ▸ List.mem_map.2 ⟨_, h, rfl⟩)
      rw [List.lookup_cons, beq_false_of_ne this]
      exact ih hnd.2 h

theorem mem_of_lookup {α : Type} {fs : List (Str × α)} {k : Str} {t : α} (h : fs.lookup k = some t) : (k, t) ∈ fs := by
  induction fs with
  | nil => cases h
  | cons f fs ih =>
    obtain ⟨k₀, t₀⟩ := f
    rw [List.lookup_cons] at h
    split at h
    · rename_i e; cases h; rw [eq_of_beq e]; exact List.mem_cons_self ..
    · exact List.mem_cons_of_mem _ (ih h)

/-- Wrappings are put on at the end. -/
theorem lift {t : Ty} {y : Yaml} {v : SVal} (hd : Decodes Γ t y v) (h : ∀ {u}, Core Γ Γ' N R t u → (∀ k ∈ N, ¬KeyIn k y) → ∃ v', Decodes Γ' u y v' ∧ Adapted N v v')
    {t' : Ty} (he : Evolves Γ Γ' N R t t') (hN : ∀ k ∈ N, ¬KeyIn k y) : ∃ v', Decodes Γ' t' y v' ∧ Adapted N v v' := by
  obtain ⟨u, hc, hw⟩ := core he
  obtain ⟨v', h1, h2⟩ := h hc hN
  exact wrapped hw (fun s e hn => fromNull hd e hn) h1 h2

theorem fresh_seq {y : Yaml} {ys : List Yaml} (hN : ∀ k ∈ N, ¬KeyIn k y) (hy : seqElements y = some ys) {w : Yaml} (hw : w ∈ ys) : ∀ k ∈ N, ¬KeyIn k w :=
  fun k hk h => hN k hk (.seq hy hw h)

theorem fresh_map {y : Yaml} {es : List (Str × Yaml)} (hN : ∀ k ∈ N, ¬KeyIn k y) (hy : mapPairs y = some es) {k' : Str} {w : Yaml} (hw : (k', w) ∈ es) : ∀ k ∈ N, ¬KeyIn k w :=
  fun k hk h => hN k hk (.map hy hw h)

theorem fresh_plain {s : Str} : ∀ k ∈ N, ¬KeyIn k (.unquotedString s) := by
  intro k _ h
  cases h with
  | here hy => cases hy
  | seq hy => cases hy
  | map hy => cases hy

theorem fresh_variant {y : Yaml} {n : Str} {c : Yaml} (hv : VariantParts y n c) (hN : ∀ k ∈ N, ¬KeyIn k y) : ∀ k ∈ N, ¬KeyIn k c := by
  cases hv with
  | name => exact fresh_plain
  | entry hy => exact fresh_map hN hy (List.mem_singleton.2 rfl)

theorem get_mem {α : Type} {xs : List α} {i : Nat} {a : α} (h : xs[i]? = some a) : a ∈ xs := List.mem_iff_getElem?.2 ⟨i, h⟩

theorem decodes_core (hR : ∀ n m, R n m → Evolves Γ Γ' N R (Γ n) (Γ' m)) {t : Ty} {y : Yaml} {v : SVal} (h : Decodes Γ t y v) :
    ∀ {u}, Core Γ Γ' N R t u → (∀ k ∈ N, ¬KeyIn k y) → ∃ v', Decodes Γ' u y v' ∧ Adapted N v v' := by
  induction h with
  | true h => intro u hc _; cases hc <;> first | exact ⟨_, .unit, .ignored⟩ | exact ⟨_, .ignored, .ignored⟩ | exact ⟨_, .true h, .same⟩
  | false h => intro u hc _; cases hc <;> first | exact ⟨_, .unit, .ignored⟩ | exact ⟨_, .ignored, .ignored⟩ | exact ⟨_, .false h, .same⟩
  | signed a b c d =>
    intro u hc _
    cases hc with
    | unit => exact ⟨_, .unit, .ignored⟩
    | ignored => exact ⟨_, .ignored, .ignored⟩
    | int hr hk => exact ⟨_, int_case (Γ := Γ) (.signed a b c d) hr hk, .same⟩
  | unsigned a b c d =>
    intro u hc _
    cases hc with
    | unit => exact ⟨_, .unit, .ignored⟩
    | ignored => exact ⟨_, .ignored, .ignored⟩
    | int hr hk => exact ⟨_, int_case (Γ := Γ) (.unsigned a b c d) hr hk, .same⟩
  | float a b => intro u hc _; cases hc <;> first | exact ⟨_, .unit, .ignored⟩ | exact ⟨_, .ignored, .ignored⟩ | exact ⟨_, .float a b, .same⟩
  | char a =>
    intro u hc _
    cases hc with
    | unit => exact ⟨_, .unit, .ignored⟩
    | ignored => exact ⟨_, .ignored, .ignored⟩
    | char => exact ⟨_, .char a, .same⟩
    | charStr => exact ⟨_, .str a, .char⟩
  | str a => intro u hc _; cases hc <;> first | exact ⟨_, .unit, .ignored⟩ | exact ⟨_, .ignored, .ignored⟩ | exact ⟨_, .str a, .same⟩
  | bytes a b c _ =>
    intro u hc _
    cases hc with
    | unit => exact ⟨_, .unit, .ignored⟩
    | ignored => exact ⟨_, .ignored, .ignored⟩
    | bytes => exact ⟨_, decodes_env (Γ := Γ) (.bytes a b c) (by simp [Plain]), .same⟩
  | unit => intro u hc _; cases hc <;> first | exact ⟨_, .unit, .ignored⟩ | exact ⟨_, .ignored, .ignored⟩
  | none h => intro u hc _; cases hc <;> first | exact ⟨_, .unit, .ignored⟩ | exact ⟨_, .ignored, .ignored⟩ | exact ⟨_, .none h, .same⟩
  | some hn h ih =>
    intro u hc hN
    cases hc with
    | unit => exact ⟨_, .unit, .ignored⟩
    | ignored => exact ⟨_, .ignored, .ignored⟩
    | option he =>
      obtain ⟨v', h1, h2⟩ := lift h ih he hN
      exact ⟨_, .some hn h1, .some h2⟩
  | newtype h ih =>
    intro u hc hN
    cases hc with
    | unit => exact ⟨_, .unit, .ignored⟩
    | ignored => exact ⟨_, .ignored, .ignored⟩
    | newtype he =>
      obtain ⟨v', h1, h2⟩ := lift h ih he hN
      exact ⟨_, .newtype h1, .newtype h2⟩
    | unwrap he =>
      obtain ⟨v', h1, h2⟩ := lift h ih he hN
      exact ⟨_, h1, .unwrap h2⟩
  | @seq t y ys vs hy hl h ih =>
    intro u hc hN
    cases hc with
    | unit => exact ⟨_, .unit, .ignored⟩
    | ignored => exact ⟨_, .ignored, .ignored⟩
    | @seq _ t' he =>
      obtain ⟨vs', h1, h2⟩ := Ord.choice (n := ys.length) (R := fun i v' => ∀ (w : Yaml) (v : SVal), ys[i]? = some w → vs[i]? = some v → Decodes Γ' t' w v' ∧ Adapted N v v') (by
        intro i hi
        obtain ⟨w, hw⟩ := Ord.get_of_lt hi
        obtain ⟨v, hv⟩ := Ord.partner hl hw
        have hm := Ord.mem_zip.2 ⟨i, hw, hv⟩
        obtain ⟨v', h1, h2⟩ := lift (h w v hm) (ih w v hm) he (fresh_seq hN hy (get_mem hw))
        refine ⟨v', fun a b ha hb => ?_⟩
        rw [hw] at ha; rw [hv] at hb
        cases ha; cases hb
        exact ⟨h1, h2⟩)
      refine ⟨.seq vs', .seq hy h1.symm fun w v' hm => ?_, .seq (by omega) fun i v v' hv hv' => ?_⟩
      · obtain ⟨i, h3, h4⟩ := Ord.mem_zip.1 hm
        obtain ⟨v, hv⟩ := Ord.partner hl h3
        exact (h2 i v' h4 w v h3 hv).1
      · obtain ⟨w, hw⟩ := Ord.partner hl.symm hv
        exact (h2 i v' hv' w v hw hv).2
  | @tuple ts y ys vs hy hl hv h ih =>
    intro u hc hN
    cases hc with
    | unit => exact ⟨_, .unit, .ignored⟩
    | ignored => exact ⟨_, .ignored, .ignored⟩
    | @tuple _ ts' hl' he =>
      obtain ⟨vs', h1, h2⟩ := Ord.choice (n := ts'.length) (R := fun i v' => ∀ (t' : Ty) (w : Yaml) (v : SVal), ts'[i]? = some t' → ys[i]? = some w → vs[i]? = some v →
          Decodes Γ' t' w v' ∧ Adapted N v v') (by
        intro i hi
        obtain ⟨t', ht'⟩ := Ord.get_of_lt hi
        obtain ⟨t, ht⟩ := Ord.get_of_lt (xs := ts) (i := i) (by omega)
        obtain ⟨w, hw⟩ := Ord.get_of_lt (xs := ys) (i := i) (by omega)
        obtain ⟨v, hv⟩ := Ord.partner hv.symm ht
        have hm : (t, w, v) ∈ ts.zip (ys.zip vs) := Ord.mem_zip.2 ⟨i, ht, List.getElem?_zip_eq_some.2 ⟨hw, hv⟩⟩
        obtain ⟨v', h1, h2⟩ := lift (h t w v hm) (ih t w v hm) (he i t t' ht ht') (fresh_seq hN hy (get_mem hw))
        refine ⟨v', fun a b c ha hb hc => ?_⟩
        rw [ht'] at ha; rw [hw] at hb; rw [hv] at hc
        cases ha; cases hb; cases hc
        exact ⟨h1, h2⟩)
      refine ⟨.tuple vs', .tuple hy (by omega) h1 fun t' w v' hm => ?_, .tuple (by omega) fun i v v' hv₁ hv' => ?_⟩
      · obtain ⟨i, h3, h4⟩ := Ord.mem_zip.1 hm
        obtain ⟨h4, h5⟩ := List.getElem?_zip_eq_some.1 h4
        have hi := Ord.lt_of_get h3
        obtain ⟨v, hv'⟩ := Ord.get_of_lt (xs := vs) (i := i) (by omega)
        exact (h2 i v' h5 t' w v h3 h4 hv').1
      · have hi := Ord.lt_of_get hv'
        obtain ⟨t', ht⟩ := Ord.get_of_lt (xs := ts') (i := i) (by omega)
        obtain ⟨w, hw⟩ := Ord.get_of_lt (xs := ys) (i := i) (by omega)
        exact (h2 i v' hv' t' w v ht hw hv₁).2
  | @map kt vt y es vs hy hl hk hv ihk ihv =>
    intro u hc hN
    cases hc with
    | unit => exact ⟨_, .unit, .ignored⟩
    | ignored => exact ⟨_, .ignored, .ignored⟩
    | @map _ kt' _ vt' hek hev =>
      obtain ⟨vs', h1, h2⟩ := Ord.choice (n := es.length) (R := fun i (e' : SVal × SVal) => ∀ (k : Str) (w : Yaml) (a b : SVal), es[i]? = some (k, w) → vs[i]? = some (a, b) →
          Decodes Γ' kt' (.unquotedString k) e'.1 ∧ Adapted N a e'.1 ∧ Decodes Γ' vt' w e'.2 ∧ Adapted N b e'.2) (by
        intro i hi
        obtain ⟨⟨k, w⟩, hw⟩ := Ord.get_of_lt hi
        obtain ⟨⟨a, b⟩, hab⟩ := Ord.partner hl hw
        have hm := Ord.mem_zip.2 ⟨i, hw, hab⟩
        obtain ⟨a', h1, h2⟩ := lift (hk k w a b hm) (ihk k w a b hm) hek fresh_plain
        obtain ⟨b', h3, h4⟩ := lift (hv k w a b hm) (ihv k w a b hm) hev (fresh_map hN hy (get_mem hw))
        refine ⟨(a', b'), fun k₁ w₁ a₁ b₁ h5 h6 => ?_⟩
        rw [hw] at h5; rw [hab] at h6
        cases h5; cases h6
        exact ⟨h1, h2, h3, h4⟩)
      have all : ∀ k w a b, ((k, w), (a, b)) ∈ es.zip vs' → Decodes Γ' kt' (.unquotedString k) a ∧ Decodes Γ' vt' w b := by
        intro k w a b hm
        obtain ⟨i, h3, h4⟩ := Ord.mem_zip.1 hm
        obtain ⟨⟨a₀, b₀⟩, hab⟩ := Ord.partner hl h3
        obtain ⟨h5, -, h6, -⟩ := h2 i (a, b) h4 k w a₀ b₀ h3 hab
        exact ⟨h5, h6⟩
      have both : ∀ (i : Nat) (e e' : SVal × SVal), vs[i]? = some e → vs'[i]? = some e' → Adapted N e.1 e'.1 ∧ Adapted N e.2 e'.2 := by
        intro i e e' h6 h7
        obtain ⟨⟨k, w⟩, h8⟩ := Ord.partner hl.symm h6
        obtain ⟨-, h9, -, h10⟩ := h2 i e' h7 k w e.1 e.2 h8 h6
        exact ⟨h9, h10⟩
      exact ⟨.map vs', .map hy h1.symm (fun k w a b hm => (all k w a b hm).1) fun k w a b hm => (all k w a b hm).2,
        .map (by omega) (fun i e e' h6 h7 => (both i e e' h6 h7).1) fun i e e' h6 h7 => (both i e e' h6 h7).2⟩
  | @struct fs y es vs hy hn h1 hv hm hmv ih =>
    intro u hc hN
    cases hc with
    | unit => exact ⟨_, .unit, .ignored⟩
    | ignored => exact ⟨_, .ignored, .ignored⟩
    | @struct _ fs' hnd hnd' hnew hold hopt he =>
      have hvnd : (vs.map fun f => f.1).Nodup := hn ▸ hnd
      have fresh : ∀ k ∈ N, ∀ w, (k, w) ∉ es := fun k hk w hw => hN k hk (.here hy hw)
      -- the value of a field
      obtain ⟨xs, h2, h3⟩ := Ord.choice (n := fs'.length) (R := fun i x => ∀ k t', fs'[i]? = some (k, t') → (k ∈ N → x = .none) ∧
          (k ∉ N → (∀ v, (k, v) ∈ vs → Adapted N v x) ∧ (∀ w, (k, w) ∈ es → Decodes Γ' t' w x) ∧ ((∀ w, (k, w) ∉ es) → x = .none))) (by
        intro i hi
        obtain ⟨⟨k, t'⟩, hkt⟩ := Ord.get_of_lt hi
        have hf' := get_mem hkt
        by_cases hk : k ∈ N
        · refine ⟨.none, fun k₁ t₁ h4 => ?_⟩
          rw [hkt] at h4
          cases h4
          exact ⟨fun _ => rfl, fun h => absurd hk h⟩
        · obtain ⟨t, hf⟩ := hold k t' hf' hk
          have hkv : k ∈ vs.map fun v => v.1 := hn ▸ List.mem_map.2 ⟨_, hf, rfl⟩
          obtain ⟨⟨k₀, v⟩, hkm, rfl⟩ := List.mem_map.1 hkv
          have huniq : ∀ v₁, (k₀, v₁) ∈ vs → v₁ = v := fun v₁ h4 => by
            have h5 := lookup_of_mem hvnd h4
            rw [lookup_of_mem hvnd hkm] at h5
            cases h5
            rfl
          by_cases hw : ∃ w, (k₀, w) ∈ es
          · obtain ⟨w, hw⟩ := hw
            have hlk := lookup_of_mem hnd hf
            obtain ⟨x, h4, h5⟩ := lift (hv k₀ t w v hlk hw hkm) (ih k₀ t w v hlk hw hkm) (he k₀ t t' hf hf' hk) (fresh_map hN hy hw)
            refine ⟨x, fun k t₁ h6 => ?_⟩
            rw [hkt] at h6
            cases h6
            refine ⟨fun h => absurd h hk, fun _ => ⟨fun v₁ h7 => huniq v₁ h7 ▸ h5, fun w₁ h8 => ?_, fun h => absurd hw (h w)⟩⟩
            have hlen := h1 k₀ t hf
            have hone : w₁ = w := by
              have m1 : (k₀, w₁) ∈ es.filter fun e => e.1 = k₀ := by simp [h8]
              have m2 : (k₀, w) ∈ es.filter fun e => e.1 = k₀ := by simp [hw]
              match hL : es.filter fun e => e.1 = k₀ with
              | [] => rw [hL] at m1; simp at m1
              | [e] => rw [hL] at m1 m2; simp only [List.mem_singleton] at m1 m2; rw [← m2] at m1; cases m1; rfl
              | _ :: _ :: _ => rw [hL] at hlen; simp at hlen
            rw [hone]
            exact h4
          · have hno : ∀ w, (k₀, w) ∉ es := fun w h => hw ⟨w, h⟩
            refine ⟨.none, fun k t₁ h6 => ?_⟩
            rw [hkt] at h6
            cases h6
            refine ⟨fun _ => rfl, fun _ => ⟨fun v₁ h7 => ?_, fun w h => absurd h (hno w), fun _ => rfl⟩⟩
            rw [hmv k₀ v₁ h7 hno]
            exact .same)
      have hxs : ∀ k x, (k, x) ∈ (fs'.map (fun f => f.1)).zip xs → ∃ t', (k, t') ∈ fs' ∧ (k ∈ N → x = .none) ∧
          (k ∉ N → (∀ v, (k, v) ∈ vs → Adapted N v x) ∧ (∀ w, (k, w) ∈ es → Decodes Γ' t' w x) ∧ ((∀ w, (k, w) ∉ es) → x = .none)) := by
        intro k x hx
        obtain ⟨i, h4, h5⟩ := Ord.mem_zip.1 hx
        rw [List.getElem?_map] at h4
        cases h6 : fs'[i]? with
        | none => rw [h6] at h4; cases h4
        | some e =>
          obtain ⟨k₀, t'⟩ := e
          rw [h6] at h4
          simp only [Option.map_some, Option.some.injEq] at h4
          subst h4
          exact ⟨t', get_mem h6, h3 i x h5 k₀ t' h6⟩
      have hnames : ((fs'.map (fun f => f.1)).zip xs).map (fun v => v.1) = fs'.map (fun f => f.1) := by
        have : ((fs'.map (fun f => f.1)).zip xs).map Prod.fst = fs'.map (fun f => f.1) := List.map_fst_zip (by simp [h2])
        exact this
      refine ⟨.struct ((fs'.map (fun f => f.1)).zip xs), .struct hy hnames (fun k t' hf' => ?_) (fun k t' w x hlk hw hx => ?_) (fun k t' hf' hno => ?_)
        (fun k x hx hno => ?_), .struct (fun k x hx hk => ?_) (fun k x hx hk => ?_) (fun k v x hkv hx hk => ?_)⟩
      · by_cases hk : k ∈ N
        · have : es.filter (fun e => e.1 = k) = [] := by
            rw [List.filter_eq_nil_iff]
            rintro ⟨k₁, w⟩ hw h
            simp only [decide_eq_true_eq] at h
            subst h
            exact fresh _ hk w hw
          rw [this]
          simp
        · obtain ⟨t, hf⟩ := hold k t' hf' hk
          exact h1 k t hf
      · obtain ⟨t₁, hf₁, hx1, hx2⟩ := hxs k x hx
        have hk : k ∉ N := fun hk => fresh k hk w hw
        have := lookup_of_mem hnd' hf₁
        rw [hlk] at this
        cases this
        exact (hx2 hk).2.1 w hw
      · by_cases hk : k ∈ N
        · exact hnew k t' hf' hk
        · obtain ⟨t, hf⟩ := hold k t' hf' hk
          exact hopt k t t' hf hf' hk (hm k t hf hno)
      · obtain ⟨t₁, hf₁, hx1, hx2⟩ := hxs k x hx
        by_cases hk : k ∈ N
        · exact hx1 hk
        · exact (hx2 hk).2.2 hno
      · obtain ⟨t₁, hf₁, hx1, hx2⟩ := hxs k x hx
        exact hx1 hk
      · obtain ⟨t₁, hf₁, hx1, hx2⟩ := hxs k x hx
        obtain ⟨t, hf⟩ := hold k t₁ hf₁ hk
        have hkv : k ∈ vs.map fun v => v.1 := hn ▸ List.mem_map.2 ⟨_, hf, rfl⟩
        obtain ⟨⟨k₀, v⟩, hkm, rfl⟩ := List.mem_map.1 hkv
        exact ⟨v, hkm⟩
      · obtain ⟨t₁, hf₁, hx1, hx2⟩ := hxs k x hx
        exact (hx2 hk).1 v hkv
  | unitVariant hy hl =>
    intro u hc hN
    cases hc with
    | unit => exact ⟨_, .unit, .ignored⟩
    | ignored => exact ⟨_, .ignored, .ignored⟩
    | enum hu => exact ⟨_, .unitVariant hy (hu _ hl), .same⟩
  | newtypeVariant hy hl h ih =>
    intro u hc hN
    cases hc with
    | unit => exact ⟨_, .unit, .ignored⟩
    | ignored => exact ⟨_, .ignored, .ignored⟩
    | enum _ hn _ _ hn' =>
      obtain ⟨t', hl'⟩ := hn _ _ hl
      obtain ⟨v', h1, h2⟩ := lift h ih (hn' _ _ _ hl hl') (fresh_variant hy hN)
      exact ⟨_, .newtypeVariant hy hl' h1, .newtypeVariant h2⟩
  | tupleVariant hy hl h ih =>
    intro u hc hN
    cases hc with
    | unit => exact ⟨_, .unit, .ignored⟩
    | ignored => exact ⟨_, .ignored, .ignored⟩
    | enum _ _ hn _ _ hn' =>
      obtain ⟨t', hl'⟩ := hn _ _ hl
      obtain ⟨v', h1, h2⟩ := lift h ih (hn' _ _ _ hl hl') (fresh_variant hy hN)
      cases h1 with | tuple a b c d => exact ⟨_, .tupleVariant hy hl' (.tuple a b c d), .tupleVariant h2⟩
  | structVariant hy hl h ih =>
    intro u hc hN
    cases hc with
    | unit => exact ⟨_, .unit, .ignored⟩
    | ignored => exact ⟨_, .ignored, .ignored⟩
    | enum _ _ _ hn _ _ hn' =>
      obtain ⟨t', hl'⟩ := hn _ _ hl
      obtain ⟨v', h1, h2⟩ := lift h ih (hn' _ _ _ hl hl') (fresh_variant hy hN)
      cases h1 with | struct a b c d e f => exact ⟨_, .structVariant hy hl' (.struct a b c d e f), .structVariant h2⟩
  | ignored => intro u hc _; cases hc <;> first | exact ⟨_, .unit, .ignored⟩ | exact ⟨_, .ignored, .ignored⟩
  | ref h ih =>
    intro u hc hN
    cases hc with
    | unit => exact ⟨_, .unit, .ignored⟩
    | ignored => exact ⟨_, .ignored, .ignored⟩
    | ref hr =>
      obtain ⟨v', h1, h2⟩ := lift h ih (hR _ _ hr) hN
      exact ⟨_, .ref h1, h2⟩
  | anyNull h => intro u hc _; cases hc <;> first | exact ⟨_, .unit, .ignored⟩ | exact ⟨_, .ignored, .ignored⟩ | exact ⟨_, .anyNull h, .same⟩
  | anyTrue => intro u hc _; cases hc <;> first | exact ⟨_, .unit, .ignored⟩ | exact ⟨_, .ignored, .ignored⟩ | exact ⟨_, .anyTrue, .same⟩
  | anyFalse => intro u hc _; cases hc <;> first | exact ⟨_, .unit, .ignored⟩ | exact ⟨_, .ignored, .ignored⟩ | exact ⟨_, .anyFalse, .same⟩
  | anyInt h => intro u hc _; cases hc <;> first | exact ⟨_, .unit, .ignored⟩ | exact ⟨_, .ignored, .ignored⟩ | exact ⟨_, .anyInt h, .same⟩
  | anyFloat a b => intro u hc _; cases hc <;> first | exact ⟨_, .unit, .ignored⟩ | exact ⟨_, .ignored, .ignored⟩ | exact ⟨_, .anyFloat a b, .same⟩
  | anyPlain a b c d e => intro u hc _; cases hc <;> first | exact ⟨_, .unit, .ignored⟩ | exact ⟨_, .ignored, .ignored⟩ | exact ⟨_, .anyPlain a b c d e, .same⟩
  | anyText a b => intro u hc _; cases hc <;> first | exact ⟨_, .unit, .ignored⟩ | exact ⟨_, .ignored, .ignored⟩ | exact ⟨_, .anyText a b, .same⟩
  | anySeq h => intro u hc _; cases hc <;> first | exact ⟨_, .unit, .ignored⟩ | exact ⟨_, .ignored, .ignored⟩ | exact ⟨_, decodes_env (Γ := Γ) (.anySeq h) (by simp [Plain]), .same⟩
  | anyMap h => intro u hc _; cases hc <;> first | exact ⟨_, .unit, .ignored⟩ | exact ⟨_, .ignored, .ignored⟩ | exact ⟨_, decodes_env (Γ := Γ) (.anyMap h) (by simp [Plain]), .same⟩

theorem decodes_evolves (hR : ∀ n m, R n m → Evolves Γ Γ' N R (Γ n) (Γ' m)) {t t' : Ty} {y : Yaml} {v : SVal} (h : Decodes Γ t y v) (he : Evolves Γ Γ' N R t t')
    (hN : ∀ k ∈ N, ¬KeyIn k y) : ∃ v', Decodes Γ' t' y v' ∧ Adapted N v v' := lift h (decodes_core hR h) he hN

end YamlSubset.Evo
