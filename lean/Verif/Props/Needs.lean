import Verif.Spec.Needs
import Verif.Spec.Place
import Verif.Lemmas.DeSim
import Verif.Lemmas.Size
import Verif.Lemmas.KernelRfl
import Verif.Props.DeAnchors
import Verif.Props.RoundTrip

/-! # C44: undefined references, at every type -/

namespace YamlSubset

open Spec

namespace Undef

/-- The name is not defined in the tree. -/
def Free (b : Str) (y : Yaml) : Prop := ∀ v, ¬Defines y b v

/-- The name is not defined in the anchor map, nor in its values. -/
def Good (b : Str) (σ : Anchors) : Prop := ∀ p ∈ σ, p.1 ≠ b ∧ Free b p.2

variable {b : Str}

theorem Free.within {x y : Yaml} (h : Free b y) (hw : Within x y) : Free b x :=
  fun v ⟨c, hc, hd⟩ => h v ⟨c, within_trans hc hw, hd⟩

theorem Free.child {x y : Yaml} (h : Free b y) (hc : Child x y) : Free b x := h.within (.step hc .self)

theorem Good.resolve {σ : Anchors} (h : Good b σ) : resolve σ b = none := by
  induction σ with
  | nil => rfl
  | cons p t ih =>
    obtain ⟨a, v⟩ := p
    have hn : (b == a) = false := by simpa using Ne.symm (h (a, v) (by simp)).1
    simp only [YamlSubset.resolve, List.lookup, hn]
    exact ih fun p hp => h p (by simp [hp])

theorem Good.resolved {σ : Anchors} (h : Good b σ) {a : Str} {v : Yaml} (hr : YamlSubset.resolve σ a = some v) : Free b v := by
  induction σ with
  | nil => simp [YamlSubset.resolve] at hr
  | cons p t ih =>
    obtain ⟨c, w⟩ := p
    simp only [YamlSubset.resolve, List.lookup] at hr
    split at hr
    · cases hr
      exact (h (c, v) (by simp)).2
    · exact ih (fun p hp => h p (by simp [hp])) hr

theorem seq_good {ds all : List ArrayData} {σ : Anchors} (hf : Free b (.array all)) (hs : ∀ d ∈ ds, d ∈ all) (hσ : Good b σ) :
    (∀ x ∈ (seqValues σ ds).1, Free b x) ∧ Good b (seqValues σ ds).2 := by
  induction ds generalizing σ with
  | nil => exact ⟨by simp [seqValues], hσ⟩
  | cons d t ih =>
    have ht : ∀ d ∈ t, d ∈ all := fun d hd => hs d (by simp [hd])
    match d with
    | .element ⟨a, v⟩ =>
      have hm : ArrayData.element ⟨a, v⟩ ∈ all := hs _ (by simp)
      have hv : Free b v := hf.child (.array hm)
      have hg : Good b (register σ ⟨a, v⟩) := by
        cases a with
        | none => exact hσ
        | some a =>
          intro p hp
          simp only [register, List.mem_cons] at hp
          rcases hp with rfl | hp
          · exact ⟨fun e => hf v ⟨_, .self, e ▸ .array hm⟩, hv⟩
          · exact hσ p hp
      obtain ⟨h1, h2⟩ := ih ht hg
      refine ⟨fun x hx => ?_, h2⟩
      simp only [seqValues, List.mem_cons] at hx
      rcases hx with rfl | hx
      · exact hv
      · exact h1 x hx
    | .inlineComment _ => exact ih ht hσ
    | .comment _ => exact ih ht hσ

theorem map_good {ds all : List HashData} {σ : Anchors} (hf : Free b (.hash all)) (hs : ∀ d ∈ ds, d ∈ all) (hσ : Good b σ) :
    (∀ x ∈ (hashEntries σ ds).1, Free b x.2) ∧ Good b (hashEntries σ ds).2 := by
  induction ds generalizing σ with
  | nil => exact ⟨by simp [hashEntries], hσ⟩
  | cons d t ih =>
    have ht : ∀ d ∈ t, d ∈ all := fun d hd => hs d (by simp [hd])
    match d with
    | .element ⟨k, ⟨a, v⟩⟩ =>
      have hm : HashData.element ⟨k, ⟨a, v⟩⟩ ∈ all := hs _ (by simp)
      have hv : Free b v := hf.child (.hash hm)
      have hg : Good b (register σ ⟨a, v⟩) := by
        cases a with
        | none => exact hσ
        | some a =>
          intro p hp
          simp only [register, List.mem_cons] at hp
          rcases hp with rfl | hp
          · exact ⟨fun e => hf v ⟨_, .self, e ▸ .hash hm⟩, hv⟩
          · exact hσ p hp
      obtain ⟨h1, h2⟩ := ih ht hg
      refine ⟨fun x hx => ?_, h2⟩
      simp only [hashEntries, List.mem_cons] at hx
      rcases hx with rfl | hx
      · exact hv
      · exact h1 x hx
    | .inlineComment _ => exact ih ht hσ
    | .comment _ => exact ih ht hσ

theorem asSeq_good {y : Yaml} {σ σ' : Anchors} {ys : List Yaml} (hf : Free b y) (hσ : Good b σ) (h : asSeq σ y = some (ys, σ')) :
    ys = listed y ∧ (∀ x ∈ ys, Free b x) ∧ Good b σ' := by
  cases y with
  | array ds =>
    have h1 := seq_good hf (fun _ h => h) hσ
    have h2 := (seqValues_defs ds σ).1
    simp only [asSeq, Option.some.injEq] at h
    rw [h] at h1 h2
    exact ⟨h2, h1⟩
  | inlineArray es =>
    simp only [asSeq, Option.some.injEq, Prod.mk.injEq] at h
    obtain ⟨rfl, rfl⟩ := h
    exact ⟨rfl, fun x hx => hf.child (.inlineArray hx), hσ⟩
  | _ => simp [asSeq] at h

theorem asMap_good {y : Yaml} {σ σ' : Anchors} {es : List (Str × Yaml)} (hf : Free b y) (hσ : Good b σ) (h : asMap σ y = some (es, σ')) :
    es = keyed y ∧ (∀ x ∈ es, Free b x.2) ∧ Good b σ' := by
  cases y with
  | hash ds =>
    have h1 := map_good hf (fun _ h => h) hσ
    have h2 := (hashEntries_defs ds σ).1
    simp only [asMap, Option.some.injEq] at h
    rw [h] at h1 h2
    exact ⟨h2, h1⟩
  | inlineHash es =>
    simp only [asMap, Option.some.injEq, Prod.mk.injEq] at h
    obtain ⟨rfl, rfl⟩ := h
    exact ⟨rfl, fun x hx => hf.child (.inlineHash hx), hσ⟩
  | _ => simp [asMap] at h

theorem sameList_self {S : Yaml → Yaml → Prop} {ys : List Yaml} (h : ∀ x ∈ ys, S x x) : DeSim.SameList S ys ys := by
  induction ys with
  | nil => trivial
  | cons y t ih => exact ⟨h y (by simp), ih fun x hx => h x (by simp [hx])⟩

theorem sameKeyed_self {S : Yaml → Yaml → Prop} {es : List (Str × Yaml)} (h : ∀ x ∈ es, S x.2 x.2) : DeSim.SameKeyed S es es := by
  induction es with
  | nil => trivial
  | cons y t ih =>
    obtain ⟨k, y⟩ := y
    exact ⟨⟨rfl, h (k, y) (by simp)⟩, ih fun x hx => h x (by simp [hx])⟩

theorem free_key (k : Str) : Free b (.unquotedString k) := by
  rintro v ⟨c, hw, hd⟩
  cases hw with
  | self => cases hd
  | step hc => cases hc

theorem sim (b : Str) : DeSim.Sim (fun y y' => y = y' ∧ Free b y) (fun σ σ' => σ = σ' ∧ Good b σ) where
  key k := ⟨rfl, free_key k⟩
  special h := by rw [h.1]
  string h := by rw [h.1]
  ref h := by rw [h.1]
  resolved := by
    rintro y _ σ _ ⟨rfl, h⟩ ⟨rfl, hσ⟩
    cases hr : intoResolved σ y with
    | none => exact .none
    | some z =>
      refine .some ⟨rfl, ?_⟩
      cases y <;> simp only [intoResolved, Option.some.injEq] at hr <;> first | exact hr ▸ h | exact hσ.resolved hr
  seq := by
    rintro y _ σ _ ⟨rfl, h⟩ ⟨rfl, hσ⟩
    cases hr : asSeq σ y with
    | none => exact .none
    | some z =>
      obtain ⟨-, h1, h2⟩ := asSeq_good h hσ hr
      exact .some ⟨sameList_self fun x hx => ⟨rfl, h1 x hx⟩, rfl, h2⟩
  map := by
    rintro y _ σ _ ⟨rfl, h⟩ ⟨rfl, hσ⟩
    cases hr : asMap σ y with
    | none => exact .none
    | some z =>
      obtain ⟨-, h1, h2⟩ := asMap_good h hσ hr
      exact .some ⟨sameKeyed_self fun x hx => ⟨rfl, h1 x hx⟩, rfl, h2⟩

/-- The step keeps the name undefined. -/
def Keeps (b : Str) (f : DeFn) : Prop := ∀ y σ r, Free b y → Good b σ → f y σ = .ok r → Good b r.2

theorem de_keeps (Γ : Nat → Ty) (n : Nat) (ty : Ty) : Keeps b (de Γ n ty) := by
  intro y σ r hy hσ h
  have := DeSim.de_same (sim b) Γ n ty y y σ σ ⟨rfl, hy⟩ ⟨rfl, hσ⟩
  rw [h] at this
  cases this with
  | ok h => exact h.2.2

/-- The step fails on the tree while the name is undefined. -/
def Fails (b : Str) (f : DeFn) (y : Yaml) : Prop := ∀ σ r, Good b σ → f y σ ≠ .ok r

theorem elems_fails {f : DeFn} (hf : Keeps b f) {x : Yaml} (hx : Fails b f x) {ys : List Yaml} (hm : x ∈ ys) (hy : ∀ y ∈ ys, Free b y)
    {σ : Anchors} (hσ : Good b σ) (r) : deElems f ys σ ≠ .ok r := by
  induction ys generalizing σ r with
  | nil => cases hm
  | cons y t ih =>
    intro h
    simp only [deElems] at h
    obtain ⟨p, hp, h⟩ := Out.bind_eq_ok.1 h
    obtain ⟨q, hq, -⟩ := Out.bind_eq_ok.1 h
    rcases List.mem_cons.1 hm with rfl | hm
    · exact hx _ _ hσ hp
    · exact ih hm (fun y h => hy y (by simp [h])) (hf _ _ _ (hy y (by simp)) hσ hp) _ hq

theorem tuple_fails {f : Ty → DeFn} (hf : ∀ t, Keeps b (f t)) {x : Yaml} {t : Ty} (hx : Fails b (f t) x) {ts : List Ty} {ys : List Yaml} {i : Nat}
    (ht : ts[i]? = some t) (hm : ys[i]? = some x) (hy : ∀ y ∈ ys, Free b y) {σ : Anchors} (hσ : Good b σ) (r) : deTuple f ts ys σ ≠ .ok r := by
  induction i generalizing ts ys σ r with
  | zero =>
    cases ts with
    | nil => simp at ht
    | cons t' ts =>
      cases ys with
      | nil => simp at hm
      | cons y ys =>
        simp only [List.getElem?_cons_zero, Option.some.injEq] at ht hm
        subst ht hm
        intro h
        simp only [deTuple] at h
        obtain ⟨p, hp, h⟩ := Out.bind_eq_ok.1 h
        exact hx _ _ hσ hp
  | succ i ih =>
    cases ts with
    | nil => simp at ht
    | cons t' ts =>
      cases ys with
      | nil => simp at hm
      | cons y ys =>
        simp only [List.getElem?_cons_succ] at ht hm
        intro h
        simp only [deTuple] at h
        obtain ⟨p, hp, h⟩ := Out.bind_eq_ok.1 h
        obtain ⟨q, hq, -⟩ := Out.bind_eq_ok.1 h
        exact ih ht hm (fun y h => hy y (by simp [h])) (hf _ _ _ _ (hy y (by simp)) hσ hp) _ hq

theorem entries_fails {fk f : DeFn} (hk : Keeps b fk) (hf : Keeps b f) {s : Str} {x : Yaml} (hx : Fails b f x) {es : List (Str × Yaml)}
    (hm : (s, x) ∈ es) (hy : ∀ e ∈ es, Free b e.2) {σ : Anchors} (hσ : Good b σ) (r) : deEntries fk f es σ ≠ .ok r := by
  induction es generalizing σ r with
  | nil => cases hm
  | cons e t ih =>
    obtain ⟨k, y⟩ := e
    intro h
    rw [deEntries_cons] at h
    obtain ⟨o, ho, h⟩ := Out.bind_eq_ok.1 h
    obtain ⟨p, hp, h⟩ := Out.bind_eq_ok.1 h
    obtain ⟨q, hq, -⟩ := Out.bind_eq_ok.1 h
    have h1 := hk _ _ _ (free_key k) hσ ho
    rcases List.mem_cons.1 hm with he | hm
    · cases he
      exact hx _ _ h1 hp
    · exact ih hm (fun e h => hy e (by simp [h])) (hf _ _ _ (hy (k, y) (by simp)) h1 hp) _ hq

theorem fields_fails {f : Ty → DeFn} (hf : ∀ t, Keeps b (f t)) {fs : List (Str × Ty)} {s : Str} {t : Ty} (ht : fs.lookup s = some t) {x : Yaml}
    (hx : Fails b (f t) x) {es : List (Str × Yaml)} (hm : (s, x) ∈ es) (hy : ∀ e ∈ es, Free b e.2) {σ : Anchors} (hσ : Good b σ) (n p acc r) :
    structLoop f fs n ⟨es, p⟩ acc σ ≠ .ok r := by
  induction es generalizing σ r n p acc with
  | nil => cases hm
  | cons e l ih =>
    obtain ⟨k, y⟩ := e
    cases n with
    | zero => nofun
    | succ n =>
      intro h
      rw [structLoop_cons] at h
      have hl : ∀ e ∈ l, Free b e.2 := fun e h => hy e (by simp [h])
      rcases List.mem_cons.1 hm with he | hm
      · cases he
        rw [ht] at h
        dsimp only at h
        split at h
        · cases h
        · obtain ⟨q, hq, -⟩ := Out.bind_eq_ok.1 h
          exact hx _ _ hσ hq
      · split at h
        · exact ih hm hl hσ _ _ _ _ h
        · split at h
          · cases h
          · obtain ⟨q, hq, h⟩ := Out.bind_eq_ok.1 h
            exact ih hm hl (hf _ _ _ _ (hy (k, y) (by simp)) hσ hq) _ _ _ _ h

/-- A value with elements is not a reference. -/
theorem resolved_listed {y x : Yaml} (σ : Anchors) (h : x ∈ listed y) : intoResolved σ y = some y := by
  cases y <;> first | rfl | simp [listed] at h

theorem resolved_keyed {y x : Yaml} {s : Str} (σ : Anchors) (h : (s, x) ∈ keyed y) : intoResolved σ y = some y := by
  cases y <;> first | rfl | simp [keyed] at h

theorem asString_keyed {y x : Yaml} {s : Str} (h : (s, x) ∈ keyed y) : y.asString = none := by
  cases y <;> first | rfl | simp [keyed] at h

theorem enum_parts {y x : Yaml} {s : Str} {σ : Anchors} (hy : Free b y) (hσ : Good b σ) (hx : keyed y = [(s, x)]) :
    ∃ σ', enumParts σ y = .ok (s, x, σ') ∧ Free b x ∧ Good b σ' := by
  have hm : (s, x) ∈ keyed y := by simp [hx]
  cases hs : asMap σ y with
  | none => cases y <;> simp [keyed, asMap] at hm hs
  | some p =>
    obtain ⟨es, σ'⟩ := p
    obtain ⟨rfl, h1, h2⟩ := asMap_good hy hσ hs
    refine ⟨σ', ?_, h1 _ hm, h2⟩
    simp [enumParts, asString_keyed hm, hs, hx]

theorem needs_shape {Γ : Nat → Ty} {ty : Ty} {y : Yaml} (h : Needs Γ b ty y) : y = .anchor b ∨ listed y ≠ [] ∨ keyed y ≠ [] := by
  induction h with
  | reference => exact .inl rfl
  | option h ih | newtype h ih | named h ih => exact ih
  | byte hx | element hx | anyElement hx => exact .inr (.inl (List.ne_nil_of_mem hx))
  | component ht hx => exact .inr (.inl (List.ne_nil_of_mem (List.mem_of_getElem? hx)))
  | entry hx | field hx | anyEntry hx => exact .inr (.inr (List.ne_nil_of_mem hx))
  | variant hx | tupleVariant hx | structVariant hx => exact .inr (.inr (by simp [hx]))

theorem needs_fails {Γ : Nat → Ty} {ty : Ty} {y : Yaml} (h : Needs Γ b ty y) (hy : Free b y) (n : Nat) : Fails b (de Γ n ty) y := by
  induction h generalizing n with
  | @reference t h =>
    intro σ r hσ
    have hr : intoResolved σ (.anchor b) = none := hσ.resolve
    cases n with
    | zero => nofun
    | succ n => cases t <;> simp_all [de, LooksAt, deTupleNode, deStruct, intoResolved]
  | @option t y h ih =>
    intro σ r hσ
    cases n with
    | zero => nofun
    | succ n =>
      intro hd
      simp only [de] at hd
      cases h' : intoResolved σ y with
      | none => simp [h'] at hd
      | some z =>
        have hd' : ∃ q, de Γ n t y σ = .ok q := by
          rcases needs_shape h with rfl | hl | hk
          · exact absurd (h'.symm.trans hσ.resolve) (by simp)
          · cases y <;> simp [listed] at hl <;> simp only [intoResolved] at hd <;> obtain ⟨q, hq, -⟩ := Out.bind_eq_ok.1 hd <;> exact ⟨q, hq⟩
          · cases y <;> simp [keyed] at hk <;> simp only [intoResolved] at hd <;> obtain ⟨q, hq, -⟩ := Out.bind_eq_ok.1 hd <;> exact ⟨q, hq⟩
        obtain ⟨q, hq⟩ := hd'
        exact ih hy n _ _ hσ hq
  | newtype h ih =>
    intro σ r hσ
    cases n with
    | zero => nofun
    | succ n =>
      intro hd
      simp only [de] at hd
      obtain ⟨p, hp, -⟩ := Out.bind_eq_ok.1 hd
      exact ih hy n _ _ hσ hp
  | named h ih =>
    intro σ r hσ
    cases n with
    | zero => nofun
    | succ n => exact ih hy n σ r hσ
  | byte hx h ih =>
    intro σ r hσ
    cases n with
    | zero => nofun
    | succ n =>
      intro hd
      simp only [de, resolved_listed σ hx] at hd
      split at hd
      · rename_i ys σ' hs
        obtain ⟨rfl, h1, h2⟩ := asSeq_good hy hσ hs
        obtain ⟨p, hp, -⟩ := Out.bind_eq_ok.1 hd
        exact elems_fails (de_keeps Γ n _) (ih (h1 _ hx) n) hx h1 h2 _ hp
      · cases hd
  | element hx h ih =>
    intro σ r hσ
    cases n with
    | zero => nofun
    | succ n =>
      intro hd
      simp only [de, resolved_listed σ hx] at hd
      split at hd
      · rename_i ys σ' hs
        obtain ⟨rfl, h1, h2⟩ := asSeq_good hy hσ hs
        obtain ⟨p, hp, -⟩ := Out.bind_eq_ok.1 hd
        exact elems_fails (de_keeps Γ n _) (ih (h1 _ hx) n) hx h1 h2 _ hp
      · cases hd
  | component ht hx h ih =>
    intro σ r hσ
    cases n with
    | zero => nofun
    | succ n =>
      intro hd
      have hm := List.mem_of_getElem? hx
      simp only [de, deTupleNode, resolved_listed σ hm] at hd
      obtain ⟨p, hp, -⟩ := Out.bind_eq_ok.1 hd
      split at hp
      · cases hp
      · rename_i ys σ' hs
        obtain ⟨rfl, h1, h2⟩ := asSeq_good hy hσ hs
        exact tuple_fails (fun t => de_keeps Γ n t) (ih (h1 _ hm) n) ht hx h1 h2 _ hp
  | entry hx h ih =>
    intro σ r hσ
    cases n with
    | zero => nofun
    | succ n =>
      intro hd
      simp only [de, resolved_keyed σ hx] at hd
      split at hd
      · rename_i es σ' hs
        obtain ⟨rfl, h1, h2⟩ := asMap_good hy hσ hs
        obtain ⟨p, hp, -⟩ := Out.bind_eq_ok.1 hd
        exact entries_fails (de_keeps Γ n _) (de_keeps Γ n _) (ih (h1 _ hx) n) hx h1 h2 _ hp
      · cases hd
  | field hx ht h ih =>
    intro σ r hσ
    cases n with
    | zero => nofun
    | succ n =>
      intro hd
      simp only [de, deStruct, resolved_keyed σ hx] at hd
      obtain ⟨p, hp, -⟩ := Out.bind_eq_ok.1 hd
      split at hp
      · cases hp
      · rename_i es σ' hs
        obtain ⟨rfl, h1, h2⟩ := asMap_good hy hσ hs
        obtain ⟨q, hq, -⟩ := Out.bind_eq_ok.1 hp
        exact fields_fails (fun t => de_keeps Γ n t) ht (ih (h1 _ hx) n) hx h1 h2 _ _ _ _ hq
  | @variant vs y s t x hx hv h ih =>
    intro σ r hσ
    cases n with
    | zero => nofun
    | succ n =>
      intro hd
      obtain ⟨σ', e, h1, h2⟩ := enum_parts hy hσ hx
      have hm : (s, x) ∈ keyed y := by simp [hx]
      simp only [de, resolved_keyed σ hm, e, Out.bind, hv, deVariant] at hd
      obtain ⟨p, hp, -⟩ := Out.bind_eq_ok.1 hd
      exact ih h1 n _ _ h2 hp
  | @tupleVariant vs y s ts x hx hv h ih =>
    intro σ r hσ
    cases n with
    | zero => nofun
    | succ n =>
      intro hd
      obtain ⟨σ', e, h1, h2⟩ := enum_parts hy hσ hx
      have hm : (s, x) ∈ keyed y := by simp [hx]
      simp only [de, resolved_keyed σ hm, e, Out.bind, hv, deVariant] at hd
      obtain ⟨p, hp, -⟩ := Out.bind_eq_ok.1 hd
      exact ih h1 (n + 1) σ' (.tuple p.1, p.2) h2 (by simp only [de, hp, Out.bind])
  | @structVariant vs y s fs x hx hv h ih =>
    intro σ r hσ
    cases n with
    | zero => nofun
    | succ n =>
      intro hd
      obtain ⟨σ', e, h1, h2⟩ := enum_parts hy hσ hx
      have hm : (s, x) ∈ keyed y := by simp [hx]
      simp only [de, resolved_keyed σ hm, e, Out.bind, hv, deVariant] at hd
      obtain ⟨p, hp, -⟩ := Out.bind_eq_ok.1 hd
      exact ih h1 (n + 1) σ' (.struct p.1, p.2) h2 (by simp only [de, hp, Out.bind])
  | @anyElement y x hx h ih =>
    intro σ r hσ
    cases n with
    | zero => nofun
    | succ n =>
      intro hd
      cases hs : asSeq σ y with
      | none => cases y <;> simp [listed, asSeq] at hx hs
      | some p =>
        obtain ⟨ys, σ'⟩ := p
        obtain ⟨rfl, h1, h2⟩ := asSeq_good hy hσ hs
        have hd' : ∃ q, deElems (de Γ n .any) (listed y) σ' = .ok q := by
          cases y <;> simp only [listed, List.not_mem_nil] at hx <;> simp only [de, Yaml.asString, hs] at hd <;>
            obtain ⟨q, hq, -⟩ := Out.bind_eq_ok.1 hd <;> exact ⟨q, hq⟩
        obtain ⟨q, hq⟩ := hd'
        exact elems_fails (de_keeps Γ n _) (ih (h1 _ hx) n) hx h1 h2 _ hq
  | @anyEntry y s x hx h ih =>
    intro σ r hσ
    cases n with
    | zero => nofun
    | succ n =>
      intro hd
      cases hs : asMap σ y with
      | none => cases y <;> simp [keyed, asMap] at hx hs
      | some p =>
        obtain ⟨es, σ'⟩ := p
        obtain ⟨rfl, h1, h2⟩ := asMap_good hy hσ hs
        have hd' : ∃ q, deEntries (de Γ n .str) (de Γ n .any) (keyed y) σ' = .ok q := by
          cases y <;> simp only [keyed, List.not_mem_nil] at hx <;> simp only [de, Yaml.asString, asSeq, hs] at hd <;>
            obtain ⟨q, hq, -⟩ := Out.bind_eq_ok.1 hd <;> exact ⟨q, hq⟩
        obtain ⟨q, hq⟩ := hd'
        exact entries_fails (de_keeps Γ n _) (de_keeps Γ n _) (ih (h1 _ hx) n) hx h1 h2 _ hq

end Undef

/-- **C44** At every type: if reading the tree needs a reference to a name that is defined nowhere in it, no value is read. -/
theorem C44_undefined_typed_fails (Γ : Nat → Ty) {ty : Ty} {y : Yaml} {b : Str} (h : Needs Γ b ty y) (hd : ∀ w, ¬Defines y b w) (n : Nat) (v : SVal) :
    fromYaml Γ n ty y ≠ .ok v := by
  intro hv
  obtain ⟨r, hr, -⟩ := Out.bind_eq_ok.1 hv
  exact Undef.needs_fails h hd n [] r (by simp [Undef.Good]) hr

/-- **C44** And deserialization ends with an error. -/
theorem C44_undefined_typed_error {Γ : Nat → Ty} (hΓ : Guarded Γ) {ty : Ty} {y : Yaml} {b : Str} (h : Needs Γ b ty y) (hd : ∀ w, ¬Defines y b w)
    (ha : Acyclic y) : ∃ n, ∀ m, n ≤ m → fromYaml Γ m ty y = .err := by
  obtain ⟨n, r, hr, h'⟩ := C46_deserialization_terminates hΓ ha ty
  have h1 := h' n (Nat.le_refl n)
  have hs : (fromYaml Γ n ty y).Safe := (de_safe Γ n ty y []).bind fun r => Out.safe_ok _
  refine ⟨n, fun m hm => ?_⟩
  rw [h' m hm]
  cases r with
  | err => rfl
  | oof => exact absurd rfl hr
  | ok v => exact absurd h1 (C44_undefined_typed_fails Γ h hd n v)
  | panic => exact absurd h1 hs.1
  | unmatched => exact absurd h1 hs.2

/-! ## The hypotheses hold -/

namespace Undef

/-- `{base: &b {x: 1}, jobs: [{conf: *c}]}` as block collections. -/
def jobs : Yaml :=
  .hash [.element ⟨c!"base", ⟨some c!"b", .hash [kv c!"x" (plain c!"1")]⟩⟩, kv c!"jobs" (.array [elem (.hash [kv c!"conf" (.anchor c!"c")])])]

/-- A struct with a list of structs with a map. -/
def jobsTy : Ty := .struct [(c!"jobs", .seq (.struct [(c!"conf", .option (.map .str .any))]))]

theorem jobs_needs (Γ : Nat → Ty) : Needs Γ c!"c" jobsTy jobs :=
  .field (s := c!"jobs") (x := .array [elem (.hash [kv c!"conf" (.anchor c!"c")])]) (by simp [jobs, keyed, entriesOf, kv]) rfl
    (.element (x := .hash [kv c!"conf" (.anchor c!"c")]) (by simp [listed, elementsOf, elem])
      (.field (s := c!"conf") (x := .anchor c!"c") (by simp [keyed, entriesOf, kv]) rfl (.option (.reference trivial))))

theorem jobs_free : ∀ w, ¬Defines jobs c!"c" w := by
  have scalar : ∀ s, Free c!"c" (plain s) := free_key
  have hash : ∀ ds, (∀ k v, HashData.element ⟨k, ⟨some c!"c", v⟩⟩ ∉ ds) → (∀ k a v, HashData.element ⟨k, ⟨a, v⟩⟩ ∈ ds → Free c!"c" v) → Free c!"c" (.hash ds) := by
    rintro ds h1 h2 w ⟨c, hw, hd⟩
    cases hw with
    | self => cases hd with | hash h => exact h1 _ _ h
    | step hc hw => cases hc with | hash h => exact h2 _ _ _ h w ⟨c, hw, hd⟩
  have array : ∀ ds, (∀ v, ArrayData.element ⟨some c!"c", v⟩ ∉ ds) → (∀ a v, ArrayData.element ⟨a, v⟩ ∈ ds → Free c!"c" v) → Free c!"c" (.array ds) := by
    rintro ds h1 h2 w ⟨c, hw, hd⟩
    cases hw with
    | self => cases hd with | array h => exact h1 _ h
    | step hc hw => cases hc with | array h => exact h2 _ _ h w ⟨c, hw, hd⟩
  have ref : ∀ a, Free c!"c" (.anchor a) := by
    rintro a w ⟨c, hw, hd⟩
    cases hw with
    | self => cases hd
    | step hc => cases hc
  refine hash _ (by simp [kv]) ?_
  intro k a v h
  simp only [kv, List.mem_cons, HashData.element.injEq, HashElement.mk.injEq, AliasedYaml.mk.injEq, List.not_mem_nil, or_false] at h
  rcases h with ⟨-, -, rfl⟩ | ⟨-, -, rfl⟩
  · refine hash _ (by simp) ?_
    intro k a v h
    simp only [List.mem_cons, HashData.element.injEq, HashElement.mk.injEq, AliasedYaml.mk.injEq, List.not_mem_nil, or_false] at h
    rw [h.2.2]
    exact scalar _
  · refine array _ (by simp [elem]) ?_
    intro a v h
    simp only [elem, List.mem_cons, ArrayData.element.injEq, AliasedYaml.mk.injEq, List.not_mem_nil, or_false] at h
    rw [h.2]
    refine hash _ (by simp) ?_
    intro k a v h
    simp only [List.mem_cons, HashData.element.injEq, HashElement.mk.injEq, AliasedYaml.mk.injEq, List.not_mem_nil, or_false] at h
    rw [h.2.2]
    exact ref _

end Undef

/-- The undefined reference `*c` is needed, so nothing is read; with a type that does not have the field it is not needed. -/
example (Γ : Nat → Ty) (n : Nat) (v : SVal) : fromYaml Γ n Undef.jobsTy Undef.jobs ≠ .ok v :=
  C44_undefined_typed_fails Γ (Undef.jobs_needs Γ) Undef.jobs_free n v

/-- A map of numbers with an undefined reference. -/
example : ∃ n, ∀ m, n ≤ m → fromYaml (fun _ => .bool) m (.map .str (.int .i32)) (.hash [kv c!"a" (plain c!"1"), kv c!"b" (.anchor c!"c")]) = .err := by
  have hd : ∀ a w, ¬Defines (.hash [kv c!"a" (plain c!"1"), kv c!"b" (.anchor c!"c")]) a w := by
    rintro a w ⟨c, hw, hd⟩
    cases hw with
    | self => cases hd with | hash h => simp [kv] at h
    | step hc hw =>
      cases hc with
      | hash h =>
        simp only [kv, List.mem_cons, HashData.element.injEq, HashElement.mk.injEq, AliasedYaml.mk.injEq, List.not_mem_nil, or_false] at h
        rcases h with ⟨-, -, rfl⟩ | ⟨-, -, rfl⟩
        all_goals
          cases hw with
          | self => cases hd
          | step hc => cases hc
  exact C44_undefined_typed_error ⟨fun _ => 1, fun _ => by simp [inputFreeSteps]⟩
    (.entry (s := c!"b") (x := .anchor c!"c") (by simp [keyed, entriesOf, kv]) (.reference trivial)) (hd c!"c") ⟨fun _ => 0, fun a v h => absurd h (hd a v)⟩

/-- **C44** An undefined reference that the type does not read is not noticed. -/
theorem C44_unread_reference_ignored (Γ : Nat → Ty) :
    fromYaml Γ 4 (.struct [(c!"base", .map .str .str)]) Undef.jobs = .ok (.struct [(c!"base", .map [(.str c!"x", .str c!"1")])]) := by
  kernel_rfl

end YamlSubset
