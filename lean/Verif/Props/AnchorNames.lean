import Verif.Spec.AnchorNames
import Verif.Spec.Place
import Verif.Lemmas.DeSim
import Verif.Props.Unread
import Verif.Lemmas.KernelRfl

/-! # C83: the names of anchors do not matter, and unused anchors do not matter -/

namespace YamlSubset

open Spec

namespace Anc

variable {d : Str → Option Str} {f : Str → Str} {M D : Str → Prop}

/-- The second tree is the first one with other anchors; the references and definitions of the first are known. -/
def Rel (d : Str → Option Str) (f : Str → Str) (M D : Str → Prop) (y y' : Yaml) : Prop :=
  y' = changeAnchors d f y ∧ (∀ b, RefersTo y b → M b) ∧ ∀ a v, Defines y a v → D a

/-- The anchor map after the change. -/
def mapAnchors (d : Str → Option Str) (f : Str → Str) (σ : Anchors) : Anchors := σ.filterMap fun p => (d p.1).map fun c => (c, changeAnchors d f p.2)

def RelA (d : Str → Option Str) (f : Str → Str) (M D : Str → Prop) (σ σ' : Anchors) : Prop :=
  σ' = mapAnchors d f σ ∧ ∀ a v, (a, v) ∈ σ → D a ∧ Rel d f M D v (changeAnchors d f v)

theorem Rel.child {y y' c : Yaml} (h : Rel d f M D y y') (hc : Child c y) : Rel d f M D c (changeAnchors d f c) :=
  ⟨rfl, fun b hb => h.2.1 b (.step hc hb), fun a v ⟨e, he, hd⟩ => h.2.2 a v ⟨e, .step hc he, hd⟩⟩

theorem resolve_map (hd : ∀ b, M b → d b = some (f b)) (hi : ∀ a b, D a → M b → d a = some (f b) → a = b) {b : Str} (hb : M b) :
    ∀ {σ : Anchors}, (∀ a v, (a, v) ∈ σ → D a) → resolve (mapAnchors d f σ) (f b) = (resolve σ b).map (changeAnchors d f) := by
  intro σ
  induction σ with
  | nil => intro _; rfl
  | cons p σ ih =>
    intro h
    obtain ⟨a, v⟩ := p
    have ih := ih fun a v hm => h a v (List.mem_cons_of_mem _ hm)
    simp only [resolve] at ih ⊢
    by_cases e : b = a
    · subst e
      simp [mapAnchors, hd b hb, List.lookup_cons]
    · rw [List.lookup_cons, beq_false_of_ne e]
      simp only [mapAnchors, List.filterMap_cons]
      cases hda : d a with
      | none => simpa [mapAnchors] using ih
      | some c =>
        have : f b ≠ c := fun h' => e (hi a b (h a v (List.mem_cons_self ..)) hb (h' ▸ hda)).symm
        simpa [mapAnchors, List.lookup_cons, beq_false_of_ne this] using ih

theorem seqValues_rel {ds : List ArrayData} : ∀ {σ : Anchors}, (∀ a v, ArrayData.element ⟨a, v⟩ ∈ ds → Rel d f M D v (changeAnchors d f v) ∧ ∀ n, a = some n → D n) →
    RelA d f M D σ (mapAnchors d f σ) → DeSim.SameList (Rel d f M D) (seqValues σ ds).1 (seqValues (mapAnchors d f σ) (changeAnchorsArray d f ds)).1 ∧
      RelA d f M D (seqValues σ ds).2 (seqValues (mapAnchors d f σ) (changeAnchorsArray d f ds)).2 := by
  induction ds with
  | nil => intro σ _ hσ; exact ⟨trivial, hσ⟩
  | cons x t ih =>
    intro σ h hσ
    have ih := fun {σ} => ih (σ := σ) fun a v hm => h a v (List.mem_cons_of_mem _ hm)
    match x with
    | .comment c => exact ih hσ
    | .inlineComment c => exact ih hσ
    | .element ⟨none, v⟩ => exact ⟨⟨(h none v (List.mem_cons_self ..)).1, (ih hσ).1⟩, (ih hσ).2⟩
    | .element ⟨some n, v⟩ =>
      obtain ⟨hv, hn⟩ := h (some n) v (List.mem_cons_self ..)
      have hσ' : RelA d f M D ((n, v) :: σ) (mapAnchors d f ((n, v) :: σ)) := ⟨rfl, fun a w hm => by
        rcases List.mem_cons.1 hm with e | hm
        · cases e; exact ⟨hn n rfl, hv⟩
        · exact hσ.2 a w hm⟩
      have e : register (mapAnchors d f σ) ⟨(some n).bind d, changeAnchors d f v⟩ = mapAnchors d f ((n, v) :: σ) := by
        simp only [Option.bind_some, mapAnchors, List.filterMap_cons]
        cases d n <;> rfl
      simp only [changeAnchorsArray, seqValues]
      rw [e]
      exact ⟨⟨hv, (ih hσ').1⟩, (ih hσ').2⟩

theorem hashEntries_rel {ds : List HashData} : ∀ {σ : Anchors}, (∀ k a v, HashData.element ⟨k, ⟨a, v⟩⟩ ∈ ds → Rel d f M D v (changeAnchors d f v) ∧ ∀ n, a = some n → D n) →
    RelA d f M D σ (mapAnchors d f σ) → DeSim.SameKeyed (Rel d f M D) (hashEntries σ ds).1 (hashEntries (mapAnchors d f σ) (changeAnchorsHash d f ds)).1 ∧
      RelA d f M D (hashEntries σ ds).2 (hashEntries (mapAnchors d f σ) (changeAnchorsHash d f ds)).2 := by
  induction ds with
  | nil => intro σ _ hσ; exact ⟨trivial, hσ⟩
  | cons x t ih =>
    intro σ h hσ
    have ih := fun {σ} => ih (σ := σ) fun k a v hm => h k a v (List.mem_cons_of_mem _ hm)
    match x with
    | .comment c => exact ih hσ
    | .inlineComment c => exact ih hσ
    | .element ⟨k, ⟨none, v⟩⟩ => exact ⟨⟨⟨rfl, (h k none v (List.mem_cons_self ..)).1⟩, (ih hσ).1⟩, (ih hσ).2⟩
    | .element ⟨k, ⟨some n, v⟩⟩ =>
      obtain ⟨hv, hn⟩ := h k (some n) v (List.mem_cons_self ..)
      have hσ' : RelA d f M D ((n, v) :: σ) (mapAnchors d f ((n, v) :: σ)) := ⟨rfl, fun a w hm => by
        rcases List.mem_cons.1 hm with e | hm
        · cases e; exact ⟨hn n rfl, hv⟩
        · exact hσ.2 a w hm⟩
      have e : register (mapAnchors d f σ) ⟨(some n).bind d, changeAnchors d f v⟩ = mapAnchors d f ((n, v) :: σ) := by
        simp only [Option.bind_some, mapAnchors, List.filterMap_cons]
        cases d n <;> rfl
      simp only [changeAnchorsHash, hashEntries]
      rw [e]
      exact ⟨⟨⟨rfl, hv⟩, (ih hσ').1⟩, (ih hσ').2⟩

theorem yamls_rel {ys : List Yaml} (h : ∀ v ∈ ys, Rel d f M D v (changeAnchors d f v)) : DeSim.SameList (Rel d f M D) ys (changeAnchorsYamls d f ys) := by
  induction ys with
  | nil => trivial
  | cons v t ih => exact ⟨h v (List.mem_cons_self ..), ih fun w hw => h w (List.mem_cons_of_mem _ hw)⟩

theorem entries_rel {es : List (Str × Yaml)} (h : ∀ k v, (k, v) ∈ es → Rel d f M D v (changeAnchors d f v)) : DeSim.SameKeyed (Rel d f M D) es (changeAnchorsEntries d f es) := by
  induction es with
  | nil => trivial
  | cons e t ih =>
    obtain ⟨k, v⟩ := e
    exact ⟨⟨rfl, h k v (List.mem_cons_self ..)⟩, ih fun k w hw => h k w (List.mem_cons_of_mem _ hw)⟩

theorem sim (hd : ∀ b, M b → d b = some (f b)) (hi : ∀ a b, D a → M b → d a = some (f b) → a = b) : DeSim.Sim (Rel d f M D) (RelA d f M D) where
  key k := by
    refine ⟨by simp [changeAnchors], ?_, ?_⟩
    · intro b hb
      cases hb with | step h => cases h
    · rintro a v ⟨c, hc, h⟩
      cases hc with
      | self => cases h
      | step h => cases h
  special := by rintro y y' ⟨rfl, -⟩; cases y <;> simp [changeAnchors, specialOf]
  string := by rintro y y' ⟨rfl, -⟩; cases y <;> simp [changeAnchors, Yaml.asString]
  ref := by rintro y y' ⟨rfl, -⟩; cases y <;> simp [changeAnchors, refOf]
  resolved := by
    intro y y' σ σ' h hσ
    by_cases hy : ∃ b, y = .anchor b
    · obtain ⟨b, rfl⟩ := hy
      obtain ⟨rfl, hm, -⟩ := h
      obtain ⟨rfl, hσ⟩ := hσ
      simp only [changeAnchors, intoResolved, resolve_map hd hi (hm b .self) fun a v hm => (hσ a v hm).1]
      cases hr : resolve σ b with
      | none => exact .none
      | some v =>
        have : ∃ n, (n, v) ∈ σ := by
          clear hσ
          induction σ with
          | nil => cases hr
          | cons p σ ih =>
            obtain ⟨n, w⟩ := p
            simp only [resolve, List.lookup_cons] at hr
            split at hr
            · cases hr; exact ⟨n, List.mem_cons_self ..⟩
            · obtain ⟨n, hn⟩ := ih hr; exact ⟨n, List.mem_cons_of_mem _ hn⟩
        obtain ⟨n, hn⟩ := this
        exact .some (hσ n v hn).2
    · have e : ∀ σ, intoResolved σ y = some y := fun σ => by cases y <;> first | rfl | exact absurd ⟨_, rfl⟩ hy
      have e' : ∀ σ, intoResolved σ y' = some y' := fun σ => by
        rw [h.1]; cases y <;> first | simp [changeAnchors, intoResolved]; done | exact absurd ⟨_, rfl⟩ hy
      rw [e, e']
      exact .some h
  seq := by
    intro y y' σ σ' h hσ
    have hσ' := hσ
    obtain ⟨rfl, -⟩ := hσ
    have hc := fun c hc => h.child (c := c) hc
    have hdef := h.2.2
    obtain ⟨rfl, -⟩ := h
    cases y with
    | array ds =>
      simp only [changeAnchors, asSeq]
      exact .some (seqValues_rel (fun a v hm => ⟨hc v (.array hm), fun n e => hdef n v ⟨_, .self, .array (e ▸ hm)⟩⟩) hσ')
    | inlineArray ys =>
      simp only [changeAnchors, asSeq]
      exact .some ⟨yamls_rel fun v hm => hc v (.inlineArray hm), hσ'⟩
    | _ => simp only [changeAnchors, asSeq]; exact .none
  map := by
    intro y y' σ σ' h hσ
    have hσ' := hσ
    obtain ⟨rfl, -⟩ := hσ
    have hc := fun c hc => h.child (c := c) hc
    have hdef := h.2.2
    obtain ⟨rfl, -⟩ := h
    cases y with
    | hash ds =>
      simp only [changeAnchors, asMap]
      exact .some (hashEntries_rel (fun k a v hm => ⟨hc v (.hash hm), fun n e => hdef n v ⟨_, .self, .hash (e ▸ hm)⟩⟩) hσ')
    | inlineHash es =>
      simp only [changeAnchors, asMap]
      exact .some ⟨entries_rel fun k v hm => hc v (.inlineHash hm), hσ'⟩
    | _ => simp only [changeAnchors, asMap]; exact .none

end Anc

/-- **C83** Anchors are given other names, and anchors to which nothing refers are removed: what is read does not change, at any type, errors included. -/
theorem C83_change_anchors (Γ : Nat → Ty) (n : Nat) (ty : Ty) (d : Str → Option Str) (f : Str → Str) (y : Yaml) (hd : ∀ b, RefersTo y b → d b = some (f b))
    (hi : ∀ a v b, Defines y a v → RefersTo y b → d a = some (f b) → a = b) : fromYaml Γ n ty (changeAnchors d f y) = fromYaml Γ n ty y :=
  (DeSim.fromYaml_same (Anc.sim (M := RefersTo y) (D := fun a => ∃ v, Defines y a v) hd fun a b ⟨v, hv⟩ hb => hi a v b hv hb) ⟨rfl, by simp⟩ Γ n ty
    ⟨rfl, fun _ h => h, fun a v h => ⟨v, h⟩⟩).symm

/-- **C83** The names of anchors do not matter, as long as different names stay different. -/
theorem C83_rename_anchors (Γ : Nat → Ty) (n : Nat) (ty : Ty) (f : Str → Str) (y : Yaml) (hi : ∀ a v b, Defines y a v → RefersTo y b → f a = f b → a = b) :
    fromYaml Γ n ty (renameAnchors f y) = fromYaml Γ n ty y :=
  C83_change_anchors Γ n ty _ f y (fun _ _ => rfl) fun a v b ha hb e => hi a v b ha hb (by simpa using e)

/-- **C83** An anchor to which nothing refers can be removed (and so one can be added). -/
theorem C83_unused_anchor (Γ : Nat → Ty) (n : Nat) (ty : Ty) (b : Str) (y : Yaml) (hb : ¬RefersTo y b) : fromYaml Γ n ty (removeAnchor b y) = fromYaml Γ n ty y := by
  refine C83_change_anchors Γ n ty _ id y (fun a ha => ?_) fun a v c ha hc e => ?_
  · have : a ≠ b := fun e => hb (e ▸ ha)
    simp [this]
  · split at e
    · cases e
    · simpa using e

/-- **C83** The same for texts: two files whose trees differ in their anchors in this way are read alike. -/
theorem C83_text (T : CharTables) (Γ : Nat → Ty) (n : Nat) (ty : Ty) (d : Str → Option Str) (f : Str → Str) {s s' : Str} {doc : Document} {y : Yaml}
    (hs : parseYamlFile T s = .ok doc) (hs' : parseYamlFile T s' = .ok (onTrees (changeAnchors d f) doc)) (hy : yamlItems doc = [y])
    (hd : ∀ b, RefersTo y b → d b = some (f b)) (hi : ∀ a v b, Defines y a v → RefersTo y b → d a = some (f b) → a = b) :
    fromYamlStr T Γ n ty s' = fromYamlStr T Γ n ty s := by
  obtain ⟨r, hr, e⟩ := (C47_text T Γ n ty s).1 doc hs
  obtain ⟨r', hr', e'⟩ := (C47_text T Γ n ty s').1 _ hs'
  have h : yamlItems (onTrees (changeAnchors d f) doc) = (yamlItems doc).map (changeAnchors d f) := by
    obtain ⟨l, items⟩ := doc
    simp only [yamlItems, onTrees]
    clear hs hs' hy hr hr'
    induction items with
    | nil => rfl
    | cons x t ih => cases x <;> simpa using ih
  rw [h, hr] at hr'
  rw [hr] at hy
  cases hy
  cases hr'
  rw [e, e']
  exact C83_change_anchors Γ n ty d f y hd hi

/-- **C83** A definition with the name of a later reference takes it over: two different names must not become the same. -/
theorem C83_counterexample_capture (Γ : Nat → Ty) :
    fromYamlStr asciiTables Γ 9 (.seq .str) c!"---\n- &x a\n- &y b\n- *x\n" = .ok (.seq [.str c!"a", .str c!"b", .str c!"a"]) ∧
    fromYamlStr asciiTables Γ 9 (.seq .str) c!"---\n- &x a\n- &x b\n- *x\n" = .ok (.seq [.str c!"a", .str c!"b", .str c!"b"]) :=
  ⟨by kernel_rfl, by kernel_rfl⟩

/-- **C83** Removing an anchor that is used makes the file unreadable. -/
theorem C83_counterexample_used (Γ : Nat → Ty) :
    fromYamlStr asciiTables Γ 9 (.seq .str) c!"---\n- &x a\n- *x\n" = .ok (.seq [.str c!"a", .str c!"a"]) ∧
    fromYamlStr asciiTables Γ 9 (.seq .str) c!"---\n- a\n- *x\n" = .err :=
  ⟨by kernel_rfl, by kernel_rfl⟩

/-- A tree with two anchors, of which one is used, from within a flow sequence of a later entry. -/
def anchoredTree : Yaml := .hash [.element ⟨c!"a", ⟨some c!"x", .unquotedString c!"1"⟩⟩, .comment c!" c", .element ⟨c!"b", ⟨some c!"y", .unquotedString c!"2"⟩⟩,
  .element ⟨c!"c", ⟨none, .inlineArray [.anchor c!"x", .unquotedString c!"3"]⟩⟩]

theorem anchoredTree_refers {b : Str} (h : RefersTo anchoredTree b) : b = c!"x" := by
  cases h with
  | step h hw =>
    cases h with
    | hash h =>
      simp only [List.mem_cons, HashData.element.injEq, HashElement.mk.injEq, AliasedYaml.mk.injEq, List.not_mem_nil, or_false, reduceCtorEq, false_or] at h
      rcases h with ⟨-, -, rfl⟩ | ⟨-, -, rfl⟩ | ⟨-, -, rfl⟩
      · cases hw with | step h => cases h
      · cases hw with | step h => cases h
      · cases hw with
        | step h hw =>
          cases h with
          | inlineArray h =>
            simp only [List.mem_cons, List.not_mem_nil, or_false] at h
            rcases h with rfl | rfl
            · cases hw with
              | self => rfl
              | step h => cases h
            · cases hw with | step h => cases h

/-- The texts of the tree, of the tree with the used anchor renamed, and of the tree with the other one removed. -/
example (Γ : Nat → Ty) (n : Nat) (ty : Ty) :
    fromYamlStr asciiTables Γ n ty c!"---\na: &z 1\n# c\nb: 2\nc: [*z, 3]\n" = fromYamlStr asciiTables Γ n ty c!"---\na: &x 1\n# c\nb: &y 2\nc: [*x, 3]\n" :=
  C83_text asciiTables Γ n ty (fun a => if a = c!"x" then some c!"z" else none) (fun _ => c!"z") (doc := ⟨[], [.yaml anchoredTree]⟩) (y := anchoredTree)
    (by kernel_rfl) (by kernel_rfl) rfl (fun b hb => by rw [anchoredTree_refers hb]; rfl) fun a v b _ hb h => by
      rw [anchoredTree_refers hb]
      by_cases e : a = c!"x"
      · exact e
      · simp [e] at h

example (Γ : Nat → Ty) : fromYamlStr asciiTables Γ 9 (.struct [(c!"a", .str), (c!"c", .seq .str)]) c!"---\na: &z 1\n# c\nb: 2\nc: [*z, 3]\n" =
    .ok (.struct [(c!"a", .str c!"1"), (c!"c", .seq [.str c!"1", .str c!"3"])]) := by kernel_rfl

example (Γ : Nat → Ty) (n : Nat) (ty : Ty) : fromYaml Γ n ty (removeAnchor c!"y" anchoredTree) = fromYaml Γ n ty anchoredTree :=
  C83_unused_anchor Γ n ty _ _ fun h => absurd (anchoredTree_refers h) (by decide)

example (Γ : Nat → Ty) (n : Nat) (ty : Ty) : fromYaml Γ n ty (renameAnchors (c!"p" ++ ·) anchoredTree) = fromYaml Γ n ty anchoredTree :=
  C83_rename_anchors Γ n ty _ _ fun _ _ _ _ _ h => List.append_cancel_left h

end YamlSubset
