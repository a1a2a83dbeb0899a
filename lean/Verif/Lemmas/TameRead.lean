import Verif.Lemmas.TidyRead
import Verif.Lemmas.ParseShape
import Verif.Spec.Tame

/-! # Parsed documents that are laid out plainly are readable -/

namespace YamlSubset

open Spec

variable {T : CharTables}

/-! ## scalars -/

theorem Spec.TameFlow.flow (y : Yaml) : TameFlow y → ParsedFlow T y → Flow T y := by
  induction y using Yaml.induct with
  | hIH es ih =>
    intro h hp
    cases h with | hash h => cases hp with | inlineHash hk hv => exact .hash hk fun k v hm => ih k v hm (h k v hm) (hv k v hm)
  | hIA es ih =>
    intro h hp
    cases h with | array h => cases hp with | inlineArray hv => exact .array fun v hm => ih v hm (h v hm) (hv v hm)
  | hU s =>
    intro h hp
    cases h with | plain h => cases hp with | plain hs =>
      refine .plain ⟨hs.nonempty, hs.plain.line, ?_, hs.tail, hs.plain.noColonSpace, ⟨hs.plain.last, h⟩, ⟨hs.start, ?_⟩, hs.notReference⟩
      · intro c hc hm
        simp only [List.mem_cons, List.not_mem_nil, or_false] at hm
        rcases hm with h | h | h | h | h | h | h <;> first | exact hs.plain.noHash (h ▸ hc) | exact hs.noFlow c hc (by simp [h])
      · intro hc
        exact hs.plain.first _ hc (by simp)
  | hS ps => intro h hp; cases hp with | singleQuoted h => exact .single h
  | hD ps => intro h hp; cases hp with | doubleQuoted h => exact .double h
  | hN a => intro h hp; cases hp with | anchor h => exact .reference h
  | _ => intro h; cases h

theorem Spec.TamePlain.block {s : Str} (h : TamePlain T s) (hp : BlockPlainText T s) : BlockPlain T s := by
  refine ⟨h.nonempty, hp.plain.line, hp.plain.noHash, hp.plain.noColonSpace, hp.plain.last, ?_, ?_, h.notDash, h.notKey⟩
  · intro c hc
    refine ⟨?_, h.start c hc⟩
    intro hm
    simp only [List.mem_cons, List.not_mem_nil, or_false] at hm
    rcases hm with h | h | h | h | h | h | h | h <;>
      first | exact hp.notBlock.1 (h ▸ hc) | exact hp.notBlock.2 (h ▸ hc) | exact hp.plain.first c hc (by simp [h])
  · rintro c d t rfl (rfl | rfl)
    · exact h.notAnchor d t rfl
    · exact hp.notReference d t rfl

/-- Values on one line. -/
theorem Spec.Tame.oneLine {sp : Site} {n : Bool} {y : Yaml} (h : Tame T sp n y) (hp : ParsedValue T y) (ho : OneLineValue y) : OneLine T y := by
  cases h with
  | plain h => cases hp with | plain hp => exact .plain (h.block hp)
  | double => cases hp with | doubleQuoted hp => exact .double hp
  | single => cases hp with | singleQuoted hp => exact .single hp
  | reference => cases hp with | anchor hp => exact .reference hp
  | flowHash h => cases hp with | flowHash hp => exact .hash (h.flow _ hp)
  | flowArray h => cases hp with | flowArray hp => exact .array (h.flow _ hp)
  | _ => exact ho.elim

theorem Spec.TameLines.block {ls : List Str} (h : TameLines ls) (hl : ∀ l ∈ ls, LineText l) : BlockLines true ls := by
  obtain ⟨l, rest, rfl, h⟩ := h
  exact ⟨hl, l, rest, rfl, h.imp id fun h => ⟨rfl, h⟩⟩

/-! ## entries and elements -/

theorem inline_drop {α : Type} {I E : α → Prop} {x : α} {ds : List α} (h : InlineAfterElement I E (x :: ds))
    (hd : ∀ d rest, ds = d :: rest → ¬ I d) : InlineAfterElement I E ds := by
  intro pre d post heq hi
  obtain ⟨pre', e, hpre, he⟩ := h (x :: pre) d post (by rw [heq]; rfl) hi
  cases pre' with
  | nil =>
    simp only [List.nil_append, List.cons.injEq] at hpre
    obtain ⟨-, rfl⟩ := hpre
    exact absurd hi (hd d post heq)
  | cons y pre' =>
    simp only [List.cons_append, List.cons.injEq] at hpre
    exact ⟨pre', e, hpre.2, he⟩

theorem HashPart.tail {x : HashData} {ds : List HashData} (h : HashPart T (x :: ds)) (hd : ∀ c rest, ds ≠ .inlineComment c :: rest) : HashPart T ds where
  keys e hm := h.keys e (List.mem_cons_of_mem _ hm)
  anchors e a hm := h.anchors e a (List.mem_cons_of_mem _ hm)
  values e hm := h.values e (List.mem_cons_of_mem _ hm)
  comments c hm := h.comments c (hm.imp (List.mem_cons_of_mem _) (List.mem_cons_of_mem _))
  inline := inline_drop h.inline (by rintro d rest heq ⟨c, rfl⟩; exact hd c rest heq)

theorem ArrayPart.tail {x : ArrayData} {ds : List ArrayData} (h : ArrayPart T (x :: ds)) (hd : ∀ c rest, ds ≠ .inlineComment c :: rest) : ArrayPart T ds where
  anchors e a hm := h.anchors e a (List.mem_cons_of_mem _ hm)
  values e hm := h.values e (List.mem_cons_of_mem _ hm)
  comments c hm := h.comments c (hm.imp (List.mem_cons_of_mem _) (List.mem_cons_of_mem _))
  inline := inline_drop h.inline (by rintro d rest heq ⟨c, rfl⟩; exact hd c rest heq)

/-- A comment at the end of a line is not followed by another. -/
theorem HashPart.inline_once {e : HashElement} {c c' : Str} {rest : List HashData} : ¬ HashPart T (.element e :: .inlineComment c :: .inlineComment c' :: rest) := by
  intro h
  obtain ⟨pre, x, hp, e, he⟩ := h.inline [.element e, .inlineComment c] (.inlineComment c') rest rfl ⟨c', rfl⟩
  cases pre with
  | nil => simp at hp
  | cons y pre =>
    cases pre with
    | nil => simp only [List.cons_append, List.nil_append, List.cons.injEq, and_true] at hp; rw [← hp.2] at he; cases he
    | cons z pre => simp at hp

theorem ArrayPart.inline_once {e : AliasedYaml} {c c' : Str} {rest : List ArrayData} : ¬ ArrayPart T (.element e :: .inlineComment c :: .inlineComment c' :: rest) := by
  intro h
  obtain ⟨pre, x, hp, e, he⟩ := h.inline [.element e, .inlineComment c] (.inlineComment c') rest rfl ⟨c', rfl⟩
  cases pre with
  | nil => simp at hp
  | cons y pre =>
    cases pre with
    | nil => simp only [List.cons_append, List.nil_append, List.cons.injEq, and_true] at hp; rw [← hp.2] at he; cases he
    | cons z pre => simp at hp

theorem HashPart.inline_first {c : Str} {rest : List HashData} : ¬ HashPart T (.inlineComment c :: rest) := by
  intro h
  obtain ⟨pre, x, hp, -⟩ := h.inline [] (.inlineComment c) rest rfl ⟨c, rfl⟩
  simp at hp

theorem ArrayPart.inline_first {c : Str} {rest : List ArrayData} : ¬ ArrayPart T (.inlineComment c :: rest) := by
  intro h
  obtain ⟨pre, x, hp, -⟩ := h.inline [] (.inlineComment c) rest rfl ⟨c, rfl⟩
  simp at hp

/-- What follows a comment at the end of a line. -/
theorem HashPart.tail2 {e : HashElement} {c : Str} {d : HashData} {ds : List HashData} (hp : HashPart T (.element e :: .inlineComment c :: d :: ds)) : HashPart T (d :: ds) := by
  have hd : ∀ c' rest, d :: ds ≠ .inlineComment c' :: rest := by
    intro c' rest heq
    rw [heq] at hp
    exact HashPart.inline_once hp
  refine ⟨fun e hm => hp.keys e ?_, fun e a hm => hp.anchors e a ?_, fun e hm => hp.values e ?_,
    fun c' hm => hp.comments c' (hm.imp (fun h => ?_) fun h => ?_), ?_⟩
  · exact List.mem_cons_of_mem _ (List.mem_cons_of_mem _ hm)
  · exact List.mem_cons_of_mem _ (List.mem_cons_of_mem _ hm)
  · exact List.mem_cons_of_mem _ (List.mem_cons_of_mem _ hm)
  · exact List.mem_cons_of_mem _ (List.mem_cons_of_mem _ h)
  · exact List.mem_cons_of_mem _ (List.mem_cons_of_mem _ h)
  · intro pre x post heq hi
    obtain ⟨pre', e', hpre, he⟩ := hp.inline (.element e :: .inlineComment c :: pre) x post (by rw [heq]; rfl) hi
    match pre', hpre with
    | [], hpre => simp at hpre
    | [_], hpre =>
      simp only [List.cons_append, List.nil_append, List.cons.injEq] at hpre
      obtain ⟨-, rfl, rfl⟩ := hpre
      obtain ⟨_, he⟩ := he
      cases he
    | _ :: _ :: pre', hpre =>
      simp only [List.cons_append, List.cons.injEq] at hpre
      exact ⟨pre', e', hpre.2.2, he⟩

theorem Spec.TameHashComments.tail {x y : HashData} {ds : List HashData} (h : TameHashComments (x :: y :: ds)) : TameHashComments (y :: ds) where
  last c hc := h.last c (by rw [List.getLast?_cons_cons]; exact hc)
  inline pre e c post heq := h.inline (x :: pre) e c post (by rw [heq]; rfl)

/-- What follows a comment at the end of a line. -/
theorem ArrayPart.tail2 {e : AliasedYaml} {c : Str} {d : ArrayData} {ds : List ArrayData} (hp : ArrayPart T (.element e :: .inlineComment c :: d :: ds)) : ArrayPart T (d :: ds) := by
  have hd : ∀ c' rest, d :: ds ≠ .inlineComment c' :: rest := by
    intro c' rest heq
    rw [heq] at hp
    exact ArrayPart.inline_once hp
  refine ⟨fun e a hm => hp.anchors e a ?_, fun e hm => hp.values e ?_,
    fun c' hm => hp.comments c' (hm.imp (fun h => ?_) fun h => ?_), ?_⟩
  skip
  · exact List.mem_cons_of_mem _ (List.mem_cons_of_mem _ hm)
  · exact List.mem_cons_of_mem _ (List.mem_cons_of_mem _ hm)
  · exact List.mem_cons_of_mem _ (List.mem_cons_of_mem _ h)
  · exact List.mem_cons_of_mem _ (List.mem_cons_of_mem _ h)
  · intro pre x post heq hi
    obtain ⟨pre', e', hpre, he⟩ := hp.inline (.element e :: .inlineComment c :: pre) x post (by rw [heq]; rfl) hi
    match pre', hpre with
    | [], hpre => simp at hpre
    | [_], hpre =>
      simp only [List.cons_append, List.nil_append, List.cons.injEq] at hpre
      obtain ⟨-, rfl, rfl⟩ := hpre
      obtain ⟨_, he⟩ := he
      cases he
    | _ :: _ :: pre', hpre =>
      simp only [List.cons_append, List.cons.injEq] at hpre
      exact ⟨pre', e', hpre.2.2, he⟩

theorem Spec.TameArrayComments.tail {x y : ArrayData} {ds : List ArrayData} (h : TameArrayComments (x :: y :: ds)) : TameArrayComments (y :: ds) where
  last c hc := h.last c (by rw [List.getLast?_cons_cons]; exact hc)
  inline pre e c post heq := h.inline (x :: pre) e c post (by rw [heq]; rfl)

section
variable {P : Place → Holder → Bool → Yaml → Prop}

theorem entries_of (n : Nat) : ∀ (ds : List HashData), ds.length ≤ n → ds ≠ [] → HashPart T ds → TameHashComments ds →
    (∀ e, HashData.element e ∈ ds → OneLineValue e.value.value → OneLine T e.value.value) →
    (∀ e, HashData.element e ∈ ds → ∀ nx, P ⟨false, true, nx⟩ .key e.value.alias.isSome e.value.value) → ∀ nx, Entries T P nx ds := by
  induction n with
  | zero => intro ds hn hne; cases ds with
    | nil => exact absurd rfl hne
    | cons => simp at hn
  | succ n ih =>
    intro ds hn hne hp hc ho hv nx
    match ds, hne with
    | .comment c :: ds, _ =>
      cases ds with
      | nil => exact absurd rfl (hc.last c)
      | cons d ds =>
        refine .comment (hp.comments c (.inl (by simp))) (ih _ (by simpa using hn) (by simp) (hp.tail ?_) hc.tail
          (fun e hm => ho e (List.mem_cons_of_mem _ hm)) (fun e hm => hv e (List.mem_cons_of_mem _ hm)) nx)
        rintro c' rest heq
        rw [heq] at hp
        obtain ⟨pre, x, hpre, e, he⟩ := hp.inline [.comment c] (.inlineComment c') rest rfl ⟨c', rfl⟩
        cases pre with
        | nil => simp only [List.nil_append, List.cons.injEq, and_true] at hpre; rw [← hpre] at he; cases he
        | cons y pre => simp at hpre
    | .inlineComment c :: ds, _ => exact absurd hp HashPart.inline_first
    | [.element ⟨k, ⟨a, v⟩⟩], _ =>
      exact .last (hp.keys ⟨k, ⟨a, v⟩⟩ (by simp)) (fun n hn => hp.anchors ⟨k, ⟨a, v⟩⟩ n (by simp) hn) (hv ⟨k, ⟨a, v⟩⟩ (by simp) _)
    | [.element ⟨k, ⟨a, v⟩⟩, .inlineComment c], _ =>
      obtain ⟨h1, h2⟩ := hc.inline [] ⟨k, ⟨a, v⟩⟩ c [] rfl
      exact .lastComment (hp.keys ⟨k, ⟨a, v⟩⟩ (by simp)) (fun n hn => hp.anchors ⟨k, ⟨a, v⟩⟩ n (by simp) hn)
        (ho ⟨k, ⟨a, v⟩⟩ (by simp) h1) h2 (hp.comments c (.inr (by simp)))
    | .element ⟨k, ⟨a, v⟩⟩ :: .inlineComment c :: d :: ds, _ =>
      obtain ⟨h1, h2⟩ := hc.inline [] ⟨k, ⟨a, v⟩⟩ c (d :: ds) rfl
      refine .entryComment (hp.keys ⟨k, ⟨a, v⟩⟩ (by simp)) (fun n hn => hp.anchors ⟨k, ⟨a, v⟩⟩ n (by simp) hn)
        (ho ⟨k, ⟨a, v⟩⟩ (by simp) h1) h2 (hp.comments c (.inr (by simp))) (ih _ ?_ (by simp) ?_ hc.tail.tail
          (fun e hm => ho e (List.mem_cons_of_mem _ (List.mem_cons_of_mem _ hm))) (fun e hm => hv e (List.mem_cons_of_mem _ (List.mem_cons_of_mem _ hm))) nx)
      · simp at hn ⊢; omega
      · exact hp.tail2
    | .element ⟨k, ⟨a, v⟩⟩ :: .element e' :: ds, _ =>
      exact .entry (hp.keys ⟨k, ⟨a, v⟩⟩ (by simp)) (fun n hn => hp.anchors ⟨k, ⟨a, v⟩⟩ n (by simp) hn) (hv ⟨k, ⟨a, v⟩⟩ (by simp) _)
        (ih _ (by simpa using hn) (by simp) (hp.tail (by simp)) hc.tail
          (fun e hm => ho e (List.mem_cons_of_mem _ hm)) (fun e hm => hv e (List.mem_cons_of_mem _ hm)) nx)
    | .element ⟨k, ⟨a, v⟩⟩ :: .comment c :: ds, _ =>
      exact .entry (hp.keys ⟨k, ⟨a, v⟩⟩ (by simp)) (fun n hn => hp.anchors ⟨k, ⟨a, v⟩⟩ n (by simp) hn) (hv ⟨k, ⟨a, v⟩⟩ (by simp) _)
        (ih _ (by simpa using hn) (by simp) (hp.tail (by simp)) hc.tail
          (fun e hm => ho e (List.mem_cons_of_mem _ hm)) (fun e hm => hv e (List.mem_cons_of_mem _ hm)) nx)

theorem elements_of (n : Nat) : ∀ (ds : List ArrayData), ds.length ≤ n → ds ≠ [] → ArrayPart T ds → TameArrayComments ds →
    (∀ e, ArrayData.element e ∈ ds → OneLineValue e.value → OneLine T e.value) →
    (∀ e, ArrayData.element e ∈ ds → ∀ nx, P ⟨false, true, nx⟩ .dash e.alias.isSome e.value) → ∀ nx, Elements T P nx ds := by
  induction n with
  | zero => intro ds hn hne; cases ds with
    | nil => exact absurd rfl hne
    | cons => simp at hn
  | succ n ih =>
    intro ds hn hne hp hc ho hv nx
    match ds, hne with
    | .comment c :: ds, _ =>
      cases ds with
      | nil => exact absurd rfl (hc.last c)
      | cons d ds =>
        refine .comment (hp.comments c (.inl (by simp))) (ih _ (by simpa using hn) (by simp) (hp.tail ?_) hc.tail
          (fun e hm => ho e (List.mem_cons_of_mem _ hm)) (fun e hm => hv e (List.mem_cons_of_mem _ hm)) nx)
        rintro c' rest heq
        rw [heq] at hp
        obtain ⟨pre, x, hpre, e, he⟩ := hp.inline [.comment c] (.inlineComment c') rest rfl ⟨c', rfl⟩
        cases pre with
        | nil => simp only [List.nil_append, List.cons.injEq, and_true] at hpre; rw [← hpre] at he; cases he
        | cons y pre => simp at hpre
    | .inlineComment c :: ds, _ => exact absurd hp ArrayPart.inline_first
    | [.element ⟨a, v⟩], _ =>
      exact .last (fun n hn => hp.anchors ⟨a, v⟩ n (by simp) hn) (hv ⟨a, v⟩ (by simp) _)
    | [.element ⟨a, v⟩, .inlineComment c], _ =>
      obtain ⟨h1, h2⟩ := hc.inline [] ⟨a, v⟩ c [] rfl
      exact .lastComment (fun n hn => hp.anchors ⟨a, v⟩ n (by simp) hn)
        (ho ⟨a, v⟩ (by simp) h1) h2 (hp.comments c (.inr (by simp)))
    | .element ⟨a, v⟩ :: .inlineComment c :: d :: ds, _ =>
      obtain ⟨h1, h2⟩ := hc.inline [] ⟨a, v⟩ c (d :: ds) rfl
      refine .elementComment (fun n hn => hp.anchors ⟨a, v⟩ n (by simp) hn)
        (ho ⟨a, v⟩ (by simp) h1) h2 (hp.comments c (.inr (by simp))) (ih _ ?_ (by simp) ?_ hc.tail.tail
          (fun e hm => ho e (List.mem_cons_of_mem _ (List.mem_cons_of_mem _ hm))) (fun e hm => hv e (List.mem_cons_of_mem _ (List.mem_cons_of_mem _ hm))) nx)
      · simp at hn ⊢; omega
      · exact hp.tail2
    | .element ⟨a, v⟩ :: .element e' :: ds, _ =>
      exact .element (fun n hn => hp.anchors ⟨a, v⟩ n (by simp) hn) (hv ⟨a, v⟩ (by simp) _)
        (ih _ (by simpa using hn) (by simp) (hp.tail (by simp)) hc.tail
          (fun e hm => ho e (List.mem_cons_of_mem _ hm)) (fun e hm => hv e (List.mem_cons_of_mem _ hm)) nx)
    | .element ⟨a, v⟩ :: .comment c :: ds, _ =>
      exact .element (fun n hn => hp.anchors ⟨a, v⟩ n (by simp) hn) (hv ⟨a, v⟩ (by simp) _)
        (ih _ (by simpa using hn) (by simp) (hp.tail (by simp)) hc.tail
          (fun e hm => ho e (List.mem_cons_of_mem _ hm)) (fun e hm => hv e (List.mem_cons_of_mem _ hm)) nx)

end

/-! ## values -/

theorem Spec.Tame.readable (y : Yaml) : ∀ {sp n p par}, Tame T sp n y → ParsedValue T y → spotOk sp p par → Readable T p par n y := by
  induction y using Yaml.induct with
  | hH ds ih =>
    intro sp n p par h hy hs
    have hp : HashPart T ds := by
      cases hy with | hash _ hk ha hv hc hi => exact ⟨hk, ha, hv, hc, hi⟩
    have hne : ds ≠ [] := by
      rintro rfl
      cases hy with | hash hne => obtain ⟨e, he⟩ := hne; cases he
    cases h with
    | hash hsp hc hv =>
      have hkey : par = .key := by
        cases sp with
        | entry => exact hs.2.2
        | first => exact hs
        | element => exact absurd rfl hsp
      subst hkey
      refine .hash (entries_of _ ds (Nat.le_refl _) hne hp hc (fun e hm ho => (hv e hm).oneLine (hp.values e hm) ho) (fun e hm nx => ?_) _)
      obtain ⟨k, a, v⟩ := e
      exact ih k a v hm (hv _ hm) (hp.values _ hm) ⟨rfl, rfl, rfl⟩
    | @named _ c ds hc hv =>
      refine .hashNamed (entries_of _ (.comment c :: ds) (Nat.le_refl _) hne hp hc (fun e hm ho => ?_) (fun e hm nx => ?_) _)
      · exact (hv e (by simpa using hm)).oneLine (hp.values e hm) ho
      · obtain ⟨k, a, v⟩ := e
        exact ih k a v hm (hv _ (by simpa using hm)) (hp.values _ hm) ⟨rfl, rfl, rfl⟩
    | @here _ _ e ds hsp hc he hv =>
      have hd : p.deep = false := by
        rcases hsp with rfl | ⟨rfl, -⟩
        · exact hs.1
        · exact hs.1
      have hpar : par = .dash ∨ n = true := by
        rcases hsp with rfl | ⟨-, h⟩
        · exact .inl hs.2.2
        · exact .inr h
      obtain ⟨k, a, v⟩ := e
      have hk : KeyText T k := hp.keys ⟨k, ⟨a, v⟩⟩ (by simp)
      have ha : ∀ n, a = some n → NameText T n := fun n hn => hp.anchors ⟨k, ⟨a, v⟩⟩ n (by simp) hn
      have hyv : ParsedValue T v := hp.values ⟨k, ⟨a, v⟩⟩ (by simp)
      have hfirst : ∀ p', Readable T p' .key a.isSome v := fun p' => ih k a v (by simp) he hyv rfl
      have hvals : ∀ e', HashData.element e' ∈ ds → ∀ nx, Readable T ⟨false, true, nx⟩ .key e'.value.alias.isSome e'.value.value :=
        fun ⟨k', a', v'⟩ hm nx => ih k' a' v' (by simp [hm]) (hv _ hm) (hp.values ⟨k', ⟨a', v'⟩⟩ (by simp [hm])) ⟨rfl, rfl, rfl⟩
      have hone : ∀ e', HashData.element e' ∈ ds → OneLineValue e'.value.value → OneLine T e'.value.value :=
        fun e' hm => (hv e' hm).oneLine (hp.values e' (by simp [hm]))
      match ds with
      | [] => exact .altOne hpar (by simp [hd]) hk ha (hfirst _)
      | [.inlineComment c] =>
        obtain ⟨h1, h2⟩ := hc.inline [] ⟨k, ⟨a, v⟩⟩ c [] rfl
        exact .altOneComment hpar (by simp [hd]) hk ha (he.oneLine hyv h1) h2 (hp.comments c (.inr (by simp)))
      | .inlineComment c :: d :: ds =>
        obtain ⟨h1, h2⟩ := hc.inline [] ⟨k, ⟨a, v⟩⟩ c (d :: ds) rfl
        refine .altMoreComment hpar hk ha (he.oneLine hyv h1) h2 (hp.comments c (.inr (by simp)))
          (entries_of _ (d :: ds) (Nat.le_refl _) (by simp) hp.tail2 hc.tail.tail (fun e' hm => hone e' (by simp [hm])) (fun e' hm => hvals e' (by simp [hm])) _)
      | .element e' :: ds =>
        exact .altMore hpar hk ha (hfirst _) (entries_of _ (.element e' :: ds) (Nat.le_refl _) (by simp) (hp.tail (by simp)) hc.tail hone hvals _)
      | .comment c :: ds =>
        exact .altMore hpar hk ha (hfirst _) (entries_of _ (.comment c :: ds) (Nat.le_refl _) (by simp) (hp.tail (by simp)) hc.tail hone hvals _)
  | hA ds ih =>
    intro sp n p par h hy hs
    have hp : ArrayPart T ds := by
      cases hy with | array _ ha hv hc hi => exact ⟨ha, hv, hc, hi⟩
    have hne : ds ≠ [] := by
      rintro rfl
      cases hy with | array hne => obtain ⟨e, he⟩ := hne; cases he
    cases h with
    | array hsp hc hv =>
      have hkey : par = .key := by
        cases sp with
        | entry => exact hs.2.2
        | first => exact hs
        | element => exact absurd rfl hsp
      subst hkey
      refine .array (elements_of _ ds (Nat.le_refl _) hne hp hc (fun e hm ho => (hv e hm).oneLine (hp.values e hm) ho) (fun e hm nx => ?_) _)
      obtain ⟨a, v⟩ := e
      exact ih a v hm (hv _ hm) (hp.values _ hm) ⟨rfl, rfl, rfl⟩
    | @seq _ _ e c e' ds hsp hc hi ho he hv =>
      have hpar : par = .dash ∨ n = true := by
        rcases hsp with rfl | h
        · exact .inl hs.2.2
        · exact .inr h
      obtain ⟨a, v⟩ := e
      have ha : ∀ n, a = some n → NameText T n := fun n hn => hp.anchors ⟨a, v⟩ n (by simp) hn
      have hyv : ParsedValue T v := hp.values ⟨a, v⟩ (by simp)
      have hvals : ∀ e'', ArrayData.element e'' ∈ .element e' :: ds → ∀ nx, Readable T ⟨false, true, nx⟩ .dash e''.alias.isSome e''.value :=
        fun ⟨a', v'⟩ hm nx => ih a' v' (by simp only [List.mem_append]; exact .inr hm) (hv _ hm)
          (hp.values ⟨a', v'⟩ (by simp only [List.mem_append]; exact .inr hm)) ⟨rfl, rfl, rfl⟩
      have hone : ∀ e'', ArrayData.element e'' ∈ .element e' :: ds → OneLineValue e''.value → OneLine T e''.value :=
        fun e'' hm => (hv e'' hm).oneLine (hp.values e'' (by simp only [List.mem_append]; exact .inr hm))
      rcases hi with rfl | ⟨c, rfl⟩
      · exact .seqMore hpar ha (.oneLine (he.oneLine hyv ho))
          (elements_of _ (.element e' :: ds) (Nat.le_refl _) (by simp) (hp.tail (by simp)) hc.tail hone hvals _)
      · obtain ⟨h1, h2⟩ := hc.inline [] ⟨a, v⟩ c (.element e' :: ds) rfl
        exact .seqMoreComment hpar ha (he.oneLine hyv ho) h2 (hp.comments c (.inr (by simp)))
          (elements_of _ (.element e' :: ds) (Nat.le_refl _) (by simp) hp.tail2 hc.tail.tail hone hvals _)
  | hL ls c =>
    intro sp n p par h hy hs
    cases h with | literal hsp h => cases hy with | literal hl _ =>
      cases sp with
      | first => exact absurd rfl hsp
      | entry => exact .literal hs.1 (hs.2.1 ▸ h.block hl)
      | element => exact .literal hs.1 (hs.2.1 ▸ h.block hl)
  | hF ls c =>
    intro sp n p par h hy hs
    cases h with | folded hsp h => cases hy with | folded hl _ =>
      cases sp with
      | first => exact absurd rfl hsp
      | entry => exact .folded hs.1 (hs.2.1 ▸ h.block hl)
      | element => exact .folded hs.1 (hs.2.1 ▸ h.block hl)
  | _ => intro sp n p par h hy _; exact .oneLine (h.oneLine hy trivial)

theorem tame_readable {d : Document} (h : TameDocument T d) (hp : ParsedDocument T d) : ReadableDocument T d := by
  obtain ⟨hl, pre, post, root, hi, hc, -, hr⟩ := hp
  have hm : DocumentData.yaml root ∈ d.items := by rw [hi]; simp
  have ht := h.tame root hm
  refine ⟨hl, pre, post, root, hi, hc, ?_⟩
  have hread := ht.readable root (p := ⟨false, true, .none⟩) (par := .key) hr ⟨rfl, rfl, rfl⟩
  rcases h.root root hm with ⟨e, ds, rfl⟩ | ⟨e, ds, rfl⟩
  · cases hread with
    | hash h => exact .hash h
    | altOne hp => rcases hp with h | h <;> cases h
    | altOneComment hp => rcases hp with h | h <;> cases h
    | altMore hp => rcases hp with h | h <;> cases h
    | altMoreComment hp => rcases hp with h | h <;> cases h
    | oneLine h => cases h
  · cases hread with
    | array h => exact .array h
    | seqOne hp => rcases hp with h | h <;> cases h
    | seqOneComment hp => rcases hp with h | h <;> cases h
    | seqMore hp => rcases hp with h | h <;> cases h
    | seqMoreComment hp => rcases hp with h | h <;> cases h
    | oneLine h => cases h

end YamlSubset
