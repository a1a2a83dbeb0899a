import Verif.Spec.Order
import Verif.Lemmas.Decode

/-! # Trees and values up to the order of entries -/

namespace YamlSubset.Ord

open Spec

/-! ## lists -/

theorem mem_zip {α β : Type} {xs : List α} {ys : List β} {a : α} {b : β} : (a, b) ∈ xs.zip ys ↔ ∃ i : Nat, xs[i]? = some a ∧ ys[i]? = some b := by
  rw [List.mem_iff_getElem?]
  simp only [List.getElem?_zip_eq_some]

theorem choice {β : Type} {n : Nat} {R : Nat → β → Prop} (h : ∀ i, i < n → ∃ b, R i b) : ∃ bs : List β, bs.length = n ∧ ∀ (i : Nat) (b : β), bs[i]? = some b → R i b := by
  refine ⟨List.ofFn fun i : Fin n => Classical.choose (h i i.2), by simp, fun i b hb => ?_⟩
  rw [List.getElem?_ofFn] at hb
  split at hb
  · rename_i hi
    cases hb
    exact Classical.choose_spec (h i hi)
  · cases hb

theorem perm_zip {α β : Type} {xs xs' : List α} (h : xs.Perm xs') : ∀ ys : List β, xs.length = ys.length →
    ∃ ys', ys.Perm ys' ∧ xs'.length = ys'.length ∧ (xs.zip ys).Perm (xs'.zip ys') := by
  induction h with
  | nil => intro ys hl; exact ⟨ys, .refl _, hl, .refl _⟩
  | cons x _ ih =>
    intro ys hl
    match ys with
    | [] => simp at hl
    | y :: ys =>
      obtain ⟨ys', h1, h2, h3⟩ := ih ys (by simpa using hl)
      exact ⟨y :: ys', h1.cons _, by simp [h2], h3.cons _⟩
  | swap x y l =>
    intro ys hl
    match ys with
    | [] => simp at hl
    | [_] => simp at hl
    | a :: b :: ys => exact ⟨b :: a :: ys, .swap .., by simpa using hl, .swap ..⟩
  | trans _ _ ih₁ ih₂ =>
    intro ys hl
    obtain ⟨ys', h1, h2, h3⟩ := ih₁ ys hl
    obtain ⟨ys'', h4, h5, h6⟩ := ih₂ ys' h2
    exact ⟨ys'', h1.trans h4, h5, h3.trans h6⟩

theorem get_of_lt {α : Type} {xs : List α} {i : Nat} (h : i < xs.length) : ∃ a, xs[i]? = some a := ⟨xs[i], by simp [h]⟩

theorem lt_of_get {α : Type} {xs : List α} {i : Nat} {a : α} (h : xs[i]? = some a) : i < xs.length := by
  rcases Nat.lt_or_ge i xs.length with h' | h'
  · exact h'
  · simp [h'] at h

/-- The partner in a list of the same length. -/
theorem partner {α β : Type} {xs : List α} {ys : List β} (hl : xs.length = ys.length) {i : Nat} {a : α} (h : xs[i]? = some a) : ∃ b, ys[i]? = some b :=
  get_of_lt (hl ▸ lt_of_get h)

/-! ## trees -/

theorem scalar_same {y y' : Yaml} {s : Str} (h : Reordered y y') (hs : scalarText y = some s) : y' = y := by
  cases h with
  | same => rfl
  | seq hy => cases y <;> simp [scalarText, seqElements] at hs hy
  | map hy => cases y <;> simp [scalarText, mapPairs] at hs hy

theorem seq_inv {y y' : Yaml} {ys : List Yaml} (h : Reordered y y') (hy : seqElements y = some ys) :
    ∃ ys', seqElements y' = some ys' ∧ ys.length = ys'.length ∧ ∀ (i : Nat) (w w' : Yaml), ys[i]? = some w → ys'[i]? = some w' → Reordered w w' := by
  cases h with
  | same => exact ⟨ys, hy, rfl, fun i w w' h h' => by rw [h] at h'; cases h'; exact .same⟩
  | seq hy₁ hy' hl h => rw [hy] at hy₁; cases hy₁; exact ⟨_, hy', hl, h⟩
  | map hy₁ => cases y <;> simp [seqElements, mapPairs] at hy hy₁

theorem map_inv {y y' : Yaml} {es : List (Str × Yaml)} (h : Reordered y y') (hy : mapPairs y = some es) :
    ∃ (es₁ es' : List (Str × Yaml)), mapPairs y' = some es' ∧ es.length = es₁.length ∧
      (∀ (i : Nat) (k : Str) (w : Yaml) (k' : Str) (w' : Yaml), es[i]? = some (k, w) → es₁[i]? = some (k', w') → k = k' ∧ Reordered w w') ∧ es₁.Perm es' := by
  cases h with
  | same => exact ⟨es, es, hy, rfl, fun i k w k' w' h h' => by rw [h] at h'; cases h'; exact ⟨rfl, .same⟩, .refl _⟩
  | seq hy₁ => cases y <;> simp [seqElements, mapPairs] at hy hy₁
  | map hy₁ hy' hl hk h hp => rw [hy] at hy₁; cases hy₁; exact ⟨_, _, hy', hl, fun i k w k' w' h1 h2 => ⟨hk i k w k' w' h1 h2, h i k w k' w' h1 h2⟩, hp⟩

theorem Reordered.symm {y y' : Yaml} (h : Reordered y y') : Reordered y' y := by
  induction h with
  | same => exact .same
  | seq hy hy' hl h ih => exact .seq hy' hy hl.symm fun i w w' h1 h2 => ih i w' w h2 h1
  | @map y y' es es' es₁ hy hy' hl hk h hp ih =>
    obtain ⟨es₂, h1, h2, h3⟩ := perm_zip hp es hl.symm
    have key : ∀ (i : Nat) (k : Str) (w : Yaml) (k' : Str) (w' : Yaml), es'[i]? = some (k, w) → es₂[i]? = some (k', w') → k = k' ∧ Reordered w w' := by
      intro i k w k' w' h4 h5
      obtain ⟨j, h6, h7⟩ := mem_zip.1 (h3.mem_iff.2 (mem_zip.2 ⟨i, h4, h5⟩))
      exact ⟨(hk j k' w' k w h7 h6).symm, ih j k' w' k w h7 h6⟩
    exact .map hy' hy h2 (fun i k w k' w' h4 h5 => (key i k w k' w' h4 h5).1) (fun i k w k' w' h4 h5 => (key i k w k' w' h4 h5).2) h1.symm

/-- Entries with a key, before and after. -/
theorem entries_iff {es es₁ es' : List (Str × Yaml)} (hl : es.length = es₁.length)
    (h : ∀ (i : Nat) (k : Str) (w : Yaml) (k' : Str) (w' : Yaml), es[i]? = some (k, w) → es₁[i]? = some (k', w') → k = k' ∧ Reordered w w') (hp : es₁.Perm es') (k : Str) :
    (∀ w', (k, w') ∈ es' → ∃ w, (k, w) ∈ es ∧ Reordered w w') ∧ (∀ w, (k, w) ∈ es → ∃ w', (k, w') ∈ es') := by
  constructor
  · intro w' hw
    obtain ⟨i, hi⟩ := List.mem_iff_getElem?.1 (hp.mem_iff.2 hw)
    obtain ⟨⟨k₀, w⟩, hi'⟩ := partner hl.symm hi
    obtain ⟨rfl, hr⟩ := h i k₀ w k w' hi' hi
    exact ⟨w, List.mem_iff_getElem?.2 ⟨i, hi'⟩, hr⟩
  · intro w hw
    obtain ⟨i, hi⟩ := List.mem_iff_getElem?.1 hw
    obtain ⟨⟨k₀, w'⟩, hi'⟩ := partner hl hi
    obtain ⟨rfl, hr⟩ := h i k w k₀ w' hi hi'
    exact ⟨w', hp.mem_iff.1 (List.mem_iff_getElem?.2 ⟨i, hi'⟩)⟩

theorem filter_length {es : List (Str × Yaml)} : ∀ {es₁ : List (Str × Yaml)}, es.length = es₁.length →
    (∀ (i : Nat) (k : Str) (w : Yaml) (k' : Str) (w' : Yaml), es[i]? = some (k, w) → es₁[i]? = some (k', w') → k = k') → ∀ k : Str,
    (es.filter fun e => e.1 = k).length = (es₁.filter fun e => e.1 = k).length := by
  induction es with
  | nil => intro es₁ hl h k; cases es₁ with | nil => rfl | cons => simp at hl
  | cons e es ih =>
    intro es₁ hl h k
    match es₁ with
    | [] => simp at hl
    | e₁ :: es₁ =>
      have h0 : e.1 = e₁.1 := h 0 e.1 e.2 e₁.1 e₁.2 rfl rfl
      have := ih (es₁ := es₁) (by simpa using hl) (fun i k w k' w' h1 h2 => h (i + 1) k w k' w' (by simpa using h1) (by simpa using h2)) k
      simp only [List.filter_cons, h0]
      split <;> simp [this]

/-! ## what they mean -/

theorem variant_inv {y y' : Yaml} {n : Str} {c : Yaml} (h : Reordered y y') (hv : VariantParts y n c) : ∃ c', VariantParts y' n c' ∧ Reordered c c' := by
  cases hv with
  | name hs => rw [scalar_same h hs]; exact ⟨_, .name hs, .same⟩
  | entry hy =>
    obtain ⟨es₁, es', hy', hl, he, hp⟩ := map_inv h hy
    match es₁, hl with
    | [(k', w')], _ =>
      obtain ⟨rfl, hr⟩ := he 0 n c k' w' rfl rfl
      have : es' = [(n, w')] := List.perm_singleton.1 hp.symm
      exact ⟨w', .entry (this ▸ hy'), hr⟩

theorem decodes_reordered {Γ : Nat → Ty} {ty : Ty} {y : Yaml} {v : SVal} (h : Decodes Γ ty y v) : ∀ {y'}, Reordered y y' → ∃ v', Decodes Γ ty y' v' ∧ SameUpToOrder v v' := by
  induction h with
  | true h => intro y' hr; rw [scalar_same hr rfl]; exact ⟨_, .true h, .same⟩
  | false h => intro y' hr; rw [scalar_same hr rfl]; exact ⟨_, .false h, .same⟩
  | signed hk hy h hr => intro y' hr'; rw [scalar_same hr' hy]; exact ⟨_, .signed hk hy h hr, .same⟩
  | unsigned hk hy h hr => intro y' hr'; rw [scalar_same hr' hy]; exact ⟨_, .unsigned hk hy h hr, .same⟩
  | float hy h => intro y' hr'; rw [scalar_same hr' hy]; exact ⟨_, .float hy h, .same⟩
  | char hy => intro y' hr'; rw [scalar_same hr' hy]; exact ⟨_, .char hy, .same⟩
  | str hy => intro y' hr'; rw [scalar_same hr' hy]; exact ⟨_, .str hy, .same⟩
  | @bytes y ys bs hy hl h ih =>
    intro y' hr
    obtain ⟨ys', hy', hl', he⟩ := seq_inv hr hy
    refine ⟨_, .bytes hy' (hl' ▸ hl) fun w' b hm => ?_, .same⟩
    obtain ⟨i, h1, h2⟩ := mem_zip.1 hm
    obtain ⟨w, h3⟩ := partner hl'.symm h1
    obtain ⟨v', h4, h5⟩ := ih w b (mem_zip.2 ⟨i, h3, h2⟩) (he i w w' h3 h1)
    cases h5
    exact h4
  | unit => intro y' _; exact ⟨_, .unit, .same⟩
  | none h => intro y' hr; rw [scalar_same hr rfl]; exact ⟨_, .none h, .same⟩
  | some hn h ih =>
    intro y' hr
    obtain ⟨v', h1, h2⟩ := ih hr
    refine ⟨_, .some (fun s hs => ?_) h1, .some h2⟩
    subst hs
    exact hn s (scalar_same (Reordered.symm hr) rfl)
  | newtype h ih => intro y' hr; obtain ⟨v', h1, h2⟩ := ih hr; exact ⟨_, .newtype h1, .newtype h2⟩
  | @seq t y ys vs hy hl h ih =>
    intro y' hr
    obtain ⟨ys', hy', hl', he⟩ := seq_inv hr hy
    obtain ⟨vs', h1, h2⟩ := choice (n := ys'.length) (R := fun i v' => ∀ (w' : Yaml) (v : SVal), ys'[i]? = some w' → vs[i]? = some v → Decodes Γ t w' v' ∧ SameUpToOrder v v') (by
      intro i hi
      obtain ⟨w', hw'⟩ := get_of_lt hi
      obtain ⟨w, hw⟩ := partner hl'.symm hw'
      obtain ⟨v, hv⟩ := partner hl hw
      obtain ⟨v', h1, h2⟩ := ih w v (mem_zip.2 ⟨i, hw, hv⟩) (he i w w' hw hw')
      refine ⟨v', fun a b ha hb => ?_⟩
      rw [hw'] at ha; rw [hv] at hb
      cases ha; cases hb
      exact ⟨h1, h2⟩)
    refine ⟨.seq vs', .seq hy' h1.symm fun w' v' hm => ?_, .seq (by omega) fun i v v' hv hv' => ?_⟩
    · obtain ⟨i, h3, h4⟩ := mem_zip.1 hm
      obtain ⟨v, hv⟩ := partner (hl'.symm.trans hl) h3
      exact (h2 i v' h4 w' v h3 hv).1
    · obtain ⟨w', hw'⟩ := partner (hl.symm.trans hl') hv
      exact (h2 i v' hv' w' v hw' hv).2
  | @tuple ts y ys vs hy hl hv h ih =>
    intro y' hr
    obtain ⟨ys', hy', hl', he⟩ := seq_inv hr hy
    obtain ⟨vs', h1, h2⟩ := choice (n := ts.length) (R := fun i v' => ∀ (t : Ty) (w' : Yaml) (v : SVal), ts[i]? = some t → ys'[i]? = some w' → vs[i]? = some v →
        Decodes Γ t w' v' ∧ SameUpToOrder v v') (by
      intro i hi
      obtain ⟨t, ht⟩ := get_of_lt hi
      obtain ⟨w', hw'⟩ := get_of_lt (xs := ys') (i := i) (by omega)
      obtain ⟨w, hw⟩ := partner hl'.symm hw'
      obtain ⟨v, hv⟩ := partner hv.symm ht
      obtain ⟨v', h1, h2⟩ := ih t w v (mem_zip.2 ⟨i, ht, List.getElem?_zip_eq_some.2 ⟨hw, hv⟩⟩) (he i w w' hw hw')
      refine ⟨v', fun a b c ha hb hc => ?_⟩
      rw [ht] at ha; rw [hw'] at hb; rw [hv] at hc
      cases ha; cases hb; cases hc
      exact ⟨h1, h2⟩)
    refine ⟨.tuple vs', .tuple hy' (by omega) h1 fun t w' v' hm => ?_, .tuple (by omega) fun i v v' hv₁ hv' => ?_⟩
    · obtain ⟨i, h3, h4⟩ := mem_zip.1 hm
      obtain ⟨h4, h5⟩ := List.getElem?_zip_eq_some.1 h4
      obtain ⟨v, hv'⟩ := partner hv.symm h3
      exact (h2 i v' h5 t w' v h3 h4 hv').1
    · have hi := lt_of_get hv₁
      obtain ⟨t, ht⟩ := get_of_lt (xs := ts) (i := i) (by omega)
      obtain ⟨w', hw'⟩ := get_of_lt (xs := ys') (i := i) (by omega)
      exact (h2 i v' hv' t w' v ht hw' hv₁).2
  | @map kt vt y es vs hy hl hk hv ihk ihv =>
    intro y' hr
    obtain ⟨es₁, es', hy', hl', he, hp⟩ := map_inv hr hy
    obtain ⟨vs₁, h1, h2⟩ := choice (n := es₁.length) (R := fun i (e' : SVal × SVal) => ∀ (k : Str) (w' : Yaml) (a b : SVal), es₁[i]? = some (k, w') → vs[i]? = some (a, b) →
        e'.1 = a ∧ Decodes Γ kt (.unquotedString k) a ∧ Decodes Γ vt w' e'.2 ∧ SameUpToOrder b e'.2) (by
      intro i hi
      obtain ⟨⟨k', w'⟩, hw'⟩ := get_of_lt hi
      obtain ⟨⟨k, w⟩, hw⟩ := partner hl'.symm hw'
      obtain ⟨rfl, hr⟩ := he i k w k' w' hw hw'
      obtain ⟨⟨a, b⟩, hab⟩ := partner hl hw
      obtain ⟨b', h1, h2⟩ := ihv k w a b (mem_zip.2 ⟨i, hw, hab⟩) hr
      refine ⟨(a, b'), fun k₁ w₁ a₁ b₁ h3 h4 => ?_⟩
      rw [hw'] at h3; rw [hab] at h4
      cases h3; cases h4
      exact ⟨rfl, hk k w a b (mem_zip.2 ⟨i, hw, hab⟩), h1, h2⟩)
    obtain ⟨vs', h3, h4, h5⟩ := perm_zip hp vs₁ h1.symm
    have all : ∀ k w a b, ((k, w), (a, b)) ∈ es'.zip vs' → Decodes Γ kt (.unquotedString k) a ∧ Decodes Γ vt w b := by
      intro k w a b hm
      obtain ⟨i, h6, h7⟩ := mem_zip.1 (h5.mem_iff.2 hm)
      obtain ⟨⟨a₀, b₀⟩, hab⟩ := partner (hl'.symm.trans hl) h6
      obtain ⟨h8, h9, h10, -⟩ := h2 i (a, b) h7 k w a₀ b₀ h6 hab
      cases h8
      exact ⟨h9, h10⟩
    have both : ∀ (i : Nat) (e e' : SVal × SVal), vs[i]? = some e → vs₁[i]? = some e' → e.1 = e'.1 ∧ SameUpToOrder e.2 e'.2 := by
      intro i e e' h6 h7
      obtain ⟨⟨k, w⟩, h8⟩ := partner h1 h7
      obtain ⟨h9, -, -, h10⟩ := h2 i e' h7 k w e.1 e.2 h8 h6
      exact ⟨h9.symm, h10⟩
    exact ⟨.map vs', .map hy' h4 (fun k w a b hm => (all k w a b hm).1) fun k w a b hm => (all k w a b hm).2,
      .map (es₁ := vs₁) (by omega) (fun i e e' h6 h7 => (both i e e' h6 h7).1) (fun i e e' h6 h7 => (both i e e' h6 h7).2) h3⟩
  | @struct fs y es vs hy hn h1 hv hm hmv ih =>
    intro y' hr
    obtain ⟨es₁, es', hy', hl, he, hp⟩ := map_inv hr hy
    have hmem := fun k => entries_iff hl he hp k
    obtain ⟨xs, h2, h3⟩ := choice (n := vs.length) (R := fun i x => ∀ (k : Str) (v : SVal), vs[i]? = some (k, v) → SameUpToOrder v x ∧
        ((∀ w, (k, w) ∉ es) → x = v) ∧ ∀ t w', fs.lookup k = some t → (k, w') ∈ es' → Decodes Γ t w' x) (by
      intro i hi
      obtain ⟨⟨k, v⟩, hkv⟩ := get_of_lt hi
      have hkm : (k, v) ∈ vs := List.mem_iff_getElem?.2 ⟨i, hkv⟩
      by_cases hw : ∃ w', (k, w') ∈ es'
      · obtain ⟨w', hw'⟩ := hw
        obtain ⟨w, hw, hr⟩ := (hmem k).1 w' hw'
        have hkf : k ∈ fs.map (fun f => f.1) := hn ▸ List.mem_map.2 ⟨_, hkm, rfl⟩
        obtain ⟨⟨k₀, t₀⟩, hf, rfl⟩ := List.mem_map.1 hkf
        cases hlk : fs.lookup k₀ with
        | none =>
          have := List.lookup_eq_none_iff.1 hlk _ hf
          simp at this
        | some t =>
          obtain ⟨x, h4, h5⟩ := ih k₀ t w v hlk hw hkm hr
          refine ⟨x, fun k v₁ h6 => ?_⟩
          rw [hkv] at h6
          cases h6
          refine ⟨h5, fun h => absurd hw (h w), fun t₁ w₁ h7 h8 => ?_⟩
          rw [hlk] at h7
          cases h7
          have hlen : (es'.filter fun e => e.1 = k₀).length ≤ 1 := by
            rw [← (hp.filter _).length_eq, ← filter_length hl (fun i k w k' w' h h' => (he i k w k' w' h h').1) k₀]
            exact h1 k₀ t₀ hf
          have hone : w₁ = w' := by
            have m1 : (k₀, w₁) ∈ es'.filter fun e => e.1 = k₀ := by simp [h8]
            have m2 : (k₀, w') ∈ es'.filter fun e => e.1 = k₀ := by simp [hw']
            match hL : es'.filter fun e => e.1 = k₀ with
            | [] => rw [hL] at m1; simp at m1
            | [e] => rw [hL] at m1 m2; simp only [List.mem_singleton] at m1 m2; rw [← m2] at m1; cases m1; rfl
            | _ :: _ :: _ => rw [hL] at hlen; simp at hlen
          rw [hone]
          exact h4
      · refine ⟨v, fun k₁ v₁ h4 => ?_⟩
        rw [hkv] at h4
        cases h4
        exact ⟨.same, fun _ => rfl, fun t w' _ hw' => absurd ⟨w', hw'⟩ hw⟩)
    have hxs : ∀ k x, (k, x) ∈ (vs.map (fun v => v.1)).zip xs → ∃ v, (k, v) ∈ vs ∧ SameUpToOrder v x ∧ ((∀ w, (k, w) ∉ es) → x = v) ∧
        ∀ t w', fs.lookup k = some t → (k, w') ∈ es' → Decodes Γ t w' x := by
      intro k x hx
      obtain ⟨i, h4, h5⟩ := mem_zip.1 hx
      rw [List.getElem?_map] at h4
      cases h6 : vs[i]? with
      | none => rw [h6] at h4; cases h4
      | some e =>
        obtain ⟨k₀, v⟩ := e
        rw [h6] at h4
        simp only [Option.map_some, Option.some.injEq] at h4
        subst h4
        exact ⟨v, List.mem_iff_getElem?.2 ⟨i, h6⟩, h3 i x h5 k₀ v h6⟩
    have hnames : ((vs.map (fun v => v.1)).zip xs).map (fun v => v.1) = vs.map (fun v => v.1) := by
      have : ((vs.map (fun v => v.1)).zip xs).map Prod.fst = vs.map (fun v => v.1) := List.map_fst_zip (by simp [h2])
      exact this
    refine ⟨.struct ((vs.map (fun v => v.1)).zip xs), .struct hy' (hnames.trans hn) (fun k t hf => ?_) (fun k t w x hlk hw hx => ?_) (fun k t hf hno => ?_)
      (fun k x hx hno => ?_), .struct hnames.symm fun i v v' h4 h5 => ?_⟩
    · rw [← (hp.filter _).length_eq, ← filter_length hl (fun i k w k' w' h h' => (he i k w k' w' h h').1) k]
      exact h1 k t hf
    · obtain ⟨v, -, -, -, h4⟩ := hxs k x hx
      exact h4 t w hlk hw
    · exact hm k t hf fun w hw => by obtain ⟨w', hw'⟩ := (hmem k).2 w hw; exact hno w' hw'
    · have hno' : ∀ w, (k, w) ∉ es := fun w hw => by obtain ⟨w', hw'⟩ := (hmem k).2 w hw; exact hno w' hw'
      obtain ⟨v, h4, -, h5, -⟩ := hxs k x hx
      rw [h5 hno']
      exact hmv k v h4 hno'
    · obtain ⟨k', x⟩ := v'
      obtain ⟨h6, h7⟩ := List.getElem?_zip_eq_some.1 h5
      exact (h3 i x h7 v.1 v.2 h4).1
  | unitVariant hy hl => intro y' hr; obtain ⟨c', h1, -⟩ := variant_inv hr hy; exact ⟨_, .unitVariant h1 hl, .same⟩
  | newtypeVariant hy hl h ih =>
    intro y' hr
    obtain ⟨c', h1, h2⟩ := variant_inv hr hy
    obtain ⟨v', h3, h4⟩ := ih h2
    exact ⟨_, .newtypeVariant h1 hl h3, .newtypeVariant h4⟩
  | tupleVariant hy hl h ih =>
    intro y' hr
    obtain ⟨c', h1, h2⟩ := variant_inv hr hy
    obtain ⟨v', h3, h4⟩ := ih h2
    cases h3 with | tuple a b c d => exact ⟨_, .tupleVariant h1 hl (.tuple a b c d), .tupleVariant h4⟩
  | structVariant hy hl h ih =>
    intro y' hr
    obtain ⟨c', h1, h2⟩ := variant_inv hr hy
    obtain ⟨v', h3, h4⟩ := ih h2
    cases h3 with | struct a b c d e f => exact ⟨_, .structVariant h1 hl (.struct a b c d e f), .structVariant h4⟩
  | anyNull h => intro y' hr; rw [scalar_same hr rfl]; exact ⟨_, .anyNull h, .same⟩
  | anyTrue => intro y' hr; rw [scalar_same hr rfl]; exact ⟨_, .anyTrue, .same⟩
  | anyFalse => intro y' hr; rw [scalar_same hr rfl]; exact ⟨_, .anyFalse, .same⟩
  | anyInt h => intro y' hr; rw [scalar_same hr rfl]; exact ⟨_, .anyInt h, .same⟩
  | anyFloat hi h => intro y' hr; rw [scalar_same hr rfl]; exact ⟨_, .anyFloat hi h, .same⟩
  | anyPlain hn ht hf hi h => intro y' hr; rw [scalar_same hr rfl]; exact ⟨_, .anyPlain hn ht hf hi h, .same⟩
  | anyText hp hy => intro y' hr; rw [scalar_same hr hy]; exact ⟨_, .anyText hp hy, .same⟩
  | anySeq h ih =>
    intro y' hr
    obtain ⟨v', h1, h2⟩ := ih hr
    cases h1 with | seq a b c => exact ⟨_, .anySeq (.seq a b c), h2⟩
  | anyMap h ih =>
    intro y' hr
    obtain ⟨v', h1, h2⟩ := ih hr
    cases h1 with | map a b c d => exact ⟨_, .anyMap (.map a b c d), h2⟩
  | ignored => intro y' _; exact ⟨_, .ignored, .same⟩
  | ref h ih => intro y' hr; obtain ⟨v', h1, h2⟩ := ih hr; exact ⟨_, .ref h1, h2⟩

/-! ## values without maps -/

theorem lists_eq {α : Type} {xs ys : List α} (hl : xs.length = ys.length) (h : ∀ (i : Nat) (a b : α), xs[i]? = some a → ys[i]? = some b → a = b) : xs = ys := by
  refine List.ext_getElem? fun i => ?_
  cases h1 : xs[i]? with
  | none =>
    cases h2 : ys[i]? with
    | none => rfl
    | some b => obtain ⟨a, h3⟩ := partner hl.symm h2; rw [h1] at h3; cases h3
  | some a =>
    obtain ⟨b, h2⟩ := partner hl h1
    rw [h2, h i a b h1 h2]

theorem same_eq {v v' : SVal} (h : SameUpToOrder v v') : NoMaps v → v = v' := by
  induction h with
  | same => intro _; rfl
  | some h ih => intro hn; cases hn with | some hn => rw [ih hn]
  | newtype h ih => intro hn; cases hn with | newtype hn => rw [ih hn]
  | newtypeVariant h ih => intro hn; cases hn with | newtypeVariant hn => rw [ih hn]
  | tupleVariant h ih => intro hn; cases hn with | tupleVariant hn => have := ih (.tuple hn); cases this; rfl
  | structVariant h ih => intro hn; cases hn with | structVariant hn => have := ih (.struct hn); cases this; rfl
  | seq hl h ih =>
    intro hn
    cases hn with
    | seq hn => rw [lists_eq hl fun i a b h1 h2 => ih i a b h1 h2 (hn a (List.mem_iff_getElem?.2 ⟨i, h1⟩))]
  | tuple hl h ih =>
    intro hn
    cases hn with
    | tuple hn => rw [lists_eq hl fun i a b h1 h2 => ih i a b h1 h2 (hn a (List.mem_iff_getElem?.2 ⟨i, h1⟩))]
  | @struct vs vs' hk h ih =>
    intro hn
    cases hn with
    | struct hn =>
      refine congrArg SVal.struct (lists_eq (by simpa using congrArg List.length hk) fun i a b h1 h2 => ?_)
      have h3 : (vs.map (fun v => v.1))[i]? = some a.1 := by simp [h1]
      rw [hk] at h3
      have h4 : b.1 = a.1 := by simpa [h2] using h3
      have := ih i a b h1 h2 (hn a.1 a.2 (List.mem_iff_getElem?.2 ⟨i, h1⟩))
      exact Prod.ext h4.symm this
  | @map es es₁ es' hl hk h hp ih =>
    intro hn
    cases hn with
    | map hlen hn =>
      have h1 : es = es₁ := lists_eq hl fun i a b h1 h2 => Prod.ext (hk i a b h1 h2) (ih i a b h1 h2 (hn a.1 a.2 (List.mem_iff_getElem?.2 ⟨i, h1⟩)))
      subst h1
      match es, hlen with
      | [], _ => rw [List.nil_perm.1 hp]
      | [e], _ => rw [List.perm_singleton.1 hp.symm]

end YamlSubset.Ord
