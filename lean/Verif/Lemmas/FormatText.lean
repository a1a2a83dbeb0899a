import Verif.Lemmas.LayFlow
import Verif.Spec.Written
import Verif.Spec.FoldedNodes
import Verif.Model.Format
import Verif.Lemmas.RoundTripExact

/-! # The formatted text of a readable document shows it

`Written` (Spec/Written.lean) describes every layout; the layout that the formatter chooses is one of them. -/

namespace YamlSubset

open Spec

variable {T : CharTables}

namespace Fmt

/-! ## values on one line -/

theorem inlineElements_false (es : List Yaml) (h : es ≠ []) : formatInlineElements false es = ',' :: formatInlineElements true es := by
  cases es with
  | nil => exact absurd rfl h
  | cons e t => simp [formatInlineElements]

theorem inlineEntries_false (es : List (Str × Yaml)) (h : es ≠ []) : formatInlineEntries false es = ',' :: formatInlineEntries true es := by
  cases es with
  | nil => exact absurd rfl h
  | cons e t => obtain ⟨k, v⟩ := e; simp [formatInlineEntries]

theorem ws_nil : Ws [] := fun c hc => by simp at hc

theorem ws_space : Ws [' '] := fun c hc => by simp at hc; exact .inl hc

theorem flow_elements (es : List Yaml) (h0 : es ≠ []) (h : ∀ v ∈ es, ∃ x, v.format 0 none = ' ' :: x ∧ FlowText T v x) :
    FlowElements (FlowText T) es (formatInlineElements true es ++ [' ']) := by
  induction es with
  | nil => exact absurd rfl h0
  | cons v t ih =>
    obtain ⟨x, hx, hf⟩ := h v (by simp)
    by_cases ht : t = []
    · subst ht
      have := FlowElements.last (P := FlowText T) ws_space hf ws_space
      simpa [formatInlineElements, hx] using this
    · have := FlowElements.more (P := FlowText T) ws_space hf ws_nil (ih ht fun v hv => h v (by simp [hv]))
      simpa [formatInlineElements, hx, inlineElements_false t ht] using this

theorem flow_entries (es : List (Str × Yaml)) (h0 : es ≠ []) (hk : ∀ k v, (k, v) ∈ es → KeyText T k)
    (h : ∀ k v, (k, v) ∈ es → ∃ x, v.format 0 none = ' ' :: x ∧ FlowText T v x) :
    FlowEntries T (FlowText T) es (formatInlineEntries true es ++ [' ']) := by
  induction es with
  | nil => exact absurd rfl h0
  | cons e t ih =>
    obtain ⟨k, v⟩ := e
    obtain ⟨x, hx, hf⟩ := h k v (by simp)
    by_cases ht : t = []
    · subst ht
      have := FlowEntries.last (P := FlowText T) ws_space (hk k v (by simp)) ws_nil ws_space hf ws_space
      simpa [formatInlineEntries, hx] using this
    · have := FlowEntries.more (P := FlowText T) ws_space (hk k v (by simp)) ws_nil ws_space hf ws_nil
        (ih ht (fun k v hv => hk k v (by simp [hv])) fun k v hv => h k v (by simp [hv]))
      simpa [formatInlineEntries, hx, inlineEntries_false t ht] using this

theorem flow_text {y : Yaml} (h : Flow T y) : ∀ n par, ∃ x, y.format n par = ' ' :: x ∧ FlowText T y x := by
  induction h with
  | @hash es keys values ih =>
    intro n par
    by_cases h0 : es = []
    · subst h0; exact ⟨['{', '}'], by simp [Yaml.format, formatInlineEntries], .emptyHash ws_nil⟩
    · refine ⟨_, ?_, .hash (flow_entries es h0 keys fun k v hv => ih k v hv 0 none)⟩
      simp [Yaml.format, h0]
  | @array es h ih =>
    intro n par
    by_cases h0 : es = []
    · subst h0; exact ⟨['[', ']'], by simp [Yaml.format, formatInlineElements], .emptyArray ws_nil⟩
    · refine ⟨_, ?_, .array (flow_elements es h0 fun v hv => ih v hv 0 none)⟩
      simp [Yaml.format, h0]
  | plain h => exact fun _ _ => ⟨_, rfl, .plain h⟩
  | @double ps h => exact fun _ _ => ⟨_, by simp [Yaml.format, Lay.dqText_eq], .double h⟩
  | @single ps h => exact fun _ _ => ⟨_, by simp [Yaml.format, Lay.sqText_eq], .single h⟩
  | reference h => exact fun _ _ => ⟨_, rfl, .reference h⟩

theorem scalar_text {y : Yaml} (h : OneLine T y) (hc : Commentable y) (n par) : ∃ x, y.format n par = ' ' :: x ∧ ScalarText T y x := by
  cases h with
  | plain h => exact ⟨_, rfl, .plain h hc⟩
  | hash h => obtain ⟨x, h1, h2⟩ := flow_text h n par; exact ⟨x, h1, .flow (by simp) h2⟩
  | array h => obtain ⟨x, h1, h2⟩ := flow_text h n par; exact ⟨x, h1, .flow (by simp) h2⟩
  | double h => obtain ⟨x, h1, h2⟩ := flow_text (.double h) n par; exact ⟨x, h1, .flow (by simp) h2⟩
  | single h => obtain ⟨x, h1, h2⟩ := flow_text (.single h) n par; exact ⟨x, h1, .flow (by simp) h2⟩
  | reference h => obtain ⟨x, h1, h2⟩ := flow_text (.reference h) n par; exact ⟨x, h1, .flow (by simp) h2⟩

/-! ## block scalars -/

theorem block_rest (w : Nat) (ls : List Str) (h : ∀ l ∈ ls, LineText l) :
    BlockRest w .scalar ls (ls.flatMap fun l => '\n' :: (indent w ++ l)) := by
  induction ls with
  | nil => exact .nil
  | cons l t ih =>
    have := BlockRest.line (w := w) (n := 0) (.inl rfl) (h l (by simp)) (ih fun l hl => h l (by simp [hl]))
    simpa [pad, indent] using this

theorem write_mark (c : BlockChomping) : c.write = chompingMark c := by cases c <;> rfl

theorem block_scalar {flush : Bool} {ls : List Str} (h : BlockLines flush ls) (ind : Char) (c : BlockChomping) {t s : Nat} (ht : t ≤ s)
    (hf : flush = true → t = s) : ∃ x, formatBlockLines ind ls c (s + 2) = ' ' :: ind :: x ∧ BlockScalarText t .scalar ls c x := by
  obtain ⟨hl, l, rest, rfl, h⟩ := h
  have hw : t + 1 + (s + 1 - t) = s + 2 := by omega
  have hrest := block_rest (s + 2) rest fun l hm => hl l (by simp [hm])
  rcases h with ⟨ch, u, rfl, hch⟩ | ⟨hfl, hsp, hnb⟩
  · have hne : startsWithChar (ch :: u) ' ' = false := by
      cases hs : startsWithChar (ch :: u) ' ' with
      | false => rfl
      | true =>
        simp [startsWithChar] at hs
        subst hs
        revert hch; decide +kernel
    refine ⟨_, ?_, .plain (t := t) (m := 0) (nl := ['\n']) (d := s + 1 - t) (.inl rfl) (hl (ch :: u) (by simp)) ⟨ch, u, rfl, hch⟩ (by rw [hw]; exact hrest)⟩
    rw [hw]
    simp [formatBlockLines, hne, write_mark, pad, indent]
  · obtain rfl := hf hfl
    have hst : startsWithChar l ' ' = true := by simp [startsWithChar, hsp]
    refine ⟨_, ?_, .indicated (t := t) (digit := '2') (m := 0) (nl := ['\n']) (d := 1) (.inl rfl) (hl l (by simp)) hnb ⟨by omega, by decide⟩ (by exact hrest)⟩
    simp [formatBlockLines, hst, write_mark, pad, indent]

/-! ## places -/

/-- What the formatter writes after the colon of a key, or a dash, in column `s`. -/
def valueText (s : Nat) (par : Parent) (v : AliasedYaml) : Str :=
  match v.alias with
  | some a => [' ', '&'] ++ a ++ Yaml.format (s + 2) none v.value
  | none => Yaml.format (s + 2) (some par) v.value

def parentOf : Holder → Parent
  | .key => .hash
  | .dash => .array

def kindOf : LineKind → Next
  | .none => .none
  | .key _ => .key
  | .dash => .dash

/-- The place, as the two descriptions of texts see it. -/
def Suits (p : Place) (t : Option Nat) (next : LineKind) (s : Nat) : Prop :=
  (p.deep = false → ∃ t0, t = some t0 ∧ t0 ≤ s ∧ (p.flush = true → t0 = s)) ∧ p.next = kindOf next

theorem lead_of {a : Option Str} (ha : ∀ n, a = some n → NameText T n) (hold : Holder) (s : Nat) (y : Yaml) :
    ∃ lead par, Lead T a lead ∧ ∀ x, y.format (s + 2) par = ' ' :: x → valueText s (parentOf hold) ⟨a, y⟩ = lead ++ x := by
  cases a with
  | none => exact ⟨pad 1, some (parentOf hold), .plain, fun x hx => by simp [valueText, hx, pad]⟩
  | some n => exact ⟨_, none, .named (n := 0) (m := 0) (ha n rfl), fun x hx => by simp [valueText, hx, pad]⟩

theorem inner_lead {hold : Holder} {a : Option Str} (hp : hold = .dash ∨ a.isSome = true) (ha : ∀ n, a = some n → NameText T n) (s : Nat) :
    ∃ lead, InnerLead T hold a s (s + 2) lead ∧
      (∀ k v ds, valueText s (parentOf hold) ⟨a, .hash (.element ⟨k, v⟩ :: ds)⟩ =
        lead ++ k ++ ':' :: (valueText (s + 2) .hash v ++ formatHash (s + 2) none false ds)) ∧
      ∀ v ds, valueText s (parentOf hold) ⟨a, .array (.element v :: ds)⟩ =
        lead ++ '-' :: (valueText (s + 2) .array v ++ formatArray (s + 2) none false ds) := by
  have hpar : ∀ par ds, formatHash (s + 2) par false ds = formatHash (s + 2) none false ds := by
    intro par ds
    induction ds with
    | nil => rfl
    | cons d t ih =>
      cases d with
      | element e => obtain ⟨k, ⟨b, v⟩⟩ := e; simp [formatHash, ih]
      | _ => simp [formatHash, ih]
  have hpar' : ∀ par ds, formatArray (s + 2) par false ds = formatArray (s + 2) none false ds := by
    intro par ds
    induction ds with
    | nil => rfl
    | cons d t ih =>
      cases d with
      | element e => obtain ⟨b, v⟩ := e; simp [formatArray, ih]
      | _ => simp [formatArray, ih]
  cases a with
  | none =>
    obtain rfl : hold = .dash := by simpa using hp
    refine ⟨pad 1, .dash (n := 0), ?_, ?_⟩
    · rintro k ⟨b, v⟩ ds
      cases b <;> simp [valueText, parentOf, Yaml.format, formatHash, pad, hpar (some Parent.array)]
    · rintro ⟨b, v⟩ ds
      cases b <;> simp [valueText, parentOf, Yaml.format, formatArray, pad, hpar' (some Parent.array)]
  | some n =>
    refine ⟨_, .named (n := 0) (m := 0) (nl := ['\n']) (b := []) (ha n rfl) (.inl rfl) .nil, ?_, ?_⟩
    · rintro k ⟨b, v⟩ ds
      cases b <;> simp [valueText, Yaml.format, formatHash, pad, indent]
    · rintro ⟨b, v⟩ ds
      cases b <;> simp [valueText, Yaml.format, formatArray, pad, indent]

/-- The claim about a value. -/
def ValueShown (T : CharTables) (y : Yaml) : Prop :=
  ∀ p hold named, Readable T p hold named y → (∀ z, InBlock z y → Commentable z) → ∀ t next s a, Suits p t next s → a.isSome = named →
    (∀ n, a = some n → NameText T n) → ∃ cl, cl ≠ .blanks ∧ Written T t next s hold cl ⟨a, y⟩ (valueText s (parentOf hold) ⟨a, y⟩)

theorem item_comment {a : Option Str} {y : Yaml} {c : Str} (ha : ∀ n, a = some n → NameText T n) (hv : OneLine T y) (hv' : Commentable y)
    (hc : LineText c) (t : Option Nat) (next : LineKind) (s : Nat) (hold : Holder) :
    ItemText T (Written T) t next s hold .comment ⟨a, y⟩ [c] (valueText s (parentOf hold) ⟨a, y⟩ ++ [' ', '#'] ++ c) := by
  obtain ⟨lead, par, hl, hx⟩ := lead_of ha hold s y
  obtain ⟨x, h1, h2⟩ := scalar_text hv hv' (s + 2) par
  have := ItemText.comment (P := Written T) (t := t) (next := next) (s := s) (hold := hold) (n := 0) hl h2 hc
  rw [hx x h1]
  simpa [pad] using this

/-- Comment lines as the formatter writes them. -/
theorem comment_lines_le {c : Nat} {cs : List Str} : ∀ {m : Nat} {y : Str},
    (cs.flatMap fun l => pad c ++ '#' :: (l ++ ['\n'])) = pad m ++ '#' :: y → m ≤ c := by
  intro m y h
  cases cs with
  | nil => exfalso; simp at h
  | cons l t =>
    obtain ⟨z, hz⟩ : ∃ z, pad c ++ '#' :: z = pad m ++ '#' :: y := ⟨_, by simpa using h⟩
    clear h
    have h := hz
    clear hz
    induction m generalizing c with
    | zero => omega
    | succ m ih =>
      cases c with
      | zero => simp [pad, List.replicate_succ] at h
      | succ c =>
        simp only [pad, List.replicate_succ, List.cons_append, List.cons.injEq, true_and] at h
        have := ih (c := c) h
        omega

theorem comment_lines (c : Nat) {cs : List Str} (h : ∀ l ∈ cs, LineText l) :
    CommentLines cs (cs.flatMap fun l => pad c ++ '#' :: (l ++ ['\n'])) := by
  induction cs with
  | nil => exact .nil
  | cons l t ih =>
    have := CommentLines.line (m := c) (nl := ['\n']) (b := []) (h l (by simp)) (.inl rfl) .nil (ih fun l hl => h l (by simp [hl]))
    simpa using this

theorem gap_lines (cl : Closing) (c : Nat) {cs : List Str} (h : ∀ l ∈ cs, LineText l) :
    Gap cl c cs ('\n' :: cs.flatMap fun l => pad c ++ '#' :: (l ++ ['\n'])) := by
  have := Gap.intro (cl := cl) (c := c) (n := 0) (nl := ['\n']) (b := []) (.inl rfl) .nil (comment_lines c h) (fun _ => rfl)
    fun _ => ⟨rfl, fun m y => comment_lines_le⟩
  simpa [pad] using this

/-! ## collections -/

theorem entries_shown {next : Next} {ds : List HashData} (h : Entries T (Readable T) next ds)
    (ih : ∀ k a v, HashData.element ⟨k, ⟨a, v⟩⟩ ∈ ds → ValueShown T v)
    (hc : ∀ k a v, HashData.element ⟨k, ⟨a, v⟩⟩ ∈ ds → ∀ z, InBlock z v → Commentable z) (c : Nat) (lk : LineKind) (hk : next = kindOf lk) :
    ∃ (cs : List Str) (e : _) (ds' : _) (x : Str) (cl : Closing), ds = cs.map .comment ++ .element e :: ds' ∧ (∀ l ∈ cs, LineText l) ∧ cl ≠ .blanks ∧
      EntryTexts T (Written T) c lk cl (.element e :: ds') x ∧
      formatHash c none false ds = '\n' :: ((cs.flatMap fun l => pad c ++ '#' :: (l ++ ['\n'])) ++ pad c ++ x) := by
  have hel : ∀ k a v t, formatHash c none false (.element ⟨k, ⟨a, v⟩⟩ :: t) =
      '\n' :: (pad c ++ (k ++ ':' :: (valueText c .hash ⟨a, v⟩ ++ formatHash c none false t))) := by
    intro k a v t
    cases a <;> simp [formatHash, valueText, pad, indent]
  induction h with
  | @comment next cm ds hl h ih' =>
    obtain ⟨cs, e, ds', x, cl, h1, h2, h3, h4, h5⟩ := ih' (fun k a v hm => ih k a v (by simp [hm])) (fun k a v hm => hc k a v (by simp [hm])) hk
    refine ⟨cm :: cs, e, ds', x, cl, by simp [h1], ?_, h3, h4, ?_⟩
    · intro l hm
      rcases List.mem_cons.1 hm with rfl | hm
      · exact hl
      · exact h2 l hm
    · simp [formatHash, h5, pad, indent]
  | @last next k a v hkey ha hv =>
    obtain ⟨cl, h1, h2⟩ := ih k a v (by simp) _ _ _ hv (hc k a v (by simp)) (some c) lk c a ⟨fun _ => ⟨c, rfl, Nat.le_refl c, fun _ => rfl⟩, hk⟩ rfl ha
    refine ⟨[], _, [], _, cl, rfl, by simp, h1, .last (n := 0) hkey (.value h2), ?_⟩
    rw [hel]; simp [pad, formatHash, parentOf]
  | @lastComment next k a v cm hkey ha hv hv' hcm =>
    refine ⟨[], _, [.inlineComment cm], _, .comment, rfl, by simp, by simp, .last (n := 0) (post := [cm]) hkey (item_comment ha hv hv' hcm _ _ _ _), ?_⟩
    rw [hel]; simp [pad, formatHash, parentOf]
  | @entry next k a v ds hkey ha hv h ih' =>
    obtain ⟨cl', h1, h2⟩ := ih k a v (by simp) _ _ _ hv (hc k a v (by simp)) (some c) (.key c) c a ⟨fun _ => ⟨c, rfl, Nat.le_refl c, fun _ => rfl⟩, rfl⟩ rfl ha
    obtain ⟨cs, e, ds', x, cl, h3, h4, h5, h6, h7⟩ := ih' (fun k a v hm => ih k a v (by simp [hm])) (fun k a v hm => hc k a v (by simp [hm])) hk
    have := EntryTexts.more (n := 0) hkey (.value h2) (gap_lines cl' c h4) h6
    refine ⟨[], _, _, k ++ ':' :: (valueText c .hash ⟨a, v⟩ ++ ('\n' :: ((cs.flatMap fun l => pad c ++ '#' :: (l ++ ['\n'])) ++ pad c ++ x))), cl, rfl, by simp, h5, ?_, ?_⟩
    · subst h3
      simpa [pad, parentOf] using this
    · rw [hel, h7]
      simp [pad]
  | @entryComment next k a v cm ds hkey ha hv hv' hcm h ih' =>
    obtain ⟨cs, e, ds', x, cl, h3, h4, h5, h6, h7⟩ := ih' (fun k a v hm => ih k a v (by simp [hm])) (fun k a v hm => hc k a v (by simp [hm])) hk
    have := EntryTexts.more (n := 0) (post := [cm]) hkey (item_comment ha hv hv' hcm (some c) (.key c) c .key) (gap_lines .comment c h4) h6
    refine ⟨[], _, _, k ++ ':' :: (valueText c .hash ⟨a, v⟩ ++ [' ', '#'] ++ cm ++ ('\n' :: ((cs.flatMap fun l => pad c ++ '#' :: (l ++ ['\n'])) ++ pad c ++ x))), cl, rfl, by simp, h5, ?_, ?_⟩
    · subst h3
      simpa [pad, parentOf] using this
    · rw [hel]
      simp [pad, formatHash, h7]

theorem elements_shown {next : Next} {ds : List ArrayData} (h : Elements T (Readable T) next ds)
    (ih : ∀ a v, ArrayData.element ⟨a, v⟩ ∈ ds → ValueShown T v)
    (hc : ∀ a v, ArrayData.element ⟨a, v⟩ ∈ ds → ∀ z, InBlock z v → Commentable z) (c : Nat) (lk : LineKind) (hk : next = kindOf lk) :
    ∃ (cs : List Str) (e : _) (ds' : _) (x : Str) (cl : Closing), ds = cs.map .comment ++ .element e :: ds' ∧ (∀ l ∈ cs, LineText l) ∧ cl ≠ .blanks ∧
      ElementTexts T (Written T) c lk cl (.element e :: ds') x ∧
      formatArray c none false ds = '\n' :: ((cs.flatMap fun l => pad c ++ '#' :: (l ++ ['\n'])) ++ pad c ++ x) := by
  have hel : ∀ a v t, formatArray c none false (.element ⟨a, v⟩ :: t) =
      '\n' :: (pad c ++ ('-' :: (valueText c .array ⟨a, v⟩ ++ formatArray c none false t))) := by
    intro a v t
    cases a <;> simp [formatArray, valueText, pad, indent]
  induction h with
  | @comment next cm ds hl h ih' =>
    obtain ⟨cs, e, ds', x, cl, h1, h2, h3, h4, h5⟩ := ih' (fun a v hm => ih a v (by simp [hm])) (fun a v hm => hc a v (by simp [hm])) hk
    refine ⟨cm :: cs, e, ds', x, cl, by simp [h1], ?_, h3, h4, ?_⟩
    · intro l hm
      rcases List.mem_cons.1 hm with rfl | hm
      · exact hl
      · exact h2 l hm
    · simp [formatArray, h5, pad, indent]
  | @last next a v ha hv =>
    obtain ⟨cl, h1, h2⟩ := ih a v (by simp) _ _ _ hv (hc a v (by simp)) (some c) lk c a ⟨fun _ => ⟨c, rfl, Nat.le_refl c, fun _ => rfl⟩, hk⟩ rfl ha
    refine ⟨[], _, [], _, cl, rfl, by simp, h1, .last (.value h2), ?_⟩
    rw [hel]; simp [pad, formatArray, parentOf]
  | @lastComment next a v cm ha hv hv' hcm =>
    refine ⟨[], _, [.inlineComment cm], _, .comment, rfl, by simp, by simp, .last (post := [cm]) (item_comment ha hv hv' hcm _ _ _ _), ?_⟩
    rw [hel]; simp [pad, formatArray, parentOf]
  | @element next a v ds ha hv h ih' =>
    obtain ⟨cl', h1, h2⟩ := ih a v (by simp) _ _ _ hv (hc a v (by simp)) (some c) .dash c a ⟨fun _ => ⟨c, rfl, Nat.le_refl c, fun _ => rfl⟩, rfl⟩ rfl ha
    obtain ⟨cs, e, ds', x, cl, h3, h4, h5, h6, h7⟩ := ih' (fun a v hm => ih a v (by simp [hm])) (fun a v hm => hc a v (by simp [hm])) hk
    have := ElementTexts.more (.value h2) (gap_lines cl' c h4) h6
    refine ⟨[], _, _, '-' :: (valueText c .array ⟨a, v⟩ ++ ('\n' :: ((cs.flatMap fun l => pad c ++ '#' :: (l ++ ['\n'])) ++ pad c ++ x))), cl, rfl, by simp, h5, ?_, ?_⟩
    · subst h3
      simpa [pad, parentOf] using this
    · rw [hel, h7]
      simp [pad]
  | @elementComment next a v cm ds ha hv hv' hcm h ih' =>
    obtain ⟨cs, e, ds', x, cl, h3, h4, h5, h6, h7⟩ := ih' (fun a v hm => ih a v (by simp [hm])) (fun a v hm => hc a v (by simp [hm])) hk
    have := ElementTexts.more (post := [cm]) (item_comment ha hv hv' hcm (some c) .dash c .dash) (gap_lines .comment c h4) h6
    refine ⟨[], _, _, '-' :: (valueText c .array ⟨a, v⟩ ++ [' ', '#'] ++ cm ++ ('\n' :: ((cs.flatMap fun l => pad c ++ '#' :: (l ++ ['\n'])) ++ pad c ++ x))), cl, rfl, by simp, h5, ?_, ?_⟩
    · subst h3
      simpa [pad, parentOf] using this
    · rw [hel]
      simp [pad, formatArray, h7]

/-! ## values -/

theorem formatHash_par (c : Nat) (ds : List HashData) : ∀ {par : Option Parent} {first : Bool}, (first = true → par ≠ some .array) →
    formatHash c par first ds = formatHash c none false ds := by
  induction ds with
  | nil => intros; rfl
  | cons d t ih =>
    intro par first h
    have ht := ih (par := par) (first := false) (by simp)
    cases d with
    | element e =>
      obtain ⟨k, ⟨b, v⟩⟩ := e
      cases first with
      | false => simp [formatHash, ht]
      | true => simp [formatHash, ht, h rfl]
    | _ => simp [formatHash, ht]

theorem formatArray_par (c : Nat) (ds : List ArrayData) : ∀ {par : Option Parent} {first : Bool}, (first = true → par ≠ some .array) →
    formatArray c par first ds = formatArray c none false ds := by
  induction ds with
  | nil => intros; rfl
  | cons d t ih =>
    intro par first h
    have ht := ih (par := par) (first := false) (by simp)
    cases d with
    | element e =>
      obtain ⟨b, v⟩ := e
      cases first with
      | false => simp [formatArray, ht]
      | true => simp [formatArray, ht, h rfl]
    | _ => simp [formatArray, ht]

theorem value_shown (y : Yaml) : ValueShown T y := by
  induction y using childRec with
  | h y ih =>
    intro p hold named hr hc t next s a hs ha hn
    have hhash : ∀ ds : List HashData, y = .hash ds → (∀ k b v, HashData.element ⟨k, ⟨b, v⟩⟩ ∈ ds → ValueShown T v) ∧
        ∀ k b v, HashData.element ⟨k, ⟨b, v⟩⟩ ∈ ds → ∀ z, InBlock z v → Commentable z := by
      rintro ds rfl
      exact ⟨fun k b v hm => ih v (.hash hm), fun k b v hm z hz => hc z (.hash hm hz)⟩
    have harray : ∀ ds : List ArrayData, y = .array ds → (∀ b v, ArrayData.element ⟨b, v⟩ ∈ ds → ValueShown T v) ∧
        ∀ b v, ArrayData.element ⟨b, v⟩ ∈ ds → ∀ z, InBlock z v → Commentable z := by
      rintro ds rfl
      exact ⟨fun b v hm => ih v (.array hm), fun b v hm z hz => hc z (.array hm hz)⟩
    cases hr with
    | oneLine h =>
      obtain ⟨lead, par, hl, hx⟩ := lead_of hn hold s y
      obtain ⟨x, h1, h2⟩ := scalar_text h (hc y .here) (s + 2) par
      exact ⟨.loose, by simp, by rw [hx x h1]; exact .scalar hl h2⟩
    | @literal _ _ _ ls c hd h =>
      obtain ⟨t0, rfl, h1, h2⟩ := hs.1 hd
      obtain ⟨lead, par, hl, hx⟩ := lead_of hn hold s (.literalString ls c)
      obtain ⟨x, h3, h4⟩ := block_scalar h '|' c h1 h2
      exact ⟨.scalar, by simp, by rw [hx ('|' :: x) (by simpa [Yaml.format] using h3)]; exact .literal hl h4⟩
    | @folded _ _ _ ls c hd h =>
      obtain ⟨t0, rfl, h1, h2⟩ := hs.1 hd
      obtain ⟨lead, par, hl, hx⟩ := lead_of hn hold s (.foldedString ls c)
      obtain ⟨x, h3, h4⟩ := block_scalar h '>' c h1 h2
      exact ⟨.scalar, by simp, by rw [hx ('>' :: x) (by simpa [Yaml.format] using h3)]; exact .folded hl h4⟩
    | @hash _ ds h =>
      obtain rfl : a = none := by simpa using ha
      obtain ⟨i1, i2⟩ := hhash ds rfl
      obtain ⟨cs, e, ds', x, cl, rfl, h2, h3, h4, h5⟩ := entries_shown h i1 i2 (s + 2) next hs.2
      refine ⟨cl, h3, ?_⟩
      have := Written.hash (t := t) (s := s) (by omega) (.nextLine (T := T) (map := true) (nl := ['\n']) (b := []) (.inl rfl) .nil (comment_lines (s + 2) h2)) h4
      simpa [valueText, Yaml.format, parentOf, formatHash_par, h5] using this
    | @hashNamed _ _ cm ds h =>
      obtain ⟨n, rfl⟩ := Option.isSome_iff_exists.1 ha
      obtain ⟨i1, i2⟩ := hhash _ rfl
      obtain ⟨cs, e, ds', x, cl, h1, h2, h3, h4, h5⟩ := entries_shown h i1 i2 (s + 2) next hs.2
      refine ⟨cl, h3, ?_⟩
      have hcs : cs ≠ [] := by
        rintro rfl
        simp at h1
      have := Written.hash (t := t) (s := s) (by omega) (.named (T := T) (hold := hold) (n := 0) (m := 0) (nl := ['\n']) (hn n rfl) (.inl rfl) hcs (comment_lines (s + 2) h2)) h4
      rw [← h1] at this
      simpa [valueText, Yaml.format, formatHash_par, h5, pad] using this
    | @altOne _ _ _ k b v hp hsteal hk hb hv =>
      obtain ⟨i1, i2⟩ := hhash _ rfl
      obtain ⟨cl, h1, h2⟩ := i1 k b v (by simp) _ _ _ hv (i2 k b v (by simp)) t next (s + 2) b
        ⟨fun hd => by obtain ⟨t0, h1, h2, -⟩ := hs.1 hd; exact ⟨t0, h1, by omega, by simp⟩, hs.2⟩ rfl hb
      obtain ⟨lead, hl, hx, -⟩ := inner_lead (by rw [← ha] at hp; exact hp) hn s
      refine ⟨cl, h1, ?_⟩
      rw [hx]
      have := Written.innerOne (n := 0) (post := []) (by omega) hl ?_ hk (.value h2)
      · simpa [pad, formatHash, parentOf] using this
      · rintro rfl n rfl
        have hdeep : p.deep = true := by
          cases hd : p.deep with
          | true => rfl
          | false => obtain ⟨t0, h, -⟩ := hs.1 hd; cases h
        exact absurd ⟨hdeep, hs.2⟩ hsteal
    | @altOneComment _ _ _ k b v cm hp hsteal hk hb hv hv' hcm =>
      obtain ⟨lead, hl, hx, -⟩ := inner_lead (by rw [← ha] at hp; exact hp) hn s
      refine ⟨.comment, by simp, ?_⟩
      rw [hx]
      have := Written.innerOne (t := t) (next := next) (n := 0) (post := [cm]) (by omega) hl ?_ hk (item_comment hb hv hv' hcm _ _ _ _)
      · simpa [pad, formatHash, parentOf] using this
      · rintro rfl n rfl
        have hdeep : p.deep = true := by
          cases hd : p.deep with
          | true => rfl
          | false => obtain ⟨t0, h, -⟩ := hs.1 hd; cases h
        exact absurd ⟨hdeep, hs.2⟩ hsteal
    | @altMore _ _ _ k b v ds hp hk hb hv h =>
      obtain ⟨i1, i2⟩ := hhash _ rfl
      obtain ⟨cl', h1, h2⟩ := i1 k b v (by simp) _ _ _ hv (i2 k b v (by simp)) none (.key (s + 2)) (s + 2) b ⟨by simp, rfl⟩ rfl hb
      obtain ⟨lead, hl, hx, -⟩ := inner_lead (by rw [← ha] at hp; exact hp) hn s
      obtain ⟨cs, e, ds', x, cl, rfl, h4, h5, h6, h7⟩ := entries_shown h (fun k b v hm => i1 k b v (by simp [hm])) (fun k b v hm => i2 k b v (by simp [hm])) (s + 2) next hs.2
      refine ⟨cl, h5, ?_⟩
      rw [hx, h7]
      have := Written.innerMore (t := t) (n := 0) (by omega) hl hk (.value h2) (gap_lines cl' (s + 2) h4) h6
      simpa [pad, parentOf] using this
    | @altMoreComment _ _ _ k b v cm ds hp hk hb hv hv' hcm h =>
      obtain ⟨i1, i2⟩ := hhash _ rfl
      obtain ⟨lead, hl, hx, -⟩ := inner_lead (by rw [← ha] at hp; exact hp) hn s
      obtain ⟨cs, e, ds', x, cl, rfl, h4, h5, h6, h7⟩ := entries_shown h (fun k b v hm => i1 k b v (by simp [hm])) (fun k b v hm => i2 k b v (by simp [hm])) (s + 2) next hs.2
      refine ⟨cl, h5, ?_⟩
      rw [hx, formatHash, h7]
      have := Written.innerMore (t := t) (n := 0) (post := [cm]) (by omega) hl hk (item_comment hb hv hv' hcm _ _ _ _) (gap_lines .comment (s + 2) h4) h6
      simpa [pad, parentOf] using this
    | @array _ ds h =>
      obtain rfl : a = none := by simpa using ha
      obtain ⟨i1, i2⟩ := harray ds rfl
      obtain ⟨cs, e, ds', x, cl, rfl, h2, h3, h4, h5⟩ := elements_shown h i1 i2 (s + 2) next hs.2
      refine ⟨cl, h3, ?_⟩
      have := Written.array (t := t) (s := s) (.inl (by omega)) (.nextLine (T := T) (map := false) (nl := ['\n']) (b := []) (.inl rfl) .nil (comment_lines (s + 2) h2)) h4
      simpa [valueText, Yaml.format, parentOf, formatArray_par, h5] using this
    | @seqOne _ _ _ b v hp hsteal hb hv =>
      obtain ⟨i1, i2⟩ := harray _ rfl
      obtain ⟨cl, h1, h2⟩ := i1 b v (by simp) _ _ _ hv (i2 b v (by simp)) none next (s + 2) b ⟨by simp, hs.2⟩ rfl hb
      obtain ⟨lead, hl, -, hx⟩ := inner_lead (by rw [← ha] at hp; exact hp) hn s
      refine ⟨cl, h1, ?_⟩
      rw [hx]
      have := Written.innerElement (t := t) (post := []) (.inl (by omega)) hl (by rintro rfl; exact hsteal hs.2) (.value h2)
      simpa [formatArray, parentOf] using this
    | @seqOneComment _ _ _ b v cm hp hsteal hb hv hv' hcm =>
      obtain ⟨lead, hl, -, hx⟩ := inner_lead (by rw [← ha] at hp; exact hp) hn s
      refine ⟨.comment, by simp, ?_⟩
      rw [hx]
      have := Written.innerElement (t := t) (next := next) (post := [cm]) (.inl (by omega)) hl (by rintro rfl; exact hsteal hs.2) (item_comment hb hv hv' hcm _ _ _ _)
      simpa [formatArray, parentOf] using this
    | @seqMore _ _ _ b v e0 ds hp hb hv h =>
      obtain ⟨i1, i2⟩ := harray _ rfl
      obtain ⟨cl', h1, h2⟩ := i1 b v (by simp) _ _ _ hv (i2 b v (by simp)) none .dash (s + 2) b ⟨by simp, rfl⟩ rfl hb
      obtain ⟨lead, hl, -, hx⟩ := inner_lead (by rw [← ha] at hp; exact hp) hn s
      obtain ⟨cs, e, ds', x, cl, h3, h4, h5, h6, h7⟩ := elements_shown h (fun b v hm => i1 b v (List.mem_cons_of_mem _ hm)) (fun b v hm => i2 b v (List.mem_cons_of_mem _ hm)) (s + 2) next hs.2
      obtain rfl : cs = [] := by
        cases cs with
        | nil => rfl
        | cons l t => simp at h3
      rw [← List.nil_append (_ :: ds'), ← List.map_nil (f := ArrayData.comment), ← h3] at h6
      refine ⟨cl, h5, ?_⟩
      rw [hx, h7]
      have := Written.innerElements (t := t) (post := []) (.inl (by omega)) hl (.value h2) (gap_lines cl' (s + 2) h4) h6
      simpa [pad, parentOf] using this
    | @seqMoreComment _ _ _ b v cm e0 ds hp hb hv hv' hcm h =>
      obtain ⟨i1, i2⟩ := harray _ rfl
      obtain ⟨lead, hl, -, hx⟩ := inner_lead (by rw [← ha] at hp; exact hp) hn s
      obtain ⟨cs, e, ds', x, cl, h3, h4, h5, h6, h7⟩ := elements_shown h (fun b v hm => i1 b v (List.mem_cons_of_mem _ (List.mem_cons_of_mem _ hm)))
        (fun b v hm => i2 b v (List.mem_cons_of_mem _ (List.mem_cons_of_mem _ hm))) (s + 2) next hs.2
      obtain rfl : cs = [] := by
        cases cs with
        | nil => rfl
        | cons l t => simp at h3
      rw [← List.nil_append (_ :: ds'), ← List.map_nil (f := ArrayData.comment), ← h3] at h6
      refine ⟨cl, h5, ?_⟩
      rw [hx, formatArray, h7]
      have := Written.innerElements (t := t) (post := [cm]) (.inl (by omega)) hl (item_comment hb hv hv' hcm _ _ _ _) (gap_lines .comment (s + 2) h4) h6
      simpa [pad, parentOf] using this

/-! ## documents -/

theorem root_shown {y : Yaml} (h : ReadableRoot T y) (hc : ∀ z, InBlock z y → Commentable z) :
    ∃ cl x, cl ≠ .blanks ∧ RootText T 0 cl y x ∧ y.format 0 none = '\n' :: x := by
  cases h with
  | @hash e ds h =>
    obtain ⟨cs, e', ds', x, cl, h1, h2, h3, h4, h5⟩ := entries_shown h (fun _ _ v _ => value_shown v) (fun k b v hm z hz => hc z (.hash hm hz)) 0 .none rfl
    obtain rfl : cs = [] := by
      cases cs with
      | nil => rfl
      | cons l t => simp at h1
    rw [← List.nil_append (_ :: ds'), ← List.map_nil (f := HashData.comment), ← h1] at h4
    exact ⟨cl, _, h3, .hash h4, by simpa [Yaml.format, formatHash_par] using h5⟩
  | @array e ds h =>
    obtain ⟨cs, e', ds', x, cl, h1, h2, h3, h4, h5⟩ := elements_shown h (fun _ v _ => value_shown v) (fun b v hm z hz => hc z (.array hm hz)) 0 .none rfl
    obtain rfl : cs = [] := by
      cases cs with
      | nil => rfl
      | cons l t => simp at h1
    rw [← List.nil_append (_ :: ds'), ← List.map_nil (f := ArrayData.comment), ← h1] at h4
    exact ⟨cl, _, h3, .array h4, by simpa [Yaml.format, formatArray_par] using h5⟩

theorem tail_shown {cl : Closing} (hcl : cl ≠ .blanks) {post : List Str} (h : ∀ l ∈ post, LineText l) :
    Tail cl 0 post (post.flatMap fun l => ['\n', '#'] ++ l) := by
  rcases List.eq_nil_or_concat post with rfl | ⟨cs, d, rfl⟩
  · exact .nil hcl
  · have := Tail.comment (n := 0) (gap_lines cl 0 (cs := cs) fun l hl => h l (by simp [hl])) (by simp) (h d (by simp))
    have he : ∀ cs : List Str, (cs.flatMap fun l => ['\n', '#'] ++ l) ++ ['\n'] = '\n' :: cs.flatMap fun l => '#' :: (l ++ ['\n']) := by
      intro cs
      induction cs with
      | nil => rfl
      | cons l t ih => simp at ih ⊢; simp [ih]
    have he' := he cs
    simp only [pad, List.replicate_zero, List.nil_append, List.append_nil] at this
    rw [← he'] at this
    simpa using this

theorem pre_shown (pre : List Str) (x : Str) : (pre.flatMap fun l => ['\n', '#'] ++ l) ++ '\n' :: x =
    '\n' :: ((pre.flatMap fun l => pad 0 ++ '#' :: (l ++ ['\n'])) ++ x) := by
  induction pre with
  | nil => rfl
  | cons l t ih => simp [pad] at ih ⊢; simp [ih]

theorem tail_line {cl : Closing} {post : List Str} (h : ∀ l ∈ post, LineText l) : Tail cl 0 post ((post.flatMap fun l => ['\n', '#'] ++ l) ++ ['\n']) := by
  have := Tail.lines (n := 0) (gap_lines cl 0 h) (by simp)
  have he := pre_shown post []
  rw [he]
  simpa [pad] using this

/-- A readable document and a text that ends as the formatted text, but for the last lines. -/
theorem document_tail {d : Document} (h : ReadableDocument T d) (hc : ∀ y, DocumentData.yaml y ∈ d.items → ∀ z, InBlock z y → Commentable z)
    {u : Str} (hu : ∀ cl post, cl ≠ .blanks → (∀ l ∈ post, LineText l) → Tail cl 0 post ((post.flatMap fun l => ['\n', '#'] ++ l) ++ u)) :
    DocumentText T d (d.format ++ u) := by
  obtain ⟨leading, items⟩ := d
  obtain ⟨hlead, pre, post, root, hi, hcs, hroot⟩ := h
  simp only at hi hlead hc
  subst hi
  obtain ⟨cl, x, h1, h2, h3⟩ := root_shown hroot (hc root (by simp))
  have hl : LeadingText leading (leading.flatMap fun l => pad 0 ++ '#' :: (l ++ ['\n'])) := by
    by_cases h0 : leading = []
    · subst h0; exact .nil
    · exact .comments (b := []) .nil h0 (comment_lines 0 hlead)
  have := DocumentText.intro (n := 0) (nl := ['\n']) (b := []) hl (.inl rfl) .nil (comment_lines 0 (cs := pre) fun l hm => hcs l (by simp [hm])) h2
    (hu cl post h1 fun l hm => hcs l (by simp [hm]))
  have he := pre_shown pre (x ++ ((post.flatMap fun l => ['\n', '#'] ++ l) ++ u))
  have hf : ∀ l : List Str, (l.map DocumentData.comment).flatMap DocumentData.format = l.flatMap fun l => ['\n', '#'] ++ l := by
    intro l
    simp [List.flatMap_map, DocumentData.format]
  rw [Document.format]
  simp only [List.flatMap_append, hf, List.flatMap_cons, List.flatMap_nil, DocumentData.format, h3]
  simp only [List.append_assoc, List.cons_append, List.nil_append, List.append_nil] at he ⊢
  rw [he]
  simpa [pad] using this

/-- The formatted text of a readable document shows it, unless a plain scalar ends in a colon. -/
theorem document_shown {d : Document} (h : ReadableDocument T d) (hc : ∀ y, DocumentData.yaml y ∈ d.items → ∀ z, InBlock z y → Commentable z) :
    DocumentText T d d.format := by
  have := document_tail h hc (u := []) fun cl post h1 h2 => by simpa using tail_shown h1 h2
  simpa using this

/-- A line break after it changes nothing. -/
theorem document_line {d : Document} (h : ReadableDocument T d) (hc : ∀ y, DocumentData.yaml y ∈ d.items → ∀ z, InBlock z y → Commentable z) :
    DocumentText T d (d.format ++ ['\n']) :=
  document_tail h hc fun _ _ _ h2 => tail_line h2

end Fmt

end YamlSubset
