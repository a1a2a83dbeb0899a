import Verif.Lemmas.PegBytes
import Verif.Lemmas.VisibleSees
import Verif.Props.Visible
import Verif.Spec.FormatSize

/-! # How many bytes the parts of a document came from -/

namespace YamlSubset

set_option linter.unusedSimpArgs false

open Peg Spec

/-- A line is at least one byte. -/
def lineW (s : Str) : Nat := max 1 (byteLen s)

def linesW (l : List Str) : Nat := (l.map lineW).sum

def dqW : DQPart → Nat
  | .string s => byteLen s
  | .escapedChar _ => 1
  | .blankLines n => n + 1
  | .removableNewline => 1

def sqW : SQPart → Nat
  | .string s => byteLen s
  | .escapedChar _ => 1
  | .blankLines n => n + 1
  | .removableNewline => 1

def aliasW : Option Str → Nat
  | none => 0
  | some a => byteLen a

mutual
/-- A lower bound for the bytes a tree is parsed from. -/
def bulk : Yaml → Nat
  | .hash ds => max 1 (entriesBulk ds)
  | .array ds => max 1 (elementsBulk ds)
  | .inlineHash es => flowEntriesBulk es + 1
  | .inlineArray ys => treesBulk ys + 1
  | .unquotedString s => lineW s
  | .doubleQuotedString ps => (ps.map dqW).sum + 1
  | .singleQuotedString ps => (ps.map sqW).sum + 1
  | .literalString ls _ => linesW ls + 1
  | .foldedString ls _ => linesW ls + 1
  | .anchor a => byteLen a + 1
def treesBulk : List Yaml → Nat
  | [] => 0
  | y :: t => bulk y + treesBulk t
def flowEntriesBulk : List (Str × Yaml) → Nat
  | [] => 0
  | (k, y) :: t => (byteLen k + bulk y + 1) + flowEntriesBulk t
def entriesBulk : List HashData → Nat
  | [] => 0
  | .element ⟨k, ⟨a, y⟩⟩ :: t => (byteLen k + aliasW a + bulk y + 1) + entriesBulk t
  | .comment c :: t => lineW c + entriesBulk t
  | .inlineComment c :: t => lineW c + entriesBulk t
def elementsBulk : List ArrayData → Nat
  | [] => 0
  | .element ⟨a, y⟩ :: t => (aliasW a + bulk y + 1) + elementsBulk t
  | .comment c :: t => lineW c + elementsBulk t
  | .inlineComment c :: t => lineW c + elementsBulk t
end

def aliasedW (a : AliasedYaml) : Nat := aliasW a.alias + bulk a.value

def itemW : DocumentData → Nat
  | .comment c => lineW c
  | .yaml y => bulk y

def docW (d : Document) : Nat := linesW d.leadingComments + (d.items.map itemW).sum

/-- A lower bound for the bytes that a result of a consumer function is parsed from. -/
def valW : Val → Nat
  | .unit => 0
  | .str s => byteLen s
  | .nat n => n + 1
  | .optNat _ => 0
  | .strs l => linesW l
  | .dqEsc _ => 1
  | .dqPart p => dqW p
  | .dqParts ps => (ps.map dqW).sum
  | .sqEsc _ => 1
  | .sqPart p => sqW p
  | .sqParts ps => (ps.map sqW).sum
  | .chomping _ => 0
  | .yaml y => bulk y
  | .entry k y => byteLen k + bulk y + 1
  | .aliased a => aliasedW a
  | .hashElement e => byteLen e.key + aliasedW e.value + 1
  | .hashData ds => max 1 (entriesBulk ds)
  | .arrayDatum d => max 1 (elementsBulk [d])
  | .arrayData ds => max 1 (elementsBulk ds)
  | .doc d => docW d + 3

/-- Bytes of a node that its result does not show. -/
def extraW : Rule → Nat
  | .comment | .commentnl | .removable_newline => 1
  | _ => 0

def needW (r : Rule) : Out Val → Nat
  | .ok v => valW v + extraW r
  | _ => 0

def kidsW (kids : Kids) : Nat := (kids.map fun q => needW q.1 q.2).sum

/-- Literals in the silent rules. -/
def silentW : Rule → Nat
  | .comment_base => 1
  | .blanknl => 1
  | _ => 0

theorem kidsW_nil : kidsW [] = 0 := rfl
theorem kidsW_cons (r : Rule) (o : Out Val) (t : Kids) : kidsW ((r, o) :: t) = needW r o + kidsW t := by simp [kidsW]

theorem linesW_nil : linesW [] = 0 := rfl
theorem linesW_cons (s : Str) (l) : linesW (s :: l) = lineW s + linesW l := by simp [linesW]
theorem linesW_append (l l') : linesW (l ++ l') = linesW l + linesW l' := by simp [linesW]
theorem linesW_flatten (l : List (List Str)) : linesW l.flatten = (l.map linesW).sum := by
  induction l with
  | nil => rfl
  | cons a l ih => simp [linesW_append, ih]
theorem linesW_replicate (n : Nat) : linesW (List.replicate n []) = n := by
  induction n with
  | zero => rfl
  | succ n ih => rw [List.replicate_succ, linesW_cons, ih]; simp [lineW, byteLen]; omega

theorem entriesBulk_append (a b : List HashData) : entriesBulk (a ++ b) = entriesBulk a + entriesBulk b := by
  induction a with
  | nil => simp [entriesBulk]
  | cons d a ih =>
    cases d with
    | element e => obtain ⟨k, ⟨n, y⟩⟩ := e; simp only [List.cons_append, entriesBulk, ih]; omega
    | _ => simp only [List.cons_append, entriesBulk, ih]; omega
theorem elementsBulk_append (a b : List ArrayData) : elementsBulk (a ++ b) = elementsBulk a + elementsBulk b := by
  induction a with
  | nil => simp [elementsBulk]
  | cons d a ih =>
    cases d with
    | element e => obtain ⟨n, y⟩ := e; simp only [List.cons_append, elementsBulk, ih]; omega
    | _ => simp only [List.cons_append, elementsBulk, ih]; omega
theorem elementsBulk_cons (d : ArrayData) (l : List ArrayData) : elementsBulk (d :: l) = elementsBulk [d] + elementsBulk l := by
  rw [← elementsBulk_append]; rfl
theorem itemW_comments (cs : List Str) : ((cs.map DocumentData.comment).map itemW).sum = linesW cs := by
  induction cs with
  | nil => rfl
  | cons c cs ih => simp only [List.map_cons, List.sum_cons, ih, itemW, linesW_cons]
theorem entriesBulk_comments (cs : List Str) : entriesBulk (cs.map .comment) = linesW cs := by
  induction cs with
  | nil => rfl
  | cons c cs ih => simp only [List.map_cons, entriesBulk, ih, linesW_cons]
theorem elementsBulk_comments (cs : List Str) : elementsBulk (cs.map .comment) = linesW cs := by
  induction cs with
  | nil => rfl
  | cons c cs ih => simp only [List.map_cons, elementsBulk, ih, linesW_cons]
theorem entriesBulk_flatten (l : List (List HashData)) : entriesBulk l.flatten = (l.map entriesBulk).sum := by
  induction l with
  | nil => rfl
  | cons a l ih => simp [entriesBulk_append, ih]
theorem elementsBulk_flatten (l : List (List ArrayData)) : elementsBulk l.flatten = (l.map elementsBulk).sum := by
  induction l with
  | nil => rfl
  | cons a l ih => simp [elementsBulk_append, ih]
theorem treesBulk_eq (l : List Yaml) : treesBulk l = (l.map bulk).sum := by
  induction l with
  | nil => rfl
  | cons a l ih => simp [treesBulk, ih]
theorem flowEntriesBulk_eq (l : List (Str × Yaml)) : flowEntriesBulk l = (l.map fun q => byteLen q.1 + bulk q.2 + 1).sum := by
  induction l with
  | nil => rfl
  | cons a l ih => obtain ⟨k, y⟩ := a; simp [flowEntriesBulk, ih]

theorem bulk_pos (y : Yaml) : 1 ≤ bulk y := by
  cases y <;> simp only [bulk, lineW] <;> omega

theorem Out.bind_ok_iff {α β : Type} {x : Out α} {f : α → Out β} {b : β} : x.bind f = .ok b ↔ ∃ a, x = .ok a ∧ f a = .ok b := by
  cases x <;> simp [Out.bind]

section
variable {v : Val}
theorem asStr_iff {a} : v.asStr = .ok a ↔ v = .str a := by cases v <;> simp [Val.asStr]
theorem asNat_iff {a} : v.asNat = .ok a ↔ v = .nat a := by cases v <;> simp [Val.asNat]
theorem asOptNat_iff {a} : v.asOptNat = .ok a ↔ v = .optNat a := by cases v <;> simp [Val.asOptNat]
theorem asStrs_iff {a} : v.asStrs = .ok a ↔ v = .strs a := by cases v <;> simp [Val.asStrs]
theorem asDqEsc_iff {a} : v.asDqEsc = .ok a ↔ v = .dqEsc a := by cases v <;> simp [Val.asDqEsc]
theorem asDqPart_iff {a} : v.asDqPart = .ok a ↔ v = .dqPart a := by cases v <;> simp [Val.asDqPart]
theorem asDqParts_iff {a} : v.asDqParts = .ok a ↔ v = .dqParts a := by cases v <;> simp [Val.asDqParts]
theorem asSqEsc_iff {a} : v.asSqEsc = .ok a ↔ v = .sqEsc a := by cases v <;> simp [Val.asSqEsc]
theorem asSqPart_iff {a} : v.asSqPart = .ok a ↔ v = .sqPart a := by cases v <;> simp [Val.asSqPart]
theorem asSqParts_iff {a} : v.asSqParts = .ok a ↔ v = .sqParts a := by cases v <;> simp [Val.asSqParts]
theorem asChomping_iff {a} : v.asChomping = .ok a ↔ v = .chomping a := by cases v <;> simp [Val.asChomping]
theorem asYaml_iff {a} : v.asYaml = .ok a ↔ v = .yaml a := by cases v <;> simp [Val.asYaml]
theorem asEntry_iff {a} : v.asEntry = .ok a ↔ v = .entry a.1 a.2 := by
  obtain ⟨k, y⟩ := a
  cases v <;> simp [Val.asEntry]
theorem asAliased_iff {a} : v.asAliased = .ok a ↔ v = .aliased a := by cases v <;> simp [Val.asAliased]
theorem asHashElement_iff {a} : v.asHashElement = .ok a ↔ v = .hashElement a := by cases v <;> simp [Val.asHashElement]
theorem asHashData_iff {a} : v.asHashData = .ok a ↔ v = .hashData a := by cases v <;> simp [Val.asHashData]
theorem asArrayDatum_iff {a} : v.asArrayDatum = .ok a ↔ v = .arrayDatum a := by cases v <;> simp [Val.asArrayDatum]
theorem asArrayData_iff {a} : v.asArrayData = .ok a ↔ v = .arrayData a := by cases v <;> simp [Val.asArrayData]
end

theorem many_weight {α : Type} {r : Rule} {as : Val → Out α} {f : α → Nat} (hf : ∀ v a, as v = .ok a → f a ≤ valW v + extraW r) :
    ∀ {kids : Kids} {l : List α}, many r as kids = .ok l → (l.map f).sum ≤ kidsW kids := by
  intro kids
  induction kids with
  | nil => intro l h; simp only [many, Out.ok.injEq] at h; subst h; simp
  | cons q t ih =>
    obtain ⟨r', o⟩ := q
    intro l h
    simp only [many] at h
    split at h
    · rename_i hr
      subst hr
      obtain ⟨v, ho, h⟩ := Out.ok_of_bind h
      obtain ⟨a, ha, h⟩ := Out.ok_of_bind h
      obtain ⟨l', hl, h⟩ := Out.ok_of_bind h
      cases h
      have := hf v a ha
      have := ih hl
      simp only [List.map_cons, List.sum_cons, kidsW_cons, needW, ho]
      omega
    · cases h

theorem manyThen_weight {α β : Type} {r last : Rule} {as : Val → Out α} {asLast : Val → Out β} {f : α → Nat} {g : β → Nat}
    (hf : ∀ v a, as v = .ok a → f a ≤ valW v + extraW r) (hg : ∀ v b, asLast v = .ok b → g b ≤ valW v + extraW last) :
    ∀ {kids : Kids} {p : List α × β}, manyThen r as last asLast kids = .ok p → (p.1.map f).sum + g p.2 ≤ kidsW kids := by
  intro kids
  induction kids with
  | nil => intro p h; cases h
  | cons q t ih =>
    obtain ⟨r', o⟩ := q
    intro p h
    simp only [manyThen] at h
    split at h
    · rename_i hr
      obtain ⟨rfl, rfl⟩ := hr
      obtain ⟨v, ho, h⟩ := Out.ok_of_bind h
      obtain ⟨b, hb, h⟩ := Out.ok_of_bind h
      cases h
      have := hg v b hb
      simp only [List.map_nil, List.sum_nil, kidsW_cons, kidsW_nil, needW, ho]
      omega
    · split at h
      · rename_i hr
        subst hr
        obtain ⟨v, ho, h⟩ := Out.ok_of_bind h
        obtain ⟨a, ha, h⟩ := Out.ok_of_bind h
        obtain ⟨p', hp, h⟩ := Out.ok_of_bind h
        cases h
        have := hf v a ha
        have := ih hp
        simp only [List.map_cons, List.sum_cons, kidsW_cons, needW, ho]
        omega
      · cases h

theorem byteLen_dropLast_le (s t : Str) (h : t <+: s) : byteLen t ≤ byteLen s := by
  obtain ⟨u, rfl⟩ := h
  rw [byteLen_append]; omega

theorem length_le_byteLen (s : Str) : s.length ≤ byteLen s := by
  induction s with
  | nil => simp [byteLen]
  | cons c s ih => have := utf8Size_pos c; simp only [List.length_cons, byteLen]; omega

theorem linesCount_le (s : Str) : linesCount s ≤ s.length := by
  simp only [linesCount]
  split
  · have := List.count_le_length (a := '\n') (l := s); omega
  · rename_i h
    simp only [Bool.or_eq_true, not_or, Bool.not_eq_true] at h
    obtain ⟨h1, h2⟩ := h
    have hne : s ≠ [] := by intro e; subst e; cases h1
    have hs := (List.dropLast_concat_getLast hne).symm
    have hl : s.getLast hne ≠ '\n' := by
      intro e
      simp [endsWithChar, List.getLast?_eq_some_getLast hne, e] at h2
    have hc : s.count '\n' = s.dropLast.count '\n' := by
      conv => lhs; rw [hs]
      rw [List.count_append, List.count_cons, List.count_nil]
      simp [hl]
    have := List.count_le_length (a := '\n') (l := s.dropLast)
    have : 0 < s.length := List.length_pos_iff.2 hne
    simp only [List.length_dropLast] at *
    omega

theorem sliceFrom_le {n : Nat} {s t : Str} (h : sliceFrom n s = some t) : byteLen t ≤ byteLen s := by
  fun_induction sliceFrom n s with
  | case1 s => cases h; exact Nat.le_refl _
  | case2 => cases h
  | case3 n c t hc ih => have := ih h; simp only [byteLen]; omega
  | case4 => cases h

theorem clean_weight {ind : Option Nat} {ls out : List Str} (h : cleanMultilineStrings ind ls = .ok out) : linesW out ≤ linesW ls := by
  simp only [cleanMultilineStrings] at h
  obtain ⟨n, hn, h'⟩ := Out.ok_of_bind h
  clear hn h
  have h := h'
  clear h'
  induction ls generalizing out with
  | nil => cases h; exact Nat.le_refl _
  | cons l ls ih =>
    simp only [List.map_cons, Out.all] at h
    obtain ⟨a, ha, h⟩ := Out.ok_of_bind h
    obtain ⟨as, has, h⟩ := Out.ok_of_bind h
    cases h
    have h1 := ih has
    have h2 : byteLen a ≤ byteLen l := by
      split at ha
      · cases ha; exact Nat.le_refl _
      · cases hs : sliceFrom n l with
        | none => rw [hs] at ha; cases ha
        | some t => rw [hs] at ha; cases ha; exact sliceFrom_le hs
    simp only [linesW_cons, lineW]
    omega

theorem byteLen_reverse (s : Str) : byteLen s.reverse = byteLen s := by
  induction s with
  | nil => rfl
  | cons c s ih => simp only [List.reverse_cons, byteLen_append, ih, byteLen]; omega

theorem byteLen_dropWhile (p : Char → Bool) (s : Str) : byteLen (s.dropWhile p) ≤ byteLen s := by
  induction s with
  | nil => exact Nat.le_refl _
  | cons c s ih =>
    rw [List.dropWhile_cons]
    split
    · simp only [byteLen]; omega
    · exact Nat.le_refl _

theorem byteLen_trimEnd (s : Str) : byteLen (trimEnd s) ≤ byteLen s := by
  rw [trimEnd, byteLen_reverse]
  exact Nat.le_trans (byteLen_dropWhile _ _) (by rw [byteLen_reverse]; exact Nat.le_refl _)

theorem byteLen_trimEndMatches (s : Str) (c : Char) : byteLen (trimEndMatches s c) ≤ byteLen s := by
  rw [trimEndMatches, byteLen_reverse]
  exact Nat.le_trans (byteLen_dropWhile _ _) (by rw [byteLen_reverse]; exact Nat.le_refl _)

theorem many_strs {r : Rule} (hr : extraW r = 1) {kids : Kids} {l : List Str} (h : many r Val.asStr kids = .ok l) : linesW l ≤ kidsW kids :=
  many_weight (f := lineW) (fun v a ha => by rw [asStr_iff] at ha; subst ha; simp only [valW, lineW, hr]; omega) h

theorem manyThen_hash {kids : Kids} {p} (h : manyThen .hash_element_data Val.asHashData .commentnls Val.asStrs kids = .ok p) :
    entriesBulk p.1.flatten + linesW p.2 ≤ kidsW kids := by
  rw [entriesBulk_flatten]
  exact manyThen_weight (f := entriesBulk) (g := linesW) (fun v a ha => by rw [asHashData_iff] at ha; subst ha; simp only [valW]; omega)
    (fun v a ha => by rw [asStrs_iff] at ha; subst ha; simp only [valW]; omega) h

theorem many_hash {kids : Kids} {p} (h : many .hash_element_data Val.asHashData kids = .ok p) :
    entriesBulk p.flatten ≤ kidsW kids := by
  rw [entriesBulk_flatten]
  exact many_weight (f := entriesBulk) (fun v a ha => by rw [asHashData_iff] at ha; subst ha; simp only [valW]; omega) h

theorem manyThen_array {kids : Kids} {p} (h : manyThen .block_array_data Val.asArrayData .commentnls Val.asStrs kids = .ok p) :
    elementsBulk p.1.flatten + linesW p.2 ≤ kidsW kids := by
  rw [elementsBulk_flatten]
  exact manyThen_weight (f := elementsBulk) (g := linesW) (fun v a ha => by rw [asArrayData_iff] at ha; subst ha; simp only [valW]; omega)
    (fun v a ha => by rw [asStrs_iff] at ha; subst ha; simp only [valW]; omega) h

theorem manyThen_lines {kids : Kids} {p}
    (h : manyThen .string_multiline_content_part Val.asStrs .string_multiline_trailing Val.asStrs kids = .ok p) :
    linesW p.1.flatten + linesW p.2 ≤ kidsW kids := by
  rw [linesW_flatten]
  exact manyThen_weight (f := linesW) (g := linesW) (fun v a ha => by rw [asStrs_iff] at ha; subst ha; simp only [valW]; omega)
    (fun v a ha => by rw [asStrs_iff] at ha; subst ha; simp only [valW]; omega) h

theorem manyThen_doc {kids : Kids} {p} (h : manyThen .comment Val.asStr .EOI .ok kids = .ok p) : linesW p.1 ≤ kidsW kids :=
  manyThen_weight (f := lineW) (g := fun _ => 0) (fun v a ha => by rw [asStr_iff] at ha; subst ha; simp only [valW, lineW, extraW]; omega)
    (fun v a ha => Nat.zero_le _) h

theorem many_trees {kids : Kids} {p} (h : many .inline_array_value Val.asYaml kids = .ok p) : treesBulk p ≤ kidsW kids := by
  rw [treesBulk_eq]
  exact many_weight (fun v a ha => by rw [asYaml_iff] at ha; subst ha; simp only [valW]; omega) h

theorem many_entries {kids : Kids} {p} (h : many .inline_hash_element Val.asEntry kids = .ok p) : flowEntriesBulk p ≤ kidsW kids := by
  rw [flowEntriesBulk_eq]
  exact many_weight (fun v a ha => by rw [asEntry_iff] at ha; subst ha; simp only [valW]; omega) h

theorem many_dqW {kids : Kids} {p} (h : many .double_quote_without_escape Val.asDqPart kids = .ok p) : (p.map dqW).sum ≤ kidsW kids :=
  many_weight (fun v a ha => by rw [asDqPart_iff] at ha; subst ha; simp only [valW]; omega) h

theorem many_sqW {kids : Kids} {p} (h : many .escaped_single_quote_char Val.asSqPart kids = .ok p) : (p.map sqW).sum ≤ kidsW kids :=
  many_weight (fun v a ha => by rw [asSqPart_iff] at ha; subst ha; simp only [valW]; omega) h

theorem pass_weight {l : List Rule} {kids : Kids} {v : Val} (h : Consume.passYaml l kids = .ok v) : valW v ≤ kidsW kids := by
  unfold Consume.passYaml at h
  split at h
  · split at h
    · simp only [Out.bind_ok_iff, asYaml_iff] at h
      obtain ⟨w, rfl, y, rfl, h⟩ := h
      cases h
      simp only [kidsW_cons, needW]
      omega
    · cases h
  · cases h

theorem oneStr_weight {c : Rule} {kids : Kids} {v : Val} (h : Consume.oneStr c kids = .ok v) : valW v ≤ kidsW kids := by
  unfold Consume.oneStr at h
  split at h
  · split at h
    · simp only [Out.bind_ok_iff, asStr_iff] at h
      obtain ⟨w, rfl, y, rfl, h⟩ := h
      cases h
      simp only [kidsW_cons, needW]
      omega
    · cases h
  · cases h

theorem size_c0 : '*'.utf8Size = 1 := rfl
theorem size_c1 : '&'.utf8Size = 1 := rfl
theorem size_c2 : '{'.utf8Size = 1 := rfl
theorem size_c3 : '}'.utf8Size = 1 := rfl
theorem size_c4 : '['.utf8Size = 1 := rfl
theorem size_c5 : ']'.utf8Size = 1 := rfl
theorem size_c6 : ':'.utf8Size = 1 := rfl
theorem size_c7 : '|'.utf8Size = 1 := rfl
theorem size_c8 : '>'.utf8Size = 1 := rfl
theorem size_c9 : '#'.utf8Size = 1 := rfl
theorem size_c10 : '-'.utf8Size = 1 := rfl
theorem size_c11 : '+'.utf8Size = 1 := rfl
theorem size_c12 : ','.utf8Size = 1 := rfl
theorem size_c13 : '"'.utf8Size = 1 := rfl
theorem size_c14 : '\''.utf8Size = 1 := rfl
theorem size_c15 : '\\'.utf8Size = 1 := rfl
theorem size_c16 : 'n'.utf8Size = 1 := rfl
theorem size_c17 : 'r'.utf8Size = 1 := rfl
theorem size_c18 : 't'.utf8Size = 1 := rfl
theorem size_c19 : ' '.utf8Size = 1 := rfl
theorem size_c20 : '\n'.utf8Size = 1 := rfl
theorem size_c21 : '\r'.utf8Size = 1 := rfl
theorem size_c22 : '_'.utf8Size = 1 := rfl

/-- Bytes of the literals in the body of a rule. -/
theorem act_weight {T : CharTables} {r : Rule} {text : Str} {kids : Kids} {v : Val} (hv : act r text kids = .ok v)
    (hk : kidsW kids + lits Rule.kind silentW (Rule.body T r) ≤ byteLen text)
    (hu : (r = .unquoted_string ∨ r = .unquoted_inline_string ∨ r = .blank_lines) → 1 ≤ byteLen text) : valW v + extraW r ≤ byteLen text := by
  cases r
  all_goals
    simp (config := {failIfUnchanged := false}) only [Rule.body, Expr.seqs, Expr.alts, Expr.plus, lits, Rule.kind, silentW, Rule.NEWLINE, Rule.ANY, Rule.SP, byteLen, Nat.add_zero, size_c0, size_c1, size_c2, size_c3, size_c4, size_c5, size_c6, size_c7, size_c8, size_c9, size_c10, size_c11, size_c12, size_c13, size_c14, size_c15, size_c16, size_c17, size_c18, size_c19, size_c20, size_c21, size_c22] at hk
    try simp only [extraW]
  case comment => have := oneStr_weight hv; omega
  case commentnl => have := oneStr_weight hv; omega
  case alias => have := oneStr_weight hv; omega
  case inline_array_string => have := pass_weight hv; omega
  case inline_array_value => have := pass_weight hv; omega
  case string => have := pass_weight hv; omega
  case inline_value => have := pass_weight hv; omega
  case yaml_value => have := pass_weight hv; omega
  case array => have := pass_weight hv; omega
  case document => have := pass_weight hv; omega
  case EOI => cases hv; simp only [valW]; omega
  case comment_text => cases hv; simp only [valW]; omega
  case alias_name => cases hv; simp only [valW]; omega
  case double_quote_text => cases hv; simp only [valW]; omega
  case single_quote_text => cases hv; simp only [valW]; omega
  case block_string => cases hv; simp only [valW]; omega
  case removable_newline => cases hv; have : '\n'.utf8Size = 1 := rfl; simp only [valW]; omega
  case anchor =>
    simp only [act, Consume.anchor] at hv
    split at hv
    · simp only [Out.bind_ok_iff, asStr_iff, asNat_iff, asOptNat_iff, asStrs_iff, asDqEsc_iff, asDqParts_iff, asSqEsc_iff, asSqParts_iff, asChomping_iff, asYaml_iff, asAliased_iff, asHashElement_iff, asHashData_iff, asArrayDatum_iff, asArrayData_iff] at hv
      obtain ⟨_, rfl, v0, rfl, hv⟩ := hv
      cases hv
      simp only [kidsW_cons, kidsW_nil, needW, valW, extraW, bulk, dqW, sqW, aliasedW, aliasW, entriesBulk, elementsBulk, entriesBulk_append, elementsBulk_append, entriesBulk_comments, elementsBulk_comments, linesW_append, linesW_cons, linesW_nil, lineW, docW, itemW, List.map_append, List.map_cons, List.map_nil, List.sum_append, List.sum_cons, List.sum_nil] at hk ⊢
      omega
    · cases hv
  case inline_hash_element =>
    simp only [act, Consume.inlineHashElement] at hv
    split at hv
    · simp only [Out.bind_ok_iff, asStr_iff, asNat_iff, asOptNat_iff, asStrs_iff, asDqEsc_iff, asDqParts_iff, asSqEsc_iff, asSqParts_iff, asChomping_iff, asYaml_iff, asAliased_iff, asHashElement_iff, asHashData_iff, asArrayDatum_iff, asArrayData_iff] at hv
      obtain ⟨_, rfl, v0, rfl, _, rfl, v1, rfl, hv⟩ := hv
      cases hv
      simp only [kidsW_cons, kidsW_nil, needW, valW, extraW, bulk, dqW, sqW, aliasedW, aliasW, entriesBulk, elementsBulk, entriesBulk_append, elementsBulk_append, entriesBulk_comments, elementsBulk_comments, linesW_append, linesW_cons, linesW_nil, lineW, docW, itemW, List.map_append, List.map_cons, List.map_nil, List.sum_append, List.sum_cons, List.sum_nil] at hk ⊢
      omega
    · cases hv
  case inline_hash =>
    simp only [act, Consume.inlineHash, Out.bind_ok_iff] at hv
    obtain ⟨p, hp, hv⟩ := hv
    cases hv
    have := many_entries hp
    simp only [valW, bulk] at hk ⊢
    omega
  case inline_array =>
    simp only [act, Consume.inlineArray, Out.bind_ok_iff] at hv
    obtain ⟨p, hp, hv⟩ := hv
    cases hv
    have := many_trees hp
    simp only [valW, bulk] at hk ⊢
    omega
  case double_quote_content =>
    simp only [act, Consume.doubleQuoteContent, Out.bind_ok_iff] at hv
    obtain ⟨p, hp, hv⟩ := hv
    cases hv
    have := many_dqW hp
    simp only [valW, bulk] at hk ⊢
    omega
  case single_quote_content =>
    simp only [act, Consume.singleQuoteContent, Out.bind_ok_iff] at hv
    obtain ⟨p, hp, hv⟩ := hv
    cases hv
    have := many_sqW hp
    simp only [valW, bulk] at hk ⊢
    omega
  case commentnls =>
    simp only [act, Consume.commentnls, Out.bind_ok_iff] at hv
    obtain ⟨p, hp, hv⟩ := hv
    cases hv
    have := many_strs rfl hp
    simp only [valW, bulk] at hk ⊢
    omega
  case leading_comments =>
    simp only [act, Consume.commentnls, Out.bind_ok_iff] at hv
    obtain ⟨p, hp, hv⟩ := hv
    cases hv
    have := many_strs rfl hp
    simp only [valW, bulk] at hk ⊢
    omega
  case double_quote_without_escape =>
    simp only [act, Consume.doubleQuoteWithoutEscape] at hv
    split at hv
    · simp only [Out.bind_ok_iff, asStr_iff, asNat_iff, asOptNat_iff, asStrs_iff, asDqEsc_iff, asDqParts_iff, asSqEsc_iff, asSqParts_iff, asChomping_iff, asYaml_iff, asAliased_iff, asHashElement_iff, asHashData_iff, asArrayDatum_iff, asArrayData_iff] at hv
      obtain ⟨_, rfl, v0, rfl, hv⟩ := hv
      cases hv
      simp only [kidsW_cons, kidsW_nil, needW, valW, extraW, bulk, dqW, sqW, aliasedW, aliasW, entriesBulk, elementsBulk, entriesBulk_append, elementsBulk_append, entriesBulk_comments, elementsBulk_comments, linesW_append, linesW_cons, linesW_nil, lineW, docW, itemW, List.map_append, List.map_cons, List.map_nil, List.sum_append, List.sum_cons, List.sum_nil] at hk ⊢
      omega
    · simp only [Out.bind_ok_iff, asStr_iff, asNat_iff, asOptNat_iff, asStrs_iff, asDqEsc_iff, asDqParts_iff, asSqEsc_iff, asSqParts_iff, asChomping_iff, asYaml_iff, asAliased_iff, asHashElement_iff, asHashData_iff, asArrayDatum_iff, asArrayData_iff] at hv
      obtain ⟨_, rfl, v0, rfl, hv⟩ := hv
      cases hv
      simp only [kidsW_cons, kidsW_nil, needW, valW, extraW, bulk, dqW, sqW, aliasedW, aliasW, entriesBulk, elementsBulk, entriesBulk_append, elementsBulk_append, entriesBulk_comments, elementsBulk_comments, linesW_append, linesW_cons, linesW_nil, lineW, docW, itemW, List.map_append, List.map_cons, List.map_nil, List.sum_append, List.sum_cons, List.sum_nil] at hk ⊢
      omega
    · simp only [Out.bind_ok_iff, asStr_iff, asNat_iff, asOptNat_iff, asStrs_iff, asDqEsc_iff, asDqParts_iff, asSqEsc_iff, asSqParts_iff, asChomping_iff, asYaml_iff, asAliased_iff, asHashElement_iff, asHashData_iff, asArrayDatum_iff, asArrayData_iff] at hv
      obtain ⟨_, rfl, v0, rfl, hv⟩ := hv
      cases hv
      simp only [kidsW_cons, kidsW_nil, needW, valW, extraW, bulk, dqW, sqW, aliasedW, aliasW, entriesBulk, elementsBulk, entriesBulk_append, elementsBulk_append, entriesBulk_comments, elementsBulk_comments, linesW_append, linesW_cons, linesW_nil, lineW, docW, itemW, List.map_append, List.map_cons, List.map_nil, List.sum_append, List.sum_cons, List.sum_nil] at hk ⊢
      omega
    · simp only [Out.bind_ok_iff] at hv
      obtain ⟨w, rfl, hv⟩ := hv
      cases hv
      simp only [kidsW_cons, kidsW_nil, needW, valW, extraW, bulk, dqW, sqW, aliasedW, aliasW, entriesBulk, elementsBulk, entriesBulk_append, elementsBulk_append, entriesBulk_comments, elementsBulk_comments, linesW_append, linesW_cons, linesW_nil, lineW, docW, itemW, List.map_append, List.map_cons, List.map_nil, List.sum_append, List.sum_cons, List.sum_nil] at hk ⊢
      omega
    · cases hv
  case escaped_single_quote_char =>
    simp only [act, Consume.escapedSingleQuoteChar] at hv
    split at hv
    · simp only [Out.bind_ok_iff, asStr_iff, asNat_iff, asOptNat_iff, asStrs_iff, asDqEsc_iff, asDqParts_iff, asSqEsc_iff, asSqParts_iff, asChomping_iff, asYaml_iff, asAliased_iff, asHashElement_iff, asHashData_iff, asArrayDatum_iff, asArrayData_iff] at hv
      obtain ⟨_, rfl, v0, rfl, hv⟩ := hv
      cases hv
      simp only [kidsW_cons, kidsW_nil, needW, valW, extraW, bulk, dqW, sqW, aliasedW, aliasW, entriesBulk, elementsBulk, entriesBulk_append, elementsBulk_append, entriesBulk_comments, elementsBulk_comments, linesW_append, linesW_cons, linesW_nil, lineW, docW, itemW, List.map_append, List.map_cons, List.map_nil, List.sum_append, List.sum_cons, List.sum_nil] at hk ⊢
      omega
    · simp only [Out.bind_ok_iff, asStr_iff, asNat_iff, asOptNat_iff, asStrs_iff, asDqEsc_iff, asDqParts_iff, asSqEsc_iff, asSqParts_iff, asChomping_iff, asYaml_iff, asAliased_iff, asHashElement_iff, asHashData_iff, asArrayDatum_iff, asArrayData_iff] at hv
      obtain ⟨_, rfl, v0, rfl, hv⟩ := hv
      cases hv
      simp only [kidsW_cons, kidsW_nil, needW, valW, extraW, bulk, dqW, sqW, aliasedW, aliasW, entriesBulk, elementsBulk, entriesBulk_append, elementsBulk_append, entriesBulk_comments, elementsBulk_comments, linesW_append, linesW_cons, linesW_nil, lineW, docW, itemW, List.map_append, List.map_cons, List.map_nil, List.sum_append, List.sum_cons, List.sum_nil] at hk ⊢
      omega
    · simp only [Out.bind_ok_iff, asStr_iff, asNat_iff, asOptNat_iff, asStrs_iff, asDqEsc_iff, asDqParts_iff, asSqEsc_iff, asSqParts_iff, asChomping_iff, asYaml_iff, asAliased_iff, asHashElement_iff, asHashData_iff, asArrayDatum_iff, asArrayData_iff] at hv
      obtain ⟨_, rfl, v0, rfl, hv⟩ := hv
      cases hv
      simp only [kidsW_cons, kidsW_nil, needW, valW, extraW, bulk, dqW, sqW, aliasedW, aliasW, entriesBulk, elementsBulk, entriesBulk_append, elementsBulk_append, entriesBulk_comments, elementsBulk_comments, linesW_append, linesW_cons, linesW_nil, lineW, docW, itemW, List.map_append, List.map_cons, List.map_nil, List.sum_append, List.sum_cons, List.sum_nil] at hk ⊢
      omega
    · simp only [Out.bind_ok_iff] at hv
      obtain ⟨w, rfl, hv⟩ := hv
      cases hv
      simp only [kidsW_cons, kidsW_nil, needW, valW, extraW, bulk, dqW, sqW, aliasedW, aliasW, entriesBulk, elementsBulk, entriesBulk_append, elementsBulk_append, entriesBulk_comments, elementsBulk_comments, linesW_append, linesW_cons, linesW_nil, lineW, docW, itemW, List.map_append, List.map_cons, List.map_nil, List.sum_append, List.sum_cons, List.sum_nil] at hk ⊢
      omega
    · cases hv
  case double_quoted_string =>
    simp only [act, Consume.doubleQuotedString] at hv
    split at hv
    · simp only [Out.bind_ok_iff, asStr_iff, asNat_iff, asOptNat_iff, asStrs_iff, asDqEsc_iff, asDqParts_iff, asSqEsc_iff, asSqParts_iff, asChomping_iff, asYaml_iff, asAliased_iff, asHashElement_iff, asHashData_iff, asArrayDatum_iff, asArrayData_iff] at hv
      obtain ⟨_, rfl, v0, rfl, hv⟩ := hv
      cases hv
      simp only [kidsW_cons, kidsW_nil, needW, valW, extraW, bulk, dqW, sqW, aliasedW, aliasW, entriesBulk, elementsBulk, entriesBulk_append, elementsBulk_append, entriesBulk_comments, elementsBulk_comments, linesW_append, linesW_cons, linesW_nil, lineW, docW, itemW, List.map_append, List.map_cons, List.map_nil, List.sum_append, List.sum_cons, List.sum_nil] at hk ⊢
      omega
    · cases hv
  case single_quoted_string =>
    simp only [act, Consume.singleQuotedString] at hv
    split at hv
    · simp only [Out.bind_ok_iff, asStr_iff, asNat_iff, asOptNat_iff, asStrs_iff, asDqEsc_iff, asDqParts_iff, asSqEsc_iff, asSqParts_iff, asChomping_iff, asYaml_iff, asAliased_iff, asHashElement_iff, asHashData_iff, asArrayDatum_iff, asArrayData_iff] at hv
      obtain ⟨_, rfl, v0, rfl, hv⟩ := hv
      cases hv
      simp only [kidsW_cons, kidsW_nil, needW, valW, extraW, bulk, dqW, sqW, aliasedW, aliasW, entriesBulk, elementsBulk, entriesBulk_append, elementsBulk_append, entriesBulk_comments, elementsBulk_comments, linesW_append, linesW_cons, linesW_nil, lineW, docW, itemW, List.map_append, List.map_cons, List.map_nil, List.sum_append, List.sum_cons, List.sum_nil] at hk ⊢
      omega
    · cases hv
  case string_multiline_content_part =>
    simp only [act, Consume.stringMultilineContentPart] at hv
    split at hv
    · simp only [Out.bind_ok_iff, asStr_iff, asNat_iff, asOptNat_iff, asStrs_iff, asDqEsc_iff, asDqParts_iff, asSqEsc_iff, asSqParts_iff, asChomping_iff, asYaml_iff, asAliased_iff, asHashElement_iff, asHashData_iff, asArrayDatum_iff, asArrayData_iff] at hv
      obtain ⟨_, rfl, v0, rfl, _, rfl, v1, rfl, hv⟩ := hv
      cases hv
      simp only [kidsW_cons, kidsW_nil, needW, valW, extraW, bulk, dqW, sqW, aliasedW, aliasW, entriesBulk, elementsBulk, entriesBulk_append, elementsBulk_append, entriesBulk_comments, elementsBulk_comments, linesW_append, linesW_cons, linesW_nil, lineW, docW, itemW, List.map_append, List.map_cons, List.map_nil, List.sum_append, List.sum_cons, List.sum_nil] at hk ⊢
      omega
    · cases hv
  case string_multiline_content =>
    simp only [act, Consume.stringMultilineContent] at hv
    split at hv
    · simp only [Out.bind_ok_iff, asStr_iff, asNat_iff, asOptNat_iff, asStrs_iff, asDqEsc_iff, asDqParts_iff, asSqEsc_iff, asSqParts_iff, asChomping_iff, asYaml_iff, asAliased_iff, asHashElement_iff, asHashData_iff, asArrayDatum_iff, asArrayData_iff] at hv
      obtain ⟨_, rfl, v0, rfl, _, rfl, v1, rfl, p, hp, hv⟩ := hv
      cases hv
      have := manyThen_lines hp
      simp only [kidsW_cons, kidsW_nil, needW, valW, extraW, bulk, dqW, sqW, aliasedW, aliasW, entriesBulk, elementsBulk, entriesBulk_append, elementsBulk_append, entriesBulk_comments, elementsBulk_comments, linesW_append, linesW_cons, linesW_nil, lineW, docW, itemW, List.map_append, List.map_cons, List.map_nil, List.sum_append, List.sum_cons, List.sum_nil] at hk ⊢
      omega
    · cases hv
  case string_multiline_folded =>
    simp only [act, Consume.stringMultiline] at hv
    split at hv
    · simp only [Out.bind_ok_iff, asStr_iff, asNat_iff, asOptNat_iff, asStrs_iff, asDqEsc_iff, asDqParts_iff, asSqEsc_iff, asSqParts_iff, asChomping_iff, asYaml_iff, asAliased_iff, asHashElement_iff, asHashData_iff, asArrayDatum_iff, asArrayData_iff] at hv
      obtain ⟨_, rfl, v0, rfl, _, rfl, v1, rfl, p, hp, hv⟩ := hv
      cases hv
      have := clean_weight hp
      simp only [kidsW_cons, kidsW_nil, needW, valW, extraW, bulk, dqW, sqW, aliasedW, aliasW, entriesBulk, elementsBulk, entriesBulk_append, elementsBulk_append, entriesBulk_comments, elementsBulk_comments, linesW_append, linesW_cons, linesW_nil, lineW, docW, itemW, List.map_append, List.map_cons, List.map_nil, List.sum_append, List.sum_cons, List.sum_nil] at hk ⊢
      omega
    · simp only [Out.bind_ok_iff, asStr_iff, asNat_iff, asOptNat_iff, asStrs_iff, asDqEsc_iff, asDqParts_iff, asSqEsc_iff, asSqParts_iff, asChomping_iff, asYaml_iff, asAliased_iff, asHashElement_iff, asHashData_iff, asArrayDatum_iff, asArrayData_iff] at hv
      obtain ⟨_, rfl, v0, rfl, _, rfl, v1, rfl, _, rfl, v2, rfl, p, hp, hv⟩ := hv
      cases hv
      have := clean_weight hp
      simp only [kidsW_cons, kidsW_nil, needW, valW, extraW, bulk, dqW, sqW, aliasedW, aliasW, entriesBulk, elementsBulk, entriesBulk_append, elementsBulk_append, entriesBulk_comments, elementsBulk_comments, linesW_append, linesW_cons, linesW_nil, lineW, docW, itemW, List.map_append, List.map_cons, List.map_nil, List.sum_append, List.sum_cons, List.sum_nil] at hk ⊢
      omega
    · cases hv
  case string_multiline_literal =>
    simp only [act, Consume.stringMultiline] at hv
    split at hv
    · simp only [Out.bind_ok_iff, asStr_iff, asNat_iff, asOptNat_iff, asStrs_iff, asDqEsc_iff, asDqParts_iff, asSqEsc_iff, asSqParts_iff, asChomping_iff, asYaml_iff, asAliased_iff, asHashElement_iff, asHashData_iff, asArrayDatum_iff, asArrayData_iff] at hv
      obtain ⟨_, rfl, v0, rfl, _, rfl, v1, rfl, p, hp, hv⟩ := hv
      cases hv
      have := clean_weight hp
      simp only [kidsW_cons, kidsW_nil, needW, valW, extraW, bulk, dqW, sqW, aliasedW, aliasW, entriesBulk, elementsBulk, entriesBulk_append, elementsBulk_append, entriesBulk_comments, elementsBulk_comments, linesW_append, linesW_cons, linesW_nil, lineW, docW, itemW, List.map_append, List.map_cons, List.map_nil, List.sum_append, List.sum_cons, List.sum_nil] at hk ⊢
      omega
    · simp only [Out.bind_ok_iff, asStr_iff, asNat_iff, asOptNat_iff, asStrs_iff, asDqEsc_iff, asDqParts_iff, asSqEsc_iff, asSqParts_iff, asChomping_iff, asYaml_iff, asAliased_iff, asHashElement_iff, asHashData_iff, asArrayDatum_iff, asArrayData_iff] at hv
      obtain ⟨_, rfl, v0, rfl, _, rfl, v1, rfl, _, rfl, v2, rfl, p, hp, hv⟩ := hv
      cases hv
      have := clean_weight hp
      simp only [kidsW_cons, kidsW_nil, needW, valW, extraW, bulk, dqW, sqW, aliasedW, aliasW, entriesBulk, elementsBulk, entriesBulk_append, elementsBulk_append, entriesBulk_comments, elementsBulk_comments, linesW_append, linesW_cons, linesW_nil, lineW, docW, itemW, List.map_append, List.map_cons, List.map_nil, List.sum_append, List.sum_cons, List.sum_nil] at hk ⊢
      omega
    · cases hv
  case aliased_yaml_value =>
    simp only [act, Consume.aliasedYamlValue] at hv
    split at hv
    · simp only [Out.bind_ok_iff, asStr_iff, asNat_iff, asOptNat_iff, asStrs_iff, asDqEsc_iff, asDqParts_iff, asSqEsc_iff, asSqParts_iff, asChomping_iff, asYaml_iff, asAliased_iff, asHashElement_iff, asHashData_iff, asArrayDatum_iff, asArrayData_iff] at hv
      obtain ⟨_, rfl, v0, rfl, _, rfl, v1, rfl, hv⟩ := hv
      cases hv
      simp only [kidsW_cons, kidsW_nil, needW, valW, extraW, bulk, dqW, sqW, aliasedW, aliasW, entriesBulk, elementsBulk, entriesBulk_append, elementsBulk_append, entriesBulk_comments, elementsBulk_comments, linesW_append, linesW_cons, linesW_nil, lineW, docW, itemW, List.map_append, List.map_cons, List.map_nil, List.sum_append, List.sum_cons, List.sum_nil] at hk ⊢
      omega
    · simp only [Out.bind_ok_iff, asStr_iff, asNat_iff, asOptNat_iff, asStrs_iff, asDqEsc_iff, asDqParts_iff, asSqEsc_iff, asSqParts_iff, asChomping_iff, asYaml_iff, asAliased_iff, asHashElement_iff, asHashData_iff, asArrayDatum_iff, asArrayData_iff] at hv
      obtain ⟨_, rfl, v0, rfl, hv⟩ := hv
      cases hv
      simp only [kidsW_cons, kidsW_nil, needW, valW, extraW, bulk, dqW, sqW, aliasedW, aliasW, entriesBulk, elementsBulk, entriesBulk_append, elementsBulk_append, entriesBulk_comments, elementsBulk_comments, linesW_append, linesW_cons, linesW_nil, lineW, docW, itemW, List.map_append, List.map_cons, List.map_nil, List.sum_append, List.sum_cons, List.sum_nil] at hk ⊢
      omega
    · cases hv
  case block_array_aliased_yaml_value =>
    simp only [act, Consume.blockArrayAliasedYamlValue] at hv
    split at hv
    · simp only [Out.bind_ok_iff, asStr_iff, asNat_iff, asOptNat_iff, asStrs_iff, asDqEsc_iff, asDqParts_iff, asSqEsc_iff, asSqParts_iff, asChomping_iff, asYaml_iff, asAliased_iff, asHashElement_iff, asHashData_iff, asArrayDatum_iff, asArrayData_iff] at hv
      obtain ⟨_, rfl, v0, rfl, hv⟩ := hv
      cases hv
      simp only [kidsW_cons, kidsW_nil, needW, valW, extraW, bulk, dqW, sqW, aliasedW, aliasW, entriesBulk, elementsBulk, entriesBulk_append, elementsBulk_append, entriesBulk_comments, elementsBulk_comments, linesW_append, linesW_cons, linesW_nil, lineW, docW, itemW, List.map_append, List.map_cons, List.map_nil, List.sum_append, List.sum_cons, List.sum_nil] at hk ⊢
      omega
    · simp only [Out.bind_ok_iff, asStr_iff, asNat_iff, asOptNat_iff, asStrs_iff, asDqEsc_iff, asDqParts_iff, asSqEsc_iff, asSqParts_iff, asChomping_iff, asYaml_iff, asAliased_iff, asHashElement_iff, asHashData_iff, asArrayDatum_iff, asArrayData_iff] at hv
      obtain ⟨_, rfl, v0, rfl, hv⟩ := hv
      cases hv
      simp only [kidsW_cons, kidsW_nil, needW, valW, extraW, bulk, dqW, sqW, aliasedW, aliasW, entriesBulk, elementsBulk, entriesBulk_append, elementsBulk_append, entriesBulk_comments, elementsBulk_comments, linesW_append, linesW_cons, linesW_nil, lineW, docW, itemW, List.map_append, List.map_cons, List.map_nil, List.sum_append, List.sum_cons, List.sum_nil] at hk ⊢
      omega
    · cases hv
  case alternative_aliased_yaml_value =>
    simp only [act, Consume.alternativeAliasedYamlValue] at hv
    split at hv
    · simp only [Out.bind_ok_iff, asStr_iff, asNat_iff, asOptNat_iff, asStrs_iff, asDqEsc_iff, asDqParts_iff, asSqEsc_iff, asSqParts_iff, asChomping_iff, asYaml_iff, asAliased_iff, asHashElement_iff, asHashData_iff, asArrayDatum_iff, asArrayData_iff] at hv
      obtain ⟨_, rfl, v0, rfl, _, rfl, v1, rfl, hv⟩ := hv
      cases hv
      simp only [kidsW_cons, kidsW_nil, needW, valW, extraW, bulk, dqW, sqW, aliasedW, aliasW, entriesBulk, elementsBulk, entriesBulk_append, elementsBulk_append, entriesBulk_comments, elementsBulk_comments, linesW_append, linesW_cons, linesW_nil, lineW, docW, itemW, List.map_append, List.map_cons, List.map_nil, List.sum_append, List.sum_cons, List.sum_nil] at hk ⊢
      omega
    · simp only [Out.bind_ok_iff, asStr_iff, asNat_iff, asOptNat_iff, asStrs_iff, asDqEsc_iff, asDqParts_iff, asSqEsc_iff, asSqParts_iff, asChomping_iff, asYaml_iff, asAliased_iff, asHashElement_iff, asHashData_iff, asArrayDatum_iff, asArrayData_iff] at hv
      obtain ⟨_, rfl, v0, rfl, hv⟩ := hv
      cases hv
      simp only [kidsW_cons, kidsW_nil, needW, valW, extraW, bulk, dqW, sqW, aliasedW, aliasW, entriesBulk, elementsBulk, entriesBulk_append, elementsBulk_append, entriesBulk_comments, elementsBulk_comments, linesW_append, linesW_cons, linesW_nil, lineW, docW, itemW, List.map_append, List.map_cons, List.map_nil, List.sum_append, List.sum_cons, List.sum_nil] at hk ⊢
      omega
    · simp only [Out.bind_ok_iff, asStr_iff, asNat_iff, asOptNat_iff, asStrs_iff, asDqEsc_iff, asDqParts_iff, asSqEsc_iff, asSqParts_iff, asChomping_iff, asYaml_iff, asAliased_iff, asHashElement_iff, asHashData_iff, asArrayDatum_iff, asArrayData_iff] at hv
      obtain ⟨_, rfl, v0, rfl, _, rfl, v1, rfl, hv⟩ := hv
      cases hv
      simp only [kidsW_cons, kidsW_nil, needW, valW, extraW, bulk, dqW, sqW, aliasedW, aliasW, entriesBulk, elementsBulk, entriesBulk_append, elementsBulk_append, entriesBulk_comments, elementsBulk_comments, linesW_append, linesW_cons, linesW_nil, lineW, docW, itemW, List.map_append, List.map_cons, List.map_nil, List.sum_append, List.sum_cons, List.sum_nil] at hk ⊢
      omega
    · simp only [Out.bind_ok_iff, asStr_iff, asNat_iff, asOptNat_iff, asStrs_iff, asDqEsc_iff, asDqParts_iff, asSqEsc_iff, asSqParts_iff, asChomping_iff, asYaml_iff, asAliased_iff, asHashElement_iff, asHashData_iff, asArrayDatum_iff, asArrayData_iff] at hv
      obtain ⟨_, rfl, v0, rfl, hv⟩ := hv
      cases hv
      simp only [kidsW_cons, kidsW_nil, needW, valW, extraW, bulk, dqW, sqW, aliasedW, aliasW, entriesBulk, elementsBulk, entriesBulk_append, elementsBulk_append, entriesBulk_comments, elementsBulk_comments, linesW_append, linesW_cons, linesW_nil, lineW, docW, itemW, List.map_append, List.map_cons, List.map_nil, List.sum_append, List.sum_cons, List.sum_nil] at hk ⊢
      omega
    · cases hv
  case hash_element =>
    simp only [act, Consume.hashElement] at hv
    split at hv
    · simp only [Out.bind_ok_iff, asStr_iff, asNat_iff, asOptNat_iff, asStrs_iff, asDqEsc_iff, asDqParts_iff, asSqEsc_iff, asSqParts_iff, asChomping_iff, asYaml_iff, asAliased_iff, asHashElement_iff, asHashData_iff, asArrayDatum_iff, asArrayData_iff] at hv
      obtain ⟨_, rfl, v0, rfl, _, rfl, v1, rfl, hv⟩ := hv
      cases hv
      simp only [kidsW_cons, kidsW_nil, needW, valW, extraW, bulk, dqW, sqW, aliasedW, aliasW, entriesBulk, elementsBulk, entriesBulk_append, elementsBulk_append, entriesBulk_comments, elementsBulk_comments, linesW_append, linesW_cons, linesW_nil, lineW, docW, itemW, List.map_append, List.map_cons, List.map_nil, List.sum_append, List.sum_cons, List.sum_nil] at hk ⊢
      omega
    · cases hv
  case first_hash_element =>
    simp only [act, Consume.firstHashElement] at hv
    split at hv
    · simp only [Out.bind_ok_iff, asStr_iff, asNat_iff, asOptNat_iff, asStrs_iff, asDqEsc_iff, asDqParts_iff, asSqEsc_iff, asSqParts_iff, asChomping_iff, asYaml_iff, asAliased_iff, asHashElement_iff, asHashData_iff, asArrayDatum_iff, asArrayData_iff] at hv
      obtain ⟨_, rfl, v0, rfl, _, rfl, v1, rfl, hv⟩ := hv
      cases hv
      obtain ⟨k, ⟨a, y⟩⟩ := v0
      simp only [kidsW_cons, kidsW_nil, needW, valW, extraW, bulk, dqW, sqW, aliasedW, aliasW, entriesBulk, elementsBulk, entriesBulk_append, elementsBulk_append, entriesBulk_comments, elementsBulk_comments, linesW_append, linesW_cons, linesW_nil, lineW, docW, itemW, List.map_append, List.map_cons, List.map_nil, List.sum_append, List.sum_cons, List.sum_nil] at hk ⊢
      omega
    · simp only [Out.bind_ok_iff, asStr_iff, asNat_iff, asOptNat_iff, asStrs_iff, asDqEsc_iff, asDqParts_iff, asSqEsc_iff, asSqParts_iff, asChomping_iff, asYaml_iff, asAliased_iff, asHashElement_iff, asHashData_iff, asArrayDatum_iff, asArrayData_iff] at hv
      obtain ⟨_, rfl, v0, rfl, hv⟩ := hv
      cases hv
      obtain ⟨k, ⟨a, y⟩⟩ := v0
      simp only [kidsW_cons, kidsW_nil, needW, valW, extraW, bulk, dqW, sqW, aliasedW, aliasW, entriesBulk, elementsBulk, entriesBulk_append, elementsBulk_append, entriesBulk_comments, elementsBulk_comments, linesW_append, linesW_cons, linesW_nil, lineW, docW, itemW, List.map_append, List.map_cons, List.map_nil, List.sum_append, List.sum_cons, List.sum_nil] at hk ⊢
      omega
    · cases hv
  case hash_element_data =>
    simp only [act, Consume.hashElementData] at hv
    split at hv
    · simp only [Out.bind_ok_iff, asStr_iff, asNat_iff, asOptNat_iff, asStrs_iff, asDqEsc_iff, asDqParts_iff, asSqEsc_iff, asSqParts_iff, asChomping_iff, asYaml_iff, asAliased_iff, asHashElement_iff, asHashData_iff, asArrayDatum_iff, asArrayData_iff] at hv
      obtain ⟨_, rfl, v0, rfl, _, rfl, v1, rfl, _, rfl, v2, rfl, hv⟩ := hv
      cases hv
      obtain ⟨k, ⟨a, y⟩⟩ := v1
      simp only [kidsW_cons, kidsW_nil, needW, valW, extraW, bulk, dqW, sqW, aliasedW, aliasW, entriesBulk, elementsBulk, entriesBulk_append, elementsBulk_append, entriesBulk_comments, elementsBulk_comments, linesW_append, linesW_cons, linesW_nil, lineW, docW, itemW, List.map_append, List.map_cons, List.map_nil, List.sum_append, List.sum_cons, List.sum_nil] at hk ⊢
      omega
    · simp only [Out.bind_ok_iff, asStr_iff, asNat_iff, asOptNat_iff, asStrs_iff, asDqEsc_iff, asDqParts_iff, asSqEsc_iff, asSqParts_iff, asChomping_iff, asYaml_iff, asAliased_iff, asHashElement_iff, asHashData_iff, asArrayDatum_iff, asArrayData_iff] at hv
      obtain ⟨_, rfl, v0, rfl, _, rfl, v1, rfl, hv⟩ := hv
      cases hv
      obtain ⟨k, ⟨a, y⟩⟩ := v1
      simp only [kidsW_cons, kidsW_nil, needW, valW, extraW, bulk, dqW, sqW, aliasedW, aliasW, entriesBulk, elementsBulk, entriesBulk_append, elementsBulk_append, entriesBulk_comments, elementsBulk_comments, linesW_append, linesW_cons, linesW_nil, lineW, docW, itemW, List.map_append, List.map_cons, List.map_nil, List.sum_append, List.sum_cons, List.sum_nil] at hk ⊢
      omega
    · cases hv
  case hash =>
    simp only [act, Consume.hash] at hv
    split at hv
    · simp only [Out.bind_ok_iff, asStr_iff, asNat_iff, asOptNat_iff, asStrs_iff, asDqEsc_iff, asDqParts_iff, asSqEsc_iff, asSqParts_iff, asChomping_iff, asYaml_iff, asAliased_iff, asHashElement_iff, asHashData_iff, asArrayDatum_iff, asArrayData_iff] at hv
      obtain ⟨_, rfl, v0, rfl, _, rfl, v1, rfl, p, hp, hv⟩ := hv
      cases hv
      have := manyThen_hash hp
      simp only [kidsW_cons, kidsW_nil, needW, valW, extraW, bulk, dqW, sqW, aliasedW, aliasW, entriesBulk, elementsBulk, entriesBulk_append, elementsBulk_append, entriesBulk_comments, elementsBulk_comments, linesW_append, linesW_cons, linesW_nil, lineW, docW, itemW, List.map_append, List.map_cons, List.map_nil, List.sum_append, List.sum_cons, List.sum_nil] at hk ⊢
      omega
    · cases hv
  case alternative_hash_continuation =>
    simp only [act, Consume.alternativeHashContinuation] at hv
    split at hv
    · simp only [Out.bind_ok_iff, asStr_iff, asNat_iff, asOptNat_iff, asStrs_iff, asDqEsc_iff, asDqParts_iff, asSqEsc_iff, asSqParts_iff, asChomping_iff, asYaml_iff, asAliased_iff, asHashElement_iff, asHashData_iff, asArrayDatum_iff, asArrayData_iff] at hv
      obtain ⟨_, rfl, v0, rfl, _, rfl, v1, rfl, p, hp, hv⟩ := hv
      cases hv
      have := many_hash hp
      simp only [kidsW_cons, kidsW_nil, needW, valW, extraW, bulk, dqW, sqW, aliasedW, aliasW, entriesBulk, elementsBulk, entriesBulk_append, elementsBulk_append, entriesBulk_comments, elementsBulk_comments, linesW_append, linesW_cons, linesW_nil, lineW, docW, itemW, List.map_append, List.map_cons, List.map_nil, List.sum_append, List.sum_cons, List.sum_nil] at hk ⊢
      omega
    · cases hv
  case alternative_hash =>
    simp only [act, Consume.alternativeHash] at hv
    split at hv
    · simp only [Out.bind_ok_iff, asStr_iff, asNat_iff, asOptNat_iff, asStrs_iff, asDqEsc_iff, asDqParts_iff, asSqEsc_iff, asSqParts_iff, asChomping_iff, asYaml_iff, asAliased_iff, asHashElement_iff, asHashData_iff, asArrayDatum_iff, asArrayData_iff] at hv
      obtain ⟨_, rfl, v0, rfl, _, rfl, v1, rfl, _, rfl, v2, rfl, hv⟩ := hv
      cases hv
      simp only [kidsW_cons, kidsW_nil, needW, valW, extraW, bulk, dqW, sqW, aliasedW, aliasW, entriesBulk, elementsBulk, entriesBulk_append, elementsBulk_append, entriesBulk_comments, elementsBulk_comments, linesW_append, linesW_cons, linesW_nil, lineW, docW, itemW, List.map_append, List.map_cons, List.map_nil, List.sum_append, List.sum_cons, List.sum_nil] at hk ⊢
      omega
    · simp only [Out.bind_ok_iff, asStr_iff, asNat_iff, asOptNat_iff, asStrs_iff, asDqEsc_iff, asDqParts_iff, asSqEsc_iff, asSqParts_iff, asChomping_iff, asYaml_iff, asAliased_iff, asHashElement_iff, asHashData_iff, asArrayDatum_iff, asArrayData_iff] at hv
      obtain ⟨_, rfl, v0, rfl, _, rfl, v1, rfl, hv⟩ := hv
      cases hv
      simp only [kidsW_cons, kidsW_nil, needW, valW, extraW, bulk, dqW, sqW, aliasedW, aliasW, entriesBulk, elementsBulk, entriesBulk_append, elementsBulk_append, entriesBulk_comments, elementsBulk_comments, linesW_append, linesW_cons, linesW_nil, lineW, docW, itemW, List.map_append, List.map_cons, List.map_nil, List.sum_append, List.sum_cons, List.sum_nil] at hk ⊢
      omega
    · cases hv
  case block_array_element =>
    simp only [act, Consume.blockArrayElement] at hv
    split at hv
    · simp only [Out.bind_ok_iff, asStr_iff, asNat_iff, asOptNat_iff, asStrs_iff, asDqEsc_iff, asDqParts_iff, asSqEsc_iff, asSqParts_iff, asChomping_iff, asYaml_iff, asAliased_iff, asHashElement_iff, asHashData_iff, asArrayDatum_iff, asArrayData_iff] at hv
      obtain ⟨_, rfl, v0, rfl, hv⟩ := hv
      cases hv
      obtain ⟨a, y⟩ := v0
      simp only [kidsW_cons, kidsW_nil, needW, valW, extraW, bulk, dqW, sqW, aliasedW, aliasW, entriesBulk, elementsBulk, entriesBulk_append, elementsBulk_append, entriesBulk_comments, elementsBulk_comments, linesW_append, linesW_cons, linesW_nil, lineW, docW, itemW, List.map_append, List.map_cons, List.map_nil, List.sum_append, List.sum_cons, List.sum_nil] at hk ⊢
      omega
    · cases hv
  case first_block_array_element =>
    simp only [act, Consume.firstBlockArrayElement] at hv
    split at hv
    · simp only [Out.bind_ok_iff, asStr_iff, asNat_iff, asOptNat_iff, asStrs_iff, asDqEsc_iff, asDqParts_iff, asSqEsc_iff, asSqParts_iff, asChomping_iff, asYaml_iff, asAliased_iff, asHashElement_iff, asHashData_iff, asArrayDatum_iff, asArrayData_iff] at hv
      obtain ⟨_, rfl, v0, rfl, _, rfl, v1, rfl, hv⟩ := hv
      cases hv
      simp only [valW, elementsBulk_cons v0 [_]]
      simp only [kidsW_cons, kidsW_nil, needW, valW, extraW, bulk, dqW, sqW, aliasedW, aliasW, entriesBulk, elementsBulk, entriesBulk_append, elementsBulk_append, entriesBulk_comments, elementsBulk_comments, linesW_append, linesW_cons, linesW_nil, lineW, docW, itemW, List.map_append, List.map_cons, List.map_nil, List.sum_append, List.sum_cons, List.sum_nil] at hk ⊢
      omega
    · simp only [Out.bind_ok_iff, asStr_iff, asNat_iff, asOptNat_iff, asStrs_iff, asDqEsc_iff, asDqParts_iff, asSqEsc_iff, asSqParts_iff, asChomping_iff, asYaml_iff, asAliased_iff, asHashElement_iff, asHashData_iff, asArrayDatum_iff, asArrayData_iff] at hv
      obtain ⟨_, rfl, v0, rfl, hv⟩ := hv
      cases hv
      simp only [kidsW_cons, kidsW_nil, needW, valW, extraW, bulk, dqW, sqW, aliasedW, aliasW, entriesBulk, elementsBulk, entriesBulk_append, elementsBulk_append, entriesBulk_comments, elementsBulk_comments, linesW_append, linesW_cons, linesW_nil, lineW, docW, itemW, List.map_append, List.map_cons, List.map_nil, List.sum_append, List.sum_cons, List.sum_nil] at hk ⊢
      omega
    · cases hv
  case block_array_data =>
    simp only [act, Consume.blockArrayData] at hv
    split at hv
    · simp only [Out.bind_ok_iff, asStr_iff, asNat_iff, asOptNat_iff, asStrs_iff, asDqEsc_iff, asDqParts_iff, asSqEsc_iff, asSqParts_iff, asChomping_iff, asYaml_iff, asAliased_iff, asHashElement_iff, asHashData_iff, asArrayDatum_iff, asArrayData_iff] at hv
      obtain ⟨_, rfl, v0, rfl, _, rfl, v1, rfl, _, rfl, v2, rfl, hv⟩ := hv
      cases hv
      simp only [valW, elementsBulk_append, elementsBulk_cons v1 [_]]
      simp only [kidsW_cons, kidsW_nil, needW, valW, extraW, bulk, dqW, sqW, aliasedW, aliasW, entriesBulk, elementsBulk, entriesBulk_append, elementsBulk_append, entriesBulk_comments, elementsBulk_comments, linesW_append, linesW_cons, linesW_nil, lineW, docW, itemW, List.map_append, List.map_cons, List.map_nil, List.sum_append, List.sum_cons, List.sum_nil] at hk ⊢
      omega
    · simp only [Out.bind_ok_iff, asStr_iff, asNat_iff, asOptNat_iff, asStrs_iff, asDqEsc_iff, asDqParts_iff, asSqEsc_iff, asSqParts_iff, asChomping_iff, asYaml_iff, asAliased_iff, asHashElement_iff, asHashData_iff, asArrayDatum_iff, asArrayData_iff] at hv
      obtain ⟨_, rfl, v0, rfl, _, rfl, v1, rfl, hv⟩ := hv
      cases hv
      simp only [kidsW_cons, kidsW_nil, needW, valW, extraW, bulk, dqW, sqW, aliasedW, aliasW, entriesBulk, elementsBulk, entriesBulk_append, elementsBulk_append, entriesBulk_comments, elementsBulk_comments, linesW_append, linesW_cons, linesW_nil, lineW, docW, itemW, List.map_append, List.map_cons, List.map_nil, List.sum_append, List.sum_cons, List.sum_nil] at hk ⊢
      omega
    · cases hv
  case block_array =>
    simp only [act, Consume.blockArray] at hv
    split at hv
    · simp only [Out.bind_ok_iff, asStr_iff, asNat_iff, asOptNat_iff, asStrs_iff, asDqEsc_iff, asDqParts_iff, asSqEsc_iff, asSqParts_iff, asChomping_iff, asYaml_iff, asAliased_iff, asHashElement_iff, asHashData_iff, asArrayDatum_iff, asArrayData_iff] at hv
      obtain ⟨_, rfl, v0, rfl, _, rfl, v1, rfl, p, hp, hv⟩ := hv
      cases hv
      have := manyThen_array hp
      simp only [kidsW_cons, kidsW_nil, needW, valW, extraW, bulk, dqW, sqW, aliasedW, aliasW, entriesBulk, elementsBulk, entriesBulk_append, elementsBulk_append, entriesBulk_comments, elementsBulk_comments, linesW_append, linesW_cons, linesW_nil, lineW, docW, itemW, List.map_append, List.map_cons, List.map_nil, List.sum_append, List.sum_cons, List.sum_nil] at hk ⊢
      omega
    · cases hv
  case alternative_array =>
    simp only [act, Consume.alternativeArray] at hv
    split at hv
    · simp only [Out.bind_ok_iff, asStr_iff, asNat_iff, asOptNat_iff, asStrs_iff, asDqEsc_iff, asDqParts_iff, asSqEsc_iff, asSqParts_iff, asChomping_iff, asYaml_iff, asAliased_iff, asHashElement_iff, asHashData_iff, asArrayDatum_iff, asArrayData_iff] at hv
      obtain ⟨_, rfl, v0, rfl, _, rfl, v1, rfl, p, hp, hv⟩ := hv
      cases hv
      have := manyThen_array hp
      simp only [kidsW_cons, kidsW_nil, needW, valW, extraW, bulk, dqW, sqW, aliasedW, aliasW, entriesBulk, elementsBulk, entriesBulk_append, elementsBulk_append, entriesBulk_comments, elementsBulk_comments, linesW_append, linesW_cons, linesW_nil, lineW, docW, itemW, List.map_append, List.map_cons, List.map_nil, List.sum_append, List.sum_cons, List.sum_nil] at hk ⊢
      omega
    · cases hv
  case yaml =>
    simp only [act, Consume.yaml] at hv
    split at hv
    · simp only [Out.bind_ok_iff, asStr_iff, asNat_iff, asOptNat_iff, asStrs_iff, asDqEsc_iff, asDqParts_iff, asSqEsc_iff, asSqParts_iff, asChomping_iff, asYaml_iff, asAliased_iff, asHashElement_iff, asHashData_iff, asArrayDatum_iff, asArrayData_iff] at hv
      obtain ⟨_, rfl, v0, rfl, _, rfl, v1, rfl, _, rfl, v2, rfl, p, hp, hv⟩ := hv
      cases hv
      have := manyThen_doc hp
      simp only [valW, docW, List.map_append, List.sum_append, itemW_comments]
      simp only [kidsW_cons, kidsW_nil, needW, valW, extraW, bulk, dqW, sqW, aliasedW, aliasW, entriesBulk, elementsBulk, entriesBulk_append, elementsBulk_append, entriesBulk_comments, elementsBulk_comments, linesW_append, linesW_cons, linesW_nil, lineW, docW, itemW, List.map_append, List.map_cons, List.map_nil, List.sum_append, List.sum_cons, List.sum_nil] at hk ⊢
      omega
    · cases hv
  case unquoted_inline_string =>
    have := hu (by simp)
    have := byteLen_trimEndMatches text ' '
    cases hv
    simp only [valW, bulk, lineW]
    omega
  case unquoted_string =>
    have := hu (by simp)
    have := byteLen_trimEndMatches text ' '
    cases hv
    simp only [valW, bulk, lineW]
    omega
  case hash_key =>
    have := byteLen_trimEnd text
    cases hv
    simp only [valW]
    omega
  case blank_lines =>
    have := linesCount_le text
    have := length_le_byteLen text
    simp only [act, Consume.blankLines] at hv
    split at hv
    · cases hv
    · cases hv
      simp only [valW]
      omega
  case block_empty_lines =>
    cases hv
    simp only [valW, linesW_replicate]
    omega
  case string_multiline_trailing =>
    have := List.count_le_length (a := '\n') (l := text)
    have := length_le_byteLen text
    cases hv
    simp only [valW, linesW_replicate]
    omega
  case string_block_chomping =>
    simp only [act, Consume.stringBlockChomping] at hv
    split at hv
    · cases hv; simp only [valW]; omega
    · split at hv
      · cases hv; simp only [valW]; omega
      · cases hv
  case string_multiline_indent =>
    simp only [act, Consume.stringMultilineIndent] at hv
    split at hv
    · cases hv; simp only [valW]; omega
    · split at hv
      · cases hv
      · cases hv
      · cases hv; simp only [valW]; omega
  case escaped_double_quote_char_value =>
    simp only [act, Consume.escapedDoubleQuoteCharValue] at hv
    split at hv
    · cases hv
    · repeat' split at hv
      all_goals first | cases hv; simp only [valW, byteLen] at hk ⊢; omega | cases hv
  case single_quote =>
    simp only [act, Consume.singleQuote] at hv
    split at hv
    · cases hv
    · split at hv
      · cases hv; simp only [valW] at hk ⊢; omega
      · cases hv
  all_goals cases hv

theorem semKids_weight {us : List (Tree Rule)} (h : ∀ t ∈ us, needW t.root (sem t) ≤ byteLen t.text) : kidsW (semKids us) ≤ kidBytes us := by
  induction us with
  | nil => exact Nat.le_refl _
  | cons t us ih =>
    obtain ⟨r, x, cs⟩ := t
    have h1 := h _ (List.mem_cons_self ..)
    have h2 := ih fun t ht => h t (List.mem_cons_of_mem _ ht)
    simp only [semKids, kidsW_cons, kidBytes_cons, Tree.root] at h1 ⊢
    omega

theorem lits_silent (T : CharTables) (q : Rule) (h : (yamlGrammar T).kind q = .silent) :
    silentW q ≤ lits (yamlGrammar T).kind silentW ((yamlGrammar T).body q) := by
  cases q <;> first
    | exact Nat.zero_le _
    | exact Nat.le_refl 1

theorem nonempty_text {T : CharTables} {s k us rest k'} {q : Rule} {e : Expr Rule}
    (h : Yes (yamlGrammar T) (.seq (.rule q) e) s k us rest k') (hq : 1 ≤ lits Rule.kind silentW (Rule.body T q)) :
    1 ≤ byteLen (consumed s rest) := by
  obtain ⟨ts₁, s₁, k₁, ts₂, h1, h2, rfl⟩ := yes_seq.1 h
  obtain ⟨us, h3, rfl⟩ := yes_rule.1 h1
  have := h3.bytes (lits_silent T)
  rw [byteLen_consumed h1.suffix h2.suffix]
  change _ + lits Rule.kind silentW (Rule.body T q) ≤ _ at this
  omega

/-- Every node is at least as long as what it says. -/
theorem tree_weight {T : CharTables} {inp : Str} {t : Tree Rule} (h : Derived (yamlGrammar T) YamlStack inp t) : needW t.root (sem t) ≤ byteLen t.text := by
  induction h with
  | @node r pre s rest k k' us hs hi h hk ih =>
    simp only [Tree.root, Tree.text, sem]
    cases hv : act r (consumed s rest) (semKids (keptKids ((yamlGrammar T).kind r) us)) with
    | ok v =>
      have hb := h.bytes (lits_silent T)
      have hkept : kidBytes (keptKids ((yamlGrammar T).kind r) us) ≤ kidBytes us := by
        simp only [keptKids]
        split
        · exact Nat.zero_le _
        · exact Nat.le_refl _
      have h1 := semKids_weight ih
      refine act_weight (T := T) hv ?_ ?_
      · change _ + lits (yamlGrammar T).kind silentW ((yamlGrammar T).body r) ≤ _
        omega
      · rintro (rfl | rfl | rfl)
        · exact nonempty_text h (Nat.le_refl 1)
        · exact nonempty_text h (Nat.le_refl 1)
        · exact Nat.le_trans (show 1 ≤ 2 by decide) (Nat.le_trans (Nat.le_add_left _ _) hb)
    | _ => exact Nat.zero_le _
  | eoi h =>
    rename_i r
    cases r <;> first | cases h; done | exact Nat.zero_le _

/-- A text is at least as long as what is parsed from it. -/
theorem parsed_weight {T : CharTables} {s : Str} {d : Document} (h : parseYamlFile T s = .ok d) : docW d + 3 ≤ byteLen s := by
  unfold parseYamlFile at h
  cases he : eval (yamlGrammar T) (yamlFuel s) (.rule .yaml) s [] with
  | fail => rw [he] at h; cases h
  | panic => rw [he] at h; cases h
  | oof => rw [he] at h; cases h
  | ok ts rest k =>
    rw [he] at h
    have hy : Yes (yamlGrammar T) (.rule .yaml) s [] ts rest k := ⟨_, he⟩
    have hd := hy.derived (I := Spaces) (req := yamlIndents) (known := pushesSpaces) (st := []) (st' := []) (inp := s)
      (yaml_pushes T) (yamlIndents_ok T) (yaml_eoi T) (by simp [pushed]) rfl (by simp [eoiRules]) ⟨[], rfl⟩ trivial
    obtain ⟨us, hus, rfl⟩ := yes_rule.1 hy
    obtain rfl := yaml_rest hus
    have hw : wrap ((yamlGrammar T).kind .yaml) .yaml s [] us = [.node .yaml (consumed s []) us] := rfl
    rw [hw] at hd h
    have hs := tree_weight (hd _ (List.mem_singleton.2 rfl))
    have h' : (sem (.node .yaml (consumed s []) us)).bind Val.asDoc = .ok d := h
    obtain ⟨v, hv, hd'⟩ := Out.ok_of_bind h'
    rw [hv] at hs
    cases v <;> cases hd'
    simpa [Tree.text, Tree.root, consumed, needW, valW, extraW] using hs

end YamlSubset
