import Verif.Lemmas.PathParse
import Verif.Lemmas.PathShape
import Verif.Lemmas.KernelRfl
import Verif.Props.Termination

/-! # C12-C15: texts of paths -/

namespace YamlSubset

open Peg Spec

theorem parse_of_yes {s : Str} {t : Tree PRule} {p : YamlPath} (h : Yes pathGrammar (.rule .final_path) s [] [t] [] [])
    (hp : psem t = .ok (.path p)) : YamlPath.parse s = .ok p := by
  rw [YamlPath.parse, h.eval_eq (path_eval_ne_oof s)]
  simp only [finishPath, hp]
  rfl

/-! ## C13: keys, indexes and conditions -/

/-- **C13.** The text of every path with clean names parses to that path. -/
theorem C13_rendered_paths_parse {k : Str} {cs : List Condition} {steps : List Step} (hk : CleanKey k)
    (hc : ∀ c ∈ cs, CleanCondition c) (hs : ∀ s ∈ steps, CleanStep s) (hsep : Separated cs steps) :
    YamlPath.parse (renderPath k cs steps) = .ok (.key k cs (pathOf steps)) := by
  obtain ⟨t, h1, h2⟩ := parse_render hk hc hs hsep
  exact parse_of_yes h1 h2

/-- **C13, the document itself.** A path without keys, with conditions on the document. -/
theorem C13_rendered_root_parses {cs : List Condition} (hc : ∀ c ∈ cs, CleanCondition c) :
    YamlPath.parse (renderConditions cs) = .ok (.root cs) := by
  obtain ⟨t, h1, h2⟩ := yes_root cs hc
  exact parse_of_yes h1 h2

/-- A decidable form of clean text, for examples. -/
theorem cleanText {stop : List Char} {s : Str}
    (h : (s ≠ [] ∧ s.head? ≠ some ' ' ∧ s.getLast? ≠ some ' ' ∧ ∀ c ∈ s, c ∉ stop)) : CleanText stop s :=
  ⟨h.1, h.2.1, h.2.2.1, h.2.2.2⟩

/-- A path with every kind of step, spaces and non-ASCII characters in names. -/
example : renderPath c!"user é" [⟨c!"type", c!"a b"⟩] [.key c!"b" [], .all [], .index 12 [⟨c!"x", c!"[1]"⟩, ⟨c!"y", c!"="⟩], .key c!"z" []] =
      c!"user é|type=a b.b[*][12]|x=[1]|y==.z" ∧
    YamlPath.parse c!"user é|type=a b.b[*][12]|x=[1]|y==.z" =
      .ok (.key c!"user é" [⟨c!"type", c!"a b"⟩] (some (.key c!"b" [] (some (.allIndexes [] (some
        (.indexes [12] [⟨c!"x", c!"[1]"⟩, ⟨c!"y", c!"="⟩] (some (.key c!"z" [] none))))))))) := by
  have h1 : renderPath c!"user é" [⟨c!"type", c!"a b"⟩] [.key c!"b" [], .all [], .index 12 [⟨c!"x", c!"[1]"⟩, ⟨c!"y", c!"="⟩], .key c!"z" []] =
      c!"user é|type=a b.b[*][12]|x=[1]|y==.z" := by kernel_rfl
  refine ⟨h1, ?_⟩
  rw [← h1]
  refine C13_rendered_paths_parse (cleanText (by decide)) ?_ ?_ ?_
  · intro c hc
    simp only [List.mem_singleton] at hc
    subst hc
    exact ⟨cleanText (by decide), cleanText (by decide)⟩
  · intro s hs
    simp only [List.mem_cons, List.not_mem_nil, or_false] at hs
    rcases hs with rfl | rfl | rfl | rfl
    · exact ⟨by rintro k cs h; cases h; exact cleanText (by decide), by simp [Step.conditions], by nofun⟩
    · exact ⟨by nofun, by simp [Step.conditions], by nofun⟩
    · refine ⟨by nofun, ?_, by rintro n cs h; cases h; decide⟩
      intro c hc
      simp only [Step.conditions, List.mem_cons, List.not_mem_nil, or_false] at hc
      rcases hc with rfl | rfl <;> exact ⟨cleanText (by decide), cleanText (by decide)⟩
    · exact ⟨by rintro k cs h; cases h; exact cleanText (by decide), by simp [Step.conditions], by nofun⟩
  · simp [Separated, Step.isKey, Step.conditions]

/-- Why steps must be separated: an index right after a condition becomes a part of the value of the condition. -/
theorem C13_counterexample_index_after_condition :
    renderPath c!"a" [⟨c!"f", c!"v"⟩] [.all []] = c!"a|f=v[*]" ∧
    YamlPath.parse c!"a|f=v[*]" = .ok (.key c!"a" [⟨c!"f", c!"v[*]"⟩] none) := ⟨by kernel_rfl, by kernel_rfl⟩

/-- Why names must not start with a space: the space hides the dot after it. -/
theorem C13_counterexample_leading_space :
    renderPath c!" " [] [.key c!"b" []] = c!" .b" ∧ YamlPath.parse c!" .b" = .ok (.key c!" .b" [] none) :=
  ⟨by kernel_rfl, by kernel_rfl⟩

/-! ## C12: dotted keys -/

/-- The path that visits the keys in order. -/
def Spec.keysPath : List Str → Option YamlPath
  | [] => none
  | k :: ks => some (.key k [] (keysPath ks))

theorem keysPath_eq (ks : List Str) : pathOf (ks.map fun k => Step.key k []) = keysPath ks := by
  induction ks with
  | nil => rfl
  | cons k ks ih => simp [pathOf, keysPath, ih]

theorem intercalate_dots (k : Str) (ks : List Str) :
    List.intercalate ['.'] (k :: ks) = renderPath k [] (ks.map fun k => Step.key k []) := by
  induction ks generalizing k with
  | nil => simp [renderPath, renderConditions, List.intercalate, List.intersperse]
  | cons j ks ih =>
    have h := ih j
    simp only [List.intercalate, renderPath, renderConditions, List.append_nil] at h ⊢
    rw [List.intersperse_cons_cons]
    simp only [List.flatten_cons, h, List.map_cons, Step.render, renderConditions, List.append_nil]
    simp

theorem separated_keys (ks : List Str) : Separated [] (ks.map fun k => Step.key k []) := by
  induction ks with
  | nil => trivial
  | cons k ks ih => exact ⟨by simp, ih⟩

/-- **C12.** Clean names joined with dots parse to the path that visits them in order. -/
theorem C12_dotted_keys_parse {ks : List Str} (h0 : ks ≠ []) (hk : ∀ k ∈ ks, CleanKey k) :
    ∃ p, YamlPath.parse (List.intercalate ['.'] ks) = .ok p ∧ keysPath ks = some p := by
  cases ks with
  | nil => exact absurd rfl h0
  | cons k ks =>
    refine ⟨_, ?_, rfl⟩
    rw [intercalate_dots, C13_rendered_paths_parse (hk k (by simp)) (by simp) ?_ (separated_keys ks), keysPath_eq]
    intro s hs
    obtain ⟨j, hj, rfl⟩ := List.mem_map.1 hs
    exact ⟨by rintro k cs h; cases h; exact hk j (by simp [hj]), by simp [Step.conditions], by nofun⟩

example : (∀ k ∈ [c!"a b", c!"ü", c!"-|-".filter (· ≠ '|')], CleanKey k) ∧
    List.intercalate ['.'] [c!"a b", c!"ü", c!"--"] = c!"a b.ü.--" := by
  refine ⟨?_, by kernel_rfl⟩
  intro k hk
  simp only [List.mem_cons, List.not_mem_nil, or_false] at hk
  rcases hk with rfl | rfl | rfl <;> exact cleanText (by decide)

/-! ## C14: appending paths -/

/-- **C14, associativity.** -/
theorem C14_insert_assoc (a b c : YamlPath) : (a.insert b).insert c = a.insert (b.insert c) := insert_assoc a b c

/-- **C14, roots.** A root is replaced. -/
theorem C14_insert_root (cs : List Condition) (p : YamlPath) : (YamlPath.root cs).insert p = p := rfl

theorem insert_pathOf (steps steps' : List Step) {a b : YamlPath} (ha : pathOf steps = some a)
    (hb : pathOf steps' = some b) : pathOf (steps ++ steps') = some (a.insert b) := by
  induction steps generalizing a with
  | nil => cases ha
  | cons s t ih =>
    cases ht : pathOf t with
    | none =>
      have : t = [] := by
        cases t with
        | nil => rfl
        | cons x t => cases x <;> simp [pathOf] at ht
      subst this
      cases s <;> simp only [pathOf, Option.some.injEq] at ha <;> subst ha <;>
        simp only [List.cons_append, List.nil_append, pathOf, YamlPath.insert, hb]
    | some o =>
      have h := ih ht
      cases s <;> simp only [pathOf, Option.some.injEq, ht] at ha <;> subst ha <;>
        simp only [List.cons_append, pathOf, YamlPath.insert, h]

/-- **C14, steps.** Inserting appends: the steps of the result are those of the receiver and then those of the argument. -/
theorem C14_insert_appends (steps steps' : List Step) {a b : YamlPath} (ha : pathOf steps = some a)
    (hb : pathOf steps' = some b) : pathOf (steps ++ steps') = some (a.insert b) := insert_pathOf steps steps' ha hb

theorem separated_append {cs cs' : List Condition} {k : Str} {steps steps' : List Step} (h : Separated cs steps)
    (h' : Separated cs' steps') : Separated cs (steps ++ .key k cs' :: steps') := by
  induction steps generalizing cs with
  | nil => exact ⟨fun _ => rfl, h'⟩
  | cons s t ih => exact ⟨h.1, ih h.2⟩

/-- **C14, texts.** Inserting the parse of `b` into the parse of `a` is the parse of `a.b`. -/
theorem C14_insert_dot {k k' : Str} {cs cs' : List Condition} {steps steps' : List Step} {a b : YamlPath}
    (hk : CleanKey k) (hc : ∀ c ∈ cs, CleanCondition c) (hs : ∀ s ∈ steps, CleanStep s) (hsep : Separated cs steps)
    (hk' : CleanKey k') (hc' : ∀ c ∈ cs', CleanCondition c) (hs' : ∀ s ∈ steps', CleanStep s) (hsep' : Separated cs' steps')
    (ha : YamlPath.parse (renderPath k cs steps) = .ok a) (hb : YamlPath.parse (renderPath k' cs' steps') = .ok b) :
    YamlPath.parse (renderPath k cs steps ++ '.' :: renderPath k' cs' steps') = .ok (a.insert b) := by
  rw [C13_rendered_paths_parse hk hc hs hsep] at ha
  rw [C13_rendered_paths_parse hk' hc' hs' hsep'] at hb
  cases ha
  cases hb
  have e : renderPath k cs steps ++ '.' :: renderPath k' cs' steps' = renderPath k cs (steps ++ .key k' cs' :: steps') := by
    simp [renderPath, Step.render]
  have hall : ∀ s ∈ steps ++ .key k' cs' :: steps', CleanStep s := by
    intro s h
    rcases List.mem_append.1 h with h | h
    · exact hs s h
    · rcases List.mem_cons.1 h with rfl | h
      · exact ⟨by rintro k cs h; cases h; exact hk', hc', by nofun⟩
      · exact hs' s h
  rw [e, C13_rendered_paths_parse hk hc hall (separated_append hsep hsep')]
  have h := insert_pathOf (.key k cs :: steps) (.key k' cs' :: steps') (a := .key k cs (pathOf steps)) rfl rfl
  rw [List.cons_append, pathOf, Option.some.injEq] at h
  rw [h]

example : YamlPath.parse c!"a[1].b|f=v" =
    .ok ((YamlPath.key c!"a" [] (some (.indexes [1] [] none))).insert (.key c!"b" [⟨c!"f", c!"v"⟩] none)) := by
  kernel_rfl

/-! ## C15: parsing ends, and does not always end well (the exact outcomes are in `Props/PathExact.lean`) -/

theorem bind_ne_oof {α β : Type} {o : Out α} {f : α → Out β} (h : o ≠ .oof) (hf : ∀ v, f v ≠ .oof) : o.bind f ≠ .oof := by
  cases o with
  | ok v => exact hf v
  | oof => exact absurd rfl h
  | _ => nofun

theorem as_ne_oof (v : PVal) : v.asStr ≠ .oof ∧ v.asCond ≠ .oof ∧ v.asIdx ≠ .oof ∧ v.asPath ≠ .oof := by
  cases v <;> exact ⟨nofun, nofun, nofun, nofun⟩

theorem pmany_ne_oof {α : Type} {r : PRule} {as : PVal → Out α} (has : ∀ v, as v ≠ .oof) {kids : PKids}
    (h : ∀ x ∈ kids, x.2 ≠ .oof) : pmany r as kids ≠ .oof := by
  induction kids with
  | nil => nofun
  | cons x t ih =>
    obtain ⟨r', v⟩ := x
    simp only [pmany]
    split
    · exact bind_ne_oof (h _ (List.mem_cons_self ..)) fun v => bind_ne_oof (has v) fun a =>
        bind_ne_oof (ih fun x hx => h x (by simp [hx])) fun _ => nofun
    · nofun

theorem pact_ne_oof (r : PRule) (text : Str) (kids : PKids) (h : ∀ x ∈ kids, x.2 ≠ .oof) : pact r text kids ≠ .oof := by
  cases r <;> simp only [pact] <;> try (intro h; cases h; done)
  case index_number =>
    refine bind_ne_oof ?_ fun _ => nofun
    cases parseU64 text <;> nofun
  all_goals
    split <;> try (intro h; cases h; done)
    all_goals
      repeat' (first
        | (intro h; cases h; done)
        | exact h (_, _) (List.mem_cons_self ..)
        | exact h (_, _) (List.mem_cons_of_mem _ (List.mem_cons_self ..))
        | exact (as_ne_oof _).1
        | exact (as_ne_oof _).2.1
        | exact (as_ne_oof _).2.2.1
        | exact (as_ne_oof _).2.2.2
        | exact pmany_ne_oof (fun v => (as_ne_oof v).2.1) fun x hx => h x (by simp [hx])
        | exact pmany_ne_oof (fun v => (as_ne_oof v).2.2.2) fun x hx => h x (by simp [hx])
        | (refine bind_ne_oof ?_ ?_)
        | intro _)

mutual
theorem psem_ne_oof (t : Tree PRule) : psem t ≠ .oof := by
  cases t with
  | node r text cs => rw [psem]; exact pact_ne_oof r text _ (psemKids_ne_oof cs)
theorem psemKids_ne_oof (ts : List (Tree PRule)) : ∀ x ∈ psemKids ts, x.2 ≠ .oof := by
  cases ts with
  | nil => simp [psemKids]
  | cons t ts =>
    obtain ⟨r, text, cs⟩ := t
    intro x hx
    simp only [psemKids, List.mem_cons] at hx
    rcases hx with rfl | hx
    · exact psem_ne_oof (.node r text cs)
    · exact psemKids_ne_oof ts x hx
end

/-- **C15, termination.** Parsing ends on every text. -/
theorem C15_path_parsing_terminates (s : Str) :
    YamlPath.parse s ≠ .oof ∧
    ∀ n, pathFuel s ≤ n → finishPath (eval pathGrammar n (.rule .final_path) s []) = YamlPath.parse s := by
  refine ⟨?_, fun n hn => by rw [YamlPath.parse, eval_mono hn (path_eval_ne_oof s)]⟩
  unfold YamlPath.parse
  have := path_eval_ne_oof s
  cases h : eval pathGrammar (pathFuel s) (.rule .final_path) s [] with
  | oof => exact absurd h this
  | ok ts r k =>
    rcases ts with - | ⟨t, - | ⟨u, ts⟩⟩
    · nofun
    · exact bind_ne_oof (psem_ne_oof t) fun v => (as_ne_oof v).2.2.2
    · nofun
  | _ => nofun

/-- Counterexample to C15: an index of more than 64 bits. -/
theorem C15_counterexample_overflow : YamlPath.parse c!"a[18446744073709551616]" = .panic := by kernel_rfl

/-- The largest index is fine. -/
example : YamlPath.parse c!"a[18446744073709551615]" = .ok (.key c!"a" [] (some (.indexes [18446744073709551615] [] none))) := by
  kernel_rfl

/-- Counterexample to C15: a space inside an index. -/
theorem C15_counterexample_space_in_index : YamlPath.parse c!"a[1 2]" = .panic := by kernel_rfl

/-- Counterexample to C15: a space before a dot gives a node that no arm of the consumer expects. -/
theorem C15_counterexample_space_before_dot : YamlPath.parse c!"a[1] .b" = .unmatched := by kernel_rfl

end YamlSubset
