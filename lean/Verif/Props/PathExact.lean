import Verif.Lemmas.PathExact
import Verif.Lemmas.KernelRfl
import Verif.Props.Path

/-! # C15: exactly what parsing a path does -/

namespace YamlSubset

open Peg Spec

/-- A text is the text of at most one path. -/
theorem C15_path_text_unique {s : Str} {p q : YamlPath} (hp : PathText s p) (hq : PathText s q)
    (hpi : IndexesFit p) (hqi : IndexesFit q) : p = q := by
  obtain ⟨t, h1, h2⟩ := yes_pathText hp
  obtain ⟨u, h3, h4⟩ := yes_pathText hq
  obtain ⟨h5, -, -⟩ := h1.unique h3
  obtain rfl : t = u := by simpa using h5
  rw [if_pos hpi] at h2
  rw [h2, if_pos hqi] at h4
  simpa using h4

open Classical in
/-- **C15, every path is read.** Parsing the text of a path gives the path; only an index that does not fit 64 bits is a panic.
Names and values can contain spaces inside. -/
theorem C15_path_texts_parse {s : Str} {p : YamlPath} (h : PathText s p) :
    YamlPath.parse s = if IndexesFit p then .ok p else .panic := by
  obtain ⟨t, h1, h2⟩ := yes_pathText h
  rw [YamlPath.parse, h1.eval_eq (path_eval_ne_oof s)]
  simp only [finishPath, h2]
  by_cases hi : IndexesFit p
  · rw [if_pos hi, if_pos hi]; rfl
  · rw [if_neg hi, if_neg hi]; rfl

/-- A text without spaces that is not the text of a path is refused. -/
theorem parse_err_of_not_path {s : Str} (hs : ' ' ∉ s) (h : ¬ ∃ p, PathText s p) : YamlPath.parse s = .err := by
  rw [YamlPath.parse]
  cases he : eval pathGrammar (pathFuel s) (.rule .final_path) s [] with
  | fail => rfl
  | panic => exact absurd he (path_eval_ne_panic _ _)
  | oof => exact absurd he (path_eval_ne_oof _)
  | ok ts rest k => exact absurd (inv_path ⟨_, he⟩ hs) h

/-- **C15.** What parsing does with any text without spaces: it gives a path exactly if the text is the text of that path with
indexes of at most 64 bits; it panics exactly if the text is the text of a path with a larger index; and it reports an error
exactly if the text is not the text of any path. -/
theorem C15_path_parsing_exact {s : Str} (hs : ' ' ∉ s) :
    (∀ p, YamlPath.parse s = .ok p ↔ PathText s p ∧ IndexesFit p) ∧
    (YamlPath.parse s = .panic ↔ ∃ p, PathText s p ∧ ¬ IndexesFit p) ∧
    (YamlPath.parse s = .err ↔ ¬ ∃ p, PathText s p) := by
  by_cases h : ∃ p, PathText s p
  · obtain ⟨p, hp⟩ := h
    have hparse := C15_path_texts_parse hp
    by_cases hi : IndexesFit p
    · rw [if_pos hi] at hparse
      rw [hparse]
      refine ⟨fun q => ⟨?_, fun hq => ?_⟩, ⟨nofun, ?_⟩, nofun, fun hn => absurd ⟨p, hp⟩ hn⟩
      · rintro ⟨⟩; exact ⟨hp, hi⟩
      · rw [C15_path_text_unique hp hq.1 hi hq.2]
      · rintro ⟨q, hq, hqi⟩
        have := C15_path_texts_parse hq
        rw [hparse, if_neg hqi] at this
        cases this
    · rw [if_neg hi] at hparse
      rw [hparse]
      refine ⟨fun q => ⟨nofun, fun hq => ?_⟩, ⟨fun _ => ⟨p, hp, hi⟩, fun _ => rfl⟩, nofun, fun hn => absurd ⟨p, hp⟩ hn⟩
      have := C15_path_texts_parse hq.1
      rw [hparse, if_pos hq.2] at this
      cases this
  · rw [parse_err_of_not_path hs h]
    exact ⟨fun q => ⟨nofun, fun hq => absurd ⟨q, hq.1⟩ h⟩, ⟨nofun, fun ⟨q, hq, _⟩ => absurd ⟨q, hq⟩ h⟩, fun _ => h, fun _ => rfl⟩

/-- So a text without spaces is read or refused as soon as it holds no index of more than 64 bits. -/
theorem C15_path_parsing_safe {s : Str} (hs : ' ' ∉ s) (hi : ∀ p, PathText s p → IndexesFit p) :
    YamlPath.parse s = .err ∨ ∃ p, YamlPath.parse s = .ok p := by
  by_cases h : ∃ p, PathText s p
  · obtain ⟨p, hp⟩ := h
    exact .inr ⟨p, ((C15_path_parsing_exact hs).1 p).2 ⟨hp, hi p hp⟩⟩
  · exact .inl ((C15_path_parsing_exact hs).2.2.2 h)

/-! ## examples -/

/-- Leading zeros are allowed, and the value of a condition can contain brackets. -/
example : PathText c!"a|x=y[0].b[007]" (.key c!"a" [⟨c!"x", c!"y[0]"⟩] (some (.key c!"b" [] (some (.indexes [7] [] none))))) := by
  have ct : ∀ {stop s}, s ≠ [] → ' ' ∉ s → (∀ c ∈ s, c ∉ stop) → CleanText stop s := cleanText_of
  have h := PathText.key (k := c!"a") (cs := [⟨c!"x", c!"y[0]"⟩])
    (steps := [.key c!"b" [], .index (numberOf c!"007") []]) (u := c!".b" ++ (c!"[007]" ++ []))
    (ct (by decide) (by decide) (by decide))
    (by simpa using ⟨ct (by decide) (by decide) (by decide), ct (by decide) (by decide) (by decide)⟩)
    (.cons (fun _ => rfl) (.key (k := c!"b") (cs := []) (ct (by decide) (by decide) (by decide)) (by simp))
      (.cons (fun h => absurd rfl h) (.index (ds := c!"007") (cs := []) (by unfold Digits; decide) (by decide) (by simp)) .nil))
  exact h

example : YamlPath.parse c!"a|x=y[0].b[007]" =
    .ok (.key c!"a" [⟨c!"x", c!"y[0]"⟩] (some (.key c!"b" [] (some (.indexes [7] [] none))))) := by kernel_rfl

/-- Texts that are not paths. -/
example : YamlPath.parse c!"a." = .err ∧ YamlPath.parse c!"[0]" = .err ∧ YamlPath.parse c!"a[x]" = .err ∧
    YamlPath.parse c!"a|b" = .err ∧ YamlPath.parse c!"a[-1]" = .err ∧ YamlPath.parse c!"a]" = .err ∧
    YamlPath.parse c!".a" = .err := by
  refine ⟨?_, ?_, ?_, ?_, ?_, ?_, ?_⟩ <;> kernel_rfl

/-- With spaces there are further outcomes: a text that is not the text of a path can be accepted. -/
theorem C15_counterexample_space_before_stop : YamlPath.parse c!" .a" = .ok (.key c!" .a" [] none) := by kernel_rfl

end YamlSubset
