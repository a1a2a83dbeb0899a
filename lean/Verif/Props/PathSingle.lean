import Verif.Spec.Edit
import Verif.Props.Path

/-! # C15: a path that is parsed from a text repeats no index -/

namespace YamlSubset

open Spec Peg

theorem noRepeats_insert (p q : YamlPath) (hp : NoRepeats p) (hq : NoRepeats q) : NoRepeats (p.insert q) := by
  induction p using NoRepeats.induct with
  | case1 cs => exact hq
  | case2 k cs => exact hq
  | case3 k cs p ih => exact ih hp
  | case4 cs => exact hq
  | case5 cs p ih => exact ih hp
  | case6 is cs => exact ⟨hp, hq⟩
  | case7 is cs p ih => exact ⟨hp.1, ih hp.2⟩

/-- What the consumer gives has at most one index in a step. -/
def PValSingle : PVal → Prop
  | .idx is => is.Nodup
  | .path p => NoRepeats p
  | _ => True

theorem asPath_single {v : PVal} {p : YamlPath} (h : v.asPath = .ok p) (hv : PValSingle v) : NoRepeats p := by
  cases v <;> simp [PVal.asPath] at h
  subst h; exact hv

theorem asIdx_single {v : PVal} {is : List Nat} (h : v.asIdx = .ok is) (hv : PValSingle v) : is.Nodup := by
  cases v <;> simp [PVal.asIdx] at h
  subst h; exact hv

theorem pmany_single {r : PRule} (kids : PKids) {l : List YamlPath} (hk : ∀ x ∈ kids, ∀ v, x.2 = .ok v → PValSingle v)
    (h : pmany r PVal.asPath kids = .ok l) : ∀ p ∈ l, NoRepeats p := by
  induction kids generalizing l with
  | nil => simp [pmany] at h; subst h; simp
  | cons x t ih =>
    obtain ⟨r', o⟩ := x
    simp only [pmany] at h
    split at h
    · obtain ⟨v, h1, h⟩ := Out.bind_eq_ok.1 h
      obtain ⟨p, h2, h⟩ := Out.bind_eq_ok.1 h
      obtain ⟨m, h3, h⟩ := Out.bind_eq_ok.1 h
      simp only [Out.ok.injEq] at h
      subst h
      intro q hq
      rcases List.mem_cons.1 hq with rfl | hq
      · exact asPath_single h2 (hk (r', o) (by simp) v h1)
      · exact ih (fun x hx => hk x (by simp [hx])) h3 q hq
    · cases h

theorem foldl_insert_single (l : List YamlPath) (p : YamlPath) (hp : NoRepeats p) (hl : ∀ q ∈ l, NoRepeats q) :
    NoRepeats (l.foldl YamlPath.insert p) := by
  induction l generalizing p with
  | nil => exact hp
  | cons q t ih => exact ih _ (noRepeats_insert p q hp (hl q (by simp))) fun q hq => hl q (by simp [hq])

theorem pact_single (r : PRule) (text : Str) (kids : PKids) (hk : ∀ x ∈ kids, ∀ v, x.2 = .ok v → PValSingle v) (v : PVal)
    (h : pact r text kids = .ok v) : PValSingle v := by
  unfold pact at h
  split at h
  · cases h; trivial
  · cases h; trivial
  · cases h; trivial
  · cases h; trivial
  · split at h
    · obtain ⟨_, _, h⟩ := Out.bind_eq_ok.1 h
      obtain ⟨_, _, h⟩ := Out.bind_eq_ok.1 h
      obtain ⟨_, _, h⟩ := Out.bind_eq_ok.1 h
      obtain ⟨_, _, h⟩ := Out.bind_eq_ok.1 h
      cases h; trivial
    · cases h
  · split at h
    · obtain ⟨_, _, h⟩ := Out.bind_eq_ok.1 h
      obtain ⟨_, _, h⟩ := Out.bind_eq_ok.1 h
      obtain ⟨_, _, h⟩ := Out.bind_eq_ok.1 h
      cases h; trivial
    · cases h
  · obtain ⟨n, _, h⟩ := Out.bind_eq_ok.1 h
    cases h; simp [PValSingle]
  · cases h; trivial
  · split at h
    · obtain ⟨_, _, h⟩ := Out.bind_eq_ok.1 h
      obtain ⟨_, _, h⟩ := Out.bind_eq_ok.1 h
      cases h; trivial
    · obtain ⟨w, h1, h⟩ := Out.bind_eq_ok.1 h
      obtain ⟨i, h2, h⟩ := Out.bind_eq_ok.1 h
      obtain ⟨_, _, h⟩ := Out.bind_eq_ok.1 h
      cases h
      exact asIdx_single h2 (hk _ (List.mem_cons_self ..) w h1)
    · obtain ⟨w, h1, h⟩ := Out.bind_eq_ok.1 h
      obtain ⟨p, h2, h⟩ := Out.bind_eq_ok.1 h
      cases h
      exact asPath_single h2 (hk _ (List.mem_cons_self ..) w h1)
    · cases h
  · split at h
    · obtain ⟨w, h1, h⟩ := Out.bind_eq_ok.1 h
      obtain ⟨p, h2, h⟩ := Out.bind_eq_ok.1 h
      obtain ⟨l, h3, h⟩ := Out.bind_eq_ok.1 h
      cases h
      exact foldl_insert_single l p (asPath_single h2 (hk _ (List.mem_cons_self ..) w h1))
        (pmany_single _ (fun x hx => hk x (List.mem_cons_of_mem _ hx)) h3)
    · cases h
  · cases h; trivial
  · split at h
    · obtain ⟨_, _, h⟩ := Out.bind_eq_ok.1 h
      obtain ⟨_, _, h⟩ := Out.bind_eq_ok.1 h
      cases h; trivial
    · cases h
  · split at h
    · obtain ⟨w, h1, h⟩ := Out.bind_eq_ok.1 h
      obtain ⟨p, h2, h⟩ := Out.bind_eq_ok.1 h
      obtain ⟨_, _, h⟩ := Out.bind_eq_ok.1 h
      cases h
      exact asPath_single h2 (hk _ (List.mem_cons_self ..) w h1)
    · obtain ⟨w, h1, h⟩ := Out.bind_eq_ok.1 h
      obtain ⟨p, h2, h⟩ := Out.bind_eq_ok.1 h
      obtain ⟨_, _, h⟩ := Out.bind_eq_ok.1 h
      cases h
      exact asPath_single h2 (hk _ (List.mem_cons_self ..) w h1)
    · cases h
  · cases h

mutual
theorem psem_single : ∀ (t : Tree PRule) (v : PVal), psem t = .ok v → PValSingle v
  | .node r text cs, v, h => by
    rw [psem] at h
    exact pact_single r text _ (psemKids_single cs) v h
theorem psemKids_single : ∀ (ts : List (Tree PRule)), ∀ x ∈ psemKids ts, ∀ v, x.2 = .ok v → PValSingle v
  | [], x, hx => by simp [psemKids] at hx
  | .node r text cs :: ts, x, hx => by
    rw [psemKids] at hx
    rcases List.mem_cons.1 hx with rfl | hx
    · exact fun v h => psem_single (.node r text cs) v h
    · exact psemKids_single ts x hx
end

/-- **C15.** A path that is parsed from a text repeats no index, whatever the text is, with or without spaces. So what is said about
paths that repeat no index (C18, C21, C22, C24, C26, C27, C56, C76) holds for every path that is written as a text. -/
theorem C15_parsed_no_repeats {s : Str} {p : YamlPath} (h : YamlPath.parse s = .ok p) : NoRepeats p := by
  unfold YamlPath.parse finishPath at h
  split at h
  · obtain ⟨v, h1, h2⟩ := Out.bind_eq_ok.1 h
    exact asPath_single h2 (psem_single _ v h1)
  all_goals cases h

/-- A text with three indexes. -/
example : NoRepeats (.key c!"a" [] (some (.indexes [0] [] (some (.indexes [0] [] (some (.key c!"b" [] (some (.indexes [1] [] none))))))))) :=
  C15_parsed_no_repeats (s := c!"a[0][0].b[1]") (by kernel_rfl)

end YamlSubset
