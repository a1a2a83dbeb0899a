import Verif.Lemmas.LayDocument
import Verif.Lemmas.FormatSize

/-! # Mappings nested in each other on one line -/

namespace YamlSubset.Lay

open Peg Spec

variable {T : CharTables}

/-- `a: a: … []`, with `n` keys. -/
def keyLine : Nat → Str
  | 0 => ['[', ']']
  | n + 1 => 'a' :: ':' :: ' ' :: keyLine n

/-- `n` mappings nested in each other. -/
def chain : Nat → Yaml
  | 0 => .inlineArray []
  | n + 1 => .hash [.element ⟨['a'], ⟨none, chain n⟩⟩]

theorem key_a : KeyText T ['a'] := by
  have hl : NameChar T 'a' := by
    simp [NameChar, T.letter_ascii 'a' (by decide)]
  refine ⟨by simp, ?_, ?_, ?_⟩
  · intro c h; cases h; exact hl
  · intro c h; rw [List.mem_singleton.1 h]; exact .inl hl
  · intro c h; cases h; decide

theorem follow_end (hold : Holder) (b : Nat) (next : LineKind) (s : Nat) : Follow T hold .loose b next s [] := ⟨0, [], rfl, fun _ => rfl, .inl ⟨rfl, by simp⟩⟩

theorem trim_nil {r : Str} (h : Trim [] r) : r = [] := by
  obtain ⟨n, h⟩ := h
  exact (List.append_eq_nil_iff.1 h.symm).2

theorem chain_element (n : Nat) (h : Reads T (leadExpr .key) (' ' :: keyLine n) [indent 0] [(.block_array_aliased_yaml_value, .aliased ⟨none, chain n⟩)] [] [indent 0]) :
    Reads T entryExpr (keyLine (n + 1)) [indent 0] [(.hash_element, .hashElement ⟨['a'], ⟨none, chain n⟩⟩)] [] [indent 0] :=
  .seq (l₂ := []) (reads_hash_element (n := 0) key_a h) ((follow_end .key 0 .none 0).no_comment _)

theorem notSp_line (n : Nat) : NotSp (keyLine n) := by cases n <;> simp [keyLine, NotSp] <;> decide

theorem chain_reads : (n : Nat) →
    Reads T (leadExpr .key) (' ' :: keyLine n) [indent 0] [(.block_array_aliased_yaml_value, .aliased ⟨none, chain n⟩)] [] [indent 0]
  | 0 => by
    have h := scalar_reads (T := T) (t := some 0) (next := .none) (s := 0) (hold := .key) (Lead.plain (n := 0))
      (.flow (by simp) (FlowText.emptyArray (w := []) (by simp [Ws]))) 0 [] [] (Nat.le_refl _) (.inl rfl) (follow_end _ _ _ _)
    obtain ⟨r', ht, h⟩ := h
    obtain rfl := trim_nil ht
    simpa [keyLine, chain, pad] using h
  | n + 1 => by
    have h1 := chain_element n (chain_reads n)
    have h2 := alternative_one (T := T) (.inl ⟨_, rfl, rfl⟩) h1 ((follow_end .key 0 .none 0).not_continuation (.inl (Nat.le_refl _)) _) (follow_end .key 0 .none 0)
    have h3 := value_alternative (T := T) (.inl rfl) (by simp [keyLine]) (.altL h2)
    have := reads_leads (T := T) (hold := .key) (n := 0) (notSp_line (n + 1)) h3
    simpa [indent, chain] using this

theorem chain_root (n : Nat) : Reads T (.rule .document) (keyLine (n + 1)) [] [(.document, .yaml (chain (n + 1)))] [] [] := by
  have h1 := chain_element (T := T) n (chain_reads n)
  have hat : EntriesAt T 0 [] [.element ⟨['a'], ⟨none, chain n⟩⟩] (keyLine (n + 1)) [] :=
    ⟨[.element ⟨['a'], ⟨none, chain n⟩⟩], [], _, [], [], by simp, .inl ⟨_, rfl, rfl⟩, .refl _, by simpa using h1,
      .starNil ((follow_end .key 0 .none 0).not_hash_data (.inr (by simp)) _)⟩
  obtain ⟨r', htr, hv⟩ := hash_value (map := true) (cs := []) (by simpa using notSp_line (n + 1)) hat (follow_end .key 0 .none 0)
  obtain rfl := trim_nil htr
  have hk := key_head (T := T) key_a (':' :: ' ' :: keyLine n)
  have := hv _ (start_comments (x := []) .nil (c := 0) (y := keyLine (n + 1) ++ []) (by simpa [keyLine] using hk.1) (by simp [keyLine]))
  exact .rule (l := [(.hash, .yaml (chain (n + 1)))]) rfl (.altL (by simpa [indent, chain] using this)) fun _ => rfl

theorem chain_parses (n : Nat) : parseYamlFile T (c!"---\n" ++ keyLine (n + 1)) = .ok ⟨[], [.yaml (chain (n + 1))]⟩ := by
  have hk := (key_head (T := T) key_a (':' :: ' ' :: keyLine n)).1
  have hfull : FullLine (keyLine (n + 1)) := ⟨0, _, rfl, hk.black⟩
  have hpre : Reads T (.rule .commentnls) (keyLine (n + 1)) [] [(.commentnls, .strs [])] (keyLine (n + 1)) [] :=
    CommentLines.nil.reads (T := T) (n := 0) hk []
  obtain ⟨q, m, hblank, hend⟩ := (Tail.nil (cl := .loose) (c := 0) (by simp)).reads (T := T) (.refl _) []
  have hsp : Reads T (.rule .spaces) (indent m) [] [] [] [] := by
    have := (ws_indent m).reads (T := T) (r := []) bare_nil.spaces []
    simpa using this
  have hbody : Reads T ((Rule.yaml).body T) ('-' :: ('-' :: '-' :: ([] ++ (['\n'] ++ ([] ++ keyLine (n + 1)))))) []
      ([(.leading_comments, .strs [])] ++ ([(.commentnls, .strs [])] ++ ([(.document, .yaml (chain (n + 1)))] ++ ([] ++ [(.EOI, .unit)])))) [] [] :=
    .seq (l₁ := []) (.soi _ _) (.seq (LeadingText.nil.reads _ _) (.seq (l₁ := []) (.str ['-', '-', '-'] _ _)
      (.seq (l₁ := []) (reads_blanknl_lines (n := 0) (.inl rfl) .nil hfull _)
      (.seq hpre (.seq (chain_root n) (.seq (l₁ := []) hblank (.seq hend (.seq (l₁ := []) hsp (Reads.eoi []))))))))) 
  have : Reads T (.rule .yaml) ('-' :: ('-' :: '-' :: ([] ++ (['\n'] ++ ([] ++ keyLine (n + 1)))))) []
      [(.yaml, .doc ⟨[], [.yaml (chain (n + 1))]⟩)] [] [] := Reads.rule (q := .yaml) rfl hbody fun u => rfl
  exact this.parse

theorem byteLen_keyLine (n : Nat) : byteLen (keyLine n) = 3 * n + 2 := by
  induction n with
  | zero => rfl
  | succ n ih =>
    have : 'a'.utf8Size = 1 ∧ ':'.utf8Size = 1 ∧ ' '.utf8Size = 1 := ⟨rfl, rfl, rfl⟩
    simp only [keyLine, byteLen, ih, this]
    omega

/-- Formatting the chain writes every key on a line of its own, further to the right each time. -/
theorem chain_format_size (n : Nat) : ∀ sp par, par ≠ some .array → n * sp + n * n + 2 * n + 3 ≤ byteLen ((chain n).format sp par) := by
  induction n with
  | zero => intro sp par _; simp [chain, Yaml.format, formatInlineElements, byteLen, size_chars]
  | succ n ih =>
    intro sp par hp
    have h1 := ih (sp + 2) (some .hash) (by simp)
    have : 'a'.utf8Size = 1 ∧ ':'.utf8Size = 1 ∧ '\n'.utf8Size = 1 := ⟨rfl, rfl, rfl⟩
    simp only [chain, Yaml.format, formatHash, List.isEmpty_cons, Bool.false_eq_true, if_false, hp, decide_false, Bool.false_and, List.append_nil,
      byteLen_append, byteLen, byteLen_indent, this]
    have e1 : n * (sp + 2) = n * sp + 2 * n := by rw [Nat.mul_add]; omega
    have e2 : (n + 1) * sp = n * sp + sp := by rw [Nat.add_mul]; omega
    have e3 : (n + 1) * (n + 1) = n * n + 2 * n + 1 := by rw [Nat.add_mul, Nat.mul_add]; omega
    omega

end YamlSubset.Lay
