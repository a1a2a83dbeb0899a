import Lean.Elab.Tactic.Basic
import Lean.Meta.AppBuilder

/-! # Closing an equation between closed terms by evaluation in the kernel

Used for examples and counterexamples only. The tactic proposes `Eq.refl`; the kernel checks it. -/

open Lean Elab Tactic Meta in
/-- Prove `a = b` by `Eq.refl a`, leaving the conversion to the kernel. -/
elab "kernel_rfl" : tactic => do
  let g ← getMainGoal
  let t ← instantiateMVars (← g.getType)
  match t.eq? with
  | some (_, a, _) => g.assign (← mkEqRefl a)
  | none => throwError "not an equation"
