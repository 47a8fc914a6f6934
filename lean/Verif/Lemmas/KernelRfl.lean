import Lean.Elab.Tactic.Basic

/-!
# Equality by computation

`kernel_rfl` closes a goal `a = b` with the term `Eq.refl a` and leaves it to the kernel to
compare the two sides.  `rfl` does the same after comparing them in the elaborator, which takes
too long for runs of many steps.
-/

open Lean Elab Tactic Meta in
/-- `a = b` by `Eq.refl a`, compared by the kernel. -/
elab "kernel_rfl" : tactic => liftMetaFinishingTactic fun g => do
  let t ← instantiateMVars (← g.getType)
  let some (α, a, _) := t.eq? | throwError "not an equality"
  g.assign (mkApp2 (.const ``Eq.refl [← getLevel α]) α a)
