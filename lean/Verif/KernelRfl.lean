import Lean.Elab.Tactic.Basic

/-!
# `kernel_rfl`

Closes a goal `a = b` with the proof term `Eq.refl a`, leaving the check to the kernel alone, as `decide +kernel` does for
closed decidable goals.  The term is checked by the kernel when the theorem is added; the tactic is not trusted.
-/

namespace Verif

open Lean Elab Tactic Meta in
/-- Close `a = b` by `Eq.refl a`, checked by the kernel only. -/
elab "kernel_rfl" : tactic => do
  let g ← getMainGoal
  let some (α, a, _) := (← instantiateMVars (← g.getType)).eq? | throwError "not an equation"
  let u ← getLevel α
  g.assign (mkApp2 (mkConst ``Eq.refl [u]) α a)

end Verif
