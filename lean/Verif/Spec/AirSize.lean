import Verif.Model.Stark

/-
The size of an AIR.
-/

namespace TapStark.Stark

/-- Operations, constants and variables of an expression. -/
def AExpr.nodes {F : Type} : AExpr F → Nat
  | .loc _ | .nxt _ | .pub _ | .const _ => 1
  | .isFirstRow | .isLastRow | .isTransition => 0
  | .add x y | .sub x y | .mul x y => x.nodes + y.nodes + 1
  | .neg x => x.nodes + 1

/-- Those of all assertions. -/
def Air.nodes {F : Type} (air : Air F) : Nat := (air.asserts.map fun a => a.expr.nodes).sum

end TapStark.Stark
