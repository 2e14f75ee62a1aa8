import Verif.Spec.Program

/-
The size of a client program.
-/

namespace TapStark

namespace Prog

/-- Field operations, constants and inputs of a call. -/
def Ins.nodes : Ins → Nat
  | .binC .. => 2
  | .sum _ is | .product _ is => max 1 is.length
  | _ => 1

/-- Those of a program. -/
def nodes (p : List Ins) : Nat := (p.map Ins.nodes).sum

end Prog

end TapStark
