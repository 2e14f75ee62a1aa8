import Verif.Spec.TapTree
import Verif.Spec.Tcs

/-!
Specification side of C115: openings of a proof against the data of commitments.
-/

namespace TapStark.Tcs

open TapStark.Tap

variable {F H : Type} [LinearOrder H]

/-- The path of the opening and the tree of the commitment contain two different inputs of the tagged hash functions with
the same hash. -/
def Collides (th : TapHash (List Op) H) (π : Proof H) (d : Committed F H) : Prop :=
  ∃ ver s, π.leaf.kind = .script ver s ∧
    ∃ q ∈ leafQueries th ver s π.leaf.branch, ∃ q' ∈ treeQueries th d.tree, q ≠ q' ∧ q.eval th = q'.eval th

end TapStark.Tcs
