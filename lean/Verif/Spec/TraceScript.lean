import Verif.Spec.Stark
import Verif.Model.StarkInst

/-
What the constraints of an AIR stand for at a point outside the trace domain.
-/

namespace TapStark.Stark

/-- The opened rows `loc` and `nxt`, the public values, and the selectors of the domain of size `2^k` generated by `g` at
the point `z`: `(z^(2^k) - 1)/(z - 1)`, `(z^(2^k) - 1)/(z - 1/g)` and `z - 1/g`. -/
noncomputable def pointMeaning (g : BB) (k : Nat) (z : BB4) (loc nxt : List BB4) (pub : List BB) : Meaning BB4 where
  loc c := loc.getD c 0
  nxt c := nxt.getD c 0
  pub i := algebraMap BB BB4 (pub.getD i 0)
  first := (z ^ 2 ^ k - 1) / (z - 1)
  last := (z ^ 2 ^ k - 1) / (z - algebraMap BB BB4 g⁻¹)
  trans := z - algebraMap BB BB4 g⁻¹

end TapStark.Stark
