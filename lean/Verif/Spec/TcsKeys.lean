import Verif.Spec.Tcs
import Verif.Spec.Winternitz

/-!
Specification side of C112: operators of a proof, which need not be those of the commitment.
-/

namespace TapStark.Tcs

/-- Witnesses that `other` makes, given to the locking script of `bc`: they have `size` elements, and if they open it then to
the values they were made for. -/
structure Shows (cfg : Cfg) (words size : Nat) (bc other : Bc) : Prop where
  length : ∀ vs : List Nat, vs.length = words → (other.wit vs).length = size
  value : ∀ vs : List Nat, vs.length = words → (∀ v ∈ vs, v < 2 ^ 31) → ∀ us,
    Opens cfg bc (other.wit vs).reverse us → us = vs.map fun v : Nat => (v : Int)

/-- The operators of a proof show their values to those of a commitment. -/
structure ShowsAll (cfg : Cfg) (words isize esize : Nat) (u other : UseBcs) : Prop where
  index : Shows cfg 1 isize u.index other.index
  evals : ∀ bc ∈ u.evals, ∀ o ∈ other.evals, Shows cfg words esize bc o

end TapStark.Tcs
