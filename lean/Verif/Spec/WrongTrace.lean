import Verif.Spec.Stark

/-
What a proof made from an arbitrary trace stands for.
-/

namespace TapStark.Stark

open Polynomial

variable {K F : Type} [Field K] [Field F] [Algebra K F]

/-- `Q` is what the prover takes for the quotient of the combined constraints `P` by the vanishing polynomial of the `2^k`
rows: the polynomial of degree below `2^(k+q)` with the values of the quotient on the coset `s * <genV (k + q)>`.  It is the
quotient if the constraints hold in all rows, and some polynomial otherwise. -/
def CosetQuotient (genV : Nat → K) (s : K) (k q : Nat) (P Q : F[X]) : Prop :=
  Q.natDegree < 2 ^ (k + q) ∧ ∀ i, let x := algebraMap K F (s * genV (k + q) ^ i)
    (x ^ 2 ^ k - 1) * Q.eval x = P.eval x

end TapStark.Stark
