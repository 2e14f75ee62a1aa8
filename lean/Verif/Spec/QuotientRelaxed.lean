import Verif.Spec.Dsl
import Verif.Model.StarkInst

/-
What is said about expressions that read no inputs, and about the values of quotient chunks.
-/

namespace TapStark.Stark

/-- The expression `e`, with identifiers up to `n`, reads no inputs and has the value `x`. -/
def HasValue (n : Nat) (e : Expr) (x : BB4) : Prop :=
  ∀ K env, ∃ H P, Built K H .new n P ∧ Den bb4Field K H env P e x

/-- The value of a chunk: its four opened columns are the coefficients of an extension element. -/
noncomputable def chunkVal (vs : List BB4) : BB4 := ((List.range 4).map fun j => vs.getD j 0 * bb4Deg.monomial j).sum

end TapStark.Stark
