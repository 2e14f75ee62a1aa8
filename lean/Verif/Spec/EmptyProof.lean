import Verif.Model.Pcs

/-!
An opening proof without content.
-/

namespace TapStark.Pcs

open TapStark.Fri

variable {K F : Type} [Field F] {PI C P W : Type}

/-- An opening proof that opens nothing: no commitments, the right number of queries, each without input openings and
without openings of folded words, final value 0.  The proof-of-work witness is all it contains. -/
def emptyOpening (numQueries : Nat) (w : W) : FriProof F C P W (List (List (List K) × PI)) where
  commitPhaseCommits := []
  queryProofs := List.replicate numQueries ⟨[], []⟩
  finalPoly := 0
  powWitness := w

end TapStark.Pcs
