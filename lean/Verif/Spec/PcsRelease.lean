import Verif.Model.Pcs

/-!
Claims about matrices taller than the domain of the opening proof.
-/

namespace TapStark.Pcs

open TapStark.Fri

variable {K F CI PI : Type}

/-- The same commitments, domains and points; any claimed values. -/
def SameButValues (rounds rounds' : List (VerifierRound K F CI)) : Prop :=
  List.Forall₂ (fun r r' => r.1 = r'.1 ∧
    List.Forall₂ (fun m m' => m.1 = m'.1 ∧ m.2.map Prod.fst = m'.2.map Prod.fst) r.2 r'.2) rounds rounds'

/-- The heights of the matrices that an input opening has rows for. -/
def openedHeights (logBlowup : Nat) (rounds : List (VerifierRound K F CI)) (inputProof : List (List (List K) × PI)) :
    List Nat :=
  (inputProof.zip rounds).flatMap fun p => (p.1.1.zip p.2.2).map fun e => e.2.1.logN + logBlowup

end TapStark.Pcs
