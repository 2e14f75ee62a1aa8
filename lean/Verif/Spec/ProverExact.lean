import Verif.Spec.Stark

/-
When the prover makes a proof.
-/

namespace TapStark.Stark

variable {K : Type} [Field K]

/-- What the prover asks of its inputs: the number of rows is a power of two, the assertions mention only existing columns and
public values, their degree fits the blowup, and with debug assertions the trace satisfies them. -/
structure Servable (logBlowup : Nat) (debug : Bool) (air : Air K) (trace : List (List K)) (pub : List K) : Prop where
  rows : ∃ k, trace.length = 2 ^ k
  inRange : air.InRange pub.length
  degree : air.degree ≤ 2 ^ logBlowup + 1
  valid : debug = true → Satisfies air trace pub

end TapStark.Stark
