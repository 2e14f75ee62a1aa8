import Verif.Spec.BatchSound
import Verif.Spec.Stark

/-!
Specification side of C111: a prover that answers the challenges of the protocol one after the other, and when its answers
pass.
-/

namespace TapStark.Stark

open Polynomial TapStark.Fri TapStark.Pcs

variable {K F : Type} [Field K] [Field F] [DecidableEq K] [DecidableEq F] [Algebra K F]
variable {SI C DI PI S D P Ch W : Type}

/-- A prover, as what it commits to and claims before each challenge: the trace rows by index, before `alpha`; the rows
of the chunks of the quotient, from `alpha`; the claimed values, from `alpha` and `zeta`; the words of the folding rounds,
from these and the combining challenge. -/
structure Prover (K F C : Type) where
  traceCommit : C
  traceRow : Nat → List K
  quotientCommit : F → C
  quotientRow : F → Nat → Nat → List K
  traceLocal : F → F → List F
  traceNext : F → F → List F
  quotientChunks : F → F → List (List F)
  words : F → F → F → Strategy F

/-- The committed matrices with the claims about them, in the order of the verifier. -/
def Prover.claims (pr : Prover K F C) (genV : Nat → K) (k : Nat) (domains : List (Dom K)) (alpha zeta : F) :
    List (C × List (Claimed K F)) :=
  [(pr.traceCommit, [⟨pr.traceRow, ⟨k, 1⟩, [(zeta, pr.traceLocal alpha zeta),
      (zeta * algebraMap K F (genV k), pr.traceNext alpha zeta)]⟩]),
   (pr.quotientCommit alpha, (domains.zip (pr.quotientChunks alpha zeta)).mapIdx fun i dv =>
      ⟨pr.quotientRow alpha i, dv.1, [(zeta, dv.2)]⟩)]

/-- The answers pass for a query at `idx`: the claimed values have the shape that `verify` asks for and pass the
out-of-domain check, and the query passes both verifiers. -/
def Prover.Passes (pr : Prover K F C) (u : Setup K F SI C DI PI S D P Ch W) (air : Air K) (pub : List K) (k q : Nat)
    (alpha zeta batch : F) (betas : List F) (idx : Nat) : Prop :=
  ∃ (proof : ProofOf K F C P W PI) (domains : List (Dom K)),
    splitDomains u.genV u.twoAdicity ⟨k + q, u.g⟩ (2 ^ q) = some domains ∧
    proof.traceLocal = pr.traceLocal alpha zeta ∧ proof.traceNext = pr.traceNext alpha zeta ∧
    proof.quotientChunks = pr.quotientChunks alpha zeta ∧
    proof.traceLocal.length = air.width ∧ proof.traceNext.length = air.width ∧ proof.quotientChunks.length = 2 ^ q ∧
    (∀ qc ∈ proof.quotientChunks, qc.length = u.deg.D) ∧
    oodCheck u air pub ⟨k, 1⟩ domains proof alpha zeta = some true ∧
    PassesAll (pr.words alpha zeta batch) u.genV u.g u.mi u.m u.cfg (pr.claims u.genV k domains alpha zeta) batch betas idx

/-- The committed rows are the values of the columns `ps`, at all but `m` of the `2^h` positions. -/
def RowsNear (genV : Nat → K) (g : K) (h m : Nat) (row : Nat → List K) (ps : List K[X]) : Prop :=
  ∃ A : Finset Nat, (∀ i ∈ A, i < 2 ^ h) ∧ 2 ^ h ≤ A.card + m ∧
    ∀ i ∈ A, row i = ps.map fun p => p.eval (queryPoint genV g h i)

end TapStark.Stark
