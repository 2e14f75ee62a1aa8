import Verif.Spec.OpenSound
import Verif.Model.Pcs

/-!
Specification side of C110: committed matrices with claimed values, and what it means that the claims are right.
-/

namespace TapStark.Pcs

open TapStark.Fri Polynomial

variable {K F CI : Type} [Field K] [Field F] [DecidableEq K] [DecidableEq F] [Algebra K F]

/-- A matrix that a prover committed to, as its rows by index in the order of the commitment, with the domain of its columns
and the values that the prover claims for them at some points. -/
structure Claimed (K F : Type) where
  row : Nat → List K
  dom : Dom K
  points : List (F × List F)

/-- The claims as the verifier gets them. -/
def claimedRounds (cs : List (CI × List (Claimed K F))) : List (VerifierRound K F CI) :=
  cs.map fun c => (c.1, c.2.map fun m => (m.dom, m.points))

/-- The committed rows at a query index below `2^top`, for blowup `2^b`: a matrix with fewer rows is read at the index without
its lowest bits. -/
def claimedRows (b top : Nat) (cs : List (CI × List (Claimed K F))) (i : Nat) : List (List (List K)) :=
  cs.map fun c => c.2.map fun m => m.row (i / 2 ^ (top - (m.dom.logN + b)))

/-- The number of claimed values. -/
def numClaims (cs : List (CI × List (Claimed K F))) : Nat :=
  (cs.map fun c => (c.2.map fun m => (m.points.map fun p => p.2.length).sum).sum).sum

/-- The point of the coset `g · H`, `H` of order `2^h`, to which a query index belongs. -/
def queryPoint (genV : Nat → K) (g : K) (h i : Nat) : K := g * genV h ^ revBits h i

/-- The claims are right up to `m` positions: there are polynomials of degree at most `d`, one for every column of every
matrix, that have the claimed values at the claimed points and agree with the columns on a common set of all but `m` of the
`2^h` positions. -/
def ClaimsHold (genV : Nat → K) (g : K) (h d m : Nat) (cs : List (CI × List (Claimed K F))) : Prop :=
  ∃ A : Finset Nat, (∀ i ∈ A, i < 2 ^ h) ∧ 2 ^ h ≤ A.card + m ∧
    ∀ c ∈ cs, ∀ mat ∈ c.2, ∀ j : Nat, ∃ P : F[X], P.degree ≤ d ∧ ∀ p ∈ mat.points, ∀ y ∈ p.2[j]?, P.eval p.1 = y ∧
      ∀ i ∈ A, ∃ v ∈ (mat.row i)[j]?, algebraMap K F v = P.eval (algebraMap K F (queryPoint genV g h i))

/-- The query at `idx` passes both verifiers with some proofs: the input opening shows the committed rows and the native
input check gives reduced openings with which the native verifier accepts openings of the words of `s`; and the chain of the
query script (see `C43_query_accepts`) from the same reduced openings ends in the final value. -/
def PassesAll (s : Strategy F) (genV : Nat → K) (g : K) {SI DI PI S C D P : Type} (MI : InMmcs K SI CI DI PI)
    (M : Mmcs F S C D P) (cfg : Config) (cs : List (CI × List (Claimed K F))) (alpha : F) (betas : List F) (idx : Nat) :
    Prop :=
  ∃ (q q' : Nat) (inputProof : List (List (List K) × PI)) (ros : List (Nat × F)) (commits : List C)
    (openings : List (List (List F) × P)),
    inputProof.map Prod.fst = claimedRows cfg.logBlowup (betas.length + cfg.logBlowup) cs idx ∧
    verifyInput MI genV g cfg alpha (claimedRounds cs) (betas.length + cfg.logBlowup) q idx inputProof = .ok ros ∧
    commits.length = betas.length ∧ s.Opens betas idx openings ∧
    verifyQuery (fun b => algebraMap K F (genV b)) M cfg commits idx q' openings betas ros (betas.length + cfg.logBlowup) =
      .ok (s.final betas) ∧
    foldChain (roAt ros) (betas.length + cfg.logBlowup)
      (pointAt (fun b => algebraMap K F (genV b)) (betas.length + cfg.logBlowup) idx) 0
      (betas.zip (siblings idx (openings.map Prod.fst))) = s.final betas

end TapStark.Pcs
