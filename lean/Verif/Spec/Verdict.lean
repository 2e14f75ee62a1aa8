import Verif.Spec.BatchSound
import Verif.Spec.Stark

/-!
Specification side of C117: what the native verifier asks of a proof, as explicit conditions.
-/

namespace TapStark.Fri

variable {F : Type} [Field F] [DecidableEq F] {S C D P : Type}

/-- The rounds of a query at `idx` are in order and end in `final`.  There are as many rounds as there are both openings and
commitments.  Every round opens one pair that the commitment scheme accepts; from the second on, the entry of the pair at
the queried position is the line through the pair before, taken at the challenge of that round, plus the reduced opening
`ro` of the height; `final` is that line for the last pair, and 0 without rounds.  With debug assertions, what is left of
the index must be below the blowup. -/
def RoundsInOrder (gen : Nat → F) (M : Mmcs F S C D P) (cfg : Config) (commits : List C) (betas : List F) (q idx : Nat)
    (openings : List (List (List F) × P)) (ro : Nat → F) (final : F) : Prop :=
  let top := commits.length + cfg.logBlowup
  let m := min openings.length commits.length
  let line := fun (x y : Nat → F) (j : Nat) =>
    lineAt (gen (top - j) ^ revBits (top - j - 1) (idx / 2 ^ (j + 1))) (betas.getD j 0) (x j) (y j)
  ∃ x y : Nat → F,
    (∀ j < m, ∃ π c, openings[j]? = some ([[x j, y j]], π) ∧ commits[j]? = some c ∧
      M.verifyBatch q [[x j, y j]] π c = some true) ∧
    (∀ j, j + 1 < m →
      (if idx / 2 ^ (j + 1) % 2 = 0 then x (j + 1) else y (j + 1)) = line x y j + ro (top - (j + 1))) ∧
    (cfg.debug = true → idx / 2 ^ m < 2 ^ cfg.logBlowup) ∧
    (m = 0 → final = 0) ∧ (∀ j, j + 1 = m → final = line x y j)

end TapStark.Fri

namespace TapStark.Pcs

open TapStark.Fri

variable {K F : Type} [Field K] [Field F] [DecidableEq F] [Algebra K F]
variable {SI CI DI PI S C D P Ch W : Type}

/-- `Σ_i a^i l_i`. -/
def powerSum (a : F) (l : List F) : F := ∑ i : Fin l.length, a ^ (i : Nat) * l[i]

/-- One batch of input rows, opened for a query at `idx` of `2^top` positions, is in order: it belongs to at least one
matrix, no matrix has more than `2^top` rows after blowing up by `2^b`, the commitment scheme accepts the rows, and none of
the points for which values are claimed is the queried point of the matrix. -/
def InputInOrder (MI : InMmcs K SI CI DI PI) (genV : Nat → K) (g : K) (b top q idx : Nat)
    (e : (List (List K) × PI) × VerifierRound K F CI) : Prop :=
  e.2.2 ≠ [] ∧ (∀ m ∈ e.2.2, m.1.logN + b ≤ top) ∧ MI.verifyBatch q e.1.1 e.1.2 e.2.1 = some true ∧
  ∀ rm ∈ e.1.1.zip e.2.2, ∀ p ∈ rm.2.2,
    algebraMap K F (queryPoint genV g (rm.2.1.logN + b) (idx / 2 ^ (top - (rm.2.1.logN + b)))) ≠ p.1

/-- The combination of all claims about matrices of `2^h` rows, after blowing up by `2^b`: with consecutive powers of
`alpha`, over all batches, matrices, points `z` and columns, `(opened - claimed) / (x - z)` for the queried point `x`. -/
def combinedClaims (genV : Nat → K) (g : K) (b top idx : Nat) (alpha : F)
    (es : List ((List (List K) × PI) × VerifierRound K F CI)) (h : Nat) : F :=
  powerSum alpha (es.flatMap fun e => (e.1.1.zip e.2.2).flatMap fun rm =>
    if rm.2.1.logN + b = h then rm.2.2.flatMap fun p => (rm.1.zip p.2).map fun v =>
      (algebraMap K F v.1 - v.2) / (algebraMap K F (queryPoint genV g h (idx / 2 ^ (top - h))) - p.1)
    else [])

/-- What the verification of an opening proof asks: the challenges can be drawn, there are as many query proofs as
configured, the witness passes the proof-of-work check, and every query has its input openings and its rounds in order,
ending in the final value of the proof.  `ch` and `ch'` are the states of the challenger before and after. -/
def OpeningInOrder (genV : Nat → K) (g : K) (MI : InMmcs K SI CI DI PI) (M : Mmcs F S C D P) (Kc : Chall Ch C F W)
    (cfg : Config) (rounds : List (VerifierRound K F CI)) (proof : FriProof F C P W (List (List (List K) × PI)))
    (ch ch' : Ch) : Prop :=
  let top := proof.commitPhaseCommits.length + cfg.logBlowup
  ∃ alpha ch0 betas ch1 ch2 indices,
    Kc.sample ch = some (alpha, ch0) ∧
    sampleBetas Kc proof.commitPhaseCommits ch0 = some (betas, ch1) ∧
    proof.queryProofs.length = cfg.numQueries ∧
    Kc.checkWitness ch1 cfg.powBits proof.powWitness = some (true, ch2) ∧
    sampleIndices Kc top cfg.numQueries 0 ch2 = some (indices, ch') ∧
    ∀ (k q idx : Nat) (qp : QueryProof F P (List (List (List K) × PI))),
      indices[k]? = some (q, idx) → proof.queryProofs[k]? = some qp →
      (∀ e ∈ qp.inputProof.zip rounds, InputInOrder MI genV g cfg.logBlowup top q idx e) ∧
      RoundsInOrder (fun b => algebraMap K F (genV b)) M cfg proof.commitPhaseCommits betas q idx qp.commitPhaseOpenings
        (combinedClaims genV g cfg.logBlowup top idx alpha (qp.inputProof.zip rounds)) proof.finalPoly

end TapStark.Pcs

namespace TapStark.Stark

open TapStark.Fri TapStark.Pcs

variable {K F : Type} [Field K] [Field F] [DecidableEq K] [DecidableEq F] [Algebra K F]
variable {SI C DI PI S D P Ch W : Type}

/-- The opened values have the shape of the AIR with `2^q` quotient chunks. -/
def ShapeOk (u : Setup K F SI C DI PI S D P Ch W) (air : Air K) (q : Nat) (proof : ProofOf K F C P W PI) : Prop :=
  proof.traceLocal.length = air.width ∧ proof.traceNext.length = air.width ∧
    proof.quotientChunks.length = 2 ^ q ∧ ∀ qc ∈ proof.quotientChunks, qc.length = u.deg.D

/-- The shift of chunk `i` of the quotient domain, for a trace of `2^k` rows. -/
def chunkShift (u : Setup K F SI C DI PI S D P Ch W) (k q i : Nat) : K := u.g * u.genV (k + q) ^ i

/-- The claims of a proof: the trace at `zeta` and at the next point, every chunk of the quotient at `zeta`. -/
def claims (u : Setup K F SI C DI PI S D P Ch W) (q : Nat) (proof : ProofOf K F C P W PI) (zeta : F) :
    List (VerifierRound K F C) :=
  [(proof.traceCommit, [(⟨proof.degreeBits, 1⟩, [(zeta, proof.traceLocal),
      (zeta * algebraMap K F (u.genV proof.degreeBits), proof.traceNext)])]),
   (proof.quotientCommit, ((List.range (2 ^ q)).zip proof.quotientChunks).map fun iv =>
      (⟨proof.degreeBits, chunkShift u proof.degreeBits q iv.1⟩, [(zeta, iv.2)]))]

/-- The value of chunk domain `j`'s vanishing polynomial, normalised, at a point. -/
def chunkZero (u : Setup K F SI C DI PI S D P Ch W) (k q j : Nat) (x : F) : F :=
  (x / algebraMap K F (chunkShift u k q j)) ^ 2 ^ k - 1

/-- The quotient value that the opened chunks stand for: the interpolation over the chunk domains, with the coordinates of
every chunk put together. -/
def quotientValue (u : Setup K F SI C DI PI S D P Ch W) (k q : Nat) (chunks : List (List F)) (zeta : F) : F :=
  ∑ i ∈ Finset.range (2 ^ q),
    (∏ j ∈ (Finset.range (2 ^ q)).erase i,
      chunkZero u k q j zeta / chunkZero u k q j (algebraMap K F (chunkShift u k q i))) *
    ∑ e ∈ Finset.range u.deg.D, u.deg.monomial e * (chunks.getD i []).getD e 0

/-- What the assertions of the AIR talk about at the point `zeta`: the opened rows, the public values, and the Lagrange
selectors of the first row, the last row and the transitions, not normalised. -/
def openedMeaning (u : Setup K F SI C DI PI S D P Ch W) (proof : ProofOf K F C P W PI) (pub : List K) (zeta : F) :
    Meaning F where
  loc c := proof.traceLocal.getD c 0
  nxt c := proof.traceNext.getD c 0
  pub j := algebraMap K F (pub.getD j 0)
  first := (zeta ^ 2 ^ proof.degreeBits - 1) / (zeta - 1)
  last := (zeta ^ 2 ^ proof.degreeBits - 1) / (zeta - (algebraMap K F (u.genV proof.degreeBits))⁻¹)
  trans := zeta - (algebraMap K F (u.genV proof.degreeBits))⁻¹

/-- The assertions, combined with powers of `alpha`, are the vanishing polynomial of the trace domain times the quotient. -/
def ConstraintsMatch (u : Setup K F SI C DI PI S D P Ch W) (air : Air K) (pub : List K) (q : Nat)
    (proof : ProofOf K F C P W PI) (alpha zeta : F) : Prop :=
  combine alpha (air.asserts.map fun a => a.residue (algebraMap K F) (openedMeaning u proof pub zeta)) =
    (zeta ^ 2 ^ proof.degreeBits - 1) * quotientValue u proof.degreeBits q proof.quotientChunks zeta

/-- The AIR and the claimed size: the assertions mention existing columns and public values only, `2^q` is the least power
of two not below the degree minus one (C45), and the quotient domain exists. -/
def SizeOk (u : Setup K F SI C DI PI S D P Ch W) (air : Air K) (pub : List K) (proof : ProofOf K F C P W PI) (q : Nat) :
    Prop :=
  air.InRange pub.length ∧ IsLeast {m | max air.degree 2 - 1 ≤ 2 ^ m} q ∧ proof.degreeBits + q ≤ u.twoAdicity

/-- Shape and opening proof are in order and `zeta` is outside of the trace domain; `alpha` and `zeta` are the challenges
and `ch'` is the state of the challenger at the end. -/
def OpenedInOrder (u : Setup K F SI C DI PI S D P Ch W) (air : Air K) (pub : List K) (proof : ProofOf K F C P W PI)
    (ch : Ch) (q : Nat) (alpha zeta : F) (ch' : Ch) : Prop :=
  SizeOk u air pub proof q ∧ ShapeOk u air q proof ∧ ∃ chz,
    challenges u ch proof.traceCommit proof.quotientCommit = some (alpha, zeta, chz) ∧
    OpeningInOrder u.genV u.g u.mi u.m u.chall u.cfg (claims u q proof zeta) proof.openingProof chz ch' ∧
    zeta ^ 2 ^ proof.degreeBits ≠ 1

end TapStark.Stark
