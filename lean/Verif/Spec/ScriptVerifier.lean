import Verif.Model.ScriptVerifier
import Verif.Spec.ScriptChallenges
import Verif.Spec.FriScript

/-
What the script verifier as a whole checks.
-/

namespace TapStark.Stark

open TapStark.Fri TapStark.Pcs TapStark.FS

variable {SI DI PI S C D P : Type}

/-- The rows opened along one query: each round opens one row, accepted by the commitment scheme, with an entry next to
the queried position. -/
def RowsOpened {F : Type} (M : Mmcs F S C D P) (q : Nat) : (idx : Nat) → List (C × (List (List F) × P)) → Prop
  | _, [] => True
  | idx, (commit, rows, π) :: rest =>
    (∃ row, rows = [row] ∧ M.verifyBatch q [row] π commit = some true ∧ 1 - idx % 2 < row.length) ∧
      RowsOpened M q (idx / 2) rest

/-- The claims about the opened values, for one chunk: the trace at `zeta` and at the next point, the chunk at `zeta`. -/
noncomputable def openingClaims (proof : ProofOf BB BB4 Roots P U32 PI) (zeta : BB4) : List (VerifierRound BB BB4 Roots) :=
  [(proof.traceCommit, [((⟨proof.degreeBits, 1⟩ : Dom BB), [(zeta, proof.traceLocal),
      (zeta * algebraMap BB BB4 (bbGen proof.degreeBits), proof.traceNext)])]),
    (proof.quotientCommit, proof.quotientChunks.map fun v => (⟨proof.degreeBits, 31⟩, [(zeta, v)]))]

/-- The query `qr` passes: its rows and its input openings are accepted by the commitment schemes, every reduced opening
belongs to a round that has an opened row, and folding the reduced openings with the siblings gives the final value.  With
debug assertions, the index must not exceed the rounds that have an opened row by more than the blowup. -/
def QueryPasses (mi : InMmcs BB SI Roots DI PI) (m : Mmcs BB4 S Roots D P) (cfg : Config)
    (proof : FriProof BB4 Roots P U32 (List (List (List BB) × PI))) (claims : List (VerifierRound BB BB4 Roots))
    (batch : BB4) (betas : List BB4) (qr : (Nat × Nat) × QueryProof BB4 P (List (List (List BB) × PI))) : Prop :=
  let top := proof.commitPhaseCommits.length + cfg.logBlowup
  RowsOpened m qr.1.1 qr.1.2 (proof.commitPhaseCommits.zip qr.2.commitPhaseOpenings) ∧
  (cfg.debug = true → qr.1.2 < 2 ^ (qr.2.commitPhaseOpenings.length + cfg.logBlowup)) ∧
  ∃ vals, verifyInput mi bbGen 31 cfg batch claims top qr.1.1 qr.1.2 qr.2.inputProof = .ok vals ∧
    (∀ r ∈ vals, cfg.logBlowup + (proof.commitPhaseCommits.length - qr.2.commitPhaseOpenings.length) < r.1) ∧
    foldChain (roAt vals) top (algebraMap BB BB4 (bbGen top) ^ revBits top qr.1.2) 0
      (betas.zip (siblings qr.1.2 (qr.2.commitPhaseOpenings.map Prod.fst))) = proof.finalPoly

end TapStark.Stark
