import Verif.Spec.Linked
import Verif.Spec.StarkSound
import Verif.Spec.ScriptVerifier
import Verif.Model.StarkInst

/-!
Specification side of C115: a prover whose commitments are made by the code, and proofs whose openings have the indices and
widths that an honest prover would give them.
-/

namespace TapStark.Stark

open TapStark.Fri TapStark.Pcs TapStark.FS TapStark.Tap TapStark.Tcs

section
variable [LinearOrder U256]

/-- `commit` of the input commitment scheme made `c` and the prover data `ds` from the rows `row i`, `i < 2^h`, of width `w`. -/
def InCommitted (th : TapHash (List Op) U256) (mgr : Manager) (Q h w : Nat) (row : Nat → List BB) (c : Roots)
    (ds : List (Committed BB U256)) : Prop :=
  (∀ i, i < 2 ^ h → (row i).length = w) ∧ 0 < w ∧ ∃ scfg n n',
    (tcsInMmcs scfg th bbRep mgr Q).commit n [(List.range (2 ^ h)).map row] = some (c, ds, n')

/-- `commit_matrix` of the commitment scheme of the folding rounds made `c` and the prover data `ds` from the word `w`, two
values per row, `2^h` rows. -/
noncomputable def WordCommitted (th : TapHash (List Op) U256) (mgr : Manager) (Q h : Nat) (w : Nat → BB4) (c : Roots)
    (ds : List (Committed BB4 U256)) : Prop :=
  ∃ scfg n n', (tcsMmcs scfg th bb4Rep mgr Q).commitMatrix n
    ((List.range (2 ^ h)).map fun i => [w (2 * i), w (2 * i + 1)]) = some (c, ds, n')

end

/-- The openings for a query at `idx` carry the indices at which a prover opens its commitments, and one row of the right
width per input commitment.  The verifiers check neither. -/
structure Indexed (k r width : Nat) (idx : Nat)
    (qp : QueryProof BB4 (Tcs.Proof U256) (List (List (List BB) × Tcs.Proof U256))) : Prop where
  shape : qp.inputProof.map (fun b => b.1.map List.length) = [[width], [4]]
  input : ∀ b ∈ qp.inputProof, b.2.queryIndex = idx / 2 ^ (r - k)
  round : ∀ j o, qp.commitPhaseOpenings[j]? = some o → o.2.queryIndex = idx / 2 ^ (j + 1)

end TapStark.Stark
