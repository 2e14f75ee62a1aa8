import Verif.Model.Fri
import Verif.Model.Tcs
import Verif.Model.Challenger
import Verif.Spec.BabyBear

/-!
The parameters of FRI as the code base fills them: the taptree commitment scheme
(basic/src/mmcs/taptree_mmcs.rs), the BLAKE3 challenger (basic/src/challenger/mod.rs) and BabyBear.
-/

namespace TapStark.Fri

open TapStark.Tap TapStark.Tcs TapStark.FS

variable {F : Type} [LinearOrder U256]

/-- The rows of a matrix, first row first. -/
def Mat.rows (m : Mat F) : List (List F) :=
  (List.range m.height).map fun i => (m.values.drop (i * m.width)).take m.width

/-- `TapTreeMmcs` as FRI uses it (taptree_mmcs.rs:42-118, bf_mmcs.rs:34-38 `commit_matrix`,
prover.rs:112-120): one matrix of width two per commitment; the state counts the assigned bit
commitments; roots travel as eight words (`u256_to_u32`, `u32_to_u256`). -/
def tcsMmcs [DecidableEq F] (cfg : Cfg) (th : TapHash (List Op) U256) (fr : FieldRep F) (mgr : Manager)
    (numQueries : Nat) :
    Mmcs F Nat (List (Vector U32 8)) (List (Committed F U256)) (Tcs.Proof U256) where
  commitMatrix n rows := do
    let ((roots, ds), n') ← mmcsCommit th fr mgr n numQueries [⟨rows.flatten, 2⟩]
    some (roots.map u256ToU32, ds, n')
  getMatrix ds := do
    let d ← ds[0]?
    let m ← d.leaves[d.leaves.length - 1]?
    some (Mat.rows m)
  openBatch q i ds := openBatch numQueries q i ds
  verifyBatch q opened π c := verifyBatch cfg th fr q opened π (c.map u32ToU256)

/-- `BfField for BabyBear` (basic/src/field/mod.rs): one word, the canonical representative. -/
def bbRep : FieldRep BB := ⟨1, fun x => [x.val]⟩

/-- `BfChallenger<BabyBear, U32, _, 16>` as FRI uses it (challenger/mod.rs:95-348).  The prover calls
`grind`, which is the same check plus a record of the witness (C31). -/
def bbChall (perm : List U32 → List U32) : Chall (Chal U32) (List (Vector U32 8)) BB U32 where
  observe ch c := ch.observeNested 16 perm (c.map Vector.toList)
  sample ch := do
    let (vs, ch) ← ch.sample 16 perm 1
    let v ← vs.head?
    some ((fromPf v : BB), ch)
  checkWitness ch bits w := FS.checkWitness perm 1 bits w ch
  sampleBits ch bits := FS.sampleBits perm 1 bits ch

end TapStark.Fri
