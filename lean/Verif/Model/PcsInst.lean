import Verif.Model.Pcs
import Verif.Model.FriInst

/-!
The input commitment scheme of the polynomial commitment scheme as the code base fills it: the taptree
commitment scheme (basic/src/mmcs/taptree_mmcs.rs) over BabyBear.
-/

namespace TapStark.Pcs

open TapStark.Tap TapStark.Tcs TapStark.FS TapStark.Fri

variable {F : Type} [LinearOrder U256]

/-- A matrix given by rows in the layout of `RowMajorMatrix` (p3-matrix). -/
def toTcsMat (m : Mat F) : Tcs.Mat F := ⟨m.flatten, (m.headD []).length⟩

/-- `TapTreeMmcs` (taptree_mmcs.rs:42-122) as the PCS uses it: several matrices per commitment;
`get_matrices` reads them back from the first query's prover data; roots travel as eight words. -/
def tcsInMmcs [DecidableEq F] (cfg : Cfg) (th : TapHash (List Op) U256) (fr : FieldRep F) (mgr : Manager)
    (numQueries : Nat) :
    InMmcs F Nat (List (Vector U32 8)) (List (Committed F U256)) (Tcs.Proof U256) where
  commit n mats := do
    let ((roots, ds), n') ← mmcsCommit th fr mgr n numQueries (mats.map toTcsMat)
    some (roots.map u256ToU32, ds, n')
  getMatrices ds := do
    let d ← ds[0]?
    some (d.leaves.map Fri.Mat.rows)
  openBatch q i ds := Tcs.openBatch numQueries q i ds
  verifyBatch q opened π c := Tcs.verifyBatch cfg th fr q opened π (c.map u32ToU256)

end TapStark.Pcs
