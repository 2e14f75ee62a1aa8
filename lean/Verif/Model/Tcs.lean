import Verif.Model.TapTree
import Verif.Script.Interp

/-
Model of the taptree commitment scheme basic/src/tcs/mod.rs and of the matrix commitment
basic/src/mmcs/taptree_mmcs.rs.

External: the bit commitment operators `BcOperator<Winternitz>` and their manager (crates bitcomm
and primitives).  An operator is modelled by its compiled locking script of type `U32` and by the
witness it produces for a committed list of words (`Bc`); what is assumed about them is stated where
used (`BcOk` in Verif/Spec/Tcs.lean).  Field elements are seen through `as_u32_vec` (`words`).

A Rust panic is `none`.
-/

namespace TapStark.Tcs

open TapStark.Tap

/-- A bit commitment operator: `locking_script_with_type(CompressType::U32).compile()` and
`set_commit_value(v); witness()` in witness order (bottom of the stack first).  External. -/
structure Bc where
  lock : List Op
  wit : List Nat → List Elem

/-- `UseBComm` (basic/src/tcs/mod.rs:157-161). -/
structure UseBcs where
  index : Bc
  evals : List Bc

/-- `RowMajorMatrix` of p3-matrix: flat values and the row width. -/
structure Mat (F : Type) where
  values : List F
  width : Nat
  deriving DecidableEq, Repr

/-- `Matrix::height` of p3-matrix: `values.len() / width`, zero for width zero. -/
def Mat.height {F : Type} (m : Mat F) : Nat := m.values.length / m.width

/-- `Matrix::row` of p3-matrix as used at taptree_mmcs.rs:60: a slice, out of bounds panics. -/
def Mat.row {F : Type} (m : Mat F) (r : Nat) : Option (List F) :=
  if (r + 1) * m.width ≤ m.values.length then some ((m.values.drop (r * m.width)).take m.width)
  else none

/-- `p3_util::log2_ceil_usize`. -/
def log2Ceil (n : Nat) : Nat := if n ≤ 1 then 0 else Nat.log2 (n - 1) + 1

/-! ### padding_matrix -/

/-- `leaf_ys[leaf].push(v)`; out of bounds panics (mod.rs:363). -/
def pushAt {F : Type} (ys : List (List F)) (leaf : Nat) (v : F) : Option (List (List F)) :=
  match ys[leaf]? with
  | some y => some (ys.set leaf (y ++ [v]))
  | none => none

/-- The loops over rows, columns and leaves for one matrix (mod.rs:356-366); `shift` is
`log_max_height - log_height`. -/
def pushMatrix {F : Type} (currHeight shift : Nat) (ys : List (List F)) (m : Mat F) :
    Option (List (List F)) :=
  (List.range currHeight).foldlM (init := ys) fun ys index =>
    let currIndex := index <<< shift
    let nextIndex := (index + 1) <<< shift
    (List.range m.width).foldlM (init := ys) fun ys i =>
      (List.range' currIndex (nextIndex - currIndex)).foldlM (init := ys) fun ys leaf => do
        let v ← m.values[index * m.width + i]?
        pushAt ys leaf v

/-- The loop over log heights, largest first (mod.rs:350-369); the argument is one more than
the next `log_height`.  `peeking_take_while` is `span`. -/
def padLoop {F : Type} (logMax : Nat) : Nat → List (Mat F) → List (List F) →
    Option (List (List F))
  | 0, _, ys => some ys
  | logHeight + 1, remaining, ys => do
    let mats := remaining.takeWhile fun m => log2Ceil m.height == logHeight
    let rest := remaining.dropWhile fun m => log2Ceil m.height == logHeight
    match mats with
    | [] => padLoop logMax logHeight rest ys
    | m0 :: _ => do
      let ys' ← mats.foldlM (init := ys) (pushMatrix m0.height (logMax - logHeight))
      padLoop logMax logHeight rest ys'

/-- `padding_matrix` (mod.rs:339-378).  `sorted_by_key` is a stable sort. -/
def paddingMatrix {F : Type} (leaves : List (Mat F)) : Option (List (List F)) := do
  let sorted := leaves.mergeSort fun a b => decide (b.height ≤ a.height)
  let maxHeight := (← sorted.head?).height
  let logMax := log2Ceil maxHeight
  let ys ← padLoop logMax (logMax + 1) sorted (List.replicate maxHeight [])
  let first ← ys.head?
  if ys.all fun y => y.length == first.length then some ys else none

/-! ### Committed leaves -/

/-- `CommitedLeaf` (mod.rs:146-154); `evaluations` are already converted by `as_u32_vec`. -/
structure CommittedLeaf where
  useBcs : UseBcs
  index : Nat
  evaluations : List (List Nat)

/-- `generate_witness` with `set_commited_value` (mod.rs:173-195).  The index is truncated to `u32`;
missing evaluations panic, surplus ones are ignored. -/
def CommittedLeaf.witness (l : CommittedLeaf) : Option (List Elem) := do
  let vals ← (List.range l.useBcs.evals.length).mapM fun i => l.evaluations[i]?
  some (((l.useBcs.evals.zip vals).reverse.flatMap fun (bc, v) => bc.wit v) ++
    l.useBcs.index.wit [l.index % 2 ^ 32])

/-- Comparison of the recovered words, last word first (mod.rs:213-216). -/
def wordChecks (values : List Nat) : List Op :=
  values.reverse.flatMap fun (v : Nat) => [Op.num v, .equalverify]

/-- `generate_script` (mod.rs:197-225). -/
def CommittedLeaf.script (l : CommittedLeaf) : Option (List Op) := do
  let vals ← (List.range l.useBcs.evals.length).mapM fun i => l.evaluations[i]?
  some (l.useBcs.index.lock ++ [.num l.index, .equalverify] ++
    ((l.useBcs.evals.zip vals).flatMap fun (bc, v) => bc.lock ++ wordChecks v) ++ [.num 1])

/-! ### Committing, opening, verifying -/

/-- The bit commitment manager (crate bitcomm): the `n`-th assigned operator for a value of `w`
words.  External. -/
abbrev Manager := Nat → Nat → Bc

/-- `BfField` as the scheme uses it (basic/src/field/mod.rs:7-40): `U32_SIZE` and `as_u32_vec`. -/
structure FieldRep (F : Type) where
  u32Size : Nat
  words : F → List Nat

/-- `CommitedData` (mod.rs:83-88) without the cached leaves. -/
structure Committed (F H : Type) where
  leaves : List (Mat F)
  tree : Tree (List Op) H
  useBcs : UseBcs

variable {F H : Type} [LinearOrder H]

/-- `commit_polys` (mod.rs:238-282); `n` operators were assigned before, the new count is returned.
The widths panic unless the field has one or four words. -/
def commitPolys (th : TapHash (List Op) H) (fr : FieldRep F) (mgr : Manager) (n : Nat)
    (leaves : List (Mat F)) : Option (Committed F H × Nat) := do
  if fr.u32Size = 1 ∨ fr.u32Size = 4 then
    let ys ← paddingMatrix leaves
    let firstWidth := (← ys[0]?).length
    let useBcs : UseBcs :=
      { index := mgr n 1
        evals := (List.range firstWidth).map fun i => mgr (n + 1 + i) fr.u32Size }
    let scripts ← ((List.range ys.length).filter fun i => !(ys.getD i []).isEmpty).mapM fun i =>
      CommittedLeaf.script ⟨useBcs, i, (ys.getD i []).map fr.words⟩
    let tree ← Tree.newWithScripts th scripts
    some (⟨leaves, tree, useBcs⟩, n + 1 + firstWidth)
  else none

/-- `commit_poly_with_query_times` (mod.rs:284-292). -/
def commitPolyWithQueryTimes (th : TapHash (List Op) H) (fr : FieldRep F) (mgr : Manager)
    (leaves : List (Mat F)) : Nat → Nat → Option (List (Committed F H) × Nat)
  | n, 0 => some ([], n)
  | n, q + 1 => do
    let (d, n') ← commitPolys th fr mgr n leaves
    let (ds, n'') ← commitPolyWithQueryTimes th fr mgr leaves n' q
    some (d :: ds, n'')

/-- `CommitedProof` (mod.rs:100-106). -/
structure Proof (H : Type) where
  leaf : Leaf (List Op) H
  useBcs : UseBcs
  queryIndex : Nat

/-- `query_proof` (mod.rs:134-137). -/
def Committed.queryProof (d : Committed F H) (i : Nat) : Option (Proof H) := do
  let leaf ← (← d.tree.getTapleaf i)
  some ⟨leaf, d.useBcs, i⟩

/-- `open` (mod.rs:294-301). -/
def openAt (d : Committed F H) (i : Nat) : Option (Proof H × List F) := do
  let ys ← paddingMatrix d.leaves
  let p ← d.queryProof i
  some (p, ← ys[i]?)

/-- `open_with_one_query` (mod.rs:405-414). -/
def openWithOneQuery (queryTimesIndex queryIndex : Nat) (ds : List (Committed F H))
    (queryTimes : Nat) : Option (Proof H × List F) := do
  if ds.length = queryTimes then
    openAt (← ds[queryTimesIndex]?) queryIndex
  else none

/-- `open_with_query_times` (mod.rs:303-326). -/
def openWithQueryTimes (indices : List Nat) (ds : List (Committed F H)) (queryTimes : Nat) :
    Option (List (Proof H) × List (List F)) := do
  if indices.length = queryTimes ∧ ds.length = queryTimes then
    let proofs ← ((List.range queryTimes).zip indices).mapM fun (k, i) => do
      (← ds[k]?).queryProof i
    let ys ← paddingMatrix (← ds[0]?).leaves
    let values ← indices.mapM fun i => ys[i]?
    some (proofs, values)
  else none

/-- `verify_proof` (mod.rs:140-144): the script is run even when the inclusion check fails. -/
def verifyProof (cfg : Cfg) (th : TapHash (List Op) H) (root : H) (leaf : Leaf (List Op) H)
    (witness : List Elem) : Option Bool := do
  let inclusion ← verifyInclusion th root leaf
  let script ← leaf.script?
  some (inclusion && accepts cfg script witness.reverse)

/-- `verify` with `to_commited_leaf` (mod.rs:123-130, 423-433). -/
def verify (cfg : Cfg) (th : TapHash (List Op) H) (fr : FieldRep F) (root : H) (p : Proof H)
    (values : List F) : Option Bool := do
  let w ← CommittedLeaf.witness ⟨p.useBcs, p.queryIndex, values.map fr.words⟩
  verifyProof cfg th root p.leaf w

/-- The loop of `verify_with_query_times` (mod.rs:435-454). -/
def verifyWithQueryTimes (cfg : Cfg) (th : TapHash (List Op) H) (fr : FieldRep F)
    (roots : List H) (ps : List (Proof H)) (values : List (List F)) (queryTimes : Nat) :
    Option Bool :=
  (List.range queryTimes).foldlM (init := true) fun success k =>
    if !success then some false
    else do verify cfg th fr (← roots[k]?) (← ps[k]?) (← values[k]?)

/-! ### taptree_mmcs.rs -/

/-- `get_max_height` (mod.rs:91-97). -/
def Committed.maxHeight (d : Committed F H) : Nat := d.leaves.foldl (fun m x => max m x.height) 0

/-- `TapTreeMmcs::commit` (taptree_mmcs.rs:102-118).  Roots are kept as hashes: the conversion to
eight words and back is `u256_to_u32` / `u32_to_u256`, see property C33. -/
def mmcsCommit (th : TapHash (List Op) H) (fr : FieldRep F) (mgr : Manager) (n numQueries : Nat)
    (inputs : List (Mat F)) : Option ((List H × List (Committed F H)) × Nat) := do
  let (ds, n') ← commitPolyWithQueryTimes th fr mgr inputs n numQueries
  some ((ds.map fun d => d.tree.root.hash, ds), n')

/-- `TapTreeMmcs::open_batch` (taptree_mmcs.rs:46-77). -/
def openBatch [DecidableEq F] (numQueries queryTimesIndex queryIndex : Nat)
    (ds : List (Committed F H)) : Option (List (List F) × Proof H) := do
  let d0 ← ds[0]?
  let logMax := log2Ceil d0.maxHeight
  let openings ← d0.leaves.mapM fun m => m.row (queryIndex >>> (logMax - log2Ceil m.height))
  let (proof, evals) ← openWithOneQuery queryTimesIndex queryIndex ds numQueries
  if openings.flatten = evals then some (openings, proof) else none

/-- `TapTreeMmcs::verify_batch` (taptree_mmcs.rs:79-100): `some false` is
`Err(InvalidOpenedValue)`. -/
def verifyBatch (cfg : Cfg) (th : TapHash (List Op) H) (fr : FieldRep F) (queryTimesIndex : Nat)
    (opened : List (List F)) (p : Proof H) (roots : List H) : Option Bool := do
  verify cfg th fr (← roots[queryTimesIndex]?) p opened.flatten

end TapStark.Tcs
