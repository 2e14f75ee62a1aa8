import Mathlib.Algebra.Field.Basic

/-!
Model of fri/src: folding (two_adic_pcs.rs, fold_even_odd.rs), prover.rs, verifier.rs, proof.rs.

`F` is the challenge field and `gen` its `two_adic_generator` (total here; the code panics above the
two-adicity, which the theorems exclude by hypothesis).  The commitment scheme and the challenger are
parameters with explicit failure.
-/

namespace TapStark.Fri

/-! ### Results -/

/-- `FriError` (error.rs), without the script errors, which no modelled function returns. -/
inductive FriErr
  | shape | pow | input | mmcs | finalPoly
  deriving DecidableEq, Repr

/-- `Result<_, FriError>`, or a panic. -/
inductive Res (α : Type)
  | ok (a : α)
  | err (e : FriErr)
  | panic
  deriving DecidableEq

namespace Res

def bind {α β : Type} : Res α → (α → Res β) → Res β
  | ok a, f => f a
  | err e, _ => err e
  | panic, _ => panic

instance : Monad Res where
  pure := ok
  bind := bind

/-- A computation that may only panic. -/
def ofOption {α : Type} : Option α → Res α
  | some a => ok a
  | none => panic

@[simp] theorem pure_eq {α : Type} (a : α) : (pure a : Res α) = ok a := rfl
@[simp] theorem bind_ok {α β : Type} (a : α) (f : α → Res β) : (ok a >>= f) = f a := rfl
@[simp] theorem bind_err {α β : Type} (e : FriErr) (f : α → Res β) : (err e >>= f) = err e := rfl
@[simp] theorem bind_panic {α β : Type} (f : α → Res β) : (panic >>= f) = panic := rfl
@[simp] theorem ofOption_some {α : Type} (a : α) : ofOption (some a) = ok a := rfl
@[simp] theorem ofOption_none {α : Type} : ofOption (none : Option α) = panic := rfl

end Res

/-! ### Bit reversal (crate p3-util) -/

/-- `reverse_bits_len(x, len)` of p3-util: the low `len` bits of `x` in reverse order. -/
def revBits : (len x : Nat) → Nat
  | 0, _ => 0
  | k + 1, x => (x % 2) * 2 ^ k + revBits k (x / 2)

/-- `log2_strict_usize` of p3-util: panics unless `n` is a power of two. -/
def log2Strict (n : Nat) : Option Nat := if 2 ^ Nat.log2 n = n then some (Nat.log2 n) else none

variable {F : Type} [Field F] [DecidableEq F]

/-- `reverse_slice_index_bits` of p3-util on a slice of `2^k` elements. -/
def revSlice (k : Nat) (l : List F) : List F :=
  (List.range l.length).map fun i => l.getD (revBits k i) 0

/-! ### Folding -/

/-- `fold_row` (two_adic_pcs.rs:87-114).  Reversing the bits of a two-element slice does nothing. -/
def foldRow (gen : Nat → F) (index logHeight : Nat) (beta : F) : List F → Option F
  | [e0, e1] =>
    let start := gen (logHeight + 1) ^ revBits logHeight index
    let x0 := start
    let x1 := start * gen 1
    if x1 - x0 = 0 then none else some (e0 + (beta - x0) * (e1 - e0) / (x1 - x0))
  | _ => none

/-- `shifted_powers(s).take(n)`. -/
def shiftedPowers (x s : F) (n : Nat) : List F := (List.range n).map fun i => s * x ^ i

/-- `fold_matrix` (two_adic_pcs.rs:116-147). -/
def foldMatrix (gen : Nat → F) (beta : F) (rows : List (List F)) : Option (List F) := do
  let k ← log2Strict rows.length
  let gInv := (gen (k + 1))⁻¹
  let oneHalf := (2 : F)⁻¹
  let halfBeta := beta * oneHalf
  let powers := revSlice k (shiftedPowers gInv halfBeta rows.length)
  (rows.zip powers).mapM fun (row, power) =>
    match row with
    | lo :: hi :: _ => some ((oneHalf + power) * lo + (oneHalf - power) * hi)
    | _ => none

/-- The rows of `RowMajorMatrix::new(v, 2)`; an odd length panics. -/
def pairs : List F → Option (List (List F))
  | [] => some []
  | [_] => none
  | a :: b :: t => (pairs t).map ([a, b] :: ·)

/-- `fold_even_odd` (fold_even_odd.rs:19-51). -/
def foldEvenOdd (gen : Nat → F) (poly : List F) (beta : F) : Option (List F) := do
  let rows ← pairs poly
  let k ← log2Strict rows.length
  let gInv := (gen (k + 1))⁻¹
  let oneHalf := (2 : F)⁻¹
  let halfBeta := beta * oneHalf
  let powers := revSlice k (shiftedPowers gInv halfBeta rows.length)
  (rows.zip powers).mapM fun (row, power) =>
    match row with
    | r0 :: r1 :: _ => some ((oneHalf + power) * r0 + (oneHalf - power) * r1)
    | _ => none

/-! ### Interfaces -/

/-- `BFMmcs` (basic/src/mmcs/bf_mmcs.rs:17-67) as FRI uses it.  `S` is the state of the bit
commitment manager behind it, which `commit_matrix` advances.  `verifyBatch` is `some false` for
`Err`. -/
structure Mmcs (F S C D P : Type) where
  commitMatrix : S → List (List F) → Option (C × D × S)
  getMatrix : D → Option (List (List F))
  openBatch : (queryTimesIndex queryIndex : Nat) → D → Option (List (List F) × P)
  verifyBatch : (queryTimesIndex : Nat) → List (List F) → P → C → Option Bool

/-- The challenger as FRI uses it (traits `BfGrindingChallenger`, `CanObserve`, `CanSample`,
`CanSampleBits`); every operation may panic. -/
structure Chall (Ch C F W : Type) where
  observe : Ch → C → Option Ch
  sample : Ch → Option (F × Ch)
  checkWitness : Ch → Nat → W → Option (Bool × Ch)
  sampleBits : Ch → Nat → Option (Nat × Ch)

/-- `FriConfig` (config.rs:10-21) without the commitment scheme.  `debug` tells whether debug
assertions are compiled in. -/
structure Config where
  logBlowup : Nat
  numQueries : Nat
  powBits : Nat
  debug : Bool

/-- `blowup` (config.rs:18-20). -/
def Config.blowup (cfg : Config) : Nat := 2 ^ cfg.logBlowup

/-- `BfQueryProof` (proof.rs:25-34). -/
structure QueryProof (F P IP : Type) where
  inputProof : IP
  commitPhaseOpenings : List (List (List F) × P)

/-- `FriProof` (proof.rs:13-22). -/
structure FriProof (F C P W IP : Type) where
  commitPhaseCommits : List C
  queryProofs : List (QueryProof F P IP)
  finalPoly : F
  powWitness : W

/-- `get_leaf_index_by_query_index` (proof.rs:36-41). -/
def getLeafIndexByQueryIndex (queryIndex : Nat) : Nat × Nat × Nat :=
  let indexI := queryIndex >>> 1
  (indexI >>> 1, indexI, indexI ^^^ 1)

variable {S C D P Ch W IP : Type}

/-! ### Prover -/

/-- `CommitPhaseResult` (prover.rs:143-147), with the states reached. -/
structure CommitResult (F C D S Ch : Type) where
  commits : List C
  data : List D
  finalPoly : F
  state : S
  chall : Ch

/-- The end of `bf_commit_phase` (prover.rs:128-134): `blowup` equal values must be left. -/
def commitEnd (cfg : Config) (s : S) (ch : Ch) (folded : List F) :
    Option (CommitResult F C D S Ch) := do
  if folded.length = cfg.blowup then
    let finalPoly ← folded[0]?
    if folded.all (fun x => decide (x = finalPoly)) then some ⟨[], [], finalPoly, s, ch⟩ else none
  else none

/-- The next input is added when its length fits (prover.rs:123-125); otherwise it stays. -/
def addInput (folded : List F) : List (List F) → List F × List (List F)
  | [] => (folded, [])
  | v :: rest =>
    if v.length = folded.length then (List.zipWith (· + ·) folded v, rest) else (folded, v :: rest)

/-- The loop of `bf_commit_phase` (prover.rs:108-126).  `fuel` bounds the number of rounds; every
round halves the vector, so its length is enough. -/
def commitLoop (gen : Nat → F) (M : Mmcs F S C D P) (K : Chall Ch C F W) (cfg : Config) :
    (fuel : Nat) → S → Ch → (folded : List F) → (inputs : List (List F)) →
      Option (CommitResult F C D S Ch)
  | 0, _, _, _, _ => none
  | fuel + 1, s, ch, folded, inputs =>
    if folded.length > cfg.blowup then do
      let leaves ← pairs folded
      let (commit, proverData, s) ← M.commitMatrix s leaves
      let ch ← K.observe ch commit
      let (beta, ch) ← K.sample ch
      let leaves ← M.getMatrix proverData
      let folded ← foldMatrix gen beta leaves
      let (folded, inputs) := addInput folded inputs
      let r ← commitLoop gen M K cfg fuel s ch folded inputs
      some { r with commits := commit :: r.commits, data := proverData :: r.data }
    else commitEnd cfg s ch folded

/-- `bf_commit_phase` (prover.rs:93-141). -/
def commitPhase (gen : Nat → F) (M : Mmcs F S C D P) (K : Chall Ch C F W) (cfg : Config) (s : S)
    (ch : Ch) : List (List F) → Option (CommitResult F C D S Ch)
  | [] => none
  | v :: inputs => commitLoop gen M K cfg (v.length + 1) s ch v inputs

/-- `bf_answer_query` (prover.rs:69-90). -/
def answerQuery (M : Mmcs F S C D P) (data : List D) (queryIndex queryTimesIndex : Nat) :
    Option (List (List (List F) × P)) :=
  ((List.range data.length).zip data).mapM fun (i, d) =>
    M.openBatch queryTimesIndex (queryIndex >>> i >>> 1) d

/-- The query phase of `bf_prove` (prover.rs:44-59); `extra_query_index_bits` is 0
(two_adic_pcs.rs:83-85). -/
def proveQueries (M : Mmcs F S C D P) (K : Chall Ch C F W)
    (openInput : (queryTimesIndex queryIndex : Nat) → Option IP) (data : List D)
    (logMaxHeight : Nat) : (remaining queryTimesIndex : Nat) → Ch →
      Option (List (QueryProof F P IP) × Ch)
  | 0, _, ch => some ([], ch)
  | n + 1, k, ch => do
    let (queryIndex, ch) ← K.sampleBits ch logMaxHeight
    let inputProof ← openInput k queryIndex
    let openings ← answerQuery M data queryIndex k
    let (rest, ch) ← proveQueries M K openInput data logMaxHeight n (k + 1) ch
    some (⟨inputProof, openings⟩ :: rest, ch)

/-- `bf_prove` (prover.rs:19-67).  `witness` is the proof-of-work witness the search returned; `grind`
asserts that the check accepts it and leaves the challenger in the state after the check. -/
def bfProve (gen : Nat → F) (M : Mmcs F S C D P) (K : Chall Ch C F W) (cfg : Config)
    (inputs : List (List F)) (s : S) (ch : Ch) (witness : W)
    (openInput : (queryTimesIndex queryIndex : Nat) → Option IP) :
    Option (FriProof F C P W IP × S × Ch) := do
  if (inputs.zip inputs.tail).all (fun (l, r) => decide (r.length ≤ l.length)) then
    let first ← inputs[0]?
    let logMaxHeight ← log2Strict first.length
    let r ← commitPhase gen M K cfg s ch inputs
    let (accepted, ch) ← K.checkWitness r.chall cfg.powBits witness
    if accepted then
      let (queryProofs, ch) ← proveQueries M K openInput r.data logMaxHeight cfg.numQueries 0 ch
      some (⟨r.commits, queryProofs, r.finalPoly, witness⟩, r.state, ch)
    else none
  else none

/-! ### Verifier -/

/-- `FriChallenges` (verifier.rs:14-18). -/
structure FriChallenges (F : Type) where
  queryIndices : List (Nat × Nat)
  betas : List F

/-- Drawing the folding challenges (verifier.rs:32-39). -/
def sampleBetas (K : Chall Ch C F W) : List C → Ch → Option (List F × Ch)
  | [], ch => some ([], ch)
  | comm :: cs, ch => do
    let ch ← K.observe ch comm
    let (beta, ch) ← K.sample ch
    let (betas, ch) ← sampleBetas K cs ch
    some (beta :: betas, ch)

/-- Drawing the query indices (verifier.rs:52-54). -/
def sampleIndices (K : Chall Ch C F W) (bits : Nat) : (remaining queryTimesIndex : Nat) → Ch →
    Option (List (Nat × Nat) × Ch)
  | 0, _, ch => some ([], ch)
  | n + 1, k, ch => do
    let (i, ch) ← K.sampleBits ch bits
    let (is, ch) ← sampleIndices K bits n (k + 1) ch
    some ((k, i) :: is, ch)

/-- `verify_shape_and_sample_challenges` (verifier.rs:20-60). -/
def verifyShapeAndSampleChallenges (K : Chall Ch C F W) (cfg : Config)
    (proof : FriProof F C P W IP) (ch : Ch) : Res (FriChallenges F × Ch) := do
  let (betas, ch) ← Res.ofOption (sampleBetas K proof.commitPhaseCommits ch)
  if proof.queryProofs.length ≠ cfg.numQueries then Res.err .shape
  else
    let (accepted, ch) ← Res.ofOption (K.checkWitness ch cfg.powBits proof.powWitness)
    if !accepted then Res.err .pow
    else
      let logMaxHeight := proof.commitPhaseCommits.length + cfg.logBlowup
      let (queryIndices, ch) ← Res.ofOption (sampleIndices K logMaxHeight cfg.numQueries 0 ch)
      Res.ok (⟨queryIndices, betas⟩, ch)

/-- `ro_iter.next_if(...)` and the addition (verifier.rs:130-133): the first remaining reduced opening
is used when its height fits. -/
def nextRo (height : Nat) (folded : F) : List (Nat × F) → F × List (Nat × F)
  | [] => (folded, [])
  | (lh, ro) :: rest => if lh = height then (folded + ro, rest) else (folded, (lh, ro) :: rest)

/-- The loop of `verify_query` (verifier.rs:120-160) over the zipped rounds; returns the folded value
and the remaining index. -/
def queryLoop (gen : Nat → F) (M : Mmcs F S C D P) (queryTimesIndex logMaxHeight : Nat) :
    List (Nat × C × (List (List F) × P) × F) → (queryIndex : Nat) → (foldedEval : F) →
      List (Nat × F) → Res (F × Nat)
  | [], queryIndex, foldedEval, _ => .ok (foldedEval, queryIndex)
  | (logFoldedHeight, commit, step, beta) :: rest, queryIndex, foldedEval, ros => do
    let pointIndex := queryIndex % 2
    let (foldedEval, ros) := nextRo (logFoldedHeight + 1) foldedEval ros
    if step.1.length = 1 then
      let row ← Res.ofOption step.1[0]?
      let committed ← Res.ofOption row[pointIndex]?
      if logFoldedHeight < logMaxHeight - 1 ∧ foldedEval ≠ committed then Res.panic
      else
        let accepted ← Res.ofOption (M.verifyBatch queryTimesIndex step.1 step.2 commit)
        if accepted then
          let foldedEval ← Res.ofOption (foldRow gen (queryIndex / 2) logFoldedHeight beta row)
          queryLoop gen M queryTimesIndex logMaxHeight rest (queryIndex / 2) foldedEval ros
        else Res.err .mmcs
    else Res.panic

/-- `verify_query` (verifier.rs:100-165); `izip!` stops at the shortest list. -/
def verifyQuery (gen : Nat → F) (M : Mmcs F S C D P) (cfg : Config) (commits : List C)
    (queryIndex queryTimesIndex : Nat) (openings : List (List (List F) × P)) (betas : List F)
    (ros : List (Nat × F)) (logMaxHeight : Nat) : Res F := do
  let rounds := (List.range logMaxHeight).reverse.zip (commits.zip (openings.zip betas))
  let (foldedEval, queryIndex) ←
    queryLoop gen M queryTimesIndex logMaxHeight rounds queryIndex 0 ros
  if cfg.debug ∧ ¬ queryIndex < cfg.blowup then Res.panic else Res.ok foldedEval

/-- `verify_challenges` (verifier.rs:62-98). -/
def verifyChallenges (gen : Nat → F) (M : Mmcs F S C D P) (cfg : Config)
    (proof : FriProof F C P W IP) (challenges : FriChallenges F)
    (openInput : (queryTimesIndex queryIndex : Nat) → IP → Res (List (Nat × F))) : Res Unit :=
  let logMaxHeight := proof.commitPhaseCommits.length + cfg.logBlowup
  (challenges.queryIndices.zip proof.queryProofs).forM fun ((queryTimesIndex, queryIndex), qp) => do
    let ro ← openInput queryTimesIndex queryIndex qp.inputProof
    let foldedEval ← verifyQuery gen M cfg proof.commitPhaseCommits queryIndex queryTimesIndex
      qp.commitPhaseOpenings challenges.betas ro logMaxHeight
    if foldedEval ≠ proof.finalPoly then Res.err .finalPoly else Res.ok ()

end TapStark.Fri
