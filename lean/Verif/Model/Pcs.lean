import Verif.Model.Fri
import Mathlib.Algebra.Algebra.Basic

/-!
Model of the polynomial commitment scheme fri/src/two_adic_pcs.rs (`TwoAdicFriPcs`).

`K` is the base field, `F` the challenge field, an algebra over it.  `genV` is the base field's
`two_adic_generator`; the challenge field's is its image, as in p3-field for bit numbers up to the base
field's two-adicity.  `g` is `Val::generator()`.  Matrices are lists of rows.  The discrete Fourier
transform and the interpolation are external crates and are parameters.
-/

namespace TapStark.Pcs

open TapStark.Fri

variable {K F : Type} [Field K] [Field F] [DecidableEq K] [DecidableEq F] [Algebra K F]
variable {SI CI DI PI S C D P Ch W : Type}

/-- A matrix, as its rows. -/
abbrev Mat (K : Type) := List (List K)

/-- `Matrix::width` of a matrix given by rows; a matrix without rows counts as width 0. -/
def Mat.width (m : Mat K) : Nat := (m.headD []).length

/-- `TwoAdicMultiplicativeCoset` (crate p3-commit): the coset `shift · H`, `H` of order `2^logN`. -/
structure Dom (K : Type) where
  logN : Nat
  shift : K

/-- `size` (crate p3-commit). -/
def Dom.size (d : Dom K) : Nat := 2 ^ d.logN

/-- External functions: `coset_lde_batch` (p3-dft) and `interpolate_coset` (p3-interpolation, which may
panic). -/
structure Ext (K F : Type) where
  cosetLde : Mat K → (addedBits : Nat) → (shift : K) → Mat K
  interpolate : Mat K → (shift : K) → (point : F) → Option (List F)

/-- `BFMmcs` (basic/src/mmcs/bf_mmcs.rs:17-67) as the commitment scheme uses it. -/
structure InMmcs (K S C D P : Type) where
  commit : S → List (Mat K) → Option (C × D × S)
  getMatrices : D → Option (List (Mat K))
  openBatch : (queryTimesIndex queryIndex : Nat) → D → Option (List (List K) × P)
  verifyBatch : (queryTimesIndex : Nat) → List (List K) → P → C → Option Bool

/-- `get_max_height` (bf_mmcs.rs:62-67); panics when there are no matrices. -/
def InMmcs.getMaxHeight (M : InMmcs K SI CI DI PI) (d : DI) : Option Nat := do
  let mats ← M.getMatrices d
  (mats.map List.length).max?

/-- `bit_reverse_rows` (p3-matrix); panics unless the height is a power of two. -/
def bitReverseRows {R : Type} (m : List (List R)) : Option (List (List R)) := do
  let k ← log2Strict m.length
  some ((List.range m.length).map fun i => m.getD (revBits k i) [])

/-- `natural_domain_for_degree` (two_adic_pcs.rs:220-226). -/
def naturalDomainForDegree (degree : Nat) : Option (Dom K) := do
  let k ← log2Strict degree
  some ⟨k, 1⟩

/-- `commit` (two_adic_pcs.rs:227-245).  The division by a zero shift panics. -/
def commit (X : Ext K F) (M : InMmcs K SI CI DI PI) (g : K) (cfg : Config) (s : SI)
    (evaluations : List (Dom K × Mat K)) : Option (CI × DI × SI) := do
  let ldes ← evaluations.mapM fun (domain, evals) =>
    if domain.size = evals.length ∧ domain.shift ≠ 0 then
      bitReverseRows (X.cosetLde evals cfg.logBlowup (g / domain.shift))
    else none
  M.commit s ldes

/-- `get_evaluations_on_domain` (two_adic_pcs.rs:247-258). -/
def getEvaluationsOnDomain (M : InMmcs K SI CI DI PI) (g : K) (d : DI) (idx : Nat) (domain : Dom K) :
    Option (Mat K) := do
  if domain.shift = g then
    let mats ← M.getMatrices d
    let lde ← mats[idx]?
    if domain.size ≤ lde.length then bitReverseRows (lde.take domain.size) else none
  else none

/-! ### Opening -/

/-- One round as the prover sees it: the matrices and, for each, the points to open. -/
abbrev ProverRound (K F : Type) := List (Mat K) × List (List F)

/-- Updating the map from points to heights (two_adic_pcs.rs:688-694). -/
def insertPoint (m : List (F × Nat)) (z : F) (logHeight : Nat) : List (F × Nat) :=
  if m.any (fun e => decide (e.1 = z)) then
    m.map fun e => if e.1 = z then (e.1, max e.2 logHeight) else e
  else m ++ [(z, logHeight)]

/-- The largest height every point is opened at (two_adic_pcs.rs:682-696). -/
def pointHeights (rounds : List (ProverRound K F)) : Option (List (F × Nat)) :=
  rounds.foldlM (init := []) fun m round =>
    (round.1.zip round.2).foldlM (init := m) fun m (mat, points) => do
      let logHeight ← log2Strict mat.length
      some (points.foldl (fun m z => insertPoint m z logHeight) m)

/-- `compute_inverse_denominators` (two_adic_pcs.rs:678-720).  Inverting zero panics. -/
def inverseDenominators (genV : Nat → K) (rounds : List (ProverRound K F)) (shift : K) :
    Option (List (F × List F)) := do
  let m ← pointHeights rounds
  let maxLogHeight ← (m.map Prod.snd).max?
  let subgroup := revSlice maxLogHeight (shiftedPowers (genV maxLogHeight) shift (2 ^ maxLogHeight))
  m.mapM fun (z, logHeight) => do
    let inv ← (subgroup.take (2 ^ logHeight)).mapM fun x =>
      if algebraMap K F x - z = 0 then none else some (algebraMap K F x - z)⁻¹
    some (z, inv)

/-- `dot_product(alpha.powers(), xs)`: the sum of `alpha^j xs[j]`. -/
def dotPowers (alpha : F) (xs : List F) : F :=
  (List.zipWith (· * ·) (shiftedPowers alpha 1 xs.length) xs).sum

/-- The accumulators of `open` (two_adic_pcs.rs:336-337): `reduced_openings` and `num_reduced`.  The
arrays of 32 entries are functions here; an access beyond them is a panic in `openMat`. -/
structure ReduceState (F : Type) where
  ro : Nat → Option (List F)
  num : Nat → Nat

/-- One point of one matrix in `open` (two_adic_pcs.rs:350-385); the new accumulators and the values. -/
def openPoint (X : Ext K F) (g : K) (cfg : Config) (alpha : F) (inv : List (F × List F)) (mat : Mat K)
    (logHeight : Nat) (st : ReduceState F) (point : F) : Option (ReduceState F × List F) := do
  let low ← bitReverseRows (mat.take (mat.length >>> cfg.logBlowup))
  let ys ← X.interpolate low g point
  let offset := alpha ^ st.num logHeight
  let reducedYs := dotPowers alpha ys
  let ro ← st.ro logHeight
  let invDenom ← inv.lookup point
  let reducedRows := mat.map fun row => dotPowers alpha (row.map (algebraMap K F))
  let changes := List.zipWith (fun r d => offset * (r - reducedYs) * d) reducedRows invDenom
  let ro' := List.zipWith (· + ·) ro changes ++ ro.drop changes.length
  some (⟨Function.update st.ro logHeight (some ro'),
    Function.update st.num logHeight (st.num logHeight + mat.width)⟩, ys)

/-- The points of one matrix. -/
def openPoints (X : Ext K F) (g : K) (cfg : Config) (alpha : F) (inv : List (F × List F)) (mat : Mat K)
    (logHeight : Nat) : ReduceState F → List F → Option (ReduceState F × List (List F))
  | st, [] => some (st, [])
  | st, point :: points => do
    let (st, ys) ← openPoint X g cfg alpha inv mat logHeight st point
    let (st, yss) ← openPoints X g cfg alpha inv mat logHeight st points
    some (st, ys :: yss)

/-- One matrix in `open` (two_adic_pcs.rs:342-386). -/
def openMat (X : Ext K F) (g : K) (cfg : Config) (alpha : F) (inv : List (F × List F))
    (st : ReduceState F) (mat : Mat K) (points : List F) :
    Option (ReduceState F × List (List F)) := do
  let logHeight ← log2Strict mat.length
  if logHeight < 32 then
    let ro := (st.ro logHeight).getD (List.replicate mat.length 0)
    if cfg.debug ∧ ro.length ≠ mat.length then none
    else
      openPoints X g cfg alpha inv mat logHeight ⟨Function.update st.ro logHeight (some ro), st.num⟩
        points
  else none

/-- The matrices of one round, zipped with their points (two_adic_pcs.rs:341-386). -/
def openMats (X : Ext K F) (g : K) (cfg : Config) (alpha : F) (inv : List (F × List F)) :
    ReduceState F → List (Mat K × List F) → Option (ReduceState F × List (List (List F)))
  | st, [] => some (st, [])
  | st, (mat, points) :: rest => do
    let (st, v) ← openMat X g cfg alpha inv st mat points
    let (st, vs) ← openMats X g cfg alpha inv st rest
    some (st, v :: vs)

/-- All rounds (two_adic_pcs.rs:339-387). -/
def openRounds (X : Ext K F) (g : K) (cfg : Config) (alpha : F) (inv : List (F × List F)) :
    ReduceState F → List (ProverRound K F) → Option (ReduceState F × List (List (List (List F))))
  | st, [] => some (st, [])
  | st, round :: rest => do
    let (st, v) ← openMats X g cfg alpha inv st (round.1.zip round.2)
    let (st, vs) ← openRounds X g cfg alpha inv st rest
    some (st, v :: vs)

/-- The reduced openings and the opened values for the challenge `alpha` (two_adic_pcs.rs:313-389). -/
def reduceOpenings (X : Ext K F) (genV : Nat → K) (g : K) (cfg : Config) (alpha : F)
    (rounds : List (ProverRound K F)) :
    Option (ReduceState F × List (List (List (List F)))) := do
  let inv ← inverseDenominators genV rounds g
  openRounds X g cfg alpha inv ⟨fun _ => none, fun _ => 0⟩ rounds

/-- The input of FRI: the reduced openings, tallest first (two_adic_pcs.rs:389). -/
def friInput (st : ReduceState F) : List (List F) := (List.range 32).reverse.filterMap st.ro

/-- What the prover opens for a query (two_adic_pcs.rs:399-415).  The subtraction panics on underflow. -/
def openInput (M : InMmcs K SI CI DI PI) (logGlobal : Nat) (data : List DI)
    (queryTimesIndex queryIndex : Nat) : Option (List (List (List K) × PI)) :=
  data.mapM fun d => do
    let maxHeight ← M.getMaxHeight d
    let logMaxHeight ← log2Strict maxHeight
    if logMaxHeight ≤ logGlobal then
      M.openBatch queryTimesIndex (queryIndex >>> (logGlobal - logMaxHeight)) d
    else none

/-- `open` (two_adic_pcs.rs:260-419). -/
def «open» (X : Ext K F) (genV : Nat → K) (g : K) (MI : InMmcs K SI CI DI PI) (M : Mmcs F S C D P)
    (Kc : Chall Ch C F W) (cfg : Config) (rounds : List (DI × List (List F))) (s : S) (ch : Ch)
    (witness : W) :
    Option (List (List (List (List F))) × FriProof F C P W (List (List (List K) × PI)) × S × Ch) := do
  let (alpha, ch) ← Kc.sample ch
  let matsAndPoints ← rounds.mapM fun (data, points) => do
    let mats ← MI.getMatrices data
    some (mats, points)
  let maxHeight ← ((matsAndPoints.flatMap Prod.fst).map List.length).max?
  let logGlobal ← log2Strict maxHeight
  let (st, values) ← reduceOpenings X genV g cfg alpha matsAndPoints
  let (proof, s, ch) ← bfProve (fun b => algebraMap K F (genV b)) M Kc cfg (friInput st) s ch witness
    (openInput MI logGlobal (rounds.map Prod.fst))
  some (values, proof, s, ch)

/-! ### Verification -/

/-- One round as the verifier sees it: the commitment and, for every matrix, its domain and its points
with the claimed values. -/
abbrev VerifierRound (K F CI : Type) := CI × List (Dom K × List (F × List F))

/-- The inner loop of `verify` over the columns (two_adic_pcs.rs:498-511); `izip!` stops at the
shorter list.  Returns the next power of `alpha` and the accumulated numerator. -/
def columnLoop (alpha : F) : List (K × F) → (alphaPow acc : F) → F × F
  | [], alphaPow, acc => (alphaPow, acc)
  | (px, pz) :: rest, alphaPow, acc =>
    columnLoop alpha rest (alphaPow * alpha) (acc + alphaPow * (-pz + algebraMap K F px))

/-- The loop over the points of a matrix (two_adic_pcs.rs:496-515).  Division by zero panics. -/
def pointLoop (alpha : F) (x : K) (opening : List K) : List (F × List F) → (alphaPow ro : F) →
    Option (F × F)
  | [], alphaPow, ro => some (alphaPow, ro)
  | (z, ps) :: rest, alphaPow, ro => do
    let (alphaPow, acc) := columnLoop alpha (opening.zip ps) alphaPow 0
    if -z + algebraMap K F x = 0 then none
    else pointLoop alpha x opening rest alphaPow (ro + acc / (-z + algebraMap K F x))

/-- The map from heights to the power of `alpha` and the reduced opening (two_adic_pcs.rs:461). -/
abbrev VerifyState (F : Type) := Nat → Option (F × F)

/-- The loop over the matrices of a batch (two_adic_pcs.rs:478-516).  The subtraction panics on underflow in a build
with overflow checks; `matLoopR` is the build without. -/
def matLoop (genV : Nat → K) (g : K) (cfg : Config) (alpha : F) (logGlobal index : Nat) :
    List (List K × Dom K × List (F × List F)) → VerifyState F → Option (VerifyState F)
  | [], st => some st
  | (opening, domain, pointsAndValues) :: rest, st => do
    let k ← log2Strict domain.size
    let logHeight := k + cfg.logBlowup
    if logHeight ≤ logGlobal then
      let rev := revBits logHeight (index >>> (logGlobal - logHeight))
      let x := g * genV logHeight ^ rev
      let (alphaPow, ro) := (st logHeight).getD (1, 0)
      let r ← pointLoop alpha x opening pointsAndValues alphaPow ro
      matLoop genV g cfg alpha logGlobal index rest (Function.update st logHeight (some r))
    else none

/-- The loop over the batches (two_adic_pcs.rs:463-517). -/
def roundLoop (MI : InMmcs K SI CI DI PI) (genV : Nat → K) (g : K) (cfg : Config) (alpha : F)
    (logGlobal queryTimesIndex index : Nat) :
    List ((List (List K) × PI) × VerifierRound K F CI) → VerifyState F → Res (VerifyState F)
  | [], st => .ok st
  | (opening, commit, mats) :: rest, st => do
    let maxHeight ← Res.ofOption (mats.map fun m => m.1.size <<< cfg.logBlowup).max?
    let logMax ← Res.ofOption (log2Strict maxHeight)
    if logMax ≤ logGlobal then
      let accepted ← Res.ofOption (MI.verifyBatch queryTimesIndex opening.1 opening.2 commit)
      if accepted then
        let st ← Res.ofOption
          (matLoop genV g cfg alpha logGlobal index (opening.1.zip mats) st)
        roundLoop MI genV g cfg alpha logGlobal queryTimesIndex index rest st
      else Res.err .input
    else Res.panic

/-- The input opening of `verify` (two_adic_pcs.rs:457-525).  All heights in the map are at most
`logGlobal`, so listing these in descending order lists the map. -/
def verifyInput (MI : InMmcs K SI CI DI PI) (genV : Nat → K) (g : K) (cfg : Config) (alpha : F)
    (rounds : List (VerifierRound K F CI)) (logGlobal queryTimesIndex index : Nat)
    (inputProof : List (List (List K) × PI)) : Res (List (Nat × F)) := do
  let st ← roundLoop MI genV g cfg alpha logGlobal queryTimesIndex index (inputProof.zip rounds)
    fun _ => none
  Res.ok ((List.range (logGlobal + 1)).reverse.filterMap fun h => (st h).map fun r => (h, r.2))

/-- `.expect(...)` on a result: an error becomes a panic. -/
def expect {α : Type} : Res α → Res α
  | .err _ => .panic
  | r => r

/-- `verify` (two_adic_pcs.rs:421-534); also the challenger state afterwards. -/
def verify (genV : Nat → K) (g : K) (MI : InMmcs K SI CI DI PI) (M : Mmcs F S C D P)
    (Kc : Chall Ch C F W) (cfg : Config) (rounds : List (VerifierRound K F CI))
    (proof : FriProof F C P W (List (List (List K) × PI))) (ch : Ch) : Res Ch := do
  let (alpha, ch) ← Res.ofOption (Kc.sample ch)
  let logGlobal := proof.commitPhaseCommits.length + cfg.logBlowup
  let (challenges, ch) ← expect (verifyShapeAndSampleChallenges Kc cfg proof ch)
  expect (verifyChallenges (fun b => algebraMap K F (genV b)) M cfg proof challenges
    (verifyInput MI genV g cfg alpha rounds logGlobal))
  Res.ok ch

end TapStark.Pcs
