import Verif.Model.Pcs
import Verif.Model.Tcs

/-!
Model of uni-stark/src: symbolic expressions, constraint folding, the prover and the native verifier.

An `Air` is generic over the builder, so all it can do is combine the builder's values and assert.
`AExpr` and `Assertion` are the syntax of what it asserts; each builder of the code base interprets it.
-/

namespace TapStark.Stark

open TapStark.Fri TapStark.Pcs

variable {K F : Type} [Field K] [Field F] [DecidableEq K] [DecidableEq F] [Algebra K F]

/-! ### What an AIR asserts -/

/-- An expression in the values a builder offers (p3-air `AirBuilder`: `main`, `is_first_row`,
`is_last_row`, `is_transition_window(2)`, public values; `AbstractField` operations). -/
inductive AExpr (K : Type)
  | loc (column : Nat)
  | nxt (column : Nat)
  | pub (index : Nat)
  | isFirstRow
  | isLastRow
  | isTransition
  | const (c : K)
  | add (x y : AExpr K)
  | sub (x y : AExpr K)
  | neg (x : AExpr K)
  | mul (x y : AExpr K)

/-- `assert_zero(x)` or `assert_eq(x, y)` (p3-air). -/
inductive Assertion (K : Type)
  | zero (x : AExpr K)
  | eq (x y : AExpr K)

/-- An AIR: its width and its assertions, in order (p3-air `BaseAir::width`, `Air::eval`). -/
structure Air (K : Type) where
  width : Nat
  asserts : List (Assertion K)

/-! ### Symbolic expressions -/

/-- `Entry` (symbolic_variable.rs:9-16). -/
inductive Entry
  | preprocessed (offset : Nat)
  | main (offset : Nat)
  | permutation (offset : Nat)
  | publicValue
  | challenge

/-- `SymbolicExpression` (symbolic_expression.rs:12-37); operators store their degree. -/
inductive SymExpr (K : Type)
  | var (entry : Entry) (index : Nat)
  | isFirstRow
  | isLastRow
  | isTransition
  | constant (c : K)
  | add (x y : SymExpr K) (degreeMultiple : Nat)
  | sub (x y : SymExpr K) (degreeMultiple : Nat)
  | neg (x : SymExpr K) (degreeMultiple : Nat)
  | mul (x y : SymExpr K) (degreeMultiple : Nat)

/-- `SymbolicVariable::degree_multiple` (symbolic_variable.rs:34-39). -/
def Entry.degreeMultiple : Entry → Nat
  | .preprocessed _ | .main _ | .permutation _ => 1
  | .publicValue | .challenge => 0

/-- `SymbolicExpression::degree_multiple` (symbolic_expression.rs:41-61). -/
def SymExpr.degreeMultiple : SymExpr K → Nat
  | .var e _ => e.degreeMultiple
  | .isFirstRow => 1
  | .isLastRow => 1
  | .isTransition => 0
  | .constant _ => 0
  | .add _ _ d => d
  | .sub _ _ d => d
  | .neg _ d => d
  | .mul _ _ d => d

/-- `Add` (symbolic_expression.rs:134-145). -/
def SymExpr.mkAdd (x y : SymExpr K) : SymExpr K := .add x y (max x.degreeMultiple y.degreeMultiple)
/-- `Sub` (symbolic_expression.rs:179-190). -/
def SymExpr.mkSub (x y : SymExpr K) : SymExpr K := .sub x y (max x.degreeMultiple y.degreeMultiple)
/-- `Neg` (symbolic_expression.rs:212-222). -/
def SymExpr.mkNeg (x : SymExpr K) : SymExpr K := .neg x x.degreeMultiple
/-- `Mul` (symbolic_expression.rs:224-236). -/
def SymExpr.mkMul (x y : SymExpr K) : SymExpr K := .mul x y (x.degreeMultiple + y.degreeMultiple)

/-- What `SymbolicAirBuilder` gives for an expression (symbolic_builder.rs:66-148); a column or public
value that does not exist panics. -/
def AExpr.symbolic (width numPublic : Nat) : AExpr K → Option (SymExpr K)
  | .loc c => if c < width then some (.var (.main 0) c) else none
  | .nxt c => if c < width then some (.var (.main 1) c) else none
  | .pub i => if i < numPublic then some (.var .publicValue i) else none
  | .isFirstRow => some .isFirstRow
  | .isLastRow => some .isLastRow
  | .isTransition => some .isTransition
  | .const c => some (.constant c)
  | .add x y => do some (.mkAdd (← x.symbolic width numPublic) (← y.symbolic width numPublic))
  | .sub x y => do some (.mkSub (← x.symbolic width numPublic) (← y.symbolic width numPublic))
  | .neg x => do some (.mkNeg (← x.symbolic width numPublic))
  | .mul x y => do some (.mkMul (← x.symbolic width numPublic) (← y.symbolic width numPublic))

/-- `assert_zero` records the expression; `assert_eq` is `assert_zero` of the difference (p3-air). -/
def Assertion.expr : Assertion K → AExpr K
  | .zero x => x
  | .eq x y => .sub x y

/-- `get_symbolic_constraints` (symbolic_builder.rs:52-64). -/
def getSymbolicConstraints (air : Air K) (numPublic : Nat) : Option (List (SymExpr K)) :=
  air.asserts.mapM fun a => a.expr.symbolic air.width numPublic

/-- `get_max_constraint_degree` (symbolic_builder.rs:35-49). -/
def getMaxConstraintDegree (air : Air K) (numPublic : Nat) : Option Nat := do
  let constraints ← getSymbolicConstraints air numPublic
  some ((constraints.map SymExpr.degreeMultiple).max?.getD 0)

/-- `get_log_quotient_degree` (symbolic_builder.rs:15-32). -/
def getLogQuotientDegree (air : Air K) (numPublic : Nat) : Option Nat := do
  let d ← getMaxConstraintDegree air numPublic
  some (Tcs.log2Ceil (max d 2 - 1))

/-! ### Evaluating constraints -/

/-- What a builder over values in `R` knows: the two rows, the public values and the selectors. -/
structure Window (R : Type) where
  loc : List R
  nxt : List R
  pub : List R
  isFirstRow : R
  isLastRow : R
  isTransition : R

/-- An expression over the values of a builder (folder.rs:41-114, check_constraints.rs:55-108); a column
or public value that does not exist panics. -/
def AExpr.eval {R : Type} [Ring R] (lift : K → R) (w : Window R) : AExpr K → Option R
  | .loc c => w.loc[c]?
  | .nxt c => w.nxt[c]?
  | .pub i => w.pub[i]?
  | .isFirstRow => some w.isFirstRow
  | .isLastRow => some w.isLastRow
  | .isTransition => some w.isTransition
  | .const c => some (lift c)
  | .add x y => do some ((← x.eval lift w) + (← y.eval lift w))
  | .sub x y => do some ((← x.eval lift w) - (← y.eval lift w))
  | .neg x => do some (-(← x.eval lift w))
  | .mul x y => do some ((← x.eval lift w) * (← y.eval lift w))

/-- `ProverConstraintFolder` (folder.rs:12-70): the constraints are evaluated in the base field, the
accumulator is in the challenge field.  Packing is not modelled: one row at a time. -/
def proverFold (air : Air K) (alpha : F) (w : Window K) : Option F :=
  air.asserts.foldlM (init := 0) fun acc a => do
    some (acc * alpha + algebraMap K F (← a.expr.eval id w))

/-- `VerifierConstraintFolder` (folder.rs:24-114). -/
def verifierFold (air : Air K) (alpha : F) (w : Window F) : Option F :=
  air.asserts.foldlM (init := 0) fun acc a => do
    some (acc * alpha + (← a.expr.eval (algebraMap K F) w))

/-- `ScriptConstraintBuilder::get_accmulator_expr` (script_expr/src/script_builder.rs:84-90) on the values
of the constraint expressions; panics when there is none. -/
def scriptAccumulator (alpha : F) : List F → Option F
  | [] => none
  | c :: rest => some (rest.foldl (fun acc c => acc * alpha + c) c)

/-- `DebugConstraintBuilder` (check_constraints.rs:41-108): an assertion that does not hold panics. -/
def debugAssert (w : Window K) : Assertion K → Option Unit
  | .zero x => do if (← x.eval id w) = 0 then some () else none
  | .eq x y => do if (← x.eval id w) = (← y.eval id w) then some () else none

/-- `check_constraints` (check_constraints.rs:11-39). -/
def checkConstraints (air : Air K) (trace : Mat K) (pub : List K) : Option Unit :=
  (List.range trace.length).forM fun i => do
    let local_ ← (trace)[i]?
    let next ← (trace)[(i + 1) % trace.length]?
    air.asserts.forM (debugAssert ⟨local_, next, pub, if i = 0 then 1 else 0,
      if i = trace.length - 1 then 1 else 0, if i ≠ trace.length - 1 then 1 else 0⟩)

/-! ### Domains: `TwoAdicMultiplicativeCoset` of the crate p3-commit

These functions are an external crate's; the definitions below are its published code. -/

/-- `create_disjoint_domain`. -/
def createDisjointDomain (g : K) (d : Dom K) (minSize : Nat) : Dom K := ⟨Tcs.log2Ceil minSize, d.shift * g⟩

/-- `split_domains`; taking the generator panics above the two-adicity `N`. -/
def splitDomains (genV : Nat → K) (N : Nat) (d : Dom K) (numChunks : Nat) : Option (List (Dom K)) := do
  let logChunks ← log2Strict numChunks
  if d.logN ≤ N ∧ logChunks ≤ d.logN then
    some ((List.range numChunks).map fun i => ⟨d.logN - logChunks, d.shift * genV d.logN ^ i⟩)
  else none

/-- `split_evals`: chunk `i` has the rows `i`, `i + numChunks`, … -/
def splitEvals {R : Type} (numChunks : Nat) (rows : List R) [Inhabited R] : List (List R) :=
  (List.range numChunks).map fun i =>
    (List.range (rows.length / numChunks)).map fun j => rows.getD (i + j * numChunks) default

/-- `next_point`. -/
def nextPoint (genV : Nat → K) (d : Dom K) (x : F) : F := x * algebraMap K F (genV d.logN)

/-- `zp_at_point`. -/
def zpAtPoint (d : Dom K) (x : F) : F := (x * algebraMap K F d.shift⁻¹) ^ 2 ^ d.logN - 1

/-- `inverse`, which panics on zero (p3-field). -/
def inverse? {R : Type} [Field R] [DecidableEq R] (x : R) : Option R := if x = 0 then none else some x⁻¹

/-- `LagrangeSelectors`. -/
structure Selectors (R : Type) where
  isFirstRow : R
  isLastRow : R
  isTransition : R
  invZeroifier : R

/-- `selectors_at_point`; dividing by zero panics. -/
def selectorsAtPoint (genV : Nat → K) (d : Dom K) (point : F) : Option (Selectors F) := do
  let unshifted := point * algebraMap K F d.shift⁻¹
  let zH := unshifted ^ 2 ^ d.logN - 1
  let first ← inverse? (unshifted - 1)
  let last ← inverse? (unshifted - algebraMap K F (genV d.logN)⁻¹)
  let inv ← inverse? zH
  some ⟨zH * first, zH * last, unshifted - algebraMap K F (genV d.logN)⁻¹, inv⟩

/-- `selectors_on_coset`, for every point of the coset in order. -/
def selectorsOnCoset (genV : Nat → K) (d coset : Dom K) : Option (List (Selectors K)) := do
  if d.shift = 1 ∧ coset.shift ≠ 1 ∧ d.logN ≤ coset.logN then
    let rateBits := coset.logN - d.logN
    let evals := (shiftedPowers (genV rateBits) 1 (2 ^ rateBits)).map
      fun x => coset.shift ^ 2 ^ d.logN * x - 1
    let xs := shiftedPowers (genV coset.logN) coset.shift (2 ^ coset.logN)
    let invZ ← evals.mapM inverse?
    let invFirst ← xs.mapM fun x => inverse? (x - genV d.logN ^ 0)
    let invLast ← xs.mapM fun x => inverse? (x - genV d.logN ^ (2 ^ d.logN - 1))
    (List.range (2 ^ coset.logN)).mapM fun i => do
      let z ← evals[i % 2 ^ rateBits]?
      some ⟨z * (← invFirst[i]?), z * (← invLast[i]?), (← xs[i]?) - (genV d.logN)⁻¹,
        ← invZ[i % 2 ^ rateBits]?⟩
  else none

/-! ### The prover -/

/-- The challenge field as base field coordinates: `AbstractExtensionField::{D, as_base_slice,
monomial}` (p3-field). -/
structure ExtDeg (K F : Type) where
  D : Nat
  asBase : F → List K
  monomial : Nat → F

/-- `quotient_values` (uni-stark/prover.rs:122-194). -/
def quotientValues (genV : Nat → K) (air : Air K) (pub : List K) (traceDomain quotientDomain : Dom K)
    (trace : Mat K) (alpha : F) : Option (List F) := do
  let sels ← selectorsOnCoset genV traceDomain quotientDomain
  let nextStep := 2 ^ (quotientDomain.logN - traceDomain.logN)
  (List.range quotientDomain.size).mapM fun i => do
    let s ← sels[i]?
    let loc ← (trace)[i % trace.length]?
    let nxt ← (trace)[(i + nextStep) % trace.length]?
    let acc ← proverFold air alpha ⟨loc, nxt, pub, s.isFirstRow, s.isLastRow, s.isTransition⟩
    some (acc * algebraMap K F s.invZeroifier)

/-- `Commitments`, `OpenedValues`, `Proof` (proof.rs:18-37). -/
structure StarkProof (F C PF : Type) where
  traceCommit : C
  quotientCommit : C
  traceLocal : List F
  traceNext : List F
  quotientChunks : List (List F)
  openingProof : PF
  degreeBits : Nat

variable {SI DI PI S C D P Ch W : Type}

/-- The proof type of the deployed commitment scheme. -/
abbrev ProofOf (K F C P W PI : Type) := StarkProof F C (FriProof F C P W (List (List (List K) × PI)))

/-- The two challenges and the states between them that `prove` and `verify` draw. -/
structure Setup (K F SI C DI PI S D P Ch W : Type) where
  ext : Ext K F
  genV : Nat → K
  twoAdicity : Nat
  g : K
  mi : InMmcs K SI C DI PI
  m : Mmcs F S C D P
  chall : Chall Ch C F W
  cfg : Config
  deg : ExtDeg K F

/-- The check with debug assertions on (uni-stark/prover.rs:41-42). -/
def debugCheck (debug : Bool) (air : Air K) (trace : Mat K) (pub : List K) : Option Unit :=
  if debug then checkConstraints air trace pub else some ()

/-- The quotient phase of `prove` (uni-stark/prover.rs:65-84): evaluate, split, commit. -/
def quotientPhase (u : Setup K F SI C DI PI S D P Ch W) (air : Air K) (pub : List K) (traceDomain : Dom K)
    (logDegree logQuotientDegree : Nat) (traceData : DI) (si : SI) (alpha : F) :
    Option (C × DI × SI) := do
  let quotientDomain := createDisjointDomain u.g traceDomain (2 ^ (logDegree + logQuotientDegree))
  let traceOnQuotient ← getEvaluationsOnDomain u.mi u.g traceData 0 quotientDomain
  let values ← quotientValues u.genV air pub traceDomain quotientDomain traceOnQuotient alpha
  let chunks := splitEvals (2 ^ logQuotientDegree) (values.map u.deg.asBase)
  let domains ← splitDomains u.genV u.twoAdicity quotientDomain (2 ^ logQuotientDegree)
  Pcs.commit u.ext u.mi u.g u.cfg si (domains.zip chunks)

/-- The opening phase of `prove` (uni-stark/prover.rs:92-118). -/
def openPhase (u : Setup K F SI C DI PI S D P Ch W) (traceDomain : Dom K)
    (logDegree logQuotientDegree : Nat) (traceCommit quotientCommit : C) (traceData quotientData : DI)
    (s : S) (ch : Ch) (witness : W) (zeta : F) : Option (ProofOf K F C P W PI × Ch) := do
  let zetaNext := nextPoint u.genV traceDomain zeta
  let (opened, proof, _, ch) ← Pcs.open u.ext u.genV u.g u.mi u.m u.chall u.cfg
    [(traceData, [[zeta, zetaNext]]), (quotientData, List.replicate (2 ^ logQuotientDegree) [zeta])]
    s ch witness
  let traceLocal ← (← (← opened[0]?)[0]?)[0]?
  let traceNext ← (← (← opened[0]?)[0]?)[1]?
  let quotientChunks ← (← opened[1]?).mapM fun v => v[0]?
  some (⟨traceCommit, quotientCommit, traceLocal, traceNext, quotientChunks, proof, logDegree⟩, ch)

/-- `prove` (uni-stark/prover.rs:25-119).  `witness` is the proof-of-work witness found by grinding;
`si`, `s` are the states of the two commitment schemes. -/
def prove (u : Setup K F SI C DI PI S D P Ch W) (air : Air K) (ch : Ch) (trace : Mat K) (pub : List K)
    (si : SI) (s : S) (witness : W) : Option (ProofOf K F C P W PI × Ch) := do
  debugCheck u.cfg.debug air trace pub
  let logDegree ← log2Strict trace.length
  let logQuotientDegree ← getLogQuotientDegree air pub.length
  let traceDomain ← naturalDomainForDegree trace.length
  let (traceCommit, traceData, si) ← Pcs.commit u.ext u.mi u.g u.cfg si [(traceDomain, trace)]
  let ch ← u.chall.observe ch traceCommit
  let (alpha, ch) ← u.chall.sample ch
  let (quotientCommit, quotientData, _) ←
    quotientPhase u air pub traceDomain logDegree logQuotientDegree traceData si alpha
  let ch ← u.chall.observe ch quotientCommit
  let (zeta, ch) ← u.chall.sample ch
  openPhase u traceDomain logDegree logQuotientDegree traceCommit quotientCommit traceData quotientData s
    ch witness zeta

/-! ### The verifier -/

/-- `VerificationError` (uni-stark/verifier.rs:163-171); an error of the opening argument never occurs
(C74) and carries no data here. -/
inductive StarkErr
  | invalidProofShape
  | invalidOpeningArgument
  | oodEvaluationMismatch
  deriving DecidableEq

/-- The result of `verify`: `Ok`, `Err` or a panic.  `Ok` also gives the challenger state. -/
inductive Verdict (Ch : Type)
  | ok (ch : Ch)
  | err (e : StarkErr)
  | panic
  deriving DecidableEq

/-- The weights of the chunks (verifier.rs:103-120); inverting zero panics. -/
def zps (domains : List (Dom K)) (zeta : F) : Option (List F) :=
  (List.range domains.length).mapM fun i => do
    let domain ← domains[i]?
    let factors ← ((List.range domains.length).filter fun j => j ≠ i).mapM fun j => do
      let other ← domains[j]?
      some (zpAtPoint other zeta * algebraMap K F (← inverse? (zpAtPoint other domain.shift)))
    some factors.prod

/-- The quotient value (verifier.rs:122-132). -/
def recombine (deg : ExtDeg K F) (zps : List F) (chunks : List (List F)) : Option F := do
  let terms ← (List.range chunks.length).mapM fun i => do
    let z ← zps[i]?
    let ch ← chunks[i]?
    some ((List.range ch.length).map fun e => z * deg.monomial e * ch.getD e 0).sum
  some terms.sum

/-- The out-of-domain check (verifier.rs:103-160). -/
def oodCheck (u : Setup K F SI C DI PI S D P Ch W) (air : Air K) (pub : List K) (traceDomain : Dom K)
    (domains : List (Dom K)) (proof : ProofOf K F C P W PI) (alpha zeta : F) : Option Bool := do
  let z ← zps domains zeta
  let quotient ← recombine u.deg z proof.quotientChunks
  let sels ← selectorsAtPoint u.genV traceDomain zeta
  let folded ← verifierFold air alpha ⟨proof.traceLocal, proof.traceNext, pub.map (algebraMap K F),
    sels.isFirstRow, sels.isLastRow, sels.isTransition⟩
  some (decide (folded * sels.invZeroifier = quotient))

/-- `verify` (uni-stark/verifier.rs:19-161).  A shift by an oversized `degree_bits` panics, like the
generator of an oversized domain; without overflow checks it wraps around, see `verifyMachine`. -/
def verify (u : Setup K F SI C DI PI S D P Ch W) (air : Air K) (ch : Ch) (proof : ProofOf K F C P W PI)
    (pub : List K) : Verdict Ch :=
  match getLogQuotientDegree air pub.length with
  | none => .panic
  | some logQuotientDegree =>
  let quotientDegree := 2 ^ logQuotientDegree
  match naturalDomainForDegree (2 ^ proof.degreeBits) with
  | none => .panic
  | some traceDomain =>
  let quotientDomain :=
    createDisjointDomain u.g traceDomain (2 ^ (proof.degreeBits + logQuotientDegree))
  match splitDomains u.genV u.twoAdicity quotientDomain quotientDegree with
  | none => .panic
  | some domains =>
  if ¬ (proof.traceLocal.length = air.width ∧ proof.traceNext.length = air.width ∧
      proof.quotientChunks.length = quotientDegree ∧
      ∀ qc ∈ proof.quotientChunks, qc.length = u.deg.D) then .err .invalidProofShape
  else
  match (do
    let ch ← u.chall.observe ch proof.traceCommit
    let (alpha, ch) ← u.chall.sample ch
    let ch ← u.chall.observe ch proof.quotientCommit
    let (zeta, ch) ← u.chall.sample ch
    some (alpha, zeta, ch) : Option (F × F × Ch)) with
  | none => .panic
  | some (alpha, zeta, ch) =>
  let zetaNext := nextPoint u.genV traceDomain zeta
  match Pcs.verify u.genV u.g u.mi u.m u.chall u.cfg
      [(proof.traceCommit, [(traceDomain, [(zeta, proof.traceLocal), (zetaNext, proof.traceNext)])]),
       (proof.quotientCommit, (domains.zip proof.quotientChunks).map fun (d, v) => (d, [(zeta, v)]))]
      proof.openingProof ch with
  | .panic => .panic
  | .err _ => .err .invalidOpeningArgument
  | .ok ch =>
  match oodCheck u air pub traceDomain domains proof alpha zeta with
  | none => .panic
  | some true => .ok ch
  | some false => .err .oodEvaluationMismatch

/-! ### `ZerofierOnCoset` (uni-stark/zerofier_coset.rs) -/

/-- `ZerofierOnCoset` (zerofier_coset.rs:9-20). -/
structure ZerofierOnCoset (K : Type) where
  logN : Nat
  rateBits : Nat
  cosetShift : K
  evals : List K
  inverses : List K

/-- `new` (zerofier_coset.rs:23-38); inverting zero panics. -/
def ZerofierOnCoset.new (genV : Nat → K) (logN rateBits : Nat) (cosetShift : K) :
    Option (ZerofierOnCoset K) := do
  let sPowN := cosetShift ^ 2 ^ logN
  let evals := (shiftedPowers (genV rateBits) 1 (2 ^ rateBits)).map fun x => sPowN * x - 1
  let inverses ← evals.mapM inverse?
  some ⟨logN, rateBits, cosetShift, evals, inverses⟩

/-- `eval` (zerofier_coset.rs:41-43); the mask `2^rate - 1` is the remainder by `2^rate`. -/
def ZerofierOnCoset.eval (z : ZerofierOnCoset K) (i : Nat) : Option K := z.evals[i &&& (2 ^ z.rateBits - 1)]?

/-- `eval_inverse` (zerofier_coset.rs:46-48). -/
def ZerofierOnCoset.evalInverse (z : ZerofierOnCoset K) (i : Nat) : Option K :=
  z.inverses[i &&& (2 ^ z.rateBits - 1)]?

/-- `eval_inverse_packed` (zerofier_coset.rs:51-59) for a packing of `width` values. -/
def ZerofierOnCoset.evalInversePacked (z : ZerofierOnCoset K) (width iStart : Nat) : Option (List K) :=
  (List.range width).mapM fun j => z.evalInverse (iStart + j)

/-- `lagrange_basis_unnormalized` (zerofier_coset.rs:64-82). -/
def ZerofierOnCoset.lagrangeBasisUnnormalized (genV : Nat → K) (z : ZerofierOnCoset K) (i : Nat) :
    Option (List K) := do
  let logCosetSize := z.logN + z.rateBits
  let targetPoint := genV z.logN ^ i
  let denominators := (shiftedPowers (genV logCosetSize) z.cosetShift (2 ^ logCosetSize)).map
    fun x => x - targetPoint
  let inverses ← denominators.mapM inverse?
  (List.range inverses.length).mapM fun j => do
    some ((← z.evals[j % z.evals.length]?) * (← inverses[j]?))

end TapStark.Stark
