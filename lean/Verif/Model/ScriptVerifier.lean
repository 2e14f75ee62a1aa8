import Verif.Model.PcsScript
import Verif.Model.AirProgram

/-
Model of `generate_script_verifier`, /repo/uni-stark/src/script_verifier.rs:25-307, for BabyBear with challenges in its
extension of degree four.  The printed statistics are left out.
-/

namespace TapStark.Stark

open TapStark.Fri TapStark.Pcs TapStark.FS

variable {SI DI PI S D P : Type}

/-- The configuration: BabyBear, its generator 31, the challenger over the permutation `perm`; the two commitment schemes
and the parameters of the opening proof are arbitrary. -/
noncomputable def babyBear (ext : Ext BB BB4) (mi : InMmcs BB SI Roots DI PI) (m : Mmcs BB4 S Roots D P)
    (perm : List U32 → List U32) (cfg : Config) : Setup BB BB4 SI Roots DI PI S D P (Chal U32) U32 :=
  ⟨ext, bbGen, 27, 31, mi, m, bb4Chall perm, cfg, bb4Deg⟩

/-- The inverted denominators, script_verifier.rs:172-184; inverting zero panics. -/
def denominatorInverses {K : Type} [Field K] [DecidableEq K] (domains : List (Dom K)) : Option (List K) :=
  (List.range domains.length).mapM fun i => do
    let domain ← domains[i]?
    let factors ← ((List.range domains.length).filter fun j => j ≠ i).mapM fun j => do
      let other ← domains[j]?
      inverse? (zpAtPoint (F := K) other domain.shift)
    some factors.prod

/-- Running the managers one after the other, script_verifier.rs:223-232: a failed script panics. -/
def runManagers (scfg : Cfg) (L : U31Lib) (T : TrackerLib) : List InputManager → Nat → Option Nat
  | [], n => some n
  | m :: ms, n => do
    let (m, n) ← m.embedHintVerify n
    m.run scfg L T
    runManagers scfg L T ms n

/-- script_verifier.rs:137-261, from the weights of the chunks to the folded constraints, with the scripts of all managers
in between; `ms` are the managers of the queries. -/
noncomputable def scriptChecks (scfg : Cfg) (L : U31Lib) (T : TrackerLib) (air : Air BB) (pub : List BB)
    (domains : List (Dom BB)) (degreeBits logQuotientDegree : Nat) (loc nxt : List BB4) (chunks : List (List BB4))
    (alpha zeta : BB4) (zetaE : Expr) (ms : List InputManager) (checks : List Expr) (n : Nat) :
    Option (BB4 × BB4 × BB4 × Nat) := do
  let z ← zps domains zeta
  let quotient ← recombine bb4Deg z chunks
  let inverses ← denominatorInverses domains
  let (mq, n) ← computeQuotientExpr zetaE (2 ^ degreeBits) (bbGen (degreeBits + logQuotientDegree)) domains.length chunks
    inverses quotient .new n
  let mc ← challengerManager checks
  let n ← runManagers scfg L T (ms ++ [mq, mc]) n
  let sels ← selectorsAtPoint bbGen ⟨degreeBits, 1⟩ zeta
  let folded ← verifierFold air alpha ⟨loc, nxt, pub.map (algebraMap BB BB4), sels.isFirstRow, sels.isLastRow,
    sels.isTransition⟩
  some (folded, folded * sels.invZeroifier, quotient, n)

/-- `generate_script_verifier`; `Ok` also gives the states of both challengers.  `trace` generates the script of the
folded constraints from `zeta`, `alpha`, the two rows and the value to compare with (script_verifier.rs:273-297). -/
noncomputable def scriptVerifierWith (scfg : Cfg) (L : U31Lib) (T : TrackerLib)
    (mi : InMmcs BB SI Roots DI PI) (m : Mmcs BB4 S Roots D P) (perm : List U32 → List U32) (cfg : Config) (air : Air BB)
    (trace : BB4 → BB4 → Nat → List BB4 → List BB4 → List BB → BB4 → Nat → Option (List Op)) (c : Chal U32) (e : ChalExpr) (proof : ProofOf BB BB4 Roots P U32 PI) (pub : List BB) (n : Nat) :
    Verdict (Chal U32 × ChalExpr) :=
  match getLogQuotientDegree air pub.length with
  | none => .panic
  | some logQuotientDegree =>
  let quotientDegree := 2 ^ logQuotientDegree
  match naturalDomainForDegree (2 ^ proof.degreeBits) with
  | none => .panic
  | some traceDomain =>
  let quotientDomain :=
    createDisjointDomain 31 traceDomain (2 ^ (proof.degreeBits + logQuotientDegree))
  match splitDomains bbGen 27 quotientDomain quotientDegree with
  | none => .panic
  | some domains =>
  if ¬ (proof.traceLocal.length = air.width ∧ proof.traceNext.length = air.width ∧
      proof.quotientChunks.length = quotientDegree ∧
      ∀ qc ∈ proof.quotientChunks, qc.length = 4) then .err .invalidProofShape
  else
  match starkChallenges perm proof.degreeBits proof.traceCommit proof.quotientCommit c e n with
  | none => .panic
  | some (alpha, zeta, zetaE, checks, c, e, n) =>
  let zetaNext := nextPoint bbGen traceDomain zeta
  match generateVerifyExpr perm bbGen 31 mi m cfg
      [(proof.traceCommit, [(traceDomain, [(zeta, proof.traceLocal), (zetaNext, proof.traceNext)])]),
       (proof.quotientCommit, (domains.zip proof.quotientChunks).map fun (d, v) => (d, [(zeta, v)]))]
      proof.openingProof c e n with
  | .panic => .panic
  | .err _ => .err .invalidOpeningArgument
  | .ok (ms, more, c, e, n) =>
  match scriptChecks scfg L T air pub domains proof.degreeBits logQuotientDegree proof.traceLocal proof.traceNext
      proof.quotientChunks alpha zeta zetaE ms (checks ++ more) n with
  | none => .panic
  | some (folded, value, quotient, n) =>
  if value ≠ quotient then .err .oodEvaluationMismatch
  else
  match trace zeta alpha proof.degreeBits proof.traceLocal proof.traceNext pub folded n with
  | none => .panic
  | some p => if accepts scfg p [] then .ok (c, e) else .panic

/-- `generate_script_verifier` for an AIR given by trees. -/
noncomputable def generateScriptVerifier (scfg : Cfg) (L : U31Lib) (T : TrackerLib) (drops : Nat → List Op)
    (mi : InMmcs BB SI Roots DI PI) (m : Mmcs BB4 S Roots D P) (perm : List U32 → List U32) (cfg : Config) (air : Air BB)
    (c : Chal U32) (e : ChalExpr) (proof : ProofOf BB BB4 Roots P U32 PI) (pub : List BB) (n : Nat) :
    Verdict (Chal U32 × ChalExpr) :=
  scriptVerifierWith scfg L T mi m perm cfg air (traceScript L T drops air) c e proof pub n

/-- `generate_script_verifier` for an AIR written as a program.  The native parts, the degree of the quotient and the fold of
the constraints, are those of the trees: C92 shows that they are the same. -/
noncomputable def AirProg.generateScriptVerifier (scfg : Cfg) (L : U31Lib) (T : TrackerLib) (drops : Nat → List Op)
    (mi : InMmcs BB SI Roots DI PI) (m : Mmcs BB4 S Roots D P) (perm : List U32 → List U32) (cfg : Config) (p : AirProg BB)
    (c : Chal U32) (e : ChalExpr) (proof : ProofOf BB BB4 Roots P U32 PI) (pub : List BB) (n : Nat) :
    Verdict (Chal U32 × ChalExpr) :=
  match p.air with
  | none => .panic
  | some air => scriptVerifierWith scfg L T mi m perm cfg air (p.traceScript L T drops) c e proof pub n

end TapStark.Stark
