import Verif.Model.FriScript
import Verif.Model.ScriptChallenges
import Verif.Model.ScriptQuotient
import Verif.Model.Pcs

/-
Model of `generate_verify_expr`, /repo/fri/src/two_adic_pcs.rs:537-674, for BabyBear and its extension of degree 4: the
opening proof of the script verifier.  The counter of identifiers is passed along.
-/

namespace TapStark.Pcs

open TapStark.Fri TapStark.FS TapStark.Stark

variable {SI CI DI PI S D P : Type}

/-- The loop over the columns, two_adic_pcs.rs:622-645; `izip!` stops at the shorter list.  Returns the power of `alpha`
and the accumulated numerator. -/
noncomputable def columnLoopExpr (alpha : BB4) : List (BB × BB4) → (alphaPow acc : Expr) → InputManager → Nat →
    Option (Expr × Expr × InputManager × Nat)
  | [], alphaPow, acc, m, n => some (alphaPow, acc, m, n)
  | (px, pz) :: rest, alphaPow, acc, m, n => do
    let (a, m, n) := m.assignInput (bb4Field.u32 (-pz)) n
    let (b, m, n) := m.assignInput (bbField.u32 px) n
    let (d, n) ← Dsl.addBase bb4Field.consts.size bbField.consts.size a b n
    let (t, n) := Dsl.mul alphaPow d n
    let (acc, n) := Dsl.add acc t n
    let (alphaPow, n) := Dsl.mulF alphaPow (bb4Field.u32 alpha) n
    columnLoopExpr alpha rest alphaPow acc m n

/-- The loop over the points of a matrix, two_adic_pcs.rs:619-651.  The inverse of zero panics; the inverse is an input
of the script. -/
noncomputable def pointLoopExpr (alpha : BB4) (x : BB) (opening : List BB) : List (BB4 × List BB4) →
    (alphaPow ro : Expr) → InputManager → Nat → Option (Expr × Expr × InputManager × Nat)
  | [], alphaPow, ro, m, n => some (alphaPow, ro, m, n)
  | (z, ps) :: rest, alphaPow, ro, m, n => do
    let (acc, n) := Dsl.constant (bb4Field.u32 0) n
    let (alphaPow, acc, m, n) ← columnLoopExpr alpha (opening.zip ps) alphaPow acc m n
    if -z + algebraMap BB BB4 x = 0 then none
    else
      let (i, m, n) := m.assignInput (bb4Field.u32 (-z + algebraMap BB BB4 x)⁻¹) n
      let (t, n) := Dsl.mul acc i n
      let (ro, n) := Dsl.add ro t n
      pointLoopExpr alpha x opening rest alphaPow ro m n

/-- The map from heights to the power of `alpha` and the reduced opening, two_adic_pcs.rs:587-588. -/
abbrev ExprState := Nat → Option (Expr × Expr)

/-- The loop over the matrices of a batch, two_adic_pcs.rs:603-652.  The two expressions of `or_insert` are built even
if the height is in the map. -/
noncomputable def matLoopExpr (genV : Nat → BB) (g : BB) (cfg : Config) (alpha : BB4) (logGlobal index : Nat) :
    List (List BB × Dom BB × List (BB4 × List BB4)) → ExprState → InputManager → Nat →
    Option (ExprState × InputManager × Nat)
  | [], st, m, n => some (st, m, n)
  | (opening, domain, pointsAndValues) :: rest, st, m, n => do
    let k ← log2Strict domain.size
    let logHeight := k + cfg.logBlowup
    if logHeight ≤ logGlobal then
      let rev := revBits logHeight (index >>> (logGlobal - logHeight))
      let x := g * genV logHeight ^ rev
      let (one, n) := Dsl.constant (bb4Field.u32 1) n
      let (zero, n) := Dsl.constant (bb4Field.u32 0) n
      let (alphaPow, ro) := (st logHeight).getD (one, zero)
      let (alphaPow, ro, m, n) ← pointLoopExpr alpha x opening pointsAndValues alphaPow ro m n
      matLoopExpr genV g cfg alpha logGlobal index rest (Function.update st logHeight (some (alphaPow, ro))) m n
    else none

/-- The loop over the batches, two_adic_pcs.rs:590-653. -/
noncomputable def roundLoopExpr (MI : InMmcs BB SI CI DI PI) (genV : Nat → BB) (g : BB) (cfg : Config) (alpha : BB4)
    (logGlobal queryTimesIndex index : Nat) : List ((List (List BB) × PI) × VerifierRound BB BB4 CI) → ExprState →
    InputManager → Nat → Res (ExprState × InputManager × Nat)
  | [], st, m, n => .ok (st, m, n)
  | (opening, commit, mats) :: rest, st, m, n => do
    let maxHeight ← Res.ofOption (mats.map fun m => m.1.size <<< cfg.logBlowup).max?
    let logMax ← Res.ofOption (log2Strict maxHeight)
    if logMax ≤ logGlobal then
      let accepted ← Res.ofOption (MI.verifyBatch queryTimesIndex opening.1 opening.2 commit)
      if accepted then
        let (st, m, n) ← Res.ofOption (matLoopExpr genV g cfg alpha logGlobal index (opening.1.zip mats) st m n)
        roundLoopExpr MI genV g cfg alpha logGlobal queryTimesIndex index rest st m n
      else Res.err .input
    else Res.panic

/-- The input opening, two_adic_pcs.rs:584-661.  All heights in the map are at most `logGlobal`, so listing these in
descending order lists the map. -/
noncomputable def openInputExpr (MI : InMmcs BB SI CI DI PI) (genV : Nat → BB) (g : BB) (cfg : Config) (alpha : BB4)
    (rounds : List (VerifierRound BB BB4 CI)) (logGlobal queryTimesIndex index : Nat)
    (inputProof : List (List (List BB) × PI)) (m : InputManager) (n : Nat) :
    Res (List (Nat × Expr) × InputManager × Nat) := do
  let (st, m, n) ← roundLoopExpr MI genV g cfg alpha logGlobal queryTimesIndex index (inputProof.zip rounds)
    (fun _ => none) m n
  Res.ok ((List.range (logGlobal + 1)).reverse.filterMap fun h => (st h).map fun r => (h, r.2), m, n)

/-- `generate_verify_expr`, two_adic_pcs.rs:553-674: the managers of the queries and the checks of the challenges.  Both
results are unwrapped with `expect`. -/
noncomputable def generateVerifyExpr (perm : List U32 → List U32) (genV : Nat → BB) (g : BB)
    (MI : InMmcs BB SI CI DI PI) (M : Mmcs BB4 S Roots D P) (cfg : Config) (rounds : List (VerifierRound BB BB4 CI))
    (proof : FriProof BB4 Roots P U32 (List (List (List BB) × PI))) (c : Chal U32) (e : ChalExpr) (n : Nat) :
    Res (List InputManager × List Expr × Chal U32 × ChalExpr × Nat) := do
  let (alpha, c) ← Res.ofOption ((bb4Chall perm).sample c)
  let logGlobal := proof.commitPhaseCommits.length + cfg.logBlowup
  let (challenges, checks, c, e, n) ← expect (bfSampleChallenges perm cfg proof c e n)
  let (ms, n) ← expect (bfVerifyChallenges bb4Field M cfg proof challenges.betas
    (openInputExpr MI genV g cfg alpha rounds logGlobal) (challenges.queryIndices.zip proof.queryProofs) n)
  Res.ok (ms, checks, c, e, n)

end TapStark.Pcs
