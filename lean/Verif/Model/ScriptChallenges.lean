import Verif.Model.ChallengerExpr
import Verif.Model.Fri
import Verif.Model.Stark
import Verif.Model.StarkInst

/-
Model of the checks of the challenges in the script verifier: `bf_sample_challenges`,
/repo/fri/src/script_verifier.rs:20-83, and the transcript of `generate_script_verifier`,
/repo/uni-stark/src/script_verifier.rs:79-106, 192-217.

Everything is sampled twice, by the native challenger and as an expression, and compared by an expression.  The
challenge field is the extension of degree 4 of BabyBear.  The counter of identifiers is passed along.
-/

namespace TapStark.Stark

open TapStark.FS TapStark.Fri

/-- A commitment: one root per batch (`M::Commitment`). -/
abbrev Roots := List (Vector U32 8)

/-- `observe` of a commitment, challenger_expr.rs:136-175: word by word. -/
def observeRoots (e : ChalExpr) (c : Roots) (n : Nat) : Option (ChalExpr × Nat) :=
  e.observeAll 4 (c.flatMap Vector.toList) n

/-- `challenger_dsl.sample().equal_for_f(value)`, returning the sample too. -/
noncomputable def sampleCheck (e : ChalExpr) (value : BB4) (n : Nat) : Option (Expr × Expr × ChalExpr × Nat) := do
  let (x, e, n) ← e.sample 4 n
  let (check, n) := Dsl.equalC x (bb4Field.u32 value) n
  some (x, check, e, n)

/-- Drawing and checking the folding challenges, script_verifier.rs:37-48. -/
noncomputable def betasExpr (perm : List U32 → List U32) : List Roots → Chal U32 → ChalExpr → Nat →
    Option (List BB4 × List Expr × Chal U32 × ChalExpr × Nat)
  | [], c, e, n => some ([], [], c, e, n)
  | comm :: comms, c, e, n => do
    let c ← (bb4Chall perm).observe c comm
    let (beta, c) ← (bb4Chall perm).sample c
    let (e, n) ← observeRoots e comm n
    let (_, check, e, n) ← sampleCheck e beta n
    let (betas, checks, c, e, n) ← betasExpr perm comms c e n
    some (beta :: betas, check :: checks, c, e, n)

/-- Drawing and checking the query indices, script_verifier.rs:65-74. -/
noncomputable def indicesExpr (perm : List U32 → List U32) (bits : Nat) : (remaining queryTimesIndex : Nat) → Chal U32 →
    ChalExpr → Nat → Option (List (Nat × Nat) × List Expr × Chal U32 × ChalExpr × Nat)
  | 0, _, c, e, n => some ([], [], c, e, n)
  | k + 1, q, c, e, n => do
    let (i, c) ← (bb4Chall perm).sampleBits c bits
    let (x, e, n) ← e.sampleBits 4 bits n
    let (check, n) := Dsl.equalC x [i] n
    let (is, checks, c, e, n) ← indicesExpr perm bits k (q + 1) c e n
    some ((q, i) :: is, check :: checks, c, e, n)

/-- `bf_sample_challenges`, script_verifier.rs:20-83: the challenges and their checks. -/
noncomputable def bfSampleChallenges (perm : List U32 → List U32) (cfg : Config) {P IP : Type}
    (proof : FriProof BB4 Roots P U32 IP) (c : Chal U32) (e : ChalExpr) (n : Nat) :
    Res (FriChallenges BB4 × List Expr × Chal U32 × ChalExpr × Nat) := do
  let (betas, checks, c, e, n) ← Res.ofOption (betasExpr perm proof.commitPhaseCommits c e n)
  if proof.queryProofs.length ≠ cfg.numQueries then Res.err .shape
  else
    let (accepted, c) ← Res.ofOption ((bb4Chall perm).checkWitness c cfg.powBits proof.powWitness)
    if !accepted then Res.err .pow
    else
      let (pow, e, n) ← Res.ofOption (e.checkWitness 4 cfg.powBits proof.powWitness n)
      let (indices, more, c, e, n) ← Res.ofOption
        (indicesExpr perm (proof.commitPhaseCommits.length + cfg.logBlowup) cfg.numQueries 0 c e n)
      Res.ok (⟨indices, betas⟩, checks ++ pow :: more, c, e, n)

/-- `Dsl::<Val>::index_to_rou(1, degree_bits)`, alias.rs:112-124: the node draws its identifier before its operand. -/
def rootExpr (degreeBits : Nat) (n : Nat) : Expr × Nat :=
  (.node (n + 1) (.indexToRou bbConsts degreeBits) 1 [.node (n + 2) (.constant [1]) 1 []], n + 2)

/-- The challenges of `generate_script_verifier` outside the opening proof with their checks, uni-stark
script_verifier.rs:79-106: `(alpha, zeta, zeta_dsl, checks)` and both challengers. -/
noncomputable def starkChallenges (perm : List U32 → List U32) (degreeBits : Nat) (trace quotient : Roots) (c : Chal U32)
    (e : ChalExpr) (n : Nat) : Option (BB4 × BB4 × Expr × List Expr × Chal U32 × ChalExpr × Nat) := do
  let c ← (bb4Chall perm).observe c trace
  let (e, n) ← observeRoots e trace n
  let (alpha, c) ← (bb4Chall perm).sample c
  let (_, checkAlpha, e, n) ← sampleCheck e alpha n
  let c ← (bb4Chall perm).observe c quotient
  let (e, n) ← observeRoots e quotient n
  let (zeta, c) ← (bb4Chall perm).sample c
  let (zetaE, checkZeta, e, n) ← sampleCheck e zeta n
  let (root, n) := rootExpr degreeBits n
  let (zetaNextE, n) := Dsl.mul zetaE root n
  let (checkNext, n) := Dsl.equalC zetaNextE (bb4Field.u32 (zeta * algebraMap BB BB4 (bbGen degreeBits))) n
  some (alpha, zeta, zetaE, [checkAlpha, checkZeta, checkNext], c, e, n)

/-- The "[challenger]" manager, uni-stark script_verifier.rs:192-211: the last check is the expression to execute, the
others are hint checks.  (`len() - 1` of an empty list would overflow; there are always checks.) -/
def challengerManager (checks : List Expr) : Option InputManager :=
  checks.getLast?.map fun e => { InputManager.new with exec := some e, hint := checks.dropLast }

/-- All challenges of `generate_script_verifier` up to the opening proof's, with all their checks: the combination
challenge of the opening proof is sampled by the native challenger only, two_adic_pcs.rs:575. -/
noncomputable def allChallenges (perm : List U32 → List U32) (cfg : Config) {P IP : Type} (degreeBits : Nat)
    (trace quotient : Roots) (proof : FriProof BB4 Roots P U32 IP) (c : Chal U32) (e : ChalExpr) (n : Nat) :
    Res ((BB4 × BB4 × BB4 × FriChallenges BB4) × Expr × List Expr × Chal U32 × ChalExpr × Nat) := do
  let (alpha, zeta, zetaE, checks, c, e, n) ← Res.ofOption (starkChallenges perm degreeBits trace quotient c e n)
  let (batch, c) ← Res.ofOption ((bb4Chall perm).sample c)
  let (fc, more, c, e, n) ← bfSampleChallenges perm cfg proof c e n
  Res.ok ((alpha, zeta, batch, fc), zetaE, checks ++ more, c, e, n)

end TapStark.Stark
