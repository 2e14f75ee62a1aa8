import Verif.Model.Pcs

/-!
The verifier of fri/src/two_adic_pcs.rs in a build without overflow checks.  `Pcs.verify` is the verifier in a build with
them: there `log_global_max_height - log_height` panics when a claimed matrix is taller than the domain of the proof.
Without the checks the difference wraps around and the shift by it uses its low six bits.
-/

namespace TapStark.Pcs

open TapStark.Fri

variable {K F : Type} [Field K] [Field F] [DecidableEq K] [DecidableEq F] [Algebra K F]
variable {SI CI DI PI S C D P Ch W : Type}

/-- `index >> (a - b)` for 64-bit words without overflow checks (two_adic_pcs.rs:483-484). -/
def shrWrapped (index a b : Nat) : Nat := index >>> (((a : Int) - b) % 64).toNat

/-- `matLoop` without overflow checks (two_adic_pcs.rs:478-516).  A generator above the two-adicity `N` panics, as in
every build; `matLoop` leaves this to hypotheses. -/
def matLoopR (N : Nat) (genV : Nat → K) (g : K) (cfg : Config) (alpha : F) (logGlobal index : Nat) :
    List (List K × Dom K × List (F × List F)) → VerifyState F → Option (VerifyState F)
  | [], st => some st
  | (opening, domain, pointsAndValues) :: rest, st => do
    let k ← log2Strict domain.size
    let logHeight := k + cfg.logBlowup
    if logHeight ≤ N then
      let rev := revBits logHeight (shrWrapped index logGlobal logHeight)
      let x := g * genV logHeight ^ rev
      let (alphaPow, ro) := (st logHeight).getD (1, 0)
      let r ← pointLoop alpha x opening pointsAndValues alphaPow ro
      matLoopR N genV g cfg alpha logGlobal index rest (Function.update st logHeight (some r))
    else none

/-- `roundLoop` without overflow checks (two_adic_pcs.rs:463-517); the shifted index of line 471 is not used. -/
def roundLoopR (N : Nat) (MI : InMmcs K SI CI DI PI) (genV : Nat → K) (g : K) (cfg : Config) (alpha : F)
    (logGlobal queryTimesIndex index : Nat) :
    List ((List (List K) × PI) × VerifierRound K F CI) → VerifyState F → Res (VerifyState F)
  | [], st => .ok st
  | (opening, commit, mats) :: rest, st => do
    let maxHeight ← Res.ofOption (mats.map fun m => m.1.size <<< cfg.logBlowup).max?
    let _ ← Res.ofOption (log2Strict maxHeight)
    let accepted ← Res.ofOption (MI.verifyBatch queryTimesIndex opening.1 opening.2 commit)
    if accepted then
      let st ← Res.ofOption
        (matLoopR N genV g cfg alpha logGlobal index (opening.1.zip mats) st)
      roundLoopR N MI genV g cfg alpha logGlobal queryTimesIndex index rest st
    else Res.err .input

/-- The input opening of `verify` (two_adic_pcs.rs:457-525) without overflow checks.  All heights in the map are at most
`N`, so listing these in descending order lists the map. -/
def verifyInputR (N : Nat) (MI : InMmcs K SI CI DI PI) (genV : Nat → K) (g : K) (cfg : Config) (alpha : F)
    (rounds : List (VerifierRound K F CI)) (logGlobal queryTimesIndex index : Nat)
    (inputProof : List (List (List K) × PI)) : Res (List (Nat × F)) := do
  let st ← roundLoopR N MI genV g cfg alpha logGlobal queryTimesIndex index (inputProof.zip rounds)
    fun _ => none
  Res.ok ((List.range (N + 1)).reverse.filterMap fun h => (st h).map fun r => (h, r.2))

/-- `verify` (two_adic_pcs.rs:421-534) in a build without debug assertions and overflow checks. -/
def verifyR (N : Nat) (genV : Nat → K) (g : K) (MI : InMmcs K SI CI DI PI) (M : Mmcs F S C D P)
    (Kc : Chall Ch C F W) (cfg : Config) (rounds : List (VerifierRound K F CI))
    (proof : FriProof F C P W (List (List (List K) × PI))) (ch : Ch) : Res Ch := do
  let (alpha, ch) ← Res.ofOption (Kc.sample ch)
  let logGlobal := proof.commitPhaseCommits.length + cfg.logBlowup
  let (challenges, ch) ← expect (verifyShapeAndSampleChallenges Kc cfg proof ch)
  expect (verifyChallenges (fun b => algebraMap K F (genV b)) M { cfg with debug := false } proof challenges
    (verifyInputR N MI genV g cfg alpha rounds logGlobal))
  Res.ok ch

end TapStark.Pcs
