import Verif.Model.Dsl
import Verif.Model.Fri

/-
Model of the script-generating FRI verifier: `fold_row_with_expr`, /repo/fri/src/two_adic_pcs.rs, and
`bf_verify_challenges`, `bf_verify_query`, /repo/fri/src/script_verifier.rs.

The counter of identifiers is passed along; `n` is its value.
-/

namespace TapStark.Fri

variable {F : Type} [Field F] [DecidableEq F] {S C D P W IP : Type}

/-- `fold_row_with_expr`, two_adic_pcs.rs:153-200; `none` if the difference of the points is 0 (a division by zero
panics). -/
def foldRowExpr (B : BfField F) (folded sibling x : Expr) (xHint : F) (indexSibling : Nat) (beta : Expr)
    (m : InputManager) (n : Nat) : Option (Expr × InputManager × Nat) :=
  let revXHint := xHint * B.gen 1
  let (xs0Hint, xs1Hint) := if indexSibling % 2 = 0 then (revXHint, xHint) else (xHint, revXHint)
  if xs1Hint - xs0Hint = 0 then none
  else
    let invHint := 1 / (xs1Hint - xs0Hint)
    -- two `default()` nodes, overwritten
    let n := n + 2
    let (revX, n) := Dsl.mulF x (B.u32 (B.gen 1)) n
    let (xs0, xs1) := if indexSibling % 2 = 0 then (revX, x) else (x, revX)
    -- two `default()` nodes, overwritten
    let n := n + 2
    let (e0, e1) := if indexSibling % 2 = 0 then (sibling, folded) else (folded, sibling)
    let (d, n) := Dsl.sub beta xs0 n
    let (e, n) := Dsl.sub e1 e0 n
    let (p, n) := Dsl.mul d e n
    let (p, n) := Dsl.mulF p (B.u32 invHint) n
    let (next, n) := Dsl.add e0 p n
    let (dx, n) := Dsl.sub xs1 xs0 n
    let (hint, m, n) := m.assignHintInput (B.u32 invHint) n
    let (one, n) := Dsl.mul dx hint n
    let (check, n) := Dsl.equalC one (B.u32 1) n
    some (next, m.addHintVerify check, n)

/-- `ro_iter.next_if(..)` and the addition, script_verifier.rs:177-179. -/
def nextRoExpr (height : Nat) (folded : Expr) (ros : List (Nat × Expr)) (n : Nat) :
    Expr × List (Nat × Expr) × Nat :=
  match ros with
  | [] => (folded, [], n)
  | (lh, ro) :: rest =>
    if lh = height then
      let (e, n) := Dsl.add folded ro n
      (e, rest, n)
    else (folded, (lh, ro) :: rest, n)

/-- The loop of `bf_verify_query`, script_verifier.rs:165-224, over the zipped rounds; returns the folded expression and
the remaining index. -/
def queryLoopExpr (B : BfField F) (M : Mmcs F S C D P) (queryTimesIndex : Nat) :
    List (Nat × C × (List (List F) × P) × F) → (queryIndex : Nat) → (folded : Expr) → List (Nat × Expr) → (x : Expr) →
      (xHint : F) → InputManager → (n : Nat) → Res (Expr × Nat × InputManager × Nat)
  | [], queryIndex, folded, _, _, _, m, n => .ok (folded, queryIndex, m, n)
  | (logFoldedHeight, commit, step, beta) :: rest, queryIndex, folded, ros, x, xHint, m, n => do
    let pointIndex := queryIndex % 2
    let indexSibling := 1 - pointIndex
    let (folded, ros, n) := nextRoExpr (logFoldedHeight + 1) folded ros n
    if step.1.length = 1 then
      let accepted ← Res.ofOption (M.verifyBatch queryTimesIndex step.1 step.2 commit)
      if accepted then
        let row ← Res.ofOption step.1[0]?
        let siblingValue ← Res.ofOption row[indexSibling]?
        let (sibling, m, n) := m.assignInput (B.u32 siblingValue) n
        let (betaE, m, n) := m.assignInput (B.u32 beta) n
        let (folded, m, n) ← Res.ofOption (foldRowExpr B folded sibling x xHint indexSibling betaE m n)
        if logFoldedHeight ≠ 1 then
          let (x, n) := Dsl.square x n
          queryLoopExpr B M queryTimesIndex rest (queryIndex / 2) folded ros x (xHint * xHint) m n
        else queryLoopExpr B M queryTimesIndex rest (queryIndex / 2) folded ros x xHint m n
      else Res.err .mmcs
    else Res.panic

/-- `bf_verify_query`, script_verifier.rs:142-229. -/
def bfVerifyQuery (B : BfField F) (M : Mmcs F S C D P) (cfg : Config) (commits : List C)
    (queryIndex queryTimesIndex : Nat) (openings : List (List (List F) × P)) (betas : List F)
    (ros : List (Nat × Expr)) (logMaxHeight : Nat) (m : InputManager) (n : Nat) : Res (Expr × InputManager × Nat) := do
  let (folded, n) := Dsl.constant (B.u32 0) n
  let (rev, n) := Dsl.reverseBitsLen queryIndex logMaxHeight n
  let (x, n) := Dsl.indexToRou B.consts rev logMaxHeight n
  let xHint := B.gen logMaxHeight ^ revBits logMaxHeight queryIndex
  let rounds := (List.range logMaxHeight).reverse.zip (commits.zip (openings.zip betas))
  let (folded, queryIndex, m, n) ← queryLoopExpr B M queryTimesIndex rounds queryIndex folded ros x xHint m n
  if cfg.debug ∧ ¬ queryIndex < cfg.blowup then Res.panic else Res.ok (folded, m, n)

/-- The loop body of `bf_verify_challenges`, script_verifier.rs:106-137: the manager of one query.  `openInput` gives
the reduced openings as expressions and may assign inputs. -/
def bfQueryManager (B : BfField F) (M : Mmcs F S C D P) (cfg : Config) (proof : FriProof F C P W IP)
    (betas : List F)
    (openInput : (queryTimesIndex queryIndex : Nat) → IP → InputManager → Nat →
      Res (List (Nat × Expr) × InputManager × Nat))
    (queryTimesIndex queryIndex : Nat) (qp : QueryProof F P IP) (n : Nat) : Res (InputManager × Nat) := do
  let (ros, m, n) ← openInput queryTimesIndex queryIndex qp.inputProof .new n
  let (folded, m, n) ← bfVerifyQuery B M cfg proof.commitPhaseCommits queryIndex queryTimesIndex qp.commitPhaseOpenings
    betas ros (proof.commitPhaseCommits.length + cfg.logBlowup) m n
  let (final, m, n) := m.assignInput (B.u32 proof.finalPoly) n
  let (check, n) := Dsl.equal folded final n
  Res.ok (m.setExec check, n)

/-- `bf_verify_challenges`, script_verifier.rs:85-140: one manager per query (the names of the managers are left
out). -/
def bfVerifyChallenges (B : BfField F) (M : Mmcs F S C D P) (cfg : Config) (proof : FriProof F C P W IP)
    (betas : List F)
    (openInput : (queryTimesIndex queryIndex : Nat) → IP → InputManager → Nat →
      Res (List (Nat × Expr) × InputManager × Nat)) :
    List ((Nat × Nat) × QueryProof F P IP) → Nat → Res (List InputManager × Nat)
  | [], n => .ok ([], n)
  | ((queryTimesIndex, queryIndex), qp) :: rest, n => do
    let (m, n) ← bfQueryManager B M cfg proof betas openInput queryTimesIndex queryIndex qp n
    let (ms, n) ← bfVerifyChallenges B M cfg proof betas openInput rest n
    Res.ok (m :: ms, n)

end TapStark.Fri
