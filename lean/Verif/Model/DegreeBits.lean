import Verif.Model.Stark

/-!
`verify` with the machine arithmetic of its first lines: the size of the trace is computed by shifts of a 64-bit word.
-/

namespace TapStark.Stark

open TapStark.Fri TapStark.Pcs

variable {K F : Type} [Field K] [Field F] [DecidableEq K] [DecidableEq F] [Algebra K F]
variable {SI CI DI PI S C D P Ch W : Type}

/-- `1 << bits` for a `usize` of 64 bits (uni-stark/src/verifier.rs:38, 43): a shift by 64 or more panics with overflow
checks; without them only the low six bits of the amount count. -/
def shlOne (overflowChecks : Bool) (bits : Nat) : Option Nat :=
  if overflowChecks then (if bits < 64 then some (2 ^ bits) else none) else some (2 ^ (bits % 64))

/-- `verify` (uni-stark/src/verifier.rs:19-161) with its two shifts by `degree_bits` (verifier.rs:38 and 43) as the machine
does them.  `Stark.verify` has powers of two in their place.  When both shifts agree on which six bits count, the rest is
`Stark.verify` at that size.  They disagree only when `degree_bits % 64 + log_quotient_degree` reaches 64: the trace domain
then has more than `2 ^ 27` points unless there are more than `2 ^ 36` quotient chunks (not modelled), the shape of the
opened values is still checked (verifier.rs:48-58), and the next point (verifier.rs:75) panics.  The addition
`degree_bits + log_quotient_degree` is of 64-bit words too; when it overflows, `degree_bits` is at least 64, the first
shift has panicked if overflow checks are on, and if not the overflow does not change the low six bits. -/
def verifyMachine (overflowChecks : Bool) (u : Setup K F SI C DI PI S D P Ch W) (air : Air K) (ch : Ch)
    (proof : ProofOf K F C P W PI) (pub : List K) : Verdict Ch :=
  match getLogQuotientDegree air pub.length with
  | none => .panic
  | some q =>
    match shlOne overflowChecks proof.degreeBits, shlOne overflowChecks (proof.degreeBits + q) with
    | some degree, some size =>
      if size = degree * 2 ^ q then verify u air ch { proof with degreeBits := degree.log2 } pub
      else if ¬ (proof.traceLocal.length = air.width ∧ proof.traceNext.length = air.width ∧
        proof.quotientChunks.length = 2 ^ q ∧
        ∀ qc ∈ proof.quotientChunks, qc.length = u.deg.D) then .err .invalidProofShape
      else .panic
    | _, _ => .panic

end TapStark.Stark
