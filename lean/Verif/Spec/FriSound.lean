import Verif.Spec.Fri
import Mathlib.Data.Fintype.BigOperators

/-!
Specification side of FRI soundness: a prover that may cheat, and the queries it passes.

The prover is a strategy: the word it commits to in a round may depend on the challenges drawn before, and so may the
final value.  What it cannot do is open a committed word at another position or with other values; this is the
assumption on the commitment scheme.
-/

namespace TapStark.Fri

open Polynomial

variable {F : Type} [Field F] [DecidableEq F]

/-- The point at index `i` of the evaluation domain of size `2^h`. -/
def pointAt (gen : Nat → F) (h i : Nat) : F := gen h ^ revBits h i

/-- A prover: `layer bs` is the word committed to after the challenges `bs`, `final bs` the final value. -/
structure Strategy (F : Type) where
  layer : List F → Nat → F
  final : List F → F

/-- The openings show, for every round, the pair of the committed word that contains the queried position. -/
def Strategy.Opens (s : Strategy F) {P : Type} (betas : List F) (idx : Nat) (openings : List (List (List F) × P)) :
    Prop :=
  openings.length = betas.length ∧ ∀ j, j < betas.length → ∃ π, openings[j]? =
    some ([[s.layer (betas.take j) (2 * (idx / 2 ^ (j + 1))), s.layer (betas.take j) (2 * (idx / 2 ^ (j + 1)) + 1)]], π)

/-- The query at `idx` passes: the verifier accepts some openings of the committed words, some commitments and some
reduced openings whose values below the largest height are those of `ro` (height, index) at the queried position. -/
def Strategy.Passes (s : Strategy F) (gen : Nat → F) {S C D P : Type} (M : Mmcs F S C D P) (cfg : Config)
    (ro : Nat → Nat → F) (betas : List F) (idx : Nat) : Prop :=
  ∃ (commits : List C) (q : Nat) (openings : List (List (List F) × P)) (ros : List (Nat × F)),
    commits.length = betas.length ∧ s.Opens betas idx openings ∧ RosOk ros (betas.length + cfg.logBlowup) ∧
    (∀ t, 1 ≤ t → t < betas.length →
      roAt ros (betas.length + cfg.logBlowup - t) = ro (betas.length + cfg.logBlowup - t) (idx / 2 ^ t)) ∧
    verifyQuery gen M cfg commits idx q openings betas ros (betas.length + cfg.logBlowup) = .ok (s.final betas)

/-- What the rounds check together: the first committed word plus the reduced openings of all smaller heights, each read
at the position above which the index lies. -/
def Strategy.total (s : Strategy F) (ro : Nat → Nat → F) (rounds logBlowup i : Nat) : F :=
  s.layer [] i + ∑ t ∈ Finset.Ico 1 rounds, ro (rounds + logBlowup - t) (i / 2 ^ t)

/-- The word agrees with a polynomial of degree below `d` on all but at most `m` of the points of the domain of size
`2^h`. -/
def CloseTo (gen : Nat → F) (h d m : Nat) (w : Nat → F) : Prop :=
  ∃ p : F[X], p.degree < d ∧ 2 ^ h ≤ ((Finset.range (2 ^ h)).filter fun i => w i = p.eval (pointAt gen h i)).card + m

end TapStark.Fri
