import Verif.Spec.FriSound
import Verif.Spec.FriScript

/-!
Specification side of C109: the queries that pass both verifiers.
-/

namespace TapStark.Fri

variable {F : Type} [Field F] [DecidableEq F]

/-- The query at `idx` passes both verifiers: the native one accepts some openings of the committed words, and the chain of
the query script (see `C43_query_accepts`) ends in the final value; the reduced openings are those of `ro` (height, index). -/
def Strategy.PassesBoth (s : Strategy F) (gen : Nat → F) {S C D P : Type} (M : Mmcs F S C D P) (cfg : Config)
    (ro : Nat → Nat → F) (betas : List F) (idx : Nat) : Prop :=
  ∃ (commits : List C) (q : Nat) (openings : List (List (List F) × P)) (ros : List (Nat × F)),
    commits.length = betas.length ∧ s.Opens betas idx openings ∧ RosOk ros (betas.length + cfg.logBlowup) ∧
    (∀ t, t < betas.length →
      roAt ros (betas.length + cfg.logBlowup - t) = ro (betas.length + cfg.logBlowup - t) (idx / 2 ^ t)) ∧
    verifyQuery gen M cfg commits idx q openings betas ros (betas.length + cfg.logBlowup) = .ok (s.final betas) ∧
    foldChain (roAt ros) (betas.length + cfg.logBlowup) (pointAt gen (betas.length + cfg.logBlowup) idx) 0
      (betas.zip (siblings idx (openings.map Prod.fst))) = s.final betas

/-- The reduced openings of all heights, each read at the position above which the index lies. -/
def inputTotal (ro : Nat → Nat → F) (rounds logBlowup i : Nat) : F :=
  ∑ t ∈ Finset.range rounds, ro (rounds + logBlowup - t) (i / 2 ^ t)

end TapStark.Fri
