import Verif.Model.Fri
import Mathlib.Algebra.Polynomial.Expand
import Mathlib.Algebra.Polynomial.Inductions

/-!
Specification side of FRI: what a two-adic generator is, evaluation vectors, folded polynomials, and
what is required of the commitment scheme.
-/

namespace TapStark.Fri

open Polynomial

variable {F : Type} [Field F] [DecidableEq F]

/-- The laws of `TwoAdicField::two_adic_generator` up to two-adicity `N`: `gen b` has order `2^b`. -/
structure TwoAdic (gen : Nat → F) (N : Nat) : Prop where
  two_ne : (2 : F) ≠ 0
  zero : gen 0 = 1
  one : gen 1 = -1
  sq : ∀ b, b < N → gen (b + 1) ^ 2 = gen b

/-- The evaluations of `p` on the subgroup of order `2^h`, in bit-reversed order. -/
def evalVec (gen : Nat → F) (h : Nat) (p : F[X]) : List F :=
  (List.range (2 ^ h)).map fun j => p.eval (gen h ^ revBits h j)

/-- `p_even + β p_odd`, where `p = p_even(X²) + X p_odd(X²)`. -/
noncomputable def foldPoly (β : F) (p : F[X]) : F[X] := contract 2 p + C β * contract 2 p.divX

/-- The commitment scheme opens what was committed, for matrices of `2^h` rows of two, `1 ≤ h ≤ N`,
and query numbers below `Q`. -/
def Mmcs.Honest {S C D P : Type} (M : Mmcs F S C D P) (Q N : Nat) : Prop :=
  ∀ (s : S) (h : Nat) (rows : List (List F)), 1 ≤ h → h ≤ N → rows.length = 2 ^ h →
    (∀ r ∈ rows, r.length = 2) →
    ∃ c d s', M.commitMatrix s rows = some (c, d, s') ∧ M.getMatrix d = some rows ∧
      ∀ q i, q < Q → ∀ hi : i < rows.length, ∃ π, M.openBatch q i d = some ([rows[i]], π) ∧
        M.verifyBatch q [rows[i]] π c = some true

/-- The challenger never panics from a state in `Good`, for up to `N` index bits, and stays in `Good`. -/
structure Chall.Total {Ch C W : Type} (K : Chall Ch C F W) (Good : Ch → Prop) (N : Nat) : Prop where
  observe : ∀ ch c, Good ch → ∃ ch', K.observe ch c = some ch' ∧ Good ch'
  sample : ∀ ch, Good ch → ∃ x ch', K.sample ch = some (x, ch') ∧ Good ch'
  check : ∀ ch b w r ch', Good ch → K.checkWitness ch b w = some (r, ch') → Good ch'
  bits : ∀ ch n, Good ch → n ≤ N → ∃ i ch', K.sampleBits ch n = some (i, ch') ∧ Good ch'

/-- The reduced openings a query at index `idx` (for height `h`) should see. -/
noncomputable def rosOf (gen : Nat → F) (h idx : Nat) (polys : List (Nat × F[X])) : List (Nat × F) :=
  polys.map fun (h', p) => (h', p.eval (gen h' ^ revBits h' (idx / 2 ^ (h - h'))))

/-- Admissible lower inputs: strictly decreasing heights from `b` to below `top`, low degree.  An input of height `b` is folded
in by the prover after the last round and never looked at by the verifier; it has to be zero. -/
def Inputs (b top : Nat) (polys : List (Nat × F[X])) : Prop :=
  polys.Pairwise (fun x y => y.1 < x.1) ∧
    ∀ x ∈ polys, b ≤ x.1 ∧ x.1 < top ∧ x.2.natDegree < 2 ^ (x.1 - b) ∧ (x.1 = b → x.2 = 0)

/-- The value at `β` of the line through `(x, a)` and `(-x, b)`. -/
def lineAt (x β a b : F) : F := (a + b) / 2 + β * ((a - b) / (2 * x))

/-- The reduced opening of height `h`, 0 when there is none. -/
def roAt (ros : List (Nat × F)) (h : Nat) : F := ((ros.filter fun r => r.1 == h).map Prod.snd).sum

/-- Reduced openings as the polynomial commitment layer returns them: heights strictly decreasing and
not above the largest one. -/
def RosOk (ros : List (Nat × F)) (top : Nat) : Prop :=
  ros.Pairwise (fun x y => y.1 < x.1) ∧ ∀ x ∈ ros, x.1 ≤ top

end TapStark.Fri
