import Verif.Model.Stark
import Verif.Spec.Pcs
import Mathlib.Algebra.Polynomial.AlgebraMap

/-!
Specification side of the STARK: what an assertion means, the polynomials behind a trace, and what is
assumed of the parameters.
-/

namespace TapStark.Stark

open Polynomial TapStark.Fri TapStark.Pcs

variable {K F : Type} [Field K] [Field F] [DecidableEq K] [DecidableEq F] [Algebra K F]
variable {SI C DI PI S D P Ch W : Type}

/-! ### Meaning of assertions -/

/-- What an expression talks about: the values of the columns in this and the next row, the public
values, and the three row flags. -/
structure Meaning (R : Type) where
  loc : Nat → R
  nxt : Nat → R
  pub : Nat → R
  first : R
  last : R
  trans : R

/-- The value of an expression. -/
def AExpr.value {R : Type} [Ring R] (lift : K → R) (v : Meaning R) : AExpr K → R
  | .loc c => v.loc c
  | .nxt c => v.nxt c
  | .pub i => v.pub i
  | .isFirstRow => v.first
  | .isLastRow => v.last
  | .isTransition => v.trans
  | .const c => lift c
  | .add x y => x.value lift v + y.value lift v
  | .sub x y => x.value lift v - y.value lift v
  | .neg x => -x.value lift v
  | .mul x y => x.value lift v * y.value lift v

/-- The expression mentions only existing columns and public values. -/
def AExpr.InRange (width numPublic : Nat) : AExpr K → Prop
  | .loc c | .nxt c => c < width
  | .pub i => i < numPublic
  | .isFirstRow | .isLastRow | .isTransition | .const _ => True
  | .add x y | .sub x y | .mul x y => x.InRange width numPublic ∧ y.InRange width numPublic
  | .neg x => x.InRange width numPublic

/-- The two sides of an assertion; `assert_zero` has 0 on the right. -/
def Assertion.sides {R : Type} [Ring R] (lift : K → R) (v : Meaning R) : Assertion K → R × R
  | .zero x => (x.value lift v, 0)
  | .eq x y => (x.value lift v, y.value lift v)

/-- The assertion holds. -/
def Assertion.Holds {R : Type} [Ring R] (lift : K → R) (v : Meaning R) (a : Assertion K) : Prop :=
  (a.sides lift v).1 = (a.sides lift v).2

/-- Left side minus right side. -/
def Assertion.residue {R : Type} [Ring R] (lift : K → R) (v : Meaning R) (a : Assertion K) : R :=
  (a.sides lift v).1 - (a.sides lift v).2

def Assertion.InRange (width numPublic : Nat) : Assertion K → Prop
  | .zero x => x.InRange width numPublic
  | .eq x y => x.InRange width numPublic ∧ y.InRange width numPublic

/-- Every assertion mentions only existing columns and public values. -/
def Air.InRange (air : Air K) (numPublic : Nat) : Prop := ∀ a ∈ air.asserts, a.InRange air.width numPublic

/-- The row `i` of a trace, the row after it (cyclically), and the flags 1 or 0 of row `i`. -/
def rowMeaning (trace : Mat K) (pub : List K) (i : Nat) : Meaning K where
  loc c := (trace.getD i []).getD c 0
  nxt c := (trace.getD ((i + 1) % trace.length) []).getD c 0
  pub j := pub.getD j 0
  first := if i = 0 then 1 else 0
  last := if i + 1 = trace.length then 1 else 0
  trans := if i + 1 = trace.length then 0 else 1

/-- A trace satisfies the AIR: every assertion holds in every row. -/
def Satisfies (air : Air K) (trace : Mat K) (pub : List K) : Prop :=
  ∀ i < trace.length, ∀ a ∈ air.asserts, a.Holds id (rowMeaning trace pub i)

/-- Every row of the trace has `width` entries. -/
def Rect (trace : Mat K) (width : Nat) : Prop := ∀ row ∈ trace, row.length = width

/-! ### Degrees -/

/-- The degree of an expression when the columns and the first and last row flags count 1, and public
values, constants and the transition flag count 0. -/
def AExpr.degree : AExpr K → Nat
  | .loc _ | .nxt _ | .isFirstRow | .isLastRow => 1
  | .pub _ | .isTransition | .const _ => 0
  | .add x y | .sub x y => max x.degree y.degree
  | .neg x => x.degree
  | .mul x y => x.degree + y.degree

/-- The largest number of transition flags multiplied together. -/
def AExpr.transitions : AExpr K → Nat
  | .isTransition => 1
  | .loc _ | .nxt _ | .isFirstRow | .isLastRow | .pub _ | .const _ => 0
  | .add x y | .sub x y => max x.transitions y.transitions
  | .neg x => x.transitions
  | .mul x y => x.transitions + y.transitions

/-- The degree of an assertion: the larger degree of its two sides. -/
def Assertion.degree : Assertion K → Nat
  | .zero x => x.degree
  | .eq x y => max x.degree y.degree

/-- The largest number of transition flags multiplied together in an assertion. -/
def Assertion.transitions : Assertion K → Nat
  | .zero x => x.transitions
  | .eq x y => max x.transitions y.transitions

/-- The largest degree of an assertion of the AIR, 0 when there is none. -/
def Air.degree (air : Air K) : Nat := (air.asserts.map Assertion.degree).foldr max 0

/-- No assertion multiplies more transition flags than the quotient domain leaves room for; one per
product, as `when_transition` gives, is always fine. -/
def Air.FewTransitions (air : Air K) : Prop := ∀ a ∈ air.asserts, a.transitions < max a.degree 2

/-! ### Polynomials -/

/-- `(X^n - a^n) / (X - a)`. -/
noncomputable def selPoly (a : K) (n : Nat) : K[X] :=
  ∑ i ∈ Finset.range n, Polynomial.X ^ i * Polynomial.C a ^ (n - 1 - i)

/-- The columns and flags as polynomials over the trace domain `1, h, h², …, h^(2^k-1)`, `h = genV k`:
the value at `h^i` belongs to row `i`.  The flags are not normalised to 1. -/
noncomputable def polyMeaning (genV : Nat → K) (k : Nat) (ps : List K[X]) (pub : List K) :
    Meaning K[X] where
  loc c := ps.getD c 0
  nxt c := (ps.getD c 0).comp (Polynomial.C (genV k) * Polynomial.X)
  pub j := Polynomial.C (pub.getD j 0)
  first := selPoly 1 (2 ^ k)
  last := selPoly (genV k)⁻¹ (2 ^ k)
  trans := Polynomial.X - Polynomial.C (genV k)⁻¹

/-- The constraint polynomials, in order. -/
noncomputable def constraintPolys (genV : Nat → K) (k : Nat) (air : Air K) (ps : List K[X])
    (pub : List K) : List K[X] :=
  air.asserts.map fun a => a.residue Polynomial.C (polyMeaning genV k ps pub)

/-- `Σ_j alpha^(m-1-j) c_j`. -/
def combine {R : Type} [Ring R] (alpha : R) (cs : List R) : R :=
  ∑ j : Fin cs.length, alpha ^ (cs.length - 1 - j) * cs[j]

/-- The combined constraint polynomial. -/
noncomputable def foldedPoly (genV : Nat → K) (k : Nat) (air : Air K) (ps : List K[X]) (pub : List K)
    (alpha : F) : F[X] :=
  combine (Polynomial.C alpha) ((constraintPolys genV k air ps pub).map (Polynomial.map (algebraMap K F)))

/-- `Q` agrees with every chunk polynomial on the coset of that chunk.  A chunk is given by the
polynomials of its coordinates. -/
def AgreesOn (genV : Nat → K) (deg : ExtDeg K F) (domains : List (Dom K)) (chunks : List (List K[X]))
    (Q : F[X]) : Prop :=
  ∀ (i : Nat) (d : Dom K) (c : List K[X]), domains[i]? = some d → chunks[i]? = some c → ∀ l : Nat,
    Q.eval (algebraMap K F (d.shift * genV d.logN ^ l)) =
      ∑ e ∈ Finset.range c.length, deg.monomial e *
        algebraMap K F ((c.getD e 0).eval (d.shift * genV d.logN ^ l))

/-- No row flag occurs. -/
def AExpr.NoFlags : AExpr K → Prop
  | .isFirstRow | .isLastRow | .isTransition => False
  | .loc _ | .nxt _ | .pub _ | .const _ => True
  | .add x y | .sub x y | .mul x y => x.NoFlags ∧ y.NoFlags
  | .neg x => x.NoFlags

/-- Row flags are used as factors only, the way `when_first_row`, `when_last_row` and
`when_transition` use them. -/
inductive AExpr.Filtered : AExpr K → Prop
  | plain (x : AExpr K) (h : x.NoFlags) : AExpr.Filtered x
  | first (x : AExpr K) (h : x.Filtered) : AExpr.Filtered (.mul .isFirstRow x)
  | last (x : AExpr K) (h : x.Filtered) : AExpr.Filtered (.mul .isLastRow x)
  | trans (x : AExpr K) (h : x.Filtered) : AExpr.Filtered (.mul .isTransition x)

/-- The same for an assertion. -/
def Assertion.Filtered : Assertion K → Prop
  | .zero x => x.Filtered
  | .eq x y => x.NoFlags ∧ y.NoFlags

/-- An AIR that uses row flags as factors only. -/
def Air.Filtered (air : Air K) : Prop := ∀ a ∈ air.asserts, a.Filtered

/-! ### Parameters -/

/-- The coordinates of the challenge field: `x = Σ_e asBase(x)[e] · monomial(e)`. -/
structure ExtDeg.Ok (d : ExtDeg K F) : Prop where
  pos : 0 < d.D
  length : ∀ x, (d.asBase x).length = d.D
  sum : ∀ x, ∑ e ∈ Finset.range d.D, d.monomial e * algebraMap K F ((d.asBase x).getD e 0) = x
  one : d.monomial 0 = 1

/-- Committing to rectangular matrices of heights `2^h`, `1 ≤ h ≤ N`, given tallest first, does not
panic, and the commitment can be opened. -/
def InMmcs.Honest (MI : InMmcs K SI C DI PI) (Q N : Nat) : Prop :=
  ∀ (s : SI) (mats : List (Mat K)), mats ≠ [] →
    (∀ m ∈ mats, ∃ h w, 1 ≤ h ∧ h ≤ N ∧ 0 < w ∧ m.length = 2 ^ h ∧ Rect m w) →
    mats.Pairwise (fun a b => b.length ≤ a.length) →
    ∃ c d s', MI.commit s mats = some (c, d, s') ∧ MI.Opens Q d c mats

/-- What is assumed of the parameters of prover and verifier. -/
structure Setup.Ok (u : Setup K F SI C DI PI S D P Ch W) : Prop where
  extWidth : u.ext.Width
  extCorrect : u.ext.Correct u.genV u.twoAdicity
  twoAdic : TwoAdic u.genV u.twoAdicity
  g0 : u.g ≠ 0
  gOut : ∀ j ≤ u.twoAdicity, u.g ^ 2 ^ j ≠ 1
  mi : InMmcs.Honest u.mi u.cfg.numQueries u.twoAdicity
  m : u.m.Honest u.cfg.numQueries u.twoAdicity
  blowup : 1 ≤ u.cfg.logBlowup
  bits : ∀ ch n i ch', u.chall.sampleBits ch n = some (i, ch') → i < 2 ^ n
  deg : u.deg.Ok

/-- The challenges drawn for a proof: `alpha` after observing the trace commitment, `zeta` after
observing the quotient commitment, and the challenger state handed to the opening argument. -/
def challenges (u : Setup K F SI C DI PI S D P Ch W) (ch : Ch) (traceCommit quotientCommit : C) :
    Option (F × F × Ch) := do
  let ch ← u.chall.observe ch traceCommit
  let (alpha, ch) ← u.chall.sample ch
  let ch ← u.chall.observe ch quotientCommit
  let (zeta, ch) ← u.chall.sample ch
  some (alpha, zeta, ch)

/-- The out-of-domain check accepts at `zeta` the values there of trace polynomials `ps` and chunk polynomials
`cps`, for a trace of `2^k` rows and `2^q` chunks. -/
def Accepts (u : Setup K F SI C DI PI S D P Ch W) (air : Air K) (pub : List K) (k q : Nat) (ps : List K[X])
    (cps : List (List K[X])) (alpha zeta : F) : Prop :=
  ∃ (proof : ProofOf K F C P W PI) (domains : List (Dom K)),
    splitDomains u.genV u.twoAdicity ⟨k + q, u.g⟩ (2 ^ q) = some domains ∧
    proof.traceLocal = (ps.map fun p => aeval zeta p) ∧
    proof.traceNext = (ps.map fun p => aeval (zeta * algebraMap K F (u.genV k)) p) ∧
    proof.quotientChunks = (cps.map fun c => c.map fun p => aeval zeta p) ∧
    oodCheck u air pub ⟨k, 1⟩ domains proof alpha zeta = some true

end TapStark.Stark
