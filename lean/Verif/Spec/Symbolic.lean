import Verif.Model.Symbolic
import Mathlib.Algebra.Polynomial.BigOperators

/-!
What symbolic expressions mean.
-/

namespace TapStark.Stark

variable {K R : Type} [Field K] [CommRing R]

/-- Values of the symbolic variables and of the selectors. -/
structure SymMeaning (R : Type) where
  var : Entry → Nat → R
  first : R
  last : R
  trans : R

/-- The value of a symbolic expression.  The stored degrees do not matter. -/
def SymExpr.value (lift : K →+* R) (m : SymMeaning R) : SymExpr K → R
  | .var e i => m.var e i
  | .isFirstRow => m.first
  | .isLastRow => m.last
  | .isTransition => m.trans
  | .constant c => lift c
  | .add x y _ => x.value lift m + y.value lift m
  | .sub x y _ => x.value lift m - y.value lift m
  | .neg x _ => -x.value lift m
  | .mul x y _ => x.value lift m * y.value lift m

/-- The value of an operand. -/
def SymOperand.value (lift : K →+* R) (m : SymMeaning R) : SymOperand K → R
  | .variable v => m.var v.1 v.2
  | .field c => lift c
  | .expr x => x.value lift m

/-- Degree as a polynomial: trace columns and the selectors of the first and the last row count `d`, the selector of
transitions `t`, constants, public values and challenges nothing. -/
def SymExpr.degree (d t : Nat) : SymExpr K → Nat
  | .var e _ => match e with
    | .preprocessed _ | .main _ | .permutation _ => d
    | .publicValue | .challenge => 0
  | .isFirstRow => d
  | .isLastRow => d
  | .isTransition => t
  | .constant _ => 0
  | .add x y _ => max (x.degree d t) (y.degree d t)
  | .sub x y _ => max (x.degree d t) (y.degree d t)
  | .neg x _ => x.degree d t
  | .mul x y _ => x.degree d t + y.degree d t

/-- The expressions a user can make with the operators, sums and products of the library. -/
inductive SymExpr.Made : SymExpr K → Prop
  | var (v : Entry × Nat) : Made (.ofVar v)
  | first : Made .isFirstRow
  | last : Made .isLastRow
  | trans : Made .isTransition
  | field (c : K) : Made (.ofField c)
  | add {x y : SymExpr K} : Made x → Made y → Made (x.mkAdd y)
  | sub {x y : SymExpr K} : Made x → Made y → Made (x.mkSub y)
  | neg {x : SymExpr K} : Made x → Made x.mkNeg
  | mul {x y : SymExpr K} : Made x → Made y → Made (x.mkMul y)
  | addF {x : SymExpr K} (c : K) : Made x → Made (x.addF c)
  | subF {x : SymExpr K} (c : K) : Made x → Made (x.subF c)
  | mulF {x : SymExpr K} (c : K) : Made x → Made (x.mulF c)
  | sum {xs : List (SymExpr K)} : (∀ x ∈ xs, Made x) → Made (.sum xs)
  | sumF (cs : List K) : Made (.sumF cs)
  | product {xs : List (SymExpr K)} : (∀ x ∈ xs, Made x) → Made (.product xs)
  | productF (cs : List K) : Made (.productF cs)

/-- Columns are polynomials of degree at most `d`, the selectors too, the selector of transitions of degree at most `t`,
and public values and challenges are constants. -/
structure SymMeaning.Bounded (m : SymMeaning (Polynomial R)) (d t : Nat) : Prop where
  preprocessed (o i : Nat) : (m.var (.preprocessed o) i).natDegree ≤ d
  main (o i : Nat) : (m.var (.main o) i).natDegree ≤ d
  permutation (o i : Nat) : (m.var (.permutation o) i).natDegree ≤ d
  publicValue (i : Nat) : (m.var .publicValue i).natDegree = 0
  challenge (i : Nat) : (m.var .challenge i).natDegree = 0
  first : m.first.natDegree ≤ d
  last : m.last.natDegree ≤ d
  trans : m.trans.natDegree ≤ t

end TapStark.Stark
