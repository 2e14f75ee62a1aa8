import Verif.Spec.Stark

/-
What an AIR written as a program asserts: values computed one after the other, each used any number of times, and
assertions about them under conditions.
-/

namespace TapStark.Stark

/-- A value: an entry of the two rows, a public value, a row flag, a constant, or an operation on earlier values, which
are given by their positions. -/
inductive AStep (K : Type)
  | loc (c : Nat)
  | nxt (c : Nat)
  | pub (i : Nat)
  | isFirstRow
  | isLastRow
  | isTransition
  | const (c : K)
  | add (i j : Nat)
  | sub (i j : Nat)
  | neg (i : Nat)
  | mul (i j : Nat)

/-- `assert_zero(x)`, `assert_one(x)`, `assert_eq(x, y)`, `assert_bool(x)`. -/
inductive ACheck
  | zero (i : Nat)
  | one (i : Nat)
  | eq (i j : Nat)
  | bool (i : Nat)

/-- A value is computed, or an assertion is made, under the conditions of the enclosing calls of `when`, outermost
first. -/
inductive ACall (K : Type)
  | value (s : AStep K)
  | check (conds : List Nat) (c : ACheck)

/-- An AIR as a program. -/
structure AirProg (K : Type) where
  width : Nat
  calls : List (ACall K)

variable {K R : Type} [Ring R]

/-- The value of a step, given the earlier values. -/
def AStep.value (lift : K → R) (v : Meaning R) (vals : List R) : AStep K → Option R
  | .loc c => some (v.loc c)
  | .nxt c => some (v.nxt c)
  | .pub i => some (v.pub i)
  | .isFirstRow => some v.first
  | .isLastRow => some v.last
  | .isTransition => some v.trans
  | .const c => some (lift c)
  | .add i j => do some ((← vals[i]?) + (← vals[j]?))
  | .sub i j => do some ((← vals[i]?) - (← vals[j]?))
  | .neg i => do some (-(← vals[i]?))
  | .mul i j => do some ((← vals[i]?) * (← vals[j]?))

/-- What an assertion says is zero. -/
def ACheck.residue (vals : List R) : ACheck → Option R
  | .zero i => vals[i]?
  | .one i => do some ((← vals[i]?) - 1)
  | .eq i j => do some ((← vals[i]?) - (← vals[j]?))
  | .bool i => do
    let x ← vals[i]?
    some (x * (x - 1))

/-- What the assertions of a program say is zero, in order: the product of the conditions times the assertion. -/
def residues (lift : K → R) (v : Meaning R) : List (ACall K) → List R → Option (List R)
  | [], _ => some []
  | .value s :: rest, vals => do
    let x ← s.value lift v vals
    residues lift v rest (vals ++ [x])
  | .check conds c :: rest, vals => do
    let cs ← conds.mapM fun i => vals[i]?
    let r ← c.residue vals
    let rs ← residues lift v rest vals
    some (cs.prod * r :: rs)

/-- The same for an AIR. -/
def AirProg.residues (lift : K → R) (v : Meaning R) (p : AirProg K) : Option (List R) :=
  TapStark.Stark.residues lift v p.calls []

/-- What an assertion claims. -/
def ACheck.Holds (vals : List R) : ACheck → Prop
  | .zero i => vals.getD i 0 = 0
  | .one i => vals.getD i 0 = 1
  | .eq i j => vals.getD i 0 = vals.getD j 0
  | .bool i => vals.getD i 0 = 0 ∨ vals.getD i 0 = 1

/-- Every assertion all of whose conditions are not 0 holds. -/
def CallsHold (lift : K → R) (v : Meaning R) : List (ACall K) → List R → Prop
  | [], _ => True
  | .value s :: rest, vals => ∃ x, s.value lift v vals = some x ∧ CallsHold lift v rest (vals ++ [x])
  | .check conds c :: rest, vals => ((∀ i ∈ conds, vals.getD i 0 ≠ 0) → c.Holds vals) ∧ CallsHold lift v rest vals

/-- The same for an AIR. -/
def AirProg.Holds (lift : K → R) (v : Meaning R) (p : AirProg K) : Prop := CallsHold lift v p.calls []

/-- A step that uses existing columns, public values, and some of the `n` earlier values. -/
def AStep.InRange (width numPublic n : Nat) : AStep K → Prop
  | .loc c | .nxt c => c < width
  | .pub i => i < numPublic
  | .isFirstRow | .isLastRow | .isTransition | .const _ => True
  | .add i j | .sub i j | .mul i j => i < n ∧ j < n
  | .neg i => i < n

/-- The same for an assertion. -/
def ACheck.InRange (n : Nat) : ACheck → Prop
  | .zero i | .one i | .bool i => i < n
  | .eq i j => i < n ∧ j < n

/-- The same for calls. -/
def CallsInRange (width numPublic : Nat) : List (ACall K) → Nat → Prop
  | [], _ => True
  | .value s :: rest, n => s.InRange width numPublic n ∧ CallsInRange width numPublic rest (n + 1)
  | .check conds c :: rest, n => (∀ i ∈ conds, i < n) ∧ c.InRange n ∧ CallsInRange width numPublic rest n

/-- The same for an AIR. -/
def AirProg.InRange (numPublic : Nat) (p : AirProg K) : Prop := CallsInRange p.width numPublic p.calls 0

/-- Number of assertions. -/
def AirProg.checks (p : AirProg K) : Nat := (p.calls.filter fun | .check .. => true | _ => false).length

/-- Operations, constants and variables that a call builds: one for a value, flags being there already; for an assertion
one for every condition, and those of the assertion. -/
def ACall.nodes : ACall K → Nat
  | .value .isFirstRow | .value .isLastRow | .value .isTransition => 0
  | .value _ => 1
  | .check conds (.zero _) => conds.length
  | .check conds (.one _) => conds.length + 2
  | .check conds (.eq ..) => conds.length + 1
  | .check conds (.bool _) => conds.length + 3

/-- The same for an AIR. -/
def AirProg.nodes (p : AirProg K) : Nat := (p.calls.map ACall.nodes).sum

end TapStark.Stark
