import Mathlib.Algebra.Field.Basic
import Verif.Model.VarOps

/-
What programs of operations on variables mean: every variable stands for a field element.
-/

namespace TapStark

variable {F : Type} [Field F]

/-- The operation of the field. -/
def VOp.value : VOp → F → F → F
  | .add, x, y => x + y
  | .sub, x, y => x - y
  | .mul, x, y => x * y

/-- The value of a step, for the values `ρ` of the variables and the values `xs` of the earlier steps; the value that
a `ValueVariable` carries has no part in it. -/
def VStep.value (ρ : Variable → F) (xs : List F) : VStep F → Option F
  | .var v | .val v _ => some (ρ v)
  | .const c => some c
  | .varC o v c | .valC o v _ c => some (o.value (ρ v) c)
  | .varD o v j | .valD o v _ j => do some (o.value (ρ v) (← xs[j]?))
  | .dVar o i v | .dVal o i v _ => do some (o.value (← xs[i]?) (ρ v))
  | .valVal o v _ w _ => some (o.value (ρ v) (ρ w))
  | .dD o i j => do some (o.value (← xs[i]?) (← xs[j]?))
  | .dC o i c => do some (o.value (← xs[i]?) c)

/-- The values of all steps. -/
def VStep.values (ρ : Variable → F) : List (VStep F) → List F → Option (List F)
  | [], xs => some xs
  | st :: rest, xs => do
    let x ← st.value ρ xs
    values ρ rest (xs ++ [x])

omit [Field F]

/-- The variables that a step reads. -/
def VStep.vars : VStep F → List Variable
  | .var v | .val v _ | .varC _ v _ | .varD _ v _ | .dVar _ _ v | .valC _ v _ _ | .valD _ v _ _ | .dVal _ _ v _ => [v]
  | .valVal _ v _ w _ => [v, w]
  | .const _ | .dD .. | .dC .. => []

/-- The annotations of the variables fit the field with elements of `s` words: variables with a value must be
annotated, others may be. -/
def VStep.Fits (s : Nat) : VStep F → Prop
  | .var v | .varC _ v _ | .varD _ v _ | .dVar _ _ v => ∀ k, v.expectSize = some k → k = s
  | .val v _ | .valC _ v _ _ | .valD _ v _ _ | .dVal _ _ v _ => v.expectSize = some s
  | .valVal _ v _ w _ => v.expectSize = some s ∧ w.expectSize = some s
  | .const _ | .dD .. | .dC .. => True

/-- The expressions that a step uses exist: there are `k` so far. -/
def VStep.InRange (k : Nat) : VStep F → Prop
  | .varD _ _ j | .valD _ _ _ j => j < k
  | .dVar _ i _ | .dVal _ i _ _ | .dC _ i _ => i < k
  | .dD _ i j => i < k ∧ j < k
  | _ => True

/-- Every step uses expressions made before it. -/
def VStep.AllInRange : List (VStep F) → Nat → Prop
  | [], _ => True
  | st :: rest, k => st.InRange k ∧ AllInRange rest (k + 1)

end TapStark
