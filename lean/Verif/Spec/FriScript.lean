import Verif.Model.FriScript
import Verif.Spec.Fri
import Verif.Spec.Dsl

/-
What one query of the script verifier computes.
-/

namespace TapStark.Fri

variable {F : Type} [Field F]

/-- The value folded along one query: in every round the reduced opening of the height is added to the own value, at
the point `x`, and the line through it and the opened sibling, at `-x`, is taken at the challenge; the next point is
`x²`. -/
def foldChain (ro : Nat → F) : (height : Nat) → (x own : F) → List (F × F) → F
  | _, _, own, [] => own
  | h, x, own, (β, sibling) :: rest => foldChain ro (h - 1) (x ^ 2) (lineAt x β (own + ro h) sibling) rest

/-- The entries next to the queried positions: the row of round `j` is opened at `idx / 2^(j+1)`, the own position in it
is the low bit of `idx / 2^j`. -/
def siblings : (idx : Nat) → List (List (List F)) → List F
  | _, [] => []
  | idx, rows :: rest => (rows.getD 0 []).getD (1 - idx % 2) 0 :: siblings (idx / 2) rest

/-- Reduced openings as expressions and as values. -/
def RosDen (B : BfField F) (K : Variable → Kind) (H : Expr → Prop) (env : Variable → Val) (P : Expr → Prop)
    (ros : List (Nat × Expr)) (vals : List (Nat × F)) : Prop :=
  List.Forall₂ (fun r v => r.1 = v.1 ∧ Den B K H env P r.2 v.2) ros vals

/-- The reduced openings `ros` were built for the manager `m` and have the values `vals`, whatever its inputs stand for;
there are no hint checks yet, and every input of the manager is used by a reduced opening. -/
structure OpensTo (B : BfField F) (m : InputManager) (n : Nat) (ros : List (Nat × Expr)) (vals : List (Nat × F)) :
    Prop where
  built : ∀ K env, m.Agrees K env → ∃ P, Built K NoNodes m n P ∧ RosDen B K NoNodes env P ros vals
  values : ∀ p ∈ m.inputs, (constVal p.2).isSome = true
  names : ∀ p ∈ m.inputs, ∀ i, p.1 = ⟨5, i, none⟩ → i < m.counter
  nodup : (m.inputs.map Prod.fst).Nodup
  hint : m.hint = []
  used : ∀ p ∈ m.inputs, ∃ r ∈ ros, ∃ s, Sub s r.2 ∧ s.opc = .inputMove p.1

end TapStark.Fri
