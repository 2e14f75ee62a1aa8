import Verif.Model.Stark
import Verif.Model.TraceScript

/-!
The rest of the arithmetic of symbolic expressions (uni-stark/src/symbolic_expression.rs and symbolic_variable.rs), and the
conversion of symbolic variables into script inputs (uni-stark/src/expr_helper.rs).
-/

namespace TapStark.Stark

variable {K : Type} [Field K]

/-- What the constructors of `AbstractField` for `SymbolicExpression` give (symbolic_expression.rs:63-130): the constant of
the field with the same name; also `Default` and `From<F>`. -/
def SymExpr.ofField (c : K) : SymExpr K := .constant c

/-- `From<SymbolicVariable<F>>` (symbolic_variable.rs:42-46). -/
def SymExpr.ofVar (v : Entry × Nat) : SymExpr K := .var v.1 v.2

/-- `Add<F>`, `AddAssign<F>` (symbolic_expression.rs:147-165). -/
def SymExpr.addF (x : SymExpr K) (c : K) : SymExpr K := x.mkAdd (.ofField c)
/-- `Sub<F>`, `SubAssign<F>` (symbolic_expression.rs:192-210). -/
def SymExpr.subF (x : SymExpr K) (c : K) : SymExpr K := x.mkSub (.ofField c)
/-- `Mul<F>`, `MulAssign<F>` (symbolic_expression.rs:238-256). -/
def SymExpr.mulF (x : SymExpr K) (c : K) : SymExpr K := x.mkMul (.ofField c)

/-- `Sum` (symbolic_expression.rs:167-171): `reduce`, and the constant 0 for no summands. -/
def SymExpr.sum : List (SymExpr K) → SymExpr K
  | [] => .ofField 0
  | x :: xs => xs.foldl .mkAdd x

/-- `Sum<F>` (symbolic_expression.rs:173-177). -/
def SymExpr.sumF (cs : List K) : SymExpr K := .sum (cs.map .ofField)

/-- `Product` (symbolic_expression.rs:258-262): `reduce`, and the constant 1 for no factors. -/
def SymExpr.product : List (SymExpr K) → SymExpr K
  | [] => .ofField 1
  | x :: xs => xs.foldl .mkMul x

/-- `Product<F>` (symbolic_expression.rs:264-268). -/
def SymExpr.productF (cs : List K) : SymExpr K := .product (cs.map .ofField)

/-- What can stand on the right of an operator whose left side is a symbolic variable (symbolic_variable.rs:48-144). -/
inductive SymOperand (K : Type)
  | variable (v : Entry × Nat)
  | field (c : K)
  | expr (x : SymExpr K)

/-- The conversion of the right side. -/
def SymOperand.toExpr : SymOperand K → SymExpr K
  | .variable v => .ofVar v
  | .field c => .ofField c
  | .expr x => x

/-- `variable + _` (symbolic_variable.rs:48-62) and `expression + variable` (64-70). -/
def SymExpr.varAdd (v : Entry × Nat) (r : SymOperand K) : SymExpr K := (SymExpr.ofVar v).mkAdd r.toExpr
def SymExpr.addVar (x : SymExpr K) (v : Entry × Nat) : SymExpr K := x.mkAdd (.ofVar v)
/-- `variable - _` (symbolic_variable.rs:80-102) and `expression - variable` (104-110). -/
def SymExpr.varSub (v : Entry × Nat) (r : SymOperand K) : SymExpr K := (SymExpr.ofVar v).mkSub r.toExpr
def SymExpr.subVar (x : SymExpr K) (v : Entry × Nat) : SymExpr K := x.mkSub (.ofVar v)
/-- `variable * _` (symbolic_variable.rs:112-134) and `expression * variable` (136-142). -/
def SymExpr.varMul (v : Entry × Nat) (r : SymOperand K) : SymExpr K := (SymExpr.ofVar v).mkMul r.toExpr
def SymExpr.mulVar (x : SymExpr K) (v : Entry × Nat) : SymExpr K := x.mkMul (.ofVar v)

/-- `From<SymbolicVariable<F>> for Variable` (uni-stark/src/expr_helper.rs:46-67; 69-90 is the same for a reference): the
index of the variable becomes the row, the offset of its entry the column; other entries panic. -/
def toVariable : Entry × Nat → Option Variable
  | (.main offset, index) => some ⟨index, offset, none⟩
  | (.permutation offset, index) => some ⟨index, offset, none⟩
  | (.preprocessed offset, index) => some ⟨index, offset, none⟩
  | (.publicValue, _) => none
  | (.challenge, _) => none

end TapStark.Stark
