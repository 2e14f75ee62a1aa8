import Verif.Model.Dsl

/-
Arithmetic on input variables, /repo/script_expr/src/variable.rs: the operators between `Variable`, `ValueVariable`,
expressions and field elements.
-/

namespace TapStark

/-- The three operators of the overloads. -/
inductive VOp where
  | add
  | sub
  | mul

/-- The operator between two expressions, /repo/script_expr/src/alias.rs:650-690, 718-737, 759-778. -/
def VOp.dsl : VOp → Expr → Expr → Nat → Expr × Nat
  | .add => Dsl.add
  | .sub => Dsl.sub
  | .mul => Dsl.mul

/-- The operator between an expression and a field element, alias.rs:692-697, 739-744, 780-785. -/
def VOp.dslC : VOp → Expr → List Nat → Nat → Expr × Nat
  | .add => Dsl.addF
  | .sub => Dsl.subF
  | .mul => Dsl.mulF

/-- `ValueVariable`, variable.rs:10-14; `value` is always set by `new`. -/
structure ValueVariable (F : Type) where
  var : Variable
  value : F

/-- `ValueVariable::new`, variable.rs:16-24: panics unless the variable has the size of the field. -/
def ValueVariable.new {F : Type} (B : BfField F) (v : Variable) (x : F) : Option (ValueVariable F) := do
  let s ← v.expectSize
  if s = B.consts.size then some ⟨v, x⟩ else none

/-- `From<ValueVariable> for Variable`, variable.rs:173-182. -/
def ValueVariable.toVar {F : Type} (B : BfField F) (x : ValueVariable F) : Variable :=
  ⟨x.var.row, x.var.column, some B.consts.size⟩

/-- `From<ValueVariable> for Dsl`, variable.rs:35-45. -/
def ValueVariable.toDsl {F : Type} (B : BfField F) (x : ValueVariable F) : Nat → Expr × Nat :=
  Dsl.mk (.inputCopy (x.toVar B)) B.consts.size []

/-- `From<Variable> for Dsl`, variable.rs:222-235: panics where the variable has another size than the field. -/
def Variable.toDsl {F : Type} (B : BfField F) (v : Variable) (n : Nat) : Option (Expr × Nat) :=
  if v.expectSize = none ∨ v.expectSize = some B.consts.size then some (Dsl.mk (.inputCopy v) B.consts.size [] n) else none

/-- One use of the API on expressions `d 0`, `d 1`, … made so far; `(v, x)` are the arguments of
`ValueVariable::new`. -/
inductive VStep (F : Type) where
  | var (v : Variable)                                      -- `Dsl::from(v)`
  | val (v : Variable) (x : F)                              -- `Dsl::from(ValueVariable::new(v, x))`
  | const (c : F)                                           -- `Dsl::constant_f(c)`
  | varC (o : VOp) (v : Variable) (c : F)                   -- variable.rs:237-243, 261-267, 285-291
  | varD (o : VOp) (v : Variable) (j : Nat)                 -- variable.rs:245-251, 269-275, 293-299
  | dVar (o : VOp) (i : Nat) (v : Variable)                 -- variable.rs:253-259, 277-283, 301-307
  | valVal (o : VOp) (v : Variable) (x : F) (w : Variable) (y : F)  -- variable.rs:47-53, 79-85, 111-117
  | valC (o : VOp) (v : Variable) (x : F) (c : F)           -- variable.rs:55-61, 87-93, 119-125
  | valD (o : VOp) (v : Variable) (x : F) (j : Nat)         -- variable.rs:63-69, 95-101, 127-133
  | dVal (o : VOp) (i : Nat) (v : Variable) (x : F)         -- variable.rs:71-77, 103-109, 135-141
  | dD (o : VOp) (i j : Nat)
  | dC (o : VOp) (i : Nat) (c : F)

variable {F : Type}

/-- One step: the expression made and the next identifier; `none` is a panic, or an index that is no expression made
before. -/
def VStep.make (B : BfField F) (ds : List Expr) : VStep F → Nat → Option (Expr × Nat)
  | .var v, n => v.toDsl B n
  | .val v x, n => do
    let u ← ValueVariable.new B v x
    some (u.toDsl B n)
  | .const c, n => some (Dsl.constant (B.u32 c) n)
  | .varC o v c, n => do
    let (a, n) ← v.toDsl B n
    let (b, n) := Dsl.constant (B.u32 c) n
    some (o.dsl a b n)
  | .varD o v j, n => do
    let b ← ds[j]?
    let (a, n) ← v.toDsl B n
    some (o.dsl a b n)
  | .dVar o i v, n => do
    let a ← ds[i]?
    let (b, n) ← v.toDsl B n
    some (o.dsl a b n)
  | .valVal o v x w y, n => do
    let u ← ValueVariable.new B v x
    let u' ← ValueVariable.new B w y
    let (a, n) := u.toDsl B n
    let (b, n) := u'.toDsl B n
    some (o.dsl a b n)
  | .valC o v x c, n => do
    let u ← ValueVariable.new B v x
    let (a, n) := u.toDsl B n
    let (b, n) := Dsl.constant (B.u32 c) n
    some (o.dsl a b n)
  | .valD o v x j, n => do
    let u ← ValueVariable.new B v x
    let b ← ds[j]?
    let (a, n) := u.toDsl B n
    some (o.dsl a b n)
  | .dVal o i v x, n => do
    let u ← ValueVariable.new B v x
    let a ← ds[i]?
    let (b, n) := u.toDsl B n
    some (o.dsl a b n)
  | .dD o i j, n => do
    let a ← ds[i]?
    let b ← ds[j]?
    some (o.dsl a b n)
  | .dC o i c, n => do
    let a ← ds[i]?
    some (o.dslC a (B.u32 c) n)

/-- The steps in order; the expressions made, in order. -/
def VStep.build (B : BfField F) : List (VStep F) → List Expr → Nat → Option (List Expr × Nat)
  | [], ds, n => some (ds, n)
  | st :: rest, ds, n => do
    let (d, n) ← st.make B ds n
    build B rest (ds ++ [d]) n

end TapStark
