import Verif.Spec.FieldOps
import Mathlib.Data.Finset.Basic
import Mathlib.Data.Finset.Range

/-
Straight-line programs over the two fields and their meaning.  Nothing here mentions expressions or scripts.
-/

namespace TapStark

open Stark (BB4)

namespace Prog

/-- The type of a value: the base field or its extension of degree 4. -/
inductive Ty
  | base
  | ext
deriving DecidableEq

def _root_.TapStark.FVal.ty : FVal → Ty
  | .base _ => .base
  | .ext _ => .ext

/-- The operations with two operands. -/
inductive BinOp
  | add
  | sub
  | mul
deriving DecidableEq

/-- The operations with one operand; `exp k` is the power with exponent `2 ^ k`. -/
inductive UnOp
  | neg
  | square
  | double
  | exp (k : Nat)

/-- The instructions.  Operands are the numbers of earlier values. -/
inductive Ins
  | const (v : FVal)
  | input (v : FVal)
  | hint (v : FVal)
  /-- operands of the same type -/
  | bin (o : BinOp) (i j : Nat)
  /-- a value and a constant of the same type -/
  | binC (o : BinOp) (i : Nat) (v : FVal)
  /-- an element of the base field and one of the extension -/
  | binExt (o : BinOp) (i j : Nat)
  /-- an element of the extension and one of the base field -/
  | binBase (o : BinOp) (i j : Nat)
  | un (o : UnOp) (i : Nat)
  | sum (t : Ty) (is : List Nat)
  | product (t : Ty) (is : List Nat)

/-- The operation in a field. -/
def BinOp.op {F : Type} [Field F] : BinOp → F → F → F
  | .add => (· + ·)
  | .sub => (· - ·)
  | .mul => (· * ·)

def UnOp.op {F : Type} [Field F] : UnOp → F → F
  | .neg => (- ·)
  | .square => (· ^ 2)
  | .double => (2 * ·)
  | .exp k => (· ^ 2 ^ k)

/-- Operands of the same type. -/
noncomputable def bin (o : BinOp) : FVal → FVal → Option FVal
  | .base x, .base y => some (.base (o.op x y))
  | .ext x, .ext y => some (.ext (o.op x y))
  | _, _ => none

noncomputable def un (o : UnOp) : FVal → FVal
  | .base x => .base (o.op x)
  | .ext x => .ext (o.op x)

/-- Base field and extension. -/
noncomputable def binExt (o : BinOp) : FVal → FVal → Option FVal
  | .base x, .ext y => some (.ext (o.op (algebraMap BB BB4 x) y))
  | _, _ => none

/-- Extension and base field. -/
noncomputable def binBase (o : BinOp) : FVal → FVal → Option FVal
  | .ext x, .base y => some (.ext (o.op x (algebraMap BB BB4 y)))
  | _, _ => none

noncomputable def Ty.zero : Ty → FVal
  | .base => .base 0
  | .ext => .ext 0

noncomputable def Ty.one : Ty → FVal
  | .base => .base 1
  | .ext => .ext 1

/-- A value of a program: what it is, and the inputs that occur in its formula, numbered in the order of the program. -/
structure Value where
  val : FVal
  inputs : Finset Nat

/-- The sum or product of values of type `t`. -/
noncomputable def fold (o : BinOp) (vs : List Value) (t : Ty) (neutral : FVal) : List Nat → Option Value
  | [] => some ⟨neutral, ∅⟩
  | i :: is => do
    let x ← vs[i]?
    let y ← fold o vs t neutral is
    let z ← bin o x.val y.val
    if x.val.ty = t then some ⟨z, x.inputs ∪ y.inputs⟩ else none

/-- The value of an instruction, given the earlier values and the number of inputs so far; `none` if the operands do not
exist or have the wrong types. -/
noncomputable def value (vs : List Value) (k : Nat) : Ins → Option Value
  | .const v => some ⟨v, ∅⟩
  | .input v | .hint v => some ⟨v, {k}⟩
  | .bin o i j => do
    let x ← vs[i]?
    let y ← vs[j]?
    let z ← bin o x.val y.val
    some ⟨z, x.inputs ∪ y.inputs⟩
  | .binC o i v => do
    let x ← vs[i]?
    let z ← bin o x.val v
    some ⟨z, x.inputs⟩
  | .binExt o i j => do
    let x ← vs[i]?
    let y ← vs[j]?
    let z ← binExt o x.val y.val
    some ⟨z, x.inputs ∪ y.inputs⟩
  | .binBase o i j => do
    let x ← vs[i]?
    let y ← vs[j]?
    let z ← binBase o x.val y.val
    some ⟨z, x.inputs ∪ y.inputs⟩
  | .un o i => do
    let x ← vs[i]?
    some ⟨un o x.val, x.inputs⟩
  | .sum t is => fold .add vs t t.zero is
  | .product t is => fold .mul vs t t.one is

/-- One more input? -/
def Ins.isInput : Ins → Bool
  | .input _ | .hint _ => true
  | _ => false

/-- The values of a program and its number of inputs, starting from earlier values and inputs. -/
noncomputable def values : List Ins → List Value → Nat → Option (List Value × Nat)
  | [], vs, k => some (vs, k)
  | i :: is, vs, k => do
    let v ← value vs k i
    values is (vs ++ [v]) (if i.isInput then k + 1 else k)

end Prog

end TapStark
