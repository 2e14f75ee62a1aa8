import Verif.Spec.Does
import Verif.Model.FieldOps
import Verif.Proofs.Ext4

/-
Field elements on the stack, and what is assumed of the arithmetic library.
-/

namespace TapStark

open Stark (BB4 asBase4)

/-- A base field element: its canonical representative. -/
def encB (x : BB) : Elem := num (x.val : Nat)

/-- An extension field element: its four coordinates, the constant one on top. -/
noncomputable def encE (x : BB4) : List Elem := (asBase4 x).map encB

/-- A field element of either kind. -/
inductive FVal
  | base (x : BB)
  | ext (x : BB4)

namespace FVal

/-- The element seen in the extension field. -/
noncomputable def val : FVal → BB4
  | base x => algebraMap BB BB4 x
  | ext x => x

/-- Its number of stack elements. -/
def size : FVal → Nat
  | base _ => 1
  | ext _ => 4

/-- Its stack elements, top first. -/
noncomputable def enc : FVal → List Elem
  | base x => [encB x]
  | ext x => encE x

end FVal

/-- What the scripts of the arithmetic library do.  The operand pushed first lies below the one pushed second. -/
structure U31Lib.Ok (cfg : Cfg) (L : U31Lib) : Prop where
  add : ∀ x y : BB, Does cfg L.add [encB y, encB x] [encB (x + y)]
  sub : ∀ x y : BB, Does cfg L.sub [encB y, encB x] [encB (x - y)]
  mul : ∀ x y : BB, Does cfg L.mul [encB y, encB x] [encB (x * y)]
  double : ∀ x : BB, Does cfg L.double [encB x] [encB (x + x)]
  neg : ∀ x : BB, Does cfg L.neg [encB x] [encB (-x)]
  extAdd : ∀ x y : BB4, Does cfg L.extAdd (encE y ++ encE x) (encE (x + y))
  extSub : ∀ x y : BB4, Does cfg L.extSub (encE y ++ encE x) (encE (x - y))
  extMul : ∀ x y : BB4, Does cfg L.extMul (encE y ++ encE x) (encE (x * y))
  extDouble : ∀ x : BB4, Does cfg L.extDouble (encE x) (encE (x + x))
  extNeg : ∀ x : BB4, Does cfg L.extNeg (encE x) (encE (-x))
  extAddU31 : ∀ (x : BB4) (y : BB), Does cfg L.extAddU31 (encB y :: encE x) (encE (x + algebraMap BB BB4 y))
  extSubU31 : ∀ (x : BB4) (y : BB), Does cfg L.extSubU31 (encB y :: encE x) (encE (x - algebraMap BB BB4 y))
  subU31Ext : ∀ (x : BB4) (y : BB), Does cfg L.subU31Ext (encB y :: encE x) (encE (algebraMap BB BB4 y - x))
  extMulU31 : ∀ (x : BB4) (y : BB), Does cfg L.extMulU31 (encB y :: encE x) (encE (x * algebraMap BB BB4 y))
  toExt : ∀ x : BB, Does cfg L.toExt [encB x] (encE (algebraMap BB BB4 x))
  /-- Used by `u32_to_u31` outside the canonical range. -/
  subReduces : ∀ x : Nat, x < 2 ^ 31 → Does cfg L.sub [num bbP, num x] [num (x % bbP : Nat)]
  extEqualverify : ∀ x y : List Elem, x.length = 4 → y.length = 4 → x = y → Does cfg L.extEqualverify (y ++ x) []
  extEqualverify_fails : ∀ x y : List Elem, x.length = 4 → y.length = 4 → x ≠ y → Fails cfg L.extEqualverify (y ++ x)
  deadSub : SkipsDead cfg L.sub
  deadMul : SkipsDead cfg L.mul
  deadExtMul : SkipsDead cfg L.extMul

/-- The constants of `index_to_rou::<BabyBear>`. -/
def bbConsts : FieldConsts := ⟨1, [1], fun i => [(bbGen i).val]⟩

/-- The constants of `index_to_rou` for the extension field: below `2^28` its generators are those of the base
field (p3-baby-bear, `ext_two_adic_generator`). -/
def bb4Consts : FieldConsts := ⟨4, [1, 0, 0, 0], fun i => [(bbGen i).val, 0, 0, 0]⟩

end TapStark
