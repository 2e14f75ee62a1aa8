import Verif.Model.ScriptQuotient
import Verif.Spec.Program

/-
Client programs of the expression language: sequences of calls of the constructors of /repo/script_expr/src/alias.rs and
of the input manager, /repo/script_expr/src/input_manager.rs.  A value `Dsl<F>` may be used any number of times
(`clone`, alias.rs:53-57, copies the pointer).  What the Rust compiler rejects is `none`; so are panics.
-/

namespace TapStark

namespace Prog

/-- `as_u32_vec`, /repo/basic/src/field/mod.rs:54-76. -/
noncomputable def u32 : FVal → List Nat
  | .base x => bbField.u32 x
  | .ext x => bb4Field.u32 x

/-- The state of a client: its values, with their type (`Dsl<BabyBear>` or `Dsl<BinomialExtensionField<BabyBear, 4>>`),
the input manager and the counter of identifiers. -/
structure State where
  slots : List (Ty × Expr)
  m : InputManager
  n : Nat

/-- A new manager; `n` identifiers are used already. -/
def State.new (n : Nat) : State := ⟨[], .new, n⟩

/-- `F::U32_SIZE`, /repo/basic/src/field/mod.rs:46-66. -/
noncomputable def Ty.u32Size : Ty → Nat
  | .base => bbField.consts.size
  | .ext => bb4Field.consts.size

/-- `Add`, `Sub` and `Mul` of `Dsl<F>`, alias.rs:650-669, 718-737, 759-778. -/
def binE : BinOp → Expr → Expr → Nat → Expr × Nat
  | .add => Dsl.add
  | .sub => Dsl.sub
  | .mul => Dsl.mul

/-- The node type of an operation. -/
def BinOp.opc : BinOp → Opc
  | .add => .add
  | .sub => .sub
  | .mul => .mul

/-- `Add<F>`, `Sub<F>` and `Mul<F>` of `Dsl<F>`, alias.rs:692-697, 739-744, 780-785. -/
def binCE : BinOp → Expr → List Nat → Nat → Expr × Nat
  | .add => Dsl.addF
  | .sub => Dsl.subF
  | .mul => Dsl.mulF

/-- `add_ext`, `sub_ext` and `mul_ext`, alias.rs:299-311, 355-367, 327-339. -/
def extE : BinOp → Nat → Nat → Expr → Expr → Nat → Option (Expr × Nat)
  | .add => Dsl.addExt
  | .sub => Dsl.subExt
  | .mul => Dsl.mulExt

/-- `add_base`, `sub_base` and `mul_base`, alias.rs:313-325, 369-381, 341-353. -/
def baseE : BinOp → Nat → Nat → Expr → Expr → Nat → Option (Expr × Nat)
  | .add => Dsl.addBase
  | .sub => Dsl.subBase
  | .mul => Dsl.mulBase

theorem binCE_eq (o : BinOp) (x : Expr) (c : List Nat) (n : Nat) :
    binCE o x c n = binE o x (Dsl.constant c n).1 (Dsl.constant c n).2 := by cases o <;> rfl

theorem extE_eq (o : BinOp) : extE o = Dsl.opExt o.opc := by cases o <;> rfl

theorem baseE_eq (o : BinOp) : baseE o = Dsl.opBase o.opc := by cases o <;> rfl

/-- `Neg`, `square`, `double` and `exp_constant` of `Dsl<F>`, alias.rs:800-815, 180-208. -/
def unE (fs : Nat) : UnOp → Expr → Nat → Expr × Nat
  | .neg => Dsl.neg
  | .square => Dsl.square
  | .double => Dsl.double
  | .exp k => fun x => Dsl.expConstant fs x (2 ^ k)

/-- The values used in a call, all of type `t`. -/
def operands (s : List (Ty × Expr)) (t : Ty) : List Nat → Option (List Expr)
  | [] => some []
  | i :: is => do
    let (u, e) ← s[i]?
    let es ← operands s t is
    if u = t then some (e :: es) else none

/-- `Iterator::reduce` with `+` or `*`, as used by `Sum` and `Product`. -/
def reduceE (o : BinOp) : Expr → List Expr → Nat → Expr × Nat
  | x, [], n => (x, n)
  | x, y :: ys, n =>
    let (z, n) := binE o x y n
    reduceE o z ys n

/-- `Sum` and `Product`, alias.rs:712-716, 817-821: the neutral element is built in any case, after the reduction. -/
def foldE (o : BinOp) (neutral : List Nat) (es : List Expr) (n : Nat) : Expr × Nat :=
  match es with
  | [] => Dsl.constant neutral n
  | x :: xs =>
    let (z, n) := reduceE o x xs n
    let (_, n) := Dsl.constant neutral n
    (z, n)

/-- The new value appended. -/
def State.push (s : State) (t : Ty) (e : Expr) (m : InputManager) (n : Nat) : State := ⟨s.slots ++ [(t, e)], m, n⟩

/-- One call. -/
noncomputable def step (s : State) : Ins → Option State
  -- `constant_f`, alias.rs:416-418
  | .const v =>
    let (e, n) := Dsl.constant (u32 v) s.n
    some (s.push v.ty e s.m n)
  -- `assign_input_f`, input_manager.rs:201-203
  | .input v =>
    let (e, m, n) := s.m.assignInput (u32 v) s.n
    some (s.push v.ty e m n)
  -- `assign_hint_input_f`, input_manager.rs:211-213
  | .hint v =>
    let (e, m, n) := s.m.assignHintInput (u32 v) s.n
    some (s.push v.ty e m n)
  | .bin o i j => do
    let (t, x) ← s.slots[i]?
    let (u, y) ← s.slots[j]?
    if t = u then
      let (e, n) := binE o x y s.n
      some (s.push t e s.m n)
    else none
  | .binC o i v => do
    let (t, x) ← s.slots[i]?
    if t = v.ty then
      let (e, n) := binCE o x (u32 v) s.n
      some (s.push t e s.m n)
    else none
  | .binExt o i j => do
    let (t, x) ← s.slots[i]?
    let (u, y) ← s.slots[j]?
    let (e, n) ← extE o t.u32Size u.u32Size x y s.n
    some (s.push u e s.m n)
  | .binBase o i j => do
    let (t, x) ← s.slots[i]?
    let (u, y) ← s.slots[j]?
    let (e, n) ← baseE o t.u32Size u.u32Size x y s.n
    some (s.push t e s.m n)
  | .un o i => do
    let (t, x) ← s.slots[i]?
    let (e, n) := unE t.u32Size o x s.n
    some (s.push t e s.m n)
  | .sum t is => do
    let es ← operands s.slots t is
    let (e, n) := foldE .add (u32 t.zero) es s.n
    some (s.push t e s.m n)
  | .product t is => do
    let es ← operands s.slots t is
    let (e, n) := foldE .mul (u32 t.one) es s.n
    some (s.push t e s.m n)

/-- All calls in order. -/
noncomputable def steps : List Ins → State → Option State
  | [], s => some s
  | i :: is, s => do
    let s ← step s i
    steps is s

/-- The program, the comparison of value `r` with `c` (`equal_for_f`, alias.rs:387-389) as the expression of the manager,
and `run`, input_manager.rs:243-266. -/
noncomputable def runCheck (cfg : Cfg) (L : U31Lib) (T : TrackerLib) (p : List Ins) (r : Nat) (c : FVal) (n : Nat) :
    Option Unit := do
  let s ← steps p (.new n)
  let (t, x) ← s.slots[r]?
  if t = c.ty then
    let (e, _) := Dsl.equalC x (u32 c) s.n
    (s.m.setExec e).run cfg L T
  else none

end Prog

end TapStark
