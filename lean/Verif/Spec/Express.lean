import Verif.Spec.FieldOps
import Verif.Spec.Tracker
import Verif.Spec.Blake3
import Verif.Model.Fri

/-
The meaning of expressions: values, kinds, and evaluation of a node from the values of its operands.  Nothing here
mentions scripts, stacks or sharing, except the encoding of a value as stack elements.
-/

namespace TapStark

open Stark (BB4 asBase4 mk4)

/-! ### Values -/

/-- The kind of a value: a number below a bound, or an element of the extension field. -/
inductive Kind
  | nat (bound : Nat)
  | ext
deriving DecidableEq

namespace Kind

/-- An element of the base field is a number below the modulus. -/
abbrev base : Kind := nat bbP

/-- Its number of stack elements. -/
def size : Kind → Nat
  | nat _ => 1
  | ext => 4

end Kind

/-- A number or an element of the extension field. -/
inductive Val
  | nat (n : Nat)
  | ext (x : BB4)

namespace Val

/-- Its stack elements, top first. -/
noncomputable def enc : Val → List Elem
  | nat n => [num n]
  | ext x => encE x

/-- `v` is of kind `k`; numbers are below `2^31`. -/
def Has : Val → Kind → Prop
  | nat n, .nat B => n < B ∧ n < 2 ^ 31
  | ext _, .ext => True
  | _, _ => False

/-- A value as a field element. -/
def toF : Val → FVal
  | nat n => .base n
  | ext x => .ext x

/-- A field element as a value. -/
def ofF : FVal → Val
  | .base x => nat x.val
  | .ext x => ext x

/-- A number as a number. -/
def toNat : Val → Nat
  | nat n => n
  | ext _ => 0

end Val

namespace FVal

/-- The result is a base field element only if both operands are. -/
noncomputable def lift2 (f : BB → BB → BB) (g : BB4 → BB4 → BB4) : FVal → FVal → FVal
  | base x, base y => base (f x y)
  | x, y => ext (g x.val y.val)

noncomputable def add : FVal → FVal → FVal := lift2 (· + ·) (· + ·)
noncomputable def sub : FVal → FVal → FVal := lift2 (· - ·) (· - ·)
noncomputable def mul : FVal → FVal → FVal := lift2 (· * ·) (· * ·)

noncomputable def lift1 (f : BB → BB) (g : BB4 → BB4) : FVal → FVal
  | base x => base (f x)
  | ext x => ext (g x)

noncomputable def neg : FVal → FVal := lift1 (- ·) (- ·)
noncomputable def double : FVal → FVal := lift1 (2 * ·) (2 * ·)
noncomputable def pow (n : Nat) : FVal → FVal := lift1 (· ^ n) (· ^ n)

end FVal

/-- The value written by a list of numbers: one number, or the coefficients of an extension field element. -/
noncomputable def constVal : List Nat → Option Val
  | [v] => if v < 2 ^ 31 then some (.nat v) else none
  | [a, b, c, d] => if a < bbP ∧ b < bbP ∧ c < bbP ∧ d < bbP then some (.ext (mk4 a b c d)) else none
  | _ => none

/-! ### Kinds of nodes -/

/-- An extension field element, or a number below the modulus. -/
def Kind.IsField (k : Kind) : Prop := k = .ext ∨ ∃ B, B ≤ bbP ∧ k = .nat B

def Kind.IsNum (k : Kind) : Prop := ∃ B, k = .nat B

/-- The kind of the result of a field operation. -/
def Kind.join (a b : Kind) : Kind := if a = .ext ∨ b = .ext then .ext else .base

/-- The kinds of operands and results of an operation.  `K` gives the kinds of the input variables; a node with
several results has several kinds, the result on top of the stack first. -/
def Opc.Types (K : Variable → Kind) (opc : Opc) (as : List (List Kind)) (r : List Kind) : Prop :=
  match opc with
  | .add | .sub | .mul => ∃ a b, as = [[a], [b]] ∧ a.IsField ∧ b.IsField ∧ r = [a.join b]
  | .neg | .square | .double => ∃ a, as = [[a]] ∧ a.IsField ∧ r = [a.join a]
  | .equal => ∃ a b, as = [[a], [b]] ∧ (a = .ext ∧ b = .ext ∨ a.IsNum ∧ b.IsNum) ∧ r = [.nat 2]
  | .equalVerify => ∃ a b, as = [[a], [b]] ∧ (a = .ext ∧ b = .ext ∨ a.IsNum ∧ b.IsNum) ∧ r = []
  | .numToField => ∃ B, as = [[.nat B]] ∧ r = [.base]
  | .fieldToNum => ∃ B, as = [[.nat B]] ∧ r = [.nat B]
  | .extractHighBits len => ∃ B, as = [[.nat B]] ∧ 1 ≤ len ∧ len ≤ 31 ∧ r = [.nat (2 ^ len)]
  | .constant vs => as = [] ∧ ∃ k v, r = [k] ∧ constVal vs = some v ∧ v.Has k
  | .expConst fs power => ∃ a, as = [[a]] ∧ a.IsField ∧ fs = a.size ∧ (∃ k, power = 2 ^ k) ∧ r = [a.join a]
  | .indexToRou F bits => ∃ B, as = [[.nat B]] ∧ bits ≤ 27 ∧
      (F = bbConsts ∧ r = [.base] ∨ F = bb4Consts ∧ r = [.ext])
  | .lookup fs len => ∃ k B, as = [List.replicate len k, [.nat B]] ∧ B ≤ len ∧ k.size = 1 ∧ fs = 1 ∧ r = [k]
  | .inputMove v | .inputCopy v => as = [] ∧ r = [K v]
  | .table es => as = [] ∧ List.Forall₂ (fun vs k => ∃ v, constVal vs = some v ∧ v.Has k) es r
  | .blake3 => as.map List.length = 32 :: List.replicate 32 1 ∧ (∀ ks ∈ as, ∀ k ∈ ks, ∃ B, B ≤ 256 ∧ k = .nat B) ∧
      r = List.replicate 32 (.nat 256)
  | .toSample => as = [List.replicate 32 (.nat 256)] ∧ r = List.replicate 8 .base
  | .sampleBase => as = [List.replicate 8 .base] ∧ r = [.base]
  | .sampleExt => as = [List.replicate 8 .base] ∧ r = [.ext]
  | .reverseBitslen bits => ∃ B, as = [[.nat B]] ∧ 1 ≤ bits ∧ bits ≤ 31 ∧ r = [.nat (2 ^ bits)]
  | .fourU32ToU32 => as = [[.ext]] ∧ r = [.base]

/-! ### Evaluation -/

/-- The field element sampled from a 32-bit word; the word `2^31` gives 0 (C58). -/
def sampleValue (w : Nat) : BB := if w = 2 ^ 31 then 0 else (w : BB)

/-- Little-endian word `i` of a list of bytes. -/
def wordAt (bs : List Nat) (i : Nat) : Nat :=
  bs.getD (4 * i) 0 + 256 * bs.getD (4 * i + 1) 0 + 65536 * bs.getD (4 * i + 2) 0 + 16777216 * bs.getD (4 * i + 3) 0

open Classical in
/-- The results of an operation on the values of its operands, `none` if a check fails. -/
noncomputable def Opc.denote (env : Variable → Val) (opc : Opc) (args : List (List Val)) : Option (List Val) :=
  match opc, args with
  | .add, [[x], [y]] => some [.ofF (x.toF.add y.toF)]
  | .sub, [[x], [y]] => some [.ofF (x.toF.sub y.toF)]
  | .mul, [[x], [y]] => some [.ofF (x.toF.mul y.toF)]
  | .neg, [[x]] => some [.ofF x.toF.neg]
  | .square, [[x]] => some [.ofF (x.toF.pow 2)]
  | .double, [[x]] => some [.ofF x.toF.double]
  -- comparing numbers gives 0 or 1, a failed comparison of extension field elements fails
  | .equal, [[.ext x], [.ext y]] => if x = y then some [.nat 1] else none
  | .equal, [[.nat x], [.nat y]] => some [.nat (if x = y then 1 else 0)]
  | .equalVerify, [[x], [y]] => if x = y then some [] else none
  | .numToField, [[.nat n]] => some [.nat (n % bbP)]
  | .fieldToNum, [[.nat n]] => some [.nat n]
  | .extractHighBits len, [[.nat n]] => some [.nat (n >>> (32 - len))]
  | .constant vs, [] => (constVal vs).map ([·])
  | .expConst _ n, [[x]] => some [.ofF (x.toF.pow n)]
  | .indexToRou F bits, [[.nat n]] =>
    if n < 2 ^ bits then
      some [.ofF (if F.size = 1 then .base (bbGen bits ^ n) else .ext (algebraMap BB BB4 (bbGen bits ^ n)))]
    else none
  | .lookup .., [tab, [.nat n]] => (tab[n]?).map ([·])
  | .inputMove v, [] => some [env v]
  | .inputCopy v, [] => some [env v]
  | .table es, [] => es.mapM constVal
  | .blake3, args => some ((Blake3.hashBytes (args.reverse.flatten.map fun v => UInt8.ofNat v.toNat)).map Val.nat)
  | .toSample, [bs] => some ((List.range 8).reverse.map fun i => .nat (sampleValue (wordAt (bs.map Val.toNat) i)).val)
  | .sampleBase, [x :: _] => some [x]
  | .sampleExt, [.nat a :: .nat b :: .nat c :: .nat d :: _] => some [.ext (mk4 a b c d)]
  | .reverseBitslen bits, [[.nat n]] => some [.nat (if n < 2 ^ bits then Fri.revBits bits n else 2 ^ bits - 1)]
  | .fourU32ToU32, [[.ext x]] => some [.nat ((asBase4 x).getD 0 0).val]
  | _, _ => none

mutual

/-- The values of an expression, `none` if a check in it fails. -/
noncomputable def eval (env : Variable → Val) : Expr → Option (List Val)
  | .node _ opc _ args => (evalArgs env args).bind (opc.denote env)

/-- The values of operands. -/
noncomputable def evalArgs (env : Variable → Val) : List Expr → Option (List (List Val))
  | [] => some []
  | e :: es => (eval env e).bind fun v => (evalArgs env es).map fun vs => v :: vs

end

/-! ### Well-formed expressions -/

/-- `s` occurs in `e`. -/
inductive Sub : Expr → Expr → Prop
  | refl (e : Expr) : Sub e e
  | arg {s a e : Expr} : a ∈ e.args → Sub s a → Sub s e

/-- Every node has the right operands: kinds, and declared sizes agreeing with the kinds; `τ` gives the kinds of a
node. -/
structure WellTyped (K : Variable → Kind) (τ : Expr → List Kind) (e : Expr) : Prop where
  types : ∀ s, Sub s e → s.opc.Types K (s.args.map τ) (τ s)
  size : ∀ s k, Sub s e → τ s = [k] → s.size = k.size
  sizes : ∀ s, Sub s e → ∀ a ∈ s.args, ∃ n, a.varSize = some n
  one : ∀ s, Sub s e → (s.opc = .sampleBase ∨ ∃ f n, s.opc = .lookup f n) → ∀ a ∈ s.args, a.size = 1

/-- Nodes with the same identifier are the same node. -/
def Shared (e : Expr) : Prop := ∀ s s', Sub s e → Sub s' e → s.id = s'.id → s = s'

/-- A node reading the input `v`, by moving or copying. -/
def Reads (s : Expr) (v : Variable) : Prop := s.opc = .inputMove v ∨ s.opc = .inputCopy v

/-- An input that is moved is read by one node only. -/
def MovesOnce (vg : Variable → Option SVar) (e : Expr) : Prop :=
  ∀ s s' v v', Sub s e → Sub s' e → s.opc = .inputMove v → Reads s' v' → vg v = vg v' → s = s'

/-- The variable is moved by some node. -/
def Moved (vg : Variable → Option SVar) (e : Expr) (x : SVar) : Prop :=
  ∃ s v, Sub s e ∧ s.opc = .inputMove v ∧ vg v = some x

/-- A node without exactly one output is visited once, or nothing in it needs the cache: no moves, and no
single-output node visited twice. -/
def MultiOk (e : Expr) : Prop :=
  ∀ s, Sub s e → s.opc.outNum ≠ some 1 → simulate e (fun _ => 0) s.id ≤ 1 ∨
    ∀ u, Sub u s → (∀ v, u.opc ≠ .inputMove v) ∧ (u.opc.outNum = some 1 → simulate e (fun _ => 0) u.id = 1)

/-- The inputs are on the stack, with the right contents: `σ` are the contents of the variables of the tracker. -/
def InputsAt (vg : Variable → Option SVar) (K : Variable → Kind) (env : Variable → Val) (σ : Nat → List Elem)
    (vars : List SVar) (e : Expr) : Prop :=
  ∀ s v, Sub s e → Reads s v → (env v).Has (K v) ∧ ∃ sv ∈ vars, vg v = some sv ∧ σ sv.id = (env v).enc

end TapStark
