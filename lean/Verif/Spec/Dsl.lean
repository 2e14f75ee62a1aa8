import Verif.Spec.Express
import Verif.Model.Dsl

/-
Sets of expression nodes built by one program, and the inputs of a manager.
-/

namespace TapStark

open Stark (BB4 asBase4 mk4)

/-! ### Kinds computed from the leaves -/

/-- The kind of a constant. -/
def constKind : List Nat → Kind
  | [v] => .nat (v + 1)
  | _ => .ext

/-- The kind of the entries of a table: one kind for all of them. -/
def tableKind (es : List (List Nat)) : Kind :=
  if es.all (fun vs => vs.length = 1) then .nat ((es.map fun vs => vs.headD 0 + 1).foldr max 0) else .ext

/-- The kinds of the results of an operation, when the operands have the right kinds (`Opc.Types`). -/
def Opc.kinds (K : Variable → Kind) : Opc → List (List Kind) → List Kind
  | .add, [[a], [b]] | .sub, [[a], [b]] | .mul, [[a], [b]] => [a.join b]
  | .neg, [[a]] | .square, [[a]] | .double, [[a]] | .expConst .., [[a]] => [a.join a]
  | .equal, _ => [.nat 2]
  | .numToField, _ => [.base]
  | .fieldToNum, [[a]] => [a]
  | .extractHighBits len, _ => [.nat (2 ^ len)]
  | .constant vs, _ => [constKind vs]
  | .indexToRou F _, _ => [if F.size = 1 then .base else .ext]
  | .lookup .., (k :: _) :: _ => [k]
  | .inputMove v, _ | .inputCopy v, _ => [K v]
  | .table es, _ => List.replicate es.length (tableKind es)
  | .blake3, _ => List.replicate 32 (.nat 256)
  | .toSample, _ => List.replicate 8 .base
  | .sampleBase, _ | .fourU32ToU32, _ => [.base]
  | .sampleExt, _ => [.ext]
  | .reverseBitslen bits, _ => [.nat (2 ^ bits)]
  | _, _ => []

mutual

/-- The kinds of a node. -/
def kinds (K : Variable → Kind) : Expr → List Kind
  | .node _ opc _ args => opc.kinds K (kindsArgs K args)

def kindsArgs (K : Variable → Kind) : List Expr → List (List Kind)
  | [] => []
  | e :: es => kinds K e :: kindsArgs K es

end

/-! ### Sets of nodes -/

/-- A set `P` of nodes with identifiers up to `n`: closed under operands, nodes with the same identifier are the same
node, every node is well typed, and an input that is moved is read by one node only. -/
structure Good (K : Variable → Kind) (n : Nat) (P : Expr → Prop) : Prop where
  closed : ∀ s, P s → ∀ a ∈ s.args, P a
  le : ∀ s, P s → s.id ≤ n
  uniq : ∀ s s', P s → P s' → s.id = s'.id → s = s'
  types : ∀ s, P s → s.opc.Types K (s.args.map (kinds K)) (kinds K s)
  size : ∀ s k, P s → kinds K s = [k] → s.size = k.size
  sizes : ∀ s, P s → ∀ a ∈ s.args, ∃ n, a.varSize = some n
  one : ∀ s, P s → (s.opc = .sampleBase ∨ ∃ f n, s.opc = .lookup f n) → ∀ a ∈ s.args, a.size = 1
  moves : ∀ s s' v, P s → P s' → s.opc = .inputMove v → Reads s' v → s = s'

/-! ### Inputs of a manager -/

/-- All inputs of a manager, top of the stack first: `simulate_input` pushes the hints last. -/
def InputManager.inputs (m : InputManager) : List (Variable × List Nat) := m.inputHint ++ m.inputVar

/-- `env` are the values of the inputs of the manager and `K` their kinds; every input has its own variable. -/
structure InputManager.Agrees (K : Variable → Kind) (env : Variable → Val) (m : InputManager) : Prop where
  vals : ∀ p ∈ m.inputs, constVal p.2 = some (env p.1)
  kinds : ∀ p ∈ m.inputs, K p.1 = constKind p.2
  nodup : (m.inputs.map Prod.fst).Nodup

/-- Every node that reads an input reads an input of the manager. -/
def InputManager.Provides (m : InputManager) (P : Expr → Prop) : Prop :=
  ∀ s v, P s → Reads s v → v ∈ m.inputs.map Prod.fst

/-- Every input of the manager is moved by a node of `e`. -/
def InputManager.Consumes (m : InputManager) (e : Expr) : Prop :=
  ∀ p ∈ m.inputs, ∃ s, Sub s e ∧ s.opc = .inputMove p.1

/-! ### Nodes with several results -/

/-- The operations of the sponge. -/
def Opc.Sponge : Opc → Prop
  | .constant _ | .table _ | .blake3 | .toSample => True
  | _ => False

/-- Occurrences of an identifier among operands. -/
def occ (x : Nat) (es : List Expr) : Nat := (es.map Expr.id).count x

/-- Inside nodes with several results there are only sponge operations, and their constants are used once. -/
def MultiSafe (P : Expr → Prop) : Prop :=
  ∀ s, P s → s.opc.outNum ≠ some 1 → ∀ u, Sub u s → u.opc.Sponge ∧
    (u.opc.outNum = some 1 → ∃ p, ∀ t, P t → occ u.id t.args ≤ if t.id = p then 1 else 0)

/-- The node is inside no node with several results. -/
def Free (P : Expr → Prop) (u : Expr) : Prop := ∀ s, P s → s.opc.outNum ≠ some 1 → ¬ Sub u s

/-- No nodes. -/
def NoNodes : Expr → Prop := fun _ => False

/-- The nodes built so far for a manager, starting from nodes `H`: well formed, reading inputs of the manager, which
names new ones by its counter; nodes with several results are among `H`, and only inputs of row 5 are moved. -/
structure Built (K : Variable → Kind) (H : Expr → Prop) (m : InputManager) (n : Nat) (P : Expr → Prop) : Prop where
  good : Good K n P
  safe : MultiSafe P
  multi : ∀ s, P s → s.opc.outNum ≠ some 1 → H s
  base : ∀ s, H s → P s
  prov : m.Provides P
  names : ∀ p ∈ m.inputs, ∀ i, p.1 = ⟨5, i, none⟩ → i < m.counter
  nodup : (m.inputs.map Prod.fst).Nodup
  moves : ∀ s v, P s → s.opc = .inputMove v → v.row = 5

/-! ### Field elements as values -/

section

variable {F : Type} [Field F]

/-- The value that stands for a field element. -/
noncomputable def BfField.val (B : BfField F) (x : F) : Val := (constVal (B.u32 x)).getD (.nat 0)

/-- The field is one of the two fields of the compiler: its elements are values, and its operations are those of the
values. -/
structure BfField.Ok (B : BfField F) : Prop where
  const : ∀ x, constVal (B.u32 x) = some (B.val x)
  kind : ∀ x, (constKind (B.u32 x)).IsField ∧ (constKind (B.u32 x)).size = B.consts.size
  length : ∀ x, (B.u32 x).length = B.consts.size
  inj : ∀ x y, B.val x = B.val y → x = y
  add : ∀ x y, Val.ofF ((B.val x).toF.add (B.val y).toF) = B.val (x + y)
  sub : ∀ x y, Val.ofF ((B.val x).toF.sub (B.val y).toF) = B.val (x - y)
  mul : ∀ x y, Val.ofF ((B.val x).toF.mul (B.val y).toF) = B.val (x * y)
  neg : ∀ x, Val.ofF (B.val x).toF.neg = B.val (-x)
  double : ∀ x, Val.ofF (B.val x).toF.double = B.val (2 * x)
  pow : ∀ x n, Val.ofF ((B.val x).toF.pow n) = B.val (x ^ n)
  consts : B.consts = bbConsts ∨ B.consts = bb4Consts
  root : ∀ bits n, Val.ofF (if B.consts.size = 1 then .base (bbGen bits ^ n)
    else .ext (algebraMap BB BB4 (bbGen bits ^ n))) = B.val (B.gen bits ^ n)
  twoAdic : Fri.TwoAdic B.gen 27

/-- `e` is a node of `P` whose value is the field element `x`; it is inside no node of `H` with several results. -/
structure Den (B : BfField F) (K : Variable → Kind) (H : Expr → Prop) (env : Variable → Val) (P : Expr → Prop) (e : Expr)
    (x : F) : Prop where
  mem : P e
  free : Free H e
  kind : ∃ k, kinds K e = [k] ∧ k.IsField ∧ k.size = B.consts.size
  eval : eval env e = some [B.val x]

end

/-! ### Checks -/

/-- `e` is a check with outcome `r`: its value is a bit, or its evaluation fails (`none`). -/
def IsCheck (K : Variable → Kind) (env : Variable → Val) (e : Expr) (r : Option Bool) : Prop :=
  kinds K e = [.nat 2] ∧ eval env e = r.map fun b => [.nat b.toNat]

/-- The outcome of chained equality checks: every evaluation succeeds and the number of false checks is even. -/
def EvenFailures (rs : List (Option Bool)) : Prop :=
  none ∉ rs ∧ (rs.count (some false)) % 2 = 0

end TapStark
