import Verif.Model.FieldOps
import Verif.Model.Blake3

/-
Model of the expression compiler: /repo/script_expr/src/lib.rs (`simulate_express`, `express_to_script`), opcode.rs,
the generators of script_gen.rs, and `express` / `express1` of alias.rs.

`StackTracker` of the external crate bitcoin_script_stack is a list of named variables for each stack together with
the script emitted so far; the fragments it emits to move and copy variables are the fields of `TrackerLib`.  A
generation that panics is `none`.
-/

namespace TapStark

/-! ### The stack tracker -/

/-- `StackVariable` of bitcoin_script_stack. -/
structure SVar where
  id : Nat
  size : Nat
deriving DecidableEq

/-- `Variable`, /repo/script_expr/src/variable.rs:143-150. -/
structure Variable where
  row : Nat
  column : Nat
  expectSize : Option Nat
deriving DecidableEq

/-- The script fragments emitted by `StackTracker`: `bignumber`, `copy_var`, `move_var`, `to_altstack`,
`copy_var_from_altstack`, `move_var_from_altstack`.  For the middle ones the first argument is the number of stack
elements above the variable, the second the size of the variable. -/
structure TrackerLib where
  push : List Nat → List Op
  copy : Nat → Nat → List Op
  move : Nat → Nat → List Op
  toAlt : Nat → List Op
  copyAlt : Nat → Nat → List Op
  moveAlt : Nat → Nat → List Op

/-- `StackTracker`: the variables on the two stacks, top first, the counter for identifiers and the script. -/
structure Tracker where
  vars : List SVar
  alt : List SVar
  next : Nat
  script : List Op

/-- Where a variable is: the number of elements above it and its size. -/
def locate (id : Nat) : List SVar → Option (Nat × Nat)
  | [] => none
  | v :: vs => if v.id = id then some (0, v.size) else (locate id vs).map fun r => (v.size + r.1, r.2)

namespace Tracker

/-- `StackTracker::new`. -/
def new : Tracker := ⟨[], [], 0, []⟩

/-- `bignumber`. -/
def bignumber (T : TrackerLib) (vs : List Nat) (t : Tracker) : SVar × Tracker :=
  let v : SVar := ⟨t.next, vs.length⟩
  (v, ⟨v :: t.vars, t.alt, t.next + 1, t.script ++ T.push vs⟩)

/-- `copy_var`: the copy is a new variable. -/
def copyVar (T : TrackerLib) (v : SVar) (t : Tracker) : Option (SVar × Tracker) := do
  let (d, s) ← locate v.id t.vars
  some (⟨t.next, s⟩, ⟨⟨t.next, s⟩ :: t.vars, t.alt, t.next + 1, t.script ++ T.copy d s⟩)

/-- `move_var`: the variable keeps its identifier. -/
def moveVar (T : TrackerLib) (v : SVar) (t : Tracker) : Option (SVar × Tracker) := do
  let (d, s) ← locate v.id t.vars
  some (⟨v.id, s⟩, ⟨⟨v.id, s⟩ :: t.vars.filter (·.id ≠ v.id), t.alt, t.next, t.script ++ T.move d s⟩)

/-- `to_altstack`: moves the variable on top. -/
def toAltstack (T : TrackerLib) (t : Tracker) : Option (SVar × Tracker) :=
  match t.vars with
  | [] => none
  | v :: vs => some (v, ⟨vs, v :: t.alt, t.next, t.script ++ T.toAlt v.size⟩)

/-- `copy_var_from_altstack`. -/
def copyVarFromAlt (T : TrackerLib) (v : SVar) (t : Tracker) : Option (SVar × Tracker) := do
  let (d, s) ← locate v.id t.alt
  some (⟨t.next, s⟩, ⟨⟨t.next, s⟩ :: t.vars, t.alt, t.next + 1, t.script ++ T.copyAlt d s⟩)

/-- `move_var_from_altstack`. -/
def moveVarFromAlt (T : TrackerLib) (v : SVar) (t : Tracker) : Option (SVar × Tracker) := do
  let (d, s) ← locate v.id t.alt
  some (⟨v.id, s⟩, ⟨⟨v.id, s⟩ :: t.vars, t.alt.filter (·.id ≠ v.id), t.next, t.script ++ T.moveAlt d s⟩)

/-- New variables for the outputs of a script, top first. -/
def newVars (next size : Nat) : Nat → List SVar
  | 0 => []
  | n + 1 => ⟨next + n, size⟩ :: newVars next size n

/-- `custom1`: `consumes` variables are replaced by `outs` variables of size `size`; the script is not checked
against these numbers. -/
def custom (p : List Op) (consumes outs size : Nat) (t : Tracker) : Option (List SVar × Tracker) :=
  if t.vars.length < consumes then none
  else
    let vs := newVars t.next size outs
    some (vs, ⟨vs ++ t.vars.drop consumes, t.alt, t.next + outs, t.script ++ p⟩)

/-- `bignumber` for every entry, the last entry first, /repo/script_expr/src/script_gen.rs:320-325. -/
def pushAll (T : TrackerLib) : List (List Nat) → Tracker → List SVar × Tracker
  | [], t => ([], t)
  | v :: vs, t =>
    let (l, t) := pushAll T vs t
    let (x, t) := t.bignumber T v
    (x :: l, t)

end Tracker

/-! ### Operations -/

/-- `StandardOpcodeId` with the data carried by the expression node, /repo/script_expr/src/script_gen.rs:25-50.
`fieldSize` is `F::U32_SIZE` of the type parameter. -/
inductive Opc
  | add | mul | sub | neg | equal | equalVerify | numToField | fieldToNum
  | extractHighBits (len : Nat)
  | constant (values : List Nat)
  | expConst (fieldSize power : Nat)
  | indexToRou (F : FieldConsts) (bits : Nat)
  | lookup (fieldSize len : Nat)
  | inputMove (v : Variable)
  | inputCopy (v : Variable)
  | table (entries : List (List Nat))
  | square | double | blake3 | toSample | sampleBase | sampleExt
  | reverseBitslen (bits : Nat)
  | fourU32ToU32

namespace Opc

/-- `INPUT_NUM` of the node types, from the constructors in /repo/script_expr/src/alias.rs:70-476,
input_manager.rs:172-190 and variable.rs:37-44. -/
def inNum : Opc → Nat
  | add | mul | sub | equal | equalVerify | lookup .. => 2
  | constant _ | inputMove _ | inputCopy _ | table _ => 0
  | blake3 => 33
  | _ => 1

/-- `OUTPUT_NUM`; `none` is `DYNAMIC_INPUT_OR_OUTPUT`. -/
def outNum : Opc → Option Nat
  | equalVerify => some 0
  | table _ => none
  | blake3 => some 32
  | toSample => some 8
  | _ => some 1

/-- Nodes of type `StandardOpcode`; the others are `CustomOpcode` and `InputOpcode`, whose `var_size` may also be 0,
/repo/script_expr/src/opcode.rs:198-204, 295-301, 388-394. -/
def standard : Opc → Bool
  | extractHighBits _ | constant _ | expConst .. | indexToRou .. | lookup .. | inputMove _ | inputCopy _ | table _
  | reverseBitslen _ => false
  | _ => true

/-- What a generator asks the tracker to do. -/
inductive Emit
  | custom (p : List Op) (consumes outs size : Nat)
  | copyVar (v : Variable)
  | moveVar (v : Variable)
  | pushAll (entries : List (List Nat))

/-- Script of `op_blake3`, /repo/script_expr/src/script_gen.rs:712-717. -/
def blake3Perm : Option (List Op) := do
  let p ← blake3Script
  some (p ++ (List.range 7).flatMap fun i => .num ((i + 1) * 4 : Nat) :: op4roll)

/-- Script of `op_tosample`, /repo/script_expr/src/script_gen.rs:786-798. -/
def toSampleScript (L : U31Lib) : List Op :=
  emitN 8 (u32Compress ++ u32ToU31 0x78000001 L.sub ++ [.toAlt]) ++ emitN 8 [.fromAlt] ++
    (List.range 7).flatMap fun i => [.num (i + 1 : Nat), .roll]

/-- Script of `op_samplebase`, /repo/script_expr/src/script_gen.rs:737-743. -/
def sampleBaseScript : List Op := .toAlt :: (emitN 7 [.drop] ++ [.fromAlt])

/-- Script of `op_sampleext`, /repo/script_expr/src/script_gen.rs:763-767. -/
def sampleExtScript : List Op := op4toAlt ++ op4drop ++ op4fromAlt

/-- The generators, /repo/script_expr/src/script_gen.rs:157-808, by the declared sizes of the arguments; `none` is a
failed assertion.  `op_lookup` is one script here: it drops the table entries one by one through the tracker. -/
def emit (L : U31Lib) : Opc → List Nat → Option Emit
  | add, [a, b] => some (.custom (addScript L a b) 2 1 (max a b))
  | sub, [a, b] => some (.custom (subScript L a b) 2 1 (max a b))
  | mul, [a, b] => some (.custom (mulScript L a b) 2 1 (max a b))
  | neg, [a] => some (.custom (negScript L a) 1 1 a)
  | equal, [a, b] => if a = b then some (.custom (equalScript L a) 2 1 1) else none
  | equalVerify, [a, b] => if a = b then some (.custom (equalVerifyScript L a) 2 0 0) else none
  | numToField, [a] => some (.custom (numToFieldScript L a) 1 1 a)
  | fieldToNum, [a] => if a = 1 then some (.custom [] 1 1 1) else if a = 4 then some (.custom [] 1 4 1) else none
  | extractHighBits len, [a] => if a = 1 then do
      let p ← TapStark.extractHighBits len
      some (.custom p 1 1 a) else none
  | constant vs, [] => some (.pushAll [vs])
  | expConst fs power, [a] => do
      let p ← expConstScript L fs power
      some (.custom p 1 1 a)
  | indexToRou F bits, [_] => do
      let p ← TapStark.indexToRou L F bits
      some (.custom p 1 1 F.size)
  | lookup fs len, [a, _] => if a = 1 ∧ fs ≠ 4 then some (.custom (opLookup len) (len + 1) 1 fs) else none
  | inputMove v, [] => some (.moveVar v)
  | inputCopy v, [] => some (.copyVar v)
  | table es, [] => some (.pushAll es)
  | square, [a] => some (.custom (squareScript L a) 1 1 a)
  | double, [a] => some (.custom (doubleScript L a) 1 1 a)
  | blake3, sizes => if sizes.length = 33 then do
      let p ← blake3Perm
      some (.custom p 64 32 1) else none
  | toSample, [_] => some (.custom (toSampleScript L) 32 8 1)
  | sampleBase, [a] => if a = 1 then some (.custom sampleBaseScript 8 1 1) else none
  | sampleExt, [_] => some (.custom sampleExtScript 8 1 4)
  | reverseBitslen bits, [_] => do
      let p ← indexToReverseIndex bits
      some (.custom p 1 1 1)
  | fourU32ToU32, [a] => if a = 4 then some (.custom fourU32ToU32Script 1 1 1) else none
  | _, _ => none

end Opc

/-! ### Expressions -/

/-- An expression node: identifier, operation, declared `var_size`, operands.  Sharing (`Arc`) is equality of
identifiers, /repo/script_expr/src/opcode.rs:12-18. -/
inductive Expr
  | node (id : Nat) (opc : Opc) (size : Nat) (args : List Expr)

namespace Expr

def id : Expr → Nat | node id _ _ _ => id
def opc : Expr → Opc | node _ opc _ _ => opc
def size : Expr → Nat | node _ _ size _ => size
def args : Expr → List Expr | node _ _ _ args => args

/-- `var_size()`, /repo/script_expr/src/opcode.rs:198-204, 295-301, 388-394. -/
def varSize (e : Expr) : Option Nat :=
  if e.size = 1 ∨ e.size = 4 ∨ (e.size = 0 ∧ e.opc.standard = false) then some e.size else none

end Expr

/-- Setting an entry of a map. -/
def upd {α : Type} (f : Nat → α) (k : Nat) (x : α) : Nat → α := fun i => if i = k then x else f i

mutual

/-- `simulate_express`, /repo/script_expr/src/lib.rs:67-83: the number of visits of each node, children being
visited at the first visit only. -/
def simulate : Expr → (Nat → Nat) → (Nat → Nat)
  | .node id _ _ args, cm =>
    if cm id + 1 > 1 then upd cm id (cm id + 1) else simulateArgs args (upd cm id (cm id + 1))

/-- The loop over the operands, /repo/script_expr/src/lib.rs:79-81. -/
def simulateArgs : List Expr → (Nat → Nat) → (Nat → Nat)
  | [], cm => cm
  | e :: es, cm => simulateArgs es (simulate e cm)

end

/-- The state of `express_to_script`: tracker and the fields `copied` and `stack_var` of `IdCount`,
/repo/script_expr/src/lib.rs:45-49. -/
structure CState where
  t : Tracker
  copied : Nat → Nat
  svar : Nat → Option SVar

/-- Step 3 of `express_to_script`, the generator call, /repo/script_expr/src/lib.rs:142-144, with
`check_output_number`. -/
def generate (T : TrackerLib) (vg : Variable → Option SVar) (out : Option Nat) (em : Opc.Emit) (t : Tracker) :
    Option (List SVar × Tracker) := do
  let r ← match em with
    | .custom p c n s => t.custom p c n s
    | .copyVar v => do
      let sv ← vg v
      let (x, t) ← t.copyVar T sv
      some ([x], t)
    | .moveVar v => do
      let sv ← vg v
      let (x, t) ← t.moveVar T sv
      some ([x], t)
    | .pushAll es => some (t.pushAll T es)
  if out = none ∨ out = some r.1.length then some r else none

/-- Step 4 of `express_to_script`, /repo/script_expr/src/lib.rs:147-155: a copy for later visits goes to the alt
stack. -/
def keepCopy (T : TrackerLib) (N : Nat → Nat) (optimize : Bool) (id : Nat) (out : Option Nat) (vs : List SVar)
    (c : CState) : Option (List SVar × CState) :=
  if optimize = true ∧ out = some 1 ∧ N id > 1 ∧ c.svar id = none ∧ c.copied id = 0 then
    match vs with
    | [] => none
    | v :: _ => do
      let (_, t) ← c.t.copyVar T v
      let (x, t) ← t.toAltstack T
      some ([v], ⟨t, c.copied, upd c.svar id (some x)⟩)
  else some (vs, c)

mutual

/-- `express_to_script`, /repo/script_expr/src/lib.rs:86-161; `N` is the field `count` of `IdCount`, 0 where the map
has no entry. -/
def express (L : U31Lib) (T : TrackerLib) (vg : Variable → Option SVar) (N : Nat → Nat) (optimize : Bool) :
    Expr → CState → Option (List SVar × CState)
  | .node id opc _ args, c =>
    if optimize = true ∧ opc.outNum = some 1 ∧ N id = 0 then none
    else if optimize = true ∧ opc.outNum = some 1 ∧ N id > 1 ∧ (c.svar id).isSome then do
      let sv ← c.svar id
      if c.copied id = N id - 2 then do
        let (x, t) ← c.t.moveVarFromAlt T sv
        some ([x], { c with t := t })
      else do
        let (x, t) ← c.t.copyVarFromAlt T sv
        some ([x], { c with t := t, copied := upd c.copied id (c.copied id + 1) })
    else if args.length ≠ opc.inNum then none
    else do
      let (sizes, c) ← expressArgs L T vg N optimize args c
      let em ← opc.emit L sizes
      let (vs, t) ← generate T vg opc.outNum em c.t
      keepCopy T N optimize id opc.outNum vs { c with t := t }

/-- The operands in order, with their declared sizes, /repo/script_expr/src/lib.rs:129-139. -/
def expressArgs (L : U31Lib) (T : TrackerLib) (vg : Variable → Option SVar) (N : Nat → Nat) (optimize : Bool) :
    List Expr → CState → Option (List Nat × CState)
  | [], c => some ([], c)
  | e :: es, c => do
    let (_, c) ← express L T vg N optimize e c
    let s ← e.varSize
    let (ss, c) ← expressArgs L T vg N optimize es c
    some (s :: ss, c)

end

/-- `express1`, /repo/script_expr/src/alias.rs:525-538; `express` (lines 511-522) is the case `optimize = true`. -/
def compile (L : U31Lib) (T : TrackerLib) (vg : Variable → Option SVar) (optimize : Bool) (e : Expr) (t : Tracker) :
    Option (List SVar × Tracker) := do
  let (vs, c) ← express L T vg (simulate e fun _ => 0) optimize e ⟨t, fun _ => 0, fun _ => none⟩
  some (vs, c.t)

end TapStark
