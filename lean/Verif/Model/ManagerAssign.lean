import Verif.Model.Dsl
import Verif.Model.ScriptHelper
import Verif.Spec.ManagerAssign

/-
Model of `ManagerAssign`, /repo/script_expr/src/input_manager.rs:14-121.  A shared pointer to a manager is its position
in the list; managers are never removed one by one, and `clear` is not modelled.  Names are left out.
-/

namespace TapStark

/-- `ManagerAssign`, input_manager.rs:14-17. -/
structure ManagerAssign where
  managers : List InputManager
  current : Option Nat

namespace ManagerAssign

/-- `new`, input_manager.rs:28-33. -/
def new : ManagerAssign := ⟨[], none⟩

/-- `add_manager` and `add_manager_with_name`, input_manager.rs:44-56; also returns the new manager. -/
def addManager (a : ManagerAssign) : Nat × ManagerAssign :=
  (a.managers.length, { a with managers := a.managers ++ [.new] })

/-- `next_manager` and `next_manager_with_name`, input_manager.rs:58-74. -/
def nextManager (a : ManagerAssign) : Nat × ManagerAssign :=
  addManager { a with current := some (match a.current with | none => 0 | some i => i + 1) }

/-- `current_manager`, input_manager.rs:76-81; `none` is a panic. -/
def currentManager (a : ManagerAssign) : Option Nat := do
  let i ← a.current
  if i < a.managers.length then some i else none

/-- `move_current_index`, input_manager.rs:83-87. -/
def moveCurrentIndex (a : ManagerAssign) (i : Nat) : Option (Nat × ManagerAssign) :=
  if i < a.managers.length then some (i, { a with current := some i }) else none

/-- `assign_input`, input_manager.rs:94-96, and `assign_input_f` with `as_u32_vec`; `n` is the counter of identifiers. -/
def assignInput (v : List Nat) (a : ManagerAssign) (n : Nat) : Option (Expr × ManagerAssign × Nat) := do
  let i ← a.currentManager
  let m ← a.managers[i]?
  let (e, m, n) := m.assignInput v n
  some (e, { a with managers := a.managers.set i m }, n)

/-- `set_value_count`, input_manager.rs:111-120. -/
def setValueCount (a : ManagerAssign) (c : ValueCounter) : Option ValueCounter := do
  let (_, c) ← c.calls (a.managers.flatMap fun m => m.inputVar.flatMap Prod.snd)
  some c

/-- One call of a client. -/
def call (a : ManagerAssign) (n : Nat) : MCall → Option (ManagerAssign × Nat)
  | .next => some (a.nextManager.2, n)
  | .add => some (a.addManager.2, n)
  | .move i => (a.moveCurrentIndex i).map fun r => (r.2, n)
  | .assign v => (a.assignInput v n).map fun r => r.2

/-- The calls of a client in order. -/
def calls : List MCall → ManagerAssign → Nat → Option (ManagerAssign × Nat)
  | [], a, n => some (a, n)
  | c :: cs, a, n => do
    let (a, n) ← a.call n c
    calls cs a n

/-- The inputs held by the managers. -/
def inputs (a : ManagerAssign) : List (List (List Nat)) := a.managers.map fun m => m.inputVar.map Prod.snd

end ManagerAssign

end TapStark
