import Verif.Model.Dsl

/-
The part of `InputManager` that `simulate_input` and `run` change and keep: the stack tracker, the map from variables to
stack variables and the counts of the nodes (/repo/script_expr/src/input_manager.rs:129-131).
-/

namespace TapStark

/-- The fields `stack`, `var_getter` and `id_mapper` of `InputManager`, input_manager.rs:129-131; `count`, `copied` and
`svar` are the fields of `IdCount`, script_expr/src/lib.rs:45-49, a missing entry being the count 0. -/
structure RunState where
  t : Tracker
  vg : Variable → Option SVar
  count : Nat → Nat
  copied : Nat → Nat
  svar : Nat → Option SVar

namespace RunState

/-- As made by `new_with_name`, input_manager.rs:139-151. -/
def new : RunState := ⟨Tracker.new, fun _ => none, fun _ => 0, fun _ => 0, fun _ => none⟩

end RunState

namespace InputManager

/-- `simulate_input`, input_manager.rs:230-241, on the state the manager has; `ManagerAssign::simulate_input`
(input_manager.rs:106-110) is this for the current manager, and hands out a copy of the tracker. -/
def simulateOn (T : TrackerLib) (m : InputManager) (s : RunState) : RunState :=
  let (t, vg) := pushInputs T m.inputHint (pushInputs T m.inputVar (s.t, s.vg))
  { s with t := t, vg := vg }

/-- `run`, input_manager.rs:243-266, on the state the manager has; `none` is a panic.  (After a panic the lock that callers
hold is poisoned, so that the state left behind is not used again.) -/
def runOn (cfg : Cfg) (L : U31Lib) (T : TrackerLib) (m : InputManager) (s : RunState) : Option RunState :=
  match m.exec with
  | none => some s
  | some e => do
    let s := m.simulateOn T s
    let N := simulate e s.count
    let (_, c) ← express L T s.vg N true e ⟨s.t, s.copied, s.svar⟩
    if accepts cfg c.t.script [] then some ⟨c.t, s.vg, N, c.copied, c.svar⟩ else none

end InputManager

end TapStark
