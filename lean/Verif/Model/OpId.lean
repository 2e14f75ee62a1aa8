import Mathlib.Logic.Relation

/-!
The counter that numbers expression nodes, shared by all threads of the process: `OPID` and `get_opid`,
/repo/script_expr/src/alias.rs:20-28.  The threads are not assumed to call it atomically: taking the lock, adding and
returning are separate steps, and a schedule may interleave the steps of any number of threads in any order.  The model
of `Mutex` is that of the standard library: one holder at a time, and poisoned by a panic of its holder.
-/

namespace TapStark.OpId

/-- Where a thread is in `get_opid`, /repo/script_expr/src/alias.rs:24-28. -/
inductive Phase
  /-- outside -/
  | idle
  /-- after line 25, the guard is held -/
  | holding
  /-- after line 26 -/
  | added
  /-- panicked -/
  | dead
deriving DecidableEq

/-- The state of the process: the `u32` in the mutex, the mutex, the threads, and the identifiers returned so far with
the threads that got them, oldest first. -/
structure State where
  value : Nat
  holder : Option Nat
  poisoned : Bool
  phase : Nat → Phase
  log : List (Nat × Nat)

/-- The start of the process, /repo/script_expr/src/alias.rs:21. -/
def State.new : State := ⟨0, none, false, fun _ => .idle, []⟩

/-- A thread moves to a phase. -/
def goto (f : Nat → Phase) (t : Nat) (p : Phase) : Nat → Phase := fun u => if u = t then p else f u

/-- One step of thread `t`; `checks` is whether the build has overflow checks. -/
inductive Step (checks : Bool) (t : Nat) : State → State → Prop
  /-- `OPID.lock().unwrap()`, line 25 -/
  | lock {s} (hp : s.phase t = .idle) (hf : s.holder = none) (hq : s.poisoned = false) :
    Step checks t s { s with holder := some t, phase := goto s.phase t .holding }
  /-- line 25 on a poisoned mutex: the `unwrap` panics -/
  | refused {s} (hp : s.phase t = .idle) (hf : s.holder = none) (hq : s.poisoned = true) :
    Step checks t s { s with phase := goto s.phase t .dead }
  /-- `*id += 1`, line 26 -/
  | add {s} (hp : s.phase t = .holding) (hv : s.value + 1 < 2 ^ 32) :
    Step checks t s { s with value := s.value + 1, phase := goto s.phase t .added }
  /-- line 26 at the maximum without overflow checks: wraps -/
  | wrap {s} (hp : s.phase t = .holding) (hv : ¬ s.value + 1 < 2 ^ 32) (hc : checks = false) :
    Step checks t s { s with value := 0, phase := goto s.phase t .added }
  /-- line 26 at the maximum with overflow checks: panics holding the guard -/
  | overflow {s} (hp : s.phase t = .holding) (hv : ¬ s.value + 1 < 2 ^ 32) (hc : checks = true) :
    Step checks t s { s with holder := none, poisoned := true, phase := goto s.phase t .dead }
  /-- `*id` and the end of the guard, lines 27-28 -/
  | ret {s} (hp : s.phase t = .added) :
    Step checks t s { s with holder := none, phase := goto s.phase t .idle, log := s.log ++ [(t, s.value)] }

/-- Some thread makes a step. -/
def AnyStep (checks : Bool) (s s' : State) : Prop := ∃ t, Step checks t s s'

/-- The states of the process, under any schedule of any threads. -/
def Reachable (checks : Bool) (s : State) : Prop := Relation.ReflTransGen (AnyStep checks) State.new s

/-- The identifiers handed out, oldest first. -/
def State.ids (s : State) : List Nat := s.log.map Prod.snd

end TapStark.OpId
