import Verif.Model.Program

/-!
`run_dsl`, `assert_dsl` and `debug_assert_dsl`, /repo/script_expr/src/lib.rs:196-212.
-/

namespace TapStark

/-- `run_dsl`, /repo/script_expr/src/lib.rs:196-202: the comparison with the value, compiled without inputs on an empty
tracker, and run; `none` if the generation panics, otherwise the field `success` of the result. -/
def runDsl (cfg : Cfg) (L : U31Lib) (T : TrackerLib) (e : Expr) (value : List Nat) (n : Nat) : Option Bool := do
  let (a, _) := Dsl.equalC e value n
  let (_, t) ← compile L T (fun _ => none) true a Tracker.new
  some (accepts cfg t.script [])

/-- `assert_dsl`, /repo/script_expr/src/lib.rs:204-207. -/
def assertDsl (cfg : Cfg) (L : U31Lib) (T : TrackerLib) (e : Expr) (value : List Nat) (n : Nat) : Option Unit := do
  if ← runDsl cfg L T e value n then some () else none

/-- `debug_assert_dsl`, /repo/script_expr/src/lib.rs:209-212: `debug` is `cfg!(debug_assertions)`; without it the result
is not looked at. -/
def debugAssertDsl (cfg : Cfg) (L : U31Lib) (T : TrackerLib) (debug : Bool) (e : Expr) (value : List Nat) (n : Nat) :
    Option Unit := do
  let r ← runDsl cfg L T e value n
  if debug && !r then none else some ()

namespace Prog

/-- A program, and `f` called on value `r` and the constant `c` of the same type. -/
noncomputable def withValue {α : Type} (f : Expr → List Nat → Nat → Option α) (p : List Ins) (r : Nat) (c : FVal)
    (n : Nat) : Option α := do
  let s ← steps p (.new n)
  let (t, x) ← s.slots[r]?
  if t = c.ty then f x (u32 c) s.n else none

end Prog

end TapStark
