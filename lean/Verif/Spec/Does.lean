import Verif.Script.Interp

/-
What a script fragment does, as seen from outside: vocabulary for stating the properties of the expression
compiler.
-/

namespace TapStark

/-- `p` replaces the elements `ins` on top of the stack (top first) by `outs`, whatever lies below, whatever is on
the alt stack, and wherever the fragment occurs in a script. -/
def Does (cfg : Cfg) (p : List Op) (ins outs : List Elem) : Prop :=
  ∀ (m a : List Elem) (c : List Bool) (ops : List Op), live c = true →
    run cfg (p ++ ops) ⟨ins ++ m, a, c⟩ = run cfg ops ⟨outs ++ m, a, c⟩

/-- `p` makes the script fail when `ins` is on top of the stack. -/
def Fails (cfg : Cfg) (p : List Op) (ins : List Elem) : Prop :=
  ∀ (m a : List Elem) (c : List Bool) (ops : List Op), live c = true → run cfg (p ++ ops) ⟨ins ++ m, a, c⟩ = none

/-- `p` does nothing inside a branch not taken. -/
def SkipsDead (cfg : Cfg) (p : List Op) : Prop :=
  ∀ (m a : List Elem) (c : List Bool) (ops : List Op), live c = false →
    run cfg (p ++ ops) ⟨m, a, c⟩ = run cfg ops ⟨m, a, c⟩

end TapStark
