import Verif.Spec.Does
import Verif.Model.Express

/-
What is assumed of the fragments emitted by the stack tracker.
-/

namespace TapStark

/-- The fragments of the stack tracker do what their names say, for variables of at most four elements; a variable
on the alt stack is stored in reverse order. -/
structure TrackerLib.Ok (cfg : Cfg) (T : TrackerLib) : Prop where
  push : ∀ vs : List Nat, vs.length ≤ 4 → Does cfg (T.push vs) [] (vs.map fun (v : Nat) => num v)
  copy : ∀ pre x : List Elem, x.length ≤ 4 → Does cfg (T.copy pre.length x.length) (pre ++ x) (x ++ (pre ++ x))
  move : ∀ pre x : List Elem, x.length ≤ 4 → Does cfg (T.move pre.length x.length) (pre ++ x) (x ++ pre)
  toAlt : ∀ (x m a : List Elem) (c : List Bool) (ops : List Op), x.length ≤ 4 → live c = true →
    run cfg (T.toAlt x.length ++ ops) ⟨x ++ m, a, c⟩ = run cfg ops ⟨m, x.reverse ++ a, c⟩
  copyAlt : ∀ (pre x m a : List Elem) (c : List Bool) (ops : List Op), x.length ≤ 4 → live c = true →
    run cfg (T.copyAlt pre.length x.length ++ ops) ⟨m, pre ++ (x.reverse ++ a), c⟩ =
      run cfg ops ⟨x ++ m, pre ++ (x.reverse ++ a), c⟩
  moveAlt : ∀ (pre x m a : List Elem) (c : List Bool) (ops : List Op), x.length ≤ 4 → live c = true →
    run cfg (T.moveAlt pre.length x.length ++ ops) ⟨m, pre ++ (x.reverse ++ a), c⟩ =
      run cfg ops ⟨x ++ m, pre ++ a, c⟩

/-- The stack described by a list of variables. -/
def stackOf (σ : Nat → List Elem) (vs : List SVar) : List Elem := vs.flatMap fun v => σ v.id

/-- The alt stack described by a list of variables. -/
def altOf (σ : Nat → List Elem) (vs : List SVar) : List Elem := vs.flatMap fun v => (σ v.id).reverse

/-- The tracker describes the state reached by its script from `start`; `D` gives the contents of the variables, or
`none` if the script fails. -/
structure TInv (cfg : Cfg) (start : St) (m0 a0 : List Elem) (t : Tracker) (D : Option (Nat → List Elem)) : Prop where
  nodup : ((t.vars ++ t.alt).map SVar.id).Nodup
  lt : ∀ v ∈ t.vars ++ t.alt, v.id < t.next
  small : ∀ v ∈ t.vars ++ t.alt, v.size ≤ 4
  sized : ∀ σ, D = some σ → ∀ v ∈ t.vars ++ t.alt, (σ v.id).length = v.size
  run : run cfg t.script start = D.map fun σ => ⟨stackOf σ t.vars ++ m0, altOf σ t.alt ++ a0, []⟩

end TapStark
