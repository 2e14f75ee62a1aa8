import Verif.Model.TraceScript
import Verif.Spec.AirProgram

/-
Model of `Air::eval` (p3-air) with the builders of the repository, for AIRs that use a value several times: `clone` of a
`Dsl` (/repo/script_expr/src/alias.rs:53-57) copies a pointer, so the script builder gets shared nodes.  The provided
methods of `AirBuilder` (p3-air): `assert_one(x)` is `assert_zero(x - one)`, `assert_eq(x, y)` is `assert_zero(x - y)`,
`assert_bool(x)` is `assert_zero(x * (x - one))`; `when(c)` gives a builder whose `assert_zero(x)` is `assert_zero(c * x)`
of the enclosing one.  `when_ne(x, y)` is `when(x - y)`; `when_first_row` and the like are `when` of a flag.
-/

namespace TapStark.Stark

/-- What `eval` uses of a builder: `main`, `public_values`, the flags, and the operators of `Expr`.  The state is what
the operators change outside of their result: the counter of identifiers of `get_opid`. -/
structure Builder (K V σ : Type) where
  loc : Nat → σ → Option (V × σ)
  nxt : Nat → σ → Option (V × σ)
  pub : Nat → σ → Option (V × σ)
  isFirstRow : V
  isLastRow : V
  isTransition : V
  const : K → σ → V × σ
  add : V → V → σ → V × σ
  sub : V → V → σ → V × σ
  neg : V → σ → V × σ
  mul : V → V → σ → V × σ

namespace Builder

variable {K V σ : Type}

/-- One value; a position that does not exist is a program that does not compile. -/
def step (B : Builder K V σ) (vals : List V) : AStep K → σ → Option (V × σ)
  | .loc c, s => B.loc c s
  | .nxt c, s => B.nxt c s
  | .pub i, s => B.pub i s
  | .isFirstRow, s => some (B.isFirstRow, s)
  | .isLastRow, s => some (B.isLastRow, s)
  | .isTransition, s => some (B.isTransition, s)
  | .const c, s => some (B.const c s)
  | .add i j, s => do some (B.add (← vals[i]?) (← vals[j]?) s)
  | .sub i j, s => do some (B.sub (← vals[i]?) (← vals[j]?) s)
  | .neg i, s => do some (B.neg (← vals[i]?) s)
  | .mul i j, s => do some (B.mul (← vals[i]?) (← vals[j]?) s)

/-- The argument of `assert_zero` that the other assertions are defined by (p3-air `AirBuilder`). -/
def check [One K] (B : Builder K V σ) (vals : List V) : ACheck → σ → Option (V × σ)
  | .zero i, s => do some (← vals[i]?, s)
  | .one i, s => do
    let x ← vals[i]?
    let (o, s) := B.const 1 s
    some (B.sub x o s)
  | .eq i j, s => do some (B.sub (← vals[i]?) (← vals[j]?) s)
  | .bool i, s => do
    let x ← vals[i]?
    let (o, s) := B.const 1 s
    let (y, s) := B.sub x o s
    some (B.mul x y s)

/-- `FilteredAirBuilder::assert_zero` (p3-air) for nested filters: the innermost condition is multiplied first. -/
def filter (B : Builder K V σ) : List V → V → σ → V × σ
  | [], x, s => (x, s)
  | c :: cs, x, s =>
    let (y, s) := filter B cs x s
    B.mul c y s

/-- `eval`: the arguments of `assert_zero` in order. -/
def eval [One K] (B : Builder K V σ) : List (ACall K) → List V → σ → Option (List V × σ)
  | [], _, s => some ([], s)
  | .value st :: rest, vals, s => do
    let (x, s) ← B.step vals st s
    eval B rest (vals ++ [x]) s
  | .check conds c :: rest, vals, s => do
    let cs ← conds.mapM fun i => vals[i]?
    let (x, s) ← B.check vals c s
    let (x, s) := B.filter cs x s
    let (xs, s) ← eval B rest vals s
    some (x :: xs, s)

end Builder

variable {K : Type}

/-- The expressions as trees, every use of a value unfolded. -/
def treeBuilder : Builder K (AExpr K) Unit where
  loc c s := some (.loc c, s)
  nxt c s := some (.nxt c, s)
  pub i s := some (.pub i, s)
  isFirstRow := .isFirstRow
  isLastRow := .isLastRow
  isTransition := .isTransition
  const c s := (.const c, s)
  add x y s := (.add x y, s)
  sub x y s := (.sub x y, s)
  neg x s := (.neg x, s)
  mul x y s := (.mul x y, s)

/-- The AIR as a list of trees. -/
def AirProg.air [One K] (p : AirProg K) : Option (Air K) := do
  let (xs, _) ← treeBuilder.eval p.calls [] ()
  some ⟨p.width, xs.map .zero⟩

/-- The folders and the debug builder, /repo/uni-stark/src/folder.rs:12-114 and check_constraints.rs:55-108: values in
a ring. -/
def valueBuilder {R : Type} [Ring R] (lift : K → R) (w : Window R) : Builder K R Unit where
  loc c s := (w.loc[c]?).map (·, s)
  nxt c s := (w.nxt[c]?).map (·, s)
  pub i s := (w.pub[i]?).map (·, s)
  isFirstRow := w.isFirstRow
  isLastRow := w.isLastRow
  isTransition := w.isTransition
  const c s := (lift c, s)
  add x y s := (x + y, s)
  sub x y s := (x - y, s)
  neg x s := (-x, s)
  mul x y s := (x * y, s)

/-- `SymbolicAirBuilder`, /repo/uni-stark/src/symbolic_builder.rs:66-148. -/
def symBuilder (width numPublic : Nat) : Builder K (SymExpr K) Unit where
  loc c s := if c < width then some (.var (.main 0) c, s) else none
  nxt c s := if c < width then some (.var (.main 1) c, s) else none
  pub i s := if i < numPublic then some (.var .publicValue i, s) else none
  isFirstRow := .isFirstRow
  isLastRow := .isLastRow
  isTransition := .isTransition
  const c s := (.constant c, s)
  add x y s := (.mkAdd x y, s)
  sub x y s := (.mkSub x y, s)
  neg x s := (.mkNeg x, s)
  mul x y s := (.mkMul x y, s)

/-- `ScriptConstraintBuilder`, /repo/script_expr/src/script_builder.rs:154-199. -/
noncomputable def scriptBuilder (width numPublic : Nat) (sels : SelectorsExpr) : Builder BB Expr Nat where
  loc c n := if c < width then varExpr (mainVar 0 c) n else none
  nxt c n := if c < width then varExpr (mainVar 1 c) n else none
  pub i n := if i < numPublic then varExpr (pubVar i) n else none
  isFirstRow := sels.isFirstRow
  isLastRow := sels.isLastRow
  isTransition := sels.isTransition
  const c := Dsl.constant (bb4Field.u32 (algebraMap BB BB4 c))
  add := Dsl.add
  sub := Dsl.sub
  neg := Dsl.neg
  mul := Dsl.mul

/-- `verify` with the folder of the verifier: the accumulator after `eval` (folder.rs:96-100). -/
def AirProg.verifierFold {F : Type} [Field K] [Field F] [Algebra K F] (p : AirProg K) (alpha : F) (w : Window F) :
    Option F := do
  let (xs, _) ← (valueBuilder (algebraMap K F) w).eval p.calls [] ()
  some (xs.foldl (fun acc x => acc * alpha + x) 0)

/-- The folder of the prover (folder.rs:56-60). -/
def AirProg.proverFold {F : Type} [Field K] [Field F] [Algebra K F] (p : AirProg K) (alpha : F) (w : Window K) :
    Option F := do
  let (xs, _) ← (valueBuilder id w).eval p.calls [] ()
  some (xs.foldl (fun acc x => acc * alpha + algebraMap K F x) 0)

/-- `get_symbolic_constraints` (symbolic_builder.rs:52-64). -/
def AirProg.symbolicConstraints [One K] (p : AirProg K) (numPublic : Nat) : Option (List (SymExpr K)) := do
  let (xs, _) ← (symBuilder p.width numPublic).eval p.calls [] ()
  some xs

/-- `traceScript` for an AIR written as a program, /repo/uni-stark/src/script_verifier.rs:273-297. -/
noncomputable def AirProg.traceScript (L : U31Lib) (T : TrackerLib) (D : Nat → List Op) (p : AirProg BB) (zeta alpha : BB4)
    (logN : Nat) (loc nxt : List BB4) (pub : List BB) (claimed : BB4) (n : Nat) : Option (List Op) := do
  let (sels, n) ← selectorsAtPointExpr 1 zeta logN n
  let (alpha, n) := Dsl.constant (bb4Field.u32 alpha) n
  if nxt.length < loc.length then none
  else
    let (cs, n) ← (scriptBuilder loc.length pub.length sels).eval p.calls [] n
    foldScript L T D (traceVars loc nxt pub) alpha cs claimed n

end TapStark.Stark
