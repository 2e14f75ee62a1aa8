import Verif.Model.VarOps
import Verif.Model.Stark

/-
Model of the last part of `generate_script_verifier`, /repo/uni-stark/src/script_verifier.rs:275-306: the script that
recomputes the folded constraints.  It uses `ScriptConstraintBuilder`, /repo/script_expr/src/script_builder.rs, and
`selectors_at_point_expr`, /repo/script_expr/src/lagrange.rs.
-/

namespace TapStark.Stark

/-! ### Selectors -/

/-- `LagrangeSelectorsExpr`, /repo/script_expr/src/lagrange.rs:7-12. -/
structure SelectorsExpr where
  isFirstRow : Expr
  isLastRow : Expr
  isTransition : Expr
  zH : Expr

/-- The unshifted point, lagrange.rs:22-29; line 23 makes a constant that is not used. -/
noncomputable def unshiftedExpr (shift : BB) (point : BB4) (n : Nat) : Expr × Nat :=
  let (_, n) := Dsl.constant (bb4Field.u32 0) n
  if shift = 1 then Dsl.constant (bb4Field.u32 (point * algebraMap BB BB4 shift⁻¹)) n
  else
    let (p, n) := Dsl.constant (bb4Field.u32 point) n
    let (s, n) := Dsl.constant (bbField.u32 shift⁻¹) n
    Dsl.mk .mul 4 [p, s] n

/-- `selectors_at_point_expr`, lagrange.rs:14-40.  `none` is a panic: the inverse of 0, or a generator above the
two-adicity.  The exponent of line 31 is `2 ^ log_n as u32`, which in Rust is a bitwise exclusive or. -/
noncomputable def selectorsAtPointExpr (shift : BB) (point : BB4) (logN n : Nat) : Option (SelectorsExpr × Nat) := do
  if shift = 0 ∨ 27 < logN then none
  else
    let unshifted := point * algebraMap BB BB4 shift⁻¹
    let (u, n) := unshiftedExpr shift point n
    let zH := unshifted ^ 2 ^ logN - 1
    let (z, n) := Dsl.expConstant 4 u (2 ^^^ logN) n
    let first ← inverse? (unshifted - 1)
    let (f, n) := Dsl.constant (bb4Field.u32 (zH * first)) n
    let last ← inverse? (unshifted - algebraMap BB BB4 (bbGen logN)⁻¹)
    let (l, n) := Dsl.constant (bb4Field.u32 (zH * last)) n
    let (g, n) := Dsl.constant (bbField.u32 (bbGen logN)⁻¹) n
    let (t, n) := Dsl.mk .sub 4 [u, g] n
    some (⟨f, l, t, z⟩, n)

/-! ### The builder -/

/-- The variable of a trace column, script_builder.rs:53-65: row 0 is the local row, row 1 the next one. -/
def mainVar (row column : Nat) : Variable := ⟨row, column, some 4⟩

/-- The variable of a public value, script_builder.rs:67-70; the row is `u32::MAX`. -/
def pubVar (index : Nat) : Variable := ⟨4294967295, index, none⟩

/-- `From<ValueVariable>` and `From<Variable>`, /repo/script_expr/src/variable.rs:35-45, 222-235.  For a column the
assertion on the size is that of `ValueVariable::new`, made for all columns when the builder is made. -/
noncomputable def varExpr (v : Variable) (n : Nat) : Option (Expr × Nat) := v.toDsl bb4Field n

theorem varExpr_main (row column n : Nat) :
    varExpr (mainVar row column) n = some (Dsl.mk (.inputCopy (mainVar row column)) 4 [] n) := rfl

theorem varExpr_pub (index n : Nat) :
    varExpr (pubVar index) n = some (Dsl.mk (.inputCopy (pubVar index)) 4 [] n) := rfl

/-- An expression of the AIR in the values of `ScriptConstraintBuilder`, script_builder.rs:154-199, with the operators
of /repo/script_expr/src/alias.rs:650-815 and variable.rs; a column or public value that does not exist panics.
`AExpr` is a tree: an expression that the AIR uses several times is built several times here. -/
noncomputable def AExpr.script (width numPublic : Nat) (sels : SelectorsExpr) : AExpr BB → Nat → Option (Expr × Nat)
  | .loc c, n => if c < width then varExpr (mainVar 0 c) n else none
  | .nxt c, n => if c < width then varExpr (mainVar 1 c) n else none
  | .pub i, n => if i < numPublic then varExpr (pubVar i) n else none
  | .isFirstRow, n => some (sels.isFirstRow, n)
  | .isLastRow, n => some (sels.isLastRow, n)
  | .isTransition, n => some (sels.isTransition, n)
  | .const c, n => some (Dsl.constant (bb4Field.u32 (algebraMap BB BB4 c)) n)
  | .add x y, n => do
    let (x, n) ← x.script width numPublic sels n
    let (y, n) ← y.script width numPublic sels n
    some (Dsl.add x y n)
  | .sub x y, n => do
    let (x, n) ← x.script width numPublic sels n
    let (y, n) ← y.script width numPublic sels n
    some (Dsl.sub x y n)
  | .neg x, n => do
    let (x, n) ← x.script width numPublic sels n
    some (Dsl.neg x n)
  | .mul x y, n => do
    let (x, n) ← x.script width numPublic sels n
    let (y, n) ← y.script width numPublic sels n
    some (Dsl.mul x y n)

/-- `air.eval` with the builder: `assert_zero` appends to `constraints`, script_builder.rs:185-188. -/
noncomputable def constraintExprs (width numPublic : Nat) (sels : SelectorsExpr) :
    List (Assertion BB) → Nat → Option (List Expr × Nat)
  | [], n => some ([], n)
  | a :: rest, n => do
    let (c, n) ← a.expr.script width numPublic sels n
    let (cs, n) ← constraintExprs width numPublic sels rest n
    some (c :: cs, n)

/-- The loop of `get_accmulator_expr`, script_builder.rs:86-88. -/
def accumulatorLoop (alpha : Expr) : List Expr → Expr → Nat → Expr × Nat
  | [], acc, n => (acc, n)
  | c :: cs, acc, n =>
    let (p, n) := Dsl.mul acc alpha n
    let (acc, n) := Dsl.add p c n
    accumulatorLoop alpha cs acc n

/-- `get_accmulator_expr`, script_builder.rs:84-90: without constraints the index panics. -/
def accumulatorExpr (alpha : Expr) : List Expr → Nat → Option (Expr × Nat)
  | [], _ => none
  | c :: cs, n => some (accumulatorLoop alpha cs c n)

/-! ### The variables on the stack -/

/-- The public values and the two rows with their words, in the order of `set_variable_values`,
script_builder.rs:92-125: columns of the next row beyond the width of the local row are not there. -/
noncomputable def traceVars (loc nxt : List BB4) (pub : List BB) : List (Variable × List Nat) :=
  (pub.zipIdx.map fun p => (pubVar p.2, bb4Field.u32 ((p.1.val : ℕ) : BB4))) ++
    ((loc.zipIdx.map fun p => (mainVar 0 p.2, bb4Field.u32 p.1)) ++
      ((nxt.take loc.length).zipIdx.map fun p => (mainVar 1 p.2, bb4Field.u32 p.1)))

/-- `set_variable_values`, script_builder.rs:92-125: each value is pushed with the first word on top and becomes a
variable (`StackTracker::var`). -/
def setVariables : List (Variable × List Nat) → Tracker × (Variable → Option SVar) →
    Tracker × (Variable → Option SVar)
  | [], s => s
  | (v, x) :: rest, (t, vg) =>
    setVariables rest
      (⟨⟨t.next, x.length⟩ :: t.vars, t.alt, t.next + 1, t.script ++ x.reverse.map fun (w : Nat) => Op.num w⟩,
        fun u => if u = v then some ⟨t.next, x.length⟩ else vg u)

/-- `drop_variable_values`, script_builder.rs:141-153, on the variables in the order of dropping.  `StackTracker::drop`
of the external crate is taken to panic unless the variable is on top, and to emit `D` of its size. -/
def dropVariables (D : Nat → List Op) (vg : Variable → Option SVar) : List Variable → Tracker → Option Tracker
  | [], t => some t
  | v :: rest, t => do
    let sv ← vg v
    match t.vars with
    | [] => none
    | w :: vars =>
      if w = sv then dropVariables D vg rest ⟨vars, t.alt, t.next, t.script ++ D sv.size⟩ else none

/-! ### The script -/

/-- The script for given constraint expressions, /repo/uni-stark/src/script_verifier.rs:286-297: `claimed` is the value
that the accumulator is compared with. -/
noncomputable def foldScript (L : U31Lib) (T : TrackerLib) (D : Nat → List Op) (vars : List (Variable × List Nat))
    (alpha : Expr) (cs : List Expr) (claimed : BB4) (n : Nat) : Option (List Op) := do
  let (t, vg) := setVariables vars (.new, fun _ => none)
  let (acc, n) ← accumulatorExpr alpha cs n
  let (e, _) := Dsl.equalVerifyC acc (bb4Field.u32 claimed) n
  let (_, t) ← compile L T vg true e t
  let t ← dropVariables D vg (vars.reverse.map Prod.fst) t
  some (t.script ++ [.num 1])

/-- The script of script_verifier.rs:273-297; `n` is the counter of identifiers.  A width of zero, for which the matrix
has no rows, is not treated apart. -/
noncomputable def traceScript (L : U31Lib) (T : TrackerLib) (D : Nat → List Op) (air : Air BB) (zeta alpha : BB4)
    (logN : Nat) (loc nxt : List BB4) (pub : List BB) (claimed : BB4) (n : Nat) : Option (List Op) := do
  let (sels, n) ← selectorsAtPointExpr 1 zeta logN n
  let (alpha, n) := Dsl.constant (bb4Field.u32 alpha) n
  if nxt.length < loc.length then none
  else
    let (cs, n) ← constraintExprs loc.length pub.length sels air.asserts n
    foldScript L T D (traceVars loc nxt pub) alpha cs claimed n

end TapStark.Stark
