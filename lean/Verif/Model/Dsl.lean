import Verif.Model.Express
import Verif.Spec.FieldOps
import Verif.Model.StarkInst

/-
Model of the constructors of expressions, /repo/script_expr/src/alias.rs, and of the input manager,
/repo/script_expr/src/input_manager.rs.

Every constructor takes the counter of identifiers and returns the new node with the new counter.
-/

namespace TapStark

/-- What the expression language uses of `BfField`: `U32_SIZE` and the constants of `index_to_rou`, `as_u32_vec`,
and `two_adic_generator`. -/
structure BfField (F : Type) where
  consts : FieldConsts
  u32 : F → List Nat
  gen : Nat → F

/-- `BfField` for `BabyBear`, /repo/basic/src/field/mod.rs: `as_u32_vec` is the canonical number. -/
def bbField : BfField BB := ⟨bbConsts, fun x => [x.val], bbGen⟩

/-- `BfField` for the degree 4 extension: `as_u32_vec` are the canonical coefficients; the two-adic generators up to 27
are those of the base field. -/
noncomputable def bb4Field : BfField Stark.BB4 :=
  ⟨bb4Consts, fun x => (Stark.asBase4 x).map ZMod.val, fun k => algebraMap BB Stark.BB4 (bbGen k)⟩

namespace Dsl

/-- A node with the identifier drawn by `get_opid`, /repo/script_expr/src/alias.rs:24-28 (overflow of the counter is
not modelled).  Node sizes in this file are those passed by the constructors of alias.rs; `var_size()` of an operand is
its `size`, since every constructor used as an operand sets 1 or 4. -/
def mk (opc : Opc) (size : Nat) (args : List Expr) (n : Nat) : Expr × Nat := (.node (n + 1) opc size args, n + 1)

/-- `constant`, `constant_f` (with `as_u32_vec`) and `constant_u32`, alias.rs:403-422. -/
def constant (vs : List Nat) : Nat → Expr × Nat := mk (.constant vs) vs.length []

/-- `+`, alias.rs:650-690; also `add_ext` and `add_base`, lines 299-325, which set the size of the extension
field. -/
def add (x y : Expr) : Nat → Expr × Nat := mk .add (max x.size y.size) [x, y]

/-- `-`, alias.rs:718-737; also `sub_ext` and `sub_base`, lines 355-381. -/
def sub (x y : Expr) : Nat → Expr × Nat := mk .sub (max x.size y.size) [x, y]

/-- `*`, alias.rs:759-778; also `mul_ext` and `mul_base`, lines 327-353. -/
def mul (x y : Expr) : Nat → Expr × Nat := mk .mul (max x.size y.size) [x, y]

/-- Unary `-`, alias.rs:800-815. -/
def neg (x : Expr) : Nat → Expr × Nat := mk .neg x.size [x]

/-- `square`, alias.rs:180-191. -/
def square (x : Expr) : Nat → Expr × Nat := mk .square x.size [x]

/-- `double`, alias.rs:193-204. -/
def double (x : Expr) : Nat → Expr × Nat := mk .double x.size [x]

/-- `x + c`, alias.rs:692-697. -/
def addF (x : Expr) (c : List Nat) (n : Nat) : Expr × Nat :=
  let (c, n) := constant c n
  add x c n

/-- `x - c`, alias.rs:739-744. -/
def subF (x : Expr) (c : List Nat) (n : Nat) : Expr × Nat :=
  let (c, n) := constant c n
  sub x c n

/-- `x * c`, alias.rs:780-785. -/
def mulF (x : Expr) (c : List Nat) (n : Nat) : Expr × Nat :=
  let (c, n) := constant c n
  mul x c n

/-- `exp_constant`, alias.rs:98-110, 206-208; `fs` is `F::U32_SIZE`. -/
def expConstant (fs : Nat) (x : Expr) (power : Nat) : Nat → Expr × Nat := mk (.expConst fs power) x.size [x]

/-- `equal`, alias.rs:72-82, 383-385. -/
def equal (x y : Expr) : Nat → Expr × Nat := mk .equal 1 [x, y]

/-- `equal_for_f` and `equal_for_u32_vec`, alias.rs:387-393. -/
def equalC (x : Expr) (c : List Nat) (n : Nat) : Expr × Nat :=
  let (c, n) := constant c n
  equal x c n

/-- `equal_verify_for_f`, alias.rs:168-178, 399-401. -/
def equalVerifyC (x : Expr) (c : List Nat) (n : Nat) : Expr × Nat :=
  let (c, n) := constant c n
  mk .equalVerify 0 [x, c] n

/-- `extract_bits`, alias.rs:84-96, 461-463. -/
def extractBits (x : Expr) (len : Nat) : Nat → Expr × Nat := mk (.extractHighBits len) x.size [x]

/-- `four_u32_to_u32`, alias.rs:236-247. -/
def fourU32ToU32 (x : Expr) : Nat → Expr × Nat := mk .fourU32ToU32 1 [x]

/-- `reverse_bits_len`, alias.rs:155-166: the node draws its identifier before its operand. -/
def reverseBitsLen (index bits : Nat) (n : Nat) : Expr × Nat :=
  (.node (n + 1) (.reverseBitslen bits) 1 [.node (n + 2) (.constant [index]) 1 []], n + 2)

/-- `index_to_rou_dsl`, alias.rs:141-153. -/
def indexToRou (F : FieldConsts) (x : Expr) (bits : Nat) : Nat → Expr × Nat := mk (.indexToRou F bits) F.size [x]

/-- `sponge_state_init`, alias.rs:281-297. -/
def spongeStateInit : Nat → Expr × Nat := mk (.table (List.replicate 32 [0])) 1 []

/-- `blake3`, alias.rs:424-435; `fs` is `F::U32_SIZE`. -/
def blake3 (fs : Nat) (state : List Expr) : Nat → Expr × Nat := mk .blake3 fs state

/-- `to_sample`, alias.rs:437-447. -/
def toSample (fs : Nat) (x : Expr) : Nat → Expr × Nat := mk .toSample fs [x]

/-- `sample_base`, alias.rs:449-459. -/
def sampleBase (x : Expr) : Nat → Expr × Nat := mk .sampleBase 1 [x]

/-- `sample_ext`, alias.rs:465-475. -/
def sampleExt (x : Expr) : Nat → Expr × Nat := mk .sampleExt 4 [x]

end Dsl

/-! ### Input manager -/

/-- `InputManager`, input_manager.rs:122-132, without its name and without the tracker and the maps that `run`
fills. -/
structure InputManager where
  counter : Nat
  inputVar : List (Variable × List Nat)
  inputHint : List (Variable × List Nat)
  exec : Option Expr
  hint : List Expr

namespace InputManager

/-- `new`, input_manager.rs:135-151. -/
def new : InputManager := ⟨0, [], [], none, []⟩

/-- `assign_input`, input_manager.rs:168-173, 175-183, 195-199; `assign_input_f` with `as_u32_vec`. -/
def assignInput (v : List Nat) (m : InputManager) (n : Nat) : Expr × InputManager × Nat :=
  let var : Variable := ⟨5, m.counter, none⟩
  (.node (n + 1) (.inputMove var) v.length [],
    { m with counter := m.counter + 1, inputVar := m.inputVar ++ [(var, v)] }, n + 1)

/-- `assign_hint_input_f`, input_manager.rs:161-166, 185-193, 205-213. -/
def assignHintInput (v : List Nat) (m : InputManager) (n : Nat) : Expr × InputManager × Nat :=
  let var : Variable := ⟨5, m.counter, none⟩
  (.node (n + 1) (.inputMove var) v.length [],
    { m with counter := m.counter + 1, inputHint := m.inputHint ++ [(var, v)] }, n + 1)

/-- `set_exec_dsl`, input_manager.rs:157-159. -/
def setExec (e : Expr) (m : InputManager) : InputManager := { m with exec := some e }

/-- `add_hint_verify`, input_manager.rs:215-217. -/
def addHintVerify (e : Expr) (m : InputManager) : InputManager := { m with hint := m.hint ++ [e] }

/-- The loop of `embed_hint_verify`, input_manager.rs:219-228. -/
def embed (e : Expr) : List Expr → Nat → Expr × Nat
  | [], n => (e, n)
  | h :: hs, n =>
    let (e, n) := Dsl.equal e h n
    embed e hs n

/-- `embed_hint_verify`: panics when there are hints and no expression. -/
def embedHintVerify (m : InputManager) (n : Nat) : Option (InputManager × Nat) :=
  match m.exec, m.hint with
  | some e, hs =>
    let (e, n) := embed e hs n
    some ({ m with exec := some e }, n)
  | none, [] => some (m, n)
  | none, _ => none

/-- One loop of `simulate_input`, input_manager.rs:231-234, 236-239: the last input is pushed first. -/
def pushInputs (T : TrackerLib) : List (Variable × List Nat) → Tracker × (Variable → Option SVar) →
    Tracker × (Variable → Option SVar)
  | [], s => s
  | (v, x) :: rest, s =>
    let (t, vg) := pushInputs T rest s
    let (sv, t) := t.bignumber T x
    (t, fun w => if w = v then some sv else vg w)

/-- `simulate_input`, input_manager.rs:230-241. -/
def simulateInput (T : TrackerLib) (m : InputManager) : Tracker × (Variable → Option SVar) :=
  pushInputs T m.inputHint (pushInputs T m.inputVar (Tracker.new, fun _ => none))

/-- The script that `run` executes, input_manager.rs:243-262; `none` if the generation panics.  This is
the first call of `run` on a manager; the tracker and the counts it leaves to later calls are in Model/Rerun.lean. -/
def script (L : U31Lib) (T : TrackerLib) (m : InputManager) (e : Expr) : Option (List Op) := do
  let (t, vg) := m.simulateInput T
  let (_, t) ← compile L T vg true e t
  some t.script

/-- `run`, input_manager.rs:243-266: nothing is run without an expression; otherwise the script must succeed, `none`
being a failed assertion or another panic. -/
def run (cfg : Cfg) (L : U31Lib) (T : TrackerLib) (m : InputManager) : Option Unit :=
  match m.exec with
  | none => some ()
  | some e => do
    let p ← m.script L T e
    if accepts cfg p [] then some () else none

end InputManager

end TapStark
