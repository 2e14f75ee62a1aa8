import Verif.Model.Dsl
import Verif.Model.StarkInst

/-
Model of `compute_quotient_expr`, /repo/uni-stark/src/scripts/bf_unistark.rs:10-99: the check of the quotient value in
the script verifier.  The value field is BabyBear and the challenge field its extension of degree 4.  The counter of
identifiers is passed along; `none` is a panic.  The assertions of `mul_ext`, `sub_ext`, `mul_base` and `sub_base` on
their operands can be left out (`strict = false`): the code is `strict = true`.
-/

namespace TapStark

namespace Dsl

/-- The common form of `add_ext`, `mul_ext` and `sub_ext`, /repo/script_expr/src/alias.rs:299-311, 327-339, 355-367:
`fs` is `F::U32_SIZE` of the left operand, `efs` is `EF::U32_SIZE` of the right one, and both are asserted. -/
def opExt (opc : Opc) (fs efs : Nat) (x y : Expr) (n : Nat) : Option (Expr × Nat) :=
  if fs = 1 ∧ efs = 4 then some (mk opc efs [x, y] n) else none

/-- The common form of `add_base`, `mul_base` and `sub_base`, alias.rs:313-325, 341-353, 369-381. -/
def opBase (opc : Opc) (fs bs : Nat) (x y : Expr) (n : Nat) : Option (Expr × Nat) :=
  if fs = 4 ∧ bs = 1 then some (mk opc fs [x, y] n) else none

/-- `add_ext`. -/
def addExt : Nat → Nat → Expr → Expr → Nat → Option (Expr × Nat) := opExt .add
/-- `mul_ext`. -/
def mulExt : Nat → Nat → Expr → Expr → Nat → Option (Expr × Nat) := opExt .mul
/-- `sub_ext`. -/
def subExt : Nat → Nat → Expr → Expr → Nat → Option (Expr × Nat) := opExt .sub
/-- `mul_base`. -/
def mulBase : Nat → Nat → Expr → Expr → Nat → Option (Expr × Nat) := opBase .mul
/-- `sub_base`. -/
def subBase : Nat → Nat → Expr → Expr → Nat → Option (Expr × Nat) := opBase .sub
/-- `add_base`. -/
def addBase : Nat → Nat → Expr → Expr → Nat → Option (Expr × Nat) := opBase .add

/-- `opExt`, with its assertions (`strict = true`, the code) or without them. -/
def opExtWith (strict : Bool) (opc : Opc) (fs efs : Nat) (x y : Expr) (n : Nat) : Option (Expr × Nat) :=
  if strict then opExt opc fs efs x y n else some (mk opc efs [x, y] n)

/-- `opBase`, with its assertions (`strict = true`, the code) or without them. -/
def opBaseWith (strict : Bool) (opc : Opc) (fs bs : Nat) (x y : Expr) (n : Nat) : Option (Expr × Nat) :=
  if strict then opBase opc fs bs x y n else some (mk opc fs [x, y] n)

/-- `from_table`, alias.rs:263-279. -/
def fromTable (fs : Nat) (vs : List (List Nat)) : Nat → Expr × Nat := mk (.table vs) fs []

/-- `lookup`, alias.rs:249-261. -/
def lookup (fs : Nat) (x : Expr) (index len : Nat) (n : Nat) : Expr × Nat :=
  let (i, n) := constant [index] n
  mk (.lookup fs len) fs [x, i] n

end Dsl

namespace Stark

/-- Assigning a list of inputs, `.iter().map(|v| manager.assign_input_f(*v)).collect_vec()`. -/
def assignAll {F : Type} (B : BfField F) : List F → InputManager → Nat → List Expr × InputManager × Nat
  | [], m, n => ([], m, n)
  | x :: xs, m, n =>
    let (e, m, n) := m.assignInput (B.u32 x) n
    let (es, m, n) := assignAll B xs m n
    (e :: es, m, n)

/-- bf_unistark.rs:25-33. -/
def assignNested {F : Type} (B : BfField F) : List (List F) → InputManager → Nat → List (List Expr) × InputManager × Nat
  | [], m, n => ([], m, n)
  | xs :: rest, m, n =>
    let (es, m, n) := assignAll B xs m n
    let (ess, m, n) := assignNested B rest m n
    (es :: ess, m, n)

/-- bf_unistark.rs:34-37. -/
def assignHints {F : Type} (B : BfField F) : List F → InputManager → Nat → List Expr × InputManager × Nat
  | [], m, n => ([], m, n)
  | x :: xs, m, n =>
    let (e, m, n) := m.assignHintInput (B.u32 x) n
    let (es, m, n) := assignHints B xs m n
    (e :: es, m, n)

/-- `get_table`, /repo/uni-stark/src/scripts/utils.rs:86-95: the powers from `q - 1` down to `-(q - 1)`. -/
def getTable (g : BB) (q : Nat) : Option (List BB) := do
  let inv ← (List.range (q - 1)).mapM fun i => inverse? (g ^ (i + 1))
  some ((List.range q).reverse.map (g ^ ·) ++ inv)

/-- The inner loop of the numerators, bf_unistark.rs:50-62. -/
noncomputable def numeratorLoop (strict : Bool) (table zetaDivA : Expr) (degree q i : Nat) : List Nat → Expr → Nat →
    Option (Expr × Nat)
  | [], acc, n => some (acc, n)
  | j :: js, acc, n =>
    if j = i then numeratorLoop strict table zetaDivA degree q i js acc n
    else do
      let (w, n) := Dsl.lookup bbField.consts.size table (q - 1 - j) (2 * q - 1) n
      let (x, n) ← Dsl.opExtWith strict .mul bbField.consts.size bb4Field.consts.size w zetaDivA n
      let (x, n) := Dsl.expConstant bb4Field.consts.size x degree n
      let (one, n) := Dsl.constant (bb4Field.u32 1) n
      let (x, n) ← Dsl.opExtWith strict .sub bb4Field.consts.size bb4Field.consts.size x one n
      let (acc, n) ← Dsl.opExtWith strict .mul bb4Field.consts.size bb4Field.consts.size acc x n
      numeratorLoop strict table zetaDivA degree q i js acc n

/-- bf_unistark.rs:47-64. -/
noncomputable def numerators (strict : Bool) (table zetaDivA : Expr) (degree q : Nat) : List Nat → Nat → Option (List Expr × Nat)
  | [], n => some ([], n)
  | i :: is, n => do
    let (acc, n) := Dsl.constant (bb4Field.u32 1) n
    let (acc, n) ← numeratorLoop strict table zetaDivA degree q i (List.range q) acc n
    let (rest, n) ← numerators strict table zetaDivA degree q is n
    some (acc :: rest, n)

/-- The inner loop of the denominators, bf_unistark.rs:68-78. -/
def denominatorLoop (strict : Bool) (table : Expr) (degree q i : Nat) : List Nat → Expr → Nat → Option (Expr × Nat)
  | [], acc, n => some (acc, n)
  | j :: js, acc, n =>
    if j = i then denominatorLoop strict table degree q i js acc n
    else do
      let (w, n) := Dsl.lookup bbField.consts.size table (i + q - 1 - j) (2 * q - 1) n
      let (x, n) := Dsl.expConstant bbField.consts.size w degree n
      let (one, n) := Dsl.constant (bbField.u32 1) n
      let (x, n) ← Dsl.opBaseWith strict .sub bbField.consts.size bbField.consts.size x one n
      let (acc, n) ← Dsl.opBaseWith strict .mul bbField.consts.size bbField.consts.size acc x n
      denominatorLoop strict table degree q i js acc n

/-- bf_unistark.rs:66-86: the hint checks. -/
def denominators (strict : Bool) (table : Expr) (degree q : Nat) (hints : List Expr) : List Nat → InputManager → Nat →
    Option (InputManager × Nat)
  | [], m, n => some (m, n)
  | i :: is, m, n => do
    let (acc, n) := Dsl.constant (bbField.u32 1) n
    let (acc, n) ← denominatorLoop strict table degree q i (List.range q) acc n
    let h ← hints[i]?
    let (x, n) := Dsl.mul acc h n
    let (c, n) := Dsl.equalC x (bbField.u32 1) n
    denominators strict table degree q hints is (m.addHintVerify c) n

/-- The inner loop of the quotient, bf_unistark.rs:92-94. -/
noncomputable def chunkLoop (opens : List Expr) : List Nat → Expr → Nat → Option (Expr × Nat)
  | [], acc, n => some (acc, n)
  | j :: js, acc, n => do
    let o ← opens[j]?
    let (x, n) := Dsl.constant (bb4Field.u32 (bb4Deg.monomial j)) n
    let (t, n) := Dsl.mul o x n
    let (acc, n) := Dsl.add acc t n
    chunkLoop opens js acc n

/-- bf_unistark.rs:88-96. -/
noncomputable def quotientLoop (strict : Bool) (opens : List (List Expr)) (hints nums : List Expr) : List Nat → Expr → Nat →
    Option (Expr × Nat)
  | [], acc, n => some (acc, n)
  | i :: is, acc, n => do
    let h ← hints[i]?
    let num ← nums[i]?
    let (z, n) ← Dsl.opExtWith strict .mul bbField.consts.size bb4Field.consts.size h num n
    let (a, n) := Dsl.constant (bb4Field.u32 0) n
    let os ← opens[i]?
    let (a, n) ← chunkLoop os (List.range 4) a n
    let (t, n) := Dsl.mul a z n
    let (acc, n) := Dsl.add acc t n
    quotientLoop strict opens hints nums is acc n

/-- `compute_quotient_expr`, bf_unistark.rs:10-99, with or without the assertions on operands. -/
noncomputable def computeQuotientExprWith (strict : Bool) (zeta : Expr) (degree : Nat) (g : BB) (q : Nat) (opens : List (List BB4))
    (denomInv : List BB) (res : BB4) (m : InputManager) (n : Nat) : Option (InputManager × Nat) := do
  if opens.length ≠ q ∨ denomInv.length ≠ q then none
  else
    let (os, m, n) := assignNested bb4Field opens m n
    let (hs, m, n) := assignHints bbField denomInv m n
    let (a, n) := Dsl.constant (bbField.u32 64944062) n
    let (zetaDivA, n) ← Dsl.opExtWith strict .mul bbField.consts.size bb4Field.consts.size a zeta n
    let vs ← getTable g q
    let (table, n) := Dsl.fromTable bbField.consts.size (vs.map bbField.u32) n
    let (nums, n) ← numerators strict table zetaDivA degree q (List.range q) n
    let (m, n) ← denominators strict table degree q hs (List.range q) m n
    let (acc, n) := Dsl.constant (bb4Field.u32 0) n
    let (acc, n) ← quotientLoop strict os hs nums (List.range q) acc n
    let (c, n) := Dsl.equalC acc (bb4Field.u32 res) n
    some (m.setExec c, n)

/-- `compute_quotient_expr`, bf_unistark.rs:10-99. -/
noncomputable def computeQuotientExpr : Expr → Nat → BB → Nat → List (List BB4) → List BB → BB4 → InputManager → Nat →
    Option (InputManager × Nat) :=
  computeQuotientExprWith true

end Stark

end TapStark
