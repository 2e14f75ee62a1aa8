import Verif.Script.Interp

/-
Model of /repo/scripts/src/pseudo.rs: composite opcodes.  Each Rust function returns a `Script`;
the model returns the list of opcodes in that script.
-/

namespace TapStark

/-- `OP_4PICK`, /repo/scripts/src/pseudo.rs:12-20. -/
def op4pick : List Op :=
  [.num 4, .add,
   .dup, .pick, .swap,
   .dup, .pick, .swap,
   .dup, .pick, .swap,
   .sub1, .pick]

/-- `OP_4ROLL`, /repo/scripts/src/pseudo.rs:24-32. -/
def op4roll : List Op :=
  [.num 4, .add,
   .dup, .roll, .swap,
   .dup, .roll, .swap,
   .dup, .roll, .swap,
   .sub1, .roll]

/-- `OP_4DUP`, /repo/scripts/src/pseudo.rs:35-39. -/
def op4dup : List Op := [.over2, .over2]

/-- `OP_4DROP`, /repo/scripts/src/pseudo.rs:42-46. -/
def op4drop : List Op := [.drop2, .drop2]

/-- `OP_4SWAP`, /repo/scripts/src/pseudo.rs:49-54. -/
def op4swap : List Op := [.num 7, .roll, .num 7, .roll, .num 7, .roll, .num 7, .roll]

/-- `OP_4TOALTSTACK`, /repo/scripts/src/pseudo.rs:57-61. -/
def op4toAlt : List Op := [.toAlt, .toAlt, .toAlt, .toAlt]

/-- `OP_4FROMALTSTACK`, /repo/scripts/src/pseudo.rs:64-68. -/
def op4fromAlt : List Op := [.fromAlt, .fromAlt, .fromAlt, .fromAlt]

/-- `OP_2MUL`, /repo/scripts/src/pseudo.rs:75-79. -/
def op2mul : List Op := [.dup, .add]

/-- `OP_4MUL`, /repo/scripts/src/pseudo.rs:82-86. -/
def op4mul : List Op := [.dup, .add, .dup, .add]

/-- `op_2k_mul`, /repo/scripts/src/pseudo.rs:89-95: the `for` loop of the `script!` macro emits the
body `k` times. -/
def op2kmul : Nat → List Op
  | 0 => []
  | k + 1 => op2mul ++ op2kmul k

/-- `OP_16MUL`, /repo/scripts/src/pseudo.rs:98-103. -/
def op16mul : List Op := [.dup, .add, .dup, .add, .dup, .add, .dup, .add]

/-- `OP_256MUL`, /repo/scripts/src/pseudo.rs:106-113. -/
def op256mul : List Op :=
  [.dup, .add, .dup, .add, .dup, .add, .dup, .add,
   .dup, .add, .dup, .add, .dup, .add, .dup, .add]

/-- The body emitted `n` times. -/
def emitN (n : Nat) (body : List Op) : List Op := (List.replicate n body).flatten

/-- `OP_NDUP`, /repo/scripts/src/pseudo.rs:115-146. -/
def opNdup (n : Nat) : List Op :=
  let times3 := if n > 3 then (n - 3) / 3 else 0
  let remaining := if n > 3 then (n - 3) % 3 else 0
  (if n ≥ 1 then [.dup] else []) ++
  (if n ≥ 3 then [.dup2] else if n ≥ 2 then [.dup] else []) ++
  emitN times3 [.dup3] ++
  (if remaining = 2 then [.dup2] else if remaining = 1 then [.dup] else [])

/-- `push_to_stack`, /repo/scripts/src/pseudo.rs:148-154. -/
def pushToStack (element n : Nat) : List Op :=
  if n ≥ 1 then .num element :: opNdup (n - 1) else []

end TapStark
