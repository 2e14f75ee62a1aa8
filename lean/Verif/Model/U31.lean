import Verif.Model.Pseudo

/-
Model of /repo/scripts/src/u31/mod.rs, /repo/scripts/src/u31_ext/mod.rs and the functions defined in
`u31_lib` of /repo/scripts/src/lib.rs.

The directories u31/ and u31_ext/ are not compiled (lib.rs has no `mod u31`, and files they name are
absent); the code in use imports functions of the same names from the external crate
rust-bitcoin-u31-or-u30.  They are modelled from the text in /repo.  `M` is `U31Config::MOD`.
-/

namespace TapStark

/-! ### u31/mod.rs -/

/-- `u31_adjust`, /repo/scripts/src/u31/mod.rs:17-23. -/
def u31Adjust (M : Nat) : List Op :=
  [.dup, .num 0, .lessthan, .opif, .num M, .add, .opendif]

/-- `u31_add`, /repo/scripts/src/u31/mod.rs:25-31. -/
def u31Add (M : Nat) : List Op := [.num M, .sub, .add] ++ u31Adjust M

/-- `u31_double`, /repo/scripts/src/u31/mod.rs:33-38. -/
def u31Double (M : Nat) : List Op := .dup :: u31Add M

/-- `u31_sub`, /repo/scripts/src/u31/mod.rs:40-45. -/
def u31Sub (M : Nat) : List Op := .sub :: u31Adjust M

/-- One round of `u31_to_bits`, /repo/scripts/src/u31/mod.rs:56-64, with `a = 1 << k`. -/
def u31BitStep (k : Nat) : List Op :=
  [.dup, .num (2 ^ k - 1 : Nat), .greaterthan, .swap, .over, .opif, .num (2 ^ k : Nat), .sub, .opendif]

/-- The rounds of `u31_to_bits` for `k, k-1, ..., 1`. -/
def u31BitSteps : Nat → List Op
  | 0 => []
  | k + 1 => u31BitStep (k + 1) ++ u31BitSteps k

/-- `u31_to_bits`, /repo/scripts/src/u31/mod.rs:53-67: `i` runs from 0 to 29 and `k = 30 - i`. -/
def u31ToBits : List Op := u31BitSteps 30

/-- Reading a two-bit digit and adding that multiple, /repo/scripts/src/u31/mod.rs:89-93 and 97-101. -/
def u31MulDigit (M : Nat) : List Op :=
  [.fromAlt, .fromAlt, .swap, .dup, .add, .add, .num 4, .swap, .sub, .pick] ++ u31Add M

/-- `u31_mul`, /repo/scripts/src/u31/mod.rs:69-107. -/
def u31Mul (M : Nat) : List Op :=
  u31ToBits ++ emitN 31 [.toAlt] ++
  [.num 0, .swap, .dup] ++ u31Double M ++ [.dup2] ++ u31Add M ++
  [.num 0, .fromAlt, .opif, .num 3, .pick] ++ u31Add M ++ [.opendif] ++
  u31Double M ++ u31Double M ++
  emitN 14 (u31MulDigit M ++ u31Double M ++ u31Double M) ++
  u31MulDigit M ++
  [.toAlt, .drop2, .drop2, .fromAlt]

/-- `convert_digits_to_u32`, /repo/scripts/src/u31/mod.rs:109-129.  `lshift` stands for OP_LSHIFT,
which is not an opcode of the interpreter: Bitcoin disabled it (and reserves its number in
tapscript). -/
def convertDigitsToU32 (lshift : List Op) (bits num : Nat) : List Op :=
  .toAlt :: emitN (num - 1) ([.num bits, .swap] ++ lshift ++ [.fromAlt, .add, .toAlt])

/-! ### u31_ext/mod.rs, with `DEGREE = 4` -/

/-- `u31ext_add`, /repo/scripts/src/u31_ext/mod.rs:29-41. -/
def u31extAdd (M : Nat) : List Op :=
  [.num 4, .roll] ++ u31Add M ++ [.toAlt] ++
  [.num 3, .roll] ++ u31Add M ++ [.toAlt] ++
  [.num 2, .roll] ++ u31Add M ++ [.toAlt] ++
  u31Add M ++ [.fromAlt, .fromAlt, .fromAlt]

/-- `u31ext_equalverify`, /repo/scripts/src/u31_ext/mod.rs:43-53. -/
def u31extEqualverify : List Op :=
  [.num 4, .roll, .equalverify, .num 3, .roll, .equalverify, .num 2, .roll, .equalverify, .equalverify]

/-- `u31ext_sub`, /repo/scripts/src/u31_ext/mod.rs:55-67.  The last coefficient is not swapped: the
operands are already in order there. -/
def u31extSub (M : Nat) : List Op :=
  [.num 4, .roll, .swap] ++ u31Sub M ++ [.toAlt] ++
  [.num 3, .roll, .swap] ++ u31Sub M ++ [.toAlt] ++
  [.num 2, .roll, .swap] ++ u31Sub M ++ [.toAlt] ++
  u31Sub M ++ [.fromAlt, .fromAlt, .fromAlt]

/-- `u31ext_double`, /repo/scripts/src/u31_ext/mod.rs:69-79. -/
def u31extDouble (M : Nat) : List Op :=
  u31Double M ++ [.toAlt] ++ u31Double M ++ [.toAlt] ++ u31Double M ++ [.toAlt] ++
  u31Double M ++ [.fromAlt, .fromAlt, .fromAlt]

end TapStark
