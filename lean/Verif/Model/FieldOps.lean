import Verif.Model.ScriptHelper

/-
Model of the scripts of the field operations of the expression compiler: /repo/script_expr/src/script_gen.rs
(op_add, op_sub, op_mul, op_neg, op_double, op_square, op_expconst, op_num_to_field, op_field_to_num,
op_4_u32_to_u32, op_euqal, op_euqalverify) and `index_to_rou` of script_helper.rs.

The arithmetic scripts come from the external crate rust-bitcoin-u31-or-u30 (re-exported by
/repo/scripts/src/lib.rs:29-35); they are the fields of `U31Lib`.  What they are assumed to do is `U31Lib.Ok`.
-/

namespace TapStark

/-- The scripts imported from rust-bitcoin-u31-or-u30, /repo/scripts/src/lib.rs:29-35, for BabyBear and its
extension of degree four. -/
structure U31Lib where
  add : List Op
  sub : List Op
  mul : List Op
  double : List Op
  neg : List Op
  extAdd : List Op
  extSub : List Op
  extMul : List Op
  extDouble : List Op
  extNeg : List Op
  extAddU31 : List Op
  extSubU31 : List Op
  subU31Ext : List Op
  extMulU31 : List Op
  toExt : List Op
  extEqualverify : List Op

/-- `u31_square`, `u31ext_square`, /repo/scripts/src/lib.rs:40-52, by operand size. -/
def squareScript (L : U31Lib) (size : Nat) : List Op :=
  if size = 1 then .dup :: L.mul else op4dup ++ L.extMul

/-- Script of `op_add`, /repo/script_expr/src/script_gen.rs:524-574, by the sizes of the two operands. -/
def addScript (L : U31Lib) (s0 s1 : Nat) : List Op :=
  if s0 = s1 then (if s0 = 1 then L.add else L.extAdd)
  else if s0 > s1 then L.extAddU31
  else [.num 4, .roll] ++ L.extAddU31

/-- Script of `op_sub`, /repo/script_expr/src/script_gen.rs:472-522. -/
def subScript (L : U31Lib) (s0 s1 : Nat) : List Op :=
  if s0 = s1 then (if s0 = 1 then L.sub else L.extSub)
  else if s0 > s1 then L.extSubU31
  else [.num 4, .roll] ++ L.subU31Ext

/-- Script of `op_mul`, /repo/script_expr/src/script_gen.rs:652-702. -/
def mulScript (L : U31Lib) (s0 s1 : Nat) : List Op :=
  if s0 = s1 then (if s0 = 1 then L.mul else L.extMul)
  else if s0 > s1 then L.extMulU31
  else [.num 4, .roll] ++ L.extMulU31

/-- Script of `op_neg`, /repo/script_expr/src/script_gen.rs:447-470. -/
def negScript (L : U31Lib) (size : Nat) : List Op := if size = 1 then L.neg else L.extNeg

/-- Script of `op_double`, /repo/script_expr/src/script_gen.rs:576-612. -/
def doubleScript (L : U31Lib) (size : Nat) : List Op := if size = 1 then L.double else L.extDouble

/-- `value_exp_n`, /repo/script_expr/src/script_helper.rs:333-351 (`value_square_with_input` is the same text as
`u31_square`); `size` is `F::U32_SIZE`. -/
def valueExpN (L : U31Lib) (size logN : Nat) : List Op := emitN logN (squareScript L size)

/-- `log2_strict_usize` of p3-util: panics unless `n` is a power of two. -/
def log2StrictUsize (n : Nat) : Option Nat := if 2 ^ Nat.log2 n = n then some (Nat.log2 n) else none

/-- Script of `op_expconst`, /repo/script_expr/src/script_gen.rs:369-389. -/
def expConstScript (L : U31Lib) (size power : Nat) : Option (List Op) :=
  (log2StrictUsize power).map (valueExpN L size)

/-- Script of `op_num_to_field`, /repo/script_expr/src/script_gen.rs:183-209: the branch is taken on the size of the
operand. -/
def numToFieldScript (L : U31Lib) (size : Nat) : List Op :=
  if size = 1 then u32ToU31 0x78000001 L.sub else u32ToU31 0x78000001 L.sub ++ L.toExt

/-- Script of `op_4_u32_to_u32`, /repo/script_expr/src/script_gen.rs:246-252. -/
def fourU32ToU32Script : List Op := [.toAlt, .drop, .drop, .drop, .fromAlt]

/-- Script of `op_euqal`, /repo/script_expr/src/script_gen.rs:402-424, by the common size of the operands. -/
def equalScript (L : U31Lib) (size : Nat) : List Op :=
  if size = 1 then [.equal] else L.extEqualverify ++ [.num 1]

/-- Script of `op_euqalverify`, /repo/script_expr/src/script_gen.rs:426-446. -/
def equalVerifyScript (L : U31Lib) (size : Nat) : List Op :=
  if size = 1 then [.equalverify] else L.extEqualverify

/-! ### index_to_rou -/

/-- What `index_to_rou::<F>` uses of the field: `U32_SIZE`, `as_u32_vec` of one and of the generators. -/
structure FieldConsts where
  size : Nat
  one : List Nat
  gens : Nat → List Nat

/-- `push_two_adic_generator_table`, /repo/script_expr/src/script_helper.rs:99-107. -/
def pushGenTable (F : FieldConsts) : List Op :=
  (List.range 28).reverse.flatMap fun i => (F.gens i).reverse.map fun (v : Nat) => Op.num v

/-- `get_generator`, /repo/script_expr/src/script_helper.rs:120-142, including `pop_two_adic_generator_table`
(lines 109-117). -/
def getGenerator (F : FieldConsts) : List Op :=
  [.toAlt] ++ pushGenTable F ++ [.fromAlt] ++
  (if F.size = 1 then [.pick, .toAlt] else op4mul ++ op4pick ++ op4toAlt) ++
  emitN (28 * F.size) [.drop] ++
  (if F.size = 1 then [.fromAlt] else op4fromAlt)

/-- `value_to_generator_bit_altstack`, /repo/script_expr/src/script_helper.rs:272-287. -/
def genBit (i b : Nat) : List Op :=
  [.dup, .num (2 ^ i - 1 : Nat), .greaterthan, .opif, .num (2 ^ i : Nat), .sub, .num (b - i : Nat), .toAlt,
   .opelse, .num 33, .toAlt, .opendif]

/-- The loop `for i in (0..sub_group_bits).rev()`, /repo/script_expr/src/script_helper.rs:297-299. -/
def genBits (b : Nat) : Nat → List Op
  | 0 => []
  | i + 1 => genBit i b ++ genBits b i

/-- One round of the product, /repo/script_expr/src/script_helper.rs:311-328. -/
def rouStep (L : U31Lib) (F : FieldConsts) : List Op :=
  [.fromAlt, .dup, .num 33, .equal, .opif, .drop, .opelse] ++ getGenerator F ++
  (if F.size = 1 then L.mul else L.extMul) ++ [.opendif]

/-- `index_to_rou`, /repo/script_expr/src/script_helper.rs:293-330. -/
def indexToRou (L : U31Lib) (F : FieldConsts) (b : Nat) : Option (List Op) :=
  if 27 < b then none
  else some (genBits b b ++ [.num 0, .equalverify] ++ F.one.reverse.map (fun (v : Nat) => Op.num v) ++
    emitN b (rouStep L F))

/-! ### Scripts for the library, from the text of the repository -/

/-- Scripts for the library written with those of u31/mod.rs and u31_ext/mod.rs; operations whose text is not in the
repository are written here in the obvious way.  Used only to show that the assumptions about the library can be met. -/
def extMulTerm (M i j off : Nat) : List Op :=
  [.num (4 + i + off : Nat), .pick, .num (j + off + 1 : Nat), .pick] ++ u31Mul M

/-- Product of two extension elements, the first operand below the second. -/
def extMulRef (M : Nat) : List Op :=
  let t := extMulTerm M
  let s := u31Add M
  -- c0
  t 1 3 0 ++ t 2 2 1 ++ s ++ t 3 1 1 ++ s ++ [.num 11] ++ u31Mul M ++ t 0 0 1 ++ s ++ [.toAlt] ++
  -- c1
  t 2 3 0 ++ t 3 2 1 ++ s ++ [.num 11] ++ u31Mul M ++ t 0 1 1 ++ s ++ t 1 0 1 ++ s ++ [.toAlt] ++
  -- c2
  t 3 3 0 ++ [.num 11] ++ u31Mul M ++ t 0 2 1 ++ s ++ t 1 1 1 ++ s ++ t 2 0 1 ++ s ++ [.toAlt] ++
  -- c3
  t 0 3 0 ++ t 1 2 1 ++ s ++ t 2 1 1 ++ s ++ t 3 0 1 ++ s ++ [.toAlt] ++
  [.drop2, .drop2, .drop2, .drop2, .fromAlt, .fromAlt, .fromAlt, .fromAlt]

/-- Negation of a base field element. -/
def negRef (M : Nat) : List Op := [.num 0, .swap] ++ u31Sub M

/-- Negation of an extension field element. -/
def extNegRef (M : Nat) : List Op :=
  negRef M ++ [.toAlt] ++ negRef M ++ [.toAlt] ++ negRef M ++ [.toAlt] ++ negRef M ++ [.fromAlt, .fromAlt, .fromAlt]

/-- A library meeting the assumptions. -/
def repoLib (M : Nat) : U31Lib where
  add := u31Add M
  sub := u31Sub M
  mul := u31Mul M
  double := u31Double M
  neg := negRef M
  extAdd := u31extAdd M
  extSub := u31extSub M
  extMul := extMulRef M
  extDouble := u31extDouble M
  extNeg := extNegRef M
  extAddU31 := u31Add M
  extSubU31 := u31Sub M
  subU31Ext := [.swap] ++ u31Sub M ++ [.toAlt] ++ negRef M ++ [.toAlt] ++ negRef M ++ [.toAlt] ++ negRef M ++
    [.fromAlt, .fromAlt, .fromAlt]
  extMulU31 :=
    [.tuck] ++ u31Mul M ++ [.toAlt, .tuck] ++ u31Mul M ++ [.toAlt, .tuck] ++ u31Mul M ++ [.toAlt] ++ u31Mul M ++
    [.fromAlt, .fromAlt, .fromAlt]
  toExt := [.toAlt, .num 0, .num 0, .num 0, .fromAlt]
  extEqualverify := u31extEqualverify

end TapStark
