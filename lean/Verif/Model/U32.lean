import Verif.Model.Pseudo

/-
Model of /repo/scripts/src/u32/*.rs: 32-bit words held as four byte-valued script numbers, least
significant byte on top.  Rust depths are `u32`; the model uses `Nat` (the generators are only
called with depths below a few hundred, so no wrap-around occurs).  A generator whose `assert!`
fails panics; the model returns `none`.
-/

namespace TapStark

/-! ### u32_std.rs -/

/-- `u32_push`, /repo/scripts/src/u32/u32_std.rs:7-14.  `value >> k & 0xff` is `value / 2^k % 256`. -/
def u32Push (value : BitVec 32) : List Op :=
  [.num (value.toNat / 16777216 % 256 : Nat),
   .num (value.toNat / 65536 % 256 : Nat),
   .num (value.toNat / 256 % 256 : Nat),
   .num (value.toNat % 256 : Nat)]

/-- `u32_equalverify`, /repo/scripts/src/u32/u32_std.rs:17-29. -/
def u32Equalverify : List Op :=
  [.num 4, .roll, .equalverify, .num 3, .roll, .equalverify, .rot, .equalverify, .equalverify]

/-- `u32_equal`, /repo/scripts/src/u32/u32_std.rs:31-46. -/
def u32Equal : List Op :=
  [.num 4, .roll, .equal, .toAlt, .num 3, .roll, .equal, .toAlt, .rot, .equal, .toAlt, .equal,
   .fromAlt, .booland, .fromAlt, .booland, .fromAlt, .booland]

/-- `u32_notequal`, /repo/scripts/src/u32/u32_std.rs:49-64. -/
def u32Notequal : List Op :=
  [.num 4, .roll, .numnotequal, .toAlt, .num 3, .roll, .numnotequal, .toAlt,
   .rot, .numnotequal, .toAlt, .numnotequal,
   .fromAlt, .boolor, .fromAlt, .boolor, .fromAlt, .boolor]

/-- `u32_toaltstack`, /repo/scripts/src/u32/u32_std.rs:67-74. -/
def u32ToAlt : List Op := [.toAlt, .toAlt, .toAlt, .toAlt]

/-- `u32_fromaltstack`, /repo/scripts/src/u32/u32_std.rs:77-84. -/
def u32FromAlt : List Op := [.fromAlt, .fromAlt, .fromAlt, .fromAlt]

/-- `u32_dup`, /repo/scripts/src/u32/u32_std.rs:87-89. -/
def u32Dup : List Op := op4dup

/-- `u32_drop`, /repo/scripts/src/u32/u32_std.rs:92-97. -/
def u32Drop : List Op := [.drop2, .drop2]

/-- `u32_roll`, /repo/scripts/src/u32/u32_std.rs:100-108. -/
def u32Roll (n : Nat) : List Op :=
  let n := (n + 1) * 4 - 1
  [.num n, .roll, .num n, .roll, .num n, .roll, .num n, .roll]

/-- `u32_pick`, /repo/scripts/src/u32/u32_std.rs:111-119. -/
def u32Pick (n : Nat) : List Op :=
  let n := (n + 1) * 4 - 1
  [.num n, .pick, .num n, .pick, .num n, .pick, .num n, .pick]

/-- `u32_compress`, /repo/scripts/src/u32/u32_std.rs:122-175. -/
def u32Compress : List Op :=
  [.swap, .rot, .num 3, .roll,
   .dup, .num 127, .greaterthan,
   .opif, .num 128, .sub, .num 1, .opelse, .num 0, .opendif,
   .toAlt] ++
  op256mul ++ [.add] ++ op256mul ++ [.add] ++ op256mul ++ [.add] ++
  [.fromAlt, .opif, .negate, .opendif]

/-! ### u32_zip.rs -/

/-- `u32_zip`, /repo/scripts/src/u32/u32_zip.rs:7-21. -/
def u32Zip (a b : Nat) : List Op :=
  let (a, b) := if a > b then (b, a) else (a, b)
  let a := (a + 1) * 4 - 1
  let b := (b + 1) * 4 - 1
  [.num a, .roll, .num b, .roll,
   .num (a + 1 : Nat), .roll, .num b, .roll,
   .num (a + 2 : Nat), .roll, .num b, .roll,
   .num (a + 3 : Nat), .roll, .num b, .roll]

/-- `_u32_copy_zip` after its assertion, /repo/scripts/src/u32/u32_zip.rs:34-46. -/
def u32CopyZipLt (a b : Nat) : List Op :=
  let a := (a + 1) * 4 - 1
  let b := (b + 1) * 4 - 1
  [.num a, .pick, .num (b + 1 : Nat), .roll,
   .num (a + 1 : Nat), .pick, .num (b + 2 : Nat), .roll,
   .num (a + 2 : Nat), .pick, .num (b + 3 : Nat), .roll,
   .num (a + 3 : Nat), .pick, .num (b + 4 : Nat), .roll]

/-- `_u32_zip_copy` after its assertion, /repo/scripts/src/u32/u32_zip.rs:48-59. -/
def u32ZipCopyLt (a b : Nat) : List Op :=
  let a := (a + 1) * 4 - 1
  let b := (b + 1) * 4 - 1
  [.num a, .roll, .num b, .pick,
   .num (a + 1 : Nat), .roll, .num b, .pick,
   .num (a + 2 : Nat), .roll, .num b, .pick,
   .num (a + 3 : Nat), .roll, .num b, .pick]

/-- `u32_copy_zip`, /repo/scripts/src/u32/u32_zip.rs:26-32; `none` when the callee's
`assert!(a < b)` fails. -/
def u32CopyZip (a b : Nat) : Option (List Op) :=
  if a < b then some (u32CopyZipLt a b)
  else if b < a then some (u32ZipCopyLt b a)
  else none

/-! ### u32_add.rs -/

/-- `u8_add_carry`, /repo/scripts/src/u32/u32_add.rs:4-18. -/
def u8AddCarry : List Op :=
  [.add, .dup, .num 255, .greaterthan, .opif, .num 256, .sub, .num 1, .opelse, .num 0, .opendif]

/-- `u8_add`, /repo/scripts/src/u32/u32_add.rs:20-31. -/
def u8Add : List Op :=
  [.add, .dup, .num 255, .greaterthan, .opif, .num 256, .sub, .opendif]

/-- The part of `u32_add` and `u32_add_drop` after the zip,
/repo/scripts/src/u32/u32_add.rs:40-66 and 76-102 (identical text). -/
def u32AddTail : List Op :=
  u8AddCarry ++ [.swap, .toAlt] ++
  [.add] ++ u8AddCarry ++ [.swap, .toAlt] ++
  [.add] ++ u8AddCarry ++ [.swap, .toAlt] ++
  [.add] ++ u8Add ++
  [.fromAlt, .fromAlt, .fromAlt]

/-- `u32_add`, /repo/scripts/src/u32/u32_add.rs:35-67; `none` when `assert_ne!(a, b)` fails. -/
def u32Add (a b : Nat) : Option (List Op) :=
  if a = b then none else (u32CopyZip a b).map (· ++ u32AddTail)

/-- `u32_add_drop`, /repo/scripts/src/u32/u32_add.rs:71-103; `none` when `assert_ne!` fails. -/
def u32AddDrop (a b : Nat) : Option (List Op) :=
  if a = b then none else some (u32Zip a b ++ u32AddTail)

/-! ### u32_xor.rs -/

/-- `u8_xor`, /repo/scripts/src/u32/u32_xor.rs:11-81. -/
def u8Xor (i : Nat) : List Op :=
  [.dup, .num i, .add, .pick,
   .dup, .dup, .add,
   .rot, .swap, .sub,
   .rot, .dup, .num (i + 1 : Nat), .add, .pick,
   .dup, .dup, .add,
   .rot, .swap, .sub,
   .swap, .num 3, .roll, .add,
   .dup, .num (i + 1 : Nat), .add, .pick, .dup, .add, .sub,
   .swap, .rot, .add,
   .dup, .num i, .add, .pick, .dup, .add, .sub,
   .swap, .dup, .add, .add]

/-- The part of `u32_xor` after the zip, /repo/scripts/src/u32/u32_xor.rs:91-113. -/
def u32XorTail (stackSize : Nat) : List Op :=
  u8Xor (8 + (stackSize - 2) * 4) ++ [.toAlt] ++
  u8Xor (6 + (stackSize - 2) * 4) ++ [.toAlt] ++
  u8Xor (4 + (stackSize - 2) * 4) ++ [.toAlt] ++
  u8Xor (2 + (stackSize - 2) * 4) ++
  [.fromAlt, .fromAlt, .fromAlt]

/-- `u32_xor`, /repo/scripts/src/u32/u32_xor.rs:86-114; `none` when `assert_ne!(a, b)` fails or
`stack_size - 2` underflows. -/
def u32Xor (a b stackSize : Nat) : Option (List Op) :=
  if a = b ∨ stackSize < 2 then none else (u32CopyZip a b).map (· ++ u32XorTail stackSize)

/-- `u8_push_xor_table`, /repo/scripts/src/u32/u32_xor.rs:119-329, opcode by opcode. -/
def u8PushXorTable : List Op :=
  [
    .num 85, .dup, .num 84, .dup, .over2, .over2, .num 81, .dup, .num 80, .dup, .over2, .over2,
    .num 85, .dup, .num 84, .dup, .over2, .over2, .num 81, .dup, .num 80, .dup, .over2, .over2,
    .num 69, .dup, .num 68, .dup, .over2, .over2, .num 65, .dup, .num 64, .dup, .over2, .over2,
    .num 69, .dup, .num 68, .dup, .over2, .over2, .num 65, .dup, .num 64, .dup, .over2, .over2,
    .num 85, .dup, .num 84, .dup, .over2, .over2, .num 81, .dup, .num 80, .dup, .over2, .over2,
    .num 85, .dup, .num 84, .dup, .over2, .over2, .num 81, .dup, .num 80, .dup, .over2, .over2,
    .num 69, .dup, .num 68, .dup, .over2, .over2, .num 65, .dup, .num 64, .dup, .over2, .over2,
    .num 69, .dup, .num 68, .dup, .over2, .over2, .num 65, .dup, .num 64, .dup, .over2, .over2,
    .num 21, .dup, .num 20, .dup, .over2, .over2, .num 17, .dup, .num 16, .dup, .over2, .over2,
    .num 21, .dup, .num 20, .dup, .over2, .over2, .num 17, .dup, .num 16, .dup, .over2, .over2,
    .num 5, .dup, .num 4, .dup, .over2, .over2, .num 1, .dup, .num 0, .dup, .over2, .over2,
    .num 5, .dup, .num 4, .dup, .over2, .over2, .num 1, .dup, .num 0, .dup, .over2, .over2,
    .num 21, .dup, .num 20, .dup, .over2, .over2, .num 17, .dup, .num 16, .dup, .over2, .over2,
    .num 21, .dup, .num 20, .dup, .over2, .over2, .num 17, .dup, .num 16, .dup, .over2, .over2,
    .num 5, .dup, .num 4, .dup, .over2, .over2, .num 1, .dup, .num 0, .dup, .over2, .over2,
    .num 5, .dup, .num 4, .dup, .over2, .over2, .num 1, .dup, .num 0, .dup, .over2, .over2
  ]

/-- `u8_drop_xor_table`, /repo/scripts/src/u32/u32_xor.rs:332-338. -/
def u8DropXorTable : List Op := emitN 128 [.drop2]

/-! ### u32_rrot.rs -/

/-- `u32_rrot16`, /repo/scripts/src/u32/u32_rrot.rs:8-12. -/
def u32Rrot16 : List Op := [.swap2]

/-- `u32_rrot8`, /repo/scripts/src/u32/u32_rrot.rs:15-20. -/
def u32Rrot8 : List Op := [.swap2, .num 3, .roll]

/-- `u8_rrot7`, /repo/scripts/src/u32/u32_rrot.rs:23-43. -/
def u8Rrot7 (i : Nat) : List Op :=
  (match i with
    | 0 => []
    | 1 => [.swap]
    | 2 => [.rot]
    | i => [.num i, .roll]) ++
  [.num 128, .dup2, .greaterthanorequal, .opif, .sub, .num 1, .opelse, .drop, .num 0, .opendif]

/-- `u32_rrot7`, /repo/scripts/src/u32/u32_rrot.rs:46-88. -/
def u32Rrot7 : List Op :=
  u8Rrot7 0 ++
  u8Rrot7 2 ++ [.toAlt, .dup, .add, .add, .fromAlt] ++
  u8Rrot7 3 ++ [.toAlt, .dup, .add, .add, .fromAlt] ++
  u8Rrot7 4 ++ [.toAlt, .dup, .add, .add, .fromAlt] ++
  [.num 4, .roll, .dup, .add, .add, .swap, .swap2, .swap]

/-- `u8_extract_1bit`, /repo/scripts/src/u32/u32_rrot.rs:90-105. -/
def u8Extract1bit : List Op :=
  [.dup, .add, .num 256, .dup2, .greaterthanorequal,
   .opif, .sub, .num 1, .opelse, .drop, .num 0, .opendif]

/-- Iteration `i` of the loop of `u8_extract_hbit`, /repo/scripts/src/u32/u32_rrot.rs:118-134. -/
def u8ExtractStep (x i : Nat) : List Op :=
  [.dup, .num 127, .greaterthan,
   .opif, .num 128, .sub, .fromAlt, .num (x / 2 ^ i : Nat), .add, .toAlt, .opendif,
   .dup, .add]

/-- `u8_extract_hbit`, /repo/scripts/src/u32/u32_rrot.rs:107-138; `none` when its assertion
fails. -/
def u8ExtractHbit (hbit : Nat) : Option (List Op) :=
  if ¬ (hbit < 8 ∧ hbit ≠ 0) then none
  else if hbit = 1 then some u8Extract1bit
  else
    let x := 2 ^ (hbit - 1)
    some ([.num 0, .toAlt] ++ (List.range hbit).flatMap (u8ExtractStep x) ++ [.fromAlt])

/-- `byte_reorder`, /repo/scripts/src/u32/u32_rrot.rs:140-172; `none` when its assertion fails. -/
def byteReorder : Nat → Option (List Op)
  | 0 => some [.swap, .swap2, .swap]
  | 1 => some [.swap, .rot]
  | 2 => some [.swap, .swap2, .swap, .swap2]
  | 3 => some [.swap, .rot, .swap2]
  | _ => none

/-- `specific_optimize`, /repo/scripts/src/u32/u32_rrot.rs:174-185. -/
def specificOptimize : Nat → Option (List Op)
  | 0 => some []
  | 7 => some u32Rrot7
  | 8 => some u32Rrot8
  | 16 => some u32Rrot16
  | 23 => some (u32Rrot16 ++ u32Rrot7)
  | 24 => some [.num 3, .roll]
  | _ => none

/-- `u32_rrot`, /repo/scripts/src/u32/u32_rrot.rs:187-222; `none` when the assertion fails. -/
def u32Rrot (rotNum : Nat) : Option (List Op) :=
  if ¬ rotNum < 32 then none
  else match specificOptimize rotNum with
  | some res => some res
  | none => do
    let remainder := rotNum % 8
    let hbit := 8 - remainder
    let offset := (rotNum - remainder) / 8
    let ex ← u8ExtractHbit hbit
    let re ← byteReorder offset
    some (ex ++ [.rot] ++ ex ++ [.num 4, .roll] ++ ex ++ [.num 6, .roll] ++ ex ++
      [.num 7, .roll, .add, .toAlt, .add, .toAlt, .add, .toAlt, .add, .toAlt,
       .fromAlt, .fromAlt, .fromAlt, .fromAlt] ++ re)

end TapStark
