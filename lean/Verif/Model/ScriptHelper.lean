import Verif.Model.U31

/-
Model of the bit scripts of /repo/script_expr/src/script_helper.rs, of `u31_lib::u32_to_u31`, of the table
look-up of /repo/script_expr/src/script_gen.rs and of /repo/script_expr/src/value_manager.rs.

A generator that panics is `none`; `bits - 1` underflows for `bits = 0` (debug build).
-/

namespace TapStark

/-! ### script_helper.rs -/

/-- One doubling and addition, /repo/script_expr/src/script_helper.rs:14-17. -/
def compressStep : List Op := [.dup, .add, .add]

/-- `compress_bits`, /repo/script_expr/src/script_helper.rs:11-20. -/
def compressBits (bits : Nat) : Option (List Op) :=
  if bits = 0 ∨ 31 < bits then none else some (emitN (bits - 1) compressStep)

/-- `compress_custom_bits`, /repo/script_expr/src/script_helper.rs:24-39. -/
def compressCustomBits (inBits outBits : Nat) : Option (List Op) :=
  if outBits = 0 ∨ 31 < outBits ∨ inBits < outBits then none
  else some (emitN (outBits - 1) compressStep ++ .toAlt :: (emitN (inBits - outBits) [.drop] ++ [.fromAlt]))

/-- `decompress`, /repo/script_expr/src/script_helper.rs:42-48. -/
def decompressNum (n bits : Nat) : List Nat := (List.range bits).map fun k => (n >>> k) &&& 1

/-- The look-ups `{i*2} OP_PICK` for `i` below `bits`, /repo/script_expr/src/script_helper.rs:53-55 and 87-89. -/
def pickReverse (bits : Nat) : List Op := (List.range bits).flatMap fun i => [.num (i * 2 : Nat), .pick]

/-- `reverse_bits_len_script`, /repo/script_expr/src/script_helper.rs:51-65. -/
def reverseBitsLenScript (bits : Nat) : Option (List Op) := do
  let c ← compressBits bits
  some (pickReverse bits ++ c ++ [.toAlt] ++ c ++ [.equalverify, .fromAlt])

/-- `reverse_bits_len_script_with_input`, /repo/script_expr/src/script_helper.rs:71-78. -/
def reverseBitsLenWithInput (index bits : Nat) : Option (List Op) := do
  let r ← reverseBitsLenScript bits
  some ((decompressNum index bits).map (fun (b : Nat) => Op.num b) ++ r)

/-- `value_bit_to_altstack`, /repo/script_expr/src/script_helper.rs:215-232. -/
def valueBit (k : Nat) : List Op :=
  [.dup, .num (2 ^ k - 1 : Nat), .greaterthan, .opif, .num (2 ^ k : Nat), .sub, .num 1, .toAlt,
   .opelse, .num 0, .toAlt, .opendif]

/-- The loop `for i in (0..n).rev()` over `value_bit_to_altstack`,
/repo/script_expr/src/script_helper.rs:153-155. -/
def valueBits : Nat → List Op
  | 0 => []
  | k + 1 => valueBit k ++ valueBits k

/-- `value_to_bits_format`, /repo/script_expr/src/script_helper.rs:151-161.  Bit 31 is refused: `1 << 31` is an
`i32` and subtracting 1 overflows in a debug build. -/
def valueToBits (n : Nat) : Option (List Op) :=
  if 31 < n then none else some (valueBits n ++ [.drop] ++ emitN n [.fromAlt])

/-- `value_32_bits_to_altstack`, /repo/script_expr/src/script_helper.rs:192-212. -/
def value32Bit : List Op :=
  [.dup, .num 0, .lessthan, .opif, .num (-0x7fffffff), .sub, .num 1, .add, .num 1, .toAlt,
   .opelse, .num 0, .toAlt, .opendif]

/-- `value_to_32_bits_format(32)`, /repo/script_expr/src/script_helper.rs:170-183, the only use
(script_gen.rs:275). -/
def valueTo32Bits : List Op := value32Bit ++ valueBits 31 ++ [.drop] ++ emitN 32 [.fromAlt]

/-- `index_to_reverse_index`, /repo/script_expr/src/script_helper.rs:84-97. -/
def indexToReverseIndex (bits : Nat) : Option (List Op) := do
  let v ← valueToBits bits
  let c ← compressBits bits
  some (v ++ pickReverse bits ++ c ++ [.toAlt] ++ emitN bits [.drop] ++ [.fromAlt])

/-- The script of `op_extract_high_bits`, /repo/script_expr/src/script_gen.rs:274-277. -/
def extractHighBits (len : Nat) : Option (List Op) := do
  let c ← compressCustomBits 32 len
  some (valueTo32Bits ++ c)

/-- `u32_to_u31`, /repo/scripts/src/lib.rs:58-71, with the subtraction script of the field library. -/
def u32ToU31 (M : Nat) (u31Sub : List Op) : List Op :=
  [.dup, .num 0, .lessthan, .opif, .abs, .num M] ++ u31Sub ++
  [.num (0x80000000 - 0x78000001 : Nat), .add, .opendif, .num M] ++ u31Sub

/-! ### Table look-up -/

/-- The pushes of `op_table`, /repo/script_expr/src/script_gen.rs:314-327, for one-element entries: the last entry
first, so that entry 0 is on top. -/
def opTable (table : List Nat) : List Op := table.reverse.map fun (v : Nat) => Op.num v

/-- `op_lookup`, /repo/script_expr/src/script_gen.rs:286-312, for the base field: pick, drop the table. -/
def opLookup (len : Nat) : List Op := [.pick, .toAlt] ++ emitN len [.drop] ++ [.fromAlt]

/-! ### value_manager.rs -/

/-- `ValueCounter`, /repo/script_expr/src/value_manager.rs:3-6. -/
structure ValueCounter where
  num : Nat
  register : List (Nat × Bool)

namespace ValueCounter

/-- `new`, /repo/script_expr/src/value_manager.rs:9-14. -/
def new : ValueCounter := ⟨0, []⟩

/-- `get_value_bitcomm`, /repo/script_expr/src/value_manager.rs:22-24. -/
def get (c : ValueCounter) (v : Nat) : Option Bool := (c.register.find? (·.1 == v)).map (·.2)

/-- `set_value_bitcomm`, /repo/script_expr/src/value_manager.rs:16-20: panics when the counter overflows (debug
build) or the value is already present. -/
def set (c : ValueCounter) (v : Nat) : Option ValueCounter :=
  if 2 ^ 32 ≤ c.num + 1 then none
  else if (c.get v).isSome then none
  else some ⟨c.num + 1, (v, true) :: c.register⟩

/-- `get_or_set`, /repo/script_expr/src/value_manager.rs:26-34. -/
def getOrSet (c : ValueCounter) (v : Nat) : Option (Bool × ValueCounter) :=
  match c.get v with
  | some b => some (b, c)
  | none => do
    let c ← c.set v
    some (true, c)

/-- A sequence of calls. -/
def calls (c : ValueCounter) : List Nat → Option (List Bool × ValueCounter)
  | [] => some ([], c)
  | v :: vs => do
    let (b, c) ← c.getOrSet v
    let (bs, c) ← c.calls vs
    some (b :: bs, c)

end ValueCounter

end TapStark
