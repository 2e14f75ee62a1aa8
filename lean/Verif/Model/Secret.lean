import Verif.Model.Winternitz

/-
Model of /repo/scripts/src/bit_comm/secret_generator.rs.

The random characters of `ThreadSecretGen` are a parameter; a Rust `char` and a Lean `Char` are both a Unicode scalar
value.
-/

namespace TapStark

/-- `ConstantSecretGen::gen`, /repo/scripts/src/bit_comm/secret_generator.rs:14-17. -/
def constantSecret : List Char := ['0', '0', '0', '0']

/-- A lower case hex digit.  External: `to_lower_hex_string` of the crate `bitcoin` (`DisplayHex`), used at
/repo/scripts/src/bit_comm/secret_generator.rs:30. -/
def hexDigit (n : Nat) : Char := "0123456789abcdef".toList.getD n '0'

/-- External: `to_lower_hex_string`, two characters per byte, the high half first. -/
def toLowerHex (bytes : List UInt8) : List Char :=
  bytes.flatMap fun b => [hexDigit (b.toNat / 16), hexDigit (b.toNat % 16)]

/-- `s.as_bytes()` of a string of the given characters (UTF-8),
/repo/scripts/src/bit_comm/secret_generator.rs:30. -/
def utf8Bytes (cs : List Char) : List UInt8 := cs.flatMap String.utf8EncodeChar

/-- `ThreadSecretGen::gen`, /repo/scripts/src/bit_comm/secret_generator.rs:25-31: the first twenty characters of the
stream of random characters (`sample_iter(..).take(20)`). -/
def threadSecret (stream : Nat → Char) : List Char :=
  toLowerHex (utf8Bytes ((List.range 20).map stream))

end TapStark
