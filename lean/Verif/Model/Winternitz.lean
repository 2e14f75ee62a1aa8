import Verif.Model.U32

/-
Model of /repo/scripts/src/bit_comm/winternitz.rs, bit_comm_u32.rs and bit_comm.rs.

A public key is the list of its `N` elements.  The secret key is kept as the characters of the hex
string, as in the code.  `hash160` is `cfg.hash160`; the same function is used by the signer and by
`OP_HASH160`.  A Rust panic is `none`.  Digits are `u8` in the code; the model uses `Nat`, and every
digit that reaches a stack element is below 256.
-/

namespace TapStark

/-- `LOG_D`, `DIGITS`, `N0`, `N1`, `N`, /repo/scripts/src/bit_comm/winternitz.rs:40-55. -/
def wLogD : Nat := 4
def wDigits : Nat := 15
def wN0 : Nat := 8
def wN1 : Nat := 2
def wN : Nat := 10

/-- A hex character, either case.  External: `hex::decode` (crate `hex`), used at
/repo/scripts/src/bit_comm/winternitz.rs:98 and 272. -/
def hexVal (c : Char) : Option Nat :=
  if '0' ≤ c ∧ c ≤ '9' then some (c.toNat - '0'.toNat)
  else if 'a' ≤ c ∧ c ≤ 'f' then some (c.toNat - 'a'.toNat + 10)
  else if 'A' ≤ c ∧ c ≤ 'F' then some (c.toNat - 'A'.toNat + 10)
  else none

/-- External: `hex::decode`; odd length and other characters are errors. -/
def hexDecode : List Char → Option (List UInt8)
  | [] => some []
  | [_] => none
  | a :: b :: r => do
    let x ← hexVal a
    let y ← hexVal b
    let rest ← hexDecode r
    some (UInt8.ofNat (16 * x + y) :: rest)

/-- `for _ in 0..n { hash = hash160(hash) }`. -/
def hashTimes (cfg : Cfg) : Nat → Elem → Elem
  | 0, x => x
  | n + 1, x => hashTimes cfg n (cfg.hash160 x)

/-- The secret chain start of a digit: `hash160(secret || digit_index as u8)`,
/repo/scripts/src/bit_comm/winternitz.rs:103-105. -/
def chainStart (cfg : Cfg) (secret : List UInt8) (i : Nat) : Elem :=
  cfg.hash160 (secret ++ [UInt8.ofNat i])

/-- `generate_public_key`, /repo/scripts/src/bit_comm/winternitz.rs:270-287. -/
def generatePublicKey (cfg : Cfg) (key : List Char) (i : Nat) : Option Elem := do
  let secret ← hexDecode key
  some (hashTimes cfg wDigits (chainStart cfg secret i))

/-- `Winternitz`, /repo/scripts/src/bit_comm/winternitz.rs:59-62. -/
structure Winternitz where
  secretKey : List Char
  pubKey : List Elem

/-- `Winternitz::new`, /repo/scripts/src/bit_comm/winternitz.rs:65-76. -/
def Winternitz.new (cfg : Cfg) (key : List Char) : Option Winternitz := do
  let pk ← (List.range wN).mapM (generatePublicKey cfg key)
  some ⟨key, pk⟩

/-- `digit_signature`, /repo/scripts/src/bit_comm/winternitz.rs:96-114. -/
def Winternitz.digitSignature (cfg : Cfg) (w : Winternitz) (i digit : Nat) : Option (Elem × Nat) := do
  let secret ← hexDecode w.secretKey
  some (hashTimes cfg digit (chainStart cfg secret i), digit)

/-- `digit_signature_script`, /repo/scripts/src/bit_comm/winternitz.rs:117-125. -/
def Winternitz.digitSignatureScript (cfg : Cfg) (w : Winternitz) (i digit : Nat) :
    Option (List Op) := do
  let (h, d) ← w.digitSignature cfg i digit
  some [.push h, .num d]

/-- `checksum`, /repo/scripts/src/bit_comm/winternitz.rs:129-136.  `none` when the assertion on the
length fails or the `u32` subtraction underflows (a panic in a debug build). -/
def wChecksum (digits : List Nat) : Option Nat :=
  if digits.length ≠ wN0 then none
  else if digits.sum ≤ wDigits * wN0 then some (wDigits * wN0 - digits.sum) else none

/-- `to_digits`, /repo/scripts/src/bit_comm/winternitz.rs:289-297. -/
def toDigits : Nat → Nat → List Nat
  | _, 0 => []
  | number, k + 1 =>
    let digit := number % (wDigits + 1)
    digit :: toDigits ((number - digit) / (wDigits + 1)) k

/-- The digits that are signed, checksum first,
/repo/scripts/src/bit_comm/winternitz.rs:142-143 and 158-159. -/
def signedDigits (message : List Nat) : Option (List Nat) := do
  let c ← wChecksum message
  some (toDigits c wN1 ++ message)

/-- `sign`, /repo/scripts/src/bit_comm/winternitz.rs:139-153.  Witness elements in pushing order:
the last one is on top of the stack. -/
def Winternitz.sign (cfg : Cfg) (w : Winternitz) (message : List Nat) : Option (List Elem) := do
  let ds ← signedDigits message
  let parts ← (List.range wN).mapM fun i => do
    let (h, d) ← w.digitSignature cfg i (← ds[wN - 1 - i]?)
    some [h, [UInt8.ofNat d]]
  some parts.flatten

/-- `sign_script`, /repo/scripts/src/bit_comm/winternitz.rs:156-168. -/
def Winternitz.signScript (cfg : Cfg) (w : Winternitz) (message : List Nat) : Option (List Op) := do
  let ds ← signedDigits message
  let parts ← (List.range wN).mapM fun i => do
    w.digitSignatureScript cfg i (← ds[wN - 1 - i]?)
  some parts.flatten

/-- One iteration of the digit loop of `checksig_verify`,
/repo/scripts/src/bit_comm/winternitz.rs:191-216. -/
def checkDigit (pk : Elem) : List Op :=
  [.num wDigits, .min, .dup, .toAlt, .toAlt] ++
  emitN wDigits [.dup, .hash160] ++
  [.fromAlt, .pick, .push pk, .equalverify] ++
  emitN ((wDigits + 1) / 2) [.drop2]

/-- The checksum part of `checksig_verify`, /repo/scripts/src/bit_comm/winternitz.rs:224-243. -/
def checkChecksum : List Op :=
  [.fromAlt, .dup, .negate] ++
  emitN (wN0 - 1) [.fromAlt, .tuck, .sub] ++
  [.num (wDigits * wN0 : Nat), .add] ++
  [.fromAlt] ++
  emitN (wN1 - 1) (emitN wLogD [.dup, .add] ++ [.fromAlt, .add]) ++
  [.equalverify]

/-- The conversion of digits to bytes at the end of `checksig_verify`,
/repo/scripts/src/bit_comm/winternitz.rs:246-260. -/
def digitsToBytes : List Op :=
  ((List.range (wN0 / 2)).map fun i =>
    [.swap] ++ emitN wLogD [.dup, .add] ++ [.add] ++
      (if i ≠ wN0 / 2 - 1 then [.toAlt] else [])).flatten ++
  emitN (wN0 / 2 - 1) [.fromAlt]

/-- `checksig_verify`, /repo/scripts/src/bit_comm/winternitz.rs:170-263.  `none` when
`pub_key[N - 1 - digit_index]` is out of bounds. -/
def checksigVerify (pk : List Elem) : Option (List Op) := do
  let parts ← (List.range wN).mapM fun i => do some (checkDigit (← pk[wN - 1 - i]?))
  some (parts.flatten ++ checkChecksum ++ digitsToBytes)

/-! ### bit_comm_u32.rs -/

/-- `BitCommitmentU32`, /repo/scripts/src/bit_comm/bit_comm_u32.rs:10-15. -/
structure BitCommU32 where
  value : BitVec 32
  winternitz : Winternitz
  message : List Nat

/-- `BitCommitmentU32::new`, /repo/scripts/src/bit_comm/bit_comm_u32.rs:18-26. -/
def BitCommU32.new (cfg : Cfg) (key : List Char) (value : BitVec 32) : Option BitCommU32 := do
  let w ← Winternitz.new cfg key
  some ⟨value, w, toDigits value.toNat wN0⟩

/-- `change_value`, /repo/scripts/src/bit_comm/bit_comm_u32.rs:28-36. -/
def BitCommU32.changeValue (b : BitCommU32) (value : BitVec 32) : BitCommU32 :=
  ⟨value, b.winternitz, toDigits value.toNat wN0⟩

/-- `commit_u32_as_4bytes`, /repo/scripts/src/bit_comm/bit_comm_u32.rs:38-46; most significant byte
first.  `<< 4` is on `u8`; `none` when `message` has fewer than eight digits. -/
def BitCommU32.as4Bytes (b : BitCommU32) : Option (List Nat) :=
  (List.range (wN0 / 2)).mapM fun i => do
    let index := wN0 / 2 - 1 - i
    let lo ← b.message[2 * index]?
    let hi ← b.message[2 * index + 1]?
    some (lo ^^^ (hi * 16 % 256))

/-- `commit_u32_as_4bytes_script`, /repo/scripts/src/bit_comm/bit_comm_u32.rs:48-55. -/
def BitCommU32.as4BytesScript (b : BitCommU32) : Option (List Op) := do
  let cm ← b.as4Bytes
  let parts ← (List.range (wN0 / 2)).mapM fun i => do
    some [.num (← cm[wN0 / 2 - 1 - i]?), .equalverify]
  some parts.flatten

/-- `check_equal_x_or_neg_x_script`, /repo/scripts/src/bit_comm/bit_comm_u32.rs:57-66. -/
def BitCommU32.checkXOrNegX (b negX : BitCommU32) : Option (List Op) := do
  let cm ← b.as4Bytes
  let nm ← negX.as4Bytes
  let parts ← (List.range (wN0 / 2)).mapM fun i => do
    some [.dup, .num (← cm[wN0 / 2 - 1 - i]?), .equal, .swap,
      .num (← nm[wN0 / 2 - 1 - i]?), .equal, .add, .num 1, .equalverify]
  some parts.flatten

/-- `checksig_verify_script`, /repo/scripts/src/bit_comm/bit_comm_u32.rs:68-72 (through
`checksig_verify_self_pubkey`, winternitz.rs:265-267). -/
def BitCommU32.checksigVerifyScript (b : BitCommU32) : Option (List Op) :=
  checksigVerify b.winternitz.pubKey

/-- `signature_script`, /repo/scripts/src/bit_comm/bit_comm_u32.rs:74-76. -/
def BitCommU32.signatureScript (cfg : Cfg) (b : BitCommU32) : Option (List Op) :=
  b.winternitz.signScript cfg b.message

/-- `recover_message_at_stack`, /repo/scripts/src/bit_comm/bit_comm_u32.rs:78-83. -/
def BitCommU32.recoverAtStack (b : BitCommU32) : Option (List Op) := do
  some ((← b.checksigVerifyScript) ++ u32Compress)

/-- `recover_message_at_altstack`, /repo/scripts/src/bit_comm/bit_comm_u32.rs:85-91. -/
def BitCommU32.recoverAtAlt (b : BitCommU32) : Option (List Op) := do
  some ((← b.checksigVerifyScript) ++ u32Compress ++ [.toAlt])

/-- `message_from_altstack`, /repo/scripts/src/bit_comm/bit_comm_u32.rs:93-97. -/
def BitCommU32.messageFromAlt (_ : BitCommU32) : List Op := [.fromAlt]

/-- `recover_message_euqal_to_commit_message`,
/repo/scripts/src/bit_comm/bit_comm_u32.rs:100-106.  `{self.value}` is `push_int` of the `u32`. -/
def BitCommU32.recoverEqual (b : BitCommU32) : Option (List Op) := do
  some ((← b.recoverAtStack) ++ [.num b.value.toNat, .equalverify])

/-- `signature`, /repo/scripts/src/bit_comm/bit_comm_u32.rs:108-116: single zero bytes become empty
elements. -/
def BitCommU32.signature (cfg : Cfg) (b : BitCommU32) : Option (List Elem) := do
  let sig ← b.winternitz.sign cfg b.message
  some (sig.map fun e => if e = [0] then [] else e)

/-! ### bit_comm.rs -/

/-- `BitCommitment<F>`, /repo/scripts/src/bit_comm/bit_comm.rs:20-25, without the `value` field
(only its words `bc_as_u32_vec` are used). -/
structure BitComm where
  u32Values : List (BitVec 32)
  commitments : List BitCommU32

/-- `BitCommitment::new`, /repo/scripts/src/bit_comm/bit_comm.rs:43-54 and `new_with_box` 28-40.
The secrets drawn by `S::gen()` are a parameter, one per word. -/
def BitComm.new (cfg : Cfg) (values : List (BitVec 32)) (keys : List (List Char)) :
    Option BitComm := do
  let cs ← (values.zip keys).mapM fun (v, k) => BitCommU32.new cfg k v
  if cs.length = values.length then some ⟨values, cs⟩ else none

/-- `new_with_commits`, /repo/scripts/src/bit_comm/bit_comm.rs:56-69. -/
def BitComm.newWithCommits (values : List (BitVec 32)) (commits : List BitCommU32) :
    Option BitComm :=
  if values.length = commits.length then
    some ⟨values, (commits.zip values).map fun (c, v) => c.changeValue v⟩
  else none

/-- `recover_message_at_altstack` (also `check_and_recover_to_altstack`),
/repo/scripts/src/bit_comm/bit_comm.rs:74-76 and 126-145. -/
def BitComm.recoverAtAlt (b : BitComm) : Option (List Op) := do
  let parts ← (List.range b.u32Values.length).mapM fun i => do
    some ((← (← b.commitments[i]?).recoverAtStack) ++ [Op.toAlt])
  some parts.flatten

/-- `message_from_altstack`, /repo/scripts/src/bit_comm/bit_comm.rs:99-105. -/
def BitComm.messageFromAlt (b : BitComm) : List Op := emitN b.u32Values.length [.fromAlt]

/-- `message_to_altstack`, /repo/scripts/src/bit_comm/bit_comm.rs:91-97. -/
def BitComm.messageToAlt (b : BitComm) : List Op := emitN b.u32Values.length [.toAlt]

/-- `check_and_recover`, /repo/scripts/src/bit_comm/bit_comm.rs:80-85. -/
def BitComm.checkAndRecover (b : BitComm) : Option (List Op) := do
  some ((← b.recoverAtAlt) ++ b.messageFromAlt)

/-- `signature` / `witness`, /repo/scripts/src/bit_comm/bit_comm.rs:87-89 and 147-153. -/
def BitComm.signature (cfg : Cfg) (b : BitComm) : Option (List Elem) := do
  let parts ← (List.range b.u32Values.length).reverse.mapM fun i => do
    (← b.commitments[i]?).signature cfg
  some parts.flatten

end TapStark
