import Verif.Script.Num

/-
Specification vocabulary for 32-bit words on the stack.  Independent of the code: a word is shown
as its four byte values, least significant byte on top.
-/

namespace TapStark

/-- Byte `i` (0 = least significant) of a word. -/
def byteOf (w : BitVec 32) (i : Nat) : Nat := w.toNat / 256 ^ i % 256

/-- The four stack elements of a word, top of stack first. -/
def wordElems (w : BitVec 32) : List Elem :=
  [num (byteOf w 0), num (byteOf w 1), num (byteOf w 2), num (byteOf w 3)]

/-- A stack segment holding words, top word first. -/
def wordsElems (ws : List (BitVec 32)) : List Elem := ws.flatMap wordElems

/-- A byte string on the stack, one byte per element, first byte on top. -/
def bytesElems (bs : List UInt8) : List Elem := bs.map fun b => num (b.toNat : Nat)

example : wordElems 0x87654321#32 = [num 0x21, num 0x43, num 0x65, num 0x87] := by decide +kernel

end TapStark
