import Verif.Spec.Word

/-
Specification of Winternitz signatures over base-16 digits, independent of the scripts.
Position `j` counts from the top of the stack: 0 and 1 are the checksum digits (least significant
first), 2 to 9 the message digits (least significant first).
-/

namespace TapStark

/-- `h` applied `n` times. -/
def hashIter (h : Elem → Elem) : Nat → Elem → Elem
  | 0, x => x
  | n + 1, x => h (hashIter h n x)

/-- Stack elements `e` (digit) and `x` (chain value) open digit `d` for public element `pk`: `e` is
a readable non-negative number, `d` is it clamped to 15, and hashing `x` another `15 - d` times
gives `pk`. -/
def OpensDigit (h : Elem → Elem) (minimal : Bool) (pk e x : Elem) (d : Nat) : Prop :=
  ∃ v : Int, decodeNum minimal e = some v ∧ 0 ≤ v ∧ (d : Int) = min v 15 ∧ hashIter h (15 - d) x = pk

/-- Sum of the eight message digits. -/
def messageSum (d : Nat → Nat) : Nat := d 2 + d 3 + d 4 + d 5 + d 6 + d 7 + d 8 + d 9

/-- The number written by the eight message digits in base 16. -/
def messageValue (d : Nat → Nat) : Nat :=
  d 2 + 16 * d 3 + 16 ^ 2 * d 4 + 16 ^ 3 * d 5 + 16 ^ 4 * d 6 + 16 ^ 5 * d 7 + 16 ^ 6 * d 8 +
    16 ^ 7 * d 9

/-- The signed checksum digits are those of `120 - (sum of message digits)`. -/
def ChecksumOk (d : Nat → Nat) : Prop := d 0 + 16 * d 1 + messageSum d = 120

/-- Ten digit/chain-value pairs at the top of the stack. -/
def sigStack (e x : Nat → Elem) : List Elem := (List.range 10).flatMap fun j => [e j, x j]

/-- A valid signature for public key elements `pk` (position `j` is checked against `pk (9 - j)`)
of the digits `d`. -/
structure ValidSig (h : Elem → Elem) (minimal : Bool) (pk : Nat → Elem) (e x : Nat → Elem)
    (d : Nat → Nat) : Prop where
  opens : ∀ j, j < 10 → OpensDigit h minimal (pk (9 - j)) (e j) (x j) (d j)
  checksum : ChecksumOk d

end TapStark
