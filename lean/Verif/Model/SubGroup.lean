import Mathlib.Algebra.Ring.Defs

/-
Model of the provided methods of `BfField`, /repo/basic/src/field/mod.rs:6-37.
-/

namespace TapStark

variable {F : Type} [CommRing F]

/-- The loop of `sub_group`, mod.rs:25-28; `n` iterations are left. -/
def subGroupLoop (g : F) : Nat → F → List F → List F
  | 0, _, out => out
  | n + 1, acc, out => subGroupLoop g n (acc * g) (out ++ [acc])

/-- `BfField::sub_group`, mod.rs:18-30.  `gen` is `two_adic_generator`, which panics above the two-adicity `N` of the
field; the size is an `i32` in the code, large enough for the two-adicities of the two fields. -/
def subGroup (gen : Nat → F) (N bits : Nat) : Option (List F) :=
  if bits ≤ N then some (subGroupLoop (gen bits) (2 ^ bits - 1) (gen bits) [1]) else none

/-- `BfField::field_mod`, mod.rs:32-34: `from_wrapped_u32(MOD)`. -/
def fieldMod : F := (0x78000001 : Nat)

end TapStark
