import Verif.Model.Dsl
import Verif.Model.Stark

/-
The script generators of /repo/uni-stark/src/scripts/utils.rs.
-/

namespace TapStark.Uni

open TapStark

/-- `value_exp_n_minus_one`, /repo/uni-stark/src/scripts/utils.rs:21-34; `value_square_with_input` (lines 9-19) is the
same text as `u31_square` and `u31ext_square`; `size` is `F::U32_SIZE`. -/
def valueExpNMinusOne (L : U31Lib) (size logN : Nat) : List Op :=
  emitN logN (squareScript L size) ++
  (if size = 1 then .num 1 :: L.sub else [.num 0, .num 0, .num 0, .num 1] ++ L.extSub)

/-- The pushes `for j in (0..F::U32_SIZE).rev() { x.as_u32_vec()[j] }`, utils.rs:39-41, 44-46; the vector has
`U32_SIZE` entries. -/
def pushValue {F : Type} (B : BfField F) (x : F) : List Op := (B.u32 x).reverse.map fun (v : Nat) => Op.num v

/-- `push_generator_table`, /repo/uni-stark/src/scripts/utils.rs:36-49; `none` is the `unwrap` of the inverse of
zero. -/
def pushGeneratorTable {F : Type} [Field F] [DecidableEq F] (B : BfField F) (g : F) (q : Nat) : Option (List Op) := do
  let inv ← (List.range (q - 1)).mapM fun i => (Stark.inverse? (g ^ (i + 1))).map (pushValue B)
  some ((List.range q).reverse.flatMap (fun i => pushValue B (g ^ i)) ++ inv.flatten)

/-- `pop_generator_table`, /repo/uni-stark/src/scripts/utils.rs:51-59; `none` is the overflow of `2 * 0 - 1`. -/
def popGeneratorTable (size q : Nat) : Option (List Op) :=
  if q = 0 then none else some (emitN (2 * q - 1) (emitN size [.drop]))

/-- `get_generator`, /repo/uni-stark/src/scripts/utils.rs:62-84. -/
def getGenerator {F : Type} [Field F] [DecidableEq F] (B : BfField F) (g : F) (q : Nat) : Option (List Op) := do
  let push ← pushGeneratorTable B g q
  let pop ← popGeneratorTable B.consts.size q
  some ([.toAlt] ++ push ++ [.fromAlt] ++
    (if B.consts.size = 1 then [.pick, .toAlt] else op4mul ++ op4pick ++ op4toAlt) ++ pop ++
    (if B.consts.size = 1 then [.fromAlt] else op4fromAlt))

end TapStark.Uni
