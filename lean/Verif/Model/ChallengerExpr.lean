import Verif.Model.Dsl
import Verif.Model.Challenger

/-
Model of the challenger that builds expressions, /repo/script_expr/src/challenger_expr.rs, with `PF = U32` and
`WIDTH = 64` as in all its uses.
-/

namespace TapStark

open FS (U32 fromU64)

/-- `BfChallengerExpr`, challenger_expr.rs:16-31, without the public fields that no method writes (`grind_bits`,
`grind_output`) or reads (`sample_input`, `sample_output`). -/
structure ChalExpr where
  sponge : List Expr
  input : List Expr
  output : List Expr

namespace ChalExpr

/-- Pushing `Dsl::constant_u32` of every number, challenger_expr.rs:62-64, 103-105, 125-127. -/
def consts : List Nat → Nat → List Expr × Nat
  | [], n => ([], n)
  | v :: vs, n =>
    let (e, n) := Dsl.constant [v] n
    let (es, n) := consts vs n
    (e :: es, n)

/-- `new`, challenger_expr.rs:60-80. -/
def new (n : Nat) : ChalExpr × Nat :=
  let (zs, n) := consts (List.replicate 32 0) n
  let (s, n) := Dsl.spongeStateInit n
  (⟨zs ++ [s], [], []⟩, n)

/-- `duplexing`, challenger_expr.rs:93-114; `fs` is `F::U32_SIZE`.  The state always has 33 nodes, so that the
assignments to `sponge_state[i]` for at most 32 inputs do not panic. -/
def duplexing (fs : Nat) (c : ChalExpr) (n : Nat) : Option (ChalExpr × Nat) :=
  if c.input.length ≤ 32 then
    let state := (c.input ++ c.sponge.drop c.input.length).reverse
    let (b, n) := Dsl.blake3 fs state n
    let (zs, n) := consts (List.replicate 32 0) n
    let (t, n) := Dsl.toSample fs b n
    some (⟨zs ++ [b], [], c.output ++ [t]⟩, n)
  else none

/-- `observe` of a word, challenger_expr.rs:117-134; the other groupings observe their words one by one, lines 136-190. -/
def observe (fs : Nat) (c : ChalExpr) (v : U32) (n : Nat) : Option (ChalExpr × Nat) :=
  let (es, n) := consts (v.toList.map UInt8.toNat) n
  let c : ChalExpr := ⟨c.sponge, c.input ++ es, []⟩
  if c.input.length = 32 then c.duplexing fs n else some (c, n)

/-- `observe` of several words. -/
def observeAll (fs : Nat) (c : ChalExpr) : List U32 → Nat → Option (ChalExpr × Nat)
  | [], n => some (c, n)
  | v :: vs, n => do
    let (c, n) ← c.observe fs v n
    c.observeAll fs vs n

/-- `sample`, challenger_expr.rs:197-240: `F` is the base field (`fs = 1`) or its extension (`fs = 4`), other types
panic. -/
def sample (fs : Nat) (c : ChalExpr) (n : Nat) : Option (Expr × ChalExpr × Nat) := do
  if fs = 1 ∨ fs = 4 then
    let (c, n) ← if !c.input.isEmpty || c.output.isEmpty then c.duplexing fs n else some (c, n)
    let t ← c.output.getLast?
    let (e, n) := if fs = 1 then Dsl.sampleBase t n else Dsl.sampleExt t n
    some (e, { c with output := c.output.dropLast }, n)
  else none

/-- `sample_bits`, challenger_expr.rs:247-254. -/
def sampleBits (fs bits : Nat) (c : ChalExpr) (n : Nat) : Option (Expr × ChalExpr × Nat) := do
  let (e, c, n) ← c.sample fs n
  let (e, n) := if e.size = 4 then Dsl.fourU32ToU32 e n else (e, n)
  let (e, n) := Dsl.extractBits e bits n
  some (e, c, n)

/-- `check_witness`, challenger_expr.rs:47-53. -/
def checkWitness (fs bits : Nat) (w : U32) (c : ChalExpr) (n : Nat) : Option (Expr × ChalExpr × Nat) := do
  let (c, n) ← c.observe fs w n
  let (c, n) ← c.observeAll fs (List.replicate 7 (fromU64 0)) n
  let (e, c, n) ← c.sampleBits fs bits n
  let (e, n) := Dsl.equalC e [0] n
  some (e, c, n)

end ChalExpr

end TapStark
