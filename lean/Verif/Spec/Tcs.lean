import Verif.Model.Tcs
import Verif.Spec.TapTree

/-
Specification of the commitment scheme properties: which rows a leaf holds, and what a bit
commitment operator is assumed to do.
-/

namespace TapStark.Tcs

open TapStark.Tap

/-- A matrix whose height is `2^h`. -/
def HeightIs {F : Type} (m : Mat F) (h : Nat) : Prop := m.height = 2 ^ h

/-- Row `r` of a matrix. -/
def rowOf {F : Type} (m : Mat F) (r : Nat) : List F := (m.values.drop (r * m.width)).take m.width

/-- What leaf `i` of a commitment to `mats` with largest height `2^H` holds: for each height from
the largest down, for the matrices of that height in input order, row `i / 2^(H - h)`. -/
def leafRow {F : Type} (mats : List (Mat F)) (H i : Nat) : List F :=
  (List.range (H + 1)).reverse.flatMap fun h =>
    (mats.filter fun m => m.height == 2 ^ h).flatMap fun m => rowOf m (i / 2 ^ (H - h))

/-- The witness stack `w` (top first) opens the operator to the numbers `vs`: the locking script,
run on `w` alone, leaves exactly these numbers, the last on top. -/
def Opens (cfg : Cfg) (bc : Bc) (w : List Elem) (vs : List Int) : Prop :=
  run cfg bc.lock ⟨w, [], []⟩ = some ⟨vs.reverse.map num, [], []⟩

/-- Assumption on a bit commitment operator for `words` words with witnesses of `size` elements.
`frame` and `sound`: the locking script only looks at the top `size` elements, and if it succeeds
they open it to `words` numbers.  `honest`: the witness made for words below `2^31` opens to them. -/
structure BcOk (cfg : Cfg) (words size : Nat) (bc : Bc) : Prop where
  frame : ∀ w vs, Opens cfg bc w vs → ∀ rest a,
    run cfg bc.lock ⟨w ++ rest, a, []⟩ = some ⟨vs.reverse.map num ++ rest, a, []⟩
  sound : ∀ m a s', run cfg bc.lock ⟨m, a, []⟩ = some s' → ∃ w rest vs,
    m = w ++ rest ∧ w.length = size ∧ vs.length = words ∧ Opens cfg bc w vs
  honest : ∀ vs : List Nat, vs.length = words → (∀ v ∈ vs, v < 2 ^ 31) →
    (bc.wit vs).length = size ∧ Opens cfg bc (bc.wit vs).reverse (vs.map fun v : Nat => (v : Int))

/-- All operators of a leaf behave, with `words` words per evaluation. -/
structure BcsOk (cfg : Cfg) (words isize esize : Nat) (u : UseBcs) : Prop where
  index : BcOk cfg 1 isize u.index
  evals : ∀ bc ∈ u.evals, BcOk cfg words esize bc

/-- `as_u32_vec` as assumed: constant length, words below `2^31`, no two elements alike. -/
structure FieldOk {F : Type} (fr : FieldRep F) : Prop where
  size : fr.u32Size = 1 ∨ fr.u32Size = 4
  length : ∀ x, (fr.words x).length = fr.u32Size
  bound : ∀ x, ∀ w ∈ fr.words x, w < 2 ^ 31
  inj : ∀ x y, fr.words x = fr.words y → x = y

end TapStark.Tcs
