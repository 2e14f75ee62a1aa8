import Verif.Script.Interp

/-
Sizes of scripts and witnesses in bytes, and Bitcoin's limits on them.
-/

namespace TapStark.Size

open TapStark

/-- Bytes of the opcodes and data that push `n` bytes. -/
def pushBytes (n : Nat) : Nat :=
  if n = 0 then 1 else if n < 76 then n + 1 else if n < 256 then n + 2 else if n < 65536 then n + 3 else n + 5

/-- Bytes of an opcode at most: the numbers -1 and 1 to 16 may take one byte instead of two. -/
def opBytes : Op → Nat
  | .push e => pushBytes e.length
  | _ => 1

/-- Bytes of a script at most.  Its length, the number of its opcodes, is a lower bound. -/
def scriptBytes (p : List Op) : Nat := (p.map opBytes).sum

/-- Bytes of the elements of a witness with their lengths. -/
def witnessBytes (w : List Elem) : Nat := (w.map fun e => e.length + if e.length < 253 then 1 else 3).sum

/-- Every element pushed by the script has at most `n` bytes. -/
def PushesAtMost (n : Nat) (p : List Op) : Prop := ∀ e, Op.push e ∈ p → e.length ≤ n

/-- Bitcoin's limit on the weight of a block; a byte of a witness, which tapscripts are part of, weighs one. -/
def blockLimit : Nat := 4000000

/-- The limit on the weight of a transaction that nodes relay. -/
def standardLimit : Nat := 400000

/-- Bitcoin's limit on the bytes of a stack element. -/
def elementLimit : Nat := 520

/-- Hashes that suffice to recompute from the beginning, for every check on its own, all challenges but `zeta`: with `w`
roots in every commitment, `r` commitments of the folding and `q` queries, the check of `alpha` has to absorb one
commitment, the `i`-th folding challenge `i + 3`, the proof of work all `r + 2` and its witness, and every query needs
one more hash. -/
def challengeHashes (w r q : Nat) : Nat :=
  w + ((List.range r).map fun i => (i + 3) * w).sum + ((r + 2) * w + 1) +
    ((List.range q).map fun i => (r + 2) * w + 1 + (i + 1)).sum

end TapStark.Size
