import Verif.Model.Challenger

/-!
Specification side of the challenger: histories of calls, and what the permutation calls should
absorb.
-/

namespace TapStark.FS

variable {PF : Type}

/-- What a user of the challenger does. -/
inductive Cmd (PF : Type)
  | observe (v : PF)
  | sample
  deriving DecidableEq

/-- One observation call in any of the five supported groupings. -/
inductive Call (PF : Type)
  | word (v : PF)
  | array (vs : List PF)
  | hash (vs : List PF)
  | arrays (vss : List (List PF))
  | nested (vss : List (List PF))

/-- The words of a call, in order. -/
def Call.words : Call PF → List PF
  | .word v => [v]
  | .array vs | .hash vs => vs
  | .arrays vss | .nested vss => vss.flatten

/-- Executing a call. -/
def Call.exec (W : Nat) (perm : List PF → List PF) (c : Chal PF) : Call PF → Option (Chal PF)
  | .word v => c.observe W perm v
  | .array vs | .hash vs => c.observeAll W perm vs
  | .arrays vss | .nested vss => c.observeNested W perm vss

/-- Executing a command (a sample's value is found in the sample records). -/
def Cmd.exec (W : Nat) (perm : List PF → List PF) (deg : Nat) (c : Chal PF) :
    Cmd PF → Option (Chal PF)
  | .observe v => c.observe W perm v
  | .sample => (c.sample W perm deg).map Prod.snd

/-- A history of commands. -/
def exec (W : Nat) (perm : List PF → List PF) (deg : Nat) (c : Chal PF) (h : List (Cmd PF)) :
    Option (Chal PF) :=
  h.foldlM (Cmd.exec W perm deg) c

/-- The observed words of a history. -/
def observed : List (Cmd PF) → List PF
  | [] => []
  | .observe v :: h => v :: observed h
  | .sample :: h => observed h

/-- The kind of each command, forgetting the observed words. -/
def shape : List (Cmd PF) → List Bool
  | [] => []
  | .observe _ :: h => true :: shape h
  | .sample :: h => false :: shape h

/-- `blocks` are the words absorbed by the successive permutation calls whose inputs are `ins`: every
input is its block written over the beginning of the previous permutation output (of the initial
state `init` for the first call). -/
def Absorbs (perm : List PF → List PF) : (init : List PF) → (blocks ins : List (List PF)) → Prop
  | _, [], [] => True
  | init, b :: bs, i :: is =>
    b.length ≤ init.length ∧ i = b ++ init.drop b.length ∧ Absorbs perm (perm i) bs is
  | _, _, _ => False

end TapStark.FS
