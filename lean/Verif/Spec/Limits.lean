import Verif.Script.Limit

/-
What it means for a script to fit into the limit of 1000 elements.
-/

namespace TapStark

/-- Started outside any IF on stacks that together hold at least `n` elements and do not exceed the limit, the fragment
behaves under the limit as without it exactly if there is room for `d` more elements; if there is not, it fails. -/
def NeedsRoom (p : List Op) (n d : Nat) : Prop :=
  ∀ (cfg : Cfg) (s : St), s.cond = [] → n ≤ s.size → s.size ≤ stackLimit →
    runL cfg stackLimit p s = if s.size + d ≤ stackLimit then run cfg p s else none

/-- The room a rotation of a word by `r` needs. -/
def rrotRoom (r : Nat) : Nat :=
  if r = 0 ∨ r = 16 then 0 else if r = 8 ∨ r = 24 then 1 else if r = 7 ∨ r = 23 then 4 else 6

end TapStark
