/-
Calls on a list of managers, and what they should do.  Nothing here mentions the manager's own state.
-/

namespace TapStark

/-- The calls of a client: ask for a new manager, add one, go back to one, assign an input to the current one. -/
inductive MCall
  | next
  | add
  | move (i : Nat)
  | assign (v : List Nat)

/-- The inputs grouped by the manager they belong to, for clients that only ask for the next manager: an input belongs to
the manager handed out last.  `none` if there is no manager yet. -/
def groupInputs : List MCall → Option (List (List (List Nat)))
  | [] => some []
  | .next :: cs => groupAfter [] cs
  | _ :: _ => none
where
  /-- The groups, the first one having begun with `g`. -/
  groupAfter (g : List (List Nat)) : List MCall → Option (List (List (List Nat)))
    | [] => some [g]
    | .next :: cs => (groupAfter [] cs).map (g :: ·)
    | .assign v :: cs => groupAfter (g ++ [v]) cs
    | _ :: _ => none

/-- Which manager holds which inputs after any sequence of calls, where `gs` are the inputs held before and `cur` is the
index of the current manager.  `none`: a call panics. -/
def placeInputs : List MCall → List (List (List Nat)) → Option Nat → Option (List (List (List Nat)))
  | [], gs, _ => some gs
  | .next :: cs, gs, none => placeInputs cs (gs ++ [[]]) (some 0)
  | .next :: cs, gs, some i => placeInputs cs (gs ++ [[]]) (some (i + 1))
  | .add :: cs, gs, cur => placeInputs cs (gs ++ [[]]) cur
  | .move i :: cs, gs, _ => if i < gs.length then placeInputs cs gs (some i) else none
  | .assign _ :: _, _, none => none
  | .assign v :: cs, gs, some i =>
    if i < gs.length then placeInputs cs (gs.set i (gs.getD i [] ++ [v])) (some i) else none

end TapStark
