import Verif.Model.ManagerAssign
import Verif.Props.ScriptHelper

/-
C86: inputs go to the manager handed out last; the value counter counts the inputs of all managers.
-/

namespace TapStark

namespace ManagerAssign

/-- The current manager is the last one, and holds the inputs `g`; the earlier ones hold `gs`. -/
structure AtLast (a : ManagerAssign) (gs : List (List (List Nat))) (g : List (List Nat)) : Prop where
  current : a.current = some gs.length
  inputs : a.inputs = gs ++ [g]

theorem AtLast.length {a : ManagerAssign} {gs : List (List (List Nat))} {g : List (List Nat)} (h : a.AtLast gs g) :
    a.managers.length = gs.length + 1 := by
  have := congrArg List.length h.inputs
  simpa [ManagerAssign.inputs] using this

theorem AtLast.assign {a : ManagerAssign} {gs : List (List (List Nat))} {g : List (List Nat)} (h : a.AtLast gs g)
    (v : List Nat) (n : Nat) :
    ∃ e a', a.assignInput v n = some (e, a', n + 1) ∧ a'.AtLast gs (g ++ [v]) := by
  have hl := h.length
  have hi : gs.length < a.managers.length := by omega
  refine ⟨((a.managers[gs.length]).assignInput v n).1,
    { a with managers := a.managers.set gs.length ((a.managers[gs.length]).assignInput v n).2.1 }, ?_, h.current, ?_⟩
  · simp [assignInput, currentManager, h.current, hi, InputManager.assignInput]
  · have hk := h.inputs
    simp only [ManagerAssign.inputs] at hk ⊢
    rw [List.map_set, hk]
    have hg : (a.managers[gs.length]).inputVar.map Prod.snd = g := by
      have := congrArg (fun l => l[gs.length]?) hk
      simp [hi] at this
      exact this
    have : (((a.managers[gs.length]).assignInput v n).2.1.inputVar.map Prod.snd) = g ++ [v] := by
      simp [InputManager.assignInput, hg]
    rw [this, List.set_append_right _ _ (Nat.le_refl _)]
    simp

theorem AtLast.next {a : ManagerAssign} {gs : List (List (List Nat))} {g : List (List Nat)} (h : a.AtLast gs g) :
    a.nextManager.2.AtLast (gs ++ [g]) [] := by
  refine ⟨?_, ?_⟩
  · simp [nextManager, addManager, h.current]
  · have := h.inputs
    simp only [ManagerAssign.inputs] at this
    simp [nextManager, addManager, ManagerAssign.inputs, this, InputManager.new]

theorem calls_group : ∀ (cs : List MCall) {a : ManagerAssign} {gs out : List (List (List Nat))} {g : List (List Nat)}
    (n : Nat), a.AtLast gs g → groupInputs.groupAfter g cs = some out →
    ∃ a' n', calls cs a n = some (a', n') ∧ a'.inputs = gs ++ out := by
  intro cs
  induction cs with
  | nil =>
    intro a gs out g n h ho
    simp only [groupInputs.groupAfter, Option.some.injEq] at ho
    subst ho
    exact ⟨a, n, rfl, h.inputs⟩
  | cons c cs ih =>
    intro a gs out g n h ho
    cases c with
    | next =>
      simp only [groupInputs.groupAfter, Option.map_eq_some_iff] at ho
      obtain ⟨out', ho, rfl⟩ := ho
      obtain ⟨a', n', h1, h2⟩ := ih n h.next ho
      exact ⟨a', n', by simp [calls, call, h1], by rw [h2]; simp⟩
    | assign v =>
      simp only [groupInputs.groupAfter] at ho
      obtain ⟨e, a1, e1, h1⟩ := h.assign v n
      obtain ⟨a', n', h2, h3⟩ := ih (n + 1) h1 ho
      exact ⟨a', n', by simp [calls, call, e1, h2], h3⟩
    | add => simp [groupInputs.groupAfter] at ho
    | move i => simp [groupInputs.groupAfter] at ho

/-- C86, the part that holds: for a client that only asks for the next manager, every input is held by the manager handed
out last, in order, and no call panics. -/
theorem C86_next_only_partial {cs : List MCall} {gs : List (List (List Nat))} (h : groupInputs cs = some gs) (n : Nat) :
    ∃ a n', calls cs .new n = some (a, n') ∧ a.inputs = gs := by
  cases cs with
  | nil =>
    simp only [groupInputs, Option.some.injEq] at h
    subst h
    exact ⟨.new, n, rfl, rfl⟩
  | cons c cs =>
    cases c with
    | next =>
      obtain ⟨a, n', h1, h2⟩ := calls_group (gs := []) cs n
        (a := (nextManager .new).2) ⟨rfl, rfl⟩ h
      exact ⟨a, n', by simp [calls, call, h1], h2⟩
    | add => cases h
    | move i => cases h
    | assign v => cases h

/-- C86 fails in general: when the current manager is not the last one, because a manager was added or the client went
back, the next manager handed out is not the one that gets the next input. -/
theorem C86_violated_not_last (a : ManagerAssign) {i : Nat} (hc : a.current = some i)
    (hi : i + 1 < a.managers.length) (v : List Nat) (n : Nat) :
    ∃ e a', a.nextManager.2.assignInput v n = some (e, a', n + 1) ∧
      (a'.managers[a.nextManager.1]?).map InputManager.inputVar = some [] ∧
      (a'.managers[i + 1]?).map (fun m => m.inputVar.map Prod.snd) =
        (a.managers[i + 1]?).map fun m => m.inputVar.map Prod.snd ++ [v] := by
  have h1 : i + 1 < (a.managers ++ [InputManager.new]).length := by simp; omega
  have h2 : (a.managers ++ [InputManager.new])[i + 1] = a.managers[i + 1] := List.getElem_append_left hi
  refine ⟨((a.managers[i + 1]).assignInput v n).1, ⟨(a.managers ++ [InputManager.new]).set (i + 1) ((a.managers[i + 1]).assignInput v n).2.1, some (i + 1)⟩,
    ?_, ?_, ?_⟩
  · simp only [assignInput, currentManager, nextManager, addManager, hc, Option.bind_eq_bind, Option.bind_some, h1,
      if_true, List.getElem?_eq_getElem, h2]
    rfl
  · show ((((a.managers ++ [InputManager.new]).set (i + 1) _)[a.managers.length]?).map InputManager.inputVar) = _
    rw [List.getElem?_set_ne (by omega)]
    simp [InputManager.new]
  · show ((((a.managers ++ [InputManager.new]).set (i + 1) _)[i + 1]?).map _) = _
    rw [List.getElem?_set_self h1]
    simp [hi, InputManager.assignInput]

/-- C86, both ways of getting there, from a client of three managers: after `add`, and after going back. -/
theorem C86_instance :
    (∃ a n, calls [.next, .add, .next, .assign [7]] .new 0 = some (a, n) ∧ a.inputs = [[], [[7]], []]) ∧
    (∃ a n, calls [.next, .next, .move 0, .next, .assign [7]] .new 0 = some (a, n) ∧ a.inputs = [[], [[7]], []]) ∧
    (∃ a n, calls [.next, .assign [3], .assign [4], .next, .assign [7]] .new 0 = some (a, n) ∧
      a.inputs = [[[3], [4]], [[7]]]) :=
  ⟨⟨_, _, rfl, rfl⟩, ⟨_, _, rfl, rfl⟩, C86_next_only_partial (cs := [.next, .assign [3], .assign [4], .next, .assign [7]]) rfl 0⟩

theorem calls_place : ∀ (cs : List MCall) (a : ManagerAssign) (n : Nat),
    (calls cs a n).map (fun r => r.1.inputs) = placeInputs cs a.inputs a.current := by
  intro cs
  induction cs with
  | nil => intro a n; rfl
  | cons c cs ih =>
    intro a n
    have hlen : a.inputs.length = a.managers.length := by simp [inputs]
    cases c with
    | next =>
      rw [calls, call]
      simp only [Option.bind_eq_bind, Option.bind_some, ih]
      cases hc : a.current <;> simp [placeInputs, nextManager, addManager, inputs, hc, InputManager.new]
    | add =>
      rw [calls, call]
      simp only [Option.bind_eq_bind, Option.bind_some, ih]
      simp [placeInputs, addManager, inputs, InputManager.new]
    | move i =>
      rw [calls, call, moveCurrentIndex, placeInputs, hlen]
      split
      · simp only [Option.map_some, Option.bind_eq_bind, Option.bind_some, ih]
        rfl
      · rfl
    | assign v =>
      rw [calls, call, assignInput, currentManager]
      cases hc : a.current with
      | none => rfl
      | some i =>
        rw [placeInputs, hlen]
        simp only [Option.bind_eq_bind, Option.bind_some]
        split
        · rename_i hi
          simp only [Option.bind_some, List.getElem?_eq_getElem hi, Option.map_some, ih]
          congr 1
          have hg : a.inputs.getD i [] = (a.managers[i]).inputVar.map Prod.snd := by simp [inputs, hi]
          rw [hg]
          simp [inputs, List.map_set, InputManager.assignInput]
        · rfl

/-- C86, exact: which manager holds which inputs after any sequence of calls, and which sequences panic. -/
theorem C86_exact (cs : List MCall) (n : Nat) :
    (calls cs .new n).map (fun r => r.1.inputs) = placeInputs cs [] none := calls_place cs .new n

/-- C86, exact, on a client that moves: inputs go to the manager moved to; moving to a manager that does not exist, and an
input before there is a current manager, panic. -/
theorem C86_exact_instance :
    (calls [.next, .next, .assign [1], .move 0, .assign [2], .move 1, .assign [3]] .new 0).map (fun r => r.1.inputs) =
      some [[[2]], [[1], [3]]] ∧
    (calls [.next, .move 1] .new 0).map (fun r => r.1.inputs) = none ∧
    (calls [.add, .assign [1]] .new 0).map (fun r => r.1.inputs) = none := by
  simp only [C86_exact]
  exact ⟨rfl, rfl, rfl⟩

/-- C86, the statistics: the counter reports the number of different words among the inputs of all managers; hints are
not counted. -/
theorem C86_value_count (a : ManagerAssign) (h : a.inputs.flatten.flatten.dedup.length < 2 ^ 32) :
    ∃ c, a.setValueCount .new = some c ∧ c.num = a.inputs.flatten.flatten.dedup.length := by
  have e : (a.managers.flatMap fun m => m.inputVar.flatMap Prod.snd) = a.inputs.flatten.flatten := by
    simp only [ManagerAssign.inputs, List.flatMap_def]
    induction a.managers with
    | nil => rfl
    | cons m ms ih => simp [ih]
  obtain ⟨c, hc, hn⟩ := C61_counts_distinct _ h
  exact ⟨c, by simp [setValueCount, e, hc], hn⟩

end ManagerAssign

end TapStark
