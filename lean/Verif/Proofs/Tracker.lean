import Verif.Spec.Tracker
import Verif.Proofs.Does
import Verif.Proofs.Rou

/- Lemmas about the stack tracker, and fragments that meet its assumptions. -/

set_option linter.unusedSectionVars false
set_option linter.unusedSimpArgs false

namespace TapStark

variable {cfg : Cfg}

/-! ### Fragments meeting the assumptions -/

/-- Moves the element on top below the `s` elements under it. -/
def sinkTop (s : Nat) : List Op := emitN s [.num s, .roll]

/-- Copies the `s` elements on top. -/
def dupTop (s : Nat) : List Op := emitN s [.num (s - 1 : Nat), .pick]

/-- Fragments for the tracker that work at any depth. -/
def refTracker : TrackerLib where
  push := fun vs => vs.reverse.map fun (v : Nat) => Op.num v
  copy := fun d s => emitN d [.toAlt] ++ dupTop s ++ emitN d (.fromAlt :: sinkTop s)
  move := fun d s => emitN d [.toAlt] ++ emitN d (.fromAlt :: sinkTop s)
  toAlt := fun s => emitN s [.toAlt]
  copyAlt := fun d s => emitN d [.fromAlt] ++ emitN s [.fromAlt] ++ dupTop s ++ emitN s [.toAlt] ++
    emitN d [.num s, .roll, .toAlt]
  moveAlt := fun d s => emitN d [.fromAlt] ++ emitN s [.fromAlt] ++ emitN d [.num s, .roll, .toAlt]

section
variable {ops : List Op} {m a : List Elem} {c : List Bool}

theorem run_toAltsN (x : List Elem) : ∀ {a : List Elem}, live c = true →
    run cfg (emitN x.length [.toAlt] ++ ops) ⟨x ++ m, a, c⟩ = run cfg ops ⟨m, x.reverse ++ a, c⟩ := by
  induction x with
  | nil => intro a h; rfl
  | cons y x ih =>
    intro a h
    rw [List.length_cons, emitN_succ, List.append_assoc, List.cons_append, List.cons_append, List.nil_append,
      run_toAlt _ h, ih h]
    simp

theorem run_fromAlts' (x : List Elem) : ∀ {m : List Elem}, live c = true →
    run cfg (emitN x.length [.fromAlt] ++ ops) ⟨m, x ++ a, c⟩ = run cfg ops ⟨x.reverse ++ m, a, c⟩ := by
  induction x with
  | nil => intro a h; rfl
  | cons y x ih =>
    intro m h
    rw [List.length_cons, emitN_succ, List.append_assoc, List.cons_append, List.cons_append, List.nil_append,
      run_fromAlt _ h, ih h]
    simp

theorem emitN_none (body : List Op) : emitN 0 body = [] := rfl

theorem small_cases (x : List Elem) (h : x.length ≤ 4) : x = [] ∨ (∃ p, x = [p]) ∨ (∃ p q, x = [p, q]) ∨
    (∃ p q r, x = [p, q, r]) ∨ ∃ p q r s, x = [p, q, r, s] := by
  match x, h with
  | [], _ => exact .inl rfl
  | [p], _ => exact .inr (.inl ⟨p, rfl⟩)
  | [p, q], _ => exact .inr (.inr (.inl ⟨p, q, rfl⟩))
  | [p, q, r], _ => exact .inr (.inr (.inr (.inl ⟨p, q, r, rfl⟩)))
  | [p, q, r, s], _ => exact .inr (.inr (.inr (.inr ⟨p, q, r, s, rfl⟩)))
  | _ :: _ :: _ :: _ :: _ :: _, h => simp only [List.length_cons] at h; omega

theorem run_sinkTop (x : List Elem) (y : Elem) (hx : x.length ≤ 4) (h : live c = true) :
    run cfg (sinkTop x.length ++ ops) ⟨y :: (x ++ m), a, c⟩ = run cfg ops ⟨x ++ y :: m, a, c⟩ := by
  unfold sinkTop
  rcases small_cases x hx with rfl | ⟨p, rfl⟩ | ⟨p, q, rfl⟩ | ⟨p, q, r, rfl⟩ | ⟨p, q, r, s, rfl⟩
  all_goals simp only [List.length_nil, List.length_cons, emitN_succ, emitN_none, Nat.reduceAdd, Nat.reduceSub]
  all_goals sexec

theorem run_dupTop (x : List Elem) (hx : x.length ≤ 4) (h : live c = true) :
    run cfg (dupTop x.length ++ ops) ⟨x ++ m, a, c⟩ = run cfg ops ⟨x ++ (x ++ m), a, c⟩ := by
  unfold dupTop
  rcases small_cases x hx with rfl | ⟨p, rfl⟩ | ⟨p, q, rfl⟩ | ⟨p, q, r, rfl⟩ | ⟨p, q, r, s, rfl⟩
  all_goals simp only [List.length_nil, List.length_cons, emitN_succ, emitN_none, Nat.reduceAdd, Nat.reduceSub]
  all_goals sexec

/-- Bringing back `pre` from the alt stack below the chunk on top. -/
theorem run_unstash (x : List Elem) (hx : x.length ≤ 4) (h : live c = true) : ∀ (pre : List Elem) {m : List Elem},
    run cfg (emitN pre.length (.fromAlt :: sinkTop x.length) ++ ops) ⟨x ++ m, pre ++ a, c⟩ =
      run cfg ops ⟨x ++ (pre.reverse ++ m), a, c⟩ := by
  intro pre
  induction pre with
  | nil => intro m; rfl
  | cons y pre ih =>
    intro m
    rw [List.length_cons, emitN_succ, List.append_assoc, List.cons_append, List.cons_append, run_fromAlt _ h,
      run_sinkTop x y hx h, ih]
    simp

/-- Putting back `pre` on the alt stack from below the chunk on top. -/
theorem run_restash (x : List Elem) (hx : x.length ≤ 4) (h : live c = true) : ∀ (pre : List Elem) {a : List Elem},
    run cfg (emitN pre.length [.num x.length, .roll, .toAlt] ++ ops) ⟨x ++ (pre ++ m), a, c⟩ =
      run cfg ops ⟨x ++ m, pre.reverse ++ a, c⟩ := by
  intro pre
  induction pre with
  | nil => intro m; rfl
  | cons y pre ih =>
    intro a
    rw [List.length_cons, emitN_succ, List.append_assoc]
    have : run cfg ([.num x.length, .roll, .toAlt] ++ (emitN pre.length [.num x.length, .roll, .toAlt] ++ ops))
        ⟨x ++ (y :: pre ++ m), a, c⟩ =
        run cfg (emitN pre.length [.num x.length, .roll, .toAlt] ++ ops) ⟨x ++ (pre ++ m), y :: a, c⟩ := by
      generalize emitN pre.length [.num x.length, .roll, .toAlt] ++ ops = rest
      rcases small_cases x hx with rfl | ⟨p, rfl⟩ | ⟨p, q, rfl⟩ | ⟨p, q, r, rfl⟩ | ⟨p, q, r, s, rfl⟩
      all_goals simp only [List.length_nil, List.length_cons]
      all_goals sexec
    rw [this, ih]
    simp

theorem refTracker_ok (cfg : Cfg) : refTracker.Ok cfg where
  push := fun vs _ m a c ops h => run_pushNats vs h
  copy := by
    intro pre x hx m a c ops h
    simp only [refTracker, List.append_assoc]
    rw [run_toAltsN pre h, run_dupTop x hx h]
    have := run_unstash (cfg := cfg) (ops := ops) (a := a) x hx h pre.reverse (m := x ++ m)
    rw [List.length_reverse, List.reverse_reverse] at this
    exact this
  move := by
    intro pre x hx m a c ops h
    simp only [refTracker, List.append_assoc]
    rw [run_toAltsN pre h]
    have := run_unstash (cfg := cfg) (ops := ops) (a := a) x hx h pre.reverse (m := m)
    rw [List.length_reverse, List.reverse_reverse] at this
    exact this
  toAlt := fun x m a c ops _ h => run_toAltsN x h
  copyAlt := by
    intro pre x m a c ops hx h
    simp only [refTracker, List.append_assoc]
    rw [run_fromAlts' pre h]
    have h1 := run_fromAlts' (cfg := cfg) (c := c) (a := a) (m := pre.reverse ++ m) (ops := dupTop x.length ++
      (emitN x.length [.toAlt] ++ (emitN pre.length [.num x.length, .roll, .toAlt] ++ ops))) x.reverse h
    rw [List.length_reverse, List.reverse_reverse] at h1
    refine h1.trans ?_
    rw [run_dupTop x hx h, run_toAltsN x h]
    have h2 := run_restash (cfg := cfg) (ops := ops) (m := m) (a := x.reverse ++ a) x hx h pre.reverse
    rw [List.length_reverse, List.reverse_reverse] at h2
    exact h2
  moveAlt := by
    intro pre x m a c ops hx h
    simp only [refTracker, List.append_assoc]
    rw [run_fromAlts' pre h]
    have h1 := run_fromAlts' (cfg := cfg) (c := c) (a := a) (m := pre.reverse ++ m) (ops :=
      emitN pre.length [.num x.length, .roll, .toAlt] ++ ops) x.reverse h
    rw [List.length_reverse, List.reverse_reverse] at h1
    refine h1.trans ?_
    have h2 := run_restash (cfg := cfg) (ops := ops) (m := m) (a := a) x hx h pre.reverse
    rw [List.length_reverse, List.reverse_reverse] at h2
    exact h2

end

end TapStark
