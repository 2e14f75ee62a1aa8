import Verif.Spec.Does
import Verif.Script.Lemmas

/- Lemmas about `Does`, `Fails` and `SkipsDead`. -/

namespace TapStark

variable {cfg : Cfg} {p q : List Op} {i j k : List Elem}

theorem Does.seq (hp : Does cfg p i j) (hq : Does cfg q j k) : Does cfg (p ++ q) i k := by
  intro m a c ops h
  rw [List.append_assoc, hp m a c _ h, hq m a c _ h]

theorem Does.frame (hp : Does cfg p i j) (r : List Elem) : Does cfg p (i ++ r) (j ++ r) := by
  intro m a c ops h
  rw [List.append_assoc, hp (r ++ m) a c _ h, List.append_assoc]

theorem Does.nil : Does cfg [] i i := fun _ _ _ _ _ => rfl

theorem Does.run (hp : Does cfg p i j) (m a : List Elem) : run cfg p ⟨i ++ m, a, []⟩ = some ⟨j ++ m, a, []⟩ := by
  have := hp m a [] [] rfl
  rw [List.append_nil] at this
  exact this

theorem Does.cons {op : Op} (hp : Does cfg [op] i j) (hq : Does cfg q j k) : Does cfg (op :: q) i k := hp.seq hq

/-- The nesting depth after a fragment, if it never closes a branch it has not opened. -/
def depthAfter : Nat → List Op → Option Nat
  | d, [] => some d
  | d, .opif :: p => depthAfter (d + 1) p
  | 0, .opelse :: _ => none
  | d + 1, .opelse :: p => depthAfter (d + 1) p
  | 0, .opendif :: _ => none
  | d + 1, .opendif :: p => depthAfter d p
  | d, _ :: p => depthAfter d p

theorem live_append_false {l c : List Bool} (h : live c = false) : live (l ++ c) = false := by
  unfold live at *
  rw [List.all_append, h, Bool.and_false]

theorem skips_aux {c : List Bool} (h : live c = false) {m a : List Elem} {ops : List Op} : ∀ (p : List Op) (d d' : Nat),
    depthAfter d p = some d' → ∀ l : List Bool, l.length = d →
    ∃ l' : List Bool, l'.length = d' ∧ run cfg (p ++ ops) ⟨m, a, l ++ c⟩ = run cfg ops ⟨m, a, l' ++ c⟩ := by
  intro p
  induction p with
  | nil => intro d d' hd l hl; cases hd; exact ⟨l, hl, rfl⟩
  | cons op p ih =>
    intro d d' hd l hl
    have hlive := live_append_false (l := l) h
    by_cases h1 : op = .opif
    · subst h1
      obtain ⟨l', h', e⟩ := ih (d + 1) d' hd (false :: l) (by simp [hl])
      refine ⟨l', h', ?_⟩
      rw [← e]
      simp [run_cons, step, hlive]
    by_cases h2 : op = .opelse
    · subst h2
      cases l with
      | nil => subst hl; cases hd
      | cons b l =>
        subst hl
        obtain ⟨l', h', e⟩ := ih (l.length + 1) d' hd ((!b) :: l) rfl
        refine ⟨l', h', ?_⟩
        rw [← e]
        simp [run_cons, step]
    by_cases h3 : op = .opendif
    · subst h3
      cases l with
      | nil => subst hl; cases hd
      | cons b l =>
        subst hl
        obtain ⟨l', h', e⟩ := ih l.length d' hd l rfl
        refine ⟨l', h', ?_⟩
        rw [← e]
        simp [run_cons, step]
    · have hd' : depthAfter d p = some d' := by
        rw [← hd]
        cases op <;> first | rfl | exact absurd rfl h1 | exact absurd rfl h2 | exact absurd rfl h3 |
          (cases d <;> rfl)
      obtain ⟨l', h', e⟩ := ih d d' hd' l hl
      refine ⟨l', h', ?_⟩
      rw [← e]
      cases op <;> first | exact absurd rfl h1 | exact absurd rfl h2 | exact absurd rfl h3 |
        simp [run_cons, step, hlive]

/-- A fragment whose branches are balanced is skipped as a whole. -/
theorem skipsDead_of_balanced (hp : depthAfter 0 p = some 0) : SkipsDead cfg p := by
  intro m a c ops h
  obtain ⟨l', h', e⟩ := skips_aux (cfg := cfg) (m := m) (a := a) (ops := ops) h p 0 0 hp [] rfl
  rw [List.length_eq_zero_iff] at h'
  subst h'
  exact e

end TapStark
