import Verif.Model.ScriptQuotient
import Verif.Proofs.DslMixed
import Verif.Proofs.MultiSafe
import Verif.Props.Dsl

/-
The quotient check of the script verifier.
-/

namespace TapStark

variable {F : Type} [Field F] {B : BfField F} {K : Variable → Kind} {env : Variable → Val} {m m' : InputManager}
variable {n : Nat} {H P : Expr → Prop}

/-- Running a manager all of whose checks have been built. -/
theorem built_exact {cfg : Cfg} {L : U31Lib} {T : TrackerLib} (hL : L.Ok cfg) (hT : T.Ok cfg) (hb : Built K H m n P)
    (ha : m.Agrees K env) {e : Expr} {r : Option Bool} {rs : List (Option Bool)} (hx : m.exec = some e) (hp : P e)
    (ho : e.opc = .equal) (hr : IsCheck K env e r)
    (hh : List.Forall₂ (fun c r => P c ∧ c.opc = .equal ∧ IsCheck K env c r) m.hint rs) :
    ∃ m' n', m.embedHintVerify n = some (m', n') ∧
      (m'.run cfg L T = some () ↔ EvenFailures (r :: rs) ∧
        ∀ p ∈ m.inputs, ∃ s, (Sub s e ∨ ∃ h ∈ m.hint, Sub s h) ∧ s.opc = .inputMove p.1) := by
  have h1 : ∀ c ∈ m.hint, P c ∧ c.opc = .equal := by
    intro c hc
    obtain ⟨i, hi, rfl⟩ := List.getElem_of_mem hc
    have := (List.forall₂_iff_get.mp hh).2 i hi (by rw [← hh.length_eq]; exact hi)
    exact ⟨this.1, this.2.1⟩
  have h2 : List.Forall₂ (IsCheck K env) m.hint rs := hh.imp fun _ _ h => h.2.2
  exact C59_exact hL hT hb.good hp (fun c hc => (h1 c hc).1) ha hb.prov hx hr h2
    (embed_multiOk hb.good hb.safe hp (by rw [ho]; exact id) hr
      (fun c hc => ⟨(h1 c hc).1, by rw [(h1 c hc).2]; exact id⟩) h2)

namespace Stark

open TapStark.Fri

/-! ### Assigning inputs -/

omit [Field F] in
theorem assignAll_le : ∀ (xs : List F) (m : InputManager) (n : Nat),
    m.Le (assignAll B xs m n).2.1 ∧ (assignAll B xs m n).2.1.hint = m.hint
  | [], m, n => ⟨.refl m, rfl⟩
  | x :: xs, m, n => by
    have ⟨h1, h2⟩ := assignAll_le xs (m.assignInput (B.u32 x) n).2.1 (m.assignInput (B.u32 x) n).2.2
    exact ⟨(InputManager.le_assignInput _ m n).trans h1, h2⟩

omit [Field F] in
theorem assignAll_named (xs : List F) : ∀ {m : InputManager} {n : Nat}, m.Named → (assignAll B xs m n).2.1.Named := by
  induction xs with
  | nil => intro m n h; exact h
  | cons x xs ih => intro m n h; exact ih (h.assignInput (B.u32 x) n)

omit [Field F] in
/-- Every new input is one of the values and is moved by one of the expressions. -/
theorem assignAll_inputs (xs : List F) : ∀ {m : InputManager} {n : Nat}, ∀ p ∈ (assignAll B xs m n).2.1.inputs,
    p ∈ m.inputs ∨ (∃ x, p.2 = B.u32 x) ∧ ∃ e ∈ (assignAll B xs m n).1, e.opc = .inputMove p.1 := by
  induction xs with
  | nil => intro m n p hp; exact .inl hp
  | cons x xs ih =>
    intro m n p hp
    rcases ih p hp with hp | ⟨hx, e, he, ho⟩
    · simp only [InputManager.inputs, InputManager.assignInput, List.mem_append, List.mem_singleton] at hp
      rcases hp with hp | hp | rfl
      · exact .inl (List.mem_append_left _ hp)
      · exact .inl (List.mem_append_right _ hp)
      · exact .inr ⟨⟨x, rfl⟩, _, List.mem_cons_self .., rfl⟩
    · exact .inr ⟨hx, e, List.mem_cons_of_mem _ he, ho⟩

theorem assignAll_ok (hB : B.Ok) : ∀ (xs : List F) {m : InputManager} {n : Nat} {P : Expr → Prop}, Built K H m n P →
    (assignAll B xs m n).2.1.Agrees K env →
    ∃ P', Built K H (assignAll B xs m n).2.1 (assignAll B xs m n).2.2 P' ∧ (∀ s, P s → P' s) ∧
      List.Forall₂ (Den B K H env P') (assignAll B xs m n).1 xs
  | [], m, n, P, hb, _ => ⟨P, hb, fun _ h => h, .nil⟩
  | x :: xs, m, n, P, hb, ha => by
    obtain ⟨P1, b1, s1, d1⟩ := makes_input hB hb x (ha.mono (assignAll_le xs _ _).1)
    obtain ⟨P2, b2, s2, d2⟩ := assignAll_ok hB xs b1 ha
    exact ⟨P2, b2, fun s hs => s2 s (s1 s hs), .cons (d1.mono s2) d2⟩

/-! ### The value of a chunk -/

theorem chunkLoop_ok {opens : List Expr} {vals : List BB4} : ∀ (js : List Nat) {acc : Expr} {x : BB4} {n : Nat}
    {P : Expr → Prop}, Built K H m n P → List.Forall₂ (Den bb4Field K H env P) opens vals →
    Den bb4Field K H env P acc x → (∀ j ∈ js, j < opens.length) →
    ∃ acc' n', chunkLoop opens js acc n = some (acc', n') ∧
      Makes bb4Field K H env P m n' acc' (x + (js.map fun j => vals.getD j 0 * bb4Deg.monomial j).sum) ∧
      Sub acc acc' ∧ ∀ j ∈ js, ∀ o, opens[j]? = some o → Sub o acc'
  | [], acc, x, n, P, hb, _, hx, _ => ⟨acc, n, rfl, ⟨P, hb, fun _ h => h, by simpa using hx⟩, .refl _, by simp⟩
  | j :: js, acc, x, n, P, hb, hf, hx, hj => by
    have hjl : j < opens.length := hj j (List.mem_cons_self ..)
    have hjv : j < vals.length := by rw [← hf.length_eq]; exact hjl
    have ho := (List.forall₂_iff_get.mp hf).2 j hjl hjv
    simp only [List.get_eq_getElem] at ho
    obtain ⟨P1, b1, s1, d1⟩ := makes_const (env := env) bb4Field_ok hb (bb4Deg.monomial j)
    obtain ⟨P2, b2, s2, d2⟩ := makes_mul bb4Field_ok b1 (ho.mono s1) d1
    obtain ⟨P3, b3, s3, d3⟩ := makes_add bb4Field_ok b2 ((hx.mono s1).mono s2) d2
    obtain ⟨acc', n', e, ⟨P4, b4, s4, d4⟩, sub, subs⟩ := chunkLoop_ok js b3
      (hf.imp fun _ _ h => ((h.mono s1).mono s2).mono s3) d3 fun j' h => hj j' (List.mem_cons_of_mem _ h)
    refine ⟨acc', n', ?_, ⟨P4, b4, fun s hs => s4 s (s3 s (s2 s (s1 s hs))), ?_⟩, ?_, ?_⟩
    · rw [← e, chunkLoop, List.getElem?_eq_getElem hjl]
      rfl
    · rw [List.map_cons, List.sum_cons, ← add_assoc, List.getD, List.getElem?_eq_getElem hjv, Option.getD_some]
      exact d4
    · exact Sub.trans (.arg (List.mem_cons_self ..) (.refl _)) sub
    · intro j' hj' o' ho'
      rcases List.mem_cons.mp hj' with rfl | hj'
      · rw [List.getElem?_eq_getElem hjl, Option.some.injEq] at ho'
        subst ho'
        exact Sub.trans (.arg (List.mem_cons_of_mem _ (List.mem_cons_self ..))
          (.arg (List.mem_cons_self ..) (.refl _))) sub
      · exact subs j' hj' o' ho'

end Stark

end TapStark
