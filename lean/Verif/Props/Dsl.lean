import Verif.Proofs.DslField
import Verif.Props.Express

/-
C59: what a manager with embedded hint checks accepts.
-/

namespace TapStark

section

variable {K : Variable → Kind} {env : Variable → Val} {n : Nat} {P : Expr → Prop}
variable {cfg : Cfg} {L : U31Lib} {T : TrackerLib} {m : InputManager} {e : Expr}

theorem sub_embed_left : ∀ (hs : List Expr) {e s : Expr} (n : Nat), Sub s e → Sub s (InputManager.embed e hs n).1 := by
  intro hs
  induction hs with
  | nil => exact fun _ h => h
  | cons h hs ih => exact fun n hse => ih (n + 1) (.arg (List.mem_cons_self ..) hse)

theorem sub_embed_right : ∀ (hs : List Expr) {e s h : Expr} (n : Nat), h ∈ hs → Sub s h →
    Sub s (InputManager.embed e hs n).1 := by
  intro hs
  induction hs with
  | nil => exact fun _ h => by cases h
  | cons h hs ih =>
    intro e s h' n hh hs'
    rcases List.mem_cons.mp hh with rfl | hh
    · exact sub_embed_left hs (n + 1) (.arg (List.mem_cons_of_mem _ (List.mem_cons_self ..)) hs')
    · exact ih (n + 1) hh hs'

theorem sub_embed : ∀ (hs : List Expr) {e s : Expr} {n : Nat}, Sub s (InputManager.embed e hs n).1 →
    s.opc = .equal ∨ Sub s e ∨ ∃ h ∈ hs, Sub s h := by
  intro hs
  induction hs with
  | nil => exact fun h => .inr (.inl h)
  | cons h hs ih =>
    intro e s n hse
    rcases ih (n := n + 1) hse with h1 | h1 | ⟨h', hh, h1⟩
    · exact .inl h1
    · cases h1 with
      | refl => exact .inl rfl
      | arg ha hs' =>
        rcases List.mem_cons.mp ha with rfl | ha
        · exact .inr (.inl hs')
        · rw [List.mem_singleton] at ha
          subst ha
          exact .inr (.inr ⟨_, List.mem_cons_self .., hs'⟩)
    · exact .inr (.inr ⟨h', List.mem_cons_of_mem _ hh, h1⟩)

/-- C59, what the code decides: after `embed_hint_verify`, `run` accepts iff every input is used, no comparison of
extension field elements fails, and the number of checks that do not hold, of the main check and the hint checks
together, is even. -/
theorem C59_exact (hL : L.Ok cfg) (hT : T.Ok cfg) (hg : Good K n P) (he : P e) (hP : ∀ h ∈ m.hint, P h)
    (hm : m.Agrees K env) (hp : m.Provides P) (hx : m.exec = some e) {r : Option Bool} {rs : List (Option Bool)}
    (hr : IsCheck K env e r) (hrs : List.Forall₂ (IsCheck K env) m.hint rs)
    (hmu : MultiOk (InputManager.embed e m.hint n).1) :
    ∃ m' n', m.embedHintVerify n = some (m', n') ∧
      (m'.run cfg L T = some () ↔ EvenFailures (r :: rs) ∧
        ∀ p ∈ m.inputs, ∃ s, (Sub s e ∨ ∃ h ∈ m.hint, Sub s h) ∧ s.opc = .inputMove p.1) := by
  obtain ⟨P', g1, g2, g3, g4, g5, g6, g7⟩ := embed_check hg he (hg.size e _ he hr.1) hr hP hrs
  refine ⟨{ m with exec := some (InputManager.embed e m.hint n).1 }, (InputManager.embed e m.hint n).2, ?_, ?_⟩
  · simp [InputManager.embedHintVerify, hx]
  · rw [manager_run (m := { m with exec := some (InputManager.embed e m.hint n).1 }) hL hT g1 g2 ⟨hm.vals, hm.kinds, hm.nodup⟩
      (fun s v hs hv => hp s v (g4 s v hs hv) hv) hmu rfl g7,
      xnor_fold]
    refine and_congr_right fun _ => forall₂_congr fun p hp1 => ?_
    constructor
    · rintro ⟨s, hs, ho⟩
      refine ⟨s, ?_, ho⟩
      rcases sub_embed _ hs with h | h | h
      · rw [ho] at h; cases h
      · exact .inl h
      · exact .inr h
    · rintro ⟨s, hs | ⟨h, hh, hs⟩, ho⟩
      · exact ⟨s, sub_embed_left _ n hs, ho⟩
      · exact ⟨s, sub_embed_right _ n hh hs, ho⟩

/-- C59, the part that holds: if all inputs are used and at most one check gives false (the others hold, or fail the
whole script), `run` accepts iff the main check and every hint check hold. -/
theorem C59_accepts_partial (hL : L.Ok cfg) (hT : T.Ok cfg) (hg : Good K n P) (he : P e) (hP : ∀ h ∈ m.hint, P h)
    (hm : m.Agrees K env) (hp : m.Provides P) (hx : m.exec = some e) {r : Option Bool} {rs : List (Option Bool)}
    (hr : IsCheck K env e r) (hrs : List.Forall₂ (IsCheck K env) m.hint rs)
    (hmu : MultiOk (InputManager.embed e m.hint n).1)
    (hu : ∀ p ∈ m.inputs, ∃ s, (Sub s e ∨ ∃ h ∈ m.hint, Sub s h) ∧ s.opc = .inputMove p.1)
    (hone : (r :: rs).count (some false) ≤ 1) :
    ∃ m' n', m.embedHintVerify n = some (m', n') ∧
      (m'.run cfg L T = some () ↔ ∀ x ∈ r :: rs, x = some true) := by
  obtain ⟨m', n', h1, h2⟩ := C59_exact hL hT hg he hP hm hp hx hr hrs hmu
  refine ⟨m', n', h1, h2.trans ⟨fun h x hx => ?_, fun h => ⟨⟨fun hn => ?_, ?_⟩, hu⟩⟩⟩
  · obtain ⟨⟨h3, h4⟩, _⟩ := h
    have h0 : (r :: rs).count (some false) = 0 := by omega
    rcases x with _ | _ | _
    · exact absurd hx h3
    · exact absurd hx (List.count_eq_zero.mp h0)
    · rfl
  · cases h _ hn
  · rw [List.count_eq_zero.mpr]
    intro hn
    cases h _ hn

end

/-! ### A manager with two checks -/

section

variable {F : Type} [Field F]

/-- A main check `a = b` and a hint check `c = d`, on inputs `a` and `c`. -/
def twoChecks (B : BfField F) (a b c d : F) : InputManager × Nat :=
  let (x, m, n) := InputManager.new.assignInput (B.u32 a) 0
  let (y, m, n) := m.assignHintInput (B.u32 c) n
  let (p, n) := Dsl.equalC x (B.u32 b) n
  let (q, n) := Dsl.equalC y (B.u32 d) n
  ((m.setExec p).addHintVerify q, n)

theorem twoChecks_run {cfg : Cfg} {L : U31Lib} {T : TrackerLib} (hL : L.Ok cfg) (hT : T.Ok cfg) {B : BfField F}
    (hB : B.Ok) (a b c d : F) :
    ∃ m' n', (twoChecks B a b c d).1.embedHintVerify (twoChecks B a b c d).2 = some (m', n') ∧
      (m'.run cfg L T = some () ↔ EvenFailures [cmp B a b, cmp B c d]) := by
  obtain ⟨K, env, ha⟩ : ∃ K env, (twoChecks B a b c d).1.Agrees K env := by
    refine exists_agrees (by simp [twoChecks, InputManager.inputs, InputManager.setExec, InputManager.addHintVerify,
      InputManager.assignInput, InputManager.assignHintInput, InputManager.new]) ?_
    intro p hp
    have hp : p ∈ [((⟨5, 1, none⟩ : Variable), B.u32 c), (⟨5, 0, none⟩, B.u32 a)] := hp
    simp only [List.mem_cons, List.not_mem_nil, or_false] at hp
    rcases hp with rfl | rfl <;> rw [hB.const] <;> rfl
  have hb0 := Built.new K 0
  have ha' : ((InputManager.new.assignInput (B.u32 a) 0).2.1.assignHintInput (B.u32 c) 1).2.1.Agrees K env :=
    ⟨ha.vals, ha.kinds, ha.nodup⟩
  obtain ⟨P1, h1, s1, d1⟩ := makes_input hB hb0 a
    (InputManager.Agrees.mono (InputManager.le_assignHintInput (B.u32 c) _ 1) ha')
  obtain ⟨P2, h2, s2, d2⟩ := makes_hintInput hB h1 c ha'
  obtain ⟨P3, h3, s3, p3, _, c3⟩ := makes_equalC hB h2 (d1.mono s2) b
  obtain ⟨P4, h4, s4, p4, _, c4⟩ := makes_equalC hB h3 (d2.mono s3) d
  obtain ⟨m', n', e1, e2⟩ := C59_exact (m := (twoChecks B a b c d).1) (n := (twoChecks B a b c d).2) (P := P4) hL hT
    h4.good (s4 _ p3) (fun h hh => by
      rw [show (twoChecks B a b c d).1.hint = [_] from rfl, List.mem_singleton] at hh
      subst hh
      exact p4) ha (fun s v hs hv => h4.prov s v hs hv) rfl c3 (.cons c4 .nil)
    (embed_multiOk h4.good h4.safe (s4 _ p3) id c3 (fun h hh => by
      rw [show (twoChecks B a b c d).1.hint = [_] from rfl, List.mem_singleton] at hh
      subst hh
      exact ⟨p4, id⟩) (.cons c4 .nil))
  refine ⟨m', n', e1, e2.trans (and_iff_left ?_)⟩
  intro p hp
  have hp : p ∈ [((⟨5, 1, none⟩ : Variable), B.u32 c), (⟨5, 0, none⟩, B.u32 a)] := hp
  simp only [List.mem_cons, List.not_mem_nil, or_false] at hp
  rcases hp with rfl | rfl
  · exact ⟨_, .inr ⟨_, List.mem_cons_self .., .arg (List.mem_cons_self ..) (.refl _)⟩, rfl⟩
  · exact ⟨_, .inl (.arg (List.mem_cons_self ..) (.refl _)), rfl⟩

/-- C59 is violated: two wrong checks on base field elements are accepted. -/
theorem C59_violated_two_failures {cfg : Cfg} {L : U31Lib} {T : TrackerLib} (hL : L.Ok cfg) (hT : T.Ok cfg)
    {a b c d : BB} (h1 : a ≠ b) (h2 : c ≠ d) :
    ∃ m' n', (twoChecks bbField a b c d).1.embedHintVerify (twoChecks bbField a b c d).2 = some (m', n') ∧
      m'.run cfg L T = some () := by
  obtain ⟨m', n', e1, e2⟩ := twoChecks_run hL hT bbField_ok a b c d
  refine ⟨m', n', e1, e2.mpr ?_⟩
  rw [cmp, if_neg h1, if_pos (show bbField.consts.size = 1 from rfl), cmp, if_neg h2,
    if_pos (show bbField.consts.size = 1 from rfl)]
  simp [EvenFailures]

/-- C59 for one main check and one hint check on extension field elements: both must hold. -/
theorem C59_ext_checks {cfg : Cfg} {L : U31Lib} {T : TrackerLib} (hL : L.Ok cfg) (hT : T.Ok cfg)
    (a b c d : Stark.BB4) :
    ∃ m' n', (twoChecks bb4Field a b c d).1.embedHintVerify (twoChecks bb4Field a b c d).2 = some (m', n') ∧
      (m'.run cfg L T = some () ↔ a = b ∧ c = d) := by
  obtain ⟨m', n', e1, e2⟩ := twoChecks_run hL hT bb4Field_ok a b c d
  refine ⟨m', n', e1, e2.trans ?_⟩
  by_cases h1 : a = b <;> by_cases h2 : c = d <;> simp [EvenFailures, cmp, h1, h2, bb4Field, bb4Consts]

end

end TapStark
