import Verif.Proofs.DslMixed
import Verif.Props.Express
import Verif.Proofs.StarkComplete
import Verif.Model.TraceScript

/-
The script of the folded constraints: selectors, constraint expressions, and the variables around them.
-/

namespace TapStark.Stark

open TapStark.Fri

section

variable {K : Variable → Kind} {env : Variable → Val} {m : InputManager} {n : Nat} {H P : Expr → Prop}

/-! ### Selectors -/

theorem unshiftedExpr_makes (h : Built K H m n P) (shift : BB) (point : BB4) :
    Makes bb4Field K H env P m (unshiftedExpr shift point n).2 (unshiftedExpr shift point n).1
      (point * algebraMap BB BB4 shift⁻¹) := by
  obtain ⟨P1, b1, s1, -⟩ := makes_const (env := env) bb4Field_ok h 0
  unfold unshiftedExpr
  by_cases hs : shift = 1
  · simp only [hs, if_true]
    obtain ⟨P2, b2, s2, d2⟩ := makes_const (env := env) bb4Field_ok b1 (point * algebraMap BB BB4 (1 : BB)⁻¹)
    exact ⟨P2, b2, fun s hs => s2 s (s1 s hs), d2⟩
  · simp only [hs, if_false]
    obtain ⟨P2, b2, s2, d2⟩ := makes_const (env := env) bb4Field_ok b1 point
    obtain ⟨P3, b3, s3, d3⟩ := makes_const (env := env) bbField_ok b2 shift⁻¹
    obtain ⟨P4, b4, s4, d4⟩ := makes_mulBase b3 (d2.mono s3) d3
    exact ⟨P4, b4, fun s hs => s4 s (s3 s (s2 s (s1 s hs))), d4⟩

theorem selectorsExpr_makes (h : Built K H m n P) {shift : BB} {point : BB4} {logN : Nat} (hs : shift ≠ 0)
    (hl : logN ≤ 27) (h1 : point * algebraMap BB BB4 shift⁻¹ - 1 ≠ 0)
    (h2 : point * algebraMap BB BB4 shift⁻¹ - algebraMap BB BB4 (bbGen logN)⁻¹ ≠ 0) :
    ∃ sels n', selectorsAtPointExpr shift point logN n = some (sels, n') ∧
      eval env sels.zH = some [bb4Field.val ((point * algebraMap BB BB4 shift⁻¹) ^ (2 ^^^ logN))] ∧
      ∃ P', Built K H m n' P' ∧ (∀ s, P s → P' s) ∧
        Den bb4Field K H env P' sels.isFirstRow
          (((point * algebraMap BB BB4 shift⁻¹) ^ 2 ^ logN - 1) * (point * algebraMap BB BB4 shift⁻¹ - 1)⁻¹) ∧
        Den bb4Field K H env P' sels.isLastRow
          (((point * algebraMap BB BB4 shift⁻¹) ^ 2 ^ logN - 1) *
            (point * algebraMap BB BB4 shift⁻¹ - algebraMap BB BB4 (bbGen logN)⁻¹)⁻¹) ∧
        Den bb4Field K H env P' sels.isTransition
          (point * algebraMap BB BB4 shift⁻¹ - algebraMap BB BB4 (bbGen logN)⁻¹) := by
  obtain ⟨P1, b1, s1, d1⟩ := unshiftedExpr_makes (env := env) h shift point
  have b2 := b1.mono (Nat.le_succ (unshiftedExpr shift point n).2)
  obtain ⟨P3, b3, s3, d3⟩ := makes_const (env := env) bb4Field_ok b2
    (((point * algebraMap BB BB4 shift⁻¹) ^ 2 ^ logN - 1) * (point * algebraMap BB BB4 shift⁻¹ - 1)⁻¹)
  obtain ⟨P4, b4, s4, d4⟩ := makes_const (env := env) bb4Field_ok b3
    (((point * algebraMap BB BB4 shift⁻¹) ^ 2 ^ logN - 1) *
            (point * algebraMap BB BB4 shift⁻¹ - algebraMap BB BB4 (bbGen logN)⁻¹)⁻¹)
  obtain ⟨P5, b5, s5, d5⟩ := makes_const (env := env) bbField_ok b4 (bbGen logN)⁻¹
  obtain ⟨P6, b6, s6, d6⟩ := makes_subBase b5 (((d1.mono s3).mono s4).mono s5) d5
  unfold selectorsAtPointExpr
  rw [if_neg (by rintro (h | h); exacts [hs h, by omega])]
  simp only [inverse?, if_neg h1, if_neg h2, Option.bind_eq_bind, Option.bind_some]
  refine ⟨_, _, rfl, ?_, P6, b6, fun s hs => s6 s (s5 s (s4 s (s3 s (s1 s hs)))), ((d3.mono s4).mono s5).mono s6,
    (d4.mono s5).mono s6, d6⟩
  show eval env (Dsl.expConstant 4 _ _ _).1 = _
  rw [Dsl.expConstant, Dsl.mk, eval, evalArgs_one, d1.eval]
  simp only [Option.map_some, Option.bind_some, Opc.denote, bb4Field_ok.pow]

/-! ### Constraints -/

/-- The values the expressions of the AIR stand for are inputs of the manager or selectors. -/
structure TraceDen (K : Variable → Kind) (H : Expr → Prop) (env : Variable → Val) (P : Expr → Prop) (m : InputManager)
    (sels : SelectorsExpr) (width numPublic : Nat) (v : Meaning BB4) : Prop where
  loc : ∀ c < width, (mainVar 0 c, bb4Field.u32 (v.loc c)) ∈ m.inputs
  nxt : ∀ c < width, (mainVar 1 c, bb4Field.u32 (v.nxt c)) ∈ m.inputs
  pub : ∀ i < numPublic, (pubVar i, bb4Field.u32 (v.pub i)) ∈ m.inputs
  first : Den bb4Field K H env P sels.isFirstRow v.first
  last : Den bb4Field K H env P sels.isLastRow v.last
  trans : Den bb4Field K H env P sels.isTransition v.trans

variable {sels : SelectorsExpr} {width numPublic : Nat} {v : Meaning BB4}

theorem TraceDen.mono {P' : Expr → Prop} (h : TraceDen K H env P m sels width numPublic v) (hP : ∀ s, P s → P' s) :
    TraceDen K H env P' m sels width numPublic v :=
  { h with first := h.first.mono hP, last := h.last.mono hP, trans := h.trans.mono hP }

theorem aexpr_makes (ha : m.Agrees K env) : ∀ (x : AExpr BB) {n : Nat} {P : Expr → Prop}, Built K H m n P →
    TraceDen K H env P m sels width numPublic v → x.InRange width numPublic →
    ∃ e n', x.script width numPublic sels n = some (e, n') ∧
      Makes bb4Field K H env P m n' e (x.value (algebraMap BB BB4) v) := by
  intro x
  induction x with
  | loc c =>
    intro n P h hd hr
    have hr : c < width := hr
    rw [AExpr.script, if_pos hr]
    exact ⟨_, _, rfl, makes_copy bb4Field_ok h ha (hd.loc c hr) (by simp [mainVar])⟩
  | nxt c =>
    intro n P h hd hr
    have hr : c < width := hr
    rw [AExpr.script, if_pos hr]
    exact ⟨_, _, rfl, makes_copy bb4Field_ok h ha (hd.nxt c hr) (by simp [mainVar])⟩
  | pub i =>
    intro n P h hd hr
    have hr : i < numPublic := hr
    rw [AExpr.script, if_pos hr]
    exact ⟨_, _, rfl, makes_copy bb4Field_ok h ha (hd.pub i hr) (by simp [pubVar])⟩
  | isFirstRow => exact fun h hd _ => ⟨_, _, rfl, _, h, fun _ h => h, hd.first⟩
  | isLastRow => exact fun h hd _ => ⟨_, _, rfl, _, h, fun _ h => h, hd.last⟩
  | isTransition => exact fun h hd _ => ⟨_, _, rfl, _, h, fun _ h => h, hd.trans⟩
  | const c => exact fun h hd _ => ⟨_, _, rfl, makes_const bb4Field_ok h _⟩
  | add x y ihx ihy =>
    intro n P h hd hr
    obtain ⟨e1, n1, q1, P1, b1, s1, d1⟩ := ihx h hd hr.1
    obtain ⟨e2, n2, q2, P2, b2, s2, d2⟩ := ihy b1 (hd.mono s1) hr.2
    obtain ⟨P3, b3, s3, d3⟩ := makes_add bb4Field_ok b2 (d1.mono s2) d2
    rw [AExpr.script]
    simp only [q1, q2, Option.bind_eq_bind, Option.bind_some]
    exact ⟨_, _, rfl, P3, b3, fun s hs => s3 s (s2 s (s1 s hs)), d3⟩
  | sub x y ihx ihy =>
    intro n P h hd hr
    obtain ⟨e1, n1, q1, P1, b1, s1, d1⟩ := ihx h hd hr.1
    obtain ⟨e2, n2, q2, P2, b2, s2, d2⟩ := ihy b1 (hd.mono s1) hr.2
    obtain ⟨P3, b3, s3, d3⟩ := makes_sub bb4Field_ok b2 (d1.mono s2) d2
    rw [AExpr.script]
    simp only [q1, q2, Option.bind_eq_bind, Option.bind_some]
    exact ⟨_, _, rfl, P3, b3, fun s hs => s3 s (s2 s (s1 s hs)), d3⟩
  | neg x ihx =>
    intro n P h hd hr
    obtain ⟨e1, n1, q1, P1, b1, s1, d1⟩ := ihx h hd hr
    obtain ⟨P3, b3, s3, d3⟩ := makes_neg bb4Field_ok b1 d1
    rw [AExpr.script]
    simp only [q1, Option.bind_eq_bind, Option.bind_some]
    exact ⟨_, _, rfl, P3, b3, fun s hs => s3 s (s1 s hs), d3⟩
  | mul x y ihx ihy =>
    intro n P h hd hr
    obtain ⟨e1, n1, q1, P1, b1, s1, d1⟩ := ihx h hd hr.1
    obtain ⟨e2, n2, q2, P2, b2, s2, d2⟩ := ihy b1 (hd.mono s1) hr.2
    obtain ⟨P3, b3, s3, d3⟩ := makes_mul bb4Field_ok b2 (d1.mono s2) d2
    rw [AExpr.script]
    simp only [q1, q2, Option.bind_eq_bind, Option.bind_some]
    exact ⟨_, _, rfl, P3, b3, fun s hs => s3 s (s2 s (s1 s hs)), d3⟩

theorem residue_expr (a : Assertion BB) (v : Meaning BB4) :
    a.expr.value (algebraMap BB BB4) v = a.residue (algebraMap BB BB4) v := by
  cases a <;> simp [Assertion.expr, Assertion.residue, Assertion.sides, AExpr.value]

theorem constraints_makes (ha : m.Agrees K env) : ∀ (as : List (Assertion BB)) {n : Nat} {P : Expr → Prop},
    Built K H m n P → TraceDen K H env P m sels width numPublic v → (∀ a ∈ as, a.InRange width numPublic) →
    ∃ cs n', constraintExprs width numPublic sels as n = some (cs, n') ∧
      ∃ P', Built K H m n' P' ∧ (∀ s, P s → P' s) ∧
        List.Forall₂ (Den bb4Field K H env P') cs (as.map fun a => a.residue (algebraMap BB BB4) v) := by
  intro as
  induction as with
  | nil => exact fun h _ _ => ⟨[], _, rfl, _, h, fun _ h => h, .nil⟩
  | cons a as ih =>
    intro n P h hd hr
    have hr1 : a.expr.InRange width numPublic := by
      have := hr a (List.mem_cons_self ..)
      cases a <;> exact this
    obtain ⟨e1, n1, q1, P1, b1, s1, d1⟩ := aexpr_makes ha a.expr h hd hr1
    obtain ⟨cs, n2, q2, P2, b2, s2, d2⟩ := ih b1 (hd.mono s1) fun a ha => hr a (List.mem_cons_of_mem _ ha)
    rw [constraintExprs]
    simp only [q1, q2, Option.bind_eq_bind, Option.bind_some]
    refine ⟨_, _, rfl, P2, b2, fun s hs => s2 s (s1 s hs), ?_⟩
    rw [List.map_cons, ← residue_expr]
    exact .cons (d1.mono s2) d2

/-! ### The accumulator -/

theorem accumulatorLoop_makes {alpha : Expr} {x : BB4} : ∀ {cs : List Expr} {vs : List BB4} {acc : Expr} {y : BB4} {n : Nat}
    {P : Expr → Prop}, Built K H m n P → Den bb4Field K H env P alpha x →
    List.Forall₂ (Den bb4Field K H env P) cs vs → Den bb4Field K H env P acc y →
    Makes bb4Field K H env P m (accumulatorLoop alpha cs acc n).2 (accumulatorLoop alpha cs acc n).1
      (vs.foldl (fun acc c => acc * x + c) y) := by
  intro cs
  induction cs with
  | nil =>
    intro vs acc y n P h _ hc hy
    cases hc
    exact ⟨P, h, fun _ h => h, hy⟩
  | cons c cs ih =>
    intro vs acc y n P h ha hc hy
    cases hc with
    | cons hd htl =>
      obtain ⟨P1, b1, s1, d1⟩ := makes_mul bb4Field_ok h hy ha
      obtain ⟨P2, b2, s2, d2⟩ := makes_add bb4Field_ok b1 d1 (hd.mono s1)
      obtain ⟨P3, b3, s3, d3⟩ := ih b2 ((ha.mono s1).mono s2) (htl.imp fun _ _ h => (h.mono s1).mono s2) d2
      exact ⟨P3, b3, fun s hs => s3 s (s2 s (s1 s hs)), d3⟩

/-- The expression of the accumulator has the value of the folded constraints. -/
theorem accumulator_makes {alpha : Expr} {x : BB4} {cs : List Expr} {vs : List BB4} (h : Built K H m n P)
    (ha : Den bb4Field K H env P alpha x) (hc : List.Forall₂ (Den bb4Field K H env P) cs vs) (hne : cs ≠ []) :
    ∃ e n', accumulatorExpr alpha cs n = some (e, n') ∧ Makes bb4Field K H env P m n' e (combine x vs) := by
  cases hc with
  | nil => exact absurd rfl hne
  | @cons c v cs vs hd htl =>
    refine ⟨_, _, rfl, ?_⟩
    have := accumulatorLoop_makes h ha htl hd
    rwa [← foldl_combine, List.foldl_cons, zero_mul, zero_add]

/-! ### The check -/

/-- `equal_verify` of built expressions: the set stays well formed, and the script of the check does not need the cache
for it. -/
theorem equalVerify_good (h : Built K NoNodes m n P) {a b : Expr} {x y : BB4} (ha : Den bb4Field K NoNodes env P a x)
    (hb : Den bb4Field K NoNodes env P b y) :
    Good K (n + 1) (ins (.node (n + 1) .equalVerify 0 [a, b]) P) ∧
      MultiOk (.node (n + 1) .equalVerify 0 [a, b]) ∧ kinds K (.node (n + 1) .equalVerify 0 [a, b]) = [] ∧
      eval env (.node (n + 1) .equalVerify 0 [a, b]) = if x = y then some [] else none := by
  obtain ⟨k, hk1, hk2, hk3⟩ := ha.kind
  obtain ⟨l, hl1, hl2, hl3⟩ := hb.kind
  have h4 : bb4Field.consts.size = 4 := rfl
  have hg : Good K (n + 1) (ins (.node (n + 1) .equalVerify 0 [a, b]) P) := by
    refine h.good.ins (fun s hs => ?_) (Nat.le_succ n) (Nat.le_refl _) ?_ ?_ ?_ ?_ ?_ ?_
    · have := h.good.le s hs; omega
    · intro c hc
      rcases List.mem_cons.mp hc with rfl | hc
      · exact ⟨ha.mem, ha.varSize bb4Field_ok h.good⟩
      · rw [List.mem_singleton] at hc
        subst hc
        exact ⟨hb.mem, hb.varSize bb4Field_ok h.good⟩
    · rw [List.map_cons, List.map_cons, hk1, hl1]
      exact ⟨k, l, rfl, .inl ⟨hk2.ext (hk3.trans h4), hl2.ext (hl3.trans h4)⟩, rfl⟩
    · intro k hk
      cases hk
    · rintro (h | ⟨_, _, h⟩) <;> cases h
    · intro v hv; cases hv
    · intro v hv; cases hv
  have hargs : ∀ c ∈ [a, b], P c := by
    intro c hc
    rcases List.mem_cons.mp hc with rfl | hc
    · exact ha.mem
    · rw [List.mem_singleton] at hc
      subst hc
      exact hb.mem
  refine ⟨hg, ?_, ?_, ?_⟩
  · intro s hs hm
    rcases hs.cases' with rfl | ⟨c, hc, hs⟩
    · left
      show simulate (.node (n + 1) .equalVerify 0 [a, b]) (fun _ => 0) (n + 1) ≤ 1
      rw [simulate_node, if_neg (by simp), simulateArgs_same, upd_self]
      intro c hc s hs
      have := h.good.le s (h.good.sub hs (hargs c hc))
      omega
    · exact (h.multi s (h.good.sub hs (hargs c hc)) hm).elim
  · rw [kinds_node]; rfl
  · rw [eval, evalArgs_two, ha.eval, hb.eval]
    simp only [Option.map_some, Option.bind_some, Opc.denote]
    by_cases he : x = y
    · rw [if_pos he, if_pos (by rw [he])]
    · rw [if_neg he, if_neg fun h => he (bb4Field_ok.inj _ _ h)]

end

/-! ### The variables -/

theorem pushInputs_append (T : TrackerLib) : ∀ (l k : List (Variable × List Nat)) (s : Tracker × (Variable → Option SVar)),
    InputManager.pushInputs T (l ++ k) s = InputManager.pushInputs T l (InputManager.pushInputs T k s)
  | [], _, _ => rfl
  | (v, x) :: l, k, s => by
    rw [List.cons_append, InputManager.pushInputs, pushInputs_append T l k s, InputManager.pushInputs]

theorem setVariables_eq : ∀ (l : List (Variable × List Nat)) (s : Tracker × (Variable → Option SVar)),
    setVariables l s = InputManager.pushInputs refTracker l.reverse s
  | [], _ => rfl
  | (v, x) :: l, (t, vg) => by
    rw [setVariables, setVariables_eq l, List.reverse_cons, pushInputs_append]
    rfl

/-- The variables are on the stack in the order of the list. -/
theorem pushInputs_order (T : TrackerLib) : ∀ {l : List (Variable × List Nat)} {t t' : Tracker}
    {vg vg' : Variable → Option SVar}, (l.map Prod.fst).Nodup → InputManager.pushInputs T l (t, vg) = (t', vg') →
    ∃ vs, t'.vars = vs ++ t.vars ∧ List.Forall₂ (fun v sv => vg' v = some sv) (l.map Prod.fst) vs := by
  intro l
  induction l with
  | nil => intro t t' vg vg' _ h; cases h; exact ⟨[], rfl, .nil⟩
  | cons p l ih =>
    intro t t' vg vg' hn h
    obtain ⟨v, x⟩ := p
    rw [List.map_cons, List.nodup_cons] at hn
    obtain ⟨vs, hv, hf⟩ := ih (t' := (InputManager.pushInputs T l (t, vg)).1)
      (vg' := (InputManager.pushInputs T l (t, vg)).2) hn.2 rfl
    rw [InputManager.pushInputs] at h
    cases h
    refine ⟨⟨(InputManager.pushInputs T l (t, vg)).1.next, x.length⟩ :: vs, ?_, ?_⟩
    · show _ :: (InputManager.pushInputs T l (t, vg)).1.vars = _
      rw [hv]
      rfl
    · rw [List.map_cons]
      refine .cons (if_pos rfl) ?_
      refine List.forall₂_iff_get.mpr ⟨hf.length_eq, fun i h1 h2 => ?_⟩
      have := (List.forall₂_iff_get.mp hf).2 i h1 h2
      refine (if_neg fun e => hn.1 ?_).trans this
      rw [← e]
      exact List.get_mem ..

/-- Dropping variables from the top. -/
theorem dropVariables_ok (D : Nat → List Op) {vg : Variable → Option SVar} : ∀ {l : List Variable} {vs : List SVar},
    List.Forall₂ (fun v sv => vg v = some sv) l vs → ∀ {t : Tracker} {rest : List SVar}, t.vars = vs ++ rest →
    dropVariables D vg l t =
      some ⟨rest, t.alt, t.next, t.script ++ vs.flatMap fun v => D v.size⟩ := by
  intro l vs h
  induction h with
  | nil =>
    intro t rest hv
    cases t
    cases hv
    simp [dropVariables]
  | @cons v sv l vs h1 _ ih =>
    intro t rest hv
    obtain ⟨vars, alt, next, script⟩ := t
    cases hv
    rw [dropVariables]
    simp only [h1, Option.bind_eq_bind, Option.bind_some, if_true]
    rw [ih rfl]
    simp

theorem run_drops {cfg : Cfg} {D : Nat → List Op} (hD : ∀ x : List Elem, x.length ≤ 4 → Does cfg (D x.length) x [])
    {σ : Nat → List Elem} : ∀ {vs : List SVar}, (∀ v ∈ vs, (σ v.id).length = v.size ∧ v.size ≤ 4) →
    ∀ (m a : List Elem) (ops : List Op),
    run cfg ((vs.flatMap fun v => D v.size) ++ ops) ⟨stackOf σ vs ++ m, a, []⟩ = run cfg ops ⟨m, a, []⟩ := by
  intro vs
  induction vs with
  | nil => intro _ m a ops; rfl
  | cons v vs ih =>
    intro h m a ops
    obtain ⟨h1, h2⟩ := h v (List.mem_cons_self ..)
    rw [List.flatMap_cons, List.append_assoc, stackOf_cons, List.append_assoc, ← h1,
      hD (σ v.id) (by omega) _ _ _ _ rfl]
    exact ih (fun v hv => h v (List.mem_cons_of_mem _ hv)) m a ops

/-! ### The script -/

section

variable {cfg : Cfg} {L : U31Lib} {T : TrackerLib} {D : Nat → List Op} {K : Variable → Kind} {env : Variable → Val}
variable {n : Nat} {P : Expr → Prop}

/-- The manager with given inputs. -/
def managerOf (vars : List (Variable × List Nat)) : InputManager := ⟨0, vars.reverse, [], none, []⟩

theorem foldScript_run (hL : L.Ok cfg) (hT : T.Ok cfg)
    (hD : ∀ x : List Elem, x.length ≤ 4 → Does cfg (D x.length) x []) {vars : List (Variable × List Nat)}
    (ha : (managerOf vars).Agrees K env) (hrow : ∀ p ∈ vars, p.1.row ≠ 5) (h : Built K NoNodes (managerOf vars) n P)
    {alpha : Expr} {x : BB4} {cs : List Expr} {vs : List BB4} (hal : Den bb4Field K NoNodes env P alpha x)
    (hc : List.Forall₂ (Den bb4Field K NoNodes env P) cs vs) (hne : cs ≠ []) (claimed : BB4) (m a : List Elem) :
    ∃ p, foldScript L T D vars alpha cs claimed n = some p ∧
      run cfg p ⟨m, a, []⟩ = if combine x vs = claimed then some ⟨num 1 :: m, a, []⟩ else none := by
  have hinp : (managerOf vars).inputs = vars.reverse := by simp [managerOf, InputManager.inputs]
  have hmem : ∀ p, p ∈ (managerOf vars).inputs ↔ p ∈ vars := by intro p; rw [hinp, List.mem_reverse]
  have hnd : (vars.reverse.map Prod.fst).Nodup := hinp ▸ ha.nodup
  -- the variables
  obtain ⟨t, vg, σ, ws, e1, ht, hv, halt, -, -, -, -, hp, -, -, hinj⟩ :=
    pushInputs_inv (vg := fun _ => none) (refTracker_ok cfg) (tInv_new cfg m a) hnd
      fun p hp => constVal_len (ha.vals p (hinp ▸ hp))
  obtain ⟨ws', hv', horder⟩ := pushInputs_order refTracker hnd e1
  have hvars : t.vars = ws := by rw [hv]; simp [Tracker.new]
  have : ws' = ws := by
    rw [hv'] at hv
    exact List.append_cancel_right hv
  subst this
  -- the expression
  obtain ⟨acc, n1, eacc, P1, b1, s1, d1⟩ := accumulator_makes h hal hc hne
  obtain ⟨P2, b2, s2, d2⟩ := makes_const (env := env) bb4Field_ok b1 claimed
  obtain ⟨hg, hmu, hk, he⟩ := equalVerify_good b2 (d1.mono s2) d2
  have hprov : ∀ s v, ins (.node ((Dsl.constant (bb4Field.u32 claimed) n1).2 + 1) .equalVerify 0
      [acc, (Dsl.constant (bb4Field.u32 claimed) n1).1]) P2 s → Reads s v → v ∈ vars.map Prod.fst := by
    rintro s v (rfl | hs) hr
    · rcases hr with hr | hr <;> cases hr
    · have := b2.prov s v hs hr
      rw [hinp, List.map_reverse, List.mem_reverse] at this
      exact this
  have hnomove : ∀ s v, ins (.node ((Dsl.constant (bb4Field.u32 claimed) n1).2 + 1) .equalVerify 0
      [acc, (Dsl.constant (bb4Field.u32 claimed) n1).1]) P2 s → s.opc ≠ .inputMove v := by
    intro s v hs hv
    obtain ⟨p, hp, e⟩ := List.mem_map.mp (hprov s v hs (.inl hv))
    rcases hs with rfl | hs
    · cases hv
    · exact hrow p hp (e ▸ b2.moves s v hs hv)
  have hat : InputsAt vg K env σ t.vars (.node ((Dsl.constant (bb4Field.u32 claimed) n1).2 + 1) .equalVerify 0
      [acc, (Dsl.constant (bb4Field.u32 claimed) n1).1]) := by
    intro s v hs hr
    obtain ⟨p, hp', rfl⟩ := List.mem_map.mp (hprov s v (hg.sub hs ins_self) hr)
    have hp1 := (hmem p).mpr hp'
    obtain ⟨sv, h1, h2, h3⟩ := hp p (List.mem_reverse.mpr hp')
    refine ⟨ha.kinds p hp1 ▸ constVal_has (ha.vals p hp1), sv, hvars ▸ h1, h2, ?_⟩
    rw [h3, (constVal_ok (ha.vals p hp1)).1]
  have hmv : MovesOnce vg (.node ((Dsl.constant (bb4Field.u32 claimed) n1).2 + 1) .equalVerify 0
      [acc, (Dsl.constant (bb4Field.u32 claimed) n1).1]) :=
    fun s _ v _ hs _ h1 => absurd h1 (hnomove s v (hg.sub hs ins_self))
  obtain ⟨us, t', rest, ec, hlen, hvs, halt', hsub, hmoved, hrun⟩ :=
    C54_shared hL hT (hg.wellTyped ins_self) (hg.shared ins_self) hmv hmu ht hat
  rw [hk] at hlen
  have hus : us = [] := List.eq_nil_of_length_eq_zero hlen
  subst hus
  have hrest : rest = t.vars := by
    have hnd : t.vars.Nodup := List.Nodup.of_map _ ht.nodupVars
    exact hsub.eq_of_length_le (List.Subperm.length_le (List.subperm_of_subset hnd fun v hv =>
      (hmoved v hv).mpr fun ⟨s, w, hs, h, _⟩ => hnomove s w (hg.sub hs ins_self) h))
  subst hrest
  have hdrop := dropVariables_ok D horder (t := t') (rest := []) (by rw [hvs, hvars]; simp)
  refine ⟨(t'.script ++ ws'.flatMap fun v => D v.size) ++ [.num 1], ?_, ?_⟩
  · unfold foldScript
    have ec' : compile L T vg true (Dsl.equalVerifyC acc (bb4Field.u32 claimed) n1).1 t = some ([], t') := ec
    simp only [setVariables_eq, e1, eacc, ec', Option.bind_eq_bind, Option.bind_some, hdrop]
  · rw [List.append_assoc, run_append, hrun, he]
    split
    · simp only [Option.map_some, Option.bind_some, List.map_nil, List.flatten_nil, List.nil_append, hvars]
      rw [run_drops hD (fun v hv => ⟨ht.sized σ rfl v (List.mem_append_left _ (hvars ▸ hv)),
        ht.small v (List.mem_append_left _ (hvars ▸ hv))⟩), halt]
      rfl
    · rfl

end

end TapStark.Stark
