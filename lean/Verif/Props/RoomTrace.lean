import Verif.Spec.AirSize
import Verif.Props.RoomProgram

/-
C91: scripts of folded constraints that fit under the limit.
-/

namespace TapStark.Stark

open TapStark.Fri TapStark.Pcs

variable {cfg : Cfg} {L : U31Lib} {T : TrackerLib} {D : Nat → List Op} {n0 n R lim : Nat}

/-! ### The expressions -/

/-- The selectors used by an AIR. -/
structure TidySels (n0 n : Nat) (s : SelectorsExpr) : Prop where
  first : Tidy n0 n s.isFirstRow
  last : Tidy n0 n s.isLastRow
  trans : Tidy n0 n s.isTransition

theorem TidySels.mono {s : SelectorsExpr} (h : TidySels n0 n s) {n' : Nat} (hn : n ≤ n') : TidySels n0 n' s :=
  ⟨h.first.mono hn, h.last.mono hn, h.trans.mono hn⟩

theorem tidy_selectors {point : BB4} {k n' : Nat} {s : SelectorsExpr} (h : selectorsAtPointExpr 1 point k n = some (s, n')) :
    n' = n + 7 ∧ TidySels n n' s := by
  simp only [selectorsAtPointExpr, unshiftedExpr, if_true] at h
  split at h
  · cases h
  · simp only [Option.bind_eq_bind, Option.bind_eq_some_iff] at h
    obtain ⟨x, -, y, -, h⟩ := h
    cases h
    refine ⟨rfl, ?_, ?_, ?_⟩
    · exact (Prog.tidy_const (n0 := n) (n := n + 3) _ (by omega)).mono (by show n + 3 + 1 ≤ n + 7; omega)
    · exact (Prog.tidy_const (n0 := n) (n := n + 4) _ (by omega)).mono (by show n + 4 + 1 ≤ n + 7; omega)
    · refine Tidy.mk (n0 := n) (n := n + 6) rfl (by simp) (by omega) ?_
      intro a ha
      simp only [List.mem_cons, List.not_mem_nil, or_false] at ha
      rcases ha with rfl | rfl
      · exact (Prog.tidy_const (n0 := n) (n := n + 1) _ (by omega)).mono (by omega)
      · exact (Prog.tidy_const (n0 := n) (n := n + 5) _ (by omega)).mono (by omega)

theorem tidy_two {opc : Opc} (ho : opc.isField = true) {size : Nat} {a b : Expr} {n1 n2 : Nat} (hn : n0 ≤ n2) (h : n1 ≤ n2)
    (ha : Tidy n0 n1 a) (hb : Tidy n0 n2 b) : Tidy n0 (n2 + 1) (.node (n2 + 1) opc size [a, b]) :=
  Tidy.mk ho (by simp) hn (by
    intro c hc
    simp only [List.mem_cons, List.not_mem_nil, or_false] at hc
    rcases hc with rfl | rfl
    · exact ha.mono h
    · exact hb)

theorem tidy_aexpr {w np : Nat} {sels : SelectorsExpr} : ∀ (x : AExpr BB) {n n' : Nat} {e : Expr}, n0 ≤ n → TidySels n0 n sels →
    x.script w np sels n = some (e, n') → n' = n + x.nodes ∧ Tidy n0 n' e
  | .loc c, n, n', e, hn, hs, h => by
    rw [AExpr.script] at h
    split at h
    · cases h
      exact ⟨rfl, Tidy.mk rfl (by simp) hn (by simp)⟩
    · cases h
  | .nxt c, n, n', e, hn, hs, h => by
    rw [AExpr.script] at h
    split at h
    · cases h
      exact ⟨rfl, Tidy.mk rfl (by simp) hn (by simp)⟩
    · cases h
  | .pub c, n, n', e, hn, hs, h => by
    rw [AExpr.script] at h
    split at h
    · cases h
      exact ⟨rfl, Tidy.mk rfl (by simp) hn (by simp)⟩
    · cases h
  | .isFirstRow, n, n', e, hn, hs, h => by cases h; exact ⟨rfl, hs.first⟩
  | .isLastRow, n, n', e, hn, hs, h => by cases h; exact ⟨rfl, hs.last⟩
  | .isTransition, n, n', e, hn, hs, h => by cases h; exact ⟨rfl, hs.trans⟩
  | .const c, n, n', e, hn, hs, h => by cases h; exact ⟨rfl, Prog.tidy_const _ hn⟩
  | .add x y, n, n', e, hn, hs, h => by
    rw [AExpr.script] at h
    simp only [Option.bind_eq_bind, Option.bind_eq_some_iff] at h
    obtain ⟨⟨a, n1⟩, h1, ⟨b, n2⟩, h2, h⟩ := h
    cases h
    obtain ⟨rfl, t1⟩ := tidy_aexpr x hn hs h1
    obtain ⟨rfl, t2⟩ := tidy_aexpr y (by omega) (hs.mono (by omega)) h2
    exact ⟨by simp [AExpr.nodes]; omega, tidy_two rfl (by omega) (by omega) t1 t2⟩
  | .sub x y, n, n', e, hn, hs, h => by
    rw [AExpr.script] at h
    simp only [Option.bind_eq_bind, Option.bind_eq_some_iff] at h
    obtain ⟨⟨a, n1⟩, h1, ⟨b, n2⟩, h2, h⟩ := h
    cases h
    obtain ⟨rfl, t1⟩ := tidy_aexpr x hn hs h1
    obtain ⟨rfl, t2⟩ := tidy_aexpr y (by omega) (hs.mono (by omega)) h2
    exact ⟨by simp [AExpr.nodes]; omega, tidy_two rfl (by omega) (by omega) t1 t2⟩
  | .mul x y, n, n', e, hn, hs, h => by
    rw [AExpr.script] at h
    simp only [Option.bind_eq_bind, Option.bind_eq_some_iff] at h
    obtain ⟨⟨a, n1⟩, h1, ⟨b, n2⟩, h2, h⟩ := h
    cases h
    obtain ⟨rfl, t1⟩ := tidy_aexpr x hn hs h1
    obtain ⟨rfl, t2⟩ := tidy_aexpr y (by omega) (hs.mono (by omega)) h2
    exact ⟨by simp [AExpr.nodes]; omega, tidy_two rfl (by omega) (by omega) t1 t2⟩
  | .neg x, n, n', e, hn, hs, h => by
    rw [AExpr.script] at h
    simp only [Option.bind_eq_bind, Option.bind_eq_some_iff] at h
    obtain ⟨⟨a, n1⟩, h1, h⟩ := h
    cases h
    obtain ⟨rfl, t1⟩ := tidy_aexpr x hn hs h1
    exact ⟨by simp [AExpr.nodes]; omega, Tidy.mk rfl (by simp) (by omega) (by simpa using t1)⟩

theorem tidy_constraints {w np : Nat} {sels : SelectorsExpr} : ∀ {as : List (Assertion BB)} {n n' : Nat} {cs : List Expr},
    n0 ≤ n → TidySels n0 n sels → constraintExprs w np sels as n = some (cs, n') →
    n' = n + (as.map fun a => a.expr.nodes).sum ∧ cs.length = as.length ∧ ∀ c ∈ cs, Tidy n0 n' c
  | [], n, n', cs, _, _, h => by cases h; exact ⟨rfl, rfl, by simp⟩
  | a :: as, n, n', cs, hn, hs, h => by
    rw [constraintExprs] at h
    simp only [Option.bind_eq_bind, Option.bind_eq_some_iff] at h
    obtain ⟨⟨c, n1⟩, h1, ⟨cs', n2⟩, h2, h⟩ := h
    cases h
    obtain ⟨rfl, t1⟩ := tidy_aexpr a.expr hn hs h1
    obtain ⟨rfl, hl, t2⟩ := tidy_constraints (by omega) (hs.mono (by omega)) h2
    refine ⟨by simp; omega, by simp [hl], ?_⟩
    intro x hx
    rcases List.mem_cons.mp hx with rfl | hx
    · exact t1.mono (by omega)
    · exact t2 x hx

theorem tidy_accumulator {alpha : Expr} : ∀ {cs : List Expr} {acc : Expr} {n : Nat}, n0 ≤ n → Tidy n0 n alpha →
    Tidy n0 n acc → (∀ c ∈ cs, Tidy n0 n c) → (accumulatorLoop alpha cs acc n).2 = n + 2 * cs.length ∧
      Tidy n0 (n + 2 * cs.length) (accumulatorLoop alpha cs acc n).1
  | [], acc, n, _, _, hacc, _ => ⟨rfl, hacc⟩
  | c :: cs, acc, n, hn, ha, hacc, hc => by
    have t1 : Tidy n0 (n + 1) (Dsl.mul acc alpha n).1 := tidy_two rfl hn (Nat.le_refl _) hacc ha
    have t2 : Tidy n0 (n + 2) (Dsl.add (Dsl.mul acc alpha n).1 c (n + 1)).1 :=
      tidy_two rfl (by omega) (Nat.le_refl _) t1 ((hc c (by simp)).mono (by omega))
    obtain ⟨h1, h2⟩ := tidy_accumulator (cs := cs) (n := n + 2) (by omega) (ha.mono (by omega)) t2
      fun x hx => (hc x (by simp [hx])).mono (by omega)
    rw [List.length_cons, show n + 2 * (cs.length + 1) = n + 2 + 2 * cs.length by omega]
    exact ⟨h1, h2⟩

/-! ### The script -/

theorem drops_fit (hD : ∀ x : List Elem, x.length ≤ 4 → Does cfg (D x.length) x []) (hD' : ∀ s, s ≤ 4 → Fit (D s) s 4)
    {σ : Nat → List Elem} : ∀ {vs : List SVar}, (∀ v ∈ vs, (σ v.id).length = v.size ∧ v.size ≤ 4) →
    ∀ (m a : List Elem), (stackOf σ vs).length + m.length + a.length + 4 ≤ lim →
    runL cfg lim ((vs.flatMap fun v => D v.size) ++ [.num 1]) ⟨stackOf σ vs ++ m, a, []⟩ =
      run cfg ((vs.flatMap fun v => D v.size) ++ [.num 1]) ⟨stackOf σ vs ++ m, a, []⟩ := by
  intro vs
  induction vs with
  | nil =>
    intro _ m a hl
    have h1 : step cfg (.num 1) ⟨m, a, []⟩ = some ⟨num 1 :: m, a, []⟩ := rfl
    have h2 : (stackOf σ []).length = 0 := rfl
    have h3 : stackOf σ [] = [] := rfl
    simp only [List.flatMap_nil, List.nil_append, h3, runL, run, h1, Option.bind_some]
    rw [if_pos (by simp [St.size]; omega)]
  | cons v vs ih =>
    intro h m a hl
    obtain ⟨h1, h2⟩ := h v (List.mem_cons_self ..)
    have hl' : (stackOf σ vs).length + m.length + a.length + 4 ≤ lim := by
      rw [stackOf_cons, List.length_append] at hl
      omega
    have key := hD (σ v.id) (by omega) (stackOf σ vs ++ m) a [] [] rfl
    rw [List.append_nil, h1, List.nil_append, run_nil] at key
    have hfit := hD' v.size h2 cfg lim ⟨stackOf σ (v :: vs) ++ m, a, []⟩ rfl
      (by simp only [St.size, stackOf_cons, List.length_append]; omega)
      (by simp only [St.size, List.length_append]; omega)
    rw [List.flatMap_cons, List.append_assoc, runL_append, run_append, hfit, stackOf_cons, List.append_assoc, key]
    exact ih (fun v hv => h v (List.mem_cons_of_mem _ hv)) m a hl'

section

variable {K : Variable → Kind} {env : Variable → Val} {P : Expr → Prop}

theorem foldScript_fits (hL : L.Ok cfg) (hT : T.Ok cfg) (hS : L.Slim R) (hT' : T.Thrifty)
    (hD : ∀ x : List Elem, x.length ≤ 4 → Does cfg (D x.length) x []) (hD' : ∀ s, s ≤ 4 → Fit (D s) s 4)
    {vars : List (Variable × List Nat)}
    (ha : (managerOf vars).Agrees K env) (hrow : ∀ p ∈ vars, p.1.row ≠ 5) (h : Built K NoNodes (managerOf vars) n P)
    {alpha : Expr} {x : BB4} {cs : List Expr} {vs : List BB4} (hal : Den bb4Field K NoNodes env P alpha x)
    (hc : List.Forall₂ (Den bb4Field K NoNodes env P) cs vs) (hne : cs ≠ []) (claimed : BB4) (m a : List Elem)
    (hn : n0 ≤ n) (tal : Tidy n0 n alpha) (tcs : ∀ c ∈ cs, Tidy n0 n c)
    (hl : m.length + a.length + (vars.map fun v => v.2.length).sum + 8 * (n + 2 * cs.length - n0) + R + 8 ≤ lim)
    {p : List Op} (hp : foldScript L T D vars alpha cs claimed n = some p) :
    runL cfg lim p ⟨m, a, []⟩ = run cfg p ⟨m, a, []⟩ := by
  have hinp : (managerOf vars).inputs = vars.reverse := by simp [managerOf, InputManager.inputs]
  have hmem : ∀ p, p ∈ (managerOf vars).inputs ↔ p ∈ vars := by intro p; rw [hinp, List.mem_reverse]
  have hnd : (vars.reverse.map Prod.fst).Nodup := hinp ▸ ha.nodup
  have hlen4 : ∀ p ∈ vars.reverse, p.2.length ≤ 4 := fun p hp => constVal_len (ha.vals p (hinp ▸ hp))
  -- the variables
  obtain ⟨t, vg, σ, ws, e1, ht, hv, halt, -, -, -, -, hpv, -, -, hinj⟩ :=
    pushInputs_inv (vg := fun _ => none) (refTracker_ok cfg) (tInv_new cfg m a) hnd hlen4
  have hsum : (vars.reverse.map fun v => v.2.length).sum = (vars.map fun v => v.2.length).sum := by
    rw [List.map_reverse, List.sum_reverse]
  have hheld : (Tracker.new).held m a = m.length + a.length := by simp [Tracker.held, Tracker.new, totalSize]
  obtain ⟨f1, f2⟩ := pushInputs_fits (vg := fun _ => none) (lim := lim) (refTracker_ok cfg) refTracker_thrifty
    (tInv_new cfg m a) hnd hlen4 rfl (by rw [hheld, hsum]; omega)
  rw [e1, hheld, hsum] at f2
  rw [e1] at f1
  simp only at f1 f2
  obtain ⟨ws', hv', horder⟩ := pushInputs_order refTracker hnd e1
  have hvars : t.vars = ws := by rw [hv]; simp [Tracker.new]
  have : ws' = ws := by
    rw [hv'] at hv
    exact List.append_cancel_right hv
  subst this
  -- the expression
  obtain ⟨acc, n1, eacc, P1, b1, s1, d1⟩ := accumulator_makes h hal hc hne
  have tacc : n1 + 2 = n + 2 * cs.length ∧ Tidy n0 n1 acc := by
    cases cs with
    | nil => exact absurd rfl hne
    | cons c cs =>
      have ee : accumulatorLoop alpha cs c n = (acc, n1) := by simpa [accumulatorExpr] using eacc
      obtain ⟨h1, h2⟩ := tidy_accumulator (cs := cs) (acc := c) hn tal (tcs c (by simp)) fun x hx => tcs x (by simp [hx])
      rw [ee] at h1 h2
      simp only at h1 h2
      subst h1
      exact ⟨by simp; omega, h2⟩
  obtain ⟨P2, b2, s2, d2⟩ := makes_const (env := env) bb4Field_ok b1 claimed
  obtain ⟨hg, hmu, hk, he⟩ := equalVerify_good b2 (d1.mono s2) d2
  have hn1 : n0 ≤ n1 := by
    cases cs with
    | nil => exact absurd rfl hne
    | cons c cs => have := tacc.1; simp only [List.length_cons] at this; omega
  have teq : Tidy n0 (n1 + 2) (.node ((Dsl.constant (bb4Field.u32 claimed) n1).2 + 1) .equalVerify 0
      [acc, (Dsl.constant (bb4Field.u32 claimed) n1).1]) :=
    tidy_two (n2 := n1 + 1) rfl (by omega) (by omega) tacc.2 (Prog.tidy_const _ hn1)
  have hprov : ∀ s v, ins (.node ((Dsl.constant (bb4Field.u32 claimed) n1).2 + 1) .equalVerify 0
      [acc, (Dsl.constant (bb4Field.u32 claimed) n1).1]) P2 s → Reads s v → v ∈ vars.map Prod.fst := by
    rintro s v (rfl | hs) hr
    · rcases hr with hr | hr <;> cases hr
    · have := b2.prov s v hs hr
      rw [hinp, List.map_reverse, List.mem_reverse] at this
      exact this
  have hnomove : ∀ s v, ins (.node ((Dsl.constant (bb4Field.u32 claimed) n1).2 + 1) .equalVerify 0
      [acc, (Dsl.constant (bb4Field.u32 claimed) n1).1]) P2 s → s.opc ≠ .inputMove v := by
    intro s v hs hv
    obtain ⟨p, hp, e⟩ := List.mem_map.mp (hprov s v hs (.inl hv))
    rcases hs with rfl | hs
    · cases hv
    · exact hrow p hp (e ▸ b2.moves s v hs hv)
  have hat : InputsAt vg K env σ t.vars (.node ((Dsl.constant (bb4Field.u32 claimed) n1).2 + 1) .equalVerify 0
      [acc, (Dsl.constant (bb4Field.u32 claimed) n1).1]) := by
    intro s v hs hr
    obtain ⟨p, hp', rfl⟩ := List.mem_map.mp (hprov s v (hg.sub hs ins_self) hr)
    have hp1 := (hmem p).mpr hp'
    obtain ⟨sv, h1, h2, h3⟩ := hpv p (List.mem_reverse.mpr hp')
    refine ⟨ha.kinds p hp1 ▸ constVal_has (ha.vals p hp1), sv, hvars ▸ h1, h2, ?_⟩
    rw [h3, (constVal_ok (ha.vals p hp1)).1]
  have hmv : MovesOnce vg (.node ((Dsl.constant (bb4Field.u32 claimed) n1).2 + 1) .equalVerify 0
      [acc, (Dsl.constant (bb4Field.u32 claimed) n1).1]) :=
    fun s _ v _ hs _ h1 => absurd h1 (hnomove s v (hg.sub hs ins_self))
  obtain ⟨us, t', rest, ec, hlen, hvs, halt', hsub, hmoved, hrun⟩ :=
    C54_shared hL hT (hg.wellTyped ins_self) (hg.shared ins_self) hmv hmu ht hat
  have hkept := kept_tidy teq
  have hneed := need_tidy (R := R) _ (fun u hu => hg.types u (hg.sub hu ins_self)) teq
  have hid : (Expr.node ((Dsl.constant (bb4Field.u32 claimed) n1).2 + 1) .equalVerify 0
      [acc, (Dsl.constant (bb4Field.u32 claimed) n1).1]).id = n1 + 2 := rfl
  rw [hid] at hneed
  have f3 := compile_fits hL hT hT' hS (hg.wellTyped ins_self) (hg.shared ins_self) hmv hmu ht hat f1
    (by have := tacc.1; omega) ec
  rw [hk] at hlen
  have hus : us = [] := List.eq_nil_of_length_eq_zero hlen
  subst hus
  have hrest : rest = t.vars := by
    have hnd : t.vars.Nodup := List.Nodup.of_map _ ht.nodupVars
    exact hsub.eq_of_length_le (List.Subperm.length_le (List.subperm_of_subset hnd fun v hv =>
      (hmoved v hv).mpr fun ⟨s, w, hs, h, _⟩ => hnomove s w (hg.sub hs ins_self) h))
  subst hrest
  have hdrop := dropVariables_ok D horder (t := t') (rest := []) (by rw [hvs, hvars]; simp)
  have hp' : p = (t'.script ++ ws'.flatMap fun v => D v.size) ++ [.num 1] := by
    unfold foldScript at hp
    have ec' : compile L T vg true (Dsl.equalVerifyC acc (bb4Field.u32 claimed) n1).1 t = some ([], t') := ec
    simp only [setVariables_eq, e1, eacc, ec', Option.bind_eq_bind, Option.bind_some, hdrop, Option.some.injEq] at hp
    exact hp.symm
  have hsized : ∀ v ∈ ws', (σ v.id).length = v.size ∧ v.size ≤ 4 := fun v hv =>
    ⟨ht.sized σ rfl v (List.mem_append_left _ (hvars ▸ hv)), ht.small v (List.mem_append_left _ (hvars ▸ hv))⟩
  have f3' : runL cfg lim t'.script ⟨m, a, []⟩ = run cfg t'.script ⟨m, a, []⟩ := f3
  rw [hp', List.append_assoc, runL_append, run_append, f3', hrun, he]
  split
  · simp only [Option.map_some, Option.bind_some, List.map_nil, List.flatten_nil, List.nil_append, hvars]
    have halt2 : altOf σ t.alt ++ a = a := by rw [halt]; rfl
    rw [halt2]
    refine drops_fit hD hD' hsized m a ?_
    have := stackOf_length (σ := σ) (vs := ws') fun v hv => (hsized v hv).1
    have h3 : t.held m a = (ws'.map SVar.size).sum + m.length + a.length := by
      rw [Tracker.held, hvars, halt]
      simp [totalSize, Tracker.new]
    omega
  · rfl

end

/-- **C91** (folded constraints): for an AIR with `w` columns, `m` assertions of `s` operations, constants and variables in
all, and `k` public values, where `8 w + 4 k + 8 s + 16 m` is at most 1000 up to a constant, the script of the folded
constraints accepts under the limit iff the value it is given is the combination of the differences of the sides of the
assertions. -/
theorem C91_trace (hL : L.Ok cfg) (hT : T.Ok cfg) (hS : L.Slim R) (hT' : T.Thrifty)
    (hD : ∀ x : List Elem, x.length ≤ 4 → Does cfg (D x.length) x []) (hD' : ∀ s, s ≤ 4 → Fit (D s) s 4)
    (air : Air BB) {zeta alpha : BB4} {k : Nat} {loc nxt : List BB4} {pub : List BB} (hair : air.InRange pub.length)
    (hne : air.asserts ≠ []) (hloc : loc.length = air.width) (hnxt : nxt.length = air.width) (hk : k ≤ 27)
    (h1 : zeta ≠ 1) (h2 : zeta ≠ algebraMap BB BB4 (bbGen k)⁻¹) (claimed : BB4) (n : Nat)
    (hl : 8 * air.width + 4 * pub.length + 8 * air.nodes + 16 * air.asserts.length + R + 72 ≤ 1000) :
    ∃ p, traceScript L T D air zeta alpha k loc nxt pub claimed n = some p ∧
      (acceptsL cfg p [] = true ↔ claimed = combine alpha (air.asserts.map fun a =>
        a.residue (algebraMap BB BB4) (pointMeaning (bbGen k) k zeta loc nxt pub))) := by
  obtain ⟨p, hp, hacc⟩ := C80_exact hL hT hD air (alpha := alpha) hair hne hloc hnxt hk h1 h2 claimed n
  refine ⟨p, hp, ?_⟩
  rw [← hacc]
  suffices hfit : runL cfg 1000 p ⟨[], [], []⟩ = run cfg p ⟨[], [], []⟩ by
    have : runWitness cfg p [] = run cfg p ⟨[], [], []⟩ := by
      unfold runWitness
      rw [if_pos (by simp [stackLimit])]
      exact hfit
    simp only [acceptsL, accepts, this]
    rfl
  have hinp : (managerOf (traceVars loc nxt pub)).inputs = (traceVars loc nxt pub).reverse := by
    simp [managerOf, InputManager.inputs]
  have hnd : ((managerOf (traceVars loc nxt pub)).inputs.map Prod.fst).Nodup := by
    rw [hinp, List.map_reverse, List.nodup_reverse]
    exact traceVars_nodup loc nxt pub
  obtain ⟨K, env, ha⟩ := exists_agrees hnd (by
    intro p hp
    rw [hinp, List.mem_reverse] at hp
    obtain ⟨-, x, hx⟩ := traceVars_rows hp
    rw [hx, bb4Field_ok.const]
    rfl)
  have b0 : Built K NoNodes (managerOf (traceVars loc nxt pub)) n NoNodes :=
    ⟨(Built.new K n).good, fun _ h => h.elim, fun _ h => h.elim, fun _ h => h.elim, fun _ _ h => h.elim, by
      intro p hp i e
      rw [hinp, List.mem_reverse] at hp
      exact absurd (by rw [e]) (traceVars_rows hp).1, hnd, fun _ _ h => h.elim⟩
  obtain ⟨sels, n1, e1, -, P1, b1, s1, d1, d2, d3⟩ := selectorsExpr_makes (env := env) b0 (shift := 1) (point := zeta)
    one_ne_zero hk (by simpa [sub_eq_zero] using h1) (by simpa [sub_eq_zero] using h2)
  simp only [inv_one, map_one, mul_one] at d1 d2 d3
  obtain ⟨hn1, tsels⟩ := tidy_selectors e1
  obtain ⟨P2, b2, s2, d4⟩ := makes_const (env := env) bb4Field_ok b1 alpha
  have hden : TraceDen K NoNodes env P2 (managerOf (traceVars loc nxt pub)) sels loc.length pub.length
      (pointMeaning (bbGen k) k zeta loc nxt pub) := by
    refine ⟨fun c hc => ?_, fun c hc => ?_, fun i hi => ?_, ?_, ?_, d3.mono s2⟩
    · rw [hinp, List.mem_reverse, traceVars]
      exact List.mem_append_right _ (List.mem_append_left _ (mem_zipIdx_map _ loc 0 hc))
    · rw [hinp, List.mem_reverse, traceVars, List.take_of_length_le (by omega)]
      exact List.mem_append_right _ (List.mem_append_right _ (mem_zipIdx_map (fun p : BB4 × Nat =>
        (mainVar 1 p.2, bb4Field.u32 p.1)) nxt 0 (by omega)))
    · rw [hinp, List.mem_reverse, traceVars]
      refine List.mem_append_left _ ?_
      have := mem_zipIdx_map (fun p : BB × Nat => (pubVar p.2, bb4Field.u32 ((p.1.val : ℕ) : BB4))) pub 0 hi
      rw [natCast_val_bb4] at this
      exact this
    · rw [pointMeaning, div_eq_mul_inv]; exact d1.mono s2
    · rw [pointMeaning, div_eq_mul_inv]; exact d2.mono s2
  obtain ⟨cs, n2, e2, P3, b3, s3, d5⟩ := constraints_makes ha air.asserts b2 hden (by rw [hloc]; exact hair)
  have hcs : cs ≠ [] := by
    rintro rfl
    have := d5.length_eq
    rw [List.length_map] at this
    exact hne (List.eq_nil_of_length_eq_zero this.symm)
  have hn2 : (Dsl.constant (bb4Field.u32 alpha) n1).2 = n1 + 1 := rfl
  obtain ⟨hn3, hlen, tcs⟩ := tidy_constraints (n0 := n) (by rw [hn2]; omega) (tsels.mono (by rw [hn2]; omega)) e2
  have hp2 : foldScript L T D (traceVars loc nxt pub) (Dsl.constant (bb4Field.u32 alpha) n1).1 cs claimed n2 = some p := by
    unfold traceScript at hp
    simp only [e1, Option.bind_eq_bind, Option.bind_some, if_neg (show ¬ nxt.length < loc.length by omega), e2] at hp
    exact hp
  have h4 : ∀ q ∈ traceVars loc nxt pub, q.2.length = 4 := by
    intro q hq
    obtain ⟨-, x, hx⟩ := traceVars_rows hq
    rw [hx]
    exact bb4Field_ok.length x
  have hsum := sum_four _ h4
  have hcount : (traceVars loc nxt pub).length = pub.length + 2 * air.width := by
    simp only [traceVars, List.length_append, List.length_map, List.length_zipIdx, List.length_take]
    omega
  have hq : air.nodes = (air.asserts.map fun a => a.expr.nodes).sum := rfl
  refine foldScript_fits hL hT hS hT' hD hD' ha (fun p hp => (traceVars_rows hp).1) b3 (d4.mono s3) d5 hcs claimed [] []
    (n0 := n) (by omega) ((Prog.tidy_const (n0 := n) _ (by omega)).mono (by omega)) tcs ?_ hp2
  rw [hsum, hcount, List.length_nil]
  omega

/-- Dropping element by element needs no room. -/
theorem drop_fits (s : Nat) : Fit (List.replicate s Op.drop) s 4 := by
  have : ∀ s, Uses (List.replicate s Op.drop) s 0 0 := by
    intro s
    induction s with
    | zero => exact (Eff.nil 0).uses (by omega)
    | succ s ih =>
      exact (Uses.of (p := [Op.drop]) (n := 1) (o := 0) (r := 0) (by decide +kernel)).seq ih s 0 (by omega) (by omega) rfl
        (by omega) (by omega)
  exact (Fit.of_uses (this s)).mono (by omega) (by omega)

/-- C91, instance: the AIR of C80, with the scripts of the repository. -/
theorem C91_trace_instance (cfg : Cfg) (claimed : BB4) :
    let air : Air BB := ⟨2, [.zero (.mul .isFirstRow (.sub (.loc 0) (.pub 0))), .zero (.mul .isTransition (.sub (.nxt 0)
      (.loc 1))), .zero (.mul .isTransition (.sub (.nxt 1) (.add (.loc 0) (.loc 1))))]⟩
    ∃ p, traceScript (repoLib 2013265921) refTracker (fun n => List.replicate n Op.drop) air 0 5 3 [3, 4] [4, 7] [3] claimed 0 =
        some p ∧ (acceptsL cfg p [] = true ↔ claimed = combine 5 (air.asserts.map fun a =>
          a.residue (algebraMap BB BB4) (pointMeaning (bbGen 3) 3 0 [3, 4] [4, 7] [3]))) := by
  obtain ⟨h1, h2, -, ⟨h3, h4⟩, hL, hT, hD⟩ := C80_instance (cfg := cfg)
  exact C91_trace hL hT repoLib_slim refTracker_thrifty hD (fun s _ => drop_fits s) _ (by
    intro a ha
    exact h1 a ha) h2 rfl rfl (by decide) h3 h4 claimed 0 (by simp [Air.nodes, AExpr.nodes, Assertion.expr])

end TapStark.Stark
