import Verif.Proofs.ExpressHash

/- The compiler computes the meaning of an expression. -/

set_option linter.unusedSectionVars false
set_option linter.unusedSimpArgs false

namespace TapStark

/-! ### Subexpressions -/

mutual

/-- All subexpressions. -/
def subs : Expr → List Expr
  | .node id opc size args => .node id opc size args :: subsArgs args

def subsArgs : List Expr → List Expr
  | [] => []
  | e :: es => subs e ++ subsArgs es

end

theorem mem_subsArgs {s : Expr} : ∀ {es : List Expr}, s ∈ subsArgs es ↔ ∃ e ∈ es, s ∈ subs e
  | [] => by simp [subsArgs]
  | e :: es => by rw [subsArgs, List.mem_append, mem_subsArgs (es := es)]; simp

theorem mem_subs {s : Expr} : ∀ {e : Expr}, s ∈ subs e ↔ Sub s e
  | .node id opc size args => by
    rw [subs, List.mem_cons, mem_subsArgs]
    constructor
    · rintro (rfl | ⟨x, hx, hs⟩)
      · exact .refl _
      · exact .arg (e := .node id opc size args) hx (mem_subs.mp hs)
    · intro h
      cases h with
      | refl => exact .inl rfl
      | arg ha hs => exact .inr ⟨_, ha, mem_subs.mpr hs⟩
termination_by e => sizeOf e
decreasing_by
  · exact sizeOf_arg (e := .node id opc size args) hx
  · exact sizeOf_arg (e := .node id opc size args) ha

/-! ### Every node is visited -/

/-- A visited node that is not being visited has visited operands. -/
def ClosedBut (U : Expr → Prop) (P : Expr → Prop) (cm : Nat → Nat) : Prop :=
  ∀ s, U s → 0 < cm s.id → P s ∨ ∀ x ∈ s.args, 0 < cm x.id

theorem simulateArgs_closed {U : Expr → Prop} : ∀ {es : List Expr},
    (∀ e ∈ es, ∀ P cm, ClosedBut U P cm → ClosedBut U P (simulate e cm) ∧ 0 < simulate e cm e.id) →
    ∀ P cm, ClosedBut U P cm → ClosedBut U P (simulateArgs es cm) ∧ ∀ e ∈ es, 0 < simulateArgs es cm e.id := by
  intro es
  induction es with
  | nil => intro _ P cm h; rw [simulateArgs]; exact ⟨h, fun _ h => by cases h⟩
  | cons e es hes =>
    intro ih P cm h
    rw [simulateArgs]
    obtain ⟨h1, h2⟩ := ih e (List.mem_cons_self ..) P cm h
    obtain ⟨h3, h4⟩ := hes (fun x hx => ih x (List.mem_cons_of_mem _ hx)) P _ h1
    refine ⟨h3, fun x hx => ?_⟩
    rcases List.mem_cons.mp hx with rfl | hx
    · exact Nat.lt_of_lt_of_le h2 (simulateArgs_mono _ _ _)
    · exact h4 x hx

theorem simulate_closed {U : Expr → Prop} (hcl : ∀ e, U e → ∀ x ∈ e.args, U x)
    (huniq : ∀ e e', U e → U e' → e.id = e'.id → e = e') : ∀ (e : Expr), U e → ∀ P cm, ClosedBut U P cm →
    ClosedBut U P (simulate e cm) ∧ 0 < simulate e cm e.id
  | .node id opc size args, hU, P, cm, h => by
    rw [simulate_node]
    split
    · rename_i hc
      refine ⟨fun s hs h0 => ?_, by show 0 < upd cm id _ id; rw [upd_self]; omega⟩
      have key : ∀ k, 0 < cm k → 0 < upd cm id (cm id + 1) k := by
        intro k hk; unfold upd; split <;> omega
      have key' : 0 < cm s.id := by
        by_cases hid : s.id = id
        · rw [hid]; omega
        · rwa [upd_ne hid] at h0
      rcases h s hs key' with h1 | h1
      · exact .inl h1
      · exact .inr fun x hx => key _ (h1 x hx)
    · have h0 : ClosedBut U (fun s => P s ∨ s = .node id opc size args) (upd cm id (cm id + 1)) := by
        intro s hs hp
        by_cases hid : s.id = id
        · exact .inl (.inr (huniq _ _ hs hU hid))
        · rw [upd_ne hid] at hp
          rcases h s hs hp with h1 | h1
          · exact .inl (.inl h1)
          · refine .inr fun x hx => ?_
            have := h1 x hx
            unfold upd; split <;> omega
      obtain ⟨h1, h2⟩ := simulateArgs_closed (U := U) (es := args)
        (fun x hx => simulate_closed hcl huniq x (hcl _ hU x hx)) _ _ h0
      refine ⟨fun s hs hp => ?_, ?_⟩
      · rcases h1 s hs hp with (h3 | rfl) | h3
        · exact .inl h3
        · exact .inr h2
        · exact .inr h3
      · refine Nat.lt_of_lt_of_le ?_ (simulateArgs_mono _ _ _)
        show 0 < upd cm id _ id
        rw [upd_self]; omega
termination_by e => sizeOf e
decreasing_by exact sizeOf_arg (e := .node id opc size args) hx

theorem simulate_pos {e : Expr} (h : Shared e) {s : Expr} (hs : Sub s e) : 0 < simulate e (fun _ => 0) s.id := by
  have := simulate_closed (U := fun s => Sub s e) (fun x hx y hy => Sub.trans (.arg hy (.refl y)) hx)
    (fun x y hx hy => h x y hx hy) e (.refl e) (fun _ => False) (fun _ => 0) (fun _ _ h => by cases h)
  obtain ⟨h1, h2⟩ := this
  have key : ∀ u, Sub s u → Sub u e → 0 < simulate e (fun _ => 0) u.id → 0 < simulate e (fun _ => 0) s.id := by
    intro u hu
    induction hu with
    | refl => intro _ h; exact h
    | @arg x u hx _ ih =>
      intro hue hp
      have hxe : Sub x e := Sub.trans (.arg hx (.refl x)) hue
      rcases h1 u hue hp with h3 | h3
      · exact h3.elim
      · exact ih hxe (h3 x hx)
  exact key e hs (.refl e) h2

/-! ### Values -/

variable {cfg : Cfg} {start : St} {m0 a0 : List Elem} {L : U31Lib} {T : TrackerLib} {vg : Variable → Option SVar}
variable {K : Variable → Kind} {τ : Expr → List Kind} {env : Variable → Val} {σ : Nat → List Elem} {t : Tracker} {e : Expr}

/-- The value of a node as chunks of stack elements. -/
noncomputable def chunks (env : Variable → Val) (s : Expr) : Option (List (List Elem)) :=
  (eval env s).map fun vs => vs.map Val.enc

theorem eval_eq (s : Expr) : eval env s = (evalArgs env s.args).bind (s.opc.denote env) := by
  cases s; rw [eval]; rfl

theorem argsVal_eq : ∀ (es : List Expr),
    argsVal (chunks env) es = (evalArgs env es).map fun vss => vss.reverse.flatten.map Val.enc := by
  intro es
  induction es with
  | nil => rw [argsVal, evalArgs]; rfl
  | cons e es ih =>
    rw [argsVal, evalArgs, ih, chunks]
    cases eval env e with
    | none => rfl
    | some v =>
      cases evalArgs env es with
      | none => rfl
      | some vs => simp

theorem sizesOf_some : ∀ {es : List Expr}, (∀ x ∈ es, ∃ n, x.varSize = some n) → sizesOf es = some (es.map Expr.size) := by
  intro es
  induction es with
  | nil => intro _; rfl
  | cons e es ih =>
    intro h
    obtain ⟨n, hn⟩ := h e (List.mem_cons_self ..)
    rw [sizesOf, hn, ih fun x hx => h x (List.mem_cons_of_mem _ hx)]
    unfold Expr.varSize at hn
    split at hn
    · cases hn; rfl
    · cases hn

theorem sizesOk_of (hw : WellTyped K τ e) {s : Expr} (hs : Sub s e) :
    SizesOk s.opc (s.args.map τ) (s.args.map Expr.size) := by
  refine ⟨?_, ?_⟩
  · have : ∀ es : List Expr, (∀ x ∈ es, x ∈ s.args) →
        List.Forall₂ (fun ks n => ∀ k, ks = [k] → n = Kind.size k) (es.map τ) (es.map Expr.size) := by
      intro es
      induction es with
      | nil => intro _; exact .nil
      | cons x es ih =>
        intro h
        refine .cons (fun k hk => ?_) (ih fun y hy => h y (List.mem_cons_of_mem _ hy))
        exact hw.size x k (Sub.trans (.arg (h x (List.mem_cons_self ..)) (.refl x)) hs) hk
    exact this _ fun _ h => h
  · intro h n hn
    obtain ⟨x, hx, rfl⟩ := List.mem_map.mp hn
    exact hw.one s hs h x hx

/-- The values of a well-typed expression are of its kinds. -/
theorem eval_has' (hL : L.Ok cfg) (hw : WellTyped K τ e)
    (hin : ∀ s v, Sub s e → Reads s v → (env v).Has (K v)) :
    ∀ (s : Expr), Sub s e → ∀ vs, eval env s = some vs → List.Forall₂ Val.Has vs (τ s)
  | s, hs, vs, hev => by
    rw [eval_eq] at hev
    obtain ⟨vss, ha, hd⟩ := Option.bind_eq_some_iff.mp hev
    have hargs : List.Forall₂ (List.Forall₂ Val.Has) vss (s.args.map τ) := by
      have : ∀ (es : List Expr), (∀ x ∈ es, x ∈ s.args) → ∀ vss, evalArgs env es = some vss →
          List.Forall₂ (List.Forall₂ Val.Has) vss (es.map τ) := by
        intro es
        induction es with
        | nil => intro _ vss h; rw [evalArgs] at h; cases h; exact .nil
        | cons x es ih =>
          intro hx vss h
          have hxs := hx x (List.mem_cons_self ..)
          rw [evalArgs] at h
          obtain ⟨v, hv, h⟩ := Option.bind_eq_some_iff.mp h
          obtain ⟨vs', hvs, rfl⟩ := Option.map_eq_some_iff.mp h
          exact .cons (eval_has' hL hw hin x (Sub.trans (.arg hxs (.refl x)) hs) v hv)
            (ih (fun y hy => hx y (List.mem_cons_of_mem _ hy)) vs' hvs)
      exact this _ (fun _ h => h) _ ha
    have ht := hw.types s hs
    by_cases hscr : s.opc.isScript = true
    · obtain ⟨p, n, _, _, hc⟩ := script_ok (cfg := cfg) (env := env) hL hscr ht (sizesOk_of hw hs)
      exact ((hc vss hargs).1 vs hd).1
    · have ht' := ht
      generalize hopc : s.opc = opc at *
      cases opc <;> first | exact absurd rfl hscr | skip
      · obtain ⟨e1, k, v, e2, hv, hk⟩ := ht'
        rw [e1] at hargs
        cases hargs
        rw [e2]
        simp only [Opc.denote, hv, Option.map_some, Option.some.injEq] at hd
        subst hd
        exact .cons hk .nil
      · obtain ⟨e1, e2⟩ := ht'
        rw [e1] at hargs
        cases hargs
        rw [e2]
        simp only [Opc.denote, Option.some.injEq] at hd
        subst hd
        exact .cons (hin s _ hs (.inl hopc)) .nil
      · obtain ⟨e1, e2⟩ := ht'
        rw [e1] at hargs
        cases hargs
        rw [e2]
        simp only [Opc.denote, Option.some.injEq] at hd
        subst hd
        exact .cons (hin s _ hs (.inr hopc)) .nil
      · obtain ⟨e1, e2⟩ := ht'
        rw [e1] at hargs
        cases hargs
        obtain ⟨outs, h1, h2, _⟩ := table_ok e2
        simp only [Opc.denote, h1, Option.some.injEq] at hd
        subst hd
        exact h2
termination_by s => sizeOf s
decreasing_by exact sizeOf_arg hxs

theorem eval_has (hL : L.Ok cfg) (hw : WellTyped K τ e) (hin : InputsAt vg K env σ t.vars e) :
    ∀ (s : Expr), Sub s e → ∀ vs, eval env s = some vs → List.Forall₂ Val.Has vs (τ s) :=
  eval_has' hL hw fun s v hs hv => (hin s v hs hv).1

theorem evalArgs_has (hL : L.Ok cfg) (hw : WellTyped K τ e) (hin : InputsAt vg K env σ t.vars e) :
    ∀ (es : List Expr), (∀ x ∈ es, Sub x e) → ∀ vss, evalArgs env es = some vss →
      List.Forall₂ (List.Forall₂ Val.Has) vss (es.map τ) := by
  intro es
  induction es with
  | nil => intro _ vss h; rw [evalArgs] at h; cases h; exact .nil
  | cons x es ih =>
    intro hx vss h
    rw [evalArgs] at h
    obtain ⟨v, hv, h⟩ := Option.bind_eq_some_iff.mp h
    obtain ⟨vs', hvs, rfl⟩ := Option.map_eq_some_iff.mp h
    exact .cons (eval_has hL hw hin x (hx x (List.mem_cons_self ..)) v hv)
      (ih (fun y hy => hx y (List.mem_cons_of_mem _ hy)) vs' hvs)

/-! ### The setting of a compilation -/

/-- The variable moved by a node. -/
def moveOf (vg : Variable → Option SVar) (s : Expr) : Option (Nat × Nat) :=
  match s.opc with
  | .inputMove v => (vg v).map fun sv => (s.id, sv.id)
  | _ => none

theorem moveOf_some {s : Expr} {p : Nat × Nat} (h : moveOf vg s = some p) :
    ∃ v sv, s.opc = .inputMove v ∧ vg v = some sv ∧ p = (s.id, sv.id) := by
  unfold moveOf at h
  split at h
  · rename_i v hv
    obtain ⟨sv, h1, rfl⟩ := Option.map_eq_some_iff.mp h
    exact ⟨v, sv, hv, h1, rfl⟩
  · cases h

/-- The data of a compilation. -/
noncomputable def mkCtx (cfg : Cfg) (start : St) (m0 a0 : List Elem) (L : U31Lib) (T : TrackerLib)
    (vg : Variable → Option SVar) (τ : Expr → List Kind) (env : Variable → Val) (σ : Nat → List Elem) (t : Tracker)
    (e : Expr) : Ctx where
  cfg := cfg
  start := start
  m0 := m0
  a0 := a0
  L := L
  T := T
  vg := vg
  N := simulate e fun _ => 0
  U := fun s => Sub s e
  ρ := chunks env
  w := fun s => (τ s).length
  mvs := (subs e).filterMap (moveOf vg)
  B := t.vars
  A0 := t.alt
  σ0 := σ
  next0 := t.next

theorem mem_mvs {p : Nat × Nat} : p ∈ (subs e).filterMap (moveOf vg) ↔
    ∃ s v sv, Sub s e ∧ s.opc = .inputMove v ∧ vg v = some sv ∧ p = (s.id, sv.id) := by
  rw [List.mem_filterMap]
  constructor
  · rintro ⟨s, hs, hp⟩
    obtain ⟨v, sv, h1, h2, h3⟩ := moveOf_some hp
    exact ⟨s, v, sv, mem_subs.mp hs, h1, h2, h3⟩
  · rintro ⟨s, v, sv, hs, h1, h2, h3⟩
    exact ⟨s, mem_subs.mpr hs, by unfold moveOf; rw [h1]; simp only [h2, h3]; rfl⟩

theorem not_mem_fst (hsh : Shared e) {s : Expr} (hs : Sub s e) (h : ∀ v, s.opc ≠ .inputMove v) :
    s.id ∉ ((subs e).filterMap (moveOf vg)).map Prod.fst := by
  intro hm
  obtain ⟨p, hp, e1⟩ := List.mem_map.mp hm
  obtain ⟨s', v, sv, hs', h1, _, rfl⟩ := mem_mvs.mp hp
  have := hsh s' s hs' hs e1
  subst this
  exact h v h1

theorem same_var (ht : TInv cfg start m0 a0 t (some σ)) {x y : SVar} (hx : x ∈ t.vars) (hy : y ∈ t.vars)
    (h : x.id = y.id) : x = y := by
  have hn := ht.nodup
  rw [List.map_append] at hn
  exact List.inj_on_of_nodup_map (List.nodup_append.mp hn).1 hx hy h

theorem node_ok (hL : L.Ok cfg) (hw : WellTyped K τ e) (hsh : Shared e) (hmv : MovesOnce vg e)
    (ht : TInv cfg start m0 a0 t (some σ)) (hin : InputsAt vg K env σ t.vars e) {s : Expr} (hs : Sub s e) :
    (mkCtx cfg start m0 a0 L T vg τ env σ t e).NodeOk s := by
  have hty := hw.types s hs
  obtain ⟨hn, ho⟩ := types_num hty
  refine ⟨by rw [← hn, List.length_map], s.args.map Expr.size, ?_⟩
  have hsz := sizesOf_some (hw.sizes s hs)
  have hsub : ∀ x ∈ s.args, Sub x e := fun x hx => Sub.trans (.arg hx (.refl x)) hs
  by_cases hscr : s.opc.isScript = true
  · obtain ⟨p, n, hem, hn4, hc⟩ := script_ok (cfg := cfg) (env := env) hL hscr hty (sizesOk_of hw hs)
    refine ⟨_, hsz, hem, ⟨?_, rfl, hn4, ?_, ?_, ?_⟩, ho⟩
    · rw [List.map_map]; rfl
    · refine not_mem_fst hsh hs fun v hv => ?_
      rw [hv] at hscr
      cases hscr
    · intro h
      show (eval env s).map _ = none
      have h' : argsVal (chunks env) s.args = none := h
      rw [argsVal_eq, Option.map_eq_none_iff] at h'
      rw [eval_eq, h']
      rfl
    · intro ins h
      have h' : argsVal (chunks env) s.args = some ins := h
      rw [argsVal_eq] at h'
      obtain ⟨vss, ha, rfl⟩ := Option.map_eq_some_iff.mp h'
      obtain ⟨hc1, hc2⟩ := hc vss (evalArgs_has hL hw hin s.args hsub vss ha)
      have hρ : (mkCtx cfg start m0 a0 L T vg τ env σ t e).ρ s = (s.opc.denote env vss).map fun vs => vs.map Val.enc := by
        show (eval env s).map _ = _
        rw [eval_eq, ha]
        rfl
      refine ⟨fun outs hout => ?_, fun hnone => ?_⟩
      · rw [hρ] at hout
        obtain ⟨vs, hvs, rfl⟩ := Option.map_eq_some_iff.mp hout
        obtain ⟨h1, h2, h3⟩ := hc1 vs hvs
        refine ⟨?_, ?_, h3⟩
        · rw [List.length_map, h1.length_eq]
        · intro o ho
          obtain ⟨v, hv, rfl⟩ := List.mem_map.mp ho
          exact h2 v hv
      · rw [hρ, Option.map_eq_none_iff] at hnone
        exact hc2 hnone
  · have hρ : s.args = [] → (mkCtx cfg start m0 a0 L T vg τ env σ t e).ρ s =
        (s.opc.denote env []).map fun vs => vs.map Val.enc := by
      intro h
      show (eval env s).map _ = _
      rw [eval_eq, h, evalArgs]
      rfl
    have hnil : s.args.map τ = [] → s.args = [] := List.map_eq_nil_iff.mp
    generalize hopc : s.opc = opc at *
    cases opc <;> first | exact absurd rfl hscr | skip
    · rename_i vs
      obtain ⟨e1, k, v, e2, hv, hk⟩ := hty
      obtain ⟨henc, hlen⟩ := constVal_ok hv
      refine ⟨.pushAll [vs], hsz, by rw [hnil e1]; rfl, ⟨hnil e1, ?_, ?_, ?_, ?_⟩, ho⟩
      · show (τ s).length = 1
        rw [e2]; rfl
      · exact not_mem_fst hsh hs fun v hv => by rw [hopc] at hv; cases hv
      · intro x hx
        rw [List.mem_singleton] at hx
        subst hx
        exact hlen
      · rw [hρ (hnil e1)]
        simp only [Opc.denote, hv, Option.map_some, List.map_cons, List.map_nil, henc]
    · rename_i v
      obtain ⟨e1, e2⟩ := hty
      obtain ⟨_, sv, hsv, hvg, henc⟩ := hin s v hs (.inl hopc)
      refine ⟨.moveVar v, hsz, by rw [hnil e1]; rfl, ⟨hnil e1, ?_, sv, hsv, hvg, ?_, ?_⟩, ho⟩
      · show (τ s).length = 1
        rw [e2]; rfl
      · rw [hρ (hnil e1)]
        simp only [Opc.denote, Option.map_some, List.map_cons, List.map_nil, ← henc]
        rfl
      · exact mem_mvs.mpr ⟨s, v, sv, hs, hopc, hvg, rfl⟩
    · rename_i v
      obtain ⟨e1, e2⟩ := hty
      obtain ⟨_, sv, hsv, hvg, henc⟩ := hin s v hs (.inr hopc)
      refine ⟨.copyVar v, hsz, by rw [hnil e1]; rfl, ⟨hnil e1, ?_, ?_, sv, hsv, hvg, ?_, ?_⟩, ho⟩
      · show (τ s).length = 1
        rw [e2]; rfl
      · exact not_mem_fst hsh hs fun v hv => by rw [hopc] at hv; cases hv
      · rw [hρ (hnil e1)]
        simp only [Opc.denote, Option.map_some, List.map_cons, List.map_nil, ← henc]
        rfl
      · intro hm
        obtain ⟨p, hp, e3⟩ := List.mem_map.mp hm
        obtain ⟨s', v', sv', hs', h1, h2, rfl⟩ := mem_mvs.mp hp
        obtain ⟨_, sv'', hsv'', hvg'', _⟩ := hin s' v' hs' (.inl h1)
        rw [h2] at hvg''
        cases hvg''
        have := same_var ht hsv'' hsv e3
        subst this
        have := hmv s' s v' v hs' hs h1 (.inr hopc) (by rw [h2, hvg])
        subst this
        rw [hopc] at h1
        cases h1
    · rename_i es
      obtain ⟨e1, e2⟩ := hty
      obtain ⟨outs, h1, h2, h3, h4⟩ := table_ok e2
      refine ⟨.pushAll es, hsz, by rw [hnil e1]; rfl, ⟨hnil e1, ?_, ?_, h4, ?_⟩, ho⟩
      · exact e2.length_eq.symm
      · exact not_mem_fst hsh hs fun v hv => by rw [hopc] at hv; cases hv
      · rw [hρ (hnil e1)]
        simp only [Opc.denote, h1, Option.map_some, h3]

theorem mkCtx_good (hL : L.Ok cfg) (hT : T.Ok cfg) (hw : WellTyped K τ e) (hsh : Shared e) (hmv : MovesOnce vg e)
    (ht : TInv cfg start m0 a0 t (some σ)) (hin : InputsAt vg K env σ t.vars e) :
    (mkCtx cfg start m0 a0 L T vg τ env σ t e).Good where
  lib := hT
  closed := fun s hs x hx => Sub.trans (.arg hx (.refl x)) hs
  uniq := fun s s' hs hs' h => hsh s s' hs hs' h
  node := fun s hs => node_ok hL hw hsh hmv ht hin hs
  injSnd := by
    intro p hp p' hp' h
    obtain ⟨s, v, sv, hs, h1, h2, rfl⟩ := mem_mvs.mp hp
    obtain ⟨s', v', sv', hs', h1', h2', rfl⟩ := mem_mvs.mp hp'
    obtain ⟨_, x, hx, ex, _⟩ := hin s v hs (.inl h1)
    obtain ⟨_, x', hx', ex', _⟩ := hin s' v' hs' (.inl h1')
    rw [h2] at ex; cases ex
    rw [h2'] at ex'; cases ex'
    have := same_var ht hx hx' h
    subst this
    rw [hmv s s' v v' hs hs' h1 (.inl h1') (by rw [h2, h2'])]
  injFst := by
    intro p hp p' hp' h
    obtain ⟨s, v, sv, hs, h1, h2, rfl⟩ := mem_mvs.mp hp
    obtain ⟨s', v', sv', hs', h1', h2', rfl⟩ := mem_mvs.mp hp'
    have := hsh s s' hs hs' h
    subst this
    rw [h1] at h1'
    cases h1'
    rw [h2] at h2'
    cases h2'
    rfl
  below := fun v hv => ht.lt v (List.mem_append_left _ hv)

/-- What is known after a compilation. -/
structure Compiled (cfg : Cfg) (start : St) (m0 a0 : List Elem) (vg : Variable → Option SVar) (e : Expr)
    (σ : Nat → List Elem) (t : Tracker) (r : Option (List (List Elem))) (vs : List SVar) (t' : Tracker) (rest : List SVar)
    (D : Option (Nat → List Elem)) : Prop where
  inv : TInv cfg start m0 a0 t' D
  vars : t'.vars = vs ++ rest
  sub : rest.Sublist t.vars
  moved : ∀ v ∈ t.vars, v ∈ rest ↔ ¬ Moved vg e v
  alt : t'.alt = t.alt
  le : t.next ≤ t'.next
  fail : r = none → D = none
  ok : ∀ outs, r = some outs → ∃ σ', D = some σ' ∧ (∀ i < t.next, σ' i = σ i) ∧ vs.map (fun v => σ' v.id) = outs

theorem inv_start {C : Ctx} {t : Tracker} (h : TInv C.cfg C.start C.m0 C.a0 t (some C.σ0)) (hB : C.B = t.vars)
    (hA : C.A0 = t.alt) (hn : C.next0 = t.next) :
    C.Inv (fun _ => 0) (fun _ => 0) [] ⟨t, fun _ => 0, fun _ => none⟩ (some C.σ0) where
  t := h
  vars := by
    rw [List.nil_append, Ctx.base, hB]
    symm
    rw [List.filter_eq_self]
    intro v _
    simp
  next := Nat.le_of_eq hn
  old := by intro σ e; cases e; intros; rfl
  alt := ⟨[], by rw [hA]; rfl, fun _ h => (by cases h), fun s hs => absurd hs.2.2.1 (by simp)⟩
  inj := fun s _ hs => absurd hs.2.2.1 (by simp)
  none := fun _ _ _ _ => ⟨rfl, rfl⟩

theorem compile_ok (hL : L.Ok cfg) (hT : T.Ok cfg) (hw : WellTyped K τ e) (hsh : Shared e) (hmv : MovesOnce vg e)
    (hmu : MultiOk e) (ht : TInv cfg start m0 a0 t (some σ)) (hin : InputsAt vg K env σ t.vars e) :
    ∃ vs t' rest D, compile L T vg true e t = some (vs, t') ∧ vs.length = (τ e).length ∧
      Compiled cfg start m0 a0 vg e σ t (chunks env e) vs t' rest D := by
  have G := mkCtx_good (env := env) hL hT hw hsh hmv ht hin
  have h0 := inv_start (C := mkCtx cfg start m0 a0 L T vg τ env σ t e) ht rfl rfl rfl
  have hmulti : ∀ s, (mkCtx cfg start m0 a0 L T vg τ env σ t e).U s → s.opc.outNum ≠ some 1 →
      (mkCtx cfg start m0 a0 L T vg τ env σ t e).N s.id ≤ 1 ∨
      (mkCtx cfg start m0 a0 L T vg τ env σ t e).Plain true s := by
    intro s hs ho
    rcases hmu s hs ho with h | h
    · exact .inl h
    · refine .inr fun u hu => ⟨not_mem_fst hsh (Sub.trans hu hs) (h u hu).1, ?_⟩
      by_cases h1 : u.opc.outNum = some 1
      · exact .inr (.inr ((h u hu).2 h1))
      · exact .inr (.inl h1)
  obtain ⟨vs, c', D', e1, l1, i1, v1⟩ := Ctx.visit G hmulti e (.refl e) _ _ _ _ h0 fun k => Nat.le_refl _
  rw [List.append_nil] at i1
  obtain ⟨cache, halt, hc1, _⟩ := i1.alt
  have hcache : cache = [] := by
    cases cache with
    | nil => rfl
    | cons x l =>
      obtain ⟨s, hs, _⟩ := hc1 x (List.mem_cons_self ..)
      exact absurd hs.2.2.2 (Nat.lt_irrefl _)
  refine ⟨vs, c'.t, (mkCtx cfg start m0 a0 L T vg τ env σ t e).base (simulate e fun _ => 0), D', ?_, l1, ?_⟩
  · unfold compile
    have e1' : express L T vg (simulate e fun _ => 0) true e ⟨t, fun _ => 0, fun _ => none⟩ = some (vs, c') := e1
    rw [e1']
    rfl
  · refine ⟨i1.t, i1.vars, List.filter_sublist, ?_, ?_, v1.le, v1.fail, ?_⟩
    · intro v hv
      unfold Ctx.base
      rw [List.mem_filter]
      have key : (((mkCtx cfg start m0 a0 L T vg τ env σ t e).mvs.any fun p =>
          p.2 == v.id && decide (0 < simulate e (fun _ => 0) p.1)) = true) ↔ Moved vg e v := by
        rw [List.any_eq_true]
        constructor
        · rintro ⟨p, hp, h⟩
          obtain ⟨s, w, sv, hs, h1, h2, rfl⟩ := mem_mvs.mp hp
          simp only [Bool.and_eq_true, beq_iff_eq] at h
          obtain ⟨_, x, hx, ex, _⟩ := hin s w hs (.inl h1)
          rw [h2] at ex; cases ex
          have := same_var ht hx hv h.1
          subst this
          exact ⟨s, w, hs, h1, h2⟩
        · rintro ⟨s, w, hs, h1, h2⟩
          refine ⟨(s.id, v.id), mem_mvs.mpr ⟨s, w, v, hs, h1, h2, rfl⟩, ?_⟩
          simp [simulate_pos hsh hs]
      constructor
      · rintro ⟨_, h⟩ hm
        rw [Bool.not_eq_true'] at h
        exact absurd (key.mpr hm) (by rw [h]; decide)
      · intro h
        refine ⟨hv, ?_⟩
        rw [Bool.not_eq_true']
        exact Bool.eq_false_iff.mpr fun h' => h (key.mp h')
    · rw [halt, hcache]; rfl
    · intro outs ho
      exact v1.ok σ outs rfl ho

theorem compile_plain_ok (hL : L.Ok cfg) (hT : T.Ok cfg) (hw : WellTyped K τ e) (hsh : Shared e)
    (hmv : ∀ s v, Sub s e → s.opc ≠ .inputMove v)
    (ht : TInv cfg start m0 a0 t (some σ)) (hin : InputsAt vg K env σ t.vars e) :
    ∃ vs t' rest D, compile L T vg false e t = some (vs, t') ∧ vs.length = (τ e).length ∧
      Compiled cfg start m0 a0 vg e σ t (chunks env e) vs t' rest D := by
  have G := mkCtx_good (env := env) hL hT hw hsh (fun s _ v _ hs _ h => absurd h (hmv s v hs)) ht hin
  have h0 := inv_start (C := mkCtx cfg start m0 a0 L T vg τ env σ t e) ht rfl rfl rfl
  obtain ⟨vs, c', D', e1, l1, i1, v1⟩ := Ctx.visit_plain G (opt := false) e
    (fun s hs => ⟨not_mem_fst hsh hs fun v => hmv s v hs, .inl rfl⟩) (.refl e) _ _ _ _ h0 trivial
  rw [List.append_nil] at i1
  obtain ⟨cache, halt, hc1, _⟩ := i1.alt
  have hcache : cache = [] := by
    cases cache with
    | nil => rfl
    | cons x l =>
      obtain ⟨s, hs, _⟩ := hc1 x (List.mem_cons_self ..)
      exact absurd hs.2.2.1 (by simp)
  refine ⟨vs, c'.t, t.vars, D', ?_, l1, ?_⟩
  · unfold compile
    have e1' : express L T vg (simulate e fun _ => 0) false e ⟨t, fun _ => 0, fun _ => none⟩ = some (vs, c') := e1
    rw [e1']
    rfl
  · refine ⟨i1.t, ?_, List.Sublist.refl _, ?_, ?_, v1.le, v1.fail, ?_⟩
    · have := i1.vars
      rwa [show Ctx.base (mkCtx cfg start m0 a0 L T vg τ env σ t e) (fun _ => 0) = t.vars from
        (List.nil_append _).symm.trans h0.vars.symm] at this
    · intro v hv
      exact ⟨fun _ ⟨s, w, hs, h, _⟩ => hmv s w hs h, fun _ => hv⟩
    · rw [halt, hcache]; rfl
    · intro outs ho
      exact v1.ok σ outs rfl ho

/-- The state reached by the script of a compilation. -/
theorem Compiled.run {r : Option (List (List Elem))} {vs : List SVar} {t' : Tracker} {rest : List SVar}
    {D : Option (Nat → List Elem)} (ht : TInv cfg start m0 a0 t (some σ))
    (h : Compiled cfg start m0 a0 vg e σ t r vs t' rest D) :
    run cfg t'.script start = r.map fun outs => ⟨outs.flatten ++ (stackOf σ rest ++ m0), altOf σ t.alt ++ a0, []⟩ := by
  rw [h.inv.run]
  cases r with
  | none => rw [h.fail rfl]; rfl
  | some outs =>
    obtain ⟨σ', rfl, h1, h2⟩ := h.ok outs rfl
    have key : ∀ l : List SVar, (∀ v ∈ l, v ∈ t.vars ++ t.alt) → ∀ v ∈ l, σ' v.id = σ v.id :=
      fun l hl v hv => h1 _ (ht.lt v (hl v hv))
    have e1 : stackOf σ' rest = stackOf σ rest := by
      unfold stackOf
      apply List.flatMap_congr
      exact key rest fun v hv => List.mem_append_left _ (h.sub.subset hv)
    have e2 : altOf σ' t.alt = altOf σ t.alt := by
      unfold altOf
      apply List.flatMap_congr
      intro v hv
      rw [key t.alt (fun v hv => List.mem_append_right _ hv) v hv]
    have e3 : stackOf σ' vs = outs.flatten := by
      rw [← h2]
      unfold stackOf
      rw [List.flatMap_def]
    rw [h.vars, h.alt]
    simp only [Option.map_some, Option.some.injEq, St.mk.injEq, and_true, e2]
    rw [← e3, ← e1]
    unfold stackOf
    rw [List.flatMap_append, List.append_assoc]

end TapStark
