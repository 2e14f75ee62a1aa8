import Verif.Proofs.TrackerInv
import Verif.Spec.Express

/- The traversal of an expression by the compiler: caching, copies and moves do not change what is computed. -/

set_option linter.unusedSectionVars false
set_option linter.unusedSimpArgs false

namespace TapStark

theorem Sub.trans {a b c : Expr} (h : Sub a b) (h' : Sub b c) : Sub a c := by
  induction h' with
  | refl => exact h
  | arg ha _ ih => exact .arg ha ih

theorem sizeOf_arg {a e : Expr} (h : a ∈ e.args) : sizeOf a < sizeOf e := by
  cases e with
  | node id opc size args =>
    have := List.sizeOf_lt_of_mem h
    simp only [Expr.args] at this
    simp only [Expr.node.sizeOf_spec]
    omega

theorem Sub.sizeOf_le {s e : Expr} (h : Sub s e) : sizeOf s ≤ sizeOf e := by
  induction h with
  | refl => exact Nat.le_refl _
  | arg ha _ ih => have := sizeOf_arg ha; omega

/-! ### Counting visits -/

theorem upd_comm {α : Type} {f : Nat → α} {j k : Nat} {x y : α} (h : j ≠ k) :
    upd (upd f j x) k y = upd (upd f k y) j x := by
  funext i
  unfold upd
  split <;> split <;> simp_all

theorem upd_upd {α : Type} {f : Nat → α} {j : Nat} {x y : α} : upd (upd f j x) j y = upd f j y := by
  funext i
  unfold upd
  split <;> simp_all

theorem simulate_node (id : Nat) (opc : Opc) (size : Nat) (args : List Expr) (cm : Nat → Nat) :
    simulate (.node id opc size args) cm =
      if cm id + 1 > 1 then upd cm id (cm id + 1) else simulateArgs args (upd cm id (cm id + 1)) := by
  rw [simulate]

theorem simulateArgs_of {es : List Expr} (ih : ∀ e ∈ es, ∀ cm k, cm k ≤ simulate e cm k) :
    ∀ cm k, cm k ≤ simulateArgs es cm k := by
  induction es with
  | nil => intro cm k; rw [simulateArgs]
  | cons e es hes =>
    intro cm k
    rw [simulateArgs]
    exact Nat.le_trans (ih e (List.mem_cons_self ..) cm k) (hes (fun x hx => ih x (List.mem_cons_of_mem _ hx)) _ k)

theorem simulate_mono : ∀ (e : Expr) (cm : Nat → Nat) (k : Nat), cm k ≤ simulate e cm k
  | .node id opc size args, cm, k => by
    rw [simulate_node]
    have h1 : cm k ≤ upd cm id (cm id + 1) k := by unfold upd; split <;> simp_all
    split
    · exact h1
    · exact Nat.le_trans h1 (simulateArgs_of (fun e he => simulate_mono e) _ k)
termination_by e => sizeOf e
decreasing_by
  have := sizeOf_arg (e := .node id opc size args) he
  exact this

theorem simulateArgs_mono (es : List Expr) (cm : Nat → Nat) (k : Nat) : cm k ≤ simulateArgs es cm k :=
  simulateArgs_of (fun e _ => simulate_mono e) cm k

theorem simulateArgs_upd_of {id : Nat} {x : Nat} {es : List Expr}
    (ih : ∀ e ∈ es, ∀ cm, simulate e (upd cm id x) = upd (simulate e cm) id x) :
    ∀ cm, simulateArgs es (upd cm id x) = upd (simulateArgs es cm) id x := by
  induction es with
  | nil => intro cm; rw [simulateArgs, simulateArgs]
  | cons e es hes =>
    intro cm
    rw [simulateArgs, simulateArgs, ih e (List.mem_cons_self ..), hes (fun y hy => ih y (List.mem_cons_of_mem _ hy))]

/-- The count of an identifier that does not occur is left alone. -/
theorem simulate_upd {id x : Nat} : ∀ (e : Expr), (∀ s, Sub s e → s.id ≠ id) → ∀ cm : Nat → Nat,
    simulate e (upd cm id x) = upd (simulate e cm) id x
  | .node k opc size args, hne, cm => by
    have hk : k ≠ id := hne _ (.refl _)
    rw [simulate_node, simulate_node, upd_ne hk]
    split
    · rw [upd_comm (Ne.symm hk)]
    · rw [upd_comm (Ne.symm hk)]
      exact simulateArgs_upd_of (fun e he => simulate_upd e fun s hs => hne s (.arg he hs)) _
termination_by e => sizeOf e
decreasing_by
  have := sizeOf_arg (e := .node k opc size args) he
  exact this

theorem simulateArgs_upd {id x : Nat} {es : List Expr} (h : ∀ e ∈ es, ∀ s, Sub s e → s.id ≠ id) (cm : Nat → Nat) :
    simulateArgs es (upd cm id x) = upd (simulateArgs es cm) id x :=
  simulateArgs_upd_of (fun e he => simulate_upd e (h e he)) cm

theorem simulateArgs_same {id : Nat} {es : List Expr} (h : ∀ e ∈ es, ∀ s, Sub s e → s.id ≠ id) (cm : Nat → Nat) :
    simulateArgs es cm id = cm id := by
  have h1 := simulateArgs_upd (x := cm id) h cm
  have h2 : upd cm id (cm id) = cm := by funext i; unfold upd; split <;> simp_all
  rw [h2] at h1
  rw [h1, upd_self]

/-! ### The setting -/

/-- The values of operands, the last operand first. -/
def argsVal (ρ : Expr → Option (List (List Elem))) : List Expr → Option (List (List Elem))
  | [] => some []
  | e :: es => (ρ e).bind fun x => (argsVal ρ es).map fun y => y ++ x

/-- The declared sizes of operands. -/
def sizesOf : List Expr → Option (List Nat)
  | [] => some []
  | e :: es => e.varSize.bind fun s => (sizesOf es).map fun ss => s :: ss

/-- What a compilation is about. -/
structure Ctx where
  cfg : Cfg
  start : St
  m0 : List Elem
  a0 : List Elem
  L : U31Lib
  T : TrackerLib
  vg : Variable → Option SVar
  /-- visits of each node -/
  N : Nat → Nat
  /-- the nodes -/
  U : Expr → Prop
  /-- the value of each node, the chunk of the variable on top first; `none` where the script fails -/
  ρ : Expr → Option (List (List Elem))
  /-- number of variables of each node -/
  w : Expr → Nat
  /-- identifiers of the nodes moving an input, with the variable moved -/
  mvs : List (Nat × Nat)
  /-- the variables present at the start -/
  B : List SVar
  A0 : List SVar
  σ0 : Nat → List Elem
  next0 : Nat

namespace Ctx

variable (C : Ctx)

/-- The initial variables not moved yet. -/
def base (cm : Nat → Nat) : List SVar :=
  C.B.filter fun v => !(C.mvs.any fun p => p.2 == v.id && decide (0 < cm p.1))

/-- The generator of a node is right. -/
def EmitOk (e : Expr) : Opc.Emit → Prop
  | .custom p c n s => c = (e.args.map C.w).sum ∧ n = C.w e ∧ s ≤ 4 ∧ e.id ∉ C.mvs.map Prod.fst ∧
      (argsVal C.ρ e.args = none → C.ρ e = none) ∧
      ∀ ins, argsVal C.ρ e.args = some ins →
        (∀ outs, C.ρ e = some outs → outs.length = n ∧ (∀ o ∈ outs, o.length = s) ∧
          Does C.cfg p ins.flatten outs.flatten) ∧
        (C.ρ e = none → Fails C.cfg p ins.flatten)
  | .copyVar v => e.args = [] ∧ C.w e = 1 ∧ e.id ∉ C.mvs.map Prod.fst ∧
      ∃ sv ∈ C.B, C.vg v = some sv ∧ C.ρ e = some [C.σ0 sv.id] ∧ sv.id ∉ C.mvs.map Prod.snd
  | .moveVar v => e.args = [] ∧ C.w e = 1 ∧
      ∃ sv ∈ C.B, C.vg v = some sv ∧ C.ρ e = some [C.σ0 sv.id] ∧ (e.id, sv.id) ∈ C.mvs
  | .pushAll es => e.args = [] ∧ C.w e = es.length ∧ e.id ∉ C.mvs.map Prod.fst ∧ (∀ x ∈ es, x.length ≤ 4) ∧
      C.ρ e = some (es.map fun x => x.map fun (v : Nat) => num v)

/-- A node is well formed and its generator is right. -/
def NodeOk (e : Expr) : Prop :=
  e.args.length = e.opc.inNum ∧ ∃ sizes em, sizesOf e.args = some sizes ∧ e.opc.emit C.L sizes = some em ∧
    C.EmitOk e em ∧ (e.opc.outNum = none ∨ e.opc.outNum = some (C.w e))

/-- An expression compiled without using the cache and without moves. -/
def Plain (optimize : Bool) (e : Expr) : Prop :=
  ∀ s, Sub s e → s.id ∉ C.mvs.map Prod.fst ∧ (optimize = false ∨ s.opc.outNum ≠ some 1 ∨ C.N s.id = 1)

/-- The hypotheses about the nodes. -/
structure Good : Prop where
  lib : C.T.Ok C.cfg
  closed : ∀ e, C.U e → ∀ a ∈ e.args, C.U a
  uniq : ∀ e e', C.U e → C.U e' → e.id = e'.id → e = e'
  node : ∀ e, C.U e → C.NodeOk e
  injSnd : ∀ p ∈ C.mvs, ∀ p' ∈ C.mvs, p.2 = p'.2 → p.1 = p'.1
  injFst : ∀ p ∈ C.mvs, ∀ p' ∈ C.mvs, p.1 = p'.1 → p.2 = p'.2
  below : ∀ v ∈ C.B, v.id < C.next0

/-- A cached node with visits to come. -/
def Cached (cm : Nat → Nat) (s : Expr) : Prop :=
  C.U s ∧ s.opc.outNum = some 1 ∧ 1 ≤ cm s.id ∧ cm s.id < C.N s.id

/-- The state between two visits: `cmB` counts the visits as far as moved inputs are concerned, `cm` as far as
cached nodes are concerned; `temp` are the operands waiting on the stack. -/
structure Inv (cmB cm : Nat → Nat) (temp : List SVar) (c : CState) (D : Option (Nat → List Elem)) : Prop where
  t : TInv C.cfg C.start C.m0 C.a0 c.t D
  vars : c.t.vars = temp ++ C.base cmB
  next : C.next0 ≤ c.t.next
  old : ∀ σ, D = some σ → ∀ i < C.next0, σ i = C.σ0 i
  alt : ∃ cache, c.t.alt = cache ++ C.A0 ∧ (∀ x ∈ cache, ∃ s, C.Cached cm s ∧ c.svar s.id = some x) ∧
    ∀ s, C.Cached cm s → ∃ x ∈ cache, c.svar s.id = some x ∧ c.copied s.id = cm s.id - 1 ∧
      ∀ σ, D = some σ → C.ρ s = some [σ x.id]
  inj : ∀ s s', C.Cached cm s → C.Cached cm s' → c.svar s.id = c.svar s'.id → s.id = s'.id
  none : ∀ s, C.U s → s.opc.outNum = some 1 → cm s.id = 0 ∨ C.N s.id ≤ 1 → c.svar s.id = none ∧ c.copied s.id = 0

/-- What a visit does to the contents. -/
structure Visit (n n' : Nat) (r : Option (List (List Elem))) (D : Option (Nat → List Elem)) (vs : List SVar)
    (D' : Option (Nat → List Elem)) : Prop where
  le : n ≤ n'
  dead : D = none → D' = none
  fail : r = none → D' = none
  ok : ∀ σ outs, D = some σ → r = some outs →
    ∃ σ', D' = some σ' ∧ (∀ i < n, σ' i = σ i) ∧ vs.map (fun v => σ' v.id) = outs

variable {C}

theorem Visit.back {n n' : Nat} {r : Option (List (List Elem))} {D : Option (Nat → List Elem)} {vs : List SVar}
    {D' : Option (Nat → List Elem)} (h : Visit n n' r D vs D') {σ' : Nat → List Elem} (e : D' = some σ') :
    ∃ σ outs, D = some σ ∧ r = some outs ∧ (∀ i < n, σ' i = σ i) ∧ vs.map (fun v => σ' v.id) = outs := by
  cases hD : D with
  | none => rw [h.dead hD] at e; cases e
  | some σ =>
    cases hr : r with
    | none => rw [h.fail hr] at e; cases e
    | some outs =>
      obtain ⟨τ, e1, h1, h2⟩ := h.ok σ outs hD hr
      rw [e] at e1
      cases e1
      exact ⟨σ, outs, rfl, rfl, h1, h2⟩

theorem base_congr {cm cm' : Nat → Nat} (h : ∀ k ∈ C.mvs.map Prod.fst, (0 < cm k ↔ 0 < cm' k)) :
    C.base cm = C.base cm' := by
  unfold base
  apply List.filter_congr
  intro v _
  congr 1
  rw [Bool.eq_iff_iff]
  simp only [List.any_eq_true, Bool.and_eq_true, decide_eq_true_eq]
  constructor
  · rintro ⟨p, hp, h1, h2⟩
    exact ⟨p, hp, h1, (h p.1 (List.mem_map_of_mem hp)).mp h2⟩
  · rintro ⟨p, hp, h1, h2⟩
    exact ⟨p, hp, h1, (h p.1 (List.mem_map_of_mem hp)).mpr h2⟩

theorem base_upd {cm : Nat → Nat} {k x : Nat} (h : k ∉ C.mvs.map Prod.fst ∨ (0 < cm k ∧ 0 < x)) :
    C.base (upd cm k x) = C.base cm := by
  apply base_congr
  intro j hj
  by_cases e : j = k
  · subst e
    rcases h with h | h
    · exact absurd hj h
    · rw [upd_self]; exact ⟨fun _ => h.1, fun _ => h.2⟩
  · rw [upd_ne e]

/-- Replacing the tracker, the alt stack being unchanged. -/
theorem Inv.update {cmB cm cmB' : Nat → Nat} {temp temp' : List SVar} {c : CState} {D D' : Option (Nat → List Elem)}
    (h : C.Inv cmB cm temp c D) {t' : Tracker} (ht : TInv C.cfg C.start C.m0 C.a0 t' D')
    (halt : t'.alt = c.t.alt) (hvars : t'.vars = temp' ++ C.base cmB') (hn : c.t.next ≤ t'.next)
    (hD : ∀ σ', D' = some σ' → ∃ σ, D = some σ ∧ ∀ i < c.t.next, σ' i = σ i) :
    C.Inv cmB' cm temp' { c with t := t' } D' where
  t := ht
  vars := hvars
  next := Nat.le_trans h.next hn
  old := by
    intro σ' e i hi
    obtain ⟨σ, e1, h1⟩ := hD σ' e
    rw [h1 i (Nat.lt_of_lt_of_le hi h.next), h.old σ e1 i hi]
  alt := by
    obtain ⟨cache, e, h1, h2⟩ := h.alt
    refine ⟨cache, by rw [← e]; exact halt, h1, fun s hs => ?_⟩
    obtain ⟨x, hx, e1, e2, e3⟩ := h2 s hs
    refine ⟨x, hx, e1, e2, fun σ' e' => ?_⟩
    obtain ⟨σ, e4, h4⟩ := hD σ' e'
    rw [e3 σ e4, h4 x.id (h.t.lt x (List.mem_append_right _ (by rw [e]; exact List.mem_append_left _ hx)))]
  inj := h.inj
  none := h.none

/-- Counting a visit of a node that is not cached. -/
theorem Inv.bump (G : C.Good) {cmB cm : Nat → Nat} {temp : List SVar} {c : CState} {D : Option (Nat → List Elem)}
    (h : C.Inv cmB cm temp c D) {e : Expr} (hU : C.U e) (he : e.opc.outNum ≠ some 1 ∨ C.N e.id ≤ 1) {x : Nat} :
    C.Inv cmB (upd cm e.id x) temp c D := by
  have key : ∀ s, C.U s → s.opc.outNum = some 1 → ¬ C.N s.id ≤ 1 → upd cm e.id x s.id = cm s.id := by
    intro s hs ho hN
    apply upd_ne
    intro hid
    have := G.uniq s e hs hU hid
    subst this
    rcases he with he | he
    · exact he ho
    · exact hN he
  have kc : ∀ s, C.Cached (upd cm e.id x) s ↔ C.Cached cm s := by
    intro s
    constructor
    · rintro ⟨h1, h2, h3, h4⟩
      have := key s h1 h2 (by omega)
      exact ⟨h1, h2, by rw [this] at h3; exact h3, by rw [this] at h4; exact h4⟩
    · rintro ⟨h1, h2, h3, h4⟩
      have := key s h1 h2 (by omega)
      exact ⟨h1, h2, by rw [this]; exact h3, by rw [this]; exact h4⟩
  refine ⟨h.t, h.vars, h.next, h.old, ?_, fun s s' hs hs' => h.inj s s' ((kc s).mp hs) ((kc s').mp hs'), ?_⟩
  · obtain ⟨cache, e1, h1, h2⟩ := h.alt
    refine ⟨cache, e1, fun y hy => ?_, fun s hs => ?_⟩
    · obtain ⟨s, hs, e2⟩ := h1 y hy
      exact ⟨s, (kc s).mpr hs, e2⟩
    · rw [key s hs.1 hs.2.1 (by have := hs.2.2; omega)]
      exact h2 s ((kc s).mp hs)
  · intro s hs ho hc
    by_cases hN : C.N s.id ≤ 1
    · exact h.none s hs ho (.inr hN)
    · rw [key s hs ho hN] at hc
      exact h.none s hs ho hc

/-- A generator other than a move. -/
theorem Inv.generate (G : C.Good) {cmB cm : Nat → Nat} {ws temp : List SVar} {c : CState}
    {D : Option (Nat → List Elem)} (h : C.Inv cmB cm (ws ++ temp) c D) {e : Expr} (hmv : e.id ∉ C.mvs.map Prod.fst)
    {em : Opc.Emit} (hem : C.EmitOk e em) (hout : e.opc.outNum = Option.none ∨ e.opc.outNum = some (C.w e))
    (hws : ws.length = (e.args.map C.w).sum)
    (hval : ∀ σ, D = some σ → argsVal C.ρ e.args = some (ws.map fun v => σ v.id)) : ∃ vs t' D',
    TapStark.generate C.T C.vg e.opc.outNum em c.t = some (vs, t') ∧ vs.length = C.w e ∧
    C.Inv cmB cm (vs ++ temp) { c with t := t' } D' ∧ c.t.next ≤ t'.next ∧ (D = Option.none → D' = Option.none) ∧
    (C.ρ e = Option.none → D' = Option.none) ∧
    ∀ σ outs, D = some σ → C.ρ e = some outs →
      ∃ σ', D' = some σ' ∧ (∀ i < c.t.next, σ' i = σ i) ∧ vs.map (fun v => σ' v.id) = outs := by
  have hv : c.t.vars = ws ++ (temp ++ C.base cmB) := by rw [h.vars, List.append_assoc]
  have hnil : e.args = [] → ws = [] := by
    intro e0
    rw [e0] at hws
    exact List.length_eq_zero_iff.mp hws
  cases em with
  | custom p k n s =>
    obtain ⟨hk, hn, hs, _, hnone, hok⟩ := hem
    rw [← hws] at hk
    subst hk
    obtain ⟨e1, ht⟩ := custom_inv h.t hv (p := p) (n := n) (s := s) hs (r := fun _ => C.ρ e)
      (fun σ eσ outs eo => ⟨((hok _ (hval σ eσ)).1 outs eo).1, ((hok _ (hval σ eσ)).1 outs eo).2.1⟩)
      (fun σ eσ outs eo => ((hok _ (hval σ eσ)).1 outs eo).2.2)
      (fun σ eσ eo => (hok _ (hval σ eσ)).2 eo)
    refine ⟨Tracker.newVars c.t.next s n, _, _, ?_, ?_, h.update ht rfl ?_ ?_ ?_, ?_, ?_, ?_, ?_⟩
    · simp only [TapStark.generate, e1, Option.bind_eq_bind, Option.bind_some]
      rw [if_pos]
      rw [length_newVars, hn]; exact hout
    · rw [length_newVars, hn]
    · rw [List.append_assoc]
    · exact Nat.le_add_right ..
    · intro σ' e'
      obtain ⟨σ, e2, e3⟩ := Option.bind_eq_some_iff.mp e'
      obtain ⟨outs, e4, rfl⟩ := Option.map_eq_some_iff.mp e3
      exact ⟨σ, e2, fun i hi => assign_lt hi⟩
    · exact Nat.le_add_right ..
    · intro e0; rw [e0]; rfl
    · intro e0; rw [e0]; cases D <;> rfl
    · intro σ outs eσ eo
      obtain ⟨hl, _, _⟩ := (hok _ (hval σ eσ)).1 outs eo
      refine ⟨assign σ c.t.next outs, by rw [eσ, eo]; rfl, fun i hi => assign_lt hi, ?_⟩
      rw [← hl]
      exact newVars_map outs
  | copyVar v =>
    obtain ⟨hargs, hw, _, sv, hsv, hg, hρ, hnm⟩ := hem
    have := hnil hargs
    subst this
    have hmem : sv ∈ c.t.vars := by
      rw [h.vars]
      refine List.mem_append_right _ (List.mem_filter.mpr ⟨hsv, ?_⟩)
      rw [Bool.not_eq_true', List.any_eq_false]
      intro p hp
      rw [Bool.and_eq_true]
      rintro ⟨h1, _⟩
      exact hnm (by rw [← beq_iff_eq.mp h1]; exact List.mem_map_of_mem hp)
    obtain ⟨q, e1, ht⟩ := copyVar_inv G.lib h.t hmem
    refine ⟨[⟨c.t.next, sv.size⟩], _, _, ?_, by rw [hw]; rfl, h.update ht rfl ?_ ?_ ?_, ?_, ?_, ?_, ?_⟩
    · simp only [TapStark.generate, hg, e1, Option.bind_eq_bind, Option.bind_some]
      rw [if_pos]
      rw [hw] at hout; exact hout
    · rw [h.vars]; rfl
    · exact Nat.le_add_right ..
    · intro σ' e'
      obtain ⟨σ, e2, rfl⟩ := Option.map_eq_some_iff.mp e'
      exact ⟨σ, e2, fun i hi => upd_lt hi⟩
    · exact Nat.le_add_right ..
    · intro e0; rw [e0]; rfl
    · intro e0; rw [hρ] at e0; cases e0
    · intro σ outs eσ eo
      rw [hρ] at eo
      cases eo
      refine ⟨upd σ c.t.next (σ sv.id), by rw [eσ]; rfl, fun i hi => upd_lt hi, ?_⟩
      rw [List.map_cons, List.map_nil, upd_self, h.old σ eσ sv.id (G.below sv hsv)]
  | moveVar v =>
    obtain ⟨_, _, sv, _, _, _, hm⟩ := hem
    exact absurd (List.mem_map_of_mem (f := Prod.fst) hm) hmv
  | pushAll es =>
    obtain ⟨hargs, hw, _, hsz, hρ⟩ := hem
    have := hnil hargs
    subst this
    obtain ⟨vs, q, n, D', hn, e1, hl, ht, hnone, hsome⟩ := pushAll_inv G.lib h.t hsz
    refine ⟨vs, _, D', ?_, by rw [hw, hl], h.update ht rfl ?_ ?_ ?_, ?_, ?_, ?_, ?_⟩
    · simp only [TapStark.generate, e1, Option.bind_eq_bind, Option.bind_some]
      rw [if_pos]
      rw [hl, ← hw]; exact hout
    · simp only [h.vars, List.nil_append, List.append_assoc]
    · exact hn
    · intro σ' e'
      cases hD : D with
      | none => rw [hnone hD] at e'; cases e'
      | some σ =>
        obtain ⟨τ, e2, h1, _⟩ := hsome σ hD
        rw [e'] at e2
        cases e2
        exact ⟨σ, rfl, h1⟩
    · exact hn
    · exact hnone
    · intro e0; rw [hρ] at e0; cases e0
    · intro σ outs eσ eo
      rw [hρ] at eo
      cases eo
      exact hsome σ eσ

/-- What a visit of `e` achieves, `step` being the effect on the counts. -/
def VisitClaim (C : Ctx) (opt : Bool) (step : Expr → (Nat → Nat) → (Nat → Nat)) (P : (Nat → Nat) → Prop)
    (e : Expr) : Prop :=
  C.U e → ∀ cm temp c D, C.Inv cm cm temp c D → P (step e cm) →
    ∃ vs c' D', express C.L C.T C.vg C.N opt e c = some (vs, c') ∧ vs.length = C.w e ∧
      C.Inv (step e cm) (step e cm) (vs ++ temp) c' D' ∧ Visit c.t.next c'.t.next (C.ρ e) D vs D'

/-- The operands in turn. -/
theorem visitArgs {opt : Bool} {step : Expr → (Nat → Nat) → (Nat → Nat)} {P : (Nat → Nat) → Prop}
    (hP : ∀ (es : List Expr) cm, P (es.foldl (fun cm e => step e cm) cm) → P cm) :
    ∀ (es : List Expr), (∀ e ∈ es, C.U e) → (∀ e ∈ es, VisitClaim C opt step P e) →
    ∀ sizes, sizesOf es = some sizes → ∀ cm temp c D, C.Inv cm cm temp c D →
    P (es.foldl (fun cm e => step e cm) cm) →
    ∃ ws c' D', expressArgs C.L C.T C.vg C.N opt es c = some (sizes, c') ∧ ws.length = (es.map C.w).sum ∧
      C.Inv (es.foldl (fun cm e => step e cm) cm) (es.foldl (fun cm e => step e cm) cm) (ws ++ temp) c' D' ∧
      Visit c.t.next c'.t.next (argsVal C.ρ es) D ws D' := by
  intro es
  induction es with
  | nil =>
    intro _ _ sizes hs cm temp c D h _
    cases hs
    refine ⟨[], c, D, by rw [expressArgs], rfl, h, Nat.le_refl _, fun h => h, fun h => (by cases h), ?_⟩
    intro σ outs e1 e2
    cases e2
    exact ⟨σ, e1, fun _ _ => rfl, rfl⟩
  | cons e es ih =>
    intro hU hv sizes hs cm temp c D h hPf
    obtain ⟨s, hs1, hs2⟩ := Option.bind_eq_some_iff.mp hs
    obtain ⟨ss, hs3, rfl⟩ := Option.map_eq_some_iff.mp hs2
    rw [List.foldl_cons] at hPf
    obtain ⟨vs, c1, D1, e1, l1, i1, v1⟩ := hv e (List.mem_cons_self ..) (hU e (List.mem_cons_self ..)) cm temp c D h
      (hP es _ hPf)
    obtain ⟨ws, c2, D2, e2, l2, i2, v2⟩ := ih (fun x hx => hU x (List.mem_cons_of_mem _ hx))
      (fun x hx => hv x (List.mem_cons_of_mem _ hx)) ss hs3 _ _ c1 D1 i1 hPf
    refine ⟨ws ++ vs, c2, D2, ?_, ?_, ?_, ?_⟩
    · rw [expressArgs, e1]
      simp [hs1, e2]
    · rw [List.length_append, l1, l2, List.map_cons, List.sum_cons, Nat.add_comm]
    · rw [List.append_assoc, List.foldl_cons]; exact i2
    · refine ⟨Nat.le_trans v1.le v2.le, fun h0 => v2.dead (v1.dead h0), ?_, ?_⟩
      · intro h0
        cases hr : C.ρ e with
        | none => exact v2.dead (v1.fail hr)
        | some x =>
          apply v2.fail
          rw [argsVal, hr, Option.bind_some, Option.map_eq_none_iff] at h0
          exact h0
      · intro σ outs eσ eo
        obtain ⟨x, ex, eo⟩ := Option.bind_eq_some_iff.mp eo
        obtain ⟨y, ey, rfl⟩ := Option.map_eq_some_iff.mp eo
        obtain ⟨σ1, d1, a1, b1⟩ := v1.ok σ x eσ ex
        obtain ⟨σ2, d2, a2, b2⟩ := v2.ok σ1 y d1 ey
        refine ⟨σ2, d2, fun i hi => ?_, ?_⟩
        · rw [a2 i (Nat.lt_of_lt_of_le hi v1.le), a1 i hi]
        · rw [List.map_append, b2, ← b1]
          congr 1
          apply List.map_congr_left
          intro v hv'
          apply a2
          refine i1.t.lt v (List.mem_append_left _ ?_)
          rw [i1.vars]
          exact List.mem_append_left _ (List.mem_append_left _ hv')

theorem foldl_simulate : ∀ (es : List Expr) (cm : Nat → Nat),
    es.foldl (fun cm e => simulate e cm) cm = simulateArgs es cm
  | [], cm => by rw [simulateArgs]; rfl
  | e :: es, cm => by rw [List.foldl_cons, foldl_simulate es, simulateArgs]

theorem foldl_const {α β : Type} (es : List β) (cm : α) : es.foldl (fun cm _ => cm) cm = cm := by
  induction es with
  | nil => rfl
  | cons e es ih => rw [List.foldl_cons, ih]

/-- Operands then generator. -/
theorem visit_comp {e : Expr} {em : Opc.Emit} (hem : C.EmitOk e em) {n n1 n2 : Nat}
    {D D1 D2 : Option (Nat → List Elem)} {ws vs : List SVar} (v1 : Visit n n1 (argsVal C.ρ e.args) D ws D1)
    (hn : n1 ≤ n2) (hd : D1 = none → D2 = none) (hf : C.ρ e = none → D2 = none)
    (ho : ∀ σ outs, D1 = some σ → C.ρ e = some outs →
      ∃ σ', D2 = some σ' ∧ (∀ i < n1, σ' i = σ i) ∧ vs.map (fun v => σ' v.id) = outs) :
    Visit n n2 (C.ρ e) D vs D2 := by
  refine ⟨Nat.le_trans v1.le hn, fun h0 => hd (v1.dead h0), hf, ?_⟩
  intro σ outs eσ eo
  cases ha : argsVal C.ρ e.args with
  | none =>
    exfalso
    cases em with
    | custom p k n s =>
      obtain ⟨_, _, _, _, hnone, _⟩ := hem
      rw [hnone ha] at eo; cases eo
    | copyVar v => rw [hem.1] at ha; cases ha
    | moveVar v => rw [hem.1] at ha; cases ha
    | pushAll es => rw [hem.1] at ha; cases ha
  | some ins =>
    obtain ⟨σ1, d1, a1, b1⟩ := v1.ok σ ins eσ ha
    obtain ⟨σ2, d2, a2, b2⟩ := ho σ1 outs d1 eo
    exact ⟨σ2, d2, fun i hi => by rw [a2 i (Nat.lt_of_lt_of_le hi v1.le), a1 i hi], b2⟩

theorem visit_args_val {n n1 : Nat} {e : Expr} {D D1 : Option (Nat → List Elem)} {ws : List SVar}
    (v1 : Visit n n1 (argsVal C.ρ e.args) D ws D1) (σ : Nat → List Elem) (h : D1 = some σ) :
    argsVal C.ρ e.args = some (ws.map fun v => σ v.id) := by
  obtain ⟨_, outs, _, e2, _, e4⟩ := v1.back h
  rw [e2, e4]

/-- Unfolding a visit that goes through the operands. -/
theorem express_miss {opt : Bool} {e : Expr} {c c1 : CState} {sizes : List Nat} {em : Opc.Emit} {vs : List SVar}
    {t' : Tracker} (h0 : ¬ (opt = true ∧ e.opc.outNum = some 1 ∧ C.N e.id = 0))
    (h1 : ¬ (opt = true ∧ e.opc.outNum = some 1 ∧ C.N e.id > 1 ∧ (c.svar e.id).isSome))
    (hin : e.args.length = e.opc.inNum)
    (ha : expressArgs C.L C.T C.vg C.N opt e.args c = some (sizes, c1)) (hem : e.opc.emit C.L sizes = some em)
    (hg : TapStark.generate C.T C.vg e.opc.outNum em c1.t = some (vs, t')) :
    express C.L C.T C.vg C.N opt e c = keepCopy C.T C.N opt e.id e.opc.outNum vs { c1 with t := t' } := by
  cases e with
  | node id opc size args =>
    simp only [Expr.id, Expr.opc, Expr.args] at *
    rw [express, if_neg h0, if_neg h1, if_neg (by simp [hin])]
    simp [ha, hem, hg]

/-- A visit that does not use the cache. -/
theorem visit_plain (G : C.Good) {opt : Bool} : ∀ (e : Expr), C.Plain opt e →
    VisitClaim C opt (fun _ cm => cm) (fun _ => True) e
  | e, hp => by
    intro hU cm temp c D h _
    obtain ⟨hin, sizes, em, hsz, hem, hok, hout⟩ := G.node e hU
    obtain ⟨ws, c1, D1, e1, l1, i1, v1⟩ := visitArgs (C := C) (opt := opt) (step := fun _ cm => cm)
      (P := fun _ => True) (fun _ _ _ => trivial) e.args (G.closed e hU)
      (fun a ha => visit_plain G a fun s hs => hp s (.arg ha hs)) sizes hsz cm temp c D h trivial
    rw [foldl_const] at i1
    obtain ⟨hmv, hN⟩ := hp e (.refl e)
    obtain ⟨vs, t', D', g1, l2, i2, n2, d2, f2, o2⟩ := i1.generate G hmv hok hout l1 (visit_args_val v1)
    refine ⟨vs, { c1 with t := t' }, D', ?_, l2, i2, visit_comp hok v1 n2 d2 f2 o2⟩
    rw [express_miss ?_ ?_ hin e1 hem g1]
    · unfold keepCopy
      rw [if_neg]
      rintro ⟨ho, hs, hn, _⟩
      rcases hN with h | h | h
      · rw [h] at ho; cases ho
      · exact h hs
      · omega
    · rintro ⟨ho, hs, hn⟩
      rcases hN with h | h | h
      · rw [h] at ho; cases ho
      · exact h hs
      · omega
    · rintro ⟨ho, hs, hn, _⟩
      rcases hN with h | h | h
      · rw [h] at ho; cases ho
      · exact h hs
      · omega
termination_by e => sizeOf e
decreasing_by exact sizeOf_arg ha

/-- Moving an input. -/
theorem Inv.move (G : C.Good) {cm : Nat → Nat} {temp : List SVar} {c : CState} {D : Option (Nat → List Elem)}
    (h : C.Inv cm cm temp c D) {e : Expr} {v : Variable} (hem : C.EmitOk e (.moveVar v)) (hc : cm e.id = 0)
    (hout : e.opc.outNum = Option.none ∨ e.opc.outNum = some (C.w e)) : ∃ vs t',
    TapStark.generate C.T C.vg e.opc.outNum (.moveVar v) c.t = some (vs, t') ∧ vs.length = C.w e ∧
    C.Inv (upd cm e.id 1) cm (vs ++ temp) { c with t := t' } D ∧ c.t.next ≤ t'.next ∧
    ∀ σ, D = some σ → C.ρ e = some (vs.map fun v => σ v.id) := by
  obtain ⟨hargs, hw, sv, hsv, hg, hρ, hm⟩ := hem
  have hany : ∀ u : SVar, (C.mvs.any fun p => p.2 == u.id && decide (0 < upd cm e.id 1 p.1)) =
      ((C.mvs.any fun p => p.2 == u.id && decide (0 < cm p.1)) || decide (u.id = sv.id)) := by
    intro u
    rw [Bool.eq_iff_iff, Bool.or_eq_true]
    simp only [List.any_eq_true, Bool.and_eq_true, decide_eq_true_eq, beq_iff_eq]
    constructor
    · rintro ⟨p, hp, h1, h2⟩
      by_cases hk : p.1 = e.id
      · right
        rw [← h1]
        exact G.injFst p hp _ hm hk
      · left
        rw [upd_ne hk] at h2
        exact ⟨p, hp, h1, h2⟩
    · rintro (⟨p, hp, h1, h2⟩ | h1)
      · refine ⟨p, hp, h1, ?_⟩
        by_cases hk : p.1 = e.id
        · rw [hk, upd_self]; omega
        · rw [upd_ne hk]; exact h2
      · exact ⟨_, hm, h1.symm, by rw [upd_self]; omega⟩
  have hbase : sv ∈ C.base cm := by
    refine List.mem_filter.mpr ⟨hsv, ?_⟩
    rw [Bool.not_eq_true', List.any_eq_false]
    intro p hp
    rw [Bool.and_eq_true]
    rintro ⟨h1, h2⟩
    have := G.injSnd p hp _ hm (beq_iff_eq.mp h1)
    simp only [decide_eq_true_eq] at h2
    rw [this] at h2
    simp only at h2
    omega
  have hmem : sv ∈ c.t.vars := by rw [h.vars]; exact List.mem_append_right _ hbase
  obtain ⟨q, e1, ht⟩ := moveVar_inv G.lib h.t hmem
  have hfil : c.t.vars.filter (fun w => decide (w.id ≠ sv.id)) = temp ++ C.base (upd cm e.id 1) := by
    rw [h.vars, List.filter_append]
    congr 1
    · apply List.filter_eq_self.mpr
      intro u hu
      have hnd := h.t.nodupVars
      rw [h.vars, List.map_append, List.nodup_append] at hnd
      have := hnd.2.2 u.id (List.mem_map_of_mem hu) sv.id (List.mem_map_of_mem hbase)
      simpa using this
    · unfold base
      rw [List.filter_filter]
      apply List.filter_congr
      intro u _
      rw [hany u, Bool.not_or, Bool.and_comm]
      congr 1
      simp
  refine ⟨[sv], _, ?_, by rw [hw]; rfl, h.update ht rfl ?_ ?_ ?_, ?_, ?_⟩
  · simp only [TapStark.generate, hg, e1, Option.bind_eq_bind, Option.bind_some]
    rw [if_pos]
    rw [hw] at hout; exact hout
  · simp only [hfil]; rfl
  · exact Nat.le_refl _
  · exact fun σ' e' => ⟨σ', e', fun _ _ => rfl⟩
  · exact Nat.le_refl _
  · intro σ eσ
    rw [hρ, List.map_cons, List.map_nil, h.old σ eσ sv.id (G.below sv hsv)]

/-- Keeping a copy for later visits. -/
theorem Inv.keep (G : C.Good) {cmB cm : Nat → Nat} {v : SVar} {temp : List SVar} {c : CState}
    {D : Option (Nat → List Elem)} (h : C.Inv cmB cm (v :: temp) c D) {e : Expr} (hU : C.U e)
    (ho : e.opc.outNum = some 1) (hN : C.N e.id > 1) (hc : cm e.id = 0)
    (hρ : ∀ σ, D = some σ → C.ρ e = some [σ v.id]) : ∃ c' D',
    keepCopy C.T C.N true e.id e.opc.outNum [v] c = some ([v], c') ∧ C.Inv cmB (upd cm e.id 1) (v :: temp) c' D' ∧
    c.t.next ≤ c'.t.next ∧ (D = Option.none → D' = Option.none) ∧
    ∀ σ, D = some σ → ∃ σ', D' = some σ' ∧ (∀ i < c.t.next, σ' i = σ i) := by
  have hv : v ∈ c.t.vars := by rw [h.vars]; exact List.mem_cons_self ..
  obtain ⟨q1, e1, ht1⟩ := copyVar_inv G.lib h.t hv
  obtain ⟨q2, e2, ht2⟩ := toAltstack_inv G.lib ht1
  obtain ⟨n1, n2⟩ := h.none e hU ho (.inl hc)
  have hfresh : ∀ u ∈ c.t.alt, u.id ≠ c.t.next := fun u hu => by
    have := h.t.lt u (List.mem_append_right _ hu); omega
  have hcache : ∀ s, C.Cached (upd cm e.id 1) s ↔ C.Cached cm s ∨ s = e := by
    intro s
    by_cases hs : s.id = e.id
    · constructor
      · rintro ⟨a, b, _⟩; exact .inr (G.uniq s e a hU hs)
      · rintro (⟨a, b, h3, _⟩ | rfl)
        · rw [hs] at h3; omega
        · exact ⟨hU, ho, by rw [upd_self], by rw [upd_self]; exact hN⟩
    · constructor
      · rintro ⟨a, b, h3, h4⟩
        rw [upd_ne hs] at h3 h4
        exact .inl ⟨a, b, h3, h4⟩
      · rintro (⟨a, b, h3, h4⟩ | rfl)
        · exact ⟨a, b, by rw [upd_ne hs]; exact h3, by rw [upd_ne hs]; exact h4⟩
        · exact absurd rfl hs
  have hne : ∀ s, C.Cached cm s → s.id ≠ e.id := by
    rintro s ⟨a, b, h3, _⟩ hs
    rw [hs] at h3; omega
  refine ⟨⟨_, c.copied, upd c.svar e.id (some ⟨c.t.next, v.size⟩)⟩, _, ?_, ⟨ht2, h.vars, ?_, ?_, ?_, ?_, ?_⟩, ?_, ?_, ?_⟩
  · unfold keepCopy
    rw [if_pos ⟨rfl, ho, hN, n1, n2⟩]
    simp [e1, e2]
  · exact Nat.le_trans h.next (Nat.le_add_right ..)
  · intro σ' e' i hi
    obtain ⟨σ, e3, rfl⟩ := Option.map_eq_some_iff.mp e'
    rw [upd_lt (Nat.lt_of_lt_of_le hi h.next), h.old σ e3 i hi]
  · obtain ⟨cache, ec, h1, h2⟩ := h.alt
    refine ⟨⟨c.t.next, v.size⟩ :: cache, by simp only [ec, List.cons_append], ?_, ?_⟩
    · intro x hx
      rcases List.mem_cons.mp hx with rfl | hx
      · exact ⟨e, (hcache e).mpr (.inr rfl), upd_self ..⟩
      · obtain ⟨s, hs, es⟩ := h1 x hx
        exact ⟨s, (hcache s).mpr (.inl hs), (upd_ne (hne s hs)).trans es⟩
    · intro s hs
      rcases (hcache s).mp hs with hs | rfl
      · obtain ⟨x, hx, es, ec', eρ⟩ := h2 s hs
        refine ⟨x, List.mem_cons_of_mem _ hx, (upd_ne (hne s hs)).trans es,
          by rw [upd_ne (hne s hs)]; exact ec', ?_⟩
        intro σ' e'
        obtain ⟨σ, e3, rfl⟩ := Option.map_eq_some_iff.mp e'
        have := h.t.lt x (List.mem_append_right _ (by rw [ec]; exact List.mem_append_left _ hx))
        rw [upd_lt this, eρ σ e3]
      · refine ⟨_, List.mem_cons_self .., upd_self .., by rw [upd_self]; exact n2, ?_⟩
        intro σ' e'
        obtain ⟨σ, e3, rfl⟩ := Option.map_eq_some_iff.mp e'
        rw [hρ σ e3]
        simp only [upd_self]
  · have hx : ∀ s, C.Cached cm s → c.svar s.id ≠ some ⟨c.t.next, v.size⟩ := by
      intro s hs es
      obtain ⟨cache, ec, h1, h2⟩ := h.alt
      obtain ⟨x, hx, es', _⟩ := h2 s hs
      rw [es] at es'
      cases es'
      exact hfresh _ (by rw [ec]; exact List.mem_append_left _ hx) rfl
    intro s s' hs hs' he
    simp only at he
    rcases (hcache s).mp hs with hs | hs <;> rcases (hcache s').mp hs' with hs' | hs'
    · rw [upd_ne (hne s hs), upd_ne (hne s' hs')] at he
      exact h.inj s s' hs hs' he
    · rw [upd_ne (hne s hs), hs', upd_self] at he
      exact absurd he (hx s hs)
    · rw [upd_ne (hne s' hs'), hs, upd_self] at he
      exact absurd he.symm (hx s' hs')
    · rw [hs, hs']
  · intro s hs hso hsc
    by_cases hse : s.id = e.id
    · rw [hse, upd_self] at hsc
      omega
    · rw [upd_ne hse] at hsc
      simp only [upd_ne hse]
      exact h.none s hs hso hsc
  · exact Nat.le_add_right ..
  · intro e0; rw [e0]; rfl
  · intro σ eσ
    exact ⟨upd σ c.t.next (σ v.id), by rw [eσ]; rfl, fun i hi => upd_lt hi⟩

/-- A later visit of a cached node. -/
theorem visit_hit (G : C.Good) {cm : Nat → Nat} {temp : List SVar} {c : CState} {D : Option (Nat → List Elem)}
    (h : C.Inv cm cm temp c D) {e : Expr} (hw : C.w e = 1) (hC : C.Cached cm e) : ∃ vs c' D',
    express C.L C.T C.vg C.N true e c = some (vs, c') ∧ vs.length = C.w e ∧
    C.Inv (upd cm e.id (cm e.id + 1)) (upd cm e.id (cm e.id + 1)) (vs ++ temp) c' D' ∧
    Visit c.t.next c'.t.next (C.ρ e) D vs D' := by
  obtain ⟨hU, ho, h1, h2⟩ := hC
  obtain ⟨cache, ec, hc1, hc2⟩ := h.alt
  obtain ⟨x, hx, es, ecop, eρ⟩ := hc2 e ⟨hU, ho, h1, h2⟩
  have hxa : x ∈ c.t.alt := by rw [ec]; exact List.mem_append_left _ hx
  have hbase : C.base (upd cm e.id (cm e.id + 1)) = C.base cm := base_upd (.inr ⟨h1, by omega⟩)
  have hfail : C.ρ e = Option.none → D = Option.none := by
    intro e0
    cases hD : D with
    | none => rfl
    | some σ => rw [eρ σ hD] at e0; cases e0
  have hid : ∀ s s', C.U s → C.U s' → s.id = s'.id → s = s' := G.uniq
  by_cases hlast : cm e.id + 1 = C.N e.id
  · obtain ⟨q, e1, ht⟩ := moveVarFromAlt_inv G.lib h.t hxa
    have hcache : ∀ s, C.Cached (upd cm e.id (cm e.id + 1)) s ↔ C.Cached cm s ∧ s.id ≠ e.id := by
      intro s
      by_cases hs : s.id = e.id
      · refine iff_of_false ?_ (fun h => h.2 hs)
        rintro ⟨_, _, _, h4⟩
        rw [hs, upd_self] at h4; omega
      · unfold Cached
        rw [upd_ne hs]
        exact ⟨fun h => ⟨h, hs⟩, fun h => h.1⟩
    have hnd := h.t.nodupAlt
    refine ⟨[x], { c with t := _ }, D, ?_, by rw [hw]; rfl, ⟨ht, ?_, h.next, h.old, ?_, ?_, ?_⟩, ?_⟩
    · cases e with
      | node id opc size args =>
        simp only [Expr.id, Expr.opc] at *
        rw [express, if_neg (by intro ⟨_, _, h⟩; omega), if_pos ⟨rfl, ho, by omega, by rw [es]; rfl⟩]
        simp only [es, Option.bind_eq_bind, Option.bind_some]
        rw [if_pos (by omega), e1]
        rfl
    · simp only [h.vars, hbase]; rfl
    · refine ⟨cache.filter fun w => decide (w.id ≠ x.id), ?_, ?_, ?_⟩
      · simp only [ec, List.filter_append]
        congr 1
        apply List.filter_eq_self.mpr
        intro u hu
        rw [ec, List.map_append, List.nodup_append] at hnd
        have := hnd.2.2 x.id (List.mem_map_of_mem hx) u.id (List.mem_map_of_mem hu)
        simpa using Ne.symm this
      · intro y hy
        obtain ⟨hy, hne⟩ := List.mem_filter.mp hy
        obtain ⟨s, hs, es'⟩ := hc1 y hy
        refine ⟨s, (hcache s).mpr ⟨hs, fun hse => ?_⟩, es'⟩
        rw [hse, es] at es'
        cases es'
        simp at hne
      · intro s hs
        obtain ⟨hs, hse⟩ := (hcache s).mp hs
        obtain ⟨y, hy, es', ec', eρ'⟩ := hc2 s hs
        refine ⟨y, List.mem_filter.mpr ⟨hy, ?_⟩, es', by rw [upd_ne hse]; exact ec', eρ'⟩
        simp only [ne_eq, decide_eq_true_eq]
        intro hyx
        apply hse
        apply h.inj s e hs ⟨hU, ho, h1, h2⟩
        rw [es, es']
        congr 1
        have hmap : (c.t.alt.map SVar.id).Nodup := hnd
        exact List.inj_on_of_nodup_map hmap (by rw [ec]; exact List.mem_append_left _ hy) hxa hyx
    · intro s s' hs hs'
      exact h.inj s s' ((hcache s).mp hs).1 ((hcache s').mp hs').1
    · intro s hs hso hsc
      by_cases hse : s.id = e.id
      · rw [hse] at hsc
        rw [upd_self] at hsc
        omega
      · rw [upd_ne hse] at hsc
        exact h.none s hs hso hsc
    · refine ⟨Nat.le_refl _, fun h => h, hfail, ?_⟩
      intro σ outs eσ eo
      rw [eρ σ eσ] at eo
      cases eo
      exact ⟨σ, eσ, fun _ _ => rfl, rfl⟩
  · obtain ⟨q, e1, ht⟩ := copyVarFromAlt_inv G.lib h.t hxa
    have hcache : ∀ s, C.Cached (upd cm e.id (cm e.id + 1)) s ↔ C.Cached cm s := by
      intro s
      by_cases hs : s.id = e.id
      · unfold Cached
        rw [hs, upd_self]
        constructor
        · rintro ⟨a, b, _, _⟩; exact ⟨a, b, h1, h2⟩
        · rintro ⟨a, b, _, _⟩; exact ⟨a, b, by omega, by omega⟩
      · unfold Cached
        rw [upd_ne hs]
    refine ⟨[⟨c.t.next, x.size⟩], { c with t := _, copied := upd c.copied e.id (c.copied e.id + 1) }, _, ?_,
      by rw [hw]; rfl, ⟨ht, ?_, ?_, ?_, ?_, ?_, ?_⟩, ?_⟩
    · cases e with
      | node id opc size args =>
        simp only [Expr.id, Expr.opc] at *
        rw [express, if_neg (by intro ⟨_, _, h⟩; omega), if_pos ⟨rfl, ho, by omega, by rw [es]; rfl⟩]
        simp only [es, Option.bind_eq_bind, Option.bind_some]
        rw [if_neg (by omega), e1]
        rfl
    · simp only [h.vars, hbase]; rfl
    · exact Nat.le_trans h.next (Nat.le_add_right ..)
    · intro σ' e' i hi
      obtain ⟨σ, e3, rfl⟩ := Option.map_eq_some_iff.mp e'
      rw [upd_lt (Nat.lt_of_lt_of_le hi h.next), h.old σ e3 i hi]
    · refine ⟨cache, ec, ?_, ?_⟩
      · intro y hy
        obtain ⟨s, hs, es'⟩ := hc1 y hy
        exact ⟨s, (hcache s).mpr hs, es'⟩
      · intro s hs
        obtain ⟨y, hy, es', ec', eρ'⟩ := hc2 s ((hcache s).mp hs)
        refine ⟨y, hy, es', ?_, ?_⟩
        · by_cases hse : s.id = e.id
          · simp only [hse, upd_self]
            omega
          · simp only [upd_ne hse]
            exact ec'
        · intro σ' e'
          obtain ⟨σ, e3, rfl⟩ := Option.map_eq_some_iff.mp e'
          have := h.t.lt y (List.mem_append_right _ (by rw [ec]; exact List.mem_append_left _ hy))
          rw [upd_lt this, eρ' σ e3]
    · intro s s' hs hs'
      exact h.inj s s' ((hcache s).mp hs) ((hcache s').mp hs')
    · intro s hs hso hsc
      by_cases hse : s.id = e.id
      · rw [hse] at hsc
        rw [upd_self] at hsc
        omega
      · rw [upd_ne hse] at hsc
        simp only [upd_ne hse]
        exact h.none s hs hso hsc
    · refine ⟨Nat.le_add_right .., fun h => by rw [h]; rfl, fun h => by rw [hfail h]; rfl, ?_⟩
      intro σ outs eσ eo
      rw [eρ σ eσ] at eo
      cases eo
      refine ⟨upd σ c.t.next (σ x.id), by rw [eσ]; rfl, fun i hi => upd_lt hi, ?_⟩
      simp only [List.map_cons, List.map_nil, upd_self]

/-- A visit in lockstep with the counting of visits. -/
theorem visit (G : C.Good) (hmulti : ∀ e, C.U e → e.opc.outNum ≠ some 1 → C.N e.id ≤ 1 ∨ C.Plain true e) :
    ∀ (e : Expr), VisitClaim C true simulate (fun cm => ∀ k, cm k ≤ C.N k) e
  | e => by
    intro hU cm temp c D h hP
    obtain ⟨hin, sizes, em, hsz, hem, hok, hout⟩ := G.node e hU
    have hsim : simulate e cm = if cm e.id + 1 > 1 then upd cm e.id (cm e.id + 1) else
        simulateArgs e.args (upd cm e.id (cm e.id + 1)) := by
      cases e with
      | node id opc size args => exact simulate_node ..
    by_cases hc : cm e.id = 0
    · -- the first visit
      have hfresh : ∀ a ∈ e.args, ∀ s, Sub s a → s.id ≠ e.id := by
        intro a ha s hs hse
        have hUs : ∀ s a, Sub s a → C.U a → C.U s := by
          intro s a hs
          induction hs with
          | refl => exact fun h => h
          | arg ha _ ih => exact fun h => ih (G.closed _ h _ ha)
        have := G.uniq s e (hUs s a hs (G.closed e hU a ha)) hU hse
        have h1 := hs.sizeOf_le
        rw [this] at h1
        have h2 := sizeOf_arg ha
        omega
      rw [hc, if_neg (by omega), simulateArgs_upd hfresh] at hsim
      rw [hsim] at hP ⊢
      have hsame := simulateArgs_same hfresh cm
      have hP1 : ∀ k, simulateArgs e.args cm k ≤ C.N k := by
        intro k
        by_cases hk : k = e.id
        · rw [hk, hsame, hc]; exact Nat.zero_le _
        · have := hP k
          rw [upd_ne hk] at this
          exact this
      have hN1 : 1 ≤ C.N e.id := by
        have := hP e.id
        rw [upd_self] at this
        exact this
      obtain ⟨ws, c1, D1, e1, l1, i1, v1⟩ := visitArgs (C := C) (opt := true) (step := simulate)
        (P := fun cm => ∀ k, cm k ≤ C.N k)
        (fun es cm' hb k => Nat.le_trans (simulateArgs_mono es cm' k) (by rw [← foldl_simulate]; exact hb k))
        e.args (G.closed e hU) (fun a ha => visit G hmulti a) sizes hsz cm temp c D h
        (by rw [foldl_simulate]; exact hP1)
      rw [foldl_simulate] at i1
      have hmiss : ∀ {vs t'}, TapStark.generate C.T C.vg e.opc.outNum em c1.t = some (vs, t') →
          express C.L C.T C.vg C.N true e c = keepCopy C.T C.N true e.id e.opc.outNum vs { c1 with t := t' } := by
        intro vs t' hg
        refine express_miss ?_ ?_ hin e1 hem hg
        · rintro ⟨_, _, h0⟩; omega
        · rintro ⟨_, ho, _, h0⟩
          rw [(h.none e hU ho (.inl hc)).1] at h0
          cases h0
      -- the generator
      have hgen : ∃ vs t' D', TapStark.generate C.T C.vg e.opc.outNum em c1.t = some (vs, t') ∧ vs.length = C.w e ∧
          C.Inv (upd (simulateArgs e.args cm) e.id 1) (simulateArgs e.args cm) (vs ++ temp) { c1 with t := t' } D' ∧
          Visit c.t.next t'.next (C.ρ e) D vs D' := by
        by_cases hmv : ∃ v, em = .moveVar v
        · obtain ⟨v, rfl⟩ := hmv
          have hargs := hok.1
          have hw0 : ws = [] := by rw [hargs] at l1; exact List.length_eq_zero_iff.mp l1
          subst hw0
          obtain ⟨vs, t', g1, l2, i2, n2, o2⟩ := i1.move G hok (by rw [hsame, hc]) hout
          refine ⟨vs, t', D1, g1, l2, i2, visit_comp hok v1 n2 (fun h => h) ?_ ?_⟩
          · intro h0
            cases hD : D1 with
            | none => rfl
            | some σ => rw [o2 σ hD] at h0; cases h0
          · intro σ outs eσ eo
            rw [o2 σ eσ] at eo
            cases eo
            exact ⟨σ, eσ, fun _ _ => rfl, rfl⟩
        · have hmv' : e.id ∉ C.mvs.map Prod.fst := by
            cases em with
            | custom => exact hok.2.2.2.1
            | copyVar => exact hok.2.2.1
            | moveVar v => exact absurd ⟨v, rfl⟩ hmv
            | pushAll => exact hok.2.2.1
          obtain ⟨vs, t', D', g1, l2, i2, n2, d2, f2, o2⟩ := i1.generate G hmv' hok hout l1 (visit_args_val v1)
          refine ⟨vs, t', D', g1, l2, ?_, visit_comp hok v1 n2 d2 f2 o2⟩
          refine ⟨i2.t, ?_, i2.next, i2.old, i2.alt, i2.inj, i2.none⟩
          rw [base_upd (.inl hmv')]
          exact i2.vars
      obtain ⟨vs, t', D', g1, l2, i2, v2⟩ := hgen
      by_cases hcase : e.opc.outNum = some 1 ∧ C.N e.id > 1
      · obtain ⟨ho, hN⟩ := hcase
        have hw : C.w e = 1 := by
          rcases hout with h0 | h0 <;> rw [ho] at h0
          · cases h0
          · exact (Option.some.inj h0).symm
        rw [hw] at l2
        obtain ⟨v, rfl⟩ := List.length_eq_one_iff.mp l2
        have hρ : ∀ σ, D' = some σ → C.ρ e = some [σ v.id] := by
          intro σ eσ
          obtain ⟨_, outs, _, eo, _, em'⟩ := v2.back eσ
          rw [eo, ← em']; rfl
        obtain ⟨c', D2, k1, k2, k3, k4, k5⟩ := i2.keep G hU ho hN (by rw [hsame, hc]) hρ
        refine ⟨[v], c', D2, by rw [hmiss g1]; exact k1, by rw [hw]; rfl, k2, ?_⟩
        refine ⟨Nat.le_trans v2.le k3, fun h0 => k4 (v2.dead h0), fun h0 => k4 (v2.fail h0), ?_⟩
        intro σ outs eσ eo
        obtain ⟨σ1, d1, a1, b1⟩ := v2.ok σ outs eσ eo
        obtain ⟨σ2, d2, a2⟩ := k5 σ1 d1
        refine ⟨σ2, d2, fun i hi => by rw [a2 i (Nat.lt_of_lt_of_le hi v2.le), a1 i hi], ?_⟩
        rw [← b1, List.map_cons, List.map_cons]
        congr 1
        apply a2
        refine i2.t.lt v (List.mem_append_left _ ?_)
        rw [i2.vars]
        exact List.mem_cons_self ..
      · have hcase' : e.opc.outNum ≠ some 1 ∨ C.N e.id ≤ 1 := by
          by_cases ho : e.opc.outNum = some 1
          · exact .inr (Nat.not_lt.mp fun h => hcase ⟨ho, h⟩)
          · exact .inl ho
        refine ⟨vs, { c1 with t := t' }, D', ?_, l2, i2.bump G hU hcase', v2⟩
        rw [hmiss g1]
        unfold keepCopy
        rw [if_neg]
        rintro ⟨_, ho, hN, _⟩
        exact hcase ⟨ho, hN⟩
    · -- a later visit
      rw [if_pos (by omega)] at hsim
      rw [hsim] at hP ⊢
      have hN : cm e.id + 1 ≤ C.N e.id := by
        have := hP e.id
        rw [upd_self] at this
        exact this
      by_cases ho : e.opc.outNum = some 1
      · have hw : C.w e = 1 := by
          rcases hout with h0 | h0 <;> rw [ho] at h0
          · cases h0
          · exact (Option.some.inj h0).symm
        exact visit_hit G h hw ⟨hU, ho, Nat.pos_of_ne_zero hc, hN⟩
      · rcases hmulti e hU ho with h0 | hp
        · omega
        · obtain ⟨vs, c', D', p1, p2, p3, p4⟩ := visit_plain G e hp hU cm temp c D h trivial
          refine ⟨vs, c', D', p1, p2, ?_, p4⟩
          have p5 := p3.bump G hU (.inl ho) (x := cm e.id + 1)
          refine ⟨p5.t, ?_, p5.next, p5.old, p5.alt, p5.inj, p5.none⟩
          rw [base_upd (cm := cm) (.inr ⟨Nat.pos_of_ne_zero hc, Nat.succ_pos _⟩)]
          exact p5.vars
termination_by e => sizeOf e
decreasing_by exact sizeOf_arg ha

end Ctx

end TapStark
