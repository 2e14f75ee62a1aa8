import Verif.Proofs.ExpressMain
import Verif.Proofs.Tracker
import Verif.Spec.Dsl

/-
Sets of nodes are well formed, the inputs of a manager are where the compiler expects them.
-/

namespace TapStark

open Stark (BB4 asBase4 mk4)

variable {K : Variable → Kind} {env : Variable → Val} {n : Nat} {P : Expr → Prop}

theorem kindsArgs_eq (es : List Expr) : kindsArgs K es = es.map (kinds K) := by
  induction es with
  | nil => rfl
  | cons e es ih => rw [kindsArgs, ih]; rfl

theorem kinds_node (id : Nat) (opc : Opc) (size : Nat) (args : List Expr) :
    kinds K (.node id opc size args) = opc.kinds K (args.map (kinds K)) := by
  rw [kinds, kindsArgs_eq]

theorem Good.sub (h : Good K n P) {s e : Expr} (hs : Sub s e) : P e → P s := by
  induction hs with
  | refl => exact id
  | arg ha _ ih => exact fun he => ih (h.closed _ he _ ha)

theorem Good.wellTyped (h : Good K n P) {e : Expr} (he : P e) : WellTyped K (kinds K) e where
  types s hs := h.types s (h.sub hs he)
  size s k hs := h.size s k (h.sub hs he)
  sizes s hs := h.sizes s (h.sub hs he)
  one s hs := h.one s (h.sub hs he)

theorem Good.shared (h : Good K n P) {e : Expr} (he : P e) : Shared e := fun s s' hs hs' =>
  h.uniq s s' (h.sub hs he) (h.sub hs' he)

theorem Good.movesOnce (h : Good K n P) {e : Expr} (he : P e) {vg : Variable → Option SVar}
    (hvg : ∀ s s' v v', P s → P s' → Reads s v → Reads s' v' → vg v = vg v' → v = v') : MovesOnce vg e := by
  intro s s' v v' hs hs' h1 h2 h3
  have := hvg s s' v v' (h.sub hs he) (h.sub hs' he) (.inl h1) h2 h3
  subst this
  exact h.moves s s' v (h.sub hs he) (h.sub hs' he) h1 h2

/-- A set with one more node. -/
def ins (e : Expr) (P : Expr → Prop) : Expr → Prop := fun s => s = e ∨ P s

theorem ins_self {e : Expr} : ins e P e := .inl rfl
theorem ins_of {e s : Expr} (h : P s) : ins e P s := .inr h

theorem Good.mono (h : Good K n P) {n' : Nat} (hn : n ≤ n') : Good K n' P :=
  { h with le := fun s hs => (h.le s hs).trans hn }

theorem Good.ins (h : Good K n P) {n' id size : Nat} {opc : Opc} {args : List Expr}
    (hid : ∀ s, P s → s.id ≠ id) (hn : n ≤ n') (hid' : id ≤ n')
    (hargs : ∀ a ∈ args, P a ∧ ∃ m, a.varSize = some m)
    (types : opc.Types K (args.map (kinds K)) (opc.kinds K (args.map (kinds K))))
    (hsize : ∀ k, opc.kinds K (args.map (kinds K)) = [k] → size = k.size)
    (one : (opc = .sampleBase ∨ ∃ f n, opc = .lookup f n) → ∀ a ∈ args, a.size = 1)
    (hmove : ∀ v, opc = .inputMove v → ∀ s, P s → ¬ Reads s v)
    (hcopy : ∀ v, opc = .inputCopy v → ∀ s, P s → s.opc ≠ .inputMove v) :
    Good K n' (ins (.node id opc size args) P) where
  closed := by
    rintro s (rfl | hs) a ha
    · exact ins_of (hargs a ha).1
    · exact ins_of (h.closed s hs a ha)
  le := by
    rintro s (rfl | hs)
    · exact hid'
    · exact (h.le s hs).trans hn
  uniq := by
    rintro s s' (rfl | hs) (rfl | hs') e
    · rfl
    · exact absurd e.symm (hid s' hs')
    · exact absurd e (hid s hs)
    · exact h.uniq s s' hs hs' e
  types := by
    rintro s (rfl | hs)
    · rw [kinds_node]; exact types
    · exact h.types s hs
  size := by
    rintro s k (rfl | hs) e
    · rw [kinds_node] at e; exact hsize k e
    · exact h.size s k hs e
  sizes := by
    rintro s (rfl | hs) a ha
    · exact (hargs a ha).2
    · exact h.sizes s hs a ha
  one := by
    rintro s (rfl | hs) e a ha
    · exact one e a ha
    · exact h.one s hs e a ha
  moves := by
    rintro s s' v (rfl | hs) (rfl | hs') h1 h2
    · rfl
    · exact absurd h2 (hmove v h1 s' hs')
    · rcases h2 with h2 | h2
      · exact absurd (.inl h1) (hmove v h2 s hs)
      · exact absurd h1 (hcopy v h2 s hs)
    · exact h.moves s s' v hs hs' h1 h2

/-! ### Inputs -/

section

variable {cfg : Cfg} {T : TrackerLib}

theorem constVal_len {vs : List Nat} {v : Val} (h : constVal vs = some v) : vs.length ≤ 4 :=
  (constVal_ok h).2

theorem constVal_has {vs : List Nat} {v : Val} (h : constVal vs = some v) : v.Has (constKind vs) := by
  unfold constVal at h
  split at h
  · split at h
    · rename_i hh
      cases h; exact ⟨Nat.lt_succ_self _, hh⟩
    · cases h
  · split at h
    · cases h; trivial
    · cases h
  · cases h

theorem pushInputs_inv (hT : T.Ok cfg) {start : St} {m0 a0 : List Elem} :
    ∀ {l : List (Variable × List Nat)} {t : Tracker} {vg : Variable → Option SVar} {σ : Nat → List Elem},
    TInv cfg start m0 a0 t (some σ) → (l.map Prod.fst).Nodup → (∀ p ∈ l, p.2.length ≤ 4) →
    ∃ t' vg' σ' vs, InputManager.pushInputs T l (t, vg) = (t', vg') ∧ TInv cfg start m0 a0 t' (some σ') ∧
      t'.vars = vs ++ t.vars ∧ t'.alt = t.alt ∧ t.next ≤ t'.next ∧ (∀ i < t.next, σ' i = σ i) ∧
      vs.length = l.length ∧ (∀ sv ∈ vs, t.next ≤ sv.id) ∧
      (∀ p ∈ l, ∃ sv ∈ vs, vg' p.1 = some sv ∧ σ' sv.id = p.2.map fun (v : Nat) => num v) ∧
      (∀ sv ∈ vs, ∃ p ∈ l, vg' p.1 = some sv) ∧
      (∀ v, v ∉ l.map Prod.fst → vg' v = vg v) ∧
      ∀ p ∈ l, ∀ q ∈ l, vg' p.1 = vg' q.1 → p.1 = q.1 := by
  intro l
  induction l with
  | nil =>
    intro t vg σ h _ _
    exact ⟨t, vg, σ, [], rfl, h, rfl, rfl, Nat.le_refl _, fun _ _ => rfl, rfl, by simp, by simp, by simp, by simp, by simp⟩
  | cons p l ih =>
    intro t vg σ h hn hl
    obtain ⟨v, x⟩ := p
    rw [List.map_cons, List.nodup_cons] at hn
    obtain ⟨t', vg', σ', vs, e1, h', hv, ha, hnext, hσ, hlen, hge, hp, hs, ho, hinj⟩ :=
      ih (vg := vg) h hn.2 fun p hp => hl p (List.mem_cons_of_mem _ hp)
    have hx : x.length ≤ 4 := hl (v, x) (List.mem_cons_self ..)
    have hb := bignumber_inv hT h' hx
    have hlt : ∀ sv ∈ vs, sv.id < t'.next := fun sv hsv =>
      h'.lt sv (List.mem_append_left _ (hv ▸ List.mem_append_left _ hsv))
    have hne : ∀ p ∈ l, p.1 ≠ v := by
      intro p hp e
      exact hn.1 (List.mem_map.mpr ⟨p, hp, e⟩)
    refine ⟨(t'.bignumber T x).2, fun w => if w = v then some ⟨t'.next, x.length⟩ else vg' w, _,
      ⟨t'.next, x.length⟩ :: vs, ?_, hb, ?_, ha, ?_, ?_, by simp [hlen], ?_, ?_, ?_, ?_, ?_⟩
    · simp [InputManager.pushInputs, e1, Tracker.bignumber]
    · simp [Tracker.bignumber, hv]
    · show t.next ≤ t'.next + 1
      omega
    · intro i hi
      exact (upd_lt (show i < t'.next by omega)).trans (hσ i hi)
    · intro sv hsv
      rcases List.mem_cons.mp hsv with rfl | hsv
      · exact hnext
      · exact hge sv hsv
    · intro p hp'
      rcases List.mem_cons.mp hp' with rfl | hp'
      · exact ⟨_, List.mem_cons_self .., if_pos rfl, upd_self ..⟩
      · obtain ⟨sv, hsv, h1, h2⟩ := hp p hp'
        exact ⟨sv, List.mem_cons_of_mem _ hsv, (if_neg (hne p hp')).trans h1, (upd_lt (hlt sv hsv)).trans h2⟩
    · intro sv hsv
      rcases List.mem_cons.mp hsv with rfl | hsv
      · exact ⟨_, List.mem_cons_self .., if_pos rfl⟩
      · obtain ⟨p, hp', h1⟩ := hs sv hsv
        exact ⟨p, List.mem_cons_of_mem _ hp', (if_neg (hne p hp')).trans h1⟩
    · intro w hw
      rw [List.map_cons, List.mem_cons, not_or] at hw
      exact (if_neg hw.1).trans (ho w hw.2)
    · intro p hp' q hq e
      beta_reduce at e
      have fresh : ∀ q ∈ l, vg' q.1 ≠ some ⟨t'.next, x.length⟩ := by
        intro q hq e
        obtain ⟨sv, hsv, h1, _⟩ := hp q hq
        rw [h1] at e
        have := hlt sv hsv
        cases e
        exact Nat.lt_irrefl _ this
      rcases List.mem_cons.mp hp' with rfl | hp' <;> rcases List.mem_cons.mp hq with rfl | hq
      · rfl
      · rw [if_pos rfl, if_neg (hne q hq)] at e
        exact absurd e.symm (fresh q hq)
      · rw [if_neg (hne p hp'), if_pos rfl] at e
        exact absurd e (fresh p hp')
      · rw [if_neg (hne p hp'), if_neg (hne q hq)] at e
        exact hinj p hp' q hq e

theorem tInv_new (cfg : Cfg) (m0 a0 : List Elem) :
    TInv cfg ⟨m0, a0, []⟩ m0 a0 Tracker.new (some fun _ => []) where
  nodup := by simp [Tracker.new]
  lt := by simp [Tracker.new]
  small := by simp [Tracker.new]
  sized := by simp [Tracker.new]
  run := rfl

/-- After `simulate_input` the inputs are on the stack. -/
theorem simulateInput_inv (hT : T.Ok cfg) {m : InputManager} (hm : m.Agrees K env) (m0 a0 : List Elem) :
    ∃ t vg σ, m.simulateInput T = (t, vg) ∧ TInv cfg ⟨m0, a0, []⟩ m0 a0 t (some σ) ∧ t.alt = [] ∧
      (∀ p ∈ m.inputs, ∃ sv ∈ t.vars, vg p.1 = some sv ∧ σ sv.id = (env p.1).enc) ∧
      (∀ sv ∈ t.vars, ∃ p ∈ m.inputs, vg p.1 = some sv) ∧
      ∀ p ∈ m.inputs, ∀ q ∈ m.inputs, vg p.1 = vg q.1 → p.1 = q.1 := by
  have hlen : ∀ p ∈ m.inputs, p.2.length ≤ 4 := fun p hp => constVal_len (hm.vals p hp)
  have hnd := hm.nodup
  rw [InputManager.inputs, List.map_append, List.nodup_append] at hnd
  obtain ⟨t1, vg1, σ1, vs1, e1, h1, hv1, ha1, hn1, hσ1, hl1, hge1, hp1, hs1, ho1, hi1⟩ :=
    pushInputs_inv (vg := fun _ => none) hT (tInv_new cfg m0 a0) hnd.2.1
      fun p hp => hlen p (List.mem_append_right _ hp)
  obtain ⟨t2, vg2, σ2, vs2, e2, h2, hv2, ha2, hn2, hσ2, hl2, hge2, hp2, hs2, ho2, hi2⟩ :=
    pushInputs_inv (vg := vg1) hT h1 hnd.1 fun p hp => hlen p (List.mem_append_left _ hp)
  have hv1' : t1.vars = vs1 := by rw [hv1]; simp [Tracker.new]
  have hlt1 : ∀ sv ∈ vs1, sv.id < t1.next := fun sv hsv =>
    h1.lt sv (List.mem_append_left _ (hv1' ▸ hsv))
  have henc : ∀ p ∈ m.inputs, (p.2.map fun (v : Nat) => num v) = (env p.1).enc := fun p hp =>
    (constVal_ok (hm.vals p hp)).1.symm
  have hold : ∀ p ∈ m.inputVar, vg2 p.1 = vg1 p.1 := by
    intro p hp
    refine ho2 p.1 fun hc => ?_
    exact hnd.2.2 _ hc _ (List.mem_map_of_mem hp) rfl
  refine ⟨t2, vg2, σ2, ?_, h2, ?_, ?_, ?_, ?_⟩
  · rw [InputManager.simulateInput, e1, e2]
  · rw [ha2, ha1]; rfl
  · intro p hp
    rw [← henc p hp]
    rcases List.mem_append.mp hp with hp | hp
    · obtain ⟨sv, hsv, h3, h4⟩ := hp2 p hp
      exact ⟨sv, hv2 ▸ List.mem_append_left _ hsv, h3, h4⟩
    · obtain ⟨sv, hsv, h3, h4⟩ := hp1 p hp
      refine ⟨sv, hv2 ▸ List.mem_append_right _ (hv1' ▸ hsv), (hold p hp).trans h3, ?_⟩
      rw [hσ2 _ (hlt1 sv hsv), h4]
  · intro sv hsv
    rw [hv2, hv1'] at hsv
    rcases List.mem_append.mp hsv with hsv | hsv
    · obtain ⟨p, hp, h3⟩ := hs2 sv hsv
      exact ⟨p, List.mem_append_left _ hp, h3⟩
    · obtain ⟨p, hp, h3⟩ := hs1 sv hsv
      exact ⟨p, List.mem_append_right _ hp, (hold p hp).trans h3⟩
  · have cross : ∀ p ∈ m.inputHint, ∀ q ∈ m.inputVar, vg2 p.1 ≠ vg2 q.1 := by
      intro p hp q hq e
      obtain ⟨sv, hsv, h3, _⟩ := hp2 p hp
      obtain ⟨sw, hsw, h4, _⟩ := hp1 q hq
      rw [h3, hold q hq, h4] at e
      cases e
      have := hge2 sv hsv
      have := hlt1 sv hsw
      omega
    intro p hp q hq e
    rcases List.mem_append.mp hp with hp | hp <;> rcases List.mem_append.mp hq with hq | hq
    · exact hi2 p hp q hq e
    · exact absurd e (cross p hp q hq)
    · exact absurd e.symm (cross q hq p hp)
    · rw [hold p hp, hold q hq] at e
      exact hi1 p hp q hq e

variable {L : U31Lib} {e : Expr} {m : InputManager}

/-- What the script of a manager does. -/
theorem script_run (hL : L.Ok cfg) (hT : T.Ok cfg) (hg : Good K n P) (he : P e) (hm : m.Agrees K env)
    (hp : m.Provides P) (hmu : MultiOk e) (m0 a0 : List Elem) :
    ∃ p rest, m.script L T e = some p ∧ (rest = [] ↔ m.Consumes e) ∧
      run cfg p ⟨m0, a0, []⟩ = (eval env e).map fun vals => ⟨(vals.map Val.enc).flatten ++ (rest ++ m0), a0, []⟩ := by
  obtain ⟨t, vg, σ, e1, ht, halt, hin, hall, hinj⟩ := simulateInput_inv hT hm m0 a0
  have hvg : ∀ s s' v v', P s → P s' → Reads s v → Reads s' v' → vg v = vg v' → v = v' := by
    intro s s' v v' hs hs' h1 h2 h3
    obtain ⟨p, hp1, rfl⟩ := List.mem_map.mp (hp s v hs h1)
    obtain ⟨q, hq1, rfl⟩ := List.mem_map.mp (hp s' v' hs' h2)
    exact hinj p hp1 q hq1 h3
  have hat : InputsAt vg K env σ t.vars e := by
    intro s v hs hv
    obtain ⟨p, hp1, rfl⟩ := List.mem_map.mp (hp s v (hg.sub hs he) hv)
    exact ⟨hm.kinds p hp1 ▸ constVal_has (hm.vals p hp1), hin p hp1⟩
  obtain ⟨vs, t', rest, D, h1, h2, h3⟩ := compile_ok hL hT (hg.wellTyped he) (hg.shared he) (hg.movesOnce he hvg) hmu ht hat
  refine ⟨t'.script, stackOf σ rest, ?_, ⟨fun hr => ?_, fun hc => ?_⟩, ?_⟩
  · simp only [InputManager.script, e1, h1, Option.bind_eq_bind, Option.bind_some]
  · have hr' : rest = [] := by
      cases rest with
      | nil => rfl
      | cons x l =>
        rw [stackOf_cons, List.append_eq_nil_iff] at hr
        have hx : x ∈ t.vars := h3.sub.subset (List.mem_cons_self ..)
        obtain ⟨q, hq, hx'⟩ := hall x hx
        obtain ⟨sv, hsv, h4, h5⟩ := hin q hq
        rw [hx'] at h4
        cases h4
        rw [h5] at hr
        have := hr.1
        cases h : env q.1 with
        | nat k => rw [h] at this; simp [Val.enc] at this
        | ext k => rw [h] at this; simp [Val.enc, encE, asBase4] at this
    intro p hp1
    obtain ⟨sv, hsv, h4, h5⟩ := hin p hp1
    have : Moved vg e sv := by
      by_contra hc
      have := (h3.moved sv hsv).mpr hc
      rw [hr'] at this
      cases this
    obtain ⟨s, v, hs, ho, hv⟩ := this
    obtain ⟨q, hq, rfl⟩ := List.mem_map.mp (hp s v (hg.sub hs he) (.inl ho))
    rw [hinj p hp1 q hq (h4.trans hv.symm)]
    exact ⟨s, hs, ho⟩
  · have : rest = [] := by
      cases rest with
      | nil => rfl
      | cons x l =>
        have hx : x ∈ t.vars := h3.sub.subset (List.mem_cons_self ..)
        obtain ⟨q, hq, hx'⟩ := hall x hx
        obtain ⟨s, hs, ho⟩ := hc q hq
        exact absurd ⟨s, q.1, hs, ho, hx'⟩ ((h3.moved x hx).mp (List.mem_cons_self ..))
    rw [this]; rfl
  · rw [h3.run ht, chunks, Option.map_map, halt]
    rfl

/-- A manager whose expression is a check accepts iff the check holds and every input is used. -/
theorem manager_run (hL : L.Ok cfg) (hT : T.Ok cfg) (hg : Good K n P) (he : P e) (hm : m.Agrees K env)
    (hp : m.Provides P) (hmu : MultiOk e) (hx : m.exec = some e) {r : Option Bool} (hr : IsCheck K env e r) :
    m.run cfg L T = some () ↔ r = some true ∧ m.Consumes e := by
  obtain ⟨p, rest, h1, h2, h3⟩ := script_run hL hT hg he hm hp hmu [] []
  simp only [InputManager.run, hx, h1, Option.bind_eq_bind, Option.bind_some, accepts, h3, hr.2, ← h2]
  have t0 : truthy (num 0) = false := by decide
  have t1 : truthy (num 1) = true := by decide +kernel
  cases r with
  | none => simp
  | some b =>
    cases rest with
    | nil => cases b <;> simp [Val.enc, t0, t1]
    | cons x l => cases b <;> simp [Val.enc]

/-! ### Chained checks -/

theorem evalArgs_two (x y : Expr) :
    evalArgs env [x, y] = (eval env x).bind fun v => (eval env y).map fun w => [v, w] := by
  rw [evalArgs, evalArgs, evalArgs]
  cases eval env x <;> cases eval env y <;> simp

/-- The outcome of `equal` on two checks. -/
def xnor : Option Bool → Option Bool → Option Bool
  | some a, some b => some (a == b)
  | _, _ => none

theorem isCheck_equal {x y : Expr} {r s : Option Bool} (hx : IsCheck K env x r) (hy : IsCheck K env y s) (n : Nat) :
    IsCheck K env (Dsl.equal x y n).1 (xnor r s) := by
  refine ⟨by rw [Dsl.equal, Dsl.mk, kinds_node]; rfl, ?_⟩
  rw [Dsl.equal, Dsl.mk, eval, evalArgs_two, hx.2, hy.2]
  cases r with
  | none => rfl
  | some a =>
    cases s with
    | none => rfl
    | some b => cases a <;> cases b <;> simp [Opc.denote, xnor]

theorem xnor_fold (r : Option Bool) (rs : List (Option Bool)) :
    rs.foldl xnor r = some true ↔ EvenFailures (r :: rs) := by
  have key : ∀ (rs : List (Option Bool)) (r : Option Bool) (b : Bool), rs.foldl xnor r = some b ↔
      none ∉ r :: rs ∧ ((r :: rs).count (some false) % 2 = 0 ↔ b = true) := by
    intro rs
    induction rs with
    | nil => intro r b; rcases r with _ | _ | _ <;> cases b <;> simp
    | cons s rs ih =>
      intro r b
      rw [List.foldl_cons, ih]
      rcases r with _ | r
      · cases s <;> simp [xnor]
      · rcases s with _ | s
        · simp [xnor]
        · cases r <;> cases s <;> simp [xnor] <;> intro _ <;> omega
  rw [key]
  simp [EvenFailures]

theorem embed_check : ∀ {hs : List Expr} {rs : List (Option Bool)} {e : Expr} {r : Option Bool} {n : Nat}
    {P : Expr → Prop}, Good K n P → P e → e.size = 1 → IsCheck K env e r → (∀ h ∈ hs, P h) →
    List.Forall₂ (IsCheck K env) hs rs →
    ∃ P', Good K (InputManager.embed e hs n).2 P' ∧ P' (InputManager.embed e hs n).1 ∧ (∀ s, P s → P' s) ∧
      (∀ s v, P' s → Reads s v → P s) ∧ n ≤ (InputManager.embed e hs n).2 ∧
      (∀ s, P' s → P s ∨ s.opc = .equal) ∧
      IsCheck K env (InputManager.embed e hs n).1 (rs.foldl xnor r) := by
  intro hs
  induction hs with
  | nil =>
    intro rs e r n P hg he _ hr _ hf
    cases hf
    exact ⟨P, hg, he, fun _ h => h, fun _ _ h _ => h, Nat.le_refl _, fun _ h => .inl h, hr⟩
  | cons h hs ih =>
    intro rs e r n P hg he hsz hr hP hf
    cases hf with
    | @cons _ s _ rs h1 h2 =>
      have hPh := hP h (List.mem_cons_self ..)
      have hsh : h.size = 1 := hg.size h _ hPh h1.1
      have hg' : Good K (n + 1) (ins (Dsl.equal e h n).1 P) := by
        refine Good.ins hg (fun s hs => ?_) (Nat.le_succ n) (Nat.le_refl _) ?_ ?_ ?_ ?_ ?_ ?_
        · have := hg.le s hs; omega
        · intro a ha
          rcases List.mem_cons.mp ha with rfl | ha
          · exact ⟨he, 1, by unfold Expr.varSize; simp [hsz]⟩
          · rw [List.mem_singleton] at ha
            subst ha
            exact ⟨hPh, 1, by unfold Expr.varSize; simp [hsh]⟩
        · exact ⟨.nat 2, .nat 2, by rw [List.map_cons, List.map_cons, hr.1, h1.1]; rfl, .inr ⟨⟨2, rfl⟩, ⟨2, rfl⟩⟩, rfl⟩
        · intro k hk
          have : [Kind.nat 2] = [k] := hk
          cases this
          rfl
        · rintro (h | ⟨_, _, h⟩) <;> cases h
        · intro v hv; cases hv
        · intro v hv; cases hv
      obtain ⟨P', g1, g2, g3, g4, g5, g6, g7⟩ := ih hg' ins_self rfl (isCheck_equal hr h1 n)
        (fun x hx => ins_of (hP x (List.mem_cons_of_mem _ hx))) h2
      refine ⟨P', g1, g2, fun s hs => g3 s (ins_of hs), ?_, (Nat.le_succ n).trans g5, ?_, g7⟩
      · intro s v hs hv
        rcases g4 s v hs hv with rfl | h
        · rcases hv with hv | hv <;> cases hv
        · exact h
      · intro s hs
        rcases g6 s hs with (rfl | h) | h
        · exact .inr rfl
        · exact .inl h
        · exact .inr h

theorem multiOk_single (h : ∀ s, Sub s e → s.opc.outNum = some 1) : MultiOk e :=
  fun s hs ho => absurd (h s hs) ho

end

end TapStark
