import Verif.Model.Rerun
import Verif.Props.Program

/-
C116: running a manager again.
-/

namespace TapStark

variable {cfg : Cfg} {L : U31Lib} {T : TrackerLib}

/-! ### What a visit depends on -/

/-- Two counts that agree at the identifiers in `I` still do after a visit. -/
theorem simulate_congr {I : Nat → Prop} : ∀ (e : Expr), (∀ s, Sub s e → I s.id) → ∀ {cm cm' : Nat → Nat},
    (∀ i, I i → cm i = cm' i) → ∀ i, I i → simulate e cm i = simulate e cm' i
  | .node id opc size args, hI, cm, cm', h => by
    have hid : cm id = cm' id := h id (hI _ (.refl _))
    have hupd : ∀ i, I i → upd cm id (cm id + 1) i = upd cm' id (cm' id + 1) i := by
      intro i hi
      unfold upd
      rw [hid, h i hi]
    intro i hi
    rw [simulate_node, simulate_node, hid]
    rw [hid] at hupd
    split
    · exact hupd i hi
    · have key : ∀ (es : List Expr), (∀ a ∈ es, a ∈ args) → ∀ {cm cm' : Nat → Nat}, (∀ i, I i → cm i = cm' i) →
          ∀ i, I i → simulateArgs es cm i = simulateArgs es cm' i := by
        intro es
        induction es with
        | nil => exact fun _ _ _ h => h
        | cons a es ih =>
          intro hes cm cm' h
          have ha := hes a (List.mem_cons_self ..)
          have : sizeOf a < sizeOf (Expr.node id opc size args) := sizeOf_arg (e := .node id opc size args) ha
          exact ih (fun b hb => hes b (List.mem_cons_of_mem _ hb))
            (simulate_congr a (fun s hs => hI s (.arg (e := .node id opc size args) ha hs)) h)
      exact key args (fun _ h => h) hupd i hi
termination_by e => sizeOf e

/-- A visit counts no other identifiers. -/
theorem simulate_other : ∀ (e : Expr) (cm : Nat → Nat) (k : Nat), (∀ s, Sub s e → s.id ≠ k) → simulate e cm k = cm k
  | .node id opc size args, cm, k, h => by
    have hk : k ≠ id := fun hc => h _ (.refl _) hc.symm
    rw [simulate_node]
    have hupd : upd cm id (cm id + 1) k = cm k := if_neg hk
    split
    · exact hupd
    · have key : ∀ (es : List Expr), (∀ a ∈ es, a ∈ args) → ∀ (cm : Nat → Nat), simulateArgs es cm k = cm k := by
        intro es
        induction es with
        | nil => exact fun _ _ => rfl
        | cons a es ih =>
          intro hes cm
          have ha := hes a (List.mem_cons_self ..)
          have : sizeOf a < sizeOf (Expr.node id opc size args) := sizeOf_arg (e := .node id opc size args) ha
          exact (ih (fun b hb => hes b (List.mem_cons_of_mem _ hb)) _).trans
            (simulate_other a cm k fun s hs => h s (.arg (e := .node id opc size args) ha hs))
      exact (key args (fun _ h => h) _).trans hupd
termination_by e => sizeOf e

/-- The same tracker, and the same entries at the identifiers in `I`. -/
structure Same (I : Nat → Prop) (c d : CState) : Prop where
  t : c.t = d.t
  copied : ∀ i, I i → c.copied i = d.copied i
  svar : ∀ i, I i → c.svar i = d.svar i

/-- Results that are both panics or the same outputs with states in relation. -/
def SameRes {α : Type} (I : Nat → Prop) : Option (α × CState) → Option (α × CState) → Prop
  | none, none => True
  | some (x, c), some (y, d) => x = y ∧ Same I c d
  | _, _ => False

theorem SameRes.bind {α β : Type} {I : Nat → Prop} {x y : Option (α × CState)} {f g : α × CState → Option (β × CState)}
    (h : SameRes I x y) (hf : ∀ a c d, Same I c d → SameRes I (f (a, c)) (g (a, d))) :
    SameRes I (x.bind f) (y.bind g) := by
  rcases x with _ | ⟨a, c⟩ <;> rcases y with _ | ⟨b, d⟩
  · exact True.intro
  · exact h.elim
  · exact h.elim
  · obtain ⟨rfl, h⟩ := h
    exact hf a c d h

theorem keepCopy_congr {I : Nat → Prop} {N N' : Nat → Nat} {optimize : Bool} {id : Nat} {out : Option Nat} {vs : List SVar}
    {c d : CState} (hid : I id) (hN : N id = N' id) (h : Same I c d) :
    SameRes I (keepCopy T N optimize id out vs c) (keepCopy T N' optimize id out vs d) := by
  unfold keepCopy
  rw [← hN, ← h.svar id hid, ← h.copied id hid, ← h.t]
  split
  · cases vs with
    | nil => exact True.intro
    | cons v vs =>
      simp only [Option.bind_eq_bind]
      cases c.t.copyVar T v with
      | none => exact True.intro
      | some p =>
        obtain ⟨x, t⟩ := p
        simp only [Option.bind_some]
        cases t.toAltstack T with
        | none => exact True.intro
        | some q =>
          obtain ⟨y, t'⟩ := q
          refine ⟨rfl, rfl, h.copied, ?_⟩
          intro i hi
          show upd c.svar id (some y) i = upd d.svar id (some y) i
          unfold upd
          rw [h.svar i hi]
  · exact ⟨rfl, h⟩

/-- A compilation depends on counts and caches at the identifiers of the expression only. -/
theorem express_congr {I : Nat → Prop} {vg : Variable → Option SVar} {optimize : Bool} {N N' : Nat → Nat}
    (hN : ∀ i, I i → N i = N' i) : ∀ (e : Expr), (∀ s, Sub s e → I s.id) → ∀ {c d : CState}, Same I c d →
    SameRes I (express L T vg N optimize e c) (express L T vg N' optimize e d)
  | .node id opc size args, hI, c, d, h => by
    have hid : I id := hI _ (.refl _)
    have key : ∀ (es : List Expr), (∀ a ∈ es, a ∈ args) → ∀ {c d : CState}, Same I c d →
        SameRes I (expressArgs L T vg N optimize es c) (expressArgs L T vg N' optimize es d) := by
      intro es
      induction es with
      | nil => exact fun _ _ _ h => by rw [expressArgs, expressArgs]; exact ⟨rfl, h⟩
      | cons a es ih =>
        intro hes c d h
        have ha := hes a (List.mem_cons_self ..)
        have : sizeOf a < sizeOf (Expr.node id opc size args) := sizeOf_arg (e := .node id opc size args) ha
        rw [expressArgs, expressArgs]
        refine SameRes.bind (express_congr hN a (fun s hs => hI s (.arg (e := .node id opc size args) ha hs)) h) ?_
        intro vs c d h
        simp only [Option.bind_eq_bind]
        cases a.varSize with
        | none => exact True.intro
        | some n =>
          refine SameRes.bind (ih (fun b hb => hes b (List.mem_cons_of_mem _ hb)) h) ?_
          exact fun _ _ _ h => ⟨rfl, h⟩
    rw [express, express, ← hN id hid, ← h.svar id hid, ← h.copied id hid]
    split
    · exact True.intro
    · split
      · cases c.svar id with
        | none => exact True.intro
        | some sv =>
          simp only [Option.bind_eq_bind, Option.bind_some]
          rw [← h.t]
          split
          · cases c.t.moveVarFromAlt T sv with
            | none => exact True.intro
            | some p => exact ⟨rfl, rfl, h.copied, h.svar⟩
          · cases c.t.copyVarFromAlt T sv with
            | none => exact True.intro
            | some p =>
              refine ⟨rfl, rfl, ?_, h.svar⟩
              intro i hi
              show upd c.copied id _ i = upd d.copied id _ i
              unfold upd
              rw [h.copied i hi]
      · split
        · exact True.intro
        · refine SameRes.bind (key args (fun _ h => h) h) ?_
          intro sizes c d h
          simp only [Option.bind_eq_bind]
          cases opc.emit L sizes with
          | none => exact True.intro
          | some em =>
            simp only [Option.bind_some]
            rw [← h.t]
            cases generate T vg opc.outNum em c.t with
            | none => exact True.intro
            | some p => exact keepCopy_congr hid (hN id hid) ⟨rfl, h.copied, h.svar⟩
termination_by e => sizeOf e

/-! ### Inputs pushed on a stack that is not empty -/

/-- After `simulate_input` the inputs are above what was on the stack. -/
theorem simulateOn_inv (hT : T.Ok cfg) {m : InputManager} {K : Variable → Kind} {env : Variable → Val}
    (hm : m.Agrees K env) {start : St} {m0 a0 : List Elem} {s : RunState} {σ : Nat → List Elem}
    (ht : TInv cfg start m0 a0 s.t (some σ)) :
    ∃ t vg σ' vs, m.simulateOn T s = { s with t := t, vg := vg } ∧ TInv cfg start m0 a0 t (some σ') ∧
      t.alt = s.t.alt ∧ t.vars = vs ++ s.t.vars ∧
      (∀ p ∈ m.inputs, ∃ sv ∈ vs, vg p.1 = some sv ∧ σ' sv.id = (env p.1).enc) ∧
      (∀ sv ∈ vs, s.t.next ≤ sv.id) ∧ (∀ i < s.t.next, σ' i = σ i) ∧
      ∀ p ∈ m.inputs, ∀ q ∈ m.inputs, vg p.1 = vg q.1 → p.1 = q.1 := by
  have hlen : ∀ p ∈ m.inputs, p.2.length ≤ 4 := fun p hp => constVal_len (hm.vals p hp)
  have hnd := hm.nodup
  rw [InputManager.inputs, List.map_append, List.nodup_append] at hnd
  obtain ⟨t1, vg1, σ1, vs1, e1, h1, hv1, ha1, hn1, hσ1, hl1, hge1, hp1, hs1, ho1, hi1⟩ :=
    pushInputs_inv (vg := s.vg) hT ht hnd.2.1 fun p hp => hlen p (List.mem_append_right _ hp)
  obtain ⟨t2, vg2, σ2, vs2, e2, h2, hv2, ha2, hn2, hσ2, hl2, hge2, hp2, hs2, ho2, hi2⟩ :=
    pushInputs_inv (vg := vg1) hT h1 hnd.1 fun p hp => hlen p (List.mem_append_left _ hp)
  have hlt1 : ∀ sv ∈ vs1, sv.id < t1.next := fun sv hsv =>
    h1.lt sv (List.mem_append_left _ (hv1 ▸ List.mem_append_left _ hsv))
  have henc : ∀ p ∈ m.inputs, (p.2.map fun (v : Nat) => num v) = (env p.1).enc := fun p hp =>
    (constVal_ok (hm.vals p hp)).1.symm
  have hold : ∀ p ∈ m.inputVar, vg2 p.1 = vg1 p.1 := by
    intro p hp
    refine ho2 p.1 fun hc => ?_
    exact hnd.2.2 _ hc _ (List.mem_map_of_mem hp) rfl
  refine ⟨t2, vg2, σ2, vs2 ++ vs1, ?_, h2, ha2.trans ha1, ?_, ?_, ?_, ?_, ?_⟩
  · rw [InputManager.simulateOn, e1, e2]
  · rw [hv2, hv1, List.append_assoc]
  · intro p hp
    rw [← henc p hp]
    rcases List.mem_append.mp hp with hp | hp
    · obtain ⟨sv, hsv, h3, h4⟩ := hp2 p hp
      exact ⟨sv, List.mem_append_left _ hsv, h3, h4⟩
    · obtain ⟨sv, hsv, h3, h4⟩ := hp1 p hp
      refine ⟨sv, List.mem_append_right _ hsv, (hold p hp).trans h3, ?_⟩
      rw [hσ2 _ (hlt1 sv hsv), h4]
  · intro sv hsv
    rcases List.mem_append.mp hsv with hsv | hsv
    · exact hn1.trans (hge2 sv hsv)
    · exact hge1 sv hsv
  · intro i hi
    rw [hσ2 i (Nat.lt_of_lt_of_le hi hn1), hσ1 i hi]
  · have cross : ∀ p ∈ m.inputHint, ∀ q ∈ m.inputVar, vg2 p.1 ≠ vg2 q.1 := by
      intro p hp q hq e
      obtain ⟨sv, hsv, h3, _⟩ := hp2 p hp
      obtain ⟨sw, hsw, h4, _⟩ := hp1 q hq
      rw [h3, hold q hq, h4] at e
      cases e
      have := hge2 sv hsv
      have := hlt1 sv hsw
      omega
    intro p hp q hq e
    rcases List.mem_append.mp hp with hp | hp <;> rcases List.mem_append.mp hq with hq | hq
    · exact hi2 p hp q hq e
    · exact absurd e (cross p hp q hq)
    · exact absurd e.symm (cross q hq p hp)
    · rw [hold p hp, hold q hq] at e
      exact hi1 p hp q hq e

/-- The tracker describes what its script leaves on an empty stack, and that is something. -/
def Occupied (cfg : Cfg) (t : Tracker) : Prop :=
  ∃ σ, TInv cfg ⟨[], [], []⟩ [] [] t (some σ) ∧ ∃ x ∈ t.vars, 0 < x.size

theorem not_accepts {t : Tracker} {D : Option (Nat → List Elem)} (h : TInv cfg ⟨[], [], []⟩ [] [] t D)
    (h2 : ∀ σ, D = some σ → 2 ≤ (stackOf σ t.vars).length) : accepts cfg t.script [] = false := by
  unfold accepts
  rw [h.run]
  cases D with
  | none => rfl
  | some σ =>
    have := h2 σ rfl
    simp only [Option.map_some, List.append_nil]
    match hs : stackOf σ t.vars, this with
    | _ :: _ :: _, _ => rfl

/-- A check compiled, with a fresh cache, after pushing inputs on a stack. -/
theorem compile_state (hL : L.Ok cfg) (hT : T.Ok cfg) {K : Variable → Kind} {env : Variable → Val} {n : Nat}
    {P : Expr → Prop} {e : Expr} {m : InputManager} (hg : Good K n P) (he : P e) (hm : m.Agrees K env)
    (hp : m.Provides P) (hmu : MultiOk e) {r : Option Bool} (hr : IsCheck K env e r) {s : RunState}
    {σ0 : Nat → List Elem} (h0 : TInv cfg ⟨[], [], []⟩ [] [] s.t (some σ0)) :
    ∃ t vg v c D rest, m.simulateOn T s = { s with t := t, vg := vg } ∧ t.alt = s.t.alt ∧
      express L T vg (simulate e fun _ => 0) true e ⟨t, fun _ => 0, fun _ => none⟩ = some ([v], c) ∧
      TInv cfg ⟨[], [], []⟩ [] [] c.t D ∧ c.t.alt = s.t.alt ∧ c.t.vars = v :: rest ∧ (∀ x ∈ s.t.vars, x ∈ rest) ∧
      ∀ σ, D = some σ → (σ v.id).length = 1 := by
  obtain ⟨t, vg, σ, vs0, e1, ht, halt, hvars, hin, hge, hσ, hinj⟩ := simulateOn_inv hT hm h0
  have hvg : ∀ s s' v v', P s → P s' → Reads s v → Reads s' v' → vg v = vg v' → v = v' := by
    intro s s' v v' hs hs' h1 h2 h3
    obtain ⟨p, hp1, rfl⟩ := List.mem_map.mp (hp s v hs h1)
    obtain ⟨q, hq1, rfl⟩ := List.mem_map.mp (hp s' v' hs' h2)
    exact hinj p hp1 q hq1 h3
  have hat : InputsAt vg K env σ t.vars e := by
    intro u v hu hv
    obtain ⟨p, hp1, rfl⟩ := List.mem_map.mp (hp u v (hg.sub hu he) hv)
    obtain ⟨sv, h1, h2⟩ := hin p hp1
    exact ⟨hm.kinds p hp1 ▸ constVal_has (hm.vals p hp1), sv, hvars ▸ List.mem_append_left _ h1, h2⟩
  obtain ⟨vs, t', rest, D, h1, h2, h3⟩ := compile_ok hL hT (hg.wellTyped he) (hg.shared he) (hg.movesOnce he hvg) hmu ht hat
  rw [hr.1] at h2
  obtain ⟨v, rfl⟩ := List.length_eq_one_iff.mp h2
  unfold compile at h1
  obtain ⟨⟨ws, c⟩, hc, h1⟩ := Option.bind_eq_some_iff.mp h1
  cases h1
  refine ⟨t, vg, v, c, D, rest, e1, halt, hc, h3.inv, h3.alt.trans halt, h3.vars, ?_, ?_⟩
  · intro x hx
    refine (h3.moved x (hvars ▸ List.mem_append_right _ hx)).mpr ?_
    rintro ⟨u, w, hu, hop, hw⟩
    obtain ⟨p, hp1, rfl⟩ := List.mem_map.mp (hp u w (hg.sub hu he) (.inl hop))
    obtain ⟨sv, hsv, h4, _⟩ := hin p hp1
    rw [hw] at h4
    cases h4
    have := hge x hsv
    have := h0.lt x (List.mem_append_left _ hx)
    omega
  · intro σ' hD
    cases r with
    | none =>
      have := h3.fail (by rw [chunks, hr.2]; rfl)
      rw [hD] at this; cases this
    | some b =>
      obtain ⟨σ'', e2, _, e3⟩ := h3.ok [Val.enc (.nat b.toNat)] (by rw [chunks, hr.2]; rfl)
      rw [hD] at e2; cases e2
      rw [List.map_cons, List.map_nil, List.cons.injEq] at e3
      rw [e3.1]; rfl

/-- The same on a stack with something on it: what is left has at least two elements. -/
theorem compile_occupied (hL : L.Ok cfg) (hT : T.Ok cfg) {K : Variable → Kind} {env : Variable → Val} {n : Nat}
    {P : Expr → Prop} {e : Expr} {m : InputManager} (hg : Good K n P) (he : P e) (hm : m.Agrees K env)
    (hp : m.Provides P) (hmu : MultiOk e) {r : Option Bool} (hr : IsCheck K env e r) {s : RunState}
    (ho : Occupied cfg s.t) :
    ∃ t vg v c D rest, m.simulateOn T s = { s with t := t, vg := vg } ∧ t.alt = s.t.alt ∧
      express L T vg (simulate e fun _ => 0) true e ⟨t, fun _ => 0, fun _ => none⟩ = some ([v], c) ∧
      TInv cfg ⟨[], [], []⟩ [] [] c.t D ∧ c.t.vars = v :: rest ∧
      ∀ σ, D = some σ → 2 ≤ (stackOf σ c.t.vars).length := by
  obtain ⟨σ0, h0, x, hx, hx0⟩ := ho
  obtain ⟨t, vg, v, c, D, rest, e1, halt, hc, hi, _, hv, hrest, hone⟩ := compile_state hL hT hg he hm hp hmu hr h0
  refine ⟨t, vg, v, c, D, rest, e1, halt, hc, hi, hv, ?_⟩
  intro σ' hD
  have hxr := hrest x hx
  rw [hv, stackOf_cons, List.length_append, hone σ' hD]
  have hx' : (σ' x.id).length = x.size :=
    hi.sized σ' hD x (List.mem_append_left _ (by rw [hv]; exact List.mem_cons_of_mem _ hxr))
  have hle : (σ' x.id).length ≤ (stackOf σ' rest).length := by
    obtain ⟨a, b, rfl⟩ := List.append_of_mem hxr
    rw [stackOf_append, stackOf_cons]
    simp only [List.length_append]
    omega
  omega

/-! ### What a compilation leaves in the cache -/

/-- A node of one result that is used more than once. -/
def SharedAt (N : Nat → Nat) (u : Expr) : Prop := u.opc.outNum = some 1 ∧ N u.id > 1

/-- The nodes reached from `e` without passing through a shared node. -/
inductive Top (N : Nat → Nat) : Expr → Expr → Prop
  | refl (e : Expr) : Top N e e
  | arg {s a e : Expr} : ¬ SharedAt N e → a ∈ e.args → Top N s a → Top N s e

theorem Top.shared {N : Nat → Nat} {s e : Expr} (h : Top N s e) (he : SharedAt N e) : s = e := by
  cases h with
  | refl => rfl
  | arg h => exact absurd he h

/-- Nothing counted as copied without an entry. -/
def CacheOk (c : CState) : Prop := ∀ k, c.svar k = none → c.copied k = 0

/-- What a compilation does to the cache; `S` are the nodes compiled and `R` those among them surely visited. -/
structure Caches (N : Nat → Nat) (R S : Expr → Prop) (c c' : CState) : Prop where
  ok : CacheOk c'
  mono : ∀ k, (c.svar k).isSome → (c'.svar k).isSome
  set : ∀ s, R s → SharedAt N s → (c'.svar s.id).isSome
  only : ∀ k, (c'.svar k).isSome → (c.svar k).isSome ∨ ∃ s, S s ∧ s.id = k ∧ SharedAt N s

theorem Caches.trans {N : Nat → Nat} {R S R' S' R'' S'' : Expr → Prop} {c c' c'' : CState} (h : Caches N R S c c')
    (h' : Caches N R' S' c' c'') (hR : ∀ s, R'' s → R s ∨ R' s) (hS : ∀ s, S s ∨ S' s → S'' s) :
    Caches N R'' S'' c c'' where
  ok := h'.ok
  mono k hk := h'.mono k (h.mono k hk)
  set s hs hsh := by
    rcases hR s hs with h1 | h1
    · exact h'.mono _ (h.set s h1 hsh)
    · exact h'.set s h1 hsh
  only k hk := by
    rcases h'.only k hk with h1 | ⟨s, h1, h2⟩
    · rcases h.only k h1 with h3 | ⟨s, h3, h4⟩
      · exact .inl h3
      · exact .inr ⟨s, hS s (.inl h3), h4⟩
    · exact .inr ⟨s, hS s (.inr h1), h2⟩

theorem express_caches {N : Nat → Nat} {vg : Variable → Option SVar} : ∀ (e : Expr) {c c' : CState} {vs : List SVar},
    CacheOk c → express L T vg N true e c = some (vs, c') → Caches N (Top N · e) (Sub · e) c c'
  | .node id opc size args, c, c', vs, hc, h => by
    have key : ∀ (es : List Expr), (∀ a ∈ es, a ∈ args) → ∀ {c c' : CState} {ss : List Nat}, CacheOk c →
        expressArgs L T vg N true es c = some (ss, c') →
        Caches N (fun s => ∃ a ∈ es, Top N s a) (fun s => ∃ a ∈ es, Sub s a) c c' := by
      intro es
      induction es with
      | nil =>
        intro _ c c' ss hc h
        rw [expressArgs] at h
        cases h
        exact ⟨hc, fun _ h => h, by simp, fun _ h => .inl h⟩
      | cons a es ih =>
        intro hes c c' ss hc h
        have ha := hes a (List.mem_cons_self ..)
        have : sizeOf a < sizeOf (Expr.node id opc size args) := sizeOf_arg (e := .node id opc size args) ha
        rw [expressArgs] at h
        obtain ⟨⟨ws, c1⟩, h1, h⟩ := Option.bind_eq_some_iff.mp h
        obtain ⟨k, _, h⟩ := Option.bind_eq_some_iff.mp h
        obtain ⟨⟨ts, c2⟩, h2, h⟩ := Option.bind_eq_some_iff.mp h
        cases h
        have i1 := express_caches a hc h1
        have i2 := ih (fun b hb => hes b (List.mem_cons_of_mem _ hb)) i1.ok h2
        refine i1.trans i2 ?_ ?_
        · rintro s ⟨b, hb, h3⟩
          rcases List.mem_cons.mp hb with rfl | hb
          · exact .inl h3
          · exact .inr ⟨b, hb, h3⟩
        · rintro s (h3 | ⟨b, hb, h3⟩)
          · exact ⟨a, List.mem_cons_self .., h3⟩
          · exact ⟨b, List.mem_cons_of_mem _ hb, h3⟩
    rw [express] at h
    split at h
    · cases h
    · split at h
      · rename_i hhit
        obtain ⟨sv, hsv, h⟩ := Option.bind_eq_some_iff.mp h
        have hset : ∀ c'' : CState, c''.svar = c.svar → ∀ s, Top N s (.node id opc size args) → SharedAt N s →
            (c''.svar s.id).isSome := by
          intro c'' hcs s hs hsh
          have := hs.shared ⟨hhit.2.1, hhit.2.2.1⟩
          subst this
          rw [hcs]
          exact hhit.2.2.2
        split at h
        · obtain ⟨⟨x, t⟩, _, h⟩ := Option.bind_eq_some_iff.mp h
          cases h
          exact ⟨hc, fun _ h => h, hset _ rfl, fun _ h => .inl h⟩
        · obtain ⟨⟨x, t⟩, _, h⟩ := Option.bind_eq_some_iff.mp h
          cases h
          refine ⟨?_, fun _ h => h, hset _ rfl, fun _ h => .inl h⟩
          intro k hk
          have hne : k ≠ id := by
            rintro rfl
            rw [show c.svar k = none from hk] at hsv
            cases hsv
          exact (upd_ne hne).trans (hc k hk)
      · rename_i hhit
        split at h
        · cases h
        · obtain ⟨⟨ss, c1⟩, h1, h⟩ := Option.bind_eq_some_iff.mp h
          obtain ⟨em, _, h⟩ := Option.bind_eq_some_iff.mp h
          obtain ⟨⟨ws, t⟩, _, h⟩ := Option.bind_eq_some_iff.mp h
          have i1 := key args (fun _ h => h) hc h1
          have hsub : ∀ s, (∃ a ∈ args, Sub s a) → Sub s (.node id opc size args) :=
            fun s ⟨a, ha, hs⟩ => .arg (e := .node id opc size args) ha hs
          replace h : keepCopy T N true id opc.outNum ws { c1 with t := t } = some (vs, c') := h
          unfold keepCopy at h
          split at h
          · rename_i hk
            have hsh : SharedAt N (.node id opc size args) := ⟨hk.2.1, hk.2.2.1⟩
            cases ws with
            | nil => cases h
            | cons v ws =>
              obtain ⟨⟨x, t1⟩, _, h⟩ := Option.bind_eq_some_iff.mp h
              obtain ⟨⟨y, t2⟩, _, h⟩ := Option.bind_eq_some_iff.mp h
              cases h
              refine ⟨?_, ?_, ?_, ?_⟩
              · intro k hk'
                replace hk' : upd c1.svar id (some y) k = none := hk'
                by_cases hne : k = id
                · subst hne
                  rw [show upd c1.svar k (some y) k = some y from upd_self ..] at hk'
                  cases hk'
                · rw [show upd c1.svar id (some y) k = c1.svar k from upd_ne hne] at hk'
                  exact i1.ok k hk'
              · intro k hk'
                show (upd c1.svar id (some y) k).isSome
                unfold upd
                split
                · rfl
                · exact i1.mono k hk'
              · intro s hs _
                have := hs.shared hsh
                subst this
                show (upd c1.svar id (some y) id).isSome
                rw [upd_self]
                rfl
              · intro k hk'
                replace hk' : (upd c1.svar id (some y) k).isSome := hk'
                by_cases hne : k = id
                · exact .inr ⟨_, .refl _, hne.symm, hsh⟩
                · rw [show upd c1.svar id (some y) k = c1.svar k from upd_ne hne] at hk'
                  rcases i1.only k hk' with h3 | ⟨s, h3, h4⟩
                  · exact .inl h3
                  · exact .inr ⟨s, hsub s h3, h4⟩
          · rename_i hk
            cases h
            refine ⟨i1.ok, i1.mono, ?_, ?_⟩
            · intro s hs hsh
              cases hs with
              | refl =>
                have : c1.svar id ≠ none := fun h0 => hk ⟨rfl, hsh.1, hsh.2, h0, i1.ok id h0⟩
                exact Option.isSome_iff_ne_none.mpr this
              | arg _ ha hs => exact i1.set s ⟨_, ha, hs⟩ hsh
            · intro k hk'
              rcases i1.only k hk' with h3 | ⟨s, h3, h4⟩
              · exact .inl h3
              · exact .inr ⟨s, hsub s h3, h4⟩
termination_by e => sizeOf e

theorem generate_alt {vg : Variable → Option SVar} {out : Option Nat} {em : Opc.Emit} {t t' : Tracker} {vs : List SVar}
    (h : generate T vg out em t = some (vs, t')) : t'.alt = t.alt := by
  have key : ∀ (es : List (List Nat)) (t : Tracker), (t.pushAll T es).2.alt = t.alt := by
    intro es
    induction es with
    | nil => intro t; rfl
    | cons x es ih => intro t; simp [Tracker.pushAll, ih, Tracker.bignumber]
  have fin : ∀ {r : List SVar × Tracker}, (if out = none ∨ out = some r.1.length then some r else none) = some (vs, t') →
      r.2.alt = t.alt → t'.alt = t.alt := by
    intro r h hr
    split at h
    · cases h; exact hr
    · cases h
  cases em with
  | custom p c n s =>
    obtain ⟨r, h1, h⟩ := Option.bind_eq_some_iff.mp h
    refine fin h ?_
    unfold Tracker.custom at h1
    split at h1
    · cases h1
    · cases h1; rfl
  | copyVar v =>
    obtain ⟨sv, _, h⟩ := Option.bind_eq_some_iff.mp h
    obtain ⟨⟨x, t2⟩, h2, h⟩ := Option.bind_eq_some_iff.mp h
    obtain ⟨⟨d, s⟩, _, h2⟩ := Option.bind_eq_some_iff.mp h2
    cases h2
    exact fin h rfl
  | moveVar v =>
    obtain ⟨sv, _, h⟩ := Option.bind_eq_some_iff.mp h
    obtain ⟨⟨x, t2⟩, h2, h⟩ := Option.bind_eq_some_iff.mp h
    obtain ⟨⟨d, s⟩, _, h2⟩ := Option.bind_eq_some_iff.mp h2
    cases h2
    exact fin h rfl
  | pushAll es => exact fin h (key es t)

/-- With entries left for the shared nodes and an empty alt stack, a compilation that does not panic has no shared
node. -/
theorem express_stuck {N : Nat → Nat} {vg : Variable → Option SVar} : ∀ (e : Expr) {c c' : CState} {vs : List SVar},
    c.t.alt = [] → (∀ s, Top N s e → SharedAt N s → (c.svar s.id).isSome) →
    express L T vg N true e c = some (vs, c') → (∀ s, Sub s e → ¬ SharedAt N s) ∧ c'.t.alt = [] ∧ c'.svar = c.svar
  | .node id opc size args, c, c', vs, ha, hs, h => by
    have key : ¬ SharedAt N (.node id opc size args) → ∀ (es : List Expr), (∀ a ∈ es, a ∈ args) →
        ∀ {c c' : CState} {ss : List Nat}, c.t.alt = [] →
        (∀ s, Top N s (.node id opc size args) → SharedAt N s → (c.svar s.id).isSome) →
        expressArgs L T vg N true es c = some (ss, c') →
        (∀ a ∈ es, ∀ s, Sub s a → ¬ SharedAt N s) ∧ c'.t.alt = [] ∧ c'.svar = c.svar := by
      intro hn es
      induction es with
      | nil =>
        intro _ c c' ss ha hs h
        rw [expressArgs] at h
        cases h
        exact ⟨by simp, ha, rfl⟩
      | cons a es ih =>
        intro hes c c' ss ha hs h
        have hm := hes a (List.mem_cons_self ..)
        have : sizeOf a < sizeOf (Expr.node id opc size args) := sizeOf_arg (e := .node id opc size args) hm
        rw [expressArgs] at h
        obtain ⟨⟨ws, c1⟩, h1, h⟩ := Option.bind_eq_some_iff.mp h
        obtain ⟨k, _, h⟩ := Option.bind_eq_some_iff.mp h
        obtain ⟨⟨ts, c2⟩, h2, h⟩ := Option.bind_eq_some_iff.mp h
        cases h
        obtain ⟨i1, i2, i3⟩ := express_stuck a ha (fun s ht => hs s (.arg (e := .node id opc size args) hn hm ht)) h1
        obtain ⟨j1, j2, j3⟩ := ih (fun b hb => hes b (List.mem_cons_of_mem _ hb)) i2 (by rw [i3]; exact hs) h2
        refine ⟨?_, j2, j3.trans i3⟩
        intro b hb
        rcases List.mem_cons.mp hb with rfl | hb
        · exact i1
        · exact j1 b hb
    by_cases hsh : SharedAt N (.node id opc size args)
    · have hsome : (c.svar id).isSome := hs _ (.refl _) hsh
      have hshN : N id > 1 := hsh.2
      rw [express, if_neg (fun h0 => by have := h0.2.2; omega), if_pos ⟨rfl, hsh.1, hsh.2, hsome⟩] at h
      obtain ⟨sv, _, h⟩ := Option.bind_eq_some_iff.mp h
      split at h <;> obtain ⟨⟨x, t⟩, h1, _⟩ := Option.bind_eq_some_iff.mp h <;>
        obtain ⟨⟨d, k⟩, h2, _⟩ := Option.bind_eq_some_iff.mp h1 <;> rw [ha] at h2 <;> cases h2
    · rw [express] at h
      split at h
      · cases h
      · split at h
        · rename_i h0
          exact absurd ⟨h0.2.1, h0.2.2.1⟩ hsh
        · split at h
          · cases h
          · obtain ⟨⟨ss, c1⟩, h1, h⟩ := Option.bind_eq_some_iff.mp h
            obtain ⟨em, _, h⟩ := Option.bind_eq_some_iff.mp h
            obtain ⟨⟨ws, t⟩, h2, h⟩ := Option.bind_eq_some_iff.mp h
            obtain ⟨i1, i2, i3⟩ := key hsh args (fun _ h => h) ha hs h1
            replace h : keepCopy T N true id opc.outNum ws { c1 with t := t } = some (vs, c') := h
            unfold keepCopy at h
            rw [if_neg (fun h0 => hsh ⟨h0.2.1, h0.2.2.1⟩)] at h
            cases h
            refine ⟨?_, (generate_alt h2).trans i2, i3⟩
            intro s hs
            cases hs with
            | refl => exact hsh
            | arg ha hs => exact i1 _ ha s hs
termination_by e => sizeOf e

theorem expressArgs_congr {I : Nat → Prop} {vg : Variable → Option SVar} {N N' : Nat → Nat}
    (hN : ∀ i, I i → N i = N' i) : ∀ (es : List Expr), (∀ a ∈ es, ∀ s, Sub s a → I s.id) → ∀ {c d : CState}, Same I c d →
    SameRes I (expressArgs L T vg N true es c) (expressArgs L T vg N' true es d)
  | [], _, c, d, h => by rw [expressArgs, expressArgs]; exact ⟨rfl, h⟩
  | a :: es, hI, c, d, h => by
    rw [expressArgs, expressArgs]
    refine SameRes.bind (express_congr hN a (hI a (List.mem_cons_self ..)) h) ?_
    intro vs c d h
    simp only [Option.bind_eq_bind]
    cases a.varSize with
    | none => exact True.intro
    | some n =>
      refine SameRes.bind (expressArgs_congr hN es (fun b hb => hI b (List.mem_cons_of_mem _ hb)) h) ?_
      exact fun _ _ _ h => ⟨rfl, h⟩

theorem expressArgs_stuck {N : Nat → Nat} {vg : Variable → Option SVar} : ∀ (es : List Expr) {c c' : CState} {ss : List Nat},
    c.t.alt = [] → (∀ a ∈ es, ∀ s, Top N s a → SharedAt N s → (c.svar s.id).isSome) →
    expressArgs L T vg N true es c = some (ss, c') →
    (∀ a ∈ es, ∀ s, Sub s a → ¬ SharedAt N s) ∧ c'.t.alt = [] ∧ c'.svar = c.svar
  | [], c, c', ss, ha, _, h => by
    rw [expressArgs] at h
    cases h
    exact ⟨by simp, ha, rfl⟩
  | a :: es, c, c', ss, ha, hs, h => by
    rw [expressArgs] at h
    obtain ⟨⟨ws, c1⟩, h1, h⟩ := Option.bind_eq_some_iff.mp h
    obtain ⟨k, _, h⟩ := Option.bind_eq_some_iff.mp h
    obtain ⟨⟨ts, c2⟩, h2, h⟩ := Option.bind_eq_some_iff.mp h
    cases h
    obtain ⟨i1, i2, i3⟩ := express_stuck a ha (hs a (List.mem_cons_self ..)) h1
    obtain ⟨j1, j2, j3⟩ := expressArgs_stuck es i2
      (fun b hb => by rw [i3]; exact hs b (List.mem_cons_of_mem _ hb)) h2
    refine ⟨?_, j2, j3.trans i3⟩
    intro b hb
    rcases List.mem_cons.mp hb with rfl | hb
    · exact i1
    · exact j1 b hb

/-! ### C116 -/

/-- The identifiers of an expression have not been met. -/
def Unmet (s : RunState) (e : Expr) : Prop :=
  ∀ u, Sub u e → s.count u.id = 0 ∧ s.copied u.id = 0 ∧ s.svar u.id = none

/-- `run` of a manager just made is `run` as modelled before. -/
theorem C116_first (m : InputManager) : (m.runOn cfg L T .new).isSome ↔ m.run cfg L T = some () := by
  unfold InputManager.runOn InputManager.run
  cases m.exec with
  | none => simp
  | some e =>
    have : m.simulateOn T .new = { RunState.new with t := (m.simulateInput T).1, vg := (m.simulateInput T).2 } := rfl
    simp only [this, InputManager.script, compile]
    show Option.isSome (Option.bind (express L T (m.simulateInput T).2 (simulate e fun _ => 0) true e
      ⟨(m.simulateInput T).1, fun _ => 0, fun _ => none⟩) _) = true ↔ _
    simp only [Option.bind_eq_bind]
    cases express L T (m.simulateInput T).2 (simulate e fun _ => 0) true e
      ⟨(m.simulateInput T).1, fun _ => 0, fun _ => none⟩ with
    | none => simp
    | some p =>
      simp only [Option.bind_some]
      split <;> simp

/-- C116, violated: whatever is on the stack of the manager before `run` makes `run` panic, for every check whose nodes
have not been met. -/
theorem C116_violated_occupied (hL : L.Ok cfg) (hT : T.Ok cfg) {K : Variable → Kind} {env : Variable → Val} {n : Nat}
    {P : Expr → Prop} {e : Expr} {m : InputManager} (hg : Good K n P) (he : P e) (hm : m.Agrees K env)
    (hp : m.Provides P) (hmu : MultiOk e) (hx : m.exec = some e) {r : Option Bool} (hr : IsCheck K env e r)
    {s : RunState} (ho : Occupied cfg s.t) (hs : Unmet s e) : m.runOn cfg L T s = none := by
  obtain ⟨t, vg, v, c, D, rest, e1, _, hc, hi, _, h2⟩ := compile_occupied hL hT hg he hm hp hmu hr ho
  have hcong : SameRes (fun i => ∃ u, Sub u e ∧ u.id = i)
      (express L T vg (simulate e s.count) true e ⟨t, s.copied, s.svar⟩)
      (express L T vg (simulate e fun _ => 0) true e ⟨t, fun _ => 0, fun _ => none⟩) := by
    refine express_congr ?_ e (fun u hu => ⟨u, hu, rfl⟩) ⟨rfl, ?_, ?_⟩
    · refine simulate_congr e (fun u hu => ⟨u, hu, rfl⟩) ?_
      rintro _ ⟨u, hu, rfl⟩
      exact (hs u hu).1
    · rintro _ ⟨u, hu, rfl⟩
      exact (hs u hu).2.1
    · rintro _ ⟨u, hu, rfl⟩
      exact (hs u hu).2.2
  rw [hc] at hcong
  unfold InputManager.runOn
  rw [hx]
  simp only [e1, Option.bind_eq_bind]
  cases hex : express L T vg (simulate e s.count) true e ⟨t, s.copied, s.svar⟩ with
  | none => rfl
  | some p =>
    obtain ⟨ws, d⟩ := p
    rw [hex] at hcong
    obtain ⟨_, hd⟩ := hcong
    simp only [Option.bind_some]
    rw [hd.t, not_accepts hi h2]
    rfl

/-- C116, violated: a manager with at least one input panics in `run` if `simulate_input` was called before, also where
`run` alone succeeds. -/
theorem C116_violated_inputs (hL : L.Ok cfg) (hT : T.Ok cfg) {K : Variable → Kind} {env : Variable → Val} {n : Nat}
    {P : Expr → Prop} {e : Expr} {m : InputManager} (hg : Good K n P) (he : P e) (hm : m.Agrees K env)
    (hp : m.Provides P) (hmu : MultiOk e) (hx : m.exec = some e) {r : Option Bool} (hr : IsCheck K env e r)
    (hin : m.inputs ≠ []) : m.runOn cfg L T (m.simulateOn T .new) = none := by
  obtain ⟨t, vg, σ, vs, e1, ht, _, hv, hi, _⟩ :=
    simulateOn_inv (s := .new) hT hm (tInv_new cfg [] [])
  rw [e1]
  refine C116_violated_occupied hL hT hg he hm hp hmu hx hr ⟨σ, ht, ?_⟩ fun u _ => ⟨rfl, rfl, rfl⟩
  obtain ⟨p, hp'⟩ := List.exists_mem_of_ne_nil _ hin
  obtain ⟨sv, hsv, _, henc⟩ := hi p hp'
  have hmem : sv ∈ t.vars := hv ▸ List.mem_append_left _ hsv
  refine ⟨sv, hmem, ?_⟩
  rw [← ht.sized σ rfl sv (List.mem_append_left _ hmem), henc]
  cases env p.1 with
  | nat k => exact Nat.zero_lt_one
  | ext k => simp [Val.enc, encE, Stark.asBase4]

/-- What a successful first `run` leaves behind. -/
theorem first_run (hL : L.Ok cfg) (hT : T.Ok cfg) {K : Variable → Kind} {env : Variable → Val} {n : Nat}
    {P : Expr → Prop} {e : Expr} {m : InputManager} (hg : Good K n P) (he : P e) (hm : m.Agrees K env)
    (hp : m.Provides P) (hmu : MultiOk e) (hx : m.exec = some e) {r : Option Bool} (hr : IsCheck K env e r)
    {s : RunState} (h : m.runOn cfg L T .new = some s) :
    Occupied cfg s.t ∧ s.t.alt = [] ∧ s.count = simulate e (fun _ => 0) ∧
      ∃ vg vs t, express L T vg (simulate e fun _ => 0) true e ⟨t, fun _ => 0, fun _ => none⟩ =
        some (vs, ⟨s.t, s.copied, s.svar⟩) := by
  obtain ⟨t, vg, v, c, D, rest, e1, halt, hc, hi, ha, hv, _, hone⟩ :=
    compile_state hL hT hg he hm hp hmu hr (s := .new) (tInv_new cfg [] [])
  unfold InputManager.runOn at h
  rw [hx] at h
  simp only [e1, Option.bind_eq_bind] at h
  rw [show (RunState.new.count) = fun _ => 0 from rfl, show RunState.new.copied = fun _ => 0 from rfl,
    show RunState.new.svar = fun _ => none from rfl, hc] at h
  simp only [Option.bind_some] at h
  split at h
  · rename_i hacc
    cases h
    refine ⟨?_, ha, rfl, vg, [v], t, hc⟩
    cases D with
    | none =>
      unfold accepts at hacc
      rw [hi.run] at hacc
      cases hacc
    | some σ =>
      have hm' : v ∈ c.t.vars := by rw [hv]; exact List.mem_cons_self ..
      refine ⟨σ, hi, v, hm', ?_⟩
      rw [← hi.sized σ rfl v (List.mem_append_left _ hm'), hone σ rfl]
      exact Nat.zero_lt_one
  · cases h

/-- C116, violated: after a successful `run`, another check of new nodes makes `run` panic, whatever its value; the
manager may have been given more inputs in between. -/
theorem C116_violated_next (hL : L.Ok cfg) (hT : T.Ok cfg) {K K' : Variable → Kind} {env env' : Variable → Val}
    {n n' : Nat} {P P' : Expr → Prop} {e e' : Expr} {m m' : InputManager} (hg : Good K n P) (he : P e) (hm : m.Agrees K env)
    (hp : m.Provides P) (hmu : MultiOk e) (hx : m.exec = some e) {r : Option Bool} (hr : IsCheck K env e r)
    (hg' : Good K' n' P') (he' : P' e') (hm' : m'.Agrees K' env') (hp' : m'.Provides P') (hmu' : MultiOk e')
    (hx' : m'.exec = some e') {r' : Option Bool} (hr' : IsCheck K' env' e' r')
    (hnew : ∀ u u', Sub u e → Sub u' e' → u.id ≠ u'.id) {s : RunState} (h : m.runOn cfg L T .new = some s) :
    m'.runOn cfg L T s = none := by
  obtain ⟨ho, _, hcount, vg, vs, t, hex⟩ := first_run hL hT hg he hm hp hmu hx hr h
  refine C116_violated_occupied hL hT hg' he' hm' hp' hmu' hx' hr' ho fun u hu => ?_
  have hc := express_caches e (c := ⟨t, fun _ => 0, fun _ => none⟩) (fun _ _ => rfl) hex
  have hsv : s.svar u.id = none := by
    cases hs : s.svar u.id with
    | none => rfl
    | some x =>
      rcases hc.only u.id (by show (s.svar u.id).isSome; rw [hs]; rfl) with h0 | ⟨w, hw, hid, _⟩
      · cases h0
      · exact absurd hid (hnew w u hw hu)
  exact ⟨by rw [hcount]; exact simulate_other e _ _ fun w hw => hnew w u hw hu, hc.ok u.id hsv, hsv⟩

/-- C116, violated: after a successful `run`, running the same check again panics, whatever its inputs are then. -/
theorem C116_violated_same (hL : L.Ok cfg) (hT : T.Ok cfg) {K : Variable → Kind} {env env' : Variable → Val}
    {n : Nat} {P : Expr → Prop} {e : Expr} {m m' : InputManager} (hg : Good K n P) (he : P e) (hm : m.Agrees K env)
    (hp : m.Provides P) (hmu : MultiOk e) (hx : m.exec = some e) {r : Option Bool} (hr : IsCheck K env e r)
    (hm' : m'.Agrees K env') (hp' : m'.Provides P) (hx' : m'.exec = some e) {r' : Option Bool}
    (hr' : IsCheck K env' e r') {s : RunState} (h : m.runOn cfg L T .new = some s) : m'.runOn cfg L T s = none := by
  obtain ⟨ho, halt, hcount, vg1, vs1, t1, hex⟩ := first_run hL hT hg he hm hp hmu hx hr h
  have hc := express_caches e (c := ⟨t1, fun _ => 0, fun _ => none⟩) (fun _ _ => rfl) hex
  obtain ⟨t, vg, v, c, D, rest, e1, ha, hfresh, hi, hv, h2⟩ := compile_occupied hL hT hg he hm' hp' hmu hr' ho
  have hshd := hg.shared he
  unfold InputManager.runOn
  rw [hx']
  simp only [e1, Option.bind_eq_bind, hcount]
  cases hrun : express L T vg (simulate e (simulate e fun _ => 0)) true e ⟨t, s.copied, s.svar⟩ with
  | none => rfl
  | some p =>
  obtain ⟨ws, d⟩ := p
  simp only [Option.bind_some]
  obtain ⟨id, opc, size, args⟩ := e
  have hargs : ∀ a ∈ args, ∀ u, Sub u a → u.id ≠ id := by
    intro a ha u hu hid
    have := hshd u (.node id opc size args) (.arg (e := .node id opc size args) ha hu) (.refl _) hid
    have h1 := hu.sizeOf_le
    rw [this] at h1
    have h2 := sizeOf_arg (e := .node id opc size args) ha
    omega
  have hN1 : simulate (.node id opc size args) (fun _ => 0) id = 1 := by
    rw [simulate_node, if_neg (by decide), simulateArgs_upd hargs, upd_self]
  have hN2 : simulate (.node id opc size args) (simulate (.node id opc size args) fun _ => 0) =
      upd (simulate (.node id opc size args) fun _ => 0) id 2 := by
    rw [simulate_node, hN1, if_pos (by decide)]
  rw [hN2] at hrun
  generalize hN : simulate (.node id opc size args) (fun _ => 0) = N at *
  have hroot : ¬ SharedAt N (.node id opc size args) := by
    rintro ⟨_, h0⟩
    rw [show N (Expr.node id opc size args).id = 1 from hN1] at h0
    omega
  have hsv : s.svar id = none := by
    cases hs : s.svar id with
    | none => rfl
    | some x =>
      rcases hc.only id (by show (s.svar id).isSome; rw [hs]; rfl) with h0 | ⟨w, hw, hid, hsh⟩
      · cases h0
      · rw [hshd w (.node id opc size args) hw (.refl _) hid] at hsh
        exact absurd hsh hroot
  -- the operands
  rw [express] at hrun
  rw [if_neg (by rintro ⟨_, _, h0⟩; rw [upd_self] at h0; cases h0),
    if_neg (by rintro ⟨_, _, _, h0⟩; replace h0 : (s.svar id).isSome := h0; rw [hsv] at h0; cases h0)] at hrun
  split at hrun
  · cases hrun
  rename_i hlen
  obtain ⟨⟨ss, c1⟩, g1, hrun⟩ := Option.bind_eq_some_iff.mp hrun
  obtain ⟨em, g2, hrun⟩ := Option.bind_eq_some_iff.mp hrun
  obtain ⟨⟨us, t2⟩, g3, hrun⟩ := Option.bind_eq_some_iff.mp hrun
  replace hrun : keepCopy T (upd N id 2) true id opc.outNum us { c1 with t := t2 } = some (ws, d) := hrun
  have hcong := expressArgs_congr (L := L) (T := T) (vg := vg) (I := (· ≠ id)) (N := upd N id 2) (N' := N)
    (fun i hi => upd_ne hi) args hargs (c := ⟨t, s.copied, s.svar⟩) (d := ⟨t, s.copied, s.svar⟩)
    ⟨rfl, fun _ _ => rfl, fun _ _ => rfl⟩
  rw [g1] at hcong
  cases g1' : expressArgs L T vg N true args ⟨t, s.copied, s.svar⟩ with
  | none => rw [g1'] at hcong; exact hcong.elim
  | some q =>
  obtain ⟨ss', c1'⟩ := q
  rw [g1'] at hcong
  obtain ⟨rfl, hsame⟩ := hcong
  obtain ⟨hno, _, hsv1⟩ := expressArgs_stuck (c := ⟨t, s.copied, s.svar⟩) args (ha.trans halt) (fun a ha u hu hsh =>
    hc.set u (.arg (e := .node id opc size args) hroot ha hu) hsh) g1'
  -- nothing is shared, so that the cache is empty
  have hclean : s.svar = fun _ => none := by
    funext k
    cases hs : s.svar k with
    | none => rfl
    | some x =>
      rcases hc.only k (by show (s.svar k).isSome; rw [hs]; rfl) with h0 | ⟨w, hw, hid, hsh⟩
      · cases h0
      · cases hw with
        | refl => exact absurd hsh hroot
        | arg ha hw => exact absurd hsh (hno _ ha w hw)
  have hclean' : s.copied = fun _ => 0 := by
    funext k
    exact hc.ok k (by show s.svar k = none; rw [hclean])
  rw [hclean, hclean'] at g1'
  rw [express, if_neg (by rintro ⟨_, _, h0⟩; omega),
    if_neg (by rintro ⟨_, _, h0, _⟩; omega), if_neg hlen] at hfresh
  obtain ⟨⟨ss2, c2⟩, f1, hfresh⟩ := Option.bind_eq_some_iff.mp hfresh
  rw [g1'] at f1
  cases f1
  obtain ⟨em', f2, hfresh⟩ := Option.bind_eq_some_iff.mp hfresh
  rw [g2] at f2
  cases f2
  obtain ⟨⟨us', t3⟩, f3, hfresh⟩ := Option.bind_eq_some_iff.mp hfresh
  replace f3 : generate T vg opc.outNum em c1'.t = some (us', t3) := f3
  replace g3 : generate T vg opc.outNum em c1.t = some (us, t2) := g3
  rw [← hsame.t, g3] at f3
  cases f3
  replace hfresh : keepCopy T N true id opc.outNum us { c1' with t := t2 } = some ([v], c) := hfresh
  unfold keepCopy at hfresh
  rw [if_neg (by rintro ⟨_, _, h0, _⟩; omega)] at hfresh
  cases hfresh
  replace hi : TInv cfg ⟨[], [], []⟩ [] [] t2 D := hi
  replace hv : t2.vars = v :: rest := hv
  replace h2 : ∀ σ, D = some σ → 2 ≤ (stackOf σ t2.vars).length := h2
  unfold keepCopy at hrun
  split at hrun
  · obtain ⟨q1, k1, i1⟩ := copyVar_inv hT hi (v := v) (by rw [hv]; exact List.mem_cons_self ..)
    obtain ⟨q2, k2, i2⟩ := toAltstack_inv hT i1
    obtain ⟨⟨x, t4⟩, j1, hrun⟩ := Option.bind_eq_some_iff.mp hrun
    rw [k1] at j1
    cases j1
    obtain ⟨⟨y, t5⟩, j2, hrun⟩ := Option.bind_eq_some_iff.mp hrun
    rw [k2] at j2
    cases j2
    cases hrun
    rw [not_accepts i2 ?_]
    · rfl
    intro σ' hσ'
    obtain ⟨σ, hσ, rfl⟩ := Option.map_eq_some_iff.mp hσ'
    have := h2 σ hσ
    rw [length_stackOf (fun w hw => hi.sized σ hσ w (List.mem_append_left _ hw))] at this
    rw [length_stackOf (fun w hw => i2.sized _ hσ' w (List.mem_append_left _ hw))]
    exact this
  · cases hrun
    rw [not_accepts hi h2]
    rfl

/-! ### Programs -/

namespace Prog

open Stark (BB4)

/-- The manager that `runCheck` runs. -/
noncomputable def manager (p : List Ins) (r : Nat) (c : FVal) (n : Nat) : Option InputManager := do
  let s ← steps p (.new n)
  let (t, x) ← s.slots[r]?
  if t = c.ty then some (s.m.setExec (Dsl.equalC x (u32 c) s.n).1) else none

theorem runCheck_eq (p : List Ins) (r : Nat) (c : FVal) (n : Nat) :
    runCheck cfg L T p r c n = (manager p r c n).bind fun m => m.run cfg L T := by
  unfold runCheck manager
  simp only [Option.bind_eq_bind, Option.bind_assoc]
  congr 1; funext s
  congr 1; funext q
  split <;> rfl

/-- What is known of the manager of a program. -/
theorem manager_facts {p : List Ins} {vs : List Value} {k : Nat} (hp : values p [] 0 = some (vs, k)) {r : Nat} {v : Value}
    (hr : vs[r]? = some v) {c : FVal} (hc : c.ty = v.val.ty) (n : Nat) :
    ∃ m K env n' P e o, manager p r c n = some m ∧ Good K n' P ∧ P e ∧ m.Agrees K env ∧ m.Provides P ∧ MultiOk e ∧
      m.exec = some e ∧ IsCheck K env e o ∧ (0 < k → m.inputs ≠ []) := by
  obtain ⟨s, P, h1, hi⟩ := steps_inv (l := inputsOf p) (s := .new n) (P := NoNodes)
    ⟨Built.new _ n, .nil, Ins'.new _⟩ hp ⟨[], rfl, rfl⟩
  obtain ⟨e, he, hd, ho⟩ := hi.slots.get hr
  obtain ⟨o, ⟨P', b, sub, pe, hop, hck⟩, _⟩ := makes_check (c := c) hi.built hd hc.symm
  have ha := hi.ins.agrees
  refine ⟨s.m.setExec (Dsl.equalC e (u32 c) s.n).1, _, _, _, P', _, o, by simp [manager, h1, he, hc], b.good, pe,
    ⟨ha.vals, ha.kinds, ha.nodup⟩, fun s v hs hv => b.prov s v hs hv,
    b.safe.multiOk b.good pe (by rw [hop]; exact fun h => h), rfl, hck, ?_⟩
  intro hk h0
  have := hi.ins.all 0 hk
  rw [show s.m.inputs = [] from h0] at this
  cases this

/-- C116, violated, for every program of inputs, constants and field operations compared with a constant: the first
`run` succeeds iff the value is the constant and every input occurs in its formula; after it, `run` panics; and with at
least one input, `run` panics after `simulate_input`. -/
theorem C116_violated_program (hL : L.Ok cfg) (hT : T.Ok cfg) {p : List Ins} {vs : List Value} {k : Nat}
    (hp : values p [] 0 = some (vs, k)) {r : Nat} {v : Value} (hr : vs[r]? = some v) {c : FVal} (hc : c.ty = v.val.ty)
    (n : Nat) :
    ∃ m, manager p r c n = some m ∧ ((m.runOn cfg L T .new).isSome ↔ v.val = c ∧ v.inputs = Finset.range k) ∧
      (∀ s, m.runOn cfg L T .new = some s → m.runOn cfg L T s = none) ∧
      (0 < k → m.runOn cfg L T (m.simulateOn T .new) = none) := by
  obtain ⟨m, K, env, n', P, e, o, h1, hg, he, hm, hpr, hmu, hx, hck, hin⟩ := manager_facts hp hr hc n
  refine ⟨m, h1, ?_, ?_, ?_⟩
  · rw [C116_first, ← C85_program hL hT hp hr hc n, runCheck_eq, h1]
    rfl
  · exact fun s hs => C116_violated_same hL hT hg he hm hpr hmu hx hck hm hpr hx hck hs
  · exact fun hk => C116_violated_inputs hL hT hg he hm hpr hmu hx hck (hin hk)

/-- C116, instance, with the arithmetic scripts of the repository: the program of the test of the input manager runs
once with success, not a second time, and not at all after `simulate_input`. -/
theorem C116_instance (cfg : Cfg) (n : Nat) :
    ∃ m s, manager (demo 3 3 100) 9 (.ext 3002) n = some m ∧
      m.runOn cfg (repoLib 2013265921) refTracker .new = some s ∧
      m.runOn cfg (repoLib 2013265921) refTracker s = none ∧
      m.runOn cfg (repoLib 2013265921) refTracker (m.simulateOn refTracker .new) = none := by
  obtain ⟨vs, h1, h2⟩ := demo_values 3 3 100
  obtain ⟨m, e1, e2, e3, e4⟩ := C116_violated_program (cfg := cfg) (repoLib_ok cfg) (refTracker_ok cfg) h1 h2
    (c := .ext 3002) rfl n
  have hrun := (C85_instance cfg 3002 n).mpr rfl
  rw [runCheck_eq, e1] at hrun
  obtain ⟨s, hs⟩ := Option.isSome_iff_exists.mp ((C116_first m).mpr hrun)
  exact ⟨m, s, e1, hs, e3 s hs, e4 (by decide)⟩

/-- C116, instance: a manager that has checked one pair of equal constants with success does not check another. -/
theorem C116_instance_next (cfg : Cfg) (b c : BB4) :
    ∃ m m' s, manager [.const (.ext b)] 0 (.ext b) 0 = some m ∧ manager [.const (.ext c)] 0 (.ext c) 10 = some m' ∧
      m.runOn cfg (repoLib 2013265921) refTracker .new = some s ∧
      (m'.runOn cfg (repoLib 2013265921) refTracker .new).isSome ∧
      m'.runOn cfg (repoLib 2013265921) refTracker s = none := by
  have hL : (repoLib 2013265921).Ok cfg := repoLib_ok cfg
  have hT : refTracker.Ok cfg := refTracker_ok cfg
  have hv : ∀ c : BB4, values [.const (.ext c)] [] 0 = some ([⟨.ext c, ∅⟩], 0) := fun _ => rfl
  obtain ⟨m, e1, e2, e3, _⟩ := C116_violated_program hL hT (hv b) (r := 0) rfl (c := .ext b) rfl 0
  obtain ⟨m', e1', e2', _, _⟩ := C116_violated_program hL hT (hv c) (r := 0) rfl (c := .ext c) rfl 10
  obtain ⟨s, hs⟩ := Option.isSome_iff_exists.mp (e2.mpr ⟨rfl, rfl⟩)
  refine ⟨m, m', s, e1, e1', hs, e2'.mpr ⟨rfl, rfl⟩, ?_⟩
  obtain ⟨m1, K, env, n1, P, e, o, h1, hg, he, hm, hpr, hmu, hx, hck, _⟩ := manager_facts (hv b) (r := 0) rfl (c := .ext b) rfl 0
  obtain ⟨m2, K', env', n2, P', e', o', h1', hg', he', hm', hpr', hmu', hx', hck', _⟩ :=
    manager_facts (hv c) (r := 0) rfl (c := .ext c) rfl 10
  rw [e1] at h1; cases h1
  rw [e1'] at h1'; cases h1'
  refine C116_violated_next hL hT hg he hm hpr hmu hx hck hg' he' hm' hpr' hmu' hx' hck' ?_ hs
  have hids : ∀ (c : BB4) (n : Nat) (m : InputManager) (e : Expr), manager [.const (.ext c)] 0 (.ext c) n = some m →
      m.exec = some e → ∀ u, Sub u e → n < u.id ∧ u.id ≤ n + 3 := by
    intro c n m e h hx u hu
    have hm : m.exec = some (.node (n + 3) .equal 1
        [.node (n + 1) (.constant (u32 (.ext c))) (u32 (.ext c)).length [],
          .node (n + 2) (.constant (u32 (.ext c))) (u32 (.ext c)).length []]) := by
      cases h; rfl
    rw [hm] at hx
    cases hx
    cases hu with
    | refl => exact ⟨by show n < n + 3; omega, Nat.le_refl _⟩
    | arg ha hu =>
      simp only [Expr.args, List.mem_cons, List.not_mem_nil, or_false] at ha
      rcases ha with rfl | rfl
      · cases hu with
        | refl => exact ⟨by show n < n + 1; omega, by show n + 1 ≤ n + 3; omega⟩
        | arg ha _ => cases ha
      · cases hu with
        | refl => exact ⟨by show n < n + 2; omega, by show n + 2 ≤ n + 3; omega⟩
        | arg ha _ => cases ha
  intro u u' hu hu'
  have := hids b 0 m e e1 hx u hu
  have := hids c 10 m' e' e1' hx' u' hu'
  omega

end Prog

end TapStark
