import Verif.Spec.Room
import Verif.Script.Effect
import Verif.Proofs.ExpressMain

/- The compiler needs no more stack than the bound of Spec/Room. -/

set_option linter.unusedSectionVars false
set_option linter.unusedSimpArgs false

namespace TapStark

theorem Eff.fit {p : List Op} {n o k t r : Nat} (h : Eff p n o k t) (hr : k ≤ n + r) : Fit p n r := by
  intro cfg lim s hc hn hl
  obtain ⟨j, hj⟩ := Nat.exists_eq_add_of_le hn
  exact (h.runs cfg hc hj).1 (by omega) (by omega)

theorem Fit.mono {p : List Op} {n r n' r' : Nat} (h : Fit p n r) (hn : n ≤ n') (hr : r ≤ r') : Fit p n' r' :=
  fun cfg lim s hc h1 h2 => h cfg lim s hc (by omega) (by omega)

theorem totalSize_append (l k : List SVar) : totalSize (l ++ k) = totalSize l + totalSize k := by
  simp [totalSize]

theorem totalSize_cons (v : SVar) (k : List SVar) : totalSize (v :: k) = v.size + totalSize k := by
  simp [totalSize]

theorem totalSize_filter_le (f : SVar → Bool) : ∀ l : List SVar, totalSize (l.filter f) ≤ totalSize l
  | [] => Nat.le_refl _
  | v :: l => by
    have := totalSize_filter_le f l
    rw [List.filter_cons]
    split
    · simp only [totalSize_cons]; omega
    · simp only [totalSize_cons]; omega

theorem totalSize_le_four : ∀ {l : List SVar}, (∀ v ∈ l, v.size ≤ 4) → totalSize l ≤ 4 * l.length
  | [], _ => Nat.le_refl _
  | v :: l, h => by
    have h1 := h v (List.mem_cons_self ..)
    have h2 := totalSize_le_four (l := l) fun w hw => h w (List.mem_cons_of_mem _ hw)
    simp only [totalSize_cons, List.length_cons]; omega

theorem locate_le {id d s : Nat} : ∀ {vs : List SVar}, locate id vs = some (d, s) →
    d + s ≤ totalSize vs ∧ ∃ v ∈ vs, v.size = s
  | [], h => by cases h
  | v :: vs, h => by
    rw [locate] at h
    split at h
    · cases h
      exact ⟨by simp [totalSize_cons], v, List.mem_cons_self .., rfl⟩
    · obtain ⟨⟨d', s'⟩, h1, h2⟩ := Option.map_eq_some_iff.mp h
      simp only [Prod.mk.injEq] at h2
      obtain ⟨rfl, rfl⟩ := h2
      obtain ⟨h3, w, hw, h4⟩ := locate_le h1
      exact ⟨by simp only [totalSize_cons]; omega, w, List.mem_cons_of_mem _ hw, h4⟩

/-! ### One fragment -/

section
variable {cfg : Cfg} {start : St} {m0 a0 : List Elem} {t : Tracker} {D : Option (Nat → List Elem)} {lim : Nat}

/-- The script behaves under the limit as without. -/
def Tracker.Fits (cfg : Cfg) (lim : Nat) (start : St) (t : Tracker) : Prop :=
  runL cfg lim t.script start = run cfg t.script start

/-- The number of elements the tracker knows of. -/
def Tracker.held (m0 a0 : List Elem) (t : Tracker) : Nat :=
  totalSize t.vars + totalSize t.alt + m0.length + a0.length

theorem TInv.fits_dead (h : TInv cfg start m0 a0 t none) : t.Fits cfg lim start := by
  have h1 : TapStark.run cfg t.script start = none := h.run
  unfold Tracker.Fits
  rw [h1]
  cases e : runL cfg lim t.script start with
  | none => rfl
  | some s => rw [runL_run _ e] at h1; cases h1

theorem TInv.fits_step (h : TInv cfg start m0 a0 t D) (hf : t.Fits cfg lim start) {q : List Op} {n r : Nat}
    (hq : Fit q n r) (hn : ∀ σ, D = some σ → n ≤ t.held m0 a0 ∧ t.held m0 a0 + r ≤ lim) {t' : Tracker}
    (ht : t'.script = t.script ++ q) : t'.Fits cfg lim start := by
  unfold Tracker.Fits at *
  rw [ht, runL_append, run_append, hf, h.run]
  cases D with
  | none => rfl
  | some σ =>
    obtain ⟨h1, h2⟩ := hn σ rfl
    have e1 := length_stackOf (σ := σ) (l := t.vars) fun v hv => h.sized σ rfl v (List.mem_append_left _ hv)
    have e2 := length_altOf (σ := σ) (l := t.alt) fun v hv => h.sized σ rfl v (List.mem_append_right _ hv)
    have e3 : (St.mk (stackOf σ t.vars ++ m0) (altOf σ t.alt ++ a0) []).size = t.held m0 a0 := by
      simp only [St.size, List.length_append, e1, e2, Tracker.held]; omega
    exact hq cfg lim _ rfl (by rw [e3]; exact h1) (by rw [e3]; exact h2)

variable {T : TrackerLib}

theorem copyVar_fits (hR : T.Thrifty) (h : TInv cfg start m0 a0 t D) (hf : t.Fits cfg lim start) {v x : SVar}
    {t' : Tracker} (e : t.copyVar T v = some (x, t')) (hn : ∀ σ, D = some σ → t.held m0 a0 + 8 ≤ lim) :
    t'.Fits cfg lim start := by
  simp only [Tracker.copyVar, Option.bind_eq_bind, Option.bind_eq_some_iff] at e
  obtain ⟨⟨d, s⟩, e1, e2⟩ := e
  cases e2
  obtain ⟨h1, w, hw, rfl⟩ := locate_le e1
  have hs := h.small w (List.mem_append_left _ hw)
  refine h.fits_step hf (hR.copy d w.size hs) (fun σ eσ => ?_) rfl
  have := hn σ eσ
  exact ⟨by unfold Tracker.held; omega, by omega⟩

theorem moveVar_fits (hR : T.Thrifty) (h : TInv cfg start m0 a0 t D) (hf : t.Fits cfg lim start) {v x : SVar}
    {t' : Tracker} (e : t.moveVar T v = some (x, t')) (hn : ∀ σ, D = some σ → t.held m0 a0 + 8 ≤ lim) :
    t'.Fits cfg lim start := by
  simp only [Tracker.moveVar, Option.bind_eq_bind, Option.bind_eq_some_iff] at e
  obtain ⟨⟨d, s⟩, e1, e2⟩ := e
  cases e2
  obtain ⟨h1, w, hw, rfl⟩ := locate_le e1
  have hs := h.small w (List.mem_append_left _ hw)
  refine h.fits_step hf (hR.move d w.size hs) (fun σ eσ => ?_) rfl
  have := hn σ eσ
  exact ⟨by unfold Tracker.held; omega, by omega⟩

theorem copyVarFromAlt_fits (hR : T.Thrifty) (h : TInv cfg start m0 a0 t D) (hf : t.Fits cfg lim start) {v x : SVar}
    {t' : Tracker} (e : t.copyVarFromAlt T v = some (x, t')) (hn : ∀ σ, D = some σ → t.held m0 a0 + 8 ≤ lim) :
    t'.Fits cfg lim start := by
  simp only [Tracker.copyVarFromAlt, Option.bind_eq_bind, Option.bind_eq_some_iff] at e
  obtain ⟨⟨d, s⟩, e1, e2⟩ := e
  cases e2
  obtain ⟨h1, w, hw, rfl⟩ := locate_le e1
  have hs := h.small w (List.mem_append_right _ hw)
  refine h.fits_step hf (hR.copyAlt d w.size hs) (fun σ eσ => ?_) rfl
  have := hn σ eσ
  exact ⟨by unfold Tracker.held; omega, by omega⟩

theorem moveVarFromAlt_fits (hR : T.Thrifty) (h : TInv cfg start m0 a0 t D) (hf : t.Fits cfg lim start) {v x : SVar}
    {t' : Tracker} (e : t.moveVarFromAlt T v = some (x, t')) (hn : ∀ σ, D = some σ → t.held m0 a0 + 8 ≤ lim) :
    t'.Fits cfg lim start := by
  simp only [Tracker.moveVarFromAlt, Option.bind_eq_bind, Option.bind_eq_some_iff] at e
  obtain ⟨⟨d, s⟩, e1, e2⟩ := e
  cases e2
  obtain ⟨h1, w, hw, rfl⟩ := locate_le e1
  have hs := h.small w (List.mem_append_right _ hw)
  refine h.fits_step hf (hR.moveAlt d w.size hs) (fun σ eσ => ?_) rfl
  have := hn σ eσ
  exact ⟨by unfold Tracker.held; omega, by omega⟩

theorem totalSize_of_map {σ : Nat → List Elem} {vs : List SVar} {outs : List (List Elem)}
    (hs : ∀ v ∈ vs, (σ v.id).length = v.size) (h : vs.map (fun v => σ v.id) = outs) :
    totalSize vs = outs.flatten.length := by
  rw [← length_stackOf hs, ← h]
  rfl

theorem pushAll_fits (hT : T.Ok cfg) (hR : T.Thrifty) (h : TInv cfg start m0 a0 t D) (hf : t.Fits cfg lim start) :
    ∀ {es : List (List Nat)}, (∀ x ∈ es, x.length ≤ 4) →
    (∀ σ, D = some σ → t.held m0 a0 + es.flatten.length + 4 ≤ lim) → (t.pushAll T es).2.Fits cfg lim start := by
  intro es
  induction es with
  | nil => intro _ _; exact hf
  | cons x es ih =>
    intro hs hn
    have hs' : ∀ y ∈ es, y.length ≤ 4 := fun y hy => hs y (List.mem_cons_of_mem _ hy)
    have h1 := ih hs' fun σ e => by
      have := hn σ e
      rw [List.flatten_cons, List.length_append] at this
      omega
    obtain ⟨vs, q, n, D', hn', e1, hl, ht, hnone, hsome⟩ := pushAll_inv hT h hs'
    rw [e1] at h1
    simp only [Tracker.pushAll, e1]
    refine ht.fits_step h1 (hR.push x (hs x (List.mem_cons_self ..))) (fun σ e => ?_) rfl
    cases hD : D with
    | none => rw [hnone hD] at e; cases e
    | some σ0 =>
      obtain ⟨σ', e2, -, e3⟩ := hsome σ0 hD
      rw [e] at e2
      cases e2
      have h2 := totalSize_of_map (σ := σ) (vs := vs)
        (fun v hv => ht.sized σ e v (List.mem_append_left _ (List.mem_append_left _ hv))) e3
      have h3 : (es.map fun x => x.map fun (v : Nat) => num v).flatten.length = es.flatten.length := by
        simp [List.length_flatten, Function.comp_def]
      have h4 := hn σ0 hD
      simp only [Tracker.held, totalSize_append, List.flatten_cons, List.length_append] at h4 ⊢
      omega

end

/-! ### Visits -/

theorem needArgs_cons (wt rm : Expr → Nat) (e : Expr) (es : List Expr) :
    needArgs wt rm (e :: es) = max (need wt rm e) (wt e + needArgs wt rm es) := by rw [needArgs]

theorem need_eq (wt rm : Expr → Nat) (e : Expr) :
    need wt rm e = max (needArgs wt rm e.args) (max ((e.args.map wt).sum + rm e) (wt e + 8)) := by
  cases e with
  | node id opc size args => rw [need]; rfl

/-- What a visit does: it takes the result from the cache, or computes it. -/
theorem express_cases {L : U31Lib} {T : TrackerLib} {vg : Variable → Option SVar} {N : Nat → Nat} {opt : Bool}
    {e : Expr} {c c' : CState} {vs : List SVar} (h : express L T vg N opt e c = some (vs, c')) :
    (∃ sv x, c.t.moveVarFromAlt T sv = some (x, c'.t) ∨ c.t.copyVarFromAlt T sv = some (x, c'.t)) ∨
    (¬ (opt = true ∧ e.opc.outNum = some 1 ∧ N e.id > 1 ∧ (c.svar e.id).isSome) ∧
      ∃ sizes c1 em vs1 t1, expressArgs L T vg N opt e.args c = some (sizes, c1) ∧ e.opc.emit L sizes = some em ∧
        generate T vg e.opc.outNum em c1.t = some (vs1, t1) ∧
        keepCopy T N opt e.id e.opc.outNum vs1 { c1 with t := t1 } = some (vs, c')) := by
  cases e with
  | node id opc size args =>
    rw [express] at h
    split at h
    · cases h
    · split at h
      · simp only [Option.bind_eq_bind, Option.bind_eq_some_iff] at h
        obtain ⟨sv, -, h⟩ := h
        split at h
        · simp only [Option.bind_eq_some_iff] at h
          obtain ⟨⟨x, t⟩, h1, h2⟩ := h
          cases h2
          exact .inl ⟨sv, x, .inl h1⟩
        · simp only [Option.bind_eq_some_iff] at h
          obtain ⟨⟨x, t⟩, h1, h2⟩ := h
          cases h2
          exact .inl ⟨sv, x, .inr h1⟩
      · rename_i hc
        split at h
        · cases h
        · simp only [Option.bind_eq_bind, Option.bind_eq_some_iff] at h
          obtain ⟨⟨sizes, c1⟩, h1, em, h2, ⟨vs1, t1⟩, h3, h4⟩ := h
          exact .inr ⟨hc, sizes, c1, em, vs1, t1, h1, h2, h3, h4⟩

namespace Ctx

variable {C : Ctx} {wt rm : Expr → Nat} {ids : List Nat} {lim : Nat}

/-- The numbers `wt` and `rm` are right, and `ids` are the nodes that are cached. -/
structure Roomy (C : Ctx) (wt rm : Expr → Nat) (ids : List Nat) : Prop where
  tracker : C.T.Thrifty
  val : ∀ s, C.U s → ∀ outs, C.ρ s = some outs → outs.flatten.length = wt s
  emit : ∀ s sizes p c n k, C.U s → sizesOf s.args = some sizes → s.opc.emit C.L sizes = some (.custom p c n k) →
    Fit p ((s.args.map wt).sum) (rm s)
  ids : ∀ s, C.U s → s.opc.outNum = some 1 → 1 < C.N s.id → s.id ∈ ids

/-- Elements beside the operands. -/
def rest (C : Ctx) (ids : List Nat) : Nat :=
  totalSize C.B + 4 * ids.length + totalSize C.A0 + C.m0.length + C.a0.length

theorem Inv.held (R : C.Roomy wt rm ids) {cmB cm : Nat → Nat} {temp : List SVar} {c : CState}
    {D : Option (Nat → List Elem)} (h : C.Inv cmB cm temp c D) :
    c.t.held C.m0 C.a0 ≤ totalSize temp + C.rest ids := by
  obtain ⟨cache, e, h1, h2⟩ := h.alt
  have h3 : totalSize (C.base cmB) ≤ totalSize C.B := totalSize_filter_le _ _
  have h4 : totalSize cache ≤ 4 * cache.length := totalSize_le_four fun v hv =>
    h.t.small v (List.mem_append_right _ (by rw [e]; exact List.mem_append_left _ hv))
  have h5 : cache.length ≤ ids.length := by
    have hnd : cache.Nodup := by
      have := h.t.nodupAlt
      rw [e, List.map_append, List.nodup_append] at this
      exact List.Nodup.of_map _ this.1
    have : Nonempty Expr := ⟨.node 0 .add 0 []⟩
    choose! f hf using h1
    have hinj : (cache.map fun x => (f x).id).Nodup := by
      refine (List.nodup_map_iff_inj_on hnd).mpr fun x hx y hy hxy => ?_
      have a1 := (hf x hx).2
      have a2 := (hf y hy).2
      rw [hxy, a2] at a1
      exact (Option.some.inj a1).symm
    have hsub : (cache.map fun x => (f x).id) ⊆ ids := by
      intro i hi
      obtain ⟨x, hx, rfl⟩ := List.mem_map.mp hi
      obtain ⟨⟨b1, b2, b3, b4⟩, -⟩ := hf x hx
      exact R.ids _ b1 b2 (by omega)
    have := (List.subperm_of_subset hinj hsub).length_le
    rwa [List.length_map] at this
  simp only [Tracker.held, h.vars, e, totalSize_append, rest]
  omega

theorem argsVal_length (R : C.Roomy wt rm ids) : ∀ {es : List Expr}, (∀ e ∈ es, C.U e) → ∀ {outs},
    argsVal C.ρ es = some outs → outs.flatten.length = (es.map wt).sum
  | [], _, outs, h => by cases h; rfl
  | e :: es, hU, outs, h => by
    rw [argsVal] at h
    obtain ⟨x, hx, h⟩ := Option.bind_eq_some_iff.mp h
    obtain ⟨y, hy, rfl⟩ := Option.map_eq_some_iff.mp h
    have h1 := R.val e (hU e (List.mem_cons_self ..)) x hx
    have h2 := argsVal_length R (es := es) (fun a ha => hU a (List.mem_cons_of_mem _ ha)) hy
    rw [List.flatten_append, List.length_append, List.map_cons, List.sum_cons]
    omega

theorem Inv.sized {cmB cm : Nat → Nat} {ws temp : List SVar} {c : CState} {σ : Nat → List Elem}
    (h : C.Inv cmB cm (ws ++ temp) c (some σ)) : ∀ v ∈ ws, (σ v.id).length = v.size := fun v hv =>
  h.t.sized σ rfl v (List.mem_append_left _ (by
    rw [h.vars]; exact List.mem_append_left _ (List.mem_append_left _ hv)))

/-- What is claimed of a visit. -/
def FitClaim (C : Ctx) (wt rm : Expr → Nat) (ids : List Nat) (lim : Nat) (opt : Bool)
    (step : Expr → (Nat → Nat) → (Nat → Nat)) (P : (Nat → Nat) → Prop) (e : Expr) : Prop :=
  C.U e → ∀ cm temp c D, C.Inv cm cm temp c D → P (step e cm) → c.t.Fits C.cfg lim C.start →
    totalSize temp + need wt rm e + C.rest ids ≤ lim →
    ∀ vs c', express C.L C.T C.vg C.N opt e c = some (vs, c') → c'.t.Fits C.cfg lim C.start

/-- The operands in turn. -/
theorem fitArgs (R : C.Roomy wt rm ids) {opt : Bool} {step : Expr → (Nat → Nat) → (Nat → Nat)}
    {P : (Nat → Nat) → Prop} (hP : ∀ (es : List Expr) cm, P (es.foldl (fun cm e => step e cm) cm) → P cm) :
    ∀ (es : List Expr), (∀ e ∈ es, C.U e) → (∀ e ∈ es, VisitClaim C opt step P e) →
    (∀ e ∈ es, FitClaim C wt rm ids lim opt step P e) → ∀ sizes, sizesOf es = some sizes →
    ∀ cm temp c D, C.Inv cm cm temp c D → P (es.foldl (fun cm e => step e cm) cm) → c.t.Fits C.cfg lim C.start →
    totalSize temp + needArgs wt rm es + C.rest ids ≤ lim →
    ∀ ss c', expressArgs C.L C.T C.vg C.N opt es c = some (ss, c') → c'.t.Fits C.cfg lim C.start := by
  intro es
  induction es with
  | nil =>
    intro _ _ _ _ _ cm temp c D _ _ hf _ ss c' e
    rw [expressArgs] at e
    cases e
    exact hf
  | cons e es ih =>
    intro hU hv hfit sizes hs cm temp c D h hPf hf hl ss c' he
    rw [needArgs_cons] at hl
    obtain ⟨s, hs1, hs2⟩ := Option.bind_eq_some_iff.mp hs
    obtain ⟨ss', hs3, rfl⟩ := Option.map_eq_some_iff.mp hs2
    rw [List.foldl_cons] at hPf
    have hU' : ∀ x ∈ es, C.U x := fun x hx => hU x (List.mem_cons_of_mem _ hx)
    have hv' : ∀ x ∈ es, VisitClaim C opt step P x := fun x hx => hv x (List.mem_cons_of_mem _ hx)
    obtain ⟨vs, c1, D1, e1, l1, i1, v1⟩ := hv e (List.mem_cons_self ..) (hU e (List.mem_cons_self ..)) cm temp c D h
      (hP es _ hPf)
    have f1 := hfit e (List.mem_cons_self ..) (hU e (List.mem_cons_self ..)) cm temp c D h (hP es _ hPf) hf (by omega)
      vs c1 e1
    simp only [expressArgs, e1, hs1, Option.bind_eq_bind, Option.bind_some, Option.bind_eq_some_iff] at he
    obtain ⟨⟨ss2, c2⟩, e2, e3⟩ := he
    cases e3
    cases hD : D1 with
    | none =>
      obtain ⟨ws, c3, D3, e4, -, i3, v3⟩ := visitArgs hP es hU' hv' ss' hs3 _ _ c1 D1 i1 hPf
      rw [e2] at e4
      cases e4
      have := i3.t
      rw [v3.dead hD] at this
      exact this.fits_dead
    | some σ =>
      subst hD
      obtain ⟨_, outs, _, e4, _, e5⟩ := v1.back rfl
      have h1 := totalSize_of_map i1.sized e5
      rw [R.val e (hU e (List.mem_cons_self ..)) outs e4] at h1
      exact ih hU' hv' (fun x hx => hfit x (List.mem_cons_of_mem _ hx)) ss' hs3 _ _ c1 _ i1 hPf f1
        (by rw [totalSize_append]; omega) ss2 c2 e2

/-- The generator. -/
theorem generate_fits (G : C.Good) (R : C.Roomy wt rm ids) {cmB cm : Nat → Nat} {ws temp : List SVar} {c : CState}
    {D : Option (Nat → List Elem)} (h : C.Inv cmB cm (ws ++ temp) c D) {e : Expr} (hU : C.U e) {sizes : List Nat}
    (hsz : sizesOf e.args = some sizes) {em : Opc.Emit} (hem : e.opc.emit C.L sizes = some em) (hok : C.EmitOk e em)
    (hws : ws.length = (e.args.map C.w).sum)
    (hval : ∀ σ, D = some σ → argsVal C.ρ e.args = some (ws.map fun v => σ v.id))
    (hf : c.t.Fits C.cfg lim C.start) (hl : totalSize temp + need wt rm e + C.rest ids ≤ lim) {vs : List SVar}
    {t' : Tracker} (hg : TapStark.generate C.T C.vg e.opc.outNum em c.t = some (vs, t')) :
    t'.Fits C.cfg lim C.start := by
  rw [need_eq] at hl
  have hheld := h.held R
  rw [totalSize_append] at hheld
  have hwt : ∀ σ, D = some σ → totalSize ws = (e.args.map wt).sum := by
    intro σ eσ
    subst eσ
    rw [totalSize_of_map h.sized rfl]
    exact argsVal_length R (G.closed e hU) (hval σ rfl)
  have hnil : e.args = [] → totalSize ws = 0 := by
    intro e0
    rw [e0] at hws
    rw [List.length_eq_zero_iff.mp hws]; rfl
  cases em with
  | custom p k n s =>
    simp only [TapStark.generate, Tracker.custom, Option.bind_eq_bind, Option.bind_eq_some_iff] at hg
    obtain ⟨⟨ws', t1⟩, hg1, hg2⟩ := hg
    split at hg1
    · cases hg1
    · cases hg1
      split at hg2
      · cases hg2
        refine h.t.fits_step hf (R.emit e sizes p k n s hU hsz hem) (fun σ eσ => ?_) rfl
        have h1 := hwt σ eσ
        refine ⟨?_, by omega⟩
        simp only [Tracker.held, h.vars, totalSize_append]
        omega
      · cases hg2
  | copyVar v =>
    simp only [TapStark.generate, Option.bind_eq_bind, Option.bind_eq_some_iff] at hg
    obtain ⟨sv, -, ⟨x, t2⟩, hg1, r, e1, hg2⟩ := hg
    cases e1
    split at hg2
    · cases hg2
      have := hnil hok.1
      exact copyVar_fits R.tracker h.t hf hg1 fun σ eσ => by omega
    · cases hg2
  | moveVar v =>
    simp only [TapStark.generate, Option.bind_eq_bind, Option.bind_eq_some_iff] at hg
    obtain ⟨sv, -, ⟨x, t2⟩, hg1, r, e1, hg2⟩ := hg
    cases e1
    split at hg2
    · cases hg2
      have := hnil hok.1
      exact moveVar_fits R.tracker h.t hf hg1 fun σ eσ => by omega
    · cases hg2
  | pushAll es =>
    simp only [TapStark.generate, Option.bind_eq_bind, Option.bind_some] at hg
    split at hg
    · have h0 := hnil hok.1
      have h1 := R.val e hU _ hok.2.2.2.2
      have h3 : (es.map fun x => x.map fun (v : Nat) => num v).flatten.length = es.flatten.length := by
        simp [List.length_flatten, Function.comp_def]
      have := pushAll_fits (lim := lim) G.lib R.tracker h.t hf hok.2.2.2.1 fun σ eσ => by omega
      rw [Option.some.inj hg] at this
      exact this
    · cases hg

/-- Keeping a copy. -/
theorem keep_fits (G : C.Good) (R : C.Roomy wt rm ids) {cmB cm : Nat → Nat} {vs temp : List SVar} {c : CState}
    {D : Option (Nat → List Elem)} (h : C.Inv cmB cm (vs ++ temp) c D) {e : Expr} {opt : Bool}
    (hf : c.t.Fits C.cfg lim C.start)
    (hl : ∀ σ, D = some σ → totalSize vs + totalSize temp + 8 + C.rest ids ≤ lim) {vs' : List SVar} {c' : CState}
    (hk : keepCopy C.T C.N opt e.id e.opc.outNum vs c = some (vs', c')) : c'.t.Fits C.cfg lim C.start := by
  have hheld := h.held R
  rw [totalSize_append] at hheld
  unfold keepCopy at hk
  split at hk
  · cases vs with
    | nil => cases hk
    | cons v vs =>
      simp only [Option.bind_eq_bind, Option.bind_eq_some_iff] at hk
      obtain ⟨⟨x, t1⟩, h1, ⟨y, t2⟩, h2, h3⟩ := hk
      cases h3
      have hv : v ∈ c.t.vars := by rw [h.vars]; exact List.mem_append_left _ (List.mem_append_left _ (List.mem_cons_self ..))
      obtain ⟨q, e1, ht1⟩ := copyVar_inv G.lib h.t hv
      have f1 := copyVar_fits R.tracker h.t hf h1 fun σ eσ => by have := hl σ eσ; omega
      rw [h1] at e1
      simp only [Option.some.injEq, Prod.mk.injEq] at e1
      obtain ⟨-, rfl⟩ := e1
      simp only [Tracker.toAltstack, Option.some.injEq, Prod.mk.injEq] at h2
      obtain ⟨-, rfl⟩ := h2
      have hs := h.t.small v (List.mem_append_left _ hv)
      refine ht1.fits_step f1 (R.tracker.toAlt v.size hs) (fun σ eσ => ?_) rfl
      obtain ⟨σ', eσ', -⟩ := Option.map_eq_some_iff.mp eσ
      have := hl σ' eσ'
      simp only [Tracker.held, totalSize_cons] at hheld this ⊢
      omega
  · cases hk
    exact hf

/-- Operands, generator and copy. -/
theorem miss_fits (G : C.Good) (R : C.Roomy wt rm ids) {cm : Nat → Nat} {ws temp : List SVar} {c c1 : CState}
    {D : Option (Nat → List Elem)} {D0 : Option (Nat → List Elem)} (h : C.Inv cm cm (ws ++ temp) c D) {e : Expr} (hU : C.U e) {sizes : List Nat}
    (hsz : sizesOf e.args = some sizes) {em : Opc.Emit} (hem : e.opc.emit C.L sizes = some em) (hok : C.EmitOk e em)
    (hout : e.opc.outNum = Option.none ∨ e.opc.outNum = some (C.w e))
    (hws : ws.length = (e.args.map C.w).sum)
    (hv1 : Visit c1.t.next c.t.next (argsVal C.ρ e.args) D0 ws D)
    (hmv : e.id ∈ C.mvs.map Prod.fst → cm e.id = 0) {opt : Bool}
    (hf : c.t.Fits C.cfg lim C.start) (hl : totalSize temp + need wt rm e + C.rest ids ≤ lim) {vs vs' : List SVar}
    {t' : Tracker} {c' : CState} (hg : TapStark.generate C.T C.vg e.opc.outNum em c.t = some (vs, t'))
    (hk : keepCopy C.T C.N opt e.id e.opc.outNum vs { c with t := t' } = some (vs', c')) :
    c'.t.Fits C.cfg lim C.start := by
  have f1 := generate_fits G R h hU hsz hem hok hws (visit_args_val hv1) hf hl hg
  rw [need_eq] at hl
  by_cases hm : e.id ∈ C.mvs.map Prod.fst
  · cases em with
    | custom => exact absurd hm hok.2.2.2.1
    | copyVar => exact absurd hm hok.2.2.1
    | pushAll => exact absurd hm hok.2.2.1
    | moveVar v =>
      have hw0 : ws = [] := by rw [hok.1] at hws; exact List.length_eq_zero_iff.mp hws
      subst hw0
      obtain ⟨vs1, t1, g1, -, i2, -, o2⟩ := Inv.move G h hok (hmv hm) hout
      rw [hg] at g1
      cases g1
      refine keep_fits G R i2 f1 (fun σ eσ => ?_) hk
      subst eσ
      have := totalSize_of_map i2.sized rfl
      rw [R.val e hU _ (o2 σ rfl)] at this
      simp only [List.nil_append]
      omega
  · obtain ⟨vs1, t1, D1, g1, -, i2, n2, d2, f2, o2⟩ := h.generate G hm hok hout hws (visit_args_val hv1)
    rw [hg] at g1
    cases g1
    refine keep_fits G R i2 f1 (fun σ eσ => ?_) hk
    subst eσ
    have hv2 := visit_comp hok hv1 n2 d2 f2 o2
    obtain ⟨_, outs, _, e4, _, e5⟩ := hv2.back rfl
    have := totalSize_of_map i2.sized e5
    rw [R.val e hU _ e4] at this
    omega

/-- A visit that does not use the cache. -/
theorem visit_plain_fits (G : C.Good) (R : C.Roomy wt rm ids) {opt : Bool} (e : Expr) (hp : C.Plain opt e) :
    FitClaim C wt rm ids lim opt (fun _ cm => cm) (fun _ => True) e := by
    intro hU cm temp c D h _ hf hl vs c' hx
    have hA : totalSize temp + needArgs wt rm e.args + C.rest ids ≤ lim := by rw [need_eq] at hl; omega
    have hl' : totalSize temp + 8 + C.rest ids ≤ lim := by rw [need_eq] at hl; omega
    rcases express_cases hx with ⟨sv, x, h1 | h1⟩ | ⟨-, sizes, c1, em, vs1, t1, h1, h2, h3, h4⟩
    · exact moveVarFromAlt_fits R.tracker h.t hf h1 fun σ _ => by have := h.held R; omega
    · exact copyVarFromAlt_fits R.tracker h.t hf h1 fun σ _ => by have := h.held R; omega
    · obtain ⟨hin, sizes', em', hsz, hem, hok, hout⟩ := G.node e hU
      have hva : ∀ a ∈ e.args, VisitClaim C opt (fun _ cm => cm) (fun _ => True) a :=
        fun a ha => visit_plain G a fun s hs => hp s (.arg ha hs)
      obtain ⟨ws, c2, D2, e1, l1, i1, v1⟩ := visitArgs (C := C) (opt := opt) (step := fun _ cm => cm)
        (P := fun _ => True) (fun _ _ _ => trivial) e.args (G.closed e hU) hva sizes' hsz cm temp c D h trivial
      have f1 := fitArgs (lim := lim) R (opt := opt) (step := fun _ cm => cm) (P := fun _ => True) (fun _ _ _ => trivial) e.args
        (G.closed e hU) hva (fun a ha => visit_plain_fits G R a fun s hs => hp s (.arg ha hs)) sizes' hsz cm temp c D h
        trivial hf hA sizes c1 h1
      rw [foldl_const] at i1
      rw [h1] at e1
      cases e1
      rw [h2] at hem
      cases hem
      exact miss_fits G R i1 hU hsz h2 hok hout l1 v1 (fun hm => absurd hm (hp e (.refl e)).1) f1 hl h3 h4
termination_by sizeOf e
decreasing_by exact sizeOf_arg ha

/-- A visit in lockstep with the counting of visits. -/
theorem visit_fits (G : C.Good) (R : C.Roomy wt rm ids)
    (hmulti : ∀ e, C.U e → e.opc.outNum ≠ some 1 → C.N e.id ≤ 1 ∨ C.Plain true e) (e : Expr) :
    FitClaim C wt rm ids lim true simulate (fun cm => ∀ k, cm k ≤ C.N k) e := by
    intro hU cm temp c D h hP hf hl vs c' hx
    have hA : totalSize temp + needArgs wt rm e.args + C.rest ids ≤ lim := by rw [need_eq] at hl; omega
    have hl' : totalSize temp + 8 + C.rest ids ≤ lim := by rw [need_eq] at hl; omega
    rcases express_cases hx with ⟨sv, x, h1 | h1⟩ | ⟨hmiss, sizes, c1, em, vs1, t1, h1, h2, h3, h4⟩
    · exact moveVarFromAlt_fits R.tracker h.t hf h1 fun σ _ => by have := h.held R; omega
    · exact copyVarFromAlt_fits R.tracker h.t hf h1 fun σ _ => by have := h.held R; omega
    · obtain ⟨hin, sizes', em', hsz, hem, hok, hout⟩ := G.node e hU
      have hsim : simulate e cm = if cm e.id + 1 > 1 then upd cm e.id (cm e.id + 1) else
          simulateArgs e.args (upd cm e.id (cm e.id + 1)) := by
        cases e with
        | node id opc size args => exact simulate_node ..
      by_cases hc : cm e.id = 0
      · have hfresh : ∀ a ∈ e.args, ∀ s, Sub s a → s.id ≠ e.id := by
          intro a ha s hs hse
          have hUs : ∀ s a, Sub s a → C.U a → C.U s := by
            intro s a hs
            induction hs with
            | refl => exact fun h => h
            | arg ha _ ih => exact fun h => ih (G.closed _ h _ ha)
          have := G.uniq s e (hUs s a hs (G.closed e hU a ha)) hU hse
          have h1 := hs.sizeOf_le
          rw [this] at h1
          have h2 := sizeOf_arg ha
          omega
        rw [hc, if_neg (by omega), simulateArgs_upd hfresh] at hsim
        rw [hsim] at hP
        have hsame := simulateArgs_same hfresh cm
        have hP1 : ∀ k, simulateArgs e.args cm k ≤ C.N k := by
          intro k
          by_cases hk : k = e.id
          · rw [hk, hsame, hc]; exact Nat.zero_le _
          · have := hP k
            rw [upd_ne hk] at this
            exact this
        have hPm : ∀ (es : List Expr) cm', (∀ k, es.foldl (fun cm e => simulate e cm) cm' k ≤ C.N k) →
            ∀ k, cm' k ≤ C.N k :=
          fun es cm' hb k => Nat.le_trans (simulateArgs_mono es cm' k) (by rw [← foldl_simulate]; exact hb k)
        obtain ⟨ws, c2, D2, e1, l1, i1, v1⟩ := visitArgs (C := C) (opt := true) (step := simulate)
          (P := fun cm => ∀ k, cm k ≤ C.N k) hPm
          e.args (G.closed e hU) (fun a ha => visit G hmulti a) sizes' hsz cm temp c D h
          (by rw [foldl_simulate]; exact hP1)
        have f1 := fitArgs (lim := lim) R (opt := true) (step := simulate) (P := fun cm => ∀ k, cm k ≤ C.N k) hPm e.args
          (G.closed e hU) (fun a ha => visit G hmulti a) (fun a ha => visit_fits G R hmulti a) sizes' hsz cm temp c D h
          (by rw [foldl_simulate]; exact hP1) hf hA sizes c1 h1
        rw [foldl_simulate] at i1
        rw [h1] at e1
        cases e1
        rw [h2] at hem
        cases hem
        exact miss_fits G R i1 hU hsz h2 hok hout l1 v1 (fun _ => by rw [hsame, hc]) f1 hl h3 h4
      · rw [if_pos (by omega)] at hsim
        rw [hsim] at hP
        have hN : cm e.id + 1 ≤ C.N e.id := by
          have := hP e.id
          rw [upd_self] at this
          exact this
        by_cases ho : e.opc.outNum = some 1
        · exfalso
          obtain ⟨cache, ec, hc1, hc2⟩ := h.alt
          obtain ⟨y, -, hy, -⟩ := hc2 e ⟨hU, ho, Nat.pos_of_ne_zero hc, hN⟩
          exact hmiss ⟨rfl, ho, by omega, by rw [hy]; rfl⟩
        · rcases hmulti e hU ho with h0 | hp
          · omega
          · exact visit_plain_fits G R e hp hU cm temp c D h trivial hf hl vs c' hx
termination_by sizeOf e
decreasing_by exact sizeOf_arg ha

end Ctx

end TapStark
