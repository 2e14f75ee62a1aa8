import Verif.Proofs.RoomOps
import Verif.Props.LimitInputs

/-
C91: generated scripts that fit under the limit.
-/

namespace TapStark

variable {cfg : Cfg} {L : U31Lib} {T : TrackerLib} {K : Variable → Kind} {env : Variable → Val} {τ : Expr → List Kind}
variable {vg : Variable → Option SVar} {e : Expr} {t : Tracker} {σ : Nat → List Elem} {start : St} {m0 a0 : List Elem}
variable {lim R : Nat}

theorem has_length : ∀ {vs : List Val} {ks : List Kind}, List.Forall₂ Val.Has vs ks →
    (vs.map Val.enc).flatten.length = (ks.map Kind.size).sum
  | _, _, .nil => rfl
  | _, _, .cons h hs => by
    rw [List.map_cons, List.flatten_cons, List.length_append, List.map_cons, List.sum_cons, has_length hs, h.length]

theorem emit_custom {opc : Opc} {sizes : List Nat} {p : List Op} {c n k : Nat}
    (h : opc.emit L sizes = some (.custom p c n k)) : opc.isScript = true := by
  cases opc <;> first | rfl | (cases sizes <;> simp [Opc.emit] at h)

/-- The nodes that the first pass of the compiler visits more than once; their results are kept on the alt stack. -/
def kept (e : Expr) : List Nat :=
  ((subs e).map Expr.id).dedup.filter fun i => 1 < simulate e (fun _ => 0) i

theorem mem_kept {s : Expr} (hs : Sub s e) (h : 1 < simulate e (fun _ => 0) s.id) : s.id ∈ kept e := by
  unfold kept
  rw [List.mem_filter, List.mem_dedup]
  exact ⟨List.mem_map.mpr ⟨s, mem_subs.mpr hs, rfl⟩, by simpa using h⟩

theorem mkCtx_roomy (hL : L.Ok cfg) (hT : T.Thrifty) (hS : L.Slim R) (hw : WellTyped K τ e)
    (hin : InputsAt vg K env σ t.vars e) :
    (mkCtx cfg start m0 a0 L T vg τ env σ t e).Roomy (width τ) (fun s => s.opc.room R) (kept e) where
  tracker := hT
  val := by
    intro s hs outs ho
    have ho : (eval env s).map (fun vs => vs.map Val.enc) = some outs := ho
    obtain ⟨vs, h1, rfl⟩ := Option.map_eq_some_iff.mp ho
    exact has_length (eval_has hL hw hin s hs vs h1)
  emit := by
    intro s sizes p c n k hs hsz he
    have hs : Sub s e := hs
    have h1 := sizesOf_some (hw.sizes s hs)
    rw [hsz] at h1
    cases h1
    have := script_room hS (emit_custom he) (hw.types s hs) (sizesOk_of hw hs) he
    rwa [List.map_map] at this
  ids := fun s hs _ h => mem_kept hs h

theorem compile_fits (hL : L.Ok cfg) (hT : T.Ok cfg) (hT' : T.Thrifty) (hS : L.Slim R) (hw : WellTyped K τ e)
    (hsh : Shared e) (hmv : MovesOnce vg e) (hmu : MultiOk e) (ht : TInv cfg start m0 a0 t (some σ))
    (hin : InputsAt vg K env σ t.vars e) (hf : t.Fits cfg lim start)
    (hl : t.held m0 a0 + 4 * (kept e).length + need (width τ) (fun s => s.opc.room R) e ≤ lim) {vs : List SVar} {t' : Tracker}
    (hc : compile L T vg true e t = some (vs, t')) : t'.Fits cfg lim start := by
  have G := mkCtx_good (env := env) hL hT hw hsh hmv ht hin
  have h0 := inv_start (C := mkCtx cfg start m0 a0 L T vg τ env σ t e) ht rfl rfl rfl
  have hmulti : ∀ s, (mkCtx cfg start m0 a0 L T vg τ env σ t e).U s → s.opc.outNum ≠ some 1 →
      (mkCtx cfg start m0 a0 L T vg τ env σ t e).N s.id ≤ 1 ∨
      (mkCtx cfg start m0 a0 L T vg τ env σ t e).Plain true s := by
    intro s hs ho
    rcases hmu s hs ho with h | h
    · exact .inl h
    · refine .inr fun u hu => ⟨not_mem_fst hsh (Sub.trans hu hs) (h u hu).1, ?_⟩
      by_cases h1 : u.opc.outNum = some 1
      · exact .inr (.inr ((h u hu).2 h1))
      · exact .inr (.inl h1)
  simp only [compile, Option.bind_eq_bind, Option.bind_eq_some_iff] at hc
  obtain ⟨⟨ws, c⟩, h1, h2⟩ := hc
  cases h2
  refine Ctx.visit_fits (lim := lim) G (mkCtx_roomy hL hT' hS hw hin) hmulti e (.refl e) _ _ _ _ h0 (fun k => Nat.le_refl _) hf
    ?_ ws c h1
  show totalSize ([] : List SVar) + _ + (totalSize t.vars + 4 * (kept e).length + totalSize t.alt + m0.length + a0.length) ≤ lim
  unfold Tracker.held at hl
  have : totalSize ([] : List SVar) = 0 := rfl
  omega

/-! ### Managers -/

theorem pushInputs_fits (hT : T.Ok cfg) (hT' : T.Thrifty) :
    ∀ {l : List (Variable × List Nat)} {t : Tracker} {vg : Variable → Option SVar} {σ : Nat → List Elem},
    TInv cfg start m0 a0 t (some σ) → (l.map Prod.fst).Nodup → (∀ p ∈ l, p.2.length ≤ 4) → t.Fits cfg lim start →
    t.held m0 a0 + (l.map fun p => p.2.length).sum + 4 ≤ lim → (InputManager.pushInputs T l (t, vg)).1.Fits cfg lim start ∧
      (InputManager.pushInputs T l (t, vg)).1.held m0 a0 = t.held m0 a0 + (l.map fun p => p.2.length).sum := by
  intro l
  induction l with
  | nil => intro t vg σ _ _ _ hf _; exact ⟨hf, rfl⟩
  | cons p l ih =>
    intro t vg σ h hn hl hf hlim
    rw [List.map_cons, List.nodup_cons] at hn
    rw [List.map_cons, List.sum_cons] at hlim
    have hl' : ∀ p ∈ l, p.2.length ≤ 4 := fun p hp => hl p (List.mem_cons_of_mem _ hp)
    obtain ⟨f1, f2⟩ := ih (vg := vg) h hn.2 hl' hf (by omega)
    obtain ⟨t', vg', σ', vs, e1, h', -⟩ := pushInputs_inv (vg := vg) hT h hn.2 hl'
    have e2 : InputManager.pushInputs T (p :: l) (t, vg) = ((t'.bignumber T p.2).2, fun w => if w = p.1 then
      some (t'.bignumber T p.2).1 else vg' w) := by simp [InputManager.pushInputs, e1]
    rw [e1] at f1 f2
    rw [e2]
    refine ⟨?_, ?_⟩
    · refine h'.fits_step f1 (hT'.push p.2 (hl p (List.mem_cons_self ..))) (fun σ _ => ⟨Nat.zero_le _, ?_⟩) rfl
      rw [f2]
      omega
    · simp only [Tracker.held, Tracker.bignumber, totalSize, List.map_cons, List.sum_cons] at f2 ⊢
      omega

/-- Stack elements that the script of a manager needs at most, when the scripts of the field library need `R` beside
their operands: the inputs, four for each node used more than once, and those of the expression. -/
def InputManager.room (K : Variable → Kind) (R : Nat) (m : InputManager) (e : Expr) : Nat :=
  (m.inputs.map fun p => p.2.length).sum + 4 * (kept e).length + need (width (kinds K)) (fun s => s.opc.room R) e

theorem need_ge (wt rm : Expr → Nat) (e : Expr) : 8 ≤ need wt rm e := by
  rw [need_eq]
  omega

section

variable {P : Expr → Prop} {n : Nat} {m : InputManager}

/-- **C91** (managers): if the elements of the witness and those that the manager needs are at most 1000 together, the script
of the manager behaves under the limit as without it. -/
theorem C91_manager (hL : L.Ok cfg) (hT : T.Ok cfg) (hS : L.Slim R) (hT' : T.Thrifty) (hg : Good K n P) (he : P e)
    (hm : m.Agrees K env) (hp : m.Provides P) (hmu : MultiOk e) {p : List Op} (hs : m.script L T e = some p) (w : List Elem)
    (hl : w.length + m.room K R e ≤ 1000) : runWitness cfg p w = run cfg p ⟨w, [], []⟩ := by
  obtain ⟨t, vg, σ, e1, ht, halt, hin, hall, hinj⟩ := simulateInput_inv hT hm w []
  have hvg : ∀ s s' v v', P s → P s' → Reads s v → Reads s' v' → vg v = vg v' → v = v' := by
    intro s s' v v' hs hs' h1 h2 h3
    obtain ⟨p, hp1, rfl⟩ := List.mem_map.mp (hp s v hs h1)
    obtain ⟨q, hq1, rfl⟩ := List.mem_map.mp (hp s' v' hs' h2)
    exact hinj p hp1 q hq1 h3
  have hat : InputsAt vg K env σ t.vars e := by
    intro s v hs hv
    obtain ⟨p, hp1, rfl⟩ := List.mem_map.mp (hp s v (hg.sub hs he) hv)
    exact ⟨hm.kinds p hp1 ▸ constVal_has (hm.vals p hp1), hin p hp1⟩
  have h8 := need_ge (width (kinds K)) (fun s => s.opc.room R) e
  unfold InputManager.room at hl
  have hsum : (m.inputs.map fun p => p.2.length).sum =
      (m.inputHint.map fun p => p.2.length).sum + (m.inputVar.map fun p => p.2.length).sum := by
    simp [InputManager.inputs]
  have hlen : ∀ p ∈ m.inputs, p.2.length ≤ 4 := fun p hp => constVal_len (hm.vals p hp)
  have hnd := hm.nodup
  rw [InputManager.inputs, List.map_append, List.nodup_append] at hnd
  have hstart : (Tracker.new).Fits cfg stackLimit ⟨w, [], []⟩ := rfl
  have hheld : (Tracker.new).held w [] = w.length := by simp [Tracker.held, Tracker.new, totalSize]
  obtain ⟨f1, f2⟩ := pushInputs_fits (vg := fun _ => none) hT hT' (tInv_new cfg w []) hnd.2.1
    (fun p hp => hlen p (List.mem_append_right _ hp)) hstart (by rw [hheld, stackLimit]; omega)
  obtain ⟨t1, vg1, σ1, vs1, e2, h1, -⟩ := pushInputs_inv (vg := fun _ => none) hT (tInv_new cfg w []) hnd.2.1
    fun p hp => hlen p (List.mem_append_right _ hp)
  rw [e2] at f1 f2
  obtain ⟨f3, f4⟩ := pushInputs_fits (vg := vg1) hT hT' h1 hnd.1
    (fun p hp => hlen p (List.mem_append_left _ hp)) f1 (by rw [f2, hheld, stackLimit]; omega)
  have e3 : InputManager.pushInputs T m.inputHint (t1, vg1) = (t, vg) := by
    rw [← e1, InputManager.simulateInput, e2]
  rw [e3] at f3 f4
  simp only [InputManager.script, e1, Option.bind_eq_bind, Option.bind_eq_some_iff] at hs
  obtain ⟨⟨vs, t'⟩, hc, hs⟩ := hs
  cases hs
  have := compile_fits hL hT hT' hS (hg.wellTyped he) (hg.shared he) (hg.movesOnce he hvg) hmu ht hat f3
    (by rw [f4, f2, hheld, stackLimit]; omega) hc
  unfold runWitness
  rw [if_pos (by rw [stackLimit]; omega)]
  exact this

/-- `run` of a manager with the limit on the stacks. -/
def InputManager.runLimited (cfg : Cfg) (L : U31Lib) (T : TrackerLib) (m : InputManager) : Option Unit :=
  match m.exec with
  | none => some ()
  | some e => do
    let p ← m.script L T e
    if acceptsL cfg p [] then some () else none

theorem runLimited_eq (hL : L.Ok cfg) (hT : T.Ok cfg) (hS : L.Slim R) (hT' : T.Thrifty) (hg : Good K n P) (he : P e)
    (hm : m.Agrees K env) (hp : m.Provides P) (hmu : MultiOk e) (hx : m.exec = some e) (hl : m.room K R e ≤ 1000) :
    m.runLimited cfg L T = m.run cfg L T := by
  simp only [InputManager.runLimited, InputManager.run, hx, Option.bind_eq_bind]
  cases hs : m.script L T e with
  | none => rfl
  | some p =>
    have := C91_manager hL hT hS hT' hg he hm hp hmu hs [] (by simpa using hl)
    simp only [Option.bind_some, acceptsL, accepts, this]
    rfl

end

end TapStark
