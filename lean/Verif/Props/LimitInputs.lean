import Verif.Props.LimitLeaf
import Verif.Props.TraceScript

/-
C90: generated scripts whose inputs alone exceed the limit of 1000 stack elements.
-/

namespace TapStark

/-! ### The script only grows -/

/-- The script of the second tracker continues that of the first. -/
def Tracker.Grows (t t' : Tracker) : Prop := ∃ q, t'.script = t.script ++ q

theorem Tracker.Grows.refl (t : Tracker) : t.Grows t := ⟨[], by simp⟩

theorem Tracker.Grows.trans {a b c : Tracker} (h : a.Grows b) (h' : b.Grows c) : a.Grows c := by
  obtain ⟨p, hp⟩ := h
  obtain ⟨q, hq⟩ := h'
  exact ⟨p ++ q, by rw [hq, hp, List.append_assoc]⟩

theorem Tracker.copyVar_grows {T : TrackerLib} {v x : SVar} {t t' : Tracker} (h : t.copyVar T v = some (x, t')) :
    t.Grows t' := by
  simp only [Tracker.copyVar, Option.bind_eq_bind, Option.bind_eq_some_iff] at h
  obtain ⟨r, -, h⟩ := h
  cases h
  exact ⟨_, rfl⟩

theorem Tracker.moveVar_grows {T : TrackerLib} {v x : SVar} {t t' : Tracker} (h : t.moveVar T v = some (x, t')) :
    t.Grows t' := by
  simp only [Tracker.moveVar, Option.bind_eq_bind, Option.bind_eq_some_iff] at h
  obtain ⟨r, -, h⟩ := h
  cases h
  exact ⟨_, rfl⟩

theorem Tracker.toAltstack_grows {T : TrackerLib} {x : SVar} {t t' : Tracker} (h : t.toAltstack T = some (x, t')) :
    t.Grows t' := by
  unfold Tracker.toAltstack at h
  split at h
  · cases h
  · cases h
    exact ⟨_, rfl⟩

theorem Tracker.copyVarFromAlt_grows {T : TrackerLib} {v x : SVar} {t t' : Tracker}
    (h : t.copyVarFromAlt T v = some (x, t')) : t.Grows t' := by
  simp only [Tracker.copyVarFromAlt, Option.bind_eq_bind, Option.bind_eq_some_iff] at h
  obtain ⟨r, -, h⟩ := h
  cases h
  exact ⟨_, rfl⟩

theorem Tracker.moveVarFromAlt_grows {T : TrackerLib} {v x : SVar} {t t' : Tracker}
    (h : t.moveVarFromAlt T v = some (x, t')) : t.Grows t' := by
  simp only [Tracker.moveVarFromAlt, Option.bind_eq_bind, Option.bind_eq_some_iff] at h
  obtain ⟨r, -, h⟩ := h
  cases h
  exact ⟨_, rfl⟩

theorem Tracker.pushAll_grows (T : TrackerLib) : ∀ (es : List (List Nat)) (t : Tracker), t.Grows (t.pushAll T es).2 := by
  intro es
  induction es with
  | nil => intro t; exact .refl t
  | cons e es ih =>
    intro t
    exact (ih t).trans ⟨_, rfl⟩

theorem generate_grows {T : TrackerLib} {vg : Variable → Option SVar} {out : Option Nat} {em : Opc.Emit} {t t' : Tracker}
    {vs : List SVar} (h : generate T vg out em t = some (vs, t')) : t.Grows t' := by
  cases em with
  | custom p c n s =>
    simp only [generate, Option.bind_eq_bind, Option.bind_eq_some_iff] at h
    obtain ⟨r, hr, h⟩ := h
    split at h
    · cases h
      simp only [Tracker.custom] at hr
      split at hr
      · cases hr
      · cases hr
        exact ⟨_, rfl⟩
    · cases h
  | copyVar v =>
    simp only [generate, Option.bind_eq_bind, Option.bind_eq_some_iff] at h
    obtain ⟨sv, -, x, hx, r, hr, h⟩ := h
    cases hr
    split at h
    · cases h
      exact Tracker.copyVar_grows hx
    · cases h
  | moveVar v =>
    simp only [generate, Option.bind_eq_bind, Option.bind_eq_some_iff] at h
    obtain ⟨sv, -, x, hx, r, hr, h⟩ := h
    cases hr
    split at h
    · cases h
      exact Tracker.moveVar_grows hx
    · cases h
  | pushAll es =>
    simp only [generate, Option.bind_eq_bind, Option.bind_eq_some_iff] at h
    obtain ⟨r, hr, h⟩ := h
    cases hr
    split at h
    · have := Tracker.pushAll_grows T es t
      simp only [Option.some.injEq] at h
      rw [h] at this
      exact this
    · cases h

theorem keepCopy_grows {T : TrackerLib} {N : Nat → Nat} {opt : Bool} {id : Nat} {out : Option Nat} {vs ws : List SVar}
    {c c' : CState} (h : keepCopy T N opt id out vs c = some (ws, c')) : c.t.Grows c'.t := by
  unfold keepCopy at h
  split at h
  · split at h
    · cases h
    · simp only [Option.bind_eq_bind, Option.bind_eq_some_iff] at h
      obtain ⟨x, hx, y, hy, h⟩ := h
      cases h
      exact (Tracker.copyVar_grows hx).trans (Tracker.toAltstack_grows hy)
  · cases h
    exact .refl _

section

variable {L : U31Lib} {T : TrackerLib} {vg : Variable → Option SVar} {N : Nat → Nat} {opt : Bool}

mutual

theorem express_grows : ∀ (e : Expr) {c c' : CState} {vs : List SVar}, express L T vg N opt e c = some (vs, c') →
    c.t.Grows c'.t
  | .node id opc size args, c, c', vs, h => by
    rw [express] at h
    split at h
    · cases h
    · split at h
      · simp only [Option.bind_eq_bind, Option.bind_eq_some_iff] at h
        obtain ⟨sv, -, h⟩ := h
        split at h
        · simp only [Option.bind_eq_some_iff] at h
          obtain ⟨x, hx, h⟩ := h
          cases h
          exact Tracker.moveVarFromAlt_grows hx
        · simp only [Option.bind_eq_some_iff] at h
          obtain ⟨x, hx, h⟩ := h
          cases h
          exact Tracker.copyVarFromAlt_grows hx
      · split at h
        · cases h
        · simp only [Option.bind_eq_bind, Option.bind_eq_some_iff] at h
          obtain ⟨⟨sizes, c1⟩, h1, em, h2, ⟨ws, t⟩, h3, h4⟩ := h
          exact ((expressArgs_grows args h1).trans (generate_grows h3)).trans (keepCopy_grows h4)

theorem expressArgs_grows : ∀ (es : List Expr) {c c' : CState} {ss : List Nat},
    expressArgs L T vg N opt es c = some (ss, c') → c.t.Grows c'.t
  | [], c, c', ss, h => by cases h; exact .refl _
  | e :: es, c, c', ss, h => by
    rw [expressArgs] at h
    simp only [Option.bind_eq_bind, Option.bind_eq_some_iff] at h
    obtain ⟨⟨vs, c1⟩, h1, s, -, ⟨ss', c2⟩, h3, h4⟩ := h
    cases h4
    exact (express_grows e h1).trans (expressArgs_grows es h3)

end

theorem compile_grows {e : Expr} {t t' : Tracker} {vs : List SVar} (h : compile L T vg opt e t = some (vs, t')) :
    t.Grows t' := by
  simp only [compile, Option.bind_eq_bind, Option.bind_eq_some_iff] at h
  obtain ⟨⟨ws, c⟩, h1, h2⟩ := h
  cases h2
  exact express_grows e h1

end

/-! ### Scripts of managers -/

theorem pushInputs_sizes (T : TrackerLib) : ∀ (l : List (Variable × List Nat)) (s : Tracker × (Variable → Option SVar)),
    (InputManager.pushInputs T l s).1.vars.map SVar.size = l.map (fun p => p.2.length) ++ s.1.vars.map SVar.size := by
  intro l
  induction l with
  | nil => intro s; rfl
  | cons p l ih =>
    intro s
    simp only [InputManager.pushInputs, Tracker.bignumber, List.map_cons, ih, List.cons_append]

theorem stackOf_length {σ : Nat → List Elem} : ∀ {vs : List SVar}, (∀ v ∈ vs, (σ v.id).length = v.size) →
    (stackOf σ vs).length = (vs.map SVar.size).sum := by
  intro vs
  induction vs with
  | nil => intro _; rfl
  | cons v vs ih =>
    intro h
    have := ih (fun w hw => h w (by simp [hw]))
    rw [stackOf, List.flatMap_cons, List.length_append, List.map_cons, List.sum_cons, h v (by simp)]
    rw [stackOf] at this
    omega

theorem TInv.limit {cfg : Cfg} {start : St} {m0 a0 : List Elem} {t : Tracker} {σ : Nat → List Elem} {lim : Nat}
    (h : TInv cfg start m0 a0 t (some σ)) (hs : start.size ≤ lim) (ht : lim < (t.vars.map SVar.size).sum) (q : List Op) :
    runL cfg lim (t.script ++ q) start = none := by
  refine runL_prefix hs h.run ?_
  have := stackOf_length (σ := σ) (vs := t.vars) fun v hv => h.sized σ rfl v (by simp [hv])
  simp only [St.size, List.length_append, this]
  omega

variable {cfg : Cfg} {L : U31Lib} {T : TrackerLib} {K : Variable → Kind} {env : Variable → Val}

/-- **C90** (managers): a manager whose inputs and hints have more than 1000 words in all generates no script that can be
run under the limit, whatever it computes. -/
theorem C90_inputs (hT : T.Ok cfg) {m : InputManager} (hm : m.Agrees K env) (e : Expr) {p : List Op}
    (hp : m.script L T e = some p) (hbig : 1000 < (m.inputs.map fun v => v.2.length).sum) (w : List Elem) :
    runWitness cfg p w = none := by
  obtain ⟨t, vg, σ, e1, h1, -⟩ := simulateInput_inv hT hm w []
  simp only [InputManager.script, e1, Option.bind_eq_bind, Option.bind_eq_some_iff] at hp
  obtain ⟨⟨vs, t'⟩, hc, hp⟩ := hp
  cases hp
  obtain ⟨q, hq⟩ := compile_grows hc
  unfold runWitness
  split
  · rename_i hw
    rw [hq]
    refine h1.limit (by simpa [St.size] using hw) ?_ q
    have s1 := pushInputs_sizes T m.inputHint (InputManager.pushInputs T m.inputVar (Tracker.new, fun _ => none))
    rw [pushInputs_sizes T m.inputVar] at s1
    have e2 : InputManager.pushInputs T m.inputHint (InputManager.pushInputs T m.inputVar (Tracker.new, fun _ => none)) =
        (t, vg) := e1
    rw [e2] at s1
    simp only [Tracker.new, List.map_nil, List.append_nil] at s1
    simp only [InputManager.inputs, List.map_append] at hbig
    rw [s1, stackLimit]
    exact hbig
  · rfl

/-! ### The script of the folded constraints -/

namespace Stark

open TapStark.Fri TapStark.Pcs

variable {D : Nat → List Op}

theorem dropVariables_grows {vg : Variable → Option SVar} : ∀ {l : List Variable} {t t' : Tracker},
    dropVariables D vg l t = some t' → ∃ q, t'.script = t.script ++ q := by
  intro l
  induction l with
  | nil => intro t t' h; cases h; exact ⟨[], by simp⟩
  | cons v l ih =>
    intro t t' h
    simp only [dropVariables, Option.bind_eq_bind, Option.bind_eq_some_iff] at h
    obtain ⟨sv, -, h⟩ := h
    split at h
    · cases h
    · split at h
      · obtain ⟨q, hq⟩ := ih h
        exact ⟨D sv.size ++ q, by rw [hq, List.append_assoc]⟩
      · cases h

theorem foldScript_limit {vars : List (Variable × List Nat)} (hnd : (vars.map Prod.fst).Nodup)
    (hlen : ∀ p ∈ vars, p.2.length ≤ 4) (hbig : 1000 < (vars.map fun v => v.2.length).sum) {alpha : Expr} {cs : List Expr}
    {claimed : BB4} {n : Nat} {p : List Op} (hp : foldScript L T D vars alpha cs claimed n = some p) (w : List Elem) :
    runWitness cfg p w = none := by
  simp only [foldScript, setVariables_eq, Option.bind_eq_bind, Option.bind_eq_some_iff] at hp
  obtain ⟨t, vg, σ, ws, e1, ht, -⟩ := pushInputs_inv (l := vars.reverse) (vg := fun _ => none) (refTracker_ok cfg)
    (tInv_new cfg w []) (by rw [List.map_reverse, List.nodup_reverse]; exact hnd) fun p hp => hlen p (List.mem_reverse.mp hp)
  have hs := pushInputs_sizes refTracker vars.reverse (Tracker.new, fun _ => none)
  rw [e1] at hp hs
  obtain ⟨⟨acc, n1⟩, -, ⟨us, t1⟩, hc, t2, hd, hp⟩ := hp
  cases hp
  obtain ⟨q1, h1⟩ := compile_grows hc
  obtain ⟨q2, h2⟩ := dropVariables_grows hd
  unfold runWitness
  split
  · rename_i hw
    rw [h2, h1, List.append_assoc, List.append_assoc]
    refine ht.limit (by simpa [St.size] using hw) ?_ _
    rw [hs]
    simpa [Tracker.new, stackLimit] using hbig
  · rfl

theorem sum_four {α : Type} : ∀ (l : List (α × List Nat)), (∀ p ∈ l, p.2.length = 4) →
    (l.map fun v => v.2.length).sum = 4 * l.length := by
  intro l
  induction l with
  | nil => intro _; rfl
  | cons p l ih =>
    intro h
    rw [List.map_cons, List.sum_cons, ih fun q hq => h q (by simp [hq]), h p (by simp), List.length_cons]
    omega

/-- **C90** (folded constraints): with more than 250 opened values and public values together, that is more than 1000 words,
no generated script of the folded constraints can be run under the limit. -/
theorem C90_trace {air : Air BB} {zeta alpha : BB4} {k : Nat} {loc nxt : List BB4} {pub : List BB} {claimed : BB4} {n : Nat}
    {p : List Op} (hp : traceScript L T D air zeta alpha k loc nxt pub claimed n = some p)
    (hbig : 250 < pub.length + 2 * loc.length) (w : List Elem) : runWitness cfg p w = none := by
  simp only [traceScript, Option.bind_eq_bind, Option.bind_eq_some_iff] at hp
  obtain ⟨⟨sels, n1⟩, -, hp⟩ := hp
  split at hp
  · cases hp
  · rename_i hlt
    simp only [Option.bind_eq_some_iff] at hp
    obtain ⟨⟨cs, n2⟩, -, hp⟩ := hp
    have h4 : ∀ q ∈ traceVars loc nxt pub, q.2.length = 4 := by
      intro q hq
      obtain ⟨-, x, hx⟩ := traceVars_rows hq
      rw [hx]
      exact bb4Field_ok.length x
    refine foldScript_limit (traceVars_nodup loc nxt pub) (fun q hq => (h4 q hq).le) ?_ hp w
    rw [sum_four _ h4]
    simp only [traceVars, List.length_append, List.length_map, List.length_zipIdx, List.length_take]
    omega

/-- **C90** violated: an AIR with at least 126 columns and a true claim.  The script can be generated and accepts when
executed without the limit, and no witness makes it accept under the limit. -/
theorem C90_violated_trace (hL : L.Ok cfg) (hT : T.Ok cfg) (hD : ∀ x : List Elem, x.length ≤ 4 → Does cfg (D x.length) x [])
    (air : Air BB) {zeta alpha : BB4} {k : Nat} {loc nxt : List BB4} {pub : List BB} (hair : air.InRange pub.length)
    (hne : air.asserts ≠ []) (hloc : loc.length = air.width) (hnxt : nxt.length = air.width) (hk : k ≤ 27)
    (h1 : zeta ≠ 1) (h2 : zeta ≠ algebraMap BB BB4 (bbGen k)⁻¹) (n : Nat) (hw : 126 ≤ air.width) :
    ∃ p, traceScript L T D air zeta alpha k loc nxt pub (combine alpha (air.asserts.map fun a =>
        a.residue (algebraMap BB BB4) (pointMeaning (bbGen k) k zeta loc nxt pub))) n = some p ∧
      accepts cfg p [] = true ∧ ∀ w, acceptsL cfg p w = false := by
  obtain ⟨p, e, hp⟩ := C80_exact hL hT hD air (alpha := alpha) hair hne hloc hnxt hk h1 h2 _ n
  refine ⟨p, e, hp.mpr rfl, fun w => ?_⟩
  rw [acceptsL, C90_trace e (by omega) w]

/-- The hypotheses hold for an AIR of 126 columns asserting that the first row is zero. -/
theorem C90_instance (cfg : Cfg) : ∃ p, traceScript (repoLib 2013265921) refTracker (fun n => List.replicate n Op.drop)
    ⟨126, [.zero (.mul .isFirstRow (.loc 125))]⟩ 0 7 3 (List.replicate 126 (0 : BB4)) (List.replicate 126 0) []
      (combine 7 ([Assertion.zero (.mul .isFirstRow (.loc 125))].map fun a => a.residue (algebraMap BB BB4)
        (pointMeaning (bbGen 3) 3 0 (List.replicate 126 (0 : BB4)) (List.replicate 126 0) []))) 0 = some p ∧
      accepts cfg p [] = true ∧ ∀ w, acceptsL cfg p w = false := by
  obtain ⟨-, -, -, ⟨h1, h2⟩, hL, hT, hD⟩ := C80_instance (cfg := cfg)
  refine C90_violated_trace hL hT hD ⟨126, _⟩ ?_ (by simp) (by simp) (by simp) (by decide) h1 h2 0 (Nat.le_refl _)
  intro a ha
  simp only [List.mem_cons, List.not_mem_nil, or_false] at ha
  subst ha
  simp [Assertion.InRange, AExpr.InRange]

end Stark

/-- A manager with 251 inputs of four words meets the hypotheses of `C90_inputs`. -/
theorem C90_inputs_instance : ∃ (K : Variable → Kind) (env : Variable → Val) (m : InputManager), m.Agrees K env ∧
    1000 < (m.inputs.map fun v => v.2.length).sum := by
  obtain ⟨K, env, h⟩ := exists_agrees (m := ⟨0, (List.range 251).map fun i => (⟨0, i, none⟩, [1, 2, 3, 4]), [], none, []⟩)
    (by
      simp only [InputManager.inputs, List.nil_append, List.map_map]
      exact List.nodup_range.map fun i j h => by simpa using h)
    (by
      intro p hp
      simp only [InputManager.inputs, List.nil_append, List.mem_map] at hp
      obtain ⟨i, -, rfl⟩ := hp
      rfl)
  refine ⟨K, env, _, h, ?_⟩
  decide +kernel

end TapStark
