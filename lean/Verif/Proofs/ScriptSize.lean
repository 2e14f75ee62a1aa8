import Verif.Model.ScriptChallenges

/-
How long generated scripts are at least: a node with several outputs is compiled again at every use.
-/

namespace TapStark

/-! ### Identifiers and hashes of an expression -/

mutual

/-- The identifiers of all nodes of the tree, with multiplicity. -/
def Expr.ids : Expr → List Nat
  | .node id _ _ args => id :: idsList args

def idsList : List Expr → List Nat
  | [] => []
  | e :: es => e.ids ++ idsList es

end

/-- One for a hash. -/
def Opc.hash : Opc → Nat
  | .blake3 => 1
  | _ => 0

mutual

/-- The hashes compiled for an expression at least, when nodes with one output visited more than once count
nothing. -/
def Expr.work (N : Nat → Nat) : Expr → Nat
  | .node id opc _ args => if opc.outNum = some 1 ∧ 1 < N id then 0 else opc.hash + workList N args

def workList (N : Nat → Nat) : List Expr → Nat
  | [] => 0
  | e :: es => e.work N + workList N es

end

/-! ### Visits -/

mutual

theorem simulate_le : ∀ (e : Expr) (cm : Nat → Nat) (i : Nat), simulate e cm i ≤ cm i + e.ids.count i
  | .node id _ _ args, cm, i => by
    rw [simulate, Expr.ids, List.count_cons]
    split
    · by_cases h : i = id
      · subst h; simp [upd]
      · simp [upd, h]
    · refine (simulateArgs_le args _ i).trans ?_
      by_cases h : i = id
      · subst h; simp [upd]; omega
      · simp [upd, h]

theorem simulateArgs_le : ∀ (es : List Expr) (cm : Nat → Nat) (i : Nat),
    simulateArgs es cm i ≤ cm i + (idsList es).count i
  | [], cm, i => by simp [simulateArgs]
  | e :: es, cm, i => by
    rw [simulateArgs, idsList, List.count_append]
    have h1 := simulateArgs_le es (simulate e cm) i
    have h2 := simulate_le e cm i
    omega

end

/-! ### Length of the compiled script -/

theorem pushAll_length (T : TrackerLib) : ∀ (es : List (List Nat)) (t : Tracker),
    t.script.length ≤ (t.pushAll T es).2.script.length
  | [], _ => le_refl _
  | v :: vs, t => by
    have := pushAll_length T vs t
    simp only [Tracker.pushAll, Tracker.bignumber, List.length_append]
    omega

theorem custom_length {p : List Op} {c o s : Nat} {t t' : Tracker} {vs : List SVar}
    (h : t.custom p c o s = some (vs, t')) : t'.script.length = t.script.length + p.length := by
  unfold Tracker.custom at h
  split at h
  · cases h
  · cases h; simp

theorem copyVar_length {T : TrackerLib} {v : SVar} {t t' : Tracker} {x : SVar} (h : t.copyVar T v = some (x, t')) :
    t.script.length ≤ t'.script.length := by
  unfold Tracker.copyVar at h
  simp only [Option.bind_eq_bind, Option.bind_eq_some_iff] at h
  obtain ⟨_, _, h⟩ := h
  cases h; simp

theorem moveVar_length {T : TrackerLib} {v : SVar} {t t' : Tracker} {x : SVar} (h : t.moveVar T v = some (x, t')) :
    t.script.length ≤ t'.script.length := by
  unfold Tracker.moveVar at h
  simp only [Option.bind_eq_bind, Option.bind_eq_some_iff] at h
  obtain ⟨_, _, h⟩ := h
  cases h; simp

theorem toAltstack_length {T : TrackerLib} {t t' : Tracker} {x : SVar} (h : t.toAltstack T = some (x, t')) :
    t.script.length ≤ t'.script.length := by
  unfold Tracker.toAltstack at h
  split at h
  · cases h
  · cases h; simp

theorem copyVarFromAlt_length {T : TrackerLib} {v : SVar} {t t' : Tracker} {x : SVar}
    (h : t.copyVarFromAlt T v = some (x, t')) : t.script.length ≤ t'.script.length := by
  unfold Tracker.copyVarFromAlt at h
  simp only [Option.bind_eq_bind, Option.bind_eq_some_iff] at h
  obtain ⟨_, _, h⟩ := h
  cases h; simp

theorem moveVarFromAlt_length {T : TrackerLib} {v : SVar} {t t' : Tracker} {x : SVar}
    (h : t.moveVarFromAlt T v = some (x, t')) : t.script.length ≤ t'.script.length := by
  unfold Tracker.moveVarFromAlt at h
  simp only [Option.bind_eq_bind, Option.bind_eq_some_iff] at h
  obtain ⟨_, _, h⟩ := h
  cases h; simp

/-- Length of what a generator emits at least. -/
def Opc.Emit.len : Opc.Emit → Nat
  | .custom p _ _ _ => p.length
  | _ => 0

theorem generate_length {T : TrackerLib} {vg : Variable → Option SVar} {out : Option Nat} {em : Opc.Emit}
    {t t' : Tracker} {vs : List SVar} (h : generate T vg out em t = some (vs, t')) :
    t.script.length + em.len ≤ t'.script.length := by
  unfold generate at h
  have fin : ∀ {r : List SVar × Tracker}, (if out = none ∨ out = some r.1.length then some r else none) = some (vs, t') →
      r = (vs, t') := by
    intro r h
    split at h
    · exact Option.some.inj h
    · cases h
  cases em with
  | custom p c n s =>
    obtain ⟨r, hr, h⟩ := Option.bind_eq_some_iff.1 h
    cases fin h
    exact (custom_length hr).ge
  | copyVar v =>
    obtain ⟨sv, _, h⟩ := Option.bind_eq_some_iff.1 h
    obtain ⟨⟨x, t1⟩, h1, h⟩ := Option.bind_eq_some_iff.1 h
    cases fin h
    exact copyVar_length h1
  | moveVar v =>
    obtain ⟨sv, _, h⟩ := Option.bind_eq_some_iff.1 h
    obtain ⟨⟨x, t1⟩, h1, h⟩ := Option.bind_eq_some_iff.1 h
    cases fin h
    exact moveVar_length h1
  | pushAll es =>
    obtain ⟨r, hr, h⟩ := Option.bind_eq_some_iff.1 h
    have h := fin h
    have hr := Option.some.inj hr
    rw [h] at hr
    have := pushAll_length T es t
    rw [hr] at this
    exact this

theorem keepCopy_length {T : TrackerLib} {N : Nat → Nat} {o : Bool} {id : Nat} {out : Option Nat} {vs vs' : List SVar}
    {c c' : CState} (h : keepCopy T N o id out vs c = some (vs', c')) : c.t.script.length ≤ c'.t.script.length := by
  unfold keepCopy at h
  split at h
  · split at h
    · cases h
    · simp only [Option.bind_eq_bind, Option.bind_eq_some_iff] at h
      obtain ⟨⟨x, t1⟩, h1, ⟨y, t2⟩, h2, h3⟩ := h
      cases h3
      exact (copyVar_length h1).trans (toAltstack_length h2)
  · cases h; exact le_refl _

/-- The script of a hash is at least this long. -/
theorem blake3Script_length : (blake3Script.map List.length) = some 89000 := by decide +kernel

theorem emit_length {L : U31Lib} {opc : Opc} {sizes : List Nat} {em : Opc.Emit} (h : opc.emit L sizes = some em) :
    89000 * opc.hash ≤ em.len := by
  cases opc with
  | blake3 =>
    have hl := blake3Script_length
    simp only [Opc.emit] at h
    split at h
    · simp only [Option.bind_eq_bind, Option.bind_eq_some_iff, Opc.blake3Perm] at h
      obtain ⟨p, ⟨q, h1, h2⟩, h3⟩ := h
      rw [h1] at hl
      simp only [Option.map_some, Option.some.injEq] at hl
      cases h2
      cases h3
      simp only [Opc.hash, Opc.Emit.len, List.length_append]
      omega
    · cases h
  | _ => simp [Opc.hash]

mutual

/-- A compiled expression has at least as many opcodes as its hashes. -/
theorem express_length {L : U31Lib} {T : TrackerLib} {vg : Variable → Option SVar} {N : Nat → Nat} {o : Bool} :
    ∀ (e : Expr) {c c' : CState} {vs : List SVar}, express L T vg N o e c = some (vs, c') →
      c.t.script.length + 89000 * e.work N ≤ c'.t.script.length
  | .node id opc sz args, c, c', vs, h => by
    unfold express at h
    rw [Expr.work]
    split at h
    · cases h
    split at h
    · rename_i hc
      rw [if_pos ⟨hc.2.1, hc.2.2.1⟩]
      simp only [Option.bind_eq_bind, Option.bind_eq_some_iff] at h
      obtain ⟨sv, _, h⟩ := h
      split at h
      · simp only [Option.bind_eq_some_iff] at h
        obtain ⟨⟨x, t⟩, h1, h2⟩ := h
        cases h2
        exact moveVarFromAlt_length h1
      · simp only [Option.bind_eq_some_iff] at h
        obtain ⟨⟨x, t⟩, h1, h2⟩ := h
        cases h2
        exact copyVarFromAlt_length h1
    split at h
    · cases h
    · simp only [Option.bind_eq_bind, Option.bind_eq_some_iff] at h
      obtain ⟨⟨sizes, c1⟩, h1, em, h2, ⟨vs1, t1⟩, h3, h4⟩ := h
      have e1 := expressArgs_length args h1
      have e2 := emit_length h2
      have e3 := generate_length h3
      have e4 := keepCopy_length h4
      simp only at e3 e4
      split
      · omega
      · rw [Nat.mul_add]; omega

theorem expressArgs_length {L : U31Lib} {T : TrackerLib} {vg : Variable → Option SVar} {N : Nat → Nat} {o : Bool} :
    ∀ (es : List Expr) {c c' : CState} {ss : List Nat}, expressArgs L T vg N o es c = some (ss, c') →
      c.t.script.length + 89000 * workList N es ≤ c'.t.script.length
  | [], c, c', ss, h => by
    unfold expressArgs at h
    cases h
    simp [workList]
  | e :: es, c, c', ss, h => by
    unfold expressArgs at h
    simp only [Option.bind_eq_bind, Option.bind_eq_some_iff] at h
    obtain ⟨⟨vs, c1⟩, h1, s, _, ⟨ss1, c2⟩, h2, h3⟩ := h
    cases h3
    have e1 := express_length e h1
    have e2 := expressArgs_length es h2
    simp only at e1 e2 ⊢
    rw [workList, Nat.mul_add]
    omega

end

/-- The script of a compiled expression, from the visits of its nodes. -/
theorem compile_length {L : U31Lib} {T : TrackerLib} {vg : Variable → Option SVar} {o : Bool} {e : Expr} {t t' : Tracker}
    {vs : List SVar} (h : compile L T vg o e t = some (vs, t')) :
    89000 * e.work (simulate e fun _ => 0) ≤ t'.script.length := by
  unfold compile at h
  simp only [Option.bind_eq_bind, Option.bind_eq_some_iff] at h
  obtain ⟨⟨vs1, c⟩, h1, h2⟩ := h
  cases h2
  have := express_length e h1
  simp only at this ⊢
  omega

end TapStark
