import Verif.Model.RunDsl
import Verif.Props.Program

/-!
C97: `run_dsl`, `assert_dsl` and `debug_assert_dsl`.
-/

namespace TapStark

variable {cfg : Cfg} {L : U31Lib} {T : TrackerLib}

/-! ### Reading an input that is not there -/

section

variable {vg : Variable → Option SVar} {N : Nat → Nat} {opt : Bool} {E : Expr}

/-- Every input that is read is there. -/
def Found (vg : Variable → Option SVar) (e : Expr) : Prop := ∀ s v, Sub s e → Reads s v → (vg v).isSome

/-- Nodes with a copy on the alt stack have been compiled. -/
def Kept (vg : Variable → Option SVar) (E : Expr) (c : CState) : Prop :=
  ∀ s, Sub s E → (c.svar s.id).isSome → Found vg s

theorem emit_reads {L : U31Lib} {opc : Opc} {v : Variable} (h : opc = .inputMove v ∨ opc = .inputCopy v) {ss : List Nat}
    {em : Opc.Emit} (he : opc.emit L ss = some em) : em = .moveVar v ∨ em = .copyVar v := by
  rcases h with rfl | rfl
  · cases ss with
    | nil => exact .inl (Option.some.inj he).symm
    | cons => cases he
  · cases ss with
    | nil => exact .inr (Option.some.inj he).symm
    | cons => cases he

theorem generate_found {out : Option Nat} {em : Opc.Emit} {t : Tracker} {v : Variable}
    (h : em = .moveVar v ∨ em = .copyVar v) {r : List SVar × Tracker} (hg : generate T vg out em t = some r) :
    (vg v).isSome := by
  cases hv : vg v with
  | some x => rfl
  | none => rcases h with rfl | rfl <;> simp [generate, hv] at hg

theorem keepCopy_kept (hE : Shared E) {id size : Nat} {opc : Opc} {args : List Expr} (he : Sub (.node id opc size args) E)
    (hf : Found vg (.node id opc size args)) {out : Option Nat} {vs : List SVar} {c : CState} (hk : Kept vg E c)
    {r : List SVar × CState} (h : keepCopy T N opt id out vs c = some r) : Kept vg E r.2 := by
  unfold keepCopy at h
  split at h
  · cases vs with
    | nil => cases h
    | cons v vs =>
      simp only [Option.bind_eq_bind, Option.bind_eq_some_iff, Option.some.injEq] at h
      obtain ⟨x, -, y, -, rfl⟩ := h
      intro s hs hsv
      by_cases hid : s.id = id
      · rw [hE s _ hs he hid]; exact hf
      · refine hk s hs ?_
        simpa [upd, hid] using hsv
  · cases h; exact hk

mutual

theorem express_found (hE : Shared E) : ∀ (e : Expr) (c : CState), Sub e E → Kept vg E c →
    ∀ r, express L T vg N opt e c = some r → Found vg e ∧ Kept vg E r.2
  | .node id opc size args, c, he, hk, r, h => by
    rw [express] at h
    split at h
    · cases h
    split at h
    · rename_i hc
      refine ⟨hk _ he hc.2.2.2, ?_⟩
      simp only [Option.bind_eq_bind, Option.bind_eq_some_iff] at h
      obtain ⟨sv, -, h⟩ := h
      split at h
      · simp only [Option.bind_eq_some_iff, Option.some.injEq] at h
        obtain ⟨x, -, rfl⟩ := h
        exact hk
      · simp only [Option.bind_eq_some_iff, Option.some.injEq] at h
        obtain ⟨x, -, rfl⟩ := h
        exact hk
    split at h
    · cases h
    simp only [Option.bind_eq_bind, Option.bind_eq_some_iff] at h
    obtain ⟨⟨ss, c1⟩, h1, em, h2, ⟨vs, t⟩, h3, h4⟩ := h
    obtain ⟨hf, hk1⟩ := expressArgs_found hE args c (fun a ha => (Sub.arg (e := .node id opc size args) ha (.refl a)).trans he) hk _ h1
    have hfe : Found vg (.node id opc size args) := by
      intro s v hs hv
      cases hs with
      | refl => exact generate_found (emit_reads hv h2) h3
      | arg ha hs => exact hf _ ha s v hs hv
    exact ⟨hfe, keepCopy_kept hE he hfe (c := { c1 with t := t }) hk1 h4⟩

theorem expressArgs_found (hE : Shared E) : ∀ (es : List Expr) (c : CState), (∀ e ∈ es, Sub e E) → Kept vg E c →
    ∀ r, expressArgs L T vg N opt es c = some r → (∀ e ∈ es, Found vg e) ∧ Kept vg E r.2
  | [], c, _, hk, r, h => by
    rw [expressArgs] at h
    cases h
    exact ⟨by simp, hk⟩
  | e :: es, c, hs, hk, r, h => by
    rw [expressArgs] at h
    simp only [Option.bind_eq_bind, Option.bind_eq_some_iff, Option.some.injEq] at h
    obtain ⟨⟨vs, c1⟩, h1, s, -, ⟨ss, c2⟩, h2, rfl⟩ := h
    obtain ⟨hf, hk1⟩ := express_found hE e c (hs e (by simp)) hk _ h1
    obtain ⟨hf', hk2⟩ := expressArgs_found hE es c1 (fun a ha => hs a (by simp [ha])) hk1 _ h2
    refine ⟨fun a ha => ?_, hk2⟩
    rcases List.mem_cons.1 ha with rfl | ha
    · exact hf
    · exact hf' a ha

end

/-- Compiling an expression that reads an input that is not there panics. -/
theorem compile_missing {e : Expr} (hsh : Shared e) {s : Expr} {v : Variable} (hs : Sub s e) (hv : Reads s v)
    (hn : vg v = none) {t : Tracker} : compile L T vg opt e t = none := by
  cases h : compile L T vg opt e t with
  | none => rfl
  | some r =>
    unfold compile at h
    simp only [Option.bind_eq_bind, Option.bind_eq_some_iff] at h
    obtain ⟨q, hq, -⟩ := h
    have := (express_found hsh e _ (.refl e) (fun u _ hu => by simp at hu) q hq).1 s v hs hv
    rw [hn] at this
    cases this

end

/-! ### Programs do not copy inputs -/

/-- The expression copies no input. -/
def NoCopy (e : Expr) : Prop := ∀ s v, Sub s e → s.opc ≠ .inputCopy v

theorem NoCopy.mk {id size : Nat} {opc : Opc} {args : List Expr} (ho : ∀ v, opc ≠ .inputCopy v)
    (ha : ∀ a ∈ args, NoCopy a) : NoCopy (.node id opc size args) := by
  intro s v hs
  cases hs with
  | refl => exact ho v
  | arg h hs => exact ha _ h s v hs

namespace Prog

theorem noCopy_bin (o : BinOp) {x y : Expr} (hx : NoCopy x) (hy : NoCopy y) (n : Nat) : NoCopy (binE o x y n).1 := by
  cases o <;> exact NoCopy.mk (by simp) (by simp [hx, hy])

theorem noCopy_const (v : List Nat) (n : Nat) : NoCopy (Dsl.constant v n).1 := NoCopy.mk (by simp) (by simp)

theorem noCopy_reduce (o : BinOp) : ∀ (es : List Expr) (x : Expr) (n : Nat), NoCopy x → (∀ e ∈ es, NoCopy e) →
    NoCopy (reduceE o x es n).1
  | [], x, n, hx, _ => hx
  | y :: ys, x, n, hx, h => by
    rw [reduceE]
    exact noCopy_reduce o ys _ _ (noCopy_bin o hx (h y (by simp)) n) fun e he => h e (by simp [he])

theorem noCopy_fold (o : BinOp) (v : List Nat) (es : List Expr) (n : Nat) (h : ∀ e ∈ es, NoCopy e) :
    NoCopy (foldE o v es n).1 := by
  cases es with
  | nil => exact noCopy_const v n
  | cons x xs => exact noCopy_reduce o xs x n (h x (by simp)) fun e he => h e (by simp [he])

theorem operands_slot {l : List (Ty × Expr)} {t : Ty} : ∀ {is : List Nat} {es : List Expr}, operands l t is = some es →
    ∀ e ∈ es, ∃ u, (u, e) ∈ l
  | [], es, h, e, he => by
    rw [operands] at h; cases h; cases he
  | i :: is, es, h, e, he => by
    rw [operands] at h
    simp only [Option.bind_eq_bind, Option.bind_eq_some_iff] at h
    obtain ⟨⟨u, x⟩, h1, es', h2, h3⟩ := h
    split at h3
    · cases h3
      rcases List.mem_cons.1 he with rfl | he
      · exact ⟨u, List.mem_of_getElem? h1⟩
      · exact operands_slot h2 e he
    · cases h3

theorem step_noCopy {s s' : State} {i : Ins} (hs : ∀ q ∈ s.slots, NoCopy q.2) (h : step s i = some s') :
    ∀ q ∈ s'.slots, NoCopy q.2 := by
  have push : ∀ t e m n, NoCopy e → ∀ q ∈ (s.push t e m n).slots, NoCopy q.2 := by
    intro t e m n he q hq
    rcases List.mem_append.1 hq with hq | hq
    · exact hs q hq
    · rw [List.mem_singleton.1 hq]; exact he
  have get : ∀ {j : Nat} {q : Ty × Expr}, s.slots[j]? = some q → NoCopy q.2 := fun hq => hs _ (List.mem_of_getElem? hq)
  cases i with
  | const v => simp only [step, Option.some.injEq] at h; subst h; exact push _ _ _ _ (noCopy_const _ _)
  | input v =>
    simp only [step, Option.some.injEq] at h; subst h
    exact push _ _ _ _ (NoCopy.mk (by simp) (by simp))
  | hint v =>
    simp only [step, Option.some.injEq] at h; subst h
    exact push _ _ _ _ (NoCopy.mk (by simp) (by simp))
  | bin o i j =>
    simp only [step, Option.bind_eq_bind, Option.bind_eq_some_iff] at h
    obtain ⟨a, ha, b, hb, h⟩ := h
    split at h
    · cases h; exact push _ _ _ _ (noCopy_bin o (get ha) (get hb) _)
    · cases h
  | binC o i v =>
    simp only [step, binCE_eq, Option.bind_eq_bind, Option.bind_eq_some_iff] at h
    obtain ⟨a, ha, h⟩ := h
    split at h
    · cases h; exact push _ _ _ _ (noCopy_bin o (get ha) (noCopy_const _ _) _)
    · cases h
  | binExt o i j =>
    simp only [step, Option.bind_eq_bind, Option.bind_eq_some_iff, extE_eq, Dsl.opExt] at h
    obtain ⟨a, ha, b, hb, e, he, h⟩ := h
    split at he
    · cases he; cases h
      refine push _ _ _ _ (NoCopy.mk (by cases o <;> simp [BinOp.opc]) ?_)
      intro e he
      simp only [List.mem_cons, List.not_mem_nil, or_false] at he
      rcases he with rfl | rfl
      · exact get ha
      · exact get hb
    · cases he
  | binBase o i j =>
    simp only [step, Option.bind_eq_bind, Option.bind_eq_some_iff, baseE_eq, Dsl.opBase] at h
    obtain ⟨a, ha, b, hb, e, he, h⟩ := h
    split at he
    · cases he; cases h
      refine push _ _ _ _ (NoCopy.mk (by cases o <;> simp [BinOp.opc]) ?_)
      intro e he
      simp only [List.mem_cons, List.not_mem_nil, or_false] at he
      rcases he with rfl | rfl
      · exact get ha
      · exact get hb
    · cases he
  | un o i =>
    simp only [step, Option.bind_eq_bind, Option.bind_eq_some_iff] at h
    obtain ⟨a, ha, h⟩ := h
    cases h
    refine push _ _ _ _ ?_
    cases o <;> exact NoCopy.mk (by simp) (by simp [get ha])
  | sum t is =>
    simp only [step, Option.bind_eq_bind, Option.bind_eq_some_iff] at h
    obtain ⟨es, he, h⟩ := h
    cases h
    exact push _ _ _ _ (noCopy_fold _ _ _ _ fun e hm => (operands_slot he e hm).elim fun u hu => hs _ hu)
  | product t is =>
    simp only [step, Option.bind_eq_bind, Option.bind_eq_some_iff] at h
    obtain ⟨es, he, h⟩ := h
    cases h
    exact push _ _ _ _ (noCopy_fold _ _ _ _ fun e hm => (operands_slot he e hm).elim fun u hu => hs _ hu)

theorem steps_noCopy : ∀ {p : List Ins} {s s' : State}, (∀ q ∈ s.slots, NoCopy q.2) → steps p s = some s' →
    ∀ q ∈ s'.slots, NoCopy q.2
  | [], s, s', hs, h => by rw [steps] at h; cases h; exact hs
  | i :: p, s, s', hs, h => by
    rw [steps] at h
    simp only [Option.bind_eq_bind, Option.bind_eq_some_iff] at h
    obtain ⟨s1, h1, h2⟩ := h
    exact steps_noCopy (step_noCopy hs h1) h2

/-- The nodes of an expression among well formed nodes. -/
theorem good_sub {K : Variable → Kind} {n : Nat} {P : Expr → Prop} (h : Good K n P) {e : Expr} (he : P e) :
    Good K n (fun s => Sub s e) where
  closed s hs a ha := (Sub.arg ha (.refl a)).trans hs
  le s hs := h.le s (h.sub hs he)
  uniq s s' hs hs' := h.uniq s s' (h.sub hs he) (h.sub hs' he)
  types s hs := h.types s (h.sub hs he)
  size s k hs := h.size s k (h.sub hs he)
  sizes s hs := h.sizes s (h.sub hs he)
  one s hs := h.one s (h.sub hs he)
  moves s s' v hs hs' := h.moves s s' v (h.sub hs he) (h.sub hs' he)

/-- C97: `run_dsl` on value `r` of any program and a constant `c` of its type: it panics if an input occurs in the formula
of the value; otherwise it reports success iff the value is `c`. -/
theorem C97_run (hL : L.Ok cfg) (hT : T.Ok cfg) {p : List Ins} {vs : List Value} {k : Nat}
    (hp : values p [] 0 = some (vs, k)) {r : Nat} {v : Value} (hr : vs[r]? = some v) {c : FVal} (hc : c.ty = v.val.ty)
    (n : Nat) :
    (v.inputs ≠ ∅ → withValue (runDsl cfg L T) p r c n = none) ∧
    (v.inputs = ∅ → ∃ b, withValue (runDsl cfg L T) p r c n = some b ∧ (b = true ↔ v.val = c)) := by
  obtain ⟨s, P, h1, hi⟩ := steps_inv (l := inputsOf p) (s := .new n) (P := NoNodes)
    ⟨Built.new _ n, .nil, Ins'.new _⟩ hp ⟨[], rfl, rfl⟩
  obtain ⟨e, he, hd, ho⟩ := hi.slots.get hr
  obtain ⟨o, ⟨P', b, sub, pe, hop, hck⟩, hiff⟩ := makes_check (c := c) hi.built hd hc.symm
  have hncp : NoCopy e := steps_noCopy (s := .new n) (by simp [State.new]) h1 (_, e) (List.mem_of_getElem? he)
  have hrun : withValue (runDsl cfg L T) p r c n = runDsl cfg L T e (u32 c) s.n := by
    simp [withValue, h1, he, hc]
  rw [hrun]
  generalize hE : (Dsl.equalC e (u32 c) s.n).1 = E at *
  have hE' : E = .node (s.n + 1 + 1) .equal 1 [e, (Dsl.constant (u32 c) s.n).1] := hE.symm
  constructor
  · intro hne
    obtain ⟨i, hi'⟩ := Finset.nonempty_iff_ne_empty.mpr hne
    obtain ⟨u, hu, hu'⟩ := (ho ⟨5, i, none⟩).mpr ⟨i, hi', rfl⟩
    have hsub : Sub u E := by
      rw [hE']; exact .arg (by simp [Expr.args]) hu
    have hn := compile_missing (L := L) (T := T) (vg := fun _ => none) (opt := true) (b.good.shared pe) hsub (.inl hu') rfl
      (t := Tracker.new)
    simp only [runDsl, hE, hn, Option.bind_eq_bind, Option.bind_none]
  · intro hemp
    have hnr : ∀ u w, Sub u E → ¬ Reads u w := by
      intro u w hu hw
      rw [hE'] at hu
      cases hu with
      | refl => rcases hw with hw | hw <;> cases hw
      | arg ha hu =>
        simp only [Expr.args, List.mem_cons, List.not_mem_nil, or_false] at ha
        rcases ha with rfl | rfl
        · rcases hw with hw | hw
          · obtain ⟨i, hi', -⟩ := (ho w).mp ⟨u, hu, hw⟩
            rw [hemp] at hi'
            cases hi'
          · exact hncp u w hu hw
        · cases hu with
          | refl => rcases hw with hw | hw <;> cases hw
          | arg ha _ => cases ha
    have hmu := b.safe.multiOk b.good pe (by rw [hop]; exact fun h => h)
    obtain ⟨q, rest, q1, q2, q3⟩ := script_run (m := .new) (env := envOf (inputsOf p)) (K := kindOf (inputsOf p)) hL hT
      (good_sub b.good pe) (.refl E) ⟨by simp [InputManager.inputs, InputManager.new],
        by simp [InputManager.inputs, InputManager.new], by simp [InputManager.inputs, InputManager.new]⟩
      (fun u w hu hw => absurd hw (hnr u w hu)) hmu [] []
    have hrest : rest = [] := q2.mpr (by intro x hx; simp [InputManager.inputs, InputManager.new] at hx)
    subst hrest
    have hcomp : ∃ ws t, compile L T (fun _ => none) true E Tracker.new = some (ws, t) ∧ t.script = q := by
      have := q1
      simp only [InputManager.script, InputManager.simulateInput, InputManager.new, InputManager.pushInputs,
        Option.bind_eq_bind, Option.bind_eq_some_iff, Option.some.injEq] at this
      obtain ⟨⟨ws, t⟩, h, h'⟩ := this
      exact ⟨ws, t, h, h'⟩
    obtain ⟨ws, t, hcm, rfl⟩ := hcomp
    refine ⟨accepts cfg t.script [], ?_, ?_⟩
    · simp only [runDsl, hE, hcm, Option.bind_eq_bind, Option.bind_some]
    · rw [← hiff, accepts, q3, hck.2]
      have t0 : truthy (num 0) = false := by decide
      have t1 : truthy (num 1) = true := by decide +kernel
      cases o with
      | none => simp
      | some b => cases b <;> simp [Val.enc, t0, t1]

/-- C97: `assert_dsl` returns iff no input occurs in the formula and the value is `c`; `debug_assert_dsl` does so in debug
builds, and in release builds it returns whatever the value is. -/
theorem C97_assert (hL : L.Ok cfg) (hT : T.Ok cfg) {p : List Ins} {vs : List Value} {k : Nat}
    (hp : values p [] 0 = some (vs, k)) {r : Nat} {v : Value} (hr : vs[r]? = some v) {c : FVal} (hc : c.ty = v.val.ty)
    (n : Nat) :
    (withValue (assertDsl cfg L T) p r c n = some () ↔ v.inputs = ∅ ∧ v.val = c) ∧
    (withValue (debugAssertDsl cfg L T true) p r c n = some () ↔ v.inputs = ∅ ∧ v.val = c) ∧
    (withValue (debugAssertDsl cfg L T false) p r c n = some () ↔ v.inputs = ∅) := by
  obtain ⟨h1, h2⟩ := C97_run (cfg := cfg) (L := L) (T := T) hL hT hp hr hc n
  have lift : ∀ (f : Bool → Option Unit) (g : Expr → List Nat → Nat → Option Unit),
      (∀ e x n, g e x n = (runDsl cfg L T e x n).bind f) →
      withValue g p r c n = (withValue (runDsl cfg L T) p r c n).bind f := by
    intro f g hg
    unfold withValue
    simp only [Option.bind_eq_bind, Option.bind_assoc]
    congr 1; funext s; congr 1; funext q
    obtain ⟨t, x⟩ := q
    simp only
    split
    · exact hg _ _ _
    · rfl
  rw [lift (fun b => if b then some () else none) (assertDsl cfg L T) (fun e x n => rfl),
    lift (fun b => if true && !b then none else some ()) (debugAssertDsl cfg L T true) (fun e x n => rfl),
    lift (fun b => if false && !b then none else some ()) (debugAssertDsl cfg L T false) (fun e x n => rfl)]
  by_cases hv : v.inputs = ∅
  · obtain ⟨b, hb, hbv⟩ := h2 hv
    rw [hb, ← hbv]
    cases b <;> simp [hv]
  · rw [h1 hv]
    simp [hv]

/-- C97: there is no call with a constant of another type: the types of the value and of the constant are the same type
parameter. -/
theorem C97_other_type {p : List Ins} {vs : List Value} {k : Nat} (hp : values p [] 0 = some (vs, k)) {r : Nat} {v : Value}
    (hr : vs[r]? = some v) {c : FVal} (hc : c.ty ≠ v.val.ty) {α : Type} (f : Expr → List Nat → Nat → Option α) (n : Nat) :
    withValue f p r c n = none := by
  obtain ⟨s, P, h1, hi⟩ := steps_inv (l := inputsOf p) (s := .new n) (P := NoNodes)
    ⟨Built.new _ n, .nil, Ins'.new _⟩ hp ⟨[], rfl, rfl⟩
  obtain ⟨e, he, -⟩ := hi.slots.get hr
  simp [withValue, h1, he, hc.symm]

/-- C97, instance of another type: a base field value and a constant of the extension. -/
theorem C97_other_type_instance (cfg : Cfg) (c : Stark.BB4) (n : Nat) :
    withValue (assertDsl cfg (repoLib 2013265921) refTracker) [.const (.base 3)] 0 (.ext c) n = none :=
  C97_other_type (p := [.const (.base 3)]) rfl rfl (by simp [FVal.ty]) _ n

/-- C97, instance: `(3 + 5)^2 * 2` in the base field, with the scripts of the repository, is 128 and nothing else. -/
theorem C97_instance (cfg : Cfg) (c : BB) (n : Nat) :
    withValue (assertDsl cfg (repoLib 2013265921) refTracker)
      [.const (.base 3), .binC .add 0 (.base 5), .un .square 1, .un .double 2, .input (.base 7)] 3 (.base c) n = some () ↔
      c = 128 := by
  rw [(C97_assert (repoLib_ok cfg) (refTracker_ok cfg) (p := [.const (.base 3), .binC .add 0 (.base 5), .un .square 1,
    .un .double 2, .input (.base 7)]) (r := 3) rfl rfl (c := .base c) rfl n).1]
  simp only [un, UnOp.op, BinOp.op, FVal.base.injEq, true_and]
  have : (2 * (3 + 5) ^ 2 : BB) = 128 := by norm_num
  rw [this]
  exact eq_comm

end Prog

end TapStark
