import Verif.Spec.ProgramSize
import Verif.Props.Room
import Verif.Props.Program

/-
C91: client programs that fit under the limit.
-/

namespace TapStark

variable {K : Variable → Kind} {τ : Expr → List Kind} {n0 n n' R : Nat} {e : Expr}

/-- Operations of one or two field elements, constants and inputs. -/
def Opc.isField : Opc → Bool
  | .add | .sub | .mul | .neg | .equal | .equalVerify | .constant _ | .expConst .. | .inputMove _ | .inputCopy _ | .square
  | .double => true
  | _ => false

/-- A field expression whose identifiers were drawn in order, from `n0 + 1` to `n`. -/
def Tidy (n0 n : Nat) (e : Expr) : Prop :=
  ∀ s, Sub s e → n0 < s.id ∧ s.id ≤ n ∧ s.opc.isField = true ∧ s.args.length ≤ 2 ∧ ∀ a ∈ s.args, a.id < s.id

theorem Tidy.mono (h : Tidy n0 n e) (hn : n ≤ n') : Tidy n0 n' e := fun s hs =>
  ⟨(h s hs).1, (h s hs).2.1.trans hn, (h s hs).2.2⟩

theorem Tidy.mk {opc : Opc} {size : Nat} {args : List Expr} (ho : opc.isField = true) (hl : args.length ≤ 2) (hn : n0 ≤ n)
    (ha : ∀ a ∈ args, Tidy n0 n a) : Tidy n0 (n + 1) (.node (n + 1) opc size args) := by
  intro s hs
  cases hs with
  | refl => exact ⟨Nat.lt_succ_of_le hn, Nat.le_refl _, ho, hl, fun a h => Nat.lt_succ_of_le (ha a h a (.refl a)).2.1⟩
  | arg h hs => exact (ha _ h).mono (Nat.le_succ n) s hs

theorem Tidy.sub {s : Expr} (h : Tidy n0 n e) (hs : Sub s e) : Tidy n0 n s := fun u hu => h u (Sub.trans hu hs)

theorem width_field {s : Expr} {as : List (List Kind)} (ho : s.opc.isField = true) (ht : s.opc.Types K as (τ s)) :
    width τ s ≤ 4 := by
  have : τ s = [] ∨ ∃ k, τ s = [k] := by
    generalize s.opc = opc at ho ht
    cases opc <;> first | (cases ho; done) | skip
    case constant => obtain ⟨_, k, _, h, _⟩ := ht; exact .inr ⟨k, h⟩
    case inputMove => exact .inr ⟨_, ht.2⟩
    case inputCopy => exact .inr ⟨_, ht.2⟩
    case neg => obtain ⟨_, _, _, h⟩ := ht; exact .inr ⟨_, h⟩
    case square => obtain ⟨_, _, _, h⟩ := ht; exact .inr ⟨_, h⟩
    case double => obtain ⟨_, _, _, h⟩ := ht; exact .inr ⟨_, h⟩
    case expConst => obtain ⟨_, _, _, _, _, h⟩ := ht; exact .inr ⟨_, h⟩
    case equal => obtain ⟨_, _, _, _, h⟩ := ht; exact .inr ⟨_, h⟩
    case equalVerify => obtain ⟨_, _, _, _, h⟩ := ht; exact .inl h
    all_goals (obtain ⟨_, _, _, _, _, h⟩ := ht; exact .inr ⟨_, h⟩)
  rcases this with hk | ⟨k, hk⟩
  · simp [width, hk]
  · simp [width, hk, Kind.size_le]

theorem room_field {opc : Opc} (ho : opc.isField = true) : opc.room R = R + 4 := by
  cases opc <;> first | rfl | cases ho

/-- Identifiers drawn in order bound the depth. -/
theorem need_tidy (e : Expr) (hw : ∀ s, Sub s e → s.opc.Types K (s.args.map τ) (τ s)) (h : Tidy n0 n e) :
    need (width τ) (fun s => s.opc.room R) e ≤ 4 * (e.id - n0) + R + 8 := by
  obtain ⟨h1, h2, h3, h4, h5⟩ := h e (.refl e)
  have hwid : ∀ s, Sub s e → width τ s ≤ 4 := fun s hs => width_field (h s hs).2.2.1 (hw s hs)
  have harg : ∀ a ∈ e.args, need (width τ) (fun s => s.opc.room R) a ≤ 4 * (a.id - n0) + R + 8 := fun a ha =>
    need_tidy a (fun s hs => hw s (.arg ha hs)) (h.sub (.arg ha (.refl a)))
  have hid : ∀ a ∈ e.args, n0 < a.id := fun a ha => (h a (.arg ha (.refl a))).1
  have hw0 := hwid e (.refl e)
  have hwa : ∀ a ∈ e.args, width τ a ≤ 4 := fun a ha => hwid a (.arg ha (.refl a))
  rw [need_eq]
  have hr := room_field (R := R) h3
  simp only [hr]
  match hargs : e.args with
  | [] => simp [needArgs]; omega
  | [a] =>
    rw [hargs] at harg hid hwa h5
    have := harg a (by simp)
    have := hid a (by simp)
    have := hwa a (by simp)
    have := h5 a (by simp)
    simp only [needArgs, List.map_cons, List.map_nil, List.sum_cons, List.sum_nil]
    omega
  | [a, b] =>
    rw [hargs] at harg hid hwa h5
    have := harg a (by simp)
    have := hid a (by simp)
    have := hwa a (by simp)
    have := h5 a (by simp)
    have := harg b (by simp)
    have := hid b (by simp)
    have := hwa b (by simp)
    have := h5 b (by simp)
    simp only [needArgs, List.map_cons, List.map_nil, List.sum_cons, List.sum_nil]
    omega
  | a :: b :: c :: l => rw [hargs] at h4; simp at h4
termination_by sizeOf e
decreasing_by
  cases e
  simp only [Expr.args] at *
  have := List.sizeOf_lt_of_mem ha
  simp
  omega

theorem kept_tidy (h : Tidy n0 n e) : (kept e).length ≤ n - n0 := by
  have h1 : kept e ⊆ (List.range' (n0 + 1) (n - n0)) := by
    intro i hi
    unfold kept at hi
    rw [List.mem_filter, List.mem_dedup] at hi
    obtain ⟨s, hs, rfl⟩ := List.mem_map.mp hi.1
    have := h s (mem_subs.mp hs)
    rw [List.mem_range'_1]
    omega
  have h2 : (kept e).Nodup := by
    unfold kept
    exact (List.nodup_dedup _).filter _
  have := (List.subperm_of_subset h2 h1).length_le
  rwa [List.length_range'] at this

namespace Prog

open Stark (BB4)

variable {cfg : Cfg} {L : U31Lib} {T : TrackerLib} {a b : Expr}

/-! ### The expressions of a program -/

theorem tidy_bin (o : BinOp) (hn : n0 ≤ n) (ha : Tidy n0 n a) (hb : Tidy n0 n b) :
    Tidy n0 (n + 1) (binE o a b n).1 ∧ (binE o a b n).2 = n + 1 := by
  have : ∀ c ∈ [a, b], Tidy n0 n c := by simp [ha, hb]
  cases o <;> exact ⟨Tidy.mk rfl (Nat.le_refl 2) hn this, rfl⟩

theorem tidy_const (vs : List Nat) (hn : n0 ≤ n) : Tidy n0 (n + 1) (Dsl.constant vs n).1 :=
  Tidy.mk rfl (by simp) hn (by simp)

theorem tidy_reduce (o : BinOp) : ∀ (ys : List Expr) {x : Expr} {n : Nat}, n0 ≤ n → Tidy n0 n x → (∀ y ∈ ys, Tidy n0 n y) →
    Tidy n0 (n + ys.length) (reduceE o x ys n).1 ∧ (reduceE o x ys n).2 = n + ys.length
  | [], _, _, _, hx, _ => ⟨hx, rfl⟩
  | y :: ys, x, n, hn, hx, hy => by
    obtain ⟨h1, h2⟩ := tidy_bin o hn hx (hy y (by simp))
    obtain ⟨h3, h4⟩ := tidy_reduce o ys (n := n + 1) (by omega) h1 fun z hz => (hy z (by simp [hz])).mono (by omega)
    simp only [reduceE, h2, List.length_cons]
    exact ⟨h3.mono (by omega), by omega⟩

theorem tidy_fold (o : BinOp) (c : List Nat) {es : List Expr} (hn : n0 ≤ n) (he : ∀ y ∈ es, Tidy n0 n y) :
    Tidy n0 (foldE o c es n).2 (foldE o c es n).1 ∧ n ≤ (foldE o c es n).2 ∧ (foldE o c es n).2 ≤ n + max 1 es.length := by
  cases es with
  | nil => exact ⟨tidy_const c hn, Nat.le_succ n, by simp [foldE, Dsl.constant, Dsl.mk]⟩
  | cons x xs =>
    obtain ⟨h1, h2⟩ := tidy_reduce o xs hn (he x (by simp)) fun z hz => he z (by simp [hz])
    simp only [foldE, h2, Dsl.constant, Dsl.mk, List.length_cons]
    exact ⟨h1.mono (by omega), by omega, by omega⟩

theorem operands_mem {s : List (Ty × Expr)} {t : Ty} : ∀ {is : List Nat} {es : List Expr}, operands s t is = some es →
    es.length = is.length ∧ ∀ e ∈ es, ∃ u, (u, e) ∈ s
  | [], es, h => by cases h; simp
  | i :: is, es, h => by
    simp only [operands, Option.bind_eq_bind, Option.bind_eq_some_iff] at h
    obtain ⟨⟨u, e⟩, h1, es', h2, h3⟩ := h
    split at h3
    · cases h3
      obtain ⟨h4, h5⟩ := operands_mem h2
      refine ⟨by simp [h4], ?_⟩
      intro x hx
      rcases List.mem_cons.mp hx with rfl | hx
      · exact ⟨u, List.mem_of_getElem? h1⟩
      · exact h5 x hx
    · cases h3

/-- The state of a client that started with the counter at `n0` and made `q` nodes and `k` inputs. -/
structure Sized (n0 q k : Nat) (s : State) : Prop where
  ge : n0 ≤ s.n
  le : s.n ≤ n0 + q
  tidy : ∀ x ∈ s.slots, Tidy n0 s.n x.2
  words : (s.m.inputs.map fun p => p.2.length).sum ≤ 4 * k

theorem u32_length (v : FVal) : (u32 v).length ≤ 4 := by
  cases v with
  | base x => simp [u32, bbField]
  | ext x => exact (bb4Field_ok.length x).le

theorem Sized.push {q k q' k' : Nat} {s : State} (h : Sized n0 q k s) {t : Ty} {e : Expr} {m : InputManager} {n : Nat}
    (h1 : s.n ≤ n) (h2 : n ≤ n0 + q') (he : Tidy n0 n e) (hm : (m.inputs.map fun p => p.2.length).sum ≤ 4 * k') :
    Sized n0 q' k' (s.push t e m n) where
  ge := h.ge.trans h1
  le := h2
  tidy := by
    intro x hx
    rcases List.mem_append.mp hx with hx | hx
    · exact (h.tidy x hx).mono h1
    · rw [List.mem_singleton] at hx
      subst hx
      exact he
  words := hm

theorem step_sized {q k : Nat} {s s' : State} (h : Sized n0 q k s) {i : Ins} (hs : step s i = some s') :
    Sized n0 (q + i.nodes) (if i.isInput then k + 1 else k) s' := by
  have hg := h.ge
  have hl := h.le
  have hw := h.words
  have slot : ∀ {j : Nat} {t : Ty} {x : Expr}, s.slots[j]? = some (t, x) → Tidy n0 s.n x := fun hj =>
    h.tidy _ (List.mem_of_getElem? hj)
  cases i with
  | const v =>
    cases hs
    exact h.push (Nat.le_succ _) (by show s.n + 1 ≤ _; simp [Ins.nodes]; omega) (tidy_const _ hg) hw
  | input v =>
    cases hs
    refine h.push (Nat.le_succ _) (by show s.n + 1 ≤ _; simp [Ins.nodes]; omega) (Tidy.mk rfl (by simp) hg (by simp)) ?_
    have := u32_length v
    simp only [InputManager.inputs, List.map_append, List.sum_append, List.map_cons, List.map_nil,
      List.sum_cons, List.sum_nil, Ins.isInput, if_true] at hw ⊢
    omega
  | hint v =>
    cases hs
    refine h.push (Nat.le_succ _) (by show s.n + 1 ≤ _; simp [Ins.nodes]; omega) (Tidy.mk rfl (by simp) hg (by simp)) ?_
    have := u32_length v
    simp only [InputManager.inputs, List.map_append, List.sum_append, List.map_cons,
      List.map_nil, List.sum_cons, List.sum_nil, Ins.isInput, if_true] at hw ⊢
    omega
  | bin o i j =>
    simp only [step, Option.bind_eq_bind, Option.bind_eq_some_iff] at hs
    obtain ⟨⟨t, x⟩, h1, ⟨u, y⟩, h2, hs⟩ := hs
    split at hs
    · cases hs
      obtain ⟨h3, h4⟩ := tidy_bin o hg (slot h1) (slot h2)
      rw [h4]
      exact h.push (Nat.le_succ _) (by simp [Ins.nodes]; omega) h3 hw
    · cases hs
  | binC o i v =>
    simp only [step, binCE_eq, Option.bind_eq_bind, Option.bind_eq_some_iff] at hs
    obtain ⟨⟨t, x⟩, h1, hs⟩ := hs
    split at hs
    · cases hs
      obtain ⟨h3, h4⟩ := tidy_bin o (n := s.n + 1) (by omega) ((slot h1).mono (by omega)) (tidy_const (u32 v) hg)
      refine h.push (n := (binE o x (Dsl.constant (u32 v) s.n).1 (s.n + 1)).2) (by omega) (by rw [h4]; simp [Ins.nodes]; omega)
        (by rw [h4]; exact h3) hw
    · cases hs
  | binExt o i j =>
    simp only [step, Option.bind_eq_bind, Option.bind_eq_some_iff] at hs
    obtain ⟨⟨t, x⟩, h1, ⟨u, y⟩, h2, ⟨e, n⟩, h3, hs⟩ := hs
    cases hs
    rw [extE_eq] at h3
    unfold Dsl.opExt at h3
    split at h3
    · cases h3
      refine h.push (Nat.le_succ _) (by simp [Ins.nodes]; omega) (Tidy.mk (by cases o <;> rfl) (by simp) hg ?_) hw
      simp [slot h1, slot h2]
    · cases h3
  | binBase o i j =>
    simp only [step, Option.bind_eq_bind, Option.bind_eq_some_iff] at hs
    obtain ⟨⟨t, x⟩, h1, ⟨u, y⟩, h2, ⟨e, n⟩, h3, hs⟩ := hs
    cases hs
    rw [baseE_eq] at h3
    unfold Dsl.opBase at h3
    split at h3
    · cases h3
      refine h.push (Nat.le_succ _) (by simp [Ins.nodes]; omega) (Tidy.mk (by cases o <;> rfl) (by simp) hg ?_) hw
      simp [slot h1, slot h2]
    · cases h3
  | un o i =>
    simp only [step, Option.bind_eq_bind, Option.bind_eq_some_iff] at hs
    obtain ⟨⟨t, x⟩, h1, hs⟩ := hs
    have : (unE t.u32Size o x s.n).2 = s.n + 1 ∧ Tidy n0 (s.n + 1) (unE t.u32Size o x s.n).1 := by
      cases o <;> exact ⟨rfl, Tidy.mk rfl (by simp) hg (by simp [slot h1])⟩
    cases hs
    rw [this.1]
    exact h.push (Nat.le_succ _) (by simp [Ins.nodes]; omega) this.2 hw
  | sum t is =>
    simp only [step, Option.bind_eq_bind, Option.bind_eq_some_iff] at hs
    obtain ⟨es, h1, hs⟩ := hs
    cases hs
    obtain ⟨h2, h3⟩ := operands_mem h1
    obtain ⟨h4, h5, h6⟩ := tidy_fold .add (u32 t.zero) hg fun y hy => (h3 y hy).elim fun u hu => h.tidy _ hu
    exact h.push h5 (by simp only [Ins.nodes]; omega) h4 hw
  | product t is =>
    simp only [step, Option.bind_eq_bind, Option.bind_eq_some_iff] at hs
    obtain ⟨es, h1, hs⟩ := hs
    cases hs
    obtain ⟨h2, h3⟩ := operands_mem h1
    obtain ⟨h4, h5, h6⟩ := tidy_fold .mul (u32 t.one) hg fun y hy => (h3 y hy).elim fun u hu => h.tidy _ hu
    exact h.push h5 (by simp only [Ins.nodes]; omega) h4 hw

theorem steps_sized : ∀ {p : List Ins} {q k : Nat} {s s' : State} {vs vs' : List Value} {k' : Nat}, Sized n0 q k s →
    steps p s = some s' → values p vs k = some (vs', k') → Sized n0 (q + nodes p) k' s' := by
  intro p
  induction p with
  | nil =>
    intro q k s s' vs vs' k' h hs hv
    cases hs
    cases hv
    exact h
  | cons i p ih =>
    intro q k s s' vs vs' k' h hs hv
    simp only [steps, Option.bind_eq_bind, Option.bind_eq_some_iff] at hs
    obtain ⟨s1, h1, h2⟩ := hs
    simp only [values, Option.bind_eq_bind, Option.bind_eq_some_iff] at hv
    obtain ⟨v, -, hv⟩ := hv
    have := ih (step_sized h h1) h2 hv
    rw [nodes, List.map_cons, List.sum_cons, ← Nat.add_assoc]
    exact this

/-! ### Programs that fit -/

/-- The run of `runCheck` under the limit on the stacks. -/
noncomputable def runCheckLimited (cfg : Cfg) (L : U31Lib) (T : TrackerLib) (p : List Ins) (r : Nat) (c : FVal) (n : Nat) :
    Option Unit := do
  let s ← steps p (.new n)
  let (t, x) ← s.slots[r]?
  if t = c.ty then
    let (e, _) := Dsl.equalC x (u32 c) s.n
    (s.m.setExec e).runLimited cfg L T
  else none

/-- **C91** (programs): a program with `k` inputs and `q` nodes in all, where `4 k + 8 q` is at most 1000 up to a constant,
gives a script that runs under the limit, and the run succeeds iff the value is `c` and every input occurs in its formula.
The scripts of the field operations need `R` elements beside their operands. -/
theorem C91_program (hL : L.Ok cfg) (hT : T.Ok cfg) (hS : L.Slim R) (hT' : T.Thrifty) {p : List Ins} {vs : List Value} {k : Nat}
    (hp : values p [] 0 = some (vs, k)) {r : Nat} {v : Value} (hr : vs[r]? = some v) {c : FVal} (hc : c.ty = v.val.ty)
    (n : Nat) (hl : 4 * k + 8 * nodes p + R + 24 ≤ 1000) :
    runCheckLimited cfg L T p r c n = some () ↔ v.val = c ∧ v.inputs = Finset.range k := by
  rw [← C85_program hL hT hp hr hc n]
  obtain ⟨s, P, h1, hi⟩ := steps_inv (l := inputsOf p) (s := .new n) (P := NoNodes)
    ⟨Built.new _ n, .nil, Ins'.new _⟩ hp ⟨[], rfl, rfl⟩
  have hz : Sized n (0 + nodes p) k s := steps_sized (s := .new n) (q := 0) (k := 0)
    ⟨Nat.le_refl _, Nat.le_refl _, by simp [State.new], by simp [State.new, InputManager.inputs, InputManager.new]⟩ h1 hp
  obtain ⟨e, he, hd, ho⟩ := hi.slots.get hr
  obtain ⟨o, ⟨P', b, sub, pe, hop, hck⟩, hiff⟩ := makes_check (c := c) hi.built hd hc.symm
  have ha := hi.ins.agrees
  have hte : Tidy n s.n e := hz.tidy _ (List.mem_of_getElem? he)
  have htc := tidy_const (u32 c) hz.ge
  have hteq : Tidy n (s.n + 1 + 1) (Dsl.equalC e (u32 c) s.n).1 :=
    Tidy.mk (n := s.n + 1) rfl (by simp) (by have := hz.ge; omega) (by
      intro x hx
      simp only [List.mem_cons, List.not_mem_nil, or_false] at hx
      rcases hx with rfl | rfl
      · exact hte.mono (by omega)
      · exact htc)
  have hfit : (s.m.setExec (Dsl.equalC e (u32 c) s.n).1).room (kindOf (inputsOf p)) R (Dsl.equalC e (u32 c) s.n).1 ≤ 1000 := by
    have h2 := kept_tidy hteq
    have h3 := need_tidy (R := R) _ (fun u hu => b.good.types u (b.good.sub hu pe)) hteq
    have h4 : (Dsl.equalC e (u32 c) s.n).1.id = s.n + 2 := rfl
    have h5 := hz.le
    have h6 := hz.ge
    have h7 : ((s.m.setExec (Dsl.equalC e (u32 c) s.n).1).inputs.map fun p => p.2.length).sum ≤ 4 * k := hz.words
    rw [h4] at h3
    unfold InputManager.room
    omega
  have := runLimited_eq (m := s.m.setExec (Dsl.equalC e (u32 c) s.n).1) hL hT hS hT' b.good pe
    ⟨ha.vals, ha.kinds, ha.nodup⟩ (fun s v hs hv => b.prov s v hs hv)
    (b.safe.multiOk b.good pe (by rw [hop]; exact fun h => h)) rfl hfit
  have h8 : runCheckLimited cfg L T p r c n = (s.m.setExec (Dsl.equalC e (u32 c) s.n).1).runLimited cfg L T := by
    simp [runCheckLimited, h1, he, hc]
  have h9 : runCheck cfg L T p r c n = (s.m.setExec (Dsl.equalC e (u32 c) s.n).1).run cfg L T := by
    simp [runCheck, h1, he, hc]
  rw [h8, h9, this]

/-- The scripts of the repository meet the hypotheses with `R = 41`. -/
theorem C91_library (cfg : Cfg) : (repoLib 2013265921).Ok cfg ∧ refTracker.Ok cfg ∧ (repoLib 2013265921).Slim 41 ∧
    refTracker.Thrifty := ⟨repoLib_ok cfg, refTracker_ok cfg, repoLib_slim, refTracker_thrifty⟩

/-- C91, instance, with the scripts of the repository: the program of C85 under the limit. -/
theorem C91_instance (cfg : Cfg) (c : BB4) (n : Nat) :
    runCheckLimited cfg (repoLib 2013265921) refTracker (demo 3 3 100) 9 (.ext c) n = some () ↔ c = 3002 := by
  rw [← C85_instance cfg c n]
  obtain ⟨vs, h1, h2⟩ := demo_values 3 3 100
  rw [C91_program (repoLib_ok cfg) (refTracker_ok cfg) repoLib_slim refTracker_thrifty h1 h2 (c := .ext c) rfl n
    (by simp [nodes, demo, Ins.nodes]), C85_program (repoLib_ok cfg) (refTracker_ok cfg) h1 h2 (c := .ext c) rfl]

end Prog

end TapStark
