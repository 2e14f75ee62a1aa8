import Verif.Proofs.DslField
import Verif.Spec.VarOps

/-
Expressions made by the operators on variables; inputs that the map does not have.
-/

namespace TapStark

section

variable {F : Type} [Field F] {B : BfField F} {K : Variable → Kind} {env : Variable → Val} {V : Variable → Prop}
variable {n : Nat} {P P' : Expr → Prop} {a b e : Expr} {x y : F}

/-- Nodes with one result that copy inputs of `V` and move none. -/
structure Plain (K : Variable → Kind) (V : Variable → Prop) (n : Nat) (P : Expr → Prop) : Prop where
  good : Good K n P
  one : ∀ s, P s → s.opc.outNum = some 1
  still : ∀ s v, P s → s.opc ≠ .inputMove v
  reads : ∀ s v, P s → Reads s v → V v

theorem Plain.none (K : Variable → Kind) (V : Variable → Prop) (n : Nat) : Plain K V n NoNodes :=
  ⟨(Built.new K n).good, fun _ h => h.elim, fun _ _ h => h.elim, fun _ _ h => h.elim⟩

theorem Plain.node (h : Plain K V n P) {opc : Opc} {size : Nat} {args : List Expr}
    (hargs : ∀ a ∈ args, P a ∧ ∃ m, a.varSize = some m)
    (types : opc.Types K (args.map (kinds K)) (opc.kinds K (args.map (kinds K))))
    (hsize : ∀ k, opc.kinds K (args.map (kinds K)) = [k] → size = k.size)
    (hone : ¬ (opc = .sampleBase ∨ ∃ f n, opc = .lookup f n)) (ho : opc.outNum = some 1) (hm : ∀ v, opc ≠ .inputMove v)
    (hr : ∀ v, opc = .inputCopy v → V v) : Plain K V (n + 1) (ins (.node (n + 1) opc size args) P) where
  good := by
    refine h.good.ins (fun s hs => ?_) (Nat.le_succ n) (Nat.le_refl _) hargs types hsize (fun h => absurd h hone) ?_ ?_
    · have := h.good.le s hs; omega
    · exact fun v e => absurd e (hm v)
    · exact fun v _ s hs => h.still s v hs
  one := by
    rintro s (rfl | hs)
    · exact ho
    · exact h.one s hs
  still := by
    rintro s v (rfl | hs)
    · exact hm v
    · exact h.still s v hs
  reads := by
    rintro s v (rfl | hs) hr'
    · exact hr'.elim (fun e => absurd e (hm v)) (hr v)
    · exact h.reads s v hs hr'

/-- `e` is a node of `P` whose value is the field element `x`. -/
structure Gives (B : BfField F) (K : Variable → Kind) (env : Variable → Val) (P : Expr → Prop) (e : Expr) (x : F) :
    Prop where
  mem : P e
  kind : ∃ k, kinds K e = [k] ∧ k.IsField ∧ k.size = B.consts.size
  eval : eval env e = some [B.val x]

omit [Field F] in
theorem Gives.mono (h : Gives B K env P e x) (hP : ∀ s, P s → P' s) : Gives B K env P' e x :=
  { h with mem := hP _ h.mem }

omit [Field F] in
theorem Gives.size (hg : Good K n P) (h : Gives B K env P e x) : e.size = B.consts.size := by
  obtain ⟨k, h1, _, h2⟩ := h.kind
  rw [hg.size e k h.mem h1, h2]

theorem Gives.varSize (hB : B.Ok) (hg : Good K n P) (h : Gives B K env P e x) : ∃ k, e.varSize = some k :=
  varSize_of (h.size hg ▸ hB.size)

/-- The expression of the pair has been made, with value `x`. -/
def Adds (B : BfField F) (K : Variable → Kind) (env : Variable → Val) (V : Variable → Prop) (P : Expr → Prop)
    (r : Expr × Nat) (x : F) : Prop :=
  ∃ P', Plain K V r.2 P' ∧ (∀ s, P s → P' s) ∧ Gives B K env P' r.1 x

theorem adds_const (hB : B.Ok) (h : Plain K V n P) (x : F) : Adds B K env V P (Dsl.constant (B.u32 x) n) x := by
  refine ⟨_, h.node (by simp) ?_ ?_ ?_ rfl ?_ ?_, fun s => ins_of, ins_self, ?_, ?_⟩
  · exact ⟨rfl, _, B.val x, rfl, hB.const x, constVal_has (hB.const x)⟩
  · intro k hk
    have : [constKind (B.u32 x)] = [k] := hk
    cases this
    rw [hB.length, (hB.kind x).2]
  · rintro (h | ⟨_, _, h⟩) <;> cases h
  · rintro v h; cases h
  · rintro v h; cases h
  · exact ⟨constKind (B.u32 x), by rw [Dsl.constant, Dsl.mk, kinds_node]; rfl, hB.kind x⟩
  · rw [Dsl.constant, Dsl.mk, TapStark.eval, evalArgs]
    simp [Opc.denote, hB.const]

theorem adds_bin (hB : B.Ok) (h : Plain K V n P) (ha : Gives B K env P a x) (hb : Gives B K env P b y) {opc : Opc} {z : F}
    (ho : opc = .add ∨ opc = .sub ∨ opc = .mul)
    (hd : opc.denote env [[B.val x], [B.val y]] = some [B.val z]) :
    Adds B K env V P (Dsl.mk opc (max a.size b.size) [a, b] n) z := by
  obtain ⟨k, hk1, hk2, hk3⟩ := ha.kind
  obtain ⟨l, hl1, hl2, hl3⟩ := hb.kind
  have hj := hk2.join_size hB.size hl2 hk3 hl3
  have hkinds : opc.kinds K ([a, b].map (kinds K)) = [k.join l] := by
    rw [List.map_cons, List.map_cons, hk1, hl1]
    rcases ho with rfl | rfl | rfl <;> rfl
  refine ⟨_, h.node ?_ ?_ ?_ ?_ ?_ ?_ ?_, fun s => ins_of, ins_self, ?_, ?_⟩
  · intro c hc
    rcases List.mem_cons.mp hc with rfl | hc
    · exact ⟨ha.mem, ha.varSize hB h.good⟩
    · rw [List.mem_singleton] at hc
      subst hc
      exact ⟨hb.mem, hb.varSize hB h.good⟩
  · rw [hkinds, List.map_cons, List.map_cons, hk1, hl1]
    rcases ho with rfl | rfl | rfl <;> exact ⟨k, l, rfl, hk2, hl2, rfl⟩
  · intro c hc
    rw [hkinds] at hc
    cases hc
    rw [ha.size h.good, hb.size h.good, hj.2, Nat.max_self]
  · rcases ho with rfl | rfl | rfl <;> rintro (h | ⟨_, _, h⟩) <;> cases h
  · rcases ho with rfl | rfl | rfl <;> rfl
  · rcases ho with rfl | rfl | rfl <;> rintro v h <;> cases h
  · rcases ho with rfl | rfl | rfl <;> rintro v h <;> cases h
  · exact ⟨k.join l, by rw [Dsl.mk, kinds_node, hkinds], hj⟩
  · rw [Dsl.mk, TapStark.eval, evalArgs_two, ha.eval, hb.eval]
    simpa using hd

theorem adds_op (hB : B.Ok) (h : Plain K V n P) (ha : Gives B K env P a x) (hb : Gives B K env P b y) (o : VOp) :
    Adds B K env V P (o.dsl a b n) (o.value x y) := by
  cases o
  · exact adds_bin hB h ha hb (.inl rfl) (by rw [VOp.value, ← hB.add]; rfl)
  · exact adds_bin hB h ha hb (.inr (.inl rfl)) (by rw [VOp.value, ← hB.sub]; rfl)
  · exact adds_bin hB h ha hb (.inr (.inr rfl)) (by rw [VOp.value, ← hB.mul]; rfl)

theorem Adds.op (hB : B.Ok) {o : VOp} {r : Expr × Nat} (ha : ∃ P1, Plain K V r.2 P1 ∧ (∀ s, P s → P1 s) ∧
    Gives B K env P1 a x ∧ Gives B K env P1 b y) : Adds B K env V P (o.dsl a b r.2) (o.value x y) := by
  obtain ⟨P1, h1, s1, d1, d2⟩ := ha
  obtain ⟨P2, h2, s2, d3⟩ := adds_op hB h1 d1 d2 o
  exact ⟨P2, h2, fun s hs => s2 s (s1 s hs), d3⟩

variable {ρ : Variable → F}

/-- The kinds and values of variables that stand for field elements. -/
def kindOf (B : BfField F) (ρ : Variable → F) (v : Variable) : Kind := constKind (B.u32 (ρ v))

theorem adds_copy (hB : B.Ok) (h : Plain (kindOf B ρ) V n P) {v : Variable} (hv : V v) :
    Adds B (kindOf B ρ) (fun v => B.val (ρ v)) V P (Dsl.mk (.inputCopy v) B.consts.size [] n) (ρ v) := by
  refine ⟨_, h.node (by simp) ?_ ?_ ?_ rfl ?_ ?_, fun s => ins_of, ins_self, ?_, ?_⟩
  · exact ⟨rfl, rfl⟩
  · intro k hk
    have : [kindOf B ρ v] = [k] := hk
    cases this
    exact (hB.kind _).2.symm
  · rintro (h | ⟨_, _, h⟩) <;> cases h
  · rintro v h; cases h
  · rintro v h; cases h; exact hv
  · exact ⟨kindOf B ρ v, by rw [Dsl.mk, kinds_node]; rfl, hB.kind _⟩
  · rw [Dsl.mk, TapStark.eval, evalArgs]
    rfl

omit [Field F] in
theorem toDsl_eq {v : Variable} (h : ∀ k, v.expectSize = some k → k = B.consts.size) (n : Nat) :
    v.toDsl B n = some (Dsl.mk (.inputCopy v) B.consts.size [] n) := by
  unfold Variable.toDsl
  rw [if_pos]
  cases hv : v.expectSize with
  | none => exact .inl rfl
  | some k => exact .inr (by rw [h k hv])

omit [Field F] in
theorem toDsl_none {v : Variable} (h : ¬ ∀ k, v.expectSize = some k → k = B.consts.size) (n : Nat) :
    v.toDsl B n = none := by
  unfold Variable.toDsl
  rw [if_neg]
  rintro (hv | hv)
  · exact h fun k e => by rw [hv] at e; cases e
  · exact h fun k e => by rw [hv] at e; cases e; rfl

omit [Field F] in
theorem new_eq {v : Variable} (h : v.expectSize = some B.consts.size) (x : F) :
    ValueVariable.new B v x = some ⟨v, x⟩ := by
  simp [ValueVariable.new, h]

omit [Field F] in
theorem new_none {v : Variable} (h : v.expectSize ≠ some B.consts.size) (x : F) : ValueVariable.new B v x = none := by
  unfold ValueVariable.new
  cases hv : v.expectSize with
  | none => rfl
  | some k =>
    rw [hv] at h
    have : k ≠ B.consts.size := fun e => h (by rw [e])
    simp [this]

omit [Field F] in
theorem valueToDsl_eq {v : Variable} (h : v.expectSize = some B.consts.size) (x : F) (n : Nat) :
    (⟨v, x⟩ : ValueVariable F).toDsl B n = Dsl.mk (.inputCopy v) B.consts.size [] n := by
  unfold ValueVariable.toDsl ValueVariable.toVar
  rw [← h]

/-- Expressions with their values. -/
def AllGive (B : BfField F) (K : Variable → Kind) (env : Variable → Val) (P : Expr → Prop) (ds : List Expr)
    (xs : List F) : Prop :=
  List.Forall₂ (Gives B K env P) ds xs

omit [Field F] in
theorem AllGive.get {ds : List Expr} {xs : List F} (h : AllGive B K env P ds xs) {i : Nat} {x : F}
    (hx : xs[i]? = some x) : ∃ d, ds[i]? = some d ∧ Gives B K env P d x := by
  induction h generalizing i with
  | nil => simp at hx
  | cons hd _ ih =>
    cases i with
    | zero => simp at hx; subst hx; exact ⟨_, rfl, hd⟩
    | succ i => exact ih (by simpa using hx)

theorem make_adds (hB : B.Ok) {st : VStep F} (hV : ∀ v ∈ st.vars, V v) (hf : st.Fits B.consts.size)
    (h : Plain (kindOf B ρ) V n P) {ds : List Expr} {xs : List F}
    (hd : AllGive B (kindOf B ρ) (fun v => B.val (ρ v)) P ds xs) {x : F} (hx : st.value ρ xs = some x) :
    ∃ r, st.make B ds n = some r ∧ Adds B (kindOf B ρ) (fun v => B.val (ρ v)) V P r x := by
  cases st with
  | var v =>
    cases hx
    exact ⟨_, toDsl_eq hf n, adds_copy hB h (hV v (List.mem_singleton.mpr rfl))⟩
  | val v y =>
    cases hx
    refine ⟨_, ?_, adds_copy hB h (hV v (List.mem_singleton.mpr rfl))⟩
    rw [VStep.make, new_eq hf]
    exact congrArg some (valueToDsl_eq hf _ _)
  | const c =>
    cases hx
    exact ⟨_, rfl, adds_const hB h _⟩
  | varC o v c =>
    cases hx
    obtain ⟨P1, h1, s1, d1⟩ := adds_copy hB h (hV v (List.mem_singleton.mpr rfl))
    obtain ⟨P2, h2, s2, d2⟩ := adds_const (env := fun v => B.val (ρ v)) hB h1 c
    refine ⟨_, ?_, Adds.op hB (r := Dsl.constant (B.u32 c) _) ⟨P2, h2, fun s hs => s2 s (s1 s hs), d1.mono s2, d2⟩⟩
    rw [VStep.make, toDsl_eq hf]
    rfl
  | varD o v j =>
    simp only [VStep.value, Option.bind_eq_bind, Option.bind_eq_some_iff, Option.some.injEq] at hx
    obtain ⟨y, hy, rfl⟩ := hx
    obtain ⟨b, hb, db⟩ := hd.get hy
    obtain ⟨P1, h1, s1, d1⟩ := adds_copy hB h (hV v (List.mem_singleton.mpr rfl))
    refine ⟨_, ?_, Adds.op hB (r := Dsl.mk _ _ _ _) ⟨P1, h1, s1, d1, db.mono s1⟩⟩
    rw [VStep.make, hb, toDsl_eq hf]
    rfl
  | dVar o i v =>
    simp only [VStep.value, Option.bind_eq_bind, Option.bind_eq_some_iff, Option.some.injEq] at hx
    obtain ⟨y, hy, rfl⟩ := hx
    obtain ⟨b, hb, db⟩ := hd.get hy
    obtain ⟨P1, h1, s1, d1⟩ := adds_copy hB h (hV v (List.mem_singleton.mpr rfl))
    refine ⟨_, ?_, Adds.op hB (r := Dsl.mk _ _ _ _) ⟨P1, h1, s1, db.mono s1, d1⟩⟩
    rw [VStep.make, hb, toDsl_eq hf]
    rfl
  | valVal o v x w y =>
    cases hx
    obtain ⟨P1, h1, s1, d1⟩ := adds_copy hB h (hV v (List.mem_cons_self ..))
    obtain ⟨P2, h2, s2, d2⟩ := adds_copy hB h1 (hV w (List.mem_cons_of_mem _ (List.mem_singleton.mpr rfl)))
    refine ⟨_, ?_, Adds.op hB (r := Dsl.mk _ _ _ _) ⟨P2, h2, fun s hs => s2 s (s1 s hs), d1.mono s2, d2⟩⟩
    rw [VStep.make, new_eq hf.1, new_eq hf.2]
    simp only [Option.bind_eq_bind, Option.bind_some, valueToDsl_eq hf.1, valueToDsl_eq hf.2]
  | valC o v y c =>
    cases hx
    obtain ⟨P1, h1, s1, d1⟩ := adds_copy hB h (hV v (List.mem_singleton.mpr rfl))
    obtain ⟨P2, h2, s2, d2⟩ := adds_const (env := fun v => B.val (ρ v)) hB h1 c
    refine ⟨_, ?_, Adds.op hB (r := Dsl.constant (B.u32 c) _) ⟨P2, h2, fun s hs => s2 s (s1 s hs), d1.mono s2, d2⟩⟩
    rw [VStep.make, new_eq hf]
    simp only [Option.bind_eq_bind, Option.bind_some, valueToDsl_eq hf]
  | valD o v y j =>
    simp only [VStep.value, Option.bind_eq_bind, Option.bind_eq_some_iff, Option.some.injEq] at hx
    obtain ⟨y, hy, rfl⟩ := hx
    obtain ⟨b, hb, db⟩ := hd.get hy
    obtain ⟨P1, h1, s1, d1⟩ := adds_copy hB h (hV v (List.mem_singleton.mpr rfl))
    refine ⟨_, ?_, Adds.op hB (r := Dsl.mk _ _ _ _) ⟨P1, h1, s1, d1, db.mono s1⟩⟩
    rw [VStep.make, hb, new_eq hf]
    simp only [Option.bind_eq_bind, Option.bind_some, valueToDsl_eq hf]
  | dVal o i v y =>
    simp only [VStep.value, Option.bind_eq_bind, Option.bind_eq_some_iff, Option.some.injEq] at hx
    obtain ⟨y, hy, rfl⟩ := hx
    obtain ⟨b, hb, db⟩ := hd.get hy
    obtain ⟨P1, h1, s1, d1⟩ := adds_copy hB h (hV v (List.mem_singleton.mpr rfl))
    refine ⟨_, ?_, Adds.op hB (r := Dsl.mk _ _ _ _) ⟨P1, h1, s1, db.mono s1, d1⟩⟩
    rw [VStep.make, hb, new_eq hf]
    simp only [Option.bind_eq_bind, Option.bind_some, valueToDsl_eq hf]
  | dD o i j =>
    simp only [VStep.value, Option.bind_eq_bind, Option.bind_eq_some_iff, Option.some.injEq] at hx
    obtain ⟨y, hy, z, hz, rfl⟩ := hx
    obtain ⟨a, ha, da⟩ := hd.get hy
    obtain ⟨b, hb, db⟩ := hd.get hz
    refine ⟨_, ?_, adds_op hB h da db o⟩
    rw [VStep.make, ha, hb]
    rfl
  | dC o i c =>
    simp only [VStep.value, Option.bind_eq_bind, Option.bind_eq_some_iff, Option.some.injEq] at hx
    obtain ⟨y, hy, rfl⟩ := hx
    obtain ⟨a, ha, da⟩ := hd.get hy
    obtain ⟨P1, h1, s1, d1⟩ := adds_const (env := fun v => B.val (ρ v)) hB h c
    refine ⟨_, ?_, Adds.op hB (r := Dsl.constant (B.u32 c) n) ⟨P1, h1, s1, da.mono s1, d1⟩⟩
    rw [VStep.make, ha]
    cases o <;> rfl

theorem build_adds (hB : B.Ok) {steps : List (VStep F)} (hV : ∀ st ∈ steps, ∀ v ∈ st.vars, V v)
    (hf : ∀ st ∈ steps, st.Fits B.consts.size)
    (h : Plain (kindOf B ρ) V n P) {ds : List Expr} {xs ys : List F}
    (hd : AllGive B (kindOf B ρ) (fun v => B.val (ρ v)) P ds xs) (hx : VStep.values ρ steps xs = some ys) :
    ∃ es n' P', VStep.build B steps ds n = some (es, n') ∧ Plain (kindOf B ρ) V n' P' ∧
      AllGive B (kindOf B ρ) (fun v => B.val (ρ v)) P' es ys := by
  induction steps generalizing ds xs n P with
  | nil =>
    cases hx
    exact ⟨ds, n, P, rfl, h, hd⟩
  | cons st rest ih =>
    simp only [VStep.values, Option.bind_eq_bind, Option.bind_eq_some_iff] at hx
    obtain ⟨x, hx1, hx2⟩ := hx
    obtain ⟨⟨d, n1⟩, e1, P1, h1, s1, d1⟩ := make_adds hB (hV st (List.mem_cons_self ..)) (hf st (List.mem_cons_self ..)) h hd hx1
    have hd' : AllGive B (kindOf B ρ) (fun v => B.val (ρ v)) P1 (ds ++ [d]) (xs ++ [x]) :=
      List.rel_append (hd.imp fun _ _ g => g.mono s1) (.cons d1 .nil)
    obtain ⟨es, n', P', e2, h2, d2⟩ := ih (fun s hs => hV s (List.mem_cons_of_mem _ hs))
      (fun s hs => hf s (List.mem_cons_of_mem _ hs)) h1 hd' hx2
    refine ⟨es, n', P', ?_, h2, d2⟩
    rw [VStep.build, e1]
    exact e2

omit [Field F] in
/-- A step succeeds where the annotations fit and the expressions exist. -/
theorem make_isSome {st : VStep F} {ds : List Expr} :
    (st.make B ds n).isSome = true ↔ st.Fits B.consts.size ∧ st.InRange ds.length := by
  have hget : ∀ i, (ds[i]?).isSome = true ↔ i < ds.length := fun i => by simp
  have hval : ∀ (v : Variable) (x : F), (ValueVariable.new B v x).isSome = true ↔ v.expectSize = some B.consts.size := by
    intro v x
    by_cases h : v.expectSize = some B.consts.size
    · simp [new_eq h, h]
    · simp [new_none h, h]
  have hvar : ∀ (v : Variable) (n : Nat), (v.toDsl B n).isSome = true ↔ ∀ k, v.expectSize = some k → k = B.consts.size := by
    intro v n
    by_cases h : ∀ k, v.expectSize = some k → k = B.consts.size
    · rw [toDsl_eq h]; exact iff_of_true rfl h
    · rw [toDsl_none h]; exact iff_of_false (by simp) h
  have bind : ∀ {α β : Type} (o : Option α) (f : α → β), (o.bind fun a => some (f a)).isSome = o.isSome := by
    intro α β o f
    cases o <;> rfl
  cases st with
  | var v => exact (hvar v n).trans (and_iff_left trivial).symm
  | val v x =>
    rw [VStep.make, Option.bind_eq_bind, bind]
    exact (hval v x).trans (and_iff_left trivial).symm
  | const c => exact iff_of_true rfl ⟨trivial, trivial⟩
  | varC o v c =>
    rw [VStep.make, Option.bind_eq_bind, bind]
    exact (hvar v n).trans (and_iff_left trivial).symm
  | varD o v j =>
    have h1 := hvar v n
    have h2 := hget j
    simp only [VStep.make, Option.bind_eq_bind, VStep.Fits, VStep.InRange]
    rw [← h1, ← h2]
    cases ds[j]? <;> cases v.toDsl B n <;> simp
  | dVar o i v =>
    have h1 := hvar v n
    have h2 := hget i
    simp only [VStep.make, Option.bind_eq_bind, VStep.Fits, VStep.InRange]
    rw [← h1, ← h2]
    cases ds[i]? <;> cases v.toDsl B n <;> simp
  | valVal o v x w y =>
    have h1 := hval v x
    have h2 := hval w y
    simp only [VStep.make, Option.bind_eq_bind, VStep.Fits, VStep.InRange]
    rw [← h1, ← h2]
    cases ValueVariable.new B v x <;> cases ValueVariable.new B w y <;> simp
  | valC o v x c =>
    rw [VStep.make, Option.bind_eq_bind, bind]
    exact (hval v x).trans (and_iff_left trivial).symm
  | valD o v x j =>
    have h1 := hval v x
    have h2 := hget j
    simp only [VStep.make, Option.bind_eq_bind, VStep.Fits, VStep.InRange]
    rw [← h1, ← h2]
    cases ds[j]? <;> cases ValueVariable.new B v x <;> simp
  | dVal o i v x =>
    have h1 := hval v x
    have h2 := hget i
    simp only [VStep.make, Option.bind_eq_bind, VStep.Fits, VStep.InRange]
    rw [← h1, ← h2]
    cases ds[i]? <;> cases ValueVariable.new B v x <;> simp
  | dD o i j =>
    have h1 := hget i
    have h2 := hget j
    simp only [VStep.make, Option.bind_eq_bind, VStep.Fits, VStep.InRange]
    rw [← h1, ← h2]
    cases ds[i]? <;> cases ds[j]? <;> simp
  | dC o i c =>
    rw [VStep.make, Option.bind_eq_bind, bind]
    exact (hget i).trans (and_iff_right trivial).symm

omit [Field F] in
theorem build_isSome {steps : List (VStep F)} {ds : List Expr} :
    (VStep.build B steps ds n).isSome = true ↔
      (∀ st ∈ steps, st.Fits B.consts.size) ∧ VStep.AllInRange steps ds.length := by
  induction steps generalizing ds n with
  | nil => simp [VStep.build, VStep.AllInRange]
  | cons st rest ih =>
    have h1 := make_isSome (B := B) (n := n) (st := st) (ds := ds)
    rw [VStep.build, VStep.AllInRange, List.forall_mem_cons]
    cases hm : st.make B ds n with
    | none =>
      rw [hm] at h1
      have : ¬ (st.Fits B.consts.size ∧ st.InRange ds.length) := fun h => by simpa using h1.mpr h
      refine iff_of_false (by simp) fun h => this ⟨h.1.1, h.2.1⟩
    | some r =>
      rw [hm] at h1
      have h2 := h1.mp rfl
      have := ih (n := r.2) (ds := ds ++ [r.1])
      rw [List.length_append, List.length_singleton] at this
      simp only [Option.bind_eq_bind, Option.bind_some]
      rw [this]
      tauto

/-- A program that stays in range has values. -/
theorem values_some {steps : List (VStep F)} {xs : List F} (h : VStep.AllInRange steps xs.length) :
    ∃ ys, VStep.values ρ steps xs = some ys := by
  induction steps generalizing xs with
  | nil => exact ⟨xs, rfl⟩
  | cons st rest ih =>
    obtain ⟨h1, h2⟩ := h
    have : ∃ x, st.value ρ xs = some x := by
      cases st <;> simp only [VStep.InRange] at h1 <;> simp [VStep.value, h1]
    obtain ⟨x, hx⟩ := this
    obtain ⟨ys, hy⟩ := ih (xs := xs ++ [x]) (by rw [List.length_append]; exact h2)
    exact ⟨ys, by rw [VStep.values, hx]; exact hy⟩

end

/-! ### Inputs that the map does not have -/

section

variable {L : U31Lib} {T : TrackerLib} {vg : Variable → Option SVar} {N : Nat → Nat} {optimize : Bool} {root : Expr}

/-- Some node inside reads an input that the map does not have. -/
def Lacks (vg : Variable → Option SVar) (e : Expr) : Prop := ∃ s v, Sub s e ∧ Reads s v ∧ vg v = none

theorem lacks_arg {id size : Nat} {opc : Opc} {args : List Expr} {a : Expr} (ha : a ∈ args) (h : Lacks vg a) :
    Lacks vg (.node id opc size args) := by
  obtain ⟨s, v, hs, h⟩ := h
  exact ⟨s, v, .arg ha hs, h⟩

theorem lacks_node {id size : Nat} {opc : Opc} {args : List Expr} (h : Lacks vg (.node id opc size args)) :
    (∃ v, (opc = .inputMove v ∨ opc = .inputCopy v) ∧ vg v = none) ∨ ∃ a ∈ args, Lacks vg a := by
  obtain ⟨s, v, hs, hr, hv⟩ := h
  cases hs with
  | refl => exact .inl ⟨v, hr, hv⟩
  | arg ha hs => exact .inr ⟨_, ha, s, v, hs, hr, hv⟩

theorem sub_trans {a b c : Expr} (h1 : Sub a b) (h2 : Sub b c) : Sub a c := by
  induction h2 with
  | refl => exact h1
  | arg ha _ ih => exact .arg ha ih

/-- No node in the cache lacks an input. -/
def CacheFine (vg : Variable → Option SVar) (root : Expr) (c : CState) : Prop :=
  ∀ u, Sub u root → (c.svar u.id).isSome = true → ¬ Lacks vg u

theorem generate_lacks {out : Option Nat} {opc : Opc} {sizes : List Nat} {em : Opc.Emit} {t : Tracker} {v : Variable}
    (ho : opc = .inputMove v ∨ opc = .inputCopy v) (hv : vg v = none) (he : opc.emit L sizes = some em) :
    generate T vg out em t = none := by
  rcases ho with rfl | rfl
  · cases sizes with
    | nil => cases he; simp [generate, hv]
    | cons => cases he
  · cases sizes with
    | nil => cases he; simp [generate, hv]
    | cons => cases he

mutual

theorem express_lacks (hsh : Shared root) : ∀ (e : Expr) (c : CState) (r : List SVar × CState), Sub e root →
    CacheFine vg root c → express L T vg N optimize e c = some r → ¬ Lacks vg e ∧ CacheFine vg root r.2
  | .node id opc size args, c, r, hsub, hc, hr => by
    rw [express] at hr
    split at hr
    · cases hr
    · split at hr
      · rename_i h2
        refine ⟨hc _ hsub h2.2.2.2, ?_⟩
        simp only [Option.bind_eq_bind, Option.bind_eq_some_iff] at hr
        obtain ⟨sv, -, hr⟩ := hr
        split at hr
        · simp only [Option.bind_eq_some_iff] at hr
          obtain ⟨y, -, hr⟩ := hr
          cases hr
          exact hc
        · simp only [Option.bind_eq_some_iff] at hr
          obtain ⟨y, -, hr⟩ := hr
          cases hr
          exact hc
      · split at hr
        · cases hr
        · simp only [Option.bind_eq_bind, Option.bind_eq_some_iff] at hr
          obtain ⟨⟨sizes, c1⟩, h1, em, h2, ⟨vs, t⟩, h3, h4⟩ := hr
          obtain ⟨ha, hc1⟩ := expressArgs_lacks hsh args c (sizes, c1) (fun a ha => sub_trans (.arg ha (.refl _)) hsub) hc h1
          have hl : ¬ Lacks vg (.node id opc size args) := by
            intro hl
            rcases lacks_node hl with ⟨v, ho, hv⟩ | ⟨a, ha', hl⟩
            · rw [generate_lacks ho hv h2] at h3
              cases h3
            · exact ha a ha' hl
          refine ⟨hl, ?_⟩
          unfold keepCopy at h4
          split at h4
          · cases vs with
            | nil => cases h4
            | cons v vs =>
              simp only [Option.bind_eq_bind, Option.bind_eq_some_iff] at h4
              obtain ⟨_, -, _, -, h4⟩ := h4
              cases h4
              intro u hu hs
              by_cases hid : u.id = id
              · rw [hsh u _ hu hsub hid]
                exact hl
              · simp only [upd, if_neg hid] at hs
                exact hc1 u hu hs
          · cases h4
            exact hc1

theorem expressArgs_lacks (hsh : Shared root) : ∀ (es : List Expr) (c : CState) (r : List Nat × CState),
    (∀ a ∈ es, Sub a root) → CacheFine vg root c → expressArgs L T vg N optimize es c = some r →
    (∀ a ∈ es, ¬ Lacks vg a) ∧ CacheFine vg root r.2
  | [], c, r, _, hc, hr => by
    cases hr
    exact ⟨by simp, hc⟩
  | e :: es, c, r, hsub, hc, hr => by
    simp only [expressArgs, Option.bind_eq_bind, Option.bind_eq_some_iff] at hr
    obtain ⟨r1, h1, s, -, ⟨ss, c2⟩, h2, h3⟩ := hr
    cases h3
    obtain ⟨a1, hc1⟩ := express_lacks hsh e c r1 (hsub e (List.mem_cons_self ..)) hc h1
    obtain ⟨a2, hc2⟩ := expressArgs_lacks hsh es r1.2 (ss, c2) (fun a ha => hsub a (List.mem_cons_of_mem _ ha)) hc1 h2
    exact ⟨List.forall_mem_cons.mpr ⟨a1, a2⟩, hc2⟩

end

theorem compile_lacks (hsh : Shared root) (hl : Lacks vg root) (t : Tracker) :
    compile L T vg optimize root t = none := by
  rw [Option.eq_none_iff_forall_not_mem]
  intro r hr
  have hr : compile L T vg optimize root t = some r := hr
  simp only [compile, Option.bind_eq_bind, Option.bind_eq_some_iff] at hr
  obtain ⟨r1, h1, -⟩ := hr
  exact (express_lacks hsh root _ r1 (.refl _) (fun _ _ h => by simp at h) h1).1 hl

end

end TapStark
