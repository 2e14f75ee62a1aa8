import Verif.Proofs.MultiSafe
import Verif.Props.FieldOps
import Verif.Proofs.Fri

/-
The two fields of the expression compiler, and the values of the expressions made by the constructors.
-/

namespace TapStark

open Stark (BB4 asBase4 mk4)
open Stark

/-! ### The fields -/

theorem constVal_bb (x : BB) : constVal [x.val] = some (.nat x.val) :=
  constVal_one ((val_lt' x).trans (by decide))

theorem val_bb (x : BB) : bbField.val x = .nat x.val := by
  unfold BfField.val
  rw [show bbField.u32 x = [x.val] from rfl, constVal_bb]
  rfl

theorem toF_bb (x : BB) : (bbField.val x).toF = .base x := by
  rw [val_bb]; simp [Val.toF]

theorem constVal_bb4 (x : BB4) : constVal ((asBase4 x).map ZMod.val) = some (.ext x) := by
  obtain ⟨a, b, c, d, rfl⟩ := exists_mk4 x
  rw [asBase4_mk4]
  have := constVal_four ⟨val_lt' a, val_lt' b, val_lt' c, val_lt' d⟩
  simp only [List.map_cons, List.map_nil]
  rw [this]
  simp

theorem val_bb4 (x : BB4) : bb4Field.val x = .ext x := by
  unfold BfField.val
  rw [show bb4Field.u32 x = (asBase4 x).map ZMod.val from rfl, constVal_bb4]
  rfl

theorem toF_bb4 (x : BB4) : (bb4Field.val x).toF = .ext x := by
  rw [val_bb4]; rfl

theorem bbField_ok : bbField.Ok where
  const x := by rw [val_bb]; exact constVal_bb x
  kind x := ⟨.inr ⟨x.val + 1, val_lt' x, rfl⟩, rfl⟩
  length _ := rfl
  inj x y h := by
    rw [val_bb, val_bb] at h
    exact ZMod.val_injective _ (Val.nat.inj h)
  add x y := by rw [toF_bb, toF_bb, val_bb]; rfl
  sub x y := by rw [toF_bb, toF_bb, val_bb]; rfl
  mul x y := by rw [toF_bb, toF_bb, val_bb]; rfl
  neg x := by rw [toF_bb, val_bb]; rfl
  double x := by rw [toF_bb, val_bb]; rfl
  pow x n := by rw [toF_bb, val_bb]; rfl
  consts := .inl rfl
  root bits n := by rw [val_bb, if_pos (show bbField.consts.size = 1 from rfl)]; rfl
  twoAdic := bbGen_twoAdic

theorem bb4Field_ok : bb4Field.Ok where
  const x := by rw [val_bb4]; exact constVal_bb4 x
  kind x := by
    obtain ⟨a, b, c, d, rfl⟩ := exists_mk4 x
    rw [show bb4Field.u32 (mk4 a b c d) = (asBase4 (mk4 a b c d)).map ZMod.val from rfl, asBase4_mk4]
    exact ⟨.inl rfl, rfl⟩
  length x := by
    obtain ⟨a, b, c, d, rfl⟩ := exists_mk4 x
    rw [show bb4Field.u32 (mk4 a b c d) = (asBase4 (mk4 a b c d)).map ZMod.val from rfl, asBase4_mk4]
    rfl
  inj x y h := by
    rw [val_bb4, val_bb4] at h
    exact Val.ext.inj h
  add x y := by rw [toF_bb4, toF_bb4, val_bb4]; rfl
  sub x y := by rw [toF_bb4, toF_bb4, val_bb4]; rfl
  mul x y := by rw [toF_bb4, toF_bb4, val_bb4]; rfl
  neg x := by rw [toF_bb4, val_bb4]; rfl
  double x := by rw [toF_bb4, val_bb4]; rfl
  pow x n := by rw [toF_bb4, val_bb4]; rfl
  consts := .inr rfl
  root bits n := by
    rw [val_bb4, if_neg (show ¬ bb4Field.consts.size = 1 by decide)]
    show Val.ext _ = Val.ext (algebraMap BB BB4 (bbGen bits) ^ n)
    rw [map_pow]
  twoAdic := by
    have h := bbGen_twoAdic
    have inj : Function.Injective (algebraMap BB BB4) := (algebraMap BB BB4).injective
    refine ⟨?_, ?_, ?_, ?_⟩
    · intro h2
      apply h.two_ne
      apply inj
      rw [map_ofNat, h2, map_zero]
    · show algebraMap BB BB4 (bbGen 0) = 1
      rw [h.zero, map_one]
    · show algebraMap BB BB4 (bbGen 1) = -1
      rw [h.one, map_neg, map_one]
    · intro b hb
      show algebraMap BB BB4 (bbGen (b + 1)) ^ 2 = algebraMap BB BB4 (bbGen b)
      rw [← map_pow, h.sq b hb]

/-! ### Growing sets of nodes -/

/-- Inputs are only added. -/
def InputManager.Le (m m' : InputManager) : Prop :=
  (∃ a, m'.inputVar = m.inputVar ++ a) ∧ ∃ b, m'.inputHint = m.inputHint ++ b

theorem InputManager.Le.refl (m : InputManager) : m.Le m := ⟨⟨[], by simp⟩, [], by simp⟩

theorem InputManager.Le.trans {a b c : InputManager} (h : a.Le b) (h' : b.Le c) : a.Le c := by
  obtain ⟨⟨x, hx⟩, y, hy⟩ := h
  obtain ⟨⟨x', hx'⟩, y', hy'⟩ := h'
  exact ⟨⟨x ++ x', by rw [hx', hx, List.append_assoc]⟩, y ++ y', by rw [hy', hy, List.append_assoc]⟩

theorem InputManager.Le.sublist {m m' : InputManager} (h : m.Le m') : m.inputs.Sublist m'.inputs := by
  obtain ⟨⟨x, hx⟩, y, hy⟩ := h
  unfold InputManager.inputs
  rw [hx, hy]
  exact (List.sublist_append_left ..).append (List.sublist_append_left ..)

theorem InputManager.Agrees.mono {K : Variable → Kind} {env : Variable → Val} {m m' : InputManager} (h : m.Le m')
    (ha : m'.Agrees K env) : m.Agrees K env where
  vals p hp := ha.vals p (h.sublist.subset hp)
  kinds p hp := ha.kinds p (h.sublist.subset hp)
  nodup := (h.sublist.map Prod.fst).nodup ha.nodup

theorem InputManager.le_assignInput (v : List Nat) (m : InputManager) (n : Nat) : m.Le (m.assignInput v n).2.1 :=
  ⟨⟨_, rfl⟩, [], by simp [InputManager.assignInput]⟩

theorem InputManager.le_assignHintInput (v : List Nat) (m : InputManager) (n : Nat) :
    m.Le (m.assignHintInput v n).2.1 :=
  ⟨⟨[], by simp [InputManager.assignHintInput]⟩, _, rfl⟩

/-- The inputs of a manager have different names, and those made from its counter are below it. -/
structure InputManager.Named (m : InputManager) : Prop where
  names : ∀ p ∈ m.inputs, ∀ i, p.1 = ⟨5, i, none⟩ → i < m.counter
  nodup : (m.inputs.map Prod.fst).Nodup

theorem InputManager.Named.fresh {m : InputManager} (h : m.Named) :
    (⟨5, m.counter, none⟩ : Variable) ∉ m.inputs.map Prod.fst := by
  intro hc
  obtain ⟨p, hp, e⟩ := List.mem_map.mp hc
  exact Nat.lt_irrefl _ (h.names p hp _ e)

theorem InputManager.Named.assignInput {m : InputManager} (h : m.Named) (v : List Nat) (n : Nat) :
    (m.assignInput v n).2.1.Named where
  names p hp i e := by
    simp only [InputManager.assignInput, InputManager.inputs, List.mem_append, List.mem_singleton] at hp ⊢
    rcases hp with hp | hp | rfl
    · have := h.names p (List.mem_append_left _ hp) i e
      omega
    · have := h.names p (List.mem_append_right _ hp) i e
      omega
    · cases e
      exact Nat.lt_succ_self _
  nodup := by
    have : ((m.assignInput v n).2.1.inputs.map Prod.fst).Perm (⟨5, m.counter, none⟩ :: m.inputs.map Prod.fst) := by
      simp only [InputManager.assignInput, InputManager.inputs, List.map_append, List.map_cons, List.map_nil,
        ← List.append_assoc]
      exact List.perm_append_singleton ..
    exact this.nodup_iff.mpr (List.nodup_cons.mpr ⟨h.fresh, h.nodup⟩)

theorem InputManager.Named.assignHintInput {m : InputManager} (h : m.Named) (v : List Nat) (n : Nat) :
    (m.assignHintInput v n).2.1.Named where
  names p hp i e := by
    simp only [InputManager.assignHintInput, InputManager.inputs, List.mem_append, List.mem_singleton] at hp ⊢
    rcases hp with (hp | rfl) | hp
    · have := h.names p (List.mem_append_left _ hp) i e
      omega
    · cases e
      exact Nat.lt_succ_self _
    · have := h.names p (List.mem_append_right _ hp) i e
      omega
  nodup := by
    have : ((m.assignHintInput v n).2.1.inputs.map Prod.fst).Perm
        (⟨5, m.counter, none⟩ :: m.inputs.map Prod.fst) := by
      simp only [InputManager.assignHintInput, InputManager.inputs, List.map_append, List.map_cons, List.map_nil]
      rw [← List.cons_append]
      exact (List.perm_append_singleton ..).append_right _
    exact this.nodup_iff.mpr (List.nodup_cons.mpr ⟨h.fresh, h.nodup⟩)

/-- Values for the inputs of a manager. -/
theorem exists_agrees {m : InputManager} (hn : (m.inputs.map Prod.fst).Nodup)
    (hv : ∀ p ∈ m.inputs, (constVal p.2).isSome = true) : ∃ K env, m.Agrees K env := by
  classical
  have look : ∀ p ∈ m.inputs, m.inputs.find? (fun q => q.1 = p.1) = some p := by
    generalize m.inputs = l at hn
    induction l with
    | nil => simp
    | cons q l ih =>
      intro p hp
      rw [List.map_cons, List.nodup_cons] at hn
      rcases List.mem_cons.mp hp with rfl | hp
      · simp
      · have : ¬ q.1 = p.1 := fun h => hn.1 (h ▸ List.mem_map_of_mem hp)
        rw [List.find?_cons_of_neg (by simpa using this)]
        exact ih hn.2 p hp
  refine ⟨fun v => ((m.inputs.find? (fun q => q.1 = v)).map fun q => constKind q.2).getD .ext,
    fun v => ((m.inputs.find? (fun q => q.1 = v)).bind fun q => constVal q.2).getD (.nat 0), ?_, ?_, hn⟩
  · intro p hp
    rw [look p hp]
    obtain ⟨v, hv⟩ := Option.isSome_iff_exists.mp (hv p hp)
    simp [hv]
  · intro p hp
    rw [look p hp]
    rfl

theorem Built.new (K : Variable → Kind) (n : Nat) : Built K NoNodes .new n NoNodes where
  good :=
    ⟨fun _ h => h.elim, fun _ h => h.elim, fun _ _ h => h.elim, fun _ h => h.elim, fun _ _ h => h.elim,
      fun _ h => h.elim, fun _ h => h.elim, fun _ _ _ h => h.elim⟩
  safe _ h := h.elim
  multi _ h := h.elim
  base _ h := h.elim
  prov _ _ h := h.elim
  names := by simp [InputManager.new, InputManager.inputs]
  nodup := by simp [InputManager.new, InputManager.inputs]
  moves _ _ h := h.elim

section

variable {F : Type} [Field F] {B : BfField F} {K : Variable → Kind} {env : Variable → Val} {m m' : InputManager}
variable {n n' : Nat} {H P P' : Expr → Prop} {a b e : Expr} {x y : F}

/-- The nodes do not depend on the expression and the hints of the manager. -/
theorem Built.congr (h : Built K H m n P) (hv : m'.inputVar = m.inputVar) (hh : m'.inputHint = m.inputHint)
    (hc : m'.counter = m.counter) : Built K H m' n P := by
  have e : m'.inputs = m.inputs := by rw [InputManager.inputs, hv, hh]; rfl
  exact ⟨h.good, h.safe, h.multi, h.base, by unfold InputManager.Provides; rw [e]; exact h.prov, by rw [e, hc]; exact h.names,
    by rw [e]; exact h.nodup, h.moves⟩

theorem Built.mono (h : Built K H m n P) (hn : n ≤ n') : Built K H m n' P := { h with good := h.good.mono hn }

theorem Den.mono (h : Den B K H env P e x) (hP : ∀ s, P s → P' s) : Den B K H env P' e x := { h with mem := hP _ h.mem }

theorem Den.size (hg : Good K n P) (h : Den B K H env P e x) : e.size = B.consts.size := by
  obtain ⟨k, h1, _, h2⟩ := h.kind
  rw [hg.size e k h.mem h1, h2]

theorem BfField.Ok.size (hB : B.Ok) : B.consts.size = 1 ∨ B.consts.size = 4 := by
  rcases hB.consts with h | h <;> rw [h] <;> simp [bbConsts, bb4Consts]

theorem varSize_of (h : e.size = 1 ∨ e.size = 4) : ∃ k, e.varSize = some k := by
  refine ⟨e.size, ?_⟩
  unfold Expr.varSize
  rw [if_pos]
  rcases h with h | h
  · exact .inl h
  · exact .inr (.inl h)

theorem Den.varSize (hB : B.Ok) (hg : Good K n P) (h : Den B K H env P e x) : ∃ k, e.varSize = some k :=
  varSize_of (h.size hg ▸ hB.size)

/-- Adding a node that reads no input. -/
theorem Built.node' (h : Built K H m n P) {id n' : Nat} {opc : Opc} {size : Nat} {args : List Expr}
    (hid : ∀ s, P s → s.id ≠ id) (hn : n ≤ n') (hid' : id ≤ n')
    (hargs : ∀ a ∈ args, P a ∧ ∃ m, a.varSize = some m)
    (types : opc.Types K (args.map (kinds K)) (opc.kinds K (args.map (kinds K))))
    (hsize : ∀ k, opc.kinds K (args.map (kinds K)) = [k] → size = k.size)
    (one : (opc = .sampleBase ∨ ∃ f n, opc = .lookup f n) → ∀ a ∈ args, a.size = 1)
    (hin : ∀ v, ¬ Reads (.node id opc size args) v) (ho : opc.outNum = some 1) (hfree : ∀ a ∈ args, Free H a) :
    Built K H m n' (ins (.node id opc size args) P) where
  good := by
    refine h.good.ins hid hn hid' hargs types hsize one ?_ ?_
    · exact fun v hv => absurd (.inl hv) (hin v)
    · exact fun v hv => absurd (.inr hv) (hin v)
  safe := h.safe.ins h.good (fun a ha => (hargs a ha).1) ho fun a ha _ s hs hm => hfree a ha s (h.multi s hs hm) hm
  multi := by
    rintro s (rfl | hs) hm
    · exact absurd ho hm
    · exact h.multi s hs hm
  base s hs := ins_of (h.base s hs)
  prov := by
    rintro s v (rfl | hs) hr
    · exact absurd hr (hin v)
    · exact h.prov s v hs hr
  names := h.names
  nodup := h.nodup
  moves := by
    rintro s v (rfl | hs) hv
    · exact absurd (.inl hv) (hin v)
    · exact h.moves s v hs hv

theorem Built.node (h : Built K H m n P) {id n' : Nat} {opc : Opc} {size : Nat} {args : List Expr}
    (hid : n < id) (hid' : id ≤ n')
    (hargs : ∀ a ∈ args, P a ∧ ∃ m, a.varSize = some m)
    (types : opc.Types K (args.map (kinds K)) (opc.kinds K (args.map (kinds K))))
    (hsize : ∀ k, opc.kinds K (args.map (kinds K)) = [k] → size = k.size)
    (one : (opc = .sampleBase ∨ ∃ f n, opc = .lookup f n) → ∀ a ∈ args, a.size = 1)
    (hin : ∀ v, ¬ Reads (.node id opc size args) v) (ho : opc.outNum = some 1) (hfree : ∀ a ∈ args, Free H a) :
    Built K H m n' (ins (.node id opc size args) P) :=
  h.node' (fun s hs => by have := h.good.le s hs; omega) (by omega) hid' hargs types hsize one hin ho hfree

/-- A new node is not inside the nodes of the start. -/
theorem Built.free_new (h : Built K H m n P) {u : Expr} (hu : ¬ P u) : Free H u :=
  fun s hs _ hsub => hu (h.good.sub hsub (h.base s hs))

theorem Built.free_gt (h : Built K H m n P) {u : Expr} (hu : n < u.id) : Free H u :=
  h.free_new fun hp => absurd (h.good.le u hp) (by omega)

/-- The expression `e` with value `x` has been built. -/
def Makes (B : BfField F) (K : Variable → Kind) (H : Expr → Prop) (env : Variable → Val) (P : Expr → Prop) (m' : InputManager) (n' : Nat)
    (e : Expr) (x : F) : Prop :=
  ∃ P', Built K H m' n' P' ∧ (∀ s, P s → P' s) ∧ Den B K H env P' e x

theorem makes_const (hB : B.Ok) (h : Built K H m n P) (x : F) :
    Makes B K H env P m (Dsl.constant (B.u32 x) n).2 (Dsl.constant (B.u32 x) n).1 x := by
  refine ⟨_, h.node (Nat.lt_succ_self n) (Nat.le_refl _) (by simp) ?_ ?_ ?_ ?_ rfl (by simp), fun s => ins_of, ins_self, h.free_gt (Nat.lt_succ_self n), ?_, ?_⟩
  · exact ⟨rfl, _, B.val x, rfl, hB.const x, constVal_has (hB.const x)⟩
  · intro k hk
    have : [constKind (B.u32 x)] = [k] := hk
    cases this
    rw [hB.length, (hB.kind x).2]
  · rintro (h | ⟨_, _, h⟩) <;> cases h
  · rintro v (h | h) <;> cases h
  · exact ⟨constKind (B.u32 x), by rw [Dsl.constant, Dsl.mk, kinds_node]; rfl, hB.kind x⟩
  · rw [Dsl.constant, Dsl.mk, eval, evalArgs]
    simp [Opc.denote, hB.const]

theorem Kind.IsField.join_size {k l : Kind} {c : Nat} (hc : c = 1 ∨ c = 4) (hk : k.IsField) (hl : l.IsField)
    (h1 : k.size = c) (h2 : l.size = c) : (k.join l).IsField ∧ (k.join l).size = c := by
  rcases hk with rfl | ⟨b, hb, rfl⟩ <;> rcases hl with rfl | ⟨b', hb', rfl⟩
  · exact ⟨.inl rfl, h1⟩
  · exact absurd (h1.trans h2.symm) (by simp [Kind.size])
  · exact absurd (h1.trans h2.symm) (by simp [Kind.size])
  · have : (Kind.nat b).join (Kind.nat b') = .base := by simp [Kind.join]
    rw [this]
    exact ⟨.inr ⟨bbP, Nat.le_refl _, rfl⟩, h1⟩

theorem evalArgs_one (x : Expr) : evalArgs env [x] = (eval env x).map fun v => [v] := by
  rw [evalArgs, evalArgs]
  cases eval env x <;> simp

omit [Field F] in
theorem free_two (ha : Den B K H env P a x) (hb : Den B K H env P b y) : ∀ c ∈ [a, b], Free H c := by
  intro c hc
  rcases List.mem_cons.mp hc with rfl | hc
  · exact ha.free
  · rw [List.mem_singleton] at hc
    subst hc
    exact hb.free

/-- Nodes with two field operands. -/
theorem makes_bin (hB : B.Ok) (h : Built K H m n P) (ha : Den B K H env P a x) (hb : Den B K H env P b y) {opc : Opc} {z : F}
    (ho : opc = .add ∨ opc = .sub ∨ opc = .mul)
    (hd : opc.denote env [[B.val x], [B.val y]] = some [B.val z]) :
    Makes B K H env P m (Dsl.mk opc (max a.size b.size) [a, b] n).2 (Dsl.mk opc (max a.size b.size) [a, b] n).1 z := by
  obtain ⟨k, hk1, hk2, hk3⟩ := ha.kind
  obtain ⟨l, hl1, hl2, hl3⟩ := hb.kind
  have hj := hk2.join_size hB.size hl2 hk3 hl3
  have hkinds : opc.kinds K ([a, b].map (kinds K)) = [k.join l] := by
    rw [List.map_cons, List.map_cons, hk1, hl1]
    rcases ho with rfl | rfl | rfl <;> rfl
  refine ⟨_, h.node (Nat.lt_succ_self n) (Nat.le_refl _) ?_ ?_ ?_ ?_ ?_ ?_ (free_two ha hb), fun s => ins_of, ins_self,
    h.free_gt (Nat.lt_succ_self n), ?_, ?_⟩
  · intro c hc
    rcases List.mem_cons.mp hc with rfl | hc
    · exact ⟨ha.mem, ha.varSize hB h.good⟩
    · rw [List.mem_singleton] at hc
      subst hc
      exact ⟨hb.mem, hb.varSize hB h.good⟩
  · rw [hkinds, List.map_cons, List.map_cons, hk1, hl1]
    rcases ho with rfl | rfl | rfl <;> exact ⟨k, l, rfl, hk2, hl2, rfl⟩
  · intro c hc
    rw [hkinds] at hc
    cases hc
    rw [ha.size h.good, hb.size h.good, hj.2, Nat.max_self]
  · rcases ho with rfl | rfl | rfl <;> rintro (h | ⟨_, _, h⟩) <;> cases h
  · rcases ho with rfl | rfl | rfl <;> rintro v (h | h) <;> cases h
  · rcases ho with rfl | rfl | rfl <;> rfl
  · exact ⟨k.join l, by rw [Dsl.mk, kinds_node, hkinds], hj⟩
  · rw [Dsl.mk, eval, evalArgs_two, ha.eval, hb.eval]
    simpa using hd

theorem makes_add (hB : B.Ok) (h : Built K H m n P) (ha : Den B K H env P a x) (hb : Den B K H env P b y) :
    Makes B K H env P m (Dsl.add a b n).2 (Dsl.add a b n).1 (x + y) :=
  makes_bin hB h ha hb (.inl rfl) (by rw [← hB.add]; rfl)

theorem makes_sub (hB : B.Ok) (h : Built K H m n P) (ha : Den B K H env P a x) (hb : Den B K H env P b y) :
    Makes B K H env P m (Dsl.sub a b n).2 (Dsl.sub a b n).1 (x - y) :=
  makes_bin hB h ha hb (.inr (.inl rfl)) (by rw [← hB.sub]; rfl)

theorem makes_mul (hB : B.Ok) (h : Built K H m n P) (ha : Den B K H env P a x) (hb : Den B K H env P b y) :
    Makes B K H env P m (Dsl.mul a b n).2 (Dsl.mul a b n).1 (x * y) :=
  makes_bin hB h ha hb (.inr (.inr rfl)) (by rw [← hB.mul]; rfl)

/-- Nodes with one field operand. -/
theorem makes_un (hB : B.Ok) (h : Built K H m n P) (ha : Den B K H env P a x) {opc : Opc} {z : F}
    (ho : opc = .neg ∨ opc = .square ∨ opc = .double ∨ ∃ k, opc = .expConst B.consts.size (2 ^ k))
    (hd : opc.denote env [[B.val x]] = some [B.val z]) :
    Makes B K H env P m (Dsl.mk opc a.size [a] n).2 (Dsl.mk opc a.size [a] n).1 z := by
  obtain ⟨k, hk1, hk2, hk3⟩ := ha.kind
  have hj := hk2.join_size hB.size hk2 hk3 hk3
  have hkinds : opc.kinds K ([a].map (kinds K)) = [k.join k] := by
    rw [List.map_cons, hk1]
    rcases ho with rfl | rfl | rfl | ⟨_, rfl⟩ <;> rfl
  refine ⟨_, h.node (Nat.lt_succ_self n) (Nat.le_refl _) ?_ ?_ ?_ ?_ ?_ ?_ (by simpa using ha.free), fun s => ins_of,
    ins_self, h.free_gt (Nat.lt_succ_self n), ?_, ?_⟩
  · intro c hc
    rw [List.mem_singleton] at hc
    subst hc
    exact ⟨ha.mem, ha.varSize hB h.good⟩
  · rw [hkinds, List.map_cons, hk1]
    rcases ho with rfl | rfl | rfl | ⟨p, rfl⟩
    · exact ⟨k, rfl, hk2, rfl⟩
    · exact ⟨k, rfl, hk2, rfl⟩
    · exact ⟨k, rfl, hk2, rfl⟩
    · exact ⟨k, rfl, hk2, hk3.symm, ⟨p, rfl⟩, rfl⟩
  · intro c hc
    rw [hkinds] at hc
    cases hc
    rw [ha.size h.good, hj.2]
  · rcases ho with rfl | rfl | rfl | ⟨_, rfl⟩ <;> rintro (h | ⟨_, _, h⟩) <;> cases h
  · rcases ho with rfl | rfl | rfl | ⟨_, rfl⟩ <;> rintro v (h | h) <;> cases h
  · rcases ho with rfl | rfl | rfl | ⟨_, rfl⟩ <;> rfl
  · exact ⟨k.join k, by rw [Dsl.mk, kinds_node, hkinds], hj⟩
  · rw [Dsl.mk, eval, evalArgs_one, ha.eval]
    simpa using hd

theorem makes_neg (hB : B.Ok) (h : Built K H m n P) (ha : Den B K H env P a x) :
    Makes B K H env P m (Dsl.neg a n).2 (Dsl.neg a n).1 (-x) :=
  makes_un hB h ha (.inl rfl) (by rw [← hB.neg]; rfl)

theorem makes_square (hB : B.Ok) (h : Built K H m n P) (ha : Den B K H env P a x) :
    Makes B K H env P m (Dsl.square a n).2 (Dsl.square a n).1 (x ^ 2) :=
  makes_un hB h ha (.inr (.inl rfl)) (by rw [← hB.pow]; rfl)

theorem makes_double (hB : B.Ok) (h : Built K H m n P) (ha : Den B K H env P a x) :
    Makes B K H env P m (Dsl.double a n).2 (Dsl.double a n).1 (2 * x) :=
  makes_un hB h ha (.inr (.inr (.inl rfl))) (by rw [← hB.double]; rfl)

theorem makes_expConstant (hB : B.Ok) (h : Built K H m n P) (ha : Den B K H env P a x) (k : Nat) :
    Makes B K H env P m (Dsl.expConstant B.consts.size a (2 ^ k) n).2 (Dsl.expConstant B.consts.size a (2 ^ k) n).1
      (x ^ 2 ^ k) :=
  makes_un hB h ha (.inr (.inr (.inr ⟨k, rfl⟩))) (by rw [← hB.pow]; rfl)

theorem makes_addF (hB : B.Ok) (h : Built K H m n P) (ha : Den B K H env P a x) (c : F) :
    Makes B K H env P m (Dsl.addF a (B.u32 c) n).2 (Dsl.addF a (B.u32 c) n).1 (x + c) := by
  obtain ⟨P1, h1, s1, d1⟩ := makes_const (env := env) hB h c
  obtain ⟨P2, h2, s2, d2⟩ := makes_add hB h1 (ha.mono s1) d1
  exact ⟨P2, h2, fun s hs => s2 s (s1 s hs), d2⟩

theorem makes_subF (hB : B.Ok) (h : Built K H m n P) (ha : Den B K H env P a x) (c : F) :
    Makes B K H env P m (Dsl.subF a (B.u32 c) n).2 (Dsl.subF a (B.u32 c) n).1 (x - c) := by
  obtain ⟨P1, h1, s1, d1⟩ := makes_const (env := env) hB h c
  obtain ⟨P2, h2, s2, d2⟩ := makes_sub hB h1 (ha.mono s1) d1
  exact ⟨P2, h2, fun s hs => s2 s (s1 s hs), d2⟩

theorem makes_mulF (hB : B.Ok) (h : Built K H m n P) (ha : Den B K H env P a x) (c : F) :
    Makes B K H env P m (Dsl.mulF a (B.u32 c) n).2 (Dsl.mulF a (B.u32 c) n).1 (x * c) := by
  obtain ⟨P1, h1, s1, d1⟩ := makes_const (env := env) hB h c
  obtain ⟨P2, h2, s2, d2⟩ := makes_mul hB h1 (ha.mono s1) d1
  exact ⟨P2, h2, fun s hs => s2 s (s1 s hs), d2⟩

/-! ### Inputs -/

theorem Built.fresh (h : Built K H m n P) : (⟨5, m.counter, none⟩ : Variable) ∉ m.inputs.map Prod.fst := by
  intro hc
  obtain ⟨p, hp, e⟩ := List.mem_map.mp hc
  exact Nat.lt_irrefl _ (h.names p hp _ e)

/-- Adding a node that moves a new input. -/
theorem Built.input (h : Built K H m n P) {size : Nat} (hc : m'.counter = m.counter + 1)
    (hi : ∀ p, p ∈ m'.inputs ↔ p ∈ m.inputs ∨ p.1 = ⟨5, m.counter, none⟩ ∧ p ∈ m'.inputs)
    (hv : (⟨5, m.counter, none⟩ : Variable) ∈ m'.inputs.map Prod.fst) (hn : (m'.inputs.map Prod.fst).Nodup)
    (hs : size = (K ⟨5, m.counter, none⟩).size) :
    Built K H m' (n + 1) (ins (.node (n + 1) (.inputMove ⟨5, m.counter, none⟩) size []) P) where
  good := by
    refine h.good.ins (fun s hs => ?_) (Nat.le_succ n) (Nat.le_refl _) (by simp) ⟨rfl, rfl⟩ ?_ ?_ ?_ ?_
    · have := h.good.le s hs; omega
    · intro k hk
      have : [K ⟨5, m.counter, none⟩] = [k] := hk
      cases this
      exact hs
    · rintro (h | ⟨_, _, h⟩) <;> cases h
    · intro v hv' s hs' hr
      cases hv'
      exact h.fresh (h.prov s _ hs' hr)
    · intro v hv'
      cases hv'
  safe := h.safe.ins h.good (fun _ h => (by cases h)) rfl fun _ h => (by cases h)
  multi := by
    rintro s (rfl | hs) hm
    · exact absurd rfl hm
    · exact h.multi s hs hm
  base s hs := ins_of (h.base s hs)
  prov := by
    rintro s v (rfl | hs) hr
    · rcases hr with hr | hr <;> cases hr
      exact hv
    · obtain ⟨p, hp, rfl⟩ := List.mem_map.mp (h.prov s v hs hr)
      exact List.mem_map_of_mem ((hi p).mpr (.inl hp))
  names := by
    intro p hp i e
    rcases (hi p).mp hp with hp | ⟨hp, _⟩
    · have := h.names p hp i e
      omega
    · rw [hp] at e
      cases e
      omega
  nodup := hn
  moves := by
    rintro s v (rfl | hs) hv
    · cases hv; rfl
    · exact h.moves s v hs hv

theorem makes_input (hB : B.Ok) (h : Built K H m n P) (x : F) (ha : (m.assignInput (B.u32 x) n).2.1.Agrees K env) :
    Makes B K H env P (m.assignInput (B.u32 x) n).2.1 (m.assignInput (B.u32 x) n).2.2
      (m.assignInput (B.u32 x) n).1 x := by
  have hmem : (⟨5, m.counter, none⟩, B.u32 x) ∈ (m.assignInput (B.u32 x) n).2.1.inputs := by
    simp [InputManager.assignInput, InputManager.inputs]
  have hK : K ⟨5, m.counter, none⟩ = constKind (B.u32 x) := ha.kinds _ hmem
  have hE : B.val x = env ⟨5, m.counter, none⟩ := by
    have := ha.vals _ hmem
    rw [hB.const] at this
    exact Option.some.inj this
  refine ⟨_, h.input rfl ?_ (List.mem_map_of_mem (f := Prod.fst) hmem) ha.nodup ?_, fun s => ins_of, ins_self,
    h.free_gt (Nat.lt_succ_self n), ?_, ?_⟩
  · intro p
    simp only [InputManager.assignInput, InputManager.inputs, List.mem_append, List.mem_singleton]
    constructor
    · rintro (hp | hp | rfl)
      · exact .inl (.inl hp)
      · exact .inl (.inr hp)
      · exact .inr ⟨rfl, .inr (.inr rfl)⟩
    · rintro ((hp | hp) | ⟨_, hp⟩)
      · exact .inl hp
      · exact .inr (.inl hp)
      · exact hp
  · rw [hK, hB.length, (hB.kind x).2]
  · exact ⟨_, by rw [InputManager.assignInput, kinds_node]; rfl, hK ▸ hB.kind x⟩
  · rw [InputManager.assignInput, eval, evalArgs, hE]
    rfl

theorem makes_hintInput (hB : B.Ok) (h : Built K H m n P) (x : F)
    (ha : (m.assignHintInput (B.u32 x) n).2.1.Agrees K env) :
    Makes B K H env P (m.assignHintInput (B.u32 x) n).2.1 (m.assignHintInput (B.u32 x) n).2.2
      (m.assignHintInput (B.u32 x) n).1 x := by
  have hmem : (⟨5, m.counter, none⟩, B.u32 x) ∈ (m.assignHintInput (B.u32 x) n).2.1.inputs := by
    simp [InputManager.assignHintInput, InputManager.inputs]
  have hK : K ⟨5, m.counter, none⟩ = constKind (B.u32 x) := ha.kinds _ hmem
  have hE : B.val x = env ⟨5, m.counter, none⟩ := by
    have := ha.vals _ hmem
    rw [hB.const] at this
    exact Option.some.inj this
  refine ⟨_, h.input rfl ?_ (List.mem_map_of_mem (f := Prod.fst) hmem) ha.nodup ?_, fun s => ins_of, ins_self,
    h.free_gt (Nat.lt_succ_self n), ?_, ?_⟩
  · intro p
    simp only [InputManager.assignHintInput, InputManager.inputs, List.mem_append, List.mem_singleton]
    constructor
    · rintro ((hp | rfl) | hp)
      · exact .inl (.inl hp)
      · exact .inr ⟨rfl, .inl (.inr rfl)⟩
      · exact .inl (.inr hp)
    · rintro ((hp | hp) | ⟨_, hp⟩)
      · exact .inl (.inl hp)
      · exact .inr hp
      · exact hp
  · rw [hK, hB.length, (hB.kind x).2]
  · exact ⟨_, by rw [InputManager.assignHintInput, kinds_node]; rfl, hK ▸ hB.kind x⟩
  · rw [InputManager.assignHintInput, eval, evalArgs, hE]
    rfl

/-- Adding a node that copies an input of another row. -/
theorem Built.copy (h : Built K H m n P) {v : Variable} {size : Nat} (hv : v ∈ m.inputs.map Prod.fst) (h5 : v.row ≠ 5)
    (hs : size = (K v).size) : Built K H m (n + 1) (ins (.node (n + 1) (.inputCopy v) size []) P) where
  good := by
    refine h.good.ins (fun s hs => ?_) (Nat.le_succ n) (Nat.le_refl _) (by simp) ⟨rfl, rfl⟩ ?_ ?_ ?_ ?_
    · have := h.good.le s hs; omega
    · intro k hk
      have : [K v] = [k] := hk
      cases this
      exact hs
    · rintro (h | ⟨_, _, h⟩) <;> cases h
    · intro w hw
      cases hw
    · intro w hw s hs' hm
      cases hw
      exact h5 (h.moves s _ hs' hm)
  safe := h.safe.ins h.good (fun _ h => (by cases h)) rfl fun _ h => (by cases h)
  multi := by
    rintro s (rfl | hs) hm
    · exact absurd rfl hm
    · exact h.multi s hs hm
  base s hs := ins_of (h.base s hs)
  prov := by
    rintro s w (rfl | hs) hr
    · rcases hr with hr | hr <;> cases hr
      exact hv
    · exact h.prov s w hs hr
  names := h.names
  nodup := h.nodup
  moves := by
    rintro s w (rfl | hs) hw
    · cases hw
    · exact h.moves s w hs hw

/-- A copy of an input with the value `x`. -/
theorem makes_copy (hB : B.Ok) (h : Built K H m n P) (ha : m.Agrees K env) {v : Variable} {x : F}
    (hv : (v, B.u32 x) ∈ m.inputs) (h5 : v.row ≠ 5) :
    Makes B K H env P m (Dsl.mk (.inputCopy v) B.consts.size [] n).2 (Dsl.mk (.inputCopy v) B.consts.size [] n).1 x := by
  have hK : K v = constKind (B.u32 x) := ha.kinds _ hv
  have hE : B.val x = env v := by
    have := ha.vals _ hv
    rw [hB.const] at this
    exact Option.some.inj this
  refine ⟨_, h.copy (List.mem_map_of_mem (f := Prod.fst) hv) h5 ?_, fun s => ins_of, ins_self,
    h.free_gt (Nat.lt_succ_self n), ?_, ?_⟩
  · rw [hK, (hB.kind x).2]
  · exact ⟨_, by rw [Dsl.mk, kinds_node]; rfl, hK ▸ hB.kind x⟩
  · rw [Dsl.mk, eval, evalArgs, hE]
    rfl

/-! ### Checks -/

/-- The check `e` with outcome `r` has been built. -/
def MakesCheck (K : Variable → Kind) (H : Expr → Prop) (env : Variable → Val) (P : Expr → Prop) (m' : InputManager) (n' : Nat) (e : Expr)
    (r : Option Bool) : Prop :=
  ∃ P', Built K H m' n' P' ∧ (∀ s, P s → P' s) ∧ P' e ∧ e.opc = .equal ∧ IsCheck K env e r

/-- The outcome of comparing field elements: a failed comparison of extension field elements fails. -/
noncomputable def cmp (B : BfField F) (x y : F) : Option Bool :=
  open Classical in if x = y then some true else if B.consts.size = 1 then some false else none

omit [Field F] in
theorem cmp_true : cmp B x y = some true ↔ x = y := by
  unfold cmp
  split
  · simpa
  · split <;> simpa

theorem Kind.IsField.num {k : Kind} (h : k.IsField) (hs : k.size = 1) : k.IsNum := by
  rcases h with rfl | ⟨b, _, rfl⟩
  · cases hs
  · exact ⟨b, rfl⟩

theorem Kind.IsField.ext {k : Kind} (h : k.IsField) (hs : k.size = 4) : k = .ext := by
  rcases h with rfl | ⟨b, _, rfl⟩
  · rfl
  · cases hs

theorem BfField.Ok.val_size (hB : B.Ok) (x : F) :
    (B.consts.size = 1 ∧ ∃ k, B.val x = .nat k) ∨ (B.consts.size = 4 ∧ ∃ z, B.val x = .ext z) := by
  have h1 := constVal_has (hB.const x)
  have h2 := hB.kind x
  cases hv : B.val x with
  | nat k =>
    left
    rw [hv] at h1
    refine ⟨?_, k, rfl⟩
    rw [← h2.2]
    cases hk : constKind (B.u32 x) with
    | nat b => rfl
    | ext => rw [hk] at h1; exact h1.elim
  | ext z =>
    right
    rw [hv] at h1
    refine ⟨?_, z, rfl⟩
    rw [← h2.2]
    cases hk : constKind (B.u32 x) with
    | nat b => rw [hk] at h1; exact h1.elim
    | ext => rfl

theorem makes_equal (hB : B.Ok) (h : Built K H m n P) (ha : Den B K H env P a x) (hb : Den B K H env P b y) :
    MakesCheck K H env P m (Dsl.equal a b n).2 (Dsl.equal a b n).1 (cmp B x y) := by
  obtain ⟨k, hk1, hk2, hk3⟩ := ha.kind
  obtain ⟨l, hl1, hl2, hl3⟩ := hb.kind
  refine ⟨_, h.node (Nat.lt_succ_self n) (Nat.le_refl _) ?_ ?_ ?_ ?_ ?_ rfl (free_two ha hb), fun s => ins_of, ins_self, rfl, ?_, ?_⟩
  · intro c hc
    rcases List.mem_cons.mp hc with rfl | hc
    · exact ⟨ha.mem, ha.varSize hB h.good⟩
    · rw [List.mem_singleton] at hc
      subst hc
      exact ⟨hb.mem, hb.varSize hB h.good⟩
  · rw [List.map_cons, List.map_cons, hk1, hl1]
    refine ⟨k, l, rfl, ?_, rfl⟩
    rcases hB.size with hs | hs
    · exact .inr ⟨hk2.num (hk3.trans hs), hl2.num (hl3.trans hs)⟩
    · exact .inl ⟨hk2.ext (hk3.trans hs), hl2.ext (hl3.trans hs)⟩
  · intro c hc
    have : [Kind.nat 2] = [c] := hc
    cases this
    rfl
  · rintro (h | ⟨_, _, h⟩) <;> cases h
  · rintro v (h | h) <;> cases h
  · rw [Dsl.equal, Dsl.mk, kinds_node]; rfl
  · rw [Dsl.equal, Dsl.mk, eval, evalArgs_two, ha.eval, hb.eval]
    simp only [Option.bind_some, Option.map_some]
    have hxy : B.val x = B.val y ↔ x = y := ⟨hB.inj x y, fun h => h ▸ rfl⟩
    unfold cmp
    rcases hB.val_size x with ⟨hs, k, hk⟩ | ⟨hs, k, hk⟩ <;> rcases hB.val_size y with ⟨hs', l, hl⟩ | ⟨hs', l, hl⟩
    · rw [hk, hl] at hxy ⊢
      by_cases hh : x = y
      · have := Val.nat.inj (hxy.mpr hh)
        simp [Opc.denote, hh, this]
      · have : ¬ k = l := fun h => hh (hxy.mp (h ▸ rfl))
        simp [Opc.denote, hh, this, hs]
    · omega
    · omega
    · rw [hk, hl] at hxy ⊢
      by_cases hh : x = y
      · have := Val.ext.inj (hxy.mpr hh)
        simp [Opc.denote, hh, this]
      · have : ¬ k = l := fun h => hh (hxy.mp (h ▸ rfl))
        simp [Opc.denote, hh, this, hs]

theorem makes_equalC (hB : B.Ok) (h : Built K H m n P) (ha : Den B K H env P a x) (c : F) :
    MakesCheck K H env P m (Dsl.equalC a (B.u32 c) n).2 (Dsl.equalC a (B.u32 c) n).1 (cmp B x c) := by
  obtain ⟨P1, h1, s1, d1⟩ := makes_const (env := env) hB h c
  obtain ⟨P2, h2, s2, d2⟩ := makes_equal hB h1 (ha.mono s1) d1
  exact ⟨P2, h2, fun s hs => s2 s (s1 s hs), d2⟩

/-! ### Points of a domain -/

theorem makes_root (hB : B.Ok) (h : Built K H m n P) {idx bits : Nat} (hb1 : 1 ≤ bits) (hb : bits ≤ 27)
    (hi : idx < 2 ^ bits) :
    let r := Dsl.reverseBitsLen idx bits n
    Makes B K H env P m (Dsl.indexToRou B.consts r.1 bits r.2).2 (Dsl.indexToRou B.consts r.1 bits r.2).1
      (B.gen bits ^ Fri.revBits bits idx) := by
  have hi' : idx < 2 ^ 31 := lt_of_lt_of_le hi (Nat.pow_le_pow_right (by decide) (by omega))
  have hc := constVal_one hi'
  have h1 : Built K H m (n + 2) (ins (.node (n + 2) (.constant [idx]) 1 []) P) := by
    refine h.node (Nat.lt_add_of_pos_right (by decide)) (Nat.le_refl _) (by simp) ?_ ?_ ?_ ?_ rfl (by simp)
    · exact ⟨rfl, _, .nat idx, rfl, hc, constVal_has hc⟩
    · intro k hk
      have : [constKind [idx]] = [k] := hk
      cases this
      rfl
    · rintro (h | ⟨_, _, h⟩) <;> cases h
    · rintro v (h | h) <;> cases h
  have hk1 : kinds K (.node (n + 2) (.constant [idx]) 1 []) = [.nat (idx + 1)] := by rw [kinds_node]; rfl
  have he1 : eval env (.node (n + 2) (.constant [idx]) 1 []) = some [.nat idx] := by
    rw [eval, evalArgs]
    simp [Opc.denote, hc]
  -- the parent has the smaller identifier
  have h2 : Built K H m (n + 2) (ins (.node (n + 1) (.reverseBitslen bits) 1 [.node (n + 2) (.constant [idx]) 1 []])
      (ins (.node (n + 2) (.constant [idx]) 1 []) P)) := by
    refine h1.node' ?_ (Nat.le_refl _) (Nat.le_succ _) ?_ ?_ ?_ ?_ ?_ rfl ?_
    · rintro s (rfl | hs)
      · show n + 2 ≠ n + 1
        omega
      · have := h.good.le s hs; omega
    · intro c hc
      rw [List.mem_singleton] at hc
      subst hc
      exact ⟨ins_self, varSize_of (.inl rfl)⟩
    · exact ⟨idx + 1, by rw [List.map_cons, hk1]; rfl, hb1, by omega, rfl⟩
    · intro k hk
      have : [Kind.nat (2 ^ bits)] = [k] := hk
      cases this
      rfl
    · rintro (h | ⟨_, _, h⟩) <;> cases h
    · rintro v (h | h) <;> cases h
    · intro c hc
      rw [List.mem_singleton] at hc
      subst hc
      exact h.free_gt (show n < n + 2 by omega)
  have hk2 : kinds K (.node (n + 1) (.reverseBitslen bits) 1 [.node (n + 2) (.constant [idx]) 1 []]) =
      [.nat (2 ^ bits)] := by rw [kinds_node]; rfl
  have he2 : eval env (.node (n + 1) (.reverseBitslen bits) 1 [.node (n + 2) (.constant [idx]) 1 []]) =
      some [.nat (Fri.revBits bits idx)] := by
    rw [eval, evalArgs_one, he1]
    simp [Opc.denote, hi]
  intro r
  have hkinds : (Opc.indexToRou B.consts bits).kinds K ([r.1].map (kinds K)) =
      [if B.consts.size = 1 then .base else .ext] := rfl
  have hbase : (Kind.base).IsField := .inr ⟨bbP, Nat.le_refl _, rfl⟩
  refine ⟨_, h2.node (show n + 2 < n + 3 by omega) (Nat.le_refl _) ?_ ?_ ?_ ?_ ?_ rfl ?_,
    fun s hs => ins_of (ins_of (ins_of hs)), ins_self, h.free_gt (show n < n + 3 by omega), ?_, ?_⟩
  · intro c hc
    rw [List.mem_singleton] at hc
    subst hc
    exact ⟨ins_self, varSize_of (.inl rfl)⟩
  · refine ⟨2 ^ bits, by rw [List.map_cons, show kinds K r.1 = _ from hk2]; rfl, hb, ?_⟩
    rcases hB.consts with hc | hc
    · exact .inl ⟨hc, by rw [hc]; rfl⟩
    · exact .inr ⟨hc, by rw [hc]; rfl⟩
  · intro k hk
    rw [hkinds] at hk
    cases hk
    rcases hB.size with hs | hs <;> rw [hs] <;> rfl
  · rintro (h | ⟨_, _, h⟩) <;> cases h
  · rintro v (h | h) <;> cases h
  · intro c hc
    rw [List.mem_singleton] at hc
    subst hc
    exact h.free_gt (show n < n + 1 by omega)
  · refine ⟨if B.consts.size = 1 then .base else .ext, by rw [Dsl.indexToRou, Dsl.mk, kinds_node]; rfl, ?_⟩
    rcases hB.size with hs | hs <;> rw [hs]
    · exact ⟨hbase, rfl⟩
    · exact ⟨.inl rfl, rfl⟩
  · rw [Dsl.indexToRou, Dsl.mk, eval, evalArgs_one, show eval env r.1 = _ from he2]
    have : Fri.revBits bits idx < 2 ^ bits := Fri.revBits_lt bits idx
    simp only [Option.map_some, Option.bind_some, Opc.denote, if_pos this, hB.root]

end

end TapStark
