import Verif.Model.Program
import Verif.Proofs.DslMixed

/-
Client programs: the expressions they build have the values of the specification, and read the inputs that occur in
their formulas.
-/

namespace TapStark

namespace Prog

open Stark (BB4)

variable {K : Variable → Kind} {env : Variable → Val} {m : InputManager} {n : Nat} {P : Expr → Prop} {a b : Expr}

/-! ### Expressions with a value in one of the fields -/

/-- `e` has the value `v`. -/
def DenV (K : Variable → Kind) (env : Variable → Val) (P : Expr → Prop) (e : Expr) : FVal → Prop
  | .base x => Den bbField K NoNodes env P e x
  | .ext x => Den bb4Field K NoNodes env P e x

/-- The expression moves the input. -/
def Mv (e : Expr) (v : Variable) : Prop := ∃ s, Sub s e ∧ s.opc = .inputMove v

/-- The expression moves exactly the inputs with numbers in `I`. -/
def Occ (e : Expr) (I : Finset Nat) : Prop := ∀ v, Mv e v ↔ ∃ i ∈ I, v = ⟨5, i, none⟩

/-- `e` is the expression of `v`. -/
def Rep (K : Variable → Kind) (env : Variable → Val) (P : Expr → Prop) (e : Expr) (v : Value) : Prop :=
  DenV K env P e v.val ∧ Occ e v.inputs

theorem DenV.mono {P' : Expr → Prop} {e : Expr} {v : FVal} (hP : ∀ s, P s → P' s) (h : DenV K env P e v) :
    DenV K env P' e v := by
  cases v
  · exact Den.mono h hP
  · exact Den.mono h hP

theorem Rep.mono {P' : Expr → Prop} {e : Expr} {v : Value} (hP : ∀ s, P s → P' s) (h : Rep K env P e v) :
    Rep K env P' e v := ⟨h.1.mono hP, h.2⟩

theorem mv_mk {opc : Opc} {size : Nat} {args : List Expr} {v : Variable} :
    Mv (.node n opc size args) v ↔ opc = .inputMove v ∨ ∃ a ∈ args, Mv a v := by
  constructor
  · rintro ⟨s, hs, ho⟩
    cases hs with
    | refl => exact .inl ho
    | arg ha hs => exact .inr ⟨_, ha, s, hs, ho⟩
  · rintro (h | ⟨a, ha, s, hs, ho⟩)
    · exact ⟨_, .refl _, h⟩
    · exact ⟨s, .arg ha hs, ho⟩

theorem occ_un {opc : Opc} {size : Nat} {I : Finset Nat} (ho : ∀ v, opc ≠ .inputMove v) (ha : Occ a I) :
    Occ (.node n opc size [a]) I := by
  intro v
  rw [mv_mk, ← ha v]
  simp [ho v]

theorem occ_two {opc : Opc} {size : Nat} {I J : Finset Nat} (ho : ∀ v, opc ≠ .inputMove v) (ha : Occ a I)
    (hb : Occ b J) : Occ (.node n opc size [a, b]) (I ∪ J) := by
  intro v
  rw [mv_mk]
  simp only [ho v, false_or, List.mem_cons, List.not_mem_nil, or_false, exists_eq_or_imp, exists_eq_left, ha v, hb v,
    Finset.mem_union]
  constructor
  · rintro (⟨i, hi, e⟩ | ⟨i, hi, e⟩)
    · exact ⟨i, .inl hi, e⟩
    · exact ⟨i, .inr hi, e⟩
  · rintro ⟨i, hi | hi, e⟩
    · exact .inl ⟨i, hi, e⟩
    · exact .inr ⟨i, hi, e⟩

theorem occ_const {vs : List Nat} {size : Nat} : Occ (.node n (.constant vs) size []) ∅ := by
  intro v
  rw [mv_mk]
  simp

theorem occ_input {size i : Nat} : Occ (.node n (.inputMove ⟨5, i, none⟩) size []) {i} := by
  intro v
  rw [mv_mk]
  simp [eq_comm]

/-- The expression of `v` has been built. -/
def MakesV (K : Variable → Kind) (env : Variable → Val) (P : Expr → Prop) (m' : InputManager) (n' : Nat) (e : Expr)
    (v : Value) : Prop :=
  ∃ P', Built K NoNodes m' n' P' ∧ (∀ s, P s → P' s) ∧ Rep K env P' e v

theorem _root_.TapStark.Makes.toV {F : Type} [Field F] {B : BfField F} {m' : InputManager} {n' : Nat} {e : Expr} {x : F} {v : Value}
    (h : Makes B K NoNodes env P m' n' e x) (hv : ∀ P', Den B K NoNodes env P' e x → DenV K env P' e v.val)
    (ho : Occ e v.inputs) : MakesV K env P m' n' e v := by
  obtain ⟨P', h1, h2, h3⟩ := h
  exact ⟨P', h1, h2, hv P' h3, ho⟩

theorem makesV_const (h : Built K NoNodes m n P) (v : FVal) :
    MakesV K env P m (Dsl.constant (u32 v) n).2 (Dsl.constant (u32 v) n).1 ⟨v, ∅⟩ := by
  cases v with
  | base x => exact (makes_const bbField_ok h x).toV (fun _ h => h) occ_const
  | ext x => exact (makes_const bb4Field_ok h x).toV (fun _ h => h) occ_const

theorem makesV_input (h : Built K NoNodes m n P) (v : FVal) (ha : (m.assignInput (u32 v) n).2.1.Agrees K env) :
    MakesV K env P (m.assignInput (u32 v) n).2.1 (m.assignInput (u32 v) n).2.2 (m.assignInput (u32 v) n).1
      ⟨v, {m.counter}⟩ := by
  cases v with
  | base x => exact (makes_input bbField_ok h x ha).toV (fun _ h => h) occ_input
  | ext x => exact (makes_input bb4Field_ok h x ha).toV (fun _ h => h) occ_input

theorem makesV_hint (h : Built K NoNodes m n P) (v : FVal) (ha : (m.assignHintInput (u32 v) n).2.1.Agrees K env) :
    MakesV K env P (m.assignHintInput (u32 v) n).2.1 (m.assignHintInput (u32 v) n).2.2
      (m.assignHintInput (u32 v) n).1 ⟨v, {m.counter}⟩ := by
  cases v with
  | base x => exact (makes_hintInput bbField_ok h x ha).toV (fun _ h => h) occ_input
  | ext x => exact (makes_hintInput bb4Field_ok h x ha).toV (fun _ h => h) occ_input

theorem occ_binE (o : BinOp) {I J : Finset Nat} (ha : Occ a I) (hb : Occ b J) : Occ (binE o a b n).1 (I ∪ J) := by
  cases o <;> exact occ_two (fun _ h => by cases h) ha hb

theorem makesV_bin (h : Built K NoNodes m n P) (o : BinOp) {x y : Value} (ha : Rep K env P a x) (hb : Rep K env P b y)
    {z : FVal} (hz : bin o x.val y.val = some z) :
    MakesV K env P m (binE o a b n).2 (binE o a b n).1 ⟨z, x.inputs ∪ y.inputs⟩ := by
  obtain ⟨x, I⟩ := x
  obtain ⟨y, J⟩ := y
  obtain ⟨ha, hoa⟩ := ha
  obtain ⟨hb, hob⟩ := hb
  have ho := occ_binE (n := n) o hoa hob
  cases x <;> cases y <;> simp only [bin, Option.some.injEq, reduceCtorEq] at hz
  · subst hz
    cases o
    · exact (makes_add bbField_ok h ha hb).toV (fun _ h => h) ho
    · exact (makes_sub bbField_ok h ha hb).toV (fun _ h => h) ho
    · exact (makes_mul bbField_ok h ha hb).toV (fun _ h => h) ho
  · subst hz
    cases o
    · exact (makes_add bb4Field_ok h ha hb).toV (fun _ h => h) ho
    · exact (makes_sub bb4Field_ok h ha hb).toV (fun _ h => h) ho
    · exact (makes_mul bb4Field_ok h ha hb).toV (fun _ h => h) ho

theorem makesV_un (h : Built K NoNodes m n P) (o : UnOp) {x : Value} (ha : Rep K env P a x) :
    MakesV K env P m (unE x.val.ty.u32Size o a n).2 (unE x.val.ty.u32Size o a n).1 ⟨un o x.val, x.inputs⟩ := by
  obtain ⟨x, I⟩ := x
  obtain ⟨ha, hoa⟩ := ha
  have ho : Occ (unE x.ty.u32Size o a n).1 I := by
    cases o <;> exact occ_un (fun _ h => by cases h) hoa
  cases x
  · cases o
    · exact (makes_neg bbField_ok h ha).toV (fun _ h => h) ho
    · exact (makes_square bbField_ok h ha).toV (fun _ h => h) ho
    · exact (makes_double bbField_ok h ha).toV (fun _ h => h) ho
    · exact (makes_expConstant bbField_ok h ha _).toV (fun _ h => h) ho
  · cases o
    · exact (makes_neg bb4Field_ok h ha).toV (fun _ h => h) ho
    · exact (makes_square bb4Field_ok h ha).toV (fun _ h => h) ho
    · exact (makes_double bb4Field_ok h ha).toV (fun _ h => h) ho
    · exact (makes_expConstant bb4Field_ok h ha _).toV (fun _ h => h) ho

theorem opc_cases (o : BinOp) : o.opc = .add ∨ o.opc = .sub ∨ o.opc = .mul := by
  cases o
  · exact .inl rfl
  · exact .inr (.inl rfl)
  · exact .inr (.inr rfl)

theorem makesV_ext (h : Built K NoNodes m n P) (o : BinOp) {x y : Value} (ha : Rep K env P a x) (hb : Rep K env P b y)
    {z : FVal} (hz : binExt o x.val y.val = some z) :
    ∃ e n', Dsl.opExt o.opc x.val.ty.u32Size y.val.ty.u32Size a b n = some (e, n') ∧ y.val.ty = z.ty ∧
      MakesV K env P m n' e ⟨z, x.inputs ∪ y.inputs⟩ := by
  obtain ⟨x, I⟩ := x
  obtain ⟨y, J⟩ := y
  obtain ⟨ha, hoa⟩ := ha
  obtain ⟨hb, hob⟩ := hb
  cases x <;> cases y <;> simp only [binExt, Option.some.injEq, reduceCtorEq] at hz
  subst hz
  refine ⟨_, _, if_pos ⟨rfl, rfl⟩, rfl, (makes_bin_mixed (B₃ := bb4Field) bbField_ok bb4Field_ok h ha hb (opc_cases o)
    rfl ?_).toV (fun _ h => h) (occ_two (fun _ h => by cases o <;> cases h) hoa hob)⟩
  cases o <;> simp [BinOp.opc, BinOp.op, Opc.denote, toF_bb, toF_bb4, FVal.add, FVal.sub, FVal.mul, FVal.lift2, ofF_ext,
    FVal.val]

theorem makesV_base (h : Built K NoNodes m n P) (o : BinOp) {x y : Value} (ha : Rep K env P a x) (hb : Rep K env P b y)
    {z : FVal} (hz : binBase o x.val y.val = some z) :
    ∃ e n', Dsl.opBase o.opc x.val.ty.u32Size y.val.ty.u32Size a b n = some (e, n') ∧ x.val.ty = z.ty ∧
      MakesV K env P m n' e ⟨z, x.inputs ∪ y.inputs⟩ := by
  obtain ⟨x, I⟩ := x
  obtain ⟨y, J⟩ := y
  obtain ⟨ha, hoa⟩ := ha
  obtain ⟨hb, hob⟩ := hb
  cases x <;> cases y <;> simp only [binBase, Option.some.injEq, reduceCtorEq] at hz
  subst hz
  refine ⟨_, _, if_pos ⟨rfl, rfl⟩, rfl, (makes_bin_mixed (B₃ := bb4Field) bb4Field_ok bbField_ok h ha hb (opc_cases o)
    rfl ?_).toV (fun _ h => h) (occ_two (fun _ h => by cases o <;> cases h) hoa hob)⟩
  cases o <;> simp [BinOp.opc, BinOp.op, Opc.denote, toF_bb, toF_bb4, FVal.add, FVal.sub, FVal.mul, FVal.lift2, ofF_ext,
    FVal.val]

/-! ### Sums and products -/

theorem bin_ty {o : BinOp} {x y z : FVal} (h : bin o x y = some z) : x.ty = z.ty ∧ y.ty = z.ty := by
  cases x <;> cases y <;> simp only [bin, Option.some.injEq, reduceCtorEq] at h <;> subst h <;> exact ⟨rfl, rfl⟩

theorem bin_assoc {o : BinOp} (ho : o ≠ .sub) {x y u v z : FVal} (h1 : bin o y u = some v) (h2 : bin o x v = some z) :
    ∃ w, bin o x y = some w ∧ bin o w u = some z := by
  cases y <;> cases u <;> simp only [bin, Option.some.injEq, reduceCtorEq] at h1 <;> subst h1 <;>
    cases x <;> simp only [bin, Option.some.injEq, reduceCtorEq] at h2 <;> subst h2
  · refine ⟨_, rfl, ?_⟩
    cases o
    · simp [bin, BinOp.op, add_assoc]
    · exact absurd rfl ho
    · simp [bin, BinOp.op, mul_assoc]
  · refine ⟨_, rfl, ?_⟩
    cases o
    · simp [bin, BinOp.op, add_assoc]
    · exact absurd rfl ho
    · simp [bin, BinOp.op, mul_assoc]

/-- The neutral element of an operation. -/
def Neutral (o : BinOp) (t : Ty) (e : FVal) : Prop := e.ty = t ∧ ∀ x : FVal, x.ty = t → bin o x e = some x

theorem neutral_add (t : Ty) : Neutral .add t t.zero := by
  cases t
  · refine ⟨rfl, fun x hx => ?_⟩
    cases x
    · simp [bin, Ty.zero, BinOp.op]
    · cases hx
  · refine ⟨rfl, fun x hx => ?_⟩
    cases x
    · cases hx
    · simp [bin, Ty.zero, BinOp.op]

theorem neutral_mul (t : Ty) : Neutral .mul t t.one := by
  cases t
  · refine ⟨rfl, fun x hx => ?_⟩
    cases x
    · simp [bin, Ty.one, BinOp.op]
    · cases hx
  · refine ⟨rfl, fun x hx => ?_⟩
    cases x
    · cases hx
    · simp [bin, Ty.one, BinOp.op]

/-- The slots are the expressions of the values. -/
def Slots (K : Variable → Kind) (env : Variable → Val) (P : Expr → Prop) : List (Ty × Expr) → List Value → Prop :=
  List.Forall₂ fun a v => a.1 = v.val.ty ∧ Rep K env P a.2 v

theorem Slots.mono {P' : Expr → Prop} {l : List (Ty × Expr)} {vs : List Value} (hP : ∀ s, P s → P' s)
    (h : Slots K env P l vs) : Slots K env P' l vs := List.Forall₂.imp (fun _ _ h => ⟨h.1, h.2.mono hP⟩) h

theorem Slots.get {l : List (Ty × Expr)} {vs : List Value} (h : Slots K env P l vs) {i : Nat} {v : Value}
    (hi : vs[i]? = some v) : ∃ e, l[i]? = some (v.val.ty, e) ∧ Rep K env P e v := by
  induction h generalizing i with
  | nil => simp at hi
  | @cons a v' l vs hav _ ih =>
    cases i with
    | zero =>
      simp only [List.getElem?_cons_zero, Option.some.injEq] at hi ⊢
      subst hi
      exact ⟨a.2, by rw [← hav.1], hav.2⟩
    | succ i =>
      simp only [List.getElem?_cons_succ] at hi ⊢
      exact ih hi

theorem fold_ty {o : BinOp} {vs : List Value} {t : Ty} {e : FVal} (he : e.ty = t) :
    ∀ {is : List Nat} {y : Value}, fold o vs t e is = some y → y.val.ty = t := by
  intro is
  cases is with
  | nil =>
    intro y h
    simp only [fold, Option.some.injEq] at h
    subst h
    exact he
  | cons i is =>
    intro y h
    simp only [fold, Option.bind_eq_bind, Option.bind_eq_some_iff] at h
    obtain ⟨x, hx, y', hy, z, hz, h⟩ := h
    split at h
    · rename_i ht
      simp only [Option.some.injEq] at h
      subst h
      exact (bin_ty hz).1 ▸ ht
    · cases h

theorem makesV_reduce {o : BinOp} (ho : o ≠ .sub) {l : List (Ty × Expr)} {vs : List Value} {t : Ty} {ne : FVal}
    (hne : Neutral o t ne) : ∀ {is : List Nat} {a : Expr} {x y : Value} {z : FVal} {n : Nat} {P : Expr → Prop},
    Built K NoNodes m n P → Slots K env P l vs → Rep K env P a x → x.val.ty = t → fold o vs t ne is = some y →
    bin o x.val y.val = some z →
    ∃ es, operands l t is = some es ∧
      MakesV K env P m (reduceE o a es n).2 (reduceE o a es n).1 ⟨z, x.inputs ∪ y.inputs⟩ := by
  intro is
  induction is with
  | nil =>
    intro a x y z n P hb hs ha ht hf hz
    simp only [fold, Option.some.injEq] at hf
    subst hf
    rw [hne.2 _ ht, Option.some.injEq] at hz
    subst hz
    refine ⟨[], rfl, P, hb, fun _ h => h, ?_⟩
    simpa [reduceE] using ha
  | cons i is ih =>
    intro a x y z n P hb hs ha ht hf hz
    simp only [fold, Option.bind_eq_bind, Option.bind_eq_some_iff] at hf
    obtain ⟨x', hx', y', hy', z', hz', hf⟩ := hf
    split at hf
    · rename_i ht'
      simp only [Option.some.injEq] at hf
      subst hf
      obtain ⟨w, hw, hw'⟩ := bin_assoc ho hz' hz
      obtain ⟨e, he, hr⟩ := hs.get hx'
      obtain ⟨P1, b1, s1, r1⟩ := makesV_bin hb o ha hr hw
      obtain ⟨es, h1, P2, b2, s2, r2⟩ := ih b1 (hs.mono s1) r1 ((bin_ty hw).1 ▸ ht) hy' hw'
      refine ⟨e :: es, ?_, P2, b2, fun s h => s2 s (s1 s h), ?_⟩
      · simp [operands, he, h1, ht']
      · rw [Finset.union_assoc] at r2
        exact r2
    · cases hf

theorem makesV_fold {o : BinOp} (ho : o ≠ .sub) {l : List (Ty × Expr)} {vs : List Value} {t : Ty} {ne : FVal}
    (hne : Neutral o t ne) {is : List Nat} {y : Value} (hb : Built K NoNodes m n P) (hs : Slots K env P l vs)
    (hf : fold o vs t ne is = some y) :
    ∃ es, operands l t is = some es ∧ MakesV K env P m (foldE o (u32 ne) es n).2 (foldE o (u32 ne) es n).1 y := by
  cases is with
  | nil =>
    simp only [fold, Option.some.injEq] at hf
    subst hf
    exact ⟨[], rfl, makesV_const hb ne⟩
  | cons i is =>
    simp only [fold, Option.bind_eq_bind, Option.bind_eq_some_iff] at hf
    obtain ⟨x', hx', y', hy', z', hz', hf⟩ := hf
    split at hf
    · rename_i ht'
      simp only [Option.some.injEq] at hf
      subst hf
      obtain ⟨e, he, hr⟩ := hs.get hx'
      obtain ⟨es, h1, P1, b1, s1, r1⟩ := makesV_reduce ho hne hb hs hr ht' hy' hz'
      obtain ⟨P2, b2, s2, _⟩ := makesV_const (env := env) b1 ne
      refine ⟨e :: es, ?_, P2, b2, fun s h => s2 s (s1 s h), r1.mono s2⟩
      simp [operands, he, h1, ht']
    · cases hf

/-! ### Programs -/

/-- The inputs of a program. -/
def inputsOf : List Ins → List FVal
  | [] => []
  | .input v :: is | .hint v :: is => v :: inputsOf is
  | _ :: is => inputsOf is

/-- The kinds of the inputs. -/
noncomputable def kindOf (l : List FVal) (v : Variable) : Kind := ((l[v.column]?).map fun x => constKind (u32 x)).getD .base

/-- A field element as a value of the expression language. -/
noncomputable def valOf : FVal → Val
  | .base x => bbField.val x
  | .ext x => bb4Field.val x

/-- The values of the inputs. -/
noncomputable def envOf (l : List FVal) (v : Variable) : Val := ((l[v.column]?).map valOf).getD (.nat 0)

theorem constVal_u32 (v : FVal) : constVal (u32 v) = some (valOf v) := by
  cases v
  · exact bbField_ok.const _
  · exact bb4Field_ok.const _

/-- The inputs of the manager are the first `k` inputs of the program. -/
structure Ins' (l : List FVal) (m : InputManager) (k : Nat) : Prop where
  counter : m.counter = k
  mem : ∀ p ∈ m.inputs, ∃ i v, i < k ∧ p = (⟨5, i, none⟩, u32 v) ∧ l[i]? = some v
  all : ∀ i < k, (⟨5, i, none⟩ : Variable) ∈ m.inputs.map Prod.fst
  named : m.Named

theorem Ins'.agrees {l : List FVal} {k : Nat} (h : Ins' l m k) : m.Agrees (kindOf l) (envOf l) where
  vals p hp := by
    obtain ⟨i, v, _, rfl, hl⟩ := h.mem p hp
    simp only [envOf, hl, Option.map_some, Option.getD_some]
    exact constVal_u32 v
  kinds p hp := by
    obtain ⟨i, v, _, rfl, hl⟩ := h.mem p hp
    simp only [kindOf, hl, Option.map_some, Option.getD_some]
  nodup := h.named.nodup

theorem Ins'.new (l : List FVal) : Ins' l .new 0 where
  counter := rfl
  mem p hp := by simp [InputManager.inputs, InputManager.new] at hp
  all i hi := by omega
  named := ⟨fun p hp => by simp [InputManager.inputs, InputManager.new] at hp, by simp [InputManager.inputs, InputManager.new]⟩

theorem Ins'.input {l : List FVal} {k : Nat} (h : Ins' l m k) {v : FVal} (hv : l[k]? = some v) :
    Ins' l (m.assignInput (u32 v) n).2.1 (k + 1) where
  counter := by rw [← h.counter]; rfl
  mem p hp := by
    simp only [InputManager.assignInput, InputManager.inputs, List.mem_append, List.mem_singleton] at hp
    have : p ∈ m.inputs ∨ p = (⟨5, k, none⟩, u32 v) := by
      rw [← h.counter]
      rcases hp with hp | hp | hp
      · exact .inl (List.mem_append_left _ hp)
      · exact .inl (List.mem_append_right _ hp)
      · exact .inr hp
    rcases this with hp | rfl
    · obtain ⟨i, w, hi, e, hw⟩ := h.mem p hp
      exact ⟨i, w, by omega, e, hw⟩
    · exact ⟨k, v, by omega, rfl, hv⟩
  all i hi := by
    rcases Nat.lt_succ_iff_lt_or_eq.mp hi with hi | rfl
    · exact List.Sublist.subset ((InputManager.le_assignInput (u32 v) m n).sublist.map Prod.fst) (h.all i hi)
    · rw [← h.counter]
      simp [InputManager.assignInput, InputManager.inputs]
  named := h.named.assignInput _ _

theorem Ins'.hint {l : List FVal} {k : Nat} (h : Ins' l m k) {v : FVal} (hv : l[k]? = some v) :
    Ins' l (m.assignHintInput (u32 v) n).2.1 (k + 1) where
  counter := by rw [← h.counter]; rfl
  mem p hp := by
    simp only [InputManager.assignHintInput, InputManager.inputs, List.mem_append, List.mem_singleton] at hp
    have : p ∈ m.inputs ∨ p = (⟨5, k, none⟩, u32 v) := by
      rw [← h.counter]
      rcases hp with (hp | hp) | hp
      · exact .inl (List.mem_append_left _ hp)
      · exact .inr hp
      · exact .inl (List.mem_append_right _ hp)
    rcases this with hp | rfl
    · obtain ⟨i, w, hi, e, hw⟩ := h.mem p hp
      exact ⟨i, w, by omega, e, hw⟩
    · exact ⟨k, v, by omega, rfl, hv⟩
  all i hi := by
    rcases Nat.lt_succ_iff_lt_or_eq.mp hi with hi | rfl
    · exact List.Sublist.subset ((InputManager.le_assignHintInput (u32 v) m n).sublist.map Prod.fst) (h.all i hi)
    · rw [← h.counter]
      simp [InputManager.assignHintInput, InputManager.inputs]
  named := h.named.assignHintInput _ _

/-- What holds after a part of a program. -/
structure Inv (l : List FVal) (s : State) (vs : List Value) (k : Nat) (P : Expr → Prop) : Prop where
  built : Built (kindOf l) NoNodes s.m s.n P
  slots : Slots (kindOf l) (envOf l) P s.slots vs
  ins : Ins' l s.m k

theorem Inv.push {l : List FVal} {s : State} {vs : List Value} {k k' : Nat} (h : Inv l s vs k P) {t : Ty} {e : Expr}
    {v : Value} {m' : InputManager} {n' : Nat} (hm : MakesV (kindOf l) (envOf l) P m' n' e v) (ht : t = v.val.ty)
    (hi : Ins' l m' k') : ∃ P', Inv l (s.push t e m' n') (vs ++ [v]) k' P' := by
  obtain ⟨P', b, sub, r⟩ := hm
  exact ⟨P', b, List.rel_append (h.slots.mono sub) (.cons ⟨ht, r⟩ .nil), hi⟩

theorem step_inv {l : List FVal} {s : State} {vs : List Value} {k : Nat} (h : Inv l s vs k P) {i : Ins} {v : Value}
    (hv : value vs k i = some v) (hl : ∀ x, i = .input x ∨ i = .hint x → l[k]? = some x) :
    ∃ s' P', step s i = some s' ∧ Inv l s' (vs ++ [v]) (if i.isInput then k + 1 else k) P' := by
  cases i with
  | const w =>
    simp only [value, Option.some.injEq] at hv
    subst hv
    obtain ⟨P', hP⟩ := h.push (makesV_const (env := envOf l) h.built w) rfl h.ins
    exact ⟨_, P', rfl, hP⟩
  | input w =>
    simp only [value, Option.some.injEq] at hv
    subst hv
    have hi := h.ins.input (n := s.n) (hl w (.inl rfl))
    have hmk := makesV_input h.built w hi.agrees
    rw [h.ins.counter] at hmk
    obtain ⟨P', hP⟩ := h.push hmk rfl hi
    exact ⟨_, P', rfl, hP⟩
  | hint w =>
    simp only [value, Option.some.injEq] at hv
    subst hv
    have hi := h.ins.hint (n := s.n) (hl w (.inr rfl))
    have hmk := makesV_hint h.built w hi.agrees
    rw [h.ins.counter] at hmk
    obtain ⟨P', hP⟩ := h.push hmk rfl hi
    exact ⟨_, P', rfl, hP⟩
  | bin o i j =>
    simp only [value, Option.bind_eq_bind, Option.bind_eq_some_iff, Option.some.injEq] at hv
    obtain ⟨x, hx, y, hy, z, hz, rfl⟩ := hv
    obtain ⟨a, ha, ra⟩ := h.slots.get hx
    obtain ⟨b, hb, rb⟩ := h.slots.get hy
    obtain ⟨P', hP⟩ := h.push (t := x.val.ty) (makesV_bin h.built o ra rb hz) (bin_ty hz).1 h.ins
    refine ⟨_, P', ?_, hP⟩
    simp [step, ha, hb, (bin_ty hz).1, (bin_ty hz).2]
  | binC o i w =>
    simp only [value, Option.bind_eq_bind, Option.bind_eq_some_iff, Option.some.injEq] at hv
    obtain ⟨x, hx, z, hz, rfl⟩ := hv
    obtain ⟨a, ha, ra⟩ := h.slots.get hx
    obtain ⟨P1, b1, s1, r1⟩ := makesV_const (env := envOf l) h.built w
    obtain ⟨P2, b2, s2, r2⟩ := makesV_bin b1 o (ra.mono s1) r1 hz
    rw [Finset.union_empty] at r2
    obtain ⟨P', hP⟩ := h.push (t := x.val.ty) ⟨P2, b2, fun s h => s2 s (s1 s h), r2⟩ (bin_ty hz).1 h.ins
    refine ⟨_, P', ?_, hP⟩
    simp [step, binCE_eq, ha, (bin_ty hz).1, (bin_ty hz).2]
  | binExt o i j =>
    simp only [value, Option.bind_eq_bind, Option.bind_eq_some_iff, Option.some.injEq] at hv
    obtain ⟨x, hx, y, hy, z, hz, rfl⟩ := hv
    obtain ⟨a, ha, ra⟩ := h.slots.get hx
    obtain ⟨b, hb, rb⟩ := h.slots.get hy
    obtain ⟨e, n', he, ht, hmk⟩ := makesV_ext h.built o ra rb hz
    obtain ⟨P', hP⟩ := h.push (t := y.val.ty) hmk ht h.ins
    refine ⟨_, P', ?_, hP⟩
    simp [step, extE_eq, ha, hb, he]
  | binBase o i j =>
    simp only [value, Option.bind_eq_bind, Option.bind_eq_some_iff, Option.some.injEq] at hv
    obtain ⟨x, hx, y, hy, z, hz, rfl⟩ := hv
    obtain ⟨a, ha, ra⟩ := h.slots.get hx
    obtain ⟨b, hb, rb⟩ := h.slots.get hy
    obtain ⟨e, n', he, ht, hmk⟩ := makesV_base h.built o ra rb hz
    obtain ⟨P', hP⟩ := h.push (t := x.val.ty) hmk ht h.ins
    refine ⟨_, P', ?_, hP⟩
    simp [step, baseE_eq, ha, hb, he]
  | un o i =>
    simp only [value, Option.bind_eq_bind, Option.bind_eq_some_iff, Option.some.injEq] at hv
    obtain ⟨x, hx, rfl⟩ := hv
    obtain ⟨a, ha, ra⟩ := h.slots.get hx
    obtain ⟨P', hP⟩ := h.push (t := x.val.ty) (makesV_un h.built o ra) (by cases x.val <;> rfl) h.ins
    refine ⟨_, P', ?_, hP⟩
    simp [step, ha]
  | sum t is =>
    obtain ⟨es, h1, hmk⟩ := makesV_fold (by decide) (neutral_add t) h.built h.slots hv
    obtain ⟨P', hP⟩ := h.push (t := t) hmk (fold_ty (neutral_add t).1 hv).symm h.ins
    refine ⟨_, P', ?_, hP⟩
    simp [step, h1]
  | product t is =>
    obtain ⟨es, h1, hmk⟩ := makesV_fold (by decide) (neutral_mul t) h.built h.slots hv
    obtain ⟨P', hP⟩ := h.push (t := t) hmk (fold_ty (neutral_mul t).1 hv).symm h.ins
    refine ⟨_, P', ?_, hP⟩
    simp [step, h1]

theorem steps_inv {l : List FVal} : ∀ {p : List Ins} {s : State} {vs : List Value} {k : Nat} {P : Expr → Prop}
    {vs' : List Value} {k' : Nat}, Inv l s vs k P → values p vs k = some (vs', k') →
    (∃ pre, l = pre ++ inputsOf p ∧ pre.length = k) → ∃ s' P', steps p s = some s' ∧ Inv l s' vs' k' P' := by
  intro p
  induction p with
  | nil =>
    intro s vs k P vs' k' h hv _
    simp only [values, Option.some.injEq, Prod.mk.injEq] at hv
    obtain ⟨rfl, rfl⟩ := hv
    exact ⟨s, P, rfl, h⟩
  | cons i p ih =>
    intro s vs k P vs' k' h hv hl
    obtain ⟨pre, hl, hk⟩ := hl
    simp only [values, Option.bind_eq_bind, Option.bind_eq_some_iff] at hv
    obtain ⟨v, hv, hv'⟩ := hv
    obtain ⟨s1, P1, h1, i1⟩ := step_inv h hv (by
      rintro x (rfl | rfl) <;> simp [hl, inputsOf, ← hk])
    obtain ⟨s2, P2, h2, i2⟩ := ih i1 hv' (by
      cases i
      case input x => exact ⟨pre ++ [x], by simp [hl, inputsOf], by simp [hk, Ins.isInput]⟩
      case hint x => exact ⟨pre ++ [x], by simp [hl, inputsOf], by simp [hk, Ins.isInput]⟩
      all_goals exact ⟨pre, by simp [hl, inputsOf], by simp [hk, Ins.isInput]⟩)
    exact ⟨s2, P2, by simp [steps, h1, h2], i2⟩

end Prog

end TapStark
