import Verif.Proofs.DslField

/-
Expressions with operands from both fields.
-/

namespace TapStark

open Stark (BB4)

section

variable {F₁ F₂ F₃ : Type} [Field F₁] [Field F₂] {B₁ : BfField F₁} {B₂ : BfField F₂} {B₃ : BfField F₃}
variable {K : Variable → Kind} {env : Variable → Val} {m : InputManager} {n : Nat} {H P : Expr → Prop} {a b : Expr}

theorem Kind.IsField.join_max {k l : Kind} (hk : k.IsField) (hl : l.IsField) :
    (k.join l).IsField ∧ (k.join l).size = max k.size l.size := by
  rcases hk with rfl | ⟨b, hb, rfl⟩ <;> rcases hl with rfl | ⟨b', hb', rfl⟩
  · exact ⟨.inl rfl, rfl⟩
  · exact ⟨.inl rfl, rfl⟩
  · exact ⟨.inl rfl, rfl⟩
  · have : (Kind.nat b).join (Kind.nat b') = .base := by simp [Kind.join]
    rw [this]
    exact ⟨.inr ⟨bbP, Nat.le_refl _, rfl⟩, rfl⟩

/-- Nodes with two operands, from different fields. -/
theorem makes_bin_mixed (h1 : B₁.Ok) (h2 : B₂.Ok) (h : Built K H m n P) {x : F₁} {y : F₂} {z : F₃}
    (ha : Den B₁ K H env P a x) (hb : Den B₂ K H env P b y) {opc : Opc} (ho : opc = .add ∨ opc = .sub ∨ opc = .mul)
    (hs : max B₁.consts.size B₂.consts.size = B₃.consts.size)
    (hd : opc.denote env [[B₁.val x], [B₂.val y]] = some [B₃.val z]) :
    Makes B₃ K H env P m (Dsl.mk opc B₃.consts.size [a, b] n).2 (Dsl.mk opc B₃.consts.size [a, b] n).1 z := by
  obtain ⟨k, hk1, hk2, hk3⟩ := ha.kind
  obtain ⟨l, hl1, hl2, hl3⟩ := hb.kind
  obtain ⟨hj, hj'⟩ := hk2.join_max hl2
  rw [hk3, hl3, hs] at hj'
  have hkinds : opc.kinds K ([a, b].map (kinds K)) = [k.join l] := by
    rw [List.map_cons, List.map_cons, hk1, hl1]
    rcases ho with rfl | rfl | rfl <;> rfl
  refine ⟨_, h.node (Nat.lt_succ_self n) (Nat.le_refl _) ?_ ?_ ?_ ?_ ?_ ?_ ?_, fun s => ins_of, ins_self,
    h.free_gt (Nat.lt_succ_self n), ?_, ?_⟩
  · intro c hc
    rcases List.mem_cons.mp hc with rfl | hc
    · exact ⟨ha.mem, ha.varSize h1 h.good⟩
    · rw [List.mem_singleton] at hc
      subst hc
      exact ⟨hb.mem, hb.varSize h2 h.good⟩
  · rw [hkinds, List.map_cons, List.map_cons, hk1, hl1]
    rcases ho with rfl | rfl | rfl <;> exact ⟨k, l, rfl, hk2, hl2, rfl⟩
  · intro c hc
    rw [hkinds] at hc
    cases hc
    exact hj'.symm
  · rcases ho with rfl | rfl | rfl <;> rintro (h | ⟨_, _, h⟩) <;> cases h
  · rcases ho with rfl | rfl | rfl <;> rintro v (h | h) <;> cases h
  · rcases ho with rfl | rfl | rfl <;> rfl
  · intro c hc
    rcases List.mem_cons.mp hc with rfl | hc
    · exact ha.free
    · rw [List.mem_singleton] at hc
      subst hc
      exact hb.free
  · exact ⟨k.join l, by rw [Dsl.mk, kinds_node, hkinds], hj, hj'⟩
  · rw [Dsl.mk, eval, evalArgs_two, ha.eval, hb.eval]
    simpa using hd

end

section

variable {K : Variable → Kind} {env : Variable → Val} {m : InputManager} {n : Nat} {H P : Expr → Prop} {a b : Expr}

theorem ofF_ext (x : BB4) : Val.ofF (.ext x) = bb4Field.val x := by
  rw [val_bb4]
  rfl

theorem makes_mulExt (h : Built K H m n P) {x : BB} {y : BB4} (ha : Den bbField K H env P a x)
    (hb : Den bb4Field K H env P b y) :
    Makes bb4Field K H env P m (Dsl.mk .mul 4 [a, b] n).2 (Dsl.mk .mul 4 [a, b] n).1 (algebraMap BB BB4 x * y) :=
  makes_bin_mixed bbField_ok bb4Field_ok h ha hb (.inr (.inr rfl)) rfl (by
    simp [Opc.denote, toF_bb, toF_bb4, FVal.mul, FVal.lift2, ofF_ext, FVal.val])

theorem makes_mulBase (h : Built K H m n P) {x : BB4} {y : BB} (ha : Den bb4Field K H env P a x)
    (hb : Den bbField K H env P b y) :
    Makes bb4Field K H env P m (Dsl.mk .mul 4 [a, b] n).2 (Dsl.mk .mul 4 [a, b] n).1 (x * algebraMap BB BB4 y) :=
  makes_bin_mixed bb4Field_ok bbField_ok h ha hb (.inr (.inr rfl)) rfl (by
    simp [Opc.denote, toF_bb, toF_bb4, FVal.mul, FVal.lift2, ofF_ext, FVal.val])

theorem makes_addBase (h : Built K H m n P) {x : BB4} {y : BB} (ha : Den bb4Field K H env P a x)
    (hb : Den bbField K H env P b y) :
    Makes bb4Field K H env P m (Dsl.mk .add 4 [a, b] n).2 (Dsl.mk .add 4 [a, b] n).1 (x + algebraMap BB BB4 y) :=
  makes_bin_mixed bb4Field_ok bbField_ok h ha hb (.inl rfl) rfl (by
    simp [Opc.denote, toF_bb, toF_bb4, FVal.add, FVal.lift2, ofF_ext, FVal.val])

theorem makes_subBase (h : Built K H m n P) {x : BB4} {y : BB} (ha : Den bb4Field K H env P a x)
    (hb : Den bbField K H env P b y) :
    Makes bb4Field K H env P m (Dsl.mk .sub 4 [a, b] n).2 (Dsl.mk .sub 4 [a, b] n).1 (x - algebraMap BB BB4 y) :=
  makes_bin_mixed bb4Field_ok bbField_ok h ha hb (.inr (.inl rfl)) rfl (by
    simp [Opc.denote, toF_bb, toF_bb4, FVal.sub, FVal.lift2, ofF_ext, FVal.val])

end

end TapStark
