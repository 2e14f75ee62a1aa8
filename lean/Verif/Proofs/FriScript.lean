import Verif.Proofs.DslField
import Verif.Spec.FriScript

/-
The expressions of the script-generating FRI verifier.
-/

namespace TapStark.Fri

variable {F : Type} [Field F] [DecidableEq F] {S C D Pf W IP : Type}
variable {B : BfField F} {K : Variable → Kind} {env : Variable → Val} {m m' : InputManager}
variable {n n' : Nat} {H P P' : Expr → Prop}

/-- The second half of `fold_row_with_expr`. -/
def foldTail (B : BfField F) (e0 e1 xs0 xs1 beta : Expr) (inv : F) (m : InputManager) (n : Nat) :
    Expr × Expr × InputManager × Nat :=
  let (d, n) := Dsl.sub beta xs0 n
  let (e, n) := Dsl.sub e1 e0 n
  let (p, n) := Dsl.mul d e n
  let (p, n) := Dsl.mulF p (B.u32 inv) n
  let (next, n) := Dsl.add e0 p n
  let (dx, n) := Dsl.sub xs1 xs0 n
  let (hint, m, n) := m.assignHintInput (B.u32 inv) n
  let (one, n) := Dsl.mul dx hint n
  let (check, n) := Dsl.equalC one (B.u32 1) n
  (next, check, m, n)

theorem foldRowExpr_eq (folded sibling x : Expr) (z : F) (i : Nat) (beta : Expr) :
    foldRowExpr B folded sibling x z i beta m n =
      if i % 2 = 0 then
        if z - z * B.gen 1 = 0 then none
        else
          let r := foldTail B sibling folded (Dsl.mulF x (B.u32 (B.gen 1)) (n + 2)).1 x beta (1 / (z - z * B.gen 1)) m
            ((Dsl.mulF x (B.u32 (B.gen 1)) (n + 2)).2 + 2)
          some (r.1, r.2.2.1.addHintVerify r.2.1, r.2.2.2)
      else
        if z * B.gen 1 - z = 0 then none
        else
          let r := foldTail B folded sibling x (Dsl.mulF x (B.u32 (B.gen 1)) (n + 2)).1 beta (1 / (z * B.gen 1 - z)) m
            ((Dsl.mulF x (B.u32 (B.gen 1)) (n + 2)).2 + 2)
          some (r.1, r.2.2.1.addHintVerify r.2.1, r.2.2.2) := by
  unfold foldRowExpr
  by_cases h : i % 2 = 0
  · simp only [h, if_true]
    rfl
  · simp only [h, if_false]
    rfl

theorem foldTail_ok (hB : B.Ok) (h : Built K H m n P) {e0 e1 xs0 xs1 beta : Expr} {a0 a1 z0 z1 β : F}
    (h0 : Den B K H env P e0 a0) (h1 : Den B K H env P e1 a1) (hx0 : Den B K H env P xs0 z0) (hx1 : Den B K H env P xs1 z1)
    (hb : Den B K H env P beta β) (hne : z1 - z0 ≠ 0) {next check : Expr}
    (hr : foldTail B e0 e1 xs0 xs1 beta (1 / (z1 - z0)) m n = (next, check, m', n')) (ha : m'.Agrees K env) :
    ∃ P', Built K H m' n' P' ∧ (∀ s, P s → P' s) ∧ Den B K H env P' next (a0 + (β - z0) * (a1 - a0) * (1 / (z1 - z0))) ∧
      P' check ∧ (check.opc = .equal ∧ IsCheck K env check (some true)) ∧ Sub e0 next ∧ Sub e1 next ∧ Sub beta next ∧
      (∀ p ∈ m'.inputs, p ∈ m.inputs ∨ ∃ s, Sub s check ∧ s.opc = .inputMove p.1) := by
  simp only [foldTail] at hr
  obtain ⟨P1, b1, s1, d1⟩ := makes_sub hB h hb hx0
  obtain ⟨P2, b2, s2, d2⟩ := makes_sub hB b1 (h1.mono s1) (h0.mono s1)
  obtain ⟨P3, b3, s3, d3⟩ := makes_mul hB b2 (d1.mono s2) d2
  obtain ⟨P4, b4, s4, d4⟩ := makes_mulF hB b3 d3 (1 / (z1 - z0))
  have t4 : ∀ s, P s → P4 s := fun s hs => s4 s (s3 s (s2 s (s1 s hs)))
  obtain ⟨P5, b5, s5, d5⟩ := makes_add hB b4 (h0.mono t4) d4
  have t5 : ∀ s, P s → P5 s := fun s hs => s5 s (t4 s hs)
  obtain ⟨P6, b6, s6, d6⟩ := makes_sub hB b5 (hx1.mono t5) (hx0.mono t5)
  obtain ⟨rfl, rfl, rfl, rfl⟩ : _ ∧ _ ∧ _ ∧ _ := by simpa only [Prod.mk.injEq] using hr
  obtain ⟨P7, b7, s7, d7⟩ := makes_hintInput hB b6 (1 / (z1 - z0)) ha
  obtain ⟨P8, b8, s8, d8⟩ := makes_mul hB b7 (d6.mono s7) d7
  obtain ⟨P9, b9, s9, p9, o9, c9⟩ := makes_equalC hB b8 d8 1
  rw [cmp_true.mpr (by rw [mul_one_div, div_self hne])] at c9
  have t9 : ∀ s, P5 s → P9 s := fun s hs => s9 s (s8 s (s7 s (s6 s hs)))
  refine ⟨P9, b9, fun s hs => t9 s (t5 s hs), d5.mono t9, p9, ⟨o9, c9⟩, ?_, ?_, ?_, ?_⟩
  · exact .arg (List.mem_cons_self ..) (.refl _)
  · exact .arg (List.mem_cons_of_mem _ (List.mem_cons_self ..)) (.arg (List.mem_cons_self ..)
      (.arg (List.mem_cons_of_mem _ (List.mem_cons_self ..)) (.arg (List.mem_cons_self ..) (.refl _))))
  · exact .arg (List.mem_cons_of_mem _ (List.mem_cons_self ..)) (.arg (List.mem_cons_self ..)
      (.arg (List.mem_cons_self ..) (.arg (List.mem_cons_self ..) (.refl _))))
  · intro p hp
    rw [InputManager.inputs, List.mem_append] at hp
    rcases hp with hp | hp
    · rcases List.mem_append.mp hp with hp | hp
      · exact .inl (List.mem_append_left _ hp)
      · rw [List.mem_singleton] at hp
        subst hp
        exact .inr ⟨_, .arg (List.mem_cons_self ..) (.arg (List.mem_cons_of_mem _ (List.mem_cons_self ..)) (.refl _)), rfl⟩
    · exact .inl (List.mem_append_right _ hp)

theorem foldTail_le {e0 e1 xs0 xs1 beta : Expr} {inv : F} {next check : Expr}
    (hr : foldTail B e0 e1 xs0 xs1 beta inv m n = (next, check, m', n')) :
    m.Le m' ∧ m'.hint = m.hint ∧ (∀ p ∈ m'.inputs, p ∈ m.inputs ∨ ∃ x, p.2 = B.u32 x) ∧ (m.Named → m'.Named) := by
  simp only [foldTail, Prod.mk.injEq] at hr
  obtain ⟨-, -, rfl, -⟩ := hr
  refine ⟨InputManager.le_assignHintInput .., rfl, ?_, fun h => h.assignHintInput ..⟩
  intro p hp
  rw [InputManager.inputs, List.mem_append] at hp
  rcases hp with hp | hp
  · rcases List.mem_append.mp hp with hp | hp
    · exact .inl (List.mem_append_left _ hp)
    · rw [List.mem_singleton] at hp
      subst hp
      exact .inr ⟨_, rfl⟩
  · exact .inl (List.mem_append_right _ hp)

omit [DecidableEq F] in
theorem line_even {z : F} (h2 : (2 : F) ≠ 0) (hz : z ≠ 0) (β a b : F) :
    lineAt z β a b = b + (β - z * -1) * (a - b) * (1 / (z - z * -1)) := by
  rw [show z - z * -1 = 2 * z by ring, lineAt]
  field_simp
  ring

omit [DecidableEq F] in
theorem line_odd {z : F} (h2 : (2 : F) ≠ 0) (hz : z ≠ 0) (β a b : F) :
    lineAt z β a b = a + (β - z) * (b - a) * (1 / (z * -1 - z)) := by
  rw [show z * -1 - z = -(2 * z) by ring, lineAt]
  field_simp
  ring

/-- One folding step. -/
theorem foldRowExpr_ok (hB : B.Ok) (h : Built K H m n P) {folded sibling x beta : Expr} {a b z β : F} {i : Nat}
    (hf : Den B K H env P folded a) (hs : Den B K H env P sibling b) (hx : Den B K H env P x z) (hb : Den B K H env P beta β)
    (hz : z ≠ 0) {next : Expr} (hr : foldRowExpr B folded sibling x z i beta m n = some (next, m', n'))
    (ha : m'.Agrees K env) :
    ∃ P' check, Built K H m' n' P' ∧ (∀ s, P s → P' s) ∧ Den B K H env P' next (lineAt z β a b) ∧
      m'.hint = m.hint ++ [check] ∧ P' check ∧ (check.opc = .equal ∧ IsCheck K env check (some true)) ∧
      Sub folded next ∧ Sub sibling next ∧ Sub beta next ∧
      (∀ p ∈ m'.inputs, p ∈ m.inputs ∨ ∃ s, Sub s check ∧ s.opc = .inputMove p.1) := by
  have h2 := hB.twoAdic.two_ne
  have h2z : 2 * z ≠ 0 := mul_ne_zero h2 hz
  rw [foldRowExpr_eq] at hr
  obtain ⟨P1, b1, s1, d1⟩ := makes_mulF hB (h.mono (Nat.le_add_right n 2)) hx (B.gen 1)
  have b1' := b1.mono (Nat.le_add_right _ 2)
  split at hr
  · have hne : z - z * B.gen 1 ≠ 0 := by
      rw [hB.twoAdic.one, show z - z * -1 = 2 * z by ring]; exact h2z
    rw [if_neg hne] at hr
    generalize hT : foldTail B sibling folded _ x beta _ m _ = T at hr
    obtain ⟨nx, check, m1, n1⟩ := T
    simp only [Option.some.injEq, Prod.mk.injEq] at hr
    obtain ⟨rfl, rfl, rfl⟩ := hr
    obtain ⟨P2, g1, g2, g3, g4, g5, g6, g7, g8, g9⟩ := foldTail_ok hB b1' (hs.mono s1) (hf.mono s1) d1 (hx.mono s1)
      (hb.mono s1) hne hT ⟨ha.vals, ha.kinds, ha.nodup⟩
    refine ⟨P2, check, g1.congr rfl rfl rfl, fun s hs => g2 s (s1 s hs), ?_, ?_, g4, g5, g7, g6, g8, g9⟩
    · rw [line_even h2 hz, ← hB.twoAdic.one]
      exact g3
    · rw [InputManager.addHintVerify, (foldTail_le hT).2.1]
  · have hne : z * B.gen 1 - z ≠ 0 := by
      rw [hB.twoAdic.one, show z * -1 - z = -(2 * z) by ring]; exact neg_ne_zero.mpr h2z
    rw [if_neg hne] at hr
    generalize hT : foldTail B folded sibling x _ beta _ m _ = T at hr
    obtain ⟨nx, check, m1, n1⟩ := T
    simp only [Option.some.injEq, Prod.mk.injEq] at hr
    obtain ⟨rfl, rfl, rfl⟩ := hr
    obtain ⟨P2, g1, g2, g3, g4, g5, g6, g7, g8, g9⟩ := foldTail_ok hB b1' (hf.mono s1) (hs.mono s1) (hx.mono s1) d1
      (hb.mono s1) hne hT ⟨ha.vals, ha.kinds, ha.nodup⟩
    refine ⟨P2, check, g1.congr rfl rfl rfl, fun s hs => g2 s (s1 s hs), ?_, ?_, g4, g5, g6, g7, g8, g9⟩
    · rw [line_odd h2 hz, ← hB.twoAdic.one]
      exact g3
    · rw [InputManager.addHintVerify, (foldTail_le hT).2.1]

theorem foldRowExpr_le {folded sibling x beta : Expr} {z : F} {i : Nat} {next : Expr}
    (hr : foldRowExpr B folded sibling x z i beta m n = some (next, m', n')) :
    m.Le m' ∧ (∀ p ∈ m'.inputs, p ∈ m.inputs ∨ ∃ x, p.2 = B.u32 x) ∧ (m.Named → m'.Named) := by
  rw [foldRowExpr_eq] at hr
  split at hr <;> split at hr
  · cases hr
  · generalize hT : foldTail B sibling folded _ x beta _ m _ = T at hr
    obtain ⟨nx, check, m1, n1⟩ := T
    simp only [Option.some.injEq, Prod.mk.injEq] at hr
    obtain ⟨rfl, rfl, rfl⟩ := hr
    exact ⟨(foldTail_le hT).1, (foldTail_le hT).2.2.1, fun h => have h := (foldTail_le hT).2.2.2 h; ⟨h.names, h.nodup⟩⟩
  · cases hr
  · generalize hT : foldTail B folded sibling x _ beta _ m _ = T at hr
    obtain ⟨nx, check, m1, n1⟩ := T
    simp only [Option.some.injEq, Prod.mk.injEq] at hr
    obtain ⟨rfl, rfl, rfl⟩ := hr
    exact ⟨(foldTail_le hT).1, (foldTail_le hT).2.2.1, fun h => have h := (foldTail_le hT).2.2.2 h; ⟨h.names, h.nodup⟩⟩

theorem foldRowExpr_some (hB : B.Ok) (folded sibling x beta : Expr) {z : F} (i : Nat) (hz : z ≠ 0) :
    ∃ r, foldRowExpr B folded sibling x z i beta m n = some r := by
  have h2z : 2 * z ≠ 0 := mul_ne_zero hB.twoAdic.two_ne hz
  have hne : z - z * B.gen 1 ≠ 0 := by
    rw [hB.twoAdic.one, show z - z * -1 = 2 * z by ring]; exact h2z
  have hne' : z * B.gen 1 - z ≠ 0 := by
    rw [hB.twoAdic.one, show z * -1 - z = -(2 * z) by ring]; exact neg_ne_zero.mpr h2z
  rw [foldRowExpr_eq, if_neg hne, if_neg hne']
  split <;> exact ⟨_, rfl⟩

/-! ### The rounds of a query -/

/-- The reduced openings that remain after a round. -/
def dropRo {α : Type} (h : Nat) : List (Nat × α) → List (Nat × α)
  | [] => []
  | r :: rest => if r.1 = h then rest else r :: rest

/-- The reduced openings that remain after the rounds. -/
def leftRos {α β : Type} : List (Nat × β) → List (Nat × α) → List (Nat × α)
  | [], ros => ros
  | r :: rest, ros => leftRos rest (dropRo (r.1 + 1) ros)

/-- The value of the rounds. -/
def foldValue : List (Nat × C × (List (List F) × Pf) × F) → (idx : Nat) → (own : F) → List (Nat × F) → (x : F) → F
  | [], _, own, _, _ => own
  | (lfh, _, step, β) :: rest, idx, own, ros, x =>
    foldValue rest (idx / 2)
      (lineAt x β (nextRo (lfh + 1) own ros).1 ((step.1.getD 0 []).getD (1 - idx % 2) 0)) (nextRo (lfh + 1) own ros).2
      (if lfh = 1 then x else x ^ 2)

omit [DecidableEq F] in
theorem RosDen.mono {ros : List (Nat × Expr)} {vals : List (Nat × F)} (h : RosDen B K H env P ros vals)
    (hP : ∀ s, P s → P' s) : RosDen B K H env P' ros vals :=
  List.Forall₂.imp (fun _ _ h => ⟨h.1, h.2.mono hP⟩) h

omit [DecidableEq F] in
theorem nextRoExpr_ok (hB : B.Ok) (h : Built K H m n P) {folded : Expr} {a : F} (hf : Den B K H env P folded a)
    {ros : List (Nat × Expr)} {vals : List (Nat × F)} (hr : RosDen B K H env P ros vals) (k : Nat) :
    (nextRoExpr k folded ros n).2.1 = dropRo k ros ∧
    ∃ P', Built K H m (nextRoExpr k folded ros n).2.2 P' ∧ (∀ s, P s → P' s) ∧
      Den B K H env P' (nextRoExpr k folded ros n).1 (nextRo k a vals).1 ∧
      RosDen B K H env P' (nextRoExpr k folded ros n).2.1 (nextRo k a vals).2 ∧
      Sub folded (nextRoExpr k folded ros n).1 ∧
      ∀ r ∈ ros, r ∈ (nextRoExpr k folded ros n).2.1 ∨ Sub r.2 (nextRoExpr k folded ros n).1 := by
  cases hr with
  | nil => exact ⟨rfl, P, h, fun _ h => h, hf, .nil, .refl _, fun r hr => by cases hr⟩
  | @cons r v ros vals h1 h2 =>
    obtain ⟨lh, ro⟩ := r
    obtain ⟨lh', w⟩ := v
    obtain ⟨e1, d1⟩ := h1
    simp only at e1 d1
    subst e1
    by_cases hk : lh = k
    · obtain ⟨P1, b1, s1, d2⟩ := makes_add hB h hf d1
      have e2 : nextRoExpr k folded ((lh, ro) :: ros) n =
          ((Dsl.add folded ro n).1, ros, (Dsl.add folded ro n).2) := by
        simp [nextRoExpr, hk]
      have e3 : nextRo k a ((lh, w) :: vals) = (a + w, vals) := by simp [nextRo, hk]
      rw [e2, e3]
      refine ⟨by simp [dropRo, hk], P1, b1, s1, d2, RosDen.mono h2 s1, .arg (List.mem_cons_self ..) (.refl _), ?_⟩
      intro r hr
      rcases List.mem_cons.mp hr with rfl | hr
      · exact .inr (.arg (List.mem_cons_of_mem _ (List.mem_cons_self ..)) (.refl _))
      · exact .inl hr
    · have e2 : nextRoExpr k folded ((lh, ro) :: ros) n = (folded, (lh, ro) :: ros, n) := by
        simp [nextRoExpr, hk]
      have e3 : nextRo k a ((lh, w) :: vals) = (a, (lh, w) :: vals) := by simp [nextRo, hk]
      rw [e2, e3]
      exact ⟨by simp [dropRo, hk], P, h, fun _ h => h, hf, .cons ⟨rfl, d1⟩ h2, .refl _, fun r hr => .inl hr⟩

variable {M : Mmcs F S C D Pf}

/-- What one round does. -/
theorem loop_cons {q lfh idx : Nat} {c : C} {step : List (List F) × Pf} {β z : F}
    {rest : List (Nat × C × (List (List F) × Pf) × F)} {folded x : Expr} {ros : List (Nat × Expr)}
    {out : Expr × Nat × InputManager × Nat} :
    queryLoopExpr B M q ((lfh, c, step, β) :: rest) idx folded ros x z m n = .ok out ↔
    ∃ row s next m3 n3, step.1 = [row] ∧ M.verifyBatch q step.1 step.2 c = some true ∧ row[1 - idx % 2]? = some s ∧
      foldRowExpr B (nextRoExpr (lfh + 1) folded ros n).1
        (m.assignInput (B.u32 s) (nextRoExpr (lfh + 1) folded ros n).2.2).1 x z (1 - idx % 2)
        ((m.assignInput (B.u32 s) (nextRoExpr (lfh + 1) folded ros n).2.2).2.1.assignInput (B.u32 β)
          (m.assignInput (B.u32 s) (nextRoExpr (lfh + 1) folded ros n).2.2).2.2).1
        ((m.assignInput (B.u32 s) (nextRoExpr (lfh + 1) folded ros n).2.2).2.1.assignInput (B.u32 β)
          (m.assignInput (B.u32 s) (nextRoExpr (lfh + 1) folded ros n).2.2).2.2).2.1
        ((m.assignInput (B.u32 s) (nextRoExpr (lfh + 1) folded ros n).2.2).2.1.assignInput (B.u32 β)
          (m.assignInput (B.u32 s) (nextRoExpr (lfh + 1) folded ros n).2.2).2.2).2.2 = some (next, m3, n3) ∧
      queryLoopExpr B M q rest (idx / 2) next (nextRoExpr (lfh + 1) folded ros n).2.1
        (if lfh = 1 then x else (Dsl.square x n3).1) (if lfh = 1 then z else z * z) m3
        (if lfh = 1 then n3 else (Dsl.square x n3).2) = .ok out := by
  rw [queryLoopExpr]
  generalize nextRoExpr (lfh + 1) folded ros n = f
  obtain ⟨f, ros', n1⟩ := f
  simp only
  have hlen : ∀ (l : List (List F)), l.length = 1 ↔ ∃ row, l = [row] := by
    intro l; exact List.length_eq_one_iff
  constructor
  · intro h
    split at h
    case isFalse => cases h
    case isTrue h1 =>
      obtain ⟨row, hrow⟩ := (hlen _).mp h1
      rw [Res.bind_eq_ok] at h
      obtain ⟨acc, hacc, h⟩ := h
      rw [Res.ofOption_eq_ok] at hacc
      split at h
      case isFalse => cases h
      case isTrue hat =>
        rw [Res.bind_eq_ok] at h
        obtain ⟨row', hrow', h⟩ := h
        rw [Res.ofOption_eq_ok, hrow] at hrow'
        cases hrow'
        rw [Res.bind_eq_ok] at h
        obtain ⟨s, hs, h⟩ := h
        rw [Res.ofOption_eq_ok] at hs
        rw [Res.bind_eq_ok] at h
        obtain ⟨⟨next, m3, n3⟩, hf, h⟩ := h
        rw [Res.ofOption_eq_ok] at hf
        refine ⟨row, s, next, m3, n3, hrow, hat ▸ hacc, hs, hf, ?_⟩
        by_cases hl : lfh = 1
        · simpa [hl] using h
        · simpa [hl] using h
  · rintro ⟨row, s, next, m3, n3, hrow, hacc, hs, hf, h⟩
    rw [hacc, hrow, if_pos (show [row].length = 1 from rfl)]
    simp only [Res.ofOption_some, Res.bind_ok, if_true, List.getElem?_cons_zero, hs, hf]
    by_cases hl : lfh = 1
    · simpa [hl] using h
    · simpa [hl] using h

/-- Inputs are only added by the rounds, and are field elements. -/
theorem loop_le {q : Nat} : ∀ {rounds : List (Nat × C × (List (List F) × Pf) × F)} {idx : Nat} {folded x : Expr}
    {ros : List (Nat × Expr)} {z : F} {m : InputManager} {n : Nat} {e : Expr} {idx' : Nat} {m' : InputManager} {n' : Nat},
    queryLoopExpr B M q rounds idx folded ros x z m n = .ok (e, idx', m', n') →
    m.Le m' ∧ idx' = idx / 2 ^ rounds.length ∧ (∀ p ∈ m'.inputs, p ∈ m.inputs ∨ ∃ x, p.2 = B.u32 x) ∧
      (m.Named → m'.Named) := by
  intro rounds
  induction rounds with
  | nil =>
    intro idx folded x ros z m n e idx' m' n' h
    rw [queryLoopExpr] at h
    cases h
    exact ⟨.refl m, by simp, fun p hp => .inl hp, fun h => h⟩
  | cons r rest ih =>
    intro idx folded x ros z m n e idx' m' n' h
    obtain ⟨lfh, c, step, β⟩ := r
    obtain ⟨row, s, next, m3, n3, hrow, hacc, hs, hf, h⟩ := loop_cons.mp h
    obtain ⟨i1, i2, i3, i4⟩ := ih h
    obtain ⟨f1, f2, f3⟩ := foldRowExpr_le hf
    refine ⟨(((InputManager.le_assignInput ..).trans (InputManager.le_assignInput ..)).trans f1).trans i1, ?_, ?_,
      fun hn => i4 (f3 ((hn.assignInput ..).assignInput ..))⟩
    · rw [i2, List.length_cons, Nat.div_div_eq_div_mul, pow_succ']
    · intro p hp
      rcases i3 p hp with hp | hp
      · rcases f2 p hp with hp | hp
        · simp only [InputManager.inputs, InputManager.assignInput, List.mem_append, List.mem_singleton] at hp ⊢
          rcases hp with hp | (hp | rfl) | rfl
          · exact .inl (.inl hp)
          · exact .inl (.inr hp)
          · exact .inr ⟨_, rfl⟩
          · exact .inr ⟨_, rfl⟩
        · exact .inr hp
      · exact .inr hp

theorem foldRowExpr_counter {folded sibling x beta : Expr} {z : F} {i : Nat} {next : Expr}
    (hr : foldRowExpr B folded sibling x z i beta m n = some (next, m', n')) : n ≤ n' := by
  rw [foldRowExpr_eq] at hr
  split at hr <;> split at hr <;> cases hr
  all_goals
    show n ≤ n + 2 + 1 + 1 + 2 + 1 + 1 + 1 + 1 + 1 + 1 + 1 + 1 + 1 + 1 + 1
    omega

/-- The counter only grows. -/
theorem loop_counter {q : Nat} : ∀ {rounds : List (Nat × C × (List (List F) × Pf) × F)} {idx : Nat} {folded x : Expr}
    {ros : List (Nat × Expr)} {z : F} {m : InputManager} {n : Nat} {e : Expr} {idx' : Nat} {m' : InputManager} {n' : Nat},
    queryLoopExpr B M q rounds idx folded ros x z m n = .ok (e, idx', m', n') → n ≤ n' := by
  intro rounds
  induction rounds with
  | nil =>
    intro idx folded x ros z m n e idx' m' n' h
    rw [queryLoopExpr] at h
    cases h
    exact Nat.le_refl _
  | cons r rest ih =>
    intro idx folded x ros z m n e idx' m' n' h
    obtain ⟨lfh, c, step, β⟩ := r
    obtain ⟨row, s, next, m3, n3, hrow, hacc, hs, hf, h⟩ := loop_cons.mp h
    have h1 := ih h
    have h2 := foldRowExpr_counter hf
    have h3 : n ≤ (nextRoExpr (lfh + 1) folded ros n).2.2 := by
      unfold nextRoExpr
      split
      · exact Nat.le_refl _
      · split
        · exact Nat.le_succ n
        · exact Nat.le_refl _
    have h4 : n3 ≤ (if lfh = 1 then n3 else (Dsl.square x n3).2) := by
      split
      · exact Nat.le_refl _
      · exact Nat.le_succ n3
    simp only [InputManager.assignInput] at h2
    omega

/-- The expression of the rounds. -/
theorem loop_ok (hB : B.Ok) {q : Nat} : ∀ {rounds : List (Nat × C × (List (List F) × Pf) × F)} {idx : Nat}
    {folded x : Expr} {ros : List (Nat × Expr)} {a z : F} {vals : List (Nat × F)} {m : InputManager} {n : Nat}
    {P : Expr → Prop} {e : Expr} {idx' : Nat} {m' : InputManager} {n' : Nat},
    queryLoopExpr B M q rounds idx folded ros x z m n = .ok (e, idx', m', n') → m'.Agrees K env → Built K H m n P →
    Den B K H env P folded a → RosDen B K H env P ros vals → Den B K H env P x z → z ≠ 0 →
    ∃ P' cs, Built K H m' n' P' ∧ (∀ s, P s → P' s) ∧ Den B K H env P' e (foldValue rounds idx a vals z) ∧
      m'.hint = m.hint ++ cs ∧ (∀ c ∈ cs, P' c ∧ c.opc = .equal ∧ IsCheck K env c (some true)) ∧ Sub folded e ∧
      (∀ r ∈ ros, r ∈ leftRos rounds ros ∨ Sub r.2 e) ∧
      (∀ p ∈ m'.inputs, p ∈ m.inputs ∨ ∃ s, (Sub s e ∨ ∃ c ∈ cs, Sub s c) ∧ s.opc = .inputMove p.1) := by
  intro rounds
  induction rounds with
  | nil =>
    intro idx folded x ros a z vals m n P e idx' m' n' h _ hb hf _ _ _
    rw [queryLoopExpr] at h
    cases h
    exact ⟨P, [], hb, fun _ h => h, hf, by simp, by simp, .refl _, fun r hr => .inl hr, fun p hp => .inl hp⟩
  | cons r rest ih =>
    intro idx folded x ros a z vals m n P e idx' m' n' h hag hb hf hr hx hz
    obtain ⟨lfh, c, step, β⟩ := r
    obtain ⟨row, s, next, m3, n3, hrow, hacc, hs, hfold, h⟩ := loop_cons.mp h
    have le3 := (loop_le h).1
    have lef := (foldRowExpr_le hfold).1
    have ag3 := InputManager.Agrees.mono le3 hag
    have ag2 := InputManager.Agrees.mono lef ag3
    have ag1 := InputManager.Agrees.mono (InputManager.le_assignInput ..) ag2
    obtain ⟨r0, P1, b1, s1, d1, rd1, sub1, left1⟩ := nextRoExpr_ok hB hb hf hr (lfh + 1)
    obtain ⟨P2, b2, s2, d2⟩ := makes_input hB b1 s ag1
    obtain ⟨P3, b3, s3, d3⟩ := makes_input hB b2 β ag2
    have t3 : ∀ s, P s → P3 s := fun s hs => s3 s (s2 s (s1 s hs))
    obtain ⟨P4, check, b4, s4, d4, hint4, pc4, c4, sf, ss, sb, cov⟩ := foldRowExpr_ok hB b3
      (d1.mono fun s hs => s3 s (s2 s hs)) (d2.mono s3) (hx.mono t3) d3 hz hfold ag3
    have hsv : (step.1.getD 0 []).getD (1 - idx % 2) 0 = s := by
      rw [hrow]
      simp [hs]
    have rd4 : RosDen B K H env P4 (nextRoExpr (lfh + 1) folded ros n).2.1 (nextRo (lfh + 1) a vals).2 :=
      rd1.mono fun s hs => s4 s (s3 s (s2 s hs))
    have hx4 : Den B K H env P4 x z := hx.mono fun s hs => s4 s (t3 s hs)
    -- the point of the next round
    have hpt : ∃ P5, Built K H m3 (if lfh = 1 then n3 else (Dsl.square x n3).2) P5 ∧ (∀ s, P4 s → P5 s) ∧
        Den B K H env P5 (if lfh = 1 then x else (Dsl.square x n3).1) (if lfh = 1 then z else z ^ 2) := by
      by_cases hl : lfh = 1
      · rw [if_pos hl, if_pos hl, if_pos hl]
        exact ⟨P4, b4, fun _ h => h, hx4⟩
      · rw [if_neg hl, if_neg hl, if_neg hl]
        obtain ⟨P5, b5, s5, d5⟩ := makes_square hB b4 hx4
        exact ⟨P5, b5, s5, d5⟩
    obtain ⟨P5, b5, s5, d5⟩ := hpt
    have hz' : (if lfh = 1 then z else z ^ 2) ≠ 0 := by
      split
      · exact hz
      · exact pow_ne_zero _ hz
    rw [show z * z = z ^ 2 by ring] at h
    obtain ⟨P6, cs, b6, s6, d6, hint6, c6, sub6, left6, cov6⟩ := ih h hag b5 (d4.mono s5) (rd4.mono s5) d5 hz'
    refine ⟨P6, check :: cs, b6, fun s hs => s6 s (s5 s (s4 s (t3 s hs))), ?_, ?_, ?_, ?_, ?_, ?_⟩
    · rw [foldValue, hsv]
      exact d6
    · rw [hint6, hint4, List.append_assoc]
      rfl
    · intro c hc
      rcases List.mem_cons.mp hc with rfl | hc
      · exact ⟨s6 _ (s5 _ pc4), c4⟩
      · exact c6 c hc
    · exact (sub1.trans sf).trans sub6
    · intro r hr
      rcases left1 r hr with h1 | h1
      · rcases left6 r h1 with h2 | h2
        · left
          rw [leftRos, ← r0]
          exact h2
        · exact .inr h2
      · exact .inr ((h1.trans sf).trans sub6)
    · intro p hp
      rcases cov6 p hp with hp | ⟨s, hs, ho⟩
      · rcases cov p hp with hp | ⟨s, hs, ho⟩
        · simp only [InputManager.inputs, InputManager.assignInput, List.mem_append, List.mem_singleton] at hp ⊢
          rcases hp with hp | (hp | rfl) | rfl
          · exact .inl (.inl hp)
          · exact .inl (.inr hp)
          · exact .inr ⟨_, .inl (ss.trans sub6), rfl⟩
          · exact .inr ⟨_, .inl (sb.trans sub6), rfl⟩
        · exact .inr ⟨s, .inr ⟨check, List.mem_cons_self .., hs⟩, ho⟩
      · rcases hs with hs | ⟨c, hc, hs⟩
        · exact .inr ⟨s, .inl hs, ho⟩
        · exact .inr ⟨s, .inr ⟨c, List.mem_cons_of_mem _ hc, hs⟩, ho⟩

/-- The rounds do not panic when the openings are accepted and have a sibling. -/
theorem loop_total (hB : B.Ok) {q : Nat} : ∀ {rounds : List (Nat × C × (List (List F) × Pf) × F)} (idx : Nat)
    (folded x : Expr) (ros : List (Nat × Expr)) {z : F} (m : InputManager) (n : Nat), z ≠ 0 →
    (∀ r ∈ rounds, ∃ a b, r.2.2.1.1 = [[a, b]] ∧ M.verifyBatch q [[a, b]] r.2.2.1.2 r.2.1 = some true) →
    ∃ out, queryLoopExpr B M q rounds idx folded ros x z m n = .ok out := by
  intro rounds
  induction rounds with
  | nil => exact fun _ _ _ _ _ _ _ _ _ => ⟨_, by rw [queryLoopExpr]⟩
  | cons r rest ih =>
    intro idx folded x ros z m n hz hr
    obtain ⟨lfh, c, step, β⟩ := r
    obtain ⟨a, b, h1, h2⟩ := hr _ (List.mem_cons_self ..)
    simp only at h1 h2
    have hi : 1 - idx % 2 < [a, b].length := by simp
    have hz' : (if lfh = 1 then z else z * z) ≠ 0 := by
      split
      · exact hz
      · exact mul_ne_zero hz hz
    obtain ⟨⟨next, m3, n3⟩, hf⟩ := foldRowExpr_some (B := B)
      (m := ((m.assignInput (B.u32 ([a, b][1 - idx % 2])) (nextRoExpr (lfh + 1) folded ros n).2.2).2.1.assignInput (B.u32 β)
        (m.assignInput (B.u32 ([a, b][1 - idx % 2])) (nextRoExpr (lfh + 1) folded ros n).2.2).2.2).2.1)
      (n := ((m.assignInput (B.u32 ([a, b][1 - idx % 2])) (nextRoExpr (lfh + 1) folded ros n).2.2).2.1.assignInput (B.u32 β)
        (m.assignInput (B.u32 ([a, b][1 - idx % 2])) (nextRoExpr (lfh + 1) folded ros n).2.2).2.2).2.2)
      hB (nextRoExpr (lfh + 1) folded ros n).1
      (m.assignInput (B.u32 ([a, b][1 - idx % 2])) (nextRoExpr (lfh + 1) folded ros n).2.2).1 x
      ((m.assignInput (B.u32 ([a, b][1 - idx % 2])) (nextRoExpr (lfh + 1) folded ros n).2.2).2.1.assignInput (B.u32 β)
        (m.assignInput (B.u32 ([a, b][1 - idx % 2])) (nextRoExpr (lfh + 1) folded ros n).2.2).2.2).1 (1 - idx % 2) hz
    obtain ⟨out, ho⟩ := ih (idx / 2) next (if lfh = 1 then x else (Dsl.square x n3).1)
      (nextRoExpr (lfh + 1) folded ros n).2.1 m3 (if lfh = 1 then n3 else (Dsl.square x n3).2) hz'
      fun r hr' => hr r (List.mem_cons_of_mem _ hr')
    exact ⟨out, loop_cons.mpr ⟨[a, b], [a, b][1 - idx % 2], next, m3, n3, h1, by rw [h1]; exact h2,
      List.getElem?_eq_getElem hi, hf, ho⟩⟩

/-! ### The value of the rounds -/

omit [DecidableEq F] in
theorem foldChain_congr {ro ro' : Nat → F} : ∀ (l : List (F × F)) (h : Nat) (x own : F), (∀ k, k ≤ h → ro k = ro' k) →
    foldChain ro h x own l = foldChain ro' h x own l := by
  intro l
  induction l with
  | nil => intro h x own _; rfl
  | cons p l ih =>
    intro h x own hr
    obtain ⟨β, s⟩ := p
    rw [foldChain, foldChain, hr h (Nat.le_refl _)]
    exact ih _ _ _ fun k hk => hr k (by omega)

/-- The rounds of the code, for a blowup of at least 2. -/
theorem foldValue_chain {b : Nat} (hb : 1 ≤ b) : ∀ (k : Nat) (commits : List C) (openings : List (List (List F) × Pf))
    (betas : List F) (idx : Nat) (own : F) (ros : List (Nat × F)) (x : F),
    commits.length = k → openings.length = k → betas.length = k → RosOk ros (b + k) →
    foldValue ((downList b k).zip (commits.zip (openings.zip betas))) idx own ros x =
      foldChain (roAt ros) (b + k) x own (betas.zip (siblings idx (openings.map Prod.fst))) := by
  intro k
  induction k with
  | zero =>
    intro commits openings betas idx own ros x hc ho hbe hr
    rw [List.length_eq_zero_iff] at hc ho hbe
    subst hc ho hbe
    rfl
  | succ k ih =>
    intro commits openings betas idx own ros x hc ho hbe hr
    match commits, openings, betas, hc, ho, hbe with
    | c :: commits, (rows, π) :: openings, β :: betas, hc, ho, hbe =>
      rw [← Nat.add_assoc] at hr
      obtain ⟨r1, r2, r3⟩ := nextRo_spec hr own
      have hk : (if b + k = 1 then x else x ^ 2) = x ^ 2 ∨ k = 0 := by
        by_cases h : b + k = 1
        · right; omega
        · left; rw [if_neg h]
      simp only [downList, List.zip_cons_cons, foldValue, List.map_cons, siblings, foldChain]
      rw [ih commits openings betas (idx / 2) _ _ _ (by simpa using hc) (by simpa using ho) (by simpa using hbe)
        (by simpa using r2), r1, show b + (k + 1) - 1 = b + k by omega,
        foldChain_congr (ro := roAt (nextRo (b + k + 1) own ros).2) (ro' := roAt ros) _ _ _ _
          fun j hj => r3 j (by omega)]
      rcases hk with hk | rfl
      · rw [hk]; rfl
      · have : betas = [] := by simpa using hbe
        subst this
        rfl

theorem leftRos_nil {α β : Type} {b : Nat} : ∀ (k : Nat) (l : List β) (ros : List (Nat × α)), l.length = k →
    ros.Pairwise (fun x y => y.1 < x.1) → (∀ r ∈ ros, b < r.1 ∧ r.1 ≤ b + k) →
    leftRos ((downList b k).zip l) ros = [] := by
  intro k
  induction k with
  | zero =>
    intro l ros hl hp hr
    cases ros with
    | nil => cases l <;> simp [downList, leftRos]
    | cons r ros => have := hr r (List.mem_cons_self ..); omega
  | succ k ih =>
    intro l ros hl hp hr
    match l, hl with
    | y :: l, hl =>
      simp only [downList, List.zip_cons_cons, leftRos]
      refine ih l _ (by simpa using hl) ?_ ?_
      · cases ros with
        | nil => exact hp
        | cons r ros =>
          rw [dropRo]
          split
          · exact (List.pairwise_cons.mp hp).2
          · exact hp
      · cases ros with
        | nil => intro r hr'; cases hr'
        | cons r ros =>
          rw [dropRo]
          have h0 := hr r (List.mem_cons_self ..)
          split
          · rename_i he
            intro r' hr'
            have h1 := hr r' (List.mem_cons_of_mem _ hr')
            have h2 := (List.pairwise_cons.mp hp).1 r' hr'
            omega
          · rename_i he
            intro r' hr'
            have h1 := hr r' hr'
            rcases List.mem_cons.mp hr' with rfl | hr''
            · omega
            · have h2 := (List.pairwise_cons.mp hp).1 r' hr''
              omega

/-! ### The native rounds -/

omit [DecidableEq F] in
theorem lineAt_neg {x : F} (hx : x ≠ 0) (h2 : (2 : F) ≠ 0) (β a b : F) : lineAt (-x) β b a = lineAt x β a b := by
  unfold lineAt
  field_simp
  ring

/-- The own point of a round and the point of its row. -/
theorem own_point {gen : Nat → F} {N k : Nat} (hg : TwoAdic gen N) (hk : k + 1 ≤ N) (idx : Nat) :
    gen (k + 1) ^ revBits (k + 1) idx =
      if idx % 2 = 0 then gen (k + 1) ^ revBits k (idx / 2) else -(gen (k + 1) ^ revBits k (idx / 2)) := by
  split
  · rename_i h
    obtain ⟨i, rfl⟩ : ∃ i, idx = 2 * i := ⟨idx / 2, by omega⟩
    rw [revBits_even, show 2 * i / 2 = i by omega]
  · rename_i h
    obtain ⟨i, rfl⟩ : ∃ i, idx = 2 * i + 1 := ⟨idx / 2, by omega⟩
    rw [hg.point_odd hk, show (2 * i + 1) / 2 = i by omega]

theorem own_point_sq {gen : Nat → F} {N k : Nat} (hg : TwoAdic gen N) (hk : k + 1 ≤ N) (idx : Nat) :
    (gen (k + 1) ^ revBits (k + 1) idx) ^ 2 = gen k ^ revBits k (idx / 2) := by
  rw [own_point hg hk]
  split
  · exact hg.point_sq hk _
  · rw [neg_sq]; exact hg.point_sq hk _

/-- The native rounds compute the same value, if the first own value is the committed one. -/
theorem native_chain {gen : Nat → F} {N : Nat} (hg : TwoAdic gen N) {q top b : Nat} :
    ∀ (k : Nat) (commits : List C) (openings : List (List (List F) × Pf)) (betas : List F) (idx : Nat) (own : F)
      (ros : List (Nat × F)) (v : F) (idx' : Nat),
    commits.length = k → openings.length = k → betas.length = k → b + k ≤ N → b + k ≤ top → RosOk ros (b + k) →
    (b + k = top → ∀ o ∈ openings.head?, (o.1.getD 0 []).getD (idx % 2) 0 = own + roAt ros (b + k)) →
    queryLoop gen M q top ((downList b k).zip (commits.zip (openings.zip betas))) idx own ros = .ok (v, idx') →
    v = foldChain (roAt ros) (b + k) (gen (b + k) ^ revBits (b + k) idx) own
      (betas.zip (siblings idx (openings.map Prod.fst))) := by
  intro k
  induction k with
  | zero =>
    intro commits openings betas idx own ros v idx' hc ho hbe hN ht hr hm h
    rw [List.length_eq_zero_iff] at hc ho hbe
    subst hc ho hbe
    simp only [downList, List.zip_nil_left, queryLoop, Res.ok.injEq, Prod.mk.injEq] at h
    exact h.1.symm
  | succ k ih =>
    intro commits openings betas idx own ros v idx' hc ho hbe hN ht hr hm h
    match commits, openings, betas, hc, ho, hbe with
    | c :: commits, (rows, π) :: openings, β :: betas, hc, ho, hbe =>
      simp only [downList, List.zip_cons_cons] at h
      rw [queryLoop] at h
      rw [← Nat.add_assoc] at hr hN ht hm
      obtain ⟨r1, r2, r3⟩ := nextRo_spec hr own
      generalize hnr : nextRo (b + k + 1) own ros = nr at h r1 r2 r3
      obtain ⟨own1, ros1⟩ := nr
      simp only at h r1 r2 r3
      split at h
      case isFalse => cases h
      case isTrue hlen =>
        rw [Res.bind_eq_ok] at h
        obtain ⟨row, hrow, h⟩ := h
        rw [Res.ofOption_eq_ok] at hrow
        rw [Res.bind_eq_ok] at h
        obtain ⟨com, hcom, h⟩ := h
        rw [Res.ofOption_eq_ok] at hcom
        split at h
        case isTrue => cases h
        case isFalse hne =>
          rw [Res.bind_eq_ok] at h
          obtain ⟨acc, hacc, h⟩ := h
          rw [Res.ofOption_eq_ok] at hacc
          split at h
          case isFalse => cases h
          case isTrue hat =>
            rw [Res.bind_eq_ok] at h
            obtain ⟨fe2, hfold, h⟩ := h
            rw [Res.ofOption_eq_ok] at hfold
            obtain ⟨a, b', rfl, hv⟩ := foldRow_some hg hN hfold
            have hrows : rows = [[a, b']] := by
              match rows, hlen, hrow with
              | [r], _, hrow => simpa using hrow
            subst hrows
            have hown : com = own1 := by
              by_cases hlt : b + k < top - 1
              · by_contra hcon
                exact hne ⟨hlt, fun e => hcon e.symm⟩
              · have := hm (by omega) _ rfl
                rw [r1, ← this]
                simp only [List.getD_cons_zero]
                rw [List.getD_eq_getElem?_getD, hcom]
                rfl
            have := ih commits openings betas (idx / 2) fe2 ros1 v idx' (by simpa using hc) (by simpa using ho)
              (by simpa using hbe) (by omega) (by omega) (by simpa using r2) (fun hcon => by omega) h
            rw [this]
            simp only [List.map_cons, siblings, List.zip_cons_cons, foldChain]
            rw [show b + (k + 1) - 1 = b + k by omega, ← Nat.add_assoc, own_point_sq hg hN,
              foldChain_congr (ro := roAt ros1) (ro' := roAt ros) _ _ _ _ fun j hj => r3 j (by omega)]
            congr 1
            rw [hv, own_point hg hN, ← r1, ← hown]
            have hx : gen (b + k + 1) ^ revBits (b + k) (idx / 2) ≠ 0 := pow_ne_zero _ (hg.ne_zero hN)
            rcases Nat.mod_two_eq_zero_or_one idx with h0 | h0
            · rw [h0] at hcom ⊢
              simp only [List.getElem?_cons_zero, Option.some.injEq] at hcom
              subst hcom
              rfl
            · rw [h0] at hcom ⊢
              simp only [List.getElem?_cons_succ, List.getElem?_cons_zero, Option.some.injEq] at hcom
              subst hcom
              exact (lineAt_neg hx hg.two_ne β a b').symm

end TapStark.Fri
