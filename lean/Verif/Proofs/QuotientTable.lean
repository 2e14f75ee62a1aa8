import Verif.Props.ScriptQuotient
import Verif.Spec.QuotientRelaxed

/-
Tables in sets of built nodes, and the loops of the quotient check of the script verifier without the assertions on
operands.
-/

namespace TapStark

open Stark (BB4)

variable {F : Type} [Field F] {B : BfField F} {K : Variable → Kind} {env : Variable → Val} {m : InputManager}
variable {n : Nat} {H P P' : Expr → Prop} {tab e : Expr} {t : List BB}

theorem foldr_max_le {l : List Nat} {b : Nat} (h : ∀ x ∈ l, x ≤ b) : l.foldr max 0 ≤ b := by
  induction l with
  | nil => exact Nat.zero_le _
  | cons x l ih =>
    rw [List.foldr_cons]
    exact max_le (h x (List.mem_cons_self ..)) (ih fun y hy => h y (List.mem_cons_of_mem _ hy))

theorem le_foldr_max {l : List Nat} {x : Nat} (h : x ∈ l) : x ≤ l.foldr max 0 := by
  induction l with
  | nil => cases h
  | cons y l ih =>
    rw [List.foldr_cons]
    rcases List.mem_cons.mp h with rfl | h
    · exact le_max_left _ _
    · exact (ih h).trans (le_max_right _ _)

/-- The entries of a table of base field elements have one kind. -/
theorem tableKind_bb (t : List BB) : ∃ b, b ≤ bbP ∧ tableKind (t.map bbField.u32) = .nat b ∧ ∀ x ∈ t, x.val < b := by
  refine ⟨_, ?_, if_pos ?_, ?_⟩
  · refine foldr_max_le fun x hx => ?_
    rw [List.map_map] at hx
    obtain ⟨y, -, rfl⟩ := List.mem_map.mp hx
    exact val_lt' y
  · rw [List.all_map, List.all_eq_true]
    intro x _
    rfl
  · intro x hx
    exact le_foldr_max (List.mem_map.mpr ⟨bbField.u32 x, List.mem_map_of_mem hx, rfl⟩)

/-- The node `tab` of `H` is a table with entries `t`. -/
structure Table (K : Variable → Kind) (H : Expr → Prop) (env : Variable → Val) (P : Expr → Prop) (tab : Expr)
    (t : List BB) : Prop where
  mem : P tab
  size : tab.size = 1
  multi : tab.opc.outNum ≠ some 1
  kinds : ∃ b, b ≤ bbP ∧ kinds K tab = List.replicate t.length (.nat b)
  eval : eval env tab = some (t.map bbField.val)

theorem Table.mono (h : Table K H env P tab t) (hP : ∀ s, P s → P' s) : Table K H env P' tab t := { h with mem := hP _ h.mem }

omit [Field F] in
/-- Expressions built before a table are not inside it. -/
theorem Den.addTable {x : F} (hb : Built K H m n P) (h : Den B K H env P e x) {es : List (List Nat)} :
    Den B K (ins (.node (n + 1) (.table es) 1 []) H) env (ins (.node (n + 1) (.table es) 1 []) P) e x := by
  refine { h with mem := ins_of h.mem, free := ?_ }
  rintro s (rfl | hs) hm hsub
  · rcases hsub.cases' with rfl | ⟨a, ha, -⟩
    · have := hb.good.le _ h.mem
      simp only [Expr.id] at this
      omega
    · cases ha
  · exact h.free s hs hm hsub

/-- Building a table. -/
theorem Built.table (h : Built K H m n P) (t : List BB) :
    let r := Dsl.fromTable bbField.consts.size (t.map bbField.u32) n
    Built K (ins r.1 H) m r.2 (ins r.1 P) ∧ Table K (ins r.1 H) env (ins r.1 P) r.1 t := by
  obtain ⟨b, hb, hk, hlt⟩ := tableKind_bb t
  have hkinds : Opc.kinds K (.table (t.map bbField.u32)) [] = List.replicate t.length (.nat b) := by
    show List.replicate (t.map bbField.u32).length (tableKind (t.map bbField.u32)) = _
    rw [List.length_map, hk]
  have hout : Opc.outNum (.table (t.map bbField.u32)) ≠ some 1 := by
    simp [Opc.outNum]
  show Built K (ins (.node (n + 1) (.table (t.map bbField.u32)) 1 []) H) m (n + 1)
    (ins (.node (n + 1) (.table (t.map bbField.u32)) 1 []) P) ∧ Table K (ins (.node (n + 1) (.table (t.map bbField.u32)) 1 []) H) env
    (ins (.node (n + 1) (.table (t.map bbField.u32)) 1 []) P) (.node (n + 1) (.table (t.map bbField.u32)) 1 []) t
  refine ⟨?_, ins_self, rfl, hout, ⟨b, hb, by rw [kinds_node]; exact hkinds⟩, ?_⟩
  · refine ⟨?_, ?_, ?_, ?_, ?_, h.names, h.nodup, ?_⟩
    · refine h.good.ins (fun s hs => by have := h.good.le s hs; omega) (Nat.le_succ n) (Nat.le_refl _) (by simp) ?_ ?_ ?_ ?_ ?_
      · refine ⟨rfl, ?_⟩
        show List.Forall₂ _ _ (Opc.kinds K (.table (t.map bbField.u32)) [])
        rw [hkinds]
        clear hkinds hk hout
        induction t with
        | nil => exact .nil
        | cons x t ih =>
          refine .cons ⟨_, bbField_ok.const x, ?_⟩ (ih fun y hy => hlt y (List.mem_cons_of_mem _ hy))
          rw [val_bb]
          exact ⟨hlt x (List.mem_cons_self ..), (val_lt' x).trans (by decide)⟩
      · intro k hk'
        have : k ∈ List.replicate t.length (Kind.nat b) := by
          rw [← hkinds, show Opc.kinds K (.table (t.map bbField.u32)) [] = [k] from hk']
          exact List.mem_cons_self ..
        rw [List.eq_of_mem_replicate this]
        rfl
      · rintro (h | ⟨_, _, h⟩) <;> cases h
      · rintro v hv; cases hv
      · rintro v hv; cases hv
    · exact h.safe.insMulti h.good (by simp) trivial hout (by simp) (by simp)
    · rintro s (rfl | hs) hm
      · exact ins_self
      · exact ins_of (h.multi s hs hm)
    · rintro s (rfl | hs)
      · exact ins_self
      · exact ins_of (h.base s hs)
    · rintro s v (rfl | hs) hr
      · rcases hr with hr | hr <;> cases hr
      · exact h.prov s v hs hr
    · rintro s v (rfl | hs) hv
      · cases hv
      · exact h.moves s v hs hv
  · rw [TapStark.eval, evalArgs, Option.bind_some]
    show (t.map bbField.u32).mapM constVal = _
    clear hkinds hk hout hlt hb
    induction t with
    | nil => rfl
    | cons x t ih => rw [List.map_cons, List.mapM_cons, bbField_ok.const, ih]; rfl

/-- Looking up an entry. -/
theorem makes_lookup (h : Built K H m n P) (ht : Table K H env P tab t) {i : Nat} (hi : i < t.length) (hl : t.length ≤ 2 ^ 31) :
    Makes bbField K H env P m (Dsl.lookup bbField.consts.size tab i t.length n).2
      (Dsl.lookup bbField.consts.size tab i t.length n).1 (t.getD i 0) := by
  have hi' : i < 2 ^ 31 := by omega
  have hc := constVal_one hi'
  have h1 : Built K H m (n + 1) (ins (.node (n + 1) (.constant [i]) 1 []) P) := by
    refine h.node (Nat.lt_succ_self n) (Nat.le_refl _) (by simp) ?_ ?_ ?_ ?_ rfl (by simp)
    · exact ⟨rfl, _, .nat i, rfl, hc, constVal_has hc⟩
    · intro k hk
      have : [constKind [i]] = [k] := hk
      cases this
      rfl
    · rintro (h | ⟨_, _, h⟩) <;> cases h
    · rintro v (h | h) <;> cases h
  have hk1 : kinds K (.node (n + 1) (.constant [i]) 1 []) = [.nat (i + 1)] := by rw [kinds_node]; rfl
  obtain ⟨b, hb, hk⟩ := ht.kinds
  have hargs : [tab, (.node (n + 1) (.constant [i]) 1 [] : Expr)].map (TapStark.kinds K) =
      [List.replicate t.length (.nat b), [.nat (i + 1)]] := by
    rw [List.map_cons, List.map_cons, hk, hk1]
    rfl
  have hkinds : Opc.kinds K (.lookup 1 t.length) ([tab, (.node (n + 1) (.constant [i]) 1 [] : Expr)].map (TapStark.kinds K)) =
      [.nat b] := by
    rw [hargs]
    obtain ⟨l, hl⟩ : ∃ l, t.length = l + 1 := ⟨t.length - 1, by omega⟩
    rw [hl, List.replicate_succ]
    rfl
  show Makes bbField K H env P m (n + 1 + 1) (.node (n + 1 + 1) (.lookup 1 t.length) 1 [tab, .node (n + 1) (.constant [i]) 1 []]) _
  have hfree : ∀ a ∈ [tab, (.node (n + 1) (.constant [i]) 1 [] : Expr)], a.opc.outNum = some 1 → Free H a := by
    intro a ha ho
    rcases List.mem_cons.mp ha with rfl | ha
    · exact absurd ho ht.multi
    · rw [List.mem_singleton] at ha
      subst ha
      exact h.free_gt (Nat.lt_succ_self n)
  have hmem : ∀ a ∈ [tab, (.node (n + 1) (.constant [i]) 1 [] : Expr)],
      ins (.node (n + 1) (.constant [i]) 1 []) P a ∧ a.size = 1 := by
    intro a ha
    rcases List.mem_cons.mp ha with rfl | ha
    · exact ⟨ins_of ht.mem, ht.size⟩
    · rw [List.mem_singleton] at ha
      subst ha
      exact ⟨ins_self, rfl⟩
  refine ⟨ins (.node (n + 1 + 1) (.lookup 1 t.length) 1 [tab, .node (n + 1) (.constant [i]) 1 []])
    (ins (.node (n + 1) (.constant [i]) 1 []) P), ⟨?_, ?_, ?_, ?_, ?_, h.names,
    h.nodup, ?_⟩, fun s hs => ins_of (ins_of hs), ins_self, h1.free_gt (Nat.lt_succ_self _), ?_, ?_⟩
  · refine h1.good.ins (fun s hs => by have := h1.good.le s hs; omega) (Nat.le_succ _) (Nat.le_refl _) ?_ ?_ ?_ ?_ ?_ ?_
    · exact fun a ha => ⟨(hmem a ha).1, varSize_of (.inl (hmem a ha).2)⟩
    · rw [hkinds, hargs]
      exact ⟨.nat b, i + 1, rfl, hi, rfl, rfl, rfl⟩
    · intro k hk'
      rw [hkinds] at hk'
      cases hk'
      rfl
    · exact fun _ a ha => (hmem a ha).2
    · rintro v hv; cases hv
    · rintro v hv; cases hv
  · exact h1.safe.ins h1.good (fun a ha => (hmem a ha).1) rfl
      fun a ha ho s hs hm => hfree a ha ho s (h1.multi s hs hm) hm
  · rintro s (rfl | hs) hm
    · exact absurd rfl hm
    · exact h1.multi s hs hm
  · exact fun s hs => ins_of (h1.base s hs)
  · rintro s v (rfl | hs) hr
    · rcases hr with hr | hr <;> cases hr
    · exact h1.prov s v hs hr
  · rintro s v (rfl | hs) hv
    · cases hv
    · exact h1.moves s v hs hv
  · exact ⟨.nat b, by rw [kinds_node]; exact hkinds, .inr ⟨b, hb, rfl⟩, rfl⟩
  · rw [TapStark.eval, evalArgs_two, ht.eval, TapStark.eval, evalArgs]
    simp [Opc.denote, hc, List.getD, List.getElem?_eq_getElem hi]

/-- Operations on operands from one field, with the size of the field. -/
theorem makes_same (hB : B.Ok) (h : Built K H m n P) {a b : Expr} {x y z : F} (ha : Den B K H env P a x)
    (hb : Den B K H env P b y) {opc : Opc} (ho : opc = .add ∨ opc = .sub ∨ opc = .mul)
    (hd : opc.denote env [[B.val x], [B.val y]] = some [B.val z]) :
    Makes B K H env P m (Dsl.mk opc B.consts.size [a, b] n).2 (Dsl.mk opc B.consts.size [a, b] n).1 z :=
  makes_bin_mixed hB hB h ha hb ho (max_self _) hd

namespace Stark

open TapStark.Fri

variable {z : Expr} {zv : BB4} {k q : Nat}

/-- Factor `j` of the numerators, with the table `t`. -/
noncomputable def numFactor (t : List BB) (zv : BB4) (k q j : Nat) : BB4 :=
  (algebraMap BB BB4 (t.getD (q - 1 - j) 0) * zv) ^ 2 ^ k - 1

/-- Factor `j` of denominator `i`, with the table `t`. -/
def denFactor (t : List BB) (k q i j : Nat) : BB := t.getD (i + q - 1 - j) 0 ^ 2 ^ k - 1

theorem numeratorLoop_ok (i : Nat) (hl : t.length = 2 * q - 1) (h31 : t.length ≤ 2 ^ 31) : ∀ (js : List Nat) {acc : Expr} {x : BB4}
    {n : Nat} {P : Expr → Prop}, Built K H m n P → Table K H env P tab t → Den bb4Field K H env P z zv →
    Den bb4Field K H env P acc x → (∀ j ∈ js, j < q) →
    ∃ acc' n', numeratorLoop false tab z (2 ^ k) q i js acc n = some (acc', n') ∧ n ≤ n' ∧
      Makes bb4Field K H env P m n' acc' (x * ((js.filter (· ≠ i)).map (numFactor t zv k q)).prod)
  | [], acc, x, n, P, hb, _, _, hx, _ => ⟨acc, n, rfl, Nat.le_refl _, P, hb, fun _ h => h, by simpa using hx⟩
  | j :: js, acc, x, n, P, hb, ht, hz, hx, hj => by
    rw [numeratorLoop]
    by_cases hji : j = i
    · obtain ⟨acc', n', h1, h2, h3⟩ := numeratorLoop_ok i hl h31 js hb ht hz hx fun j' h => hj j' (List.mem_cons_of_mem _ h)
      rw [if_pos hji]
      refine ⟨acc', n', h1, h2, ?_⟩
      rw [List.filter_cons_of_neg (by simp [hji])]
      exact h3
    · have hjq : j < q := hj j (List.mem_cons_self ..)
      rw [if_neg hji, ← hl]
      obtain ⟨P1, b1, s1, d1⟩ := makes_lookup (env := env) hb ht (i := q - 1 - j) (by omega) h31
      obtain ⟨P2, b2, s2, d2⟩ := makes_mulExt b1 d1 (hz.mono s1)
      obtain ⟨P3, b3, s3, d3⟩ := makes_expConstant bb4Field_ok b2 d2 k
      obtain ⟨P4, b4, s4, d4⟩ := makes_const (env := env) bb4Field_ok b3 (1 : BB4)
      obtain ⟨P5, b5, s5, d5⟩ := makes_same (z := _ - _) (opc := .sub) bb4Field_ok b4 (d3.mono s4) d4 (.inr (.inl rfl))
        (by rw [← bb4Field_ok.sub]; rfl)
      have s05 : ∀ s, P s → P5 s := fun s h => s5 s (s4 s (s3 s (s2 s (s1 s h))))
      obtain ⟨P6, b6, s6, d6⟩ := makes_same (z := _ * _) (opc := .mul) bb4Field_ok b5 (hx.mono s05) d5 (.inr (.inr rfl))
        (by rw [← bb4Field_ok.mul]; rfl)
      have s06 : ∀ s, P s → P6 s := fun s h => s6 s (s05 s h)
      obtain ⟨acc', n', h1, h2, P7, b7, s7, d7⟩ := numeratorLoop_ok i hl h31 js b6 (ht.mono s06) (hz.mono s06) d6
        fun j' h => hj j' (List.mem_cons_of_mem _ h)
      refine ⟨acc', n', h1, Nat.le_trans (show n ≤ n + 7 by omega) h2, P7, b7, fun s h => s7 s (s06 s h), ?_⟩
      rw [List.filter_cons_of_pos (by simp [hji]), List.map_cons, List.prod_cons, ← mul_assoc]
      exact d7

theorem numerators_ok (hl : t.length = 2 * q - 1) (h31 : t.length ≤ 2 ^ 31) : ∀ (is : List Nat)
    {n : Nat} {P : Expr → Prop}, Built K H m n P → Table K H env P tab t → Den bb4Field K H env P z zv →
    ∃ es n', numerators false tab z (2 ^ k) q is n = some (es, n') ∧ n ≤ n' ∧
      ∃ P', Built K H m n' P' ∧ (∀ s, P s → P' s) ∧ List.Forall₂ (Den bb4Field K H env P') es
        (is.map fun i => (((List.range q).filter (· ≠ i)).map (numFactor t zv k q)).prod)
  | [], n, P, hb, _, _ => ⟨[], n, rfl, Nat.le_refl _, P, hb, fun _ h => h, .nil⟩
  | i :: is, n, P, hb, ht, hz => by
    obtain ⟨P1, b1, s1, d1⟩ := makes_const (env := env) bb4Field_ok hb (1 : BB4)
    obtain ⟨acc, n2, h2, l2, P2, b2, s2, d2⟩ := numeratorLoop_ok (k := k) i hl h31 (List.range q) b1 (ht.mono s1) (hz.mono s1) d1
      fun j hj => List.mem_range.mp hj
    have s02 : ∀ s, P s → P2 s := fun s h => s2 s (s1 s h)
    obtain ⟨es, n3, h3, l3, P3, b3, s3, d3⟩ := numerators_ok hl h31 is b2 (ht.mono s02) (hz.mono s02)
    refine ⟨acc :: es, n3, ?_, ?_, P3, b3, fun s h => s3 s (s02 s h), .cons ?_ d3⟩
    · rw [numerators]
      simp only [Option.bind_eq_bind]
      rw [h2, Option.bind_some, h3]
      rfl
    · have : n + 1 ≤ n2 := l2
      omega
    · rw [one_mul] at d2
      exact d2.mono s3

theorem denominatorLoop_ok (i : Nat) (hi : i < q) (hl : t.length = 2 * q - 1) (h31 : t.length ≤ 2 ^ 31) : ∀ (js : List Nat)
    {acc : Expr} {x : BB} {n : Nat} {P : Expr → Prop}, Built K H m n P → Table K H env P tab t →
    Den bbField K H env P acc x → (∀ j ∈ js, j < q) →
    ∃ acc' n', denominatorLoop false tab (2 ^ k) q i js acc n = some (acc', n') ∧ n ≤ n' ∧
      Makes bbField K H env P m n' acc' (x * ((js.filter (· ≠ i)).map (denFactor t k q i)).prod)
  | [], acc, x, n, P, hb, _, hx, _ => ⟨acc, n, rfl, Nat.le_refl _, P, hb, fun _ h => h, by simpa using hx⟩
  | j :: js, acc, x, n, P, hb, ht, hx, hj => by
    rw [denominatorLoop]
    by_cases hji : j = i
    · obtain ⟨acc', n', h1, h2, h3⟩ := denominatorLoop_ok i hi hl h31 js hb ht hx fun j' h => hj j' (List.mem_cons_of_mem _ h)
      rw [if_pos hji]
      refine ⟨acc', n', h1, h2, ?_⟩
      rw [List.filter_cons_of_neg (by simp [hji])]
      exact h3
    · have hjq : j < q := hj j (List.mem_cons_self ..)
      rw [if_neg hji, ← hl]
      obtain ⟨P1, b1, s1, d1⟩ := makes_lookup (env := env) hb ht (i := i + q - 1 - j) (by omega) h31
      obtain ⟨P3, b3, s3, d3⟩ := makes_expConstant bbField_ok b1 d1 k
      obtain ⟨P4, b4, s4, d4⟩ := makes_const (env := env) bbField_ok b3 (1 : BB)
      obtain ⟨P5, b5, s5, d5⟩ := makes_same (z := _ - _) (opc := .sub) bbField_ok b4 (d3.mono s4) d4 (.inr (.inl rfl))
        (by rw [← bbField_ok.sub]; rfl)
      have s05 : ∀ s, P s → P5 s := fun s h => s5 s (s4 s (s3 s (s1 s h)))
      obtain ⟨P6, b6, s6, d6⟩ := makes_same (z := _ * _) (opc := .mul) bbField_ok b5 (hx.mono s05) d5 (.inr (.inr rfl))
        (by rw [← bbField_ok.mul]; rfl)
      have s06 : ∀ s, P s → P6 s := fun s h => s6 s (s05 s h)
      obtain ⟨acc', n', h1, h2, P7, b7, s7, d7⟩ := denominatorLoop_ok i hi hl h31 js b6 (ht.mono s06) d6
        fun j' h => hj j' (List.mem_cons_of_mem _ h)
      refine ⟨acc', n', h1, Nat.le_trans (show n ≤ n + 6 by omega) h2, P7, b7, fun s h => s7 s (s06 s h), ?_⟩
      rw [List.filter_cons_of_pos (by simp [hji]), List.map_cons, List.prod_cons, ← mul_assoc]
      exact d7

/-- The manager with further hint checks. -/
def addChecks (m : InputManager) (cs : List Expr) : InputManager := { m with hint := m.hint ++ cs }

theorem denominators_ok {hints : List Expr} {ds : List BB} (hl : t.length = 2 * q - 1) (h31 : t.length ≤ 2 ^ 31) :
    ∀ (is : List Nat) {m : InputManager} {n : Nat} {P : Expr → Prop}, Built K H m n P → Table K H env P tab t →
    List.Forall₂ (Den bbField K H env P) hints ds → hints.length = q → (∀ i ∈ is, i < q) →
    ∃ cs n', denominators false tab (2 ^ k) q hints is m n = some (addChecks m cs, n') ∧ n ≤ n' ∧
      ∃ P', Built K H m n' P' ∧ (∀ s, P s → P' s) ∧ List.Forall₂ (fun c r => P' c ∧ c.opc = .equal ∧ IsCheck K env c r) cs
        (is.map fun i => cmp bbField ((((List.range q).filter (· ≠ i)).map (denFactor t k q i)).prod * ds.getD i 0) 1) ∧
        ∀ i ∈ is, ∀ h, hints[i]? = some h → ∃ c ∈ cs, Sub h c
  | [], m, n, P, hb, _, _, _, _ => ⟨[], n, by simp [denominators, addChecks], Nat.le_refl _, P, hb, fun _ h => h, .nil, by simp⟩
  | i :: is, m, n, P, hb, ht, hh, hq, his => by
    have hi : i < q := his i (List.mem_cons_self ..)
    have hil : i < hints.length := by omega
    have hid : i < ds.length := by rw [← hh.length_eq]; exact hil
    have dh := (List.forall₂_iff_get.mp hh).2 i hil hid
    simp only [List.get_eq_getElem] at dh
    obtain ⟨P1, b1, s1, d1⟩ := makes_const (env := env) bbField_ok hb (1 : BB)
    obtain ⟨acc, n2, h2, l2, P2, b2, s2, d2⟩ := denominatorLoop_ok (k := k) i hi hl h31 (List.range q) b1 (ht.mono s1) d1
      fun j hj => List.mem_range.mp hj
    have s02 : ∀ s, P s → P2 s := fun s h => s2 s (s1 s h)
    obtain ⟨P3, b3, s3, d3⟩ := makes_mul bbField_ok b2 d2 (dh.mono s02)
    obtain ⟨P4, b4, s4, p4, o4, k4⟩ := makes_equalC bbField_ok b3 d3 (1 : BB)
    have s04 : ∀ s, P s → P4 s := fun s h => s4 s (s3 s (s02 s h))
    obtain ⟨cs, n5, h5, l5, P5, b5, s5, c5, u5⟩ := denominators_ok hl h31 is
      (m := m.addHintVerify (Dsl.equalC (Dsl.mul acc hints[i] n2).1 (bbField.u32 1) (Dsl.mul acc hints[i] n2).2).1)
      (b4.congr rfl rfl rfl) (ht.mono s04)
      (hh.imp fun _ _ h => h.mono s04) hq fun i' h => his i' (List.mem_cons_of_mem _ h)
    refine ⟨(Dsl.equalC (Dsl.mul acc hints[i] n2).1 (bbField.u32 1) (Dsl.mul acc hints[i] n2).2).1 :: cs, n5, ?_, ?_, P5,
      b5.congr rfl rfl rfl, fun s h => s5 s (s04 s h), .cons ⟨s5 _ p4, o4, ?_⟩ c5, ?_⟩
    · rw [denominators]
      simp only [Option.bind_eq_bind]
      rw [h2, Option.bind_some, List.getElem?_eq_getElem hil, Option.bind_some]
      refine h5.trans ?_
      simp [addChecks, InputManager.addHintVerify]
    · have h1 : n + 1 ≤ n2 := l2
      have h3 : n2 + 3 ≤ n5 := l5
      omega
    · rw [one_mul] at k4
      have : ds.getD i 0 = ds[i] := by rw [List.getD, List.getElem?_eq_getElem hid, Option.getD_some]
      dsimp only
      rw [this]
      exact k4
    · intro i' hi' h hh'
      rcases List.mem_cons.mp hi' with rfl | hi'
      · rw [List.getElem?_eq_getElem hil, Option.some.injEq] at hh'
        subst hh'
        exact ⟨_, List.mem_cons_self .., .arg (List.mem_cons_self ..) (.arg (List.mem_cons_of_mem _ (List.mem_cons_self ..))
          (.refl _))⟩
      · obtain ⟨c, hc, hs⟩ := u5 i' hi' h hh'
        exact ⟨c, List.mem_cons_of_mem _ hc, hs⟩

theorem quotientLoop_ok {opens : List (List Expr)} {hints nums : List Expr} {os : List (List BB4)} {ds : List BB}
    {ns : List BB4} : ∀ (is : List Nat) {acc : Expr} {x : BB4} {n : Nat} {P : Expr → Prop}, Built K H m n P →
    List.Forall₂ (List.Forall₂ (Den bb4Field K H env P)) opens os → List.Forall₂ (Den bbField K H env P) hints ds →
    List.Forall₂ (Den bb4Field K H env P) nums ns → Den bb4Field K H env P acc x →
    (∀ i ∈ is, i < opens.length ∧ i < hints.length ∧ i < nums.length) → (∀ o ∈ opens, o.length = 4) →
    ∃ acc' n', quotientLoop false opens hints nums is acc n = some (acc', n') ∧ n ≤ n' ∧
      Makes bb4Field K H env P m n' acc' (x + (is.map fun i => chunkVal (os.getD i []) *
        (algebraMap BB BB4 (ds.getD i 0) * ns.getD i 0)).sum) ∧
      Sub acc acc' ∧ ∀ i ∈ is, ∀ l, opens[i]? = some l → ∀ o ∈ l, Sub o acc'
  | [], acc, x, n, P, hb, _, _, _, hx, _, _ =>
    ⟨acc, n, rfl, Nat.le_refl _, ⟨P, hb, fun _ h => h, by simpa using hx⟩, .refl _, by simp⟩
  | i :: is, acc, x, n, P, hb, ho, hh, hn, hx, his, h4 => by
    obtain ⟨i1, i2, i3⟩ := his i (List.mem_cons_self ..)
    have i1' : i < os.length := by rw [← ho.length_eq]; exact i1
    have i2' : i < ds.length := by rw [← hh.length_eq]; exact i2
    have i3' : i < ns.length := by rw [← hn.length_eq]; exact i3
    have e1 := (List.forall₂_iff_get.mp ho).2 i i1 i1'
    have e2 := (List.forall₂_iff_get.mp hh).2 i i2 i2'
    have e3 := (List.forall₂_iff_get.mp hn).2 i i3 i3'
    simp only [List.get_eq_getElem] at e1 e2 e3
    obtain ⟨P1, b1, s1, d1⟩ := makes_mulExt hb e2 e3
    obtain ⟨P2, b2, s2, d2⟩ := makes_const (env := env) bb4Field_ok b1 (0 : BB4)
    have s02 : ∀ s, P s → P2 s := fun s h => s2 s (s1 s h)
    have hlen : opens[i].length = 4 := h4 _ (List.getElem_mem i1)
    obtain ⟨ch, n3, h3, ⟨P3, b3, s3, d3⟩, u3, us3⟩ := chunkLoop_ok (List.range 4) b2 (e1.imp fun _ _ h => h.mono s02) d2
      fun j hj => by rw [hlen]; exact List.mem_range.mp hj
    obtain ⟨P4, b4, s4, d4⟩ := makes_mul bb4Field_ok b3 d3 ((d1.mono s2).mono s3)
    have s04 : ∀ s, P s → P4 s := fun s h => s4 s (s3 s (s02 s h))
    obtain ⟨P5, b5, s5, d5⟩ := makes_add bb4Field_ok b4 (hx.mono s04) d4
    have s05 : ∀ s, P s → P5 s := fun s h => s5 s (s04 s h)
    obtain ⟨acc', n6, h6, l6, ⟨P6, b6, s6, d6⟩, u6, us6⟩ := quotientLoop_ok is b5
      (ho.imp fun _ _ h => h.imp fun _ _ h => h.mono s05) (hh.imp fun _ _ h => h.mono s05) (hn.imp fun _ _ h => h.mono s05) d5
      (fun i' h => his i' (List.mem_cons_of_mem _ h)) h4
    have l3 : n + 2 ≤ n3 := chunkLoop_counter h3
    refine ⟨acc', n6, ?_, ?_, ⟨P6, b6, fun s h => s6 s (s05 s h), ?_⟩, ?_, ?_⟩
    · rw [quotientLoop]
      simp only [Option.bind_eq_bind]
      rw [List.getElem?_eq_getElem i2, Option.bind_some, List.getElem?_eq_getElem i3, Option.bind_some]
      rw [List.getElem?_eq_getElem i1]
      show (chunkLoop opens[i] (List.range 4) _ _).bind _ = _
      erw [h3]
      exact h6
    · have : n3 + 2 ≤ n6 := l6
      omega
    · rw [List.map_cons, List.sum_cons, ← add_assoc]
      rw [zero_add] at d6
      simpa [List.getD, List.getElem?_eq_getElem, i1', i2', i3', chunkVal] using d6
    · exact Sub.trans (.arg (List.mem_cons_self ..) (.refl _)) u6
    · intro i' hi' l hl o hol
      rcases List.mem_cons.mp hi' with rfl | hi'
      · rw [List.getElem?_eq_getElem i1, Option.some.injEq] at hl
        subst hl
        obtain ⟨j, hj, rfl⟩ := List.getElem_of_mem hol
        refine Sub.trans (Sub.trans (us3 j (List.mem_range.mpr (by omega)) _ (List.getElem?_eq_getElem hj)) ?_) u6
        exact .arg (List.mem_cons_of_mem _ (List.mem_cons_self ..)) (.arg (List.mem_cons_self ..) (.refl _))
      · exact us6 i' hi' l hl o hol

end Stark

end TapStark
