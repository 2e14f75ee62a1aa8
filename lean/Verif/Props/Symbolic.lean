import Verif.Spec.Symbolic

/-!
C99: symbolic arithmetic.  C100: symbolic variables as script inputs.
-/

set_option linter.unusedSectionVars false

namespace TapStark.Stark

open Polynomial

variable {K R : Type} [Field K] [CommRing R]

/-! ### C99 -/

section
variable (lift : K →+* R) (m : SymMeaning R)

/-- **C99** A sum of symbolic expressions has the sum of the values, also when it is empty. -/
theorem C99_sum (xs : List (SymExpr K)) : (SymExpr.sum xs).value lift m = (xs.map fun x => x.value lift m).sum := by
  cases xs with
  | nil => simp [SymExpr.sum, SymExpr.ofField, SymExpr.value]
  | cons x xs =>
    simp only [SymExpr.sum, List.map_cons, List.sum_cons]
    induction xs generalizing x with
    | nil => simp
    | cons y xs ih =>
      rw [List.foldl_cons, ih]
      simp only [SymExpr.mkAdd, SymExpr.value, List.map_cons, List.sum_cons]
      ring

/-- **C99** A product of symbolic expressions has the product of the values, also when it is empty. -/
theorem C99_product (xs : List (SymExpr K)) :
    (SymExpr.product xs).value lift m = (xs.map fun x => x.value lift m).prod := by
  cases xs with
  | nil => simp [SymExpr.product, SymExpr.ofField, SymExpr.value]
  | cons x xs =>
    simp only [SymExpr.product, List.map_cons, List.prod_cons]
    induction xs generalizing x with
    | nil => simp
    | cons y xs ih =>
      rw [List.foldl_cons, ih]
      simp only [SymExpr.mkMul, SymExpr.value, List.map_cons, List.prod_cons]
      ring

/-- **C99** Sums and products of field elements. -/
theorem C99_field_lists (cs : List K) :
    (SymExpr.sumF cs).value lift m = lift cs.sum ∧ (SymExpr.productF cs).value lift m = lift cs.prod := by
  constructor
  · rw [SymExpr.sumF, C99_sum, List.map_map, map_list_sum]
    rfl
  · rw [SymExpr.productF, C99_product, List.map_map, map_list_prod]
    rfl

theorem operand_value (r : SymOperand K) : r.toExpr.value lift m = r.value lift m := by cases r <;> rfl

/-- **C99** Every operator, with all its kinds of operands, has the value of the operation of the ring. -/
theorem C99_operators (x y : SymExpr K) (v : Entry × Nat) (c : K) (r : SymOperand K) :
    (x.mkAdd y).value lift m = x.value lift m + y.value lift m ∧
    (x.mkSub y).value lift m = x.value lift m - y.value lift m ∧
    x.mkNeg.value lift m = -x.value lift m ∧
    (x.mkMul y).value lift m = x.value lift m * y.value lift m ∧
    (x.addF c).value lift m = x.value lift m + lift c ∧
    (x.subF c).value lift m = x.value lift m - lift c ∧
    (x.mulF c).value lift m = x.value lift m * lift c ∧
    (SymExpr.varAdd v r).value lift m = m.var v.1 v.2 + r.value lift m ∧
    (SymExpr.varSub v r).value lift m = m.var v.1 v.2 - r.value lift m ∧
    (SymExpr.varMul v r).value lift m = m.var v.1 v.2 * r.value lift m ∧
    (x.addVar v).value lift m = x.value lift m + m.var v.1 v.2 ∧
    (x.subVar v).value lift m = x.value lift m - m.var v.1 v.2 ∧
    (x.mulVar v).value lift m = x.value lift m * m.var v.1 v.2 := by
  refine ⟨rfl, rfl, rfl, rfl, rfl, rfl, rfl, ?_, ?_, ?_, rfl, rfl, rfl⟩ <;>
    rw [← operand_value] <;> rfl

end

theorem mkAdd_degree {x y : SymExpr K} (hx : x.degreeMultiple = x.degree 1 0) (hy : y.degreeMultiple = y.degree 1 0) :
    (x.mkAdd y).degreeMultiple = (x.mkAdd y).degree 1 0 := by
  change max x.degreeMultiple y.degreeMultiple = max (x.degree 1 0) (y.degree 1 0)
  rw [hx, hy]

theorem mkSub_degree {x y : SymExpr K} (hx : x.degreeMultiple = x.degree 1 0) (hy : y.degreeMultiple = y.degree 1 0) :
    (x.mkSub y).degreeMultiple = (x.mkSub y).degree 1 0 := by
  change max x.degreeMultiple y.degreeMultiple = max (x.degree 1 0) (y.degree 1 0)
  rw [hx, hy]

theorem mkMul_degree {x y : SymExpr K} (hx : x.degreeMultiple = x.degree 1 0) (hy : y.degreeMultiple = y.degree 1 0) :
    (x.mkMul y).degreeMultiple = (x.mkMul y).degree 1 0 := by
  change x.degreeMultiple + y.degreeMultiple = x.degree 1 0 + y.degree 1 0
  rw [hx, hy]

theorem degree_foldl_add (xs : List (SymExpr K)) (x : SymExpr K) (hx : x.degreeMultiple = x.degree 1 0)
    (h : ∀ y ∈ xs, y.degreeMultiple = y.degree 1 0) :
    (xs.foldl SymExpr.mkAdd x).degreeMultiple = (xs.foldl SymExpr.mkAdd x).degree 1 0 := by
  induction xs generalizing x with
  | nil => exact hx
  | cons y xs ih =>
    exact ih _ (mkAdd_degree hx (h y List.mem_cons_self)) fun z hz => h z (List.mem_cons_of_mem _ hz)

theorem degree_foldl_mul (xs : List (SymExpr K)) (x : SymExpr K) (hx : x.degreeMultiple = x.degree 1 0)
    (h : ∀ y ∈ xs, y.degreeMultiple = y.degree 1 0) :
    (xs.foldl SymExpr.mkMul x).degreeMultiple = (xs.foldl SymExpr.mkMul x).degree 1 0 := by
  induction xs generalizing x with
  | nil => exact hx
  | cons y xs ih =>
    exact ih _ (mkMul_degree hx (h y List.mem_cons_self)) fun z hz => h z (List.mem_cons_of_mem _ hz)

/-- **C99** The degree an expression reports is its degree in the columns and the selectors of the first and the last
row, however it was made. -/
theorem C99_degree {x : SymExpr K} (h : x.Made) : x.degreeMultiple = x.degree 1 0 := by
  induction h with
  | var v => obtain ⟨e, i⟩ := v; cases e <;> rfl
  | first => rfl
  | last => rfl
  | trans => rfl
  | field c => rfl
  | add _ _ h1 h2 => exact mkAdd_degree h1 h2
  | sub _ _ h1 h2 => exact mkSub_degree h1 h2
  | neg _ h1 => exact h1
  | mul _ _ h1 h2 => exact mkMul_degree h1 h2
  | addF c _ h1 => exact mkAdd_degree h1 rfl
  | subF c _ h1 => exact mkSub_degree h1 rfl
  | mulF c _ h1 => exact mkMul_degree h1 rfl
  | @sum xs _ h1 =>
    cases xs with
    | nil => rfl
    | cons x xs => exact degree_foldl_add xs x (h1 x List.mem_cons_self) fun y hy => h1 y (List.mem_cons_of_mem _ hy)
  | sumF cs =>
    cases cs with
    | nil => rfl
    | cons c cs =>
      refine degree_foldl_add _ _ rfl fun y hy => ?_
      obtain ⟨d, -, rfl⟩ := List.mem_map.1 hy
      rfl
  | @product xs _ h1 =>
    cases xs with
    | nil => rfl
    | cons x xs => exact degree_foldl_mul xs x (h1 x List.mem_cons_self) fun y hy => h1 y (List.mem_cons_of_mem _ hy)
  | productF cs =>
    cases cs with
    | nil => rfl
    | cons c cs =>
      refine degree_foldl_mul _ _ rfl fun y hy => ?_
      obtain ⟨d, -, rfl⟩ := List.mem_map.1 hy
      rfl

/-- **C99** What the symbolic builder records for an AIR is made by the operators. -/
theorem C99_air {width numPublic : Nat} : ∀ {a : AExpr K} {x : SymExpr K}, a.symbolic width numPublic = some x → x.Made
  | .loc c, x, h => by
    simp only [AExpr.symbolic] at h
    split at h <;> cases h
    exact .var (.main 0, c)
  | .nxt c, x, h => by
    simp only [AExpr.symbolic] at h
    split at h <;> cases h
    exact .var (.main 1, c)
  | .pub i, x, h => by
    simp only [AExpr.symbolic] at h
    split at h <;> cases h
    exact .var (.publicValue, i)
  | .isFirstRow, x, h => by cases h; exact .first
  | .isLastRow, x, h => by cases h; exact .last
  | .isTransition, x, h => by cases h; exact .trans
  | .const c, x, h => by cases h; exact .field c
  | .add a b, x, h => by
    simp only [AExpr.symbolic, Option.bind_eq_bind, Option.bind_eq_some_iff] at h
    obtain ⟨y, hy, z, hz, ⟨⟩⟩ := h
    exact .add (C99_air hy) (C99_air hz)
  | .sub a b, x, h => by
    simp only [AExpr.symbolic, Option.bind_eq_bind, Option.bind_eq_some_iff] at h
    obtain ⟨y, hy, z, hz, ⟨⟩⟩ := h
    exact .sub (C99_air hy) (C99_air hz)
  | .neg a, x, h => by
    simp only [AExpr.symbolic, Option.bind_eq_bind, Option.bind_eq_some_iff] at h
    obtain ⟨y, hy, ⟨⟩⟩ := h
    exact .neg (C99_air hy)
  | .mul a b, x, h => by
    simp only [AExpr.symbolic, Option.bind_eq_bind, Option.bind_eq_some_iff] at h
    obtain ⟨y, hy, z, hz, ⟨⟩⟩ := h
    exact .mul (C99_air hy) (C99_air hz)

theorem degree_split (d t : Nat) : ∀ x : SymExpr K, x.degree d t ≤ x.degree 1 0 * d + x.degree 0 1 * t
  | .var e _ => by cases e <;> simp [SymExpr.degree]
  | .isFirstRow => by simp [SymExpr.degree]
  | .isLastRow => by simp [SymExpr.degree]
  | .isTransition => by simp [SymExpr.degree]
  | .constant _ => by simp [SymExpr.degree]
  | .add x y _ | .sub x y _ => by
    have h1 := degree_split d t x
    have h2 := degree_split d t y
    simp only [SymExpr.degree]
    refine max_le (h1.trans ?_) (h2.trans ?_) <;>
      refine add_le_add (Nat.mul_le_mul_right _ ?_) (Nat.mul_le_mul_right _ ?_) <;> omega
  | .neg x _ => by simpa only [SymExpr.degree] using degree_split d t x
  | .mul x y _ => by
    have h1 := degree_split d t x
    have h2 := degree_split d t y
    simp only [SymExpr.degree]
    calc _ ≤ _ := add_le_add h1 h2
      _ = _ := by ring

theorem natDegree_value {m : SymMeaning R[X]} {d t : Nat} (h : m.Bounded d t) (lift : K →+* R) :
    ∀ x : SymExpr K, (x.value (C.comp lift) m).natDegree ≤ x.degree d t
  | .var e i => by
    cases e with
    | preprocessed o => exact h.preprocessed o i
    | main o => exact h.main o i
    | permutation o => exact h.permutation o i
    | publicValue => exact (h.publicValue i).le
    | challenge => exact (h.challenge i).le
  | .isFirstRow => h.first
  | .isLastRow => h.last
  | .isTransition => h.trans
  | .constant c => (natDegree_C _).le
  | .add x y _ => (natDegree_add_le _ _).trans (max_le_max (natDegree_value h lift x) (natDegree_value h lift y))
  | .sub x y _ => (natDegree_sub_le _ _).trans (max_le_max (natDegree_value h lift x) (natDegree_value h lift y))
  | .neg x _ => by
    simpa only [SymExpr.value, SymExpr.degree, natDegree_neg] using natDegree_value h lift x
  | .mul x y _ => natDegree_mul_le.trans (add_le_add (natDegree_value h lift x) (natDegree_value h lift y))

/-- **C99** What the reported degree is good for: when columns and the first two selectors are polynomials of degree at
most `d`, and the selector of transitions is of degree at most `t`, the expression is a polynomial of degree at most `d`
times the reported degree, plus `t` times its degree in the selector of transitions, which is not reported. -/
theorem C99_bound {m : SymMeaning R[X]} {d t : Nat} (h : m.Bounded d t) (lift : K →+* R) {x : SymExpr K}
    (hx : x.Made) :
    (x.value (C.comp lift) m).natDegree ≤ x.degreeMultiple * d + x.degree 0 1 * t := by
  rw [C99_degree hx]
  exact (natDegree_value h lift x).trans (degree_split d t x)

/-- The bound is attained: the product of three columns of degree `d`. -/
theorem C99_bound_attained (d : Nat) : ∃ m : SymMeaning ℚ[X], m.Bounded d 1 ∧ ∃ x : SymExpr ℚ, x.Made ∧
    x.degreeMultiple = 3 ∧ (x.value (C.comp (RingHom.id ℚ)) m).natDegree = 3 * d := by
  refine ⟨⟨fun e _ => match e with
    | .preprocessed _ | .main _ | .permutation _ => X ^ d
    | .publicValue | .challenge => 1, 1, 1, X⟩, ?_, ?_⟩
  · constructor <;> intros <;> simp
  · refine ⟨.product [.ofVar (.main 0, 0), .ofVar (.main 0, 1), .ofVar (.main 1, 0)], ?_, rfl, ?_⟩
    · refine .product fun x hx => ?_
      simp only [List.mem_cons, List.not_mem_nil, or_false] at hx
      rcases hx with rfl | rfl | rfl <;> exact .var _
    · rw [C99_product]
      simp only [List.map_cons, List.map_nil, List.prod_cons, List.prod_nil, SymExpr.ofVar, SymExpr.value, mul_one]
      rw [← pow_add, ← pow_add, natDegree_X_pow]
      omega

/-! ### C100 -/

/-- **C100 is violated**: the cell in row `row` and column `column` of the window becomes the input for the cell in row
`column` and column `row`.  Even without the size of the value, which is lost, it is the right cell on the diagonal
only. -/
theorem C100_violated_transposed (row column : Nat) :
    (∃ v, toVariable (.main row, column) = some v ∧ v.row = (mainVar column row).row ∧
      v.column = (mainVar column row).column) ∧
    (∀ v, toVariable (.main row, column) = some v → v ≠ mainVar row column) ∧
    (∀ v, toVariable (.main row, column) = some v →
      ((v.row, v.column) = ((mainVar row column).row, (mainVar row column).column) ↔ row = column)) := by
  refine ⟨⟨_, rfl, rfl, rfl⟩, ?_, ?_⟩
  · rintro v ⟨⟩ h
    simp [mainVar] at h
  · rintro v ⟨⟩
    simp [mainVar, eq_comm]

/-- **C100 is violated**: cells of different matrices become the same input. -/
theorem C100_violated_collision (row column : Nat) :
    toVariable (.main row, column) = toVariable (.preprocessed row, column) ∧
    toVariable (.main row, column) = toVariable (.permutation row, column) := ⟨rfl, rfl⟩

/-- **C100 is violated**: public values and challenges have no input: the conversion panics, though the script builder has
an input for every public value (`pubVar`). -/
theorem C100_violated_public (index : Nat) :
    toVariable (.publicValue, index) = none ∧ toVariable (.challenge, index) = none := ⟨rfl, rfl⟩

/-- **C100, the part that holds**: cells of the trace have different inputs. -/
theorem C100_injective_partial {row column row' column' : Nat}
    (h : toVariable (.main row, column) = toVariable (.main row', column')) : row = row' ∧ column = column' := by
  simp only [toVariable, Option.some.injEq, Variable.mk.injEq, and_true] at h
  exact ⟨h.2, h.1⟩

end TapStark.Stark
