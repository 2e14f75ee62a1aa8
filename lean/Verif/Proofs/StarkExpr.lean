import Verif.Spec.Stark
import Verif.Proofs.PcsTotal
import Mathlib.Algebra.Polynomial.Degree.Lemmas

/-! Expressions: evaluation, symbolic form, degree. -/

set_option linter.unusedSectionVars false

namespace TapStark.Stark

open Polynomial TapStark.Fri TapStark.Pcs

variable {K F : Type} [Field K] [Field F] [DecidableEq K] [DecidableEq F] [Algebra K F]

/-- What a window says. -/
def Window.meaning {R : Type} [Ring R] (w : Window R) : Meaning R :=
  ⟨fun c => w.loc.getD c 0, fun c => w.nxt.getD c 0, fun i => w.pub.getD i 0, w.isFirstRow, w.isLastRow,
    w.isTransition⟩

instance decInRange (width np : Nat) : ∀ e : AExpr K, Decidable (e.InRange width np)
  | .loc _ | .nxt _ | .pub _ => inferInstanceAs (Decidable (_ < _))
  | .isFirstRow | .isLastRow | .isTransition | .const _ => inferInstanceAs (Decidable True)
  | .add x y | .sub x y | .mul x y =>
    have := decInRange width np x
    have := decInRange width np y
    inferInstanceAs (Decidable (_ ∧ _))
  | .neg x => decInRange width np x

theorem eval_eq {R : Type} [Ring R] (lift : K → R) (w : Window R) {width np : Nat}
    (h1 : w.loc.length = width) (h2 : w.nxt.length = width) (h3 : w.pub.length = np) :
    ∀ e : AExpr K, e.eval lift w = if e.InRange width np then some (e.value lift w.meaning) else none
  | .loc c => by
    by_cases h : c < width
    · rw [if_pos (show AExpr.InRange width np (.loc c : AExpr K) from h)]
      simp [AExpr.eval, AExpr.value, Window.meaning, List.getElem?_eq_getElem (h1 ▸ h)]
    · rw [if_neg (show ¬ AExpr.InRange width np (.loc c : AExpr K) from h)]
      exact List.getElem?_eq_none (by omega)
  | .nxt c => by
    by_cases h : c < width
    · rw [if_pos (show AExpr.InRange width np (.nxt c : AExpr K) from h)]
      simp [AExpr.eval, AExpr.value, Window.meaning, List.getElem?_eq_getElem (h2 ▸ h)]
    · rw [if_neg (show ¬ AExpr.InRange width np (.nxt c : AExpr K) from h)]
      exact List.getElem?_eq_none (by omega)
  | .pub c => by
    by_cases h : c < np
    · rw [if_pos (show AExpr.InRange width np (.pub c : AExpr K) from h)]
      simp [AExpr.eval, AExpr.value, Window.meaning, List.getElem?_eq_getElem (h3 ▸ h)]
    · rw [if_neg (show ¬ AExpr.InRange width np (.pub c : AExpr K) from h)]
      exact List.getElem?_eq_none (by omega)
  | .isFirstRow => by simp [AExpr.eval, AExpr.InRange, AExpr.value, Window.meaning]
  | .isLastRow => by simp [AExpr.eval, AExpr.InRange, AExpr.value, Window.meaning]
  | .isTransition => by simp [AExpr.eval, AExpr.InRange, AExpr.value, Window.meaning]
  | .const c => by simp [AExpr.eval, AExpr.InRange, AExpr.value]
  | .add x y => by
    simp only [AExpr.eval, AExpr.InRange, AExpr.value, eval_eq lift w h1 h2 h3 x,
      eval_eq lift w h1 h2 h3 y]
    by_cases hx : x.InRange width np <;> by_cases hy : y.InRange width np <;> simp [hx, hy]
  | .sub x y => by
    simp only [AExpr.eval, AExpr.InRange, AExpr.value, eval_eq lift w h1 h2 h3 x,
      eval_eq lift w h1 h2 h3 y]
    by_cases hx : x.InRange width np <;> by_cases hy : y.InRange width np <;> simp [hx, hy]
  | .mul x y => by
    simp only [AExpr.eval, AExpr.InRange, AExpr.value, eval_eq lift w h1 h2 h3 x,
      eval_eq lift w h1 h2 h3 y]
    by_cases hx : x.InRange width np <;> by_cases hy : y.InRange width np <;> simp [hx, hy]
  | .neg x => by
    simp only [AExpr.eval, AExpr.InRange, AExpr.value, eval_eq lift w h1 h2 h3 x]
    by_cases hx : x.InRange width np <;> simp [hx]

theorem symbolic_spec (width np : Nat) : ∀ e : AExpr K,
    if e.InRange width np then ∃ s, e.symbolic width np = some s ∧ s.degreeMultiple = e.degree
    else e.symbolic width np = none
  | .loc c => by
    by_cases h : c < width
    · simp [AExpr.InRange, AExpr.symbolic, h, SymExpr.degreeMultiple, Entry.degreeMultiple, AExpr.degree]
    · simp [AExpr.InRange, AExpr.symbolic, h]
  | .nxt c => by
    by_cases h : c < width
    · simp [AExpr.InRange, AExpr.symbolic, h, SymExpr.degreeMultiple, Entry.degreeMultiple, AExpr.degree]
    · simp [AExpr.InRange, AExpr.symbolic, h]
  | .pub c => by
    by_cases h : c < np
    · simp [AExpr.InRange, AExpr.symbolic, h, SymExpr.degreeMultiple, Entry.degreeMultiple, AExpr.degree]
    · simp [AExpr.InRange, AExpr.symbolic, h]
  | .isFirstRow => by simp [AExpr.InRange, AExpr.symbolic, SymExpr.degreeMultiple, AExpr.degree]
  | .isLastRow => by simp [AExpr.InRange, AExpr.symbolic, SymExpr.degreeMultiple, AExpr.degree]
  | .isTransition => by simp [AExpr.InRange, AExpr.symbolic, SymExpr.degreeMultiple, AExpr.degree]
  | .const c => by simp [AExpr.InRange, AExpr.symbolic, SymExpr.degreeMultiple, AExpr.degree]
  | .add x y => by
    have ix := symbolic_spec width np x
    have iy := symbolic_spec width np y
    by_cases hx : x.InRange width np <;> by_cases hy : y.InRange width np <;>
      simp only [hx, hy, if_true, if_false] at ix iy <;> simp only [AExpr.InRange, hx, hy, and_true,
        and_false, and_self, if_true, if_false, AExpr.symbolic]
    · obtain ⟨s, hs, ds⟩ := ix
      obtain ⟨t, ht, dt⟩ := iy
      exact ⟨_, by rw [hs, ht]; rfl, by
        show max s.degreeMultiple t.degreeMultiple = _
        rw [ds, dt]; rfl⟩
    · obtain ⟨s, hs, ds⟩ := ix
      simp [hs, iy]
    · simp [ix]
    · simp [ix]
  | .sub x y => by
    have ix := symbolic_spec width np x
    have iy := symbolic_spec width np y
    by_cases hx : x.InRange width np <;> by_cases hy : y.InRange width np <;>
      simp only [hx, hy, if_true, if_false] at ix iy <;> simp only [AExpr.InRange, hx, hy, and_true,
        and_false, and_self, if_true, if_false, AExpr.symbolic]
    · obtain ⟨s, hs, ds⟩ := ix
      obtain ⟨t, ht, dt⟩ := iy
      exact ⟨_, by rw [hs, ht]; rfl, by
        show max s.degreeMultiple t.degreeMultiple = _
        rw [ds, dt]; rfl⟩
    · obtain ⟨s, hs, ds⟩ := ix
      simp [hs, iy]
    · simp [ix]
    · simp [ix]
  | .mul x y => by
    have ix := symbolic_spec width np x
    have iy := symbolic_spec width np y
    by_cases hx : x.InRange width np <;> by_cases hy : y.InRange width np <;>
      simp only [hx, hy, if_true, if_false] at ix iy <;> simp only [AExpr.InRange, hx, hy, and_true,
        and_false, and_self, if_true, if_false, AExpr.symbolic]
    · obtain ⟨s, hs, ds⟩ := ix
      obtain ⟨t, ht, dt⟩ := iy
      exact ⟨_, by rw [hs, ht]; rfl, by
        show s.degreeMultiple + t.degreeMultiple = _
        rw [ds, dt]; rfl⟩
    · obtain ⟨s, hs, ds⟩ := ix
      simp [hs, iy]
    · simp [ix]
    · simp [ix]
  | .neg x => by
    have ix := symbolic_spec width np x
    by_cases hx : x.InRange width np <;>
      simp only [hx, if_true, if_false] at ix <;> simp only [AExpr.InRange, hx, if_true, if_false,
        AExpr.symbolic]
    · obtain ⟨s, hs, ds⟩ := ix
      exact ⟨s.mkNeg, by rw [hs]; rfl, ds⟩
    · simp [ix]

/-! ### Ring homomorphisms -/

/-- A meaning through a map. -/
def Meaning.map {R T : Type} (φ : R → T) (v : Meaning R) : Meaning T :=
  ⟨fun c => φ (v.loc c), fun c => φ (v.nxt c), fun i => φ (v.pub i), φ v.first, φ v.last, φ v.trans⟩

theorem value_map {R T : Type} [Ring R] [Ring T] (φ : R →+* T) (lift : K → R) (v : Meaning R) :
    ∀ e : AExpr K, φ (e.value lift v) = e.value (fun c => φ (lift c)) (v.map φ)
  | .loc _ | .nxt _ | .pub _ | .isFirstRow | .isLastRow | .isTransition | .const _ => rfl
  | .add x y => by simp only [AExpr.value, map_add, value_map φ lift v x, value_map φ lift v y]
  | .sub x y => by simp only [AExpr.value, map_sub, value_map φ lift v x, value_map φ lift v y]
  | .mul x y => by simp only [AExpr.value, map_mul, value_map φ lift v x, value_map φ lift v y]
  | .neg x => by simp only [AExpr.value, map_neg, value_map φ lift v x]

theorem residue_eq {R : Type} [Ring R] (lift : K → R) (v : Meaning R) (a : Assertion K) :
    a.residue lift v = a.expr.value lift v := by
  cases a <;> simp [Assertion.residue, Assertion.sides, Assertion.expr, AExpr.value]

theorem residue_map {R T : Type} [Ring R] [Ring T] (φ : R →+* T) (lift : K → R) (v : Meaning R)
    (a : Assertion K) : φ (a.residue lift v) = a.residue (fun c => φ (lift c)) (v.map φ) := by
  rw [residue_eq, residue_eq, value_map]

theorem holds_iff {R : Type} [Ring R] (lift : K → R) (v : Meaning R) (a : Assertion K) :
    a.Holds lift v ↔ a.residue lift v = 0 := by
  rw [Assertion.residue, sub_eq_zero]; rfl

theorem inRange_iff (width np : Nat) (a : Assertion K) :
    a.InRange width np ↔ a.expr.InRange width np := by
  cases a <;> rfl

/-! ### Degrees -/

/-- Polynomials as they come from a trace of `n` rows. -/
structure Meaning.Bounded (v : Meaning K[X]) (n : Nat) : Prop where
  loc : ∀ c, (v.loc c).natDegree ≤ n - 1
  nxt : ∀ c, (v.nxt c).natDegree ≤ n - 1
  pub : ∀ i, (v.pub i).natDegree = 0
  first : v.first.natDegree ≤ n - 1
  last : v.last.natDegree ≤ n - 1
  trans : v.trans.natDegree ≤ 1

theorem value_degree {v : Meaning K[X]} {n : Nat} (hv : v.Bounded n) : ∀ e : AExpr K,
    (e.value C v).natDegree ≤ e.degree * (n - 1) + e.transitions
  | .loc c => by simpa [AExpr.value, AExpr.degree, AExpr.transitions] using hv.loc c
  | .nxt c => by simpa [AExpr.value, AExpr.degree, AExpr.transitions] using hv.nxt c
  | .pub i => by simpa [AExpr.value, AExpr.degree, AExpr.transitions] using hv.pub i
  | .isFirstRow => by simpa [AExpr.value, AExpr.degree, AExpr.transitions] using hv.first
  | .isLastRow => by simpa [AExpr.value, AExpr.degree, AExpr.transitions] using hv.last
  | .isTransition => by simpa [AExpr.value, AExpr.degree, AExpr.transitions] using hv.trans
  | .const c => by simp [AExpr.value]
  | .add x y => by
    refine (natDegree_add_le _ _).trans (max_le ?_ ?_)
    · exact (value_degree hv x).trans (Nat.add_le_add (Nat.mul_le_mul_right _ (le_max_left _ _))
        (le_max_left _ _))
    · exact (value_degree hv y).trans (Nat.add_le_add (Nat.mul_le_mul_right _ (le_max_right _ _))
        (le_max_right _ _))
  | .sub x y => by
    refine (natDegree_sub_le _ _).trans (max_le ?_ ?_)
    · exact (value_degree hv x).trans (Nat.add_le_add (Nat.mul_le_mul_right _ (le_max_left _ _))
        (le_max_left _ _))
    · exact (value_degree hv y).trans (Nat.add_le_add (Nat.mul_le_mul_right _ (le_max_right _ _))
        (le_max_right _ _))
  | .neg x => by
    simp only [AExpr.value, natDegree_neg]
    exact value_degree hv x
  | .mul x y => by
    refine natDegree_mul_le.trans ((Nat.add_le_add (value_degree hv x) (value_degree hv y)).trans ?_)
    simp only [AExpr.degree, AExpr.transitions, Nat.add_mul]
    omega

/-! ### The selector polynomials -/

theorem selPoly_mul (a : K) (n : Nat) : (X - C a) * selPoly a n = X ^ n - C (a ^ n) := by
  rw [C_pow, selPoly]
  exact (Commute.all (X : K[X]) (C a)).mul_geom_sum₂ n

theorem selPoly_degree (a : K) {n : Nat} : (selPoly a n).natDegree ≤ n - 1 := by
  refine natDegree_sum_le_of_forall_le _ _ ?_
  intro i hi
  have := Finset.mem_range.1 hi
  rw [← C_pow]
  refine (natDegree_mul_C_le _ _).trans ?_
  rw [natDegree_X_pow]
  omega

theorem selPoly_self (a : K) (n : Nat) (hn : 1 ≤ n) : (selPoly a n).eval a = n * a ^ (n - 1) := by
  rw [selPoly, eval_finsetSum]
  rw [Finset.sum_congr rfl (g := fun _ => a ^ (n - 1))]
  · simp
  · intro i hi
    have := Finset.mem_range.1 hi
    simp only [eval_mul, eval_pow, eval_X, eval_C, ← pow_add]
    congr 1
    omega

theorem polyMeaning_bounded (genV : Nat → K) (k : Nat) (ps : List K[X]) (pub : List K)
    (hps : ∀ p ∈ ps, p.natDegree < 2 ^ k) : (polyMeaning genV k ps pub).Bounded (2 ^ k) := by
  have h1 : ∀ c, (ps.getD c 0).natDegree ≤ 2 ^ k - 1 := by
    intro c
    rw [List.getD_eq_getElem?_getD]
    by_cases h : c < ps.length
    · rw [List.getElem?_eq_getElem h]
      have := hps _ (List.getElem_mem h)
      simp only [Option.getD_some]
      omega
    · rw [List.getElem?_eq_none (by omega)]
      simp
  refine ⟨h1, fun c => ?_, fun i => natDegree_C _, selPoly_degree _, selPoly_degree _,
    natDegree_X_sub_C_le _⟩
  refine natDegree_comp_le.trans ?_
  refine (Nat.mul_le_mul_left _ (le_trans (natDegree_C_mul_le _ _) natDegree_X_le)).trans ?_
  rw [mul_one]
  exact h1 c

/-! ### Folding -/

theorem combine_append {R : Type} [CommRing R] (alpha : R) (cs : List R) (c : R) :
    combine alpha (cs ++ [c]) = combine alpha cs * alpha + c := by
  simp only [combine]
  have hl : (cs ++ [c]).length = cs.length + 1 := by simp
  have e : ∑ j : Fin (cs ++ [c]).length, alpha ^ ((cs ++ [c]).length - 1 - j) * (cs ++ [c])[j] =
      ∑ j : Fin (cs.length + 1), alpha ^ (cs.length - j) * (cs ++ [c])[j]'(by rw [hl]; exact j.2) := by
    refine Fintype.sum_equiv (finCongr hl) _ _ ?_
    intro j
    simp
  rw [e, Fin.sum_univ_castSucc]
  simp only [Fin.val_castSucc, Fin.val_last, Nat.sub_self, pow_zero, one_mul]
  congr 1
  · rw [Finset.sum_mul]
    refine Finset.sum_congr rfl fun j _ => ?_
    have hj := j.2
    have hc : (cs ++ [c])[(j.castSucc : Fin (cs.length + 1))] = cs[(j : Nat)] := by
      simp [Fin.getElem_fin, List.getElem_append_left hj]
    simp only [Fin.getElem_fin] at hc ⊢
    rw [hc, show cs.length - (j : Nat) = cs.length - 1 - j + 1 by omega, pow_succ]
    ring
  · simp

theorem combine_nil {R : Type} [CommRing R] (alpha : R) : combine alpha [] = 0 := by simp [combine]

theorem foldl_combine {R : Type} [CommRing R] (alpha : R) (cs : List R) :
    cs.foldl (fun acc c => acc * alpha + c) 0 = combine alpha cs := by
  induction cs using List.reverseRecOn with
  | nil => simp [combine_nil]
  | append_singleton cs c ih => rw [List.foldl_append, ih, combine_append]; rfl

theorem combine_map {R T : Type} [CommRing R] [CommRing T] (φ : R →+* T) (alpha : R) (cs : List R) :
    φ (combine alpha cs) = combine (φ alpha) (cs.map φ) := by
  induction cs using List.reverseRecOn with
  | nil => simp [combine_nil]
  | append_singleton cs c ih =>
    rw [List.map_append, List.map_singleton, combine_append, combine_append, map_add, map_mul, ih]

theorem foldlM_some {α β : Type} {f : β → α → Option β} {h : β → α → β} :
    ∀ (l : List α) (b : β), (∀ a ∈ l, ∀ b, f b a = some (h b a)) → l.foldlM f b = some (l.foldl h b)
  | [], b, _ => rfl
  | a :: l, b, hh => by
    rw [List.foldlM_cons, hh a List.mem_cons_self b, List.foldl_cons]
    exact foldlM_some l _ fun x hx => hh x (List.mem_cons_of_mem _ hx)

theorem foldlM_none {α β : Type} {f : β → α → Option β} :
    ∀ (l : List α) (b : β), (∃ a ∈ l, ∀ b, f b a = none) → l.foldlM f b = none
  | [], b, h => by simp at h
  | a :: l, b, h => by
    rw [List.foldlM_cons]
    obtain ⟨x, hx, hn⟩ := h
    rcases List.mem_cons.1 hx with rfl | hx
    · rw [hn]; rfl
    · cases f b a with
      | none => rfl
      | some y => exact foldlM_none l y ⟨x, hx, hn⟩

/-- What a folder over a window computes. -/
theorem fold_eq {R : Type} [CommRing R] (lift : K → R) (emb : R → F) (air : Air K) (alpha : F)
    (w : Window R) {np : Nat} (h1 : w.loc.length = air.width) (h2 : w.nxt.length = air.width)
    (h3 : w.pub.length = np) (hr : air.InRange np) :
    (air.asserts.foldlM (init := (0 : F)) fun acc a => do
      some (acc * alpha + emb (← a.expr.eval lift w))) =
      some (combine alpha (air.asserts.map fun a => emb (a.residue lift w.meaning))) := by
  rw [foldlM_some (h := fun acc a => acc * alpha + emb (a.residue lift w.meaning))]
  · rw [← foldl_combine, List.foldl_map]
  · intro a ha acc
    rw [eval_eq lift w h1 h2 h3, if_pos ((inRange_iff _ _ _).1 (hr a ha)), residue_eq]
    rfl

end TapStark.Stark
