import Verif.Proofs.StarkExpr
import Verif.Props.PcsInst

/-! Selectors, quotient values and recombination as polynomial identities. -/

set_option linter.unusedSectionVars false

namespace TapStark.Stark

open Polynomial TapStark.Fri TapStark.Pcs

variable {K F : Type} [Field K] [Field F] [DecidableEq K] [DecidableEq F] [Algebra K F]

theorem mapM_some {α β : Type} {f : α → Option β} {h : α → β} : ∀ (l : List α),
    (∀ a ∈ l, f a = some (h a)) → l.mapM f = some (l.map h)
  | [], _ => rfl
  | a :: l, hh => by
    rw [List.mapM_cons, hh a List.mem_cons_self, mapM_some l fun x hx => hh x (List.mem_cons_of_mem _ hx)]
    rfl

theorem inverse?_some {R : Type} [Field R] [DecidableEq R] {x : R} (h : x ≠ 0) :
    inverse? x = some x⁻¹ := if_neg h

/-- Every matrix of `2^k` rows of `w` entries is the evaluation of polynomials of degree below `2^k`. -/
theorem exists_polys {genV : Nat → K} {N : Nat} (hg : TwoAdic genV N) {k : Nat} (hk : k ≤ N) {s : K}
    (hs : s ≠ 0) (m : Mat K) (w : Nat) (hl : m.length = 2 ^ k) (hw : Rect m w) :
    ∃ ps : List K[X], ps.length = w ∧ m = evalRows genV ps s k ∧ ∀ p ∈ ps, p.natDegree < 2 ^ k := by
  have hinj := twoAdic_injOn hg hk hs
  refine ⟨(List.range w).map fun c => columnPoly genV m s k c, by simp, ?_, ?_⟩
  · apply List.ext_getElem (by simp [evalRows, hl])
    intro i hi1 hi2
    have hi : i < 2 ^ k := by rw [← hl]; exact hi1
    have hrow := hw m[i] (List.getElem_mem hi1)
    simp only [evalRows, List.getElem_map, List.getElem_range, List.map_map]
    apply List.ext_getElem (by simp [hrow])
    intro c hc1 hc2
    simp only [List.getElem_map, List.getElem_range, Function.comp]
    unfold columnPoly
    have := Lagrange.eval_interpolate_at_node (fun i => (m.getD i []).getD c 0) hinj (Finset.mem_range.2 hi)
    rw [this]
    simp [List.getElem?_eq_getElem hi1, List.getElem?_eq_getElem hc1]
  · intro p hp
    obtain ⟨c, -, rfl⟩ := List.mem_map.1 hp
    unfold columnPoly
    have h := Lagrange.degree_interpolate_lt (fun i => (m.getD i []).getD c 0) hinj
    rw [Finset.card_range] at h
    generalize Lagrange.interpolate (Finset.range (2 ^ k)) (fun i => s * genV k ^ i)
      (fun i => (m.getD i []).getD c 0) = p at h
    by_cases hp : p = 0
    · rw [hp, natDegree_zero]; exact Nat.two_pow_pos k
    · exact (natDegree_lt_iff_degree_lt hp).2 (by exact_mod_cast h)

/-! ### Points -/

section
variable {genV : Nat → K} {N : Nat} (hg : TwoAdic genV N)
include hg

theorem coset_pow {k q : Nat} (hkq : k + q ≤ N) (s : K) (i : Nat) :
    (s * genV (k + q) ^ i) ^ 2 ^ k = s ^ 2 ^ k * genV q ^ i := by
  rw [mul_pow, ← pow_mul, mul_comm i, pow_mul, add_comm k q, hg.pow (by omega)]

theorem gen_pow_mod {k : Nat} (hk : k ≤ N) (i : Nat) : genV k ^ (i % 2 ^ k) = genV k ^ i := by
  conv_rhs => rw [← Nat.div_add_mod i (2 ^ k), pow_add, pow_mul, hg.order hk, one_pow, one_mul]

theorem inv_eq {k : Nat} (hk : k ≤ N) : genV k ^ (2 ^ k - 1) = (genV k)⁻¹ := by
  have h := hg.order hk
  have hp := Nat.two_pow_pos k
  rw [show 2 ^ k = 2 ^ k - 1 + 1 by omega, pow_succ] at h
  exact eq_inv_of_mul_eq_one_left h

theorem inv_pow {k : Nat} (hk : k ≤ N) : ((genV k)⁻¹) ^ 2 ^ k = 1 := by
  rw [_root_.inv_pow, hg.order hk, inv_one]

theorem coset_out {k q : Nat} (hkq : k + q ≤ N) {s : K} (hs : s ^ 2 ^ (k + q) ≠ 1) (i : Nat) :
    (s * genV (k + q) ^ i) ^ 2 ^ k ≠ 1 := by
  intro h
  apply hs
  have h2 : ((s * genV (k + q) ^ i) ^ 2 ^ k) ^ 2 ^ q = 1 := by rw [h, one_pow]
  rw [← pow_mul, ← pow_add, mul_pow, ← pow_mul, mul_comm i, pow_mul, hg.order hkq, one_pow, mul_one] at h2
  exact h2

end

/-- The value of `(X^n - 1)/(X - a)` outside the subgroup. -/
theorem selPoly_aeval {a : K} {n : Nat} (ha : a ^ n = 1) {z : F} (hz : z ^ n ≠ 1) :
    (z ^ n - 1) * (z - algebraMap K F a)⁻¹ = aeval z (selPoly a n) := by
  have h := congrArg (aeval z) (selPoly_mul a n)
  simp only [map_mul, map_sub, aeval_X, aeval_C, map_pow, ha, map_one] at h
  have hne : z - algebraMap K F a ≠ 0 := by
    intro h0
    apply hz
    rw [sub_eq_zero] at h0
    rw [h0, ← map_pow, ha, map_one]
  rw [← h, mul_comm (z - _), mul_assoc, mul_inv_cancel₀ hne, mul_one]

theorem sub_ne_zero_of_out {a : K} {n : Nat} (ha : a ^ n = 1) {z : F} (hz : z ^ n ≠ 1) :
    z - algebraMap K F a ≠ 0 := by
  intro h0
  apply hz
  rw [sub_eq_zero] at h0
  rw [h0, ← map_pow, ha, map_one]

theorem selectorsAtPoint_eq {genV : Nat → K} {N : Nat} (hg : TwoAdic genV N) {k : Nat} (hk : k ≤ N)
    {z : F} (hz : z ^ 2 ^ k ≠ 1) :
    selectorsAtPoint genV ⟨k, 1⟩ z = some ⟨aeval z (selPoly (1 : K) (2 ^ k)),
      aeval z (selPoly (genV k)⁻¹ (2 ^ k)), z - algebraMap K F (genV k)⁻¹, (z ^ 2 ^ k - 1)⁻¹⟩ := by
  have h1 := sub_ne_zero_of_out (K := K) (one_pow (2 ^ k)) hz
  have h2 := sub_ne_zero_of_out (inv_pow hg hk) hz
  have e1 := selPoly_aeval (K := K) (one_pow (2 ^ k)) hz
  have e2 := selPoly_aeval (inv_pow hg hk) hz
  rw [map_one] at h1 e1
  unfold selectorsAtPoint
  simp only [inv_one, map_one, mul_one, inverse?_some h1, inverse?_some h2,
    inverse?_some (sub_ne_zero.2 hz), Option.bind_eq_bind, Option.bind_some, e1, e2]

theorem selectorsAtPoint_none {genV : Nat → K} {k : Nat} {z : F} (hz : z ^ 2 ^ k = 1) :
    selectorsAtPoint genV ⟨k, 1⟩ z = none := by
  unfold selectorsAtPoint
  simp only [inv_one, map_one, mul_one, hz, sub_self, Option.bind_eq_bind]
  cases inverse? (z - 1) with
  | none => rfl
  | some a =>
    cases inverse? (z - algebraMap K F (genV k)⁻¹) with
    | none => rfl
    | some b => simp [inverse?]

theorem selectorsOnCoset_eq {genV : Nat → K} {N : Nat} (hg : TwoAdic genV N) {k q : Nat}
    (hkq : k + q ≤ N) {s : K} (hs1 : s ≠ 1) (hs : s ^ 2 ^ (k + q) ≠ 1) :
    selectorsOnCoset genV ⟨k, 1⟩ ⟨k + q, s⟩ = some ((List.range (2 ^ (k + q))).map fun i =>
      let x := s * genV (k + q) ^ i
      ⟨(selPoly 1 (2 ^ k)).eval x, (selPoly (genV k)⁻¹ (2 ^ k)).eval x, x - (genV k)⁻¹,
        (x ^ 2 ^ k - 1)⁻¹⟩) := by
  have hk : k ≤ N := by omega
  have hout := coset_out hg hkq hs
  have hq : k + q - k = q := by omega
  unfold selectorsOnCoset
  rw [if_pos ⟨rfl, hs1, by simp⟩]
  simp only [hq, shiftedPowers, one_mul, List.map_map, pow_zero, inv_eq hg hk]
  have hz : ∀ i, s ^ 2 ^ k * genV q ^ i - 1 ≠ 0 := by
    intro i
    rw [← coset_pow hg hkq]
    exact sub_ne_zero.2 (hout i)
  rw [mapM_some (f := inverse?) (h := fun x => x⁻¹) (List.map _ _) (by
      intro a ha
      obtain ⟨i, -, rfl⟩ := List.mem_map.1 ha
      exact inverse?_some (hz i))]
  have hne : ∀ a : K, a ^ 2 ^ k = 1 → ∀ i, s * genV (k + q) ^ i - a ≠ 0 := fun a ha i =>
    sub_ne_zero_of_out (F := K) ha (hout i)
  rw [mapM_some (h := fun x => (x - 1)⁻¹) (List.map (fun i => s * genV (k + q) ^ i) _) (by
      intro a ha
      obtain ⟨i, -, rfl⟩ := List.mem_map.1 ha
      exact inverse?_some (hne 1 (one_pow _) i))]
  rw [mapM_some (h := fun x => (x - (genV k)⁻¹)⁻¹) (List.map (fun i => s * genV (k + q) ^ i) _) (by
      intro a ha
      obtain ⟨i, -, rfl⟩ := List.mem_map.1 ha
      exact inverse?_some (hne _ (inv_pow hg hk) i))]
  simp only [Option.bind_eq_bind, Option.bind_some, List.map_map]
  apply mapM_some
  intro i hi
  have hi' := List.mem_range.1 hi
  have hm : i % 2 ^ q < 2 ^ q := Nat.mod_lt _ (Nat.two_pow_pos q)
  have e1 := selPoly_aeval (K := K) (F := K) (one_pow (2 ^ k)) (hout i)
  have e2 := selPoly_aeval (K := K) (F := K) (inv_pow hg hk) (hout i)
  simp only [Algebra.algebraMap_self, RingHom.id_apply, coe_aeval_eq_eval] at e1 e2
  simp only [List.getElem?_map, List.getElem?_range hm, List.getElem?_range hi', Option.map_some,
    Option.bind_some, Function.comp, gen_pow_mod hg (show q ≤ N by omega), ← coset_pow hg hkq, e1, e2]

/-! ### Quotient values -/

/-- The meaning of the window of the trace polynomials at a point. -/
theorem meaning_at {genV : Nat → K} {k : Nat} {ps : List K[X]} {pub : List K} {R : Type} [CommRing R]
    [Algebra K R] (x : R) :
    (⟨ps.map fun p => aeval x p, ps.map fun p => aeval (x * algebraMap K R (genV k)) p,
      pub.map (algebraMap K R), aeval x (selPoly (1 : K) (2 ^ k)), aeval x (selPoly (genV k)⁻¹ (2 ^ k)),
      x - algebraMap K R (genV k)⁻¹⟩ : Window R).meaning =
      (polyMeaning genV k ps pub).map (aeval x) := by
  unfold Window.meaning Meaning.map polyMeaning
  have hgd : ∀ {A B : Type} (f : A → B) (l : List A) (c : Nat) (a : A),
      (l.map f).getD c (f a) = f (l.getD c a) := by
    intro A B f l c a
    simp only [List.getD_eq_getElem?_getD, List.getElem?_map]
    cases l[c]? <;> rfl
  congr 1
  · funext c
    have := hgd (fun p : K[X] => aeval x p) ps c 0
    rwa [map_zero] at this
  · funext c
    have := hgd (fun p : K[X] => aeval (x * algebraMap K R (genV k)) p) ps c 0
    rw [map_zero] at this
    rw [this, aeval_comp, map_mul, aeval_X, aeval_C, mul_comm]
  · funext c
    have := hgd (algebraMap K R) pub c 0
    rw [map_zero] at this
    rw [this]
    exact (aeval_C x _).symm
  · simp

/-- The folded constraints at a point are the folded polynomial at that point. -/
theorem foldedPoly_eval {genV : Nat → K} {k : Nat} (air : Air K) (ps : List K[X]) (pub : List K)
    (alpha z : F) :
    (foldedPoly genV k air ps pub alpha).eval z =
      combine alpha (air.asserts.map fun a =>
        a.residue (algebraMap K F) ((polyMeaning genV k ps pub).map (aeval z))) := by
  unfold foldedPoly
  rw [← coe_evalRingHom, combine_map]
  simp only [coe_evalRingHom, eval_C, constraintPolys, List.map_map]
  congr 1
  apply List.map_congr_left
  intro a _
  simp only [Function.comp, eval_map, ← aeval_def]
  have := residue_map (aeval z : K[X] →ₐ[K] F).toRingHom C (polyMeaning genV k ps pub) a
  simp only [AlgHom.toRingHom_eq_coe, RingHom.coe_coe, aeval_C] at this
  exact this

theorem foldedPoly_eval_base {genV : Nat → K} {k : Nat} (air : Air K) (ps : List K[X]) (pub : List K)
    (alpha : F) (x : K) :
    (foldedPoly genV k air ps pub alpha).eval (algebraMap K F x) =
      combine alpha (air.asserts.map fun a =>
        algebraMap K F (a.residue id ((polyMeaning genV k ps pub).map (aeval x)))) := by
  rw [foldedPoly_eval]
  congr 1
  apply List.map_congr_left
  intro a _
  rw [residue_map]
  congr 1
  unfold Meaning.map
  simp only [aeval_algebraMap_apply]

theorem verifierFold_eq {genV : Nat → K} {k : Nat} (air : Air K) (ps : List K[X]) (pub : List K)
    (alpha z : F) (hw : ps.length = air.width) (hr : air.InRange pub.length) :
    verifierFold air alpha ⟨ps.map fun p => aeval z p,
      ps.map fun p => aeval (z * algebraMap K F (genV k)) p, pub.map (algebraMap K F),
      aeval z (selPoly (1 : K) (2 ^ k)), aeval z (selPoly (genV k)⁻¹ (2 ^ k)),
      z - algebraMap K F (genV k)⁻¹⟩ = some ((foldedPoly genV k air ps pub alpha).eval z) := by
  unfold verifierFold
  refine (fold_eq (algebraMap K F) id air alpha _ (np := pub.length) (by simp [hw]) (by simp [hw])
    (by simp) hr).trans ?_
  rw [meaning_at, foldedPoly_eval]
  rfl

theorem quotientValues_eq {genV : Nat → K} {N : Nat} (hg : TwoAdic genV N) {k q : Nat} (hkq : k + q ≤ N)
    {s : K} (hs1 : s ≠ 1) (hs : s ^ 2 ^ (k + q) ≠ 1) (air : Air K) (ps : List K[X]) (pub : List K) (alpha : F)
    (hw : ps.length = air.width) (hr : air.InRange pub.length) :
    quotientValues genV air pub ⟨k, 1⟩ ⟨k + q, s⟩ (evalRows genV ps s (k + q)) alpha =
      some ((List.range (2 ^ (k + q))).map fun i =>
        (foldedPoly genV k air ps pub alpha).eval (algebraMap K F (s * genV (k + q) ^ i)) *
          (algebraMap K F (s * genV (k + q) ^ i) ^ 2 ^ k - 1)⁻¹) := by
  unfold quotientValues
  rw [selectorsOnCoset_eq hg hkq hs1 hs]
  simp only [Option.bind_eq_bind, Option.bind_some, Dom.size]
  apply mapM_some
  intro i hi
  have hi' := List.mem_range.1 hi
  have hlen : (evalRows genV ps s (k + q)).length = 2 ^ (k + q) := by simp [evalRows]
  have hrow : ∀ j, (evalRows genV ps s (k + q))[j % 2 ^ (k + q)]? =
      some (ps.map fun p => p.eval (s * genV (k + q) ^ j)) := by
    intro j
    rw [evalRows, List.getElem?_map, List.getElem?_range (Nat.mod_lt _ (Nat.two_pow_pos _))]
    simp only [Option.map_some, gen_pow_mod hg hkq]
  have hnext : s * genV (k + q) ^ (i + 2 ^ (k + q - k)) = s * genV (k + q) ^ i * genV k := by
    rw [pow_add, show k + q - k = q by omega, hg.pow hkq, mul_assoc]
  rw [hlen, hrow, hrow, List.getElem?_map, List.getElem?_range hi', hnext]
  simp only [Option.map_some, Option.bind_some]
  unfold proverFold
  have hm := meaning_at (genV := genV) (k := k) (ps := ps) (pub := pub) (R := K) (s * genV (k + q) ^ i)
  simp only [Algebra.algebraMap_self, RingHom.id_apply, coe_aeval_eq_eval, RingHom.coe_id,
    List.map_id] at hm
  rw [fold_eq id (algebraMap K F) air alpha _ (np := pub.length) (by simp [hw]) (by simp [hw]) (by simp) hr, hm,
    foldedPoly_eval_base]
  simp only [Option.bind_some, map_inv₀, map_sub, map_pow, map_one, coe_aeval_eq_eval]

/-! ### Divisibility -/

theorem dvd_of_zeros {genV : Nat → K} {N : Nat} (hg : TwoAdic genV N) {k : Nat} (hk : k ≤ N) (p : K[X])
    (h : ∀ i, i < 2 ^ k → p.eval (genV k ^ i) = 0) : X ^ 2 ^ k - 1 ∣ p := by
  have hmon : (X ^ 2 ^ k - 1 : K[X]).Monic := monic_X_pow_sub_C 1 (Nat.two_pow_pos k).ne'
  rw [← modByMonic_eq_zero_iff_dvd hmon]
  refine Polynomial.eq_zero_of_degree_lt_of_eval_index_eq_zero (v := fun i => 1 * genV k ^ i) (Finset.range (2 ^ k))
    (twoAdic_injOn hg hk one_ne_zero) ?_ ?_
  · rw [Finset.card_range]
    refine lt_of_lt_of_le (degree_modByMonic_lt _ hmon) ?_
    have : (X ^ 2 ^ k - 1 : K[X]).degree = (2 ^ k : Nat) := degree_X_pow_sub_C (Nat.two_pow_pos k) 1
    rw [this]
  · intro i hi
    have hd := congrArg (Polynomial.eval (genV k ^ i)) (modByMonic_add_div p (X ^ 2 ^ k - 1 : K[X]))
    rw [h i (Finset.mem_range.1 hi)] at hd
    simp only [eval_add, eval_mul, eval_sub, eval_pow, eval_X, eval_one] at hd
    rw [← pow_mul, mul_comm i, pow_mul, hg.order hk, one_pow, sub_self, zero_mul, add_zero] at hd
    rw [one_mul]
    exact hd

theorem combine_dvd {R : Type} [CommRing R] {d : R} (alpha : R) : ∀ cs : List R, (∀ c ∈ cs, d ∣ c) →
    d ∣ combine alpha cs := by
  intro cs h
  unfold combine
  exact Finset.dvd_sum fun j _ => Dvd.dvd.mul_left (h _ (List.getElem_mem _)) _

/-! ### Recombining the chunks -/

section
variable {genV : Nat → K} {N : Nat} (hg : TwoAdic genV N)
include hg

/-- The weight polynomial of chunk `i`. -/
noncomputable def weightPoly (_ : TwoAdic genV N) (F : Type) [Field F] [Algebra K F] (k q : Nat) (s : K)
    (i : Nat) : F[X] :=
  ∏ j ∈ (Finset.range (2 ^ q)).erase i,
    ((C (algebraMap K F (s * genV (k + q) ^ j)⁻¹) * X) ^ 2 ^ k - 1) *
      C (algebraMap K F (((s * genV (k + q) ^ i) * (s * genV (k + q) ^ j)⁻¹) ^ 2 ^ k - 1)⁻¹)

theorem weight_degree (k q : Nat) (s : K) {i : Nat} (hi : i < 2 ^ q) :
    (weightPoly hg F k q s i).natDegree ≤ (2 ^ q - 1) * 2 ^ k := by
  refine (natDegree_prod_le _ _).trans ?_
  refine (Finset.sum_le_card_nsmul _ _ (2 ^ k) ?_).trans ?_
  · intro j _
    refine (natDegree_mul_C_le _ _).trans ?_
    refine (natDegree_sub_le _ _).trans (max_le ?_ (by simp))
    refine natDegree_pow_le.trans ?_
    calc _ ≤ 2 ^ k * 1 := Nat.mul_le_mul_left _ ((natDegree_C_mul_le _ _).trans natDegree_X_le)
      _ = _ := mul_one _
  · rw [Finset.card_erase_of_mem (Finset.mem_range.2 hi), Finset.card_range, smul_eq_mul]

theorem ratio_pow {k q : Nat} (hkq : k + q ≤ N) {s : K} (hs : s ≠ 0) (i j l : Nat) :
    ((s * genV (k + q) ^ i * genV k ^ l) * (s * genV (k + q) ^ j)⁻¹) ^ 2 ^ k =
      genV q ^ i * (genV q ^ j)⁻¹ := by
  have h0 : genV (k + q) ≠ 0 := hg.ne_zero hkq
  rw [mul_pow, mul_pow, coset_pow hg hkq, _root_.inv_pow, coset_pow hg hkq, ← pow_mul, mul_comm l, pow_mul,
    hg.order (show k ≤ N by omega), one_pow, mul_one, mul_inv]
  field_simp

theorem ratio_ne {k q : Nat} (hkq : k + q ≤ N) {s : K} (hs : s ≠ 0) {i j : Nat} (hi : i < 2 ^ q)
    (hj : j < 2 ^ q) (hij : i ≠ j) (l : Nat) :
    ((s * genV (k + q) ^ i * genV k ^ l) * (s * genV (k + q) ^ j)⁻¹) ^ 2 ^ k - 1 ≠ 0 := by
  rw [ratio_pow hg hkq hs]
  intro h
  have h0 : genV q ^ j ≠ 0 := pow_ne_zero _ (hg.ne_zero (by omega))
  rw [sub_eq_zero, mul_inv_eq_one₀ h0] at h
  have hinj := twoAdic_injOn hg (show q ≤ N by omega) (one_ne_zero (α := K))
  exact hij (hinj (by simpa using hi) (by simpa using hj) (by simpa using h))

theorem weight_on {k q : Nat} (hkq : k + q ≤ N) {s : K} (hs : s ≠ 0) {i j : Nat} (hi : i < 2 ^ q)
    (hj : j < 2 ^ q) (l : Nat) :
    (weightPoly hg F k q s i).eval (algebraMap K F (s * genV (k + q) ^ j * genV k ^ l)) =
      if i = j then 1 else 0 := by
  unfold weightPoly
  rw [eval_prod]
  simp only [eval_mul, eval_sub, eval_pow, eval_C, eval_X, eval_one]
  have hf : ∀ j', (algebraMap K F (s * genV (k + q) ^ j')⁻¹ *
      algebraMap K F (s * genV (k + q) ^ j * genV k ^ l)) ^ 2 ^ k - 1 =
      algebraMap K F (((s * genV (k + q) ^ j * genV k ^ l) * (s * genV (k + q) ^ j')⁻¹) ^ 2 ^ k - 1) := by
    intro j'
    rw [← map_mul, ← map_pow, map_sub, map_one, mul_comm]
  split
  case isTrue h =>
    subst h
    refine Finset.prod_eq_one fun j' hj' => ?_
    obtain ⟨hne, hj'⟩ := Finset.mem_erase.1 hj'
    rw [hf, ← map_mul]
    have h1 := ratio_pow hg hkq hs i j' l
    have h2 := ratio_pow hg hkq hs i j' 0
    have h3 := ratio_ne hg hkq hs hi (Finset.mem_range.1 hj') (Ne.symm hne) 0
    rw [pow_zero, mul_one] at h2 h3
    rw [h1, ← h2, mul_inv_cancel₀ h3, map_one]
  case isFalse h =>
    refine Finset.prod_eq_zero (i := j) (Finset.mem_erase.2 ⟨Ne.symm h, Finset.mem_range.2 hj⟩) ?_
    rw [hf, ratio_pow hg hkq hs, mul_inv_cancel₀ (pow_ne_zero _ (hg.ne_zero (by omega)))]
    simp

/-- The domains of the chunks. -/
def chunkDomains (genV : Nat → K) (k q : Nat) (s : K) : List (Dom K) :=
  (List.range (2 ^ q)).map fun i => ⟨k, s * genV (k + q) ^ i⟩

omit hg in
theorem splitDomains_eq {k q : Nat} (hkq : k + q ≤ N) (s : K) :
    splitDomains genV N ⟨k + q, s⟩ (2 ^ q) = some (chunkDomains genV k q s) := by
  unfold splitDomains chunkDomains
  simp only [log2Strict_pow, Option.bind_eq_bind, Option.bind_some]
  rw [if_pos ⟨hkq, by omega⟩]
  simp

theorem zps_eq {k q : Nat} (hkq : k + q ≤ N) {s : K} (hs : s ≠ 0) (z : F) :
    zps (chunkDomains genV k q s) z =
      some ((List.range (2 ^ q)).map fun i => (weightPoly hg F k q s i).eval z) := by
  unfold zps
  have hlen : (chunkDomains genV k q s).length = 2 ^ q := by simp [chunkDomains]
  have hget : ∀ i, i < 2 ^ q → (chunkDomains genV k q s)[i]? = some ⟨k, s * genV (k + q) ^ i⟩ := by
    intro i hi
    rw [chunkDomains, List.getElem?_map, List.getElem?_range hi]
    rfl
  rw [hlen]
  apply mapM_some
  intro i hi
  have hi' := List.mem_range.1 hi
  rw [hget i hi']
  simp only [Option.bind_eq_bind, Option.bind_some]
  rw [mapM_some (h := fun j => ((algebraMap K F (s * genV (k + q) ^ j)⁻¹ * z) ^ 2 ^ k - 1) *
      algebraMap K F (((s * genV (k + q) ^ i) * (s * genV (k + q) ^ j)⁻¹) ^ 2 ^ k - 1)⁻¹)]
  · simp only [Option.bind_some, Option.some.injEq]
    unfold weightPoly
    rw [eval_prod, ← List.prod_toFinset _ (List.nodup_range.filter _)]
    simp only [eval_mul, eval_sub, eval_pow, eval_C, eval_X, eval_one]
    refine Finset.prod_congr ?_ fun _ _ => rfl
    ext j
    simp [and_comm]
  · intro j hj
    obtain ⟨hj1, hj2⟩ := List.mem_filter.1 hj
    have hj1 := List.mem_range.1 hj1
    have hne : i ≠ j := fun h => by simp [h] at hj2
    rw [hget j hj1]
    have h3 := ratio_ne hg hkq hs hi' hj1 hne 0
    rw [pow_zero, mul_one] at h3
    simp only [Option.bind_some, zpAtPoint, Algebra.algebraMap_self, RingHom.id_apply,
      inverse?_some h3, mul_comm z]

/-- Recombining the values of the chunk polynomials gives the value of the polynomial they are chunks
of. -/
theorem recombine_eq {k q : Nat} (hkq : k + q ≤ N) {s : K} (hs : s ≠ 0) {deg : ExtDeg K F}
    (chunks : List (List K[X])) (hl : chunks.length = 2 ^ q) (hd : ∀ c ∈ chunks, ∀ p ∈ c, p.natDegree < 2 ^ k)
    (Q : F[X]) (hQ : Q.natDegree < 2 ^ (k + q))
    (hQc : ∀ i c, chunks[i]? = some c → ∀ l, Q.eval (algebraMap K F (s * genV (k + q) ^ i * genV k ^ l)) =
      ∑ e ∈ Finset.range c.length, deg.monomial e *
        algebraMap K F ((c.getD e 0).eval (s * genV (k + q) ^ i * genV k ^ l)))
    (z : F) :
    recombine deg ((List.range (2 ^ q)).map fun i => (weightPoly hg F k q s i).eval z)
      (chunks.map fun c => c.map fun p => aeval z p) = some (Q.eval z) := by
  set cp : Nat → F[X] := fun i => ∑ e ∈ Finset.range (chunks.getD i []).length,
    C (deg.monomial e) * ((chunks.getD i []).getD e 0).map (algebraMap K F) with hcp
  have hcd : ∀ i, (cp i).natDegree < 2 ^ k := by
    intro i
    refine lt_of_le_of_lt (natDegree_sum_le_of_forall_le (n := 2 ^ k - 1) _ _ ?_)
      (by have := Nat.two_pow_pos k; omega)
    intro e he
    refine (natDegree_C_mul_le _ _).trans (natDegree_map_le.trans ?_)
    have he' := Finset.mem_range.1 he
    rw [List.getD_eq_getElem?_getD, List.getElem?_eq_getElem he', Option.getD_some]
    by_cases hi : i < chunks.length
    · have h1 : chunks.getD i [] = chunks[i] := by
        rw [List.getD_eq_getElem?_getD, List.getElem?_eq_getElem hi, Option.getD_some]
      have hmem : (chunks.getD i [])[e] ∈ chunks[i] := by
        refine h1.subst (motive := fun l => (chunks.getD i [])[e] ∈ l) (List.getElem_mem he')
      have := hd _ (List.getElem_mem hi) _ hmem
      omega
    · rw [List.getD_eq_getElem?_getD, List.getElem?_eq_none (by omega)] at he'
      simp at he'
  -- the recombined polynomial
  have hR : Q = ∑ i ∈ Finset.range (2 ^ q), weightPoly hg F k q s i * cp i := by
    rw [← sub_eq_zero]
    refine Polynomial.eq_zero_of_degree_lt_of_eval_index_eq_zero
      (v := fun i => algebraMap K F (s * genV (k + q) ^ i)) (Finset.range (2 ^ (k + q))) ?_ ?_ ?_
    · intro a ha b hb hab
      exact twoAdic_injOn hg hkq hs ha hb ((algebraMap K F).injective hab)
    · rw [Finset.card_range]
      refine lt_of_le_of_lt degree_le_natDegree ?_
      refine Nat.cast_lt.2 (lt_of_le_of_lt (natDegree_sub_le _ _) (max_lt hQ ?_))
      refine lt_of_le_of_lt (natDegree_sum_le_of_forall_le (n := (2 ^ q - 1) * 2 ^ k + (2 ^ k - 1)) _ _ ?_) ?_
      · intro i hi
        refine natDegree_mul_le.trans (Nat.add_le_add (weight_degree hg k q s (Finset.mem_range.1 hi)) ?_)
        have := hcd i
        omega
      · have h1 := Nat.two_pow_pos k
        obtain ⟨m, hm⟩ : ∃ m, 2 ^ q = m + 1 := ⟨2 ^ q - 1, by have := Nat.two_pow_pos q; omega⟩
        rw [pow_add, hm, Nat.add_sub_cancel, Nat.mul_succ, mul_comm m]
        omega
    · intro i hi
      have hi' := Finset.mem_range.1 hi
      have hm : i % 2 ^ q < 2 ^ q := Nat.mod_lt _ (Nat.two_pow_pos q)
      have hpt : s * genV (k + q) ^ i = s * genV (k + q) ^ (i % 2 ^ q) * genV k ^ (i / 2 ^ q) := by
        conv_lhs => rw [← Nat.mod_add_div i (2 ^ q), pow_add, pow_mul, hg.pow hkq, ← mul_assoc]
      simp only [hpt, eval_sub, eval_finsetSum, eval_mul]
      rw [Finset.sum_congr rfl (g := fun a => if a = i % 2 ^ q then (cp a).eval (algebraMap K F
        (s * genV (k + q) ^ (i % 2 ^ q) * genV k ^ (i / 2 ^ q))) else 0)]
      · rw [Finset.sum_ite_eq' (Finset.range (2 ^ q)), if_pos (Finset.mem_range.2 hm)]
        have hc : chunks[i % 2 ^ q]? = some (chunks.getD (i % 2 ^ q) []) := by
          rw [List.getD_eq_getElem?_getD, List.getElem?_eq_getElem (by omega), Option.getD_some]
        rw [hQc _ _ hc, hcp, sub_eq_zero]
        simp only [eval_finsetSum, eval_mul, eval_C]
        refine Finset.sum_congr rfl fun e _ => ?_
        rw [eval_map_algebraMap, aeval_algebraMap_apply, coe_aeval_eq_eval]
      · intro a ha
        rw [weight_on hg hkq hs (Finset.mem_range.1 ha) hm]
        split <;> simp
  unfold recombine
  rw [List.length_map, hl]
  rw [mapM_some (h := fun i => (weightPoly hg F k q s i).eval z * (cp i).eval z)]
  · simp only [Option.bind_eq_bind, Option.bind_some, Option.some.injEq]
    conv_rhs => rw [hR]
    rw [eval_finsetSum, ← List.sum_toFinset _ List.nodup_range, List.toFinset_range]
    simp [eval_mul]
  · intro i hi
    have hi' := List.mem_range.1 hi
    have hc : i < chunks.length := by omega
    have h1 : chunks.getD i [] = chunks[i] := by
      rw [List.getD_eq_getElem?_getD, List.getElem?_eq_getElem hc, Option.getD_some]
    simp only [List.getElem?_map, List.getElem?_range hi', List.getElem?_eq_getElem hc, Option.map_some,
      Option.bind_eq_bind, Option.bind_some, Option.some.injEq, List.length_map]
    rw [hcp]
    simp only [h1, eval_finsetSum, eval_mul, eval_C, Finset.mul_sum]
    rw [← List.sum_toFinset _ List.nodup_range, List.toFinset_range]
    refine Finset.sum_congr rfl fun e he => ?_
    have he' := Finset.mem_range.1 he
    simp only [List.getD_eq_getElem?_getD, List.getElem?_map, List.getElem?_eq_getElem he', Option.map_some,
      Option.getD_some]
    rw [eval_map_algebraMap, mul_assoc]

end

end TapStark.Stark
