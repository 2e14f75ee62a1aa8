import Verif.Props.Stark
import Verif.Props.BatchSound
import Verif.Spec.StarkSound
import Mathlib.LinearAlgebra.Lagrange

/-! The out-of-domain check against polynomials of degree at most `2^k`, and decoding of committed rows. -/

set_option linter.unusedSectionVars false

namespace TapStark.Stark

open Polynomial TapStark.Fri TapStark.Pcs

variable {K F : Type} [Field K] [Field F] [DecidableEq K] [DecidableEq F] [Algebra K F]
variable {SI C DI PI S D P Ch W : Type}

/-! ### Degrees -/

theorem getD_degree {d : Nat} {ps : List K[X]} (h : ∀ p ∈ ps, p.natDegree ≤ d) (c : Nat) :
    (ps.getD c 0).natDegree ≤ d := by
  rw [List.getD_eq_getElem?_getD]
  cases hc : ps[c]? with
  | none => simp
  | some p => exact h p (List.mem_of_getElem? hc)

theorem polyMeaning_bounded_le (genV : Nat → K) (k : Nat) (ps : List K[X]) (pub : List K)
    (hps : ∀ p ∈ ps, p.natDegree ≤ 2 ^ k) : (polyMeaning genV k ps pub).Bounded (2 ^ k + 1) := by
  have h1 : ∀ c, (ps.getD c 0).natDegree ≤ 2 ^ k := getD_degree hps
  refine ⟨h1, fun c => ?_, fun i => natDegree_C _, (selPoly_degree _).trans (Nat.sub_le_sub_right (Nat.le_succ _) 1),
    (selPoly_degree _).trans (Nat.sub_le_sub_right (Nat.le_succ _) 1), natDegree_X_sub_C_le _⟩
  refine natDegree_comp_le.trans ?_
  refine (Nat.mul_le_mul_left _ (le_trans (natDegree_C_mul_le _ _) natDegree_X_le)).trans ?_
  rw [mul_one]
  exact h1 c

theorem folded_degree_le {genV : Nat → K} {k q t : Nat} {air : Air K} {ps : List K[X]}
    {pub : List K} (hps : ∀ p ∈ ps, p.natDegree ≤ 2 ^ k)
    (hq : getLogQuotientDegree air pub.length = some q) (ht : ∀ a ∈ air.asserts, a.transitions ≤ t) (alpha : F) :
    (foldedPoly genV k air ps pub alpha).natDegree ≤ (2 ^ q + 1) * 2 ^ k + t := by
  refine Nat.le_of_lt_succ (combine_natDegree alpha _ _ ?_ (by positivity))
  intro c hc
  obtain ⟨c', hc', rfl⟩ := List.mem_map.1 hc
  obtain ⟨a, ha, rfl⟩ := List.mem_map.1 hc'
  refine Nat.lt_succ_of_le (natDegree_map_le.trans ?_)
  rw [residue_eq]
  refine (value_degree (polyMeaning_bounded_le genV k ps pub hps) a.expr).trans ?_
  rw [degree_expr, transitions_expr, Nat.add_sub_cancel]
  have hr : air.InRange pub.length := by
    by_contra h
    rw [getLogQuotientDegree, maxDegree_none h] at hq
    cases hq
  rw [getLogQuotientDegree, maxDegree_some hr] at hq
  simp only [Option.bind_eq_bind, Option.bind_some, Option.some.injEq] at hq
  have h1 := (log2Ceil_least (max air.degree 2 - 1)).1
  rw [hq] at h1
  simp only [Set.mem_ofPred_eq] at h1
  have h2 := le_degree ha
  exact Nat.add_le_add (Nat.mul_le_mul_right _ (by omega)) (ht a ha)

theorem glued_degree_le {genV : Nat → K} {N : Nat} (hg : TwoAdic genV N) (deg : ExtDeg K F) {s : K}
    {k q : Nat}
    {cps : List (List K[X])} (hcd : ∀ c ∈ cps, ∀ p ∈ c, p.natDegree ≤ 2 ^ k) :
    (gluedPoly hg deg s k q cps).natDegree ≤ 2 ^ q * 2 ^ k := by
  have hq := Nat.two_pow_pos q
  have : (gluedPoly hg deg s k q cps).natDegree ≤ (2 ^ q - 1) * 2 ^ k + 2 ^ k := by
    refine natDegree_sum_le_of_forall_le _ _ ?_
    intro i hi
    refine natDegree_mul_le.trans (Nat.add_le_add (weight_degree hg k q s (Finset.mem_range.1 hi)) ?_)
    refine natDegree_sum_le_of_forall_le _ _ ?_
    intro e _
    refine (natDegree_C_mul_le _ _).trans (natDegree_map_le.trans (getD_degree ?_ e))
    rw [List.getD_eq_getElem?_getD]
    cases hc : cps[i]? with
    | none => simp
    | some c => exact hcd c (List.mem_of_getElem? hc)
  refine this.trans (le_of_eq ?_)
  obtain ⟨n, hn⟩ : ∃ n, 2 ^ q = n + 1 := ⟨2 ^ q - 1, by omega⟩
  rw [hn, Nat.add_sub_cancel]
  ring

/-- The verifier's recombination of the values of chunk polynomials is the value of the glued polynomial. -/
theorem recombine_glued {genV : Nat → K} {N : Nat} (hg : TwoAdic genV N) (deg : ExtDeg K F) (s : K) (k : Nat) {q : Nat}
    {cps : List (List K[X])} (hcl : cps.length = 2 ^ q) (zeta : F) :
    recombine deg ((List.range (2 ^ q)).map fun i => (weightPoly hg F k q s i).eval zeta)
        (cps.map fun c => c.map fun p => aeval zeta p) =
      some ((gluedPoly hg deg s k q cps).eval zeta) := by
  unfold recombine gluedPoly
  rw [List.length_map, hcl]
  rw [mapM_some (h := fun i => (weightPoly hg F k q s i).eval zeta *
    (∑ e ∈ Finset.range (cps.getD i []).length, Polynomial.C (deg.monomial e) *
      ((cps.getD i []).getD e 0).map (algebraMap K F)).eval zeta)]
  · simp only [Option.bind_eq_bind, Option.bind_some, Option.some.injEq]
    rw [eval_finsetSum, ← List.sum_toFinset _ List.nodup_range, List.toFinset_range]
    simp [eval_mul]
  · intro i hi
    have hi' := List.mem_range.1 hi
    have hc : i < cps.length := by omega
    have h1 : cps.getD i [] = cps[i] := by
      rw [List.getD_eq_getElem?_getD, List.getElem?_eq_getElem hc, Option.getD_some]
    simp only [List.getElem?_map, List.getElem?_range hi', List.getElem?_eq_getElem hc, Option.map_some,
      Option.bind_eq_bind, Option.bind_some, Option.some.injEq, List.length_map]
    simp only [h1, eval_finsetSum, eval_mul, eval_C, Finset.mul_sum]
    rw [← List.sum_toFinset _ List.nodup_range, List.toFinset_range]
    refine Finset.sum_congr rfl fun e he => ?_
    have he' := Finset.mem_range.1 he
    simp only [List.getD_eq_getElem?_getD, List.getElem?_map, List.getElem?_eq_getElem he', Option.map_some,
      Option.getD_some]
    rw [eval_map_algebraMap, mul_assoc]

/-- `sound_core` for polynomials of degree at most `2^k`, with any number of transition flags. -/
theorem sound_core_le {u : Setup K F SI C DI PI S D P Ch W} (hg : TwoAdic u.genV u.twoAdicity) (hg0 : u.g ≠ 0)
    {air : Air K} {t : Nat} (ht : ∀ a ∈ air.asserts, a.transitions ≤ t) {pub : List K} {q : Nat}
    (hq : getLogQuotientDegree air pub.length = some q) {k : Nat} (hkq : k + q ≤ u.twoAdicity)
    {ps : List K[X]} (hpw : ps.length = air.width) (hps : ∀ p ∈ ps, p.natDegree ≤ 2 ^ k)
    {i : Nat} {a : Assertion K} (ha : a ∈ air.asserts)
    (hne : (a.residue Polynomial.C (polyMeaning u.genV k ps pub)).eval (u.genV k ^ i) ≠ 0) :
    ∃ bad : Set F, bad.Finite ∧ bad.ncard ≤ air.asserts.length - 1 ∧ ∀ alpha ∉ bad,
      ∀ cps : List (List K[X]), cps.length = 2 ^ q → (∀ c ∈ cps, ∀ p ∈ c, p.natDegree ≤ 2 ^ k) →
        {zeta | Accepts u air pub k q ps cps alpha zeta}.Finite ∧
        {zeta | Accepts u air pub k q ps cps alpha zeta}.ncard ≤ (2 ^ q + 1) * 2 ^ k + t := by
  have hr := ((C45_least_power_of_two air _ q).1 hq).1
  obtain ⟨p, hp0, hpd, hpe⟩ := combine_poly (air.asserts.map fun a => algebraMap K F
      ((a.residue Polynomial.C (polyMeaning u.genV k ps pub)).eval (u.genV k ^ i)))
    ⟨_, List.mem_map.2 ⟨a, ha, rfl⟩, by rwa [Ne, map_eq_zero]⟩
  rw [List.length_map] at hpd
  have hfold : ∀ alpha : F, (foldedPoly u.genV k air ps pub alpha).eval (algebraMap K F (u.genV k ^ i)) =
      p.eval alpha := by
    intro alpha
    rw [hpe, foldedPoly_eval_base]
    congr 1
    refine List.map_congr_left fun a _ => ?_
    have := residue_map (aeval (R := K) (u.genV k ^ i)).toRingHom Polynomial.C (polyMeaning u.genV k ps pub) a
    simp only [AlgHom.toRingHom_eq_coe, RingHom.coe_coe, coe_aeval_eq_eval, eval_C] at this
    rw [this]
    rfl
  obtain ⟨h1, h2⟩ := ncard_roots hp0 {alpha | p.eval alpha = 0} fun x hx => hx
  refine ⟨_, h1, h2.trans hpd, ?_⟩
  intro alpha halpha cps hcl hcd
  have hgd := glued_degree_le hg u.deg (s := u.g) (q := q) hcd
  set G := gluedPoly hg u.deg u.g k q cps with hG
  have hne : foldedPoly u.genV k air ps pub alpha - (X ^ 2 ^ k - 1) * G ≠ 0 := by
    intro h
    have := congrArg (Polynomial.eval (algebraMap K F (u.genV k ^ i))) h
    rw [eval_sub, hfold, eval_mul, eval_sub, eval_pow, eval_X, eval_one, ← map_pow, ← pow_mul, mul_comm i,
      pow_mul, gen_pow_one hg (by omega), one_pow, map_one, sub_self, zero_mul, sub_zero,
      eval_zero] at this
    exact halpha this
  have hdeg : (foldedPoly u.genV k air ps pub alpha - (X ^ 2 ^ k - 1) * G).natDegree ≤
      (2 ^ q + 1) * 2 ^ k + t := by
    refine (natDegree_sub_le _ _).trans (max_le (folded_degree_le hps hq ht alpha) ?_)
    refine natDegree_mul_le.trans ?_
    have : (X ^ 2 ^ k - 1 : F[X]).natDegree = 2 ^ k := natDegree_X_pow_sub_C
    rw [this, add_mul, one_mul]
    omega
  obtain ⟨h3, h4⟩ := ncard_roots hne {zeta | Accepts u air pub k q ps cps alpha zeta} (by
    rintro zeta ⟨proof, domains, hsd, e1, e2, e3, hood⟩
    rw [splitDomains_eq hkq, Option.some.injEq] at hsd
    subst hsd
    have hz : zeta ^ 2 ^ k ≠ 1 := by
      intro h
      rw [oodCheck_panic h] at hood
      cases hood
    rw [oodCheck_claims hg hg0 hr hkq (by simp [e1, hpw]) (by simp [e2, hpw]) hz, e3, recombine_glued hg u.deg u.g k hcl,
      Option.map_some, e1, e2, meaning_at, ← foldedPoly_eval, Option.some.injEq, decide_eq_true_eq] at hood
    rw [eval_sub, eval_mul, ← hood, eval_sub, eval_pow, eval_X, eval_one, mul_comm (_ - 1), mul_assoc,
      inv_mul_cancel₀ (sub_ne_zero.2 hz), mul_one, sub_self])
  exact ⟨h3, h4.trans hdeg⟩

/-! ### Decoding -/

/-- A polynomial of degree at most `d` that has values of the base field at more than `d` of its points comes from the base
field. -/
theorem descend {d : Nat} {Q : F[X]} (hQ : Q.degree ≤ d) (B : Finset Nat) (x v : Nat → K) (hx : Set.InjOn x B)
    (hB : d < B.card) (h : ∀ i ∈ B, algebraMap K F (v i) = Q.eval (algebraMap K F (x i))) :
    ∃ p : K[X], p.natDegree ≤ d ∧ p.map (algebraMap K F) = Q := by
  obtain ⟨B', hsub, hcard⟩ := Finset.exists_subset_card_eq (n := d + 1) hB
  have hx' : Set.InjOn x B' := fun a ha b hb => hx (hsub ha) (hsub hb)
  have hdeg : (Lagrange.interpolate B' x v).degree < ((d + 1 : Nat) : WithBot Nat) := by
    rw [← hcard]
    exact Lagrange.degree_interpolate_lt v hx'
  refine ⟨Lagrange.interpolate B' x v, ?_, ?_⟩
  · refine natDegree_le_of_degree_le (Order.le_of_lt_succ ?_)
    exact_mod_cast hdeg
  · refine Polynomial.eq_of_degrees_lt_of_eval_index_eq B' (v := fun i => algebraMap K F (x i))
      (fun a ha b hb hab => hx' ha hb ((algebraMap K F).injective hab)) ?_ ?_ ?_
    · rw [hcard]
      exact lt_of_le_of_lt degree_map_le hdeg
    · rw [hcard]
      exact lt_of_le_of_lt hQ (by exact_mod_cast Nat.lt_succ_self d)
    · intro i hi
      rw [← h i (hsub hi), eval_map_algebraMap, aeval_algebraMap_apply, coe_aeval_eq_eval,
        Lagrange.eval_interpolate_at_node v hx' hi]

theorem queryPoint_inj {genV : Nat → K} {N : Nat} (hg : TwoAdic genV N) {g : K} (hg0 : g ≠ 0) {h : Nat} (hh : h ≤ N)
    {A : Finset Nat} (hA : ∀ i ∈ A, i < 2 ^ h) : Set.InjOn (queryPoint genV g h) A := fun a ha b hb hab =>
  pointAt_inj hg hh (hA a ha) (hA b hb) (mul_left_cancel₀ hg0 hab)

/-- The columns of a matrix whose claims hold come from polynomials over the base field. -/
theorem decode {genV : Nat → K} {N : Nat} (hg : TwoAdic genV N) {g : K} (hg0 : g ≠ 0) {h d m w : Nat} (hh : h ≤ N)
    (hm : m + d < 2 ^ h) {A : Finset Nat} (hA : ∀ i ∈ A, i < 2 ^ h) (hc : 2 ^ h ≤ A.card + m) (mat : Claimed K F)
    (hne : mat.points ≠ []) (hp : ∀ p ∈ mat.points, p.2.length = w) (hw : ∀ i, (mat.row i).length = w)
    (hold : ∀ j : Nat, ∃ P : F[X], P.degree ≤ d ∧ ∀ p ∈ mat.points, ∀ y ∈ p.2[j]?, P.eval p.1 = y ∧
      ∀ i ∈ A, ∃ v ∈ (mat.row i)[j]?, algebraMap K F v = P.eval (algebraMap K F (queryPoint genV g h i))) :
    ∃ ps : List K[X], ps.length = w ∧ (∀ p ∈ ps, p.natDegree ≤ d) ∧
      (∀ p ∈ mat.points, p.2 = ps.map fun Q => aeval p.1 Q) ∧
      ∀ i ∈ A, mat.row i = ps.map fun Q => Q.eval (queryPoint genV g h i) := by
  have hcol : ∀ j, ∃ Q : K[X], Q.natDegree ≤ d ∧ (j < w → (∀ p ∈ mat.points, p.2[j]? = some (aeval p.1 Q)) ∧
      ∀ i ∈ A, (mat.row i)[j]? = some (Q.eval (queryPoint genV g h i))) := by
    intro j
    by_cases hj : j < w
    swap
    · exact ⟨0, by simp, fun h => absurd h hj⟩
    obtain ⟨P, hd, hP⟩ := hold j
    obtain ⟨p0, hp0⟩ := List.exists_mem_of_ne_nil _ hne
    have hval : ∀ i ∈ A, ∃ v, (mat.row i)[j]? = some v ∧
        algebraMap K F v = P.eval (algebraMap K F (queryPoint genV g h i)) := fun i hi =>
      (hP p0 hp0 _ (List.getElem?_eq_getElem (by rw [hp p0 hp0]; exact hj))).2 i hi
    obtain ⟨Q, hQd, hQ⟩ := descend hd A (queryPoint genV g h) (fun i => (mat.row i).getD j 0) (queryPoint_inj hg hg0 hh hA)
      (by omega) (by
        intro i hi
        obtain ⟨v, hv, hve⟩ := hval i hi
        rw [List.getD_eq_getElem?_getD, hv, Option.getD_some, hve])
    refine ⟨Q, hQd, fun _ => ⟨fun p hpm => ?_, fun i hi => ?_⟩⟩
    · have hlt : j < p.2.length := by rw [hp p hpm]; exact hj
      rw [List.getElem?_eq_getElem hlt, ← (hP p hpm _ (List.getElem?_eq_getElem hlt)).1, ← hQ, eval_map_algebraMap]
    · obtain ⟨v, hv, hve⟩ := hval i hi
      rw [← hQ, eval_map_algebraMap, aeval_algebraMap_apply, coe_aeval_eq_eval] at hve
      rw [hv, (algebraMap K F).injective hve]
  choose Q hQd hQ using hcol
  refine ⟨(List.range w).map Q, by simp, ?_, fun p hpm => ?_, fun i hi => ?_⟩
  · intro p hpm
    obtain ⟨j, -, rfl⟩ := List.mem_map.1 hpm
    exact hQd j
  · refine List.ext_getElem? fun j => ?_
    by_cases hj : j < w
    · rw [((hQ j hj).1 p hpm)]
      simp [hj]
    · rw [List.getElem?_eq_none (by rw [hp p hpm]; omega), List.getElem?_eq_none (by simp; omega)]
  · refine List.ext_getElem? fun j => ?_
    by_cases hj : j < w
    · rw [((hQ j hj).2 i hi)]
      simp [hj]
    · rw [List.getElem?_eq_none (by rw [hw]; omega), List.getElem?_eq_none (by simp; omega)]

/-- There is at most one way to read committed rows as polynomials. -/
theorem near_unique {genV : Nat → K} {N : Nat} (hg : TwoAdic genV N) {g : K} (hg0 : g ≠ 0) {h d m : Nat} (hh : h ≤ N)
    (hm : 2 * m + d < 2 ^ h) {row : Nat → List K} {ps ps' : List K[X]} (hl : ps.length = ps'.length)
    (hd : ∀ p ∈ ps, p.natDegree ≤ d) (hd' : ∀ p ∈ ps', p.natDegree ≤ d) (h1 : RowsNear genV g h m row ps)
    (h2 : RowsNear genV g h m row ps') : ps = ps' := by
  obtain ⟨A, hA, hAc, hrow⟩ := h1
  obtain ⟨A', hA', hAc', hrow'⟩ := h2
  have hcard : 2 ^ h ≤ (A ∩ A').card + 2 * m := by
    have e1 := Finset.card_union_add_card_inter A A'
    have e2 : (A ∪ A').card ≤ 2 ^ h := by
      refine (Finset.card_le_card (t := Finset.range (2 ^ h)) ?_).trans (by simp)
      intro i hi
      rw [Finset.mem_range]
      rcases Finset.mem_union.1 hi with hi | hi
      · exact hA i hi
      · exact hA' i hi
    omega
  refine List.ext_getElem hl fun j hj hj' => ?_
  refine Polynomial.eq_of_degrees_lt_of_eval_index_eq (A ∩ A') (v := queryPoint genV g h)
    (queryPoint_inj hg hg0 hh fun i hi => hA i (Finset.mem_inter.1 hi).1) ?_ ?_ ?_
  · refine lt_of_le_of_lt (degree_le_of_natDegree_le (hd _ (List.getElem_mem hj))) ?_
    exact_mod_cast (by omega : d < (A ∩ A').card)
  · refine lt_of_le_of_lt (degree_le_of_natDegree_le (hd' _ (List.getElem_mem hj'))) ?_
    exact_mod_cast (by omega : d < (A ∩ A').card)
  · intro i hi
    have := (hrow i (Finset.mem_inter.1 hi).1).symm.trans (hrow' i (Finset.mem_inter.1 hi).2)
    have := congrArg (fun l => l[j]?) this
    simpa [hj, hj'] using this

end TapStark.Stark
