import Verif.Proofs.FriHalf
import Mathlib.LinearAlgebra.Lagrange

/-! Proximity of curves of words to a Reed-Solomon code up to half of its distance: `FriHalf` for the combination of any
number of words with the powers of one challenge. -/

namespace TapStark.Fri

open Polynomial Finset

variable {F : Type} [Field F] [DecidableEq F]

omit [DecidableEq F] in
theorem ofCoeffs_add {m : Nat} (a b : Fin m → F) : ofCoeffs (a + b) = ofCoeffs a + ofCoeffs b := by
  simp [ofCoeffs, add_mul, sum_add_distrib]

omit [DecidableEq F] in
theorem ofCoeffs_smul {m : Nat} (c : F) (a : Fin m → F) : ofCoeffs (c • a) = C c * ofCoeffs a := by
  simp [ofCoeffs, mul_sum, mul_assoc]

/-- The combination of words with the powers of `β`. -/
def curveAt {ι : Type} {l : Nat} (u : Fin (l + 1) → ι → F) (β : F) (i : ι) : F := ∑ t : Fin (l + 1), β ^ (t : Nat) * u t i

theorem curveAt_eval {ι : Type} {l : Nat} (u : Fin (l + 1) → ι → F) (β : F) (i : ι) :
    (ofCoeffs fun t => u t i).eval β = curveAt u β i := by
  rw [ofCoeffs_eval, curveAt]
  exact sum_congr rfl fun _ _ => mul_comm _ _

/-- The left side of the equations: the coefficient of `Z^s` of `A(x_i, Z) u(i, Z) - B(x_i, Z)`. -/
noncomputable def welchCurve {ι : Type} (J : Finset ι) (pt : ι → F) {l : Nat} (u : Fin (l + 1) → ι → F) (e k d : Nat) :
    ((Fin (e + 1) × Fin (d + 1) → F) × (Fin (e + k) × Fin (d + l + 1) → F)) →ₗ[F] ({i // i ∈ J} × Fin (d + l + 1) → F) where
  toFun ab it := ((ofCoeffs fun t => ∑ j : Fin (e + 1), ab.1 (j, t) * pt it.1 ^ (j : Nat)) * (ofCoeffs fun t => u t it.1) -
    ofCoeffs fun t => ∑ j : Fin (e + k), ab.2 (j, t) * pt it.1 ^ (j : Nat)).coeff it.2
  map_add' x y := by
    funext it
    have h1 : (fun t => ∑ j : Fin (e + 1), (x + y).1 (j, t) * pt it.1 ^ (j : Nat)) =
        (fun t => ∑ j : Fin (e + 1), x.1 (j, t) * pt it.1 ^ (j : Nat)) +
        fun t => ∑ j : Fin (e + 1), y.1 (j, t) * pt it.1 ^ (j : Nat) := by
      funext t; simp [add_mul, sum_add_distrib]
    have h2 : (fun t => ∑ j : Fin (e + k), (x + y).2 (j, t) * pt it.1 ^ (j : Nat)) =
        (fun t => ∑ j : Fin (e + k), x.2 (j, t) * pt it.1 ^ (j : Nat)) +
        fun t => ∑ j : Fin (e + k), y.2 (j, t) * pt it.1 ^ (j : Nat) := by
      funext t; simp [add_mul, sum_add_distrib]
    rw [h1, h2, ofCoeffs_add, ofCoeffs_add, Pi.add_apply, ← coeff_add]
    congr 1
    ring
  map_smul' c x := by
    funext it
    have h1 : (fun t => ∑ j : Fin (e + 1), (c • x).1 (j, t) * pt it.1 ^ (j : Nat)) =
        c • fun t => ∑ j : Fin (e + 1), x.1 (j, t) * pt it.1 ^ (j : Nat) := by
      funext t; simp [mul_sum, mul_assoc]
    have h2 : (fun t => ∑ j : Fin (e + k), (c • x).2 (j, t) * pt it.1 ^ (j : Nat)) =
        c • fun t => ∑ j : Fin (e + k), x.2 (j, t) * pt it.1 ^ (j : Nat) := by
      funext t; simp [mul_sum, mul_assoc]
    rw [h1, h2, ofCoeffs_smul, ofCoeffs_smul, Pi.smul_apply, smul_eq_mul, RingHom.id_apply, ← coeff_C_mul]
    congr 1
    ring

omit [DecidableEq F] in
theorem welchCurve_solution {ι : Type} (J : Finset ι) (pt : ι → F) {l : Nat} (u : Fin (l + 1) → ι → F) {e k : Nat}
    (hJ : J.card = 2 * e + k) : ∃ ab, ab ≠ 0 ∧ welchCurve J pt u e k (e * l) ab = 0 := by
  have h := LinearMap.ker_ne_bot_of_finrank_lt (f := welchCurve J pt u e k (e * l)) (by
    rw [Module.finrank_prod, Module.finrank_fintype_fun_eq_card, Module.finrank_fintype_fun_eq_card,
      Module.finrank_fintype_fun_eq_card]
    simp only [Fintype.card_prod, Fintype.card_fin, Fintype.card_coe, hJ]
    nlinarith)
  obtain ⟨ab, h1, h2⟩ := (Submodule.ne_bot_iff _).1 h
  exact ⟨ab, h2, LinearMap.mem_ker.1 h1⟩

theorem welchCurve_polys {ι : Type} [DecidableEq ι] (J : Finset ι) (pt : ι → F) (hpt : Function.Injective pt) {l : Nat}
    (u : Fin (l + 1) → ι → F) {e k : Nat} (hJ : J.card = 2 * e + k) :
    ∃ (A B : F → F[X]) (R : ι → F[X]), (∀ β, (A β).degree < ((e + 1 : Nat) : WithBot Nat)) ∧
      (∀ β, (B β).degree < ((e + k : Nat) : WithBot Nat)) ∧
      (∀ i, (R i).degree < ((e * l + 1 : Nat) : WithBot Nat)) ∧ (∀ i β, (R i).eval β = (A β).eval (pt i)) ∧
      (∀ i ∈ J, ∀ β, (A β).eval (pt i) * curveAt u β i = (B β).eval (pt i)) ∧
      ∀ J0 : Finset ι, (∀ i ∈ J0, R i = 0) → J0.card ≤ e := by
  obtain ⟨⟨a, b⟩, hne, hsol⟩ := welchCurve_solution J pt u hJ
  have hsol' : ∀ i ∈ J, (ofCoeffs fun t => ∑ j : Fin (e + 1), a (j, t) * pt i ^ (j : Nat)) * (ofCoeffs fun t => u t i) =
      ofCoeffs fun t => ∑ j : Fin (e + k), b (j, t) * pt i ^ (j : Nat) := by
    intro i hi
    rw [← sub_eq_zero]
    ext s
    rw [coeff_zero]
    by_cases hs : s < e * l + l + 1
    · exact congrFun hsol (⟨i, hi⟩, ⟨s, hs⟩)
    · refine coeff_eq_zero_of_degree_lt (lt_of_lt_of_le (b := ((e * l + l + 1 : Nat) : WithBot Nat)) ?_ (by exact_mod_cast by omega))
      refine lt_of_le_of_lt (degree_sub_le _ _) (max_lt ?_ (ofCoeffs_degree _))
      by_cases h0 : (ofCoeffs fun t => ∑ j : Fin (e + 1), a (j, t) * pt i ^ (j : Nat)) = 0
      · rw [h0, zero_mul, degree_zero]; exact WithBot.bot_lt_coe _
      by_cases h0' : (ofCoeffs fun t => u t i) = 0
      · rw [h0', mul_zero, degree_zero]; exact WithBot.bot_lt_coe _
      have h4 := ofCoeffs_degree fun t => ∑ j : Fin (e + 1), a (j, t) * pt i ^ (j : Nat)
      have h5 := ofCoeffs_degree fun t => u t i
      rw [degree_eq_natDegree h0] at h4
      rw [degree_eq_natDegree h0'] at h5
      rw [degree_mul, degree_eq_natDegree h0, degree_eq_natDegree h0']
      have h6 : (ofCoeffs fun t => ∑ j : Fin (e + 1), a (j, t) * pt i ^ (j : Nat)).natDegree < e * l + 1 := by exact_mod_cast h4
      have h7 : (ofCoeffs fun t => u t i).natDegree < l + 1 := by exact_mod_cast h5
      exact_mod_cast (by omega)
  refine ⟨fun β => ofCoeffs fun j => ∑ t : Fin (e * l + 1), a (j, t) * β ^ (t : Nat),
    fun β => ofCoeffs fun j => ∑ t : Fin (e * l + l + 1), b (j, t) * β ^ (t : Nat),
    fun i => ofCoeffs fun t => ∑ j : Fin (e + 1), a (j, t) * pt i ^ (j : Nat),
    fun β => ofCoeffs_degree _, fun β => ofCoeffs_degree _, fun i => ofCoeffs_degree _, ?_, ?_, ?_⟩
  · intro i β
    rw [ofCoeffs_eval, ofCoeffs_eval]
    simp only [sum_mul]
    rw [sum_comm]
    exact sum_congr rfl fun _ _ => sum_congr rfl fun _ _ => by ring
  · intro i hi β
    have h := congrArg (eval β) (hsol' i hi)
    rw [eval_mul, curveAt_eval] at h
    have hA : (ofCoeffs fun j => ∑ t : Fin (e * l + 1), a (j, t) * β ^ (t : Nat)).eval (pt i) =
        (ofCoeffs fun t => ∑ j : Fin (e + 1), a (j, t) * pt i ^ (j : Nat)).eval β := by
      rw [ofCoeffs_eval, ofCoeffs_eval]
      simp only [sum_mul]
      rw [sum_comm]
      exact sum_congr rfl fun _ _ => sum_congr rfl fun _ _ => by ring
    have hB : (ofCoeffs fun j => ∑ t : Fin (e * l + l + 1), b (j, t) * β ^ (t : Nat)).eval (pt i) =
        (ofCoeffs fun t => ∑ j : Fin (e + k), b (j, t) * pt i ^ (j : Nat)).eval β := by
      rw [ofCoeffs_eval, ofCoeffs_eval]
      simp only [sum_mul]
      rw [sum_comm]
      exact sum_congr rfl fun _ _ => sum_congr rfl fun _ _ => by ring
    rw [hA, hB, h]
  · intro J0 hJ0
    by_contra hc
    push Not at hc
    have ha : ∀ j t, a (j, t) = 0 := by
      intro j t
      refine ofCoeffs_zero (a := fun j => a (j, t)) ?_ j
      refine eq_zero_of_degree_lt_of_eval_finset_eq_zero (J0.image pt) ?_ ?_
      · rw [card_image_of_injective _ hpt]
        exact lt_of_lt_of_le (ofCoeffs_degree _) (by exact_mod_cast hc)
      · intro x hx
        obtain ⟨i, hi, rfl⟩ := mem_image.1 hx
        rw [ofCoeffs_eval]
        exact ofCoeffs_zero (hJ0 i hi) t
    have hb : ∀ j t, b (j, t) = 0 := by
      intro j t
      refine ofCoeffs_zero (a := fun j => b (j, t)) ?_ j
      refine eq_zero_of_degree_lt_of_eval_finset_eq_zero (J.image pt) ?_ ?_
      · rw [card_image_of_injective _ hpt]
        exact lt_of_lt_of_le (ofCoeffs_degree _) (by exact_mod_cast (by omega : e + k ≤ J.card))
      · intro x hx
        obtain ⟨i, hi, rfl⟩ := mem_image.1 hx
        rw [ofCoeffs_eval]
        have h := hsol' i hi
        simp only [ha, zero_mul, sum_const_zero] at h
        rw [show (ofCoeffs fun _ : Fin (e * l + 1) => (0 : F)) = 0 by simp [ofCoeffs], zero_mul] at h
        exact ofCoeffs_zero h.symm t
    apply hne
    rw [Prod.mk_eq_zero]
    exact ⟨funext fun x => ha x.1 x.2, funext fun x => hb x.1 x.2⟩

variable {ι : Type} [Fintype ι] [DecidableEq ι]

/-- The positions at which the word of a challenge differs from a polynomial. -/
def curveDiff (pt : ι → F) {l : Nat} (u : Fin (l + 1) → ι → F) (β : F) (p : F[X]) : Finset ι :=
  univ.filter fun i => curveAt u β i ≠ p.eval (pt i)

/-- If for more than `e l (e + k) + l` challenges the curve is within `e` positions of the code, all these codewords lie
on a curve. -/
theorem curve_half (pt : ι → F) (hpt : Function.Injective pt) {k e l : Nat} (hk : 2 * e + k ≤ Fintype.card ι)
    (u : Fin (l + 1) → ι → F) (T : Finset F) (hT : e * l * (e + k) + l < T.card)
    (hnear : ∀ β ∈ T, ∃ p : F[X], p.degree < k ∧ (curveDiff pt u β p).card ≤ e) :
    ∃ c : Fin (l + 1) → F[X], (∀ t, (c t).degree < k) ∧
      ∀ (β : F) (p : F[X]), p.degree < k → (curveDiff pt u β p).card ≤ e → p = ∑ t : Fin (l + 1), C (β ^ (t : Nat)) * c t := by
  classical
  obtain ⟨J, -, hJ⟩ := exists_subset_card_eq (s := (univ : Finset ι)) (show 2 * e + k ≤ univ.card by rwa [card_univ])
  obtain ⟨A, B, R, hA, hB, hR, hRA, hAB, hzero⟩ := welchCurve_polys J pt hpt u hJ
  choose! P hPd hPe using hnear
  have hdec : ∀ β ∈ T, A β * P β = B β := by
    intro β hβ
    rw [← sub_eq_zero]
    refine eq_zero_of_degree_lt_of_eval_finset_eq_zero ((J \ curveDiff pt u β (P β)).image pt) ?_ ?_
    · rw [card_image_of_injective _ hpt]
      have h1 : e + k ≤ (J \ curveDiff pt u β (P β)).card := by
        have h2 := le_card_sdiff (curveDiff pt u β (P β)) J
        have h3 := hPe β hβ
        omega
      refine lt_of_lt_of_le ?_ (show ((e + k : Nat) : WithBot Nat) ≤ _ by exact_mod_cast h1)
      refine lt_of_le_of_lt (degree_sub_le _ _) (max_lt ?_ (hB β))
      by_cases h0 : A β = 0
      · rw [h0, zero_mul, degree_zero]; exact WithBot.bot_lt_coe _
      by_cases h0' : P β = 0
      · rw [h0', mul_zero, degree_zero]; exact WithBot.bot_lt_coe _
      have h4 := hA β
      have h5 := hPd β hβ
      rw [degree_eq_natDegree h0] at h4
      rw [degree_eq_natDegree h0'] at h5
      rw [degree_mul, degree_eq_natDegree h0, degree_eq_natDegree h0']
      have h6 : (A β).natDegree < e + 1 := by exact_mod_cast h4
      have h7 : (P β).natDegree < k := by exact_mod_cast h5
      exact_mod_cast (by omega : (A β).natDegree + (P β).natDegree < e + k)
    · intro x hx
      obtain ⟨i, hi, rfl⟩ := mem_image.1 hx
      obtain ⟨hiJ, hid⟩ := mem_sdiff.1 hi
      have hid' : curveAt u β i = (P β).eval (pt i) := by
        by_contra hne
        exact hid (mem_filter.2 ⟨mem_univ _, hne⟩)
      rw [eval_sub, eval_mul, ← hid', hAB i hiJ β, sub_self]
  obtain ⟨J1, hJ1, hJ1c⟩ := exists_subset_card_eq (s := J.filter fun i => R i ≠ 0) (n := e + k) (by
    have h1 := hzero (J.filter fun i => R i = 0) (fun i hi => (mem_filter.1 hi).2)
    have h2 := card_filter_add_card_filter_not (s := J) (fun i => R i = 0)
    simp only [ne_eq]
    omega)
  let D : Finset F := J1.biUnion fun i => (R i).roots.toFinset
  have hD : D.card ≤ e * l * (e + k) := by
    refine (card_biUnion_le_card_mul _ _ (e * l) fun i hi => ?_).trans (by rw [hJ1c, mul_comm])
    have hi' := (mem_filter.1 (hJ1 hi)).2
    have h1 := hR i
    rw [degree_eq_natDegree hi'] at h1
    have h2 : (R i).natDegree < e * l + 1 := by exact_mod_cast h1
    have h3 := Multiset.toFinset_card_le (R i).roots
    have h4 := card_roots' (R i)
    omega
  have hgood : ∀ β ∈ T \ D, ∀ i ∈ J1, curveAt u β i = (P β).eval (pt i) := by
    intro β hβ i hi
    obtain ⟨hβT, hβD⟩ := mem_sdiff.1 hβ
    obtain ⟨hiJ, hi'⟩ := mem_filter.1 (hJ1 hi)
    have h1 : (R i).eval β ≠ 0 := by
      intro h0
      exact hβD (mem_biUnion.2 ⟨i, hi, by rw [Multiset.mem_toFinset, mem_roots hi']; exact h0⟩)
    rw [hRA] at h1
    have h2 := hAB i hiJ β
    rw [← hdec β hβT, eval_mul] at h2
    exact mul_left_cancel₀ h1 h2
  -- interpolate through `l + 1` of the remaining challenges
  obtain ⟨S, hS, hSc⟩ := exists_subset_card_eq (s := T \ D) (n := l + 1) (by
    have := le_card_sdiff D T
    omega)
  let c : Fin (l + 1) → F[X] := fun t => ∑ β ∈ S, C ((Lagrange.basis S id β).coeff t) * P β
  have hmul : ∀ (a : F) (q : F[X]), q.degree < k → (C a * q).degree < k := fun a q hq =>
    lt_of_le_of_lt (by rw [← smul_eq_C_mul]; exact degree_smul_le a q) hq
  have hcd : ∀ t, (c t).degree < k := by
    intro t
    refine mem_degreeLT.1 (Submodule.sum_mem _ fun β hβ => mem_degreeLT.2 ?_)
    exact hmul _ _ (hPd β (mem_sdiff.1 (hS hβ)).1)
  have hcu : ∀ i ∈ J1, ∀ t, (c t).eval (pt i) = u t i := by
    intro i hi t
    have h1 : (ofCoeffs fun t => u t i) = Lagrange.interpolate S id fun β => curveAt u β i := by
      refine Lagrange.eq_interpolate_of_eval_eq _ Function.injective_id.injOn ?_ ?_
      · rw [hSc]; exact ofCoeffs_degree _
      · intro β _
        exact curveAt_eval u β i
    have h2 := congrArg (fun q => q.coeff (t : Nat)) h1
    simp only [ofCoeffs_coeff, Lagrange.interpolate_apply, finsetSum_coeff, coeff_C_mul] at h2
    rw [h2, eval_finsetSum]
    refine sum_congr rfl fun β hβ => ?_
    rw [eval_mul, eval_C, hgood β (hS hβ) i hi, mul_comm]
  refine ⟨c, hcd, fun β p hp hpe => ?_⟩
  rw [← sub_eq_zero]
  refine eq_zero_of_degree_lt_of_eval_finset_eq_zero ((J1 \ curveDiff pt u β p).image pt) ?_ ?_
  · rw [card_image_of_injective _ hpt]
    have h1 : k ≤ (J1 \ curveDiff pt u β p).card := by
      have h2 := le_card_sdiff (curveDiff pt u β p) J1
      omega
    refine lt_of_lt_of_le ?_ (show ((k : Nat) : WithBot Nat) ≤ _ by exact_mod_cast h1)
    refine lt_of_le_of_lt (degree_sub_le _ _) (max_lt hp ?_)
    exact mem_degreeLT.1 (Submodule.sum_mem _ fun t _ => mem_degreeLT.2 (hmul _ _ (hcd t)))
  · intro x hx
    obtain ⟨i, hi, rfl⟩ := mem_image.1 hx
    obtain ⟨hiJ, hid⟩ := mem_sdiff.1 hi
    have hid' : curveAt u β i = p.eval (pt i) := by
      by_contra hne
      exact hid (mem_filter.2 ⟨mem_univ _, hne⟩)
    rw [eval_sub, ← hid', eval_finsetSum, curveAt, sub_eq_zero]
    refine sum_congr rfl fun t _ => ?_
    rw [eval_mul, eval_C, hcu i hiJ]

/-- But for few challenges, a word of the curve that is within `e` positions of the code agrees with the curve of some
codewords in every component, wherever it agrees with the code. -/
theorem curve_close [Fintype F] (pt : ι → F) (hpt : Function.Injective pt) {k e l : Nat} (hk : 2 * e + k ≤ Fintype.card ι)
    (h1 : 0 < k) (u : Fin (l + 1) → ι → F) : ∃ bad : Finset F, bad.card ≤ e * l * (e + k) + l ∧
      ∀ β, β ∉ bad → ∀ p : F[X], p.degree < k → (curveDiff pt u β p).card ≤ e →
        ∃ c : Fin (l + 1) → F[X], (∀ t, (c t).degree < k) ∧ ∀ i, i ∉ curveDiff pt u β p → ∀ t, u t i = (c t).eval (pt i) := by
  classical
  let near : Finset F := univ.filter fun β => ∃ p : F[X], p.degree < k ∧ (curveDiff pt u β p).card ≤ e
  by_cases hn : near.card ≤ e * l * (e + k) + l
  · refine ⟨near, hn, fun β hβ p hp hc => ?_⟩
    exact absurd (mem_filter.2 ⟨mem_univ _, p, hp, hc⟩) hβ
  push Not at hn
  have hle : e * l ≤ e * l * (e + k) := Nat.le_mul_of_pos_right _ (by omega)
  obtain ⟨c, hcd, hc⟩ := curve_half pt hpt hk u near hn (fun β hβ => (mem_filter.1 hβ).2)
  -- the positions at which a component differs
  let q : ι → F[X] := fun i => ofCoeffs fun t : Fin (l + 1) => u t i - (c t).eval (pt i)
  have hq : ∀ i β, (q i).eval β = curveAt u β i - (∑ t : Fin (l + 1), C (β ^ (t : Nat)) * c t).eval (pt i) := by
    intro i β
    rw [ofCoeffs_eval, curveAt, eval_finsetSum, ← sum_sub_distrib]
    refine sum_congr rfl fun t _ => ?_
    rw [eval_mul, eval_C]
    ring
  let E : Finset ι := univ.filter fun i => q i ≠ 0
  have hroots : ∀ i ∈ E, (q i).roots.toFinset.card ≤ l := by
    intro i hi
    have h0 := (mem_filter.1 hi).2
    have h1 : (q i).degree < ((l + 1 : Nat) : WithBot Nat) := ofCoeffs_degree _
    rw [degree_eq_natDegree h0] at h1
    have h2 : (q i).natDegree < l + 1 := by exact_mod_cast h1
    have h3 := Multiset.toFinset_card_le (q i).roots
    have h4 := card_roots' (q i)
    omega
  -- there are at most `e` of them
  have hE : E.card ≤ e := by
    by_contra hcon
    push Not at hcon
    obtain ⟨E', hE', hE'c⟩ := exists_subset_card_eq (s := E) (n := e + 1) hcon
    have hsub : near ⊆ E'.biUnion fun i => (q i).roots.toFinset := by
      intro β hβ
      obtain ⟨p, hp, hpe⟩ := (mem_filter.1 hβ).2
      have he := hc β p hp hpe
      have h1 : (E' \ curveDiff pt u β p).Nonempty := by
        rw [← card_pos]
        have := le_card_sdiff (curveDiff pt u β p) E'
        omega
      obtain ⟨i, hi⟩ := h1
      obtain ⟨hiE, hid⟩ := mem_sdiff.1 hi
      refine mem_biUnion.2 ⟨i, hiE, ?_⟩
      rw [Multiset.mem_toFinset, mem_roots (mem_filter.1 (hE' hiE)).2, IsRoot, hq, ← he, sub_eq_zero]
      by_contra hne
      exact hid (mem_filter.2 ⟨mem_univ _, hne⟩)
    have h1 := card_le_card hsub
    have h2 := card_biUnion_le_card_mul E' (fun i => (q i).roots.toFinset) l fun i hi => hroots i (hE' hi)
    rw [hE'c, Nat.succ_mul] at h2
    omega
  refine ⟨E.biUnion fun i => (q i).roots.toFinset, ?_, fun β hβ p hp hpe => ⟨c, hcd, fun i hi t => ?_⟩⟩
  · have h2 := card_biUnion_le_card_mul E (fun i => (q i).roots.toFinset) l hroots
    have h3 := Nat.mul_le_mul_right l hE
    omega
  · have he := hc β p hp hpe
    have h1 : curveAt u β i = p.eval (pt i) := by
      by_contra hne
      exact hi (mem_filter.2 ⟨mem_univ _, hne⟩)
    have h0 : q i = 0 := by
      by_contra h0
      refine hβ (mem_biUnion.2 ⟨i, mem_filter.2 ⟨mem_univ _, h0⟩, ?_⟩)
      rw [Multiset.mem_toFinset, mem_roots h0, IsRoot, hq, ← he, h1, sub_self]
    exact sub_eq_zero.1 (ofCoeffs_zero h0 t)

end TapStark.Fri
