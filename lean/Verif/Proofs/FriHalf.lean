import Verif.Proofs.FriSound
import Mathlib.LinearAlgebra.FiniteDimensional.Lemmas
import Mathlib.LinearAlgebra.Dimension.Constructions

/-! Proximity of lines of words to a Reed-Solomon code up to half of its distance.

The decoding equation of Berlekamp and Welch is solved over polynomials in the challenge: `2e + k` positions and
`(e + 1)² + (e + k)(e + 2)` coefficients, one more than there are equations. -/

set_option linter.unusedSectionVars false

namespace TapStark.Fri

open Polynomial Finset

variable {F : Type} [Field F] [DecidableEq F]

/-- The polynomial with the given coefficients. -/
noncomputable def ofCoeffs {m : Nat} (a : Fin m → F) : F[X] := ∑ j : Fin m, C (a j) * X ^ (j : Nat)

theorem ofCoeffs_eval {m : Nat} (a : Fin m → F) (x : F) : (ofCoeffs a).eval x = ∑ j : Fin m, a j * x ^ (j : Nat) := by
  simp [ofCoeffs, eval_finsetSum]

theorem ofCoeffs_degree {m : Nat} (a : Fin m → F) : (ofCoeffs a).degree < m := by
  refine mem_degreeLT.1 (Submodule.sum_mem _ fun j _ => mem_degreeLT.2 ?_)
  exact lt_of_le_of_lt (degree_C_mul_X_pow_le _ _) (by exact_mod_cast j.2)

theorem ofCoeffs_coeff {m : Nat} (a : Fin m → F) (j : Fin m) : (ofCoeffs a).coeff j = a j := by
  rw [ofCoeffs, finsetSum_coeff, Finset.sum_eq_single j]
  · simp
  · intro i _ hij
    rw [coeff_C_mul_X_pow, if_neg]
    exact fun h => hij (Fin.ext h.symm)
  · simp

theorem ofCoeffs_zero {m : Nat} {a : Fin m → F} (h : ofCoeffs a = 0) (j : Fin m) : a j = 0 := by
  rw [← ofCoeffs_coeff a j, h, coeff_zero]

/-- The left side of the equations: the coefficient of `Z^t` of `A(x_i, Z) (u0 i + Z u1 i) - B(x_i, Z)`. -/
noncomputable def welch {ι : Type} (J : Finset ι) (pt u0 u1 : ι → F) (e k : Nat) :
    ((Fin (e + 1) × Fin (e + 1) → F) × (Fin (e + k) × Fin (e + 2) → F)) →ₗ[F] ({i // i ∈ J} × Fin (e + 2) → F) where
  toFun ab it := (if h : (it.2 : Nat) < e + 1 then (∑ j : Fin (e + 1), ab.1 (j, ⟨it.2, h⟩) * pt it.1 ^ (j : Nat)) * u0 it.1 else 0)
    + (if h : 0 < (it.2 : Nat) then (∑ j : Fin (e + 1), ab.1 (j, ⟨it.2 - 1, by omega⟩) * pt it.1 ^ (j : Nat)) * u1 it.1 else 0)
    - ∑ j : Fin (e + k), ab.2 (j, it.2) * pt it.1 ^ (j : Nat)
  map_add' x y := by
    funext it
    simp only [Prod.fst_add, Prod.snd_add, Pi.add_apply, add_mul, sum_add_distrib]
    split <;> split <;> ring
  map_smul' c x := by
    funext it
    simp only [Prod.smul_fst, Prod.smul_snd, Pi.smul_apply, smul_eq_mul, RingHom.id_apply, mul_assoc, ← mul_sum]
    split <;> split <;> ring

/-- The equations have a solution that is not zero. -/
theorem welch_solution {ι : Type} (J : Finset ι) (pt u0 u1 : ι → F) {e k : Nat} (hJ : J.card = 2 * e + k) :
    ∃ ab, ab ≠ 0 ∧ welch J pt u0 u1 e k ab = 0 := by
  have h := LinearMap.ker_ne_bot_of_finrank_lt (f := welch J pt u0 u1 e k) (by
    rw [Module.finrank_prod, Module.finrank_fintype_fun_eq_card, Module.finrank_fintype_fun_eq_card,
      Module.finrank_fintype_fun_eq_card]
    simp only [Fintype.card_prod, Fintype.card_fin, Fintype.card_coe, hJ]
    nlinarith)
  obtain ⟨ab, h1, h2⟩ := (Submodule.ne_bot_iff _).1 h
  exact ⟨ab, h2, LinearMap.mem_ker.1 h1⟩

/-- Two families of polynomials, of degree at most `e` in either variable and of degree below `e + k`, that solve the
decoding equation for every challenge. -/
theorem welch_polys {ι : Type} [DecidableEq ι] (J : Finset ι) (pt : ι → F) (hpt : Function.Injective pt) (u0 u1 : ι → F)
    {e k : Nat} (hJ : J.card = 2 * e + k) :
    ∃ (A B : F → F[X]) (R : ι → F[X]), (∀ β, (A β).degree < ((e + 1 : Nat) : WithBot Nat)) ∧
      (∀ β, (B β).degree < ((e + k : Nat) : WithBot Nat)) ∧
      (∀ i, (R i).degree < ((e + 1 : Nat) : WithBot Nat)) ∧ (∀ i β, (R i).eval β = (A β).eval (pt i)) ∧
      (∀ i ∈ J, ∀ β, (A β).eval (pt i) * (u0 i + β * u1 i) = (B β).eval (pt i)) ∧
      ∀ J0 : Finset ι, (∀ i ∈ J0, R i = 0) → J0.card ≤ e := by
  obtain ⟨⟨a, b⟩, hne, hsol⟩ := welch_solution J pt u0 u1 hJ
  refine ⟨fun β => ofCoeffs fun j => ∑ t : Fin (e + 1), a (j, t) * β ^ (t : Nat),
    fun β => ofCoeffs fun j => ∑ t : Fin (e + 2), b (j, t) * β ^ (t : Nat),
    fun i => ofCoeffs fun t => ∑ j : Fin (e + 1), a (j, t) * pt i ^ (j : Nat),
    fun β => ofCoeffs_degree _, fun β => ofCoeffs_degree _, fun i => ofCoeffs_degree _, ?_, ?_, ?_⟩
  · intro i β
    rw [ofCoeffs_eval, ofCoeffs_eval]
    simp only [sum_mul]
    rw [sum_comm]
    exact sum_congr rfl fun _ _ => sum_congr rfl fun _ _ => by ring
  · intro i hi β
    have hs : ∀ t : Fin (e + 2), ∑ j : Fin (e + k), b (j, t) * pt i ^ (j : Nat) =
        (if h : (t : Nat) < e + 1 then (∑ j : Fin (e + 1), a (j, ⟨t, h⟩) * pt i ^ (j : Nat)) * u0 i else 0)
        + (if h : 0 < (t : Nat) then (∑ j : Fin (e + 1), a (j, ⟨t - 1, by omega⟩) * pt i ^ (j : Nat)) * u1 i else 0) := by
      intro t
      have := congrFun hsol (⟨i, hi⟩, t)
      exact (sub_eq_zero.1 this).symm
    rw [ofCoeffs_eval, ofCoeffs_eval]
    have hB : ∑ j : Fin (e + k), (∑ t : Fin (e + 2), b (j, t) * β ^ (t : Nat)) * pt i ^ (j : Nat) =
        ∑ t : Fin (e + 2), (∑ j : Fin (e + k), b (j, t) * pt i ^ (j : Nat)) * β ^ (t : Nat) := by
      simp only [sum_mul]
      rw [sum_comm]
      exact sum_congr rfl fun _ _ => sum_congr rfl fun _ _ => by ring
    have hA : ∑ j : Fin (e + 1), (∑ t : Fin (e + 1), a (j, t) * β ^ (t : Nat)) * pt i ^ (j : Nat) =
        ∑ t : Fin (e + 1), (∑ j : Fin (e + 1), a (j, t) * pt i ^ (j : Nat)) * β ^ (t : Nat) := by
      simp only [sum_mul]
      rw [sum_comm]
      exact sum_congr rfl fun _ _ => sum_congr rfl fun _ _ => by ring
    rw [hA, hB]
    simp only [hs, add_mul, sum_add_distrib, mul_add]
    congr 1
    · rw [Fin.sum_univ_castSucc (n := e + 1), dif_neg (by simp), zero_mul, add_zero, sum_mul]
      refine sum_congr rfl fun t _ => ?_
      rw [dif_pos (by simp only [Fin.val_castSucc]; omega)]
      simp only [Fin.val_castSucc]
      ring
    · rw [Fin.sum_univ_succ (n := e + 1), dif_neg (by simp), zero_mul, zero_add, sum_mul]
      refine sum_congr rfl fun t _ => ?_
      rw [dif_pos (by simp)]
      simp only [Fin.val_succ, Nat.add_sub_cancel, Fin.eta, pow_succ]
      ring
  · intro J0 hJ0
    by_contra hc
    push Not at hc
    have ha : ∀ j t, a (j, t) = 0 := by
      intro j t
      refine ofCoeffs_zero (a := fun j => a (j, t)) ?_ j
      refine eq_zero_of_degree_lt_of_eval_finset_eq_zero (J0.image pt) ?_ ?_
      · rw [card_image_of_injective _ hpt]
        exact lt_of_lt_of_le (ofCoeffs_degree _) (by exact_mod_cast hc)
      · intro x hx
        obtain ⟨i, hi, rfl⟩ := mem_image.1 hx
        rw [ofCoeffs_eval]
        exact ofCoeffs_zero (hJ0 i hi) t
    have hb : ∀ j t, b (j, t) = 0 := by
      intro j t
      refine ofCoeffs_zero (a := fun j => b (j, t)) ?_ j
      refine eq_zero_of_degree_lt_of_eval_finset_eq_zero (J.image pt) ?_ ?_
      · rw [card_image_of_injective _ hpt]
        exact lt_of_lt_of_le (ofCoeffs_degree _) (by exact_mod_cast (by omega : e + k ≤ J.card))
      · intro x hx
        obtain ⟨i, hi, rfl⟩ := mem_image.1 hx
        rw [ofCoeffs_eval]
        have := sub_eq_zero.1 (congrFun hsol (⟨i, hi⟩, t))
        simp only [ha, zero_mul, sum_const_zero] at this
        rw [← this]
        split <;> split <;> simp
    apply hne
    rw [Prod.mk_eq_zero]
    exact ⟨funext fun x => ha x.1 x.2, funext fun x => hb x.1 x.2⟩

variable [Fintype F] {ι : Type} [Fintype ι] [DecidableEq ι]

/-- The positions at which the word of a challenge differs from a polynomial. -/
def diffAt (pt u0 u1 : ι → F) (β : F) (p : F[X]) : Finset ι := univ.filter fun i => u0 i + β * u1 i ≠ p.eval (pt i)

/-- If for more than `e (e + k) + 1` challenges the line is within `e` positions of the code, all these codewords lie
on a line. -/
theorem line_half (pt : ι → F) (hpt : Function.Injective pt) {k e : Nat} (hk : 2 * e + k ≤ Fintype.card ι)
    (u0 u1 : ι → F) (T : Finset F) (hT : e * (e + k) + 1 < T.card)
    (hnear : ∀ β ∈ T, ∃ p : F[X], p.degree < k ∧ (diffAt pt u0 u1 β p).card ≤ e) :
    ∃ c0 c1 : F[X], c0.degree < k ∧ c1.degree < k ∧
      ∀ (β : F) (p : F[X]), p.degree < k → (diffAt pt u0 u1 β p).card ≤ e → p = c0 + C β * c1 := by
  classical
  obtain ⟨J, -, hJ⟩ := exists_subset_card_eq (s := (univ : Finset ι)) (show 2 * e + k ≤ univ.card by rwa [card_univ])
  obtain ⟨A, B, R, hA, hB, hR, hRA, hAB, hzero⟩ := welch_polys J pt hpt u0 u1 hJ
  choose! P hPd hPe using hnear
  -- the decoding equation gives the codeword
  have hdec : ∀ β ∈ T, A β * P β = B β := by
    intro β hβ
    rw [← sub_eq_zero]
    refine eq_zero_of_degree_lt_of_eval_finset_eq_zero ((J \ diffAt pt u0 u1 β (P β)).image pt) ?_ ?_
    · rw [card_image_of_injective _ hpt]
      have h1 : e + k ≤ (J \ diffAt pt u0 u1 β (P β)).card := by
        have h2 := le_card_sdiff (diffAt pt u0 u1 β (P β)) J
        have h3 := hPe β hβ
        omega
      refine lt_of_lt_of_le ?_ (show ((e + k : Nat) : WithBot Nat) ≤ _ by exact_mod_cast h1)
      refine lt_of_le_of_lt (degree_sub_le _ _) (max_lt ?_ (hB β))
      by_cases h0 : A β = 0
      · rw [h0, zero_mul, degree_zero]; exact WithBot.bot_lt_coe _
      by_cases h0' : P β = 0
      · rw [h0', mul_zero, degree_zero]; exact WithBot.bot_lt_coe _
      have h4 := hA β
      have h5 := hPd β hβ
      rw [degree_eq_natDegree h0] at h4
      rw [degree_eq_natDegree h0'] at h5
      rw [degree_mul, degree_eq_natDegree h0, degree_eq_natDegree h0']
      have h6 : (A β).natDegree < e + 1 := by exact_mod_cast h4
      have h7 : (P β).natDegree < k := by exact_mod_cast h5
      exact_mod_cast (by omega : (A β).natDegree + (P β).natDegree < e + k)
    · intro x hx
      obtain ⟨i, hi, rfl⟩ := mem_image.1 hx
      obtain ⟨hiJ, hid⟩ := mem_sdiff.1 hi
      have hid' : u0 i + β * u1 i = (P β).eval (pt i) := by
        by_contra hne
        exact hid (mem_filter.2 ⟨mem_univ _, hne⟩)
      rw [eval_sub, eval_mul, ← hid', hAB i hiJ β, sub_self]
  -- the positions at which the error locator does not vanish for all challenges
  obtain ⟨J1, hJ1, hJ1c⟩ := exists_subset_card_eq (s := J.filter fun i => R i ≠ 0) (n := e + k) (by
    have h1 := hzero (J.filter fun i => R i = 0) (fun i hi => (mem_filter.1 hi).2)
    have h2 := card_filter_add_card_filter_not (s := J) (fun i => R i = 0)
    simp only [ne_eq]
    omega)
  -- challenges with an error at one of them
  let D : Finset F := J1.biUnion fun i => (R i).roots.toFinset
  have hD : D.card ≤ e * (e + k) := by
    refine (card_biUnion_le_card_mul _ _ e fun i hi => ?_).trans (by rw [hJ1c, mul_comm])
    have hi' := (mem_filter.1 (hJ1 hi)).2
    have h1 := hR i
    rw [degree_eq_natDegree hi'] at h1
    have h2 : (R i).natDegree < e + 1 := by exact_mod_cast h1
    have h3 := Multiset.toFinset_card_le (R i).roots
    have h4 := card_roots' (R i)
    omega
  have hgood : ∀ β ∈ T \ D, ∀ i ∈ J1, u0 i + β * u1 i = (P β).eval (pt i) := by
    intro β hβ i hi
    obtain ⟨hβT, hβD⟩ := mem_sdiff.1 hβ
    obtain ⟨hiJ, hi'⟩ := mem_filter.1 (hJ1 hi)
    have h1 : (R i).eval β ≠ 0 := by
      intro h0
      exact hβD (mem_biUnion.2 ⟨i, hi, by rw [Multiset.mem_toFinset, mem_roots hi']; exact h0⟩)
    rw [hRA] at h1
    have h2 := hAB i hiJ β
    rw [← hdec β hβT, eval_mul] at h2
    exact mul_left_cancel₀ h1 h2
  obtain ⟨β1, hβ1, β2, hβ2, hne⟩ := Finset.one_lt_card.1 (show 1 < (T \ D).card by
    have := le_card_sdiff D T
    omega)
  have g1 := hgood β1 hβ1
  have g2 := hgood β2 hβ2
  have hp1 := hPd β1 (mem_sdiff.1 hβ1).1
  have hp2 := hPd β2 (mem_sdiff.1 hβ2).1
  generalize P β1 = p1 at g1 hp1
  generalize P β2 = p2 at g2 hp2
  have hd : β1 - β2 ≠ 0 := sub_ne_zero.2 hne
  have hmul : ∀ (a : F) (q : F[X]), q.degree < k → (C a * q).degree < k := fun a q hq =>
    lt_of_le_of_lt (by rw [← smul_eq_C_mul]; exact degree_smul_le a q) hq
  have hsub : ∀ q r : F[X], q.degree < k → r.degree < k → (q - r).degree < k := fun q r hq hr =>
    lt_of_le_of_lt (degree_sub_le q r) (max_lt hq hr)
  have hc1d : (C (β1 - β2)⁻¹ * (p1 - p2)).degree < k := hmul _ _ (hsub _ _ hp1 hp2)
  refine ⟨p1 - C β1 * (C (β1 - β2)⁻¹ * (p1 - p2)), C (β1 - β2)⁻¹ * (p1 - p2), hsub _ _ hp1 (hmul _ _ hc1d), hc1d,
    fun β p hp hpe => ?_⟩
  rw [← sub_eq_zero]
  refine eq_zero_of_degree_lt_of_eval_finset_eq_zero ((J1 \ diffAt pt u0 u1 β p).image pt) ?_ ?_
  · rw [card_image_of_injective _ hpt]
    have h1 : k ≤ (J1 \ diffAt pt u0 u1 β p).card := by
      have h2 := le_card_sdiff (diffAt pt u0 u1 β p) J1
      omega
    refine lt_of_lt_of_le ?_ (show ((k : Nat) : WithBot Nat) ≤ _ by exact_mod_cast h1)
    exact hsub _ _ hp (lt_of_le_of_lt (degree_add_le _ _) (max_lt (hsub _ _ hp1 (hmul _ _ hc1d)) (hmul _ _ hc1d)))
  · intro x hx
    obtain ⟨i, hi, rfl⟩ := mem_image.1 hx
    obtain ⟨hiJ, hid⟩ := mem_sdiff.1 hi
    have hid' : u0 i + β * u1 i = p.eval (pt i) := by
      by_contra hne
      exact hid (mem_filter.2 ⟨mem_univ _, hne⟩)
    simp only [eval_sub, eval_add, eval_mul, eval_C, ← hid', ← g1 i hiJ, ← g2 i hiJ]
    field_simp
    ring

/-- Up to half of the distance. -/
theorem line_close_half (pt : ι → F) (hpt : Function.Injective pt) {k e : Nat} (hk : 2 * e + k ≤ Fintype.card ι)
    (h1 : 0 < k) (u0 u1 : ι → F) : LineGap pt k e (e * (e + k) + 1) u0 u1 := by
  classical
  let near : Finset F := univ.filter fun β => ∃ p : F[X], p.degree < k ∧ (diffAt pt u0 u1 β p).card ≤ e
  by_cases hn : near.card ≤ e * (e + k) + 1
  · refine ⟨near, hn, fun β hβ p hp hc => ?_⟩
    exact absurd (mem_filter.2 ⟨mem_univ _, p, hp, hc⟩) hβ
  push Not at hn
  have hle : e ≤ e * (e + k) := Nat.le_mul_of_pos_right _ (by omega)
  obtain ⟨c0, c1, d0, d1, hline⟩ := line_half pt hpt hk u0 u1 near hn (fun β hβ => (mem_filter.1 hβ).2)
  obtain ⟨bad, hb, hbad⟩ := line_finish pt u0 u1 c0 c1 d0 d1 near (by omega) (fun β hβ => (mem_filter.1 hβ).2) hline
  exact ⟨bad, hb.trans (by omega), hbad⟩

end TapStark.Fri
