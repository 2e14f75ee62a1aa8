import Verif.Model.StarkInst
import Mathlib.Tactic.LinearCombination

/-! Coordinates of the extension field of degree four. -/

namespace TapStark.Stark

open TapStark.Fri TapStark.Pcs Polynomial

/-- The element with the given coordinates. -/
noncomputable def mk4 (a b c d : BB) : BB4 := fromBase4 [a, b, c, d]

theorem mk4_eq (a b c d : BB) : mk4 a b c d = AdjoinRoot.mk ext4Poly (C a + C b * X + C c * X ^ 2 + C d * X ^ 3) := by
  rw [mk4, fromBase4]
  simp only [Finset.sum_range_succ, Finset.sum_range_zero, List.getD_cons_zero, List.getD_cons_succ, pow_zero, one_mul,
    zero_add, map_add, map_mul, map_pow, AdjoinRoot.mk_X, AdjoinRoot.mk_C]
  have : ∀ x, algebraMap BB BB4 x = AdjoinRoot.of ext4Poly x := fun _ => rfl
  simp only [this]
  ring

theorem ext4Poly_degree : ext4Poly.degree = 4 := degree_X_pow_sub_C (by decide) _

theorem asBase4_mk4 (a b c d : BB) : asBase4 (mk4 a b c d) = [a, b, c, d] := by
  have hdeg : (C a + C b * X + C c * X ^ 2 + C d * X ^ 3 : BB[X]).degree < ext4Poly.degree := by
    rw [ext4Poly_degree]
    have h := degree_cubic_le (a := d) (b := c) (c := b) (d := a)
    rw [show C a + C b * X + C c * X ^ 2 + C d * X ^ 3 = C d * X ^ 3 + C c * X ^ 2 + C b * X + C a by ring]
    exact lt_of_le_of_lt h (by decide)
  have e : (AdjoinRoot.modByMonicHom ext4Poly_monic) (mk4 a b c d) = C a + C b * X + C c * X ^ 2 + C d * X ^ 3 := by
    rw [mk4_eq, AdjoinRoot.modByMonicHom_mk, (modByMonic_eq_self_iff ext4Poly_monic).2 hdeg]
  rw [asBase4, e]
  simp [List.range_succ, coeff_X, coeff_C, coeff_X_pow]

theorem fromBase4_asBase4 (x : BB4) : fromBase4 (asBase4 x) = x := by
  have hdeg : (AdjoinRoot.modByMonicHom ext4Poly_monic x).natDegree < 4 := by
    obtain ⟨p, rfl⟩ := AdjoinRoot.mk_surjective x
    rw [AdjoinRoot.modByMonicHom_mk]
    have h4 : ext4Poly.natDegree = 4 := natDegree_X_pow_sub_C
    rw [← h4]
    exact natDegree_modByMonic_lt _ ext4Poly_monic (by
      intro h
      rw [h, natDegree_one] at h4
      omega)
  rw [fromBase4]
  conv_rhs => rw [← AdjoinRoot.mk_leftInverse ext4Poly_monic x,
    as_sum_range' (AdjoinRoot.modByMonicHom ext4Poly_monic x) 4 hdeg, map_sum]
  refine Finset.sum_congr rfl fun e he => ?_
  have he := Finset.mem_range.1 he
  rw [← C_mul_X_pow_eq_monomial, map_mul, map_pow, AdjoinRoot.mk_X, AdjoinRoot.mk_C, mul_comm]
  congr 2
  rw [asBase4, List.getD_eq_getElem?_getD, List.getElem?_map, List.getElem?_range he]
  rfl

theorem exists_mk4 (x : BB4) : ∃ a b c d, x = mk4 a b c d := by
  exact ⟨(AdjoinRoot.modByMonicHom ext4Poly_monic x).coeff 0, (AdjoinRoot.modByMonicHom ext4Poly_monic x).coeff 1,
    (AdjoinRoot.modByMonicHom ext4Poly_monic x).coeff 2, (AdjoinRoot.modByMonicHom ext4Poly_monic x).coeff 3,
    (fromBase4_asBase4 x).symm⟩

theorem root4 : (AdjoinRoot.root ext4Poly) ^ 4 = AdjoinRoot.of ext4Poly 11 := by
  have h := AdjoinRoot.eval₂_root ext4Poly
  rw [ext4Poly, eval₂_sub, eval₂_X_pow, eval₂_C] at h
  exact sub_eq_zero.1 h

theorem mk4_of (a b c d : BB) : mk4 a b c d = AdjoinRoot.of ext4Poly a + AdjoinRoot.of ext4Poly b * AdjoinRoot.root ext4Poly +
    AdjoinRoot.of ext4Poly c * AdjoinRoot.root ext4Poly ^ 2 + AdjoinRoot.of ext4Poly d * AdjoinRoot.root ext4Poly ^ 3 := by
  rw [mk4_eq]; simp

theorem mk4_add (a b c d a' b' c' d' : BB) :
    mk4 a b c d + mk4 a' b' c' d' = mk4 (a + a') (b + b') (c + c') (d + d') := by
  simp only [mk4_of, map_add]; ring

theorem mk4_sub (a b c d a' b' c' d' : BB) :
    mk4 a b c d - mk4 a' b' c' d' = mk4 (a - a') (b - b') (c - c') (d - d') := by
  simp only [mk4_of, map_sub]; ring

theorem mk4_neg (a b c d : BB) : -mk4 a b c d = mk4 (-a) (-b) (-c) (-d) := by
  simp only [mk4_of, map_neg]; ring

theorem mk4_mul (a b c d a' b' c' d' : BB) :
    mk4 a b c d * mk4 a' b' c' d' =
      mk4 (a * a' + 11 * (b * d' + c * c' + d * b')) (a * b' + b * a' + 11 * (c * d' + d * c'))
        (a * c' + b * b' + c * a' + 11 * (d * d')) (a * d' + b * c' + c * b' + d * a') := by
  simp only [mk4_of, map_add, map_mul]
  have h := root4
  generalize AdjoinRoot.root ext4Poly = r at *
  linear_combination (exp := 1) (AdjoinRoot.of ext4Poly b * AdjoinRoot.of ext4Poly d' +
    AdjoinRoot.of ext4Poly c * AdjoinRoot.of ext4Poly c' + AdjoinRoot.of ext4Poly d * AdjoinRoot.of ext4Poly b' +
    (AdjoinRoot.of ext4Poly c * AdjoinRoot.of ext4Poly d' + AdjoinRoot.of ext4Poly d * AdjoinRoot.of ext4Poly c') * r +
    AdjoinRoot.of ext4Poly d * AdjoinRoot.of ext4Poly d' * r ^ 2) * h

theorem mk4_base (a : BB) : algebraMap BB BB4 a = mk4 a 0 0 0 := by
  rw [mk4_of]; simp

theorem mk4_inj {a b c d a' b' c' d' : BB} (h : mk4 a b c d = mk4 a' b' c' d') :
    a = a' ∧ b = b' ∧ c = c' ∧ d = d' := by
  have := congrArg asBase4 h
  rw [asBase4_mk4, asBase4_mk4] at this
  simpa using this

end TapStark.Stark
