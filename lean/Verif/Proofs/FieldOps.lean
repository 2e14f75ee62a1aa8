import Verif.Spec.FieldOps
import Verif.Proofs.Does
import Verif.Props.U31

/- The library written from the text of the repository meets the assumptions. -/

namespace TapStark

open Stark (BB4 asBase4 mk4 asBase4_mk4 exists_mk4 mk4_add mk4_sub mk4_mul mk4_neg mk4_base)

theorem encE_mk4 (a b c d : BB) : encE (mk4 a b c d) = [encB a, encB b, encB c, encB d] := by
  rw [encE, asBase4_mk4]; rfl

theorem encB_inj {x y : BB} (h : encB x = encB y) : x = y := by
  unfold encB at h
  rw [num_inj] at h
  exact ZMod.val_injective _ (by exact_mod_cast h)

theorem length_encE (x : BB4) : (encE x).length = 4 := by
  obtain ⟨a, b, c, d, rfl⟩ := exists_mk4 x
  rw [encE_mk4]; rfl

theorem encE_inj {x y : BB4} (h : encE x = encE y) : x = y := by
  obtain ⟨a, b, c, d, rfl⟩ := exists_mk4 x
  obtain ⟨a', b', c', d', rfl⟩ := exists_mk4 y
  rw [encE_mk4, encE_mk4] at h
  simp only [List.cons.injEq, and_true] at h
  rw [encB_inj h.1, encB_inj h.2.1, encB_inj h.2.2.1, encB_inj h.2.2.2]

theorem val_lt' (x : BB) : x.val < 2013265921 := ZMod.val_lt x

theorem val_sub' (x y : BB) : (x.val + 2013265921 - y.val) % 2013265921 = (x - y).val := by
  have hy := val_lt' y
  have : ((x.val + 2013265921 - y.val : Nat) : BB) = x - y := by
    rw [Nat.cast_sub (by omega), Nat.cast_add, ZMod.natCast_zmod_val, ZMod.natCast_zmod_val]
    have : ((2013265921 : Nat) : BB) = 0 := ZMod.natCast_self bbP
    rw [this, add_zero]
  rw [← this, ZMod.val_natCast]

section
variable {cfg : Cfg} {ops : List Op} {m a : List Elem} {c : List Bool}

theorem run_add_enc (x y : BB) (h : live c = true) : run cfg (u31Add 2013265921 ++ ops) ⟨encB y :: encB x :: m, a, c⟩ =
    run cfg ops ⟨encB (x + y) :: m, a, c⟩ := by
  unfold encB
  rw [run_u31Add (by decide) (val_lt' x) (val_lt' y) h, ZMod.val_add]

theorem run_sub_enc (x y : BB) (h : live c = true) : run cfg (u31Sub 2013265921 ++ ops) ⟨encB y :: encB x :: m, a, c⟩ =
    run cfg ops ⟨encB (x - y) :: m, a, c⟩ := by
  unfold encB
  rw [run_u31Sub (by decide) (val_lt' x) (val_lt' y) h, val_sub']

theorem run_mul_enc (x y : BB) (h : live c = true) : run cfg (u31Mul 2013265921 ++ ops) ⟨encB y :: encB x :: m, a, c⟩ =
    run cfg ops ⟨encB (x * y) :: m, a, c⟩ := by
  unfold encB
  rw [run_u31Mul (by decide) (val_lt' x) (Nat.lt_trans (val_lt' y) (by decide)) h, ZMod.val_mul]

theorem run_double_enc (x : BB) (h : live c = true) : run cfg (u31Double 2013265921 ++ ops) ⟨encB x :: m, a, c⟩ =
    run cfg ops ⟨encB (x + x) :: m, a, c⟩ := by
  unfold encB
  rw [run_u31Double (by decide) (val_lt' x) h, ZMod.val_add, ← two_mul]

theorem encB_zero : encB 0 = num 0 := by
  unfold encB; rw [ZMod.val_zero]; rfl

theorem encB_eleven : encB 11 = num 11 := by
  unfold encB
  have : (11 : BB).val = 11 := rfl
  rw [this]; rfl

theorem run_neg_enc (x : BB) (h : live c = true) : run cfg (negRef 2013265921 ++ ops) ⟨encB x :: m, a, c⟩ =
    run cfg ops ⟨encB (-x) :: m, a, c⟩ := by
  unfold negRef
  sexec
  rw [← encB_zero, run_sub_enc _ _ h, zero_sub]

theorem run_num11 (h : live c = true) : run cfg (.num 11 :: ops) ⟨m, a, c⟩ = run cfg ops ⟨encB 11 :: m, a, c⟩ := by
  rw [run_num _ h, encB_eleven]

theorem run_term (pre : List Elem) {i j : Nat} {x0 x1 x2 x3 y0 y1 y2 y3 xi yj : BB}
    (hi : [x0, x1, x2, x3][i]? = some xi) (hj : [y0, y1, y2, y3][j]? = some yj) (hp : pre.length ≤ 100)
    (h : live c = true) :
    run cfg (extMulTerm 2013265921 i j pre.length ++ ops) ⟨pre ++ ([encB y0, encB y1, encB y2, encB y3, encB x0, encB x1, encB x2, encB x3] ++ m), a, c⟩ =
      run cfg ops ⟨encB (xi * yj) :: (pre ++ ([encB y0, encB y1, encB y2, encB y3, encB x0, encB x1, encB x2, encB x3] ++ m)), a, c⟩ := by
  have hi4 : i < 4 := (List.getElem?_eq_some_iff.1 hi).1
  have hj4 : j < 4 := (List.getElem?_eq_some_iff.1 hj).1
  have e1 : (pre ++ ([encB y0, encB y1, encB y2, encB y3, encB x0, encB x1, encB x2, encB x3] ++ m))[4 + i + pre.length]? =
      some (encB xi) := by
    rw [List.getElem?_append_right (by omega), Nat.add_sub_cancel]
    match i, hi with
    | 0, hi => cases hi; rfl
    | 1, hi => cases hi; rfl
    | 2, hi => cases hi; rfl
    | 3, hi => cases hi; rfl
  have e2 : (encB xi :: (pre ++ ([encB y0, encB y1, encB y2, encB y3, encB x0, encB x1, encB x2, encB x3] ++ m)))[j + pre.length + 1]? =
      some (encB yj) := by
    rw [List.getElem?_cons_succ, List.getElem?_append_right (by omega), Nat.add_sub_cancel]
    match j, hj with
    | 0, hj => cases hj; rfl
    | 1, hj => cases hj; rfl
    | 2, hj => cases hj; rfl
    | 3, hj => cases hj; rfl
  unfold extMulTerm
  simp only [List.cons_append, List.nil_append]
  rw [run_num _ h, run_pick h (by omega), Int.toNat_natCast]
  simp only [List.cons_append, List.nil_append] at e1 e2
  rw [e1]
  simp only
  rw [run_num _ h, run_pick h (by omega), Int.toNat_natCast, e2]
  simp only
  rw [run_mul_enc _ _ h]

theorem run_extMulRef (x0 x1 x2 x3 y0 y1 y2 y3 : BB) (h : live c = true) :
    run cfg (extMulRef 2013265921 ++ ops) ⟨[encB y0, encB y1, encB y2, encB y3, encB x0, encB x1, encB x2, encB x3] ++ m, a, c⟩ =
      run cfg ops ⟨[encB (x0 * y0 + 11 * (x1 * y3 + x2 * y2 + x3 * y1)), encB (x0 * y1 + x1 * y0 + 11 * (x2 * y3 + x3 * y2)),
        encB (x0 * y2 + x1 * y1 + x2 * y0 + 11 * (x3 * y3)), encB (x0 * y3 + x1 * y2 + x2 * y1 + x3 * y0)] ++ m, a, c⟩ := by
  have t0 : ∀ {i j : Nat} {xi yj : BB} {a : List Elem} {ops : List Op}, [x0, x1, x2, x3][i]? = some xi →
      [y0, y1, y2, y3][j]? = some yj → run cfg (extMulTerm 2013265921 i j 0 ++ ops)
        ⟨[encB y0, encB y1, encB y2, encB y3, encB x0, encB x1, encB x2, encB x3] ++ m, a, c⟩ =
      run cfg ops ⟨encB (xi * yj) :: ([encB y0, encB y1, encB y2, encB y3, encB x0, encB x1, encB x2, encB x3] ++ m), a, c⟩ :=
    fun hi hj => run_term [] hi hj (by simp) h
  have t1 : ∀ {e : Elem} {i j : Nat} {xi yj : BB} {a : List Elem} {ops : List Op}, [x0, x1, x2, x3][i]? = some xi →
      [y0, y1, y2, y3][j]? = some yj → run cfg (extMulTerm 2013265921 i j 1 ++ ops)
        ⟨e :: ([encB y0, encB y1, encB y2, encB y3, encB x0, encB x1, encB x2, encB x3] ++ m), a, c⟩ =
      run cfg ops ⟨encB (xi * yj) :: e :: ([encB y0, encB y1, encB y2, encB y3, encB x0, encB x1, encB x2, encB x3] ++ m), a, c⟩ :=
    fun {e} _ _ _ _ _ _ hi hj => run_term [e] hi hj (by simp) h
  unfold extMulRef
  simp only [List.append_assoc]
  rw [t0 (i := 1) (j := 3) rfl rfl, t1 (i := 2) (j := 2) rfl rfl, run_add_enc _ _ h, t1 (i := 3) (j := 1) rfl rfl,
    run_add_enc _ _ h, List.singleton_append, run_num11 h, run_mul_enc _ _ h, t1 (i := 0) (j := 0) rfl rfl,
    run_add_enc _ _ h, List.singleton_append, run_toAlt _ h,
    t0 (i := 2) (j := 3) rfl rfl, t1 (i := 3) (j := 2) rfl rfl, run_add_enc _ _ h, List.singleton_append, run_num11 h,
    run_mul_enc _ _ h, t1 (i := 0) (j := 1) rfl rfl, run_add_enc _ _ h, t1 (i := 1) (j := 0) rfl rfl,
    run_add_enc _ _ h, List.singleton_append, run_toAlt _ h,
    t0 (i := 3) (j := 3) rfl rfl, List.singleton_append, run_num11 h, run_mul_enc _ _ h, t1 (i := 0) (j := 2) rfl rfl,
    run_add_enc _ _ h, t1 (i := 1) (j := 1) rfl rfl, run_add_enc _ _ h, t1 (i := 2) (j := 0) rfl rfl,
    run_add_enc _ _ h, List.singleton_append, run_toAlt _ h,
    t0 (i := 0) (j := 3) rfl rfl, t1 (i := 1) (j := 2) rfl rfl, run_add_enc _ _ h, t1 (i := 2) (j := 1) rfl rfl,
    run_add_enc _ _ h, t1 (i := 3) (j := 0) rfl rfl, run_add_enc _ _ h, List.singleton_append, run_toAlt _ h]
  sexec
  have e0 : (x1 * y3 + x2 * y2 + x3 * y1) * 11 + x0 * y0 = x0 * y0 + 11 * (x1 * y3 + x2 * y2 + x3 * y1) := by ring
  have e1 : (x2 * y3 + x3 * y2) * 11 + x0 * y1 + x1 * y0 = x0 * y1 + x1 * y0 + 11 * (x2 * y3 + x3 * y2) := by ring
  have e2 : x3 * y3 * 11 + x0 * y2 + x1 * y1 + x2 * y0 = x0 * y2 + x1 * y1 + x2 * y0 + 11 * (x3 * y3) := by ring
  rw [e0, e1, e2]

end

theorem repoLib_ok (cfg : Cfg) : U31Lib.Ok cfg (repoLib 2013265921) where
  add x y := fun m a c ops h => run_add_enc x y h
  sub x y := fun m a c ops h => run_sub_enc x y h
  mul x y := fun m a c ops h => run_mul_enc x y h
  double x := fun m a c ops h => run_double_enc x h
  neg x := fun m a c ops h => run_neg_enc x h
  extAdd x y := by
    intro m a c ops h
    obtain ⟨x0, x1, x2, x3, rfl⟩ := exists_mk4 x
    obtain ⟨y0, y1, y2, y3, rfl⟩ := exists_mk4 y
    rw [mk4_add, encE_mk4, encE_mk4, encE_mk4]
    simp only [repoLib, u31extAdd, List.cons_append, List.nil_append, List.append_assoc]
    sexec [run_add_enc]
    simp only [add_comm]
  extSub x y := by
    intro m a c ops h
    obtain ⟨x0, x1, x2, x3, rfl⟩ := exists_mk4 x
    obtain ⟨y0, y1, y2, y3, rfl⟩ := exists_mk4 y
    rw [mk4_sub, encE_mk4, encE_mk4, encE_mk4]
    simp only [repoLib, u31extSub, List.cons_append, List.nil_append, List.append_assoc]
    sexec [run_sub_enc]
  extMul x y := by
    intro m a c ops h
    obtain ⟨x0, x1, x2, x3, rfl⟩ := exists_mk4 x
    obtain ⟨y0, y1, y2, y3, rfl⟩ := exists_mk4 y
    rw [mk4_mul, encE_mk4, encE_mk4, encE_mk4]
    exact run_extMulRef x0 x1 x2 x3 y0 y1 y2 y3 h
  extDouble x := by
    intro m a c ops h
    obtain ⟨x0, x1, x2, x3, rfl⟩ := exists_mk4 x
    rw [mk4_add, encE_mk4, encE_mk4]
    simp only [repoLib, u31extDouble, List.cons_append, List.nil_append, List.append_assoc]
    sexec [run_double_enc]
  extNeg x := by
    intro m a c ops h
    obtain ⟨x0, x1, x2, x3, rfl⟩ := exists_mk4 x
    rw [mk4_neg, encE_mk4, encE_mk4]
    simp only [repoLib, extNegRef, List.cons_append, List.nil_append, List.append_assoc]
    sexec [run_neg_enc]
  extAddU31 x y := by
    intro m a c ops h
    obtain ⟨x0, x1, x2, x3, rfl⟩ := exists_mk4 x
    rw [mk4_base, mk4_add, encE_mk4, encE_mk4]
    simp only [repoLib, List.cons_append, List.nil_append, List.append_assoc]
    sexec [run_add_enc, add_zero]
  extSubU31 x y := by
    intro m a c ops h
    obtain ⟨x0, x1, x2, x3, rfl⟩ := exists_mk4 x
    rw [mk4_base, mk4_sub, encE_mk4, encE_mk4]
    simp only [repoLib, List.cons_append, List.nil_append, List.append_assoc]
    sexec [run_sub_enc, sub_zero]
  subU31Ext x y := by
    intro m a c ops h
    obtain ⟨x0, x1, x2, x3, rfl⟩ := exists_mk4 x
    rw [mk4_base, mk4_sub, encE_mk4, encE_mk4]
    simp only [repoLib, List.cons_append, List.nil_append, List.append_assoc]
    sexec [run_sub_enc, run_neg_enc, zero_sub]
  extMulU31 x y := by
    intro m a c ops h
    obtain ⟨x0, x1, x2, x3, rfl⟩ := exists_mk4 x
    rw [mk4_base, mk4_mul, encE_mk4, encE_mk4]
    simp only [repoLib, List.cons_append, List.nil_append, List.append_assoc]
    sexec [run_mul_enc]
    simp only [mul_zero, add_zero, zero_add]
  toExt x := by
    intro m a c ops h
    rw [mk4_base, encE_mk4, encB_zero]
    simp only [repoLib, List.cons_append, List.nil_append, List.append_assoc]
    sexec
  subReduces x hx := by
    intro m a c ops h
    rw [repoLib]
    simp only [List.cons_append, List.nil_append]
    rw [show ((bbP : Nat) : Int) = ((2013265921 : Nat) : Int) from rfl,
      run_u31Sub_raw (by decide) hx (Nat.le_refl 2013265921) h]
    have e : (if x < 2013265921 then x + 2013265921 - 2013265921 else x - 2013265921) = x % bbP := by
      unfold bbP
      split <;> omega
    rw [e]
  extEqualverify x y hx hy e := by
    intro m a c ops h
    subst e
    match x, hx with
    | [x0, x1, x2, x3], _ =>
      show run cfg (u31extEqualverify ++ ops) ⟨x0 :: x1 :: x2 :: x3 :: x0 :: x1 :: x2 :: x3 :: m, a, c⟩ = _
      rw [run_u31extEqualverify h, if_pos rfl]; rfl
  extEqualverify_fails x y hx hy e := by
    intro m a c ops h
    match x, hx, y, hy with
    | [x0, x1, x2, x3], _, [y0, y1, y2, y3], _ =>
      show run cfg (u31extEqualverify ++ ops) ⟨y0 :: y1 :: y2 :: y3 :: x0 :: x1 :: x2 :: x3 :: m, a, c⟩ = _
      rw [run_u31extEqualverify h, if_neg (fun h => e h.symm)]
  deadSub := skipsDead_of_balanced rfl
  deadMul := skipsDead_of_balanced (by decide +kernel)
  deadExtMul := skipsDead_of_balanced (by decide +kernel)

end TapStark
