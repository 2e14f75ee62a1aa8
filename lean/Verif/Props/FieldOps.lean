import Verif.Proofs.FieldOps
import Verif.Proofs.Rou
import Verif.Props.ScriptHelper

/-
Properties C55, C57 and C76: the field operations of the expression compiler.
-/

namespace TapStark

open Stark (BB4 asBase4 mk4 asBase4_mk4 exists_mk4 mk4_add mk4_sub mk4_mul mk4_neg mk4_base)

variable {cfg : Cfg} {L : U31Lib}

theorem enc_base (x : BB) : (FVal.base x).enc = [encB x] := rfl
theorem enc_ext (x : BB4) : (FVal.ext x).enc = encE x := rfl

theorem FVal.length_enc (x : FVal) : x.enc.length = x.size := by
  cases x with
  | base x => rfl
  | ext x => exact length_encE x

/-- A value of either kind is determined by its size and its value. -/
theorem FVal.ext_iff' {x y : FVal} (hs : x.size = y.size) (hv : x.val = y.val) : x = y := by
  cases x <;> cases y <;> simp [FVal.size] at hs
  · rw [(algebraMap BB BB4).injective hv]
  · exact congrArg _ hv

theorem does_roll4 (y : BB4) (b : Elem) : Does cfg [.num 4, .roll] (encE y ++ [b]) (b :: encE y) := by
  intro m a c ops h
  obtain ⟨y0, y1, y2, y3, rfl⟩ := exists_mk4 y
  rw [encE_mk4]
  sexec

/-! ### C55 -/

/-- C55, addition: for every mix of base and extension operands the script leaves `lhs + rhs`, as a base element only
if both are. -/
theorem C55_add (hL : L.Ok cfg) (x y : FVal) :
    ∃ r : FVal, r.size = max x.size y.size ∧ r.val = x.val + y.val ∧
      Does cfg (addScript L x.size y.size) (y.enc ++ x.enc) r.enc := by
  cases x with
  | base x =>
    cases y with
    | base y => exact ⟨.base (x + y), rfl, map_add _ _ _, hL.add x y⟩
    | ext y =>
      refine ⟨.ext (y + algebraMap BB BB4 x), rfl, add_comm _ _, ?_⟩
      exact (does_roll4 y (encB x)).seq (hL.extAddU31 y x)
  | ext x =>
    cases y with
    | base y => exact ⟨.ext (x + algebraMap BB BB4 y), rfl, rfl, hL.extAddU31 x y⟩
    | ext y => exact ⟨.ext (x + y), rfl, rfl, hL.extAdd x y⟩

/-- C55, subtraction. -/
theorem C55_sub (hL : L.Ok cfg) (x y : FVal) :
    ∃ r : FVal, r.size = max x.size y.size ∧ r.val = x.val - y.val ∧
      Does cfg (subScript L x.size y.size) (y.enc ++ x.enc) r.enc := by
  cases x with
  | base x =>
    cases y with
    | base y => exact ⟨.base (x - y), rfl, map_sub _ _ _, hL.sub x y⟩
    | ext y =>
      refine ⟨.ext (algebraMap BB BB4 x - y), rfl, rfl, ?_⟩
      exact (does_roll4 y (encB x)).seq (hL.subU31Ext y x)
  | ext x =>
    cases y with
    | base y => exact ⟨.ext (x - algebraMap BB BB4 y), rfl, rfl, hL.extSubU31 x y⟩
    | ext y => exact ⟨.ext (x - y), rfl, rfl, hL.extSub x y⟩

/-- C55, multiplication. -/
theorem C55_mul (hL : L.Ok cfg) (x y : FVal) :
    ∃ r : FVal, r.size = max x.size y.size ∧ r.val = x.val * y.val ∧
      Does cfg (mulScript L x.size y.size) (y.enc ++ x.enc) r.enc := by
  cases x with
  | base x =>
    cases y with
    | base y => exact ⟨.base (x * y), rfl, map_mul _ _ _, hL.mul x y⟩
    | ext y =>
      refine ⟨.ext (y * algebraMap BB BB4 x), rfl, mul_comm _ _, ?_⟩
      exact (does_roll4 y (encB x)).seq (hL.extMulU31 y x)
  | ext x =>
    cases y with
    | base y => exact ⟨.ext (x * algebraMap BB BB4 y), rfl, rfl, hL.extMulU31 x y⟩
    | ext y => exact ⟨.ext (x * y), rfl, rfl, hL.extMul x y⟩

/-- C55 with the scripts of the repository: `5 - 7·X` in the extension field. -/
theorem C55_instance (cfg : Cfg) (m a : List Elem) :
    run cfg (subScript (repoLib 2013265921) 1 4)
      ⟨[num 0, num 7, num 0, num 0, num 5] ++ m, a, []⟩ = some ⟨[num 5, num 2013265914, num 0, num 0] ++ m, a, []⟩ := by
  obtain ⟨r, hs, hv, hd⟩ := C55_sub (repoLib_ok cfg) (.base 5) (.ext (mk4 0 7 0 0))
  have hr : r = .ext (mk4 5 (-7) 0 0) := by
    refine FVal.ext_iff' (hs.trans rfl) (hv.trans ?_)
    show algebraMap BB BB4 5 - mk4 0 7 0 0 = mk4 5 (-7) 0 0
    rw [mk4_base, mk4_sub]
    congr 1
  subst hr
  have := hd.run m a
  rw [enc_ext, enc_ext, encE_mk4, encE_mk4, enc_base] at this
  exact this

/-! ### C76 -/

/-- C76: negation, doubling and squaring. -/
theorem C76_unary (hL : L.Ok cfg) (x : FVal) :
    (∃ r : FVal, r.size = x.size ∧ r.val = -x.val ∧ Does cfg (negScript L x.size) x.enc r.enc) ∧
    (∃ r : FVal, r.size = x.size ∧ r.val = 2 * x.val ∧ Does cfg (doubleScript L x.size) x.enc r.enc) ∧
    (∃ r : FVal, r.size = x.size ∧ r.val = x.val ^ 2 ∧ Does cfg (squareScript L x.size) x.enc r.enc) := by
  cases x with
  | base x =>
    refine ⟨⟨.base (-x), rfl, map_neg _ _, hL.neg x⟩, ⟨.base (x + x), rfl, ?_, hL.double x⟩,
      ⟨.base (x * x), rfl, ?_, ?_⟩⟩
    · rw [two_mul]; exact map_add _ _ _
    · rw [sq]; exact map_mul _ _ _
    · have h1 : Does cfg [.dup] [encB x] [encB x, encB x] := by
        intro m a c ops h
        sexec
      exact h1.seq (hL.mul x x)
  | ext x =>
    refine ⟨⟨.ext (-x), rfl, rfl, hL.extNeg x⟩, ⟨.ext (x + x), rfl, (two_mul _).symm, hL.extDouble x⟩,
      ⟨.ext (x * x), rfl, (sq _).symm, ?_⟩⟩
    have h1 : Does cfg op4dup (encE x) (encE x ++ encE x) := by
      intro m a c ops h
      obtain ⟨x0, x1, x2, x3, rfl⟩ := exists_mk4 x
      rw [encE_mk4]
      exact run_op4dup h
    exact h1.seq (hL.extMul x x)

theorem valueExpN_does (hL : L.Ok cfg) : ∀ (n : Nat) (x : FVal), ∃ r : FVal, r.size = x.size ∧
    r.val = x.val ^ (2 ^ n) ∧ Does cfg (valueExpN L x.size n) x.enc r.enc := by
  intro n
  induction n with
  | zero => intro x; exact ⟨x, rfl, by simp, Does.nil⟩
  | succ n ih =>
    intro x
    obtain ⟨y, hs, hv, hd⟩ := (C76_unary hL x).2.2
    obtain ⟨r, hs', hv', hd'⟩ := ih y
    refine ⟨r, hs'.trans hs, ?_, ?_⟩
    · rw [hv', hv, ← pow_mul, pow_succ, Nat.mul_comm]
    · rw [valueExpN, emitN_succ]
      rw [hs] at hd'
      exact hd.seq hd'

/-- C76: constant powers, for exponents that are powers of two; other exponents are refused at generation. -/
theorem C76_power (hL : L.Ok cfg) (x : FVal) (n : Nat) :
    (∀ k, n = 2 ^ k → ∃ p, ∃ r : FVal, expConstScript L x.size n = some p ∧ r.size = x.size ∧ r.val = x.val ^ n ∧
      Does cfg p x.enc r.enc) ∧
    ((∀ k, n ≠ 2 ^ k) → expConstScript L x.size n = none) := by
  constructor
  · rintro k rfl
    obtain ⟨r, hs, hv, hd⟩ := valueExpN_does hL k x
    refine ⟨_, r, ?_, hs, hv, hd⟩
    rw [expConstScript, log2StrictUsize, Nat.log2_two_pow, if_pos rfl]
    rfl
  · intro h
    rw [expConstScript, log2StrictUsize, if_neg fun e => h _ e.symm]
    rfl

/-- C76: equality of two values of the same size: the checking form passes exactly if they are equal. -/
theorem C76_equalverify (hL : L.Ok cfg) (x y : FVal) (hs : x.size = y.size) :
    (x = y → Does cfg (equalVerifyScript L x.size) (y.enc ++ x.enc) []) ∧
    (x ≠ y → Fails cfg (equalVerifyScript L x.size) (y.enc ++ x.enc)) := by
  cases x with
  | base x =>
    cases y with
    | ext y => simp [FVal.size] at hs
    | base y =>
      constructor
      · intro e m a c ops h
        cases e
        show run cfg (.equalverify :: ops) ⟨encB x :: encB x :: m, a, c⟩ = _
        rw [run_equalverify _ _ h, if_pos rfl]; rfl
      · intro e m a c ops h
        show run cfg (.equalverify :: ops) ⟨encB y :: encB x :: m, a, c⟩ = _
        rw [run_equalverify _ _ h, if_neg (fun h => e (by rw [encB_inj h]))]
  | ext x =>
    cases y with
    | base y => simp [FVal.size] at hs
    | ext y =>
      constructor
      · intro e
        cases e
        exact hL.extEqualverify _ _ (length_encE x) (length_encE x) rfl
      · intro e
        exact hL.extEqualverify_fails _ _ (length_encE x) (length_encE y) fun h => e (by rw [encE_inj h])

/-- C76: equality as a value: the base form leaves 1 or 0, the extension form leaves 1 or makes the script fail. -/
theorem C76_equal (hL : L.Ok cfg) :
    (∀ x y : BB, Does cfg (equalScript L 1) [encB y, encB x] [ofBool (decide (x = y))]) ∧
    (∀ x : BB4, Does cfg (equalScript L 4) (encE x ++ encE x) [num 1]) ∧
    (∀ x y : BB4, x ≠ y → Fails cfg (equalScript L 4) (encE y ++ encE x)) := by
  refine ⟨?_, ?_, ?_⟩
  · intro x y m a c ops h
    show run cfg (.equal :: ops) ⟨encB y :: encB x :: m, a, c⟩ = _
    rw [run_equal _ _ h]
    by_cases e : x = y
    · subst e; simp
    · have : encB y ≠ encB x := fun h => e (encB_inj h).symm
      simp [e, this]
  · intro x
    have h1 := hL.extEqualverify (encE x) (encE x) (length_encE x) (length_encE x) rfl
    have h2 : Does cfg [.num 1] [] [num 1] := fun m a c ops h => run_num _ h
    exact h1.seq h2
  · intro x y e m a c ops h
    have := hL.extEqualverify_fails (encE x) (encE y) (length_encE x) (length_encE y) fun h => e (encE_inj h)
    show run cfg (L.extEqualverify ++ [.num 1] ++ ops) _ = none
    rw [List.append_assoc]
    exact this m a c _ h

/-- C76: a number below `2^31` becomes the field element it denotes, for a base operand. -/
theorem C76_num_to_field (hL : L.Ok cfg) (x : Nat) (hx : x < 2 ^ 31) :
    Does cfg (numToFieldScript L 1) [num x] [encB (x : BB)] ∧
    Does cfg (numToFieldScript L 4) [num x] (encE (algebraMap BB BB4 (x : BB))) := by
  have hs : SubReduces cfg 0x78000001 L.sub := fun x m a c ops hx h => hL.subReduces x hx m a c ops h
  have h1 : Does cfg (u32ToU31 0x78000001 L.sub) [num x] [encB (x : BB)] := by
    intro m a c ops h
    have := run_u32ToU31 (m := m) (a := a) (ops := ops) hs hx h hL.deadSub
    refine this.trans ?_
    unfold encB
    rw [ZMod.val_natCast]; rfl
  exact ⟨h1, h1.seq (hL.toExt _)⟩

/-- C76 is not met for an extension operand: the script reduces its lowest coordinate and leaves the other three on
the stack below the result. -/
theorem C76_violated_num_to_field_ext (hL : L.Ok cfg) (x0 x1 x2 x3 : BB) :
    Does cfg (numToFieldScript L 4) (encE (mk4 x0 x1 x2 x3))
      (encE (algebraMap BB BB4 x0) ++ [encB x1, encB x2, encB x3]) := by
  rw [encE_mk4]
  have := ((C76_num_to_field hL x0.val (Nat.lt_trans (val_lt' x0) (by decide))).2).frame [encB x1, encB x2, encB x3]
  rw [ZMod.natCast_zmod_val] at this
  exact this

/-- C76: the lowest of the four numbers of an extension element. -/
theorem C76_four_to_one (x0 x1 x2 x3 : Elem) : Does cfg fourU32ToU32Script [x0, x1, x2, x3] [x0] := by
  intro m a c ops h
  unfold fourU32ToU32Script
  sexec

/-- C76, an instance with the scripts of the repository: `3^4 = 81`. -/
theorem C76_instance (cfg : Cfg) (m a : List Elem) :
    ∃ p, expConstScript (repoLib 2013265921) 1 4 = some p ∧
      run cfg p ⟨num 3 :: m, a, []⟩ = some ⟨num 81 :: m, a, []⟩ := by
  obtain ⟨p, r, hp, hs, hv, hd⟩ := (C76_power (repoLib_ok cfg) (.base 3) 4).1 2 rfl
  refine ⟨p, hp, ?_⟩
  have hr : r = .base 81 := by
    refine FVal.ext_iff' hs (hv.trans ?_)
    show algebraMap BB BB4 3 ^ 4 = algebraMap BB BB4 81
    rw [← map_pow]
    congr 1
  subst hr
  exact hd.run m a

/-! ### C57 -/

theorem bbGen_sub {b i : Nat} (hb : b ≤ 27) (hi : i ≤ b) : bbGen (b - i) = bbGen b ^ 2 ^ i := by
  unfold bbGen
  rw [← pow_mul, ← pow_add, show 27 - (b - i) = 27 - b + i by omega]

/-- C57, base field: the script leaves `ω_b ^ i` for every index of the subgroup. -/
theorem C57_base (hL : L.Ok cfg) (b i : Nat) (hb : b ≤ 27) (hi : i < 2 ^ b) :
    ∃ p, indexToRou L bbConsts b = some p ∧ Does cfg p [num i] [encB (bbGen b ^ i)] :=
  does_indexToRou (fun x : BB => [encB x]) bbGen (fun k hk => getGenerator_base k hk)
    (fun x y => by rw [if_pos (show bbConsts.size = 1 from rfl)]; exact hL.mul x y)
    (by rw [if_pos (show bbConsts.size = 1 from rfl)]; exact hL.deadMul)
    (by simp [bbConsts, encB]; decide) hb (fun i hi => bbGen_sub hb hi) hi

/-- C57, extension field. -/
theorem C57_ext (hL : L.Ok cfg) (b i : Nat) (hb : b ≤ 27) (hi : i < 2 ^ b) :
    ∃ p, indexToRou L bb4Consts b = some p ∧ Does cfg p [num i] (encE (algebraMap BB BB4 (bbGen b ^ i))) := by
  have := does_indexToRou (cfg := cfg) (L := L) (F := bb4Consts) encE (fun b => algebraMap BB BB4 (bbGen b))
    (fun k hk => getGenerator_ext k hk)
    (fun x y => by rw [if_neg (show ¬ bb4Consts.size = 1 by decide)]; exact hL.extMul x y)
    (by rw [if_neg (show ¬ bb4Consts.size = 1 by decide)]; exact hL.deadExtMul)
    (by rw [← (algebraMap BB BB4).map_one, mk4_base, encE_mk4]; rfl) hb
    (fun i hi => by rw [bbGen_sub hb hi, map_pow]) hi
  rwa [← map_pow] at this

/-- C57: an index outside the subgroup makes the script fail, whatever the field. -/
theorem C57_out_of_range (F : FieldConsts) (b : Nat) (i : Int) (hb : b ≤ 27) (hi : i < 0 ∨ 2 ^ b ≤ i)
    (h1 : -2147483648 < i) (h2 : i < 2147483648) : ∃ p, indexToRou L F b = some p ∧ Fails cfg p [num i] :=
  fails_indexToRou hb hi h1 h2

/-- C57: the generator panics for a subgroup larger than the two-adicity of the field. -/
theorem C57_too_large (F : FieldConsts) (b : Nat) (hb : 27 < b) : indexToRou L F b = none := if_pos hb

/-- C57, an instance with the scripts of the repository: the square of the fourth root of unity is `-1`. -/
theorem C57_instance (cfg : Cfg) (m a : List Elem) :
    ∃ p, indexToRou (repoLib 2013265921) bbConsts 2 = some p ∧
      run cfg p ⟨num 2 :: m, a, []⟩ = some ⟨num 2013265920 :: m, a, []⟩ := by
  obtain ⟨p, hp, hd⟩ := C57_base (repoLib_ok cfg) 2 2 (by decide) (by decide)
  refine ⟨p, hp, (hd.run m a).trans ?_⟩
  have : bbGen 2 ^ 2 = -1 := by
    rw [← bbGen_twoAdic.one, ← bbGen_twoAdic.sq 1 (by decide)]
  rw [this]; rfl

end TapStark
