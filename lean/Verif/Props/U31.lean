import Verif.Proofs.U31

/-
Properties C62 and C63: arithmetic in a 31-bit field, from the text of /repo/scripts/src/u31 and u31_ext.

`M` is any modulus below `2^31`; operands are canonical residues.  The interpreter fails on an operand
longer than four bytes, so a successful run never exceeds that limit.
-/

namespace TapStark

/-! ### C62 -/

/-- C62: addition leaves the canonical sum. -/
theorem C62_add (cfg : Cfg) (M x y : Nat) (m a : List Elem) (hM : M < 2 ^ 31) (hx : x < M) (hy : y < M) :
    run cfg (u31Add M) ⟨num y :: num x :: m, a, []⟩ = some ⟨num ((x + y) % M : Nat) :: m, a, []⟩ := by
  have := run_u31Add (cfg := cfg) (ops := []) (m := m) (a := a) (c := []) hM hx hy rfl
  simpa using this

/-- C62: doubling leaves the canonical double. -/
theorem C62_double (cfg : Cfg) (M x : Nat) (m a : List Elem) (hM : M < 2 ^ 31) (hx : x < M) :
    run cfg (u31Double M) ⟨num x :: m, a, []⟩ = some ⟨num ((2 * x) % M : Nat) :: m, a, []⟩ := by
  have := run_u31Double (cfg := cfg) (ops := []) (m := m) (a := a) (c := []) hM hx rfl
  simpa using this

/-- C62: subtraction leaves the canonical difference. -/
theorem C62_sub (cfg : Cfg) (M x y : Nat) (m a : List Elem) (hM : M < 2 ^ 31) (hx : x < M) (hy : y < M) :
    ∃ r < M, (r + y) % M = x ∧
      run cfg (u31Sub M) ⟨num y :: num x :: m, a, []⟩ = some ⟨num r :: m, a, []⟩ := by
  have := run_u31Sub (cfg := cfg) (ops := []) (m := m) (a := a) (c := []) hM hx hy rfl
  refine ⟨(x + M - y) % M, Nat.mod_lt _ (by omega), ?_, by simpa using this⟩
  rw [Nat.mod_add_mod, show x + M - y + y = x + M by omega, Nat.add_mod_right, Nat.mod_eq_of_lt hx]

/-- C62: multiplication leaves the canonical product; the alt stack is as it was. -/
theorem C62_mul (cfg : Cfg) (M x y : Nat) (m a : List Elem) (hM : M < 2 ^ 31) (hx : x < M) (hy : y < M) :
    run cfg (u31Mul M) ⟨num y :: num x :: m, a, []⟩ = some ⟨num (x * y % M : Nat) :: m, a, []⟩ := by
  have := run_u31Mul (cfg := cfg) (ops := []) (m := m) (a := a) (c := []) hM hx (Nat.lt_trans hy hM) rfl
  simpa using this

/-- C62: the bits of a 31-bit number, lowest bit on top. -/
theorem C62_to_bits (cfg : Cfg) (x : Nat) (m a : List Elem) (hx : x < 2 ^ 31) :
    run cfg u31ToBits ⟨num x :: m, a, []⟩ =
      some ⟨(List.range 31).map (fun k => num (x / 2 ^ k % 2 : Nat)) ++ m, a, []⟩ := by
  have := run_u31ToBits (cfg := cfg) (ops := []) (m := m) (a := a) (c := []) hx rfl
  rw [List.append_nil] at this
  exact this

/-- The BabyBear and Mersenne moduli, and operands for which every intermediate value is near the limit. -/
example : (2013265921 : Nat) < 2 ^ 31 ∧ (2147483647 : Nat) < 2 ^ 31 ∧ (2013265920 : Nat) < 2013265921 := by decide

/-- C62 on the largest operands: `(-1)·(-1) = 1` in BabyBear. -/
theorem C62_instance (cfg : Cfg) (m a : List Elem) :
    run cfg (u31Mul 2013265921) ⟨num 2013265920 :: num 2013265920 :: m, a, []⟩ = some ⟨num 1 :: m, a, []⟩ :=
  C62_mul cfg 2013265921 2013265920 2013265920 m a (by decide) (by decide) (by decide)

/-! ### The extension field operations of u31_ext/mod.rs -/

theorem run_u31extAdd {cfg : Cfg} {ops : List Op} {m a : List Elem} {c : List Bool}
    {M x0 x1 x2 x3 y0 y1 y2 y3 : Nat} (hM : M < 2147483648)
    (hx0 : x0 < M) (hx1 : x1 < M) (hx2 : x2 < M) (hx3 : x3 < M)
    (hy0 : y0 < M) (hy1 : y1 < M) (hy2 : y2 < M) (hy3 : y3 < M) (h : live c = true) :
    run cfg (u31extAdd M ++ ops)
      ⟨num y0 :: num y1 :: num y2 :: num y3 :: num x0 :: num x1 :: num x2 :: num x3 :: m, a, c⟩ =
    run cfg ops ⟨num ((y0 + x0) % M : Nat) :: num ((y1 + x1) % M : Nat) :: num ((y2 + x2) % M : Nat) ::
      num ((x3 + y3) % M : Nat) :: m, a, c⟩ := by
  unfold u31extAdd
  sexec
  rw [run_u31Add hM hy0 hx0 h]
  sexec
  rw [run_u31Add hM hy1 hx1 h]
  sexec
  rw [run_u31Add hM hy2 hx2 h]
  sexec
  rw [run_u31Add hM hx3 hy3 h]
  sexec

theorem run_u31extSub {cfg : Cfg} {ops : List Op} {m a : List Elem} {c : List Bool}
    {M x0 x1 x2 x3 y0 y1 y2 y3 : Nat} (hM : M < 2147483648)
    (hx0 : x0 < M) (hx1 : x1 < M) (hx2 : x2 < M) (hx3 : x3 < M)
    (hy0 : y0 < M) (hy1 : y1 < M) (hy2 : y2 < M) (hy3 : y3 < M) (h : live c = true) :
    run cfg (u31extSub M ++ ops)
      ⟨num y0 :: num y1 :: num y2 :: num y3 :: num x0 :: num x1 :: num x2 :: num x3 :: m, a, c⟩ =
    run cfg ops ⟨num ((x0 + M - y0) % M : Nat) :: num ((x1 + M - y1) % M : Nat) ::
      num ((x2 + M - y2) % M : Nat) :: num ((x3 + M - y3) % M : Nat) :: m, a, c⟩ := by
  unfold u31extSub
  sexec
  rw [run_u31Sub hM hx0 hy0 h]
  sexec
  rw [run_u31Sub hM hx1 hy1 h]
  sexec
  rw [run_u31Sub hM hx2 hy2 h]
  sexec
  rw [run_u31Sub hM hx3 hy3 h]
  sexec

theorem run_u31extDouble {cfg : Cfg} {ops : List Op} {m a : List Elem} {c : List Bool}
    {M x0 x1 x2 x3 : Nat} (hM : M < 2147483648)
    (hx0 : x0 < M) (hx1 : x1 < M) (hx2 : x2 < M) (hx3 : x3 < M) (h : live c = true) :
    run cfg (u31extDouble M ++ ops) ⟨num x0 :: num x1 :: num x2 :: num x3 :: m, a, c⟩ =
    run cfg ops ⟨num (2 * x0 % M : Nat) :: num (2 * x1 % M : Nat) ::
      num (2 * x2 % M : Nat) :: num (2 * x3 % M : Nat) :: m, a, c⟩ := by
  unfold u31extDouble
  simp only [List.append_assoc]
  rw [run_u31Double hM hx0 h]
  sexec
  rw [run_u31Double hM hx1 h]
  sexec
  rw [run_u31Double hM hx2 h]
  sexec
  rw [run_u31Double hM hx3 h]
  sexec

theorem run_u31extEqualverify {cfg : Cfg} {ops : List Op} {m a : List Elem} {c : List Bool}
    {x0 x1 x2 x3 y0 y1 y2 y3 : Elem} (h : live c = true) :
    run cfg (u31extEqualverify ++ ops)
      ⟨y0 :: y1 :: y2 :: y3 :: x0 :: x1 :: x2 :: x3 :: m, a, c⟩ =
    if [y0, y1, y2, y3] = [x0, x1, x2, x3] then run cfg ops ⟨m, a, c⟩ else none := by
  unfold u31extEqualverify
  by_cases h0 : x0 = y0
  · by_cases h1 : x1 = y1
    · by_cases h2 : x2 = y2
      · by_cases h3 : y3 = x3
        · subst h0 h1 h2 h3; sexec [run_equalverify, if_true]
        · subst h0 h1 h2; sexec [run_equalverify, if_true, if_neg h3]; rw [if_neg (by simp [h3])]
      · subst h0 h1; sexec [run_equalverify, if_true, if_neg h2]; rw [if_neg (by simp [Ne.symm h2])]
    · subst h0; sexec [run_equalverify, if_true, if_neg h1]; rw [if_neg (by simp [Ne.symm h1])]
  · sexec [run_equalverify, if_neg h0]; rw [if_neg (by simp [Ne.symm h0])]

/-- C62: coefficientwise addition, subtraction and doubling of extension field elements, coefficient 0
on top. -/
theorem C62_ext (cfg : Cfg) (M x0 x1 x2 x3 y0 y1 y2 y3 : Nat) (m a : List Elem) (hM : M < 2 ^ 31)
    (hx : x0 < M ∧ x1 < M ∧ x2 < M ∧ x3 < M) (hy : y0 < M ∧ y1 < M ∧ y2 < M ∧ y3 < M) :
    run cfg (u31extAdd M)
      ⟨num y0 :: num y1 :: num y2 :: num y3 :: num x0 :: num x1 :: num x2 :: num x3 :: m, a, []⟩ =
      some ⟨num ((x0 + y0) % M : Nat) :: num ((x1 + y1) % M : Nat) :: num ((x2 + y2) % M : Nat) ::
        num ((x3 + y3) % M : Nat) :: m, a, []⟩ ∧
    run cfg (u31extSub M)
      ⟨num y0 :: num y1 :: num y2 :: num y3 :: num x0 :: num x1 :: num x2 :: num x3 :: m, a, []⟩ =
      some ⟨num ((x0 + M - y0) % M : Nat) :: num ((x1 + M - y1) % M : Nat) ::
        num ((x2 + M - y2) % M : Nat) :: num ((x3 + M - y3) % M : Nat) :: m, a, []⟩ ∧
    run cfg (u31extDouble M) ⟨num x0 :: num x1 :: num x2 :: num x3 :: m, a, []⟩ =
      some ⟨num (2 * x0 % M : Nat) :: num (2 * x1 % M : Nat) ::
        num (2 * x2 % M : Nat) :: num (2 * x3 % M : Nat) :: m, a, []⟩ := by
  obtain ⟨hx0, hx1, hx2, hx3⟩ := hx
  obtain ⟨hy0, hy1, hy2, hy3⟩ := hy
  refine ⟨?_, ?_, ?_⟩
  · have := run_u31extAdd (cfg := cfg) (ops := []) (m := m) (a := a) (c := []) hM hx0 hx1 hx2 hx3 hy0 hy1 hy2 hy3 rfl
    simpa [Nat.add_comm] using this
  · have := run_u31extSub (cfg := cfg) (ops := []) (m := m) (a := a) (c := []) hM hx0 hx1 hx2 hx3 hy0 hy1 hy2 hy3 rfl
    simpa using this
  · have := run_u31extDouble (cfg := cfg) (ops := []) (m := m) (a := a) (c := []) hM hx0 hx1 hx2 hx3 rfl
    simpa using this

/-- C62: the equality check fails exactly when a coefficient differs. -/
theorem C62_ext_equalverify (cfg : Cfg) (x0 x1 x2 x3 y0 y1 y2 y3 : Elem) (m a : List Elem) :
    run cfg u31extEqualverify ⟨y0 :: y1 :: y2 :: y3 :: x0 :: x1 :: x2 :: x3 :: m, a, []⟩ =
      if [y0, y1, y2, y3] = [x0, x1, x2, x3] then some ⟨m, a, []⟩ else none := by
  have := run_u31extEqualverify (cfg := cfg) (ops := []) (m := m) (a := a) (c := [])
    (x0 := x0) (x1 := x1) (x2 := x2) (x3 := x3) (y0 := y0) (y1 := y1) (y2 := y2) (y3 := y3) rfl
  simpa using this

/-! ### C63 -/

/-- What OP_LSHIFT did before it was disabled, on numbers: `[a, b]` becomes `a` shifted left by `b` bits. -/
def ShiftsLeft (cfg : Cfg) (lshift : List Op) : Prop :=
  ∀ (x y : Nat) (m a : List Elem), y < 31 → x * 2 ^ y < 2 ^ 31 →
    run cfg lshift ⟨num y :: num x :: m, a, []⟩ = some ⟨num (x * 2 ^ y : Nat) :: m, a, []⟩

/-- C63 is violated: even if OP_LSHIFT worked, two digits `hi`, `lo` never become `hi·2^bits + lo`: the
script shifts the digit size by the digit, and leaves the result on the alt stack. -/
theorem C63_violated (cfg : Cfg) (lshift : List Op) (bits lo hi : Nat) (m a : List Elem)
    (hl : ShiftsLeft cfg lshift) (hhi : hi < 31) (hr : bits * 2 ^ hi < 2 ^ 31) (hlo : lo < 2 ^ 31) :
    run cfg (convertDigitsToU32 lshift bits 2) ⟨num lo :: num hi :: m, a, []⟩ =
      some ⟨m, num (bits * 2 ^ hi + lo : Nat) :: a, []⟩ := by
  unfold convertDigitsToU32
  have e : emitN (2 - 1) ([.num bits, .swap] ++ lshift ++ [.fromAlt, .add, .toAlt]) =
      .num bits :: .swap :: (lshift ++ [.fromAlt, .add, .toAlt]) := by simp [emitN]
  rw [e, run_toAlt _ rfl, run_num _ rfl, run_swap _ _ rfl, run_append_of (hl _ _ _ _ hhi hr)]
  generalize bits * 2 ^ hi = v at *
  have h0 : live [] = true := rfl
  sexec
  rfl

/-- A script that shifts left. -/
def lshiftRef : List Op :=
  emitN 30 [.dup, .num 0, .greaterthan, .opif, .sub1, .swap, .dup, .add, .swap, .opendif] ++ [.drop]

theorem run_lshiftLoop (cfg : Cfg) (m a : List Elem) (ops : List Op) : ∀ (n x y : Nat), y ≤ n → y < 31 →
    x * 2 ^ y < 2147483648 →
    run cfg (emitN n [.dup, .num 0, .greaterthan, .opif, .sub1, .swap, .dup, .add, .swap, .opendif] ++ ops)
      ⟨num y :: num x :: m, a, []⟩ = run cfg ops ⟨num 0 :: num (x * 2 ^ y : Nat) :: m, a, []⟩ := by
  intro n
  induction n with
  | zero => intro x y hy _ _; obtain rfl : y = 0 := by omega
            simp [emitN]
  | succ n ih =>
    intro x y hy hy2 h
    have h0 : live [] = true := rfl
    rw [emitN_succ, List.append_assoc]
    have hx : x < 2147483648 := Nat.lt_of_le_of_lt (Nat.le_mul_of_pos_right _ (Nat.two_pow_pos y)) h
    cases y with
    | zero =>
      have e : decide (((0 : Nat) : Int) > 0) = false := rfl
      sexec [e]
      exact ih x 0 (by omega) (by omega) (by simpa using hx)
    | succ y =>
      have e : decide (((y + 1 : Nat) : Int) > 0) = true := by simp
      have hx2 : 2 * x < 2147483648 := by
        rw [Nat.pow_succ] at h
        have := Nat.le_mul_of_pos_right (2 * x) (Nat.two_pow_pos y)
        rw [show x * (2 ^ y * 2) = 2 * x * 2 ^ y by rw [Nat.mul_comm (2 ^ y), ← Nat.mul_assoc, Nat.mul_comm x]] at h
        omega
      sexec [e]
      have e2 : x * 2 ^ (y + 1) = (x + x) * 2 ^ y := by
        rw [Nat.pow_succ, ← Nat.two_mul, Nat.mul_comm (2 ^ y), ← Nat.mul_assoc, Nat.mul_comm x]
      have := ih (x + x) y (by omega) (by omega) (by rw [← e2]; exact h)
      rw [e2, ← this]
      simp only [Int.natCast_add, Int.add_sub_cancel, Int.cast_ofNat_Int]

theorem lshiftRef_ok (cfg : Cfg) : ShiftsLeft cfg lshiftRef := by
  intro x y m a hy h
  rw [lshiftRef, run_lshiftLoop cfg m a [.drop] 30 x y (by omega) hy h]
  have h0 : live [] = true := rfl
  sexec

/-- C63, concretely: the digits of `0x21` read as 4-bit digits give `4·2^2 + 1 = 17`, not 33, and not on
the main stack. -/
theorem C63_violated_example (cfg : Cfg) :
    run cfg (convertDigitsToU32 lshiftRef 4 2) ⟨[num 1, num 2], [], []⟩ = some ⟨[], [num 17], []⟩ :=
  C63_violated cfg lshiftRef 4 1 2 [] [] (lshiftRef_ok cfg) (by decide) (by decide) (by decide)

/-- C63: since OP_LSHIFT is disabled, the script fails as soon as there are two digits. -/
theorem C63_violated_disabled (cfg : Cfg) (lshift : List Op) (bits n : Nat) (m a : List Elem)
    (hl : ∀ m a, run cfg lshift ⟨m, a, []⟩ = none) :
    run cfg (convertDigitsToU32 lshift bits (n + 2)) ⟨m, a, []⟩ = none := by
  unfold convertDigitsToU32
  have e : emitN (n + 2 - 1) ([.num bits, .swap] ++ lshift ++ [.fromAlt, .add, .toAlt]) =
      .num bits :: .swap :: (lshift ++ ([.fromAlt, .add, .toAlt] ++
        emitN n ([.num bits, .swap] ++ lshift ++ [.fromAlt, .add, .toAlt]))) := by
    show emitN (n + 1) _ = _
    rw [emitN_succ]; simp
  rw [e]
  match m with
  | [] => rfl
  | [x] => rw [run_toAlt _ rfl, run_num _ rfl]; rfl
  | x :: y :: m => rw [run_toAlt _ rfl, run_num _ rfl, run_swap _ _ rfl, run_append, hl]; rfl

/-- A script that always fails. -/
example (cfg : Cfg) (m a : List Elem) : run cfg [.opendif] ⟨m, a, []⟩ = none := rfl

end TapStark
