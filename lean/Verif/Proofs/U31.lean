import Verif.Model.U31
import Verif.Script.Lemmas
import Verif.Proofs.Pseudo

namespace TapStark

variable {cfg : Cfg} {ops : List Op} {m a : List Elem} {c : List Bool}

theorem run_u31Adjust {M : Nat} {x : Int} (hM : M < 2147483648) (h0 : -(M : Int) ≤ x) (h1 : x < 2147483648)
    (h : live c = true) :
    run cfg (u31Adjust M ++ ops) ⟨num x :: m, a, c⟩ =
      run cfg ops ⟨num (if x < 0 then x + M else x) :: m, a, c⟩ := by
  unfold u31Adjust
  by_cases hx : x < 0
  · have : decide (x < 0) = true := by simpa using hx
    by_cases hr : -2147483648 < x
    · sexec [this]
      rw [if_pos hx]
    · omega
  · have : decide (x < 0) = false := by simpa using hx
    sexec [this]
    rw [if_neg hx]

theorem run_u31Add {M : Nat} {x y : Nat} (hM : M < 2147483648) (hx : x < M) (hy : y < M)
    (h : live c = true) :
    run cfg (u31Add M ++ ops) ⟨num y :: num x :: m, a, c⟩ =
      run cfg ops ⟨num ((x + y) % M : Nat) :: m, a, c⟩ := by
  unfold u31Add
  sexec
  rw [run_u31Adjust hM (by omega) (by omega) h]
  have : (if (x : Int) + (y - M) < 0 then (x : Int) + (y - M) + M else (x : Int) + (y - M)) =
      ((x + y) % M : Nat) := by
    by_cases hs : x + y < M
    · rw [Nat.mod_eq_of_lt hs, if_pos (by omega)]; omega
    · rw [Nat.mod_eq_sub_mod (by omega), Nat.mod_eq_of_lt (by omega), if_neg (by omega)]; omega
  rw [this]

theorem run_u31Double {M : Nat} {x : Nat} (hM : M < 2147483648) (hx : x < M) (h : live c = true) :
    run cfg (u31Double M ++ ops) ⟨num x :: m, a, c⟩ =
      run cfg ops ⟨num ((2 * x) % M : Nat) :: m, a, c⟩ := by
  unfold u31Double
  sexec
  rw [run_u31Add hM hx hx h, Nat.two_mul]

/-- `u31_sub` on operands below `2^31`, canonical or not. -/
theorem run_u31Sub_raw {M : Nat} {x y : Nat} (hM : M < 2147483648) (hx : x < 2147483648) (hy : y ≤ M)
    (h : live c = true) :
    run cfg (u31Sub M ++ ops) ⟨num y :: num x :: m, a, c⟩ =
      run cfg ops ⟨num (if x < y then x + M - y else x - y : Nat) :: m, a, c⟩ := by
  unfold u31Sub
  sexec
  rw [run_u31Adjust hM (by omega) (by omega) h]
  have : (if (x : Int) - y < 0 then (x : Int) - y + M else (x : Int) - y) =
      (if x < y then x + M - y else x - y : Nat) := by
    by_cases hs : x < y
    · rw [if_pos hs, if_pos (by omega)]; omega
    · rw [if_neg hs, if_neg (by omega)]; omega
  rw [this]

theorem run_u31Sub {M : Nat} {x y : Nat} (hM : M < 2147483648) (hx : x < M) (hy : y < M)
    (h : live c = true) :
    run cfg (u31Sub M ++ ops) ⟨num y :: num x :: m, a, c⟩ =
      run cfg ops ⟨num ((x + M - y) % M : Nat) :: m, a, c⟩ := by
  rw [run_u31Sub_raw hM (by omega) (by omega) h]
  by_cases hs : x < y
  · rw [if_pos hs, Nat.mod_eq_of_lt (by omega)]
  · rw [if_neg hs, show x + M - y = x - y + M by omega, Nat.add_mod_right, Nat.mod_eq_of_lt (by omega)]

/-! ### Bits -/

/-- Bit `k` of `x` as a script number. -/
def bitElem (x k : Nat) : Elem := num (x / 2 ^ k % 2 : Nat)

theorem bitElem_eq (x k : Nat) : bitElem x k = ofBool (decide (x / 2 ^ k % 2 = 1)) := by
  unfold bitElem ofBool
  rcases Nat.mod_two_eq_zero_or_one (x / 2 ^ k) with h | h <;> simp [h]

theorem pow_le_31 {k : Nat} (hk : k ≤ 30) : 2 ^ k ≤ 1073741824 :=
  Nat.le_trans (Nat.pow_le_pow_right (Nat.zero_lt_two) hk) (by decide)

theorem div_of_lt_double {x p : Nat} (hx : x < 2 * p) : x / p % 2 = if p ≤ x then 1 else 0 := by
  by_cases h : p ≤ x
  · rw [if_pos h]
    have : x / p = 1 := by
      rw [Nat.div_eq_iff (by omega)]; omega
    rw [this]
  · rw [if_neg h, Nat.div_eq_of_lt (by omega)]

theorem bitElem_of_lt {x k : Nat} (hx : x < 2 * 2 ^ k) : bitElem x k = ofBool (decide (2 ^ k ≤ x)) := by
  unfold bitElem ofBool
  rw [div_of_lt_double hx]
  by_cases h : 2 ^ k ≤ x <;> simp [h]

theorem run_u31BitStep {x k : Nat} (hk : k ≤ 30) (hx : x < 2 * 2 ^ k) (h : live c = true) :
    run cfg (u31BitStep k ++ ops) ⟨num x :: m, a, c⟩ =
      run cfg ops ⟨num (x % 2 ^ k : Nat) :: bitElem x k :: m, a, c⟩ := by
  have hp := pow_le_31 hk
  have h0 : 0 < 2 ^ k := Nat.two_pow_pos k
  rw [bitElem_of_lt hx]
  unfold u31BitStep
  generalize 2 ^ k = p at *
  by_cases hs : p ≤ x
  · have e : decide ((x : Int) > (p - 1 : Nat)) = true := by simp; omega
    sexec [e]
    have e2 : (x : Int) - p = (x % p : Nat) := by
      rw [Nat.mod_eq_sub_mod hs, Nat.mod_eq_of_lt (by omega)]; omega
    rw [e2, decide_eq_true hs]
  · have e : decide ((x : Int) > (p - 1 : Nat)) = false := by simp; omega
    sexec [e]
    rw [Nat.mod_eq_of_lt (by omega), decide_eq_false hs]

/-- The bits `0 .. n-1` of `x`, bit 0 first. -/
def bitElems (x n : Nat) : List Elem := (List.range n).map (bitElem x)

theorem bitElems_succ (x n : Nat) : bitElems x (n + 1) = bitElems x n ++ [bitElem x n] := by
  simp [bitElems, List.range_succ]

theorem bitElem_mod {x k n : Nat} (hk : k < n) : bitElem (x % 2 ^ n) k = bitElem x k := by
  unfold bitElem
  congr 2
  obtain ⟨d, rfl⟩ : ∃ d, n = k + (d + 1) := ⟨n - k - 1, by omega⟩
  rw [Nat.pow_add, Nat.mod_mul_right_div_self, Nat.pow_succ, Nat.mul_comm, Nat.mod_mul_right_mod]

theorem bitElems_mod {x k n : Nat} (hk : k ≤ n) : bitElems (x % 2 ^ n) k = bitElems x k := by
  unfold bitElems
  apply List.map_congr_left
  intro j hj
  exact bitElem_mod (by have := List.mem_range.1 hj; omega)

theorem run_u31BitSteps {k : Nat} (hk : k ≤ 30) : ∀ {x : Nat} {m : List Elem}, x < 2 * 2 ^ k → live c = true →
    run cfg (u31BitSteps k ++ ops) ⟨num x :: m, a, c⟩ =
      run cfg ops ⟨bitElems x (k + 1) ++ m, a, c⟩ := by
  induction k with
  | zero =>
    intro x m hx h
    have : bitElems x 1 = [num x] := by
      simp only [bitElems, List.range_succ, List.range_zero, List.nil_append, List.map_cons, List.map_nil, bitElem]
      rw [Nat.pow_zero, Nat.div_one, Nat.mod_eq_of_lt (by omega)]
    rw [this]; rfl
  | succ k ih =>
    intro x m hx h
    rw [u31BitSteps, List.append_assoc, run_u31BitStep hk hx h, ih (by omega) ?_ h]
    · rw [bitElems_succ x (k + 1), bitElems_mod (by omega), List.append_assoc]; rfl
    · have : 0 < 2 ^ (k + 1) := Nat.two_pow_pos _
      have := Nat.mod_lt x this
      rw [Nat.pow_succ] at *
      omega

theorem run_u31ToBits {x : Nat} (hx : x < 2147483648) (h : live c = true) :
    run cfg (u31ToBits ++ ops) ⟨num x :: m, a, c⟩ = run cfg ops ⟨bitElems x 31 ++ m, a, c⟩ :=
  run_u31BitSteps (Nat.le_refl 30) (by omega) h

theorem emitN_succ (n : Nat) (b : List Op) : emitN (n + 1) b = b ++ emitN n b := rfl

theorem run_u31toAlts {l : List Elem} : ∀ {n : Nat} {a : List Elem}, l.length = n → live c = true →
    run cfg (emitN n [.toAlt] ++ ops) ⟨l ++ m, a, c⟩ = run cfg ops ⟨m, l.reverse ++ a, c⟩ := by
  induction l with
  | nil => intro n a hn h; simp at hn; subst hn; rfl
  | cons x l ih =>
    intro n a hn h
    simp at hn; subst hn
    rw [emitN_succ]
    sexec
    rw [ih rfl h]
    simp

theorem run_u31fromAlts {l : List Elem} : ∀ {n : Nat} {m : List Elem}, l.length = n → live c = true →
    run cfg (emitN n [.fromAlt] ++ ops) ⟨m, l ++ a, c⟩ = run cfg ops ⟨l.reverse ++ m, a, c⟩ := by
  induction l with
  | nil => intro n m hn h; simp at hn; subst hn; rfl
  | cons x l ih =>
    intro n m hn h
    simp at hn; subst hn
    rw [emitN_succ]
    sexec
    rw [ih rfl h]
    simp

theorem run_u31drops {l : List Elem} : ∀ {n : Nat}, l.length = n → live c = true →
    run cfg (emitN n [.drop] ++ ops) ⟨l ++ m, a, c⟩ = run cfg ops ⟨m, a, c⟩ := by
  induction l with
  | nil => intro n hn h; simp at hn; subst hn; rfl
  | cons x l ih =>
    intro n hn h
    simp at hn; subst hn
    rw [emitN_succ]
    sexec
    rw [ih rfl h]

/-! ### Multiplication -/

theorem run_u31MulDigit {M x acc b n : Nat} (hM : M < 2147483648) (hx : x < M) (hacc : acc < M) (h : live c = true) :
    run cfg (u31MulDigit M ++ ops)
      ⟨num acc :: num (3 * x % M : Nat) :: num (2 * x % M : Nat) :: num x :: num 0 :: m,
        bitElem b (n + 1) :: bitElem b n :: a, c⟩ =
      run cfg ops ⟨num ((acc + x * (b / 2 ^ n % 4)) % M : Nat) ::
        num (3 * x % M : Nat) :: num (2 * x % M : Nat) :: num x :: num 0 :: m, a, c⟩ := by
  have h0 : 0 < M := by omega
  have hd : b / 2 ^ n % 4 = 2 * (b / 2 ^ (n + 1) % 2) + b / 2 ^ n % 2 := by
    rw [Nat.pow_succ, ← Nat.div_div_eq_div_mul]; omega
  unfold u31MulDigit bitElem
  rw [hd]
  have hm1 := Nat.mod_lt (3 * x) h0
  have hm2 := Nat.mod_lt (2 * x) h0
  have e0 : ((0 : Nat) : Int) = 0 := rfl
  have e1 : ((1 : Nat) : Int) = 1 := rfl
  rcases Nat.mod_two_eq_zero_or_one (b / 2 ^ (n + 1)) with hi | hi <;>
    rcases Nat.mod_two_eq_zero_or_one (b / 2 ^ n) with lo | lo <;> rw [hi, lo] <;>
    sexec [e0, e1, Int.reduceAdd, Int.reduceSub]
  · rw [← e0, run_u31Add hM hacc h0 h]; simp
  · rw [run_u31Add hM hacc hx h]; simp
  · rw [run_u31Add hM hacc hm2 h, Nat.add_mod_mod, Nat.mul_comm 2 x]
  · rw [run_u31Add hM hacc hm1 h, Nat.add_mod_mod, Nat.mul_comm 3 x]

theorem bitElems_reverse_succ (x n : Nat) :
    (bitElems x (n + 1)).reverse = bitElem x n :: (bitElems x n).reverse := by
  rw [bitElems_succ]; simp

theorem mul_digit {M x b n : Nat} :
    ((x * (4 * (b / 2 ^ (n + 2)))) % M + x * (b / 2 ^ n % 4)) % M = x * (b / 2 ^ n) % M := by
  rw [Nat.mod_add_mod, ← Nat.mul_add, Nat.pow_add, ← Nat.div_div_eq_div_mul]
  congr 2
  generalize b / 2 ^ n = q
  show 4 * (q / 4) + q % 4 = q
  omega

theorem double_double {M y : Nat} : 2 * (2 * (y % M) % M) % M = 4 * y % M := by
  rw [Nat.mul_mod_mod, ← Nat.mul_assoc, Nat.mul_mod_mod]

theorem run_u31MulLoop {M x b : Nat} (hM : M < 2147483648) (hx : x < M) (h : live c = true) :
    ∀ (j n : Nat) {a : List Elem},
    run cfg (emitN j (u31MulDigit M ++ u31Double M ++ u31Double M) ++ ops)
      ⟨num (x * (4 * (b / 2 ^ (n + 2 * j))) % M : Nat) ::
        num (3 * x % M : Nat) :: num (2 * x % M : Nat) :: num x :: num 0 :: m,
        (bitElems b (n + 2 * j)).reverse ++ a, c⟩ =
    run cfg ops
      ⟨num (x * (4 * (b / 2 ^ n)) % M : Nat) ::
        num (3 * x % M : Nat) :: num (2 * x % M : Nat) :: num x :: num 0 :: m,
        (bitElems b n).reverse ++ a, c⟩ := by
  intro j
  have h0 : 0 < M := by omega
  induction j with
  | zero => intro n a; rfl
  | succ j ih =>
    intro n a
    have e : n + 2 * (j + 1) = n + 2 * j + 2 := by omega
    rw [e, emitN_succ, bitElems_reverse_succ, bitElems_reverse_succ]
    simp only [List.append_assoc, List.cons_append]
    rw [run_u31MulDigit hM hx (Nat.mod_lt _ h0) h, mul_digit, run_u31Double hM (Nat.mod_lt _ h0) h,
      run_u31Double hM (Nat.mod_lt _ h0) h, double_double, Nat.mul_left_comm]
    exact ih n

theorem run_opif_dead (h : live c = false) :
    run cfg (.opif :: ops) ⟨m, a, c⟩ = run cfg ops ⟨m, a, false :: c⟩ := by
  simp [run_cons, step, h]

theorem run_u31Add_dead {M : Nat} (h : live c = false) :
    run cfg (u31Add M ++ ops) ⟨m, a, c⟩ = run cfg ops ⟨m, a, c⟩ := by
  unfold u31Add u31Adjust
  have h2 : live (false :: c) = false := rfl
  sexec [run_opif_dead h]

theorem run_u31Mul {M x y : Nat} (hM : M < 2147483648) (hx : x < M) (hy : y < 2147483648) (h : live c = true) :
    run cfg (u31Mul M ++ ops) ⟨num y :: num x :: m, a, c⟩ =
      run cfg ops ⟨num (x * y % M : Nat) :: m, a, c⟩ := by
  have h0 : 0 < M := by omega
  unfold u31Mul
  simp only [List.append_assoc]
  rw [run_u31ToBits hy h, run_u31toAlts (by simp [bitElems]) h, bitElems_reverse_succ, bitElem_eq]
  have e0 : ((0 : Nat) : Int) = 0 := rfl
  have e3 : (x + 2 * x % M) % M = 3 * x % M := by rw [Nat.add_mod_mod]; congr 1; omega
  have htop : y / 2 ^ 30 < 2 := by omega
  have key : ∀ {m' : List Elem} {ops : List Op}, run cfg ([Op.num 0, .fromAlt, .opif, .num 3, .pick] ++ (u31Add M ++ ([.opendif] ++
      (u31Double M ++ (u31Double M ++ ops))))) ⟨num (3 * x % M : Nat) :: num (2 * x % M : Nat) :: num x :: num 0 :: m,
        ofBool (decide (y / 2 ^ 30 % 2 = 1)) :: m', c⟩ =
      run cfg ops ⟨num (x * (4 * (y / 2 ^ 30)) % M : Nat) :: num (3 * x % M : Nat) :: num (2 * x % M : Nat) :: num x :: num 0 :: m,
        m', c⟩ := by
    intro m' ops
    rcases Nat.mod_two_eq_zero_or_one (y / 2 ^ 30) with hi | hi
    · have : decide (y / 2 ^ 30 % 2 = 1) = false := by simp [hi]
      sexec [this]
      rw [run_u31Add_dead rfl]
      sexec
      rw [← e0, run_u31Double hM h0 h, run_u31Double hM (Nat.mod_lt _ h0) h,
        show y / 2 ^ 30 = 0 by omega]
      simp
    · have : decide (y / 2 ^ 30 % 2 = 1) = true := by simp [hi]
      sexec [this]
      rw [← e0, run_u31Add hM h0 hx (by simpa using h)]
      sexec
      rw [run_u31Double hM (Nat.mod_lt _ h0) h, run_u31Double hM (Nat.mod_lt _ h0) h,
        show y / 2 ^ 30 = 1 by omega, double_double]
      simp [Nat.mul_comm]
  rw [show ([Op.num 0, .swap, .dup] ++ (u31Double M ++ ([Op.dup2] ++ (u31Add M ++ ([Op.num 0, .fromAlt, .opif, .num 3, .pick] ++ (u31Add M ++ ([.opendif] ++
      (u31Double M ++ (u31Double M ++ (emitN 14 (u31MulDigit M ++ (u31Double M ++ u31Double M)) ++ (u31MulDigit M ++
        ([Op.toAlt, Op.drop2, Op.drop2, Op.fromAlt] ++ ops)))))))))))) = Op.num 0 :: .swap :: .dup :: (u31Double M ++ (Op.dup2 :: (u31Add M ++ ([Op.num 0, .fromAlt, .opif, .num 3, .pick] ++ (u31Add M ++ ([.opendif] ++
      (u31Double M ++ (u31Double M ++ (emitN 14 (u31MulDigit M ++ u31Double M ++ u31Double M) ++ (u31MulDigit M ++
        ([Op.toAlt, Op.drop2, Op.drop2, Op.fromAlt] ++ ops))))))))))) by simp only [List.append_assoc]; rfl]
  rw [run_num _ h, run_swap _ _ h, run_dup _ h, run_u31Double hM hx h, run_dup2 _ _ h,
    run_u31Add hM hx (Nat.mod_lt _ h0) h, e3, List.cons_append (as := (bitElems y 30).reverse), key,
    run_u31MulLoop hM hx h 14 2, bitElems_reverse_succ, bitElems_reverse_succ]
  simp only [List.cons_append]
  rw [run_u31MulDigit hM hx (Nat.mod_lt _ h0) h, mul_digit]
  sexec
  simp [bitElems]

end TapStark
