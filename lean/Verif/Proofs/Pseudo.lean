import Verif.Proofs.U32Std

namespace TapStark

variable {cfg : Cfg} {ops : List Op} {m a : List Elem} {c : List Bool}

theorem run_op4pick {n : Nat} (pre : List Elem) (x0 x1 x2 x3 : Elem) (post : List Elem)
    (h : live c = true) (hp : pre.length = n) (hn : n + 4 < 2147483648) :
    run cfg (op4pick ++ ops) ⟨num n :: (pre ++ x0 :: x1 :: x2 :: x3 :: post), a, c⟩ =
      run cfg ops ⟨x0 :: x1 :: x2 :: x3 :: (pre ++ x0 :: x1 :: x2 :: x3 :: post), a, c⟩ := by
  unfold op4pick
  have g : ∀ k, (pre ++ x0 :: x1 :: x2 :: x3 :: post)[n + k]? =
      (x0 :: x1 :: x2 :: x3 :: post)[k]? := by
    intro k; rw [List.getElem?_append_right (by omega), hp]; congr 1; omega
  have g0 := g 0; have g1 := g 1; have g2 := g 2; have g3 := g 3
  simp only [List.getElem?_cons_succ, List.getElem?_cons_zero] at g0 g1 g2 g3
  sexecnp []
  rw [run_pick_some (k := n + 4) (x := x3) h (by omega)
    (by rw [List.getElem?_cons_succ]; exact g3) (by omega)]
  sexecnp []
  rw [run_pick_some (k := n + 4) (x := x2) h (by omega)
    (by rw [List.getElem?_cons_succ, List.getElem?_cons_succ]; exact g2) (by omega)]
  sexecnp []
  rw [run_pick_some (k := n + 4) (x := x1) h (by omega)
    (by rw [List.getElem?_cons_succ, List.getElem?_cons_succ, List.getElem?_cons_succ]; exact g1)
    (by omega)]
  sexecnp []
  rw [run_pick_some (k := n + 3) (x := x0) h (by omega)
    (by rw [List.getElem?_cons_succ, List.getElem?_cons_succ, List.getElem?_cons_succ]; exact g0)
    (by omega)]

theorem run_rollStep {k : Nat} {n : Int} (pre : List Elem) (x : Elem) (post : List Elem)
    (h : live c = true) (hp : pre.length + 1 = k) (hn : n = k) (hk : k < 2147483648) :
    run cfg (.dup :: .roll :: .swap :: ops) ⟨num n :: (pre ++ x :: post), a, c⟩ =
      run cfg ops ⟨num n :: (x :: pre ++ post), a, c⟩ := by
  rw [run_dup _ h, run_roll_some (k := k) (x := x) h hn
    (by subst hp; simp) hk]
  rw [show (num n :: (pre ++ x :: post)).eraseIdx k = num n :: (pre ++ post) from by
    subst hp; simp [List.eraseIdx_append_of_length_le]]
  rw [run_swap _ _ h]
  rfl

theorem run_op4roll {n : Nat} (pre : List Elem) (x0 x1 x2 x3 : Elem) (post : List Elem)
    (h : live c = true) (hp : pre.length = n) (hn : n + 4 < 2147483648) :
    run cfg (op4roll ++ ops) ⟨num n :: (pre ++ x0 :: x1 :: x2 :: x3 :: post), a, c⟩ =
      run cfg ops ⟨x0 :: x1 :: x2 :: x3 :: (pre ++ post), a, c⟩ := by
  unfold op4roll
  simp only [List.cons_append, List.nil_append]
  rw [run_num _ h, run_add h (by unfold InRange; omega) (by decide)]
  rw [show pre ++ x0 :: x1 :: x2 :: x3 :: post = (pre ++ [x0, x1, x2]) ++ x3 :: post by simp]
  rw [run_rollStep (k := n + 4) _ _ _ h (by simp; omega) (by omega) hn]
  rw [show x3 :: (pre ++ [x0, x1, x2]) ++ post = (x3 :: pre ++ [x0, x1]) ++ x2 :: post by simp]
  rw [run_rollStep (k := n + 4) _ _ _ h (by simp; omega) (by omega) hn]
  rw [show x2 :: (x3 :: pre ++ [x0, x1]) ++ post = (x2 :: x3 :: pre ++ [x0]) ++ x1 :: post by simp]
  rw [run_rollStep (k := n + 4) _ _ _ h (by simp; omega) (by omega) hn]
  rw [run_sub1 h (by unfold InRange; omega)]
  rw [show x1 :: (x2 :: x3 :: pre ++ [x0]) ++ post = (x1 :: x2 :: x3 :: pre) ++ x0 :: post by simp]
  rw [run_roll_some (k := n + 3) (x := x0) h (by omega)
    (by rw [List.getElem?_append_right (by simp; omega)]; simp [hp]) (by omega)]
  rw [eraseIdx_mid' _ _ _ _ (by simp; omega)]
  rfl

/-! ### Replication -/

theorem replicate_add' (p q : Nat) (x : Elem) :
    List.replicate (p + q) x = List.replicate p x ++ List.replicate q x := by simp

theorem run_dup3s (t : Nat) (x : Elem) (h : live c = true) :
    run cfg (emitN t [.dup3] ++ ops) ⟨x :: x :: x :: m, a, c⟩ =
      run cfg ops ⟨List.replicate (3 * t) x ++ x :: x :: x :: m, a, c⟩ := by
  induction t generalizing m with
  | zero => rfl
  | succ t ih =>
    have : emitN (t + 1) [Op.dup3] = .dup3 :: emitN t [.dup3] := by
      simp [emitN, List.replicate_succ]
    rw [this, List.cons_append, run_dup3 _ _ _ h, ih]
    congr 2
    rw [show 3 * (t + 1) = 3 * t + 3 by omega, replicate_add']
    simp [List.replicate]

theorem replicate_snoc_cons (n : Nat) (x : Elem) (m : List Elem) :
    List.replicate n x ++ x :: m = x :: (List.replicate n x ++ m) := by
  induction n with
  | zero => rfl
  | succ n ih => simp [List.replicate_succ, ih]

theorem run_opNdup (n : Nat) (x : Elem) (h : live c = true) :
    run cfg (opNdup n ++ ops) ⟨x :: m, a, c⟩ =
      run cfg ops ⟨List.replicate n x ++ x :: m, a, c⟩ := by
  unfold opNdup
  match n with
  | 0 => rfl
  | 1 =>
    show run cfg ([.dup] ++ ops) _ = _
    sexec
    rfl
  | 2 =>
    show run cfg ([.dup, .dup] ++ ops) _ = _
    sexec
    rfl
  | 3 =>
    show run cfg ([.dup, .dup2] ++ ops) _ = _
    sexec
    rfl
  | k + 4 =>
    simp only [show k + 4 > 3 from by omega, show k + 4 ≥ 1 from by omega,
      show k + 4 ≥ 3 from by omega, if_true, List.append_assoc]
    have hs : (k + 4 - 3) / 3 * 3 + (k + 4 - 3) % 3 = k + 1 := by omega
    generalize (k + 4 - 3) / 3 = t at *
    rw [List.cons_append, run_dup _ h]
    simp only [List.cons_append, List.nil_append]
    rw [run_dup2 _ _ h, run_dup3s t x h]
    have hr : (k + 4 - 3) % 3 < 3 := Nat.mod_lt _ (by decide)
    generalize (k + 4 - 3) % 3 = r at *
    have hrep : ∀ j, List.replicate (3 * t + j) x ++ x :: x :: x :: x :: m =
        List.replicate (3 * t + j + 3) x ++ x :: m := by
      intro j
      rw [replicate_add' (3 * t + j) 3, List.append_assoc]; rfl
    match r, hr with
    | 0, _ =>
      have := hrep 0
      rw [show k + 4 = 3 * t + 0 + 3 by omega, ← this]
      rfl
    | 1, _ =>
      have := hrep 1
      rw [show k + 4 = 3 * t + 1 + 3 by omega, ← this]
      simp only [show ¬ (1 = 2) from by decide, if_false, if_true, List.cons_append, List.nil_append]
      rw [replicate_snoc_cons, run_dup _ h, ← replicate_snoc_cons, replicate_add']
      simp [replicate_snoc_cons]
    | 2, _ =>
      have := hrep 2
      rw [show k + 4 = 3 * t + 2 + 3 by omega, ← this]
      simp only [if_true, List.cons_append, List.nil_append]
      rw [replicate_snoc_cons, replicate_snoc_cons, run_dup2 _ _ h, replicate_add']
      simp [replicate_snoc_cons]

theorem run_pushToStack (e n : Nat) (h : live c = true) :
    run cfg (pushToStack e n ++ ops) ⟨m, a, c⟩ =
      run cfg ops ⟨List.replicate n (num e) ++ m, a, c⟩ := by
  unfold pushToStack
  match n with
  | 0 => rfl
  | n + 1 =>
    simp only [show n + 1 ≥ 1 from by omega, if_true, List.cons_append, Nat.add_sub_cancel]
    rw [run_num _ h, run_opNdup _ _ h, replicate_snoc_cons]
    rfl

/-! ### Multiplication by powers of two -/

theorem run_op2kmul (k : Nat) (x : Int) (h : live c = true) :
    (∀ i, i < k → InRange (2 ^ i * x)) →
    run cfg (op2kmul k ++ ops) ⟨num x :: m, a, c⟩ = run cfg ops ⟨num (2 ^ k * x) :: m, a, c⟩ := by
  induction k generalizing x with
  | zero => intro _; simp [op2kmul]
  | succ k ih =>
    intro hr
    have h0 : InRange x := by simpa using hr 0 (by omega)
    rw [op2kmul, List.append_assoc, run_op2mul h h0, ih (2 * x)]
    · congr 3; rw [num_inj, Int.pow_succ, Int.mul_assoc]
    · intro i hi
      have := hr (i + 1) (by omega)
      rwa [Int.pow_succ, Int.mul_assoc] at this

theorem run_op2kmul_out (k : Nat) (x : Int) (h : live c = true) :
    (∃ i, i < k ∧ ¬ InRange (2 ^ i * x)) →
    run cfg (op2kmul k ++ ops) ⟨num x :: m, a, c⟩ = none := by
  induction k generalizing x with
  | zero => rintro ⟨i, hi, _⟩; omega
  | succ k ih =>
    rintro ⟨i, hi, hr⟩
    by_cases h0 : InRange x
    · rw [op2kmul, List.append_assoc, run_op2mul h h0]
      apply ih
      match i with
      | 0 => simp [h0] at hr
      | i + 1 => exact ⟨i, by omega, by rwa [Int.pow_succ, Int.mul_assoc] at hr⟩
    · rw [op2kmul, List.append_assoc, run_op2mul_out h h0]

theorem op2mul_eq : op2mul = op2kmul 1 := rfl
theorem op4mul_eq : op4mul = op2kmul 2 := rfl
theorem op16mul_eq : op16mul = op2kmul 4 := rfl
theorem op256mul_eq : op256mul = op2kmul 8 := rfl

end TapStark
