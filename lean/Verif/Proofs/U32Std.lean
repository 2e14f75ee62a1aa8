import Verif.Proofs.Word
import Verif.Model.U32

namespace TapStark

variable {cfg : Cfg} {ops : List Op} {m a : List Elem} {c : List Bool}

theorem run_u32Push (v : BitVec 32) (h : live c = true) :
    run cfg (u32Push v ++ ops) ⟨m, a, c⟩ = run cfg ops ⟨wordElems v ++ m, a, c⟩ := by
  unfold u32Push
  sexec
  simp [wordElems, byteOf]

theorem run_u32ToAlt (v : BitVec 32) (h : live c = true) :
    run cfg (u32ToAlt ++ ops) ⟨wordElems v ++ m, a, c⟩ =
      run cfg ops ⟨m, (wordElems v).reverse ++ a, c⟩ := by
  unfold u32ToAlt wordElems
  sexec
  simp

theorem run_u32FromAlt (v : BitVec 32) (h : live c = true) :
    run cfg (u32FromAlt ++ ops) ⟨m, (wordElems v).reverse ++ a, c⟩ =
      run cfg ops ⟨wordElems v ++ m, a, c⟩ := by
  unfold u32FromAlt wordElems
  simp only [List.reverse_cons, List.reverse_nil]
  sexec

theorem run_op4dup {x y z w : Elem} (h : live c = true) :
    run cfg (op4dup ++ ops) ⟨x :: y :: z :: w :: m, a, c⟩ =
      run cfg ops ⟨x :: y :: z :: w :: x :: y :: z :: w :: m, a, c⟩ := by
  unfold op4dup
  sexec

theorem run_op4drop {x y z w : Elem} (h : live c = true) :
    run cfg (op4drop ++ ops) ⟨x :: y :: z :: w :: m, a, c⟩ = run cfg ops ⟨m, a, c⟩ := by
  unfold op4drop
  sexec

theorem run_op4toAlt {x y z w : Elem} (h : live c = true) :
    run cfg (op4toAlt ++ ops) ⟨x :: y :: z :: w :: m, a, c⟩ =
      run cfg ops ⟨m, w :: z :: y :: x :: a, c⟩ := by
  unfold op4toAlt
  sexec

theorem run_op4fromAlt {x y z w : Elem} (h : live c = true) :
    run cfg (op4fromAlt ++ ops) ⟨m, w :: z :: y :: x :: a, c⟩ =
      run cfg ops ⟨x :: y :: z :: w :: m, a, c⟩ := by
  unfold op4fromAlt
  sexec

theorem run_op4swap {x y z w x' y' z' w' : Elem} (h : live c = true) :
    run cfg (op4swap ++ ops) ⟨x :: y :: z :: w :: x' :: y' :: z' :: w' :: m, a, c⟩ =
      run cfg ops ⟨x' :: y' :: z' :: w' :: x :: y :: z :: w :: m, a, c⟩ := by
  unfold op4swap
  sexec

theorem run_u32Dup (v : BitVec 32) (h : live c = true) :
    run cfg (u32Dup ++ ops) ⟨wordElems v ++ m, a, c⟩ =
      run cfg ops ⟨wordElems v ++ wordElems v ++ m, a, c⟩ := run_op4dup h

theorem run_u32Drop (v : BitVec 32) (h : live c = true) :
    run cfg (u32Drop ++ ops) ⟨wordElems v ++ m, a, c⟩ = run cfg ops ⟨m, a, c⟩ := by
  unfold u32Drop wordElems
  sexec

/-- Rolling a block of four elements below `pre` to the top. -/
theorem run_u32Roll_elems {n : Nat} (pre : List Elem) (x0 x1 x2 x3 : Elem) (post : List Elem)
    (h : live c = true) (hp : pre.length = 4 * n) (hn : n < 500000000) :
    run cfg (u32Roll n ++ ops) ⟨pre ++ x0 :: x1 :: x2 :: x3 :: post, a, c⟩ =
      run cfg ops ⟨x0 :: x1 :: x2 :: x3 :: (pre ++ post), a, c⟩ := by
  unfold u32Roll
  simp only [List.cons_append, List.nil_append]
  rw [run_roll_at (pre ++ [x0, x1, x2]) x3 post _ h (by simp) rfl (by simp; omega) (by omega)]
  rw [run_roll_at (x3 :: pre ++ [x0, x1]) x2 post _ h (by simp) rfl (by simp; omega) (by omega)]
  rw [run_roll_at (x2 :: x3 :: pre ++ [x0]) x1 post _ h (by simp) rfl (by simp; omega) (by omega)]
  rw [run_roll_at (x1 :: x2 :: x3 :: pre) x0 post _ h (by simp) rfl (by simp; omega) (by omega)]
  simp

theorem run_u32Pick_elems {n : Nat} (pre : List Elem) (x0 x1 x2 x3 : Elem) (post : List Elem)
    (h : live c = true) (hp : pre.length = 4 * n) (hn : n < 500000000) :
    run cfg (u32Pick n ++ ops) ⟨pre ++ x0 :: x1 :: x2 :: x3 :: post, a, c⟩ =
      run cfg ops ⟨x0 :: x1 :: x2 :: x3 :: (pre ++ x0 :: x1 :: x2 :: x3 :: post), a, c⟩ := by
  unfold u32Pick
  simp only [List.cons_append, List.nil_append]
  rw [run_pick_at (pre ++ [x0, x1, x2]) x3 post _ h (by simp) rfl (by simp; omega) (by omega)]
  rw [run_pick_at (x3 :: pre ++ [x0, x1]) x2 (x3 :: post) _ h (by simp) rfl (by simp; omega)
    (by omega)]
  rw [run_pick_at (x2 :: x3 :: pre ++ [x0]) x1 (x2 :: x3 :: post) _ h (by simp) rfl
    (by simp; omega) (by omega)]
  rw [run_pick_at (x1 :: x2 :: x3 :: pre) x0 (x1 :: x2 :: x3 :: post) _ h (by simp) rfl
    (by simp; omega) (by omega)]

theorem list_split_at {α : Type _} {l : List α} {n : Nat} {x : α} (h : l[n]? = some x) :
    l = l.take n ++ x :: l.drop (n + 1) ∧ (l.take n).length = n := by
  have hlt : n < l.length := by
    rcases Nat.lt_or_ge n l.length with h' | h'
    · exact h'
    · rw [List.getElem?_eq_none h'] at h; exact absurd h (by simp)
  refine ⟨?_, by simp; omega⟩
  have hx : l[n] = x := by
    rw [List.getElem?_eq_getElem hlt] at h; exact Option.some.inj h
  rw [← hx, List.getElem_cons_drop, List.take_append_drop]

theorem eraseIdx_eq_take_drop' {α : Type _} (l : List α) (n : Nat) :
    l.eraseIdx n = l.take n ++ l.drop (n + 1) := List.eraseIdx_eq_take_drop_succ l n

theorem run_u32Roll {n : Nat} {ws : List (BitVec 32)} {w : BitVec 32} (h : live c = true)
    (hw : ws[n]? = some w) (hn : n < 500000000) :
    run cfg (u32Roll n ++ ops) ⟨wordsElems ws ++ m, a, c⟩ =
      run cfg ops ⟨wordsElems (w :: ws.eraseIdx n) ++ m, a, c⟩ := by
  obtain ⟨h1, h2⟩ := list_split_at hw
  rw [h1]
  simp only [wordsElems_append, wordsElems_cons, List.append_assoc]
  have hlen : (wordsElems (ws.take n)).length = 4 * n := by rw [wordsElems_length, h2]
  rw [show wordsElems (ws.take n) ++ (wordElems w ++ (wordsElems (ws.drop (n+1)) ++ m)) =
    wordsElems (ws.take n) ++ num (byteOf w 0) :: num (byteOf w 1) :: num (byteOf w 2) ::
      num (byteOf w 3) :: (wordsElems (ws.drop (n+1)) ++ m) from by simp [wordElems]]
  rw [run_u32Roll_elems _ _ _ _ _ _ h hlen hn, ← h1, eraseIdx_eq_take_drop']
  simp [wordElems]

theorem run_u32Pick {n : Nat} {ws : List (BitVec 32)} {w : BitVec 32} (h : live c = true)
    (hw : ws[n]? = some w) (hn : n < 500000000) :
    run cfg (u32Pick n ++ ops) ⟨wordsElems ws ++ m, a, c⟩ =
      run cfg ops ⟨wordsElems (w :: ws) ++ m, a, c⟩ := by
  obtain ⟨h1, h2⟩ := list_split_at hw
  have hlen : (wordsElems (ws.take n)).length = 4 * n := by rw [wordsElems_length, h2]
  have hs : wordsElems ws ++ m = wordsElems (ws.take n) ++ num (byteOf w 0) :: num (byteOf w 1) ::
      num (byteOf w 2) :: num (byteOf w 3) :: (wordsElems (ws.drop (n+1)) ++ m) := by
    conv => lhs; rw [h1]
    simp [wordElems]
  rw [hs, run_u32Pick_elems _ _ _ _ _ _ h hlen hn, ← hs]
  simp [wordElems]

/-! ### Comparison -/

theorem run_u32Equalverify (v w : BitVec 32) (h : live c = true) :
    run cfg (u32Equalverify ++ ops) ⟨wordElems v ++ wordElems w ++ m, a, c⟩ =
      if v = w then run cfg ops ⟨m, a, c⟩ else none := by
  unfold u32Equalverify
  simp only [wordElems]
  sexec [run_equalverify]
  simp only [num_inj, Int.natCast_inj]
  by_cases hvw : v = w
  · subst hvw; simp
  · rw [if_neg hvw]
    have : ¬ (byteOf w 0 = byteOf v 0 ∧ byteOf w 1 = byteOf v 1 ∧ byteOf w 2 = byteOf v 2 ∧
        byteOf w 3 = byteOf v 3) := by
      rintro ⟨e0, e1, e2, e3⟩
      apply hvw
      apply word_ext_bytes
      intro i hi
      match i, hi with
      | 0, _ => exact e0.symm
      | 1, _ => exact e1.symm
      | 2, _ => exact e2.symm
      | 3, _ => exact e3.symm
    split
    · split
      · split
        · split
          · rename_i e0 e1 e2 e3
            exact absurd ⟨e0, e1, by first | exact e2 | exact e2.symm, by first | exact e3 | exact e3.symm⟩ this
          · rfl
        · rfl
      · rfl
    · rfl

theorem word_eq_iff_bytes {v w : BitVec 32} :
    v = w ↔ byteOf v 0 = byteOf w 0 ∧ byteOf v 1 = byteOf w 1 ∧ byteOf v 2 = byteOf w 2 ∧
      byteOf v 3 = byteOf w 3 := by
  constructor
  · rintro rfl; simp
  · rintro ⟨e0, e1, e2, e3⟩
    apply word_ext_bytes
    intro i hi
    match i, hi with
    | 0, _ => exact e0
    | 1, _ => exact e1
    | 2, _ => exact e2
    | 3, _ => exact e3

theorem run_u32Equal (v w : BitVec 32) (h : live c = true) :
    run cfg (u32Equal ++ ops) ⟨wordElems v ++ wordElems w ++ m, a, c⟩ =
      run cfg ops ⟨ofBool (decide (v = w)) :: m, a, c⟩ := by
  unfold u32Equal
  simp only [wordElems]
  sexec
  congr 4
  rw [Bool.eq_iff_iff]
  simp only [Bool.and_eq_true, decide_eq_true_eq, num_inj, Int.natCast_inj, word_eq_iff_bytes]
  constructor
  · rintro ⟨⟨⟨e0, e1⟩, e2⟩, e3⟩; simp [*]
  · rintro ⟨e0, e1, e2, e3⟩; simp [*]

theorem run_u32Notequal (v w : BitVec 32) (h : live c = true) :
    run cfg (u32Notequal ++ ops) ⟨wordElems v ++ wordElems w ++ m, a, c⟩ =
      run cfg ops ⟨ofBool (decide (v ≠ w)) :: m, a, c⟩ := by
  unfold u32Notequal
  simp only [wordElems]
  have v0 := byteOf_lt v 0; have v1 := byteOf_lt v 1; have v2 := byteOf_lt v 2
  have v3 := byteOf_lt v 3; have w0 := byteOf_lt w 0; have w1 := byteOf_lt w 1
  have w2 := byteOf_lt w 2; have w3 := byteOf_lt w 3
  sexec
  congr 4
  rw [Bool.eq_iff_iff]
  simp only [Bool.or_eq_true, decide_eq_true_eq, bne_iff_ne, ne_eq, Int.natCast_inj, word_eq_iff_bytes]
  omega

/-! ### Multiplication by powers of two -/

theorem run_op2mul {x : Int} (h : live c = true) (hx : InRange x) :
    run cfg (op2mul ++ ops) ⟨num x :: m, a, c⟩ = run cfg ops ⟨num (2 * x) :: m, a, c⟩ := by
  unfold op2mul
  sexec
  rw [show x + x = 2 * x by omega]

theorem run_op2mul_out {x : Int} (h : live c = true) (hx : ¬ InRange x) :
    run cfg (op2mul ++ ops) ⟨num x :: m, a, c⟩ = none := by
  unfold op2mul
  sexec
  simp [run_cons, step, h, execOp, numBin, decodeNum_num_out hx]

theorem run_op256mul {x : Int} (h : live c = true) (h0 : -16777216 < x) (h1 : x < 16777216) :
    run cfg (op256mul ++ ops) ⟨num x :: m, a, c⟩ = run cfg ops ⟨num (256 * x) :: m, a, c⟩ := by
  unfold op256mul
  sexec
  congr 3
  rw [num_inj]
  omega

/-! ### Compression -/

/-- Sign-magnitude reading of a word. -/
def signMag (w : BitVec 32) : Int :=
  if w.toNat < 2147483648 then w.toNat else - ((w.toNat : Int) - 2147483648)

theorem run_u32Compress (w : BitVec 32) (h : live c = true) :
    run cfg (u32Compress ++ ops) ⟨wordElems w ++ m, a, c⟩ = run cfg ops ⟨num (signMag w) :: m, a, c⟩ := by
  have w0 := byteOf_lt w 0; have w1 := byteOf_lt w 1
  have w2 := byteOf_lt w 2; have w3 := byteOf_lt w 3
  have hw := word_eq_bytes w
  unfold u32Compress
  simp only [wordElems]
  by_cases hb : (byteOf w 3 : Int) > 127
  · have : decide ((byteOf w 3 : Int) > 127) = true := by simpa using hb
    sexec [this, run_op256mul]
    congr 3
    rw [num_inj]
    unfold signMag
    rw [if_neg (by omega)]
    omega
  · have : decide ((byteOf w 3 : Int) > 127) = false := by simpa using hb
    sexec [this, run_op256mul]
    congr 3
    rw [num_inj]
    unfold signMag
    rw [if_pos (by omega)]
    omega

end TapStark
