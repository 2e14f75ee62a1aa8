import Verif.Spec.Word
import Verif.Script.Lemmas

namespace TapStark

theorem byteOf_lt (w : BitVec 32) (i : Nat) : byteOf w i < 256 := Nat.mod_lt _ (by decide)

@[simp] theorem wordElems_length (w : BitVec 32) : (wordElems w).length = 4 := rfl

@[simp] theorem wordsElems_nil : wordsElems [] = [] := rfl

@[simp] theorem wordsElems_cons (w : BitVec 32) (ws : List (BitVec 32)) :
    wordsElems (w :: ws) = wordElems w ++ wordsElems ws := by simp [wordsElems]

@[simp] theorem wordsElems_append (ws vs : List (BitVec 32)) :
    wordsElems (ws ++ vs) = wordsElems ws ++ wordsElems vs := by simp [wordsElems]

@[simp] theorem wordsElems_length (ws : List (BitVec 32)) : (wordsElems ws).length = 4 * ws.length := by
  induction ws with
  | nil => rfl
  | cons w ws ih => simp [ih]; omega

theorem word_eq_bytes (w : BitVec 32) :
    w.toNat = byteOf w 0 + 256 * byteOf w 1 + 65536 * byteOf w 2 + 16777216 * byteOf w 3 := by
  have h := w.isLt
  simp only [byteOf]
  omega

theorem word_ext_bytes {v w : BitVec 32} (h : ∀ i, i < 4 → byteOf v i = byteOf w i) : v = w := by
  apply BitVec.eq_of_toNat_eq
  rw [word_eq_bytes v, word_eq_bytes w, h 0 (by decide), h 1 (by decide), h 2 (by decide),
    h 3 (by decide)]

theorem wordElems_injective {v w : BitVec 32} (h : wordElems v = wordElems w) : v = w := by
  simp only [wordElems, List.cons.injEq, num_inj, Int.natCast_inj, and_true] at h
  apply word_ext_bytes
  intro i hi
  match i, hi with
  | 0, _ => exact h.1
  | 1, _ => exact h.2.1
  | 2, _ => exact h.2.2.1
  | 3, _ => exact h.2.2.2

/-- A word from its bytes. -/
theorem wordElems_of_bytes {w : BitVec 32} {b0 b1 b2 b3 : Nat} (h0 : b0 < 256) (h1 : b1 < 256)
    (h2 : b2 < 256) (h3 : b3 < 256)
    (h : w.toNat = b0 + 256 * b1 + 65536 * b2 + 16777216 * b3) :
    wordElems w = [num b0, num b1, num b2, num b3] := by
  simp only [wordElems, byteOf, h, List.cons.injEq, num_inj, and_true, Int.natCast_inj]
  omega

theorem eraseIdx_mid' {α : Type _} (p q : List α) (x : α) (k : Nat) (h : p.length = k) :
    (p ++ x :: q).eraseIdx k = p ++ q := by
  subst h; simp [List.eraseIdx_append_of_length_le]

/-! ### Roll and pick at a known depth -/

section
variable {cfg : Cfg} {ops : List Op} {a : List Elem} {c : List Bool}

theorem run_roll_at {n : Int} {k : Nat} (pre : List Elem) (x : Elem) (post m : List Elem)
    (h : live c = true)
    (hm : m = pre ++ x :: post) (hn : n = k) (hk : pre.length = k) (hlt : k < 2147483648) :
    run cfg (.num n :: .roll :: ops) ⟨m, a, c⟩ = run cfg ops ⟨x :: (pre ++ post), a, c⟩ := by
  subst hm hn hk
  rw [run_num _ h, run_roll h (by omega)]
  simp [List.eraseIdx_append_of_length_le]

theorem run_pick_at {n : Int} {k : Nat} (pre : List Elem) (x : Elem) (post m : List Elem)
    (h : live c = true)
    (hm : m = pre ++ x :: post) (hn : n = k) (hk : pre.length = k) (hlt : k < 2147483648) :
    run cfg (.num n :: .pick :: ops) ⟨m, a, c⟩ = run cfg ops ⟨x :: m, a, c⟩ := by
  subst hm hn hk
  rw [run_num _ h, run_pick h (by omega)]
  simp

theorem run_pick_some {n : Int} {k : Nat} {m : List Elem} {x : Elem} (h : live c = true)
    (hn : n = k) (hx : m[k]? = some x) (hlt : k < 2147483648) :
    run cfg (.pick :: ops) ⟨num n :: m, a, c⟩ = run cfg ops ⟨x :: m, a, c⟩ := by
  subst hn
  rw [run_pick h (by omega)]
  simp [hx]

theorem run_roll_some {n : Int} {k : Nat} {m : List Elem} {x : Elem} (h : live c = true)
    (hn : n = k) (hx : m[k]? = some x) (hlt : k < 2147483648) :
    run cfg (.roll :: ops) ⟨num n :: m, a, c⟩ = run cfg ops ⟨x :: m.eraseIdx k, a, c⟩ := by
  subst hn
  rw [run_roll h (by omega)]
  simp [hx]

end

end TapStark
