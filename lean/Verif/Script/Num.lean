/-
Script numbers.

Bitcoin Script stores integers on the stack as minimal little-endian byte strings whose top bit is
the sign.  The Rust code of /repo produces numbers through `push_int` (crate `bitcoin`, used by the
`script!` macro, see `define_pushable!()` in /repo/scripts/src/lib.rs:21) and consumes them with the
arithmetic opcodes of `bitcoin_scriptexec` (/repo/scripts/src/lib.rs:8).  Both are external crates;
this file models the consensus rules they implement (`CScriptNum`).
-/

namespace TapStark

/-- A stack element: an arbitrary byte string. -/
abbrev Elem := List UInt8

/-- Sign-and-magnitude little-endian encoding of a magnitude: the last byte keeps its top bit for
the sign.  External: `bitcoin::script::Builder::push_int` / `CScriptNum::serialize`. -/
def encMag (neg : Bool) (n : Nat) : List UInt8 :=
  if n < 128 then [UInt8.ofNat (n + if neg then 128 else 0)]
  else UInt8.ofNat (n % 256) :: encMag neg (n / 256)
termination_by n
decreasing_by omega

/-- The stack element holding the script number `n`. -/
def num (n : Int) : Elem :=
  if n = 0 then [] else encMag (decide (n < 0)) n.natAbs

/-- Magnitude of a little-endian sign-magnitude byte string. -/
def magOf : Elem → Nat
  | [] => 0
  | [b] => b.toNat % 128
  | b :: c :: r => b.toNat + 256 * magOf (c :: r)

/-- Sign of a little-endian sign-magnitude byte string. -/
def negOf : Elem → Bool
  | [] => false
  | [b] => decide (128 ≤ b.toNat)
  | _ :: c :: r => negOf (c :: r)

/-- Integer value of an element (no length or minimality check). -/
def valOf (e : Elem) : Int := if negOf e then - (magOf e : Int) else magOf e

/-- Minimal encoding rule of `CScriptNum(vch, fRequireMinimal = true)`. -/
def isMinimal : Elem → Bool
  | [] => true
  | [b] => b.toNat % 128 != 0
  | [a, b] => b.toNat % 128 != 0 || decide (128 ≤ a.toNat)
  | _ :: b :: c :: r => isMinimal (b :: c :: r)

/-- Reading a numeric operand: at most four bytes, and minimal if the flag is set
(`bitcoin_scriptexec::Options::default()` sets it, /repo/scripts/src/lib.rs:100). -/
def decodeNum (requireMinimal : Bool) (e : Elem) : Option Int :=
  if 4 < e.length then none
  else if requireMinimal && !isMinimal e then none
  else some (valOf e)

/-- The integers that fit a four-byte operand. -/
def InRange (n : Int) : Prop := -2147483648 < n ∧ n < 2147483648

instance (n : Int) : Decidable (InRange n) := inferInstanceAs (Decidable (_ ∧ _))

/-! ### Facts -/

theorem encMag_ne_nil (neg : Bool) (n : Nat) : encMag neg n ≠ [] := by
  unfold encMag; split <;> simp

theorem encMag_lt {neg : Bool} {n : Nat} (h : n < 128) :
    encMag neg n = [UInt8.ofNat (n + if neg then 128 else 0)] := by
  unfold encMag; simp [h]

theorem encMag_ge {neg : Bool} {n : Nat} (h : 128 ≤ n) :
    encMag neg n = UInt8.ofNat (n % 256) :: encMag neg (n / 256) := by
  conv => lhs; unfold encMag
  rw [if_neg (by omega)]

theorem magOf_cons {b : UInt8} {r : Elem} (h : r ≠ []) :
    magOf (b :: r) = b.toNat + 256 * magOf r := by
  cases r with
  | nil => exact absurd rfl h
  | cons c r => rfl

theorem negOf_cons {b : UInt8} {r : Elem} (h : r ≠ []) : negOf (b :: r) = negOf r := by
  cases r with
  | nil => exact absurd rfl h
  | cons c r => rfl

theorem toNat_ofNat_byte {n : Nat} (h : n < 256) : (UInt8.ofNat n).toNat = n := by
  simp [UInt8.toNat_ofNat']; omega

theorem magOf_encMag (neg : Bool) (n : Nat) : magOf (encMag neg n) = n := by
  induction n using Nat.strongRecOn with
  | ind n ih =>
    by_cases h : n < 128
    · rw [encMag_lt h]
      unfold magOf
      rw [toNat_ofNat_byte (by split <;> omega)]
      split <;> omega
    · rw [encMag_ge (by omega), magOf_cons (encMag_ne_nil _ _), ih _ (by omega),
        toNat_ofNat_byte (by omega)]
      omega

theorem negOf_encMag (neg : Bool) (n : Nat) : negOf (encMag neg n) = neg := by
  induction n using Nat.strongRecOn with
  | ind n ih =>
    by_cases h : n < 128
    · rw [encMag_lt h]
      unfold negOf
      rw [toNat_ofNat_byte (by split <;> omega)]
      cases neg <;> simp; omega
    · rw [encMag_ge (by omega), negOf_cons (encMag_ne_nil _ _), ih _ (by omega)]

@[simp] theorem valOf_num (n : Int) : valOf (num n) = n := by
  unfold num
  split
  · subst_vars; rfl
  · unfold valOf
    rw [negOf_encMag, magOf_encMag]
    by_cases h : n < 0 <;> simp [h] <;> omega

theorem num_injective {a b : Int} (h : num a = num b) : a = b := by
  have := congrArg valOf h
  simpa using this

@[simp] theorem num_inj {a b : Int} : num a = num b ↔ a = b :=
  ⟨num_injective, fun h => h ▸ rfl⟩

theorem isMinimal_cons2 {a : UInt8} {r : Elem} (h : 2 ≤ r.length) :
    isMinimal (a :: r) = isMinimal r := by
  match r with
  | [] => simp at h
  | [_] => simp at h
  | b :: c :: r => rfl

theorem isMinimal_encMag (neg : Bool) (n : Nat) (hn : n ≠ 0) : isMinimal (encMag neg n) = true := by
  induction n using Nat.strongRecOn with
  | ind n ih =>
    by_cases h : n < 128
    · rw [encMag_lt h]
      unfold isMinimal
      rw [toNat_ofNat_byte (by split <;> omega)]
      simp only [bne_iff_ne]
      split <;> omega
    · rw [encMag_ge (by omega)]
      by_cases h2 : n / 256 < 128
      · rw [encMag_lt h2]
        unfold isMinimal
        rw [toNat_ofNat_byte (n := n % 256) (by omega),
          toNat_ofNat_byte (n := n / 256 + _) (by split <;> omega)]
        simp only [Bool.or_eq_true, bne_iff_ne, decide_eq_true_eq]
        by_cases h3 : n / 256 = 0
        · right; omega
        · left; split <;> omega
      · rw [isMinimal_cons2, ih _ (by omega) (by omega)]
        rw [encMag_ge (by omega)]
        simp only [List.length_cons]
        have := List.length_pos_iff.mpr (encMag_ne_nil neg (n / 256 / 256))
        omega

theorem isMinimal_num (n : Int) : isMinimal (num n) = true := by
  unfold num
  split
  · rfl
  · exact isMinimal_encMag _ _ (by omega)

theorem length_encMag_le (neg : Bool) (k n : Nat) (h : n < 128 * 256 ^ k) :
    (encMag neg n).length ≤ k + 1 := by
  induction k generalizing n with
  | zero => rw [encMag_lt (by simpa using h)]; simp
  | succ k ih =>
    by_cases h2 : n < 128
    · rw [encMag_lt h2]; simp
    · rw [encMag_ge (by omega)]
      simp only [List.length_cons]
      have : n / 256 < 128 * 256 ^ k := by
        rw [Nat.pow_succ] at h; omega
      have := ih _ this
      omega

theorem magOf_lt (e : Elem) (k : Nat) (h : e.length ≤ k + 1) : magOf e < 128 * 256 ^ k := by
  induction k generalizing e with
  | zero =>
    match e, h with
    | [], _ => simp [magOf]
    | [b], _ => simp only [magOf]; omega
  | succ k ih =>
    match e, h with
    | [], _ => simp [magOf]; exact Nat.pos_of_ne_zero (by simp)
    | [b], _ =>
      simp only [magOf]
      have : 0 < 256 ^ (k+1) := Nat.pos_of_ne_zero (by simp)
      omega
    | b :: c :: r, h =>
      simp only [magOf]
      have h1 := ih (c :: r) (by simp at h ⊢; omega)
      have h2 := b.toNat_lt
      rw [Nat.pow_succ]; omega

theorem valOf_inRange {e : Elem} (h : e.length ≤ 4) : InRange (valOf e) := by
  have := magOf_lt e 3 h
  unfold valOf InRange
  split <;> omega

theorem length_num_le {n : Int} (h : InRange n) : (num n).length ≤ 4 := by
  unfold num
  split
  · simp
  · refine length_encMag_le _ 3 _ ?_
    unfold InRange at h; omega

theorem decodeNum_num {rm : Bool} {n : Int} (h : InRange n) : decodeNum rm (num n) = some n := by
  unfold decodeNum
  rw [if_neg (by have := length_num_le h; omega), isMinimal_num]
  simp

/-- A number outside the four-byte range is rejected as an operand. -/
theorem decodeNum_num_out {rm : Bool} {n : Int} (h : ¬ InRange n) : decodeNum rm (num n) = none := by
  unfold decodeNum
  split
  · rfl
  · rename_i h2
    exfalso; apply h
    have := valOf_inRange (e := num n) (by omega)
    simpa using this

theorem decodeNum_some {rm : Bool} {e : Elem} {n : Int} (h : decodeNum rm e = some n) :
    InRange n ∧ e.length ≤ 4 ∧ valOf e = n := by
  unfold decodeNum at h
  split at h
  · exact absurd h (by simp)
  · split at h
    · exact absurd h (by simp)
    · have := Option.some.inj h
      subst this
      exact ⟨valOf_inRange (by omega), by omega, rfl⟩

theorem num_zero : num 0 = [] := by simp [num]

theorem num_one : num 1 = [1] := by
  unfold num; rw [if_neg (by decide)]
  have : (1:Int).natAbs = 1 := rfl
  rw [this, encMag_lt (by decide)]; rfl

example : num 255 = [255, 0] ∧ num (-255) = [255, 128] ∧ num 0x78000001 = [1, 0, 0, 0x78] := by
  refine ⟨?_, ?_, ?_⟩ <;> decide +kernel

end TapStark
