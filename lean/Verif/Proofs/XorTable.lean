/-
Arithmetic of the byte-xor table, checked for all 65536 byte pairs by kernel evaluation.
-/

namespace TapStark

/-- Entry `x` of the table: the odd-position bits of `x`, moved down by one. -/
def xorTab (x : Nat) : Nat := (x &&& 170) / 2

def xorCheck (x y : Nat) : Bool :=
  let s := xorTab x + xorTab y
  let t := (x - 2 * xorTab x) + (y - 2 * xorTab y)
  Nat.ble (2 * xorTab x) x && Nat.ble (2 * xorTab s) s &&
  Nat.ble (2 * xorTab t) t && Nat.blt s 256 && Nat.blt t 256 &&
  Nat.beq (2 * (s - 2 * xorTab s) + (t - 2 * xorTab t)) (x ^^^ y)

def allLt : Nat → (Nat → Bool) → Bool
  | 0, _ => true
  | n+1, p => p n && allLt n p

theorem allLt_of {n : Nat} {p : Nat → Bool} (h : allLt n p = true) {x : Nat} (hx : x < n) :
    p x = true := by
  induction n with
  | zero => omega
  | succ n ih =>
    simp only [allLt, Bool.and_eq_true] at h
    rcases Nat.lt_succ_iff_lt_or_eq.mp hx with h' | h'
    · exact ih h.2 h'
    · exact h' ▸ h.1

theorem xorCheck_all : allLt 256 (fun x => allLt 256 (xorCheck x)) = true := by decide +kernel

theorem xorCheck_of {x y : Nat} (hx : x < 256) (hy : y < 256) : xorCheck x y = true :=
  allLt_of (allLt_of xorCheck_all hx) hy

theorem xorTab_le {x : Nat} (hx : x < 256) : 2 * xorTab x ≤ x := by
  have := xorCheck_of hx (y := 0) (by decide)
  simp only [xorCheck, Bool.and_eq_true, Nat.ble_eq] at this
  exact this.1.1.1.1.1

end TapStark
