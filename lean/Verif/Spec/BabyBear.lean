import Verif.Spec.Fri
import Mathlib.NumberTheory.LucasPrimality
import Mathlib.Tactic.ReduceModChar
import Mathlib.FieldTheory.Finite.Basic

/-!
The BabyBear field (crate p3-baby-bear) and its two-adic generators.
-/

namespace TapStark

/-- The BabyBear prime `15·2^27 + 1`. -/
abbrev bbP : Nat := 2013265921

/-- The BabyBear field. -/
abbrev BB := ZMod bbP

instance bbP_prime : Fact (Nat.Prime bbP) := by
  refine ⟨lucas_primality bbP 31 (by reduce_mod_char) ?_⟩
  intro q hq hd
  have hf : bbP - 1 = 2 ^ 27 * (3 * 5) := by decide
  rw [hf, hq.dvd_mul, hq.dvd_mul] at hd
  rcases hd with h | h | h
  · rw [(Nat.prime_dvd_prime_iff_eq hq Nat.prime_two).1 (hq.dvd_of_dvd_pow h),
      show (bbP - 1) / 2 = 1006632960 by decide]
    have : (31 : ZMod 2013265921) ^ 1006632960 = 2013265920 := by reduce_mod_char
    rw [this]; decide
  · rw [(Nat.prime_dvd_prime_iff_eq hq Nat.prime_three).1 h,
      show (bbP - 1) / 3 = 671088640 by decide]
    have : (31 : ZMod 2013265921) ^ 671088640 = 1314723123 := by reduce_mod_char
    rw [this]; decide
  · rw [(Nat.prime_dvd_prime_iff_eq hq Nat.prime_five).1 h,
      show (bbP - 1) / 5 = 402653184 by decide]
    have : (31 : ZMod 2013265921) ^ 402653184 = 645581151 := by reduce_mod_char
    rw [this]; decide

/-- `two_adic_generator(b)` of BabyBear: powers of the generator `0x1a427a41` of the subgroup of order
`2^27`. -/
def bbGen (b : Nat) : BB := 0x1a427a41 ^ 2 ^ (27 - b)

theorem bbGen_twoAdic : Fri.TwoAdic bbGen 27 where
  two_ne := by decide
  zero := by
    have : (0x1a427a41 : ZMod 2013265921) ^ 134217728 = 1 := by reduce_mod_char
    exact this
  one := by
    have : (0x1a427a41 : ZMod 2013265921) ^ 67108864 = 2013265920 := by reduce_mod_char
    exact this.trans (by decide)
  sq := by
    intro b hb
    unfold bbGen
    rw [← pow_mul, ← pow_succ, show 27 - (b + 1) + 1 = 27 - b by omega]

end TapStark
