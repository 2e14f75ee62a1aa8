import Verif.Model.SubGroup
import Verif.Proofs.Fri
import Verif.Spec.BabyBear
import Mathlib.RingTheory.RootsOfUnity.PrimitiveRoots

/-
C87: the table of a subgroup.
-/

namespace TapStark

open Fri

variable {F : Type} [Field F] [DecidableEq F] {gen : Nat → F} {N : Nat}

theorem TwoAdic.primitive (h : TwoAdic gen N) {k : Nat} (hk : k ≤ N) : IsPrimitiveRoot (gen k) (2 ^ k) := by
  rw [IsPrimitiveRoot.iff_orderOf]
  cases k with
  | zero => simp [h.zero]
  | succ k =>
    refine orderOf_eq_prime_pow ?_ (h.order hk)
    rw [h.half hk]
    intro e
    apply h.two_ne
    have : (1 : F) + 1 = 0 := by nth_rw 1 [← e]; ring
    rwa [one_add_one_eq_two] at this

omit [DecidableEq F] in
theorem subGroupLoop_eq (g : F) : ∀ (n k : Nat) (out : List F),
    out = (List.range k).map (g ^ ·) → subGroupLoop g n (g ^ k) out = (List.range (k + n)).map (g ^ ·) := by
  intro n
  induction n with
  | zero => intro k out h; exact h
  | succ n ih =>
    intro k out h
    rw [subGroupLoop, ← pow_succ, ih (k + 1) _ (by rw [h, List.range_succ, List.map_append]; rfl)]
    congr 2
    omega

/-- C87: the table is there iff the field has such a subgroup; it has `2^bits` entries, entry `i` is the `i`-th power of
the generator, no element occurs twice, and the elements are exactly the solutions of `x^(2^bits) = 1`. -/
theorem C87_subgroup (h : TwoAdic gen N) (bits : Nat) :
    (N < bits → subGroup gen N bits = none) ∧
    (bits ≤ N → ∃ t, subGroup gen N bits = some t ∧ t.length = 2 ^ bits ∧
      (∀ i, i < 2 ^ bits → t[i]? = some (gen bits ^ i)) ∧ t.Nodup ∧ ∀ x, x ∈ t ↔ x ^ 2 ^ bits = 1) := by
  constructor
  · intro hb
    rw [subGroup, if_neg (by omega)]
  · intro hb
    have hpos : 0 < 2 ^ bits := by positivity
    have hl := subGroupLoop_eq (gen bits) (2 ^ bits - 1) 1 [1] (by simp)
    rw [pow_one, show 1 + (2 ^ bits - 1) = 2 ^ bits by omega] at hl
    have hp := TwoAdic.primitive h hb
    refine ⟨(List.range (2 ^ bits)).map (gen bits ^ ·), by rw [subGroup, if_pos hb, hl], by simp, ?_, ?_, ?_⟩
    · intro i hi
      simp [hi]
    · refine List.Nodup.map_on ?_ List.nodup_range
      intro i hi j hj e
      exact hp.pow_inj (List.mem_range.mp hi) (List.mem_range.mp hj) e
    · intro x
      simp only [List.mem_map, List.mem_range]
      constructor
      · rintro ⟨i, _, rfl⟩
        rw [← pow_mul, mul_comm, pow_mul, hp.pow_eq_one, one_pow]
      · intro hx
        haveI : NeZero (2 ^ bits) := ⟨by positivity⟩
        obtain ⟨i, hi, e⟩ := hp.eq_pow_of_pow_eq_one hx
        exact ⟨i, hi, e⟩

/-- C87 for BabyBear, and the modulus as an element of the field. -/
theorem C87_babybear (bits : Nat) :
    (27 < bits → subGroup bbGen 27 bits = none) ∧
    (bits ≤ 27 → ∃ t, subGroup bbGen 27 bits = some t ∧ t.length = 2 ^ bits ∧
      (∀ i, i < 2 ^ bits → t[i]? = some (bbGen bits ^ i)) ∧ t.Nodup ∧ ∀ x, x ∈ t ↔ x ^ 2 ^ bits = 1) ∧
    (fieldMod : BB) = 0 :=
  ⟨(C87_subgroup bbGen_twoAdic bits).1, (C87_subgroup bbGen_twoAdic bits).2, by decide⟩

/-- C87, instance: the table of four elements. -/
theorem C87_instance : subGroup bbGen 27 2 = some [1, 1728404513, 2013265920, 284861408] := by
  have : bbGen 2 = 1728404513 := by
    have h : (0x1a427a41 : ZMod 2013265921) ^ 33554432 = 1728404513 := by reduce_mod_char
    exact h
  show some [1, bbGen 2, bbGen 2 * bbGen 2, bbGen 2 * bbGen 2 * bbGen 2] = _
  rw [this]
  decide

end TapStark
