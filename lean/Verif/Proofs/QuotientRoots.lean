import Verif.Props.SubGroup
import Verif.Proofs.StarkPoly
import Mathlib.RingTheory.RootsOfUnity.PrimitiveRoots

/-
Products over roots of unity, for the weights of quotient chunks.
-/

namespace TapStark.Stark

open Polynomial TapStark.Fri

theorem prod_filter_range {M : Type} [CommMonoid M] (q i : Nat) (f : Nat → M) :
    (((List.range q).filter (· ≠ i)).map f).prod = ∏ j ∈ (Finset.range q).erase i, f j := by
  rw [← List.prod_toFinset _ (List.nodup_range.filter _)]
  refine Finset.prod_congr ?_ fun _ _ => rfl
  ext j
  simp [and_comm]

variable {F : Type} [Field F] [DecidableEq F] {w : F} {q : Nat}

/-- The roots of unity but one, as powers and as a set. -/
theorem prod_roots (h : IsPrimitiveRoot w q) (hq : 0 < q) {i : Nat} (hi : i < q) (f : F → F) :
    ∏ j ∈ (Finset.range q).erase i, f (w ^ j) = ∏ x ∈ (nthRootsFinset q (1 : F)).erase (w ^ i), f x := by
  refine Finset.prod_nbij (fun j => w ^ j) ?_ ?_ ?_ fun _ _ => rfl
  · intro j hj
    obtain ⟨hne, hj⟩ := Finset.mem_erase.1 hj
    refine Finset.mem_erase.2 ⟨fun e => hne (h.pow_inj (Finset.mem_range.1 hj) hi e), ?_⟩
    rw [mem_nthRootsFinset hq, ← pow_mul, mul_comm, pow_mul, h.pow_eq_one, one_pow]
  · intro j hj j' hj' e
    exact h.pow_inj (Finset.mem_range.1 (Finset.mem_erase.1 hj).2) (Finset.mem_range.1 (Finset.mem_erase.1 hj').2) e
  · intro x hx
    obtain ⟨hne, hx⟩ := Finset.mem_erase.1 hx
    rw [mem_nthRootsFinset hq] at hx
    have : NeZero q := ⟨by omega⟩
    obtain ⟨j, hj, rfl⟩ := h.eq_pow_of_pow_eq_one hx
    exact ⟨j, Finset.mem_coe.2 (Finset.mem_erase.2 ⟨fun e => hne (by rw [e]), Finset.mem_range.2 hj⟩), rfl⟩

/-- Dividing `c` by the roots. -/
theorem prod_flip (hq : 0 < q) {a c : F} (ha : a ^ q = 1) (hc : c ^ q = 1) (f : F → F) :
    ∏ x ∈ (nthRootsFinset q (1 : F)).erase a, f x = ∏ x ∈ (nthRootsFinset q (1 : F)).erase (c / a), f (c / x) := by
  have ne : ∀ {x : F}, x ^ q = 1 → x ≠ 0 := fun h h0 => by rw [h0, zero_pow (by omega)] at h; exact zero_ne_one h
  have hc0 := ne hc
  have inv : ∀ x : F, x ≠ 0 → c / (c / x) = x := fun x hx => by field_simp
  refine Finset.prod_nbij' (fun x => c / x) (fun x => c / x) ?_ ?_ ?_ ?_ ?_
  · intro x hx
    obtain ⟨hne, hx⟩ := Finset.mem_erase.1 hx
    rw [mem_nthRootsFinset hq] at hx
    refine Finset.mem_erase.2 ⟨fun e => hne ?_, by rw [mem_nthRootsFinset hq, div_pow, hc, hx, div_one]⟩
    have := congrArg (c / ·) e
    simpa [inv x (ne hx), inv a (ne ha)] using this
  · intro x hx
    obtain ⟨hne, hx⟩ := Finset.mem_erase.1 hx
    rw [mem_nthRootsFinset hq] at hx
    refine Finset.mem_erase.2 ⟨fun e => hne ?_, by rw [mem_nthRootsFinset hq, div_pow, hc, hx, div_one]⟩
    rw [← e, inv x (ne hx)]
  · intro x hx
    have := (Finset.mem_erase.1 hx).2
    rw [mem_nthRootsFinset hq] at this
    exact inv x (ne this)
  · intro x hx
    have := (Finset.mem_erase.1 hx).2
    rw [mem_nthRootsFinset hq] at this
    exact inv x (ne this)
  · intro x hx
    have := (Finset.mem_erase.1 hx).2
    rw [mem_nthRootsFinset hq] at this
    simp only [inv x (ne this)]

/-- Multiplying the roots by one of them. -/
theorem prod_scale (hq : 0 < q) {a : F} (ha : a ^ q = 1) (f : F → F) :
    ∏ x ∈ (nthRootsFinset q (1 : F)).erase a, f x = ∏ x ∈ (nthRootsFinset q (1 : F)).erase 1, f (a * x) := by
  have ha0 : a ≠ 0 := fun h0 => by rw [h0, zero_pow (by omega)] at ha; exact zero_ne_one ha
  rw [prod_flip hq ha ha, div_self ha0, prod_flip (c := 1) hq (one_pow q) (one_pow q), div_one]
  refine Finset.prod_congr rfl fun x hx => ?_
  rw [one_div, div_inv_eq_mul]

/-- The product of the differences from one, over the roots but one. -/
noncomputable def rootDiff (F : Type) [Field F] [DecidableEq F] (q : Nat) : F :=
  ∏ x ∈ (nthRootsFinset q (1 : F)).erase 1, (x - 1)

/-- Both orders of the quotients of two roots give the same product. -/
theorem prod_ratio (h : IsPrimitiveRoot w q) {i : Nat} (hi : i < q) :
    ∏ j ∈ (Finset.range q).erase i, (w ^ i / w ^ j - 1) = rootDiff F q ∧
      ∏ j ∈ (Finset.range q).erase i, (w ^ j / w ^ i - 1) = rootDiff F q := by
  have hq : 0 < q := by omega
  have h1 : (w ^ i) ^ q = 1 := by rw [← pow_mul, mul_comm, pow_mul, h.pow_eq_one, one_pow]
  have h0 : w ^ i ≠ 0 := fun h0 => by rw [h0, zero_pow (by omega)] at h1; exact zero_ne_one h1
  have e2 : ∏ j ∈ (Finset.range q).erase i, (w ^ j / w ^ i - 1) = rootDiff F q := by
    rw [prod_roots h hq hi fun x => x / w ^ i - 1, prod_scale hq h1, rootDiff]
    refine Finset.prod_congr rfl fun x hx => ?_
    rw [mul_div_cancel_left₀ _ h0]
  refine ⟨?_, e2⟩
  rw [← e2, prod_roots h hq hi fun x => w ^ i / x - 1, prod_roots h hq hi fun x => x / w ^ i - 1,
    prod_flip (c := w ^ i * w ^ i) hq h1 (by rw [mul_pow, h1, one_mul]), mul_div_cancel_left₀ _ h0]
  refine Finset.prod_congr rfl fun x hx => ?_
  have hx := (Finset.mem_erase.1 hx).2
  rw [mem_nthRootsFinset hq] at hx
  have hx0 : x ≠ 0 := fun h0 => by rw [h0, zero_pow (by omega)] at hx; exact zero_ne_one hx
  field_simp

/-- Powers with the exponents reversed: index `i` becomes index `q - i`, and `0` stays. -/
theorem prod_reverse (h : IsPrimitiveRoot w q) {i : Nat} (hi : i < q) (y : F) :
    ∏ j ∈ (Finset.range q).erase i, (w ^ j * y - 1) = ∏ j ∈ (Finset.range q).erase ((q - i) % q), (y / w ^ j - 1) := by
  have hq : 0 < q := by omega
  have h1 : (w ^ i) ^ q = 1 := by rw [← pow_mul, mul_comm, pow_mul, h.pow_eq_one, one_pow]
  have h0 : w ^ i ≠ 0 := fun h0 => by rw [h0, zero_pow (by omega)] at h1; exact zero_ne_one h1
  have e : w ^ ((q - i) % q) = 1 / w ^ i := by
    rw [eq_div_iff h0]
    have : w ^ ((q - i) % q) = w ^ (q - i) := by
      conv_rhs => rw [← Nat.div_add_mod (q - i) q, pow_add, pow_mul, h.pow_eq_one, one_pow, one_mul]
    rw [this, ← pow_add, Nat.sub_add_cancel hi.le, h.pow_eq_one]
  rw [prod_roots h hq hi fun x => x * y - 1, prod_roots h hq (Nat.mod_lt _ hq) fun x => y / x - 1, e,
    prod_flip (c := 1) hq h1 (one_pow q)]
  refine Finset.prod_congr rfl fun x _ => ?_
  rw [one_div, inv_mul_eq_div]

end TapStark.Stark
