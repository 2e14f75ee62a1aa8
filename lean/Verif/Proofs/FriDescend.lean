import Verif.Proofs.FriSound

/-!
A word that is constant on the fibres of repeated squaring and close to low degree comes from a polynomial of lower degree
on the smaller domain (for C110, C111).
-/

namespace TapStark.Fri

open Polynomial Finset

variable {F : Type} [Field F] [DecidableEq F] {gen : Nat → F} {N : Nat}

omit [DecidableEq F] in
theorem degree_contract {p q : F[X]} {d : Nat} (hp : p.degree < ((2 * d : Nat) : WithBot Nat))
    (hq : ∀ n, q.coeff n = p.coeff (2 * n) ∨ q.coeff n = p.coeff (2 * n + 1)) : q.degree < (d : WithBot Nat) := by
  rw [degree_lt_iff_coeff_zero] at hp ⊢
  intro n hn
  rcases hq n with h | h <;> rw [h] <;> exact hp _ (by omega)

/-- One squaring. -/
theorem descend_one (hg : TwoAdic gen N) {h d m : Nat} (hN : h + 1 ≤ N) (hm : m + d ≤ 2 ^ h) (f : Nat → F) {p : F[X]}
    (hp : p.degree < ((2 * d : Nat) : WithBot Nat)) {A : Finset Nat} (hA : ∀ i ∈ A, i < 2 ^ (h + 1))
    (hc : 2 ^ (h + 1) ≤ A.card + m) (hf : ∀ i ∈ A, f (i / 2) = p.eval (pointAt gen (h + 1) i)) :
    ∃ q : F[X], q.degree < (d : WithBot Nat) ∧ ∀ i ∈ A, f (i / 2) = q.eval (pointAt gen h (i / 2)) := by
  have h0 : (contract 2 p).degree < (d : WithBot Nat) :=
    degree_contract hp fun n => .inl (by rw [coeff_contract (by omega), mul_comm])
  have h1 : (contract 2 p.divX).degree < (d : WithBot Nat) :=
    degree_contract hp fun n => .inr (by rw [coeff_contract (by omega), coeff_divX, mul_comm])
  -- the pairs that lie in `A`
  let B := (range (2 ^ h)).filter fun j => 2 * j ∈ A ∧ 2 * j + 1 ∈ A
  have hB : 2 ^ h ≤ B.card + m := by
    have hsub : A ⊆ (B.image (2 * ·) ∪ B.image (2 * · + 1)) ∪
        ((range (2 ^ h)).filter fun j => ¬(2 * j ∈ A ∧ 2 * j + 1 ∈ A)).image
          fun j => if 2 * j ∈ A then 2 * j else 2 * j + 1 := by
      intro i hi
      have hlt := hA i hi
      rw [pow_succ] at hlt
      by_cases hb : 2 * (i / 2) ∈ A ∧ 2 * (i / 2) + 1 ∈ A
      · refine mem_union_left _ ?_
        have hb' : i / 2 ∈ B := mem_filter.2 ⟨mem_range.2 (by omega), hb⟩
        rcases Nat.even_or_odd' i with ⟨j, hj | hj⟩
        · exact mem_union_left _ (mem_image.2 ⟨i / 2, hb', by omega⟩)
        · exact mem_union_right _ (mem_image.2 ⟨i / 2, hb', by omega⟩)
      · refine mem_union_right _ (mem_image.2 ⟨i / 2, mem_filter.2 ⟨mem_range.2 (by omega), hb⟩, ?_⟩)
        rcases Nat.even_or_odd' i with ⟨j, hj | hj⟩
        · have : 2 * (i / 2) = i := by omega
          rw [this, if_pos hi]
        · have e : 2 * (i / 2) + 1 = i := by omega
          rw [if_neg (fun hcon => hb ⟨hcon, by rwa [e]⟩), e]
    have hcard := card_le_card hsub
    have hu := (card_union_le (B.image (2 * ·) ∪ B.image (2 * · + 1))
      (((range (2 ^ h)).filter fun j => ¬(2 * j ∈ A ∧ 2 * j + 1 ∈ A)).image
          fun j => if 2 * j ∈ A then 2 * j else 2 * j + 1))
    have hu2 := card_union_le (B.image (2 * ·)) (B.image (2 * · + 1))
    have i1 : (B.image (2 * ·)).card ≤ B.card := card_image_le
    have i2 : (B.image (2 * · + 1)).card ≤ B.card := card_image_le
    have i3 : (((range (2 ^ h)).filter fun j => ¬(2 * j ∈ A ∧ 2 * j + 1 ∈ A)).image
          fun j => if 2 * j ∈ A then 2 * j else 2 * j + 1).card ≤
        ((range (2 ^ h)).filter fun j => ¬(2 * j ∈ A ∧ 2 * j + 1 ∈ A)).card := card_image_le
    have hs : B.card + ((range (2 ^ h)).filter fun j => ¬(2 * j ∈ A ∧ 2 * j + 1 ∈ A)).card = 2 ^ h := by
      have := card_filter_add_card_filter_not (s := range (2 ^ h)) (fun j => 2 * j ∈ A ∧ 2 * j + 1 ∈ A)
      rwa [card_range] at this
    rw [pow_succ] at hc
    omega
  have hodd : contract 2 p.divX = 0 := by
    refine eq_zero_of_degree_lt_of_eval_finset_eq_zero (B.image (pointAt gen h)) ?_ ?_
    · rw [card_image_of_injOn]
      · refine lt_of_lt_of_le h1 ?_
        exact_mod_cast (by omega : d ≤ B.card)
      · intro i hi j hj hij
        exact pointAt_inj hg (by omega) (mem_range.1 (mem_filter.1 hi).1) (mem_range.1 (mem_filter.1 hj).1) hij
    · intro x hx
      obtain ⟨j, hj, rfl⟩ := mem_image.1 hx
      obtain ⟨b0, b1⟩ := (mem_filter.1 hj).2
      have e0 := hf _ b0
      have e1 := hf _ b1
      have hsq := pointAt_sq hg hN (2 * j)
      have hsq1 := pointAt_sq hg hN (2 * j + 1)
      rw [show 2 * j / 2 = j by omega] at e0 hsq
      rw [show (2 * j + 1) / 2 = j by omega] at e1 hsq1
      rw [eval_split, hsq] at e0
      rw [eval_split, hsq1] at e1
      have p0 : pointAt gen (h + 1) (2 * j) = gen (h + 1) ^ revBits h j := pointAt_even hg j
      have p1 : pointAt gen (h + 1) (2 * j + 1) = -(gen (h + 1) ^ revBits h j) := hg.point_odd hN j
      rw [p0] at e0
      rw [p1] at e1
      have hx : gen (h + 1) ^ revBits h j ≠ 0 := pow_ne_zero _ (hg.ne_zero hN)
      have : 2 * (gen (h + 1) ^ revBits h j) * (contract 2 p.divX).eval (pointAt gen h j) = 0 := by
        linear_combination e1 - e0
      rcases mul_eq_zero.1 this with h' | h'
      · rcases mul_eq_zero.1 h' with h' | h'
        · exact absurd h' hg.two_ne
        · exact absurd h' hx
      · exact h'
  refine ⟨contract 2 p, h0, fun i hi => ?_⟩
  rw [hf i hi, eval_split, hodd, eval_zero, mul_zero, add_zero, pointAt_sq hg hN]

theorem image_div_card {A : Finset Nat} {n m e : Nat} (hc : n * 2 ^ e ≤ A.card + m) :
    n ≤ (A.image (· / 2 ^ e)).card + m / 2 ^ e := by
  have hpos := Nat.two_pow_pos e
  have h1 : A.card ≤ 2 ^ e * (A.image (· / 2 ^ e)).card := by
    refine card_le_mul_card_image A _ fun j _ => ?_
    have : (A.filter fun i => i / 2 ^ e = j) ⊆ (range (2 ^ e)).image (j * 2 ^ e + ·) := by
      intro i hi
      have := (mem_filter.1 hi).2
      refine mem_image.2 ⟨i % 2 ^ e, mem_range.2 (Nat.mod_lt _ hpos), ?_⟩
      rw [← this, Nat.mul_comm]
      exact Nat.div_add_mod i (2 ^ e)
    refine (card_le_card this).trans (card_image_le.trans ?_)
    rw [card_range]
  rw [← Nat.mul_add_div hpos, Nat.le_div_iff_mul_le hpos]
  omega

/-- Any number of squarings. -/
theorem descend_many (hg : TwoAdic gen N) {k b : Nat} (f : Nat → F) : ∀ (e : Nat) {m : Nat} {p : F[X]} {A : Finset Nat},
    k + e + b ≤ N → 2 * m + 2 ^ (k + e) ≤ 2 ^ (k + e + b) → p.degree < ((2 ^ (k + e) : Nat) : WithBot Nat) →
    (∀ i ∈ A, i < 2 ^ (k + e + b)) → 2 ^ (k + e + b) ≤ A.card + m →
    (∀ i ∈ A, f (i / 2 ^ e) = p.eval (pointAt gen (k + e + b) i)) →
    ∃ q : F[X], q.degree < ((2 ^ k : Nat) : WithBot Nat) ∧
      ∀ j ∈ A.image (· / 2 ^ e), f j = q.eval (pointAt gen (k + b) j)
  | 0, m, p, A, _, _, hp, _, _, hf => ⟨p, hp, fun j hj => by
      obtain ⟨i, hi, rfl⟩ := mem_image.1 hj
      simpa using hf i hi⟩
  | e + 1, m, p, A, hN, hm, hp, hA, hc, hf => by
    have e1 : k + (e + 1) + b = k + e + b + 1 := by omega
    have e2 : 2 ^ (k + (e + 1)) = 2 * 2 ^ (k + e) := by rw [← pow_succ']; congr 1
    rw [e1] at hN hm hA hc
    rw [e2] at hm hp
    have hm' : m + 2 ^ (k + e) ≤ 2 ^ (k + e + b) := by rw [pow_succ] at hm; omega
    obtain ⟨q, hq, hqe⟩ := descend_one hg hN hm' (fun i => f (i / 2 ^ e)) hp hA hc (fun i hi => by
      have := hf i hi
      rw [e1] at this
      rw [Nat.div_div_eq_div_mul, ← pow_succ']
      exact this)
    obtain ⟨q', hq', hqe'⟩ := descend_many hg (k := k) (b := b) f e (m := m / 2) (p := q) (A := A.image (· / 2)) (by omega)
      (by omega) hq (fun j hj => by
        obtain ⟨i, hi, rfl⟩ := mem_image.1 hj
        have := hA i hi
        rw [pow_succ] at this
        show i / 2 < _
        omega)
      (by
        have := image_div_card (A := A) (n := 2 ^ (k + e + b)) (m := m) (e := 1) (by rw [← pow_add]; exact hc)
        simpa using this)
      (fun j hj => by
        obtain ⟨i, hi, rfl⟩ := mem_image.1 hj
        exact hqe i hi)
    refine ⟨q', hq', fun j hj => ?_⟩
    obtain ⟨i, hi, rfl⟩ := mem_image.1 hj
    refine hqe' _ (mem_image.2 ⟨i / 2, mem_image.2 ⟨i, hi, rfl⟩, ?_⟩)
    rw [Nat.div_div_eq_div_mul, ← pow_succ']

end TapStark.Fri
