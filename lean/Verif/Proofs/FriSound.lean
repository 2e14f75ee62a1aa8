import Verif.Spec.FriSound
import Verif.Proofs.Fri
import Mathlib.LinearAlgebra.Lagrange
import Mathlib.Combinatorics.Enumerative.DoubleCounting
import Mathlib.Tactic.Linarith

/-! Proximity of lines of words to a Reed-Solomon code within a third of its distance, and the iteration of any such
result over the rounds. -/

set_option linter.unusedSectionVars false

namespace TapStark.Fri

open Polynomial Finset

variable {F : Type} [Field F] [DecidableEq F]

section Line

variable [Fintype F] {ι : Type} [Fintype ι] [DecidableEq ι]

/-- But for `B` values of `β`, an agreement of the line `u0 + β u1` with the code outside `e` positions comes from an
agreement of `u0` and `u1` with the code at the same positions. -/
def LineGap (pt : ι → F) (k e B : Nat) (u0 u1 : ι → F) : Prop :=
  ∃ bad : Finset F, bad.card ≤ B ∧ ∀ β, β ∉ bad → ∀ p : F[X], p.degree < k →
    (univ.filter fun i => u0 i + β * u1 i ≠ p.eval (pt i)).card ≤ e →
    ∃ c0 c1 : F[X], c0.degree < k ∧ c1.degree < k ∧
      ∀ i, u0 i + β * u1 i = p.eval (pt i) → u0 i = c0.eval (pt i) ∧ u1 i = c1.eval (pt i)

/-- If the codewords close to the line, for at least `e + 2` challenges, lie on one line of codewords, the agreement is
an agreement of the two words. -/
theorem line_finish (pt : ι → F) {k e : Nat} (u0 u1 : ι → F) (c0 c1 : F[X]) (hc0d : c0.degree < k) (hc1d : c1.degree < k)
    (near : Finset F) (hn : e + 1 < near.card)
    (hnear : ∀ β ∈ near, ∃ p : F[X], p.degree < k ∧ (univ.filter fun i => u0 i + β * u1 i ≠ p.eval (pt i)).card ≤ e)
    (hline : ∀ (β : F) (p : F[X]), p.degree < k →
      (univ.filter fun i => u0 i + β * u1 i ≠ p.eval (pt i)).card ≤ e → p = c0 + C β * c1) :
    LineGap pt k e e u0 u1 := by
  classical
  let S : Finset ι := univ.filter fun i => ¬ (u0 i = c0.eval (pt i) ∧ u1 i = c1.eval (pt i))
  have hS : S.card ≤ e := by
    by_contra hS
    push Not at hS
    obtain ⟨T, hT, hTc⟩ := exists_subset_card_eq (show e + 2 ≤ near.card by omega)
    let R : F → ι → Prop := fun β i => u0 i + β * u1 i = c0.eval (pt i) + β * c1.eval (pt i)
    have hdc := Finset.sum_card_bipartiteAbove_eq_sum_card_bipartiteBelow (s := T) (t := S) R
    have hlo : ∀ β ∈ T, S.card - e ≤ (bipartiteAbove R S β).card := by
      intro β hβ
      obtain ⟨p, hp⟩ := hnear β (hT hβ)
      have hpe := hline β p hp.1 hp.2
      have hcov : S ⊆ bipartiteAbove R S β ∪ univ.filter fun i => u0 i + β * u1 i ≠ p.eval (pt i) := by
        intro i hi
        simp only [mem_union, mem_bipartiteAbove, mem_filter, mem_univ, true_and, R]
        rw [hpe, eval_add, eval_mul, eval_C]
        tauto
      have h1 := (card_le_card hcov).trans (card_union_le _ _)
      have h2 := hp.2
      omega
    have hhi : ∀ i ∈ S, (bipartiteBelow R T i).card ≤ 1 := by
      intro i hi
      rw [card_le_one]
      intro a ha b hb
      obtain ⟨-, ha⟩ := (mem_bipartiteBelow R).1 ha
      obtain ⟨-, hb⟩ := (mem_bipartiteBelow R).1 hb
      by_contra hab
      apply (mem_filter.1 hi).2
      have h1 : (a - b) * (u1 i - c1.eval (pt i)) = 0 := by
        simp only [R] at ha hb
        linear_combination ha - hb
      have h2 : u1 i = c1.eval (pt i) := by
        rcases mul_eq_zero.1 h1 with h | h
        · exact absurd (sub_eq_zero.1 h) hab
        · exact sub_eq_zero.1 h
      refine ⟨?_, h2⟩
      simp only [R, h2] at ha
      exact add_right_cancel ha
    have h1 := Finset.sum_le_sum hlo
    have h2 := Finset.sum_le_sum hhi
    simp only [sum_const, smul_eq_mul, mul_one] at h1 h2
    rw [hdc, hTc] at h1
    obtain ⟨t, ht⟩ : ∃ t, S.card = e + 1 + t := ⟨S.card - (e + 1), by omega⟩
    have h3 : (e + 2) * (1 + t) ≤ e + 1 + t := by
      have := h1.trans h2
      rw [ht, show e + 1 + t - e = 1 + t by omega] at this
      exact this
    nlinarith
  refine ⟨S.image fun i => (c0.eval (pt i) - u0 i) / (u1 i - c1.eval (pt i)), ?_, ?_⟩
  · exact card_image_le.trans hS
  · intro β hβ p hp hc
    refine ⟨c0, c1, hc0d, hc1d, fun i hi => ?_⟩
    by_contra hno
    apply hβ
    have hiS : i ∈ S := mem_filter.2 ⟨mem_univ _, hno⟩
    refine mem_image.2 ⟨i, hiS, ?_⟩
    rw [hline β p hp hc, eval_add, eval_mul, eval_C] at hi
    have h1 : u1 i - c1.eval (pt i) ≠ 0 := by
      intro h0
      have h2 := sub_eq_zero.1 h0
      rw [h2] at hi
      exact hno ⟨add_right_cancel hi, h2⟩
    rw [div_eq_iff h1]
    linear_combination -hi

/-- Within a third of the distance. -/
theorem line_close (pt : ι → F) (hpt : Function.Injective pt) {k e : Nat} (hk : 3 * e + k ≤ Fintype.card ι)
    (u0 u1 : ι → F) : LineGap pt k e (e + 1) u0 u1 := by
  classical
  let Near : F → F[X] → Prop := fun β p => p.degree < k ∧
    (univ.filter fun i => u0 i + β * u1 i ≠ p.eval (pt i)).card ≤ e
  let near : Finset F := univ.filter fun β => ∃ p, Near β p
  by_cases hn : near.card ≤ e + 1
  · refine ⟨near, hn, fun β hβ p hp hc => ?_⟩
    exact absurd (mem_filter.2 ⟨mem_univ _, p, hp, hc⟩) hβ
  push Not at hn
  obtain ⟨β1, hβ1, β2, hβ2, hne⟩ := Finset.one_lt_card.1 (show 1 < near.card by omega)
  obtain ⟨p1, hp1, hc1⟩ := (mem_filter.1 hβ1).2
  obtain ⟨p2, hp2, hc2⟩ := (mem_filter.1 hβ2).2
  have hd : β1 - β2 ≠ 0 := sub_ne_zero.2 hne
  let c1 : F[X] := C (β1 - β2)⁻¹ * (p1 - p2)
  let c0 : F[X] := p1 - C β1 * c1
  have hmul : ∀ (a : F) (q : F[X]), q.degree < k → (C a * q).degree < k := fun a q hq =>
    lt_of_le_of_lt (by rw [← smul_eq_C_mul]; exact degree_smul_le a q) hq
  have hsub : ∀ q r : F[X], q.degree < k → r.degree < k → (q - r).degree < k := fun q r hq hr =>
    lt_of_le_of_lt (degree_sub_le q r) (max_lt hq hr)
  have hc1d : c1.degree < k := hmul _ _ (hsub _ _ hp1 hp2)
  have hc0d : c0.degree < k := hsub _ _ hp1 (hmul _ _ hc1d)
  have hag : ∀ i, u0 i + β1 * u1 i = p1.eval (pt i) → u0 i + β2 * u1 i = p2.eval (pt i) →
      u0 i = c0.eval (pt i) ∧ u1 i = c1.eval (pt i) := by
    intro i h1 h2
    have h3 : u1 i = c1.eval (pt i) := by
      simp only [c1, eval_mul, eval_C, eval_sub, ← h1, ← h2]
      field_simp
      ring
    refine ⟨?_, h3⟩
    simp only [c0, eval_sub, eval_mul, eval_C, ← h3, ← h1]
    ring
  clear_value c0 c1
  -- every close codeword lies on the line
  have hline : ∀ β p, Near β p → p = c0 + C β * c1 := by
    rintro β p ⟨hp, hc⟩
    rw [← sub_eq_zero]
    have hdeg : (p - (c0 + C β * c1)).degree < k :=
      hsub _ _ hp (lt_of_le_of_lt (degree_add_le _ _) (max_lt hc0d (hmul _ _ hc1d)))
    let G : Finset ι := univ.filter fun i => u0 i + β * u1 i = p.eval (pt i) ∧
      u0 i + β1 * u1 i = p1.eval (pt i) ∧ u0 i + β2 * u1 i = p2.eval (pt i)
    have hG : k ≤ G.card := by
      have hcover : (univ : Finset ι) ⊆ G ∪ ((univ.filter fun i => u0 i + β * u1 i ≠ p.eval (pt i)) ∪
          ((univ.filter fun i => u0 i + β1 * u1 i ≠ p1.eval (pt i)) ∪
            (univ.filter fun i => u0 i + β2 * u1 i ≠ p2.eval (pt i)))) := by
        intro i _
        simp only [G, mem_union, mem_filter, mem_univ, true_and]
        tauto
      have h1 := card_le_card hcover
      have h2 := card_union_le G ((univ.filter fun i => u0 i + β * u1 i ≠ p.eval (pt i)) ∪
          ((univ.filter fun i => u0 i + β1 * u1 i ≠ p1.eval (pt i)) ∪
            (univ.filter fun i => u0 i + β2 * u1 i ≠ p2.eval (pt i))))
      have h3 := card_union_le (univ.filter fun i => u0 i + β * u1 i ≠ p.eval (pt i))
          ((univ.filter fun i => u0 i + β1 * u1 i ≠ p1.eval (pt i)) ∪
            (univ.filter fun i => u0 i + β2 * u1 i ≠ p2.eval (pt i)))
      have h4 := card_union_le (univ.filter fun i => u0 i + β1 * u1 i ≠ p1.eval (pt i))
            (univ.filter fun i => u0 i + β2 * u1 i ≠ p2.eval (pt i))
      rw [card_univ] at h1
      omega
    refine eq_zero_of_degree_lt_of_eval_finset_eq_zero (G.image pt) ?_ ?_
    · rw [card_image_of_injective _ hpt]
      exact lt_of_lt_of_le hdeg (by exact_mod_cast hG)
    · intro x hx
      obtain ⟨i, hi, rfl⟩ := mem_image.1 hx
      obtain ⟨-, g1, g2, g3⟩ := mem_filter.1 hi
      obtain ⟨g4, g5⟩ := hag i g2 g3
      rw [eval_sub, eval_add, eval_mul, eval_C, ← g1, ← g4, ← g5, sub_self]
  obtain ⟨bad, hb, hbad⟩ := line_finish pt u0 u1 c0 c1 hc0d hc1d near (by omega) (fun β hβ => (mem_filter.1 hβ).2)
    (fun β p hp hc => hline β p ⟨hp, hc⟩)
  exact ⟨bad, hb.trans (by omega), hbad⟩

end Line

/-! ### Points -/

section
variable {gen : Nat → F} {N : Nat} (hg : TwoAdic gen N)
include hg

theorem pointAt_even {k : Nat} (i : Nat) : pointAt gen (k + 1) (2 * i) = gen (k + 1) ^ revBits k i := by
  rw [pointAt, revBits_even]

theorem pointAt_sq {k : Nat} (hk : k + 1 ≤ N) (i : Nat) : pointAt gen (k + 1) i ^ 2 = pointAt gen k (i / 2) := by
  rcases Nat.even_or_odd' i with ⟨j, rfl | rfl⟩
  · rw [pointAt, revBits_even, hg.point_sq hk, pointAt, show 2 * j / 2 = j by omega]
  · rw [pointAt, hg.point_odd hk, neg_sq, hg.point_sq hk, pointAt, show (2 * j + 1) / 2 = j by omega]

theorem pointAt_inj : ∀ {k : Nat}, k ≤ N → ∀ {i j : Nat}, i < 2 ^ k → j < 2 ^ k →
    pointAt gen k i = pointAt gen k j → i = j
  | 0, _, i, j, hi, hj, _ => by simp at hi hj; omega
  | k + 1, hk, i, j, hi, hj, h => by
    have h2 : i / 2 = j / 2 := by
      refine pointAt_inj (k := k) (by omega) (by rw [pow_succ] at hi; omega) (by rw [pow_succ] at hj; omega) ?_
      rw [← pointAt_sq hg hk, ← pointAt_sq hg hk, h]
    have hne : gen (k + 1) ^ revBits k (i / 2) ≠ 0 := pow_ne_zero _ (hg.ne_zero hk)
    have hcon : ∀ x : F, x ≠ 0 → x ≠ -x := by
      intro x hx he
      have : 2 * x = 0 := by linear_combination he
      rcases mul_eq_zero.1 this with h | h
      · exact hg.two_ne h
      · exact hx h
    rcases Nat.even_or_odd' i with ⟨a, rfl | rfl⟩ <;> rcases Nat.even_or_odd' j with ⟨b, rfl | rfl⟩
    · omega
    · obtain rfl : a = b := by omega
      rw [pointAt, pointAt, revBits_even, hg.point_odd hk] at h
      exact absurd h (hcon _ (by rwa [show 2 * a / 2 = a by omega] at hne))
    · obtain rfl : a = b := by omega
      rw [pointAt, pointAt, revBits_even, hg.point_odd hk] at h
      exact absurd h.symm (hcon _ (by rwa [show (2 * a + 1) / 2 = a by omega] at hne))
    · omega

end

/-! ### One round -/

section Round

variable [Fintype F] {gen : Nat → F} {N : Nat}

/-- If a folded word agrees with a polynomial on most pairs then, but for `B` challenges, the word itself agrees
with a polynomial of twice the degree on all these pairs. -/
theorem fold_close (hg : TwoAdic gen N) {h k e B : Nat} (hN : h + 1 ≤ N)
    (hk : ∀ u0 u1 : Fin (2 ^ h) → F, LineGap (fun i : Fin (2 ^ h) => pointAt gen h i) k e B u0 u1) (w : Nat → F) :
    ∃ bad : Finset F, bad.card ≤ B ∧ ∀ β, β ∉ bad → ∀ (p : F[X]) (A : Finset Nat), p.degree < k →
      (∀ i ∈ A, i < 2 ^ h) → 2 ^ h ≤ A.card + e →
      (∀ i ∈ A, lineAt (gen (h + 1) ^ revBits h i) β (w (2 * i)) (w (2 * i + 1)) = p.eval (pointAt gen h i)) →
      ∃ c : F[X], c.degree < ((2 * k : Nat) : WithBot Nat) ∧ ∀ i ∈ A, w (2 * i) = c.eval (pointAt gen (h + 1) (2 * i)) ∧
        w (2 * i + 1) = c.eval (pointAt gen (h + 1) (2 * i + 1)) := by
  obtain ⟨bad, hb, hbad⟩ := hk
    (fun i => (w (2 * i) + w (2 * i + 1)) / 2)
    (fun i => (w (2 * i) - w (2 * i + 1)) / (2 * gen (h + 1) ^ revBits h i))
  refine ⟨bad, hb, fun β hβ p A hp hA hc hag => ?_⟩
  have hag' : ∀ i : Fin (2 ^ h), (i : Nat) ∈ A → (w (2 * i) + w (2 * i + 1)) / 2 +
      β * ((w (2 * i) - w (2 * i + 1)) / (2 * gen (h + 1) ^ revBits h i)) = p.eval (pointAt gen h i) :=
    fun i hi => hag i hi
  obtain ⟨c0, c1, d0, d1, hcc⟩ := hbad β hβ p hp (by
    have hsub : (univ.filter fun i : Fin (2 ^ h) => (w (2 * i) + w (2 * i + 1)) / 2 +
        β * ((w (2 * i) - w (2 * i + 1)) / (2 * gen (h + 1) ^ revBits h i)) ≠ p.eval (pointAt gen h i)).card ≤
        ((range (2 ^ h)) \ A).card := by
      refine card_le_card_of_injOn (fun i : Fin (2 ^ h) => (i : Nat)) ?_ (fun i _ j _ hij => Fin.ext hij)
      intro i hi
      have hi' := (mem_filter.1 hi).2
      simp only [coe_sdiff, Set.mem_sdiff, mem_coe, mem_range]
      exact ⟨i.2, fun hiA => hi' (hag' i hiA)⟩
    rw [card_sdiff_of_subset (fun i hi => mem_range.2 (hA i hi)), card_range] at hsub
    exact hsub.trans (by omega))
  have hdeg : ∀ q : F[X], q.degree < k → ∀ n : Nat, n < 2 → (X ^ n * expand F 2 q).degree < ((2 * k : Nat) : WithBot Nat) := by
    intro q hq n hn
    by_cases hq0 : q = 0
    · rw [hq0, map_zero, mul_zero, degree_zero]; exact WithBot.bot_lt_coe _
    · have hne : expand F 2 q ≠ 0 := by rwa [Ne, expand_eq_zero (by omega)]
      rw [degree_eq_natDegree (mul_ne_zero (pow_ne_zero _ X_ne_zero) hne),
        natDegree_mul (pow_ne_zero _ X_ne_zero) hne, natDegree_X_pow, natDegree_expand]
      rw [degree_eq_natDegree hq0] at hq
      have : q.natDegree < k := by exact_mod_cast hq
      exact_mod_cast (by omega : n + q.natDegree * 2 < 2 * k)
  refine ⟨X ^ 0 * expand F 2 c0 + X ^ 1 * expand F 2 c1,
    lt_of_le_of_lt (degree_add_le _ _) (max_lt (hdeg _ d0 0 (by omega)) (hdeg _ d1 1 (by omega))), fun i hi => ?_⟩
  obtain ⟨g0, g1⟩ := hcc ⟨i, hA i hi⟩ (hag' ⟨i, hA i hi⟩ hi)
  simp only at g0 g1
  have hx : gen (h + 1) ^ revBits h i ≠ 0 := pow_ne_zero _ (hg.ne_zero hN)
  have h2 := hg.two_ne
  have e1 : pointAt gen (h + 1) (2 * i) ^ 2 = pointAt gen h i := by
    rw [pointAt_sq hg hN, show 2 * i / 2 = i by omega]
  have e2 : pointAt gen (h + 1) (2 * i + 1) ^ 2 = pointAt gen h i := by
    rw [pointAt_sq hg hN, show (2 * i + 1) / 2 = i by omega]
  have e3 : pointAt gen (h + 1) (2 * i) = gen (h + 1) ^ revBits h i := pointAt_even hg i
  have e4 : pointAt gen (h + 1) (2 * i + 1) = -(gen (h + 1) ^ revBits h i) := hg.point_odd hN i
  constructor
  · rw [eval_add, eval_mul, eval_mul, eval_pow, eval_pow, eval_X, expand_eval, expand_eval, e1, ← g0, ← g1, e3]
    generalize gen (h + 1) ^ revBits h i = x at hx
    field_simp
    ring
  · rw [eval_add, eval_mul, eval_mul, eval_pow, eval_pow, eval_X, expand_eval, expand_eval, e2, ← g0, ← g1, e4]
    generalize gen (h + 1) ^ revBits h i = x at hx
    field_simp
    ring

/-! ### All rounds -/

/-- The checks of all rounds at an index of a domain of size `2^h`; `word bs` is the word after the challenges `bs`. -/
def Chain (gen : Nat → F) (ro : Nat → Nat → F) (word : List F → Nat → F) (h : Nat) (betas : List F) (idx : Nat) :
    Prop :=
  ∀ j, j < betas.length → word (betas.take (j + 1)) (idx / 2 ^ (j + 1)) =
    lineAt (gen (h - j) ^ revBits (h - j - 1) (idx / 2 ^ (j + 1))) (betas.getD j 0)
      (word (betas.take j) (2 * (idx / 2 ^ (j + 1)))) (word (betas.take j) (2 * (idx / 2 ^ (j + 1)) + 1)) +
    ro (h - (j + 1)) (idx / 2 ^ (j + 1))

omit [Fintype F] in
theorem Chain.tail {ro : Nat → Nat → F} {word : List F → Nat → F} {h : Nat} {β : F} {bs : List F} {idx : Nat}
    (hc : Chain gen ro word (h + 1) (β :: bs) idx) :
    word [β] (idx / 2) = lineAt (gen (h + 1) ^ revBits h (idx / 2)) β (word [] (2 * (idx / 2)))
        (word [] (2 * (idx / 2) + 1)) + ro h (idx / 2) ∧
      Chain gen ro (fun l => word (β :: l)) h bs (idx / 2) := by
  constructor
  · simpa using hc 0 (by simp)
  · intro j hj
    have := hc (j + 1) (by simpa using hj)
    simp only [List.take_succ_cons, List.getD_cons_succ, show h + 1 - (j + 1) = h - j by omega,
      show h + 1 - (j + 1 + 1) = h - (j + 1) by omega,
      show idx / 2 ^ (j + 1 + 1) = idx / 2 / 2 ^ (j + 1) by rw [pow_succ', Nat.div_div_eq_div_mul]] at this
    exact this

omit [Fintype F] in
/-- The lines of values that do not depend on the sign of the point. -/
theorem lineAt_lift (h2 : (2 : F) ≠ 0) (x β a b c : F) : lineAt x β (a + c) (b + c) = lineAt x β a b + c := by
  unfold lineAt
  field_simp
  ring

/-- All rounds: `ok m r` holds in the range in which, for codes of degree below `2^r` and `m` errors, all but `cost m r`
challenges are good; `s` times the sum of the costs is at most `tot`. -/
theorem chain_close (hg : TwoAdic gen N) (ro : Nat → Nat → F) (b : Nat) (ok : Nat → Nat → Prop)
    (cost tot : Nat → Nat → Nat) (s : Nat) (hok : ∀ m r, ok m (r + 1) → ok (m / 2) r)
    (htot : ∀ m r, s * cost (m / 2) r + tot (m / 2) r ≤ tot m (r + 1))
    (hgap : ∀ m r, b + r ≤ N → ok m r → ∀ u0 u1 : Fin (2 ^ (b + r)) → F,
      LineGap (fun i : Fin (2 ^ (b + r)) => pointAt gen (b + r) i) (2 ^ r) m (cost m r) u0 u1) :
    ∀ (r m : Nat) (word : List F → Nat → F), b + r ≤ N → ok m r →
    (∀ bs : List F, bs.length = r → ∃ c, ∀ i, word bs i = c) →
    ∃ bad : Finset (Fin r → F), s * (Fintype.card F * bad.card) ≤ tot m r * Fintype.card F ^ r ∧
      ∀ v, v ∉ bad → ∀ A : Finset Nat, (∀ i ∈ A, i < 2 ^ (b + r)) → 2 ^ (b + r) ≤ A.card + m →
        (∀ i ∈ A, Chain gen ro word (b + r) (List.ofFn v) i) →
        ∃ p : F[X], p.degree < ((2 ^ r : Nat) : WithBot Nat) ∧
          ∀ i ∈ A, word [] i + ∑ t ∈ range r, ro (b + r - (t + 1)) (i / 2 ^ (t + 1)) =
            p.eval (pointAt gen (b + r) i) := by
  intro r
  induction r with
  | zero =>
    intro m word hN hm hconst
    obtain ⟨c, hc⟩ := hconst [] rfl
    refine ⟨∅, by simp, fun v _ A hA hcard _ => ⟨Polynomial.C c, ?_, fun i hi => ?_⟩⟩
    · exact lt_of_le_of_lt degree_C_le (by norm_num)
    · simp [hc]
  | succ r ih =>
    intro m word hN hm hconst
    -- the word that is folded in this round
    obtain ⟨bad0, hb0, hbad0⟩ := fold_close hg (h := b + r) (k := 2 ^ r) (e := m / 2) (by omega)
      (hgap (m / 2) r (by omega) (hok m r hm))
      (fun i => word [] i + ∑ t ∈ range (r + 1), ro (b + (r + 1) - (t + 1)) (i / 2 ^ (t + 1)))
    have hih : ∀ β : F, ∃ bad : Finset (Fin r → F),
        s * (Fintype.card F * bad.card) ≤ tot (m / 2) r * Fintype.card F ^ r ∧
        ∀ v, v ∉ bad → ∀ A : Finset Nat, (∀ i ∈ A, i < 2 ^ (b + r)) → 2 ^ (b + r) ≤ A.card + m / 2 →
          (∀ i ∈ A, Chain gen ro (fun l => word (β :: l)) (b + r) (List.ofFn v) i) →
          ∃ p : F[X], p.degree < ((2 ^ r : Nat) : WithBot Nat) ∧
            ∀ i ∈ A, word [β] i + ∑ t ∈ range r, ro (b + r - (t + 1)) (i / 2 ^ (t + 1)) =
              p.eval (pointAt gen (b + r) i) := by
      intro β
      exact ih (m / 2) (fun l => word (β :: l)) (by omega) (hok m r hm)
        (fun bs hbs => hconst (β :: bs) (by simp [hbs]))
    choose badf hbf hbadf using hih
    refine ⟨(bad0 ×ˢ (univ : Finset (Fin r → F))).image (fun x => (Fin.cons x.1 x.2 : Fin (r + 1) → F)) ∪
      univ.biUnion (fun β => (badf β).image fun v => (Fin.cons β v : Fin (r + 1) → F)), ?_, ?_⟩
    · have h1 : ((bad0 ×ˢ (univ : Finset (Fin r → F))).image
          (fun x => (Fin.cons x.1 x.2 : Fin (r + 1) → F))).card ≤ cost (m / 2) r * Fintype.card F ^ r := by
        refine card_image_le.trans ?_
        rw [card_product, card_univ, Fintype.card_fun, Fintype.card_fin]
        exact Nat.mul_le_mul_right _ hb0
      have h2 : s * (univ.biUnion (fun β => (badf β).image
          fun v => (Fin.cons β v : Fin (r + 1) → F))).card ≤ tot (m / 2) r * Fintype.card F ^ r := by
        have hq : 0 < Fintype.card F := Fintype.card_pos
        refine Nat.le_of_mul_le_mul_left ?_ hq
        rw [← mul_left_comm]
        refine (Nat.mul_le_mul_left _ (Nat.mul_le_mul_left _ (card_biUnion_le.trans
          (sum_le_sum fun β _ => card_image_le (s := badf β))))).trans ?_
        rw [mul_sum, mul_sum]
        refine (sum_le_sum fun β _ => hbf β).trans ?_
        simp
      have h3 : s * ((bad0 ×ˢ (univ : Finset (Fin r → F))).image (fun x => (Fin.cons x.1 x.2 : Fin (r + 1) → F)) ∪
          univ.biUnion (fun β => (badf β).image fun v => (Fin.cons β v : Fin (r + 1) → F))).card ≤
          tot m (r + 1) * Fintype.card F ^ r := by
        refine (Nat.mul_le_mul_left _ (card_union_le _ _)).trans ?_
        rw [mul_add]
        refine (Nat.add_le_add (Nat.mul_le_mul_left _ h1) h2).trans ?_
        rw [← mul_assoc, ← add_mul]
        exact Nat.mul_le_mul_right _ (htot m r)
      rw [mul_left_comm s, pow_succ', mul_left_comm (tot m (r + 1))]
      exact Nat.mul_le_mul_left _ h3
    · intro v hv A hA hcard hchain
      have hv0 : v = Fin.cons (v 0) (Fin.tail v) := (Fin.cons_self_tail v).symm
      have hvb : v 0 ∉ bad0 := fun h => hv (mem_union_left _ (mem_image.2
        ⟨(v 0, Fin.tail v), mem_product.2 ⟨h, mem_univ _⟩, hv0.symm⟩))
      have hvt : Fin.tail v ∉ badf (v 0) := fun h => hv (mem_union_right _ (mem_biUnion.2
        ⟨v 0, mem_univ _, mem_image.2 ⟨Fin.tail v, h, hv0.symm⟩⟩))
      have hofn : List.ofFn v = v 0 :: List.ofFn (Fin.tail v) := by rw [List.ofFn_succ]; rfl
      rw [hofn] at hchain
      have hA2 : ∀ i ∈ A.image (· / 2), i < 2 ^ (b + r) := by
        intro i hi
        obtain ⟨j, hj, rfl⟩ := mem_image.1 hi
        have := hA j hj
        rw [show b + (r + 1) = (b + r) + 1 by omega, pow_succ] at this
        omega
      have hcard2 : 2 ^ (b + r) ≤ (A.image (· / 2)).card + m / 2 := by
        have h1 : A.card ≤ 2 * (A.image (· / 2)).card := by
          refine card_le_mul_card_image _ 2 fun j _ => ?_
          refine (card_le_card (t := {2 * j, 2 * j + 1}) fun i hi => ?_).trans card_le_two
          have := (mem_filter.1 hi).2
          simp only [mem_insert, mem_singleton]
          omega
        rw [show b + (r + 1) = (b + r) + 1 by omega, pow_succ] at hcard
        omega
      obtain ⟨p, hp, hpe⟩ := hbadf (v 0) (Fin.tail v) hvt (A.image (· / 2)) hA2 hcard2 (by
        intro i hi
        obtain ⟨j, hj, rfl⟩ := mem_image.1 hi
        exact (Chain.tail (h := b + r) (hchain j hj)).2)
      obtain ⟨c, hc, hce⟩ := hbad0 (v 0) hvb p (A.image (· / 2)) hp hA2 hcard2 (by
        intro i hi
        rw [← hpe i hi]
        obtain ⟨j, hj, rfl⟩ := mem_image.1 hi
        rw [(Chain.tail (h := b + r) (hchain j hj)).1]
        generalize j / 2 = i
        have hs : ∀ x, x / 2 = i → ∑ t ∈ range (r + 1), ro (b + (r + 1) - (t + 1)) (x / 2 ^ (t + 1)) =
            ∑ t ∈ range r, ro (b + r - (t + 1)) (i / 2 ^ (t + 1)) + ro (b + r) i := by
          rintro x rfl
          rw [sum_range_succ']
          simp only [zero_add, pow_one, show b + (r + 1) - 1 = b + r by omega]
          congr 1
          refine sum_congr rfl fun t _ => ?_
          rw [show b + (r + 1) - (t + 1 + 1) = b + r - (t + 1) by omega, pow_succ' 2 (t + 1),
            Nat.div_div_eq_div_mul]
        rw [hs (2 * i) (by omega), hs (2 * i + 1) (by omega), lineAt_lift hg.two_ne]
        ring)
      refine ⟨c, by rwa [← pow_succ'] at hc, fun i hi => ?_⟩
      obtain ⟨g1, g2⟩ := hce (i / 2) (mem_image_of_mem _ hi)
      rcases Nat.even_or_odd' i with ⟨j, hj | hj⟩
      · rw [show 2 * (i / 2) = i by omega] at g1
        exact g1
      · rw [show 2 * (i / 2) + 1 = i by omega] at g2
        exact g2

end Round

end TapStark.Fri
