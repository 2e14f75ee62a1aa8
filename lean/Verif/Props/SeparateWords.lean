import Verif.Props.StarkSoundBoth

/-!
C114: soundness when every query is answered from commitments of its own.
-/

namespace TapStark.Stark

open Finset Polynomial TapStark.Fri TapStark.Pcs

theorem error_of_small_each {X : Type} [Fintype X] [DecidableEq X] {Q : Nat} (Pass : Fin Q → X → Nat → Prop) {n m : Nat}
    (hm : m + 1 ≤ n) (bad : Finset X)
    (hA : ∀ k x, x ∉ bad → ∀ A : Finset Nat, (∀ i ∈ A, i < n) → (∀ i ∈ A, Pass k x i) → A.card + m < n) :
    (Set.ncard {y : X × (Fin Q → Fin n) | ∀ k, Pass k y.1 (y.2 k)} : ℚ) / (Fintype.card X * (n : ℚ) ^ Q) ≤
      bad.card / Fintype.card X + (1 - (m + 1) / n) ^ Q := by
  classical
  let A : Fin Q → X → Finset (Fin n) := fun k v => univ.filter fun i => Pass k v i
  have hA' : ∀ k v, v ∉ bad → (A k v).card ≤ n - (m + 1) := by
    intro k v hv
    have := hA k v hv ((A k v).image fun i : Fin n => (i : Nat))
      (by intro i hi; obtain ⟨j, -, rfl⟩ := mem_image.1 hi; exact j.2)
      (by intro i hi; obtain ⟨j, hj, rfl⟩ := mem_image.1 hi; exact (mem_filter.1 hj).2)
    rw [card_image_of_injective _ Fin.val_injective] at this
    omega
  let T : Finset (X × (Fin Q → Fin n)) := bad ×ˢ univ ∪
    (univ \ bad).biUnion fun v => (Fintype.piFinset fun k : Fin Q => A k v).image (Prod.mk v)
  have hsub : {y : X × (Fin Q → Fin n) | ∀ k, Pass k y.1 (y.2 k)} ⊆ (T : Set _) := by
    rintro ⟨v, idx⟩ hx
    simp only [Set.mem_ofPred_eq] at hx
    rw [mem_coe, mem_union]
    by_cases hv : v ∈ bad
    · exact Or.inl (mem_product.2 ⟨hv, mem_univ _⟩)
    · refine Or.inr (mem_biUnion.2 ⟨v, by simp [hv], mem_image.2 ⟨idx, ?_, rfl⟩⟩)
      rw [Fintype.mem_piFinset]
      intro k
      exact mem_filter.2 ⟨mem_univ _, hx k⟩
  have hcard : Set.ncard {y : X × (Fin Q → Fin n) | ∀ k, Pass k y.1 (y.2 k)} ≤
      bad.card * n ^ Q + Fintype.card X * (n - (m + 1)) ^ Q := by
    refine (Set.ncard_le_ncard hsub T.finite_toSet).trans ?_
    rw [Set.ncard_coe_finset]
    refine (card_union_le _ _).trans (Nat.add_le_add ?_ ?_)
    · rw [card_product, card_univ, Fintype.card_fun, Fintype.card_fin, Fintype.card_fin]
    · refine card_biUnion_le.trans ((sum_le_sum (g := fun _ => (n - (m + 1)) ^ Q) fun v hv => ?_).trans ?_)
      · refine card_image_le.trans ?_
        rw [Fintype.card_piFinset]
        exact (prod_le_pow_card _ _ _ fun k _ => hA' k v (mem_sdiff.1 hv).2).trans_eq (by rw [card_univ, Fintype.card_fin])
      · rw [sum_const, smul_eq_mul]
        exact Nat.mul_le_mul_right _ (card_le_univ _)
  rcases Nat.eq_zero_or_pos (Fintype.card X) with h0 | h0
  · have hb0 : bad.card = 0 := Nat.le_zero.1 (h0 ▸ card_le_univ bad)
    rw [h0, hb0]
    simp only [Nat.cast_zero, zero_mul, div_zero, zero_add]
    apply pow_nonneg
    rw [sub_nonneg, div_le_one (by exact_mod_cast (by omega : 0 < n))]
    exact_mod_cast hm
  have hX : (0 : ℚ) < Fintype.card X := by exact_mod_cast h0
  have hn : (0 : ℚ) < n := by exact_mod_cast (by omega : 0 < n)
  rw [div_le_iff₀ (by positivity)]
  have e : (1 - ((m : ℚ) + 1) / n) * n = ((n - (m + 1) : Nat) : ℚ) := by
    rw [Nat.cast_sub hm, sub_mul, one_mul, div_mul_cancel₀ _ hn.ne']
    push_cast
    ring
  calc (Set.ncard {y : X × (Fin Q → Fin n) | ∀ k, Pass k y.1 (y.2 k)} : ℚ)
      ≤ ((bad.card * n ^ Q + Fintype.card X * (n - (m + 1)) ^ Q : Nat) : ℚ) := by exact_mod_cast hcard
    _ = bad.card * (n : ℚ) ^ Q + Fintype.card X * ((1 - ((m : ℚ) + 1) / n) * n) ^ Q := by rw [e]; push_cast; ring
    _ = _ := by
      rw [mul_pow, add_mul]
      congr 1
      · field_simp
      · ring

variable {K F : Type} [Field K] [Field F] [DecidableEq K] [DecidableEq F] [Algebra K F]
variable {SI C DI PI S D P Ch W : Type}

/-- **C114** The soundness error when every query is answered from its own commitments, as the code commits once per query:
`pr j` is what the prover commits to and claims for query `j`.  If no trace satisfies the AIR, or only none near a trace that
the prover committed to for any of the queries, then at most the stated part of the choices of all challenges and of the query
indices passes. -/
theorem C114_separate_commitments [Fintype F] {u : Setup K F SI C DI PI S D P Ch W} (hg : TwoAdic u.genV u.twoAdicity)
    (hg0 : u.g ≠ 0) {air : Air K} (hf : air.Filtered) {t : Nat} (ht : ∀ a ∈ air.asserts, a.transitions ≤ t) {pub : List K}
    {q : Nat} (hq : getLogQuotientDegree air pub.length = some q) {k r m : Nat} (hk : 0 < k) (hb : 0 < u.cfg.logBlowup)
    (hkq : k + q ≤ u.twoAdicity) (hrb : r + u.cfg.logBlowup ≤ u.twoAdicity)
    (hm : 2 * m + 2 ^ r < 2 ^ (r + u.cfg.logBlowup)) {Q : Nat} (pr : Fin Q → Prover K F C)
    (hrow : ∀ j i, ((pr j).traceRow i).length = air.width)
    (hcrow : ∀ j alpha i idx, ((pr j).quotientRow alpha i idx).length = u.deg.D)
    (hfar : ∀ j, ∀ ps : List K[X], ps.length = air.width → (∀ p ∈ ps, p.natDegree ≤ 2 ^ k) →
      RowsNear u.genV u.g (k + u.cfg.logBlowup) (m / 2 ^ (r - k)) (pr j).traceRow ps →
        ¬ Satisfies air (evalRows u.genV ps 1 k) pub) :
    (Set.ncard {x : (F × F × F × (Fin r → F)) × (Fin Q → Fin (2 ^ (r + u.cfg.logBlowup))) |
        ∀ j, (pr j).Passes u air pub k q x.1.1 x.1.2.1 x.1.2.2.1 (List.ofFn x.1.2.2.2) (x.2 j)} : ℚ) /
      (Fintype.card F ^ (r + 3) * (2 ^ (r + u.cfg.logBlowup)) ^ Q) ≤
      Q * (((air.asserts.length - 1 : Nat) + ((2 ^ q + 1) * 2 ^ k + t) +
        (2 * air.width + 2 ^ q * u.deg.D - 1 : Nat) * ((m / 2 ^ (r - k) : Nat) * ((m / 2 ^ (r - k) : Nat) + 2 ^ k) + 1)) /
          Fintype.card F +
        (m * (m + 2 ^ r) + 3 * r + 3 * 2 ^ (r + u.cfg.logBlowup + 1)) / (3 * Fintype.card F)) +
        (1 - (m + 1) / 2 ^ (r + u.cfg.logBlowup)) ^ Q := by
  classical
  choose bad hbc hbad using fun j => C111_few_queries_pass hg hg0 hf ht hq hk hb hkq hrb hm (pr j) (hrow j) (hcrow j) (hfar j)
  have h := error_of_small_each (fun j (x : F × F × F × (Fin r → F)) i =>
      (pr j).Passes u air pub k q x.1 x.2.1 x.2.2.1 (List.ofFn x.2.2.2) i)
    (n := 2 ^ (r + u.cfg.logBlowup)) (m := m) (by have := Nat.two_pow_pos r; omega) (univ.biUnion bad)
    (fun j x hx => hbad j x fun hxb => hx (mem_biUnion.2 ⟨j, mem_univ _, hxb⟩))
  rw [Fintype.card_prod, Fintype.card_prod, Fintype.card_prod, Fintype.card_fun, Fintype.card_fin] at h
  push_cast at h
  have hF : (0 : ℚ) < Fintype.card F := by exact_mod_cast Fintype.card_pos
  have hcard : (Fintype.card F : ℚ) * (Fintype.card F * (Fintype.card F * Fintype.card F ^ r)) = Fintype.card F ^ (r + 3) := by
    ring
  rw [hcard] at h
  refine h.trans (add_le_add ?_ le_rfl)
  set B : ℚ := 3 * ((air.asserts.length - 1 : Nat) : ℚ) + 3 * ((2 ^ q + 1) * 2 ^ k + t) +
        (3 * (((2 * air.width + 2 ^ q * u.deg.D - 1 : Nat) : ℚ) *
          ((m / 2 ^ (r - k) : Nat) * ((m / 2 ^ (r - k) : Nat) + 2 ^ k) + 1)) + m * (m + 2 ^ r) + 3 * r +
          3 * 2 ^ (r + u.cfg.logBlowup + 1)) with hB
  have hbc' : ∀ j, (3 : ℚ) * (bad j).card ≤ B * (Fintype.card F * (Fintype.card F * Fintype.card F ^ r)) := by
    intro j
    rw [hB]
    exact_mod_cast hbc j
  have hu : (3 : ℚ) * (univ.biUnion bad).card ≤ Q * (B * (Fintype.card F * (Fintype.card F * Fintype.card F ^ r))) := by
    have h1 : ((univ.biUnion bad).card : ℚ) ≤ ∑ j, ((bad j).card : ℚ) := by exact_mod_cast card_biUnion_le
    calc (3 : ℚ) * (univ.biUnion bad).card ≤ 3 * ∑ j, ((bad j).card : ℚ) := by linarith
      _ = ∑ j, 3 * ((bad j).card : ℚ) := mul_sum _ _ _
      _ ≤ ∑ _j : Fin Q, B * (Fintype.card F * (Fintype.card F * Fintype.card F ^ r)) := sum_le_sum fun j _ => hbc' j
      _ = _ := by rw [sum_const, card_univ, Fintype.card_fin, nsmul_eq_mul]
  rw [div_add_div _ _ hF.ne' (by positivity), mul_div_assoc', div_le_div_iff₀ (by positivity) (by positivity)]
  calc ((univ.biUnion bad).card : ℚ) * (Fintype.card F * (3 * Fintype.card F)) =
        3 * (univ.biUnion bad).card * (Fintype.card F * Fintype.card F) := by ring
    _ ≤ _ := mul_le_mul_of_nonneg_right hu (by positivity)
    _ = _ := by rw [hB]; ring

/-- **C114** In particular, whatever the prover commits to for each query, if no trace satisfies the AIR. -/
theorem C114_false_statement [Fintype F] {u : Setup K F SI C DI PI S D P Ch W} (hg : TwoAdic u.genV u.twoAdicity)
    (hg0 : u.g ≠ 0) {air : Air K} (hf : air.Filtered) {t : Nat} (ht : ∀ a ∈ air.asserts, a.transitions ≤ t) {pub : List K}
    {q : Nat} (hq : getLogQuotientDegree air pub.length = some q) {k r m : Nat} (hk : 0 < k) (hb : 0 < u.cfg.logBlowup)
    (hkq : k + q ≤ u.twoAdicity) (hrb : r + u.cfg.logBlowup ≤ u.twoAdicity)
    (hm : 2 * m + 2 ^ r < 2 ^ (r + u.cfg.logBlowup)) {Q : Nat} (pr : Fin Q → Prover K F C)
    (hrow : ∀ j i, ((pr j).traceRow i).length = air.width)
    (hcrow : ∀ j alpha i idx, ((pr j).quotientRow alpha i idx).length = u.deg.D)
    (hno : ∀ trace : Mat K, trace.length = 2 ^ k → Rect trace air.width → ¬ Satisfies air trace pub) :
    (Set.ncard {x : (F × F × F × (Fin r → F)) × (Fin Q → Fin (2 ^ (r + u.cfg.logBlowup))) |
        ∀ j, (pr j).Passes u air pub k q x.1.1 x.1.2.1 x.1.2.2.1 (List.ofFn x.1.2.2.2) (x.2 j)} : ℚ) /
      (Fintype.card F ^ (r + 3) * (2 ^ (r + u.cfg.logBlowup)) ^ Q) ≤
      Q * (((air.asserts.length - 1 : Nat) + ((2 ^ q + 1) * 2 ^ k + t) +
        (2 * air.width + 2 ^ q * u.deg.D - 1 : Nat) * ((m / 2 ^ (r - k) : Nat) * ((m / 2 ^ (r - k) : Nat) + 2 ^ k) + 1)) /
          Fintype.card F +
        (m * (m + 2 ^ r) + 3 * r + 3 * 2 ^ (r + u.cfg.logBlowup + 1)) / (3 * Fintype.card F)) +
        (1 - (m + 1) / 2 ^ (r + u.cfg.logBlowup)) ^ Q :=
  C114_separate_commitments hg hg0 hf ht hq hk hb hkq hrb hm pr hrow hcrow (fun _ ps hl _ _ => hno _ (by simp [evalRows]) (by
    intro row hr
    obtain ⟨i, -, rfl⟩ := List.mem_map.1 hr
    rw [List.length_map, hl]))

/-- A wrong Fibonacci number, eight rows, blowup 64, 28 queries, each with its own commitments: still at most one choice in
`10^8`. -/
theorem C114_instance {SI C DI PI S D P Ch W : Type} (ext : Ext BB BB4) (mi : InMmcs BB SI C DI PI) (mm : Mmcs BB4 S C D P)
    (chall : Chall Ch C BB4 W) (pr : Fin 28 → Prover BB BB4 C) (hrow : ∀ j i, ((pr j).traceRow i).length = 2)
    (hcrow : ∀ j alpha i idx, ((pr j).quotientRow alpha i idx).length = 4) :
    (Set.ncard {y : (BB4 × BB4 × BB4 × (Fin 3 → BB4)) × (Fin 28 → Fin (2 ^ (3 + 6))) |
        ∀ j, (pr j).Passes (⟨ext, bbGen, 27, 31, mi, mm, chall, ⟨6, 28, 8, true⟩, bb4Deg⟩ : Setup BB BB4 SI C DI PI S D P Ch W)
          (fibAir BB) [0, 1, 22] 3 0 y.1.1 y.1.2.1 y.1.2.2.1 (List.ofFn y.1.2.2.2) (y.2 j)} : ℚ) /
      ((2013265921 ^ 4) ^ (3 + 3) * (2 ^ (3 + 6)) ^ 28) ≤ 1 / 10 ^ 8 := by
  have h := C114_false_statement
    (u := (⟨ext, bbGen, 27, 31, mi, mm, chall, ⟨6, 28, 8, true⟩, bb4Deg⟩ : Setup BB BB4 SI C DI PI S D P Ch W))
    (air := fibAir BB) bbGen_twoAdic (show (31 : BB) ≠ 0 by decide) fibAir_filtered (t := 1) (by
      intro a ha
      simp only [fibAir, List.mem_cons, List.not_mem_nil, or_false] at ha
      rcases ha with rfl | rfl | rfl | rfl | rfl <;> decide)
    (pub := [0, 1, 22]) (q := 0) (fibAir_degree _ (by simp)) (k := 3) (r := 3) (m := 251) (by omega) (show 0 < 6 by decide)
    (show 3 + 0 ≤ 27 by decide) (show 3 + 6 ≤ 27 by decide) (show 2 * 251 + 2 ^ 3 < 2 ^ (3 + 6) by decide) pr hrow hcrow (by
      intro trace hl _ hs
      have := fib_output (by rw [hl]; exact Nat.two_pow_pos 3) hs
      rw [hl] at this
      exact absurd this (by decide +kernel))
  rw [card_bb4] at h
  have e1 : (fibAir BB).asserts.length - 1 = 4 := rfl
  have e2 : 2 * (fibAir BB).width + 2 ^ 0 * bb4Deg.D - 1 = 7 := rfl
  simp only [e1, e2] at h
  refine le_trans (by exact_mod_cast h) ?_
  norm_num

end TapStark.Stark
