import Verif.Props.Verdict
import Verif.Props.PcsRelease

/-!
C73, the part that holds: claims about matrices below the largest height.
-/

set_option linter.unusedSectionVars false

namespace TapStark.Pcs

open TapStark.Fri

section
variable {K F : Type} [Field K] [Field F] [DecidableEq K] [DecidableEq F] [Algebra K F]
variable {SI CI DI PI S C D P Ch W : Type}

theorem dotPowers_set (a : F) : ∀ (xs : List F) (i : Nat) (v : F), i < xs.length →
    dotPowers a (xs.set i v) = dotPowers a xs + a ^ i * (v - xs.getD i 0)
  | [], _, _, h => by simp at h
  | x :: xs, 0, v, _ => by
    rw [List.set_cons_zero, dotPowers_cons, dotPowers_cons, List.getD_cons_zero]
    ring
  | x :: xs, i + 1, v, h => by
    rw [List.set_cons_succ, dotPowers_cons, dotPowers_cons, dotPowers_set a xs i v (by simpa using h), List.getD_cons_succ]
    ring

/-- The quotients of one point after one claim is changed. -/
theorem terms_set (f : K × F → F) : ∀ (row : List K) (ys : List F) (i : Nat) (v : F) (hr : i < row.length),
    i < ys.length → ((row.zip (ys.set i v)).map f) = ((row.zip ys).map f).set i (f (row[i], v))
  | [], _, _, _, h, _ => by simp at h
  | _ :: _, [], _, _, _, h => by simp at h
  | _ :: _, _ :: _, 0, _, _, _ => rfl
  | r :: row, y :: ys, i + 1, v, hr, hy => by
    simp only [List.set_cons_succ, List.zip_cons_cons, List.map_cons, List.getElem_cons_succ]
    rw [terms_set f row ys i v (by simpa using hr) (by simpa using hy)]

/-- The combination of the quotients of a matrix changes when one claim is changed. -/
theorem matTerms_set {a : F} (ha : a ≠ 0) {x : K} {row : List K} (pre : List (F × List F)) (z : F) (ys : List F)
    (post : List (F × List F)) (hz : algebraMap K F x ≠ z) {i : Nat} (hr : i < row.length) (hi : i < ys.length) {v : F}
    (hv : v ≠ ys[i]) (tail : List F) :
    dotPowers a (matTerms x row (pre ++ (z, ys.set i v) :: post) ++ tail) ≠
      dotPowers a (matTerms x row (pre ++ (z, ys) :: post) ++ tail) := by
  simp only [matTerms, List.flatMap_append, List.flatMap_cons, List.append_assoc, dotPowers_append]
  rw [terms_set _ row ys i v hr hi, dotPowers_set, List.length_set]
  · intro e
    have hd : algebraMap K F x - z ≠ 0 := sub_ne_zero.mpr hz
    have e' : a ^ i * ((algebraMap K F row[i] - v) / (algebraMap K F x - z) -
        ((row.zip ys).map fun w => (algebraMap K F w.1 - w.2) / (algebraMap K F x - z)).getD i 0) = 0 := by
      have e := add_left_cancel e
      have e := mul_left_cancel₀ (pow_ne_zero _ ha) e
      have e := add_right_cancel e
      exact add_eq_left.mp e
    rw [mul_eq_zero, or_iff_right (pow_ne_zero _ ha), sub_eq_zero, List.getD_eq_getElem?_getD,
      List.getElem?_eq_getElem (by simp [hr, hi]), Option.getD_some, List.getElem_map, List.getElem_zip,
      div_left_inj' hd] at e'
    exact hv (sub_right_injective e')
  · simp [hr, hi]

theorem opened_split {c : CI} {R₁ R₂ : List (VerifierRound K F CI)} {M₁ M₂ : List (Dom K × List (F × List F))}
    {ip : List (List (List K) × PI)} {rows : List (List K)} {π : PI} {row : List K}
    (h1 : ip[R₁.length]? = some (rows, π)) (h2 : rows[M₁.length]? = some row) :
    ∃ A B : List (List K × Dom K × List (F × List F)), ∀ m : Dom K × List (F × List F),
      opened (ip.zip (R₁ ++ (c, M₁ ++ m :: M₂) :: R₂)) = A ++ (row, m) :: B := by
  have split : ∀ {α : Type} {l : List α} {n : Nat} {x : α}, l[n]? = some x → ∃ s t, l = s ++ x :: t ∧ s.length = n := by
    intro α l n x h
    obtain ⟨hn, rfl⟩ := List.getElem?_eq_some_iff.mp h
    exact ⟨l.take n, l.drop (n + 1), by rw [← List.drop_eq_getElem_cons hn, List.take_append_drop], by simp; omega⟩
  obtain ⟨I₁, I₂, rfl, hI⟩ := split h1
  obtain ⟨S₁, S₂, rfl, hS⟩ := split h2
  refine ⟨opened (I₁.zip R₁) ++ S₁.zip M₁, S₂.zip M₂ ++ opened (I₂.zip R₂), fun m => ?_⟩
  rw [List.zip_append hI]
  simp only [opened, List.flatMap_append, List.zip_cons_cons, List.flatMap_cons]
  rw [List.zip_append hS]
  simp

/-- **C73**, the part that holds: in an accepted proof, one other value claimed for a matrix below the largest height is
refused.  The batching challenge must not be zero; the matrix must have at least two rows; and some query must open the
claimed column and the folding round of the matrix. -/
theorem C73_lower_partial {genV : Nat → K} {N : Nat} (hg : TwoAdic genV N) {g : K} {MI : InMmcs K SI CI DI PI}
    {M : Mmcs F S C D P} {Kc : Chall Ch C F W} {cfg : Config} {proof : FriProof F C P W (List (List (List K) × PI))}
    (hN : proof.commitPhaseCommits.length + cfg.logBlowup ≤ N) {ch ch' : Ch}
    (halpha : ∀ alpha ch0, Kc.sample ch = some (alpha, ch0) → alpha ≠ 0)
    {R₁ R₂ : List (VerifierRound K F CI)} {c : CI} {M₁ M₂ : List (Dom K × List (F × List F))} {dom : Dom K}
    {P₁ P₂ : List (F × List F)} {z : F} {ys : List F}
    (h : verify genV g MI M Kc cfg (R₁ ++ (c, M₁ ++ (dom, P₁ ++ (z, ys) :: P₂) :: M₂) :: R₂) proof ch = .ok ch')
    (h1 : 1 ≤ dom.logN) (h2 : dom.logN < proof.commitPhaseCommits.length) {i : Nat} (hi : i < ys.length)
    (hq : ∃ qp ∈ proof.queryProofs, proof.commitPhaseCommits.length - dom.logN < qp.commitPhaseOpenings.length ∧
      ∃ o, qp.inputProof[R₁.length]? = some o ∧ ∃ row, o.1[M₁.length]? = some row ∧ i < row.length)
    {v : F} (hv : v ≠ ys[i]) :
    verify genV g MI M Kc cfg (R₁ ++ (c, M₁ ++ (dom, P₁ ++ (z, ys.set i v) :: P₂) :: M₂) :: R₂) proof ch = .panic := by
  rw [(C117_opening_exact hg _ proof hN ch).2]
  rintro ⟨ch2', h'⟩
  rw [(C117_opening_exact hg _ proof hN ch).1] at h
  obtain ⟨alpha, ch0, betas, ch1, ch2, indices, k1, k2, k3, k4, k5, k6⟩ := h
  obtain ⟨alpha', ch0', betas', ch1', ch3, indices', l1, l2, l3, l4, l5, l6⟩ := h'
  cases k1.symm.trans l1
  cases k2.symm.trans l2
  cases k4.symm.trans l4
  cases k5.symm.trans l5
  have ha := halpha _ _ k1
  obtain ⟨qp, hqp, ho, ⟨rows, π⟩, e1, row, e2, hir⟩ := hq
  obtain ⟨k, hk, hkq⟩ := List.getElem_of_mem hqp
  have hk' : k < indices.length := by
    rw [sampleIndices_length k5]
    omega
  have e3 : indices[k]? = some (indices[k].1, indices[k].2) := List.getElem?_eq_getElem hk'
  have e4 : proof.queryProofs[k]? = some qp := by rw [List.getElem?_eq_getElem hk, hkq]
  obtain ⟨i1, x, y, r1, r2, -⟩ := k6 k _ _ _ e3 e4
  obtain ⟨-, x', y', r1', r2', -⟩ := l6 k _ _ _ e3 e4
  have hxy : ∀ j < min qp.commitPhaseOpenings.length proof.commitPhaseCommits.length, x j = x' j ∧ y j = y' j := by
    intro j hj
    obtain ⟨π1, c1, f1, -⟩ := r1 j hj
    obtain ⟨π2, c2, f2, -⟩ := r1' j hj
    have := f1.symm.trans f2
    simp only [Option.some.injEq, Prod.mk.injEq, List.cons.injEq, and_true] at this
    exact this.1
  have hj : proof.commitPhaseCommits.length - dom.logN - 1 + 1 <
      min qp.commitPhaseOpenings.length proof.commitPhaseCommits.length := by omega
  have s1 := r2 _ hj
  have s2 := r2' _ hj
  beta_reduce at s1 s2
  rw [(hxy _ hj).1, (hxy _ hj).2, (hxy _ (by omega : proof.commitPhaseCommits.length - dom.logN - 1 <
    min qp.commitPhaseOpenings.length proof.commitPhaseCommits.length)).1, (hxy _ (by omega :
    proof.commitPhaseCommits.length - dom.logN - 1 <
    min qp.commitPhaseOpenings.length proof.commitPhaseCommits.length)).2, s2] at s1
  have s3 := add_left_cancel s1
  rw [show proof.commitPhaseCommits.length + cfg.logBlowup - (proof.commitPhaseCommits.length - dom.logN - 1 + 1) =
    dom.logN + cfg.logBlowup by omega, combinedClaims_eq, combinedClaims_eq] at s3
  obtain ⟨A, B, hop⟩ := opened_split (c := c) (R₂ := R₂) (M₂ := M₂) (F := F) (CI := CI) e1 e2
  have hz : algebraMap K F (queryPoint genV g (dom.logN + cfg.logBlowup) (indices[k].2 >>>
      (proof.commitPhaseCommits.length + cfg.logBlowup - (dom.logN + cfg.logBlowup)))) ≠ z := by
    obtain ⟨vals, hvals⟩ := (verifyInput_exact (alpha := alpha)).1.mpr i1
    refine (verifyInput_terms hvals (show dom.logN + cfg.logBlowup ≤ _ by omega)).2 (row, dom, P₁ ++ (z, ys) :: P₂) ?_ rfl (z, ys) (by simp)
    rw [hop]
    simp
  rw [hop, hop] at s3
  simp only [heightTerms, List.flatMap_append, List.flatMap_cons, if_true] at s3
  rw [dotPowers_append alpha _ (matTerms _ _ (P₁ ++ (z, ys.set i v) :: P₂) ++ _),
    dotPowers_append alpha _ (matTerms _ _ (P₁ ++ (z, ys) :: P₂) ++ _)] at s3
  have s4 := mul_left_cancel₀ (pow_ne_zero _ ha) (add_left_cancel s3)
  exact matTerms_set ha P₁ z ys P₂ hz hir hi hv _ s4

/-- Such a proof: two folding rounds, a matrix of two rows below the largest height.  It is accepted with the value of its
column, and with no other. -/
theorem C73_lower_instance {genV : Nat → K} {N : Nat} (hg : TwoAdic genV N) (hN : 3 ≤ N) (g p q : K) {β z : F} (hβ : β ≠ 0)
    (hz : -z + algebraMap K F g ≠ 0) :
    verify genV g (anyInK K) (anyLayerF F) (constChall β) ⟨1, 1, 0, true⟩ [((), [claimLow z (algebraMap K F p)])]
        (zeroProof p q) () = .ok () ∧
    ∀ v, v ≠ algebraMap K F p → verify genV g (anyInK K) (anyLayerF F) (constChall β) ⟨1, 1, 0, true⟩
      [((), [claimLow z v])] (zeroProof p q) () = .panic := by
  have h1 : algebraMap K F (genV 1) ≠ 1 := by
    rw [hg.one, map_neg, map_one]
    intro e
    have h2 := (twoAdic_map (F := F) hg).two_ne
    apply h2
    linear_combination -e
  have h := (C101_instance_accepted genV h1 g p q β z hz).1
  refine ⟨h, fun v hv => ?_⟩
  exact C73_lower_partial (R₁ := []) (M₁ := []) (P₁ := []) (P₂ := []) (M₂ := []) (R₂ := []) (i := 0) (proof := zeroProof p q)
    (cfg := ⟨1, 1, 0, true⟩) hg hN (by rintro alpha ch0 e; cases e; exact hβ) h (show 1 ≤ 1 from le_rfl)
    (show 1 < 2 by decide) (by simp) ⟨_, List.mem_cons_self .., show 2 - 1 < 2 by decide, _, rfl, [p], rfl, by simp⟩ hv

end

end TapStark.Pcs
