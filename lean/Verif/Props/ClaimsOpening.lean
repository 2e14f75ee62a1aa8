import Verif.Props.LowerClaims

/-!
C73: which other claims pass with an accepted opening proof.
-/

set_option linter.unusedSectionVars false

namespace TapStark.Fri

variable {F : Type} [Field F] [DecidableEq F] {S C D P : Type}

/-- Rounds in order with one list of reduced openings are in order with another just when the two agree at the heights of the
rounds after the first. -/
theorem rounds_other {gen : Nat → F} {M : Mmcs F S C D P} {cfg : Config} {commits : List C} {betas : List F} {q idx : Nat}
    {openings : List (List (List F) × P)} {ro ro' : Nat → F} {final : F}
    (h : RoundsInOrder gen M cfg commits betas q idx openings ro final) :
    RoundsInOrder gen M cfg commits betas q idx openings ro' final ↔
      ∀ j, j + 1 < min openings.length commits.length →
        ro' (commits.length + cfg.logBlowup - (j + 1)) = ro (commits.length + cfg.logBlowup - (j + 1)) := by
  obtain ⟨x, y, h1, h2, h3, h4, h5⟩ := h
  constructor
  · rintro ⟨x', y', k1, k2, -⟩ j hj
    have hxy : ∀ j < min openings.length commits.length, x j = x' j ∧ y j = y' j := by
      intro j hj
      obtain ⟨π1, c1, f1, -⟩ := h1 j hj
      obtain ⟨π2, c2, f2, -⟩ := k1 j hj
      have := f1.symm.trans f2
      simp only [Option.some.injEq, Prod.mk.injEq, List.cons.injEq, and_true] at this
      exact this.1
    have s1 := h2 j hj
    have s2 := k2 j hj
    beta_reduce at s1 s2
    rw [(hxy _ hj).1, (hxy _ hj).2, (hxy j (by omega)).1, (hxy j (by omega)).2, s2] at s1
    exact add_left_cancel s1
  · intro he
    refine ⟨x, y, h1, fun j hj => ?_, h3, h4, h5⟩
    rw [he j hj]
    exact h2 j hj

end TapStark.Fri

namespace TapStark.Pcs

open TapStark.Fri

section
variable {K F : Type} [Field K] [Field F] [DecidableEq K] [DecidableEq F] [Algebra K F]
variable {SI CI DI PI S C D P Ch W : Type}

theorem points_other {R : Dom K → F → Prop} : ∀ {rows : List (List K)}
    {ms ms' : List (Dom K × List (F × List F))},
    List.Forall₂ (fun m m' => m.1 = m'.1 ∧ m.2.map Prod.fst = m'.2.map Prod.fst) ms ms' →
    (∀ rm ∈ rows.zip ms, ∀ p ∈ rm.2.2, R rm.2.1 p.1) → ∀ rm ∈ rows.zip ms', ∀ p ∈ rm.2.2, R rm.2.1 p.1 := by
  intro rows ms ms' h
  induction h generalizing rows with
  | nil => simp
  | cons h hs ih =>
    cases rows with
    | nil => simp
    | cons row rows =>
      simp only [List.zip_cons_cons, List.forall_mem_cons]
      rintro ⟨h1, h2⟩
      refine ⟨fun p hp => ?_, ih h2⟩
      have : p.1 ∈ List.map Prod.fst _ := List.mem_map_of_mem hp
      rw [← h.2, List.mem_map] at this
      obtain ⟨p', hp', e⟩ := this
      rw [← h.1, ← e]
      exact h1 p' hp'

/-- Whether the input openings are in order does not depend on the claimed values. -/
theorem input_other {MI : InMmcs K SI CI DI PI} {genV : Nat → K} {g : K} {b top q idx : Nat} :
    ∀ {ip : List (List (List K) × PI)} {rounds rounds' : List (VerifierRound K F CI)}, SameButValues rounds rounds' →
    (∀ e ∈ ip.zip rounds, InputInOrder MI genV g b top q idx e) →
      ∀ e ∈ ip.zip rounds', InputInOrder MI genV g b top q idx e := by
  intro ip rounds rounds' h
  unfold SameButValues at h
  induction h generalizing ip with
  | nil => simp
  | cons h hs ih =>
    cases ip with
    | nil => simp
    | cons o ip =>
      simp only [List.zip_cons_cons, List.forall_mem_cons]
      rintro ⟨⟨k1, k2, k3, k4⟩, h2⟩
      refine ⟨⟨?_, ?_, ?_, ?_⟩, ih h2⟩
      · intro e
        simp only at e k1
        rw [e] at h
        exact k1 (List.forall₂_nil_right_iff.mp h.2)
      · intro m hm
        have hf := h.2
        obtain ⟨i, hi, rfl⟩ := List.getElem_of_mem hm
        have hi' : i < _ := hf.length_eq.symm ▸ hi
        have := (List.forall₂_iff_get.mp hf).2 i hi' hi
        simp only [List.get_eq_getElem] at this
        rw [← this.1]
        exact k2 _ (List.getElem_mem hi')
      · simp only
        rw [← h.1]
        exact k3
      · exact points_other (R := fun d z => algebraMap K F (queryPoint genV g (d.logN + b)
          (idx / 2 ^ (top - (d.logN + b)))) ≠ z) h.2 k4

/-- **C73**, what the opening verifier asks of other claims: an accepted proof is accepted with other values at the same
points of the same matrices just when, for every query, the combination of the claims is the same at every height that
belongs to an opened round after the first. -/
theorem C73_exact {genV : Nat → K} {N : Nat} (hg : TwoAdic genV N) {g : K} {MI : InMmcs K SI CI DI PI}
    {M : Mmcs F S C D P} {Kc : Chall Ch C F W} {cfg : Config} {proof : FriProof F C P W (List (List (List K) × PI))}
    (hN : proof.commitPhaseCommits.length + cfg.logBlowup ≤ N) {ch ch' : Ch} {rounds rounds' : List (VerifierRound K F CI)}
    (hs : SameButValues rounds rounds') (h : verify genV g MI M Kc cfg rounds proof ch = .ok ch')
    {alpha : F} {ch0 ch1 ch2 : Ch} {betas : List F} {indices : List (Nat × Nat)}
    (h1 : Kc.sample ch = some (alpha, ch0)) (h2 : sampleBetas Kc proof.commitPhaseCommits ch0 = some (betas, ch1))
    (h3 : Kc.checkWitness ch1 cfg.powBits proof.powWitness = some (true, ch2))
    (h4 : sampleIndices Kc (proof.commitPhaseCommits.length + cfg.logBlowup) cfg.numQueries 0 ch2 = some (indices, ch')) :
    verify genV g MI M Kc cfg rounds' proof ch = .ok ch' ↔
      ∀ (k q idx : Nat) (qp : QueryProof F P (List (List (List K) × PI))), indices[k]? = some (q, idx) →
        proof.queryProofs[k]? = some qp → ∀ j, j + 1 < min qp.commitPhaseOpenings.length proof.commitPhaseCommits.length →
          let top := proof.commitPhaseCommits.length + cfg.logBlowup
          combinedClaims genV g cfg.logBlowup top idx alpha (qp.inputProof.zip rounds') (top - (j + 1)) =
            combinedClaims genV g cfg.logBlowup top idx alpha (qp.inputProof.zip rounds) (top - (j + 1)) := by
  rw [(C117_opening_exact hg _ proof hN ch).1] at h ⊢
  obtain ⟨alpha', ch0', betas', ch1', ch2', indices', k1, k2, k3, k4, k5, k6⟩ := h
  cases k1.symm.trans h1
  cases k2.symm.trans h2
  cases k4.symm.trans h3
  cases k5.symm.trans h4
  constructor
  · rintro ⟨alpha', ch0', betas', ch1', ch2', indices', l1, l2, l3, l4, l5, l6⟩ k q idx qp e1 e2
    cases l1.symm.trans h1
    cases l2.symm.trans h2
    cases l4.symm.trans h3
    cases l5.symm.trans h4
    exact (rounds_other (k6 k q idx qp e1 e2).2).mp (l6 k q idx qp e1 e2).2
  · intro he
    refine ⟨_, _, _, _, _, _, h1, h2, k3, h3, h4, fun k q idx qp e1 e2 => ⟨?_, ?_⟩⟩
    · exact input_other hs (k6 k q idx qp e1 e2).1
    · exact (rounds_other (k6 k q idx qp e1 e2).2).mpr (he k q idx qp e1 e2)

/-- Such a proof: two folding rounds, a matrix of two rows below the largest height.  It is accepted with another value just
when the one combination that is looked at, that of the height of the matrix, is the same. -/
theorem C73_exact_instance {genV : Nat → K} {N : Nat} (hg : TwoAdic genV N) (hN : 3 ≤ N) (g p q : K) {β z : F}
    (hz : -z + algebraMap K F g ≠ 0) (v : F) :
    verify genV g (anyInK K) (anyLayerF F) (constChall β) ⟨1, 1, 0, true⟩ [((), [claimLow z (algebraMap K F p)])]
        (zeroProof p q) () = .ok () ∧
    (verify genV g (anyInK K) (anyLayerF F) (constChall β) ⟨1, 1, 0, true⟩ [((), [claimLow z v])] (zeroProof p q) () =
        .ok () ↔
      combinedClaims genV g 1 3 0 β ([([[p], [q]], ())].zip [((), [claimLow z v])]) 2 =
        combinedClaims genV g 1 3 0 β ([([[p], [q]], ())].zip [((), [claimLow z (algebraMap K F p)])]) 2) := by
  have h1 : algebraMap K F (genV 1) ≠ 1 := by
    rw [hg.one, map_neg, map_one]
    intro e
    have h2 := (twoAdic_map (F := F) hg).two_ne
    apply h2
    linear_combination -e
  have h := (C101_instance_accepted genV h1 g p q β z hz).1
  refine ⟨h, ?_⟩
  have e1 : (constChall β).sample () = some (β, ()) := rfl
  have e2 : sampleBetas (constChall β) (zeroProof (F := F) p q).commitPhaseCommits () = some ([β, β], ()) := by
    simp [sampleBetas, constChall, zeroProof]
  have e3 : (constChall β).checkWitness () 0 (zeroProof (F := F) p q).powWitness = some (true, ()) := rfl
  have e4 : sampleIndices (constChall β) ((zeroProof (F := F) p q).commitPhaseCommits.length + 1) 1 0 () =
      some ([(0, 0)], ()) := by
    simp [sampleIndices, constChall, zeroProof]
  have hsame : SameButValues [((), [(claimLow z (algebraMap K F p) : Dom K × List (F × List F))])] [((), [claimLow z v])] :=
    .cons ⟨rfl, .cons ⟨rfl, rfl⟩ .nil⟩ .nil
  have key := C73_exact (K := K) (F := F) (MI := anyInK K) (M := anyLayerF F) (proof := zeroProof p q)
    (cfg := ⟨1, 1, 0, true⟩) (ch0 := ()) (ch1 := ()) (ch2 := ())
    (indices := [(0, 0)]) (betas := [β, β]) (alpha := β) (rounds' := [((), [claimLow z v])]) hg hN
    hsame h e1 e2 e3 e4
  refine key.trans ?_
  simp only [zeroProof, List.length_cons, List.length_nil, zero_add, Nat.reduceAdd]
  constructor
  · intro h
    exact h 0 0 0 _ rfl rfl 0 (by simp)
  · intro h k q' idx qp e1 e2 j hj
    cases k with
    | zero =>
      simp only [List.getElem?_cons_zero, Option.some.injEq, Prod.mk.injEq] at e1 e2
      obtain ⟨rfl, rfl⟩ := e1
      subst e2
      have : j = 0 := by
        simp at hj
        omega
      subst this
      exact h
    | succ k => simp at e1

end

end TapStark.Pcs
