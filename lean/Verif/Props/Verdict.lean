import Verif.Props.StarkInst
import Verif.Spec.Verdict
import Verif.Proofs.Batch
import Verif.Props.FriOutcome
import Verif.Props.Claims

/-!
C117: what the native verifier accepts, what it reports and when it panics.
-/

set_option linter.unusedSectionVars false

namespace TapStark.Fri

variable {F : Type} [Field F] [DecidableEq F] {S C D P : Type}

theorem zip_take {α β γ : Type} : ∀ (as : List α) (bs : List β) (cs : List γ), cs.length = as.length →
    as.zip (bs.zip cs) = (as.take (min bs.length as.length)).zip
      ((bs.take (min bs.length as.length)).zip (cs.take (min bs.length as.length)))
  | [], _, _, _ => by simp
  | a :: as, [], _, _ => by simp
  | a :: as, b :: bs, [], h => by simp at h
  | a :: as, b :: bs, c :: cs, h => by
    have := zip_take as bs cs (by simpa using h)
    simp only [List.length_cons, Nat.add_min_add_right, List.take_succ_cons, List.zip_cons_cons]
    rw [← this]

/-- The verifier accepts a query with value `v` exactly if its rounds are in order and end in `v`. -/
theorem verifyQuery_exact {gen : Nat → F} {N : Nat} (hg : TwoAdic gen N) {M : Mmcs F S C D P} {cfg : Config}
    {commits : List C} {idx q : Nat} {openings : List (List (List F) × P)} {betas : List F} {ros : List (Nat × F)}
    (hN : commits.length + cfg.logBlowup ≤ N) (hb : betas.length = commits.length)
    (hr : RosOk ros (commits.length + cfg.logBlowup)) {v : F} :
    verifyQuery gen M cfg commits idx q openings betas ros (commits.length + cfg.logBlowup) = .ok v ↔
      RoundsInOrder gen M cfg commits betas q idx openings (roAt ros) v := by
  set m := min openings.length commits.length with hm
  obtain ⟨b, hbm⟩ : ∃ b, commits.length + cfg.logBlowup = b + m := ⟨commits.length + cfg.logBlowup - m, by omega⟩
  have hc' : (commits.take m).length = m := by simp; omega
  have ho' : (openings.take m).length = m := by simp; omega
  have hb' : (betas.take m).length = m := by simp; omega
  have hzl : ((commits.take m).zip ((openings.take m).zip (betas.take m))).length = m := by
    simp only [List.length_zip, hc', ho', hb', min_self]
  have hbeta : ∀ j < m, (betas.take m).getD j 0 = betas.getD j 0 := by
    intro j hj
    simp only [List.getD_eq_getElem?_getD, List.getElem?_take, if_pos hj]
  have hop : ∀ j < m, (openings.take m)[j]? = openings[j]? := fun j hj => by rw [List.getElem?_take, if_pos hj]
  have hco : ∀ j < m, (commits.take m)[j]? = commits[j]? := fun j hj => by rw [List.getElem?_take, if_pos hj]
  have hvq : verifyQuery gen M cfg commits idx q openings betas ros (commits.length + cfg.logBlowup) =
      (queryLoop gen M q (b + m) ((downList b m).zip ((commits.take m).zip ((openings.take m).zip (betas.take m)))) idx 0
        ros).bind fun r => if cfg.debug ∧ ¬ r.2 < cfg.blowup then Res.panic else Res.ok r.1 := by
    unfold verifyQuery
    rw [zip_take commits openings betas hb, ← hm, hbm, range_reverse_down, zip_downList _ _ m _ hzl]
    rfl
  rw [hbm] at hN hr
  rw [hvq]
  constructor
  · intro h
    obtain ⟨⟨fe, idx'⟩, h1, h2⟩ := Res.bind_eq_ok.mp h
    have hd : ¬ (cfg.debug = true ∧ ¬ idx' < cfg.blowup) := by
      intro hc
      simp only [if_pos hc] at h2
      cases h2
    obtain rfl : fe = v := by
      simp only [if_neg hd] at h2
      exact Res.ok.inj h2
    obtain ⟨rfl, x, y, i2, -, i4, i5, i6⟩ := queryLoop_ok hg m _ _ _ idx 0 ros fe idx' hc' ho' hb' hN le_rfl hr h1
    refine ⟨x, y, ?_, ?_, ?_, i5, ?_⟩
    · intro j hj
      obtain ⟨o, ho, c, hc, e1, e2⟩ := i2 j hj
      rw [hop j hj] at ho
      rw [hco j hj] at hc
      obtain ⟨o1, o2⟩ := o
      simp only at e1 e2
      subst e1
      exact ⟨o2, c, ho, hc, e2⟩
    · intro j hj
      have := i4 j hj
      rw [hbeta j (by omega)] at this
      simp only [hbm]
      exact this
    · intro hdb
      by_contra hlt
      exact hd ⟨hdb, hlt⟩
    · intro j hj
      have := i6 j (by rw [hj])
      rw [hbeta j (by omega)] at this
      simp only [hbm]
      rw [this]
      congr 4
      rw [← hm] at hj
      rw [hj]
  · rintro ⟨x, y, i2, i4, i3, i5, i6⟩
    rw [← hm] at i2 i4 i3 i5 i6
    simp only [hbm] at i4 i6
    have key := queryLoop_outcome hg (M := M) (q := q) (logMax := b + m) (b := b) m (commits.take m) (openings.take m)
      (betas.take m) idx 0 ros hc' ho' hb' hN le_rfl hr
    simp only [lt_irrefl, false_imp_iff] at key
    have hall : ∀ j < m, RoundPasses gen M (commits.take m) (betas.take m) ros (b + m) idx q (openings.take m)
        (fun _ => True) j := by
      intro j hj
      obtain ⟨π, c, e1, e2, e3⟩ := i2 j hj
      refine ⟨x j, y j, π, c, by rw [hop j hj]; exact e1, by rw [hco j hj]; exact e2, ?_, e3⟩
      cases j with
      | zero => trivial
      | succ i =>
        intro x' y' π' h'
        rw [hop i (by omega)] at h'
        obtain ⟨π2, c2, e1', -, -⟩ := i2 i (by omega)
        rw [e1'] at h'
        simp only [Option.some.injEq, Prod.mk.injEq, List.cons.injEq, and_true] at h'
        obtain ⟨⟨rfl, rfl⟩, -⟩ := h'
        rw [hbeta i (by omega)]
        exact i4 i hj
    rcases key with ⟨⟨w, h1⟩, -⟩ | ⟨j, hj, -, h2, -⟩
    · obtain ⟨-, x', y', k2, -, -, k5, k6⟩ := queryLoop_ok hg m _ _ _ idx 0 ros w _ hc' ho' hb' hN le_rfl hr h1
      have hw : w = v := by
        rcases Nat.eq_zero_or_pos m with h0 | h0
        · rw [k5 h0, i5 h0]
        · have hj : m - 1 + 1 = m := by omega
          obtain ⟨o, ho, c, -, e1, -⟩ := k2 (m - 1) (by omega)
          obtain ⟨π2, c2, e1', -, -⟩ := i2 (m - 1) (by omega)
          rw [hop _ (by omega), e1'] at ho
          cases ho
          simp only [List.cons.injEq, and_true] at e1
          rw [k6 _ hj, i6 _ hj, hbeta _ (by omega), hj, e1.1, e1.2]
      rw [h1, hw]
      have hd : ¬ (cfg.debug = true ∧ ¬ idx / 2 ^ m < cfg.blowup) := fun h => h.2 (i3 h.1)
      show (if cfg.debug = true ∧ ¬ idx / 2 ^ m < cfg.blowup then Res.panic else Res.ok v) = Res.ok v
      rw [if_neg hd]
    · exact absurd (hall j hj) h2

end TapStark.Fri

namespace TapStark.Pcs

open TapStark.Fri

variable {K F : Type} [Field K] [Field F] [DecidableEq K] [DecidableEq F] [Algebra K F]
variable {SI CI DI PI S C D P Ch W : Type}

theorem powerSum_eq (a : F) : ∀ l : List F, powerSum a l = dotPowers a l
  | [] => by simp [powerSum, dotPowers_nil]
  | x :: l => by
    rw [dotPowers_cons, ← powerSum_eq a l, powerSum, powerSum]
    show (∑ i : Fin (l.length + 1), _) = _
    rw [Fin.sum_univ_succ, Finset.mul_sum]
    simp only [Fin.val_zero, pow_zero, one_mul, Fin.val_succ, pow_succ]
    congr 1
    refine Finset.sum_congr rfl fun i _ => ?_
    show a ^ (i : Nat) * a * l[i] = _
    ring

theorem combinedClaims_eq (genV : Nat → K) (g : K) (b top idx : Nat) (alpha : F)
    (es : List ((List (List K) × PI) × VerifierRound K F CI)) (h : Nat) :
    combinedClaims genV g b top idx alpha es h = dotPowers alpha (heightTerms genV g b top idx h (opened es)) := by
  rw [combinedClaims, powerSum_eq, heightTerms, opened, List.flatMap_assoc]
  simp only [matTerms, Nat.shiftRight_eq_div_pow]

theorem pointLoop_total {alpha : F} {x : K} {opening : List K} : ∀ (points : List (F × List F)) (ap ro : F),
    (∀ p ∈ points, algebraMap K F x ≠ p.1) → ∃ r, pointLoop alpha x opening points ap ro = some r
  | [], ap, ro, _ => ⟨_, rfl⟩
  | (z, ps) :: points, ap, ro, h => by
    rw [pointLoop]
    have hz : ¬ (-z + algebraMap K F x = 0) := by
      intro e
      exact h (z, ps) (List.mem_cons_self ..) (by rw [neg_add_eq_zero] at e; exact e.symm)
    simp only [if_neg hz]
    exact pointLoop_total points _ _ fun p hp => h p (List.mem_cons_of_mem _ hp)

theorem matLoop_total {genV : Nat → K} {g : K} {cfg : Config} {alpha : F} {top index : Nat} :
    ∀ (l : List (List K × Dom K × List (F × List F))) (st : VerifyState F),
    (∀ rm ∈ l, rm.2.1.logN + cfg.logBlowup ≤ top ∧ ∀ p ∈ rm.2.2,
      algebraMap K F (queryPoint genV g (rm.2.1.logN + cfg.logBlowup)
        (index / 2 ^ (top - (rm.2.1.logN + cfg.logBlowup)))) ≠ p.1) →
    ∃ st', matLoop genV g cfg alpha top index l st = some st'
  | [], st, _ => ⟨_, rfl⟩
  | (opening, domain, points) :: l, st, h => by
    obtain ⟨h1, h2⟩ := h _ (List.mem_cons_self ..)
    rw [matLoop, Dom.size, log2Strict_pow, Option.bind_eq_bind, Option.bind_some]
    simp only at h1 h2 ⊢
    rw [if_pos h1]
    obtain ⟨r, hr⟩ := pointLoop_total (alpha := alpha) (opening := opening) points ((st (domain.logN + cfg.logBlowup)).getD (1, 0)).1
      ((st (domain.logN + cfg.logBlowup)).getD (1, 0)).2 h2
    rw [queryPoint, ← Nat.shiftRight_eq_div_pow] at hr
    rw [hr, Option.bind_eq_bind, Option.bind_some]
    exact matLoop_total l _ fun rm hrm => h rm (List.mem_cons_of_mem _ hrm)

theorem matLoop_needs {genV : Nat → K} {g : K} {cfg : Config} {alpha : F} {top index : Nat}
    {l : List (List K × Dom K × List (F × List F))} {st st' : VerifyState F}
    (hm : matLoop genV g cfg alpha top index l st = some st') : ∀ rm ∈ l, ∀ p ∈ rm.2.2,
      algebraMap K F (queryPoint genV g (rm.2.1.logN + cfg.logBlowup)
        (index / 2 ^ (top - (rm.2.1.logN + cfg.logBlowup)))) ≠ p.1 := by
  intro rm hrm p hp
  have := (matLoop_terms (rm.2.1.logN + cfg.logBlowup) hm).2 rm hrm rfl p hp
  rwa [Nat.shiftRight_eq_div_pow] at this

/-- The tallest matrix of a batch. -/
theorem maxHeight_iff {b top : Nat} (mats : List (Dom K × List (F × List F))) :
    (∃ mh lm, (mats.map fun m => m.1.size <<< b).max? = some mh ∧ log2Strict mh = some lm ∧ lm ≤ top) ↔
      mats ≠ [] ∧ ∀ m ∈ mats, m.1.logN + b ≤ top := by
  have hsz : ∀ m : Dom K × List (F × List F), m.1.size <<< b = 2 ^ (m.1.logN + b) := by
    intro m
    rw [Dom.size, Nat.shiftLeft_eq, pow_add]
  constructor
  · rintro ⟨mh, lm, h1, h2, h3⟩
    refine ⟨?_, ?_⟩
    · rintro rfl
      simp at h1
    · intro m hm
      have h4 := le_max?_of_mem h1 (List.mem_map.2 ⟨m, hm, rfl⟩)
      rw [hsz, log2Strict_eq h2] at h4
      exact ((Nat.pow_le_pow_iff_right (by decide)).mp h4).trans h3
  · rintro ⟨h1, h2⟩
    cases hmx : (mats.map fun m => m.1.size <<< b).max? with
    | none =>
      rw [List.max?_eq_none_iff, List.map_eq_nil_iff] at hmx
      exact absurd hmx h1
    | some mh =>
      have hmem := List.max?_mem hmx
      obtain ⟨m, hm, rfl⟩ := List.mem_map.1 hmem
      exact ⟨_, m.1.logN + b, rfl, by rw [hsz, log2Strict_pow], h2 m hm⟩

theorem roundLoop_exact {MI : InMmcs K SI CI DI PI} {genV : Nat → K} {g : K} {cfg : Config} {alpha : F}
    {top q index : Nat} : ∀ (l : List ((List (List K) × PI) × VerifierRound K F CI)) (st : VerifyState F),
    (∃ st', roundLoop MI genV g cfg alpha top q index l st = .ok st') ↔
      ∀ e ∈ l, InputInOrder MI genV g cfg.logBlowup top q index e
  | [], st => by simp [roundLoop]
  | (opening, commit, mats) :: l, st => by
    rw [List.forall_mem_cons]
    constructor
    · rintro ⟨st', h⟩
      rw [roundLoop, Res.bind_eq_ok] at h
      obtain ⟨mh, h1, h⟩ := h
      rw [Res.bind_eq_ok] at h
      obtain ⟨lm, h2, h⟩ := h
      rw [Res.ofOption_eq_ok] at h1 h2
      split at h
      case isFalse => cases h
      rename_i h3
      rw [Res.bind_eq_ok] at h
      obtain ⟨a, h4, h⟩ := h
      rw [Res.ofOption_eq_ok] at h4
      split at h
      case isFalse => cases h
      rename_i h5
      rw [Res.bind_eq_ok] at h
      obtain ⟨st1, h6, h⟩ := h
      rw [Res.ofOption_eq_ok] at h6
      obtain ⟨m1, m2⟩ := (maxHeight_iff mats).mp ⟨mh, lm, h1, h2, h3⟩
      refine ⟨⟨m1, m2, ?_, matLoop_needs h6⟩, (roundLoop_exact l st1).mp ⟨st', h⟩⟩
      rw [h5] at h4
      exact h4
    · rintro ⟨⟨m1, m2, m3, m4⟩, hl⟩
      obtain ⟨mh, lm, h1, h2, h3⟩ := (maxHeight_iff mats).mpr ⟨m1, m2⟩
      obtain ⟨st1, h6⟩ := matLoop_total (alpha := alpha) (genV := genV) (g := g) (cfg := cfg) (top := top) (index := index)
        (opening.1.zip mats) st fun rm hrm => ⟨m2 rm.2 (List.of_mem_zip hrm).2, m4 rm hrm⟩
      obtain ⟨st', h7⟩ := (roundLoop_exact (alpha := alpha) l st1).mpr hl
      refine ⟨st', ?_⟩
      simp only at m3
      rw [roundLoop]
      simp only [h1, h2, Res.ofOption_some, Res.bind_ok, if_pos h3, m3, if_true, h6, h7]

/-- The input check succeeds exactly if every batch is in order, and then its result for every height is the combination
of the claims. -/
theorem verifyInput_exact {MI : InMmcs K SI CI DI PI} {genV : Nat → K} {g : K} {cfg : Config} {alpha : F}
    {rounds : List (VerifierRound K F CI)} {top q index : Nat} {ip : List (List (List K) × PI)} :
    ((∃ vals, verifyInput MI genV g cfg alpha rounds top q index ip = .ok vals) ↔
      ∀ e ∈ ip.zip rounds, InputInOrder MI genV g cfg.logBlowup top q index e) ∧
    ∀ vals, verifyInput MI genV g cfg alpha rounds top q index ip = .ok vals → RosOk vals top ∧
      ∀ h ≤ top, roAt vals h = combinedClaims genV g cfg.logBlowup top index alpha (ip.zip rounds) h := by
  refine ⟨?_, fun vals hv => ⟨verifyInput_rosOk hv, fun h hh => ?_⟩⟩
  · rw [← roundLoop_exact (alpha := alpha) _ fun _ => none]
    constructor
    · rintro ⟨vals, h⟩
      rw [verifyInput, Res.bind_eq_ok] at h
      obtain ⟨st, h, -⟩ := h
      exact ⟨st, h⟩
    · rintro ⟨st, h⟩
      refine ⟨(List.range (top + 1)).reverse.filterMap fun h => (st h).map fun r => (h, r.2), ?_⟩
      rw [verifyInput, h, Res.bind_ok]
  · rw [(verifyInput_terms hv hh).1, combinedClaims_eq]

theorem roundsInOrder_congr {gen : Nat → F} {M : Mmcs F S C D P} {cfg : Config} {commits : List C} {betas : List F}
    {q idx : Nat} {openings : List (List (List F) × P)} {ro ro' : Nat → F} {final : F}
    (h : ∀ k ≤ commits.length + cfg.logBlowup, ro k = ro' k)
    (hr : RoundsInOrder gen M cfg commits betas q idx openings ro final) :
    RoundsInOrder gen M cfg commits betas q idx openings ro' final := by
  obtain ⟨x, y, h1, h2, h3⟩ := hr
  refine ⟨x, y, h1, fun j hj => ?_, h3⟩
  rw [h2 j hj, h _ (Nat.sub_le ..)]

/-- **C117** (opening proofs): the polynomial commitment scheme accepts an opening proof exactly if it is in order, and
otherwise panics. -/
theorem C117_opening_exact {genV : Nat → K} {N : Nat} (hg : TwoAdic genV N) {g : K} {MI : InMmcs K SI CI DI PI}
    {M : Mmcs F S C D P} {Kc : Chall Ch C F W} {cfg : Config} (rounds : List (VerifierRound K F CI))
    (proof : FriProof F C P W (List (List (List K) × PI)))
    (hN : proof.commitPhaseCommits.length + cfg.logBlowup ≤ N) (ch : Ch) :
    (∀ ch', verify genV g MI M Kc cfg rounds proof ch = .ok ch' ↔
      OpeningInOrder genV g MI M Kc cfg rounds proof ch ch') ∧
    (verify genV g MI M Kc cfg rounds proof ch = .panic ↔
      ¬ ∃ ch', OpeningInOrder genV g MI M Kc cfg rounds proof ch ch') := by
  have hgF := twoAdic_map (F := F) hg
  have hok : ∀ ch', verify genV g MI M Kc cfg rounds proof ch = .ok ch' ↔
      OpeningInOrder genV g MI M Kc cfg rounds proof ch ch' := by
    intro ch'
    have hexp : ∀ {α : Type} {r : Res α} {a : α}, expect r = .ok a ↔ r = .ok a := by
      intro α r a
      cases r <;> simp [expect]
    -- one query
    have hq : ∀ (alpha : F) (betas : List F) (q idx : Nat) (qp : QueryProof F P (List (List (List K) × PI))),
        betas.length = proof.commitPhaseCommits.length →
        ((∃ ros, verifyInput MI genV g cfg alpha rounds (proof.commitPhaseCommits.length + cfg.logBlowup) q idx
            qp.inputProof = .ok ros ∧
          verifyQuery (fun b => algebraMap K F (genV b)) M cfg proof.commitPhaseCommits idx q qp.commitPhaseOpenings betas
            ros (proof.commitPhaseCommits.length + cfg.logBlowup) = .ok proof.finalPoly) ↔
        (∀ e ∈ qp.inputProof.zip rounds, InputInOrder MI genV g cfg.logBlowup
            (proof.commitPhaseCommits.length + cfg.logBlowup) q idx e) ∧
          RoundsInOrder (fun b => algebraMap K F (genV b)) M cfg proof.commitPhaseCommits betas q idx
            qp.commitPhaseOpenings (combinedClaims genV g cfg.logBlowup
              (proof.commitPhaseCommits.length + cfg.logBlowup) idx alpha (qp.inputProof.zip rounds)) proof.finalPoly) := by
      intro alpha betas q idx qp hb
      obtain ⟨v1, v2⟩ := verifyInput_exact (MI := MI) (genV := genV) (g := g) (cfg := cfg) (alpha := alpha)
        (rounds := rounds) (top := proof.commitPhaseCommits.length + cfg.logBlowup) (q := q) (index := idx)
        (ip := qp.inputProof)
      constructor
      · rintro ⟨ros, h1, h2⟩
        obtain ⟨r1, r2⟩ := v2 ros h1
        exact ⟨v1.mp ⟨ros, h1⟩, roundsInOrder_congr r2 ((verifyQuery_exact hgF hN hb r1).mp h2)⟩
      · rintro ⟨h1, h2⟩
        obtain ⟨ros, h1⟩ := v1.mpr h1
        obtain ⟨r1, r2⟩ := v2 ros h1
        exact ⟨ros, h1, (verifyQuery_exact hgF hN hb r1).mpr (roundsInOrder_congr (fun k hk => (r2 k hk).symm) h2)⟩
    constructor
    · intro h
      rw [verify, Res.bind_eq_ok] at h
      obtain ⟨⟨alpha, ch0⟩, h1, h⟩ := h
      rw [Res.ofOption_eq_ok] at h1
      rw [Res.bind_eq_ok] at h
      obtain ⟨⟨challenges, ch3⟩, h2, h⟩ := h
      rw [hexp] at h2
      rw [Res.bind_eq_ok] at h
      obtain ⟨⟨⟩, h3, h⟩ := h
      rw [hexp] at h3
      cases h
      obtain ⟨s1, s2, s3, ch1, ch2, s4, s5, s6⟩ := C40_shape h2
      refine ⟨alpha, ch0, challenges.betas, ch1, ch2, challenges.queryIndices, h1, s4, s1, s5, s6, ?_⟩
      intro k q idx qp e1 e2
      exact (hq alpha challenges.betas q idx qp s2).mp (C40_accepted_proof h3 k q idx qp e1 e2)
    · rintro ⟨alpha, ch0, betas, ch1, ch2, indices, h1, s4, s1, s5, s6, hall⟩
      have hsh : verifyShapeAndSampleChallenges Kc cfg proof ch0 = .ok (⟨indices, betas⟩, ch') := by
        unfold verifyShapeAndSampleChallenges
        simp only [s4, s1, s5, s6, Res.ofOption_some, Res.bind_ok, ne_eq, not_true_eq_false, if_false, Bool.not_true,
          Bool.false_eq_true]
      obtain ⟨-, s2, s3, -⟩ := C40_shape hsh
      have hlen : indices.length = proof.queryProofs.length := by
        have := congrArg List.length s3
        simpa [s1] using this
      have hvc : verifyChallenges (fun b => algebraMap K F (genV b)) M cfg proof ⟨indices, betas⟩
          (verifyInput MI genV g cfg alpha rounds (proof.commitPhaseCommits.length + cfg.logBlowup)) = .ok () := by
        refine (C41_queries_exact (challenges := ⟨indices, betas⟩) hlen).1.mpr fun k hk => ?_
        obtain ⟨⟨q, idx⟩, e1⟩ : ∃ x, indices[k]? = some x := ⟨_, List.getElem?_eq_getElem (by omega)⟩
        obtain ⟨qp, e2⟩ : ∃ x, proof.queryProofs[k]? = some x := ⟨_, List.getElem?_eq_getElem hk⟩
        obtain ⟨ros, r1, r2⟩ := (hq alpha betas q idx qp s2).mpr (hall k q idx qp e1 e2)
        exact ⟨q, idx, qp, ros, e1, e2, r1, r2⟩
      rw [verify]
      simp only [h1, Res.ofOption_some, Res.bind_ok, hsh, expect, hvc]
  refine ⟨hok, ?_⟩
  cases hv : verify genV g MI M Kc cfg rounds proof ch with
  | ok ch' => exact ⟨fun h => (by cases h), fun h => absurd ⟨ch', (hok ch').mp hv⟩ h⟩
  | err e => exact absurd hv (C74_violated_never_err _ _ _ _)
  | panic =>
    refine ⟨fun _ => ?_, fun _ => rfl⟩
    rintro ⟨ch', h⟩
    rw [(hok ch').mpr h] at hv
    cases hv

end TapStark.Pcs

namespace TapStark.Stark

open Polynomial TapStark.Fri TapStark.Pcs

variable {K F : Type} [Field K] [Field F] [DecidableEq K] [DecidableEq F] [Algebra K F]
variable {SI C DI PI S D P Ch W : Type}

theorem sum_map_range {R : Type} [Ring R] (f : Nat → R) (n : Nat) :
    ((List.range n).map f).sum = ∑ i ∈ Finset.range n, f i := by
  induction n with
  | zero => rfl
  | succ n ih => rw [List.range_succ, Finset.sum_range_succ, ← ih]; simp

theorem weight_eval {u : Setup K F SI C DI PI S D P Ch W} (hg : TwoAdic u.genV u.twoAdicity) (k q i : Nat) (zeta : F) :
    (weightPoly hg F k q u.g i).eval zeta = ∏ j ∈ (Finset.range (2 ^ q)).erase i,
      chunkZero u k q j zeta / chunkZero u k q j (algebraMap K F (chunkShift u k q i)) := by
  rw [weightPoly, eval_prod]
  refine Finset.prod_congr rfl fun j _ => ?_
  simp only [eval_mul, eval_sub, eval_pow, eval_C, eval_X, eval_one, chunkZero, chunkShift, map_inv₀, map_sub, map_pow,
    map_mul, map_one, div_eq_mul_inv, mul_comm]

theorem recombine_value {u : Setup K F SI C DI PI S D P Ch W} (hg : TwoAdic u.genV u.twoAdicity) {air : Air K} {q : Nat}
    {proof : ProofOf K F C P W PI} (hs : ShapeOk u air q proof) (zeta : F) :
    recombine u.deg ((List.range (2 ^ q)).map fun i => (weightPoly hg F proof.degreeBits q u.g i).eval zeta)
      proof.quotientChunks = some (quotientValue u proof.degreeBits q proof.quotientChunks zeta) := by
  obtain ⟨-, -, h3, h4⟩ := hs
  rw [recombine_sum _ _ _ (by simp [h3]), h3, sum_map_range, quotientValue]
  congr 1
  refine Finset.sum_congr rfl fun i hi => ?_
  have hi := Finset.mem_range.1 hi
  rw [sum_map_range]
  have e1 : ((List.range (2 ^ q)).map fun i => (weightPoly hg F proof.degreeBits q u.g i).eval zeta).getD i 0 =
      (weightPoly hg F proof.degreeBits q u.g i).eval zeta := by
    rw [List.getD_eq_getElem?_getD, List.getElem?_map, List.getElem?_range hi]
    rfl
  have e2 : (proof.quotientChunks.getD i []).length = u.deg.D := by
    rw [List.getD_eq_getElem?_getD, List.getElem?_eq_getElem (by omega), Option.getD_some]
    exact h4 _ (List.getElem_mem _)
  rw [e1, e2, weight_eval]

/-- The out-of-domain check. -/
theorem oodCheck_exact {u : Setup K F SI C DI PI S D P Ch W} (hu : u.Ok) {air : Air K} {pub : List K}
    {proof : ProofOf K F C P W PI} {q : Nat} (hz : SizeOk u air pub proof q) (hs : ShapeOk u air q proof) (alpha zeta : F)
    (b : Bool) :
    oodCheck u air pub ⟨proof.degreeBits, 1⟩ (chunkDomains u.genV proof.degreeBits q u.g) proof alpha zeta = some b ↔
      zeta ^ 2 ^ proof.degreeBits ≠ 1 ∧ (b = true ↔ ConstraintsMatch u air pub q proof alpha zeta) := by
  by_cases h1 : zeta ^ 2 ^ proof.degreeBits = 1
  · rw [oodCheck_panic h1]
    simp [h1]
  rw [oodCheck_eq hu hz.1 hz.2.2 hs.1 hs.2.1 h1, recombine_value hu.twoAdic hs, Option.map_some, Option.some.injEq]
  have e1 := selPoly_aeval (K := K) (one_pow (2 ^ proof.degreeBits)) h1
  have e2 := selPoly_aeval (inv_pow hu.twoAdic (show proof.degreeBits ≤ u.twoAdicity from by have := hz.2.2; omega)) h1
  rw [map_one] at e1
  have hm : (⟨proof.traceLocal, proof.traceNext, pub.map (algebraMap K F),
      aeval zeta (selPoly (1 : K) (2 ^ proof.degreeBits)),
      aeval zeta (selPoly (u.genV proof.degreeBits)⁻¹ (2 ^ proof.degreeBits)),
      zeta - algebraMap K F (u.genV proof.degreeBits)⁻¹⟩ : Window F).meaning = openedMeaning u proof pub zeta := by
    rw [Window.meaning, openedMeaning, ← e1, ← e2]
    simp only [map_inv₀, div_eq_mul_inv]
    congr 1
    funext j
    simp only [List.getD_eq_getElem?_getD, List.getElem?_map]
    cases pub[j]? <;> simp
  have hc : (combine alpha (air.asserts.map (Assertion.residue (algebraMap K F) (openedMeaning u proof pub zeta))) *
      (zeta ^ 2 ^ proof.degreeBits - 1)⁻¹ = quotientValue u proof.degreeBits q proof.quotientChunks zeta) ↔
      ConstraintsMatch u air pub q proof alpha zeta := by
    rw [mul_inv_eq_iff_eq_mul₀ (sub_ne_zero.mpr h1), mul_comm, ConstraintsMatch]
  rw [hm]
  rw [← hc]
  simp only [ne_eq, h1, not_false_eq_true, true_and]
  cases b <;> simp

theorem claimsWith_eq (u : Setup K F SI C DI PI S D P Ch W) (q : Nat) (proof : ProofOf K F C P W PI) (zeta : F) :
    claimsWith u proof q zeta proof.quotientChunks = claims u q proof zeta := by
  rw [claimsWith, claims, chunkDomains, List.zip_map_left, List.map_map]
  rfl

/-- What the verifier does with a proof of the right size and shape. -/
theorem verify_cases {u : Setup K F SI C DI PI S D P Ch W} (hu : u.Ok) {air : Air K} {pub : List K} {ch : Ch}
    {proof : ProofOf K F C P W PI}
    (hN : proof.openingProof.commitPhaseCommits.length + u.cfg.logBlowup ≤ u.twoAdicity) {q : Nat}
    (hz : SizeOk u air pub proof q) (hs : ShapeOk u air q proof) :
    (∃ alpha zeta ch', OpenedInOrder u air pub proof ch q alpha zeta ch' ∧
      (ConstraintsMatch u air pub q proof alpha zeta ∧ verify u air ch proof pub = .ok ch' ∨
        ¬ ConstraintsMatch u air pub q proof alpha zeta ∧ verify u air ch proof pub = .err .oodEvaluationMismatch)) ∨
    ((¬ ∃ alpha zeta ch', OpenedInOrder u air pub proof ch q alpha zeta ch') ∧ verify u air ch proof pub = .panic) := by
  have hq := (C45_least_power_of_two air pub.length q).mpr ⟨hz.1, hz.2.1⟩
  rw [verify_eq hu hq rfl hz.2.2 hs]
  cases hc : challenges u ch proof.traceCommit proof.quotientCommit with
  | none =>
    refine .inr ⟨?_, rfl⟩
    rintro ⟨alpha, zeta, ch', -, -, chz, h1, -⟩
    rw [hc] at h1
    cases h1
  | some x =>
    obtain ⟨alpha, zeta, chz⟩ := x
    dsimp only
    rw [show [(proof.traceCommit, [((⟨proof.degreeBits, 1⟩ : Dom K), [(zeta, proof.traceLocal),
            (zeta * algebraMap K F (u.genV proof.degreeBits), proof.traceNext)])]),
          (proof.quotientCommit, ((chunkDomains u.genV proof.degreeBits q u.g).zip proof.quotientChunks).map
              fun x => (x.1, [(zeta, x.2)]))] = claims u q proof zeta from claimsWith_eq u q proof zeta]
    obtain ⟨o1, o2⟩ := C117_opening_exact hu.twoAdic (g := u.g) (MI := u.mi) (M := u.m) (Kc := u.chall) (cfg := u.cfg)
      (claims u q proof zeta) proof.openingProof hN chz
    cases hv : Pcs.verify u.genV u.g u.mi u.m u.chall u.cfg (claims u q proof zeta) proof.openingProof chz with
    | err e => exact absurd hv (C74_violated_never_err _ _ _ _)
    | panic =>
      refine .inr ⟨?_, rfl⟩
      rintro ⟨alpha', zeta', ch', -, -, chz', h1, h2, -⟩
      rw [hc] at h1
      cases h1
      exact o2.mp hv ⟨ch', h2⟩
    | ok ch' =>
      dsimp only
      have ho := (o1 ch').mp hv
      have hx := oodCheck_exact hu hz hs alpha zeta
      cases hb : oodCheck u air pub ⟨proof.degreeBits, 1⟩ (chunkDomains u.genV proof.degreeBits q u.g) proof alpha zeta with
      | none =>
        refine .inr ⟨?_, rfl⟩
        rintro ⟨alpha', zeta', ch'', -, -, chz', h1, -, h3⟩
        rw [hc] at h1
        cases h1
        by_cases hm : ConstraintsMatch u air pub q proof alpha zeta
        · have := (hx true).mpr ⟨h3, by simp [hm]⟩
          rw [hb] at this
          cases this
        · have := (hx false).mpr ⟨h3, by simp [hm]⟩
          rw [hb] at this
          cases this
      | some b =>
        obtain ⟨h3, h4⟩ := (hx b).mp hb
        refine .inl ⟨alpha, zeta, ch', ⟨hz, hs, chz, hc, ho, h3⟩, ?_⟩
        cases b with
        | true => exact .inl ⟨h4.mp rfl, rfl⟩
        | false => exact .inr ⟨fun h => (by cases h4.mpr h), rfl⟩

/-- **C117**: what the native verifier accepts, what it reports and when it panics.  It accepts exactly if size and shape
fit, the opening proof is in order, `zeta` is outside of the trace domain, and the combined assertions at `zeta` are the
vanishing polynomial times the quotient.  It reports a shape error exactly if the size fits but not the shape, and a
mismatch exactly if only the last condition fails; it never reports an error of the opening proof.  In all other cases it
panics. -/
theorem C117_verdict {u : Setup K F SI C DI PI S D P Ch W} (hu : u.Ok) (air : Air K) (pub : List K) (ch : Ch)
    (proof : ProofOf K F C P W PI)
    (hN : proof.openingProof.commitPhaseCommits.length + u.cfg.logBlowup ≤ u.twoAdicity) :
    (∀ ch', verify u air ch proof pub = .ok ch' ↔ ∃ q alpha zeta,
      OpenedInOrder u air pub proof ch q alpha zeta ch' ∧ ConstraintsMatch u air pub q proof alpha zeta) ∧
    (verify u air ch proof pub = .err .oodEvaluationMismatch ↔ ∃ q alpha zeta ch',
      OpenedInOrder u air pub proof ch q alpha zeta ch' ∧ ¬ ConstraintsMatch u air pub q proof alpha zeta) ∧
    (verify u air ch proof pub = .err .invalidProofShape ↔ ∃ q, SizeOk u air pub proof q ∧ ¬ ShapeOk u air q proof) ∧
    verify u air ch proof pub ≠ .err .invalidOpeningArgument ∧
    (verify u air ch proof pub = .panic ↔ ∀ q, SizeOk u air pub proof q → ShapeOk u air q proof ∧
      ¬ ∃ alpha zeta ch', OpenedInOrder u air pub proof ch q alpha zeta ch') := by
  have huniq : ∀ {q q'}, SizeOk u air pub proof q → SizeOk u air pub proof q' → q = q' :=
    fun h h' => h.2.1.unique h'.2.1
  have hdet : ∀ {q alpha zeta ch1 q' alpha' zeta' ch2}, OpenedInOrder u air pub proof ch q alpha zeta ch1 →
      OpenedInOrder u air pub proof ch q' alpha' zeta' ch2 → q = q' ∧ alpha = alpha' ∧ zeta = zeta' ∧ ch1 = ch2 := by
    rintro q alpha zeta ch1 q' alpha' zeta' ch2 ⟨h1, -, chz, h2, h3, -⟩ ⟨h1', -, chz', h2', h3', -⟩
    rw [h2] at h2'
    cases h2'
    obtain rfl := huniq h1 h1'
    have hx := C117_opening_exact hu.twoAdic (g := u.g) (MI := u.mi) (M := u.m) (Kc := u.chall) (cfg := u.cfg)
      (claims u q proof zeta) proof.openingProof hN chz
    have k := (hx.1 ch2).mpr h3'
    rw [(hx.1 ch1).mpr h3] at k
    cases k
    exact ⟨rfl, rfl, rfl, rfl⟩
  by_cases hz : ∃ q, SizeOk u air pub proof q
  case neg =>
    have hp : verify u air ch proof pub = .panic := by
      refine C51_violated_panics ch fun q hq => ?_
      by_contra hlt
      obtain ⟨h1, h2⟩ := (C45_least_power_of_two air pub.length q).mp hq
      exact hz ⟨q, h1, h2, by omega⟩
    rw [hp]
    refine ⟨fun ch' => ⟨fun h => (by cases h), ?_⟩, ⟨fun h => (by cases h), ?_⟩, ⟨fun h => (by cases h), ?_⟩, by simp,
      ⟨fun _ q hq => absurd ⟨q, hq⟩ hz, fun _ => rfl⟩⟩
    · rintro ⟨q, _, _, h, -⟩
      exact absurd ⟨q, h.1⟩ hz
    · rintro ⟨q, _, _, _, h, -⟩
      exact absurd ⟨q, h.1⟩ hz
    · rintro ⟨q, h, -⟩
      exact absurd ⟨q, h⟩ hz
  obtain ⟨q, hz⟩ := hz
  by_cases hs : ShapeOk u air q proof
  case neg =>
    have hq := (C45_least_power_of_two air pub.length q).mpr ⟨hz.1, hz.2.1⟩
    have he := (C51_shape_partial hu hq ch hz.2.2).1.mpr hs
    rw [he]
    refine ⟨fun ch' => ⟨fun h => (by cases h), ?_⟩, ⟨fun h => (by cases h), ?_⟩, ⟨fun _ => ⟨q, hz, hs⟩, fun _ => rfl⟩,
      by simp, ⟨fun h => (by cases h), fun h => absurd (h q hz).1 hs⟩⟩
    · rintro ⟨q', _, _, h, -⟩
      obtain rfl := huniq hz h.1
      exact absurd h.2.1 hs
    · rintro ⟨q', _, _, _, h, -⟩
      obtain rfl := huniq hz h.1
      exact absurd h.2.1 hs
  have hshape : ¬ ∃ q, SizeOk u air pub proof q ∧ ¬ ShapeOk u air q proof := by
    rintro ⟨q', h1, h2⟩
    obtain rfl := huniq hz h1
    exact h2 hs
  rcases verify_cases hu (ch := ch) hN hz hs with ⟨alpha, zeta, ch1, ho, ⟨hm, hv⟩ | ⟨hm, hv⟩⟩ | ⟨ho, hv⟩ <;> rw [hv]
  · refine ⟨fun ch' => ⟨fun h => ?_, ?_⟩, ⟨fun h => (by cases h), ?_⟩, ⟨fun h => (by cases h), fun h => absurd h hshape⟩,
      by simp, ⟨fun h => (by cases h), fun h => absurd ⟨_, _, _, ho⟩ (h q hz).2⟩⟩
    · cases h
      exact ⟨q, alpha, zeta, ho, hm⟩
    · rintro ⟨q', alpha', zeta', ho', hm'⟩
      obtain ⟨rfl, rfl, rfl, rfl⟩ := hdet ho ho'
      rfl
    · rintro ⟨q', alpha', zeta', ch', ho', hm'⟩
      obtain ⟨rfl, rfl, rfl, -⟩ := hdet ho ho'
      exact absurd hm hm'
  · refine ⟨fun ch' => ⟨fun h => (by cases h), ?_⟩, ⟨fun _ => ⟨q, alpha, zeta, ch1, ho, hm⟩, fun _ => rfl⟩,
      ⟨fun h => (by cases h), fun h => absurd h hshape⟩, by simp,
      ⟨fun h => (by cases h), fun h => absurd ⟨_, _, _, ho⟩ (h q hz).2⟩⟩
    rintro ⟨q', alpha', zeta', ho', hm'⟩
    obtain ⟨rfl, rfl, rfl, -⟩ := hdet ho ho'
    exact absurd hm' hm
  · refine ⟨fun ch' => ⟨fun h => (by cases h), ?_⟩, ⟨fun h => (by cases h), ?_⟩,
      ⟨fun h => (by cases h), fun h => absurd h hshape⟩, by simp, ⟨fun _ q' hq' => ?_, fun _ => rfl⟩⟩
    · rintro ⟨q', alpha', zeta', ho', -⟩
      obtain rfl := huniq hz ho'.1
      exact absurd ⟨_, _, _, ho'⟩ ho
    · rintro ⟨q', alpha', zeta', ch', ho', -⟩
      obtain rfl := huniq hz ho'.1
      exact absurd ⟨_, _, _, ho'⟩ ho
    · obtain rfl := huniq hz hq'
      exact ⟨hs, ho⟩

end TapStark.Stark

namespace TapStark.Stark

open TapStark.Tap TapStark.FS TapStark.Fri TapStark.Pcs Polynomial

variable {K F : Type} [Field K] [Field F] [DecidableEq K] [DecidableEq F] [Algebra K F]
variable {SI C DI PI S D P Ch W : Type}

/-- A proof that the prover makes stays within the hypothesis of C117. -/
theorem prove_rounds {u : Setup K F SI C DI PI S D P Ch W} (hu : u.Ok) {air : Air K} (hwidth : 0 < air.width)
    {pub : List K} {q : Nat} (hq : getLogQuotientDegree air pub.length = some q) (hqb : q ≤ u.cfg.logBlowup)
    {trace : Mat K} {k : Nat} (hkb : k + u.cfg.logBlowup ≤ u.twoAdicity)
    (hl : trace.length = 2 ^ k) (hrect : Rect trace air.width)
    {ch ch' : Ch} {si : SI} {s : S} {w : W} {proof : ProofOf K F C P W PI}
    (hp : prove u air ch trace pub si s w = some (proof, ch')) :
    proof.degreeBits = k ∧ proof.openingProof.commitPhaseCommits.length + u.cfg.logBlowup ≤ u.twoAdicity := by
  obtain ⟨ps, hpw, rfl, hps⟩ := trace_polys hu (k := k) (by omega) hl hrect
  have := produced_top hu hwidth ((C45_least_power_of_two air _ q).1 hq).1 hq hqb hkb hpw hps hp
  exact ⟨this.1, by rw [this.2.1]; exact hkb⟩

/-- Two statements about the same Fibonacci values cannot both match. -/
theorem fib_match {u : Setup K F SI C DI PI S D P Ch W} {proof : ProofOf K F C P W PI} {a b c c' : K} {q : Nat}
    {alpha zeta : F} (h : ConstraintsMatch u (fibAir K) [a, b, c] q proof alpha zeta)
    (h' : ConstraintsMatch u (fibAir K) [a, b, c'] q proof alpha zeta)
    (hl : (zeta ^ 2 ^ proof.degreeBits - 1) / (zeta - (algebraMap K F (u.genV proof.degreeBits))⁻¹) ≠ 0) : c = c' := by
  unfold ConstraintsMatch at h h'
  rw [← h] at h'
  simp only [← foldl_combine, fibAir, List.map_cons, List.map_nil, List.foldl_cons, List.foldl_nil, Assertion.residue,
    Assertion.sides, AExpr.value, openedMeaning, List.getD_cons_zero, List.getD_cons_succ, sub_zero] at h'
  exact ((algebraMap K F).injective (sub_right_injective (mul_left_cancel₀ hl (add_left_cancel h')))).symm

section
variable [LinearOrder U256]

/-- C117 has no unmet hypotheses, and the outcomes occur.  In the setting of C48's example the proof that the fourth Fibonacci
number is 3 is accepted; as a proof that it is 7 it is reported as a mismatch; without its opened row it is reported as a
shape error; with a public value missing the verifier panics. -/
theorem C117_instance (scfg : TapStark.Cfg) (h20 : ∀ x, (scfg.hash160 x).length = 20)
    (th : TapHash (List Op) U256) (w : U32) :
    ∃ mgr : Tcs.Manager,
    let u := deployed scfg th mgr mgr bbRep (lagrangeExt bbGen : Ext BB BB) (bbChall (blake3Perm fiveHash))
      ⟨1, 2, 0, true⟩ bbDeg
    let ch := Chal.new 16 (fromU64 0)
    u.Ok ∧ ∃ proof ch', proof.openingProof.commitPhaseCommits.length + u.cfg.logBlowup ≤ u.twoAdicity ∧
      verify u (fibAir BB) ch proof [0, 1, 3] = .ok ch' ∧
      verify u (fibAir BB) ch proof [0, 1, 7] = .err .oodEvaluationMismatch ∧
      verify u (fibAir BB) ch { proof with traceLocal := [] } [0, 1, 3] = .err .invalidProofShape ∧
      verify u (fibAir BB) ch proof [0, 1] = .panic := by
  obtain ⟨b, c, -, -, h⟩ := Tcs.winternitz_ok scfg h20 ['b', '1', '3', '8'] (by decide) 0
  have ok : ∀ n w, Tcs.BcsOk scfg 1 20 20 (Tcs.assigned bbRep (fun _ _ => Tcs.winternitzBc scfg b c) n w) := by
    intro n w
    refine ⟨h, ?_⟩
    intro bc hbc
    obtain ⟨-, -, rfl⟩ := List.mem_map.1 hbc
    exact h
  refine ⟨fun _ _ => Tcs.winternitzBc scfg b c, ?_⟩
  intro u ch
  have hp := fun s (_ : s.length = 16) => blake3Perm_length fiveHash s
  have hu : u.Ok := deployed_ok th ok bbRep_ok ok (lagrangeExt_width _) (lagrangeExt_correct bbGen_twoAdic)
    (by decide) (by decide) (bbChall_bits _) bbDeg_ok
  have hch : GoodChal (blake3Perm fiveHash) ch := ⟨_, _, inv_new (by omega)⟩
  have hq : getLogQuotientDegree (fibAir BB) 3 = some 0 := fibAir_degree 3 le_rfl
  have hpub : [0, 1, ((fibTrace 4 (0 : BB) 1).getD (4 - 1) []).getD 1 0] = [0, 1, 3] := by decide +kernel
  have hsat := fibTrace_satisfies 4 (by omega) (0 : BB) 1
  rw [hpub] at hsat
  have hz1 : (5 : BB) ^ 2 ^ 2 ≠ 1 := by decide +kernel
  have hz3 : (5 : BB) ^ 2 ^ 3 ≠ 31 ^ 2 ^ 3 := by decide +kernel
  obtain ⟨c1, c2, alpha, zeta, chz, h1, h2⟩ := C48_no_panic hu (by decide : (27 : Nat) < 32)
    (bbChall_total _ hp) (air := fibAir BB) (by decide : 0 < 2) (pub := [0, 1, 3]) hq (Nat.zero_le _)
    (k := 2) (by decide : 2 + 1 ≤ 27) (fibTrace_length 4 0 1) (fibTrace_rect 4 0 1) (fun _ => hsat)
    hch 0 0
  obtain ⟨rfl, rfl⟩ := fiveHash_challenges rfl hch h1
  obtain ⟨chPow, hgood, h3⟩ := h2 hz3
  obtain ⟨chw, hw⟩ := checkWitness_zero hp chPow hgood w
  obtain ⟨proof, ch', h4, rfl, rfl⟩ := h3 w chw hw
  have hv : verify u (fibAir BB) ch proof [0, 1, 3] = .ok ch' := by
    refine C48_complete_partial hu (by decide : 0 < 2) fibAir_filtered fibAir_transitions (pub := [0, 1, 3]) hq (Nat.zero_le _)
      (k := 2) (by decide : 2 + 1 ≤ 27) (fibTrace_length 4 0 1) (fibTrace_rect 4 0 1) hsat h4 ?_
    intro alpha' zeta' chz' hc
    obtain ⟨-, rfl⟩ := fiveHash_challenges rfl hch hc
    exact hz1
  obtain ⟨hdb, hN⟩ := prove_rounds hu (by decide : 0 < 2) (pub := [0, 1, 3]) hq (Nat.zero_le _) (k := 2) (by decide : 2 + 1 ≤ 27) (fibTrace_length 4 0 1) (fibTrace_rect 4 0 1) h4
  obtain ⟨q, alpha, zeta, ho, hm⟩ := ((C117_verdict hu (fibAir BB) [0, 1, 3] ch proof hN).1 ch').mp hv
  have hr : (fibAir BB).InRange 3 := ho.1.1
  refine ⟨hu, proof, ch', hN, hv, ?_, ?_, ?_⟩
  · refine (C117_verdict hu (fibAir BB) [0, 1, 7] ch proof hN).2.1.mpr
      ⟨q, alpha, zeta, ch', ⟨⟨hr, ho.1.2⟩, ho.2⟩, fun hm' => ?_⟩
    obtain ⟨-, -, chz, hc, -⟩ := ho
    obtain ⟨-, rfl⟩ := fiveHash_challenges rfl hch hc
    have hl : ((5 : BB) ^ 2 ^ 2 - 1) / (5 - (algebraMap BB BB (u.genV 2))⁻¹) ≠ 0 := by
      refine div_ne_zero (sub_ne_zero.mpr hz1) (sub_ne_zero.mpr fun h5 => hz1 ?_)
      rw [h5, ← map_inv₀, ← map_pow, inv_pow hu.twoAdic (by decide : 2 ≤ 27), map_one]
    exact absurd (fib_match hm hm' (by rw [hdb]; exact hl)) (by decide +kernel)
  · refine (C117_verdict hu (fibAir BB) [0, 1, 3] ch { proof with traceLocal := [] } hN).2.2.1.mpr ⟨q, ho.1, fun hs => ?_⟩
    exact absurd hs.1 (by decide : (0 : Nat) ≠ 2)
  · refine (C117_verdict hu (fibAir BB) [0, 1] ch proof hN).2.2.2.2.mpr fun q hq => ?_
    have : (2 : Nat) < 2 := (hq.1 (.zero (.mul .isLastRow (.sub (.loc 1) (.pub 2)))) (by simp [fibAir])).2.2
    exact absurd this (by decide)

end

end TapStark.Stark
