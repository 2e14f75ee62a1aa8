import Verif.Props.Claims
import Verif.Props.PcsRelease

/-
C121: altering an accepted proof.
-/

namespace TapStark.Pcs

open TapStark.Fri

variable {K F : Type} [Field K] [Field F] [DecidableEq K] [DecidableEq F] [Algebra K F]
variable {SI CI DI PI S C D P Ch W X : Type}

/-- Two opening proofs that differ at most in what their queries hold beyond the first `r` openings of the inputs and beyond
one opening per commitment of the folding rounds. -/
structure SameUpToSurplus (r : Nat) (p p' : FriProof F C P W (List X)) : Prop where
  commits : p.commitPhaseCommits = p'.commitPhaseCommits
  final : p.finalPoly = p'.finalPoly
  witness : p.powWitness = p'.powWitness
  queries : List.Forall₂ (fun a b => a.inputProof.take r = b.inputProof.take r ∧
    a.commitPhaseOpenings.take p.commitPhaseCommits.length = b.commitPhaseOpenings.take p.commitPhaseCommits.length)
    p.queryProofs p'.queryProofs

theorem zip_take {α β : Type} : ∀ (l : List α) (r : List β) {n : Nat}, r.length ≤ n → l.zip r = (l.take n).zip r
  | [], r, n, _ => by simp
  | a :: l, [], n, _ => by simp
  | a :: l, b :: r, 0, h => by simp at h
  | a :: l, b :: r, n + 1, h => by
    rw [List.take_succ_cons, List.zip_cons_cons, List.zip_cons_cons, ← zip_take l r (by simpa using h)]

omit [DecidableEq K] in
theorem verifyInput_take {genV : Nat → K} {g : K} {MI : InMmcs K SI CI DI PI} {cfg : Config} {alpha : F}
    {rounds : List (VerifierRound K F CI)} {ip ip' : List (List (List K) × PI)} {r : Nat} (hr : rounds.length ≤ r)
    (h : ip.take r = ip'.take r) (top q index : Nat) :
    verifyInput MI genV g cfg alpha rounds top q index ip = verifyInput MI genV g cfg alpha rounds top q index ip' := by
  unfold verifyInput
  rw [zip_take ip rounds hr, h, ← zip_take ip' rounds hr]

theorem zip_zip_take {α β γ : Type} : ∀ (l : List α) (r : List β) (t : List γ),
    l.zip (r.zip t) = l.zip ((r.take l.length).zip t)
  | [], _, _ => by simp
  | _ :: _, [], _ => by simp
  | _ :: _, _ :: _, [] => by simp
  | a :: l, b :: r, c :: t => by
    rw [List.length_cons, List.take_succ_cons, List.zip_cons_cons, List.zip_cons_cons, List.zip_cons_cons,
      List.zip_cons_cons, ← zip_zip_take l r t]

theorem verifyQuery_take {gen : Nat → F} {M : Mmcs F S C D P} {cfg : Config} {commits : List C} {i q : Nat}
    {openings openings' : List (List (List F) × P)} {betas : List F} {ros : List (Nat × F)} {top : Nat}
    (h : openings.take commits.length = openings'.take commits.length) :
    verifyQuery gen M cfg commits i q openings betas ros top = verifyQuery gen M cfg commits i q openings' betas ros top := by
  unfold verifyQuery
  rw [zip_zip_take commits openings, h, ← zip_zip_take commits openings']

omit [DecidableEq K] in
/-- What the verifier of openings does not read. -/
theorem verify_surplus {genV : Nat → K} {g : K} {MI : InMmcs K SI CI DI PI} {M : Mmcs F S C D P} {Kc : Chall Ch C F W}
    {cfg : Config} {rounds : List (VerifierRound K F CI)} {p p' : FriProof F C P W (List (List (List K) × PI))}
    (h : SameUpToSurplus rounds.length p p') (ch : Ch) :
    verify genV g MI M Kc cfg rounds p ch = verify genV g MI M Kc cfg rounds p' ch := by
  have hs : ∀ ch, verifyShapeAndSampleChallenges Kc cfg p ch = verifyShapeAndSampleChallenges Kc cfg p' ch := by
    intro ch
    unfold verifyShapeAndSampleChallenges
    rw [h.commits, h.witness, h.queries.length_eq]
  have hv : ∀ alpha (fc : FriChallenges F),
      verifyChallenges (fun b => algebraMap K F (genV b)) M cfg p fc (verifyInput MI genV g cfg alpha rounds
        (p.commitPhaseCommits.length + cfg.logBlowup)) =
      verifyChallenges (fun b => algebraMap K F (genV b)) M cfg p' fc (verifyInput MI genV g cfg alpha rounds
        (p.commitPhaseCommits.length + cfg.logBlowup)) := by
    intro alpha fc
    unfold verifyChallenges
    rw [← h.commits, ← h.final]
    have hq := h.queries
    generalize p.queryProofs = l at hq
    generalize p'.queryProofs = l' at hq
    generalize fc.queryIndices = is
    simp only
    induction hq generalizing is with
    | nil => rfl
    | cons hab _ ih =>
      cases is with
      | nil => rfl
      | cons i is =>
        rw [List.zip_cons_cons, List.zip_cons_cons, List.forM, List.forM, ih]
        obtain ⟨h1, h2⟩ := hab
        simp only [verifyInput_take (Nat.le_refl _) h1, verifyQuery_take h2]
  unfold verify
  simp only [hs, hv, ← h.commits]

omit [Field K] [DecidableEq K] [Algebra K F] in
/-- Sampling the challenges checks that there are as many queries as configured, and gives an index for each. -/
theorem sampled_count {Kc : Chall Ch C F W} {cfg : Config} {p : FriProof F C P W X} {ch ch' : Ch} {fc : FriChallenges F}
    (h : verifyShapeAndSampleChallenges Kc cfg p ch = .ok (fc, ch')) :
    p.queryProofs.length = cfg.numQueries ∧ fc.queryIndices.length = cfg.numQueries := by
  unfold verifyShapeAndSampleChallenges at h
  obtain ⟨⟨betas, ch3⟩, -, h⟩ := Res.bind_eq_ok.1 h
  dsimp only at h
  split at h
  · cases h
  rename_i hn
  obtain ⟨⟨acc, ch4⟩, -, h⟩ := Res.bind_eq_ok.1 h
  dsimp only at h
  split at h
  · cases h
  obtain ⟨⟨is, ch5⟩, hi, h⟩ := Res.bind_eq_ok.1 h
  cases h
  exact ⟨not_not.mp hn, sampleIndices_length (Res.ofOption_eq_ok.1 hi)⟩

omit [DecidableEq K] in
/-- An accepted opening proof has as many queries as configured. -/
theorem verify_count {genV : Nat → K} {g : K} {MI : InMmcs K SI CI DI PI} {M : Mmcs F S C D P} {Kc : Chall Ch C F W}
    {cfg : Config} {rounds : List (VerifierRound K F CI)} {p : FriProof F C P W (List (List (List K) × PI))} {ch ch' : Ch}
    (h : verify genV g MI M Kc cfg rounds p ch = .ok ch') : p.queryProofs.length = cfg.numQueries := by
  unfold verify at h
  obtain ⟨⟨alpha, ch1⟩, -, h⟩ := Res.bind_eq_ok.1 h
  dsimp only at h
  obtain ⟨⟨fc, ch2⟩, h1, -⟩ := Res.bind_eq_ok.1 h
  exact (sampled_count (expect_eq_ok h1)).1

omit [DecidableEq K] in
/-- Another final value than the one of an accepted opening proof: the verifier of openings panics. -/
theorem verify_final {genV : Nat → K} {g : K} {MI : InMmcs K SI CI DI PI} {M : Mmcs F S C D P} {Kc : Chall Ch C F W}
    {cfg : Config} {rounds : List (VerifierRound K F CI)} {p : FriProof F C P W (List (List (List K) × PI))} {ch ch' : Ch}
    (hn : 0 < cfg.numQueries) (h : verify genV g MI M Kc cfg rounds p ch = .ok ch') {v : F} (hv : v ≠ p.finalPoly) :
    verify genV g MI M Kc cfg rounds { p with finalPoly := v } ch = .panic := by
  have hc := verify_count h
  unfold verify at h
  obtain ⟨⟨alpha, ch1⟩, h1, h⟩ := Res.bind_eq_ok.1 h
  dsimp only at h
  obtain ⟨⟨fc, ch2⟩, h2, h⟩ := Res.bind_eq_ok.1 h
  dsimp only at h
  obtain ⟨_, h3, -⟩ := Res.bind_eq_ok.1 h
  have h3 := expect_eq_ok h3
  have hs : ∀ ch, verifyShapeAndSampleChallenges Kc cfg { p with finalPoly := v } ch =
    verifyShapeAndSampleChallenges Kc cfg p ch := fun _ => rfl
  unfold verify
  rw [h1]
  simp only [Res.bind_ok, hs, h2]
  obtain ⟨qp, rest, hq⟩ := List.exists_cons_of_length_pos (show 0 < p.queryProofs.length by omega)
  obtain ⟨i, is, hi⟩ := List.exists_cons_of_length_pos (show 0 < fc.queryIndices.length by
    rw [(sampled_count (expect_eq_ok h2)).2]; exact hn)
  unfold verifyChallenges at h3 ⊢
  simp only [hq, hi, List.zip_cons_cons, List.forM] at h3 ⊢
  obtain ⟨_, h3, -⟩ := Res.bind_eq_ok.1 h3
  obtain ⟨ro, h4, h3⟩ := Res.bind_eq_ok.1 h3
  obtain ⟨f, h5, h3⟩ := Res.bind_eq_ok.1 h3
  split at h3
  · cases h3
  rename_i hf
  rw [h4]
  simp only [Res.bind_ok, h5]
  rw [if_pos (by rw [not_not.mp hf]; exact hv.symm)]
  rfl

end TapStark.Pcs

namespace TapStark.Stark

open Polynomial TapStark.Fri TapStark.Pcs

variable {K F : Type} [Field K] [Field F] [DecidableEq K] [DecidableEq F] [Algebra K F]
variable {SI C DI PI S D P Ch W : Type}

/-- **C121 is violated**: the verdict of the verifier, whatever it is, does not depend on what the queries hold beyond the
openings of the two commitments and one opening per folding round. -/
theorem C121_violated_surplus_ignored {u : Setup K F SI C DI PI S D P Ch W} {air : Air K} {pub : List K} {ch : Ch}
    {proof : ProofOf K F C P W PI} {fri : FriProof F C P W (List (List (List K) × PI))}
    (h : SameUpToSurplus 2 proof.openingProof fri) :
    verify u air ch { proof with openingProof := fri } pub = verify u air ch proof pub := by
  have hP : ∀ r1 r2 ch, Pcs.verify u.genV u.g u.mi u.m u.chall u.cfg [r1, r2] fri ch =
      Pcs.verify u.genV u.g u.mi u.m u.chall u.cfg [r1, r2] proof.openingProof ch :=
    fun r1 r2 ch => (verify_surplus (rounds := [r1, r2]) h ch).symm
  unfold verify oodCheck
  simp only [hP]

/-- The opening proof with further openings at the end of every query. -/
def withSurplus {X : Type} (extra : List X) (more : List (List (List F) × P)) (fri : FriProof F C P W (List X)) :
    FriProof F C P W (List X) :=
  { fri with queryProofs := fri.queryProofs.map fun qp => ⟨qp.inputProof ++ extra, qp.commitPhaseOpenings ++ more⟩ }

omit [Field F] [DecidableEq F] in
theorem withSurplus_same {X : Type} {r : Nat} {extra : List X} {more : List (List (List F) × P)}
    {fri : FriProof F C P W (List X)}
    (hlen : ∀ qp ∈ fri.queryProofs, r ≤ qp.inputProof.length ∧ fri.commitPhaseCommits.length ≤ qp.commitPhaseOpenings.length) :
    SameUpToSurplus r fri (withSurplus extra more fri) := by
  refine ⟨rfl, rfl, rfl, ?_⟩
  rw [withSurplus, List.forall₂_map_right_iff, List.forall₂_same]
  intro qp hqp
  obtain ⟨h1, h2⟩ := hlen qp hqp
  simp only [List.take_append_of_le_length h1, List.take_append_of_le_length h2, and_self]

omit [Field F] [DecidableEq F] in
theorem withSurplus_ne {X : Type} {extra : List X} {more : List (List (List F) × P)} {fri : FriProof F C P W (List X)}
    (hq : fri.queryProofs ≠ []) (hne : ¬ (extra = [] ∧ more = [])) : withSurplus extra more fri ≠ fri := by
  intro h
  have h := congrArg FriProof.queryProofs h
  obtain ⟨qp, rest, hqp⟩ := List.exists_cons_of_ne_nil hq
  simp only [withSurplus, hqp, List.map_cons, List.cons.injEq] at h
  obtain ⟨h, -⟩ := h
  have h1 := congrArg QueryProof.inputProof h
  have h2 := congrArg QueryProof.commitPhaseOpenings h
  simp only [List.append_right_eq_self] at h1 h2
  exact hne ⟨h1, h2⟩

theorem accepted_count {u : Setup K F SI C DI PI S D P Ch W} {air : Air K} {pub : List K} {ch ch' : Ch}
    {proof : ProofOf K F C P W PI} (h : verify u air ch proof pub = .ok ch') :
    proof.openingProof.queryProofs.length = u.cfg.numQueries := by
  unfold verify at h
  split at h
  · cases h
  simp only at h
  split at h
  · cases h
  split at h
  · cases h
  split at h
  · cases h
  split at h
  · cases h
  split at h
  · cases h
  · cases h
  rename_i hp
  exact verify_count hp

/-- **C121 is violated** for every accepted proof whose queries have the openings the verifier reads, as honest ones do:
with at least one query, adding any further openings gives a different proof, and it is accepted too. -/
theorem C121_violated_more_openings {u : Setup K F SI C DI PI S D P Ch W} (hn : 0 < u.cfg.numQueries) {air : Air K} {pub : List K}
    {ch ch' : Ch} {proof : ProofOf K F C P W PI} (h : verify u air ch proof pub = .ok ch')
    (hlen : ∀ qp ∈ proof.openingProof.queryProofs, 2 ≤ qp.inputProof.length ∧
      proof.openingProof.commitPhaseCommits.length ≤ qp.commitPhaseOpenings.length)
    {extra : List (List (List K) × PI)} {more : List (List (List F) × P)} (hne : ¬ (extra = [] ∧ more = [])) :
    verify u air ch { proof with openingProof := withSurplus extra more proof.openingProof } pub = .ok ch' ∧
      { proof with openingProof := withSurplus extra more proof.openingProof } ≠ proof := by
  refine ⟨(C121_violated_surplus_ignored (withSurplus_same hlen)).trans h, fun h => ?_⟩
  refine withSurplus_ne ?_ hne (congrArg StarkProof.openingProof h)
  intro h0
  have hq := accepted_count ‹verify u air ch proof pub = .ok ch'›
  rw [h0] at hq
  simp at hq
  omega

/-- **C121 is violated** for every honest proof with at least one query. -/
theorem C121_violated_honest_proof {u : Setup K F SI C DI PI S D P Ch W} (hu : u.Ok) {air : Air K}
    (hwidth : 0 < air.width) (hf : air.Filtered) (ht : air.FewTransitions) {pub : List K} {q : Nat}
    (hq : getLogQuotientDegree air pub.length = some q) (hqb : q ≤ u.cfg.logBlowup) {trace : Mat K} {k : Nat}
    (hkb : k + u.cfg.logBlowup ≤ u.twoAdicity) (hl : trace.length = 2 ^ k) (hrect : Rect trace air.width)
    (hsat : Satisfies air trace pub) (hn : 0 < u.cfg.numQueries)
    {ch ch' : Ch} {si : SI} {s : S} {w : W} {proof : ProofOf K F C P W PI}
    (hp : prove u air ch trace pub si s w = some (proof, ch'))
    (hz : ∀ alpha zeta chz, challenges u ch proof.traceCommit proof.quotientCommit = some (alpha, zeta, chz) →
      zeta ^ 2 ^ k ≠ 1) :
    (∀ extra more, verify u air ch { proof with openingProof := withSurplus extra more proof.openingProof } pub = .ok ch') ∧
      ∃ extra, { proof with openingProof := withSurplus extra [] proof.openingProof } ≠ proof := by
  have hv := C48_complete_partial hu hwidth hf ht hq hqb hkb hl hrect hsat hp hz
  have hlen : ∀ qp ∈ proof.openingProof.queryProofs, qp.inputProof.length = 2 ∧
      qp.commitPhaseOpenings.length = proof.openingProof.commitPhaseCommits.length := by
    obtain ⟨ps, hpw, rfl, hps⟩ := trace_polys hu (k := k) (by omega) hl hrect
    have hr := ((C45_least_power_of_two air _ q).1 hq).1
    intro qp hqp
    obtain ⟨o1, o2, e, -⟩ := produced_rows hu hwidth hr hq hqb hkb hpw hps hp qp hqp
    exact ⟨by rw [e]; rfl, (produced_top hu hwidth hr hq hqb hkb hpw hps hp).2.2.1 qp hqp⟩
  refine ⟨fun extra more => (C121_violated_surplus_ignored
    (withSurplus_same fun qp hqp => ⟨(hlen qp hqp).1.ge, (hlen qp hqp).2.ge⟩)).trans hv, ?_⟩
  have hc := accepted_count hv
  obtain ⟨qp, rest, hqp⟩ := List.exists_cons_of_length_pos (show 0 < proof.openingProof.queryProofs.length by omega)
  have h2 := (hlen qp (by rw [hqp]; exact List.mem_cons_self ..)).1
  refine ⟨qp.inputProof, fun h => withSurplus_ne (by rw [hqp]; exact List.cons_ne_nil _ _) (fun h0 => ?_)
    (congrArg StarkProof.openingProof h)⟩
  rw [h0.1] at h2
  cases h2

/-- **C121**, a part that holds: an accepted proof with another final value is not accepted; the verifier panics. -/
theorem C121_final_value_partial {u : Setup K F SI C DI PI S D P Ch W} (hn : 0 < u.cfg.numQueries) {air : Air K} {pub : List K}
    {ch ch' : Ch} {proof : ProofOf K F C P W PI} (h : verify u air ch proof pub = .ok ch') {v : F}
    (hv : v ≠ proof.openingProof.finalPoly) :
    verify u air ch { proof with openingProof := { proof.openingProof with finalPoly := v } } pub = .panic := by
  unfold verify at h ⊢
  revert h
  dsimp only
  split
  · exact fun h => nomatch h
  split
  · exact fun h => nomatch h
  split
  · exact fun h => nomatch h
  split
  · exact fun h => nomatch h
  split
  · exact fun h => nomatch h
  rename_i alpha zeta chz hc
  split
  · exact fun h => nomatch h
  · exact fun h => nomatch h
  rename_i c hp
  intro _
  rw [verify_final hn hp hv]

/-- **C121**, a part that holds: a proof with another number of queries is not accepted. -/
theorem C121_query_count_partial {u : Setup K F SI C DI PI S D P Ch W} {air : Air K} {pub : List K}
    {ch ch' : Ch} {proof proof' : ProofOf K F C P W PI} (h : verify u air ch proof pub = .ok ch')
    (hne : proof'.openingProof.queryProofs.length ≠ proof.openingProof.queryProofs.length) (c : Ch) :
    verify u air ch proof' pub ≠ .ok c := by
  intro h'
  exact hne ((accepted_count h').trans (accepted_count h).symm)

omit [DecidableEq F] in
theorem weight_ne {genV : Nat → K} {N : Nat} (hg : TwoAdic genV N) {k q : Nat} (hkq : k + q ≤ N) {s : K}
    (hs : s ≠ 0) {z : F} (hz : z ^ 2 ^ (k + q) ≠ algebraMap K F s ^ 2 ^ (k + q)) {i : Nat} (hi : i < 2 ^ q) :
    (weightPoly hg F k q s i).eval z ≠ 0 := by
  rw [weightPoly, eval_prod, Finset.prod_ne_zero_iff]
  intro j hj
  obtain ⟨hj0, hj⟩ := Finset.mem_erase.1 hj
  have hj := Finset.mem_range.1 hj
  rw [eval_mul, eval_C]
  refine mul_ne_zero ?_ ?_
  · simp only [eval_sub, eval_pow, eval_mul, eval_C, eval_X, eval_one, sub_ne_zero]
    intro h
    apply hz
    have h2 : (algebraMap K F (s * genV (k + q) ^ j)⁻¹ * z) ^ 2 ^ (k + q) = 1 := by
      rw [pow_add, pow_mul, h, one_pow]
    have h3 : (s * genV (k + q) ^ j) ^ 2 ^ (k + q) = s ^ 2 ^ (k + q) := by
      rw [mul_pow, ← pow_mul, mul_comm j, pow_mul, gen_pow_one hg hkq, one_pow, mul_one]
    have h4 : algebraMap K F (s ^ 2 ^ (k + q)) ≠ 0 := by
      rw [Ne, map_eq_zero]; exact pow_ne_zero _ hs
    rw [mul_pow, ← map_pow, _root_.inv_pow, h3, map_inv₀] at h2
    rw [← map_pow]
    exact (inv_mul_eq_one₀ h4).1 h2 |>.symm
  · rw [Ne, map_eq_zero, inv_eq_zero]
    have := ratio_ne hg hkq hs hi hj (Ne.symm hj0) 0
    simpa using this

omit [DecidableEq F] in
theorem sum_range_change {f g : Nat → F} {i : Nat} : ∀ {n : Nat}, i < n → (∀ x, x ≠ i → f x = g x) →
    ((List.range n).map f).sum = ((List.range n).map g).sum + (f i - g i)
  | 0, h, _ => absurd h (Nat.not_lt_zero _)
  | n + 1, h, he => by
    rw [List.range_succ, List.map_append, List.map_append, List.sum_append, List.sum_append]
    by_cases hn : i = n
    · subst hn
      rw [List.map_congr_left fun x hx => he x (List.mem_range.mp hx).ne]
      simp
    · rw [sum_range_change (by omega) he]
      simp [he n (Ne.symm hn)]
      ring

/-- The combination of the chunks when one value changes. -/
theorem recombine_set {deg : ExtDeg K F} {zs : List F} {l : List (List F)} (hl : l.length ≤ zs.length) {i e : Nat}
    (hi : i < l.length) (he : e < l[i].length) (v : F) {R : F} (hR : recombine deg zs l = some R) :
    recombine deg zs (l.set i (l[i].set e v)) = some (R + zs.getD i 0 * (deg.monomial e * (v - l[i][e]))) := by
  rw [recombine_sum _ _ _ hl, Option.some.injEq] at hR
  rw [recombine_sum _ _ _ (by simpa using hl), Option.some.injEq, ← hR, List.length_set]
  rw [sum_range_change hi (g := fun i => zs.getD i 0 * ((List.range (l.getD i []).length).map fun e =>
        deg.monomial e * (l.getD i []).getD e 0).sum)]
  · congr 1
    simp only [List.getD_eq_getElem?_getD, List.getElem?_set_self hi, Option.getD_some, List.getElem?_eq_getElem hi,
      List.length_set]
    rw [sum_range_change he (g := fun e => deg.monomial e * (l[i][e]?.getD 0))]
    · simp only [List.getElem?_set_self he, List.getElem?_eq_getElem he, Option.getD_some]
      ring
    · intro x hx
      simp only [List.getElem?_set_ne (Ne.symm hx)]
  · intro x hx
    simp only [List.getD_eq_getElem?_getD, List.getElem?_set_ne (Ne.symm hx)]

/-- **C121**, a part that holds: when one value of one chunk of an accepted proof is changed, the result is not accepted.  The
point must lie outside the domains of the chunks. -/
theorem C121_quotient_value_partial {u : Setup K F SI C DI PI S D P Ch W} (hu : u.Ok) (hm : ∀ e < u.deg.D, u.deg.monomial e ≠ 0)
    {air : Air K} {pub : List K} {q : Nat} (hq : getLogQuotientDegree air pub.length = some q)
    {ch ch' : Ch} {proof : ProofOf K F C P W PI} (h : verify u air ch proof pub = .ok ch')
    (hz : ∀ alpha zeta chz, challenges u ch proof.traceCommit proof.quotientCommit = some (alpha, zeta, chz) →
      zeta ^ 2 ^ (proof.degreeBits + q) ≠ algebraMap K F u.g ^ 2 ^ (proof.degreeBits + q))
    {i e : Nat} (hi : i < proof.quotientChunks.length) (he : e < proof.quotientChunks[i].length) {v : F}
    (hv : v ≠ proof.quotientChunks[i][e]) (c : Ch) :
    verify u air ch { proof with quotientChunks := proof.quotientChunks.set i (proof.quotientChunks[i].set e v) } pub ≠ .ok c := by
  have hr := ((C45_least_power_of_two air _ q).1 hq).1
  obtain ⟨hkq, hs1, hs2, hs3, hs4⟩ := accepted_shape hq h
  obtain ⟨alpha, zeta, chz, h1, -, h3⟩ := (verify_ok_iff hu hq hkq ⟨hs1, hs2, hs3, hs4⟩).mp h
  intro h'
  obtain ⟨hkq', hs'⟩ := accepted_shape hq h'
  obtain ⟨alpha', zeta', chz', h1', -, h3'⟩ := (verify_ok_iff hu hq hkq' hs').mp h'
  have h1' := h1.symm.trans h1'
  cases h1'
  have hz1 : zeta ^ 2 ^ proof.degreeBits ≠ 1 := by
    intro h0
    rw [oodCheck_panic h0] at h3
    cases h3
  rw [oodCheck_eq hu hr hkq hs1 hs2 hz1, Option.map_eq_some_iff] at h3
  rw [oodCheck_eq hu hr hkq' (proof := { proof with quotientChunks := proof.quotientChunks.set i (proof.quotientChunks[i].set e v) })
    hs1 hs2 hz1, Option.map_eq_some_iff] at h3'
  obtain ⟨R, hR, e1⟩ := h3
  obtain ⟨R', hR', e2⟩ := h3'
  have hlen : proof.quotientChunks.length ≤ ((List.range (2 ^ q)).map fun i =>
      (weightPoly hu.twoAdic F proof.degreeBits q u.g i).eval zeta).length := by simp [hs3]
  have e1 := of_decide_eq_true e1
  have e2 := of_decide_eq_true e2
  dsimp only at e2 hR'
  rw [recombine_set hlen hi he v hR, Option.some.injEq] at hR'
  rw [e1, ← hR', left_eq_add, mul_eq_zero, mul_eq_zero, sub_eq_zero] at e2
  rcases e2 with e2 | e2 | e2
  · rw [List.getD_eq_getElem?_getD, List.getElem?_map, List.getElem?_range (hs3 ▸ hi)] at e2
    exact weight_ne hu.twoAdic hkq hu.g0 (hz _ _ _ h1) (hs3 ▸ hi) e2
  · exact hm e (by rw [← hs4 _ (List.getElem_mem hi)]; exact he) e2
  · exact hv e2

end TapStark.Stark
