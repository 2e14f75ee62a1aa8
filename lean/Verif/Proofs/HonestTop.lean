import Verif.Props.Stark

/-
The first opened row of an honest query holds the reduced opening at the queried position.
-/

namespace TapStark.Fri

open Polynomial

variable {F : Type} [Field F] [DecidableEq F] {S C D P Ch W IP : Type}

/-- A round below the largest height compares the own entry of its row with the folded value. -/
theorem queryLoop_own {gen : Nat → F} {M : Mmcs F S C D P} {q logMax lfh : Nat} {c : C} {o : List (List F) × P} {β : F}
    {rest : List (Nat × C × (List (List F) × P) × F)} {idx : Nat} {fe : F} {ros : List (Nat × F)} {out : F × Nat}
    (hl : lfh < logMax - 1)
    (h : queryLoop gen M q logMax ((lfh, c, o, β) :: rest) idx fe ros = .ok out) :
    (o.1.getD 0 []).getD (idx % 2) 0 = (nextRo (lfh + 1) fe ros).1 := by
  rw [queryLoop] at h
  generalize nextRo (lfh + 1) fe ros = nr at h
  obtain ⟨own1, ros1⟩ := nr
  simp only at h
  split at h
  swap
  · cases h
  rw [Res.bind_eq_ok] at h
  obtain ⟨row, h1, h⟩ := h
  rw [Res.ofOption_eq_ok] at h1
  rw [Res.bind_eq_ok] at h
  obtain ⟨x, h2, h⟩ := h
  rw [Res.ofOption_eq_ok] at h2
  split at h
  · cases h
  rename_i h3
  simp only [hl, true_and, ne_eq, not_not] at h3
  rw [h3, List.getD_eq_getElem?_getD, List.getD_eq_getElem?_getD, h1]
  simp [h2]

/-- The answers of an honest prover. -/
theorem honest_top {gen : Nat → F} {N : Nat} (hg : TwoAdic gen N) {M : Mmcs F S C D P}
    {K : Chall Ch C F W} {cfg : Config} (hM : M.Honest cfg.numQueries N) (hb : 1 ≤ cfg.logBlowup)
    {h0 : Nat} {p0 : F[X]} {polys : List (Nat × F[X])} (hin : HonestInputs cfg N h0 p0 polys)
    {s : S} {ch : Ch} {r : CommitResult F C D S Ch}
    (hr : commitPhase gen M K cfg s ch (evalVec gen h0 p0 :: polys.map fun x => evalVec gen x.1 x.2) = some r)
    {q idx : Nat} (hq : q < cfg.numQueries) (hidx : idx < 2 ^ h0) {openings : List (List (List F) × P)}
    (ho : answerQuery M r.data idx q = some openings) :
    openings.length = r.commits.length ∧
      ∀ o ∈ openings.head?, (o.1.getD 0 []).getD (idx % 2) 0 = p0.eval (gen h0 ^ revBits h0 idx) := by
  obtain ⟨g1, g2, g3, gz, g4⟩ := hin
  obtain ⟨m, rfl⟩ : ∃ m, h0 = cfg.logBlowup + m := ⟨h0 - cfg.logBlowup, by omega⟩
  rw [commitPhase, evalVec_length] at hr
  have hlt : m < 2 ^ (cfg.logBlowup + m) + 1 := by
    have := Nat.lt_two_pow_self (n := cfg.logBlowup + m)
    omega
  obtain ⟨c1, betas, c2, c3, c4⟩ := commitLoop_query hg hM hb m s ch p0 polys _ r g2
    (by rwa [Nat.add_sub_cancel_left] at g3) hlt g4 hr
  obtain ⟨os, o1, o2, o3⟩ := c4 q idx (cfg.logBlowup + m + 1) 0
    ((cfg.logBlowup + m, p0.eval (gen (cfg.logBlowup + m) ^ revBits (cfg.logBlowup + m) idx)) ::
      rosOf gen (cfg.logBlowup + m) idx polys) hq hidx (by omega) (by simp [nextRo]) (by simp [nextRo])
      (fun hm => by rw [gz (by omega), eval_zero])
  obtain rfl := Option.some.inj (ho.symm.trans o1)
  refine ⟨by omega, ?_⟩
  cases m with
  | zero =>
    rw [List.length_eq_zero_iff] at o2
    subst o2
    simp
  | succ m =>
    cases openings with
    | nil => cases o2
    | cons o os =>
      cases hc : r.commits with
      | nil => rw [hc] at c1; cases c1
      | cons c cs =>
        cases betas with
        | nil => cases c3
        | cons β βs =>
          rw [hc] at o3
          have hd : downList cfg.logBlowup (m + 1) = (cfg.logBlowup + m) :: downList cfg.logBlowup m := rfl
          rw [hd, List.zip_cons_cons, List.zip_cons_cons, List.zip_cons_cons] at o3
          have := queryLoop_own (by omega) o3
          intro o' ho'
          obtain rfl := Option.some.inj ho'
          rw [this]
          simp [nextRo, Nat.add_assoc]

omit [Field F] [DecidableEq F] in
/-- What the query phase of the prover returns. -/
theorem proveQueries_each {M : Mmcs F S C D P} {K : Chall Ch C F W} {openInputP : Nat → Nat → Option IP} {data : List D}
    {h0 : Nat} : ∀ (n k : Nat) {ch ch' : Ch} {qps : List (QueryProof F P IP)},
    proveQueries M K openInputP data h0 n k ch = some (qps, ch') →
    ∃ is, sampleIndices K h0 n k ch = some (is, ch') ∧ qps.length = n ∧
      (∀ qr ∈ is.zip qps, qr.1.1 < k + n ∧ openInputP qr.1.1 qr.1.2 = some qr.2.inputProof ∧
        answerQuery M data qr.1.2 qr.1.1 = some qr.2.commitPhaseOpenings) ∧
      ∀ qp ∈ qps, ∃ i, (i, qp) ∈ is.zip qps
  | 0, k, ch, ch', qps, h => by
    simp only [proveQueries, Option.some.injEq, Prod.mk.injEq] at h
    obtain ⟨rfl, rfl⟩ := h
    exact ⟨[], rfl, rfl, by simp, by simp⟩
  | n + 1, k, ch, ch', qps, h => by
    rw [proveQueries] at h
    simp only [Option.bind_eq_bind, Option.bind_eq_some_iff] at h
    obtain ⟨⟨i, ch1⟩, h1, ip, h2, os, h3, ⟨rest, ch2⟩, h4, h⟩ := h
    simp only [Option.some.injEq, Prod.mk.injEq] at h
    obtain ⟨rfl, rfl⟩ := h
    obtain ⟨is, i1, i2, i3, i4⟩ := proveQueries_each n (k + 1) h4
    refine ⟨(k, i) :: is, by simp [sampleIndices, h1, i1], by simp [i2], ?_, ?_⟩
    · intro qr hqr
      rw [List.zip_cons_cons, List.mem_cons] at hqr
      rcases hqr with rfl | hqr
      · exact ⟨show k < k + (n + 1) by omega, h2, h3⟩
      · obtain ⟨a, b⟩ := i3 qr hqr
        exact ⟨by omega, b⟩
    · intro qp hqp
      rw [List.zip_cons_cons]
      rcases List.mem_cons.mp hqp with rfl | hqp
      · exact ⟨_, List.mem_cons_self ..⟩
      · obtain ⟨j, hj⟩ := i4 qp hqp
        exact ⟨j, List.mem_cons_of_mem _ hj⟩

omit [Field F] [DecidableEq F] in
theorem sampleIndices_bits {K : Chall Ch C F W} (hbits : ∀ ch n i ch', K.sampleBits ch n = some (i, ch') → i < 2 ^ n)
    {h0 : Nat} : ∀ (n k : Nat) {ch ch' : Ch} {is : List (Nat × Nat)}, sampleIndices K h0 n k ch = some (is, ch') →
    ∀ i ∈ is, i.2 < 2 ^ h0
  | 0, k, ch, ch', is, h => by
    rw [sampleIndices] at h
    cases h
    simp
  | n + 1, k, ch, ch', is, h => by
    rw [sampleIndices] at h
    simp only [Option.bind_eq_bind, Option.bind_eq_some_iff, Prod.exists] at h
    obtain ⟨i, c1, h1, is', c2, h2, h3⟩ := h
    have h3 := Option.some.inj h3
    cases h3
    intro j hj
    rcases List.mem_cons.mp hj with rfl | hj
    · exact hbits _ _ _ _ h1
    · exact sampleIndices_bits hbits n (k + 1) h2 j hj

/-- The queries of an honest FRI proof, under the challenges of the verifier. -/
theorem bfProve_top {gen : Nat → F} {N : Nat} (hg : TwoAdic gen N) {M : Mmcs F S C D P}
    {K : Chall Ch C F W} {cfg : Config} (hM : M.Honest cfg.numQueries N) (hb : 1 ≤ cfg.logBlowup)
    (hbits : ∀ ch n i ch', K.sampleBits ch n = some (i, ch') → i < 2 ^ n)
    {h0 : Nat} {p0 : F[X]} {polys : List (Nat × F[X])} (hin : HonestInputs cfg N h0 p0 polys)
    {openInputP : Nat → Nat → Option IP} {s s' : S} {ch ch' : Ch} {w : W} {proof : FriProof F C P W IP}
    (hp : bfProve gen M K cfg (evalVec gen h0 p0 :: polys.map fun x => evalVec gen x.1 x.2) s ch w
      openInputP = some (proof, s', ch')) :
    proof.commitPhaseCommits.length + cfg.logBlowup = h0 ∧
    (∀ qp ∈ proof.queryProofs, qp.commitPhaseOpenings.length = proof.commitPhaseCommits.length) ∧
    ∃ challenges, verifyShapeAndSampleChallenges K cfg proof ch = .ok (challenges, ch') ∧
      ∀ qr ∈ challenges.queryIndices.zip proof.queryProofs, qr.1.1 < cfg.numQueries ∧ qr.1.2 < 2 ^ h0 ∧
        openInputP qr.1.1 qr.1.2 = some qr.2.inputProof ∧
        ∀ o ∈ qr.2.commitPhaseOpenings.head?, (o.1.getD 0 []).getD (qr.1.2 % 2) 0 =
          p0.eval (gen h0 ^ revBits h0 qr.1.2) := by
  unfold bfProve at hp
  split at hp
  case isFalse => cases hp
  case isTrue =>
    simp only [List.getElem?_cons_zero, evalVec_length, log2Strict_pow, Option.bind_eq_bind,
      Option.bind_some, Option.bind_eq_some_iff] at hp
    obtain ⟨r, hr, ⟨acc, ch1⟩, hw, hp⟩ := hp
    obtain ⟨c1, betas, c2, -, -⟩ := honest_core hg hM hb hin hr
    split at hp
    case isFalse => cases hp
    case isTrue hacc =>
      simp only [Option.bind_eq_some_iff] at hp
      obtain ⟨⟨qps, ch2⟩, hq, hp⟩ := hp
      simp only [Option.some.injEq, Prod.mk.injEq] at hp
      obtain ⟨rfl, rfl, rfl⟩ := hp
      obtain ⟨is, q1, q2, q3, q4⟩ := proveQueries_each _ _ hq
      have hall : ∀ qr ∈ is.zip qps, qr.1.1 < cfg.numQueries ∧ qr.1.2 < 2 ^ h0 ∧
          openInputP qr.1.1 qr.1.2 = some qr.2.inputProof ∧ qr.2.commitPhaseOpenings.length = r.commits.length ∧
          ∀ o ∈ qr.2.commitPhaseOpenings.head?, (o.1.getD 0 []).getD (qr.1.2 % 2) 0 =
            p0.eval (gen h0 ^ revBits h0 qr.1.2) := by
        intro qr hqr
        obtain ⟨a1, a2, a3⟩ := q3 qr hqr
        have a4 := sampleIndices_bits hbits _ _ q1 _ (List.of_mem_zip (a := qr.1) (b := qr.2) hqr).1
        have a1 : qr.1.1 < cfg.numQueries := by omega
        obtain ⟨a5, a6⟩ := honest_top hg hM hb hin hr a1 a4 a3
        exact ⟨a1, a4, a2, a5, a6⟩
      refine ⟨c1, ?_, ⟨is, betas⟩, ?_, ?_⟩
      · intro qp hqp
        obtain ⟨i, hi⟩ := q4 qp hqp
        exact (hall _ hi).2.2.2.1
      · unfold verifyShapeAndSampleChallenges
        simp only at hacc
        subst hacc
        simp [c2, q2, hw, c1, q1]
      · intro qr hqr
        obtain ⟨a1, a2, a3, -, a5⟩ := hall qr hqr
        exact ⟨a1, a2, a3, a5⟩

end TapStark.Fri

namespace TapStark.Pcs

open Polynomial TapStark.Fri

variable {K F : Type} [Field K] [Field F] [DecidableEq K] [DecidableEq F] [Algebra K F]
variable {SI CI DI PI S C D P Ch W : Type}

/-- The queries of an honest opening proof, under the challenges of the verifier. -/
theorem open_top {X : Ext K F} (hX : X.Width) {genV : Nat → K} {N : Nat}
    (hXc : X.Correct genV N) (hg : TwoAdic genV N) {g : K} (hg0 : g ≠ 0)
    {cfg : Config} {MI : InMmcs K SI CI DI PI}
    {M : Mmcs F S C D P} {Kc : Chall Ch C F W} (hM : M.Honest cfg.numQueries N) (hb : 1 ≤ cfg.logBlowup)
    (hbits : ∀ ch n i ch', Kc.sampleBits ch n = some (i, ch') → i < 2 ^ n)
    {rounds : List (Round K F CI DI)} (hr : HonestRounds genV g MI cfg N rounds)
    {s s' : S} {ch ch' : Ch} {w : W} {values : List (List (List (List F)))}
    {proof : FriProof F C P W (List (List (List K) × PI))}
    (hp : Pcs.open X genV g MI M Kc cfg (rounds.map Round.prover) s ch w = some (values, proof, s', ch')) :
    (∀ qp ∈ proof.queryProofs, qp.commitPhaseOpenings.length = proof.commitPhaseCommits.length) ∧
    (∃ r ∈ rounds, ∃ e ∈ r.entries,
      entryHeight cfg.logBlowup e = proof.commitPhaseCommits.length + cfg.logBlowup) ∧
    ∃ batch ch1 fc, Kc.sample ch = some (batch, ch1) ∧ verifyShapeAndSampleChallenges Kc cfg proof ch1 = .ok (fc, ch') ∧
      ∀ qr ∈ fc.queryIndices.zip proof.queryProofs, ∀ vals, verifyInput MI genV g cfg batch
          (List.zipWith (fun r v => r.verifier v) rounds values) (proof.commitPhaseCommits.length + cfg.logBlowup) qr.1.1
          qr.1.2 qr.2.inputProof = .ok vals →
        ∀ o ∈ qr.2.commitPhaseOpenings.head?, (o.1.getD 0 []).getD (qr.1.2 % 2) 0 =
          roAt vals (proof.commitPhaseCommits.length + cfg.logBlowup) := by
  obtain ⟨G, hmax, hGN, hle, rG, hrG, eG, heG, hG⟩ := global_height hr
  unfold Pcs.open at hp
  rw [mapM_mats rounds hr.ok] at hp
  simp only [Option.bind_eq_bind, Option.bind_some, hmax, log2Strict_pow, Option.bind_eq_some_iff] at hp
  obtain ⟨⟨alpha, ch1⟩, hs, ⟨st, vals⟩, hred, ⟨pf, s1, ch2⟩, hfri, hp⟩ := hp
  simp only [Option.some.injEq, Prod.mk.injEq] at hp
  obtain ⟨rfl, rfl, rfl, rfl⟩ := hp
  have hred' := hred
  unfold reduceOpenings at hred'
  simp only [Option.bind_eq_bind, Option.bind_eq_some_iff] at hred'
  obtain ⟨inv, hinv, hrounds⟩ := hred'
  have hI := invOk_of (b := cfg.logBlowup) hg hGN
    (fun r h e he => ⟨(hr.ok r h).height e he, hle r h e he⟩) hinv
  obtain ⟨c1, -, c3, c4⟩ := openRounds_poly hXc hg hg0 hGN rounds _ st vals
    (fun r h e he => ⟨hr.lde r h e he, hle r h e he, hI r h e he⟩)
    (by intro h l hl; cases hl) hrounds
  have hG' := c3 rG hrG eG heG
  rw [hG] at hG'
  obtain ⟨p0, polys, f1, f2, f3, fz, f4, f5⟩ := friInput_polys c1 hG'.1 hG'.2
  rw [f1] at hfri
  have hdata : (rounds.map Round.prover).map Prod.fst = rounds.map fun r => r.data := by
    rw [List.map_map]; rfl
  rw [hdata] at hfri
  have hin : HonestInputs cfg N G p0 polys := ⟨f2, hGN, f3, fz, f4⟩
  obtain ⟨b1, b2, fc, b3, b4⟩ := bfProve_top (twoAdic_map hg) hM hb hbits hin hfri
  refine ⟨b2, ⟨rG, hrG, eG, heG, hG.trans b1.symm⟩, alpha, ch1, fc, hs, b3, ?_⟩
  intro qr hqr vs hvs o ho
  obtain ⟨a1, a2, a3, a4⟩ := b4 qr hqr
  rw [a4 o ho, b1]
  obtain ⟨ip, i1, i2⟩ := C42_same_reduced_openings hX hg hGN (fun r h => ⟨hr.ok r h, hle r h⟩) hred a1 a2
  rw [a3] at i1
  obtain rfl := Option.some.inj i1
  rw [b1, i2, f5 _ a2] at hvs
  cases hvs
  have hlow : ∀ x ∈ rosOf (fun k => algebraMap K F (genV k)) G qr.1.2 polys, x.1 ≠ G := by
    intro x hx
    obtain ⟨y, hy, rfl⟩ := List.mem_map.mp hx
    have := (f4.2 y hy).2.1
    simp only
    omega
  have hf : (rosOf (fun k => algebraMap K F (genV k)) G qr.1.2 polys).filter (fun r => r.1 == G) = [] := by
    rw [List.filter_eq_nil_iff]
    intro x hx
    simpa using hlow x hx
  have hc : rosOf (fun k => algebraMap K F (genV k)) G qr.1.2 ((G, p0) :: polys) =
      (G, p0.eval (algebraMap K F (genV G) ^ revBits G (qr.1.2 / 2 ^ (G - G)))) ::
        rosOf (fun k => algebraMap K F (genV k)) G qr.1.2 polys := rfl
  rw [roAt, hc, List.filter_cons_of_pos (by simp), hf]
  simp

end TapStark.Pcs

namespace TapStark.Stark

open Polynomial TapStark.Fri TapStark.Pcs

variable {K F : Type} [Field K] [Field F] [DecidableEq K] [DecidableEq F] [Algebra K F]
variable {SI C DI PI S D P Ch W : Type} {u : Setup K F SI C DI PI S D P Ch W}

omit [DecidableEq F] in
/-- The claims of the verifier about the opened values. -/
theorem claims_eq (u : Setup K F SI C DI PI S D P Ch W) (k q : Nat) (ps : List K[X]) (cps : List (List K[X])) (zeta : F)
    (c1 c2 : C) (d1 d2 : DI) (hcl : cps.length = 2 ^ q) (traceLocal traceNext : List F) (chunks : List (List F))
    (hchunks : chunks.length = 2 ^ q) :
    List.zipWith (fun r v => r.verifier v) (proverRounds u k q ps cps zeta c1 c2 d1 d2)
      [[[traceLocal, traceNext]], chunks.map fun c => [c]] =
    [(c1, [(⟨k, 1⟩, [(zeta, traceLocal), (zeta * algebraMap K F (u.genV k), traceNext)])]),
      (c2, ((chunkDomains u.genV k q u.g).zip chunks).map fun (d, v) => (d, [(zeta, v)]))] := by
  simp only [proverRounds, List.zipWith_cons_cons, List.zipWith_nil_left, Round.verifier,
    List.zip_cons_cons, List.zip_nil_left]
  congr 2
  unfold quotientEntries
  have hlen : (chunkDomains u.genV k q u.g).length = cps.length := by rw [chunkDomains_length, hcl]
  have hlen' : chunks.length = cps.length := by rw [hchunks, hcl]
  congr 1
  generalize chunkDomains u.genV k q u.g = l at hlen
  clear * - hlen hlen'
  induction l generalizing cps chunks with
  | nil => simp
  | cons d l ih =>
    cases cps with
    | nil => cases hlen
    | cons c cps =>
      cases chunks with
      | nil => cases hlen'
      | cons x chunks =>
        simp only [List.zip_cons_cons, List.map_cons, List.zipWith_cons_cons, List.zip_nil_left]
        rw [ih (cps := cps) chunks (by simpa using hlen') (by simpa using hlen)]

/-- The queries of an honest proof. -/
theorem produced_top (hu : u.Ok) {air : Air K} (hwidth : 0 < air.width) {pub : List K} (hr : air.InRange pub.length)
    {q : Nat} (hq : getLogQuotientDegree air pub.length = some q) (hqb : q ≤ u.cfg.logBlowup)
    {k : Nat} (hkb : k + u.cfg.logBlowup ≤ u.twoAdicity)
    {ps : List K[X]} (hpw : ps.length = air.width) (hps : ∀ p ∈ ps, p.natDegree < 2 ^ k)
    {ch ch' : Ch} {si : SI} {s : S} {w : W} {proof : ProofOf K F C P W PI}
    (hp : prove u air ch (evalRows u.genV ps 1 k) pub si s w = some (proof, ch')) :
    proof.degreeBits = k ∧ proof.openingProof.commitPhaseCommits.length = k ∧
    (∀ qp ∈ proof.openingProof.queryProofs,
      qp.commitPhaseOpenings.length = proof.openingProof.commitPhaseCommits.length) ∧
    ∃ alpha zeta chz batch ch1 fc, challenges u ch proof.traceCommit proof.quotientCommit = some (alpha, zeta, chz) ∧
      u.chall.sample chz = some (batch, ch1) ∧
      verifyShapeAndSampleChallenges u.chall u.cfg proof.openingProof ch1 = .ok (fc, ch') ∧
      ∀ qr ∈ fc.queryIndices.zip proof.openingProof.queryProofs, ∀ vals, verifyInput u.mi u.genV u.g u.cfg batch
          [(proof.traceCommit, [(⟨k, 1⟩, [(zeta, proof.traceLocal), (zeta * algebraMap K F (u.genV k), proof.traceNext)])]),
            (proof.quotientCommit, ((chunkDomains u.genV k q u.g).zip proof.quotientChunks).map
              fun (d, v) => (d, [(zeta, v)]))]
          (proof.openingProof.commitPhaseCommits.length + u.cfg.logBlowup) qr.1.1 qr.1.2 qr.2.inputProof = .ok vals →
        ∀ o ∈ qr.2.commitPhaseOpenings.head?, (o.1.getD 0 []).getD (qr.1.2 % 2) 0 =
          roAt vals (proof.openingProof.commitPhaseCommits.length + u.cfg.logBlowup) := by
  obtain ⟨c1, d1, second, -, ho1, hs, he⟩ := prove_eq hu hwidth hr hq hqb hkb hpw hps si
  rw [he] at hp
  simp only [Option.bind_eq_bind, Option.bind_eq_some_iff] at hp
  obtain ⟨-, -, ch1, h1, ⟨alpha, ch2⟩, h2, ch3, h3, ⟨zeta, ch4⟩, h4, hp⟩ := hp
  have hsa := hs alpha
  rw [finish_spec hu hkb hps hsa.count hsa.degree ho1 hsa.opens, Option.map_eq_some_iff] at hp
  obtain ⟨⟨values, pf, s', ch5⟩, hopen, hp⟩ := hp
  simp only [Prod.mk.injEq] at hp
  obtain ⟨rfl, rfl⟩ := hp
  obtain ⟨hval, -⟩ := open_values hu hkb hps hsa.count hsa.degree ho1 hsa.opens hopen
  obtain ⟨t1, ⟨r, hrm, e, hem, t2⟩, batch, ch6, fc, t3, t4, t5⟩ := open_top hu.extWidth hu.extCorrect hu.twoAdic hu.g0 hu.m
    hu.blowup hu.bits (honest_rounds hu hkb hps hsa.count hsa.degree zeta ho1 hsa.opens) hopen
  have hek : e.2.1.logN = k := by
    simp only [proverRounds, List.mem_cons, List.not_mem_nil, or_false] at hrm
    rcases hrm with rfl | rfl
    · obtain rfl := List.mem_singleton.1 hem
      rfl
    · obtain ⟨c, -, -, h2, -⟩ := mem_entries hu hem
      exact h2
  rw [entryHeight, hek] at t2
  refine ⟨rfl, by simp only; omega, t1, alpha, zeta, ch4, batch, ch6, fc, ?_, t3, t4, ?_⟩
  · simp only [challenges, h1, h2, h3, h4, Option.bind_eq_bind, Option.bind_some]
  · have hc := claims_eq u k q ps (second alpha).1 zeta c1 (second alpha).2.1 d1 (second alpha).2.2 hsa.count
      (ps.map fun p => aeval zeta p) (ps.map fun p => aeval (zeta * algebraMap K F (u.genV k)) p)
      ((second alpha).1.map fun c => c.map fun p => aeval zeta p) (by rw [List.length_map, hsa.count])
    rw [List.map_map] at hc
    rw [hval] at t5
    rw [← hc]
    exact t5

end TapStark.Stark
