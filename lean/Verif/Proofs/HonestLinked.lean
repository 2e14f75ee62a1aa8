import Verif.Proofs.HonestRows

/-
The commitments of an honest proof, and the indices at which it opens them.
-/

namespace TapStark.Fri

open Polynomial

variable {F : Type} [Field F] [DecidableEq F] {S C D P Ch W IP : Type}

/-- The commitment of every folding round is made from pairs of a word. -/
theorem commitLoop_data {gen : Nat → F} {N : Nat} (hg : TwoAdic gen N)
    {M : Mmcs F S C D P} {K : Chall Ch C F W} {cfg : Config} {Q : Nat} (hM : M.Honest Q N)
    (hb : 1 ≤ cfg.logBlowup) : ∀ (m : Nat) (s : S) (ch : Ch) (p : F[X]) (polys : List (Nat × F[X]))
      (fuel : Nat) (r : CommitResult F C D S Ch), cfg.logBlowup + m ≤ N → p.natDegree < 2 ^ m → m < fuel →
      Inputs cfg.logBlowup (cfg.logBlowup + m) polys →
      commitLoop gen M K cfg fuel s ch (evalVec gen (cfg.logBlowup + m) p)
        (polys.map fun x => evalVec gen x.1 x.2) = some r →
      r.data.length = m ∧ ∀ j c, r.commits[j]? = some c → ∃ d s, ∃ w : Nat → F, ∃ s', r.data[j]? = some d ∧
        M.commitMatrix s ((List.range (2 ^ (cfg.logBlowup + m - (j + 1)))).map fun i => [w (2 * i), w (2 * i + 1)]) =
          some (c, d, s') := by
  set b := cfg.logBlowup with hbdef
  intro m
  induction m with
  | zero =>
    intro s ch p polys fuel r hN hd hf hin h
    obtain ⟨fuel, rfl⟩ : ∃ f, fuel = f + 1 := ⟨fuel - 1, by omega⟩
    rw [commitLoop, if_neg (by rw [evalVec_length, Config.blowup, ← hbdef]; simp)] at h
    unfold commitEnd at h
    rw [if_pos (by rw [evalVec_length, Config.blowup, ← hbdef]; simp)] at h
    simp only [Option.bind_eq_bind, Option.bind_eq_some_iff] at h
    obtain ⟨f, hf0, h⟩ := h
    split at h
    case isFalse => cases h
    case isTrue hall =>
      obtain rfl := Option.some.inj h
      exact ⟨rfl, by simp⟩
  | succ m ih =>
    intro s ch p polys fuel r hN hd hf hin h
    obtain ⟨fuel, rfl⟩ : ∃ f, fuel = f + 1 := ⟨fuel - 1, by omega⟩
    rw [commitLoop, if_pos (by
      rw [evalVec_length, Config.blowup, ← hbdef]
      exact Nat.pow_lt_pow_right (by omega) (by omega))] at h
    rw [← Nat.add_assoc] at h hN
    rw [pairs_evalVec] at h
    set rows := (List.range (2 ^ (b + m))).map fun i =>
      [p.eval (gen (b + m + 1) ^ revBits (b + m + 1) (2 * i)),
        p.eval (gen (b + m + 1) ^ revBits (b + m + 1) (2 * i + 1))] with hrows
    have hrl : rows.length = 2 ^ (b + m) := by simp [hrows]
    obtain ⟨c, d, s', hc, hgm, hop⟩ := hM s (b + m) rows (by omega) (by omega) hrl (by
      intro r hr
      obtain ⟨i, -, rfl⟩ := List.mem_map.1 hr
      rfl)
    simp only [Option.bind_eq_bind, Option.bind_some, hc, hgm] at h
    rw [Option.bind_eq_some_iff] at h
    obtain ⟨ch1, ho, h⟩ := h
    rw [Option.bind_eq_some_iff] at h
    obtain ⟨⟨β, ch2⟩, hsam, h⟩ := h
    simp only at h
    rw [hrows, foldMatrix_evalVec hg hN, Option.bind_some, Option.bind_eq_some_iff] at h
    obtain ⟨r', hr', h⟩ := h
    obtain rfl := Option.some.inj h
    have hdeg := natDegree_foldPoly β (d := 2 ^ m) (by rwa [← pow_succ'])
    obtain ⟨P', polys', ha, hP', hin', hz, hro⟩ := addInput_spec gen b m (foldPoly β p) polys hin hdeg
    rw [ha] at hr'
    obtain ⟨i1, i2⟩ := ih s' ch2 P' polys' fuel r' (by omega) hP' (by omega) hin' hr'
    refine ⟨by simp [i1], ?_⟩
    intro j c' hj
    cases j with
    | zero =>
      obtain rfl := Option.some.inj hj
      exact ⟨d, s, fun i => p.eval (gen (b + m + 1) ^ revBits (b + m + 1) i), s', rfl, hc⟩
    | succ j =>
      obtain ⟨d', s1, w, s2, h1, h2⟩ := i2 j c' hj
      refine ⟨d', s1, w, s2, h1, ?_⟩
      rw [show b + (m + 1) - (j + 1 + 1) = b + m - (j + 1) by omega]
      exact h2

/-- Which positions the answer to a query opens. -/
theorem answerQuery_index {M : Mmcs F S C D P} : ∀ (data : List D) (idx q : Nat) {openings : List (List (List F) × P)},
    answerQuery M data idx q = some openings →
    ∀ j o, openings[j]? = some o → ∃ d, data[j]? = some d ∧ M.openBatch q (idx / 2 ^ (j + 1)) d = some o
  | [], idx, q, openings, h, j, o, ho => by
    cases h
    cases ho
  | d :: data, idx, q, openings, h, j, o, ho => by
    rw [answerQuery_cons] at h
    simp only [Option.bind_eq_some_iff] at h
    obtain ⟨o1, h1, os, h2, h⟩ := h
    obtain rfl := Option.some.inj h
    cases j with
    | zero =>
      obtain rfl := Option.some.inj ho
      exact ⟨d, rfl, h1⟩
    | succ j =>
      obtain ⟨d', h3, h4⟩ := answerQuery_index data (idx / 2) q h2 j o ho
      refine ⟨d', h3, ?_⟩
      rw [Nat.div_div_eq_div_mul, ← pow_succ'] at h4
      exact h4

/-- The commitments and the openings of an honest FRI proof. -/
theorem bfProve_linked {gen : Nat → F} {N : Nat} (hg : TwoAdic gen N) {M : Mmcs F S C D P}
    {K : Chall Ch C F W} {cfg : Config} (hM : M.Honest cfg.numQueries N) (hb : 1 ≤ cfg.logBlowup)
    {h0 : Nat} {p0 : F[X]} {polys : List (Nat × F[X])} (hin : HonestInputs cfg N h0 p0 polys)
    {openInputP : Nat → Nat → Option IP} {s s' : S} {ch ch' : Ch} {w : W} {proof : FriProof F C P W IP}
    (hp : bfProve gen M K cfg (evalVec gen h0 p0 :: polys.map fun x => evalVec gen x.1 x.2) s ch w
      openInputP = some (proof, s', ch')) :
    ∃ data : List D,
      (∀ j c, proof.commitPhaseCommits[j]? = some c → ∃ d s, ∃ w : Nat → F, ∃ s', data[j]? = some d ∧ M.commitMatrix s
        ((List.range (2 ^ (h0 - (j + 1)))).map fun i => [w (2 * i), w (2 * i + 1)]) = some (c, d, s')) ∧
      data.length = proof.commitPhaseCommits.length ∧
      ∃ challenges, verifyShapeAndSampleChallenges K cfg proof ch = .ok (challenges, ch') ∧
        ∀ qr ∈ challenges.queryIndices.zip proof.queryProofs,
          openInputP qr.1.1 qr.1.2 = some qr.2.inputProof ∧ answerQuery M data qr.1.2 qr.1.1 = some qr.2.commitPhaseOpenings := by
  unfold bfProve at hp
  split at hp
  case isFalse => cases hp
  case isTrue =>
    simp only [List.getElem?_cons_zero, evalVec_length, log2Strict_pow, Option.bind_eq_bind,
      Option.bind_some, Option.bind_eq_some_iff] at hp
    obtain ⟨r, hr, ⟨acc, ch1⟩, hw, hp⟩ := hp
    obtain ⟨c1, betas, c2, -, -⟩ := honest_core hg hM hb hin hr
    split at hp
    case isFalse => cases hp
    case isTrue hacc =>
      simp only [Option.bind_eq_some_iff] at hp
      obtain ⟨⟨qps, ch2⟩, hq, hp⟩ := hp
      simp only [Option.some.injEq, Prod.mk.injEq] at hp
      obtain ⟨rfl, rfl, rfl⟩ := hp
      obtain ⟨is, q1, q2, q3, q4⟩ := proveQueries_each _ _ hq
      obtain ⟨g1, g2, g3, gz, g4⟩ := hin
      obtain ⟨m, rfl⟩ : ∃ m, h0 = cfg.logBlowup + m := ⟨h0 - cfg.logBlowup, by omega⟩
      rw [commitPhase, evalVec_length] at hr
      have hlt : m < 2 ^ (cfg.logBlowup + m) + 1 := by
        have := Nat.lt_two_pow_self (n := cfg.logBlowup + m)
        omega
      obtain ⟨e1, e2⟩ := commitLoop_data hg hM hb m s ch p0 polys _ r g2
        (by rwa [Nat.add_sub_cancel_left] at g3) hlt g4 hr
      refine ⟨r.data, e2, by show r.data.length = r.commits.length; omega, ⟨is, betas⟩, ?_, fun qr hqr => (q3 qr hqr).2⟩
      unfold verifyShapeAndSampleChallenges
      simp only at hacc
      subst hacc
      simp [c2, q2, hw, c1, q1]

end TapStark.Fri

namespace TapStark.Pcs

open Polynomial TapStark.Fri

variable {K F : Type} [Field K] [Field F] [DecidableEq K] [DecidableEq F] [Algebra K F]
variable {SI CI DI PI S C D P Ch W : Type}

/-- The commitments and the openings of an honest opening proof, matrices of one height. -/
theorem open_linked {X : Ext K F} {genV : Nat → K} {N : Nat}
    (hXc : X.Correct genV N) (hg : TwoAdic genV N) {g : K} (hg0 : g ≠ 0)
    {cfg : Config} {MI : InMmcs K SI CI DI PI}
    {M : Mmcs F S C D P} {Kc : Chall Ch C F W} (hM : M.Honest cfg.numQueries N) (hb : 1 ≤ cfg.logBlowup)
    {rounds : List (Round K F CI DI)} (hr : HonestRounds genV g MI cfg N rounds)
    {s s' : S} {ch ch' : Ch} {w : W} {values : List (List (List (List F)))}
    {proof : FriProof F C P W (List (List (List K) × PI))}
    (hp : Pcs.open X genV g MI M Kc cfg (rounds.map Round.prover) s ch w = some (values, proof, s', ch')) :
    ∃ (G : Nat) (data : List D), (∃ r ∈ rounds, ∃ e ∈ r.entries, entryHeight cfg.logBlowup e = G) ∧
      (∀ j c, proof.commitPhaseCommits[j]? = some c → ∃ d s, ∃ w : Nat → F, ∃ s', data[j]? = some d ∧ M.commitMatrix s
        ((List.range (2 ^ (G - (j + 1)))).map fun i => [w (2 * i), w (2 * i + 1)]) = some (c, d, s')) ∧
      data.length = proof.commitPhaseCommits.length ∧
      ∃ batch ch1 fc, Kc.sample ch = some (batch, ch1) ∧ verifyShapeAndSampleChallenges Kc cfg proof ch1 = .ok (fc, ch') ∧
        ∀ qr ∈ fc.queryIndices.zip proof.queryProofs,
          openInput MI G (rounds.map fun r => r.data) qr.1.1 qr.1.2 = some qr.2.inputProof ∧
          answerQuery M data qr.1.2 qr.1.1 = some qr.2.commitPhaseOpenings := by
  obtain ⟨G, hmax, hGN, hle, rG, hrG, eG, heG, hG⟩ := global_height hr
  unfold Pcs.open at hp
  rw [mapM_mats rounds hr.ok] at hp
  simp only [Option.bind_eq_bind, Option.bind_some, hmax, log2Strict_pow, Option.bind_eq_some_iff] at hp
  obtain ⟨⟨alpha, ch1⟩, hs, ⟨st, vals⟩, hred, ⟨pf, s1, ch2⟩, hfri, hp⟩ := hp
  simp only [Option.some.injEq, Prod.mk.injEq] at hp
  obtain ⟨rfl, rfl, rfl, rfl⟩ := hp
  have hred' := hred
  unfold reduceOpenings at hred'
  simp only [Option.bind_eq_bind, Option.bind_eq_some_iff] at hred'
  obtain ⟨inv, hinv, hrounds⟩ := hred'
  have hI := invOk_of (b := cfg.logBlowup) hg hGN
    (fun r h e he => ⟨(hr.ok r h).height e he, hle r h e he⟩) hinv
  obtain ⟨c1, -, c3, c4⟩ := openRounds_poly hXc hg hg0 hGN rounds _ st vals
    (fun r h e he => ⟨hr.lde r h e he, hle r h e he, hI r h e he⟩)
    (by intro h l hl; cases hl) hrounds
  have hG' := c3 rG hrG eG heG
  rw [hG] at hG'
  obtain ⟨p0, polys, f1, f2, f3, fz, f4, f5⟩ := friInput_polys c1 hG'.1 hG'.2
  rw [f1] at hfri
  have hdata : (rounds.map Round.prover).map Prod.fst = rounds.map fun r => r.data := by
    rw [List.map_map]; rfl
  rw [hdata] at hfri
  have hin : HonestInputs cfg N G p0 polys := ⟨f2, hGN, f3, fz, f4⟩
  obtain ⟨data, b1, b2, fc, b3, b4⟩ := bfProve_linked (twoAdic_map hg) hM hb hin hfri
  exact ⟨G, data, ⟨rG, hrG, eG, heG, hG⟩, b1, b2, alpha, ch1, fc, hs, b3, b4⟩

end TapStark.Pcs

namespace TapStark.Stark

open Polynomial TapStark.Fri TapStark.Pcs

variable {K F : Type} [Field K] [Field F] [DecidableEq K] [DecidableEq F] [Algebra K F]
variable {SI C DI PI S D P Ch W : Type} {u : Setup K F SI C DI PI S D P Ch W}

/-- The commitments and the openings of an honest proof with one chunk. -/
theorem produced_linked (hu : u.Ok) {air : Air K} (hwidth : 0 < air.width) {pub : List K} (hr : air.InRange pub.length)
    (hq : getLogQuotientDegree air pub.length = some 0)
    {k : Nat} (hkb : k + u.cfg.logBlowup ≤ u.twoAdicity)
    {ps : List K[X]} (hpw : ps.length = air.width) (hps : ∀ p ∈ ps, p.natDegree < 2 ^ k)
    {ch ch' : Ch} {si : SI} {s : S} {w : W} {proof : ProofOf K F C P W PI}
    (hp : prove u air ch (evalRows u.genV ps 1 k) pub si s w = some (proof, ch')) :
    ∃ (T Q : Mat K) (dT dQ : DI) (data : List D), T.length = 2 ^ (k + u.cfg.logBlowup) ∧ Rect T air.width ∧
      Q.length = 2 ^ (k + u.cfg.logBlowup) ∧ Rect Q u.deg.D ∧
      (∃ s s', u.mi.commit s [T] = some (proof.traceCommit, dT, s')) ∧
      (∃ s s', u.mi.commit s [Q] = some (proof.quotientCommit, dQ, s')) ∧
      u.mi.getMatrices dT = some [T] ∧ u.mi.getMatrices dQ = some [Q] ∧
      (∀ j c, proof.openingProof.commitPhaseCommits[j]? = some c → ∃ d s, ∃ w : Nat → F, ∃ s', data[j]? = some d ∧ u.m.commitMatrix s
        ((List.range (2 ^ (k + u.cfg.logBlowup - (j + 1)))).map fun i => [w (2 * i), w (2 * i + 1)]) = some (c, d, s')) ∧
      data.length = proof.openingProof.commitPhaseCommits.length ∧
      ∃ alpha zeta chz batch ch1 fc, challenges u ch proof.traceCommit proof.quotientCommit = some (alpha, zeta, chz) ∧
        u.chall.sample chz = some (batch, ch1) ∧
        verifyShapeAndSampleChallenges u.chall u.cfg proof.openingProof ch1 = .ok (fc, ch') ∧
        ∀ qr ∈ fc.queryIndices.zip proof.openingProof.queryProofs,
          openInput u.mi (k + u.cfg.logBlowup) [dT, dQ] qr.1.1 qr.1.2 = some qr.2.inputProof ∧
          answerQuery u.m data qr.1.2 qr.1.1 = some qr.2.commitPhaseOpenings := by
  obtain ⟨c1, d1, second, hcom, ho1, hs, he⟩ := prove_eq hu hwidth hr hq (Nat.zero_le _) hkb hpw hps si
  rw [he] at hp
  simp only [Option.bind_eq_bind, Option.bind_eq_some_iff] at hp
  obtain ⟨-, -, ch1, h1, ⟨alpha, ch2⟩, h2, ch3, h3, ⟨zeta, ch4⟩, h4, hp⟩ := hp
  have hsa := hs alpha
  rw [finish_spec hu hkb hps hsa.count hsa.degree ho1 hsa.opens, Option.map_eq_some_iff] at hp
  obtain ⟨⟨values, pf, s', ch5⟩, hopen, hp⟩ := hp
  simp only [Prod.mk.injEq] at hp
  obtain ⟨rfl, rfl⟩ := hp
  obtain ⟨G, data, ⟨r, hrm, e, hem, t2⟩, t3, t3', batch, ch6, fc, t4, t5, t6⟩ := open_linked hu.extCorrect hu.twoAdic hu.g0 hu.m
    hu.blowup (honest_rounds hu hkb hps hsa.count hsa.degree zeta ho1 hsa.opens) hopen
  have hek : e.2.1.logN = k := by
    simp only [proverRounds, List.mem_cons, List.not_mem_nil, or_false] at hrm
    rcases hrm with rfl | rfl
    · obtain rfl := List.mem_singleton.1 hem
      rfl
    · obtain ⟨c, -, -, h2, -⟩ := mem_entries hu hem
      exact h2
  rw [entryHeight, hek] at t2
  subst t2
  obtain ⟨c, hc⟩ := List.length_eq_one_iff.1 hsa.count
  have hcom2 := hsa.committed
  have hop2 := hsa.opens.1
  rw [hc] at hcom2 hop2
  refine ⟨evalRowsRev u.genV ps u.g (k + u.cfg.logBlowup), evalRowsRev u.genV c u.g (k + u.cfg.logBlowup), d1,
    (second alpha).2.2, data, by simp [evalRowsRev], ?_, by simp [evalRowsRev], ?_, hcom, hcom2, ho1.1, hop2, t3, t3',
    alpha, zeta, ch4, batch, ch6, fc, ?_, t4, t5, t6⟩
  · intro row hrow
    rw [rect_evalRowsRev _ _ _ _ _ hrow, hpw]
  · intro row hrow
    rw [rect_evalRowsRev _ _ _ _ _ hrow, hsa.width c (by rw [hc]; simp)]
  · simp only [challenges, h1, h2, h3, h4, Option.bind_eq_bind, Option.bind_some]

end TapStark.Stark
