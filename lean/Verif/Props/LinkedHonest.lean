import Verif.Proofs.HonestLinked
import Verif.Props.LinkedProof
import Verif.Props.ClaimsScript

/-!
C115: honest proofs meet the hypotheses.
-/

set_option linter.unusedSectionVars false

namespace TapStark.Tcs

open TapStark.Tap

variable {F H : Type} [LinearOrder H] [DecidableEq F]

theorem mapM_row_length {f : Mat F → Nat} : ∀ {ms : List (Mat F)} {rows : List (List F)},
    (ms.mapM fun m => m.row (f m)) = some rows → rows.map List.length = ms.map Mat.width
  | [], rows, h => by cases h; rfl
  | m :: ms, rows, h => by
    rw [List.mapM_cons] at h
    simp only [Option.bind_eq_bind, Option.bind_eq_some_iff, Option.pure_def, Option.some.injEq] at h
    obtain ⟨r, h1, rs, h2, rfl⟩ := h
    rw [List.map_cons, List.map_cons, mapM_row_length h2]
    congr 1
    unfold Mat.row at h1
    split at h1
    case isFalse => cases h1
    rename_i hle
    obtain rfl := Option.some.inj h1
    have h3 : (f m + 1) * m.width = f m * m.width + m.width := by ring
    rw [List.length_take, List.length_drop]
    omega

/-- What an opening made by the code carries: the index, the operators of the commitment and rows of the committed widths. -/
theorem openBatch_carries {cfg : Cfg} {th : TapHash (List Op) H} {fr : FieldRep F} (fok : FieldOk fr) {mgr : Manager}
    (hm : WinterManager cfg fr.u32Size mgr) {n n' q : Nat} {mats : List (Mat F)} {L : Nat} (hh : Heights mats L) (hL : L < 32)
    {roots : List H} {ds : List (Committed F H)} (hc : mmcsCommit th fr mgr n q mats = some ((roots, ds), n')) {k i : Nat}
    {rows : List (List F)} {π : Proof H} (ho : openBatch q k i ds = some (rows, π)) :
    π.queryIndex = i ∧ WinterProof cfg fr.u32Size π ∧ rows.map List.length = mats.map Mat.width := by
  obtain ⟨ds', n'', c1, c2, c3⟩ := C24_commit_query_times th fok mgr mats L hh hL q n
  simp only [mmcsCommit, c1, Option.bind_eq_bind, Option.bind_some, Option.some.injEq, Prod.mk.injEq] at hc
  obtain ⟨⟨rfl, rfl⟩, rfl⟩ := hc
  have hd : ∀ d ∈ ds', d.leaves = mats ∧ Winter cfg 1 d.useBcs.index ∧ ∀ o ∈ d.useBcs.evals, Winter cfg fr.u32Size o := by
    intro d hd
    obtain ⟨m, m', hcm⟩ := c3 d hd
    obtain ⟨d', scripts, hc', h1, h2, -⟩ := commit_spec th fok mgr m hh hL
    rw [hcm] at hc'
    obtain ⟨rfl, -⟩ := Prod.mk.inj (Option.some.inj hc')
    refine ⟨h1, ?_, ?_⟩
    · rw [h2]
      exact (hm m).1.winter
    · intro o ho
      rw [h2] at ho
      obtain ⟨j, -, rfl⟩ := List.mem_map.1 ho
      exact (hm _).2.winter
  unfold openBatch at ho
  simp only [Option.bind_eq_bind, Option.bind_eq_some_iff, Prod.exists] at ho
  obtain ⟨d0, h0, rows', h1, π', evals, h2, h3⟩ := ho
  split at h3
  case isFalse => cases h3
  obtain ⟨rfl, rfl⟩ := Prod.mk.inj (Option.some.inj h3)
  unfold openWithOneQuery at h2
  rw [if_pos c2] at h2
  simp only [Option.bind_eq_bind, Option.bind_eq_some_iff] at h2
  obtain ⟨d, hdk, h2⟩ := h2
  obtain ⟨-, e2, e3⟩ := hd d (List.mem_of_getElem? hdk)
  unfold openAt Committed.queryProof at h2
  simp only [Option.bind_eq_bind, Option.bind_eq_some_iff, Option.some.injEq, Prod.mk.injEq] at h2
  obtain ⟨_, -, p, ⟨_, _, _, _, hp⟩, _, -, rfl, -⟩ := h2
  refine ⟨by rw [← hp], ⟨by rw [← hp]; exact e2, by rw [← hp]; exact e3⟩, ?_⟩
  rw [mapM_row_length h1, (hd d0 (List.mem_of_getElem? h0)).1]

end TapStark.Tcs

namespace TapStark.Stark

open Polynomial TapStark.Fri TapStark.Pcs TapStark.FS TapStark.Tap TapStark.Tcs

section
variable [LinearOrder U256] {scfg : Cfg} {L : U31Lib} {T : TrackerLib} {drops : Nat → List Op}
  {hash : List UInt8 → U256} {th : TapHash (List Op) U256} {mgr mgrF : Manager} {cfg : Config} {air : Air BB}
  {pub : List BB} {proof : ProofOf BB BB4 Roots (Tcs.Proof U256) U32 (Tcs.Proof U256)} {ext : Ext BB BB4}

theorem inCommit_opening {Q h w : Nat} (hh : h < 31) (hw : 0 < w) {m : Pcs.Mat BB} (hm : m.length = 2 ^ h) (hr : Rect m w)
    (hmgr : WinterManager scfg 1 mgr) {c : Roots} {ds : List (Committed BB U256)} {n n' : Nat}
    (hc : (tcsInMmcs scfg th bbRep mgr Q).commit n [m] = some (c, ds, n')) :
    InCommitted th mgr Q h w (fun i => m.getD i []) c ds ∧
    ∀ q i rows π, (tcsInMmcs scfg th bbRep mgr Q).openBatch q i ds = some (rows, π) →
      π.queryIndex = i ∧ WinterProof scfg 1 π ∧ rows.map List.length = [w] := by
  have hrow : ∀ i, i < 2 ^ h → (m.getD i []).length = w := by
    intro i hi
    rw [← hm] at hi
    rw [List.getD_eq_getElem?_getD, List.getElem?_eq_getElem hi]
    exact hr _ (List.getElem_mem hi)
  have hmap : ((List.range (2 ^ h)).map fun i => m.getD i []) = m := by
    apply List.ext_getElem
    · simp [hm]
    · intro i h1 h2
      simp [List.getD_eq_getElem?_getD, List.getElem?_eq_getElem h2]
  refine ⟨⟨hrow, hw, scfg, n, n', by rw [hmap]; exact hc⟩, ?_⟩
  intro q i rows π ho
  obtain ⟨hmat, hwid⟩ := range_rows hrow hw
  rw [hmap] at hmat hwid
  unfold tcsInMmcs at hc
  simp only [Option.bind_eq_bind, Option.bind_eq_some_iff, Prod.exists, Option.some.injEq, Prod.mk.injEq,
    List.map_cons, List.map_nil] at hc
  obtain ⟨roots, ds', n'', hc, rfl, rfl, rfl⟩ := hc
  have hht := toTcsMat_height hmat
  obtain ⟨h1, h2, h3⟩ := openBatch_carries bbRep_ok hmgr (heights_one hht) (by omega) hc ho
  refine ⟨h1, h2, h3.trans ?_⟩
  show [_] = [_]
  rw [← hwid]
  rfl

theorem wordCommit_opening {Q h : Nat} (hh : h < 31) {w : Nat → BB4} (hmgr : WinterManager scfg 4 mgrF) {c : Roots}
    {ds : List (Committed BB4 U256)} {n n' : Nat} (hc : (tcsMmcs scfg th bb4Rep mgrF Q).commitMatrix n
      ((List.range (2 ^ h)).map fun i => [w (2 * i), w (2 * i + 1)]) = some (c, ds, n')) :
    ∀ q i rows π, (tcsMmcs scfg th bb4Rep mgrF Q).openBatch q i ds = some (rows, π) →
      π.queryIndex = i ∧ WinterProof scfg 4 π := by
  intro q i rows π ho
  unfold tcsMmcs at hc
  simp only [Option.bind_eq_bind, Option.bind_eq_some_iff, Prod.exists, Option.some.injEq, Prod.mk.injEq] at hc
  obtain ⟨roots, ds', n'', hc, rfl, rfl, rfl⟩ := hc
  obtain ⟨f1, -⟩ := flatten_rows2 ((List.range (2 ^ h)).map fun i => [w (2 * i), w (2 * i + 1)]) (by
    intro r hr
    obtain ⟨i, -, rfl⟩ := List.mem_map.1 hr
    rfl)
  have hht : Tcs.Mat.height ⟨((List.range (2 ^ h)).map fun i => [w (2 * i), w (2 * i + 1)]).flatten, 2⟩ = 2 ^ h := by
    simp only [Tcs.Mat.height, f1, List.length_map, List.length_range]
    exact Nat.mul_div_cancel _ (by omega)
  obtain ⟨h1, h2, -⟩ := openBatch_carries bb4Rep_ok hmgr (heights_one hht) (by omega) hc ho
  exact ⟨h1, h2⟩

theorem openInput_one {MI : InMmcs K SI CI DI PI} {G : Nat} {d : DI} {m : Pcs.Mat K} (hg : MI.getMatrices d = some [m])
    (hl : m.length = 2 ^ G) {ds : List DI} {q idx : Nat} {bs : List (List (List K) × PI)}
    (h : openInput MI G (d :: ds) q idx = some bs) :
    ∃ b bs', bs = b :: bs' ∧ MI.openBatch q idx d = some b ∧ openInput MI G ds q idx = some bs' := by
  unfold openInput at h
  rw [List.mapM_cons] at h
  have hmax : MI.getMaxHeight d = some (2 ^ G) := by
    unfold InMmcs.getMaxHeight
    rw [hg]
    simp [hl]
  simp only [hmax, Option.bind_eq_bind, Option.bind_some, log2Strict_pow, le_refl, if_true, Nat.sub_self,
    Nat.shiftRight_zero, Option.bind_eq_some_iff, Option.pure_def, Option.some.injEq] at h
  obtain ⟨b, h1, bs', h2, rfl⟩ := h
  exact ⟨b, bs', rfl, h1, h2⟩

/-- **C115** Honest proofs meet the hypotheses of `C115_accepted`: the operators in the openings are Winternitz operators,
there is a prover whose answers are those of the proof and whose commitments are made by the code, and all openings carry
the indices and widths that belong to the queries. -/
theorem C115_honest (hu : (babyBear ext (tcsInMmcs scfg th bbRep mgr cfg.numQueries)
      (tcsMmcs scfg th bb4Rep mgrF cfg.numQueries) (blake3Perm hash) cfg).Ok)
    (hwidth : 0 < air.width) (hq : getLogQuotientDegree air pub.length = some 0) {trace : Pcs.Mat BB} {k : Nat}
    (hkb : k + cfg.logBlowup ≤ 27) (hl : trace.length = 2 ^ k) (hrect : Rect trace air.width)
    (hm : WinterManager scfg 1 mgr) (hmF : WinterManager scfg 4 mgrF) {si s : Nat} {w : U32} {ch' : Chal U32}
    (hprove : prove (babyBear ext (tcsInMmcs scfg th bbRep mgr cfg.numQueries) (tcsMmcs scfg th bb4Rep mgrF cfg.numQueries)
      (blake3Perm hash) cfg) air (Chal.new 16 (fromU64 0)) trace pub si s w = some (proof, ch'))
    {alpha zeta batch : BB4} {fc : FriChallenges BB4}
    (hn : nativeTranscript (blake3Perm hash) cfg proof.traceCommit proof.quotientCommit proof.openingProof
        (Chal.new 16 (fromU64 0)) = .ok ((alpha, zeta, batch, fc), ch')) :
    (∀ qp ∈ proof.openingProof.queryProofs, (∀ b ∈ qp.inputProof, WinterProof scfg 1 b.2) ∧
      ∀ o ∈ qp.commitPhaseOpenings, WinterProof scfg 4 o.2) ∧
    ∃ (pr : Prover BB BB4 Roots) (dT dQ : List (Committed BB U256)) (dW : Nat → List (Committed BB4 U256)),
      pr.traceCommit = proof.traceCommit ∧ pr.quotientCommit alpha = proof.quotientCommit ∧
      pr.traceLocal alpha zeta = proof.traceLocal ∧ pr.traceNext alpha zeta = proof.traceNext ∧
      pr.quotientChunks alpha zeta = proof.quotientChunks ∧
      (pr.words alpha zeta batch).final fc.betas = proof.openingProof.finalPoly ∧
      InCommitted th mgr cfg.numQueries (proof.degreeBits + cfg.logBlowup) air.width pr.traceRow proof.traceCommit dT ∧
      InCommitted th mgr cfg.numQueries (proof.degreeBits + cfg.logBlowup) 4 (pr.quotientRow alpha 0)
        proof.quotientCommit dQ ∧
      (∀ j c, proof.openingProof.commitPhaseCommits[j]? = some c → WordCommitted th mgrF cfg.numQueries
        (fc.betas.length + cfg.logBlowup - (j + 1)) ((pr.words alpha zeta batch).layer (fc.betas.take j)) c (dW j)) ∧
      ∀ qr ∈ fc.queryIndices.zip proof.openingProof.queryProofs,
        Indexed proof.degreeBits fc.betas.length air.width qr.1.2 qr.2 := by
  obtain ⟨ps, hpw, rfl, hps⟩ := trace_polys hu (k := k) (show k ≤ 27 by omega) hl hrect
  have hair := ((C45_least_power_of_two air _ 0).1 hq).1
  obtain ⟨t1, t2, t3, -⟩ := produced_top hu hwidth hair hq (Nat.zero_le _) hkb hpw hps hprove
  obtain ⟨mT, mQ, dT, dQ, data, a1, a2, a3, a4, ⟨sT, sT', a5⟩, ⟨sQ, sQ', a6⟩, a7, a8, a9, a10, alpha', zeta', chz, batch', ch1, fc', b1,
    b2, b3, b4⟩ := produced_linked hu hwidth hair hq hkb hpw hps hprove
  have hn' : nativeTranscript (blake3Perm hash) cfg proof.traceCommit proof.quotientCommit proof.openingProof
        (Chal.new 16 (fromU64 0)) = .ok ((alpha', zeta', batch', fc'), ch') := by
    unfold challenges at b1
    simp only [Option.bind_eq_bind, Option.bind_eq_some_iff, Prod.exists] at b1
    obtain ⟨d1, k1, a, d2, k2, d3, k3, z, d4, k4, k5⟩ := b1
    have k5 := Option.some.inj k5
    cases k5
    have k1 : (bb4Chall (blake3Perm hash)).observe _ _ = _ := k1
    have k2 : (bb4Chall (blake3Perm hash)).sample _ = _ := k2
    have k3 : (bb4Chall (blake3Perm hash)).observe _ _ = _ := k3
    have k4 : (bb4Chall (blake3Perm hash)).sample _ = _ := k4
    have b2 : (bb4Chall (blake3Perm hash)).sample _ = _ := b2
    have b3 : verifyShapeAndSampleChallenges (bb4Chall (blake3Perm hash)) cfg _ _ = _ := b3
    unfold nativeTranscript
    simp only [k1, k2, k3, k4, b2, b3, Res.ofOption, Res.bind_ok]
  cases hn.symm.trans hn'
  obtain ⟨hbe, -⟩ := nativeTranscript_shape hn
  have hbk : fc.betas.length = k := hbe.trans t2
  have a4' : Rect mQ 4 := a4
  obtain ⟨cT, oT⟩ := inCommit_opening (h := k + cfg.logBlowup) (by omega) hwidth a1 a2 hm a5
  obtain ⟨cQ, oQ⟩ := inCommit_opening (h := k + cfg.logBlowup) (by omega) (by omega) a3 a4' hm a6
  -- the rounds
  have hround : ∀ j, ∃ w : Nat → BB4, ∀ c, proof.openingProof.commitPhaseCommits[j]? = some c → ∃ d s s', data[j]? = some d ∧
      (tcsMmcs scfg th bb4Rep mgrF cfg.numQueries).commitMatrix s
        ((List.range (2 ^ (k + cfg.logBlowup - (j + 1)))).map fun i => [w (2 * i), w (2 * i + 1)]) = some (c, d, s') := by
    intro j
    cases hc : proof.openingProof.commitPhaseCommits[j]? with
    | none => exact ⟨fun _ => 0, fun c hc' => by cases hc'⟩
    | some c =>
      obtain ⟨d, s, w, s', h1, h2⟩ := a9 j c hc
      exact ⟨w, fun c' hc' => by cases hc'; exact ⟨d, s, s', h1, h2⟩⟩
  choose word hword using hround
  have hmain : ∀ qr ∈ fc.queryIndices.zip proof.openingProof.queryProofs,
      Indexed proof.degreeBits fc.betas.length air.width qr.1.2 qr.2 ∧ (∀ b ∈ qr.2.inputProof, WinterProof scfg 1 b.2) ∧
        ∀ o ∈ qr.2.commitPhaseOpenings, WinterProof scfg 4 o.2 := by
    intro qr hqr
    obtain ⟨c1, c2⟩ := b4 qr hqr
    obtain ⟨⟨r1, π1⟩, bs, e1, e2, e3⟩ := openInput_one a7 a1 c1
    obtain ⟨⟨r2, π2⟩, bs', rfl, e5, e6⟩ := openInput_one a8 a3 e3
    obtain rfl : [] = bs' := Option.some.inj (show some [] = some bs' from e6)
    obtain ⟨p1, p2, p3⟩ := oT _ _ _ _ e2
    obtain ⟨q1, q2, q3⟩ := oQ _ _ _ _ e5
    have hr : ∀ j o, qr.2.commitPhaseOpenings[j]? = some o → o.2.queryIndex = qr.1.2 / 2 ^ (j + 1) ∧ WinterProof scfg 4 o.2 := by
      intro j o ho
      obtain ⟨d, f1, f2⟩ := answerQuery_index _ _ _ c2 j o ho
      have hj : j < proof.openingProof.commitPhaseCommits.length := by
        rw [← a10]
        exact (List.getElem?_eq_some_iff.1 f1).1
      obtain ⟨d', s, s', g1, g2⟩ := hword j _ (List.getElem?_eq_getElem hj)
      cases f1.symm.trans g1
      exact wordCommit_opening (by omega) hmF g2 _ _ _ _ f2
    refine ⟨⟨?_, ?_, fun j o ho => (hr j o ho).1⟩, ?_, ?_⟩
    · rw [e1]
      show [r1.map List.length, r2.map List.length] = _
      rw [p3, q3]
    · rw [e1, hbk, t1, Nat.sub_self, pow_zero, Nat.div_one]
      intro b hb
      simp only [List.mem_cons, List.not_mem_nil, or_false] at hb
      rcases hb with rfl | rfl
      · exact p1
      · exact q1
    · rw [e1]
      intro b hb
      simp only [List.mem_cons, List.not_mem_nil, or_false] at hb
      rcases hb with rfl | rfl
      · exact p2
      · exact q2
    · intro o ho
      obtain ⟨j, hj⟩ := List.mem_iff_getElem?.1 ho
      exact (hr j o hj).2
  have hlen : fc.queryIndices.length = proof.openingProof.queryProofs.length := by
    unfold verifyShapeAndSampleChallenges at b3
    simp only [Res.bind_eq_ok, Res.ofOption_eq_ok, Prod.exists] at b3
    obtain ⟨betas, _, -, b3⟩ := b3
    split at b3
    · cases b3
    rename_i hlen
    simp only [Res.bind_eq_ok, Res.ofOption_eq_ok, Prod.exists] at b3
    obtain ⟨_, _, -, b3⟩ := b3
    split at b3
    · cases b3
    simp only [Res.bind_eq_ok, Res.ofOption_eq_ok, Prod.exists] at b3
    obtain ⟨is, _, hi, b3⟩ := b3
    cases b3
    rw [sampleIndices_length hi]
    exact (not_not.1 hlen).symm
  refine ⟨?_, ⟨proof.traceCommit, fun i => mT.getD i [], fun _ => proof.quotientCommit, fun _ _ i => mQ.getD i [],
    fun _ _ => proof.traceLocal, fun _ _ => proof.traceNext, fun _ _ => proof.quotientChunks,
    fun _ _ _ => ⟨fun bs => word bs.length, fun _ => proof.openingProof.finalPoly⟩⟩, dT, dQ, fun j => data.getD j [],
    rfl, rfl, rfl, rfl, rfl, rfl, by rw [t1]; exact cT, by rw [t1]; exact cQ, ?_, fun qr hqr => (hmain qr hqr).1⟩
  · intro qp hqp
    obtain ⟨i, hi, rfl⟩ := List.mem_iff_getElem.1 hqp
    have hi' : i < (fc.queryIndices.zip proof.openingProof.queryProofs).length := by
      rw [List.length_zip]
      omega
    have := (hmain _ (List.getElem_mem hi')).2
    rwa [List.getElem_zip] at this
  · intro j c hc
    obtain ⟨d, s, s', g1, g2⟩ := hword j c hc
    have hj := (List.getElem?_eq_some_iff.1 hc).1
    have htake : (fc.betas.take j).length = j := by
      rw [List.length_take]
      omega
    refine ⟨scfg, s, s', ?_⟩
    simp only [htake, hbk]
    rw [List.getD_eq_getElem?_getD, g1]
    exact g2

/-- **C115** A run that meets the hypotheses of `C115_accepted`: BLAKE3, the taptree commitments with Winternitz operators,
two queries. -/
theorem C115_instance (scfg : Cfg) (h20 : ∀ x, (scfg.hash160 x).length = 20) {L : U31Lib} {T : TrackerLib}
    {drops : Nat → List Op} (hL : L.Ok scfg) (hT : T.Ok scfg)
    (hD : ∀ x : List Elem, x.length ≤ 4 → Does scfg (drops x.length) x []) (n : Nat) :
    ∃ bc proof ch', WinterManager scfg 1 (wideManager bc) ∧ WinterManager scfg 4 (wideManager bc) ∧
      prove (fibSetup scfg bc 2) (fibAir BB) (Chal.new 16 (fromU64 0)) [[0, 1], [1, 1]] [0, 1, 1] 0 0 (fromU64 28) =
        some (proof, ch') ∧
      verify (fibSetup scfg bc 2) (fibAir BB) (Chal.new 16 (fromU64 0)) proof [0, 1, 1] = .ok ch' ∧
      (∃ out, generateScriptVerifier scfg L T drops (fibSetup scfg bc 2).mi (fibSetup scfg bc 2).m (blake3Perm specHash)
        (demoCfg 2) (fibAir BB) (Chal.new 16 (fromU64 0)) (ChalExpr.new n).1 proof [0, 1, 1] (ChalExpr.new n).2 = .ok out) ∧
      proof.degreeBits = 1 ∧ proof.openingProof.commitPhaseCommits.length = 1 ∧
      (∀ qp ∈ proof.openingProof.queryProofs, qp.commitPhaseOpenings.length = 1 ∧
        (∀ b ∈ qp.inputProof, WinterProof scfg 1 b.2) ∧ ∀ o ∈ qp.commitPhaseOpenings, WinterProof scfg 4 o.2) ∧
      ∃ alpha zeta batch fc, nativeTranscript (blake3Perm specHash) (demoCfg 2) proof.traceCommit proof.quotientCommit
          proof.openingProof (Chal.new 16 (fromU64 0)) = .ok ((alpha, zeta, batch, fc), ch') ∧
        fc.queryIndices.length = 2 ∧
        ∀ qr ∈ fc.queryIndices.zip proof.openingProof.queryProofs, Indexed 1 fc.betas.length 2 qr.1.2 qr.2 := by
  obtain ⟨b, c, hb, hc, h⟩ := Tcs.winternitz_ok scfg h20 ['b', '1', '3', '8'] (by decide) 0
  have w1 : WinterNew scfg 1 (winternitzBc scfg b c) := .one _ 0 b c hb hc
  have hm1 : WinterManager scfg 1 (wideManager (winternitzBc scfg b c)) := fun _ => ⟨w1, w1⟩
  have hm4 : WinterManager scfg 4 (wideManager (winternitzBc scfg b c)) :=
    fun _ => ⟨w1, .cons w1 (.cons w1 (.cons w1 w1))⟩
  generalize winternitzBc scfg b c = bc at h hm1 hm4
  obtain ⟨proof, ch', h1, h2, h3, h4, -⟩ := fib_run hL hT hD h (by omega : 0 < 2) zetaWords2 zeta2_outside.1 zeta2_outside.2
    fib_native28 fib_script28 n
  have hs := h3.mpr (by decide)
  have hu := fibSetup_ok h (by omega : 0 < 2)
  have hdeg : getLogQuotientDegree (fibAir BB) 3 = some 0 := fibAir_degree 3 le_rfl
  obtain ⟨alpha, zeta, batch, betas, c', hn, htop⟩ := indicesOf_some fib_native28
  have htr : ([[0, 1], [1, 1]] : Pcs.Mat BB) = fibTrace 2 0 1 := by decide +kernel
  have h1' := h1
  rw [htr] at h1'
  obtain ⟨ps, hpw, hpt, hps⟩ := trace_polys hu (k := 1) (by decide : 1 ≤ 27) (fibTrace_length 2 0 1) (fibTrace_rect 2 0 1)
  have h1'' := h1'
  rw [hpt] at h1''
  obtain ⟨p1, p2, p3, -⟩ := produced_top hu (by decide : 0 < 2) ((C45_least_power_of_two (fibAir BB) _ 0).1 hdeg).1
    (pub := [0, 1, 1]) hdeg (Nat.zero_le _) (k := 1) (by decide : 1 + 2 ≤ 27) hpw hps h1''
  have hn' := h4.trans hn
  have hch : c' = ch' := by
    obtain ⟨-, a, z, b, fc, m1, -, -⟩ := (verify_one (ext := lagrangeExt bbGen) (mi := (fibSetup scfg bc 2).mi)
      (m := (fibSetup scfg bc 2).m) (cfg := demoCfg 2) (air := fibAir BB) (pub := [0, 1, 1])
      (show proof.degreeBits ≤ 27 by rw [p1]; decide) hdeg).mp h2
    cases m1.symm.trans hn'
    rfl
  subst hch
  obtain ⟨k1, _, _, _, _, _, _, _, _, _, _, _, _, _, k2⟩ := C115_honest (ext := lagrangeExt bbGen) (scfg := scfg)
    (th := constTap demoRoot) (mgr := wideManager bc) (mgrF := wideManager bc) (cfg := demoCfg 2) (hash := specHash)
    (air := fibAir BB) (pub := [0, 1, 1]) hu (by decide : 0 < 2) hdeg (k := 1) (by decide : 1 + 2 ≤ 27)
    (fibTrace_length 2 0 1) (fibTrace_rect 2 0 1) hm1 hm4 h1' hn'
  refine ⟨bc, proof, c', hm1, hm4, h1, h2, hs, p1, p2, ?_, alpha, zeta, batch, _, hn', ?_, ?_⟩
  · intro qp hqp
    exact ⟨(p3 qp hqp).trans p2, k1 qp hqp⟩
  · rfl
  · rw [p1] at k2
    exact k2

end

end TapStark.Stark
