import Verif.Props.MalleableScript

/-!
C121 for the script verifier, the parts that hold: another final value, another number of queries.
-/

namespace TapStark.Stark

open TapStark.Fri TapStark.Pcs TapStark.Tap TapStark.FS TapStark.Tcs

section
variable {SI DI PI S D P : Type} {scfg : Cfg} {L : U31Lib} {T : TrackerLib} {drops : Nat → List Op}
  {hash : List UInt8 → U256} {mi : InMmcs BB SI Roots DI PI} {m : Mmcs BB4 S Roots D P} {cfg : Config} {air : Air BB}
  {pub : List BB} {proof proof' : ProofOf BB BB4 Roots P U32 PI}

/-- The numbers of queries of a proof whose challenges can be drawn. -/
theorem nativeTranscript_count {perm : List U32 → List U32} {IP : Type} {trace quotient : Roots}
    {fri : FriProof BB4 Roots P U32 IP} {c c' : Chal U32} {alpha zeta batch : BB4} {fc : FriChallenges BB4}
    (h : nativeTranscript perm cfg trace quotient fri c = .ok ((alpha, zeta, batch, fc), c')) :
    fri.queryProofs.length = cfg.numQueries ∧ fc.queryIndices.length = cfg.numQueries := by
  unfold nativeTranscript at h
  simp only [Res.bind_eq_ok, Res.ofOption_eq_ok] at h
  obtain ⟨c1, -, ⟨a, c2⟩, -, c3, -, ⟨z, c4⟩, -, ⟨b, c5⟩, -, ⟨fc', c6⟩, h, h'⟩ := h
  cases h'
  exact sampled_count h

/-- **C121**, a part that holds for the script verifier: with at least one query, a proof on which it succeeds does not
succeed with another final value. -/
theorem C121_script_final_value_partial (hL : L.Ok scfg) (hT : T.Ok scfg)
    (hD : ∀ x : List Elem, x.length ≤ 4 → Does scfg (drops x.length) x []) (hH : IsBlake3 hash)
    (hp : 1 ≤ cfg.powBits) (hp' : cfg.powBits ≤ 31) (hb' : proof.degreeBits ≤ 27)
    (hblow : 1 ≤ cfg.logBlowup) (hmax : proof.openingProof.commitPhaseCommits.length + cfg.logBlowup ≤ 27)
    (hair : air.InRange pub.length) (hne : air.asserts ≠ []) (hq : getLogQuotientDegree air pub.length = some 0)
    (hn : 0 < cfg.numQueries) {n n' : Nat}
    (hs : ∃ out, generateScriptVerifier scfg L T drops mi m (blake3Perm hash) cfg air (Chal.new 16 (fromU64 0))
      (ChalExpr.new n).1 proof pub (ChalExpr.new n).2 = .ok out)
    {v : BB4} (hv : v ≠ proof.openingProof.finalPoly) :
    ¬ ∃ out, generateScriptVerifier scfg L T drops mi m (blake3Perm hash) cfg air (Chal.new 16 (fromU64 0))
      (ChalExpr.new n').1 { proof with openingProof := { proof.openingProof with finalPoly := v } } pub (ChalExpr.new n').2 =
        .ok out := by
  intro hs'
  obtain ⟨-, -, a, z, b, f, c, s, k1, -, -, k4, -⟩ := (C82_exact hL hT hD hH (lagrangeExt bbGen) hp hp' hb' hblow hmax hair hne hq n).mp hs
  obtain ⟨-, -, a', z', b', f', c', s', l1, -, -, l4, -⟩ := (C82_exact hL hT hD hH (lagrangeExt bbGen) hp hp'
    (proof := { proof with openingProof := { proof.openingProof with finalPoly := v } }) hb' hblow hmax hair hne hq n').mp hs'
  cases k1.symm.trans l1
  obtain ⟨h1, h2⟩ := nativeTranscript_count k1
  obtain ⟨i, is, hi⟩ := List.exists_cons_of_length_pos (h2.symm ▸ hn)
  obtain ⟨qp, qps, hqp⟩ := List.exists_cons_of_length_pos (h1.symm ▸ hn)
  have hmem : (i, qp) ∈ f.queryIndices.zip proof.openingProof.queryProofs := by
    rw [hi, hqp]
    exact List.mem_cons_self ..
  obtain ⟨-, -, vals, e1, -, e2⟩ := k4 _ hmem
  obtain ⟨-, -, vals', e1', -, e2'⟩ := l4 _ hmem
  have e3 := e1.symm.trans e1'
  cases e3
  exact hv (e2'.symm.trans e2)

/-- **C121**, a part that holds for the script verifier: it succeeds on no proof with another number of queries than that
of the configuration. -/
theorem C121_script_query_count_partial (hL : L.Ok scfg) (hT : T.Ok scfg)
    (hD : ∀ x : List Elem, x.length ≤ 4 → Does scfg (drops x.length) x []) (hH : IsBlake3 hash)
    (hp : 1 ≤ cfg.powBits) (hp' : cfg.powBits ≤ 31) (hb' : proof.degreeBits ≤ 27)
    (hblow : 1 ≤ cfg.logBlowup) (hmax : proof.openingProof.commitPhaseCommits.length + cfg.logBlowup ≤ 27)
    (hair : air.InRange pub.length) (hne : air.asserts ≠ []) (hq : getLogQuotientDegree air pub.length = some 0) {n : Nat}
    (hs : ∃ out, generateScriptVerifier scfg L T drops mi m (blake3Perm hash) cfg air (Chal.new 16 (fromU64 0))
      (ChalExpr.new n).1 proof pub (ChalExpr.new n).2 = .ok out) :
    proof.openingProof.queryProofs.length = cfg.numQueries := by
  obtain ⟨-, -, a, z, b, f, c, s, k1, -⟩ := (C82_exact hL hT hD hH (lagrangeExt bbGen) hp hp' hb' hblow hmax hair hne hq n).mp hs
  exact (nativeTranscript_count k1).1

/-- **C121**, a part that holds for the script verifier: a proof on which it succeeds does not succeed with another value in
the quotient chunk. -/
theorem C121_script_quotient_value_partial (hL : L.Ok scfg) (hT : T.Ok scfg)
    (hD : ∀ x : List Elem, x.length ≤ 4 → Does scfg (drops x.length) x []) (hH : IsBlake3 hash)
    (hp : 1 ≤ cfg.powBits) (hp' : cfg.powBits ≤ 31) (hb' : proof.degreeBits ≤ 27)
    (hblow : 1 ≤ cfg.logBlowup) (hmax : proof.openingProof.commitPhaseCommits.length + cfg.logBlowup ≤ 27)
    (hair : air.InRange pub.length) (hne : air.asserts ≠ []) (hq : getLogQuotientDegree air pub.length = some 0) {n n' : Nat}
    (hs : ∃ out, generateScriptVerifier scfg L T drops mi m (blake3Perm hash) cfg air (Chal.new 16 (fromU64 0))
      (ChalExpr.new n).1 proof pub (ChalExpr.new n).2 = .ok out)
    {i e : Nat} (hi : i < proof.quotientChunks.length) (he : e < proof.quotientChunks[i].length) {v : BB4}
    (hv : v ≠ proof.quotientChunks[i][e]) :
    ¬ ∃ out, generateScriptVerifier scfg L T drops mi m (blake3Perm hash) cfg air (Chal.new 16 (fromU64 0))
      (ChalExpr.new n').1 { proof with quotientChunks := proof.quotientChunks.set i (proof.quotientChunks[i].set e v) } pub
        (ChalExpr.new n').2 = .ok out := by
  intro hs'
  obtain ⟨-, hsh, a, z, b, f, c, s, k1, -, -, -, k5⟩ := (C82_exact hL hT hD hH (lagrangeExt bbGen) hp hp' hb' hblow hmax hair hne hq n).mp hs
  obtain ⟨-, hsh', a', z', b', f', c', s', l1, -, -, -, l5⟩ := (C82_exact hL hT hD hH (lagrangeExt bbGen) hp hp'
    (proof := { proof with quotientChunks := proof.quotientChunks.set i (proof.quotientChunks[i].set e v) })
    hb' hblow hmax hair hne hq n').mp hs'
  cases k1.symm.trans l1
  have hzp : zps [(⟨proof.degreeBits, 31⟩ : Dom BB)] z = some [1] := by simp [zps]
  unfold oodCheck at k5 l5
  dsimp only at l5
  rw [hzp, Option.bind_eq_bind, Option.bind_some] at k5 l5
  simp only [Option.bind_eq_bind, Option.bind_eq_some_iff, Option.some.injEq, decide_eq_true_eq] at k5 l5
  obtain ⟨R, hR, sels, h1, fo, h2, h3⟩ := k5
  obtain ⟨R', hR', sels', h1', fo', h2', h3'⟩ := l5
  cases h1.symm.trans h1'
  cases h2.symm.trans h2'
  rw [recombine_set (by simp [hsh.2.2.1]) hi he v hR, Option.some.injEq] at hR'
  rw [h3, ← hR', left_eq_add, mul_eq_zero, mul_eq_zero, sub_eq_zero] at h3'
  obtain rfl : i = 0 := by rw [hsh.2.2.1] at hi; omega
  rcases h3' with h3' | h3' | h3'
  · exact one_ne_zero h3'
  · exact pow_ne_zero e root_ne h3'
  · exact hv h3'

end

/-- A run: the script verifier succeeds on the proof of the two-row Fibonacci trace, which has two queries, and not with
another final value nor another quotient value. -/
theorem C121_script_instance [LinearOrder U256] (scfg : Cfg) (h20 : ∀ x, (scfg.hash160 x).length = 20) {L : U31Lib}
    {T : TrackerLib} {drops : Nat → List Op} (hL : L.Ok scfg) (hT : T.Ok scfg)
    (hD : ∀ x : List Elem, x.length ≤ 4 → Does scfg (drops x.length) x []) (n : Nat) :
    ∃ bc proof,
      let succeeds := fun p => ∃ out, generateScriptVerifier scfg L T drops (fibSetup scfg bc 2).mi (fibSetup scfg bc 2).m
        (blake3Perm specHash) (demoCfg 2) (fibAir BB) (Chal.new 16 (fromU64 0)) (ChalExpr.new n).1 p [0, 1, 1]
        (ChalExpr.new n).2 = .ok out
      succeeds proof ∧ proof.openingProof.queryProofs.length = 2 ∧
      (∀ v, v ≠ proof.openingProof.finalPoly →
        ¬ succeeds { proof with openingProof := { proof.openingProof with finalPoly := v } }) ∧
      ∀ (i e : Nat) (hi : i < proof.quotientChunks.length) (he : e < proof.quotientChunks[i].length) (v : BB4),
        v ≠ proof.quotientChunks[i][e] →
        ¬ succeeds { proof with quotientChunks := proof.quotientChunks.set i (proof.quotientChunks[i].set e v) } := by
  obtain ⟨b, c, -, -, h⟩ := Tcs.winternitz_ok scfg h20 ['b', '1', '3', '8'] (by decide) 0
  generalize winternitzBc scfg b c = bc at h
  obtain ⟨proof, ch', h1, h2, h3, h4, -⟩ := fib_run hL hT hD h (by omega : 0 < 2) zetaWords2 zeta2_outside.1 zeta2_outside.2
    fib_native28 fib_script28 n
  have hs := h3.mpr (by decide)
  have hu := fibSetup_ok h (by omega : 0 < 2)
  have hdeg : getLogQuotientDegree (fibAir BB) 3 = some 0 := fibAir_degree 3 le_rfl
  have hair := ((C45_least_power_of_two (fibAir BB) _ 0).1 hdeg).1
  have htr : ([[0, 1], [1, 1]] : Pcs.Mat BB) = fibTrace 2 0 1 := by decide +kernel
  rw [htr] at h1
  obtain ⟨ps, hpw, hpt, hps⟩ := trace_polys hu (k := 1) (by decide : 1 ≤ 27) (fibTrace_length 2 0 1) (fibTrace_rect 2 0 1)
  rw [hpt] at h1
  obtain ⟨p1, p2, -⟩ := produced_top hu (by decide : 0 < 2) hair
    (pub := [0, 1, 1]) hdeg (Nat.zero_le _) (k := 1) (by decide : 1 + 2 ≤ 27) hpw hps h1
  have q1 := C121_script_query_count_partial hL hT hD specHash_ok (show 1 ≤ 4 by decide) (show 4 ≤ 31 by decide)
    (by rw [p1]; decide) (show 1 ≤ 2 by decide) (by rw [p2]; decide) hair (by simp [fibAir]) hdeg hs
  have q2 : ∀ v, v ≠ proof.openingProof.finalPoly → _ := fun v hv =>
    C121_script_final_value_partial (n' := n) hL hT hD specHash_ok (show 1 ≤ 4 by decide) (show 4 ≤ 31 by decide)
      (by rw [p1]; decide) (show 1 ≤ 2 by decide) (by rw [p2]; decide) hair (by simp [fibAir]) hdeg (show 0 < 2 by decide) hs hv
  have q3 : ∀ (i e : Nat) (hi : i < proof.quotientChunks.length) (he : e < proof.quotientChunks[i].length) (v : BB4),
      v ≠ proof.quotientChunks[i][e] → _ := fun i e hi he v hv =>
    C121_script_quotient_value_partial (n' := n) hL hT hD specHash_ok (show 1 ≤ 4 by decide) (show 4 ≤ 31 by decide)
      (by rw [p1]; decide) (show 1 ≤ 2 by decide) (by rw [p2]; decide) hair (by simp [fibAir]) hdeg hs hi he hv
  exact ⟨bc, proof, hs, q1, q2, q3⟩

end TapStark.Stark
