import Verif.Props.Claims
import Verif.Props.ScriptVerifierInst

/-
C107 for the script verifier, with an instance for both verifiers.
-/

namespace TapStark.Stark

open TapStark.Fri TapStark.Pcs TapStark.FS TapStark.Tap TapStark.Tcs

section

variable {SI DI PI S D P : Type} {scfg : Cfg} {L : U31Lib} {T : TrackerLib} {drops : Nat → List Op}
  {hash : List UInt8 → U256} {mi : InMmcs BB SI Roots DI PI} {m : Mmcs BB4 S Roots D P} {cfg : Config} {air : Air BB}
  {pub : List BB} {proof : ProofOf BB BB4 Roots P U32 PI} {ext : Ext BB BB4}

/-- The claims of a proof with one chunk. -/
theorem openingClaims_one {perm : List U32 → List U32} {chunks : List (List BB4)} (h : chunks.length = 1) (zeta : BB4) :
    openingClaims { proof with quotientChunks := chunks } zeta =
      claimsWith (babyBear ext mi m perm cfg) proof 0 zeta chunks := by
  obtain ⟨chunk, rfl⟩ := List.length_eq_one_iff.mp h
  simp [openingClaims, claimsWith, chunkDomains, babyBear]

/-- **C107 is violated** by the script verifier: when it succeeds on a proof, moving two of the claimed quotient values
gives a proof of any other statement with the same width on which it succeeds. -/
theorem C107_violated_script (hL : L.Ok scfg) (hT : T.Ok scfg)
    (hD : ∀ x : List Elem, x.length ≤ 4 → Does scfg (drops x.length) x []) (hH : IsBlake3 hash)
    (hu : (babyBear ext mi m (blake3Perm hash) cfg).Ok)
    (hp : 1 ≤ cfg.powBits) (hp' : cfg.powBits ≤ 31) (hb' : proof.degreeBits ≤ 27)
    (hmax : proof.openingProof.commitPhaseCommits.length + cfg.logBlowup ≤ 27)
    (hne : air.asserts ≠ []) (hq : getLogQuotientDegree air pub.length = some 0) (n : Nat)
    (hs : ∃ out, generateScriptVerifier scfg L T drops mi m (blake3Perm hash) cfg air (Chal.new 16 (fromU64 0))
      (ChalExpr.new n).1 proof pub (ChalExpr.new n).2 = .ok out)
    {alpha zeta batch : BB4} {fc : FriChallenges BB4} {c' : Chal U32}
    (hn : nativeTranscript (blake3Perm hash) cfg proof.traceCommit proof.quotientCommit proof.openingProof
          (Chal.new 16 (fromU64 0)) = .ok ((alpha, zeta, batch, fc), c'))
    (hrows : ∀ qp ∈ proof.openingProof.queryProofs, FullRows (openingClaims proof zeta) qp.inputProof)
    (hz : zeta ^ 2 ^ proof.degreeBits ≠ algebraMap BB BB4 31 ^ 2 ^ proof.degreeBits)
    (hbatch : batch ≠ AdjoinRoot.root ext4Poly)
    {air' : Air BB} {pub' : List BB} (hw : air'.width = air.width) (hne' : air'.asserts ≠ [])
    (hq' : getLogQuotientDegree air' pub'.length = some 0) :
    ∃ chunks out, generateScriptVerifier scfg L T drops mi m (blake3Perm hash) cfg air' (Chal.new 16 (fromU64 0))
      (ChalExpr.new n).1 { proof with quotientChunks := chunks } pub' (ChalExpr.new n).2 = .ok out := by
  have hair := ((C45_least_power_of_two air _ 0).1 hq).1
  have hair' := ((C45_least_power_of_two air' _ 0).1 hq').1
  have hblow : 1 ≤ cfg.logBlowup := hu.blowup
  obtain ⟨hb, ⟨hs1, hs2, hs3, hs4⟩, a, z, b, f, c, s, h1, h2, h3, h4, h5⟩ :=
    (C82_exact hL hT hD hH ext hp hp' hb' hblow hmax hair hne hq n).mp hs
  have h6 := hn.symm.trans h1
  cases h6
  have hz1 : zeta ^ 2 ^ proof.degreeBits ≠ 1 := by
    intro h0
    rw [oodCheck_panic h0] at h5
    cases h5
  obtain ⟨chunks, ⟨hl1, hl2⟩, hsame, hood⟩ := exists_moved hu (show 2 ≤ 4 by decide) (q := 0) (proof := proof)
    (show proof.degreeBits + 0 ≤ 27 by omega) hs3 hs4 alpha hz1 hz (batch := batch)
    (by show batch ≠ AdjoinRoot.root ext4Poly ^ 1; rwa [pow_one]) (hs1.trans hw.symm) (hs2.trans hw.symm) hq'
  have e1 : openingClaims proof zeta = claimsWith (babyBear ext mi m (blake3Perm hash) cfg) proof 0 zeta
    proof.quotientChunks := openingClaims_one hs3 zeta
  have e2 := openingClaims_one (proof := proof) (ext := ext) (mi := mi) (m := m) (cfg := cfg) (perm := blake3Perm hash) hl1 zeta
  rw [← e1, ← e2] at hsame
  have hc := (C82_exact (mi := mi) (m := m) (proof := { proof with quotientChunks := chunks }) (air := air') (pub := pub') hL hT hD hH ext hp hp'
    hb' hblow hmax hair' hne' hq' n).mpr
  refine (hc ⟨hb, ⟨hs1.trans hw.symm, hs2.trans hw.symm, hl1, hl2⟩, alpha, zeta, batch, fc, c', s, hn, h2, h3, ?_, ?_⟩).elim
    fun out ho => ⟨chunks, out, ho⟩
  · intro qr hqr
    obtain ⟨k1, k1', vals, k2, k3⟩ := h4 qr hqr
    refine ⟨k1, k1', vals, ?_, k3⟩
    rw [← k2]
    exact (verifyInput_same hsame (hrows _ (List.of_mem_zip (a := qr.1) (b := qr.2) hqr).2) _ _ _).symm
  · have : chunkDomains (babyBear ext mi m (blake3Perm hash) cfg).genV proof.degreeBits 0
        (babyBear ext mi m (blake3Perm hash) cfg).g = [⟨proof.degreeBits, 31⟩] := by
      simp [chunkDomains, babyBear]
    rw [this] at hood
    exact hood

end

/-! ### A run -/

/-- The coordinates of the batching challenge. -/
def batchWords (q : Nat) : Option (List BB) := do
  let r := (List.replicate q (u256ToU32 demoRoot)).map Vector.toList
  let c ← (Chal.new 16 (fromU64 0)).observeNested 16 (blake3Perm specHash) r
  let (_, c) ← c.sample 16 (blake3Perm specHash) 4
  let c ← c.observeNested 16 (blake3Perm specHash) r
  let (_, c) ← c.sample 16 (blake3Perm specHash) 4
  let (ws, _) ← c.sample 16 (blake3Perm specHash) 4
  some (ws.map fun v => (fromPf v : BB))

theorem batchWords2 : batchWords 2 = some [1715834743, 396245351, 1978337420, 831651762] := by decide +kernel

/-- The batching challenge drawn after `zeta`. -/
theorem batch_words {q : Nat} {r : Roots} {alpha zeta batch : BB4} {c1 c2 c3 chz ch1 : Chal U32}
    {x : BB × BB × BB × BB} (hr : r = List.replicate q (u256ToU32 demoRoot))
    (hx : batchWords q = some [x.1, x.2.1, x.2.2.1, x.2.2.2])
    (k1 : (bb4Chall (blake3Perm specHash)).observe (Chal.new 16 (fromU64 0)) r = some c1)
    (k2 : (bb4Chall (blake3Perm specHash)).sample c1 = some (alpha, c2))
    (k3 : (bb4Chall (blake3Perm specHash)).observe c2 r = some c3)
    (k4 : (bb4Chall (blake3Perm specHash)).sample c3 = some (zeta, chz))
    (k5 : (bb4Chall (blake3Perm specHash)).sample chz = some (batch, ch1)) : batch = of4 x := by
  subst hr
  have k1' : (Chal.new 16 (fromU64 0)).observeNested 16 (blake3Perm specHash)
    ((List.replicate q (u256ToU32 demoRoot)).map Vector.toList) = some c1 := k1
  have k3' : c2.observeNested 16 (blake3Perm specHash)
    ((List.replicate q (u256ToU32 demoRoot)).map Vector.toList) = some c3 := k3
  simp only [bb4Chall, Option.bind_eq_bind, Option.bind_eq_some_iff, Prod.exists] at k2 k4 k5
  obtain ⟨v2, d2, m2, n2⟩ := k2
  obtain ⟨v4, d4, m4, n4⟩ := k4
  obtain ⟨v5, d5, m5, n5⟩ := k5
  have n2 := (Prod.mk.inj (Option.some.inj n2)).2
  have n4 := (Prod.mk.inj (Option.some.inj n4)).2
  have n5 := (Prod.mk.inj (Option.some.inj n5)).1
  subst n2 n4
  unfold batchWords at hx
  simp only [k1', m2, k3', m4, m5, Option.bind_eq_bind, Option.bind_some] at hx
  have hx := Option.some.inj hx
  rw [← n5, hx]
  rfl

/-- The challenges of a transcript, as the verifier draws them. -/
theorem native_challenges {SI DI PI S D P IP : Type} {mi : InMmcs BB SI Roots DI PI} {m : Mmcs BB4 S Roots D P} {ext : Ext BB BB4}
    {perm : List U32 → List U32} {cfg : Config} {trace quotient : Roots} {proof : FriProof BB4 Roots P U32 IP} {c : Chal U32}
    {alpha zeta batch : BB4} {fc : FriChallenges BB4} {c' : Chal U32}
    (h : nativeTranscript perm cfg trace quotient proof c = .ok ((alpha, zeta, batch, fc), c')) :
    ∃ chz ch1, challenges (babyBear ext mi m perm cfg) c trace quotient = some (alpha, zeta, chz) ∧
      (babyBear ext mi m perm cfg).chall.sample chz = some (batch, ch1) := by
  unfold nativeTranscript at h
  simp only [Res.bind_eq_ok, Res.ofOption_eq_ok, Prod.exists] at h
  obtain ⟨c1, k1, a, c2, k2, c3, k3, z, chz, k4, b, ch1, k5, fc', c5, -, k8⟩ := h
  have k8 := Res.ok.inj k8
  cases k8
  refine ⟨chz, ch1, ?_, k5⟩
  unfold challenges
  have k1 : (babyBear ext mi m perm cfg).chall.observe _ _ = _ := k1
  have k2 : (babyBear ext mi m perm cfg).chall.sample _ = _ := k2
  have k3 : (babyBear ext mi m perm cfg).chall.observe _ _ = _ := k3
  have k4 : (babyBear ext mi m perm cfg).chall.sample _ = _ := k4
  simp only [k1, k2, k3, k4, Option.bind_eq_bind, Option.bind_some]

theorem root_of4 : AdjoinRoot.root ext4Poly = of4 (0, 1, 0, 0) := by
  simp [of4, mk4, fromBase4, Finset.sum_range_succ]

section
variable [LinearOrder U256]

/-- **C107**, a run with BLAKE3 and the parameters of the code base: from the honest proof that the second Fibonacci number
is 1, both verifiers accept a proof that it is 7, which differs in the claimed quotient values only. -/
theorem C107_violated_instance (scfg : Cfg) (h20 : ∀ x, (scfg.hash160 x).length = 20) {L : U31Lib} {T : TrackerLib}
    {drops : Nat → List Op} (hL : L.Ok scfg) (hT : T.Ok scfg)
    (hD : ∀ x : List Elem, x.length ≤ 4 → Does scfg (drops x.length) x []) (n : Nat) :
    ∃ bc proof ch', prove (fibSetup scfg bc 2) (fibAir BB) (Chal.new 16 (fromU64 0)) [[0, 1], [1, 1]] [0, 1, 1] 0 0
        (fromU64 28) = some (proof, ch') ∧
      (∃ chunks, verify (fibSetup scfg bc 2) (fibAir BB) (Chal.new 16 (fromU64 0)) { proof with quotientChunks := chunks }
        [0, 1, 7] = .ok ch') ∧
      ∃ chunks out, generateScriptVerifier scfg L T drops (fibSetup scfg bc 2).mi (fibSetup scfg bc 2).m (blake3Perm specHash)
        (demoCfg 2) (fibAir BB) (Chal.new 16 (fromU64 0)) (ChalExpr.new n).1 { proof with quotientChunks := chunks } [0, 1, 7]
        (ChalExpr.new n).2 = .ok out := by
  obtain ⟨b, c, -, -, h⟩ := Tcs.winternitz_ok scfg h20 ['b', '1', '3', '8'] (by decide) 0
  generalize winternitzBc scfg b c = bc at h
  obtain ⟨proof, ch', h1, h2, h3, h4, h5⟩ := fib_run hL hT hD h (by omega : 0 < 2) zetaWords2 zeta2_outside.1 zeta2_outside.2
    fib_native28 fib_script28 n
  have hs := h3.mpr (by decide)
  refine ⟨bc, proof, ch', h1, ?_⟩
  have hu := fibSetup_ok h (by omega : 0 < 2)
  have hdeg : getLogQuotientDegree (fibAir BB) 3 = some 0 := fibAir_degree 3 le_rfl
  obtain ⟨alpha, zeta, batch, betas, c', hn, htop⟩ := indicesOf_some fib_native28
  obtain ⟨hz, t1, t2, t3, chz, ch1, betas', chPow, chw, k1, k2, k3, k4, k5, -, -⟩ := transcript_steps
    (x := (1555898603, 1708800541, 209366584, 1310215901)) rfl zetaWords2 hn
  have hb := batch_words (x := (1715834743, 396245351, 1978337420, 831651762)) rfl batchWords2 k1 k2 k3 k4 k5
  have hbatch : batch ≠ AdjoinRoot.root ext4Poly := by
    rw [hb, root_of4]
    intro h0
    have := congrArg (fun x => x.1) (of4_inj h0)
    exact absurd this (by decide +kernel)
  obtain ⟨z1, z2⟩ := zeta_outside zeta2_outside.1 zeta2_outside.2
  rw [← hz] at z1 z2
  have z3 : zeta ^ 2 ^ 1 ≠ algebraMap BB BB4 31 ^ 2 ^ 1 := by
    intro h0
    apply z2
    have e : (2 : Nat) ^ 3 = 2 ^ 1 * 4 := by decide
    rw [e, pow_mul, pow_mul, h0]
  have htr : ([[0, 1], [1, 1]] : Pcs.Mat BB) = fibTrace 2 0 1 := by decide +kernel
  have h1' := h1
  rw [htr] at h1'
  obtain ⟨ps, hpw, hpt, hps⟩ := trace_polys hu (k := 1) (by decide : 1 ≤ 27) (fibTrace_length 2 0 1) (fibTrace_rect 2 0 1)
  have h1'' := h1'
  rw [hpt] at h1''
  obtain ⟨p1, p2, -, -⟩ := produced_top hu (by decide : 0 < 2) ((C45_least_power_of_two (fibAir BB) _ 0).1 hdeg).1
    (pub := [0, 1, 1]) hdeg (Nat.zero_le _) (k := 1) (by decide : 1 + 2 ≤ 27) hpw hps h1''
  have hn' := h4.trans hn
  obtain ⟨chz', ch1', hc, hb'⟩ := native_challenges (ext := lagrangeExt bbGen) (mi := (fibSetup scfg bc 2).mi)
    (m := (fibSetup scfg bc 2).m) hn'
  have hfull := produced_full hu (by decide : 0 < 2) (pub := [0, 1, 1]) hdeg (Nat.zero_le _) (k := 1) (by decide : 1 + 2 ≤ 27)
    (fibTrace_length 2 0 1) (fibTrace_rect 2 0 1) h1' zeta
  constructor
  · obtain ⟨chunks, h6, -⟩ := C107_violated_other_statement hu (show 2 ≤ 4 by decide) (pub := [0, 1, 1]) hdeg h2 hc hb' hfull
      (by rw [p1]; exact z3) (by show batch ≠ AdjoinRoot.root ext4Poly ^ 1; rwa [pow_one]) (air' := fibAir BB)
      (pub' := [0, 1, 7]) rfl hdeg
    exact ⟨chunks, h6⟩
  · obtain ⟨-, -, -, hs3, -⟩ := accepted_shape hdeg h2
    refine C107_violated_script hL hT hD specHash_ok hu (show 1 ≤ 4 by decide) (show 4 ≤ 31 by decide)
      (by rw [p1]; decide) (by rw [p2]; decide) (air := fibAir BB) (pub := [0, 1, 1]) (by simp [fibAir]) hdeg n hs hn' ?_
      (by rw [p1]; exact z3) hbatch rfl (by simp [fibAir]) hdeg
    intro qp hqp
    rw [show openingClaims proof zeta = claimsWith (fibSetup scfg bc 2) proof 0 zeta proof.quotientChunks from
      openingClaims_one (proof := proof) (ext := lagrangeExt bbGen) (mi := (fibSetup scfg bc 2).mi)
        (m := (fibSetup scfg bc 2).m) (perm := blake3Perm specHash) (cfg := demoCfg 2) hs3 zeta]
    exact hfull qp hqp

end

end TapStark.Stark
