import Verif.Props.EmptyProof
import Verif.Props.ScriptVerifierInst

/-!
C84: proofs without content and the script verifier.
-/

namespace TapStark.Stark

open TapStark.Fri TapStark.Pcs TapStark.FS TapStark.Tap TapStark.Tcs

section
variable {SI DI PI S D P : Type} {scfg : Cfg} {L : U31Lib} {T : TrackerLib} {drops : Nat → List Op}
  {hash : List UInt8 → U256} {mi : InMmcs BB SI Roots DI PI} {m : Mmcs BB4 S Roots D P} {cfg : Config} {air : Air BB}
  {pub : List BB}

/-- **C84 is violated** by the script verifier too: on a proof that opens nothing and that the native verifier accepts
(`C84_violated_empty_proof` shows that there is one for every statement) it succeeds exactly when the degree has a bit and an
even number of query indices differ from those of its script, which is also all that decides on honest proofs (C82).  Nothing is asked of the
trace. -/
theorem C84_violated_script (hL : L.Ok scfg) (hT : T.Ok scfg)
    (hD : ∀ x : List Elem, x.length ≤ 4 → Does scfg (drops x.length) x []) (hH : IsBlake3 hash) {ext : Ext BB BB4}
    (hp : 1 ≤ cfg.powBits) (hp' : cfg.powBits ≤ 31) (hblow : 1 ≤ cfg.logBlowup) (hmax : cfg.logBlowup ≤ 27) {k : Nat}
    (hk' : k ≤ 27) (hair : air.InRange pub.length) (hne : air.asserts ≠ [])
    (hq : getLogQuotientDegree air pub.length = some 0) {c1 c2 : Roots} (hr1 : c1 ≠ []) (hr2 : c2 ≠ [])
    {traceLocal traceNext : List BB4} {chunks : List (List BB4)} {w : U32} {ch' : Chal U32} {sc : ScriptChallenges}
    (hv : verify (babyBear ext mi m (blake3Perm hash) cfg) air (Chal.new 16 (fromU64 0))
      ⟨c1, c2, traceLocal, traceNext, chunks, emptyOpening cfg.numQueries w, k⟩ pub = .ok ch')
    {alpha zeta batch : BB4} {fc : FriChallenges BB4}
    (hn : nativeTranscript (blake3Perm hash) cfg c1 c2
      (emptyOpening cfg.numQueries w : FriProof BB4 Roots P U32 (List (List (List BB) × PI))) (Chal.new 16 (fromU64 0)) =
        .ok ((alpha, zeta, batch, fc), ch')) (hw : NoTop ch'.samples)
    (hs : scriptTranscript (blake3Perm hash) cfg c1 c2
      (emptyOpening cfg.numQueries w : FriProof BB4 Roots P U32 (List (List (List BB) × PI))) (Chal.new 16 (fromU64 0)) =
        some sc) (n : Nat) :
    (∃ out, generateScriptVerifier scfg L T drops mi m (blake3Perm hash) cfg air (Chal.new 16 (fromU64 0)) (ChalExpr.new n).1
        ⟨c1, c2, traceLocal, traceNext, chunks, emptyOpening cfg.numQueries w, k⟩ pub (ChalExpr.new n).2 = .ok out) ↔
      1 ≤ k ∧ differing sc.indices fc.queryIndices % 2 = 0 := by
  rw [C82_native_partial (proof := ⟨c1, c2, traceLocal, traceNext, chunks, emptyOpening cfg.numQueries w, k⟩) hL hT hD hH hp
    hp' hk' hblow (by simpa [emptyOpening] using hmax) (by
      intro qp hqp
      rw [List.eq_of_mem_replicate hqp]
      rfl) hair hne hq hv hn (by
      intro qr hqr vals _ o ho
      rw [List.eq_of_mem_replicate (List.of_mem_zip (a := qr.1) (b := qr.2) hqr).2] at ho
      cases ho) n]
  obtain ⟨k1, k2⟩ := transcripts_agree hp' hr1 hr2 (by intro r hr; cases hr) hn hs
  refine and_congr_right fun _ => ⟨?_, ?_⟩
  · rintro ⟨s, h1, h2⟩
    obtain rfl := Option.some.inj (hs.symm.trans h1)
    simpa [k1] using h2.2.2.2
  · intro h
    obtain ⟨a1, a2, a3⟩ := k2 hw
    exact ⟨sc, hs, a1, a2, a3, by simpa [k1] using h⟩

end

/-! ### A run -/

/-- The transcript part of an empty proof. -/
noncomputable def emptyFri (q w : Nat) : FriProof BB4 Roots Unit U32 (List (List (List BB) × Unit)) :=
  emptyOpening q (fromU64 w)

theorem empty_native : indicesOf (nativeTranscript (blake3Perm specHash) (demoCfg 2) (List.replicate 2 (u256ToU32 demoRoot))
    (List.replicate 2 (u256ToU32 demoRoot)) (emptyFri 2 20) (Chal.new 16 (fromU64 0))) = some ([(0, 0), (1, 0)], true) := by
  decide +kernel

theorem empty_script : (scriptTranscript (blake3Perm specHash) (demoCfg 2) (List.replicate 2 (u256ToU32 demoRoot))
    (List.replicate 2 (u256ToU32 demoRoot)) (emptyFri 2 20) (Chal.new 16 (fromU64 0))).map (·.indices) =
      some [(0, 0), (1, 0)] := by decide +kernel

/-- The steps of a transcript. -/
theorem transcript_steps' {q : Nat} {r : Roots} {alpha zeta batch : BB4} {fc : FriChallenges BB4} {c' : Chal U32}
    {P IP : Type} {p : FriProof BB4 Roots P U32 IP}
    {x : BB × BB × BB × BB} (hr : r = List.replicate q (u256ToU32 demoRoot))
    (hx : zetaWords q = some [x.1, x.2.1, x.2.2.1, x.2.2.2])
    (h : nativeTranscript (blake3Perm specHash) (demoCfg q) r r p (Chal.new 16 (fromU64 0)) =
      .ok ((alpha, zeta, batch, fc), c')) :
    zeta = of4 x ∧ ∃ c1 c2 c3 chz ch1 betas chPow chw,
      (bb4Chall (blake3Perm specHash)).observe (Chal.new 16 (fromU64 0)) r = some c1 ∧
      (bb4Chall (blake3Perm specHash)).sample c1 = some (alpha, c2) ∧
      (bb4Chall (blake3Perm specHash)).observe c2 r = some c3 ∧
      (bb4Chall (blake3Perm specHash)).sample c3 = some (zeta, chz) ∧
      (bb4Chall (blake3Perm specHash)).sample chz = some (batch, ch1) ∧
      sampleBetas (bb4Chall (blake3Perm specHash)) p.commitPhaseCommits ch1 = some (betas, chPow) ∧
      (bb4Chall (blake3Perm specHash)).checkWitness chPow 4 p.powWitness = some (true, chw) := by
  subst hr
  unfold nativeTranscript verifyShapeAndSampleChallenges at h
  simp only [Res.bind_eq_ok, Res.ofOption_eq_ok, Prod.exists] at h
  obtain ⟨c1, k1, a, c2, k2, c3, k3, z, chz, k4, b, ch1, k5, fc', c5, ⟨betas, chPow, k6, k7⟩, k8⟩ := h
  have k8 := Res.ok.inj k8
  cases k8
  have hz : zeta = of4 x := by
    have k4' := k4
    have k2' := k2
    have k1' : (Chal.new 16 (fromU64 0)).observeNested 16 (blake3Perm specHash)
      ((List.replicate q (u256ToU32 demoRoot)).map Vector.toList) = some c1 := k1
    have k3' : c2.observeNested 16 (blake3Perm specHash)
      ((List.replicate q (u256ToU32 demoRoot)).map Vector.toList) = some c3 := k3
    simp only [bb4Chall, Option.bind_eq_bind, Option.bind_eq_some_iff, Prod.exists] at k2' k4'
    obtain ⟨v2, d2, m2, n2⟩ := k2'
    obtain ⟨v4, d4, m4, n4⟩ := k4'
    have n2 := (Prod.mk.inj (Option.some.inj n2)).2
    have n4 := (Prod.mk.inj (Option.some.inj n4)).1
    subst n2
    unfold zetaWords at hx
    simp only [k1', m2, k3', m4, Option.bind_eq_bind, Option.bind_some] at hx
    have hx := Option.some.inj hx
    rw [← n4, hx]
    rfl
  split at k7
  · cases k7
  simp only [Res.bind_eq_ok, Res.ofOption_eq_ok, Prod.exists] at k7
  obtain ⟨acc, chw, k9, k10⟩ := k7
  split at k10
  · cases k10
  rename_i hacc
  simp only [Bool.not_eq_true, Bool.not_eq_false'] at hacc
  subst hacc
  exact ⟨hz, c1, c2, c3, chz, ch1, betas, chPow, chw, k1, k2, k3, k4, k5, k6, k9⟩

theorem zeta_outside4 {x : BB × BB × BB × BB} (h1 : sq4 (sq4 x) ≠ (1, 0, 0, 0)) (h2 : sq4 (sq4 x) ≠ (31 ^ 4, 0, 0, 0)) :
    of4 x ^ 2 ^ 2 ≠ 1 ∧ of4 x ^ 2 ^ (2 + 0) ≠ algebraMap BB BB4 31 ^ 2 ^ (2 + 0) := by
  have base : ∀ a : BB, algebraMap BB BB4 a = of4 (a, 0, 0, 0) := mk4_base
  constructor
  · intro h
    apply h1
    apply of4_inj
    rw [← of4_sq, ← of4_sq, ← base, map_one, ← pow_mul]
    exact h
  · intro h
    apply h2
    apply of4_inj
    rw [← of4_sq, ← of4_sq, ← base, map_pow, ← pow_mul]
    exact h

section
variable [LinearOrder U256]

theorem empty_run (scfg : Cfg) (h20 : ∀ x, (scfg.hash160 x).length = 20) {k : Nat} (hk : k ≤ 2) :
    ∃ bc chunks ch', verify (fibSetup scfg bc 2) (fibAir BB) (Chal.new 16 (fromU64 0)) ⟨List.replicate 2 (u256ToU32 demoRoot),
        List.replicate 2 (u256ToU32 demoRoot), [8, 9], [10, 11], chunks, emptyOpening 2 (fromU64 20), k⟩ [0, 1, 7] = .ok ch' := by
  obtain ⟨b, c, -, -, h⟩ := Tcs.winternitz_ok scfg h20 ['b', '1', '3', '8'] (by decide) 0
  generalize winternitzBc scfg b c = bc at h
  refine ⟨bc, ?_⟩
  have hu := fibSetup_ok h (by omega : 0 < 2)
  have hp := fun s (_ : s.length = 16) => blake3Perm_length specHash s
  have hdeg : getLogQuotientDegree (fibAir BB) 3 = some 0 := fibAir_degree 3 le_rfl
  have hch : GoodChal (blake3Perm specHash) (Chal.new 16 (fromU64 0)) := ⟨_, _, inv_new (by omega)⟩
  obtain ⟨alpha, zeta, batch, betas, c', hn, htop⟩ := indicesOf_some empty_native
  obtain ⟨hz, t1, t2, t3, chz, ch1, betas', chPow, chw, k1, k2, k3, k4, k5, k6, k7⟩ := transcript_steps'
    (x := (1555898603, 1708800541, 209366584, 1310215901)) rfl zetaWords2 hn
  have k6 := Option.some.inj k6
  cases k6
  obtain ⟨z1, z2⟩ := zeta_outside4 (x := (1555898603, 1708800541, 209366584, 1310215901)) (by decide +kernel)
    (by decide +kernel)
  rw [← hz] at z1 z2
  have hpow : 2 ^ 2 = 2 ^ k * 2 ^ (2 - k) := by rw [← pow_add, Nat.add_sub_cancel' hk]
  have z1 : zeta ^ 2 ^ k ≠ 1 := fun h => z1 (by rw [hpow, pow_mul, h, one_pow])
  have z2 : zeta ^ 2 ^ k ≠ algebraMap BB BB4 31 ^ 2 ^ k := fun h => z2 (by rw [hpow, pow_mul, h, ← pow_mul])
  obtain ⟨a, z, cz, e1, e2⟩ := C84_violated_empty_proof hu (bb4Chall_total _ hp) (air := fibAir BB)
    (pub := [0, 1, 7]) (k := k) hdeg (show k + 0 ≤ 27 by omega) (by decide : 2 ≤ 27) hch
    (List.replicate 2 (u256ToU32 demoRoot)) (List.replicate 2 (u256ToU32 demoRoot))
    (traceLocal := [8, 9]) (traceNext := [10, 11]) rfl rfl
  have e3 : challenges (fibSetup scfg bc 2) (Chal.new 16 (fromU64 0)) (List.replicate 2 (u256ToU32 demoRoot))
      (List.replicate 2 (u256ToU32 demoRoot)) = some (alpha, zeta, chz) := by
    unfold challenges
    have k1 : (fibSetup scfg bc 2).chall.observe _ _ = _ := k1
    have k2 : (fibSetup scfg bc 2).chall.sample _ = _ := k2
    have k3 : (fibSetup scfg bc 2).chall.observe _ _ = _ := k3
    have k4 : (fibSetup scfg bc 2).chall.sample _ = _ := k4
    simp only [k1, k2, k3, k4, Option.bind_eq_bind, Option.bind_some]
  have e5 := Option.some.inj (e1.symm.trans e3)
  cases e5
  obtain ⟨b', cp, e6, -, e7⟩ := e2 z1 z2
  have e8 := Option.some.inj (e6.symm.trans k5)
  cases e8
  exact e7 _ _ k7

/-- **C84**, a run with BLAKE3 and the parameters of the code base: both verifiers accept a proof made from nothing that
the fourth Fibonacci number is 7, which no trace shows (`fib_seven`). -/
theorem C84_violated_script_instance (scfg : Cfg) (h20 : ∀ x, (scfg.hash160 x).length = 20) {L : U31Lib} {T : TrackerLib}
    {drops : Nat → List Op} (hL : L.Ok scfg) (hT : T.Ok scfg)
    (hD : ∀ x : List Elem, x.length ≤ 4 → Does scfg (drops x.length) x []) (n : Nat) :
    ∃ bc chunks ch' out,
      let proof : ProofOf BB BB4 Roots _ U32 _ := ⟨List.replicate 2 (u256ToU32 demoRoot),
        List.replicate 2 (u256ToU32 demoRoot), [8, 9], [10, 11], chunks, emptyOpening 2 (fromU64 20), 2⟩
      verify (fibSetup scfg bc 2) (fibAir BB) (Chal.new 16 (fromU64 0)) proof [0, 1, 7] = .ok ch' ∧
      generateScriptVerifier scfg L T drops (fibSetup scfg bc 2).mi (fibSetup scfg bc 2).m (blake3Perm specHash) (demoCfg 2)
          (fibAir BB) (Chal.new 16 (fromU64 0)) (ChalExpr.new n).1 proof [0, 1, 7] (ChalExpr.new n).2 = .ok out := by
  obtain ⟨bc, chunks, ch', e9⟩ := empty_run scfg h20 (Nat.le_refl 2)
  refine ⟨bc, ?_⟩
  have hdeg : getLogQuotientDegree (fibAir BB) 3 = some 0 := fibAir_degree 3 le_rfl
  obtain ⟨alpha, zeta, batch, betas, c', hn, htop⟩ := indicesOf_some empty_native
  have hn' : ∀ P PI : Type, nativeTranscript (blake3Perm specHash) (demoCfg 2) (List.replicate 2 (u256ToU32 demoRoot))
      (List.replicate 2 (u256ToU32 demoRoot)) (emptyOpening 2 (fromU64 20) : FriProof BB4 Roots P U32 (List (List (List BB) × PI)))
      (Chal.new 16 (fromU64 0)) = .ok ((alpha, zeta, batch, ⟨[(0, 0), (1, 0)], betas⟩), c') := by
    intro P PI
    rw [← hn]
    exact nativeTranscript_congr rfl (by simp [emptyOpening, emptyFri]) rfl
  obtain ⟨sc, hsc, hidx⟩ := Option.map_eq_some_iff.1 empty_script
  have hsc' : ∀ P PI : Type, scriptTranscript (blake3Perm specHash) (demoCfg 2) (List.replicate 2 (u256ToU32 demoRoot))
      (List.replicate 2 (u256ToU32 demoRoot)) (emptyOpening 2 (fromU64 20) : FriProof BB4 Roots P U32 (List (List (List BB) × PI)))
      (Chal.new 16 (fromU64 0)) = some sc := by
    intro P PI
    rw [← hsc]
    exact scriptTranscript_congr rfl rfl
  have e9' := e9
  obtain ⟨-, a', z', b', fc', m1, -, -⟩ := (verify_one (ext := lagrangeExt bbGen) (mi := (fibSetup scfg bc 2).mi)
    (m := (fibSetup scfg bc 2).m) (cfg := demoCfg 2) (air := fibAir BB) (pub := [0, 1, 7])
    (show (2 : Nat) ≤ 27 by decide) hdeg).mp e9'
  have m2 := m1.symm.trans (hn' _ _)
  cases m2
  have hair := ((C45_least_power_of_two (fibAir BB) _ 0).1 hdeg).1
  have hne : List.replicate 2 (u256ToU32 demoRoot) ≠ [] := by simp
  obtain ⟨out, ho⟩ := (C84_violated_script hL hT hD specHash_ok (ext := lagrangeExt bbGen) (mi := (fibSetup scfg bc 2).mi)
    (m := (fibSetup scfg bc 2).m) (cfg := demoCfg 2) (show 1 ≤ 4 by decide) (show 4 ≤ 31 by decide) (show 1 ≤ 2 by decide)
    (show 2 ≤ 27 by decide) (k := 2) (by decide) (air := fibAir BB) (pub := [0, 1, 7]) hair (by simp [fibAir])
    hdeg hne hne e9 (hn' _ _) htop (hsc' _ _) n).mpr ⟨by decide, by rw [hidx]; show differing [(0, 0), (1, 0)] [(0, 0), (1, 0)] % 2 = 0; decide⟩
  exact ⟨chunks, _, out, e9, ho⟩

/-- **C82**, the same run with one row: the native verifier accepts the proof made from nothing, and the script verifier
fails on it, because the degree has no bits. -/
theorem C82_violated_zero_bits_instance (scfg : Cfg) (h20 : ∀ x, (scfg.hash160 x).length = 20) {L : U31Lib} {T : TrackerLib}
    {drops : Nat → List Op} (hL : L.Ok scfg) (hT : T.Ok scfg) :
    ∃ bc chunks ch',
      let proof : ProofOf BB BB4 Roots _ U32 _ := ⟨List.replicate 2 (u256ToU32 demoRoot),
        List.replicate 2 (u256ToU32 demoRoot), [8, 9], [10, 11], chunks, emptyOpening 2 (fromU64 20), 0⟩
      verify (fibSetup scfg bc 2) (fibAir BB) (Chal.new 16 (fromU64 0)) proof [0, 1, 7] = .ok ch' ∧
      ∀ n out, generateScriptVerifier scfg L T drops (fibSetup scfg bc 2).mi (fibSetup scfg bc 2).m (blake3Perm specHash)
          (demoCfg 2) (fibAir BB) (Chal.new 16 (fromU64 0)) (ChalExpr.new n).1 proof [0, 1, 7] (ChalExpr.new n).2 ≠ .ok out := by
  obtain ⟨bc, chunks, ch', e9⟩ := empty_run scfg h20 (Nat.zero_le 2)
  exact ⟨bc, chunks, ch', e9, C82_violated_zero_bits hL hT specHash_ok (show 1 ≤ 4 by decide) (show 4 ≤ 31 by decide)
    (show 1 ≤ 2 by decide) (show 0 + 2 ≤ 31 by decide) rfl⟩

example (scfg : Cfg) (h20 : ∀ x, (scfg.hash160 x).length = 20) :=
  C82_violated_zero_bits_instance scfg h20 (drops := fun k => List.replicate k Op.drop) (repoLib_ok scfg) (refTracker_ok scfg)

end

end TapStark.Stark
