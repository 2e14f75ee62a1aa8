import Verif.Props.Malleable
import Verif.Props.BothVerifiers

/-
C121 for the script verifier, and a run for both.
-/

namespace TapStark.Pcs

open TapStark.Fri TapStark.Tap TapStark.FS TapStark.Tcs TapStark.Stark

variable {SI CI DI PI S D P : Type}

theorem openInputExpr_take {MI : InMmcs BB SI CI DI PI} {genV : Nat → BB} {g : BB} {cfg : Config} {alpha : BB4}
    {rounds : List (VerifierRound BB BB4 CI)} {ip ip' : List (List (List BB) × PI)} {r : Nat} (hr : rounds.length ≤ r)
    (h : ip.take r = ip'.take r) (top q index : Nat) (m : InputManager) (n : Nat) :
    openInputExpr MI genV g cfg alpha rounds top q index ip m n =
      openInputExpr MI genV g cfg alpha rounds top q index ip' m n := by
  unfold openInputExpr
  rw [zip_take ip rounds hr, h, ← zip_take ip' rounds hr]

theorem bfVerifyQuery_take {F C : Type} [Field F] [DecidableEq F] {B : BfField F} {M : Mmcs F S C D P} {cfg : Config} {commits : List C} {i q : Nat}
    {openings openings' : List (List (List F) × P)} {betas : List F} {ros : List (Nat × Expr)} {top : Nat} {m : InputManager}
    {n : Nat} (h : openings.take commits.length = openings'.take commits.length) :
    bfVerifyQuery B M cfg commits i q openings betas ros top m n =
      bfVerifyQuery B M cfg commits i q openings' betas ros top m n := by
  unfold bfVerifyQuery
  rw [zip_zip_take commits openings, h, ← zip_zip_take commits openings']

/-- What the script verifier of openings does not read. -/
theorem generateVerifyExpr_surplus {perm : List U32 → List U32} {genV : Nat → BB} {g : BB} {MI : InMmcs BB SI CI DI PI}
    {M : Mmcs BB4 S Roots D P} {cfg : Config} {rounds : List (VerifierRound BB BB4 CI)}
    {p p' : FriProof BB4 Roots P U32 (List (List (List BB) × PI))} (h : SameUpToSurplus rounds.length p p') (c : Chal U32)
    (e : ChalExpr) (n : Nat) :
    generateVerifyExpr perm genV g MI M cfg rounds p c e n = generateVerifyExpr perm genV g MI M cfg rounds p' c e n := by
  have hs : ∀ c e n, bfSampleChallenges perm cfg p c e n = bfSampleChallenges perm cfg p' c e n := by
    intro c e n
    unfold bfSampleChallenges
    rw [h.commits, h.witness, h.queries.length_eq]
  have hv : ∀ alpha betas (is : List (Nat × Nat)) n,
      bfVerifyChallenges bb4Field M cfg p betas (openInputExpr MI genV g cfg alpha rounds
        (p.commitPhaseCommits.length + cfg.logBlowup)) (is.zip p.queryProofs) n =
      bfVerifyChallenges bb4Field M cfg p' betas (openInputExpr MI genV g cfg alpha rounds
        (p.commitPhaseCommits.length + cfg.logBlowup)) (is.zip p'.queryProofs) n := by
    intro alpha betas is n
    have hq := h.queries
    generalize hl : p.queryProofs = l at hq
    generalize hl' : p'.queryProofs = l' at hq
    clear hl hl'
    induction hq generalizing is n with
    | nil => simp [bfVerifyChallenges]
    | cons hab _ ih =>
      cases is with
      | nil => simp [bfVerifyChallenges]
      | cons i is =>
        obtain ⟨h1, h2⟩ := hab
        rw [List.zip_cons_cons, List.zip_cons_cons, bfVerifyChallenges, bfVerifyChallenges]
        simp only [ih]
        unfold bfQueryManager
        simp only [openInputExpr_take (Nat.le_refl _) h1, bfVerifyQuery_take h2, ← h.commits, ← h.final]
  unfold generateVerifyExpr
  simp only [hs, hv, ← h.commits]

end TapStark.Pcs

namespace TapStark.Stark

open TapStark.Fri TapStark.Pcs TapStark.Tap TapStark.FS TapStark.Tcs

variable {SI DI PI S D P : Type}

/-- **C121 is violated** by the script verifier as well: it does not read the surplus either. -/
theorem C121_violated_script_surplus_ignored {scfg : Cfg} {L : U31Lib} {T : TrackerLib} {drops : Nat → List Op}
    {mi : InMmcs BB SI Roots DI PI} {m : Mmcs BB4 S Roots D P} {perm : List U32 → List U32} {cfg : Config} {air : Air BB}
    {c : Chal U32} {e : ChalExpr} {proof : ProofOf BB BB4 Roots P U32 PI}
    {fri : FriProof BB4 Roots P U32 (List (List (List BB) × PI))} (h : SameUpToSurplus 2 proof.openingProof fri)
    {pub : List BB} {n : Nat} :
    generateScriptVerifier scfg L T drops mi m perm cfg air c e { proof with openingProof := fri } pub n =
      generateScriptVerifier scfg L T drops mi m perm cfg air c e proof pub n := by
  have hP : ∀ r1 r2 c e n, generateVerifyExpr perm bbGen 31 mi m cfg [r1, r2] fri c e n =
      generateVerifyExpr perm bbGen 31 mi m cfg [r1, r2] proof.openingProof c e n :=
    fun r1 r2 c e n => (generateVerifyExpr_surplus (rounds := [r1, r2]) h c e n).symm
  unfold generateScriptVerifier scriptVerifierWith
  simp only [hP]

theorem root_ne : AdjoinRoot.root ext4Poly ≠ 0 := by
  intro h
  have h0 : of4 (0, 0, 0, 0) = 0 := by
    have base : ∀ a : BB, algebraMap BB BB4 a = of4 (a, 0, 0, 0) := mk4_base
    rw [← base, map_zero]
  rw [root_of4, ← h0] at h
  exact absurd (congrArg (fun x => x.2.1) (of4_inj h)) (by decide +kernel)

/-- C121, a run: the honest proof of the two-row Fibonacci trace with a further opening in both queries is another proof, and
both verifiers accept it; with another final value the verifier panics, and with another quotient value it does not accept. -/
theorem C121_instance [LinearOrder U256] (scfg : Cfg) (h20 : ∀ x, (scfg.hash160 x).length = 20) {L : U31Lib} {T : TrackerLib}
    {drops : Nat → List Op} (hL : L.Ok scfg) (hT : T.Ok scfg)
    (hD : ∀ x : List Elem, x.length ≤ 4 → Does scfg (drops x.length) x []) (n : Nat) :
    ∃ bc proof fri ch' out, verify (fibSetup scfg bc 2) (fibAir BB) (Chal.new 16 (fromU64 0)) proof [0, 1, 1] = .ok ch' ∧
      { proof with openingProof := fri } ≠ proof ∧
      verify (fibSetup scfg bc 2) (fibAir BB) (Chal.new 16 (fromU64 0)) { proof with openingProof := fri } [0, 1, 1] = .ok ch' ∧
      generateScriptVerifier scfg L T drops (fibSetup scfg bc 2).mi (fibSetup scfg bc 2).m (blake3Perm specHash) (demoCfg 2)
          (fibAir BB) (Chal.new 16 (fromU64 0)) (ChalExpr.new n).1 { proof with openingProof := fri } [0, 1, 1]
          (ChalExpr.new n).2 = .ok out ∧
      verify (fibSetup scfg bc 2) (fibAir BB) (Chal.new 16 (fromU64 0)) { proof with openingProof :=
        { proof.openingProof with finalPoly := proof.openingProof.finalPoly + 1 } } [0, 1, 1] = .panic ∧
      ∀ (i e : Nat) (hi : i < proof.quotientChunks.length) (he : e < proof.quotientChunks[i].length) (v : BB4),
        v ≠ proof.quotientChunks[i][e] → ∀ c, verify (fibSetup scfg bc 2) (fibAir BB) (Chal.new 16 (fromU64 0))
          { proof with quotientChunks := proof.quotientChunks.set i (proof.quotientChunks[i].set e v) } [0, 1, 1] ≠ .ok c := by
  obtain ⟨b, c, -, -, h⟩ := Tcs.winternitz_ok scfg h20 ['b', '1', '3', '8'] (by decide) 0
  generalize winternitzBc scfg b c = bc at h
  obtain ⟨proof, ch', h1, h2, h3, h4, -⟩ := fib_run hL hT hD h (by omega : 0 < 2) zetaWords2 zeta2_outside.1 zeta2_outside.2
    fib_native28 fib_script28 n
  obtain ⟨out, hs⟩ := h3.mpr (by decide)
  have hu := fibSetup_ok h (by omega : 0 < 2)
  have hdeg : getLogQuotientDegree (fibAir BB) 3 = some 0 := fibAir_degree 3 le_rfl
  have hair := ((C45_least_power_of_two (fibAir BB) _ 0).1 hdeg).1
  have htr : ([[0, 1], [1, 1]] : Pcs.Mat BB) = fibTrace 2 0 1 := by decide +kernel
  rw [htr] at h1
  obtain ⟨ps, hpw, hpt, hps⟩ := trace_polys hu (k := 1) (by decide : 1 ≤ 27) (fibTrace_length 2 0 1) (fibTrace_rect 2 0 1)
  rw [hpt] at h1
  have hlen : ∀ qp ∈ proof.openingProof.queryProofs, 2 ≤ qp.inputProof.length ∧
      proof.openingProof.commitPhaseCommits.length ≤ qp.commitPhaseOpenings.length := by
    intro qp hqp
    obtain ⟨o1, o2, e, -⟩ := produced_rows hu (by decide : 0 < 2) hair (pub := [0, 1, 1]) hdeg (Nat.zero_le _) (k := 1)
      (by decide : 1 + 2 ≤ 27) hpw hps h1 qp hqp
    exact ⟨by rw [e]; rfl, ((produced_top hu (by decide : 0 < 2) hair (pub := [0, 1, 1]) hdeg (Nat.zero_le _) (k := 1)
      (by decide : 1 + 2 ≤ 27) hpw hps h1).2.2.1 qp hqp).ge⟩
  have hq := accepted_count h2
  obtain ⟨qp, rest, hqp⟩ := List.exists_cons_of_length_pos (show 0 < proof.openingProof.queryProofs.length by
    rw [hq]; exact (by decide : 0 < 2))
  have hm := hlen qp (by rw [hqp]; exact List.mem_cons_self ..)
  obtain ⟨k1, k2⟩ := C121_violated_more_openings (show 0 < (fibSetup scfg bc 2).cfg.numQueries from (by decide : 0 < 2)) h2 hlen
    (extra := [qp.inputProof[0]]) (more := []) (by simp)
  refine ⟨bc, proof, withSurplus [qp.inputProof[0]] [] proof.openingProof, ch', out, h2, k2, k1,
    (C121_violated_script_surplus_ignored (withSurplus_same hlen)).trans hs,
    C121_final_value_partial (show 0 < (fibSetup scfg bc 2).cfg.numQueries from (by decide : 0 < 2)) h2 (by simp), ?_⟩
  obtain ⟨alpha, zeta, batch, betas, c', hn, htop⟩ := indicesOf_some fib_native28
  obtain ⟨hz, -⟩ := transcript_steps (x := (1555898603, 1708800541, 209366584, 1310215901)) rfl zetaWords2 hn
  obtain ⟨z1, z2⟩ := zeta_outside zeta2_outside.1 zeta2_outside.2
  rw [← hz] at z1 z2
  obtain ⟨chz', ch1', hc, -⟩ := native_challenges (ext := lagrangeExt bbGen) (mi := (fibSetup scfg bc 2).mi)
    (m := (fibSetup scfg bc 2).m) (h4.trans hn)
  have p1 := (produced_top hu (by decide : 0 < 2) hair (pub := [0, 1, 1]) hdeg (Nat.zero_le _) (k := 1)
      (by decide : 1 + 2 ≤ 27) hpw hps h1).1
  intro i e hi he v hv c
  refine C121_quotient_value_partial hu ?_ (pub := [0, 1, 1]) hdeg h2 ?_ hi he hv c
  · intro e _
    refine pow_ne_zero e ?_
    exact root_ne
  · intro a z c h0
    have h0 := hc.symm.trans h0
    cases h0
    rw [p1]
    intro h0
    apply z2
    have e : (2 : Nat) ^ 3 = 2 ^ (1 + 0) * 4 := by decide
    rw [e, pow_mul, pow_mul, h0]
    rfl

end TapStark.Stark
