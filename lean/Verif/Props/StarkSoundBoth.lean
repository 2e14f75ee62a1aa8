import Verif.Props.StarkSound

/-! # C111 for the two verifiers of the code base and the Fibonacci AIR -/

namespace TapStark.Stark

open TapStark.Fri TapStark.Pcs TapStark.FS TapStark.Tap TapStark.Tcs

section

variable {SI DI PI S D P : Type} {scfg : Cfg} {L : U31Lib} {T : TrackerLib} {drops : Nat → List Op}
  {hash : List UInt8 → U256} {mi : InMmcs BB SI Roots DI PI} {m : Mmcs BB4 S Roots D P} {cfg : Config} {air : Air BB}
  {pub : List BB} {proof : ProofOf BB BB4 Roots P U32 PI} {ext : Ext BB BB4}

/-- **C111** Every query of a proof that both verifiers accept passes in the sense of `Prover.Passes`, for every prover whose
answers to the challenges of the proof are the commitments, claims and openings in the proof. -/
theorem C111_accepted (hL : L.Ok scfg) (hT : T.Ok scfg)
    (hD : ∀ x : List Elem, x.length ≤ 4 → Does scfg (drops x.length) x []) (hH : IsBlake3 hash)
    (hp : 1 ≤ cfg.powBits) (hp' : cfg.powBits ≤ 31) (hb' : proof.degreeBits ≤ 27)
    (hblow : 1 ≤ cfg.logBlowup) (hmax : proof.openingProof.commitPhaseCommits.length + cfg.logBlowup ≤ 27)
    (hair : air.InRange pub.length) (hne : air.asserts ≠ []) (hq : getLogQuotientDegree air pub.length = some 0) (n : Nat)
    {ch' : Chal U32}
    (hv : verify (babyBear ext mi m (blake3Perm hash) cfg) air (Chal.new 16 (fromU64 0)) proof pub = .ok ch')
    (hs : ∃ out, generateScriptVerifier scfg L T drops mi m (blake3Perm hash) cfg air (Chal.new 16 (fromU64 0))
      (ChalExpr.new n).1 proof pub (ChalExpr.new n).2 = .ok out) :
    ∃ alpha zeta batch fc, nativeTranscript (blake3Perm hash) cfg proof.traceCommit proof.quotientCommit proof.openingProof
        (Chal.new 16 (fromU64 0)) = .ok ((alpha, zeta, batch, fc), ch') ∧
      fc.betas.length = proof.openingProof.commitPhaseCommits.length ∧
      ∀ pr : Prover BB BB4 Roots, pr.traceCommit = proof.traceCommit → pr.quotientCommit alpha = proof.quotientCommit →
        pr.traceLocal alpha zeta = proof.traceLocal → pr.traceNext alpha zeta = proof.traceNext →
        pr.quotientChunks alpha zeta = proof.quotientChunks →
        (pr.words alpha zeta batch).final fc.betas = proof.openingProof.finalPoly →
        ∀ qr ∈ fc.queryIndices.zip proof.openingProof.queryProofs,
          qr.2.inputProof.map Prod.fst = [[pr.traceRow (qr.1.2 / 2 ^ (fc.betas.length - proof.degreeBits))],
            [pr.quotientRow alpha 0 (qr.1.2 / 2 ^ (fc.betas.length - proof.degreeBits))]] →
          (pr.words alpha zeta batch).Opens fc.betas qr.1.2 qr.2.commitPhaseOpenings →
          pr.Passes (babyBear ext mi m (blake3Perm hash) cfg) air pub proof.degreeBits 0 alpha zeta batch fc.betas qr.1.2 := by
  obtain ⟨alpha, zeta, batch, fc, h1, hall⟩ := C110_accepted hL hT hD hH hp hp' hb' hblow hmax hair hne hq n hv hs
  obtain ⟨hshape, a, z, b, f, h2, -, hood⟩ := (verify_one (mi := mi) (m := m) hb' hq).mp hv
  have h3 := h2.symm.trans h1
  cases h3
  obtain ⟨hbe, -⟩ := nativeTranscript_shape h1
  refine ⟨alpha, zeta, batch, fc, h1, hbe, ?_⟩
  intro pr t1 t2 t3 t4 t5 t6 qr hqr hrows hopens
  obtain ⟨chunk, hch⟩ := List.length_eq_one_iff.mp hshape.2.2.1
  have hcl : pr.claims bbGen proof.degreeBits [⟨proof.degreeBits, 31⟩] alpha zeta =
      [(proof.traceCommit, [⟨pr.traceRow, ⟨proof.degreeBits, 1⟩, [(zeta, proof.traceLocal),
          (zeta * algebraMap BB BB4 (bbGen proof.degreeBits), proof.traceNext)]⟩]),
        (proof.quotientCommit, [⟨pr.quotientRow alpha 0, ⟨proof.degreeBits, 31⟩, [(zeta, chunk)]⟩])] := by
    rw [Prover.claims, t1, t2, t3, t4, t5, hch]
    rfl
  refine ⟨proof, [⟨proof.degreeBits, 31⟩], ?_, t3.symm, t4.symm, t5.symm, hshape.1, hshape.2.1, hshape.2.2.1,
    hshape.2.2.2, hood, ?_⟩
  · have := splitOne (k := proof.degreeBits) hb'
    rw [createDisjointDomain, Tcs.log2Ceil_pow] at this
    exact this
  · refine hall _ _ ?_ t6 qr hqr ?_ hopens
    · show claimedRounds (pr.claims bbGen proof.degreeBits [⟨proof.degreeBits, 31⟩] alpha zeta) = _
      rw [hcl, openingClaims, hch]
      rfl
    · show _ = claimedRows _ _ (pr.claims bbGen proof.degreeBits [⟨proof.degreeBits, 31⟩] alpha zeta) _
      rw [hcl, hrows]
      simp [claimedRows, Nat.add_sub_add_right]

end

/-! ### Wrong Fibonacci numbers -/

/-- A trace that satisfies the Fibonacci AIR is the Fibonacci trace. -/
theorem fib_rows {K : Type} [Field K] [DecidableEq K] {trace : Pcs.Mat K} {a b x : K} (h : Satisfies (fibAir K) trace [a, b, x]) :
    ∀ i < trace.length, (trace.getD i []).getD 0 0 = ((fibTrace trace.length a b).getD i []).getD 0 0 ∧
      (trace.getD i []).getD 1 0 = ((fibTrace trace.length a b).getD i []).getD 1 0 := by
  intro i
  induction i with
  | zero =>
    intro hi
    have h1 := h 0 hi (.zero (.mul .isFirstRow (.sub (.loc 0) (.pub 0)))) (by simp [fibAir])
    have h2 := h 0 hi (.zero (.mul .isFirstRow (.sub (.loc 1) (.pub 1)))) (by simp [fibAir])
    obtain ⟨n, hn⟩ : ∃ n, trace.length = n + 1 := ⟨trace.length - 1, by omega⟩
    rw [hn]
    simp only [Assertion.Holds, Assertion.sides, AExpr.value, rowMeaning, if_true, one_mul, sub_eq_zero] at h1 h2
    exact ⟨h1, h2⟩
  | succ i ih =>
    intro hi
    obtain ⟨i1, i2⟩ := ih (by omega)
    have h1 := h i (by omega) (.zero (.mul .isTransition (.sub (.loc 1) (.nxt 0)))) (by simp [fibAir])
    have h2 := h i (by omega) (.zero (.mul .isTransition (.sub (.add (.loc 0) (.loc 1)) (.nxt 1)))) (by simp [fibAir])
    simp only [Assertion.Holds, Assertion.sides, AExpr.value, rowMeaning, if_neg (show ¬ i + 1 = trace.length by omega),
      one_mul, sub_eq_zero, Nat.mod_eq_of_lt hi] at h1 h2
    obtain ⟨s1, s2⟩ := fibTrace_step trace.length a b i hi
    exact ⟨by rw [← h1, i2, s1], by rw [← h2, i1, i2, s2]⟩

theorem fib_output {K : Type} [Field K] [DecidableEq K] {trace : Pcs.Mat K} (hn : 0 < trace.length) {a b x : K}
    (h : Satisfies (fibAir K) trace [a, b, x]) :
    x = ((fibTrace trace.length a b).getD (trace.length - 1) []).getD 1 0 := by
  have h1 := h (trace.length - 1) (by omega) (.zero (.mul .isLastRow (.sub (.loc 1) (.pub 2)))) (by simp [fibAir])
  simp only [Assertion.Holds, Assertion.sides, AExpr.value, rowMeaning,
    if_pos (show trace.length - 1 + 1 = trace.length by omega), one_mul, sub_eq_zero] at h1
  rw [← (fib_rows h _ (by omega)).2]
  exact h1.symm

/-- **C111** Whatever a prover does, it makes `Q` queries of both verifiers pass for a wrong Fibonacci number for at most the
stated part of the choices of the challenges and indices. -/
theorem C111_fibonacci {SI C DI PI S D P Ch W : Type} (ext : Ext BB BB4) (mi : InMmcs BB SI C DI PI) (mm : Mmcs BB4 S C D P)
    (chall : Chall Ch C BB4 W) (cfg : Config) {k r m : Nat} (hk : 0 < k) (hk' : k ≤ 27) (hb : 0 < cfg.logBlowup)
    (hrb : r + cfg.logBlowup ≤ 27) (hm : 2 * m + 2 ^ r < 2 ^ (r + cfg.logBlowup)) (pr : Prover BB BB4 C)
    (hrow : ∀ i, (pr.traceRow i).length = 2) (hcrow : ∀ alpha i idx, (pr.quotientRow alpha i idx).length = 4)
    {a b x : BB} (hx : x ≠ ((fibTrace (2 ^ k) a b).getD (2 ^ k - 1) []).getD 1 0) (Q : Nat) :
    (Set.ncard {y : (BB4 × BB4 × BB4 × (Fin r → BB4)) × (Fin Q → Fin (2 ^ (r + cfg.logBlowup))) |
        ∀ j, pr.Passes (⟨ext, bbGen, 27, 31, mi, mm, chall, cfg, bb4Deg⟩ : Setup BB BB4 SI C DI PI S D P Ch W) (fibAir BB)
          [a, b, x] k 0 y.1.1 y.1.2.1 y.1.2.2.1 (List.ofFn y.1.2.2.2) (y.2 j)} : ℚ) /
      ((2013265921 ^ 4) ^ (r + 3) * (2 ^ (r + cfg.logBlowup)) ^ Q) ≤
      (4 + (2 * 2 ^ k + 1) + 7 * ((m / 2 ^ (r - k) : Nat) * ((m / 2 ^ (r - k) : Nat) + 2 ^ k) + 1)) / 2013265921 ^ 4 +
        (m * (m + 2 ^ r) + 3 * r + 3 * 2 ^ (r + cfg.logBlowup + 1)) / (3 * 2013265921 ^ 4) +
        (1 - (m + 1) / 2 ^ (r + cfg.logBlowup)) ^ Q := by
  have h := C111_false_statement
    (u := (⟨ext, bbGen, 27, 31, mi, mm, chall, cfg, bb4Deg⟩ : Setup BB BB4 SI C DI PI S D P Ch W)) (air := fibAir BB)
    bbGen_twoAdic (show (31 : BB) ≠ 0 by decide) fibAir_filtered (t := 1) (by
      intro a ha
      simp only [fibAir, List.mem_cons, List.not_mem_nil, or_false] at ha
      rcases ha with rfl | rfl | rfl | rfl | rfl <;> decide)
    (pub := [a, b, x]) (q := 0) (fibAir_degree _ (by simp)) hk hb (show k + 0 ≤ 27 by omega) hrb hm pr hrow hcrow (by
      intro trace hl _ hs
      refine hx ?_
      rw [← hl]
      exact fib_output (by rw [hl]; exact Nat.two_pow_pos k) hs) Q
  rw [card_bb4] at h
  have e1 : (fibAir BB).asserts.length - 1 = 4 := rfl
  have e2 : 2 * (fibAir BB).width + 2 ^ 0 * bb4Deg.D - 1 = 7 := rfl
  simp only [e1, e2] at h
  refine le_trans h (le_of_eq ?_)
  push_cast
  norm_num

/-- Eight rows, blowup 64, 28 queries: at most one choice in `10^8`. -/
theorem C111_instance {SI C DI PI S D P Ch W : Type} (ext : Ext BB BB4) (mi : InMmcs BB SI C DI PI) (mm : Mmcs BB4 S C D P)
    (chall : Chall Ch C BB4 W) (pr : Prover BB BB4 C) (hrow : ∀ i, (pr.traceRow i).length = 2)
    (hcrow : ∀ alpha i idx, (pr.quotientRow alpha i idx).length = 4) :
    (Set.ncard {y : (BB4 × BB4 × BB4 × (Fin 3 → BB4)) × (Fin 28 → Fin (2 ^ (3 + 6))) |
        ∀ j, pr.Passes (⟨ext, bbGen, 27, 31, mi, mm, chall, ⟨6, 28, 8, true⟩, bb4Deg⟩ : Setup BB BB4 SI C DI PI S D P Ch W)
          (fibAir BB) [0, 1, 22] 3 0 y.1.1 y.1.2.1 y.1.2.2.1 (List.ofFn y.1.2.2.2) (y.2 j)} : ℚ) /
      ((2013265921 ^ 4) ^ (3 + 3) * (2 ^ (3 + 6)) ^ 28) ≤ 1 / 10 ^ 8 := by
  have h := C111_fibonacci ext mi mm chall ⟨6, 28, 8, true⟩ (k := 3) (r := 3) (m := 251) (by decide) (by decide) (show 0 < 6 by decide)
    (show 3 + 6 ≤ 27 by decide) (show 2 * 251 + 2 ^ 3 < 2 ^ (3 + 6) by decide) pr hrow hcrow (a := 0) (b := 1) (x := 22)
    (by decide +kernel) 28
  refine le_trans h ?_
  norm_num

/-- The same with a proof of four folding rounds instead of three. -/
theorem C111_instance_more_rounds {SI C DI PI S D P Ch W : Type} (ext : Ext BB BB4) (mi : InMmcs BB SI C DI PI)
    (mm : Mmcs BB4 S C D P) (chall : Chall Ch C BB4 W) (pr : Prover BB BB4 C) (hrow : ∀ i, (pr.traceRow i).length = 2)
    (hcrow : ∀ alpha i idx, (pr.quotientRow alpha i idx).length = 4) :
    (Set.ncard {y : (BB4 × BB4 × BB4 × (Fin 4 → BB4)) × (Fin 28 → Fin (2 ^ (4 + 6))) |
        ∀ j, pr.Passes (⟨ext, bbGen, 27, 31, mi, mm, chall, ⟨6, 28, 8, true⟩, bb4Deg⟩ : Setup BB BB4 SI C DI PI S D P Ch W)
          (fibAir BB) [0, 1, 22] 3 0 y.1.1 y.1.2.1 y.1.2.2.1 (List.ofFn y.1.2.2.2) (y.2 j)} : ℚ) /
      ((2013265921 ^ 4) ^ (4 + 3) * (2 ^ (4 + 6)) ^ 28) ≤ 1 / 10 ^ 8 := by
  have h := C111_fibonacci ext mi mm chall ⟨6, 28, 8, true⟩ (k := 3) (r := 4) (m := 503) (by decide) (by decide)
    (show 0 < 6 by decide) (show 4 + 6 ≤ 27 by decide) (show 2 * 503 + 2 ^ 4 < 2 ^ (4 + 6) by decide) pr hrow hcrow
    (a := 0) (b := 1) (x := 22) (by decide +kernel) 28
  refine le_trans h ?_
  norm_num

/-! ### A true statement -/

/-- Commitment schemes that accept every opening. -/
def trustingIn (K : Type) : InMmcs K Unit Unit (List (Pcs.Mat K)) Unit where
  commit _ mats := some ((), mats, ())
  getMatrices d := some d
  openBatch _ i d := do
    let n ← (d.map List.length).max?
    some (d.map fun m => m.getD (i / (n / m.length)) [], ())
  verifyBatch _ _ _ _ := some true

def trustingLayer (F : Type) : Mmcs F Unit Unit (List (List F)) Unit where
  commitMatrix _ m := some ((), m, ())
  getMatrix d := some d
  openBatch _ i d := d[i]?.map fun r => ([r], ())
  verifyBatch _ _ _ _ := some true

noncomputable def trusting (cfg : Config) : Setup BB BB4 Unit Unit (List (Pcs.Mat BB)) Unit Unit (List (List BB4)) Unit Unit Unit :=
  ⟨lagrangeExt bbGen, bbGen, 27, 31, trustingIn BB, trustingLayer BB4, ⟨fun _ _ => none, fun _ => none, fun _ _ _ => none,
    fun _ _ => none⟩, cfg, bb4Deg⟩

theorem trusting_ok {cfg : Config} (hb : 1 ≤ cfg.logBlowup) : (trusting cfg).Ok where
  extWidth := lagrangeExt_width bbGen
  extCorrect := lagrangeExt_correct bbGen_twoAdic
  twoAdic := bbGen_twoAdic
  g0 := (by decide +kernel : (31 : BB) ≠ 0)
  gOut := generator_outside
  mi := by
    intro _ mats _ _ _
    refine ⟨(), mats, (), rfl, rfl, fun top htop q i _ _ => ⟨(), ?_, rfl⟩⟩
    show ((mats.map List.length).max?.bind fun n =>
      some (mats.map fun m : Pcs.Mat BB => m.getD (i / (n / m.length)) [], ())) = _
    rw [htop]
    rfl
  m := by
    intro _ h rows _ _ _ _
    refine ⟨(), rows, (), rfl, rfl, fun q i _ hi => ⟨(), ?_, rfl⟩⟩
    show rows[i]?.map _ = _
    rw [List.getElem?_eq_getElem hi]
    rfl
  blowup := hb
  bits := by intro _ _ _ _ h; cases h
  deg := bb4Deg_ok

/-- With eight rows there is a prover that passes at every index for the right Fibonacci number, for all but few `zeta`. -/
theorem C111_true_instance :
    ∃ pr : Prover BB BB4 Unit, ∀ alpha zeta : BB4, zeta ^ 2 ^ 3 ≠ 1 →
      (∀ i, algebraMap BB BB4 (queryPoint bbGen 31 (3 + 6) i) ≠ zeta ∧
          algebraMap BB BB4 (queryPoint bbGen 31 (3 + 6) i) ≠ zeta * algebraMap BB BB4 (bbGen 3)) →
        ∀ (batch : BB4) (betas : List BB4), betas.length = 3 → ∀ idx < 2 ^ (3 + 6),
          pr.Passes (trusting ⟨6, 28, 8, true⟩) (fibAir BB) [0, 1, 21] 3 0 alpha zeta batch betas idx := by
  obtain ⟨pr, ps, -, -, -, h⟩ := C111_true_statement (trusting_ok (cfg := ⟨6, 28, 8, true⟩) (by decide)) fibAir_filtered
    fibAir_transitions (pub := [0, 1, 21]) (q := 0) (fibAir_degree _ (by simp)) (k := 3) (by decide)
    (show 3 + 0 ≤ 27 by decide) (show 3 + 6 ≤ 27 by decide) (fun _ _ _ _ => rfl) () (fun _ _ _ _ => rfl) () () ()
    (fibTrace_length 8 0 1) (fibTrace_rect 8 0 1) (by
      have := fibTrace_satisfies (K := BB) 8 (by decide) 0 1
      have e : ((fibTrace 8 (0 : BB) 1).getD (8 - 1) []).getD 1 0 = 21 := by decide +kernel
      rwa [e] at this)
  exact ⟨pr, h⟩

end TapStark.Stark
