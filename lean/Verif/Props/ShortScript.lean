import Verif.Props.BothVerifiers

/-!
C39 for the script verifier: queries with fewer openings than commitments.
-/

namespace TapStark.Fri

section
variable {F : Type} [Field F] [DecidableEq F] {S C D P W IP : Type}
variable {B : BfField F} {M : Mmcs F S C D P} {cfg : Config}

/-- **C39 is violated** by the script verifier as well: rounds beyond the openings of a query are never looked at.  The
script of the query is the same for any other commitments and challenges from there on. -/
theorem C39_violated_script_truncation (commits commits' : List C) (idx q : Nat) (openings : List (List (List F) × P))
    (betas betas' : List F) (ros : List (Nat × Expr)) (top : Nat) (m : InputManager) (n : Nat)
    (hc : commits.take openings.length = commits'.take openings.length)
    (hb : betas.take openings.length = betas'.take openings.length) :
    bfVerifyQuery B M cfg commits idx q openings betas ros top m n =
      bfVerifyQuery B M cfg commits' idx q openings betas' ros top m n := by
  have key : ∀ (os : List (List (List F) × P)) (c c' : List C) (b b' : List F),
      c.take os.length = c'.take os.length → b.take os.length = b'.take os.length →
      c.zip (os.zip b) = c'.zip (os.zip b') := by
    intro os
    induction os with
    | nil => intros; simp
    | cons o os ih =>
      intro c c' b b' h1 h2
      rcases c with _ | ⟨x, c⟩ <;> rcases c' with _ | ⟨x', c'⟩ <;> rcases b with _ | ⟨y, b⟩ <;>
        rcases b' with _ | ⟨y', b'⟩ <;> simp_all
      exact ih c c' b b' h1.2 h2.2
  unfold bfVerifyQuery
  rw [key openings commits commits' betas betas' hc hb]

theorem queryManager_of {proof : FriProof F C P W IP} {betas : List F}
    {openInput : Nat → Nat → IP → InputManager → Nat → Res (List (Nat × Expr) × InputManager × Nat)}
    {q idx n : Nat} {qp : QueryProof F P IP} {ros : List (Nat × Expr) × InputManager × Nat}
    (h1 : openInput q idx qp.inputProof .new n = .ok ros)
    (h2 : ∃ out, bfVerifyQuery B M cfg proof.commitPhaseCommits idx q qp.commitPhaseOpenings betas ros.1
      (proof.commitPhaseCommits.length + cfg.logBlowup) ros.2.1 ros.2.2 = .ok out) :
    ∃ m n', bfQueryManager B M cfg proof betas openInput q idx qp n = .ok (m, n') := by
  obtain ⟨out, h2⟩ := h2
  rw [bfQueryManager]
  simp only [h1, Res.bind_ok, h2]
  exact ⟨_, _, rfl⟩

theorem queryLoop_index {gen : Nat → F} {q logMax : Nat} : ∀ (rounds : List (Nat × C × (List (List F) × P) × F)) (idx : Nat)
    (fe : F) (ros : List (Nat × F)) (v : F) (idx' : Nat), queryLoop gen M q logMax rounds idx fe ros = .ok (v, idx') →
    idx' = idx / 2 ^ rounds.length := by
  intro rounds
  induction rounds with
  | nil =>
    intro idx fe ros v idx' h
    simp only [queryLoop] at h
    cases h
    simp
  | cons r rounds ih =>
    obtain ⟨lh, c, step, β⟩ := r
    intro idx fe ros v idx' h
    simp only [queryLoop] at h
    split at h
    · simp only [Res.bind_eq_ok] at h
      obtain ⟨row, -, e, -, h⟩ := h
      split at h
      · cases h
      · simp only [Res.bind_eq_ok] at h
        obtain ⟨acc, -, h⟩ := h
        split at h
        · simp only [Res.bind_eq_ok] at h
          obtain ⟨fe', -, h⟩ := h
          rw [ih _ _ _ _ _ h, List.length_cons, Nat.pow_succ', Nat.div_div_eq_div_mul]
        · cases h
    · cases h

/-- **C39**, what the native verifier keeps of it: in an accepted proof a query that has no opening to compare goes with the
final value zero, and where debug assertions are on the openings reach down to the blow-up for the index of the query. -/
theorem C39_native_partial {gen : Nat → F} {proof : FriProof F C P W IP} {challenges : FriChallenges F}
    {openInput : Nat → Nat → IP → Res (List (Nat × F))}
    (hb : challenges.betas.length = proof.commitPhaseCommits.length)
    (h : verifyChallenges gen M cfg proof challenges openInput = .ok ()) (k q idx : Nat) (qp : QueryProof F P IP)
    (h1 : challenges.queryIndices[k]? = some (q, idx)) (h2 : proof.queryProofs[k]? = some qp) :
    (proof.finalPoly ≠ 0 → proof.commitPhaseCommits ≠ [] ∧ qp.commitPhaseOpenings ≠ []) ∧
    (cfg.debug = true →
      idx < 2 ^ (min qp.commitPhaseOpenings.length proof.commitPhaseCommits.length + cfg.logBlowup)) := by
  obtain ⟨ros, -, hv⟩ := C40_accepted_proof h k q idx qp h1 h2
  unfold verifyQuery at hv
  simp only [Res.bind_eq_ok] at hv
  obtain ⟨⟨fe, idx'⟩, hl, hv⟩ := hv
  have hi := queryLoop_index _ _ _ _ _ _ hl
  constructor
  · intro hf
    constructor <;> intro e <;> refine hf ?_ <;> rw [e] at hl <;>
      simp only [List.zip_nil_left, List.zip_nil_right, queryLoop] at hl <;> cases hl <;> split at hv <;>
      first | exact (Res.ok.inj hv).symm | cases hv
  · intro hd
    split at hv
    · cases hv
    · next hn =>
      have hlt : idx' < 2 ^ cfg.logBlowup := by
        by_contra hc
        exact hn ⟨hd, hc⟩
      rw [hi, Nat.div_lt_iff_lt_mul (Nat.pos_of_ne_zero (by simp))] at hlt
      refine lt_of_lt_of_le hlt ?_
      rw [← Nat.pow_add]
      refine Nat.pow_le_pow_right (by decide) ?_
      simp only [List.length_zip, List.length_reverse, List.length_range, hb]
      omega

end

/-- Two commitments, one opening: a script is generated, and it accepts when the first round alone gives the final value. -/
theorem C39_script_instance {scfg : Cfg} {L : U31Lib} {T : TrackerLib} (hL : L.Ok scfg) (hT : T.Ok scfg)
    (β β' w r s₀ s₁ : BB) :
    ∃ m n m' n', bfQueryManager bbField anyMmcs ⟨1, 1, 0, false⟩ (twoRounds w) [β, β'] openAll 0 5
        ⟨[(3, r)], [([[s₀, s₁]], ())]⟩ 0 = .ok (m, n) ∧ m.embedHintVerify n = some (m', n') ∧
      (m'.run scfg L T = some () ↔ lineAt (bbGen 3 ^ 5) β r s₀ = w) := by
  obtain ⟨m, n, hm⟩ := queryManager_of (B := bbField) (M := anyMmcs) (cfg := ⟨1, 1, 0, false⟩) (proof := twoRounds w)
    (betas := [β, β']) (openInput := openAll) (q := 0) (idx := 5) (n := 0) (qp := ⟨[(3, r)], [([[s₀, s₁]], ())]⟩)
    (ros := openList bbField [(3, r)] .new 0) rfl
    ((Stark.verifyQuery_iff (M := anyMmcs) (q := 0) (idx := 5) (cfg := ⟨1, 1, 0, false⟩)
      (commits := (twoRounds w).commitPhaseCommits) (openings := [([[s₀, s₁]], ())]) (betas := [β, β']) bbField_ok
      (by simp [twoRounds]) (by simp [twoRounds]) rfl _ _ _).mpr ⟨⟨⟨_, rfl, rfl, by simp⟩, trivial⟩, by simp⟩)
  obtain ⟨m', n', h1, h2⟩ := C43_query_accepts (M := anyMmcs) hL hT bbField_ok (cfg := ⟨1, 1, 0, false⟩)
    (proof := twoRounds w) (betas := [β, β']) (openInput := openAll) (q := 0) (idx := 5) (n := 0)
    (qp := ⟨[(3, r)], [([[s₀, s₁]], ())]⟩) (vals := [(3, r)])
    (ros := (openList bbField [(3, r)] .new 0).1)
    (m0 := (openList bbField [(3, r)] .new 0).2.1)
    (n0 := (openList bbField [(3, r)] .new 0).2.2)
    (by decide) (by simp [twoRounds]) (by simp [twoRounds]) rfl rfl (openList_opensTo bbField_ok _ 0)
    (by simp [RosOk, twoRounds]) (by simp [twoRounds]) hm n (Nat.le_refl _)
  refine ⟨m, n, m', n', hm, h1, h2.trans ?_⟩
  rw [show bbField.gen = bbGen from rfl, show revBits ((twoRounds w).commitPhaseCommits.length + 1) 5 = 5 from rfl]
  simp [twoRounds, siblings, foldChain, roAt]

/-- Debug assertions, two commitments, one opening, final value 6: accepted at the index 3, and the theorem gives that 3 is
below four; at the index 5 the same query is a panic. -/
theorem C39_native_instance :
    let M : Mmcs ℚ Unit Unit Unit Unit := ⟨fun _ _ => none, fun _ => none, fun _ _ _ => none, fun _ _ _ _ => some true⟩
    let proof : FriProof ℚ Unit Unit Unit Unit := ⟨[(), ()], [⟨(), [([[5, 7]], ())]⟩], 6, ()⟩
    verifyChallenges (fun _ => -1) M ⟨1, 1, 0, true⟩ proof ⟨[(0, 3)], [0, 0]⟩ (fun _ _ _ => .ok []) = .ok () ∧
    (proof.finalPoly ≠ 0 ∧ 3 < 2 ^ (min 1 2 + 1)) ∧
    verifyChallenges (fun _ => -1) M ⟨1, 1, 0, true⟩ proof ⟨[(0, 5)], [0, 0]⟩ (fun _ _ _ => .ok []) = .panic := by
  intro M proof
  have h : verifyChallenges (fun _ => -1) M ⟨1, 1, 0, true⟩ proof ⟨[(0, 3)], [0, 0]⟩ (fun _ _ _ => .ok []) = .ok () := by
    decide +kernel
  exact ⟨h, ⟨by decide +kernel, (C39_native_partial (M := M) rfl h 0 0 3 _ rfl rfl).2 rfl⟩, by decide +kernel⟩

end TapStark.Fri

namespace TapStark.Pcs

open TapStark.Fri TapStark.FS TapStark.Stark

variable {SI CI DI PI : Type} {K F : Type} [Field K] [Field F] [Algebra K F] [DecidableEq F]

theorem matLoop_keeps {genV : Nat → K} {g : K} {cfg : Config} {alpha : F} {top i h : Nat} :
    ∀ {mats : List (List K × Dom K × List (F × List F))} {st st' : VerifyState F},
    matLoop genV g cfg alpha top i mats st = some st' → st h ≠ none → st' h ≠ none
  | [], st, st', e, hs => by cases e; exact hs
  | (opening, dom, pts) :: rest, st, st', e, hs => by
    rw [matLoop] at e
    simp only [Option.bind_eq_bind, Option.bind_eq_some_iff] at e
    obtain ⟨k, -, e⟩ := e
    split at e
    swap
    · cases e
    simp only [Option.bind_eq_some_iff] at e
    obtain ⟨r, -, e⟩ := e
    refine matLoop_keeps e ?_
    by_cases hh : h = k + cfg.logBlowup
    · rw [hh, Function.update_self]; simp
    · rw [Function.update_of_ne hh]; exact hs

theorem roundLoop_keeps {MI : InMmcs K SI CI DI PI} {genV : Nat → K} {g : K} {cfg : Config} {alpha : F} {top q i h : Nat} :
    ∀ {rounds : List ((List (List K) × PI) × VerifierRound K F CI)} {st st' : VerifyState F},
    roundLoop MI genV g cfg alpha top q i rounds st = .ok st' → st h ≠ none → st' h ≠ none
  | [], st, st', e, hs => by cases e; exact hs
  | (opening, commit, mats) :: rest, st, st', e, hs => by
    rw [roundLoop, Res.bind_eq_ok] at e
    obtain ⟨mx, -, e⟩ := e
    rw [Res.bind_eq_ok] at e
    obtain ⟨lm, -, e⟩ := e
    split at e
    swap
    · cases e
    rw [Res.bind_eq_ok] at e
    obtain ⟨acc, -, e⟩ := e
    split at e
    swap
    · cases e
    rw [Res.bind_eq_ok] at e
    obtain ⟨st1, e1, e⟩ := e
    rw [Res.ofOption_eq_ok] at e1
    exact roundLoop_keeps e (matLoop_keeps e1 hs)

/-- Where a row of the first matrix is opened, there is a reduced opening. -/
theorem verifyInput_ne {MI : InMmcs K SI CI DI PI} {genV : Nat → K} {g : K} {cfg : Config} {alpha : F} {commit : CI}
    {mat : Dom K × List (F × List F)} {mats : List (Dom K × List (F × List F))} {rounds : List (VerifierRound K F CI)}
    {top q i : Nat} {o : List (List K) × PI} (hrow : o.1 ≠ []) {ip : List (List (List K) × PI)} {vals : List (Nat × F)}
    (h : verifyInput MI genV g cfg alpha ((commit, mat :: mats) :: rounds) top q i (o :: ip) = .ok vals) : vals ≠ [] := by
  obtain ⟨rows, π⟩ := o
  obtain ⟨row, rows, rfl⟩ := List.exists_cons_of_ne_nil hrow
  obtain ⟨dom, pts⟩ := mat
  rw [verifyInput, Res.bind_eq_ok] at h
  obtain ⟨st, h, h1⟩ := h
  rw [List.zip_cons_cons, roundLoop, Res.bind_eq_ok] at h
  obtain ⟨mx, -, h⟩ := h
  rw [Res.bind_eq_ok] at h
  obtain ⟨lm, -, h⟩ := h
  split at h
  swap
  · cases h
  rw [Res.bind_eq_ok] at h
  obtain ⟨acc, -, h⟩ := h
  split at h
  swap
  · cases h
  rw [Res.bind_eq_ok] at h
  obtain ⟨st2, h2, h⟩ := h
  rw [Res.ofOption_eq_ok, List.zip_cons_cons, matLoop] at h2
  simp only [Option.bind_eq_bind, Option.bind_eq_some_iff] at h2
  obtain ⟨k, -, h2⟩ := h2
  split at h2
  swap
  · cases h2
  rename_i hk
  simp only [Option.bind_eq_some_iff] at h2
  obtain ⟨r, -, h2⟩ := h2
  have := roundLoop_keeps h (matLoop_keeps (h := k + cfg.logBlowup) h2 (by rw [Function.update_self]; simp))
  cases he : st (k + cfg.logBlowup) with
  | none => exact (this he).elim
  | some e =>
    cases h1
    refine List.ne_nil_of_mem (a := (k + cfg.logBlowup, e.2)) (List.mem_filterMap.mpr ⟨k + cfg.logBlowup, ?_, by rw [he]; rfl⟩)
    rw [List.mem_reverse, List.mem_range]
    omega

end TapStark.Pcs

namespace TapStark.Stark

open TapStark.Fri TapStark.Pcs TapStark.FS

variable {SI DI PI S D P : Type} {scfg : Cfg} {L : U31Lib} {T : TrackerLib} {drops : Nat → List Op}
  {hash : List UInt8 → U256} {mi : InMmcs BB SI Roots DI PI} {m : Mmcs BB4 S Roots D P} {cfg : Config} {air : Air BB}
  {pub : List BB} {proof : ProofOf BB BB4 Roots P U32 PI}

/-- **C39**, what is left of it: on a proof on which the script verifier succeeds, every query that opens a row of the trace
has an opening for the round of the trace.  In particular, with one commitment per degree bit no query is without
openings. -/
theorem C39_script_partial (hL : L.Ok scfg) (hT : T.Ok scfg)
    (hD : ∀ x : List Elem, x.length ≤ 4 → Does scfg (drops x.length) x []) (hH : IsBlake3 hash)
    (hp : 1 ≤ cfg.powBits) (hp' : cfg.powBits ≤ 31) (hb' : proof.degreeBits ≤ 27)
    (hblow : 1 ≤ cfg.logBlowup) (hmax : proof.openingProof.commitPhaseCommits.length + cfg.logBlowup ≤ 27)
    (hair : air.InRange pub.length) (hne : air.asserts ≠ []) (hq : getLogQuotientDegree air pub.length = some 0) (n : Nat)
    (hs : ∃ out, generateScriptVerifier scfg L T drops mi m (blake3Perm hash) cfg air (Chal.new 16 (fromU64 0))
      (ChalExpr.new n).1 proof pub (ChalExpr.new n).2 = .ok out) :
    ∀ qp ∈ proof.openingProof.queryProofs, ∀ o ip, qp.inputProof = o :: ip → o.1 ≠ [] →
      proof.openingProof.commitPhaseCommits.length < qp.commitPhaseOpenings.length + proof.degreeBits := by
  obtain ⟨-, -, alpha, zeta, batch, fc, c', s, h1, -, -, h4, -⟩ :=
    (C82_exact hL hT hD hH (lagrangeExt bbGen) hp hp' hb' hblow hmax hair hne hq n).mp hs
  have hlen : fc.queryIndices.length = proof.openingProof.queryProofs.length := by
    unfold nativeTranscript at h1
    simp only [Res.bind_eq_ok, Res.ofOption_eq_ok] at h1
    obtain ⟨c1, -, ⟨a, c2⟩, -, c3, -, ⟨z, c4⟩, -, ⟨b, c5⟩, -, ⟨fc', c6⟩, h, h'⟩ := h1
    cases h'
    obtain ⟨e1, -, e2, -⟩ := C40_shape h
    have := congrArg List.length e2
    simp only at this ⊢
    rw [List.length_map, List.length_range] at this
    omega
  intro qp hqp o ip e hrow
  obtain ⟨i, hi, rfl⟩ := List.getElem_of_mem hqp
  obtain ⟨-, -, vals, hv, hread, -⟩ := h4 (fc.queryIndices[i]'(by omega), proof.openingProof.queryProofs[i])
    (List.mem_iff_getElem.mpr ⟨i, by rw [List.length_zip]; omega, by rw [List.getElem_zip]⟩)
  have hv' := hv
  simp only [e, openingClaims] at hv'
  obtain ⟨r, hr⟩ := List.exists_mem_of_ne_nil _ (verifyInput_ne hrow hv')
  have hat := verifyInput_at (Q := fun h => h = proof.degreeBits + cfg.logBlowup) (fun r hr m hm j hj => by
    rw [(claims_even r hr m hm).1] at hj
    rw [Nat.pow_right_injective (Nat.le_refl 2) hj]) hv r hr
  have := hread r hr
  simp only at this
  omega

/-- A run: the script verifier succeeds on a proof with one commitment, and each query that opens a row of the trace has an
opening. -/
theorem C39_script_run (scfg : Cfg) [LinearOrder U256] (h20 : ∀ x, (scfg.hash160 x).length = 20) {L : U31Lib} {T : TrackerLib}
    {drops : Nat → List Op} (hL : L.Ok scfg) (hT : T.Ok scfg)
    (hD : ∀ x : List Elem, x.length ≤ 4 → Does scfg (drops x.length) x []) (n : Nat) :
    ∃ bc proof out, generateScriptVerifier scfg L T drops (fibSetup scfg bc 2).mi (fibSetup scfg bc 2).m
        (blake3Perm specHash) (demoCfg 2) (fibAir BB) (Chal.new 16 (fromU64 0)) (ChalExpr.new n).1 proof [0, 1, 1]
        (ChalExpr.new n).2 = .ok out ∧
      proof.openingProof.commitPhaseCommits.length = 1 ∧
      ∀ qp ∈ proof.openingProof.queryProofs, ∀ o ip, qp.inputProof = o :: ip → o.1 ≠ [] →
        0 < qp.commitPhaseOpenings.length := by
  obtain ⟨b, c, -, -, h⟩ := Tcs.winternitz_ok scfg h20 ['b', '1', '3', '8'] (by decide) 0
  generalize Tcs.winternitzBc scfg b c = bc at h
  obtain ⟨proof, ch', h1, h2, h3, h4, -⟩ := fib_run hL hT hD h (by omega : 0 < 2) zetaWords2 zeta2_outside.1 zeta2_outside.2
    fib_native28 fib_script28 n
  have hs := h3.mpr (by decide)
  have hu := fibSetup_ok h (by omega : 0 < 2)
  have hdeg : getLogQuotientDegree (fibAir BB) 3 = some 0 := fibAir_degree 3 le_rfl
  have hair := ((C45_least_power_of_two (fibAir BB) _ 0).1 hdeg).1
  have htr : ([[0, 1], [1, 1]] : Pcs.Mat BB) = fibTrace 2 0 1 := by decide +kernel
  rw [htr] at h1
  obtain ⟨ps, hpw, hpt, hps⟩ := trace_polys hu (k := 1) (by decide : 1 ≤ 27) (fibTrace_length 2 0 1) (fibTrace_rect 2 0 1)
  rw [hpt] at h1
  obtain ⟨p1, p2, p3, -⟩ := produced_top hu (by decide : 0 < 2) hair
    (pub := [0, 1, 1]) hdeg (Nat.zero_le _) (k := 1) (by decide : 1 + 2 ≤ 27) hpw hps h1
  have hall := C39_script_partial hL hT hD specHash_ok (show 1 ≤ 4 by decide) (show 4 ≤ 31 by decide)
    (by rw [p1]; decide) (show 1 ≤ 2 by decide) (by rw [p2]; decide) hair (by simp [fibAir]) hdeg n hs
  obtain ⟨out, hs⟩ := hs
  refine ⟨bc, proof, out, hs, p2, fun qp hqp o ip e1 e2 => ?_⟩
  have := hall qp hqp o ip e1 e2
  rw [p1, p2] at this
  omega

end TapStark.Stark
