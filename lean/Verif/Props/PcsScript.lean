import Verif.Proofs.PcsScript
import Verif.Props.FriScript
import Verif.Props.Fri

/-
C79: the opening checks of the script verifier.
-/

namespace TapStark.Pcs

open TapStark.Fri TapStark.FS TapStark.Stark

variable {SI CI DI PI S C D P W : Type} {scfg : Cfg} {L : U31Lib} {T : TrackerLib}

/-- C79, the reduced openings: the script verifier fails on an input opening exactly where the native verifier fails, and
otherwise its expressions have the values of the native verifier (`OpensTo`, whatever values the inputs are assigned
to). -/
theorem C79_openings (MI : InMmcs BB SI CI DI PI) (genV : Nat → BB) (g : BB) (cfg : Config) (alpha : BB4)
    (rounds : List (VerifierRound BB BB4 CI)) (logGlobal q index : Nat) (ip : List (List (List BB) × PI)) (n : Nat) :
    match verifyInput MI genV g cfg alpha rounds logGlobal q index ip with
    | .panic => openInputExpr MI genV g cfg alpha rounds logGlobal q index ip .new n = .panic
    | .err e => openInputExpr MI genV g cfg alpha rounds logGlobal q index ip .new n = .err e
    | .ok vals => ∃ ros m n', openInputExpr MI genV g cfg alpha rounds logGlobal q index ip .new n = .ok (ros, m, n') ∧
        n ≤ n' ∧ OpensTo bb4Field m n' ros vals := openInputExpr_ok

/-- The value folded along one query is the final value: the reduced openings of the native verifier, one per height,
and the opened siblings are folded with the challenges. -/
def QueryHolds (MI : InMmcs BB SI CI DI PI) (cfg : Config) (g : BB) (alpha : BB4)
    (rounds : List (VerifierRound BB BB4 CI)) (proof : FriProof BB4 C P W (List (List (List BB) × PI))) (betas : List BB4)
    (query : (Nat × Nat) × QueryProof BB4 P (List (List (List BB) × PI))) : Prop :=
  let top := proof.commitPhaseCommits.length + cfg.logBlowup
  ∃ vals, verifyInput MI bbGen g cfg alpha rounds top query.1.1 query.1.2 query.2.inputProof = .ok vals ∧
    foldChain (roAt vals) top (algebraMap BB BB4 (bbGen top) ^ revBits top query.1.2) 0
      (betas.zip (siblings query.1.2 (query.2.commitPhaseOpenings.map Prod.fst))) = proof.finalPoly

theorem bfQueryManager_counter {MI : InMmcs BB SI CI DI PI} {M : Mmcs BB4 S C D P} {cfg : Config} {genV : Nat → BB}
    {g : BB} {alpha : BB4} {rounds : List (VerifierRound BB BB4 CI)}
    {proof : FriProof BB4 C P W (List (List (List BB) × PI))} {betas : List BB4} {top q idx n n' : Nat}
    {qp : QueryProof BB4 P (List (List (List BB) × PI))} {m : InputManager}
    (h : bfQueryManager bb4Field M cfg proof betas (openInputExpr MI genV g cfg alpha rounds top) q idx qp n =
      .ok (m, n')) : n ≤ n' := by
  rw [bfQueryManager, Res.bind_eq_ok] at h
  obtain ⟨⟨ros, m0, n0⟩, h1, h⟩ := h
  rw [Res.bind_eq_ok] at h
  obtain ⟨⟨f, m1, n1⟩, h2, h⟩ := h
  rw [bfVerifyQuery, Res.bind_eq_ok] at h2
  obtain ⟨⟨f', i', m1', n1'⟩, h3, h2⟩ := h2
  have c3 := loop_counter h3
  simp only at h2
  split at h2
  · cases h2
  cases h2
  have c1 : n ≤ n0 := by
    have := C79_openings MI genV g cfg alpha rounds top q idx qp.inputProof n
    revert this
    cases verifyInput MI genV g cfg alpha rounds top q idx qp.inputProof with
    | panic => intro h; simp only at h; rw [h] at h1; cases h1
    | err e => intro h; simp only at h; rw [h] at h1; cases h1
    | ok vals =>
      rintro ⟨ros', m', n', h, hc, -⟩
      rw [h] at h1
      cases h1
      exact hc
  simp only [Dsl.constant, Dsl.mk, Dsl.reverseBitsLen, Dsl.indexToRou] at c3
  simp only [Res.ok.injEq, Prod.mk.injEq] at h
  rw [← h.2]
  show n ≤ n1 + 1 + 1
  omega

/-- The queries one by one. -/
theorem managers_exact {MI : InMmcs BB SI CI DI PI} {M : Mmcs BB4 S C D P} {cfg : Config} {g : BB} {alpha : BB4}
    {rounds : List (VerifierRound BB BB4 CI)} {proof : FriProof BB4 C P W (List (List (List BB) × PI))} {betas : List BB4}
    {R : (Nat × Nat) × QueryProof BB4 P (List (List (List BB) × PI)) → Prop} :
    ∀ {queries : List ((Nat × Nat) × QueryProof BB4 P (List (List (List BB) × PI)))} {n n' : Nat} {ms : List InputManager},
    (∀ qr ∈ queries, ∀ n m n1 ros m0 n0 vals, verifyInput MI bbGen g cfg alpha rounds
        (proof.commitPhaseCommits.length + cfg.logBlowup) qr.1.1 qr.1.2 qr.2.inputProof = .ok vals →
      openInputExpr MI bbGen g cfg alpha rounds (proof.commitPhaseCommits.length + cfg.logBlowup) qr.1.1 qr.1.2
        qr.2.inputProof .new n = .ok (ros, m0, n0) → OpensTo bb4Field m0 n0 ros vals →
      bfQueryManager bb4Field M cfg proof betas (openInputExpr MI bbGen g cfg alpha rounds
        (proof.commitPhaseCommits.length + cfg.logBlowup)) qr.1.1 qr.1.2 qr.2 n = .ok (m, n1) →
      ∀ N, n1 ≤ N → ∃ m' N', m.embedHintVerify N = some (m', N') ∧ (m'.run scfg L T = some () ↔ R qr)) →
    bfVerifyChallenges bb4Field M cfg proof betas (openInputExpr MI bbGen g cfg alpha rounds
      (proof.commitPhaseCommits.length + cfg.logBlowup)) queries n = .ok (ms, n') →
    n ≤ n' ∧ List.Forall₂ (fun qr m => ∀ N, n' ≤ N → ∃ m' N', m.embedHintVerify N = some (m', N') ∧
      (m'.run scfg L T = some () ↔ R qr)) queries ms := by
  intro queries
  induction queries with
  | nil =>
    intro n n' ms _ h
    rw [bfVerifyChallenges] at h
    cases h
    exact ⟨Nat.le_refl _, .nil⟩
  | cons qr queries ih =>
    intro n n' ms hq h
    obtain ⟨⟨q, i⟩, qp⟩ := qr
    rw [bfVerifyChallenges, Res.bind_eq_ok] at h
    obtain ⟨⟨m, k⟩, h1, h⟩ := h
    rw [Res.bind_eq_ok] at h
    obtain ⟨⟨ms', k'⟩, h2, h⟩ := h
    cases h
    obtain ⟨hc, ih⟩ := ih (fun qr h => hq qr (List.mem_cons_of_mem _ h)) h2
    have hc1 := bfQueryManager_counter h1
    refine ⟨hc1.trans hc, .cons (fun N hN => ?_) ih⟩
    have h3 := h1
    rw [bfQueryManager, Res.bind_eq_ok] at h3
    obtain ⟨⟨ros, m0, n0⟩, h3, -⟩ := h3
    have := C79_openings MI bbGen g cfg alpha rounds (proof.commitPhaseCommits.length + cfg.logBlowup) q i qp.inputProof n
    revert this
    cases hv : verifyInput MI bbGen g cfg alpha rounds (proof.commitPhaseCommits.length + cfg.logBlowup) q i
        qp.inputProof with
    | panic => intro h; simp only at h; rw [h] at h3; cases h3
    | err e => intro h; simp only at h; rw [h] at h3; cases h3
    | ok vals =>
      rintro ⟨ros', m0', n0', h, -, hto⟩
      exact hq _ (List.mem_cons_self ..) n m k ros' m0' n0' vals hv h hto h1 N (hc.trans hN)

/-- C79, exactly what the scripts of the queries accept.  There may be more openings than commitments; there may be fewer,
as long as the round of every matrix has one. -/
theorem C79_exact (hL : L.Ok scfg) (hT : T.Ok scfg) {MI : InMmcs BB SI CI DI PI} {M : Mmcs BB4 S C D P} {cfg : Config}
    {g : BB} {alpha : BB4} {rounds : List (VerifierRound BB BB4 CI)}
    {proof : FriProof BB4 C P W (List (List (List BB) × PI))} {betas : List BB4}
    (hblow : 1 ≤ cfg.logBlowup) (hmax : proof.commitPhaseCommits.length + cfg.logBlowup ≤ 27)
    (hbe : betas.length = proof.commitPhaseCommits.length)
    {queries : List ((Nat × Nat) × QueryProof BB4 P (List (List (List BB) × PI)))} {n n' : Nat} {ms : List InputManager}
    (hq : ∀ qr ∈ queries, qr.1.2 < 2 ^ (proof.commitPhaseCommits.length + cfg.logBlowup) ∧ ∀ r ∈ rounds, ∀ m ∈ r.2,
      2 ^ (proof.commitPhaseCommits.length - qr.2.commitPhaseOpenings.length + 1) ≤ m.1.size)
    (h : bfVerifyChallenges bb4Field M cfg proof betas (openInputExpr MI bbGen g cfg alpha rounds
      (proof.commitPhaseCommits.length + cfg.logBlowup)) queries n = .ok (ms, n')) :
    n ≤ n' ∧ List.Forall₂ (fun qr m => ∀ N, n' ≤ N → ∃ m' N', m.embedHintVerify N = some (m', N') ∧
      (m'.run scfg L T = some () ↔ QueryHolds MI cfg g alpha rounds proof betas qr)) queries ms := by
  refine managers_exact (fun qr hqr n m n1 ros m0 n0 vals hv hopen hto hm N hN => ?_) h
  obtain ⟨m', n', e1, e2⟩ := C43_query_accepts (M := M) hL hT bb4Field_ok hblow hmax (hq qr hqr).1 hbe hopen hto
    (verifyInput_rosOk hv) (verifyInput_low (hq qr hqr).2 hv) hm N hN
  refine ⟨m', n', e1, e2.trans ?_⟩
  unfold QueryHolds
  simp only [hv]
  constructor
  · exact fun h => ⟨vals, rfl, h⟩
  · rintro ⟨vals', e, h⟩
    cases e
    exact h

/-- The rounds of a native query: every opened row has two entries and its opening is accepted. -/
theorem queryLoop_rows {F : Type} [Field F] [DecidableEq F] {gen : Nat → F} {M : Mmcs F S C D P} {q top : Nat} :
    ∀ (rounds : List (Nat × C × (List (List F) × P) × F)) (idx : Nat) (own : F) (ros : List (Nat × F)) {out : F × Nat},
    queryLoop gen M q top rounds idx own ros = .ok out →
    ∀ r ∈ rounds, ∃ a b, r.2.2.1.1 = [[a, b]] ∧ M.verifyBatch q [[a, b]] r.2.2.1.2 r.2.1 = some true
  | [], idx, own, ros, out, _ => by simp
  | (lfh, c, (rows, π), β) :: rest, idx, own, ros, out, h => by
    rw [queryLoop] at h
    generalize nextRo (lfh + 1) own ros = nr at h
    obtain ⟨own1, ros1⟩ := nr
    simp only at h
    split at h
    case isFalse => cases h
    case isTrue hlen =>
      rw [Res.bind_eq_ok] at h
      obtain ⟨row, hrow, h⟩ := h
      rw [Res.ofOption_eq_ok] at hrow
      rw [Res.bind_eq_ok] at h
      obtain ⟨com, hcom, h⟩ := h
      split at h
      case isTrue => cases h
      case isFalse hne =>
        rw [Res.bind_eq_ok] at h
        obtain ⟨acc, hacc, h⟩ := h
        rw [Res.ofOption_eq_ok] at hacc
        split at h
        case isFalse => cases h
        case isTrue hat =>
          rw [Res.bind_eq_ok] at h
          obtain ⟨fe2, hfold, h⟩ := h
          rw [Res.ofOption_eq_ok] at hfold
          subst hat
          intro r hr
          rcases List.mem_cons.mp hr with rfl | hr
          · have h2 : row.length = 2 := by
              by_contra hcon
              rw [C35_other_arity_panics _ _ _ _ _ hcon] at hfold
              cases hfold
            match rows, hlen, hrow with
            | [r], _, hrow =>
              simp only [List.getElem?_cons_zero, Option.some.injEq] at hrow
              subst hrow
              match r, h2 with
              | [a, b], _ => exact ⟨a, b, rfl, hacc⟩
          · exact queryLoop_rows rest _ _ _ h r hr

/-- C79, completeness: where the native verifier accepts the opening proof, the managers of the script verifier are
generated and their scripts accept, if for every query the opened entry of the first round is the reduced opening of the
largest height (the native verifier does not compare these, see C38). -/
theorem C79_native (hL : L.Ok scfg) (hT : T.Ok scfg) {MI : InMmcs BB SI CI DI PI} {M : Mmcs BB4 S C D P} {cfg : Config}
    {g : BB} {alpha : BB4} {rounds : List (VerifierRound BB BB4 CI)}
    {proof : FriProof BB4 C P W (List (List (List BB) × PI))} {challenges : FriChallenges BB4}
    (hblow : 1 ≤ cfg.logBlowup) (hmax : proof.commitPhaseCommits.length + cfg.logBlowup ≤ 27)
    (hbe : challenges.betas.length = proof.commitPhaseCommits.length) (hdom : ∀ r ∈ rounds, ∀ m ∈ r.2, 2 ≤ m.1.size)
    (hq : ∀ qr ∈ challenges.queryIndices.zip proof.queryProofs,
      qr.1.2 < 2 ^ (proof.commitPhaseCommits.length + cfg.logBlowup) ∧
      qr.2.commitPhaseOpenings.length = proof.commitPhaseCommits.length)
    (hnat : verifyChallenges bb4Field.gen M cfg proof challenges (verifyInput MI bbGen g cfg alpha rounds
      (proof.commitPhaseCommits.length + cfg.logBlowup)) = .ok ())
    (htop : ∀ qr ∈ challenges.queryIndices.zip proof.queryProofs, ∀ vals, verifyInput MI bbGen g cfg alpha rounds
        (proof.commitPhaseCommits.length + cfg.logBlowup) qr.1.1 qr.1.2 qr.2.inputProof = .ok vals →
      ∀ o ∈ qr.2.commitPhaseOpenings.head?, (o.1.getD 0 []).getD (qr.1.2 % 2) 0 =
        roAt vals (proof.commitPhaseCommits.length + cfg.logBlowup)) (n : Nat) :
    ∃ ms n', bfVerifyChallenges bb4Field M cfg proof challenges.betas (openInputExpr MI bbGen g cfg alpha rounds
        (proof.commitPhaseCommits.length + cfg.logBlowup)) (challenges.queryIndices.zip proof.queryProofs) n =
      .ok (ms, n') ∧ ∀ m ∈ ms, ∀ N, n' ≤ N → ∃ m' N', m.embedHintVerify N = some (m', N') ∧
        m'.run scfg L T = some () := by
  have hall : ∀ qr ∈ challenges.queryIndices.zip proof.queryProofs, ∃ ros, verifyInput MI bbGen g cfg alpha rounds
      (proof.commitPhaseCommits.length + cfg.logBlowup) qr.1.1 qr.1.2 qr.2.inputProof = .ok ros ∧
      verifyQuery bb4Field.gen M cfg proof.commitPhaseCommits qr.1.2 qr.1.1 qr.2.commitPhaseOpenings challenges.betas ros
        (proof.commitPhaseCommits.length + cfg.logBlowup) = .ok proof.finalPoly := by
    intro qr hqr
    obtain ⟨k, hk, e⟩ := List.getElem_of_mem hqr
    have e' : (challenges.queryIndices.zip proof.queryProofs)[k]? = some qr := by rw [List.getElem?_eq_getElem hk, e]
    rw [List.getElem?_zip_eq_some] at e'
    exact C40_accepted_proof hnat k qr.1.1 qr.1.2 qr.2 e'.1 e'.2
  -- every query holds and its manager is generated
  have hone : ∀ qr ∈ challenges.queryIndices.zip proof.queryProofs,
      QueryHolds MI cfg g alpha rounds proof challenges.betas qr ∧
      ∀ n, ∃ m n', bfQueryManager bb4Field M cfg proof challenges.betas (openInputExpr MI bbGen g cfg alpha rounds
        (proof.commitPhaseCommits.length + cfg.logBlowup)) qr.1.1 qr.1.2 qr.2 n = .ok (m, n') := by
    intro qr hqr
    obtain ⟨hi, hop⟩ := hq qr hqr
    obtain ⟨vals, hv, hvq⟩ := hall qr hqr
    have ht := htop qr hqr vals hv
    rw [verifyQuery, Res.bind_eq_ok] at hvq
    obtain ⟨⟨w, idx'⟩, hl, hw⟩ := hvq
    simp only at hw
    split at hw
    · cases hw
    cases hw
    have hrounds : (List.range (proof.commitPhaseCommits.length + cfg.logBlowup)).reverse.zip
        (proof.commitPhaseCommits.zip (qr.2.commitPhaseOpenings.zip challenges.betas)) =
        (downList cfg.logBlowup proof.commitPhaseCommits.length).zip
          (proof.commitPhaseCommits.zip (qr.2.commitPhaseOpenings.zip challenges.betas)) := by
      rw [Nat.add_comm, range_reverse_down]
      exact zip_downList _ _ _ _ (by simp [hop, hbe])
    rw [hrounds] at hl
    constructor
    · refine ⟨vals, hv, ?_⟩
      have hros := verifyInput_rosOk hv
      rw [Nat.add_comm] at hl hmax hros ht ⊢
      exact (native_chain bb4Field_ok.twoAdic _ _ _ _ _ _ _ _ _ rfl hop hbe hmax (Nat.le_refl _) hros
        (fun _ o ho => by rw [ht o ho, zero_add]) hl).symm
    · intro n
      have hopen := C79_openings MI bbGen g cfg alpha rounds (proof.commitPhaseCommits.length + cfg.logBlowup)
        qr.1.1 qr.1.2 qr.2.inputProof n
      rw [hv] at hopen
      obtain ⟨ros, m0, n0, hopen, -, -⟩ := hopen
      obtain ⟨⟨m, n'⟩, h⟩ := C43_query_built (M := M) bb4Field_ok hmax hi hop hbe hopen (by
        intro r hr
        obtain ⟨i, hi, e⟩ := List.getElem_of_mem hr
        have hlen : (downList cfg.logBlowup proof.commitPhaseCommits.length).length =
            proof.commitPhaseCommits.length := by
          have := congrArg List.length (range_reverse_down cfg.logBlowup proof.commitPhaseCommits.length)
          simp at this
          omega
        simp only [List.length_zip] at hi
        have hi' : i < ((downList cfg.logBlowup proof.commitPhaseCommits.length).zip
            (proof.commitPhaseCommits.zip (qr.2.commitPhaseOpenings.zip challenges.betas))).length := by
          simp only [List.length_zip]
          omega
        obtain ⟨a, b, h1, h2⟩ := queryLoop_rows _ _ _ _ hl _ (List.getElem_mem hi')
        simp only [List.getElem_zip] at h1 h2 e
        subst e
        exact ⟨a, b, h1, h2⟩)
      exact ⟨m, n', h⟩
  have hbuilt : ∀ (queries : List ((Nat × Nat) × QueryProof BB4 P (List (List (List BB) × PI)))) (n : Nat),
      (∀ qr ∈ queries, ∀ n, ∃ m n', bfQueryManager bb4Field M cfg proof challenges.betas
        (openInputExpr MI bbGen g cfg alpha rounds (proof.commitPhaseCommits.length + cfg.logBlowup))
        qr.1.1 qr.1.2 qr.2 n = .ok (m, n')) →
      ∃ ms n', bfVerifyChallenges bb4Field M cfg proof challenges.betas (openInputExpr MI bbGen g cfg alpha rounds
        (proof.commitPhaseCommits.length + cfg.logBlowup)) queries n = .ok (ms, n') := by
    intro queries
    induction queries with
    | nil => exact fun n _ => ⟨_, _, by rw [bfVerifyChallenges]⟩
    | cons qr queries ih =>
      intro n h
      obtain ⟨m, n1, h1⟩ := h qr (List.mem_cons_self ..) n
      obtain ⟨ms, n2, h2⟩ := ih n1 fun qr hqr => h qr (List.mem_cons_of_mem _ hqr)
      obtain ⟨⟨q, i⟩, qp⟩ := qr
      refine ⟨m :: ms, n2, ?_⟩
      rw [bfVerifyChallenges]
      simp only [h1, h2, Res.bind_ok]
  obtain ⟨ms, n', h⟩ := hbuilt _ n fun qr hqr => (hone qr hqr).2
  refine ⟨ms, n', h, ?_⟩
  obtain ⟨-, hex⟩ := C79_exact (scfg := scfg) hL hT hblow hmax hbe
    (fun qr hqr => ⟨(hq qr hqr).1, by rw [(hq qr hqr).2, Nat.sub_self]; exact hdom⟩) h
  intro m hm N hN
  obtain ⟨i, hi, rfl⟩ := List.getElem_of_mem hm
  have hi' : i < (challenges.queryIndices.zip proof.queryProofs).length := by rw [hex.length_eq]; exact hi
  obtain ⟨m', N', e1, e2⟩ := (List.forall₂_iff_get.mp hex).2 i hi' hi N hN
  exact ⟨m', N', e1, e2.mpr (hone _ (List.getElem_mem hi')).1⟩

/-! ### Instance: one matrix of one column, opened at one point, and one round -/

theorem verifyInput_one {K F : Type} [Field K] [Field F] [Algebra K F] [DecidableEq F] {MI : InMmcs K Unit Unit Unit Unit}
    (hMI : ∀ q rows, MI.verifyBatch q rows () () = some true) (genV : Nat → K) (g : K) (α z v : F) (p : K)
    (hz : -z + algebraMap K F g ≠ 0) :
    verifyInput MI genV g ⟨1, 1, 0, true⟩ α [((), [((⟨1, 1⟩ : Dom K), [(z, [v])])])] 2 0 0 [([[p]], ())] =
      .ok [(2, (-v + algebraMap K F p) / (-z + algebraMap K F g))] := by
  have h2 : log2Strict 2 = some 1 := by decide +kernel
  have h4 : log2Strict 4 = some 2 := by decide +kernel
  simp [verifyInput, roundLoop, Dom.size, Res.ofOption, h2, h4, hMI, matLoop, pointLoop, columnLoop, revBits, hz,
    List.range_succ, Function.update]

/-- A commitment scheme that accepts every opening. -/
def anyIn : InMmcs BB Unit Unit Unit Unit := ⟨fun _ _ => none, fun _ => none, fun _ _ _ => none, fun _ _ _ _ => some true⟩

/-- The same for the layers. -/
def anyLayer : Mmcs BB4 Unit Unit Unit Unit := ⟨fun _ _ => none, fun _ => none, fun _ _ _ => none, fun _ _ _ _ => some true⟩

theorem C79_instance (hL : L.Ok scfg) (hT : T.Ok scfg) (g p : BB) (α β z v a b w : BB4)
    (hz : -z + algebraMap BB BB4 g ≠ 0) :
    ∃ m n m' n', bfVerifyChallenges bb4Field anyLayer ⟨1, 1, 0, true⟩
        (⟨[()], [⟨[([[p]], ())], [([[a, b]], ())]⟩], w, ()⟩ : FriProof BB4 Unit Unit Unit _) [β]
        (openInputExpr anyIn bbGen g ⟨1, 1, 0, true⟩ α [((), [((⟨1, 1⟩ : Dom BB), [(z, [v])])])] 2)
        [((0, 0), ⟨[([[p]], ())], [([[a, b]], ())]⟩)] 0 = .ok ([m], n) ∧
      m.embedHintVerify n = some (m', n') ∧ (m'.run scfg L T = some () ↔
        lineAt 1 β ((-v + algebraMap BB BB4 p) / (-z + algebraMap BB BB4 g)) b = w) := by
  have hv := verifyInput_one (MI := anyIn) (fun _ _ => rfl) bbGen g α z v p hz
  have hopen := C79_openings anyIn bbGen g ⟨1, 1, 0, true⟩ α [((), [((⟨1, 1⟩ : Dom BB), [(z, [v])])])] 2 0 0
    [([[p]], ())] 0
  rw [hv] at hopen
  obtain ⟨ros, m0, n0, hopen, -, -⟩ := hopen
  obtain ⟨⟨m, n⟩, hm⟩ := C43_query_built (M := anyLayer) (cfg := ⟨1, 1, 0, true⟩) bb4Field_ok
    (proof := (⟨[()], [⟨[([[p]], ())], [([[a, b]], ())]⟩], w, ()⟩ : FriProof BB4 Unit Unit Unit _)) (betas := [β])
    (qp := ⟨[([[p]], ())], [([[a, b]], ())]⟩) (show 2 ≤ 27 by decide) (show 0 < 2 ^ 2 by decide) rfl rfl hopen (by
      intro r hr
      simp only [List.zip_cons_cons, List.zip_nil_right, List.mem_cons, List.not_mem_nil, or_false] at hr
      subst hr
      exact ⟨a, b, rfl, rfl⟩)
  have hms : bfVerifyChallenges bb4Field anyLayer ⟨1, 1, 0, true⟩
        (⟨[()], [⟨[([[p]], ())], [([[a, b]], ())]⟩], w, ()⟩ : FriProof BB4 Unit Unit Unit _) [β]
        (openInputExpr anyIn bbGen g ⟨1, 1, 0, true⟩ α [((), [((⟨1, 1⟩ : Dom BB), [(z, [v])])])] 2)
        [((0, 0), ⟨[([[p]], ())], [([[a, b]], ())]⟩)] 0 = .ok ([m], n) := by
    rw [bfVerifyChallenges, hm]
    simp only [Res.bind_ok, bfVerifyChallenges]
  obtain ⟨-, hex⟩ := C79_exact (scfg := scfg) (MI := anyIn) (M := anyLayer) (cfg := ⟨1, 1, 0, true⟩)
    (proof := (⟨[()], [⟨[([[p]], ())], [([[a, b]], ())]⟩], w, ()⟩ : FriProof BB4 Unit Unit Unit _)) hL hT (by decide)
    (show 2 ≤ 27 by decide) rfl (by simp [Dom.size]) hms
  cases hex with
  | cons h _ =>
    obtain ⟨m', n', e1, e2⟩ := h n (Nat.le_refl _)
    refine ⟨m, n, m', n', hms, e1, e2.trans ?_⟩
    unfold QueryHolds
    have hv' : verifyInput anyIn bbGen g ⟨1, 1, 0, true⟩ α [((), [((⟨1, 1⟩ : Dom BB), [(z, [v])])])] ([()].length + 1)
      0 0 [([[p]], ())] = _ := hv
    simp only [hv']
    have key : foldChain (roAt [(2, (-v + algebraMap BB BB4 p) / (-z + algebraMap BB BB4 g))]) ([()].length + 1)
        (algebraMap BB BB4 (bbGen ([()].length + 1)) ^ revBits ([()].length + 1) 0) 0
        ([β].zip (siblings 0 [[[a, b]]])) = lineAt 1 β ((-v + algebraMap BB BB4 p) / (-z + algebraMap BB BB4 g)) b := by
      simp [foldChain, siblings, roAt, revBits]
    constructor
    · rintro ⟨vals, e, h⟩
      cases e
      rw [← key]
      exact h
    · intro h
      exact ⟨_, rfl, key.trans h⟩

/-! ### The points of the openings -/

/-- Two managers with the same checks on the same inputs, whose values may differ. -/
structure SameChecks (m m' : InputManager) : Prop where
  exec : m.exec = m'.exec
  hint : m.hint = m'.hint
  counter : m.counter = m'.counter
  inputVar : m.inputVar.map (fun p => (p.1, p.2.length)) = m'.inputVar.map (fun p => (p.1, p.2.length))
  inputHint : m.inputHint.map (fun p => (p.1, p.2.length)) = m'.inputHint.map (fun p => (p.1, p.2.length))

/-- Two lists of rounds with the same commitments, domains and claimed values; the points may differ. -/
def SameButPoints (rounds rounds' : List (VerifierRound BB BB4 CI)) : Prop :=
  List.Forall₂ (fun r r' => r.1 = r'.1 ∧ List.Forall₂ (fun a a' => a.1 = a'.1 ∧
    List.Forall₂ (fun q q' => q.2 = q'.2) a.2 a'.2) r.2 r'.2) rounds rounds'

theorem SameChecks.assignInput {m m' : InputManager} (h : SameChecks m m') {v v' : List Nat} (hv : v.length = v'.length)
    (n : Nat) : (m.assignInput v n).1 = (m'.assignInput v' n).1 ∧
      SameChecks (m.assignInput v n).2.1 (m'.assignInput v' n).2.1 := by
  simp only [InputManager.assignInput, h.counter, hv]
  exact ⟨trivial, h.exec, h.hint, rfl, by simp [h.inputVar, hv], h.inputHint⟩

theorem SameChecks.assignHintInput {m m' : InputManager} (h : SameChecks m m') (v : List Nat) (n : Nat) :
    (m.assignHintInput v n).1 = (m'.assignHintInput v n).1 ∧
      SameChecks (m.assignHintInput v n).2.1 (m'.assignHintInput v n).2.1 := by
  simp only [InputManager.assignHintInput, h.counter]
  exact ⟨trivial, h.exec, h.hint, rfl, h.inputVar, by simp [h.inputHint]⟩

theorem columnLoopExpr_same {alpha : BB4} : ∀ (cols : List (BB × BB4)) (a acc : Expr) {m m' : InputManager} (n : Nat)
    {ra racc : Expr} {rm : InputManager} {rn : Nat}, SameChecks m m' →
    columnLoopExpr alpha cols a acc m n = some (ra, racc, rm, rn) →
    ∃ rm', columnLoopExpr alpha cols a acc m' n = some (ra, racc, rm', rn) ∧ SameChecks rm rm'
  | [], a, acc, m, m', n, ra, racc, rm, rn, h, e => by
    rw [columnLoopExpr] at e ⊢
    cases e
    exact ⟨m', rfl, h⟩
  | (px, pz) :: rest, a, acc, m, m', n, ra, racc, rm, rn, h, e => by
    rw [columnLoopExpr] at e ⊢
    obtain ⟨e1, h1⟩ := h.assignInput (v := bb4Field.u32 (-pz)) rfl n
    obtain ⟨e2, h2⟩ := h1.assignInput (v := bbField.u32 px) rfl (n + 1)
    simp only [Option.bind_eq_bind, Option.bind_eq_some_iff] at e ⊢
    obtain ⟨⟨d, n1⟩, hd, e⟩ := e
    obtain ⟨rm', e', h'⟩ := columnLoopExpr_same rest _ _ _ h2 e
    refine ⟨rm', ⟨(d, n1), ?_, e'⟩, h'⟩
    rw [← hd, e1]
    exact congrArg (fun b => Dsl.addBase _ _ _ b _) e2.symm

theorem pointLoopExpr_same {alpha : BB4} {x : BB} {opening : List BB} {pts pts' : List (BB4 × List BB4)}
    (hp : List.Forall₂ (fun q q' => q.2 = q'.2) pts pts') : ∀ (a ro : Expr) {m m' : InputManager} (n : Nat)
    {r r' : Expr × Expr × InputManager × Nat}, SameChecks m m' →
    pointLoopExpr alpha x opening pts a ro m n = some r → pointLoopExpr alpha x opening pts' a ro m' n = some r' →
    r.1 = r'.1 ∧ r.2.1 = r'.2.1 ∧ SameChecks r.2.2.1 r'.2.2.1 ∧ r.2.2.2 = r'.2.2.2 := by
  induction hp with
  | nil =>
    intro a ro m m' n r r' h e e'
    rw [pointLoopExpr] at e e'
    cases e
    cases e'
    exact ⟨rfl, rfl, h, rfl⟩
  | @cons q q' pts pts' hq _ ih =>
    intro a ro m m' n r r' h e e'
    obtain ⟨z, ps⟩ := q
    obtain ⟨z', ps'⟩ := q'
    simp only at hq
    subst hq
    rw [pointLoopExpr] at e e'
    simp only [Option.bind_eq_bind, Option.bind_eq_some_iff] at e e'
    obtain ⟨⟨a1, acc, m1, n1⟩, e1, e⟩ := e
    obtain ⟨⟨a2, acc2, m2, n2⟩, e2, e'⟩ := e'
    obtain ⟨m3, e3, h1⟩ := columnLoopExpr_same _ _ _ _ h e1
    rw [e3] at e2
    cases e2
    simp only at e e'
    split at e
    · cases e
    split at e'
    · cases e'
    obtain ⟨i1, i2⟩ := h1.assignInput (v := bb4Field.u32 (-z + algebraMap BB BB4 x)⁻¹)
      (v' := bb4Field.u32 (-z' + algebraMap BB BB4 x)⁻¹) (by rw [bb4Field_ok.length, bb4Field_ok.length]) n1
    rw [i1] at e
    exact ih _ _ _ i2 e e'

theorem matLoopExpr_same {genV : Nat → BB} {g : BB} {cfg : Config} {alpha : BB4} {logGlobal index : Nat} :
    ∀ (rows : List (List BB)) {mats mats' : List (Dom BB × List (BB4 × List BB4))},
    List.Forall₂ (fun a a' => a.1 = a'.1 ∧ List.Forall₂ (fun q q' => q.2 = q'.2) a.2 a'.2) mats mats' →
    ∀ (st : ExprState) {m m' : InputManager} (n : Nat) {r r' : ExprState × InputManager × Nat}, SameChecks m m' →
    matLoopExpr genV g cfg alpha logGlobal index (rows.zip mats) st m n = some r →
    matLoopExpr genV g cfg alpha logGlobal index (rows.zip mats') st m' n = some r' →
    r.1 = r'.1 ∧ SameChecks r.2.1 r'.2.1 ∧ r.2.2 = r'.2.2
  | [], mats, mats', _, st, m, m', n, r, r', h, e, e' => by
    rw [List.zip_nil_left, matLoopExpr] at e e'
    cases e
    cases e'
    exact ⟨rfl, h, rfl⟩
  | row :: rows, [], _, .nil, st, m, m', n, r, r', h, e, e' => by
    rw [List.zip_nil_right, matLoopExpr] at e e'
    cases e
    cases e'
    exact ⟨rfl, h, rfl⟩
  | row :: rows, (d, pts) :: mats, (d', pts') :: mats', .cons ⟨hd, hp⟩ hm, st, m, m', n, r, r', h, e, e' => by
    simp only at hd hp
    subst hd
    rw [List.zip_cons_cons, matLoopExpr] at e e'
    simp only [Option.bind_eq_bind, Option.bind_eq_some_iff] at e e'
    obtain ⟨k, hk, e⟩ := e
    obtain ⟨k', hk', e'⟩ := e'
    rw [hk] at hk'
    cases hk'
    split at e
    case isFalse => cases e
    rename_i hle
    rw [if_pos hle] at e'
    simp only [Option.bind_eq_some_iff] at e e'
    obtain ⟨⟨a1, ro1, m1, n1⟩, e1, e⟩ := e
    obtain ⟨⟨a2, ro2, m2, n2⟩, e2, e'⟩ := e'
    obtain ⟨i1, i2, i3, i4⟩ := pointLoopExpr_same hp _ _ _ h e1 e2
    simp only at i1 i2 i3 i4
    subst i1 i2 i4
    exact matLoopExpr_same rows hm _ _ i3 e e'

theorem roundLoopExpr_same {MI : InMmcs BB SI CI DI PI} {genV : Nat → BB} {g : BB} {cfg : Config} {alpha : BB4}
    {logGlobal q index : Nat} : ∀ (ip : List (List (List BB) × PI)) {rounds rounds' : List (VerifierRound BB BB4 CI)},
    SameButPoints rounds rounds' → ∀ (st : ExprState) {m m' : InputManager} (n : Nat)
    {r r' : ExprState × InputManager × Nat}, SameChecks m m' →
    roundLoopExpr MI genV g cfg alpha logGlobal q index (ip.zip rounds) st m n = .ok r →
    roundLoopExpr MI genV g cfg alpha logGlobal q index (ip.zip rounds') st m' n = .ok r' →
    r.1 = r'.1 ∧ SameChecks r.2.1 r'.2.1 ∧ r.2.2 = r'.2.2
  | [], rounds, rounds', _, st, m, m', n, r, r', h, e, e' => by
    rw [List.zip_nil_left, roundLoopExpr] at e e'
    cases e
    cases e'
    exact ⟨rfl, h, rfl⟩
  | o :: ip, [], _, .nil, st, m, m', n, r, r', h, e, e' => by
    rw [List.zip_nil_right, roundLoopExpr] at e e'
    cases e
    cases e'
    exact ⟨rfl, h, rfl⟩
  | o :: ip, (c, mats) :: rounds, (c', mats') :: rounds', .cons ⟨hc, hm⟩ hr, st, m, m', n, r, r', h, e, e' => by
    simp only at hc hm
    subst hc
    rw [List.zip_cons_cons, roundLoopExpr, Res.bind_eq_ok] at e e'
    obtain ⟨mx, h1, e⟩ := e
    obtain ⟨mx', h1', e'⟩ := e'
    rw [Res.bind_eq_ok] at e e'
    obtain ⟨lm, h2, e⟩ := e
    obtain ⟨lm', h2', e'⟩ := e'
    split at e
    case isFalse => cases e
    split at e'
    case isFalse => cases e'
    rw [Res.bind_eq_ok] at e e'
    obtain ⟨acc, h3, e⟩ := e
    obtain ⟨acc', h3', e'⟩ := e'
    split at e
    case isFalse => cases e
    split at e'
    case isFalse => cases e'
    rw [Res.bind_eq_ok] at e e'
    obtain ⟨⟨st1, m1, n1⟩, e1, e⟩ := e
    obtain ⟨⟨st2, m2, n2⟩, e2, e'⟩ := e'
    rw [Res.ofOption_eq_ok] at e1 e2
    obtain ⟨i1, i2, i3⟩ := matLoopExpr_same _ hm _ _ h e1 e2
    simp only at i1 i2 i3
    subst i1 i3
    exact roundLoopExpr_same ip hr _ _ i2 e e'

theorem foldTail_same {e0 e1 xs0 xs1 beta : Expr} {inv : BB4} {m m' : InputManager} (h : SameChecks m m') (n : Nat) :
    (foldTail bb4Field e0 e1 xs0 xs1 beta inv m n).1 = (foldTail bb4Field e0 e1 xs0 xs1 beta inv m' n).1 ∧
    SameChecks ((foldTail bb4Field e0 e1 xs0 xs1 beta inv m n).2.2.1.addHintVerify
        (foldTail bb4Field e0 e1 xs0 xs1 beta inv m n).2.1)
      ((foldTail bb4Field e0 e1 xs0 xs1 beta inv m' n).2.2.1.addHintVerify
        (foldTail bb4Field e0 e1 xs0 xs1 beta inv m' n).2.1) ∧
    (foldTail bb4Field e0 e1 xs0 xs1 beta inv m n).2.2.2 = (foldTail bb4Field e0 e1 xs0 xs1 beta inv m' n).2.2.2 := by
  refine ⟨rfl, ?_, rfl⟩
  simp only [foldTail, InputManager.assignHintInput, InputManager.addHintVerify, h.counter, h.hint]
  exact ⟨h.exec, rfl, rfl, h.inputVar, by simp [h.inputHint]⟩

theorem foldRowExpr_same {folded sibling x beta : Expr} {z : BB4} {s : Nat} {m m' : InputManager} (h : SameChecks m m')
    {n : Nat} {re : Expr} {rm : InputManager} {rn : Nat}
    (e : foldRowExpr bb4Field folded sibling x z s beta m n = some (re, rm, rn)) :
    ∃ rm', foldRowExpr bb4Field folded sibling x z s beta m' n = some (re, rm', rn) ∧ SameChecks rm rm' := by
  rw [foldRowExpr_eq] at e ⊢
  split at e <;> split at e
  · cases e
  · rename_i h1 h2
    rw [if_pos h1, if_neg h2]
    cases e
    obtain ⟨k1, k2, k3⟩ := foldTail_same (e0 := sibling) (e1 := folded)
      (xs0 := (Dsl.mulF x (bb4Field.u32 (bb4Field.gen 1)) (n + 2)).1) (xs1 := x) (beta := beta)
      (inv := 1 / (z - z * bb4Field.gen 1)) h ((Dsl.mulF x (bb4Field.u32 (bb4Field.gen 1)) (n + 2)).2 + 2)
    exact ⟨_, by rw [k1, k3], k2⟩
  · cases e
  · rename_i h1 h2
    rw [if_neg h1, if_neg h2]
    cases e
    obtain ⟨k1, k2, k3⟩ := foldTail_same (e0 := folded) (e1 := sibling) (xs0 := x)
      (xs1 := (Dsl.mulF x (bb4Field.u32 (bb4Field.gen 1)) (n + 2)).1) (beta := beta)
      (inv := 1 / (z * bb4Field.gen 1 - z)) h ((Dsl.mulF x (bb4Field.u32 (bb4Field.gen 1)) (n + 2)).2 + 2)
    exact ⟨_, by rw [k1, k3], k2⟩

theorem queryLoopExpr_same {M : Mmcs BB4 S C D P} {q : Nat} : ∀ {rounds : List (Nat × C × (List (List BB4) × P) × BB4)}
    {idx : Nat} {folded x : Expr} {ros : List (Nat × Expr)} {z : BB4} {m m' : InputManager} {n : Nat} {re : Expr}
    {ri : Nat} {rm : InputManager} {rn : Nat}, SameChecks m m' →
    queryLoopExpr bb4Field M q rounds idx folded ros x z m n = .ok (re, ri, rm, rn) →
    ∃ rm', queryLoopExpr bb4Field M q rounds idx folded ros x z m' n = .ok (re, ri, rm', rn) ∧ SameChecks rm rm'
  | [], idx, folded, x, ros, z, m, m', n, re, ri, rm, rn, h, e => by
    rw [queryLoopExpr] at e ⊢
    cases e
    exact ⟨m', rfl, h⟩
  | (lfh, c, step, β) :: rest, idx, folded, x, ros, z, m, m', n, re, ri, rm, rn, h, e => by
    obtain ⟨row, s, next, m3, n3, hrow, hacc, hs, hf, e⟩ := loop_cons.mp e
    obtain ⟨i1, i2⟩ := h.assignInput (v := bb4Field.u32 s) rfl (nextRoExpr (lfh + 1) folded ros n).2.2
    obtain ⟨j1, j2⟩ := i2.assignInput (v := bb4Field.u32 β) rfl
      (m.assignInput (bb4Field.u32 s) (nextRoExpr (lfh + 1) folded ros n).2.2).2.2
    obtain ⟨m4, hf', h'⟩ := foldRowExpr_same j2 hf
    obtain ⟨rm', e', h''⟩ := queryLoopExpr_same h' e
    refine ⟨rm', loop_cons.mpr ⟨row, s, next, m4, n3, hrow, hacc, hs, ?_, e'⟩, h''⟩
    rw [← hf', i1, j1]
    rfl

/-- C79 fails for the points of the openings: the scripts of a query, and what they check, do not depend on them.  Two
proofs that differ in the points only lead to the same checks; just the values of some inputs differ (the inverses, which
no check relates to the points).  So the script generated for one point accepts the inputs of any other. -/
theorem C79_violated_points {MI : InMmcs BB SI CI DI PI} {M : Mmcs BB4 S C D P} {cfg : Config} {genV : Nat → BB} {g : BB}
    {alpha : BB4} {rounds rounds' : List (VerifierRound BB BB4 CI)} (hr : SameButPoints rounds rounds')
    {proof : FriProof BB4 C P W (List (List (List BB) × PI))} {betas : List BB4} {top q idx n k k' : Nat}
    {qp : QueryProof BB4 P (List (List (List BB) × PI))} {m m' : InputManager}
    (h : bfQueryManager bb4Field M cfg proof betas (openInputExpr MI genV g cfg alpha rounds top) q idx qp n = .ok (m, k))
    (h' : bfQueryManager bb4Field M cfg proof betas (openInputExpr MI genV g cfg alpha rounds' top) q idx qp n =
      .ok (m', k')) : SameChecks m m' ∧ k = k' := by
  rw [bfQueryManager, Res.bind_eq_ok] at h h'
  obtain ⟨⟨ros, m0, n0⟩, h1, h⟩ := h
  obtain ⟨⟨ros', m0', n0'⟩, h1', h'⟩ := h'
  rw [openInputExpr, Res.bind_eq_ok] at h1 h1'
  obtain ⟨⟨st, m1, n1⟩, h2, h1⟩ := h1
  obtain ⟨⟨st', m1', n1'⟩, h2', h1'⟩ := h1'
  obtain ⟨i1, i2, i3⟩ := roundLoopExpr_same _ hr _ _ ⟨rfl, rfl, rfl, rfl, rfl⟩ h2 h2'
  simp only at i1 i2 i3
  subst i1 i3
  cases h1
  cases h1'
  rw [Res.bind_eq_ok] at h h'
  obtain ⟨⟨f, m2, n2⟩, h3, h⟩ := h
  obtain ⟨⟨f', m2', n2'⟩, h3', h'⟩ := h'
  rw [bfVerifyQuery, Res.bind_eq_ok] at h3 h3'
  obtain ⟨⟨f3, i3, m3, n3⟩, h4, h3⟩ := h3
  obtain ⟨⟨f3', i3', m3', n3'⟩, h4', h3'⟩ := h3'
  obtain ⟨m4, h5, h6⟩ := queryLoopExpr_same i2 h4
  rw [h5] at h4'
  cases h4'
  simp only at h3 h3'
  split at h3
  · cases h3
  rename_i hd
  rw [if_neg hd] at h3'
  cases h3
  cases h3'
  obtain ⟨j1, j2⟩ := h6.assignInput (v := bb4Field.u32 proof.finalPoly) rfl n2
  simp only [Res.ok.injEq, Prod.mk.injEq] at h h'
  obtain ⟨rfl, rfl⟩ := h
  obtain ⟨rfl, rfl⟩ := h'
  exact ⟨⟨by simp only [InputManager.setExec, j1]; rfl, j2.hint, j2.counter, j2.inputVar, j2.inputHint⟩, rfl⟩

/-- An instance: the checks generated for the point `z` accept, with the inputs of the point `z'`, a final value that
does not belong to `z`. -/
theorem C79_points_instance (hL : L.Ok scfg) (hT : T.Ok scfg) (g p : BB) (α β z z' v a b : BB4)
    (hz : -z + algebraMap BB BB4 g ≠ 0) (hz' : -z' + algebraMap BB BB4 g ≠ 0) :
    ∃ m₁ m₂ n m' n', (∀ x m, (x, m) ∈ [(z, m₁), (z', m₂)] → bfVerifyChallenges bb4Field anyLayer ⟨1, 1, 0, true⟩
        (⟨[()], [⟨[([[p]], ())], [([[a, b]], ())]⟩],
          lineAt 1 β ((-v + algebraMap BB BB4 p) / (-z' + algebraMap BB BB4 g)) b, ()⟩ :
          FriProof BB4 Unit Unit Unit _) [β]
        (openInputExpr anyIn bbGen g ⟨1, 1, 0, true⟩ α [((), [((⟨1, 1⟩ : Dom BB), [(x, [v])])])] 2)
        [((0, 0), ⟨[([[p]], ())], [([[a, b]], ())]⟩)] 0 = .ok ([m], n)) ∧
      SameChecks m₁ m₂ ∧ m₂.embedHintVerify n = some (m', n') ∧ m'.run scfg L T = some () := by
  obtain ⟨m₁, n₁, _, _, h₁, -⟩ := C79_instance hL hT g p α β z v a b
    (lineAt 1 β ((-v + algebraMap BB BB4 p) / (-z' + algebraMap BB BB4 g)) b) hz
  obtain ⟨m₂, n₂, m', n', h₂, e₂, r₂⟩ := C79_instance hL hT g p α β z' v a b
    (lineAt 1 β ((-v + algebraMap BB BB4 p) / (-z' + algebraMap BB BB4 g)) b) hz'
  have one : ∀ {x : BB4} {w : BB4} {m : InputManager} {n : Nat}, bfVerifyChallenges bb4Field anyLayer ⟨1, 1, 0, true⟩
        (⟨[()], [⟨[([[p]], ())], [([[a, b]], ())]⟩], w, ()⟩ : FriProof BB4 Unit Unit Unit _) [β]
        (openInputExpr anyIn bbGen g ⟨1, 1, 0, true⟩ α [((), [((⟨1, 1⟩ : Dom BB), [(x, [v])])])] 2)
        [((0, 0), ⟨[([[p]], ())], [([[a, b]], ())]⟩)] 0 = .ok ([m], n) →
      bfQueryManager bb4Field anyLayer ⟨1, 1, 0, true⟩
        (⟨[()], [⟨[([[p]], ())], [([[a, b]], ())]⟩], w, ()⟩ : FriProof BB4 Unit Unit Unit _) [β]
        (openInputExpr anyIn bbGen g ⟨1, 1, 0, true⟩ α [((), [((⟨1, 1⟩ : Dom BB), [(x, [v])])])] 2)
        0 0 ⟨[([[p]], ())], [([[a, b]], ())]⟩ 0 = .ok (m, n) := by
    intro x w m n h
    rw [bfVerifyChallenges, Res.bind_eq_ok] at h
    obtain ⟨⟨m1, n1⟩, h1, h⟩ := h
    simp only [bfVerifyChallenges, Res.bind_ok, Res.ok.injEq, Prod.mk.injEq, List.cons.injEq, and_true] at h
    obtain ⟨rfl, rfl⟩ := h
    exact h1
  obtain ⟨hs, rfl⟩ := C79_violated_points (rounds := [((), [((⟨1, 1⟩ : Dom BB), [(z, [v])])])])
    (rounds' := [((), [((⟨1, 1⟩ : Dom BB), [(z', [v])])])])
    (.cons ⟨rfl, .cons ⟨rfl, .cons rfl .nil⟩ .nil⟩ .nil) (one h₁) (one h₂)
  refine ⟨m₁, m₂, n₁, m', n', ?_, hs, e₂, r₂.mpr rfl⟩
  intro x m hx
  simp only [List.mem_cons, Prod.mk.injEq, List.not_mem_nil, or_false] at hx
  rcases hx with ⟨rfl, rfl⟩ | ⟨rfl, rfl⟩
  · exact h₁
  · exact h₂

end TapStark.Pcs
