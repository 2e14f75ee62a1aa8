import Verif.Spec.ScriptVerifier
import Verif.Props.ScriptChallenges
import Verif.Props.ScriptQuotient
import Verif.Props.Unread
import Verif.Props.TraceScript
import Verif.Props.StarkInst

/-! The script verifier as a whole. -/

namespace TapStark.Stark

open TapStark.Fri TapStark.Pcs TapStark.FS

/-! ### When the managers of the queries can be generated -/

section
variable {F : Type} [Field F] [DecidableEq F] {S C D P W IP : Type} {B : BfField F} {M : Mmcs F S C D P}

theorem loop_iff (hB : B.Ok) {q : Nat} : ∀ {rounds : List (Nat × C × (List (List F) × P) × F)} (idx : Nat)
    (folded x : Expr) (ros : List (Nat × Expr)) {z : F} (m : InputManager) (n : Nat), z ≠ 0 →
    ((∃ out, queryLoopExpr B M q rounds idx folded ros x z m n = .ok out) ↔
      RowsOpened M q idx (rounds.map fun r => (r.2.1, r.2.2.1))) := by
  intro rounds
  induction rounds with
  | nil => exact fun _ _ _ _ _ _ _ _ => ⟨fun _ => trivial, fun _ => ⟨_, by rw [queryLoopExpr]⟩⟩
  | cons r rest ih =>
    intro idx folded x ros z m n hz
    obtain ⟨lfh, c, ⟨rows, π⟩, β⟩ := r
    have hz' : (if lfh = 1 then z else z * z) ≠ 0 := by
      split
      · exact hz
      · exact mul_ne_zero hz hz
    rw [List.map_cons, RowsOpened]
    constructor
    · rintro ⟨out, h⟩
      obtain ⟨row, s, next, m3, n3, h1, h2, h3, h4, h5⟩ := loop_cons.mp h
      simp only at h1 h2
      subst h1
      refine ⟨⟨row, rfl, h2, ?_⟩, (ih _ _ _ _ _ _ hz').mp ⟨_, h5⟩⟩
      exact (List.getElem?_eq_some_iff.mp h3).1
    · rintro ⟨⟨row, h1, h2, h3⟩, h5⟩
      subst h1
      obtain ⟨⟨next, m3, n3⟩, hf⟩ := foldRowExpr_some (B := B)
        (m := ((m.assignInput (B.u32 (row[1 - idx % 2])) (nextRoExpr (lfh + 1) folded ros n).2.2).2.1.assignInput (B.u32 β)
          (m.assignInput (B.u32 (row[1 - idx % 2])) (nextRoExpr (lfh + 1) folded ros n).2.2).2.2).2.1)
        (n := ((m.assignInput (B.u32 (row[1 - idx % 2])) (nextRoExpr (lfh + 1) folded ros n).2.2).2.1.assignInput (B.u32 β)
          (m.assignInput (B.u32 (row[1 - idx % 2])) (nextRoExpr (lfh + 1) folded ros n).2.2).2.2).2.2)
        hB (nextRoExpr (lfh + 1) folded ros n).1
        (m.assignInput (B.u32 (row[1 - idx % 2])) (nextRoExpr (lfh + 1) folded ros n).2.2).1 x
        ((m.assignInput (B.u32 (row[1 - idx % 2])) (nextRoExpr (lfh + 1) folded ros n).2.2).2.1.assignInput (B.u32 β)
          (m.assignInput (B.u32 (row[1 - idx % 2])) (nextRoExpr (lfh + 1) folded ros n).2.2).2.2).1 (1 - idx % 2) hz
      obtain ⟨out, ho⟩ := (ih (idx / 2) next (if lfh = 1 then x else (Dsl.square x n3).1)
        (nextRoExpr (lfh + 1) folded ros n).2.1 m3 (if lfh = 1 then n3 else (Dsl.square x n3).2) hz').mpr h5
      exact ⟨out, loop_cons.mpr ⟨row, row[1 - idx % 2], next, m3, n3, rfl, h2, List.getElem?_eq_getElem h3, hf, ho⟩⟩

theorem rounds_map {α β γ δ : Type} (hs : List α) (cs : List β) (os : List γ) (bs : List δ) (h1 : cs.length ≤ hs.length)
    (h2 : bs.length = cs.length) :
    ((hs.zip (cs.zip (os.zip bs))).map fun r => (r.2.1, r.2.2.1)) = cs.zip os := by
  apply List.ext_getElem
  · simp; omega
  · intro i h3 h4
    simp

theorem verifyQuery_iff (hB : B.Ok) {cfg : Config} {commits : List C} {openings : List (List (List F) × P)}
    {betas : List F} {idx q : Nat} (hmax : commits.length + cfg.logBlowup ≤ 27)
    (hidx : idx < 2 ^ (commits.length + cfg.logBlowup))
    (hbe : betas.length = commits.length) (ros : List (Nat × Expr)) (m : InputManager) (n : Nat) :
    (∃ out, bfVerifyQuery B M cfg commits idx q openings betas ros (commits.length + cfg.logBlowup) m n = .ok out) ↔
      RowsOpened M q idx (commits.zip openings) ∧ (cfg.debug = true → idx < 2 ^ (openings.length + cfg.logBlowup)) := by
  have hz : B.gen (commits.length + cfg.logBlowup) ^ revBits (commits.length + cfg.logBlowup) idx ≠ 0 :=
    pow_ne_zero _ (hB.twoAdic.ne_zero hmax)
  have hm := rounds_map (List.range (commits.length + cfg.logBlowup)).reverse commits openings betas (by simp) hbe
  unfold bfVerifyQuery
  rw [← hm, ← loop_iff hB (M := M) (q := q) (z := B.gen (commits.length + cfg.logBlowup) ^
    revBits (commits.length + cfg.logBlowup) idx) idx (Dsl.constant (B.u32 0) n).1
      (Dsl.indexToRou B.consts (Dsl.reverseBitsLen idx (commits.length + cfg.logBlowup) (Dsl.constant (B.u32 0) n).2).1
      (commits.length + cfg.logBlowup) (Dsl.reverseBitsLen idx (commits.length + cfg.logBlowup)
        (Dsl.constant (B.u32 0) n).2).2).1 ros m
      (Dsl.indexToRou B.consts (Dsl.reverseBitsLen idx (commits.length + cfg.logBlowup) (Dsl.constant (B.u32 0) n).2).1
      (commits.length + cfg.logBlowup) (Dsl.reverseBitsLen idx (commits.length + cfg.logBlowup)
        (Dsl.constant (B.u32 0) n).2).2).2 hz]
  simp only [Res.bind_eq_ok]
  have hlen : ((List.range (commits.length + cfg.logBlowup)).reverse.zip (commits.zip (openings.zip betas))).length
      = min commits.length openings.length := by
    simp only [List.length_zip, List.length_reverse, List.length_range]
    omega
  have key : ∀ idx', idx' = idx / 2 ^ min commits.length openings.length →
      (idx' < cfg.blowup ↔ idx < 2 ^ (openings.length + cfg.logBlowup)) := by
    rintro idx' rfl
    rw [Config.blowup, Nat.div_lt_iff_lt_mul (Nat.two_pow_pos _), ← pow_add, Nat.add_comm]
    rcases Nat.le_total commits.length openings.length with h | h
    · rw [Nat.min_eq_left h]
      exact iff_of_true hidx (hidx.trans_le (Nat.pow_le_pow_right (by decide) (by omega)))
    · rw [Nat.min_eq_right h]
  constructor
  · rintro ⟨out, ⟨⟨e, idx', m', n'⟩, h, h2⟩⟩
    refine ⟨⟨_, h⟩, fun hd => ?_⟩
    have hle := (loop_le h).2.1
    rw [hlen] at hle
    refine (key idx' hle).mp ?_
    by_contra hc
    simp only [hd, hc, not_false_eq_true, and_self, if_true] at h2
    cases h2
  · rintro ⟨⟨⟨e, idx', m', n'⟩, h⟩, hdb⟩
    have hle := (loop_le h).2.1
    rw [hlen] at hle
    exact ⟨(e, m', n'), _, h, if_neg fun hd => hd.2 ((key idx' hle).mpr (hdb hd.1))⟩

end

section
variable {SI DI PI S D P : Type} {MI : InMmcs BB SI Roots DI PI} {M : Mmcs BB4 S Roots D P} {cfg : Config}

/-- The manager of a query is generated iff its input openings pass natively and its rows are accepted. -/
theorem queryManager_iff {g : BB} {alpha : BB4} {rounds : List (VerifierRound BB BB4 Roots)}
    {proof : FriProof BB4 Roots P U32 (List (List (List BB) × PI))} {betas : List BB4}
    (hmax : proof.commitPhaseCommits.length + cfg.logBlowup ≤ 27) (hbe : betas.length = proof.commitPhaseCommits.length)
    {q idx : Nat} {qp : QueryProof BB4 P (List (List (List BB) × PI))}
    (hidx : idx < 2 ^ (proof.commitPhaseCommits.length + cfg.logBlowup)) (n : Nat) :
    (∃ out, bfQueryManager bb4Field M cfg proof betas (openInputExpr MI bbGen g cfg alpha rounds
        (proof.commitPhaseCommits.length + cfg.logBlowup)) q idx qp n = .ok out) ↔
      RowsOpened M q idx (proof.commitPhaseCommits.zip qp.commitPhaseOpenings) ∧
      (cfg.debug = true → idx < 2 ^ (qp.commitPhaseOpenings.length + cfg.logBlowup)) ∧
      ∃ vals, verifyInput MI bbGen g cfg alpha rounds (proof.commitPhaseCommits.length + cfg.logBlowup) q idx
        qp.inputProof = .ok vals := by
  have ho := C79_openings MI bbGen g cfg alpha rounds (proof.commitPhaseCommits.length + cfg.logBlowup) q idx qp.inputProof n
  unfold bfQueryManager
  revert ho
  cases hv : verifyInput MI bbGen g cfg alpha rounds (proof.commitPhaseCommits.length + cfg.logBlowup) q idx
      qp.inputProof with
  | panic => intro h; simp only at h; rw [h]; simp
  | err e => intro h; simp only at h; rw [h]; simp
  | ok vals =>
    rintro ⟨ros, m, n', h, -, -⟩
    have hi := verifyQuery_iff (M := M) (q := q) (openings := qp.commitPhaseOpenings) bb4Field_ok hmax hidx hbe ros m n'
    simp only [h, Res.bind_ok]
    constructor
    · rintro ⟨out, h1⟩
      rw [Res.bind_eq_ok] at h1
      obtain ⟨r, h1, -⟩ := h1
      exact ⟨(hi.mp ⟨r, h1⟩).1, (hi.mp ⟨r, h1⟩).2, vals, rfl⟩
    · rintro ⟨h1, h1', -⟩
      obtain ⟨r, h2⟩ := hi.mpr ⟨h1, h1'⟩
      rw [h2]
      exact ⟨_, rfl⟩

theorem queryManagers_iff {g : BB} {alpha : BB4} {rounds : List (VerifierRound BB BB4 Roots)}
    {proof : FriProof BB4 Roots P U32 (List (List (List BB) × PI))} {betas : List BB4}
    (hmax : proof.commitPhaseCommits.length + cfg.logBlowup ≤ 27) (hbe : betas.length = proof.commitPhaseCommits.length) :
    ∀ {queries : List ((Nat × Nat) × QueryProof BB4 P (List (List (List BB) × PI)))} (n : Nat),
    (∀ qr ∈ queries, qr.1.2 < 2 ^ (proof.commitPhaseCommits.length + cfg.logBlowup)) →
    ((∃ out, bfVerifyChallenges bb4Field M cfg proof betas (openInputExpr MI bbGen g cfg alpha rounds
        (proof.commitPhaseCommits.length + cfg.logBlowup)) queries n = .ok out) ↔
      ∀ qr ∈ queries, RowsOpened M qr.1.1 qr.1.2 (proof.commitPhaseCommits.zip qr.2.commitPhaseOpenings) ∧
        (cfg.debug = true → qr.1.2 < 2 ^ (qr.2.commitPhaseOpenings.length + cfg.logBlowup)) ∧
        ∃ vals, verifyInput MI bbGen g cfg alpha rounds (proof.commitPhaseCommits.length + cfg.logBlowup) qr.1.1 qr.1.2
          qr.2.inputProof = .ok vals) := by
  intro queries
  induction queries with
  | nil => exact fun n _ => ⟨fun _ => by simp, fun _ => ⟨_, by rw [bfVerifyChallenges]⟩⟩
  | cons qr queries ih =>
    intro n hq
    obtain ⟨⟨q, i⟩, qp⟩ := qr
    have hi := hq _ (List.mem_cons_self ..)
    have h1 := queryManager_iff (MI := MI) (M := M) (g := g) (alpha := alpha) (rounds := rounds) (q := q) (qp := qp) hmax hbe hi n
    rw [bfVerifyChallenges, List.forall_mem_cons, ← h1]
    constructor
    · rintro ⟨out, h⟩
      rw [Res.bind_eq_ok] at h
      obtain ⟨⟨m, k⟩, h2, h⟩ := h
      rw [Res.bind_eq_ok] at h
      obtain ⟨⟨ms', k'⟩, h3, h⟩ := h
      exact ⟨⟨_, h2⟩, (ih k fun qr h => hq qr (List.mem_cons_of_mem _ h)).mp ⟨_, h3⟩⟩
    · rintro ⟨⟨⟨m, k⟩, h2⟩, h3⟩
      obtain ⟨⟨ms', k'⟩, h3⟩ := (ih k fun qr h => hq qr (List.mem_cons_of_mem _ h)).mpr h3
      simp only [h2, Res.bind_ok, h3]
      exact ⟨_, rfl⟩

end

/-! ### The transcript -/

section
variable {perm : List U32 → List U32}

theorem betasExpr_native : ∀ {comms : List Roots} {c c' : Chal U32} {e e' : ChalExpr} {n n' : Nat} {betas : List BB4}
    {checks : List Expr}, betasExpr perm comms c e n = some (betas, checks, c', e', n') →
    sampleBetas (bb4Chall perm) comms c = some (betas, c')
  | [], c, c', e, e', n, n', betas, checks, h => by
    rw [betasExpr] at h
    cases h
    rfl
  | comm :: comms, c, c', e, e', n, n', betas, checks, h => by
    rw [betasExpr] at h
    simp only [Option.bind_eq_bind, Option.bind_eq_some_iff, Prod.exists] at h
    obtain ⟨c1, h1, beta, c2, h2, e1, n1, -, x, ck, e2, n2, -, bs, cks, c3, e3, n3, h3, h4⟩ := h
    have h4 := Option.some.inj h4
    cases h4
    rw [sampleBetas]
    simp only [Option.bind_eq_bind, h1, h2, Option.bind_some, betasExpr_native h3]

theorem indicesExpr_native {bits : Nat} : ∀ {k q : Nat} {c c' : Chal U32} {e e' : ChalExpr} {n n' : Nat}
    {is : List (Nat × Nat)} {checks : List Expr}, indicesExpr perm bits k q c e n = some (is, checks, c', e', n') →
    sampleIndices (bb4Chall perm) bits k q c = some (is, c')
  | 0, q, c, c', e, e', n, n', is, checks, h => by
    rw [indicesExpr] at h
    cases h
    rfl
  | k + 1, q, c, c', e, e', n, n', is, checks, h => by
    rw [indicesExpr] at h
    simp only [Option.bind_eq_bind, Option.bind_eq_some_iff, Prod.exists] at h
    obtain ⟨i, c1, h1, x, e1, n1, -, is', cks, c2, e2, n2, h2, h3⟩ := h
    have h3 := Option.some.inj h3
    cases h3
    rw [sampleIndices]
    simp only [Option.bind_eq_bind, h1, Option.bind_some, indicesExpr_native h2]

theorem bfSample_native {cfg : Config} {P IP : Type} {proof : FriProof BB4 Roots P U32 IP} {c c' : Chal U32}
    {e e' : ChalExpr} {n n' : Nat} {fc : FriChallenges BB4} {checks : List Expr}
    (h : bfSampleChallenges perm cfg proof c e n = .ok (fc, checks, c', e', n')) :
    verifyShapeAndSampleChallenges (bb4Chall perm) cfg proof c = .ok (fc, c') := by
  rw [bfSampleChallenges, Res.bind_eq_ok] at h
  obtain ⟨⟨betas, cks, c1, e1, n1⟩, h1, h⟩ := h
  rw [Res.ofOption_eq_ok] at h1
  rw [verifyShapeAndSampleChallenges, betasExpr_native h1]
  simp only [Res.ofOption, Res.bind_ok] at h ⊢
  split at h
  · cases h
  rename_i hs
  rw [if_neg hs]
  rw [Res.bind_eq_ok] at h
  obtain ⟨⟨acc, c2⟩, h2, h⟩ := h
  have h2 : (bb4Chall perm).checkWitness c1 cfg.powBits proof.powWitness = some (acc, c2) := by
    cases hw : (bb4Chall perm).checkWitness c1 cfg.powBits proof.powWitness with
    | none => rw [hw] at h2; cases h2
    | some r => rw [hw] at h2; cases h2; rfl
  rw [h2]
  simp only [Res.bind_ok] at h ⊢
  split at h
  · cases h
  rename_i ha
  rw [if_neg ha]
  rw [Res.bind_eq_ok] at h
  obtain ⟨⟨pow, e2, n2⟩, h3, h⟩ := h
  rw [Res.bind_eq_ok] at h
  obtain ⟨⟨is, more, c3, e3, n3⟩, h4, h⟩ := h
  cases hi : indicesExpr perm (proof.commitPhaseCommits.length + cfg.logBlowup) cfg.numQueries 0 c2 e2 n2 with
  | none => rw [hi] at h4; cases h4
  | some r =>
    rw [hi] at h4
    cases h4
    rw [indicesExpr_native hi]
    cases h
    rfl

/-- The native challenges are drawn wherever those of the script verifier are. -/
theorem allChallenges_native {cfg : Config} {P IP : Type} {bits : Nat} {trace quotient : Roots}
    {proof : FriProof BB4 Roots P U32 IP} {c c' : Chal U32} {e e' : ChalExpr} {n n' : Nat} {out : BB4 × BB4 × BB4 × FriChallenges BB4}
    {zetaE : Expr} {checks : List Expr}
    (h : allChallenges perm cfg bits trace quotient proof c e n = .ok (out, zetaE, checks, c', e', n')) :
    nativeTranscript perm cfg trace quotient proof c = .ok (out, c') := by
  rw [allChallenges, Res.bind_eq_ok] at h
  obtain ⟨⟨alpha, zeta, zE, cks, c1, e1, n1⟩, h1, h⟩ := h
  rw [Res.bind_eq_ok] at h
  obtain ⟨⟨batch, c2⟩, h2, h⟩ := h
  rw [Res.bind_eq_ok] at h
  obtain ⟨⟨fc, more, c3, e3, n3⟩, h3, h⟩ := h
  cases h
  rw [Res.ofOption_eq_ok] at h1 h2
  rw [starkChallenges] at h1
  simp only [Option.bind_eq_bind, Option.bind_eq_some_iff, Prod.exists] at h1
  obtain ⟨d1, g1, f1, k1, -, al, d2, g2, x1, x2, f2, k2, -, d3, g3, f3, k3, -, ze, d4, g4, x3, x4, f4, k4, -, h1⟩ := h1
  have h1 := Option.some.inj h1
  cases h1
  unfold nativeTranscript
  simp only [g1, g2, g3, g4, h2, Res.ofOption, Res.bind_ok, bfSample_native h3]

theorem sampleIndices_lt {bits : Nat} : ∀ {k q : Nat} {c c' : Chal U32} {is : List (Nat × Nat)},
    sampleIndices (bb4Chall perm) bits k q c = some (is, c') → ∀ i ∈ is, i.2 < 2 ^ bits
  | 0, q, c, c', is, h => by
    rw [sampleIndices] at h
    cases h
    simp
  | k + 1, q, c, c', is, h => by
    rw [sampleIndices] at h
    simp only [Option.bind_eq_bind, Option.bind_eq_some_iff, Prod.exists] at h
    obtain ⟨i, c1, h1, is', c2, h2, h3⟩ := h
    have h3 := Option.some.inj h3
    cases h3
    intro j hj
    rcases List.mem_cons.mp hj with rfl | hj
    · exact C30_range_partial perm 4 bits c c1 i h1
    · exact sampleIndices_lt h2 j hj

theorem sampleBetas_length {comms : List Roots} : ∀ {c c' : Chal U32} {betas : List BB4},
    sampleBetas (bb4Chall perm) comms c = some (betas, c') → betas.length = comms.length := by
  induction comms with
  | nil =>
    intro c c' betas h
    rw [sampleBetas] at h
    cases h
    rfl
  | cons comm comms ih =>
    intro c c' betas h
    rw [sampleBetas] at h
    simp only [Option.bind_eq_bind, Option.bind_eq_some_iff, Prod.exists] at h
    obtain ⟨c1, h1, b, c2, h2, bs, c3, h3, h4⟩ := h
    have h4 := Option.some.inj h4
    cases h4
    simp [ih h3]

theorem nativeTranscript_shape {cfg : Config} {P IP : Type} {trace quotient : Roots}
    {proof : FriProof BB4 Roots P U32 IP} {c c' : Chal U32} {alpha zeta batch : BB4} {fc : FriChallenges BB4}
    (h : nativeTranscript perm cfg trace quotient proof c = .ok ((alpha, zeta, batch, fc), c')) :
    fc.betas.length = proof.commitPhaseCommits.length ∧
      ∀ i ∈ fc.queryIndices, i.2 < 2 ^ (proof.commitPhaseCommits.length + cfg.logBlowup) := by
  unfold nativeTranscript at h
  simp only [Res.bind_eq_ok, Res.ofOption_eq_ok] at h
  obtain ⟨c1, -, ⟨a, c2⟩, -, c3, -, ⟨z, c4⟩, -, ⟨b, c5⟩, -, ⟨fc', c6⟩, h, h'⟩ := h
  cases h'
  unfold verifyShapeAndSampleChallenges at h
  rw [Res.bind_eq_ok] at h
  obtain ⟨⟨betas, c7⟩, h1, h⟩ := h
  rw [Res.ofOption_eq_ok] at h1
  simp only at h
  split at h
  · cases h
  rw [Res.bind_eq_ok] at h
  obtain ⟨⟨acc, c8⟩, h2, h⟩ := h
  simp only at h
  split at h
  · cases h
  rw [Res.bind_eq_ok] at h
  obtain ⟨⟨is, c9⟩, h3, h⟩ := h
  rw [Res.ofOption_eq_ok] at h3
  cases h
  exact ⟨sampleBetas_length h1, sampleIndices_lt h3⟩

end

/-! ### Running the managers -/

theorem embed_le (hs : List Expr) : ∀ (e : Expr) (n : Nat), n ≤ (InputManager.embed e hs n).2 := by
  induction hs with
  | nil => intro e n; exact Nat.le_refl _
  | cons h hs ih =>
    intro e n
    exact Nat.le_trans (Nat.le_succ n) (ih _ _)

theorem embedHintVerify_le {m m' : InputManager} {n n' : Nat} (h : m.embedHintVerify n = some (m', n')) : n ≤ n' := by
  unfold InputManager.embedHintVerify at h
  split at h
  · cases h
    exact embed_le _ _ _
  · cases h
    exact Nat.le_refl _
  · cases h

theorem runManagers_iff {scfg : Cfg} {L : U31Lib} {T : TrackerLib} {n0 : Nat} : ∀ {ms : List InputManager} {Qs : List Prop},
    List.Forall₂ (fun m Q => ∀ N, n0 ≤ N → ∃ m' N', m.embedHintVerify N = some (m', N') ∧
      (m'.run scfg L T = some () ↔ Q)) ms Qs → ∀ n, n0 ≤ n →
    ((∃ k, runManagers scfg L T ms n = some k) ↔ ∀ Q ∈ Qs, Q) := by
  intro ms Qs h
  induction h with
  | nil => intro n _; exact ⟨fun _ => by simp, fun _ => ⟨n, rfl⟩⟩
  | @cons m Q ms Qs h1 _ ih =>
    intro n hn
    obtain ⟨m', N', h2, h3⟩ := h1 n hn
    have ih := ih N' (hn.trans (embedHintVerify_le h2))
    rw [List.forall_mem_cons, ← ih, ← h3, runManagers]
    simp only [h2, Option.bind_eq_bind, Option.bind_some]
    cases m'.run scfg L T with
    | none => simp
    | some u => simp

end TapStark.Stark
