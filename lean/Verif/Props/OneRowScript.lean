import Verif.Props.EmptyProofScript
import Verif.Proofs.HonestRows

/-!
C79 and C82, proofs of traces with one row.  Such a proof has no commit-phase commitments: the script of a query compares
the constant zero with the final value and reads none of the opened values.  These stay on the stack, so that no script of
a query succeeds.
-/

namespace TapStark.Fri

section
variable {F : Type} [Field F] [DecidableEq F] {S C D Pf W IP : Type}
variable {B : BfField F} {M : Mmcs F S C D Pf} {cfg : Config}

/-- **C79 is violated** by proofs without commit-phase commitments: the script of a query that opens anything fails. -/
theorem C79_violated_no_rounds {scfg : Cfg} {L : U31Lib} {T : TrackerLib} (hL : L.Ok scfg) (hT : T.Ok scfg) (hB : B.Ok)
    {proof : FriProof F C Pf W IP} {betas : List F}
    {openInput : Nat → Nat → IP → InputManager → Nat → Res (List (Nat × Expr) × InputManager × Nat)}
    {q idx n n0 n1 : Nat} {qp : QueryProof F Pf IP} {ros : List (Nat × Expr)} {vals : List (Nat × F)}
    {m0 m : InputManager} (hc : proof.commitPhaseCommits = [])
    (hopen : openInput q idx qp.inputProof .new n = .ok (ros, m0, n0)) (hto : OpensTo B m0 n0 ros vals)
    (hin : m0.inputs ≠ [])
    (hq : bfQueryManager B M cfg proof betas openInput q idx qp n = .ok (m, n1)) :
    ∀ N, n1 ≤ N → ∃ m' n', m.embedHintVerify N = some (m', n') ∧ m'.run scfg L T ≠ some () := by
  intro N hN
  rw [bfQueryManager, Res.bind_eq_ok] at hq
  obtain ⟨_, ho, hq⟩ := hq
  rw [hopen] at ho
  cases ho
  rw [Res.bind_eq_ok] at hq
  obtain ⟨⟨folded, m2, n2⟩, hv, hq⟩ := hq
  simp only [Res.ok.injEq, Prod.mk.injEq] at hq
  obtain ⟨rfl, rfl⟩ := hq
  rw [hc, bfVerifyQuery, Res.bind_eq_ok] at hv
  obtain ⟨⟨folded', idx', m2', n2'⟩, hl, hv⟩ := hv
  simp only at hv
  split at hv
  · cases hv
  simp only [Res.ok.injEq, Prod.mk.injEq] at hv
  obtain ⟨rfl, rfl, rfl⟩ := hv
  simp only [List.zip_nil_left, List.zip_nil_right, queryLoopExpr, Res.ok.injEq, Prod.mk.injEq] at hl
  obtain ⟨rfl, -, rfl, hn2⟩ := hl
  have hn0 : n0 + 1 ≤ n2' := by
    rw [← hn2]
    simp only [Dsl.indexToRou, Dsl.reverseBitsLen, Dsl.constant, Dsl.mk]
    omega
  have le2 := InputManager.le_assignInput (B.u32 proof.finalPoly) m0 n2'
  have hnm : m0.Named := ⟨hto.names, hto.nodup⟩
  have named := hnm.assignInput (B.u32 proof.finalPoly) n2'
  obtain ⟨K, env, ha⟩ := exists_agrees (m := (m0.assignInput (B.u32 proof.finalPoly) n2').2.1) named.nodup (by
    intro p hp
    simp only [InputManager.inputs, InputManager.assignInput, List.mem_append, List.mem_singleton] at hp
    rcases hp with hp | hp | rfl
    · exact hto.values p (List.mem_append_left _ hp)
    · exact hto.values p (List.mem_append_right _ hp)
    · show (constVal (B.u32 proof.finalPoly)).isSome = true
      rw [hB.const]; rfl)
  obtain ⟨P0, b0, r0⟩ := hto.built K env (ha.mono le2)
  obtain ⟨P1, b1, s1, d1⟩ := makes_const (env := env) hB b0 (0 : F)
  obtain ⟨P4, b4, s4, d4⟩ := makes_input (n := n2') hB (b1.mono hn0) proof.finalPoly ha
  obtain ⟨P5, b5, s5, p5, o5, k5⟩ := makes_equal hB b4 (d1.mono s4) d4
  obtain ⟨m', n', e1, e2⟩ := C59_exact (n := N)
    (m := (m0.assignInput (B.u32 proof.finalPoly) n2').2.1.setExec (Dsl.equal (Dsl.constant (B.u32 0) n0).1
      (m0.assignInput (B.u32 proof.finalPoly) n2').1 (m0.assignInput (B.u32 proof.finalPoly) n2').2.2).1)
    (K := K) (env := env) (P := P5) (rs := []) hL hT (b5.mono hN).good p5
    (by
      intro h hh
      have hh : h ∈ m0.hint := hh
      rw [hto.hint] at hh
      cases hh) ⟨ha.vals, ha.kinds, ha.nodup⟩ (fun s v hs hv => b5.prov s v hs hv) rfl k5
    (by
      show List.Forall₂ _ m0.hint _
      rw [hto.hint]
      exact .nil)
    (embed_multiOk (rs := []) (b5.mono hN).good b5.safe p5 id k5
      (by
        intro h hh
        have hh : h ∈ m0.hint := hh
        rw [hto.hint] at hh
        cases hh) (by
        show List.Forall₂ _ m0.hint _
        rw [hto.hint]
        exact .nil))
  refine ⟨m', n', e1, fun hr => ?_⟩
  obtain ⟨-, hall⟩ := e2.mp hr
  obtain ⟨p, hp⟩ := List.exists_mem_of_ne_nil _ hin
  obtain ⟨s, hs, hop⟩ := hall p (by
    show p ∈ (m0.assignInput (B.u32 proof.finalPoly) n2').2.1.inputs
    simp only [InputManager.inputs, InputManager.assignInput, List.mem_append, List.mem_singleton] at hp ⊢
    tauto)
  have hfresh := hnm.fresh
  have hne : p.1 ≠ ⟨5, m0.counter, none⟩ := fun h => hfresh (h ▸ List.mem_map_of_mem hp)
  rcases hs with hs | ⟨h, hh, -⟩
  · cases hs with
    | refl => simp [Dsl.equal, Dsl.mk, Expr.opc] at hop
    | arg h1 h2 =>
      simp only [Dsl.equal, Dsl.mk, Expr.args, List.mem_cons, List.not_mem_nil, or_false] at h1
      rcases h1 with rfl | rfl
      · cases h2 with
        | refl => simp [Dsl.constant, Dsl.mk, Expr.opc] at hop
        | arg h1 _ => simp [Dsl.constant, Dsl.mk, Expr.args] at h1
      · cases h2 with
        | refl =>
          simp only [InputManager.assignInput, Expr.opc, Opc.inputMove.injEq] at hop
          exact hne hop.symm
        | arg h1 _ => simp [InputManager.assignInput, Expr.args] at h1
  · have hh : h ∈ m0.hint := hh
    rw [hto.hint] at hh
    cases hh

end

end TapStark.Fri

namespace TapStark.Pcs

open TapStark.Fri TapStark.FS TapStark.Stark

variable {SI CI DI PI : Type}

/-- Where the first opening has a row and the first matrix a point, the input opening has inputs. -/
theorem openInputExpr_inputs {MI : InMmcs BB SI CI DI PI} {genV : Nat → BB} {g : BB} {cfg : Config} {alpha : BB4}
    {commit : CI} {dom : Dom BB} {p : BB4 × List BB4} {pts : List (BB4 × List BB4)}
    {mats : List (Dom BB × List (BB4 × List BB4))} {rounds : List (VerifierRound BB BB4 CI)} {top q i : Nat}
    {o : List (List BB) × PI} (hrow : o.1 ≠ []) {ip : List (List (List BB) × PI)} {n n' : Nat} {ros : List (Nat × Expr)}
    {m : InputManager}
    (h : openInputExpr MI genV g cfg alpha ((commit, (dom, p :: pts) :: mats) :: rounds) top q i (o :: ip) .new n =
      .ok (ros, m, n')) : m.inputs ≠ [] := by
  obtain ⟨rows, π⟩ := o
  obtain ⟨row, rows, rfl⟩ := List.exists_cons_of_ne_nil hrow
  rw [openInputExpr, Res.bind_eq_ok] at h
  obtain ⟨⟨st, m1, n1⟩, h, h1⟩ := h
  simp only [Res.ok.injEq, Prod.mk.injEq] at h1
  obtain ⟨-, rfl, -⟩ := h1
  rw [List.zip_cons_cons, roundLoopExpr, Res.bind_eq_ok] at h
  obtain ⟨mx, -, h⟩ := h
  rw [Res.bind_eq_ok] at h
  obtain ⟨lm, -, h⟩ := h
  split at h
  swap
  · cases h
  rw [Res.bind_eq_ok] at h
  obtain ⟨acc, -, h⟩ := h
  split at h
  swap
  · cases h
  rw [Res.bind_eq_ok] at h
  obtain ⟨⟨st2, m2, n2⟩, h2, h⟩ := h
  rw [Res.ofOption_eq_ok, List.zip_cons_cons, matLoopExpr] at h2
  simp only [Option.bind_eq_bind, Option.bind_eq_some_iff] at h2
  obtain ⟨k, -, h2⟩ := h2
  split at h2
  swap
  · cases h2
  simp only [Option.bind_eq_some_iff] at h2
  obtain ⟨⟨a3, e3, m3, n3⟩, h3, h2⟩ := h2
  have hm3 := pointLoopExpr_inputs h3
  have hm2 : m3.Le m2 := matLoopExpr_le h2
  exact inputs_ne_of_le (hm2.trans (roundLoopExpr_le h)) hm3

end TapStark.Pcs

namespace TapStark.Stark

open TapStark.Fri TapStark.Pcs TapStark.FS TapStark.Tcs

variable {SI DI PI S D P : Type} {scfg : Cfg} {L : U31Lib} {T : TrackerLib} {drops : Nat → List Op}

theorem indicesExpr_length {perm : List U32 → List U32} {bits : Nat} : ∀ {k q : Nat} {c c' : Chal U32} {e e' : ChalExpr}
    {n n' : Nat} {is : List (Nat × Nat)} {checks : List Expr},
    indicesExpr perm bits k q c e n = some (is, checks, c', e', n') → is.length = k
  | 0, q, c, c', e, e', n, n', is, checks, h => by cases h; rfl
  | k + 1, q, c, c', e, e', n, n', is, checks, h => by
    rw [indicesExpr] at h
    simp only [Option.bind_eq_bind, Option.bind_eq_some_iff] at h
    obtain ⟨_, -, _, -, ⟨is', _, _, _, _⟩, h1, h⟩ := h
    cases h
    rw [List.length_cons, indicesExpr_length h1]

section

variable {mi : InMmcs BB SI Roots DI PI} {m : Mmcs BB4 S Roots D P} {cfg : Config} {air : Air BB}
  {pub : List BB} {proof : ProofOf BB BB4 Roots P U32 PI}

/-- The scripts of the queries without commit-phase commitments: the script of a query whose first opening has a row fails. -/
theorem managers_no_rounds (hL : L.Ok scfg) (hT : T.Ok scfg) {fri : FriProof BB4 Roots P U32 (List (List (List BB) × PI))}
    (hc : fri.commitPhaseCommits = []) {genV : Nat → BB} {g : BB} {batch : BB4} {betas : List BB4} {commit : Roots}
    {dom : Dom BB} {p : BB4 × List BB4} {pts : List (BB4 × List BB4)} {mats : List (Dom BB × List (BB4 × List BB4))}
    {rounds : List (VerifierRound BB BB4 Roots)} {top : Nat} :
    ∀ {queries : List ((Nat × Nat) × QueryProof BB4 P (List (List (List BB) × PI)))} {n n' : Nat} {ms : List InputManager},
    (∃ qr ∈ queries, ∃ o ip, qr.2.inputProof = o :: ip ∧ o.1 ≠ []) →
    bfVerifyChallenges bb4Field m cfg fri betas (openInputExpr mi genV g cfg batch
      ((commit, (dom, p :: pts) :: mats) :: rounds) top) queries n = .ok (ms, n') →
    ∃ m1 ∈ ms, ∃ n1, n1 ≤ n' ∧ ∀ N, n1 ≤ N → ∃ m' k', m1.embedHintVerify N = some (m', k') ∧ m'.run scfg L T ≠ some ()
  | [], n, n', ms, he, _ => by
    obtain ⟨_, h, -⟩ := he
    cases h
  | ((q, i), qp) :: queries, n, n', ms, he, h => by
    rw [bfVerifyChallenges, Res.bind_eq_ok] at h
    obtain ⟨⟨m1, n1⟩, h1, h⟩ := h
    rw [Res.bind_eq_ok] at h
    obtain ⟨⟨ms', k'⟩, h2, h⟩ := h
    cases h
    obtain ⟨qr, hqr, o, ip, e, hrow⟩ := he
    rcases List.mem_cons.mp hqr with rfl | hqr
    · refine ⟨m1, List.mem_cons_self .., n1, managers_counter h2, ?_⟩
      simp only at e
      have h3 := h1
      rw [bfQueryManager, Res.bind_eq_ok] at h3
      obtain ⟨⟨ros, m0, n0⟩, h3, -⟩ := h3
      have := C79_openings mi genV g cfg batch ((commit, (dom, p :: pts) :: mats) :: rounds) top q i qp.inputProof n
      revert this
      cases hv : verifyInput mi genV g cfg batch ((commit, (dom, p :: pts) :: mats) :: rounds) top q i qp.inputProof with
      | panic => intro h; simp only at h; rw [h] at h3; cases h3
      | err e => intro h; simp only at h; rw [h] at h3; cases h3
      | ok vals =>
        rintro ⟨ros', m0', n0', h, -, hto⟩
        rw [h] at h3
        cases h3
        exact C79_violated_no_rounds hL hT bb4Field_ok hc h hto (openInputExpr_inputs hrow (e ▸ h)) h1
    · obtain ⟨m2, hm2, n2, hn2, h3⟩ := managers_no_rounds hL hT hc ⟨qr, hqr, o, ip, e, hrow⟩ h2
      exact ⟨m2, List.mem_cons_of_mem _ hm2, n2, hn2, h3⟩

/-- **C82 is violated** by proofs without commit-phase commitments, that is by proofs of traces with one row: the script
verifier never succeeds if a query opens a row. -/
theorem C82_violated_no_rounds (hL : L.Ok scfg) (hT : T.Ok scfg) {perm : List U32 → List U32}
    (hc : proof.openingProof.commitPhaseCommits = [])
    (hrow : ∃ qp ∈ proof.openingProof.queryProofs, ∃ o ip, qp.inputProof = o :: ip ∧ o.1 ≠ [])
    (c : Chal U32) (e : ChalExpr) (n : Nat) (out : Chal U32 × ChalExpr) :
    generateScriptVerifier scfg L T drops mi m perm cfg air c e proof pub n ≠ .ok out := by
  intro h
  cases hq : getLogQuotientDegree air pub.length with
  | none =>
    unfold generateScriptVerifier scriptVerifierWith at h
    simp only [hq] at h
    cases h
  | some q =>
  rcases Nat.eq_zero_or_pos q with rfl | hq1
  swap
  · exact C82_violated_two_chunks hq1 hq c e n out h
  unfold generateScriptVerifier scriptVerifierWith at h
  simp only [hq, naturalDomainForDegree, log2Strict_pow, Option.bind_eq_bind, Option.bind_some] at h
  split at h
  · cases h
  rename_i domains hdom
  have hlen : domains.length = 1 := by
    unfold splitDomains createDisjointDomain at hdom
    simp only [Option.bind_eq_bind, Option.bind_eq_some_iff] at hdom
    obtain ⟨lc, h3, hdom⟩ := hdom
    split at hdom
    · have hdom := Option.some.inj hdom
      rw [← hdom]
      simp
    · cases hdom
  obtain ⟨d, rfl⟩ := List.length_eq_one_iff.mp hlen
  split at h
  · cases h
  rename_i hshape
  obtain ⟨-, -, hch, hcs⟩ := not_not.mp hshape
  obtain ⟨chunk, hch⟩ := List.length_eq_one_iff.mp (hch.trans (pow_zero _))
  have hc4 : chunk.length = 4 := hcs chunk (by rw [hch]; exact List.mem_cons_self ..)
  split at h
  · cases h
  rename_i alpha zeta zetaE checks c1 e1 n0 _
  split at h
  · cases h
  · cases h
  rename_i ms more c2 e2 n2 h2
  rw [generateVerifyExpr, Res.bind_eq_ok] at h2
  obtain ⟨⟨batch, c3⟩, -, h2⟩ := h2
  rw [Res.bind_eq_ok] at h2
  obtain ⟨⟨fc, more', c4, e4, n4⟩, h3, h2⟩ := h2
  rw [Res.bind_eq_ok] at h2
  obtain ⟨⟨ms', n5⟩, h4, h2⟩ := h2
  cases h2
  have hfc : fc.queryIndices.length = proof.openingProof.queryProofs.length := by
    have h3 := expect_eq_ok.mp h3
    rw [bfSampleChallenges, Res.bind_eq_ok] at h3
    obtain ⟨⟨_, _, _, _, _⟩, -, h3⟩ := h3
    dsimp only at h3
    split at h3
    · cases h3
    rename_i hl
    rw [Res.bind_eq_ok] at h3
    obtain ⟨⟨_, _⟩, -, h3⟩ := h3
    dsimp only at h3
    split at h3
    · cases h3
    rw [Res.bind_eq_ok] at h3
    obtain ⟨⟨_, _, _⟩, -, h3⟩ := h3
    rw [Res.bind_eq_ok] at h3
    obtain ⟨⟨is, _, _, _, _⟩, h5, h3⟩ := h3
    cases h3
    rw [not_not.mp hl]
    exact indicesExpr_length (Res.ofOption_eq_ok.mp h5)
  obtain ⟨m1, hm1, n1, hn1, hfail⟩ := managers_no_rounds hL hT hc (by
    obtain ⟨qp, hqp, o, ip, e1, e2⟩ := hrow
    obtain ⟨i, hi, rfl⟩ := List.getElem_of_mem hqp
    refine ⟨(fc.queryIndices.zip proof.openingProof.queryProofs)[i]'(by rw [List.length_zip]; omega), List.getElem_mem _,
      o, ip, ?_, e2⟩
    rw [List.getElem_zip]
    exact e1) (expect_eq_ok.mp h4)
  split at h
  · cases h
  rename_i h5
  unfold scriptChecks at h5
  simp only [Option.bind_eq_bind, Option.bind_eq_some_iff] at h5
  obtain ⟨z, -, qv, -, inv, hinv, ⟨mq, n6⟩, h6, mc, -, n7, h7, -⟩ := h5
  rw [denominators_one] at hinv
  cases hinv
  obtain ⟨_, _, h8, hn6, -⟩ := C78_one_chunk hL hT zetaE (2 ^ proof.degreeBits) (bbGen (proof.degreeBits + 0)) chunk hc4 1 qv n2
  rw [hch] at h6
  have h6 := h8.symm.trans h6
  cases h6
  rw [runManagers_none hfail (List.mem_append_left _ hm1) (hn1.trans hn6)] at h7
  cases h7

end

/-! ### Honest proofs -/

section

open Polynomial

variable {K F : Type} [Field K] [Field F] [DecidableEq K] [DecidableEq F] [Algebra K F] {C Ch W : Type}

/-- Every query of an honest proof opens the row of the trace first. -/
theorem produced_first {u : Setup K F SI C DI PI S D P Ch W} (hu : u.Ok) {air : Air K} (hwidth : 0 < air.width)
    {pub : List K} (hr : air.InRange pub.length) {q : Nat} (hq : getLogQuotientDegree air pub.length = some q)
    (hqb : q ≤ u.cfg.logBlowup) {k : Nat} (hkb : k + u.cfg.logBlowup ≤ u.twoAdicity)
    {ps : List K[X]} (hpw : ps.length = air.width) (hps : ∀ p ∈ ps, p.natDegree < 2 ^ k)
    {ch ch' : Ch} {si : SI} {s : S} {w : W} {proof : ProofOf K F C P W PI}
    (hp : prove u air ch (evalRows u.genV ps 1 k) pub si s w = some (proof, ch')) :
    ∀ qp ∈ proof.openingProof.queryProofs, ∃ o ip, qp.inputProof = o :: ip ∧ o.1.length = 1 := by
  obtain ⟨c1, d1, second, -, ho1, hs, he⟩ := prove_eq hu hwidth hr hq hqb hkb hpw hps si
  rw [he] at hp
  simp only [Option.bind_eq_bind, Option.bind_eq_some_iff] at hp
  obtain ⟨-, -, ch1, h1, ⟨alpha, ch2⟩, h2, ch3, h3, ⟨zeta, ch4⟩, h4, hp⟩ := hp
  have hsa := hs alpha
  rw [finish_spec hu hkb hps hsa.count hsa.degree ho1 hsa.opens, Option.map_eq_some_iff] at hp
  obtain ⟨⟨values, pf, s', ch5⟩, hopen, hp⟩ := hp
  simp only [Prod.mk.injEq] at hp
  obtain ⟨rfl, rfl⟩ := hp
  have hrows := open_rows hu.extCorrect hu.twoAdic hu.g0 hu.bits
    (honest_rounds hu hkb hps hsa.count hsa.degree zeta ho1 hsa.opens) hopen
  intro qp hqp
  have := hrows qp hqp
  unfold proverRounds at this
  rw [List.forall₂_cons_right_iff] at this
  obtain ⟨o1, l, f1, -, e1⟩ := this
  exact ⟨o1, l, e1, f1.length_eq⟩

end

section

variable {mi : InMmcs BB SI Roots DI PI} {m : Mmcs BB4 S Roots D P} {cfg : Config} {air : Air BB}
  {pub : List BB} {proof : ProofOf BB BB4 Roots P U32 PI}

/-- **C82 is violated** by every honest proof of a trace with one row: the native verifier accepts it, and the script
verifier does not succeed, whatever the challenges. -/
theorem C82_violated_one_row (hL : L.Ok scfg) (hT : T.Ok scfg) {perm : List U32 → List U32} {ext : Ext BB BB4}
    (hu : (babyBear ext mi m perm cfg).Ok) (hqs : 1 ≤ cfg.numQueries) (hkb : cfg.logBlowup ≤ 27)
    (hwidth : 0 < air.width) (hf : air.Filtered) (ht : air.FewTransitions) {q : Nat}
    (hq : getLogQuotientDegree air pub.length = some q) (hqb : q ≤ cfg.logBlowup)
    {row : List BB} (hrow : row.length = air.width) (hsat : Satisfies air [row] pub) {c c' : Chal U32} {si : SI} {s : S} {w : U32}
    (hprove : prove (babyBear ext mi m perm cfg) air c [row] pub si s w = some (proof, c'))
    (hz : ∀ alpha zeta chz, challenges (babyBear ext mi m perm cfg) c proof.traceCommit proof.quotientCommit =
      some (alpha, zeta, chz) → zeta ≠ 1) (e : ChalExpr) (n : Nat) :
    verify (babyBear ext mi m perm cfg) air c proof pub = .ok c' ∧
      ∀ out, generateScriptVerifier scfg L T drops mi m perm cfg air c e proof pub n ≠ .ok out := by
  have hrect : Rect [row] air.width := fun r hr => by rw [List.mem_singleton.1 hr, hrow]
  have hkb' : 0 + cfg.logBlowup ≤ 27 := by omega
  refine ⟨C48_complete_partial hu hwidth hf ht hq hqb (k := 0) hkb' rfl hrect hsat hprove ?_, fun out => ?_⟩
  · intro alpha zeta chz h
    rw [pow_zero, pow_one]
    exact hz alpha zeta chz h
  obtain ⟨ps, hpw, hev, hps⟩ := trace_polys hu (trace := [row]) (k := 0) (Nat.zero_le _) rfl hrect
  have hair := ((C45_least_power_of_two air _ q).1 hq).1
  rw [hev] at hprove
  obtain ⟨-, h1, -, alpha, zeta, chz, batch, ch1, fc, -, -, h2, -⟩ :=
    produced_top hu hwidth hair hq hqb (k := 0) hkb' hpw hps hprove
  have h3 := produced_first hu hwidth hair hq hqb (k := 0) hkb' hpw hps hprove
  have hlen : proof.openingProof.queryProofs.length = cfg.numQueries := by
    unfold verifyShapeAndSampleChallenges at h2
    rw [Res.bind_eq_ok] at h2
    obtain ⟨⟨_, _⟩, -, h2⟩ := h2
    dsimp only at h2
    split at h2
    · cases h2
    · rename_i hl
      exact not_not.mp hl
  refine C82_violated_no_rounds hL hT (List.length_eq_zero_iff.1 h1) ?_ c e n out
  obtain ⟨qp, hqp⟩ := List.exists_mem_of_length_pos (l := proof.openingProof.queryProofs) (by omega)
  obtain ⟨o, ip, e1, e2⟩ := h3 qp hqp
  exact ⟨qp, hqp, o, ip, e1, fun h0 => by rw [h0] at e2; cases e2⟩

end

section
variable [LinearOrder U256]

/-- A run of `C82_violated_one_row` with BLAKE3 and the parameters of the code base: the row (0, 1). -/
theorem C82_violated_one_row_instance (scfg : Cfg) (h20 : ∀ x, (scfg.hash160 x).length = 20) {L : U31Lib} {T : TrackerLib}
    {drops : Nat → List Op} (hL : L.Ok scfg) (hT : T.Ok scfg) (e : ChalExpr) (n : Nat) :
    ∃ bc proof ch',
      prove (fibSetup scfg bc 2) (fibAir BB) (Chal.new 16 (fromU64 0)) [[0, 1]] [0, 1, 1] 0 0 (fromU64 20) =
        some (proof, ch') ∧
      verify (fibSetup scfg bc 2) (fibAir BB) (Chal.new 16 (fromU64 0)) proof [0, 1, 1] = .ok ch' ∧
      ∀ out, generateScriptVerifier scfg L T drops (fibSetup scfg bc 2).mi (fibSetup scfg bc 2).m (blake3Perm specHash)
        (demoCfg 2) (fibAir BB) (Chal.new 16 (fromU64 0)) e proof [0, 1, 1] n ≠ .ok out := by
  obtain ⟨b, c, -, -, h⟩ := Tcs.winternitz_ok scfg h20 ['b', '1', '3', '8'] (by decide) 0
  generalize Tcs.winternitzBc scfg b c = bc at h
  refine ⟨bc, ?_⟩
  have hu := fibSetup_ok h (by omega : 0 < 2)
  have hp := fun s (_ : s.length = 16) => blake3Perm_length specHash s
  have hdeg : getLogQuotientDegree (fibAir BB) 3 = some 0 := fibAir_degree 3 le_rfl
  have hch : GoodChal (blake3Perm specHash) (Chal.new 16 (fromU64 0)) := ⟨_, _, inv_new (by omega)⟩
  have hone : [[0, 1]] = fibTrace 1 (0 : BB) 1 := by decide +kernel
  have hsat : Satisfies (fibAir BB) [[0, 1]] [0, 1, 1] := by
    have := fibTrace_satisfies 1 (by omega) (0 : BB) 1
    rw [← hone] at this
    exact this
  have hrect : Rect [[(0 : BB), 1]] (fibAir BB).width := by rw [hone]; exact fibTrace_rect 1 0 1
  obtain ⟨alpha, zeta, batch, betas, c', hn, htop⟩ := indicesOf_some empty_native
  obtain ⟨hz, t1, t2, t3, chz, ch1, betas', chPow, chw, k1, k2, k3, k4, k5, k6, k7⟩ := transcript_steps'
    (x := (1555898603, 1708800541, 209366584, 1310215901)) rfl zetaWords2 hn
  have k6 := Option.some.inj k6
  cases k6
  obtain ⟨z1, z2⟩ := zeta_outside4 (x := (1555898603, 1708800541, 209366584, 1310215901)) (by decide +kernel)
    (by decide +kernel)
  rw [← hz] at z1 z2
  obtain ⟨c1, c2, a, z, cz, ⟨_, _, _, _, e1⟩, ⟨_, _, _, _, e2⟩, e3, e4⟩ := C48_honest_run hu (by decide : (27 : Nat) < 32)
    (bb4Chall_total _ hp) (air := fibAir BB) (by decide : 0 < 2) (pub := [0, 1, 1]) hdeg (Nat.zero_le _) (k := 0)
    (by decide : 0 + 2 ≤ 27) (trace := [[0, 1]]) rfl hrect (fun _ => hsat) hch 0 0
  have e1 : c1 = List.replicate 2 (u256ToU32 demoRoot) := inCommit_const e1
  have e2 : c2 = List.replicate 2 (u256ToU32 demoRoot) := inCommit_const e2
  subst e1
  subst e2
  have e3' : challenges (fibSetup scfg bc 2) (Chal.new 16 (fromU64 0)) (List.replicate 2 (u256ToU32 demoRoot))
      (List.replicate 2 (u256ToU32 demoRoot)) = some (alpha, zeta, chz) := by
    unfold challenges
    have k1 : (fibSetup scfg bc 2).chall.observe _ _ = _ := k1
    have k2 : (fibSetup scfg bc 2).chall.sample _ = _ := k2
    have k3 : (fibSetup scfg bc 2).chall.observe _ _ = _ := k3
    have k4 : (fibSetup scfg bc 2).chall.sample _ = _ := k4
    simp only [k1, k2, k3, k4, Option.bind_eq_bind, Option.bind_some]
  have e5 := Option.some.inj (e3.symm.trans e3')
  cases e5
  obtain ⟨b, d1, commits, bs, cp, f1, f2, f3, -, -, f5⟩ := e4.2 z2
  have f6 := Option.some.inj (f1.symm.trans k5)
  cases f6
  obtain rfl := List.length_eq_zero_iff.1 f3
  have f2 := Option.some.inj f2
  cases f2
  obtain ⟨proof, ch', g1, g2, g3, -⟩ := f5 _ _ k7
  refine ⟨proof, ch', g1, C82_violated_one_row hL hT (ext := lagrangeExt bbGen) (mi := (fibSetup scfg bc 2).mi)
    (m := (fibSetup scfg bc 2).m) (cfg := demoCfg 2) hu (show 1 ≤ 2 by decide) (show 2 ≤ 27 by decide) (by decide : 0 < 2)
    fibAir_filtered fibAir_transitions (pub := [0, 1, 1]) hdeg (Nat.zero_le _) rfl hsat g1 ?_ e n⟩
  intro a' z' cz' hc
  rw [g2, g3] at hc
  have hc := Option.some.inj (hc.symm.trans e3')
  cases hc
  rintro rfl
  exact z1 (one_pow _)

/-- With the scripts of the repository and the reference tracker. -/
example (scfg : Cfg) (h20 : ∀ x, (scfg.hash160 x).length = 20) :=
  C82_violated_one_row_instance scfg h20 (drops := fun k => List.replicate k Op.drop) (repoLib_ok scfg) (refTracker_ok scfg)

end

end TapStark.Stark
