import Verif.Proofs.ScriptVerifier
import Verif.Proofs.HonestTop

/-
C82: what success of the script verifier means.
-/

namespace TapStark.Stark

open TapStark.Fri TapStark.Pcs TapStark.FS

variable {SI DI PI S D P : Type} {scfg : Cfg} {L : U31Lib} {T : TrackerLib} {drops : Nat → List Op}

theorem splitOne {k : Nat} (hk : k ≤ 27) :
    splitDomains bbGen 27 (createDisjointDomain (31 : BB) ⟨k, 1⟩ (2 ^ (k + 0))) (2 ^ 0) = some [⟨k, 31⟩] := by
  unfold splitDomains createDisjointDomain
  simp only [Tcs.log2Ceil_pow, log2Strict_pow, Option.bind_eq_bind, Option.bind_some]
  rw [if_pos ⟨hk, by omega⟩]
  simp

theorem denominators_one (d : Dom BB) : denominatorInverses [d] = some [1] := by
  simp [denominatorInverses]

theorem zps_one (d : Dom BB) (z : BB4) : zps [d] z = some [1] := by
  simp [zps]

/-- The quotient value of one chunk. -/
theorem recombine_one (chunk : List BB4) : ∃ v, recombine bb4Deg [1] [chunk] = some v := ⟨_, rfl⟩

theorem expect_eq_ok {α : Type} {r : Res α} {a : α} : expect r = .ok a ↔ r = .ok a := by
  cases r <;> simp [expect]

section

variable {hash : List UInt8 → U256} {mi : InMmcs BB SI Roots DI PI} {m : Mmcs BB4 S Roots D P} {cfg : Config} {air : Air BB}
  {pub : List BB} {proof : ProofOf BB BB4 Roots P U32 PI}

/-- The checks after the opening proof, for one chunk. -/
theorem scriptChecks_one (hL : L.Ok scfg) (hT : T.Ok scfg) {k : Nat} {loc nxt chunk : List BB4} {alpha zeta v : BB4}
    {zetaE : Expr} {ms : List InputManager} {checks : List Expr} {mc : InputManager} {Qs : List Prop} {Q : Prop} {n : Nat}
    (hc : chunk.length = 4) (hv : recombine bb4Deg [1] [chunk] = some v) (hm : challengerManager checks = some mc)
    (hms : List.Forall₂ (fun m Q => ∀ N, n ≤ N → ∃ m' N', m.embedHintVerify N = some (m', N') ∧
      (m'.run scfg L T = some () ↔ Q)) ms Qs)
    (hmc : ∀ N, n ≤ N → ∃ m' N', mc.embedHintVerify N = some (m', N') ∧ (m'.run scfg L T = some () ↔ Q)) (d : Dom BB)
    (folded value quotient : BB4) :
    (∃ n', scriptChecks scfg L T air pub [d] k 0 loc nxt [chunk] alpha zeta zetaE ms checks n =
      some (folded, value, quotient, n')) ↔
      (∀ Q ∈ Qs, Q) ∧ Q ∧ quotient = v ∧ ∃ s, selectorsAtPoint bbGen ⟨k, 1⟩ zeta = some s ∧
        verifierFold air alpha ⟨loc, nxt, pub.map (algebraMap BB BB4), s.isFirstRow, s.isLastRow, s.isTransition⟩ =
          some folded ∧ value = folded * s.invZeroifier := by
  obtain ⟨mq, n1, hq, hn, hq'⟩ := C78_native hL hT zetaE (2 ^ k) (bbGen (k + 0)) chunk hc d zeta (zps_one d zeta) hv v n
  have hall := runManagers_iff (ms := ms ++ [mq, mc]) (Qs := Qs ++ [v = v, Q]) (n0 := n1)
    (List.rel_append (hms.imp fun _ _ h N hN => h N (hn.trans hN)) (.cons hq' (.cons (fun N hN => hmc N (hn.trans hN)) .nil)))
    n1 (Nat.le_refl _)
  unfold scriptChecks
  simp only [zps_one, hv, denominators_one, Option.bind_eq_bind, Option.bind_some, List.length_singleton, hq, hm]
  rw [List.forall_mem_append, List.forall_mem_cons, List.forall_mem_cons] at hall
  constructor
  · rintro ⟨n', h⟩
    simp only [Option.bind_eq_some_iff] at h
    obtain ⟨n2, h1, s, h2, f, h3, h4⟩ := h
    obtain ⟨h5, -, h6, -⟩ := hall.mp ⟨n2, h1⟩
    have h4 := Option.some.inj h4
    cases h4
    exact ⟨h5, h6, rfl, s, h2, h3, rfl⟩
  · rintro ⟨h5, h6, rfl, s, h2, h3, rfl⟩
    obtain ⟨n2, h1⟩ := hall.mpr ⟨h5, rfl, h6, by simp⟩
    refine ⟨n2, ?_⟩
    simp only [h1, h2, h3, Option.bind_some]

theorem claims_even {zeta : BB4} : ∀ r ∈ openingClaims proof zeta, ∀ m ∈ r.2, m.1.size = 2 ^ proof.degreeBits ∧ m.2 ≠ [] := by
  intro r hr m hm
  simp only [openingClaims, List.mem_cons, List.not_mem_nil, or_false] at hr
  rcases hr with rfl | rfl
  · simp only [List.mem_cons, List.not_mem_nil, or_false] at hm
    rw [hm]
    exact ⟨rfl, by simp⟩
  · obtain ⟨w, -, rfl⟩ := List.mem_map.mp hm
    exact ⟨rfl, by simp⟩

theorem claims_two (hb : 1 ≤ proof.degreeBits) {zeta : BB4} :
    ∀ r ∈ openingClaims proof zeta, ∀ m ∈ r.2, 2 ≤ m.1.size := by
  intro r hr m hm
  rw [(claims_even r hr m hm).1]
  exact (show 2 ^ 1 ≤ 2 ^ proof.degreeBits from Nat.pow_le_pow_right (by decide) hb)

theorem runManagers_none {n0 : Nat} {m : InputManager}
    (h : ∀ N, n0 ≤ N → ∃ m' n', m.embedHintVerify N = some (m', n') ∧ m'.run scfg L T ≠ some ()) :
    ∀ {ms : List InputManager} {n : Nat}, m ∈ ms → n0 ≤ n → runManagers scfg L T ms n = none
  | [], n, hm, _ => by cases hm
  | m1 :: ms, n, hm, hn => by
    rw [runManagers]
    cases h1 : m1.embedHintVerify n with
    | none => rfl
    | some r =>
      obtain ⟨m2, n2⟩ := r
      simp only [Option.bind_eq_bind, Option.bind_some]
      rcases List.mem_cons.mp hm with rfl | hm
      · obtain ⟨m', n', h2, h3⟩ := h n hn
        rw [h1] at h2
        cases h2
        cases h4 : m2.run scfg L T with
        | none => rfl
        | some u => exact (h3 h4).elim
      · rw [runManagers_none h hm (hn.trans (embedHintVerify_le h1))]
        cases m2.run scfg L T <;> rfl

theorem exact_of_bits (hL : L.Ok scfg) (hT : T.Ok scfg)
    (hD : ∀ x : List Elem, x.length ≤ 4 → Does scfg (drops x.length) x []) (hH : IsBlake3 hash) (ext : Ext BB BB4)
    (hp : 1 ≤ cfg.powBits) (hp' : cfg.powBits ≤ 31) (hb : 1 ≤ proof.degreeBits) (hb' : proof.degreeBits ≤ 27)
    (hblow : 1 ≤ cfg.logBlowup) (hmax : proof.openingProof.commitPhaseCommits.length + cfg.logBlowup ≤ 27)
    (hair : air.InRange pub.length) (hne : air.asserts ≠ []) (hq : getLogQuotientDegree air pub.length = some 0) (n : Nat) :
    (∃ out, generateScriptVerifier scfg L T drops mi m (blake3Perm hash) cfg air (Chal.new 16 (fromU64 0)) (ChalExpr.new n).1
        proof pub (ChalExpr.new n).2 = .ok out) ↔
      (proof.traceLocal.length = air.width ∧ proof.traceNext.length = air.width ∧ proof.quotientChunks.length = 1 ∧
        ∀ qc ∈ proof.quotientChunks, qc.length = 4) ∧
      ∃ alpha zeta batch fc c' s,
        nativeTranscript (blake3Perm hash) cfg proof.traceCommit proof.quotientCommit proof.openingProof
          (Chal.new 16 (fromU64 0)) = .ok ((alpha, zeta, batch, fc), c') ∧
        scriptTranscript (blake3Perm hash) cfg proof.traceCommit proof.quotientCommit proof.openingProof
          (Chal.new 16 (fromU64 0)) = some s ∧
        (s.alpha = alpha ∧ s.zeta = zeta ∧ s.betas = fc.betas ∧
          ((if s.pow then 0 else 1) + differing s.indices fc.queryIndices) % 2 = 0) ∧
        (∀ qr ∈ fc.queryIndices.zip proof.openingProof.queryProofs,
          QueryPasses mi m cfg proof.openingProof (openingClaims proof zeta) batch fc.betas qr) ∧
        oodCheck (babyBear ext mi m (blake3Perm hash) cfg) air pub ⟨proof.degreeBits, 1⟩ [⟨proof.degreeBits, 31⟩] proof alpha
          zeta = some true := by
  have hdom : naturalDomainForDegree (K := BB) (2 ^ proof.degreeBits) = some ⟨proof.degreeBits, 1⟩ := by
    simp [naturalDomainForDegree, log2Strict_pow]
  unfold generateScriptVerifier scriptVerifierWith
  simp only [hq, hdom]
  rw [splitOne hb']
  simp only [pow_zero]
  by_cases hshape : proof.traceLocal.length = air.width ∧ proof.traceNext.length = air.width ∧
      proof.quotientChunks.length = 1 ∧ ∀ qc ∈ proof.quotientChunks, qc.length = 4
  swap
  · simp only [if_pos hshape]
    exact iff_of_false (by rintro ⟨_, h⟩; cases h) fun h => hshape h.1
  simp only [if_neg (not_not.mpr hshape)]
  obtain ⟨hloc, hnxt, hlen, hcs⟩ := hshape
  obtain ⟨chunk, hch⟩ := List.length_eq_one_iff.mp hlen
  have hc4 : chunk.length = 4 := hcs chunk (by rw [hch]; exact List.mem_cons_self ..)
  obtain ⟨v, hv⟩ := recombine_one chunk
  have hclaims : ∀ zeta : BB4, [(proof.traceCommit, [((⟨proof.degreeBits, 1⟩ : Dom BB), [(zeta, proof.traceLocal),
      (nextPoint bbGen ⟨proof.degreeBits, 1⟩ zeta, proof.traceNext)])]),
      (proof.quotientCommit, (([⟨proof.degreeBits, 31⟩] : List (Dom BB)).zip proof.quotientChunks).map
        fun (d, v) => (d, [(zeta, v)]))] = openingClaims proof zeta := by
    intro zeta
    rw [openingClaims, hch]
    rfl
  by_cases hn : ∃ alpha zeta batch fc c', nativeTranscript (blake3Perm hash) cfg proof.traceCommit proof.quotientCommit
      proof.openingProof (Chal.new 16 (fromU64 0)) = .ok ((alpha, zeta, batch, fc), c')
  swap
  · refine iff_of_false ?_ fun ⟨_, alpha, zeta, batch, fc, c', s, h, _⟩ => hn ⟨alpha, zeta, batch, fc, c', h⟩
    rintro ⟨out, h⟩
    split at h
    · cases h
    rename_i alpha zeta zetaE checks c1 e1 n1 h1
    split at h
    · cases h
    · cases h
    rename_i ms more c2 e2 n2 h2
    rw [generateVerifyExpr, Res.bind_eq_ok] at h2
    obtain ⟨⟨batch, c3⟩, h3, h2⟩ := h2
    rw [Res.bind_eq_ok] at h2
    obtain ⟨⟨fc, more', c4, e4, n4⟩, h4, h2⟩ := h2
    refine hn ⟨alpha, zeta, batch, fc, c4, allChallenges_native (e := (ChalExpr.new n).1) (n := (ChalExpr.new n).2)
      (bits := proof.degreeBits) (zetaE := zetaE) (checks := checks ++ more') (e' := e4) (n' := n4) ?_⟩
    rw [allChallenges, h1]
    simp only [Res.ofOption, Res.bind_ok]
    rw [Res.ofOption_eq_ok] at h3
    rw [h3]
    simp only [Res.bind_ok]
    rw [expect_eq_ok.mp h4]
    rfl
  obtain ⟨alpha, zeta, batch, fc, c', hn⟩ := hn
  obtain ⟨s, zetaE, checks, e', n', mc, hs, hall, hmc, -, hmc'⟩ := C77_exact (bits := proof.degreeBits) hL hT hH hp hp' hb'
    (by omega) (by omega) hn n
  have hmc' : ∀ N, n' ≤ N → ∃ m' N', mc.embedHintVerify N = some (m', N') ∧
      (m'.run scfg L T = some () ↔ s.alpha = alpha ∧ s.zeta = zeta ∧ s.betas = fc.betas ∧
        ((if s.pow then 0 else 1) + differing s.indices fc.queryIndices) % 2 = 0) := by
    intro N hN
    obtain ⟨m', N', h1, h2⟩ := hmc' N hN
    exact ⟨m', N', h1, h2.trans (and_iff_right (Nat.one_le_iff_ne_zero.mp hb))⟩
  obtain ⟨hbe, hidx⟩ := nativeTranscript_shape hn
  rw [allChallenges, Res.bind_eq_ok] at hall
  obtain ⟨⟨a, z, zE, cks, c1, e1, n1⟩, h1, hall⟩ := hall
  rw [Res.bind_eq_ok] at hall
  obtain ⟨⟨b, c2⟩, h2, hall⟩ := hall
  rw [Res.bind_eq_ok] at hall
  obtain ⟨⟨f, more, c3, e3, n3⟩, h3, hall⟩ := hall
  cases hall
  rw [Res.ofOption_eq_ok] at h1 h2
  simp only [h1]
  rw [hclaims]
  have hqs : ∀ qr ∈ fc.queryIndices.zip proof.openingProof.queryProofs,
      qr.1.2 < 2 ^ (proof.openingProof.commitPhaseCommits.length + cfg.logBlowup) := fun qr hqr =>
    hidx _ (List.of_mem_zip (a := qr.1) (b := qr.2) hqr).1
  have hgen : ∀ out, generateVerifyExpr (blake3Perm hash) bbGen 31 mi m cfg (openingClaims proof zeta) proof.openingProof c1
      e1 n1 = .ok out ↔ ∃ ms n4, bfVerifyChallenges bb4Field m cfg proof.openingProof fc.betas (openInputExpr mi bbGen 31 cfg
        batch (openingClaims proof zeta) (proof.openingProof.commitPhaseCommits.length + cfg.logBlowup))
        (fc.queryIndices.zip proof.openingProof.queryProofs) n' = .ok (ms, n4) ∧ out = (ms, more, c', e', n4) := by
    intro out
    rw [generateVerifyExpr, h2]
    simp only [Res.ofOption, Res.bind_ok, h3, expect]
    rw [Res.bind_eq_ok]
    constructor
    · rintro ⟨⟨ms, n4⟩, h4, h5⟩
      cases h5
      exact ⟨ms, n4, expect_eq_ok.mp h4, rfl⟩
    · rintro ⟨ms, n4, h4, rfl⟩
      exact ⟨(ms, n4), expect_eq_ok.mpr h4, rfl⟩
  have hqiff := queryManagers_iff (MI := mi) (M := m) (cfg := cfg) (g := (31 : BB)) (alpha := batch)
    (rounds := openingClaims proof zeta) hmax hbe n' hqs
  -- without the managers of the queries both sides are false
  by_cases hms : ∃ ms n4, bfVerifyChallenges bb4Field m cfg proof.openingProof fc.betas (openInputExpr mi bbGen 31 cfg
        batch (openingClaims proof zeta) (proof.openingProof.commitPhaseCommits.length + cfg.logBlowup))
        (fc.queryIndices.zip proof.openingProof.queryProofs) n' = .ok (ms, n4)
  swap
  · refine iff_of_false ?_ ?_
    · rintro ⟨out, h⟩
      split at h
      · cases h
      · cases h
      rename_i h4
      obtain ⟨ms, n4, h5, -⟩ := (hgen _).mp h4
      exact hms ⟨ms, n4, h5⟩
    · rintro ⟨-, a, z, b, f, c, s', h4, -, -, h5, -⟩
      have h4 := hn.symm.trans h4
      cases h4
      refine hms ?_
      obtain ⟨⟨ms, n4⟩, h6⟩ := hqiff.mpr fun qr hqr => ⟨(h5 qr hqr).1, (h5 qr hqr).2.1, (h5 qr hqr).2.2.imp fun _ h => h.1⟩
      exact ⟨ms, n4, h6⟩
  obtain ⟨ms, n4, hms⟩ := hms
  have hg := (hgen _).mpr ⟨ms, n4, hms, rfl⟩
  rw [hg]
  simp only
  obtain ⟨hn4, hq2⟩ := C79_exact_even hL hT hblow hmax hbe (claims_even (zeta := zeta)) hqs hms
  have hrows := hqiff.mp ⟨_, hms⟩
  generalize hQd : (fun qr : (Nat × Nat) × QueryProof BB4 P (List (List (List BB) × PI)) =>
    QueryHolds mi cfg 31 batch (openingClaims proof zeta) proof.openingProof fc.betas qr ∧
      ∀ vals, verifyInput mi bbGen 31 cfg batch (openingClaims proof zeta)
          (proof.openingProof.commitPhaseCommits.length + cfg.logBlowup) qr.1.1 qr.1.2 qr.2.inputProof = .ok vals →
        ∀ r ∈ vals, cfg.logBlowup +
          (proof.openingProof.commitPhaseCommits.length - qr.2.commitPhaseOpenings.length) < r.1) = Q
  have hq2 : List.Forall₂ (fun qr m => ∀ N, n4 ≤ N → ∃ m' N', m.embedHintVerify N = some (m', N') ∧
      (m'.run scfg L T = some () ↔ Q qr)) (fc.queryIndices.zip proof.openingProof.queryProofs) ms := by
    rw [← hQd]
    exact hq2
  have hone := fun folded value quotient => scriptChecks_one (air := air) (pub := pub) (k := proof.degreeBits)
    (loc := proof.traceLocal) (nxt := proof.traceNext) (alpha := alpha) (zeta := zeta) (zetaE := zetaE) (n := n4) hL hT hc4 hv
    hmc (Qs := (fc.queryIndices.zip proof.openingProof.queryProofs).map Q)
    (by rw [List.forall₂_map_right_iff]; exact hq2.flip) (fun N hN => hmc' N (hn4.trans hN)) ⟨proof.degreeBits, 31⟩
    folded value quotient
  have hQ : (∀ q ∈ (fc.queryIndices.zip proof.openingProof.queryProofs).map Q, q) ↔
      ∀ qr ∈ fc.queryIndices.zip proof.openingProof.queryProofs,
          QueryPasses mi m cfg proof.openingProof (openingClaims proof zeta) batch fc.betas qr := by
    rw [List.forall_mem_map, ← hQd]
    refine forall₂_congr fun qr hqr => ⟨fun h => ⟨(hrows qr hqr).1, (hrows qr hqr).2.1, ?_⟩, fun h => ?_⟩
    · obtain ⟨⟨vals, h1, h2⟩, h3⟩ := h
      exact ⟨vals, h1, h3 vals h1, h2⟩
    · obtain ⟨-, -, vals, h1, h2, h3⟩ := h
      refine ⟨⟨vals, h1, h3⟩, fun vals' h4 => ?_⟩
      have h4 := h1.symm.trans h4
      cases h4
      exact h2
  have hood : oodCheck (babyBear ext mi m (blake3Perm hash) cfg) air pub ⟨proof.degreeBits, 1⟩ [⟨proof.degreeBits, 31⟩] proof
      alpha zeta = some true ↔ ∃ folded s, selectorsAtPoint bbGen ⟨proof.degreeBits, 1⟩ zeta = some s ∧
        verifierFold air alpha ⟨proof.traceLocal, proof.traceNext, pub.map (algebraMap BB BB4), s.isFirstRow, s.isLastRow,
          s.isTransition⟩ = some folded ∧ folded * s.invZeroifier = v := by
    unfold oodCheck babyBear
    simp only [zps_one, hch, hv, Option.bind_eq_bind, Option.bind_some]
    simp only [Option.bind_eq_some_iff, Option.some.injEq, decide_eq_true_eq]
    constructor
    · rintro ⟨s, h1, f, h2, h3⟩
      exact ⟨f, s, h1, h2, h3⟩
    · rintro ⟨f, s, h1, h2, h3⟩
      exact ⟨s, h1, f, h2, h3⟩
  rw [hch]
  constructor
  · rintro ⟨out, h⟩
    refine ⟨⟨hloc, hnxt, rfl, by simpa [hch] using hcs⟩, alpha, zeta, batch, fc, c', s, hn, hs, ?_⟩
    split at h
    · cases h
    rename_i folded value quotient n5 h5
    split at h
    · cases h
    rename_i h6
    obtain ⟨h7, h8, rfl, sel, h9, h10, rfl⟩ := (hone _ _ _).mp ⟨_, h5⟩
    exact ⟨h8, hQ.mp h7, hood.mpr ⟨folded, sel, h9, h10, not_not.mp h6⟩⟩
  · rintro ⟨-, a, z, b, f, c, s', h4, h5, h6, h7, h8⟩
    have h4 := hn.symm.trans h4
    cases h4
    have h5 := Option.some.inj (hs.symm.trans h5)
    cases h5
    obtain ⟨folded, sel, h9, h10, h11⟩ := hood.mp h8
    obtain ⟨n5, h12⟩ := (hone folded _ v).mpr ⟨hQ.mpr h7, h6, rfl, sel, h9, h10, rfl⟩
    obtain ⟨p, h13, h14⟩ := C80_native hL hT hD air (alpha := alpha) hair hne hloc hnxt hb' h9 folded n5
    refine ⟨(c', e'), ?_⟩
    rw [h12]
    simp only [h11, ne_eq, not_true_eq_false, if_false, h13]
    rw [if_pos (h14.mpr h10)]

/-- C82 fails for two or more chunks: the script verifier never succeeds. -/
theorem C82_violated_two_chunks {perm : List U32 → List U32} {q : Nat} (hq1 : 1 ≤ q) (hq : getLogQuotientDegree air pub.length = some q)
    (c : Chal U32) (e : ChalExpr) (n : Nat) (out : Chal U32 × ChalExpr) :
    generateScriptVerifier scfg L T drops mi m perm cfg air c e proof pub n ≠ .ok out := by
  intro h
  unfold generateScriptVerifier scriptVerifierWith at h
  have h2 : 2 ≤ 2 ^ q := by
    calc 2 = 2 ^ 1 := rfl
      _ ≤ _ := Nat.pow_le_pow_right (by decide) hq1
  simp only [hq, naturalDomainForDegree, log2Strict_pow, Option.bind_eq_bind, Option.bind_some] at h
  split at h
  · cases h
  rename_i domains hdom
  have hlen : domains.length = 2 ^ q := by
    unfold splitDomains createDisjointDomain at hdom
    simp only [Option.bind_eq_bind, Option.bind_eq_some_iff] at hdom
    obtain ⟨lc, h3, hdom⟩ := hdom
    split at hdom
    · have hdom := Option.some.inj hdom
      rw [← hdom]
      simp
    · cases hdom
  split at h
  · cases h
  split at h
  · cases h
  split at h
  · cases h
  · cases h
  split at h
  · cases h
  rename_i h4
  unfold scriptChecks at h4
  simp only [Option.bind_eq_bind, Option.bind_eq_some_iff] at h4
  obtain ⟨z, -, qv, -, inv, -, mq, h5, -⟩ := h4
  rw [C78_violated_two_chunks _ _ _ _ (by omega)] at h5
  cases h5

/-- Building the managers of the queries does not decrease the counter. -/
theorem managers_counter {fri : FriProof BB4 Roots P U32 (List (List (List BB) × PI))} {betas : List BB4} {genV : Nat → BB}
    {g : BB} {batch : BB4} {rounds : List (VerifierRound BB BB4 Roots)} {top : Nat} :
    ∀ {queries : List ((Nat × Nat) × QueryProof BB4 P (List (List (List BB) × PI)))} {n n' : Nat}
      {ms : List InputManager}, bfVerifyChallenges bb4Field m cfg fri betas (openInputExpr mi genV g cfg batch
        rounds top) queries n = .ok (ms, n') → n ≤ n'
  | [], n, n', ms, h => by
    rw [bfVerifyChallenges] at h
    cases h
    exact Nat.le_refl _
  | ((q, i), qp) :: queries, n, n', ms, h => by
    rw [bfVerifyChallenges, Res.bind_eq_ok] at h
    obtain ⟨⟨m1, n1⟩, h1, h⟩ := h
    rw [Res.bind_eq_ok] at h
    obtain ⟨⟨ms', k'⟩, h2, h⟩ := h
    cases h
    exact (bfQueryManager_counter h1).trans (managers_counter h2)

/-- **C82 is violated** by proofs whose degree has no bits: the script of the challenges contains `index_to_rou(1, 0)`, which
fails, so that the script verifier never succeeds. -/
theorem C82_violated_zero_bits (hL : L.Ok scfg) (hT : T.Ok scfg) (hH : IsBlake3 hash)
    (hp : 1 ≤ cfg.powBits) (hp' : cfg.powBits ≤ 31) (hblow : 1 ≤ cfg.logBlowup)
    (hmax : proof.openingProof.commitPhaseCommits.length + cfg.logBlowup ≤ 31) (h0 : proof.degreeBits = 0)
    (n : Nat) (out : Chal U32 × ChalExpr) :
    generateScriptVerifier scfg L T drops mi m (blake3Perm hash) cfg air (Chal.new 16 (fromU64 0)) (ChalExpr.new n).1
      proof pub (ChalExpr.new n).2 ≠ .ok out := by
  intro h
  cases hq : getLogQuotientDegree air pub.length with
  | none =>
    unfold generateScriptVerifier scriptVerifierWith at h
    simp only [hq] at h
    cases h
  | some q =>
  rcases Nat.eq_zero_or_pos q with rfl | hq1
  swap
  · exact C82_violated_two_chunks hq1 hq _ _ _ out h
  unfold generateScriptVerifier scriptVerifierWith at h
  simp only [hq, naturalDomainForDegree, log2Strict_pow, Option.bind_eq_bind, Option.bind_some] at h
  rw [splitOne (show proof.degreeBits ≤ 27 by omega)] at h
  simp only [pow_zero] at h
  split at h
  · cases h
  rename_i hshape
  obtain ⟨-, -, hch, hcs⟩ := not_not.mp hshape
  obtain ⟨chunk, hch⟩ := List.length_eq_one_iff.mp hch
  have hc4 : chunk.length = 4 := hcs chunk (by rw [hch]; exact List.mem_cons_self ..)
  split at h
  · cases h
  rename_i alpha zeta zetaE checks c1 e1 n1 h1
  split at h
  · cases h
  · cases h
  rename_i ms more c2 e2 n2 h2
  rw [generateVerifyExpr, Res.bind_eq_ok] at h2
  obtain ⟨⟨batch, c3⟩, h3, h2⟩ := h2
  rw [Res.bind_eq_ok] at h2
  obtain ⟨⟨fc, more', c4, e4, n4⟩, h4, h2⟩ := h2
  rw [Res.bind_eq_ok] at h2
  obtain ⟨⟨ms', n5⟩, h5, h2⟩ := h2
  cases h2
  have hall : allChallenges (blake3Perm hash) cfg proof.degreeBits proof.traceCommit proof.quotientCommit proof.openingProof
      (Chal.new 16 (fromU64 0)) (ChalExpr.new n).1 (ChalExpr.new n).2 =
      .ok ((alpha, zeta, batch, fc), zetaE, checks ++ more, c2, e2, n4) := by
    rw [allChallenges, h1]
    simp only [Res.ofOption, Res.bind_ok]
    rw [Res.ofOption_eq_ok] at h3
    rw [h3]
    simp only [Res.bind_ok]
    rw [expect_eq_ok.mp h4]
    rfl
  obtain ⟨s, zE, cks, e', n', mc, -, hall', hmc, -, hmc'⟩ := C77_exact (bits := proof.degreeBits) hL hT hH hp hp' (by omega)
    (by omega) hmax (allChallenges_native hall) n
  rw [hall] at hall'
  cases hall'
  split at h
  · cases h
  rename_i h6
  unfold scriptChecks at h6
  simp only [Option.bind_eq_bind, Option.bind_eq_some_iff] at h6
  obtain ⟨z, -, qv, -, inv, hinv, ⟨mq, n6⟩, h7, mc', hmc2, n7, h8, -⟩ := h6
  rw [denominators_one] at hinv
  cases hinv
  obtain ⟨_, _, h9, hn6, -⟩ := C78_one_chunk hL hT zetaE (2 ^ proof.degreeBits) (bbGen (proof.degreeBits + 0)) chunk hc4 1 qv n2
  rw [hch] at h7
  have h7 := h9.symm.trans h7
  cases h7
  have hmc2 := hmc.symm.trans hmc2
  cases hmc2
  have hn4 : n4 ≤ n2 := managers_counter (expect_eq_ok.mp h5)
  rw [runManagers_none (m := mc) (n0 := n4) (fun N hN => by
      obtain ⟨m', N', k1, k2⟩ := hmc' N hN
      exact ⟨m', N', k1, fun hr => (k2.mp hr).1 h0⟩) (by simp) (hn4.trans hn6)] at h8
  cases h8

/-- **C82**, one chunk: the script verifier succeeds exactly when the degree has at least one bit, the
proof has the shape the AIR asks for, the native
challenges can be drawn, the challenges that the script computes are the native ones up to an even number of failed checks
of the work and the query indices, every query passes, and the constraints fold to the quotient value at `zeta`. -/
theorem C82_exact (hL : L.Ok scfg) (hT : T.Ok scfg)
    (hD : ∀ x : List Elem, x.length ≤ 4 → Does scfg (drops x.length) x []) (hH : IsBlake3 hash) (ext : Ext BB BB4)
    (hp : 1 ≤ cfg.powBits) (hp' : cfg.powBits ≤ 31) (hb' : proof.degreeBits ≤ 27)
    (hblow : 1 ≤ cfg.logBlowup) (hmax : proof.openingProof.commitPhaseCommits.length + cfg.logBlowup ≤ 27)
    (hair : air.InRange pub.length) (hne : air.asserts ≠ []) (hq : getLogQuotientDegree air pub.length = some 0) (n : Nat) :
    (∃ out, generateScriptVerifier scfg L T drops mi m (blake3Perm hash) cfg air (Chal.new 16 (fromU64 0)) (ChalExpr.new n).1
        proof pub (ChalExpr.new n).2 = .ok out) ↔
      1 ≤ proof.degreeBits ∧
      (proof.traceLocal.length = air.width ∧ proof.traceNext.length = air.width ∧ proof.quotientChunks.length = 1 ∧
        ∀ qc ∈ proof.quotientChunks, qc.length = 4) ∧
      ∃ alpha zeta batch fc c' s,
        nativeTranscript (blake3Perm hash) cfg proof.traceCommit proof.quotientCommit proof.openingProof
          (Chal.new 16 (fromU64 0)) = .ok ((alpha, zeta, batch, fc), c') ∧
        scriptTranscript (blake3Perm hash) cfg proof.traceCommit proof.quotientCommit proof.openingProof
          (Chal.new 16 (fromU64 0)) = some s ∧
        (s.alpha = alpha ∧ s.zeta = zeta ∧ s.betas = fc.betas ∧
          ((if s.pow then 0 else 1) + differing s.indices fc.queryIndices) % 2 = 0) ∧
        (∀ qr ∈ fc.queryIndices.zip proof.openingProof.queryProofs,
          QueryPasses mi m cfg proof.openingProof (openingClaims proof zeta) batch fc.betas qr) ∧
        oodCheck (babyBear ext mi m (blake3Perm hash) cfg) air pub ⟨proof.degreeBits, 1⟩ [⟨proof.degreeBits, 31⟩] proof alpha
          zeta = some true := by
  by_cases hb : 1 ≤ proof.degreeBits
  · rw [exact_of_bits hL hT hD hH ext hp hp' hb hb' hblow hmax hair hne hq n, and_iff_right hb]
  · refine iff_of_false ?_ fun h => hb h.1
    rintro ⟨out, h⟩
    exact C82_violated_zero_bits hL hT hH hp hp' hblow (by omega) (by omega) n out h

/-- Where the native verifier accepts and the first opened row of every query holds the reduced opening at the queried
position, every query passes. -/
theorem native_passes (hL : L.Ok scfg) (hT : T.Ok scfg) {fri : FriProof BB4 Roots P U32 (List (List (List BB) × PI))}
    {batch : BB4} {claims : List (VerifierRound BB BB4 Roots)} {fc : FriChallenges BB4} (hblow : 1 ≤ cfg.logBlowup)
    (hmax : fri.commitPhaseCommits.length + cfg.logBlowup ≤ 27) (hbe : fc.betas.length = fri.commitPhaseCommits.length)
    (hdom : ∀ r ∈ claims, ∀ m ∈ r.2, 2 ≤ m.1.size)
    (hq : ∀ qr ∈ fc.queryIndices.zip fri.queryProofs, qr.1.2 < 2 ^ (fri.commitPhaseCommits.length + cfg.logBlowup) ∧
      qr.2.commitPhaseOpenings.length = fri.commitPhaseCommits.length)
    (hnat : verifyChallenges bb4Field.gen m cfg fri fc (verifyInput mi bbGen 31 cfg batch claims
      (fri.commitPhaseCommits.length + cfg.logBlowup)) = .ok ())
    (htop : ∀ qr ∈ fc.queryIndices.zip fri.queryProofs, ∀ vals, verifyInput mi bbGen 31 cfg batch claims
        (fri.commitPhaseCommits.length + cfg.logBlowup) qr.1.1 qr.1.2 qr.2.inputProof = .ok vals →
      ∀ o ∈ qr.2.commitPhaseOpenings.head?, (o.1.getD 0 []).getD (qr.1.2 % 2) 0 =
        roAt vals (fri.commitPhaseCommits.length + cfg.logBlowup)) :
    ∀ qr ∈ fc.queryIndices.zip fri.queryProofs, QueryPasses mi m cfg fri claims batch fc.betas qr := by
  obtain ⟨ms, n', h1, h2⟩ := C79_native hL hT hblow hmax hbe hdom hq hnat htop 0
  obtain ⟨-, h3⟩ := C79_exact hL hT hblow hmax hbe
    (fun qr h => ⟨(hq qr h).1, by rw [(hq qr h).2, Nat.sub_self]; exact hdom⟩) h1
  have h4 := (queryManagers_iff hmax hbe 0 fun qr h => (hq qr h).1).mp ⟨_, h1⟩
  intro qr hqr
  refine ⟨(h4 qr hqr).1, (h4 qr hqr).2.1, ?_⟩
  suffices h : QueryHolds mi cfg 31 batch claims fri fc.betas qr by
    obtain ⟨vals, e1, e2⟩ := h
    exact ⟨vals, e1, verifyInput_low (by rw [(hq qr hqr).2, Nat.sub_self]; exact hdom) e1, e2⟩
  obtain ⟨i, hi, rfl⟩ := List.getElem_of_mem hqr
  have hi' : i < ms.length := by rw [← h3.length_eq]; exact hi
  obtain ⟨m1, N1, h5, h6⟩ := h3.get hi hi' n' (Nat.le_refl _)
  obtain ⟨m2, N2, h7, h8⟩ := h2 _ (List.getElem_mem hi') n' (Nat.le_refl _)
  rw [List.get_eq_getElem] at h5
  rw [h5] at h7
  have h7 := Option.some.inj h7
  cases h7
  exact h6.mp h8

/-- What acceptance by the native verifier means, for one chunk. -/
theorem verify_one {ext : Ext BB BB4} (hb' : proof.degreeBits ≤ 27) (hq : getLogQuotientDegree air pub.length = some 0)
    {ch ch' : Chal U32} {perm : List U32 → List U32} :
    verify (babyBear ext mi m perm cfg) air ch proof pub = .ok ch' ↔
      (proof.traceLocal.length = air.width ∧ proof.traceNext.length = air.width ∧ proof.quotientChunks.length = 1 ∧
        ∀ qc ∈ proof.quotientChunks, qc.length = 4) ∧
      ∃ alpha zeta batch fc,
        nativeTranscript perm cfg proof.traceCommit proof.quotientCommit proof.openingProof ch =
          .ok ((alpha, zeta, batch, fc), ch') ∧
        verifyChallenges bb4Field.gen m cfg proof.openingProof fc (verifyInput mi bbGen 31 cfg batch (openingClaims proof zeta)
          (proof.openingProof.commitPhaseCommits.length + cfg.logBlowup)) = .ok () ∧
        oodCheck (babyBear ext mi m perm cfg) air pub ⟨proof.degreeBits, 1⟩ [⟨proof.degreeBits, 31⟩] proof alpha
          zeta = some true := by
  have hdom : naturalDomainForDegree (K := BB) (2 ^ proof.degreeBits) = some ⟨proof.degreeBits, 1⟩ := by
    simp [naturalDomainForDegree, log2Strict_pow]
  have hs := splitOne (k := proof.degreeBits) hb'
  unfold verify
  simp only [hq, hdom]
  rw [show splitDomains (babyBear ext mi m perm cfg).genV (babyBear ext mi m perm cfg).twoAdicity (createDisjointDomain
    (babyBear ext mi m perm cfg).g ⟨proof.degreeBits, 1⟩ (2 ^ (proof.degreeBits + 0))) (2 ^ 0) = some [⟨proof.degreeBits, 31⟩]
    from hs]
  simp only [pow_zero, show (babyBear ext mi m perm cfg).deg.D = 4 from rfl,
    show (babyBear ext mi m perm cfg).chall = bb4Chall perm from rfl,
    show (babyBear ext mi m perm cfg).genV = bbGen from rfl, show (babyBear ext mi m perm cfg).g = 31 from rfl,
    show (babyBear ext mi m perm cfg).mi = mi from rfl, show (babyBear ext mi m perm cfg).m = m from rfl,
    show (babyBear ext mi m perm cfg).cfg = cfg from rfl]
  by_cases hshape : proof.traceLocal.length = air.width ∧ proof.traceNext.length = air.width ∧
      proof.quotientChunks.length = 1 ∧ ∀ qc ∈ proof.quotientChunks, qc.length = 4
  swap
  · rw [if_pos hshape]
    exact iff_of_false (by intro h; cases h) fun h => hshape h.1
  rw [if_neg (not_not.mpr hshape)]
  obtain ⟨chunk, hch⟩ := List.length_eq_one_iff.mp hshape.2.2.1
  have hclaims : ∀ zeta : BB4, [(proof.traceCommit, [((⟨proof.degreeBits, 1⟩ : Dom BB), [(zeta, proof.traceLocal),
      (nextPoint bbGen ⟨proof.degreeBits, 1⟩ zeta, proof.traceNext)])]),
      (proof.quotientCommit, (([⟨proof.degreeBits, 31⟩] : List (Dom BB)).zip proof.quotientChunks).map
        fun x => (x.1, [(zeta, x.2)]))] = openingClaims proof zeta := by
    intro zeta
    rw [openingClaims, hch]
    rfl
  have hV : ∀ (zeta : BB4) c1, Pcs.verify bbGen 31 mi m (bb4Chall perm) cfg (openingClaims proof zeta) proof.openingProof c1
      = .ok ch' ↔ ∃ batch c2 fc, (bb4Chall perm).sample c1 = some (batch, c2) ∧
        verifyShapeAndSampleChallenges (bb4Chall perm) cfg proof.openingProof c2 = .ok (fc, ch') ∧
        verifyChallenges bb4Field.gen m cfg proof.openingProof fc (verifyInput mi bbGen 31 cfg batch (openingClaims proof zeta)
          (proof.openingProof.commitPhaseCommits.length + cfg.logBlowup)) = .ok () := by
    intro zeta c1
    unfold Pcs.verify
    rw [Res.bind_eq_ok]
    constructor
    · rintro ⟨⟨b, c2⟩, h1, h⟩
      rw [Res.bind_eq_ok] at h
      obtain ⟨⟨fc, c3⟩, h2, h⟩ := h
      rw [Res.bind_eq_ok] at h
      obtain ⟨⟨⟩, h3, h4⟩ := h
      cases h4
      exact ⟨b, c2, fc, Res.ofOption_eq_ok.mp h1, expect_eq_ok.mp h2, expect_eq_ok.mp h3⟩
    · rintro ⟨b, c2, fc, h1, h2, h3⟩
      refine ⟨(b, c2), Res.ofOption_eq_ok.mpr h1, ?_⟩
      rw [Res.bind_eq_ok]
      refine ⟨(fc, ch'), expect_eq_ok.mpr h2, ?_⟩
      rw [Res.bind_eq_ok]
      exact ⟨(), expect_eq_ok.mpr h3, rfl⟩
  simp only [hclaims]
  constructor
  · intro h
    refine ⟨hshape, ?_⟩
    split at h
    · cases h
    rename_i alpha zeta c1 h1
    simp only [Option.bind_eq_bind, Option.bind_eq_some_iff, Prod.exists] at h1
    obtain ⟨d1, k1, a, d2, k2, d3, k3, z, d4, k4, k5⟩ := h1
    have k5 := Option.some.inj k5
    cases k5
    split at h
    · cases h
    · cases h
    rename_i c2 h2
    split at h
    · cases h
    · rename_i h3
      cases h
      obtain ⟨batch, c3, fc, h4, h5, h6⟩ := (hV zeta c1).mp h2
      refine ⟨alpha, zeta, batch, fc, ?_, h6, h3⟩
      unfold nativeTranscript
      simp only [k1, k2, k3, k4, h4, h5, Res.ofOption, Res.bind_ok]
    · cases h
  · rintro ⟨-, alpha, zeta, batch, fc, h1, h2, h3⟩
    unfold nativeTranscript at h1
    simp only [Res.bind_eq_ok, Res.ofOption_eq_ok] at h1
    obtain ⟨d1, k1, ⟨a, d2⟩, k2, d3, k3, ⟨z, d4⟩, k4, ⟨b, d5⟩, k5, ⟨fc', d6⟩, k6, k7⟩ := h1
    cases k7
    simp only at k3 k5 k6
    simp only [k1, k2, k3, k4, Option.bind_eq_bind, Option.bind_some]
    rw [(hV z d4).mpr ⟨b, d5, fc', k5, k6, h2⟩]
    simp only [h3]

/-- **C82** An accepted proof with one chunk: where the native verifier accepts and the first opened row of every query
holds the reduced opening, the script verifier succeeds exactly when the challenges its script computes agree, up to an
even number of failed checks of the work and the query indices. -/
theorem C82_native_partial (hL : L.Ok scfg) (hT : T.Ok scfg)
    (hD : ∀ x : List Elem, x.length ≤ 4 → Does scfg (drops x.length) x []) (hH : IsBlake3 hash) {ext : Ext BB BB4}
    (hp : 1 ≤ cfg.powBits) (hp' : cfg.powBits ≤ 31) (hb' : proof.degreeBits ≤ 27)
    (hblow : 1 ≤ cfg.logBlowup) (hmax : proof.openingProof.commitPhaseCommits.length + cfg.logBlowup ≤ 27)
    (hop : ∀ qp ∈ proof.openingProof.queryProofs,
      qp.commitPhaseOpenings.length = proof.openingProof.commitPhaseCommits.length)
    (hair : air.InRange pub.length) (hne : air.asserts ≠ []) (hq : getLogQuotientDegree air pub.length = some 0)
    {ch' : Chal U32}
    (hv : verify (babyBear ext mi m (blake3Perm hash) cfg) air (Chal.new 16 (fromU64 0)) proof pub = .ok ch')
    {alpha zeta batch : BB4} {fc : FriChallenges BB4}
    (hn : nativeTranscript (blake3Perm hash) cfg proof.traceCommit proof.quotientCommit proof.openingProof
          (Chal.new 16 (fromU64 0)) = .ok ((alpha, zeta, batch, fc), ch'))
    (htop : ∀ qr ∈ fc.queryIndices.zip proof.openingProof.queryProofs, ∀ vals, verifyInput mi bbGen 31 cfg batch
        (openingClaims proof zeta) (proof.openingProof.commitPhaseCommits.length + cfg.logBlowup) qr.1.1 qr.1.2
        qr.2.inputProof = .ok vals →
      ∀ o ∈ qr.2.commitPhaseOpenings.head?, (o.1.getD 0 []).getD (qr.1.2 % 2) 0 =
        roAt vals (proof.openingProof.commitPhaseCommits.length + cfg.logBlowup)) (n : Nat) :
    (∃ out, generateScriptVerifier scfg L T drops mi m (blake3Perm hash) cfg air (Chal.new 16 (fromU64 0)) (ChalExpr.new n).1
        proof pub (ChalExpr.new n).2 = .ok out) ↔
      1 ≤ proof.degreeBits ∧ ∃ s, scriptTranscript (blake3Perm hash) cfg proof.traceCommit proof.quotientCommit proof.openingProof
          (Chal.new 16 (fromU64 0)) = some s ∧
        (s.alpha = alpha ∧ s.zeta = zeta ∧ s.betas = fc.betas ∧
          ((if s.pow then 0 else 1) + differing s.indices fc.queryIndices) % 2 = 0) := by
  rw [C82_exact hL hT hD hH ext hp hp' hb' hblow hmax hair hne hq]
  refine and_congr_right fun hb => ?_
  obtain ⟨h1, a, z, b, f, h2, h3, h4⟩ := (verify_one hb' hq).mp hv
  have h5 := hn.symm.trans h2
  cases h5
  constructor
  · rintro ⟨-, a, z, b, f, c, s, k1, k2, k3, -⟩
    have k4 := hn.symm.trans k1
    cases k4
    exact ⟨s, k2, k3⟩
  · rintro ⟨s, k2, k3⟩
    obtain ⟨hbe, hidx⟩ := nativeTranscript_shape hn
    refine ⟨h1, _, _, _, _, _, s, hn, k2, k3, ?_, h4⟩
    refine native_passes hL hT hblow hmax hbe (claims_two hb) ?_ h3 htop
    intro qr hqr
    exact ⟨hidx _ (List.of_mem_zip (a := qr.1) (b := qr.2) hqr).1, hop _ (List.of_mem_zip (a := qr.1) (b := qr.2) hqr).2⟩

/-- **C82** Honest proofs with one chunk, of any trace satisfying the AIR: the native verifier accepts, and the script
verifier succeeds exactly when an even number of query indices differ from those of its script.  `zeta` lies outside the
trace domain, every commitment has a root and no sampled word is `2^31`. -/
theorem C82_honest_partial (hL : L.Ok scfg) (hT : T.Ok scfg)
    (hD : ∀ x : List Elem, x.length ≤ 4 → Does scfg (drops x.length) x []) (hH : IsBlake3 hash) {ext : Ext BB BB4}
    (hu : (babyBear ext mi m (blake3Perm hash) cfg).Ok) (hp : 1 ≤ cfg.powBits) (hp' : cfg.powBits ≤ 31)
    (hwidth : 0 < air.width) (hf : air.Filtered) (ht : air.FewTransitions)
    (hne : air.asserts ≠ []) (hq : getLogQuotientDegree air pub.length = some 0) {trace : Pcs.Mat BB} {k : Nat} (hk : 1 ≤ k)
    (hkb : k + cfg.logBlowup ≤ 27) (hl : trace.length = 2 ^ k) (hrect : Rect trace air.width)
    (hsat : Satisfies air trace pub) {si : SI} {s : S} {w : U32} {ch' : Chal U32}
    (hprove : prove (babyBear ext mi m (blake3Perm hash) cfg) air (Chal.new 16 (fromU64 0)) trace pub si s w =
      some (proof, ch'))
    (hz : ∀ alpha zeta chz, challenges (babyBear ext mi m (blake3Perm hash) cfg) (Chal.new 16 (fromU64 0)) proof.traceCommit
      proof.quotientCommit = some (alpha, zeta, chz) → zeta ^ 2 ^ k ≠ 1)
    (hr1 : proof.traceCommit ≠ []) (hr2 : proof.quotientCommit ≠ [])
    (hr3 : ∀ r ∈ proof.openingProof.commitPhaseCommits, r ≠ []) (hw : NoTop ch'.samples) (n : Nat) :
    verify (babyBear ext mi m (blake3Perm hash) cfg) air (Chal.new 16 (fromU64 0)) proof pub = .ok ch' ∧
    ∃ alpha zeta batch fc sc,
      nativeTranscript (blake3Perm hash) cfg proof.traceCommit proof.quotientCommit proof.openingProof
        (Chal.new 16 (fromU64 0)) = .ok ((alpha, zeta, batch, fc), ch') ∧
      scriptTranscript (blake3Perm hash) cfg proof.traceCommit proof.quotientCommit proof.openingProof
        (Chal.new 16 (fromU64 0)) = some sc ∧
      ((∃ out, generateScriptVerifier scfg L T drops mi m (blake3Perm hash) cfg air (Chal.new 16 (fromU64 0))
          (ChalExpr.new n).1 proof pub (ChalExpr.new n).2 = .ok out) ↔
        differing sc.indices fc.queryIndices % 2 = 0) := by
  have hv := C48_complete_partial hu hwidth hf ht hq (Nat.zero_le _) hkb hl hrect hsat hprove hz
  refine ⟨hv, ?_⟩
  obtain ⟨ps, hpw, rfl, hps⟩ := trace_polys hu (k := k) (show k ≤ 27 by omega) hl hrect
  have hair := ((C45_least_power_of_two air _ 0).1 hq).1
  obtain ⟨t1, t2, t3, alpha, zeta, chz, batch, ch1, fc, t4, t5, t6, t7⟩ := produced_top hu hwidth hair hq (Nat.zero_le _) hkb hpw
    hps hprove
  have hblow : 1 ≤ cfg.logBlowup := hu.blowup
  have hn : nativeTranscript (blake3Perm hash) cfg proof.traceCommit proof.quotientCommit proof.openingProof
        (Chal.new 16 (fromU64 0)) = .ok ((alpha, zeta, batch, fc), ch') := by
    unfold challenges at t4
    simp only [Option.bind_eq_bind, Option.bind_eq_some_iff, Prod.exists] at t4
    obtain ⟨d1, k1, a, d2, k2, d3, k3, z, d4, k4, k5⟩ := t4
    have k5 := Option.some.inj k5
    cases k5
    have k1 : (bb4Chall (blake3Perm hash)).observe _ _ = _ := k1
    have k2 : (bb4Chall (blake3Perm hash)).sample _ = _ := k2
    have k3 : (bb4Chall (blake3Perm hash)).observe _ _ = _ := k3
    have k4 : (bb4Chall (blake3Perm hash)).sample _ = _ := k4
    have t5 : (bb4Chall (blake3Perm hash)).sample _ = _ := t5
    have t6 : verifyShapeAndSampleChallenges (bb4Chall (blake3Perm hash)) cfg _ _ = _ := t6
    unfold nativeTranscript
    simp only [k1, k2, k3, k4, t5, t6, Res.ofOption, Res.bind_ok]
  have hchunks : ∃ chunk, proof.quotientChunks = [chunk] := by
    have := ((verify_one (by omega) hq).mp hv).1.2.2.1
    exact List.length_eq_one_iff.mp this
  obtain ⟨chunk, hch⟩ := hchunks
  have hcl : [(proof.traceCommit, [((⟨k, 1⟩ : Dom BB), [(zeta, proof.traceLocal), (zeta * algebraMap BB BB4
        ((babyBear ext mi m (blake3Perm hash) cfg).genV k), proof.traceNext)])]),
      (proof.quotientCommit, ((chunkDomains (babyBear ext mi m (blake3Perm hash) cfg).genV k 0
        (babyBear ext mi m (blake3Perm hash) cfg).g).zip proof.quotientChunks).map fun (d, v) => (d, [(zeta, v)]))] =
      openingClaims proof zeta := by
    rw [openingClaims, hch, t1]
    simp [chunkDomains, babyBear]
  rw [hcl] at t7
  have h0 := C82_native_partial hL hT hD hH hp hp' (by omega) hblow (by omega) t3 hair hne hq hv hn t7 n
  obtain ⟨sc, -, -, -, -, -, hsc, -⟩ := C77_exact (bits := proof.degreeBits) hL hT hH hp hp' (by omega)
    (by omega) (by omega) hn n
  obtain ⟨k1, k2⟩ := transcripts_agree hp' hr1 hr2 hr3 hn hsc
  refine ⟨alpha, zeta, batch, fc, sc, hn, hsc, (h0.trans (and_iff_right (by omega))).trans ?_⟩
  constructor
  · rintro ⟨s, h1, h2⟩
    obtain rfl := Option.some.inj (hsc.symm.trans h1)
    simpa [k1] using h2.2.2.2
  · intro h
    obtain ⟨a1, a2, a3⟩ := k2 hw
    exact ⟨sc, hsc, a1, a2, a3, by simpa [k1] using h⟩

end

end TapStark.Stark
