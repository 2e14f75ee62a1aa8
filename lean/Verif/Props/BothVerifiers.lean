import Verif.Props.BothQuery
import Verif.Props.ClaimsScript

/-
C108: what the native verifier and the script verifier guarantee together.
-/

namespace TapStark.Stark

open TapStark.Fri TapStark.Pcs TapStark.FS TapStark.Tap TapStark.Tcs

section

variable {SI DI PI S D P : Type} {scfg : Cfg} {L : U31Lib} {T : TrackerLib} {drops : Nat → List Op}
  {hash : List UInt8 → U256} {mi : InMmcs BB SI Roots DI PI} {m : Mmcs BB4 S Roots D P} {cfg : Config} {air : Air BB}
  {pub : List BB} {proof : ProofOf BB BB4 Roots P U32 PI} {ext : Ext BB BB4}

/-- What both verifiers compute for every query of a proof that both accept. -/
theorem both_queries (hL : L.Ok scfg) (hT : T.Ok scfg)
    (hD : ∀ x : List Elem, x.length ≤ 4 → Does scfg (drops x.length) x []) (hH : IsBlake3 hash)
    (hp : 1 ≤ cfg.powBits) (hp' : cfg.powBits ≤ 31) (hb' : proof.degreeBits ≤ 27)
    (hblow : 1 ≤ cfg.logBlowup) (hmax : proof.openingProof.commitPhaseCommits.length + cfg.logBlowup ≤ 27)
    (hair : air.InRange pub.length) (hne : air.asserts ≠ []) (hq : getLogQuotientDegree air pub.length = some 0) (n : Nat)
    {ch' : Chal U32}
    (hv : verify (babyBear ext mi m (blake3Perm hash) cfg) air (Chal.new 16 (fromU64 0)) proof pub = .ok ch')
    (hs : ∃ out, generateScriptVerifier scfg L T drops mi m (blake3Perm hash) cfg air (Chal.new 16 (fromU64 0))
      (ChalExpr.new n).1 proof pub (ChalExpr.new n).2 = .ok out) :
    ∃ alpha zeta batch fc, nativeTranscript (blake3Perm hash) cfg proof.traceCommit proof.quotientCommit proof.openingProof
        (Chal.new 16 (fromU64 0)) = .ok ((alpha, zeta, batch, fc), ch') ∧
      fc.betas.length = proof.openingProof.commitPhaseCommits.length ∧
      ∀ qr ∈ fc.queryIndices.zip proof.openingProof.queryProofs, ∃ vals,
        let top := proof.openingProof.commitPhaseCommits.length + cfg.logBlowup
        verifyInput mi bbGen 31 cfg batch (openingClaims proof zeta) top qr.1.1 qr.1.2 qr.2.inputProof = .ok vals ∧
        verifyQuery (fun b => algebraMap BB BB4 (bbGen b)) m cfg proof.openingProof.commitPhaseCommits qr.1.2 qr.1.1
          qr.2.commitPhaseOpenings fc.betas vals top = .ok proof.openingProof.finalPoly ∧
        foldChain (roAt vals) top (algebraMap BB BB4 (bbGen top) ^ revBits top qr.1.2) 0
          (fc.betas.zip (siblings qr.1.2 (qr.2.commitPhaseOpenings.map Prod.fst))) = proof.openingProof.finalPoly := by
  obtain ⟨hshape, alpha, zeta, batch, fc, h1, h2, -⟩ := (verify_one (mi := mi) (m := m) hb' hq).mp hv
  obtain ⟨-, -, a, z, b, f, c, s, k1, k2, k3, k4, k5⟩ := (C82_exact hL hT hD hH ext hp hp' hb' hblow hmax
    hair hne hq n).mp hs
  have h6 := k1.symm.trans h1
  cases h6
  obtain ⟨hbe, -⟩ := nativeTranscript_shape h1
  refine ⟨alpha, zeta, batch, fc, h1, hbe, ?_⟩
  intro qr hqr
  obtain ⟨i, hi, e⟩ := List.getElem_of_mem hqr
  have e' : (fc.queryIndices.zip proof.openingProof.queryProofs)[i]? = some qr := by rw [List.getElem?_eq_getElem hi, e]
  rw [List.getElem?_zip_eq_some] at e'
  obtain ⟨vals, hvals, hquery⟩ := C40_accepted_proof h2 i qr.1.1 qr.1.2 qr.2 e'.1 e'.2
  obtain ⟨-, -, vals', hvals', -, hchain⟩ := k4 qr hqr
  have h7 := hvals.symm.trans hvals'
  cases h7
  exact ⟨vals, hvals, hquery, hchain⟩

/-- **C108**: on a proof that the native verifier accepts and on which the script verifier succeeds, every query is checked
in full, unless a folding challenge is the negative of the point of its round. The openings of the inputs are accepted; every
round opens one pair that the commitment accepts; the entry of the first pair at the queried position is the reduced opening
of the largest height; the entry of every further pair is the line through the previous pair at the challenge, plus the
reduced opening of its height; and the line through the last pair gives the final value.  The rounds are those for which the
query has an opening; without any, the final value is zero. -/
theorem C108_both (hL : L.Ok scfg) (hT : T.Ok scfg)
    (hD : ∀ x : List Elem, x.length ≤ 4 → Does scfg (drops x.length) x []) (hH : IsBlake3 hash)
    (hp : 1 ≤ cfg.powBits) (hp' : cfg.powBits ≤ 31) (hb' : proof.degreeBits ≤ 27)
    (hblow : 1 ≤ cfg.logBlowup) (hmax : proof.openingProof.commitPhaseCommits.length + cfg.logBlowup ≤ 27)
    (hair : air.InRange pub.length) (hne : air.asserts ≠ []) (hq : getLogQuotientDegree air pub.length = some 0) (n : Nat)
    {ch' : Chal U32}
    (hv : verify (babyBear ext mi m (blake3Perm hash) cfg) air (Chal.new 16 (fromU64 0)) proof pub = .ok ch')
    (hs : ∃ out, generateScriptVerifier scfg L T drops mi m (blake3Perm hash) cfg air (Chal.new 16 (fromU64 0))
      (ChalExpr.new n).1 proof pub (ChalExpr.new n).2 = .ok out) :
    ∃ alpha zeta batch fc, nativeTranscript (blake3Perm hash) cfg proof.traceCommit proof.quotientCommit proof.openingProof
        (Chal.new 16 (fromU64 0)) = .ok ((alpha, zeta, batch, fc), ch') ∧
      fc.betas.length = proof.openingProof.commitPhaseCommits.length ∧
      ∀ qr ∈ fc.queryIndices.zip proof.openingProof.queryProofs, ∃ vals,
        let top := proof.openingProof.commitPhaseCommits.length + cfg.logBlowup
        let k := min qr.2.commitPhaseOpenings.length proof.openingProof.commitPhaseCommits.length
        let point := fun j => algebraMap BB BB4 (bbGen (top - j)) ^ revBits (top - j - 1) (qr.1.2 / 2 ^ (j + 1))
        verifyInput mi bbGen 31 cfg batch (openingClaims proof zeta) top qr.1.1 qr.1.2 qr.2.inputProof = .ok vals ∧
        ((∀ j < k, fc.betas.getD j 0 ≠ -(algebraMap BB BB4 (bbGen top) ^ revBits top qr.1.2) ^ 2 ^ j) →
          ∃ x y : Nat → BB4,
            (∀ j < k, ∃ o ∈ qr.2.commitPhaseOpenings[j]?, ∃ c ∈ proof.openingProof.commitPhaseCommits[j]?,
              o.1 = [[x j, y j]] ∧ m.verifyBatch qr.1.1 [[x j, y j]] o.2 c = some true) ∧
            (0 < k → (if qr.1.2 % 2 = 0 then x 0 else y 0) = roAt vals top) ∧
            (∀ j, j + 1 < k → (if qr.1.2 / 2 ^ (j + 1) % 2 = 0 then x (j + 1) else y (j + 1)) =
              lineAt (point j) (fc.betas.getD j 0) (x j) (y j) + roAt vals (top - (j + 1))) ∧
            (k = 0 → proof.openingProof.finalPoly = 0) ∧
            (∀ j, j + 1 = k → proof.openingProof.finalPoly =
              lineAt (point j) (fc.betas.getD j 0) (x j) (y j))) := by
  obtain ⟨alpha, zeta, batch, fc, h1, hbe, hall⟩ := both_queries hL hT hD hH hp hp' hb' hblow hmax hair hne hq n hv hs
  refine ⟨alpha, zeta, batch, fc, h1, hbe, fun qr hqr => ?_⟩
  obtain ⟨vals, hvals, hquery, hchain⟩ := hall qr hqr
  refine ⟨vals, hvals, ?_⟩
  have hcut := verifyQuery_cut hbe hquery
  generalize hk : min qr.2.commitPhaseOpenings.length proof.openingProof.commitPhaseCommits.length = k at hcut ⊢
  intro hβ
  have hlc : (proof.openingProof.commitPhaseCommits.take k).length = k := by rw [List.length_take]; omega
  have hlo : (qr.2.commitPhaseOpenings.take k).length = (proof.openingProof.commitPhaseCommits.take k).length := by
    rw [hlc, List.length_take]; omega
  have hlb : (fc.betas.take k).length = (proof.openingProof.commitPhaseCommits.take k).length := by
    rw [hlc, List.length_take]; omega
  have htop : proof.openingProof.commitPhaseCommits.length + cfg.logBlowup =
      (proof.openingProof.commitPhaseCommits.take k).length +
        (cfg.logBlowup + (proof.openingProof.commitPhaseCommits.length - k)) := by omega
  have hget : ∀ j < k, (fc.betas.take k).getD j 0 = fc.betas.getD j 0 := fun j hj => by
    simp only [List.getD_eq_getElem?_getD, List.getElem?_take, if_pos hj]
  obtain ⟨x, y, m1, m2, m0, m3⟩ := C40_accepted_query bb4Field_ok.twoAdic htop hmax hlo hlb (verifyInput_rosOk hvals) hcut
  rw [hlc] at m1 m2 m3
  refine ⟨x, y, fun j hj => ?_, fun h0 => ?_, fun j hj => ?_, fun h0 => ?_, fun j hj => ?_⟩
  · obtain ⟨o, ho, c, hc, hrow⟩ := m1 j hj
    rw [List.getElem?_take, if_pos hj] at ho hc
    exact ⟨o, ho, c, hc, hrow⟩
  · obtain ⟨o, ho, c, -, hrow, -⟩ := m1 0 h0
    have ho' : o ∈ (qr.2.commitPhaseOpenings.take k).head? := by rwa [List.head?_eq_getElem?]
    have hchain' : foldChain (roAt vals) (proof.openingProof.commitPhaseCommits.length + cfg.logBlowup)
        (algebraMap BB BB4 (bbGen (proof.openingProof.commitPhaseCommits.length + cfg.logBlowup)) ^
          revBits (proof.openingProof.commitPhaseCommits.length + cfg.logBlowup) qr.1.2) 0
        ((fc.betas.take k).zip (siblings qr.1.2 ((qr.2.commitPhaseOpenings.take k).map Prod.fst))) =
        proof.openingProof.finalPoly := by
      rw [List.map_take, siblings_take,
        show (fc.betas.take k).zip ((siblings qr.1.2 (qr.2.commitPhaseOpenings.map Prod.fst)).take k) =
          fc.betas.zip (siblings qr.1.2 (qr.2.commitPhaseOpenings.map Prod.fst)) from by
            rw [List.zip_eq_zip_take_min (l₁ := fc.betas), siblings_length, List.length_map, hbe, Nat.min_comm, hk]]
      exact hchain
    rcases (C108_query bb4Field_ok.twoAdic htop hmax hlo hlb (verifyInput_rosOk hvals) hcut ho').mp hchain' with h8 | ⟨j, hj, h8⟩
    · rw [hrow] at h8
      rw [← h8]
      rcases Nat.mod_two_eq_zero_or_one qr.1.2 with h0 | h0 <;> rw [h0] <;> rfl
    · rw [hlc] at hj
      rw [hget j hj] at h8
      exact absurd h8 (hβ j hj)
  · have := m2 j hj
    rwa [hget j (by omega)] at this
  · exact m0 (List.length_eq_zero_iff.mp (by rw [hlc, h0]))
  · have := m3 j hj
    rwa [hget j (by omega)] at this

/-- Challenges outside the base field meet the condition of `C108_both`, for every query. -/
theorem C108_outside_base {betas : List BB4} (h : ∀ β ∈ betas, ∀ x : BB, β ≠ algebraMap BB BB4 x) (top idx : Nat) :
    ∀ j < betas.length, betas.getD j 0 ≠ -(algebraMap BB BB4 (bbGen top) ^ revBits top idx) ^ 2 ^ j := by
  intro j hj e
  rw [List.getD_eq_getElem?_getD, List.getElem?_eq_getElem hj, Option.getD_some] at e
  refine h _ (List.getElem_mem hj) (-(bbGen top ^ revBits top idx) ^ 2 ^ j) ?_
  rw [e, map_neg, map_pow, map_pow]

end

/-! ### A run -/

/-- The coordinates of the folding challenge of a proof with one round. -/
def betaWords (q : Nat) : Option (List BB) := do
  let r := (List.replicate q (u256ToU32 demoRoot)).map Vector.toList
  let c ← (Chal.new 16 (fromU64 0)).observeNested 16 (blake3Perm specHash) r
  let (_, c) ← c.sample 16 (blake3Perm specHash) 4
  let c ← c.observeNested 16 (blake3Perm specHash) r
  let (_, c) ← c.sample 16 (blake3Perm specHash) 4
  let (_, c) ← c.sample 16 (blake3Perm specHash) 4
  let c ← c.observeNested 16 (blake3Perm specHash) r
  let (ws, _) ← c.sample 16 (blake3Perm specHash) 4
  some (ws.map fun v => (fromPf v : BB))

theorem betaWords2 : betaWords 2 = some [1604820512, 1426163366, 277905037, 1610794461] := by decide +kernel

/-- The folding challenge of a proof with one round. -/
theorem beta_words {q w : Nat} {alpha zeta batch : BB4} {fc : FriChallenges BB4} {c' : Chal U32} {x : BB × BB × BB × BB}
    (hx : betaWords q = some [x.1, x.2.1, x.2.2.1, x.2.2.2])
    (h : nativeTranscript (blake3Perm specHash) (demoCfg q) (List.replicate q (u256ToU32 demoRoot))
      (List.replicate q (u256ToU32 demoRoot)) (fibFri q w) (Chal.new 16 (fromU64 0)) = .ok ((alpha, zeta, batch, fc), c')) :
    fc.betas = [of4 x] := by
  unfold nativeTranscript verifyShapeAndSampleChallenges at h
  simp only [Res.bind_eq_ok, Res.ofOption_eq_ok, Prod.exists] at h
  obtain ⟨c1, k1, a, c2, k2, c3, k3, z, chz, k4, b, ch1, k5, fc', c5, ⟨betas, chPow, k6, k7⟩, k8⟩ := h
  have k8 := Res.ok.inj k8
  cases k8
  have hb : fc.betas = betas := by
    split at k7
    · cases k7
    simp only [Res.bind_eq_ok, Res.ofOption_eq_ok, Prod.exists] at k7
    obtain ⟨acc, chw, k9, k10⟩ := k7
    split at k10
    · cases k10
    simp only [Res.bind_eq_ok, Res.ofOption_eq_ok, Prod.exists] at k10
    obtain ⟨is, c9, -, k11⟩ := k10
    have k11 := Res.ok.inj k11
    cases k11
    rfl
  rw [hb]
  simp only [fibFri, sampleBetas, Option.bind_eq_bind, Option.bind_eq_some_iff, Prod.exists] at k6
  obtain ⟨c6, k6, β, c7, k12, bs, c8, k13, k14⟩ := k6
  have k13 := Option.some.inj k13
  cases k13
  have k14 := Option.some.inj k14
  cases k14
  have k1' : (Chal.new 16 (fromU64 0)).observeNested 16 (blake3Perm specHash)
    ((List.replicate q (u256ToU32 demoRoot)).map Vector.toList) = some c1 := k1
  have k3' : c2.observeNested 16 (blake3Perm specHash)
    ((List.replicate q (u256ToU32 demoRoot)).map Vector.toList) = some c3 := k3
  have k6' : ch1.observeNested 16 (blake3Perm specHash)
    ((List.replicate q (u256ToU32 demoRoot)).map Vector.toList) = some c6 := k6
  simp only [bb4Chall, Option.bind_eq_bind, Option.bind_eq_some_iff, Prod.exists] at k2 k4 k5 k12
  obtain ⟨v2, d2, m2, n2⟩ := k2
  obtain ⟨v4, d4, m4, n4⟩ := k4
  obtain ⟨v5, d5, m5, n5⟩ := k5
  obtain ⟨v6, d6, m6, n6⟩ := k12
  have n2 := (Prod.mk.inj (Option.some.inj n2)).2
  have n4 := (Prod.mk.inj (Option.some.inj n4)).2
  have n5 := (Prod.mk.inj (Option.some.inj n5)).2
  have n6 := (Prod.mk.inj (Option.some.inj n6)).1
  subst n2 n4 n5
  unfold betaWords at hx
  simp only [k1', m2, k3', m4, m5, k6', m6, Option.bind_eq_bind, Option.bind_some] at hx
  have hx := Option.some.inj hx
  rw [← n6, hx]
  rfl

section
variable [LinearOrder U256]

/-- C108, a run: the honest proof of the two-row Fibonacci trace is accepted by both verifiers, and its folding challenge
meets the condition for both queries, so that the opened entries are the reduced openings. -/
theorem C108_instance (scfg : Cfg) (h20 : ∀ x, (scfg.hash160 x).length = 20) {L : U31Lib} {T : TrackerLib}
    {drops : Nat → List Op} (hL : L.Ok scfg) (hT : T.Ok scfg)
    (hD : ∀ x : List Elem, x.length ≤ 4 → Does scfg (drops x.length) x []) (n : Nat) :
    ∃ bc proof ch' out alpha zeta batch fc,
      verify (fibSetup scfg bc 2) (fibAir BB) (Chal.new 16 (fromU64 0)) proof [0, 1, 1] = .ok ch' ∧
      generateScriptVerifier scfg L T drops (fibSetup scfg bc 2).mi (fibSetup scfg bc 2).m (blake3Perm specHash) (demoCfg 2)
          (fibAir BB) (Chal.new 16 (fromU64 0)) (ChalExpr.new n).1 proof [0, 1, 1] (ChalExpr.new n).2 = .ok out ∧
      nativeTranscript (blake3Perm specHash) (demoCfg 2) proof.traceCommit proof.quotientCommit proof.openingProof
        (Chal.new 16 (fromU64 0)) = .ok ((alpha, zeta, batch, fc), ch') ∧
      fc.queryIndices = [(0, 3), (1, 3)] ∧ proof.openingProof.commitPhaseCommits.length = 1 ∧
      ∀ qr ∈ fc.queryIndices.zip proof.openingProof.queryProofs, ∃ vals x y,
        verifyInput (fibSetup scfg bc 2).mi bbGen 31 (demoCfg 2) batch (openingClaims proof zeta) (1 + 2) qr.1.1 qr.1.2
          qr.2.inputProof = .ok vals ∧
        (∃ o ∈ qr.2.commitPhaseOpenings[0]?, o.1 = [[x, y]]) ∧ y = roAt vals (1 + 2) := by
  obtain ⟨b, c, -, -, h⟩ := Tcs.winternitz_ok scfg h20 ['b', '1', '3', '8'] (by decide) 0
  generalize winternitzBc scfg b c = bc at h
  obtain ⟨proof, ch', h1, h2, h3, h4, -⟩ := fib_run hL hT hD h (by omega : 0 < 2) zetaWords2 zeta2_outside.1 zeta2_outside.2
    fib_native28 fib_script28 n
  have hs := h3.mpr (by decide)
  have hu := fibSetup_ok h (by omega : 0 < 2)
  have hdeg : getLogQuotientDegree (fibAir BB) 3 = some 0 := fibAir_degree 3 le_rfl
  have hair := ((C45_least_power_of_two (fibAir BB) _ 0).1 hdeg).1
  have htr : ([[0, 1], [1, 1]] : Pcs.Mat BB) = fibTrace 2 0 1 := by decide +kernel
  rw [htr] at h1
  obtain ⟨ps, hpw, hpt, hps⟩ := trace_polys hu (k := 1) (by decide : 1 ≤ 27) (fibTrace_length 2 0 1) (fibTrace_rect 2 0 1)
  rw [hpt] at h1
  obtain ⟨p1, p2, p3, -⟩ := produced_top hu (by decide : 0 < 2) hair
    (pub := [0, 1, 1]) hdeg (Nat.zero_le _) (k := 1) (by decide : 1 + 2 ≤ 27) hpw hps h1
  obtain ⟨alpha, zeta, batch, fc, e1, e2, e3⟩ := C108_both hL hT hD specHash_ok (show 1 ≤ 4 by decide) (show 4 ≤ 31 by decide)
    (by rw [p1]; decide) (show 1 ≤ 2 by decide) (by rw [p2]; decide) hair (by simp [fibAir]) hdeg n h2 hs
  have hn := h4.symm.trans e1
  have hβ := beta_words (x := (1604820512, 1426163366, 277905037, 1610794461)) betaWords2 hn
  obtain ⟨a', z', b', bs, c', hn', -⟩ := indicesOf_some fib_native28
  have h5 := hn'.symm.trans hn
  have h6 : fc.queryIndices = [(0, 3), (1, 3)] := by cases h5; rfl
  obtain ⟨out, hs⟩ := hs
  refine ⟨bc, proof, ch', out, alpha, zeta, batch, fc, h2, hs, e1, h6, p2, ?_⟩
  intro qr hqr
  obtain ⟨vals, v1, v2⟩ := e3 qr hqr
  have hout := C108_outside_base (betas := fc.betas) (by
    intro β hm x e
    rw [hβ, List.mem_singleton] at hm
    rw [hm, mk4_base] at e
    have := (mk4_inj e).2.1
    exact absurd this (by decide +kernel)) (1 + 2) qr.1.2
  rw [e2, p2] at hout
  have p4 := p3 qr.2 (List.of_mem_zip (a := qr.1) (b := qr.2) hqr).2
  rw [p2] at v1 p4
  simp only [p2, p4, Nat.min_self] at v2
  obtain ⟨x, y, w1, w2, -⟩ := v2 hout
  obtain ⟨o, ho, -, -, w3, -⟩ := w1 0 (by decide)
  refine ⟨vals, x 0, y 0, v1, ⟨o, ho, w3⟩, ?_⟩
  have h7 := (List.of_mem_zip (a := qr.1) (b := qr.2) hqr).1
  rw [h6] at h7
  have h8 : qr.1.2 = 3 := by
    simp only [List.mem_cons, List.not_mem_nil, or_false] at h7
    rcases h7 with h7 | h7 <;> rw [h7]
  have := w2 (by decide)
  rw [h8] at this
  exact this

end

end TapStark.Stark
