import Verif.Props.LinkedHonest
import Verif.Props.AlterScript
import Verif.Props.LowerClaims

/-!
C121 for the script verifier: another claimed value of the trace.
-/

set_option linter.unusedSectionVars false

namespace TapStark.Fri

section
variable {F : Type} [Field F]

/-- Two chains that differ in the reduced opening of one height end differently, unless a challenge is the negative of the
point of its round. -/
theorem foldChain_inj (h2 : (2 : F) ≠ 0) {ro ro' : Nat → F} {h0 : Nat} (hpos : 1 ≤ h0) (hro : ∀ k, k ≠ h0 → ro k = ro' k) :
    ∀ (l : List (F × F)) (h : Nat) (x own : F), x ≠ 0 → h0 ≤ h → h - h0 < l.length →
    (∀ j < l.length, (l.getD j (0, 0)).1 ≠ -x ^ 2 ^ j) →
    foldChain ro h x own l = foldChain ro' h x own l → ro h0 = ro' h0 := by
  intro l
  induction l with
  | nil => intro h x own _ _ h3; simp at h3
  | cons p l ih =>
    obtain ⟨β, s⟩ := p
    intro h x own hx hle hlen hβ he
    have hβ' : ∀ j < l.length, (l.getD j (0, 0)).1 ≠ -(x ^ 2) ^ 2 ^ j := by
      intro j hj
      have := hβ (j + 1) (by simpa using hj)
      rwa [List.getD_cons_succ, pow_succ' 2 j, pow_mul] at this
    rw [foldChain, foldChain] at he
    rcases Nat.eq_or_lt_of_le hle with rfl | hlt
    · rw [foldChain_congr (ro' := ro') l (h0 - 1) _ _ fun k hk => hro k (by omega), ← sub_eq_zero,
        foldChain_sub h2 _ _ _ _ _ _ (pow_ne_zero 2 hx), mul_eq_zero] at he
      rcases he with he | he
      · have h0' := hβ 0 (by simp)
        simp only [List.getD_cons_zero, pow_zero, pow_one] at h0'
        have e : lineAt x β (own + ro h0) s - lineAt x β (own + ro' h0) s = (ro h0 - ro' h0) * ((β + x) / (2 * x)) := by
          simp only [lineAt]
          field_simp
          ring
        rw [e, mul_eq_zero] at he
        rcases he with he | he
        · exact sub_eq_zero.mp he
        · rw [div_eq_zero_iff] at he
          rcases he with he | he
          · exact absurd (eq_neg_of_add_eq_zero_left he) h0'
          · exact absurd he (mul_ne_zero h2 hx)
      · rw [List.prod_eq_zero_iff, List.mem_mapIdx] at he
        obtain ⟨j, hj, he⟩ := he
        have := hβ' j hj
        rw [List.getD_eq_getElem?_getD, List.getElem?_eq_getElem hj, Option.getD_some] at this
        rw [div_eq_zero_iff] at he
        rcases he with he | he
        · exact absurd (eq_neg_of_add_eq_zero_left he) this
        · exact absurd he (mul_ne_zero h2 (pow_ne_zero _ (pow_ne_zero _ hx)))
    · rw [hro h (by omega)] at he
      exact ih (h - 1) _ _ (pow_ne_zero 2 hx) (by omega) (by simp only [List.length_cons] at hlen; omega) hβ' he

end

end TapStark.Fri

namespace TapStark.Pcs

open TapStark.Fri

section
variable {K F : Type} [Field K] [Field F] [DecidableEq K] [DecidableEq F] [Algebra K F]
variable {SI CI DI PI : Type}

/-- The reduced openings of two lists of claims that differ in one value of the first matrix: those of its height differ, and
no others. -/
theorem verifyInput_set {MI : InMmcs K SI CI DI PI} {genV : Nat → K} {g : K} {cfg : Config} {a : F} (ha : a ≠ 0) {c : CI}
    {dom : Dom K} {pre : List (F × List F)} {z : F} {ys : List F} {post : List (F × List F)}
    {mats : List (Dom K × List (F × List F))} {rounds : List (VerifierRound K F CI)} {top q index : Nat} {row : List K}
    {rows : List (List K)} {π : PI} {ip : List (List (List K) × PI)} {i : Nat} (hr : i < row.length) (hi : i < ys.length)
    {v : F} (hv : v ≠ ys[i]) {vals vals' : List (Nat × F)}
    (h : verifyInput MI genV g cfg a ((c, (dom, pre ++ (z, ys) :: post) :: mats) :: rounds) top q index
      ((row :: rows, π) :: ip) = .ok vals)
    (h' : verifyInput MI genV g cfg a ((c, (dom, pre ++ (z, ys.set i v) :: post) :: mats) :: rounds) top q index
      ((row :: rows, π) :: ip) = .ok vals') :
    dom.logN + cfg.logBlowup ≤ top ∧ roAt vals (dom.logN + cfg.logBlowup) ≠ roAt vals' (dom.logN + cfg.logBlowup) ∧
      ∀ k ≤ top, k ≠ dom.logN + cfg.logBlowup → roAt vals k = roAt vals' k := by
  have hle : dom.logN + cfg.logBlowup ≤ top :=
    (((verifyInput_exact.1.mp ⟨vals, h⟩) _ (List.mem_cons_self ..)).2.1 _ (List.mem_cons_self ..))
  refine ⟨hle, ?_, fun k hk hne => ?_⟩
  · obtain ⟨e1, e2⟩ := verifyInput_terms h hle
    obtain ⟨e1', -⟩ := verifyInput_terms h' hle
    have hz := e2 _ (by
      simp only [List.zip_cons_cons, opened, List.flatMap_cons]
      exact List.mem_cons_self ..) rfl (z, ys) (by simp)
    rw [e1, e1']
    simp only [List.zip_cons_cons, opened, List.flatMap_cons, List.cons_append, heightTerms_cons, if_true]
    exact (matTerms_set ha pre z ys post hz hr hi hv _).symm
  · rw [(verifyInput_terms h hk).1, (verifyInput_terms h' hk).1]
    simp only [List.zip_cons_cons, opened, List.flatMap_cons, List.cons_append, heightTerms_cons]
    rw [if_neg (Ne.symm hne), if_neg (Ne.symm hne)]

end

end TapStark.Pcs

namespace TapStark.Stark

open TapStark.Fri TapStark.Pcs TapStark.Tap TapStark.FS TapStark.Tcs

section
variable {SI DI PI S D P : Type} {mi : InMmcs BB SI Roots DI PI} {m : Mmcs BB4 S Roots D P} {cfg : Config}

/-- A query cannot pass with both of two lists of claims that differ in one value of the first matrix. -/
theorem query_set {fri : FriProof BB4 Roots P U32 (List (List (List BB) × PI))} {batch : BB4} (hb : batch ≠ 0)
    {betas : List BB4} (hbe : betas.length = fri.commitPhaseCommits.length) {c : Roots} {dom : Dom BB}
    {pre : List (BB4 × List BB4)} {z : BB4} {ys : List BB4} {post : List (BB4 × List BB4)}
    {mats : List (Dom BB × List (BB4 × List BB4))} {rounds : List (VerifierRound BB BB4 Roots)}
    {qr : (Nat × Nat) × QueryProof BB4 P (List (List (List BB) × PI))} {i : Nat} (hi : i < ys.length) {v : BB4}
    (hv : v ≠ ys[i]) (hmax : fri.commitPhaseCommits.length + cfg.logBlowup ≤ 27)
    (hrow : ∃ o ∈ qr.2.inputProof.head?, ∃ row ∈ o.1.head?, i < row.length)
    (hβ : ∀ j < fri.commitPhaseCommits.length, betas.getD j 0 ≠
      -(algebraMap BB BB4 (bbGen (fri.commitPhaseCommits.length + cfg.logBlowup)) ^
        revBits (fri.commitPhaseCommits.length + cfg.logBlowup) qr.1.2) ^ 2 ^ j)
    (h : QueryPasses mi m cfg fri ((c, (dom, pre ++ (z, ys) :: post) :: mats) :: rounds) batch betas qr)
    (h' : QueryPasses mi m cfg fri ((c, (dom, pre ++ (z, ys.set i v) :: post) :: mats) :: rounds) batch betas qr) : False := by
  obtain ⟨⟨rows, π⟩, ho, row, hrow, hir⟩ := hrow
  obtain ⟨ip, hip⟩ := List.head?_eq_some_iff.mp ho
  obtain ⟨rows', hrows⟩ := List.head?_eq_some_iff.mp hrow
  obtain ⟨-, -, vals, e1, e2, e3⟩ := h
  obtain ⟨-, -, vals', e1', e2', e3'⟩ := h'
  simp only at hrows
  rw [hip, hrows] at e1 e1'
  obtain ⟨k1, k2, k3⟩ := verifyInput_set hb hir hi hv e1 e1'
  have hhave : cfg.logBlowup + (fri.commitPhaseCommits.length - qr.2.commitPhaseOpenings.length) <
      dom.logN + cfg.logBlowup := by
    by_contra hcon
    have h0 : ∀ w : List (Nat × BB4), (∀ r ∈ w, cfg.logBlowup + (fri.commitPhaseCommits.length -
        qr.2.commitPhaseOpenings.length) < r.1) → roAt w (dom.logN + cfg.logBlowup) = 0 := by
      intro w hw
      rw [roAt, List.filter_eq_nil_iff.2]
      · rfl
      · intro r hr
        have := hw r hr
        rw [beq_iff_eq]
        omega
    exact k2 ((h0 vals e2).trans (h0 vals' e2').symm)
  have hcong : ∀ k, k ≠ dom.logN + cfg.logBlowup → roAt vals k = roAt vals' k := by
    intro k hk
    by_cases hk' : k ≤ fri.commitPhaseCommits.length + cfg.logBlowup
    · exact k3 k hk' hk
    · have h0 : ∀ w : List (Nat × BB4), RosOk w (fri.commitPhaseCommits.length + cfg.logBlowup) → roAt w k = 0 := by
        intro w hw
        rw [roAt, List.filter_eq_nil_iff.2]
        · rfl
        · intro r hr
          have := hw.2 r hr
          rw [beq_iff_eq]
          omega
      exact (h0 vals (verifyInput_rosOk e1)).trans (h0 vals' (verifyInput_rosOk e1')).symm
  refine k2 (foldChain_inj bb4Field_ok.twoAdic.two_ne (by omega) hcong _ _ _ _ ?_ k1 ?_ ?_ (e3.trans e3'.symm))
  · exact pow_ne_zero _ (bb4Field_ok.twoAdic.ne_zero hmax)
  · rw [List.length_zip, siblings_length, List.length_map, hbe]
    omega
  · intro j hj
    have hj' := hj
    rw [List.length_zip, hbe] at hj
    rw [List.getD_eq_getElem?_getD, List.getElem?_eq_getElem hj', Option.getD_some, List.getElem_zip]
    have := hβ j (by omega)
    rwa [List.getD_eq_getElem?_getD, List.getElem?_eq_getElem (by omega), Option.getD_some] at this

variable {scfg : Cfg} {L : U31Lib} {T : TrackerLib} {drops : Nat → List Op} {hash : List UInt8 → U256} {air : Air BB}
  {pub : List BB} {proof : ProofOf BB BB4 Roots P U32 PI}

/-- The challenges of a proof can tell apart claims about column `i` of the trace: the batching challenge is not zero, and
for one query the opened row of the trace has column `i` and no folding challenge is the negative of the point of its
round. -/
def Distinguishes (hash : List UInt8 → U256) (cfg : Config) (proof : ProofOf BB BB4 Roots P U32 PI) (i : Nat) : Prop :=
  ∀ alpha zeta batch fc c', nativeTranscript (blake3Perm hash) cfg proof.traceCommit proof.quotientCommit
      proof.openingProof (Chal.new 16 (fromU64 0)) = .ok ((alpha, zeta, batch, fc), c') →
    batch ≠ 0 ∧ ∃ qr ∈ fc.queryIndices.zip proof.openingProof.queryProofs,
      (∃ o ∈ qr.2.inputProof.head?, ∃ row ∈ o.1.head?, i < row.length) ∧
      ∀ j < proof.openingProof.commitPhaseCommits.length, fc.betas.getD j 0 ≠
        -(algebraMap BB BB4 (bbGen (proof.openingProof.commitPhaseCommits.length + cfg.logBlowup)) ^
          revBits (proof.openingProof.commitPhaseCommits.length + cfg.logBlowup) qr.1.2) ^ 2 ^ j

/-- **C121**, a part that holds for the script verifier: a proof on which it succeeds does not succeed with another value in
one of the two opened rows of the trace. -/
theorem C121_script_trace_value_partial (hL : L.Ok scfg) (hT : T.Ok scfg)
    (hD : ∀ x : List Elem, x.length ≤ 4 → Does scfg (drops x.length) x []) (hH : IsBlake3 hash)
    (hp : 1 ≤ cfg.powBits) (hp' : cfg.powBits ≤ 31) (hb' : proof.degreeBits ≤ 27)
    (hblow : 1 ≤ cfg.logBlowup) (hmax : proof.openingProof.commitPhaseCommits.length + cfg.logBlowup ≤ 27)
    (hair : air.InRange pub.length) (hne : air.asserts ≠ []) (hq : getLogQuotientDegree air pub.length = some 0) {n n' : Nat}
    (hs : ∃ out, generateScriptVerifier scfg L T drops mi m (blake3Perm hash) cfg air (Chal.new 16 (fromU64 0))
      (ChalExpr.new n).1 proof pub (ChalExpr.new n).2 = .ok out)
    {i : Nat} (hdist : Distinguishes hash cfg proof i) {v : BB4} :
    (∀ hi : i < proof.traceLocal.length, v ≠ proof.traceLocal[i] →
      ¬ ∃ out, generateScriptVerifier scfg L T drops mi m (blake3Perm hash) cfg air (Chal.new 16 (fromU64 0))
        (ChalExpr.new n').1 { proof with traceLocal := proof.traceLocal.set i v } pub (ChalExpr.new n').2 = .ok out) ∧
    ∀ hi : i < proof.traceNext.length, v ≠ proof.traceNext[i] →
      ¬ ∃ out, generateScriptVerifier scfg L T drops mi m (blake3Perm hash) cfg air (Chal.new 16 (fromU64 0))
        (ChalExpr.new n').1 { proof with traceNext := proof.traceNext.set i v } pub (ChalExpr.new n').2 = .ok out := by
  obtain ⟨-, -, a, z, b, f, c, s, k1, -, -, k4, -⟩ := (C82_exact hL hT hD hH (lagrangeExt bbGen) hp hp' hb' hblow hmax hair hne hq n).mp hs
  obtain ⟨hb, qr, hqr, hrow, hβ⟩ := hdist _ _ _ _ _ k1
  have hbe := (nativeTranscript_shape k1).1
  constructor
  · intro hi hv hs'
    obtain ⟨-, -, a', z', b', f', c', s', l1, -, -, l4, -⟩ := (C82_exact hL hT hD hH (lagrangeExt bbGen) hp hp'
      (proof := { proof with traceLocal := proof.traceLocal.set i v }) hb' hblow hmax hair hne hq n').mp hs'
    cases k1.symm.trans l1
    exact query_set (pre := []) hb hbe hi hv hmax hrow hβ (k4 qr hqr) (l4 qr hqr)
  · intro hi hv hs'
    obtain ⟨-, -, a', z', b', f', c', s', l1, -, -, l4, -⟩ := (C82_exact hL hT hD hH (lagrangeExt bbGen) hp hp'
      (proof := { proof with traceNext := proof.traceNext.set i v }) hb' hblow hmax hair hne hq n').mp hs'
    cases k1.symm.trans l1
    exact query_set (pre := [(z, proof.traceLocal)]) (post := []) hb hbe hi hv hmax hrow hβ (k4 qr hqr) (l4 qr hqr)

end

/-- A run: the script verifier succeeds on the proof of the two-row Fibonacci trace, whose challenges tell apart claims about
both columns, and not with another value in one of the two opened rows of the trace. -/
theorem C121_script_trace_instance [LinearOrder U256] (scfg : Cfg) (h20 : ∀ x, (scfg.hash160 x).length = 20) {L : U31Lib}
    {T : TrackerLib} {drops : Nat → List Op} (hL : L.Ok scfg) (hT : T.Ok scfg)
    (hD : ∀ x : List Elem, x.length ≤ 4 → Does scfg (drops x.length) x []) (n : Nat) :
    ∃ bc proof,
      let succeeds := fun p => ∃ out, generateScriptVerifier scfg L T drops (fibSetup scfg bc 2).mi (fibSetup scfg bc 2).m
        (blake3Perm specHash) (demoCfg 2) (fibAir BB) (Chal.new 16 (fromU64 0)) (ChalExpr.new n).1 p [0, 1, 1]
        (ChalExpr.new n).2 = .ok out
      succeeds proof ∧ Distinguishes specHash (demoCfg 2) proof 0 ∧ Distinguishes specHash (demoCfg 2) proof 1 ∧
      (∀ i < 2, ∀ v, (∀ hi : i < proof.traceLocal.length, v ≠ proof.traceLocal[i] →
        ¬ succeeds { proof with traceLocal := proof.traceLocal.set i v }) ∧
        ∀ hi : i < proof.traceNext.length, v ≠ proof.traceNext[i] →
        ¬ succeeds { proof with traceNext := proof.traceNext.set i v }) := by
  obtain ⟨b, c, hb, hc, h⟩ := Tcs.winternitz_ok scfg h20 ['b', '1', '3', '8'] (by decide) 0
  have w1 : WinterNew scfg 1 (winternitzBc scfg b c) := .one _ 0 b c hb hc
  have hm1 : WinterManager scfg 1 (wideManager (winternitzBc scfg b c)) := fun _ => ⟨w1, w1⟩
  have hm4 : WinterManager scfg 4 (wideManager (winternitzBc scfg b c)) :=
    fun _ => ⟨w1, .cons w1 (.cons w1 (.cons w1 w1))⟩
  generalize winternitzBc scfg b c = bc at h hm1 hm4
  obtain ⟨proof, ch', h1, h2, h3, h4, -⟩ := fib_run hL hT hD h (by omega : 0 < 2) zetaWords2 zeta2_outside.1 zeta2_outside.2
    fib_native28 fib_script28 n
  have hs := h3.mpr (by decide)
  have hu := fibSetup_ok h (by omega : 0 < 2)
  have hdeg : getLogQuotientDegree (fibAir BB) 3 = some 0 := fibAir_degree 3 le_rfl
  have hair := ((C45_least_power_of_two (fibAir BB) _ 0).1 hdeg).1
  obtain ⟨alpha, zeta, batch, betas, c', hn, htop⟩ := indicesOf_some fib_native28
  have htr : ([[0, 1], [1, 1]] : Pcs.Mat BB) = fibTrace 2 0 1 := by decide +kernel
  rw [htr] at h1
  obtain ⟨ps, hpw, hpt, hps⟩ := trace_polys hu (k := 1) (by decide : 1 ≤ 27) (fibTrace_length 2 0 1) (fibTrace_rect 2 0 1)
  have h1'' := h1
  rw [hpt] at h1''
  obtain ⟨p1, p2, p3, -⟩ := produced_top hu (by decide : 0 < 2) hair
    (pub := [0, 1, 1]) hdeg (Nat.zero_le _) (k := 1) (by decide : 1 + 2 ≤ 27) hpw hps h1''
  have hn' := h4.trans hn
  have hch : c' = ch' := by
    obtain ⟨-, a, z, b, fc, m1, -, -⟩ := (verify_one (ext := lagrangeExt bbGen) (mi := (fibSetup scfg bc 2).mi)
      (m := (fibSetup scfg bc 2).m) (cfg := demoCfg 2) (air := fibAir BB) (pub := [0, 1, 1])
      (show proof.degreeBits ≤ 27 by rw [p1]; decide) hdeg).mp h2
    cases m1.symm.trans hn'
    rfl
  subst hch
  obtain ⟨k1, _, _, _, _, _, _, _, _, _, _, _, _, _, k2⟩ := C115_honest (ext := lagrangeExt bbGen) (scfg := scfg)
    (th := constTap demoRoot) (mgr := wideManager bc) (mgrF := wideManager bc) (cfg := demoCfg 2) (hash := specHash)
    (air := fibAir BB) (pub := [0, 1, 1]) hu (by decide : 0 < 2) hdeg (k := 1) (by decide : 1 + 2 ≤ 27)
    (fibTrace_length 2 0 1) (fibTrace_rect 2 0 1) hm1 hm4 h1 hn'
  have hβ := beta_words (x := (1604820512, 1426163366, 277905037, 1610794461)) betaWords2 hn
  have hbatch : batch = of4 (1715834743, 396245351, 1978337420, 831651762) := by
    have hn := hn
    unfold nativeTranscript at hn
    simp only [Res.bind_eq_ok, Res.ofOption_eq_ok] at hn
    obtain ⟨c1, m1, ⟨a, c2⟩, m2, c3, m3, ⟨z, c4⟩, m4, ⟨b, c5⟩, m5, ⟨fc', c6⟩, -, m6⟩ := hn
    cases m6
    exact batch_words rfl batchWords2 m1 m2 m3 m4 m5
  have hcount := (nativeTranscript_count hn').1
  obtain ⟨qp, qps, hqp⟩ := List.exists_cons_of_length_pos (show 0 < proof.openingProof.queryProofs.length by
    rw [hcount]; decide)
  have hdist : ∀ i < 2, Distinguishes specHash (demoCfg 2) proof i := by
    intro i hi alpha' zeta' batch' fc' cc hn2
    cases hn'.symm.trans hn2
    have hmem : ((0, 3), qp) ∈ List.zip [(0, 3), (1, 3)] proof.openingProof.queryProofs := by
      rw [hqp]
      exact List.mem_cons_self ..
    refine ⟨?_, ((0, 3), qp), hmem, ?_, ?_⟩
    · rw [hbatch]
      intro e
      have e' : mk4 1715834743 396245351 1978337420 831651762 = mk4 0 0 0 0 := by
        rw [← mk4_base, map_zero]
        exact e
      exact absurd (mk4_inj e').1 (by decide +kernel)
    · have hsh := (k2 _ hmem).shape
      simp only at hsh
      rw [List.map_eq_cons_iff] at hsh
      obtain ⟨o, l, ho, hl, -⟩ := hsh
      rw [List.map_eq_cons_iff] at hl
      obtain ⟨row, l', hrow, hl, -⟩ := hl
      refine ⟨o, by rw [ho]; rfl, row, by rw [hrow]; rfl, ?_⟩
      rw [hl]
      exact hi
    · have hout := C108_outside_base (betas := betas) (by
        intro β hm x e
        simp only at hβ
        rw [hβ, List.mem_singleton] at hm
        rw [hm, mk4_base] at e
        have := (mk4_inj e).2.1
        exact absurd this (by decide +kernel)) (proof.openingProof.commitPhaseCommits.length + (demoCfg 2).logBlowup) 3
      rw [← (nativeTranscript_shape hn').1]
      simp only [(nativeTranscript_shape hn').1] at hout ⊢
      exact hout
  refine ⟨bc, proof, hs, hdist 0 (by decide), hdist 1 (by decide), fun i hi v => ?_⟩
  exact C121_script_trace_value_partial (n' := n) hL hT hD specHash_ok (show 1 ≤ 4 by decide) (show 4 ≤ 31 by decide)
    (by rw [p1]; decide) (show 1 ≤ 2 by decide) (by rw [p2]; decide) hair (by simp [fibAir]) hdeg hs (hdist i hi)

end TapStark.Stark
