import Verif.Spec.LinkedProof
import Verif.Props.Linked
import Verif.Props.StarkSoundBoth

/-!
C115: the openings of an accepted proof are the rows of the matrices that were committed to, or there is a hash collision.
-/

set_option linter.unusedSectionVars false

namespace TapStark.Stark

open TapStark.Fri TapStark.Pcs TapStark.FS TapStark.Tap TapStark.Tcs

section
variable [LinearOrder U256]

theorem range_rows {K : Type} {row : Nat → List K} {h w : Nat} (hr : ∀ i, i < 2 ^ h → (row i).length = w) (hw : 0 < w) :
    MatOk ((List.range (2 ^ h)).map row) h ∧ (((List.range (2 ^ h)).map row).headD []).length = w := by
  have h0 : ((List.range (2 ^ h)).map row).headD [] = row 0 := by
    obtain ⟨n, hn⟩ := Nat.exists_eq_succ_of_ne_zero (Nat.two_pow_pos h).ne'
    rw [hn, List.range_succ_eq_map]
    rfl
  have h1 : (((List.range (2 ^ h)).map row).headD []).length = w := by rw [h0, hr 0 (Nat.two_pow_pos h)]
  refine ⟨⟨by simp, ?_, by rw [h1]; exact hw⟩, h1⟩
  intro r hr'
  obtain ⟨i, hi, rfl⟩ := List.mem_map.1 hr'
  rw [h1, hr i (List.mem_range.1 hi)]

theorem heights_one {F : Type} {m : Tcs.Mat F} {h : Nat} (hm : m.height = 2 ^ h) : Heights [m] h := by
  constructor
  · intro x hx
    obtain rfl := List.mem_singleton.1 hx
    exact ⟨h, le_rfl, hm⟩
  · exact ⟨m, List.mem_singleton_self _, hm⟩

/-- An accepted opening of an input commitment. -/
theorem inCommitted_opening {scfg : Cfg} (h20 : ∀ x, (scfg.hash160 x).length = 20) {th : TapHash (List Op) U256}
    {mgr : Manager} (hm : WinterManager scfg 1 mgr) {Q h w : Nat} (hh : h < 31) {row : Nat → List BB} {c : Roots}
    {ds : List (Committed BB U256)} (hc : InCommitted th mgr Q h w row c ds) {q i : Nat} {v : List BB}
    (hvl : v.length = w) {π : Tcs.Proof U256} (hπ : WinterProof scfg 1 π) (hi : π.queryIndex = i) (hi' : i < 2 ^ h)
    (hv : (tcsInMmcs scfg th bbRep mgr Q).verifyBatch q [v] π c = some true) :
    v = row i ∨ ∃ d ∈ ds, Collides th π d := by
  obtain ⟨hrow, hw, scfg', n, n', hc⟩ := hc
  obtain ⟨hmat, hwid⟩ := range_rows hrow hw
  unfold tcsInMmcs at hc
  simp only [Option.bind_eq_bind, Option.bind_eq_some_iff, Prod.exists, Option.some.injEq, Prod.mk.injEq,
    List.map_cons, List.map_nil] at hc
  obtain ⟨roots, ds', n'', hc, rfl, rfl, rfl⟩ := hc
  have hv' : verifyBatch scfg th bbRep q [v] π ((roots.map u256ToU32).map u32ToU256) = some true := hv
  rw [roots_roundtrip] at hv'
  have hht := toTcsMat_height hmat
  have h31 : 2 ^ h < 2 ^ 31 := Nat.pow_lt_pow_right (by omega) hh
  rcases C115_batch h20 th bbRep_ok hm (heights_one hht) (by omega) (by simp) hc (opened := [v])
    (by show [v.length] = [_]; rw [hvl, ← hwid]; rfl) hπ (by omega) hv' with ⟨-, h1⟩ | ⟨d, h1, h2⟩
  · left
    simp only [List.map_cons, List.map_nil, hht, Tcs.log2Ceil_pow, Nat.sub_self, pow_zero, Nat.div_one, List.cons.injEq,
      and_true] at h1
    rw [h1, hi, rowOf_toTcsMat hmat hi', List.getD_eq_getElem?_getD, List.getElem?_map, List.getElem?_range hi']
    rfl
  · exact .inr ⟨d, List.mem_of_getElem? h1, h2⟩

/-- An accepted opening of a commitment of a folding round. -/
theorem wordCommitted_opening {scfg : Cfg} (h20 : ∀ x, (scfg.hash160 x).length = 20) {th : TapHash (List Op) U256}
    {mgr : Manager} (hm : WinterManager scfg 4 mgr) {Q h : Nat} (hh : h < 31) {w : Nat → BB4} {c : Roots}
    {ds : List (Committed BB4 U256)} (hc : WordCommitted th mgr Q h w c ds) {q i : Nat} {x y : BB4}
    {π : Tcs.Proof U256} (hπ : WinterProof scfg 4 π) (hi : π.queryIndex = i) (hi' : i < 2 ^ h)
    (hv : (tcsMmcs scfg th bb4Rep mgr Q).verifyBatch q [[x, y]] π c = some true) :
    (x = w (2 * i) ∧ y = w (2 * i + 1)) ∨ ∃ d ∈ ds, Collides th π d := by
  obtain ⟨scfg', n, n', hc⟩ := hc
  unfold tcsMmcs at hc
  simp only [Option.bind_eq_bind, Option.bind_eq_some_iff, Prod.exists, Option.some.injEq, Prod.mk.injEq] at hc
  obtain ⟨roots, ds', n'', hc, rfl, rfl, rfl⟩ := hc
  have hv' : verifyBatch scfg th bb4Rep q [[x, y]] π ((roots.map u256ToU32).map u32ToU256) = some true := hv
  rw [roots_roundtrip] at hv'
  obtain ⟨f1, f2⟩ := flatten_rows2 ((List.range (2 ^ h)).map fun i => [w (2 * i), w (2 * i + 1)]) (by
    intro r hr
    obtain ⟨i, -, rfl⟩ := List.mem_map.1 hr
    rfl)
  have hht : Tcs.Mat.height ⟨((List.range (2 ^ h)).map fun i => [w (2 * i), w (2 * i + 1)]).flatten, 2⟩ = 2 ^ h := by
    simp only [Tcs.Mat.height, f1, List.length_map, List.length_range]
    exact Nat.mul_div_cancel _ (by omega)
  have h31 : 2 ^ h < 2 ^ 31 := Nat.pow_lt_pow_right (by omega) hh
  rcases C115_batch h20 th bb4Rep_ok hm (heights_one hht) (by omega) (by simp) hc (opened := [[x, y]])
    (by simp) hπ (by omega) hv' with ⟨-, h1⟩ | ⟨d, h1, h2⟩
  · left
    simp only [List.map_cons, List.map_nil, hht, Tcs.log2Ceil_pow, Nat.sub_self, pow_zero, Nat.div_one, List.cons.injEq,
      and_true, rowOf] at h1
    rw [hi, f2 i (by simpa using hi'), List.getElem_map, List.getElem_range] at h1
    simpa using h1
  · exact .inr ⟨d, List.mem_of_getElem? h1, h2⟩

/-- What an accepted input opening of two batches contains. -/
theorem verifyInput_two {SI DI PI CI : Type} {K F : Type} [Field K] [Field F] [DecidableEq F] [Algebra K F]
    {MI : InMmcs K SI CI DI PI} {genV : Nat → K} {g : K}
    {cfg : Config} {alpha : F} {c1 c2 : CI} {m1 m2 : List (Dom K × List (F × List F))} {top q idx : Nat}
    {b1 b2 : List (List K) × PI} {vals : List (Nat × F)}
    (h : verifyInput MI genV g cfg alpha [(c1, m1), (c2, m2)] top q idx [b1, b2] = .ok vals) :
    MI.verifyBatch q b1.1 b1.2 c1 = some true ∧ MI.verifyBatch q b2.1 b2.2 c2 = some true := by
  unfold verifyInput at h
  rw [Res.bind_eq_ok] at h
  obtain ⟨st, h, -⟩ := h
  simp only [List.zip_cons_cons, List.zip_nil_left, roundLoop, Res.bind_eq_ok, Res.ofOption_eq_ok] at h
  obtain ⟨_, -, _, -, h⟩ := h
  split at h
  case isFalse => cases h
  simp only [Res.bind_eq_ok, Res.ofOption_eq_ok] at h
  obtain ⟨a1, h1, h⟩ := h
  split at h
  case isFalse => cases h
  rename_i e1
  subst e1
  simp only [Res.bind_eq_ok, Res.ofOption_eq_ok] at h
  obtain ⟨_, -, _, -, _, -, h⟩ := h
  split at h
  case isFalse => cases h
  simp only [Res.bind_eq_ok, Res.ofOption_eq_ok] at h
  obtain ⟨a2, h2, h⟩ := h
  split at h
  case isFalse => cases h
  rename_i e2
  subst e2
  exact ⟨h1, h2⟩

end

section
variable [LinearOrder U256] {scfg : Cfg} {L : U31Lib} {T : TrackerLib} {drops : Nat → List Op}
  {hash : List UInt8 → U256} {th : TapHash (List Op) U256} {mgr mgrF : Manager} {cfg : Config} {air : Air BB}
  {pub : List BB} {proof : ProofOf BB BB4 Roots (Tcs.Proof U256) U32 (Tcs.Proof U256)} {ext : Ext BB BB4}

/-- **C115** Let both verifiers accept a proof, with the commitment schemes of the code base, and let the openings carry the
indices and widths that belong to the queries.  For every prover whose commitments in the proof are made by the code from its
rows and words, every query passes in the sense of `Prover.Passes`, or one of its openings exhibits a hash collision with one
of these commitments. -/
theorem C115_accepted (h20 : ∀ x, (scfg.hash160 x).length = 20) (hL : L.Ok scfg) (hT : T.Ok scfg)
    (hD : ∀ x : List Elem, x.length ≤ 4 → Does scfg (drops x.length) x []) (hH : IsBlake3 hash)
    (hp : 1 ≤ cfg.powBits) (hp' : cfg.powBits ≤ 31) (hb' : proof.degreeBits + cfg.logBlowup ≤ 27)
    (hblow : 1 ≤ cfg.logBlowup) (hmax : proof.openingProof.commitPhaseCommits.length + cfg.logBlowup ≤ 27)
    (hop : ∀ qp ∈ proof.openingProof.queryProofs,
      qp.commitPhaseOpenings.length = proof.openingProof.commitPhaseCommits.length)
    (hair : air.InRange pub.length) (hne : air.asserts ≠ []) (hq : getLogQuotientDegree air pub.length = some 0) (n : Nat)
    (hm : WinterManager scfg 1 mgr) (hmF : WinterManager scfg 4 mgrF) {ch' : Chal U32}
    (hv : verify (babyBear ext (tcsInMmcs scfg th bbRep mgr cfg.numQueries) (tcsMmcs scfg th bb4Rep mgrF cfg.numQueries)
      (blake3Perm hash) cfg) air (Chal.new 16 (fromU64 0)) proof pub = .ok ch')
    (hs : ∃ out, generateScriptVerifier scfg L T drops (tcsInMmcs scfg th bbRep mgr cfg.numQueries)
      (tcsMmcs scfg th bb4Rep mgrF cfg.numQueries) (blake3Perm hash) cfg air (Chal.new 16 (fromU64 0))
      (ChalExpr.new n).1 proof pub (ChalExpr.new n).2 = .ok out)
    (hw : ∀ qp ∈ proof.openingProof.queryProofs, (∀ b ∈ qp.inputProof, WinterProof scfg 1 b.2) ∧
      ∀ o ∈ qp.commitPhaseOpenings, WinterProof scfg 4 o.2) :
    ∃ alpha zeta batch fc, nativeTranscript (blake3Perm hash) cfg proof.traceCommit proof.quotientCommit proof.openingProof
        (Chal.new 16 (fromU64 0)) = .ok ((alpha, zeta, batch, fc), ch') ∧
      fc.betas.length = proof.openingProof.commitPhaseCommits.length ∧
      ∀ pr : Prover BB BB4 Roots, pr.traceCommit = proof.traceCommit → pr.quotientCommit alpha = proof.quotientCommit →
        pr.traceLocal alpha zeta = proof.traceLocal → pr.traceNext alpha zeta = proof.traceNext →
        pr.quotientChunks alpha zeta = proof.quotientChunks →
        (pr.words alpha zeta batch).final fc.betas = proof.openingProof.finalPoly →
        ∀ (dT dQ : List (Committed BB U256)) (dW : Nat → List (Committed BB4 U256)),
          InCommitted th mgr cfg.numQueries (proof.degreeBits + cfg.logBlowup) air.width pr.traceRow proof.traceCommit dT →
          InCommitted th mgr cfg.numQueries (proof.degreeBits + cfg.logBlowup) 4 (pr.quotientRow alpha 0)
            proof.quotientCommit dQ →
          (∀ j c, proof.openingProof.commitPhaseCommits[j]? = some c → WordCommitted th mgrF cfg.numQueries
            (fc.betas.length + cfg.logBlowup - (j + 1)) ((pr.words alpha zeta batch).layer (fc.betas.take j)) c (dW j)) →
          ∀ qr ∈ fc.queryIndices.zip proof.openingProof.queryProofs,
            Indexed proof.degreeBits fc.betas.length air.width qr.1.2 qr.2 →
            pr.Passes (babyBear ext (tcsInMmcs scfg th bbRep mgr cfg.numQueries)
                (tcsMmcs scfg th bb4Rep mgrF cfg.numQueries) (blake3Perm hash) cfg) air pub proof.degreeBits 0 alpha zeta
                batch fc.betas qr.1.2 ∨
              (∃ b ∈ qr.2.inputProof, ∃ d ∈ dT ++ dQ, Collides th b.2 d) ∨
              ∃ j o, qr.2.commitPhaseOpenings[j]? = some o ∧ ∃ d ∈ dW j, Collides th o.2 d := by
  obtain ⟨alpha, zeta, batch, fc, h1, hbe, hall⟩ := C111_accepted hL hT hD hH hp hp' (by omega) hblow hmax hair hne hq n
    hv hs
  obtain ⟨alpha', zeta', batch', fc', h1', -, hboth⟩ := both_queries hL hT hD hH hp hp' (by omega) hblow hmax hair hne
    hq n hv hs
  cases h1.symm.trans h1'
  refine ⟨alpha, zeta, batch, fc, h1, hbe, ?_⟩
  intro pr t1 t2 t3 t4 t5 t6 dT dQ dW hcT hcQ hcW qr hqr hidx
  obtain ⟨hmem1, hmem2⟩ := List.of_mem_zip (a := qr.1) (b := qr.2) hqr
  have hlt := (nativeTranscript_shape h1).2 qr.1 hmem1
  rw [← hbe] at hlt
  obtain ⟨vals, hin, hquery, -⟩ := hboth qr hqr
  obtain ⟨hwi, hwo⟩ := hw qr.2 hmem2
  have hol := hop qr.2 hmem2
  by_cases hcol : (∃ b ∈ qr.2.inputProof, ∃ d ∈ dT ++ dQ, Collides th b.2 d) ∨
    ∃ j o, qr.2.commitPhaseOpenings[j]? = some o ∧ ∃ d ∈ dW j, Collides th o.2 d
  · exact .inr hcol
  rw [not_or] at hcol
  obtain ⟨hcol1, hcol2⟩ := hcol
  left
  obtain ⟨⟨o1, π1⟩, rest, hr1, hs1, hs2⟩ := List.map_eq_cons_iff.1 hidx.shape
  obtain ⟨⟨o2, π2⟩, rest', rfl, hs3, hs4⟩ := List.map_eq_cons_iff.1 hs2
  obtain rfl := List.map_eq_nil_iff.1 hs4
  obtain ⟨v1, rfl⟩ : ∃ v, o1 = [v] := List.length_eq_one_iff.1 (by simpa using congrArg List.length hs1)
  obtain ⟨v2, rfl⟩ : ∃ v, o2 = [v] := List.length_eq_one_iff.1 (by simpa using congrArg List.length hs3)
  have hv1 : v1.length = air.width := by simpa using hs1
  have hv2 : v2.length = 4 := by simpa using hs3
  have hii : qr.1.2 / 2 ^ (fc.betas.length - proof.degreeBits) < 2 ^ (proof.degreeBits + cfg.logBlowup) := by
    rw [Nat.div_lt_iff_lt_mul (Nat.two_pow_pos _), ← pow_add]
    exact lt_of_lt_of_le hlt (Nat.pow_le_pow_right (by omega) (by omega))
  rw [hr1] at hin
  obtain ⟨a1, a2⟩ := verifyInput_two hin
  have r1 := (inCommitted_opening h20 hm (by omega) hcT hv1 (hwi _ (by simp [hr1])) (hidx.input _ (by simp [hr1])) hii
    a1).resolve_right fun ⟨d, hd, h⟩ => hcol1 ⟨_, by rw [hr1]; exact List.mem_cons_self, d, List.mem_append_left _ hd, h⟩
  have r2 := (inCommitted_opening h20 hm (by omega) hcQ hv2 (hwi _ (by simp [hr1])) (hidx.input _ (by simp [hr1])) hii
    a2).resolve_right fun ⟨d, hd, h⟩ => hcol1 ⟨([v2], π2), by rw [hr1]; simp, d, List.mem_append_right _ hd, h⟩
  refine hall pr t1 t2 t3 t4 t5 t6 qr hqr ?_ ⟨hol.trans hbe.symm, fun j hj => ?_⟩
  · rw [hr1, r1, r2]
    rfl
  · obtain ⟨x, y, m1, -⟩ := C40_accepted_query bb4Field_ok.twoAdic rfl hmax hol hbe (verifyInput_rosOk hin) hquery
    obtain ⟨o, ho, c, hc, hrow, hacc⟩ := m1 j (by omega)
    have ho' : qr.2.commitPhaseOpenings[j]? = some o := ho
    have hjj : qr.1.2 / 2 ^ (j + 1) < 2 ^ (fc.betas.length + cfg.logBlowup - (j + 1)) := by
      rw [Nat.div_lt_iff_lt_mul (Nat.two_pow_pos _), ← pow_add]
      exact lt_of_lt_of_le hlt (Nat.pow_le_pow_right (by omega) (by omega))
    obtain ⟨e1, e2⟩ := (wordCommitted_opening h20 hmF (by omega) (hcW j c hc) (hwo o (List.mem_of_getElem? ho'))
      (hidx.round j o ho') hjj hacc).resolve_right fun ⟨d, hd, h⟩ => hcol2 ⟨j, o, ho', d, hd, h⟩
    refine ⟨o.2, ?_⟩
    rw [ho', ← e1, ← e2, ← hrow]

end

end TapStark.Stark
