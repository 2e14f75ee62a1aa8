import Verif.Props.BatchSound
import Verif.Props.BothVerifiers
import Mathlib.LinearAlgebra.Dimension.Free
import Mathlib.FieldTheory.Finiteness

/-! # C110 for the two verifiers of the code base -/

namespace TapStark.Stark

open TapStark.Fri TapStark.Pcs TapStark.FS TapStark.Tap TapStark.Tcs

section

variable {SI DI PI S D P : Type} {scfg : Cfg} {L : U31Lib} {T : TrackerLib} {drops : Nat → List Op}
  {hash : List UInt8 → U256} {mi : InMmcs BB SI Roots DI PI} {m : Mmcs BB4 S Roots D P} {cfg : Config} {air : Air BB}
  {pub : List BB} {proof : ProofOf BB BB4 Roots P U32 PI} {ext : Ext BB BB4}

/-- **C110** Every query of a proof that both verifiers accept passes in the sense of `PassesAll`, for all committed matrices
and words of which the proof shows the openings. -/
theorem C110_accepted (hL : L.Ok scfg) (hT : T.Ok scfg)
    (hD : ∀ x : List Elem, x.length ≤ 4 → Does scfg (drops x.length) x []) (hH : IsBlake3 hash)
    (hp : 1 ≤ cfg.powBits) (hp' : cfg.powBits ≤ 31) (hb' : proof.degreeBits ≤ 27)
    (hblow : 1 ≤ cfg.logBlowup) (hmax : proof.openingProof.commitPhaseCommits.length + cfg.logBlowup ≤ 27)
    (hair : air.InRange pub.length) (hne : air.asserts ≠ []) (hq : getLogQuotientDegree air pub.length = some 0) (n : Nat)
    {ch' : Chal U32}
    (hv : verify (babyBear ext mi m (blake3Perm hash) cfg) air (Chal.new 16 (fromU64 0)) proof pub = .ok ch')
    (hs : ∃ out, generateScriptVerifier scfg L T drops mi m (blake3Perm hash) cfg air (Chal.new 16 (fromU64 0))
      (ChalExpr.new n).1 proof pub (ChalExpr.new n).2 = .ok out) :
    ∃ alpha zeta batch fc, nativeTranscript (blake3Perm hash) cfg proof.traceCommit proof.quotientCommit proof.openingProof
        (Chal.new 16 (fromU64 0)) = .ok ((alpha, zeta, batch, fc), ch') ∧
      ∀ (cs : List (Roots × List (Claimed BB BB4))) (s : Strategy BB4), claimedRounds cs = openingClaims proof zeta →
        s.final fc.betas = proof.openingProof.finalPoly →
        ∀ qr ∈ fc.queryIndices.zip proof.openingProof.queryProofs,
          qr.2.inputProof.map Prod.fst = claimedRows cfg.logBlowup (fc.betas.length + cfg.logBlowup) cs qr.1.2 →
          s.Opens fc.betas qr.1.2 qr.2.commitPhaseOpenings →
          PassesAll s bbGen 31 mi m cfg cs batch fc.betas qr.1.2 := by
  obtain ⟨alpha, zeta, batch, fc, h1, hbe, hall⟩ := both_queries hL hT hD hH hp hp' hb' hblow hmax hair hne hq n hv hs
  refine ⟨alpha, zeta, batch, fc, h1, fun cs s hcs hfin qr hqr hrows hopens => ?_⟩
  obtain ⟨vals, h2, h3, h4⟩ := hall qr hqr
  rw [← hbe, ← hcs] at h2
  rw [← hbe, ← hfin] at h3 h4
  exact ⟨qr.1.1, qr.1.1, qr.2.inputProof, vals, _, _, hrows, h2, hbe.symm, hopens, h3, h4⟩

end

/-! ### The field of the challenges -/

instance : Module.Finite BB BB4 := (AdjoinRoot.powerBasis' ext4Poly_monic).finite

instance : Finite BB4 := Module.finite_of_finite BB

noncomputable instance : Fintype BB4 := Fintype.ofFinite BB4

theorem finrank_bb4 : Module.finrank BB BB4 = 4 := by
  rw [(AdjoinRoot.powerBasis' ext4Poly_monic).finrank]
  exact Polynomial.natDegree_X_pow_sub_C

theorem card_bb4 : Fintype.card BB4 = 2013265921 ^ 4 :=
  (Module.card_eq_pow_finrank (K := BB) (V := BB4)).trans
    (congrArg₂ (fun a b : Nat => a ^ b) (ZMod.card 2013265921) finrank_bb4)

/-- Two columns that are zero everywhere, with a wrong claim for the second. -/
theorem wrong_claim {CI : Type} (c : CI) (z : BB4) :
    ¬ ClaimsHold bbGen 31 (3 + 3) (2 ^ 3) 28 [(c, [⟨fun _ => [0, 0], ⟨3, 1⟩, [(z, [0, 1])]⟩])] := by
  rintro ⟨A, hA, hc, h⟩
  obtain ⟨P, hd, hP⟩ := h _ (List.mem_singleton.2 rfl) _ (List.mem_singleton.2 rfl) 1
  obtain ⟨h1, h2⟩ := hP _ (List.mem_singleton.2 rfl) 1 rfl
  have h0 : P = 0 := by
    refine Polynomial.eq_zero_of_degree_lt_of_eval_finset_eq_zero
      (A.image fun i => algebraMap BB BB4 (queryPoint bbGen 31 (3 + 3) i)) ?_ ?_
    · rw [Finset.card_image_of_injOn]
      · refine lt_of_le_of_lt hd ?_
        have : 2 ^ 3 < A.card := by
          have : 2 ^ (3 + 3) ≤ A.card + 28 := hc
          omega
        exact_mod_cast this
      · intro i hi k hk hik
        have h31 : algebraMap BB BB4 31 ≠ 0 := by
          rw [Ne, map_eq_zero]; decide
        simp only [queryPoint, map_mul, map_pow] at hik
        exact pointAt_inj bb4Field_ok.twoAdic (k := 3 + 3) (by decide) (hA i hi) (hA k hk) (mul_left_cancel₀ h31 hik)
    · intro x hx
      obtain ⟨i, hi, rfl⟩ := Finset.mem_image.1 hx
      obtain ⟨v, hv, hve⟩ := h2 i hi
      cases hv
      rw [← hve, map_zero]
  rw [h0, Polynomial.eval_zero] at h1
  exact zero_ne_one h1

/-- A matrix of two columns that are zero everywhere, with a wrong claim for the second: the claims do not hold up to 28
positions, so a prover passes `Q` queries of both verifiers, with three rounds and blowup 8, for at most the stated part of
the choices, whatever words it commits to. -/
theorem C110_instance {SI DI PI S C D P CI : Type} (MI : InMmcs BB SI CI DI PI) (M : Mmcs BB4 S C D P) (c : CI) (z : BB4)
    (s : BB4 → Strategy BB4) (Q : Nat) :
    (Set.ncard {x : (BB4 × (Fin 3 → BB4)) × (Fin Q → Fin (2 ^ (3 + 3))) |
        ∀ k, PassesAll (s x.1.1) bbGen 31 MI M ⟨3, Q, 1, true⟩ [(c, [⟨fun _ => [0, 0], ⟨3, 1⟩, [(z, [0, 1])]⟩])] x.1.1
          (List.ofFn x.1.2) (x.2 k)} : ℚ) /
      (Fintype.card BB4 * Fintype.card BB4 ^ 3 * (2 ^ (3 + 3)) ^ Q) ≤
      1476 / 2013265921 ^ 4 + (35 / 64) ^ Q := by
  have h := C110_soundness_error (K := BB) (F := BB4) (genV := bbGen) (g := 31) (by decide) bb4Field_ok.twoAdic MI M
    ⟨3, Q, 1, true⟩ [(c, [⟨fun _ => [0, 0], ⟨3, 1⟩, [(z, [0, 1])]⟩])] s (k := 3) (r := 3) (m := 28) (by decide) le_rfl
    (show 0 < 3 by decide) (show 3 + 3 ≤ 27 by decide) (show 2 * 28 + 2 ^ 3 ≤ 2 ^ (3 + 3) by decide) (by simp) (by simp)
    (wrong_claim c z) Q
  refine h.trans (add_le_add ?_ (le_of_eq ?_))
  · rw [card_bb4]
    norm_num [numClaims]
  · norm_num

/-- The same claims, with a proof of one round more than the matrix has bits. -/
theorem C110_instance_more_rounds {SI DI PI S C D P CI : Type} (MI : InMmcs BB SI CI DI PI) (M : Mmcs BB4 S C D P) (c : CI)
    (z : BB4) (s : BB4 → Strategy BB4) (Q : Nat) :
    (Set.ncard {x : (BB4 × (Fin 4 → BB4)) × (Fin Q → Fin (2 ^ (4 + 3))) |
        ∀ k, PassesAll (s x.1.1) bbGen 31 MI M ⟨3, Q, 1, true⟩ [(c, [⟨fun _ => [0, 0], ⟨3, 1⟩, [(z, [0, 1])]⟩])] x.1.1
          (List.ofFn x.1.2) (x.2 k)} : ℚ) /
      (Fintype.card BB4 * Fintype.card BB4 ^ 4 * (2 ^ (4 + 3)) ^ Q) ≤
      2613 / 2013265921 ^ 4 + (71 / 128) ^ Q := by
  have h := C110_soundness_error (K := BB) (F := BB4) (genV := bbGen) (g := 31) (by decide) bb4Field_ok.twoAdic MI M
    ⟨3, Q, 1, true⟩ [(c, [⟨fun _ => [0, 0], ⟨3, 1⟩, [(z, [0, 1])]⟩])] s (k := 3) (r := 4) (m := 56) (by decide) (by decide)
    (show 0 < 3 by decide) (show 4 + 3 ≤ 27 by decide) (show 2 * 56 + 2 ^ 4 ≤ 2 ^ (4 + 3) by decide) (by simp) (by simp)
    (wrong_claim c z) Q
  refine h.trans (add_le_add ?_ (le_of_eq ?_))
  · rw [card_bb4]
    norm_num [numClaims]
  · norm_num

end TapStark.Stark
