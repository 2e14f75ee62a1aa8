import Verif.Props.AirProgram
import Verif.Props.ScriptVerifier

/-
C92: the script verifier for AIRs written as programs.
-/

namespace TapStark.Stark

open TapStark.Fri TapStark.Pcs TapStark.FS

variable {SI DI PI S D P : Type} {scfg : Cfg} {L : U31Lib} {T : TrackerLib} {drops : Nat → List Op}
  {mi : InMmcs BB SI Roots DI PI} {m : Mmcs BB4 S Roots D P} {cfg : Config} {pub : List BB}
  {proof : ProofOf BB BB4 Roots P U32 PI}

theorem scriptChecks_fold {air : Air BB} {domains : List (Dom BB)} {k lq : Nat} {loc nxt : List BB4} {chunks : List (List BB4)}
    {alpha zeta : BB4} {zetaE : Expr} {ms : List InputManager} {checks : List Expr} {n n' : Nat} {folded value quotient : BB4}
    (h : scriptChecks scfg L T air pub domains k lq loc nxt chunks alpha zeta zetaE ms checks n =
      some (folded, value, quotient, n')) : ∃ s, selectorsAtPoint bbGen ⟨k, 1⟩ zeta = some s ∧
        verifierFold air alpha ⟨loc, nxt, pub.map (algebraMap BB BB4), s.isFirstRow, s.isLastRow, s.isTransition⟩ =
          some folded := by
  unfold scriptChecks at h
  simp only [Option.bind_eq_bind, Option.bind_eq_some_iff] at h
  obtain ⟨_, _, _, _, _, _, _, _, _, _, _, _, s, hs, f, hf, h⟩ := h
  cases h
  exact ⟨s, hs, hf⟩

/-- Two ways to generate the script of the folded constraints, both accepting the accumulator of the verifier. -/
theorem scriptVerifierWith_congr {air : Air BB}
    {t1 t2 : BB4 → BB4 → Nat → List BB4 → List BB4 → List BB → BB4 → Nat → Option (List Op)} {perm : List U32 → List U32}
    (h : ∀ t, t = t1 ∨ t = t2 → ∀ zeta alpha s folded n, proof.traceLocal.length = air.width →
      proof.traceNext.length = air.width → selectorsAtPoint bbGen ⟨proof.degreeBits, 1⟩ zeta = some s →
      verifierFold air alpha ⟨proof.traceLocal, proof.traceNext, pub.map (algebraMap BB BB4), s.isFirstRow, s.isLastRow,
        s.isTransition⟩ = some folded →
      ∃ p, t zeta alpha proof.degreeBits proof.traceLocal proof.traceNext pub folded n = some p ∧ accepts scfg p [] = true)
    (c : Chal U32) (e : ChalExpr) (n : Nat) :
    scriptVerifierWith scfg L T mi m perm cfg air t1 c e proof pub n =
      scriptVerifierWith scfg L T mi m perm cfg air t2 c e proof pub n := by
  unfold scriptVerifierWith
  cases getLogQuotientDegree air pub.length with
  | none => rfl
  | some q =>
  cases naturalDomainForDegree (K := BB) (2 ^ proof.degreeBits) with
  | none => rfl
  | some d =>
  simp only
  cases splitDomains bbGen 27 (createDisjointDomain 31 d (2 ^ (proof.degreeBits + q))) (2 ^ q) with
  | none => rfl
  | some domains =>
  simp only
  by_cases hs : proof.traceLocal.length = air.width ∧ proof.traceNext.length = air.width ∧
      proof.quotientChunks.length = 2 ^ q ∧ ∀ qc ∈ proof.quotientChunks, qc.length = 4
  swap
  · rw [if_pos hs, if_pos hs]
  rw [if_neg (not_not.mpr hs), if_neg (not_not.mpr hs)]
  cases starkChallenges perm proof.degreeBits proof.traceCommit proof.quotientCommit c e n with
  | none => rfl
  | some o =>
  obtain ⟨alpha, zeta, zetaE, checks, c1, e1, n1⟩ := o
  simp only
  cases generateVerifyExpr perm bbGen 31 mi m cfg _ proof.openingProof c1 e1 n1 with
  | panic => rfl
  | err _ => rfl
  | ok o =>
  obtain ⟨ms, more, c2, e2, n2⟩ := o
  simp only
  cases hc : scriptChecks scfg L T air pub domains proof.degreeBits q proof.traceLocal proof.traceNext proof.quotientChunks
      alpha zeta zetaE ms (checks ++ more) n2 with
  | none => rfl
  | some o =>
  obtain ⟨folded, value, quotient, n3⟩ := o
  simp only
  obtain ⟨s, h1, h2⟩ := scriptChecks_fold hc
  obtain ⟨p1, a1, b1⟩ := h t1 (.inl rfl) zeta alpha s folded n3 hs.1 hs.2.1 h1 h2
  obtain ⟨p2, a2, b2⟩ := h t2 (.inr rfl) zeta alpha s folded n3 hs.1 hs.2.1 h1 h2
  simp only [a1, a2, b1, b2]

/-- **C92** (verifier): the script verifier for a program gives what it gives for the trees, so what C82 says about the
script verifier holds for AIRs with shared values. -/
theorem C92_verifier (hL : L.Ok scfg) (hT : T.Ok scfg)
    (hD : ∀ x : List Elem, x.length ≤ 4 → Does scfg (drops x.length) x []) (p : AirProg BB) (hp : p.InRange pub.length)
    (hne : p.checks ≠ 0) (hb : proof.degreeBits ≤ 27) (perm : List U32 → List U32) (c : Chal U32) (e : ChalExpr) (n : Nat) :
    ∃ air, p.air = some air ∧ p.generateScriptVerifier scfg L T drops mi m perm cfg c e proof pub n =
      generateScriptVerifier scfg L T drops mi m perm cfg air c e proof pub n := by
  obtain ⟨air, e1, e2, e3, e4, -⟩ := C92_unfold p hp
  refine ⟨air, e1, ?_⟩
  unfold AirProg.generateScriptVerifier generateScriptVerifier
  rw [e1]
  refine scriptVerifierWith_congr ?_ c e n
  rintro t (rfl | rfl) zeta alpha s folded n h1 h2 hs hf
  · obtain ⟨q, g1, g2⟩ := C92_agree hL hT hD p (alpha := alpha) hp hne (h1.trans e2) (h2.trans e2) hb hs folded n
    refine ⟨q, g1, g2.mpr ?_⟩
    obtain ⟨air', e5, -, hv, -⟩ := C92_native p hp alpha
    rw [e1] at e5
    cases e5
    rw [(hv ⟨proof.traceLocal, proof.traceNext, pub.map (algebraMap BB BB4), s.isFirstRow, s.isLastRow, s.isTransition⟩
      (h1.trans e2) (h2.trans e2) (by simp)).2]
    exact hf
  · obtain ⟨q, g1, g2⟩ := C80_native hL hT hD air (alpha := alpha) e3 (by
      rintro h
      rw [h] at e4
      exact hne e4.symm) h1 h2 hb hs folded n
    exact ⟨q, g1, g2.mpr hf⟩

/-- C92, instance: the program of `C92_instance` with the scripts of the repository and any proof for one public value. -/
theorem C92_verifier_instance (hpub : pub.length = 1) (hb : proof.degreeBits ≤ 27) (perm : List U32 → List U32) (c : Chal U32)
    (e : ChalExpr) (n : Nat) : ∃ air, exampleProg.air = some air ∧
      exampleProg.generateScriptVerifier scfg (repoLib 2013265921) refTracker (fun n => List.replicate n Op.drop) mi m perm cfg c e
        proof pub n = generateScriptVerifier scfg (repoLib 2013265921) refTracker (fun n => List.replicate n Op.drop) mi m perm cfg
        air c e proof pub n := by
  obtain ⟨-, -, -, -, hL, hT, hD⟩ := C80_instance (cfg := scfg)
  exact C92_verifier hL hT hD exampleProg (hpub ▸ (C92_instance scfg 0).1) (by decide) hb perm c e n

end TapStark.Stark
