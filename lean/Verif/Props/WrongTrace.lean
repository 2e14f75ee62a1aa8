import Verif.Spec.WrongTrace
import Verif.Props.Stark
import Verif.Props.Verdict
import Verif.Props.SubGroup

/-
Proofs made from traces that do not satisfy the algebraic system.
-/

namespace TapStark.Stark

open TapStark.Fri TapStark.Pcs Polynomial

variable {K F SI C DI PI S D P Ch W : Type} [Field K] [DecidableEq K] [Field F] [DecidableEq F] [Algebra K F]

theorem cosetQuotient_unique {u : Setup K F SI C DI PI S D P Ch W} (hu : u.Ok) {k q : Nat} (hkq : k + q ≤ u.twoAdicity)
    {A Q R : F[X]} (hQ : CosetQuotient u.genV u.g k q A Q) (hR : CosetQuotient u.genV u.g k q A R) : Q = R := by
  refine eq_of_cosets hu.twoAdic hkq hu.g0 hQ.1 hR.1 fun i _ l => ?_
  have e : u.g * u.genV (k + q) ^ i * u.genV k ^ l = u.g * u.genV (k + q) ^ (i + 2 ^ q * l) := by
    rw [mul_assoc, pow_add, pow_mul, hu.twoAdic.pow hkq]
  rw [e]
  have h0 : algebraMap K F (u.g * u.genV (k + q) ^ (i + 2 ^ q * l)) ^ 2 ^ k - 1 ≠ 0 := by
    rw [sub_ne_zero, ← map_pow, Ne, map_eq_one_iff _ (algebraMap K F).injective]
    exact coset_out hu.twoAdic hkq (hu.gOut _ hkq) _
  exact mul_left_cancel₀ h0 ((hQ.2 _).trans (hR.2 _).symm)

/-- The prover's quotient fails to be the quotient by the remainder of the constraints. -/
theorem remainder_iff {u : Setup K F SI C DI PI S D P Ch W} (hu : u.Ok) {k q : Nat} (hkq : k + q ≤ u.twoAdicity)
    {A Q : F[X]} (hA : A.natDegree < (2 ^ q + 1) * 2 ^ k) (hQ : CosetQuotient u.genV u.g k q A Q) {zeta : F}
    (hz : zeta ^ 2 ^ (k + q) ≠ algebraMap K F u.g ^ 2 ^ (k + q)) :
    A.eval zeta = (zeta ^ 2 ^ k - 1) * Q.eval zeta ↔ (A %ₘ (X ^ 2 ^ k - 1)).eval zeta = 0 := by
  have hN := Nat.two_pow_pos (k + q)
  have hn := Nat.two_pow_pos k
  have hNe : 2 ^ (k + q) = 2 ^ k * 2 ^ q := pow_add _ _ _
  set s : F := algebraMap K F u.g with hs
  have hm : (X ^ 2 ^ k - 1 : F[X]).Monic := monic_X_pow_sub_C 1 hn.ne'
  have hXd : (X ^ 2 ^ k - 1 : F[X]).natDegree = 2 ^ k := natDegree_X_pow_sub_C
  have hM : (X ^ 2 ^ (k + q) - Polynomial.C (s ^ 2 ^ (k + q)) : F[X]).Monic := monic_X_pow_sub_C _ hN.ne'
  have hMd : (X ^ 2 ^ (k + q) - Polynomial.C (s ^ 2 ^ (k + q)) : F[X]).natDegree = 2 ^ (k + q) := natDegree_X_pow_sub_C
  have hs1 : 1 - s ^ 2 ^ (k + q) ≠ 0 := by
    rw [sub_ne_zero, hs, ← map_pow, ne_comm, Ne, map_eq_one_iff _ (algebraMap K F).injective]
    exact hu.gOut _ hkq
  set G := A - (X ^ 2 ^ k - 1) * Q with hG
  have hGd : G.natDegree < 2 ^ (k + q) + 2 ^ k := by
    refine (natDegree_sub_le _ _).trans_lt (max_lt ?_ (natDegree_mul_le.trans_lt ?_))
    · rw [hNe]; linarith [mul_comm (2 ^ k) (2 ^ q)]
    · have := hQ.1
      rw [hXd]; omega
  have hdiv := modByMonic_add_div G (X ^ 2 ^ (k + q) - Polynomial.C (s ^ 2 ^ (k + q)))
  have hrem : G %ₘ (X ^ 2 ^ (k + q) - Polynomial.C (s ^ 2 ^ (k + q))) = 0 := by
    refine eq_of_cosets hu.twoAdic hkq hu.g0 ?_ (by rw [natDegree_zero]; exact hN) fun i _ l => ?_
    · have := natDegree_modByMonic_lt G hM (fun h => by
        have := congrArg natDegree h
        rw [hMd, natDegree_one] at this
        omega)
      rwa [hMd] at this
    · have e : u.g * u.genV (k + q) ^ i * u.genV k ^ l = u.g * u.genV (k + q) ^ (i + 2 ^ q * l) := by
        rw [mul_assoc, pow_add, pow_mul, hu.twoAdic.pow hkq]
      have := congrArg (Polynomial.eval (algebraMap K F (u.g * u.genV (k + q) ^ (i + 2 ^ q * l)))) hdiv
      have hx : algebraMap K F (u.g * u.genV (k + q) ^ (i + 2 ^ q * l)) ^ 2 ^ (k + q) = s ^ 2 ^ (k + q) := by
        rw [← map_pow, mul_pow, ← pow_mul, mul_comm (i + _), pow_mul, gen_pow_one hu.twoAdic hkq, one_pow, mul_one,
          map_pow]
      rw [eval_add, eval_mul, eval_sub, eval_pow, eval_X, eval_C, hx, sub_self, zero_mul, add_zero, hG, eval_sub,
        eval_mul, eval_sub, eval_pow, eval_X, eval_one, hQ.2, sub_self] at this
      rw [e, this, eval_zero]
  rw [hrem, zero_add] at hdiv
  set E := G /ₘ (X ^ 2 ^ (k + q) - Polynomial.C (s ^ 2 ^ (k + q))) with hE
  have hEd : E.natDegree < 2 ^ k := by
    rw [hE, natDegree_divByMonic _ hM, hMd]
    omega
  obtain ⟨T, hT⟩ : (X ^ 2 ^ k - 1 : F[X]) ∣ X ^ 2 ^ (k + q) - 1 := by
    have := sub_dvd_pow_sub_pow (X ^ 2 ^ k : F[X]) 1 (2 ^ q)
    rwa [← pow_mul, ← hNe, one_pow] at this
  have hB : A %ₘ (X ^ 2 ^ k - 1) = Polynomial.C (1 - s ^ 2 ^ (k + q)) * E := by
    refine (div_modByMonic_unique (Q + T * E) _ hm ⟨?_, ?_⟩).2
    · have : A = G + (X ^ 2 ^ k - 1) * Q := by rw [hG]; ring
      rw [this, ← hdiv, map_sub, map_one]
      linear_combination -E * hT
    · refine (degree_le_natDegree).trans_lt (lt_of_lt_of_eq (Nat.cast_lt.2 ?_) (degree_eq_natDegree hm.ne_zero).symm)
      rw [hXd]
      exact (natDegree_C_mul_le _ _).trans_lt hEd
  have he : A.eval zeta - (zeta ^ 2 ^ k - 1) * Q.eval zeta = (zeta ^ 2 ^ (k + q) - s ^ 2 ^ (k + q)) * E.eval zeta := by
    have := congrArg (Polynomial.eval zeta) hdiv
    rw [hG] at this
    simp only [eval_mul, eval_sub, eval_pow, eval_X, eval_one, eval_C] at this
    exact this.symm
  rw [← sub_eq_zero, he, hB, eval_mul, eval_C, mul_eq_zero, mul_eq_zero, or_iff_right (sub_ne_zero.2 hz),
    or_iff_right hs1]

/-- **C119** What the verifier says about a proof that the prover made from any trace at all: with `P` the combined
constraint polynomial and `Q` the prover's quotient, it accepts if `P = (X^n - 1) Q` at `zeta`, and reports a mismatch if
not.  If `zeta` is a point of the trace domain it panics. -/
theorem C119_quotient {u : Setup K F SI C DI PI S D P Ch W} (hu : u.Ok) {air : Air K} (hwidth : 0 < air.width)
    {pub : List K} {q : Nat} (hq : getLogQuotientDegree air pub.length = some q) (hqb : q ≤ u.cfg.logBlowup)
    {k : Nat} (hkb : k + u.cfg.logBlowup ≤ u.twoAdicity)
    {ps : List K[X]} (hpw : ps.length = air.width) (hps : ∀ p ∈ ps, p.natDegree < 2 ^ k)
    {ch ch' : Ch} {si : SI} {s : S} {w : W} {proof : ProofOf K F C P W PI}
    (hp : prove u air ch (evalRows u.genV ps 1 k) pub si s w = some (proof, ch')) :
    ∃ alpha zeta chz Q, challenges u ch proof.traceCommit proof.quotientCommit = some (alpha, zeta, chz) ∧
      CosetQuotient u.genV u.g k q (foldedPoly u.genV k air ps pub alpha) Q ∧
      verify u air ch proof pub =
        if zeta ^ 2 ^ k = 1 then .panic
        else if (foldedPoly u.genV k air ps pub alpha).eval zeta = (zeta ^ 2 ^ k - 1) * Q.eval zeta then .ok ch'
        else .err .oodEvaluationMismatch := by
  have hr := ((C45_least_power_of_two air _ q).1 hq).1
  obtain ⟨alpha, zeta, chz, cps, h⟩ := produced hu hwidth hr hq hqb hkb hpw hps hp
  have hkq : k + q ≤ u.twoAdicity := by omega
  have hout : ∀ i, algebraMap K F (u.g * u.genV (k + q) ^ i) ^ 2 ^ k - 1 ≠ 0 := by
    intro i
    rw [sub_ne_zero, ← map_pow, Ne, map_eq_one_iff _ (algebraMap K F).injective]
    exact coset_out hu.twoAdic hkq (hu.gOut _ hkq) _
  have hgv := glued_values hu.twoAdic u.deg hkq hu.g0 h.chunkCount
  have hgd := glued_degree hu.twoAdic u.deg (s := u.g) (q := q) h.chunkDegree
  refine ⟨alpha, zeta, chz, gluedPoly hu.twoAdic u.deg u.g k q cps, h.challenges, ⟨hgd, ?_⟩, ?_⟩
  · intro i x
    have hm : i % 2 ^ q < 2 ^ q := Nat.mod_lt _ (Nat.two_pow_pos q)
    have hpt : u.g * u.genV (k + q) ^ i = u.g * u.genV (k + q) ^ (i % 2 ^ q) * u.genV k ^ (i / 2 ^ q) := by
      conv_lhs => rw [← Nat.mod_add_div i (2 ^ q), pow_add, pow_mul, hu.twoAdic.pow hkq, ← mul_assoc]
    have hc : cps[i % 2 ^ q]? = some (cps[i % 2 ^ q]'(by rw [h.chunkCount]; exact hm)) := List.getElem?_eq_getElem _
    have := (hgv _ _ hc (i / 2 ^ q)).trans (h.chunkValues _ _ hc (i / 2 ^ q))
    rw [← hpt] at this
    show (x ^ 2 ^ k - 1) * _ = _
    rw [this, mul_comm, mul_assoc, inv_mul_cancel₀ (hout i), mul_one]
  · rw [verify_eq hu hq h.degreeBits hkq]
    · simp only [h.challenges, h.opening _ _ _ (show proof.quotientChunks.length = 2 ^ q by
        rw [h.quotientChunks, List.length_map, h.chunkCount])]
      by_cases hz : zeta ^ 2 ^ k = 1
      · rw [oodCheck_panic hz, if_pos hz]
      · rw [oodCheck_polys hu hr hkq hpw h.traceLocal h.traceNext h.quotientChunks h.chunkCount h.chunkDegree hgd hgv hz,
          if_neg hz]
        have h0 := sub_ne_zero.2 hz
        have hiff : (foldedPoly u.genV k air ps pub alpha).eval zeta * (zeta ^ 2 ^ k - 1)⁻¹ =
            (gluedPoly hu.twoAdic u.deg u.g k q cps).eval zeta ↔ (foldedPoly u.genV k air ps pub alpha).eval zeta =
            (zeta ^ 2 ^ k - 1) * (gluedPoly hu.twoAdic u.deg u.g k q cps).eval zeta := by
          rw [← div_eq_mul_inv, div_eq_iff h0, mul_comm]
        by_cases he : (foldedPoly u.genV k air ps pub alpha).eval zeta =
            (zeta ^ 2 ^ k - 1) * (gluedPoly hu.twoAdic u.deg u.g k q cps).eval zeta
        · rw [if_pos he, decide_eq_true (hiff.2 he)]
        · rw [if_neg he, decide_eq_false (mt hiff.1 he)]
    · refine ⟨by rw [h.traceLocal, List.length_map, hpw], by rw [h.traceNext, List.length_map, hpw],
        by rw [h.quotientChunks, List.length_map, h.chunkCount], ?_⟩
      intro qc hqc
      rw [h.quotientChunks] at hqc
      obtain ⟨c, hc, rfl⟩ := List.mem_map.1 hqc
      rw [List.length_map, h.chunkWidth c hc]

/-- The prover cannot open at a point of its evaluation coset. -/
theorem produced_off_coset {u : Setup K F SI C DI PI S D P Ch W} (hu : u.Ok) {air : Air K} (hwidth : 0 < air.width)
    {pub : List K} {q : Nat} (hq : getLogQuotientDegree air pub.length = some q) (hqb : q ≤ u.cfg.logBlowup)
    {k : Nat} (hkb : k + u.cfg.logBlowup ≤ u.twoAdicity)
    {ps : List K[X]} (hpw : ps.length = air.width) (hps : ∀ p ∈ ps, p.natDegree < 2 ^ k)
    {ch ch' : Ch} {si : SI} {s : S} {w : W} {proof : ProofOf K F C P W PI}
    (hp : prove u air ch (evalRows u.genV ps 1 k) pub si s w = some (proof, ch')) {alpha zeta : F} {chz : Ch}
    (hc : challenges u ch proof.traceCommit proof.quotientCommit = some (alpha, zeta, chz)) :
    zeta ^ 2 ^ (k + u.cfg.logBlowup) ≠ algebraMap K F u.g ^ 2 ^ (k + u.cfg.logBlowup) := by
  have hr := ((C45_least_power_of_two air _ q).1 hq).1
  obtain ⟨c1, d1, second, -, ho1, hs, he⟩ := prove_eq hu hwidth hr hq hqb hkb hpw hps si
  rw [he] at hp
  simp only [Option.bind_eq_bind, Option.bind_eq_some_iff] at hp
  obtain ⟨-, -, ch1, h1, ⟨alpha', ch2⟩, h2, ch3, h3, ⟨zeta', ch4⟩, h4, hp⟩ := hp
  have hsa := hs alpha'
  rw [finish_spec hu hkb hps hsa.count hsa.degree ho1 hsa.opens, Option.map_eq_some_iff] at hp
  obtain ⟨⟨values, pf, s', ch5⟩, hopen, hp⟩ := hp
  simp only [Prod.mk.injEq] at hp
  obtain ⟨rfl, rfl⟩ := hp
  simp only [challenges, h1, h2, h3, h4, Option.bind_eq_bind, Option.bind_some, Option.some.injEq, Prod.mk.injEq] at hc
  obtain ⟨rfl, rfl, rfl⟩ := hc
  have hh := honest_rounds hu hkb hps hsa.count hsa.degree zeta' ho1 hsa.opens
  obtain ⟨G, hmax, hGN, hle, -⟩ := global_height hh
  unfold Pcs.open at hopen
  rw [mapM_mats _ hh.ok] at hopen
  simp only [Option.bind_eq_bind, Option.bind_some, hmax, log2Strict_pow, Option.bind_eq_some_iff] at hopen
  obtain ⟨_, _, _, hred, _⟩ := hopen
  unfold reduceOpenings at hred
  simp only [Option.bind_eq_bind, Option.bind_eq_some_iff] at hred
  obtain ⟨inv, hinv, _⟩ := hred
  have hI := invOk_of (b := u.cfg.logBlowup) hu.twoAdic hGN (fun r h e he => ⟨(hh.ok r h).height e he, hle r h e he⟩) hinv
    _ (List.mem_cons_self ..) _ (List.mem_cons_self ..) zeta' (List.mem_cons_self ..)
  obtain ⟨L, -, -, hL⟩ := hI
  intro heq
  have hs0 : algebraMap K F u.g ≠ 0 := by rw [Ne, map_eq_zero]; exact hu.g0
  obtain ⟨i, hi, hz⟩ := ((TwoAdic.primitive hu.twoAdic hkb).map_of_injective
    (algebraMap K F).injective).eq_pow_of_pow_eq_one (ξ := zeta' / algebraMap K F u.g) (by
      rw [div_pow, heq, div_self (pow_ne_zero _ hs0)])
  refine (hL (revBits (k + u.cfg.logBlowup) i) (revBits_lt _ _)).1 ?_
  change algebraMap K F (pt u.genV u.g (k + u.cfg.logBlowup) _) - zeta' = 0
  rw [pt, revBits_invol _ _ hi, map_mul, map_pow, hz, mul_div_cancel₀ _ hs0, sub_self]

/-- **C119** What the verifier says about a proof that the prover made from any trace at all, when the assertions nest no
transition filters: with `P` the combined constraint polynomial it accepts if the remainder of `P` modulo `X^n - 1` is zero
at `zeta`, and reports a mismatch if not.  If `zeta` is a point of the trace domain it panics. -/
theorem C119_exact {u : Setup K F SI C DI PI S D P Ch W} (hu : u.Ok) {air : Air K} (hwidth : 0 < air.width)
    (ht : air.FewTransitions)
    {pub : List K} {q : Nat} (hq : getLogQuotientDegree air pub.length = some q) (hqb : q ≤ u.cfg.logBlowup)
    {k : Nat} (hkb : k + u.cfg.logBlowup ≤ u.twoAdicity)
    {ps : List K[X]} (hpw : ps.length = air.width) (hps : ∀ p ∈ ps, p.natDegree < 2 ^ k)
    {ch ch' : Ch} {si : SI} {s : S} {w : W} {proof : ProofOf K F C P W PI}
    (hp : prove u air ch (evalRows u.genV ps 1 k) pub si s w = some (proof, ch')) :
    ∃ alpha zeta chz, challenges u ch proof.traceCommit proof.quotientCommit = some (alpha, zeta, chz) ∧
      verify u air ch proof pub =
        if zeta ^ 2 ^ k = 1 then .panic
        else if (foldedPoly u.genV k air ps pub alpha %ₘ (X ^ 2 ^ k - 1)).eval zeta = 0 then .ok ch'
        else .err .oodEvaluationMismatch := by
  obtain ⟨alpha, zeta, chz, Q, hc, hQ, hv⟩ := C119_quotient hu hwidth hq hqb hkb hpw hps hp
  have hoff := produced_off_coset hu hwidth hq hqb hkb hpw hps hp hc
  refine ⟨alpha, zeta, chz, hc, ?_⟩
  have hiff := remainder_iff hu (by omega : k + q ≤ u.twoAdicity)
    (folded_degree (genV := u.genV) hps hq ht alpha) hQ (zeta := zeta) (fun h => hoff (by
      have e : 2 ^ (k + u.cfg.logBlowup) = 2 ^ (k + q) * 2 ^ (u.cfg.logBlowup - q) := by
        rw [← pow_add]; congr 1; omega
      rw [e, pow_mul, pow_mul, h]))
  rw [hv]
  simp only [hiff]

/-- **C119** A proof made from a trace that does not satisfy the system is reported as a mismatch, unless one of few
challenges is drawn.  The exceptional challenges depend on the system, the trace and the public values only, not on the run:
fewer values of `alpha` than there are assertions, and for any other `alpha` fewer values of `zeta` than the trace has rows.
(For a `zeta` in the trace domain the verifier panics.) -/
theorem C119_wrong_trace {u : Setup K F SI C DI PI S D P Ch W} (hu : u.Ok) {air : Air K} (hwidth : 0 < air.width)
    (hf : air.Filtered) (ht : air.FewTransitions)
    {pub : List K} {q : Nat} (hq : getLogQuotientDegree air pub.length = some q) (hqb : q ≤ u.cfg.logBlowup)
    {k : Nat} (hkb : k + u.cfg.logBlowup ≤ u.twoAdicity) {trace : Mat K}
    (hl : trace.length = 2 ^ k) (hrect : Rect trace air.width) (hsat : ¬ Satisfies air trace pub) :
    ∃ (badA : Set F) (badZ : F → Set F), badA.Finite ∧ badA.ncard < air.asserts.length ∧
      (∀ alpha ∉ badA, (badZ alpha).Finite ∧ (badZ alpha).ncard < trace.length) ∧
      ∀ (ch ch' : Ch) (si : SI) (s : S) (w : W) (proof : ProofOf K F C P W PI),
        prove u air ch trace pub si s w = some (proof, ch') →
        ∃ alpha zeta chz, challenges u ch proof.traceCommit proof.quotientCommit = some (alpha, zeta, chz) ∧
          (alpha ∉ badA → zeta ∉ badZ alpha → verify u air ch proof pub =
            if zeta ^ 2 ^ k = 1 then .panic else .err .oodEvaluationMismatch) := by
  rw [hl]
  obtain ⟨ps, hpw, rfl, hps⟩ := trace_polys hu (k := k) (by omega) hl hrect
  simp only [Satisfies, not_forall] at hsat
  obtain ⟨i, hi, a, ha, hn⟩ := hsat
  have hi : i < 2 ^ k := by simpa [evalRows] using hi
  have hne : (a.residue Polynomial.C (polyMeaning u.genV k ps pub)).eval (u.genV k ^ i) ≠ 0 := fun h =>
    hn ((holds_row_iff hu.twoAdic (by omega) hi ps pub (hf a ha)).2 h)
  obtain ⟨p, hp0, hpd, hpe⟩ := combine_poly (air.asserts.map fun a => algebraMap K F
      ((a.residue Polynomial.C (polyMeaning u.genV k ps pub)).eval (u.genV k ^ i)))
    ⟨_, List.mem_map.2 ⟨a, ha, rfl⟩, by rwa [Ne, map_eq_zero]⟩
  rw [List.length_map] at hpd
  have hfold : ∀ alpha : F, (foldedPoly u.genV k air ps pub alpha).eval (algebraMap K F (u.genV k ^ i)) =
      p.eval alpha := by
    intro alpha
    rw [hpe, foldedPoly_eval_base]
    congr 1
    refine List.map_congr_left fun a _ => ?_
    have := residue_map (aeval (R := K) (u.genV k ^ i)).toRingHom Polynomial.C (polyMeaning u.genV k ps pub) a
    simp only [AlgHom.toRingHom_eq_coe, RingHom.coe_coe, coe_aeval_eq_eval, eval_C] at this
    rw [this]
    rfl
  obtain ⟨h1, h2⟩ := ncard_roots hp0 {alpha | p.eval alpha = 0} fun x hx => hx
  refine ⟨{alpha | p.eval alpha = 0}, fun alpha => {zeta | (foldedPoly u.genV k air ps pub alpha %ₘ
    (X ^ 2 ^ k - 1)).eval zeta = 0}, h1, ?_, ?_, ?_⟩
  · have : 0 < air.asserts.length := List.length_pos_of_mem ha
    omega
  · intro alpha halpha
    have hpos := Nat.two_pow_pos k
    have hm : (X ^ 2 ^ k - 1 : F[X]).Monic := monic_X_pow_sub_C 1 hpos.ne'
    have hXd : (X ^ 2 ^ k - 1 : F[X]).natDegree = 2 ^ k := natDegree_X_pow_sub_C
    have h0 : foldedPoly u.genV k air ps pub alpha %ₘ (X ^ 2 ^ k - 1) ≠ 0 := by
      intro h
      have := congrArg (Polynomial.eval (algebraMap K F (u.genV k ^ i)))
        (modByMonic_add_div (foldedPoly u.genV k air ps pub alpha) (X ^ 2 ^ k - 1))
      rw [h, zero_add, hfold, eval_mul, eval_sub, eval_pow, eval_X, eval_one, ← map_pow, ← pow_mul, mul_comm i,
        pow_mul, gen_pow_one hu.twoAdic (by omega), one_pow, map_one, sub_self, zero_mul] at this
      exact halpha this.symm
    obtain ⟨h3, h4⟩ := ncard_roots h0 _ fun x hx => hx
    refine ⟨h3, h4.trans_lt ?_⟩
    have := natDegree_modByMonic_lt (foldedPoly u.genV k air ps pub alpha) hm (fun h => by
      have := congrArg natDegree h
      rw [hXd, natDegree_one] at this
      omega)
    rwa [hXd] at this
  · intro ch ch' si s w proof hp
    obtain ⟨alpha, zeta, chz, h3, h5⟩ := C119_exact hu hwidth ht hq hqb hkb hpw hps hp
    refine ⟨alpha, zeta, chz, h3, fun _ hz => ?_⟩
    rw [h5, if_neg (c := Polynomial.eval _ _ = 0) hz]

/-- **C119** With debug assertions the prover refuses such a trace. -/
theorem C119_debug {u : Setup K F SI C DI PI S D P Ch W} (hd : u.cfg.debug = true) {air : Air K} {pub : List K}
    {trace : Mat K} (hrect : Rect trace air.width) (hsat : ¬ Satisfies air trace pub) (ch : Ch) (si : SI) (s : S) (w : W) :
    prove u air ch trace pub si s w = none := by
  by_cases hne : trace = []
  · subst hne
    exact absurd (fun i hi => absurd hi (Nat.not_lt_zero i)) hsat
  have h : checkConstraints air trace pub = none := by
    cases hc : checkConstraints air trace pub with
    | none => rfl
    | some x => exact absurd ((C50_check_constraints air hrect hne pub).1 hc).2 hsat
  unfold prove debugCheck
  rw [if_pos hd, h]
  rfl

/-- The remainder for the Fibonacci system when only the claimed result is wrong. -/
theorem fib_remainder {genV : Nat → K} {N : Nat} (hg : TwoAdic genV N) {k : Nat} (hkN : k ≤ N)
    {ps : List K[X]} (hps : ∀ p ∈ ps, p.natDegree < 2 ^ k) {a b c : K}
    (hsat : Satisfies (fibAir K) (evalRows genV ps 1 k) [a, b, c]) (c' : K) (alpha : F) :
    foldedPoly genV k (fibAir K) ps [a, b, c'] alpha %ₘ (X ^ 2 ^ k - 1) =
      Polynomial.C (algebraMap K F (c - c')) * (selPoly (genV k)⁻¹ (2 ^ k)).map (algebraMap K F) := by
  have hn := Nat.two_pow_pos k
  have hm : (X ^ 2 ^ k - 1 : F[X]).Monic := monic_X_pow_sub_C 1 hn.ne'
  have hXd : (X ^ 2 ^ k - 1 : F[X]).natDegree = 2 ^ k := natDegree_X_pow_sub_C
  obtain ⟨Q, hQ, -⟩ := exists_quotient (F := F) hps (q := 0) (fibAir_degree 3 le_rfl) fibAir_transitions
    ((satisfies_iff_dvd hg hkN ps [a, b, c] fibAir_filtered).1 hsat) alpha
  refine (div_modByMonic_unique Q _ hm ⟨?_, ?_⟩).2
  · rw [← hQ]
    unfold foldedPoly constraintPolys
    simp only [← foldl_combine, fibAir, List.map_cons, List.map_nil, List.foldl_cons, List.foldl_nil, Assertion.residue,
      Assertion.sides, AExpr.value, polyMeaning, List.getD_cons_zero, List.getD_cons_succ, sub_zero, Polynomial.map_mul,
      Polynomial.map_sub, Polynomial.map_C, map_sub]
    ring
  · refine (degree_le_natDegree).trans_lt (lt_of_lt_of_eq (Nat.cast_lt.2 ?_) (degree_eq_natDegree hm.ne_zero).symm)
    rw [hXd]
    refine (natDegree_C_mul_le _ _).trans_lt (natDegree_map_le.trans_lt ?_)
    have := selPoly_degree (genV k)⁻¹ (n := 2 ^ k)
    omega

/-- **C119** For the Fibonacci system a wrong result is never accepted: if the trace is a correct one with the result `c`, a
proof made from it for another claimed result is reported as a mismatch, whatever the challenges (and if `zeta` is a point of
the trace domain the verifier panics). -/
theorem C119_fibonacci {u : Setup K F SI C DI PI S D P Ch W} (hu : u.Ok) {k : Nat}
    (hkb : k + u.cfg.logBlowup ≤ u.twoAdicity) (a b : K) {c' : K}
    (hc : ((fibTrace (2 ^ k) a b).getD (2 ^ k - 1) []).getD 1 0 ≠ c')
    {ch ch' : Ch} {si : SI} {s : S} {w : W} {proof : ProofOf K F C P W PI}
    (hp : prove u (fibAir K) ch (fibTrace (2 ^ k) a b) [a, b, c'] si s w = some (proof, ch')) :
    ∃ alpha zeta chz, challenges u ch proof.traceCommit proof.quotientCommit = some (alpha, zeta, chz) ∧
      verify u (fibAir K) ch proof [a, b, c'] = if zeta ^ 2 ^ k = 1 then .panic else .err .oodEvaluationMismatch := by
  have hsat := fibTrace_satisfies (2 ^ k) (Nat.two_pow_pos k) a b
  obtain ⟨ps, hpw, hev, hps⟩ := trace_polys hu (k := k) (by omega) (fibTrace_length (2 ^ k) a b) (fibTrace_rect (2 ^ k) a b)
  obtain ⟨alpha, zeta, chz, h1, h2⟩ := C119_exact hu (by decide : 0 < 2) fibAir_transitions (pub := [a, b, c'])
    (q := 0) (fibAir_degree 3 le_rfl) (Nat.zero_le _) hkb hpw hps (hev ▸ hp)
  refine ⟨alpha, zeta, chz, h1, ?_⟩
  rw [h2]
  by_cases hz : zeta ^ 2 ^ k = 1
  · rw [if_pos hz, if_pos hz]
  · rw [if_neg hz, if_neg hz, if_neg]
    rw [fib_remainder hu.twoAdic (by omega) hps (hev ▸ hsat), eval_mul, eval_C, mul_eq_zero, not_or]
    have hw := inv_pow hu.twoAdic (by omega : k ≤ u.twoAdicity)
    refine ⟨by rw [map_eq_zero, sub_eq_zero]; rwa [← hev], ?_⟩
    rw [eval_map_algebraMap, ← selPoly_aeval hw hz]
    refine mul_ne_zero (sub_ne_zero.2 hz) (inv_ne_zero (sub_ne_zero.2 fun h => hz ?_))
    rw [h, ← map_pow, hw, map_one]

end TapStark.Stark

namespace TapStark.Stark

open TapStark.Tap TapStark.FS TapStark.Fri TapStark.Pcs Polynomial

section
variable [LinearOrder U256]

/-- C119 has no unmet hypotheses.  In the setting of C48's example without debug assertions, the prover makes a proof from the
correct four rows with the claim that the result is 7, and the verifier reports a mismatch; with debug assertions the prover
refuses. -/
theorem C119_instance (scfg : TapStark.Cfg) (h20 : ∀ x, (scfg.hash160 x).length = 20)
    (th : TapHash (List Op) U256) (w : U32) :
    ∃ mgr : Tcs.Manager,
    let u := fun debug => deployed scfg th mgr mgr bbRep (lagrangeExt bbGen : Ext BB BB) (bbChall (blake3Perm fiveHash))
      ⟨1, 2, 0, debug⟩ bbDeg
    let ch := Chal.new 16 (fromU64 0)
    (u false).Ok ∧ ¬ Satisfies (fibAir BB) (fibTrace 4 0 1) [0, 1, 7] ∧
      prove (u true) (fibAir BB) ch (fibTrace 4 0 1) [0, 1, 7] 0 0 w = none ∧
      ∃ proof ch', prove (u false) (fibAir BB) ch (fibTrace 4 0 1) [0, 1, 7] 0 0 w = some (proof, ch') ∧
        verify (u false) (fibAir BB) ch proof [0, 1, 7] = .err .oodEvaluationMismatch := by
  obtain ⟨b, c, -, -, h⟩ := Tcs.winternitz_ok scfg h20 ['b', '1', '3', '8'] (by decide) 0
  have ok : ∀ n w, Tcs.BcsOk scfg 1 20 20 (Tcs.assigned bbRep (fun _ _ => Tcs.winternitzBc scfg b c) n w) := by
    intro n w
    refine ⟨h, ?_⟩
    intro bc hbc
    obtain ⟨-, -, rfl⟩ := List.mem_map.1 hbc
    exact h
  refine ⟨fun _ _ => Tcs.winternitzBc scfg b c, ?_⟩
  intro u ch
  have hp := fun s (_ : s.length = 16) => blake3Perm_length fiveHash s
  have hu : (u false).Ok := deployed_ok th ok bbRep_ok ok (lagrangeExt_width _) (lagrangeExt_correct bbGen_twoAdic)
    (by decide) (by decide) (bbChall_bits _) bbDeg_ok
  have hch : GoodChal (blake3Perm fiveHash) ch := ⟨_, _, inv_new (by omega)⟩
  have hq : getLogQuotientDegree (fibAir BB) 3 = some 0 := fibAir_degree 3 le_rfl
  have hne : ((fibTrace 4 (0 : BB) 1).getD (4 - 1) []).getD 1 0 ≠ 7 := by decide +kernel
  have hsat : ¬ Satisfies (fibAir BB) (fibTrace 4 0 1) [0, 1, 7] := by
    intro hs
    have := hs 3 (by rw [fibTrace_length]; omega) (.zero (.mul .isLastRow (.sub (.loc 1) (.pub 2)))) (by simp [fibAir])
    revert this
    show ¬ ((_ : BB) = _)
    decide +kernel
  have hz1 : (5 : BB) ^ 2 ^ 2 ≠ 1 := by decide +kernel
  have hz3 : (5 : BB) ^ 2 ^ 3 ≠ 31 ^ 2 ^ 3 := by decide +kernel
  obtain ⟨c1, c2, alpha, zeta, chz, h1, h2⟩ := C48_no_panic hu (by decide : (27 : Nat) < 32)
    (bbChall_total _ hp) (air := fibAir BB) (by decide : 0 < 2) (pub := [0, 1, 7]) hq (Nat.zero_le _)
    (k := 2) (by decide : 2 + 1 ≤ 27) (fibTrace_length 4 0 1) (fibTrace_rect 4 0 1) (fun h => by cases h)
    hch 0 0
  obtain ⟨rfl, rfl⟩ := fiveHash_challenges rfl hch h1
  obtain ⟨chPow, hgood, h3⟩ := h2 hz3
  obtain ⟨chw, hw⟩ := checkWitness_zero hp chPow hgood w
  obtain ⟨proof, ch', h4, rfl, rfl⟩ := h3 w chw hw
  refine ⟨hu, hsat, C119_debug rfl (fibTrace_rect 4 0 1) hsat _ _ _ _, proof, ch', h4, ?_⟩
  obtain ⟨alpha', zeta', chz', h5, h6⟩ := C119_fibonacci hu (k := 2) (by decide : 2 + 1 ≤ 27) 0 1 hne h4
  obtain ⟨-, rfl⟩ := fiveHash_challenges rfl hch h5
  rw [h6, if_neg hz1]

end

end TapStark.Stark
