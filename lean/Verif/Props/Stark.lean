import Verif.Proofs.StarkComplete

/-! C44–C53, C75: the STARK. -/

set_option linter.unusedSectionVars false

namespace TapStark.Stark

open Polynomial TapStark.Fri TapStark.Pcs

variable {K F : Type} [Field K] [Field F] [DecidableEq K] [DecidableEq F] [Algebra K F]
variable {SI C DI PI S D P Ch W : Type}

/-! ### C44 -/

/-- **C44** Substituting trace polynomials of degree below `n = 2^k` and the selector polynomials into an
expression gives a polynomial of degree at most the symbolic degree times `n - 1`, plus the number of
transition flags multiplied together. -/
theorem C44_symbolic_degree {genV : Nat → K} {k : Nat} {ps : List K[X]} {pub : List K}
    (hps : ∀ p ∈ ps, p.natDegree < 2 ^ k) {e : AExpr K} {s : SymExpr K}
    (hs : e.symbolic ps.length pub.length = some s) :
    (e.value Polynomial.C (polyMeaning genV k ps pub)).natDegree ≤
      s.degreeMultiple * (2 ^ k - 1) + e.transitions := by
  have h := symbolic_spec ps.length pub.length e
  split at h
  · obtain ⟨s', h1, h2⟩ := h
    rw [hs, Option.some.injEq] at h1
    rw [h1, h2]
    exact value_degree (polyMeaning_bounded genV k ps pub hps) e
  · rw [hs] at h
    cases h

/-- **C44** The quotient domain is large enough: whenever no assertion multiplies too many transition
flags, every constraint polynomial has degree below `(2^q + 1) · n`, and if the trace satisfies the AIR, the
quotient of the combined constraints has degree below `2^q · n`, the size of the quotient domain. -/
theorem C44_quotient_fits_partial {genV : Nat → K} {N : Nat} (hg : TwoAdic genV N) {k q : Nat}
    (hkN : k ≤ N) {air : Air K} {ps : List K[X]} {pub : List K} (hps : ∀ p ∈ ps, p.natDegree < 2 ^ k)
    (hq : getLogQuotientDegree air pub.length = some q) (ht : air.FewTransitions) :
    (∀ c ∈ constraintPolys genV k air ps pub, c.natDegree < (2 ^ q + 1) * 2 ^ k) ∧
      (air.Filtered → Satisfies air (evalRows genV ps 1 k) pub → ∀ alpha : F, ∃ Q : F[X],
        foldedPoly genV k air ps pub alpha = (X ^ 2 ^ k - 1) * Q ∧ Q.natDegree < 2 ^ (k + q)) := by
  refine ⟨?_, ?_⟩
  · intro c hc
    obtain ⟨a, ha, rfl⟩ := List.mem_map.1 hc
    exact constraint_degree hps hq ha (ht a ha)
  · intro hf hsat alpha
    exact exists_quotient hps hq ht ((satisfies_iff_dvd hg hkN ps pub hf).1 hsat) alpha

/-! ### C45 -/

/-- **C45** The number of quotient chunks `2^q` is the least power of two not below `max(d, 2) - 1`, where `d`
is the largest degree of an assertion. -/
theorem C45_least_power_of_two (air : Air K) (numPublic q : Nat) :
    getLogQuotientDegree air numPublic = some q ↔
      air.InRange numPublic ∧ IsLeast {m | max air.degree 2 - 1 ≤ 2 ^ m} q := by
  by_cases h : air.InRange numPublic
  · have hl := log2Ceil_least (max air.degree 2 - 1)
    simp only [getLogQuotientDegree, maxDegree_some h, Option.bind_eq_bind, Option.bind_some,
      Option.some.injEq, h, true_and]
    constructor
    · rintro rfl
      exact hl
    · exact fun h' => hl.unique h'
  · simp [getLogQuotientDegree, maxDegree_none h, h]

/-- **C45** The degree meant: it bounds every assertion and one of them attains it. -/
theorem C45_degree_is_max (air : Air K) :
    (∀ a ∈ air.asserts, a.degree ≤ air.degree) ∧
      (air.asserts ≠ [] → ∃ a ∈ air.asserts, a.degree = air.degree) := by
  refine ⟨fun a ha => le_degree ha, ?_⟩
  unfold Air.degree
  generalize air.asserts = l
  induction l with
  | nil => simp
  | cons a l ih =>
    intro _
    rw [List.map_cons, List.foldr_cons]
    by_cases hl : l = []
    · subst hl
      exact ⟨a, List.mem_cons_self, by simp⟩
    · obtain ⟨b, hb, e⟩ := ih hl
      rcases le_total a.degree ((l.map Assertion.degree).foldr max 0) with h | h
      · exact ⟨b, List.mem_cons_of_mem _ hb, by rw [max_eq_right h, e]⟩
      · exact ⟨a, List.mem_cons_self, by rw [max_eq_left h]⟩

/-! ### C46 -/

/-- **C46** The three folders compute `Σ_j alpha^(m-1-j) c_j` of the constraint values `c_j`: the prover's
from values in the base field, the verifier's from values in the challenge field, the script builder's
from any non-empty list. -/
theorem C46_folders_agree_partial (air : Air K) (alpha : F) {numPublic : Nat} (hr : air.InRange numPublic) :
    (∀ w : Window K, w.loc.length = air.width → w.nxt.length = air.width → w.pub.length = numPublic →
      proverFold air alpha w = some (combine alpha (air.asserts.map fun a =>
        algebraMap K F (a.residue id w.meaning)))) ∧
    (∀ w : Window F, w.loc.length = air.width → w.nxt.length = air.width → w.pub.length = numPublic →
      verifierFold air alpha w = some (combine alpha (air.asserts.map fun a =>
        a.residue (algebraMap K F) w.meaning))) ∧
    (∀ cs : List F, cs ≠ [] → scriptAccumulator alpha cs = some (combine alpha cs)) := by
  refine ⟨?_, ?_, ?_⟩
  · intro w h1 h2 h3
    exact fold_eq id (algebraMap K F) air alpha w h1 h2 h3 hr
  · intro w h1 h2 h3
    have := fold_eq (algebraMap K F) (id : F → F) air alpha w h1 h2 h3 hr
    simp only [id] at this
    exact this
  · intro cs hcs
    cases cs with
    | nil => exact absurd rfl hcs
    | cons c cs =>
      rw [← foldl_combine, List.foldl_cons, zero_mul, zero_add]
      rfl

/-- **C46 is violated** for an AIR without assertions: the native folders give 0, the script builder
panics. -/
theorem C46_violated_empty (alpha : F) (wK : Window K) (wF : Window F) (width : Nat) :
    proverFold (⟨width, []⟩ : Air K) alpha wK = some 0 ∧ verifierFold (⟨width, []⟩ : Air K) alpha wF = some 0 ∧
      scriptAccumulator alpha ([] : List F) = none := ⟨rfl, rfl, rfl⟩

/-! ### C47 -/

/-- **C47** For every list of chunk polynomials there is exactly one polynomial of degree below the size of
the quotient domain agreeing with them on the cosets the domain is split into, and the verifier's weighted
sum of the chunk values at any `zeta` is its value at `zeta`.  A chunk is a list of coordinate polynomials of
degree below the chunk size. -/
theorem C47_recombine {genV : Nat → K} {N : Nat} (hg : TwoAdic genV N) {k q : Nat} (hkq : k + q ≤ N) {s : K}
    (hs : s ≠ 0) {deg : ExtDeg K F} (chunks : List (List K[X])) (hl : chunks.length = 2 ^ q)
    (hd : ∀ c ∈ chunks, ∀ p ∈ c, p.natDegree < 2 ^ k) :
    ∃ domains : List (Dom K), splitDomains genV N ⟨k + q, s⟩ (2 ^ q) = some domains ∧
      domains.length = 2 ^ q ∧
      (∃! Q : F[X], Q.natDegree < 2 ^ (k + q) ∧ AgreesOn genV deg domains chunks Q) ∧
      ∀ Q : F[X], Q.natDegree < 2 ^ (k + q) → AgreesOn genV deg domains chunks Q → ∀ zeta : F,
        ((zps domains zeta).bind fun z => recombine deg z (chunks.map fun c => c.map fun p => aeval zeta p)) =
          some (Q.eval zeta) := by
  refine ⟨_, splitDomains_eq hkq s, chunkDomains_length _ _ _ _, ?_⟩
  have hdom : ∀ i, i < 2 ^ q → (chunkDomains genV k q s)[i]? = some ⟨k, s * genV (k + q) ^ i⟩ := by
    intro i hi
    simp only [chunkDomains, List.getElem?_map, List.getElem?_range hi, Option.map_some]
  have hag : ∀ Q : F[X], AgreesOn genV deg (chunkDomains genV k q s) chunks Q ↔
      ∀ i c, chunks[i]? = some c → ∀ l, Q.eval (algebraMap K F (s * genV (k + q) ^ i * genV k ^ l)) =
      ∑ e ∈ Finset.range c.length, deg.monomial e *
        algebraMap K F ((c.getD e 0).eval (s * genV (k + q) ^ i * genV k ^ l)) := by
    intro Q
    constructor
    · intro h i c hc l
      exact h i _ c (hdom i (by rw [← hl]; exact (List.getElem?_eq_some_iff.1 hc).1)) hc l
    · intro h i d c h1 hc l
      rw [hdom i (by rw [← hl]; exact (List.getElem?_eq_some_iff.1 hc).1), Option.some.injEq] at h1
      subst h1
      exact h i c hc l
  refine ⟨⟨gluedPoly hg deg s k q chunks, ⟨glued_degree hg deg hd, (hag _).2 (glued_values hg deg hkq hs hl)⟩,
    ?_⟩, ?_⟩
  · rintro Q ⟨h1, h2⟩
    refine eq_of_cosets hg hkq hs h1 (glued_degree hg deg hd) ?_
    intro i hi l
    have hc : chunks[i]? = some chunks[i] := List.getElem?_eq_getElem (by omega)
    rw [(hag Q).1 h2 i _ hc, glued_values hg deg hkq hs hl i _ hc]
  · intro Q h1 h2 zeta
    rw [zps_eq hg hkq hs, Option.bind_some]
    exact recombine_eq hg hkq hs chunks hl hd Q h1 ((hag Q).1 h2) zeta

/-! ### C48 -/

/-- The polynomials of a trace. -/
theorem trace_polys {u : Setup K F SI C DI PI S D P Ch W} (hu : u.Ok) {k : Nat} (hk : k ≤ u.twoAdicity)
    {trace : Mat K} {w : Nat} (hl : trace.length = 2 ^ k) (hrect : Rect trace w) :
    ∃ ps : List K[X], ps.length = w ∧ trace = evalRows u.genV ps 1 k ∧ ∀ p ∈ ps, p.natDegree < 2 ^ k :=
  exists_polys hu.twoAdic hk one_ne_zero trace w hl hrect

/-- **C48** An honest proof is accepted: if the trace satisfies the AIR, every proof the prover returns is
accepted by the verifier with the same challenger state, provided the challenge point is not a point of the
trace domain.  The AIR uses row flags as factors only, with at most as many transition flags as the quotient
domain leaves room for, and the quotient degree does not exceed the blowup. -/
theorem C48_complete_partial {u : Setup K F SI C DI PI S D P Ch W} (hu : u.Ok) {air : Air K} (hwidth : 0 < air.width)
    (hf : air.Filtered) (ht : air.FewTransitions) {pub : List K} {q : Nat}
    (hq : getLogQuotientDegree air pub.length = some q) (hqb : q ≤ u.cfg.logBlowup)
    {trace : Mat K} {k : Nat} (hkb : k + u.cfg.logBlowup ≤ u.twoAdicity)
    (hl : trace.length = 2 ^ k) (hrect : Rect trace air.width) (hsat : Satisfies air trace pub)
    {ch ch' : Ch} {si : SI} {s : S} {w : W} {proof : ProofOf K F C P W PI}
    (hp : prove u air ch trace pub si s w = some (proof, ch'))
    (hz : ∀ alpha zeta chz, challenges u ch proof.traceCommit proof.quotientCommit = some (alpha, zeta, chz) →
      zeta ^ 2 ^ k ≠ 1) :
    verify u air ch proof pub = .ok ch' := by
  obtain ⟨ps, hpw, rfl, hps⟩ := trace_polys hu (k := k) (by omega) hl hrect
  have hr := ((C45_least_power_of_two air _ q).1 hq).1
  obtain ⟨alpha, zeta, chz, cps, h⟩ := produced hu hwidth hr hq hqb hkb hpw hps hp
  obtain ⟨Q, hQ, hQd⟩ := exists_quotient (F := F) (genV := u.genV) hps hq ht
    ((satisfies_iff_dvd hu.twoAdic (by omega) ps pub hf).1 hsat) alpha
  have hz := hz _ _ _ h.challenges
  have hkq : k + q ≤ u.twoAdicity := by omega
  rw [verify_eq hu hq h.degreeBits hkq]
  · simp only [h.challenges, h.opening _ _ _ (show proof.quotientChunks.length = 2 ^ q by
      rw [h.quotientChunks, List.length_map, h.chunkCount])]
    rw [oodCheck_polys hu hr hkq hpw h.traceLocal h.traceNext h.quotientChunks h.chunkCount h.chunkDegree
      hQd _ hz]
    · rw [hQ, eval_mul, eval_sub, eval_pow, eval_X, eval_one, mul_comm, ← mul_assoc,
        inv_mul_cancel₀ (sub_ne_zero.2 hz), one_mul, decide_eq_true rfl]
    · intro i c hc l
      rw [h.chunkValues i c hc l, hQ, eval_mul, eval_sub, eval_pow, eval_X, eval_one, eq_comm,
        mul_right_comm, mul_inv_cancel₀, one_mul]
      have hi : i < 2 ^ q := by
        rw [← h.chunkCount]
        exact (List.getElem?_eq_some_iff.1 hc).1
      have e : u.g * u.genV (k + q) ^ i * u.genV k ^ l = u.g * u.genV (k + q) ^ (i + 2 ^ q * l) := by
        rw [mul_assoc, pow_add, pow_mul, hu.twoAdic.pow hkq]
      rw [e, sub_ne_zero, ← map_pow, Ne, map_eq_one_iff _ (algebraMap K F).injective]
      exact coset_out hu.twoAdic hkq (hu.gOut _ hkq) _
  · refine ⟨by rw [h.traceLocal, List.length_map, hpw], by rw [h.traceNext, List.length_map, hpw],
      by rw [h.quotientChunks, List.length_map, h.chunkCount], ?_⟩
    intro qc hqc
    rw [h.quotientChunks] at hqc
    obtain ⟨c, hc, rfl⟩ := List.mem_map.1 hqc
    rw [List.length_map, h.chunkWidth c hc]

/-- **C48** The identity itself: for polynomials whose constraint polynomials are all divisible by the
vanishing polynomial, and chunk polynomials of the quotient, the check accepts at every `zeta` outside the
trace domain.  The proof given supplies the commitments and openings, which the check does not read. -/
theorem C48_complete_identity {u : Setup K F SI C DI PI S D P Ch W} (hu : u.Ok) {air : Air K} {pub : List K}
    (hr : air.InRange pub.length) {k q : Nat} (hkq : k + q ≤ u.twoAdicity) {ps : List K[X]}
    (hpw : ps.length = air.width) {cps : List (List K[X])} (hcl : cps.length = 2 ^ q)
    (hcd : ∀ c ∈ cps, ∀ p ∈ c, p.natDegree < 2 ^ k) {alpha : F} {Q : F[X]}
    (hQ : foldedPoly u.genV k air ps pub alpha = (X ^ 2 ^ k - 1) * Q) (hQd : Q.natDegree < 2 ^ (k + q))
    (hQc : ∀ domains, splitDomains u.genV u.twoAdicity ⟨k + q, u.g⟩ (2 ^ q) = some domains →
      AgreesOn u.genV u.deg domains cps Q)
    (some_proof : ProofOf K F C P W PI) {zeta : F} (hz : zeta ^ 2 ^ k ≠ 1) :
    Accepts u air pub k q ps cps alpha zeta := by
  have hsd := splitDomains_eq (genV := u.genV) hkq u.g
  refine ⟨{ some_proof with
    traceLocal := ps.map fun p => aeval zeta p
    traceNext := ps.map fun p => aeval (zeta * algebraMap K F (u.genV k)) p
    quotientChunks := cps.map fun c => c.map fun p => aeval zeta p }, _, hsd, rfl, rfl, rfl, ?_⟩
  rw [oodCheck_polys hu hr hkq hpw rfl rfl rfl hcl hcd hQd _ hz]
  · rw [hQ, eval_mul, eval_sub, eval_pow, eval_X, eval_one, mul_comm, ← mul_assoc,
        inv_mul_cancel₀ (sub_ne_zero.2 hz), one_mul, decide_eq_true rfl]
  · intro i c hc l
    refine hQc _ hsd i ⟨k, u.g * u.genV (k + q) ^ i⟩ c ?_ hc l
    have hi : i < 2 ^ q := by
      rw [← hcl]
      exact (List.getElem?_eq_some_iff.1 hc).1
    simp only [chunkDomains, List.getElem?_map, List.getElem?_range hi, Option.map_some]

/-- The set of roots of a nonzero polynomial. -/
theorem ncard_roots {p : F[X]} (hp : p ≠ 0) (A : Set F) (hA : ∀ x ∈ A, p.eval x = 0) :
    A.Finite ∧ A.ncard ≤ p.natDegree := by
  have hsub : A ⊆ (p.roots.toFinset : Set F) := by
    intro x hx
    simp [hp, hA x hx]
  refine ⟨p.roots.toFinset.finite_toSet.subset hsub, ?_⟩
  refine (Set.ncard_le_ncard hsub p.roots.toFinset.finite_toSet).trans ?_
  rw [Set.ncard_coe_finset]
  exact (Multiset.toFinset_card_le _).trans (card_roots' p)

/-- The combination as a polynomial in the challenge. -/
theorem combine_poly (cs : List F) (hc : ∃ c ∈ cs, c ≠ 0) :
    ∃ p : F[X], p ≠ 0 ∧ p.natDegree ≤ cs.length - 1 ∧ ∀ alpha, p.eval alpha = combine alpha cs := by
  refine ⟨combine X (cs.map Polynomial.C), ?_, ?_, ?_⟩
  · obtain ⟨c, hc, h0⟩ := hc
    obtain ⟨j, hj, rfl⟩ := List.getElem_of_mem hc
    intro h
    have := congrArg (fun p : F[X] => p.coeff (cs.length - 1 - j)) h
    simp only [combine, finset_sum_coeff, coeff_zero] at this
    rw [Finset.sum_eq_single (⟨j, by simpa using hj⟩ : Fin (cs.map (Polynomial.C (R := F))).length)] at this
    · simp only [Fin.getElem_fin, List.getElem_map, List.length_map, coeff_mul_C, coeff_X_pow, if_true,
        one_mul] at this
      exact h0 this
    · intro b _ hb
      have hb2 : (b : Nat) < cs.length := lt_of_lt_of_eq b.2 (List.length_map _)
      have : (b : Nat) ≠ j := fun h => hb (Fin.ext h)
      simp only [Fin.getElem_fin, List.getElem_map, List.length_map, coeff_mul_C, coeff_X_pow]
      rw [if_neg (by omega), zero_mul]
    · simp
  · unfold combine
    refine natDegree_sum_le_of_forall_le _ _ ?_
    intro j _
    simp only [Fin.getElem_fin, List.getElem_map, List.length_map]
    refine (natDegree_mul_C_le _ _).trans ?_
    rw [natDegree_X_pow]
    omega
  · intro alpha
    have := combine_map (evalRingHom alpha) X (cs.map Polynomial.C)
    simp only [coe_evalRingHom, eval_X, List.map_map] at this
    rw [this]
    congr 1
    refine (List.map_congr_left fun c _ => ?_).trans (List.map_id cs)
    simp

/-- The argument for soundness, from a constraint polynomial that does not vanish on the trace domain. -/
theorem sound_core {u : Setup K F SI C DI PI S D P Ch W} (hu : u.Ok) {air : Air K}
    (ht : air.FewTransitions) {pub : List K} {q : Nat}
    (hq : getLogQuotientDegree air pub.length = some q) {k : Nat} (hkq : k + q ≤ u.twoAdicity)
    {ps : List K[X]} (hpw : ps.length = air.width) (hps : ∀ p ∈ ps, p.natDegree < 2 ^ k)
    {i : Nat} {a : Assertion K} (ha : a ∈ air.asserts)
    (hne : (a.residue Polynomial.C (polyMeaning u.genV k ps pub)).eval (u.genV k ^ i) ≠ 0) :
    ∃ bad : Set F, bad.Finite ∧ bad.ncard ≤ air.asserts.length - 1 ∧ ∀ alpha ∉ bad,
      ∀ cps : List (List K[X]), cps.length = 2 ^ q → (∀ c ∈ cps, ∀ p ∈ c, p.natDegree < 2 ^ k) →
        {zeta | Accepts u air pub k q ps cps alpha zeta}.Finite ∧
        {zeta | Accepts u air pub k q ps cps alpha zeta}.ncard ≤ (2 ^ q + 1) * 2 ^ k - 1 := by
  have hr := ((C45_least_power_of_two air _ q).1 hq).1
  obtain ⟨p, hp0, hpd, hpe⟩ := combine_poly (air.asserts.map fun a => algebraMap K F
      ((a.residue Polynomial.C (polyMeaning u.genV k ps pub)).eval (u.genV k ^ i)))
    ⟨_, List.mem_map.2 ⟨a, ha, rfl⟩, by rwa [Ne, map_eq_zero]⟩
  rw [List.length_map] at hpd
  have hfold : ∀ alpha : F, (foldedPoly u.genV k air ps pub alpha).eval (algebraMap K F (u.genV k ^ i)) =
      p.eval alpha := by
    intro alpha
    rw [hpe, foldedPoly_eval_base]
    congr 1
    refine List.map_congr_left fun a _ => ?_
    have := residue_map (aeval (R := K) (u.genV k ^ i)).toRingHom Polynomial.C (polyMeaning u.genV k ps pub) a
    simp only [AlgHom.toRingHom_eq_coe, RingHom.coe_coe, coe_aeval_eq_eval, eval_C] at this
    rw [this]
    rfl
  obtain ⟨h1, h2⟩ := ncard_roots hp0 {alpha | p.eval alpha = 0} fun x hx => hx
  refine ⟨_, h1, h2.trans hpd, ?_⟩
  intro alpha halpha cps hcl hcd
  have hgd := glued_degree hu.twoAdic u.deg (s := u.g) (q := q) hcd
  set G := gluedPoly hu.twoAdic u.deg u.g k q cps with hG
  have hne : foldedPoly u.genV k air ps pub alpha - (X ^ 2 ^ k - 1) * G ≠ 0 := by
    intro h
    have := congrArg (eval (algebraMap K F (u.genV k ^ i))) h
    rw [eval_sub, hfold, eval_mul, eval_sub, eval_pow, eval_X, eval_one, ← map_pow, ← pow_mul, mul_comm i,
      pow_mul, gen_pow_one hu.twoAdic (by omega), one_pow, map_one, sub_self, zero_mul, sub_zero,
      eval_zero] at this
    exact halpha this
  have hdeg : (foldedPoly u.genV k air ps pub alpha - (X ^ 2 ^ k - 1) * G).natDegree ≤
      (2 ^ q + 1) * 2 ^ k - 1 := by
    refine (natDegree_sub_le _ _).trans (max_le ?_ ?_)
    · have := folded_degree (genV := u.genV) hps hq ht alpha
      omega
    · refine natDegree_mul_le.trans ?_
      have : (X ^ 2 ^ k - 1 : F[X]).natDegree = 2 ^ k := natDegree_X_pow_sub_C
      rw [this, add_mul, one_mul, ← pow_add, add_comm q]
      omega
  obtain ⟨h3, h4⟩ := ncard_roots hne {zeta | Accepts u air pub k q ps cps alpha zeta} (by
    rintro zeta ⟨proof, domains, hsd, e1, e2, e3, hood⟩
    rw [splitDomains_eq hkq, Option.some.injEq] at hsd
    subst hsd
    have hz : zeta ^ 2 ^ k ≠ 1 := by
      intro h
      rw [oodCheck_panic h] at hood
      cases hood
    rw [oodCheck_polys hu hr hkq hpw e1 e2 e3 hcl hcd hgd (glued_values hu.twoAdic u.deg hkq hu.g0 hcl) hz,
      Option.some.injEq, decide_eq_true_eq] at hood
    rw [eval_sub, eval_mul, ← hood, eval_sub, eval_pow, eval_X, eval_one, mul_comm (_ - 1), mul_assoc,
      inv_mul_cancel₀ (sub_ne_zero.2 hz), mul_one, sub_self])
  exact ⟨h3, h4.trans hdeg⟩

/-- **C48** The check is sound: if the trace does not satisfy the AIR, then for all but at most
`#assertions - 1` values of `alpha` and every choice of chunk polynomials, the check fails for all but at most
`(2^q + 1) · 2^k - 1` values of `zeta`. -/
theorem C48_sound_partial {u : Setup K F SI C DI PI S D P Ch W} (hu : u.Ok) {air : Air K}
    (hf : air.Filtered) (ht : air.FewTransitions) {pub : List K} {q : Nat}
    (hq : getLogQuotientDegree air pub.length = some q) {k : Nat} (hkq : k + q ≤ u.twoAdicity)
    {ps : List K[X]} (hpw : ps.length = air.width) (hps : ∀ p ∈ ps, p.natDegree < 2 ^ k)
    (hsat : ¬ Satisfies air (evalRows u.genV ps 1 k) pub) :
    ∃ bad : Set F, bad.Finite ∧ bad.ncard ≤ air.asserts.length - 1 ∧ ∀ alpha ∉ bad,
      ∀ cps : List (List K[X]), cps.length = 2 ^ q → (∀ c ∈ cps, ∀ p ∈ c, p.natDegree < 2 ^ k) →
        {zeta | Accepts u air pub k q ps cps alpha zeta}.Finite ∧
        {zeta | Accepts u air pub k q ps cps alpha zeta}.ncard ≤ (2 ^ q + 1) * 2 ^ k - 1 := by
  simp only [Satisfies, not_forall] at hsat
  obtain ⟨i, hi, a, ha, hn⟩ := hsat
  have hi : i < 2 ^ k := by simpa [evalRows] using hi
  exact sound_core hu ht hq hkq hpw hps ha fun h =>
    hn ((holds_row_iff hu.twoAdic (by omega) hi ps pub (hf a ha)).2 h)

/-! ### C49 -/

/-- **C49** The selectors are values of fixed polynomials `first`, `last`, `trans`, `zh` of degree at most
`n - 1`, `n - 1`, 1 and `n = 2^k`, both at a point outside the trace domain and on a disjoint coset, and these
polynomials tell the rows apart: on the trace domain, `first` is zero exactly off the first point, `last`
exactly off the last point, `trans` exactly at the last point, and `zh` everywhere. -/
theorem C49_selectors {genV : Nat → K} {N : Nat} (hg : TwoAdic genV N) {k : Nat} (hk : k ≤ N) :
    ∃ first last trans zh : K[X],
      first.natDegree ≤ 2 ^ k - 1 ∧ last.natDegree ≤ 2 ^ k - 1 ∧ trans.natDegree ≤ 1 ∧ zh.natDegree = 2 ^ k ∧
      (∀ z : F, z ^ 2 ^ k ≠ 1 → selectorsAtPoint genV ⟨k, 1⟩ z =
        some ⟨aeval z first, aeval z last, aeval z trans, (aeval z zh)⁻¹⟩) ∧
      (∀ q s, k + q ≤ N → s ≠ 1 → s ^ 2 ^ (k + q) ≠ 1 →
        ∃ sels, selectorsOnCoset genV ⟨k, 1⟩ ⟨k + q, s⟩ = some sels ∧ sels.length = 2 ^ (k + q) ∧
          ∀ i, i < 2 ^ (k + q) → let x := s * genV (k + q) ^ i
            sels[i]? = some ⟨first.eval x, last.eval x, trans.eval x, (zh.eval x)⁻¹⟩) ∧
      ∀ i, i < 2 ^ k → (first.eval (genV k ^ i) ≠ 0 ↔ i = 0) ∧ (last.eval (genV k ^ i) ≠ 0 ↔ i = 2 ^ k - 1) ∧
        (trans.eval (genV k ^ i) = 0 ↔ i = 2 ^ k - 1) ∧ zh.eval (genV k ^ i) = 0 := by
  have hpos := Nat.two_pow_pos k
  refine ⟨selPoly 1 (2 ^ k), selPoly (genV k)⁻¹ (2 ^ k), X - Polynomial.C (genV k)⁻¹, X ^ 2 ^ k - 1, selPoly_degree _,
    selPoly_degree _, natDegree_X_sub_C_le _, natDegree_X_pow_sub_C, ?_, ?_, ?_⟩
  · intro z hz
    rw [selectorsAtPoint_eq hg hk hz]
    simp
  · intro q s hkq hs1 hs
    refine ⟨_, selectorsOnCoset_eq hg hkq hs1 hs, by simp, ?_⟩
    intro i hi
    simp only [List.getElem?_map, List.getElem?_range hi, Option.map_some]
    simp
  · intro i hi
    obtain ⟨-, -, -, h4, h5, h6⟩ := row_flags hg hk hi [] []
    simp only [rowMeaning, polyMeaning, Meaning.map, coe_aeval_eq_eval] at h4 h5 h6
    have hlen : (evalRows genV [] 1 k).length = 2 ^ k := by simp [evalRows]
    rw [hlen] at h5 h6
    refine ⟨?_, ?_, ?_, ?_⟩
    · rw [Ne, ← h4]
      by_cases h : i = 0 <;> simp [h]
    · rw [Ne, ← h5]
      by_cases h : i + 1 = 2 ^ k
      · simp [h]; omega
      · simp [h]; omega
    · rw [← h6]
      by_cases h : i + 1 = 2 ^ k
      · simp [h]; omega
      · simp [h]; omega
    · rw [eval_sub, eval_pow, eval_X, eval_one, ← pow_mul, mul_comm i, pow_mul, gen_pow_one hg hk, one_pow,
        sub_self]

/-- The flags are not normalised: the first-row selector is `n`, not 1, at the first point. -/
theorem C49_not_normalised {genV : Nat → K} (k : Nat) :
    ((polyMeaning genV k [] []).first).eval 1 = ((2 ^ k : Nat) : K) := by
  rw [polyMeaning, selPoly_self _ _ (Nat.two_pow_pos k), one_pow, mul_one]

/-! ### C50 -/

theorem forM_some_iff {α : Type} {f : α → Option Unit} : ∀ l : List α,
    l.forM f = some () ↔ ∀ a ∈ l, f a = some ()
  | [] => by simp
  | a :: l => by
    have e : (a :: l).forM f = (f a).bind fun _ => l.forM f := rfl
    rw [e]
    cases h : f a with
    | none => simp [h]
    | some u => simpa [h] using forM_some_iff l

theorem debugAssert_iff {w : Window K} {width np : Nat} (h1 : w.loc.length = width)
    (h2 : w.nxt.length = width) (h3 : w.pub.length = np) (a : Assertion K) :
    debugAssert w a = some () ↔ a.InRange width np ∧ a.Holds id w.meaning := by
  cases a with
  | zero x =>
    simp only [debugAssert, eval_eq id w h1 h2 h3, Assertion.InRange, Assertion.Holds, Assertion.sides]
    by_cases h : x.InRange width np
    · simp [h]
    · simp [h]
  | eq x y =>
    simp only [debugAssert, eval_eq id w h1 h2 h3, Assertion.InRange, Assertion.Holds, Assertion.sides]
    by_cases h : x.InRange width np
    · by_cases h' : y.InRange width np
      · simp [h, h']
      · simp [h, h']
    · simp [h]

/-- **C50** The debug check returns without panic exactly when the trace satisfies the AIR: every assertion
holds in every row, the next row taken cyclically, the flags being those of the row.  (The assertions must
mention existing columns and public values only.) -/
theorem C50_check_constraints (air : Air K) {trace : Mat K} (hrect : Rect trace air.width) (hne : trace ≠ [])
    (pub : List K) :
    checkConstraints air trace pub = some () ↔ air.InRange pub.length ∧ Satisfies air trace pub := by
  have hpos : 0 < trace.length := List.length_pos_iff.2 hne
  unfold checkConstraints
  rw [forM_some_iff]
  have key : ∀ i, i < trace.length → ((do
      let local_ ← (trace)[i]?
      let next ← (trace)[(i + 1) % trace.length]?
      air.asserts.forM (debugAssert ⟨local_, next, pub, if i = 0 then 1 else 0,
        if i = trace.length - 1 then 1 else 0, if i ≠ trace.length - 1 then 1 else 0⟩)) = some () ↔
      ∀ a ∈ air.asserts, a.InRange air.width pub.length ∧ a.Holds id (rowMeaning trace pub i)) := by
    intro i hi
    have hj : (i + 1) % trace.length < trace.length := Nat.mod_lt _ hpos
    rw [List.getElem?_eq_getElem hi, List.getElem?_eq_getElem hj]
    simp only [Option.bind_eq_bind, Option.bind_some]
    rw [forM_some_iff]
    refine forall_congr' fun a => imp_congr_right fun _ => ?_
    rw [debugAssert_iff (hrect _ (List.getElem_mem hi)) (hrect _ (List.getElem_mem hj)) rfl]
    have : (⟨(trace)[i], (trace)[(i + 1) % trace.length], pub, if i = 0 then 1 else 0,
        if i = trace.length - 1 then 1 else 0, if i ≠ trace.length - 1 then 1 else 0⟩ : Window K).meaning =
        rowMeaning trace pub i := by
      simp only [Window.meaning, rowMeaning]
      have e : i = trace.length - 1 ↔ i + 1 = trace.length := by omega
      simp only [e, ne_eq, ite_not]
      rw [List.getD_eq_getElem?_getD (l := trace), List.getElem?_eq_getElem hi, Option.getD_some,
        List.getD_eq_getElem?_getD (l := trace), List.getElem?_eq_getElem hj, Option.getD_some]
    rw [this]
  constructor
  · intro h
    have h' : ∀ i, i < trace.length → ∀ a ∈ air.asserts, a.InRange air.width pub.length ∧
        a.Holds id (rowMeaning trace pub i) := fun i hi => (key i hi).1 (h i (List.mem_range.2 hi))
    exact ⟨fun a ha => (h' 0 hpos a ha).1, fun i hi a ha => (h' i hi a ha).2⟩
  · rintro ⟨hr, hs⟩ i hi
    exact (key i (List.mem_range.1 hi)).2 fun a ha => ⟨hr a ha, hs i (List.mem_range.1 hi) a ha⟩

/-! ### C51 -/

/-- **C51** `verify` returns the shape error exactly when the opened values do not have the shape the AIR
requires, provided the assertions are in range and the quotient domain exists; `verify` never returns the
opening error. -/
theorem C51_shape_partial {u : Setup K F SI C DI PI S D P Ch W} (hu : u.Ok) {air : Air K} {pub : List K} {q : Nat}
    (hq : getLogQuotientDegree air pub.length = some q) (ch : Ch) {proof : ProofOf K F C P W PI}
    (hkq : proof.degreeBits + q ≤ u.twoAdicity) :
    (verify u air ch proof pub = .err .invalidProofShape ↔
      ¬ (proof.traceLocal.length = air.width ∧ proof.traceNext.length = air.width ∧
        proof.quotientChunks.length = 2 ^ q ∧ ∀ qc ∈ proof.quotientChunks, qc.length = u.deg.D)) ∧
    verify u air ch proof pub ≠ .err .invalidOpeningArgument := by
  by_cases hs : proof.traceLocal.length = air.width ∧ proof.traceNext.length = air.width ∧
        proof.quotientChunks.length = 2 ^ q ∧ ∀ qc ∈ proof.quotientChunks, qc.length = u.deg.D
  · rw [verify_eq hu hq rfl hkq hs]
    rw [iff_false_right (not_not.2 hs)]
    cases challenges u ch proof.traceCommit proof.quotientCommit with
    | none => exact ⟨by simp, by simp⟩
    | some x =>
      obtain ⟨alpha, zeta, chz⟩ := x
      simp only
      cases hv : Pcs.verify u.genV u.g u.mi u.m u.chall u.cfg
          [(proof.traceCommit, [(⟨proof.degreeBits, 1⟩, [(zeta, proof.traceLocal),
            (zeta * algebraMap K F (u.genV proof.degreeBits), proof.traceNext)])]),
           (proof.quotientCommit, ((chunkDomains u.genV proof.degreeBits q u.g).zip
              proof.quotientChunks).map fun (d, v) => (d, [(zeta, v)]))] proof.openingProof chz with
      | err e => exact absurd hv (C74_violated_never_err _ _ _ _)
      | panic => simp
      | ok ch2 =>
        simp only
        cases oodCheck u air pub ⟨proof.degreeBits, 1⟩ (chunkDomains u.genV proof.degreeBits q u.g) proof
            alpha zeta with
        | none => simp
        | some b => cases b <;> simp
  · have e : verify u air ch proof pub = .err .invalidProofShape := by
      unfold verify
      have hn : naturalDomainForDegree (K := K) (2 ^ proof.degreeBits) = some ⟨proof.degreeBits, 1⟩ := by
        simp [naturalDomainForDegree, log2Strict_pow]
      have hsd : splitDomains u.genV u.twoAdicity (createDisjointDomain u.g (⟨proof.degreeBits, 1⟩ : Dom K)
          (2 ^ (proof.degreeBits + q))) (2 ^ q) = some (chunkDomains u.genV proof.degreeBits q u.g) := by
        rw [createDisjointDomain, Tcs.log2Ceil_pow, one_mul, splitDomains_eq hkq]
      simp only [hq, hn, hsd]
      rw [if_pos hs]
    rw [e]
    simp [hs]

/-- **C51** The remaining cases: with an assertion out of range, or a claimed trace length for which there is
no quotient domain, `verify` panics instead of returning an error. -/
theorem C51_violated_panics {u : Setup K F SI C DI PI S D P Ch W} {air : Air K} {pub : List K}
    (ch : Ch) {proof : ProofOf K F C P W PI}
    (h : ∀ q, getLogQuotientDegree air pub.length = some q → u.twoAdicity < proof.degreeBits + q) :
    verify u air ch proof pub = .panic := by
  unfold verify
  cases hq : getLogQuotientDegree air pub.length with
  | none => rfl
  | some q =>
    have hn : naturalDomainForDegree (K := K) (2 ^ proof.degreeBits) = some ⟨proof.degreeBits, 1⟩ := by
      simp [naturalDomainForDegree, log2Strict_pow]
    have hsd : splitDomains u.genV u.twoAdicity (createDisjointDomain u.g (⟨proof.degreeBits, 1⟩ : Dom K)
        (2 ^ (proof.degreeBits + q))) (2 ^ q) = none := by
      have := h q hq
      rw [createDisjointDomain, Tcs.log2Ceil_pow, one_mul, splitDomains, log2Strict_pow]
      simp only [Option.bind_eq_bind, Option.bind_some]
      rw [if_neg (by omega)]
    simp only [hn, hsd]

/-! ### C52 -/

/-- No public value is mentioned. -/
def AExpr.NoPublic : AExpr K → Prop
  | .pub _ => False
  | .loc _ | .nxt _ | .const _ | .isFirstRow | .isLastRow | .isTransition => True
  | .add x y | .sub x y | .mul x y => x.NoPublic ∧ y.NoPublic
  | .neg x => x.NoPublic

theorem eval_noPublic {R : Type} [Ring R] (lift : K → R) (w : Window R) (pub : List R) :
    ∀ e : AExpr K, e.NoPublic → e.eval lift w = e.eval lift { w with pub := pub }
  | .loc _, _ | .nxt _, _ | .const _, _ | .isFirstRow, _ | .isLastRow, _ | .isTransition, _ => rfl
  | .add x y, h | .sub x y, h | .mul x y, h => by
    simp only [AExpr.eval]
    rw [eval_noPublic lift w pub x h.1, eval_noPublic lift w pub y h.2]
  | .neg x, h => by
    simp only [AExpr.eval]
    rw [eval_noPublic lift w pub x h]

theorem openPhase_commits {u : Setup K F SI C DI PI S D P Ch W} {d : Dom K} {k q : Nat} {c1 c2 : C} {d1 d2 : DI}
    {s : S} {ch ch' : Ch} {w : W} {zeta : F} {proof : ProofOf K F C P W PI}
    (h : openPhase u d k q c1 c2 d1 d2 s ch w zeta = some (proof, ch')) :
    proof.traceCommit = c1 ∧ proof.quotientCommit = c2 := by
  unfold openPhase at h
  obtain ⟨⟨opened, pf, s1, ch1⟩, -, h⟩ := Option.bind_eq_some_iff.1 h
  obtain ⟨_, -, h⟩ := Option.bind_eq_some_iff.1 h
  obtain ⟨_, -, h⟩ := Option.bind_eq_some_iff.1 h
  obtain ⟨_, -, h⟩ := Option.bind_eq_some_iff.1 h
  obtain ⟨_, -, h⟩ := Option.bind_eq_some_iff.1 h
  obtain ⟨_, -, h⟩ := Option.bind_eq_some_iff.1 h
  obtain ⟨_, -, h⟩ := Option.bind_eq_some_iff.1 h
  obtain ⟨_, -, h⟩ := Option.bind_eq_some_iff.1 h
  obtain ⟨_, -, h⟩ := Option.bind_eq_some_iff.1 h
  simp only [Option.some.injEq, Prod.mk.injEq] at h
  obtain ⟨rfl, -⟩ := h
  exact ⟨rfl, rfl⟩

/-- The first steps of a run of the prover. -/
theorem prove_start {u : Setup K F SI C DI PI S D P Ch W} {air : Air K} {ch ch' : Ch} {trace : Mat K}
    {pub : List K} {si : SI} {s : S} {w : W} {proof : ProofOf K F C P W PI}
    (h : prove u air ch trace pub si s w = some (proof, ch')) :
    ((naturalDomainForDegree trace.length).bind fun d =>
      (Pcs.commit u.ext u.mi u.g u.cfg si [(d, trace)]).map Prod.fst) = some proof.traceCommit ∧
    ∃ alpha zeta chz, challenges u ch proof.traceCommit proof.quotientCommit = some (alpha, zeta, chz) := by
  unfold prove at h
  obtain ⟨_, -, h⟩ := Option.bind_eq_some_iff.1 h
  obtain ⟨k, -, h⟩ := Option.bind_eq_some_iff.1 h
  obtain ⟨q, -, h⟩ := Option.bind_eq_some_iff.1 h
  obtain ⟨d, hd, h⟩ := Option.bind_eq_some_iff.1 h
  obtain ⟨⟨c1, d1, si1⟩, hc, h⟩ := Option.bind_eq_some_iff.1 h
  obtain ⟨cha, h1, h⟩ := Option.bind_eq_some_iff.1 h
  obtain ⟨⟨alpha, chb⟩, h2, h⟩ := Option.bind_eq_some_iff.1 h
  obtain ⟨⟨c2, d2, si2⟩, -, h⟩ := Option.bind_eq_some_iff.1 h
  obtain ⟨chc, h3, h⟩ := Option.bind_eq_some_iff.1 h
  obtain ⟨⟨zeta, chd⟩, h4, h⟩ := Option.bind_eq_some_iff.1 h
  obtain ⟨rfl, rfl⟩ := openPhase_commits h
  refine ⟨by rw [hd, Option.bind_some, hc]; rfl, alpha, zeta, chd, ?_⟩
  simp only [challenges, h1, h2, h3, h4, Option.bind_eq_bind, Option.bind_some]

/-- **C52 is violated** by the prover: two runs on the same trace with different public values publish the
same trace commitment and draw the same first challenge. -/
theorem C52_violated_prover {u : Setup K F SI C DI PI S D P Ch W} {air : Air K} {ch : Ch} {trace : Mat K}
    {pub pub' : List K} {si : SI} {s s' : S} {w w' : W} {proof proof' : ProofOf K F C P W PI} {ch1 ch2 : Ch}
    (h1 : prove u air ch trace pub si s w = some (proof, ch1))
    (h2 : prove u air ch trace pub' si s' w' = some (proof', ch2)) :
    proof.traceCommit = proof'.traceCommit ∧ ∃ alpha zeta zeta' chz chz',
      challenges u ch proof.traceCommit proof.quotientCommit = some (alpha, zeta, chz) ∧
      challenges u ch proof'.traceCommit proof'.quotientCommit = some (alpha, zeta', chz') := by
  obtain ⟨e1, alpha, zeta, chz, h1⟩ := prove_start h1
  obtain ⟨e2, alpha', zeta', chz', h2⟩ := prove_start h2
  rw [e1, Option.some.injEq] at e2
  refine ⟨e2, alpha, zeta, zeta', chz, chz', h1, ?_⟩
  rw [h2]
  have hfirst : ∀ c2 c2' x y, challenges u ch proof.traceCommit c2 = some x →
      challenges u ch proof.traceCommit c2' = some y → x.1 = y.1 := by
    intro c2 c2' x y hx hy
    unfold challenges at hx hy
    obtain ⟨cha, g1, hx⟩ := Option.bind_eq_some_iff.1 hx
    obtain ⟨⟨a, chb⟩, g2, hx⟩ := Option.bind_eq_some_iff.1 hx
    obtain ⟨_, -, hx⟩ := Option.bind_eq_some_iff.1 hx
    obtain ⟨⟨_, _⟩, -, hx⟩ := Option.bind_eq_some_iff.1 hx
    simp only [g1, g2, Option.bind_eq_bind, Option.bind_some] at hy
    obtain ⟨_, -, hy⟩ := Option.bind_eq_some_iff.1 hy
    obtain ⟨⟨_, _⟩, -, hy⟩ := Option.bind_eq_some_iff.1 hy
    simp only [Option.some.injEq] at hx hy
    rw [← hx, ← hy]
  rw [← e2] at h2
  have := hfirst _ _ _ _ h1 h2
  simp only at this
  rw [this]

theorem foldlM_congr' {α β : Type} {f g : β → α → Option β} : ∀ (l : List α) (b : β),
    (∀ a ∈ l, ∀ b, f b a = g b a) → l.foldlM f b = l.foldlM g b
  | [], _, _ => rfl
  | a :: l, b, h => by
    rw [List.foldlM_cons, List.foldlM_cons, h a List.mem_cons_self b]
    cases g b a with
    | none => rfl
    | some y => exact foldlM_congr' l y fun x hx => h x (List.mem_cons_of_mem _ hx)

/-- **C52 is violated** by the verifier: for an AIR that does not mention public values the verdict on a
proof is the same for all public values (of one number).  With the public values in the transcript, the
challenges and with them the verdict would change. -/
theorem C52_violated_verifier {u : Setup K F SI C DI PI S D P Ch W} {air : Air K}
    (hn : ∀ a ∈ air.asserts, a.expr.NoPublic) (ch : Ch) (proof : ProofOf K F C P W PI) {pub pub' : List K}
    (hl : pub.length = pub'.length) : verify u air ch proof pub = verify u air ch proof pub' := by
  have hfold : ∀ (alpha a b c : F), verifierFold air alpha ⟨proof.traceLocal, proof.traceNext,
      pub.map (algebraMap K F), a, b, c⟩ = verifierFold air alpha ⟨proof.traceLocal, proof.traceNext,
      pub'.map (algebraMap K F), a, b, c⟩ := by
    intro alpha a b c
    unfold verifierFold
    refine foldlM_congr' _ _ fun x hx acc => ?_
    rw [eval_noPublic (algebraMap K F) _ (pub'.map (algebraMap K F)) x.expr (hn x hx)]
  have hood : ∀ d ds alpha zeta, oodCheck u air pub d ds proof alpha zeta =
      oodCheck u air pub' d ds proof alpha zeta := by
    intro d ds alpha zeta
    unfold oodCheck
    simp only [hfold]
  unfold verify
  simp only [hl, hood]

/-- **C52 is violated** by the verifier for every AIR: if a proof is accepted, then with other public values
(of the same number) the transcript and the opening argument are still accepted; only the final comparison
can fail. -/
theorem C52_violated_only_final {u : Setup K F SI C DI PI S D P Ch W} (hu : u.Ok) {air : Air K} {ch ch' : Ch}
    {proof : ProofOf K F C P W PI} {pub pub' : List K} (hl : pub.length = pub'.length)
    (h : verify u air ch proof pub = .ok ch') :
    verify u air ch proof pub' = .ok ch' ∨ verify u air ch proof pub' = .err .oodEvaluationMismatch := by
  obtain ⟨q, hq, hkq⟩ : ∃ q, getLogQuotientDegree air pub.length = some q ∧
      proof.degreeBits + q ≤ u.twoAdicity := by
    by_contra hc
    rw [C51_violated_panics ch (fun q hq => by
      by_contra h'
      exact hc ⟨q, hq, by omega⟩)] at h
    cases h
  have hs : proof.traceLocal.length = air.width ∧ proof.traceNext.length = air.width ∧
      proof.quotientChunks.length = 2 ^ q ∧ ∀ qc ∈ proof.quotientChunks, qc.length = u.deg.D := by
    by_contra hc
    rw [(C51_shape_partial hu hq ch hkq).1.2 hc] at h
    cases h
  have hr := ((C45_least_power_of_two air _ q).1 hq).1
  rw [verify_eq hu hq rfl hkq hs] at h
  rw [verify_eq hu (hl ▸ hq) rfl hkq hs]
  cases hch : challenges u ch proof.traceCommit proof.quotientCommit with
  | none => rw [hch] at h; cases h
  | some x =>
    obtain ⟨alpha, zeta, chz⟩ := x
    rw [hch] at h
    simp only at h ⊢
    cases hv : Pcs.verify u.genV u.g u.mi u.m u.chall u.cfg
        [(proof.traceCommit, [(⟨proof.degreeBits, 1⟩, [(zeta, proof.traceLocal),
          (zeta * algebraMap K F (u.genV proof.degreeBits), proof.traceNext)])]),
         (proof.quotientCommit, ((chunkDomains u.genV proof.degreeBits q u.g).zip
            proof.quotientChunks).map fun (d, v) => (d, [(zeta, v)]))] proof.openingProof chz with
    | err e => rw [hv] at h; cases h
    | panic => rw [hv] at h; cases h
    | ok ch2 =>
      rw [hv] at h
      simp only at h ⊢
      by_cases hz : zeta ^ 2 ^ proof.degreeBits = 1
      · rw [oodCheck_panic hz] at h; cases h
      · rw [oodCheck_eq hu hr hkq hs.1 hs.2.1 hz] at h
        rw [oodCheck_eq hu (hl ▸ hr) hkq hs.1 hs.2.1 hz]
        cases hrc : recombine u.deg ((List.range (2 ^ q)).map fun i =>
            (weightPoly hu.twoAdic F proof.degreeBits q u.g i).eval zeta) proof.quotientChunks with
        | none => rw [hrc] at h; cases h
        | some R =>
          rw [hrc] at h
          simp only [Option.map_some] at h ⊢
          have e : ch2 = ch' := by
            split at h
            · cases h
            · cases h; rfl
            · cases h
          subst e
          split
          · rename_i hh; cases hh
          · exact .inl rfl
          · exact .inr rfl

/-! ### C53 -/

/-- **C53** For every subgroup size `2^n`, rate `2^r` and shift `s` whose coset misses the subgroup, the
helper can be built, and at index `i` of the coset, that is at `x = s·w^i`, it gives `x^(2^n) - 1`, its inverse
(also packed), and the basis `(x^(2^n) - 1)/(x - h^i)`. -/
theorem C53_zerofier {genV : Nat → K} {N : Nat} (hg : TwoAdic genV N) {n r : Nat} (hnr : n + r ≤ N) {s : K}
    (hs : s ^ 2 ^ (n + r) ≠ 1) :
    ∃ z, ZerofierOnCoset.new genV n r s = some z ∧
      (∀ i, (s * genV (n + r) ^ i) ^ 2 ^ n - 1 ≠ 0) ∧
      (∀ i, z.eval i = some ((s * genV (n + r) ^ i) ^ 2 ^ n - 1)) ∧
      (∀ i, z.evalInverse i = some ((s * genV (n + r) ^ i) ^ 2 ^ n - 1)⁻¹) ∧
      (∀ width i, z.evalInversePacked width i =
        some ((List.range width).map fun j => ((s * genV (n + r) ^ (i + j)) ^ 2 ^ n - 1)⁻¹)) ∧
      ∀ i, z.lagrangeBasisUnnormalized genV i = some ((List.range (2 ^ (n + r))).map fun j =>
        ((s * genV (n + r) ^ j) ^ 2 ^ n - 1) / (s * genV (n + r) ^ j - genV n ^ i)) := by
  have hout := coset_out hg hnr hs
  have hne : ∀ i, (s * genV (n + r) ^ i) ^ 2 ^ n - 1 ≠ 0 := fun i => sub_ne_zero.2 (hout i)
  have hz : ∀ i, s ^ 2 ^ n * genV r ^ i - 1 ≠ 0 := by
    intro i
    rw [← coset_pow hg hnr]
    exact hne i
  have hnew : ZerofierOnCoset.new genV n r s = some ⟨n, r, s,
      (List.range (2 ^ r)).map fun i => (s * genV (n + r) ^ i) ^ 2 ^ n - 1,
      (List.range (2 ^ r)).map fun i => ((s * genV (n + r) ^ i) ^ 2 ^ n - 1)⁻¹⟩ := by
    simp only [ZerofierOnCoset.new, shiftedPowers, one_mul, List.map_map]
    rw [mapM_some (f := inverse?) (h := fun x => x⁻¹) (List.map _ _) (by
      intro a ha
      obtain ⟨i, -, rfl⟩ := List.mem_map.1 ha
      exact inverse?_some (hz i))]
    simp only [Option.bind_eq_bind, Option.bind_some, List.map_map, Function.comp_def, coset_pow hg hnr]
  have hmod : ∀ i, (s * genV (n + r) ^ (i % 2 ^ r)) ^ 2 ^ n = (s * genV (n + r) ^ i) ^ 2 ^ n := by
    intro i
    rw [coset_pow hg hnr, coset_pow hg hnr, gen_pow_mod hg (by omega)]
  have hm : ∀ i, i % 2 ^ r < 2 ^ r := fun i => Nat.mod_lt _ (Nat.two_pow_pos r)
  have hinv : ∀ i, (⟨n, r, s,
      (List.range (2 ^ r)).map fun i => (s * genV (n + r) ^ i) ^ 2 ^ n - 1,
      (List.range (2 ^ r)).map fun i => ((s * genV (n + r) ^ i) ^ 2 ^ n - 1)⁻¹⟩ :
        ZerofierOnCoset K).evalInverse i = some ((s * genV (n + r) ^ i) ^ 2 ^ n - 1)⁻¹ := by
    intro i
    simp only [ZerofierOnCoset.evalInverse, Nat.and_two_pow_sub_one_eq_mod, List.getElem?_map,
      List.getElem?_range (hm i), Option.map_some, hmod]
  refine ⟨_, hnew, hne, ?_, hinv, ?_, ?_⟩
  · intro i
    simp only [ZerofierOnCoset.eval, Nat.and_two_pow_sub_one_eq_mod, List.getElem?_map,
      List.getElem?_range (hm i), Option.map_some, hmod]
  · intro width i
    exact mapM_some _ fun j _ => hinv (i + j)
  · intro i
    have hd : ∀ j, s * genV (n + r) ^ j - genV n ^ i ≠ 0 := by
      intro j
      refine sub_ne_zero_of_out (F := K) (a := genV n ^ i) ?_ (hout j)
      rw [← pow_mul, mul_comm i, pow_mul, gen_pow_one hg (by omega), one_pow]
    simp only [ZerofierOnCoset.lagrangeBasisUnnormalized, shiftedPowers, List.map_map]
    rw [mapM_some (f := inverse?) (h := fun x => x⁻¹) (List.map _ _) (by
      intro a ha
      obtain ⟨j, -, rfl⟩ := List.mem_map.1 ha
      exact inverse?_some (hd j))]
    simp only [Option.bind_eq_bind, Option.bind_some, List.map_map, List.length_map, List.length_range]
    apply mapM_some
    intro j hj
    have hj := List.mem_range.1 hj
    simp only [List.getElem?_map, List.getElem?_range (hm j), List.getElem?_range hj, Option.map_some,
      Option.bind_some, Function.comp, hmod, div_eq_mul_inv]

/-- **C53** If the coset meets the subgroup at one of its first `2^r` points the helper cannot be built. -/
theorem C53_panics {genV : Nat → K} {N : Nat} (hg : TwoAdic genV N) {n r : Nat} (hnr : n + r ≤ N) {s : K}
    {i : Nat} (hs : (s * genV (n + r) ^ i) ^ 2 ^ n = 1) : ZerofierOnCoset.new genV n r s = none := by
  simp only [ZerofierOnCoset.new, shiftedPowers, one_mul, List.map_map]
  rw [mapM_none (f := inverse?)]
  · rfl
  · refine ⟨0, List.mem_map.2 ⟨i % 2 ^ r, List.mem_range.2 (Nat.mod_lt _ (Nat.two_pow_pos r)), ?_⟩, if_pos rfl⟩
    simp only [Function.comp]
    rw [gen_pow_mod hg (by omega), ← coset_pow hg hnr, hs, sub_self]

/-! ### C48: the prover terminates with a proof -/

/-- **C48** An honest run step by step: if the trace satisfies the AIR and the challenger works, two commitments are made
and the challenges drawn; unless the challenge point lies on the evaluation domain, the batching challenge and the
folding challenges of `k` further commitments follow, and every witness that passes the proof-of-work check in the state
reached leads to a proof with these commitments. -/
theorem C48_honest_run {u : Setup K F SI C DI PI S D P Ch W} (hu : u.Ok) (hN : u.twoAdicity < 32)
    {Good : Ch → Prop} (hK : u.chall.Total Good u.twoAdicity) {air : Air K} (hwidth : 0 < air.width)
    {pub : List K} {q : Nat} (hq : getLogQuotientDegree air pub.length = some q) (hqb : q ≤ u.cfg.logBlowup)
    {trace : Mat K} {k : Nat} (hkb : k + u.cfg.logBlowup ≤ u.twoAdicity)
    (hl : trace.length = 2 ^ k) (hrect : Rect trace air.width)
    (hsat : u.cfg.debug = true → Satisfies air trace pub) {ch : Ch} (hch : Good ch) (si : SI) (s : S) :
    ∃ c1 c2 alpha zeta chz, (∃ si mats d si', u.mi.commit si mats = some (c1, d, si')) ∧
      (∃ si mats d si', u.mi.commit si mats = some (c2, d, si')) ∧ challenges u ch c1 c2 = some (alpha, zeta, chz) ∧
      ((∀ w proof ch', prove u air ch trace pub si s w = some (proof, ch') →
          proof.traceCommit = c1 ∧ proof.quotientCommit = c2) ∧
       (zeta ^ 2 ^ (k + u.cfg.logBlowup) ≠ algebraMap K F u.g ^ 2 ^ (k + u.cfg.logBlowup) →
        ∃ batch ch1 commits betas chPow, u.chall.sample chz = some (batch, ch1) ∧
          sampleBetas u.chall commits ch1 = some (betas, chPow) ∧ commits.length = k ∧
          (∀ c ∈ commits, ∃ s rows d s', u.m.commitMatrix s rows = some (c, d, s')) ∧
          (Good chPow ∧ ∀ w result, prove u air ch trace pub si s w = some result →
            ∃ ch', u.chall.checkWitness chPow u.cfg.powBits w = some (true, ch')) ∧ ∀ w ch', u.chall.checkWitness chPow u.cfg.powBits w = some (true, ch') →
            ∃ proof ch'', prove u air ch trace pub si s w = some (proof, ch'') ∧
              proof.traceCommit = c1 ∧ proof.quotientCommit = c2 ∧ proof.openingProof.commitPhaseCommits = commits ∧
              proof.openingProof.powWitness = w ∧ proof.openingProof.queryProofs.length = u.cfg.numQueries ∧
              proof.degreeBits = k)) := by
  obtain ⟨ps, hpw, rfl, hps⟩ := trace_polys hu (k := k) (by omega) hl hrect
  have hr := ((C45_least_power_of_two air _ q).1 hq).1
  obtain ⟨c1, d1, second, ⟨e1, e3, hcom⟩, ho1, hs, he⟩ := prove_eq hu hwidth hr hq hqb hkb hpw hps si
  obtain ⟨ch1, h1, g1⟩ := hK.observe ch c1 hch
  obtain ⟨alpha, ch2, h2, g2⟩ := hK.sample ch1 g1
  obtain ⟨ch3, h3, g3⟩ := hK.observe ch2 (second alpha).2.1 g2
  obtain ⟨zeta, ch4, h4, g4⟩ := hK.sample ch3 g3
  obtain ⟨f1, f3, hcom2⟩ := (hs alpha).committed
  refine ⟨c1, (second alpha).2.1, alpha, zeta, ch4, ⟨e1, _, d1, e3, hcom⟩, ⟨f1, _, _, f3, hcom2⟩, ?_, ?_⟩
  · simp only [challenges, h1, h2, h3, h4, Option.bind_eq_bind, Option.bind_some]
  have hsa := hs alpha
  have hdebug : debugCheck u.cfg.debug air (evalRows u.genV ps 1 k) pub = some () := by
    unfold debugCheck
    split
    · rename_i hd
      exact (C50_check_constraints air hrect (by
        intro h
        rw [h] at hl
        have := Nat.two_pow_pos k
        simp at hl
        omega) pub).2 ⟨hr, hsat hd⟩
    · rfl
  have heq : ∀ w, prove u air ch (evalRows u.genV ps 1 k) pub si s w =
      (Pcs.open u.ext u.genV u.g u.mi u.m u.chall u.cfg
        ((proverRounds u k q ps (second alpha).1 zeta c1 (second alpha).2.1 d1 (second alpha).2.2).map Round.prover) s ch4
        w).map fun x => (⟨c1, (second alpha).2.1, ps.map fun p => aeval zeta p,
          ps.map fun p => aeval (zeta * algebraMap K F (u.genV k)) p,
          (second alpha).1.map fun c => c.map fun p => aeval zeta p, x.2.1, k⟩, x.2.2.2) := by
    intro w
    rw [he]
    simp only [hdebug, h1, h2, h3, h4, Option.bind_eq_bind, Option.bind_some]
    exact finish_spec hu hkb hps hsa.count hsa.degree ho1 hsa.opens
  refine ⟨fun w proof ch' hw => ?_, fun hz => ?_⟩
  · rw [heq, Option.map_eq_some_iff] at hw
    obtain ⟨_, -, hw⟩ := hw
    cases hw
    exact ⟨rfl, rfl⟩
  have hrounds := honest_rounds hu hkb hps hsa.count hsa.degree zeta ho1 hsa.opens
  have hout : ∀ z : F, z ^ 2 ^ (k + u.cfg.logBlowup) = zeta ^ 2 ^ (k + u.cfg.logBlowup) → ∀ i,
      algebraMap K F (u.g * u.genV (k + u.cfg.logBlowup) ^ i) ≠ z := by
    rintro z hzz i rfl
    apply hz
    rw [← hzz, ← map_pow, mul_pow, ← pow_mul, mul_comm i, pow_mul, gen_pow_one hu.twoAdic hkb, one_pow,
      mul_one, map_pow]
  have hnext : (zeta * algebraMap K F (u.genV k)) ^ 2 ^ (k + u.cfg.logBlowup) =
      zeta ^ 2 ^ (k + u.cfg.logBlowup) := by
    rw [mul_pow, ← map_pow, pow_add 2, pow_mul (u.genV k), gen_pow_one hu.twoAdic (by omega), one_pow, map_one,
      mul_one]
  obtain ⟨batch, ch6, commits, betas, chPow, hb1, hb2, ⟨r, hrm, e, hem, hb3⟩, hb4, ⟨hgp, hgo⟩, hpow⟩ := C72_honest_run hu.extWidth hu.extCorrect hu.twoAdic hN hu.g0 hu.m hu.blowup
    hu.bits hK hrounds ⟨_, List.mem_cons_self, _, List.mem_cons_self, by simp⟩ (by
      intro r hr e he z hze i
      simp only [proverRounds, List.mem_cons, List.not_mem_nil, or_false] at hr
      rcases hr with rfl | rfl
      · obtain rfl := List.mem_singleton.1 he
        simp only [List.mem_cons, List.not_mem_nil, or_false] at hze
        rcases hze with rfl | rfl
        · exact hout _ rfl i
        · exact hout _ hnext i
      · obtain ⟨c, -, -, e2, e3⟩ := mem_entries hu he
        rw [e3] at hze
        obtain rfl := List.mem_singleton.1 hze
        rw [entryHeight, e2]
        exact hout _ rfl i) s ch4 g4
  have hek : e.2.1.logN = k := by
    simp only [proverRounds, List.mem_cons, List.not_mem_nil, or_false] at hrm
    rcases hrm with rfl | rfl
    · obtain rfl := List.mem_singleton.1 hem
      rfl
    · obtain ⟨c, -, -, h2, -⟩ := mem_entries hu hem
      exact h2
  rw [entryHeight, hek] at hb3
  refine ⟨batch, ch6, commits, betas, chPow, hb1, hb2, by omega, hb4, ⟨hgp, ?_⟩, ?_⟩
  · intro w result hw
    rw [heq, Option.map_eq_some_iff] at hw
    obtain ⟨res, hw, -⟩ := hw
    exact hgo w res hw
  intro w ch' hw
  obtain ⟨values, pf, s', ch5, hopen, hpf⟩ := hpow w ch' hw
  refine ⟨_, ch5, by rw [heq, hopen]; rfl, rfl, rfl, hpf.1, hpf.2.1, hpf.2.2, rfl⟩

/-- **C48** An honest run does not panic: if the trace satisfies the AIR and the challenger works, the run
draws challenges, and unless the challenge point lies on the evaluation domain, every witness that passes the
proof-of-work check in the state reached leads to a proof. -/
theorem C48_no_panic {u : Setup K F SI C DI PI S D P Ch W} (hu : u.Ok) (hN : u.twoAdicity < 32)
    {Good : Ch → Prop} (hK : u.chall.Total Good u.twoAdicity) {air : Air K} (hwidth : 0 < air.width)
    {pub : List K} {q : Nat} (hq : getLogQuotientDegree air pub.length = some q) (hqb : q ≤ u.cfg.logBlowup)
    {trace : Mat K} {k : Nat} (hkb : k + u.cfg.logBlowup ≤ u.twoAdicity)
    (hl : trace.length = 2 ^ k) (hrect : Rect trace air.width)
    (hsat : u.cfg.debug = true → Satisfies air trace pub) {ch : Ch} (hch : Good ch) (si : SI) (s : S) :
    ∃ c1 c2 alpha zeta chz, challenges u ch c1 c2 = some (alpha, zeta, chz) ∧
      (zeta ^ 2 ^ (k + u.cfg.logBlowup) ≠ algebraMap K F u.g ^ 2 ^ (k + u.cfg.logBlowup) →
        ∃ chPow, Good chPow ∧ ∀ w ch', u.chall.checkWitness chPow u.cfg.powBits w = some (true, ch') →
          ∃ proof ch'', prove u air ch trace pub si s w = some (proof, ch'') ∧
            proof.traceCommit = c1 ∧ proof.quotientCommit = c2) := by
  obtain ⟨c1, c2, alpha, zeta, chz, -, -, h1, h2⟩ := C48_honest_run hu hN hK hwidth hq hqb hkb hl hrect hsat hch si s
  refine ⟨c1, c2, alpha, zeta, chz, h1, fun hz => ?_⟩
  obtain ⟨_, _, _, _, chPow, _, _, _, _, ⟨h3, -⟩, h4⟩ := h2.2 hz
  refine ⟨chPow, h3, fun w ch' hw => ?_⟩
  obtain ⟨proof, ch'', h5, h6, h7, -⟩ := h4 w ch' hw
  exact ⟨proof, ch'', h5, h6, h7⟩

/-- **C48** If the challenge point is a point of the trace domain, no proof is accepted (the selectors divide
by zero). -/
theorem C48_in_domain_never_accepted {u : Setup K F SI C DI PI S D P Ch W} (hu : u.Ok) {air : Air K} {pub : List K}
    {q : Nat} (hq : getLogQuotientDegree air pub.length = some q) {ch : Ch} {proof : ProofOf K F C P W PI}
    (hkq : proof.degreeBits + q ≤ u.twoAdicity) {alpha zeta : F} {chz ch' : Ch}
    (hch : challenges u ch proof.traceCommit proof.quotientCommit = some (alpha, zeta, chz))
    (hz : zeta ^ 2 ^ proof.degreeBits = 1) : verify u air ch proof pub ≠ .ok ch' := by
  by_cases hs : proof.traceLocal.length = air.width ∧ proof.traceNext.length = air.width ∧
      proof.quotientChunks.length = 2 ^ q ∧ ∀ qc ∈ proof.quotientChunks, qc.length = u.deg.D
  · rw [verify_eq hu hq rfl hkq hs, hch]
    simp only [oodCheck_panic hz]
    split
    · simp
    · simp
    · simp
  · rw [(C51_shape_partial hu hq ch hkq).1.2 hs]
    simp

/-! ### C44, C48: AIRs the prover cannot serve -/

/-- `when_transition` nested three times around `next = local + 1`. -/
def nestedAir (K : Type) [One K] : Air K :=
  ⟨1, [.zero (.mul .isTransition (.mul .isTransition (.mul .isTransition
    (.sub (.sub (.nxt 0) (.loc 0)) (.const 1)))))]⟩

/-- **C44 is violated** by nested transition filters: the symbolic degree does not count the transition flag,
so for this AIR, which the trace `0, 1` satisfies, one quotient chunk is provided although the quotient has
degree 2.  **C48 is violated** as a consequence: the honest proof for the satisfying trace is rejected, at
every challenge point outside the trace and the quotient domain. -/
theorem C48_violated_nested_transition {u : Setup K F SI C DI PI S D P Ch W} (hu : u.Ok)
    (hkb : 1 + u.cfg.logBlowup ≤ u.twoAdicity) {ch ch' : Ch} {si : SI} {s : S} {w : W}
    {proof : ProofOf K F C P W PI} (hp : prove u (nestedAir K) ch [[0], [1]] [] si s w = some (proof, ch'))
    (hz : ∀ alpha zeta chz, challenges u ch proof.traceCommit proof.quotientCommit = some (alpha, zeta, chz) →
      zeta ^ 2 ≠ 1 ∧ zeta ^ 2 ≠ algebraMap K F u.g ^ 2) :
    (nestedAir K).Filtered ∧ Satisfies (nestedAir K) [[0], [1]] [] ∧
      verify u (nestedAir K) ch proof [] = .err .oodEvaluationMismatch := by
  have h2 : (2 : K) ≠ 0 := hu.twoAdic.two_ne
  have hgen : u.genV 1 = -1 := hu.twoAdic.one
  have hq : getLogQuotientDegree (nestedAir K) 0 = some 0 := by
    rw [C45_least_power_of_two]
    refine ⟨by simp [nestedAir, Air.InRange, Assertion.InRange, AExpr.InRange], ?_, fun _ _ => Nat.zero_le _⟩
    simp [nestedAir, Air.degree, Assertion.degree, AExpr.degree]
  have hr := ((C45_least_power_of_two (nestedAir K) _ 0).1 hq).1
  refine ⟨?_, ?_, ?_⟩
  · intro a ha
    obtain rfl := List.mem_singleton.1 ha
    exact .trans _ (.trans _ (.trans _ (.plain _ ⟨⟨trivial, trivial⟩, trivial⟩)))
  · intro i hi a ha
    obtain rfl := List.mem_singleton.1 ha
    have : i = 0 ∨ i = 1 := by simp at hi; omega
    rcases this with rfl | rfl <;>
      simp [Assertion.Holds, Assertion.sides, AExpr.value, rowMeaning]
  · obtain ⟨p, hpdef⟩ : ∃ p : K[X], p = Polynomial.C (2⁻¹ : K) * (1 - X) := ⟨_, rfl⟩
    have hev : ∀ x, p.eval x = 2⁻¹ * (1 - x) := by intro x; simp [hpdef]
    have hrows : ([[0], [1]] : Mat K) = evalRows u.genV [p] 1 1 := by
      have e2 : (2⁻¹ : K) * (1 - -1) = 1 := by
        rw [sub_neg_eq_add, one_add_one_eq_two, inv_mul_cancel₀ h2]
      simp only [evalRows, List.range_succ, List.range_zero, pow_one, List.map_cons, List.map_nil, List.nil_append,
        List.cons_append, hev, hgen, pow_zero, mul_one, one_mul, sub_self, mul_zero, e2]
    have hps : ∀ p' ∈ [p], p'.natDegree < 2 ^ 1 := by
      intro p' hp'
      obtain rfl := List.mem_singleton.1 hp'
      rw [hpdef]
      have : (1 - X : K[X]).natDegree ≤ 1 := (natDegree_sub_le _ _).trans (by simp)
      have := (natDegree_C_mul_le (2⁻¹ : K) (1 - X)).trans this
      omega
    rw [hrows] at hp
    obtain ⟨alpha, zeta, chz, cps, h⟩ := produced hu (air := nestedAir K) (pub := []) (by simp [nestedAir]) hr hq
      (Nat.zero_le _) hkb rfl hps hp
    obtain ⟨hz1, hz2⟩ := hz _ _ _ h.challenges
    have hkq : 1 + 0 ≤ u.twoAdicity := by omega
    have e2F : algebraMap K F 2 = 2 := map_ofNat (algebraMap K F) 2
    have h2F : (2 : F) ≠ 0 := by
      rw [← e2F]
      exact (map_ne_zero (algebraMap K F)).2 h2
    have hfold : ∀ z : F, (foldedPoly u.genV 1 (nestedAir K) [p] [] alpha).eval z = (z + 1) ^ 3 * (z - 1) := by
      intro z
      have ea : ∀ z : F, aeval z p = 2⁻¹ * (1 - z) := by intro z; simp [hpdef, e2F]
      rw [foldedPoly_eval]
      simp only [nestedAir, List.map_cons, List.map_nil, residue_eq, Assertion.expr, AExpr.value, Meaning.map,
        polyMeaning, List.getD_cons_zero, hgen, aeval_comp, map_mul, aeval_C, aeval_X, map_sub, ea, map_neg,
        map_one, inv_neg, inv_one]
      rw [← List.nil_append [_], combine_append, combine_nil]
      field_simp
      ring
    rw [verify_eq hu hq h.degreeBits hkq]
    · simp only [h.challenges, h.opening _ _ _ (show proof.quotientChunks.length = 2 ^ 0 by
        rw [h.quotientChunks, List.length_map, h.chunkCount])]
      rw [oodCheck_polys hu hr hkq rfl h.traceLocal h.traceNext h.quotientChunks h.chunkCount h.chunkDegree
        (Q := Polynomial.C 2 * X + Polynomial.C (1 + algebraMap K F u.g ^ 2)) _ _ hz1]
      · have : ¬ ((foldedPoly u.genV 1 (nestedAir K) [p] [] alpha).eval zeta * (zeta ^ 2 ^ 1 - 1)⁻¹ =
            (Polynomial.C 2 * X + Polynomial.C (1 + algebraMap K F u.g ^ 2) : F[X]).eval zeta) := by
          intro e
          apply hz2
          have hne : zeta ^ 2 - 1 ≠ 0 := sub_ne_zero.2 hz1
          rw [hfold, pow_one, mul_inv_eq_iff_eq_mul₀ hne] at e
          simp only [eval_add, eval_mul, eval_C, eval_X] at e
          have : (zeta ^ 2 - 1) * (zeta ^ 2 - algebraMap K F u.g ^ 2) = 0 := by linear_combination e
          exact sub_eq_zero.1 ((mul_eq_zero.1 this).resolve_left hne)
        rw [decide_eq_false this]
      · refine lt_of_le_of_lt (natDegree_add_le _ _) (max_lt ?_ (by rw [natDegree_C]; exact Nat.two_pow_pos _))
        exact lt_of_le_of_lt (natDegree_C_mul_le _ _) (by simp)
      · intro i c hc l
        rw [h.chunkValues i c hc l, hfold]
        obtain ⟨x, hx⟩ : ∃ x, x = u.g * u.genV (1 + 0) ^ i * u.genV 1 ^ l := ⟨_, rfl⟩
        have hx2 : x ^ 2 = u.g ^ 2 := by
          rw [hx, add_zero, hgen, mul_assoc, ← pow_add, mul_pow, ← pow_mul, mul_comm (i + l), pow_mul]
          simp
        rw [← hx]
        have hg2 : u.g ^ 2 ≠ 1 := by simpa using hu.gOut 1 (by omega)
        have hne : algebraMap K F x ^ 2 - 1 ≠ 0 := by
          rw [sub_ne_zero, ← map_pow, hx2, Ne, map_eq_one_iff _ (algebraMap K F).injective]
          exact hg2
        rw [pow_one, eq_mul_inv_iff_mul_eq₀ hne]
        simp only [eval_add, eval_mul, eval_C, eval_X]
        have e : algebraMap K F u.g ^ 2 = algebraMap K F x ^ 2 := by rw [← map_pow, ← hx2, map_pow]
        rw [e]
        ring
    · refine ⟨by rw [h.traceLocal, List.length_map]; rfl, by rw [h.traceNext, List.length_map]; rfl,
        by rw [h.quotientChunks, List.length_map, h.chunkCount], ?_⟩
      intro qc hqc
      rw [h.quotientChunks] at hqc
      obtain ⟨c, hc, rfl⟩ := List.mem_map.1 hqc
      rw [List.length_map, h.chunkWidth c hc]

/-- An AIR asserting that the first-row flag is 0 or 1. -/
def flagAir (K : Type) [One K] : Air K := ⟨1, [.zero (.mul .isFirstRow (.sub .isFirstRow (.const 1)))]⟩

/-- **C48 is violated** by arithmetic on row flags: every trace satisfies this AIR, and the debug check
accepts every trace, but the flags of the proof system are not 0 and 1, so whatever chunk polynomials are
committed the check fails at all but a few points. -/
theorem C48_violated_flag_arithmetic {u : Setup K F SI C DI PI S D P Ch W} (hu : u.Ok) {k : Nat} (hk : 1 ≤ k)
    (hkN : k ≤ u.twoAdicity) (hn : ((2 ^ k : Nat) : K) ≠ 1) {ps : List K[X]} (hpw : ps.length = 1)
    (hps : ∀ p ∈ ps, p.natDegree < 2 ^ k) (alpha : F) :
    checkConstraints (flagAir K) (evalRows u.genV ps 1 k) [] = some () ∧
    ∀ c : List K[X], (∀ p ∈ c, p.natDegree < 2 ^ k) →
      {zeta | Accepts u (flagAir K) [] k 0 ps [c] alpha zeta}.Finite ∧
      {zeta | Accepts u (flagAir K) [] k 0 ps [c] alpha zeta}.ncard ≤ 2 * 2 ^ k - 1 := by
  have hr : (flagAir K).InRange 0 := by simp [flagAir, Air.InRange, Assertion.InRange, AExpr.InRange]
  have hq : getLogQuotientDegree (flagAir K) 0 = some 0 := by
    rw [C45_least_power_of_two]
    refine ⟨hr, ?_, fun _ _ => Nat.zero_le _⟩
    simp [flagAir, Air.degree, Assertion.degree, AExpr.degree]
  have hpos := Nat.two_pow_pos k
  constructor
  · rw [C50_check_constraints]
    · refine ⟨hr, fun i hi a ha => ?_⟩
      obtain rfl := List.mem_singleton.1 ha
      by_cases h0 : i = 0 <;> simp [Assertion.Holds, Assertion.sides, AExpr.value, rowMeaning, h0]
    · intro r hr
      obtain ⟨i, -, rfl⟩ := List.mem_map.1 hr
      rw [List.length_map, hpw]
      rfl
    · intro h
      have := congrArg List.length h
      simp [evalRows] at this
  · intro c hc
    have ht : (flagAir K).FewTransitions := by
      intro a ha
      obtain rfl := List.mem_singleton.1 ha
      simp [Assertion.transitions, Assertion.degree, AExpr.degree, AExpr.transitions]
    have hne : (Assertion.residue Polynomial.C (polyMeaning u.genV k ps []) (.zero (.mul .isFirstRow
        (.sub .isFirstRow (.const (1 : K)))))).eval (u.genV k ^ 0) ≠ 0 := by
      have h1 : (selPoly (1 : K) (2 ^ k)).eval 1 = (2 ^ k : Nat) := by
        rw [selPoly_self _ _ hpos]; simp
      have h2 : ((2 ^ k : Nat) : K) ≠ 0 := by
        rw [Nat.cast_pow]
        exact pow_ne_zero _ (by simpa using hu.twoAdic.two_ne)
      simp only [residue_eq, Assertion.expr, AExpr.value, polyMeaning, pow_zero, eval_mul, eval_sub, h1, eval_C]
      exact mul_ne_zero h2 (sub_ne_zero.2 hn)
    obtain ⟨bad, hb1, hb2, hb⟩ := sound_core hu ht (pub := []) hq hkN hpw hps (i := 0)
      (List.mem_singleton.2 rfl) hne
    have : bad = ∅ := (Set.ncard_eq_zero hb1).1 (by simpa [flagAir] using hb2)
    have := hb alpha (by rw [this]; exact Set.notMem_empty _) [c] rfl (by simpa using hc)
    exact this

/-! ### C75 -/

/-- **C75 is violated**: no trace is needed for a proof.  Take any proof the prover returns for any AIR, public
values and trace.  For every other AIR and public values with the same number of quotient chunks, replacing
the opened values gives a proof of the other statement that the verifier accepts: the trace values can be
anything of the right number, the quotient values are then computed.  The challenge point must not lie on the
trace domain or on the quotient domain. -/
theorem C75_violated_forged_proof {u : Setup K F SI C DI PI S D P Ch W} (hu : u.Ok) {air : Air K}
    (hwidth : 0 < air.width) {pub : List K} {q : Nat} (hq : getLogQuotientDegree air pub.length = some q)
    (hqb : q ≤ u.cfg.logBlowup) {trace : Mat K} {k : Nat}
    (hkb : k + u.cfg.logBlowup ≤ u.twoAdicity) (hl : trace.length = 2 ^ k) (hrect : Rect trace air.width)
    {ch ch' : Ch} {si : SI} {s : S} {w : W} {proof : ProofOf K F C P W PI}
    (hp : prove u air ch trace pub si s w = some (proof, ch'))
    (hz : ∀ alpha zeta chz, challenges u ch proof.traceCommit proof.quotientCommit = some (alpha, zeta, chz) →
      zeta ^ 2 ^ k ≠ 1 ∧ zeta ^ 2 ^ (k + q) ≠ algebraMap K F u.g ^ 2 ^ (k + q))
    {air' : Air K} {pub' : List K} (hq' : getLogQuotientDegree air' pub'.length = some q)
    {traceLocal traceNext : List F} (h1 : traceLocal.length = air'.width) (h2 : traceNext.length = air'.width) :
    ∃ quotientChunks, verify u air' ch { proof with
      traceLocal := traceLocal, traceNext := traceNext, quotientChunks := quotientChunks } pub' = .ok ch' := by
  obtain ⟨ps, hpw, rfl, hps⟩ := trace_polys hu (k := k) (by omega) hl hrect
  have hr := ((C45_least_power_of_two air _ q).1 hq).1
  have hr' := ((C45_least_power_of_two air' _ q).1 hq').1
  obtain ⟨alpha, zeta, chz, cps, h⟩ := produced hu hwidth hr hq hqb hkb hpw hps hp
  obtain ⟨hz1, hz2⟩ := hz _ _ _ h.challenges
  have hkq : k + q ≤ u.twoAdicity := by omega
  have hw := weight_zero_ne hu.twoAdic hkq hu.g0 hz2
  have hpos := Nat.two_pow_pos q
  -- the value the quotient must have
  obtain ⟨v, hv⟩ : ∃ v, v = combine alpha (air'.asserts.map fun a => a.residue (algebraMap K F)
        (⟨traceLocal, traceNext, pub'.map (algebraMap K F),
          aeval zeta (selPoly (1 : K) (2 ^ k)), aeval zeta (selPoly (u.genV k)⁻¹ (2 ^ k)),
          zeta - algebraMap K F (u.genV k)⁻¹⟩ : Window F).meaning) * (zeta ^ 2 ^ k - 1)⁻¹ := ⟨_, rfl⟩
  refine ⟨forgedChunks u.deg.D (2 ^ q) (((weightPoly hu.twoAdic F k q u.g 0).eval zeta)⁻¹ * v), ?_⟩
  have hlen : ∀ x : F, (forgedChunks u.deg.D (2 ^ q) x).length = 2 ^ q := by
    intro x
    simp only [forgedChunks, List.length_cons, List.length_replicate]
    omega
  rw [verify_eq hu hq' (proof := { proof with
    traceLocal := traceLocal, traceNext := traceNext,
    quotientChunks := forgedChunks u.deg.D (2 ^ q) (((weightPoly hu.twoAdic F k q u.g 0).eval zeta)⁻¹ * v) })
    h.degreeBits hkq]
  · simp only [h.challenges, h.opening _ _ _ (hlen _)]
    rw [oodCheck_eq hu hr' hkq h1 h2 hz1]
    simp only
    rw [recombine_forged hu.deg hpos (by simp), Option.map_some]
    have e : ((List.range (2 ^ q)).map fun i => (weightPoly hu.twoAdic F k q u.g i).eval zeta).getD 0 0 =
        (weightPoly hu.twoAdic F k q u.g 0).eval zeta := by
      rw [List.getD_eq_getElem?_getD, List.getElem?_map, List.getElem?_range hpos]
      rfl
    rw [e, mul_inv_cancel_left₀ hw, hv, decide_eq_true rfl]
  · refine ⟨h1, h2, hlen _, ?_⟩
    intro qc hqc
    have hD := hu.deg.pos
    simp only [forgedChunks, List.mem_cons, List.mem_replicate] at hqc
    rcases hqc with rfl | ⟨-, rfl⟩
    · simp only [List.length_cons, List.length_replicate]
      omega
    · simp

end TapStark.Stark
