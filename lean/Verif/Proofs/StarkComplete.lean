import Verif.Proofs.StarkProve

/-! Rows against polynomials, and the out-of-domain check. -/

set_option linter.unusedSectionVars false

namespace TapStark.Stark

open Polynomial TapStark.Fri TapStark.Pcs

variable {K F : Type} [Field K] [Field F] [DecidableEq K] [DecidableEq F] [Algebra K F]
variable {SI C DI PI S D P Ch W : Type}

/-! ### Flags on the trace domain -/

section

variable {genV : Nat → K} {N : Nat} (hg : TwoAdic genV N)
include hg

theorem size_ne (k : Nat) : ((2 ^ k : Nat) : K) ≠ 0 := by
  rw [Nat.cast_pow]
  exact pow_ne_zero _ hg.two_ne

theorem gen_pow_one {k : Nat} (hk : k ≤ N) : genV k ^ 2 ^ k = 1 := by
  have := gen_pow_mod hg hk (2 ^ k)
  rwa [Nat.mod_self, pow_zero, eq_comm] at this

/-- Off its point, a selector vanishes on the trace domain; at its point it does not. -/
theorem selPoly_on {k : Nat} (hk : k ≤ N) {i j : Nat} (hi : i < 2 ^ k) (hj : j < 2 ^ k) :
    (selPoly (genV k ^ j) (2 ^ k)).eval (genV k ^ i) = 0 ↔ i ≠ j := by
  have h1 : genV k ^ 2 ^ k = 1 := gen_pow_one hg hk
  have h0 : genV k ≠ 0 := by
    rintro h
    rw [h, zero_pow (Nat.two_pow_pos k).ne'] at h1
    exact zero_ne_one h1
  constructor
  · rintro h rfl
    rw [selPoly_self _ _ (Nat.two_pow_pos k)] at h
    rcases mul_eq_zero.1 h with h | h
    · exact size_ne hg k h
    · exact pow_ne_zero _ (pow_ne_zero _ h0) h
  · intro hij
    have := congrArg (eval (genV k ^ i)) (selPoly_mul (genV k ^ j) (2 ^ k))
    simp only [eval_mul, eval_sub, eval_X, eval_C, eval_pow] at this
    rw [← pow_mul, ← pow_mul, mul_comm i, mul_comm j, pow_mul, pow_mul, h1, one_pow, one_pow, sub_self] at this
    rcases mul_eq_zero.1 this with h | h
    · have hinj := twoAdic_injOn hg hk (one_ne_zero (α := K))
      exact absurd (hinj (by simpa using hi) (by simpa using hj) (by simpa using sub_eq_zero.1 h)) hij
    · exact h

/-- Row `i` of a trace and its polynomials at `h^i`: same values, and flags that vanish together. -/
theorem row_flags {k : Nat} (hk : k ≤ N) {i : Nat} (hi : i < 2 ^ k) (ps : List K[X]) (pub : List K) :
    let r := rowMeaning (evalRows genV ps 1 k) pub i
    let p := (polyMeaning genV k ps pub).map (aeval (R := K) (genV k ^ i))
    r.loc = p.loc ∧ r.nxt = p.nxt ∧ r.pub = p.pub ∧ (r.first = 0 ↔ p.first = 0) ∧
      (r.last = 0 ↔ p.last = 0) ∧ (r.trans = 0 ↔ p.trans = 0) := by
  have hlen : (evalRows genV ps 1 k).length = 2 ^ k := by simp [evalRows]
  have hrow : ∀ j, j < 2 ^ k → ∀ c, ((evalRows genV ps 1 k).getD j []).getD c 0 =
      (ps.getD c 0).eval (genV k ^ j) := by
    intro j hj c
    have : (evalRows genV ps 1 k).getD j [] = ps.map fun p => p.eval (genV k ^ j) := by
      rw [List.getD_eq_getElem?_getD, List.getElem?_eq_getElem (hlen ▸ hj)]
      simp only [evalRows, List.getElem_map, List.getElem_range, Option.getD_some, one_mul]
    rw [this, List.getD_eq_getElem?_getD, List.getD_eq_getElem?_getD, List.getElem?_map]
    cases ps[c]? <;> simp
  have hpos := Nat.two_pow_pos k
  refine ⟨?_, ?_, ?_, ?_, ?_, ?_⟩
  · funext c
    simp only [rowMeaning, Meaning.map, polyMeaning, coe_aeval_eq_eval]
    exact hrow i hi c
  · funext c
    simp only [rowMeaning, Meaning.map, polyMeaning, coe_aeval_eq_eval, hlen]
    rw [hrow _ (Nat.mod_lt _ hpos), gen_pow_mod hg hk, eval_comp, eval_mul, eval_C, eval_X, pow_succ']
  · funext j
    simp [rowMeaning, Meaning.map, polyMeaning]
  · have := selPoly_on hg hk hi hpos
    simp only [pow_zero] at this
    simp [rowMeaning, Meaning.map, polyMeaning, this]
  · have := selPoly_on hg hk hi (show 2 ^ k - 1 < 2 ^ k by omega)
    rw [inv_eq hg hk] at this
    simp only [rowMeaning, Meaning.map, polyMeaning, coe_aeval_eq_eval, this, hlen]
    by_cases h : i + 1 = 2 ^ k
    · simp [h, show i = 2 ^ k - 1 by omega, Nat.sub_add_cancel hpos]
    · simp [h, show i ≠ 2 ^ k - 1 by omega]
  · simp only [rowMeaning, Meaning.map, polyMeaning, coe_aeval_eq_eval, hlen, eval_sub, eval_X, eval_C,
      sub_eq_zero]
    rw [← inv_eq hg hk]
    have hinj := twoAdic_injOn hg hk (one_ne_zero (α := K))
    by_cases h : i + 1 = 2 ^ k
    · simp [h, show i = 2 ^ k - 1 by omega, Nat.sub_add_cancel hpos]
    · simp only [h, if_false, one_ne_zero, false_iff]
      intro h'
      have := hinj (by simpa using hi) (show 2 ^ k - 1 ∈ _ by simp) (by simpa using h')
      omega

theorem noFlags_value {R : Type} [Ring R] {lift : K → R} {v w : Meaning R} (h1 : v.loc = w.loc)
    (h2 : v.nxt = w.nxt) (h3 : v.pub = w.pub) : ∀ e : AExpr K, e.NoFlags → e.value lift v = e.value lift w
  | .loc c, _ => by simp [AExpr.value, h1]
  | .nxt c, _ => by simp [AExpr.value, h2]
  | .pub c, _ => by simp [AExpr.value, h3]
  | .const c, _ => rfl
  | .add x y, h => by simp only [AExpr.value, noFlags_value h1 h2 h3 x h.1, noFlags_value h1 h2 h3 y h.2]
  | .sub x y, h => by simp only [AExpr.value, noFlags_value h1 h2 h3 x h.1, noFlags_value h1 h2 h3 y h.2]
  | .mul x y, h => by simp only [AExpr.value, noFlags_value h1 h2 h3 x h.1, noFlags_value h1 h2 h3 y h.2]
  | .neg x, h => by simp only [AExpr.value, noFlags_value h1 h2 h3 x h]

theorem filtered_value {lift : K → K} {v w : Meaning K} (h1 : v.loc = w.loc)
    (h2 : v.nxt = w.nxt) (h3 : v.pub = w.pub) (h4 : v.first = 0 ↔ w.first = 0)
    (h5 : v.last = 0 ↔ w.last = 0) (h6 : v.trans = 0 ↔ w.trans = 0) {e : AExpr K} (he : e.Filtered) :
    e.value lift v = 0 ↔ e.value lift w = 0 := by
  induction he with
  | plain x h => rw [noFlags_value hg h1 h2 h3 x h]
  | first x h ih => simp only [AExpr.value, mul_eq_zero, h4, ih]
  | last x h ih => simp only [AExpr.value, mul_eq_zero, h5, ih]
  | trans x h ih => simp only [AExpr.value, mul_eq_zero, h6, ih]

theorem filtered_expr {a : Assertion K} (h : a.Filtered) : a.expr.Filtered := by
  cases a with
  | zero x => exact h
  | eq x y => exact .plain _ h

/-- A filtered assertion holds in row `i` exactly when its polynomial vanishes at `h^i`. -/
theorem holds_row_iff {k : Nat} (hk : k ≤ N) {i : Nat} (hi : i < 2 ^ k) (ps : List K[X]) (pub : List K)
    {a : Assertion K} (ha : a.Filtered) :
    a.Holds id (rowMeaning (evalRows genV ps 1 k) pub i) ↔
      (a.residue Polynomial.C (polyMeaning genV k ps pub)).eval (genV k ^ i) = 0 := by
  obtain ⟨h1, h2, h3, h4, h5, h6⟩ := row_flags hg hk hi ps pub
  rw [holds_iff, residue_eq, residue_eq, filtered_value hg h1 h2 h3 h4 h5 h6 (filtered_expr hg ha)]
  have := value_map (aeval (R := K) (genV k ^ i)).toRingHom Polynomial.C (polyMeaning genV k ps pub) a.expr
  simp only [AlgHom.toRingHom_eq_coe, RingHom.coe_coe, coe_aeval_eq_eval, eval_C] at this
  rw [this]
  rfl

/-- A trace satisfies a filtered AIR exactly when `X^n - 1` divides every constraint polynomial. -/
theorem satisfies_iff_dvd {k : Nat} (hk : k ≤ N) (ps : List K[X]) (pub : List K) {air : Air K}
    (ha : air.Filtered) :
    Satisfies air (evalRows genV ps 1 k) pub ↔ ∀ c ∈ constraintPolys genV k air ps pub, X ^ 2 ^ k - 1 ∣ c := by
  have hlen : (evalRows genV ps 1 k).length = 2 ^ k := by simp [evalRows]
  constructor
  · intro h c hc
    obtain ⟨a, ham, rfl⟩ := List.mem_map.1 hc
    exact dvd_of_zeros hg hk _ fun i hi => (holds_row_iff hg hk hi ps pub (ha a ham)).1
      (h i (by rw [hlen]; exact hi) a ham)
  · intro h i hi a ham
    rw [hlen] at hi
    rw [holds_row_iff hg hk hi ps pub (ha a ham)]
    refine eval_eq_zero_of_dvd_of_eval_eq_zero (h _ (List.mem_map.2 ⟨a, ham, rfl⟩)) ?_
    rw [eval_sub, eval_pow, eval_X, eval_one, ← pow_mul, mul_comm i, pow_mul, gen_pow_one hg hk, one_pow,
      sub_self]

end

/-! ### Degree of the quotient -/

theorem max?_getD (l : List Nat) : l.max?.getD 0 = l.foldr max 0 := by
  cases l with
  | nil => rfl
  | cons a l =>
    rw [List.max?_cons', Option.getD_some]
    induction l generalizing a with
    | nil => simp
    | cons b l ih =>
      rw [List.foldl_cons, ih]
      simp [max_assoc]

theorem degree_expr (a : Assertion K) : a.expr.degree = a.degree := by cases a <;> rfl

theorem transitions_expr (a : Assertion K) : a.expr.transitions = a.transitions := by cases a <;> rfl

theorem mapM_none {α β : Type} {f : α → Option β} : ∀ (l : List α), (∃ a ∈ l, f a = none) → l.mapM f = none
  | [], h => by simp at h
  | a :: l, h => by
    rw [List.mapM_cons]
    obtain ⟨x, hx, hn⟩ := h
    rcases List.mem_cons.1 hx with rfl | hx
    · rw [hn]; rfl
    · cases f a with
      | none => rfl
      | some y => rw [mapM_none l ⟨x, hx, hn⟩]; rfl

theorem maxDegree_some {air : Air K} {np : Nat} (h : air.InRange np) :
    getMaxConstraintDegree air np = some air.degree := by
  have key : ∀ l : List (Assertion K), (∀ a ∈ l, a.InRange air.width np) →
      ∃ ss, (l.mapM fun a => a.expr.symbolic air.width np) = some ss ∧
        ss.map SymExpr.degreeMultiple = l.map Assertion.degree := by
    intro l
    induction l with
    | nil => intro _; exact ⟨[], rfl, rfl⟩
    | cons a l ih =>
      intro h
      obtain ⟨ss, h1, h2⟩ := ih fun x hx => h x (List.mem_cons_of_mem _ hx)
      have := symbolic_spec air.width np a.expr
      rw [if_pos ((inRange_iff _ _ _).1 (h a List.mem_cons_self))] at this
      obtain ⟨s, h3, h4⟩ := this
      refine ⟨s :: ss, ?_, ?_⟩
      · rw [List.mapM_cons, h3, h1]; rfl
      · rw [List.map_cons, List.map_cons, h2, h4, degree_expr]
  obtain ⟨ss, h1, h2⟩ := key air.asserts h
  simp only [getMaxConstraintDegree, getSymbolicConstraints, h1, Option.bind_eq_bind, Option.bind_some, h2,
    max?_getD, Air.degree]

theorem maxDegree_none {air : Air K} {np : Nat} (h : ¬ air.InRange np) :
    getMaxConstraintDegree air np = none := by
  simp only [Air.InRange, not_forall] at h
  obtain ⟨a, ha, hn⟩ := h
  rw [inRange_iff] at hn
  have := symbolic_spec air.width np a.expr
  rw [if_neg hn] at this
  simp only [getMaxConstraintDegree, getSymbolicConstraints,
    mapM_none (f := fun a => a.expr.symbolic air.width np) _ ⟨a, ha, this⟩]
  rfl

theorem log2Ceil_least (n : Nat) : IsLeast {m | n ≤ 2 ^ m} (Tcs.log2Ceil n) := by
  unfold Tcs.log2Ceil
  split
  · rename_i h
    exact ⟨by simpa using h, fun m _ => Nat.zero_le _⟩
  · rename_i h
    constructor
    · have := Nat.lt_log2_self (n := n - 1)
      simp only [Set.mem_setOf_eq]
      omega
    · intro m hm
      have h1 : 2 ^ (n - 1).log2 ≤ n - 1 := Nat.log2_self_le (by omega)
      have h2 : 2 ^ (n - 1).log2 < 2 ^ m := by simp only [Set.mem_setOf_eq] at hm; omega
      exact Nat.succ_le_of_lt ((Nat.pow_lt_pow_iff_right (by omega)).1 h2)

theorem le_degree {air : Air K} {a : Assertion K} (h : a ∈ air.asserts) : a.degree ≤ air.degree := by
  unfold Air.degree
  generalize air.asserts = l at h
  induction l with
  | nil => cases h
  | cons b l ih =>
    rw [List.map_cons, List.foldr_cons]
    rcases List.mem_cons.1 h with rfl | h
    · exact le_max_left _ _
    · exact (ih h).trans (le_max_right _ _)

/-- The constraint polynomials fit the quotient domain. -/
theorem constraint_degree {genV : Nat → K} {k q : Nat} {air : Air K} {ps : List K[X]}
    {pub : List K} (hps : ∀ p ∈ ps, p.natDegree < 2 ^ k)
    (hq : getLogQuotientDegree air pub.length = some q) {a : Assertion K} (ha : a ∈ air.asserts)
    (ht : a.transitions < max a.degree 2) :
    (a.residue Polynomial.C (polyMeaning genV k ps pub)).natDegree < (2 ^ q + 1) * 2 ^ k := by
  rw [residue_eq]
  refine (value_degree (polyMeaning_bounded genV k ps pub hps) a.expr).trans_lt ?_
  rw [degree_expr, transitions_expr]
  have hr : air.InRange pub.length := by
    by_contra h
    rw [getLogQuotientDegree, maxDegree_none h] at hq
    cases hq
  rw [getLogQuotientDegree, maxDegree_some hr] at hq
  simp only [Option.bind_eq_bind, Option.bind_some, Option.some.injEq] at hq
  have h1 := (log2Ceil_least (max air.degree 2 - 1)).1
  rw [hq] at h1
  simp only [Set.mem_setOf_eq] at h1
  have h2 := le_degree ha
  have h3 : max a.degree 2 ≤ 2 ^ q + 1 := by omega
  have h4 := Nat.one_le_two_pow (n := k)
  obtain ⟨n, hn⟩ : ∃ n, 2 ^ k = n + 1 := ⟨2 ^ k - 1, by omega⟩
  rw [hn, Nat.add_sub_cancel]
  calc a.degree * n + a.transitions ≤ max a.degree 2 * n + a.transitions :=
        Nat.add_le_add_right (Nat.mul_le_mul_right _ (le_max_left _ _)) _
    _ < max a.degree 2 * n + max a.degree 2 := Nat.add_lt_add_left ht _
    _ = max a.degree 2 * (n + 1) := by ring
    _ ≤ _ := Nat.mul_le_mul_right _ h3

theorem combine_natDegree (alpha : F) (B : Nat) : ∀ cs : List F[X], (∀ c ∈ cs, c.natDegree < B) → 0 < B →
    (combine (Polynomial.C alpha) cs).natDegree < B := by
  intro cs
  induction cs using List.reverseRecOn with
  | nil => intro _ h; simpa [combine_nil] using h
  | append_singleton cs c ih =>
    intro h hB
    rw [combine_append]
    have h1 := ih (fun x hx => h x (List.mem_append_left _ hx)) hB
    have h2 := h c (by simp)
    have h3 := natDegree_add_le (combine (Polynomial.C alpha) cs * Polynomial.C alpha) c
    have h4 := natDegree_mul_C_le (combine (Polynomial.C alpha) cs) alpha
    omega

theorem folded_degree {genV : Nat → K} {k q : Nat} {air : Air K} {ps : List K[X]}
    {pub : List K} (hps : ∀ p ∈ ps, p.natDegree < 2 ^ k)
    (hq : getLogQuotientDegree air pub.length = some q) (ht : air.FewTransitions) (alpha : F) :
    (foldedPoly genV k air ps pub alpha).natDegree < (2 ^ q + 1) * 2 ^ k := by
  refine combine_natDegree alpha _ _ ?_ (by positivity)
  intro c hc
  obtain ⟨c', hc', rfl⟩ := List.mem_map.1 hc
  obtain ⟨a, ha, rfl⟩ := List.mem_map.1 hc'
  exact lt_of_le_of_lt (natDegree_map_le) (constraint_degree hps hq ha (ht a ha))

/-- When every constraint is divisible, so is the combination; the quotient fits. -/
theorem exists_quotient {genV : Nat → K} {k q : Nat} {air : Air K} {ps : List K[X]}
    {pub : List K} (hps : ∀ p ∈ ps, p.natDegree < 2 ^ k)
    (hq : getLogQuotientDegree air pub.length = some q) (ht : air.FewTransitions)
    (hd : ∀ c ∈ constraintPolys genV k air ps pub, X ^ 2 ^ k - 1 ∣ c) (alpha : F) :
    ∃ Q : F[X], foldedPoly genV k air ps pub alpha = (X ^ 2 ^ k - 1) * Q ∧ Q.natDegree < 2 ^ (k + q) := by
  have hdvd : (X ^ 2 ^ k - 1 : F[X]) ∣ foldedPoly genV k air ps pub alpha := by
    refine combine_dvd _ _ ?_
    intro c hc
    obtain ⟨c', hc', rfl⟩ := List.mem_map.1 hc
    have := Polynomial.map_dvd (algebraMap K F) (hd c' hc')
    simpa using this
  obtain ⟨Q, hQ⟩ := hdvd
  refine ⟨Q, hQ, ?_⟩
  have hmon : (X ^ 2 ^ k - 1 : F[X]).Monic := monic_X_pow_sub_C 1 (Nat.two_pow_pos k).ne'
  have hdeg : (X ^ 2 ^ k - 1 : F[X]).natDegree = 2 ^ k := natDegree_X_pow_sub_C
  by_cases h0 : Q = 0
  · simp [h0]
  have := folded_degree (genV := genV) hps hq ht alpha
  rw [hQ, hmon.natDegree_mul' h0, hdeg, add_mul, one_mul, ← pow_add, add_comm q] at this
  omega

/-! ### The out-of-domain check -/

/-- The weighted sum of the chunk values. -/
theorem recombine_sum (deg : ExtDeg K F) (zs : List F) (chunks : List (List F)) (h : chunks.length ≤ zs.length) :
    recombine deg zs chunks = some ((List.range chunks.length).map fun i =>
      zs.getD i 0 * ((List.range (chunks.getD i []).length).map fun e =>
        deg.monomial e * (chunks.getD i []).getD e 0).sum).sum := by
  unfold recombine
  rw [mapM_some (h := fun i => zs.getD i 0 * ((List.range (chunks.getD i []).length).map fun e =>
        deg.monomial e * (chunks.getD i []).getD e 0).sum)]
  · rfl
  · intro i hi
    have hi := List.mem_range.1 hi
    rw [List.getElem?_eq_getElem (by omega), List.getElem?_eq_getElem hi]
    simp only [Option.bind_eq_bind, Option.bind_some, List.getD_eq_getElem?_getD,
      List.getElem?_eq_getElem (show i < zs.length by omega), List.getElem?_eq_getElem hi, Option.getD_some,
      Option.some.injEq]
    rw [← List.sum_map_mul_left]
    congr 1
    refine List.map_congr_left fun e _ => ?_
    ring

/-- The out-of-domain check on any claimed values. -/
theorem oodCheck_claims {u : Setup K F SI C DI PI S D P Ch W} (hg : TwoAdic u.genV u.twoAdicity) (hg0 : u.g ≠ 0) {air : Air K} {pub : List K}
    (hr : air.InRange pub.length) {k q : Nat} (hkq : k + q ≤ u.twoAdicity) {proof : ProofOf K F C P W PI}
    (h1 : proof.traceLocal.length = air.width) (h2 : proof.traceNext.length = air.width) {alpha zeta : F}
    (hz : zeta ^ 2 ^ k ≠ 1) :
    oodCheck u air pub ⟨k, 1⟩ (chunkDomains u.genV k q u.g) proof alpha zeta =
      (recombine u.deg ((List.range (2 ^ q)).map fun i => (weightPoly hg F k q u.g i).eval zeta)
        proof.quotientChunks).map fun R =>
      decide (combine alpha (air.asserts.map fun a => a.residue (algebraMap K F)
        (⟨proof.traceLocal, proof.traceNext, pub.map (algebraMap K F),
          aeval zeta (selPoly (1 : K) (2 ^ k)), aeval zeta (selPoly (u.genV k)⁻¹ (2 ^ k)),
          zeta - algebraMap K F (u.genV k)⁻¹⟩ : Window F).meaning) * (zeta ^ 2 ^ k - 1)⁻¹ = R) := by
  unfold oodCheck
  rw [zps_eq hg hkq hg0, selectorsAtPoint_eq hg (by omega) hz]
  simp only [Option.bind_eq_bind, Option.bind_some]
  have := fold_eq (algebraMap K F) (id : F → F) air alpha
    ⟨proof.traceLocal, proof.traceNext, pub.map (algebraMap K F),
          aeval zeta (selPoly (1 : K) (2 ^ k)), aeval zeta (selPoly (u.genV k)⁻¹ (2 ^ k)),
          zeta - algebraMap K F (u.genV k)⁻¹⟩ h1 h2 (by simp) hr
  unfold verifierFold
  simp only [id] at this
  rw [this]
  cases recombine u.deg _ proof.quotientChunks <;> rfl

theorem oodCheck_eq {u : Setup K F SI C DI PI S D P Ch W} (hu : u.Ok) {air : Air K} {pub : List K}
    (hr : air.InRange pub.length) {k q : Nat} (hkq : k + q ≤ u.twoAdicity) {proof : ProofOf K F C P W PI}
    (h1 : proof.traceLocal.length = air.width) (h2 : proof.traceNext.length = air.width) {alpha zeta : F}
    (hz : zeta ^ 2 ^ k ≠ 1) :
    oodCheck u air pub ⟨k, 1⟩ (chunkDomains u.genV k q u.g) proof alpha zeta =
      (recombine u.deg ((List.range (2 ^ q)).map fun i => (weightPoly hu.twoAdic F k q u.g i).eval zeta)
        proof.quotientChunks).map fun R =>
      decide (combine alpha (air.asserts.map fun a => a.residue (algebraMap K F)
        (⟨proof.traceLocal, proof.traceNext, pub.map (algebraMap K F),
          aeval zeta (selPoly (1 : K) (2 ^ k)), aeval zeta (selPoly (u.genV k)⁻¹ (2 ^ k)),
          zeta - algebraMap K F (u.genV k)⁻¹⟩ : Window F).meaning) * (zeta ^ 2 ^ k - 1)⁻¹ = R) :=
  oodCheck_claims hu.twoAdic hu.g0 hr hkq h1 h2 hz

/-- At a point of the trace domain the check divides by zero. -/
theorem oodCheck_panic {u : Setup K F SI C DI PI S D P Ch W} {air : Air K} {pub : List K}
    {k : Nat} {domains : List (Dom K)} {proof : ProofOf K F C P W PI} {alpha zeta : F}
    (hz : zeta ^ 2 ^ k = 1) :
    oodCheck u air pub ⟨k, 1⟩ domains proof alpha zeta = none := by
  unfold oodCheck
  rw [selectorsAtPoint_none hz]
  cases zps domains zeta with
  | none => rfl
  | some z =>
    simp only [Option.bind_eq_bind, Option.bind_some]
    cases recombine u.deg z proof.quotientChunks <;> rfl

/-- `verify` once the shape is right. -/
theorem verify_eq {u : Setup K F SI C DI PI S D P Ch W} (hu : u.Ok) {air : Air K} {ch : Ch}
    {proof : ProofOf K F C P W PI} {pub : List K} {q : Nat}
    (hq : getLogQuotientDegree air pub.length = some q) {k : Nat} (hk : proof.degreeBits = k)
    (hkq : k + q ≤ u.twoAdicity)
    (hs : proof.traceLocal.length = air.width ∧ proof.traceNext.length = air.width ∧
      proof.quotientChunks.length = 2 ^ q ∧ ∀ qc ∈ proof.quotientChunks, qc.length = u.deg.D) :
    verify u air ch proof pub =
      match challenges u ch proof.traceCommit proof.quotientCommit with
      | none => .panic
      | some (alpha, zeta, ch) =>
      match Pcs.verify u.genV u.g u.mi u.m u.chall u.cfg
          [(proof.traceCommit, [(⟨k, 1⟩, [(zeta, proof.traceLocal),
            (zeta * algebraMap K F (u.genV k), proof.traceNext)])]),
           (proof.quotientCommit, ((chunkDomains u.genV k q u.g).zip proof.quotientChunks).map
              fun (d, v) => (d, [(zeta, v)]))] proof.openingProof ch with
      | .panic => .panic
      | .err _ => .err .invalidOpeningArgument
      | .ok ch =>
      match oodCheck u air pub ⟨k, 1⟩ (chunkDomains u.genV k q u.g) proof alpha zeta with
      | none => .panic
      | some true => .ok ch
      | some false => .err .oodEvaluationMismatch := by
  subst hk
  unfold verify
  have hn : naturalDomainForDegree (K := K) (2 ^ proof.degreeBits) = some ⟨proof.degreeBits, 1⟩ := by
    simp [naturalDomainForDegree, log2Strict_pow]
  have hsd : splitDomains u.genV u.twoAdicity (createDisjointDomain u.g (⟨proof.degreeBits, 1⟩ : Dom K)
      (2 ^ (proof.degreeBits + q))) (2 ^ q) = some (chunkDomains u.genV proof.degreeBits q u.g) := by
    rw [createDisjointDomain, Tcs.log2Ceil_pow, one_mul, splitDomains_eq hkq]
  simp only [hq, hn, hsd]
  rw [if_neg (not_not.2 hs)]
  rfl

/-- The values of polynomials, put through the check. -/
theorem oodCheck_polys {u : Setup K F SI C DI PI S D P Ch W} (hu : u.Ok) {air : Air K} {pub : List K}
    (hr : air.InRange pub.length) {k q : Nat} (hkq : k + q ≤ u.twoAdicity) {proof : ProofOf K F C P W PI}
    {ps : List K[X]} (hpw : ps.length = air.width) {cps : List (List K[X])} {alpha zeta : F}
    (h1 : proof.traceLocal = ps.map fun p => aeval zeta p)
    (h2 : proof.traceNext = ps.map fun p => aeval (zeta * algebraMap K F (u.genV k)) p)
    (h3 : proof.quotientChunks = cps.map fun c => c.map fun p => aeval zeta p)
    (hcl : cps.length = 2 ^ q) (hcd : ∀ c ∈ cps, ∀ p ∈ c, p.natDegree < 2 ^ k)
    {Q : F[X]} (hQ : Q.natDegree < 2 ^ (k + q))
    (hQc : ∀ i c, cps[i]? = some c → ∀ l,
      Q.eval (algebraMap K F (u.g * u.genV (k + q) ^ i * u.genV k ^ l)) =
      ∑ e ∈ Finset.range c.length, u.deg.monomial e *
        algebraMap K F ((c.getD e 0).eval (u.g * u.genV (k + q) ^ i * u.genV k ^ l)))
    (hz : zeta ^ 2 ^ k ≠ 1) :
    oodCheck u air pub ⟨k, 1⟩ (chunkDomains u.genV k q u.g) proof alpha zeta =
      some (decide ((foldedPoly u.genV k air ps pub alpha).eval zeta * (zeta ^ 2 ^ k - 1)⁻¹ = Q.eval zeta)) := by
  rw [oodCheck_eq hu hr hkq (by simp [h1, hpw]) (by simp [h2, hpw]) hz, h3,
    recombine_eq hu.twoAdic hkq hu.g0 cps hcl hcd Q hQ hQc, Option.map_some, h1, h2, foldedPoly_eval,
    meaning_at]

/-- The polynomial the chunk polynomials are chunks of. -/
noncomputable def gluedPoly {genV : Nat → K} {N : Nat} (hg : TwoAdic genV N) (deg : ExtDeg K F) (s : K)
    (k q : Nat) (cps : List (List K[X])) : F[X] :=
  ∑ i ∈ Finset.range (2 ^ q), weightPoly hg F k q s i *
    ∑ e ∈ Finset.range (cps.getD i []).length, Polynomial.C (deg.monomial e) *
      ((cps.getD i []).getD e 0).map (algebraMap K F)

theorem glued_degree {genV : Nat → K} {N : Nat} (hg : TwoAdic genV N) (deg : ExtDeg K F) {s : K}
    {k q : Nat}
    {cps : List (List K[X])} (hcd : ∀ c ∈ cps, ∀ p ∈ c, p.natDegree < 2 ^ k) :
    (gluedPoly hg deg s k q cps).natDegree < 2 ^ (k + q) := by
  have hpos := Nat.two_pow_pos k
  have hq := Nat.two_pow_pos q
  have : (gluedPoly hg deg s k q cps).natDegree ≤ (2 ^ q - 1) * 2 ^ k + (2 ^ k - 1) := by
    refine natDegree_sum_le_of_forall_le _ _ ?_
    intro i hi
    refine natDegree_mul_le.trans (Nat.add_le_add (weight_degree hg k q s (Finset.mem_range.1 hi)) ?_)
    refine natDegree_sum_le_of_forall_le _ _ ?_
    intro e _
    refine (natDegree_C_mul_le _ _).trans (natDegree_map_le.trans ?_)
    have : ((cps.getD i []).getD e 0).natDegree < 2 ^ k := by
      rw [List.getD_eq_getElem?_getD (l := cps)]
      cases hc : cps[i]? with
      | none => simpa using hpos
      | some c =>
        rw [Option.getD_some, List.getD_eq_getElem?_getD]
        cases hp : c[e]? with
        | none => simpa using hpos
        | some p => exact hcd c (List.mem_of_getElem? hc) p (List.mem_of_getElem? hp)
    omega
  refine this.trans_lt ?_
  rw [pow_add]
  obtain ⟨n, hn⟩ : ∃ n, 2 ^ q = n + 1 := ⟨2 ^ q - 1, by omega⟩
  rw [hn, Nat.add_sub_cancel, mul_add, mul_comm n, mul_one]
  omega

theorem glued_values {genV : Nat → K} {N : Nat} (hg : TwoAdic genV N) (deg : ExtDeg K F) {s : K}
    {k q : Nat}
    (hkq : k + q ≤ N) (hs0 : s ≠ 0) {cps : List (List K[X])} (hcl : cps.length = 2 ^ q) :
    ∀ i c, cps[i]? = some c → ∀ l,
      (gluedPoly hg deg s k q cps).eval (algebraMap K F (s * genV (k + q) ^ i * genV k ^ l)) =
      ∑ e ∈ Finset.range c.length, deg.monomial e *
        algebraMap K F ((c.getD e 0).eval (s * genV (k + q) ^ i * genV k ^ l)) := by
  intro i c hc l
  have hi : i < 2 ^ q := by
    rw [← hcl]
    exact (List.getElem?_eq_some_iff.1 hc).1
  rw [gluedPoly, eval_finsetSum, Finset.sum_eq_single i]
  · rw [eval_mul, weight_on hg hkq hs0 hi hi, if_pos rfl, one_mul, eval_finsetSum,
      List.getD_eq_getElem?_getD, hc, Option.getD_some]
    refine Finset.sum_congr rfl fun e _ => ?_
    rw [eval_mul, eval_C, eval_map_algebraMap, aeval_algebraMap_apply, coe_aeval_eq_eval]
  · intro j hj hji
    rw [eval_mul, weight_on hg hkq hs0 (Finset.mem_range.1 hj) hi, if_neg hji, zero_mul]
  · intro h
    exact absurd (Finset.mem_range.2 hi) h

theorem eq_of_cosets {genV : Nat → K} {N : Nat} (hg : TwoAdic genV N) {k q : Nat} (hkq : k + q ≤ N) {s : K}
    (hs : s ≠ 0) {A B : F[X]} (hA : A.natDegree < 2 ^ (k + q)) (hB : B.natDegree < 2 ^ (k + q))
    (h : ∀ i, i < 2 ^ q → ∀ l, A.eval (algebraMap K F (s * genV (k + q) ^ i * genV k ^ l)) =
      B.eval (algebraMap K F (s * genV (k + q) ^ i * genV k ^ l))) : A = B := by
  rw [← sub_eq_zero]
  refine Polynomial.eq_zero_of_degree_lt_of_eval_index_eq_zero
    (v := fun i => algebraMap K F (s * genV (k + q) ^ i)) (Finset.range (2 ^ (k + q))) ?_ ?_ ?_
  · intro a ha b hb hab
    exact twoAdic_injOn hg hkq hs ha hb ((algebraMap K F).injective hab)
  · rw [Finset.card_range]
    refine lt_of_le_of_lt degree_le_natDegree ?_
    exact Nat.cast_lt.2 (lt_of_le_of_lt (natDegree_sub_le _ _) (max_lt hA hB))
  · intro i hi
    have hm : i % 2 ^ q < 2 ^ q := Nat.mod_lt _ (Nat.two_pow_pos q)
    have hpt : s * genV (k + q) ^ i = s * genV (k + q) ^ (i % 2 ^ q) * genV k ^ (i / 2 ^ q) := by
      conv_lhs => rw [← Nat.mod_add_div i (2 ^ q), pow_add, pow_mul, hg.pow hkq, ← mul_assoc]
    simp only [hpt, eval_sub, h _ hm, sub_self]

/-- Zeroing every chunk value but the first coordinate of the first chunk. -/
def forgedChunks (D n : Nat) (v : F) : List (List F) :=
  (v :: List.replicate (D - 1) 0) :: List.replicate (n - 1) (List.replicate D 0)

theorem recombine_forged {deg : ExtDeg K F} (hd : deg.Ok) {zs : List F} {n : Nat} (hn : 0 < n)
    (hz : zs.length = n) (v : F) :
    recombine deg zs (forgedChunks deg.D n v) = some (zs.getD 0 0 * v) := by
  have hl : (forgedChunks deg.D n v).length = n := by
    simp only [forgedChunks, List.length_cons, List.length_replicate]; omega
  rw [recombine_sum _ _ _ (by omega), hl]
  obtain ⟨m, rfl⟩ : ∃ m, n = m + 1 := ⟨n - 1, by omega⟩
  have hz0 : ∀ (m e : Nat), (List.replicate m (0 : F)).getD e 0 = 0 := by
    intro m e
    rw [List.getD_eq_getElem?_getD, List.getElem?_replicate]
    split <;> rfl
  rw [List.range_succ_eq_map, List.map_cons, List.sum_cons]
  have hrest : (List.map (fun i => zs.getD i 0 * ((List.range
      ((forgedChunks deg.D (m + 1) v).getD i []).length).map fun e =>
        deg.monomial e * ((forgedChunks deg.D (m + 1) v).getD i []).getD e 0).sum)
      (List.map Nat.succ (List.range m))).sum = 0 := by
    apply List.sum_eq_zero
    intro x hx
    rw [List.map_map] at hx
    obtain ⟨i, hi, rfl⟩ := List.mem_map.1 hx
    have hi := List.mem_range.1 hi
    have : (forgedChunks deg.D (m + 1) v).getD (Nat.succ i) [] = List.replicate deg.D 0 := by
      simp only [forgedChunks, List.getD_cons_succ, Nat.add_sub_cancel]
      rw [List.getD_eq_getElem?_getD, List.getElem?_replicate, if_pos hi]
      rfl
    simp only [Function.comp_apply, this, hz0, mul_zero]
    rw [List.sum_eq_zero (by intro y hy; obtain ⟨_, _, rfl⟩ := List.mem_map.1 hy; rfl), mul_zero]
  rw [hrest, add_zero]
  simp only [forgedChunks, List.getD_cons_zero, List.length_cons, List.length_replicate,
    List.range_succ_eq_map, List.map_cons, List.sum_cons, hd.one, one_mul, List.map_map]
  rw [List.sum_eq_zero (by
    intro y hy
    obtain ⟨_, _, rfl⟩ := List.mem_map.1 hy
    simp only [Function.comp_apply, Nat.succ_eq_add_one, List.getD_cons_succ, hz0, mul_zero]), add_zero]

theorem weight_zero_ne {genV : Nat → K} {N : Nat} (hg : TwoAdic genV N) {k q : Nat} (hkq : k + q ≤ N) {s : K}
    (hs : s ≠ 0) {z : F} (hz : z ^ 2 ^ (k + q) ≠ algebraMap K F s ^ 2 ^ (k + q)) :
    (weightPoly hg F k q s 0).eval z ≠ 0 := by
  rw [weightPoly, eval_prod, Finset.prod_ne_zero_iff]
  intro j hj
  obtain ⟨hj0, hj⟩ := Finset.mem_erase.1 hj
  have hj := Finset.mem_range.1 hj
  rw [eval_mul, eval_C]
  refine mul_ne_zero ?_ ?_
  · simp only [eval_sub, eval_pow, eval_mul, eval_C, eval_X, eval_one, sub_ne_zero]
    intro h
    apply hz
    have h2 : (algebraMap K F (s * genV (k + q) ^ j)⁻¹ * z) ^ 2 ^ (k + q) = 1 := by
      rw [pow_add, pow_mul, h, one_pow]
    have h3 : (s * genV (k + q) ^ j) ^ 2 ^ (k + q) = s ^ 2 ^ (k + q) := by
      rw [mul_pow, ← pow_mul, mul_comm j, pow_mul, gen_pow_one hg hkq, one_pow, mul_one]
    have h4 : algebraMap K F (s ^ 2 ^ (k + q)) ≠ 0 := by
      rw [Ne, map_eq_zero]; exact pow_ne_zero _ hs
    rw [mul_pow, ← map_pow, _root_.inv_pow, h3, map_inv₀] at h2
    rw [← map_pow]
    exact (inv_mul_eq_one₀ h4).1 h2 |>.symm
  · rw [Ne, map_eq_zero, inv_eq_zero]
    have := ratio_ne hg hkq hs (Nat.two_pow_pos q) hj (Ne.symm hj0) 0
    simpa using this

end TapStark.Stark
