import Verif.Proofs.Fri
import Mathlib.Data.Nat.Bitwise

/-!
Properties C35 to C41 and C64: FRI folding, prover and verifier.
-/

set_option linter.unusedSectionVars false

namespace TapStark.Fri

open Polynomial

variable {F : Type} [Field F] [DecidableEq F]

/-! ### C35, C36 -/

/-- **C35** For every matrix of `2^k` rows of two, every row `i` and every `β`, folding the row gives
entry `i` of the folded matrix. -/
theorem C35_row_eq_matrix {gen : Nat → F} {N : Nat} (hg : TwoAdic gen N) {k : Nat} (hk : k + 1 ≤ N)
    (β : F) (rows : List (List F)) (hl : rows.length = 2 ^ k) (h2 : ∀ r ∈ rows, r.length = 2) :
    ∃ v, foldMatrix gen β rows = some v ∧ v.length = 2 ^ k ∧
      ∀ i (hi : i < rows.length), foldRow gen i k β rows[i] = v[i]? := by
  refine ⟨(List.range (2 ^ k)).map fun i =>
      foldVal gen k β i ((rows.getD i []).getD 0 0) ((rows.getD i []).getD 1 0), ?_, ?_, ?_⟩
  · conv_lhs => rw [rows_eq_range hl h2]
    exact foldMatrix_range gen k β (fun i => (rows.getD i []).getD 0 0)
      (fun i => (rows.getD i []).getD 1 0)
  · simp
  · intro i hi
    have hlen := h2 rows[i] (List.getElem_mem hi)
    rw [List.getElem?_map, List.getElem?_range (by omega), Option.map_some,
      List.getD_eq_getElem?_getD (l := rows), List.getElem?_eq_getElem hi, Option.getD_some]
    match hr : rows[i], hlen with
    | [x, y], _ => rw [foldRow_eq hg hk]; rfl

/-- **C35** Rows of any other length make `fold_row` panic. -/
theorem C35_other_arity_panics (gen : Nat → F) (i k : Nat) (β : F) (row : List F) (h : row.length ≠ 2) :
    foldRow gen i k β row = none := by
  match row, h with
  | [], _ => rfl
  | [_], _ => rfl
  | [_, _], h => exact absurd rfl h
  | _ :: _ :: _ :: _, _ => rfl

/-- **C36** Folding the bit-reversed evaluations of `p` on the subgroup of order `2^(k+1)` gives the
bit-reversed evaluations of `p_even + β p_odd` on the subgroup of order `2^k`. -/
theorem C36_folds_polynomial {gen : Nat → F} {N : Nat} (hg : TwoAdic gen N) {k : Nat} (hk : k + 1 ≤ N)
    (β : F) (p : F[X]) :
    (pairs (evalVec gen (k + 1) p)).bind (foldMatrix gen β) = some (evalVec gen k (foldPoly β p)) ∧
      foldEvenOdd gen (evalVec gen (k + 1) p) β = some (evalVec gen k (foldPoly β p)) := by
  have h1 : (pairs (evalVec gen (k + 1) p)).bind (foldMatrix gen β) =
      some (evalVec gen k (foldPoly β p)) := by
    rw [pairs_evalVec, Option.bind_some, foldMatrix_evalVec hg hk]
  exact ⟨h1, h1⟩

/-- **C36** What the folded polynomial is: with `p = e(X²) + X·o(X²)` it is `e + β·o`, and its degree
is at most half. -/
theorem C36_fold_poly (β : F) (e o : F[X]) :
    foldPoly β (expand F 2 e + X * expand F 2 o) = e + C β * o := by
  ext n
  rw [foldPoly, coeff_add, coeff_C_mul, coeff_contract (by omega), coeff_contract (by omega), coeff_divX,
    coeff_add, coeff_add, coeff_X_mul, coeff_expand (by omega), coeff_expand (by omega),
    coeff_expand (by omega), if_pos (by omega), if_neg (by omega), if_pos (by omega), coeff_add,
    coeff_C_mul, Nat.mul_div_cancel _ (by omega), zero_add]
  congr 1
  cases n with
  | zero => simp
  | succ n =>
    rw [show (n + 1) * 2 = (n * 2 + 1) + 1 by ring, coeff_X_mul, coeff_expand (by omega),
      if_neg (by omega), add_zero]

theorem C36_degree (β : F) (p : F[X]) (d : Nat) (h : p.natDegree < 2 * d) :
    (foldPoly β p).natDegree < d := natDegree_foldPoly β h

/-! ### C64 -/

/-- **C64** Position `j` of the committed vector is entry `j & 1` of the pair `j >> 1`, and the other
entry of that pair is the sibling position `j ^ 1`. -/
theorem C64_pair (v : List F) (rows : List (List F)) (h : pairs v = some rows) (j : Nat) :
    (rows[j >>> 1]?.bind fun r => r[j % 2]?) = v[j]? ∧
      (rows[j >>> 1]?.bind fun r => r[(j ^^^ 1) % 2]?) = v[j ^^^ 1]? := by
  have key : ∀ (v : List F) (rows : List (List F)), pairs v = some rows → ∀ i b, b < 2 →
      (rows[i]?.bind fun r => r[b]?) = v[2 * i + b]? := by
    intro v
    induction v using pairs.induct with
    | case1 => intro rows h i b _; obtain rfl := Option.some.inj h; simp
    | case2 => intro rows h; cases h
    | case3 x y t ih =>
      intro rows h i b hb
      rw [pairs, Option.map_eq_some_iff] at h
      obtain ⟨rs, h1, rfl⟩ := h
      cases i with
      | zero =>
        rcases (by omega : b = 0 ∨ b = 1) with rfl | rfl <;> simp
      | succ i =>
        rw [List.getElem?_cons_succ, ih rs h1 i b hb,
          show 2 * (i + 1) + b = (2 * i + b) + 1 + 1 by ring, List.getElem?_cons_succ,
          List.getElem?_cons_succ]
  have hx : j ^^^ 1 = 2 * (j / 2) + (1 - j % 2) := by
    rcases Nat.even_or_odd j with he | ho
    · rw [Nat.xor_one_of_even he]
      have := Nat.even_iff.mp he
      omega
    · rw [Nat.xor_one_of_odd ho]
      have := Nat.odd_iff.mp ho
      omega
  have hd : j >>> 1 = j / 2 := by rw [Nat.shiftRight_one]
  rw [hd]
  refine ⟨?_, ?_⟩
  · rw [key v rows h (j / 2) (j % 2) (by omega), Nat.div_add_mod]
  · have hm : (j ^^^ 1) % 2 = 1 - j % 2 := by omega
    rw [hm, key v rows h (j / 2) (1 - j % 2) (by omega), hx]

/-- **C64** What the prover opens in round `i`: row `index >> (i+1)` of the `i`-th commitment, for every
round. -/
theorem C64_opened_rows {S C D P : Type} (M : Mmcs F S C D P) (idx q : Nat) :
    ∀ (data : List D) (openings : List (List (List F) × P)) (sh : Nat),
      answerQuery M data (idx >>> sh) q = some openings → openings.length = data.length ∧
      ∀ i o, openings[i]? = some o → ∃ d, data[i]? = some d ∧
        M.openBatch q (idx >>> (sh + i) >>> 1) d = some o := by
  intro data
  induction data with
  | nil =>
    intro openings sh h
    obtain rfl : [] = openings := Option.some.inj h
    simp
  | cons d data ih =>
    intro openings sh h
    rw [answerQuery_cons, Option.bind_eq_some_iff] at h
    obtain ⟨o, h1, h⟩ := h
    rw [Option.bind_eq_some_iff] at h
    obtain ⟨os, h2, h⟩ := h
    obtain rfl := Option.some.inj h
    rw [show idx >>> sh / 2 = idx >>> (sh + 1) by rw [Nat.shiftRight_add, Nat.shiftRight_one]] at h1 h2
    obtain ⟨i1, i2⟩ := ih os (sh + 1) h2
    refine ⟨by simp [i1], ?_⟩
    intro i o' ho
    cases i with
    | zero =>
      obtain rfl : o = o' := by simpa using ho
      exact ⟨d, rfl, by rwa [Nat.add_zero, ← Nat.shiftRight_add]⟩
    | succ i =>
      obtain ⟨d', h3, h4⟩ := i2 i o' (by simpa using ho)
      exact ⟨d', by simpa using h3, by rwa [show sh + (i + 1) = sh + 1 + i by omega]⟩

/-- **C64** `get_leaf_index_by_query_index`: the pair, the position and the sibling. -/
theorem C64_leaf_index (i : Nat) :
    getLeafIndexByQueryIndex i = (i / 4, i / 2, if i / 2 % 2 = 0 then i / 2 + 1 else i / 2 - 1) := by
  unfold getLeafIndexByQueryIndex
  simp only [Nat.shiftRight_one, Nat.div_div_eq_div_mul]
  congr 2
  split
  case isTrue h => exact Nat.xor_one_of_even (Nat.even_iff.2 h)
  case isFalse h => exact Nat.xor_one_of_odd (Nat.odd_iff.2 (by omega))

/-! ### C37 -/

variable {S C D P Ch W IP : Type}

/-- The inputs of an honest run: polynomials of low degree, the tallest first, heights strictly
decreasing and not below the blowup; an input as short as the blowup is zero. -/
def HonestInputs (cfg : Config) (N h0 : Nat) (p0 : F[X]) (polys : List (Nat × F[X])) : Prop :=
  cfg.logBlowup ≤ h0 ∧ h0 ≤ N ∧ p0.natDegree < 2 ^ (h0 - cfg.logBlowup) ∧ (h0 = cfg.logBlowup → p0 = 0) ∧
    Inputs cfg.logBlowup h0 polys

theorem forM_cons' {α : Type} (a : α) (l : List α) (g : α → Res Unit) :
    (a :: l).forM g = (g a >>= fun _ => l.forM g) := rfl

theorem proveQueries_verify {gen : Nat → F} {M : Mmcs F S C D P} {K : Chall Ch C F W} {cfg : Config}
    {openInputP : Nat → Nat → Option IP} {openInputV : Nat → Nat → IP → Res (List (Nat × F))}
    {commits : List C} {betas : List F} {data : List D} {finalPoly : F} {h0 Q : Nat}
    (hbits : ∀ ch n i ch', K.sampleBits ch n = some (i, ch') → i < 2 ^ n)
    (hq : ∀ q idx ip openings, q < Q → idx < 2 ^ h0 → openInputP q idx = some ip →
      answerQuery M data idx q = some openings → ∃ ros, openInputV q idx ip = .ok ros ∧
        verifyQuery gen M cfg commits idx q openings betas ros h0 = .ok finalPoly) :
    ∀ (n k : Nat) (ch ch' : Ch) (qps : List (QueryProof F P IP)), k + n ≤ Q →
      proveQueries M K openInputP data h0 n k ch = some (qps, ch') →
      qps.length = n ∧ ∃ is, sampleIndices K h0 n k ch = some (is, ch') ∧
        ((is.zip qps).forM fun ((queryTimesIndex, queryIndex), qp) => do
          let ro ← openInputV queryTimesIndex queryIndex qp.inputProof
          let foldedEval ← verifyQuery gen M cfg commits queryIndex queryTimesIndex
            qp.commitPhaseOpenings betas ro h0
          if foldedEval ≠ finalPoly then Res.err .finalPoly else Res.ok ()) = Res.ok () := by
  intro n
  induction n with
  | zero =>
    intro k ch ch' qps hk h
    simp only [proveQueries, Option.some.injEq, Prod.mk.injEq] at h
    obtain ⟨rfl, rfl⟩ := h
    exact ⟨rfl, [], rfl, rfl⟩
  | succ n ih =>
    intro k ch ch' qps hk h
    rw [proveQueries] at h
    simp only [Option.bind_eq_bind, Option.bind_eq_some_iff] at h
    obtain ⟨⟨i, ch1⟩, h1, ip, h2, os, h3, ⟨rest, ch2⟩, h4, h⟩ := h
    simp only [Option.some.injEq, Prod.mk.injEq] at h
    obtain ⟨rfl, rfl⟩ := h
    obtain ⟨i1, is, i2, i3⟩ := ih (k + 1) ch1 ch2 rest (by omega) h4
    obtain ⟨ros, r1, r2⟩ := hq k i ip os (by omega) (hbits _ _ _ _ h1) h2 h3
    refine ⟨by simp [i1], (k, i) :: is, by simp [sampleIndices, h1, i2], ?_⟩
    rw [List.zip_cons_cons, forM_cons']
    simp only [r1, r2, Res.bind_ok, ne_eq, not_true_eq_false, if_false]
    exact i3

theorem honest_core {gen : Nat → F} {N : Nat} (hg : TwoAdic gen N) {M : Mmcs F S C D P}
    {K : Chall Ch C F W} {cfg : Config} (hM : M.Honest cfg.numQueries N) (hb : 1 ≤ cfg.logBlowup)
    {h0 : Nat} {p0 : F[X]} {polys : List (Nat × F[X])} (hin : HonestInputs cfg N h0 p0 polys)
    {s : S} {ch : Ch} {r : CommitResult F C D S Ch}
    (hr : commitPhase gen M K cfg s ch (evalVec gen h0 p0 :: polys.map fun x => evalVec gen x.1 x.2) =
      some r) :
    r.commits.length + cfg.logBlowup = h0 ∧ ∃ betas, sampleBetas K r.commits ch = some (betas, r.chall) ∧
      betas.length = r.commits.length ∧
      ∀ q idx y, q < cfg.numQueries → idx < 2 ^ h0 →
        ∃ openings, answerQuery M r.data idx q = some openings ∧ openings.length = r.commits.length ∧
          verifyQuery gen M cfg r.commits idx q openings betas ((h0, y) :: rosOf gen h0 idx polys) h0 =
            .ok r.finalPoly := by
  obtain ⟨g1, g2, g3, gz, g4⟩ := hin
  obtain ⟨m, rfl⟩ : ∃ m, h0 = cfg.logBlowup + m := ⟨h0 - cfg.logBlowup, by omega⟩
  rw [commitPhase, evalVec_length] at hr
  have hlt : m < 2 ^ (cfg.logBlowup + m) + 1 := by
    have := Nat.lt_two_pow_self (n := cfg.logBlowup + m)
    omega
  obtain ⟨c1, betas, c2, c3, c4⟩ := commitLoop_query hg hM hb m s ch p0 polys _ r g2
    (by rwa [Nat.add_sub_cancel_left] at g3) hlt g4 hr
  refine ⟨by omega, betas, c2, by omega, ?_⟩
  intro q idx y hq hidx
  obtain ⟨openings, o1, o2, o3⟩ := c4 q idx (cfg.logBlowup + m) 0
    ((cfg.logBlowup + m, y) :: rosOf gen (cfg.logBlowup + m) idx polys) hq hidx (by omega)
    (by simp [nextRo]) (by omega) (fun hm => by rw [gz (by omega), eval_zero])
  refine ⟨openings, o1, by omega, ?_⟩
  unfold verifyQuery
  have hzl : (r.commits.zip (openings.zip betas)).length = m := by simp [c1, o2, c3]
  rw [range_reverse_down, zip_downList _ _ m _ hzl]
  simp only [o3, Res.bind_ok]
  rw [if_neg]
  rintro ⟨-, hn⟩
  apply hn
  rw [Config.blowup, Nat.div_lt_iff_lt_mul (Nat.two_pow_pos m), ← pow_add]
  exact hidx

/-- **C37** An honest run is accepted.  The inputs are evaluations of polynomials of low degree; the
verifier starts from the same challenger state and is given, for every query, the values of these
polynomials at the queried positions.  Then the shape check and the challenge sampling succeed, end in
the prover's final challenger state, and every query check passes. -/
theorem C37_honest_accepted {gen : Nat → F} {N : Nat} (hg : TwoAdic gen N) {M : Mmcs F S C D P}
    {K : Chall Ch C F W} {cfg : Config} (hM : M.Honest cfg.numQueries N) (hb : 1 ≤ cfg.logBlowup)
    (hbits : ∀ ch n i ch', K.sampleBits ch n = some (i, ch') → i < 2 ^ n)
    {h0 : Nat} {p0 : F[X]} {polys : List (Nat × F[X])} (hin : HonestInputs cfg N h0 p0 polys)
    {openInputP : Nat → Nat → Option IP} {openInputV : Nat → Nat → IP → Res (List (Nat × F))}
    (hopen : ∀ q idx ip, q < cfg.numQueries → idx < 2 ^ h0 → openInputP q idx = some ip →
      openInputV q idx ip = .ok (rosOf gen h0 idx ((h0, p0) :: polys)))
    {s s' : S} {ch ch' : Ch} {w : W} {proof : FriProof F C P W IP}
    (hp : bfProve gen M K cfg (evalVec gen h0 p0 :: polys.map fun x => evalVec gen x.1 x.2) s ch w
      openInputP = some (proof, s', ch')) :
    ∃ challenges, verifyShapeAndSampleChallenges K cfg proof ch = .ok (challenges, ch') ∧
      verifyChallenges gen M cfg proof challenges openInputV = .ok () := by
  unfold bfProve at hp
  split at hp
  case isFalse => cases hp
  case isTrue =>
    simp only [List.getElem?_cons_zero, evalVec_length, log2Strict_pow, Option.bind_eq_bind,
      Option.bind_some, Option.bind_eq_some_iff] at hp
    obtain ⟨r, hr, ⟨acc, ch1⟩, hw, hp⟩ := hp
    obtain ⟨c1, betas, c2, -, c3⟩ := honest_core hg hM hb hin hr
    split at hp
    case isFalse => cases hp
    case isTrue hacc =>
      simp only [Option.bind_eq_some_iff] at hp
      obtain ⟨⟨qps, ch2⟩, hq, hp⟩ := hp
      simp only [Option.some.injEq, Prod.mk.injEq] at hp
      obtain ⟨rfl, rfl, rfl⟩ := hp
      obtain ⟨q1, is, q2, q3⟩ := proveQueries_verify (gen := gen) (cfg := cfg)
        (openInputV := openInputV) (commits := r.commits)
        (betas := betas) (finalPoly := r.finalPoly) hbits (Q := cfg.numQueries) (by
          intro q idx ip openings hq hidx hip hans
          obtain ⟨os, o1, -, o2⟩ := c3 q idx (p0.eval (gen h0 ^ revBits h0 (idx / 2 ^ (h0 - h0)))) hq hidx
          rw [hans] at o1
          obtain rfl := Option.some.inj o1
          exact ⟨_, hopen q idx ip hq hidx hip, o2⟩) cfg.numQueries 0 ch1 ch2 qps (by omega) hq
      refine ⟨⟨is, betas⟩, ?_, ?_⟩
      · unfold verifyShapeAndSampleChallenges
        simp only at hacc
        subst hacc
        simp [c2, q1, hw, c1, q2]
      · unfold verifyChallenges
        simp only [c1]
        exact q3

theorem proveQueries_length {M : Mmcs F S C D P} {K : Chall Ch C F W} {openInputP : Nat → Nat → Option IP}
    {data : List D} {logMaxHeight : Nat} : ∀ {n k : Nat} {ch ch' : Ch} {qs : List (QueryProof F P IP)},
    proveQueries M K openInputP data logMaxHeight n k ch = some (qs, ch') → qs.length = n := by
  intro n
  induction n with
  | zero =>
    intro k ch ch' qs h
    have h := Option.some.inj h
    cases h
    rfl
  | succ n ih =>
    intro k ch ch' qs h
    rw [proveQueries] at h
    simp only [Option.bind_eq_bind, Option.bind_eq_some_iff, Prod.exists] at h
    obtain ⟨i, c1, -, ip, -, os, -, rest, c2, h1, h⟩ := h
    have h := Option.some.inj h
    cases h
    rw [List.length_cons, ih h1]

/-- The parts of a proof that the transcript depends on. -/
theorem bfProve_parts {gen : Nat → F} {M : Mmcs F S C D P} {K : Chall Ch C F W} {cfg : Config} {inputs : List (List F)}
    {s s' : S} {ch ch' : Ch} {w : W} {openInputP : Nat → Nat → Option IP} {pf : FriProof F C P W IP}
    {r : CommitResult F C D S Ch} (hr : commitPhase gen M K cfg s ch inputs = some r)
    (h : bfProve gen M K cfg inputs s ch w openInputP = some (pf, s', ch')) :
    pf.commitPhaseCommits = r.commits ∧ pf.powWitness = w ∧ pf.queryProofs.length = cfg.numQueries := by
  unfold bfProve at h
  split at h
  swap
  · cases h
  simp only [hr, Option.bind_eq_bind, Option.bind_eq_some_iff, Option.some.injEq, exists_eq_left', Prod.exists] at h
  obtain ⟨v, -, lm, -, b, c, -, h⟩ := h
  split at h
  swap
  · cases h
  simp only [Option.bind_eq_some_iff, Prod.exists] at h
  obtain ⟨qs, c2, h1, h⟩ := h
  have h := Option.some.inj h
  cases h
  exact ⟨rfl, rfl, proveQueries_length h1⟩

/-- **C37** No step of an honest run panics.  With a challenger that never panics (on the states in
`Good`) the commit phase succeeds, and for every accepted proof-of-work witness the whole prover does. -/
theorem C37_honest_no_panic {gen : Nat → F} {N : Nat} (hg : TwoAdic gen N) {M : Mmcs F S C D P}
    {K : Chall Ch C F W} {cfg : Config} (hM : M.Honest cfg.numQueries N) (hb : 1 ≤ cfg.logBlowup)
    (hbits : ∀ ch n i ch', K.sampleBits ch n = some (i, ch') → i < 2 ^ n)
    {Good : Ch → Prop} (hK : K.Total Good N)
    {h0 : Nat} {p0 : F[X]} {polys : List (Nat × F[X])} (hin : HonestInputs cfg N h0 p0 polys)
    {openInputP : Nat → Nat → Option IP}
    (hopen : ∀ q idx, q < cfg.numQueries → idx < 2 ^ h0 → ∃ ip, openInputP q idx = some ip)
    (s : S) (ch : Ch) (hch : Good ch) :
    ∃ r, commitPhase gen M K cfg s ch (evalVec gen h0 p0 :: polys.map fun x => evalVec gen x.1 x.2) =
        some r ∧ Good r.chall ∧
      ∀ w ch', K.checkWitness r.chall cfg.powBits w = some (true, ch') →
        ∃ result, bfProve gen M K cfg (evalVec gen h0 p0 :: polys.map fun x => evalVec gen x.1 x.2)
          s ch w openInputP = some result := by
  have hin' := hin
  obtain ⟨g1, g2, g3, gz, g4⟩ := hin
  obtain ⟨m, rfl⟩ : ∃ m, h0 = cfg.logBlowup + m := ⟨h0 - cfg.logBlowup, by omega⟩
  have hlt : m < 2 ^ (cfg.logBlowup + m) + 1 := by
    have := Nat.lt_two_pow_self (n := cfg.logBlowup + m)
    omega
  obtain ⟨r, hr, hgr⟩ := commitLoop_total hg hM hb hK m s ch p0 polys _ hch g2
    (by rwa [Nat.add_sub_cancel_left] at g3) hlt g4
  have hr' : commitPhase gen M K cfg s ch (evalVec gen (cfg.logBlowup + m) p0 ::
      polys.map fun x => evalVec gen x.1 x.2) = some r := by
    rw [commitPhase, evalVec_length, hr]
  refine ⟨r, hr', hgr, ?_⟩
  intro w ch' hw
  obtain ⟨c1, betas, c2, -, c3⟩ := honest_core hg hM hb hin' hr'
  have hqs : ∀ (n k : Nat) (ch : Ch), Good ch → k + n ≤ cfg.numQueries →
      ∃ res, proveQueries M K openInputP r.data (cfg.logBlowup + m) n k ch = some res := by
    intro n
    induction n with
    | zero => intro k ch _ _; exact ⟨_, rfl⟩
    | succ n ih =>
      intro k ch hgc hk
      obtain ⟨i, ch1, h1, hg1⟩ := hK.bits ch (cfg.logBlowup + m) hgc g2
      obtain ⟨ip, h2⟩ := hopen k i (by omega) (hbits _ _ _ _ h1)
      obtain ⟨os, h3, -⟩ := c3 k i 0 (by omega) (hbits _ _ _ _ h1)
      obtain ⟨res, h4⟩ := ih (k + 1) ch1 hg1 (by omega)
      rw [proveQueries]
      simp only [Option.bind_eq_bind, Option.bind_some, h1, h2, h3, h4]
      exact ⟨_, rfl⟩
  obtain ⟨res, hres⟩ := hqs cfg.numQueries 0 ch' (hK.check _ _ _ _ _ hgr hw) (by omega)
  unfold bfProve
  rw [if_pos]
  · simp only [List.getElem?_cons_zero, evalVec_length, log2Strict_pow, Option.bind_eq_bind,
      Option.bind_some, hr', hw, if_true, hres]
    exact ⟨_, rfl⟩
  · have hmono : ∀ (l : List (Nat × F[X])) (x : Nat × F[X]), (x :: l).Pairwise (fun x y => y.1 < x.1) →
        (((x :: l).map fun x => evalVec gen x.1 x.2).zip
          (((x :: l).map fun x => evalVec gen x.1 x.2)).tail).all
          (fun (l, r) => decide (r.length ≤ l.length)) = true := by
      intro l
      induction l with
      | nil => intro x _; rfl
      | cons y l ih =>
        intro x hx
        rw [List.pairwise_cons] at hx
        have h1 := ih y hx.2
        have h2 := hx.1 y List.mem_cons_self
        simp only [List.map_cons, List.tail_cons, List.zip_cons_cons, List.all_cons, Bool.and_eq_true,
          decide_eq_true_eq, evalVec_length] at h1 ⊢
        exact ⟨Nat.pow_le_pow_right (by omega) h2.le, h1⟩
    exact hmono polys (cfg.logBlowup + m, p0)
      (List.pairwise_cons.2 ⟨fun y hy => (g4.2 y hy).2.1, g4.1⟩)

/-- **C37** The prover does not finish on anything but a constant: once no more than the blowup is left,
the commit phase succeeds exactly when `blowup` equal values are left, and these are the final value. -/
theorem C37_final_layer {gen : Nat → F} {M : Mmcs F S C D P} {K : Chall Ch C F W} {cfg : Config} (s : S)
    (ch : Ch) (v : List F) (rest : List (List F)) (hv : v.length ≤ cfg.blowup)
    (r : CommitResult F C D S Ch) :
    commitPhase gen M K cfg s ch (v :: rest) = some r ↔
      v = List.replicate cfg.blowup r.finalPoly ∧ r = ⟨[], [], r.finalPoly, s, ch⟩ := by
  have hpos : 0 < cfg.blowup := Nat.two_pow_pos _
  rw [commitPhase, commitLoop, if_neg (by omega), commitEnd]
  constructor
  · intro h
    split at h
    case isFalse => cases h
    case isTrue hl =>
      simp only [Option.bind_eq_bind, Option.bind_eq_some_iff] at h
      obtain ⟨x, hx, h⟩ := h
      split at h
      case isFalse => cases h
      case isTrue hall =>
        obtain rfl := Option.some.inj h
        refine ⟨List.eq_replicate_iff.2 ⟨hl, ?_⟩, rfl⟩
        intro y hy
        simpa using (List.all_eq_true.1 hall) y hy
  · rintro ⟨hv, hr⟩
    rw [hr, hv]
    simp [hpos]

/-- Non-vacuity: a constant of the right length. -/
example {gen : Nat → F} {M : Mmcs F S C D P} {K : Chall Ch C F W} (s : S) (ch : Ch) :
    commitPhase gen M K ⟨1, 1, 0, true⟩ s ch [[5, 5]] = some ⟨[], [], 5, s, ch⟩ :=
  (C37_final_layer s ch [5, 5] [] (by simp [Config.blowup]) ⟨[], [], 5, s, ch⟩).2
    ⟨by simp [Config.blowup, List.replicate], rfl⟩

/-! ### C38 -/

/-- Two answers of the input opening that differ at most in the value of the first reduced opening, the
one at the largest height. -/
def SameBelowTop (top : Nat) (a b : Res (List (Nat × F))) : Prop :=
  a = b ∨ ∃ x y rest, a = .ok ((top, x) :: rest) ∧ b = .ok ((top, y) :: rest)

/-- **C38 is violated**: the value of the reduced opening at the largest height has no influence on the
verdict, for any proof, any challenges and any commitment scheme. -/
theorem C38_violated_top_ignored {gen : Nat → F} {M : Mmcs F S C D P} {cfg : Config}
    (proof : FriProof F C P W IP) (challenges : FriChallenges F)
    (openInput openInput' : Nat → Nat → IP → Res (List (Nat × F)))
    (h : ∀ q idx ip, SameBelowTop (proof.commitPhaseCommits.length + cfg.logBlowup)
      (openInput q idx ip) (openInput' q idx ip)) :
    verifyChallenges gen M cfg proof challenges openInput =
      verifyChallenges gen M cfg proof challenges openInput' := by
  unfold verifyChallenges
  simp only
  congr 1
  funext ⟨⟨q, idx⟩, qp⟩
  rcases h q idx qp.inputProof with h | ⟨x, y, rest, h1, h2⟩
  · simp only [h]
  · simp only [h1, h2, Res.bind_ok]
    have : verifyQuery gen M cfg proof.commitPhaseCommits idx q qp.commitPhaseOpenings challenges.betas
        ((proof.commitPhaseCommits.length + cfg.logBlowup, x) :: rest)
        (proof.commitPhaseCommits.length + cfg.logBlowup) =
      verifyQuery gen M cfg proof.commitPhaseCommits idx q qp.commitPhaseOpenings challenges.betas
        ((proof.commitPhaseCommits.length + cfg.logBlowup, y) :: rest)
        (proof.commitPhaseCommits.length + cfg.logBlowup) := by
      unfold verifyQuery
      simp only
      rw [queryLoop_top (x := x) (y := y) (fe := 0) (fe' := 0)]
      · intro r hr
        generalize proof.commitPhaseCommits.length + cfg.logBlowup = top at hr ⊢
        cases top with
        | zero => simp at hr
        | succ t =>
          rw [List.range_succ, List.reverse_append] at hr
          revert hr
          cases hz : proof.commitPhaseCommits.zip (qp.commitPhaseOpenings.zip challenges.betas) with
          | nil => simp
          | cons z zs =>
            simp only [List.reverse_singleton, List.singleton_append, List.zip_cons_cons,
              List.head?_cons, Option.mem_some_iff]
            rintro rfl
            rfl
      · intro _; rfl
    rw [this]

/-- **C38 is violated**, as an attack: an honestly produced FRI proof for `p0` and `polys` is accepted
by a verifier whose own reduced opening at the largest height is any other function of the query. -/
theorem C38_violated_wrong_top_accepted {gen : Nat → F} {N : Nat} (hg : TwoAdic gen N)
    {M : Mmcs F S C D P} {K : Chall Ch C F W} {cfg : Config} (hM : M.Honest cfg.numQueries N)
    (hb : 1 ≤ cfg.logBlowup) (hbits : ∀ ch n i ch', K.sampleBits ch n = some (i, ch') → i < 2 ^ n)
    {h0 : Nat} {p0 : F[X]} {polys : List (Nat × F[X])} (hin : HonestInputs cfg N h0 p0 polys)
    {openInputP : Nat → Nat → Option IP} (wrong : Nat → Nat → F)
    {s s' : S} {ch ch' : Ch} {w : W} {proof : FriProof F C P W IP}
    (hp : bfProve gen M K cfg (evalVec gen h0 p0 :: polys.map fun x => evalVec gen x.1 x.2) s ch w
      openInputP = some (proof, s', ch')) :
    ∃ challenges, verifyShapeAndSampleChallenges K cfg proof ch = .ok (challenges, ch') ∧
      verifyChallenges gen M cfg proof challenges
        (fun q idx _ => .ok ((h0, wrong q idx) :: rosOf gen h0 idx polys)) = .ok () := by
  obtain ⟨challenges, h1, h2⟩ := C37_honest_accepted hg hM hb hbits hin
    (openInputV := fun _ idx _ => .ok (rosOf gen h0 idx ((h0, p0) :: polys)))
    (fun _ _ _ _ _ _ => rfl) hp
  refine ⟨challenges, h1, ?_⟩
  have hlen : proof.commitPhaseCommits.length + cfg.logBlowup = h0 := by
    unfold bfProve at hp
    split at hp
    case isFalse => cases hp
    case isTrue =>
      simp only [List.getElem?_cons_zero, evalVec_length, log2Strict_pow, Option.bind_eq_bind,
        Option.bind_some, Option.bind_eq_some_iff] at hp
      obtain ⟨r, hr, ⟨acc, ch1⟩, hw, hp⟩ := hp
      split at hp
      case isFalse => cases hp
      case isTrue =>
        simp only [Option.bind_eq_some_iff] at hp
        obtain ⟨⟨qps, ch2⟩, hq, hp⟩ := hp
        simp only [Option.some.injEq, Prod.mk.injEq] at hp
        obtain ⟨rfl, -, -⟩ := hp
        exact (honest_core hg hM hb hin hr).1
  rw [← h2]
  apply C38_violated_top_ignored
  intro q idx ip
  rw [hlen]
  exact Or.inr ⟨_, _, _, rfl, rfl⟩

/-! ### C39 -/

/-- **C39 is violated**: a proof whose queries carry no commit-phase openings at all and whose final
value is 0 passes the query checks, for every list of commitments, every challenge and every input
opening that is itself accepted.  Without debug assertions there is no further condition. -/
theorem C39_violated_no_rounds {gen : Nat → F} {M : Mmcs F S C D P} {cfg : Config}
    (hd : cfg.debug = false) (proof : FriProof F C P W IP) (challenges : FriChallenges F)
    (hf : proof.finalPoly = 0) (ho : ∀ qp ∈ proof.queryProofs, qp.commitPhaseOpenings = [])
    (openInput : Nat → Nat → IP → Res (List (Nat × F)))
    (hi : ∀ q idx ip, ∃ ros, openInput q idx ip = .ok ros) :
    verifyChallenges gen M cfg proof challenges openInput = .ok () := by
  unfold verifyChallenges
  simp only
  have key : ∀ l : List ((Nat × Nat) × QueryProof F P IP),
      (∀ x ∈ l, x.2.commitPhaseOpenings = []) →
      (l.forM fun ((queryTimesIndex, queryIndex), qp) => do
        let ro ← openInput queryTimesIndex queryIndex qp.inputProof
        let foldedEval ← verifyQuery gen M cfg proof.commitPhaseCommits queryIndex queryTimesIndex
          qp.commitPhaseOpenings challenges.betas ro (proof.commitPhaseCommits.length + cfg.logBlowup)
        if foldedEval ≠ proof.finalPoly then Res.err .finalPoly else Res.ok ()) = Res.ok () := by
    intro l
    induction l with
    | nil => intro _; rfl
    | cons x l ih =>
      intro hx
      obtain ⟨⟨q, idx⟩, qp⟩ := x
      obtain ⟨ros, hr⟩ := hi q idx qp.inputProof
      have hop := hx _ List.mem_cons_self
      simp only at hop
      rw [forM_cons']
      have hv : verifyQuery gen M cfg proof.commitPhaseCommits idx q [] challenges.betas ros
          (proof.commitPhaseCommits.length + cfg.logBlowup) = .ok 0 := by
        simp [verifyQuery, queryLoop, hd]
      simp only [hr, Res.bind_ok, hop, hv, hf, ne_eq, not_true_eq_false, if_false]
      have := ih (fun y hy => hx y (List.mem_cons_of_mem _ hy))
      rw [hf] at this
      exact this
  apply key
  intro x hx
  exact ho _ (List.of_mem_zip hx).2

/-- **C39 is violated**: rounds beyond the shortest of the lists are never looked at.  Replacing the
commitments and challenges from round `k` on, when a query has only `k` openings, changes nothing. -/
theorem C39_violated_truncation {gen : Nat → F} {M : Mmcs F S C D P} {cfg : Config}
    (commits commits' : List C) (idx q : Nat) (openings : List (List (List F) × P))
    (betas betas' : List F) (ros : List (Nat × F)) (top : Nat)
    (hc : commits.take openings.length = commits'.take openings.length)
    (hb : betas.take openings.length = betas'.take openings.length) :
    verifyQuery gen M cfg commits idx q openings betas ros top =
      verifyQuery gen M cfg commits' idx q openings betas' ros top := by
  have key : ∀ (os : List (List (List F) × P)) (c c' : List C) (b b' : List F),
      c.take os.length = c'.take os.length → b.take os.length = b'.take os.length →
      c.zip (os.zip b) = c'.zip (os.zip b') := by
    intro os
    induction os with
    | nil => intros; simp
    | cons o os ih =>
      intro c c' b b' h1 h2
      rcases c with _ | ⟨x, c⟩ <;> rcases c' with _ | ⟨x', c'⟩ <;> rcases b with _ | ⟨y, b⟩ <;>
        rcases b' with _ | ⟨y', b'⟩ <;> simp_all
      exact ih c c' b b' h1.2 h2.2
  unfold verifyQuery
  rw [key openings commits commits' betas betas' hc hb]

/-! ### C40 -/

/-- **C40** What an accepted query guarantees, when it carries an opening for every commitment: every
round opens one pair that the commitment scheme accepts; in every round but the first, the entry of the
pair at the queried position is the line through the previous pair, taken at the previous challenge,
plus the reduced opening of that height; and the last pair folds to the returned value. -/
theorem C40_accepted_query {gen : Nat → F} {N : Nat} (hg : TwoAdic gen N) {M : Mmcs F S C D P}
    {cfg : Config} {commits : List C} {idx q : Nat} {openings : List (List (List F) × P)}
    {betas : List F} {ros : List (Nat × F)} {top : Nat} {v : F}
    (htop : top = commits.length + cfg.logBlowup) (hN : top ≤ N)
    (ho : openings.length = commits.length) (hb : betas.length = commits.length)
    (hr : RosOk ros top)
    (h : verifyQuery gen M cfg commits idx q openings betas ros top = .ok v) :
    ∃ x y : Nat → F,
      (∀ j, j < commits.length → ∃ o ∈ openings[j]?, ∃ c ∈ commits[j]?, o.1 = [[x j, y j]] ∧
        M.verifyBatch q [[x j, y j]] o.2 c = some true) ∧
      (∀ j, j + 1 < commits.length →
        (if idx / 2 ^ (j + 1) % 2 = 0 then x (j + 1) else y (j + 1)) =
          lineAt (gen (top - j) ^ revBits (top - j - 1) (idx / 2 ^ (j + 1))) (betas.getD j 0) (x j) (y j) +
            roAt ros (top - (j + 1))) ∧
      (commits = [] → v = 0) ∧
      (∀ j, j + 1 = commits.length → v =
        lineAt (gen (top - j) ^ revBits (top - j - 1) (idx / 2 ^ (j + 1))) (betas.getD j 0)
          (x j) (y j)) := by
  unfold verifyQuery at h
  simp only [Res.bind_eq_ok] at h
  obtain ⟨⟨fe, idx'⟩, h1, h2⟩ := h
  obtain rfl : fe = v := by
    split at h2
    case isTrue => cases h2
    case isFalse => exact Res.ok.inj h2
  have hzl : (commits.zip (openings.zip betas)).length = commits.length := by simp [ho, hb]
  have htop' : top = cfg.logBlowup + commits.length := by omega
  subst htop'
  rw [range_reverse_down, zip_downList _ _ commits.length _ hzl] at h1
  obtain ⟨-, x, y, i2, -, i4, i5, i6⟩ := queryLoop_ok hg commits.length commits openings betas idx 0 ros
    fe idx' rfl ho hb hN le_rfl hr h1
  refine ⟨x, y, i2, i4, ?_, ?_⟩
  · rintro rfl; exact i5 rfl
  · intro j hj; rw [hj]; exact i6 j hj

/-- Every honest run meets the hypotheses of C40, for every query and every index. -/
theorem C40_instance {gen : Nat → F} {N : Nat} (hg : TwoAdic gen N) {M : Mmcs F S C D P}
    {K : Chall Ch C F W} {cfg : Config} (hM : M.Honest cfg.numQueries N) (hb : 1 ≤ cfg.logBlowup)
    {h0 : Nat} {p0 : F[X]} {polys : List (Nat × F[X])} (hin : HonestInputs cfg N h0 p0 polys)
    {s : S} {ch : Ch} {r : CommitResult F C D S Ch}
    (hr : commitPhase gen M K cfg s ch (evalVec gen h0 p0 :: polys.map fun x => evalVec gen x.1 x.2) =
      some r) (q idx : Nat) (hq : q < cfg.numQueries) (hidx : idx < 2 ^ h0) :
    h0 = r.commits.length + cfg.logBlowup ∧ h0 ≤ N ∧ (cfg.logBlowup < h0 → r.commits ≠ []) ∧
      RosOk (rosOf gen h0 idx ((h0, p0) :: polys)) h0 ∧
      ∃ betas openings, sampleBetas K r.commits ch = some (betas, r.chall) ∧
        betas.length = r.commits.length ∧ openings.length = r.commits.length ∧
        answerQuery M r.data idx q = some openings ∧
        verifyQuery gen M cfg r.commits idx q openings betas (rosOf gen h0 idx ((h0, p0) :: polys)) h0 =
          .ok r.finalPoly := by
  obtain ⟨c1, betas, c2, c3, c4⟩ := honest_core hg hM hb hin hr
  obtain ⟨g1, g2, g3, gz, g4⟩ := hin
  obtain ⟨openings, o1, o2, o3⟩ := c4 q idx (p0.eval (gen h0 ^ revBits h0 (idx / 2 ^ (h0 - h0)))) hq hidx
  refine ⟨c1.symm, g2, ?_, ⟨?_, ?_⟩, betas, openings, c2, c3, o2, o1, o3⟩
  · intro hlt h
    rw [h] at c1
    simp at c1
    omega
  · simp only [rosOf, List.pairwise_map]
    exact List.pairwise_cons.2 ⟨fun y hy => (g4.2 y hy).2.1, g4.1⟩
  · intro x hx
    simp only [rosOf, List.mem_map] at hx
    obtain ⟨y, hy, rfl⟩ := hx
    rcases List.mem_cons.1 hy with rfl | hy
    · exact le_rfl
    · exact (g4.2 y hy).2.1.le

/-- **C40** An accepted proof: every query that has its number and its proof was accepted, with the
final value of the proof. -/
theorem C40_accepted_proof {gen : Nat → F} {M : Mmcs F S C D P} {cfg : Config}
    {proof : FriProof F C P W IP} {challenges : FriChallenges F}
    {openInput : Nat → Nat → IP → Res (List (Nat × F))}
    (h : verifyChallenges gen M cfg proof challenges openInput = .ok ()) (k q idx : Nat)
    (qp : QueryProof F P IP) (h1 : challenges.queryIndices[k]? = some (q, idx))
    (h2 : proof.queryProofs[k]? = some qp) :
    ∃ ros, openInput q idx qp.inputProof = .ok ros ∧
      verifyQuery gen M cfg proof.commitPhaseCommits idx q qp.commitPhaseOpenings challenges.betas ros
        (proof.commitPhaseCommits.length + cfg.logBlowup) = .ok proof.finalPoly := by
  unfold verifyChallenges at h
  simp only at h
  have key : ∀ (l : List ((Nat × Nat) × QueryProof F P IP)) (g : (Nat × Nat) × QueryProof F P IP → Res Unit),
      l.forM g = .ok () → ∀ x ∈ l, g x = .ok () := by
    intro l g
    induction l with
    | nil => simp
    | cons a l ih =>
      intro h x hx
      rw [forM_cons', Res.bind_eq_ok] at h
      obtain ⟨⟨⟩, h1, h2⟩ := h
      rcases List.mem_cons.1 hx with rfl | hx
      · exact h1
      · exact ih h2 x hx
  have hmem : ((q, idx), qp) ∈ challenges.queryIndices.zip proof.queryProofs :=
    List.mem_of_getElem? (i := k) (by rw [List.getElem?_zip_eq_some]; exact ⟨h1, h2⟩)
  have := key _ _ h _ hmem
  simp only [Res.bind_eq_ok] at this
  obtain ⟨ros, r1, v, r2, r3⟩ := this
  refine ⟨ros, r1, ?_⟩
  split at r3
  case isTrue => cases r3
  case isFalse hv => rw [r2, not_not.1 hv]

/-- **C40** The shape step: an accepted proof has the configured number of query proofs, the witness
passes the proof-of-work check after all commitments were absorbed, there is one challenge per
commitment, and the query numbers count from 0. -/
theorem C40_shape {K : Chall Ch C F W} {cfg : Config} {proof : FriProof F C P W IP} {ch ch' : Ch}
    {challenges : FriChallenges F}
    (h : verifyShapeAndSampleChallenges K cfg proof ch = .ok (challenges, ch')) :
    proof.queryProofs.length = cfg.numQueries ∧
      challenges.betas.length = proof.commitPhaseCommits.length ∧
      challenges.queryIndices.map Prod.fst = List.range cfg.numQueries ∧
      ∃ ch1 ch2, sampleBetas K proof.commitPhaseCommits ch = some (challenges.betas, ch1) ∧
        K.checkWitness ch1 cfg.powBits proof.powWitness = some (true, ch2) ∧
        sampleIndices K (proof.commitPhaseCommits.length + cfg.logBlowup) cfg.numQueries 0 ch2 =
          some (challenges.queryIndices, ch') := by
  have hbl : ∀ (cs : List C) (ch ch' : Ch) (bs : List F), sampleBetas K cs ch = some (bs, ch') →
      bs.length = cs.length := by
    intro cs
    induction cs with
    | nil => intro ch ch' bs h; simp [sampleBetas] at h; simp [← h.1]
    | cons c cs ih =>
      intro ch ch' bs h
      simp only [sampleBetas, Option.bind_eq_bind, Option.bind_eq_some_iff] at h
      obtain ⟨c1, -, ⟨b, c2⟩, -, ⟨bs', c3⟩, h3, h4⟩ := h
      simp only [Option.some.injEq, Prod.mk.injEq] at h4
      obtain ⟨rfl, rfl⟩ := h4
      simp [ih _ _ _ h3]
  have hil : ∀ (n k b : Nat) (ch ch' : Ch) (is : List (Nat × Nat)),
      sampleIndices K b n k ch = some (is, ch') → is.map Prod.fst = List.range' k n := by
    intro n
    induction n with
    | zero => intro k b ch ch' is h; simp [sampleIndices] at h; simp [← h.1]
    | succ n ih =>
      intro k b ch ch' is h
      simp only [sampleIndices, Option.bind_eq_bind, Option.bind_eq_some_iff] at h
      obtain ⟨⟨i, c2⟩, -, ⟨is', c3⟩, h3, h4⟩ := h
      simp only [Option.some.injEq, Prod.mk.injEq] at h4
      obtain ⟨rfl, rfl⟩ := h4
      simp [ih _ _ _ _ _ h3, List.range'_succ]
  unfold verifyShapeAndSampleChallenges at h
  simp only [Res.bind_eq_ok, Res.ofOption_eq_ok] at h
  obtain ⟨⟨bs, c1⟩, h1, h⟩ := h
  simp only at h
  split at h
  case isTrue => cases h
  case isFalse hq =>
    rw [Res.bind_eq_ok] at h
    obtain ⟨⟨acc, c2⟩, h2, h⟩ := h
    simp only [Res.ofOption_eq_ok] at h2 h
    split at h
    case isTrue => cases h
    case isFalse hacc =>
      rw [Res.bind_eq_ok] at h
      obtain ⟨⟨is, c3⟩, h3, h⟩ := h
      simp only [Res.ofOption_eq_ok, Res.ok.injEq, Prod.mk.injEq] at h3 h
      obtain ⟨rfl, rfl⟩ := h
      simp only [Bool.not_eq_true', Bool.not_eq_false] at hacc
      subst hacc
      refine ⟨not_not.1 hq, hbl _ _ _ _ h1, ?_, c1, c2, h1, h2, h3⟩
      simp [hil _ _ _ _ _ _ h3, List.range_eq_range']

/-! ### C41 -/

/-- **C41 is violated**: a proof whose value in a later round does not fit the fold of the round before
makes the verifier panic.  Here the first two rounds: any accepted pair in the first, any pair with the
wrong value at the queried position in the second. -/
theorem C41_violated_mismatch_panics {gen : Nat → F} {N : Nat} (hg : TwoAdic gen N)
    {M : Mmcs F S C D P} {cfg : Config} {idx q k : Nat} {c1 c2 : C} {commits : List C} {a b a' b' β1 : F}
    {π1 π2 : P} {openings : List (List (List F) × P)} {betas : List F} {ros : List (Nat × F)}
    (hN : k + 2 ≤ N) (hr : RosOk ros (k + 2)) (β2 : F)
    (h1 : M.verifyBatch q [[a, b]] π1 c1 = some true)
    (h2 : (if idx / 2 % 2 = 0 then a' else b') ≠
      lineAt (gen (k + 2) ^ revBits (k + 1) (idx / 2)) β1 a b + roAt ros (k + 1)) :
    verifyQuery gen M cfg (c1 :: c2 :: commits) idx q (([[a, b]], π1) :: ([[a', b']], π2) :: openings)
      (β1 :: β2 :: betas) ros (k + 2) = .panic := by
  unfold verifyQuery
  rw [List.range_succ, List.range_succ, List.reverse_append, List.reverse_append]
  simp only [List.reverse_singleton, List.singleton_append, List.zip_cons_cons]
  obtain ⟨r1, r2, r3⟩ := nextRo_spec hr 0
  rw [queryLoop]
  generalize hnr : nextRo (k + 1 + 1) 0 ros = nr at r1 r2 r3
  obtain ⟨fe1, ros1⟩ := nr
  simp only at r1 r2 r3
  have hcom : ∃ z, [a, b][idx % 2]? = some z := by
    rcases Nat.mod_two_eq_zero_or_one idx with h0 | h0 <;> rw [h0]
    · exact ⟨a, rfl⟩
    · exact ⟨b, rfl⟩
  obtain ⟨z, hz⟩ := hcom
  simp only [List.length_singleton, if_true, List.getElem?_cons_zero, Res.ofOption_some, Res.bind_ok, hz,
    h1, foldRow_eq hg hN, foldVal_line hg hN]
  rw [if_neg (by omega)]
  rw [queryLoop]
  obtain ⟨s1, -, -⟩ := nextRo_spec (h := k + 1) (ros := ros1) (by simpa using r2)
    (lineAt (gen (k + 1 + 1) ^ revBits (k + 1) (idx / 2)) β1 a b)
  generalize hnr2 : nextRo (k + 1) (lineAt (gen (k + 1 + 1) ^ revBits (k + 1) (idx / 2)) β1 a b) ros1
    = nr2 at s1
  obtain ⟨fe2, ros2⟩ := nr2
  simp only at s1
  have hcom2 : [a', b'][idx / 2 % 2]? = some (if idx / 2 % 2 = 0 then a' else b') := by
    rcases Nat.mod_two_eq_zero_or_one (idx / 2) with h0 | h0 <;> rw [h0] <;> rfl
  simp only [List.length_singleton, if_true, List.getElem?_cons_zero, Res.ofOption_some, Res.bind_ok, hcom2]
  rw [if_pos]
  · rfl
  · refine ⟨by omega, ?_⟩
    rw [s1, r3 (k + 1) (by omega)]
    exact fun h => h2 h.symm

/-- The hypotheses of the previous theorem can be met in every field: take for the second pair the right
value plus one. -/
example {gen : Nat → F} {M : Mmcs F S C D P} (_ : ∀ q o π c, M.verifyBatch q o π c = some true)
    (idx k : Nat) (a b β1 : F) : ∃ a' : F,
    (if idx / 2 % 2 = 0 then a' else a') ≠
      lineAt (gen (k + 2) ^ revBits (k + 1) (idx / 2)) β1 a b + roAt [] (k + 1) :=
  ⟨lineAt (gen (k + 2) ^ revBits (k + 1) (idx / 2)) β1 a b + roAt [] (k + 1) + 1, by simp⟩

/-- **C41 is violated**: an opening with a number of rows other than one makes the verifier panic. -/
theorem C41_violated_row_count_panics {gen : Nat → F} {M : Mmcs F S C D P} {cfg : Config}
    {idx q k : Nat} {c : C} {commits : List C} {β : F} {π : P} {rows : List (List F)}
    {openings : List (List (List F) × P)} {betas : List F} {ros : List (Nat × F)} (h : rows.length ≠ 1) :
    verifyQuery gen M cfg (c :: commits) idx q ((rows, π) :: openings) (β :: betas) ros (k + 1) =
      .panic := by
  unfold verifyQuery
  rw [List.range_succ, List.reverse_append]
  simp only [List.reverse_singleton, List.singleton_append, List.zip_cons_cons]
  rw [queryLoop]
  simp [h]

/-- **C41 is violated**: an opened row without an entry at the queried position makes the verifier
panic. -/
theorem C41_violated_short_row_panics {gen : Nat → F} {M : Mmcs F S C D P} {cfg : Config}
    {idx q k : Nat} {c : C} {commits : List C} {β : F} {π : P} {row : List F}
    {openings : List (List (List F) × P)} {betas : List F} {ros : List (Nat × F)}
    (h : row.length ≤ idx % 2) :
    verifyQuery gen M cfg (c :: commits) idx q (([row], π) :: openings) (β :: betas) ros (k + 1) =
      .panic := by
  unfold verifyQuery
  rw [List.range_succ, List.reverse_append]
  simp only [List.reverse_singleton, List.singleton_append, List.zip_cons_cons]
  rw [queryLoop]
  simp [List.getElem?_eq_none h]

/-- **C41**, the faults that are returned as errors: a wrong number of queries, a rejected
proof-of-work witness, an opening the commitment scheme rejects in the first round, and a wrong final
value.  Missing: a mismatch in a later round, malformed openings and missing rounds (above). -/
theorem C41_reported_errors_partial {gen : Nat → F} {M : Mmcs F S C D P} {K : Chall Ch C F W}
    {cfg : Config} (proof : FriProof F C P W IP) (ch ch1 : Ch) (bs : List F)
    (hb : sampleBetas K proof.commitPhaseCommits ch = some (bs, ch1)) :
    (proof.queryProofs.length ≠ cfg.numQueries →
      verifyShapeAndSampleChallenges K cfg proof ch = .err .shape) ∧
    (proof.queryProofs.length = cfg.numQueries →
      ∀ ch2, K.checkWitness ch1 cfg.powBits proof.powWitness = some (false, ch2) →
      verifyShapeAndSampleChallenges K cfg proof ch = .err .pow) ∧
    (∀ (idx q k : Nat) (c : C) (commits : List C) (β a b : F) (π : P) openings betas ros,
      M.verifyBatch q [[a, b]] π c = some false →
      verifyQuery gen M cfg (c :: commits) idx q (([[a, b]], π) :: openings) (β :: betas) ros (k + 1) =
        .err .mmcs) ∧
    (∀ (challenges : FriChallenges F) openInput q idx qp ros v,
      challenges.queryIndices = [(q, idx)] → proof.queryProofs = [qp] →
      openInput q idx qp.inputProof = .ok ros →
      verifyQuery gen M cfg proof.commitPhaseCommits idx q qp.commitPhaseOpenings challenges.betas ros
        (proof.commitPhaseCommits.length + cfg.logBlowup) = .ok v → v ≠ proof.finalPoly →
      verifyChallenges gen M cfg proof challenges openInput = .err .finalPoly) := by
  refine ⟨?_, ?_, ?_, ?_⟩
  · intro h
    simp [verifyShapeAndSampleChallenges, hb, h]
  · intro h ch2 hw
    simp [verifyShapeAndSampleChallenges, hb, h, hw]
  · intro idx q k c commits β a b π openings betas ros h
    unfold verifyQuery
    rw [List.range_succ, List.reverse_append]
    simp only [List.reverse_singleton, List.singleton_append, List.zip_cons_cons]
    rw [queryLoop]
    have hcom : ∃ z, [a, b][idx % 2]? = some z := by
      rcases Nat.mod_two_eq_zero_or_one idx with h0 | h0 <;> rw [h0]
      · exact ⟨a, rfl⟩
      · exact ⟨b, rfl⟩
    obtain ⟨z, hz⟩ := hcom
    simp [hz, h]
  · intro challenges openInput q idx qp ros v h1 h2 h3 h4 h5
    unfold verifyChallenges
    simp [h1, h2, h3, h4, h5]

end TapStark.Fri
