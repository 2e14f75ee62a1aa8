import Verif.Props.AlterTrace
import Verif.Props.ClaimsOpening

/-!
C107 for the script verifier: which other claims pass with a proof on which the script verifier succeeds.
-/

set_option linter.unusedSectionVars false

namespace TapStark.Pcs

open TapStark.Fri

section
variable {K F : Type} [Field K] [Field F] [DecidableEq K] [DecidableEq F] [Algebra K F]

/-- The quotients of one point with two lists of claims. -/
theorem dotPowers_quot (a d : F) : ∀ (row : List K) (ys ys' : List F), ys'.length = ys.length → ys.length ≤ row.length →
    dotPowers a ((row.zip ys).map fun w => (algebraMap K F w.1 - w.2) / d) -
      dotPowers a ((row.zip ys').map fun w => (algebraMap K F w.1 - w.2) / d) = (dotPowers a ys' - dotPowers a ys) / d
  | row, [], ys', h, _ => by
    rw [List.length_nil, List.length_eq_zero_iff] at h
    subst h
    simp
  | [], y :: ys, _, _, h => by simp at h
  | r :: row, y :: ys, [], h, _ => by simp at h
  | r :: row, y :: ys, y' :: ys', h, h' => by
    have ih := dotPowers_quot a d row ys ys' (by simpa using h) (by simpa using h')
    simp only [List.zip_cons_cons, List.map_cons, dotPowers_cons]
    have : a * dotPowers a ((row.zip ys).map fun w => (algebraMap K F w.1 - w.2) / d) =
        a * dotPowers a ((row.zip ys').map fun w => (algebraMap K F w.1 - w.2) / d) +
          a * ((dotPowers a ys' - dotPowers a ys) / d) := by
      rw [← ih]
      ring
    rw [this]
    ring

end

end TapStark.Pcs

namespace TapStark.Stark

open TapStark.Fri TapStark.Pcs TapStark.Tap TapStark.FS TapStark.Tcs

section
variable {K F : Type} [Field K] [Field F] [DecidableEq K] [DecidableEq F] [Algebra K F]
variable {SI C DI PI S D P Ch W : Type}

theorem same_chunks {top b : Nat} {z : F} : ∀ {ds : List (Dom K)}, (∀ d ∈ ds, d.logN + b = top) → ∀ (cs cs' : List (List F)),
    cs.length = cs'.length → List.Forall₂ (fun m m' : Dom K × List (F × List F) => m.1 = m'.1 ∧
      m.2.map Prod.fst = m'.2.map Prod.fst ∧ (m.1.logN + b ≠ top → m.2 = m'.2))
      ((ds.zip cs).map fun (d, v) => (d, [(z, v)])) ((ds.zip cs').map fun (d, v) => (d, [(z, v)]))
  | [], _, _, _, _ => by simp
  | d :: ds, _, [], [], _ => by simp
  | d :: ds, hd, c :: cs, c' :: cs', hl => by
    simp only [List.zip_cons_cons, List.map_cons]
    exact .cons ⟨rfl, rfl, fun hne => absurd (hd d (List.mem_cons_self ..)) hne⟩
      (same_chunks (fun e he => hd e (List.mem_cons_of_mem _ he)) cs cs' (by simpa using hl))

theorem same_points {z : F} : ∀ (ds : List (Dom K)) (cs cs' : List (List F)),
    cs.length = cs'.length → List.Forall₂ (fun m m' : Dom K × List (F × List F) => m.1 = m'.1 ∧
      m.2.map Prod.fst = m'.2.map Prod.fst)
      ((ds.zip cs).map fun (d, v) => (d, [(z, v)])) ((ds.zip cs').map fun (d, v) => (d, [(z, v)]))
  | [], _, _, _ => by simp
  | d :: ds, [], [], _ => by simp
  | d :: ds, c :: cs, c' :: cs', hl => by
    simp only [List.zip_cons_cons, List.map_cons]
    exact .cons ⟨rfl, rfl⟩ (same_points ds cs cs' (by simpa using hl))

/-- **C107** for any number of folding rounds: an accepted proof is accepted with other claims, for the same or another
statement with as many chunks, just when there are as many of them as the statement asks for, they pass the check of the
quotient and, for every query, the combination of the claims is the same at every height that belongs to an opened round after
the first. -/
theorem C107_native_rounds {u : Setup K F SI C DI PI S D P Ch W} (hu : u.Ok) {air air' : Air K} {pub pub' : List K} {q : Nat}
    (hq : getLogQuotientDegree air pub.length = some q) (hq' : getLogQuotientDegree air' pub'.length = some q) {ch ch' : Ch}
    {proof : ProofOf K F C P W PI} (h : verify u air ch proof pub = .ok ch')
    (hN : proof.openingProof.commitPhaseCommits.length + u.cfg.logBlowup ≤ u.twoAdicity)
    {alpha zeta batch : F} {chz ch0 ch1 ch2 : Ch} {betas : List F} {indices : List (Nat × Nat)}
    (hc : challenges u ch proof.traceCommit proof.quotientCommit = some (alpha, zeta, chz))
    (h1 : u.chall.sample chz = some (batch, ch0))
    (h2 : sampleBetas u.chall proof.openingProof.commitPhaseCommits ch0 = some (betas, ch1))
    (h3 : u.chall.checkWitness ch1 u.cfg.powBits proof.openingProof.powWitness = some (true, ch2))
    (h4 : sampleIndices u.chall (proof.openingProof.commitPhaseCommits.length + u.cfg.logBlowup) u.cfg.numQueries 0 ch2 =
      some (indices, ch'))
    (l' n' : List F) (cs' : List (List F)) :
    verify u air' ch { proof with traceLocal := l', traceNext := n', quotientChunks := cs' } pub' = .ok ch' ↔
      (l'.length = air'.width ∧ n'.length = air'.width ∧ cs'.length = 2 ^ q ∧ ∀ c ∈ cs', c.length = u.deg.D) ∧
      oodCheck u air' pub' ⟨proof.degreeBits, 1⟩ (chunkDomains u.genV proof.degreeBits q u.g)
        { proof with traceLocal := l', traceNext := n', quotientChunks := cs' } alpha zeta = some true ∧
      ∀ (k i idx : Nat) (qp : QueryProof F P (List (List (List K) × PI))), indices[k]? = some (i, idx) →
        proof.openingProof.queryProofs[k]? = some qp →
        ∀ j, j + 1 < min qp.commitPhaseOpenings.length proof.openingProof.commitPhaseCommits.length →
          let top := proof.openingProof.commitPhaseCommits.length + u.cfg.logBlowup
          let combined := fun p => combinedClaims u.genV u.g u.cfg.logBlowup top idx batch
            (qp.inputProof.zip (claims u q p zeta)) (top - (j + 1))
          combined { proof with traceLocal := l', traceNext := n', quotientChunks := cs' } = combined proof := by
  obtain ⟨hkq, hs⟩ := accepted_shape hq h
  obtain ⟨a, z, c, g1, g2, g3⟩ := (verify_ok_iff hu hq hkq hs).mp h
  cases hc.symm.trans g1
  have hsame : cs'.length = 2 ^ q → SameButValues (claimsWith u proof q zeta proof.quotientChunks) (claimsWith u
      { proof with traceLocal := l', traceNext := n', quotientChunks := cs' } q zeta cs') := fun hcs =>
    .cons ⟨rfl, .cons ⟨rfl, rfl⟩ .nil⟩ (.cons ⟨rfl, same_points _ _ _ (hs.2.2.1.trans hcs.symm)⟩ .nil)
  have e2 : claimsWith u { proof with traceLocal := l', traceNext := n', quotientChunks := cs' } q zeta cs' =
    claims u q { proof with traceLocal := l', traceNext := n', quotientChunks := cs' } zeta := claimsWith_eq u q _ zeta
  rw [claimsWith_eq] at g2 hsame
  rw [e2] at hsame
  have key := fun hcs => C73_exact hu.twoAdic hN (hsame hcs) g2 h1 h2 h3 h4
  constructor
  · intro h'
    have hs' := (accepted_shape hq' h').2
    obtain ⟨a', z', c', k1, k2, k3⟩ := (verify_ok_iff hu hq'
      (proof := { proof with traceLocal := l', traceNext := n', quotientChunks := cs' }) hkq hs').mp h'
    cases hc.symm.trans k1
    rw [e2] at k2
    exact ⟨hs', k3, (key hs'.2.2.1).mp k2⟩
  · rintro ⟨hs', k3, k4⟩
    refine (verify_ok_iff hu hq' (proof := { proof with traceLocal := l', traceNext := n', quotientChunks := cs' }) hkq hs').mpr
      ⟨alpha, zeta, chz, hc, ?_, k3⟩
    rw [e2]
    exact (key hs'.2.2.1).mpr k4

/-- Every accepted proof meets the hypotheses of `C107_native_rounds` on the challenges. -/
theorem accepted_challenges {u : Setup K F SI C DI PI S D P Ch W} (hu : u.Ok) {air : Air K} {pub : List K} {q : Nat}
    (hq : getLogQuotientDegree air pub.length = some q) {ch ch' : Ch}
    {proof : ProofOf K F C P W PI} (h : verify u air ch proof pub = .ok ch')
    (hN : proof.openingProof.commitPhaseCommits.length + u.cfg.logBlowup ≤ u.twoAdicity) :
    ∃ alpha zeta batch chz ch0 ch1 ch2 betas indices,
      challenges u ch proof.traceCommit proof.quotientCommit = some (alpha, zeta, chz) ∧
      u.chall.sample chz = some (batch, ch0) ∧
      sampleBetas u.chall proof.openingProof.commitPhaseCommits ch0 = some (betas, ch1) ∧
      u.chall.checkWitness ch1 u.cfg.powBits proof.openingProof.powWitness = some (true, ch2) ∧
      sampleIndices u.chall (proof.openingProof.commitPhaseCommits.length + u.cfg.logBlowup) u.cfg.numQueries 0 ch2 =
        some (indices, ch') := by
  obtain ⟨hkq, hs⟩ := accepted_shape hq h
  obtain ⟨alpha, zeta, chz, g1, g2, -⟩ := (verify_ok_iff hu hq hkq hs).mp h
  rw [(C117_opening_exact hu.twoAdic _ proof.openingProof hN chz).1] at g2
  obtain ⟨batch, ch0, betas, ch1, ch2, indices, k1, k2, -, k4, k5, -⟩ := g2
  exact ⟨alpha, zeta, batch, chz, ch0, ch1, ch2, betas, indices, g1, k1, k2, k4, k5⟩

/-- **C107** and **C73** for proofs, what the native verifier asks of other claims: if an accepted proof has as many folding
rounds as the trace has bits, it is accepted with other claims, for the same or another statement with as many chunks, just
when there are as many of them as the statement asks for and they pass the check of the quotient. -/
theorem C107_native_exact {u : Setup K F SI C DI PI S D P Ch W} (hu : u.Ok) {air air' : Air K} {pub pub' : List K} {q : Nat}
    (hq : getLogQuotientDegree air pub.length = some q) (hq' : getLogQuotientDegree air' pub'.length = some q) {ch ch' : Ch}
    {proof : ProofOf K F C P W PI} (h : verify u air ch proof pub = .ok ch')
    (htop : proof.openingProof.commitPhaseCommits.length = proof.degreeBits)
    {alpha zeta : F} {chz : Ch} (hc : challenges u ch proof.traceCommit proof.quotientCommit = some (alpha, zeta, chz))
    (l' n' : List F) (cs' : List (List F)) :
    verify u air' ch { proof with traceLocal := l', traceNext := n', quotientChunks := cs' } pub' = .ok ch' ↔
      (l'.length = air'.width ∧ n'.length = air'.width ∧ cs'.length = 2 ^ q ∧ ∀ c ∈ cs', c.length = u.deg.D) ∧
      oodCheck u air' pub' ⟨proof.degreeBits, 1⟩ (chunkDomains u.genV proof.degreeBits q u.g)
        { proof with traceLocal := l', traceNext := n', quotientChunks := cs' } alpha zeta = some true := by
  obtain ⟨hkq, hs⟩ := accepted_shape hq h
  obtain ⟨a, z, c, h1, h2, h3⟩ := (verify_ok_iff hu hq hkq hs).mp h
  cases hc.symm.trans h1
  have hsame : cs'.length = 2 ^ q → Pcs.verify u.genV u.g u.mi u.m u.chall u.cfg (claimsWith u
      { proof with traceLocal := l', traceNext := n', quotientChunks := cs' } q zeta cs') proof.openingProof chz = .ok ch' := by
    intro hcs
    rw [← h2]
    refine C73_violated_top_values_ignored _ _ _ _ (.cons ⟨rfl, .cons ⟨rfl, rfl, fun hne => absurd ?_ hne⟩ .nil⟩
      (.cons ⟨rfl, same_chunks ?_ _ _ (hcs.trans hs.2.2.1.symm)⟩ .nil))
    · rw [htop]
    · intro d hd
      rw [htop]
      obtain ⟨i, -, rfl⟩ := List.mem_map.mp hd
      rfl
  constructor
  · intro h'
    have hs' := (accepted_shape hq' h').2
    refine ⟨hs', ?_⟩
    obtain ⟨a', z', c', k1, -, k3⟩ := (verify_ok_iff hu hq'
      (proof := { proof with traceLocal := l', traceNext := n', quotientChunks := cs' }) hkq hs').mp h'
    cases hc.symm.trans k1
    exact k3
  · rintro ⟨hs', k3⟩
    exact (verify_ok_iff hu hq' (proof := { proof with traceLocal := l', traceNext := n', quotientChunks := cs' }) hkq hs').mpr
      ⟨alpha, zeta, chz, hc, hsame hs'.2.2.1, k3⟩

end

section
variable {SI DI PI S D P : Type} {mi : InMmcs BB SI Roots DI PI} {m : Mmcs BB4 S Roots D P} {cfg : Config}

/-- The claims of a proof with one quotient chunk. -/
def claimsOf (c c' : Roots) (d : Nat) (zeta zeta' : BB4) (l n q : List BB4) : List (VerifierRound BB BB4 Roots) :=
  [(c, [((⟨d, 1⟩ : Dom BB), [(zeta, l), (zeta', n)])]), (c', [((⟨d, 31⟩ : Dom BB), [(zeta, q)])])]

variable {c c' : Roots} {d : Nat} {zeta zeta' : BB4} {l n q l' n' q' : List BB4} {batch : BB4} {top qi index : Nat}
  {row qrow : List BB} {rows qrows : List (List BB)} {π π' : PI} {ip : List (List (List BB) × PI)}

/-- Other claims of the same lengths are read as well, and change the reduced opening of the height of the matrices by the
combination of the differences. -/
theorem verifyInput_claims (hl : l'.length = l.length) (hn : n'.length = n.length) (hq : q'.length = q.length)
    (h1 : l.length ≤ row.length) (h2 : n.length ≤ row.length) (h3 : q.length ≤ qrow.length) {vals : List (Nat × BB4)}
    (h : verifyInput mi bbGen 31 cfg batch (claimsOf c c' d zeta zeta' l n q) top qi index
      ((row :: rows, π) :: (qrow :: qrows, π') :: ip) = .ok vals) :
    d + cfg.logBlowup ≤ top ∧
    algebraMap BB BB4 (queryPoint bbGen 31 (d + cfg.logBlowup) (index >>> (top - (d + cfg.logBlowup)))) ≠ zeta ∧
    algebraMap BB BB4 (queryPoint bbGen 31 (d + cfg.logBlowup) (index >>> (top - (d + cfg.logBlowup)))) ≠ zeta' ∧
    ∃ vals', verifyInput mi bbGen 31 cfg batch (claimsOf c c' d zeta zeta' l' n' q') top qi index
        ((row :: rows, π) :: (qrow :: qrows, π') :: ip) = .ok vals' ∧
      (∀ r ∈ vals', r.1 = d + cfg.logBlowup) ∧
      (∀ k, k ≠ d + cfg.logBlowup → roAt vals k = roAt vals' k) ∧
      roAt vals (d + cfg.logBlowup) - roAt vals' (d + cfg.logBlowup) =
        (dotPowers batch l' - dotPowers batch l + batch ^ (l.length + n.length) * (dotPowers batch q' - dotPowers batch q)) /
          (algebraMap BB BB4 (queryPoint bbGen 31 (d + cfg.logBlowup) (index >>> (top - (d + cfg.logBlowup)))) - zeta) +
        batch ^ l.length * (dotPowers batch n' - dotPowers batch n) /
          (algebraMap BB BB4 (queryPoint bbGen 31 (d + cfg.logBlowup) (index >>> (top - (d + cfg.logBlowup)))) - zeta') := by
  have ho := verifyInput_exact.1.mp ⟨vals, h⟩
  have hle : d + cfg.logBlowup ≤ top := (ho _ (List.mem_cons_self ..)).2.1 _ (List.mem_cons_self ..)
  have hz := (verifyInput_terms h hle).2 (row, _) (List.mem_cons_self ..) rfl
  refine ⟨hle, hz (zeta, l) (by simp), hz (zeta', n) (by simp), ?_⟩
  have ho' : ∃ vals', verifyInput mi bbGen 31 cfg batch (claimsOf c c' d zeta zeta' l' n' q') top qi index
        ((row :: rows, π) :: (qrow :: qrows, π') :: ip) = .ok vals' := by
    rw [verifyInput_exact.1]
    simp only [claimsOf, List.zip_cons_cons, List.zip_nil_right, List.forall_mem_cons, InputInOrder, ne_eq, reduceCtorEq,
      not_false_eq_true, true_and] at ho ⊢
    exact ho
  obtain ⟨vals', h'⟩ := ho'
  have hat : ∀ {l n q vals}, verifyInput mi bbGen 31 cfg batch (claimsOf c c' d zeta zeta' l n q) top qi index
      ((row :: rows, π) :: (qrow :: qrows, π') :: ip) = .ok vals → ∀ r ∈ vals, r.1 = d + cfg.logBlowup := by
    intro l n q vals h
    refine verifyInput_at (Q := fun k => k = d + cfg.logBlowup) ?_ h
    simp [claimsOf, Dom.size]
  have h0 : ∀ {w : List (Nat × BB4)} {k}, (∀ r ∈ w, r.1 = d + cfg.logBlowup) → k ≠ d + cfg.logBlowup → roAt w k = 0 := by
    intro w k hw hk
    rw [roAt, List.filter_eq_nil_iff.2]
    · rfl
    · intro r hr
      have := hw r hr
      rw [beq_iff_eq]
      omega
  refine ⟨vals', h', hat h', fun k hk => (h0 (hat h) hk).trans (h0 (hat h') hk).symm, ?_⟩
  rw [(verifyInput_terms h hle).1, (verifyInput_terms h' hle).1]
  simp only [claimsOf, List.zip_cons_cons, List.zip_nil_right, opened, List.flatMap_cons, List.flatMap_nil, List.cons_append,
    List.nil_append, List.append_nil, heightTerms_cons, if_true, matTerms, dotPowers_append, List.length_map,
    List.length_zip, List.length_append]
  generalize algebraMap BB BB4 (queryPoint bbGen 31 (d + cfg.logBlowup) (index >>> (top - (d + cfg.logBlowup)))) = x
  have e1 := dotPowers_quot batch (x - zeta) row l l' hl h1
  have e2 := dotPowers_quot batch (x - zeta') row n n' hn h2
  have e3 := dotPowers_quot batch (x - zeta) qrow q q' hq h3
  rw [hl, hn, Nat.min_eq_right h1, Nat.min_eq_right h2]
  have e0 : heightTerms (F := BB4) bbGen 31 cfg.logBlowup top index (d + cfg.logBlowup) [] = [] := rfl
  rw [e0, dotPowers_nil]
  linear_combination e1 + batch ^ l.length * e2 + batch ^ (l.length + n.length) * e3

/-- A query whose rows have an entry for every claim and that opens a row for every folding round; and no folding challenge
is the negative of the point of its round. -/
structure Plain (cfg : Config) (proof : ProofOf BB BB4 Roots P U32 PI) (betas : List BB4)
    (qr : (Nat × Nat) × QueryProof BB4 P (List (List (List BB) × PI))) : Prop where
  rounds : proof.openingProof.commitPhaseCommits.length ≤ qr.2.commitPhaseOpenings.length
  rows : ∃ row rows π qrow qrows π' ip, qr.2.inputProof = (row :: rows, π) :: (qrow :: qrows, π') :: ip ∧
    proof.traceLocal.length ≤ row.length ∧ proof.traceNext.length ≤ row.length ∧ 4 ≤ qrow.length
  betas : ∀ j < proof.openingProof.commitPhaseCommits.length, betas.getD j 0 ≠
    -(algebraMap BB BB4 (bbGen (proof.openingProof.commitPhaseCommits.length + cfg.logBlowup)) ^
      revBits (proof.openingProof.commitPhaseCommits.length + cfg.logBlowup) qr.1.2) ^ 2 ^ j

/-- The point of the domain of the trace that a query looks at. -/
noncomputable def pointOf (cfg : Config) (proof : ProofOf BB BB4 Roots P U32 PI)
    (qr : (Nat × Nat) × QueryProof BB4 P (List (List (List BB) × PI))) : BB4 :=
  algebraMap BB BB4 (queryPoint bbGen 31 (proof.degreeBits + cfg.logBlowup)
    (qr.1.2 >>> (proof.openingProof.commitPhaseCommits.length - proof.degreeBits)))

/-- A query that passes passes with other claims just when the combination of the differences is zero at its point. -/
theorem query_claims {proof : ProofOf BB BB4 Roots P U32 PI} {betas : List BB4} (hb1 : 1 ≤ proof.degreeBits)
    (hbe : betas.length = proof.openingProof.commitPhaseCommits.length)
    (hmax : proof.openingProof.commitPhaseCommits.length + cfg.logBlowup ≤ 27)
    {qr : (Nat × Nat) × QueryProof BB4 P (List (List (List BB) × PI))} (hpl : Plain cfg proof betas qr)
    (hqc : proof.quotientChunks = [q]) (hq4 : q.length = 4) (hl : l'.length = proof.traceLocal.length)
    (hn : n'.length = proof.traceNext.length) (hq : q'.length = q.length)
    (h : QueryPasses mi m cfg proof.openingProof (openingClaims proof zeta) batch betas qr) :
    pointOf cfg proof qr ≠ zeta ∧ pointOf cfg proof qr ≠ zeta * algebraMap BB BB4 (bbGen proof.degreeBits) ∧
    (QueryPasses mi m cfg proof.openingProof
        (openingClaims { proof with traceLocal := l', traceNext := n', quotientChunks := [q'] } zeta) batch betas qr ↔
      (dotPowers batch l' - dotPowers batch proof.traceLocal + batch ^ (proof.traceLocal.length + proof.traceNext.length) *
          (dotPowers batch q' - dotPowers batch q)) / (pointOf cfg proof qr - zeta) +
        batch ^ proof.traceLocal.length * (dotPowers batch n' - dotPowers batch proof.traceNext) /
          (pointOf cfg proof qr - zeta * algebraMap BB BB4 (bbGen proof.degreeBits)) = 0) := by
  obtain ⟨hr, ⟨row, rows, π, qrow, qrows, π', ip, hip, r1, r2, r3⟩, hβ⟩ := hpl
  have ec : openingClaims proof zeta = claimsOf proof.traceCommit proof.quotientCommit proof.degreeBits zeta
      (zeta * algebraMap BB BB4 (bbGen proof.degreeBits)) proof.traceLocal proof.traceNext q := by
    rw [openingClaims, hqc]
    rfl
  have ec' : openingClaims { proof with traceLocal := l', traceNext := n', quotientChunks := [q'] } zeta =
      claimsOf proof.traceCommit proof.quotientCommit proof.degreeBits zeta
      (zeta * algebraMap BB BB4 (bbGen proof.degreeBits)) l' n' q' := rfl
  obtain ⟨p1, p2, vals, e1, e2, e3⟩ := h
  rw [ec, hip] at e1
  obtain ⟨k1, k2, k3, vals', k4, k5, k6, k7⟩ := verifyInput_claims hl hn hq r1 r2 (by omega) e1
  have ep : pointOf cfg proof qr = algebraMap BB BB4 (queryPoint bbGen 31 (proof.degreeBits + cfg.logBlowup)
      (qr.1.2 >>> (proof.openingProof.commitPhaseCommits.length + cfg.logBlowup - (proof.degreeBits + cfg.logBlowup)))) := by
    rw [pointOf, Nat.add_sub_add_right]
  rw [← ep] at k2 k3 k7
  refine ⟨k2, k3, ?_⟩
  rw [← k7, sub_eq_zero, ec']
  constructor
  · rintro ⟨-, -, w, f1, f2, f3⟩
    rw [hip] at f1
    cases k4.symm.trans f1
    refine foldChain_inj bb4Field_ok.twoAdic.two_ne (by omega) k6 _ _ _ _ ?_ k1 ?_ ?_ (e3.trans f3.symm)
    · exact pow_ne_zero _ (bb4Field_ok.twoAdic.ne_zero hmax)
    · rw [List.length_zip, siblings_length, List.length_map, hbe]
      omega
    · intro j hj
      have hj' := hj
      rw [List.length_zip, hbe] at hj
      rw [List.getD_eq_getElem?_getD, List.getElem?_eq_getElem hj', Option.getD_some, List.getElem_zip]
      have := hβ j (by omega)
      rwa [List.getD_eq_getElem?_getD, List.getElem?_eq_getElem (by omega), Option.getD_some] at this
  · intro he
    have hfun : roAt vals = roAt vals' := by
      funext k
      by_cases hk : k = proof.degreeBits + cfg.logBlowup
      · rw [hk, he]
      · exact k6 k hk
    refine ⟨p1, p2, vals', by rw [hip]; exact k4, fun r hr' => ?_, by rw [← hfun]; exact e3⟩
    rw [k5 r hr']
    omega

variable {scfg : Cfg} {L : U31Lib} {T : TrackerLib} {drops : Nat → List Op} {hash : List UInt8 → U256} {air : Air BB}
  {pub : List BB} {proof : ProofOf BB BB4 Roots P U32 PI}

/-- **C107**, what the script verifier asks of other claims: on a proof on which it succeeds and whose queries are plain, it
succeeds with other claims of the same lengths, for the same or another statement of the same width, just when they pass the
check of the quotient of that statement and, at the point of every query, the combination of the differences is zero. -/
theorem C107_script_other_claims (hL : L.Ok scfg) (hT : T.Ok scfg)
    (hD : ∀ x : List Elem, x.length ≤ 4 → Does scfg (drops x.length) x []) (hH : IsBlake3 hash) (ext : Ext BB BB4)
    (hp : 1 ≤ cfg.powBits) (hp' : cfg.powBits ≤ 31) (hb' : proof.degreeBits ≤ 27)
    (hblow : 1 ≤ cfg.logBlowup) (hmax : proof.openingProof.commitPhaseCommits.length + cfg.logBlowup ≤ 27)
    (hair : air.InRange pub.length) (hne : air.asserts ≠ []) (hdeg : getLogQuotientDegree air pub.length = some 0) {k k' : Nat}
    {air' : Air BB} {pub' : List BB} (hw : air'.width = air.width) (hair' : air'.InRange pub'.length)
    (hne' : air'.asserts ≠ []) (hdeg' : getLogQuotientDegree air' pub'.length = some 0)
    (hs : ∃ out, generateScriptVerifier scfg L T drops mi m (blake3Perm hash) cfg air (Chal.new 16 (fromU64 0))
      (ChalExpr.new k).1 proof pub (ChalExpr.new k).2 = .ok out)
    {alpha : BB4} {fc : FriChallenges BB4} {ch : Chal U32}
    (hn : nativeTranscript (blake3Perm hash) cfg proof.traceCommit proof.quotientCommit proof.openingProof
      (Chal.new 16 (fromU64 0)) = .ok ((alpha, zeta, batch, fc), ch))
    (hpl : ∀ qr ∈ fc.queryIndices.zip proof.openingProof.queryProofs, Plain cfg proof fc.betas qr)
    (hqc : proof.quotientChunks = [q]) (hl : l'.length = proof.traceLocal.length)
    (hn' : n'.length = proof.traceNext.length) (hq' : q'.length = q.length) :
    (∃ out, generateScriptVerifier scfg L T drops mi m (blake3Perm hash) cfg air' (Chal.new 16 (fromU64 0))
        (ChalExpr.new k').1 { proof with traceLocal := l', traceNext := n', quotientChunks := [q'] } pub' (ChalExpr.new k').2 =
          .ok out) ↔
      oodCheck (babyBear ext mi m (blake3Perm hash) cfg) air' pub' ⟨proof.degreeBits, 1⟩ [⟨proof.degreeBits, 31⟩]
        { proof with traceLocal := l', traceNext := n', quotientChunks := [q'] } alpha zeta = some true ∧
      ∀ qr ∈ fc.queryIndices.zip proof.openingProof.queryProofs,
        (powerSum batch l' - powerSum batch proof.traceLocal + batch ^ (2 * air.width) *
            (powerSum batch q' - powerSum batch q)) / (pointOf cfg proof qr - zeta) +
          batch ^ air.width * (powerSum batch n' - powerSum batch proof.traceNext) /
            (pointOf cfg proof qr - zeta * algebraMap BB BB4 (bbGen proof.degreeBits)) = 0 := by
  obtain ⟨hb, ⟨hs1, hs2, hs3, hs4⟩, a, z, b, f, c, s, h1, h2, h3, h4, h5⟩ :=
    (C82_exact hL hT hD hH ext hp hp' hb' hblow hmax hair hne hdeg k).mp hs
  cases hn.symm.trans h1
  have hq4 : q.length = 4 := hs4 q (by rw [hqc]; exact List.mem_singleton_self q)
  have hbe := (nativeTranscript_shape hn).1
  rw [C82_exact (proof := { proof with traceLocal := l', traceNext := n', quotientChunks := [q'] }) hL hT hD hH ext hp hp' hb'
    hblow hmax hair' hne' hdeg' k']
  simp only [powerSum_eq]
  have e2 : 2 * air.width = proof.traceLocal.length + proof.traceNext.length := by omega
  rw [e2, show air.width = proof.traceLocal.length from hs1.symm]
  constructor
  · rintro ⟨-, -, a', z', b', f', c', s', l1, -, -, l4, l5⟩
    cases hn.symm.trans l1
    exact ⟨l5, fun qr hqr => (query_claims hb hbe hmax (hpl qr hqr) hqc hq4 hl hn' hq' (h4 qr hqr)).2.2.mp (l4 qr hqr)⟩
  · rintro ⟨l5, l4⟩
    refine ⟨hb, ⟨hl.trans (hs1.trans hw.symm), hn'.trans (hs2.trans hw.symm), rfl, by simpa using hq'.trans hq4⟩,
      alpha, zeta, batch, fc, ch, s, hn, h2, h3, fun qr hqr => ?_, l5⟩
    exact (query_claims hb hbe hmax (hpl qr hqr) hqc hq4 hl hn' hq' (h4 qr hqr)).2.2.mpr (l4 qr hqr)

/-- With two queries at different points, and `zeta` and the batching challenge not zero: other claims of the same lengths
pass just when they pass the check of the quotient, the claims at the next point have the same sum with the powers of the
batching challenge, and so have the claims at `zeta`, those of the trace followed by those of the quotient. -/
theorem C107_script_exact (hL : L.Ok scfg) (hT : T.Ok scfg)
    (hD : ∀ x : List Elem, x.length ≤ 4 → Does scfg (drops x.length) x []) (hH : IsBlake3 hash) (ext : Ext BB BB4)
    (hp : 1 ≤ cfg.powBits) (hp' : cfg.powBits ≤ 31) (hb' : proof.degreeBits ≤ 27)
    (hblow : 1 ≤ cfg.logBlowup) (hmax : proof.openingProof.commitPhaseCommits.length + cfg.logBlowup ≤ 27)
    (hair : air.InRange pub.length) (hne : air.asserts ≠ []) (hdeg : getLogQuotientDegree air pub.length = some 0) {k k' : Nat}
    {air' : Air BB} {pub' : List BB} (hw : air'.width = air.width) (hair' : air'.InRange pub'.length)
    (hne' : air'.asserts ≠ []) (hdeg' : getLogQuotientDegree air' pub'.length = some 0)
    (hs : ∃ out, generateScriptVerifier scfg L T drops mi m (blake3Perm hash) cfg air (Chal.new 16 (fromU64 0))
      (ChalExpr.new k).1 proof pub (ChalExpr.new k).2 = .ok out)
    {alpha : BB4} {fc : FriChallenges BB4} {ch : Chal U32}
    (hn : nativeTranscript (blake3Perm hash) cfg proof.traceCommit proof.quotientCommit proof.openingProof
      (Chal.new 16 (fromU64 0)) = .ok ((alpha, zeta, batch, fc), ch))
    (hpl : ∀ qr ∈ fc.queryIndices.zip proof.openingProof.queryProofs, Plain cfg proof fc.betas qr)
    (htwo : ∃ qr ∈ fc.queryIndices.zip proof.openingProof.queryProofs,
      ∃ qr' ∈ fc.queryIndices.zip proof.openingProof.queryProofs, pointOf cfg proof qr ≠ pointOf cfg proof qr')
    (hz0 : zeta ≠ 0) (hb0 : batch ≠ 0)
    (hqc : proof.quotientChunks = [q]) (hl : l'.length = proof.traceLocal.length)
    (hn' : n'.length = proof.traceNext.length) (hq' : q'.length = q.length) :
    (∃ out, generateScriptVerifier scfg L T drops mi m (blake3Perm hash) cfg air' (Chal.new 16 (fromU64 0))
        (ChalExpr.new k').1 { proof with traceLocal := l', traceNext := n', quotientChunks := [q'] } pub' (ChalExpr.new k').2 =
          .ok out) ↔
      oodCheck (babyBear ext mi m (blake3Perm hash) cfg) air' pub' ⟨proof.degreeBits, 1⟩ [⟨proof.degreeBits, 31⟩]
        { proof with traceLocal := l', traceNext := n', quotientChunks := [q'] } alpha zeta = some true ∧
      powerSum batch n' = powerSum batch proof.traceNext ∧
      powerSum batch l' + batch ^ (2 * air.width) * powerSum batch q' =
        powerSum batch proof.traceLocal + batch ^ (2 * air.width) * powerSum batch q := by
  rw [C107_script_other_claims (k' := k') hL hT hD hH ext hp hp' hb' hblow hmax hair hne hdeg hw hair' hne' hdeg' hs hn hpl
    hqc hl hn' hq']
  obtain ⟨hb, ⟨hs1, hs2, hs3, hs4⟩, a, z, b, f, c, s, h1, h2, h3, h4, h5⟩ :=
    (C82_exact hL hT hD hH ext hp hp' hb' hblow hmax hair hne hdeg k).mp hs
  cases hn.symm.trans h1
  have hq4 : q.length = 4 := hs4 q (by rw [hqc]; exact List.mem_singleton_self q)
  have hbe := (nativeTranscript_shape hn).1
  refine and_congr_right fun _ => ?_
  constructor
  · intro hall
    obtain ⟨qr, hqr, qr', hqr', hpt⟩ := htwo
    obtain ⟨d1, d2, -⟩ := query_claims hb hbe hmax (hpl qr hqr) hqc hq4 hl hn' hq' (h4 qr hqr)
    obtain ⟨d1', d2', -⟩ := query_claims hb hbe hmax (hpl qr' hqr') hqc hq4 hl hn' hq' (h4 qr' hqr')
    have E := hall qr hqr
    have E' := hall qr' hqr'
    have hg : algebraMap BB BB4 (bbGen proof.degreeBits) ≠ 1 := by
      have := twoAdic_ne_one bbGen_twoAdic hb' 1 one_pos (Nat.one_lt_two_pow (by omega))
      rw [pow_one] at this
      rwa [Ne, ← map_one (algebraMap BB BB4), (algebraMap BB BB4).injective.eq_iff]
    generalize algebraMap BB BB4 (bbGen proof.degreeBits) = g at *
    generalize pointOf cfg proof qr = x at *
    generalize pointOf cfg proof qr' = x' at *
    have hB : batch ^ air.width ≠ 0 := pow_ne_zero _ hb0
    generalize eA : powerSum batch l' - powerSum batch proof.traceLocal + batch ^ (2 * air.width) *
            (powerSum batch q' - powerSum batch q) = A at E E'
    generalize eB : powerSum batch n' - powerSum batch proof.traceNext = B at E E'
    generalize batch ^ air.width = β at *
    rw [div_add_div _ _ (sub_ne_zero.mpr d1) (sub_ne_zero.mpr d2), div_eq_zero_iff,
      or_iff_left (mul_ne_zero (sub_ne_zero.mpr d1) (sub_ne_zero.mpr d2))] at E
    rw [div_add_div _ _ (sub_ne_zero.mpr d1') (sub_ne_zero.mpr d2'), div_eq_zero_iff,
      or_iff_left (mul_ne_zero (sub_ne_zero.mpr d1') (sub_ne_zero.mpr d2'))] at E'
    have s1 : A + β * B = 0 := by
      have : (x - x') * (A + β * B) = 0 := by linear_combination E - E'
      exact (mul_eq_zero.mp this).resolve_left (sub_ne_zero.mpr hpt)
    have s2 : A = 0 := by
      have : (zeta * (1 - g)) * A = 0 := by linear_combination E + (zeta - x) * s1
      refine (mul_eq_zero.mp this).resolve_left (mul_ne_zero hz0 (sub_ne_zero.mpr (Ne.symm hg)))
    have s3 : B = 0 := by
      rw [s2, zero_add] at s1
      exact (mul_eq_zero.mp s1).resolve_left hB
    refine ⟨sub_eq_zero.mp (eB.trans s3), ?_⟩
    linear_combination eA + s2
  · rintro ⟨e1, e2⟩ qr hqr
    have e3 : powerSum batch l' - powerSum batch proof.traceLocal + batch ^ (2 * air.width) *
            (powerSum batch q' - powerSum batch q) = 0 := by linear_combination e2
    rw [e3, e1]
    simp

end

/-- A run: the script verifier succeeds on a proof of the two-row Fibonacci trace whose two queries are at different points,
and for every statement of the same width it succeeds with other claims just when they pass the check of the quotient and
the two sums are the same. -/
theorem C107_script_exact_instance [LinearOrder U256] (scfg : Cfg) (h20 : ∀ x, (scfg.hash160 x).length = 20) {L : U31Lib}
    {T : TrackerLib} {drops : Nat → List Op} (hL : L.Ok scfg) (hT : T.Ok scfg)
    (hD : ∀ x : List Elem, x.length ≤ 4 → Does scfg (drops x.length) x []) (n : Nat) :
    ∃ bc proof alpha zeta batch q,
      let succeeds := fun air pub p => ∃ out, generateScriptVerifier scfg L T drops (fibSetup scfg bc 2).mi (fibSetup scfg bc 2).m
        (blake3Perm specHash) (demoCfg 2) air (Chal.new 16 (fromU64 0)) (ChalExpr.new n).1 p pub
        (ChalExpr.new n).2 = .ok out
      succeeds (fibAir BB) [0, 1, 1] proof ∧ proof.quotientChunks = [q] ∧
      ∀ (air : Air BB) pub, air.width = 2 → air.InRange pub.length → air.asserts ≠ [] →
        getLogQuotientDegree air pub.length = some 0 → ∀ l' n' q', l'.length = 2 → n'.length = 2 → q'.length = 4 →
        (succeeds air pub { proof with traceLocal := l', traceNext := n', quotientChunks := [q'] } ↔
          oodCheck (fibSetup scfg bc 2) air pub ⟨1, 1⟩ [⟨1, 31⟩]
            { proof with traceLocal := l', traceNext := n', quotientChunks := [q'] } alpha zeta = some true ∧
          powerSum batch n' = powerSum batch proof.traceNext ∧
          powerSum batch l' + batch ^ 4 * powerSum batch q' =
            powerSum batch proof.traceLocal + batch ^ 4 * powerSum batch q) := by
  obtain ⟨b, c, hb, hc, h⟩ := Tcs.winternitz_ok scfg h20 ['b', '1', '3', '8'] (by decide) 0
  have w1 : WinterNew scfg 1 (winternitzBc scfg b c) := .one _ 0 b c hb hc
  have hm1 : WinterManager scfg 1 (wideManager (winternitzBc scfg b c)) := fun _ => ⟨w1, w1⟩
  have hm4 : WinterManager scfg 4 (wideManager (winternitzBc scfg b c)) :=
    fun _ => ⟨w1, .cons w1 (.cons w1 (.cons w1 w1))⟩
  generalize winternitzBc scfg b c = bc at h hm1 hm4
  obtain ⟨proof, ch', h1, h2, h3, h4, -⟩ := fib_run hL hT hD h (by omega : 0 < 2) zetaWords2 zeta2_outside.1 zeta2_outside.2
    fib_native22 fib_script22 n
  have hs := h3.mpr (by decide)
  have hu := fibSetup_ok h (by omega : 0 < 2)
  have hdeg : getLogQuotientDegree (fibAir BB) 3 = some 0 := fibAir_degree 3 le_rfl
  have hair := ((C45_least_power_of_two (fibAir BB) _ 0).1 hdeg).1
  obtain ⟨alpha, zeta, batch, betas, c', hn, htop⟩ := indicesOf_some fib_native22
  have htr : ([[0, 1], [1, 1]] : Pcs.Mat BB) = fibTrace 2 0 1 := by decide +kernel
  rw [htr] at h1
  obtain ⟨ps, hpw, hpt, hps⟩ := trace_polys hu (k := 1) (by decide : 1 ≤ 27) (fibTrace_length 2 0 1) (fibTrace_rect 2 0 1)
  have h1'' := h1
  rw [hpt] at h1''
  obtain ⟨p1, p2, p3, -⟩ := produced_top hu (by decide : 0 < 2) hair
    (pub := [0, 1, 1]) hdeg (Nat.zero_le _) (k := 1) (by decide : 1 + 2 ≤ 27) hpw hps h1''
  have hn' := h4.trans hn
  have hch : c' = ch' := by
    obtain ⟨-, a, z, b, fc, m1, -, -⟩ := (verify_one (ext := lagrangeExt bbGen) (mi := (fibSetup scfg bc 2).mi)
      (m := (fibSetup scfg bc 2).m) (cfg := demoCfg 2) (air := fibAir BB) (pub := [0, 1, 1])
      (show proof.degreeBits ≤ 27 by rw [p1]; decide) hdeg).mp h2
    cases m1.symm.trans hn'
    rfl
  subst hch
  obtain ⟨k1, _, _, _, _, _, _, _, _, _, _, _, _, _, k2⟩ := C115_honest (ext := lagrangeExt bbGen) (scfg := scfg)
    (th := constTap demoRoot) (mgr := wideManager bc) (mgrF := wideManager bc) (cfg := demoCfg 2) (hash := specHash)
    (air := fibAir BB) (pub := [0, 1, 1]) hu (by decide : 0 < 2) hdeg (k := 1) (by decide : 1 + 2 ≤ 27)
    (fibTrace_length 2 0 1) (fibTrace_rect 2 0 1) hm1 hm4 h1 hn'
  have hβ := beta_words (x := (1604820512, 1426163366, 277905037, 1610794461)) betaWords2 hn
  obtain ⟨hzeta, t1, t2, t3, chz, ch1, betas', chPow, chw, m1, m2, m3, m4, m5, -, -⟩ := transcript_steps
    (x := (1555898603, 1708800541, 209366584, 1310215901)) rfl zetaWords2 hn
  have hbatch := batch_words (x := (1715834743, 396245351, 1978337420, 831651762)) rfl batchWords2 m1 m2 m3 m4 m5
  have hne0 : ∀ x : BB × BB × BB × BB, x.1 ≠ 0 → of4 x ≠ 0 := by
    intro x hx e
    have e' : mk4 x.1 x.2.1 x.2.2.1 x.2.2.2 = mk4 0 0 0 0 := by
      rw [← mk4_base, map_zero]
      exact e
    exact hx (mk4_inj e').1
  obtain ⟨_, ⟨hs1, hs2, hs3, hs4⟩, _⟩ := (C82_exact (proof := proof) hL hT hD specHash_ok (lagrangeExt bbGen)
    (show 1 ≤ (demoCfg 2).powBits by decide) (show (demoCfg 2).powBits ≤ 31 by decide) (by rw [p1]; decide)
    (show 1 ≤ (demoCfg 2).logBlowup by decide) (by rw [p2]; decide) hair (by simp [fibAir]) hdeg n).mp hs
  obtain ⟨q, hqc⟩ := List.length_eq_one_iff.mp hs3
  have hq4 : q.length = 4 := hs4 q (by rw [hqc]; exact List.mem_singleton_self q)
  have hcount := (nativeTranscript_count hn').1
  obtain ⟨qp, qps, hqp⟩ := List.exists_cons_of_length_pos (show 0 < proof.openingProof.queryProofs.length by
    rw [hcount]; decide)
  obtain ⟨qp', qps', hqp'⟩ := List.exists_cons_of_length_pos (show 0 < qps.length by
    rw [hqp] at hcount
    have : qps.length + 1 = 2 := hcount
    omega)
  rw [hqp'] at hqp
  have hpl : ∀ qr ∈ List.zip [(0, 0), (1, 1)] proof.openingProof.queryProofs, Plain (demoCfg 2) proof betas qr := by
    intro qr hqr
    refine ⟨(p3 _ (List.of_mem_zip (a := qr.1) (b := qr.2) hqr).2).ge, ?_, ?_⟩
    · have hsh := (k2 _ hqr).shape
      rw [List.map_eq_cons_iff] at hsh
      obtain ⟨⟨o, π⟩, l, ho, hl, hsh⟩ := hsh
      rw [List.map_eq_cons_iff] at hsh
      obtain ⟨⟨o', π'⟩, ip, ho', hl', -⟩ := hsh
      rw [List.map_eq_cons_iff] at hl hl'
      obtain ⟨row, rows, hrow, hw, -⟩ := hl
      obtain ⟨qrow, qrows, hqrow, hqw, -⟩ := hl'
      simp only at hrow hqrow
      refine ⟨row, rows, π, qrow, qrows, π', ip, by rw [ho, ho', hrow, hqrow], ?_, ?_, ?_⟩
      · rw [hs1]
        exact hw.ge
      · rw [hs2]
        exact hw.ge
      · exact hqw.ge
    · have hout := C108_outside_base (betas := betas) (by
        intro β hm x e
        simp only at hβ
        rw [hβ, List.mem_singleton] at hm
        rw [hm, mk4_base] at e
        have := (mk4_inj e).2.1
        exact absurd this (by decide +kernel)) (proof.openingProof.commitPhaseCommits.length + (demoCfg 2).logBlowup) qr.1.2
      rw [← (nativeTranscript_shape hn').1]
      simp only [(nativeTranscript_shape hn').1] at hout ⊢
      exact hout
  refine ⟨bc, proof, alpha, zeta, batch, q, hs, hqc, fun air pub hw hair' hne' hdeg' l' n' q' hl hn2 hq2 => ?_⟩
  have key := C107_script_exact (k' := n) (proof := proof) (l' := l') (n' := n') (q' := q') hL hT hD specHash_ok
    (lagrangeExt bbGen) (show 1 ≤ (demoCfg 2).powBits by decide) (show (demoCfg 2).powBits ≤ 31 by decide)
    (by rw [p1]; decide) (show 1 ≤ (demoCfg 2).logBlowup by decide) (by rw [p2]; decide) hair (by simp [fibAir]) hdeg hw
    hair' hne' hdeg' hs hn' hpl ?_ ?_ ?_ hqc (hl.trans hs1.symm) (hn2.trans hs2.symm) (hq2.trans hq4.symm)
  · have d1 : (⟨proof.degreeBits, 1⟩ : Dom BB) = ⟨1, 1⟩ := by rw [p1]
    have d2 : (⟨proof.degreeBits, 31⟩ : Dom BB) = ⟨1, 31⟩ := by rw [p1]
    rw [d1, d2] at key
    exact key
  · refine ⟨((0, 0), qp), by rw [hqp]; simp, ((1, 1), qp'), by rw [hqp]; simp, ?_⟩
    rw [pointOf, pointOf, p1, p2]
    intro e
    have e := (algebraMap BB BB4).injective e
    have e : (31 : BB) * bbGen 3 ^ revBits 3 0 = 31 * bbGen 3 ^ revBits 3 1 := e
    rw [show revBits 3 0 = 0 by decide, show revBits 3 1 = 4 by decide, pow_zero] at e
    have e := mul_left_cancel₀ (show (31 : BB) ≠ 0 by decide +kernel) e
    exact twoAdic_ne_one bbGen_twoAdic (by decide : 3 ≤ 27) 4 (by decide) (by decide) e.symm
  · rw [hzeta]
    exact hne0 _ (by decide +kernel)
  · rw [hbatch]
    exact hne0 _ (by decide +kernel)

/-- A run: a proof of the two-row Fibonacci trace has as many folding rounds as the trace has bits, so that the native
verifier accepts it with any claims that pass the check of the quotient. -/
theorem C107_native_exact_instance [LinearOrder U256] (scfg : Cfg) (h20 : ∀ x, (scfg.hash160 x).length = 20) {L : U31Lib}
    {T : TrackerLib} {drops : Nat → List Op} (hL : L.Ok scfg) (hT : T.Ok scfg)
    (hD : ∀ x : List Elem, x.length ≤ 4 → Does scfg (drops x.length) x []) :
    ∃ bc proof ch' alpha zeta,
      verify (fibSetup scfg bc 2) (fibAir BB) (Chal.new 16 (fromU64 0)) proof [0, 1, 1] = .ok ch' ∧
      ∀ (air : Air BB) pub, getLogQuotientDegree air pub.length = some 0 → ∀ l' n' cs',
        (verify (fibSetup scfg bc 2) air (Chal.new 16 (fromU64 0))
            { proof with traceLocal := l', traceNext := n', quotientChunks := cs' } pub = .ok ch' ↔
          (l'.length = air.width ∧ n'.length = air.width ∧ cs'.length = 1 ∧ ∀ c ∈ cs', c.length = 4) ∧
          oodCheck (fibSetup scfg bc 2) air pub ⟨proof.degreeBits, 1⟩ (chunkDomains bbGen proof.degreeBits 0 31)
            { proof with traceLocal := l', traceNext := n', quotientChunks := cs' } alpha zeta = some true) := by
  obtain ⟨b, c, -, -, h⟩ := Tcs.winternitz_ok scfg h20 ['b', '1', '3', '8'] (by decide) 0
  generalize winternitzBc scfg b c = bc at h
  obtain ⟨proof, ch', h1, h2, -⟩ := fib_run hL hT hD h (by omega : 0 < 2) zetaWords2 zeta2_outside.1 zeta2_outside.2
    fib_native28 fib_script28 0
  have hu := fibSetup_ok h (by omega : 0 < 2)
  have hdeg : getLogQuotientDegree (fibAir BB) 3 = some 0 := fibAir_degree 3 le_rfl
  have hair := ((C45_least_power_of_two (fibAir BB) _ 0).1 hdeg).1
  have htr : ([[0, 1], [1, 1]] : Pcs.Mat BB) = fibTrace 2 0 1 := by decide +kernel
  rw [htr] at h1
  obtain ⟨ps, hpw, hpt, hps⟩ := trace_polys hu (k := 1) (by decide : 1 ≤ 27) (fibTrace_length 2 0 1) (fibTrace_rect 2 0 1)
  rw [hpt] at h1
  obtain ⟨p1, p2, -⟩ := produced_top hu (by decide : 0 < 2) hair
    (pub := [0, 1, 1]) hdeg (Nat.zero_le _) (k := 1) (by decide : 1 + 2 ≤ 27) hpw hps h1
  obtain ⟨hkq, hs⟩ := accepted_shape (pub := [0, 1, 1]) hdeg h2
  obtain ⟨alpha, zeta, chz, hc, -⟩ := (verify_ok_iff hu (pub := [0, 1, 1]) hdeg hkq hs).mp h2
  exact ⟨bc, proof, ch', alpha, zeta, h2, fun air pub hq l' n' cs' =>
    C107_native_exact hu (pub := [0, 1, 1]) hdeg hq h2 (p2.trans p1.symm) hc l' n' cs'⟩

/-- The proof of the Fibonacci AIR meets every hypothesis of `C107_native_rounds`. -/
theorem C107_native_rounds_instance [LinearOrder U256] (scfg : Cfg) (h20 : ∀ x, (scfg.hash160 x).length = 20) {L : U31Lib}
    {T : TrackerLib} {drops : Nat → List Op} (hL : L.Ok scfg) (hT : T.Ok scfg)
    (hD : ∀ x : List Elem, x.length ≤ 4 → Does scfg (drops x.length) x []) :
    ∃ bc proof ch', (fibSetup scfg bc 2).Ok ∧
      verify (fibSetup scfg bc 2) (fibAir BB) (Chal.new 16 (fromU64 0)) proof [0, 1, 1] = .ok ch' ∧
      proof.openingProof.commitPhaseCommits.length = 1 ∧
      ∃ alpha zeta batch chz ch0 ch1 ch2 betas indices,
        challenges (fibSetup scfg bc 2) (Chal.new 16 (fromU64 0)) proof.traceCommit proof.quotientCommit =
          some (alpha, zeta, chz) ∧
        (fibSetup scfg bc 2).chall.sample chz = some (batch, ch0) ∧
        sampleBetas (fibSetup scfg bc 2).chall proof.openingProof.commitPhaseCommits ch0 = some (betas, ch1) ∧
        (fibSetup scfg bc 2).chall.checkWitness ch1 (fibSetup scfg bc 2).cfg.powBits proof.openingProof.powWitness =
          some (true, ch2) ∧
        sampleIndices (fibSetup scfg bc 2).chall (proof.openingProof.commitPhaseCommits.length +
          (fibSetup scfg bc 2).cfg.logBlowup) (fibSetup scfg bc 2).cfg.numQueries 0 ch2 = some (indices, ch') := by
  obtain ⟨b, c, -, -, h⟩ := Tcs.winternitz_ok scfg h20 ['b', '1', '3', '8'] (by decide) 0
  generalize winternitzBc scfg b c = bc at h
  obtain ⟨proof, ch', h1, h2, -⟩ := fib_run hL hT hD h (by omega : 0 < 2) zetaWords2 zeta2_outside.1 zeta2_outside.2
    fib_native28 fib_script28 0
  have hu := fibSetup_ok h (by omega : 0 < 2)
  have hdeg : getLogQuotientDegree (fibAir BB) 3 = some 0 := fibAir_degree 3 le_rfl
  have hair := ((C45_least_power_of_two (fibAir BB) _ 0).1 hdeg).1
  have htr : ([[0, 1], [1, 1]] : Pcs.Mat BB) = fibTrace 2 0 1 := by decide +kernel
  rw [htr] at h1
  obtain ⟨ps, hpw, hpt, hps⟩ := trace_polys hu (k := 1) (by decide : 1 ≤ 27) (fibTrace_length 2 0 1) (fibTrace_rect 2 0 1)
  rw [hpt] at h1
  obtain ⟨p1, p2, -⟩ := produced_top hu (by decide : 0 < 2) hair
    (pub := [0, 1, 1]) hdeg (Nat.zero_le _) (k := 1) (by decide : 1 + 2 ≤ 27) hpw hps h1
  have hlen : proof.openingProof.commitPhaseCommits.length = 1 := p2
  have hb : (fibSetup scfg bc 2).cfg.logBlowup = 2 := rfl
  have hA : (fibSetup scfg bc 2).twoAdicity = 27 := rfl
  have hN : proof.openingProof.commitPhaseCommits.length + (fibSetup scfg bc 2).cfg.logBlowup ≤
      (fibSetup scfg bc 2).twoAdicity := by
    rw [hlen, hb, hA]
    decide
  exact ⟨bc, proof, ch', hu, h2, hlen, accepted_challenges hu (pub := [0, 1, 1]) hdeg h2 hN⟩

end TapStark.Stark
