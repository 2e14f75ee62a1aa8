import Verif.Props.Pcs
import Verif.Props.Stark
import Verif.Proofs.HonestRows

/-
C107: what ties the claimed values of an opening to the transcript.
-/

namespace TapStark.Pcs

open TapStark.Fri Finset

variable {K F : Type} [Field K] [Field F] [DecidableEq K] [DecidableEq F] [Algebra K F]
variable {SI CI DI PI S C D P Ch W : Type}

/-- Two lists of claims about the same matrices and points: at every point the claimed values have the same
combination with the powers of `alpha`. -/
def SameBatched (alpha : F) (rounds rounds' : List (VerifierRound K F CI)) : Prop :=
  List.Forall₂ (fun r r' => r.1 = r'.1 ∧ List.Forall₂ (fun m m' => m.1 = m'.1 ∧ List.Forall₂ (fun p p' =>
    p.1 = p'.1 ∧ p.2.length = p'.2.length ∧
      ∑ j ∈ range p.2.length, alpha ^ j * p.2.getD j 0 = ∑ j ∈ range p'.2.length, alpha ^ j * p'.2.getD j 0)
    m.2 m'.2) r.2 r'.2) rounds rounds'

/-- Every row of the input opening has an entry for every claimed value. -/
def FullRows (rounds : List (VerifierRound K F CI)) (ip : List (List (List K) × PI)) : Prop :=
  ∀ x ∈ ip.zip rounds, ∀ y ∈ x.1.1.zip x.2.2, ∀ p ∈ y.2.2, p.2.length ≤ y.1.length

theorem dotPowers_sum (a : F) : ∀ xs : List F, dotPowers a xs = ∑ j ∈ range xs.length, a ^ j * xs.getD j 0
  | [] => by simp [dotPowers_nil]
  | x :: xs => by
    rw [dotPowers_cons, dotPowers_sum a xs, List.length_cons, Finset.sum_range_succ', Finset.mul_sum]
    simp only [List.getD_cons_succ, List.getD_cons_zero, pow_succ, pow_zero, one_mul]
    rw [add_comm]
    congr 1
    exact Finset.sum_congr rfl fun j _ => by ring

theorem columnLoop_same {alpha : F} {row : List K} {ys ys' : List F} (hl : ys.length = ys'.length) (hr : ys.length ≤ row.length)
    (h : ∑ j ∈ range ys.length, alpha ^ j * ys.getD j 0 = ∑ j ∈ range ys'.length, alpha ^ j * ys'.getD j 0) (ap acc : F) :
    columnLoop alpha (row.zip ys) ap acc = columnLoop alpha (row.zip ys') ap acc := by
  have h1 : ∀ zs : List F, zs.length = ys.length → row.zip zs = (row.take ys.length).zip zs := by
    intro zs hz
    rw [← hz]
    conv_lhs => rw [List.zip_eq_zip_take_min]
    rw [hz, min_eq_right hr, ← hz, List.take_length]
  rw [h1 ys rfl, h1 ys' hl.symm, columnLoop_eq _ _ _ _ _ (by rw [List.length_take]; omega),
    columnLoop_eq _ _ _ _ _ (by rw [List.length_take]; omega), dotPowers_sum, dotPowers_sum, dotPowers_sum, h]

theorem pointLoop_same {alpha : F} {x : K} {row : List K} : ∀ {pts pts' : List (F × List F)},
    List.Forall₂ (fun p p' => p.1 = p'.1 ∧ p.2.length = p'.2.length ∧
      ∑ j ∈ range p.2.length, alpha ^ j * p.2.getD j 0 = ∑ j ∈ range p'.2.length, alpha ^ j * p'.2.getD j 0) pts pts' →
    (∀ p ∈ pts, p.2.length ≤ row.length) → ∀ ap ro : F, pointLoop alpha x row pts ap ro = pointLoop alpha x row pts' ap ro
  | _, _, .nil, _, _, _ => rfl
  | (z, ps) :: pts, (z', ps') :: pts', .cons ⟨h1, h2, h3⟩ h, hr, ap, ro => by
    obtain rfl : z = z' := h1
    simp only [pointLoop]
    rw [columnLoop_same h2 (hr _ (List.mem_cons_self ..)) h3]
    split
    · rfl
    · exact pointLoop_same h (fun p hp => hr p (List.mem_cons_of_mem _ hp)) _ _

theorem matLoop_same {genV : Nat → K} {g : K} {cfg : Config} {alpha : F} {top index : Nat} :
    ∀ {mats mats' : List (Dom K × List (F × List F))},
    List.Forall₂ (fun m m' => m.1 = m'.1 ∧ List.Forall₂ (fun p p' =>
    p.1 = p'.1 ∧ p.2.length = p'.2.length ∧
      ∑ j ∈ range p.2.length, alpha ^ j * p.2.getD j 0 = ∑ j ∈ range p'.2.length, alpha ^ j * p'.2.getD j 0)
    m.2 m'.2) mats mats' → ∀ (rows : List (List K)), (∀ y ∈ rows.zip mats, ∀ p ∈ y.2.2, p.2.length ≤ y.1.length) →
    ∀ st : VerifyState F, matLoop genV g cfg alpha top index (rows.zip mats) st =
      matLoop genV g cfg alpha top index (rows.zip mats') st
  | _, _, .nil, rows, _, st => by simp
  | (d, pts) :: mats, (d', pts') :: mats', .cons ⟨h1, h2⟩ h, [], _, st => by simp
  | (d, pts) :: mats, (d', pts') :: mats', .cons ⟨h1, h2⟩ h, row :: rows, hr, st => by
    obtain rfl : d = d' := h1
    simp only [List.zip_cons_cons, matLoop]
    cases log2Strict d.size with
    | none => rfl
    | some k =>
      simp only [Option.bind_eq_bind, Option.bind_some]
      split
      · rw [pointLoop_same h2 (hr _ (by rw [List.zip_cons_cons]; exact List.mem_cons_self ..))]
        congr 1
        funext r
        exact matLoop_same h rows (fun y hy => hr y (by rw [List.zip_cons_cons]; exact List.mem_cons_of_mem _ hy)) _
      · rfl

theorem roundLoop_same {genV : Nat → K} {g : K} {MI : InMmcs K SI CI DI PI} {cfg : Config} {alpha : F} {top q index : Nat} :
    ∀ {rounds rounds' : List (VerifierRound K F CI)}, SameBatched alpha rounds rounds' →
    ∀ (ip : List (List (List K) × PI)), FullRows rounds ip → ∀ st : VerifyState F,
    roundLoop MI genV g cfg alpha top q index (ip.zip rounds) st =
      roundLoop MI genV g cfg alpha top q index (ip.zip rounds') st
  | _, _, .nil, ip, _, st => by simp
  | (c, mats) :: rounds, (c', mats') :: rounds', .cons ⟨h1, h2⟩ h, [], _, st => by simp
  | (c, mats) :: rounds, (c', mats') :: rounds', .cons ⟨h1, h2⟩ h, (rows, π) :: ip, hr, st => by
    obtain rfl : c = c' := h1
    have hm : mats.map (fun m => m.1.size <<< cfg.logBlowup) = mats'.map (fun m => m.1.size <<< cfg.logBlowup) := by
      have h3 : List.Forall₂ _ mats mats' := h2
      clear hr h h2
      induction h3 with
      | nil => rfl
      | cons hab _ ih => rw [List.map_cons, List.map_cons, ih, hab.1]
    simp only [List.zip_cons_cons, roundLoop, hm]
    rw [matLoop_same h2 rows (fun y hy => hr ((rows, π), (c, mats)) (by rw [List.zip_cons_cons]; exact List.mem_cons_self ..) y hy)]
    have : roundLoop MI genV g cfg alpha top q index (ip.zip rounds) =
      roundLoop MI genV g cfg alpha top q index (ip.zip rounds') := by
      funext st
      exact roundLoop_same h ip (fun x hx => hr x (by rw [List.zip_cons_cons]; exact List.mem_cons_of_mem _ hx)) st
    rw [this]

/-- The reduced openings of a query are the same. -/
theorem verifyInput_same {genV : Nat → K} {g : K} {MI : InMmcs K SI CI DI PI} {cfg : Config} {alpha : F}
    {rounds rounds' : List (VerifierRound K F CI)} (h : SameBatched alpha rounds rounds') {ip : List (List (List K) × PI)}
    (hr : FullRows rounds ip) (top q index : Nat) :
    verifyInput MI genV g cfg alpha rounds top q index ip = verifyInput MI genV g cfg alpha rounds' top q index ip := by
  unfold verifyInput
  rw [roundLoop_same h ip hr]

theorem forM_same {α : Type} {f f' : α → Res PUnit} : ∀ (l : List α), (∀ x ∈ l, f x = f' x) → l.forM f = l.forM f'
  | [], _ => rfl
  | x :: l, h => by
    rw [List.forM, List.forM, h x (List.mem_cons_self ..),
      forM_same l fun y hy => h y (List.mem_cons_of_mem _ hy)]

theorem verifyChallenges_same {IP : Type} {gen : Nat → F} {M : Mmcs F S C D P} {cfg : Config} {proof : FriProof F C P W IP}
    {challenges : FriChallenges F} {openInput openInput' : Nat → Nat → IP → Res (List (Nat × F))}
    (h : ∀ qp ∈ proof.queryProofs, ∀ q idx, openInput q idx qp.inputProof = openInput' q idx qp.inputProof) :
    verifyChallenges gen M cfg proof challenges openInput = verifyChallenges gen M cfg proof challenges openInput' := by
  unfold verifyChallenges
  simp only
  refine forM_same _ fun x hx => ?_
  rw [h _ (List.of_mem_zip (a := x.1) (b := x.2) hx).2]

/-- **C107 is violated**: the claimed values are not drawn into the transcript before they are combined.  Take any
opening proof and claims.  Every other list of claims whose combinations with the powers of the batching challenge are
the same gets the same verdict, whatever the heights: the challenge does not depend on the claims.  `hrows` asks that the
opened rows have an entry for every claimed value. -/
theorem C107_violated_claims_chosen_after {genV : Nat → K} {g : K} {MI : InMmcs K SI CI DI PI}
    {M : Mmcs F S C D P} {Kc : Chall Ch C F W} {cfg : Config}
    {rounds rounds' : List (VerifierRound K F CI)}
    {proof : FriProof F C P W (List (List (List K) × PI))} {ch ch1 : Ch} {alpha : F} (ha : Kc.sample ch = some (alpha, ch1))
    (h : SameBatched alpha rounds rounds') (hrows : ∀ qp ∈ proof.queryProofs, FullRows rounds qp.inputProof) :
    verify genV g MI M Kc cfg rounds proof ch = verify genV g MI M Kc cfg rounds' proof ch := by
  unfold verify
  rw [ha]
  simp only [Res.ofOption, Res.bind_ok]
  congr 1
  funext ⟨challenges, ch2⟩
  simp only
  rw [verifyChallenges_same fun qp hqp q idx => verifyInput_same h (hrows qp hqp) _ q idx]

end TapStark.Pcs

namespace TapStark.Stark

open Polynomial TapStark.Fri TapStark.Pcs

variable {K F : Type} [Field K] [Field F] [DecidableEq K] [DecidableEq F] [Algebra K F]
variable {SI C DI PI S D P Ch W : Type}

/-- The claims of a proof about the opened values, with other values for the quotient chunks. -/
def claimsWith (u : Setup K F SI C DI PI S D P Ch W) (proof : ProofOf K F C P W PI) (q : Nat) (zeta : F)
    (chunks : List (List F)) : List (VerifierRound K F C) :=
  [(proof.traceCommit, [(⟨proof.degreeBits, 1⟩, [(zeta, proof.traceLocal),
      (zeta * algebraMap K F (u.genV proof.degreeBits), proof.traceNext)])]),
    (proof.quotientCommit, ((chunkDomains u.genV proof.degreeBits q u.g).zip chunks).map fun (d, v) => (d, [(zeta, v)]))]

/-- Moving the first two values of the first chunk by `-a t` and `t`. -/
def moved (a t : F) : List (List F) → List (List F)
  | (c0 :: c1 :: cs) :: rest => ((c0 - a * t) :: (c1 + t) :: cs) :: rest
  | l => l

omit [DecidableEq F] in
theorem moved_shape (a t : F) (l : List (List F)) : (moved a t l).map List.length = l.map List.length := by
  unfold moved
  split <;> simp

/-- The combination with the powers of `a` does not change. -/
theorem moved_rel (a t : F) (l : List (List F)) : List.Forall₂ (fun c c' => c.length = c'.length ∧
    ∑ j ∈ Finset.range c.length, a ^ j * c.getD j 0 = ∑ j ∈ Finset.range c'.length, a ^ j * c'.getD j 0) l (moved a t l) := by
  have hr : ∀ l : List (List F), List.Forall₂ (fun c c' => c.length = c'.length ∧
    ∑ j ∈ Finset.range c.length, a ^ j * c.getD j 0 = ∑ j ∈ Finset.range c'.length, a ^ j * c'.getD j 0) l l :=
    fun l => List.forall₂_same.mpr fun x _ => ⟨rfl, rfl⟩
  unfold moved
  split
  · rename_i c0 c1 cs rest
    refine .cons ⟨rfl, ?_⟩ (hr rest)
    rw [← dotPowers_sum, ← dotPowers_sum, dotPowers_cons, dotPowers_cons, dotPowers_cons, dotPowers_cons]
    ring
  · exact hr _

theorem recombine_moved {deg : ExtDeg K F} (hd : deg.Ok) {zs : List F} {l : List (List F)} (hl : l.length ≤ zs.length)
    {c0 c1 : F} {cs : List F} {rest : List (List F)} (h : l = (c0 :: c1 :: cs) :: rest) (a t : F) {R : F}
    (hR : recombine deg zs l = some R) :
    recombine deg zs (moved a t l) = some (R + zs.getD 0 0 * ((deg.monomial 1 - a) * t)) := by
  have hl' : (moved a t l).length ≤ zs.length := by
    have := congrArg List.length (moved_shape a t l)
    simp only [List.length_map] at this
    omega
  rw [recombine_sum _ _ _ hl, Option.some.injEq] at hR
  rw [recombine_sum _ _ _ hl', ← hR, h]
  simp only [moved, List.length_cons, List.range_succ_eq_map (n := rest.length), List.range_succ_eq_map (n := cs.length + 1),
    List.range_succ_eq_map (n := cs.length), List.map_cons, List.sum_cons, List.map_map, List.getD_cons_zero, List.getD_cons_succ,
    Function.comp_def, Nat.succ_eq_add_one, hd.one, zero_add]
  congr 1
  ring

/-- An accepted proof has the shape the verifier asks for. -/
theorem accepted_shape {u : Setup K F SI C DI PI S D P Ch W} {air : Air K} {pub : List K} {q : Nat}
    (hq : getLogQuotientDegree air pub.length = some q) {ch ch' : Ch} {proof : ProofOf K F C P W PI}
    (h : verify u air ch proof pub = .ok ch') : proof.degreeBits + q ≤ u.twoAdicity ∧
      proof.traceLocal.length = air.width ∧ proof.traceNext.length = air.width ∧
      proof.quotientChunks.length = 2 ^ q ∧ ∀ qc ∈ proof.quotientChunks, qc.length = u.deg.D := by
  have hn : naturalDomainForDegree (K := K) (2 ^ proof.degreeBits) = some ⟨proof.degreeBits, 1⟩ := by
    simp [naturalDomainForDegree, log2Strict_pow]
  unfold verify at h
  simp only [hq, hn] at h
  split at h
  · cases h
  rename_i domains hd
  split at h
  · cases h
  rename_i hs
  refine ⟨?_, not_not.mp hs⟩
  unfold splitDomains createDisjointDomain at hd
  simp only [Tcs.log2Ceil_pow, log2Strict_pow, Option.bind_eq_bind, Option.bind_some] at hd
  split at hd
  · rename_i h
    exact h.1
  · cases hd

/-- What acceptance means, once the number of chunks is known. -/
theorem verify_ok_iff {u : Setup K F SI C DI PI S D P Ch W} (hu : u.Ok) {air : Air K} {pub : List K} {q : Nat}
    (hq : getLogQuotientDegree air pub.length = some q) {ch ch' : Ch} {proof : ProofOf K F C P W PI}
    (hkq : proof.degreeBits + q ≤ u.twoAdicity)
    (hs : proof.traceLocal.length = air.width ∧ proof.traceNext.length = air.width ∧
      proof.quotientChunks.length = 2 ^ q ∧ ∀ qc ∈ proof.quotientChunks, qc.length = u.deg.D) :
    verify u air ch proof pub = .ok ch' ↔ ∃ alpha zeta chz,
      challenges u ch proof.traceCommit proof.quotientCommit = some (alpha, zeta, chz) ∧
      Pcs.verify u.genV u.g u.mi u.m u.chall u.cfg (claimsWith u proof q zeta proof.quotientChunks) proof.openingProof chz =
        .ok ch' ∧
      oodCheck u air pub ⟨proof.degreeBits, 1⟩ (chunkDomains u.genV proof.degreeBits q u.g) proof alpha zeta = some true := by
  rw [verify_eq hu hq rfl hkq hs]
  constructor
  · intro h
    split at h
    · cases h
    rename_i alpha zeta chz h1
    split at h
    · cases h
    · cases h
    rename_i c2 h2
    split at h
    · cases h
    · rename_i h3
      cases h
      exact ⟨alpha, zeta, chz, h1, h2, h3⟩
    · cases h
  · rintro ⟨alpha, zeta, chz, h1, h2, h3⟩
    unfold claimsWith at h2
    simp only [h1, h2, h3]

/-- The quotient values can be moved so that the constraints of another statement fold to them, while their combination
with the powers of the batching challenge stays the same. -/
theorem exists_moved {u : Setup K F SI C DI PI S D P Ch W} (hu : u.Ok) (hD : 2 ≤ u.deg.D) {q : Nat}
    {proof : ProofOf K F C P W PI} (hkq : proof.degreeBits + q ≤ u.twoAdicity) (hs3 : proof.quotientChunks.length = 2 ^ q)
    (hs4 : ∀ qc ∈ proof.quotientChunks, qc.length = u.deg.D) (alpha : F) {zeta batch : F}
    (hz1 : zeta ^ 2 ^ proof.degreeBits ≠ 1)
    (hz : zeta ^ 2 ^ (proof.degreeBits + q) ≠ algebraMap K F u.g ^ 2 ^ (proof.degreeBits + q))
    (hbatch : batch ≠ u.deg.monomial 1) {air' : Air K} {pub' : List K} (hs1 : proof.traceLocal.length = air'.width)
    (hs2 : proof.traceNext.length = air'.width) (hq' : getLogQuotientDegree air' pub'.length = some q) :
    ∃ chunks, (chunks.length = 2 ^ q ∧ ∀ qc ∈ chunks, qc.length = u.deg.D) ∧
      SameBatched batch (claimsWith u proof q zeta proof.quotientChunks) (claimsWith u proof q zeta chunks) ∧
      oodCheck u air' pub' ⟨proof.degreeBits, 1⟩ (chunkDomains u.genV proof.degreeBits q u.g)
        { proof with quotientChunks := chunks } alpha zeta = some true := by
  have hr' := ((C45_least_power_of_two air' _ q).1 hq').1
  have hwt := weight_zero_ne hu.twoAdic hkq hu.g0 hz
  have hpos := Nat.two_pow_pos q
  obtain ⟨c0, c1, cs, rest, hch⟩ : ∃ c0 c1 cs rest, proof.quotientChunks = (c0 :: c1 :: cs) :: rest := by
    cases hq : proof.quotientChunks with
    | nil => rw [hq] at hs3; simp at hs3; omega
    | cons x rest =>
      have := hs4 x (by rw [hq]; exact List.mem_cons_self ..)
      match x, this with
      | [], h => simp at h; omega
      | [_], h => simp at h; omega
      | c0 :: c1 :: cs, _ => exact ⟨c0, c1, cs, rest, rfl⟩
  set zs := (List.range (2 ^ q)).map fun i => (weightPoly hu.twoAdic F proof.degreeBits q u.g i).eval zeta with hzs
  have hzl : zs.length = 2 ^ q := by simp [hzs]
  have hz0 : zs.getD 0 0 = (weightPoly hu.twoAdic F proof.degreeBits q u.g 0).eval zeta := by
    rw [hzs, List.getD_eq_getElem?_getD, List.getElem?_map, List.getElem?_range hpos]
    rfl
  obtain ⟨R, hR⟩ : ∃ R, recombine u.deg zs proof.quotientChunks = some R := ⟨_, recombine_sum _ _ _ (by omega)⟩
  obtain ⟨v, hv⟩ : ∃ v, v = combine alpha (air'.asserts.map fun a => a.residue (algebraMap K F)
        (⟨proof.traceLocal, proof.traceNext, pub'.map (algebraMap K F),
          aeval zeta (selPoly (1 : K) (2 ^ proof.degreeBits)),
          aeval zeta (selPoly (u.genV proof.degreeBits)⁻¹ (2 ^ proof.degreeBits)),
          zeta - algebraMap K F (u.genV proof.degreeBits)⁻¹⟩ : Window F).meaning) *
        (zeta ^ 2 ^ proof.degreeBits - 1)⁻¹ := ⟨_, rfl⟩
  obtain ⟨t, ht⟩ : ∃ t, zs.getD 0 0 * ((u.deg.monomial 1 - batch) * t) = v - R := by
    refine ⟨(u.deg.monomial 1 - batch)⁻¹ * ((zs.getD 0 0)⁻¹ * (v - R)), ?_⟩
    rw [mul_inv_cancel_left₀ (sub_ne_zero.2 hbatch.symm), mul_inv_cancel_left₀ (by rw [hz0]; exact hwt)]
  have hlen : (moved batch t proof.quotientChunks).length = proof.quotientChunks.length := by
    have := congrArg List.length (moved_shape batch t proof.quotientChunks)
    simpa using this
  have hsame : SameBatched batch (claimsWith u proof q zeta proof.quotientChunks)
      (claimsWith u proof q zeta (moved batch t proof.quotientChunks)) := by
    refine .cons ⟨rfl, .cons ⟨rfl, List.forall₂_same.mpr fun _ _ => ⟨rfl, rfl, rfl⟩⟩ .nil⟩ (.cons ⟨rfl, ?_⟩ .nil)
    have := moved_rel batch t proof.quotientChunks
    clear * - this
    generalize moved batch t proof.quotientChunks = l' at this
    generalize proof.quotientChunks = l at this
    generalize chunkDomains u.genV proof.degreeBits q u.g = ds
    induction this generalizing ds with
    | nil => simp
    | cons hab _ ih =>
      cases ds with
      | nil => exact .nil
      | cons d ds => exact .cons ⟨rfl, .cons ⟨rfl, hab⟩ .nil⟩ (ih ds)
  refine ⟨moved batch t proof.quotientChunks, ⟨hlen.trans hs3, ?_⟩, hsame, ?_⟩
  · intro qc hqc
    have : qc.length ∈ (moved batch t proof.quotientChunks).map List.length := List.mem_map_of_mem hqc
    rw [moved_shape] at this
    obtain ⟨x, hx, hx'⟩ := List.mem_map.mp this
    rw [← hx', hs4 x hx]
  · rw [oodCheck_eq hu hr' (proof := { proof with quotientChunks := moved batch t proof.quotientChunks }) hkq hs1 hs2 hz1]
    simp only
    rw [recombine_moved hu.deg (by omega) hch batch t hR, Option.map_some, ht, add_sub_cancel, hv, decide_eq_true rfl]

/-- **C107 is violated** for proofs: from any accepted proof one gets an accepted proof of any other statement with the
same width and the same number of chunks, by moving two of the claimed quotient values.  Commitments, openings, the
claimed trace values, the challenges and the reduced openings of all queries stay the same, so comparing the first
folded value with the reduced opening, which the native verifier leaves out (C38), does not prevent it.  The point must
not lie on the quotient domain, and the batching challenge must not be the second monomial of the extension. -/
theorem C107_violated_other_statement {u : Setup K F SI C DI PI S D P Ch W} (hu : u.Ok) (hD : 2 ≤ u.deg.D) {air : Air K}
    {pub : List K} {q : Nat} (hq : getLogQuotientDegree air pub.length = some q) {ch ch' : Ch}
    {proof : ProofOf K F C P W PI} (h : verify u air ch proof pub = .ok ch')
    {alpha zeta batch : F} {chz ch1 : Ch}
    (hc : challenges u ch proof.traceCommit proof.quotientCommit = some (alpha, zeta, chz))
    (hb : u.chall.sample chz = some (batch, ch1))
    (hrows : ∀ qp ∈ proof.openingProof.queryProofs,
      FullRows (claimsWith u proof q zeta proof.quotientChunks) qp.inputProof)
    (hz : zeta ^ 2 ^ (proof.degreeBits + q) ≠ algebraMap K F u.g ^ 2 ^ (proof.degreeBits + q))
    (hbatch : batch ≠ u.deg.monomial 1)
    {air' : Air K} {pub' : List K} (hw : air'.width = air.width) (hq' : getLogQuotientDegree air' pub'.length = some q) :
    ∃ chunks, verify u air' ch { proof with quotientChunks := chunks } pub' = .ok ch' ∧
      ∀ qp ∈ proof.openingProof.queryProofs, ∀ top n idx,
        verifyInput u.mi u.genV u.g u.cfg batch (claimsWith u proof q zeta chunks) top n idx qp.inputProof =
          verifyInput u.mi u.genV u.g u.cfg batch (claimsWith u proof q zeta proof.quotientChunks) top n idx qp.inputProof := by
  obtain ⟨hkq, hs⟩ := accepted_shape hq h
  obtain ⟨hs1, hs2, hs3, hs4⟩ := hs
  obtain ⟨a, z, c, h1, h2, h3⟩ := (verify_ok_iff hu hq hkq ⟨hs1, hs2, hs3, hs4⟩).mp h
  have h1 := hc.symm.trans h1
  cases h1
  have hz1 : zeta ^ 2 ^ proof.degreeBits ≠ 1 := by
    intro h0
    rw [oodCheck_panic h0] at h3
    cases h3
  obtain ⟨chunks, hsh, hsame, hood⟩ := exists_moved hu hD hkq hs3 hs4 alpha hz1 hz hbatch (hs1.trans hw.symm)
    (hs2.trans hw.symm) hq'
  exact ⟨chunks, (verify_ok_iff hu hq' (proof := { proof with quotientChunks := chunks }) hkq
    ⟨hs1.trans hw.symm, hs2.trans hw.symm, hsh⟩).mpr ⟨alpha, zeta, chz, hc,
      (C107_violated_claims_chosen_after hb hsame hrows).symm.trans h2, hood⟩,
    fun qp hqp top n idx => (verifyInput_same hsame (hrows qp hqp) top n idx).symm⟩

/-- The rows an honest proof opens have an entry for every claimed value. -/
theorem produced_full {u : Setup K F SI C DI PI S D P Ch W} (hu : u.Ok) {air : Air K} (hwidth : 0 < air.width) {pub : List K} {q : Nat}
    (hq : getLogQuotientDegree air pub.length = some q) (hqb : q ≤ u.cfg.logBlowup) {trace : Mat K} {k : Nat}
    (hkb : k + u.cfg.logBlowup ≤ u.twoAdicity) (hl : trace.length = 2 ^ k) (hrect : Rect trace air.width)
    {ch ch' : Ch} {si : SI} {s : S} {w : W} {proof : ProofOf K F C P W PI}
    (hp : prove u air ch trace pub si s w = some (proof, ch')) (zeta : F) :
    ∀ qp ∈ proof.openingProof.queryProofs,
      FullRows (claimsWith u proof q zeta proof.quotientChunks) qp.inputProof := by
  obtain ⟨ps, hpw, rfl, hps⟩ := trace_polys hu (k := k) (by omega) hl hrect
  have hr := ((C45_least_power_of_two air _ q).1 hq).1
  obtain ⟨alpha, zeta', chz, cps, h⟩ := produced hu hwidth hr hq hqb hkb hpw hps hp
  intro qp hqp
  obtain ⟨o1, o2, e, r1, r2⟩ := produced_rows hu hwidth hr hq hqb hkb hpw hps hp qp hqp
  rw [e]
  intro x hx y hy p hp
  simp only [claimsWith, List.zip_cons_cons, List.zip_nil_left, List.mem_cons, List.not_mem_nil, or_false] at hx
  rcases hx with rfl | rfl
  · obtain ⟨hy1, hy2⟩ := List.of_mem_zip (a := y.1) (b := y.2) hy
    obtain hy2 := List.mem_singleton.1 hy2
    rw [hy2] at hp
    rw [r1 _ hy1]
    simp only [List.mem_cons, List.not_mem_nil, or_false] at hp
    rcases hp with rfl | rfl
    · simp [h.traceLocal, hpw]
    · simp [h.traceNext, hpw]
  · obtain ⟨hy1, hy2⟩ := List.of_mem_zip (a := y.1) (b := y.2) hy
    obtain ⟨⟨d, v⟩, hv, hy3⟩ := List.mem_map.1 hy2
    rw [← hy3] at hp
    obtain rfl := List.mem_singleton.1 hp
    rw [r2 _ hy1]
    have hv := (List.of_mem_zip hv).2
    rw [h.quotientChunks] at hv
    obtain ⟨c, hc, rfl⟩ := List.mem_map.1 hv
    simp only [List.length_map]
    exact (h.chunkWidth c hc).le

/-- C107, the proofs of the prover: every honest proof for a trace satisfying an AIR can be turned into an accepted proof
of every other statement with the same width and number of chunks, with the reduced openings of all queries unchanged. -/
theorem C107_violated_honest_proof {u : Setup K F SI C DI PI S D P Ch W} (hu : u.Ok) (hD : 2 ≤ u.deg.D) {air : Air K}
    (hwidth : 0 < air.width) (hf : air.Filtered) (ht : air.FewTransitions) {pub : List K} {q : Nat}
    (hq : getLogQuotientDegree air pub.length = some q) (hqb : q ≤ u.cfg.logBlowup) {trace : Mat K} {k : Nat}
    (hkb : k + u.cfg.logBlowup ≤ u.twoAdicity) (hl : trace.length = 2 ^ k) (hrect : Rect trace air.width)
    (hsat : Satisfies air trace pub)
    {ch ch' : Ch} {si : SI} {s : S} {w : W} {proof : ProofOf K F C P W PI}
    (hp : prove u air ch trace pub si s w = some (proof, ch'))
    {alpha zeta batch : F} {chz ch1 : Ch}
    (hc : challenges u ch proof.traceCommit proof.quotientCommit = some (alpha, zeta, chz))
    (hb : u.chall.sample chz = some (batch, ch1))
    (hz1 : zeta ^ 2 ^ k ≠ 1)
    (hz : zeta ^ 2 ^ (k + q) ≠ algebraMap K F u.g ^ 2 ^ (k + q))
    (hbatch : batch ≠ u.deg.monomial 1)
    {air' : Air K} {pub' : List K} (hw : air'.width = air.width) (hq' : getLogQuotientDegree air' pub'.length = some q) :
    ∃ chunks, verify u air' ch { proof with quotientChunks := chunks } pub' = .ok ch' ∧
      ∀ qp ∈ proof.openingProof.queryProofs, ∀ top n idx,
        verifyInput u.mi u.genV u.g u.cfg batch (claimsWith u proof q zeta chunks) top n idx qp.inputProof =
          verifyInput u.mi u.genV u.g u.cfg batch (claimsWith u proof q zeta proof.quotientChunks) top n idx qp.inputProof := by
  have hv := C48_complete_partial hu hwidth hf ht hq hqb hkb hl hrect hsat hp fun a z c h => by
    have h := hc.symm.trans h
    cases h
    exact hz1
  have hdb : proof.degreeBits = k := by
    obtain ⟨ps, hpw, rfl, hps⟩ := trace_polys hu (k := k) (by omega) hl hrect
    exact (produced_top hu hwidth ((C45_least_power_of_two air _ q).1 hq).1 hq hqb hkb hpw hps hp).1
  exact C107_violated_other_statement hu hD hq hv hc hb (produced_full hu hwidth hq hqb hkb hl hrect hp zeta)
    (by rw [hdb]; exact hz) hbatch hw hq'

end TapStark.Stark
