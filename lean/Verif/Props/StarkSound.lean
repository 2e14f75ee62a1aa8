import Verif.Proofs.StarkSound
import Verif.Props.BatchBoth
import Verif.Props.StarkInst

/-! # C111 -/

set_option linter.unusedSectionVars false

namespace TapStark.Stark

open Polynomial TapStark.Fri TapStark.Pcs Finset

variable {K F : Type} [Field K] [Field F] [DecidableEq K] [DecidableEq F] [Algebra K F]
variable {SI C DI PI S D P Ch W : Type}

/-- The claimed values have the shape that `verify` asks for. -/
def Prover.Shape (pr : Prover K F C) (w n D : Nat) (alpha zeta : F) : Prop :=
  (pr.traceLocal alpha zeta).length = w ∧ (pr.traceNext alpha zeta).length = w ∧
    (pr.quotientChunks alpha zeta).length = n ∧ ∀ qc ∈ pr.quotientChunks alpha zeta, qc.length = D

theorem claims_chunk {pr : Prover K F C} {genV : Nat → K} {k q : Nat} {g : K} {alpha zeta : F} {mat : Claimed K F}
    (h : mat ∈ ((chunkDomains genV k q g).zip (pr.quotientChunks alpha zeta)).mapIdx fun i dv =>
      (⟨pr.quotientRow alpha i, dv.1, [(zeta, dv.2)]⟩ : Claimed K F)) :
    ∃ i v, (pr.quotientChunks alpha zeta)[i]? = some v ∧
      mat = ⟨pr.quotientRow alpha i, ⟨k, g * genV (k + q) ^ i⟩, [(zeta, v)]⟩ := by
  obtain ⟨i, hi, rfl⟩ := List.mem_mapIdx.1 h
  rw [List.length_zip] at hi
  refine ⟨i, (pr.quotientChunks alpha zeta)[i]'(by omega), List.getElem?_eq_getElem _, ?_⟩
  simp [chunkDomains]

theorem claims_numClaims {pr : Prover K F C} {genV : Nat → K} {k q w D : Nat} {g : K} {alpha zeta : F}
    (h : pr.Shape w (2 ^ q) D alpha zeta) :
    numClaims (pr.claims genV k (chunkDomains genV k q g) alpha zeta) = 2 * w + 2 ^ q * D := by
  obtain ⟨h1, h2, h3, h4⟩ := h
  have : ∀ (ds : List (Dom K)) (vs : List (List F)) (row : Nat → Nat → List K), ds.length = vs.length →
      (∀ v ∈ vs, v.length = D) → (((ds.zip vs).mapIdx fun i dv => (⟨row i, dv.1, [(zeta, dv.2)]⟩ : Claimed K F)).map
        fun m => (m.points.map fun p => p.2.length).sum).sum = vs.length * D := by
    intro ds vs row hl hv
    have e : (((ds.zip vs).mapIdx fun i dv => (⟨row i, dv.1, [(zeta, dv.2)]⟩ : Claimed K F)).map
        fun m => (m.points.map fun p => p.2.length).sum) = List.replicate vs.length D := by
      refine List.eq_replicate_iff.2 ⟨by simp [hl], fun x hx => ?_⟩
      obtain ⟨mat, hm, rfl⟩ := List.mem_map.1 hx
      obtain ⟨i, hi, rfl⟩ := List.mem_mapIdx.1 hm
      simp only [List.map_cons, List.map_nil, List.sum_cons, List.sum_nil, Nat.add_zero]
      exact hv _ (List.of_mem_zip (List.getElem_mem hi)).2
    rw [e, List.sum_replicate, smul_eq_mul]
  simp only [numClaims, Prover.claims, List.map_cons, List.map_nil, List.sum_cons, List.sum_nil, Nat.add_zero, h1, h2]
  rw [this _ _ _ (by simp [chunkDomains, h3]) h4, h3]
  omega

/-- From claims that hold, the polynomials that the prover committed to. -/
theorem claims_decode {genV : Nat → K} {N : Nat} (hg : TwoAdic genV N) {g : K} (hg0 : g ≠ 0) {pr : Prover K F C}
    {h k q w D m : Nat} (hh : h ≤ N) (hm : m + 2 ^ k < 2 ^ h) {alpha zeta : F} (hs : pr.Shape w (2 ^ q) D alpha zeta)
    (hrow : ∀ i, (pr.traceRow i).length = w) (hcrow : ∀ alpha i idx, (pr.quotientRow alpha i idx).length = D)
    (hold : ClaimsHold genV g h (2 ^ k) m (pr.claims genV k (chunkDomains genV k q g) alpha zeta)) :
    ∃ (ps : List K[X]) (cps : List (List K[X])), ps.length = w ∧ (∀ p ∈ ps, p.natDegree ≤ 2 ^ k) ∧
      RowsNear genV g h m pr.traceRow ps ∧ cps.length = 2 ^ q ∧
      (∀ i c, cps[i]? = some c → c.length = D ∧ (∀ p ∈ c, p.natDegree ≤ 2 ^ k) ∧
        RowsNear genV g h m (pr.quotientRow alpha i) c) ∧
      pr.traceLocal alpha zeta = (ps.map fun p => aeval zeta p) ∧
      pr.traceNext alpha zeta = (ps.map fun p => aeval (zeta * algebraMap K F (genV k)) p) ∧
      pr.quotientChunks alpha zeta = cps.map fun c => c.map fun p => aeval zeta p := by
  obtain ⟨h1, h2, h3, h4⟩ := hs
  obtain ⟨A, hA, hAc, hall⟩ := hold
  obtain ⟨ps, p1, p2, p3, p4⟩ := decode hg hg0 hh hm hA hAc _ (by simp)
    (by
      intro p hp
      simp only [List.mem_cons, List.not_mem_nil, or_false] at hp
      rcases hp with rfl | rfl
      · exact h1
      · exact h2) hrow (hall _ (List.mem_cons_self) _ (List.mem_singleton.2 rfl))
  have hchunk : ∀ i, ∃ c : List K[X], i < 2 ^ q → c.length = D ∧ (∀ p ∈ c, p.natDegree ≤ 2 ^ k) ∧
      RowsNear genV g h m (pr.quotientRow alpha i) c ∧
      (pr.quotientChunks alpha zeta)[i]? = some (c.map fun p => aeval zeta p) := by
    intro i
    by_cases hi : i < 2 ^ q
    swap
    · exact ⟨[], fun h => absurd h hi⟩
    have hi' : i < (pr.quotientChunks alpha zeta).length := by omega
    have hmem : (⟨pr.quotientRow alpha i, ⟨k, g * genV (k + q) ^ i⟩, [(zeta, (pr.quotientChunks alpha zeta)[i])]⟩ :
        Claimed K F) ∈ ((chunkDomains genV k q g).zip (pr.quotientChunks alpha zeta)).mapIdx fun i dv =>
        (⟨pr.quotientRow alpha i, dv.1, [(zeta, dv.2)]⟩ : Claimed K F) := by
      refine List.mem_mapIdx.2 ⟨i, by simp [chunkDomains]; omega, ?_⟩
      simp [chunkDomains]
    obtain ⟨c, c1, c2, c3, c4⟩ := decode hg hg0 hh hm hA hAc _ (by simp)
      (by
        intro p hp
        simp only [List.mem_cons, List.not_mem_nil, or_false] at hp
        subst hp
        exact h4 _ (List.getElem_mem hi')) (hcrow alpha i)
      (hall _ (List.mem_cons_of_mem _ (List.mem_singleton.2 rfl)) _ hmem)
    exact ⟨c, fun _ => ⟨c1, c2, ⟨A, hA, hAc, c4⟩, by
      rw [List.getElem?_eq_getElem hi']; exact congrArg some (c3 _ (List.mem_singleton.2 rfl))⟩⟩
  choose c hc using hchunk
  refine ⟨ps, (List.range (2 ^ q)).map c, p1, p2, ⟨A, hA, hAc, p4⟩, by simp, ?_, p3 (zeta, _) (by simp),
    p3 (zeta * algebraMap K F (genV k), _) (by simp), ?_⟩
  · intro i c' hi
    rw [List.getElem?_map, Option.map_eq_some_iff] at hi
    obtain ⟨j, hj, rfl⟩ := hi
    obtain ⟨hj1, rfl⟩ := List.getElem?_eq_some_iff.1 hj
    rw [List.length_range] at hj1
    rw [List.getElem_range]
    obtain ⟨c1, c2, c3, -⟩ := hc i hj1
    exact ⟨c1, c2, c3⟩
  · refine List.ext_getElem? fun i => ?_
    by_cases hi : i < 2 ^ q
    · rw [(hc i hi).2.2.2]
      simp [hi]
    · rw [List.getElem?_eq_none (by omega), List.getElem?_eq_none (by simp; omega)]

/-- The challenges of the out-of-domain check for which wrong commitments pass. -/
theorem bad_challenges [Fintype F] {u : Setup K F SI C DI PI S D P Ch W} (hg : TwoAdic u.genV u.twoAdicity) (hg0 : u.g ≠ 0)
    {air : Air K} (hf : air.Filtered) {t : Nat} (ht : ∀ a ∈ air.asserts, a.transitions ≤ t) {pub : List K} {q : Nat}
    (hq : getLogQuotientDegree air pub.length = some q) {k h m D' : Nat} (hkq : k + q ≤ u.twoAdicity) (hh : h ≤ u.twoAdicity)
    (hm : 2 * m + 2 ^ k < 2 ^ h) (row : Nat → List K) (crow : F → Nat → Nat → List K)
    (hfar : ∀ ps : List K[X], ps.length = air.width → (∀ p ∈ ps, p.natDegree ≤ 2 ^ k) →
      RowsNear u.genV u.g h m row ps → ¬ Satisfies air (evalRows u.genV ps 1 k) pub) :
    ∃ (badA : Finset F) (badZ : F → Finset F), badA.card ≤ air.asserts.length - 1 ∧
      (∀ alpha, (badZ alpha).card ≤ (2 ^ q + 1) * 2 ^ k + t) ∧ ∀ alpha ∉ badA, ∀ zeta ∉ badZ alpha,
        ∀ (ps : List K[X]) (cps : List (List K[X])), ps.length = air.width → (∀ p ∈ ps, p.natDegree ≤ 2 ^ k) →
          RowsNear u.genV u.g h m row ps → cps.length = 2 ^ q →
          (∀ i c, cps[i]? = some c → c.length = D' ∧ (∀ p ∈ c, p.natDegree ≤ 2 ^ k) ∧
            RowsNear u.genV u.g h m (crow alpha i) c) → ¬ Accepts u air pub k q ps cps alpha zeta := by
  classical
  by_cases hdec : ∃ ps : List K[X], ps.length = air.width ∧ (∀ p ∈ ps, p.natDegree ≤ 2 ^ k) ∧
      RowsNear u.genV u.g h m row ps
  swap
  · exact ⟨∅, fun _ => ∅, by simp, by simp, fun alpha _ zeta _ ps cps h1 h2 h3 => absurd ⟨ps, h1, h2, h3⟩ hdec⟩
  obtain ⟨ps, p1, p2, p3⟩ := hdec
  have hsat := hfar ps p1 p2 p3
  simp only [Satisfies, not_forall] at hsat
  obtain ⟨i, hi, a, ha, hn⟩ := hsat
  have hi : i < 2 ^ k := by simpa [evalRows] using hi
  obtain ⟨bad, hfin, hcard, hbad⟩ := sound_core_le (u := u) hg hg0 ht hq hkq p1 p2 ha fun h =>
    hn ((holds_row_iff hg (by omega) hi ps pub (hf a ha)).2 h)
  have hZ : ∀ alpha, ∃ badZ : Finset F, badZ.card ≤ (2 ^ q + 1) * 2 ^ k + t ∧ (alpha ∉ bad → ∀ zeta ∉ badZ,
      ∀ cps : List (List K[X]), cps.length = 2 ^ q →
          (∀ i c, cps[i]? = some c → c.length = D' ∧ (∀ p ∈ c, p.natDegree ≤ 2 ^ k) ∧
            RowsNear u.genV u.g h m (crow alpha i) c) → ¬ Accepts u air pub k q ps cps alpha zeta) := by
    intro alpha
    by_cases hal : alpha ∈ bad
    · exact ⟨∅, by simp, fun h => absurd hal h⟩
    by_cases hdec : ∃ cps : List (List K[X]), cps.length = 2 ^ q ∧
          (∀ i c, cps[i]? = some c → c.length = D' ∧ (∀ p ∈ c, p.natDegree ≤ 2 ^ k) ∧
            RowsNear u.genV u.g h m (crow alpha i) c)
    swap
    · exact ⟨∅, by simp, fun _ zeta _ cps h1 h2 => absurd ⟨cps, h1, h2⟩ hdec⟩
    obtain ⟨cps, c1, c2⟩ := hdec
    obtain ⟨zf, zc⟩ := hbad alpha hal cps c1 (by
      intro c hc p hp
      obtain ⟨i, hi⟩ := List.mem_iff_getElem?.1 hc
      exact (c2 i c hi).2.1 p hp)
    refine ⟨zf.toFinset, by rwa [← Set.ncard_eq_toFinset_card _ zf], fun _ zeta hz cps' d1 d2 hacc => ?_⟩
    have : cps' = cps := by
      refine List.ext_getElem (by rw [c1, d1]) fun i hi hi' => ?_
      obtain ⟨e1, e2, e3⟩ := c2 i _ (List.getElem?_eq_getElem hi')
      obtain ⟨f1, f2, f3⟩ := d2 i _ (List.getElem?_eq_getElem hi)
      exact near_unique hg hg0 hh hm (by rw [e1, f1]) f2 e2 f3 e3
    subst this
    exact hz (zf.mem_toFinset.2 hacc)
  choose badZ hz1 hz2 using hZ
  refine ⟨hfin.toFinset, badZ, by rwa [← Set.ncard_eq_toFinset_card _ hfin], hz1,
    fun alpha hal zeta hze ps' cps h1 h2 h3 h4 h5 => ?_⟩
  obtain rfl : ps' = ps := near_unique hg hg0 hh hm (by rw [h1, p1]) h2 p2 h3 p3
  exact hz2 alpha (fun h => hal (hfin.mem_toFinset.2 h)) zeta hze cps h4 h5

/-- Counting triples of which some part is in a small set. -/
theorem card_bad3 {X Y : Type} [Fintype X] [Fintype Y] [DecidableEq X] [DecidableEq Y] (bA : Finset X)
    (bZ : X → Finset X) (bY : X → X → Finset Y) {a z b : Nat} (ha : bA.card ≤ a) (hz : ∀ x, (bZ x).card ≤ z)
    (hb : ∀ x x', (bY x x').card ≤ b) :
    (univ.filter fun v : X × X × Y => v.1 ∈ bA ∨ v.2.1 ∈ bZ v.1 ∨ v.2.2 ∈ bY v.1 v.2.1).card ≤
      a * (Fintype.card X * Fintype.card Y) + Fintype.card X * (z * Fintype.card Y) +
        Fintype.card X * (Fintype.card X * b) := by
  have hsub : (univ.filter fun v : X × X × Y => v.1 ∈ bA ∨ v.2.1 ∈ bZ v.1 ∨ v.2.2 ∈ bY v.1 v.2.1) ⊆
      (bA ×ˢ (univ : Finset (X × Y))) ∪ (univ.biUnion fun x => (bZ x ×ˢ (univ : Finset Y)).image (Prod.mk x)) ∪
        (univ.biUnion fun x => univ.biUnion fun x' => (bY x x').image fun y => (x, x', y)) := by
    rintro ⟨x, x', y⟩ hv
    have hv := (mem_filter.1 hv).2
    rcases hv with h | h | h
    · exact mem_union_left _ (mem_union_left _ (mem_product.2 ⟨h, mem_univ _⟩))
    · exact mem_union_left _ (mem_union_right _ (mem_biUnion.2 ⟨x, mem_univ _, mem_image.2 ⟨(x', y),
        mem_product.2 ⟨h, mem_univ _⟩, rfl⟩⟩))
    · exact mem_union_right _ (mem_biUnion.2 ⟨x, mem_univ _, mem_biUnion.2 ⟨x', mem_univ _, mem_image.2 ⟨y, h, rfl⟩⟩⟩)
  refine (card_le_card hsub).trans ((card_union_le _ _).trans (Nat.add_le_add ((card_union_le _ _).trans
    (Nat.add_le_add ?_ ?_)) ?_))
  · rw [card_product, card_univ, Fintype.card_prod]
    exact Nat.mul_le_mul_right _ ha
  · refine card_biUnion_le.trans ((sum_le_card_nsmul _ _ (z * Fintype.card Y) fun x _ => ?_).trans (by simp))
    refine card_image_le.trans ?_
    rw [card_product, card_univ]
    exact Nat.mul_le_mul_right _ (hz x)
  · refine card_biUnion_le.trans ((sum_le_card_nsmul _ _ (Fintype.card X * b) fun x _ => ?_).trans (by simp))
    refine card_biUnion_le.trans ((sum_le_card_nsmul _ _ b fun x' _ => ?_).trans (by simp))
    exact card_image_le.trans (hb x x')

/-- **C111** Choices of all challenges outside a small set let fewer than all but `m` of the query indices pass, if the
committed trace rows are not within `m / 2^(r - k)` positions of a trace that satisfies the AIR.  The proof may have any number
`r` of folding rounds, whatever the number `k` of bits of the claimed trace length. -/
theorem C111_few_queries_pass [Fintype F] {u : Setup K F SI C DI PI S D P Ch W} (hg : TwoAdic u.genV u.twoAdicity)
    (hg0 : u.g ≠ 0) {air : Air K} (hf : air.Filtered) {t : Nat} (ht : ∀ a ∈ air.asserts, a.transitions ≤ t) {pub : List K}
    {q : Nat} (hq : getLogQuotientDegree air pub.length = some q) {k r m : Nat} (hk : 0 < k) (hb : 0 < u.cfg.logBlowup)
    (hkq : k + q ≤ u.twoAdicity) (hrb : r + u.cfg.logBlowup ≤ u.twoAdicity)
    (hm : 2 * m + 2 ^ r < 2 ^ (r + u.cfg.logBlowup)) (pr : Prover K F C) (hrow : ∀ i, (pr.traceRow i).length = air.width)
    (hcrow : ∀ alpha i idx, (pr.quotientRow alpha i idx).length = u.deg.D)
    (hfar : ∀ ps : List K[X], ps.length = air.width → (∀ p ∈ ps, p.natDegree ≤ 2 ^ k) →
      RowsNear u.genV u.g (k + u.cfg.logBlowup) (m / 2 ^ (r - k)) pr.traceRow ps → ¬ Satisfies air (evalRows u.genV ps 1 k) pub) :
    ∃ bad : Finset (F × F × F × (Fin r → F)),
      3 * bad.card ≤ (3 * (air.asserts.length - 1) + 3 * ((2 ^ q + 1) * 2 ^ k + t) +
        (3 * ((2 * air.width + 2 ^ q * u.deg.D - 1) * (m / 2 ^ (r - k) * (m / 2 ^ (r - k) + 2 ^ k) + 1)) + m * (m + 2 ^ r) +
          3 * r + 3 * 2 ^ (r + u.cfg.logBlowup + 1))) * (Fintype.card F * (Fintype.card F * Fintype.card F ^ r)) ∧
      ∀ x, x ∉ bad → ∀ A : Finset Nat, (∀ i ∈ A, i < 2 ^ (r + u.cfg.logBlowup)) →
        (∀ i ∈ A, pr.Passes u air pub k q x.1 x.2.1 x.2.2.1 (List.ofFn x.2.2.2) i) →
        A.card + m < 2 ^ (r + u.cfg.logBlowup) := by
  classical
  rcases Nat.lt_or_ge r k with hrk | hkr
  · -- no query passes
    refine ⟨∅, by simp, fun x _ A _ hp => ?_⟩
    rw [Finset.card_eq_zero.2 (Finset.eq_empty_of_forall_notMem fun i hi => ?_)]
    · have := Nat.two_pow_pos r
      omega
    · obtain ⟨_, _, -, -, -, -, -, -, -, -, -, h⟩ := hp i hi
      have := h.fits _ List.mem_cons_self _ (List.mem_singleton.2 rfl)
      rw [List.length_ofFn] at this
      simp only at this
      omega
  have hkb : k + u.cfg.logBlowup ≤ u.twoAdicity := by omega
  have hmk : 2 * (m / 2 ^ (r - k)) + 2 ^ k < 2 ^ (k + u.cfg.logBlowup) := by
    refine Nat.lt_of_mul_lt_mul_right (a := 2 ^ (r - k)) ?_
    have h1 : 2 ^ k * 2 ^ (r - k) = 2 ^ r := by rw [← pow_add]; congr 1; omega
    have h2 : 2 ^ (k + u.cfg.logBlowup) * 2 ^ (r - k) = 2 ^ (r + u.cfg.logBlowup) := by rw [← pow_add]; congr 1; omega
    have h3 := Nat.div_mul_le_self m (2 ^ (r - k))
    rw [h2, Nat.add_mul, h1, Nat.mul_assoc]
    omega
  set N3 := 3 * ((2 * air.width + 2 ^ q * u.deg.D - 1) * (m / 2 ^ (r - k) * (m / 2 ^ (r - k) + 2 ^ k) + 1)) +
          m * (m + 2 ^ r) + 3 * r + 3 * 2 ^ (r + u.cfg.logBlowup + 1) with hN3
  have hF : 0 < Fintype.card F := Fintype.card_pos
  have hdom : ∀ alpha zeta, ∀ c ∈ pr.claims u.genV k (chunkDomains u.genV k q u.g) alpha zeta, ∀ mat ∈ c.2,
      mat.dom.logN = k := by
    intro alpha zeta c hc mat hmat
    simp only [Prover.claims, List.mem_cons, List.not_mem_nil, or_false] at hc
    rcases hc with rfl | rfl
    · rw [List.mem_singleton] at hmat
      subst hmat
      rfl
    · obtain ⟨i, v, -, rfl⟩ := claims_chunk hmat
      rfl
  have h110 : ∀ alpha zeta, ∃ bad : Finset (F × (Fin r → F)), bad.card ≤ N3 * Fintype.card F ^ r / 3 ∧
      (pr.Shape air.width (2 ^ q) u.deg.D alpha zeta → ∀ v, v ∉ bad → ∀ A : Finset Nat,
        (∀ i ∈ A, i < 2 ^ (r + u.cfg.logBlowup)) →
        (∀ i ∈ A, PassesAll (pr.words alpha zeta v.1) u.genV u.g u.mi u.m u.cfg
          (pr.claims u.genV k (chunkDomains u.genV k q u.g) alpha zeta) v.1 (List.ofFn v.2) i) →
        2 ^ (r + u.cfg.logBlowup) ≤ A.card + m →
        ClaimsHold u.genV u.g (k + u.cfg.logBlowup) (2 ^ k) (m / 2 ^ (r - k))
          (pr.claims u.genV k (chunkDomains u.genV k q u.g) alpha zeta)) := by
    intro alpha zeta
    by_cases hs : pr.Shape air.width (2 ^ q) u.deg.D alpha zeta
    swap
    · exact ⟨∅, by simp, fun h => absurd h hs⟩
    obtain ⟨bad, b1, b2⟩ := C110_passing_claims_hold hg0 (twoAdic_map hg) u.mi u.m u.cfg
      (pr.claims u.genV k (chunkDomains u.genV k q u.g) alpha zeta) (pr.words alpha zeta) hk hkr hb hrb (m := m) hm.le
      (hdom alpha zeta) (by
        intro c hc mat hmat p hp i
        simp only [Prover.claims, List.mem_cons, List.not_mem_nil, or_false] at hc
        rcases hc with rfl | rfl
        · rw [List.mem_singleton] at hmat
          subst hmat
          simp only [List.mem_cons, List.not_mem_nil, or_false] at hp
          rcases hp with rfl | rfl
          · exact hs.1.trans (hrow i).symm
          · exact hs.2.1.trans (hrow i).symm
        · obtain ⟨j, v, hv, rfl⟩ := claims_chunk hmat
          rw [List.mem_singleton] at hp
          subst hp
          exact (hs.2.2.2 _ (List.mem_of_getElem? hv)).trans (hcrow alpha j i).symm)
    rw [claims_numClaims hs, ← hN3] at b1
    refine ⟨bad, ?_, fun _ => b2⟩
    rw [Nat.le_div_iff_mul_le (by omega), mul_comm]
    refine Nat.le_of_mul_le_mul_left ?_ hF
    calc Fintype.card F * (3 * bad.card) = 3 * (Fintype.card F * bad.card) := by ring
      _ ≤ _ := b1
      _ = _ := by ring
  choose bad3 hb3 hp3 using h110
  obtain ⟨badA, badZ, hA, hZ, hno⟩ := bad_challenges (D' := u.deg.D) hg hg0 hf ht hq hkq hkb hmk pr.traceRow pr.quotientRow hfar
  refine ⟨univ.filter fun v : F × F × F × (Fin r → F) => v.1 ∈ badA ∨ v.2.1 ∈ badZ v.1 ∨ v.2.2 ∈ bad3 v.1 v.2.1, ?_, ?_⟩
  · refine (Nat.mul_le_mul_left 3 (card_bad3 badA badZ bad3 hA hZ hb3)).trans ?_
    rw [Fintype.card_prod, Fintype.card_fun, Fintype.card_fin]
    generalize Fintype.card F = f at *
    have hdiv : 3 * (N3 * f ^ r / 3) ≤ N3 * f ^ r := Nat.mul_div_le _ _
    calc _ = (3 * (air.asserts.length - 1) + 3 * ((2 ^ q + 1) * 2 ^ k + t)) * (f * (f * f ^ r)) +
          f * (f * (3 * (N3 * f ^ r / 3))) := by ring
      _ ≤ (3 * (air.asserts.length - 1) + 3 * ((2 ^ q + 1) * 2 ^ k + t)) * (f * (f * f ^ r)) +
          f * (f * (N3 * f ^ r)) := Nat.add_le_add_left (Nat.mul_le_mul_left _ (Nat.mul_le_mul_left _ hdiv)) _
      _ = _ := by ring
  · rintro ⟨alpha, zeta, batch, betas⟩ hx A hAlt hpass
    simp only [mem_filter, mem_univ, true_and, not_or] at hx
    obtain ⟨x1, x2, x3⟩ := hx
    by_contra hcon
    have hcard : 2 ^ (r + u.cfg.logBlowup) ≤ A.card + m := by omega
    have hne : A.Nonempty := by
      rw [← card_pos]
      have := Nat.two_pow_pos r
      omega
    obtain ⟨i0, hi0⟩ := hne
    obtain ⟨proof, domains, hsd, e1, e2, e3, s1, s2, s3, s4, hood, -⟩ := hpass i0 hi0
    rw [splitDomains_eq hkq, Option.some.injEq] at hsd
    subst hsd
    have hs : pr.Shape air.width (2 ^ q) u.deg.D alpha zeta :=
      ⟨e1 ▸ s1, e2 ▸ s2, e3 ▸ s3, e3 ▸ s4⟩
    have hold := hp3 alpha zeta hs (batch, betas) x3 A hAlt (fun i hi => by
      obtain ⟨proof, domains, hsd, -, -, -, -, -, -, -, -, hp⟩ := hpass i hi
      rw [splitDomains_eq hkq, Option.some.injEq] at hsd
      subst hsd
      exact hp) hcard
    obtain ⟨ps, cps, p1, p2, p3, c1, c2, l1, l2, l3⟩ := claims_decode hg hg0 hkb (by omega) hs hrow hcrow hold
    exact hno alpha x1 zeta x2 ps cps p1 p2 p3 c1 c2
      ⟨proof, _, splitDomains_eq hkq _, e1.trans l1, e2.trans l2, e3.trans l3, hood⟩

/-- **C111** The soundness error: the part of the choices of all challenges and of `Q` query indices for which every query
passes, whatever the prover does, if its trace commitment is not within `m / 2^(r - k)` positions of a trace that satisfies the
AIR. -/
theorem C111_soundness_error [Fintype F] {u : Setup K F SI C DI PI S D P Ch W} (hg : TwoAdic u.genV u.twoAdicity)
    (hg0 : u.g ≠ 0) {air : Air K} (hf : air.Filtered) {t : Nat} (ht : ∀ a ∈ air.asserts, a.transitions ≤ t) {pub : List K}
    {q : Nat} (hq : getLogQuotientDegree air pub.length = some q) {k r m : Nat} (hk : 0 < k) (hb : 0 < u.cfg.logBlowup)
    (hkq : k + q ≤ u.twoAdicity) (hrb : r + u.cfg.logBlowup ≤ u.twoAdicity)
    (hm : 2 * m + 2 ^ r < 2 ^ (r + u.cfg.logBlowup)) (pr : Prover K F C) (hrow : ∀ i, (pr.traceRow i).length = air.width)
    (hcrow : ∀ alpha i idx, (pr.quotientRow alpha i idx).length = u.deg.D)
    (hfar : ∀ ps : List K[X], ps.length = air.width → (∀ p ∈ ps, p.natDegree ≤ 2 ^ k) →
      RowsNear u.genV u.g (k + u.cfg.logBlowup) (m / 2 ^ (r - k)) pr.traceRow ps → ¬ Satisfies air (evalRows u.genV ps 1 k) pub) (Q : Nat) :
    (Set.ncard {x : (F × F × F × (Fin r → F)) × (Fin Q → Fin (2 ^ (r + u.cfg.logBlowup))) |
        ∀ j, pr.Passes u air pub k q x.1.1 x.1.2.1 x.1.2.2.1 (List.ofFn x.1.2.2.2) (x.2 j)} : ℚ) /
      (Fintype.card F ^ (r + 3) * (2 ^ (r + u.cfg.logBlowup)) ^ Q) ≤
      ((air.asserts.length - 1 : Nat) + ((2 ^ q + 1) * 2 ^ k + t) +
        (2 * air.width + 2 ^ q * u.deg.D - 1 : Nat) * ((m / 2 ^ (r - k) : Nat) * ((m / 2 ^ (r - k) : Nat) + 2 ^ k) + 1)) /
          Fintype.card F +
        (m * (m + 2 ^ r) + 3 * r + 3 * 2 ^ (r + u.cfg.logBlowup + 1)) / (3 * Fintype.card F) +
        (1 - (m + 1) / 2 ^ (r + u.cfg.logBlowup)) ^ Q := by
  classical
  obtain ⟨bad, hbc, hbad⟩ := C111_few_queries_pass hg hg0 hf ht hq hk hb hkq hrb hm pr hrow hcrow hfar
  have h := error_of_small (fun (x : F × F × F × (Fin r → F)) i =>
      pr.Passes u air pub k q x.1 x.2.1 x.2.2.1 (List.ofFn x.2.2.2) i)
    (n := 2 ^ (r + u.cfg.logBlowup)) (m := m) (by have := Nat.two_pow_pos r; omega) bad hbad Q
  rw [Fintype.card_prod, Fintype.card_prod, Fintype.card_prod, Fintype.card_fun, Fintype.card_fin] at h
  push_cast at h
  have hF : (0 : ℚ) < Fintype.card F := by exact_mod_cast Fintype.card_pos
  have hcard : (Fintype.card F : ℚ) * (Fintype.card F * (Fintype.card F * Fintype.card F ^ r)) = Fintype.card F ^ (r + 3) := by
    ring
  rw [hcard] at h
  refine h.trans (add_le_add ?_ le_rfl)
  have hbc' : (3 : ℚ) * bad.card ≤ (3 * ((air.asserts.length - 1 : Nat) : ℚ) + 3 * ((2 ^ q + 1) * 2 ^ k + t) +
        (3 * (((2 * air.width + 2 ^ q * u.deg.D - 1 : Nat) : ℚ) *
          ((m / 2 ^ (r - k) : Nat) * ((m / 2 ^ (r - k) : Nat) + 2 ^ k) + 1)) + m * (m + 2 ^ r) + 3 * r +
          3 * 2 ^ (r + u.cfg.logBlowup + 1))) * (Fintype.card F * (Fintype.card F * Fintype.card F ^ r)) := by
    exact_mod_cast hbc
  rw [div_add_div _ _ hF.ne' (by positivity), div_le_div_iff₀ (by positivity) (by positivity)]
  calc (bad.card : ℚ) * (Fintype.card F * (3 * Fintype.card F)) = 3 * bad.card * (Fintype.card F * Fintype.card F) := by ring
    _ ≤ _ := mul_le_mul_of_nonneg_right hbc' (by positivity)
    _ = _ := by ring

/-- **C111** In particular, whatever the prover does, if no trace satisfies the AIR. -/
theorem C111_false_statement [Fintype F] {u : Setup K F SI C DI PI S D P Ch W} (hg : TwoAdic u.genV u.twoAdicity)
    (hg0 : u.g ≠ 0) {air : Air K} (hf : air.Filtered) {t : Nat} (ht : ∀ a ∈ air.asserts, a.transitions ≤ t) {pub : List K}
    {q : Nat} (hq : getLogQuotientDegree air pub.length = some q) {k r m : Nat} (hk : 0 < k) (hb : 0 < u.cfg.logBlowup)
    (hkq : k + q ≤ u.twoAdicity) (hrb : r + u.cfg.logBlowup ≤ u.twoAdicity)
    (hm : 2 * m + 2 ^ r < 2 ^ (r + u.cfg.logBlowup)) (pr : Prover K F C) (hrow : ∀ i, (pr.traceRow i).length = air.width)
    (hcrow : ∀ alpha i idx, (pr.quotientRow alpha i idx).length = u.deg.D)
    (hno : ∀ trace : Mat K, trace.length = 2 ^ k → Rect trace air.width → ¬ Satisfies air trace pub) (Q : Nat) :
    (Set.ncard {x : (F × F × F × (Fin r → F)) × (Fin Q → Fin (2 ^ (r + u.cfg.logBlowup))) |
        ∀ j, pr.Passes u air pub k q x.1.1 x.1.2.1 x.1.2.2.1 (List.ofFn x.1.2.2.2) (x.2 j)} : ℚ) /
      (Fintype.card F ^ (r + 3) * (2 ^ (r + u.cfg.logBlowup)) ^ Q) ≤
      ((air.asserts.length - 1 : Nat) + ((2 ^ q + 1) * 2 ^ k + t) +
        (2 * air.width + 2 ^ q * u.deg.D - 1 : Nat) * ((m / 2 ^ (r - k) : Nat) * ((m / 2 ^ (r - k) : Nat) + 2 ^ k) + 1)) /
          Fintype.card F +
        (m * (m + 2 ^ r) + 3 * r + 3 * 2 ^ (r + u.cfg.logBlowup + 1)) / (3 * Fintype.card F) +
        (1 - (m + 1) / 2 ^ (r + u.cfg.logBlowup)) ^ Q :=
  C111_soundness_error hg hg0 hf ht hq hk hb hkq hrb hm pr hrow hcrow (fun ps hl _ _ => hno _ (by simp [evalRows]) (by
    intro row hr
    obtain ⟨i, -, rfl⟩ := List.mem_map.1 hr
    rw [List.length_map, hl])) Q

/-- **C111** True statements pass: if a trace satisfies the AIR there is a prover that commits to it and passes at every index,
for all challenges with `zeta` neither in the trace domain nor such that a queried point is opened. -/
theorem C111_true_statement {u : Setup K F SI C DI PI S D P Ch W} (hu : u.Ok) {air : Air K} (hf : air.Filtered)
    (ht : air.FewTransitions) {pub : List K} {q : Nat} (hq : getLogQuotientDegree air pub.length = some q) {k : Nat}
    (hk : 0 < k) (hkq : k + q ≤ u.twoAdicity) (hkb : k + u.cfg.logBlowup ≤ u.twoAdicity)
    (hMI : ∀ q rows π c, u.mi.verifyBatch q rows π c = some true) (πi : PI)
    (hM : ∀ q rows π c, u.m.verifyBatch q rows π c = some true) (π : P) (c : C) (w : W)
    {trace : Mat K} (hl : trace.length = 2 ^ k) (hrect : Rect trace air.width) (hsat : Satisfies air trace pub) :
    ∃ (pr : Prover K F C) (ps : List K[X]), (∀ p ∈ ps, p.natDegree < 2 ^ k) ∧ trace = evalRows u.genV ps 1 k ∧
      RowsNear u.genV u.g (k + u.cfg.logBlowup) 0 pr.traceRow ps ∧
      ∀ alpha zeta : F, zeta ^ 2 ^ k ≠ 1 →
        (∀ i, algebraMap K F (queryPoint u.genV u.g (k + u.cfg.logBlowup) i) ≠ zeta ∧
          algebraMap K F (queryPoint u.genV u.g (k + u.cfg.logBlowup) i) ≠ zeta * algebraMap K F (u.genV k)) →
        ∀ (batch : F) (betas : List F), betas.length = k → ∀ idx < 2 ^ (k + u.cfg.logBlowup),
          pr.Passes u air pub k q alpha zeta batch betas idx := by
  classical
  set h := k + u.cfg.logBlowup with hh
  obtain ⟨ps, hpw, rfl, hps⟩ := trace_polys hu (k := k) (by omega) hl hrect
  have hr := ((C45_least_power_of_two air _ q).1 hq).1
  have hquot : ∀ alpha : F, ∃ (Q : F[X]) (cps : List (List K[X])),
      foldedPoly u.genV k air ps pub alpha = (X ^ 2 ^ k - 1) * Q ∧ cps.length = 2 ^ q ∧ (∀ c ∈ cps, c.length = u.deg.D) ∧
      (∀ c ∈ cps, ∀ p ∈ c, p.natDegree < 2 ^ k) ∧ gluedPoly hu.twoAdic u.deg u.g k q cps = Q := by
    intro alpha
    obtain ⟨Q, hQ, hQd⟩ := exists_quotient (F := F) (genV := u.genV) hps hq ht
      ((satisfies_iff_dvd hu.twoAdic (by omega) ps pub hf).1 hsat) alpha
    obtain ⟨cps, c1, c2, c3, -, c4⟩ := chunk_polys hu hkq fun j => Q.eval (algebraMap K F (u.g * u.genV (k + q) ^ j))
    refine ⟨Q, cps, hQ, c1, c2, c3, eq_of_cosets hu.twoAdic hkq hu.g0 (glued_degree hu.twoAdic u.deg c3) hQd ?_⟩
    intro i hi l
    have hc : cps[i]? = some (cps[i]'(by omega)) := List.getElem?_eq_getElem _
    rw [glued_values hu.twoAdic u.deg hkq hu.g0 c1 i _ hc l, ← gen_pow_mod hu.twoAdic (by omega) l,
      c4 i _ hc _ (Nat.mod_lt _ (Nat.two_pow_pos k)), pow_add, mul_comm (l % 2 ^ k), pow_mul, hu.twoAdic.pow hkq, mul_assoc]
  choose Q cps hQ hcl hcw hcd hglue using hquot
  let cs : F → F → List (C × List (Claimed K F)) := fun alpha zeta =>
    [(c, [⟨fun i => ps.map fun p => p.eval (queryPoint u.genV u.g h i), ⟨k, 1⟩, [(zeta, ps.map fun p => aeval zeta p),
        (zeta * algebraMap K F (u.genV k), ps.map fun p => aeval (zeta * algebraMap K F (u.genV k)) p)]⟩]),
     (c, ((chunkDomains u.genV k q u.g).zip ((cps alpha).map fun c => c.map fun p => aeval zeta p)).mapIdx fun i dv =>
        ⟨fun j => ((cps alpha).getD i []).map fun p => p.eval (queryPoint u.genV u.g h j), dv.1, [(zeta, dv.2)]⟩)]
  have hstr : ∀ alpha zeta : F, ∃ s : F → Strategy F,
      (∀ i, algebraMap K F (queryPoint u.genV u.g h i) ≠ zeta ∧
          algebraMap K F (queryPoint u.genV u.g h i) ≠ zeta * algebraMap K F (u.genV k)) →
      ∀ batch (betas : List F), betas.length = k → ∀ idx < 2 ^ h,
        PassesAll (s batch) u.genV u.g u.mi u.m u.cfg (cs alpha zeta) batch betas idx := by
    intro alpha zeta
    by_cases hz : ∀ i, algebraMap K F (queryPoint u.genV u.g h i) ≠ zeta ∧
          algebraMap K F (queryPoint u.genV u.g h i) ≠ zeta * algebraMap K F (u.genV k)
    swap
    · exact ⟨fun _ => ⟨fun _ _ => 0, fun _ => 0⟩, fun h => absurd h hz⟩
    have hev : ∀ (l : List K[X]) (z : F), ((l.map fun p => p.map (algebraMap K F)).map fun P => P.eval z) =
        l.map fun p => aeval z p := by
      intro l z
      rw [List.map_map]
      exact List.map_congr_left fun p _ => eval_map_algebraMap _ _
    have hevK : ∀ (l : List K[X]) (x : K), (l.map fun p => p.eval x).map (algebraMap K F) =
        (l.map fun p => p.map (algebraMap K F)).map fun P => P.eval (algebraMap K F x) := by
      intro l x
      rw [hev, List.map_map]
      exact List.map_congr_left fun p _ => by
        rw [aeval_algebraMap_apply, coe_aeval_eq_eval]
        rfl
    have hdg : ∀ l : List K[X], (∀ p ∈ l, p.natDegree < 2 ^ k) → ∀ P ∈ l.map fun p => p.map (algebraMap K F),
        P.natDegree ≤ 2 ^ k := by
      intro l hl P hP
      obtain ⟨p, hp, rfl⟩ := List.mem_map.1 hP
      exact natDegree_map_le.trans (hl p hp).le
    have hchunk : ∀ mat ∈ ((chunkDomains u.genV k q u.g).zip ((cps alpha).map fun c => c.map fun p => aeval zeta p)).mapIdx
        (fun i dv => (⟨fun j => ((cps alpha).getD i []).map fun p => p.eval (queryPoint u.genV u.g h j), dv.1,
          [(zeta, dv.2)]⟩ : Claimed K F)), ∃ i, ∃ hi : i < (cps alpha).length,
        mat = ⟨fun j => ((cps alpha)[i]).map fun p => p.eval (queryPoint u.genV u.g h j), ⟨k, u.g * u.genV (k + q) ^ i⟩,
          [(zeta, ((cps alpha)[i]).map fun p => aeval zeta p)]⟩ := by
      intro mat hmat
      obtain ⟨i, hi, rfl⟩ := List.mem_mapIdx.1 hmat
      have hi' : i < (cps alpha).length := by
        rw [List.length_zip, List.length_map] at hi
        omega
      refine ⟨i, hi', ?_⟩
      simp [chunkDomains, hi']
    obtain ⟨s, hs⟩ := C110_right_claims_pass hu.g0 (twoAdic_map hu.twoAdic) hMI πi hM π c (cfg := u.cfg) (cs alpha zeta)
      hk hkb (by
        intro c' hc'
        simp only [cs, List.mem_cons, List.not_mem_nil, or_false] at hc'
        rcases hc' with rfl | rfl
        · exact ⟨by simp, by simp⟩
        · refine ⟨?_, fun mat hmat => ?_⟩
          · intro he
            have := congrArg List.length he
            have hp := Nat.two_pow_pos q
            simp only [List.length_mapIdx, List.length_zip, List.length_map, chunkDomains, List.length_range, hcl alpha,
              List.length_nil] at this
            omega
          · obtain ⟨i, hi, rfl⟩ := hchunk mat hmat
            rfl)
      (by
        intro c' hc' mat hmat
        simp only [cs, List.mem_cons, List.not_mem_nil, or_false] at hc'
        rcases hc' with rfl | rfl
        · rw [List.mem_singleton] at hmat
          subst hmat
          refine ⟨ps.map fun p => p.map (algebraMap K F), hdg ps hps, fun i _ => hevK ps _, ?_⟩
          intro p hp
          simp only [List.mem_cons, List.not_mem_nil, or_false] at hp
          rcases hp with rfl | rfl
          · exact ⟨(hev ps _).symm, fun i _ => (hz i).1⟩
          · exact ⟨(hev ps _).symm, fun i _ => (hz i).2⟩
        · obtain ⟨i, hi, rfl⟩ := hchunk mat hmat
          refine ⟨(cps alpha)[i].map fun p => p.map (algebraMap K F), hdg _ (hcd alpha _ (List.getElem_mem hi)),
            fun j _ => hevK _ _, ?_⟩
          intro p hp
          rw [List.mem_singleton] at hp
          subst hp
          exact ⟨(hev _ _).symm, fun i _ => (hz i).1⟩)
    exact ⟨s, fun _ => hs⟩
  choose s hs using hstr
  refine ⟨⟨c, fun i => ps.map fun p => p.eval (queryPoint u.genV u.g h i), fun _ => c,
    fun alpha i j => ((cps alpha).getD i []).map fun p => p.eval (queryPoint u.genV u.g h j),
    fun _ zeta => ps.map fun p => aeval zeta p, fun _ zeta => ps.map fun p => aeval (zeta * algebraMap K F (u.genV k)) p,
    fun alpha zeta => (cps alpha).map fun c => c.map fun p => aeval zeta p, s⟩, ps, hps, rfl,
    ⟨Finset.range (2 ^ h), by simp, by simp, fun _ _ => rfl⟩, ?_⟩
  intro alpha zeta hz hz' batch betas hbl idx hidx
  refine ⟨⟨c, c, ps.map fun p => aeval zeta p, ps.map fun p => aeval (zeta * algebraMap K F (u.genV k)) p,
    (cps alpha).map fun c => c.map fun p => aeval zeta p, ⟨[], [], 0, w⟩, k⟩, chunkDomains u.genV k q u.g,
    splitDomains_eq hkq _, rfl, rfl, rfl, by simp [hpw], by simp [hpw], by simp [hcl alpha], ?_, ?_,
    hs alpha zeta hz' batch betas hbl idx hidx⟩
  · intro qc hqc
    obtain ⟨c', hc', rfl⟩ := List.mem_map.1 hqc
    rw [List.length_map, hcw alpha c' hc']
  · rw [oodCheck_claims hu.twoAdic hu.g0 hr hkq (by simp [hpw]) (by simp [hpw]) hz, recombine_glued hu.twoAdic u.deg u.g k (hcl alpha),
      Option.map_some, meaning_at, ← foldedPoly_eval, hQ alpha, hglue alpha, eval_mul, eval_sub, eval_pow, eval_X, eval_one,
      mul_comm, ← mul_assoc, inv_mul_cancel₀ (sub_ne_zero.2 hz), one_mul, decide_eq_true rfl]

end TapStark.Stark
