import Verif.Proofs.Batch
import Verif.Proofs.FriDescend
import Verif.Props.OpenSound
import Verif.Props.Claims
import Verif.Props.PcsRelease

/-! # C110: soundness of the opening check, for claims fixed before the combining challenge -/

namespace TapStark.Pcs

open TapStark.Fri Polynomial Finset

variable {K F : Type} [Field K] [Field F] [DecidableEq F] [Algebra K F]
variable {SI CI DI PI S C D P : Type}

/-! ### The claims as one list -/

/-- All claims: the matrix, the point, the column, the value. -/
def flatClaims (cs : List (CI × List (Claimed K F))) : List (Claimed K F × F × Nat × F) :=
  cs.flatMap fun c => c.2.flatMap fun m => m.points.flatMap fun p => p.2.zipIdx.map fun y => (m, p.1, y.2, y.1)

/-- The quotient of a claim at a query index. -/
def claimTerm (genV : Nat → K) (g : K) (h i : Nat) (t : Claimed K F × F × Nat × F) : F :=
  (algebraMap K F ((t.1.row i).getD t.2.2.1 0) - t.2.2.2) / (algebraMap K F (queryPoint genV g h i) - t.2.1)

omit [Field F] [DecidableEq F] [Algebra K F] [Field K] in
theorem flatClaims_length (cs : List (CI × List (Claimed K F))) : (flatClaims cs).length = numClaims cs := by
  simp [flatClaims, numClaims, List.length_flatMap, Function.comp_def]

omit [Field F] [DecidableEq F] [Algebra K F] [Field K] in
theorem mem_flatClaims {cs : List (CI × List (Claimed K F))} {c : CI × List (Claimed K F)} {m : Claimed K F} {p : F × List F}
    {j : Nat} {y : F} (hc : c ∈ cs) (hm : m ∈ c.2) (hp : p ∈ m.points) (hy : y ∈ p.2[j]?) :
    (m, p.1, j, y) ∈ flatClaims cs := by
  refine List.mem_flatMap.2 ⟨c, hc, List.mem_flatMap.2 ⟨m, hm, List.mem_flatMap.2 ⟨p, hp, List.mem_map.2 ⟨(y, j), ?_, rfl⟩⟩⟩⟩
  rw [List.mem_zipIdx_iff_getElem?]
  exact hy

omit [Field F] [DecidableEq F] [Algebra K F] [Field K] in
theorem of_mem_flatClaims {cs : List (CI × List (Claimed K F))} {t : Claimed K F × F × Nat × F} (ht : t ∈ flatClaims cs) :
    ∃ c ∈ cs, t.1 ∈ c.2 ∧ ∃ p ∈ t.1.points, t.2.1 = p.1 ∧ p.2[t.2.2.1]? = some t.2.2.2 := by
  obtain ⟨c, hc, ht⟩ := List.mem_flatMap.1 ht
  obtain ⟨m, hm, ht⟩ := List.mem_flatMap.1 ht
  obtain ⟨p, hp, ht⟩ := List.mem_flatMap.1 ht
  obtain ⟨y, hy, rfl⟩ := List.mem_map.1 ht
  exact ⟨c, hc, hm, p, hp, rfl, List.mem_zipIdx_iff_getElem?.1 hy⟩

theorem zip_zipIdx : ∀ (row : List K) (ps : List F) (k : Nat) (pre : List K), ps.length = row.length → pre.length = k →
    row.zip ps = (ps.zipIdx k).map fun y => ((pre ++ row).getD y.2 0, y.1)
  | [], [], _, _, _, _ => rfl
  | x :: row, y :: ps, k, pre, h, hk => by
    rw [List.zip_cons_cons, List.zipIdx_cons, List.map_cons, zip_zipIdx row ps (k + 1) (pre ++ [x]) (by simpa using h)
      (by simp [hk])]
    congr 1
    · simp [← hk]
    · simp

theorem opened_claimed {b top : Nat} {cs : List (CI × List (Claimed K F))} {i : Nat} {ip : List (List (List K) × PI)}
    (h : ip.map Prod.fst = claimedRows b top cs i) :
    opened (ip.zip (claimedRounds cs)) =
      cs.flatMap fun c => c.2.map fun m => (m.row (i / 2 ^ (top - (m.dom.logN + b))), m.dom, m.points) := by
  induction cs generalizing ip with
  | nil => simp [claimedRounds, opened]
  | cons c cs ih =>
    cases ip with
    | nil => simp [claimedRows] at h
    | cons x ip =>
      simp only [claimedRows, List.map_cons, List.cons.injEq] at h
      have e := ih h.2
      simp only [opened, claimedRounds, List.map_cons, List.zip_cons_cons, List.flatMap_cons] at e ⊢
      rw [e, h.1, List.zip_map']

theorem terms_claimed {genV : Nat → K} {g : K} {b top h i : Nat} {cs : List (CI × List (Claimed K F))}
    (hdom : ∀ c ∈ cs, ∀ m ∈ c.2, m.dom.logN + b = h)
    (hw : ∀ c ∈ cs, ∀ m ∈ c.2, ∀ p ∈ m.points, p.2.length = (m.row (i / 2 ^ (top - h))).length) :
    heightTerms genV g b top i h
        (cs.flatMap fun c => c.2.map fun m => (m.row (i / 2 ^ (top - (m.dom.logN + b))), m.dom, m.points)) =
      (flatClaims cs).map (claimTerm genV g h (i / 2 ^ (top - h))) := by
  unfold heightTerms flatClaims
  rw [List.flatMap_assoc, List.map_flatMap]
  refine List.flatMap_congr fun c hc => ?_
  rw [List.flatMap_map, List.map_flatMap]
  refine List.flatMap_congr fun m hm => ?_
  simp only
  rw [if_pos (hdom c hc m hm), hdom c hc m hm, matTerms, List.map_flatMap, Nat.shiftRight_eq_div_pow]
  refine List.flatMap_congr fun p hp => ?_
  rw [zip_zipIdx (m.row (i / 2 ^ (top - h))) p.2 0 [] (hw c hc m hm p hp) rfl, List.map_map, List.map_map]
  refine List.map_congr_left fun y _ => ?_
  simp [claimTerm]

theorem terms_other {genV : Nat → K} {g : K} {b top h₀ h i : Nat} {l : List (List K × Dom K × List (F × List F))}
    (hdom : ∀ m ∈ l, m.2.1.logN + b = h₀) (hh : h ≠ h₀) : heightTerms genV g b top i h l = [] := by
  unfold heightTerms
  rw [List.flatMap_eq_nil_iff]
  intro m hm
  rw [if_neg (by rw [hdom m hm]; exact fun e => hh e.symm)]

/-- The reduced openings of one height only. -/
def batchRo (genV : Nat → K) (g : K) (h0 : Nat) (cs : List (CI × List (Claimed K F))) (alpha : F) (h i : Nat) : F :=
  if h = h0 then dotPowers alpha ((flatClaims cs).map (claimTerm genV g h0 i)) else 0

theorem PassesAll.both {s : Strategy F} {genV : Nat → K} {g : K} {MI : InMmcs K SI CI DI PI} {M : Mmcs F S C D P}
    {cfg : Config} {cs : List (CI × List (Claimed K F))} {alpha : F} {betas : List F} {idx k : Nat} (h0 : 0 < k)
    (hk : k ≤ betas.length) (hdom : ∀ c ∈ cs, ∀ m ∈ c.2, m.dom.logN = k)
    (hw : ∀ c ∈ cs, ∀ m ∈ c.2, ∀ p ∈ m.points, p.2.length = (m.row (idx / 2 ^ (betas.length - k))).length)
    (h : PassesAll s genV g MI M cfg cs alpha betas idx) :
    s.PassesBoth (fun b => algebraMap K F (genV b)) M cfg (batchRo genV g (k + cfg.logBlowup) cs alpha) betas idx ∧
    ∀ t ∈ flatClaims cs,
      algebraMap K F (queryPoint genV g (k + cfg.logBlowup) (idx / 2 ^ (betas.length - k))) ≠ t.2.1 := by
  obtain ⟨q, q', ip, ros, commits, openings, h1, h2, h3, h4, h5, h6⟩ := h
  have hsub : betas.length + cfg.logBlowup - (k + cfg.logBlowup) = betas.length - k := by omega
  have hd : ∀ m ∈ opened (ip.zip (claimedRounds cs)), m.2.1.logN + cfg.logBlowup = k + cfg.logBlowup := by
    rw [opened_claimed h1]
    intro m hm
    obtain ⟨c, hc, hm⟩ := List.mem_flatMap.1 hm
    obtain ⟨m', hm', rfl⟩ := List.mem_map.1 hm
    simp only
    rw [hdom c hc m' hm']
  refine ⟨⟨commits, q', openings, ros, h3, h4, verifyInput_rosOk h2, fun t ht => ?_, h5, h6⟩, ?_⟩
  · obtain ⟨e, -⟩ := verifyInput_terms h2 (h := betas.length + cfg.logBlowup - t) (by omega)
    rw [e]
    unfold batchRo
    by_cases ht0 : t = betas.length - k
    · have e1 : betas.length + cfg.logBlowup - t = k + cfg.logBlowup := by omega
      rw [e1, if_pos rfl, opened_claimed h1,
        terms_claimed (fun c hc m hm => by rw [hdom c hc m hm]) (by rw [hsub]; exact hw), hsub, ht0]
    · rw [terms_other hd (by omega), if_neg (by omega), dotPowers_nil]
  · obtain ⟨-, e⟩ := verifyInput_terms h2 (h := k + cfg.logBlowup) (by omega)
    intro t ht
    obtain ⟨c, hc, hm, p, hp, e1, -⟩ := of_mem_flatClaims ht
    rw [e1]
    have := e (t.1.row (idx / 2 ^ (betas.length + cfg.logBlowup - (t.1.dom.logN + cfg.logBlowup))), t.1.dom, t.1.points) (by
      rw [opened_claimed h1]
      exact List.mem_flatMap.2 ⟨c, hc, List.mem_map.2 ⟨t.1, hm, rfl⟩⟩) (by simp only; rw [hdom c hc t.1 hm]) p hp
    rwa [hsub, Nat.shiftRight_eq_div_pow] at this

/-- No matrix is taller than the domain of the proof. -/
theorem PassesAll.fits {s : Strategy F} {genV : Nat → K} {g : K} {MI : InMmcs K SI CI DI PI} {M : Mmcs F S C D P}
    {cfg : Config} {cs : List (CI × List (Claimed K F))} {alpha : F} {betas : List F} {idx : Nat}
    (h : PassesAll s genV g MI M cfg cs alpha betas idx) : ∀ c ∈ cs, ∀ m ∈ c.2, m.dom.logN ≤ betas.length := by
  obtain ⟨q, q', ip, ros, commits, openings, h1, h2, -⟩ := h
  rw [verifyInput, Res.bind_eq_ok] at h2
  obtain ⟨st, hst, -⟩ := h2
  classical
  have hh := roundLoop_heights _ _ _ hst
  intro c hc m hm
  have hmem : (m.row (idx / 2 ^ (betas.length + cfg.logBlowup - (m.dom.logN + cfg.logBlowup))), m.dom, m.points) ∈
      opened (ip.zip (claimedRounds cs)) := by
    rw [opened_claimed h1]
    exact List.mem_flatMap.2 ⟨c, hc, List.mem_map.2 ⟨m, hm, rfl⟩⟩
  obtain ⟨p, hp, he⟩ := List.mem_flatMap.1 hmem
  have := hh p hp _ he
  simp only at this
  omega

/-! ### Counting -/

omit [DecidableEq F] [Field F] in
theorem error_of_small {X : Type} [Fintype X] [DecidableEq X] (Pass : X → Nat → Prop) {n m : Nat} (hm : m + 1 ≤ n)
    (bad : Finset X) (hA : ∀ x, x ∉ bad → ∀ A : Finset Nat, (∀ i ∈ A, i < n) → (∀ i ∈ A, Pass x i) → A.card + m < n)
    (Q : Nat) :
    (Set.ncard {y : X × (Fin Q → Fin n) | ∀ k, Pass y.1 (y.2 k)} : ℚ) / (Fintype.card X * (n : ℚ) ^ Q) ≤
      bad.card / Fintype.card X + (1 - (m + 1) / n) ^ Q := by
  classical
  let A : X → Finset (Fin n) := fun v => univ.filter fun i => Pass v i
  have hA' : ∀ v, v ∉ bad → (A v).card ≤ n - (m + 1) := by
    intro v hv
    have := hA v hv ((A v).image fun i : Fin n => (i : Nat))
      (by intro i hi; obtain ⟨j, -, rfl⟩ := mem_image.1 hi; exact j.2)
      (by intro i hi; obtain ⟨j, hj, rfl⟩ := mem_image.1 hi; exact (mem_filter.1 hj).2)
    rw [card_image_of_injective _ Fin.val_injective] at this
    omega
  let T : Finset (X × (Fin Q → Fin n)) := bad ×ˢ univ ∪
    (univ \ bad).biUnion fun v => (Fintype.piFinset fun _ : Fin Q => A v).image (Prod.mk v)
  have hsub : {y : X × (Fin Q → Fin n) | ∀ k, Pass y.1 (y.2 k)} ⊆ (T : Set _) := by
    rintro ⟨v, idx⟩ hx
    simp only [Set.mem_ofPred_eq] at hx
    rw [mem_coe, mem_union]
    by_cases hv : v ∈ bad
    · exact Or.inl (mem_product.2 ⟨hv, mem_univ _⟩)
    · refine Or.inr (mem_biUnion.2 ⟨v, by simp [hv], mem_image.2 ⟨idx, ?_, rfl⟩⟩)
      rw [Fintype.mem_piFinset]
      intro k
      exact mem_filter.2 ⟨mem_univ _, hx k⟩
  have hcard : Set.ncard {y : X × (Fin Q → Fin n) | ∀ k, Pass y.1 (y.2 k)} ≤
      bad.card * n ^ Q + Fintype.card X * (n - (m + 1)) ^ Q := by
    refine (Set.ncard_le_ncard hsub T.finite_toSet).trans ?_
    rw [Set.ncard_coe_finset]
    refine (card_union_le _ _).trans (Nat.add_le_add ?_ ?_)
    · rw [card_product, card_univ, Fintype.card_fun, Fintype.card_fin, Fintype.card_fin]
    · refine card_biUnion_le.trans ((sum_le_sum (g := fun _ => (n - (m + 1)) ^ Q) fun v hv => ?_).trans ?_)
      · refine card_image_le.trans ?_
        rw [Fintype.card_piFinset_const]
        exact Nat.pow_le_pow_left (hA' v (mem_sdiff.1 hv).2) _
      · rw [sum_const, smul_eq_mul]
        exact Nat.mul_le_mul_right _ (card_le_univ _)
  rcases Nat.eq_zero_or_pos (Fintype.card X) with h0 | h0
  · have hb0 : bad.card = 0 := Nat.le_zero.1 (h0 ▸ card_le_univ bad)
    rw [h0, hb0]
    simp only [Nat.cast_zero, zero_mul, div_zero, zero_div, zero_add]
    apply pow_nonneg
    rw [sub_nonneg, div_le_one (by exact_mod_cast (by omega : 0 < n))]
    exact_mod_cast hm
  have hX : (0 : ℚ) < Fintype.card X := by exact_mod_cast h0
  have hn : (0 : ℚ) < n := by exact_mod_cast (by omega : 0 < n)
  rw [div_le_iff₀ (by positivity)]
  have e : (1 - ((m : ℚ) + 1) / n) * n = ((n - (m + 1) : Nat) : ℚ) := by
    rw [Nat.cast_sub hm, sub_mul, one_mul, div_mul_cancel₀ _ hn.ne']
    push_cast
    ring
  calc (Set.ncard {y : X × (Fin Q → Fin n) | ∀ k, Pass y.1 (y.2 k)} : ℚ)
      ≤ ((bad.card * n ^ Q + Fintype.card X * (n - (m + 1)) ^ Q : Nat) : ℚ) := by exact_mod_cast hcard
    _ = bad.card * (n : ℚ) ^ Q + Fintype.card X * ((1 - ((m : ℚ) + 1) / n) * n) ^ Q := by rw [e]; push_cast; ring
    _ = _ := by
      rw [mul_pow, add_mul]
      congr 1
      · field_simp
      · ring

/-! ### Right claims pass -/

theorem pointLoop_ok {alpha : F} {x : K} {opening : List K} : ∀ {points : List (F × List F)} {ap ro : F},
    (∀ p ∈ points, algebraMap K F x ≠ p.1) → ∃ r, pointLoop alpha x opening points ap ro = some r
  | [], ap, ro, _ => ⟨_, rfl⟩
  | (z, ps) :: points, ap, ro, h => by
    rw [pointLoop]
    simp only
    rw [if_neg]
    · exact pointLoop_ok fun p hp => h p (List.mem_cons_of_mem _ hp)
    · intro e
      exact h (z, ps) List.mem_cons_self (neg_add_eq_zero.1 e).symm

theorem matLoop_ok {genV : Nat → K} {g : K} {cfg : Config} {alpha : F} {top index : Nat} :
    ∀ {l : List (List K × Dom K × List (F × List F))} {st : VerifyState F},
    (∀ m ∈ l, m.2.1.logN + cfg.logBlowup = top ∧ ∀ p ∈ m.2.2, algebraMap K F (queryPoint genV g top index) ≠ p.1) →
    ∃ st', matLoop genV g cfg alpha top index l st = some st'
  | [], st, _ => ⟨_, rfl⟩
  | (opening, domain, points) :: l, st, h => by
    obtain ⟨h1, h2⟩ := h _ List.mem_cons_self
    simp only at h1 h2
    rw [matLoop, Dom.size, log2Strict_pow, Option.bind_eq_bind, Option.bind_some]
    simp only
    rw [if_pos (by omega), h1, Nat.sub_self]
    obtain ⟨r, hr⟩ := pointLoop_ok (alpha := alpha) (opening := opening) (ap := ((st top).getD (1, 0)).1)
      (ro := ((st top).getD (1, 0)).2) h2
    rw [queryPoint] at hr
    rw [Nat.shiftRight_zero, hr]
    exact matLoop_ok fun m hm => h m (List.mem_cons_of_mem _ hm)

theorem roundLoop_ok {MI : InMmcs K SI CI DI PI} (hMI : ∀ q rows π c, MI.verifyBatch q rows π c = some true)
    {genV : Nat → K} {g : K} {cfg : Config} {alpha : F} {r q index : Nat} :
    ∀ {l : List ((List (List K) × PI) × VerifierRound K F CI)} {st : VerifyState F},
    (∀ e ∈ l, e.2.2 ≠ [] ∧ (∀ m ∈ e.2.2, m.1.logN = r) ∧ ∀ m ∈ e.2.2, ∀ p ∈ m.2,
      algebraMap K F (queryPoint genV g (r + cfg.logBlowup) index) ≠ p.1) →
    ∃ st', roundLoop MI genV g cfg alpha (r + cfg.logBlowup) q index l st = .ok st'
  | [], st, _ => ⟨_, rfl⟩
  | (opening, commit, mats) :: l, st, h => by
    obtain ⟨h0, h1, h2⟩ := h _ List.mem_cons_self
    simp only at h0 h1 h2
    have hmax : (mats.map fun m => m.1.size <<< cfg.logBlowup).max? = some (2 ^ (r + cfg.logBlowup)) := by
      have e : (mats.map fun m => m.1.size <<< cfg.logBlowup) = List.replicate mats.length (2 ^ (r + cfg.logBlowup)) := by
        rw [List.eq_replicate_iff]
        refine ⟨by simp, fun b hb => ?_⟩
        obtain ⟨m, hm, rfl⟩ := List.mem_map.1 hb
        rw [Dom.size, h1 m hm, Nat.shiftLeft_eq, pow_add]
      rw [e, List.max?_replicate_of_pos (List.length_pos_iff.2 h0)]
    obtain ⟨st1, hst1⟩ := matLoop_ok (genV := genV) (g := g) (cfg := cfg) (alpha := alpha) (top := r + cfg.logBlowup)
      (index := index) (l := opening.1.zip mats) (st := st) (fun m hm => by
        have := (List.of_mem_zip (a := m.1) (b := m.2) hm).2
        exact ⟨by rw [h1 _ this], h2 _ this⟩)
    rw [roundLoop, hmax, Res.ofOption_some, Res.bind_ok, log2Strict_pow, Res.ofOption_some, Res.bind_ok, if_pos le_rfl, hMI,
      Res.ofOption_some, Res.bind_ok, if_pos rfl, hst1, Res.ofOption_some, Res.bind_ok]
    exact roundLoop_ok hMI fun e he => h e (List.mem_cons_of_mem _ he)

/-- **C110** Right claims pass: if every column is a polynomial of degree at most the size of its domain, the claims are its
values at points off the coset, and every round has a matrix, then there is a prover that passes at every index, for all
combining and folding challenges. -/
theorem C110_right_claims_pass {genV : Nat → K} {g : K} (hg0 : g ≠ 0) {N : Nat}
    (hg : TwoAdic (fun b => algebraMap K F (genV b)) N) {MI : InMmcs K SI CI DI PI}
    (hMI : ∀ q rows π c, MI.verifyBatch q rows π c = some true) (πi : PI) {M : Mmcs F S C D P}
    (hM : ∀ q rows π c, M.verifyBatch q rows π c = some true) (π : P) (c : C) {cfg : Config}
    (cs : List (CI × List (Claimed K F))) {r : Nat} (hr : 0 < r) (hN : r + cfg.logBlowup ≤ N)
    (hdom : ∀ c ∈ cs, c.2 ≠ [] ∧ ∀ mat ∈ c.2, mat.dom.logN = r)
    (hcol : ∀ c ∈ cs, ∀ mat ∈ c.2, ∃ Ps : List F[X], (∀ P ∈ Ps, P.natDegree ≤ 2 ^ r) ∧
      (∀ i < 2 ^ (r + cfg.logBlowup), (mat.row i).map (algebraMap K F) =
        Ps.map fun P => P.eval (algebraMap K F (queryPoint genV g (r + cfg.logBlowup) i))) ∧
      ∀ p ∈ mat.points, p.2 = (Ps.map fun P => P.eval p.1) ∧
        ∀ i < 2 ^ (r + cfg.logBlowup), algebraMap K F (queryPoint genV g (r + cfg.logBlowup) i) ≠ p.1) :
    ∃ s : F → Strategy F, ∀ alpha (betas : List F), betas.length = r → ∀ idx < 2 ^ (r + cfg.logBlowup),
      PassesAll (s alpha) genV g MI M cfg cs alpha betas idx := by
  classical
  have hgF : algebraMap K F g ≠ 0 := by simpa using hg0
  have hx : ∀ i, algebraMap K F (queryPoint genV g (r + cfg.logBlowup) i) =
      algebraMap K F g * pointAt (fun b => algebraMap K F (genV b)) (r + cfg.logBlowup) i := by
    intro i; simp [queryPoint, pointAt]
  -- the quotient of every claim is a polynomial of low degree
  have hq : ∀ t ∈ flatClaims cs, ∃ q : F[X], q.natDegree < 2 ^ r ∧ ∀ i < 2 ^ (r + cfg.logBlowup),
      claimTerm genV g (r + cfg.logBlowup) i t =
        q.eval (pointAt (fun b => algebraMap K F (genV b)) (r + cfg.logBlowup) i) := by
    intro t ht
    obtain ⟨c, hc, hm, p, hp, e1, e2⟩ := of_mem_flatClaims ht
    obtain ⟨Ps, hd, hrow, hpt⟩ := hcol c hc t.1 hm
    obtain ⟨hp1, hp2⟩ := hpt p hp
    rw [hp1, List.getElem?_map, Option.map_eq_some_iff] at e2
    obtain ⟨P, hP, hPe⟩ := e2
    have hPd := hd P (List.mem_of_getElem? hP)
    refine ⟨(P /ₘ (X - Polynomial.C p.1)).comp (Polynomial.C (algebraMap K F g) * X), ?_, ?_⟩
    · refine lt_of_le_of_lt (natDegree_comp_le.trans (Nat.mul_le_mul_left _ ((natDegree_C_mul_le _ _).trans natDegree_X_le))) ?_
      rw [natDegree_divByMonic _ (monic_X_sub_C _), natDegree_X_sub_C, Nat.mul_one]
      have := Nat.two_pow_pos r
      omega
    · intro i hi
      have h1 : algebraMap K F ((t.1.row i).getD t.2.2.1 0) =
          P.eval (algebraMap K F (queryPoint genV g (r + cfg.logBlowup) i)) := by
        have h2 := congrArg (fun l : List F => l[t.2.2.1]?) (hrow i hi)
        simp only [List.getElem?_map, hP, Option.map_some, Option.map_eq_some_iff] at h2
        obtain ⟨v, hv, hv'⟩ := h2
        rw [List.getD_eq_getElem?_getD, hv, Option.getD_some, hv']
      have h3 := hp2 i hi
      rw [claimTerm, h1, ← hPe, e1, eval_comp, eval_mul, eval_C, eval_X, ← hx, div_eq_iff (sub_ne_zero.2 h3)]
      have h4 := congrArg (Polynomial.eval (algebraMap K F (queryPoint genV g (r + cfg.logBlowup) i)))
        (modByMonic_add_div P (X - Polynomial.C p.1))
      rw [modByMonic_X_sub_C_eq_C_eval, eval_add, eval_C, eval_mul, eval_sub, eval_X, eval_C] at h4
      rw [← h4]
      ring
  -- so is their combination
  have hcomb : ∀ (alpha : F) (l : List (Claimed K F × F × Nat × F)), (∀ t ∈ l, t ∈ flatClaims cs) →
      ∃ q : F[X], q.natDegree < 2 ^ r ∧ ∀ i < 2 ^ (r + cfg.logBlowup),
        dotPowers alpha (l.map (claimTerm genV g (r + cfg.logBlowup) i)) =
          q.eval (pointAt (fun b => algebraMap K F (genV b)) (r + cfg.logBlowup) i) := by
    intro alpha l
    induction l with
    | nil => intro _; exact ⟨0, by simp, fun i _ => by simp [dotPowers_nil]⟩
    | cons t l ih =>
      intro hl
      obtain ⟨q1, d1, e1⟩ := hq t (hl t List.mem_cons_self)
      obtain ⟨q2, d2, e2⟩ := ih fun t ht => hl t (List.mem_cons_of_mem _ ht)
      refine ⟨q1 + Polynomial.C alpha * q2, ?_, fun i hi => ?_⟩
      · exact lt_of_le_of_lt (natDegree_add_le _ _) (max_lt d1 (lt_of_le_of_lt (natDegree_C_mul_le _ _) d2))
      · rw [List.map_cons, dotPowers_cons, e1 i hi, e2 i hi, eval_add, eval_mul, eval_C]
  have hcomb' := fun alpha => hcomb alpha (flatClaims cs) fun _ h => h
  choose q hqd hqe using hcomb'
  let qs : F → Nat → F[X] := fun alpha h => if h = r + cfg.logBlowup then q alpha else 0
  refine ⟨fun alpha => honestStrategy (fun b => algebraMap K F (genV b)) (qs alpha) (q alpha) (r + cfg.logBlowup),
    fun alpha betas hbl idx hidx => ?_⟩
  subst hbl
  have hne : betas ≠ [] := List.length_pos_iff.1 hr
  have hw : ∀ c ∈ cs, ∀ mat ∈ c.2, ∀ p ∈ mat.points, p.2.length = (mat.row idx).length := by
    intro c hc mat hm p hp
    obtain ⟨Ps, -, hrow, hpt⟩ := hcol c hc mat hm
    have h1 := congrArg List.length (hrow idx hidx)
    have h2 := congrArg List.length (hpt p hp).1
    simp only [List.length_map] at h1 h2
    omega
  -- the input check
  obtain ⟨st, hst⟩ := roundLoop_ok (CI := CI) hMI (genV := genV) (g := g) (cfg := cfg) (alpha := alpha) (r := betas.length)
    (q := 0) (index := idx) (l := ((claimedRows cfg.logBlowup (betas.length + cfg.logBlowup) cs idx).map fun rows => (rows, πi)).zip (claimedRounds cs)) (st := fun _ => none)
    (by
      intro e he
      obtain ⟨c, hc, e2⟩ := List.mem_map.1 (List.of_mem_zip (a := e.1) (b := e.2) he).2
      rw [← e2]
      simp only
      refine ⟨by simpa using (hdom c hc).1, ?_, ?_⟩
      · intro m hm
        obtain ⟨mat, hmat, rfl⟩ := List.mem_map.1 hm
        exact (hdom c hc).2 mat hmat
      · intro m hm p hp
        obtain ⟨mat, hmat, rfl⟩ := List.mem_map.1 hm
        obtain ⟨Ps, -, -, hpt⟩ := hcol c hc mat hmat
        exact (hpt p hp).2 idx hidx)
  have hin : ∃ ros, verifyInput MI genV g cfg alpha (claimedRounds cs) (betas.length + cfg.logBlowup) 0 idx
      ((claimedRows cfg.logBlowup (betas.length + cfg.logBlowup) cs idx).map fun rows => (rows, πi)) = .ok ros := by
    rw [verifyInput, hst, Res.bind_ok]
    exact ⟨_, rfl⟩
  obtain ⟨ros, hros⟩ := hin
  have hrows : ((claimedRows cfg.logBlowup (betas.length + cfg.logBlowup) cs idx).map fun rows => (rows, πi)).map Prod.fst = claimedRows cfg.logBlowup (betas.length + cfg.logBlowup) cs idx := by
    rw [List.map_map]; exact List.map_id _
  have hd : ∀ m ∈ opened (((claimedRows cfg.logBlowup (betas.length + cfg.logBlowup) cs idx).map fun rows => (rows, πi)).zip (claimedRounds cs)),
      m.2.1.logN + cfg.logBlowup = betas.length + cfg.logBlowup := by
    rw [opened_claimed hrows]
    intro m hm
    obtain ⟨c, hc, hm⟩ := List.mem_flatMap.1 hm
    obtain ⟨m', hm', rfl⟩ := List.mem_map.1 hm
    simp only
    rw [(hdom c hc).2 m' hm']
  have hv : ∀ t, t < betas.length → roAt ros (betas.length + cfg.logBlowup - t) =
      (fun h i => ((qs alpha) h).eval (pointAt (fun b => algebraMap K F (genV b)) h i))
        (betas.length + cfg.logBlowup - t) (idx / 2 ^ t) := by
    intro t ht
    obtain ⟨e, -⟩ := verifyInput_terms hros (h := betas.length + cfg.logBlowup - t) (by omega)
    rw [e]
    by_cases ht0 : t = 0
    · subst ht0
      simp only [qs, Nat.sub_zero, if_true, pow_zero, Nat.div_one]
      rw [opened_claimed hrows, terms_claimed (fun c hc m hm => by rw [(hdom c hc).2 m hm])
        (by simpa using hw), Nat.sub_self, pow_zero, Nat.div_one, hqe alpha idx hidx]
    · rw [terms_other hd (by omega), dotPowers_nil]
      simp only [qs]
      rw [if_neg (by omega), eval_zero]
  have hpass := C83_honest_passes hg hM π c (cfg := cfg) (qs alpha) (q alpha)
    (by simp only [qs]; rw [if_neg (by omega)])
    (by
      intro h hh
      simp only [qs]
      split
      · rename_i e; rw [e, Nat.add_sub_cancel]; exact hqd alpha
      · rw [natDegree_zero]; exact Nat.two_pow_pos _) hne hN (hqd alpha) hidx
  obtain ⟨commits, q', openings, h1, h2, h5, h6⟩ := passes_both_ros hg hM π c _ _ hN hne hidx hpass
    (by simp [honestStrategy, honestPoly, qs]) (verifyInput_rosOk hros) hv
  exact ⟨0, q', _, ros, commits, openings, hrows, hros, h1, h2, h5, h6⟩

/-! ### Soundness -/

section Sound

variable [Fintype F]

theorem dotPowers_curve {l : Nat} (a : F) (xs : List F) (h : xs.length = l + 1) :
    dotPowers a xs = ∑ t : Fin (l + 1), a ^ (t : Nat) * xs.getD t 0 := by
  rw [dotPowers_sum, h, Fin.sum_univ_eq_sum_range (fun j => a ^ j * xs.getD j 0)]

/-- **C110** Whatever matrices and claims a prover fixes before the combining challenge, and however it reacts to this and
to the folding challenges: but for few of these challenges, if all but `m` of the query indices pass both verifiers, the
claims are right up to `m` positions. -/
theorem C110_passing_claims_hold {genV : Nat → K} {g : K} (hg0 : g ≠ 0) {N : Nat}
    (hg : TwoAdic (fun b => algebraMap K F (genV b)) N) (MI : InMmcs K SI CI DI PI) (M : Mmcs F S C D P) (cfg : Config)
    (cs : List (CI × List (Claimed K F))) (s : F → Strategy F) {k r m : Nat} (hk : 0 < k) (hkr : k ≤ r)
    (hb : 0 < cfg.logBlowup) (hN : r + cfg.logBlowup ≤ N) (hm : 2 * m + 2 ^ r ≤ 2 ^ (r + cfg.logBlowup))
    (hdom : ∀ c ∈ cs, ∀ mat ∈ c.2, mat.dom.logN = k)
    (hw : ∀ c ∈ cs, ∀ mat ∈ c.2, ∀ p ∈ mat.points, ∀ i, p.2.length = (mat.row i).length) :
    ∃ bad : Finset (F × (Fin r → F)),
      3 * (Fintype.card F * bad.card) ≤
        (3 * ((numClaims cs - 1) * (m / 2 ^ (r - k) * (m / 2 ^ (r - k) + 2 ^ k) + 1)) + m * (m + 2 ^ r) + 3 * r +
          3 * 2 ^ (r + cfg.logBlowup + 1)) * (Fintype.card F * Fintype.card F ^ r) ∧
      ∀ v, v ∉ bad → ∀ A : Finset Nat, (∀ i ∈ A, i < 2 ^ (r + cfg.logBlowup)) →
        (∀ i ∈ A, PassesAll (s v.1) genV g MI M cfg cs v.1 (List.ofFn v.2) i) → 2 ^ (r + cfg.logBlowup) ≤ A.card + m →
        ClaimsHold genV g (k + cfg.logBlowup) (2 ^ k) (m / 2 ^ (r - k)) cs := by
  classical
  have hr : 0 < r := by omega
  obtain ⟨e, rfl⟩ : ∃ e, r = k + e := ⟨r - k, by omega⟩
  rw [Nat.add_sub_cancel_left]
  have hNk : k + cfg.logBlowup ≤ N := by omega
  have hmk : 2 * (m / 2 ^ e) + 2 ^ k ≤ 2 ^ (k + cfg.logBlowup) := by
    refine Nat.le_of_mul_le_mul_right (c := 2 ^ e) ?_ (Nat.two_pow_pos e)
    have h1 : 2 ^ k * 2 ^ e = 2 ^ (k + e) := (pow_add _ _ _).symm
    have h2 : 2 ^ (k + cfg.logBlowup) * 2 ^ e = 2 ^ (k + e + cfg.logBlowup) := by rw [← pow_add]; congr 1; omega
    have h3 := Nat.div_mul_le_self m (2 ^ e)
    rw [h2, Nat.add_mul, h1, Nat.mul_assoc]
    omega
  have hlow : ∀ a, ∃ bad : Finset (Fin (k + e) → F), 3 * (Fintype.card F * bad.card) ≤
        (m * (m + 2 ^ (k + e)) + 3 * (k + e) + 3 * 2 ^ (k + e + cfg.logBlowup + 1)) * Fintype.card F ^ (k + e) ∧ _ := fun a =>
    C109_passing_is_low_degree hg M cfg (s a) (batchRo genV g (k + cfg.logBlowup) cs a) hr hN hm
  choose badB hbadB hB using hlow
  -- the combining challenges to avoid
  have hal : ∃ badA : Finset F, badA.card ≤ (numClaims cs - 1) * (m / 2 ^ e * (m / 2 ^ e + 2 ^ k) + 1) ∧ ∀ a, a ∉ badA → ∀ p : F[X],
      p.degree < ((2 ^ k : Nat) : WithBot Nat) → ∀ A : Finset Nat, (∀ i ∈ A, i < 2 ^ (k + cfg.logBlowup)) →
      2 ^ (k + cfg.logBlowup) ≤ A.card + m / 2 ^ e →
      (∀ i ∈ A, dotPowers a ((flatClaims cs).map (claimTerm genV g (k + cfg.logBlowup) i)) =
        p.eval (pointAt (fun b => algebraMap K F (genV b)) (k + cfg.logBlowup) i)) →
      ∀ t ∈ flatClaims cs, ∃ c : F[X], c.degree < ((2 ^ k : Nat) : WithBot Nat) ∧
        ∀ i ∈ A, claimTerm genV g (k + cfg.logBlowup) i t =
          c.eval (pointAt (fun b => algebraMap K F (genV b)) (k + cfg.logBlowup) i) := by
    generalize hh : k + cfg.logBlowup = h at *
    rcases Nat.eq_zero_or_pos (numClaims cs) with hz | hpos
    · refine ⟨∅, by simp, fun a _ p _ A _ _ _ t ht => ?_⟩
      have : flatClaims cs = [] := List.length_eq_zero_iff.1 (by rw [flatClaims_length, hz])
      rw [this] at ht
      cases ht
    obtain ⟨l, hl⟩ : ∃ l, numClaims cs = l + 1 := ⟨numClaims cs - 1, by omega⟩
    have hfl : (flatClaims cs).length = l + 1 := by rw [flatClaims_length, hl]
    obtain ⟨badA, hc, hclose⟩ := curve_close
      (fun i : Fin (2 ^ h) => pointAt (fun b => algebraMap K F (genV b)) h i) (fin_point_inj hg hNk)
      (k := 2 ^ k) (e := m / 2 ^ e) (l := l) (by rw [Fintype.card_fin]; exact hmk) (Nat.two_pow_pos k)
      (fun t i => ((flatClaims cs).map (claimTerm genV g h i)).getD t 0)
    refine ⟨badA, ?_, fun a ha p hp A hA hAc hAp t ht => ?_⟩
    · rw [hl, Nat.add_sub_cancel]
      calc badA.card ≤ m / 2 ^ e * l * (m / 2 ^ e + 2 ^ k) + l := hc
        _ = l * (m / 2 ^ e * (m / 2 ^ e + 2 ^ k) + 1) := by ring
    · have hcv : ∀ i : Fin (2 ^ h), curveAt (fun (t : Fin (l + 1)) (i : Fin (2 ^ h)) =>
          ((flatClaims cs).map (claimTerm genV g h i)).getD t 0) a i =
          dotPowers a ((flatClaims cs).map (claimTerm genV g h i)) := by
        intro i
        rw [dotPowers_curve a _ (by rw [List.length_map, hfl]), curveAt]
      have hnot : ∀ i : Fin (2 ^ h), (i : Nat) ∈ A → i ∉ curveDiff
          (fun i : Fin (2 ^ h) => pointAt (fun b => algebraMap K F (genV b)) h i)
          (fun (t : Fin (l + 1)) (i : Fin (2 ^ h)) => ((flatClaims cs).map (claimTerm genV g h i)).getD t 0) a p := by
        intro i hi hd
        have h2 := (mem_filter.1 hd).2
        rw [hcv, hAp i hi] at h2
        exact h2 rfl
      obtain ⟨c, hcd, hce⟩ := hclose a ha p hp (by
        have hsub : curveDiff (fun i : Fin (2 ^ h) => pointAt (fun b => algebraMap K F (genV b)) h i)
            (fun (t : Fin (l + 1)) (i : Fin (2 ^ h)) => ((flatClaims cs).map (claimTerm genV g h i)).getD t 0) a p ⊆
            univ.filter fun i : Fin (2 ^ h) => (i : Nat) ∉ A := by
          intro i hi
          exact mem_filter.2 ⟨mem_univ _, fun hiA => hnot i hiA hi⟩
        refine (card_le_card hsub).trans ?_
        have hs := card_filter_add_card_filter_not (s := (univ : Finset (Fin (2 ^ h)))) (fun i : Fin (2 ^ h) => (i : Nat) ∈ A)
        rw [card_univ, Fintype.card_fin] at hs
        have : A.card ≤ (univ.filter fun i : Fin (2 ^ h) => (i : Nat) ∈ A).card := by
          rw [← card_image_of_injective (f := fun i : Fin (2 ^ h) => (i : Nat)) _ Fin.val_injective]
          refine card_le_card fun i hi => mem_image.2 ⟨⟨i, hA i hi⟩, mem_filter.2 ⟨mem_univ _, hi⟩, rfl⟩
        omega)
      obtain ⟨n, hn, rfl⟩ := List.getElem_of_mem ht
      refine ⟨c ⟨n, by omega⟩, hcd _, fun i hi => ?_⟩
      have := hce ⟨i, hA i hi⟩ (hnot ⟨i, hA i hi⟩ hi) ⟨n, by omega⟩
      simp only [List.getD_eq_getElem?_getD, List.getElem?_map, List.getElem?_eq_getElem hn, Option.map_some,
        Option.getD_some] at this
      exact this
  obtain ⟨badA, hbadA, hA1⟩ := hal
  refine ⟨badA ×ˢ univ ∪ univ.biUnion fun a => (badB a).image (Prod.mk a), ?_, ?_⟩
  · have h1 : (badA ×ˢ (univ : Finset (Fin (k + e) → F)) ∪ univ.biUnion fun a => (badB a).image (Prod.mk a)).card ≤
        badA.card * Fintype.card F ^ (k + e) + ∑ a : F, (badB a).card := by
      refine (card_union_le _ _).trans (Nat.add_le_add ?_ (card_biUnion_le.trans (sum_le_sum fun a _ => card_image_le)))
      rw [card_product, card_univ, Fintype.card_fun, Fintype.card_fin]
    have h2 : 3 * (Fintype.card F * ∑ a : F, (badB a).card) ≤
        (m * (m + 2 ^ (k + e)) + 3 * (k + e) + 3 * 2 ^ (k + e + cfg.logBlowup + 1)) * (Fintype.card F * Fintype.card F ^ (k + e)) := by
      rw [mul_sum, mul_sum]
      refine (sum_le_sum fun a _ => hbadB a).trans ?_
      rw [sum_const, card_univ, smul_eq_mul]
      exact le_of_eq (by ring)
    have h3 := Nat.mul_le_mul_left (3 * Fintype.card F) h1
    have h4 := Nat.mul_le_mul_left (3 * (Fintype.card F * Fintype.card F ^ (k + e))) hbadA
    calc _ = 3 * Fintype.card F * (badA ×ˢ (univ : Finset (Fin (k + e) → F)) ∪
              univ.biUnion fun a => (badB a).image (Prod.mk a)).card := by ring
      _ ≤ _ := h3
      _ = 3 * (Fintype.card F * Fintype.card F ^ (k + e)) * badA.card + 3 * (Fintype.card F * ∑ a : F, (badB a).card) := by ring
      _ ≤ _ := Nat.add_le_add h4 h2
      _ = _ := by ring
  · rintro ⟨a, v⟩ hv A₁ hA₁ hp hc₁
    rw [mem_union, not_or] at hv
    have ha : a ∉ badA := fun h => hv.1 (mem_product.2 ⟨h, mem_univ _⟩)
    have hvB : v ∉ badB a := fun h => hv.2 (mem_biUnion.2 ⟨a, mem_univ _, mem_image.2 ⟨v, h, rfl⟩⟩)
    simp only at hp
    have hboth₁ : ∀ i ∈ A₁, _ := fun i hi => (hp i hi).both hk (by simp)
      (fun c hc mat hmat => hdom c hc mat hmat) (fun c hc mat hmat p hp => hw c hc mat hmat p hp _)
    simp only [List.length_ofFn, Nat.add_sub_cancel_left] at hboth₁
    obtain ⟨p₁, hpd₁, hpe₁⟩ := hB a v hvB A₁ hA₁ (fun i hi => (hboth₁ i hi).1) hc₁
    obtain ⟨p, hpd, hpe'⟩ := descend_many hg (b := cfg.logBlowup)
      (fun i => dotPowers a ((flatClaims cs).map (claimTerm genV g (k + cfg.logBlowup) i))) e hN hm hpd₁ hA₁ hc₁ (by
        intro i hi
        rw [← hpe₁ i hi, inputTotal, sum_eq_single_of_mem e (mem_range.2 (by omega))]
        · rw [show k + e + cfg.logBlowup - e = k + cfg.logBlowup by omega, batchRo, if_pos rfl]
        · intro t ht hte
          have := mem_range.1 ht
          rw [batchRo, if_neg (by omega)])
    -- the positions of the smaller domain above which a query passes
    generalize hAd : A₁.image (· / 2 ^ e) = A at hpe'
    have hA : ∀ i ∈ A, i < 2 ^ (k + cfg.logBlowup) := by
      intro j hj
      rw [← hAd] at hj
      obtain ⟨i, hi, rfl⟩ := mem_image.1 hj
      have := hA₁ i hi
      rw [Nat.div_lt_iff_lt_mul (Nat.two_pow_pos e), ← pow_add]
      rwa [show k + e + cfg.logBlowup = k + cfg.logBlowup + e by omega] at this
    have hc : 2 ^ (k + cfg.logBlowup) ≤ A.card + m / 2 ^ e := by
      rw [← hAd]
      refine image_div_card ?_
      rwa [← pow_add, show k + cfg.logBlowup + e = k + e + cfg.logBlowup by omega]
    have hboth : ∀ i ∈ A, ∀ t ∈ flatClaims cs, algebraMap K F (queryPoint genV g (k + cfg.logBlowup) i) ≠ t.2.1 := by
      intro j hj
      rw [← hAd] at hj
      obtain ⟨i, hi, rfl⟩ := mem_image.1 hj
      exact (hboth₁ i hi).2
    have hcl := hA1 a ha p hpd A hA hc hpe'
    have hgF : algebraMap K F g ≠ 0 := by simpa using hg0
    have hx : ∀ i, algebraMap K F (queryPoint genV g (k + cfg.logBlowup) i) =
        algebraMap K F g * pointAt (fun b => algebraMap K F (genV b)) (k + cfg.logBlowup) i := by
      intro i; simp [queryPoint, pointAt]
    -- one polynomial for every claim
    have hP : ∀ t ∈ flatClaims cs, ∃ P : F[X], P.degree ≤ ((2 ^ k : Nat) : WithBot Nat) ∧ P.eval t.2.1 = t.2.2.2 ∧
        ∀ i ∈ A, algebraMap K F ((t.1.row i).getD t.2.2.1 0) =
          P.eval (algebraMap K F (queryPoint genV g (k + cfg.logBlowup) i)) := by
      intro t ht
      obtain ⟨c, hcd, hce⟩ := hcl t ht
      refine ⟨Polynomial.C t.2.2.2 + (X - Polynomial.C t.2.1) * c.comp (Polynomial.C (algebraMap K F g)⁻¹ * X), ?_, by simp, ?_⟩
      · refine (degree_add_le _ _).trans (max_le ?_ ?_)
        · refine degree_C_le.trans ?_
          exact_mod_cast Nat.zero_le _
        · rw [degree_le_iff_coeff_zero]
          intro n hn
          refine coeff_eq_zero_of_natDegree_lt (lt_of_le_of_lt (natDegree_mul_le) ?_)
          rw [natDegree_X_sub_C]
          have h1 : (c.comp (Polynomial.C (algebraMap K F g)⁻¹ * X)).natDegree ≤ c.natDegree := by
            refine natDegree_comp_le.trans ?_
            calc _ ≤ c.natDegree * 1 := Nat.mul_le_mul_left _ ((natDegree_C_mul_le _ _).trans natDegree_X_le)
              _ = _ := Nat.mul_one _
          have h2 : c.natDegree < 2 ^ k := by
            by_cases hc0 : c = 0
            · rw [hc0, natDegree_zero]; exact Nat.two_pow_pos k
            · exact (natDegree_lt_iff_degree_lt hc0).2 hcd
          have h3 : 2 ^ k < n := by exact_mod_cast hn
          omega
      · intro i hi
        have h1 := hce i hi
        have h2 := hboth i hi t ht
        have h3 : (algebraMap K F g)⁻¹ * algebraMap K F (queryPoint genV g (k + cfg.logBlowup) i) =
            pointAt (fun b => algebraMap K F (genV b)) (k + cfg.logBlowup) i := by
          rw [hx, inv_mul_cancel_left₀ hgF]
        rw [eval_add, eval_C, eval_mul, eval_sub, eval_X, eval_C, eval_comp, eval_mul, eval_C, eval_X, h3, ← h1, claimTerm,
          mul_div_cancel₀ _ (sub_ne_zero.2 h2)]
        ring
    refine ⟨A, hA, hc, fun c hcm mat hmat j => ?_⟩
    by_cases hex : ∃ t ∈ flatClaims cs, t.1 = mat ∧ t.2.2.1 = j
    · obtain ⟨⟨_, z, _, y⟩, ht, rfl, rfl⟩ := hex
      obtain ⟨P, hP1, hP2, hP3⟩ := hP _ ht
      refine ⟨P, hP1, fun p hp y' hy' => ⟨?_, fun i hi => ?_⟩⟩
      · have ht' := mem_flatClaims hcm hmat hp hy'
        obtain ⟨P', hP1', hP2', hP3'⟩ := hP _ ht'
        have he : P = P' := by
          rw [← sub_eq_zero]
          refine eq_zero_of_degree_lt_of_eval_finset_eq_zero
            (A.image fun i => algebraMap K F (queryPoint genV g (k + cfg.logBlowup) i)) ?_ ?_
          · rw [card_image_of_injOn]
            · refine lt_of_le_of_lt ((degree_sub_le _ _).trans (max_le hP1 hP1')) ?_
              have h5 : 2 ^ k < 2 ^ (k + cfg.logBlowup) := Nat.pow_lt_pow_right (by omega) (by omega)
              have : 2 ^ k < A.card := by omega
              exact_mod_cast this
            · intro i hi k hk hik
              simp only at hik
              rw [hx, hx] at hik
              exact pointAt_inj hg hNk (hA i hi) (hA k hk) (mul_left_cancel₀ hgF hik)
          · intro x hxm
            obtain ⟨i, hi, rfl⟩ := mem_image.1 hxm
            rw [eval_sub, ← hP3 i hi, ← hP3' i hi, sub_self]
        rw [he]
        exact hP2'
      · have hlen := hw c hcm _ hmat p hp i
        have hj := (List.getElem?_eq_some_iff.1 hy').1
        simp only at hj hlen
        rw [hlen] at hj
        refine ⟨_, List.getElem?_eq_getElem hj, ?_⟩
        have := hP3 i hi
        simp only at this
        rw [← this, List.getD_eq_getElem?_getD, List.getElem?_eq_getElem hj, Option.getD_some]
    · refine ⟨0, by simp, fun p hp y hy => ?_⟩
      exact absurd ⟨_, mem_flatClaims hcm hmat hp hy, rfl, rfl⟩ hex

/-- **C110** Soundness error of the opening check of both verifiers: if the claims are not right up to `m` positions, at most
the stated part of all choices of the combining challenge, the `r` folding challenges and the `Q` query indices passes. -/
theorem C110_soundness_error {genV : Nat → K} {g : K} (hg0 : g ≠ 0) {N : Nat}
    (hg : TwoAdic (fun b => algebraMap K F (genV b)) N) (MI : InMmcs K SI CI DI PI) (M : Mmcs F S C D P) (cfg : Config)
    (cs : List (CI × List (Claimed K F))) (s : F → Strategy F) {k r m : Nat} (hk : 0 < k) (hkr : k ≤ r)
    (hb : 0 < cfg.logBlowup) (hN : r + cfg.logBlowup ≤ N) (hm : 2 * m + 2 ^ r ≤ 2 ^ (r + cfg.logBlowup))
    (hdom : ∀ c ∈ cs, ∀ mat ∈ c.2, mat.dom.logN = k)
    (hw : ∀ c ∈ cs, ∀ mat ∈ c.2, ∀ p ∈ mat.points, ∀ i, p.2.length = (mat.row i).length)
    (hfar : ¬ ClaimsHold genV g (k + cfg.logBlowup) (2 ^ k) (m / 2 ^ (r - k)) cs) (Q : Nat) :
    (Set.ncard {x : (F × (Fin r → F)) × (Fin Q → Fin (2 ^ (r + cfg.logBlowup))) |
        ∀ j, PassesAll (s x.1.1) genV g MI M cfg cs x.1.1 (List.ofFn x.1.2) (x.2 j)} : ℚ) /
      (Fintype.card F * Fintype.card F ^ r * (2 ^ (r + cfg.logBlowup)) ^ Q) ≤
      ((numClaims cs - 1 : Nat) * ((m / 2 ^ (r - k) : Nat) * ((m / 2 ^ (r - k) : Nat) + 2 ^ k) + 1)) / Fintype.card F +
        (m * (m + 2 ^ r) + 3 * r + 3 * 2 ^ (r + cfg.logBlowup + 1)) / (3 * Fintype.card F) +
        (1 - (m + 1) / 2 ^ (r + cfg.logBlowup)) ^ Q := by
  classical
  obtain ⟨bad, hbc, hbad⟩ := C110_passing_claims_hold hg0 hg MI M cfg cs s hk hkr hb hN hm hdom hw
  have h := error_of_small (fun (x : F × (Fin r → F)) i => PassesAll (s x.1) genV g MI M cfg cs x.1 (List.ofFn x.2) i)
    (n := 2 ^ (r + cfg.logBlowup)) (m := m) (by have := Nat.two_pow_pos r; omega) bad
    (fun x hx A hA hp => by
      by_contra hcon
      exact hfar (hbad x hx A hA hp (by omega))) Q
  rw [Fintype.card_prod, Fintype.card_fun, Fintype.card_fin] at h
  push_cast at h
  refine h.trans (add_le_add ?_ le_rfl)
  have hF : (0 : ℚ) < Fintype.card F := by exact_mod_cast Fintype.card_pos
  have hbc' : (3 : ℚ) * (Fintype.card F * bad.card) ≤ (3 * (((numClaims cs - 1 : Nat) : ℚ) *
      ((m / 2 ^ (r - k) : Nat) * ((m / 2 ^ (r - k) : Nat) + 2 ^ k) + 1)) + m * (m + 2 ^ r) + 3 * r + 3 * 2 ^ (r + cfg.logBlowup + 1)) * (Fintype.card F * Fintype.card F ^ r) := by
    exact_mod_cast hbc
  rw [div_add_div _ _ hF.ne' (by positivity), div_le_div_iff₀ (by positivity) (by positivity)]
  nlinarith [mul_le_mul_of_nonneg_left hbc' hF.le]

end Sound

end TapStark.Pcs
