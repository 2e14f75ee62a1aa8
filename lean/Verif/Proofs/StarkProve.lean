import Verif.Proofs.StarkPoly

/-! What a run of the prover produces. -/

set_option linter.unusedSectionVars false

namespace TapStark.Stark

open Polynomial TapStark.Fri TapStark.Pcs

variable {K F : Type} [Field K] [Field F] [DecidableEq K] [DecidableEq F] [Algebra K F]
variable {SI C DI PI S D P Ch W : Type}

/-- A list of matrices as a list of lists of polynomials. -/
theorem exists_polys_list {genV : Nat → K} {N : Nat} (hg : TwoAdic genV N) {k : Nat} (hk : k ≤ N) (w : Nat) :
    ∀ (l : List (K × Mat K)), (∀ x ∈ l, x.1 ≠ 0 ∧ x.2.length = 2 ^ k ∧ Rect x.2 w) →
    ∃ cps : List (List K[X]), List.Forall₂ (fun x ps => ps.length = w ∧ x.2 = evalRows genV ps x.1 k ∧
      ∀ p ∈ ps, p.natDegree < 2 ^ k) l cps
  | [], _ => ⟨[], .nil⟩
  | x :: l, h => by
    obtain ⟨h1, h2, h3⟩ := h x List.mem_cons_self
    obtain ⟨ps, hps⟩ := exists_polys hg hk h1 x.2 w h2 h3
    obtain ⟨cps, hc⟩ := exists_polys_list hg hk w l fun y hy => h y (List.mem_cons_of_mem _ hy)
    exact ⟨ps :: cps, .cons hps hc⟩

theorem rect_evalRowsRev (genV : Nat → K) (ps : List K[X]) (s : K) (k : Nat) :
    Rect (evalRowsRev genV ps s k) ps.length := by
  intro row hrow
  obtain ⟨i, -, rfl⟩ := List.mem_map.1 hrow
  simp

theorem width_of_rect {m : Mat K} {w : Nat} (hr : Rect m w) (hm : m ≠ []) : m.width = w := by
  cases m with
  | nil => exact absurd rfl hm
  | cons r m => exact hr r List.mem_cons_self

/-- The prover's chunks. -/
theorem splitEvals_get {R : Type} [Inhabited R] (q n : Nat) (rows : List R) (hl : rows.length = n * 2 ^ q)
    {i : Nat} (hi : i < 2 ^ q) :
    (splitEvals (2 ^ q) rows)[i]? = some ((List.range n).map fun j => rows.getD (i + j * 2 ^ q) default) := by
  unfold splitEvals
  rw [List.getElem?_map, List.getElem?_range hi, hl, Nat.mul_div_cancel _ (Nat.two_pow_pos q)]
  rfl

/-- What the prover's proof consists of, for any trace. -/
structure Produced (u : Setup K F SI C DI PI S D P Ch W) (air : Air K) (ch : Ch) (k q : Nat)
    (ps : List K[X]) (pub : List K) (proof : ProofOf K F C P W PI) (ch' : Ch)
    (alpha zeta : F) (chz : Ch) (cps : List (List K[X])) : Prop where
  challenges : challenges u ch proof.traceCommit proof.quotientCommit = some (alpha, zeta, chz)
  degreeBits : proof.degreeBits = k
  traceLocal : proof.traceLocal = ps.map fun p => aeval zeta p
  traceNext : proof.traceNext = ps.map fun p => aeval (zeta * algebraMap K F (u.genV k)) p
  quotientChunks : proof.quotientChunks = cps.map fun c => c.map fun p => aeval zeta p
  chunkCount : cps.length = 2 ^ q
  chunkWidth : ∀ c ∈ cps, c.length = u.deg.D
  chunkDegree : ∀ c ∈ cps, ∀ p ∈ c, p.natDegree < 2 ^ k
  chunkValues : ∀ i c, cps[i]? = some c → ∀ l, ∑ e ∈ Finset.range c.length, u.deg.monomial e *
      algebraMap K F ((c.getD e 0).eval (u.g * u.genV (k + q) ^ i * u.genV k ^ l)) =
    (foldedPoly u.genV k air ps pub alpha).eval
        (algebraMap K F (u.g * u.genV (k + q) ^ i * u.genV k ^ l)) *
      (algebraMap K F (u.g * u.genV (k + q) ^ i * u.genV k ^ l) ^ 2 ^ k - 1)⁻¹
  opening : ∀ traceLocal traceNext : List F, ∀ chunks : List (List F), chunks.length = 2 ^ q →
    Pcs.verify u.genV u.g u.mi u.m u.chall u.cfg
      [(proof.traceCommit, [(⟨k, 1⟩, [(zeta, traceLocal),
        (zeta * algebraMap K F (u.genV k), traceNext)])]),
       (proof.quotientCommit, ((chunkDomains u.genV k q u.g).zip chunks).map
          fun (d, v) => (d, [(zeta, v)]))] proof.openingProof chz = .ok ch'

/-- The prover's second batch: every matrix with its domain. -/
noncomputable def quotientEntries (genV : Nat → K) (g : K) (k q b : Nat) (cps : List (List K[X])) (zeta : F) :
    List (Mat K × Dom K × List F) :=
  ((chunkDomains genV k q g).zip cps).map fun x => (evalRowsRev genV x.2 g (k + b), x.1, [zeta])

theorem mem_chunkDomains {genV : Nat → K} {k q : Nat} {s : K} {d : Dom K}
    (h : d ∈ chunkDomains genV k q s) : d.logN = k ∧ ∃ i < 2 ^ q, d.shift = s * genV (k + q) ^ i := by
  obtain ⟨i, hi, rfl⟩ := List.mem_map.1 h
  exact ⟨rfl, i, List.mem_range.1 hi, rfl⟩

theorem chunkDomains_length (genV : Nat → K) (k q : Nat) (s : K) :
    (chunkDomains genV k q s).length = 2 ^ q := by simp [chunkDomains]

section
variable {u : Setup K F SI C DI PI S D P Ch W} (hu : u.Ok)
include hu

/-- The chunk matrices of the prover come from polynomials. -/
theorem chunk_polys {k q : Nat} (hkq : k + q ≤ u.twoAdicity) (value : Nat → F) :
    ∃ cps : List (List K[X]),
      cps.length = 2 ^ q ∧ (∀ c ∈ cps, c.length = u.deg.D) ∧ (∀ c ∈ cps, ∀ p ∈ c, p.natDegree < 2 ^ k) ∧
      splitEvals (2 ^ q) (((List.range (2 ^ (k + q))).map value).map u.deg.asBase) =
        List.zipWith (fun d ps => evalRows u.genV ps d.shift d.logN) (chunkDomains u.genV k q u.g) cps ∧
      ∀ i c, cps[i]? = some c → ∀ l, l < 2 ^ k → ∑ e ∈ Finset.range c.length, u.deg.monomial e *
        algebraMap K F ((c.getD e 0).eval (u.g * u.genV (k + q) ^ i * u.genV k ^ l)) =
          value (i + l * 2 ^ q) := by
  have hg := hu.twoAdic
  set rows := ((List.range (2 ^ (k + q))).map value).map u.deg.asBase with hrows
  have hlen : rows.length = 2 ^ k * 2 ^ q := by simp [hrows, pow_add]
  have hget : ∀ i < 2 ^ q, ∀ j < 2 ^ k, rows.getD (i + j * 2 ^ q) default =
      u.deg.asBase (value (i + j * 2 ^ q)) := by
    intro i hi j hj
    have hlt : i + j * 2 ^ q < 2 ^ (k + q) := by
      rw [pow_add]
      calc i + j * 2 ^ q < 2 ^ q + j * 2 ^ q := by omega
        _ = (j + 1) * 2 ^ q := by ring
        _ ≤ _ := Nat.mul_le_mul_right _ hj
    rw [hrows, List.getD_eq_getElem?_getD, List.getElem?_map, List.getElem?_map,
      List.getElem?_range hlt]
    rfl
  set mats := splitEvals (2 ^ q) rows with hmats
  have hml : mats.length = 2 ^ q := by simp [hmats, splitEvals]
  have hmget : ∀ i < 2 ^ q, mats[i]? = some ((List.range (2 ^ k)).map fun j =>
      u.deg.asBase (value (i + j * 2 ^ q))) := by
    intro i hi
    rw [hmats, splitEvals_get q (2 ^ k) rows hlen hi]
    congr 1
    apply List.map_congr_left
    intro j hj
    exact hget i hi j (List.mem_range.1 hj)
  obtain ⟨cps, hc⟩ := exists_polys_list hg (show k ≤ u.twoAdicity by omega) u.deg.D
    (((chunkDomains u.genV k q u.g).map Dom.shift).zip mats) (by
      intro x hx
      obtain ⟨i, hi, hxi⟩ := List.mem_iff_getElem.1 hx
      have hi' : i < 2 ^ q := by
        simp only [List.length_zip, List.length_map, chunkDomains_length, hml] at hi; omega
      have hm := hmget i hi'
      rw [List.getElem?_eq_getElem (by omega)] at hm
      obtain rfl := hxi
      rw [List.getElem_zip]
      refine ⟨?_, ?_, ?_⟩
      · simp only [List.getElem_map]
        obtain ⟨-, j, -, hj⟩ := mem_chunkDomains (List.getElem_mem
          (show i < (chunkDomains u.genV k q u.g).length by rw [chunkDomains_length]; exact hi'))
        rw [hj]
        exact mul_ne_zero hu.g0 (pow_ne_zero _ (hg.ne_zero hkq))
      · simp only [Option.some.inj hm, List.length_map, List.length_range]
      · simp only [Option.some.inj hm]
        intro row hrow
        obtain ⟨j, -, rfl⟩ := List.mem_map.1 hrow
        exact hu.deg.length _)
  have hcl : cps.length = 2 ^ q := by
    rw [← hc.length_eq]
    simp [chunkDomains_length, hml]
  have hci : ∀ i, ∀ hi : i < 2 ^ q, (cps[i]'(by omega)).length = u.deg.D ∧
      mats[i]'(by omega) = evalRows u.genV (cps[i]'(by omega)) (u.g * u.genV (k + q) ^ i) k ∧
      ∀ p ∈ cps[i]'(by omega), p.natDegree < 2 ^ k := by
    intro i hi
    have := hc.get (i := i) (by simp [chunkDomains_length, hml, hi]) (by omega)
    simpa [chunkDomains] using this
  have hall : ∀ c ∈ cps, c.length = u.deg.D ∧ ∀ p ∈ c, p.natDegree < 2 ^ k := by
    intro c hcm
    obtain ⟨i, hi, rfl⟩ := List.mem_iff_getElem.1 hcm
    exact ⟨(hci i (by omega)).1, (hci i (by omega)).2.2⟩
  refine ⟨cps, hcl, fun c h => (hall c h).1, fun c h => (hall c h).2, ?_, ?_⟩
  · apply List.ext_getElem (by simp [hml, hcl, chunkDomains_length])
    intro i hi1 hi2
    rw [List.getElem_zipWith, (hci i (by omega)).2.1]
    simp [chunkDomains]
  · intro i c hci' l hl
    have hi : i < 2 ^ q := by
      rw [← hcl]
      by_contra h
      rw [List.getElem?_eq_none (by omega)] at hci'
      cases hci'
    rw [List.getElem?_eq_getElem (by omega)] at hci'
    obtain rfl := Option.some.inj hci'
    obtain ⟨c1, c2, -⟩ := hci i hi
    have hm := hmget i hi
    rw [List.getElem?_eq_getElem (by omega), Option.some.injEq, c2] at hm
    have hrow := congrArg (fun m => m.getD l []) hm
    simp only [evalRows, List.getD_eq_getElem?_getD, List.getElem?_map, List.getElem?_range hl,
      Option.map_some, Option.getD_some] at hrow
    have hsum := hu.deg.sum (value (i + l * 2 ^ q))
    rw [← hrow] at hsum
    rw [c1, ← hsum]
    refine Finset.sum_congr rfl fun e he => ?_
    have he' : e < (cps[i]'(by omega)).length := by rw [c1]; exact Finset.mem_range.1 he
    simp only [List.getD_eq_getElem?_getD, List.getElem?_map, List.getElem?_eq_getElem he', Option.map_some,
      Option.getD_some]

/-- The two batches a run of the prover opens. -/
noncomputable def proverRounds (u : Setup K F SI C DI PI S D P Ch W) (k q : Nat) (ps : List K[X])
    (cps : List (List K[X])) (zeta : F) (c1 c2 : C) (d1 d2 : DI) : List (Round K F C DI) :=
  [⟨d1, c1, [(evalRowsRev u.genV ps u.g (k + u.cfg.logBlowup), ⟨k, 1⟩,
      [zeta, zeta * algebraMap K F (u.genV k)])]⟩,
   ⟨d2, c2, quotientEntries u.genV u.g k q u.cfg.logBlowup cps zeta⟩]

theorem mem_entries {k q b : Nat} {cps : List (List K[X])} {zeta : F} {e : Mat K × Dom K × List F}
    (h : e ∈ quotientEntries u.genV u.g k q b cps zeta) :
    ∃ c ∈ cps, e.1 = evalRowsRev u.genV c u.g (k + b) ∧ e.2.1.logN = k ∧ e.2.2 = [zeta] := by
  obtain ⟨x, hx, rfl⟩ := List.mem_map.1 h
  obtain ⟨h1, h2⟩ := List.of_mem_zip hx
  exact ⟨x.2, h2, rfl, (mem_chunkDomains h1).1, rfl⟩

theorem honest_rounds {k q : Nat} (hkb : k + u.cfg.logBlowup ≤ u.twoAdicity)
    {ps : List K[X]} (hps : ∀ p ∈ ps, p.natDegree < 2 ^ k) {cps : List (List K[X])}
    (hcl : cps.length = 2 ^ q) (hcd : ∀ c ∈ cps, ∀ p ∈ c, p.natDegree < 2 ^ k) (zeta : F) {c1 c2 : C}
    {d1 d2 : DI} (ho1 : u.mi.Opens u.cfg.numQueries d1 c1 [evalRowsRev u.genV ps u.g (k + u.cfg.logBlowup)])
    (ho2 : u.mi.Opens u.cfg.numQueries d2 c2
      (cps.map fun c => evalRowsRev u.genV c u.g (k + u.cfg.logBlowup))) :
    HonestRounds u.genV u.g u.mi u.cfg u.twoAdicity (proverRounds u k q ps cps zeta c1 c2 d1 d2) := by
  have hne : ∀ c : List K[X], evalRowsRev u.genV c u.g (k + u.cfg.logBlowup) ≠ [] := by
    intro c h
    have := congrArg List.length h
    simp [evalRowsRev] at this
  have hrect : ∀ c : List K[X], ∀ row ∈ evalRowsRev u.genV c u.g (k + u.cfg.logBlowup),
      row.length = (evalRowsRev u.genV c u.g (k + u.cfg.logBlowup)).width := by
    intro c
    rw [width_of_rect (rect_evalRowsRev _ _ _ _) (hne c)]
    exact rect_evalRowsRev _ _ _ _
  refine ⟨by simp [proverRounds], ?_, ?_, ?_⟩
  · intro r hr
    simp only [proverRounds, List.mem_cons, List.not_mem_nil, or_false] at hr
    rcases hr with rfl | rfl
    · refine ⟨by simp, ?_, ?_, by simpa using ho1⟩
      · intro e he
        obtain rfl := List.mem_singleton.1 he
        simp [entryHeight, evalRowsRev]
      · intro e he
        obtain rfl := List.mem_singleton.1 he
        exact hrect ps
    · refine ⟨?_, ?_, ?_, ?_⟩
      · intro h
        have := congrArg List.length h
        simp [quotientEntries, chunkDomains_length, hcl] at this
      · intro e he
        obtain ⟨c, -, h1, h2, -⟩ := mem_entries hu he
        rw [h1, entryHeight, h2]
        simp [evalRowsRev]
      · intro e he
        obtain ⟨c, -, h1, -⟩ := mem_entries hu he
        rw [h1]
        exact hrect c
      · have : (quotientEntries u.genV u.g k q u.cfg.logBlowup cps zeta).map Prod.fst =
            cps.map fun c => evalRowsRev u.genV c u.g (k + u.cfg.logBlowup) := by
          unfold quotientEntries
          rw [List.map_map]
          conv_rhs => rw [← List.map_snd_zip (l₁ := chunkDomains u.genV k q u.g) (l₂ := cps)
            (by rw [chunkDomains_length, hcl]), List.map_map]
          rfl
        simp only [this]
        exact ho2
  · intro r hr e he
    simp only [proverRounds, List.mem_cons, List.not_mem_nil, or_false] at hr
    rcases hr with rfl | rfl
    · obtain rfl := List.mem_singleton.1 he
      exact ⟨ps, rfl, hps⟩
    · obtain ⟨c, hc, h1, h2, -⟩ := mem_entries hu he
      exact ⟨c, by rw [h1, entryHeight, h2], by rw [h2]; exact hcd c hc⟩
  · intro r hr e he
    simp only [proverRounds, List.mem_cons, List.not_mem_nil, or_false] at hr
    rcases hr with rfl | rfl
    · obtain rfl := List.mem_singleton.1 he
      exact hkb
    · obtain ⟨c, -, -, h2, -⟩ := mem_entries hu he
      rw [entryHeight, h2]
      exact hkb

/-- The end of `prove`: opening both batches and collecting the values. -/
noncomputable def finish (u : Setup K F SI C DI PI S D P Ch W) (k q : Nat) (ps : List K[X])
    (cps : List (List K[X])) (zeta : F) (c1 c2 : C) (d1 d2 : DI) (s : S) (ch : Ch) (w : W) :
    Option (ProofOf K F C P W PI × Ch) := do
  let (opened, proof, _, ch) ← Pcs.open u.ext u.genV u.g u.mi u.m u.chall u.cfg
    ((proverRounds u k q ps cps zeta c1 c2 d1 d2).map Round.prover) s ch w
  let traceLocal ← (← (← opened[0]?)[0]?)[0]?
  let traceNext ← (← (← opened[0]?)[0]?)[1]?
  let quotientChunks ← (← opened[1]?).mapM fun v => v[0]?
  some (⟨c1, c2, traceLocal, traceNext, quotientChunks, proof, k⟩, ch)

/-- The second commitment for a given `alpha`: its chunk polynomials, the commitment, the prover data. -/
structure SecondOk (u : Setup K F SI C DI PI S D P Ch W) (air : Air K) (k q : Nat) (ps : List K[X])
    (pub : List K) (alpha : F) (x : List (List K[X]) × C × DI) : Prop where
  count : x.1.length = 2 ^ q
  width : ∀ c ∈ x.1, c.length = u.deg.D
  degree : ∀ c ∈ x.1, ∀ p ∈ c, p.natDegree < 2 ^ k
  values : ∀ i c, x.1[i]? = some c → ∀ l, ∑ e ∈ Finset.range c.length, u.deg.monomial e *
      algebraMap K F ((c.getD e 0).eval (u.g * u.genV (k + q) ^ i * u.genV k ^ l)) =
    (foldedPoly u.genV k air ps pub alpha).eval
        (algebraMap K F (u.g * u.genV (k + q) ^ i * u.genV k ^ l)) *
      (algebraMap K F (u.g * u.genV (k + q) ^ i * u.genV k ^ l) ^ 2 ^ k - 1)⁻¹
  opens : u.mi.Opens u.cfg.numQueries x.2.2 x.2.1
    (x.1.map fun c => evalRowsRev u.genV c u.g (k + u.cfg.logBlowup))
  committed : ∃ s s', u.mi.commit s (x.1.map fun c => evalRowsRev u.genV c u.g (k + u.cfg.logBlowup)) =
    some (x.2.1, x.2.2, s')

theorem prove_eq {air : Air K} (hwidth : 0 < air.width) {pub : List K} (hr : air.InRange pub.length)
    {q : Nat} (hq : getLogQuotientDegree air pub.length = some q) (hqb : q ≤ u.cfg.logBlowup)
    {k : Nat} (hkb : k + u.cfg.logBlowup ≤ u.twoAdicity)
    {ps : List K[X]} (hpw : ps.length = air.width) (hps : ∀ p ∈ ps, p.natDegree < 2 ^ k)
    (si : SI) :
    ∃ c1 d1, ∃ second : F → List (List K[X]) × C × DI, (∃ s s',
        u.mi.commit s [evalRowsRev u.genV ps u.g (k + u.cfg.logBlowup)] = some (c1, d1, s')) ∧
      u.mi.Opens u.cfg.numQueries d1 c1 [evalRowsRev u.genV ps u.g (k + u.cfg.logBlowup)] ∧
      (∀ alpha, SecondOk u air k q ps pub alpha (second alpha)) ∧
      ∀ ch s w, prove u air ch (evalRows u.genV ps 1 k) pub si s w = (do
        debugCheck u.cfg.debug air (evalRows u.genV ps 1 k) pub
        let ch ← u.chall.observe ch c1
        let (alpha, ch) ← u.chall.sample ch
        let ch ← u.chall.observe ch (second alpha).2.1
        let (zeta, ch) ← u.chall.sample ch
        finish u k q ps (second alpha).1 zeta c1 (second alpha).2.1 d1 (second alpha).2.2 s ch w) := by
  have hg := hu.twoAdic
  have hkN : k ≤ u.twoAdicity := by omega
  have hkq : k + q ≤ u.twoAdicity := by omega
  have hg1 : u.g ≠ 1 := by
    have := hu.gOut 0 (by omega)
    simpa using this
  have hgo : u.g ^ 2 ^ (k + q) ≠ 1 := hu.gOut _ hkq
  have hmat : ∀ c : List K[X], 0 < c.length → ∃ h w, 1 ≤ h ∧ h ≤ u.twoAdicity ∧ 0 < w ∧
      (evalRowsRev u.genV c u.g (k + u.cfg.logBlowup)).length = 2 ^ h ∧
      Rect (evalRowsRev u.genV c u.g (k + u.cfg.logBlowup)) w := fun c hc =>
    ⟨k + u.cfg.logBlowup, c.length, by have := hu.blowup; omega, hkb, hc, by simp [evalRowsRev], rect_evalRowsRev _ _ _ _⟩
  obtain ⟨c1, d1, s1, hc1, ho1⟩ := hu.mi si [evalRowsRev u.genV ps u.g (k + u.cfg.logBlowup)] (by simp)
    (by
      intro m hm
      obtain rfl := List.mem_singleton.1 hm
      exact hmat ps (by omega)) (by simp)
  have hcommit1 : Pcs.commit u.ext u.mi u.g u.cfg si [(⟨k, 1⟩, evalRows u.genV ps 1 k)] =
      some (c1, d1, s1) := by
    have := C72_commit (MI := u.mi) (g := u.g) (cfg := u.cfg) hu.extCorrect si [((⟨k, 1⟩ : Dom K), ps)] (by
      intro x hx
      obtain rfl := List.mem_singleton.1 hx
      exact ⟨one_ne_zero, hkN, hps⟩)
    simpa [hc1] using this
  have hsecond : ∀ alpha : F, ∃ x : (List (List K[X]) × C × DI) × SI,
      SecondOk u air k q ps pub alpha x.1 ∧
      Pcs.commit u.ext u.mi u.g u.cfg s1 ((chunkDomains u.genV k q u.g).zip (splitEvals (2 ^ q)
        (((List.range (2 ^ (k + q))).map fun i =>
          (foldedPoly u.genV k air ps pub alpha).eval (algebraMap K F (u.g * u.genV (k + q) ^ i)) *
          (algebraMap K F (u.g * u.genV (k + q) ^ i) ^ 2 ^ k - 1)⁻¹).map u.deg.asBase))) =
        some (x.1.2.1, x.1.2.2, x.2) := by
    intro alpha
    obtain ⟨cps, p1, p2, p3, p4, p5⟩ := chunk_polys hu hkq (fun i =>
      (foldedPoly u.genV k air ps pub alpha).eval (algebraMap K F (u.g * u.genV (k + q) ^ i)) *
          (algebraMap K F (u.g * u.genV (k + q) ^ i) ^ 2 ^ k - 1)⁻¹)
    obtain ⟨c2, d2, s2, hc2, ho2⟩ := hu.mi s1
      (cps.map fun c => evalRowsRev u.genV c u.g (k + u.cfg.logBlowup))
      (by
        intro h
        have := congrArg List.length h
        simp [p1] at this)
      (by
        intro m hm
        obtain ⟨c, hc, rfl⟩ := List.mem_map.1 hm
        exact hmat c (by rw [p2 c hc]; exact hu.deg.pos))
      (by
        rw [List.pairwise_map]
        exact List.pairwise_iff_getElem.2 (by intros; simp [evalRowsRev]))
    refine ⟨((cps, c2, d2), s2), ⟨p1, p2, p3, ?_, ho2, _, _, hc2⟩, ?_⟩
    · intro i c hc l
      have h := p5 i c hc (l % 2 ^ k) (Nat.mod_lt _ (Nat.two_pow_pos k))
      have hpt : u.g * u.genV (k + q) ^ (i + l % 2 ^ k * 2 ^ q) =
          u.g * u.genV (k + q) ^ i * u.genV k ^ l := by
        rw [pow_add, mul_comm (l % 2 ^ k), pow_mul, hg.pow hkq, gen_pow_mod hg hkN, mul_assoc]
      simp only [hpt, gen_pow_mod hg hkN] at h
      exact h
    · rw [p4]
      have := C72_commit (MI := u.mi) (g := u.g) (cfg := u.cfg) hu.extCorrect s1
        ((chunkDomains u.genV k q u.g).zip cps) (by
          intro x hx
          obtain ⟨h1, h2⟩ := List.of_mem_zip hx
          obtain ⟨e1, i, -, e2⟩ := mem_chunkDomains h1
          refine ⟨?_, by rw [e1]; exact hkN, by rw [e1]; exact p3 _ h2⟩
          rw [e2]
          exact mul_ne_zero hu.g0 (pow_ne_zero _ (hg.ne_zero hkq)))
      have e1 : ((chunkDomains u.genV k q u.g).zip cps).map
          (fun x => (x.1, evalRows u.genV x.2 x.1.shift x.1.logN)) =
          (chunkDomains u.genV k q u.g).zip (List.zipWith (fun d ps => evalRows u.genV ps d.shift d.logN)
            (chunkDomains u.genV k q u.g) cps) := by
        generalize chunkDomains u.genV k q u.g = l
        clear * -
        induction l generalizing cps with
        | nil => simp
        | cons d l ih => cases cps with
          | nil => simp
          | cons c cps => simp [ih]
      have e2 : ((chunkDomains u.genV k q u.g).zip cps).map
          (fun x => evalRowsRev u.genV x.2 u.g (x.1.logN + u.cfg.logBlowup)) =
          cps.map fun c => evalRowsRev u.genV c u.g (k + u.cfg.logBlowup) := by
        conv_rhs => rw [← List.map_snd_zip (l₁ := chunkDomains u.genV k q u.g) (l₂ := cps)
          (by rw [chunkDomains_length, p1]), List.map_map]
        apply List.map_congr_left
        intro x hx
        rw [(mem_chunkDomains (List.of_mem_zip hx).1).1]
        rfl
      rw [e1, e2, hc2] at this
      exact this
  choose second hs1 hs2 using hsecond
  refine ⟨c1, d1, fun alpha => (second alpha).1, ⟨_, _, hc1⟩, ho1, hs1, ?_⟩
  have hlen : (evalRows u.genV ps 1 k).length = 2 ^ k := by simp [evalRows]
  have hev : getEvaluationsOnDomain u.mi u.g d1 0 ⟨k + q, u.g⟩ =
      some (evalRows u.genV ps u.g (k + q)) := by
    unfold getEvaluationsOnDomain
    rw [if_pos rfl, ho1.1]
    simp only [Option.bind_eq_bind, Option.bind_some, List.getElem?_cons_zero]
    obtain ⟨b, hb⟩ : ∃ b, k + u.cfg.logBlowup = k + q + b := ⟨u.cfg.logBlowup - q, by omega⟩
    have hle : Dom.size (⟨k + q, u.g⟩ : Dom K) ≤
        (evalRowsRev u.genV ps u.g (k + u.cfg.logBlowup)).length := by
      simp only [evalRowsRev, List.length_map, List.length_range, Dom.size]
      exact Nat.pow_le_pow_right (by omega) (by omega)
    rw [if_pos hle, hb]
    exact low_rows hg ps u.g (k := k + q) (b := b) (by omega)
  have hdom : createDisjointDomain u.g (⟨k, 1⟩ : Dom K) (2 ^ (k + q)) = ⟨k + q, u.g⟩ := by
    simp [createDisjointDomain, Tcs.log2Ceil_pow]
  have hnat : naturalDomainForDegree (2 ^ k) = some (⟨k, 1⟩ : Dom K) := by
    simp only [naturalDomainForDegree, log2Strict_pow, Option.bind_eq_bind, Option.bind_some]
  have hquot : ∀ alpha : F, quotientPhase u air pub ⟨k, 1⟩ k q d1 s1 alpha =
      some ((second alpha).1.2.1, (second alpha).1.2.2, (second alpha).2) := by
    intro alpha
    unfold quotientPhase
    simp only [hdom, hev, Option.bind_eq_bind, Option.bind_some,
      quotientValues_eq hg hkq hg1 hgo air ps pub alpha hpw hr, splitDomains_eq hkq]
    exact hs2 alpha
  intro ch s w
  unfold prove
  simp only [hlen, log2Strict_pow, hnat, Option.bind_eq_bind, Option.bind_some, hq, hcommit1, hquot]
  congr 1
  funext _
  congr 1
  funext ch1
  congr 1
  funext ⟨alpha, ch2⟩
  congr 1
  funext ch3
  congr 1
  funext ⟨zeta, ch4⟩
  simp only [openPhase, nextPoint]
  unfold finish proverRounds
  simp only [List.map_cons, List.map_nil, Round.prover, quotientEntries, List.map_map,
    Option.bind_eq_bind]
  have : ((chunkDomains u.genV k q u.g).zip (second alpha).1.1).map
      ((fun e : Mat K × Dom K × List F => e.2.2) ∘ fun x =>
        (evalRowsRev u.genV x.2 u.g (k + u.cfg.logBlowup), x.1, [zeta])) =
      List.replicate (2 ^ q) [zeta] := by
    rw [List.eq_replicate_iff]
    constructor
    · simp [chunkDomains_length, (hs1 alpha).count]
    · intro b hb
      obtain ⟨x, -, rfl⟩ := List.mem_map.1 hb
      rfl
  rw [this]

theorem open_values {k q : Nat} (hkb : k + u.cfg.logBlowup ≤ u.twoAdicity)
    {ps : List K[X]} (hps : ∀ p ∈ ps, p.natDegree < 2 ^ k) {cps : List (List K[X])}
    (hcl : cps.length = 2 ^ q) (hcd : ∀ c ∈ cps, ∀ p ∈ c, p.natDegree < 2 ^ k) {zeta : F} {c1 c2 : C}
    {d1 d2 : DI} (ho1 : u.mi.Opens u.cfg.numQueries d1 c1 [evalRowsRev u.genV ps u.g (k + u.cfg.logBlowup)])
    (ho2 : u.mi.Opens u.cfg.numQueries d2 c2
      (cps.map fun c => evalRowsRev u.genV c u.g (k + u.cfg.logBlowup)))
    {s s' : S} {ch ch' : Ch} {w : W} {values : List (List (List (List F)))}
    {proof : FriProof F C P W (List (List (List K) × PI))}
    (hp : Pcs.open u.ext u.genV u.g u.mi u.m u.chall u.cfg
      ((proverRounds u k q ps cps zeta c1 c2 d1 d2).map Round.prover) s ch w =
      some (values, proof, s', ch')) :
    values = [[[ps.map fun p => aeval zeta p, ps.map fun p => aeval (zeta * algebraMap K F (u.genV k)) p]],
      cps.map fun c => [c.map fun p => aeval zeta p]] ∧
    ∀ traceLocal traceNext : List F, ∀ chunks : List (List F), chunks.length = 2 ^ q →
      Pcs.verify u.genV u.g u.mi u.m u.chall u.cfg
        [(c1, [(⟨k, 1⟩, [(zeta, traceLocal), (zeta * algebraMap K F (u.genV k), traceNext)])]),
         (c2, ((chunkDomains u.genV k q u.g).zip chunks).map fun (d, v) => (d, [(zeta, v)]))]
        proof ch = .ok ch' := by
  have hr := honest_rounds hu hkb hps hcl hcd zeta ho1 ho2
  obtain ⟨hv, -⟩ := C72_honest_opening_accepted hu.extWidth hu.extCorrect hu.twoAdic hu.g0 hu.m hu.blowup
    hu.bits hr hp
  have hval : values = [[[ps.map fun p => aeval zeta p,
      ps.map fun p => aeval (zeta * algebraMap K F (u.genV k)) p]],
      cps.map fun c => [c.map fun p => aeval zeta p]] := by
    simp only [proverRounds] at hv
    obtain ⟨v0, vs0, h0, hv1, rfl⟩ := List.forall₂_cons_left_iff.1 hv
    clear hv
    obtain ⟨v1, vs1, h1, hv, rfl⟩ := List.forall₂_cons_left_iff.1 hv1
    clear hv1
    obtain rfl := List.forall₂_nil_left_iff.1 hv
    obtain ⟨y0, ys, hy0, hn, rfl⟩ := List.forall₂_cons_left_iff.1 h0
    obtain rfl := List.forall₂_nil_left_iff.1 hn
    have e0 := hy0 ps ⟨rfl, hps⟩
    simp only [List.map_cons, List.map_nil] at e0
    rw [e0]
    congr 2
    clear e0 hy0 h0 hp hr ho2 hv
    unfold quotientEntries at h1
    have hlen : (chunkDomains u.genV k q u.g).length = cps.length := by rw [chunkDomains_length, hcl]
    have hdk : ∀ d ∈ chunkDomains u.genV k q u.g, d.logN = k := fun d hd => (mem_chunkDomains hd).1
    generalize chunkDomains u.genV k q u.g = l at h1 hlen hdk
    clear hcl
    induction l generalizing cps v1 with
    | nil =>
      cases cps with
      | nil => cases h1; rfl
      | cons c cps => cases hlen
    | cons d l ih =>
      cases cps with
      | nil => cases hlen
      | cons c cps =>
        rw [List.zip_cons_cons, List.map_cons] at h1
        obtain ⟨y, ys, hy, h2, rfl⟩ := List.forall₂_cons_left_iff.1 h1
        have hd := hdk d List.mem_cons_self
        have e := hy c ⟨by simp [entryHeight, hd], by simp only [hd]; exact hcd c List.mem_cons_self⟩
        rw [e, List.map_cons, ih (fun c hc => hcd c (List.mem_cons_of_mem _ hc)) ys h2
          (by simpa using hlen) fun d hd => hdk d (List.mem_cons_of_mem _ hd)]
        rfl
  refine ⟨hval, ?_⟩
  intro traceLocal traceNext chunks hchunks
  have := C73_violated_any_values_accepted hu.extWidth hu.extCorrect hu.twoAdic hu.g0 hu.m hu.blowup
    hu.bits hr (k := k) (by
      intro r hr e he
      simp only [proverRounds, List.mem_cons, List.not_mem_nil, or_false] at hr
      rcases hr with rfl | rfl
      · obtain rfl := List.mem_singleton.1 he
        rfl
      · obtain ⟨c, -, -, h2, -⟩ := mem_entries hu he
        exact h2) hp [[[traceLocal, traceNext]], chunks.map fun c => [c]] (by
      rw [hval]
      refine .cons (.cons rfl .nil) (.cons ?_ .nil)
      rw [List.forall₂_iff_get]
      refine ⟨by simp [hcl, hchunks], ?_⟩
      intro i h1 h2
      simp)
  rw [← this]
  congr 1
  simp only [proverRounds, List.zipWith_cons_cons, List.zipWith_nil_left, Round.verifier,
    List.zip_cons_cons, List.zip_nil_left]
  congr 2
  unfold quotientEntries
  have hlen : (chunkDomains u.genV k q u.g).length = cps.length := by rw [chunkDomains_length, hcl]
  have hlen' : chunks.length = cps.length := by rw [hchunks, hcl]
  congr 1
  generalize chunkDomains u.genV k q u.g = l at hlen
  clear * - hlen hlen'
  induction l generalizing cps chunks with
  | nil => simp
  | cons d l ih =>
    cases cps with
    | nil => cases hlen
    | cons c cps =>
      cases chunks with
      | nil => cases hlen'
      | cons x chunks =>
        simp only [List.zip_cons_cons, List.map_cons, List.zipWith_cons_cons, List.zip_nil_left]
        rw [ih (cps := cps) chunks (by simpa using hlen') (by simpa using hlen)]

theorem finish_spec {k q : Nat} (hkb : k + u.cfg.logBlowup ≤ u.twoAdicity)
    {ps : List K[X]} (hps : ∀ p ∈ ps, p.natDegree < 2 ^ k) {cps : List (List K[X])}
    (hcl : cps.length = 2 ^ q) (hcd : ∀ c ∈ cps, ∀ p ∈ c, p.natDegree < 2 ^ k) {zeta : F} {c1 c2 : C}
    {d1 d2 : DI} (ho1 : u.mi.Opens u.cfg.numQueries d1 c1 [evalRowsRev u.genV ps u.g (k + u.cfg.logBlowup)])
    (ho2 : u.mi.Opens u.cfg.numQueries d2 c2
      (cps.map fun c => evalRowsRev u.genV c u.g (k + u.cfg.logBlowup)))
    {s : S} {ch : Ch} {w : W} :
    finish u k q ps cps zeta c1 c2 d1 d2 s ch w =
      (Pcs.open u.ext u.genV u.g u.mi u.m u.chall u.cfg
        ((proverRounds u k q ps cps zeta c1 c2 d1 d2).map Round.prover) s ch w).map fun x =>
        (⟨c1, c2, ps.map fun p => aeval zeta p, ps.map fun p => aeval (zeta * algebraMap K F (u.genV k)) p,
          cps.map fun c => c.map fun p => aeval zeta p, x.2.1, k⟩, x.2.2.2) := by
  unfold finish
  cases hp : Pcs.open u.ext u.genV u.g u.mi u.m u.chall u.cfg
      ((proverRounds u k q ps cps zeta c1 c2 d1 d2).map Round.prover) s ch w with
  | none => rfl
  | some x =>
    obtain ⟨values, proof, s', ch'⟩ := x
    obtain ⟨hv, -⟩ := open_values hu hkb hps hcl hcd ho1 ho2 hp
    subst hv
    simp only [Option.bind_eq_bind, Option.bind_some, List.getElem?_cons_zero, List.getElem?_cons_succ]
    rw [mapM_some (h := fun v => v.headD [])]
    · simp [Function.comp_def]
    · intro v hv
      obtain ⟨c, -, rfl⟩ := List.mem_map.1 hv
      rfl

/-- Everything a successful run of the prover is about, for any trace (in a release build also one that
does not satisfy the AIR). -/
theorem produced {air : Air K} (hwidth : 0 < air.width) {pub : List K} (hr : air.InRange pub.length)
    {q : Nat} (hq : getLogQuotientDegree air pub.length = some q) (hqb : q ≤ u.cfg.logBlowup)
    {k : Nat} (hkb : k + u.cfg.logBlowup ≤ u.twoAdicity)
    {ps : List K[X]} (hpw : ps.length = air.width) (hps : ∀ p ∈ ps, p.natDegree < 2 ^ k)
    {ch ch' : Ch} {si : SI} {s : S} {w : W} {proof : ProofOf K F C P W PI}
    (hp : prove u air ch (evalRows u.genV ps 1 k) pub si s w = some (proof, ch')) :
    ∃ alpha zeta chz cps, Produced u air ch k q ps pub proof ch' alpha zeta chz cps := by
  obtain ⟨c1, d1, second, -, ho1, hs, he⟩ := prove_eq hu hwidth hr hq hqb hkb hpw hps si
  rw [he] at hp
  simp only [Option.bind_eq_bind, Option.bind_eq_some_iff] at hp
  obtain ⟨-, -, ch1, h1, ⟨alpha, ch2⟩, h2, ch3, h3, ⟨zeta, ch4⟩, h4, hp⟩ := hp
  have hsa := hs alpha
  rw [finish_spec hu hkb hps hsa.count hsa.degree ho1 hsa.opens, Option.map_eq_some_iff] at hp
  obtain ⟨⟨values, pf, s', ch5⟩, hopen, hp⟩ := hp
  simp only [Prod.mk.injEq] at hp
  obtain ⟨rfl, rfl⟩ := hp
  obtain ⟨-, hver⟩ := open_values hu hkb hps hsa.count hsa.degree ho1 hsa.opens hopen
  refine ⟨alpha, zeta, ch4, (second alpha).1, ?_, rfl, rfl, rfl, rfl, hsa.count, hsa.width, hsa.degree,
    hsa.values, hver⟩
  simp only [challenges, h1, h2, h3, h4, Option.bind_eq_bind, Option.bind_some]

end

end TapStark.Stark
