import Verif.Spec.OpenSound
import Verif.Props.BothQuery
import Verif.Props.FriSound
import Verif.Proofs.Curve

/-! # C109: soundness of the folding rounds with respect to the inputs, for both verifiers together -/

namespace TapStark.Fri

open Polynomial Finset

variable {F : Type} [Field F] [DecidableEq F] {S C D P : Type}

theorem pointAt_pow {gen : Nat → F} {N : Nat} (hg : TwoAdic gen N) : ∀ (j : Nat) {h : Nat}, h ≤ N → j ≤ h → ∀ i,
    pointAt gen h i ^ 2 ^ j = pointAt gen (h - j) (i / 2 ^ j)
  | 0, h, _, _, i => by simp
  | j + 1, h, hN, hj, i => by
    obtain ⟨h, rfl⟩ : ∃ k, h = k + 1 := ⟨h - 1, by omega⟩
    rw [pow_succ', pow_mul, pointAt_sq hg hN, pointAt_pow hg j (by omega) (by omega), Nat.div_div_eq_div_mul,
      show h + 1 - (j + 1) = h - j by omega]

/-- A query that passes both verifiers passes the native one. -/
theorem Strategy.PassesBoth.native {s : Strategy F} {gen : Nat → F} {M : Mmcs F S C D P} {cfg : Config}
    {ro : Nat → Nat → F} {betas : List F} {idx : Nat} (h : s.PassesBoth gen M cfg ro betas idx) :
    s.Passes gen M cfg ro betas idx := by
  obtain ⟨commits, q, openings, ros, h1, h2, h3, h4, h5, -⟩ := h
  exact ⟨commits, q, openings, ros, h1, h2, h3, fun t _ => h4 t, h5⟩

/-- A query that passes both verifiers shows the reduced opening of the largest height. -/
theorem Strategy.PassesBoth.entry {s : Strategy F} {gen : Nat → F} {N : Nat} (hg : TwoAdic gen N) {M : Mmcs F S C D P}
    {cfg : Config} {ro : Nat → Nat → F} {betas : List F} {idx : Nat} (hN : betas.length + cfg.logBlowup ≤ N)
    (h0 : 0 < betas.length) (h : s.PassesBoth gen M cfg ro betas idx)
    (hβ : ∀ j < betas.length, betas.getD j 0 ≠ -pointAt gen (betas.length + cfg.logBlowup) idx ^ 2 ^ j) :
    s.layer [] idx = ro (betas.length + cfg.logBlowup) idx := by
  obtain ⟨commits, q, openings, ros, h1, ⟨h2, h2'⟩, h3, h4, h5, h6⟩ := h
  obtain ⟨π, hπ⟩ := h2' 0 h0
  have hm : (([[s.layer (betas.take 0) (2 * (idx / 2 ^ (0 + 1))), s.layer (betas.take 0) (2 * (idx / 2 ^ (0 + 1)) + 1)]], π) :
      List (List F) × P) ∈ openings.head? := by rw [List.head?_eq_getElem?, hπ]; rfl
  have h7 := (C108_query hg (by rw [h1]) hN (by omega) h1.symm h3 h5 hm).mp h6
  rcases h7 with h7 | ⟨j, hj, h7⟩
  · have h8 := h4 0 h0
    simp only [Nat.sub_zero, pow_zero, Nat.div_one] at h8
    rw [← h8, ← h7, List.getD_cons_zero, List.take_zero, zero_add, pow_one]
    rcases Nat.mod_two_eq_zero_or_one idx with e | e
    · rw [e, List.getD_cons_zero]; congr 1; omega
    · rw [e, List.getD_cons_succ, List.getD_cons_zero]; congr 1; omega
  · exact absurd h7 (hβ j (by omega))

theorem passes_both_ros {gen : Nat → F} {N : Nat} (hg : TwoAdic gen N) {M : Mmcs F S C D P}
    (hM : ∀ q rows π c, M.verifyBatch q rows π c = some true) (π : P) (c : C) {cfg : Config} (s : Strategy F)
    (ro : Nat → Nat → F) {betas : List F} {idx : Nat} (hN : betas.length + cfg.logBlowup ≤ N) (h0 : betas ≠ [])
    (hidx : idx < 2 ^ (betas.length + cfg.logBlowup)) (h : s.Passes gen M cfg ro betas idx)
    (he : s.layer [] idx = ro (betas.length + cfg.logBlowup) idx) {ros : List (Nat × F)}
    (h3 : RosOk ros (betas.length + cfg.logBlowup))
    (h4 : ∀ t, t < betas.length →
      roAt ros (betas.length + cfg.logBlowup - t) = ro (betas.length + cfg.logBlowup - t) (idx / 2 ^ t)) :
    ∃ (commits : List C) (q : Nat) (openings : List (List (List F) × P)),
      commits.length = betas.length ∧ s.Opens betas idx openings ∧
      verifyQuery gen M cfg commits idx q openings betas ros (betas.length + cfg.logBlowup) = .ok (s.final betas) ∧
      foldChain (roAt ros) (betas.length + cfg.logBlowup) (pointAt gen (betas.length + cfg.logBlowup) idx) 0
        (betas.zip (siblings idx (openings.map Prod.fst))) = s.final betas := by
  have hp : 0 < betas.length := List.length_pos_iff.2 h0
  obtain ⟨commits, q, openings, h1, ⟨h2, h2'⟩, h5⟩ :=
    chain_passes_ros hg hM π c s ro hN h0 hidx ((C83_passes_iff hg hM π c s ro hN h0 hidx).1 h) h3 h4
  refine ⟨commits, q, openings, h1, ⟨h2, h2'⟩, h5, ?_⟩
  obtain ⟨π', hπ⟩ := h2' 0 hp
  have hm : (([[s.layer (betas.take 0) (2 * (idx / 2 ^ (0 + 1))), s.layer (betas.take 0) (2 * (idx / 2 ^ (0 + 1)) + 1)]], π') :
      List (List F) × P) ∈ openings.head? := by rw [List.head?_eq_getElem?, hπ]; rfl
  refine (C108_query hg (by rw [h1]) hN (by omega) h1.symm h3 h5 hm).mpr (Or.inl ?_)
  have h8 := h4 0 hp
  simp only [Nat.sub_zero, pow_zero, Nat.div_one] at h8
  rw [h8, ← he, List.getD_cons_zero, List.take_zero, zero_add, pow_one]
  rcases Nat.mod_two_eq_zero_or_one idx with e | e
  · rw [e, List.getD_cons_zero]; congr 1; omega
  · rw [e, List.getD_cons_succ, List.getD_cons_zero]; congr 1; omega

/-- The converse: words that pass the native verifier pass both where the first word shows the reduced opening. -/
theorem C109_passes_both {gen : Nat → F} {N : Nat} (hg : TwoAdic gen N) {M : Mmcs F S C D P}
    (hM : ∀ q rows π c, M.verifyBatch q rows π c = some true) (π : P) (c : C) {cfg : Config} (s : Strategy F)
    (ro : Nat → Nat → F) {betas : List F} {idx : Nat} (hN : betas.length + cfg.logBlowup ≤ N) (h0 : betas ≠ [])
    (hidx : idx < 2 ^ (betas.length + cfg.logBlowup)) (h : s.Passes gen M cfg ro betas idx)
    (he : s.layer [] idx = ro (betas.length + cfg.logBlowup) idx) : s.PassesBoth gen M cfg ro betas idx := by
  obtain ⟨-, -, -, ros, -, -, h3, h4, -⟩ :=
    chain_passes hg hM π c s ro hN h0 hidx ((C83_passes_iff hg hM π c s ro hN h0 hidx).1 h)
  obtain ⟨commits, q, openings, h1, h2, h5, h6⟩ := passes_both_ros hg hM π c s ro hN h0 hidx h he h3 h4
  exact ⟨commits, q, openings, ros, h1, h2, h3, h4, h5, h6⟩

/-- A prover that follows the protocol on polynomials of low degree passes both verifiers at every index, for all
challenges. -/
theorem C109_honest_passes {gen : Nat → F} {N : Nat} (hg : TwoAdic gen N) {M : Mmcs F S C D P}
    (hM : ∀ q rows π c, M.verifyBatch q rows π c = some true) (π : P) (c : C) {cfg : Config} (q : Nat → F[X])
    (hq0 : q cfg.logBlowup = 0) (hq : ∀ h, cfg.logBlowup < h → (q h).natDegree < 2 ^ (h - cfg.logBlowup))
    {betas : List F} (h0 : betas ≠ []) (hN : betas.length + cfg.logBlowup ≤ N)
    {idx : Nat} (hidx : idx < 2 ^ (betas.length + cfg.logBlowup)) :
    (honestStrategy gen q (q (betas.length + cfg.logBlowup)) (betas.length + cfg.logBlowup)).PassesBoth gen M cfg
      (fun h i => (q h).eval (pointAt gen h i)) betas idx := by
  have hp : 0 < betas.length := List.length_pos_iff.2 h0
  have hd := hq (betas.length + cfg.logBlowup) (by omega)
  rw [Nat.add_sub_cancel] at hd
  refine C109_passes_both hg hM π c _ _ hN h0 hidx (C83_honest_passes hg hM π c q _ hq0 hq h0 hN hd hidx) ?_
  simp [honestStrategy, honestPoly]

/-- No randomness separates the heights: whatever the reduced openings are, if their sum is zero at every index, both
verifiers can be passed at every index for all challenges. -/
theorem C109_violated_heights {gen : Nat → F} {N : Nat} (hg : TwoAdic gen N) {M : Mmcs F S C D P}
    (hM : ∀ q rows π c, M.verifyBatch q rows π c = some true) (π : P) (c : C) {cfg : Config} (ro : Nat → Nat → F)
    (r : Nat) (h0 : 0 < r) (hN : r + cfg.logBlowup ≤ N)
    (hz : ∀ i, i < 2 ^ (r + cfg.logBlowup) → inputTotal ro r cfg.logBlowup i = 0) :
    ∃ s : Strategy F, ∀ betas : List F, betas.length = r → ∀ idx, idx < 2 ^ (r + cfg.logBlowup) →
      s.PassesBoth gen M cfg ro betas idx := by
  refine ⟨cancelStrategy ro r cfg.logBlowup, fun betas hr idx hidx => ?_⟩
  have hs := cancelStrategy_passes hg hM π c ro r h0 hN betas hr idx hidx
  subst hr
  refine C109_passes_both hg hM π c _ _ hN (by rintro rfl; simp at h0) hidx hs ?_
  have h1 := hz idx hidx
  unfold inputTotal at h1
  rw [sum_range_eq_add_Ico _ h0] at h1
  simp only [Nat.sub_zero, pow_zero, Nat.div_one] at h1
  simp only [cancelStrategy, List.length_nil, Nat.sub_zero, zero_add]
  rw [eq_neg_of_add_eq_zero_left h1]

/-- For instance any word at all at the second height. -/
theorem C109_violated_any_word {gen : Nat → F} {N : Nat} (hg : TwoAdic gen N) {M : Mmcs F S C D P}
    (hM : ∀ q rows π c, M.verifyBatch q rows π c = some true) (π : P) (c : C) {cfg : Config} (w : Nat → F)
    (r : Nat) (h0 : 1 < r) (hN : r + cfg.logBlowup ≤ N) :
    ∃ (ro : Nat → Nat → F) (s : Strategy F), ro (r + cfg.logBlowup - 1) = w ∧
      ∀ betas : List F, betas.length = r → ∀ idx, idx < 2 ^ (r + cfg.logBlowup) → s.PassesBoth gen M cfg ro betas idx := by
  let ro : Nat → Nat → F := fun h i => if h = r + cfg.logBlowup then -w (i / 2) else if h = r + cfg.logBlowup - 1 then w i else 0
  obtain ⟨s, hs⟩ := C109_violated_heights hg hM π c ro r (by omega) hN (by
    intro i _
    unfold inputTotal
    obtain ⟨r, rfl⟩ : ∃ k, r = k + 2 := ⟨r - 2, by omega⟩
    rw [sum_range_succ', sum_range_succ', sum_eq_zero]
    · simp only [ro, zero_add, pow_one, pow_zero, Nat.div_one, Nat.sub_zero, if_true]
      rw [if_neg (by omega)]
      ring
    · intro t ht
      have := mem_range.1 ht
      simp only [ro]
      rw [if_neg (by omega), if_neg (by omega)])
  exact ⟨ro, s, by funext i; simp only [ro]; rw [if_neg (by omega), if_true], hs⟩

section Sound

variable [Fintype F]

/-- The challenges for which a query can pass both verifiers with another entry are few. -/
theorem exceptional {gen : Nat → F} {N : Nat} (hg : TwoAdic gen N) {r h : Nat} (hN : h ≤ N) (hr : r ≤ h) :
    ∃ exc : Finset (Fin r → F), Fintype.card F * exc.card ≤ 2 ^ (h + 1) * Fintype.card F ^ r ∧
      ∀ v, v ∉ exc → ∀ idx < 2 ^ h, ∀ j < r, (List.ofFn v).getD j 0 ≠ -pointAt gen h idx ^ 2 ^ j := by
  classical
  let S : Fin r → Finset F := fun j => (range (2 ^ (h - j))).image fun i => -pointAt gen (h - j) i
  let E : Fin r → Finset (Fin r → F) := fun j => Fintype.piFinset fun k => if k = j then S j else univ
  refine ⟨univ.biUnion E, ?_, fun v hv idx hidx j hj he => hv ?_⟩
  · have h1 : ∀ j, Fintype.card F * (E j).card ≤ 2 ^ (h - j) * Fintype.card F ^ r := by
      intro j
      have h2 : (S j).card ≤ 2 ^ (h - j) := card_image_le.trans (by rw [card_range])
      rw [Fintype.card_piFinset, ← mul_prod_erase _ _ (mem_univ j), if_pos rfl]
      have h3 : ∏ k ∈ univ.erase j, (if k = j then S j else univ).card = Fintype.card F ^ (r - 1) := by
        rw [prod_congr rfl (g := fun _ => Fintype.card F), prod_const, card_erase_of_mem (mem_univ _), card_univ,
          Fintype.card_fin]
        intro k hk
        rw [if_neg (ne_of_mem_erase hk), card_univ]
      rw [h3]
      obtain ⟨r, rfl⟩ : ∃ k, r = k + 1 := ⟨r - 1, by have := j.2; omega⟩
      rw [Nat.add_sub_cancel, pow_succ]
      calc _ = (S j).card * (Fintype.card F ^ r * Fintype.card F) := by ring
        _ ≤ _ := Nat.mul_le_mul_right _ h2
    calc Fintype.card F * (univ.biUnion E).card ≤ Fintype.card F * ∑ j, (E j).card := Nat.mul_le_mul_left _ card_biUnion_le
      _ = ∑ j, Fintype.card F * (E j).card := mul_sum _ _ _
      _ ≤ ∑ j : Fin r, 2 ^ (h - j) * Fintype.card F ^ r := sum_le_sum fun j _ => h1 j
      _ = (∑ j : Fin r, 2 ^ (h - j)) * Fintype.card F ^ r := (sum_mul _ _ _).symm
      _ ≤ _ := Nat.mul_le_mul_right _ ?_
    rw [Fin.sum_univ_eq_sum_range (fun j => 2 ^ (h - j)) r]
    have : ∀ n, n ≤ h → ∑ j ∈ range n, 2 ^ (h - j) + 2 ^ (h + 1 - n) ≤ 2 ^ (h + 1) := by
      intro n
      induction n with
      | zero => intro _; simp
      | succ n ih =>
        intro hn
        have h2 := ih (by omega)
        rw [show h + 1 - n = (h - n) + 1 by omega, pow_succ] at h2
        rw [sum_range_succ, show h + 1 - (n + 1) = h - n by omega]
        omega
    exact (Nat.le_add_right _ _).trans (this r hr)
  · refine mem_biUnion.2 ⟨⟨j, hj⟩, mem_univ _, Fintype.mem_piFinset.2 fun k => ?_⟩
    split
    · rename_i hk
      subst hk
      rw [List.getD_eq_getElem?_getD, List.getElem?_eq_getElem (by simpa using hj), Option.getD_some, List.getElem_ofFn] at he
      refine mem_image.2 ⟨idx / 2 ^ j, mem_range.2 ?_, ?_⟩
      · rw [Nat.div_lt_iff_lt_mul (Nat.two_pow_pos _), ← pow_add]
        simp only
        rwa [show h - j + j = h by omega]
      · rw [he, pointAt_pow hg j hN (by omega)]
    · exact mem_univ _

/-- **C109** Whatever words the prover commits to and however it reacts to the challenges: but for few challenges, if all but
`m` of the query indices pass both verifiers, the sum of the reduced openings of all heights agrees, at every index that
passes, with one polynomial of degree below `2^r`. -/
theorem C109_passing_is_low_degree {gen : Nat → F} {N : Nat} (hg : TwoAdic gen N) (M : Mmcs F S C D P) (cfg : Config)
    (s : Strategy F) (ro : Nat → Nat → F) {r m : Nat} (hr : 0 < r) (hN : r + cfg.logBlowup ≤ N)
    (hm : 2 * m + 2 ^ r ≤ 2 ^ (r + cfg.logBlowup)) :
    ∃ bad : Finset (Fin r → F), 3 * (Fintype.card F * bad.card) ≤
        (m * (m + 2 ^ r) + 3 * r + 3 * 2 ^ (r + cfg.logBlowup + 1)) * Fintype.card F ^ r ∧
      ∀ v, v ∉ bad → ∀ A : Finset Nat, (∀ i ∈ A, i < 2 ^ (r + cfg.logBlowup)) →
        (∀ i ∈ A, s.PassesBoth gen M cfg ro (List.ofFn v) i) → 2 ^ (r + cfg.logBlowup) ≤ A.card + m →
        ∃ p : F[X], p.degree < ((2 ^ r : Nat) : WithBot Nat) ∧
          ∀ i ∈ A, inputTotal ro r cfg.logBlowup i = p.eval (pointAt gen (r + cfg.logBlowup) i) := by
  classical
  obtain ⟨bad, hb, hbad⟩ := C83_passing_is_low_degree_half hg M cfg s ro hr hN hm
  obtain ⟨exc, he, hexc⟩ := exceptional hg (r := r) hN (by omega)
  refine ⟨bad ∪ exc, ?_, fun v hv A hA hp hc => ?_⟩
  · have h1 := card_union_le bad exc
    have h2 := Nat.mul_le_mul_left (3 * Fintype.card F) h1
    nlinarith
  · rw [mem_union, not_or] at hv
    obtain ⟨p, hp1, hp2⟩ := hbad v hv.1 A hA (fun i hi => (hp i hi).native) hc
    refine ⟨p, hp1, fun i hi => ?_⟩
    rw [← hp2 i hi]
    have hent := (hp i hi).entry hg (by simpa using hN) (by simpa using hr) (by
      have := hexc v hv.2 i (hA i hi)
      simpa using this)
    rw [List.length_ofFn] at hent
    unfold inputTotal Strategy.total
    rw [hent, sum_range_eq_add_Ico _ hr]
    simp

/-- **C109** Soundness error of both verifiers with respect to the inputs: if the sum of the reduced openings is not within
`m` positions of a polynomial of degree below `2^r`, at most the stated part of all choices of `r` challenges and `Q` query
indices passes all queries. -/
theorem C109_soundness_error {gen : Nat → F} {N : Nat} (hg : TwoAdic gen N) (M : Mmcs F S C D P) (cfg : Config)
    (s : Strategy F) (ro : Nat → Nat → F) {r m : Nat} (hr : 0 < r) (hN : r + cfg.logBlowup ≤ N)
    (hm : 2 * m + 2 ^ r ≤ 2 ^ (r + cfg.logBlowup))
    (hfar : ¬ CloseTo gen (r + cfg.logBlowup) (2 ^ r) m (inputTotal ro r cfg.logBlowup)) (Q : Nat) :
    (Set.ncard {x : (Fin r → F) × (Fin Q → Fin (2 ^ (r + cfg.logBlowup))) |
        ∀ k, s.PassesBoth gen M cfg ro (List.ofFn x.1) (x.2 k)} : ℚ) /
      (Fintype.card F ^ r * (2 ^ (r + cfg.logBlowup)) ^ Q) ≤
      (m * (m + 2 ^ r) + 3 * r + 3 * 2 ^ (r + cfg.logBlowup + 1)) / (3 * Fintype.card F) +
        (1 - (m + 1) / 2 ^ (r + cfg.logBlowup)) ^ Q := by
  have h := error_of_pred (fun v i => s.PassesBoth gen M cfg ro (List.ofFn v) i) (inputTotal ro r cfg.logBlowup) (c := 3)
    (by omega) (by omega) (C109_passing_is_low_degree hg M cfg s ro hr hN hm) hfar Q
  exact_mod_cast h

end Sound

/-- With BabyBear, three rounds and blowup 8: a prover whose reduced openings are the evaluations of `X^20` passes `Q`
queries with both verifiers for at most `467 / 2013265921 + (35/64)^Q` of the choices, whatever it commits to. -/
theorem C109_instance (M : Mmcs BB S C D P) (s : Strategy BB) (Q : Nat) :
    (Set.ncard {x : (Fin 3 → BB) × (Fin Q → Fin (2 ^ (3 + 3))) |
        ∀ k, s.PassesBoth bbGen M ⟨3, Q, 1, true⟩ (fun h i => if h = 6 then pointAt bbGen 6 i ^ 20 else 0)
          (List.ofFn x.1) (x.2 k)} : ℚ) /
      (Fintype.card BB ^ 3 * (2 ^ (3 + 3)) ^ Q) ≤
      (28 * (28 + 2 ^ 3) + 3 * 3 + 3 * 2 ^ (3 + 3 + 1)) / (3 * 2013265921) + (1 - (28 + 1) / 2 ^ (3 + 3)) ^ Q := by
  have h := C109_soundness_error bbGen_twoAdic M ⟨3, Q, 1, true⟩ s
    (fun h i => if h = 6 then pointAt bbGen 6 i ^ 20 else 0)
    (r := 3) (m := 28) (by decide) (by show 3 + 3 ≤ 27; decide) (by show 2 * 28 + 2 ^ 3 ≤ 2 ^ (3 + 3); decide) (by
      have hf := C83_far_instance bbGen_twoAdic (h := 6) (d := 8) (m := 28) (by decide) (X ^ 20 : BB[X])
        (by simp) (pow_ne_zero _ X_ne_zero) (by simp)
      have ht : inputTotal (fun h i => if h = 6 then pointAt bbGen 6 i ^ 20 else 0) 3 3 =
          fun i => (X ^ 20 : BB[X]).eval (pointAt bbGen 6 i) := by
        funext i
        simp [inputTotal, sum_range_succ]
      rw [ht]
      exact hf) Q
  have hcard : (Fintype.card BB : ℚ) = 2013265921 := by rw [ZMod.card]; rfl
  rw [hcard] at h ⊢
  exact_mod_cast h

end TapStark.Fri
