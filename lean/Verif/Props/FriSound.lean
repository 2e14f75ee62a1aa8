import Verif.Props.Fri
import Verif.Proofs.FriHalf
import Verif.Spec.BabyBear
import Mathlib.Data.Rat.Cast.Order
import Mathlib.Algebra.Order.Field.Basic

/-! # C83: soundness of the folding rounds -/

set_option linter.unusedSectionVars false

namespace TapStark.Fri

open Polynomial Finset

variable {F : Type} [Field F] [DecidableEq F] {S C D P : Type}

namespace Strategy

/-- The words of all rounds; after the last one the constant word of the final value. -/
def word (s : Strategy F) (r : Nat) (bs : List F) (i : Nat) : F := if bs.length < r then s.layer bs i else s.final bs

/-- No reduced opening is added after the last round. -/
def roBelow (ro : Nat → Nat → F) (b h i : Nat) : F := if h ≤ b then 0 else ro h i

theorem total_eq (s : Strategy F) (ro : Nat → Nat → F) {r : Nat} (hr : 0 < r) (b i : Nat) :
    s.word r [] i + ∑ t ∈ range r, roBelow ro b (b + r - (t + 1)) (i / 2 ^ (t + 1)) = s.total ro r b i := by
  obtain ⟨r, rfl⟩ : ∃ k, r = k + 1 := ⟨r - 1, by omega⟩
  unfold total word
  rw [if_pos (by simp), sum_range_succ, sum_Ico_eq_sum_range]
  have hlast : roBelow ro b (b + (r + 1) - (r + 1)) (i / 2 ^ (r + 1)) = 0 := by
    unfold roBelow; rw [if_pos (by omega)]
  rw [hlast, add_zero]
  congr 1
  simp only [Nat.add_sub_cancel]
  refine sum_congr rfl fun t ht => ?_
  have := mem_range.1 ht
  rw [show r + 1 + b - (1 + t) = b + (r + 1) - (t + 1) by omega, show 1 + t = t + 1 by omega]
  unfold roBelow
  rw [if_neg (by omega)]

theorem passes_chain {gen : Nat → F} {N : Nat} (hg : TwoAdic gen N) {M : Mmcs F S C D P} {cfg : Config}
    {s : Strategy F} {ro : Nat → Nat → F} {betas : List F} {idx : Nat} (hN : betas.length + cfg.logBlowup ≤ N)
    (h : s.Passes gen M cfg ro betas idx) :
    Chain gen (roBelow ro cfg.logBlowup) (s.word betas.length) (cfg.logBlowup + betas.length) betas idx := by
  obtain ⟨commits, q, openings, ros, hc, ⟨ho, hop⟩, hros, hro, hv⟩ := h
  obtain ⟨x, y, h1, h2, -, h3⟩ := C40_accepted_query hg (top := betas.length + cfg.logBlowup) (by omega) hN (by omega)
    hc.symm hros hv
  have hxy : ∀ j, j < betas.length → x j = s.layer (betas.take j) (2 * (idx / 2 ^ (j + 1))) ∧
      y j = s.layer (betas.take j) (2 * (idx / 2 ^ (j + 1)) + 1) := by
    intro j hj
    obtain ⟨o, ho', -, -, ho2, -⟩ := h1 j (by omega)
    obtain ⟨π, hπ⟩ := hop j hj
    rw [hπ, Option.mem_some_iff] at ho'
    subst ho'
    simp only [List.cons.injEq, and_true] at ho2
    exact ⟨ho2.1.symm, ho2.2.symm⟩
  have hlt : ∀ j, j < betas.length → (betas.take j).length < betas.length := by
    intro j hj; rw [List.length_take]; omega
  intro j hj
  obtain ⟨e1, e2⟩ := hxy j hj
  have hw : ∀ i, s.word betas.length (betas.take j) i = s.layer (betas.take j) i := by
    intro i; unfold word; rw [if_pos (hlt j hj)]
  rw [hw, hw, ← e1, ← e2, show cfg.logBlowup + betas.length = betas.length + cfg.logBlowup by omega]
  by_cases hl : j + 1 < betas.length
  · have h2j := h2 j (by omega)
    obtain ⟨f1, f2⟩ := hxy (j + 1) hl
    have hd : idx / 2 ^ (j + 1 + 1) = idx / 2 ^ (j + 1) / 2 := by rw [pow_succ, Nat.div_div_eq_div_mul]
    have hw' : s.word betas.length (betas.take (j + 1)) (idx / 2 ^ (j + 1)) =
        if idx / 2 ^ (j + 1) % 2 = 0 then x (j + 1) else y (j + 1) := by
      unfold word
      rw [if_pos (hlt _ hl), f1, f2, hd]
      split
      · congr 1; omega
      · congr 1; omega
    rw [hw', h2j, hro (j + 1) (by omega) hl]
    unfold roBelow
    rw [if_neg (by omega)]
  · have hj1 : j + 1 = betas.length := by omega
    have hw' : s.word betas.length (betas.take (j + 1)) (idx / 2 ^ (j + 1)) = s.final betas := by
      rw [hj1, List.take_length]
      unfold word
      rw [if_neg (by omega)]
    rw [hw', h3 j (by omega)]
    unfold roBelow
    rw [if_pos (by omega), add_zero]

end Strategy

/-- The openings that show the words of a chain. -/
def chainOpenings (π : P) (word : List F → Nat → F) : List F → Nat → List (List (List F) × P)
  | [], _ => []
  | β :: bs, i => ([[word [] (2 * (i / 2)), word [] (2 * (i / 2) + 1)]], π) ::
      chainOpenings π (fun l => word (β :: l)) bs (i / 2)

theorem chainOpenings_get (π : P) : ∀ (betas : List F) (word : List F → Nat → F) (i : Nat),
    (chainOpenings π word betas i).length = betas.length ∧ ∀ j, j < betas.length →
      (chainOpenings π word betas i)[j]? = some ([[word (betas.take j) (2 * (i / 2 ^ (j + 1))),
        word (betas.take j) (2 * (i / 2 ^ (j + 1)) + 1)]], π)
  | [], _, _ => by simp [chainOpenings]
  | β :: bs, word, i => by
    obtain ⟨h1, h2⟩ := chainOpenings_get π bs (fun l => word (β :: l)) (i / 2)
    refine ⟨by simp [chainOpenings, h1], fun j hj => ?_⟩
    cases j with
    | zero => simp [chainOpenings]
    | succ j =>
      rw [chainOpenings, List.getElem?_cons_succ, h2 j (by simpa using hj),
        show i / 2 / 2 ^ (j + 1) = i / 2 ^ (j + 1 + 1) by rw [Nat.div_div_eq_div_mul, ← pow_succ']]
      rfl

theorem chain_queryLoop {gen : Nat → F} {N : Nat} (hg : TwoAdic gen N) {M : Mmcs F S C D P}
    (hM : ∀ q rows π c, M.verifyBatch q rows π c = some true) (π : P) (c : C) (q logMax b : Nat) (ro : Nat → Nat → F) :
    ∀ (betas : List F) (word : List F → Nat → F) (idx : Nat) (fe : F) (ros : List (Nat × F)),
      b + betas.length ≤ N → RosOk ros (b + betas.length) →
      (∀ t, 1 ≤ t → t < betas.length → roAt ros (b + betas.length - t) = ro (b + betas.length - t) (idx / 2 ^ t)) →
      (∀ i, ro b i = 0) →
      (b + betas.length < logMax → word [] idx = fe + if betas = [] then 0 else roAt ros (b + betas.length)) →
      (betas = [] → word [] idx = fe) →
      Chain gen ro word (b + betas.length) betas idx →
      queryLoop gen M q logMax ((downList b betas.length).zip ((List.replicate betas.length c).zip
        ((chainOpenings π word betas idx).zip betas))) idx fe ros =
        .ok (word betas (idx / 2 ^ betas.length), idx / 2 ^ betas.length)
  | [], word, idx, fe, ros, _, _, _, _, _, h2, _ => by
    simp [downList, queryLoop, h2 rfl]
  | β :: bs, word, idx, fe, ros, hN, hros, hro, hro0, h1, _, hchain => by
    simp only [List.length_cons] at hN hros hro h1 hchain ⊢
    rw [show b + (bs.length + 1) = b + bs.length + 1 by omega] at hN hros h1 hchain
    obtain ⟨c1, c2⟩ := Chain.tail hchain
    simp only [downList, List.replicate_succ, chainOpenings, List.zip_cons_cons]
    rw [queryLoop]
    obtain ⟨r1, r2, r3⟩ := nextRo_spec hros fe
    generalize hnr : nextRo (b + bs.length + 1) fe ros = nr at r1 r2 r3 ⊢
    obtain ⟨fe1, ros1⟩ := nr
    simp only at r1 r2 r3 ⊢
    have hrow : ([word [] (2 * (idx / 2)), word [] (2 * (idx / 2) + 1)] : List F)[idx % 2]? = some (word [] idx) := by
      rcases Nat.mod_two_eq_zero_or_one idx with h0 | h0
      · rw [h0, List.getElem?_cons_zero, show 2 * (idx / 2) = idx by omega]
      · rw [h0, List.getElem?_cons_succ, List.getElem?_cons_zero, show 2 * (idx / 2) + 1 = idx by omega]
    rw [if_pos (by simp), List.getElem?_cons_zero, Res.ofOption_some, Res.bind_ok, hrow, Res.ofOption_some, Res.bind_ok,
      if_neg, hM, Res.ofOption_some, Res.bind_ok, if_pos rfl, foldRow_eq hg hN, foldVal_line hg hN, Res.ofOption_some,
      Res.bind_ok]
    · have hdd : ∀ t, idx / 2 / 2 ^ t = idx / 2 ^ (t + 1) := by
        intro j; rw [Nat.div_div_eq_div_mul, pow_succ']
      rw [← hdd]
      refine chain_queryLoop hg hM π c q logMax b ro bs (fun l => word (β :: l)) (idx / 2) _ ros1 (by omega)
        (by simpa using r2) ?_ hro0 ?_ ?_ c2
      · intro t ht1 ht2
        have := hro (t + 1) (by omega) (by omega)
        rw [show b + (bs.length + 1) - (t + 1) = b + bs.length - t by omega, ← hdd] at this
        rw [r3 _ (by omega), this]
      · intro _
        rw [c1]
        congr 1
        split
        case isTrue hbs => rw [hbs]; exact hro0 _
        case isFalse hbs =>
          have h0 : 0 < bs.length := List.length_pos_iff.2 hbs
          have := hro 1 le_rfl (by omega)
          rw [pow_one, show b + (bs.length + 1) - 1 = b + bs.length by omega] at this
          rw [r3 _ (by omega), this]
      · intro hbs
        rw [c1, hbs]
        simp [hro0]
    · rintro ⟨h3, h4⟩
      apply h4
      rw [h1 (by omega), if_neg (by simp), r1]

theorem roAt_mem : ∀ {l : List (Nat × F)}, l.Pairwise (fun x y => y.1 < x.1) → ∀ {h : Nat} {v : F}, (h, v) ∈ l →
    roAt l h = v
  | [], _, _, _, hm => by simp at hm
  | (k, w) :: l, hl, h, v, hm => by
    rw [List.pairwise_cons] at hl
    have hnone : ∀ k', k ≤ k' → l.filter (fun r => r.1 == k') = [] := by
      intro k' hk
      rw [List.filter_eq_nil_iff]
      intro x hx
      have := hl.1 x hx
      simp only [beq_iff_eq]
      simp only at this
      omega
    rcases List.mem_cons.1 hm with he | hm'
    · obtain ⟨rfl, rfl⟩ := Prod.mk.inj he
      unfold roAt
      rw [List.filter_cons, if_pos (by simp), hnone h le_rfl]
      simp
    · have := hl.1 _ hm'
      simp only at this
      have ih := roAt_mem hl.2 hm'
      unfold roAt at ih ⊢
      rw [List.filter_cons, if_neg (by simp; omega), ih]

/-- Words that satisfy the folding chain pass with any list of their reduced openings. -/
theorem chain_passes_ros {gen : Nat → F} {N : Nat} (hg : TwoAdic gen N) {M : Mmcs F S C D P}
    (hM : ∀ q rows π c, M.verifyBatch q rows π c = some true) (π : P) (c : C) {cfg : Config} (s : Strategy F)
    (ro : Nat → Nat → F) {betas : List F} {idx : Nat} (hN : betas.length + cfg.logBlowup ≤ N) (h0 : betas ≠ [])
    (hidx : idx < 2 ^ (betas.length + cfg.logBlowup))
    (h : Chain gen (Strategy.roBelow ro cfg.logBlowup) (s.word betas.length) (cfg.logBlowup + betas.length) betas idx)
    {ros : List (Nat × F)} (hrosk : RosOk ros (betas.length + cfg.logBlowup))
    (hrosv : ∀ t, t < betas.length →
      roAt ros (betas.length + cfg.logBlowup - t) = ro (betas.length + cfg.logBlowup - t) (idx / 2 ^ t)) :
    ∃ (commits : List C) (q : Nat) (openings : List (List (List F) × P)),
      commits.length = betas.length ∧ s.Opens betas idx openings ∧
      verifyQuery gen M cfg commits idx q openings betas ros (betas.length + cfg.logBlowup) = .ok (s.final betas) := by
  obtain ⟨o1, o2⟩ := chainOpenings_get π betas (s.word betas.length) idx
  have hlp : 0 < betas.length := List.length_pos_iff.2 h0
  have hlt : ∀ j, j < betas.length → (betas.take j).length < betas.length := by
    intro j hj; rw [List.length_take]; omega
  refine ⟨List.replicate betas.length c, 0, chainOpenings π (s.word betas.length) betas idx, by simp, ⟨o1, ?_⟩, ?_⟩
  · intro j hj
    refine ⟨π, ?_⟩
    rw [o2 j hj]
    unfold Strategy.word
    rw [if_pos (hlt j hj), if_pos (hlt j hj)]
  · unfold verifyQuery
    rw [show betas.length + cfg.logBlowup = cfg.logBlowup + betas.length by omega, range_reverse_down,
      zip_downList _ _ betas.length _ (by simp [o1])]
    simp only
    rw [chain_queryLoop hg hM π c 0 _ cfg.logBlowup (Strategy.roBelow ro cfg.logBlowup) betas _ idx 0 ros (by omega)
      (by rwa [add_comm]) ?_ ?_ (by omega) (fun h => absurd h h0) h]
    · rw [Res.bind_ok]
      simp only
      rw [if_neg]
      · unfold Strategy.word
        rw [if_neg (by omega)]
      · rintro ⟨-, hn⟩
        apply hn
        rw [Config.blowup, Nat.div_lt_iff_lt_mul (Nat.two_pow_pos _), ← pow_add, add_comm]
        exact hidx
    · intro t h1 h2
      rw [show cfg.logBlowup + betas.length = betas.length + cfg.logBlowup by omega, hrosv t h2]
      unfold Strategy.roBelow
      rw [if_neg (by omega)]
    · intro i
      unfold Strategy.roBelow
      rw [if_pos le_rfl]

/-- Words that satisfy the folding chain pass, with the reduced openings of all heights. -/
theorem chain_passes {gen : Nat → F} {N : Nat} (hg : TwoAdic gen N) {M : Mmcs F S C D P}
    (hM : ∀ q rows π c, M.verifyBatch q rows π c = some true) (π : P) (c : C) {cfg : Config} (s : Strategy F)
    (ro : Nat → Nat → F) {betas : List F} {idx : Nat} (hN : betas.length + cfg.logBlowup ≤ N) (h0 : betas ≠ [])
    (hidx : idx < 2 ^ (betas.length + cfg.logBlowup))
    (h : Chain gen (Strategy.roBelow ro cfg.logBlowup) (s.word betas.length) (cfg.logBlowup + betas.length) betas idx) :
    ∃ (commits : List C) (q : Nat) (openings : List (List (List F) × P)) (ros : List (Nat × F)),
      commits.length = betas.length ∧ s.Opens betas idx openings ∧ RosOk ros (betas.length + cfg.logBlowup) ∧
      (∀ t, t < betas.length →
        roAt ros (betas.length + cfg.logBlowup - t) = ro (betas.length + cfg.logBlowup - t) (idx / 2 ^ t)) ∧
      verifyQuery gen M cfg commits idx q openings betas ros (betas.length + cfg.logBlowup) = .ok (s.final betas) := by
  let ros := (List.range betas.length).map fun t =>
    (betas.length + cfg.logBlowup - t, ro (betas.length + cfg.logBlowup - t) (idx / 2 ^ t))
  have hrosk : RosOk ros (betas.length + cfg.logBlowup) := by
    refine ⟨?_, ?_⟩
    · rw [List.pairwise_map]
      refine List.Pairwise.imp_of_mem ?_ List.pairwise_lt_range
      intro a b' ha hb' hab
      have := List.mem_range.1 hb'
      simp only
      omega
    · intro x hx
      obtain ⟨t, -, rfl⟩ := List.mem_map.1 hx
      simp only
      omega
  have hrosv : ∀ t, t < betas.length →
      roAt ros (betas.length + cfg.logBlowup - t) = ro (betas.length + cfg.logBlowup - t) (idx / 2 ^ t) := by
    intro t h2
    exact roAt_mem hrosk.1 (List.mem_map.2 ⟨t, List.mem_range.2 h2, rfl⟩)
  obtain ⟨commits, q, openings, h1, h2, h3⟩ := chain_passes_ros hg hM π c s ro hN h0 hidx h hrosk hrosv
  exact ⟨commits, q, openings, ros, h1, h2, hrosk, hrosv, h3⟩

/-- A query passes exactly if every committed value at the queried position is the fold of the pair above it plus the
reduced opening of that height, and the last fold is the final value; for a scheme that accepts. -/
theorem C83_passes_iff {gen : Nat → F} {N : Nat} (hg : TwoAdic gen N) {M : Mmcs F S C D P}
    (hM : ∀ q rows π c, M.verifyBatch q rows π c = some true) (π : P) (c : C) {cfg : Config} (s : Strategy F)
    (ro : Nat → Nat → F) {betas : List F} {idx : Nat} (hN : betas.length + cfg.logBlowup ≤ N) (h0 : betas ≠ [])
    (hidx : idx < 2 ^ (betas.length + cfg.logBlowup)) :
    s.Passes gen M cfg ro betas idx ↔
      Chain gen (Strategy.roBelow ro cfg.logBlowup) (s.word betas.length) (cfg.logBlowup + betas.length) betas idx := by
  refine ⟨Strategy.passes_chain hg hN, fun h => ?_⟩
  obtain ⟨commits, q, openings, ros, h1, h2, h3, h4, h5⟩ := chain_passes hg hM π c s ro hN h0 hidx h
  exact ⟨commits, q, openings, ros, h1, h2, h3, fun t _ => h4 t, h5⟩

/-! ### Soundness -/

section Sound

variable [Fintype F]

theorem passing_of_chain {gen : Nat → F} {N : Nat} (hg : TwoAdic gen N) (M : Mmcs F S C D P) (cfg : Config)
    (s : Strategy F) (ro : Nat → Nat → F) {r m : Nat} (hr : 0 < r) (hN : r + cfg.logBlowup ≤ N)
    (ok : Nat → Nat → Prop) (cost tot : Nat → Nat → Nat) (c : Nat) (hok : ∀ m r, ok m (r + 1) → ok (m / 2) r)
    (htot : ∀ m r, c * cost (m / 2) r + tot (m / 2) r ≤ tot m (r + 1))
    (hgap : ∀ m r, cfg.logBlowup + r ≤ N → ok m r → ∀ u0 u1 : Fin (2 ^ (cfg.logBlowup + r)) → F,
      LineGap (fun i : Fin (2 ^ (cfg.logBlowup + r)) => pointAt gen (cfg.logBlowup + r) i) (2 ^ r) m (cost m r) u0 u1)
    (hm : ok m r) :
    ∃ bad : Finset (Fin r → F), c * (Fintype.card F * bad.card) ≤ tot m r * Fintype.card F ^ r ∧
      ∀ v, v ∉ bad → ∀ A : Finset Nat, (∀ i ∈ A, i < 2 ^ (r + cfg.logBlowup)) →
        (∀ i ∈ A, s.Passes gen M cfg ro (List.ofFn v) i) → 2 ^ (r + cfg.logBlowup) ≤ A.card + m →
        ∃ p : F[X], p.degree < ((2 ^ r : Nat) : WithBot Nat) ∧
          ∀ i ∈ A, s.total ro r cfg.logBlowup i = p.eval (pointAt gen (r + cfg.logBlowup) i) := by
  rw [add_comm r] at hN ⊢
  obtain ⟨bad, hb, hbad⟩ := chain_close hg (Strategy.roBelow ro cfg.logBlowup) cfg.logBlowup ok cost tot c hok htot hgap
    r m (s.word r) hN hm (by
      intro bs hbs
      exact ⟨s.final bs, fun i => by unfold Strategy.word; rw [if_neg (by omega)]⟩)
  refine ⟨bad, hb, fun v hv A hA hp hc => ?_⟩
  obtain ⟨p, hp1, hp2⟩ := hbad v hv A hA hc (fun i hi => by
    have := Strategy.passes_chain hg (by simpa [add_comm] using hN) (hp i hi)
    simpa using this)
  exact ⟨p, hp1, fun i hi => by rw [← hp2 i hi, Strategy.total_eq s ro hr]⟩

theorem fin_point_inj {gen : Nat → F} {N : Nat} (hg : TwoAdic gen N) {h : Nat} (hN : h ≤ N) :
    Function.Injective fun i : Fin (2 ^ h) => pointAt gen h i :=
  fun i j hij => Fin.ext (pointAt_inj hg hN i.2 j.2 hij)

/-- **C83** Whatever words the prover commits to and however it reacts to the challenges: but for at most `m + r` of the
`|F|` values of a challenge (counted over all `r` challenges together), if all but `m` of the query indices pass, the
first word plus the reduced openings of the smaller heights agrees, at every index that passes, with one polynomial of
degree below `2^r`.  `m` is at most a third of the distance. -/
theorem C83_passing_is_low_degree {gen : Nat → F} {N : Nat} (hg : TwoAdic gen N) (M : Mmcs F S C D P) (cfg : Config)
    (s : Strategy F) (ro : Nat → Nat → F) {r m : Nat} (hr : 0 < r) (hN : r + cfg.logBlowup ≤ N)
    (hm : 3 * m + 2 ^ r ≤ 2 ^ (r + cfg.logBlowup)) :
    ∃ bad : Finset (Fin r → F), Fintype.card F * bad.card ≤ (m + r) * Fintype.card F ^ r ∧
      ∀ v, v ∉ bad → ∀ A : Finset Nat, (∀ i ∈ A, i < 2 ^ (r + cfg.logBlowup)) →
        (∀ i ∈ A, s.Passes gen M cfg ro (List.ofFn v) i) → 2 ^ (r + cfg.logBlowup) ≤ A.card + m →
        ∃ p : F[X], p.degree < ((2 ^ r : Nat) : WithBot Nat) ∧
          ∀ i ∈ A, s.total ro r cfg.logBlowup i = p.eval (pointAt gen (r + cfg.logBlowup) i) := by
  have h := passing_of_chain hg M cfg s ro (m := m) hr hN (fun m r => 3 * m + 2 ^ r ≤ 2 ^ (r + cfg.logBlowup))
    (fun m _ => m + 1) (fun m r => m + r) 1
    (by intro m r hm; rw [show r + 1 + cfg.logBlowup = (r + cfg.logBlowup) + 1 by omega, pow_succ, pow_succ] at hm; omega)
    (by intro m r; omega)
    (fun m r hN' hm' => line_close _ (fin_point_inj hg hN') (by rw [Fintype.card_fin, add_comm _ r]; exact hm')) hm
  simpa only [one_mul] using h

/-- **C83** The same for `m` up to half of the distance, for which no larger agreement determines the polynomial; the
bad challenges are now bounded by `m (m + 2^r) / 3 + r`. -/
theorem C83_passing_is_low_degree_half {gen : Nat → F} {N : Nat} (hg : TwoAdic gen N) (M : Mmcs F S C D P) (cfg : Config)
    (s : Strategy F) (ro : Nat → Nat → F) {r m : Nat} (hr : 0 < r) (hN : r + cfg.logBlowup ≤ N)
    (hm : 2 * m + 2 ^ r ≤ 2 ^ (r + cfg.logBlowup)) :
    ∃ bad : Finset (Fin r → F), 3 * (Fintype.card F * bad.card) ≤ (m * (m + 2 ^ r) + 3 * r) * Fintype.card F ^ r ∧
      ∀ v, v ∉ bad → ∀ A : Finset Nat, (∀ i ∈ A, i < 2 ^ (r + cfg.logBlowup)) →
        (∀ i ∈ A, s.Passes gen M cfg ro (List.ofFn v) i) → 2 ^ (r + cfg.logBlowup) ≤ A.card + m →
        ∃ p : F[X], p.degree < ((2 ^ r : Nat) : WithBot Nat) ∧
          ∀ i ∈ A, s.total ro r cfg.logBlowup i = p.eval (pointAt gen (r + cfg.logBlowup) i) :=
  passing_of_chain hg M cfg s ro (m := m) hr hN (fun m r => 2 * m + 2 ^ r ≤ 2 ^ (r + cfg.logBlowup))
    (fun m r => m * (m + 2 ^ r) + 1) (fun m r => m * (m + 2 ^ r) + 3 * r) 3
    (by intro m r hm; rw [show r + 1 + cfg.logBlowup = (r + cfg.logBlowup) + 1 by omega, pow_succ, pow_succ] at hm; omega)
    (by
      intro m r
      have h1 : 2 * (m / 2) ≤ m := by omega
      have h2 : 2 * (m / 2) * (2 * (m / 2) + 2 ^ (r + 1)) ≤ m * (m + 2 ^ (r + 1)) :=
        Nat.mul_le_mul h1 (by omega)
      rw [pow_succ] at h2 ⊢
      linarith)
    (fun m r hN' hm' => line_close_half _ (fin_point_inj hg hN') (by rw [Fintype.card_fin, add_comm _ r]; exact hm')
      (Nat.two_pow_pos r)) hm

theorem error_of_pred {gen : Nat → F} {cfg : Config} {r : Nat} (Pass : (Fin r → F) → Nat → Prop) (w : Nat → F)
    {m c t : Nat} (hc : 0 < c)
    (hm : m + 2 ^ r ≤ 2 ^ (r + cfg.logBlowup))
    (hpass : ∃ bad : Finset (Fin r → F), c * (Fintype.card F * bad.card) ≤ t * Fintype.card F ^ r ∧
      ∀ v, v ∉ bad → ∀ A : Finset Nat, (∀ i ∈ A, i < 2 ^ (r + cfg.logBlowup)) →
        (∀ i ∈ A, Pass v i) → 2 ^ (r + cfg.logBlowup) ≤ A.card + m →
        ∃ p : F[X], p.degree < ((2 ^ r : Nat) : WithBot Nat) ∧
          ∀ i ∈ A, w i = p.eval (pointAt gen (r + cfg.logBlowup) i))
    (hfar : ¬ CloseTo gen (r + cfg.logBlowup) (2 ^ r) m w) (Q : Nat) :
    (Set.ncard {x : (Fin r → F) × (Fin Q → Fin (2 ^ (r + cfg.logBlowup))) |
        ∀ k, Pass x.1 (x.2 k)} : ℚ) /
      (Fintype.card F ^ r * (2 ^ (r + cfg.logBlowup)) ^ Q) ≤
      t / (c * Fintype.card F) + (1 - (m + 1) / 2 ^ (r + cfg.logBlowup)) ^ Q := by
  classical
  obtain ⟨bad, hb, hbad⟩ := hpass
  generalize hh : r + cfg.logBlowup = h at *
  let A : (Fin r → F) → Finset (Fin (2 ^ h)) := fun v => univ.filter fun i => Pass v i
  have hA : ∀ v, v ∉ bad → (A v).card ≤ 2 ^ h - (m + 1) := by
    intro v hv
    by_contra hcon
    push Not at hcon
    apply hfar
    obtain ⟨p, hp, hpe⟩ := hbad v hv ((A v).image fun i : Fin (2 ^ h) => (i : Nat))
      (by intro i hi; obtain ⟨j, -, rfl⟩ := mem_image.1 hi; exact j.2)
      (by intro i hi; obtain ⟨j, hj, rfl⟩ := mem_image.1 hi; exact (mem_filter.1 hj).2)
      (by rw [card_image_of_injective _ Fin.val_injective]; omega)
    refine ⟨p, hp, ?_⟩
    have : ((A v).image fun i : Fin (2 ^ h) => (i : Nat)).card ≤ ((Finset.range (2 ^ h)).filter fun i =>
        w i = p.eval (pointAt gen h i)).card := by
      refine card_le_card fun i hi => ?_
      rw [mem_filter]
      refine ⟨?_, hpe i hi⟩
      obtain ⟨j, -, rfl⟩ := mem_image.1 hi
      exact mem_range.2 j.2
    rw [card_image_of_injective _ Fin.val_injective] at this
    omega
  let T : Finset ((Fin r → F) × (Fin Q → Fin (2 ^ h))) := bad ×ˢ univ ∪
    (univ \ bad).biUnion fun v => (Fintype.piFinset fun _ : Fin Q => A v).image (Prod.mk v)
  have hsub : {x : (Fin r → F) × (Fin Q → Fin (2 ^ h)) | ∀ k, Pass x.1 (x.2 k)} ⊆
      (T : Set _) := by
    rintro ⟨v, idx⟩ hx
    simp only [Set.mem_ofPred_eq] at hx
    rw [mem_coe, mem_union]
    by_cases hv : v ∈ bad
    · exact Or.inl (mem_product.2 ⟨hv, mem_univ _⟩)
    · refine Or.inr (mem_biUnion.2 ⟨v, by simp [hv], mem_image.2 ⟨idx, ?_, rfl⟩⟩)
      rw [Fintype.mem_piFinset]
      intro k
      exact mem_filter.2 ⟨mem_univ _, hx k⟩
  have hcard : Set.ncard {x : (Fin r → F) × (Fin Q → Fin (2 ^ h)) |
      ∀ k, Pass x.1 (x.2 k)} ≤
      bad.card * (2 ^ h) ^ Q + Fintype.card F ^ r * (2 ^ h - (m + 1)) ^ Q := by
    refine (Set.ncard_le_ncard hsub T.finite_toSet).trans ?_
    rw [Set.ncard_coe_finset]
    refine (card_union_le _ _).trans (Nat.add_le_add ?_ ?_)
    · rw [card_product, card_univ, Fintype.card_fun, Fintype.card_fin, Fintype.card_fin]
    · refine card_biUnion_le.trans ((sum_le_sum (g := fun _ => (2 ^ h - (m + 1)) ^ Q) fun v hv => ?_).trans ?_)
      · refine card_image_le.trans ?_
        rw [Fintype.card_piFinset_const]
        exact Nat.pow_le_pow_left (hA v (mem_sdiff.1 hv).2) _
      · rw [sum_const, smul_eq_mul]
        refine Nat.mul_le_mul_right _ ((card_le_univ _).trans ?_)
        rw [Fintype.card_fun, Fintype.card_fin]
  have hq : (0 : ℚ) < Fintype.card F := by exact_mod_cast Fintype.card_pos
  have h2 : (0 : ℚ) < 2 ^ h := by positivity
  rw [div_le_iff₀ (by positivity), add_mul]
  have hm1 : m + 1 ≤ 2 ^ h := by have := Nat.two_pow_pos r; omega
  have hcast : ((2 ^ h - (m + 1) : Nat) : ℚ) = 2 ^ h - (m + 1) := by rw [Nat.cast_sub hm1]; push_cast; ring
  calc (Set.ncard {x : (Fin r → F) × (Fin Q → Fin (2 ^ h)) |
      ∀ k, Pass x.1 (x.2 k)} : ℚ)
      ≤ bad.card * (2 ^ h) ^ Q + Fintype.card F ^ r * (2 ^ h - (m + 1)) ^ Q := by
        rw [← hcast]; exact_mod_cast hcard
    _ ≤ _ := by
      refine add_le_add ?_ (le_of_eq ?_)
      · rw [← mul_assoc]
        refine mul_le_mul_of_nonneg_right ?_ (by positivity)
        have hc' : (0 : ℚ) < c := by exact_mod_cast hc
        rw [div_mul_eq_mul_div, le_div_iff₀ (by positivity), mul_comm, mul_assoc]
        exact_mod_cast hb
      · rw [show (1 : ℚ) - (m + 1) / 2 ^ h = (2 ^ h - (m + 1)) / 2 ^ h by field_simp, div_pow]
        field_simp

theorem error_of_passing {gen : Nat → F} {cfg : Config} (M : Mmcs F S C D P)
    (s : Strategy F) (ro : Nat → Nat → F) {r m c t : Nat} (hc : 0 < c)
    (hm : m + 2 ^ r ≤ 2 ^ (r + cfg.logBlowup))
    (hpass : ∃ bad : Finset (Fin r → F), c * (Fintype.card F * bad.card) ≤ t * Fintype.card F ^ r ∧
      ∀ v, v ∉ bad → ∀ A : Finset Nat, (∀ i ∈ A, i < 2 ^ (r + cfg.logBlowup)) →
        (∀ i ∈ A, s.Passes gen M cfg ro (List.ofFn v) i) → 2 ^ (r + cfg.logBlowup) ≤ A.card + m →
        ∃ p : F[X], p.degree < ((2 ^ r : Nat) : WithBot Nat) ∧
          ∀ i ∈ A, s.total ro r cfg.logBlowup i = p.eval (pointAt gen (r + cfg.logBlowup) i))
    (hfar : ¬ CloseTo gen (r + cfg.logBlowup) (2 ^ r) m (s.total ro r cfg.logBlowup)) (Q : Nat) :
    (Set.ncard {x : (Fin r → F) × (Fin Q → Fin (2 ^ (r + cfg.logBlowup))) |
        ∀ k, s.Passes gen M cfg ro (List.ofFn x.1) (x.2 k)} : ℚ) /
      (Fintype.card F ^ r * (2 ^ (r + cfg.logBlowup)) ^ Q) ≤
      t / (c * Fintype.card F) + (1 - (m + 1) / 2 ^ (r + cfg.logBlowup)) ^ Q :=
  error_of_pred (fun v i => s.Passes gen M cfg ro (List.ofFn v) i) _ hc hm hpass hfar Q

/-- **C83** Soundness error of the folding rounds: if the first word plus the reduced openings of the smaller heights is
not within `m` positions of a polynomial of degree below `2^r`, then at most the stated part of all choices of `r`
challenges and `Q` query indices passes all queries. -/
theorem C83_soundness_error {gen : Nat → F} {N : Nat} (hg : TwoAdic gen N) (M : Mmcs F S C D P) (cfg : Config)
    (s : Strategy F) (ro : Nat → Nat → F) {r m : Nat} (hr : 0 < r) (hN : r + cfg.logBlowup ≤ N)
    (hm : 3 * m + 2 ^ r ≤ 2 ^ (r + cfg.logBlowup))
    (hfar : ¬ CloseTo gen (r + cfg.logBlowup) (2 ^ r) m (s.total ro r cfg.logBlowup)) (Q : Nat) :
    (Set.ncard {x : (Fin r → F) × (Fin Q → Fin (2 ^ (r + cfg.logBlowup))) |
        ∀ k, s.Passes gen M cfg ro (List.ofFn x.1) (x.2 k)} : ℚ) /
      (Fintype.card F ^ r * (2 ^ (r + cfg.logBlowup)) ^ Q) ≤
      (m + r) / Fintype.card F + (1 - (m + 1) / 2 ^ (r + cfg.logBlowup)) ^ Q := by
  have h := error_of_passing M s ro (c := 1) (t := m + r) (by omega) (by omega)
    (by simpa only [one_mul] using C83_passing_is_low_degree hg M cfg s ro hr hN hm) hfar Q
  simpa using h

/-- **C83** The same up to half of the distance. -/
theorem C83_soundness_error_half {gen : Nat → F} {N : Nat} (hg : TwoAdic gen N) (M : Mmcs F S C D P) (cfg : Config)
    (s : Strategy F) (ro : Nat → Nat → F) {r m : Nat} (hr : 0 < r) (hN : r + cfg.logBlowup ≤ N)
    (hm : 2 * m + 2 ^ r ≤ 2 ^ (r + cfg.logBlowup))
    (hfar : ¬ CloseTo gen (r + cfg.logBlowup) (2 ^ r) m (s.total ro r cfg.logBlowup)) (Q : Nat) :
    (Set.ncard {x : (Fin r → F) × (Fin Q → Fin (2 ^ (r + cfg.logBlowup))) |
        ∀ k, s.Passes gen M cfg ro (List.ofFn x.1) (x.2 k)} : ℚ) /
      (Fintype.card F ^ r * (2 ^ (r + cfg.logBlowup)) ^ Q) ≤
      (m * (m + 2 ^ r) + 3 * r) / (3 * Fintype.card F) + (1 - (m + 1) / 2 ^ (r + cfg.logBlowup)) ^ Q := by
  have h := error_of_passing M s ro (c := 3) (t := m * (m + 2 ^ r) + 3 * r) (by omega) (by omega)
    (C83_passing_is_low_degree_half hg M cfg s ro hr hN hm) hfar Q
  exact_mod_cast h

end Sound

/-! ### The hypotheses can be met -/

/-- The polynomial behind the word after some challenges, for a prover that follows the protocol: `q` are the
polynomials of the smaller heights. -/
noncomputable def honestPoly (q : Nat → F[X]) : (p : F[X]) → (h : Nat) → List F → F[X]
  | p, _, [] => p
  | p, h, β :: bs => honestPoly q (foldPoly β p + q (h - 1)) (h - 1) bs

/-- The prover that follows the protocol. -/
noncomputable def honestStrategy (gen : Nat → F) (q : Nat → F[X]) (p : F[X]) (h : Nat) : Strategy F where
  layer bs i := (honestPoly q p h bs).eval (pointAt gen (h - bs.length) i)
  final bs := (honestPoly q p h bs).eval 0

theorem honestPoly_snoc (q : Nat → F[X]) (β : F) : ∀ (bs : List F) (p : F[X]) (h : Nat),
    honestPoly q p h (bs ++ [β]) = foldPoly β (honestPoly q p h bs) + q (h - bs.length - 1)
  | [], p, h => by simp [honestPoly]
  | b :: bs, p, h => by
    rw [List.cons_append, honestPoly, honestPoly, honestPoly_snoc q β bs]
    simp only [List.length_cons]
    rw [show h - (bs.length + 1) - 1 = h - 1 - bs.length - 1 by omega]

theorem honestPoly_degree (q : Nat → F[X]) (b : Nat) (hq0 : q b = 0)
    (hq : ∀ h, b < h → (q h).natDegree < 2 ^ (h - b)) : ∀ (bs : List F) (p : F[X]) (h : Nat),
    b + bs.length ≤ h → p.natDegree < 2 ^ (h - b) → (honestPoly q p h bs).natDegree < 2 ^ (h - b - bs.length)
  | [], p, h, _, hp => by simpa [honestPoly] using hp
  | β :: bs, p, h, hh, hp => by
    simp only [List.length_cons] at hh ⊢
    rw [honestPoly, show h - b - (bs.length + 1) = h - 1 - b - bs.length by omega]
    refine honestPoly_degree q b hq0 hq bs _ _ (by omega) ?_
    rw [show h - b = (h - 1 - b) + 1 by omega, pow_succ'] at hp
    refine lt_of_le_of_lt (natDegree_add_le _ _) (max_lt (natDegree_foldPoly β hp) ?_)
    rcases Nat.lt_or_ge b (h - 1) with hb | hb
    · exact hq _ hb
    · rw [show h - 1 = b by omega, hq0]
      simp

/-- A prover that follows the protocol on polynomials of low degree passes at every index, for all challenges. -/
theorem C83_honest_passes {gen : Nat → F} {N : Nat} (hg : TwoAdic gen N) {M : Mmcs F S C D P}
    (hM : ∀ q rows π c, M.verifyBatch q rows π c = some true) (π : P) (c : C) {cfg : Config} (q : Nat → F[X]) (p : F[X])
    (hq0 : q cfg.logBlowup = 0) (hq : ∀ h, cfg.logBlowup < h → (q h).natDegree < 2 ^ (h - cfg.logBlowup))
    {betas : List F} (h0 : betas ≠ []) (hN : betas.length + cfg.logBlowup ≤ N) (hp : p.natDegree < 2 ^ betas.length)
    {idx : Nat} (hidx : idx < 2 ^ (betas.length + cfg.logBlowup)) :
    (honestStrategy gen q p (betas.length + cfg.logBlowup)).Passes gen M cfg
      (fun h i => (q h).eval (pointAt gen h i)) betas idx := by
  rw [C83_passes_iff hg hM π c _ _ hN h0 hidx]
  have hword : ∀ bs : List F, bs.length ≤ betas.length → ∀ i,
      (honestStrategy gen q p (betas.length + cfg.logBlowup)).word betas.length bs i =
        (honestPoly q p (betas.length + cfg.logBlowup) bs).eval
          (pointAt gen (betas.length + cfg.logBlowup - bs.length) i) := by
    intro bs hbs i
    unfold Strategy.word honestStrategy
    split
    case isTrue => rfl
    case isFalse hlt =>
      have hd := honestPoly_degree q cfg.logBlowup hq0 hq bs p (betas.length + cfg.logBlowup) (by omega)
        (by rwa [show betas.length + cfg.logBlowup - cfg.logBlowup = betas.length by omega])
      rw [show betas.length + cfg.logBlowup - cfg.logBlowup - bs.length = 0 by omega, pow_zero, Nat.lt_one_iff] at hd
      simp only
      rw [eq_C_of_natDegree_eq_zero hd, eval_C, eval_C]
  intro j hj
  have hl : (betas.take j).length = j := by rw [List.length_take]; omega
  have hl1 : (betas.take (j + 1)).length = j + 1 := by rw [List.length_take]; omega
  rw [hword _ (by omega), hword _ (by omega), hword _ (by omega), hl, hl1]
  have ht : betas.take (j + 1) = betas.take j ++ [betas.getD j 0] := by
    rw [List.take_succ_eq_append_getElem hj, List.getD_eq_getElem _ _ hj]
  rw [ht, honestPoly_snoc, hl, eval_add]
  obtain ⟨k, hk⟩ : ∃ k, betas.length + cfg.logBlowup - j = k + 1 := ⟨betas.length + cfg.logBlowup - j - 1, by omega⟩
  have hf := foldVal_poly hg (k := k) (by omega) (idx / 2 ^ (j + 1)) (betas.getD j 0)
    (honestPoly q p (betas.length + cfg.logBlowup) (betas.take j))
  rw [foldVal_line hg (by omega)] at hf
  rw [show betas.length + cfg.logBlowup - (j + 1) = k by omega,
    show cfg.logBlowup + betas.length - (j + 1) = k by omega,
    show cfg.logBlowup + betas.length - j = k + 1 by omega, hk, show k + 1 - 1 = k by omega]
  unfold pointAt
  rw [hf]
  congr 1
  unfold Strategy.roBelow
  split
  case isTrue hle => rw [show k = cfg.logBlowup by omega, hq0]; simp
  case isFalse => rfl

/-- A word of evaluations of a polynomial of too high a degree is far from low degree. -/
theorem C83_far_instance {gen : Nat → F} {N : Nat} (hg : TwoAdic gen N) {h d m : Nat} (hN : h ≤ N) (p : F[X])
    (hd : d ≤ p.natDegree) (hp : p ≠ 0) (hm : p.natDegree + m < 2 ^ h) :
    ¬ CloseTo gen h d m (fun i => p.eval (pointAt gen h i)) := by
  rintro ⟨c, hc, hcard⟩
  simp only at hcard
  have hcp : (p - c).natDegree ≤ p.natDegree := by
    refine (natDegree_sub_le _ _).trans (max_le le_rfl ?_)
    by_cases hc0 : c = 0
    · simp [hc0]
    · rw [degree_eq_natDegree hc0] at hc
      have : c.natDegree < d := by exact_mod_cast hc
      omega
  have hz : p - c = 0 := by
    refine eq_zero_of_natDegree_lt_card_of_eval_eq_zero' _ (((Finset.range (2 ^ h)).filter fun i =>
      p.eval (pointAt gen h i) = c.eval (pointAt gen h i)).image (pointAt gen h)) ?_ ?_
    · intro x hx
      obtain ⟨i, hi, rfl⟩ := mem_image.1 hx
      rw [eval_sub, (mem_filter.1 hi).2, sub_self]
    · rw [card_image_of_injOn]
      · omega
      · intro i hi j hj hij
        exact pointAt_inj hg hN (mem_range.1 (mem_filter.1 hi).1) (mem_range.1 (mem_filter.1 hj).1) hij
  rw [← sub_eq_zero.1 hz] at hc
  rw [degree_eq_natDegree hp] at hc
  have : p.natDegree < d := by exact_mod_cast hc
  omega

/-- A prover whose words cancel the reduced openings of the smaller heights. -/
def cancelStrategy (ro : Nat → Nat → F) (r b : Nat) : Strategy F where
  layer bs i := -∑ t ∈ Finset.Ico (bs.length + 1) r, ro (r + b - t) (i / 2 ^ (t - bs.length))
  final _ := 0

theorem cancelStrategy_passes {gen : Nat → F} {N : Nat} (hg : TwoAdic gen N) {M : Mmcs F S C D P}
    (hM : ∀ q rows π c, M.verifyBatch q rows π c = some true) (π : P) (c : C) {cfg : Config} (ro : Nat → Nat → F)
    (r : Nat) (h0 : 0 < r) (hN : r + cfg.logBlowup ≤ N) (betas : List F) (hr : betas.length = r) (idx : Nat)
    (hidx : idx < 2 ^ (r + cfg.logBlowup)) : (cancelStrategy ro r cfg.logBlowup).Passes gen M cfg ro betas idx := by
  subst hr
  rw [C83_passes_iff hg hM π c _ _ hN (by rintro rfl; simp at h0) hidx]
  have hword : ∀ bs : List F, bs.length ≤ betas.length → ∀ i,
      (cancelStrategy ro betas.length cfg.logBlowup).word betas.length bs i =
        -∑ t ∈ Finset.Ico (bs.length + 1) betas.length,
          ro (betas.length + cfg.logBlowup - t) (i / 2 ^ (t - bs.length)) := by
    intro bs hbs i
    unfold Strategy.word cancelStrategy
    split
    case isTrue => rfl
    case isFalse hlt => rw [Finset.Ico_eq_empty (by omega)]; simp
  intro j hj
  have hl : (betas.take j).length = j := by rw [List.length_take]; omega
  have hl1 : (betas.take (j + 1)).length = j + 1 := by rw [List.length_take]; omega
  rw [hword _ (by omega), hword _ (by omega), hword _ (by omega), hl, hl1]
  generalize idx / 2 ^ (j + 1) = i
  have hdiv : ∀ e, e < 2 → ∑ t ∈ Finset.Ico (j + 1) betas.length,
      ro (betas.length + cfg.logBlowup - t) ((2 * i + e) / 2 ^ (t - j)) =
      ∑ t ∈ Finset.Ico (j + 1) betas.length, ro (betas.length + cfg.logBlowup - t) (i / 2 ^ (t - (j + 1))) := by
    intro e he
    refine Finset.sum_congr rfl fun t ht => ?_
    have := Finset.mem_Ico.1 ht
    rw [show t - j = (t - (j + 1)) + 1 by omega, pow_succ', ← Nat.div_div_eq_div_mul]
    congr 2
    omega
  have h2 : (2 : F) ≠ 0 := hg.two_ne
  have hd0 := hdiv 0 (by decide)
  simp only [Nat.add_zero] at hd0
  rw [hd0, hdiv 1 (by decide)]
  generalize hS : ∑ t ∈ Finset.Ico (j + 1) betas.length,
    ro (betas.length + cfg.logBlowup - t) (i / 2 ^ (t - (j + 1))) = S
  have hline : ∀ x β : F, lineAt x β (-S) (-S) = -S := by
    intro x β
    unfold lineAt
    rw [sub_self, zero_div, mul_zero, add_zero, ← two_mul, mul_div_cancel_left₀ _ h2]
  rw [hline]
  rcases Nat.lt_or_ge (j + 1) betas.length with hlt | hge
  · rw [← hS, Finset.sum_eq_sum_Ico_succ_bot hlt]
    unfold Strategy.roBelow
    rw [if_neg (by omega), show cfg.logBlowup + betas.length - (j + 1) = betas.length + cfg.logBlowup - (j + 1) by omega]
    simp
  · rw [← hS, Finset.Ico_eq_empty (by omega), Finset.Ico_eq_empty (by omega)]
    unfold Strategy.roBelow
    rw [if_pos (by omega)]
    simp

/-- The queries do not bind the reduced openings at all: whatever they are at the smaller heights, a prover that commits
to words that cancel them passes at every index for all challenges, with openings of its committed words for every round.
(At the largest height nothing is compared with them in the first place.) -/
theorem C83_violated_inputs {gen : Nat → F} {N : Nat} (hg : TwoAdic gen N) {M : Mmcs F S C D P}
    (hM : ∀ q rows π c, M.verifyBatch q rows π c = some true) (π : P) (c : C) {cfg : Config} (ro : Nat → Nat → F)
    (r : Nat) (h0 : 0 < r) (hN : r + cfg.logBlowup ≤ N) :
    ∃ s : Strategy F, ∀ betas : List F, betas.length = r → ∀ idx, idx < 2 ^ (r + cfg.logBlowup) →
      s.Passes gen M cfg ro betas idx :=
  ⟨cancelStrategy ro r cfg.logBlowup, cancelStrategy_passes hg hM π c ro r h0 hN⟩

/-- With BabyBear, three rounds and blowup 8: a prover that commits to the evaluations of `X^20` and follows the protocol
otherwise passes `Q` queries for at most `21 / 2013265921 + (45/64)^Q` of the choices. -/
example (M : Mmcs BB S C D P) (Q : Nat) :
    (Set.ncard {x : (Fin 3 → BB) × (Fin Q → Fin (2 ^ (3 + 3))) |
        ∀ k, (honestStrategy bbGen 0 (X ^ 20) 6).Passes bbGen M ⟨3, Q, 1, true⟩ (fun _ _ => 0) (List.ofFn x.1) (x.2 k)} : ℚ) /
      (Fintype.card BB ^ 3 * (2 ^ (3 + 3)) ^ Q) ≤
      (18 + 3) / 2013265921 + (1 - (18 + 1) / 2 ^ (3 + 3)) ^ Q := by
  have h := C83_soundness_error bbGen_twoAdic M ⟨3, Q, 1, true⟩ (honestStrategy bbGen 0 (X ^ 20) 6) (fun _ _ => 0)
    (r := 3) (m := 18) (by decide) (by show 3 + 3 ≤ 27; decide) (by show 3 * 18 + 2 ^ 3 ≤ 2 ^ (3 + 3); decide) (by
      have hf := C83_far_instance bbGen_twoAdic (h := 6) (d := 8) (m := 18) (by decide) (X ^ 20 : BB[X])
        (by simp) (pow_ne_zero _ X_ne_zero) (by simp)
      have ht : (honestStrategy bbGen 0 (X ^ 20) 6).total (fun _ _ => 0) 3 3 =
          fun i => (X ^ 20 : BB[X]).eval (pointAt bbGen 6 i) := by
        funext i
        simp [Strategy.total, honestStrategy, honestPoly]
      rw [ht]
      exact hf) Q
  have hcard : (Fintype.card BB : ℚ) = 2013265921 := by rw [ZMod.card]; rfl
  rw [hcard] at h ⊢
  exact_mod_cast h

/-- The same prover with up to half of the distance. -/
example (M : Mmcs BB S C D P) (Q : Nat) :
    (Set.ncard {x : (Fin 3 → BB) × (Fin Q → Fin (2 ^ (3 + 3))) |
        ∀ k, (honestStrategy bbGen 0 (X ^ 20) 6).Passes bbGen M ⟨3, Q, 1, true⟩ (fun _ _ => 0) (List.ofFn x.1) (x.2 k)} : ℚ) /
      (Fintype.card BB ^ 3 * (2 ^ (3 + 3)) ^ Q) ≤
      (28 * (28 + 2 ^ 3) + 3 * 3) / (3 * 2013265921) + (1 - (28 + 1) / 2 ^ (3 + 3)) ^ Q := by
  have h := C83_soundness_error_half bbGen_twoAdic M ⟨3, Q, 1, true⟩ (honestStrategy bbGen 0 (X ^ 20) 6) (fun _ _ => 0)
    (r := 3) (m := 28) (by decide) (by show 3 + 3 ≤ 27; decide) (by show 2 * 28 + 2 ^ 3 ≤ 2 ^ (3 + 3); decide) (by
      have hf := C83_far_instance bbGen_twoAdic (h := 6) (d := 8) (m := 28) (by decide) (X ^ 20 : BB[X])
        (by simp) (pow_ne_zero _ X_ne_zero) (by simp)
      have ht : (honestStrategy bbGen 0 (X ^ 20) 6).total (fun _ _ => 0) 3 3 =
          fun i => (X ^ 20 : BB[X]).eval (pointAt bbGen 6 i) := by
        funext i
        simp [Strategy.total, honestStrategy, honestPoly]
      rw [ht]
      exact hf) Q
  have hcard : (Fintype.card BB : ℚ) = 2013265921 := by rw [ZMod.card]; rfl
  rw [hcard] at h ⊢
  exact_mod_cast h

end TapStark.Fri
