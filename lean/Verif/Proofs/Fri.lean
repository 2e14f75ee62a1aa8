import Verif.Spec.Fri
import Mathlib.Tactic.FieldSimp
import Mathlib.Tactic.Ring
import Mathlib.Tactic.LinearCombination

/-! Lemmas about bit reversal, two-adic generators and folding. -/

set_option linter.unusedSectionVars false

namespace TapStark.Fri

open Polynomial

variable {F : Type} [Field F] [DecidableEq F]

/-! ### Bit reversal -/

theorem revBits_lt : ∀ (k x : Nat), revBits k x < 2 ^ k
  | 0, _ => by simp [revBits]
  | k + 1, x => by
    have h := revBits_lt k (x / 2)
    have h2 : x % 2 < 2 := Nat.mod_lt _ (by omega)
    rw [revBits, pow_succ]
    nlinarith

theorem revBits_even (k i : Nat) : revBits (k + 1) (2 * i) = revBits k i := by
  simp [revBits]

theorem revBits_odd (k i : Nat) : revBits (k + 1) (2 * i + 1) = 2 ^ k + revBits k i := by
  have h1 : (2 * i + 1) % 2 = 1 := by omega
  have h2 : (2 * i + 1) / 2 = i := by omega
  simp [revBits, h1, h2]

/-- Bit reversal on fewer bits. -/
theorem revBits_extend (k j : Nat) : ∀ i, i < 2 ^ k → revBits (k + j) i = revBits k i * 2 ^ j := by
  induction k with
  | zero =>
    intro i hi
    obtain rfl : i = 0 := by simpa using hi
    have : ∀ n, revBits n 0 = 0 := by
      intro n
      induction n with
      | zero => rfl
      | succ n ih => simp [revBits, ih]
    simp [this]
  | succ k ih =>
    intro i hi
    rw [show k + 1 + j = (k + j) + 1 by omega, revBits, revBits, ih (i / 2) (by rw [pow_succ] at hi; omega)]
    rw [pow_add]
    ring

/-! ### Generators -/

section
variable {gen : Nat → F} {N : Nat} (h : TwoAdic gen N)
include h

theorem TwoAdic.pow {k : Nat} : ∀ {j : Nat}, k + j ≤ N → gen (k + j) ^ 2 ^ j = gen k
  | 0, _ => by simp
  | j + 1, hj => by
    rw [pow_succ', pow_mul, show k + (j + 1) = (k + j) + 1 by omega, h.sq _ (by omega)]
    exact TwoAdic.pow (by omega)

theorem TwoAdic.half {k : Nat} (hk : k + 1 ≤ N) : gen (k + 1) ^ 2 ^ k = -1 := by
  rw [← h.one, show k + 1 = 1 + k by omega]
  exact h.pow (by omega)

theorem TwoAdic.order {k : Nat} (hk : k ≤ N) : gen k ^ 2 ^ k = 1 := by
  have := h.pow (k := 0) (j := k) (by omega)
  rw [Nat.zero_add] at this
  rw [this, h.zero]

theorem TwoAdic.ne_zero {k : Nat} (hk : k ≤ N) : gen k ≠ 0 := by
  intro h0
  have := h.order hk
  rw [h0, zero_pow (by positivity)] at this
  exact zero_ne_one this

/-- The point behind the second entry of a pair is the negated point of the first. -/
theorem TwoAdic.point_odd {k : Nat} (hk : k + 1 ≤ N) (i : Nat) :
    gen (k + 1) ^ revBits (k + 1) (2 * i + 1) = -(gen (k + 1) ^ revBits k i) := by
  rw [revBits_odd, pow_add, h.half hk]; ring

theorem TwoAdic.point_sq {k : Nat} (hk : k + 1 ≤ N) (i : Nat) :
    (gen (k + 1) ^ revBits k i) ^ 2 = gen k ^ revBits k i := by
  rw [← pow_mul, mul_comm, pow_mul, h.sq k (by omega)]

/-- The point of a smaller subgroup at a truncated index. -/
theorem TwoAdic.point_extend {k j : Nat} (hk : k + j ≤ N) {i : Nat} (hi : i < 2 ^ k) :
    gen (k + j) ^ revBits (k + j) i = gen k ^ revBits k i := by
  rw [revBits_extend k j i hi, mul_comm, pow_mul, h.pow hk]

end

/-! ### Folding -/

/-- The folded value of a pair at row `i`. -/
def foldVal (gen : Nat → F) (k : Nat) (β : F) (i : Nat) (a b : F) : F :=
  (2⁻¹ + β * 2⁻¹ * (gen (k + 1))⁻¹ ^ revBits k i) * a +
    (2⁻¹ - β * 2⁻¹ * (gen (k + 1))⁻¹ ^ revBits k i) * b

theorem log2Strict_pow (k : Nat) : log2Strict (2 ^ k) = some k := by
  simp [log2Strict, Nat.log2_two_pow]

theorem revSlice_shifted (k : Nat) (x s : F) :
    revSlice k (shiftedPowers x s (2 ^ k)) = (List.range (2 ^ k)).map fun i => s * x ^ revBits k i := by
  unfold revSlice shiftedPowers
  simp only [List.length_map, List.length_range]
  apply List.map_congr_left
  intro i _
  rw [List.getD_eq_getElem?_getD, List.getElem?_map, List.getElem?_range (revBits_lt k i)]
  rfl

theorem mapM_some' {α β : Type} (f : α → β) : ∀ l : List α, (l.mapM fun x => some (f x)) = some (l.map f)
  | [] => rfl
  | x :: l => by
    rw [List.mapM_cons, mapM_some' f l]; rfl

theorem foldMatrix_range (gen : Nat → F) (k : Nat) (β : F) (a b : Nat → F) :
    foldMatrix gen β ((List.range (2 ^ k)).map fun i => [a i, b i]) =
      some ((List.range (2 ^ k)).map fun i => foldVal gen k β i (a i) (b i)) := by
  unfold foldMatrix
  simp only [List.length_map, List.length_range, log2Strict_pow, Option.bind_eq_bind,
    Option.bind_some, revSlice_shifted]
  rw [List.zip_map', List.mapM_map]
  exact mapM_some' _ _

theorem rows_eq_range {rows : List (List F)} {n : Nat} (hl : rows.length = n)
    (h2 : ∀ r ∈ rows, r.length = 2) :
    rows = (List.range n).map fun i => [(rows.getD i []).getD 0 0, (rows.getD i []).getD 1 0] := by
  apply List.ext_getElem (by simp [hl])
  intro i h1 _
  have := h2 rows[i] (List.getElem_mem h1)
  simp only [List.getElem_map, List.getElem_range]
  rw [List.getD_eq_getElem?_getD (l := rows), List.getElem?_eq_getElem h1]
  match hr : rows[i], this with
  | [x, y], _ => rfl

theorem foldRow_eq {gen : Nat → F} {N : Nat} (h : TwoAdic gen N) {k : Nat} (hk : k + 1 ≤ N) (i : Nat)
    (β a b : F) : foldRow gen i k β [a, b] = some (foldVal gen k β i a b) := by
  have hx : gen (k + 1) ^ revBits k i ≠ 0 := pow_ne_zero _ (h.ne_zero hk)
  have h2 := h.two_ne
  have hd : gen (k + 1) ^ revBits k i * gen 1 - gen (k + 1) ^ revBits k i =
      -(2 * gen (k + 1) ^ revBits k i) := by rw [h.one]; ring
  have hne : gen (k + 1) ^ revBits k i * gen 1 - gen (k + 1) ^ revBits k i ≠ 0 := by
    rw [hd]; exact neg_ne_zero.2 (mul_ne_zero h2 hx)
  unfold foldRow
  simp only [hne, if_false, Option.some.injEq]
  rw [hd, foldVal, inv_pow]
  field_simp
  ring

/-! ### Polynomials -/

theorem eval_split (p : F[X]) (x : F) :
    p.eval x = (contract 2 p).eval (x ^ 2) + x * (contract 2 p.divX).eval (x ^ 2) := by
  have key : p = expand F 2 (contract 2 p) + X * expand F 2 (contract 2 p.divX) := by
    ext n
    rw [coeff_add]
    rcases Nat.even_or_odd' n with ⟨m, rfl | rfl⟩
    · rw [coeff_expand (by omega), if_pos (by simp), Nat.mul_div_cancel_left _ (by omega),
        coeff_contract (by omega), mul_comm m 2]
      cases m with
      | zero => simp
      | succ m =>
        rw [show 2 * (m + 1) = (2 * m + 1) + 1 by ring, coeff_X_mul, coeff_expand (by omega),
          if_neg (by omega), add_zero]
    · rw [coeff_expand (by omega), if_neg (by omega), coeff_X_mul, coeff_expand (by omega),
        if_pos (by simp), Nat.mul_div_cancel_left _ (by omega), coeff_contract (by omega), coeff_divX,
        mul_comm m 2, zero_add]
  conv_lhs => rw [key]
  rw [eval_add, eval_mul, eval_X, expand_eval, expand_eval]

theorem natDegree_foldPoly {p : F[X]} {d : Nat} (β : F) (h : p.natDegree < 2 * d) :
    (foldPoly β p).natDegree < d := by
  have hd : 0 < d := by omega
  suffices (foldPoly β p).natDegree ≤ d - 1 by omega
  rw [natDegree_le_iff_coeff_eq_zero]
  intro n hn
  rw [foldPoly, coeff_add, coeff_C_mul, coeff_contract (by omega), coeff_contract (by omega), coeff_divX,
    coeff_eq_zero_of_natDegree_lt (by omega), coeff_eq_zero_of_natDegree_lt (by omega)]
  simp

theorem foldVal_poly {gen : Nat → F} {N : Nat} (h : TwoAdic gen N) {k : Nat} (hk : k + 1 ≤ N) (i : Nat)
    (β : F) (p : F[X]) :
    foldVal gen k β i (p.eval (gen (k + 1) ^ revBits (k + 1) (2 * i)))
      (p.eval (gen (k + 1) ^ revBits (k + 1) (2 * i + 1))) =
      (foldPoly β p).eval (gen k ^ revBits k i) := by
  have hx : gen (k + 1) ^ revBits k i ≠ 0 := pow_ne_zero _ (h.ne_zero hk)
  have h2 := h.two_ne
  rw [h.point_odd hk, revBits_even, eval_split p (gen (k + 1) ^ revBits k i),
    eval_split p (-(gen (k + 1) ^ revBits k i)), neg_sq, h.point_sq hk, foldVal, inv_pow, foldPoly,
    eval_add, eval_mul, eval_C]
  field_simp
  ring

/-! ### Vectors -/

theorem pairs_range (f : Nat → F) : ∀ n, ∀ g : Nat → Nat, 
    pairs ((List.range (2 * n)).map fun j => f (g j)) =
      some ((List.range n).map fun i => [f (g (2 * i)), f (g (2 * i + 1))])
  | 0, _ => rfl
  | n + 1, g => by
    have e : List.range (2 * (n + 1)) = 0 :: 1 :: (List.range (2 * n)).map (· + 2) := by
      rw [show 2 * (n + 1) = (2 * n + 1) + 1 by ring, List.range_succ_eq_map, List.range_succ_eq_map]
      simp [Function.comp_def]
    rw [e]
    simp only [List.map_cons, List.map_map, pairs]
    have := pairs_range f n (fun j => g (j + 2))
    simp only [Function.comp_def]
    rw [this]
    simp only [Option.map_some, Option.some.injEq]
    rw [List.range_succ_eq_map]
    simp only [List.map_cons, List.map_map, Function.comp_def, Nat.mul_zero, Nat.zero_add]
    rfl

theorem evalVec_length (gen : Nat → F) (h : Nat) (p : F[X]) : (evalVec gen h p).length = 2 ^ h := by
  simp [evalVec]

theorem pairs_evalVec (gen : Nat → F) (k : Nat) (p : F[X]) :
    pairs (evalVec gen (k + 1) p) = some ((List.range (2 ^ k)).map fun i =>
      [p.eval (gen (k + 1) ^ revBits (k + 1) (2 * i)),
        p.eval (gen (k + 1) ^ revBits (k + 1) (2 * i + 1))]) := by
  unfold evalVec
  rw [pow_succ']
  exact pairs_range (fun j => p.eval (gen (k + 1) ^ revBits (k + 1) j)) (2 ^ k) id

theorem foldMatrix_evalVec {gen : Nat → F} {N : Nat} (h : TwoAdic gen N) {k : Nat} (hk : k + 1 ≤ N)
    (β : F) (p : F[X]) :
    foldMatrix gen β ((List.range (2 ^ k)).map fun i =>
      [p.eval (gen (k + 1) ^ revBits (k + 1) (2 * i)),
        p.eval (gen (k + 1) ^ revBits (k + 1) (2 * i + 1))]) =
      some (evalVec gen k (foldPoly β p)) := by
  rw [foldMatrix_range gen k β (fun i => p.eval (gen (k + 1) ^ revBits (k + 1) (2 * i)))
    (fun i => p.eval (gen (k + 1) ^ revBits (k + 1) (2 * i + 1)))]
  unfold evalVec
  congr 1
  apply List.map_congr_left
  intro i _
  exact foldVal_poly h hk i β p

theorem evalVec_add (gen : Nat → F) (h : Nat) (p q : F[X]) :
    List.zipWith (· + ·) (evalVec gen h p) (evalVec gen h q) = evalVec gen h (p + q) := by
  unfold evalVec
  rw [List.zipWith_map, List.zipWith_self]
  apply List.map_congr_left
  intro i _
  rw [eval_add]

/-! ### The honest run -/

/-- The heights of the rounds, from the top. -/
def downList (b : Nat) : Nat → List Nat
  | 0 => []
  | m + 1 => (b + m) :: downList b m

theorem range_reverse_down (b : Nat) : ∀ m,
    (List.range (b + m)).reverse = downList b m ++ (List.range b).reverse
  | 0 => rfl
  | m + 1 => by
    rw [← Nat.add_assoc, List.range_succ, List.reverse_append, range_reverse_down b m]
    rfl

theorem zip_downList {α : Type} (b : Nat) (X : List Nat) : ∀ (m : Nat) (l : List α), l.length = m →
    (downList b m ++ X).zip l = (downList b m).zip l
  | 0, [], _ => by simp [downList]
  | m + 1, x :: l, h => by
    simp only [downList, List.cons_append, List.zip_cons_cons]
    rw [zip_downList b X m l (by simpa using h)]

theorem answerQuery_cons {S C D P : Type} (M : Mmcs F S C D P) (d : D) (ds : List D) (idx q : Nat) :
    answerQuery M (d :: ds) idx q = (M.openBatch q (idx / 2) d).bind fun o =>
      (answerQuery M ds (idx / 2) q).bind fun os => some (o :: os) := by
  unfold answerQuery
  rw [List.length_cons, List.range_succ_eq_map, List.zip_cons_cons, List.mapM_cons, List.zip_map_left,
    List.mapM_map]
  have hs : ∀ i, idx >>> (i + 1) >>> 1 = (idx / 2) >>> i >>> 1 := by
    intro i
    rw [Nat.add_comm, Nat.shiftRight_add, ← Nat.shiftRight_one idx]
  simp only [Function.comp_def, Prod.map_fst, Prod.map_snd, id, Nat.succ_eq_add_one, hs]
  rfl

theorem addInput_spec (gen : Nat → F) (b m : Nat) (Q : F[X]) (polys : List (Nat × F[X]))
    (hp : Inputs b (b + m + 1) polys) (hQ : Q.natDegree < 2 ^ m) :
    ∃ (P' : F[X]) (polys' : List (Nat × F[X])),
      addInput (evalVec gen (b + m) Q) (polys.map fun x => evalVec gen x.1 x.2) =
        (evalVec gen (b + m) P', polys'.map fun x => evalVec gen x.1 x.2) ∧
      P'.natDegree < 2 ^ m ∧ Inputs b (b + m) polys' ∧ (m = 0 → P' = Q) ∧
      ∀ (idx : Nat) (fe : F), fe = Q.eval (gen (b + m) ^ revBits (b + m) idx) →
        nextRo (b + m) fe (rosOf gen (b + m) idx polys) =
          (P'.eval (gen (b + m) ^ revBits (b + m) idx), rosOf gen (b + m) idx polys') := by
  obtain ⟨hs, hb⟩ := hp
  cases polys with
  | nil =>
    refine ⟨Q, [], rfl, hQ, ⟨List.Pairwise.nil, by simp⟩, fun _ => rfl, ?_⟩
    intro idx fe h
    simp [rosOf, nextRo, h]
  | cons x rest =>
    obtain ⟨hx, p⟩ := x
    rw [List.pairwise_cons] at hs
    have h0 := hb _ List.mem_cons_self
    simp only at h0
    by_cases he : hx = b + m
    · subst he
      refine ⟨Q + p, rest, ?_, ?_, ⟨hs.2, ?_⟩, fun h => by rw [h0.2.2.2 (by omega), add_zero], ?_⟩
      · simp only [List.map_cons, addInput]
        rw [if_pos (by simp [evalVec_length]), evalVec_add]
      · refine lt_of_le_of_lt (natDegree_add_le _ _) (max_lt hQ ?_)
        have := h0.2.2.1
        rwa [Nat.add_sub_cancel_left] at this
      · intro y hy
        have h1 := hb y (List.mem_cons_of_mem _ hy)
        have h2 := hs.1 y hy
        exact ⟨h1.1, h2, h1.2.2⟩
      · intro idx fe h
        simp only [rosOf, List.map_cons, nextRo]
        rw [if_pos trivial, h, Nat.sub_self, pow_zero, Nat.div_one, eval_add]
    · refine ⟨Q, (hx, p) :: rest, ?_, hQ, ⟨by rw [List.pairwise_cons]; exact hs, ?_⟩, fun _ => rfl, ?_⟩
      · simp only [List.map_cons, addInput]
        rw [if_neg]
        simp only [evalVec_length]
        intro h
        exact he (Nat.pow_right_injective (le_refl 2) h)
      · intro y hy
        have h1 := hb y hy
        refine ⟨h1.1, ?_, h1.2.2⟩
        rcases List.mem_cons.1 hy with rfl | hy
        · simp only; omega
        · have := hs.1 y hy; simp only at this; omega
      · intro idx fe h
        simp only [rosOf, List.map_cons, nextRo]
        rw [if_neg he, h]

theorem commitLoop_query {gen : Nat → F} {N : Nat} (hg : TwoAdic gen N) {S C D P Ch W : Type}
    {M : Mmcs F S C D P} {K : Chall Ch C F W} {cfg : Config} {Q : Nat} (hM : M.Honest Q N)
    (hb : 1 ≤ cfg.logBlowup) : ∀ (m : Nat) (s : S) (ch : Ch) (p : F[X]) (polys : List (Nat × F[X]))
      (fuel : Nat) (r : CommitResult F C D S Ch), cfg.logBlowup + m ≤ N → p.natDegree < 2 ^ m → m < fuel →
      Inputs cfg.logBlowup (cfg.logBlowup + m) polys →
      commitLoop gen M K cfg fuel s ch (evalVec gen (cfg.logBlowup + m) p)
        (polys.map fun x => evalVec gen x.1 x.2) = some r →
      r.commits.length = m ∧ ∃ betas, sampleBetas K r.commits ch = some (betas, r.chall) ∧
        betas.length = m ∧
        ∀ q idx logMax fe ros, q < Q → idx < 2 ^ (cfg.logBlowup + m) → cfg.logBlowup + m ≤ logMax →
          (nextRo (cfg.logBlowup + m) fe ros).2 = rosOf gen (cfg.logBlowup + m) idx polys →
          (cfg.logBlowup + m < logMax → (nextRo (cfg.logBlowup + m) fe ros).1 =
            p.eval (gen (cfg.logBlowup + m) ^ revBits (cfg.logBlowup + m) idx)) →
          (m = 0 → fe = p.eval (gen cfg.logBlowup ^ revBits cfg.logBlowup idx)) →
          ∃ openings, answerQuery M r.data idx q = some openings ∧ openings.length = m ∧
            queryLoop gen M q logMax
              ((downList cfg.logBlowup m).zip (r.commits.zip (openings.zip betas))) idx fe ros =
              .ok (r.finalPoly, idx / 2 ^ m) := by
  set b := cfg.logBlowup with hbdef
  intro m
  induction m with
  | zero =>
    intro s ch p polys fuel r hN hd hf hin h
    obtain ⟨fuel, rfl⟩ : ∃ f, fuel = f + 1 := ⟨fuel - 1, by omega⟩
    rw [commitLoop, if_neg (by rw [evalVec_length, Config.blowup, ← hbdef]; simp)] at h
    unfold commitEnd at h
    rw [if_pos (by rw [evalVec_length, Config.blowup, ← hbdef]; simp)] at h
    simp only [Option.bind_eq_bind, Option.bind_eq_some_iff] at h
    obtain ⟨f, hf0, h⟩ := h
    split at h
    case isFalse => cases h
    case isTrue hall =>
      obtain rfl := Option.some.inj h
      refine ⟨rfl, [], rfl, rfl, ?_⟩
      intro q idx logMax fe ros hq hidx hl h1 h2 h3
      refine ⟨[], rfl, rfl, ?_⟩
      simp only [downList, List.zip_nil_left, queryLoop, Nat.pow_zero, Nat.div_one]
      rw [h3 rfl]
      have hmem : p.eval (gen b ^ revBits b idx) ∈ evalVec gen (b + 0) p := by
        unfold evalVec
        exact List.mem_map.2 ⟨idx, List.mem_range.2 hidx, rfl⟩
      have := List.all_eq_true.1 hall _ hmem
      rw [of_decide_eq_true this]
  | succ m ih =>
    intro s ch p polys fuel r hN hd hf hin h
    obtain ⟨fuel, rfl⟩ : ∃ f, fuel = f + 1 := ⟨fuel - 1, by omega⟩
    rw [commitLoop, if_pos (by
      rw [evalVec_length, Config.blowup, ← hbdef]
      exact Nat.pow_lt_pow_right (by omega) (by omega))] at h
    rw [← Nat.add_assoc] at h hN
    rw [pairs_evalVec] at h
    set rows := (List.range (2 ^ (b + m))).map fun i =>
      [p.eval (gen (b + m + 1) ^ revBits (b + m + 1) (2 * i)),
        p.eval (gen (b + m + 1) ^ revBits (b + m + 1) (2 * i + 1))] with hrows
    have hrl : rows.length = 2 ^ (b + m) := by simp [hrows]
    obtain ⟨c, d, s', hc, hgm, hop⟩ := hM s (b + m) rows (by omega) (by omega) hrl (by
      intro r hr
      obtain ⟨i, -, rfl⟩ := List.mem_map.1 hr
      rfl)
    simp only [Option.bind_eq_bind, Option.bind_some, hc, hgm] at h
    rw [Option.bind_eq_some_iff] at h
    obtain ⟨ch1, ho, h⟩ := h
    rw [Option.bind_eq_some_iff] at h
    obtain ⟨⟨β, ch2⟩, hsam, h⟩ := h
    simp only at h
    rw [hrows, foldMatrix_evalVec hg hN, Option.bind_some, Option.bind_eq_some_iff] at h
    obtain ⟨r', hr', h⟩ := h
    obtain rfl := Option.some.inj h
    have hdeg := natDegree_foldPoly β (d := 2 ^ m) (by rwa [← pow_succ'])
    obtain ⟨P', polys', ha, hP', hin', hz, hro⟩ := addInput_spec gen b m (foldPoly β p) polys hin hdeg
    rw [ha] at hr'
    obtain ⟨i1, betas, i2, i3, i4⟩ := ih s' ch2 P' polys' fuel r' (by omega) hP' (by omega) hin' hr'
    refine ⟨by simp [i1], β :: betas, by simp [sampleBetas, ho, hsam, i2], by simp [i3], ?_⟩
    intro q idx logMax fe ros hq hidx hl h1 h2 h3
    rw [← Nat.add_assoc] at h1 h2 hl
    have hidx2 : idx / 2 < 2 ^ (b + m) := by
      rw [← Nat.add_assoc, pow_succ] at hidx; omega
    obtain ⟨π, ho1, ho2⟩ := hop q (idx / 2) hq (by omega)
    have hrow : rows[idx / 2]'(by omega) =
        [p.eval (gen (b + m + 1) ^ revBits (b + m + 1) (2 * (idx / 2))),
        p.eval (gen (b + m + 1) ^ revBits (b + m + 1) (2 * (idx / 2) + 1))] := by
      simp [hrows]
    rw [hrow] at ho1 ho2
    have hros : rosOf gen (b + m + 1) idx polys = rosOf gen (b + m) (idx / 2) polys := by
      unfold rosOf
      apply List.map_congr_left
      intro x hx
      have := hin.2 x hx
      simp only [Prod.mk.injEq, true_and]
      rw [Nat.div_div_eq_div_mul, show b + m + 1 - x.1 = (b + m - x.1) + 1 by omega, pow_succ']
    have hfold := foldVal_poly hg hN (idx / 2) β p
    obtain ⟨openings, j1, j2, j3⟩ := i4 q (idx / 2) logMax
      ((foldPoly β p).eval (gen (b + m) ^ revBits (b + m) (idx / 2)))
      (rosOf gen (b + m) (idx / 2) polys) hq hidx2 (by omega)
      (by rw [hro _ _ rfl]) (by intro _; rw [hro _ _ rfl])
      (by intro hm; subst hm; rw [hz rfl]; rfl)
    refine ⟨(_, π) :: openings, by rw [answerQuery_cons, ho1, Option.bind_some, j1]; rfl, by simp [j2], ?_⟩
    simp only [downList, List.zip_cons_cons]
    rw [queryLoop]
    rw [show nextRo (b + m + 1) fe ros = ((nextRo (b + m + 1) fe ros).1, (nextRo (b + m + 1) fe ros).2)
      from rfl]
    have hcom : [p.eval (gen (b + m + 1) ^ revBits (b + m + 1) (2 * (idx / 2))),
        p.eval (gen (b + m + 1) ^ revBits (b + m + 1) (2 * (idx / 2) + 1))][idx % 2]? =
        some (p.eval (gen (b + m + 1) ^ revBits (b + m + 1) idx)) := by
      rcases Nat.mod_two_eq_zero_or_one idx with h0 | h0
      · have : 2 * (idx / 2) = idx := by omega
        rw [h0, this]; rfl
      · have : 2 * (idx / 2) + 1 = idx := by omega
        rw [h0, this]; rfl
    have hnp : ¬ (b + m < logMax - 1 ∧ (nextRo (b + m + 1) fe ros).1 ≠
        p.eval (gen (b + m + 1) ^ revBits (b + m + 1) idx)) := by
      rintro ⟨g1, g2⟩
      exact g2 (h2 (by omega))
    simp only [List.length_singleton, if_true, List.getElem?_cons_zero, Res.ofOption_some, Res.bind_ok,
      hcom, hnp, if_false, ho2]
    rw [foldRow_eq hg hN, hfold]
    simp only [Res.ofOption_some, Res.bind_ok]
    rw [h1, hros, j3, Nat.div_div_eq_div_mul, pow_succ']

/-- With a challenger that never panics the commit phase of honest inputs succeeds. -/
theorem commitLoop_total {gen : Nat → F} {N : Nat} (hg : TwoAdic gen N) {S C D P Ch W : Type}
    {M : Mmcs F S C D P} {K : Chall Ch C F W} {cfg : Config} {Q : Nat} (hM : M.Honest Q N)
    (hb : 1 ≤ cfg.logBlowup) {Good : Ch → Prop} (hK : K.Total Good N) :
    ∀ (m : Nat) (s : S) (ch : Ch) (p : F[X]) (polys : List (Nat × F[X]))
      (fuel : Nat), Good ch → cfg.logBlowup + m ≤ N → p.natDegree < 2 ^ m → m < fuel →
      Inputs cfg.logBlowup (cfg.logBlowup + m) polys →
      ∃ r, commitLoop gen M K cfg fuel s ch (evalVec gen (cfg.logBlowup + m) p)
        (polys.map fun x => evalVec gen x.1 x.2) = some r ∧ Good r.chall := by
  set b := cfg.logBlowup with hbdef
  intro m
  induction m with
  | zero =>
    intro s ch p polys fuel hgd hN hd hf hin
    obtain ⟨fuel, rfl⟩ : ∃ f, fuel = f + 1 := ⟨fuel - 1, by omega⟩
    rw [commitLoop, if_neg (by rw [evalVec_length, Config.blowup, ← hbdef]; simp)]
    unfold commitEnd
    rw [if_pos (by rw [evalVec_length, Config.blowup, ← hbdef]; simp)]
    obtain ⟨a, rfl⟩ : ∃ a, p = Polynomial.C a := ⟨p.coeff 0, eq_C_of_natDegree_eq_zero (by simpa using hd)⟩
    have hv : evalVec gen (b + 0) (Polynomial.C a) = List.replicate (2 ^ b) a := by
      unfold evalVec
      simp only [eval_C, Nat.add_zero]
      rw [List.map_const', List.length_range]
    rw [hv]
    have h0 : (List.replicate (2 ^ b) a)[0]? = some a := by
      rw [List.getElem?_replicate, if_pos (Nat.two_pow_pos b)]
    rw [h0]
    simp [hgd]
  | succ m ih =>
    intro s ch p polys fuel hgd hN hd hf hin
    obtain ⟨fuel, rfl⟩ : ∃ f, fuel = f + 1 := ⟨fuel - 1, by omega⟩
    rw [commitLoop, if_pos (by
      rw [evalVec_length, Config.blowup, ← hbdef]
      exact Nat.pow_lt_pow_right (by omega) (by omega))]
    rw [← Nat.add_assoc] at hN
    rw [← Nat.add_assoc, pairs_evalVec]
    set rows := (List.range (2 ^ (b + m))).map fun i =>
      [p.eval (gen (b + m + 1) ^ revBits (b + m + 1) (2 * i)),
        p.eval (gen (b + m + 1) ^ revBits (b + m + 1) (2 * i + 1))] with hrows
    have hrl : rows.length = 2 ^ (b + m) := by simp [hrows]
    obtain ⟨c, d, s', hc, hgm, hop⟩ := hM s (b + m) rows (by omega) (by omega) hrl (by
      intro r hr
      obtain ⟨i, -, rfl⟩ := List.mem_map.1 hr
      rfl)
    obtain ⟨ch1, hc1, hg1⟩ := hK.observe ch c hgd
    obtain ⟨β, ch2, hc2, hg2⟩ := hK.sample ch1 hg1
    simp only [Option.bind_eq_bind, Option.bind_some, hc, hgm, hc1, hc2]
    rw [hrows, foldMatrix_evalVec hg hN, Option.bind_some]
    have hdeg := natDegree_foldPoly β (d := 2 ^ m) (by rwa [← pow_succ'])
    obtain ⟨P', polys', ha, hP', hin', -, -⟩ := addInput_spec gen b m (foldPoly β p) polys hin hdeg
    rw [ha]
    obtain ⟨r, hr, hgr⟩ := ih s' ch2 P' polys' fuel hg2 (by omega) hP' (by omega) hin'
    rw [hr, Option.bind_some]
    exact ⟨_, rfl, hgr⟩

/-- Every commitment of the commit phase comes from the commitment scheme. -/
theorem commitLoop_commits {gen : Nat → F} {S C D P Ch W : Type} {M : Mmcs F S C D P} {K : Chall Ch C F W} {cfg : Config}
    {Q : C → Prop} (hQ : ∀ s rows c d s', M.commitMatrix s rows = some (c, d, s') → Q c) :
    ∀ (fuel : Nat) (s : S) (ch : Ch) (v : List F) (inputs : List (List F)) (r : CommitResult F C D S Ch),
      commitLoop gen M K cfg fuel s ch v inputs = some r → ∀ c ∈ r.commits, Q c := by
  intro fuel
  induction fuel with
  | zero => intro s ch v inputs r h; cases h
  | succ fuel ih =>
    intro s ch v inputs r h
    rw [commitLoop] at h
    split at h
    · simp only [Option.bind_eq_bind, Option.bind_eq_some_iff, Prod.exists] at h
      obtain ⟨leaves, -, commit, d, s', h1, ch1, -, beta, ch2, -, leaves', -, folded, -, r', h2, h3⟩ := h
      have h3 := Option.some.inj h3
      subst h3
      intro c hc
      rcases List.mem_cons.mp hc with rfl | hc
      · exact hQ _ _ _ _ _ h1
      · exact ih _ _ _ _ _ h2 c hc
    · unfold commitEnd at h
      intro c hc
      split at h
      · simp only [Option.bind_eq_bind, Option.bind_eq_some_iff] at h
        obtain ⟨fp, -, h⟩ := h
        split at h
        · have h := Option.some.inj h
          subst h
          cases hc
        · cases h
      · cases h

/-! ### Acceptance -/

theorem Res.bind_eq_ok {α β : Type} {x : Res α} {f : α → Res β} {y : β} :
    (x >>= f) = .ok y ↔ ∃ a, x = .ok a ∧ f a = .ok y := by
  cases x with
  | ok a => simp
  | err e => simp
  | panic => simp

theorem Res.ofOption_eq_ok {α : Type} {x : Option α} {a : α} : Res.ofOption x = .ok a ↔ x = some a := by
  cases x with
  | none => simp
  | some y => simp

theorem foldVal_line {gen : Nat → F} {N : Nat} (h : TwoAdic gen N) {k : Nat} (hk : k + 1 ≤ N) (i : Nat)
    (β a b : F) : foldVal gen k β i a b = lineAt (gen (k + 1) ^ revBits k i) β a b := by
  have hx : gen (k + 1) ^ revBits k i ≠ 0 := pow_ne_zero _ (h.ne_zero hk)
  have h2 := h.two_ne
  unfold foldVal lineAt
  rw [inv_pow]
  field_simp
  ring

theorem foldRow_some {gen : Nat → F} {N : Nat} (h : TwoAdic gen N) {k : Nat} (hk : k + 1 ≤ N) {i : Nat}
    {β v : F} {row : List F} (hr : foldRow gen i k β row = some v) :
    ∃ a b, row = [a, b] ∧ v = lineAt (gen (k + 1) ^ revBits k i) β a b := by
  match row, hr with
  | [], hr => cases hr
  | [_], hr => cases hr
  | [a, b], hr =>
    rw [foldRow_eq h hk, foldVal_line h hk] at hr
    exact ⟨a, b, rfl, (Option.some.inj hr).symm⟩
  | _ :: _ :: _ :: _, hr => cases hr

theorem nextRo_spec {ros : List (Nat × F)} {h : Nat} (hr : RosOk ros h) (fe : F) :
    (nextRo h fe ros).1 = fe + roAt ros h ∧ RosOk (nextRo h fe ros).2 (h - 1) ∧
      ∀ h', h' < h → roAt (nextRo h fe ros).2 h' = roAt ros h' := by
  obtain ⟨h1, h2⟩ := hr
  have hz : ∀ l : List (Nat × F), (∀ x ∈ l, x.1 < h) → roAt l h = 0 := by
    intro l hl
    unfold roAt
    rw [List.filter_eq_nil_iff.2 (by intro x hx; have := hl x hx; simp; omega)]
    rfl
  cases ros with
  | nil => exact ⟨by simp [nextRo, roAt], ⟨by simp [nextRo], by simp [nextRo]⟩, fun _ _ => rfl⟩
  | cons x rest =>
    obtain ⟨lh, ro⟩ := x
    rw [List.pairwise_cons] at h1
    have hle := h2 _ List.mem_cons_self
    simp only at hle
    by_cases he : lh = h
    · subst he
      have hn : nextRo lh fe ((lh, ro) :: rest) = (fe + ro, rest) := by simp [nextRo]
      rw [hn]
      refine ⟨?_, ⟨h1.2, ?_⟩, ?_⟩
      · unfold roAt
        rw [List.filter_cons, if_pos (by simp), List.map_cons, List.sum_cons]
        have := hz rest (fun x hx => h1.1 x hx)
        unfold roAt at this
        rw [this, add_zero]
      · intro y hy
        have := h1.1 y hy
        simp only at this
        omega
      · intro h' hh
        unfold roAt
        rw [List.filter_cons, if_neg (by simp; omega)]
    · have hn : nextRo h fe ((lh, ro) :: rest) = (fe, (lh, ro) :: rest) := by simp [nextRo, he]
      rw [hn]
      have hall : ∀ y ∈ (lh, ro) :: rest, y.1 < h := by
        intro y hy
        rcases List.mem_cons.1 hy with rfl | hy
        · simp only; omega
        · have := h1.1 y hy
          simp only at this
          omega
      refine ⟨by rw [hz _ hall, add_zero], ⟨List.pairwise_cons.2 h1, ?_⟩, fun _ _ => rfl⟩
      intro y hy
      have := hall y hy
      omega

/-- Everything a successful query loop has checked. -/
theorem queryLoop_ok {gen : Nat → F} {N : Nat} (hg : TwoAdic gen N) {S C D P : Type}
    {M : Mmcs F S C D P} {q logMax b : Nat} :
    ∀ (n : Nat) (commits : List C) (openings : List (List (List F) × P)) (betas : List F)
      (idx : Nat) (fe : F) (ros : List (Nat × F)) (v : F) (idx' : Nat),
      commits.length = n → openings.length = n → betas.length = n → b + n ≤ N → b + n ≤ logMax →
      RosOk ros (b + n) →
      queryLoop gen M q logMax ((downList b n).zip (commits.zip (openings.zip betas))) idx fe ros =
        .ok (v, idx') →
      idx' = idx / 2 ^ n ∧ ∃ x y : Nat → F,
        (∀ j, j < n → ∃ o ∈ openings[j]?, ∃ c ∈ commits[j]?, o.1 = [[x j, y j]] ∧
          M.verifyBatch q [[x j, y j]] o.2 c = some true) ∧
        (0 < n → b + n < logMax →
          (if idx % 2 = 0 then x 0 else y 0) = fe + roAt ros (b + n)) ∧
        (∀ j, j + 1 < n → (if idx / 2 ^ (j + 1) % 2 = 0 then x (j + 1) else y (j + 1)) =
          lineAt (gen (b + n - j) ^ revBits (b + n - j - 1) (idx / 2 ^ (j + 1))) (betas.getD j 0)
            (x j) (y j) + roAt ros (b + n - (j + 1))) ∧
        (n = 0 → v = fe) ∧
        (∀ j, j + 1 = n → v =
          lineAt (gen (b + n - j) ^ revBits (b + n - j - 1) (idx / 2 ^ n)) (betas.getD j 0)
            (x j) (y j)) := by
  intro n
  induction n with
  | zero =>
    intro commits openings betas idx fe ros v idx' hc ho hb hN hl hr h
    simp only [downList, List.zip_nil_left, queryLoop, Res.ok.injEq, Prod.mk.injEq] at h
    obtain ⟨rfl, rfl⟩ := h
    refine ⟨by simp, fun _ => 0, fun _ => 0, by simp, by simp, by simp, fun _ => rfl, by simp⟩
  | succ n ih =>
    intro commits openings betas idx fe ros v idx' hc ho hb hN hl hr h
    match commits, openings, betas, hc, ho, hb with
    | c :: commits, (rows, π) :: openings, β :: betas, hc, ho, hb =>
      simp only [downList, List.zip_cons_cons] at h
      rw [queryLoop] at h
      rw [← Nat.add_assoc] at hr hN hl
      obtain ⟨r1, r2, r3⟩ := nextRo_spec hr fe
      generalize hnr : nextRo (b + n + 1) fe ros = nr at h r1 r2 r3
      obtain ⟨fe1, ros1⟩ := nr
      simp only at h r1 r2 r3
      split at h
      case isFalse => cases h
      case isTrue hlen =>
        rw [Res.bind_eq_ok] at h
        obtain ⟨row, hrow, h⟩ := h
        rw [Res.ofOption_eq_ok] at hrow
        rw [Res.bind_eq_ok] at h
        obtain ⟨com, hcom, h⟩ := h
        rw [Res.ofOption_eq_ok] at hcom
        split at h
        case isTrue => cases h
        case isFalse hne =>
          rw [Res.bind_eq_ok] at h
          obtain ⟨acc, hacc, h⟩ := h
          rw [Res.ofOption_eq_ok] at hacc
          split at h
          case isFalse => cases h
          case isTrue hat =>
            rw [Res.bind_eq_ok] at h
            obtain ⟨fe2, hfold, h⟩ := h
            rw [Res.ofOption_eq_ok] at hfold
            obtain ⟨a, b', rfl, hv⟩ := foldRow_some hg hN hfold
            have hrows : rows = [[a, b']] := by
              match rows, hlen, hrow with
              | [r], _, hrow => simpa using hrow
            subst hrows
            obtain ⟨i1, x, y, i2, i3, i4, i5, i6⟩ := ih commits openings betas (idx / 2) fe2 ros1 v idx'
              (by simpa using hc) (by simpa using ho) (by simpa using hb) (by omega) (by omega)
              (by simpa using r2) h
            have hdd : ∀ j, idx / 2 / 2 ^ j = idx / 2 ^ (j + 1) := by
              intro j; rw [Nat.div_div_eq_div_mul, pow_succ']
            refine ⟨by rw [i1, hdd], fun j => if j = 0 then a else x (j - 1),
              fun j => if j = 0 then b' else y (j - 1), ?_, ?_, ?_, by simp, ?_⟩
            · intro j hj
              cases j with
              | zero => exact ⟨_, rfl, _, rfl, rfl, by simpa [hat] using hacc⟩
              | succ j => simpa using i2 j (by omega)
            · intro _ hlt
              have : fe1 = com := by
                by_contra hcon
                exact hne ⟨by omega, hcon⟩
              rw [← Nat.add_assoc, ← r1, this]
              rcases Nat.mod_two_eq_zero_or_one idx with h0 | h0 <;> rw [h0] at hcom ⊢ <;>
                simpa using hcom
            · intro j hj
              cases j with
              | zero =>
                have h3 := i3 (by omega) (by omega)
                simp only [zero_add, pow_one, Nat.sub_zero, List.getD_cons_zero, one_ne_zero, if_false,
                  if_true, Nat.sub_self]
                rw [h3, hv, r3 (b + n) (by omega)]
                rfl
              | succ j =>
                have h4 := i4 j (by omega)
                simp only [hdd, Nat.succ_ne_zero, if_false, Nat.add_sub_cancel, List.getD_cons_succ] at h4 ⊢
                rw [h4, r3 _ (by omega), show b + (n + 1) - (j + 1) = b + n - j by omega,
                  show b + (n + 1) - (j + 1 + 1) = b + n - (j + 1) by omega]
            · intro j hj
              obtain rfl : j = n := by omega
              cases j with
              | zero =>
                rw [i5 rfl, hv]
                simp
              | succ j =>
                have h6 := i6 j rfl
                simp only [hdd, Nat.succ_ne_zero, if_false, Nat.add_sub_cancel, List.getD_cons_succ] at h6 ⊢
                rw [h6, show b + (j + 1 + 1) - (j + 1) = b + (j + 1) - j by omega]

/-- Two lists of reduced openings that differ at most in the value at height `top`. -/
theorem queryLoop_top {gen : Nat → F} {S C D P : Type} {M : Mmcs F S C D P} (q top idx : Nat)
    (fe fe' x y : F) (rest : List (Nat × F)) (rounds : List (Nat × C × (List (List F) × P) × F))
    (h : ∀ r ∈ rounds.head?, r.1 + 1 = top) :
    (rounds = [] → fe = fe') →
    queryLoop gen M q top rounds idx fe ((top, x) :: rest) =
      queryLoop gen M q top rounds idx fe' ((top, y) :: rest) := by
  intro he
  match rounds, h with
  | [], _ => simp [queryLoop, he rfl]
  | (k, c, step, β) :: rounds, h =>
    have hk : k + 1 = top := h _ rfl
    rw [queryLoop, queryLoop]
    simp only [nextRo, hk, if_true]
    have hlt : ¬ k < top - 1 := by omega
    simp only [hlt, false_and, if_false]

end TapStark.Fri
