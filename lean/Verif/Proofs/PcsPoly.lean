import Verif.Proofs.Pcs
import Mathlib.Algebra.Polynomial.Div
import Mathlib.Algebra.Polynomial.FieldDivision

/-! The reduced openings of an honest prover are evaluations of polynomials of low degree. -/

set_option linter.unusedSectionVars false

namespace TapStark.Pcs

open Polynomial TapStark.Fri

variable {K F : Type} [Field K] [Field F] [DecidableEq K] [DecidableEq F] [Algebra K F]
variable {SI CI DI PI : Type}

/-! ### Bit reversal is an involution -/

theorem revBits_append : ∀ (k a y : Nat), a < 2 → y < 2 ^ k →
    revBits (k + 1) (a * 2 ^ k + y) = 2 * revBits k y + a
  | 0, a, y, ha, hy => by
    obtain rfl : y = 0 := by simpa using hy
    have : a % 2 = a := Nat.mod_eq_of_lt ha
    simp [revBits, this]
  | k + 1, a, y, ha, hy => by
    rw [revBits, pow_succ]
    have h1 : (a * (2 ^ k * 2) + y) % 2 = y % 2 := by
      rw [show a * (2 ^ k * 2) + y = y + (a * 2 ^ k) * 2 by ring, Nat.add_mul_mod_self_right]
    have h2 : (a * (2 ^ k * 2) + y) / 2 = a * 2 ^ k + y / 2 := by
      rw [show a * (2 ^ k * 2) + y = y + (a * 2 ^ k) * 2 by ring, Nat.add_mul_div_right _ _ (by omega)]
      ring
    rw [h1, h2, revBits_append k a (y / 2) ha (by rw [pow_succ] at hy; omega), revBits]
    ring

theorem revBits_invol : ∀ (k i : Nat), i < 2 ^ k → revBits k (revBits k i) = i
  | 0, i, hi => by
    obtain rfl : i = 0 := by simpa using hi
    rfl
  | k + 1, i, hi => by
    rw [show revBits (k + 1) i = (i % 2) * 2 ^ k + revBits k (i / 2) from rfl,
      revBits_append k _ _ (Nat.mod_lt _ (by omega)) (revBits_lt k _),
      revBits_invol k (i / 2) (by rw [pow_succ] at hi; omega)]
    omega

section
variable {genV : Nat → K} {N : Nat} (hg : TwoAdic genV N)
include hg

/-- The first rows of the bit-reversed evaluations are the evaluations on the smaller coset. -/
theorem low_rows (ps : List K[X]) (g : K) {k b : Nat} (hN : k + b ≤ N) :
    bitReverseRows ((evalRowsRev genV ps g (k + b)).take (2 ^ k)) = some (evalRows genV ps g k) := by
  unfold bitReverseRows
  have hle : 2 ^ k ≤ 2 ^ (k + b) := Nat.pow_le_pow_right (by omega) (by omega)
  have hlen : ((evalRowsRev genV ps g (k + b)).take (2 ^ k)).length = 2 ^ k := by
    rw [List.length_take, evalRowsRev, List.length_map, List.length_range]; omega
  simp only [hlen, log2Strict_pow, Option.bind_eq_bind, Option.bind_some, Option.some.injEq]
  unfold evalRows
  apply List.map_congr_left
  intro i hi
  have hi' : i < 2 ^ k := List.mem_range.1 hi
  have hr := revBits_lt k i
  rw [List.getD_eq_getElem?_getD, List.getElem?_take_of_lt hr, evalRowsRev, List.getElem?_map,
    List.getElem?_range (by omega)]
  simp only [Option.map_some, Option.getD_some]
  rw [hg.point_extend hN hr, revBits_invol k i hi']

theorem coset_mem (g : K) {k b : Nat} (hN : k + b ≤ N) (i : Nat) :
    ∃ j, j < 2 ^ (k + b) ∧ g * genV k ^ i = pt genV g (k + b) j := by
  have hle : 2 ^ k ≤ 2 ^ (k + b) := Nat.pow_le_pow_right (by omega) (by omega)
  have hm : i % 2 ^ k < 2 ^ k := Nat.mod_lt _ (Nat.two_pow_pos k)
  have hr := revBits_lt k (i % 2 ^ k)
  refine ⟨revBits k (i % 2 ^ k), by omega, ?_⟩
  unfold pt
  rw [hg.point_extend hN hr, revBits_invol k _ hm]
  congr 1
  conv_lhs => rw [← Nat.div_add_mod i (2 ^ k), pow_add, pow_mul, hg.order (by omega), one_pow, one_mul]

end

/-! ### Quotients -/

/-- `(p - p(z)) / (X - z)`. -/
noncomputable def quot (p : K[X]) (z : F) : F[X] :=
  (p.map (algebraMap K F) - C (aeval z p)) /ₘ (X - C z)

theorem quot_mul (p : K[X]) (z : F) :
    (X - C z) * quot p z = p.map (algebraMap K F) - C (aeval z p) := by
  unfold quot
  rw [mul_divByMonic_eq_iff_isRoot]
  simp [IsRoot, aeval_def, eval_map]

theorem quot_eval (p : K[X]) (z : F) (x : K) :
    (algebraMap K F x - z) * (quot p z).eval (algebraMap K F x) =
      algebraMap K F (p.eval x) - aeval z p := by
  have := congrArg (eval (algebraMap K F x)) (quot_mul p z)
  simpa [eval_map, eval₂_at_apply] using this

theorem quot_degree (p : K[X]) (z : F) {d : Nat} (h : p.natDegree < d) : (quot p z).natDegree < d := by
  unfold quot
  refine lt_of_le_of_lt ?_ h
  rw [natDegree_divByMonic _ (monic_X_sub_C z)]
  refine (Nat.sub_le _ _).trans ((natDegree_sub_le _ _).trans ?_)
  simp [natDegree_map_eq_of_injective (algebraMap K F).injective]

/-- `Σ alpha^j (p_j - p_j(z)) / (X - z)`. -/
noncomputable def combQuot (alpha z : F) : List K[X] → F[X]
  | [] => 0
  | p :: ps => quot p z + C alpha * combQuot alpha z ps

theorem combQuot_eval (alpha z : F) (x : K) : ∀ ps : List K[X],
    dotPowers alpha ((ps.map fun p => p.eval x).map (algebraMap K F)) -
      dotPowers alpha (ps.map fun p => aeval z p) =
    (algebraMap K F x - z) * (combQuot alpha z ps).eval (algebraMap K F x)
  | [] => by simp [dotPowers_nil, combQuot]
  | p :: ps => by
    have ih := combQuot_eval alpha z x ps
    simp only [List.map_cons, dotPowers_cons, combQuot, eval_add, eval_mul, eval_C]
    linear_combination alpha * ih - quot_eval p z x

theorem combQuot_degree (alpha z : F) {d : Nat} (hd : 0 < d) : ∀ ps : List K[X],
    (∀ p ∈ ps, p.natDegree < d) → (combQuot alpha z ps).natDegree < d
  | [], _ => by simpa [combQuot] using hd
  | p :: ps, h => by
    rw [combQuot]
    refine lt_of_le_of_lt (natDegree_add_le _ _) (max_lt (quot_degree p z (h p List.mem_cons_self)) ?_)
    exact lt_of_le_of_lt (natDegree_C_mul_le _ _)
      (combQuot_degree alpha z hd ps fun p hp => h p (List.mem_cons_of_mem _ hp))

/-! ### The invariant -/

/-- Constants leave no quotient. -/
theorem combQuot_const (alpha z : F) : ∀ ps : List K[X], (∀ p ∈ ps, p.natDegree < 1) → combQuot alpha z ps = 0
  | [], _ => rfl
  | p :: ps, h => by
    obtain ⟨a, rfl⟩ : ∃ a, p = C a := ⟨p.coeff 0, eq_C_of_natDegree_eq_zero (by have := h p List.mem_cons_self; omega)⟩
    rw [combQuot, combQuot_const alpha z ps fun p hp => h p (List.mem_cons_of_mem _ hp)]
    simp [quot]

/-- The reduced openings are evaluations of polynomials of low degree, at heights from `b` to `G`; at `b` they are zero. -/
def LowDeg (genV : Nat → K) (b G : Nat) (st : ReduceState F) : Prop :=
  ∀ h l, st.ro h = some l → b ≤ h ∧ h ≤ G ∧ ∃ P : F[X],
    l = evalVec (fun k => algebraMap K F (genV k)) h P ∧ P.natDegree < 2 ^ (h - b) ∧ (h = b → P = 0)

theorem openPoints_poly {X : Ext K F} {genV : Nat → K} {N : Nat} (hX : X.Correct genV N)
    (hg : TwoAdic genV N) {g : K} (hg0 : g ≠ 0) {cfg : Config} {alpha : F} {inv : List (F × List F)} {mat : Mat K}
    {k : Nat} {ps : List K[X]} (hN : k + cfg.logBlowup ≤ N) 
    (hmat : mat = evalRowsRev genV ps g (k + cfg.logBlowup)) (hps : ∀ p ∈ ps, p.natDegree < 2 ^ k) :
    ∀ (points : List F) (st st' : ReduceState F) (yss : List (List F)) (P : F[X]),
      InvOk genV g inv (k + cfg.logBlowup) points →
      st.ro (k + cfg.logBlowup) = some (evalVec (fun k => algebraMap K F (genV k)) (k + cfg.logBlowup) P) →
      P.natDegree < 2 ^ k → (k = 0 → P = 0) →
      openPoints X g cfg alpha inv mat (k + cfg.logBlowup) st points = some (st', yss) →
      yss = points.map (fun z => ps.map fun p => aeval z p) ∧
      (∀ h', h' ≠ k + cfg.logBlowup → st'.ro h' = st.ro h') ∧
      ∃ P' : F[X], st'.ro (k + cfg.logBlowup) =
          some (evalVec (fun k => algebraMap K F (genV k)) (k + cfg.logBlowup) P') ∧
        P'.natDegree < 2 ^ k ∧ (k = 0 → P' = 0)
  | [], st, st', yss, P, _, hl, hd, hz, hp => by
    simp only [openPoints, Option.some.injEq, Prod.mk.injEq] at hp
    obtain ⟨rfl, rfl⟩ := hp
    exact ⟨rfl, fun _ _ => rfl, P, hl, hd, hz⟩
  | z :: points, st, st', yss, P, hinv, hl, hd, hz, hp => by
    simp only [openPoints, Option.bind_eq_bind, Option.bind_eq_some_iff, Option.some.injEq,
      Prod.mk.injEq] at hp
    obtain ⟨⟨st1, ys⟩, h1, ⟨st2, yss'⟩, h2, rfl, rfl⟩ := hp
    have hlen : mat.length = 2 ^ (k + cfg.logBlowup) := by rw [hmat]; simp [evalRowsRev]
    obtain ⟨⟨low, hlow, hys⟩, l1, rfl, hl1, hv⟩ := openPoint_spec hlen
      (fun w hw => hinv w (by simp only [List.mem_singleton] at hw; subst hw; simp)) hl
      (evalVec_length _ _ _) h1
    obtain ⟨L, -, -, hL⟩ := hinv z (by simp)
    have hlow' : low = evalRows genV ps g k := by
      rw [hlen, Nat.shiftRight_eq_div_pow, Nat.pow_div (by omega) (by omega), Nat.add_sub_cancel, hmat,
        low_rows hg ps g hN] at hlow
      exact (Option.some.inj hlow).symm
    have hys' : ys = ps.map fun p => aeval z p := by
      rw [hlow', hX.interp ps k g z (by omega) hg0 hps (by
        intro i he
        obtain ⟨j, hj, hjp⟩ := coset_mem hg g hN i
        rw [hjp] at he
        exact (hL j hj).1 (sub_eq_zero.2 he))] at hys
      exact (Option.some.inj hys).symm
    set P1 := P + C (alpha ^ st.num (k + cfg.logBlowup)) *
      (combQuot alpha z ps).comp (C (algebraMap K F g) * Polynomial.X) with hP1
    have hP1d : P1.natDegree < 2 ^ k := by
      rw [hP1]
      refine lt_of_le_of_lt (natDegree_add_le _ _) (max_lt hd ?_)
      refine lt_of_le_of_lt (natDegree_C_mul_le _ _) ?_
      refine lt_of_le_of_lt natDegree_comp_le ?_
      refine lt_of_le_of_lt (Nat.mul_le_mul_left _ (le_trans (natDegree_C_mul_le _ _) natDegree_X_le)) ?_
      rw [mul_one]
      exact combQuot_degree alpha z (Nat.two_pow_pos k) ps hps
    have hl1' : l1 = evalVec (fun k => algebraMap K F (genV k)) (k + cfg.logBlowup) P1 := by
      apply List.ext_getElem (by rw [hl1, evalVec_length])
      intro i hi _
      have hi' : i < 2 ^ (k + cfg.logBlowup) := by omega
      have e := hv i hi'
      have hrow : mat.getD i [] = ps.map fun p => p.eval (pt genV g (k + cfg.logBlowup) i) := by
        rw [hmat, evalRowsRev, List.getD_eq_getElem?_getD, List.getElem?_map, List.getElem?_range hi']
        rfl
      have hxv : algebraMap K F (pt genV g (k + cfg.logBlowup) i) =
          algebraMap K F g * algebraMap K F (genV (k + cfg.logBlowup)) ^ revBits (k + cfg.logBlowup) i := by
        simp [pt]
      rw [hrow, hys', combQuot_eval, mul_comm (algebraMap K F _ - z), mul_assoc, mul_assoc,
        mul_inv_cancel₀ (hL i hi').1, mul_one, List.getD_eq_getElem?_getD,
        List.getElem?_eq_getElem hi, Option.getD_some] at e
      rw [e]
      simp only [evalVec, List.getD_eq_getElem?_getD, List.getElem?_map, List.getElem?_range hi',
        Option.map_some, Option.getD_some, List.getElem_map, List.getElem_range]
      rw [hP1, hxv]
      simp
    obtain ⟨e1, e2, P', e3, e4⟩ := openPoints_poly hX hg hg0 hN hmat hps points _ st2 yss' P1
      (fun w hw => hinv w (List.mem_cons_of_mem _ hw)) (by simp [hl1']) hP1d (by
        intro h0
        subst h0
        rw [hP1, hz rfl, combQuot_const _ _ _ hps]
        simp) h2
    refine ⟨by rw [List.map_cons, e1, hys'], ?_, P', e3, e4⟩
    intro h' hne
    rw [e2 h' hne]
    simp [Function.update_of_ne hne]

theorem openMats_poly {X : Ext K F} {genV : Nat → K} {N : Nat} (hX : X.Correct genV N)
    (hg : TwoAdic genV N) {g : K} (hg0 : g ≠ 0) {cfg : Config} {alpha : F} {inv : List (F × List F)} {G : Nat}
    (hGN : G ≤ N) :
    ∀ (entries : List (Mat K × Dom K × List F)) (st st' : ReduceState F) (v : List (List (List F))),
      (∀ e ∈ entries, (∃ ps, IsLde genV g cfg.logBlowup e ps) ∧
        entryHeight cfg.logBlowup e ≤ G ∧ InvOk genV g inv (entryHeight cfg.logBlowup e) e.2.2) →
      LowDeg genV cfg.logBlowup G st →
      openMats X g cfg alpha inv st (entries.map fun e => (e.1, e.2.2)) = some (st', v) →
      LowDeg genV cfg.logBlowup G st' ∧ (∀ h, st.ro h ≠ none → st'.ro h ≠ none) ∧
        (∀ e ∈ entries, st'.ro (entryHeight cfg.logBlowup e) ≠ none ∧ entryHeight cfg.logBlowup e < 32) ∧
        List.Forall₂ (fun e yss => ∀ ps, IsLde genV g cfg.logBlowup e ps →
          yss = e.2.2.map fun z => ps.map fun p => aeval z p) entries v
  | [], st, st', v, _, hst, hp => by
    simp only [List.map_nil, openMats, Option.some.injEq, Prod.mk.injEq] at hp
    obtain ⟨rfl, rfl⟩ := hp
    exact ⟨hst, fun _ h => h, by simp, .nil⟩
  | (mat, dom, points) :: entries, st, st', v, he, hst, hp => by
    simp only [List.map_cons, openMats, Option.bind_eq_bind, Option.bind_eq_some_iff,
      Option.some.injEq, Prod.mk.injEq] at hp
    obtain ⟨⟨st1, yss⟩, h1, ⟨st2, v'⟩, h2, rfl, rfl⟩ := hp
    obtain ⟨⟨ps, hlde⟩, g3, g4⟩ := he _ List.mem_cons_self
    have hlen : mat.length = 2 ^ (dom.logN + cfg.logBlowup) := by
      have := hlde.1
      simp only [entryHeight] at this
      rw [this]; simp [evalRowsRev]
    simp only [entryHeight] at g3 g4
    unfold openMat at h1
    simp only [hlen, log2Strict_pow, Option.bind_eq_bind, Option.bind_some] at h1
    split at h1
    case isFalse => cases h1
    case isTrue h32 =>
    split at h1
    case isTrue => cases h1
    case isFalse hdbg =>
      obtain ⟨P, hP, hPd, hPz⟩ : ∃ P : F[X], (st.ro (dom.logN + cfg.logBlowup)).getD
          (List.replicate (2 ^ (dom.logN + cfg.logBlowup)) 0) =
          evalVec (fun k => algebraMap K F (genV k)) (dom.logN + cfg.logBlowup) P ∧
          P.natDegree < 2 ^ dom.logN ∧ (dom.logN = 0 → P = 0) := by
        match hs : st.ro (dom.logN + cfg.logBlowup) with
        | none =>
          refine ⟨0, ?_, by simp, fun _ => rfl⟩
          simp only [Option.getD_none, evalVec, eval_zero]
          rw [List.map_const', List.length_range]
        | some l =>
          obtain ⟨-, -, P, hP, hd, hz⟩ := hst _ _ hs
          exact ⟨P, hP, by rwa [Nat.add_sub_cancel] at hd, fun h0 => hz (by omega)⟩
      rw [hP] at h1
      have hkN : dom.logN + cfg.logBlowup ≤ N := by omega
      have hvals : ∀ ps', IsLde genV g cfg.logBlowup (mat, dom, points) ps' →
          yss = points.map (fun z => ps'.map fun p => aeval z p) := fun ps' h' =>
        (openPoints_poly hX hg hg0 hkN h'.1 h'.2 points _ st1 yss P g4 (by simp) hPd hPz h1).1
      obtain ⟨-, e2, P', e3, e4⟩ := openPoints_poly hX hg hg0 hkN hlde.1 hlde.2 points _ st1 yss P g4
        (by simp) hPd hPz h1
      have hst1 : LowDeg genV cfg.logBlowup G st1 := by
        intro h l hl
        by_cases hh : h = dom.logN + cfg.logBlowup
        · subst hh
          rw [e3] at hl
          obtain rfl := Option.some.inj hl
          exact ⟨by omega, g3, P', rfl, by rw [Nat.add_sub_cancel]; exact e4.1, fun h0 => e4.2 (by omega)⟩
        · rw [e2 h hh] at hl
          simp only [Function.update_of_ne hh] at hl
          exact hst h l hl
      have hmono : ∀ h, st.ro h ≠ none → st1.ro h ≠ none := by
        intro h hne
        by_cases hh : h = dom.logN + cfg.logBlowup
        · subst hh; rw [e3]; simp
        · rw [e2 h hh]; simpa only [Function.update_of_ne hh] using hne
      obtain ⟨r1, r2, r3, r4⟩ := openMats_poly hX hg hg0 hGN entries st1 st2 v'
        (fun e hm => he e (List.mem_cons_of_mem _ hm)) hst1 h2
      refine ⟨r1, fun h hne => r2 h (hmono h hne), ?_, .cons hvals r4⟩
      intro e hm
      rcases List.mem_cons.1 hm with rfl | hm
      · exact ⟨r2 _ (by simp only [entryHeight]; rw [e3]; simp), h32⟩
      · exact r3 e hm

theorem openRounds_poly {X : Ext K F} {genV : Nat → K} {N : Nat} (hX : X.Correct genV N)
    (hg : TwoAdic genV N) {g : K} (hg0 : g ≠ 0) {cfg : Config} {alpha : F} {inv : List (F × List F)} {G : Nat}
    (hGN : G ≤ N) :
    ∀ (rounds : List (Round K F CI DI)) (st st' : ReduceState F) (vals : List (List (List (List F)))),
      (∀ r ∈ rounds, ∀ e ∈ r.entries, (∃ ps, IsLde genV g cfg.logBlowup e ps) ∧
        entryHeight cfg.logBlowup e ≤ G ∧ InvOk genV g inv (entryHeight cfg.logBlowup e) e.2.2) →
      LowDeg genV cfg.logBlowup G st →
      openRounds X g cfg alpha inv st (rounds.map Round.mats) = some (st', vals) →
      LowDeg genV cfg.logBlowup G st' ∧ (∀ h, st.ro h ≠ none → st'.ro h ≠ none) ∧
        (∀ r ∈ rounds, ∀ e ∈ r.entries,
          st'.ro (entryHeight cfg.logBlowup e) ≠ none ∧ entryHeight cfg.logBlowup e < 32) ∧
        List.Forall₂ (fun r v => List.Forall₂ (fun e yss => ∀ ps, IsLde genV g cfg.logBlowup e ps →
          yss = e.2.2.map fun z => ps.map fun p => aeval z p) r.entries v) rounds vals
  | [], st, st', vals, _, hst, hp => by
    simp only [List.map_nil, openRounds, Option.some.injEq, Prod.mk.injEq] at hp
    obtain ⟨rfl, rfl⟩ := hp
    exact ⟨hst, fun _ h => h, by simp, .nil⟩
  | r :: rounds, st, st', vals, he, hst, hp => by
    simp only [List.map_cons, openRounds, Option.bind_eq_bind, Option.bind_eq_some_iff,
      Option.some.injEq, Prod.mk.injEq] at hp
    obtain ⟨⟨st1, v⟩, h1, ⟨st2, vals'⟩, h2, rfl, rfl⟩ := hp
    simp only [Round.mats, List.zip_map'] at h1
    obtain ⟨a1, a2, a3, a4⟩ := openMats_poly hX hg hg0 hGN r.entries st st1 v (he r List.mem_cons_self) hst h1
    obtain ⟨b1, b2, b3, b4⟩ := openRounds_poly hX hg hg0 hGN rounds st1 st2 vals'
      (fun x hx => he x (List.mem_cons_of_mem _ hx)) a1 h2
    refine ⟨b1, fun h hne => b2 h (a2 h hne), ?_, .cons a4 b4⟩
    intro x hx e hm
    rcases List.mem_cons.1 hx with rfl | hx
    · exact ⟨b2 _ (a3 e hm).1, (a3 e hm).2⟩
    · exact b3 x hx e hm

end TapStark.Pcs
