import Verif.Proofs.PcsPoly

/-!
Opening honest batches does not panic.
-/

set_option linter.unusedSectionVars false

namespace TapStark.Pcs

open Polynomial TapStark.Fri

variable {K F : Type} [Field K] [Field F] [DecidableEq K] [DecidableEq F] [Algebra K F]
variable {SI CI DI PI S C D P Ch W : Type}

theorem mapM_total {α β : Type} {f : α → Option β} : ∀ (l : List α), (∀ x ∈ l, ∃ y, f x = some y) →
    ∃ r, l.mapM f = some r
  | [], _ => ⟨[], rfl⟩
  | x :: l, h => by
    obtain ⟨y, hy⟩ := h x List.mem_cons_self
    obtain ⟨r, hr⟩ := mapM_total l fun z hz => h z (List.mem_cons_of_mem _ hz)
    exact ⟨y :: r, by simp [List.mapM_cons, hy, hr]⟩

/-! ### Inverse denominators -/

theorem insertPoint_origin {P : F → Nat → Prop} {m : List (F × Nat)} (hm : ∀ e ∈ m, P e.1 e.2) {z : F}
    {h : Nat} (hz : P z h) : ∀ e ∈ insertPoint m z h, P e.1 e.2 := by
  unfold insertPoint
  split
  · intro e he
    obtain ⟨e', he', rfl⟩ := List.mem_map.1 he
    have := hm e' he'
    split
    case isTrue hh =>
      subst hh
      rcases max_choice e'.2 h with hc | hc
      · simpa [hc] using this
      · simpa [hc] using hz
    case isFalse => exact this
  · intro e he
    rcases List.mem_append.1 he with he | he
    · exact hm e he
    · simp only [List.mem_singleton] at he; subst he; exact hz

theorem insertPoint_ne (m : List (F × Nat)) (z : F) (h : Nat) : insertPoint m z h ≠ [] := by
  unfold insertPoint
  split
  case isTrue ha => intro hn; simp only [List.map_eq_nil_iff] at hn; subst hn; simp at ha
  case isFalse => simp

theorem insertAll_origin {P : F → Nat → Prop} {h : Nat} : ∀ (points : List F) (m : List (F × Nat)),
    (∀ e ∈ m, P e.1 e.2) → (∀ z ∈ points, P z h) →
    (∀ e ∈ points.foldl (fun m z => insertPoint m z h) m, P e.1 e.2) ∧
      (m ≠ [] ∨ points ≠ [] → points.foldl (fun m z => insertPoint m z h) m ≠ [])
  | [], m, hm, _ => ⟨hm, by simp⟩
  | z :: points, m, hm, hp => by
    obtain ⟨h1, h2⟩ := insertAll_origin points (insertPoint m z h)
      (insertPoint_origin hm (hp z List.mem_cons_self)) fun z hz => hp z (List.mem_cons_of_mem _ hz)
    exact ⟨h1, fun _ => h2 (.inl (insertPoint_ne m z h))⟩

theorem pointHeightsMats_total {P : F → Nat → Prop} : ∀ (l : List (Mat K × List F)) (m : List (F × Nat)),
    (∀ e ∈ m, P e.1 e.2) → (∀ x ∈ l, ∃ h, x.1.length = 2 ^ h ∧ ∀ z ∈ x.2, P z h) →
    ∃ m', (l.foldlM (init := m) fun m (mat, points) => do
        let logHeight ← log2Strict mat.length
        some (points.foldl (fun m z => insertPoint m z logHeight) m)) = some m' ∧
      (∀ e ∈ m', P e.1 e.2) ∧ (m ≠ [] ∨ (∃ x ∈ l, x.2 ≠ []) → m' ≠ [])
  | [], m, hm, _ => ⟨m, rfl, hm, by simp⟩
  | (mat, points) :: l, m, hm, hl => by
    obtain ⟨h, hh, hz⟩ := hl _ List.mem_cons_self
    obtain ⟨a1, a2⟩ := insertAll_origin points m hm hz
    obtain ⟨m', b1, b2, b3⟩ := pointHeightsMats_total l _ a1 fun x hx => hl x (List.mem_cons_of_mem _ hx)
    refine ⟨m', ?_, b2, ?_⟩
    · simp only at hh
      simp only [List.foldlM_cons, hh, log2Strict_pow, Option.bind_eq_bind, Option.bind_some]
      exact b1
    · rintro (hne | ⟨x, hx, hxp⟩)
      · exact b3 (.inl (a2 (.inl hne)))
      · rcases List.mem_cons.1 hx with rfl | hx
        · exact b3 (.inl (a2 (.inr hxp)))
        · exact b3 (.inr ⟨x, hx, hxp⟩)

theorem pointHeights_total' {P : F → Nat → Prop} : ∀ (l : List (ProverRound K F)) (m : List (F × Nat)),
    (∀ e ∈ m, P e.1 e.2) →
    (∀ r ∈ l, ∀ x ∈ r.1.zip r.2, ∃ h, x.1.length = 2 ^ h ∧ ∀ z ∈ x.2, P z h) →
    ∃ m', (l.foldlM (init := m) fun m round =>
      (round.1.zip round.2).foldlM (init := m) fun m (mat, points) => do
        let logHeight ← log2Strict mat.length
        some (points.foldl (fun m z => insertPoint m z logHeight) m)) = some m' ∧
      (∀ e ∈ m', P e.1 e.2) ∧ (m ≠ [] ∨ (∃ r ∈ l, ∃ x ∈ r.1.zip r.2, x.2 ≠ []) → m' ≠ [])
  | [], m, hm, _ => ⟨m, rfl, hm, by simp⟩
  | r :: l, m, hm, hl => by
    obtain ⟨m1, a1, a2, a3⟩ := pointHeightsMats_total (r.1.zip r.2) m hm (hl r List.mem_cons_self)
    obtain ⟨m', b1, b2, b3⟩ := pointHeights_total' l m1 a2 fun x hx => hl x (List.mem_cons_of_mem _ hx)
    refine ⟨m', ?_, b2, ?_⟩
    · rw [List.foldlM_cons, a1]; exact b1
    · rintro (hne | ⟨x, hx, y, hy, hyp⟩)
      · exact b3 (.inl (a3 (.inl hne)))
      · rcases List.mem_cons.1 hx with rfl | hx
        · exact b3 (.inl (a3 (.inr ⟨y, hy, hyp⟩)))
        · exact b3 (.inr ⟨x, hx, y, hy, hyp⟩)

/-- Points outside the cosets of their matrices have inverse denominators. -/
theorem inverseDenominators_total {genV : Nat → K} {N : Nat} (hg : TwoAdic genV N) {g : K}
    {rounds : List (ProverRound K F)}
    (hr : ∀ r ∈ rounds, ∀ x ∈ r.1.zip r.2, ∃ h, x.1.length = 2 ^ h ∧ h ≤ N ∧
      ∀ z ∈ x.2, ∀ i, algebraMap K F (g * genV h ^ i) ≠ z)
    (hne : ∃ r ∈ rounds, ∃ x ∈ r.1.zip r.2, x.2 ≠ []) :
    ∃ inv, inverseDenominators genV rounds g = some inv := by
  obtain ⟨m, h1, h2, h3⟩ := pointHeights_total' (P := fun z h => h ≤ N ∧
    ∀ i, algebraMap K F (g * genV h ^ i) ≠ z) rounds [] (by simp) (by
      intro r hrm x hx
      obtain ⟨h, a1, a2, a3⟩ := hr r hrm x hx
      exact ⟨h, a1, fun z hz => ⟨a2, a3 z hz⟩⟩)
  unfold inverseDenominators
  rw [show pointHeights rounds = some m from h1]
  have hm := h3 (.inr hne)
  obtain ⟨top, htop⟩ : ∃ top, (m.map Prod.snd).max? = some top := by
    cases hc : (m.map Prod.snd).max? with
    | none => rw [List.max?_eq_none_iff, List.map_eq_nil_iff] at hc; exact absurd hc hm
    | some t => exact ⟨t, rfl⟩
  have htN : top ≤ N := by
    obtain ⟨e, he, rfl⟩ := List.mem_map.1 (List.max?_eq_some_iff.1 htop).1
    exact (h2 e he).1
  simp only [Option.bind_eq_bind, Option.bind_some, htop]
  apply mapM_total
  rintro ⟨z, h⟩ he
  rw [revSlice_shifted]
  have hle : h ≤ top := le_max?_of_mem htop (List.mem_map.2 ⟨_, he, rfl⟩)
  obtain ⟨r, hr'⟩ := mapM_total (f := fun x => if algebraMap K F x - z = 0 then none else
      some (algebraMap K F x - z)⁻¹)
    (((List.range (2 ^ top)).map fun i => g * genV top ^ revBits top i).take (2 ^ h)) (by
      intro x hx
      obtain ⟨i, hi, rfl⟩ := List.mem_iff_getElem.1 hx
      have hi' : i < 2 ^ h := by simp at hi; omega
      simp only [List.getElem_take, List.getElem_map, List.getElem_range]
      obtain ⟨j, rfl⟩ : ∃ j, top = h + j := ⟨top - h, by omega⟩
      rw [hg.point_extend htN hi', if_neg]
      · exact ⟨_, rfl⟩
      · intro h0
        exact (h2 _ he).2 _ (sub_eq_zero.1 h0))
  exact ⟨(z, r), by simp only [hr', Option.bind_some]⟩

/-! ### Reduced openings -/

theorem openPoints_total {X : Ext K F} {genV : Nat → K} {N : Nat} (hX : X.Correct genV N)
    (hg : TwoAdic genV N) {g : K} (hg0 : g ≠ 0) {cfg : Config} {alpha : F} {inv : List (F × List F)}
    {mat : Mat K} {k : Nat} {ps : List K[X]} (hN : k + cfg.logBlowup ≤ N)
    (hmat : mat = evalRowsRev genV ps g (k + cfg.logBlowup)) (hps : ∀ p ∈ ps, p.natDegree < 2 ^ k) :
    ∀ (points : List F) (st : ReduceState F), InvOk genV g inv (k + cfg.logBlowup) points →
      (∃ l, st.ro (k + cfg.logBlowup) = some l) →
      ∃ r, openPoints X g cfg alpha inv mat (k + cfg.logBlowup) st points = some r
  | [], st, _, _ => ⟨_, rfl⟩
  | z :: points, st, hinv, ⟨l, hl⟩ => by
    have hlen : mat.length = 2 ^ (k + cfg.logBlowup) := by rw [hmat]; simp [evalRowsRev]
    obtain ⟨L, hL, -, hL2⟩ := hinv z (by simp)
    have hlow : bitReverseRows (mat.take (mat.length >>> cfg.logBlowup)) = some (evalRows genV ps g k) := by
      rw [hlen, Nat.shiftRight_eq_div_pow, Nat.pow_div (by omega) (by omega), Nat.add_sub_cancel, hmat,
        low_rows hg ps g hN]
    have hys := hX.interp ps k g z (by omega) hg0 hps (by
        intro i he
        obtain ⟨j, hj, hjp⟩ := coset_mem hg g hN i
        rw [hjp] at he
        exact (hL2 j hj).1 (sub_eq_zero.2 he))
    obtain ⟨⟨ra, rb⟩, hr⟩ : ∃ r, openPoint X g cfg alpha inv mat (k + cfg.logBlowup) st z = some r ∧
        ∃ l', r.1.ro (k + cfg.logBlowup) = some l' := by
      unfold openPoint
      simp only [hlow, hys, hl, hL, Option.bind_eq_bind, Option.bind_some]
      exact ⟨_, rfl, _, Function.update_self ..⟩
    obtain ⟨⟨sa, sb⟩, hr2⟩ := openPoints_total (alpha := alpha) hX hg hg0 hN hmat hps points ra
      (fun w hw => hinv w (List.mem_cons_of_mem _ hw)) hr.2
    exact ⟨(sa, rb :: sb), by simp only [openPoints, hr.1, hr2, Option.bind_eq_bind, Option.bind_some]⟩

theorem openMats_total {X : Ext K F} {genV : Nat → K} {N : Nat} (hX : X.Correct genV N)
    (hg : TwoAdic genV N) {g : K} (hg0 : g ≠ 0) {cfg : Config} {alpha : F} {inv : List (F × List F)}
    {G : Nat} (hGN : G ≤ N) (hG32 : G < 32) :
    ∀ (entries : List (Mat K × Dom K × List F)) (st : ReduceState F),
      (∀ e ∈ entries, (∃ ps, IsLde genV g cfg.logBlowup e ps) ∧
        entryHeight cfg.logBlowup e ≤ G ∧ InvOk genV g inv (entryHeight cfg.logBlowup e) e.2.2) →
      LowDeg genV cfg.logBlowup G st →
      ∃ r, openMats X g cfg alpha inv st (entries.map fun e => (e.1, e.2.2)) = some r ∧
        LowDeg genV cfg.logBlowup G r.1
  | [], st, _, h => ⟨_, rfl, h⟩
  | e :: entries, st, he, hst => by
    obtain ⟨⟨ps, hlde⟩, g3, g4⟩ := he e List.mem_cons_self
    have hlen : e.1.length = 2 ^ (e.2.1.logN + cfg.logBlowup) := by
      have := hlde.1
      simp only [entryHeight] at this
      rw [this]; simp [evalRowsRev]
    simp only [entryHeight] at g3 g4
    obtain ⟨⟨ra, rb⟩, hr⟩ : ∃ r, openMat X g cfg alpha inv st e.1 e.2.2 = some r := by
      unfold openMat
      simp only [hlen, log2Strict_pow, Option.bind_eq_bind, Option.bind_some]
      have h32 : e.2.1.logN + cfg.logBlowup < 32 := by omega
      rw [if_pos h32, if_neg]
      · exact openPoints_total hX hg hg0 (by omega) hlde.1 hlde.2 _ _ g4 ⟨_, Function.update_self ..⟩
      · rintro ⟨-, hne⟩
        apply hne
        cases hs : st.ro (e.2.1.logN + cfg.logBlowup) with
        | none => simp
        | some l =>
          obtain ⟨-, -, P, rfl, -⟩ := hst _ _ hs
          simp [evalVec_length]
    obtain ⟨hst1, -⟩ := openMats_poly (alpha := alpha) hX hg hg0 hGN [e] st ra [rb]
      (fun x hx => by rw [List.mem_singleton.1 hx]; exact he e List.mem_cons_self) hst (by
        simp only [List.map_cons, List.map_nil, openMats, hr, Option.bind_eq_bind, Option.bind_some])
    obtain ⟨⟨sa, sb⟩, hr2, hst2⟩ := openMats_total (alpha := alpha) hX hg hg0 hGN hG32 entries ra
      (fun x hx => he x (List.mem_cons_of_mem _ hx)) hst1
    exact ⟨(sa, rb :: sb), by
      simp only [List.map_cons, openMats, hr, hr2, Option.bind_eq_bind, Option.bind_some], hst2⟩

theorem openRounds_total {X : Ext K F} {genV : Nat → K} {N : Nat} (hX : X.Correct genV N)
    (hg : TwoAdic genV N) {g : K} (hg0 : g ≠ 0) {cfg : Config} {alpha : F} {inv : List (F × List F)}
    {G : Nat} (hGN : G ≤ N) (hG32 : G < 32) :
    ∀ (rounds : List (Round K F CI DI)) (st : ReduceState F),
      (∀ r ∈ rounds, ∀ e ∈ r.entries, (∃ ps, IsLde genV g cfg.logBlowup e ps) ∧
        entryHeight cfg.logBlowup e ≤ G ∧ InvOk genV g inv (entryHeight cfg.logBlowup e) e.2.2) →
      LowDeg genV cfg.logBlowup G st →
      ∃ r, openRounds X g cfg alpha inv st (rounds.map Round.mats) = some r
  | [], st, _, _ => ⟨_, rfl⟩
  | r :: rounds, st, he, hst => by
    obtain ⟨⟨ra, rb⟩, h1, h2⟩ := openMats_total (alpha := alpha) hX hg hg0 hGN hG32 r.entries st
      (he r List.mem_cons_self) hst
    obtain ⟨⟨sa, sb⟩, h3⟩ := openRounds_total (alpha := alpha) hX hg hg0 hGN hG32 rounds ra
      (fun x hx => he x (List.mem_cons_of_mem _ hx)) h2
    have h1' : openMats X g cfg alpha inv st (r.mats.1.zip r.mats.2) = some (ra, rb) := by
      simp only [Round.mats, List.zip_map']
      exact h1
    exact ⟨(sa, rb :: sb), by
      simp only [List.map_cons, openRounds, h1', h3, Option.bind_eq_bind, Option.bind_some]⟩

end TapStark.Pcs
