import Verif.Model.PcsRelease
import Verif.Spec.PcsRelease
import Verif.Props.Pcs

/-!
C101: claims about matrices taller than the domain of the opening proof.
-/

set_option linter.unusedSectionVars false

namespace TapStark.Pcs

open TapStark.Fri

variable {K F : Type} [Field K] [Field F] [DecidableEq K] [DecidableEq F] [Algebra K F]
variable {SI CI DI PI S C D P Ch W : Type}

/-! ### With overflow checks -/

theorem matLoop_heights {genV : Nat → K} {g : K} {cfg : Config} {alpha : F} {top idx : Nat} :
    ∀ (l : List (List K × Dom K × List (F × List F))) (vs w : VerifyState F),
      matLoop genV g cfg alpha top idx l vs = some w → ∀ e ∈ l, e.2.1.logN + cfg.logBlowup ≤ top
  | [], _, _, _ => by simp
  | (row, d, ps) :: l, vs, w, h => by
    rw [matLoop] at h
    simp only [Dom.size, log2Strict_pow, Option.bind_eq_bind, Option.bind_some] at h
    split at h
    case isFalse => cases h
    case isTrue hle =>
      obtain ⟨r, -, h⟩ := Option.bind_eq_some_iff.1 h
      intro e he
      rcases List.mem_cons.1 he with rfl | he
      · exact hle
      · exact matLoop_heights l _ w h e he

theorem roundLoop_heights {MI : InMmcs K SI CI DI PI} {genV : Nat → K} {g : K} {cfg : Config} {alpha : F}
    {top q idx : Nat} :
    ∀ (l : List ((List (List K) × PI) × VerifierRound K F CI)) (vs w : VerifyState F),
      roundLoop MI genV g cfg alpha top q idx l vs = .ok w →
      ∀ p ∈ l, ∀ e ∈ p.1.1.zip p.2.2, e.2.1.logN + cfg.logBlowup ≤ top
  | [], _, _, _ => by simp
  | (o, c, ms) :: l, vs, w, h => by
    rw [roundLoop] at h
    obtain ⟨mh, -, h⟩ := Res.bind_eq_ok.1 h
    obtain ⟨lm, -, h⟩ := Res.bind_eq_ok.1 h
    split at h
    case isFalse => cases h
    case isTrue =>
      obtain ⟨acc, -, h⟩ := Res.bind_eq_ok.1 h
      split at h
      case isFalse => cases h
      case isTrue =>
        obtain ⟨st, h1, h⟩ := Res.bind_eq_ok.1 h
        intro p hp
        rcases List.mem_cons.1 hp with rfl | hp
        · exact matLoop_heights _ _ _ (Res.ofOption_eq_ok.1 h1)
        · exact roundLoop_heights l st w h p hp

theorem mem_forM_ok {α : Type} {f : α → Res Unit} : ∀ {l : List α}, l.forM f = Res.ok () → ∀ x ∈ l, f x = .ok ()
  | [], _ => by simp
  | a :: l, h => by
    rw [forM_cons'] at h
    obtain ⟨u, h1, h2⟩ := Res.bind_eq_ok.1 h
    intro x hx
    rcases List.mem_cons.1 hx with rfl | hx
    · exact h1
    · exact mem_forM_ok h2 x hx

theorem forM_congr {α : Type} {f f' : α → Res Unit} : ∀ {l : List α}, (∀ x ∈ l, f x = f' x) → l.forM f = l.forM f'
  | [], _ => rfl
  | a :: l, h => by
    rw [forM_cons', forM_cons', h a (List.mem_cons_self ..), forM_congr fun x hx => h x (List.mem_cons_of_mem _ hx)]

theorem expect_eq_ok {α : Type} {r : Res α} {a : α} (h : expect r = .ok a) : r = .ok a := by
  cases r <;> simp_all [expect]

theorem sampleIndices_length {Kc : Chall Ch C F W} {bits : Nat} :
    ∀ {n k : Nat} {ch ch' : Ch} {is : List (Nat × Nat)}, sampleIndices Kc bits n k ch = some (is, ch') → is.length = n
  | 0, _, _, _, _, h => by
    simp only [sampleIndices, Option.some.injEq, Prod.mk.injEq] at h
    rw [← h.1]; rfl
  | n + 1, k, ch, ch', is, h => by
    simp only [sampleIndices, Option.bind_eq_bind, Option.bind_eq_some_iff, Option.some.injEq, Prod.mk.injEq] at h
    obtain ⟨⟨i, ch1⟩, -, ⟨js, ch2⟩, h1, rfl, -⟩ := h
    rw [List.length_cons, sampleIndices_length h1]

/-- **C101**, with overflow checks: in an accepted proof, no query has a row of a matrix taller than the domain of the
proof. -/
theorem C101_checked {genV : Nat → K} {g : K} {MI : InMmcs K SI CI DI PI} {M : Mmcs F S C D P} {Kc : Chall Ch C F W}
    {cfg : Config} {rounds : List (VerifierRound K F CI)} {proof : FriProof F C P W (List (List (List K) × PI))}
    {ch ch' : Ch}
    (h : verify genV g MI M Kc cfg rounds proof ch = .ok ch') :
    ∀ qp ∈ proof.queryProofs, ∀ lh ∈ openedHeights cfg.logBlowup rounds qp.inputProof,
      lh ≤ proof.commitPhaseCommits.length + cfg.logBlowup := by
  unfold verify at h
  obtain ⟨⟨alpha, ch1⟩, -, h⟩ := Res.bind_eq_ok.1 h
  obtain ⟨⟨challenges, ch2⟩, hs, h⟩ := Res.bind_eq_ok.1 h
  obtain ⟨u, hv, -⟩ := Res.bind_eq_ok.1 h
  replace hv := expect_eq_ok hv
  replace hs := expect_eq_ok hs
  have hlen : challenges.queryIndices.length = proof.queryProofs.length := by
    unfold verifyShapeAndSampleChallenges at hs
    obtain ⟨⟨betas, ch3⟩, -, hs⟩ := Res.bind_eq_ok.1 hs
    by_cases hq : proof.queryProofs.length ≠ cfg.numQueries
    · simp only [if_pos hq] at hs
      cases hs
    · simp only [if_neg hq] at hs
      obtain ⟨⟨acc, ch4⟩, -, hs⟩ := Res.bind_eq_ok.1 hs
      by_cases ha : (!acc) = true
      · simp only [if_pos ha] at hs
        cases hs
      · simp only [if_neg ha] at hs
        obtain ⟨⟨is, ch5⟩, hi, hs⟩ := Res.bind_eq_ok.1 hs
        cases hs
        rw [sampleIndices_length (Res.ofOption_eq_ok.1 hi)]
        omega
  intro qp hqp lh hlh
  obtain ⟨i, hi, rfl⟩ := List.mem_iff_getElem.1 hqp
  have hz : (challenges.queryIndices[i]'(by omega), proof.queryProofs[i]) ∈
      challenges.queryIndices.zip proof.queryProofs := by
    rw [List.mem_iff_getElem]
    exact ⟨i, by simp only [List.length_zip]; omega, by simp⟩
  have hq := mem_forM_ok hv _ hz
  obtain ⟨ro, ho, -⟩ := Res.bind_eq_ok.1 hq
  unfold verifyInput at ho
  obtain ⟨st, ho, -⟩ := Res.bind_eq_ok.1 ho
  simp only [openedHeights, List.mem_flatMap, List.mem_map] at hlh
  obtain ⟨p, hp, e, he, rfl⟩ := hlh
  exact roundLoop_heights _ _ _ ho p hp e he

/-! ### Without overflow checks -/

/-- The maps have entries for the same heights. -/
def SameKeys (vs vs' : VerifyState F) : Prop := ∀ h, vs h = none ↔ vs' h = none

theorem matLoopR_keys {N : Nat} {genV : Nat → K} {g : K} {cfg : Config} {alpha : F} {top idx : Nat} :
    ∀ (rows : List (List K)) (ms ms' : List (Dom K × List (F × List F))) (vs vs' : VerifyState F),
      SameKeys vs vs' →
      List.Forall₂ (fun m m' => m.1 = m'.1 ∧ m.2.map Prod.fst = m'.2.map Prod.fst) ms ms' →
      (matLoopR N genV g cfg alpha top idx (rows.zip ms) vs = none ∧
        matLoopR N genV g cfg alpha top idx (rows.zip ms') vs' = none) ∨
      ∃ w w', matLoopR N genV g cfg alpha top idx (rows.zip ms) vs = some w ∧
        matLoopR N genV g cfg alpha top idx (rows.zip ms') vs' = some w' ∧ SameKeys w w' ∧
        (∀ h, vs h ≠ none → w h ≠ none) ∧
        (∀ e ∈ rows.zip ms, w (e.2.1.logN + cfg.logBlowup) ≠ none ∧ e.2.1.logN + cfg.logBlowup ≤ N)
  | [], _, _, vs, vs', h, _ => .inr ⟨vs, vs', by simp [matLoopR], by simp [matLoopR], h, fun _ => id, by simp⟩
  | _ :: _, [], [], vs, vs', h, _ => .inr ⟨vs, vs', by simp [matLoopR], by simp [matLoopR], h, fun _ => id, by simp⟩
  | row :: rows, (d, l) :: ms, (d', l') :: ms', vs, vs', h, hm => by
    obtain ⟨⟨hd, hf⟩, hms⟩ := List.forall₂_cons.1 hm
    simp only at hd hf
    subst hd
    rw [List.zip_cons_cons, List.zip_cons_cons, matLoopR, matLoopR]
    simp only [Dom.size, log2Strict_pow, Option.bind_eq_bind, Option.bind_some]
    split
    case isFalse => exact .inl ⟨rfl, rfl⟩
    case isTrue hle =>
      rcases pointLoop_some (alpha := alpha)
        (x := g * genV (d.logN + cfg.logBlowup) ^ revBits (d.logN + cfg.logBlowup)
          (shrWrapped idx top (d.logN + cfg.logBlowup))) (row := row) l l'
        ((vs (d.logN + cfg.logBlowup)).getD (1, 0)).1 ((vs (d.logN + cfg.logBlowup)).getD (1, 0)).2
        ((vs' (d.logN + cfg.logBlowup)).getD (1, 0)).1 ((vs' (d.logN + cfg.logBlowup)).getD (1, 0)).2 hf
        with ⟨h1, h2⟩ | ⟨y, y', h1, h2⟩
      · left
        rw [h1, h2]
        exact ⟨rfl, rfl⟩
      · rw [h1, h2]
        simp only [Option.bind_some]
        rcases matLoopR_keys (N := N) (genV := genV) (g := g) (cfg := cfg) (alpha := alpha) (top := top) (idx := idx)
          rows ms ms' (Function.update vs (d.logN + cfg.logBlowup) (some y))
          (Function.update vs' (d.logN + cfg.logBlowup) (some y'))
          (by
            intro h'
            by_cases hh : h' = d.logN + cfg.logBlowup
            · subst hh
              simp
            · simpa only [Function.update_of_ne hh] using h h') hms with h3 | ⟨w, w', h3, h4, h5, h6, h7⟩
        · exact .inl h3
        · refine .inr ⟨w, w', h3, h4, h5, ?_, ?_⟩
          · intro h' hv
            apply h6
            by_cases hh : h' = d.logN + cfg.logBlowup
            · subst hh
              simp
            · simpa only [Function.update_of_ne hh] using hv
          · intro e he
            rcases List.mem_cons.1 he with rfl | he
            · exact ⟨h6 _ (by simp), hle⟩
            · exact h7 e he

theorem roundLoopR_keys {N : Nat} {MI : InMmcs K SI CI DI PI} {genV : Nat → K} {g : K} {cfg : Config} {alpha : F}
    {top q idx : Nat} :
    ∀ (ips : List (List (List K) × PI)) (rs rs' : List (VerifierRound K F CI)) (vs vs' : VerifyState F),
      SameKeys vs vs' → SameButValues rs rs' →
      (roundLoopR N MI genV g cfg alpha top q idx (ips.zip rs) vs = .panic ∧
        roundLoopR N MI genV g cfg alpha top q idx (ips.zip rs') vs' = .panic) ∨
      (∃ e, roundLoopR N MI genV g cfg alpha top q idx (ips.zip rs) vs = .err e ∧
        roundLoopR N MI genV g cfg alpha top q idx (ips.zip rs') vs' = .err e) ∨
      ∃ w w', roundLoopR N MI genV g cfg alpha top q idx (ips.zip rs) vs = .ok w ∧
        roundLoopR N MI genV g cfg alpha top q idx (ips.zip rs') vs' = .ok w' ∧ SameKeys w w' ∧
        (∀ h, vs h ≠ none → w h ≠ none) ∧
        (∀ lh ∈ openedHeights cfg.logBlowup rs ips, w lh ≠ none ∧ lh ≤ N)
  | [], _, _, vs, vs', h, _ =>
    .inr (.inr ⟨vs, vs', by simp [roundLoopR], by simp [roundLoopR], h, fun _ => id, by simp [openedHeights]⟩)
  | _ :: _, [], [], vs, vs', h, _ =>
    .inr (.inr ⟨vs, vs', by simp [roundLoopR], by simp [roundLoopR], h, fun _ => id, by simp [openedHeights]⟩)
  | ip :: ips, (c, ms) :: rs, (c', ms') :: rs', vs, vs', h, hr => by
    obtain ⟨⟨hc, hms⟩, hrs⟩ := List.forall₂_cons.1 hr
    simp only at hc hms
    subst hc
    rw [List.zip_cons_cons, List.zip_cons_cons, roundLoopR, roundLoopR]
    have hsz : (ms.map fun m => m.1.size <<< cfg.logBlowup) = ms'.map fun m => m.1.size <<< cfg.logBlowup :=
      forall2_map_eq (fun a b hab => by rw [hab.1]) hms
    rw [hsz]
    cases (ms'.map fun m => m.1.size <<< cfg.logBlowup).max? with
    | none => exact .inl ⟨rfl, rfl⟩
    | some mh =>
    simp only [Res.ofOption_some, Res.bind_ok]
    cases log2Strict mh with
    | none => exact .inl ⟨rfl, rfl⟩
    | some lm =>
    simp only [Res.ofOption_some, Res.bind_ok]
    cases MI.verifyBatch q ip.1 ip.2 c with
    | none => exact .inl ⟨rfl, rfl⟩
    | some acc =>
    simp only [Res.ofOption_some, Res.bind_ok]
    cases acc with
    | false => exact .inr (.inl ⟨_, rfl, rfl⟩)
    | true =>
    simp only [if_true]
    rcases matLoopR_keys (N := N) (genV := genV) (g := g) (alpha := alpha) (top := top) (idx := idx) ip.1 ms ms' vs vs'
      h hms with ⟨h1, h2⟩ | ⟨w, w', h1, h2, h3, h4, h5⟩
    · rw [h1, h2]; exact .inl ⟨rfl, rfl⟩
    · rw [h1, h2]
      simp only [Res.ofOption_some, Res.bind_ok]
      rcases roundLoopR_keys (N := N) (MI := MI) (genV := genV) (g := g) (cfg := cfg) (alpha := alpha) (top := top)
        (q := q) (idx := idx) ips rs rs' w w' h3 hrs with h6 | h6 | ⟨u, u', h6, h7, h8, h9, h10⟩
      · exact .inl h6
      · exact .inr (.inl h6)
      · refine .inr (.inr ⟨u, u', h6, h7, h8, fun h' hv => h9 _ (h4 _ hv), ?_⟩)
        intro lh hl
        simp only [openedHeights, List.zip_cons_cons, List.flatMap_cons, List.mem_append, List.mem_map] at hl
        rcases hl with ⟨e, he, rfl⟩ | hl
        · exact ⟨h9 _ (h5 e he).1, (h5 e he).2⟩
        · exact h10 lh hl

/-- Reduced openings behind one that is too tall are never used. -/
theorem queryLoop_blocked {gen : Nat → F} {M : Mmcs F S C D P} {q top lh lh' : Nat} {r r' : F} {ros ros' : List (Nat × F)}
    (hl : top < lh) (hl' : top < lh') :
    ∀ (l : List (Nat × C × (List (List F) × P) × F)) (idx : Nat) (fe : F), (∀ x ∈ l, x.1 < top) →
      queryLoop gen M q top l idx fe ((lh, r) :: ros) = queryLoop gen M q top l idx fe ((lh', r') :: ros')
  | [], _, _, _ => rfl
  | (k, c, st, b) :: l, idx, fe, h => by
    have hk : k < top := h _ (List.mem_cons_self ..)
    have h1 : ¬ lh = k + 1 := by omega
    have h2 : ¬ lh' = k + 1 := by omega
    rw [queryLoop, queryLoop]
    simp only [nextRo, if_neg h1, if_neg h2]
    have ih := fun i f => queryLoop_blocked (gen := gen) (M := M) (q := q) (r := r) (r' := r') (ros := ros) (ros' := ros')
      hl hl' l i f (fun x hx => h x (List.mem_cons_of_mem _ hx))
    simp only [ih]

/-- In a list of entries in descending order, an entry above `top` puts one in front. -/
theorem filterMap_range_head {β : Type} {N lh : Nat} {f : Nat → Option β} (h : f lh ≠ none) (hN : lh ≤ N) :
    ∃ k v rest, lh ≤ k ∧ f k = some v ∧
      (List.range (N + 1)).reverse.filterMap (fun h => (f h).map fun r => (h, r)) = (k, v) :: rest := by
  induction N with
  | zero =>
    obtain rfl : lh = 0 := by omega
    obtain ⟨v, hv⟩ := Option.ne_none_iff_exists'.1 h
    exact ⟨0, v, [], by omega, hv, by simp [hv]⟩
  | succ N ih =>
    rw [List.range_succ, List.reverse_append, List.reverse_singleton, List.singleton_append, List.filterMap_cons]
    cases hf : f (N + 1) with
    | some v => exact ⟨N + 1, v, _, hN, hf, rfl⟩
    | none =>
      have : lh ≠ N + 1 := by rintro rfl; exact h hf
      exact ih (by omega)

/-- **C101 is violated** in a build without overflow checks: when every query has a row of a matrix taller than the
domain of the proof, no claimed value is checked, at this matrix or any other.  For every commitment scheme and every
challenger the verdict is the same for any other values claimed at the same points of the same matrices, even any other
number of values. -/
theorem C101_violated_release {N : Nat} {genV : Nat → K} {g : K} {MI : InMmcs K SI CI DI PI} {M : Mmcs F S C D P}
    {Kc : Chall Ch C F W} {cfg : Config} (rounds rounds' : List (VerifierRound K F CI))
    (proof : FriProof F C P W (List (List (List K) × PI))) (ch : Ch) (hs : SameButValues rounds rounds')
    (htall : ∀ qp ∈ proof.queryProofs, ∃ lh ∈ openedHeights cfg.logBlowup rounds qp.inputProof,
      proof.commitPhaseCommits.length + cfg.logBlowup < lh) :
    verifyR N genV g MI M Kc cfg rounds proof ch = verifyR N genV g MI M Kc cfg rounds' proof ch := by
  unfold verifyR
  congr 1
  funext ⟨alpha, ch1⟩
  simp only
  congr 1
  funext ⟨challenges, ch2⟩
  simp only
  congr 1
  congr 1
  unfold verifyChallenges
  simp only
  apply forM_congr
  rintro ⟨⟨q, idx⟩, qp⟩ hmem
  obtain ⟨lh, hlh, hlt⟩ := htall qp (List.of_mem_zip hmem).2
  simp only
  set top := proof.commitPhaseCommits.length + cfg.logBlowup with htop
  unfold verifyInputR
  rcases roundLoopR_keys (N := N) (MI := MI) (genV := genV) (g := g) (cfg := cfg) (alpha := alpha) (top := top) (q := q)
    (idx := idx) qp.inputProof rounds rounds' (fun _ => none) (fun _ => none) (fun _ => Iff.rfl) hs with
    ⟨h1, h2⟩ | ⟨e, h1, h2⟩ | ⟨w, w', h1, h2, h3, -, h4⟩
  · rw [h1, h2]
  · rw [h1, h2]
  · rw [h1, h2]
    simp only [Res.bind_ok]
    obtain ⟨hw, hN⟩ := h4 lh hlh
    have hw' : w' lh ≠ none := fun h => hw ((h3 lh).2 h)
    obtain ⟨k, v, rest, hk, -, e⟩ := filterMap_range_head (N := N) (f := fun h => (w h).map Prod.snd) (lh := lh)
      (by simpa using hw) hN
    obtain ⟨k', v', rest', hk', -, e'⟩ := filterMap_range_head (N := N) (f := fun h => (w' h).map Prod.snd) (lh := lh)
      (by simpa using hw') hN
    simp only [Option.map_map, Function.comp_def] at e e'
    rw [e, e']
    unfold verifyQuery
    simp only
    rw [queryLoop_blocked (lh := k) (lh' := k') (r := v) (r' := v') (ros := rest) (ros' := rest') (by omega) (by omega)]
    intro x hx
    have := (List.of_mem_zip (a := x.1) (b := x.2) hx).1
    simpa using this

/-! ### The two builds agree otherwise -/

/-- C101: without overflow checks the index is shifted as a 64-bit word is, by the difference of the two words. -/
theorem C101_shift {i a b : Nat} (hi : i < 2 ^ 64) (ha : a < 2 ^ 64) (hb : b < 2 ^ 64) :
    shrWrapped i a b = (UInt64.ofNat i >>> (UInt64.ofNat a - UInt64.ofNat b)).toNat := by
  have h1 : (UInt64.ofNat a - UInt64.ofNat b).toNat % 64 = (((a : Int) - b) % 64).toNat := by
    rw [UInt64.toNat_sub, UInt64.toNat_ofNat_of_lt' ha, UInt64.toNat_ofNat_of_lt' hb]
    omega
  rw [UInt64.toNat_shiftRight, UInt64.toNat_ofNat_of_lt' hi, h1]
  rfl
/-- The tallest matrix in a domain one bit smaller: the index is shifted by 63. -/
example : shrWrapped (2 ^ 63) 4 5 = 1 := by decide +kernel

theorem shrWrapped_eq {i a b : Nat} (h : b ≤ a) (ha : a < 64) : shrWrapped i a b = i >>> (a - b) := by
  unfold shrWrapped
  congr 1
  omega

theorem matLoopR_eq {N : Nat} {genV : Nat → K} {g : K} {cfg : Config} {alpha : F} {top idx : Nat} (hN : top ≤ N)
    (ht : top < 64) :
    ∀ (l : List (List K × Dom K × List (F × List F))) (vs : VerifyState F),
      (∀ e ∈ l, e.2.1.logN + cfg.logBlowup ≤ top) →
      matLoopR N genV g cfg alpha top idx l vs = matLoop genV g cfg alpha top idx l vs
  | [], _, _ => rfl
  | (row, d, ps) :: l, vs, h => by
    have hd : d.logN + cfg.logBlowup ≤ top := h _ (List.mem_cons_self ..)
    have ih := fun v => matLoopR_eq (genV := genV) (g := g) (alpha := alpha) (idx := idx) hN ht l v
      (fun e he => h e (List.mem_cons_of_mem _ he))
    rw [matLoop, matLoopR]
    simp only [Dom.size, log2Strict_pow, Option.bind_eq_bind, Option.bind_some, if_pos hd, if_pos (hd.trans hN),
      shrWrapped_eq hd ht, ih]

theorem max_height {cfg : Config} {top mh : Nat} {ms : List (Dom K × List (F × List F))}
    (h : ∀ m ∈ ms, m.1.logN + cfg.logBlowup ≤ top) (hm : (ms.map fun m => m.1.size <<< cfg.logBlowup).max? = some mh) :
    ∃ k, log2Strict mh = some k ∧ k ≤ top := by
  have := List.max?_mem hm
  obtain ⟨m, hmem, rfl⟩ := List.mem_map.1 this
  refine ⟨m.1.logN + cfg.logBlowup, ?_, h m hmem⟩
  rw [Dom.size, Nat.shiftLeft_eq, ← pow_add, log2Strict_pow]

theorem roundLoopR_eq {N : Nat} {MI : InMmcs K SI CI DI PI} {genV : Nat → K} {g : K} {cfg : Config} {alpha : F}
    {top q idx : Nat} (hN : top ≤ N) (ht : top < 64) :
    ∀ (l : List ((List (List K) × PI) × VerifierRound K F CI)) (vs : VerifyState F),
      (∀ p ∈ l, ∀ m ∈ p.2.2, m.1.logN + cfg.logBlowup ≤ top) →
      roundLoopR N MI genV g cfg alpha top q idx l vs = roundLoop MI genV g cfg alpha top q idx l vs
  | [], _, _ => rfl
  | (o, c, ms) :: l, vs, h => by
    have hms : ∀ m ∈ ms, m.1.logN + cfg.logBlowup ≤ top := h _ (List.mem_cons_self ..)
    have ih := fun v => roundLoopR_eq (MI := MI) (genV := genV) (g := g) (alpha := alpha) (q := q) (idx := idx) hN ht l v
      (fun e he => h e (List.mem_cons_of_mem _ he))
    rw [roundLoop, roundLoopR]
    cases hm : (ms.map fun m => m.1.size <<< cfg.logBlowup).max? with
    | none => rfl
    | some mh =>
    obtain ⟨k, hk, hkt⟩ := max_height hms hm
    simp only [Res.ofOption_some, Res.bind_ok, hk, if_pos hkt]
    rw [matLoopR_eq hN ht _ _ (fun e he => hms e.2 (List.of_mem_zip (a := e.1) (b := e.2) he).2)]
    simp only [ih]

theorem filterMap_range_skip {β : Type} {f : Nat → Option β} {top : Nat} (hf : ∀ h, top < h → f h = none) :
    ∀ d, (List.range (top + d + 1)).reverse.filterMap f = (List.range (top + 1)).reverse.filterMap f
  | 0 => rfl
  | d + 1 => by
    rw [List.range_succ, List.reverse_append, List.reverse_singleton, List.singleton_append, List.filterMap_cons,
      hf _ (by omega)]
    exact filterMap_range_skip hf d

theorem matLoop_above {genV : Nat → K} {g : K} {cfg : Config} {alpha : F} {top idx : Nat} :
    ∀ (l : List (List K × Dom K × List (F × List F))) (vs w : VerifyState F), (∀ h, top < h → vs h = none) →
      matLoop genV g cfg alpha top idx l vs = some w → ∀ h, top < h → w h = none
  | [], vs, w, hv, h => by cases h; exact hv
  | (row, d, ps) :: l, vs, w, hv, h => by
    rw [matLoop] at h
    simp only [Dom.size, log2Strict_pow, Option.bind_eq_bind, Option.bind_some] at h
    split at h
    case isFalse => cases h
    case isTrue hle =>
      obtain ⟨r, -, h⟩ := Option.bind_eq_some_iff.1 h
      refine matLoop_above l _ w ?_ h
      intro k hk
      rw [Function.update_of_ne (by omega)]
      exact hv k hk

theorem roundLoop_above {MI : InMmcs K SI CI DI PI} {genV : Nat → K} {g : K} {cfg : Config} {alpha : F}
    {top q idx : Nat} :
    ∀ (l : List ((List (List K) × PI) × VerifierRound K F CI)) (vs w : VerifyState F), (∀ h, top < h → vs h = none) →
      roundLoop MI genV g cfg alpha top q idx l vs = .ok w → ∀ h, top < h → w h = none
  | [], vs, w, hv, h => by cases h; exact hv
  | (o, c, ms) :: l, vs, w, hv, h => by
    rw [roundLoop] at h
    obtain ⟨mh, -, h⟩ := Res.bind_eq_ok.1 h
    obtain ⟨lm, -, h⟩ := Res.bind_eq_ok.1 h
    split at h
    case isFalse => cases h
    case isTrue =>
      obtain ⟨acc, -, h⟩ := Res.bind_eq_ok.1 h
      split at h
      case isFalse => cases h
      case isTrue =>
        obtain ⟨st, h1, h⟩ := Res.bind_eq_ok.1 h
        exact roundLoop_above l st w (matLoop_above _ _ _ hv (Res.ofOption_eq_ok.1 h1)) h

/-- **C101**, the exact difference: when no claimed matrix is taller than the domain of the proof, the two builds give
the same verdict. -/
theorem C101_agree {N : Nat} {genV : Nat → K} {g : K} {MI : InMmcs K SI CI DI PI} {M : Mmcs F S C D P}
    {Kc : Chall Ch C F W} {cfg : Config} {rounds : List (VerifierRound K F CI)}
    {proof : FriProof F C P W (List (List (List K) × PI))} {ch : Ch} (hd : cfg.debug = false)
    (hN : proof.commitPhaseCommits.length + cfg.logBlowup ≤ N) (h64 : N < 64)
    (h : ∀ r ∈ rounds, ∀ m ∈ r.2, m.1.logN + cfg.logBlowup ≤ proof.commitPhaseCommits.length + cfg.logBlowup) :
    verifyR N genV g MI M Kc cfg rounds proof ch = verify genV g MI M Kc cfg rounds proof ch := by
  have hc : { cfg with debug := false } = cfg := by rw [← hd]
  unfold verifyR verify
  rw [hc]
  congr 1
  funext ⟨alpha, ch1⟩
  simp only
  congr 1
  funext ⟨challenges, ch2⟩
  simp only
  congr 1
  congr 1
  congr 1
  funext q idx ip
  unfold verifyInputR verifyInput
  rw [roundLoopR_eq hN (by omega) _ _ (fun p hp => h p.2 (List.of_mem_zip (a := p.1) (b := p.2) hp).2)]
  generalize hst : roundLoop MI genV g cfg alpha (proof.commitPhaseCommits.length + cfg.logBlowup) q idx (ip.zip rounds)
    (fun _ => none) = r
  cases r with
  | panic => rfl
  | err e => rfl
  | ok st =>
    simp only [Res.bind_ok]
    have habove := roundLoop_above _ _ _ (fun _ _ => rfl) hst
    obtain ⟨d, rfl⟩ := Nat.exists_eq_add_of_le hN
    rw [filterMap_range_skip (fun k hk => by rw [habove k hk]; rfl) d]

/-- A commitment scheme that accepts every opening. -/
def anyInK (K : Type) : InMmcs K Unit Unit Unit Unit :=
  ⟨fun _ _ => none, fun _ => none, fun _ _ _ => none, fun _ _ _ _ => some true⟩

/-- The same for the layers. -/
def anyLayerF (F : Type) : Mmcs F Unit Unit Unit Unit :=
  ⟨fun _ _ => none, fun _ => none, fun _ _ _ => none, fun _ _ _ _ => some true⟩

/-- A challenger that always gives the same challenge and the index 0. -/
def constChall (β : F) : Chall Unit Unit F Unit :=
  ⟨fun _ _ => some (), fun _ => some (β, ()), fun _ _ _ => some (true, ()), fun _ _ => some (0, ())⟩

/-- A proof with two layers of zeroes and the rows `p` and `q` of two matrices. -/
def zeroProof (p q : K) : FriProof F Unit Unit Unit (List (List (List K) × Unit)) :=
  ⟨[(), ()], [⟨[([[p], [q]], ())], [([[0, 0]], ()), ([[0, 0]], ())]⟩], 0, ()⟩

/-- The claim that the matrix of height `2 ^ 2` has the value `v` at `z`. -/
def claimLow (z v : F) : Dom K × List (F × List F) := (⟨1, 1⟩, [(z, [v])])

/-- The claim that a matrix of height `2 ^ 4`, taller than the domain of `zeroProof`, has the value `v` at `z`. -/
def claimTall (z v : F) : Dom K × List (F × List F) := (⟨3, 1⟩, [(z, [v])])

/-- A wrong value of a matrix of legal height is refused on its own, in both builds.  Together with a claim about a
taller matrix it is accepted by the build without overflow checks, and the other build panics. -/
theorem C101_instance (genV : Nat → K) (h1 : algebraMap K F (genV 1) ≠ 1) (g p q : K)
    (β z v u : F) (hz : -z + algebraMap K F g ≠ 0) (hv : v ≠ algebraMap K F p) :
    verify genV g (anyInK K) (anyLayerF F) (constChall β) ⟨1, 1, 0, true⟩ [((), [claimLow z v])] (zeroProof p q) () =
        .panic ∧
      verifyR 27 genV g (anyInK K) (anyLayerF F) (constChall β) ⟨1, 1, 0, true⟩ [((), [claimLow z v])] (zeroProof p q) () =
        .panic ∧
      verify genV g (anyInK K) (anyLayerF F) (constChall β) ⟨1, 1, 0, true⟩ [((), [claimLow z v, claimTall z u])]
        (zeroProof p q) () = .panic ∧
      verifyR 27 genV g (anyInK K) (anyLayerF F) (constChall β) ⟨1, 1, 0, true⟩ [((), [claimLow z v, claimTall z u])]
        (zeroProof p q) () = .ok () := by
  have e2 : log2Strict 2 = some 1 := by decide +kernel
  have e4 : log2Strict 4 = some 2 := by decide +kernel
  have e8 : log2Strict 8 = some 3 := by decide +kernel
  have e16 : log2Strict 16 = some 4 := by decide +kernel
  have hx : algebraMap K F (genV 1) - 1 ≠ 0 := sub_ne_zero.2 h1
  have hne : -v + algebraMap K F p ≠ 0 := fun h => hv (by rw [neg_add_eq_zero] at h; exact h)
  refine ⟨?_, ?_, ?_, ?_⟩
  · simp [verify, verifyShapeAndSampleChallenges, sampleBetas, sampleIndices, constChall, zeroProof, Res.ofOption, expect,
      verifyChallenges, verifyInput, roundLoop, Dom.size, e2, e4, anyInK, anyLayerF, claimLow, matLoop,
      pointLoop, columnLoop, revBits, hz, List.range_succ, Function.update, verifyQuery, queryLoop, nextRo, foldRow, hx, hne]
  · simp [verifyR, verifyShapeAndSampleChallenges, sampleBetas, sampleIndices, constChall, zeroProof, Res.ofOption, expect,
      verifyChallenges, verifyInputR, roundLoopR, Dom.size, e2, e4, anyInK, anyLayerF, claimLow, matLoopR,
      pointLoop, columnLoop, revBits, shrWrapped, hz, List.range_succ, Function.update, verifyQuery, queryLoop, nextRo,
      foldRow, hx, hne]
  · simp [verify, verifyShapeAndSampleChallenges, sampleBetas, sampleIndices, constChall, zeroProof, Res.ofOption, expect,
      verifyChallenges, verifyInput, roundLoop, Dom.size, e16, anyInK, claimLow, claimTall]
  · simp [verifyR, verifyShapeAndSampleChallenges, sampleBetas, sampleIndices, constChall, zeroProof, Res.ofOption, expect,
      verifyChallenges, verifyInputR, roundLoopR, Dom.size, e2, e8, e16, anyInK, anyLayerF, claimLow, claimTall, matLoopR,
      pointLoop, columnLoop, revBits, shrWrapped, hz, List.range_succ, Function.update, verifyQuery, queryLoop, nextRo,
      foldRow, hx]

/-- With the right value the claim of legal height is accepted, so the hypotheses of `C101_checked` and `C101_agree`
are met. -/
theorem C101_instance_accepted (genV : Nat → K) (h1 : algebraMap K F (genV 1) ≠ 1) (g p q : K) (β z : F)
    (hz : -z + algebraMap K F g ≠ 0) :
    verify genV g (anyInK K) (anyLayerF F) (constChall β) ⟨1, 1, 0, true⟩ [((), [claimLow z (algebraMap K F p)])]
        (zeroProof p q) () = .ok () ∧
      openedHeights 1 [((), [(claimLow z (algebraMap K F p) : Dom K × List (F × List F))])] [([[p], [q]], ())] = [2] := by
  have e2 : log2Strict 2 = some 1 := by decide +kernel
  have e4 : log2Strict 4 = some 2 := by decide +kernel
  have hx : algebraMap K F (genV 1) - 1 ≠ 0 := sub_ne_zero.2 h1
  constructor
  · simp [verify, verifyShapeAndSampleChallenges, sampleBetas, sampleIndices, constChall, zeroProof, Res.ofOption, expect,
      verifyChallenges, verifyInput, roundLoop, Dom.size, e2, e4, anyInK, anyLayerF, claimLow, matLoop, Config.blowup,
      pointLoop, columnLoop, revBits, hz, List.range_succ, Function.update, verifyQuery, queryLoop, nextRo, foldRow, hx]
  · simp [openedHeights, claimLow]

end TapStark.Pcs
