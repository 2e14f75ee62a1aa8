import Verif.Props.Fri

/-!
C41: which invalid proofs the FRI verifier reports as errors, and on which it panics.
-/

set_option linter.unusedSectionVars false

namespace TapStark.Fri

variable {F : Type} [Field F] [DecidableEq F]

section

variable {S C D P : Type}

/-- The value `z`, opened at the queried position in round `j`, fits the round before: it is the line through the pair of
that round, taken at its challenge, plus the reduced opening of the height.  `first` is what is asked of round 0. -/
def Fits (gen : Nat → F) (betas : List F) (ros : List (Nat × F)) (top idx : Nat) (openings : List (List (List F) × P))
    (first : F → Prop) : Nat → F → Prop
  | 0, z => first z
  | i + 1, z => ∀ x y π, openings[i]? = some ([[x, y]], π) →
      z = lineAt (gen (top - i) ^ revBits (top - i - 1) (idx / 2 ^ (i + 1))) (betas.getD i 0) x y +
        roAt ros (top - (i + 1))

/-- Round `j` is in order: one pair, which fits, and which the commitment scheme accepts. -/
def RoundPasses (gen : Nat → F) (M : Mmcs F S C D P) (commits : List C) (betas : List F) (ros : List (Nat × F))
    (top idx q : Nat) (openings : List (List (List F) × P)) (first : F → Prop) (j : Nat) : Prop :=
  ∃ x y π c, openings[j]? = some ([[x, y]], π) ∧ commits[j]? = some c ∧
    Fits gen betas ros top idx openings first j (if idx / 2 ^ j % 2 = 0 then x else y) ∧
    M.verifyBatch q [[x, y]] π c = some true

/-- Round `j` opens one row with a fitting value, and the commitment scheme rejects the opening. -/
def RoundRejects (gen : Nat → F) (M : Mmcs F S C D P) (commits : List C) (betas : List F) (ros : List (Nat × F))
    (top idx q : Nat) (openings : List (List (List F) × P)) (first : F → Prop) (j : Nat) : Prop :=
  ∃ row π c z, openings[j]? = some ([row], π) ∧ commits[j]? = some c ∧ row[idx / 2 ^ j % 2]? = some z ∧
    Fits gen betas ros top idx openings first j z ∧ M.verifyBatch q [row] π c = some false

/-- What the rounds from height `top` on do. -/
theorem queryLoop_outcome {gen : Nat → F} {N : Nat} (hg : TwoAdic gen N) {M : Mmcs F S C D P} {q logMax b : Nat} :
    ∀ (n : Nat) (commits : List C) (openings : List (List (List F) × P)) (betas : List F) (idx : Nat) (fe : F)
      (ros : List (Nat × F)),
      commits.length = n → openings.length = n → betas.length = n → b + n ≤ N → b + n ≤ logMax → RosOk ros (b + n) →
      ((∃ v, queryLoop gen M q logMax ((downList b n).zip (commits.zip (openings.zip betas))) idx fe ros =
          .ok (v, idx / 2 ^ n)) ∧
        (∀ j < n, RoundPasses gen M commits betas ros (b + n) idx q openings
          (fun z => b + n < logMax → z = fe + roAt ros (b + n)) j)) ∨
      ∃ j < n, (∀ i < j, RoundPasses gen M commits betas ros (b + n) idx q openings
          (fun z => b + n < logMax → z = fe + roAt ros (b + n)) i) ∧
        ¬ RoundPasses gen M commits betas ros (b + n) idx q openings
          (fun z => b + n < logMax → z = fe + roAt ros (b + n)) j ∧
        ((queryLoop gen M q logMax ((downList b n).zip (commits.zip (openings.zip betas))) idx fe ros = .err .mmcs ∧
          RoundRejects gen M commits betas ros (b + n) idx q openings
            (fun z => b + n < logMax → z = fe + roAt ros (b + n)) j) ∨
        (queryLoop gen M q logMax ((downList b n).zip (commits.zip (openings.zip betas))) idx fe ros = .panic ∧
          ¬ RoundRejects gen M commits betas ros (b + n) idx q openings
            (fun z => b + n < logMax → z = fe + roAt ros (b + n)) j)) := by
  intro n
  induction n with
  | zero =>
    intro commits openings betas idx fe ros hc ho hb hN hl hr
    refine .inl ⟨⟨fe, ?_⟩, by simp⟩
    simp [downList, queryLoop]
  | succ n ih =>
    intro commits openings betas idx fe ros hc ho hb hN hl hr
    match commits, openings, betas, hc, ho, hb with
    | c :: commits, (rows, π) :: openings, β :: betas, hc, ho, hb =>
      simp only [downList, List.zip_cons_cons]
      rw [queryLoop]
      rw [← Nat.add_assoc] at hr hN hl ⊢
      obtain ⟨r1, r2, r3⟩ := nextRo_spec hr fe
      generalize hnr : nextRo (b + n + 1) fe ros = nr at r1 r2 r3
      obtain ⟨fe1, ros1⟩ := nr
      simp only at r1 r2 r3 ⊢
      set first : F → Prop := fun z => b + n + 1 < logMax → z = fe + roAt ros (b + n + 1) with hfirst
      have hcmp : b + n < logMax - 1 ↔ b + n + 1 < logMax := by omega
      -- the first round is at fault
      have stop : ∀ (r : Res (F × Nat)),
          ¬ RoundPasses gen M (c :: commits) (β :: betas) ros (b + n + 1) idx q ((rows, π) :: openings) first 0 →
          ((r = .err .mmcs ∧ RoundRejects gen M (c :: commits) (β :: betas) ros (b + n + 1) idx q ((rows, π) :: openings)
            first 0) ∨ (r = .panic ∧
            ¬ RoundRejects gen M (c :: commits) (β :: betas) ros (b + n + 1) idx q ((rows, π) :: openings) first 0)) →
          ((∃ v, r = .ok (v, idx / 2 ^ (n + 1))) ∧ ∀ j < n + 1,
            RoundPasses gen M (c :: commits) (β :: betas) ros (b + n + 1) idx q ((rows, π) :: openings) first j) ∨
          ∃ j < n + 1, (∀ i < j,
            RoundPasses gen M (c :: commits) (β :: betas) ros (b + n + 1) idx q ((rows, π) :: openings) first i) ∧
            ¬ RoundPasses gen M (c :: commits) (β :: betas) ros (b + n + 1) idx q ((rows, π) :: openings) first j ∧
            ((r = .err .mmcs ∧ RoundRejects gen M (c :: commits) (β :: betas) ros (b + n + 1) idx q ((rows, π) :: openings)
              first j) ∨ (r = .panic ∧
              ¬ RoundRejects gen M (c :: commits) (β :: betas) ros (b + n + 1) idx q ((rows, π) :: openings) first j)) :=
        fun r h1 h2 => .inr ⟨0, Nat.succ_pos _, fun i hi => absurd hi (Nat.not_lt_zero _), h1, h2⟩
      by_cases hlen : rows.length = 1
      case neg =>
        rw [if_neg hlen]
        refine stop _ ?_ (.inr ⟨rfl, ?_⟩)
        · rintro ⟨x, y, π', c', h1, _⟩
          simp only [List.getElem?_cons_zero, Option.some.injEq, Prod.mk.injEq] at h1
          rw [h1.1] at hlen
          exact hlen rfl
        · rintro ⟨row, π', c', z, h1, _⟩
          simp only [List.getElem?_cons_zero, Option.some.injEq, Prod.mk.injEq] at h1
          rw [h1.1] at hlen
          exact hlen rfl
      rw [if_pos hlen]
      obtain ⟨row, rfl⟩ := List.length_eq_one_iff.mp hlen
      simp only [List.getElem?_cons_zero, Res.ofOption_some, Res.bind_ok]
      have hrow : ∀ {row' : List F} {π' : P}, ((([row], π) :: openings : List (List (List F) × P))[0]? = some ([row'], π')) →
          row' = row ∧ π' = π := by
        intro row' π' h
        simp only [List.getElem?_cons_zero, Option.some.injEq, Prod.mk.injEq, List.cons.injEq, and_true] at h
        exact ⟨h.1.symm, h.2.symm⟩
      have hpos : idx / 2 ^ 0 % 2 = idx % 2 := by simp
      cases hz : row[idx % 2]? with
      | none =>
        refine stop _ ?_ (.inr ⟨rfl, ?_⟩)
        · rintro ⟨x, y, π', c', h1, _⟩
          obtain ⟨rfl, _⟩ := hrow h1
          rcases Nat.mod_two_eq_zero_or_one idx with h0 | h0 <;> rw [h0] at hz <;> cases hz
        · rintro ⟨row', π', c', z, h1, _, h3, _⟩
          obtain ⟨rfl, _⟩ := hrow h1
          rw [hpos, hz] at h3
          cases h3
      | some z =>
      simp only [Res.ofOption_some, Res.bind_ok]
      have hpair : ∀ x y : F, row = [x, y] → (if idx / 2 ^ 0 % 2 = 0 then x else y) = z := by
        rintro x y rfl
        rw [hpos]
        rcases Nat.mod_two_eq_zero_or_one idx with h0 | h0 <;> rw [h0] at hz <;> cases hz <;> rw [h0] <;> rfl
      by_cases hfit : first z
      case neg =>
        rw [if_pos]
        · refine stop _ ?_ (.inr ⟨rfl, ?_⟩)
          · rintro ⟨x, y, π', c', h1, _, h3, _⟩
            obtain ⟨h1, _⟩ := hrow h1
            rw [hpair x y h1.symm] at h3
            exact hfit h3
          · rintro ⟨row', π', c', z', h1, _, h3, h4, _⟩
            obtain ⟨rfl, _⟩ := hrow h1
            rw [hpos, hz] at h3
            cases h3
            exact hfit h4
        · rw [hfirst] at hfit
          rw [Classical.not_imp] at hfit
          exact ⟨hcmp.mpr hfit.1, by rw [r1]; exact fun h => hfit.2 h.symm⟩
      rw [if_neg (by
        rintro ⟨h1, h2⟩
        rw [r1] at h2
        exact h2 (hfit (hcmp.mp h1)).symm)]
      have hcom : ∀ {c' : C}, (c :: commits)[0]? = some c' → c' = c := by
        intro c' h
        simpa using h.symm
      cases hacc : M.verifyBatch q [row] π c with
      | none =>
        refine stop _ ?_ (.inr ⟨rfl, ?_⟩)
        · rintro ⟨x, y, π', c', h1, h2, _, h4⟩
          obtain ⟨rfl, rfl⟩ := hrow h1
          rw [hcom h2, hacc] at h4
          cases h4
        · rintro ⟨row', π', c', z', h1, h2, _, _, h4⟩
          obtain ⟨rfl, rfl⟩ := hrow h1
          rw [hcom h2, hacc] at h4
          cases h4
      | some acc =>
      simp only [Res.ofOption_some, Res.bind_ok]
      cases acc with
      | false =>
        refine stop _ ?_ (.inl ⟨rfl, row, π, c, z, rfl, rfl, by rw [hpos]; exact hz, hfit, hacc⟩)
        rintro ⟨x, y, π', c', h1, h2, _, h4⟩
        obtain ⟨rfl, rfl⟩ := hrow h1
        rw [hcom h2, hacc] at h4
        cases h4
      | true =>
      rw [if_pos rfl]
      cases hfold : foldRow gen (idx / 2) (b + n) β row with
      | none =>
        refine stop _ ?_ (.inr ⟨rfl, ?_⟩)
        · rintro ⟨x, y, π', c', h1, _⟩
          obtain ⟨rfl, _⟩ := hrow h1
          rw [foldRow_eq hg hN] at hfold
          cases hfold
        · rintro ⟨row', π', c', z', h1, h2, _, _, h4⟩
          obtain ⟨rfl, rfl⟩ := hrow h1
          rw [hcom h2, hacc] at h4
          cases h4
      | some fe2 =>
      simp only [Res.ofOption_some, Res.bind_ok]
      obtain ⟨x0, y0, rfl, hv⟩ := foldRow_some hg hN hfold
      -- the first round passes
      have hfirst0 : RoundPasses gen M (c :: commits) (β :: betas) ros (b + n + 1) idx q (([[x0, y0]], π) :: openings)
          first 0 := ⟨x0, y0, π, c, rfl, rfl, by rw [hpair x0 y0 rfl]; exact hfit, hacc⟩
      have hshift : ∀ (j : Nat) (z : F), Fits gen (β :: betas) ros (b + n + 1) idx (([[x0, y0]], π) :: openings) first (j + 1) z ↔
          Fits gen betas ros1 (b + n) (idx / 2) openings (fun z => b + n < logMax → z = fe2 + roAt ros1 (b + n)) j z := by
        intro j z
        cases j with
        | zero =>
          simp only [Fits, List.getElem?_cons_zero, Option.some.injEq, Prod.mk.injEq, List.cons.injEq, and_true,
            List.getD_cons_zero, Nat.sub_zero, Nat.zero_add, pow_one, Nat.add_sub_cancel]
          rw [r3 (b + n) (by omega), hv]
          constructor
          · exact fun h _ => h x0 y0 π ⟨⟨rfl, rfl⟩, rfl⟩
          · rintro h _ _ _ ⟨⟨rfl, rfl⟩, _⟩
            exact h (by omega)
        | succ i =>
          simp only [Fits, List.getElem?_cons_succ, List.getD_cons_succ]
          rw [show b + n + 1 - (i + 1) = b + n - i by omega, show b + n + 1 - (i + 1 + 1) = b + n - (i + 1) by omega,
            r3 (b + n - (i + 1)) (by omega), Nat.div_div_eq_div_mul, ← pow_succ']
      have hdiv : ∀ j, idx / 2 ^ (j + 1) = idx / 2 / 2 ^ j := fun j => by
        rw [Nat.div_div_eq_div_mul, ← pow_succ']
      have hP : ∀ j, RoundPasses gen M (c :: commits) (β :: betas) ros (b + n + 1) idx q (([[x0, y0]], π) :: openings) first
          (j + 1) ↔ RoundPasses gen M commits betas ros1 (b + n) (idx / 2) q openings
            (fun z => b + n < logMax → z = fe2 + roAt ros1 (b + n)) j := by
        intro j
        simp only [RoundPasses, List.getElem?_cons_succ, hshift, hdiv]
      have hR : ∀ j, RoundRejects gen M (c :: commits) (β :: betas) ros (b + n + 1) idx q (([[x0, y0]], π) :: openings) first
          (j + 1) ↔ RoundRejects gen M commits betas ros1 (b + n) (idx / 2) q openings
            (fun z => b + n < logMax → z = fe2 + roAt ros1 (b + n)) j := by
        intro j
        simp only [RoundRejects, List.getElem?_cons_succ, hshift, hdiv]
      rcases ih commits openings betas (idx / 2) fe2 ros1 (by simpa using hc) (by simpa using ho) (by simpa using hb)
        (by omega) (by omega) (by simpa using r2) with ⟨h1, h2⟩ | ⟨j, hj, h1, h2, h3⟩
      · left
        rw [← hdiv] at h1
        refine ⟨h1, fun j hj => ?_⟩
        cases j with
        | zero => exact hfirst0
        | succ j => exact (hP j).mpr (h2 j (by omega))
      · right
        refine ⟨j + 1, by omega, fun i hi => ?_, fun h => h2 ((hP j).mp h), ?_⟩
        · cases i with
          | zero => exact hfirst0
          | succ i => exact (hP i).mpr (h1 i (by omega))
        · rw [hR]
          exact h3

/-- **C41, exactly** (a query).  The verifier accepts a query exactly if every round is in order.  It returns an error,
always that of the commitment scheme, exactly if some round has a fitting value but a rejected opening and all rounds
before it are in order.  It panics in every other case: when the first round not in order opens other than one row, has
no value at the queried position, has a value that does not fit, an opening the commitment scheme cannot process, or an
accepted row that is no pair. -/
theorem C41_query_exact {gen : Nat → F} {N : Nat} (hg : TwoAdic gen N) {M : Mmcs F S C D P} {cfg : Config}
    {commits : List C} {idx q : Nat} {openings : List (List (List F) × P)} {betas : List F} {ros : List (Nat × F)}
    {top : Nat} (htop : top = commits.length + cfg.logBlowup) (hN : top ≤ N)
    (ho : openings.length = commits.length) (hb : betas.length = commits.length) (hr : RosOk ros top)
    (hidx : idx < 2 ^ top) :
    ((∃ v, verifyQuery gen M cfg commits idx q openings betas ros top = .ok v) ↔
      ∀ j < commits.length, RoundPasses gen M commits betas ros top idx q openings (fun _ => True) j) ∧
    (∀ e, verifyQuery gen M cfg commits idx q openings betas ros top = .err e ↔ e = .mmcs ∧
      ∃ j < commits.length, (∀ i < j, RoundPasses gen M commits betas ros top idx q openings (fun _ => True) i) ∧
        RoundRejects gen M commits betas ros top idx q openings (fun _ => True) j) ∧
    (verifyQuery gen M cfg commits idx q openings betas ros top = .panic ↔
      ∃ j < commits.length, (∀ i < j, RoundPasses gen M commits betas ros top idx q openings (fun _ => True) i) ∧
        ¬ RoundPasses gen M commits betas ros top idx q openings (fun _ => True) j ∧
        ¬ RoundRejects gen M commits betas ros top idx q openings (fun _ => True) j) := by
  have hzl : (commits.zip (openings.zip betas)).length = commits.length := by simp [ho, hb]
  have htop' : top = cfg.logBlowup + commits.length := by omega
  subst htop'
  have hexcl : ∀ j, RoundPasses gen M commits betas ros (cfg.logBlowup + commits.length) idx q openings (fun _ => True) j →
      ¬ RoundRejects gen M commits betas ros (cfg.logBlowup + commits.length) idx q openings (fun _ => True) j := by
    rintro j ⟨x, y, π, c, h1, h2, -, h4⟩ ⟨row, π', c', z, k1, k2, -, -, k4⟩
    rw [h1] at k1
    cases k1
    rw [h2] at k2
    cases k2
    rw [h4] at k4
    cases k4
  -- at most one round is the first at fault
  have huniq : ∀ {i j}, (∀ k < i, RoundPasses gen M commits betas ros (cfg.logBlowup + commits.length) idx q openings
      (fun _ => True) k) →
      ¬ RoundPasses gen M commits betas ros (cfg.logBlowup + commits.length) idx q openings (fun _ => True) i →
      (∀ k < j, RoundPasses gen M commits betas ros (cfg.logBlowup + commits.length) idx q openings
      (fun _ => True) k) →
      ¬ RoundPasses gen M commits betas ros (cfg.logBlowup + commits.length) idx q openings (fun _ => True) j → i = j := by
    intro i j h1 h2 h3 h4
    rcases Nat.lt_trichotomy i j with h | h | h
    · exact absurd (h3 i h) h2
    · exact h
    · exact absurd (h1 j h) h4
  have key := queryLoop_outcome hg (M := M) (q := q) (logMax := cfg.logBlowup + commits.length) (b := cfg.logBlowup)
    commits.length commits openings betas idx 0 ros rfl ho hb hN le_rfl hr
  simp only [lt_irrefl, false_imp_iff] at key
  unfold verifyQuery
  rw [range_reverse_down, zip_downList _ _ commits.length _ hzl]
  dsimp only
  rcases key with ⟨⟨v, h1⟩, h2⟩ | ⟨j, hj, h1, h2, ⟨h3, h4⟩ | ⟨h3, h4⟩⟩
  · rw [h1]
    have hlt : idx / 2 ^ commits.length < cfg.blowup := by
      rw [Config.blowup, Nat.div_lt_iff_lt_mul (Nat.two_pow_pos _), ← pow_add]
      exact hidx
    simp only [Res.bind_ok, if_neg (fun h : cfg.debug = true ∧ ¬ idx / 2 ^ commits.length < cfg.blowup => h.2 hlt)]
    refine ⟨⟨fun _ => h2, fun _ => ⟨v, rfl⟩⟩, fun e => ⟨fun h => (by cases h), ?_⟩, ⟨fun h => (by cases h), ?_⟩⟩
    · rintro ⟨-, j, hj, -, h⟩
      exact absurd h (hexcl j (h2 j hj))
    · rintro ⟨j, hj, -, h, -⟩
      exact absurd (h2 j hj) h
  · rw [h3]
    refine ⟨⟨fun ⟨v, h⟩ => (by cases h), fun h => absurd (h j hj) h2⟩, fun e => ⟨?_, ?_⟩, ⟨fun h => (by cases h), ?_⟩⟩
    · intro h
      cases h
      exact ⟨rfl, j, hj, h1, h4⟩
    · rintro ⟨rfl, -⟩
      rfl
    · rintro ⟨i, hi, k1, k2, k3⟩
      obtain rfl := huniq k1 k2 h1 h2
      exact absurd h4 k3
  · rw [h3]
    refine ⟨⟨fun ⟨v, h⟩ => (by cases h), fun h => absurd (h j hj) h2⟩, fun e => ⟨fun h => (by cases h), ?_⟩,
      ⟨fun _ => ⟨j, hj, h1, h2, h4⟩, fun _ => rfl⟩⟩
    rintro ⟨-, i, hi, k1, k2⟩
    obtain rfl := huniq k1 (fun h => hexcl i h k2) h1 h2
    exact absurd k2 h4

/-- The hypotheses can be met, and all three outcomes occur in the second round: with a pair accepted in the first round
and `w` the value that fits it, a second pair with this value is accepted, or reported as an error, as the commitment
scheme says; with another value the verifier panics, whatever the scheme says. -/
theorem C41_instance {gen : Nat → F} {N : Nat} (hg : TwoAdic gen N) (hN : 2 ≤ N) {M : Mmcs F S C D P} {cfg : Config}
    (hcfg : cfg.logBlowup = 0) (c1 c2 : C) (π1 π2 : P) (q : Nat) (a b β1 β2 w w' : F)
    (hw : w = lineAt (gen 2 ^ revBits 1 0) β1 a b) (h1 : M.verifyBatch q [[a, b]] π1 c1 = some true) :
    (M.verifyBatch q [[w, w']] π2 c2 = some true →
      ∃ v, verifyQuery gen M cfg [c1, c2] 0 q [([[a, b]], π1), ([[w, w']], π2)] [β1, β2] [] 2 = .ok v) ∧
    (M.verifyBatch q [[w, w']] π2 c2 = some false →
      verifyQuery gen M cfg [c1, c2] 0 q [([[a, b]], π1), ([[w, w']], π2)] [β1, β2] [] 2 = .err .mmcs) ∧
    (verifyQuery gen M cfg [c1, c2] 0 q [([[a, b]], π1), ([[w + 1, w']], π2)] [β1, β2] [] 2 = .panic) := by
  have hros : RosOk ([] : List (Nat × F)) 2 := ⟨by simp, by simp⟩
  have key := fun o : List (List F) × P => C41_query_exact hg (M := M) (cfg := cfg) (commits := [c1, c2]) (idx := 0) (q := q)
    (openings := [([[a, b]], π1), o]) (betas := [β1, β2]) (ros := []) (top := 2) (by simp [hcfg]) hN rfl rfl hros (by norm_num)
  have hp0 : ∀ rest : List (List (List F) × P), RoundPasses gen M [c1, c2] [β1, β2] [] 2 0 q (([[a, b]], π1) :: rest)
      (fun _ => True) 0 := fun rest => ⟨a, b, π1, c1, rfl, rfl, trivial, h1⟩
  have hfit : Fits gen [β1, β2] [] 2 0 [([[a, b]], π1), ([[w, w']], π2)] (fun _ => True) 1 w := by
    rintro x y π h
    cases h
    simpa [roAt] using hw
  refine ⟨fun h => ?_, fun h => ?_, ?_⟩
  · refine (key _).1.mpr fun j hj => ?_
    match j, hj with
    | 0, _ => exact hp0 _
    | 1, _ => exact ⟨w, w', π2, c2, rfl, rfl, by simpa using hfit, h⟩
  · refine ((key _).2.1 _).mpr
      ⟨rfl, 1, by simp, fun i hi => ?_, [w, w'], π2, c2, w, rfl, rfl, rfl, hfit, h⟩
    obtain rfl : i = 0 := by omega
    exact hp0 _
  · refine (key _).2.2.mpr
      ⟨1, by simp, fun i hi => ?_, ?_, ?_⟩
    · obtain rfl : i = 0 := by omega
      exact hp0 _
    · rintro ⟨x, y, π, c, k1, -, k3, -⟩
      cases k1
      have := k3 a b π1 rfl
      simp [roAt, ← hw] at this
    · rintro ⟨row, π, c, z, k1, -, k3, k4, -⟩
      cases k1
      cases k3
      have := k4 a b π1 rfl
      simp [roAt, ← hw] at this


theorem forM_outcome {α : Type} (f : α → Res Unit) : ∀ l : List α,
    (l.forM f = .ok () ↔ ∀ x ∈ l, f x = .ok ()) ∧
    ∀ r : Res Unit, r ≠ .ok () → (l.forM f = r ↔ ∃ (k : Nat) (x : α), l[k]? = some x ∧ f x = r ∧ ∀ i < k, ∀ y, l[i]? = some y → f y = .ok ())
  | [] => by
    refine ⟨by simp [pure], fun r hr => ⟨fun h => absurd h.symm hr, ?_⟩⟩
    rintro ⟨k, x, h, -⟩
    simp at h
  | a :: l => by
    obtain ⟨i1, i2⟩ := forM_outcome f l
    have hcons : (a :: l).forM f = f a >>= fun _ => l.forM f := rfl
    rw [hcons]
    have hstop : ∀ r : Res Unit, r ≠ .ok () → f a = r →
        (r = r ↔ ∃ (k : Nat) (x : α), (a :: l)[k]? = some x ∧ f x = r ∧ ∀ i < k, ∀ y, (a :: l)[i]? = some y → f y = .ok ()) :=
      fun r hr h => ⟨fun _ => ⟨0, a, rfl, h, fun i hi => absurd hi (Nat.not_lt_zero _)⟩, fun _ => rfl⟩
    have hother : ∀ r s : Res Unit, r ≠ .ok () → f a = r → s ≠ .ok () →
        (∃ (k : Nat) (x : α), (a :: l)[k]? = some x ∧ f x = s ∧ ∀ i < k, ∀ y, (a :: l)[i]? = some y → f y = .ok ()) → r = s := by
      rintro r s hr h hs ⟨k, x, h1, h2, h3⟩
      cases k with
      | zero => cases h1; exact h.symm.trans h2
      | succ k => exact absurd (h.symm.trans (h3 0 (Nat.succ_pos _) a rfl)) hr
    cases hfa : f a with
    | err e =>
      refine ⟨⟨fun h => (by cases h), fun h => (by have := h a List.mem_cons_self; rw [hfa] at this; cases this)⟩,
        fun r hr => ⟨?_, hother _ _ (by simp) hfa hr⟩⟩
      intro h
      have h : Res.err e = r := h
      exact (hstop r hr (hfa.trans h)).mp rfl
    | panic =>
      refine ⟨⟨fun h => (by cases h), fun h => (by have := h a List.mem_cons_self; rw [hfa] at this; cases this)⟩,
        fun r hr => ⟨?_, hother _ _ (by simp) hfa hr⟩⟩
      intro h
      have h : Res.panic = r := h
      exact (hstop r hr (hfa.trans h)).mp rfl
    | ok u =>
      rw [Res.bind_ok]
      refine ⟨by rw [i1, List.forall_mem_cons]; exact ⟨fun h => ⟨hfa, h⟩, fun h => h.2⟩, fun r hr => ?_⟩
      rw [i2 r hr]
      constructor
      · rintro ⟨k, x, h1, h2, h3⟩
        refine ⟨k + 1, x, h1, h2, fun i hi y hy => ?_⟩
        cases i with
        | zero => cases hy; exact hfa
        | succ i => exact h3 i (by omega) y hy
      · rintro ⟨k, x, h1, h2, h3⟩
        cases k with
        | zero =>
          cases h1
          exact absurd (h2.symm.trans hfa) hr
        | succ k => exact ⟨k, x, h1, h2, fun i hi y hy => h3 (i + 1) (by omega) y hy⟩

variable {Ch W IP : Type}

/-- Query `k`, drawn with number `q` and index `idx`, is in order: the opened inputs can be reduced, every round is in
order, and what is left at the end is the final value of the proof. -/
def QueryPasses (gen : Nat → F) (M : Mmcs F S C D P) (cfg : Config) (proof : FriProof F C P W IP)
    (challenges : FriChallenges F) (openInput : Nat → Nat → IP → Res (List (Nat × F))) (k : Nat) : Prop :=
  ∃ q idx qp ros, challenges.queryIndices[k]? = some (q, idx) ∧ proof.queryProofs[k]? = some qp ∧
    openInput q idx qp.inputProof = .ok ros ∧
    verifyQuery gen M cfg proof.commitPhaseCommits idx q qp.commitPhaseOpenings challenges.betas ros
      (proof.commitPhaseCommits.length + cfg.logBlowup) = .ok proof.finalPoly

/-- **C41, exactly** (all queries).  The verifier accepts exactly if every query is in order, and otherwise the first
query that is not decides: what is reported is the error of reducing its inputs, that of its rounds (`C41_query_exact`),
or that its last value is not the final value of the proof. -/
theorem C41_queries_exact {gen : Nat → F} {M : Mmcs F S C D P} {cfg : Config} {proof : FriProof F C P W IP}
    {challenges : FriChallenges F} {openInput : Nat → Nat → IP → Res (List (Nat × F))}
    (hlen : challenges.queryIndices.length = proof.queryProofs.length) :
    (verifyChallenges gen M cfg proof challenges openInput = .ok () ↔
      ∀ k < proof.queryProofs.length, QueryPasses gen M cfg proof challenges openInput k) ∧
    (∀ e, verifyChallenges gen M cfg proof challenges openInput = .err e ↔
      ∃ (k q idx : Nat) (qp : QueryProof F P IP), (∀ i < k, QueryPasses gen M cfg proof challenges openInput i) ∧
        challenges.queryIndices[k]? = some (q, idx) ∧ proof.queryProofs[k]? = some qp ∧
        (openInput q idx qp.inputProof = .err e ∨
        ∃ ros, openInput q idx qp.inputProof = .ok ros ∧
          (verifyQuery gen M cfg proof.commitPhaseCommits idx q qp.commitPhaseOpenings challenges.betas ros
              (proof.commitPhaseCommits.length + cfg.logBlowup) = .err e ∨
          ∃ v, verifyQuery gen M cfg proof.commitPhaseCommits idx q qp.commitPhaseOpenings challenges.betas ros
              (proof.commitPhaseCommits.length + cfg.logBlowup) = .ok v ∧ v ≠ proof.finalPoly ∧ e = .finalPoly))) ∧
    (verifyChallenges gen M cfg proof challenges openInput = .panic ↔
      ∃ (k q idx : Nat) (qp : QueryProof F P IP), (∀ i < k, QueryPasses gen M cfg proof challenges openInput i) ∧
        challenges.queryIndices[k]? = some (q, idx) ∧ proof.queryProofs[k]? = some qp ∧
        (openInput q idx qp.inputProof = .panic ∨
        ∃ ros, openInput q idx qp.inputProof = .ok ros ∧
          verifyQuery gen M cfg proof.commitPhaseCommits idx q qp.commitPhaseOpenings challenges.betas ros
            (proof.commitPhaseCommits.length + cfg.logBlowup) = .panic)) := by
  let f : (Nat × Nat) × QueryProof F P IP → Res Unit := fun x => do
    let ro ← openInput x.1.1 x.1.2 x.2.inputProof
    let foldedEval ← verifyQuery gen M cfg proof.commitPhaseCommits x.1.2 x.1.1
      x.2.commitPhaseOpenings challenges.betas ro (proof.commitPhaseCommits.length + cfg.logBlowup)
    if foldedEval ≠ proof.finalPoly then Res.err .finalPoly else Res.ok ()
  have hv : verifyChallenges gen M cfg proof challenges openInput =
      (challenges.queryIndices.zip proof.queryProofs).forM f := rfl
  have hzip : ∀ (k q idx : Nat) qp, (challenges.queryIndices.zip proof.queryProofs)[k]? = some ((q, idx), qp) ↔
      challenges.queryIndices[k]? = some (q, idx) ∧ proof.queryProofs[k]? = some qp := by
    intro k q idx qp
    rw [List.getElem?_zip_eq_some]
  have hok : ∀ q idx qp, f ((q, idx), qp) = .ok () ↔ ∃ ros, openInput q idx qp.inputProof = .ok ros ∧
      verifyQuery gen M cfg proof.commitPhaseCommits idx q qp.commitPhaseOpenings challenges.betas ros
      (proof.commitPhaseCommits.length + cfg.logBlowup) = .ok proof.finalPoly := by
    intro q idx qp
    simp only [f, Res.bind_eq_ok]
    constructor
    · rintro ⟨ros, h1, v, h2, h3⟩
      by_cases hv : v = proof.finalPoly
      · exact ⟨ros, h1, hv ▸ h2⟩
      · rw [if_pos hv] at h3
        cases h3
    · rintro ⟨ros, h1, h2⟩
      exact ⟨ros, h1, _, h2, by simp⟩
  have hpass : ∀ k < proof.queryProofs.length, (QueryPasses gen M cfg proof challenges openInput k ↔
      ∀ y, (challenges.queryIndices.zip proof.queryProofs)[k]? = some y → f y = .ok ()) := by
    intro k hk
    constructor
    · rintro ⟨q, idx, qp, ros, h1, h2, h3, h4⟩ y hy
      rw [(hzip k q idx qp).mpr ⟨h1, h2⟩] at hy
      cases hy
      exact (hok q idx qp).mpr ⟨ros, h3, h4⟩
    · intro h
      have h1 : challenges.queryIndices[k]? = some challenges.queryIndices[k] := List.getElem?_eq_getElem _
      have h2 : proof.queryProofs[k]? = some proof.queryProofs[k] := List.getElem?_eq_getElem _
      obtain ⟨ros, h3, h4⟩ := (hok _ _ _).mp (h _ ((hzip k _ _ _).mpr ⟨h1, h2⟩))
      exact ⟨_, _, _, ros, h1, h2, h3, h4⟩
  have hlt : ∀ {k : Nat} {qp}, proof.queryProofs[k]? = some qp → k < proof.queryProofs.length :=
    fun h => (List.getElem?_eq_some_iff.mp h).1
  obtain ⟨g1, g2⟩ := forM_outcome f (challenges.queryIndices.zip proof.queryProofs)
  rw [hv]
  have hfirst : ∀ r : Res Unit, r ≠ .ok () → ((challenges.queryIndices.zip proof.queryProofs).forM f = r ↔
      ∃ (k q idx : Nat) (qp : QueryProof F P IP), (∀ i < k, QueryPasses gen M cfg proof challenges openInput i) ∧
        challenges.queryIndices[k]? = some (q, idx) ∧ proof.queryProofs[k]? = some qp ∧ f ((q, idx), qp) = r) := by
    intro r hr
    rw [g2 r hr]
    constructor
    · rintro ⟨k, ⟨⟨q, idx⟩, qp⟩, h1, h2, h3⟩
      obtain ⟨h4, h5⟩ := (hzip k q idx qp).mp h1
      exact ⟨k, q, idx, qp, fun i hi => (hpass i (by have := hlt h5; omega)).mpr (h3 i hi), h4, h5, h2⟩
    · rintro ⟨k, q, idx, qp, h3, h4, h5, h2⟩
      exact ⟨k, _, (hzip k q idx qp).mpr ⟨h4, h5⟩, h2,
        fun i hi => (hpass i (by have := hlt h5; omega)).mp (h3 i hi)⟩
  refine ⟨?_, fun e => ?_, ?_⟩
  · rw [g1]
    constructor
    · exact fun h k hk => (hpass k hk).mpr fun y hy => h y (List.mem_of_getElem? hy)
    · intro h y hy
      obtain ⟨k, hk⟩ := List.mem_iff_getElem?.mp hy
      exact (hpass k (hlt ((hzip k y.1.1 y.1.2 y.2).mp hk).2)).mp
        (h k (hlt ((hzip k y.1.1 y.1.2 y.2).mp hk).2)) y hk
  · rw [hfirst (.err e) (by simp)]
    have herr : ∀ q idx qp, f ((q, idx), qp) = .err e ↔ (openInput q idx qp.inputProof = .err e ∨
        ∃ ros, openInput q idx qp.inputProof = .ok ros ∧
          (verifyQuery gen M cfg proof.commitPhaseCommits idx q qp.commitPhaseOpenings challenges.betas ros
              (proof.commitPhaseCommits.length + cfg.logBlowup) = .err e ∨
          ∃ v, verifyQuery gen M cfg proof.commitPhaseCommits idx q qp.commitPhaseOpenings challenges.betas ros
              (proof.commitPhaseCommits.length + cfg.logBlowup) = .ok v ∧ v ≠ proof.finalPoly ∧ e = .finalPoly)) := by
      intro q idx qp
      simp only [f]
      cases openInput q idx qp.inputProof with
      | err e' => simp
      | panic => simp
      | ok ros =>
        simp only [Res.bind_ok, reduceCtorEq, false_or, Res.ok.injEq, exists_eq_left']
        cases verifyQuery gen M cfg proof.commitPhaseCommits idx q qp.commitPhaseOpenings challenges.betas ros
              (proof.commitPhaseCommits.length + cfg.logBlowup) with
        | err e' => simp
        | panic => simp
        | ok v =>
          by_cases h : v = proof.finalPoly
          · simp [h]
          · simp [h, eq_comm]
    simp only [herr]
  · rw [hfirst .panic (by simp)]
    have hpan : ∀ q idx qp, f ((q, idx), qp) = .panic ↔ (openInput q idx qp.inputProof = .panic ∨
        ∃ ros, openInput q idx qp.inputProof = .ok ros ∧
          verifyQuery gen M cfg proof.commitPhaseCommits idx q qp.commitPhaseOpenings challenges.betas ros
            (proof.commitPhaseCommits.length + cfg.logBlowup) = .panic) := by
      intro q idx qp
      simp only [f]
      cases openInput q idx qp.inputProof with
      | err e' => simp
      | panic => simp
      | ok ros =>
        simp only [Res.bind_ok, reduceCtorEq, false_or, Res.ok.injEq, exists_eq_left']
        cases verifyQuery gen M cfg proof.commitPhaseCommits idx q qp.commitPhaseOpenings challenges.betas ros
              (proof.commitPhaseCommits.length + cfg.logBlowup) with
        | err e' => simp
        | panic => simp
        | ok v =>
          by_cases h : v = proof.finalPoly
          · simp [h]
          · simp [h]
    simp only [hpan]

end

end TapStark.Fri
