import Verif.Proofs.FriScript
import Verif.Props.Fri

/-
C108 for one query.
-/

namespace TapStark.Fri

variable {F : Type} [Field F] [DecidableEq F] {S C D Pf : Type}

omit [DecidableEq F] in
/-- Two chains with the same siblings, from two own values: every round multiplies the difference by `(β + x) / 2x`. -/
theorem foldChain_sub (h2 : (2 : F) ≠ 0) (ro : Nat → F) : ∀ (l : List (F × F)) (h : Nat) (x own own' : F), x ≠ 0 →
    foldChain ro h x own l - foldChain ro h x own' l =
      (own - own') * (l.mapIdx fun j p => (p.1 + x ^ 2 ^ j) / (2 * x ^ 2 ^ j)).prod := by
  intro l
  induction l with
  | nil => intro h x own own' _; simp [foldChain]
  | cons p l ih =>
    obtain ⟨β, s⟩ := p
    intro h x own own' hx
    rw [foldChain, foldChain, ih _ _ _ _ (pow_ne_zero 2 hx), List.mapIdx_cons, List.prod_cons]
    have e : (fun (j : Nat) (p : F × F) => (p.1 + x ^ 2 ^ (j + 1)) / (2 * x ^ 2 ^ (j + 1))) =
        fun j p => (p.1 + (x ^ 2) ^ 2 ^ j) / (2 * (x ^ 2) ^ 2 ^ j) := by
      funext j p
      rw [← pow_mul, ← pow_succ' 2 j]
    rw [e, ← mul_assoc]
    congr 1
    simp only [lineAt, pow_zero, pow_one]
    field_simp
    ring

/-- The value with which the first round starts is not used. -/
theorem queryLoop_start {gen : Nat → F} {M : Mmcs F S C D Pf} {q top : Nat} {h : Nat} {c : C} {o : List (List F) × Pf} {β : F}
    {rest : List (Nat × C × (List (List F) × Pf) × F)} {idx : Nat} {ros : List (Nat × F)} (ht : ¬ h < top - 1) (own own' : F) :
    queryLoop gen M q top ((h, c, o, β) :: rest) idx own ros = queryLoop gen M q top ((h, c, o, β) :: rest) idx own' ros := by
  have e : ∀ own, (nextRo (h + 1) own ros).2 = (nextRo (h + 1) 0 ros).2 := by
    intro own
    unfold nextRo
    split
    · rfl
    · split <;> rfl
  simp only [queryLoop, ht, false_and, if_false]
  rw [e own, e own']

/-- What the native verifier returns for a query, in terms of the chain of the query script: the chain that starts from
the opened entry of the first round instead of the reduced opening. -/
theorem native_from_entry {gen : Nat → F} {N : Nat} (hg : TwoAdic gen N) {M : Mmcs F S C D Pf} {cfg : Config}
    {commits : List C} {idx q : Nat} {openings : List (List (List F) × Pf)} {betas : List F} {ros : List (Nat × F)}
    {top : Nat} {v : F} (htop : top = commits.length + cfg.logBlowup) (hN : top ≤ N)
    (ho : openings.length = commits.length) (hb : betas.length = commits.length) (hr : RosOk ros top)
    (h : verifyQuery gen M cfg commits idx q openings betas ros top = .ok v) :
    ∀ o ∈ openings.head?, v = foldChain (roAt ros) top (gen top ^ revBits top idx)
      ((o.1.getD 0 []).getD (idx % 2) 0 - roAt ros top) (betas.zip (siblings idx (openings.map Prod.fst))) := by
  intro o hm
  generalize hk : commits.length = k at *
  subst htop
  have hrounds : (List.range (k + cfg.logBlowup)).reverse.zip (commits.zip (openings.zip betas)) =
      (downList cfg.logBlowup k).zip (commits.zip (openings.zip betas)) := by
    rw [Nat.add_comm, range_reverse_down]
    exact zip_downList _ _ _ _ (by simp [hk, ho, hb])
  rw [verifyQuery, Res.bind_eq_ok] at h
  obtain ⟨⟨w, idx'⟩, hl, hv⟩ := h
  simp only at hv
  split at hv
  · cases hv
  cases hv
  rw [hrounds] at hl
  rw [Nat.add_comm k] at *
  match k, commits, openings, betas, hk, ho, hb with
  | 0, _, [], _, _, _, _ => cases hm
  | k + 1, c :: commits, o' :: openings, β :: betas, hk, ho, hb =>
    cases hm
    simp only [downList, List.zip_cons_cons] at hl
    rw [queryLoop_start (by omega) 0 ((o.1.getD 0 []).getD (idx % 2) 0 - roAt ros (cfg.logBlowup + (k + 1)))] at hl
    exact native_chain hg (k + 1) (c :: commits) (o :: openings) (β :: betas) idx _ ros _ idx' hk ho hb hN (Nat.le_refl _) hr
      (fun _ o' ho' => by cases ho'; rw [sub_add_cancel]) hl

/-- **C108** for one query: where the native verifier runs through a query and returns `v`, the chain of the query script
gives the same value iff the opened entry of the first round is the reduced opening of the largest height, or one of the
folding challenges is the negative of the point of its round. -/
theorem C108_query {gen : Nat → F} {N : Nat} (hg : TwoAdic gen N) {M : Mmcs F S C D Pf} {cfg : Config}
    {commits : List C} {idx q : Nat} {openings : List (List (List F) × Pf)} {betas : List F} {ros : List (Nat × F)}
    {top : Nat} {v : F} (htop : top = commits.length + cfg.logBlowup) (hN : top ≤ N)
    (ho : openings.length = commits.length) (hb : betas.length = commits.length) (hr : RosOk ros top)
    (h : verifyQuery gen M cfg commits idx q openings betas ros top = .ok v) {o : List (List F) × Pf}
    (hm : o ∈ openings.head?) :
    foldChain (roAt ros) top (gen top ^ revBits top idx) 0 (betas.zip (siblings idx (openings.map Prod.fst))) = v ↔
      (o.1.getD 0 []).getD (idx % 2) 0 = roAt ros top ∨
      ∃ j < commits.length, betas.getD j 0 = -(gen top ^ revBits top idx) ^ 2 ^ j := by
  have hx : gen top ^ revBits top idx ≠ 0 := pow_ne_zero _ (hg.ne_zero hN)
  have hsl : ∀ (l : List (List (List F))) idx, (siblings idx l).length = l.length := by
    intro l
    induction l with
    | nil => intro idx; rfl
    | cons a l ih => intro idx; simp [siblings, ih]
  rw [native_from_entry hg htop hN ho hb hr h o hm, eq_comm, ← sub_eq_zero, foldChain_sub hg.two_ne _ _ _ _ _ _ hx, sub_zero,
    mul_eq_zero, sub_eq_zero, List.prod_eq_zero_iff]
  refine or_congr_right ?_
  simp only [List.mem_mapIdx, List.length_zip, hsl, List.length_map, ho, hb, min_self]
  constructor
  · rintro ⟨j, hj, e⟩
    refine ⟨j, hj, ?_⟩
    have hd : (2 : F) * (gen top ^ revBits top idx) ^ 2 ^ j ≠ 0 := mul_ne_zero hg.two_ne (pow_ne_zero _ hx)
    rw [div_eq_zero_iff, or_iff_left hd] at e
    rw [List.getD_eq_getElem?_getD, List.getElem?_eq_getElem (by omega), Option.getD_some]
    simp only [List.getElem_zip] at e
    exact eq_neg_of_add_eq_zero_left e
  · rintro ⟨j, hj, e⟩
    refine ⟨j, hj, ?_⟩
    rw [List.getD_eq_getElem?_getD, List.getElem?_eq_getElem (by omega), Option.getD_some] at e
    simp only [List.getElem_zip]
    rw [e, neg_add_cancel, zero_div]

/-- The native check of a query looks at no more rounds than there are openings. -/
theorem verifyQuery_cut {gen : Nat → F} {M : Mmcs F S C D Pf} {cfg : Config} {commits : List C} {idx q : Nat}
    {openings : List (List (List F) × Pf)} {betas : List F} {ros : List (Nat × F)} {top : Nat} {v : F}
    (hb : betas.length = commits.length) (h : verifyQuery gen M cfg commits idx q openings betas ros top = .ok v) :
    verifyQuery gen M
      { cfg with debug := false
                 logBlowup := cfg.logBlowup + (commits.length - min openings.length commits.length) }
      (commits.take (min openings.length commits.length)) idx q (openings.take (min openings.length commits.length))
      (betas.take (min openings.length commits.length)) ros top = .ok v := by
  have hz : (commits.take (min openings.length commits.length)).zip
      ((openings.take (min openings.length commits.length)).zip (betas.take (min openings.length commits.length))) =
      commits.zip (openings.zip betas) := by
    have h1 : (openings.take (min openings.length commits.length)).zip (betas.take (min openings.length commits.length)) =
        openings.zip betas := by
      rw [List.zip_eq_zip_take_min (l₁ := openings), hb]
    rw [h1, List.zip_eq_zip_take_min (l₁ := commits), List.length_zip, hb, Nat.min_comm commits.length]
    simp [List.length_zip, hb, List.take_of_length_le]
  unfold verifyQuery at h ⊢
  simp only [Res.bind_eq_ok] at h ⊢
  obtain ⟨⟨fe, idx'⟩, h1, h2⟩ := h
  refine ⟨(fe, idx'), by rw [hz]; exact h1, ?_⟩
  simp only [Bool.false_eq_true, false_and, if_false]
  split at h2
  · cases h2
  · exact h2

end TapStark.Fri
