import Verif.Proofs.TraceScript
import Verif.Props.Stark
import Verif.Spec.TraceScript

/-
C80: the script of the folded constraints.  C81: selectors as expressions.
-/

namespace TapStark.Stark

open TapStark.Fri TapStark.Pcs

variable {cfg : Cfg} {L : U31Lib} {T : TrackerLib} {D : Nat → List Op}

/-! ### The variables -/

theorem mem_zipIdx_map {α β : Type} (f : α × Nat → β) (l : List α) (d : α) {c : Nat} (hc : c < l.length) :
    f (l.getD c d, c) ∈ l.zipIdx.map f := by
  refine List.mem_map_of_mem ?_
  rw [List.mem_zipIdx_iff_getElem?]
  simp [List.getElem?_eq_getElem hc]

theorem mem_zipIdx_map_iff {α β : Type} (f : α × Nat → β) (l : List α) {y : β} :
    y ∈ l.zipIdx.map f ↔ ∃ x i, l[i]? = some x ∧ y = f (x, i) := by
  simp only [List.mem_map, Prod.exists, List.mem_zipIdx_iff_getElem?]
  constructor
  · rintro ⟨x, i, h, rfl⟩; exact ⟨x, i, h, rfl⟩
  · rintro ⟨x, i, h, rfl⟩; exact ⟨x, i, h, rfl⟩

theorem nodup_zipIdx_map {α β : Type} (f : Nat → β) (hf : ∀ i j, f i = f j → i = j) (l : List α) :
    (l.zipIdx.map fun p => f p.2).Nodup := by
  have : (l.zipIdx.map fun p => f p.2) = (List.range l.length).map f := by
    rw [List.range_eq_range', ← List.zipIdx_map_snd 0 l, List.map_map]
    rfl
  rw [this]
  exact List.nodup_range.map fun i j h => hf i j h

theorem natCast_val_bb4 (x : BB) : ((x.val : ℕ) : BB4) = algebraMap BB BB4 x := by
  rw [← map_natCast (algebraMap BB BB4), ZMod.natCast_zmod_val]

theorem traceVars_nodup (loc nxt : List BB4) (pub : List BB) : ((traceVars loc nxt pub).map Prod.fst).Nodup := by
  rw [traceVars, List.map_append, List.map_append, List.map_map, List.map_map, List.map_map]
  refine List.nodup_append.mpr ⟨nodup_zipIdx_map pubVar (by simp [pubVar]) pub, List.nodup_append.mpr
    ⟨nodup_zipIdx_map (mainVar 0) (by simp [mainVar]) loc,
      nodup_zipIdx_map (mainVar 1) (by simp [mainVar]) _, ?_⟩, ?_⟩
  · intro a ha b hb h
    obtain ⟨p, -, rfl⟩ := List.mem_map.mp ha
    obtain ⟨q, -, rfl⟩ := List.mem_map.mp hb
    simp [mainVar] at h
  · intro a ha b hb h
    obtain ⟨p, -, rfl⟩ := List.mem_map.mp ha
    rcases List.mem_append.mp hb with hb | hb
    · obtain ⟨q, -, rfl⟩ := List.mem_map.mp hb
      simp [mainVar, pubVar] at h
    · obtain ⟨q, -, rfl⟩ := List.mem_map.mp hb
      simp [mainVar, pubVar] at h

theorem traceVars_rows {loc nxt : List BB4} {pub : List BB} {p : Variable × List Nat} (h : p ∈ traceVars loc nxt pub) :
    p.1.row ≠ 5 ∧ ∃ x, p.2 = bb4Field.u32 x := by
  rw [traceVars, List.mem_append, List.mem_append] at h
  rcases h with h | h | h
  all_goals
    obtain ⟨q, -, rfl⟩ := List.mem_map.mp h
    exact ⟨by simp [mainVar, pubVar], _, rfl⟩

/-! ### C80 -/

/-- C80: for an AIR with at least one assertion the script of the folded constraints can be generated, and it accepts
iff the value it is given is `Σ_j alpha^(m-1-j) c_j`, where `c_j` is the difference of the two sides of assertion `j` at
the opened rows. -/
theorem C80_exact (hL : L.Ok cfg) (hT : T.Ok cfg) (hD : ∀ x : List Elem, x.length ≤ 4 → Does cfg (D x.length) x [])
    (air : Air BB) {zeta alpha : BB4} {k : Nat} {loc nxt : List BB4} {pub : List BB} (hair : air.InRange pub.length)
    (hne : air.asserts ≠ []) (hloc : loc.length = air.width) (hnxt : nxt.length = air.width) (hk : k ≤ 27)
    (h1 : zeta ≠ 1) (h2 : zeta ≠ algebraMap BB BB4 (bbGen k)⁻¹) (claimed : BB4) (n : Nat) :
    ∃ p, traceScript L T D air zeta alpha k loc nxt pub claimed n = some p ∧
      (accepts cfg p [] = true ↔ claimed = combine alpha (air.asserts.map fun a =>
        a.residue (algebraMap BB BB4) (pointMeaning (bbGen k) k zeta loc nxt pub))) := by
  have hinp : (managerOf (traceVars loc nxt pub)).inputs = (traceVars loc nxt pub).reverse := by
    simp [managerOf, InputManager.inputs]
  have hnd : ((managerOf (traceVars loc nxt pub)).inputs.map Prod.fst).Nodup := by
    rw [hinp, List.map_reverse, List.nodup_reverse]
    exact traceVars_nodup loc nxt pub
  obtain ⟨K, env, ha⟩ := exists_agrees hnd (by
    intro p hp
    rw [hinp, List.mem_reverse] at hp
    obtain ⟨-, x, hx⟩ := traceVars_rows hp
    rw [hx, bb4Field_ok.const]
    rfl)
  have b0 : Built K NoNodes (managerOf (traceVars loc nxt pub)) n NoNodes :=
    ⟨(Built.new K n).good, fun _ h => h.elim, fun _ h => h.elim, fun _ h => h.elim, fun _ _ h => h.elim, by
      intro p hp i e
      rw [hinp, List.mem_reverse] at hp
      exact absurd (by rw [e]) (traceVars_rows hp).1, hnd, fun _ _ h => h.elim⟩
  obtain ⟨sels, n1, e1, -, P1, b1, s1, d1, d2, d3⟩ := selectorsExpr_makes (env := env) b0 (shift := 1) (point := zeta)
    one_ne_zero hk (by simpa [sub_eq_zero] using h1) (by simpa [sub_eq_zero] using h2)
  simp only [inv_one, map_one, mul_one] at d1 d2 d3
  obtain ⟨P2, b2, s2, d4⟩ := makes_const (env := env) bb4Field_ok b1 alpha
  have hden : TraceDen K NoNodes env P2 (managerOf (traceVars loc nxt pub)) sels loc.length pub.length
      (pointMeaning (bbGen k) k zeta loc nxt pub) := by
    refine ⟨fun c hc => ?_, fun c hc => ?_, fun i hi => ?_, ?_, ?_, d3.mono s2⟩
    · rw [hinp, List.mem_reverse, traceVars]
      exact List.mem_append_right _ (List.mem_append_left _ (mem_zipIdx_map _ loc 0 hc))
    · rw [hinp, List.mem_reverse, traceVars, List.take_of_length_le (by omega)]
      exact List.mem_append_right _ (List.mem_append_right _ (mem_zipIdx_map (fun p : BB4 × Nat =>
        (mainVar 1 p.2, bb4Field.u32 p.1)) nxt 0 (by omega)))
    · rw [hinp, List.mem_reverse, traceVars]
      refine List.mem_append_left _ ?_
      have := mem_zipIdx_map (fun p : BB × Nat => (pubVar p.2, bb4Field.u32 ((p.1.val : ℕ) : BB4))) pub 0 hi
      rw [natCast_val_bb4] at this
      exact this
    · rw [pointMeaning, div_eq_mul_inv]; exact d1.mono s2
    · rw [pointMeaning, div_eq_mul_inv]; exact d2.mono s2
  obtain ⟨cs, n2, e2, P3, b3, s3, d5⟩ := constraints_makes ha air.asserts b2 hden (by rw [hloc]; exact hair)
  have hcs : cs ≠ [] := by
    rintro rfl
    have := d5.length_eq
    rw [List.length_map] at this
    exact hne (List.eq_nil_of_length_eq_zero this.symm)
  obtain ⟨p, e3, hrun⟩ := foldScript_run hL hT hD ha (fun p hp => (traceVars_rows hp).1) b3 (d4.mono s3) d5 hcs claimed [] []
  refine ⟨p, ?_, ?_⟩
  · unfold traceScript
    simp only [e1, Option.bind_eq_bind, Option.bind_some, if_neg (show ¬ nxt.length < loc.length by omega), e2]
    exact e3
  · have t1 : truthy (num 1) = true := by decide +kernel
    unfold accepts
    rw [hrun]
    by_cases hc : combine alpha (air.asserts.map fun a =>
        a.residue (algebraMap BB BB4) (pointMeaning (bbGen k) k zeta loc nxt pub)) = claimed
    · rw [if_pos hc]
      exact iff_of_true t1 hc.symm
    · rw [if_neg hc]
      exact iff_of_false (by simp) (Ne.symm hc)

theorem nativeWindow {zeta : BB4} {k : Nat} {s : Selectors BB4} (hs : selectorsAtPoint bbGen ⟨k, 1⟩ zeta = some s)
    (loc nxt : List BB4) (pub : List BB) :
    zeta ≠ 1 ∧ zeta ≠ algebraMap BB BB4 (bbGen k)⁻¹ ∧
      (Window.mk loc nxt (pub.map (algebraMap BB BB4)) s.isFirstRow s.isLastRow s.isTransition).meaning =
        pointMeaning (bbGen k) k zeta loc nxt pub := by
  unfold selectorsAtPoint at hs
  simp only [inv_one, map_one, mul_one, Option.bind_eq_bind, Option.bind_eq_some_iff, inverse?] at hs
  obtain ⟨a, ha, b, hb, c, -, hs⟩ := hs
  obtain rfl := Option.some.inj hs
  rw [Option.ite_none_left_eq_some] at ha hb
  obtain ⟨h1, ha⟩ := ha
  obtain ⟨h2, hb⟩ := hb
  obtain rfl := Option.some.inj ha
  obtain rfl := Option.some.inj hb
  rw [sub_eq_zero] at h1 h2
  refine ⟨h1, h2, ?_⟩
  simp only [Window.meaning, pointMeaning, div_eq_mul_inv, Meaning.mk.injEq, true_and, and_true]
  funext i
  rw [List.getD_eq_getElem?_getD, List.getElem?_map, List.getD_eq_getElem?_getD]
  cases pub[i]? <;> simp

/-- C80: when the value the script is given is the accumulator of the verifier, as in `generate_script_verifier`, the
script accepts; it accepts no other value.  So the assertion on the result of this script never fails. -/
theorem C80_native (hL : L.Ok cfg) (hT : T.Ok cfg) (hD : ∀ x : List Elem, x.length ≤ 4 → Does cfg (D x.length) x [])
    (air : Air BB) {zeta alpha : BB4} {k : Nat} {loc nxt : List BB4} {pub : List BB} (hair : air.InRange pub.length)
    (hne : air.asserts ≠ []) (hloc : loc.length = air.width) (hnxt : nxt.length = air.width) (hk : k ≤ 27)
    {s : Selectors BB4} (hs : selectorsAtPoint bbGen ⟨k, 1⟩ zeta = some s) (claimed : BB4) (n : Nat) :
    ∃ p, traceScript L T D air zeta alpha k loc nxt pub claimed n = some p ∧
      (accepts cfg p [] = true ↔ verifierFold air alpha ⟨loc, nxt, pub.map (algebraMap BB BB4), s.isFirstRow, s.isLastRow,
        s.isTransition⟩ = some claimed) := by
  obtain ⟨h1, h2, hw⟩ := nativeWindow hs loc nxt pub
  obtain ⟨p, e, hp⟩ := C80_exact hL hT hD air (alpha := alpha) hair hne hloc hnxt hk h1 h2 claimed n
  refine ⟨p, e, ?_⟩
  rw [hp, (C46_folders_agree_partial air alpha hair).2.1 _ hloc hnxt (by simp), hw, Option.some.injEq, eq_comm]

/-- C80 fails for an AIR without assertions: the native accumulator is 0, but the script cannot be generated. -/
theorem C80_violated_empty (width : Nat) (zeta alpha : BB4) (k : Nat) (loc nxt : List BB4) (pub : List BB) (w : Window BB4)
    (claimed : BB4) (n : Nat) :
    verifierFold (⟨width, []⟩ : Air BB) alpha w = some 0 ∧
      traceScript L T D ⟨width, []⟩ zeta alpha k loc nxt pub claimed n = none := by
  refine ⟨rfl, ?_⟩
  unfold traceScript
  cases selectorsAtPointExpr 1 zeta k n with
  | none => rfl
  | some p =>
    simp only [Option.bind_eq_bind, Option.bind_some]
    split
    · rfl
    · rfl

/-- Two columns, three assertions and one public value meet the hypotheses of C80. -/
theorem C80_instance :
    let air : Air BB := ⟨2, [.zero (.mul .isFirstRow (.sub (.loc 0) (.pub 0))), .zero (.mul .isTransition (.sub (.nxt 0)
      (.loc 1))), .zero (.mul .isTransition (.sub (.nxt 1) (.add (.loc 0) (.loc 1))))]⟩
    air.InRange [(7 : BB)].length ∧ air.asserts ≠ [] ∧ [(3 : BB4), 4].length = air.width ∧
      ((0 : BB4) ≠ 1 ∧ (0 : BB4) ≠ algebraMap BB BB4 (bbGen 3)⁻¹) ∧
      (repoLib 2013265921).Ok cfg ∧ refTracker.Ok cfg ∧
      ∀ x : List Elem, x.length ≤ 4 → Does cfg (List.replicate x.length Op.drop) x [] := by
  refine ⟨?_, by simp, rfl, ⟨zero_ne_one, ?_⟩, repoLib_ok cfg, refTracker_ok cfg, ?_⟩
  · intro a ha
    simp only [List.mem_cons, List.not_mem_nil, or_false] at ha
    rcases ha with rfl | rfl | rfl <;> simp [Assertion.InRange, AExpr.InRange]
  · intro h
    exact inv_ne_zero (bbGen_twoAdic.ne_zero (show 3 ≤ 27 by decide))
      ((algebraMap BB BB4).injective (h.symm.trans (map_zero _).symm))
  · intro x _ m a c ops hc
    clear * - hc
    induction x with
    | nil => rfl
    | cons e x ih => exact (run_drop e hc).trans ih

/-! ### C81 -/

/-- C81: for every coset, whenever the native selectors at a point exist, the expressions exist and have the values of
the native selectors. -/
theorem C81_selectors {shift : BB} (hs : shift ≠ 0) {k : Nat} (hk : k ≤ 27) {point : BB4} {s : Selectors BB4}
    (h : selectorsAtPoint bbGen ⟨k, shift⟩ point = some s) (env : Variable → Val) (n : Nat) :
    ∃ sels n', selectorsAtPointExpr shift point k n = some (sels, n') ∧
      eval env sels.isFirstRow = some [bb4Field.val s.isFirstRow] ∧
      eval env sels.isLastRow = some [bb4Field.val s.isLastRow] ∧
      eval env sels.isTransition = some [bb4Field.val s.isTransition] := by
  unfold selectorsAtPoint at h
  simp only [Option.bind_eq_bind, Option.bind_eq_some_iff, inverse?] at h
  obtain ⟨a, ha, b, hb, c, -, h⟩ := h
  obtain rfl := Option.some.inj h
  rw [Option.ite_none_left_eq_some] at ha hb
  obtain ⟨h1, ha⟩ := ha
  obtain ⟨h2, hb⟩ := hb
  obtain rfl := Option.some.inj ha
  obtain rfl := Option.some.inj hb
  obtain ⟨sels, n', e, -, P, -, -, d1, d2, d3⟩ := selectorsExpr_makes (env := env)
    (Built.new (fun _ => Kind.ext) n) hs hk h1 h2
  exact ⟨sels, n', e, d1.eval, d2.eval, d3.eval⟩

/-- C81 fails for the vanishing polynomial: on every coset there is a point at which the expression does not have the value
of the vanishing polynomial. -/
theorem C81_violated_zH {shift : BB} (hs : shift ≠ 0) {k : Nat} (hk : k ≤ 27) (env : Variable → Val) (n : Nat) :
    ∃ point sels n', selectorsAtPointExpr shift point k n = some (sels, n') ∧
      eval env sels.zH ≠ some [bb4Field.val ((point * algebraMap BB BB4 shift⁻¹) ^ 2 ^ k - 1)] := by
  have hinj := (algebraMap BB BB4).injective
  have hg : (bbGen k)⁻¹ ≠ 0 := inv_ne_zero (bbGen_twoAdic.ne_zero hk)
  obtain ⟨sels, n', e, hz, -⟩ := selectorsExpr_makes (env := env) (point := 0) (Built.new (fun _ => Kind.ext) n) hs hk
    (by simp) (by
      rw [zero_mul, zero_sub, neg_ne_zero]
      intro h
      exact hg (hinj (h.trans (map_zero _).symm)))
  refine ⟨0, sels, n', e, ?_⟩
  rw [hz]
  intro h
  have h := bb4Field_ok.inj _ _ (List.cons.inj (Option.some.inj h)).1
  rw [zero_mul, zero_pow (show 2 ^ k ≠ 0 by positivity), zero_sub] at h
  rcases Nat.eq_zero_or_pos (2 ^^^ k) with h0 | h0
  · rw [h0, pow_zero] at h
    have : (1 : BB) = -1 := hinj (by rw [map_one, map_neg, map_one]; exact h)
    exact absurd this (by decide)
  · rw [zero_pow (by omega)] at h
    exact one_ne_zero (neg_eq_zero.mp h.symm)

end TapStark.Stark
