import Verif.Proofs.AirProgram
import Verif.Props.TraceScript

/-
C92: AIRs written as programs with shared values, conditions and the derived assertions.
-/

namespace TapStark.Stark

open TapStark.Fri TapStark.Pcs

/-! ### What the assertions say -/

section

variable {K R : Type} [Field R]

theorem slot_value {vals : List R} {i : Nat} (h : i < vals.length) : vals[i]? = some (vals.getD i 0) := by
  simp [List.getElem?_eq_getElem h]

theorem slot_values {vals : List R} : ∀ {is : List Nat}, (∀ i ∈ is, i < vals.length) →
    (is.mapM fun i => vals[i]?) = some (is.map fun i => vals.getD i 0)
  | [], _ => rfl
  | i :: is, h => by
    rw [List.mapM_cons, slot_value (h i (List.mem_cons_self ..)), slot_values fun j hj => h j (List.mem_cons_of_mem _ hj)]
    rfl

theorem check_value {vals : List R} (c : ACheck) (h : c.InRange vals.length) :
    ∃ r, c.residue vals = some r ∧ (r = 0 ↔ c.Holds vals) := by
  cases c with
  | zero i => exact ⟨_, slot_value h, Iff.rfl⟩
  | one i => exact ⟨_, by rw [ACheck.residue, slot_value h]; rfl, sub_eq_zero⟩
  | eq i j => exact ⟨_, by rw [ACheck.residue, slot_value h.1, slot_value h.2]; rfl, sub_eq_zero⟩
  | bool i =>
    refine ⟨_, by rw [ACheck.residue, slot_value h]; rfl, ?_⟩
    rw [mul_eq_zero, sub_eq_zero]
    rfl

theorem step_value (lift : K → R) (v : Meaning R) {vals : List R} {width np : Nat} (s : AStep K)
    (h : s.InRange width np vals.length) : ∃ x, s.value lift v vals = some x := by
  cases s with
  | add i j => exact ⟨_, by rw [AStep.value, slot_value h.1, slot_value h.2]; rfl⟩
  | sub i j => exact ⟨_, by rw [AStep.value, slot_value h.1, slot_value h.2]; rfl⟩
  | mul i j => exact ⟨_, by rw [AStep.value, slot_value h.1, slot_value h.2]; rfl⟩
  | neg i => exact ⟨_, by rw [AStep.value, slot_value h]; rfl⟩
  | _ => exact ⟨_, rfl⟩

theorem residues_holds (lift : K → R) (v : Meaning R) {width np : Nat} : ∀ (calls : List (ACall K)) (vals : List R),
    CallsInRange width np calls vals.length →
    ∃ rs, residues lift v calls vals = some rs ∧ ((∀ r ∈ rs, r = 0) ↔ CallsHold lift v calls vals)
  | [], vals, _ => ⟨[], rfl, by simp [CallsHold]⟩
  | .value s :: rest, vals, h => by
    obtain ⟨x, hx⟩ := step_value lift v s h.1
    obtain ⟨rs, h1, h2⟩ := residues_holds lift v rest (vals ++ [x]) (by rw [List.length_append]; exact h.2)
    refine ⟨rs, by rw [residues, hx]; exact h1, h2.trans ⟨fun h => ⟨x, hx, h⟩, ?_⟩⟩
    rintro ⟨y, hy, h⟩
    rw [hx] at hy
    cases hy
    exact h
  | .check conds c :: rest, vals, h => by
    obtain ⟨r, hr, hr'⟩ := check_value c h.2.1
    obtain ⟨rs, h1, h2⟩ := residues_holds lift v rest vals h.2.2
    refine ⟨_ :: rs, by rw [residues, slot_values h.1, hr, h1]; rfl, ?_⟩
    rw [List.forall_mem_cons, h2, mul_eq_zero, hr', CallsHold]
    refine and_congr_left fun _ => ?_
    rw [List.prod_eq_zero_iff]
    simp only [List.mem_map, ne_eq]
    constructor
    · rintro (⟨i, hi, h0⟩ | h) hc
      · exact absurd h0 (hc i hi)
      · exact h
    · intro h
      by_cases hc : ∀ i ∈ conds, ¬ vals.getD i 0 = 0
      · exact .inr (h hc)
      · rw [not_forall] at hc
        obtain ⟨i, hc⟩ := hc
        rw [Classical.not_imp, not_not] at hc
        exact .inl ⟨i, hc.1, hc.2⟩

/-- **C92** (meaning): what a program of an AIR asserts are zero exactly when every assertion whose conditions are all
different from 0 holds; `assert_bool` holds for 0 and 1. -/
theorem C92_meaning (lift : K → R) (v : Meaning R) {np : Nat} (p : AirProg K) (hp : p.InRange np) :
    ∃ rs, p.residues lift v = some rs ∧ ((∀ r ∈ rs, r = 0) ↔ p.Holds lift v) :=
  residues_holds lift v p.calls [] hp

end

/-! ### Unfolding -/

section

variable {K : Type}

/-- **C92** (unfolding): for a program without missing positions there is an AIR given by trees, with as many assertions,
each saying that the same value is zero, over every ring and for all rows, public values and flags. -/
theorem C92_unfold [Field K] (p : AirProg K) {np : Nat} (hp : p.InRange np) :
    ∃ air : Air K, p.air = some air ∧ air.width = p.width ∧ air.InRange np ∧ air.asserts.length = p.checks ∧
      (∀ {R : Type} [Ring R] (lift : K → R), lift 1 = 1 → ∀ v : Meaning R,
        p.residues lift v = some (air.asserts.map fun a => a.residue lift v)) := by
  obtain ⟨xs, h1, h2, h3⟩ := eval_hom (K := K) (ts := []) (calls := p.calls) (by simp) hp
  refine ⟨⟨p.width, xs.map .zero⟩, ?_, rfl, ?_, ?_, ?_⟩
  · have := h3 treeBuilder id treeBuilder_hom
    simp only [List.map_nil, List.map_id] at this
    rw [AirProg.air, this]
    rfl
  · intro a ha
    obtain ⟨x, hx, rfl⟩ := List.mem_map.mp ha
    exact h1 x hx
  · rw [List.length_map, h2]
    rfl
  · intro R _ lift hl v
    have := h3 (meaningBuilder lift v) (AExpr.value lift v) (meaningBuilder_hom lift v)
    rw [List.map_nil] at this
    rw [AirProg.residues, residues_eq hl, this, Option.map_some, List.map_map]
    simp [Function.comp_def, Assertion.residue, Assertion.sides]

/-- **C92** (native): the folders of the prover and of the verifier give for the program the combination of what it
asserts, that is what they give for the trees; the symbolic constraints are those of the trees, so the degree of the
quotient is the same. -/
theorem C92_native [Field K] {F : Type} [Field F] [Algebra K F] (p : AirProg K) {np : Nat} (hp : p.InRange np)
    (alpha : F) : ∃ air : Air K, p.air = some air ∧
    (∀ w : Window K, w.loc.length = p.width → w.nxt.length = p.width → w.pub.length = np →
      (∃ rs, p.residues id w.meaning = some rs ∧ p.proverFold alpha w = some (combine alpha (rs.map (algebraMap K F)))) ∧
        p.proverFold alpha w = proverFold air alpha w) ∧
    (∀ w : Window F, w.loc.length = p.width → w.nxt.length = p.width → w.pub.length = np →
      (∃ rs, p.residues (algebraMap K F) w.meaning = some rs ∧ p.verifierFold alpha w = some (combine alpha rs)) ∧
        p.verifierFold alpha w = verifierFold air alpha w) ∧
    p.symbolicConstraints np = getSymbolicConstraints air np := by
  classical
  obtain ⟨xs, h1, h2, h3⟩ := eval_hom (K := K) (ts := []) (calls := p.calls) (by simp) hp
  obtain ⟨air, e1, e2, e3, -, e5⟩ := C92_unfold p hp
  have hair : air = ⟨p.width, xs.map .zero⟩ := by
    have := h3 treeBuilder id treeBuilder_hom
    simp only [List.map_nil, List.map_id] at this
    rw [AirProg.air, this] at e1
    exact (Option.some.inj e1).symm
  refine ⟨air, e1, ?_, ?_, ?_⟩
  · intro w g1 g2 g3
    have := h3 (valueBuilder id w) (AExpr.value id w.meaning) (by
      rw [← g1, ← g3]; exact valueBuilder_hom id w (g1.trans g2.symm))
    rw [List.map_nil] at this
    have hf : p.proverFold alpha w = some (combine alpha ((air.asserts.map fun a => a.residue id w.meaning).map
        (algebraMap K F))) := by
      rw [AirProg.proverFold, this, ← foldl_combine]
      subst hair
      simp [Function.comp_def, Assertion.residue, Assertion.sides, List.foldl_map]
    refine ⟨⟨_, e5 id rfl w.meaning, hf⟩, ?_⟩
    rw [hf, (C46_folders_agree_partial air alpha e3).1 w (g1.trans e2.symm) (g2.trans e2.symm) g3, List.map_map]
    rfl
  · intro w g1 g2 g3
    have := h3 (valueBuilder (algebraMap K F) w) (AExpr.value (algebraMap K F) w.meaning) (by
      rw [← g1, ← g3]; exact valueBuilder_hom (algebraMap K F) w (g1.trans g2.symm))
    rw [List.map_nil] at this
    have hf : p.verifierFold alpha w = some (combine alpha (air.asserts.map fun a =>
        a.residue (algebraMap K F) w.meaning)) := by
      rw [AirProg.verifierFold, this, ← foldl_combine]
      subst hair
      simp [Function.comp_def, Assertion.residue, Assertion.sides, List.foldl_map]
    refine ⟨⟨_, e5 _ (map_one _) w.meaning, hf⟩, ?_⟩
    rw [hf, (C46_folders_agree_partial air alpha e3).2.1 w (g1.trans e2.symm) (g2.trans e2.symm) g3]
  · have := h3 (symBuilder p.width np) (symOf p.width np) (symBuilder_hom p.width np)
    rw [List.map_nil] at this
    rw [AirProg.symbolicConstraints, this, hair, getSymbolicConstraints]
    clear this h3 e1 e3 e5 hair h2
    show some (xs.map (symOf p.width np)) = _
    symm
    show (xs.map Assertion.zero).mapM (fun a => a.expr.symbolic p.width np) = _
    induction xs with
    | nil => rfl
    | cons x xs ih =>
      rw [List.map_cons, List.mapM_cons, ih fun t ht => h1 t (List.mem_cons_of_mem _ ht)]
      show (AExpr.symbolic p.width np x).bind _ = _
      rw [symbolic_some (h1 x (List.mem_cons_self ..))]
      rfl

end

/-! ### The script -/

variable {cfg : Cfg} {L : U31Lib} {T : TrackerLib} {D : Nat → List Op} {R : Nat}

theorem progScript_spec (hL : L.Ok cfg) (hT : T.Ok cfg) (hD : ∀ x : List Elem, x.length ≤ 4 → Does cfg (D x.length) x [])
    (p : AirProg BB) {zeta alpha : BB4} {k : Nat} {loc nxt : List BB4} {pub : List BB} (hp : p.InRange pub.length)
    (hne : p.checks ≠ 0) (hloc : loc.length = p.width) (hnxt : nxt.length = p.width) (hk : k ≤ 27)
    (h1 : zeta ≠ 1) (h2 : zeta ≠ algebraMap BB BB4 (bbGen k)⁻¹) (claimed : BB4) (n : Nat) :
    ∃ q rs, p.traceScript L T D zeta alpha k loc nxt pub claimed n = some q ∧
      p.residues (algebraMap BB BB4) (pointMeaning (bbGen k) k zeta loc nxt pub) = some rs ∧
      (accepts cfg q [] = true ↔ claimed = combine alpha rs) ∧
      (L.Slim R → T.Thrifty → (∀ s, s ≤ 4 → Fit (D s) s 4) →
        8 * p.width + 4 * pub.length + 8 * p.nodes + 16 * p.checks + R + 72 ≤ 1000 →
        runL cfg 1000 q ⟨[], [], []⟩ = run cfg q ⟨[], [], []⟩) := by
  have hinp : (managerOf (traceVars loc nxt pub)).inputs = (traceVars loc nxt pub).reverse := by
    simp [managerOf, InputManager.inputs]
  have hnd : ((managerOf (traceVars loc nxt pub)).inputs.map Prod.fst).Nodup := by
    rw [hinp, List.map_reverse, List.nodup_reverse]
    exact traceVars_nodup loc nxt pub
  obtain ⟨K, env, ha⟩ := exists_agrees hnd (by
    intro p hp
    rw [hinp, List.mem_reverse] at hp
    obtain ⟨-, x, hx⟩ := traceVars_rows hp
    rw [hx, bb4Field_ok.const]
    rfl)
  have b0 : Built K NoNodes (managerOf (traceVars loc nxt pub)) n NoNodes :=
    ⟨(Built.new K n).good, fun _ h => h.elim, fun _ h => h.elim, fun _ h => h.elim, fun _ _ h => h.elim, by
      intro p hp i e
      rw [hinp, List.mem_reverse] at hp
      exact absurd (by rw [e]) (traceVars_rows hp).1, hnd, fun _ _ h => h.elim⟩
  obtain ⟨sels, n1, e1, -, P1, b1, s1, d1, d2, d3⟩ := selectorsExpr_makes (env := env) b0 (shift := 1) (point := zeta)
    one_ne_zero hk (by simpa [sub_eq_zero] using h1) (by simpa [sub_eq_zero] using h2)
  simp only [inv_one, map_one, mul_one] at d1 d2 d3
  obtain ⟨hn1, tsels⟩ := tidy_selectors e1
  obtain ⟨P2, b2, s2, d4⟩ := makes_const (env := env) bb4Field_ok b1 alpha
  have hden : TraceDen K NoNodes env P2 (managerOf (traceVars loc nxt pub)) sels loc.length pub.length
      (pointMeaning (bbGen k) k zeta loc nxt pub) := by
    refine ⟨fun c hc => ?_, fun c hc => ?_, fun i hi => ?_, ?_, ?_, d3.mono s2⟩
    · rw [hinp, List.mem_reverse, traceVars]
      exact List.mem_append_right _ (List.mem_append_left _ (mem_zipIdx_map _ loc 0 hc))
    · rw [hinp, List.mem_reverse, traceVars, List.take_of_length_le (by omega)]
      exact List.mem_append_right _ (List.mem_append_right _ (mem_zipIdx_map (fun p : BB4 × Nat =>
        (mainVar 1 p.2, bb4Field.u32 p.1)) nxt 0 (by omega)))
    · rw [hinp, List.mem_reverse, traceVars]
      refine List.mem_append_left _ ?_
      have := mem_zipIdx_map (fun p : BB × Nat => (pubVar p.2, bb4Field.u32 ((p.1.val : ℕ) : BB4))) pub 0 hi
      rw [natCast_val_bb4] at this
      exact this
    · rw [pointMeaning, div_eq_mul_inv]; exact d1.mono s2
    · rw [pointMeaning, div_eq_mul_inv]; exact d2.mono s2
  obtain ⟨cs, n2, rs, e2, r2, P3, b3, s3, d5⟩ := eval_makes ha b2 hden (es := []) (vs := []) .nil
    (show CallsInRange loc.length pub.length p.calls 0 by rw [hloc]; exact hp)
  obtain ⟨air, -, -, -, u4, u5⟩ := C92_unfold p hp
  have hlen : cs.length = p.checks := by
    rw [d5.length_eq, ← u4]
    have r3 := u5 (algebraMap BB BB4) (map_one _) (pointMeaning (bbGen k) k zeta loc nxt pub)
    rw [AirProg.residues, r2] at r3
    rw [Option.some.inj r3, List.length_map]
  have hcs : cs ≠ [] := by
    rintro rfl
    exact hne hlen.symm
  obtain ⟨q, e3, hrun⟩ := foldScript_run hL hT hD ha (fun p hp => (traceVars_rows hp).1) b3 (d4.mono s3) d5 hcs claimed [] []
  refine ⟨q, rs, ?_, r2, ?_, ?_⟩
  · unfold AirProg.traceScript
    simp only [e1, Option.bind_eq_bind, Option.bind_some, if_neg (show ¬ nxt.length < loc.length by omega), e2]
    exact e3
  · have t1 : truthy (num 1) = true := by decide +kernel
    unfold accepts
    rw [hrun]
    by_cases hc : combine alpha rs = claimed
    · rw [if_pos hc]
      exact iff_of_true t1 hc.symm
    · rw [if_neg hc]
      exact iff_of_false (by simp) (Ne.symm hc)
  · intro hS hT' hD' hl
    have hn2 : (Dsl.constant (bb4Field.u32 alpha) n1).2 = n1 + 1 := rfl
    obtain ⟨hn3, tcs⟩ := tidy_eval (n0 := n) (by rw [hn2]; omega) (tsels.mono (by rw [hn2]; omega)) (by simp) e2
    have h4 : ∀ q ∈ traceVars loc nxt pub, q.2.length = 4 := by
      intro q hq
      obtain ⟨-, x, hx⟩ := traceVars_rows hq
      rw [hx]
      exact bb4Field_ok.length x
    have hsum := sum_four _ h4
    have hcount : (traceVars loc nxt pub).length = pub.length + 2 * p.width := by
      simp only [traceVars, List.length_append, List.length_map, List.length_zipIdx, List.length_take]
      omega
    have hq : p.nodes = (p.calls.map ACall.nodes).sum := rfl
    refine foldScript_fits hL hT hS hT' hD hD' ha (fun p hp => (traceVars_rows hp).1) b3 (d4.mono s3) d5 hcs claimed [] []
      (n0 := n) (by omega) ((Prog.tidy_const (n0 := n) _ (by omega)).mono (by omega)) tcs ?_ e3
    rw [hsum, hcount, List.length_nil]
    omega

/-- **C92** (script): for a program with at least one assertion the script of the folded constraints, whose nodes are
shared as the values of the program are, can be generated, and accepts iff the value it is given is the combination of
what the program asserts at the opened rows. -/
theorem C92_script (hL : L.Ok cfg) (hT : T.Ok cfg) (hD : ∀ x : List Elem, x.length ≤ 4 → Does cfg (D x.length) x [])
    (p : AirProg BB) {zeta alpha : BB4} {k : Nat} {loc nxt : List BB4} {pub : List BB} (hp : p.InRange pub.length)
    (hne : p.checks ≠ 0) (hloc : loc.length = p.width) (hnxt : nxt.length = p.width) (hk : k ≤ 27)
    (h1 : zeta ≠ 1) (h2 : zeta ≠ algebraMap BB BB4 (bbGen k)⁻¹) (claimed : BB4) (n : Nat) :
    ∃ q rs, p.traceScript L T D zeta alpha k loc nxt pub claimed n = some q ∧
      p.residues (algebraMap BB BB4) (pointMeaning (bbGen k) k zeta loc nxt pub) = some rs ∧
      (accepts cfg q [] = true ↔ claimed = combine alpha rs) := by
  obtain ⟨q, rs, a, b, c, -⟩ := progScript_spec (R := 0) hL hT hD p (alpha := alpha) hp hne hloc hnxt hk h1 h2 claimed n
  exact ⟨q, rs, a, b, c⟩

/-- **C92** (native and script): the script accepts the accumulator of the verifier and no other value. -/
theorem C92_agree (hL : L.Ok cfg) (hT : T.Ok cfg) (hD : ∀ x : List Elem, x.length ≤ 4 → Does cfg (D x.length) x [])
    (p : AirProg BB) {zeta alpha : BB4} {k : Nat} {loc nxt : List BB4} {pub : List BB} (hp : p.InRange pub.length)
    (hne : p.checks ≠ 0) (hloc : loc.length = p.width) (hnxt : nxt.length = p.width) (hk : k ≤ 27)
    {s : Selectors BB4} (hs : selectorsAtPoint bbGen ⟨k, 1⟩ zeta = some s) (claimed : BB4) (n : Nat) :
    ∃ q, p.traceScript L T D zeta alpha k loc nxt pub claimed n = some q ∧
      (accepts cfg q [] = true ↔ p.verifierFold alpha ⟨loc, nxt, pub.map (algebraMap BB BB4), s.isFirstRow, s.isLastRow,
        s.isTransition⟩ = some claimed) := by
  obtain ⟨h1, h2, hw⟩ := nativeWindow hs loc nxt pub
  obtain ⟨q, rs, e, r, hq⟩ := C92_script hL hT hD p (alpha := alpha) hp hne hloc hnxt hk h1 h2 claimed n
  refine ⟨q, e, ?_⟩
  obtain ⟨air, -, -, hv, -⟩ := C92_native p hp alpha
  obtain ⟨⟨rs', r', hf⟩, -⟩ := hv ⟨loc, nxt, pub.map (algebraMap BB BB4), s.isFirstRow, s.isLastRow, s.isTransition⟩ hloc hnxt
    (by simp)
  rw [hw, r] at r'
  cases r'
  rw [hq, hf, Option.some.injEq, eq_comm]

/-- **C92** (room): where `8 w + 4 k + 8 s + 16 m` is at most 1000 up to a constant, for `w` columns, `k` public values,
`m` assertions, and `s` operations, constants and variables, each counted once however often its value is used, the
script accepts the same under the limit of the stack. -/
theorem C92_room (hL : L.Ok cfg) (hT : T.Ok cfg) (hS : L.Slim R) (hT' : T.Thrifty)
    (hD : ∀ x : List Elem, x.length ≤ 4 → Does cfg (D x.length) x []) (hD' : ∀ s, s ≤ 4 → Fit (D s) s 4)
    (p : AirProg BB) {zeta alpha : BB4} {k : Nat} {loc nxt : List BB4} {pub : List BB} (hp : p.InRange pub.length)
    (hne : p.checks ≠ 0) (hloc : loc.length = p.width) (hnxt : nxt.length = p.width) (hk : k ≤ 27)
    (h1 : zeta ≠ 1) (h2 : zeta ≠ algebraMap BB BB4 (bbGen k)⁻¹) (claimed : BB4) (n : Nat)
    (hl : 8 * p.width + 4 * pub.length + 8 * p.nodes + 16 * p.checks + R + 72 ≤ 1000) :
    ∃ q rs, p.traceScript L T D zeta alpha k loc nxt pub claimed n = some q ∧
      p.residues (algebraMap BB BB4) (pointMeaning (bbGen k) k zeta loc nxt pub) = some rs ∧
      (acceptsL cfg q [] = true ↔ claimed = combine alpha rs) := by
  obtain ⟨q, rs, a, b, c, d⟩ := progScript_spec (R := R) hL hT hD p (alpha := alpha) hp hne hloc hnxt hk h1 h2 claimed n
  refine ⟨q, rs, a, b, ?_⟩
  rw [← c]
  have : runWitness cfg q [] = run cfg q ⟨[], [], []⟩ := by
    unfold runWitness
    rw [if_pos (by simp [stackLimit])]
    exact d hS hT' hD' hl
  simp only [acceptsL, accepts, this]
  rfl

/-! ### An instance -/

/-- Two columns: the first is a bit, the second doubles when the bit is set, and starts at the public value.  The square
of the second column is used twice. -/
def exampleProg : AirProg BB where
  width := 2
  calls := [.value (.loc 0), .check [] (.bool 0), .value .isFirstRow, .value (.loc 1), .value (.pub 0), .check [1] (.eq 2 3),
    .value .isTransition, .value (.nxt 1), .value (.add 2 2), .check [4, 0] (.eq 5 6), .value (.mul 2 2), .value (.mul 7 7),
    .check [1] (.one 8)]

/-- C92, instance: the hypotheses hold; the program builds 18 nodes, the trees have 27. -/
theorem C92_instance (cfg : Cfg) (claimed : BB4) : exampleProg.InRange 1 ∧ exampleProg.checks = 4 ∧ exampleProg.nodes = 18 ∧
    (∃ air, exampleProg.air = some air ∧ air.nodes = 27) ∧
    ∃ q rs, exampleProg.traceScript (repoLib 2013265921) refTracker (fun n => List.replicate n Op.drop) 0 5 3 [1, 4] [0, 8] [4]
        claimed 0 = some q ∧
      exampleProg.residues (algebraMap BB BB4) (pointMeaning (bbGen 3) 3 0 [1, 4] [0, 8] [4]) = some rs ∧
      (acceptsL cfg q [] = true ↔ claimed = combine 5 rs) := by
  have hr : exampleProg.InRange 1 := by
    simp [AirProg.InRange, exampleProg, CallsInRange, AStep.InRange, ACheck.InRange]
  refine ⟨hr, rfl, rfl, ⟨_, rfl, ?_⟩, ?_⟩
  · rfl
  · obtain ⟨-, -, -, ⟨h3, h4⟩, hL, hT, hD⟩ := C80_instance (cfg := cfg)
    exact C92_room hL hT repoLib_slim refTracker_thrifty hD (fun s _ => drop_fits s) exampleProg (pub := [4]) hr (by decide) rfl rfl
      (by decide) h3 h4 claimed 0 (by decide)

/-- C92, instance: the rows `(1, 4)`, `(0, 8)` with the public value 4 satisfy the first three assertions, and the fourth,
that the fourth power of the second column is 1, only where the flag of the first row is 0. -/
theorem C92_instance_holds (v : Meaning BB4) (h1 : v.loc 0 = 1) (h2 : v.loc 1 = 4) (h3 : v.nxt 1 = 8) (h4 : v.pub 0 = 4) :
    exampleProg.Holds (algebraMap BB BB4) v ↔ v.first = 0 := by
  have h5 : (4 * 4 * (4 * 4) : BB4) ≠ 1 := by
    intro h
    have : algebraMap BB BB4 (4 * 4 * (4 * 4)) = algebraMap BB BB4 1 := by
      rw [map_one, ← h]
      simp only [map_mul, map_ofNat]
    exact absurd ((algebraMap BB BB4).injective this) (by decide +kernel)
  have h6 : (8 : BB4) = 4 + 4 := by norm_num
  simp only [AirProg.Holds, exampleProg, CallsHold, AStep.value, ACheck.Holds, h1, h2, h3, h4]
  simp [h5, h6]

end TapStark.Stark
