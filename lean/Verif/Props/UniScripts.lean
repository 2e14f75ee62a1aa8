import Verif.Model.UniScripts
import Verif.Model.ScriptQuotient
import Verif.Props.FieldOps

/-
Property C93: the scripts of /repo/uni-stark/src/scripts/utils.rs for `x^n - 1` and for powers of a generator.
-/

namespace TapStark.Uni

open TapStark Stark

variable {cfg : Cfg} {L : U31Lib}

/-! ### Powers minus one -/

theorem does_num (cfg : Cfg) (n : Int) (i : List Elem) : Does cfg [.num n] i (num n :: i) := by
  intro m a c ops h
  exact run_num _ h

/-- C93: `value_exp_n_minus_one(log_n)` leaves `x^(2^log_n) - 1`, for every element of either field. -/
theorem C93_power (hL : L.Ok cfg) (x : FVal) (n : Nat) : ∃ r : FVal, r.size = x.size ∧
    r.val = x.val ^ (2 ^ n) - 1 ∧ Does cfg (valueExpNMinusOne L x.size n) x.enc r.enc := by
  obtain ⟨r, hs, hv, hd⟩ := valueExpN_does hL n x
  rw [valueExpN] at hd
  cases r with
  | base y =>
    refine ⟨.base (y - 1), hs, ?_, ?_⟩
    · rw [← hv]; show algebraMap BB BB4 (y - 1) = algebraMap BB BB4 y - 1
      rw [map_sub, map_one]
    · rw [valueExpNMinusOne, ← hs]
      rw [← hs] at hd
      refine hd.seq (.cons (does_num cfg 1 _) ?_)
      exact hL.sub y 1
  | ext y =>
    refine ⟨.ext (y - 1), hs, by rw [← hv]; rfl, ?_⟩
    rw [valueExpNMinusOne, ← hs]
    rw [← hs] at hd
    refine hd.seq ?_
    have e : encE (1 : BB4) = [num 1, num 0, num 0, num 0] := by
      rw [← (algebraMap BB BB4).map_one, mk4_base, encE_mk4]; rfl
    have hp : Does cfg [.num 0, .num 0, .num 0, .num 1] (encE y) (encE 1 ++ encE y) := by
      rw [e]
      exact .cons (does_num cfg 0 _) (.cons (does_num cfg 0 _) (.cons (does_num cfg 0 _) (does_num cfg 1 _)))
    exact hp.seq (hL.extSub y 1)

/-- C93, an instance with the scripts of the repository: `3^4 - 1 = 80`. -/
theorem C93_power_instance (cfg : Cfg) (m a : List Elem) :
    run cfg (valueExpNMinusOne (repoLib 2013265921) 1 2) ⟨num 3 :: m, a, []⟩ = some ⟨num 80 :: m, a, []⟩ := by
  obtain ⟨r, hs, hv, hd⟩ := C93_power (repoLib_ok cfg) (.base 3) 2
  have hr : r = .base 80 := by
    refine FVal.ext_iff' hs (hv.trans ?_)
    show algebraMap BB BB4 3 ^ 4 - 1 = algebraMap BB BB4 80
    rw [← map_pow, ← map_one (algebraMap BB BB4), ← map_sub]
    congr 1
  subst hr
  exact hd.run m a

/-! ### The table -/

theorem mapM_of {α β : Type} {f : α → Option β} {h : α → β} : ∀ {l : List α}, (∀ x ∈ l, f x = some (h x)) →
    l.mapM f = some (l.map h)
  | [], _ => rfl
  | x :: l, hx => by
    rw [List.mapM_cons, hx x (by simp), mapM_of (l := l) fun y hy => hx y (by simp [hy])]
    rfl

theorem mapM_none {α β : Type} {f : α → Option β} : ∀ {l : List α} {x : α}, x ∈ l → f x = none → l.mapM f = none
  | y :: l, x, hm, hx => by
    rw [List.mapM_cons]
    cases hy : f y with
    | none => rfl
    | some z =>
      have hl : x ∈ l := by
        rcases List.mem_cons.1 hm with e | e
        · rw [e, hy] at hx; cases hx
        · exact e
      rw [mapM_none hl hx]; rfl

section Table

variable {F : Type} [Field F] [DecidableEq F] (B : BfField F)

/-- The table as it lies on the stack, top first. -/
def tableOf (g : F) (q : Nat) : List F := (List.range (2 * q - 1)).map fun (i : Nat) => g ^ ((i : ℤ) - (q - 1 : ℤ))

omit [DecidableEq F] in
theorem tableOf_eq (g : F) (q : Nat) (hq : 1 ≤ q) :
    tableOf g q = ((List.range (q - 1)).map fun i => (g ^ (i + 1))⁻¹).reverse ++ (List.range q).map (g ^ ·) := by
  unfold tableOf
  rw [show 2 * q - 1 = (q - 1) + q by omega, List.range_add, List.map_append, List.map_map]
  congr 1
  · apply List.ext_getElem
    · simp
    · intro i h1 h2
      have hi : i < q - 1 := by simpa using h1
      simp only [List.getElem_map, List.getElem_range, List.getElem_reverse, List.length_map, List.length_range]
      rw [← zpow_natCast, ← zpow_neg]
      congr 1
      omega
  · apply List.map_congr_left
    intro i _
    simp only [Function.comp]
    rw [← zpow_natCast]
    congr 1
    omega

omit [Field F] [DecidableEq F] in
theorem push_flatten (l : List F) :
    (l.map (pushValue B)).flatten = (l.reverse.flatMap B.u32).reverse.map fun (v : Nat) => Op.num v := by
  induction l with
  | nil => rfl
  | cons x l ih =>
    rw [List.map_cons, List.flatten_cons, ih, List.reverse_cons, List.flatMap_append, List.reverse_append,
      List.map_append]
    simp [pushValue]

theorem pushGeneratorTable_eq (g : F) (q : Nat) (hq : 1 ≤ q) (hg : g ≠ 0 ∨ q = 1) :
    pushGeneratorTable B g q = some (((tableOf g q).flatMap B.u32).reverse.map fun (v : Nat) => Op.num v) := by
  unfold pushGeneratorTable
  have h : (List.range (q - 1)).mapM (fun i => (inverse? (g ^ (i + 1))).map (pushValue B)) =
      some ((List.range (q - 1)).map fun i => pushValue B (g ^ (i + 1))⁻¹) := by
    apply mapM_of
    intro i hi
    have : g ≠ 0 := by
      rcases hg with h | h
      · exact h
      · subst h; simp at hi
    rw [inverse?, if_neg (pow_ne_zero _ this)]; rfl
  rw [h]
  show some _ = _
  have e1 : (List.range q).reverse.flatMap (fun i => pushValue B (g ^ i)) =
      ((((List.range q).map (g ^ ·)).flatMap B.u32).reverse.map fun (v : Nat) => Op.num v) := by
    have := push_flatten B (((List.range q).map (g ^ ·)).reverse)
    rw [List.reverse_reverse] at this
    rw [← this, ← List.map_reverse, List.map_map, List.flatMap_def]; rfl
  have e2 : ((List.range (q - 1)).map fun i => pushValue B (g ^ (i + 1))⁻¹).flatten =
      ((((List.range (q - 1)).map fun i => (g ^ (i + 1))⁻¹).reverse.flatMap B.u32).reverse.map
        fun (v : Nat) => Op.num v) := by
    rw [← push_flatten, List.map_map]; rfl
  rw [e1, e2, tableOf_eq g q hq, List.flatMap_append, List.reverse_append, List.map_append]

/-- C93: the generator of the lookup panics exactly without chunks and, with two or more, for the base 0. -/
theorem C93_panics (g : F) (q : Nat) : getGenerator B g q = none ↔ q = 0 ∨ (g = 0 ∧ 2 ≤ q) := by
  constructor
  · intro h
    by_contra hn
    have hq : 1 ≤ q := by omega
    have hg : g ≠ 0 ∨ q = 1 := by
      by_cases hg : g = 0
      · right
        have : ¬ 2 ≤ q := fun h => hn (.inr ⟨hg, h⟩)
        omega
      · exact .inl hg
    rw [getGenerator, pushGeneratorTable_eq B g q hq hg, popGeneratorTable, if_neg (by omega)] at h
    cases h
  · rintro (rfl | ⟨rfl, hq⟩)
    · unfold getGenerator
      cases pushGeneratorTable B g 0 <;> rfl
    · rw [getGenerator, pushGeneratorTable,
        mapM_none (x := 0) (List.mem_range.2 (by omega)) (by rw [inverse?, if_pos (by simp)]; rfl)]
      rfl

end Table

theorem emitN_one (n : Nat) : emitN n (emitN 1 [Op.drop]) = emitN n [.drop] := rfl

theorem emitN_four (n : Nat) : emitN n (emitN 4 [Op.drop]) = emitN (n * 4) [.drop] := by
  induction n with
  | zero => rfl
  | succ n ih =>
    rw [emitN_succ, ih, show (n + 1) * 4 = n * 4 + 1 + 1 + 1 + 1 by ring]
    rfl

/-- The base field lookup on a stack whose entry at depth `i` above the caller's elements is known. -/
theorem run_getGenerator_base (g : BB) (q i : Nat) (x : Elem) (hq : 1 ≤ q) (hg : g ≠ 0 ∨ q = 1) (hb : i < 2 ^ 31)
    {m a : List Elem} {c : List Bool} {ops : List Op} (h : live c = true)
    (hx : ((tableOf g q).map encB ++ m)[i]? = some x) : ∃ p, getGenerator bbField g q = some p ∧
    run cfg (p ++ ops) ⟨num i :: m, a, c⟩ = run cfg ops ⟨x :: m, a, c⟩ := by
  rw [getGenerator, pushGeneratorTable_eq bbField g q hq hg, popGeneratorTable, if_neg (by omega)]
  refine ⟨_, rfl, ?_⟩
  rw [if_pos (show bbField.consts.size = 1 from rfl), if_pos (show bbField.consts.size = 1 from rfl)]
  rw [show bbField.consts.size = 1 from rfl, emitN_one]
  simp only [List.append_assoc]
  sexec
  rw [run_pushNats _ h, run_fromAlt _ h]
  have ht : ((tableOf g q).flatMap bbField.u32).map (fun (v : Nat) => num v) = (tableOf g q).map encB := by
    rw [List.map_flatMap, List.map_eq_flatMap]; rfl
  have hl : ((tableOf g q).map encB).length = 2 * q - 1 := by simp [tableOf]
  rw [ht, run_pick_some (k := i) (x := x) h rfl hx (by omega), run_toAlt _ h]
  rw [run_u31drops hl h]
  exact run_fromAlt _ h

/-- C93, base field: the script leaves the power `index - (chunks - 1)` of the generator. -/
theorem C93_generator_base (cfg : Cfg) (g : BB) (q i : Nat) (hq : 1 ≤ q) (hg : g ≠ 0 ∨ q = 1) (hb : q ≤ 2 ^ 30)
    (hi : i < 2 * q - 1) : ∃ p, getGenerator bbField g q = some p ∧
    Does cfg p [num i] [encB (g ^ ((i : ℤ) - (q - 1 : ℤ)))] := by
  have hx : ∀ m : List Elem, ((tableOf g q).map encB ++ m)[i]? = some (encB (g ^ ((i : ℤ) - (q - 1 : ℤ)))) := by
    intro m
    rw [List.getElem?_append_left (by simpa [tableOf] using hi)]
    simp [tableOf, List.getElem?_range hi]
  obtain ⟨p, hp, _⟩ := run_getGenerator_base (cfg := cfg) (a := []) (ops := []) (c := []) g q i _ hq hg (by omega) rfl (hx [])
  refine ⟨p, hp, ?_⟩
  intro m a c ops h
  obtain ⟨p', hp', hr⟩ := run_getGenerator_base (cfg := cfg) (a := a) (ops := ops) (c := c) g q i _ hq hg (by omega) h (hx m)
  cases hp.symm.trans hp'
  exact hr

/-- C93, violated: an index outside the table is not refused; the script leaves a copy of an element of the caller. -/
theorem C93_violated_out_of_range (cfg : Cfg) (g : BB) (q j : Nat) (x : Elem) (m a : List Elem) (hq : 1 ≤ q)
    (hg : g ≠ 0 ∨ q = 1) (hb : 2 * q - 1 + j < 2 ^ 31) (hx : m[j]? = some x) :
    ∃ p, getGenerator bbField g q = some p ∧
      run cfg p ⟨num (2 * q - 1 + j : Nat) :: m, a, []⟩ = some ⟨x :: m, a, []⟩ := by
  have hl : ((tableOf g q).map encB).length = 2 * q - 1 := by simp [tableOf]
  obtain ⟨p, hp, hr⟩ := run_getGenerator_base (cfg := cfg) (a := a) (ops := []) (c := []) (m := m) g q (2 * q - 1 + j) x
    hq hg hb rfl (by rw [List.getElem?_append_right (by omega), hl, show 2 * q - 1 + j - (2 * q - 1) = j by omega, hx])
  exact ⟨p, hp, by simpa using hr⟩

theorem u32_ext (x : BB4) : (bb4Field.u32 x).map (fun (v : Nat) => num v) = encE x := by
  show ((asBase4 x).map ZMod.val).map (fun (v : Nat) => num v) = (asBase4 x).map encB
  rw [List.map_map]; rfl

theorem run_op4mul_of {cfg : Cfg} {k : Nat} (hk : 4 * k < 2 ^ 31) {m a : List Elem} {c : List Bool} {ops : List Op}
    (h : live c = true) :
    run cfg (op4mul ++ ops) ⟨num k :: m, a, c⟩ = run cfg ops ⟨num (k * 4 : Nat) :: m, a, c⟩ := by
  unfold op4mul
  sexec
  rw [show ((k : Int) + k + (k + k)) = (k * 4 : Nat) by omega]

/-- C93, extension field. -/
theorem C93_generator_ext [DecidableEq BB4] (cfg : Cfg) (g : BB4) (q i : Nat) (hq : 1 ≤ q) (hg : g ≠ 0 ∨ q = 1)
    (hb : q ≤ 2 ^ 27) (hi : i < 2 * q - 1) : ∃ p, getGenerator bb4Field g q = some p ∧
    Does cfg p [num i] (encE (g ^ ((i : ℤ) - (q - 1 : ℤ)))) := by
  rw [getGenerator, pushGeneratorTable_eq bb4Field g q hq hg, popGeneratorTable, if_neg (by omega)]
  refine ⟨_, rfl, ?_⟩
  intro m a c ops h
  have hs : bb4Field.consts.size = 4 := rfl
  rw [hs, if_neg (by decide), if_neg (by decide), emitN_four]
  simp only [List.append_assoc]
  sexec
  rw [run_pushNats _ h, run_fromAlt _ h, run_op4mul_of (by omega) h]
  have ht : ((tableOf g q).flatMap bb4Field.u32).map (fun (v : Nat) => num v) = (tableOf g q).flatMap encE := by
    rw [List.map_flatMap, show (fun x => (bb4Field.u32 x).map fun (v : Nat) => num v) = encE from funext u32_ext]
  have hlen : ((tableOf g q).flatMap encE).length = (2 * q - 1) * 4 := by
    rw [length_flatMap_const encE length_encE]; simp [tableOf]
  have hi' : i < (tableOf g q).length := by simpa [tableOf] using hi
  have hsplit : (tableOf g q).flatMap encE = ((tableOf g q).take i).flatMap encE ++
      (encE (g ^ ((i : ℤ) - (q - 1 : ℤ))) ++ ((tableOf g q).drop (i + 1)).flatMap encE) := by
    conv_lhs => rw [← List.take_append_drop i (tableOf g q), List.flatMap_append, List.drop_eq_getElem_cons hi',
      List.flatMap_cons]
    simp [tableOf]
  have hpre : (((tableOf g q).take i).flatMap encE).length = i * 4 := by
    rw [length_flatMap_const encE length_encE, List.length_take]
    congr 1; omega
  rw [ht]
  generalize g ^ ((i : ℤ) - (q - 1 : ℤ)) = v at *
  obtain ⟨x0, x1, x2, x3, rfl⟩ := exists_mk4 v
  rw [encE_mk4] at hsplit ⊢
  rw [hsplit] at hlen ⊢
  simp only [List.append_assoc, List.cons_append, List.nil_append] at hlen ⊢
  rw [run_op4pick _ _ _ _ _ _ h hpre (by omega), run_op4toAlt h]
  have hd := run_u31drops (cfg := cfg) (ops := op4fromAlt ++ ops) (m := m)
    (a := encB x3 :: encB x2 :: encB x1 :: encB x0 :: a) (c := c) hlen h
  simp only [List.append_assoc, List.cons_append] at hd
  refine hd.trans ?_
  rw [run_op4fromAlt h]

/-- C93: the entry at an index is that of `get_table`, counted from the end. -/
theorem C93_table (g : BB) (q i : Nat) (hq : 1 ≤ q) (hg : g ≠ 0 ∨ q = 1) (hi : i < 2 * q - 1) :
    ∃ t, getTable g q = some t ∧ t.length = 2 * q - 1 ∧
      t.reverse[i]? = some (g ^ ((i : ℤ) - (q - 1 : ℤ))) := by
  have h : (List.range (q - 1)).mapM (fun i => inverse? (g ^ (i + 1))) =
      some ((List.range (q - 1)).map fun i => (g ^ (i + 1))⁻¹) := by
    apply mapM_of
    intro i hi
    have : g ≠ 0 := by
      rcases hg with h | h
      · exact h
      · subst h; simp at hi
    rw [inverse?, if_neg (pow_ne_zero _ this)]
  refine ⟨_, by rw [getTable, h]; rfl, by simp; omega, ?_⟩
  have : ((List.range q).reverse.map (g ^ ·) ++ (List.range (q - 1)).map fun i => (g ^ (i + 1))⁻¹).reverse =
      tableOf g q := by
    rw [tableOf_eq g q hq, List.reverse_append, ← List.map_reverse, List.map_reverse]
    simp
  rw [this]
  simp [tableOf, List.getElem?_range hi]

/-- C93, an instance: with two chunks, index 0 gives the inverse, index 1 one and index 2 the generator. -/
theorem C93_generator_instance (cfg : Cfg) (m a : List Elem) : ∃ p, getGenerator bbField 2 2 = some p ∧
    run cfg p ⟨num 0 :: m, a, []⟩ = some ⟨num 1006632961 :: m, a, []⟩ ∧
    run cfg p ⟨num 1 :: m, a, []⟩ = some ⟨num 1 :: m, a, []⟩ ∧
    run cfg p ⟨num 2 :: m, a, []⟩ = some ⟨num 2 :: m, a, []⟩ := by
  have h2 : (2 : BB) ≠ 0 := by decide
  obtain ⟨p, hp, h0⟩ := C93_generator_base cfg 2 2 0 (by decide) (.inl h2) (by decide) (by decide)
  obtain ⟨p', hp', h1⟩ := C93_generator_base cfg 2 2 1 (by decide) (.inl h2) (by decide) (by decide)
  obtain ⟨p'', hp'', h3⟩ := C93_generator_base cfg 2 2 2 (by decide) (.inl h2) (by decide) (by decide)
  cases hp.symm.trans hp'
  cases hp.symm.trans hp''
  refine ⟨p, hp, (h0.run m a).trans ?_, (h1.run m a).trans ?_, (h3.run m a).trans ?_⟩
  · have : (2 : BB) ^ (((0 : Nat) : ℤ) - ((2 : Nat) - 1 : ℤ)) = 1006632961 := by
      norm_num
      exact inv_eq_of_mul_eq_one_right (by decide)
    rw [this]; rfl
  · have : (2 : BB) ^ (((1 : Nat) : ℤ) - ((2 : Nat) - 1 : ℤ)) = 1 := by norm_num
    rw [this]; rfl
  · have : (2 : BB) ^ (((2 : Nat) : ℤ) - ((2 : Nat) - 1 : ℤ)) = 2 := by norm_num
    rw [this]; rfl

end TapStark.Uni
