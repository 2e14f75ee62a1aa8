import Verif.Script.Interp

/-
Symbolic execution lemmas: each rewrites one opcode on a symbolic stack and continues with the
rest of the script.  They hold in any executed branch (`live c = true`).
-/

namespace TapStark

variable {cfg : Cfg} {ops : List Op} {m a : List Elem} {c : List Bool}

theorem run_push (e : Elem) (h : live c = true) :
    run cfg (.push e :: ops) ⟨m, a, c⟩ = run cfg ops ⟨e :: m, a, c⟩ := by
  simp [run_cons, step, h, execOp]

theorem run_num (n : Int) (h : live c = true) :
    run cfg (.num n :: ops) ⟨m, a, c⟩ = run cfg ops ⟨num n :: m, a, c⟩ := run_push _ h

theorem run_dup (x : Elem) (h : live c = true) :
    run cfg (.dup :: ops) ⟨x :: m, a, c⟩ = run cfg ops ⟨x :: x :: m, a, c⟩ := by
  simp [run_cons, step, h, execOp]

theorem run_drop (x : Elem) (h : live c = true) :
    run cfg (.drop :: ops) ⟨x :: m, a, c⟩ = run cfg ops ⟨m, a, c⟩ := by
  simp [run_cons, step, h, execOp]

theorem run_swap (x y : Elem) (h : live c = true) :
    run cfg (.swap :: ops) ⟨x :: y :: m, a, c⟩ = run cfg ops ⟨y :: x :: m, a, c⟩ := by
  simp [run_cons, step, h, execOp]

theorem run_over (x y : Elem) (h : live c = true) :
    run cfg (.over :: ops) ⟨x :: y :: m, a, c⟩ = run cfg ops ⟨y :: x :: y :: m, a, c⟩ := by
  simp [run_cons, step, h, execOp]

theorem run_tuck (x y : Elem) (h : live c = true) :
    run cfg (.tuck :: ops) ⟨x :: y :: m, a, c⟩ = run cfg ops ⟨x :: y :: x :: m, a, c⟩ := by
  simp [run_cons, step, h, execOp]

theorem run_rot (x y z : Elem) (h : live c = true) :
    run cfg (.rot :: ops) ⟨x :: y :: z :: m, a, c⟩ = run cfg ops ⟨z :: x :: y :: m, a, c⟩ := by
  simp [run_cons, step, h, execOp]

theorem run_drop2 (x y : Elem) (h : live c = true) :
    run cfg (.drop2 :: ops) ⟨x :: y :: m, a, c⟩ = run cfg ops ⟨m, a, c⟩ := by
  simp [run_cons, step, h, execOp]

theorem run_dup2 (x y : Elem) (h : live c = true) :
    run cfg (.dup2 :: ops) ⟨x :: y :: m, a, c⟩ = run cfg ops ⟨x :: y :: x :: y :: m, a, c⟩ := by
  simp [run_cons, step, h, execOp]

theorem run_dup3 (x y z : Elem) (h : live c = true) :
    run cfg (.dup3 :: ops) ⟨x :: y :: z :: m, a, c⟩ =
      run cfg ops ⟨x :: y :: z :: x :: y :: z :: m, a, c⟩ := by
  simp [run_cons, step, h, execOp]

theorem run_over2 (x y z w : Elem) (h : live c = true) :
    run cfg (.over2 :: ops) ⟨x :: y :: z :: w :: m, a, c⟩ =
      run cfg ops ⟨z :: w :: x :: y :: z :: w :: m, a, c⟩ := by
  simp [run_cons, step, h, execOp]

theorem run_swap2 (x y z w : Elem) (h : live c = true) :
    run cfg (.swap2 :: ops) ⟨x :: y :: z :: w :: m, a, c⟩ =
      run cfg ops ⟨z :: w :: x :: y :: m, a, c⟩ := by
  simp [run_cons, step, h, execOp]

theorem run_pick {n : Int} (h : live c = true) (hn : 0 ≤ n ∧ n < 2147483648) :
    run cfg (.pick :: ops) ⟨num n :: m, a, c⟩ =
      match m[n.toNat]? with
      | some x => run cfg ops ⟨x :: m, a, c⟩
      | none => none := by
  simp only [run_cons, step, h, if_true, execOp]
  rw [decodeNum_num (by unfold InRange; omega)]
  simp only [if_neg (show ¬ n < 0 by omega)]
  cases m[n.toNat]? <;> rfl

theorem run_roll {n : Int} (h : live c = true) (hn : 0 ≤ n ∧ n < 2147483648) :
    run cfg (.roll :: ops) ⟨num n :: m, a, c⟩ =
      match m[n.toNat]? with
      | some x => run cfg ops ⟨x :: m.eraseIdx n.toNat, a, c⟩
      | none => none := by
  simp only [run_cons, step, h, if_true, execOp]
  rw [decodeNum_num (by unfold InRange; omega)]
  simp only [if_neg (show ¬ n < 0 by omega), rollTop]
  cases m[n.toNat]? <;> rfl

theorem run_toAlt (x : Elem) (h : live c = true) :
    run cfg (.toAlt :: ops) ⟨x :: m, a, c⟩ = run cfg ops ⟨m, x :: a, c⟩ := by
  simp [run_cons, step, h, execOp]

theorem run_fromAlt (x : Elem) (h : live c = true) :
    run cfg (.fromAlt :: ops) ⟨m, x :: a, c⟩ = run cfg ops ⟨x :: m, a, c⟩ := by
  simp [run_cons, step, h, execOp]

theorem numBin_num {f : Int → Int → Elem} {x y : Int} (hx : InRange x) (hy : InRange y) :
    numBin cfg f ⟨num y :: num x :: m, a, c⟩ = some ⟨f x y :: m, a, c⟩ := by
  simp only [numBin, decodeNum_num hx, decodeNum_num hy]

theorem numUn_num {f : Int → Elem} {x : Int} (hx : InRange x) :
    numUn cfg f ⟨num x :: m, a, c⟩ = some ⟨f x :: m, a, c⟩ := by
  simp only [numUn, decodeNum_num hx]

theorem run_add {x y : Int} (h : live c = true) (hx : InRange x) (hy : InRange y) :
    run cfg (.add :: ops) ⟨num y :: num x :: m, a, c⟩ = run cfg ops ⟨num (x + y) :: m, a, c⟩ := by
  simp [run_cons, step, h, execOp, numBin_num hx hy]

theorem run_sub {x y : Int} (h : live c = true) (hx : InRange x) (hy : InRange y) :
    run cfg (.sub :: ops) ⟨num y :: num x :: m, a, c⟩ = run cfg ops ⟨num (x - y) :: m, a, c⟩ := by
  simp [run_cons, step, h, execOp, numBin_num hx hy]

theorem run_sub1 {x : Int} (h : live c = true) (hx : InRange x) :
    run cfg (.sub1 :: ops) ⟨num x :: m, a, c⟩ = run cfg ops ⟨num (x - 1) :: m, a, c⟩ := by
  simp [run_cons, step, h, execOp, numUn_num hx]

theorem run_negate {x : Int} (h : live c = true) (hx : InRange x) :
    run cfg (.negate :: ops) ⟨num x :: m, a, c⟩ = run cfg ops ⟨num (-x) :: m, a, c⟩ := by
  simp [run_cons, step, h, execOp, numUn_num hx]

theorem run_abs {x : Int} (h : live c = true) (hx : InRange x) :
    run cfg (.abs :: ops) ⟨num x :: m, a, c⟩ = run cfg ops ⟨num x.natAbs :: m, a, c⟩ := by
  simp [run_cons, step, h, execOp, numUn_num hx]

theorem run_min {x y : Int} (h : live c = true) (hx : InRange x) (hy : InRange y) :
    run cfg (.min :: ops) ⟨num y :: num x :: m, a, c⟩ =
      run cfg ops ⟨num (if x < y then x else y) :: m, a, c⟩ := by
  simp [run_cons, step, h, execOp, numBin_num hx hy]

theorem inRange_bool (p : Bool) : InRange (if p then 1 else 0) := by
  cases p <;> decide

theorem bne_bool (p : Bool) : ((if p then (1:Int) else 0) != 0) = p := by cases p <;> rfl

theorem run_booland {p q : Bool} (h : live c = true) :
    run cfg (.booland :: ops) ⟨ofBool q :: ofBool p :: m, a, c⟩ =
      run cfg ops ⟨ofBool (p && q) :: m, a, c⟩ := by
  simp [run_cons, step, h, execOp, ofBool, numBin_num (inRange_bool p) (inRange_bool q)]

theorem run_boolor {p q : Bool} (h : live c = true) :
    run cfg (.boolor :: ops) ⟨ofBool q :: ofBool p :: m, a, c⟩ =
      run cfg ops ⟨ofBool (p || q) :: m, a, c⟩ := by
  simp [run_cons, step, h, execOp, ofBool, numBin_num (inRange_bool p) (inRange_bool q)]

theorem run_numnotequal {x y : Int} (h : live c = true) (hx : InRange x) (hy : InRange y) :
    run cfg (.numnotequal :: ops) ⟨num y :: num x :: m, a, c⟩ =
      run cfg ops ⟨ofBool (x != y) :: m, a, c⟩ := by
  simp [run_cons, step, h, execOp, numBin_num hx hy]

theorem run_lessthan {x y : Int} (h : live c = true) (hx : InRange x) (hy : InRange y) :
    run cfg (.lessthan :: ops) ⟨num y :: num x :: m, a, c⟩ =
      run cfg ops ⟨ofBool (decide (x < y)) :: m, a, c⟩ := by
  simp [run_cons, step, h, execOp, numBin_num hx hy]

theorem run_greaterthan {x y : Int} (h : live c = true) (hx : InRange x) (hy : InRange y) :
    run cfg (.greaterthan :: ops) ⟨num y :: num x :: m, a, c⟩ =
      run cfg ops ⟨ofBool (decide (x > y)) :: m, a, c⟩ := by
  simp [run_cons, step, h, execOp, numBin_num hx hy]

theorem run_greaterthanorequal {x y : Int} (h : live c = true) (hx : InRange x) (hy : InRange y) :
    run cfg (.greaterthanorequal :: ops) ⟨num y :: num x :: m, a, c⟩ =
      run cfg ops ⟨ofBool (decide (x ≥ y)) :: m, a, c⟩ := by
  simp [run_cons, step, h, execOp, numBin_num hx hy]

theorem run_equal (x y : Elem) (h : live c = true) :
    run cfg (.equal :: ops) ⟨x :: y :: m, a, c⟩ =
      run cfg ops ⟨ofBool (decide (x = y)) :: m, a, c⟩ := by
  simp [run_cons, step, h, execOp]

theorem run_equalverify (x y : Elem) (h : live c = true) :
    run cfg (.equalverify :: ops) ⟨x :: y :: m, a, c⟩ =
      if x = y then run cfg ops ⟨m, a, c⟩ else none := by
  simp only [run_cons, step, h, execOp, if_true]
  split <;> rfl

theorem run_equalverify_eq {x y : Elem} (h : live c = true) (hxy : x = y) :
    run cfg (.equalverify :: ops) ⟨x :: y :: m, a, c⟩ = run cfg ops ⟨m, a, c⟩ := by
  rw [run_equalverify _ _ h, if_pos hxy]

theorem run_hash160 (x : Elem) (h : live c = true) :
    run cfg (.hash160 :: ops) ⟨x :: m, a, c⟩ = run cfg ops ⟨cfg.hash160 x :: m, a, c⟩ := by
  simp [run_cons, step, h, execOp]

theorem run_opif {b : Bool} (h : live c = true) :
    run cfg (.opif :: ops) ⟨ofBool b :: m, a, c⟩ = run cfg ops ⟨m, a, b :: c⟩ := by
  cases b
  · simp [run_cons, step, h, ofBool, num_zero]
  · simp [run_cons, step, h, ofBool, num_one]

theorem run_opif_one (h : live c = true) :
    run cfg (.opif :: ops) ⟨num 1 :: m, a, c⟩ = run cfg ops ⟨m, a, true :: c⟩ := run_opif (b := true) h

theorem run_opif_zero (h : live c = true) :
    run cfg (.opif :: ops) ⟨num 0 :: m, a, c⟩ = run cfg ops ⟨m, a, false :: c⟩ := run_opif (b := false) h

theorem run_opelse (b : Bool) :
    run cfg (.opelse :: ops) ⟨m, a, b :: c⟩ = run cfg ops ⟨m, a, (!b) :: c⟩ := by
  simp [run_cons, step]

theorem run_opendif (b : Bool) :
    run cfg (.opendif :: ops) ⟨m, a, b :: c⟩ = run cfg ops ⟨m, a, c⟩ := by
  simp [run_cons, step]

/-- Opcodes that open or close branches. -/
def Op.isControl : Op → Bool
  | .opif | .opelse | .opendif => true
  | _ => false

/-- In a branch that is not executed every other opcode is skipped. -/
theorem run_skip {op : Op} (h : live c = false) (hop : op.isControl = false) :
    run cfg (op :: ops) ⟨m, a, c⟩ = run cfg ops ⟨m, a, c⟩ := by
  rw [run_cons]
  have : step cfg op ⟨m, a, c⟩ = some ⟨m, a, c⟩ := by
    cases op <;> simp_all [step, Op.isControl]
  rw [this]; rfl

/-- `run_skip` opcode by opcode, in the form used by the symbolic executor. -/
theorem run_dead (h : live c = false) :
    (∀ e, run cfg (Op.push e :: ops) ⟨m, a, c⟩ = run cfg ops ⟨m, a, c⟩) ∧
    (∀ n, run cfg (Op.num n :: ops) ⟨m, a, c⟩ = run cfg ops ⟨m, a, c⟩) ∧
    run cfg (Op.dup :: ops) ⟨m, a, c⟩ = run cfg ops ⟨m, a, c⟩ ∧
    run cfg (Op.drop :: ops) ⟨m, a, c⟩ = run cfg ops ⟨m, a, c⟩ ∧
    run cfg (Op.swap :: ops) ⟨m, a, c⟩ = run cfg ops ⟨m, a, c⟩ ∧
    run cfg (Op.over :: ops) ⟨m, a, c⟩ = run cfg ops ⟨m, a, c⟩ ∧
    run cfg (Op.tuck :: ops) ⟨m, a, c⟩ = run cfg ops ⟨m, a, c⟩ ∧
    run cfg (Op.rot :: ops) ⟨m, a, c⟩ = run cfg ops ⟨m, a, c⟩ ∧
    run cfg (Op.drop2 :: ops) ⟨m, a, c⟩ = run cfg ops ⟨m, a, c⟩ ∧
    run cfg (Op.dup2 :: ops) ⟨m, a, c⟩ = run cfg ops ⟨m, a, c⟩ ∧
    run cfg (Op.dup3 :: ops) ⟨m, a, c⟩ = run cfg ops ⟨m, a, c⟩ ∧
    run cfg (Op.over2 :: ops) ⟨m, a, c⟩ = run cfg ops ⟨m, a, c⟩ ∧
    run cfg (Op.swap2 :: ops) ⟨m, a, c⟩ = run cfg ops ⟨m, a, c⟩ ∧
    run cfg (Op.pick :: ops) ⟨m, a, c⟩ = run cfg ops ⟨m, a, c⟩ ∧
    run cfg (Op.roll :: ops) ⟨m, a, c⟩ = run cfg ops ⟨m, a, c⟩ ∧
    run cfg (Op.toAlt :: ops) ⟨m, a, c⟩ = run cfg ops ⟨m, a, c⟩ ∧
    run cfg (Op.fromAlt :: ops) ⟨m, a, c⟩ = run cfg ops ⟨m, a, c⟩ ∧
    run cfg (Op.add :: ops) ⟨m, a, c⟩ = run cfg ops ⟨m, a, c⟩ ∧
    run cfg (Op.sub :: ops) ⟨m, a, c⟩ = run cfg ops ⟨m, a, c⟩ ∧
    run cfg (Op.sub1 :: ops) ⟨m, a, c⟩ = run cfg ops ⟨m, a, c⟩ ∧
    run cfg (Op.negate :: ops) ⟨m, a, c⟩ = run cfg ops ⟨m, a, c⟩ ∧
    run cfg (Op.abs :: ops) ⟨m, a, c⟩ = run cfg ops ⟨m, a, c⟩ ∧
    run cfg (Op.min :: ops) ⟨m, a, c⟩ = run cfg ops ⟨m, a, c⟩ ∧
    run cfg (Op.booland :: ops) ⟨m, a, c⟩ = run cfg ops ⟨m, a, c⟩ ∧
    run cfg (Op.boolor :: ops) ⟨m, a, c⟩ = run cfg ops ⟨m, a, c⟩ ∧
    run cfg (Op.numnotequal :: ops) ⟨m, a, c⟩ = run cfg ops ⟨m, a, c⟩ ∧
    run cfg (Op.lessthan :: ops) ⟨m, a, c⟩ = run cfg ops ⟨m, a, c⟩ ∧
    run cfg (Op.greaterthan :: ops) ⟨m, a, c⟩ = run cfg ops ⟨m, a, c⟩ ∧
    run cfg (Op.greaterthanorequal :: ops) ⟨m, a, c⟩ = run cfg ops ⟨m, a, c⟩ ∧
    run cfg (Op.equal :: ops) ⟨m, a, c⟩ = run cfg ops ⟨m, a, c⟩ ∧
    run cfg (Op.equalverify :: ops) ⟨m, a, c⟩ = run cfg ops ⟨m, a, c⟩ ∧
    run cfg (Op.hash160 :: ops) ⟨m, a, c⟩ = run cfg ops ⟨m, a, c⟩ := by
  refine ⟨fun _ => run_skip h rfl, fun _ => run_skip h rfl, run_skip h rfl, run_skip h rfl, run_skip h rfl, run_skip h rfl, run_skip h rfl, run_skip h rfl, run_skip h rfl, run_skip h rfl, run_skip h rfl, run_skip h rfl, run_skip h rfl, run_skip h rfl, run_skip h rfl, run_skip h rfl, run_skip h rfl, run_skip h rfl, run_skip h rfl, run_skip h rfl, run_skip h rfl, run_skip h rfl, run_skip h rfl, run_skip h rfl, run_skip h rfl, run_skip h rfl, run_skip h rfl, run_skip h rfl, run_skip h rfl, run_skip h rfl, run_skip h rfl, run_skip h rfl⟩

theorem run_skip_list {p : List Op} (h : live c = false)
    (hp : p.all (fun op => !op.isControl) = true) :
    run cfg (p ++ ops) ⟨m, a, c⟩ = run cfg ops ⟨m, a, c⟩ := by
  induction p with
  | nil => rfl
  | cons op p ih =>
    simp only [List.all_cons, Bool.and_eq_true, Bool.not_eq_true'] at hp
    rw [List.cons_append, run_skip h hp.1, ih hp.2]

/-- Running inside an executed branch is the same as running at top level. -/
theorem run_frame_cond {p : List Op} {s s' : St} (h : run cfg p s = some s') {c : List Bool}
    (hc : live c = true) :
    run cfg p ⟨s.main, s.alt, s.cond ++ c⟩ = some ⟨s'.main, s'.alt, s'.cond ++ c⟩ := by
  induction p generalizing s with
  | nil => simp at h; subst h; rfl
  | cons op p ih =>
    rw [run_cons] at h
    cases hs : step cfg op s with
    | none => rw [hs] at h; exact absurd h (by simp)
    | some t =>
      rw [hs] at h
      have ih' := ih (s := t) (by simpa using h)
      rw [run_cons]
      have hl : live (s.cond ++ c) = live s.cond := by
        unfold live; rw [List.all_append]; unfold live at hc; rw [hc]; simp
      have : step cfg op ⟨s.main, s.alt, s.cond ++ c⟩ = some ⟨t.main, t.alt, t.cond ++ c⟩ := by
        obtain ⟨sm, sa, sc⟩ := s
        cases op
        case opif =>
          simp only [step] at hs ⊢
          rw [hl]
          split at hs
          · rename_i hl2
            rw [if_pos hl2]
            cases sm with
            | nil => simp at hs
            | cons e sm =>
              simp only at hs ⊢
              split at hs
              · simp at hs; subst hs; simp_all
              · split at hs
                · simp at hs; subst hs; simp_all
                · simp at hs
          · rename_i hl2
            rw [if_neg hl2]
            simp at hs; subst hs; simp
        case opelse =>
          simp only [step] at hs ⊢
          cases sc with
          | nil => simp at hs
          | cons b sc => simp at hs; subst hs; simp
        case opendif =>
          simp only [step] at hs ⊢
          cases sc with
          | nil => simp at hs
          | cons b sc => simp at hs; subst hs; simp
        all_goals
          simp only [step] at hs ⊢
          rw [hl]
          split at hs
          · rename_i hl2
            rw [if_pos hl2]
            revert hs
            simp only [execOp, numBin, numUn]
            repeat' split
            all_goals first
              | (intro hs; simp at hs; done)
              | (intro hs; simp at hs; subst hs; simp_all; done)
          · rename_i hl2
            rw [if_neg hl2]
            simp at hs; subst hs; simp
      rw [this]
      exact ih'

theorem run_mk2_frame {p : List Op} {m a m' a' : List Elem} (h : run cfg p ⟨m, a, []⟩ = some ⟨m', a', []⟩)
    {c : List Bool} (hc : live c = true) :
    run cfg p ⟨m, a, c⟩ = some ⟨m', a', c⟩ := by
  have := run_frame_cond h hc
  simpa using this

/-! ### Tactics -/

/-- Discharger for side conditions of the lemmas above. -/
macro "sdisch" : tactic =>
  `(tactic| first
    | assumption
    | rfl
    | (simp only [live_nil, live_cons, Bool.true_and, Bool.and_true, Bool.false_and]; assumption)
    | (simp only [live_nil, live_cons, Bool.true_and, Bool.and_true, Bool.false_and]; done)
    | (unfold InRange; omega)
    | omega)

/-- Symbolic execution of a literal script on a symbolic stack. -/
macro "sexec" : tactic =>
  `(tactic| simp (disch := sdisch) only
    [run_push, run_num, run_dup, run_drop, run_swap, run_over, run_tuck, run_rot, run_drop2,
     run_dup2, run_dup3, run_over2, run_swap2, run_pick, run_roll, run_toAlt, run_fromAlt,
     run_add, run_sub, run_sub1, run_negate, run_abs, run_min, run_booland, run_boolor,
     run_numnotequal, run_lessthan, run_greaterthan, run_greaterthanorequal, run_equal,
     run_hash160, run_opif, run_opif_one, run_opif_zero, run_opelse, run_opendif, run_dead, run_nil, List.cons_append,
     List.nil_append, List.append_assoc,
     List.getElem?_cons_succ, List.getElem?_cons_zero, List.eraseIdx_cons_succ,
     List.eraseIdx_cons_zero, Int.toNat_natCast, Bool.not_true, Bool.not_false, Int.reduceToNat])

macro "sexec" "[" ts:Lean.Parser.Tactic.simpLemma,* "]" : tactic =>
  `(tactic| simp (disch := sdisch) only
    [run_push, run_num, run_dup, run_drop, run_swap, run_over, run_tuck, run_rot, run_drop2,
     run_dup2, run_dup3, run_over2, run_swap2, run_pick, run_roll, run_toAlt, run_fromAlt,
     run_add, run_sub, run_sub1, run_negate, run_abs, run_min, run_booland, run_boolor,
     run_numnotequal, run_lessthan, run_greaterthan, run_greaterthanorequal, run_equal,
     run_hash160, run_opif, run_opif_one, run_opif_zero, run_opelse, run_opendif, run_dead, run_nil, List.cons_append,
     List.nil_append, List.append_assoc,
     List.getElem?_cons_succ, List.getElem?_cons_zero, List.eraseIdx_cons_succ,
     List.eraseIdx_cons_zero, Int.toNat_natCast, Bool.not_true, Bool.not_false, Int.reduceToNat, $ts,*])

/-- `sexec` without the pick rule, for table look-ups at symbolic depths. -/
macro "sexecnp" "[" ts:Lean.Parser.Tactic.simpLemma,* "]" : tactic =>
  `(tactic| simp (disch := sdisch) only
    [run_push, run_num, run_dup, run_drop, run_swap, run_over, run_tuck, run_rot, run_drop2,
     run_dup2, run_dup3, run_over2, run_swap2, run_roll, run_toAlt, run_fromAlt,
     run_add, run_sub, run_sub1, run_negate, run_abs, run_min, run_booland, run_boolor,
     run_numnotequal, run_lessthan, run_greaterthan, run_greaterthanorequal, run_equal,
     run_hash160, run_opif, run_opif_one, run_opif_zero, run_opelse, run_opendif, run_dead, run_nil, List.cons_append,
     List.nil_append, List.append_assoc,
     List.getElem?_cons_succ, List.getElem?_cons_zero, List.eraseIdx_cons_succ,
     List.eraseIdx_cons_zero, Int.toNat_natCast, Bool.not_true, Bool.not_false, Int.reduceToNat, $ts,*])

end TapStark
