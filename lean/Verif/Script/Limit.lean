import Verif.Script.Lemmas

/-
The limit of 1000 elements on the two stacks.  Bitcoin's consensus rules fail a script as soon as main stack and alt
stack together hold more.  (Whether the fork of `bitcoin_scriptexec` used by the repository enforces it in its default
options, scripts/src/lib.rs:97-160, is not visible in /repo.)  `run` ignores this; `runL` does not.  The rest of the
file is an analysis of scripts that tells how many elements they hold at most, and its correctness.
-/

namespace TapStark

/-- Number of elements on both stacks. -/
def St.size (s : St) : Nat := s.main.length + s.alt.length

/-- Running a script fragment, failing as soon as there are more than `lim` elements after an opcode. -/
def runL (cfg : Cfg) (lim : Nat) : List Op → St → Option St
  | [], s => some s
  | op :: ops, s => (step cfg op s).bind fun s' => if s'.size ≤ lim then runL cfg lim ops s' else none

/-- The limit of the Bitcoin consensus rules. -/
def stackLimit : Nat := 1000

/-- A script run on a witness (top first) under the limit, which also holds for the witness. -/
def runWitness (cfg : Cfg) (ops : List Op) (witness : List Elem) : Option St :=
  if witness.length ≤ stackLimit then runL cfg stackLimit ops ⟨witness, [], []⟩ else none

/-- `accepts` with the limit. -/
def acceptsL (cfg : Cfg) (ops : List Op) (witness : List Elem) : Bool :=
  match runWitness cfg ops witness with
  | some ⟨[e], _, []⟩ => truthy e
  | _ => false

/-! ### Analysis -/

/-- Elements an opcode takes away and adds, both stacks together. -/
def Op.effect : Op → Nat × Nat
  | .push _ => (0, 1)
  | .dup => (1, 2)
  | .drop => (1, 0)
  | .swap => (2, 2)
  | .over => (2, 3)
  | .tuck => (2, 3)
  | .rot => (3, 3)
  | .drop2 => (2, 0)
  | .dup2 => (2, 4)
  | .dup3 => (3, 6)
  | .over2 => (4, 6)
  | .swap2 => (4, 4)
  | .pick => (1, 1)
  | .roll => (1, 0)
  | .toAlt => (1, 1)
  | .fromAlt => (1, 1)
  | .add | .sub | .min | .booland | .boolor | .numnotequal | .lessthan | .greaterthan | .greaterthanorequal
  | .equal => (2, 1)
  | .sub1 | .negate | .abs | .hash160 => (1, 1)
  | .equalverify => (2, 0)
  | .opif | .opelse | .opendif => (0, 0)

/-- What is known at a point of the script: the number of elements if the code is executed; the largest number so far,
and the largest outside any IF; and for every open IF the number at its begin and, after ELSE, at the end of the first
branch. -/
structure Abs where
  cur : Nat
  peak : Nat
  trunk : Nat
  lv : List (Nat × Option Nat)
  deriving DecidableEq, Repr

/-- The number of elements `c` after an opcode, at nesting `lv`. -/
def Abs.see (a : Abs) (c : Nat) (lv : List (Nat × Option Nat)) : Abs :=
  ⟨c, max a.peak c, if lv.isEmpty then max a.trunk c else a.trunk, lv⟩

/-- One opcode of the analysis; `none` if it does not apply. -/
def absStep (op : Op) (a : Abs) : Option Abs :=
  match op with
  | .opif => if 1 ≤ a.cur then some (a.see (a.cur - 1) ((a.cur - 1, none) :: a.lv)) else none
  | .opelse =>
    match a.lv with
    | (b, none) :: lv => some (a.see b ((b, some a.cur) :: lv))
    | _ => none
  | .opendif =>
    match a.lv with
    | (b, none) :: lv => if a.cur = b then some (a.see a.cur lv) else none
    | (_, some t) :: lv => if a.cur = t then some (a.see a.cur lv) else none
    | [] => none
  | op => if op.effect.1 ≤ a.cur then some (a.see (a.cur - op.effect.1 + op.effect.2) a.lv) else none

/-- The analysis of a script. -/
def scan : List Op → Abs → Option Abs
  | [], a => some a
  | op :: ops, a => (absStep op a).bind (scan ops)

theorem scan_append (p q : List Op) (a : Abs) : scan (p ++ q) a = (scan p a).bind (scan q) := by
  induction p generalizing a with
  | nil => rfl
  | cons op p ih =>
    simp only [List.cons_append, scan]
    cases absStep op a with
    | none => rfl
    | some b => simp [ih]

/-- The opcodes that are not control flow. -/
def Op.plain : Op → Bool
  | .opif | .opelse | .opendif => false
  | _ => true

theorem absStep_plain {op : Op} (h : op.plain = true) (a : Abs) :
    absStep op a = if op.effect.1 ≤ a.cur then some (a.see (a.cur - op.effect.1 + op.effect.2) a.lv) else none := by
  cases op <;> first | rfl | cases h

theorem step_plain {op : Op} (h : op.plain = true) (cfg : Cfg) (s : St) :
    step cfg op s = if live s.cond then execOp cfg op s else some s := by
  cases op <;> first | rfl | cases h

/-! ### Correctness of the analysis -/

theorem numBin_size {cfg : Cfg} {f : Int → Int → Elem} {s s' : St} (h : numBin cfg f s = some s') :
    s'.cond = s.cond ∧ 2 ≤ s.size ∧ s'.size = s.size - 2 + 1 := by
  obtain ⟨m, al, c⟩ := s
  match m, h with
  | b :: a :: m, h =>
    simp only [numBin] at h
    split at h
    · simp only [Option.some.injEq] at h
      subst h
      refine ⟨rfl, ?_, ?_⟩ <;> simp only [St.size, List.length_cons] <;> omega
    · cases h

theorem numUn_size {cfg : Cfg} {f : Int → Elem} {s s' : St} (h : numUn cfg f s = some s') :
    s'.cond = s.cond ∧ 1 ≤ s.size ∧ s'.size = s.size - 1 + 1 := by
  obtain ⟨m, al, c⟩ := s
  match m, h with
  | a :: m, h =>
    simp only [numUn] at h
    split at h
    · simp only [Option.some.injEq] at h
      subst h
      refine ⟨rfl, ?_, ?_⟩ <;> simp only [St.size, List.length_cons] <;> omega
    · cases h

theorem rollTop_length {n : Nat} {m m' : List Elem} (h : rollTop n m = some m') : m'.length = m.length := by
  unfold rollTop at h
  cases hx : m[n]? with
  | none => simp [hx] at h
  | some x =>
    have hlt : n < m.length := (List.getElem?_eq_some_iff.mp hx).1
    simp only [hx, Option.some.injEq] at h
    subst h
    simp only [List.length_cons, List.length_eraseIdx, hlt, if_true]
    omega

theorem execOp_size {cfg : Cfg} {op : Op} {s s' : St} (h : execOp cfg op s = some s') :
    s'.cond = s.cond ∧ op.effect.1 ≤ s.size ∧ s'.size = s.size - op.effect.1 + op.effect.2 := by
  obtain ⟨m, al, c⟩ := s
  cases op <;> simp only [execOp] at h
  case pick =>
    match m, h with
    | e :: m, h =>
      simp only at h
      split at h
      · split at h
        · cases h
        · split at h
          · simp only [Option.some.injEq] at h
            subst h
            refine ⟨rfl, ?_, ?_⟩ <;> simp only [St.size, List.length_cons, Op.effect] <;> omega
          · cases h
      · cases h
  case roll =>
    match m, h with
    | e :: m, h =>
      simp only at h
      split at h
      · split at h
        · cases h
        · split at h
          · rename_i m' hr
            simp only [Option.some.injEq] at h
            subst h
            have := rollTop_length hr
            refine ⟨rfl, ?_, ?_⟩ <;> simp only [St.size, List.length_cons, Op.effect] <;> omega
          · cases h
      · cases h
  case equalverify =>
    match m, h with
    | x :: y :: m, h =>
      simp only at h
      split at h
      · simp only [Option.some.injEq] at h
        subst h
        refine ⟨rfl, ?_, ?_⟩ <;> simp only [St.size, List.length_cons, Op.effect] <;> omega
      · cases h
  all_goals first
    | exact numBin_size h
    | exact numUn_size h
    | (simp only [Option.some.injEq] at h
       subst h
       refine ⟨rfl, ?_, ?_⟩ <;> simp only [St.size, List.length_cons, Op.effect] <;> omega)
    | (split at h
       · simp only [Option.some.injEq] at h
         subst h
         refine ⟨rfl, ?_, ?_⟩ <;> simp only [St.size, List.length_cons, Op.effect] <;> omega
       · cases h)
    | cases h

/-- Number of elements while the current part of an IF is skipped. -/
def frozen (l : Nat × Option Nat) : Nat := l.2.getD l.1

/-- What the analysis says about the number of elements. -/
def SizeRel : List Bool → List (Nat × Option Nat) → Nat → Nat → Prop
  | [], lv, cur, sz => sz = cur ∧ lv = []
  | _ :: _, [], _, _ => False
  | b :: c, l :: lv, cur, sz =>
    if live c then sz = (if b then cur else frozen l) ∧ c.length = lv.length else SizeRel c lv cur sz

theorem SizeRel.live {c : List Bool} {lv : List (Nat × Option Nat)} {cur sz : Nat} (h : SizeRel c lv cur sz)
    (hl : live c = true) : sz = cur := by
  cases c with
  | nil => exact h.1
  | cons b c => cases lv with
    | nil => exact h.elim
    | cons l lv =>
      simp only [live_cons, Bool.and_eq_true] at hl
      simp only [SizeRel, hl.1, hl.2, if_true] at h
      exact h.1

theorem SizeRel.length : ∀ {c : List Bool} {lv : List (Nat × Option Nat)} {cur sz : Nat}, SizeRel c lv cur sz →
    c.length = lv.length := by
  intro c
  induction c with
  | nil => intro lv cur sz h; simp [h.2]
  | cons b c ih =>
    intro lv cur sz h
    cases lv with
    | nil => exact h.elim
    | cons l lv =>
      simp only [SizeRel] at h
      cases hc : TapStark.live c with
      | true => simp only [hc, if_true] at h; simp [h.2]
      | false => simp only [hc] at h; simp [ih h]

theorem sizeRel_live {c : List Bool} {lv : List (Nat × Option Nat)} (hl : live c = true) (h : c.length = lv.length)
    (cur : Nat) : SizeRel c lv cur cur := by
  cases c with
  | nil => cases lv with
    | nil => exact ⟨rfl, rfl⟩
    | cons => simp at h
  | cons b c => cases lv with
    | nil => simp at h
    | cons l lv =>
      simp only [live_cons, Bool.and_eq_true] at hl
      simp only [List.length_cons, Nat.add_right_cancel_iff] at h
      simp [SizeRel, hl.1, hl.2, h]

theorem SizeRel.of_dead : ∀ {c : List Bool} {lv : List (Nat × Option Nat)} {cur sz cur' : Nat}, SizeRel c lv cur sz →
    TapStark.live c = false → SizeRel c lv cur' sz := by
  intro c
  induction c with
  | nil => intro lv cur sz cur' h hl; cases hl
  | cons b c ih =>
    intro lv cur sz cur' h hl
    cases lv with
    | nil => exact h.elim
    | cons l lv =>
      simp only [SizeRel] at h ⊢
      cases hc : TapStark.live c with
      | true =>
        simp only [live_cons, hc, Bool.and_true] at hl
        simpa [hc, hl] using h
      | false =>
        simp only [hc] at h ⊢
        exact ih h hc

/-- The state `s` is described by `a`. -/
structure Descr (s : St) (a : Abs) : Prop where
  rel : SizeRel s.cond a.lv a.cur s.size
  peak : s.size ≤ a.peak

theorem Descr.step {cfg : Cfg} {op : Op} {s s' : St} {a a' : Abs} (h : Descr s a) (ha : absStep op a = some a')
    (hs : TapStark.step cfg op s = some s') : Descr s' a' := by
  by_cases hp : op.plain = true
  · rw [absStep_plain hp] at ha
    rw [step_plain hp] at hs
    split at ha
    · simp only [Option.some.injEq] at ha
      subst ha
      cases hl : live s.cond with
      | true =>
        rw [hl, if_pos rfl] at hs
        obtain ⟨e1, e2, e3⟩ := execOp_size hs
        have := h.rel.live hl
        refine ⟨?_, ?_⟩
        · show SizeRel s'.cond a.lv (a.cur - _ + _) s'.size
          rw [e1, e3, this]
          exact sizeRel_live hl h.rel.length _
        · show s'.size ≤ max a.peak (a.cur - _ + _)
          rw [e3, this]
          exact Nat.le_max_right _ _
      | false =>
        simp only [hl, Bool.false_eq_true, if_false, Option.some.injEq] at hs
        subst hs
        exact ⟨h.rel.of_dead hl, Nat.le_trans h.peak (Nat.le_max_left _ _)⟩
    · cases ha
  · cases op <;> first | exact absurd rfl hp | skip
    · -- IF
      simp only [absStep] at ha
      split at ha
      · simp only [Option.some.injEq] at ha
        subst ha
        simp only [TapStark.step] at hs
        cases hl : live s.cond with
        | true =>
          have hsz := h.rel.live hl
          simp only [hl, if_true] at hs
          cases hm : s.main with
          | nil => simp [hm] at hs
          | cons e m =>
            have hsize : s.size = m.length + 1 + s.alt.length := by simp [St.size, hm]
            have key : ∀ b, s' = { s with main := m, cond := b :: s.cond } → Descr s' (a.see (a.cur - 1)
                ((a.cur - 1, none) :: a.lv)) := by
              intro b hb
              subst hb
              have e1 : St.size { s with main := m, cond := b :: s.cond } = a.cur - 1 := by
                show m.length + s.alt.length = _
                omega
              refine ⟨?_, ?_⟩
              · rw [e1]
                show SizeRel (b :: s.cond) ((a.cur - 1, none) :: a.lv) (a.cur - 1) (a.cur - 1)
                simp [SizeRel, hl, frozen, h.rel.length]
              · rw [e1]
                exact Nat.le_max_right _ _
            simp only [hm] at hs
            split at hs
            · exact key true (Option.some.inj hs).symm
            · split at hs
              · exact key false (Option.some.inj hs).symm
              · cases hs
        | false =>
          simp only [hl, Bool.false_eq_true, if_false, Option.some.injEq] at hs
          subst hs
          refine ⟨?_, Nat.le_trans h.peak (Nat.le_max_left _ _)⟩
          show SizeRel (false :: s.cond) (_ :: a.lv) _ s.size
          simp only [SizeRel, hl, Bool.false_eq_true, if_false]
          exact h.rel.of_dead hl
      · cases ha
    · -- ELSE
      obtain ⟨cur, peak, trunk, lv⟩ := a
      match lv, ha, h with
      | (b, none) :: lv, ha, h =>
        simp only [absStep, Option.some.injEq] at ha
        subst ha
        obtain ⟨m, al, c⟩ := s
        cases c with
        | nil => simp [TapStark.step] at hs
        | cons x c =>
          simp only [TapStark.step, Option.some.injEq] at hs
          subst hs
          refine ⟨?_, Nat.le_trans h.peak (Nat.le_max_left _ _)⟩
          have hr := h.rel
          show SizeRel ((!x) :: c) ((b, some cur) :: lv) b (m.length + al.length)
          change SizeRel (x :: c) ((b, none) :: lv) cur (m.length + al.length) at hr
          simp only [SizeRel] at hr ⊢
          cases hc : live c with
          | true =>
            simp only [hc, if_true] at hr ⊢
            refine ⟨?_, hr.2⟩
            rw [hr.1]
            cases x <;> rfl
          | false =>
            simp only [hc, Bool.false_eq_true, if_false] at hr ⊢
            exact hr.of_dead hc
    · -- ENDIF
      obtain ⟨cur, peak, trunk, lv⟩ := a
      cases lv with
      | nil => simp [absStep] at ha
      | cons l lv =>
        have ha' : a' = (Abs.mk cur peak trunk (l :: lv)).see cur lv ∧ cur = frozen l := by
          obtain ⟨b, o⟩ := l
          cases o with
          | none =>
            simp only [absStep] at ha
            split at ha
            · exact ⟨(Option.some.inj ha).symm, by assumption⟩
            · cases ha
          | some t =>
            simp only [absStep] at ha
            split at ha
            · exact ⟨(Option.some.inj ha).symm, by assumption⟩
            · cases ha
        obtain ⟨rfl, hf⟩ := ha'
        obtain ⟨m, al, c⟩ := s
        cases c with
        | nil => simp [TapStark.step] at hs
        | cons x c =>
          simp only [TapStark.step, Option.some.injEq] at hs
          subst hs
          refine ⟨?_, Nat.le_trans h.peak (Nat.le_max_left _ _)⟩
          have hr := h.rel
          show SizeRel c lv cur (m.length + al.length)
          change SizeRel (x :: c) (l :: lv) cur (m.length + al.length) at hr
          simp only [SizeRel] at hr
          cases hc : live c with
          | true =>
            simp only [hc, if_true] at hr
            have : m.length + al.length = cur := by
              rw [hr.1]
              cases x
              · simp [hf]
              · rfl
            rw [this]
            exact sizeRel_live hc hr.2 _
          | false =>
            simp only [hc, Bool.false_eq_true, if_false] at hr
            exact hr

theorem absStep_mono {op : Op} {a a' : Abs} (h : absStep op a = some a') :
    a.peak ≤ a'.peak ∧ a.trunk ≤ a'.trunk ∧ (a'.trunk = a.trunk ∨ a'.lv = [] ∧ a'.trunk = max a.trunk a'.cur) := by
  have key : ∀ c lv, a.peak ≤ (a.see c lv).peak ∧ a.trunk ≤ (a.see c lv).trunk ∧
      ((a.see c lv).trunk = a.trunk ∨ (a.see c lv).lv = [] ∧ (a.see c lv).trunk = max a.trunk (a.see c lv).cur) := by
    intro c lv
    refine ⟨Nat.le_max_left _ _, ?_, ?_⟩
    · cases lv with
      | nil => exact Nat.le_max_left _ _
      | cons => exact Nat.le_refl _
    · cases lv with
      | nil => exact .inr ⟨rfl, rfl⟩
      | cons => exact .inl rfl
  have : ∃ c lv, a' = a.see c lv := by
    cases op <;> simp only [absStep] at h <;>
      first
      | (split at h
         · exact ⟨_, _, (Option.some.inj h).symm⟩
         · first
           | cases h
           | (split at h
              · exact ⟨_, _, (Option.some.inj h).symm⟩
              · cases h))
      | (split at h
         · split at h
           · exact ⟨_, _, (Option.some.inj h).symm⟩
           · cases h
         · split at h
           · exact ⟨_, _, (Option.some.inj h).symm⟩
           · cases h
         · cases h)
  obtain ⟨c, lv, rfl⟩ := this
  exact key c lv

theorem scan_mono : ∀ (p : List Op) {a a' : Abs}, scan p a = some a' → a.peak ≤ a'.peak ∧ a.trunk ≤ a'.trunk := by
  intro p
  induction p with
  | nil => intro a a' h; cases h; exact ⟨Nat.le_refl _, Nat.le_refl _⟩
  | cons op p ih =>
    intro a a' h
    simp only [scan] at h
    cases hs : absStep op a with
    | none => simp [hs] at h
    | some b =>
      simp only [hs, Option.bind_some] at h
      have h1 := absStep_mono hs
      have h2 := ih h
      exact ⟨Nat.le_trans h1.1 h2.1, Nat.le_trans h1.2.1 h2.2⟩

/-- If the analysis finds at most `lim` elements, the limit makes no difference, and the final state is described by the
result. -/
theorem scan_sound (cfg : Cfg) {lim : Nat} : ∀ (p : List Op) {s : St} {a a' : Abs}, Descr s a → scan p a = some a' →
    (a'.peak ≤ lim → runL cfg lim p s = run cfg p s) ∧ ∀ s', run cfg p s = some s' → Descr s' a' := by
  intro p
  induction p with
  | nil => intro s a a' hd h; cases h; exact ⟨fun _ => rfl, fun s' e => by cases e; exact hd⟩
  | cons op p ih =>
    intro s a a' hd h
    simp only [scan] at h
    cases hs : absStep op a with
    | none => simp [hs] at h
    | some b =>
      simp only [hs, Option.bind_some] at h
      simp only [runL, run]
      cases hst : TapStark.step cfg op s with
      | none => exact ⟨fun _ => rfl, fun s' e => by cases e⟩
      | some s1 =>
        have hd1 := hd.step hs hst
        obtain ⟨h1, h2⟩ := ih hd1 h
        refine ⟨fun hp => ?_, fun s' e => h2 s' e⟩
        simp only [Option.bind_some]
        rw [if_pos (Nat.le_trans hd1.peak (Nat.le_trans (scan_mono p h).1 hp))]
        exact h1 hp

/-- If the analysis finds more than `lim` elements outside every IF, the script fails. -/
theorem scan_fails (cfg : Cfg) {lim : Nat} : ∀ (p : List Op) {s : St} {a a' : Abs}, Descr s a → scan p a = some a' →
    a.trunk ≤ lim → lim < a'.trunk → runL cfg lim p s = none := by
  intro p
  induction p with
  | nil => intro s a a' hd h h1 h2; cases h; omega
  | cons op p ih =>
    intro s a a' hd h h1 h2
    simp only [scan] at h
    cases hs : absStep op a with
    | none => simp [hs] at h
    | some b =>
      simp only [hs, Option.bind_some] at h
      simp only [runL]
      cases hst : TapStark.step cfg op s with
      | none => rfl
      | some s1 =>
        have hd1 := hd.step hs hst
        simp only [Option.bind_some]
        by_cases hb : b.trunk ≤ lim
        · split
          · exact ih hd1 h hb h2
          · rfl
        · rcases (absStep_mono hs).2.2 with e | ⟨e1, e2⟩
          · omega
          · have hr := hd1.rel
            have hl := hr.length
            rw [e1, List.length_nil, List.length_eq_zero_iff] at hl
            have := hr.live (by rw [hl]; rfl)
            rw [if_neg (by omega)]

end TapStark
