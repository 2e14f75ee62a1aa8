import Verif.Script.Num

/-
A total interpreter for the opcodes used by /repo.

External behaviour modelled here: `bitcoin_scriptexec::Exec` in tapscript context with default
options, as driven by `execute_script` and `execute_script_with_inputs`
(/repo/scripts/src/lib.rs:97-175).  Simplifications, stated once for the whole model:
* the 1000-element stack limit is not enforced here, but in `runL` (Verif/Script/Limit.lean); the 520-byte element limit
  is not enforced;
* signature, time-lock and transaction opcodes do not occur in the modelled scripts and are absent;
* a failing script is `none`, without the reason.
-/

namespace TapStark

/-- Execution options: the HASH160 function (SHA-256 then RIPEMD-160, left abstract) and whether
numeric operands must be minimally encoded. -/
structure Cfg where
  hash160 : Elem → Elem
  minimal : Bool

/-- Opcodes occurring in /repo (grep of `OP_*` in scripts/, script_expr/, basic/, uni-stark/). -/
inductive Op
  | push (e : Elem)
  | dup | drop | swap | over | tuck | rot
  | drop2 | dup2 | dup3 | over2 | swap2
  | pick | roll
  | toAlt | fromAlt
  | add | sub | sub1 | negate | abs | min
  | booland | boolor
  | numnotequal | lessthan | greaterthan | greaterthanorequal
  | equal | equalverify
  | hash160
  | opif | opelse | opendif
  deriving DecidableEq, Repr

/-- `{n}` in the `script!` macro for an integer `n`. -/
def Op.num (n : Int) : Op := .push (TapStark.num n)

/-- Stack element of a boolean result. -/
def ofBool (b : Bool) : Elem := TapStark.num (if b then 1 else 0)

/-- Main stack, alt stack (head is the top) and the stack of open IF branches (innermost first,
`true` when the branch being read is the executed one). -/
structure St where
  main : List Elem
  alt : List Elem
  cond : List Bool
  deriving DecidableEq, Repr

/-- All enclosing branches are executed. -/
def live (c : List Bool) : Bool := c.all id

/-- Binary numeric operator: pops `b` (top) and `a`. -/
def numBin (cfg : Cfg) (f : Int → Int → Elem) (s : St) : Option St :=
  match s.main with
  | b :: a :: m =>
    match decodeNum cfg.minimal b, decodeNum cfg.minimal a with
    | some y, some x => some { s with main := f x y :: m }
    | _, _ => none
  | _ => none

/-- Unary numeric operator. -/
def numUn (cfg : Cfg) (f : Int → Elem) (s : St) : Option St :=
  match s.main with
  | a :: m =>
    match decodeNum cfg.minimal a with
    | some x => some { s with main := f x :: m }
    | none => none
  | _ => none

/-- Remove the element at depth `n` and put it on top. -/
def rollTop (n : Nat) (m : List Elem) : Option (List Elem) :=
  match m[n]? with
  | some x => some (x :: m.eraseIdx n)
  | none => none

/-- Effect of an opcode in an executed branch (control opcodes excluded). -/
def execOp (cfg : Cfg) (op : Op) (s : St) : Option St :=
  match op with
  | .push e => some { s with main := e :: s.main }
  | .dup => match s.main with
    | x :: m => some { s with main := x :: x :: m }
    | _ => none
  | .drop => match s.main with
    | _ :: m => some { s with main := m }
    | _ => none
  | .swap => match s.main with
    | x :: y :: m => some { s with main := y :: x :: m }
    | _ => none
  | .over => match s.main with
    | x :: y :: m => some { s with main := y :: x :: y :: m }
    | _ => none
  | .tuck => match s.main with
    | x :: y :: m => some { s with main := x :: y :: x :: m }
    | _ => none
  | .rot => match s.main with
    | x :: y :: z :: m => some { s with main := z :: x :: y :: m }
    | _ => none
  | .drop2 => match s.main with
    | _ :: _ :: m => some { s with main := m }
    | _ => none
  | .dup2 => match s.main with
    | x :: y :: m => some { s with main := x :: y :: x :: y :: m }
    | _ => none
  | .dup3 => match s.main with
    | x :: y :: z :: m => some { s with main := x :: y :: z :: x :: y :: z :: m }
    | _ => none
  | .over2 => match s.main with
    | x :: y :: z :: w :: m => some { s with main := z :: w :: x :: y :: z :: w :: m }
    | _ => none
  | .swap2 => match s.main with
    | x :: y :: z :: w :: m => some { s with main := z :: w :: x :: y :: m }
    | _ => none
  | .pick => match s.main with
    | e :: m =>
      match decodeNum cfg.minimal e with
      | some n => if n < 0 then none else
        match m[n.toNat]? with
        | some x => some { s with main := x :: m }
        | none => none
      | none => none
    | _ => none
  | .roll => match s.main with
    | e :: m =>
      match decodeNum cfg.minimal e with
      | some n => if n < 0 then none else
        match rollTop n.toNat m with
        | some m' => some { s with main := m' }
        | none => none
      | none => none
    | _ => none
  | .toAlt => match s.main with
    | x :: m => some { s with main := m, alt := x :: s.alt }
    | _ => none
  | .fromAlt => match s.alt with
    | x :: a => some { s with main := x :: s.main, alt := a }
    | _ => none
  | .add => numBin cfg (fun x y => num (x + y)) s
  | .sub => numBin cfg (fun x y => num (x - y)) s
  | .sub1 => numUn cfg (fun x => num (x - 1)) s
  | .negate => numUn cfg (fun x => num (-x)) s
  | .abs => numUn cfg (fun x => num x.natAbs) s
  | .min => numBin cfg (fun x y => num (if x < y then x else y)) s
  | .booland => numBin cfg (fun x y => ofBool (x != 0 && y != 0)) s
  | .boolor => numBin cfg (fun x y => ofBool (x != 0 || y != 0)) s
  | .numnotequal => numBin cfg (fun x y => ofBool (x != y)) s
  | .lessthan => numBin cfg (fun x y => ofBool (decide (x < y))) s
  | .greaterthan => numBin cfg (fun x y => ofBool (decide (x > y))) s
  | .greaterthanorequal => numBin cfg (fun x y => ofBool (decide (x ≥ y))) s
  | .equal => match s.main with
    | x :: y :: m => some { s with main := ofBool (decide (x = y)) :: m }
    | _ => none
  | .equalverify => match s.main with
    | x :: y :: m => if x = y then some { s with main := m } else none
    | _ => none
  | .hash160 => match s.main with
    | x :: m => some { s with main := cfg.hash160 x :: m }
    | _ => none
  | .opif | .opelse | .opendif => none

/-- One opcode, including IF / ELSE / ENDIF handling.  Tapscript requires the IF argument to be
exactly empty or the single byte 1. -/
def step (cfg : Cfg) (op : Op) (s : St) : Option St :=
  match op with
  | .opif =>
    if live s.cond then
      match s.main with
      | e :: m =>
        if e = [1] then some { s with main := m, cond := true :: s.cond }
        else if e = [] then some { s with main := m, cond := false :: s.cond }
        else none
      | [] => none
    else some { s with cond := false :: s.cond }
  | .opelse =>
    match s.cond with
    | b :: c => some { s with cond := (!b) :: c }
    | [] => none
  | .opendif =>
    match s.cond with
    | _ :: c => some { s with cond := c }
    | [] => none
  | op => if live s.cond then execOp cfg op s else some s

/-- Running a script fragment from a state. -/
def run (cfg : Cfg) : List Op → St → Option St
  | [], s => some s
  | op :: ops, s => (step cfg op s).bind (run cfg ops)

/-- Notation for states outside any IF. -/
abbrev St.mk2 (m a : List Elem) : St := ⟨m, a, []⟩

/-- Truth of a final stack element (`CastToBool`). -/
def truthy : Elem → Bool
  | [] => false
  | [b] => b != 0 && b != 128
  | b :: c :: r => b != 0 || truthy (c :: r)

/-- Tapscript success: the whole script runs, all IFs are closed, and exactly one true element is
left (`execute_script(..).success`). -/
def accepts (cfg : Cfg) (ops : List Op) (witness : List Elem) : Bool :=
  match run cfg ops ⟨witness, [], []⟩ with
  | some ⟨[e], _, []⟩ => truthy e
  | _ => false

/-! ### Composition lemmas -/

@[simp] theorem run_nil (cfg : Cfg) (s : St) : run cfg [] s = some s := rfl

theorem run_cons (cfg : Cfg) (op : Op) (ops : List Op) (s : St) :
    run cfg (op :: ops) s = (step cfg op s).bind (run cfg ops) := rfl

theorem run_append (cfg : Cfg) (p q : List Op) (s : St) :
    run cfg (p ++ q) s = (run cfg p s).bind (run cfg q) := by
  induction p generalizing s with
  | nil => simp
  | cons op p ih =>
    simp only [List.cons_append, run_cons]
    cases step cfg op s with
    | none => rfl
    | some s' => simp [ih]

theorem run_append_of {cfg : Cfg} {p q : List Op} {s s' : St} (h : run cfg p s = some s') :
    run cfg (p ++ q) s = run cfg q s' := by
  rw [run_append, h]; rfl

@[simp] theorem live_nil : live [] = true := rfl
@[simp] theorem live_cons (b : Bool) (c : List Bool) : live (b :: c) = (b && live c) := rfl

end TapStark
