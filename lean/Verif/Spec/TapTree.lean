import Verif.Model.TapTree

/-
Specification side of the tap tree properties: the hash computations a verifier can be shown, and
the trees a user of the API can obtain.
-/

namespace TapStark.Tap

variable {S H : Type} [LinearOrder H]

/-- One evaluation of the tap leaf or tap branch hash. -/
inductive Query (S H : Type)
  | leaf (ver : Nat) (s : S)
  | branch (a b : H)
  deriving DecidableEq, Repr

/-- Its result. -/
def Query.eval (th : TapHash S H) : Query S H → H
  | .leaf v s => th.leafHash v s
  | .branch a b => th.branchHash a b

/-- The branch evaluations along a merkle path, starting from hash `h`; the smaller child is fed
first. -/
def pathQueries (th : TapHash S H) : H → List H → List (Query S H)
  | _, [] => []
  | h, x :: xs =>
    let q : Query S H := if h < x then .branch h x else .branch x h
    q :: pathQueries th (q.eval th) xs

/-- All hash evaluations made when checking a script leaf with its path. -/
def leafQueries (th : TapHash S H) (ver : Nat) (s : S) (path : List H) : List (Query S H) :=
  .leaf ver s :: pathQueries th (th.leafHash ver s) path

/-- All hash evaluations of a tree, read off its leaves and their paths. -/
def treeQueries (th : TapHash S H) (t : Tree S H) : List (Query S H) :=
  t.root.leaves.flatMap fun l =>
    match l.kind with
    | .script v s => leafQueries th v s l.branch
    | .hidden _ => []

/-- The trees obtainable through the API, with the list of scripts they are meant to hold. -/
inductive Obtained (th : TapHash S H) : List S → Tree S H → Prop
  | build {scripts : List S} {t : Tree S H} (k : Nat) (hk : scripts.length = 2 ^ k)
      (h : Tree.newWithScripts th scripts = some t) : Obtained th scripts t
  | combine {A B : List S} {a b c : Tree S H} (ha : Obtained th A a) (hb : Obtained th B b)
      (h : a.combine th b = some c) : Obtained th (A ++ B) c

end TapStark.Tap
