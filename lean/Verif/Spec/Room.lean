import Verif.Spec.Express
import Verif.Script.Effect

/-
How many stack elements the script of an expression needs: a bound computed from the expression alone.
-/

namespace TapStark

/-- From a stack of at least `n` elements, the fragment needs at most `r` elements more: under a limit that leaves that
room it behaves as without limit. -/
def Fit (p : List Op) (n r : Nat) : Prop :=
  ∀ (cfg : Cfg) (lim : Nat) (s : St), s.cond = [] → n ≤ s.size → s.size + r ≤ lim → runL cfg lim p s = run cfg p s

/-- The fragments of the stack tracker need at most four elements beside the copies they make. -/
structure TrackerLib.Thrifty (T : TrackerLib) : Prop where
  push : ∀ vs : List Nat, vs.length ≤ 4 → Fit (T.push vs) 0 (vs.length + 4)
  copy : ∀ d s, s ≤ 4 → Fit (T.copy d s) (d + s) (s + 4)
  move : ∀ d s, s ≤ 4 → Fit (T.move d s) (d + s) 4
  toAlt : ∀ s, s ≤ 4 → Fit (T.toAlt s) s 4
  copyAlt : ∀ d s, s ≤ 4 → Fit (T.copyAlt d s) (d + s) (s + 4)
  moveAlt : ∀ d s, s ≤ 4 → Fit (T.moveAlt d s) (d + s) 4

/-- The analysis of the fragment finds that it replaces `n` elements by `o` and needs at most `r` more than `n`. -/
def Uses (p : List Op) (n o r : Nat) : Prop := ∃ k t, k ≤ n + r ∧ Eff p n o k t

/-- The scripts of the field library need at most `R` elements beside their operands. -/
structure U31Lib.Slim (L : U31Lib) (R : Nat) : Prop where
  add : Uses L.add 2 1 R
  sub : Uses L.sub 2 1 R
  mul : Uses L.mul 2 1 R
  double : Uses L.double 1 1 R
  neg : Uses L.neg 1 1 R
  extAdd : Uses L.extAdd 8 4 R
  extSub : Uses L.extSub 8 4 R
  extMul : Uses L.extMul 8 4 R
  extDouble : Uses L.extDouble 4 4 R
  extNeg : Uses L.extNeg 4 4 R
  extAddU31 : Uses L.extAddU31 5 4 R
  extSubU31 : Uses L.extSubU31 5 4 R
  subU31Ext : Uses L.subU31Ext 5 4 R
  extMulU31 : Uses L.extMulU31 5 4 R
  extEqualverify : Uses L.extEqualverify 8 0 R

/-- Stack elements of the results of a node. -/
def width (τ : Expr → List Kind) (e : Expr) : Nat := ((τ e).map Kind.size).sum

/-- Elements the script of an operation needs on top of its operands, when those of the field library need `R`. -/
def Opc.room (R : Nat) : Opc → Nat
  | .blake3 => 328
  | .indexToRou _ bits => bits + max 118 (R + 8)
  | .reverseBitslen bits => 2 * bits
  | .extractHighBits _ => 33
  | _ => R + 4

mutual

/-- Elements needed by the script of an expression on top of those present before, where the results of a node have
`wt` elements and its own script needs `rm` beside its operands: the operands one after the other, each on top of the
results of the previous ones; the operation; and a copy of the result. -/
def need (wt rm : Expr → Nat) : Expr → Nat
  | .node id opc size args => max (needArgs wt rm args)
      (max ((args.map wt).sum + rm (.node id opc size args)) (wt (.node id opc size args) + 8))

/-- The operands one after the other. -/
def needArgs (wt rm : Expr → Nat) : List Expr → Nat
  | [] => 0
  | e :: es => max (need wt rm e) (wt e + needArgs wt rm es)

end

end TapStark
