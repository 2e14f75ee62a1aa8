import Verif.Proofs.ExpressMain
import Verif.Proofs.Tracker

/-
Property C54: the expression compiler.

`eval env e` is the mathematical value of the expression (Verif/Spec/Express.lean).  `compile L T vg optimize e t` is
`express` / `express1`.
-/

namespace TapStark

open Stark (BB4 asBase4 mk4 mk4_base mk4_add mk4_mul)

section

variable {cfg : Cfg} {start : St} {m0 a0 : List Elem} {L : U31Lib} {T : TrackerLib} {vg : Variable → Option SVar}
variable {K : Variable → Kind} {τ : Expr → List Kind} {env : Variable → Val} {σ : Nat → List Elem} {t : Tracker} {e : Expr}

/-! ### C54 -/

/-- C54: the script compiled with sharing leaves the value of the expression on top of the variables that the
expression does not move, and the alt stack as it was; if a check in the expression fails, the script fails. -/
theorem C54_shared (hL : L.Ok cfg) (hT : T.Ok cfg) (hw : WellTyped K τ e) (hsh : Shared e) (hmv : MovesOnce vg e)
    (hmu : MultiOk e) (ht : TInv cfg start m0 a0 t (some σ)) (hin : InputsAt vg K env σ t.vars e) :
    ∃ vs t' rest, compile L T vg true e t = some (vs, t') ∧ vs.length = (τ e).length ∧
      t'.vars = vs ++ rest ∧ t'.alt = t.alt ∧ rest.Sublist t.vars ∧ (∀ v ∈ t.vars, v ∈ rest ↔ ¬ Moved vg e v) ∧
      run cfg t'.script start = (eval env e).map fun vals =>
        ⟨(vals.map Val.enc).flatten ++ (stackOf σ rest ++ m0), altOf σ t.alt ++ a0, []⟩ := by
  obtain ⟨vs, t', rest, D, h1, h2, h3⟩ := compile_ok hL hT hw hsh hmv hmu ht hin
  refine ⟨vs, t', rest, h1, h2, h3.vars, h3.alt, h3.sub, h3.moved, ?_⟩
  rw [h3.run ht, chunks, Option.map_map]
  rfl

/-- C54: the script compiled without sharing does the same, for expressions without moves. -/
theorem C54_unshared (hL : L.Ok cfg) (hT : T.Ok cfg) (hw : WellTyped K τ e) (hsh : Shared e)
    (hmv : ∀ s v, Sub s e → s.opc ≠ .inputMove v) (ht : TInv cfg start m0 a0 t (some σ))
    (hin : InputsAt vg K env σ t.vars e) :
    ∃ vs t', compile L T vg false e t = some (vs, t') ∧ vs.length = (τ e).length ∧
      t'.vars = vs ++ t.vars ∧ t'.alt = t.alt ∧
      run cfg t'.script start = (eval env e).map fun vals =>
        ⟨(vals.map Val.enc).flatten ++ (stackOf σ t.vars ++ m0), altOf σ t.alt ++ a0, []⟩ := by
  obtain ⟨vs, t', rest, D, h1, h2, h3⟩ := compile_plain_ok hL hT hw hsh hmv ht hin
  have hrest : rest = t.vars := by
    have hn := ht.nodup
    rw [List.map_append] at hn
    have hnd : t.vars.Nodup := List.Nodup.of_map _ (List.nodup_append.mp hn).1
    exact h3.sub.eq_of_length_le (List.Subperm.length_le (List.subperm_of_subset hnd fun v hv =>
      (h3.moved v hv).mpr fun ⟨s, w, hs, h, _⟩ => hmv s w hs h))
  subst hrest
  refine ⟨vs, t', h1, h2, h3.vars, h3.alt, ?_⟩
  rw [h3.run ht, chunks, Option.map_map]
  rfl

/-- C54: with and without sharing, the same final state. -/
theorem C54_sharing_irrelevant (hL : L.Ok cfg) (hT : T.Ok cfg) (hw : WellTyped K τ e) (hsh : Shared e)
    (hmv : ∀ s v, Sub s e → s.opc ≠ .inputMove v) (hmu : MultiOk e) (ht : TInv cfg start m0 a0 t (some σ))
    (hin : InputsAt vg K env σ t.vars e) :
    ∃ vs t' vs' t'', compile L T vg true e t = some (vs, t') ∧ compile L T vg false e t = some (vs', t'') ∧
      run cfg t'.script start = run cfg t''.script start := by
  obtain ⟨vs, t', rest, h1, _, _, _, h5, h6, h7⟩ :=
    C54_shared hL hT hw hsh (fun s _ v _ hs _ h => absurd h (hmv s v hs)) hmu ht hin
  obtain ⟨vs', t'', g1, _, _, _, g5⟩ := C54_unshared hL hT hw hsh hmv ht hin
  refine ⟨vs, t', vs', t'', h1, g1, ?_⟩
  have hrest : rest = t.vars := by
    have hn := ht.nodup
    rw [List.map_append] at hn
    have hnd : t.vars.Nodup := List.Nodup.of_map _ (List.nodup_append.mp hn).1
    exact h5.eq_of_length_le (List.Subperm.length_le (List.subperm_of_subset hnd fun v hv =>
      (h6 v hv).mpr fun ⟨s, w, hs, h, _⟩ => hmv s w hs h))
  rw [h7, g5, hrest]

end

/-! ### An instance -/

namespace C54

/-- The input. -/
def x : Expr := .node 0 (.inputMove ⟨0, 0, none⟩) 1 []
/-- The constant `1 + 2 X`. -/
def y : Expr := .node 1 (.constant [1, 2, 0, 0]) 4 []
/-- `x + y`, used twice. -/
def s : Expr := .node 2 .add 4 [x, y]
/-- `(x + y) * (x + y)`. -/
def sq : Expr := .node 3 .mul 4 [s, s]

def kinds (e : Expr) : List Kind := if e.id = 0 then [.base] else [.ext]

def inputs (v : Variable) : Option SVar := if v = ⟨0, 0, none⟩ then some ⟨0, 1⟩ else none

def env : Variable → Val := fun _ => .nat 3

def start : Tracker := ⟨[⟨0, 1⟩], [], 1, []⟩

theorem sub_sq {u : Expr} (h : Sub u sq) : u = sq ∨ u = s ∨ u = x ∨ u = y := by
  have := mem_subs.mpr h
  simp only [sq, s, x, y, subs, subsArgs, List.mem_cons, List.mem_append, List.not_mem_nil, or_false] at this ⊢
  tauto

theorem wellTyped : WellTyped (fun _ => .base) kinds sq where
  types := by
    intro u hu
    rcases sub_sq hu with rfl | rfl | rfl | rfl
    · exact ⟨.ext, .ext, rfl, .inl rfl, .inl rfl, rfl⟩
    · exact ⟨.base, .ext, rfl, .inr ⟨_, Nat.le_refl _, rfl⟩, .inl rfl, rfl⟩
    · exact ⟨rfl, rfl⟩
    · exact ⟨rfl, .ext, _, rfl, constVal_four (by decide), trivial⟩
  size := by
    intro u k hu hk
    rcases sub_sq hu with rfl | rfl | rfl | rfl <;> cases hk <;> rfl
  sizes := by
    intro u hu v hv
    rcases sub_sq hu with rfl | rfl | rfl | rfl
    · simp only [sq, Expr.args, List.mem_cons, List.not_mem_nil, or_false] at hv
      rcases hv with rfl | rfl <;> exact ⟨4, rfl⟩
    · simp only [s, Expr.args, List.mem_cons, List.not_mem_nil, or_false] at hv
      rcases hv with rfl | rfl
      · exact ⟨1, rfl⟩
      · exact ⟨4, rfl⟩
    · cases hv
    · cases hv
  one := by
    intro u hu h
    rcases sub_sq hu with rfl | rfl | rfl | rfl <;> rcases h with h | ⟨_, _, h⟩ <;> cases h

theorem shared : Shared sq := by
  intro u v hu hv h
  rcases sub_sq hu with rfl | rfl | rfl | rfl <;> rcases sub_sq hv with rfl | rfl | rfl | rfl <;>
    first | rfl | exact absurd h (by decide)

theorem movesOnce : MovesOnce inputs sq := by
  intro u v i j hu hv h1 h2 _
  rcases sub_sq hu with rfl | rfl | rfl | rfl <;> cases h1
  rcases sub_sq hv with rfl | rfl | rfl | rfl <;> first | rfl | (rcases h2 with h2 | h2 <;> cases h2)

theorem multiOk : MultiOk sq := by
  intro u hu h
  rcases sub_sq hu with rfl | rfl | rfl | rfl <;> exact absurd rfl h

theorem inputsAt : InputsAt inputs (fun _ => .base) env (fun _ => [num 3]) start.vars sq := by
  intro u v hu hr
  refine ⟨⟨(by decide : 3 < bbP), by decide⟩, ⟨0, 1⟩, List.mem_singleton_self _, ?_, rfl⟩
  rcases sub_sq hu with rfl | rfl | rfl | rfl <;> rcases hr with h | h <;> cases h
  rfl

theorem tInv (cfg : Cfg) (m0 a0 : List Elem) :
    TInv cfg ⟨num 3 :: m0, a0, []⟩ m0 a0 start (some fun _ => [num 3]) where
  nodup := by simp [start]
  lt := by simp [start]
  small := by simp [start]
  sized := by simp [start]
  run := rfl

end C54

/-- C54, an instance with the scripts of the repository: `(3 + (1 + 2 X))^2 = 16 + 16 X + 4 X^2`, the sum computed
once, the input consumed. -/
theorem C54_instance (cfg : Cfg) (m0 a0 : List Elem) :
    ∃ v t', compile (repoLib 2013265921) refTracker C54.inputs true C54.sq C54.start = some ([v], t') ∧
      t'.vars = [v] ∧ t'.alt = [] ∧
      run cfg t'.script ⟨num 3 :: m0, a0, []⟩ = some ⟨num 16 :: num 16 :: num 4 :: num 0 :: m0, a0, []⟩ := by
  obtain ⟨vs, t', rest, h1, h2, h3, h4, h5, h6, h7⟩ := C54_shared (repoLib_ok cfg) (refTracker_ok cfg) C54.wellTyped
    C54.shared C54.movesOnce C54.multiOk (C54.tInv cfg m0 a0) C54.inputsAt
  obtain ⟨v, rfl⟩ := List.length_eq_one_iff.mp (h2.trans rfl)
  have hrest : rest = [] := by
    rw [List.eq_nil_iff_forall_not_mem]
    intro w hw
    have hw' := h5.subset hw
    have := List.mem_singleton.mp hw'
    subst this
    exact (h6 _ hw').mp hw ⟨C54.x, _, .arg (List.mem_cons_self ..) (.arg (List.mem_cons_self ..) (.refl _)), rfl, rfl⟩
  subst hrest
  refine ⟨v, t', h1, h3, h4, h7.trans ?_⟩
  have hev : eval C54.env C54.sq = some [.ext (mk4 16 16 4 0)] := by
    have hy : constVal [1, 2, 0, 0] = some (.ext (mk4 1 2 0 0)) := by
      rw [constVal_four (by decide)]
      norm_cast
    have hx' : eval C54.env C54.x = some [.nat 3] := by
      simp [C54.x, eval, evalArgs, Opc.denote, C54.env]
    have hy' : eval C54.env C54.y = some [.ext (mk4 1 2 0 0)] := by
      simp [C54.y, eval, evalArgs, Opc.denote, hy]
    have hs' : eval C54.env C54.s = some [.ext (mk4 4 2 0 0)] := by
      rw [C54.s, eval, evalArgs, evalArgs, evalArgs, hx', hy']
      simp only [Option.map_some, Option.bind_some, Opc.denote, Option.some.injEq, List.cons.injEq, and_true]
      show Val.ext (algebraMap BB BB4 (3 : Nat) + mk4 1 2 0 0) = _
      rw [mk4_base, mk4_add]
      congr 2
    rw [C54.sq, eval, evalArgs, evalArgs, evalArgs, hs']
    simp only [Option.map_some, Option.bind_some, Opc.denote, Option.some.injEq, List.cons.injEq, and_true]
    show Val.ext (mk4 4 2 0 0 * mk4 4 2 0 0) = _
    rw [mk4_mul]
    congr 2
  rw [hev]
  show some _ = _
  simp only [List.map_cons, List.map_nil, List.flatten_cons, List.flatten_nil, List.append_nil, Val.enc,
    encE_mk4]
  rfl

/-! ### Where the code falls short -/

namespace C54

/-- A constant used twice as a byte of a hash. -/
def byte : Expr := .node 0 (.constant [5]) 1 []
def zeros : Expr := .node 1 (.table (List.replicate 32 [0])) 1 []
/-- A hash with a shared byte. -/
def hashed : Expr := .node 2 .blake3 1 (zeros :: List.replicate 32 byte)
/-- The eight words of the hash, sampled from twice. -/
def words : Expr := .node 3 .toSample 1 [hashed]
def twice : Expr := .node 6 .add 1 [.node 4 .sampleBase 1 [words], .node 5 .sampleBase 1 [words]]

end C54

/-- C54 is limited to nodes with several outputs whose shared operands are reached once: such nodes are not cached
but their visits are counted once, so that a second visit moves a shared operand that has been moved already, and the
generator panics.  Without sharing the same expression compiles. -/
theorem C54_violated_multi_output :
    compile (repoLib 2013265921) refTracker (fun _ => none) true C54.twice Tracker.new = none ∧
    (compile (repoLib 2013265921) refTracker (fun _ => none) false C54.twice Tracker.new).isSome = true := by
  constructor
  · apply Option.isNone_iff_eq_none.mp
    decide +kernel
  · decide +kernel

/-- C54 without sharing is limited to expressions without moves: an input moved by a shared node is on the stack once
only, and the generator panics.  With sharing the same expression compiles. -/
theorem C54_violated_unshared_move :
    let e : Expr := .node 1 .add 1 [C54.x, C54.x]
    compile (repoLib 2013265921) refTracker C54.inputs false e C54.start = none ∧
    (compile (repoLib 2013265921) refTracker C54.inputs true e C54.start).isSome = true := by
  constructor
  · apply Option.isNone_iff_eq_none.mp
    decide +kernel
  · decide +kernel

end TapStark
