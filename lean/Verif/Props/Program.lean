import Verif.Proofs.Program
import Verif.Proofs.MultiSafe
import Verif.Props.U31

/-
C85: a client program of the expression language checks what it says.
-/

namespace TapStark

namespace Prog

open Stark (BB4)

variable {cfg : Cfg} {L : U31Lib} {T : TrackerLib}

theorem makes_check {K : Variable → Kind} {env : Variable → Val} {m : InputManager} {n : Nat} {P : Expr → Prop}
    {a : Expr} {x c : FVal} (h : Built K NoNodes m n P) (ha : DenV K env P a x) (ht : x.ty = c.ty) :
    ∃ r, MakesCheck K NoNodes env P m (Dsl.equalC a (u32 c) n).2 (Dsl.equalC a (u32 c) n).1 r ∧
      (r = some true ↔ x = c) := by
  cases x with
  | base x =>
    cases c with
    | base c => exact ⟨_, makes_equalC bbField_ok h ha c, by rw [cmp_true]; simp⟩
    | ext c => cases ht
  | ext x =>
    cases c with
    | base c => cases ht
    | ext c => exact ⟨_, makes_equalC bb4Field_ok h ha c, by rw [cmp_true]; simp⟩

/-- C85: take any program of inputs, hints, constants and field operations in either field, whose values may be used
any number of times, and compare its value `r` with a constant `c` of the same type.  The script is generated without
panic, and running it succeeds iff the value is `c` and every input occurs in the formula of the value. -/
theorem C85_program (hL : L.Ok cfg) (hT : T.Ok cfg) {p : List Ins} {vs : List Value} {k : Nat}
    (hp : values p [] 0 = some (vs, k)) {r : Nat} {v : Value} (hr : vs[r]? = some v) {c : FVal} (hc : c.ty = v.val.ty)
    (n : Nat) :
    runCheck cfg L T p r c n = some () ↔ v.val = c ∧ v.inputs = Finset.range k := by
  obtain ⟨s, P, h1, hi⟩ := steps_inv (l := inputsOf p) (s := .new n) (P := NoNodes)
    ⟨Built.new _ n, .nil, Ins'.new _⟩ hp ⟨[], rfl, rfl⟩
  obtain ⟨e, he, hd, ho⟩ := hi.slots.get hr
  obtain ⟨o, ⟨P', b, sub, pe, hop, hck⟩, hiff⟩ := makes_check (c := c) hi.built hd hc.symm
  have hrun : runCheck cfg L T p r c n = (s.m.setExec (Dsl.equalC e (u32 c) s.n).1).run cfg L T := by
    simp [runCheck, h1, he, hc]
  have ha := hi.ins.agrees
  rw [hrun, manager_run (m := s.m.setExec (Dsl.equalC e (u32 c) s.n).1) hL hT b.good pe ⟨ha.vals, ha.kinds, ha.nodup⟩
    (fun s v hs hv => b.prov s v hs hv) (b.safe.multiOk b.good pe (by rw [hop]; exact fun h => h)) rfl hck, hiff]
  refine and_congr_right fun _ => ?_
  have hmv : ∀ w, Mv (Dsl.equalC e (u32 c) s.n).1 w ↔ ∃ i ∈ v.inputs, w = ⟨5, i, none⟩ := by
    intro w
    rw [← ho w]
    show Mv (.node _ .equal 1 [e, .node _ (.constant (u32 c)) _ []]) w ↔ _
    rw [mv_mk]
    simp only [reduceCtorEq, false_or, List.mem_cons, List.not_mem_nil, or_false, exists_eq_or_imp, exists_eq_left,
      mv_mk, false_and, exists_false]
  constructor
  · intro hcon
    ext i
    rw [Finset.mem_range]
    constructor
    · intro hi'
      -- an input that occurs is one of the manager
      obtain ⟨u, hu, hu'⟩ := (ho ⟨5, i, none⟩).mpr ⟨i, hi', rfl⟩
      have hPu : P u := hi.built.good.sub hu (by cases hv : v.val <;> rw [hv] at hd <;> exact hd.mem)
      obtain ⟨q, hq, hq'⟩ := List.mem_map.mp (hi.built.prov u _ hPu (.inl hu'))
      obtain ⟨j, w, hj, rfl, _⟩ := hi.ins.mem q hq
      cases hq'
      exact hj
    · intro hik
      obtain ⟨q, hq, hq'⟩ := List.mem_map.mp (hi.ins.all i hik)
      obtain ⟨u, hu, hu'⟩ := hcon q hq
      rw [hq'] at hu'
      obtain ⟨j, hj, hj'⟩ := (hmv ⟨5, i, none⟩).mp ⟨u, hu, hu'⟩
      cases hj'
      exact hj
  · intro hI q hq
    obtain ⟨i, w, hik, rfl, _⟩ := hi.ins.mem q hq
    exact (hmv ⟨5, i, none⟩).mpr ⟨i, by rw [hI, Finset.mem_range]; exact hik, rfl⟩

/-- C85, a consequence: an input that does not occur in the formula stays on the stack, and the run fails whatever the
values are. -/
theorem C85_unused_input (hL : L.Ok cfg) (hT : T.Ok cfg) {p : List Ins} {vs : List Value} {k : Nat}
    (hp : values p [] 0 = some (vs, k)) {r : Nat} {v : Value} (hr : vs[r]? = some v) {c : FVal} (hc : c.ty = v.val.ty)
    {i : Nat} (hi : i < k) (hu : i ∉ v.inputs) (n : Nat) : runCheck cfg L T p r c n = none := by
  cases h : runCheck cfg L T p r c n with
  | none => rfl
  | some u =>
    have := ((C85_program hL hT hp hr hc n).mp h).2
    rw [this, Finset.mem_range] at hu
    exact absurd hi hu

/-! ### A program -/

/-- The program of the test of the input manager, with a base field element multiplied into the extension: inputs `a`,
`b`, `c`, and `((a + b + b ^ 2) * c + 1) * 2` in the extension. -/
noncomputable def demo (a b c : BB) : List Ins :=
  [.input (.base a), .input (.base b), .input (.base c), .bin .add 0 1, .un .square 1, .bin .add 3 4, .bin .mul 5 2,
    .binC .add 6 (.base 1), .const (.ext 2), .binExt .mul 7 8]

theorem demo_values (a b c : BB) :
    ∃ vs, values (demo a b c) [] 0 = some (vs, 3) ∧
      vs[9]? = some ⟨.ext (algebraMap BB BB4 ((a + b + b ^ 2) * c + 1) * 2), {0, 1, 2}⟩ := by
  refine ⟨_, rfl, ?_⟩
  show some (Value.mk _ _) = _
  rw [Option.some.injEq, Value.mk.injEq]
  refine ⟨rfl, ?_⟩
  show ((({0} ∪ {1} ∪ {1}) ∪ {2}) ∪ ∅ : Finset Nat) = {0, 1, 2}
  decide

/-- C85, instance, with the arithmetic scripts of the repository: the program succeeds on 3, 3, 100 with 3002, and on no
other value. -/
theorem C85_instance (cfg : Cfg) (c : BB4) (n : Nat) :
    runCheck cfg (repoLib 2013265921) refTracker (demo 3 3 100) 9 (.ext c) n = some () ↔ c = 3002 := by
  obtain ⟨vs, h1, h2⟩ := demo_values 3 3 100
  rw [C85_program (repoLib_ok cfg) (refTracker_ok cfg) h1 h2 (c := .ext c) rfl]
  have e : algebraMap BB BB4 ((3 + 3 + 3 ^ 2) * 100 + 1) * 2 = 3002 := by
    have : ((3 + 3 + 3 ^ 2) * 100 + 1 : BB) = (1501 : Nat) := by norm_num
    rw [this, map_natCast]
    norm_num
  simp only [e, FVal.ext.injEq]
  constructor
  · exact fun h => h.1.symm
  · exact fun h => ⟨h.symm, by decide⟩

end Prog

end TapStark
