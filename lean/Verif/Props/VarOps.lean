import Verif.Proofs.VarOps
import Verif.Props.Express

/-
C106: arithmetic on input variables.
-/

namespace TapStark

section

variable {F : Type} [Field F] {B : BfField F} {cfg : Cfg} {L : U31Lib} {T : TrackerLib} {vg : Variable → Option SVar}
variable {start : St} {m0 a0 : List Elem} {t : Tracker} {σ : Nat → List Elem} {n : Nat}

omit [Field F] in
/-- **C106** (panics): a program of operations on variables panics exactly where an annotation does not fit the field:
a plain variable may be without annotation, a variable with a value may not. -/
theorem C106_panics (steps : List (VStep F)) (hr : VStep.AllInRange steps 0) (n : Nat) :
    VStep.build B steps [] n ≠ none ↔ ∀ st ∈ steps, st.Fits B.consts.size := by
  rw [← Option.isSome_iff_ne_none, build_isSome]
  exact and_iff_left hr

/-- **C106**: where the map of inputs has the variables, each on the stack with the value that `ρ` gives it, every
expression made by a program of operations compiles, with and without sharing, to a script that puts the value of the
program's formula on top and leaves the inputs where they are. -/
theorem C106_value (hB : B.Ok) (hL : L.Ok cfg) (hT : T.Ok cfg) {steps : List (VStep F)} (ρ : Variable → F) {ys : List F}
    (hf : ∀ st ∈ steps, st.Fits B.consts.size) (hy : VStep.values ρ steps [] = some ys)
    (ht : TInv cfg start m0 a0 t (some σ))
    (hin : ∀ st ∈ steps, ∀ v ∈ st.vars, ∃ sv ∈ t.vars, vg v = some sv ∧ σ sv.id = (B.val (ρ v)).enc)
    (optimize : Bool) (n : Nat) :
    ∃ ds n', VStep.build B steps [] n = some (ds, n') ∧ ds.length = ys.length ∧
      ∀ (i : Nat) (d : Expr) (y : F), ds[i]? = some d → ys[i]? = some y →
        ∃ sv t', compile L T vg optimize d t = some ([sv], t') ∧ t'.vars = sv :: t.vars ∧ t'.alt = t.alt ∧
          run cfg t'.script start =
            some ⟨(B.val y).enc ++ (stackOf σ t.vars ++ m0), altOf σ t.alt ++ a0, []⟩ := by
  obtain ⟨ds, n', P, e, hp, hd⟩ := build_adds (V := fun v => ∃ st ∈ steps, v ∈ st.vars) hB
    (fun st hst v hv => ⟨st, hst, hv⟩) hf (Plain.none (kindOf B ρ) _ n) (.nil) hy
  refine ⟨ds, n', e, hd.length_eq, fun i d y hi hyi => ?_⟩
  obtain ⟨d', hd', g⟩ := hd.get hyi
  rw [hi] at hd'
  cases hd'
  have hsub : ∀ s, Sub s d → P s := fun s hs => hp.good.sub hs g.mem
  have hmv : ∀ s v, Sub s d → s.opc ≠ .inputMove v := fun s v hs => hp.still s v (hsub s hs)
  have hmu : MultiOk d := fun s hs h => absurd (hp.one s (hsub s hs)) h
  have hin' : InputsAt vg (kindOf B ρ) (fun v => B.val (ρ v)) σ t.vars d := by
    intro s v hs hr
    obtain ⟨st, hst, hv⟩ := hp.reads s v (hsub s hs) hr
    exact ⟨constVal_has (hB.const _), hin st hst v hv⟩
  obtain ⟨k, hk, -⟩ := g.kind
  cases optimize with
  | false =>
    obtain ⟨vs, t', h1, h2, h3, h4, h5⟩ := C54_unshared hL hT (hp.good.wellTyped g.mem) (hp.good.shared g.mem) hmv ht hin'
    rw [hk] at h2
    obtain ⟨sv, rfl⟩ := List.length_eq_one_iff.mp h2
    refine ⟨sv, t', h1, h3, h4, ?_⟩
    rw [h5, g.eval]
    simp
  | true =>
    obtain ⟨vs, t', rest, h1, h2, h3, h4, h5, h6, h7⟩ := C54_shared hL hT (hp.good.wellTyped g.mem) (hp.good.shared g.mem)
      (fun s _ v _ hs _ h => absurd h (hmv s v hs)) hmu ht hin'
    rw [hk] at h2
    obtain ⟨sv, rfl⟩ := List.length_eq_one_iff.mp h2
    have hrest : rest = t.vars := by
      have hn := ht.nodup
      rw [List.map_append] at hn
      have hnd : t.vars.Nodup := List.Nodup.of_map _ (List.nodup_append.mp hn).1
      exact h5.eq_of_length_le (List.Subperm.length_le (List.subperm_of_subset hnd fun v hv =>
        (h6 v hv).mpr fun ⟨s, w, hs, h, _⟩ => hmv s w hs h))
    subst hrest
    refine ⟨sv, t', h1, h3, h4, ?_⟩
    rw [h7, g.eval]
    simp

/-! ### Inputs that the map does not have -/

/-- **C106** (any expression): an expression that reads a variable which the map does not have does not compile, with or
without sharing. -/
theorem C106_missing {e s : Expr} {v : Variable} (hsh : Shared e) (hs : Sub s e) (hr : Reads s v) (hv : vg v = none)
    (optimize : Bool) (t : Tracker) : compile L T vg optimize e t = none :=
  compile_lacks hsh ⟨s, v, hs, hr, hv⟩ t

omit [Field F] in
theorem sub_op {a b s : Expr} (o : VOp) (n : Nat) (h : Sub s a ∨ Sub s b) : Sub s (o.dsl a b n).1 := by
  cases o <;> rcases h with h | h
  · exact .arg (List.mem_cons_self ..) h
  · exact .arg (List.mem_cons_of_mem _ (List.mem_singleton.mpr rfl)) h
  · exact .arg (List.mem_cons_self ..) h
  · exact .arg (List.mem_cons_of_mem _ (List.mem_singleton.mpr rfl)) h
  · exact .arg (List.mem_cons_self ..) h
  · exact .arg (List.mem_cons_of_mem _ (List.mem_singleton.mpr rfl)) h

omit [Field F] in
theorem make_reads {st : VStep F} {ds : List Expr} {r : Expr × Nat} (h : st.make B ds n = some r) {v : Variable}
    (hv : v ∈ st.vars) : ∃ s, Sub s r.1 ∧ Reads s v := by
  obtain ⟨hf, hr⟩ := make_isSome.mp (by rw [h]; rfl : (st.make B ds n).isSome = true)
  have copy : ∀ k m, Reads (Dsl.mk (.inputCopy v) k [] m).1 v := fun _ _ => .inr rfl
  cases st with
  | var w =>
    rw [VStep.make, toDsl_eq hf] at h
    cases h; cases List.mem_singleton.mp hv
    exact ⟨_, .refl _, copy ..⟩
  | val w x =>
    rw [VStep.make, new_eq hf] at h
    simp only [Option.bind_eq_bind, Option.bind_some, valueToDsl_eq hf] at h
    cases h; cases List.mem_singleton.mp hv
    exact ⟨_, .refl _, copy ..⟩
  | const c => cases hv
  | varC o w c =>
    rw [VStep.make, toDsl_eq hf] at h
    cases h; cases List.mem_singleton.mp hv
    exact ⟨_, sub_op o _ (.inl (.refl _)), copy ..⟩
  | varD o w j =>
    rw [VStep.make, toDsl_eq hf] at h
    simp only [Option.bind_eq_bind, Option.bind_eq_some_iff] at h
    obtain ⟨b, -, _, h1, h⟩ := h
    cases h1; cases h; cases List.mem_singleton.mp hv
    exact ⟨_, sub_op o _ (.inl (.refl _)), copy ..⟩
  | dVar o i w =>
    rw [VStep.make, toDsl_eq hf] at h
    simp only [Option.bind_eq_bind, Option.bind_eq_some_iff] at h
    obtain ⟨b, -, _, h1, h⟩ := h
    cases h1; cases h; cases List.mem_singleton.mp hv
    exact ⟨_, sub_op o _ (.inr (.refl _)), copy ..⟩
  | valVal o w x u y =>
    rw [VStep.make, new_eq hf.1, new_eq hf.2] at h
    simp only [Option.bind_eq_bind, Option.bind_some, valueToDsl_eq hf.1, valueToDsl_eq hf.2] at h
    cases h
    rcases List.mem_cons.mp hv with rfl | hv
    · exact ⟨_, sub_op o _ (.inl (.refl _)), copy ..⟩
    · cases List.mem_singleton.mp hv
      exact ⟨_, sub_op o _ (.inr (.refl _)), copy ..⟩
  | valC o w x c =>
    rw [VStep.make, new_eq hf] at h
    simp only [Option.bind_eq_bind, Option.bind_some, valueToDsl_eq hf] at h
    cases h; cases List.mem_singleton.mp hv
    exact ⟨_, sub_op o _ (.inl (.refl _)), copy ..⟩
  | valD o w x j =>
    rw [VStep.make, new_eq hf] at h
    simp only [Option.bind_eq_bind, Option.bind_some, valueToDsl_eq hf, Option.bind_eq_some_iff] at h
    obtain ⟨b, -, h⟩ := h
    cases h; cases List.mem_singleton.mp hv
    exact ⟨_, sub_op o _ (.inl (.refl _)), copy ..⟩
  | dVal o i w x =>
    rw [VStep.make, new_eq hf] at h
    simp only [Option.bind_eq_bind, Option.bind_some, valueToDsl_eq hf, Option.bind_eq_some_iff] at h
    obtain ⟨b, -, h⟩ := h
    cases h; cases List.mem_singleton.mp hv
    exact ⟨_, sub_op o _ (.inr (.refl _)), copy ..⟩
  | dD o i j => cases hv
  | dC o i c => cases hv

omit [Field F] in
theorem build_prefix {steps : List (VStep F)} {ds es : List Expr} {n' : Nat}
    (h : VStep.build B steps ds n = some (es, n')) : ds <+: es := by
  induction steps generalizing ds n with
  | nil => cases h; exact List.prefix_rfl
  | cons st rest ih =>
    simp only [VStep.build, Option.bind_eq_bind, Option.bind_eq_some_iff] at h
    obtain ⟨r, -, h⟩ := h
    exact (List.prefix_append _ _).trans (ih h)

omit [Field F] in
theorem build_get {steps : List (VStep F)} {ds es : List Expr} {n' : Nat}
    (h : VStep.build B steps ds n = some (es, n')) {i : Nat} {st : VStep F} (hi : steps[i]? = some st) :
    ∃ ds' n1 r, st.make B ds' n1 = some r ∧ es[ds.length + i]? = some r.1 := by
  induction steps generalizing ds n i with
  | nil => simp at hi
  | cons st' rest ih =>
    simp only [VStep.build, Option.bind_eq_bind, Option.bind_eq_some_iff] at h
    obtain ⟨r, hm, h⟩ := h
    cases i with
    | zero =>
      simp at hi
      subst hi
      refine ⟨ds, n, r, hm, ?_⟩
      obtain ⟨l, rfl⟩ := build_prefix h
      simp
    | succ i =>
      obtain ⟨ds', n1, r', h1, h2⟩ := ih h (by simpa using hi)
      refine ⟨ds', n1, r', h1, ?_⟩
      rw [← h2, List.length_append, List.length_singleton]
      congr 1
      omega

/-- **C106** (missing variables): the expression made by a step that reads a variable which the map does not have under
that row, that column and that annotation does not compile, with or without sharing. -/
theorem C106_missing_step (hB : B.Ok) {steps : List (VStep F)} {ds : List Expr} {n' : Nat}
    (hb : VStep.build B steps [] n = some (ds, n')) {i : Nat} {st : VStep F} (hi : steps[i]? = some st) {v : Variable}
    (hv : v ∈ st.vars) (hg : vg v = none) (optimize : Bool) (t : Tracker) :
    ∃ d, ds[i]? = some d ∧ compile L T vg optimize d t = none := by
  obtain ⟨ds', n1, r, h1, h2⟩ := build_get hb hi
  rw [List.length_nil, Nat.zero_add] at h2
  refine ⟨r.1, h2, ?_⟩
  obtain ⟨s, hs, hr⟩ := make_reads h1 hv
  obtain ⟨hf, hrange⟩ := build_isSome.mp (by rw [hb]; rfl : (VStep.build B steps [] n).isSome = true)
  obtain ⟨ys, hy⟩ := values_some (ρ := fun _ => (0 : F)) (xs := []) hrange
  obtain ⟨es, n2, P, e, hp, hd⟩ := build_adds (V := fun _ => True) hB (fun _ _ _ _ => trivial) hf
    (Plain.none (kindOf B fun _ => (0 : F)) _ n) (.nil) hy
  rw [hb] at e
  cases e
  have hy' : ∃ y, ys[i]? = some y := by
    have := (List.getElem?_eq_some_iff.mp h2).1
    exact ⟨_, List.getElem?_eq_getElem (hd.length_eq ▸ this)⟩
  obtain ⟨y, hy'⟩ := hy'
  obtain ⟨d, hd1, g⟩ := hd.get hy'
  rw [h2] at hd1
  cases hd1
  exact C106_missing (hp.good.shared g.mem) hs hr hg optimize t

end

/-! ### Annotations name inputs -/

/-- **C106** (violated): the input of a row and column is not found under another annotation.  A variable without
annotation is accepted by the operators, but a map that has the input of the same row and column under the annotation
of the field does not have it. -/
theorem C106_violated_annotation {L : U31Lib} {T : TrackerLib} (row column n : Nat) (sv : SVar) (optimize : Bool) (t : Tracker) :
    let vg : Variable → Option SVar := fun v => if v = ⟨row, column, some 1⟩ then some sv else none
    ∃ d n', VStep.build bbField [.var ⟨row, column, none⟩] [] n = some ([d], n') ∧
      compile L T vg optimize d t = none := by
  intro vg
  have hb : VStep.build bbField [.var ⟨row, column, none⟩] [] n =
      some ([(Dsl.mk (.inputCopy ⟨row, column, none⟩) 1 [] n).1], n + 1) := by
    simp [VStep.build, VStep.make, Variable.toDsl, Dsl.mk, bbField, bbConsts]
  refine ⟨_, _, hb, ?_⟩
  obtain ⟨d, h1, h2⟩ := C106_missing_step (L := L) (T := T) (vg := vg) bbField_ok hb (i := 0) rfl (v := ⟨row, column, none⟩)
    (List.mem_singleton.mpr rfl) (by simp [vg]) optimize t
  cases h1
  exact h2

/-! ### An instance -/

namespace C106

/-- `a = x + y` with values attached, `b = a - 3`, `c = a * b`, `d = x - c`, `e = d + y`; the values attached to `x` and
`y` are not those on the stack. -/
def steps : List (VStep BB) :=
  [.valVal .add ⟨0, 0, some 1⟩ 100 ⟨0, 1, some 1⟩ 200, .dC .sub 0 3, .dD .mul 0 1, .valD .sub ⟨0, 0, some 1⟩ 7 2,
    .dVar .add 3 ⟨0, 1, some 1⟩]

def inputs (v : Variable) : Option SVar :=
  if v = ⟨0, 0, some 1⟩ then some ⟨0, 1⟩ else if v = ⟨0, 1, some 1⟩ then some ⟨1, 1⟩ else none

def vals (v : Variable) : BB := if v.column = 0 then 5 else 6

def start : Tracker := ⟨[⟨0, 1⟩, ⟨1, 1⟩], [], 2, []⟩

def contents (i : Nat) : List Elem := if i = 0 then [num 5] else [num 6]

theorem tInv (cfg : Cfg) (m0 a0 : List Elem) :
    TInv cfg ⟨num 5 :: num 6 :: m0, a0, []⟩ m0 a0 start (some contents) where
  nodup := by decide
  lt := by decide
  small := by decide
  sized := by
    intro σ h v hv
    cases h
    simp only [start, List.append_nil, List.mem_cons, List.not_mem_nil, or_false] at hv
    rcases hv with rfl | rfl <;> rfl
  run := rfl

theorem enc_bb (x : BB) : (bbField.val x).enc = [num (x.val : ℕ)] := by
  rw [val_bb]; rfl

end C106

/-- **C106** (instance): with 5 and 6 on the stack the last expression has the value `5 - (5 + 6) * (5 + 6 - 3) + 6`. -/
theorem C106_instance (cfg : Cfg) (m0 a0 : List Elem) (optimize : Bool) :
    ∃ ds n' d sv t', VStep.build bbField C106.steps [] 0 = some (ds, n') ∧ ds[4]? = some d ∧
      compile (repoLib 2013265921) refTracker C106.inputs optimize d C106.start = some ([sv], t') ∧
      t'.vars = [sv, ⟨0, 1⟩, ⟨1, 1⟩] ∧
      run cfg t'.script ⟨num 5 :: num 6 :: m0, a0, []⟩ =
        some ⟨num (((5 - (5 + 6) * (5 + 6 - 3) + 6 : BB).val : ℕ)) :: num 5 :: num 6 :: m0, a0, []⟩ := by
  have hy : VStep.values C106.vals C106.steps [] = some [5 + 6, 5 + 6 - 3, (5 + 6) * (5 + 6 - 3),
      5 - (5 + 6) * (5 + 6 - 3), 5 - (5 + 6) * (5 + 6 - 3) + 6] := by
    simp [C106.steps, VStep.values, VStep.value, VOp.value, C106.vals]
  obtain ⟨ds, n', h1, h2, h3⟩ := C106_value bbField_ok (repoLib_ok cfg) (refTracker_ok cfg) C106.vals
    (vg := C106.inputs) (steps := C106.steps)
    (by
      intro st hst
      simp only [C106.steps, List.mem_cons, List.not_mem_nil, or_false] at hst
      rcases hst with rfl | rfl | rfl | rfl | rfl
      · exact ⟨rfl, rfl⟩
      · trivial
      · trivial
      · rfl
      · intro k hk; cases hk; rfl) hy (C106.tInv cfg m0 a0)
    (by
      intro st hst v hv
      have hx : v = ⟨0, 0, some 1⟩ ∨ v = ⟨0, 1, some 1⟩ := by
        simp only [C106.steps, List.mem_cons, List.not_mem_nil, or_false] at hst
        rcases hst with rfl | rfl | rfl | rfl | rfl <;> simp [VStep.vars] at hv <;> tauto
      rcases hx with rfl | rfl
      · exact ⟨⟨0, 1⟩, List.mem_cons_self .., rfl, by rw [C106.enc_bb]; rfl⟩
      · exact ⟨⟨1, 1⟩, List.mem_cons_of_mem _ (List.mem_singleton.mpr rfl), rfl, by rw [C106.enc_bb]; rfl⟩) optimize 0
  have h4 : 4 < ds.length := by rw [h2]; decide
  obtain ⟨sv, t', g1, g2, -, g4⟩ := h3 4 ds[4] _ (List.getElem?_eq_getElem h4) rfl
  refine ⟨ds, n', ds[4], sv, t', h1, List.getElem?_eq_getElem h4, g1, g2, ?_⟩
  rw [g4, C106.enc_bb]
  rfl

end TapStark
