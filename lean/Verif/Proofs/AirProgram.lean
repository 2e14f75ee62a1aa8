import Verif.Model.AirProgram
import Verif.Proofs.TraceScript
import Verif.Props.RoomTrace

/-
AIRs written as programs: unfolding into trees, and the expressions of the script builder.
-/

set_option linter.unusedSectionVars false

namespace TapStark.Stark

open TapStark.Fri TapStark.Pcs

/-! ### Builders without state -/

section

variable {K V : Type} [One K] {width np : Nat}

/-- The builder computes `f` of the tree. -/
structure Hom (B : Builder K V Unit) (width np : Nat) (f : AExpr K → V) : Prop where
  loc : ∀ c < width, B.loc c () = some (f (.loc c), ())
  nxt : ∀ c < width, B.nxt c () = some (f (.nxt c), ())
  pub : ∀ i < np, B.pub i () = some (f (.pub i), ())
  first : B.isFirstRow = f .isFirstRow
  last : B.isLastRow = f .isLastRow
  trans : B.isTransition = f .isTransition
  const : ∀ c, B.const c () = (f (.const c), ())
  add : ∀ x y, x.InRange width np → y.InRange width np → B.add (f x) (f y) () = (f (.add x y), ())
  sub : ∀ x y, x.InRange width np → y.InRange width np → B.sub (f x) (f y) () = (f (.sub x y), ())
  neg : ∀ x, x.InRange width np → B.neg (f x) () = (f (.neg x), ())
  mul : ∀ x y, x.InRange width np → y.InRange width np → B.mul (f x) (f y) () = (f (.mul x y), ())

theorem treeBuilder_hom : Hom (treeBuilder (K := K)) width np id :=
  ⟨fun _ _ => rfl, fun _ _ => rfl, fun _ _ => rfl, rfl, rfl, rfl, fun _ => rfl, fun _ _ _ _ => rfl, fun _ _ _ _ => rfl,
    fun _ _ => rfl, fun _ _ _ _ => rfl⟩

theorem slot {f : AExpr K → V} {ts : List (AExpr K)} (ht : ∀ t ∈ ts, t.InRange width np) {i : Nat} (h : i < ts.length) :
    (ts[i]).InRange width np ∧ (ts.map f)[i]? = some (f ts[i]) :=
  ⟨ht _ (List.getElem_mem h), by simp [List.getElem?_eq_getElem h]⟩

theorem step_hom {ts : List (AExpr K)} (ht : ∀ t ∈ ts, t.InRange width np) (s : AStep K)
    (hs : s.InRange width np ts.length) : ∃ t : AExpr K, t.InRange width np ∧
      ∀ {V : Type} (B : Builder K V Unit) (f : AExpr K → V), Hom B width np f → B.step (ts.map f) s () = some (f t, ()) := by
  cases s with
  | loc c => exact ⟨.loc c, hs, fun B f h => h.loc c hs⟩
  | nxt c => exact ⟨.nxt c, hs, fun B f h => h.nxt c hs⟩
  | pub i => exact ⟨.pub i, hs, fun B f h => h.pub i hs⟩
  | isFirstRow => exact ⟨.isFirstRow, trivial, fun B f h => by rw [Builder.step, h.first]⟩
  | isLastRow => exact ⟨.isLastRow, trivial, fun B f h => by rw [Builder.step, h.last]⟩
  | isTransition => exact ⟨.isTransition, trivial, fun B f h => by rw [Builder.step, h.trans]⟩
  | const c => exact ⟨.const c, trivial, fun B f h => by rw [Builder.step, h.const]⟩
  | add i j =>
    refine ⟨.add (ts[i]'hs.1) (ts[j]'hs.2), ⟨(slot (f := id) ht hs.1).1, (slot (f := id) ht hs.2).1⟩, fun B f h => ?_⟩
    simp only [Builder.step, (slot ht hs.1).2, (slot ht hs.2).2, Option.bind_eq_bind, Option.bind_some]
    rw [h.add _ _ (slot (f := id) ht hs.1).1 (slot (f := id) ht hs.2).1]
  | sub i j =>
    refine ⟨.sub (ts[i]'hs.1) (ts[j]'hs.2), ⟨(slot (f := id) ht hs.1).1, (slot (f := id) ht hs.2).1⟩, fun B f h => ?_⟩
    simp only [Builder.step, (slot ht hs.1).2, (slot ht hs.2).2, Option.bind_eq_bind, Option.bind_some]
    rw [h.sub _ _ (slot (f := id) ht hs.1).1 (slot (f := id) ht hs.2).1]
  | neg i =>
    have hs : i < ts.length := hs
    refine ⟨.neg (ts[i]'hs), (slot (f := id) ht hs).1, fun B f h => ?_⟩
    simp only [Builder.step, (slot ht hs).2, Option.bind_eq_bind, Option.bind_some]
    rw [h.neg _ (slot (f := id) ht hs).1]
  | mul i j =>
    refine ⟨.mul (ts[i]'hs.1) (ts[j]'hs.2), ⟨(slot (f := id) ht hs.1).1, (slot (f := id) ht hs.2).1⟩, fun B f h => ?_⟩
    simp only [Builder.step, (slot ht hs.1).2, (slot ht hs.2).2, Option.bind_eq_bind, Option.bind_some]
    rw [h.mul _ _ (slot (f := id) ht hs.1).1 (slot (f := id) ht hs.2).1]

theorem check_hom {ts : List (AExpr K)} (ht : ∀ t ∈ ts, t.InRange width np) (c : ACheck) (hc : c.InRange ts.length) :
    ∃ t : AExpr K, t.InRange width np ∧
      ∀ {V : Type} (B : Builder K V Unit) (f : AExpr K → V), Hom B width np f → B.check (ts.map f) c () = some (f t, ()) := by
  have r1 : (AExpr.const (1 : K)).InRange width np := trivial
  cases c with
  | zero i =>
    have hc : i < ts.length := hc
    refine ⟨ts[i], (slot (f := id) ht hc).1, fun B f h => ?_⟩
    simp only [Builder.check, (slot ht hc).2, Option.bind_eq_bind, Option.bind_some]
  | one i =>
    have hc : i < ts.length := hc
    have r := (slot (f := id) ht hc).1
    refine ⟨.sub ts[i] (.const 1), ⟨r, r1⟩, fun B f h => ?_⟩
    simp only [Builder.check, (slot ht hc).2, Option.bind_eq_bind, Option.bind_some, h.const]
    rw [h.sub _ _ r r1]
  | eq i j =>
    refine ⟨.sub (ts[i]'hc.1) (ts[j]'hc.2), ⟨(slot (f := id) ht hc.1).1, (slot (f := id) ht hc.2).1⟩, fun B f h => ?_⟩
    simp only [Builder.check, (slot ht hc.1).2, (slot ht hc.2).2, Option.bind_eq_bind, Option.bind_some]
    rw [h.sub _ _ (slot (f := id) ht hc.1).1 (slot (f := id) ht hc.2).1]
  | bool i =>
    have hc : i < ts.length := hc
    have r := (slot (f := id) ht hc).1
    refine ⟨.mul ts[i] (.sub ts[i] (.const 1)), ⟨r, r, r1⟩, fun B f h => ?_⟩
    simp only [Builder.check, (slot ht hc).2, Option.bind_eq_bind, Option.bind_some, h.const]
    simp only [h.sub _ _ r r1, h.mul _ _ r (show (AExpr.sub ts[i] (.const 1)).InRange width np from ⟨r, r1⟩)]

theorem filter_hom : ∀ {cs : List (AExpr K)}, (∀ t ∈ cs, t.InRange width np) → ∀ {x : AExpr K}, x.InRange width np →
    ∃ t : AExpr K, t.InRange width np ∧
      ∀ {V : Type} (B : Builder K V Unit) (f : AExpr K → V), Hom B width np f → B.filter (cs.map f) (f x) () = (f t, ())
  | [], _, x, hx => ⟨x, hx, fun B f h => rfl⟩
  | c :: cs, hc, x, hx => by
    obtain ⟨t, r, h⟩ := filter_hom (fun t ht => hc t (List.mem_cons_of_mem _ ht)) hx
    have rc := hc c (List.mem_cons_self ..)
    refine ⟨.mul c t, ⟨rc, r⟩, fun B f hB => ?_⟩
    simp only [List.map_cons, Builder.filter, h B f hB, hB.mul _ _ rc r]

theorem slots {α : Type} {l : List α} : ∀ {is : List Nat}, (∀ i ∈ is, i < l.length) →
    ∃ xs : List α, (∀ x ∈ xs, x ∈ l) ∧ ∀ {β : Type} (f : α → β), (is.mapM fun i => (l.map f)[i]?) = some (xs.map f)
  | [], _ => ⟨[], by simp, fun f => rfl⟩
  | i :: is, h => by
    obtain ⟨xs, h1, h2⟩ := slots (l := l) (is := is) fun j hj => h j (List.mem_cons_of_mem _ hj)
    have hi := h i (List.mem_cons_self ..)
    refine ⟨l[i] :: xs, ?_, fun f => ?_⟩
    · intro x hx
      rcases List.mem_cons.mp hx with rfl | hx
      · exact List.getElem_mem hi
      · exact h1 x hx
    · have : (l.map f)[i]? = some (f l[i]) := by simp [List.getElem?_eq_getElem hi]
      rw [List.mapM_cons, this, h2 f]
      rfl

theorem eval_hom : ∀ {calls : List (ACall K)} {ts : List (AExpr K)}, (∀ t ∈ ts, t.InRange width np) →
    CallsInRange width np calls ts.length → ∃ xs : List (AExpr K), (∀ t ∈ xs, t.InRange width np) ∧
      xs.length = (calls.filter fun | .check .. => true | _ => false).length ∧
      ∀ {V : Type} (B : Builder K V Unit) (f : AExpr K → V), Hom B width np f →
        B.eval calls (ts.map f) () = some (xs.map f, ())
  | [], _, _, _ => ⟨[], by simp, rfl, fun B f h => rfl⟩
  | .value s :: rest, ts, ht, hc => by
    obtain ⟨t, r, h1⟩ := step_hom ht s hc.1
    have ht' : ∀ u ∈ ts ++ [t], u.InRange width np := by
      intro u hu
      rcases List.mem_append.mp hu with hu | hu
      · exact ht u hu
      · rw [List.mem_singleton] at hu; exact hu ▸ r
    obtain ⟨xs, r2, hl, h2⟩ := eval_hom (calls := rest) ht' (by rw [List.length_append]; exact hc.2)
    refine ⟨xs, r2, by simpa using hl, fun B f hB => ?_⟩
    have := h2 B f hB
    rw [List.map_append, List.map_singleton] at this
    simp only [Builder.eval, h1 B f hB, Option.bind_eq_bind, Option.bind_some, this]
  | .check conds c :: rest, ts, ht, hc => by
    obtain ⟨hc1, hc2, hc3⟩ := hc
    obtain ⟨cs, m1, m2⟩ := slots hc1
    obtain ⟨t, r, h1⟩ := check_hom ht c hc2
    obtain ⟨u, r', h1'⟩ := filter_hom (fun t h => ht t (m1 t h)) r
    obtain ⟨xs, r2, hl, h2⟩ := eval_hom (calls := rest) ht hc3
    refine ⟨u :: xs, ?_, by simpa using hl, fun B f hB => ?_⟩
    · intro x hx
      rcases List.mem_cons.mp hx with rfl | hx
      · exact r'
      · exact r2 x hx
    · simp only [Builder.eval, m2 f, h1 B f hB, h1' B f hB, h2 B f hB, Option.bind_eq_bind, Option.bind_some, List.map_cons]

end

/-! ### Values -/

section

variable {K R : Type} [Field K] [Ring R]

/-- The builder that computes what the assertions mean. -/
def meaningBuilder (lift : K → R) (v : Meaning R) : Builder K R Unit where
  loc c s := some (v.loc c, s)
  nxt c s := some (v.nxt c, s)
  pub i s := some (v.pub i, s)
  isFirstRow := v.first
  isLastRow := v.last
  isTransition := v.trans
  const c s := (lift c, s)
  add x y s := (x + y, s)
  sub x y s := (x - y, s)
  neg x s := (-x, s)
  mul x y s := (x * y, s)

theorem meaningBuilder_hom (lift : K → R) (v : Meaning R) {width np : Nat} :
    Hom (meaningBuilder lift v) width np (AExpr.value lift v) :=
  ⟨fun _ _ => rfl, fun _ _ => rfl, fun _ _ => rfl, rfl, rfl, rfl, fun _ => rfl, fun _ _ _ _ => rfl, fun _ _ _ _ => rfl,
    fun _ _ => rfl, fun _ _ _ _ => rfl⟩

theorem meaning_filter (lift : K → R) (v : Meaning R) : ∀ (cs : List R) (x : R),
    (meaningBuilder lift v).filter cs x () = (cs.prod * x, ())
  | [], x => by simp [Builder.filter]
  | c :: cs, x => by
    simp only [Builder.filter, meaning_filter lift v cs x, List.prod_cons, mul_assoc]
    rfl

theorem residues_eq {lift : K → R} (h1 : lift 1 = 1) (v : Meaning R) : ∀ (calls : List (ACall K)) (vals : List R),
    residues lift v calls vals = ((meaningBuilder lift v).eval calls vals ()).map Prod.fst
  | [], _ => rfl
  | .value s :: rest, vals => by
    have : s.value lift v vals = ((meaningBuilder lift v).step vals s ()).map Prod.fst := by
      cases s with
      | add i j =>
        cases h : vals[i]? <;> cases h' : vals[j]? <;> simp [AStep.value, Builder.step, h, h', meaningBuilder]
      | sub i j =>
        cases h : vals[i]? <;> cases h' : vals[j]? <;> simp [AStep.value, Builder.step, h, h', meaningBuilder]
      | mul i j =>
        cases h : vals[i]? <;> cases h' : vals[j]? <;> simp [AStep.value, Builder.step, h, h', meaningBuilder]
      | neg i => cases h : vals[i]? <;> simp [AStep.value, Builder.step, h, meaningBuilder]
      | _ => rfl
    rw [residues, Builder.eval, this]
    cases (meaningBuilder lift v).step vals s () with
    | none => rfl
    | some q => exact residues_eq h1 v rest _
  | .check conds c :: rest, vals => by
    have : c.residue vals = ((meaningBuilder lift v).check vals c ()).map Prod.fst := by
      cases c with
      | eq i j =>
        cases h : vals[i]? <;> cases h' : vals[j]? <;> simp [ACheck.residue, Builder.check, h, h', meaningBuilder]
      | zero i => cases h : vals[i]? <;> simp [ACheck.residue, Builder.check, h]
      | one i => cases h : vals[i]? <;> simp [ACheck.residue, Builder.check, h, meaningBuilder, h1]
      | bool i => cases h : vals[i]? <;> simp [ACheck.residue, Builder.check, h, meaningBuilder, h1]
    rw [residues, Builder.eval, this]
    cases conds.mapM fun i => vals[i]? with
    | none => rfl
    | some cs =>
      cases (meaningBuilder lift v).check vals c () with
      | none => rfl
      | some q =>
        rcases q with ⟨q, ⟨⟩⟩
        simp only [Option.bind_eq_bind, Option.bind_some, Option.map_some, meaning_filter, residues_eq h1 v rest]
        cases (meaningBuilder lift v).eval rest vals () <;> rfl

theorem valueBuilder_hom (lift : K → R) (w : Window R) :
    w.loc.length = w.nxt.length →
    Hom (valueBuilder lift w) w.loc.length w.pub.length (AExpr.value lift w.meaning) := by
  intro h
  refine ⟨fun c hc => ?_, fun c hc => ?_, fun c hc => ?_, rfl, rfl, rfl, fun _ => rfl, fun _ _ _ _ => rfl,
    fun _ _ _ _ => rfl, fun _ _ => rfl, fun _ _ _ _ => rfl⟩
  · simp [valueBuilder, AExpr.value, Window.meaning, List.getElem?_eq_getElem hc]
  · simp [valueBuilder, AExpr.value, Window.meaning, List.getElem?_eq_getElem (h ▸ hc)]
  · simp [valueBuilder, AExpr.value, Window.meaning, List.getElem?_eq_getElem hc]

end

section

variable {K : Type} [Field K] [DecidableEq K]

/-- The symbolic expression of a tree in range. -/
def symOf (width np : Nat) (x : AExpr K) : SymExpr K := (x.symbolic width np).getD .isFirstRow

theorem symbolic_some {width np : Nat} {x : AExpr K} (h : x.InRange width np) : x.symbolic width np = some (symOf width np x) := by
  classical
  have := symbolic_spec width np x
  rw [if_pos h] at this
  obtain ⟨s, hs, -⟩ := this
  rw [symOf, hs]
  rfl

theorem symBuilder_hom (width np : Nat) : Hom (symBuilder (K := K) width np) width np (symOf width np) := by
  refine ⟨fun c hc => ?_, fun c hc => ?_, fun c hc => ?_, rfl, rfl, rfl, fun _ => rfl, fun x y hx hy => ?_,
    fun x y hx hy => ?_, fun x hx => ?_, fun x y hx hy => ?_⟩
  · simp [symBuilder, symOf, AExpr.symbolic, hc]
  · simp [symBuilder, symOf, AExpr.symbolic, hc]
  · simp [symBuilder, symOf, AExpr.symbolic, hc]
  · have : symOf width np (.add x y) = .mkAdd (symOf width np x) (symOf width np y) := by
      conv_lhs => rw [symOf, AExpr.symbolic, symbolic_some hx, symbolic_some hy]
      rfl
    rw [this]
    rfl
  · have : symOf width np (.sub x y) = .mkSub (symOf width np x) (symOf width np y) := by
      conv_lhs => rw [symOf, AExpr.symbolic, symbolic_some hx, symbolic_some hy]
      rfl
    rw [this]
    rfl
  · have : symOf width np (.neg x) = .mkNeg (symOf width np x) := by
      conv_lhs => rw [symOf, AExpr.symbolic, symbolic_some hx]
      rfl
    rw [this]
    rfl
  · have : symOf width np (.mul x y) = .mkMul (symOf width np x) (symOf width np y) := by
      conv_lhs => rw [symOf, AExpr.symbolic, symbolic_some hx, symbolic_some hy]
      rfl
    rw [this]
    rfl

end

/-! ### Expressions -/

section

variable {K : Variable → Kind} {env : Variable → Val} {m : InputManager} {n : Nat} {H P : Expr → Prop} {sels : SelectorsExpr}
  {width np : Nat} {v : Meaning BB4}

theorem forall₂_slot {α β : Type} {r : α → β → Prop} {l : List α} {k : List β} (h : List.Forall₂ r l k) {i : Nat}
    (hi : i < l.length) : ∃ a b, l[i]? = some a ∧ k[i]? = some b ∧ r a b :=
  ⟨l[i], k[i]'(h.length_eq ▸ hi), List.getElem?_eq_getElem hi, List.getElem?_eq_getElem _,
    (List.forall₂_iff_get.mp h).2 i hi (h.length_eq ▸ hi)⟩

theorem forall₂_slots {α β : Type} {r : α → β → Prop} {l : List α} {k : List β} (h : List.Forall₂ r l k) : ∀ {is : List Nat},
    (∀ i ∈ is, i < l.length) → ∃ as bs, (is.mapM fun i => l[i]?) = some as ∧ (is.mapM fun i => k[i]?) = some bs ∧
      List.Forall₂ r as bs
  | [], _ => ⟨[], [], rfl, rfl, .nil⟩
  | i :: is, hi => by
    obtain ⟨a, b, h1, h2, h3⟩ := forall₂_slot h (hi i (List.mem_cons_self ..))
    obtain ⟨as, bs, h4, h5, h6⟩ := forall₂_slots h (is := is) fun j hj => hi j (List.mem_cons_of_mem _ hj)
    exact ⟨a :: as, b :: bs, by rw [List.mapM_cons, h1, h4]; rfl, by rw [List.mapM_cons, h2, h5]; rfl, .cons h3 h6⟩

theorem step_makes (ha : m.Agrees K env) (h : Built K H m n P) (hd : TraceDen K H env P m sels width np v) {es : List Expr}
    {vs : List BB4} (hes : List.Forall₂ (Den bb4Field K H env P) es vs) (s : AStep BB) (hs : s.InRange width np es.length) :
    ∃ e n' x, (scriptBuilder width np sels).step es s n = some (e, n') ∧ s.value (algebraMap BB BB4) v vs = some x ∧
      Makes bb4Field K H env P m n' e x := by
  cases s with
  | loc c =>
    have hs : c < width := hs
    refine ⟨_, _, _, if_pos hs, rfl, makes_copy bb4Field_ok h ha (hd.loc c hs) (by simp [mainVar])⟩
  | nxt c =>
    have hs : c < width := hs
    refine ⟨_, _, _, if_pos hs, rfl, makes_copy bb4Field_ok h ha (hd.nxt c hs) (by simp [mainVar])⟩
  | pub i =>
    have hs : i < np := hs
    refine ⟨_, _, _, if_pos hs, rfl, makes_copy bb4Field_ok h ha (hd.pub i hs) (by simp [pubVar])⟩
  | isFirstRow => exact ⟨_, _, _, rfl, rfl, _, h, fun _ h => h, hd.first⟩
  | isLastRow => exact ⟨_, _, _, rfl, rfl, _, h, fun _ h => h, hd.last⟩
  | isTransition => exact ⟨_, _, _, rfl, rfl, _, h, fun _ h => h, hd.trans⟩
  | const c => exact ⟨_, _, _, rfl, rfl, makes_const bb4Field_ok h _⟩
  | add i j =>
    obtain ⟨a, x, a1, x1, d1⟩ := forall₂_slot hes hs.1
    obtain ⟨b, y, b1, y1, d2⟩ := forall₂_slot hes hs.2
    exact ⟨_, _, _, by rw [Builder.step, a1, b1]; rfl, by rw [AStep.value, x1, y1]; rfl, makes_add bb4Field_ok h d1 d2⟩
  | sub i j =>
    obtain ⟨a, x, a1, x1, d1⟩ := forall₂_slot hes hs.1
    obtain ⟨b, y, b1, y1, d2⟩ := forall₂_slot hes hs.2
    exact ⟨_, _, _, by rw [Builder.step, a1, b1]; rfl, by rw [AStep.value, x1, y1]; rfl, makes_sub bb4Field_ok h d1 d2⟩
  | neg i =>
    obtain ⟨a, x, a1, x1, d1⟩ := forall₂_slot hes hs
    exact ⟨_, _, _, by rw [Builder.step, a1]; rfl, by rw [AStep.value, x1]; rfl, makes_neg bb4Field_ok h d1⟩
  | mul i j =>
    obtain ⟨a, x, a1, x1, d1⟩ := forall₂_slot hes hs.1
    obtain ⟨b, y, b1, y1, d2⟩ := forall₂_slot hes hs.2
    exact ⟨_, _, _, by rw [Builder.step, a1, b1]; rfl, by rw [AStep.value, x1, y1]; rfl, makes_mul bb4Field_ok h d1 d2⟩

theorem check_makes (h : Built K H m n P) {es : List Expr} {vs : List BB4}
    (hes : List.Forall₂ (Den bb4Field K H env P) es vs) (c : ACheck) (hc : c.InRange es.length) :
    ∃ e n' x, (scriptBuilder width np sels).check es c n = some (e, n') ∧ c.residue vs = some x ∧
      Makes bb4Field K H env P m n' e x := by
  cases c with
  | zero i =>
    obtain ⟨a, x, a1, x1, d1⟩ := forall₂_slot hes hc
    exact ⟨_, _, _, by rw [Builder.check, a1]; rfl, x1, P, h, fun _ h => h, d1⟩
  | one i =>
    obtain ⟨a, x, a1, x1, d1⟩ := forall₂_slot hes hc
    obtain ⟨P1, b1, s1, d2⟩ := makes_const (env := env) bb4Field_ok h (algebraMap BB BB4 1)
    obtain ⟨P2, b2, s2, d3⟩ := makes_sub bb4Field_ok b1 (d1.mono s1) d2
    rw [show x - algebraMap BB BB4 1 = x - 1 by rw [map_one]] at d3
    exact ⟨_, _, _, by rw [Builder.check, a1]; rfl, by rw [ACheck.residue, x1]; rfl, P2, b2, fun s hs => s2 s (s1 s hs), d3⟩
  | eq i j =>
    obtain ⟨a, x, a1, x1, d1⟩ := forall₂_slot hes hc.1
    obtain ⟨b, y, b1, y1, d2⟩ := forall₂_slot hes hc.2
    exact ⟨_, _, _, by rw [Builder.check, a1, b1]; rfl, by rw [ACheck.residue, x1, y1]; rfl, makes_sub bb4Field_ok h d1 d2⟩
  | bool i =>
    obtain ⟨a, x, a1, x1, d1⟩ := forall₂_slot hes hc
    obtain ⟨P1, b1, s1, d2⟩ := makes_const (env := env) bb4Field_ok h (algebraMap BB BB4 1)
    obtain ⟨P2, b2, s2, d3⟩ := makes_sub bb4Field_ok b1 (d1.mono s1) d2
    obtain ⟨P3, b3, s3, d4⟩ := makes_mul bb4Field_ok b2 ((d1.mono s1).mono s2) d3
    rw [show x * (x - algebraMap BB BB4 1) = x * (x - 1) by rw [map_one]] at d4
    exact ⟨_, _, _, by rw [Builder.check, a1]; rfl, by rw [ACheck.residue, x1]; rfl, P3, b3,
      fun s hs => s3 s (s2 s (s1 s hs)), d4⟩

theorem filter_makes : ∀ {cs : List Expr} {ys : List BB4} {n : Nat} {P : Expr → Prop} {e : Expr} {x : BB4}, Built K H m n P →
    List.Forall₂ (Den bb4Field K H env P) cs ys → Den bb4Field K H env P e x →
    Makes bb4Field K H env P m ((scriptBuilder width np sels).filter cs e n).2 ((scriptBuilder width np sels).filter cs e n).1
      (ys.prod * x)
  | [], _, n, P, e, x, h, .nil, hd => by
    rw [List.prod_nil, one_mul]
    exact ⟨P, h, fun _ h => h, hd⟩
  | c :: cs, _, n, P, e, x, h, .cons (b := y) (l₂ := ys) hc hcs, hd => by
    obtain ⟨P1, b1, s1, d1⟩ := filter_makes h hcs hd
    obtain ⟨P2, b2, s2, d2⟩ := makes_mul bb4Field_ok b1 (hc.mono s1) d1
    rw [List.prod_cons, mul_assoc]
    exact ⟨P2, b2, fun s hs => s2 s (s1 s hs), d2⟩

theorem eval_makes (ha : m.Agrees K env) : ∀ {calls : List (ACall BB)} {es : List Expr} {vs : List BB4} {n : Nat}
    {P : Expr → Prop}, Built K H m n P → TraceDen K H env P m sels width np v →
    List.Forall₂ (Den bb4Field K H env P) es vs → CallsInRange width np calls es.length →
    ∃ cs n' rs, (scriptBuilder width np sels).eval calls es n = some (cs, n') ∧
      residues (algebraMap BB BB4) v calls vs = some rs ∧
      ∃ P', Built K H m n' P' ∧ (∀ s, P s → P' s) ∧ List.Forall₂ (Den bb4Field K H env P') cs rs
  | [], _, _, n, P, h, _, _, _ => ⟨[], n, [], rfl, rfl, P, h, fun _ h => h, .nil⟩
  | .value s :: rest, es, vs, n, P, h, hd, hes, hc => by
    obtain ⟨e, n1, x, e1, x1, P1, b1, s1, d1⟩ := step_makes ha h hd hes s hc.1
    obtain ⟨cs, n2, rs, e2, x2, P2, b2, s2, d2⟩ := eval_makes ha (calls := rest) (es := es ++ [e]) (vs := vs ++ [x]) b1
      (hd.mono s1) (List.rel_append (hes.imp fun _ _ h => h.mono s1) (.cons d1 .nil))
      (by rw [List.length_append]; exact hc.2)
    exact ⟨cs, n2, rs, by rw [Builder.eval, e1]; exact e2, by rw [residues, x1]; exact x2, P2, b2,
      fun s hs => s2 s (s1 s hs), d2⟩
  | .check conds c :: rest, es, vs, n, P, h, hd, hes, hc => by
    obtain ⟨hc1, hc2, hc3⟩ := hc
    obtain ⟨as, bs, a1, a2, a3⟩ := forall₂_slots hes hc1
    obtain ⟨e, n1, x, e1, x1, P1, b1, s1, d1⟩ := check_makes (sels := sels) (width := width) (np := np) h hes c hc2
    obtain ⟨P2, b2, s2, d2⟩ := filter_makes (sels := sels) (width := width) (np := np) b1
      (a3.imp fun _ _ h => h.mono s1) d1
    obtain ⟨cs, n3, rs, e3, x3, P3, b3, s3, d3⟩ := eval_makes ha (calls := rest) b2 ((hd.mono s1).mono s2)
      (hes.imp fun _ _ h => (h.mono s1).mono s2) hc3
    refine ⟨_ :: cs, n3, bs.prod * x :: rs, ?_, ?_, P3, b3, fun s hs => s3 s (s2 s (s1 s hs)), .cons (d2.mono s3) d3⟩
    · rw [Builder.eval, a1, e1]
      simp only [Option.bind_eq_bind, Option.bind_some, e3]
    · rw [residues, a2, x1, x3]
      rfl

end

/-! ### Room -/

section

variable {n0 n width np : Nat} {sels : SelectorsExpr}

theorem tidy_step {es : List Expr} (hn : n0 ≤ n) (hs : TidySels n0 n sels) (he : ∀ e ∈ es, Tidy n0 n e) (s : AStep BB)
    {e : Expr} {n' : Nat} (h : (scriptBuilder width np sels).step es s n = some (e, n')) :
    n' = n + (ACall.value s).nodes ∧ Tidy n0 n' e := by
  cases s with
  | loc c =>
    simp only [Builder.step, scriptBuilder] at h
    split at h
    · cases h; exact ⟨rfl, Tidy.mk rfl (by simp) hn (by simp)⟩
    · cases h
  | nxt c =>
    simp only [Builder.step, scriptBuilder] at h
    split at h
    · cases h; exact ⟨rfl, Tidy.mk rfl (by simp) hn (by simp)⟩
    · cases h
  | pub c =>
    simp only [Builder.step, scriptBuilder] at h
    split at h
    · cases h; exact ⟨rfl, Tidy.mk rfl (by simp) hn (by simp)⟩
    · cases h
  | isFirstRow => cases h; exact ⟨rfl, hs.first⟩
  | isLastRow => cases h; exact ⟨rfl, hs.last⟩
  | isTransition => cases h; exact ⟨rfl, hs.trans⟩
  | const c => cases h; exact ⟨rfl, Prog.tidy_const _ hn⟩
  | neg i =>
    simp only [Builder.step, Option.bind_eq_bind, Option.bind_eq_some_iff] at h
    obtain ⟨a, ha, h⟩ := h
    cases h
    exact ⟨rfl, Tidy.mk rfl (by simp) hn (by simpa using he a (List.mem_of_getElem? ha))⟩
  | add i j =>
    simp only [Builder.step, Option.bind_eq_bind, Option.bind_eq_some_iff] at h
    obtain ⟨a, ha, b, hb, h⟩ := h
    cases h
    exact ⟨rfl, tidy_two rfl hn (Nat.le_refl _) (he a (List.mem_of_getElem? ha)) (he b (List.mem_of_getElem? hb))⟩
  | sub i j =>
    simp only [Builder.step, Option.bind_eq_bind, Option.bind_eq_some_iff] at h
    obtain ⟨a, ha, b, hb, h⟩ := h
    cases h
    exact ⟨rfl, tidy_two rfl hn (Nat.le_refl _) (he a (List.mem_of_getElem? ha)) (he b (List.mem_of_getElem? hb))⟩
  | mul i j =>
    simp only [Builder.step, Option.bind_eq_bind, Option.bind_eq_some_iff] at h
    obtain ⟨a, ha, b, hb, h⟩ := h
    cases h
    exact ⟨rfl, tidy_two rfl hn (Nat.le_refl _) (he a (List.mem_of_getElem? ha)) (he b (List.mem_of_getElem? hb))⟩

theorem tidy_filter : ∀ {cs : List Expr} {n : Nat} {e : Expr}, n0 ≤ n → (∀ e ∈ cs, Tidy n0 n e) → Tidy n0 n e →
    ((scriptBuilder width np sels).filter cs e n).2 = n + cs.length ∧
      Tidy n0 (n + cs.length) ((scriptBuilder width np sels).filter cs e n).1
  | [], n, e, _, _, h => ⟨rfl, h⟩
  | c :: cs, n, e, hn, hc, h => by
    obtain ⟨h1, h2⟩ := tidy_filter hn (fun e he => hc e (List.mem_cons_of_mem _ he)) h
    have hf : (scriptBuilder width np sels).filter (c :: cs) e n =
        Dsl.mul c ((scriptBuilder width np sels).filter cs e n).1 ((scriptBuilder width np sels).filter cs e n).2 := rfl
    rw [hf, h1]
    exact ⟨rfl, tidy_two (n2 := n + cs.length) rfl (by omega) (by omega) (hc c (List.mem_cons_self ..)) h2⟩

theorem tidy_check {es : List Expr} (hn : n0 ≤ n) (he : ∀ e ∈ es, Tidy n0 n e) (c : ACheck) {e : Expr} {n' : Nat}
    (h : (scriptBuilder width np sels).check es c n = some (e, n')) :
    n' = n + (ACall.check (K := BB) [] c).nodes ∧ Tidy n0 n' e := by
  cases c with
  | zero i =>
    simp only [Builder.check, Option.bind_eq_bind, Option.bind_eq_some_iff] at h
    obtain ⟨a, ha, h⟩ := h
    cases h
    exact ⟨rfl, he _ (List.mem_of_getElem? ha)⟩
  | one i =>
    simp only [Builder.check, Option.bind_eq_bind, Option.bind_eq_some_iff] at h
    obtain ⟨a, ha, h⟩ := h
    cases h
    exact ⟨rfl, tidy_two (n2 := n + 1) rfl (by omega) (by omega) (he a (List.mem_of_getElem? ha)) (Prog.tidy_const _ hn)⟩
  | eq i j =>
    simp only [Builder.check, Option.bind_eq_bind, Option.bind_eq_some_iff] at h
    obtain ⟨a, ha, b, hb, h⟩ := h
    cases h
    exact ⟨rfl, tidy_two rfl hn (Nat.le_refl _) (he a (List.mem_of_getElem? ha)) (he b (List.mem_of_getElem? hb))⟩
  | bool i =>
    simp only [Builder.check, Option.bind_eq_bind, Option.bind_eq_some_iff] at h
    obtain ⟨a, ha, h⟩ := h
    cases h
    have ta := he a (List.mem_of_getElem? ha)
    exact ⟨rfl, tidy_two (n2 := n + 2) rfl (by omega) (by omega) ta
      (tidy_two (n2 := n + 1) rfl (by omega) (by omega) ta (Prog.tidy_const _ hn))⟩

theorem check_nodes (conds : List Nat) (c : ACheck) :
    (ACall.check (K := BB) conds c).nodes = (ACall.check (K := BB) [] c).nodes + conds.length := by
  cases c <;> simp [ACall.nodes] <;> omega

theorem tidy_eval : ∀ {calls : List (ACall BB)} {es : List Expr} {n n' : Nat} {cs : List Expr}, n0 ≤ n → TidySels n0 n sels →
    (∀ e ∈ es, Tidy n0 n e) → (scriptBuilder width np sels).eval calls es n = some (cs, n') →
    n' = n + (calls.map ACall.nodes).sum ∧ ∀ c ∈ cs, Tidy n0 n' c
  | [], es, n, n', cs, _, _, _, h => by cases h; exact ⟨rfl, by simp⟩
  | .value s :: rest, es, n, n', cs, hn, hs, he, h => by
    simp only [Builder.eval, Option.bind_eq_bind, Option.bind_eq_some_iff] at h
    obtain ⟨⟨e, n1⟩, h1, h⟩ := h
    obtain ⟨rfl, t1⟩ := tidy_step hn hs he s h1
    obtain ⟨rfl, t2⟩ := tidy_eval (calls := rest) (by omega) (hs.mono (by omega)) (by
      intro x hx
      rcases List.mem_append.mp hx with hx | hx
      · exact (he x hx).mono (by omega)
      · rw [List.mem_singleton] at hx; exact hx ▸ t1) h
    exact ⟨by simp; omega, t2⟩
  | .check conds c :: rest, es, n, n', cs, hn, hs, he, h => by
    simp only [Builder.eval, Option.bind_eq_bind, Option.bind_eq_some_iff] at h
    obtain ⟨as, h0, ⟨e, n1⟩, h1, ⟨xs, n2⟩, h2, h⟩ := h
    cases h
    obtain ⟨rfl, t1⟩ := tidy_check hn he c h1
    have hlen : as.length = conds.length ∧ ∀ a ∈ as, a ∈ es := by
      clear h2 t1 h1
      induction conds generalizing as with
      | nil => cases h0; simp
      | cons i is ih =>
        rw [List.mapM_cons] at h0
        simp only [Option.bind_eq_bind, Option.bind_eq_some_iff] at h0
        obtain ⟨a, ha, bs, hb, h0⟩ := h0
        cases h0
        obtain ⟨i1, i2⟩ := ih _ hb
        refine ⟨by simp [i1], ?_⟩
        intro x hx
        rcases List.mem_cons.mp hx with rfl | hx
        · exact List.mem_of_getElem? ha
        · exact i2 x hx
    obtain ⟨f1, f2⟩ := tidy_filter (sels := sels) (width := width) (np := np) (cs := as) (n0 := n0) (by omega)
      (fun a ha => (he a (hlen.2 a ha)).mono (by omega)) t1
    rw [f1] at h2
    obtain ⟨rfl, t2⟩ := tidy_eval (calls := rest) (by omega) (hs.mono (by omega)) (fun x hx => (he x hx).mono (by omega)) h2
    refine ⟨?_, ?_⟩
    · have := check_nodes conds c
      rw [List.map_cons, List.sum_cons, hlen.1]
      omega
    · intro x hx
      rcases List.mem_cons.mp hx with rfl | hx
      · exact f2.mono (by omega)
      · exact t2 x hx

end

end TapStark.Stark
