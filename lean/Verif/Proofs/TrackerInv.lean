import Verif.Proofs.Tracker

/- The invariant of the stack tracker and its preservation by each operation. -/

set_option linter.unusedSectionVars false
set_option linter.unusedSimpArgs false

namespace TapStark

variable {cfg : Cfg} {start : St} {m0 a0 : List Elem} {T : TrackerLib}

/-- Total size of variables. -/
def totalSize (vs : List SVar) : Nat := (vs.map SVar.size).sum

theorem stackOf_append (σ : Nat → List Elem) (l k : List SVar) : stackOf σ (l ++ k) = stackOf σ l ++ stackOf σ k := by
  simp [stackOf]

theorem altOf_append (σ : Nat → List Elem) (l k : List SVar) : altOf σ (l ++ k) = altOf σ l ++ altOf σ k := by
  simp [altOf]

theorem stackOf_cons (σ : Nat → List Elem) (v : SVar) (k : List SVar) : stackOf σ (v :: k) = σ v.id ++ stackOf σ k := rfl

theorem altOf_cons (σ : Nat → List Elem) (v : SVar) (k : List SVar) :
    altOf σ (v :: k) = (σ v.id).reverse ++ altOf σ k := rfl

theorem stackOf_map (σ : Nat → List Elem) (l : List SVar) : stackOf σ l = (l.map fun v => σ v.id).flatten := by
  simp [stackOf, List.flatMap]

theorem length_stackOf {σ : Nat → List Elem} : ∀ {l : List SVar}, (∀ v ∈ l, (σ v.id).length = v.size) →
    (stackOf σ l).length = totalSize l
  | [], _ => rfl
  | v :: l, h => by
    have h1 := h v (List.mem_cons_self ..)
    have h2 := length_stackOf (l := l) fun w hw => h w (List.mem_cons_of_mem _ hw)
    simp only [stackOf_cons, List.length_append, h1, h2, totalSize, List.map_cons, List.sum_cons]

theorem length_altOf {σ : Nat → List Elem} : ∀ {l : List SVar}, (∀ v ∈ l, (σ v.id).length = v.size) →
    (altOf σ l).length = totalSize l
  | [], _ => rfl
  | v :: l, h => by
    have h1 := h v (List.mem_cons_self ..)
    have h2 := length_altOf (l := l) fun w hw => h w (List.mem_cons_of_mem _ hw)
    simp only [altOf_cons, List.length_append, List.length_reverse, h1, h2, totalSize, List.map_cons, List.sum_cons]

theorem stackOf_congr {σ τ : Nat → List Elem} {l : List SVar} (h : ∀ v ∈ l, σ v.id = τ v.id) :
    stackOf σ l = stackOf τ l := by
  unfold stackOf
  exact List.flatMap_congr h

theorem altOf_congr {σ τ : Nat → List Elem} {l : List SVar} (h : ∀ v ∈ l, σ v.id = τ v.id) :
    altOf σ l = altOf τ l := by
  unfold altOf
  exact List.flatMap_congr fun v hv => by rw [h v hv]

/-- A variable splits the list it belongs to. -/
theorem locate_split : ∀ {vs : List SVar}, (vs.map SVar.id).Nodup → ∀ {v : SVar}, v ∈ vs → ∃ pre post,
    vs = pre ++ v :: post ∧ locate v.id vs = some (totalSize pre, v.size) ∧
    vs.filter (fun w => decide (w.id ≠ v.id)) = pre ++ post
  | [], _, v, hv => by simp at hv
  | w :: vs, hnd, v, hv => by
    rw [List.map_cons, List.nodup_cons] at hnd
    by_cases h : w = v
    · subst h
      refine ⟨[], vs, rfl, by simp [locate, totalSize], ?_⟩
      rw [List.filter_cons_of_neg (by simp)]
      apply List.filter_eq_self.mpr
      intro x hx
      have : x.id ≠ w.id := fun e => hnd.1 (e ▸ List.mem_map_of_mem hx)
      simpa using this
    · have hv' : v ∈ vs := by
        rcases List.mem_cons.mp hv with e | e
        · exact absurd e.symm h
        · exact e
      have hid : w.id ≠ v.id := fun e => hnd.1 (e ▸ List.mem_map_of_mem hv')
      obtain ⟨pre, post, e1, e2, e3⟩ := locate_split hnd.2 hv'
      refine ⟨w :: pre, post, by rw [e1]; rfl, ?_, ?_⟩
      · simp [locate, hid, e2, totalSize]
      · rw [List.filter_cons_of_pos (by simpa using hid), e3]; rfl

theorem upd_self {α : Type} (f : Nat → α) (k : Nat) (x : α) : upd f k x k = x := if_pos rfl

theorem upd_ne {α : Type} {f : Nat → α} {k : Nat} {x : α} {i : Nat} (h : i ≠ k) : upd f k x i = f i := if_neg h

theorem upd_lt {α : Type} {f : Nat → α} {k : Nat} {x : α} {i : Nat} (h : i < k) : upd f k x i = f i :=
  upd_ne (by omega)

section
variable {t : Tracker} {D : Option (Nat → List Elem)}

theorem TInv.nodupVars (h : TInv cfg start m0 a0 t D) : (t.vars.map SVar.id).Nodup := by
  have := h.nodup
  rw [List.map_append] at this
  exact this.of_append_left

theorem TInv.nodupAlt (h : TInv cfg start m0 a0 t D) : (t.alt.map SVar.id).Nodup := by
  have := h.nodup
  rw [List.map_append] at this
  exact this.of_append_right

theorem TInv.fresh (h : TInv cfg start m0 a0 t D) : t.next ∉ (t.vars ++ t.alt).map SVar.id := by
  intro hm
  obtain ⟨v, hv, e⟩ := List.mem_map.mp hm
  have := h.lt v hv
  omega

/-- Extending the script by a fragment. -/
theorem TInv.extend (h : TInv cfg start m0 a0 t D) {q : List Op} {vs alt' : List SVar}
    {f : (Nat → List Elem) → Option (Nat → List Elem)}
    (hq : ∀ σ, D = some σ → TapStark.run cfg q ⟨stackOf σ t.vars ++ m0, altOf σ t.alt ++ a0, []⟩ =
      (f σ).map fun τ => ⟨stackOf τ vs ++ m0, altOf τ alt' ++ a0, []⟩) :
    TapStark.run cfg (t.script ++ q) start =
      (D.bind f).map fun σ => ⟨stackOf σ vs ++ m0, altOf σ alt' ++ a0, []⟩ := by
  rw [run_append, h.run]
  cases D with
  | none => rfl
  | some σ => exact hq σ rfl

theorem TInv.extend_map (h : TInv cfg start m0 a0 t D) {q : List Op} {vs alt' : List SVar}
    {f : (Nat → List Elem) → (Nat → List Elem)}
    (hq : ∀ σ, D = some σ → TapStark.run cfg q ⟨stackOf σ t.vars ++ m0, altOf σ t.alt ++ a0, []⟩ =
      some ⟨stackOf (f σ) vs ++ m0, altOf (f σ) alt' ++ a0, []⟩) :
    TapStark.run cfg (t.script ++ q) start =
      (D.map f).map fun σ => ⟨stackOf σ vs ++ m0, altOf σ alt' ++ a0, []⟩ := by
  rw [h.extend (vs := vs) (alt' := alt') (f := fun σ => some (f σ)) (fun σ e => hq σ e)]
  cases D <;> rfl

/-- Contents after giving a value to the next variable. -/
theorem stackOf_next (h : TInv cfg start m0 a0 t D) (σ : Nat → List Elem) (x : List Elem) :
    stackOf (upd σ t.next x) t.vars = stackOf σ t.vars :=
  stackOf_congr fun v hv => upd_lt (h.lt v (List.mem_append_left _ hv))

theorem altOf_next (h : TInv cfg start m0 a0 t D) (σ : Nat → List Elem) (x : List Elem) :
    altOf (upd σ t.next x) t.alt = altOf σ t.alt :=
  altOf_congr fun v hv => upd_lt (h.lt v (List.mem_append_right _ hv))

/-- A new variable on top of the main stack. -/
theorem TInv.pushNew (h : TInv cfg start m0 a0 t D) {q : List Op} {s : Nat} (hs : s ≤ 4)
    {x : (Nat → List Elem) → List Elem} (hx : ∀ σ, D = some σ → (x σ).length = s)
    (hq : ∀ σ, D = some σ → TapStark.run cfg q ⟨stackOf σ t.vars ++ m0, altOf σ t.alt ++ a0, []⟩ =
      some ⟨x σ ++ (stackOf σ t.vars ++ m0), altOf σ t.alt ++ a0, []⟩) :
    TInv cfg start m0 a0 ⟨⟨t.next, s⟩ :: t.vars, t.alt, t.next + 1, t.script ++ q⟩
      (D.map fun σ => upd σ t.next (x σ)) where
  nodup := by
    rw [List.cons_append, List.map_cons, List.nodup_cons]
    exact ⟨h.fresh, h.nodup⟩
  lt := by
    intro v hv
    rcases List.mem_cons.mp hv with rfl | hv
    · exact Nat.lt_succ_self _
    · exact Nat.lt_succ_of_lt (h.lt v hv)
  small := by
    intro v hv
    rcases List.mem_cons.mp hv with rfl | hv
    · exact hs
    · exact h.small v hv
  sized := by
    intro τ e v hv
    obtain ⟨σ, e1, rfl⟩ := Option.map_eq_some_iff.mp e
    rcases List.mem_cons.mp hv with rfl | hv
    · rw [upd_self]; exact hx σ e1
    · rw [upd_lt (h.lt v hv)]; exact h.sized σ e1 v hv
  run := by
    refine h.extend_map fun σ e => ?_
    rw [hq σ e, stackOf_cons, stackOf_next h, altOf_next h, upd_self, List.append_assoc]

theorem bignumber_inv (hT : T.Ok cfg) (h : TInv cfg start m0 a0 t D) {vs : List Nat} (hs : vs.length ≤ 4) :
    TInv cfg start m0 a0 (t.bignumber T vs).2
      (D.map fun σ => upd σ t.next (vs.map fun (v : Nat) => num v)) :=
  h.pushNew hs (x := fun _ => vs.map fun (v : Nat) => num v) (fun _ _ => by simp)
    (fun σ _ => (hT.push vs hs).run _ _)

theorem copyVar_inv (hT : T.Ok cfg) (h : TInv cfg start m0 a0 t D) {v : SVar} (hv : v ∈ t.vars) : ∃ q,
    t.copyVar T v = some (⟨t.next, v.size⟩, ⟨⟨t.next, v.size⟩ :: t.vars, t.alt, t.next + 1, t.script ++ q⟩) ∧
    TInv cfg start m0 a0 ⟨⟨t.next, v.size⟩ :: t.vars, t.alt, t.next + 1, t.script ++ q⟩
      (D.map fun σ => upd σ t.next (σ v.id)) := by
  obtain ⟨pre, post, e1, e2, e3⟩ := locate_split h.nodupVars hv
  have hmem : v ∈ t.vars ++ t.alt := List.mem_append_left _ hv
  refine ⟨T.copy (totalSize pre) v.size, by simp [Tracker.copyVar, e2], ?_⟩
  refine h.pushNew (h.small v hmem) (fun σ e => h.sized σ e v hmem) fun σ e => ?_
  have hs := h.sized σ e v hmem
  have hp : (stackOf σ pre).length = totalSize pre := length_stackOf fun w hw =>
    h.sized σ e w (List.mem_append_left _ (by rw [e1]; exact List.mem_append_left _ hw))
  have := (hT.copy (stackOf σ pre) (σ v.id) (by rw [hs]; exact h.small v hmem)).run (stackOf σ post ++ m0)
    (altOf σ t.alt ++ a0)
  rw [hp, hs] at this
  rw [e1, stackOf_append, stackOf_cons]
  simpa [List.append_assoc] using this

theorem moveVar_inv (hT : T.Ok cfg) (h : TInv cfg start m0 a0 t D) {v : SVar} (hv : v ∈ t.vars) : ∃ q,
    t.moveVar T v = some (v, ⟨v :: t.vars.filter (fun w => decide (w.id ≠ v.id)), t.alt, t.next, t.script ++ q⟩) ∧
    TInv cfg start m0 a0 ⟨v :: t.vars.filter (fun w => decide (w.id ≠ v.id)), t.alt, t.next, t.script ++ q⟩ D := by
  obtain ⟨pre, post, e1, e2, e3⟩ := locate_split h.nodupVars hv
  have hmem : v ∈ t.vars ++ t.alt := List.mem_append_left _ hv
  have hperm : (v :: (pre ++ post)).Perm t.vars := by rw [e1]; exact List.perm_middle.symm
  have hperm' : (v :: (pre ++ post) ++ t.alt).Perm (t.vars ++ t.alt) := hperm.append_right _
  refine ⟨T.move (totalSize pre) v.size, by simp [Tracker.moveVar, e2], ?_⟩
  rw [e3]
  refine ⟨(hperm'.map _).nodup_iff.mpr h.nodup, fun w hw => h.lt w (hperm'.mem_iff.mp hw),
    fun w hw => h.small w (hperm'.mem_iff.mp hw), fun σ e w hw => h.sized σ e w (hperm'.mem_iff.mp hw), ?_⟩
  have := h.extend_map (vs := v :: (pre ++ post)) (alt' := t.alt) (q := T.move (totalSize pre) v.size)
    (f := fun σ => σ) ?_
  · rw [Option.map_id'] at this; exact this
  intro σ e
  have hs := h.sized σ e v hmem
  have hp : (stackOf σ pre).length = totalSize pre := length_stackOf fun w hw =>
    h.sized σ e w (List.mem_append_left _ (by rw [e1]; exact List.mem_append_left _ hw))
  have := (hT.move (stackOf σ pre) (σ v.id) (by rw [hs]; exact h.small v hmem)).run (stackOf σ post ++ m0)
    (altOf σ t.alt ++ a0)
  rw [hp, hs] at this
  rw [e1, stackOf_append, stackOf_cons, stackOf_cons, stackOf_append]
  simpa [List.append_assoc] using this

theorem toAltstack_inv (hT : T.Ok cfg) {v : SVar} {vs alt : List SVar} {next : Nat} {p : List Op}
    (h : TInv cfg start m0 a0 ⟨v :: vs, alt, next, p⟩ D) : ∃ q,
    (Tracker.mk (v :: vs) alt next p).toAltstack T = some (v, ⟨vs, v :: alt, next, p ++ q⟩) ∧
    TInv cfg start m0 a0 ⟨vs, v :: alt, next, p ++ q⟩ D := by
  have hmem : v ∈ v :: vs ++ alt := List.mem_cons_self ..
  have hperm' : (vs ++ v :: alt).Perm (v :: vs ++ alt) := List.perm_middle
  refine ⟨T.toAlt v.size, rfl, (hperm'.map _).nodup_iff.mpr h.nodup, fun w hw => h.lt w (hperm'.mem_iff.mp hw),
    fun w hw => h.small w (hperm'.mem_iff.mp hw), fun σ e w hw => h.sized σ e w (hperm'.mem_iff.mp hw), ?_⟩
  have := h.extend_map (vs := vs) (alt' := v :: alt) (q := T.toAlt v.size) (f := fun σ => σ) ?_
  · rw [Option.map_id'] at this; exact this
  intro σ e
  have hs := h.sized σ e v hmem
  have := hT.toAlt (σ v.id) (stackOf σ vs ++ m0) (altOf σ alt ++ a0) [] [] (by rw [hs]; exact h.small v hmem) rfl
  rw [hs, List.append_nil] at this
  simp only [stackOf_cons, altOf_cons, List.append_assoc]
  exact this

theorem copyVarFromAlt_inv (hT : T.Ok cfg) (h : TInv cfg start m0 a0 t D) {v : SVar} (hv : v ∈ t.alt) : ∃ q,
    t.copyVarFromAlt T v = some (⟨t.next, v.size⟩, ⟨⟨t.next, v.size⟩ :: t.vars, t.alt, t.next + 1, t.script ++ q⟩) ∧
    TInv cfg start m0 a0 ⟨⟨t.next, v.size⟩ :: t.vars, t.alt, t.next + 1, t.script ++ q⟩
      (D.map fun σ => upd σ t.next (σ v.id)) := by
  obtain ⟨pre, post, e1, e2, e3⟩ := locate_split h.nodupAlt hv
  have hmem : v ∈ t.vars ++ t.alt := List.mem_append_right _ hv
  refine ⟨T.copyAlt (totalSize pre) v.size, by simp [Tracker.copyVarFromAlt, e2], ?_⟩
  refine h.pushNew (h.small v hmem) (fun σ e => h.sized σ e v hmem) fun σ e => ?_
  have hs := h.sized σ e v hmem
  have hp : (altOf σ pre).length = totalSize pre := length_altOf fun w hw =>
    h.sized σ e w (List.mem_append_right _ (by rw [e1]; exact List.mem_append_left _ hw))
  have := hT.copyAlt (altOf σ pre) (σ v.id) (stackOf σ t.vars ++ m0) (altOf σ post ++ a0) [] []
    (by rw [hs]; exact h.small v hmem) rfl
  rw [hp, hs, List.append_nil] at this
  rw [e1, altOf_append, altOf_cons]
  simpa [List.append_assoc] using this

theorem moveVarFromAlt_inv (hT : T.Ok cfg) (h : TInv cfg start m0 a0 t D) {v : SVar} (hv : v ∈ t.alt) : ∃ q,
    t.moveVarFromAlt T v =
      some (v, ⟨v :: t.vars, t.alt.filter (fun w => decide (w.id ≠ v.id)), t.next, t.script ++ q⟩) ∧
    TInv cfg start m0 a0 ⟨v :: t.vars, t.alt.filter (fun w => decide (w.id ≠ v.id)), t.next, t.script ++ q⟩ D := by
  obtain ⟨pre, post, e1, e2, e3⟩ := locate_split h.nodupAlt hv
  have hmem : v ∈ t.vars ++ t.alt := List.mem_append_right _ hv
  have hperm : (v :: (pre ++ post)).Perm t.alt := by rw [e1]; exact List.perm_middle.symm
  have hperm' : (v :: t.vars ++ (pre ++ post)).Perm (t.vars ++ t.alt) :=
    (List.perm_middle (a := v) (l₁ := t.vars) (l₂ := pre ++ post)).symm.trans (hperm.append_left _)
  refine ⟨T.moveAlt (totalSize pre) v.size, by simp [Tracker.moveVarFromAlt, e2], ?_⟩
  rw [e3]
  refine ⟨(hperm'.map _).nodup_iff.mpr h.nodup, fun w hw => h.lt w (hperm'.mem_iff.mp hw),
    fun w hw => h.small w (hperm'.mem_iff.mp hw), fun σ e w hw => h.sized σ e w (hperm'.mem_iff.mp hw), ?_⟩
  have := h.extend_map (vs := v :: t.vars) (alt' := pre ++ post) (q := T.moveAlt (totalSize pre) v.size)
    (f := fun σ => σ) ?_
  · rw [Option.map_id'] at this; exact this
  intro σ e
  have hs := h.sized σ e v hmem
  have hp : (altOf σ pre).length = totalSize pre := length_altOf fun w hw =>
    h.sized σ e w (List.mem_append_right _ (by rw [e1]; exact List.mem_append_left _ hw))
  have := hT.moveAlt (altOf σ pre) (σ v.id) (stackOf σ t.vars ++ m0) (altOf σ post ++ a0) [] []
    (by rw [hs]; exact h.small v hmem) rfl
  rw [hp, hs, List.append_nil] at this
  rw [e1, altOf_append, altOf_cons, altOf_append, stackOf_cons]
  simpa [List.append_assoc] using this

/-- Contents after giving values to `newVars next s outs.length`. -/
def assign (σ : Nat → List Elem) (next : Nat) (outs : List (List Elem)) : Nat → List Elem := fun i =>
  if i < next then σ i else outs.reverse.getD (i - next) []

theorem assign_lt {σ : Nat → List Elem} {next : Nat} {outs : List (List Elem)} {i : Nat} (h : i < next) :
    assign σ next outs i = σ i := if_pos h

theorem newVars_map {σ : Nat → List Elem} {next s : Nat} : ∀ (outs : List (List Elem)),
    (Tracker.newVars next s outs.length).map (fun v => assign σ next outs v.id) = outs := by
  have aux : ∀ (n : Nat) (l : List (List Elem)), n ≤ l.length →
      (Tracker.newVars next s n).map (fun v => assign σ next l v.id) = l.drop (l.length - n) := by
    intro n
    induction n with
    | zero => intro l _; simp [Tracker.newVars]
    | succ n ih =>
      intro l hl
      rw [Tracker.newVars, List.map_cons, ih l (by omega)]
      have h1 : l.length - (n + 1) < l.length := by omega
      rw [List.drop_eq_getElem_cons h1]
      have h2 : l.length - (n + 1) + 1 = l.length - n := by omega
      rw [h2]
      congr 1
      rw [assign, if_neg (by simp), List.getD_eq_getElem?_getD, List.getElem?_reverse (by simp; omega)]
      have h3 : l.length - 1 - (next + n - next) = l.length - (n + 1) := by omega
      simp only [h3]
      rw [List.getElem?_eq_getElem h1]; rfl
  intro outs
  rw [aux _ outs (Nat.le_refl _)]
  simp

theorem mem_newVars {next s : Nat} : ∀ {n : Nat} {v : SVar}, v ∈ Tracker.newVars next s n →
    next ≤ v.id ∧ v.id < next + n ∧ v.size = s
  | 0, v, h => by simp [Tracker.newVars] at h
  | n + 1, v, h => by
    rcases List.mem_cons.mp h with rfl | h
    · exact ⟨Nat.le_add_right .., by simp, rfl⟩
    · have := mem_newVars h; exact ⟨this.1, by omega, this.2.2⟩

theorem nodup_newVars {next s : Nat} : ∀ n : Nat, ((Tracker.newVars next s n).map SVar.id).Nodup
  | 0 => by simp [Tracker.newVars]
  | n + 1 => by
    rw [Tracker.newVars, List.map_cons, List.nodup_cons]
    refine ⟨fun hm => ?_, nodup_newVars n⟩
    obtain ⟨v, hv, e⟩ := List.mem_map.mp hm
    have := mem_newVars hv
    simp only at e
    omega

theorem length_newVars {next s : Nat} : ∀ n : Nat, (Tracker.newVars next s n).length = n
  | 0 => rfl
  | n + 1 => by rw [Tracker.newVars, List.length_cons, length_newVars n]

/-- `custom` with a script that replaces the contents of the variables `ws` on top. -/
theorem custom_inv (h : TInv cfg start m0 a0 t D) {ws rest : List SVar} (hv : t.vars = ws ++ rest) {p : List Op}
    {n s : Nat} (hs : s ≤ 4) {r : List (List Elem) → Option (List (List Elem))}
    (hsize : ∀ σ, D = some σ → ∀ outs, r (ws.map fun v => σ v.id) = some outs →
      outs.length = n ∧ ∀ o ∈ outs, o.length = s)
    (hok : ∀ σ, D = some σ → ∀ outs, r (ws.map fun v => σ v.id) = some outs →
      Does cfg p (ws.map fun v => σ v.id).flatten outs.flatten)
    (hfail : ∀ σ, D = some σ → r (ws.map fun v => σ v.id) = none → Fails cfg p (ws.map fun v => σ v.id).flatten) :
    t.custom p ws.length n s = some (Tracker.newVars t.next s n,
      ⟨Tracker.newVars t.next s n ++ rest, t.alt, t.next + n, t.script ++ p⟩) ∧
    TInv cfg start m0 a0 ⟨Tracker.newVars t.next s n ++ rest, t.alt, t.next + n, t.script ++ p⟩
      (D.bind fun σ => (r (ws.map fun v => σ v.id)).map fun outs => assign σ t.next outs) := by
  have hrest : ∀ v ∈ rest ++ t.alt, v ∈ t.vars ++ t.alt := by
    intro v hm
    rw [hv, List.append_assoc]
    exact List.mem_append_right _ hm
  refine ⟨?_, ?_, ?_, ?_, ?_, ?_⟩
  · unfold Tracker.custom
    rw [hv, if_neg (by simp)]
    simp
  · rw [List.append_assoc, List.map_append, List.nodup_append]
    refine ⟨nodup_newVars n, ?_, ?_⟩
    · have := h.nodup
      rw [hv, List.append_assoc, List.map_append] at this
      exact this.of_append_right
    · intro i hi j hj e
      subst e
      obtain ⟨v, hv1, rfl⟩ := List.mem_map.mp hi
      obtain ⟨w, hw, e⟩ := List.mem_map.mp hj
      have h1 := mem_newVars hv1
      have h2 := h.lt w (hrest w hw)
      omega
  · intro v hm
    rw [List.append_assoc] at hm
    rcases List.mem_append.mp hm with hm | hm
    · exact (mem_newVars hm).2.1
    · have := h.lt v (hrest v hm); simp only; omega
  · intro v hm
    rw [List.append_assoc] at hm
    rcases List.mem_append.mp hm with hm | hm
    · rw [(mem_newVars hm).2.2]; exact hs
    · exact h.small v (hrest v hm)
  · intro τ e v hm
    obtain ⟨σ, e1, e2⟩ := Option.bind_eq_some_iff.mp e
    obtain ⟨outs, e3, rfl⟩ := Option.map_eq_some_iff.mp e2
    obtain ⟨hl, ho⟩ := hsize σ e1 outs e3
    simp only at hm
    rw [List.append_assoc] at hm
    rcases List.mem_append.mp hm with hm | hm
    · rw [(mem_newVars hm).2.2]
      have : assign σ t.next outs v.id ∈ outs := by
        have hmm := newVars_map (σ := σ) (next := t.next) (s := s) outs
        rw [← hl] at hm
        have hx := List.mem_map_of_mem (f := fun v : SVar => assign σ t.next outs v.id) hm
        rw [hmm] at hx
        exact hx
      exact ho _ this
    · rw [assign_lt (h.lt v (hrest v hm))]
      exact h.sized σ e1 v (hrest v hm)
  · refine h.extend fun σ e => ?_
    rw [hv, stackOf_append, stackOf_map σ ws, List.append_assoc]
    cases hr : r (ws.map fun v => σ v.id) with
    | none =>
      have := hfail σ e hr (stackOf σ rest ++ m0) (altOf σ t.alt ++ a0) [] [] rfl
      rw [List.append_nil] at this
      exact this
    | some outs =>
      obtain ⟨hl, _⟩ := hsize σ e outs hr
      rw [(hok σ e outs hr).run]
      simp only [Option.map_some, stackOf_append]
      have e1 : stackOf (assign σ t.next outs) (Tracker.newVars t.next s n) = outs.flatten := by
        rw [stackOf_map, ← hl, newVars_map]
      have e2 : stackOf (assign σ t.next outs) rest = stackOf σ rest :=
        stackOf_congr fun v hm => assign_lt (h.lt v (hrest v (List.mem_append_left _ hm)))
      have e3 : altOf (assign σ t.next outs) t.alt = altOf σ t.alt :=
        altOf_congr fun v hm => assign_lt (h.lt v (hrest v (List.mem_append_right _ hm)))
      rw [e1, e2, e3, List.append_assoc]

/-- `bignumber` for every entry. -/
theorem pushAll_inv (hT : T.Ok cfg) : ∀ {es : List (List Nat)} {t : Tracker} {D : Option (Nat → List Elem)},
    TInv cfg start m0 a0 t D → (∀ x ∈ es, x.length ≤ 4) → ∃ vs q n D', t.next ≤ n ∧
    t.pushAll T es = (vs, ⟨vs ++ t.vars, t.alt, n, t.script ++ q⟩) ∧ vs.length = es.length ∧
    TInv cfg start m0 a0 ⟨vs ++ t.vars, t.alt, n, t.script ++ q⟩ D' ∧ (D = none → D' = none) ∧
    ∀ σ, D = some σ → ∃ σ', D' = some σ' ∧ (∀ i < t.next, σ' i = σ i) ∧
      vs.map (fun v => σ' v.id) = es.map fun x => x.map fun (v : Nat) => num v
  | [], t, D, h, _ => by
    refine ⟨[], [], t.next, D, Nat.le_refl _, ?_, rfl, ?_, fun h => h, fun σ e => ⟨σ, e, fun _ _ => rfl, rfl⟩⟩
    · simp [Tracker.pushAll]
    · simpa using h
  | x :: es, t, D, h, hs => by
    obtain ⟨vs, q, n, D', hn, e1, e2, h', hnone, hsome⟩ := pushAll_inv hT (es := es) h
      fun y hy => hs y (List.mem_cons_of_mem _ hy)
    have hx := hs x (List.mem_cons_self ..)
    have hb := bignumber_inv hT h' hx
    refine ⟨⟨n, x.length⟩ :: vs, q ++ T.push x, n + 1,
      D'.map fun σ => upd σ n (x.map fun (v : Nat) => num v), by omega, ?_, by simp [e2], ?_, ?_, ?_⟩
    · simp [Tracker.pushAll, e1, Tracker.bignumber, List.append_assoc]
    · simp only [Tracker.bignumber, List.append_assoc] at hb
      exact hb
    · intro e; rw [hnone e]; rfl
    · intro σ e
      obtain ⟨σ', rfl, ho, hv⟩ := hsome σ e
      refine ⟨_, rfl, fun i hi => ?_, ?_⟩
      · exact (upd_lt (show i < n by omega)).trans (ho i hi)
      · rw [List.map_cons, List.map_cons, ← hv]
        refine congr (congrArg _ (upd_self ..)) ?_
        apply List.map_congr_left
        intro v hm
        exact upd_lt (h'.lt v (List.mem_append_left _ (List.mem_append_left _ hm)))

end

end TapStark
