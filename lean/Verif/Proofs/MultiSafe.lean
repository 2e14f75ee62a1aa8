import Verif.Proofs.Dsl

/-
Nodes with several results that are visited several times: when everything inside them is used once, the compiler does
not need its cache for them.
-/

namespace TapStark

variable {K : Variable → Kind} {n : Nat} {P : Expr → Prop}

theorem occ_cons (x : Nat) (e : Expr) (es : List Expr) : occ x (e :: es) = occ x es + if e.id = x then 1 else 0 := by
  simp [occ, List.count_cons]

theorem occ_eq_zero {x : Nat} {es : List Expr} (h : ∀ a ∈ es, a.id ≠ x) : occ x es = 0 := by
  rw [occ, List.count_eq_zero]
  simpa using fun a ha => h a ha

theorem occ_nodup {es : List Expr} (h : (es.map Expr.id).Nodup) (x : Nat) : occ x es ≤ 1 := by
  exact List.nodup_iff_count_le_one.mp h x

/-- Visits of `x` so far, plus one if its only user has not been visited. -/
def load (x p : Nat) (cm : Nat → Nat) : Nat := cm x + if cm p = 0 then 1 else 0

theorem simulateArgs_load_of {x p : Nat} : ∀ {es : List Expr},
    (∀ e ∈ es, ∀ cm, load x p (simulate e cm) ≤ load x p cm + if e.id = x then 1 else 0) →
    ∀ cm, load x p (simulateArgs es cm) ≤ load x p cm + occ x es := by
  intro es
  induction es with
  | nil => intro _ cm; rw [simulateArgs]; exact Nat.le_add_right _ _
  | cons e es ih =>
    intro h cm
    rw [simulateArgs, occ_cons]
    have h1 := h e (List.mem_cons_self ..) cm
    have h2 := ih (fun y hy => h y (List.mem_cons_of_mem _ hy)) (simulate e cm)
    omega

theorem simulate_load {x p : Nat} (hcl : ∀ s, P s → ∀ a ∈ s.args, P a)
    (hocc : ∀ s, P s → occ x s.args ≤ if s.id = p then 1 else 0) :
    ∀ (e : Expr), P e → ∀ cm, load x p (simulate e cm) ≤ load x p cm + if e.id = x then 1 else 0
  | .node id opc size args, hP, cm => by
    rw [simulate_node]
    have hid : (Expr.node id opc size args).id = id := rfl
    rw [hid]
    split
    · rename_i hc
      unfold load upd
      have : cm id ≠ 0 := by omega
      by_cases h1 : x = id <;> by_cases h2 : p = id
      · subst h1; subst h2; simp
      · subst h1; simp [h2]; omega
      · subst h2; simp [h1, this]
      · have h1' : ¬ id = x := fun h => h1 h.symm
        simp [h1, h2, h1']
    · rename_i hc
      have h0 : cm id = 0 := by omega
      have h1 := simulateArgs_load_of (x := x) (p := p) (es := args)
        (fun a ha => simulate_load hcl hocc a (hcl _ hP a ha)) (upd cm id (cm id + 1))
      have h2 : occ x args ≤ if id = p then 1 else 0 := hocc _ hP
      refine Nat.le_trans h1 ?_
      unfold load upd
      by_cases h1 : x = id <;> by_cases h3 : p = id
      · subst h1; subst h3; simp [h0] at h2 ⊢; omega
      · subst h1
        have h3' : ¬ x = p := fun h => h3 h.symm
        simp [h3, h3', h0] at h2 ⊢; omega
      · subst h3; simp [h1, h0] at h2 ⊢; omega
      · have h1' : ¬ id = x := fun h => h1 h.symm
        have h3' : ¬ id = p := fun h => h3 h.symm
        simp [h1, h3, h1', h3'] at h2 ⊢; omega
termination_by e => sizeOf e
decreasing_by exact sizeOf_arg (e := .node id opc size args) ha

/-- A node used by one operand of one node is visited once. -/
theorem simulate_once {x p : Nat} {e : Expr} (hcl : ∀ s, P s → ∀ a ∈ s.args, P a)
    (hocc : ∀ s, P s → occ x s.args ≤ if s.id = p then 1 else 0) (he : P e) (hx : e.id ≠ x) :
    simulate e (fun _ => 0) x ≤ 1 := by
  have := simulate_load hcl hocc e he (fun _ => 0)
  rw [if_neg hx] at this
  unfold load at this
  simp at this
  omega

/-- The node is no operand of a node of `P`. -/
def Orphan (P : Expr → Prop) (u : Expr) : Prop := ∀ t, P t → occ u.id t.args = 0

theorem MultiSafe.multiOk (h : MultiSafe P) (hg : Good K n P) {e : Expr} (he : P e) (ho : ¬ e.opc.Sponge) :
    MultiOk e := by
  intro s hs hm
  refine .inr fun u hu => ?_
  obtain ⟨h1, h2⟩ := h s (hg.sub hs he) hm u hu
  refine ⟨fun v hv => by rw [hv] at h1; exact h1, fun h3 => ?_⟩
  obtain ⟨p, hp⟩ := h2 h3
  have hne : e.id ≠ u.id := by
    intro hid
    have := hg.uniq e u he (hg.sub (Sub.trans hu hs) he) hid
    exact ho (this ▸ h1)
  have h4 := simulate_once (P := P) hg.closed hp he hne
  have h5 := simulate_pos (hg.shared he) (Sub.trans hu hs)
  omega

theorem Sub.cases' {u s : Expr} (h : Sub u s) : u = s ∨ ∃ a ∈ s.args, Sub u a := by
  cases h with
  | refl => exact .inl rfl
  | arg ha h => exact .inr ⟨_, ha, h⟩

/-- A node inside another is an operand of some node. -/
theorem Sub.parent {u s : Expr} (h : Sub u s) : u = s ∨ ∃ t, Sub t s ∧ u ∈ t.args := by
  induction h with
  | refl => exact .inl rfl
  | @arg a e ha h ih =>
    rcases ih with rfl | ⟨t, ht, hu⟩
    · exact .inr ⟨e, .refl e, ha⟩
    · exact .inr ⟨t, .arg ha ht, hu⟩

theorem one_le_occ {a : Expr} {es : List Expr} (h : a ∈ es) : 1 ≤ occ a.id es :=
  List.one_le_count_iff.mpr (List.mem_map_of_mem h)

theorem Orphan.free (hg : Good K n P) {u : Expr} (h : Orphan P u) (hu : u.opc.outNum = some 1) : Free P u := by
  intro s hs hm hsub
  rcases hsub.parent with rfl | ⟨t, ht, hu'⟩
  · exact hm hu
  · have := h t (hg.sub ht hs)
    have := one_le_occ hu'
    omega

theorem MultiSafe.free (h : MultiSafe P) {u : Expr} (hu : ¬ u.opc.Sponge) : Free P u :=
  fun s hs hm hsub => hu (h s hs hm u hsub).1

/-- Adding a node with one result. -/
theorem MultiSafe.ins (h : MultiSafe P) (hg : Good K n P) {id size : Nat} {opc : Opc} {args : List Expr}
    (hargs : ∀ a ∈ args, P a)
    (ho : opc.outNum = some 1) (hfree : ∀ a ∈ args, a.opc.outNum = some 1 → Free P a) :
    MultiSafe (ins (.node id opc size args) P) := by
  rintro s (rfl | hs) hm u hu
  · exact absurd ho hm
  · obtain ⟨h1, h2⟩ := h s hs hm u hu
    refine ⟨h1, fun h3 => ?_⟩
    obtain ⟨p, hp⟩ := h2 h3
    refine ⟨p, ?_⟩
    rintro t (rfl | ht)
    · have : occ u.id args = 0 := by
        refine occ_eq_zero fun a ha hid' => ?_
        have := hg.uniq a u (hargs a ha) (hg.sub hu hs) hid'
        subst this
        exact hfree a ha h3 s hs hm hu
      show occ u.id args ≤ _
      omega
    · exact hp t ht

/-- Adding a sponge node with several results. -/
theorem MultiSafe.insMulti (h : MultiSafe P) (hg : Good K n P) {id size : Nat} {opc : Opc} {args : List Expr}
    (hargs : ∀ a ∈ args, P a) (ho : opc.Sponge) (hm : opc.outNum ≠ some 1)
    (hc : ∀ a ∈ args, a.opc.outNum = some 1 → a.opc.Sponge ∧ Orphan P a ∧ a.args = [])
    (hn : (args.map Expr.id).Nodup) :
    MultiSafe (TapStark.ins (.node id opc size args) P) := by
  -- constants already inside a node are not operands of the new one
  have old : ∀ s u, P s → s.opc.outNum ≠ some 1 → Sub u s → u.opc.outNum = some 1 → occ u.id args = 0 := by
    intro s u hs hms hu h3
    refine occ_eq_zero fun a ha hid' => ?_
    have := hg.uniq a u (hargs a ha) (hg.sub hu hs) hid'
    subst this
    exact ((hc a ha h3).2.1.free hg h3) s hs hms hu
  rintro s (rfl | hs) hms u hu
  · rcases hu.cases' with rfl | ⟨a, ha, hu⟩
    · exact ⟨ho, fun h3 => absurd h3 hm⟩
    · by_cases h3 : a.opc.outNum = some 1
      · obtain ⟨h4, h5, h6⟩ := hc a ha h3
        rcases hu.cases' with rfl | ⟨b, hb, _⟩
        · refine ⟨h4, fun _ => ⟨id, ?_⟩⟩
          rintro t (rfl | ht)
          · rw [if_pos (show (Expr.node id opc size args).id = id from rfl)]
            exact occ_nodup hn _
          · rw [h5 t ht]; exact Nat.zero_le _
        · rw [h6] at hb; cases hb
      · obtain ⟨h4, h5⟩ := h a (hargs a ha) h3 u hu
        refine ⟨h4, fun h6 => ?_⟩
        obtain ⟨p, hp⟩ := h5 h6
        refine ⟨p, ?_⟩
        rintro t (rfl | ht)
        · rw [show (Expr.node id opc size args).args = args from rfl, old a u (hargs a ha) h3 hu h6]
          exact Nat.zero_le _
        · exact hp t ht
  · obtain ⟨h1, h2⟩ := h s hs hms u hu
    refine ⟨h1, fun h3 => ?_⟩
    obtain ⟨p, hp⟩ := h2 h3
    refine ⟨p, ?_⟩
    rintro t (rfl | ht)
    · rw [show (Expr.node id opc size args).args = args from rfl, old s u hs hms hu h3]
      exact Nat.zero_le _
    · exact hp t ht

/-- A new node is an orphan. -/
theorem orphan_new (hg : Good K n P) {id size : Nat} {opc : Opc} {args : List Expr}
    (hid : ∀ s, P s → s.id ≠ id) (hargs : ∀ a ∈ args, P a) :
    Orphan (ins (.node id opc size args) P) (.node id opc size args) := by
  rintro t (rfl | ht)
  · exact occ_eq_zero fun a ha => hid a (hargs a ha)
  · exact occ_eq_zero fun a ha => hid a (hg.closed t ht a ha)

theorem Orphan.ins (hg : Good K n P) {id size : Nat} {opc : Opc} {args : List Expr} {u : Expr} (h : Orphan P u)
    (hu : P u) (hargs : ∀ a ∈ args, P a) (hna : u ∉ args) : Orphan (ins (.node id opc size args) P) u := by
  rintro t (rfl | ht)
  · refine occ_eq_zero fun a ha hid => hna ?_
    rw [← hg.uniq a u (hargs a ha) hu hid]
    exact ha
  · exact h t ht

theorem multiSafe_single (h : ∀ s, P s → s.opc.outNum = some 1) : MultiSafe P :=
  fun s hs hm => absurd (h s hs) hm

/-- Chained checks keep the nodes safe. -/
theorem embed_multiOk {env : Variable → Val} : ∀ {hs : List Expr} {rs : List (Option Bool)} {e : Expr} {r : Option Bool}
    {n : Nat} {P : Expr → Prop}, Good K n P → MultiSafe P → P e → ¬ e.opc.Sponge → IsCheck K env e r →
    (∀ h ∈ hs, P h ∧ ¬ h.opc.Sponge) → List.Forall₂ (IsCheck K env) hs rs → MultiOk (InputManager.embed e hs n).1 := by
  intro hs
  induction hs with
  | nil =>
    intro rs e r n P hg hs he ho _ _ _
    exact hs.multiOk hg he ho
  | cons h hs ih =>
    intro rs e r n P hg hsf he ho hr hP hf
    cases hf with
    | @cons _ s _ rs h1 h2 =>
      obtain ⟨hPh, hoh⟩ := hP h (List.mem_cons_self ..)
      have hsh : h.size = 1 := hg.size h _ hPh h1.1
      have hse : e.size = 1 := hg.size e _ he hr.1
      have hargs : ∀ a ∈ [e, h], P a ∧ ¬ a.opc.Sponge := by
        intro a ha
        rcases List.mem_cons.mp ha with rfl | ha
        · exact ⟨he, ho⟩
        · rw [List.mem_singleton] at ha
          subst ha
          exact ⟨hPh, hoh⟩
      have hg' : Good K (n + 1) (TapStark.ins (Dsl.equal e h n).1 P) := by
        refine Good.ins hg (fun s hs => ?_) (Nat.le_succ n) (Nat.le_refl _) ?_ ?_ ?_ ?_ ?_ ?_
        · have := hg.le s hs; omega
        · intro a ha
          refine ⟨(hargs a ha).1, 1, ?_⟩
          rcases List.mem_cons.mp ha with rfl | ha
          · unfold Expr.varSize; simp [hse]
          · rw [List.mem_singleton] at ha
            subst ha
            unfold Expr.varSize; simp [hsh]
        · exact ⟨.nat 2, .nat 2, by rw [List.map_cons, List.map_cons, hr.1, h1.1]; rfl, .inr ⟨⟨2, rfl⟩, ⟨2, rfl⟩⟩, rfl⟩
        · intro k hk
          have : [Kind.nat 2] = [k] := hk
          cases this
          rfl
        · rintro (h | ⟨_, _, h⟩) <;> cases h
        · intro v hv; cases hv
        · intro v hv; cases hv
      refine ih hg' (hsf.ins hg (fun a ha => (hargs a ha).1) rfl fun a ha _ => hsf.free (hargs a ha).2) ins_self id
        (isCheck_equal hr h1 n) (fun x hx => ?_) h2
      obtain ⟨h3, h4⟩ := hP x (List.mem_cons_of_mem _ hx)
      exact ⟨ins_of h3, h4⟩

end TapStark
