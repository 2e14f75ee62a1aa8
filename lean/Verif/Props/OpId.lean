import Verif.Model.OpId
import Verif.Props.Express
import Verif.Props.RunDsl
import Mathlib.Data.List.Nodup

/-!
C102: nodes of expressions built by any threads have identifiers of their own.
-/

namespace TapStark.OpId

open scoped Classical in
/-- What holds between the steps: the value is the number of additions, the lock is held by the one thread inside. -/
structure Inv (checks : Bool) (s : State) : Prop where
  excl : ∀ t, (s.phase t = .holding ∨ s.phase t = .added) → s.holder = some t
  ids : s.ids = (List.range s.log.length).map fun i => (i + 1) % 2 ^ 32
  idle : (∀ t, s.phase t ≠ .added) → s.value = s.log.length % 2 ^ 32
  added : ∀ t, s.phase t = .added → s.value = (s.log.length + 1) % 2 ^ 32
  held : ∀ t, s.holder = some t → s.phase t = .holding ∨ s.phase t = .added
  few : checks = true → s.log.length + (if ∃ t, s.phase t = .added then 1 else 0) < 2 ^ 32

theorem goto_self {f : Nat → Phase} {t : Nat} {p : Phase} : goto f t p t = p := if_pos rfl

theorem goto_ne {f : Nat → Phase} {t u : Nat} {p : Phase} (h : u ≠ t) : goto f t p u = f u := if_neg h

theorem Inv.new {checks : Bool} : Inv checks .new where
  excl := by simp [State.new]
  ids := rfl
  idle := by simp [State.new]
  added := by simp [State.new]
  held := by simp [State.new]
  few := by simp [State.new]

theorem Inv.step {checks : Bool} {s s' : State} {t : Nat} (h : Inv checks s) (hs : Step checks t s s') :
    Inv checks s' := by
  -- while `t` is inside nobody else is
  have alone : (s.phase t = .holding ∨ s.phase t = .added) → ∀ u, u ≠ t → s.phase u ≠ .holding ∧ s.phase u ≠ .added := by
    intro ht u hu
    have h1 := h.excl t ht
    constructor <;> intro hc
    · exact hu (Option.some.inj ((h.excl u (.inl hc)).symm.trans h1))
    · exact hu (Option.some.inj ((h.excl u (.inr hc)).symm.trans h1))
  have out : s.holder = none → ∀ u, s.phase u ≠ .holding ∧ s.phase u ≠ .added := by
    intro hn u
    constructor <;> intro hc
    · have := h.excl u (.inl hc); rw [hn] at this; cases this
    · have := h.excl u (.inr hc); rw [hn] at this; cases this
  cases hs with
  | lock hp hf hq =>
    have ho := out hf
    have na : ∀ u, goto s.phase t .holding u ≠ .added := by
      intro u
      by_cases hu : u = t
      · subst hu; simp [goto_self]
      · rw [goto_ne hu]; exact (ho u).2
    refine ⟨?_, h.ids, fun _ => h.idle fun u => (ho u).2, fun u hu => absurd hu (na u), ?_, ?_⟩
    · intro u hu
      by_cases hut : u = t
      · rw [hut]
      · simp only [goto_ne hut] at hu
        exact absurd hu (by simp [ho u])
    · intro u hu
      cases hu
      exact .inl goto_self
    · intro hc
      have := h.few hc
      rw [if_neg (by simpa using fun u => (ho u).2)] at this
      simpa [na] using this
  | refused hp hf hq =>
    have ho := out hf
    have na : ∀ u, goto s.phase t .dead u ≠ .holding ∧ goto s.phase t .dead u ≠ .added := by
      intro u
      by_cases hu : u = t
      · subst hu; simp [goto_self]
      · rw [goto_ne hu]; exact ho u
    refine ⟨?_, h.ids, fun _ => h.idle fun u => (ho u).2, fun u hu => absurd hu (na u).2, ?_, ?_⟩
    · intro u hu
      exact absurd hu (by simp [na u])
    · intro u hu
      simp only [hf] at hu
      cases hu
    · intro hc
      have := h.few hc
      rw [if_neg (by simpa using fun u => (ho u).2)] at this
      simpa [na] using this
  | add hp hv =>
    have ha := alone (.inl hp)
    have nadd : ∀ u, s.phase u ≠ .added := by
      intro u
      by_cases hu : u = t
      · subst hu; simp [hp]
      · exact (ha u hu).2
    have hval := h.idle nadd
    refine ⟨?_, h.ids, fun hn => absurd goto_self (hn t), fun u hu => ?_, ?_, ?_⟩
    · intro u hu
      by_cases hut : u = t
      · subst hut; exact h.excl u (.inl hp)
      · simp only [goto_ne hut] at hu
        exact absurd hu (by simp [ha u hut])
    · show s.value + 1 = (s.log.length + 1) % 2 ^ 32
      omega
    · intro u hu
      have : u = t := Option.some.inj (hu.symm.trans (h.excl t (.inl hp)))
      subst this
      exact .inr goto_self
    · intro hc
      have := h.few hc
      rw [if_neg (by simpa using nadd)] at this
      rw [if_pos ⟨t, goto_self⟩]
      show s.log.length + 1 < 2 ^ 32
      omega
  | wrap hp hv hcf =>
    have ha := alone (.inl hp)
    have nadd : ∀ u, s.phase u ≠ .added := by
      intro u
      by_cases hu : u = t
      · subst hu; simp [hp]
      · exact (ha u hu).2
    have hval := h.idle nadd
    refine ⟨?_, h.ids, fun hn => absurd goto_self (hn t), fun u hu => ?_, ?_, ?_⟩
    · intro u hu
      by_cases hut : u = t
      · subst hut; exact h.excl u (.inl hp)
      · simp only [goto_ne hut] at hu
        exact absurd hu (by simp [ha u hut])
    · show 0 = (s.log.length + 1) % 2 ^ 32
      omega
    · intro u hu
      have : u = t := Option.some.inj (hu.symm.trans (h.excl t (.inl hp)))
      subst this
      exact .inr goto_self
    · intro hc
      rw [hcf] at hc
      cases hc
  | overflow hp hv hc =>
    have ha := alone (.inl hp)
    have nadd : ∀ u, s.phase u ≠ .added := by
      intro u
      by_cases hu : u = t
      · subst hu; simp [hp]
      · exact (ha u hu).2
    have na : ∀ u, goto s.phase t .dead u ≠ .holding ∧ goto s.phase t .dead u ≠ .added := by
      intro u
      by_cases hu : u = t
      · subst hu; simp [goto_self]
      · rw [goto_ne hu]; exact ha u hu
    refine ⟨?_, h.ids, fun _ => h.idle nadd, fun u hu => absurd hu (na u).2, ?_, ?_⟩
    · intro u hu
      exact absurd hu (by simp [na u])
    · intro u hu
      cases hu
    · intro hc
      have := h.few hc
      rw [if_neg (by simpa using nadd)] at this
      simpa [na] using this
  | ret hp =>
    have ha := alone (.inr hp)
    have na : ∀ u, goto s.phase t .idle u ≠ .holding ∧ goto s.phase t .idle u ≠ .added := by
      intro u
      by_cases hu : u = t
      · subst hu; simp [goto_self]
      · rw [goto_ne hu]; exact ha u hu
    have hval := h.added t hp
    have hids := h.ids
    refine ⟨?_, ?_, fun _ => ?_, fun u hu => absurd hu (na u).2, ?_, ?_⟩
    · intro u hu
      exact absurd hu (by simp [na u])
    · simp only [State.ids, List.map_append, List.map_cons, List.map_nil, List.length_append, List.length_cons,
        List.length_nil, Nat.zero_add, List.range_succ] at hids ⊢
      rw [hids, hval]
    · simpa using hval
    · intro u hu
      cases hu
    · intro hc
      have := h.few hc
      rw [if_pos ⟨t, hp⟩] at this
      simpa [na] using this

theorem inv {checks : Bool} {s : State} (h : Reachable checks s) : Inv checks s := by
  induction h with
  | refl => exact .new
  | tail _ hs ih => obtain ⟨t, ht⟩ := hs; exact ih.step ht

/-- C102: whatever the threads and their schedule, the identifiers handed out are 1, 2, 3, ... in the order of the returns,
counted modulo `2^32`. -/
theorem C102_ids {checks : Bool} {s : State} (h : Reachable checks s) {i : Nat} (hi : i < s.log.length) :
    s.ids[i]? = some ((i + 1) % 2 ^ 32) := by
  rw [(inv h).ids]
  simp [hi]

/-- C102: no two of them are equal, in a build with overflow checks always, without them up to the first `2^32`. -/
theorem C102_unique {checks : Bool} {s : State} (h : Reachable checks s)
    (hc : checks = true ∨ s.log.length ≤ 2 ^ 32) : s.ids.Nodup := by
  have hl : s.log.length ≤ 2 ^ 32 := by
    rcases hc with hc | hc
    · have := (inv h).few hc
      omega
    · exact hc
  rw [(inv h).ids]
  refine List.Nodup.map_on ?_ List.nodup_range
  intro i hi j hj hij
  rw [List.mem_range] at hi hj
  omega

/-- C102: with overflow checks a process hands out at most `2^32 - 1` identifiers, and after the panic at the end of them no
thread gets another one. -/
theorem C102_exhausted {s s' : State} {t : Nat} (h : Reachable true s) :
    s.log.length < 2 ^ 32 ∧ (s.poisoned = true → Step true t s s' → s'.log = s.log ∧ s'.poisoned = true) := by
  have hi := inv h
  have key : ∀ {s : State}, Reachable true s → s.poisoned = true → s.holder = none := by
    intro s h
    induction h with
    | refl => intro; rfl
    | tail _ hs ih =>
      rename_i b c hb
      obtain ⟨u, hu⟩ := hs
      have hinv := inv hb
      intro hpz
      cases hu with
      | lock hp hf hq => rw [hq] at hpz; cases hpz
      | refused hp hf hq => exact hf
      | add hp hv => exact ih hpz
      | wrap hp hv hc => cases hc
      | overflow hp hv hc => rfl
      | ret hp => rfl
  refine ⟨by have := hi.few rfl; omega, fun hp hs => ?_⟩
  have hn := key h hp
  cases hs with
  | lock h1 h2 h3 => rw [hp] at h3; cases h3
  | refused => exact ⟨rfl, hp⟩
  | add h1 _ => have := hi.excl t (.inl h1); rw [hn] at this; cases this
  | wrap _ _ h3 => cases h3
  | overflow => exact ⟨rfl, rfl⟩
  | ret h1 => have := hi.excl t (.inr h1); rw [hn] at this; cases this

/-- C102: the threads make progress: from every reachable state without panics some thread can run to its return, and any
number of identifiers, fewer than `2^32`, and without overflow checks any number at all, is handed out in some execution; by
any threads in any order. -/
theorem C102_available {checks : Bool} (ts : List Nat) (hc : checks = false ∨ ts.length < 2 ^ 32) :
    ∃ s, Reachable checks s ∧ s.log.map Prod.fst = ts ∧ s.holder = none ∧ s.poisoned = false ∧
      ∀ t, s.phase t = .idle := by
  induction ts using List.reverseRecOn with
  | nil => exact ⟨.new, .refl, rfl, rfl, rfl, fun _ => rfl⟩
  | append_singleton ts t ih =>
    rw [List.length_append, List.length_singleton] at hc
    obtain ⟨s, hr, hl, hh, hq, hp⟩ := ih (hc.imp id (by omega))
    have h1 : Step checks t s _ := .lock (hp t) hh hq
    have r1 := hr.tail ⟨t, h1⟩
    have idle : ∀ {p q : Phase} u, goto (goto (goto s.phase t p) t q) t .idle u = .idle := by
      intro p q u
      by_cases hu : u = t
      · subst hu; exact goto_self
      · simp only [goto_ne hu]; exact hp u
    by_cases hv : s.value + 1 < 2 ^ 32
    · have h2 : Step checks t _ _ := .add (s := { s with holder := some t, phase := goto s.phase t .holding }) goto_self hv
      have r2 := r1.tail ⟨t, h2⟩
      have r3 := r2.tail ⟨t, .ret goto_self⟩
      exact ⟨_, r3, by simp [hl], rfl, hq, idle⟩
    · have hcf : checks = false := by
        rcases hc with hc | hc
        · exact hc
        · have hval := (inv hr).idle fun u => by simp [hp u]
          have : s.log.length = ts.length := by rw [← hl, List.length_map]
          omega
      have h2 : Step checks t _ _ :=
        .wrap (s := { s with holder := some t, phase := goto s.phase t .holding }) goto_self hv hcf
      have r2 := r1.tail ⟨t, h2⟩
      have r3 := r2.tail ⟨t, .ret goto_self⟩
      exact ⟨_, r3, by simp [hl], rfl, hq, idle⟩

/-- C102 fails after `2^32` nodes without overflow checks: there are executions in which the identifier of a node is given
to another one, `2^32` nodes later. -/
theorem C102_violated_wrap : ∃ s, Reachable false s ∧ ∃ i j, i ≠ j ∧ j < s.ids.length ∧ s.ids[i]? = s.ids[j]? ∧
    s.ids[i]?.isSome := by
  obtain ⟨s, hr, hl, -⟩ := C102_available (checks := false) (List.replicate (2 ^ 32 + 1) 0) (.inl rfl)
  have hlen : s.log.length = 2 ^ 32 + 1 := by rw [← List.length_map (f := Prod.fst), hl, List.length_replicate]
  refine ⟨s, hr, 0, 2 ^ 32, by norm_num, by rw [State.ids, List.length_map, hlen]; norm_num, ?_, ?_⟩
  · rw [C102_ids hr (by omega), C102_ids hr (by omega)]
    norm_num
  · rw [C102_ids hr (by omega)]
    rfl

/-! ### What the identifiers are for -/

/-- C102: nodes numbered in one process, one identifier each: in every expression made of them equal identifiers mean the
same node, which is what the theorems about compiled expressions (C54 and those resting on it) ask for. -/
theorem C102_shared {checks : Bool} {s : State} (h : Reachable checks s) (hc : checks = true ∨ s.log.length ≤ 2 ^ 32)
    {nodes : List Expr} (hn : nodes.map Expr.id = s.ids) {e : Expr} (he : ∀ u, Sub u e → u ∈ nodes) : Shared e := by
  intro u v hu hv huv
  have hnd : (nodes.map Expr.id).Nodup := hn ▸ C102_unique h hc
  exact List.inj_on_of_nodup_map hnd (he u hu) (he v hv) huv

/-- C102, an instance: threads 7, 9, 7 number the nodes of `x + 2` concurrently. -/
theorem C102_instance : ∃ s, Reachable true s ∧ s.log = [(7, 1), (9, 2), (7, 3)] ∧
    Shared (.node 3 .add 1 [.node 1 (.constant [5]) 1 [], .node 2 (.constant [2]) 1 []]) := by
  obtain ⟨s, hr, hl, -⟩ := C102_available (checks := true) [7, 9, 7] (.inr (by norm_num))
  have hlen : s.log.length = 3 := by rw [← List.length_map (f := Prod.fst), hl]; rfl
  have hids : s.ids = [1, 2, 3] := by rw [(inv hr).ids, hlen]; rfl
  have hlog : s.log = [(7, 1), (9, 2), (7, 3)] := by
    have h1 : s.log = (s.log.map Prod.fst).zip (s.log.map Prod.snd) := by
      rw [List.zip_map']; simp
    rw [h1, hl, show s.log.map Prod.snd = [1, 2, 3] from hids]
    rfl
  refine ⟨s, hr, hlog, C102_shared hr (.inl rfl) (nodes := [.node 1 (.constant [5]) 1 [], .node 2 (.constant [2]) 1 [],
    .node 3 .add 1 [.node 1 (.constant [5]) 1 [], .node 2 (.constant [2]) 1 []]]) ?_ ?_⟩
  · rw [hids]; rfl
  · intro u hu
    have := mem_subs.mpr hu
    simp only [subs, subsArgs, List.mem_cons, List.mem_append, List.not_mem_nil, or_false] at this ⊢
    tauto

/-! ### After the wrap -/

section

variable {cfg : Cfg} {L : U31Lib} {T : TrackerLib}

/-- A constant. -/
def constNode (j v : Nat) : Expr := .node j (.constant [v]) 1 []

/-- The comparison of two nodes. -/
def equalNode (k : Nat) (x y : Expr) : Expr := .node k .equal 1 [x, y]

theorem simulate_equal (k j a b : Nat) :
    simulate (equalNode k (constNode j a) (constNode j b)) (fun _ => 0) =
      simulate (equalNode k (constNode j a) (constNode j a)) (fun _ => 0) := rfl

theorem simulate_twice {k j a b : Nat} (h : k ≠ j) :
    simulate (equalNode k (constNode j a) (constNode j b)) (fun _ => 0) j = 2 := by
  simp [equalNode, constNode, simulate, simulateArgs, upd, Ne.symm h]

theorem express_kept {vg : Variable → Option SVar} {N : Nat → Nat} {j a : Nat} (hN : N j = 2) {c c' : CState}
    {vs : List SVar} (hs : c.svar j = none) (hcp : c.copied j = 0)
    (h : express L T vg N true (constNode j a) c = some (vs, c')) : (c'.svar j).isSome := by
  unfold constNode at h
  have ho : (Opc.constant [a]).outNum = some 1 := rfl
  rw [express, if_neg (by simp [hN]), if_neg (by simp [hs]), if_neg (by simp [Opc.inNum])] at h
  simp only [expressArgs, Option.bind_eq_bind, Option.bind_some, Option.bind_eq_some_iff] at h
  obtain ⟨em, -, ⟨ws, t⟩, -, h⟩ := h
  have hk := (if_pos ⟨rfl, ho, by omega, hs, hcp⟩ : keepCopy T N true j (Opc.constant [a]).outNum ws { c with t := t } = _)
  replace h := hk.symm.trans h
  cases ws with
  | nil => cases h
  | cons w ws =>
    simp only [Option.bind_eq_bind, Option.bind_eq_some_iff] at h
    obtain ⟨_, -, _, -, h⟩ := h
    cases h
    simp [upd]

theorem express_again {vg : Variable → Option SVar} {N : Nat → Nat} {j a b : Nat} (hN : N j = 2) {c : CState}
    (hs : (c.svar j).isSome) :
    express L T vg N true (constNode j b) c = express L T vg N true (constNode j a) c := by
  unfold constNode
  have hn : ¬ (true = true ∧ (some 1 : Option Nat) = some 1 ∧ N j = 0) := by simp [hN]
  have hp : true = true ∧ (some 1 : Option Nat) = some 1 ∧ N j > 1 ∧ (c.svar j).isSome := ⟨rfl, rfl, by omega, hs⟩
  rw [express, express]
  exact (if_neg hn).trans ((if_pos hp).trans (((if_neg hn).trans (if_pos hp)).symm))

theorem compile_equal {vg : Variable → Option SVar} {k j a b : Nat} (h : k ≠ j) (t : Tracker) :
    compile L T vg true (equalNode k (constNode j a) (constNode j b)) t =
      compile L T vg true (equalNode k (constNode j a) (constNode j a)) t := by
  have hN := simulate_twice (a := a) (b := b) h
  unfold compile
  rw [← simulate_equal k j a b]
  generalize simulate (equalNode k (constNode j a) (constNode j b)) (fun _ => 0) = N at *
  unfold equalNode
  rw [express, express]
  simp only [expressArgs, List.length_cons]
  rcases hx : express L T vg N true (constNode j a) ⟨t, fun _ => 0, fun _ => none⟩ with _ | ⟨vs, c1⟩
  · rfl
  · have hk := express_kept hN rfl rfl hx
    simp only [Option.bind_eq_bind, Option.bind_some, express_again (a := a) (b := b) hN hk]
    rfl

theorem sub_equal {k j a : Nat} {u : Expr} (h : Sub u (equalNode k (constNode j a) (constNode j a))) :
    u = equalNode k (constNode j a) (constNode j a) ∨ u = constNode j a := by
  have := mem_subs.mpr h
  simp only [equalNode, constNode, subs, subsArgs, List.mem_cons, List.mem_append, List.not_mem_nil, or_false] at this ⊢
  tauto

/-- A node compared with itself. -/
theorem run_equal (hL : L.Ok cfg) (hT : T.Ok cfg) {k j a : Nat} (h : k ≠ j) (ha : a < 2 ^ 31) :
    ∃ vs t, compile L T (fun _ => none) true (equalNode k (constNode j a) (constNode j a)) Tracker.new = some (vs, t) ∧
      run cfg t.script ⟨[], [], []⟩ = some ⟨[num 1], [], []⟩ := by
  have hshared : Shared (equalNode k (constNode j a) (constNode j a)) := by
    intro u v hu hv huv
    rcases sub_equal hu with rfl | rfl <;> rcases sub_equal hv with rfl | rfl <;>
      first | rfl | exact absurd huv h | exact absurd huv.symm h
  have hw : WellTyped (fun _ => .base) (fun e => if e.id = k then [.nat 2] else [.nat (2 ^ 31)])
      (equalNode k (constNode j a) (constNode j a)) := by
    have hj : (constNode j a).id ≠ k := fun hh => h hh.symm
    refine ⟨?_, ?_, ?_, ?_⟩
    · intro u hu
      rcases sub_equal hu with rfl | rfl
      · refine ⟨.nat (2 ^ 31), .nat (2 ^ 31), ?_, .inr ⟨⟨_, rfl⟩, ⟨_, rfl⟩⟩, if_pos rfl⟩
        simp [equalNode, Expr.args, if_neg hj]
      · refine ⟨rfl, .nat (2 ^ 31), .nat a, if_neg hj, constVal_one ha, ?_⟩
        exact ⟨ha, ha⟩
    · intro u q hu hq
      rcases sub_equal hu with rfl | rfl
      · have hq : [Kind.nat 2] = [q] := (if_pos (show k = k from rfl)).symm.trans hq
        cases hq; rfl
      · have hq : [Kind.nat (2 ^ 31)] = [q] := (if_neg hj).symm.trans hq
        cases hq; rfl
    · intro u hu v hv
      rcases sub_equal hu with rfl | rfl
      · simp only [equalNode, Expr.args, List.mem_cons, List.not_mem_nil, or_false, or_self] at hv
        subst hv
        exact ⟨1, rfl⟩
      · cases hv
    · intro u hu hh
      rcases sub_equal hu with rfl | rfl <;> rcases hh with hh | ⟨_, _, hh⟩ <;> cases hh
  have hmu : MultiOk (equalNode k (constNode j a) (constNode j a)) := by
    intro u hu hh
    rcases sub_equal hu with rfl | rfl <;> exact absurd rfl hh
  have noin : ∀ u v, Sub u (equalNode k (constNode j a) (constNode j a)) → ¬ Reads u v := by
    intro u v hu hr
    rcases sub_equal hu with rfl | rfl <;> rcases hr with hr | hr <;> cases hr
  obtain ⟨vs, t, rest, h1, h2, h3, h4, h5, h6, h7⟩ := C54_shared (cfg := cfg) (start := ⟨[], [], []⟩) (m0 := []) (a0 := [])
    (σ := fun _ => []) (env := fun _ => .nat 0) (vg := fun _ => none) (t := Tracker.new) hL hT hw hshared
    (fun u v i i' hu hv hm _ _ => absurd (.inl hm) (noin u i hu)) hmu
    ⟨by simp [Tracker.new], by simp [Tracker.new], by simp [Tracker.new], by simp [Tracker.new], rfl⟩
    (fun u v hu hr => absurd hr (noin u v hu))
  have hrest : rest = [] := by
    have := h5
    simpa [Tracker.new] using this
  subst hrest
  refine ⟨vs, t, h1, h7.trans ?_⟩
  have hx : eval (fun _ => .nat 0) (constNode j a) = some [.nat a] := by
    simp [constNode, eval, evalArgs, Opc.denote, constVal_one ha]
  have hev : eval (fun _ => .nat 0) (equalNode k (constNode j a) (constNode j a)) = some [.nat 1] := by
    simp [equalNode, eval, evalArgs, hx, Opc.denote]
  rw [hev]
  simp [Val.enc, stackOf, altOf, Tracker.new]

/-- C102, what a repeated identifier does: when `run_dsl` on a constant is called `2^32 - 1` nodes after the constant was
built, the constant it compares with gets the same identifier and is taken for the same node.  The comparison succeeds,
whatever the two values. -/
theorem C102_violated_assert (hL : L.Ok cfg) (hT : T.Ok cfg) {a b : Nat} (ha : a < 2 ^ 31) (i : Nat) :
    assertDsl cfg L T (Dsl.constant [a] i).1 [b] i = some () := by
  obtain ⟨vs, t, h1, h2⟩ := run_equal (k := i + 1 + 1) (j := i + 1) hL hT (by omega) ha
  have hd : (Dsl.equalC (Dsl.constant [a] i).1 [b] i).1 = equalNode (i + 1 + 1) (constNode (i + 1) a) (constNode (i + 1) b) :=
    rfl
  have t1 : truthy (num 1) = true := by decide +kernel
  simp only [assertDsl, runDsl, hd, compile_equal (show i + 1 + 1 ≠ i + 1 by omega), h1, Option.bind_eq_bind,
    Option.bind_some, accepts, h2, t1, if_true]

end

end TapStark.OpId
