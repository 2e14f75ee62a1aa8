import Verif.Script.Limit
import Verif.Model.Pseudo

/-
Stack effects: how many elements a script fragment takes, leaves and holds at most, from any state.
-/

namespace TapStark

/-- The numbers seen so far include the current one. -/
structure Abs.Ok (a : Abs) : Prop where
  peak : a.cur ≤ a.peak
  trunk : a.lv = [] → a.cur ≤ a.trunk

/-- From `n + j` elements, the fragment leads to `o + j`, with at most `k + j` on the way, and `t + j` outside every
IF. -/
def Eff (p : List Op) (n o k t : Nat) : Prop :=
  ∀ (a : Abs) (j : Nat), a.Ok → a.cur = n + j →
    scan p a = some ⟨o + j, max a.peak (k + j), if a.lv.isEmpty then max a.trunk (t + j) else a.trunk, a.lv⟩

theorem max_assoc3 (a b c : Nat) : max (max a b) c = max a (max b c) := by omega

/-- The description `b` of a closed fragment, seen from a state with description `a` and `j` elements below. -/
def Abs.emb (b : Abs) (j : Nat) (a : Abs) : Abs :=
  ⟨b.cur + j, max a.peak (b.peak + j), if a.lv.isEmpty then max a.trunk (b.trunk + j) else a.trunk,
    b.lv.map (fun l => (l.1 + j, l.2.map (· + j))) ++ a.lv⟩

theorem see_emb (b : Abs) (j : Nat) (a : Abs) (c : Nat) (lv : List (Nat × Option Nat)) :
    (b.emb j a).see (c + j) (lv.map (fun l => (l.1 + j, l.2.map (· + j))) ++ a.lv) = (b.see c lv).emb j a := by
  simp only [Abs.see, Abs.emb, Abs.mk.injEq, true_and]
  refine ⟨by omega, ?_, trivial⟩
  cases lv with
  | nil =>
    simp only [List.map_nil, List.nil_append, List.isEmpty_nil, if_true]
    split <;> omega
  | cons => simp

theorem absStep_emb {op : Op} {b b' : Abs} (h : absStep op b = some b') (j : Nat) (a : Abs) :
    absStep op (b.emb j a) = some (b'.emb j a) := by
  by_cases hp : op.plain = true
  · rw [absStep_plain hp] at h ⊢
    split at h
    · rename_i hle
      simp only [Option.some.injEq] at h
      subst h
      rw [if_pos (by show _ ≤ b.cur + j; omega), ← see_emb]
      have : (b.emb j a).cur - op.effect.1 + op.effect.2 = b.cur - op.effect.1 + op.effect.2 + j := by
        show b.cur + j - _ + _ = _
        omega
      rw [this]
      rfl
    · cases h
  · obtain ⟨cur, peak, trunk, lv⟩ := b
    cases op <;> first | exact absurd rfl hp | skip
    · simp only [absStep] at h ⊢
      split at h
      · rename_i hle
        simp only [Option.some.injEq] at h
        subst h
        rw [if_pos (by show 1 ≤ cur + j; omega), ← see_emb]
        have : ((Abs.mk cur peak trunk lv).emb j a).cur - 1 = cur - 1 + j := by
          show cur + j - 1 = _
          omega
        rw [this]
        rfl
      · cases h
    · match lv, h with
      | (x, none) :: lv, h =>
        simp only [absStep, Option.some.injEq] at h
        subst h
        rw [← see_emb]
        rfl
    · match lv, h with
      | (x, none) :: lv, h =>
        simp only [absStep] at h
        split at h
        · rename_i hx
          simp only [Option.some.injEq] at h
          subst h
          rw [← see_emb]
          simp only [absStep, Abs.emb, List.map_cons, List.cons_append, hx, Option.map_none, if_true]
        · cases h
      | (x, some t) :: lv, h =>
        simp only [absStep] at h
        split at h
        · rename_i hx
          simp only [Option.some.injEq] at h
          subst h
          rw [← see_emb]
          simp only [absStep, Abs.emb, List.map_cons, List.cons_append, hx, Option.map_some, if_true]
        · cases h

theorem scan_emb : ∀ (p : List Op) {b b' : Abs}, scan p b = some b' → ∀ (j : Nat) (a : Abs),
    scan p (b.emb j a) = some (b'.emb j a) := by
  intro p
  induction p with
  | nil => intro b b' h j a; cases h; rfl
  | cons op p ih =>
    intro b b' h j a
    simp only [scan] at h ⊢
    cases hs : absStep op b with
    | none => simp [hs] at h
    | some c =>
      simp only [hs, Option.bind_some] at h
      rw [absStep_emb hs]
      exact ih h j a

/-- The effect of a fragment from a single run of the analysis. -/
theorem Eff.of_scan {p : List Op} {n o k t : Nat} (h : scan p ⟨n, n, n, []⟩ = some ⟨o, k, t, []⟩) : Eff p n o k t := by
  intro a j ha hc
  have := scan_emb p h j a
  have e : (Abs.mk n n n []).emb j a = a := by
    obtain ⟨cur, peak, trunk, lv⟩ := a
    simp only at hc
    subst hc
    have hp := ha.peak
    have ht := ha.trunk
    simp only at hp ht
    simp only [Abs.emb, List.map_nil, List.nil_append, Abs.mk.injEq, true_and, and_true]
    refine ⟨by omega, ?_⟩
    cases lv with
    | nil => have := ht rfl; simp only [List.isEmpty_nil, if_true]; omega
    | cons => simp
  rw [e] at this
  exact this

/-- The opcode without the pushed data, which the analysis does not look at. -/
def Op.shape : Op → Op
  | .push _ => .push []
  | op => op

theorem scan_shape : ∀ (p : List Op) (a : Abs), scan p a = scan (p.map Op.shape) a := by
  intro p
  induction p with
  | nil => intro a; rfl
  | cons op p ih =>
    intro a
    simp only [scan, List.map_cons]
    rw [show absStep op.shape a = absStep op a by cases op <;> rfl]
    cases absStep op a with
    | none => rfl
    | some b => exact ih b

/-- The effect of a fragment from that of one with other data. -/
theorem Eff.of_shape {p : List Op} {n o k t : Nat} (q : List Op) (hq : p.map Op.shape = q.map Op.shape)
    (h : Eff q n o k t) : Eff p n o k t := by
  intro a j ha hc
  rw [scan_shape, hq, ← scan_shape]
  exact h a j ha hc

theorem Eff.frame {p : List Op} {n o k t : Nat} (h : Eff p n o k t) (i : Nat) :
    Eff p (n + i) (o + i) (k + i) (t + i) := by
  intro a j ha hc
  rw [h a (i + j) ha (by omega)]
  simp only [Nat.add_assoc]

theorem absStep_ok {op : Op} {a a' : Abs} (h : absStep op a = some a') : a'.Ok := by
  have key : ∀ c lv, (a.see c lv).Ok := by
    intro c lv
    refine ⟨Nat.le_max_right _ _, fun e => ?_⟩
    change lv = [] at e
    subst e
    exact Nat.le_max_right _ _
  have : ∃ c lv, a' = a.see c lv := by
    cases op <;> simp only [absStep] at h <;>
      first
      | (split at h
         · exact ⟨_, _, (Option.some.inj h).symm⟩
         · first
           | cases h
           | (split at h
              · exact ⟨_, _, (Option.some.inj h).symm⟩
              · cases h))
      | (split at h
         · split at h
           · exact ⟨_, _, (Option.some.inj h).symm⟩
           · cases h
         · split at h
           · exact ⟨_, _, (Option.some.inj h).symm⟩
           · cases h
         · cases h)
  obtain ⟨c, lv, rfl⟩ := this
  exact key c lv

theorem scan_ok : ∀ (p : List Op) {a a' : Abs}, a.Ok → scan p a = some a' → a'.Ok := by
  intro p
  induction p with
  | nil => intro a a' h e; cases e; exact h
  | cons op p ih =>
    intro a a' h e
    simp only [scan] at e
    cases hs : absStep op a with
    | none => simp [hs] at e
    | some b =>
      simp only [hs, Option.bind_some] at e
      exact ih (absStep_ok hs) e

/-- Fragments one after the other. -/
theorem Eff.append {p q : List Op} {n m o k t k' t' : Nat} (hp : Eff p n m k t) (hq : Eff q m o k' t') :
    Eff (p ++ q) n o (max k k') (max t t') := by
  intro a j ha hc
  have h1 := hp a j ha hc
  rw [scan_append, h1, Option.bind_some, hq _ j (scan_ok p ha h1) rfl]
  simp only [Option.some.injEq, Abs.mk.injEq, true_and, and_true]
  refine ⟨by omega, ?_⟩
  split <;> omega

theorem Eff.cast {p : List Op} {n o k t n' o' k' t' : Nat} (h : Eff p n o k t) (h1 : n = n') (h2 : o = o')
    (h3 : k = k') (h4 : t = t') : Eff p n' o' k' t' := by
  subst h1 h2 h3 h4
  exact h

/-- Fragments one after the other, with elements below either; `omega` finds the numbers. -/
theorem Eff.seq {p q : List Op} {n m k t n' m' k' t' : Nat} (hp : Eff p n m k t) (hq : Eff q n' m' k' t') (i j : Nat)
    {N O K T : Nat} (e : m + i = n' + j) (h1 : n + i = N) (h2 : m' + j = O) (h3 : max (k + i) (k' + j) = K)
    (h4 : max (t + i) (t' + j) = T) : Eff (p ++ q) N O K T :=
  ((hp.frame i).append (by rw [e]; exact hq.frame j)).cast h1 h2 h3 h4

theorem Eff.nil (n : Nat) : Eff [] n n n n := Eff.of_scan rfl

/-- A fragment that keeps the number of elements, repeated. -/
theorem Eff.emitN {p : List Op} {n k t : Nat} (h : Eff p n n k t) (hk : n ≤ k) (ht : n ≤ t) {m : Nat} (hm : 0 < m) :
    Eff (emitN m p) n n k t := by
  induction m with
  | zero => omega
  | succ m ih =>
    rw [show TapStark.emitN (m + 1) p = p ++ TapStark.emitN m p by
      simp [TapStark.emitN, List.replicate_succ]]
    cases m with
    | zero => exact (h.append (by exact Eff.nil n)).cast rfl rfl (by omega) (by omega)
    | succ m => exact (h.append (ih (by omega))).cast rfl rfl (by omega) (by omega)

/-- Both branches of an IF leave the same number. -/
theorem Eff.ite {p q : List Op} {n o k t k' t' : Nat} (hp : Eff p n o k t) (hq : Eff q n o k' t') :
    Eff (.opif :: (p ++ .opelse :: (q ++ [.opendif]))) (n + 1) o (max (max (n + 1) o) (max k k')) (max (n + 1) o) := by
  intro a j ha hc
  have ht := ha.trunk
  have hpk := ha.peak
  have e1 : absStep .opif a = some (a.see (n + j) ((n + j, none) :: a.lv)) := by
    simp only [absStep]
    rw [if_pos (by omega), show a.cur - 1 = n + j by omega]
  have h1 := hp (a.see (n + j) ((n + j, none) :: a.lv)) j (absStep_ok e1) rfl
  rw [scan, e1, Option.bind_some, scan_append, h1, Option.bind_some, scan]
  simp only [absStep, Abs.see, List.isEmpty_cons, Bool.false_eq_true, if_false, Option.bind_some]
  rw [scan_append, hq _ j ⟨by simp only; omega, fun e => by cases e⟩ rfl, Option.bind_some]
  simp only [scan, absStep, List.isEmpty_cons, Bool.false_eq_true, if_false, if_true, Abs.see, Option.bind_some,
    Option.some.injEq, Abs.mk.injEq, true_and, and_true]
  refine ⟨by omega, ?_⟩
  cases hl : a.lv with
  | nil => have := ht hl; simp only [List.isEmpty_nil, if_true]; omega
  | cons => simp

/-- An IF without ELSE keeps the number of elements. -/
theorem Eff.when {p : List Op} {n k t : Nat} (hp : Eff p n n k t) :
    Eff (.opif :: (p ++ [.opendif])) (n + 1) n (max (n + 1) k) (n + 1) := by
  intro a j ha hc
  have ht := ha.trunk
  have hpk := ha.peak
  have e1 : absStep .opif a = some (a.see (n + j) ((n + j, none) :: a.lv)) := by
    simp only [absStep]
    rw [if_pos (by omega), show a.cur - 1 = n + j by omega]
  have h1 := hp (a.see (n + j) ((n + j, none) :: a.lv)) j (absStep_ok e1) rfl
  rw [scan, e1, Option.bind_some, scan_append, h1, Option.bind_some, scan]
  simp only [scan, absStep, List.isEmpty_cons, Bool.false_eq_true, if_false, if_true, Abs.see, Option.bind_some,
    Option.some.injEq, Abs.mk.injEq, true_and, and_true]
  refine ⟨by omega, ?_⟩
  cases hl : a.lv with
  | nil => have := ht hl; simp only [List.isEmpty_nil, if_true]; omega
  | cons => simp

/-- What the effect says about runs. -/
theorem Eff.runs {p : List Op} {n o k t : Nat} (h : Eff p n o k t) (cfg : Cfg) {lim : Nat} {s : St} (hc : s.cond = [])
    {j : Nat} (hn : s.size = n + j) :
    (k + j ≤ lim → s.size ≤ lim → runL cfg lim p s = run cfg p s) ∧
    (s.size ≤ lim → lim < t + j → runL cfg lim p s = none) ∧
    ∀ s', run cfg p s = some s' → s'.size = o + j := by
  have hd : Descr s ⟨s.size, s.size, s.size, []⟩ := ⟨by rw [hc]; exact ⟨rfl, rfl⟩, Nat.le_refl _⟩
  have hs := h ⟨s.size, s.size, s.size, []⟩ j ⟨Nat.le_refl _, fun _ => Nat.le_refl _⟩ hn
  refine ⟨fun h1 h2 => (scan_sound cfg p hd hs).1 (by simp only; omega), fun h1 h2 => ?_, fun s' e => ?_⟩
  · exact scan_fails cfg p hd hs h1 (by simp only [List.isEmpty_nil, if_true]; omega)
  · have := (scan_sound cfg (lim := 0) p hd hs).2 s' e
    have hr := this.rel
    have hl := hr.length
    rw [List.length_nil, List.length_eq_zero_iff] at hl
    exact hr.live (by rw [hl]; rfl)

/-! ### Runs under the limit -/

theorem runL_run {cfg : Cfg} {lim : Nat} : ∀ (p : List Op) {s s' : St}, runL cfg lim p s = some s' → run cfg p s = some s' := by
  intro p
  induction p with
  | nil => intro s s' h; exact h
  | cons op p ih =>
    intro s s' h
    rw [runL, Option.bind_eq_some_iff] at h
    obtain ⟨t, h1, h2⟩ := h
    split at h2
    · rw [run, h1]; exact ih h2
    · cases h2

theorem runL_append {cfg : Cfg} {lim : Nat} : ∀ (p q : List Op) (s : St),
    runL cfg lim (p ++ q) s = (runL cfg lim p s).bind (runL cfg lim q) := by
  intro p
  induction p with
  | nil => intro q s; rfl
  | cons op p ih =>
    intro q s
    rw [List.cons_append, runL, runL, Option.bind_assoc]
    congr 1
    funext t
    split
    · exact ih q t
    · rfl

theorem runL_size {cfg : Cfg} {lim : Nat} : ∀ (p : List Op) {s s' : St}, s.size ≤ lim → runL cfg lim p s = some s' →
    s'.size ≤ lim := by
  intro p
  induction p with
  | nil => intro s s' h e; cases e; exact h
  | cons op p ih =>
    intro s s' _ e
    rw [runL, Option.bind_eq_some_iff] at e
    obtain ⟨t, -, e⟩ := e
    split at e
    · rename_i ht; exact ih ht e
    · cases e

/-- A script that at some point holds more than the limit fails. -/
theorem runL_prefix {cfg : Cfg} {lim : Nat} {p q : List Op} {s t : St} (hs : s.size ≤ lim) (h : run cfg p s = some t)
    (ht : lim < t.size) : runL cfg lim (p ++ q) s = none := by
  rw [runL_append]
  cases e : runL cfg lim p s with
  | none => rfl
  | some u =>
    have := runL_run p e
    rw [h] at this
    cases this
    have := runL_size p hs e
    omega

end TapStark
