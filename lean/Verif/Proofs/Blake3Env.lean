import Verif.Model.Blake3
import Verif.Spec.Blake3
import Verif.Proofs.U32Xor
import Verif.Proofs.U32Rrot
import Verif.Proofs.Pseudo

/-
The pointer map invariant: the map describes the stack.
-/

namespace TapStark
open Blake3 (Word)

/-- The pointer map describes a stack whose words are `ab ++ below`: a tracked pointer's index holds
its value, indices are distinct, state pointers lie in `ab`, message pointers in `below`. -/
structure Tracks (env : Env) (val : Ptr → Word) (ab below : List Word) : Prop where
  sound : ∀ p k, env p = some k → (ab ++ below)[k]? = some (val p)
  inj : ∀ p q k, env p = some k → env q = some k → p = q
  stateAbove : ∀ i k, env (.state i) = some k → k < ab.length
  msgBelow : ∀ i k, env (.message i) = some k → ab.length ≤ k

theorem getElem?_eraseIdx_shift {α : Type _} (l : List α) (k v : Nat) (h : v ≠ k) :
    (l.eraseIdx k)[if k < v then v - 1 else v]? = l[v]? := by
  rw [List.getElem?_eraseIdx]
  by_cases hk : k < v
  · rw [if_pos hk, if_neg (by omega)]; congr 1; omega
  · rw [if_neg hk, if_pos (by omega)]

theorem Env.extract_eq {env : Env} {p : Ptr} {k : Nat} (h : env p = some k) :
    env.extract p = some (k, fun q =>
      if q = p then none else (env q).map fun v => if k < v then v - 1 else v) := by
  simp [Env.extract, h]

/-- The map left by an extraction at index `k`. -/
def Env.without (env : Env) (p : Ptr) (k : Nat) : Env := fun q =>
  if q = p then none else (env q).map fun v => if k < v then v - 1 else v

theorem Env.without_ne {env : Env} {p q : Ptr} {k v : Nat} (hq : q ≠ p) (h : env q = some v) :
    env.without p k q = some (if k < v then v - 1 else v) := by
  simp [Env.without, hq, h]

theorem Env.without_some {env : Env} {p q : Ptr} {k w : Nat} (h : env.without p k q = some w) :
    q ≠ p ∧ ∃ v, env q = some v ∧ w = if k < v then v - 1 else v := by
  unfold Env.without at h
  by_cases hq : q = p
  · simp [hq] at h
  · rw [if_neg hq] at h
    obtain ⟨v, hv, rfl⟩ := Option.map_eq_some_iff.mp h
    exact ⟨hq, v, hv, rfl⟩

theorem Env.insert_some {env : Env} {p q : Ptr} {w : Nat} (h : env.insert p q = some w) :
    (q = p ∧ w = 0) ∨ (q ≠ p ∧ ∃ v, env q = some v ∧ w = v + 1) := by
  unfold Env.insert Env.set at h
  by_cases hq : q = p
  · rw [if_pos hq] at h
    exact .inl ⟨hq, by simpa using h.symm⟩
  · rw [if_neg hq] at h
    obtain ⟨v, hv, rfl⟩ := Option.map_eq_some_iff.mp h
    exact .inr ⟨hq, v, hv, rfl⟩

@[simp] theorem Env.insert_self (env : Env) (p : Ptr) : env.insert p p = some 0 := by
  simp [Env.insert, Env.set]

theorem Env.insert_isSome {env : Env} {p q : Ptr} (h : (env q).isSome ∨ q = p) :
    (env.insert p q).isSome := by
  unfold Env.insert Env.set
  by_cases hq : q = p
  · simp [hq]
  · rw [if_neg hq]; rcases h with h | h
    · simpa using h
    · exact absurd h hq

variable {env : Env} {val : Ptr → Word} {ab below : List Word}

/-- Extracting a state pointer mirrors removing its word from the stack. -/
theorem Tracks.extract {i k : Nat} (t : Tracks env val ab below) (h : env (.state i) = some k) :
    Tracks (env.without (.state i) k) val (ab.eraseIdx k) below := by
  have hk := t.stateAbove i k h
  have hab : (ab.eraseIdx k).length = ab.length - 1 := List.length_eraseIdx_of_lt hk
  have hap : ab.eraseIdx k ++ below = (ab ++ below).eraseIdx k :=
    (List.eraseIdx_append_of_lt_length hk below).symm
  have hne : ∀ q v, q ≠ .state i → env q = some v → v ≠ k := by
    intro q v hq hv e
    exact hq (t.inj _ _ _ hv (e ▸ h))
  constructor
  · intro p w hp
    obtain ⟨hne', v, hv, rfl⟩ := Env.without_some hp
    rw [hap, getElem?_eraseIdx_shift _ _ _ (hne p v hne' hv)]
    exact t.sound p v hv
  · intro p q w hp hq
    obtain ⟨hp', v, hv, rfl⟩ := Env.without_some hp
    obtain ⟨hq', u, hu, e⟩ := Env.without_some hq
    have h1 := hne p v hp' hv
    have h2 := hne q u hq' hu
    have : v = u := by split at e <;> split at e <;> omega
    exact t.inj _ _ _ hv (this ▸ hu)
  · intro j w hj
    obtain ⟨hj', v, hv, rfl⟩ := Env.without_some hj
    have := t.stateAbove j v hv
    have := hne _ v hj' hv
    rw [hab]; split <;> omega
  · intro j w hj
    obtain ⟨hj', v, hv, rfl⟩ := Env.without_some hj
    have := t.msgBelow j v hv
    rw [hab, if_pos (by omega)]; omega

/-- Inserting a state pointer mirrors pushing a word. -/
theorem Tracks.insert {i : Nat} (t : Tracks env val ab below) (w : Word) :
    Tracks (env.insert (.state i)) (fun q => if q = .state i then w else val q) (w :: ab) below := by
  constructor
  · intro p k hp
    rcases Env.insert_some hp with ⟨rfl, rfl⟩ | ⟨hne, v, hv, rfl⟩
    · simp
    · simpa [hne] using t.sound p v hv
  · intro p q k hp hq
    rcases Env.insert_some hp with ⟨rfl, rfl⟩ | ⟨hne, v, hv, rfl⟩
    · rcases Env.insert_some hq with ⟨rfl, _⟩ | ⟨_, u, _, e⟩
      · rfl
      · omega
    · rcases Env.insert_some hq with ⟨_, e⟩ | ⟨_, u, hu, e⟩
      · omega
      · exact t.inj _ _ _ hv (show env q = some v by rw [hu]; congr 1; omega)
  · intro j k hj
    rcases Env.insert_some hj with ⟨_, rfl⟩ | ⟨_, v, hv, rfl⟩
    · simp
    · have := t.stateAbove j v hv; simp; omega
  · intro j k hj
    rcases Env.insert_some hj with ⟨e, _⟩ | ⟨_, v, hv, rfl⟩
    · exact absurd e (by simp)
    · have := t.msgBelow j v hv; simp; omega

theorem Tracks.congr {val' : Ptr → Word} (t : Tracks env val ab below)
    (h : ∀ p, (env p).isSome → val p = val' p) : Tracks env val' ab below :=
  { t with sound := fun p k hp => by rw [t.sound p k hp, h p (by simp [hp])] }

/-- Every state and message pointer is tracked. -/
structure Full (env : Env) : Prop where
  st : ∀ i, i < 16 → (env (.state i)).isSome
  ms : ∀ i, i < 16 → (env (.message i)).isSome
  msLt : ∀ i k, env (.message i) = some k → i < 16

theorem Full.some_st (f : Full env) {i : Nat} (h : i < 16) : ∃ k, env (.state i) = some k :=
  Option.isSome_iff_exists.mp (f.st i h)

theorem Full.some_ms (f : Full env) {i : Nat} (h : i < 16) : ∃ k, env (.message i) = some k :=
  Option.isSome_iff_exists.mp (f.ms i h)

/-! ### The xor table seen as words -/

/-- The 64 words whose bytes are the xor table. -/
def tableWords : List Word :=
  (List.range 64).map fun i => BitVec.ofNat 32 (xorTab (4 * i) + 256 * xorTab (4 * i + 1) +
    65536 * xorTab (4 * i + 2) + 16777216 * xorTab (4 * i + 3))

theorem tableWords_elems : wordsElems tableWords = xorTable := by decide +kernel

theorem tableWords_length : tableWords.length = 64 := by simp [tableWords]

/-! ### Word-level runs -/

/-- `p` turns the words `ws` on top of the stack into `ws'`, whatever lies below and after. -/
def WRun (cfg : Cfg) (p : List Op) (ws ws' : List Word) : Prop :=
  ∀ ops m a c, live c = true →
    run cfg (p ++ ops) ⟨wordsElems ws ++ m, a, c⟩ = run cfg ops ⟨wordsElems ws' ++ m, a, c⟩

variable {cfg : Cfg}

theorem WRun.nil (ws : List Word) : WRun cfg [] ws ws := fun _ _ _ _ _ => rfl

theorem WRun.trans {p q : List Op} {ws ws' ws'' : List Word} (h1 : WRun cfg p ws ws')
    (h2 : WRun cfg q ws' ws'') : WRun cfg (p ++ q) ws ws'' := fun ops m a c h => by
  rw [List.append_assoc, h1 _ _ _ _ h, h2 _ _ _ _ h]

theorem lt_of_getElem?_some {α : Type _} {l : List α} {i : Nat} {x : α} (h : l[i]? = some x) :
    i < l.length := by
  rcases Nat.lt_or_ge i l.length with h' | h'
  · exact h'
  · simp [h'] at h

theorem u32Add_exists {i j : Nat} (h : i ≠ j) : ∃ p, u32Add i j = some p := by
  unfold u32Add u32CopyZip
  rw [if_neg h]
  rcases Nat.lt_or_gt_of_ne h with h | h
  · rw [if_pos h]; exact ⟨_, rfl⟩
  · rw [if_neg (by omega), if_pos h]; exact ⟨_, rfl⟩

theorem u32Xor_exists {i j S : Nat} (h : i ≠ j) (hS : 2 ≤ S) : ∃ p, u32Xor i j S = some p := by
  unfold u32Xor u32CopyZip
  rw [if_neg (by omega)]
  rcases Nat.lt_or_gt_of_ne h with h | h
  · rw [if_pos h]; exact ⟨_, rfl⟩
  · rw [if_neg (by omega), if_pos h]; exact ⟨_, rfl⟩

theorem u32Rrot_exists {n : Nat} (hn : n < 32) : ∃ p, u32Rrot n = some p := by
  have : ∀ n < 32, (u32Rrot n).isSome = true := by decide +kernel
  exact Option.isSome_iff_exists.mp (this n hn)

theorem wrun_add {i j : Nat} {ws : List Word} {x y : Word} {p : List Op} (hg : u32Add i j = some p)
    (hx : ws[i]? = some x) (hy : ws[j]? = some y) (hl : ws.length < 500000000) :
    WRun cfg p ws ((x + y) :: ws.eraseIdx j) := fun ops m a c h =>
  run_u32Add h hg hx hy (by have := lt_of_getElem?_some hx; omega)
    (by have := lt_of_getElem?_some hy; omega)

theorem wrun_rrot {n : Nat} {w : Word} {ws : List Word} {p : List Op} (hg : u32Rrot n = some p) :
    WRun cfg p (w :: ws) (w.rotateRight n :: ws) := fun ops m a c h => by
  simp only [wordsElems_cons, List.append_assoc]
  exact run_u32Rrot w hg h

/-- Xor of two words above the table. -/
theorem wrun_xor {i j S : Nat} {ab ms : List Word} {x y : Word} {p : List Op}
    (hg : u32Xor i j S = some p) (hx : ab[i]? = some x) (hy : ab[j]? = some y)
    (hS : ab.length + 1 = S) (hl : ab.length < 500000000) :
    WRun cfg p (ab ++ (tableWords ++ ms)) (((x ^^^ y) :: ab.eraseIdx j) ++ (tableWords ++ ms)) :=
  fun ops m a c h => by
    simp only [wordsElems_append, tableWords_elems, List.append_assoc]
    exact run_u32Xor h hg hx hy hS hl

end TapStark
