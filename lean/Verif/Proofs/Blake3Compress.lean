import Verif.Proofs.Blake3G

namespace TapStark
open Blake3 (Word)

variable {cfg : Cfg} {env : Env} {ab : List Word}

/-- A well-formed quarter-round call. -/
def CallOk : Nat × Nat × Nat × Nat × Nat × Nat → Prop
  | (a, b, c, d, m0, m1) =>
    (a < 16 ∧ b < 16 ∧ c < 16 ∧ d < 16 ∧ m0 < 16 ∧ m1 < 16) ∧
    (a ≠ b ∧ a ≠ c ∧ a ≠ d ∧ b ≠ c ∧ b ≠ d ∧ c ≠ d)

/-- The specified effect of a list of calls. -/
def mixes (mv : List Word) : List (Nat × Nat × Nat × Nat × Nat × Nat) → List Word → List Word
  | [], s => s
  | (a, b, c, d, m0, m1) :: rest, s =>
    mixes mv rest (Blake3.mix s a b c d (mv.getD m0 0) (mv.getD m1 0))

theorem mixes_round (s mv : List Word) : mixes mv b3RoundCalls s = Blake3.round s mv := rfl

theorem round_length (s mv : List Word) : (Blake3.round s mv).length = s.length := by
  simp [Blake3.round, mix_length]

theorem b3Gs_correct {sv mv ms : List Word} (calls : List (Nat × Nat × Nat × Nat × Nat × Nat))
    (hok : ∀ x ∈ calls, CallOk x)
    (t : Tracks env (ptrVal sv mv) ab (tableWords ++ ms)) (f : Full env) (hab : ab.length = 16)
    (hms : ms.length < 1000) (hsv : sv.length = 16) :
    ∃ p env' ab', b3Gs 16 calls env = some (p, env') ∧ Full env' ∧ ab'.length = 16 ∧
      Tracks env' (ptrVal (mixes mv calls sv) mv) ab' (tableWords ++ ms) ∧
      WRun cfg p (ab ++ (tableWords ++ ms)) (ab' ++ (tableWords ++ ms)) := by
  induction calls generalizing env ab sv with
  | nil => exact ⟨[], env, ab, rfl, f, hab, t, WRun.nil _⟩
  | cons x rest ih =>
    obtain ⟨a, b, c, d, m0, m1⟩ := x
    obtain ⟨⟨h1, h2, h3, h4, h5, h6⟩, h7, h8, h9, h10, h11, h12⟩ :=
      hok (a, b, c, d, m0, m1) (by simp)
    obtain ⟨p, env1, ab1, e1, f1, l1, t1, r1⟩ :=
      b3G_correct (cfg := cfg) t f hab hms hsv h1 h2 h3 h4 h5 h6 h7 h8 h9 h10 h11 h12
    obtain ⟨q, env2, ab2, e2, f2, l2, t2, r2⟩ :=
      ih (fun x hx => hok x (by simp [hx])) t1 f1 l1 (by rw [mix_length, hsv])
    exact ⟨p ++ q, env2, ab2, by simp [b3Gs, e1, e2], f2, l2, t2, r1.trans r2⟩

theorem b3Round_correct {sv mv ms : List Word}
    (t : Tracks env (ptrVal sv mv) ab (tableWords ++ ms)) (f : Full env) (hab : ab.length = 16)
    (hms : ms.length < 1000) (hsv : sv.length = 16) :
    ∃ p env' ab', b3Round env 16 = some (p, env') ∧ Full env' ∧ ab'.length = 16 ∧
      Tracks env' (ptrVal (Blake3.round sv mv) mv) ab' (tableWords ++ ms) ∧
      WRun cfg p (ab ++ (tableWords ++ ms)) (ab' ++ (tableWords ++ ms)) := by
  have := b3Gs_correct (cfg := cfg) b3RoundCalls (by
    intro x hx
    simp only [b3RoundCalls, List.mem_cons, List.not_mem_nil, or_false] at hx
    rcases hx with rfl | rfl | rfl | rfl | rfl | rfl | rfl | rfl <;> simp [CallOk]) t f hab hms hsv
  rw [mixes_round] at this
  exact this

theorem perm_lt : ∀ i, i < 16 → b3Perm.getD i 0 < 16 := by decide

theorem perm_inj : ∀ i, i < 16 → ∀ j, j < 16 → b3Perm.getD i 0 = b3Perm.getD j 0 → i = j := by decide

theorem foldl_set_state (l : List Nat) (g : Nat → Nat) (e : Env) (i : Nat) :
    (l.foldl (fun (e : Env) i => e.set (.message i) (g i)) e) (.state i) = e (.state i) := by
  induction l generalizing e with
  | nil => rfl
  | cons x l ih => rw [List.foldl_cons, ih]; simp [Env.set]

theorem foldl_set_message (l : List Nat) (g : Nat → Nat) (e : Env) (i : Nat) :
    (l.foldl (fun (e : Env) i => e.set (.message i) (g i)) e) (.message i) =
      if i ∈ l then some (g i) else e (.message i) := by
  induction l generalizing e with
  | nil => rfl
  | cons x l ih =>
    rw [List.foldl_cons, ih]
    by_cases h : i ∈ l
    · simp [h]
    · by_cases hx : i = x
      · subst hx; simp [h, Env.set]
      · simp [h, hx, Env.set]

theorem mapM_some' {α β : Type} (l : List α) (f : α → Option β) (g : α → β)
    (h : ∀ x ∈ l, f x = some (g x)) : l.mapM f = some (l.map g) := by
  induction l with
  | nil => rfl
  | cons x l ih =>
    rw [List.mapM_cons, h x (by simp), ih fun y hy => h y (by simp [hy])]
    rfl

theorem b3Permute_eq (f : Full env) : ∃ env', b3Permute env = some env' ∧
    (∀ i, env' (.state i) = env (.state i)) ∧
    (∀ i, env' (.message i) = if i < 16 then env (.message (b3Perm.getD i 0)) else none) := by
  have hk : ∀ i, i < 16 → env (.message i) = some ((env (.message i)).getD 0) := by
    intro i hi
    obtain ⟨k, hk⟩ := f.some_ms hi
    simp [hk]
  have hm := mapM_some' (List.range 16) (fun i => env (.message i))
    (fun i => (env (.message i)).getD 0) (fun i hi => hk i (by simpa using hi))
  refine ⟨_, by unfold b3Permute; rw [hm]; rfl, ?_, ?_⟩
  · intro i; exact foldl_set_state _ _ _ _
  · intro i
    rw [foldl_set_message]
    by_cases h : i < 16
    · rw [if_pos (by simpa using h), if_pos h]
      have := perm_lt i h
      rw [hk _ this]
      simp [List.getD_eq_getElem?_getD, List.getElem?_map, List.getElem?_range, this]
      rw [List.getD_eq_getElem?_getD] at this
      simp [this]
    · rw [if_neg (by simpa using h), if_neg h]
      cases he : env (.message i) with
      | none => rfl
      | some k => exact absurd (f.msLt _ _ he) h

theorem permute_getD (mv : List Word) (i : Nat) (h : i < 16) :
    (Blake3.permute mv).getD i 0 = mv.getD (b3Perm.getD i 0) 0 := by
  have : i < Blake3.perm.length := h
  show (List.map _ b3Perm).getD i 0 = _
  have hi : i < b3Perm.length := h
  simp [List.getD_eq_getElem?_getD, hi]

theorem b3Permute_correct {sv mv below : List Word}
    (t : Tracks env (ptrVal sv mv) ab below) (f : Full env) :
    ∃ env', b3Permute env = some env' ∧ Full env' ∧
      Tracks env' (ptrVal sv (Blake3.permute mv)) ab below := by
  obtain ⟨env', e, hs, hm⟩ := b3Permute_eq f
  have hms : ∀ i k, env' (.message i) = some k →
      i < 16 ∧ env (.message (b3Perm.getD i 0)) = some k := by
    intro i k h
    rw [hm] at h
    by_cases hi : i < 16
    · rw [if_pos hi] at h; exact ⟨hi, h⟩
    · rw [if_neg hi] at h; exact absurd h (by simp)
  refine ⟨env', e, ⟨?_, ?_, ?_⟩, ⟨?_, ?_, ?_, ?_⟩⟩
  · intro i hi; rw [hs]; exact f.st i hi
  · intro i hi; rw [hm, if_pos hi]; exact f.ms _ (perm_lt i hi)
  · intro i k h; exact (hms i k h).1
  · intro p k h
    cases p with
    | state i => rw [hs] at h; exact t.sound _ _ h
    | message i =>
      obtain ⟨hi, h⟩ := hms i k h
      rw [t.sound _ _ h]
      simp only [ptrVal, permute_getD mv i hi]
  · intro p q k hp hq
    cases p with
    | state i =>
      rw [hs] at hp
      cases q with
      | state j => rw [hs] at hq; exact t.inj _ _ _ hp hq
      | message j => exact absurd (t.inj _ _ _ hp (hms j k hq).2) (by simp)
    | message i =>
      obtain ⟨hi, hp⟩ := hms i k hp
      cases q with
      | state j => rw [hs] at hq; exact absurd (t.inj _ _ _ hp hq) (by simp)
      | message j =>
        obtain ⟨hj, hq⟩ := hms j k hq
        have := t.inj _ _ _ hp hq
        rw [Ptr.message.injEq] at this
        rw [perm_inj i hi j hj this]
  · intro i k h; rw [hs] at h; exact t.stateAbove _ _ h
  · intro i k h; exact t.msgBelow _ _ (hms i k h).2

/-- Rounds after the first, each preceded by a permutation. -/
def permRounds : Nat → List Word → List Word → List Word
  | 0, s, _ => s
  | n + 1, s, m => permRounds n (Blake3.round s (Blake3.permute m)) (Blake3.permute m)

theorem rounds_eq (n : Nat) (s m : List Word) :
    Blake3.rounds n s m = permRounds n (Blake3.round s m) m := by
  induction n generalizing s m with
  | zero => rfl
  | succ n ih => rw [Blake3.rounds, ih]; rfl

theorem permRounds_length (n : Nat) (s m : List Word) : (permRounds n s m).length = s.length := by
  induction n generalizing s m with
  | zero => rfl
  | succ n ih => rw [permRounds, ih, round_length]

theorem rounds_length (n : Nat) (s m : List Word) : (Blake3.rounds n s m).length = s.length := by
  rw [rounds_eq, permRounds_length, round_length]

theorem b3PermRounds_correct (n : Nat) {sv mv ms : List Word}
    (t : Tracks env (ptrVal sv mv) ab (tableWords ++ ms)) (f : Full env) (hab : ab.length = 16)
    (hms : ms.length < 1000) (hsv : sv.length = 16) :
    ∃ p env' ab' mv', b3PermRounds 16 n env = some (p, env') ∧ Full env' ∧ ab'.length = 16 ∧
      Tracks env' (ptrVal (permRounds n sv mv) mv') ab' (tableWords ++ ms) ∧
      WRun cfg p (ab ++ (tableWords ++ ms)) (ab' ++ (tableWords ++ ms)) := by
  induction n generalizing env ab sv mv with
  | zero => exact ⟨[], env, ab, mv, rfl, f, hab, t, WRun.nil _⟩
  | succ n ih =>
    obtain ⟨env1, e1, f1, t1⟩ := b3Permute_correct t f
    obtain ⟨p, env2, ab2, e2, f2, l2, t2, r2⟩ := b3Round_correct (cfg := cfg) t1 f1 hab hms hsv
    obtain ⟨q, env3, ab3, mv3, e3, f3, l3, t3, r3⟩ := ih t2 f2 l2 (by rw [round_length, hsv])
    exact ⟨p ++ q, env3, ab3, mv3, by simp [b3PermRounds, e1, e2, e3], f3, l3, t3, r2.trans r3⟩

/-- The output words `i .. i + n - 1`, last one on top. -/
def outWords (s : List Word) (i n : Nat) : List Word :=
  ((List.range n).map fun j => s.getD (i + j) 0 ^^^ s.getD (i + j + 8) 0).reverse

theorem outWords_succ (s : List Word) (i n : Nat) :
    outWords s i (n + 1) = outWords s (i + 1) n ++ [s.getD i 0 ^^^ s.getD (i + 8) 0] := by
  unfold outWords
  rw [List.range_succ_eq_map, List.map_cons, List.reverse_cons, List.map_map]
  congr 2
  apply List.map_congr_left
  intro j _
  simp only [Function.comp, show i + (j + 1) = i + 1 + j by omega]

/-- The final xors: `done` results are already on top. -/
theorem b3Finish_correct (n : Nat) {i : Nat} {sv mv ms done : List Word}
    (t : Tracks env (ptrVal sv mv) ab (tableWords ++ ms))
    (hlow : ∀ j, j < 8 → (env (.state j)).isSome)
    (hhigh : ∀ j, i ≤ j → j < 8 → (env (.state (j + 8))).isSome)
    (hin : i + n ≤ 8) (hdone : done.length = i) (hab : done.length + ab.length = 16) :
    ∃ p rest, b3Finish 16 i n env = some p ∧ rest.length + n = ab.length ∧
      WRun cfg p ((done ++ ab) ++ (tableWords ++ ms))
        ((outWords sv i n ++ (done ++ rest)) ++ (tableWords ++ ms)) := by
  induction n generalizing i env ab done with
  | zero =>
    exact ⟨[], ab, rfl, rfl, WRun.nil _⟩
  | succ n ih =>
    obtain ⟨x, hx⟩ := Option.isSome_iff_exists.mp (hlow i (by omega))
    obtain ⟨y, hy⟩ := Option.isSome_iff_exists.mp (hhigh i (by omega) (by omega))
    have hxy : x ≠ y := fun e => by
      have := t.inj _ _ _ hx (e ▸ hy); simp at this
    have y_lt := t.stateAbove _ _ hy
    have x_lt := t.stateAbove _ _ hx
    obtain ⟨p, hp⟩ := u32Xor_exists (i := x + i) (j := y + i) (S := 16 + 1) (by omega) (by omega)
    have sx := t.sound _ _ hx
    have sy := t.sound _ _ hy
    rw [List.getElem?_append_left x_lt] at sx
    rw [List.getElem?_append_left y_lt] at sy
    have r1 : WRun cfg p ((done ++ ab) ++ (tableWords ++ ms))
        ((((sv.getD i 0 ^^^ sv.getD (i + 8) 0) :: done) ++ ab.eraseIdx y) ++ (tableWords ++ ms)) := by
      have := wrun_xor (cfg := cfg) (ab := done ++ ab) (ms := ms) hp
        (by rw [List.getElem?_append_right (by omega), show x + i - done.length = x by omega, sx])
        (by rw [List.getElem?_append_right (by omega), show y + i - done.length = y by omega, sy])
        (by rw [List.length_append]; omega) (by rw [List.length_append]; omega)
      rw [List.eraseIdx_append_of_length_le (by omega), show y + i - done.length = y by omega] at this
      exact this
    have t1 := t.extract hy
    have l1 : (ab.eraseIdx y).length = ab.length - 1 := List.length_eraseIdx_of_lt y_lt
    obtain ⟨q, rest, e2, l2, r2⟩ := ih t1 (i := i + 1)
      (done := (sv.getD i 0 ^^^ sv.getD (i + 8) 0) :: done)
      (fun j hj => by
        obtain ⟨k, hk⟩ := Option.isSome_iff_exists.mp (hlow j hj)
        rw [Env.without_ne (by simp; omega) hk]; rfl)
      (fun j h1 h2 => by
        obtain ⟨k, hk⟩ := Option.isSome_iff_exists.mp (hhigh j (by omega) h2)
        rw [Env.without_ne (by simp; omega) hk]; rfl)
      (by omega) (by simp; omega) (by simp only [List.length_cons]; omega)
    refine ⟨p ++ q, rest, ?_, by omega, ?_⟩
    · unfold b3Finish
      simp only [hx, Env.extract_eq hy, hp, Option.bind_eq_bind, Option.bind_some]
      change Option.bind (b3Finish 16 (i + 1) n (env.without _ y)) _ = _
      rw [e2]; rfl
    · rw [outWords_succ]
      have := r1.trans r2
      simpa using this

/-- The whole compression: `k` output words, word `k - 1` on top. -/
theorem b3Compress_correct (k : Nat) (hk : k ≤ 8) {sv mv ms : List Word}
    (t : Tracks env (ptrVal sv mv) ab (tableWords ++ ms)) (f : Full env) (hab : ab.length = 16)
    (hms : ms.length < 1000) (hsv : sv.length = 16) :
    ∃ p rest, b3Compress k env 16 = some p ∧ rest.length + k = 16 ∧
      WRun cfg p (ab ++ (tableWords ++ ms))
        (outWords (Blake3.rounds 6 sv mv) 0 k ++ (rest ++ (tableWords ++ ms))) := by
  obtain ⟨p1, env1, ab1, e1, f1, l1, t1, r1⟩ := b3Round_correct (cfg := cfg) t f hab hms hsv
  obtain ⟨p2, env2, ab2, mv2, e2, f2, l2, t2, r2⟩ :=
    b3PermRounds_correct (cfg := cfg) 6 t1 f1 l1 hms (by rw [round_length, hsv])
  obtain ⟨p3, rest, e3, l3, r3⟩ := b3Finish_correct (cfg := cfg) k (i := 0) (done := []) t2
    (fun j hj => f2.st j (by omega)) (fun j _ hj => f2.st _ (by omega)) (by omega) rfl
    (by simpa using l2)
  refine ⟨p1 ++ (p2 ++ p3), rest, by simp [b3Compress, e1, e2, e3], by omega, ?_⟩
  rw [rounds_eq]
  have := r1.trans (r2.trans r3)
  simpa using this

/-! ### Initial pointer maps -/

theorem ptrInit_full : Full ptrInit :=
  ⟨fun i hi => by simp [ptrInit, hi], fun i hi => by simp [ptrInit, hi], fun i k h => by
    by_cases hi : i < 16
    · exact hi
    · simp [ptrInit, hi] at h⟩

theorem ptrInit_tracks {sv mv : List Word} (hs : sv.length = 16) (hm : mv.length = 16) :
    Tracks ptrInit (ptrVal sv mv) sv (tableWords ++ mv) := by
  have h1 : ∀ i k, ptrInit (.state i) = some k → i < 16 ∧ k = i := by
    intro i k h
    by_cases hi : i < 16
    · simp [ptrInit, hi] at h; exact ⟨hi, h.symm⟩
    · simp [ptrInit, hi] at h
  have h2 : ∀ i k, ptrInit (.message i) = some k → i < 16 ∧ k = 80 + i := by
    intro i k h
    by_cases hi : i < 16
    · simp [ptrInit, hi] at h; exact ⟨hi, by omega⟩
    · simp [ptrInit, hi] at h
  constructor
  · intro p k h
    cases p with
    | state i =>
      obtain ⟨hi, rfl⟩ := h1 i k h
      rw [List.getElem?_append_left (by omega)]
      simp [ptrVal, hs, hi]
    | message i =>
      obtain ⟨hi, rfl⟩ := h2 i k h
      rw [List.getElem?_append_right (by omega), List.getElem?_append_right (by
        rw [tableWords_length]; omega), tableWords_length, show 80 + i - sv.length - 64 = i by omega]
      simp [ptrVal, hm, hi]
  · intro p q k hp hq
    cases p with
    | state i =>
      obtain ⟨hi, rfl⟩ := h1 i k hp
      cases q with
      | state j => rw [(h1 j _ hq).2]
      | message j => have := (h2 j _ hq).2; omega
    | message i =>
      obtain ⟨hi, rfl⟩ := h2 i k hp
      cases q with
      | state j => have := h1 j _ hq; omega
      | message j => have := (h2 j _ hq).2; congr 1; omega
  · intro i k h; have := h1 i k h; omega
  · intro i k h; have := h2 i k h; omega

theorem ptrInit160_full : Full ptrInit160 :=
  ⟨fun i hi => by simp [ptrInit160, hi], fun i hi => by simp [ptrInit160, hi], fun i k h => by
    by_cases hi : i < 16
    · exact hi
    · simp [ptrInit160, hi] at h⟩

/-- For the 160-bit variant the six padding words lie above the ten message words. -/
theorem ptrInit160_tracks {sv pad mv : List Word} (hs : sv.length = 16) (hp : pad.length = 6)
    (hm : mv.length = 10) :
    Tracks ptrInit160 (ptrVal sv (mv ++ pad)) sv (tableWords ++ (pad ++ mv)) := by
  have h1 : ∀ i k, ptrInit160 (.state i) = some k → i < 16 ∧ k = i := by
    intro i k h
    by_cases hi : i < 16
    · simp [ptrInit160, hi] at h; exact ⟨hi, h.symm⟩
    · simp [ptrInit160, hi] at h
  have h2 : ∀ i k, ptrInit160 (.message i) = some k →
      i < 16 ∧ k = 80 + (if i < 10 then i + 6 else i - 10) := by
    intro i k h
    by_cases hi : i < 16
    · simp only [ptrInit160, hi, if_true, Option.some.injEq] at h
      refine ⟨hi, ?_⟩
      by_cases h10 : i < 10
      · simp only [h10, if_true] at h ⊢; omega
      · simp only [h10, if_false] at h ⊢; omega
    · simp [ptrInit160, hi] at h
  constructor
  · intro p k h
    cases p with
    | state i =>
      obtain ⟨hi, rfl⟩ := h1 i k h
      rw [List.getElem?_append_left (by omega)]
      simp [ptrVal, hs, hi]
    | message i =>
      obtain ⟨hi, rfl⟩ := h2 i k h
      rw [List.getElem?_append_right (by omega), List.getElem?_append_right (by
        rw [tableWords_length]; omega), tableWords_length,
        show 80 + (if i < 10 then i + 6 else i - 10) - sv.length - 64 =
          (if i < 10 then i + 6 else i - 10) by omega]
      simp only [ptrVal, List.getD_eq_getElem?_getD]
      by_cases h10 : i < 10
      · rw [if_pos h10, List.getElem?_append_right (by omega), List.getElem?_append_left (by omega),
          show i + 6 - pad.length = i by omega]
        simp [hm, h10]
      · rw [if_neg h10, List.getElem?_append_left (by omega), List.getElem?_append_right (by omega), hm]
        simp [show i - 10 < pad.length by omega]
  · intro p q k hp hq
    cases p with
    | state i =>
      obtain ⟨hi, rfl⟩ := h1 i k hp
      cases q with
      | state j => rw [(h1 j _ hq).2]
      | message j => have := (h2 j _ hq).2; omega
    | message i =>
      obtain ⟨hi, rfl⟩ := h2 i k hp
      cases q with
      | state j => have := h1 j _ hq; omega
      | message j =>
        obtain ⟨hj, e⟩ := h2 j _ hq
        congr 1
        split at e <;> split at e <;> omega
  · intro i k h; have := h1 i k h; omega
  · intro i k h; have := h2 i k h; omega

end TapStark
