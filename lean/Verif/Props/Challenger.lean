import Verif.Proofs.Challenger
import Mathlib.Tactic.IntervalCases
import Mathlib.Tactic.FinCases
import Mathlib.Tactic.Positivity
import Mathlib.Data.Nat.ModEq

/-!
Properties C28 to C33, C70: the Fiat-Shamir challenger.

`perm` is any width-preserving function where the theorem says so; `blake3Perm hash` is the
permutation of the code with an arbitrary hash function.
-/

namespace TapStark.FS

variable {PF : Type}

/-! ### C28 -/

theorem observeNested_eq (W : Nat) (perm : List PF → List PF) (c : Chal PF) (vss : List (List PF)) :
    c.observeNested W perm vss = c.observeAll W perm vss.flatten := by
  unfold Chal.observeNested Chal.observeAll
  induction vss generalizing c with
  | nil => rfl
  | cons v vss ih =>
    rw [List.foldlM_cons, List.flatten_cons, List.foldlM_append]
    congr 1
    funext d
    exact ih d

theorem call_eq (W : Nat) (perm : List PF → List PF) (c : Chal PF) (k : Call PF) :
    k.exec W perm c = (k.words).foldlM (Chal.observe W perm) c := by
  cases k with
  | word v => simp [Call.exec, Call.words]
  | array vs => rfl
  | hash vs => rfl
  | arrays vss => exact observeNested_eq W perm c vss
  | nested vss => exact observeNested_eq W perm c vss

/-- **C28** Two sequences of observation calls that present the same words in the same order, in any
mixture of groupings, leave any challenger in the same state. -/
theorem C28_grouping (W : Nat) (perm : List PF → List PF) (c : Chal PF) (a b : List (Call PF))
    (h : a.flatMap Call.words = b.flatMap Call.words) :
    a.foldlM (Call.exec W perm) c = b.foldlM (Call.exec W perm) c := by
  have key : ∀ (l : List (Call PF)) (c : Chal PF), l.foldlM (Call.exec W perm) c =
      (l.flatMap Call.words).foldlM (Chal.observe W perm) c := by
    intro l
    induction l with
    | nil => intro c; rfl
    | cons k l ih =>
      intro c
      rw [List.foldlM_cons, List.flatMap_cons, List.foldlM_append, call_eq]
      congr 1
      funext d
      exact ih d
  rw [key, key, h]

example : [Call.word 1, .hash [2, 3], .nested [[4], [], [5, 6]]].flatMap Call.words =
    [Call.array [1, 2, 3, 4, 5, 6]].flatMap Call.words := by decide

/-! ### C29 -/

/-- **C29** No history of observations and samples makes the challenger panic, and every challenge is
fresh: the permutation calls absorbed exactly the observed words, in order, each call's input being
its words written over the previous output; and every drawn word is an output word of a call by
which every word observed before the sample had been absorbed. -/
theorem C29_fresh (W : Nat) (hW : 2 ≤ W) (perm : List PF → List PF)
    (hp : ∀ s : List PF, s.length = W → (perm s).length = W) (z : PF) (deg : Nat)
    (hd : deg = 1 ∨ deg = 4) (h : List (Cmd PF)) :
    ∃ c vs c', exec W perm deg (Chal.new W z) h = some c ∧ c.sample W perm deg = some (vs, c') ∧
      vs.length = deg ∧
      ∃ blocks, Absorbs perm (List.replicate W z) blocks c'.inRecords ∧
        blocks.flatten = observed h ∧ (∀ b ∈ blocks, b.length ≤ W / 2) ∧
        ∀ v ∈ vs, ∃ (r : Nat) (hr : r < c'.inRecords.length),
          (blocks.take (r + 1)).flatten = observed h ∧ v ∈ (perm c'.inRecords[r]).drop (W / 2) := by
  obtain ⟨c, b, h1, h2, -⟩ := (inv_new (perm := perm) (z := z) hW).exec hp hW hd h
  obtain ⟨vs, c', b', e1, e2, -, e4, e5, -, -, e8⟩ := h2.sample hp hW hd
  rw [List.nil_append] at e2 e8
  refine ⟨c, vs, c', h1, e1, e5, b', e2.absorbs, ?_, e2.short, e8⟩
  have := e2.words
  rwa [e4, List.append_nil] at this

/-- **C29** Exactly which words are drawn.  After an observation, let `s` be the state that has
absorbed everything observed so far.  The `k`-th word drawn is word `W - 1 - k mod (W/2)` of the
state `s` permuted `k / (W/2)` times: the second half is handed out from the end, no word twice,
and a new permutation call is made when it is used up. -/
theorem C29_squeeze (W : Nat) (hW : 2 ≤ W) (he : W % 2 = 0) (perm : List PF → List PF)
    (hp : ∀ s : List PF, s.length = W → (perm s).length = W) (z : PF) (deg : Nat)
    (hd : deg = 1 ∨ deg = 4) (h : List (Cmd PF)) (v : PF) (n : Nat) :
    ∃ c, exec W perm deg (Chal.new W z) (h ++ [.observe v]) = some c ∧
      ∃ ws c', c.sampleWords W perm n = some (ws, c') ∧ ws.length = n ∧ ∀ k, k < n →
        ws[k]? = (perm^[k / (W / 2)] (if c.input = [] then c.sponge
          else perm (c.input ++ c.sponge.drop c.input.length)))[W - 1 - k % (W / 2)]? := by
  obtain ⟨c0, b, h1, h2, -⟩ := (inv_new (perm := perm) (z := z) hW).exec hp hW hd h
  have hex : ∀ c, c0.observe W perm v = some c →
      exec W perm deg (Chal.new W z) (h ++ [.observe v]) = some c := by
    intro c hc
    unfold exec at h1 ⊢
    rw [List.foldlM_append, h1]
    simp [Cmd.exec, hc]
  unfold Chal.observe at hex
  simp only at hex
  have hpend := h2.pending
  by_cases hf : (c0.input ++ [v]).length = W / 2
  · rw [if_pos hf] at hex
    obtain ⟨c, e1, e2, e3, e4, -⟩ := inv_duplex (z := z) (obs := observed h ++ [v])
      (c := { c0 with output := [], input := c0.input ++ [v] }) (blocks := b)
      hp hW h2.width (by simp only; omega) h2.absorbs (by simp only; rw [← List.append_assoc, h2.words, List.nil_append]) h2.short h2.state
      h2.outs
    refine ⟨c, hex c e1, ?_⟩
    rw [if_pos e3]
    obtain ⟨ws, c', f1, f2, f3⟩ := Squeezing.words hp hW he n c c.sponge 0 e2.width
      ⟨e3, rfl, by rw [e4, List.take_of_length_le]; simp [e2.width]⟩ (by omega)
    exact ⟨ws, c', f1, f2, by simpa using f3⟩
  · rw [if_neg hf] at hex
    refine ⟨_, hex _ rfl, ?_⟩
    simp only [List.append_eq_nil_iff, List.cons_ne_self, and_false, if_false]
    set c : Chal PF := { c0 with output := [], input := c0.input ++ [v] } with hc
    have hlen : (c.input ++ c.sponge.drop c.input.length).length = W := by
      simp only [hc, List.length_append, List.length_drop, h2.width, List.length_singleton] at hf ⊢
      omega
    have hinv : Inv W perm z c (observed h ++ [v]) b := by
      simp only [List.length_append, List.length_singleton] at hf
      exact ⟨h2.width, by simp [hc]; omega, h2.absorbs, by simp only [hc]; rw [← List.append_assoc, h2.words, List.nil_append], h2.short,
        h2.state, h2.outs, .inl rfl⟩
    cases n with
    | zero => exact ⟨[], c, rfl, rfl, by omega⟩
    | succ n =>
      obtain ⟨d, e1, e2, e3, e4, -, e6, -⟩ := hinv.duplex hp hW
      obtain ⟨ws, c', f1, f2, f3⟩ := Squeezing.words hp hW he (n + 1) d d.sponge 0 e2.width
        ⟨e3, rfl, by rw [e4, List.take_of_length_le]; simp [e2.width]⟩ (by omega)
      refine ⟨ws, c', ?_, f2, ?_⟩
      · rw [← f1]
        unfold Chal.sampleWords Chal.sampleWord
        have hne : d.output.isEmpty = false := by
          cases ho : d.output with
          | nil =>
            have := congrArg List.length e4
            rw [ho, List.length_drop, e2.width] at this
            simp at this; omega
          | cons a b => rfl
        have hci : c.input.isEmpty = false := by simp [hc]
        simp [hci, e1, e3, hne]
      · intro k hk
        have := f3 k hk
        rw [Nat.zero_add] at this
        rw [this, e6]

/-- The challenger of the code: width 16, words of four bytes, BLAKE3. -/
theorem blake3Perm_length (hash : List UInt8 → U256) (s : List U32) :
    (blake3Perm hash s).length = 16 := by simp [blake3Perm]

example (hash : List UInt8 → U256) (h : List (Cmd U32)) :
    ∃ c, exec 16 (blake3Perm hash) 4 (Chal.new 16 (fromU64 0)) h = some c :=
  let ⟨c, _, _, h1, _⟩ := C29_fresh 16 (by omega) (blake3Perm hash)
    (fun s _ => blake3Perm_length hash s) (fromU64 0) 4 (.inr rfl) h
  ⟨c, h1⟩

/-! ### C30 -/

theorem fromPf_lt (x : U32) : fromPf x < babyBearP := Nat.mod_lt _ (by decide)

/-- **C30, the part that holds**: the result is below `2^bits` for up to 32 bits. -/
theorem C30_range_partial (perm : List U32 → List U32) (deg bits : Nat) (c c' : Chal U32) (r : Nat)
    (h : sampleBits perm deg bits c = some (r, c')) : r < 2 ^ bits := by
  unfold sampleBits at h
  simp only [Option.bind_eq_bind, Option.bind_eq_some_iff, Prod.exists] at h
  obtain ⟨vs, d, -, x, hx, h⟩ := h
  split at h
  case isFalse => cases h
  case isTrue hb =>
    simp only [Option.some.injEq, Prod.mk.injEq] at h
    obtain ⟨rfl, -⟩ := h
    unfold asUsize at hx
    rw [Option.map_eq_some_iff] at hx
    obtain ⟨w, -, rfl⟩ := hx
    rw [Nat.shiftRight_eq_div_pow, Nat.div_lt_iff_lt_mul (by positivity), ← Nat.pow_add,
      show bits + (32 - bits) = 32 by omega]
    have := fromPf_lt w
    unfold babyBearP at this
    omega

/-- **C30 is violated**: the result never exceeds `0x78000000 >> (32 - bits)`; in particular it is
always below `2^(bits-1)`, so half of the requested range is never sampled. -/
theorem C30_upper_half_never (perm : List U32 → List U32) (deg bits : Nat) (c c' : Chal U32) (r : Nat)
    (hb : 1 ≤ bits) (h : sampleBits perm deg bits c = some (r, c')) :
    r ≤ 0x78000000 / 2 ^ (32 - bits) ∧ r < 2 ^ (bits - 1) := by
  unfold sampleBits at h
  simp only [Option.bind_eq_bind, Option.bind_eq_some_iff, Prod.exists] at h
  obtain ⟨vs, d, -, x, hx, h⟩ := h
  split at h
  case isFalse => cases h
  case isTrue hb' =>
    simp only [Option.some.injEq, Prod.mk.injEq] at h
    obtain ⟨rfl, -⟩ := h
    unfold asUsize at hx
    rw [Option.map_eq_some_iff] at hx
    obtain ⟨w, -, rfl⟩ := hx
    have := fromPf_lt w
    unfold babyBearP at this
    rw [Nat.shiftRight_eq_div_pow]
    refine ⟨Nat.div_le_div_right (by omega), ?_⟩
    rw [Nat.div_lt_iff_lt_mul (by positivity), ← Nat.pow_add,
      show bits - 1 + (32 - bits) = 31 by omega]
    omega

theorem leValue_fromU64 {v : Nat} (h : v < 2 ^ 32) : leValue (fromU64 v) = v := by
  simp only [leValue, fromU64]
  simp only [Vector.getElem_mk, List.getElem_toArray, List.getElem_cons_zero,
    List.getElem_cons_succ, UInt8.toNat_ofNat']
  omega

/-- **C30, surjectivity onto what remains**: every value up to `0x78000000 >> (32 - bits)` is the
result for some permutation output. -/
theorem C30_onto_partial (deg bits : Nat) (hd : deg = 1 ∨ deg = 4) (hb : bits ≤ 32) (r : Nat)
    (hr : r ≤ 0x78000000 / 2 ^ (32 - bits)) :
    ∃ (perm : List U32 → List U32) (c' : Chal U32), (∀ s, (perm s).length = 16) ∧
      sampleBits perm deg bits (Chal.new 16 (fromU64 0)) = some (r, c') := by
  have hle : r * 2 ^ (32 - bits) ≤ 0x78000000 :=
    le_trans (Nat.mul_le_mul_right _ hr) (Nat.div_mul_le_self _ _)
  have hv : fromPf (fromU64 (r * 2 ^ (32 - bits))) = r * 2 ^ (32 - bits) := by
    unfold fromPf
    rw [leValue_fromU64 (by omega), Nat.mod_eq_of_lt]
    unfold babyBearP; omega
  have hdiv : (r * 2 ^ (32 - bits)) >>> (32 - bits) = r := by
    rw [Nat.shiftRight_eq_div_pow, Nat.mul_div_cancel _ (by positivity)]
  suffices h : ∃ c', sampleBits (fun _ => List.replicate 16 (fromU64 (r * 2 ^ (32 - bits)))) deg bits
      (Chal.new 16 (fromU64 0)) = some (r, c') from
    let ⟨c', h⟩ := h
    ⟨_, c', by simp, h⟩
  rcases hd with rfl | rfl <;>
  · simp [sampleBits, Chal.sample, Chal.sampleWords, Chal.sampleWord, Chal.new, Chal.duplexing,
      asUsize, hv, hdiv, hb, List.replicate]

/-- **C30** More than 32 bits panic. -/
theorem C30_more_than_32_panics (perm : List U32 → List U32) (deg bits : Nat) (hb : 32 < bits)
    (c : Chal U32) : sampleBits perm deg bits c = none := by
  unfold sampleBits
  cases h1 : c.sample 16 perm deg with
  | none => rfl
  | some p =>
    cases h2 : asUsize p.1 with
    | none => simp [h2]
    | some r => simp [show ¬ bits ≤ 32 by omega]

/-! ### C31 -/

/-- Equality of everything that influences later behaviour (all fields but the grinding records). -/
def SameState (a b : Chal U32) : Prop :=
  a.sponge = b.sponge ∧ a.input = b.input ∧ a.output = b.output ∧ a.inRecords = b.inRecords ∧
    a.outRecords = b.outRecords ∧ a.samples = b.samples

/-- **C31** Whatever witness the search returns, the verifier's check accepts it from the state before
grinding, and afterwards both challengers are in the same state. -/
theorem C31_grind_accepted (perm : List U32 → List U32) (deg bits : Nat) (c c' : Chal U32) (w : U32)
    (h : Grinds perm deg bits c w c') :
    ∃ cv, checkWitness perm deg bits w c = some (true, cv) ∧ SameState c' cv ∧
      c'.grindBits = some bits := by
  obtain ⟨-, c1, h1, rfl⟩ := h
  exact ⟨c1, h1, ⟨rfl, rfl, rfl, rfl, rfl, rfl⟩, rfl⟩

theorem duplexing_same (perm : List U32 → List U32) {a b a' : Chal U32} (h : SameState a b)
    (ha : a.duplexing 16 perm = some a') :
    ∃ b', b.duplexing 16 perm = some b' ∧ SameState a' b' := by
  obtain ⟨h1, h2, h3, h4, h5, h6⟩ := h
  unfold Chal.duplexing at *
  rw [← h2]
  split at ha
  case isFalse => cases ha
  case isTrue hl =>
    rw [if_pos hl]
    obtain rfl := Option.some.inj ha
    refine ⟨_, rfl, ?_⟩
    simp [SameState, h1, h4, h5, h6]

theorem observe_same (perm : List U32 → List U32) {a b a' : Chal U32} (h : SameState a b) (v : U32)
    (ha : a.observe 16 perm v = some a') : ∃ b', b.observe 16 perm v = some b' ∧ SameState a' b' := by
  unfold Chal.observe at *
  simp only at *
  have hs : SameState { a with output := [], input := a.input ++ [v] }
      { b with output := [], input := b.input ++ [v] } := by
    obtain ⟨h1, h2, h3, h4, h5, h6⟩ := h
    exact ⟨h1, by simp [h2], rfl, h4, h5, h6⟩
  rw [← h.2.1]
  rw [← h.2.1] at hs
  split at ha
  case isTrue hl => rw [if_pos hl]; exact duplexing_same perm hs ha
  case isFalse hl => rw [if_neg hl]; obtain rfl := Option.some.inj ha; exact ⟨_, rfl, hs⟩

theorem sampleWord_same (perm : List U32 → List U32) {a b a' : Chal U32} {v : U32}
    (h : SameState a b) (ha : a.sampleWord 16 perm = some (v, a')) :
    ∃ b', b.sampleWord 16 perm = some (v, b') ∧ SameState a' b' := by
  unfold Chal.sampleWord at *
  have pop : ∀ {x y x' : Chal U32}, SameState x y →
      (x.output.getLast?.bind fun v => some (v, { x with output := x.output.dropLast })) =
        some (v, x') →
      ∃ y', (y.output.getLast?.bind fun v => some (v, { y with output := y.output.dropLast })) =
        some (v, y') ∧ SameState x' y' := by
    intro x y x' hxy hx
    obtain ⟨h1, h2, h3, h4, h5, h6⟩ := hxy
    rw [Option.bind_eq_some_iff] at hx
    obtain ⟨u, hu, hx⟩ := hx
    simp only [Option.some.injEq, Prod.mk.injEq] at hx
    obtain ⟨rfl, rfl⟩ := hx
    refine ⟨_, by rw [← h3, hu]; rfl, ?_⟩
    simp [SameState, h1, h2, h4, h5, h6]
  simp only [Option.bind_eq_bind] at ha ⊢
  rw [← h.2.1, ← h.2.2.1]
  split at ha
  case isTrue hc =>
    rw [if_pos hc]
    rw [Option.bind_eq_some_iff] at ha
    obtain ⟨d, hd, ha⟩ := ha
    obtain ⟨e, he, hs⟩ := duplexing_same perm h hd
    rw [he]
    exact pop hs ha
  case isFalse hc =>
    rw [if_neg hc]
    exact pop h ha

theorem sampleWords_same (perm : List U32 → List U32) : ∀ (n : Nat) {a b a' : Chal U32}
    {vs : List U32}, SameState a b → a.sampleWords 16 perm n = some (vs, a') →
    ∃ b', b.sampleWords 16 perm n = some (vs, b') ∧ SameState a' b' := by
  intro n
  induction n with
  | zero =>
    intro a b a' vs h ha
    simp only [Chal.sampleWords, Option.some.injEq, Prod.mk.injEq] at ha
    obtain ⟨rfl, rfl⟩ := ha
    exact ⟨b, rfl, h⟩
  | succ n ih =>
    intro a b a' vs h ha
    simp only [Chal.sampleWords, Option.bind_eq_bind, Option.bind_eq_some_iff, Prod.exists,
      Option.some.injEq, Prod.mk.injEq] at ha
    obtain ⟨v, d, h1, ws, e, h2, rfl, rfl⟩ := ha
    obtain ⟨b1, e1, s1⟩ := sampleWord_same perm h h1
    obtain ⟨b2, e2, s2⟩ := ih s1 h2
    exact ⟨b2, by simp [Chal.sampleWords, e1, e2], s2⟩

/-- **C31** Challengers in the same state produce the same further challenges: running any history
keeps them in the same state, and the sample records are part of the state. -/
theorem C31_same_future (perm : List U32 → List U32) (deg : Nat) (h : List (Cmd U32)) :
    ∀ {a b a' : Chal U32}, SameState a b → exec 16 perm deg a h = some a' →
      ∃ b', exec 16 perm deg b h = some b' ∧ SameState a' b' := by
  induction h with
  | nil =>
    intro a b a' hs ha
    simp only [exec, List.foldlM_nil, Option.pure_def, Option.some.injEq] at ha
    exact ⟨b, rfl, ha ▸ hs⟩
  | cons k h ih =>
    intro a b a' hs ha
    unfold exec at ha ih ⊢
    simp only [List.foldlM_cons, Option.bind_eq_bind, Option.bind_eq_some_iff] at ha ⊢
    obtain ⟨d, h1, h2⟩ := ha
    have : ∃ e, Cmd.exec 16 perm deg b k = some e ∧ SameState d e := by
      cases k with
      | observe v => exact observe_same perm hs v h1
      | sample =>
        simp only [Cmd.exec, Option.map_eq_some_iff, Prod.exists, exists_eq_right] at h1
        obtain ⟨vs, h1⟩ := h1
        unfold Chal.sample at h1
        split at h1
        case isFalse => cases h1
        case isTrue hdeg =>
          simp only [Option.bind_eq_bind, Option.bind_eq_some_iff, Prod.exists, Option.some.injEq,
            Prod.mk.injEq] at h1
          obtain ⟨ws, e, h3, rfl, rfl⟩ := h1
          obtain ⟨b1, h4, s4⟩ := sampleWords_same perm deg hs h3
          refine ⟨{ b1 with samples := b1.samples ++ [ws] }, ?_, ?_⟩
          · simp [Cmd.exec, Chal.sample, hdeg, h4]
          · obtain ⟨g1, g2, g3, g4, g5, g6⟩ := s4
            exact ⟨g1, g2, g3, g4, g5, by simp [g6]⟩
    obtain ⟨e, h3, h4⟩ := this
    obtain ⟨b', h5, h6⟩ := ih h4 h2
    exact ⟨b', ⟨e, h3, h5⟩, h6⟩

/-- What the check computes on a fresh challenger, for eight bits. -/
theorem checkWitness_new (perm : List U32 → List U32) (w last : U32) (L : List U32)
    (hL : L.length = 15) (hperm : perm (w :: List.replicate 15 (fromU64 0)) = L ++ [last]) :
    ∃ c', checkWitness perm 1 8 w (Chal.new 16 (fromU64 0)) =
      some (decide (fromPf last >>> 24 = 0), c') := by
  have h1 : ((L ++ [last]).drop 8).take 8 = L.drop 8 ++ [last] := by
    rw [List.drop_append_of_le_length (by omega), List.take_of_length_le (by simp; omega)]
  rw [show List.replicate 15 (fromU64 0) = List.replicate 7 (fromU64 0) ++ List.replicate 8 (fromU64 0)
    from rfl] at hperm
  simp only [List.replicate, List.cons_append, List.nil_append] at hperm
  simp [checkWitness, Chal.observe, Chal.observeAll, Chal.new, Chal.duplexing, sampleBits,
    Chal.sample, Chal.sampleWords, Chal.sampleWord, List.replicate, hperm, h1, asUsize]

/-- Non-vacuous: with an all-zero permutation every witness is found. -/
example : ∃ c', Grinds (fun _ => List.replicate 16 (fromU64 0)) 1 8 (Chal.new 16 (fromU64 0))
    (fromU64 5) c' := by
  obtain ⟨c', h⟩ := checkWitness_new (fun _ => List.replicate 16 (fromU64 0)) (fromU64 5) (fromU64 0)
    (List.replicate 15 (fromU64 0)) rfl rfl
  exact ⟨_, ⟨5, by decide, rfl⟩, c', h, rfl⟩

/-! ### C71 -/

/-- **C71** The proof-of-work check on a challenger without pending words makes exactly one
permutation call, on the witness and seven zero words followed by the second half of the state, and
accepts exactly when the top `bits` bits of the last output word, as a field element, are zero. -/
theorem C71_pow_block (perm : List U32 → List U32) (deg : Nat) (hd : deg = 1 ∨ deg = 4) (bits : Nat)
    (hb : bits ≤ 32) (w : U32) (c : Chal U32) (hc : c.input = [])
    (hp : ∀ s : List U32, s.length = 16 → (perm s).length = 16) (hs : c.sponge.length = 16) :
    ∃ (last : U32) (c' : Chal U32),
      (perm (w :: List.replicate 7 (fromU64 0) ++ c.sponge.drop 8)).getLast? = some last ∧
      checkWitness perm deg bits w c = some (decide (fromPf last / 2 ^ (32 - bits) = 0), c') ∧
      c'.inRecords = c.inRecords ++ [w :: List.replicate 7 (fromU64 0) ++ c.sponge.drop 8] ∧
      c'.sponge = perm (w :: List.replicate 7 (fromU64 0) ++ c.sponge.drop 8) := by
  have hlen := hp (w :: List.replicate 7 (fromU64 0) ++ c.sponge.drop 8) (by simp [hs])
  generalize hS : perm (w :: List.replicate 7 (fromU64 0) ++ c.sponge.drop 8) = S at hlen
  have hperm : perm (w :: fromU64 0 :: fromU64 0 :: fromU64 0 :: fromU64 0 :: fromU64 0 :: fromU64 0 ::
      fromU64 0 :: c.sponge.drop 8) = S := by rw [← hS]; rfl
  obtain ⟨L, x0, x1, x2, x3, x4, x5, x6, x7, hL, rfl⟩ : ∃ (L : List U32) (x0 x1 x2 x3 x4 x5 x6 x7 : U32),
      L.length = 8 ∧ S = L ++ [x0, x1, x2, x3, x4, x5, x6, x7] := by
    refine ⟨S.take 8, S[8], S[9], S[10], S[11], S[12], S[13], S[14], S[15], by simp [hlen], ?_⟩
    apply List.ext_getElem (by simp [hlen])
    intro i h1 h2
    rw [List.getElem_append]
    split
    · simp
    · rename_i hge
      rw [List.length_take, hlen] at hge
      have hlt : i < 16 := by omega
      have hge' : 8 ≤ i := by omega
      clear hge
      interval_cases i <;> simp [hlen]
  have hdrop : ((L ++ [x0, x1, x2, x3, x4, x5, x6, x7]).drop 8).take 8 =
      [x0, x1, x2, x3, x4, x5, x6, x7] := by
    rw [List.drop_left' hL, List.take_of_length_le (by simp)]
  refine ⟨x7, ?_⟩
  rw [← Nat.shiftRight_eq_div_pow]
  obtain ⟨sp, inp, out, ir, or, gb, go, sm⟩ := c
  simp only at hc hperm hs hS
  subst hc
  rcases hd with rfl | rfl <;>
  · simp [checkWitness, Chal.observe, Chal.observeAll, Chal.duplexing, sampleBits,
      Chal.sample, Chal.sampleWords, Chal.sampleWord, List.replicate, hperm, hdrop, asUsize, hb]

/-- Every challenger that has just sampled has no pending words. -/
example (hash : List UInt8 → U256) (h : List (Cmd U32)) :
    ∃ c, exec 16 (blake3Perm hash) 4 (Chal.new 16 (fromU64 0)) (h ++ [.sample]) = some c ∧
      c.input = [] ∧ c.sponge.length = 16 := by
  have hp : ∀ s : List U32, s.length = 16 → (blake3Perm hash s).length = 16 :=
    fun s _ => blake3Perm_length hash s
  obtain ⟨c, b, h1, h2, -⟩ :=
    (inv_new (perm := blake3Perm hash) (z := fromU64 0) (W := 16) (by omega)).exec hp (by omega)
      (deg := 4) (.inr rfl) h
  obtain ⟨vs, d, b', e1, e2, -, e4, -⟩ := h2.sample hp (by omega) (deg := 4) (.inr rfl)
  refine ⟨d, ?_, e4, e2.width⟩
  unfold exec at h1 ⊢
  rw [List.foldlM_append, h1]
  simp [Cmd.exec, e1]

/-! ### C32 -/

/-- A hash that is zero exactly on inputs that start with the bytes of the witness 4096. -/
def pickyHash (bs : List UInt8) : U256 :=
  if bs.take 4 = [0, 16, 0, 0] then Vector.replicate 32 0 else Vector.replicate 32 1

/-- **C32 is violated**: the search covers only the 4096 smallest witnesses.  There is a hash
function for which it panics although a 32-bit witness is accepted. -/
theorem C32_search_incomplete :
    GrindPanics (blake3Perm pickyHash) 1 8 (Chal.new 16 (fromU64 0)) ∧
    ∃ w c', checkWitness (blake3Perm pickyHash) 1 8 w (Chal.new 16 (fromU64 0)) =
      some (true, c') := by
  have hw : ∀ w : U32, pickyHash ((w :: List.replicate 15 (fromU64 0)).flatMap Vector.toList) =
      if w.toList = [0, 16, 0, 0] then Vector.replicate 32 0 else Vector.replicate 32 1 := by
    intro w
    unfold pickyHash
    rw [List.flatMap_cons, List.take_append_of_le_length (by simp), List.take_of_length_le (by simp)]
  constructor
  · intro i hi c1 hc
    have hne : (fromU64 i).toList ≠ [0, 16, 0, 0] := by
      intro h
      have h1 : UInt8.ofNat (i / 256) = 16 := by
        have := congrArg (fun l => l[1]?) h
        simpa [fromU64] using this
      have h2 := congrArg UInt8.toNat h1
      simp [modP] at h2 hi
      omega
    obtain ⟨c', h⟩ := checkWitness_new (blake3Perm pickyHash) (fromU64 i) #v[1, 1, 1, 1]
      (List.replicate 8 (fromU64 0) ++ List.replicate 7 #v[1, 1, 1, 1]) rfl (by
        unfold blake3Perm
        rw [hw, if_neg hne]
        decide)
    rw [h] at hc
    have : fromPf #v[1, 1, 1, 1] >>> 24 ≠ 0 := by decide
    simp [this] at hc
  · refine ⟨fromU64 4096, ?_⟩
    obtain ⟨c', h⟩ := checkWitness_new (blake3Perm pickyHash) (fromU64 4096) #v[0, 0, 0, 0]
      (List.replicate 8 (fromU64 0) ++ List.replicate 7 #v[0, 0, 0, 0]) rfl (by
        unfold blake3Perm
        rw [hw, if_pos (by decide)]
        decide)
    exact ⟨c', by rw [h, decide_eq_true (by decide)]⟩

/-- **C32, the part that holds**: the search panics only if none of the 4096 smallest witnesses is
accepted. -/
theorem C32_small_partial (perm : List U32 → List U32) (deg bits : Nat) (c c1 : Chal U32) (i : Nat)
    (hi : i < 4096) (h : checkWitness perm deg bits (fromU64 i) c = some (true, c1)) :
    ¬ GrindPanics perm deg bits c ∧ ∃ w c', Grinds perm deg bits c w c' :=
  ⟨fun hp => hp i hi c1 h, _, _, ⟨i, hi, rfl⟩, c1, h, rfl⟩

/-! ### C33 -/

theorem C33_digest_roundtrip (d : U256) : u32ToU256 (u256ToU32 d) = d := by
  apply Vector.ext
  intro k hk
  simp only [u32ToU256, u256ToU32, Vector.getElem_ofFn]
  congr 1
  omega

theorem C33_words_roundtrip (d : Vector U32 8) : u256ToU32 (u32ToU256 d) = d := by
  apply Vector.ext
  intro i hi
  apply Vector.ext
  intro j hj
  simp only [u32ToU256, u256ToU32, Vector.getElem_ofFn]
  have h1 : (i * 4 + j) / 4 = i := by omega
  have h2 : (i * 4 + j) % 4 = j := by omega
  simp only [h1, h2]

/-- **C33** The bytes of the words, one after the other, are the bytes of the digest. -/
theorem C33_byte_order (d : U256) : ((u256ToU32 d).toList.map Vector.toList).flatten = d.toList := by
  apply List.ext_getElem (by simp [Function.comp_def])
  have : ∀ k : Fin 32, ((u256ToU32 d).toList.map Vector.toList).flatten[k.val]? = some d[k.val] := by
    intro k
    simp only [u256ToU32]
    fin_cases k <;> rfl
  intro k h1 h2
  have h3 : k < 32 := by simpa using h2
  have := this ⟨k, h3⟩
  rw [List.getElem?_eq_getElem h1] at this
  simpa using this

/-- **C33** A word built from an integer below `2^32` has that value, and every word is the word of
its value. -/
theorem C33_u64_roundtrip (v : Nat) (h : v < 2 ^ 32) : leValue (fromU64 v) = v := leValue_fromU64 h

theorem C33_value_roundtrip (w : U32) : fromU64 (leValue w) = w ∧ leValue w < 2 ^ 32 := by
  have h0 := w[0].toNat_lt
  have h1 := w[1].toNat_lt
  have h2 := w[2].toNat_lt
  have h3 := w[3].toNat_lt
  refine ⟨?_, by unfold leValue; omega⟩
  apply Vector.ext
  intro i hi
  apply UInt8.toNat_inj.1
  unfold fromU64 leValue
  rcases i with _ | _ | _ | _ | i
  · simp; try omega
  · simp; omega
  · simp; omega
  · simp; omega
  · omega

/-- **C33** The field element of a word is the canonical representative of its little-endian value. -/
theorem C33_field (w : U32) : fromPf w < 0x78000001 ∧ fromPf w ≡ leValue w [MOD 0x78000001] :=
  ⟨fromPf_lt w, Nat.mod_modEq _ _⟩

/-- **C33** A slice converts to a word exactly when it has four bytes; otherwise the conversion
panics. -/
theorem C33_slice (a : List UInt8) :
    (fromU8Array a = none ↔ a.length ≠ 4) ∧ ∀ w, fromU8Array a = some w → w.toList = a := by
  unfold fromU8Array
  constructor
  · split <;> simp_all
  · intro w h
    split at h
    · obtain rfl := Option.some.inj h; simp
    · cases h

example : leValue #v[1, 2, 3, 4] = 0x04030201 ∧ fromPf #v[1, 0, 0, 0x78] = 0 := by decide

/-! ### C70 -/

/-- The bytes hashed by one permutation call. -/
def callBytes (i : List U32) : List UInt8 := i.flatMap Vector.toList

theorem callBytes_inj : ∀ {i j : List U32}, callBytes i = callBytes j → i = j
  | [], [], _ => rfl
  | [], b :: j, h => by
    have := congrArg List.length h; simp [callBytes] at this; try omega
  | a :: i, [], h => by
    have := congrArg List.length h; simp [callBytes] at this; try omega
  | a :: i, b :: j, h => by
    simp only [callBytes, List.flatMap_cons] at h
    have := List.append_inj h (by simp)
    rw [Vector.toList_inj.1 this.1, callBytes_inj this.2]

theorem u256ToU32_inj {a b : U256} (h : u256ToU32 a = u256ToU32 b) : a = b := by
  rw [← C33_digest_roundtrip a, h, C33_digest_roundtrip]

theorem blake3Perm_drop (hash : List UInt8 → U256) (s : List U32) :
    (blake3Perm hash s).drop 8 = (u256ToU32 (hash (callBytes s))).toList := by
  unfold blake3Perm callBytes
  rw [List.drop_left' (by simp)]

theorem Absorbs.binding (hash : List UInt8 → U256) : ∀ {init init' : List U32}
    {bs bs' is is' : List (List U32)}, Absorbs (blake3Perm hash) init bs is →
    Absorbs (blake3Perm hash) init' bs' is' → bs.map List.length = bs'.map List.length →
    (∀ b ∈ bs, b.length ≤ 8) →
    (lastState (blake3Perm hash) init is).drop 8 = (lastState (blake3Perm hash) init' is').drop 8 →
    (∃ (k : Nat) (i i' : List U32), is[k]? = some i ∧ is'[k]? = some i' ∧
      callBytes i ≠ callBytes i' ∧ hash (callBytes i) = hash (callBytes i')) ∨
    (init.drop 8 = init'.drop 8 ∧ bs = bs')
  | init, init', [], [], [], [], _, _, _, _, h => .inr ⟨by simpa [lastState] using h, rfl⟩
  | init, init', b :: bs, b' :: bs', i :: is, i' :: is', h1, h2, hl, hs, h => by
    simp only [List.map_cons, List.cons.injEq] at hl
    rw [lastState_cons, lastState_cons] at h
    rcases Absorbs.binding hash h1.2.2 h2.2.2 hl.2 (fun b hb => hs b (by simp [hb])) h with
      ⟨k, j, j', e1, e2, e3⟩ | ⟨e1, e2⟩
    · exact .inl ⟨k + 1, j, j', by simpa using e1, by simpa using e2, e3⟩
    · rw [blake3Perm_drop, blake3Perm_drop, Vector.toList_inj] at e1
      have e1 := u256ToU32_inj e1
      by_cases he : callBytes i = callBytes i'
      · have := callBytes_inj he
        rw [h1.2.1, h2.2.1] at this
        obtain ⟨g1, g2⟩ := List.append_inj this hl.1
        refine .inr ⟨?_, by rw [g1, e2]⟩
        have hb := hs b (by simp)
        have g3 := congrArg (List.drop (8 - b.length)) g2
        rw [List.drop_drop, List.drop_drop, ← hl.1] at g3
        rwa [show b.length + (8 - b.length) = 8 by omega] at g3
      · exact .inl ⟨0, i, i', rfl, rfl, he, e1⟩
  | _, _, [], _, _ :: _, _, h, _, _, _, _ => h.elim
  | _, _, _ :: _, _, [], _, h, _, _, _, _ => h.elim
  | _, _, _, [], _, _ :: _, _, h, _, _, _ => h.elim
  | _, _, _, _ :: _, _, [], _, h, _, _, _ => h.elim
  | _, _, [], _ :: _, _, _, _, _, h, _, _ => by simp at h
  | _, _, _ :: _, [], _, _, _, _, h, _, _ => by simp at h

/-- **C70, the part that holds**: two histories with the same pattern of observations and samples,
ending in a sample, that reach the same sponge state observed the same words, unless two of the
recorded permutation inputs collide under the hash. -/
theorem C70_transcript_binding_partial (hash : List UInt8 → U256) (deg : Nat) (hd : deg = 1 ∨ deg = 4)
    (h₁ h₂ : List (Cmd U32)) (hs : shape h₁ = shape h₂) :
    ∃ c₁ c₂, exec 16 (blake3Perm hash) deg (Chal.new 16 (fromU64 0)) (h₁ ++ [.sample]) = some c₁ ∧
      exec 16 (blake3Perm hash) deg (Chal.new 16 (fromU64 0)) (h₂ ++ [.sample]) = some c₂ ∧
      (c₁.sponge = c₂.sponge →
        (∃ (k : Nat) (i i' : List U32), c₁.inRecords[k]? = some i ∧ c₂.inRecords[k]? = some i' ∧
          i.flatMap Vector.toList ≠ i'.flatMap Vector.toList ∧
          hash (i.flatMap Vector.toList) = hash (i'.flatMap Vector.toList)) ∨
        observed h₁ = observed h₂) := by
  have hp : ∀ s : List U32, s.length = 16 → (blake3Perm hash s).length = 16 :=
    fun s _ => blake3Perm_length hash s
  have key : ∀ h : List (Cmd U32), ∃ c b,
      exec 16 (blake3Perm hash) deg (Chal.new 16 (fromU64 0)) (h ++ [.sample]) = some c ∧
      Inv 16 (blake3Perm hash) (fromU64 0) c (observed h) b ∧ c.input = [] ∧
      b.map List.length = (projExec 16 deg (shape h ++ [false]) (0, 0, [])).2.2 := by
    intro h
    obtain ⟨c, b, h1, h2, h3⟩ :=
      (inv_new (perm := blake3Perm hash) (z := fromU64 0) (W := 16) (by omega)).exec hp (by omega) hd h
    obtain ⟨vs, c', b', e1, e2, -, e4, -, -, e7, -⟩ := h2.sample hp (by omega) hd
    refine ⟨c', b', ?_, by simpa using e2, e4, ?_⟩
    · unfold exec at h1 ⊢
      rw [List.foldlM_append, h1]
      simp [Cmd.exec, e1]
    · have hpe : ∀ (l : List Bool) (p : Nat × Nat × List Nat),
          projExec 16 deg (l ++ [false]) p = (projSample 16)^[deg] (projExec 16 deg l p) := by
        intro l
        induction l with
        | nil => intro p; rfl
        | cons x l ih => intro p; cases x <;> exact ih _
      have h4 := congrArg (fun p => p.2.2) e7
      rw [hpe]
      rw [h3] at h4
      exact h4
  obtain ⟨c₁, b₁, e1, i1, p1, l1⟩ := key h₁
  obtain ⟨c₂, b₂, e2, i2, p2, l2⟩ := key h₂
  refine ⟨c₁, c₂, e1, e2, ?_⟩
  intro he
  have := Absorbs.binding hash i1.absorbs i2.absorbs (by rw [l1, l2, hs]) i1.short
    (by rw [← i1.state, ← i2.state, he])
  rcases this with h | ⟨-, h⟩
  · exact .inl h
  · right
    have w1 := i1.words
    have w2 := i2.words
    rw [p1, List.append_nil] at w1
    rw [p2, List.append_nil] at w2
    rw [← w1, ← w2, h]

theorem observe_short (perm : List U32 → List U32) (deg : Nat) : ∀ (ws : List U32) (c : Chal U32),
    ws ≠ [] → c.input.length + ws.length < 8 →
    exec 16 perm deg c (ws.map Cmd.observe) = some { c with input := c.input ++ ws, output := [] } := by
  intro ws
  induction ws with
  | nil => intro c h; exact absurd rfl h
  | cons w ws ih =>
    intro c _ hl
    simp only [List.length_cons] at hl
    have h1 : Cmd.exec 16 perm deg c (.observe w) = some { c with input := c.input ++ [w], output := [] } := by
      simp only [Cmd.exec, Chal.observe]
      rw [if_neg (by simp; omega)]
    unfold exec at ih ⊢
    rw [List.map_cons, List.foldlM_cons, h1]
    cases ws with
    | nil => simp
    | cons v ws =>
      have := ih { c with input := c.input ++ [w], output := [] } (by simp) (by simp at hl ⊢; omega)
      simp only [Option.bind_eq_bind, Option.bind_some]
      rw [this]
      simp

/-- **C70 is violated**: words are absorbed without padding and the permutation leaves zeros where
the next words go, so trailing zero words are invisible.  After any sample, observing `ws` and
observing `ws` followed by a zero word lead to the same state and the same challenges, for every hash
function. -/
theorem C70_trailing_zero_invisible (hash : List UInt8 → U256) (deg : Nat) (hd : deg = 1 ∨ deg = 4)
    (h : List (Cmd U32)) (ws : List U32) (hw : ws ≠ []) (hl : ws.length + 1 < 8) :
    exec 16 (blake3Perm hash) deg (Chal.new 16 (fromU64 0))
        (h ++ [.sample] ++ ws.map .observe ++ [.sample]) =
      exec 16 (blake3Perm hash) deg (Chal.new 16 (fromU64 0))
        (h ++ [.sample] ++ (ws ++ [fromU64 0]).map .observe ++ [.sample]) ∧
    observed (h ++ [.sample] ++ ws.map .observe ++ [.sample]) ≠
      observed (h ++ [.sample] ++ (ws ++ [fromU64 0]).map .observe ++ [.sample]) := by
  have hp : ∀ s : List U32, s.length = 16 → (blake3Perm hash s).length = 16 :=
    fun s _ => blake3Perm_length hash s
  have oapp : ∀ a b : List (Cmd U32), observed (a ++ b) = observed a ++ observed b := by
    intro a b
    induction a with
    | nil => rfl
    | cons k a ih => cases k <;> simp [observed, ih]
  have omap : ∀ l : List U32, observed (l.map Cmd.observe) = l := by
    intro l
    induction l with
    | nil => rfl
    | cons k a ih => simp [observed, ih]
  refine ⟨?_, by simp [oapp, omap, observed]⟩
  obtain ⟨c, b, h1, h2, -⟩ :=
    (inv_new (perm := blake3Perm hash) (z := fromU64 0) (W := 16) (by omega)).exec hp (by omega) hd h
  obtain ⟨vs, d, b', e1, e2, -, e4, -⟩ := h2.sample hp (by omega) hd
  have hex : exec 16 (blake3Perm hash) deg (Chal.new 16 (fromU64 0)) (h ++ [.sample]) = some d := by
    unfold exec at h1 ⊢
    rw [List.foldlM_append, h1]
    simp [Cmd.exec, e1]
  have hz : ∀ n, n < 8 → d.sponge.drop n = fromU64 0 :: d.sponge.drop (n + 1) := by
    intro n hn
    have h8 : ∃ r, d.sponge = List.replicate 8 (fromU64 0) ++ r := by
      rw [e2.state]
      unfold lastState
      cases d.inRecords.getLast? with
      | none => exact ⟨List.replicate 8 (fromU64 0), rfl⟩
      | some i => exact ⟨_, rfl⟩
    obtain ⟨r, hr⟩ := h8
    rw [hr]
    interval_cases n <;> simp [List.replicate]
  have step : ∀ l : List U32, exec 16 (blake3Perm hash) deg (Chal.new 16 (fromU64 0))
      (h ++ [.sample] ++ l.map .observe ++ [.sample]) =
      (exec 16 (blake3Perm hash) deg d (l.map .observe)).bind fun c =>
        Cmd.exec 16 (blake3Perm hash) deg c .sample := by
    intro l
    unfold exec at hex ⊢
    rw [List.foldlM_append, List.foldlM_append, hex]
    simp only [Option.bind_eq_bind, Option.bind_some, List.foldlM_cons, List.foldlM_nil]
    congr 1
    funext c
    simp
  rw [step, step, observe_short _ _ ws d hw (by rw [e4]; simp; omega),
    observe_short _ _ (ws ++ [fromU64 0]) d (by simp) (by rw [e4]; simp; omega), e4]
  have hdup : ({ d with input := [] ++ ws, output := [] } : Chal U32).duplexing 16 (blake3Perm hash) =
      ({ d with input := [] ++ (ws ++ [fromU64 0]), output := [] } : Chal U32).duplexing 16
        (blake3Perm hash) := by
    unfold Chal.duplexing
    simp only [List.nil_append]
    rw [if_pos (by omega), if_pos (by simp; omega), hz ws.length (by omega)]
    simp
  have hsw : ({ d with input := [] ++ ws, output := [] } : Chal U32).sampleWord 16 (blake3Perm hash) =
      ({ d with input := [] ++ (ws ++ [fromU64 0]), output := [] } : Chal U32).sampleWord 16
        (blake3Perm hash) := by
    unfold Chal.sampleWord
    rw [if_pos (by simp), if_pos (by simp), hdup]
  have hsws : ∀ n, n ≠ 0 →
      ({ d with input := [] ++ ws, output := [] } : Chal U32).sampleWords 16 (blake3Perm hash) n =
      ({ d with input := [] ++ (ws ++ [fromU64 0]), output := [] } : Chal U32).sampleWords 16
        (blake3Perm hash) n := by
    intro n hn
    cases n with
    | zero => exact absurd rfl hn
    | succ n => unfold Chal.sampleWords; rw [hsw]
  simp only [Option.bind_some, Cmd.exec, Chal.sample]
  rw [hsws deg (by omega)]

example (hash : List UInt8 → U256) :
    exec 16 (blake3Perm hash) 4 (Chal.new 16 (fromU64 0))
        [.observe #v[7, 0, 0, 0], .sample, .observe #v[9, 0, 0, 0], .sample] =
      exec 16 (blake3Perm hash) 4 (Chal.new 16 (fromU64 0))
        [.observe #v[7, 0, 0, 0], .sample, .observe #v[9, 0, 0, 0], .observe #v[0, 0, 0, 0], .sample] :=
  (C70_trailing_zero_invisible hash 4 (.inr rfl) [.observe #v[7, 0, 0, 0]] [#v[9, 0, 0, 0]] (by simp)
    (by simp)).1

end TapStark.FS
