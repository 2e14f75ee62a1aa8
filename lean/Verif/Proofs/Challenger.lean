import Verif.Spec.Challenger
import Mathlib.Data.List.Infix
import Mathlib.Logic.Function.Iterate

/-! Invariants of the challenger. -/

set_option linter.unusedSectionVars false

namespace TapStark.FS

variable {PF : Type}

/-! ### Absorption -/

theorem Absorbs.length {perm : List PF → List PF} : ∀ {init : List PF} {bs is : List (List PF)},
    Absorbs perm init bs is → bs.length = is.length
  | _, [], [], _ => rfl
  | _, _ :: _, _ :: _, h => by simp [Absorbs.length h.2.2]
  | _, [], _ :: _, h => h.elim
  | _, _ :: _, [], h => h.elim

/-- The state after the calls with inputs `is`. -/
def lastState (perm : List PF → List PF) (init : List PF) (is : List (List PF)) : List PF :=
  match is.getLast? with
  | none => init
  | some i => perm i

theorem lastState_cons (perm : List PF → List PF) (init i : List PF) (is : List (List PF)) :
    lastState perm init (i :: is) = lastState perm (perm i) is := by
  unfold lastState
  cases is with
  | nil => rfl
  | cons j is =>
    rw [List.getLast?_cons_cons, List.getLast?_eq_getLast_of_ne_nil (by simp)]

theorem lastState_append (perm : List PF → List PF) (init i : List PF) (is : List (List PF)) :
    lastState perm init (is ++ [i]) = perm i := by simp [lastState]

theorem Absorbs.snoc {perm : List PF → List PF} {b i : List PF} :
    ∀ {init : List PF} {bs is : List (List PF)}, Absorbs perm init bs is →
      b.length ≤ (lastState perm init is).length →
      i = b ++ (lastState perm init is).drop b.length → Absorbs perm init (bs ++ [b]) (is ++ [i])
  | init, [], [], _, h1, h2 => by simpa [Absorbs, lastState] using ⟨h1, h2⟩
  | init, b' :: bs, i' :: is, h, h1, h2 => by
    rw [lastState_cons] at h1 h2
    exact ⟨h.1, h.2.1, Absorbs.snoc h.2.2 h1 h2⟩
  | _, [], _ :: _, h, _, _ => h.elim
  | _, _ :: _, [], h, _, _ => h.elim

/-- Everything known about a challenger that observed the words `obs`; `blocks` are the words
absorbed by its permutation calls. -/
structure Inv (W : Nat) (perm : List PF → List PF) (z : PF) (c : Chal PF) (obs : List PF)
    (blocks : List (List PF)) : Prop where
  width : c.sponge.length = W
  pending : c.input.length < W / 2
  absorbs : Absorbs perm (List.replicate W z) blocks c.inRecords
  words : blocks.flatten ++ c.input = obs
  short : ∀ b ∈ blocks, b.length ≤ W / 2
  state : c.sponge = lastState perm (List.replicate W z) c.inRecords
  outs : c.outRecords = c.inRecords.map fun i => ((perm i).drop (W / 2)).take (W - W / 2)
  output : c.output = [] ∨ (c.input = [] ∧ c.inRecords ≠ [] ∧ c.output <+: (c.sponge.drop (W / 2)))

section
variable {W : Nat} {perm : List PF → List PF} {z : PF}

theorem inv_new (hW : 2 ≤ W) : Inv W perm z (Chal.new W z) [] [] :=
  ⟨by simp [Chal.new], by simp [Chal.new]; omega, trivial, rfl, by simp, rfl, rfl, .inl rfl⟩

/-- Duplexing. -/
theorem inv_duplex (hp : ∀ s : List PF, s.length = W → (perm s).length = W) (hW : 2 ≤ W)
    {c : Chal PF} {obs : List PF} {blocks : List (List PF)} (hw : c.sponge.length = W)
    (hl : c.input.length ≤ W / 2)
    (ha : Absorbs perm (List.replicate W z) blocks c.inRecords) (hf : blocks.flatten ++ c.input = obs)
    (hs : ∀ b ∈ blocks, b.length ≤ W / 2)
    (hst : c.sponge = lastState perm (List.replicate W z) c.inRecords)
    (ho : c.outRecords = c.inRecords.map fun i => ((perm i).drop (W / 2)).take (W - W / 2)) :
    ∃ c', c.duplexing W perm = some c' ∧ Inv W perm z c' obs (blocks ++ [c.input]) ∧ c'.input = [] ∧
      c'.output = c'.sponge.drop (W / 2) ∧ c'.samples = c.samples ∧
      c'.sponge = perm (c.input ++ c.sponge.drop c.input.length) ∧
      c'.inRecords = c.inRecords ++ [c.input ++ c.sponge.drop c.input.length] := by
  have hlen : (c.input ++ c.sponge.drop c.input.length).length = W := by
    simp only [List.length_append, List.length_drop, hw]; omega
  have hout : ((perm (c.input ++ c.sponge.drop c.input.length)).drop (W / 2)).take (W - W / 2) =
      (perm (c.input ++ c.sponge.drop c.input.length)).drop (W / 2) := by
    rw [List.take_of_length_le]
    simp only [List.length_drop, hp _ hlen]; omega
  let s := c.input ++ c.sponge.drop c.input.length
  let out := ((perm s).drop (W / 2)).take (W - W / 2)
  refine ⟨{ c with sponge := perm s, input := [], output := out, inRecords := c.inRecords ++ [s],
                   outRecords := c.outRecords ++ [out] },
    by unfold Chal.duplexing; rw [if_pos (by omega)], ?_, rfl, hout, rfl, rfl, rfl⟩
  refine ⟨hp _ hlen, by simp; omega, ?_, by simpa using hf, ?_, ?_, ?_, .inr ⟨rfl, by simp, ?_⟩⟩
  · exact ha.snoc (by rw [← hst, hw]; omega) (by rw [← hst])
  · intro b hb
    rcases List.mem_append.1 hb with hb | hb
    · exact hs b hb
    · rw [List.mem_singleton.1 hb]; exact hl
  · simp [lastState_append]
  · simp [ho, out]
  · show out <+: _
    rw [show out = _ from hout]

theorem Inv.duplex (hp : ∀ s : List PF, s.length = W → (perm s).length = W) (hW : 2 ≤ W)
    {c : Chal PF} {obs : List PF} {blocks : List (List PF)} (h : Inv W perm z c obs blocks) :
    ∃ c', c.duplexing W perm = some c' ∧ Inv W perm z c' obs (blocks ++ [c.input]) ∧ c'.input = [] ∧
      c'.output = c'.sponge.drop (W / 2) ∧ c'.samples = c.samples ∧
      c'.sponge = perm (c.input ++ c.sponge.drop c.input.length) ∧
      c'.inRecords = c.inRecords ++ [c.input ++ c.sponge.drop c.input.length] :=
  inv_duplex hp hW h.width (by have := h.pending; omega) h.absorbs h.words h.short h.state h.outs

/-- What the shape of a history determines: number of pending words, number of unused output words
and the lengths of the absorbed blocks. -/
def proj (c : Chal PF) (blocks : List (List PF)) : Nat × Nat × List Nat :=
  (c.input.length, c.output.length, blocks.map List.length)

/-- How `proj` changes when a word is observed. -/
def projObserve (W : Nat) : Nat × Nat × List Nat → Nat × Nat × List Nat
  | (i, _, bs) => if i + 1 = W / 2 then (0, W - W / 2, bs ++ [i + 1]) else (i + 1, 0, bs)

/-- How `proj` changes when a word is drawn. -/
def projSample (W : Nat) : Nat × Nat × List Nat → Nat × Nat × List Nat
  | (i, o, bs) => if i ≠ 0 ∨ o = 0 then (0, W - W / 2 - 1, bs ++ [i]) else (0, o - 1, bs)

theorem Inv.observe (hp : ∀ s : List PF, s.length = W → (perm s).length = W) (hW : 2 ≤ W)
    {c : Chal PF} {obs : List PF} {blocks : List (List PF)} (h : Inv W perm z c obs blocks) (v : PF) :
    ∃ c' blocks', c.observe W perm v = some c' ∧ Inv W perm z c' (obs ++ [v]) blocks' ∧
      c'.samples = c.samples ∧ proj c' blocks' = projObserve W (proj c blocks) := by
  unfold Chal.observe
  simp only
  by_cases hf : (c.input ++ [v]).length = W / 2
  · rw [if_pos hf]
    obtain ⟨c', h1, h2, h3, h4, h5, -⟩ := inv_duplex (z := z)
      (c := { c with output := [], input := c.input ++ [v] }) (obs := obs ++ [v]) (blocks := blocks)
      hp hW h.width (by simp only; omega) h.absorbs (by simp [← h.words]) h.short h.state h.outs
    refine ⟨c', _, h1, h2, h5, ?_⟩
    simp only [List.length_append, List.length_singleton] at hf
    simp [proj, projObserve, h3, h4, hf, h2.width]
  · rw [if_neg hf]
    have := h.pending
    simp only [List.length_append, List.length_singleton] at hf
    exact ⟨_, blocks, rfl, ⟨h.width, by simp; omega, h.absorbs, by simp [← h.words], h.short, h.state,
      h.outs, .inl rfl⟩, rfl, by simp [proj, projObserve, hf]⟩

/-- Drawing one word. -/
theorem Inv.sampleWord (hp : ∀ s : List PF, s.length = W → (perm s).length = W) (hW : 2 ≤ W)
    {c : Chal PF} {obs : List PF} {blocks : List (List PF)} (h : Inv W perm z c obs blocks) :
    ∃ v c' blocks', c.sampleWord W perm = some (v, c') ∧ Inv W perm z c' obs blocks' ∧
      c'.input = [] ∧ blocks <+: blocks' ∧ c.inRecords <+: c'.inRecords ∧ c'.inRecords ≠ [] ∧
      v ∈ c'.sponge.drop (W / 2) ∧ c'.samples = c.samples ∧
      proj c' blocks' = projSample W (proj c blocks) := by
  have pop : ∀ (d : Chal PF) (bs : List (List PF)), Inv W perm z d obs bs → d.input = [] →
      d.inRecords ≠ [] → d.output <+: d.sponge.drop (W / 2) → d.output ≠ [] →
      ∃ v, d.output.getLast? = some v ∧ v ∈ d.sponge.drop (W / 2) ∧
        Inv W perm z { d with output := d.output.dropLast } obs bs := by
    intro d bs hd h1 h2 h3 h4
    refine ⟨d.output.getLast h4, List.getLast?_eq_getLast_of_ne_nil h4,
      h3.subset (List.getLast_mem h4), ?_⟩
    refine ⟨hd.width, hd.pending, hd.absorbs, hd.words, hd.short, hd.state, hd.outs,
      .inr ⟨h1, h2, (List.dropLast_prefix _).trans h3⟩⟩
  unfold Chal.sampleWord
  by_cases hc : (!c.input.isEmpty || c.output.isEmpty) = true
  · obtain ⟨d, h1, h2, h3, h4, h5, h6, h7⟩ := h.duplex hp hW
    have hne : d.output ≠ [] := by
      intro e
      have := congrArg List.length h4
      rw [e, List.length_drop, h2.width] at this
      simp at this; omega
    obtain ⟨v, e1, e2, e3⟩ := pop d _ h2 h3 (by rw [h7]; simp) (h4 ▸ List.prefix_refl _) hne
    refine ⟨v, _, _, ?_, e3, h3, List.prefix_append _ _, by rw [h7]; exact List.prefix_append _ _,
      by simp [h7], e2, h5, ?_⟩
    · simp [hc, h1, e1]
    · have hc2 : c.input.length ≠ 0 ∨ c.output.length = 0 := by
        simp only [Bool.or_eq_true, Bool.not_eq_true', List.isEmpty_iff, List.isEmpty_eq_false_iff] at hc
        rcases hc with hc | hc
        · left; simpa using hc
        · right; simp [hc]
      have e : projSample W (proj c blocks) =
          (0, W - W / 2 - 1, blocks.map List.length ++ [c.input.length]) := by
        unfold projSample proj; exact if_pos hc2
      rw [e]
      simp [proj, h3, h4, h2.width]
  · have hc' : c.input = [] ∧ c.output ≠ [] := by
      simp only [Bool.or_eq_true, Bool.not_eq_true', not_or, List.isEmpty_iff] at hc
      refine ⟨?_, hc.2⟩
      cases hi : c.input with
      | nil => rfl
      | cons a b => simp [hi] at hc
    obtain ⟨h1, h2, h3⟩ := h.output.resolve_left hc'.2
    obtain ⟨v, e1, e2, e3⟩ := pop c _ h h1 h2 h3 hc'.2
    refine ⟨v, _, _, ?_, e3, h1, List.prefix_refl _, List.prefix_refl _, h2, e2, rfl, ?_⟩
    · simp [hc, e1]
    · have : ¬ (c.input.length ≠ 0 ∨ c.output.length = 0) := by
        rw [hc'.1]; simpa using hc'.2
      have e : projSample W (proj c blocks) =
          (0, c.output.length - 1, blocks.map List.length) := by
        unfold projSample proj; exact if_neg this
      rw [e]
      simp [proj, h1]

theorem flatten_take_prefix {α : Type} {a b : List (List α)} (h : a <+: b)
    (hf : a.flatten = b.flatten) {n : Nat} (hn : a.length ≤ n) :
    (b.take n).flatten = b.flatten := by
  obtain ⟨r, rfl⟩ := h
  rw [List.flatten_append] at hf
  have hr : r.flatten = [] := by simpa using hf
  rw [List.take_append, List.take_of_length_le hn, List.flatten_append, List.flatten_append, hr]
  have : (List.take (n - a.length) r).flatten = [] := by
    rw [List.flatten_eq_nil_iff] at hr ⊢
    intro x hx; exact hr x (List.mem_of_mem_take hx)
  rw [this]

/-- Where a drawn word came from. -/
def Drawn (W : Nat) (perm : List PF → List PF) (ins blocks : List (List PF)) (obs : List PF)
    (v : PF) : Prop :=
  ∃ (r : Nat) (hr : r < ins.length), (blocks.take (r + 1)).flatten = obs ∧
    v ∈ (perm ins[r]).drop (W / 2)

theorem Drawn.mono {ins ins' blocks blocks' : List (List PF)} {obs : List PF} {v : PF}
    (h : Drawn W perm ins blocks obs v) (h1 : ins <+: ins') (h2 : blocks <+: blocks')
    (hl : blocks.length = ins.length) : Drawn W perm ins' blocks' obs v := by
  obtain ⟨r, hr, e1, e2⟩ := h
  refine ⟨r, lt_of_lt_of_le hr h1.length_le, ?_, ?_⟩
  · obtain ⟨x, rfl⟩ := h2
    rwa [List.take_append_of_le_length (by omega)]
  · have : ins'[r]'(lt_of_lt_of_le hr h1.length_le) = ins[r] := (h1.getElem hr).symm
    rwa [this]

theorem Inv.sampleWords (hp : ∀ s : List PF, s.length = W → (perm s).length = W) (hW : 2 ≤ W) :
    ∀ (n : Nat) {c : Chal PF} {obs : List PF} {blocks : List (List PF)},
      Inv W perm z c obs blocks → ∃ vs c' blocks', c.sampleWords W perm n = some (vs, c') ∧
        Inv W perm z c' obs blocks' ∧ blocks <+: blocks' ∧ c.inRecords <+: c'.inRecords ∧
        (n ≠ 0 → c'.input = []) ∧ vs.length = n ∧ c'.samples = c.samples ∧
        proj c' blocks' = (projSample W)^[n] (proj c blocks) ∧
        ∀ v ∈ vs, Drawn W perm c'.inRecords blocks' obs v := by
  intro n
  induction n with
  | zero =>
    intro c obs blocks h
    exact ⟨[], c, blocks, rfl, h, List.prefix_refl _, List.prefix_refl _, by simp, rfl, rfl, rfl, by simp⟩
  | succ n ih =>
    intro c obs blocks h
    obtain ⟨v, d, b1, e1, e2, e3, e4, e5, e6, e7, e8, e9⟩ := h.sampleWord hp hW
    obtain ⟨vs, c', b2, f1, f2, f3, f4, f5, f6, f7, f9, f8⟩ := ih e2
    have hd : Drawn W perm d.inRecords b1 obs v := by
      have hb := e2.absorbs.length
      have hpos : 0 < d.inRecords.length := List.length_pos_iff.2 e6
      refine ⟨d.inRecords.length - 1, by omega, ?_, ?_⟩
      · rw [List.take_of_length_le (by omega)]
        have := e2.words
        rwa [e3, List.append_nil] at this
      · have := e2.state
        unfold lastState at this
        rw [List.getLast?_eq_getLast_of_ne_nil e6] at this
        simp only at this
        rw [List.getLast_eq_getElem] at this
        rwa [← this]
    refine ⟨v :: vs, c', b2, ?_, f2, e4.trans f3, e5.trans f4, ?_, by simp [f6], by rw [f7, e8],
      by rw [f9, e9, Function.iterate_succ_apply], ?_⟩
    · simp [Chal.sampleWords, e1, f1]
    · intro _
      by_cases hn : n = 0
      · subst hn
        simp only [Chal.sampleWords, Option.some.injEq, Prod.mk.injEq] at f1
        rw [← f1.2]; exact e3
      · exact f5 hn
    · intro x hx
      rcases List.mem_cons.1 hx with rfl | hx
      · exact hd.mono f4 f3 e2.absorbs.length
      · exact f8 x hx

theorem Inv.congr {c c' : Chal PF} {obs : List PF} {blocks : List (List PF)}
    (h : Inv W perm z c obs blocks) (h1 : c'.sponge = c.sponge) (h2 : c'.input = c.input)
    (h3 : c'.output = c.output) (h4 : c'.inRecords = c.inRecords) (h5 : c'.outRecords = c.outRecords) :
    Inv W perm z c' obs blocks :=
  ⟨h1 ▸ h.width, h2 ▸ h.pending, h4 ▸ h.absorbs, h2 ▸ h.words, h.short, by rw [h1, h4]; exact h.state,
    by rw [h5, h4]; exact h.outs, by rw [h1, h2, h3, h4]; exact h.output⟩

theorem Inv.sample (hp : ∀ s : List PF, s.length = W → (perm s).length = W) (hW : 2 ≤ W) {deg : Nat}
    (hd : deg = 1 ∨ deg = 4) {c : Chal PF} {obs : List PF} {blocks : List (List PF)}
    (h : Inv W perm z c obs blocks) :
    ∃ vs c' blocks', c.sample W perm deg = some (vs, c') ∧ Inv W perm z c' obs blocks' ∧
      c.inRecords <+: c'.inRecords ∧ c'.input = [] ∧ vs.length = deg ∧
      c'.samples = c.samples ++ [vs] ∧ proj c' blocks' = (projSample W)^[deg] (proj c blocks) ∧
      ∀ v ∈ vs, Drawn W perm c'.inRecords blocks' obs v := by
  obtain ⟨vs, c', b, h1, h2, h3, h4, h5, h6, h7, h9, h8⟩ := h.sampleWords hp hW deg
  refine ⟨vs, { c' with samples := c'.samples ++ [vs] }, b, ?_, h2.congr rfl rfl rfl rfl rfl, h4,
    h5 (by omega), h6, by rw [h7], h9, h8⟩
  unfold Chal.sample
  rw [if_pos hd, h1]; rfl

/-- `proj` after a history, from its shape only. -/
def projExec (W deg : Nat) : List Bool → Nat × Nat × List Nat → Nat × Nat × List Nat
  | [], p => p
  | true :: h, p => projExec W deg h (projObserve W p)
  | false :: h, p => projExec W deg h ((projSample W)^[deg] p)

theorem Inv.exec (hp : ∀ s : List PF, s.length = W → (perm s).length = W) (hW : 2 ≤ W) {deg : Nat}
    (hd : deg = 1 ∨ deg = 4) : ∀ (h : List (Cmd PF)) {c : Chal PF} {obs : List PF}
      {blocks : List (List PF)}, Inv W perm z c obs blocks →
      ∃ c' blocks', FS.exec W perm deg c h = some c' ∧ Inv W perm z c' (obs ++ observed h) blocks' ∧
        proj c' blocks' = projExec W deg (shape h) (proj c blocks) := by
  intro h
  induction h with
  | nil => intro c obs blocks hi; exact ⟨c, blocks, rfl, by simpa [observed] using hi, rfl⟩
  | cons k h ih =>
    intro c obs blocks hi
    cases k with
    | observe v =>
      obtain ⟨d, b, h1, h2, -, h3⟩ := hi.observe hp hW v
      obtain ⟨c', b', e1, e2, e3⟩ := ih h2
      exact ⟨c', b', by simpa [FS.exec, Cmd.exec, h1] using e1, by simpa [observed] using e2,
        by rw [e3, h3]; rfl⟩
    | sample =>
      obtain ⟨vs, d, b, h1, h2, -, -, -, -, h3, -⟩ := hi.sample hp hW hd
      obtain ⟨c', b', e1, e2, e3⟩ := ih h2
      exact ⟨c', b', by simpa [FS.exec, Cmd.exec, h1] using e1, by simpa [observed] using e2,
        by rw [e3, h3]; rfl⟩

/-! ### Squeezing -/

/-- A challenger in the middle of handing out the words of state `s`, with `j` already drawn. -/
structure Squeezing (W : Nat) (c : Chal PF) (s : List PF) (j : Nat) : Prop where
  input : c.input = []
  sponge : c.sponge = s
  output : c.output = (s.drop (W / 2)).take (W - W / 2 - j)

theorem Squeezing.words (hp : ∀ s : List PF, s.length = W → (perm s).length = W) (hW : 2 ≤ W)
    (he : W % 2 = 0) : ∀ (n : Nat) (c : Chal PF) (s : List PF) (j : Nat), s.length = W →
      Squeezing W c s j → j ≤ W / 2 →
      ∃ vs c', c.sampleWords W perm n = some (vs, c') ∧ vs.length = n ∧ ∀ k, k < n →
        vs[k]? = (perm^[(j + k) / (W / 2)] s)[W - 1 - (j + k) % (W / 2)]? := by
  intro n
  induction n with
  | zero => intro c s j _ _ _; exact ⟨[], c, rfl, rfl, by omega⟩
  | succ n ih =>
    intro c s j hs hq hj
    -- a state with something to hand out
    have step : ∀ (d : Chal PF) (s : List PF) (j : Nat), s.length = W → Squeezing W d s j →
        j < W / 2 → ∃ vs c', (d.output.getLast?.bind fun v =>
          (Chal.sampleWords W perm n { d with output := d.output.dropLast }).bind
            fun p => some (v :: p.1, p.2)) = some (vs, c') ∧ vs.length = n + 1 ∧
          ∀ k, k < n + 1 →
            vs[k]? = (perm^[(j + k) / (W / 2)] s)[W - 1 - (j + k) % (W / 2)]? := by
      intro d s j hs hq hj
      have hol : d.output.length = W - W / 2 - j := by
        rw [hq.output, List.length_take, List.length_drop, hs]; omega
      have hlast : d.output.getLast? = s[W - 1 - j]? := by
        rw [List.getLast?_eq_getElem?, hol, hq.output, List.getElem?_take_of_lt (by omega),
          List.getElem?_drop]
        congr 1; omega
      have hsome : s[W - 1 - j]? = some s[W - 1 - j] := List.getElem?_eq_getElem (by omega)
      obtain ⟨vs, c', e1, e2, e3⟩ := ih { d with output := d.output.dropLast } s (j + 1) hs
        ⟨hq.input, hq.sponge, by
          simp only
          rw [List.dropLast_eq_take, hol, hq.output, List.take_take]
          congr 1; omega⟩ (by omega)
      refine ⟨s[W - 1 - j] :: vs, c', by rw [hlast, hsome]; simp [e1], by simp [e2], ?_⟩
      intro k hk
      cases k with
      | zero =>
        rw [Nat.add_zero, Nat.div_eq_of_lt hj, Nat.mod_eq_of_lt hj]
        simp [hsome]
      | succ k =>
        rw [List.getElem?_cons_succ, e3 k (by omega)]
        rw [show j + 1 + k = j + (k + 1) by omega]
    unfold Chal.sampleWords Chal.sampleWord
    by_cases hjW : j = W / 2
    · have hout : c.output = [] := by
        rw [hq.output, show W - W / 2 - j = 0 by omega, List.take_zero]
      let s' := perm s
      let out := (s'.drop (W / 2)).take (W - W / 2)
      have hd : c.duplexing W perm = some { c with
          sponge := s', input := [], output := out, inRecords := c.inRecords ++ [s],
          outRecords := c.outRecords ++ [out] } := by
        unfold Chal.duplexing
        rw [if_pos (by simp [hq.input])]
        simp only [hq.input, hq.sponge, List.nil_append, List.length_nil, List.drop_zero]
        rfl
      obtain ⟨vs, c', e1, e2, e3⟩ := step _ s' 0 (hp s hs)
        (⟨rfl, rfl, rfl⟩ : Squeezing W { c with
          sponge := s', input := [], output := out, inRecords := c.inRecords ++ [s],
          outRecords := c.outRecords ++ [out] } s' 0) (by omega)
      refine ⟨vs, c', ?_, e2, ?_⟩
      · simp only [hq.input, hout, List.isEmpty_nil, Bool.not_true, Bool.or_true, if_true, hd,
          Option.bind_eq_bind, Option.bind_some, Option.bind_assoc] at e1 ⊢
        exact e1
      · intro k hk
        rw [e3 k hk, hjW, Nat.zero_add, Nat.add_comm (W / 2) k, Nat.add_div_right _ (by omega),
          Nat.add_mod_right, Function.iterate_succ_apply]
    · obtain ⟨vs, c', e1, e2, e3⟩ := step c s j hs hq (by omega)
      refine ⟨vs, c', ?_, e2, e3⟩
      have hne : c.output.isEmpty = false := by
        have hol : c.output.length = W - W / 2 - j := by
          rw [hq.output, List.length_take, List.length_drop, hs]; omega
        cases ho : c.output with
        | nil => rw [ho] at hol; simp at hol; omega
        | cons a b => rfl
      simp only [hq.input, hne, List.isEmpty_nil, Bool.not_true, Bool.or_false, Bool.false_eq_true,
        if_false, Option.bind_eq_bind, Option.bind_some, Option.bind_assoc] at e1 ⊢
      exact e1

end

end TapStark.FS
