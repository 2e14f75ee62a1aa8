import Verif.Proofs.ScriptChallenges
import Verif.Props.ChallengerExpr

/-
C77: the checks of the challenges in the script verifier.
-/

namespace TapStark.Stark

open TapStark.FS TapStark.Fri

variable {cfg : Cfg} {L : U31Lib} {T : TrackerLib} {hash : List UInt8 → U256}

theorem none_zipWith_sameExt : ∀ {as bs : List BB4}, as.length = bs.length →
    (none ∉ List.zipWith sameExt as bs ↔ as = bs)
  | [], [], _ => by simp
  | a :: as, b :: bs, h => by
    have ih := none_zipWith_sameExt (as := as) (bs := bs) (by simpa using h)
    rw [List.zipWith_cons_cons, List.mem_cons, not_or, ih, List.cons.injEq]
    refine and_congr_left fun _ => ?_
    unfold sameExt
    by_cases hab : a = b <;> simp [hab]

theorem none_zipWith_index : ∀ {as bs : List (Nat × Nat)},
    none ∉ List.zipWith (fun i j => some (decide (i = j))) as bs
  | [], _ => by simp
  | _ :: _, [] => by simp
  | a :: as, b :: bs => by
    rw [List.zipWith_cons_cons, List.mem_cons, not_or]
    exact ⟨by simp, none_zipWith_index⟩

theorem count_sameExt (as bs : List BB4) : (List.zipWith sameExt as bs).count (some false) = 0 := by
  induction as generalizing bs with
  | nil => simp
  | cons a as ih =>
    cases bs with
    | nil => simp
    | cons b bs =>
      rw [List.zipWith_cons_cons, List.count_cons, ih, sameExt]
      split <;> rfl

theorem count_index : ∀ (as bs : List (Nat × Nat)),
    (List.zipWith (fun i j => some (decide (i = j))) as bs).count (some false) = differing as bs
  | [], _ => by simp [differing]
  | _ :: _, [] => by simp [differing]
  | a :: as, b :: bs => by
    rw [List.zipWith_cons_cons, List.count_cons, count_index as bs, differing, differing, List.zip_cons_cons,
      List.countP_cons]
    by_cases h : a = b <;> simp [h]

theorem evenFailures_outcomes {bits : Nat} {s : ScriptChallenges} {alpha zeta : BB4} {fc : FriChallenges BB4}
    (hb : s.betas.length = fc.betas.length) :
    EvenFailures (outcomes bits s alpha zeta fc) ↔ bits ≠ 0 ∧ s.alpha = alpha ∧ s.zeta = zeta ∧ s.betas = fc.betas ∧
      ((if s.pow then 0 else 1) + differing s.indices fc.queryIndices) % 2 = 0 := by
  unfold EvenFailures outcomes
  have h1 : ∀ a b : BB4, none ≠ sameExt a b ↔ a = b := by
    intro a b
    unfold sameExt
    by_cases h : a = b <;> simp [h]
  have h2 : ∀ a b : BB4, List.count (some false) [sameExt a b] = 0 := by
    intro a b
    rw [List.count_eq_zero, List.mem_singleton]
    unfold sameExt
    split <;> simp
  simp only [List.mem_append, List.mem_cons, List.not_mem_nil, or_false, not_or, List.count_append, List.count_cons,
    none_zipWith_sameExt hb, none_zipWith_index, count_sameExt, count_index, List.count_nil]
  have h3 : ∀ a b : BB4, (sameExt a b == some false) = false := by
    intro a b
    unfold sameExt
    split <;> rfl
  have h5 : ∀ a b : BB4, none ≠ sameNext bits a b ↔ bits ≠ 0 ∧ a = b := by
    intro a b
    unfold sameNext
    by_cases h : bits = 0 <;> simp [h, ← h1 a b]
  have h6 : ∀ a b : BB4, (sameNext bits a b == some false) = false := by
    intro a b
    unfold sameNext
    split
    · rfl
    · exact h3 a b
  rw [← ne_eq, ← ne_eq, ← ne_eq, h1, h1, h5]
  simp only [h3, h6]
  have h4 : (if (some s.pow == some false) = true then 1 else 0) = if s.pow = true then 0 else 1 := by
    cases s.pow <;> rfl
  rw [h4]
  constructor
  · rintro ⟨⟨⟨a, b, e, _⟩, c, _⟩, d⟩
    refine ⟨e, a, b, c, ?_⟩
    simpa [Nat.add_comm] using d
  · rintro ⟨e, a, b, c, d⟩
    refine ⟨⟨⟨a, b, e, by rw [b]⟩, c, by simp⟩, ?_⟩
    simpa [Nat.add_comm] using d

theorem evenFailures_concat (rs : List (Option Bool)) (r : Option Bool) :
    EvenFailures (r :: rs) ↔ EvenFailures (rs ++ [r]) := by
  unfold EvenFailures
  rw [List.count_append, List.count_cons, List.mem_append, List.mem_cons, List.mem_singleton, or_comm,
    List.count_singleton]

/-- C77, what is checked: when the native transcript goes through, the script of the challenges' manager accepts iff the
degree has at least one bit, the script's `alpha`, `zeta` and folding challenges are the native ones, and the number of query indices that differ from the
script's (counting a failed proof-of-work check as one more) is even. -/
theorem C77_exact (hL : L.Ok cfg) (hT : T.Ok cfg) (hH : IsBlake3 hash) {fcfg : Config} {P IP : Type} {bits : Nat}
    {trace quotient : Roots} {proof : FriProof BB4 Roots P U32 IP} {c' : Chal U32} {alpha zeta batch : BB4}
    {fc : FriChallenges BB4} (hp : 1 ≤ fcfg.powBits) (hp' : fcfg.powBits ≤ 31) (hb' : bits ≤ 27)
    (hm : 1 ≤ proof.commitPhaseCommits.length + fcfg.logBlowup)
    (hm' : proof.commitPhaseCommits.length + fcfg.logBlowup ≤ 31)
    (hn : nativeTranscript (blake3Perm hash) fcfg trace quotient proof (Chal.new 16 (fromU64 0)) =
      .ok ((alpha, zeta, batch, fc), c')) (n : Nat) :
    ∃ s zetaE checks e' n' m, scriptTranscript (blake3Perm hash) fcfg trace quotient proof (Chal.new 16 (fromU64 0)) = some s ∧
      allChallenges (blake3Perm hash) fcfg bits trace quotient proof (Chal.new 16 (fromU64 0)) (ChalExpr.new n).1
        (ChalExpr.new n).2 = .ok ((alpha, zeta, batch, fc), zetaE, checks, c', e', n') ∧
      challengerManager checks = some m ∧
      s.indices.length = fc.queryIndices.length ∧
      ∀ N, n' ≤ N → ∃ m' N', m.embedHintVerify N = some (m', N') ∧
        (m'.run cfg L T = some () ↔ bits ≠ 0 ∧ s.alpha = alpha ∧ s.zeta = zeta ∧ s.betas = fc.betas ∧
          ((if s.pow then 0 else 1) + differing s.indices fc.queryIndices) % 2 = 0) := by
  obtain ⟨P0, g0, i0⟩ := new_inv (K := fun _ => .base) (env := fun _ => .nat 0) 4 n good_empty multiSafe_empty
  obtain ⟨s, zetaE, checks, e', n', P', h1, h2, h3, h4, h5, h6, h7⟩ := all_inv hH hp hp' hb' hm hm' hn i0
  have hne : checks ≠ [] := by
    intro h
    have := h5.length_eq
    rw [h] at this
    simp [outcomes] at this
  obtain ⟨init, last, rfl⟩ : ∃ init last, checks = init ++ [last] := ⟨_, _, (List.dropLast_concat_getLast hne).symm⟩
  refine ⟨s, zetaE, _, e', n', { InputManager.new with exec := some last, hint := init }, h1, h2, ?_, h7, fun N hN => ?_⟩
  · simp [challengerManager]
  · obtain ⟨rs, r, h8⟩ : ∃ rs r, outcomes bits s alpha zeta fc = rs ++ [r] :=
      ⟨_, _, (List.dropLast_concat_getLast (by simp [outcomes])).symm⟩
    rw [← evenFailures_outcomes (bits := bits) h6, h8, ← evenFailures_concat]
    rw [h8] at h5
    have hlen : init.length = rs.length := by
      have := h5.length_eq
      simpa using this
    obtain ⟨h9, h10⟩ : List.Forall₂ (Checked (fun _ => .base) (fun _ => .nat 0) P') init rs ∧
        Checked (fun _ => .base) (fun _ => .nat 0) P' last r := by
      have h11 := List.forall₂_reverse_iff.mpr h5
      rw [List.reverse_append, List.reverse_append] at h11
      cases h11 with
      | cons h12 h13 => exact ⟨List.forall₂_reverse_iff.mp h13, h12⟩
    have hg : Good (fun _ => .base) N P' := { h3.good with le := fun s hs => (h3.good.le s hs).trans hN }
    have hno : ∀ v, ¬ ∃ s, P' s ∧ Reads s v := by
      rintro v ⟨s, hs, hv⟩
      exact g0.quiet s v (h3.quiet s v hs hv) hv
    have hsp : ∀ x r, Checked (fun _ => .base) (fun _ => .nat 0) P' x r → P' x ∧ ¬ x.opc.Sponge := by
      intro x r hx
      exact ⟨hx.1, by rw [hx.2.1]; exact id⟩
    have hin : ∀ h ∈ init, P' h ∧ ¬ h.opc.Sponge := by
      intro h hh
      obtain ⟨r, _, hr⟩ := forall₂_mem h9 hh
      exact hsp h r hr
    have hck : List.Forall₂ (IsCheck (fun _ => .base) (fun _ => .nat 0)) init rs := forall₂_imp h9 fun _ _ h => h.2.2
    obtain ⟨m', N', k1, k2⟩ := C59_exact (m := { InputManager.new with exec := some last, hint := init }) hL hT hg h10.1
      (fun h hh => (hin h hh).1) ⟨fun _ h => (by cases h), fun _ h => (by cases h), List.nodup_nil⟩
      (fun s v hs hv => absurd ⟨s, hs, hv⟩ (hno v)) rfl h10.2.2 hck
      (embed_multiOk hg h3.safe h10.1 (hsp _ _ h10).2 h10.2.2 hin hck)
    refine ⟨m', N', k1, k2.trans ⟨fun h => h.1, fun h => ⟨h, fun _ h => (by cases h)⟩⟩⟩

/-! ### Relation of the two transcripts -/

/-- The same state of the sponge and the same pending input. -/
def Near (c d : Chal U32) : Prop := c.sponge = d.sponge ∧ c.input = d.input

/-- The same rest of the block too. -/
def Same (c d : Chal U32) : Prop := Near c d ∧ c.output = d.output

variable {perm : List U32 → List U32}

theorem duplexing_same {c d c' : Chal U32} (h : Near c d) (hc : c.duplexing 16 perm = some c') :
    ∃ d', d.duplexing 16 perm = some d' ∧ Same c' d' ∧ c'.samples = c.samples := by
  unfold Chal.duplexing at hc ⊢
  rw [h.1, h.2] at hc
  by_cases hl : d.input.length ≤ 16
  · rw [if_pos hl] at hc ⊢
    cases hc
    exact ⟨_, rfl, ⟨⟨rfl, rfl⟩, rfl⟩, rfl⟩
  · rw [if_neg hl] at hc
    cases hc

theorem observe_same {c d c' : Chal U32} {v : U32} (h : Near c d) (hc : c.observe 16 perm v = some c') :
    ∃ d', d.observe 16 perm v = some d' ∧ Same c' d' ∧ c'.samples = c.samples := by
  unfold Chal.observe at hc ⊢
  have hn : Near { c with output := [], input := c.input ++ [v] } { d with output := [], input := d.input ++ [v] } :=
    ⟨h.1, by show c.input ++ [v] = d.input ++ [v]; rw [h.2]⟩
  have hi : (c.input ++ [v]).length = (d.input ++ [v]).length := by rw [h.2]
  by_cases hl : (d.input ++ [v]).length = 16 / 2
  · rw [if_pos (hi.trans hl)] at hc
    rw [if_pos hl]
    exact duplexing_same (c := { c with output := [], input := c.input ++ [v] }) hn hc
  · rw [if_neg fun h => hl (hi.symm.trans h)] at hc
    rw [if_neg hl]
    cases hc
    exact ⟨_, rfl, ⟨hn, rfl⟩, rfl⟩

theorem observeAll_same : ∀ {vs : List U32} {c d c' : Chal U32}, Near c d → (Same c d ∨ vs ≠ []) →
    c.observeAll 16 perm vs = some c' → ∃ d', d.observeAll 16 perm vs = some d' ∧ Same c' d' ∧ c'.samples = c.samples
  | [], c, d, c', _, hs, hc => by
    cases hc
    rcases hs with hs | hs
    · exact ⟨d, rfl, hs, rfl⟩
    · exact absurd rfl hs
  | v :: vs, c, d, c', h, _, hc => by
    rw [Chal.observeAll, List.foldlM_cons] at hc
    obtain ⟨c1, h1, h2⟩ := Option.bind_eq_some_iff.mp hc
    obtain ⟨d1, h3, h4, h5⟩ := observe_same h h1
    obtain ⟨d2, h6, h7, h8⟩ := observeAll_same h4.1 (.inl h4) h2
    refine ⟨d2, ?_, h7, h8.trans h5⟩
    rw [Chal.observeAll, List.foldlM_cons, h3]
    exact h6

theorem observeRoots_same {comm : Roots} {c d c' : Chal U32} (h : Near c d) (hn : comm ≠ [])
    (hc : (bb4Chall perm).observe c comm = some c') :
    ∃ d', (scriptChall perm).observe d comm = some d' ∧ Same c' d' ∧ c'.samples = c.samples := by
  have hc : c.observeNested 16 perm (comm.map Vector.toList) = some c' := hc
  rw [observeNested_flat] at hc
  have hne : comm.flatMap Vector.toList ≠ [] := by
    cases comm with
    | nil => exact absurd rfl hn
    | cons r comm =>
      intro h0
      have := congrArg List.length h0
      simp at this
  obtain ⟨d', h1, h2, h3⟩ := observeAll_same h (.inr hne) hc
  refine ⟨d', ?_, h2, h3⟩
  show d.observeNested 16 perm (comm.map Vector.toList) = _
  rw [observeNested_flat, h1]

theorem sampleWord_eq (c : Chal U32) : c.sampleWord 16 perm =
    (if !c.input.isEmpty || c.output.isEmpty then c.duplexing 16 perm else some c).bind fun c =>
      c.output.getLast?.bind fun v => some (v, { c with output := c.output.dropLast }) := by
  unfold Chal.sampleWord
  by_cases h : (!c.input.isEmpty || c.output.isEmpty) = true
  · simp only [if_pos h]; rfl
  · simp only [if_neg h]; rfl

theorem sampleWord_same {c d c' : Chal U32} {w : U32} (h : Same c d) (hc : c.sampleWord 16 perm = some (w, c')) :
    ∃ d', d.sampleWord 16 perm = some (w, d') ∧ Same c' d' ∧ c'.samples = c.samples := by
  rw [sampleWord_eq] at hc ⊢
  have step : ∀ c1, (if !c.input.isEmpty || c.output.isEmpty then c.duplexing 16 perm else some c) = some c1 →
      ∃ d1, (if !d.input.isEmpty || d.output.isEmpty then d.duplexing 16 perm else some d) = some d1 ∧ Same c1 d1 ∧
        c1.samples = c.samples := by
    intro c1 hc1
    rw [h.1.2, h.2] at hc1
    split at hc1
    · rename_i hcond
      rw [if_pos hcond]
      exact duplexing_same h.1 hc1
    · rename_i hcond
      rw [if_neg hcond]
      cases hc1
      exact ⟨d, rfl, h, rfl⟩
  obtain ⟨c1, h1, h2⟩ := Option.bind_eq_some_iff.mp hc
  obtain ⟨d1, h3, h4, h5⟩ := step c1 h1
  obtain ⟨v, h6, h7⟩ := Option.bind_eq_some_iff.mp h2
  cases h7
  refine ⟨{ d1 with output := d1.output.dropLast }, ?_, ⟨h4.1, by show c1.output.dropLast = _; rw [h4.2]⟩, h5⟩
  rw [h3]
  show (d1.output.getLast?).bind _ = _
  rw [← h4.2, h6]
  simp only [Option.bind_some, h4.2]

theorem sampleWords_same : ∀ {k : Nat} {c d c' : Chal U32} {ws : List U32}, Same c d →
    c.sampleWords 16 perm k = some (ws, c') → ∃ d', d.sampleWords 16 perm k = some (ws, d') ∧ Same c' d' ∧
      c'.samples = c.samples ∧ ws.length = k
  | 0, c, d, c', ws, h, hc => by
    cases hc
    exact ⟨d, rfl, h, rfl, rfl⟩
  | k + 1, c, d, c', ws, h, hc => by
    rw [Chal.sampleWords] at hc
    simp only [Option.bind_eq_bind, Option.bind_eq_some_iff, Prod.exists] at hc
    obtain ⟨v, c1, h1, vs, c2, h2, h3⟩ := hc
    cases h3
    obtain ⟨d1, h4, h5, h6⟩ := sampleWord_same h h1
    obtain ⟨d2, h7, h8, h9, h10⟩ := sampleWords_same h5 h2
    refine ⟨d2, ?_, h8, h9.trans h6, by simp [h10]⟩
    rw [Chal.sampleWords, h4]
    simp only [Option.bind_eq_bind, Option.bind_some, h7]

theorem sample_same {c d c' : Chal U32} {ws : List U32} (h : Same c d) (hc : c.sample 16 perm 4 = some (ws, c')) :
    ∃ d', d.sample 16 perm 4 = some (ws, d') ∧ Same c' d' ∧ c'.samples = c.samples ++ [ws] ∧ ws.length = 4 := by
  rw [Chal.sample, if_pos (.inr rfl)] at hc ⊢
  simp only [Option.bind_eq_bind, Option.bind_eq_some_iff, Prod.exists] at hc
  obtain ⟨vs, c1, h1, h2⟩ := hc
  cases h2
  obtain ⟨d1, h3, h4, h5, h6⟩ := sampleWords_same h h1
  refine ⟨{ d1 with samples := d1.samples ++ [ws] }, by rw [h3]; rfl, ⟨⟨h4.1.1, h4.1.2⟩, h4.2⟩, ?_, h6⟩
  show c1.samples ++ [ws] = _
  rw [h5]

/-- No rest, or a whole block. -/
def Full (c : Chal U32) : Prop := c.output = [] ∨ c.output.length = 8

theorem duplexing_full {c c' : Chal U32} (h : c.duplexing 16 (blake3Perm hash) = some c') :
    c'.output.length = 8 ∧ c'.input = [] := by
  unfold Chal.duplexing at h
  split at h
  · cases h
    refine ⟨?_, rfl⟩
    simp [blake3Perm]
  · cases h

theorem observe_full {c c' : Chal U32} {v : U32} (h : c.observe 16 (blake3Perm hash) v = some c') : Full c' := by
  unfold Chal.observe at h
  simp only [] at h
  split at h
  · exact .inr (duplexing_full h).1
  · cases h
    exact .inl rfl

theorem observeAll_full : ∀ {vs : List U32} {c c' : Chal U32}, Full c ∨ vs ≠ [] →
    c.observeAll 16 (blake3Perm hash) vs = some c' → Full c'
  | [], c, c', hs, hc => by
    cases hc
    rcases hs with hs | hs
    · exact hs
    · exact absurd rfl hs
  | v :: vs, c, c', _, hc => by
    rw [Chal.observeAll, List.foldlM_cons] at hc
    obtain ⟨c1, h1, h2⟩ := Option.bind_eq_some_iff.mp hc
    exact observeAll_full (.inl (observe_full h1)) h2

theorem roots_ne {comm : Roots} (hn : comm ≠ []) : comm.flatMap Vector.toList ≠ [] := by
  cases comm with
  | nil => exact absurd rfl hn
  | cons r comm =>
    intro h0
    have := congrArg List.length h0
    simp at this

theorem observeRoots_full {comm : Roots} {c c' : Chal U32} (hn : comm ≠ [])
    (hc : (bb4Chall (blake3Perm hash)).observe c comm = some c') : Full c' := by
  have hc : c.observeNested 16 _ (comm.map Vector.toList) = some c' := hc
  rw [observeNested_flat] at hc
  exact observeAll_full (.inr (roots_ne hn)) hc

theorem sample_full {c c' : Chal U32} {ws : List U32} (hf : Full c)
    (h : c.sample 16 (blake3Perm hash) 4 = some (ws, c')) : c'.input = [] ∧ c'.output.length = 4 := by
  rw [Chal.sample, if_pos (.inr rfl)] at h
  simp only [Option.bind_eq_bind, Option.bind_eq_some_iff, Prod.exists] at h
  obtain ⟨vs, c1, h1, h2⟩ := h
  cases h2
  rw [Chal.sampleWords] at h1
  simp only [Option.bind_eq_bind, Option.bind_eq_some_iff, Prod.exists] at h1
  obtain ⟨v, c2, h3, vs, c3, h4, h5⟩ := h1
  cases h5
  rw [sampleWord_eq] at h3
  obtain ⟨c4, h6, h7⟩ := Option.bind_eq_some_iff.mp h3
  obtain ⟨w, h8, h9⟩ := Option.bind_eq_some_iff.mp h7
  cases h9
  have h10 : c4.output.length = 8 ∧ c4.input = [] := by
    split at h6
    · exact duplexing_full h6
    · rename_i hcond
      cases h6
      simp only [Bool.or_eq_true, Bool.not_eq_true', List.isEmpty_eq_false_iff, List.isEmpty_iff, not_or, not_not] at hcond
      exact ⟨hf.resolve_left hcond.2, hcond.1⟩
  rw [native_sampleWords (c := { c4 with output := c4.output.dropLast }) h10.2
    (by show 3 ≤ c4.output.dropLast.length; rw [List.length_dropLast, h10.1]; decide)] at h4
  cases h4
  refine ⟨h10.2, ?_⟩
  simp [h10.1]

theorem sample_rest {c c' : Chal U32} {ws : List U32} (hi : c.input = []) (ho : c.output.length = 4)
    (h : c.sample 16 perm 4 = some (ws, c')) : Near c c' ∧ c'.samples = c.samples ++ [ws] := by
  rw [Chal.sample, if_pos (.inr rfl), native_sampleWords hi (by omega)] at h
  cases h
  exact ⟨⟨rfl, rfl⟩, rfl⟩

/-! ### Values -/

/-- No word of the samples is `2^31`. -/
def NoTop (wss : List (List U32)) : Prop := ∀ ws ∈ wss, ∀ w ∈ ws, leValue w ≠ 2 ^ 31

theorem native_sample {c c' : Chal U32} {x : BB4} (h : (bb4Chall perm).sample c = some (x, c')) :
    ∃ ws, c.sample 16 perm 4 = some (ws, c') ∧ x = fromBase4 (ws.map nativeWord) := by
  have h : (do let (vs, ch) ← c.sample 16 perm 4; some (fromBase4 (vs.map fun v => (fromPf v : BB)), ch)) = some (x, c') := h
  simp only [Option.bind_eq_bind, Option.bind_eq_some_iff, Prod.exists] at h
  obtain ⟨ws, c1, h1, h2⟩ := h
  cases h2
  exact ⟨ws, h1, rfl⟩

theorem map_native {ws : List U32} (h : ∀ w ∈ ws, leValue w ≠ 2 ^ 31) : ws.map nativeWord = ws.map scriptWord :=
  List.map_congr_left fun w hw => nativeWord_eq (h w hw)

theorem value_same {c d c' : Chal U32} {x : BB4} (h : Same c d) (hc : (bb4Chall perm).sample c = some (x, c')) :
    ∃ y d' ws, (scriptChall perm).sample d = some (y, d') ∧ Near c' d' ∧ c'.samples = c.samples ++ [ws] ∧
      (NoTop [ws] → y = x) := by
  obtain ⟨ws, h1, rfl⟩ := native_sample hc
  obtain ⟨d', h2, h3, h4, _⟩ := sample_same h h1
  refine ⟨fromBase4 (ws.map scriptWord), { d' with output := [] }, ws, ?_, h3.1, h4, fun hw => ?_⟩
  · show (do let (vs, ch) ← d.sample 16 perm 4; _) = _
    rw [h2]; rfl
  · rw [map_native (hw ws (List.mem_singleton_self _))]

theorem betas_same : ∀ {comms : List Roots} {c d c' : Chal U32} {betas : List BB4}, Near c d → (∀ r ∈ comms, r ≠ []) →
    sampleBetas (bb4Chall perm) comms c = some (betas, c') →
    ∃ betas' d' wss, sampleBetas (scriptChall perm) comms d = some (betas', d') ∧ Near c' d' ∧
      c'.samples = c.samples ++ wss ∧ (NoTop wss → betas' = betas)
  | [], c, d, c', betas, h, _, hc => by
    cases hc
    exact ⟨[], d, [], rfl, h, by simp, fun _ => rfl⟩
  | comm :: comms, c, d, c', betas, h, hn, hc => by
    rw [sampleBetas] at hc
    simp only [Option.bind_eq_bind, Option.bind_eq_some_iff, Prod.exists, Option.some.injEq, Prod.mk.injEq] at hc
    obtain ⟨c1, b1, beta, c2, b2, bs, c3, b3, rfl, rfl⟩ := hc
    obtain ⟨d1, o1, o2, o3⟩ := observeRoots_same h (hn comm (List.mem_cons_self ..)) b1
    obtain ⟨y, d2, ws, s1, s2, s3, s4⟩ := value_same o2 b2
    obtain ⟨bs', d3, wss, i1, i2, i3, i4⟩ := betas_same s2 (fun r hr => hn r (List.mem_cons_of_mem _ hr)) b3
    refine ⟨y :: bs', d3, ws :: wss, ?_, i2, by rw [i3, s3, o3]; simp, fun hw => ?_⟩
    · rw [sampleBetas, o1]
      simp only [Option.bind_eq_bind, Option.bind_some, s1, i1]
    · rw [s4 fun a ha => hw a (by rw [List.mem_singleton] at ha; rw [ha]; exact List.mem_cons_self ..),
        i4 fun a ha => hw a (List.mem_cons_of_mem _ ha)]

/-- The proof-of-work check of the script passes when the native one does. -/
theorem pow_same {c d c' : Chal U32} {bits : Nat} {w : U32} (hb : bits ≤ 31) (h : Near c d)
    (hc : (bb4Chall perm).checkWitness c bits w = some (true, c')) :
    ∃ d', (scriptChall perm).checkWitness d bits w = some (true, d') ∧ Near c' d' := by
  have hc : FS.checkWitness perm 4 bits w c = some (true, c') := hc
  rw [FS.checkWitness] at hc
  simp only [Option.bind_eq_bind, Option.bind_eq_some_iff, Prod.exists] at hc
  obtain ⟨c1, h1, c2, h2, r, c3, h3, h4⟩ := hc
  rw [Option.some.injEq, Prod.mk.injEq, decide_eq_true_eq] at h4
  obtain ⟨rfl, rfl⟩ := h4
  rw [FS.sampleBits] at h3
  simp only [Option.bind_eq_bind, Option.bind_eq_some_iff, Prod.exists] at h3
  obtain ⟨ws, c4, h5, r, h6, h7⟩ := h3
  rw [if_pos (by omega)] at h7
  obtain ⟨h8, rfl⟩ := Prod.mk.inj (Option.some.inj h7)
  obtain ⟨d1, o1, o2, _⟩ := observe_same h h1
  obtain ⟨d2, p1, p2, _⟩ := observeAll_same o2.1 (.inl o2) h2
  obtain ⟨d3, q1, q2, _, _⟩ := sample_same p2 h5
  refine ⟨{ d3 with output := [] }, ?_, q2.1⟩
  unfold scriptChall
  simp only [Option.bind_eq_bind, o1, Option.bind_some, p1, q1]
  have hv : ((ws.map scriptWord).headD 0).val >>> (32 - bits) = 0 := by
    cases ws with
    | nil => cases h6
    | cons v ws =>
      have h6 : some (fromPf v) = some r := h6
      cases h6
      show (scriptWord v).val >>> (32 - bits) = 0
      unfold scriptWord sampleValue
      split
      · simp
      · have : ((leValue v : BB)).val = fromPf v := by
          rw [ZMod.val_natCast]; rfl
        rw [this, h8]
  rw [hv]
  rfl

theorem Same.refl (c : Chal U32) : Same c c := ⟨⟨rfl, rfl⟩, rfl⟩

theorem sampleBits_samples {c c' : Chal U32} {bits i : Nat} (h : FS.sampleBits perm 4 bits c = some (i, c')) :
    ∃ ws, c'.samples = c.samples ++ [ws] := by
  rw [FS.sampleBits] at h
  simp only [Option.bind_eq_bind, Option.bind_eq_some_iff, Prod.exists] at h
  obtain ⟨ws, c1, h1, r, h2, h3⟩ := h
  obtain ⟨_, _, _, h4, _⟩ := sample_same (.refl c) h1
  split at h3
  · cases h3
    exact ⟨ws, h4⟩
  · cases h3

theorem checkWitness_samples {c c' : Chal U32} {bits : Nat} {w : U32} {b : Bool}
    (h : (bb4Chall perm).checkWitness c bits w = some (b, c')) : ∃ ws, c'.samples = c.samples ++ [ws] := by
  have h : FS.checkWitness perm 4 bits w c = some (b, c') := h
  rw [FS.checkWitness] at h
  simp only [Option.bind_eq_bind, Option.bind_eq_some_iff, Prod.exists] at h
  obtain ⟨c1, h1, c2, h2, r, c3, h3, h4⟩ := h
  cases h4
  obtain ⟨_, _, _, o3⟩ := observe_same (Same.refl c).1 h1
  obtain ⟨_, _, _, p3⟩ := observeAll_same (Same.refl c1).1 (.inl (.refl c1)) h2
  obtain ⟨ws, h5⟩ := sampleBits_samples h3
  exact ⟨ws, by rw [h5, p3, o3]⟩

theorem sampleIndices_samples {bits : Nat} : ∀ {k q : Nat} {c c' : Chal U32} {is : List (Nat × Nat)},
    sampleIndices (bb4Chall perm) bits k q c = some (is, c') → ∃ wss, c'.samples = c.samples ++ wss
  | 0, q, c, c', is, h => by
    cases h
    exact ⟨[], by simp⟩
  | k + 1, q, c, c', is, h => by
    rw [sampleIndices] at h
    simp only [Option.bind_eq_bind, Option.bind_eq_some_iff, Prod.exists, Option.some.injEq, Prod.mk.injEq] at h
    obtain ⟨i, c1, h1, is', c2, h2, rfl, rfl⟩ := h
    obtain ⟨ws, h3⟩ := sampleBits_samples h1
    obtain ⟨wss, h4⟩ := sampleIndices_samples h2
    exact ⟨ws :: wss, by rw [h4, h3]; simp⟩

theorem NoTop.append {a b : List (List U32)} (h : NoTop (a ++ b)) : NoTop a ∧ NoTop b :=
  ⟨fun ws hw => h ws (List.mem_append_left _ hw), fun ws hw => h ws (List.mem_append_right _ hw)⟩

/-- The challenges of the script and of the native verifier, when every commitment has a root: the proof-of-work check
of the script passes, and the challenges agree if no sampled word is `2^31`. -/
theorem transcripts_agree {fcfg : Config} {P IP : Type} {trace quotient : Roots}
    {proof : FriProof BB4 Roots P U32 IP} {c' : Chal U32} {alpha zeta batch : BB4} {fc : FriChallenges BB4}
    (hp' : fcfg.powBits ≤ 31) (ht : trace ≠ []) (hq : quotient ≠ []) (hc : ∀ r ∈ proof.commitPhaseCommits, r ≠ [])
    (hn : nativeTranscript (blake3Perm hash) fcfg trace quotient proof (Chal.new 16 (fromU64 0)) =
      .ok ((alpha, zeta, batch, fc), c')) {s : ScriptChallenges}
    (hs : scriptTranscript (blake3Perm hash) fcfg trace quotient proof (Chal.new 16 (fromU64 0)) = some s) :
    s.pow = true ∧ (NoTop c'.samples → s.alpha = alpha ∧ s.zeta = zeta ∧ s.betas = fc.betas) := by
  rw [nativeTranscript] at hn
  simp only [ofOption_bind, Prod.exists] at hn
  obtain ⟨c1, a1, alpha', c2, a2, c3, a3, zeta', c4, a4, batch', c5, a5, hn⟩ := hn
  cases hv : verifyShapeAndSampleChallenges (bb4Chall (blake3Perm hash)) fcfg proof c5 with
  | err _ => rw [hv] at hn; cases hn
  | panic => rw [hv] at hn; cases hn
  | ok r =>
    obtain ⟨fc', c6⟩ := r
    rw [hv] at hn
    cases hn
    rw [verifyShapeAndSampleChallenges, ofOption_bind] at hv
    obtain ⟨⟨betas, c7⟩, b1, hv⟩ := hv
    by_cases hl : proof.queryProofs.length ≠ fcfg.numQueries
    · simp only [if_pos hl] at hv; cases hv
    · simp only [if_neg hl, ofOption_bind, Prod.exists] at hv
      obtain ⟨acc, c8, b2, hv⟩ := hv
      cases acc with
      | false => cases hv
      | true =>
        simp only [Bool.not_true, if_neg Bool.false_ne_true, ofOption_bind, Prod.exists] at hv
        obtain ⟨idx, c9, b3, hv⟩ := hv
        cases hv
        obtain ⟨d1, o1, o2, o3⟩ := observeRoots_same (Same.refl _).1 ht a1
        obtain ⟨y1, d2, ws1, s1, s2, s3, s4⟩ := value_same o2 a2
        obtain ⟨d3, p1, p2, p3⟩ := observeRoots_same s2 hq a3
        obtain ⟨y2, d4, ws2, q1, q2, q3, q4⟩ := value_same p2 a4
        obtain ⟨w4, f1, _⟩ := native_sample a4
        obtain ⟨f2, f3⟩ := sample_full (observeRoots_full hq a3) f1
        obtain ⟨w5, f4, _⟩ := native_sample a5
        obtain ⟨f5, f6⟩ := sample_rest f2 f3 f4
        have hnear : Near c5 d4 := ⟨f5.1.symm.trans q2.1, f5.2.symm.trans q2.2⟩
        obtain ⟨betas', d5, wss, t1, t2, t3, t4⟩ := betas_same hnear hc b1
        obtain ⟨d6, u1, u2⟩ := pow_same hp' t2 b2
        obtain ⟨w6, g1⟩ := checkWitness_samples b2
        obtain ⟨w7, g2⟩ := sampleIndices_samples b3
        rw [scriptTranscript] at hs
        simp only [Option.bind_eq_bind, o1, s1, p1, q1, t1, u1, Option.bind_some, Option.bind_eq_some_iff, Prod.exists] at hs
        obtain ⟨js, d7, _, hs⟩ := hs
        cases hs
        refine ⟨rfl, fun hw => ?_⟩
        have hw : NoTop (([[ws1], [ws2], [w5], wss, [w6], w7] : List (List (List U32))).flatten) := by
          have : c6.samples = ([[ws1], [ws2], [w5], wss, [w6], w7] : List (List (List U32))).flatten := by
            rw [g2, g1, t3, f6, q3, p3, s3, o3]
            simp [Chal.new]
          rw [← this]; exact hw
        have sub : ∀ l ∈ ([[ws1], [ws2], [w5], wss, [w6], w7] : List (List (List U32))), NoTop l :=
          fun l hl ws hws => hw ws (List.mem_flatten.mpr ⟨l, hl, hws⟩)
        exact ⟨s4 (sub _ (by simp)), q4 (sub _ (by simp)), t4 (sub _ (by simp))⟩

/-- C77, when the checks pass: every commitment having a root, and no sampled word being `2^31`, the script of the
challenges' manager accepts iff the number of query indices that differ from the script's is even. -/
theorem C77_accepts (hL : L.Ok cfg) (hT : T.Ok cfg) (hH : IsBlake3 hash) {fcfg : Config} {P IP : Type} {bits : Nat}
    {trace quotient : Roots} {proof : FriProof BB4 Roots P U32 IP} {c' : Chal U32} {alpha zeta batch : BB4}
    {fc : FriChallenges BB4} (hp : 1 ≤ fcfg.powBits) (hp' : fcfg.powBits ≤ 31) (hb : 1 ≤ bits) (hb' : bits ≤ 27)
    (hm : 1 ≤ proof.commitPhaseCommits.length + fcfg.logBlowup)
    (hm' : proof.commitPhaseCommits.length + fcfg.logBlowup ≤ 31)
    (ht : trace ≠ []) (hq : quotient ≠ []) (hc : ∀ r ∈ proof.commitPhaseCommits, r ≠ [])
    (hn : nativeTranscript (blake3Perm hash) fcfg trace quotient proof (Chal.new 16 (fromU64 0)) =
      .ok ((alpha, zeta, batch, fc), c')) (hw : NoTop c'.samples) (n : Nat) :
    ∃ s zetaE checks e' n' m, scriptTranscript (blake3Perm hash) fcfg trace quotient proof (Chal.new 16 (fromU64 0)) = some s ∧
      allChallenges (blake3Perm hash) fcfg bits trace quotient proof (Chal.new 16 (fromU64 0)) (ChalExpr.new n).1
        (ChalExpr.new n).2 = .ok ((alpha, zeta, batch, fc), zetaE, checks, c', e', n') ∧
      challengerManager checks = some m ∧
      ∀ N, n' ≤ N → ∃ m' N', m.embedHintVerify N = some (m', N') ∧
        (m'.run cfg L T = some () ↔ differing s.indices fc.queryIndices % 2 = 0) := by
  obtain ⟨s, zetaE, checks, e', n', m, h1, h2, h3, _, h5⟩ := C77_exact hL hT hH hp hp' hb' hm hm' hn n
  obtain ⟨k1, k2⟩ := transcripts_agree hp' ht hq hc hn h1
  refine ⟨s, zetaE, checks, e', n', m, h1, h2, h3, fun N hN => ?_⟩
  obtain ⟨m', N', h6, h7⟩ := h5 N hN
  refine ⟨m', N', h6, h7.trans ?_⟩
  rw [k1]
  simp [k2 hw, Nat.one_le_iff_ne_zero.mp hb]

/-! ### Two transcripts -/

/-- A commitment with one root. -/
def demoRoots : Roots := [Vector.replicate 8 #v[1, 2, 3, 4]]

/-- A FRI proof with one round and `q` queries, whose witness passes a proof-of-work check of four bits. -/
noncomputable def demoFri (q : Nat) : FriProof BB4 Roots Unit U32 Unit :=
  ⟨[demoRoots], List.replicate q ⟨(), []⟩, 0, fromU64 0⟩

/-- Blowup 4, `q` queries, four bits of work. -/
def demoCfg (q : Nat) : Config := ⟨2, q, 4, true⟩

/-- The query indices of a transcript, and whether all its words are below `2^31` or above. -/
def indicesOf : Res ((BB4 × BB4 × BB4 × FriChallenges BB4) × Chal U32) → Option (List (Nat × Nat) × Bool)
  | .ok ((_, _, _, fc), c) => some (fc.queryIndices, decide (∀ ws ∈ c.samples, ∀ w ∈ ws, leValue w ≠ 2 ^ 31))
  | _ => none

theorem indicesOf_some {r : Res ((BB4 × BB4 × BB4 × FriChallenges BB4) × Chal U32)} {is : List (Nat × Nat)}
    (h : indicesOf r = some (is, true)) : ∃ alpha zeta batch betas c', r = .ok ((alpha, zeta, batch, ⟨is, betas⟩), c') ∧
      NoTop c'.samples := by
  match r, h with
  | .ok ((alpha, zeta, batch, ⟨is', betas⟩), c), h =>
    simp only [indicesOf, Option.some.injEq, Prod.mk.injEq, decide_eq_true_eq] at h
    obtain ⟨rfl, h'⟩ := h
    exact ⟨alpha, zeta, batch, betas, c, rfl, h'⟩

theorem demo_native1 : indicesOf (nativeTranscript (blake3Perm specHash) (demoCfg 1) demoRoots demoRoots (demoFri 1)
    (Chal.new 16 (fromU64 0))) = some ([(0, 1)], true) := by decide +kernel

theorem demo_native2 : indicesOf (nativeTranscript (blake3Perm specHash) (demoCfg 2) demoRoots demoRoots (demoFri 2)
    (Chal.new 16 (fromU64 0))) = some ([(0, 1), (1, 2)], true) := by decide +kernel

theorem demo_script1 : (scriptTranscript (blake3Perm specHash) (demoCfg 1) demoRoots demoRoots (demoFri 1)
    (Chal.new 16 (fromU64 0))).map (·.indices) = some [(0, 2)] := by decide +kernel

theorem demo_script2 : (scriptTranscript (blake3Perm specHash) (demoCfg 2) demoRoots demoRoots (demoFri 2)
    (Chal.new 16 (fromU64 0))).map (·.indices) = some [(0, 2), (1, 3)] := by decide +kernel

/-- C77 fails for correct challenges: with BLAKE3 itself and one query, all challenges are those of the native verifier,
whose shape and proof-of-work checks pass, and the script of their manager rejects. -/
theorem C77_violated_one_query (hL : L.Ok cfg) (hT : T.Ok cfg) (n : Nat) :
    ∃ alpha zeta batch fc c' zetaE checks e' n' m,
      nativeTranscript (blake3Perm specHash) (demoCfg 1) demoRoots demoRoots (demoFri 1) (Chal.new 16 (fromU64 0)) =
        .ok ((alpha, zeta, batch, fc), c') ∧
      allChallenges (blake3Perm specHash) (demoCfg 1) 1 demoRoots demoRoots (demoFri 1) (Chal.new 16 (fromU64 0))
        (ChalExpr.new n).1 (ChalExpr.new n).2 = .ok ((alpha, zeta, batch, fc), zetaE, checks, c', e', n') ∧
      challengerManager checks = some m ∧
      ∀ N, n' ≤ N → ∃ m' N', m.embedHintVerify N = some (m', N') ∧ m'.run cfg L T ≠ some () := by
  obtain ⟨alpha, zeta, batch, betas, c', h1, h2⟩ := indicesOf_some demo_native1
  obtain ⟨s, zetaE, checks, e', n', m, h3, h4, h5, h6⟩ := C77_accepts hL hT specHash_ok (bits := 1) (by decide) (by decide)
    (by decide) (by decide) (by decide) (by decide) (by simp [demoRoots]) (by simp [demoRoots])
    (by simp [demoFri, demoRoots]) h1 h2 n
  refine ⟨_, _, _, _, _, _, _, _, _, m, h1, h4, h5, fun N hN => ?_⟩
  obtain ⟨m', N', h7, h8⟩ := h6 N hN
  refine ⟨m', N', h7, fun h => ?_⟩
  have h9 := demo_script1
  rw [h3] at h9
  have h9 : s.indices = _ := Option.some.inj h9
  have h10 := h8.mp h
  rw [h9] at h10
  have h10 : differing [(0, 2)] [(0, 1)] % 2 = 0 := h10
  revert h10
  decide

/-- C77 fails the other way: with two queries the script accepts, although neither query index is the one it computed. -/
theorem C77_violated_two_queries (hL : L.Ok cfg) (hT : T.Ok cfg) (n : Nat) :
    ∃ alpha zeta batch fc c' s zetaE checks e' n' m,
      scriptTranscript (blake3Perm specHash) (demoCfg 2) demoRoots demoRoots (demoFri 2) (Chal.new 16 (fromU64 0)) = some s ∧
      s.indices = [(0, 2), (1, 3)] ∧ fc.queryIndices = [(0, 1), (1, 2)] ∧
      allChallenges (blake3Perm specHash) (demoCfg 2) 1 demoRoots demoRoots (demoFri 2) (Chal.new 16 (fromU64 0))
        (ChalExpr.new n).1 (ChalExpr.new n).2 = .ok ((alpha, zeta, batch, fc), zetaE, checks, c', e', n') ∧
      challengerManager checks = some m ∧
      ∀ N, n' ≤ N → ∃ m' N', m.embedHintVerify N = some (m', N') ∧ m'.run cfg L T = some () := by
  obtain ⟨alpha, zeta, batch, betas, c', h1, h2⟩ := indicesOf_some demo_native2
  obtain ⟨s, zetaE, checks, e', n', m, h3, h4, h5, h6⟩ := C77_accepts hL hT specHash_ok (bits := 1) (by decide) (by decide)
    (by decide) (by decide) (by decide) (by decide) (by simp [demoRoots]) (by simp [demoRoots])
    (by simp [demoFri, demoRoots]) h1 h2 n
  have h9 := demo_script2
  rw [h3] at h9
  have h9 : s.indices = _ := Option.some.inj h9
  refine ⟨_, _, _, _, _, s, _, _, _, _, m, h3, h9, rfl, h4, h5, fun N hN => ?_⟩
  obtain ⟨m', N', h7, h8⟩ := h6 N hN
  refine ⟨m', N', h7, h8.mpr ?_⟩
  rw [h9]
  show differing [(0, 2), (1, 3)] [(0, 1), (1, 2)] % 2 = 0
  decide

end TapStark.Stark
