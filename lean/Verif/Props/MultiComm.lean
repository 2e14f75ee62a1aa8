import Verif.Model.MultiComm
import Verif.Props.Winternitz
import Verif.Props.U31

/-!
C95: the comparison of a multi-word commitment with its value.  C96: the equivocation script.

`keys` are the secrets of the words, `us` the committed words, `vs` the words that are signed; the signature of `vs` is
made with the same keys (`new_with_commits`).  `signMagElem v` is the script number a signed word `v` is recovered as: `v`
itself below 2^31.
-/

namespace TapStark

/-- One row: committed word, signed word and key, with the commitment, the recovering script and the signature. -/
abbrev MRow := (BitVec 32 × BitVec 32 × List Char) × BitCommU32 × List Op × List Elem

theorem multi_rows (cfg : Cfg) (h20 : ∀ x, (cfg.hash160 x).length = 20) (ts : List (BitVec 32 × BitVec 32 × List Char))
    (hk : ∀ t ∈ ts, (hexDecode t.2.2).isSome) :
    ∃ z : List MRow, z.map (·.1) = ts ∧ ∀ x ∈ z, BitCommU32.new cfg x.1.2.2 x.1.1 = some x.2.1 ∧
      x.2.1.recoverAtStack = some x.2.2.1 ∧ (x.2.1.changeValue x.1.2.1).signature cfg = some x.2.2.2 ∧ ∀ m a ops,
        run cfg (x.2.2.1 ++ ops) ⟨x.2.2.2.reverse ++ m, a, []⟩ =
          run cfg ops ⟨num (signMag x.1.2.1) :: m, a, []⟩ := by
  induction ts with
  | nil => exact ⟨[], rfl, by simp⟩
  | cons t ts ih =>
    obtain ⟨z, hz, h⟩ := ih fun t' ht' => hk t' (by simp [ht'])
    obtain ⟨b, q, sig, h1, h2, h3, h4⟩ := recoverAtStack_honest cfg h20 t.2.2 (hk t (by simp)) t.1 t.2.1
    refine ⟨(t, b, q, sig) :: z, by simp [hz], ?_⟩
    rintro x hx
    rcases List.mem_cons.1 hx with rfl | hx
    · exact ⟨h1, h2, h3, h4⟩
    · exact h x hx

theorem signMagElem_eq (v : BitVec 32) : num (signMag v) = signMagElem v := by
  simp only [signMagElem, num_inj, signMag]
  split <;> omega

/-- Recovering a signature of `vs` with the commitments to `us` to the alternative stack leaves the words of `vs` there. -/
theorem recover_alt (cfg : Cfg) (h20 : ∀ x, (cfg.hash160 x).length = 20) (us vs : List (BitVec 32))
    (keys : List (List Char)) (hu : keys.length = us.length) (hv : keys.length = vs.length)
    (hk : ∀ k ∈ keys, (hexDecode k).isSome) :
    ∃ b b' q sig, BitComm.new cfg us keys = some b ∧ b.u32Values = us ∧ b.recoverAtAlt = some q ∧
      BitComm.newWithCommits vs b.commitments = some b' ∧ b'.signature cfg = some sig ∧ ∀ m a ops,
        run cfg (q ++ ops) ⟨sig.reverse ++ m, a, []⟩ = run cfg ops ⟨m, (vs.map signMagElem).reverse ++ a, []⟩ := by
  obtain ⟨z, hz, h⟩ := multi_rows cfg h20 (us.zip (vs.zip keys)) fun t ht =>
    hk _ (List.of_mem_zip (List.of_mem_zip ht).2).2
  have lz : (vs.zip keys).length = us.length := by simp; omega
  have hzu : z.map (fun x => x.1.1) = us := by
    rw [show z.map (fun x => x.1.1) = (z.map (·.1)).map (·.1) by simp, hz]
    exact List.map_fst_zip (by omega)
  have hzr : z.map (fun x => x.1.2) = vs.zip keys := by
    rw [show z.map (fun x => x.1.2) = (z.map (·.1)).map (·.2) by simp, hz]
    exact List.map_snd_zip (by omega)
  have hzv : z.map (fun x => x.1.2.1) = vs := by
    rw [show z.map (fun x => x.1.2.1) = (z.map (fun x => x.1.2)).map (·.1) by simp, hzr]
    exact List.map_fst_zip (by omega)
  have hzk : z.map (fun x => x.1.2.2) = keys := by
    rw [show z.map (fun x => x.1.2.2) = (z.map (fun x => x.1.2)).map (·.2) by simp, hzr]
    exact List.map_snd_zip (by omega)
  have lu : us.length = z.length := by rw [← hzu]; simp
  have lv : vs.length = z.length := by rw [← hzv]; simp
  refine ⟨⟨us, z.map (·.2.1)⟩, ⟨vs, z.map fun x => x.2.1.changeValue x.1.2.1⟩,
    (z.map fun x => x.2.2.1 ++ [Op.toAlt]).flatten,
    (z.reverse.map fun x => x.2.2.2).flatten, ?_, rfl, ?_, ?_, ?_, ?_⟩
  · unfold BitComm.new
    have e : us.zip keys = z.map fun x => (x.1.1, x.1.2.2) := by
      rw [← hzu, ← hzk, List.zip_map']
    rw [e, mapM_map_of, mapM_some_of _ (fun x => x.2.1) z (fun x hx => (h x hx).1)]
    simp [lu]
  · unfold BitComm.recoverAtAlt
    have hl : us.length = (z.map (·.2.1)).length := by simp [lu]
    simp only [Option.bind_eq_bind]
    rw [hl, mapM_range (z.map (·.2.1)) (fun c => c.recoverAtStack.bind fun p => some (p ++ [Op.toAlt])),
      mapM_map_of, mapM_some_of _ (fun x => x.2.2.1 ++ [Op.toAlt]) z
        (fun x hx => by rw [(h x hx).2.1]; rfl)]
    rfl
  · unfold BitComm.newWithCommits
    rw [if_pos (by simp [lv])]
    have e : (z.map (·.2.1)).zip vs = z.map fun x => (x.2.1, x.1.2.1) := by
      rw [← List.zip_map', hzv]
    simp only [e, List.map_map]
    rfl
  · unfold BitComm.signature
    have hl : vs.length = (z.map fun x => x.2.1.changeValue x.1.2.1).length := by simp [lv]
    simp only [Option.bind_eq_bind]
    rw [hl, mapM_range_reverse (z.map fun x => x.2.1.changeValue x.1.2.1) (fun c => c.signature cfg),
      ← List.map_reverse, mapM_map_of, mapM_some_of _ (fun x => x.2.2.2) z.reverse
        (fun x hx => (h x (List.mem_reverse.mp hx)).2.2.1)]
    rfl
  · intro m a ops
    have hr := run_recoverAll (cfg := cfg) (z.map fun x => (x.1.2.1, x.2.2.1, x.2.2.2))
      (by
        intro t ht
        obtain ⟨x, hx, rfl⟩ := List.mem_map.mp ht
        exact (h x hx).2.2.2) m a ops
    simp only [List.map_map, ← List.map_reverse, Function.comp_def] at hr
    rw [hr]
    have : (z.reverse.map fun x => num (signMag x.1.2.1)) = (vs.map signMagElem).reverse := by
      rw [← hzv, List.map_map, ← List.map_reverse]
      exact List.map_congr_left fun x _ => signMagElem_eq _
    rw [this]

/-- Recovering a signature of `vs` with the commitments to `us` leaves the words of `vs`. -/
theorem recover_other (cfg : Cfg) (h20 : ∀ x, (cfg.hash160 x).length = 20) (us vs : List (BitVec 32))
    (keys : List (List Char)) (hu : keys.length = us.length) (hv : keys.length = vs.length)
    (hk : ∀ k ∈ keys, (hexDecode k).isSome) :
    ∃ b b' q sig, BitComm.new cfg us keys = some b ∧ b.u32Values = us ∧ b.checkAndRecover = some q ∧
      BitComm.newWithCommits vs b.commitments = some b' ∧ b'.signature cfg = some sig ∧ ∀ m a ops,
        run cfg (q ++ ops) ⟨sig.reverse ++ m, a, []⟩ = run cfg ops ⟨vs.map signMagElem ++ m, a, []⟩ := by
  obtain ⟨b, b', q, sig, h1, h2, h3, h4, h5, h6⟩ := recover_alt cfg h20 us vs keys hu hv hk
  refine ⟨b, b', q ++ b.messageFromAlt, sig, h1, h2, by unfold BitComm.checkAndRecover; rw [h3]; rfl, h4, h5,
    fun m a ops => ?_⟩
  have hl : us.length = (vs.map signMagElem).reverse.length := by simp; omega
  rw [List.append_assoc, h6, BitComm.messageFromAlt, h2, hl, run_fromAlts_elems, List.reverse_reverse]

theorem run_pushWords {cfg : Cfg} {ops : List Op} {m a : List Elem} (us : List (BitVec 32)) :
    run cfg (us.reverse.map (fun v => Op.num v.toNat) ++ ops) ⟨m, a, []⟩ =
      run cfg ops ⟨us.map (fun u => num u.toNat) ++ m, a, []⟩ := by
  induction us generalizing ops with
  | nil => rfl
  | cons u us ih =>
    rw [List.reverse_cons, List.map_append, List.append_assoc, ih, List.map_cons, List.map_nil, List.cons_append,
      List.nil_append, run_num _ rfl]
    rfl

/-- C95: what the comparison does, for any number of words: it compares the topmost words of the stack with those below,
one word for a commitment to one word and four words otherwise. -/
theorem C95_exact (cfg : Cfg) (h20 : ∀ x, (cfg.hash160 x).length = 20) (us vs : List (BitVec 32))
    (keys : List (List Char)) (hu : keys.length = us.length) (hv : keys.length = vs.length)
    (hk : ∀ k ∈ keys, (hexDecode k).isSome) :
    ∃ b b' q sig, BitComm.new cfg us keys = some b ∧ b.recoverEqual = some q ∧
      BitComm.newWithCommits vs b.commitments = some b' ∧ b'.signature cfg = some sig ∧ ∀ m a,
        run cfg q ⟨sig.reverse ++ m, a, []⟩ =
          run cfg (if us.length = 1 then [.equalverify] else u31extEqualverify)
            ⟨us.map (fun u => num u.toNat) ++ (vs.map signMagElem ++ m), a, []⟩ := by
  obtain ⟨b, b', q, sig, h1, h2, h3, h4, h5, h6⟩ := recover_other cfg h20 us vs keys hu hv hk
  refine ⟨b, b', _, sig, h1, by rw [BitComm.recoverEqual, h3]; rfl, h4, h5, fun m a => ?_⟩
  rw [h2, List.append_assoc, h6, run_pushWords]

/-- C95: for one word and for four words below 2^31, the comparison accepts exactly the signatures of the committed words
(the words 2^31 apart, which are also recovered as 0). -/
theorem C95_one_or_four_partial (cfg : Cfg) (h20 : ∀ x, (cfg.hash160 x).length = 20) (us vs : List (BitVec 32))
    (keys : List (List Char)) (hl : us.length = 1 ∨ us.length = 4) (hu : keys.length = us.length)
    (hv : keys.length = vs.length) (hk : ∀ k ∈ keys, (hexDecode k).isSome) (hr : ∀ u ∈ us, u.toNat < 2 ^ 31)
    (hs : ∀ v ∈ vs, v ≠ 0x80000000#32) :
    ∃ b b' q sig, BitComm.new cfg us keys = some b ∧ b.recoverEqual = some q ∧
      BitComm.newWithCommits vs b.commitments = some b' ∧ b'.signature cfg = some sig ∧ ∀ m a,
        run cfg q ⟨sig.reverse ++ m, a, []⟩ = if us = vs then some ⟨m, a, []⟩ else none := by
  have key : ∀ u v : BitVec 32, u.toNat < 2 ^ 31 → v ≠ 0x80000000#32 → (num u.toNat = signMagElem v ↔ u = v) := by
    intro u v hu hv
    rw [signMagElem, num_inj]
    constructor
    · intro h
      apply BitVec.eq_of_toNat_eq
      split at h
      · omega
      · have : v.toNat ≠ 2147483648 := fun hh => hv (BitVec.eq_of_toNat_eq (by simpa using hh))
        omega
    · rintro rfl; rw [if_pos hu]
  obtain ⟨b, b', q, sig, h1, h2, h3, h4, h5⟩ := C95_exact cfg h20 us vs keys hu hv hk
  refine ⟨b, b', q, sig, h1, h2, h3, h4, fun m a => ?_⟩
  rw [h5]
  rcases hl with hl | hl
  · obtain ⟨u, rfl⟩ := List.length_eq_one_iff.1 hl
    obtain ⟨v, rfl⟩ := List.length_eq_one_iff.1 (show vs.length = 1 by omega)
    have k := key u v (hr u (by simp)) (hs v (by simp))
    rw [if_pos hl]
    simp only [List.map_cons, List.map_nil, List.cons_append, List.nil_append, run_equalverify _ _ (show live [] = true from rfl),
      run_nil, k]
    simp
  · match us, vs, hl, (show vs.length = 4 by omega) with
    | [u0, u1, u2, u3], [v0, v1, v2, v3], _, _ =>
      have k0 := key u0 v0 (hr _ (by simp)) (hs _ (by simp))
      have k1 := key u1 v1 (hr _ (by simp)) (hs _ (by simp))
      have k2 := key u2 v2 (hr _ (by simp)) (hs _ (by simp))
      have k3 := key u3 v3 (hr _ (by simp)) (hs _ (by simp))
      rw [if_neg (by simp)]
      simp only [List.map_cons, List.map_nil, List.cons_append, List.nil_append, C62_ext_equalverify, List.cons.injEq,
        and_true, k0, k1, k2, k3]

/-- C95 is violated for two words: the signature of the committed words is refused on an otherwise empty stack, and on a
stack with four more words whether it is accepted depends on those words and not on the comparison of what was committed
with what was signed. -/
theorem C95_violated_two (cfg : Cfg) (h20 : ∀ x, (cfg.hash160 x).length = 20) (u0 u1 v0 v1 : BitVec 32)
    (k0 k1 : List Char) (hk0 : (hexDecode k0).isSome) (hk1 : (hexDecode k1).isSome) :
    ∃ b b' q sig, BitComm.new cfg [u0, u1] [k0, k1] = some b ∧ b.recoverEqual = some q ∧
      BitComm.newWithCommits [v0, v1] b.commitments = some b' ∧ b'.signature cfg = some sig ∧
      (∀ a, run cfg q ⟨sig.reverse, a, []⟩ = none) ∧
      ∀ w0 w1 w2 w3 m a, run cfg q ⟨sig.reverse ++ (w0 :: w1 :: w2 :: w3 :: m), a, []⟩ =
        if [num u0.toNat, num u1.toNat, signMagElem v0, signMagElem v1] = [w0, w1, w2, w3]
        then some ⟨m, a, []⟩ else none := by
  obtain ⟨b, b', q, sig, h1, h2, h3, h4, h5⟩ := C95_exact cfg h20 [u0, u1] [v0, v1] [k0, k1] rfl rfl (by
    intro k hk
    simp only [List.mem_cons, List.not_mem_nil, or_false] at hk
    rcases hk with rfl | rfl <;> assumption)
  refine ⟨b, b', q, sig, h1, h2, h3, h4, fun a => ?_, fun w0 w1 w2 w3 m a => ?_⟩
  · have := h5 [] a
    rw [List.append_nil] at this
    rw [this, if_neg (by simp)]
    simp only [List.map_cons, List.map_nil, List.cons_append, List.nil_append, List.append_nil, u31extEqualverify]
    have h : live [] = true := rfl
    sexec [List.getElem?_nil]
  · rw [h5, if_neg (by simp)]
    simp only [List.map_cons, List.map_nil, List.cons_append, List.nil_append, C62_ext_equalverify]

/-- C95 is violated for eight words: the comparison never looks at the signed words.  A commitment whose first four words
equal its last four accepts the signature of any eight words, and any other refuses all signatures. -/
theorem C95_violated_eight (cfg : Cfg) (h20 : ∀ x, (cfg.hash160 x).length = 20) (x0 x1 x2 x3 y0 y1 y2 y3 : BitVec 32)
    (vs : List (BitVec 32)) (hv : vs.length = 8) (keys : List (List Char)) (hl : keys.length = 8)
    (hk : ∀ k ∈ keys, (hexDecode k).isSome) :
    ∃ b b' q sig, BitComm.new cfg [x0, x1, x2, x3, y0, y1, y2, y3] keys = some b ∧ b.recoverEqual = some q ∧
      BitComm.newWithCommits vs b.commitments = some b' ∧ b'.signature cfg = some sig ∧ ∀ m a,
        run cfg q ⟨sig.reverse ++ m, a, []⟩ =
          if [x0, x1, x2, x3] = [y0, y1, y2, y3] then some ⟨vs.map signMagElem ++ m, a, []⟩ else none := by
  obtain ⟨b, b', q, sig, h1, h2, h3, h4, h5⟩ :=
    C95_exact cfg h20 [x0, x1, x2, x3, y0, y1, y2, y3] vs keys hl (by omega) hk
  refine ⟨b, b', q, sig, h1, h2, h3, h4, fun m a => ?_⟩
  rw [h5, if_neg (by simp)]
  have k : ∀ x y : BitVec 32, num (x.toNat : Int) = num (y.toNat : Int) ↔ x = y := fun x y => by
    rw [num_inj]; exact ⟨fun h => BitVec.eq_of_toNat_eq (by omega), fun h => by rw [h]⟩
  simp only [List.map_cons, List.map_nil, List.cons_append, List.nil_append, C62_ext_equalverify, List.cons.injEq,
    and_true, k]

/-- Committed and signed words and keys as C95 assumes. -/
example : [['0', '0'], ['a', 'b'], ['0', '1'], ['c', 'd']].length = [7#32, 9#32, 0#32, 5#32].length ∧
    (∀ k ∈ [['0', '0'], ['a', 'b'], ['0', '1'], ['c', 'd']], (hexDecode k).isSome) ∧
    (∀ u ∈ [7#32, 9#32, 0#32, 5#32], u.toNat < 2 ^ 31) ∧ ∀ v ∈ [7#32, 9#32, 1#32, 0xffffffff#32], v ≠ 0x80000000#32 := by
  refine ⟨rfl, by decide, by simp, by simp⟩

/-! ### C96 -/

/-- Two signatures that prove equivocation under the public key `pk`: both valid, of different messages. -/
def Equivocates (cfg : Cfg) (pk : Nat → Elem) (w : List Elem) : Prop :=
  ∃ e x d e' x' d', w = sigStack e x ++ sigStack e' x' ∧ ValidSig cfg.hash160 cfg.minimal pk e x d ∧
    ValidSig cfg.hash160 cfg.minimal pk e' x' d' ∧ messageValue d ≠ messageValue d'

/-- C96 is violated: whatever the public key, a witness without any signature (the single number 1) is left in place by
the equivocation script, and so spends. -/
theorem C96_violated (cfg : Cfg) (pk : List Elem) : ∃ w, (∀ pk', ¬ Equivocates cfg pk' w) ∧
    run cfg (equivocation pk) ⟨w, [], []⟩ = some ⟨[num 1], [], []⟩ := by
  refine ⟨[num 1], ?_, rfl⟩
  rintro pk' ⟨e, x, d, e', x', d', h, -⟩
  have := congrArg List.length h
  simp [sigStack, List.range_succ] at this

/-- What the equivocation script does, on every stack: nothing. -/
theorem C96_exact (cfg : Cfg) (pk : List Elem) (s : St) : run cfg (equivocation pk) s = some s := rfl

end TapStark
