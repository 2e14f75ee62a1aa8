import Verif.Props.MultiComm

/-!
C105: words recovered from several commitments and kept on the alternative stack.

A row is the words committed to, the words signed and the keys of one commitment.  The witness holds the signature of the
first row on top.
-/

namespace TapStark

/-- The words committed to, the words signed, the keys. -/
abbrev StoreRow := List (BitVec 32) × List (BitVec 32) × List (List Char)

theorem run_toAlts_elems {cfg : Cfg} {ops : List Op} {m a : List Elem} (es : List Elem) :
    run cfg (emitN es.length [.toAlt] ++ ops) ⟨es ++ m, a, []⟩ = run cfg ops ⟨m, es.reverse ++ a, []⟩ := by
  induction es generalizing a with
  | nil => rfl
  | cons e es ih =>
    rw [show emitN (e :: es).length [Op.toAlt] = .toAlt :: emitN es.length [.toAlt] from by
      simp [emitN, List.replicate_succ]]
    rw [List.cons_append, List.cons_append, run_toAlt _ rfl, ih]
    simp

/-- C105: recovering one commitment after another to the alternative stack and fetching the words back in the opposite
order leaves the words of every signature, those of the first on top, in the order of the words, and both stacks below
are as before. -/
theorem C105_several (cfg : Cfg) (h20 : ∀ x, (cfg.hash160 x).length = 20) (rows : List StoreRow)
    (hu : ∀ r ∈ rows, r.2.2.length = r.1.length) (hv : ∀ r ∈ rows, r.2.2.length = r.2.1.length)
    (hk : ∀ r ∈ rows, ∀ k ∈ r.2.2, (hexDecode k).isSome) :
    ∃ (bs signers : List BitComm) (qs : List (List Op)) (sigs : List (List Elem)),
      rows.mapM (fun r => BitComm.new cfg r.1 r.2.2) = some bs ∧
      (rows.zip bs).mapM (fun x => BitComm.newWithCommits x.1.2.1 x.2.commitments) = some signers ∧
      bs.mapM (fun b => b.recoverAtAlt) = some qs ∧ signers.mapM (fun b => b.signature cfg) = some sigs ∧ ∀ m a ops,
        run cfg (qs.flatten ++ (bs.reverse.map fun b => b.messageFromAlt).flatten ++ ops)
            ⟨(sigs.map List.reverse).flatten ++ m, a, []⟩ =
          run cfg ops ⟨(rows.map fun r => r.2.1.map signMagElem).flatten ++ m, a, []⟩ := by
  induction rows with
  | nil => exact ⟨[], [], [], [], rfl, rfl, rfl, rfl, fun _ _ _ => rfl⟩
  | cons r rows ih =>
    obtain ⟨bs, ss, qs, sigs, h1, h2, h3, h4, h5⟩ := ih (fun x hx => hu x (by simp [hx])) (fun x hx => hv x (by simp [hx]))
      (fun x hx => hk x (by simp [hx]))
    obtain ⟨b, b', q, sig, g1, g2, g3, g4, g5, g6⟩ := recover_alt cfg h20 r.1 r.2.1 r.2.2 (hu r (by simp)) (hv r (by simp))
      (hk r (by simp))
    refine ⟨b :: bs, b' :: ss, q :: qs, sig :: sigs, by simp [List.mapM_cons, g1, h1], by
      simp [List.mapM_cons, g4, h2], by simp [List.mapM_cons, g3, h3], by simp [List.mapM_cons, g5, h4], fun m a ops => ?_⟩
    have hl : r.1.length = (r.2.1.map signMagElem).reverse.length := by
      have := hu r (by simp); have := hv r (by simp); simp; omega
    simp only [List.flatten_cons, List.map_cons, List.reverse_cons, List.map_append, List.map_nil, List.flatten_append,
      List.flatten_nil, List.append_nil, List.append_assoc]
    rw [g6, ← List.append_assoc, h5, BitComm.messageFromAlt, g2, hl, run_fromAlts_elems, List.reverse_reverse]

/-- C105: words on the stack survive being moved to the alternative stack and back; in between they are exactly what
recovering to the alternative stack leaves. -/
theorem C105_move (cfg : Cfg) (h20 : ∀ x, (cfg.hash160 x).length = 20) (us vs : List (BitVec 32))
    (keys : List (List Char)) (hu : keys.length = us.length) (hv : keys.length = vs.length)
    (hk : ∀ k ∈ keys, (hexDecode k).isSome) :
    ∃ b b' q q' sig, BitComm.new cfg us keys = some b ∧ b.recoverAtAlt = some q ∧ b.checkAndRecover = some q' ∧
      BitComm.newWithCommits vs b.commitments = some b' ∧ b'.signature cfg = some sig ∧
      (∀ m a ops, run cfg (q' ++ b.messageToAlt ++ ops) ⟨sig.reverse ++ m, a, []⟩ =
        run cfg (q ++ ops) ⟨sig.reverse ++ m, a, []⟩) ∧
      ∀ (es : List Elem) m a ops, es.length = us.length →
        run cfg (b.messageToAlt ++ b.messageFromAlt ++ ops) ⟨es ++ m, a, []⟩ = run cfg ops ⟨es ++ m, a, []⟩ := by
  obtain ⟨b, b', q, sig, h1, h2, h3, h4, h5, h6⟩ := recover_alt cfg h20 us vs keys hu hv hk
  refine ⟨b, b', q, q ++ b.messageFromAlt, sig, h1, h3, by unfold BitComm.checkAndRecover; rw [h3]; rfl, h4, h5,
    fun m a ops => ?_, fun es m a ops he => ?_⟩
  · have hl : us.length = (vs.map signMagElem).reverse.length := by simp; omega
    have hl' : us.length = (vs.map signMagElem).length := by simp; omega
    rw [List.append_assoc, List.append_assoc, h6, h6, BitComm.messageFromAlt, h2, hl, run_fromAlts_elems,
      List.reverse_reverse, BitComm.messageToAlt, h2, hl', run_toAlts_elems]
  · rw [List.append_assoc, BitComm.messageToAlt, BitComm.messageFromAlt, h2, ← he, run_toAlts_elems,
      show es.length = es.reverse.length by simp, run_fromAlts_elems, List.reverse_reverse]

/-- C105: a single word, recovered to the alternative stack and fetched back, is the word recovered on the stack. -/
theorem C105_word (cfg : Cfg) (h20 : ∀ x, (cfg.hash160 x).length = 20) (key : List Char) (hk : (hexDecode key).isSome)
    (u v : BitVec 32) :
    ∃ b q sig, BitCommU32.new cfg key u = some b ∧ b.recoverAtAlt = some q ∧ (b.changeValue v).signature cfg = some sig ∧
      ∀ m a ops, run cfg (q ++ ops) ⟨sig.reverse ++ m, a, []⟩ = run cfg ops ⟨m, signMagElem v :: a, []⟩ ∧
        run cfg (q ++ b.messageFromAlt ++ ops) ⟨sig.reverse ++ m, a, []⟩ = run cfg ops ⟨signMagElem v :: m, a, []⟩ := by
  obtain ⟨b, q, sig, h1, h2, h3, h4⟩ := recoverAtStack_honest cfg h20 key hk u v
  refine ⟨b, q ++ [.toAlt], sig, h1, ?_, h3, fun m a ops => ?_⟩
  · unfold BitCommU32.recoverAtStack at h2
    unfold BitCommU32.recoverAtAlt
    cases hp : b.checksigVerifyScript with
    | none => rw [hp] at h2; cases h2
    | some p => rw [hp] at h2; obtain rfl := Option.some.inj h2; rfl
  · have e : ∀ o : List Op, run cfg (q ++ [.toAlt] ++ o) ⟨sig.reverse ++ m, a, []⟩ =
        run cfg o ⟨m, signMagElem v :: a, []⟩ := by
      intro o
      rw [List.append_assoc, h4, List.cons_append, List.nil_append, run_toAlt _ rfl, signMagElem_eq]
    exact ⟨e ops, by rw [List.append_assoc, e, BitCommU32.messageFromAlt, List.cons_append, List.nil_append, run_fromAlt _ rfl]⟩

/-- The hypotheses have instances: a commitment to one word and one to four words. -/
theorem C105_instance :
    let rows : List StoreRow := [([1#32], [2#32], [['0', '0']]),
      ([1#32, 2#32, 3#32, 4#32], [5#32, 6#32, 7#32, 8#32], [['a', 'b'], ['0', '1'], ['c', 'd'], ['e', 'f']])]
    (∀ r ∈ rows, r.2.2.length = r.1.length) ∧ (∀ r ∈ rows, r.2.2.length = r.2.1.length) ∧
      (∀ r ∈ rows, ∀ k ∈ r.2.2, (hexDecode k).isSome) ∧
      (rows.map fun r => r.2.1.map signMagElem).flatten = [[2], [5], [6], [7], [8]] := by
  decide +kernel

end TapStark
