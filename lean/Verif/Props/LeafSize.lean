import Verif.Spec.ScriptSize
import Verif.Props.LimitLeaf

/-
C94: sizes of the leaves of a commitment against Bitcoin's limits.
-/

namespace TapStark.Size

open TapStark TapStark.Tcs TapStark.Tap

theorem scriptBytes_append (p q : List Op) : scriptBytes (p ++ q) = scriptBytes p + scriptBytes q := by
  simp [scriptBytes]

theorem witnessBytes_append (p q : List Elem) : witnessBytes (p ++ q) = witnessBytes p + witnessBytes q := by
  simp [witnessBytes]

theorem PushesAtMost.append {n : Nat} {p q : List Op} (hp : PushesAtMost n p) (hq : PushesAtMost n q) :
    PushesAtMost n (p ++ q) := fun e he => (List.mem_append.1 he).elim (hp e) (hq e)

/-- The number of opcodes is a lower bound. -/
theorem length_le_scriptBytes : ∀ p : List Op, p.length ≤ scriptBytes p
  | [] => le_refl _
  | o :: p => by
    have h1 := length_le_scriptBytes p
    have h2 : 1 ≤ opBytes o := by
      cases o <;> simp only [opBytes, le_refl]
      unfold pushBytes
      split_ifs <;> omega
    simp only [scriptBytes, List.map_cons, List.sum_cons, List.length_cons] at h1 ⊢
    omega

/-- An operator for `words` words: bytes and elements of its script and of its witnesses. -/
structure LockSize (words : Nat) (bc : Bc) : Prop where
  lock : scriptBytes bc.lock + 2 ≤ 842 * words
  pushes : PushesAtMost 20 bc.lock
  wit : ∀ vs, witnessBytes (bc.wit vs) ≤ 420 * words
  elems : ∀ vs, ∀ x ∈ bc.wit vs, x.length ≤ 20

/-! ### Leaves -/

theorem check_size {v : Nat} (hv : v < 2 ^ 31) : scriptBytes [Op.num v, .equalverify] ≤ 6 ∧ PushesAtMost 20 [Op.num v, .equalverify] := by
  have h : (num (v : Int)).length ≤ 4 := length_num_le (by unfold InRange; omega)
  constructor
  · simp only [scriptBytes, Op.num, opBytes, List.map_cons, List.map_nil, List.sum_cons, List.sum_nil, pushBytes]
    split_ifs <;> omega
  · intro e he
    simp only [Op.num, List.mem_cons, Op.push.injEq, reduceCtorEq, List.not_mem_nil, or_false] at he
    rw [he]; omega

theorem wordChecks_size {vs : List Nat} (hv : ∀ v ∈ vs, v < 2 ^ 31) :
    scriptBytes (wordChecks vs) ≤ 6 * vs.length ∧ PushesAtMost 20 (wordChecks vs) := by
  unfold wordChecks
  rw [← List.length_reverse (as := vs)]
  have hv : ∀ v ∈ vs.reverse, v < 2 ^ 31 := fun v h => hv v (List.mem_reverse.1 h)
  generalize vs.reverse = l at hv
  induction l with
  | nil => exact ⟨le_refl _, fun e he => by simp at he⟩
  | cons x l ih =>
    rw [List.flatMap_cons]
    obtain ⟨h1, h2⟩ := check_size (hv x (by simp))
    obtain ⟨h3, h4⟩ := ih fun v h => hv v (by simp [h])
    exact ⟨by rw [scriptBytes_append, List.length_cons]; omega, h2.append h4⟩

theorem evals_size {words : Nat} : ∀ (bvs : List (Bc × List Nat)),
    (∀ p ∈ bvs, LockSize words p.1 ∧ p.2.length = words ∧ ∀ v ∈ p.2, v < 2 ^ 31) →
    scriptBytes (bvs.flatMap fun p => p.1.lock ++ wordChecks p.2) ≤ 848 * (words * bvs.length) ∧
      PushesAtMost 20 (bvs.flatMap fun p => p.1.lock ++ wordChecks p.2) ∧
      witnessBytes (bvs.reverse.flatMap fun p => p.1.wit p.2) ≤ 420 * (words * bvs.length) ∧
      ∀ x ∈ bvs.reverse.flatMap fun p => p.1.wit p.2, x.length ≤ 20
  | [], _ => ⟨by simp [scriptBytes], fun e he => by simp at he, by simp [witnessBytes], by simp⟩
  | p :: bvs, h => by
    obtain ⟨h1, h2, h3, h4⟩ := evals_size bvs fun q hq => h q (by simp [hq])
    obtain ⟨k1, k2, k3⟩ := h p (by simp)
    obtain ⟨g1, g2⟩ := wordChecks_size k3
    have k5 := k1.lock
    have k6 := k1.wit p.2
    rw [List.flatMap_cons, List.reverse_cons, List.flatMap_append, List.length_cons, Nat.mul_succ]
    refine ⟨?_, (k1.pushes.append g2).append h2, ?_, ?_⟩
    · rw [scriptBytes_append, scriptBytes_append]
      rw [k2] at g1
      omega
    · rw [witnessBytes_append]
      simp only [List.flatMap_cons, List.flatMap_nil, List.append_nil]
      omega
    · intro x hx
      simp only [List.flatMap_cons, List.flatMap_nil, List.append_nil, List.mem_append] at hx
      rcases hx with hx | hx
      · exact h4 x hx
      · exact k1.elems _ x hx

variable {F H : Type} [LinearOrder H]

/-- **C94**, leaves: committing to matrices and opening any index gives a leaf whose script and honest witness have at most
1268 bytes for every word and the index together, and push nothing longer than 20 bytes. -/
theorem C94_leaf (th : TapHash (List Op) H) {fr : FieldRep F}
    (fok : FieldOk fr) (mgr : Manager) (n : Nat) (mats : List (Mat F)) (L : Nat)
    (hh : Heights mats L) (h1 : 1 ≤ L) (hL : L < 32)
    (size : ∀ k, LockSize 1 (mgr k 1) ∧ LockSize fr.u32Size (mgr k fr.u32Size)) :
    ∃ d n', commitPolys th fr mgr n mats = some (d, n') ∧ ∀ i, i < 2 ^ L →
      ∃ proof p w, openAt d i = some (proof, leafRow mats L i) ∧ proof.leaf.script? = some p ∧
        CommittedLeaf.witness ⟨proof.useBcs, proof.queryIndex, (leafRow mats L i).map fr.words⟩ = some w ∧
        scriptBytes p + witnessBytes w ≤ 1268 * (1 + fr.u32Size * (leafRow mats L i).length) + 2 ∧
        PushesAtMost elementLimit p ∧ ∀ x ∈ w, x.length ≤ elementLimit := by
  obtain ⟨d, scripts, hc, hm, hu, hs, hob, hsc⟩ := commit_spec th fok mgr n hh hL
  refine ⟨d, _, hc, fun i hi => ?_⟩
  have h2 : 2 ≤ scripts.length := by
    rw [hs]; calc 2 = 2 ^ 1 := rfl
      _ ≤ 2 ^ L := Nat.pow_le_pow_right (by omega) h1
  have hi' : i < scripts.length := by omega
  obtain ⟨leaf, e1, e2, e3⟩ := getTapleaf_of_obtained hob h2 hi'
  have hlen : d.useBcs.evals.length = (leafRow mats L i).length := by
    rw [hu, leafRow_length_eq hi]; simp [assigned]
  have hi31 : i < 2 ^ 31 := lt_of_lt_of_le hi (Nat.pow_le_pow_right (by omega) (by omega))
  have hp := hsc i hi'
  have hle : d.useBcs.evals.length ≤ ((leafRow mats L i).map fr.words).length := by simp [hlen]
  rw [script_of (by exact hle)] at hp
  obtain ⟨hidx, hev⟩ : LockSize 1 d.useBcs.index ∧ ∀ bc ∈ d.useBcs.evals, LockSize fr.u32Size bc := by
    rw [hu]
    refine ⟨(size _).1, fun bc hbc => ?_⟩
    simp only [assigned] at hbc
    obtain ⟨k, -, rfl⟩ := List.mem_map.1 hbc
    exact (size _).2
  obtain ⟨g1, g2, g3, g4⟩ := evals_size (words := fr.u32Size)
    (d.useBcs.evals.zip (((leafRow mats L i).map fr.words).take d.useBcs.evals.length)) (by
      intro q hq
      have hq := List.of_mem_zip hq
      have hq2 := List.mem_of_mem_take hq.2
      refine ⟨hev _ hq.1, words_lengths fok _ _ hq2, ?_⟩
      obtain ⟨x, -, e⟩ := List.mem_map.1 hq2
      rw [← e]
      exact fok.bound x)
  have hz : (d.useBcs.evals.zip (((leafRow mats L i).map fr.words).take d.useBcs.evals.length)).length =
      (leafRow mats L i).length := by simp [hlen]
  rw [hz] at g1 g3
  obtain ⟨w, hw⟩ : ∃ w, CommittedLeaf.witness ⟨d.useBcs, i, (leafRow mats L i).map fr.words⟩ = some w :=
    ⟨_, (witness_of (by exact hle)).choose_spec.1⟩
  have hw' := hw
  unfold CommittedLeaf.witness at hw'
  rw [mapM_get_take _ _ (by exact hle)] at hw'
  have hw' := Option.some.inj hw'
  have hi6 := check_size hi31
  have hl := hidx.lock
  have hlw := hidx.wit [i % 2 ^ 32]
  refine ⟨⟨leaf, d.useBcs, i⟩, scripts[i], w, ?_, e2, hw, ?_, ?_, ?_⟩
  · simp [openAt, hm, paddingMatrix_eq hh, Committed.queryProof, e1, rows_get _ _ hi]
  · rw [← Option.some.inj hp, ← hw', scriptBytes_append, scriptBytes_append, scriptBytes_append, witnessBytes_append]
    have : scriptBytes [Op.num 1] = 2 := by decide +kernel
    simp only at hi6 hl hlw g1 g3 ⊢
    omega
  · rw [← Option.some.inj hp]
    have h20 : PushesAtMost 20 [Op.num 1] := by
      intro e he
      simp only [Op.num, List.mem_singleton, Op.push.injEq] at he
      rw [he]; decide +kernel
    exact fun e he => (((hidx.pushes.append hi6.2).append g2).append h20 e he).trans (by decide)
  · intro x hx
    rw [← hw'] at hx
    rcases List.mem_append.1 hx with hx | hx
    · exact (g4 x hx).trans (by decide)
    · exact (hidx.elems _ x hx).trans (by decide)

/-! ### The repository's Winternitz commitments -/

theorem checkDigit_size {pk : Elem} (h : pk.length = 20) : scriptBytes (checkDigit pk) = 68 ∧ PushesAtMost 20 (checkDigit pk) := by
  constructor
  · unfold checkDigit
    rw [scriptBytes_append, scriptBytes_append, scriptBytes_append]
    have h1 : scriptBytes [Op.num wDigits, .min, .dup, .toAlt, .toAlt] = 6 := by decide +kernel
    have h2 : scriptBytes (emitN wDigits [.dup, .hash160]) = 30 := by decide +kernel
    have h3 : scriptBytes (emitN ((wDigits + 1) / 2) [.drop2]) = 8 := by decide +kernel
    have h4 : scriptBytes [.fromAlt, .pick, .push pk, .equalverify] = 24 := by
      simp [scriptBytes, opBytes, h, pushBytes]
    omega
  · unfold checkDigit
    intro e he
    simp only [List.mem_append] at he
    rcases he with ((he | he) | he) | he
    · simp only [Op.num, List.mem_cons, Op.push.injEq, reduceCtorEq, List.not_mem_nil, or_false] at he
      rw [he]; decide +kernel
    · exfalso
      have : ∀ o ∈ emitN wDigits [.dup, .hash160], o = Op.dup ∨ o = .hash160 := by decide +kernel
      have := this _ he
      simp at this
    · simp only [List.mem_cons, Op.push.injEq, reduceCtorEq, List.not_mem_nil, or_false, false_or] at he
      rw [he]; omega
    · exfalso
      have : ∀ o ∈ emitN ((wDigits + 1) / 2) [.drop2], o = Op.drop2 := by decide +kernel
      have := this _ he
      simp at this

theorem flatten_size {K : Nat} : ∀ (ps : List (List Op)), (∀ p ∈ ps, scriptBytes p = K ∧ PushesAtMost 20 p) →
    scriptBytes ps.flatten = K * ps.length ∧ PushesAtMost 20 ps.flatten
  | [], _ => ⟨rfl, fun e he => by simp at he⟩
  | p :: ps, h => by
    obtain ⟨h1, h2⟩ := flatten_size ps fun q hq => h q (by simp [hq])
    obtain ⟨k1, k2⟩ := h p (by simp)
    rw [List.flatten_cons]
    exact ⟨by rw [scriptBytes_append, k1, h1, List.length_cons, Nat.mul_succ]; omega, k2.append h2⟩

theorem tail_size : scriptBytes (checkChecksum ++ digitsToBytes ++ u32Compress) = 160 ∧
    (checkChecksum ++ digitsToBytes ++ u32Compress).all (fun | .push e => e.length ≤ 20 | _ => true) = true := by
  decide +kernel

theorem mapM_length {α β : Type} {f : α → Option β} : ∀ {l : List α} {r : List β}, l.mapM f = some r →
    r.length = l.length ∧ ∀ y ∈ r, ∃ x ∈ l, f x = some y
  | [], r, h => by
    cases h
    simp
  | x :: l, r, h => by
    rw [List.mapM_cons] at h
    simp only [Option.bind_eq_bind, Option.bind_eq_some_iff] at h
    obtain ⟨y, h1, ys, h2, h3⟩ := h
    cases h3
    obtain ⟨k1, k2⟩ := mapM_length h2
    refine ⟨by simp [k1], fun z hz => ?_⟩
    rcases List.mem_cons.1 hz with rfl | hz
    · exact ⟨x, by simp, h1⟩
    · obtain ⟨x', h4, h5⟩ := k2 z hz
      exact ⟨x', by simp [h4], h5⟩

/-- The locking script of a commitment to a word. -/
theorem recover_size {pk : List Elem} (hpk : ∀ x ∈ pk, x.length = 20) {p : List Op} (hp : checksigVerify pk = some p) :
    scriptBytes (p ++ u32Compress) = 840 ∧ PushesAtMost 20 (p ++ u32Compress) := by
  unfold checksigVerify at hp
  rw [Option.bind_eq_bind, Option.bind_eq_some_iff] at hp
  obtain ⟨parts, h1, h2⟩ := hp
  cases h2
  obtain ⟨k1, k2⟩ := mapM_length h1
  obtain ⟨g1, g2⟩ := flatten_size (K := 68) parts fun q hq => by
    obtain ⟨i, -, hi⟩ := k2 q hq
    rw [Option.bind_eq_bind, Option.bind_eq_some_iff] at hi
    obtain ⟨x, h3, h4⟩ := hi
    cases h4
    exact checkDigit_size (hpk x (List.mem_of_getElem? h3))
  obtain ⟨t1, t2⟩ := tail_size
  have e : parts.flatten ++ checkChecksum ++ digitsToBytes ++ u32Compress =
      parts.flatten ++ (checkChecksum ++ digitsToBytes ++ u32Compress) := by simp only [List.append_assoc]
  rw [e]
  refine ⟨?_, g2.append fun x hx => ?_⟩
  · rw [scriptBytes_append, g1, t1, k1]; rfl
  · have := List.all_eq_true.1 t2 _ hx
    simpa using this

theorem revealed_length {cfg : Cfg} (h20 : ∀ x, (cfg.hash160 x).length = 20) (secret : List UInt8) (v : BitVec 32) (j : Nat) :
    (revealed cfg secret v j).length = 20 := by
  unfold revealed
  cases valueDigits v j with
  | zero => exact h20 _
  | succ n => exact h20 _

theorem witnessBytes_le : ∀ {w : List Elem}, (∀ x ∈ w, x.length ≤ 20) → witnessBytes w ≤ 21 * w.length
  | [], _ => le_refl _
  | x :: w, h => by
    have h1 := witnessBytes_le (w := w) fun y hy => h y (by simp [hy])
    have h2 := h x (by simp)
    simp only [witnessBytes, List.map_cons, List.sum_cons, List.length_cons] at h1 ⊢
    rw [if_pos (by omega)]
    omega

/-- The Winternitz commitment of the repository as an operator. -/
theorem winternitz_size {cfg : Cfg} (h20 : ∀ x, (cfg.hash160 x).length = 20) {key : List Char} (hk : (hexDecode key).isSome)
    {v : BitVec 32} {b : BitCommU32} {q : List Op} (hb : BitCommU32.new cfg key v = some b) (hq : b.recoverAtStack = some q) :
    LockSize 1 (winternitzBc cfg b q) := by
  obtain ⟨secret, hs⟩ := Option.isSome_iff_exists.mp hk
  rw [commitNew hs] at hb
  have hb := Option.some.inj hb
  simp only [BitCommU32.recoverAtStack, BitCommU32.checksigVerifyScript, Option.bind_eq_bind, Option.bind_eq_some_iff] at hq
  obtain ⟨p, hp, hq⟩ := hq
  cases hq
  have hlen : ∀ x ∈ b.winternitz.pubKey, x.length = 20 := by
    rw [← hb]
    intro x hx
    obtain ⟨i, -, rfl⟩ := List.mem_map.1 hx
    exact h20 _
  obtain ⟨h1, h2⟩ := recover_size hlen hp
  have hsig : ∀ vs, ((winternitzBc cfg b (p ++ u32Compress)).wit vs).length = 20 ∧
      ∀ x ∈ (winternitzBc cfg b (p ++ u32Compress)).wit vs, x.length ≤ 20 := by
    intro vs
    have e : ∃ sig, (b.changeValue (BitVec.ofNat 32 (vs.getD 0 0))).signature cfg = some sig ∧
        sig = (List.range 10).flatMap fun i => [revealed cfg secret (BitVec.ofNat 32 (vs.getD 0 0)) (9 - i),
          num (valueDigits (BitVec.ofNat 32 (vs.getD 0 0)) (9 - i))] := by
      rw [← hb]
      obtain ⟨sig, g1, g2⟩ := signature_eq h20 hs ((List.range 10).map fun i => hashTimes cfg 15 (chainStart cfg secret i))
        (BitVec.ofNat 32 (vs.getD 0 0)) (BitVec.ofNat 32 (vs.getD 0 0))
      refine ⟨sig, g1, ?_⟩
      rw [← List.reverse_inj, g2]
      rfl
    obtain ⟨sig, g1, g2⟩ := e
    have g3 : (winternitzBc cfg b (p ++ u32Compress)).wit vs = sig := by
      simp only [winternitzBc]
      rw [g1]; rfl
    rw [g3, g2]
    refine ⟨rfl, fun x hx => ?_⟩
    obtain ⟨i, -, hx⟩ := List.mem_flatMap.1 hx
    simp only [List.mem_cons, List.not_mem_nil, or_false] at hx
    rcases hx with rfl | rfl
    · rw [revealed_length h20]
    · have := valueDigits_le (BitVec.ofNat 32 (vs.getD 0 0)) (9 - i)
      exact (length_num_le (by unfold InRange; omega)).trans (by omega)
  refine ⟨by rw [show (winternitzBc cfg b (p ++ u32Compress)).lock = p ++ u32Compress from rfl, h1], h2, fun vs => ?_, fun vs => (hsig vs).2⟩
  have := witnessBytes_le (hsig vs).2
  rw [(hsig vs).1] at this
  omega

theorem consBc_size {n : Nat} {b bs : Bc} (h1 : LockSize 1 b) (h2 : LockSize n bs) : LockSize (n + 1) (consBc b bs) where
  lock := by
    have e1 := h1.lock
    have e2 := h2.lock
    simp only [consBc, scriptBytes_append]
    have e3 : scriptBytes [Op.toAlt] = 1 := rfl
    have e4 : scriptBytes [Op.fromAlt] = 1 := rfl
    omega
  pushes := by
    refine h1.pushes.append (PushesAtMost.append ?_ (h2.pushes.append ?_)) <;> intro e he <;> simp at he
  wit vs := by
    have e1 := h1.wit [vs.getLastD 0]
    have e2 := h2.wit vs.dropLast
    simp only [consBc, witnessBytes_append]
    omega
  elems vs x hx := by
    rcases List.mem_append.1 hx with hx | hx
    · exact h2.elems _ x hx
    · exact h1.elems _ x hx

/-- **C94**, leaves that can be spent: a leaf of at most 48 words, which is what the limit on the stack allows, opens under
that limit, and its script and witness take less than a quarter of what a relayed transaction may weigh. -/
theorem C94_leaf_fits {cfg : Cfg} (th : TapHash (List Op) H) {fr : FieldRep F}
    (fok : FieldOk fr) (mgr : Manager) (n : Nat) (mats : List (Mat F)) (L : Nat)
    (hh : Heights mats L) (h1 : 1 ≤ L) (hL : L < 32)
    (ok : ∀ w, BcsOk cfg fr.u32Size 20 (20 * fr.u32Size) (assigned fr mgr n w))
    (room : ∀ k, LockRoom 1 (mgr k 1) ∧ LockRoom fr.u32Size (mgr k fr.u32Size))
    (size : ∀ k, LockSize 1 (mgr k 1) ∧ LockSize fr.u32Size (mgr k fr.u32Size))
    (h48 : fr.u32Size * (leafRow mats L 0).length ≤ 48) :
    ∃ d n', commitPolys th fr mgr n mats = some (d, n') ∧ ∀ i, i < 2 ^ L →
      ∃ proof p w, openAt d i = some (proof, leafRow mats L i) ∧ proof.leaf.script? = some p ∧
        CommittedLeaf.witness ⟨proof.useBcs, proof.queryIndex, (leafRow mats L i).map fr.words⟩ = some w ∧
        acceptsL cfg p w.reverse = true ∧ 4 * (scriptBytes p + witnessBytes w) < standardLimit ∧
        PushesAtMost elementLimit p ∧ ∀ x ∈ w, x.length ≤ elementLimit := by
  obtain ⟨d, n', e1, e2⟩ := C89_leaf_spendable th fok mgr n mats L hh h1 hL ok room
  obtain ⟨d', n'', f1, f2⟩ := C94_leaf th fok mgr n mats L hh h1 hL size
  rw [e1] at f1
  cases f1
  refine ⟨d, n', e1, fun i hi => ?_⟩
  obtain ⟨proof, p, w, g1, g2, g3, -, g5, -⟩ := e2 i hi
  obtain ⟨proof', p', w', k1, k2, k3, k4, k5, k6⟩ := f2 i hi
  rw [g1] at k1
  cases k1
  rw [g2] at k2
  cases k2
  rw [g3] at k3
  cases k3
  have hl : (leafRow mats L i).length = (leafRow mats L 0).length := leafRow_length_eq hi
  rw [hl] at g5 k4
  refine ⟨proof, p, w, g1, g2, g3, g5 h48, ?_, k5, k6⟩
  rw [standardLimit]
  omega

/-- With the repository's Winternitz commitments for every word, all assumptions on the operators hold. -/
theorem C94_winternitz_manager (cfg : Cfg) (h20 : ∀ x, (cfg.hash160 x).length = 20) (key : List Char)
    (hk : (hexDecode key).isSome) {fr : FieldRep F} (fok : FieldOk fr) : ∃ mgr : Manager,
      (∀ n w, BcsOk cfg fr.u32Size 20 (20 * fr.u32Size) (assigned fr mgr n w)) ∧
      (∀ k, LockRoom 1 (mgr k 1) ∧ LockRoom fr.u32Size (mgr k fr.u32Size)) ∧
      ∀ k, LockSize 1 (mgr k 1) ∧ LockSize fr.u32Size (mgr k fr.u32Size) := by
  obtain ⟨b, c, hb, hc, h⟩ := winternitz_ok cfg h20 key hk 0
  have r : LockRoom 1 (winternitzBc cfg b c) := eff_recover hc
  have r4 := consBc_room (by omega) r (consBc_room (by omega) r (consBc_room (by omega) r r))
  have s := winternitz_size h20 hk hb hc
  have s4 := consBc_size s (consBc_size s (consBc_size s s))
  refine ⟨wideManager (winternitzBc cfg b c), fun n w => ?_, fun k => ⟨r, ?_⟩, fun k => ⟨s, ?_⟩⟩
  · rcases fok.size with hf | hf
    · rw [hf]
      refine ⟨h, ?_⟩
      intro bc hb
      obtain ⟨-, -, rfl⟩ := List.mem_map.1 hb
      rw [wideManager, hf, if_neg (by decide)]
      exact h
    · rw [hf]
      exact wideManager_ok h fr hf n w
  · rcases fok.size with hf | hf
    · rw [hf]; exact r
    · rw [hf]; exact r4
  · rcases fok.size with hf | hf
    · rw [hf]; exact s
    · rw [hf]; exact s4

end TapStark.Size
