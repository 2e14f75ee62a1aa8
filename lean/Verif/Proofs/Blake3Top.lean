import Verif.Proofs.Blake3Compress

namespace TapStark
open Blake3 (Word)

variable {cfg : Cfg} {ops : List Op} {m a : List Elem} {c : List Bool}

/-! ### Loops over words -/

theorem emitN_succ (n : Nat) (p : List Op) : emitN (n + 1) p = p ++ emitN n p := by
  simp [emitN, List.replicate_succ]

theorem run_toAlts (ws : List Word) (n : Nat) (hn : ws.length = n) (h : live c = true) :
    run cfg (emitN n u32ToAlt ++ ops) ⟨wordsElems ws ++ m, a, c⟩ =
      run cfg ops ⟨m, (wordsElems ws).reverse ++ a, c⟩ := by
  subst hn
  induction ws generalizing a with
  | nil => rfl
  | cons w ws ih =>
    rw [List.length_cons, emitN_succ]
    simp only [wordsElems_cons, List.append_assoc]
    rw [run_u32ToAlt w h, ih]
    simp

theorem run_fromAlts (ws : List Word) (n : Nat) (hn : ws.length = n) (h : live c = true) :
    run cfg (emitN n u32FromAlt ++ ops) ⟨m, (wordsElems ws).reverse ++ a, c⟩ =
      run cfg ops ⟨wordsElems ws ++ m, a, c⟩ := by
  induction n generalizing ws m with
  | zero =>
    obtain rfl := List.length_eq_zero_iff.mp hn
    rfl
  | succ n ih =>
    have hne : ws ≠ [] := by intro e; simp [e] at hn
    have hs := List.dropLast_concat_getLast hne
    generalize ws.getLast hne = w at hs
    rw [← hs, emitN_succ]
    simp only [wordsElems_append, wordsElems_cons, wordsElems_nil, List.append_nil,
      List.reverse_append, List.append_assoc]
    rw [run_u32FromAlt w h, ih _ (by simp; omega)]

theorem emitN_mul (n : Nat) : emitN n u32Drop = emitN (2 * n) [.drop2] := by
  induction n with
  | zero => rfl
  | succ n ih =>
    rw [emitN_succ, ih, show 2 * (n + 1) = 2 * n + 1 + 1 by omega, emitN_succ, emitN_succ]
    rfl

theorem run_drops (t : List Elem) (n : Nat) (hn : t.length = 4 * n) (h : live c = true) :
    run cfg (emitN n u32Drop ++ ops) ⟨t ++ m, a, c⟩ = run cfg ops ⟨m, a, c⟩ := by
  rw [emitN_mul]
  exact run_emitN_drop2 (2 * n) t (by omega) h

/-- Dropping words and then 256 elements, whatever they are. -/
theorem run_drops_table (t : List Elem) (n : Nat) (hn : t.length = 4 * n + 256) (h : live c = true) :
    run cfg (emitN n u32Drop ++ (u8DropXorTable ++ ops)) ⟨t ++ m, a, c⟩ =
      run cfg ops ⟨m, a, c⟩ := by
  have hs : t ++ m = t.take (4 * n) ++ (t.drop (4 * n) ++ m) := by
    rw [← List.append_assoc, List.take_append_drop]
  rw [hs, run_drops (t.take (4 * n)) n (by simp; omega) h]
  exact run_emitN_drop2 128 (t.drop (4 * n)) (by simp; omega) h

theorem run_pushWordsRev (ws : List Word) (h : live c = true) :
    run cfg (pushWordsRev ws ++ ops) ⟨m, a, c⟩ = run cfg ops ⟨wordsElems ws ++ m, a, c⟩ := by
  unfold pushWordsRev
  induction ws generalizing ops m with
  | nil => rfl
  | cons w ws ih =>
    simp only [List.reverse_cons, List.flatMap_append, List.flatMap_cons, List.flatMap_nil,
      List.append_nil, List.append_assoc]
    rw [ih, run_u32Push w h]
    simp

theorem wordsElems_table (ws : List Word) :
    xorTable ++ wordsElems ws = wordsElems (tableWords ++ ws) := by
  rw [wordsElems_append, tableWords_elems]

theorem outWords_length (s : List Word) (i n : Nat) : (outWords s i n).length = n := by
  simp [outWords]

theorem initState_length {cv : List Word} (h : cv.length = 8) (l f : Nat) :
    (Blake3.initState cv l f).length = 16 := by simp [Blake3.initState, h, Blake3.iv]

theorem compress_length (cv mv : List Word) (l f : Nat) : (Blake3.compress cv mv l f).length = 8 := by
  simp [Blake3.compress]

theorem outWords_compress (cv mv : List Word) (l f : Nat) :
    outWords (Blake3.rounds 6 (Blake3.initState cv l f) mv) 0 8 =
      (Blake3.compress cv mv l f).reverse := by
  simp [outWords, Blake3.compress]

theorem outWords_compress_take (cv mv : List Word) (l f : Nat) :
    outWords (Blake3.rounds 6 (Blake3.initState cv l f) mv) 0 5 =
      ((Blake3.compress cv mv l f).take 5).reverse := by
  simp only [outWords, Blake3.compress, ← List.map_take, List.take_range]
  simp

/-- `blake3` on sixteen message words. -/
theorem run_blake3 {p : List Op} (hp : blake3Script = some p) (mv : List Word) (hm : mv.length = 16)
    (h : live c = true) :
    run cfg (p ++ ops) ⟨wordsElems mv ++ m, a, c⟩ =
      run cfg ops ⟨wordsElems (Blake3.compress Blake3.iv mv 64 11).reverse ++ m, a, c⟩ := by
  have hs : (Blake3.initState Blake3.iv 64 11).length = 16 := by simp [Blake3.initState, Blake3.iv]
  obtain ⟨q, rest, e, l, r⟩ := b3Compress_correct (cfg := cfg) 8 (by omega)
    (ptrInit_tracks hs hm) ptrInit_full hs (by omega) hs
  simp only [blake3Script, e, Option.bind_eq_bind, Option.bind_some, Option.some.injEq] at hp
  subst hp
  simp only [List.append_assoc]
  rw [run_u8PushXorTable h]
  rw [show b3InitialState 64 = pushWordsRev (Blake3.initState Blake3.iv 64 11) from rfl,
    run_pushWordsRev _ h]
  rw [← List.append_assoc xorTable, wordsElems_table, ← List.append_assoc (wordsElems _), ← wordsElems_append,
    r _ _ _ _ h, wordsElems_append, List.append_assoc, run_toAlts _ 8 (outWords_length _ _ _) h,
    run_drops_table _ 24 (by
      simp only [wordsElems_length, List.length_append, tableWords_length]; omega) h,
    run_fromAlts _ 8 (outWords_length _ _ _) h, outWords_compress]

theorem blake3Script_exists : ∃ p, blake3Script = some p := by
  have hs : (Blake3.initState Blake3.iv 64 11).length = 16 := by simp [Blake3.initState, Blake3.iv]
  obtain ⟨q, rest, e, l, r⟩ := b3Compress_correct (cfg := ⟨id, true⟩) 8 (by omega)
    (ptrInit_tracks hs hs) ptrInit_full hs (by omega) hs
  exact ⟨_, by unfold blake3Script; rw [e]; rfl⟩

/-- `blake3_160` on ten message words. -/
theorem run_blake3_160 {p : List Op} (hp : blake3Script160 = some p) (mv : List Word)
    (hm : mv.length = 10) (h : live c = true) :
    run cfg (p ++ ops) ⟨wordsElems mv ++ m, a, c⟩ =
      run cfg ops ⟨wordsElems ((Blake3.compress Blake3.iv (mv ++ List.replicate 6 0#32) 40 11).take
        5).reverse ++ m, a, c⟩ := by
  have hs : (Blake3.initState Blake3.iv 40 11).length = 16 := by simp [Blake3.initState, Blake3.iv]
  obtain ⟨q, rest, e, l, r⟩ := b3Compress_correct (cfg := cfg) 5 (by omega)
    (ptrInit160_tracks (pad := List.replicate 6 0#32) hs (by simp) hm) ptrInit160_full hs
    (by simp; omega) hs
  simp only [blake3Script160, e, Option.bind_eq_bind, Option.bind_some, Option.some.injEq] at hp
  subst hp
  simp only [List.append_assoc]
  rw [run_pushToStack _ _ h, run_u8PushXorTable h]
  rw [show b3InitialState 40 = pushWordsRev (Blake3.initState Blake3.iv 40 11) from rfl,
    run_pushWordsRev _ h]
  have hz : List.replicate 24 (num (0 : Nat)) ++ (wordsElems mv ++ m) =
      wordsElems (List.replicate 6 0#32 ++ mv) ++ m := by
    rw [wordsElems_append, List.append_assoc]; rfl
  rw [hz]
  rw [← List.append_assoc xorTable, wordsElems_table, ← List.append_assoc (wordsElems _), ← wordsElems_append,
    r _ _ _ _ h, wordsElems_append, List.append_assoc, run_toAlts _ 5 (outWords_length _ _ _) h,
    run_drops_table _ 27 (by
      simp only [wordsElems_length, List.length_append, tableWords_length, List.length_replicate]
      omega) h,
    run_fromAlts _ 5 (outWords_length _ _ _) h, outWords_compress_take]

theorem blake3Script160_exists : ∃ p, blake3Script160 = some p := by
  have hs : (Blake3.initState Blake3.iv 40 11).length = 16 := by simp [Blake3.initState, Blake3.iv]
  obtain ⟨q, rest, e, l, r⟩ := b3Compress_correct (cfg := ⟨id, true⟩) 5 (by omega)
    (ptrInit160_tracks (pad := List.replicate 6 0#32) (mv := List.replicate 10 0#32) hs (by simp)
      (by simp)) ptrInit160_full hs (by simp) hs
  exact ⟨_, by unfold blake3Script160; rw [e]; rfl⟩

/-! ### Bytes on the stack -/

@[simp] theorem bytesElems_append (x y : List UInt8) :
    bytesElems (x ++ y) = bytesElems x ++ bytesElems y := by simp [bytesElems]

@[simp] theorem bytesElems_length (x : List UInt8) : (bytesElems x).length = x.length := by
  simp [bytesElems]

theorem byteAt_lt (bs : List UInt8) (i : Nat) : Blake3.byteAt bs i < 256 :=
  (bs.getD i 0).toNat_lt

theorem wordElems_wordAt (bs : List UInt8) (i : Nat) : wordElems (Blake3.wordAt bs i) =
    [num (Blake3.byteAt bs (4 * i) : Nat), num (Blake3.byteAt bs (4 * i + 1) : Nat),
     num (Blake3.byteAt bs (4 * i + 2) : Nat), num (Blake3.byteAt bs (4 * i + 3) : Nat)] := by
  have h0 := byteAt_lt bs (4 * i)
  have h1 := byteAt_lt bs (4 * i + 1)
  have h2 := byteAt_lt bs (4 * i + 2)
  have h3 := byteAt_lt bs (4 * i + 3)
  apply wordElems_of_bytes h0 h1 h2 h3
  rw [Blake3.wordAt, BitVec.toNat_ofNat]
  apply Nat.mod_eq_of_lt
  omega

theorem wordsElems_wordAt (k : Nat) (bs : List UInt8) (h : bs.length = 4 * k) :
    wordsElems ((List.range k).map (Blake3.wordAt bs)) = bytesElems bs := by
  induction k generalizing bs with
  | zero =>
    obtain rfl := List.length_eq_zero_iff.mp h
    rfl
  | succ k ih =>
    match bs, h with
    | b0 :: b1 :: b2 :: b3 :: bs, h =>
      have e : (fun i => Blake3.wordAt (b0 :: b1 :: b2 :: b3 :: bs) (i + 1)) = Blake3.wordAt bs := by
        funext i
        simp only [Blake3.wordAt, Blake3.byteAt, show 4 * (i + 1) = 4 * i + 1 + 1 + 1 + 1 by omega]
        rfl
      rw [List.range_succ_eq_map, List.map_cons, List.map_map]
      change wordsElems (_ :: List.map (fun i => Blake3.wordAt (b0 :: b1 :: b2 :: b3 :: bs) (i + 1)) _) = _
      rw [e, wordsElems_cons, ih bs (by simp at h; omega), wordElems_wordAt]
      rfl

theorem byteAt_pad (bs : List UInt8) (n i : Nat) :
    Blake3.byteAt (bs ++ List.replicate n 0) i = Blake3.byteAt bs i := by
  simp only [Blake3.byteAt, List.getD_eq_getElem?_getD, List.getElem?_append, List.getElem?_replicate]
  by_cases h : i < bs.length
  · simp [h]
  · simp only [h, if_false, List.getElem?_eq_none (by omega : bs.length ≤ i)]
    split <;> rfl

theorem blockWords_pad (bs : List UInt8) (n : Nat) :
    Blake3.blockWords (bs ++ List.replicate n 0) = Blake3.blockWords bs := by
  unfold Blake3.blockWords
  apply List.map_congr_left
  intro i _
  simp only [Blake3.wordAt, byteAt_pad]

theorem wordsElems_blockWords (bs : List UInt8) (n : Nat) (h : bs.length + n = 64) :
    wordsElems (Blake3.blockWords bs) = bytesElems (bs ++ List.replicate n 0) := by
  rw [← blockWords_pad bs n]
  exact wordsElems_wordAt 16 _ (by simp; omega)

theorem blockWords_length (bs : List UInt8) : (Blake3.blockWords bs).length = 16 := by
  simp [Blake3.blockWords]

/-! ### Variable length -/

theorem run_rollDrop {k : Nat} {n : Int} (pre : List Elem) (x : Elem) (post : List Elem)
    (h : live c = true) (hp : pre.length + 1 = k) (hn : n = k) (hk : k < 2147483648) :
    run cfg (.dup :: .roll :: .drop :: ops) ⟨num n :: (pre ++ x :: post), a, c⟩ =
      run cfg ops ⟨num n :: (pre ++ post), a, c⟩ := by
  rw [run_dup _ h, run_roll_some (k := k) (x := x) h hn (by subst hp; simp) hk]
  rw [show (num n :: (pre ++ x :: post)).eraseIdx k = num n :: (pre ++ post) from by
    subst hp; simp [List.eraseIdx_append_of_length_le], run_drop _ h]

theorem run_rollDrops (n : Nat) (pre t post : List Elem) (h : live c = true)
    (hp : pre.length = 320) (ht : t.length = n) :
    run cfg (emitN n [.dup, .roll, .drop] ++ ops) ⟨num 321 :: (pre ++ (t ++ post)), a, c⟩ =
      run cfg ops ⟨num 321 :: (pre ++ post), a, c⟩ := by
  induction n generalizing t with
  | zero =>
    obtain rfl := List.length_eq_zero_iff.mp ht
    rfl
  | succ n ih =>
    match t, ht with
    | x :: t, ht =>
      rw [emitN_succ]
      simp only [List.cons_append, List.nil_append]
      rw [run_rollDrop (k := 321) (n := 321) pre x (t ++ post) h (by omega) rfl (by omega)]
      exact ih t (by simpa using ht)

/-- Removing the 64 message elements below 320 others. -/
theorem run_removeMsg (pre t post : List Elem) (h : live c = true)
    (hp : pre.length = 320) (ht : t.length = 64) :
    run cfg ([.num 321] ++ (emitN 63 [.dup, .roll, .drop] ++ ([.sub1, .roll, .drop] ++ ops)))
      ⟨pre ++ (t ++ post), a, c⟩ = run cfg ops ⟨pre ++ post, a, c⟩ := by
  have hne : t ≠ [] := by intro e; simp [e] at ht
  have hs := List.dropLast_concat_getLast hne
  generalize t.getLast hne = x at hs
  have hl : t.dropLast.length = 63 := by simp; omega
  rw [← hs]
  simp only [List.cons_append, List.nil_append, List.append_assoc]
  rw [run_num _ h, run_rollDrops 63 pre _ _ h hp hl]
  have hr : InRange 321 := by decide
  rw [run_sub1 h hr, run_roll_some (n := 321 - 1) (k := 320) (x := x) h rfl (by
      rw [List.getElem?_append_right (by omega), hp]; rfl) (by omega),
    eraseIdx_mid' pre post x 320 hp, run_drop _ h]

theorem run_rolls (ws : List Word) (hw : ws.length = 8) (h : live c = true) :
    run cfg ((List.range 7).flatMap (fun i => u32Roll (i + 1)) ++ ops) ⟨wordsElems ws ++ m, a, c⟩ =
      run cfg ops ⟨wordsElems ws.reverse ++ m, a, c⟩ := by
  match ws, hw with
  | [w0, w1, w2, w3, w4, w5, w6, w7], _ =>
    rw [show List.range 7 = [0, 1, 2, 3, 4, 5, 6] from rfl]
    simp only [List.flatMap_cons, List.flatMap_nil, List.append_assoc, List.nil_append]
    rw [run_u32Roll (n := 0 + 1) h rfl (by omega), run_u32Roll (n := 1 + 1) h rfl (by omega),
      run_u32Roll (n := 2 + 1) h rfl (by omega), run_u32Roll (n := 3 + 1) h rfl (by omega),
      run_u32Roll (n := 4 + 1) h rfl (by omega), run_u32Roll (n := 5 + 1) h rfl (by omega),
      run_u32Roll (n := 6 + 1) h rfl (by omega)]
    rfl

theorem b3CompressionScript_exists : ∃ p, b3CompressionScript = some p := by
  have hs : (Blake3.initState Blake3.iv 64 11).length = 16 := by simp [Blake3.initState, Blake3.iv]
  obtain ⟨q, rest, e, l, r⟩ := b3Compress_correct (cfg := ⟨id, true⟩) 8 (by omega)
    (ptrInit_tracks hs hs) ptrInit_full hs (by omega) hs
  exact ⟨_, by unfold b3CompressionScript; rw [e]; rfl⟩

theorem run_compressionScript {p : List Op} (hp : b3CompressionScript = some p) (cv mv : List Word)
    (l f : Nat) (hcv : cv.length = 8) (hm : mv.length = 16) (h : live c = true) :
    run cfg (p ++ ops) ⟨wordsElems (Blake3.initState cv l f) ++ (xorTable ++ (wordsElems mv ++ m)), a, c⟩ =
      run cfg ops ⟨xorTable ++ m, (wordsElems (Blake3.compress cv mv l f).reverse).reverse ++ a, c⟩ := by
  have hs := initState_length hcv l f
  obtain ⟨q, rest, e, hl, r⟩ := b3Compress_correct (cfg := cfg) 8 (by omega)
    (ptrInit_tracks hs hm) ptrInit_full hs (by omega) hs
  simp only [b3CompressionScript, e, Option.bind_eq_bind, Option.bind_some, Option.some.injEq] at hp
  subst hp
  simp only [List.append_assoc]
  rw [← List.append_assoc xorTable, wordsElems_table, ← List.append_assoc (wordsElems _),
    ← wordsElems_append, r _ _ _ _ h]
  have e2 : wordsElems (outWords (Blake3.rounds 6 (Blake3.initState cv l f) mv) 0 8 ++
      (rest ++ (tableWords ++ mv))) ++ m =
      wordsElems (outWords (Blake3.rounds 6 (Blake3.initState cv l f) mv) 0 8 ++
      (rest ++ tableWords)) ++ (wordsElems mv ++ m) := by simp
  rw [e2, run_removeMsg _ _ _ h (by
      simp only [wordsElems_length, List.length_append, tableWords_length, outWords_length]; omega)
    (by rw [wordsElems_length, hm])]
  rw [wordsElems_append, List.append_assoc, run_toAlts _ 8 (outWords_length _ _ _) h,
    wordsElems_append, List.append_assoc, run_drops _ 8 (by rw [wordsElems_length]; omega) h,
    tableWords_elems, outWords_compress]

/-! The stack between blocks: the table on the remaining padded blocks, the chaining value on the
alt stack. -/

theorem chain_length (bs : List UInt8) (k : Nat) : (Blake3.chain bs k).length = 8 := by
  cases k with
  | zero => rfl
  | succ k => simp only [Blake3.chain, compress_length]

/-- Block `k` with its padding, followed by the later blocks. -/
theorem block_split (bs : List UInt8) (pad nb k : Nat) (hlen : bs.length + pad = 64 * nb)
    (hpad : pad < 64) (hk : k < nb) :
    bytesElems ((bs ++ List.replicate pad 0).drop (64 * k)) =
      wordsElems (Blake3.blockWords ((bs.drop (64 * k)).take 64)) ++
        bytesElems ((bs ++ List.replicate pad 0).drop (64 * (k + 1))) := by
  rw [wordsElems_blockWords _ (64 - ((bs.drop (64 * k)).take 64).length) (by simp; omega),
    ← bytesElems_append]
  congr 1
  have h1 : (bs ++ List.replicate pad 0).drop (64 * k) =
      ((bs ++ List.replicate pad 0).drop (64 * k)).take 64 ++
        (bs ++ List.replicate pad 0).drop (64 * (k + 1)) := by
    rw [show 64 * (k + 1) = 64 * k + 64 by omega, ← List.drop_drop, List.take_append_drop]
  rw [h1]
  congr 1
  have h2 : 64 * k ≤ bs.length := by omega
  rw [List.drop_append_of_le_length h2, List.take_append]
  simp only [List.length_drop, List.length_take, List.take_replicate]
  congr 2
  omega

theorem run_varLoop {comp : List Op} (hc : b3CompressionScript = some comp) (bs : List UInt8)
    (pad nb : Nat) (hlen : bs.length + pad = 64 * nb) (hpad : pad < 64)
    (n k : Nat) (hk : k + 1 + n = nb) (h : live c = true) :
    run cfg (b3VarLoop comp n (bs.length - 64 * k) ++ ops)
      ⟨xorTable ++ (bytesElems ((bs ++ List.replicate pad 0).drop (64 * (k + 1))) ++ m),
        (wordsElems (Blake3.chain bs (k + 1)).reverse).reverse ++ a, c⟩ =
    run cfg ops ⟨xorTable ++ m, (wordsElems (Blake3.chain bs nb).reverse).reverse ++ a, c⟩ := by
  induction n generalizing k with
  | zero =>
    obtain rfl : nb = k + 1 := by omega
    rw [List.drop_eq_nil_of_le (by simp; omega)]
    rfl
  | succ n ih =>
    have hnb : Blake3.numBlocks bs.length = nb := by unfold Blake3.numBlocks; omega
    unfold b3VarLoop
    simp only [List.append_assoc]
    rw [run_pushWordsRev _ h, run_fromAlts _ 8 (by simp [chain_length]) h,
      run_rolls _ (by simp [chain_length]) h, List.reverse_reverse]
    have hblk : ((bs.drop (64 * (k + 1))).take 64).length =
        if bs.length - 64 * k - 64 < 64 then bs.length - 64 * k - 64 else 64 := by
      simp only [List.length_take, List.length_drop]; split <;> omega
    have hst : wordsElems (Blake3.chain bs (k + 1)) ++ (wordsElems (b3IV.take 4 ++
        [0#32, 0#32, BitVec.ofNat 32 (if bs.length - 64 * k - 64 < 64 then bs.length - 64 * k - 64
          else 64), if n = 0 then 0b00001010#32 else 0b00000000#32]) ++
        (xorTable ++ (bytesElems ((bs ++ List.replicate pad 0).drop (64 * (k + 1))) ++ m))) =
        wordsElems (Blake3.initState (Blake3.chain bs (k + 1))
          ((bs.drop (64 * (k + 1))).take 64).length (Blake3.flagsOf (k + 1) nb)) ++
        (xorTable ++ (wordsElems (Blake3.blockWords ((bs.drop (64 * (k + 1))).take 64)) ++
          (bytesElems ((bs ++ List.replicate pad 0).drop (64 * (k + 1 + 1))) ++ m))) := by
      rw [block_split bs pad nb (k + 1) hlen hpad (by omega), hblk]
      have hf : (if n = 0 then 0b00001010#32 else 0b00000000#32) =
          BitVec.ofNat 32 (Blake3.flagsOf (k + 1) nb) := by
        unfold Blake3.flagsOf
        by_cases hn : n = 0
        · rw [if_pos hn, if_neg (by omega), if_pos (by omega)]
        · rw [if_neg hn, if_neg (by omega), if_neg (by omega)]
      rw [hf]
      simp only [Blake3.initState, wordsElems_append, List.append_assoc]
      rfl
    rw [hst, run_compressionScript hc _ _ _ _ (chain_length _ _) (blockWords_length _) h]
    have hch : Blake3.compress (Blake3.chain bs (k + 1))
        (Blake3.blockWords ((bs.drop (64 * (k + 1))).take 64))
        ((bs.drop (64 * (k + 1))).take 64).length (Blake3.flagsOf (k + 1) nb) =
        Blake3.chain bs (k + 1 + 1) := by
      rw [Blake3.chain.eq_2 bs (k + 1), hnb]
    rw [hch, show bs.length - 64 * k - 64 = bs.length - 64 * (k + 1) by omega]
    exact ih (k + 1) (by omega)

/-- Rotating `n` elements from below to the top. -/
theorem run_rotate (x y : List Elem) (N : Nat) (hN : x.length + y.length = N + 1)
    (hlt : N < 2147483648) (h : live c = true) :
    run cfg (emitN y.length [.num (N : Nat), .roll] ++ ops) ⟨x ++ (y ++ m), a, c⟩ =
      run cfg ops ⟨y ++ (x ++ m), a, c⟩ := by
  generalize hn : y.length = n
  induction n generalizing x y with
  | zero =>
    obtain rfl := List.length_eq_zero_iff.mp hn
    rfl
  | succ n ih =>
    have hne : y ≠ [] := by intro e; simp [e] at hn
    have hs := List.dropLast_concat_getLast hne
    generalize y.getLast hne = z at hs
    have hl : y.dropLast.length = n := by simp; omega
    rw [emitN_succ, ← hs]
    simp only [List.cons_append, List.nil_append]
    rw [run_roll_at (k := N) (x ++ y.dropLast) z m _ h (by simp) rfl (by simp; omega) hlt]
    have := ih (z :: x) y.dropLast (by simp; omega) hl
    simpa using this

theorem run_blake3VarLength {p : List Op} (bs : List UInt8) (h0 : 0 < bs.length)
    (hp : blake3VarLength bs.length = some p) (h : live c = true) :
    run cfg (p ++ ops) ⟨bytesElems bs ++ m, a, c⟩ =
      run cfg ops ⟨wordsElems (Blake3.hash bs).reverse ++ m, a, c⟩ := by
  unfold blake3VarLength at hp
  have hle : bs.length ≤ 512 := by
    by_cases hle : bs.length ≤ 512
    · exact hle
    · rw [if_pos hle] at hp; exact absurd hp (by simp)
  rw [if_neg (by omega)] at hp
  obtain ⟨comp, hc⟩ := b3CompressionScript_exists
  simp only [hc, Option.bind_eq_bind, Option.bind_some, Option.some.injEq] at hp
  generalize hnb : (bs.length + 63) / 64 = nb at hp
  generalize hpd : nb * 64 - bs.length = pad at hp
  have hlen : bs.length + pad = 64 * nb := by omega
  have hpad : pad < 64 := by omega
  have hnbs : Blake3.numBlocks bs.length = nb := by unfold Blake3.numBlocks; omega
  subst hp
  simp only [List.append_assoc]
  rw [run_pushToStack _ _ h]
  have hrot : ∀ ops', run cfg ((if pad ≠ 0 then emitN bs.length
        [.num (bs.length + pad - 1 : Nat), .roll] else []) ++ ops')
        ⟨List.replicate pad (num (0 : Nat)) ++ (bytesElems bs ++ m), a, c⟩ =
      run cfg ops' ⟨bytesElems (bs ++ List.replicate pad 0) ++ m, a, c⟩ := by
    intro ops'
    have hz : bytesElems (bs ++ List.replicate pad 0) ++ m =
        bytesElems bs ++ (List.replicate pad (num (0 : Nat)) ++ m) := by
      simp [bytesElems]
    rw [hz]
    by_cases hp0 : pad = 0
    · subst hp0; rfl
    · rw [if_pos hp0]
      have := run_rotate (cfg := cfg) (ops := ops') (m := m) (a := a) (c := c)
        (List.replicate pad (num (0 : Nat))) (bytesElems bs) (bs.length + pad - 1)
        (by simp; omega) (by omega) h
      rw [bytesElems_length] at this
      exact this
  rw [hrot, run_u8PushXorTable h]
  unfold b3VarInit
  rw [run_pushWordsRev _ h]
  have hblk : (bs.take 64).length = if bs.length < 64 then bs.length else 64 := by
    simp only [List.length_take]; split <;> omega
  have hst : wordsElems (b3IV ++ b3IV.take 4 ++
        [0#32, 0#32, BitVec.ofNat 32 (if bs.length < 64 then bs.length else 64),
         if bs.length > 64 then 0b00000001#32 else 0b00001011#32]) ++
        (xorTable ++ (bytesElems (bs ++ List.replicate pad 0) ++ m)) =
        wordsElems (Blake3.initState Blake3.iv (bs.take 64).length (Blake3.flagsOf 0 nb)) ++
        (xorTable ++ (wordsElems (Blake3.blockWords (bs.take 64)) ++
          (bytesElems ((bs ++ List.replicate pad 0).drop (64 * (0 + 1))) ++ m))) := by
    have := block_split bs pad nb 0 hlen hpad (by omega)
    simp only [Nat.mul_zero, List.drop_zero] at this
    rw [this, hblk]
    have hf : (if bs.length > 64 then 0b00000001#32 else 0b00001011#32) =
        BitVec.ofNat 32 (Blake3.flagsOf 0 nb) := by
      unfold Blake3.flagsOf
      by_cases hn : bs.length > 64
      · rw [if_pos hn, if_pos rfl, if_neg (by omega)]
      · rw [if_neg hn, if_pos rfl, if_pos (by omega)]
    rw [hf]
    simp only [Blake3.initState, wordsElems_append, List.append_assoc]
    rfl
  rw [hst, run_compressionScript hc _ _ _ _ rfl (blockWords_length _) h]
  have hch : Blake3.compress Blake3.iv (Blake3.blockWords (bs.take 64)) (bs.take 64).length
      (Blake3.flagsOf 0 nb) = Blake3.chain bs (0 + 1) := by
    rw [Blake3.chain, hnbs]; rfl
  rw [hch]
  have := run_varLoop (cfg := cfg) (ops := u8DropXorTable ++ (emitN 8 u32FromAlt ++ ops)) (m := m)
    (a := a) hc bs pad nb hlen hpad (nb - 1) 0 (by omega) h
  rw [show bs.length - 64 * 0 = bs.length by omega] at this
  rw [this, run_u8DropXorTable h, run_fromAlts _ 8 (by simp [chain_length]) h]
  unfold Blake3.hash
  rw [hnbs]

/-! ### Comparing digests -/

theorem run_emitN_toAlt (t : List Elem) (n : Nat) (hn : t.length = n) (h : live c = true) :
    run cfg (emitN n [.toAlt] ++ ops) ⟨t ++ m, a, c⟩ = run cfg ops ⟨m, t.reverse ++ a, c⟩ := by
  subst hn
  induction t generalizing a with
  | nil => rfl
  | cons x t ih =>
    rw [List.length_cons, emitN_succ]
    simp only [List.cons_append, List.nil_append]
    rw [run_toAlt _ h, ih]
    simp

theorem run_pushBytesHex (bs : List UInt8) (h : live c = true) :
    run cfg (pushBytesHex bs ++ ops) ⟨m, a, c⟩ = run cfg ops ⟨bytesElems bs ++ m, a, c⟩ := by
  unfold pushBytesHex
  induction bs generalizing ops m with
  | nil => rfl
  | cons b bs ih =>
    simp only [List.reverse_cons, List.map_append, List.map_cons, List.map_nil, List.append_assoc]
    rw [ih]
    simp only [List.cons_append, List.nil_append]
    rw [run_num _ h]
    rfl

theorem run_eqWords (n : Nat) (es rs : List Word) (he : es.length = n) (hr : rs.length = n)
    (h : live c = true) :
    run cfg (emitN n ([.fromAlt, .fromAlt, .fromAlt, .fromAlt] ++ u32Equalverify) ++ ops)
      ⟨wordsElems rs.reverse ++ m, (wordsElems es).reverse ++ a, c⟩ =
    if es = rs then run cfg ops ⟨m, a, c⟩ else none := by
  induction n generalizing es rs with
  | zero =>
    obtain rfl := List.length_eq_zero_iff.mp he
    obtain rfl := List.length_eq_zero_iff.mp hr
    rfl
  | succ n ih =>
    have hne : es ≠ [] := by intro e; simp [e] at he
    have hs := List.dropLast_concat_getLast hne
    generalize es.getLast hne = e at hs
    have hne' : rs ≠ [] := by intro e; simp [e] at hr
    have hs' := List.dropLast_concat_getLast hne'
    generalize rs.getLast hne' = r at hs'
    have hl : es.dropLast.length = n := by simp; omega
    have hl' : rs.dropLast.length = n := by simp; omega
    generalize es.dropLast = es1 at hs hl
    generalize rs.dropLast = rs1 at hs' hl'
    subst hs hs'
    rw [emitN_succ]
    simp only [wordsElems_append, wordsElems_cons, wordsElems_nil, List.append_nil,
      List.reverse_append, List.append_assoc, List.reverse_cons, List.reverse_nil, List.nil_append,
      List.cons_append]
    have hfa : ∀ ops' (m' : List Elem), run cfg (.fromAlt :: .fromAlt :: .fromAlt :: .fromAlt :: ops')
        ⟨m', (wordElems e).reverse ++ ((wordsElems es1).reverse ++ a), c⟩ =
        run cfg ops' ⟨wordElems e ++ m', (wordsElems es1).reverse ++ a, c⟩ :=
      fun ops' m' => run_u32FromAlt e h
    rw [hfa, ← List.append_assoc (wordElems e), run_u32Equalverify e r h]
    by_cases hee : e = r
    · subst hee
      have := ih es1 rs1 hl hl'
      simp only [List.cons_append, List.nil_append] at this
      rw [if_pos rfl, this]
      simp
    · rw [if_neg hee, if_neg]
      intro hc
      have := List.append_inj' hc rfl
      simp at this
      exact hee this.2

/-- Expected words on top (word 0 on top), result below (last word on top): succeeds exactly when
they agree. -/
theorem run_hashEqualverify (n : Nat) (es rs : List Word) (he : es.length = n + 1)
    (hr : rs.length = n + 1) (h : live c = true) :
    run cfg (emitN (4 * n) [.toAlt] ++ (u32Equalverify ++
        (emitN n ([.fromAlt, .fromAlt, .fromAlt, .fromAlt] ++ u32Equalverify) ++ ops)))
      ⟨wordsElems es ++ (wordsElems rs.reverse ++ m), a, c⟩ =
    if es = rs then run cfg ops ⟨m, a, c⟩ else none := by
  have hne : es ≠ [] := by intro e; simp [e] at he
  have hs := List.dropLast_concat_getLast hne
  generalize es.getLast hne = e at hs
  have hne' : rs ≠ [] := by intro e; simp [e] at hr
  have hs' := List.dropLast_concat_getLast hne'
  generalize rs.getLast hne' = r at hs'
  have hl : es.dropLast.length = n := by simp; omega
  have hl' : rs.dropLast.length = n := by simp; omega
  generalize es.dropLast = es1 at hs hl
  generalize rs.dropLast = rs1 at hs' hl'
  subst hs hs'
  simp only [wordsElems_append, wordsElems_cons, wordsElems_nil, List.append_nil,
    List.reverse_append, List.append_assoc, List.reverse_cons, List.reverse_nil, List.nil_append,
    List.cons_append]
  rw [run_emitN_toAlt _ (4 * n) (by rw [wordsElems_length, hl]) h, ← List.append_assoc (wordElems e),
    run_u32Equalverify e r h]
  by_cases hee : e = r
  · subst hee
    rw [if_pos rfl]
    have := run_eqWords (cfg := cfg) (ops := ops) (m := m) (a := a) n es1 rs1 hl hl' h
    simp only [List.cons_append, List.nil_append] at this
    rw [this]
    simp
  · rw [if_neg hee, if_neg]
    intro hc
    have := List.append_inj' hc rfl
    simp at this
    exact hee this.2

end TapStark
