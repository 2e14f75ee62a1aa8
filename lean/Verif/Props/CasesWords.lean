import Verif.Props.AltStore
import Verif.Props.Secret
import Verif.Props.Words
import Verif.Props.Blake3

/-!
Concrete cases of the theorems about words, hashing, signatures and commitments: each theorem is applied to data that
meet its hypotheses.
-/

namespace TapStark

/-- A configuration for the cases: a fixed hash and minimal encodings. -/
abbrev caseCfg : Cfg := ⟨fun _ => List.replicate 20 7, true⟩

theorem caseCfg_length : ∀ x, (caseCfg.hash160 x).length = 20 := fun _ => rfl

/-! ### Words -/

example : run caseCfg (u32Pick 1) ⟨wordsElems [7#32, 0xfedcba98#32] ++ [num 1], [num 2], []⟩ =
    some ⟨wordsElems [0xfedcba98#32, 7#32, 0xfedcba98#32] ++ [num 1], [num 2], []⟩ :=
  C01_pick caseCfg _ _ 1 [7#32, 0xfedcba98#32] _ rfl (by decide)

example : run caseCfg (u32Roll 1) ⟨wordsElems [7#32, 0xfedcba98#32] ++ [num 1], [num 2], []⟩ =
    some ⟨wordsElems [0xfedcba98#32, 7#32] ++ [num 1], [num 2], []⟩ :=
  C01_roll caseCfg _ _ 1 [7#32, 0xfedcba98#32] _ rfl (by decide)

example : ∃ p, u32AddDrop 2 0 = some p ∧
    run caseCfg p ⟨wordsElems [0xffffffff#32, 7#32, 2#32] ++ [num 1], [num 2], []⟩ =
      some ⟨wordElems 1#32 ++ wordsElems [7#32] ++ [num 1], [num 2], []⟩ :=
  C02_add_drop caseCfg [num 1] [num 2] 2 0 [0xffffffff#32, 7#32, 2#32] 2#32 0xffffffff#32 (by decide) rfl rfl
    (by decide) (by decide)

example : ∃ p, u32Rrot 20 = some p ∧
    run caseCfg p ⟨wordElems 0x87654321#32 ++ [], [], []⟩ = some ⟨wordElems 0x54321876#32 ++ [], [], []⟩ :=
  C04_rrot caseCfg [] [] 20 (by decide) 0x87654321#32

example : u32Rrot 40 = none := C04_rrot_range 40 (by decide)

example : run caseCfg u32Compress ⟨wordElems 0x7fffffff#32 ++ [], [], []⟩ = some ⟨[num 2147483647], [], []⟩ :=
  C06_compress_partial caseCfg [] [] 0x7fffffff#32 (by decide)

example : run caseCfg u32Compress ⟨wordElems 0x80000001#32 ++ [], [], []⟩ ≠
    run caseCfg u32Compress ⟨wordElems 1#32 ++ [], [], []⟩ := fun h =>
  absurd (C06_compress_injective_partial caseCfg [] [] 0x80000001#32 1#32 (by decide) (by decide) h) (by decide)

example : run caseCfg op4pick ⟨num 1 :: ([num 9] ++ [num 3, num 4, num 5, num 6] ++ [num 8]), [], []⟩ =
    some ⟨[num 3, num 4, num 5, num 6] ++ [num 9] ++ [num 3, num 4, num 5, num 6] ++ [num 8], [], []⟩ :=
  C07_pick caseCfg [] 1 [num 9] _ _ _ _ _ rfl (by decide)

example : run caseCfg op4roll ⟨num 1 :: ([num 9] ++ [num 3, num 4, num 5, num 6] ++ [num 8]), [], []⟩ =
    some ⟨[num 3, num 4, num 5, num 6] ++ [num 9] ++ [num 8], [], []⟩ :=
  C07_roll caseCfg [] 1 [num 9] _ _ _ _ _ rfl (by decide)

example : run caseCfg (op2kmul 3) ⟨[num (-5)], [], []⟩ = some ⟨[num (-40)], [], []⟩ :=
  (C09_mul_pow caseCfg [] [] 3 (-5)).1 (by decide)

example : run caseCfg (op2kmul 3) ⟨[num 1000000000], [], []⟩ = none :=
  (C09_mul_pow caseCfg [] [] 3 1000000000).2 ⟨2, by decide, by decide⟩

/-! ### Hashing -/

example : blake3VarLength 513 = none := C11_too_long 513 (by decide)

example : ∃ p, blake3VarLength 0 = some p ∧
    run caseCfg p ⟨wordsElems (List.replicate 16 5#32) ++ [num 1], [], []⟩ =
      some ⟨wordsElems (Blake3.compress Blake3.iv (List.replicate 16 5#32) 0 11).reverse ++ [num 1], [], []⟩ :=
  let ⟨p, h, hr⟩ := C11_zero_length
  ⟨p, h, hr caseCfg _ _ _ rfl⟩

example := C12_pointer_map caseCfg [.g 0 4 8 12 0 1, .permute, .g 3 4 9 14 14 15]
  (by simp [GenStep.Ok]) (List.replicate 16 5#32) (List.replicate 16 9#32) rfl rfl

example : ∃ p, blake3Script = some p ∧
    run caseCfg (p ++ pushBytesHex (List.replicate 32 1) ++ blake3HashEqualverify)
      ⟨bytesElems (List.replicate 64 3) ++ [num 1], [], []⟩ =
      if (List.replicate 32 (1 : UInt8)).map (·.toNat) = Blake3.hashBytes (List.replicate 64 3)
      then some ⟨[num 1], [], []⟩ else none := by
  obtain ⟨p, hp⟩ : ∃ p, blake3Script = some p := Option.isSome_iff_exists.1 (by decide +kernel)
  exact ⟨p, hp, C66_hash_equalverify p hp caseCfg _ _ _ _ rfl rfl⟩

example : ∃ p, blake3Script160 = some p ∧
    run caseCfg (p ++ pushBytesHex (List.replicate 20 1) ++ blake3160HashEqualverify)
      ⟨bytesElems (List.replicate 40 3) ++ [num 1], [], []⟩ =
      if (List.replicate 20 (1 : UInt8)).map (·.toNat) = (Blake3.hashBytes (List.replicate 40 3)).take 20
      then some ⟨[num 1], [], []⟩ else none := by
  obtain ⟨p, hp⟩ : ∃ p, blake3Script160 = some p := Option.isSome_iff_exists.1 (by decide +kernel)
  exact ⟨p, hp, C66_hash_equalverify_160 p hp caseCfg _ _ _ _ rfl rfl⟩

/-! ### Signatures -/

example : ∃ (key : List Char) (v : BitVec 32) (w : Winternitz) (p : List Op) (sig : List Elem),
    Winternitz.new caseCfg key = some w ∧ checksigVerify w.pubKey = some p ∧
      w.sign caseCfg (toDigits v.toNat wN0) = some sig ∧ run caseCfg p ⟨sig.reverse ++ [], [], []⟩ = none :=
  let ⟨key, v, h⟩ := C13_raw_sign_zero
  let ⟨w, p, sig, h1, h2, h3, h4⟩ := h caseCfg rfl
  ⟨key, v, w, p, sig, h1, h2, h3, h4 [] []⟩

/-- A valid signature of the digits 1 to 8 under the fixed hash. -/
example : [4, 5, 8, 7, 6, 5, 4, 3, 2, 1].getD 2 0 ≤ 15 :=
  C14_digit_range (h := caseCfg.hash160) (minimal := true) (pk := fun _ => List.replicate 20 7)
    (e := fun j => num ([4, 5, 8, 7, 6, 5, 4, 3, 2, 1].getD j 0 : Nat)) (x := fun _ => [])
    (d := fun j => [4, 5, 8, 7, 6, 5, 4, 3, 2, 1].getD j 0)
    ⟨fun j hj => ⟨([4, 5, 8, 7, 6, 5, 4, 3, 2, 1].getD j 0 : Nat), by revert j; decide +kernel, by simp,
      by revert j; decide +kernel, by revert j; decide +kernel⟩, by unfold ChecksumOk messageSum; decide⟩ 2 (by decide)

/-- Two digit vectors with a right checksum: of the message digits 1 to 8, and of the same with one digit changed. -/
example : ∃ j, j < 10 ∧ [3, 5, 8, 7, 6, 5, 4, 3, 2, 2].getD j 0 < [4, 5, 8, 7, 6, 5, 4, 3, 2, 1].getD j 0 :=
  C15_domination (fun j => [4, 5, 8, 7, 6, 5, 4, 3, 2, 1].getD j 0) (fun j => [3, 5, 8, 7, 6, 5, 4, 3, 2, 2].getD j 0)
    (by unfold ChecksumOk messageSum; decide) (by unfold ChecksumOk messageSum; decide) ⟨0, by decide, by decide⟩

example : wChecksum [1, 2, 3] = none := C16_checksum_length [1, 2, 3] (by decide)

example : ∃ b q sig, BitCommU32.new caseCfg "b138".toList 77#32 = some b ∧ b.recoverEqual = some q ∧
    (b.changeValue 78#32).signature caseCfg = some sig ∧ ∀ m a, run caseCfg q ⟨sig.reverse ++ m, a, []⟩ = none :=
  let ⟨b, q, sig, h1, h2, h3, h4⟩ :=
    C17_check_partial caseCfg caseCfg_length "b138".toList (by decide) 77#32 78#32 (by decide) (by decide)
  ⟨b, q, sig, h1, h2, h3, fun m a => by rw [h4]; rfl⟩

example : ∃ b q sig, BitCommU32.new caseCfg "b138".toList 77#32 = some b ∧ b.recoverEqual = some q ∧
    (b.changeValue 0x8000004d#32).signature caseCfg = some sig ∧
      ∀ m a, run caseCfg q ⟨sig.reverse ++ m, a, []⟩ = none :=
  let ⟨b, q, sig, h1, h2, h3, h4⟩ := C17_exact caseCfg caseCfg_length "b138".toList (by decide) 77#32 0x8000004d#32
  ⟨b, q, sig, h1, h2, h3, fun m a => by rw [h4]; rfl⟩

example := C17_rejects_large caseCfg caseCfg_length "b138".toList (by decide) 0x80000001#32 0x80000001#32 (by decide)

example := C17_accepts_other caseCfg caseCfg_length "b138".toList (by decide)

/-- The word 0x01020304 against the pair 0x01aa03bb, 0xcc02dd04: bytes of either are accepted. -/
example (w w' : Winternitz) : ∃ q, (BitCommU32.mk 0x01aa03bb#32 w (toDigits (0x01aa03bb#32).toNat wN0)).checkXOrNegX
      (BitCommU32.mk 0xcc02dd04#32 w' (toDigits (0xcc02dd04#32).toNat wN0)) = some q ∧
    run caseCfg q ⟨wordElems 0x01020304#32 ++ [num 1], [], []⟩ = some ⟨[num 1], [], []⟩ :=
  let ⟨q, h1, h2, _⟩ := C18_exact_partial caseCfg w w' 0x01aa03bb#32 0xcc02dd04#32 0x01020304#32 [num 1] []
  ⟨q, h1, h2.2 (by unfold byteMatch; decide)⟩

example := C67_check_and_recover caseCfg caseCfg_length [7#32, 0x80000009#32] ["00".toList, "ab".toList] rfl (by decide)

example := C68_key_reuse_forges_any_value caseCfg caseCfg_length "b138".toList (by decide) 0x12345678#32

/-! ### Commitments kept on the alternative stack, secrets -/

example := C105_several caseCfg caseCfg_length [([1#32], [2#32], ["00".toList]),
  ([1#32, 2#32, 3#32, 4#32], [5#32, 6#32, 7#32, 8#32], ["ab".toList, "01".toList, "cd".toList, "ef".toList])]
  (by decide) (by decide) (by decide)

example := C105_move caseCfg caseCfg_length [1#32, 2#32] [3#32, 4#32] ["00".toList, "ab".toList] rfl rfl (by decide)

example := C105_word caseCfg caseCfg_length "b138".toList (by decide) 1#32 2#32

example : hexDecode (threadSecret fun _ => 'a') = some (List.replicate 20 97) := by
  rw [C104_thread]; decide +kernel

example := C104_thread_distinct caseCfg (fun _ => 'a') (fun i => if i = 19 then 'b' else 'a') ⟨19, by decide, by decide⟩ _ _
  (C104_thread _) (C104_thread _) 3 4

example := C104_complete caseCfg caseCfg_length [1#32, 2#32] [constantSecret, threadSecret fun _ => 'é'] rfl
  (by simp)

example := C104_violated_constant caseCfg caseCfg_length [1#32, 2#32] [3#32, 4#32] rfl

end TapStark
