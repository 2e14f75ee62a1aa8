import Verif.Spec.Limits
import Verif.Script.Effect
import Verif.Model.Blake3
import Verif.Model.Winternitz

/-
The stack effects of the scripts of `scripts/`.
-/

namespace TapStark

/-! ### u32 -/

theorem eff_u32Push (v : BitVec 32) : Eff (u32Push v) 0 4 4 4 :=
  .of_shape (u32Push 0) rfl (.of_scan (by decide +kernel))

theorem eff_u32Compress : Eff u32Compress 4 1 6 6 := .of_scan (by decide +kernel)

theorem eff_u32CopyZip {a b : Nat} {p : List Op} (h : u32CopyZip a b = some p) : ∃ k, k ≤ 5 ∧ Eff p 0 4 k k := by
  unfold u32CopyZip at h
  split at h
  · cases h
    exact ⟨5, by omega, .of_shape (u32CopyZipLt 0 0) rfl (.of_scan (by decide +kernel))⟩
  · split at h
    · cases h
      exact ⟨4, by omega, .of_shape (u32ZipCopyLt 0 0) rfl (.of_scan (by decide +kernel))⟩
    · cases h

theorem eff_u32AddTail : Eff u32AddTail 5 1 6 6 := .of_scan (by decide +kernel)

theorem eff_u32XorTail (c : Nat) : Eff (u32XorTail c) 5 1 9 9 :=
  .of_shape (u32XorTail 2) rfl (.of_scan (by decide +kernel))

theorem eff_u32Add {a b : Nat} {p : List Op} (h : u32Add a b = some p) : Eff p 1 1 6 6 := by
  unfold u32Add at h
  split at h
  · cases h
  · obtain ⟨q, hq, rfl⟩ := Option.map_eq_some_iff.mp h
    obtain ⟨k, hk, e⟩ := eff_u32CopyZip hq
    exact e.seq eff_u32AddTail 1 0 rfl rfl rfl (by omega) (by omega)

theorem eff_u32AddDrop {a b : Nat} {p : List Op} (h : u32AddDrop a b = some p) : Eff p 5 1 6 6 := by
  unfold u32AddDrop at h
  split at h
  · cases h
  · cases h
    have : Eff (u32Zip a b) 0 0 1 1 := by
      unfold u32Zip
      split <;> exact .of_shape (u32Zip 0 0) rfl (.of_scan (by decide +kernel))
    exact this.seq eff_u32AddTail 5 0 rfl rfl rfl rfl rfl

theorem eff_u32Xor {a b c : Nat} {p : List Op} (h : u32Xor a b c = some p) : Eff p 1 1 9 9 := by
  unfold u32Xor at h
  split at h
  · cases h
  · obtain ⟨q, hq, rfl⟩ := Option.map_eq_some_iff.mp h
    obtain ⟨k, hk, e⟩ := eff_u32CopyZip hq
    exact e.seq (eff_u32XorTail c) 1 0 rfl rfl rfl (by omega) (by omega)

theorem eff_u32Roll (n : Nat) : Eff (u32Roll n) 0 0 1 1 := .of_shape (u32Roll 0) rfl (.of_scan (by decide +kernel))

theorem eff_u32Pick (n : Nat) : Eff (u32Pick n) 0 4 4 4 := .of_shape (u32Pick 0) rfl (.of_scan (by decide +kernel))

theorem eff_table : Eff u8PushXorTable 0 256 256 256 := .of_scan (by decide +kernel)

theorem eff_untable : Eff u8DropXorTable 256 0 256 256 := .of_scan (by decide +kernel)

theorem eff_u32Rrot : ∀ r, r < 32 → ∃ p, u32Rrot r = some p ∧ Eff p 4 4 (4 + rrotRoom r) (4 + rrotRoom r) := by
  have : ∀ r, r < 32 → ∃ p, u32Rrot r = some p ∧
      scan p ⟨4, 4, 4, []⟩ = some ⟨4, 4 + rrotRoom r, 4 + rrotRoom r, []⟩ := by
    have : ∀ r, r < 32 → (u32Rrot r).bind (fun p => scan p ⟨4, 4, 4, []⟩) =
        some ⟨4, 4 + rrotRoom r, 4 + rrotRoom r, []⟩ := by decide +kernel
    intro r hr
    obtain ⟨p, h1, h2⟩ := Option.bind_eq_some_iff.mp (this r hr)
    exact ⟨p, h1, h2⟩
  intro r hr
  obtain ⟨p, h1, h2⟩ := this r hr
  exact ⟨p, h1, .of_scan h2⟩

theorem eff_rrot_eq {r : Nat} (hr : r < 32) {p : List Op} (h : u32Rrot r = some p) :
    Eff p 4 4 (4 + rrotRoom r) (4 + rrotRoom r) := by
  obtain ⟨q, h1, h2⟩ := eff_u32Rrot r hr
  rw [h] at h1
  cases h1
  exact h2

/-! ### BLAKE3 -/

theorem eff_pushWordsRev (ws : List (BitVec 32)) :
    Eff (pushWordsRev ws) 0 (4 * ws.length) (4 * ws.length) (4 * ws.length) := by
  unfold pushWordsRev
  rw [← List.length_reverse (as := ws)]
  generalize ws.reverse = l
  induction l with
  | nil => exact Eff.nil 0
  | cons v l ih =>
    rw [List.flatMap_cons]
    refine (eff_u32Push v).seq ih 0 4 (by omega) rfl ?_ ?_ ?_ <;> simp only [List.length_cons] <;> omega

/-- Empty, or a fragment that keeps four words and needs room for eight elements. -/
def KeepsFour (p : List Op) : Prop := p = [] ∨ Eff p 4 4 12 12

theorem Eff.keeps {p q : List Op} (hp : Eff p 4 4 12 12) (hq : KeepsFour q) : Eff (p ++ q) 4 4 12 12 := by
  rcases hq with rfl | hq
  · rwa [List.append_nil]
  · exact hp.append hq

theorem eff_b3G {env env' : Env} {ap : Nat} {a b c d m0 m1 : Ptr} {p : List Op}
    (h : b3G env ap a b c d m0 m1 = some (p, env')) : Eff p 4 4 12 12 := by
  unfold b3G at h
  simp only [Option.bind_eq_bind, Option.bind_eq_some_iff] at h
  obtain ⟨ib, -, ⟨ia, e1⟩, -, p1, h1, im0, -, p2, h2, ⟨id, e2⟩, -, p3, h3, p4, h4, ⟨ic, e3⟩, -, p5, h5, ⟨ib', e4⟩, -,
    p6, h6, p7, h7, p8, h8, im1, -, p9, h9, p10, h10, p11, h11, p12, h12, p13, h13, p14, h14, h⟩ := h
  simp only [Option.some.injEq, Prod.mk.injEq] at h
  obtain ⟨rfl, -⟩ := h
  have A : ∀ {a b : Nat} {p : List Op}, u32Add a b = some p → Eff p 4 4 9 9 := fun h => (eff_u32Add h).frame 3
  have X : ∀ {a b c : Nat} {p : List Op}, u32Xor a b c = some p → Eff p 4 4 12 12 := fun h => (eff_u32Xor h).frame 3
  have r16 := eff_rrot_eq (by omega) h4
  have r12 := eff_rrot_eq (by omega) h7
  have r8 := eff_rrot_eq (by omega) h11
  have r7 := eff_rrot_eq (by omega) h14
  exact (A h1).append ((A h2).append ((X h3).append (r16.append ((A h5).append ((X h6).append (r12.append
    ((A h8).append ((A h9).append ((X h10).append (r8.append ((A h12).append ((X h13).append r7))))))))))))

theorem eff_b3Gs {ap : Nat} : ∀ (cs : List (Nat × Nat × Nat × Nat × Nat × Nat)) {env env' : Env} {p : List Op},
    b3Gs ap cs env = some (p, env') → KeepsFour p := by
  intro cs
  induction cs with
  | nil =>
    intro env env' p h
    simp only [b3Gs, Option.some.injEq, Prod.mk.injEq] at h
    exact .inl h.1.symm
  | cons c cs ih =>
    intro env env' p h
    obtain ⟨a, b, c, d, m0, m1⟩ := c
    simp only [b3Gs, Option.bind_eq_bind, Option.bind_eq_some_iff] at h
    obtain ⟨⟨p1, e1⟩, h1, ⟨q, e2⟩, h2, h⟩ := h
    simp only [Option.some.injEq, Prod.mk.injEq] at h
    rw [← h.1]
    exact .inr ((eff_b3G h1).keeps (ih h2))

theorem eff_b3Round {ap : Nat} {env env' : Env} {p : List Op} (h : b3Round env ap = some (p, env')) :
    Eff p 4 4 12 12 := by
  unfold b3Round b3RoundCalls at h
  simp only [b3Gs.eq_2, Option.bind_eq_bind, Option.bind_eq_some_iff] at h
  obtain ⟨⟨p1, e1⟩, h1, ⟨q, e2⟩, h2, h⟩ := h
  simp only [Option.some.injEq, Prod.mk.injEq] at h
  rw [← h.1]
  refine (eff_b3G h1).keeps (eff_b3Gs (env := e1) (env' := e2) (ap := ap)
    [(1, 5, 9, 13, 2, 3), (2, 6, 10, 14, 4, 5), (3, 7, 11, 15, 6, 7), (0, 5, 10, 15, 8, 9), (1, 6, 11, 12, 10, 11),
      (2, 7, 8, 13, 12, 13), (3, 4, 9, 14, 14, 15)] ?_)
  simp only [b3Gs, Option.bind_eq_bind, Option.bind_eq_some_iff]
  exact h2

theorem eff_b3PermRounds {ap : Nat} : ∀ (n : Nat) {env env' : Env} {p : List Op},
    b3PermRounds ap n env = some (p, env') → KeepsFour p := by
  intro n
  induction n with
  | zero =>
    intro env env' p h
    simp only [b3PermRounds, Option.some.injEq, Prod.mk.injEq] at h
    exact .inl h.1.symm
  | succ n ih =>
    intro env env' p h
    simp only [b3PermRounds, Option.bind_eq_bind, Option.bind_eq_some_iff] at h
    obtain ⟨e0, -, ⟨p1, e1⟩, h1, ⟨q, e2⟩, h2, h⟩ := h
    simp only [Option.some.injEq, Prod.mk.injEq] at h
    rw [← h.1]
    exact .inr ((eff_b3Round h1).keeps (ih h2))

theorem eff_b3Finish {ap : Nat} : ∀ (n i : Nat) {env : Env} {p : List Op}, b3Finish ap i n env = some p → KeepsFour p := by
  intro n
  induction n with
  | zero =>
    intro i env p h
    simp only [b3Finish, Option.some.injEq] at h
    exact .inl h.symm
  | succ n ih =>
    intro i env p h
    simp only [b3Finish, Option.bind_eq_bind, Option.bind_eq_some_iff] at h
    obtain ⟨x, -, ⟨y, e1⟩, -, p1, h1, q, h2, h⟩ := h
    simp only [Option.some.injEq] at h
    rw [← h]
    exact .inr (((eff_u32Xor h1).frame 3).keeps (ih (i + 1) h2))

theorem eff_b3Compress {k ap : Nat} {env : Env} {p : List Op} (h : b3Compress k env ap = some p) : Eff p 4 4 12 12 := by
  simp only [b3Compress, Option.bind_eq_bind, Option.bind_eq_some_iff] at h
  obtain ⟨⟨p1, e1⟩, h1, ⟨p2, e2⟩, h2, p3, h3, h⟩ := h
  simp only [Option.some.injEq] at h
  rw [← h]
  refine (eff_b3Round h1).keeps ?_
  rcases eff_b3PermRounds 6 h2 with rfl | h2
  · exact eff_b3Finish _ _ h3
  · exact .inr (h2.keeps (eff_b3Finish _ _ h3))

theorem eff_blake3 {p : List Op} (h : blake3Script = some p) : Eff p 64 32 392 392 := by
  simp only [blake3Script, Option.bind_eq_bind, Option.bind_eq_some_iff] at h
  obtain ⟨comp, hc, h⟩ := h
  simp only [Option.some.injEq] at h
  rw [← h]
  have e1 : Eff (emitN 8 u32ToAlt ++ (emitN 24 u32Drop ++ (u8DropXorTable ++ emitN 8 u32FromAlt))) 384 32 384 384 :=
    .of_scan (by decide +kernel)
  have e2 := eff_b3Compress hc
  have e3 : Eff (b3InitialState 64) 0 64 64 64 := eff_pushWordsRev _
  have e4 : Eff (comp ++ (emitN 8 u32ToAlt ++ (emitN 24 u32Drop ++ (u8DropXorTable ++ emitN 8 u32FromAlt))))
      384 32 392 392 := e2.seq e1 380 0 rfl rfl rfl rfl rfl
  have e5 := e3.seq e4 320 0 (N := 320) (O := 32) (K := 392) (T := 392) rfl rfl rfl rfl rfl
  exact eff_table.seq e5 64 0 rfl rfl rfl rfl rfl

theorem eff_blake3_160 {p : List Op} (h : blake3Script160 = some p) : Eff p 40 20 392 392 := by
  simp only [blake3Script160, Option.bind_eq_bind, Option.bind_eq_some_iff] at h
  obtain ⟨comp, hc, h⟩ := h
  simp only [Option.some.injEq] at h
  rw [← h]
  have e1 : Eff (emitN 5 u32ToAlt ++ (emitN 27 u32Drop ++ (u8DropXorTable ++ emitN 5 u32FromAlt))) 384 20 384 384 :=
    .of_scan (by decide +kernel)
  have e2 := eff_b3Compress hc
  have e3 : Eff (b3InitialState 40) 0 64 64 64 := eff_pushWordsRev _
  have e4 : Eff (comp ++ (emitN 5 u32ToAlt ++ (emitN 27 u32Drop ++ (u8DropXorTable ++ emitN 5 u32FromAlt))))
      384 20 392 392 := e2.seq e1 380 0 rfl rfl rfl rfl rfl
  have e5 := e3.seq e4 320 0 (N := 320) (O := 20) (K := 392) (T := 392) rfl rfl rfl rfl rfl
  have e6 := eff_table.seq e5 64 0 (N := 64) (O := 20) (K := 392) (T := 392) rfl rfl rfl rfl rfl
  have e7 : Eff (pushToStack 0 24) 0 24 24 24 := .of_scan (by decide +kernel)
  exact e7.seq e6 40 0 rfl rfl rfl rfl rfl

theorem eff_comp {p : List Op} (h : b3CompressionScript = some p) : Eff p 128 32 136 136 := by
  simp only [b3CompressionScript, Option.bind_eq_bind, Option.bind_eq_some_iff] at h
  obtain ⟨comp, hc, h⟩ := h
  simp only [Option.some.injEq] at h
  rw [← h]
  have e1 : Eff ([.num 321] ++ (emitN 63 [.dup, .roll, .drop] ++ ([.sub1, .roll, .drop] ++
      (emitN 8 u32ToAlt ++ emitN 8 u32Drop)))) 128 32 130 130 := .of_scan (by decide +kernel)
  exact (eff_b3Compress hc).seq e1 124 0 rfl rfl rfl rfl rfl

theorem eff_varLoop {comp : List Op} (hc : Eff comp 128 32 136 136) : ∀ (blocks numBytes : Nat),
    Eff (b3VarLoop comp blocks numBytes) (64 * blocks + 32) 32 (64 * blocks + 32 + if blocks = 0 then 0 else 40)
      (64 * blocks + 32 + if blocks = 0 then 0 else 40) := by
  intro blocks
  induction blocks with
  | zero => intro nb; exact Eff.nil 32
  | succ blocks ih =>
    intro nb
    simp only [b3VarLoop]
    have e1 : Eff (emitN 8 u32FromAlt ++ (List.range 7).flatMap (fun i => u32Roll (i + 1))) 64 64 65 65 :=
      .of_scan (by decide +kernel)
    have e2 := hc.seq (ih (nb - 64)) (64 * blocks) 0 (N := 64 * blocks + 128) (O := 32) (K := 64 * blocks + 136)
      (T := 64 * blocks + 136) (by omega) (by omega) (by omega) (by split <;> omega) (by split <;> omega)
    rw [← List.append_assoc (TapStark.emitN 8 u32FromAlt)]
    have e3 := e1.seq e2 (64 * blocks + 64) 0 (N := 64 * blocks + 128) (O := 32) (K := 64 * blocks + 136)
      (T := 64 * blocks + 136) (by omega) (by omega) (by omega) (by omega) (by omega)
    have e4 : ∀ x y : BitVec 32, Eff (pushWordsRev (b3IV.take 4 ++ [0#32, 0#32, x, y])) 0 32 32 32 :=
      fun x y => eff_pushWordsRev _
    exact (e4 _ _).seq e3 (64 * blocks + 96) 0 (by omega) (by omega) (by omega)
      (by rw [if_neg (by omega)]; omega) (by rw [if_neg (by omega)]; omega)

/-- `OP_NDUP` on one element. -/
theorem eff_opNdup (n : Nat) : Eff (opNdup n) 1 (1 + n) (1 + n) (1 + n) := by
  have rep : ∀ m, Eff (emitN m [.dup3]) 3 (3 + 3 * m) (3 + 3 * m) (3 + 3 * m) := by
    intro m
    induction m with
    | zero => exact Eff.nil 3
    | succ m ih =>
      rw [show emitN (m + 1) [Op.dup3] = [Op.dup3] ++ emitN m [.dup3] by simp [emitN, List.replicate_succ]]
      have e : Eff [Op.dup3] 3 6 6 6 := .of_scan (by decide +kernel)
      exact e.seq ih 0 3 (by omega) (by omega) (by omega) (by omega) (by omega)
  have d1 : Eff [Op.dup] 1 2 2 2 := .of_scan (by decide +kernel)
  have d2 : Eff [Op.dup2] 2 4 4 4 := .of_scan (by decide +kernel)
  unfold opNdup
  rcases Nat.lt_or_ge n 4 with h | h
  · have : n = 0 ∨ n = 1 ∨ n = 2 ∨ n = 3 := by omega
    rcases this with rfl | rfl | rfl | rfl <;> exact .of_scan (by decide +kernel)
  · simp only [if_pos (show n ≥ 1 by omega), if_pos (show n ≥ 3 by omega), if_pos (show n > 3 by omega)]
    have e1 := (d1.seq d2 0 0 (N := 1) (O := 4) (K := 4) (T := 4) rfl rfl rfl rfl rfl).seq (rep ((n - 3) / 3)) 0 1
      (N := 1) (O := 4 + 3 * ((n - 3) / 3)) (K := 4 + 3 * ((n - 3) / 3)) (T := 4 + 3 * ((n - 3) / 3))
      (by omega) (by omega) (by omega) (by omega) (by omega)
    have hr : (n - 3) % 3 = 0 ∨ (n - 3) % 3 = 1 ∨ (n - 3) % 3 = 2 := by omega
    rcases hr with hr | hr | hr
    · simp only [hr]
      exact e1.seq (Eff.nil 0) 0 (4 + 3 * ((n - 3) / 3)) (by omega) (by omega) (by omega) (by omega) (by omega)
    · simp only [hr]
      exact e1.seq d1 0 (3 + 3 * ((n - 3) / 3)) (by omega) (by omega) (by omega) (by omega) (by omega)
    · simp only [hr]
      exact e1.seq d2 0 (2 + 3 * ((n - 3) / 3)) (by omega) (by omega) (by omega) (by omega) (by omega)

theorem eff_pushToStack (e n : Nat) : Eff (pushToStack e n) 0 n n n := by
  unfold pushToStack
  split
  · have d : Eff [Op.num e] 0 1 1 1 := .of_shape [.num 0] rfl (.of_scan (by decide +kernel))
    exact d.seq (eff_opNdup (n - 1)) 0 0 rfl rfl (by omega) (by omega) (by omega)
  · rw [show n = 0 by omega]
    exact Eff.nil 0

theorem eff_varLength {n : Nat} {p : List Op} (h : blake3VarLength n = some p) (h0 : 0 < n) :
    Eff p n 32 (64 * ((n + 63) / 64) + 328) (64 * ((n + 63) / 64) + 328) := by
  unfold blake3VarLength at h
  split at h
  · cases h
  · simp only [Option.bind_eq_bind, Option.bind_eq_some_iff] at h
    obtain ⟨comp, hc, h⟩ := h
    simp only [Option.some.injEq] at h
    rw [← h]
    have hb : (n + 63) / 64 = ((n + 63) / 64 - 1) + 1 := by omega
    have hle : n ≤ 64 * ((n + 63) / 64) := by omega
    generalize hB : (n + 63) / 64 - 1 = B at hb
    rw [hb] at hle ⊢
    have e1 := eff_comp hc
    have e2 := eff_varLoop e1 B n
    have e3 : Eff (u8DropXorTable ++ emitN 8 u32FromAlt) 288 32 288 288 := .of_scan (by decide +kernel)
    have e4 := e2.seq e3 256 0 (N := 64 * B + 288) (O := 32) (K := 64 * B + 288 + if B = 0 then 0 else 40)
      (T := 64 * B + 288 + if B = 0 then 0 else 40) (by omega) (by omega) (by omega) (by split <;> omega)
      (by split <;> omega)
    have e5 := e1.seq e4 (64 * B + 256) 0 (N := 64 * B + 384) (O := 32) (K := 64 * B + 392) (T := 64 * B + 392)
      (by omega) (by omega) (by omega) (by split <;> omega) (by split <;> omega)
    have e6 : ∀ x y : BitVec 32, Eff (pushWordsRev (b3IV ++ b3IV.take 4 ++ [0#32, 0#32, x, y])) 0 64 64 64 :=
      fun x y => eff_pushWordsRev _
    have e7 := (e6 (BitVec.ofNat 32 (if n < 64 then n else 64)) (if n > 64 then 0b00000001#32 else 0b00001011#32)).seq e5
      (64 * B + 320) 0 (N := 64 * B + 320) (O := 32) (K := 64 * B + 392) (T := 64 * B + 392)
      (by omega) (by omega) (by omega) (by omega) (by omega)
    have e8 := eff_table.seq e7 (64 * B + 64) 0 (N := 64 * B + 64) (O := 32) (K := 64 * B + 392) (T := 64 * B + 392)
      (by omega) (by omega) (by omega) (by omega) (by omega)
    have e9 : ∃ k, k ≤ 64 * B + 65 ∧ Eff (if (B + 1) * 64 - n ≠ 0 then
        emitN n [.num (n + ((B + 1) * 64 - n) - 1 : Nat), .roll] else []) (64 * B + 64) (64 * B + 64) k k := by
      split
      · refine ⟨64 * B + 65, by omega, ?_⟩
        have : ∀ x : Int, Eff [Op.num x, .roll] 0 0 1 1 := fun x => .of_shape [.num 0, .roll] rfl
          (.of_scan (by decide +kernel))
        exact (((this _).emitN (by omega) (by omega) h0).frame (64 * B + 64)).cast (by omega) (by omega) (by omega) (by omega)
      · exact ⟨64 * B + 64, by omega, Eff.nil _⟩
    obtain ⟨k, hk, e9⟩ := e9
    have e10 := e9.seq e8 0 0 (N := 64 * B + 64) (O := 32) (K := 64 * B + 392) (T := 64 * B + 392)
      (by omega) (by omega) (by omega) (by omega) (by omega)
    exact (eff_pushToStack 0 ((B + 1) * 64 - n)).seq e10 n 0 (by omega) (by omega) (by omega) (by omega) (by omega)

/-! ### Winternitz -/

theorem eff_checkDigit (pk : Elem) : Eff (checkDigit pk) 2 1 19 19 :=
  .of_shape (checkDigit []) rfl (.of_scan (by decide +kernel))

theorem eff_digits : ∀ (l : List Elem), 0 < l.length →
    Eff (l.map checkDigit).flatten (2 * l.length) l.length (2 * l.length + 17) (2 * l.length + 17) := by
  intro l
  induction l with
  | nil => intro h; simp at h
  | cons x l ih =>
    intro _
    rw [List.map_cons, List.flatten_cons]
    have e := eff_checkDigit x
    rcases Nat.eq_zero_or_pos l.length with h | h
    · rw [List.length_eq_zero_iff] at h
      subst h
      exact e.seq (Eff.nil 0) 0 1 rfl rfl rfl rfl rfl
    · simp only [List.length_cons]
      exact e.seq (ih h) (2 * l.length) 1 (by omega) (by omega) (by omega) (by omega) (by omega)

theorem eff_checksigVerify {pk : List Elem} {p : List Op} (h : checksigVerify pk = some p) : Eff p 20 4 37 37 := by
  simp only [checksigVerify, Option.bind_eq_bind, Option.bind_eq_some_iff] at h
  obtain ⟨parts, hp, h⟩ := h
  simp only [Option.some.injEq] at h
  rw [← h, List.append_assoc]
  have e1 : Eff (checkChecksum ++ digitsToBytes) 10 4 12 12 := .of_scan (by decide +kernel)
  obtain ⟨l, hl, rfl⟩ : ∃ l : List Elem, l.length = 10 ∧ parts = l.map checkDigit := by
    have : ∀ (r : List Nat) (parts : List (List Op)),
        (r.mapM fun i => pk[wN - 1 - i]?.bind fun x => some (checkDigit x)) = some parts →
        ∃ l : List Elem, l.length = r.length ∧ parts = l.map checkDigit := by
      intro r
      induction r with
      | nil => intro parts h; simp at h; exact ⟨[], rfl, h⟩
      | cons i r ih =>
        intro parts h
        simp only [List.mapM_cons, Option.bind_eq_bind, Option.bind_eq_some_iff] at h
        obtain ⟨x, ⟨y, -, hx⟩, xs, hxs, h⟩ := h
        obtain ⟨l, hl, rfl⟩ := ih xs hxs
        simp only [Option.some.injEq] at hx
        simp only [Option.pure_def, Option.some.injEq] at h
        exact ⟨y :: l, by simp [hl], by rw [← h, ← hx]; rfl⟩
    obtain ⟨l, h1, h2⟩ := this _ _ hp
    exact ⟨l, by rw [h1]; rfl, h2⟩
  have e2 := eff_digits l (by omega)
  rw [hl] at e2
  exact e2.seq e1 0 0 rfl rfl rfl rfl rfl

end TapStark
