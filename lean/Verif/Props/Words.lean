import Verif.Proofs.U32Arith
import Verif.Proofs.U32Xor
import Verif.Proofs.U32Rrot
import Verif.Proofs.Pseudo
import Mathlib.Tactic.Linarith

/-
Properties C01-C09: the 32-bit word scripts and the composite opcodes.

Every theorem is about `run`, the opcode interpreter, applied to the opcode list the Rust function
returns.  `⟨main, alt, []⟩` is a machine state outside any IF with the given main and alt stacks
(head = top).  `wordElems w` / `wordsElems ws` (Verif/Spec/Word.lean) show words as bytes.
The generators take depths as numbers pushed in the script, so depths are bounded by what fits a
4-byte script number; the bound used here (one million words) exceeds the 1000-element stack limit.
-/

namespace TapStark

variable (cfg : Cfg) (m a : List Elem)

/-- Closing a continuation-style lemma with the empty continuation. -/
theorem run_done {cfg : Cfg} {p : List Op} {s s' : St} (h : run cfg (p ++ []) s = run cfg [] s') :
    run cfg p s = some s' := by simpa using h

/-! ### C01 -/

/-- C01: `u32_push(v)` pushes the bytes of `v`, least significant on top. -/
theorem C01_push (v : BitVec 32) :
    run cfg (u32Push v) ⟨m, a, []⟩ = some ⟨wordElems v ++ m, a, []⟩ :=
  run_done (run_u32Push v rfl)

/-- C01: `u32_pick(n)` copies word `n` to the top. -/
theorem C01_pick (n : Nat) (ws : List (BitVec 32)) (w : BitVec 32) (hw : ws[n]? = some w)
    (hn : n < 500000000) :
    run cfg (u32Pick n) ⟨wordsElems ws ++ m, a, []⟩ = some ⟨wordsElems (w :: ws) ++ m, a, []⟩ :=
  run_done (run_u32Pick rfl hw hn)

/-- C01: `u32_roll(n)` moves word `n` to the top. -/
theorem C01_roll (n : Nat) (ws : List (BitVec 32)) (w : BitVec 32) (hw : ws[n]? = some w)
    (hn : n < 500000000) :
    run cfg (u32Roll n) ⟨wordsElems ws ++ m, a, []⟩ =
      some ⟨wordsElems (w :: ws.eraseIdx n) ++ m, a, []⟩ :=
  run_done (run_u32Roll rfl hw hn)

/-- C01: `u32_dup` duplicates the top word. -/
theorem C01_dup (w : BitVec 32) :
    run cfg u32Dup ⟨wordElems w ++ m, a, []⟩ = some ⟨wordElems w ++ wordElems w ++ m, a, []⟩ :=
  run_done (run_u32Dup w rfl)

/-- C01: `u32_drop` removes the top word. -/
theorem C01_drop (w : BitVec 32) :
    run cfg u32Drop ⟨wordElems w ++ m, a, []⟩ = some ⟨m, a, []⟩ :=
  run_done (run_u32Drop w rfl)

/-- C01: `u32_toaltstack` removes the top word and `u32_fromaltstack` brings it back; the alt stack
in between is the old alt stack with four elements above it. -/
theorem C01_alt (w : BitVec 32) :
    ∃ t : List Elem, t.length = 4 ∧
      run cfg u32ToAlt ⟨wordElems w ++ m, a, []⟩ = some ⟨m, t ++ a, []⟩ ∧
      ∀ m', run cfg u32FromAlt ⟨m', t ++ a, []⟩ = some ⟨wordElems w ++ m', a, []⟩ :=
  ⟨(wordElems w).reverse, rfl, run_done (run_u32ToAlt w rfl), fun _ => run_done (run_u32FromAlt w rfl)⟩

example : ([7#32, 9#32] : List (BitVec 32))[1]? = some 9#32 ∧ 1 < 500000000 := by decide

/-! ### C02 -/

/-- C02: `u32_add(i, j)` exists for distinct depths, keeps word `i`, consumes word `j` and leaves
the sum modulo 2^32 on top. -/
theorem C02_add (i j : Nat) (ws : List (BitVec 32)) (x y : BitVec 32) (hij : i ≠ j)
    (hx : ws[i]? = some x) (hy : ws[j]? = some y) (hi : i < 500000000) (hj : j < 500000000) :
    ∃ p, u32Add i j = some p ∧
      run cfg p ⟨wordsElems ws ++ m, a, []⟩ =
        some ⟨wordElems (BitVec.ofNat 32 (x.toNat + y.toNat)) ++ wordsElems (ws.eraseIdx j) ++ m,
          a, []⟩ := by
  have hex : ∃ p, u32Add i j = some p := by
    unfold u32Add u32CopyZip
    rw [if_neg hij]
    rcases Nat.lt_or_gt_of_ne hij with h | h
    · rw [if_pos h]; exact ⟨_, rfl⟩
    · rw [if_neg (by omega), if_pos h]; exact ⟨_, rfl⟩
  obtain ⟨p, hp⟩ := hex
  refine ⟨p, hp, ?_⟩
  rw [BitVec.ofNat_add, BitVec.ofNat_toNat, BitVec.ofNat_toNat, BitVec.setWidth_eq,
    BitVec.setWidth_eq]
  have := run_done (run_u32Add (cfg := cfg) (m := m) (a := a) (c := []) rfl hp hx hy hi hj)
  simpa using this

/-- C02: `u32_add_drop(i, j)` consumes both words. -/
theorem C02_add_drop (i j : Nat) (ws : List (BitVec 32)) (x y : BitVec 32) (hij : i ≠ j)
    (hx : ws[i]? = some x) (hy : ws[j]? = some y) (hi : i < 500000000) (hj : j < 500000000) :
    ∃ p, u32AddDrop i j = some p ∧
      run cfg p ⟨wordsElems ws ++ m, a, []⟩ =
        some ⟨wordElems (BitVec.ofNat 32 (x.toNat + y.toNat)) ++
          wordsElems ((ws.eraseIdx (max i j)).eraseIdx (min i j)) ++ m, a, []⟩ := by
  have hp : u32AddDrop i j = some (u32Zip i j ++ u32AddTail) := by
    unfold u32AddDrop; rw [if_neg hij]
  refine ⟨_, hp, ?_⟩
  rw [BitVec.ofNat_add, BitVec.ofNat_toNat, BitVec.ofNat_toNat, BitVec.setWidth_eq,
    BitVec.setWidth_eq]
  have := run_done (run_u32AddDrop (cfg := cfg) (m := m) (a := a) (c := []) rfl hp hx hy hi hj)
  simpa using this

/-- Concrete instance with a carry through all four bytes. -/
example : ∃ p, u32Add 0 1 = some p ∧
    run cfg p ⟨wordsElems [0xffffffff#32, 1#32] ++ m, a, []⟩ =
      some ⟨wordElems 0#32 ++ wordElems 0xffffffff#32 ++ m, a, []⟩ := by
  have := C02_add cfg m a 0 1 [0xffffffff#32, 1#32] _ _ (by decide) rfl rfl (by decide) (by decide)
  simpa [wordsElems] using this

/-- C02: equal depths are refused by the generators (`assert_ne!`). -/
theorem C02_same_depth (i : Nat) : u32Add i i = none ∧ u32AddDrop i i = none := by
  simp [u32Add, u32AddDrop]

/-! ### C03 -/

/-- C03: with the table pushed by `u8_push_xor_table` under exactly `ws`, `u32_xor(i, j, S)` for
`S = |ws| + 1` leaves the bitwise xor on top, keeps word `i`, consumes word `j`, and the table can
then be dropped, restoring what was below. -/
theorem C03_xor (i j : Nat) (ws : List (BitVec 32)) (x y : BitVec 32) (hij : i ≠ j)
    (hx : ws[i]? = some x) (hy : ws[j]? = some y) (hlen : ws.length < 500000000) :
    ∃ p table, u32Xor i j (ws.length + 1) = some p ∧ table.length = 256 ∧
      run cfg u8PushXorTable ⟨m, a, []⟩ = some ⟨table ++ m, a, []⟩ ∧
      run cfg p ⟨wordsElems ws ++ (table ++ m), a, []⟩ =
        some ⟨wordElems (x ^^^ y) ++ wordsElems (ws.eraseIdx j) ++ (table ++ m), a, []⟩ ∧
      run cfg u8DropXorTable ⟨table ++ m, a, []⟩ = some ⟨m, a, []⟩ := by
  have hi : i < ws.length := by
    rcases Nat.lt_or_ge i ws.length with h | h
    · exact h
    · simp [h] at hx
  have hex : ∃ p, u32Xor i j (ws.length + 1) = some p := by
    unfold u32Xor u32CopyZip
    rw [if_neg (by omega)]
    rcases Nat.lt_or_gt_of_ne hij with h | h
    · rw [if_pos h]; exact ⟨_, rfl⟩
    · rw [if_neg (by omega), if_pos h]; exact ⟨_, rfl⟩
  obtain ⟨p, hp⟩ := hex
  refine ⟨p, xorTable, hp, xorTable_length, run_done (run_u8PushXorTable rfl), ?_,
    run_done (run_u8DropXorTable rfl)⟩
  have := run_done (run_u32Xor (cfg := cfg) (m := m) (a := a) (c := []) rfl hp hx hy rfl hlen)
  simpa using this

example : ∃ p table, u32Xor 1 0 4 = some p ∧ table.length = 256 ∧
    run cfg u8PushXorTable ⟨m, a, []⟩ = some ⟨table ++ m, a, []⟩ ∧
    run cfg p ⟨wordsElems [0xffff0000#32, 0x0ff00ff0#32, 5#32] ++ (table ++ m), a, []⟩ =
      some ⟨wordElems (0xf00f0ff0#32) ++ wordsElems [0x0ff00ff0#32, 5#32] ++ (table ++ m), a, []⟩ ∧
    run cfg u8DropXorTable ⟨table ++ m, a, []⟩ = some ⟨m, a, []⟩ :=
  C03_xor cfg m a 1 0 [0xffff0000#32, 0x0ff00ff0#32, 5#32] _ _ (by decide) rfl rfl (by decide)

/-! ### C04 -/

/-- C04: `u32_rrot(n)` rotates the top word right by `n` for every `n < 32`. -/
theorem C04_rrot (n : Nat) (hn : n < 32) (w : BitVec 32) :
    ∃ p, u32Rrot n = some p ∧
      run cfg p ⟨wordElems w ++ m, a, []⟩ = some ⟨wordElems (w.rotateRight n) ++ m, a, []⟩ := by
  have hex : ∃ p, u32Rrot n = some p := by
    have : ∀ n < 32, (u32Rrot n).isSome = true := by decide +kernel
    exact Option.isSome_iff_exists.mp (this n hn)
  obtain ⟨p, hp⟩ := hex
  exact ⟨p, hp, run_done (run_u32Rrot w hp rfl)⟩

example : (0x87654321#32).rotateRight 20 = 0x54321876#32 := by decide

/-- C04: other amounts are refused by the generator. -/
theorem C04_rrot_range (n : Nat) (hn : 32 ≤ n) : u32Rrot n = none := by
  unfold u32Rrot; rw [if_pos (by omega)]

/-! ### C05 -/

/-- C05: `u32_equal` leaves the truth value of word equality. -/
theorem C05_equal (v w : BitVec 32) :
    run cfg u32Equal ⟨wordElems v ++ wordElems w ++ m, a, []⟩ =
      some ⟨(if v = w then num 1 else num 0) :: m, a, []⟩ := by
  have := run_done (run_u32Equal (cfg := cfg) (m := m) (a := a) (c := []) v w rfl)
  rw [this]
  by_cases h : v = w <;> simp [h, ofBool]

/-- C05: `u32_notequal` leaves the opposite. -/
theorem C05_notequal (v w : BitVec 32) :
    run cfg u32Notequal ⟨wordElems v ++ wordElems w ++ m, a, []⟩ =
      some ⟨(if v = w then num 0 else num 1) :: m, a, []⟩ := by
  have := run_done (run_u32Notequal (cfg := cfg) (m := m) (a := a) (c := []) v w rfl)
  rw [this]
  by_cases h : v = w <;> simp [h, ofBool]

/-- C05: `u32_equalverify` succeeds exactly on equal words. -/
theorem C05_equalverify (v w : BitVec 32) :
    run cfg u32Equalverify ⟨wordElems v ++ wordElems w ++ m, a, []⟩ =
      if v = w then some ⟨m, a, []⟩ else none := by
  have := run_u32Equalverify (cfg := cfg) (ops := []) (m := m) (a := a) (c := []) v w rfl
  simpa using this

/-! ### C06 -/

/-- C06 (partial): words below 2^31 compress to their own value.  Missing: injectivity on all
words, which the code violates (`C06_compress_collision`). -/
theorem C06_compress_partial (w : BitVec 32) (hw : w.toNat < 2 ^ 31) :
    run cfg u32Compress ⟨wordElems w ++ m, a, []⟩ = some ⟨num w.toNat :: m, a, []⟩ := by
  have := run_done (run_u32Compress (cfg := cfg) (m := m) (a := a) (c := []) w rfl)
  rw [this, signMag, if_pos (by omega)]

/-- What the script computes on every word: sign bit and 31-bit magnitude. -/
theorem C06_compress_general (w : BitVec 32) :
    run cfg u32Compress ⟨wordElems w ++ m, a, []⟩ =
      some ⟨num (if w.toNat < 2 ^ 31 then (w.toNat : Int) else 2 ^ 31 - w.toNat) :: m, a, []⟩ := by
  have := run_done (run_u32Compress (cfg := cfg) (m := m) (a := a) (c := []) w rfl)
  rw [this, signMag]
  congr 3
  rw [num_inj]
  simp only [Nat.reducePow, Int.reducePow]
  split <;> omega

/-- C06 is violated: two different words compress to the same stack element. -/
theorem C06_compress_collision :
    ∃ v w : BitVec 32, v ≠ w ∧ ∀ cfg m a,
      run cfg u32Compress ⟨wordElems v ++ m, a, []⟩ =
      run cfg u32Compress ⟨wordElems w ++ m, a, []⟩ := by
  refine ⟨0#32, 0x80000000#32, by decide, fun cfg m a => ?_⟩
  rw [C06_compress_general, C06_compress_general]
  rfl

/-- The collision is the only one: apart from it compression is injective. -/
theorem C06_compress_injective_partial (v w : BitVec 32) (hv : v ≠ 0x80000000#32)
    (hw : w ≠ 0x80000000#32)
    (h : run cfg u32Compress ⟨wordElems v ++ m, a, []⟩ =
      run cfg u32Compress ⟨wordElems w ++ m, a, []⟩) : v = w := by
  rw [C06_compress_general, C06_compress_general] at h
  simp only [Option.some.injEq, St.mk.injEq, List.cons.injEq, num_inj, and_true] at h
  have hv' : v.toNat ≠ 2 ^ 31 := fun e => hv (BitVec.eq_of_toNat_eq (by simpa using e))
  have hw' : w.toNat ≠ 2 ^ 31 := fun e => hw (BitVec.eq_of_toNat_eq (by simpa using e))
  have hv2 := v.isLt
  have hw2 := w.isLt
  apply BitVec.eq_of_toNat_eq
  simp only [Nat.reducePow, Int.reducePow] at *
  split at h <;> split at h <;> omega

/-! ### C07 -/

/-- C07: `OP_4PICK` with depth `n` on the stack copies the block at depth `n`. -/
theorem C07_pick (n : Nat) (pre : List Elem) (x0 x1 x2 x3 : Elem) (post : List Elem)
    (hp : pre.length = n) (hn : n + 4 < 2 ^ 31) :
    run cfg op4pick ⟨num n :: (pre ++ [x0, x1, x2, x3] ++ post), a, []⟩ =
      some ⟨[x0, x1, x2, x3] ++ pre ++ [x0, x1, x2, x3] ++ post, a, []⟩ := by
  have := run_done (run_op4pick (cfg := cfg) (a := a) (c := []) pre x0 x1 x2 x3 post rfl hp hn)
  simpa using this

/-- C07: `OP_4ROLL` moves it. -/
theorem C07_roll (n : Nat) (pre : List Elem) (x0 x1 x2 x3 : Elem) (post : List Elem)
    (hp : pre.length = n) (hn : n + 4 < 2 ^ 31) :
    run cfg op4roll ⟨num n :: (pre ++ [x0, x1, x2, x3] ++ post), a, []⟩ =
      some ⟨[x0, x1, x2, x3] ++ pre ++ post, a, []⟩ := by
  have := run_done (run_op4roll (cfg := cfg) (a := a) (c := []) pre x0 x1 x2 x3 post rfl hp hn)
  simpa using this

example : ([num 1, num 2] : List Elem).length = 2 ∧ 2 + 4 < 2 ^ 31 := by decide

/-- C07: duplicate, drop and swap of blocks. -/
theorem C07_dup_drop_swap (x0 x1 x2 x3 y0 y1 y2 y3 : Elem) :
    run cfg op4dup ⟨[x0, x1, x2, x3] ++ m, a, []⟩ =
      some ⟨[x0, x1, x2, x3] ++ [x0, x1, x2, x3] ++ m, a, []⟩ ∧
    run cfg op4drop ⟨[x0, x1, x2, x3] ++ m, a, []⟩ = some ⟨m, a, []⟩ ∧
    run cfg op4swap ⟨[x0, x1, x2, x3] ++ [y0, y1, y2, y3] ++ m, a, []⟩ =
      some ⟨[y0, y1, y2, y3] ++ [x0, x1, x2, x3] ++ m, a, []⟩ :=
  ⟨run_done (run_op4dup rfl), run_done (run_op4drop rfl), run_done (run_op4swap rfl)⟩

/-- C07: a block moved to the alt stack comes back in the same order. -/
theorem C07_alt (x0 x1 x2 x3 : Elem) (m' : List Elem) :
    run cfg op4toAlt ⟨[x0, x1, x2, x3] ++ m, a, []⟩ = some ⟨m, [x3, x2, x1, x0] ++ a, []⟩ ∧
    run cfg op4fromAlt ⟨m', [x3, x2, x1, x0] ++ a, []⟩ = some ⟨[x0, x1, x2, x3] ++ m', a, []⟩ :=
  ⟨run_done (run_op4toAlt rfl), run_done (run_op4fromAlt rfl)⟩

/-! ### C08 -/

/-- C08: `OP_NDUP(n)` adds exactly `n` copies of the top element. -/
theorem C08_ndup (n : Nat) (x : Elem) :
    run cfg (opNdup n) ⟨x :: m, a, []⟩ = some ⟨List.replicate n x ++ x :: m, a, []⟩ :=
  run_done (run_opNdup n x rfl)

/-- C08: `push_to_stack(e, n)` pushes exactly `n` copies. -/
theorem C08_push_to_stack (e n : Nat) :
    run cfg (pushToStack e n) ⟨m, a, []⟩ = some ⟨List.replicate n (num e) ++ m, a, []⟩ :=
  run_done (run_pushToStack e n rfl)

/-! ### C09 -/

/-- C09: `op_2k_mul(k)` multiplies by `2^k` when every doubled operand fits a 4-byte number, and
fails otherwise. -/
theorem C09_mul_pow (k : Nat) (x : Int) :
    ((∀ i, i < k → -(2 ^ 31) < 2 ^ i * x ∧ 2 ^ i * x < 2 ^ 31) →
      run cfg (op2kmul k) ⟨num x :: m, a, []⟩ = some ⟨num (2 ^ k * x) :: m, a, []⟩) ∧
    ((∃ i, i < k ∧ ¬ (-(2 ^ 31) < 2 ^ i * x ∧ 2 ^ i * x < 2 ^ 31)) →
      run cfg (op2kmul k) ⟨num x :: m, a, []⟩ = none) := by
  constructor
  · intro h
    exact run_done (run_op2kmul k x rfl h)
  · intro h
    have := run_op2kmul_out (cfg := cfg) (ops := []) (m := m) (a := a) (c := []) k x rfl h
    simpa using this

/-- C09: the fixed multipliers multiply exactly the arguments all of whose doublings are of four bytes, and fail on all
others. -/
theorem C09_mul_fixed (x : Int) :
    run cfg op2mul ⟨num x :: m, a, []⟩ =
      (if -(2 ^ 31) < x ∧ x < 2 ^ 31 then some ⟨num (2 * x) :: m, a, []⟩ else none) ∧
    run cfg op4mul ⟨num x :: m, a, []⟩ =
      (if -(2 ^ 30) < x ∧ x < 2 ^ 30 then some ⟨num (4 * x) :: m, a, []⟩ else none) ∧
    run cfg op16mul ⟨num x :: m, a, []⟩ =
      (if -(2 ^ 28) < x ∧ x < 2 ^ 28 then some ⟨num (16 * x) :: m, a, []⟩ else none) ∧
    run cfg op256mul ⟨num x :: m, a, []⟩ =
      (if -(2 ^ 24) < x ∧ x < 2 ^ 24 then some ⟨num (256 * x) :: m, a, []⟩ else none) := by
  have key : ∀ (k : Nat) (hk : k + 1 ≤ 31), run cfg (op2kmul (k + 1)) ⟨num x :: m, a, []⟩ =
      if -(2 ^ (31 - k)) < x ∧ x < 2 ^ (31 - k) then some ⟨num (2 ^ (k + 1) * x) :: m, a, []⟩ else none := by
    intro k hk
    obtain ⟨h1, h2⟩ := C09_mul_pow cfg m a (k + 1) x
    have hp : ∀ i : Nat, (0 : Int) < 2 ^ i := fun i => Int.pow_pos (by decide)
    have hsplit : (2 : Int) ^ 31 = 2 ^ k * 2 ^ (31 - k) := by rw [← Int.pow_add]; congr 1; omega
    split
    · next hx =>
      refine h1 fun i hi => ?_
      have hle : (2 : Int) ^ i ≤ 2 ^ k := by
        obtain ⟨j, rfl⟩ : ∃ j, k = i + j := ⟨k - i, by omega⟩
        rw [Int.pow_add]
        have := hp j
        have := hp i
        nlinarith
      have := hp i
      have := hp (31 - k)
      rw [hsplit]
      constructor <;> nlinarith [mul_le_mul_of_nonneg_right hle (hp (31 - k)).le]
    · next hx =>
      refine h2 ⟨k, by omega, fun hc => hx ?_⟩
      rw [hsplit] at hc
      have := hp k
      constructor
      · by_contra hcon
        nlinarith
      · by_contra hcon
        nlinarith
  exact ⟨key 0 (by decide), key 1 (by decide), key 3 (by decide), key 7 (by decide)⟩

example : (-(2 ^ 24) < (16777215 : Int) ∧ (16777215 : Int) < 2 ^ 24) := by decide

end TapStark
