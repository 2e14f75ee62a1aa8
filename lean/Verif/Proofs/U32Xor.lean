import Verif.Proofs.U32Arith
import Verif.Proofs.XorTable

namespace TapStark

variable {cfg : Cfg} {ops : List Op} {m a : List Elem} {c : List Bool}

theorem run_u8Xor {i j : Nat} {r : List Elem} {x y : Nat} (h : live c = true)
    (htab : ∀ t, t < 256 → r[j + t]? = some (num (xorTab t : Nat))) (hi : i = j + 2)
    (hj : j < 2100000000) (hx : x < 256) (hy : y < 256) :
    run cfg (u8Xor i ++ ops) ⟨num y :: num x :: r, a, c⟩ =
      run cfg ops ⟨num (x ^^^ y : Nat) :: r, a, c⟩ := by
  have hc := xorCheck_of hx hy
  simp only [xorCheck, Bool.and_eq_true, Nat.ble_eq, Nat.blt_eq, Nat.beq_eq] at hc
  obtain ⟨⟨⟨⟨⟨h1, h2⟩, h3⟩, hs⟩, ht⟩, hres⟩ := hc
  have hy2 := xorTab_le hy
  have tx := htab x hx
  have ty := htab y hy
  have ts := htab _ hs
  have tt := htab _ ht
  rw [← hres]
  generalize xorTab x = fx at *
  generalize xorTab y = fy at *
  generalize hfs : xorTab (fx + fy) = fs at *
  generalize hft : xorTab (x - 2 * fx + (y - 2 * fy)) = ft at *
  subst hi
  unfold u8Xor
  simp only [List.cons_append, List.nil_append]
  sexecnp []
  rw [run_pick_some (k := y + j + 2) (x := num fy) h (by omega)
      (by simp only [List.getElem?_cons_succ]; rw [← ty]; congr 1; omega) (by omega)]
  sexecnp []
  rw [run_pick_some (k := x + j + 3) (x := num fx) h (by omega)
      (by simp only [List.getElem?_cons_succ]; rw [← tx]; congr 1; omega) (by omega)]
  sexecnp []
  rw [run_pick_some (k := fx + fy + j + 3) (x := num fs) h (by omega)
      (by simp only [List.getElem?_cons_succ]; rw [← ts]; congr 1; omega) (by omega)]
  sexecnp []
  rw [run_pick_some (k := (x - 2 * fx + (y - 2 * fy)) + j + 2) (x := num ft) h (by omega)
      (by simp only [List.getElem?_cons_succ]; rw [← tt]; congr 1; omega) (by omega)]
  sexecnp []
  congr 3
  rw [num_inj]
  omega

/-- The table as pushed by `u8_push_xor_table`: entry 0 on top. -/
def xorTable : List Elem := (List.range 256).map fun t => num (xorTab t : Nat)

theorem xorTable_length : xorTable.length = 256 := by simp [xorTable]

theorem xorTable_get {t : Nat} (ht : t < 256) : xorTable[t]? = some (num (xorTab t : Nat)) := by
  simp [xorTable, ht]

/-- One row of the table script. -/
def xorRowOps (p q r s : Int) : List Op :=
  [.num p, .dup, .num q, .dup, .over2, .over2, .num r, .dup, .num s, .dup, .over2, .over2]

/-- What one row pushes. -/
def xorRowElems (p q r s : Int) : List Elem :=
  [num s, num s, num r, num r, num s, num s, num r, num r,
   num q, num q, num p, num p, num q, num q, num p, num p]

theorem run_xorRow {p q r s : Int} (h : live c = true) :
    run cfg (xorRowOps p q r s ++ ops) ⟨m, a, c⟩ =
    run cfg ops ⟨xorRowElems p q r s ++ m, a, c⟩ := by
  unfold xorRowOps xorRowElems
  sexec

theorem u8PushXorTable_rows : u8PushXorTable =
    xorRowOps 85 84 81 80 ++
    xorRowOps 85 84 81 80 ++
    xorRowOps 69 68 65 64 ++
    xorRowOps 69 68 65 64 ++
    xorRowOps 85 84 81 80 ++
    xorRowOps 85 84 81 80 ++
    xorRowOps 69 68 65 64 ++
    xorRowOps 69 68 65 64 ++
    xorRowOps 21 20 17 16 ++
    xorRowOps 21 20 17 16 ++
    xorRowOps 5 4 1 0 ++
    xorRowOps 5 4 1 0 ++
    xorRowOps 21 20 17 16 ++
    xorRowOps 21 20 17 16 ++
    xorRowOps 5 4 1 0 ++
    xorRowOps 5 4 1 0 := by
  decide +kernel

theorem xorTable_rows : xorTable =
    xorRowElems 5 4 1 0 ++
    xorRowElems 5 4 1 0 ++
    xorRowElems 21 20 17 16 ++
    xorRowElems 21 20 17 16 ++
    xorRowElems 5 4 1 0 ++
    xorRowElems 5 4 1 0 ++
    xorRowElems 21 20 17 16 ++
    xorRowElems 21 20 17 16 ++
    xorRowElems 69 68 65 64 ++
    xorRowElems 69 68 65 64 ++
    xorRowElems 85 84 81 80 ++
    xorRowElems 85 84 81 80 ++
    xorRowElems 69 68 65 64 ++
    xorRowElems 69 68 65 64 ++
    xorRowElems 85 84 81 80 ++
    xorRowElems 85 84 81 80 := by
  decide +kernel

theorem run_u8PushXorTable (h : live c = true) :
    run cfg (u8PushXorTable ++ ops) ⟨m, a, c⟩ = run cfg ops ⟨xorTable ++ m, a, c⟩ := by
  rw [u8PushXorTable_rows, xorTable_rows]
  simp only [List.append_assoc]
  iterate 16 rw [run_xorRow h]

theorem run_emitN_drop2 (n : Nat) (t : List Elem) (ht : t.length = 2 * n) (h : live c = true) :
    run cfg (emitN n [.drop2] ++ ops) ⟨t ++ m, a, c⟩ = run cfg ops ⟨m, a, c⟩ := by
  induction n generalizing t with
  | zero =>
    obtain rfl : t = [] := List.length_eq_zero_iff.mp (by omega)
    rfl
  | succ n ih =>
    match t, ht with
    | x :: y :: t, ht =>
      have : emitN (n + 1) [Op.drop2] = .drop2 :: emitN n [.drop2] := by
        simp [emitN, List.replicate_succ]
      rw [this]
      simp only [List.cons_append]
      rw [run_drop2 _ _ h]
      exact ih t (by simp at ht; omega)

theorem run_u8DropXorTable (h : live c = true) :
    run cfg (u8DropXorTable ++ ops) ⟨xorTable ++ m, a, c⟩ = run cfg ops ⟨m, a, c⟩ :=
  run_emitN_drop2 128 xorTable (by rw [xorTable_length]) h

/-! ### Word xor -/

theorem byteOf_xor (x y : BitVec 32) (i : Nat) : byteOf (x ^^^ y) i = byteOf x i ^^^ byteOf y i := by
  simp only [byteOf, BitVec.toNat_xor]
  rw [show (256 : Nat) = 2 ^ 8 from rfl, ← Nat.pow_mul, Nat.xor_div_two_pow, Nat.xor_mod_two_pow]

theorem run_u32XorTail {n : Nat} (x y : BitVec 32) (r : List Elem) (h : live c = true) (hn : n < 500000000)
    (htab : ∀ t, t < 256 → r[4 * n + t]? = some (num (xorTab t : Nat))) :
    run cfg (u32XorTail (n + 2) ++ ops) ⟨zipped y x ++ r, a, c⟩ =
      run cfg ops ⟨wordElems (x ^^^ y) ++ r, a, c⟩ := by
  have x0 := byteOf_lt x 0; have x1 := byteOf_lt x 1
  have x2 := byteOf_lt x 2; have x3 := byteOf_lt x 3
  have y0 := byteOf_lt y 0; have y1 := byteOf_lt y 1
  have y2 := byteOf_lt y 2; have y3 := byteOf_lt y 3
  unfold u32XorTail
  simp only [wordElems, byteOf_xor, zipped, List.cons_append, List.nil_append, List.append_assoc]
  rw [run_u8Xor (j := 4 * n + 6) h (fun t ht => by
    simp only [← htab t ht, show 4 * n + 6 + t = 4 * n + t + 1 + 1 + 1 + 1 + 1 + 1 by omega,
      List.getElem?_cons_succ]) (by omega) (by omega) x0 y0, run_toAlt _ h]
  rw [run_u8Xor (j := 4 * n + 4) h (fun t ht => by
    simp only [← htab t ht, show 4 * n + 4 + t = 4 * n + t + 1 + 1 + 1 + 1 by omega,
      List.getElem?_cons_succ]) (by omega) (by omega) x1 y1, run_toAlt _ h]
  rw [run_u8Xor (j := 4 * n + 2) h (fun t ht => by
    simp only [← htab t ht, show 4 * n + 2 + t = 4 * n + t + 1 + 1 by omega,
      List.getElem?_cons_succ]) (by omega) (by omega) x2 y2, run_toAlt _ h]
  rw [run_u8Xor (j := 4 * n) h (fun t ht => htab t ht) (by omega) (by omega) x3 y3]
  sexec

/-- Word-level effect of `u32_xor(i, j, S)` with the table below `S - 1` words. -/
theorem run_u32Xor {i j S : Nat} {ws : List (BitVec 32)} {x y : BitVec 32} {p : List Op}
    (h : live c = true) (hg : u32Xor i j S = some p) (hx : ws[i]? = some x)
    (hy : ws[j]? = some y) (hS : ws.length + 1 = S) (hlen : ws.length < 500000000) :
    run cfg (p ++ ops) ⟨wordsElems ws ++ (xorTable ++ m), a, c⟩ =
      run cfg ops ⟨wordsElems ((x ^^^ y) :: ws.eraseIdx j) ++ (xorTable ++ m), a, c⟩ := by
  unfold u32Xor at hg
  have hi : i < ws.length := by
    rcases Nat.lt_or_ge i ws.length with h | h
    · exact h
    · simp [h] at hx
  have hj : j < ws.length := by
    rcases Nat.lt_or_ge j ws.length with h | h
    · exact h
    · simp [h] at hy
  by_cases hij : i = j ∨ S < 2
  · rw [if_pos hij] at hg; exact absurd hg (by simp)
  · rw [if_neg hij] at hg
    obtain ⟨q, hq, rfl⟩ := Option.map_eq_some_iff.mp hg
    obtain ⟨n, rfl⟩ : ∃ n, S = n + 2 := ⟨S - 2, by omega⟩
    have htab : ∀ t, t < 256 → (wordsElems (ws.eraseIdx j) ++ (xorTable ++ m))[4 * n + t]? =
        some (num (xorTab t : Nat)) := by
      intro t ht
      have hl : (wordsElems (ws.eraseIdx j)).length = 4 * n := by
        rw [wordsElems_length, List.length_eraseIdx_of_lt hj]; omega
      rw [List.getElem?_append_right (by omega), hl, show 4 * n + t - 4 * n = t by omega,
        List.getElem?_append_left (by rw [xorTable_length]; exact ht), xorTable_get ht]
    rw [List.append_assoc, run_u32CopyZip h hq hx hy (by omega) (by omega)]
    by_cases hlt : i < j
    · rw [if_pos hlt, run_u32XorTail x y _ h (by omega) htab]; simp
    · rw [if_neg hlt, run_u32XorTail y x _ h (by omega) htab, BitVec.xor_comm]; simp

end TapStark
