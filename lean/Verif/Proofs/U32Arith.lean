import Verif.Proofs.U32Std

namespace TapStark

variable {cfg : Cfg} {ops : List Op} {m a : List Elem} {c : List Bool}

/-! ### Zipping two words -/

theorem run_u32CopyZipLt {i j : Nat} (pre mid post : List Elem)
    (x0 x1 x2 x3 y0 y1 y2 y3 : Elem) (h : live c = true) (hp : pre.length = 4 * i)
    (hm : mid.length + 4 * i + 4 = 4 * j) (hj : j < 500000000) :
    run cfg (u32CopyZipLt i j ++ ops)
      ⟨pre ++ x0 :: x1 :: x2 :: x3 :: (mid ++ y0 :: y1 :: y2 :: y3 :: post), a, c⟩ =
    run cfg ops ⟨y0 :: x0 :: y1 :: x1 :: y2 :: x2 :: y3 :: x3 ::
      (pre ++ x0 :: x1 :: x2 :: x3 :: (mid ++ post)), a, c⟩ := by
  unfold u32CopyZipLt
  simp only [List.cons_append, List.nil_append]
  rw [run_pick_at (pre ++ [x0, x1, x2]) x3 (mid ++ y0 :: y1 :: y2 :: y3 :: post) _ h
    (by simp) rfl (by simp; omega) (by omega)]
  rw [run_roll_at (x3 :: pre ++ [x0, x1, x2, x3] ++ mid ++ [y0, y1, y2]) y3 post _ h
    (by simp) rfl (by simp; omega) (by omega)]
  rw [run_pick_at (y3 :: x3 :: pre ++ [x0, x1]) x2 (x3 :: mid ++ y0 :: y1 :: y2 :: post) _ h
    (by simp) rfl (by simp; omega) (by omega)]
  rw [run_roll_at (x2 :: y3 :: x3 :: pre ++ [x0, x1, x2, x3] ++ mid ++ [y0, y1]) y2 post _ h
    (by simp) rfl (by simp; omega) (by omega)]
  rw [run_pick_at (y2 :: x2 :: y3 :: x3 :: pre ++ [x0]) x1 (x2 :: x3 :: mid ++ y0 :: y1 :: post) _ h
    (by simp) rfl (by simp; omega) (by omega)]
  rw [run_roll_at (x1 :: y2 :: x2 :: y3 :: x3 :: pre ++ [x0, x1, x2, x3] ++ mid ++ [y0]) y1 post _ h
    (by simp) rfl (by simp; omega) (by omega)]
  rw [run_pick_at (y1 :: x1 :: y2 :: x2 :: y3 :: x3 :: pre) x0 (x1 :: x2 :: x3 :: mid ++ y0 :: post) _ h
    (by simp) rfl (by simp; omega) (by omega)]
  rw [run_roll_at (x0 :: y1 :: x1 :: y2 :: x2 :: y3 :: x3 :: pre ++ [x0, x1, x2, x3] ++ mid) y0 post _ h
    (by simp) rfl (by simp; omega) (by omega)]
  simp

theorem run_u32ZipCopyLt {i j : Nat} (pre mid post : List Elem)
    (x0 x1 x2 x3 y0 y1 y2 y3 : Elem) (h : live c = true) (hp : pre.length = 4 * i)
    (hm : mid.length + 4 * i + 4 = 4 * j) (hj : j < 500000000) :
    run cfg (u32ZipCopyLt i j ++ ops)
      ⟨pre ++ x0 :: x1 :: x2 :: x3 :: (mid ++ y0 :: y1 :: y2 :: y3 :: post), a, c⟩ =
    run cfg ops ⟨y0 :: x0 :: y1 :: x1 :: y2 :: x2 :: y3 :: x3 ::
      (pre ++ (mid ++ y0 :: y1 :: y2 :: y3 :: post)), a, c⟩ := by
  unfold u32ZipCopyLt
  simp only [List.cons_append, List.nil_append]
  rw [run_roll_at (pre ++ [x0, x1, x2]) x3 (mid ++ y0 :: y1 :: y2 :: y3 :: post) _ h
    (by simp) rfl (by simp; omega) (by omega)]
  rw [run_pick_at (x3 :: pre ++ [x0, x1, x2] ++ mid ++ [y0, y1, y2]) y3 post _ h
    (by simp) rfl (by simp; omega) (by omega)]
  rw [run_roll_at (y3 :: x3 :: pre ++ [x0, x1]) x2 (mid ++ y0 :: y1 :: y2 :: y3 :: post) _ h
    (by simp) rfl (by simp; omega) (by omega)]
  rw [run_pick_at (x2 :: y3 :: x3 :: pre ++ [x0, x1] ++ mid ++ [y0, y1]) y2 (y3 :: post) _ h
    (by simp) rfl (by simp; omega) (by omega)]
  rw [run_roll_at (y2 :: x2 :: y3 :: x3 :: pre ++ [x0]) x1 (mid ++ y0 :: y1 :: y2 :: y3 :: post) _ h
    (by simp) rfl (by simp; omega) (by omega)]
  rw [run_pick_at (x1 :: y2 :: x2 :: y3 :: x3 :: pre ++ [x0] ++ mid ++ [y0]) y1 (y2 :: y3 :: post) _ h
    (by simp) rfl (by simp; omega) (by omega)]
  rw [run_roll_at (y1 :: x1 :: y2 :: x2 :: y3 :: x3 :: pre) x0 (mid ++ y0 :: y1 :: y2 :: y3 :: post) _ h
    (by simp) rfl (by simp; omega) (by omega)]
  rw [run_pick_at (x0 :: y1 :: x1 :: y2 :: x2 :: y3 :: x3 :: pre ++ mid) y0 (y1 :: y2 :: y3 :: post) _ h
    (by simp) rfl (by simp; omega) (by omega)]
  simp

theorem run_u32ZipLt {i j : Nat} (pre mid post : List Elem)
    (x0 x1 x2 x3 y0 y1 y2 y3 : Elem) (h : live c = true) (hp : pre.length = 4 * i)
    (hm : mid.length + 4 * i + 4 = 4 * j) (hj : j < 500000000) :
    run cfg (u32Zip i j ++ ops)
      ⟨pre ++ x0 :: x1 :: x2 :: x3 :: (mid ++ y0 :: y1 :: y2 :: y3 :: post), a, c⟩ =
    run cfg ops ⟨y0 :: x0 :: y1 :: x1 :: y2 :: x2 :: y3 :: x3 ::
      (pre ++ (mid ++ post)), a, c⟩ := by
  unfold u32Zip
  rw [if_neg (by omega)]
  simp only [List.cons_append, List.nil_append]
  rw [run_roll_at (pre ++ [x0, x1, x2]) x3 (mid ++ y0 :: y1 :: y2 :: y3 :: post) _ h
    (by simp) rfl (by simp; omega) (by omega)]
  rw [run_roll_at (x3 :: pre ++ [x0, x1, x2] ++ mid ++ [y0, y1, y2]) y3 post _ h
    (by simp) rfl (by simp; omega) (by omega)]
  rw [run_roll_at (y3 :: x3 :: pre ++ [x0, x1]) x2 (mid ++ y0 :: y1 :: y2 :: post) _ h
    (by simp) rfl (by simp; omega) (by omega)]
  rw [run_roll_at (x2 :: y3 :: x3 :: pre ++ [x0, x1] ++ mid ++ [y0, y1]) y2 (post) _ h
    (by simp) rfl (by simp; omega) (by omega)]
  rw [run_roll_at (y2 :: x2 :: y3 :: x3 :: pre ++ [x0]) x1 (mid ++ y0 :: y1 :: post) _ h
    (by simp) rfl (by simp; omega) (by omega)]
  rw [run_roll_at (x1 :: y2 :: x2 :: y3 :: x3 :: pre ++ [x0] ++ mid ++ [y0]) y1 (post) _ h
    (by simp) rfl (by simp; omega) (by omega)]
  rw [run_roll_at (y1 :: x1 :: y2 :: x2 :: y3 :: x3 :: pre) x0 (mid ++ y0 :: post) _ h
    (by simp) rfl (by simp; omega) (by omega)]
  rw [run_roll_at (x0 :: y1 :: x1 :: y2 :: x2 :: y3 :: x3 :: pre ++ mid) y0 (post) _ h
    (by simp) rfl (by simp; omega) (by omega)]
  simp

/-- Interleaved bytes of two words, `y` on top. -/
def zipped (y x : BitVec 32) : List Elem :=
  [num (byteOf y 0), num (byteOf x 0), num (byteOf y 1), num (byteOf x 1),
   num (byteOf y 2), num (byteOf x 2), num (byteOf y 3), num (byteOf x 3)]

theorem list_split_two {α : Type _} {l : List α} {i j : Nat} {x y : α} (hij : i < j)
    (hx : l[i]? = some x) (hy : l[j]? = some y) :
    ∃ p q r, l = p ++ x :: (q ++ y :: r) ∧ p.length = i ∧ q.length + i + 1 = j := by
  obtain ⟨h1, h2⟩ := list_split_at hx
  have hy' : (l.drop (i + 1))[j - (i + 1)]? = some y := by
    rw [List.getElem?_drop]; rw [← hy]; congr 1; omega
  obtain ⟨h3, h4⟩ := list_split_at hy'
  refine ⟨_, (l.drop (i+1)).take (j - (i+1)), (l.drop (i+1)).drop (j - (i+1) + 1), ?_, h2, ?_⟩
  · rw [← h3]; exact h1
  · omega

theorem eraseIdx_mid {α : Type _} (p q : List α) (x : α) (k : Nat) (h : p.length = k) :
    (p ++ x :: q).eraseIdx k = p ++ q := by
  subst h; simp [List.eraseIdx_append_of_length_le]

/-- Word-level effect of `u32_copy_zip(i, j)`: word `j` is consumed, word `i` is kept. -/
theorem run_u32CopyZip {i j : Nat} {ws : List (BitVec 32)} {x y : BitVec 32} {p : List Op}
    (h : live c = true) (hg : u32CopyZip i j = some p) (hx : ws[i]? = some x)
    (hy : ws[j]? = some y) (hi : i < 500000000) (hj : j < 500000000) :
    run cfg (p ++ ops) ⟨wordsElems ws ++ m, a, c⟩ =
      run cfg ops ⟨(if i < j then zipped y x else zipped x y) ++
        (wordsElems (ws.eraseIdx j) ++ m), a, c⟩ := by
  unfold u32CopyZip at hg
  by_cases hij : i < j
  · rw [if_pos hij] at hg ⊢
    obtain rfl := Option.some.inj hg
    obtain ⟨p, q, r, rfl, hp, hq⟩ := list_split_two hij hx hy
    have he : (p ++ x :: (q ++ y :: r)).eraseIdx j = p ++ x :: (q ++ r) := by
      have := eraseIdx_mid (p ++ x :: q) r y j (by simp; omega)
      simpa using this
    rw [he]
    have := run_u32CopyZipLt (cfg := cfg) (ops := ops) (a := a) (c := c) (i := i) (j := j) (wordsElems p) (wordsElems q) (wordsElems r ++ m)
      (num (byteOf x 0)) (num (byteOf x 1)) (num (byteOf x 2)) (num (byteOf x 3))
      (num (byteOf y 0)) (num (byteOf y 1)) (num (byteOf y 2)) (num (byteOf y 3)) h
      (by simp; omega) (by simp; omega) hj
    simpa [wordElems, zipped] using this
  · rw [if_neg hij] at hg ⊢
    by_cases hji : j < i
    · rw [if_pos hji] at hg
      obtain rfl := Option.some.inj hg
      obtain ⟨p, q, r, rfl, hp, hq⟩ := list_split_two hji hy hx
      rw [eraseIdx_mid p _ y j hp]
      have := run_u32ZipCopyLt (cfg := cfg) (ops := ops) (a := a) (c := c) (i := j) (j := i) (wordsElems p) (wordsElems q) (wordsElems r ++ m)
        (num (byteOf y 0)) (num (byteOf y 1)) (num (byteOf y 2)) (num (byteOf y 3))
        (num (byteOf x 0)) (num (byteOf x 1)) (num (byteOf x 2)) (num (byteOf x 3)) h
        (by simp; omega) (by simp; omega) hi
      simpa [wordElems, zipped] using this
    · rw [if_neg hji] at hg; exact absurd hg (by simp)

/-- Word-level effect of `u32_zip(i, j)`: both words are consumed. -/
theorem run_u32Zip {i j : Nat} {ws : List (BitVec 32)} {x y : BitVec 32}
    (h : live c = true) (hij : i ≠ j) (hx : ws[i]? = some x)
    (hy : ws[j]? = some y) (hi : i < 500000000) (hj : j < 500000000) :
    run cfg (u32Zip i j ++ ops) ⟨wordsElems ws ++ m, a, c⟩ =
      run cfg ops ⟨(if i < j then zipped y x else zipped x y) ++
        (wordsElems ((ws.eraseIdx (Nat.max i j)).eraseIdx (Nat.min i j)) ++ m), a, c⟩ := by
  have key : ∀ {i j : Nat} {x y : BitVec 32}, i < j → ws[i]? = some x → ws[j]? = some y →
      j < 500000000 → run cfg (u32Zip i j ++ ops) ⟨wordsElems ws ++ m, a, c⟩ =
      run cfg ops ⟨zipped y x ++
        (wordsElems ((ws.eraseIdx j).eraseIdx i) ++ m), a, c⟩ := by
    intro i j x y hij hx hy hj
    obtain ⟨p, q, r, rfl, hp, hq⟩ := list_split_two hij hx hy
    have he : (p ++ x :: (q ++ y :: r)).eraseIdx j = p ++ x :: (q ++ r) := by
      have := eraseIdx_mid (p ++ x :: q) r y j (by simp; omega)
      simpa using this
    rw [he, eraseIdx_mid p _ x i hp]
    have := run_u32ZipLt (cfg := cfg) (ops := ops) (a := a) (c := c) (i := i) (j := j) (wordsElems p) (wordsElems q) (wordsElems r ++ m)
      (num (byteOf x 0)) (num (byteOf x 1)) (num (byteOf x 2)) (num (byteOf x 3))
      (num (byteOf y 0)) (num (byteOf y 1)) (num (byteOf y 2)) (num (byteOf y 3)) h
      (by simp; omega) (by simp; omega) hj
    simpa [wordElems, zipped] using this
  rcases Nat.lt_or_gt_of_ne hij with hlt | hgt
  · rw [if_pos hlt, key hlt hx hy hj]
    rw [show Nat.max i j = j from Nat.max_eq_right (by omega),
      show Nat.min i j = i from Nat.min_eq_left (by omega)]
  · rw [if_neg (by omega)]
    have hs : u32Zip i j = u32Zip j i := by
      unfold u32Zip; rw [if_pos hgt, if_neg (by omega)]
    rw [hs, key hgt hy hx hi]
    rw [show Nat.max i j = i from Nat.max_eq_left (by omega),
      show Nat.min i j = j from Nat.min_eq_right (by omega)]

/-! ### Addition -/

theorem run_u8AddCarry {x y k r : Int} (h : live c = true) (hx : 0 ≤ x) (hy : 0 ≤ y)
    (hs : x + y = 256 * k + r) (hr : 0 ≤ r) (hr' : r < 256) (hk : k ≤ 1) :
    run cfg (u8AddCarry ++ ops) ⟨num y :: num x :: m, a, c⟩ =
      run cfg ops ⟨num k :: num r :: m, a, c⟩ := by
  unfold u8AddCarry
  by_cases hb : x + y > 255
  · have : decide (x + y > 255) = true := by simpa using hb
    obtain rfl : k = 1 := by omega
    obtain rfl : r = x + y - 256 := by omega
    sexec [this]
  · have : decide (x + y > 255) = false := by simpa using hb
    obtain rfl : k = 0 := by omega
    obtain rfl : r = x + y := by omega
    sexec [this]

theorem run_u8Add {x y k r : Int} (h : live c = true) (hx : 0 ≤ x) (hy : 0 ≤ y)
    (hs : x + y = 256 * k + r) (hr : 0 ≤ r) (hr' : r < 256) (hk : k ≤ 1) :
    run cfg (u8Add ++ ops) ⟨num y :: num x :: m, a, c⟩ =
      run cfg ops ⟨num r :: m, a, c⟩ := by
  unfold u8Add
  by_cases hb : x + y > 255
  · have : decide (x + y > 255) = true := by simpa using hb
    obtain rfl : r = x + y - 256 := by omega
    sexec [this]
  · have : decide (x + y > 255) = false := by simpa using hb
    obtain rfl : r = x + y := by omega
    sexec [this]

theorem run_u32AddTail_bytes {x0 x1 x2 x3 y0 y1 y2 y3 : Int} {r0 r1 r2 r3 k0 k1 k2 k3 : Int}
    (h : live c = true)
    (hx0 : 0 ≤ x0) (hx1 : 0 ≤ x1) (hx2 : 0 ≤ x2) (hx3 : 0 ≤ x3)
    (hy0 : 0 ≤ y0) (hy1 : 0 ≤ y1) (hy2 : 0 ≤ y2) (hy3 : 0 ≤ y3)
    (b1 : y1 < 256) (b2 : y2 < 256) (b3 : y3 < 256)
    (hr0 : 0 ≤ r0) (hr1 : 0 ≤ r1) (hr2 : 0 ≤ r2) (hr3 : 0 ≤ r3)
    (gr0 : r0 < 256) (gr1 : r1 < 256) (gr2 : r2 < 256) (gr3 : r3 < 256)
    (hk0 : 0 ≤ k0) (hk1 : 0 ≤ k1) (hk2 : 0 ≤ k2) (hk3 : 0 ≤ k3)
    (gk0 : k0 ≤ 1) (gk1 : k1 ≤ 1) (gk2 : k2 ≤ 1) (gk3 : k3 ≤ 1)
    (e0 : x0 + y0 = 256 * k0 + r0) (e1 : x1 + (y1 + k0) = 256 * k1 + r1)
    (e2 : x2 + (y2 + k1) = 256 * k2 + r2) (e3 : x3 + (y3 + k2) = 256 * k3 + r3) :
    run cfg (u32AddTail ++ ops)
      ⟨num y0 :: num x0 :: num y1 :: num x1 :: num y2 :: num x2 :: num y3 :: num x3 :: m, a, c⟩ =
      run cfg ops ⟨num r0 :: num r1 :: num r2 :: num r3 :: m, a, c⟩ := by
  unfold u32AddTail
  simp only [List.append_assoc]
  rw [run_u8AddCarry h hx0 hy0 e0 hr0 gr0 gk0]
  sexec
  rw [run_u8AddCarry h hx1 (by omega) e1 hr1 gr1 gk1]
  sexec
  rw [run_u8AddCarry h hx2 (by omega) e2 hr2 gr2 gk2]
  sexec
  rw [run_u8Add h hx3 (by omega) e3 hr3 gr3 gk3]
  sexec

theorem run_u32AddTail (x y : BitVec 32) (h : live c = true) :
    run cfg (u32AddTail ++ ops) ⟨zipped y x ++ m, a, c⟩ =
      run cfg ops ⟨wordElems (x + y) ++ m, a, c⟩ := by
  have hx := word_eq_bytes x
  have hy := word_eq_bytes y
  have hadd : (x + y).toNat = (x.toNat + y.toNat) % 4294967296 := by
    rw [BitVec.toNat_add]
  have x0 := byteOf_lt x 0; have x1 := byteOf_lt x 1
  have x2 := byteOf_lt x 2; have x3 := byteOf_lt x 3
  have y0 := byteOf_lt y 0; have y1 := byteOf_lt y 1
  have y2 := byteOf_lt y 2; have y3 := byteOf_lt y 3
  rw [hx, hy] at hadd
  clear hx hy
  unfold zipped
  generalize byteOf x 0 = p0 at *; generalize byteOf x 1 = p1 at *
  generalize byteOf x 2 = p2 at *; generalize byteOf x 3 = p3 at *
  generalize byteOf y 0 = q0 at *; generalize byteOf y 1 = q1 at *
  generalize byteOf y 2 = q2 at *; generalize byteOf y 3 = q3 at *
  obtain ⟨k0, r0, e0, hr0, hk0⟩ : ∃ k r : Nat, p0 + q0 = 256 * k + r ∧ r < 256 ∧ k ≤ 1 :=
    ⟨(p0 + q0) / 256, (p0 + q0) % 256, by omega, by omega, by omega⟩
  obtain ⟨k1, r1, e1, hr1, hk1⟩ : ∃ k r : Nat, p1 + (q1 + k0) = 256 * k + r ∧ r < 256 ∧ k ≤ 1 :=
    ⟨(p1 + (q1 + k0)) / 256, (p1 + (q1 + k0)) % 256, by omega, by omega, by omega⟩
  obtain ⟨k2, r2, e2, hr2, hk2⟩ : ∃ k r : Nat, p2 + (q2 + k1) = 256 * k + r ∧ r < 256 ∧ k ≤ 1 :=
    ⟨(p2 + (q2 + k1)) / 256, (p2 + (q2 + k1)) % 256, by omega, by omega, by omega⟩
  obtain ⟨k3, r3, e3, hr3, hk3⟩ : ∃ k r : Nat, p3 + (q3 + k2) = 256 * k + r ∧ r < 256 ∧ k ≤ 1 :=
    ⟨(p3 + (q3 + k2)) / 256, (p3 + (q3 + k2)) % 256, by omega, by omega, by omega⟩
  have hw : wordElems (x + y) = [num r0, num r1, num r2, num r3] := by
    refine wordElems_of_bytes hr0 hr1 hr2 hr3 ?_
    omega
  rw [hw]
  simp only [List.cons_append, List.nil_append]
  apply run_u32AddTail_bytes (k0 := k0) (k1 := k1) (k2 := k2) (k3 := k3) h <;> omega

/-- Word-level effect of `u32_add(i, j)`. -/
theorem run_u32Add {i j : Nat} {ws : List (BitVec 32)} {x y : BitVec 32} {p : List Op}
    (h : live c = true) (hg : u32Add i j = some p) (hx : ws[i]? = some x)
    (hy : ws[j]? = some y) (hi : i < 500000000) (hj : j < 500000000) :
    run cfg (p ++ ops) ⟨wordsElems ws ++ m, a, c⟩ =
      run cfg ops ⟨wordsElems ((x + y) :: ws.eraseIdx j) ++ m, a, c⟩ := by
  unfold u32Add at hg
  by_cases hij : i = j
  · rw [if_pos hij] at hg; exact absurd hg (by simp)
  · rw [if_neg hij] at hg
    obtain ⟨q, hq, rfl⟩ := Option.map_eq_some_iff.mp hg
    rw [List.append_assoc, run_u32CopyZip h hq hx hy hi hj]
    by_cases hlt : i < j
    · rw [if_pos hlt, run_u32AddTail x y h]; simp
    · rw [if_neg hlt, run_u32AddTail y x h, BitVec.add_comm]; simp

/-- Word-level effect of `u32_add_drop(i, j)`. -/
theorem run_u32AddDrop {i j : Nat} {ws : List (BitVec 32)} {x y : BitVec 32} {p : List Op}
    (h : live c = true) (hg : u32AddDrop i j = some p) (hx : ws[i]? = some x)
    (hy : ws[j]? = some y) (hi : i < 500000000) (hj : j < 500000000) :
    run cfg (p ++ ops) ⟨wordsElems ws ++ m, a, c⟩ =
      run cfg ops ⟨wordsElems ((x + y) ::
        (ws.eraseIdx (Nat.max i j)).eraseIdx (Nat.min i j)) ++ m, a, c⟩ := by
  unfold u32AddDrop at hg
  by_cases hij : i = j
  · rw [if_pos hij] at hg; exact absurd hg (by simp)
  · rw [if_neg hij] at hg
    obtain rfl := Option.some.inj hg
    rw [List.append_assoc, run_u32Zip h hij hx hy hi hj]
    by_cases hlt : i < j
    · rw [if_pos hlt, run_u32AddTail x y h]; simp
    · rw [if_neg hlt, run_u32AddTail y x h, BitVec.add_comm]; simp

end TapStark
