import Verif.Proofs.U32Std

namespace TapStark

variable {cfg : Cfg} {ops : List Op} {m a : List Elem} {c : List Bool}

theorem toNat_rotateRight (w : BitVec 32) {n : Nat} (hn : n < 32) :
    (w.rotateRight n).toNat = w.toNat / 2 ^ n + (w.toNat % 2 ^ n) * 2 ^ (32 - n) := by
  have hw := w.isLt
  rw [BitVec.toNat_rotateRight, Nat.mod_eq_of_lt hn, Nat.shiftRight_eq_div_pow, Nat.shiftLeft_eq,
    Nat.or_comm]
  have h1 : w.toNat * 2 ^ (32 - n) % 2 ^ 32 = (w.toNat % 2 ^ n) * 2 ^ (32 - n) := by
    conv => lhs; rw [show (2 : Nat) ^ 32 = 2 ^ n * 2 ^ (32 - n) by rw [← Nat.pow_add]; congr 1; omega]
    rw [Nat.mul_mod_mul_right]
  rw [h1, ← Nat.shiftLeft_eq, ← Nat.shiftLeft_add_eq_or_of_lt, Nat.add_comm]
  rw [Nat.div_lt_iff_lt_mul (by exact Nat.two_pow_pos n), ← Nat.pow_add]
  rw [show 32 - n + n = 32 by omega]; exact hw

theorem run_u8ExtractStep {x i K : Nat} {y acc : Int} (h : live c = true) (hK : x / 2 ^ i = K)
    (hK' : K < 256) (hy : 0 ≤ y) (hy' : y < 256) (ha : 0 ≤ acc) (ha' : acc < 1000) :
    run cfg (u8ExtractStep x i ++ ops) ⟨num y :: m, num acc :: a, c⟩ =
      run cfg ops ⟨num (2 * (y % 128)) :: m, num (acc + y / 128 * K) :: a, c⟩ := by
  unfold u8ExtractStep
  rw [hK]
  by_cases hb : y > 127
  · have : decide (y > 127) = true := by simpa using hb
    have e : y / 128 = 1 := by omega
    sexec [this, e]
    congr 3
    · rw [num_inj]; omega
    · congr 1; omega
  · have : decide (y > 127) = false := by simpa using hb
    have e : y / 128 = 0 := by omega
    sexec [this, e]
    congr 3
    · rw [num_inj]; omega
    · congr 1; omega

theorem run_u8Extract1bit {x : Int} (h : live c = true) (hx : 0 ≤ x) (hx' : x < 256) :
    run cfg (u8Extract1bit ++ ops) ⟨num x :: m, a, c⟩ =
      run cfg ops ⟨num (x / 128) :: num (x * 2 % 256) :: m, a, c⟩ := by
  unfold u8Extract1bit
  by_cases hb : x + x ≥ 256
  · have : decide (x + x ≥ 256) = true := by simpa using hb
    have e : x / 128 = 1 := by omega
    sexec [this, e]
    congr 4
    rw [num_inj]; omega
  · have : decide (x + x ≥ 256) = false := by simpa using hb
    have e : x / 128 = 0 := by omega
    sexec [this, e]
    congr 4
    rw [num_inj]; omega

theorem run_u8ExtractHbit {hb x : Nat} {p : List Op} (hp : u8ExtractHbit hb = some p)
    (h : live c = true) (hx : x < 256) :
    run cfg (p ++ ops) ⟨num x :: m, a, c⟩ =
      run cfg ops ⟨num (x / 2 ^ (8 - hb) : Nat) :: num (x * 2 ^ hb % 256 : Nat) :: m, a, c⟩ := by
  have h8 : hb < 8 ∧ hb ≠ 0 := by
    unfold u8ExtractHbit at hp
    by_cases hh : hb < 8 ∧ hb ≠ 0
    · exact hh
    · rw [if_pos hh] at hp; exact absurd hp (by simp)
  obtain ⟨hlt, hne⟩ := h8
  match hb, hlt, hne, hp with
  | 1, _, _, hp =>
    obtain rfl := Option.some.inj hp
    rw [run_u8Extract1bit h (by omega) (by omega)]
    congr 3
  | 2, _, _, hp | 3, _, _, hp | 4, _, _, hp | 5, _, _, hp | 6, _, _, hp | 7, _, _, hp =>
    obtain rfl := Option.some.inj hp
    simp only [List.range, List.range.loop, List.flatMap_cons, List.flatMap_nil, List.append_assoc,
      List.cons_append, List.nil_append]
    rw [run_num _ h, run_toAlt _ h]
    repeat rw [run_u8ExtractStep (K := _) h rfl (by decide) (by omega) (by omega) (by omega) (by omega)]
    rw [run_fromAlt _ h]
    simp only [Nat.reduceSub, Nat.reducePow, Nat.reduceDiv]
    congr 3
    · rw [num_inj]; omega
    · congr 1; rw [num_inj]; omega

/-- `u8_rrot7` after the roll. -/
def rrot7Core : List Op :=
  [.num 128, .dup2, .greaterthanorequal, .opif, .sub, .num 1, .opelse, .drop, .num 0, .opendif]

theorem u8Rrot7_0 : u8Rrot7 0 = rrot7Core := rfl
theorem u8Rrot7_2 : u8Rrot7 2 = [.rot] ++ rrot7Core := rfl
theorem u8Rrot7_3 : u8Rrot7 3 = [.num 3, .roll] ++ rrot7Core := rfl
theorem u8Rrot7_4 : u8Rrot7 4 = [.num 4, .roll] ++ rrot7Core := rfl

theorem run_u8Rrot7_core {x : Int} (h : live c = true) (hx : 0 ≤ x) (hx' : x < 256) :
    run cfg (rrot7Core ++ ops) ⟨num x :: m, a, c⟩ =
      run cfg ops ⟨num (x / 128) :: num (x % 128) :: m, a, c⟩ := by
  unfold rrot7Core
  by_cases hb : x ≥ 128
  · have : decide (x ≥ 128) = true := by simpa using hb
    have e : x / 128 = 1 := by omega
    sexec [this, e]
    congr 4
    rw [num_inj]; omega
  · have : decide (x ≥ 128) = false := by simpa using hb
    have e : x / 128 = 0 := by omega
    sexec [this, e]
    congr 4
    rw [num_inj]; omega

theorem run_u32Rrot7_bytes {b0 b1 b2 b3 : Int} (h : live c = true)
    (h0 : 0 ≤ b0) (h1 : 0 ≤ b1) (h2 : 0 ≤ b2) (h3 : 0 ≤ b3)
    (g0 : b0 < 256) (g1 : b1 < 256) (g2 : b2 < 256) (g3 : b3 < 256) :
    run cfg (u32Rrot7 ++ ops) ⟨num b0 :: num b1 :: num b2 :: num b3 :: m, a, c⟩ =
      run cfg ops ⟨num (b1 % 128 * 2 + b0 / 128) :: num (b2 % 128 * 2 + b1 / 128) ::
        num (b3 % 128 * 2 + b2 / 128) :: num (b0 % 128 * 2 + b3 / 128) :: m, a, c⟩ := by
  unfold u32Rrot7
  have hcore := fun {x : Int} {m : List Elem} {ops : List Op} (hx : 0 ≤ x) (hx' : x < 256) =>
    run_u8Rrot7_core (cfg := cfg) (a := a) (c := c) (m := m) (ops := ops) h hx hx'
  rw [u8Rrot7_0, u8Rrot7_2, u8Rrot7_3, u8Rrot7_4]
  simp only [List.append_assoc]
  rw [hcore h0 g0]
  sexec
  rw [hcore h1 g1]
  sexec
  rw [hcore h2 g2]
  sexec
  rw [hcore h3 g3]
  sexec
  congr 3
  · rw [num_inj]; omega
  congr 1
  · rw [num_inj]; omega
  congr 1
  · rw [num_inj]; omega
  congr 1
  · rw [num_inj]; omega

/-- The general part of `u32_rrot`, before the final reordering. -/
def rrotBody (ex : List Op) : List Op :=
  ex ++ [.rot] ++ ex ++ [.num 4, .roll] ++ ex ++ [.num 6, .roll] ++ ex ++
      [.num 7, .roll, .add, .toAlt, .add, .toAlt, .add, .toAlt, .add, .toAlt,
       .fromAlt, .fromAlt, .fromAlt, .fromAlt]

theorem run_rrotBody {hb b0 b1 b2 b3 : Nat} {ex : List Op} (hp : u8ExtractHbit hb = some ex)
    (h : live c = true) (g0 : b0 < 256) (g1 : b1 < 256) (g2 : b2 < 256) (g3 : b3 < 256) :
    run cfg (rrotBody ex ++ ops) ⟨num b0 :: num b1 :: num b2 :: num b3 :: m, a, c⟩ =
      run cfg ops ⟨
        num (b3 / 2 ^ (8 - hb) + b0 * 2 ^ hb % 256 : Nat) ::
        num (b2 / 2 ^ (8 - hb) + b3 * 2 ^ hb % 256 : Nat) ::
        num (b1 / 2 ^ (8 - hb) + b2 * 2 ^ hb % 256 : Nat) ::
        num (b0 / 2 ^ (8 - hb) + b1 * 2 ^ hb % 256 : Nat) :: m, a, c⟩ := by
  unfold rrotBody
  simp only [List.append_assoc]
  have q : ∀ b : Nat, b < 256 → b / 2 ^ (8 - hb) < 256 := fun b hb' =>
    Nat.lt_of_le_of_lt (Nat.div_le_self _ _) hb'
  have r : ∀ b : Nat, b * 2 ^ hb % 256 < 256 := fun b => Nat.mod_lt _ (by decide)
  have q0 := q _ g0; have q1 := q _ g1; have q2 := q _ g2; have q3 := q _ g3
  have r0 := r b0; have r1 := r b1; have r2 := r b2; have r3 := r b3
  have hcore := fun {x : Nat} {m a : List Elem} {ops : List Op} (hx : x < 256) =>
    run_u8ExtractHbit (cfg := cfg) (a := a) (c := c) (m := m) (ops := ops) hp h hx
  rw [hcore g0]
  sexec
  rw [hcore g1]
  sexec
  rw [hcore g2]
  sexec
  rw [hcore g3]
  generalize b0 / 2 ^ (8 - hb) = u0 at *; generalize b1 / 2 ^ (8 - hb) = u1 at *
  generalize b2 / 2 ^ (8 - hb) = u2 at *; generalize b3 / 2 ^ (8 - hb) = u3 at *
  generalize b0 * 2 ^ hb % 256 = v0 at *; generalize b1 * 2 ^ hb % 256 = v1 at *
  generalize b2 * 2 ^ hb % 256 = v2 at *; generalize b3 * 2 ^ hb % 256 = v3 at *
  sexec
  push_cast
  rfl


theorem run_byteReorder {o : Nat} {re : List Op} {n0 n1 n2 n3 : Elem}
    (hp : byteReorder o = some re) (h : live c = true) :
    run cfg (re ++ ops) ⟨n3 :: n2 :: n1 :: n0 :: m, a, c⟩ =
      run cfg ops ⟨[n0, n1, n2, n3].rotateLeft o ++ m, a, c⟩ := by
  match o, hp with
  | 0, hp | 1, hp | 2, hp | 3, hp =>
    obtain rfl := Option.some.inj hp
    sexec
    simp [List.rotateLeft]

theorem bytes_rotateRight (w : BitVec 32) {n b0 b1 b2 b3 : Nat} (hn : n < 32)
    (h0 : b0 < 256) (h1 : b1 < 256) (h2 : b2 < 256) (h3 : b3 < 256)
    (h : w.toNat / 2 ^ n + (w.toNat % 2 ^ n) * 2 ^ (32 - n) =
      b0 + 256 * b1 + 65536 * b2 + 16777216 * b3) :
    wordElems (w.rotateRight n) = [num b0, num b1, num b2, num b3] :=
  wordElems_of_bytes h0 h1 h2 h3 (by rw [toNat_rotateRight w hn, h])

theorem div_mod_of {w q s k : Nat} (h : w = k * q + s) (hs : s < k) : w / k = q ∧ w % k = s := by
  subst h
  have hk : 0 < k := by omega
  rw [Nat.mul_add_div hk, Nat.mul_add_mod, Nat.div_eq_of_lt hs, Nat.mod_eq_of_lt hs]
  exact ⟨by omega, rfl⟩

/-- Byte `j` of a word rotated by `r < 8`. -/
def rotByte (w : BitVec 32) (r j : Nat) : Nat :=
  byteOf w j / 2 ^ r + byteOf w ((j + 1) % 4) * 2 ^ (8 - r) % 256

theorem split_byte {b r : Nat} (hb : b < 256) (hr : r < 8) :
    ∃ hi lo, b = 2 ^ r * hi + lo ∧ lo < 2 ^ r ∧ hi < 2 ^ (8 - r) ∧ b / 2 ^ r = hi ∧
      b * 2 ^ (8 - r) % 256 = lo * 2 ^ (8 - r) := by
  have hk : 0 < 2 ^ r := Nat.two_pow_pos r
  refine ⟨b / 2 ^ r, b % 2 ^ r, (Nat.div_add_mod _ _).symm, Nat.mod_lt _ hk, ?_, rfl, ?_⟩
  · rw [Nat.div_lt_iff_lt_mul hk, ← Nat.pow_add, show 8 - r + r = 8 by omega]; exact hb
  · rw [show (256 : Nat) = 2 ^ r * 2 ^ (8 - r) by rw [← Nat.pow_add, show r + (8 - r) = 8 by omega],
      Nat.mul_mod_mul_right]

theorem elems_rotateRight (w : BitVec 32) {n : Nat} (hn : n < 32) :
    wordElems (w.rotateRight n) =
      [num (rotByte w (n % 8) 0), num (rotByte w (n % 8) 1), num (rotByte w (n % 8) 2),
       num (rotByte w (n % 8) 3)].rotateLeft (n / 8) := by
  have hw := word_eq_bytes w
  obtain ⟨hi0, lo0, e0, l0, g0, d0, m0⟩ := split_byte (byteOf_lt w 0) (Nat.mod_lt n (by decide : 0 < 8))
  obtain ⟨hi1, lo1, e1, l1, g1, d1, m1⟩ := split_byte (byteOf_lt w 1) (Nat.mod_lt n (by decide : 0 < 8))
  obtain ⟨hi2, lo2, e2, l2, g2, d2, m2⟩ := split_byte (byteOf_lt w 2) (Nat.mod_lt n (by decide : 0 < 8))
  obtain ⟨hi3, lo3, e3, l3, g3, d3, m3⟩ := split_byte (byteOf_lt w 3) (Nat.mod_lt n (by decide : 0 < 8))
  simp only [rotByte, Nat.reduceAdd, Nat.reduceMod, d0, d1, d2, d3, m0, m1, m2, m3]
  clear d0 d1 d2 d3 m0 m1 m2 m3
  match n, hn with
  | 0, hn =>
    simp only [Nat.reduceMod, Nat.reducePow, Nat.reduceSub] at *
    obtain ⟨hq, hs⟩ := div_mod_of (w := w.toNat) (q := 1 * hi0 + 256 * hi1 + 65536 * hi2 + 16777216 * hi3 + 256 * lo1 + 65536 * lo2 + 16777216 * lo3)
      (s := 1 * lo0) (k := 2 ^ 0) (by omega) (by omega)
    refine bytes_rotateRight w hn (by omega) (by omega) (by omega) (by omega) ?_
    rw [hq, hs]; omega
  | 1, hn =>
    simp only [Nat.reduceMod, Nat.reducePow, Nat.reduceSub] at *
    obtain ⟨hq, hs⟩ := div_mod_of (w := w.toNat) (q := 1 * hi0 + 256 * hi1 + 65536 * hi2 + 16777216 * hi3 + 128 * lo1 + 32768 * lo2 + 8388608 * lo3)
      (s := 1 * lo0) (k := 2 ^ 1) (by omega) (by omega)
    refine bytes_rotateRight w hn (by omega) (by omega) (by omega) (by omega) ?_
    rw [hq, hs]; omega
  | 2, hn =>
    simp only [Nat.reduceMod, Nat.reducePow, Nat.reduceSub] at *
    obtain ⟨hq, hs⟩ := div_mod_of (w := w.toNat) (q := 1 * hi0 + 256 * hi1 + 65536 * hi2 + 16777216 * hi3 + 64 * lo1 + 16384 * lo2 + 4194304 * lo3)
      (s := 1 * lo0) (k := 2 ^ 2) (by omega) (by omega)
    refine bytes_rotateRight w hn (by omega) (by omega) (by omega) (by omega) ?_
    rw [hq, hs]; omega
  | 3, hn =>
    simp only [Nat.reduceMod, Nat.reducePow, Nat.reduceSub] at *
    obtain ⟨hq, hs⟩ := div_mod_of (w := w.toNat) (q := 1 * hi0 + 256 * hi1 + 65536 * hi2 + 16777216 * hi3 + 32 * lo1 + 8192 * lo2 + 2097152 * lo3)
      (s := 1 * lo0) (k := 2 ^ 3) (by omega) (by omega)
    refine bytes_rotateRight w hn (by omega) (by omega) (by omega) (by omega) ?_
    rw [hq, hs]; omega
  | 4, hn =>
    simp only [Nat.reduceMod, Nat.reducePow, Nat.reduceSub] at *
    obtain ⟨hq, hs⟩ := div_mod_of (w := w.toNat) (q := 1 * hi0 + 256 * hi1 + 65536 * hi2 + 16777216 * hi3 + 16 * lo1 + 4096 * lo2 + 1048576 * lo3)
      (s := 1 * lo0) (k := 2 ^ 4) (by omega) (by omega)
    refine bytes_rotateRight w hn (by omega) (by omega) (by omega) (by omega) ?_
    rw [hq, hs]; omega
  | 5, hn =>
    simp only [Nat.reduceMod, Nat.reducePow, Nat.reduceSub] at *
    obtain ⟨hq, hs⟩ := div_mod_of (w := w.toNat) (q := 1 * hi0 + 256 * hi1 + 65536 * hi2 + 16777216 * hi3 + 8 * lo1 + 2048 * lo2 + 524288 * lo3)
      (s := 1 * lo0) (k := 2 ^ 5) (by omega) (by omega)
    refine bytes_rotateRight w hn (by omega) (by omega) (by omega) (by omega) ?_
    rw [hq, hs]; omega
  | 6, hn =>
    simp only [Nat.reduceMod, Nat.reducePow, Nat.reduceSub] at *
    obtain ⟨hq, hs⟩ := div_mod_of (w := w.toNat) (q := 1 * hi0 + 256 * hi1 + 65536 * hi2 + 16777216 * hi3 + 4 * lo1 + 1024 * lo2 + 262144 * lo3)
      (s := 1 * lo0) (k := 2 ^ 6) (by omega) (by omega)
    refine bytes_rotateRight w hn (by omega) (by omega) (by omega) (by omega) ?_
    rw [hq, hs]; omega
  | 7, hn =>
    simp only [Nat.reduceMod, Nat.reducePow, Nat.reduceSub] at *
    obtain ⟨hq, hs⟩ := div_mod_of (w := w.toNat) (q := 1 * hi0 + 256 * hi1 + 65536 * hi2 + 16777216 * hi3 + 2 * lo1 + 512 * lo2 + 131072 * lo3)
      (s := 1 * lo0) (k := 2 ^ 7) (by omega) (by omega)
    refine bytes_rotateRight w hn (by omega) (by omega) (by omega) (by omega) ?_
    rw [hq, hs]; omega
  | 8, hn =>
    simp only [Nat.reduceMod, Nat.reducePow, Nat.reduceSub] at *
    obtain ⟨hq, hs⟩ := div_mod_of (w := w.toNat) (q := 1 * hi1 + 256 * hi2 + 65536 * hi3 + 256 * lo2 + 65536 * lo3)
      (s := 1 * byteOf w 0 + 256 * lo1) (k := 2 ^ 8) (by omega) (by omega)
    refine bytes_rotateRight w hn (by omega) (by omega) (by omega) (by omega) ?_
    rw [hq, hs]; omega
  | 9, hn =>
    simp only [Nat.reduceMod, Nat.reducePow, Nat.reduceSub] at *
    obtain ⟨hq, hs⟩ := div_mod_of (w := w.toNat) (q := 1 * hi1 + 256 * hi2 + 65536 * hi3 + 128 * lo2 + 32768 * lo3)
      (s := 1 * byteOf w 0 + 256 * lo1) (k := 2 ^ 9) (by omega) (by omega)
    refine bytes_rotateRight w hn (by omega) (by omega) (by omega) (by omega) ?_
    rw [hq, hs]; omega
  | 10, hn =>
    simp only [Nat.reduceMod, Nat.reducePow, Nat.reduceSub] at *
    obtain ⟨hq, hs⟩ := div_mod_of (w := w.toNat) (q := 1 * hi1 + 256 * hi2 + 65536 * hi3 + 64 * lo2 + 16384 * lo3)
      (s := 1 * byteOf w 0 + 256 * lo1) (k := 2 ^ 10) (by omega) (by omega)
    refine bytes_rotateRight w hn (by omega) (by omega) (by omega) (by omega) ?_
    rw [hq, hs]; omega
  | 11, hn =>
    simp only [Nat.reduceMod, Nat.reducePow, Nat.reduceSub] at *
    obtain ⟨hq, hs⟩ := div_mod_of (w := w.toNat) (q := 1 * hi1 + 256 * hi2 + 65536 * hi3 + 32 * lo2 + 8192 * lo3)
      (s := 1 * byteOf w 0 + 256 * lo1) (k := 2 ^ 11) (by omega) (by omega)
    refine bytes_rotateRight w hn (by omega) (by omega) (by omega) (by omega) ?_
    rw [hq, hs]; omega
  | 12, hn =>
    simp only [Nat.reduceMod, Nat.reducePow, Nat.reduceSub] at *
    obtain ⟨hq, hs⟩ := div_mod_of (w := w.toNat) (q := 1 * hi1 + 256 * hi2 + 65536 * hi3 + 16 * lo2 + 4096 * lo3)
      (s := 1 * byteOf w 0 + 256 * lo1) (k := 2 ^ 12) (by omega) (by omega)
    refine bytes_rotateRight w hn (by omega) (by omega) (by omega) (by omega) ?_
    rw [hq, hs]; omega
  | 13, hn =>
    simp only [Nat.reduceMod, Nat.reducePow, Nat.reduceSub] at *
    obtain ⟨hq, hs⟩ := div_mod_of (w := w.toNat) (q := 1 * hi1 + 256 * hi2 + 65536 * hi3 + 8 * lo2 + 2048 * lo3)
      (s := 1 * byteOf w 0 + 256 * lo1) (k := 2 ^ 13) (by omega) (by omega)
    refine bytes_rotateRight w hn (by omega) (by omega) (by omega) (by omega) ?_
    rw [hq, hs]; omega
  | 14, hn =>
    simp only [Nat.reduceMod, Nat.reducePow, Nat.reduceSub] at *
    obtain ⟨hq, hs⟩ := div_mod_of (w := w.toNat) (q := 1 * hi1 + 256 * hi2 + 65536 * hi3 + 4 * lo2 + 1024 * lo3)
      (s := 1 * byteOf w 0 + 256 * lo1) (k := 2 ^ 14) (by omega) (by omega)
    refine bytes_rotateRight w hn (by omega) (by omega) (by omega) (by omega) ?_
    rw [hq, hs]; omega
  | 15, hn =>
    simp only [Nat.reduceMod, Nat.reducePow, Nat.reduceSub] at *
    obtain ⟨hq, hs⟩ := div_mod_of (w := w.toNat) (q := 1 * hi1 + 256 * hi2 + 65536 * hi3 + 2 * lo2 + 512 * lo3)
      (s := 1 * byteOf w 0 + 256 * lo1) (k := 2 ^ 15) (by omega) (by omega)
    refine bytes_rotateRight w hn (by omega) (by omega) (by omega) (by omega) ?_
    rw [hq, hs]; omega
  | 16, hn =>
    simp only [Nat.reduceMod, Nat.reducePow, Nat.reduceSub] at *
    obtain ⟨hq, hs⟩ := div_mod_of (w := w.toNat) (q := 1 * hi2 + 256 * hi3 + 256 * lo3)
      (s := 1 * byteOf w 0 + 256 * byteOf w 1 + 65536 * lo2) (k := 2 ^ 16) (by omega) (by omega)
    refine bytes_rotateRight w hn (by omega) (by omega) (by omega) (by omega) ?_
    rw [hq, hs]; omega
  | 17, hn =>
    simp only [Nat.reduceMod, Nat.reducePow, Nat.reduceSub] at *
    obtain ⟨hq, hs⟩ := div_mod_of (w := w.toNat) (q := 1 * hi2 + 256 * hi3 + 128 * lo3)
      (s := 1 * byteOf w 0 + 256 * byteOf w 1 + 65536 * lo2) (k := 2 ^ 17) (by omega) (by omega)
    refine bytes_rotateRight w hn (by omega) (by omega) (by omega) (by omega) ?_
    rw [hq, hs]; omega
  | 18, hn =>
    simp only [Nat.reduceMod, Nat.reducePow, Nat.reduceSub] at *
    obtain ⟨hq, hs⟩ := div_mod_of (w := w.toNat) (q := 1 * hi2 + 256 * hi3 + 64 * lo3)
      (s := 1 * byteOf w 0 + 256 * byteOf w 1 + 65536 * lo2) (k := 2 ^ 18) (by omega) (by omega)
    refine bytes_rotateRight w hn (by omega) (by omega) (by omega) (by omega) ?_
    rw [hq, hs]; omega
  | 19, hn =>
    simp only [Nat.reduceMod, Nat.reducePow, Nat.reduceSub] at *
    obtain ⟨hq, hs⟩ := div_mod_of (w := w.toNat) (q := 1 * hi2 + 256 * hi3 + 32 * lo3)
      (s := 1 * byteOf w 0 + 256 * byteOf w 1 + 65536 * lo2) (k := 2 ^ 19) (by omega) (by omega)
    refine bytes_rotateRight w hn (by omega) (by omega) (by omega) (by omega) ?_
    rw [hq, hs]; omega
  | 20, hn =>
    simp only [Nat.reduceMod, Nat.reducePow, Nat.reduceSub] at *
    obtain ⟨hq, hs⟩ := div_mod_of (w := w.toNat) (q := 1 * hi2 + 256 * hi3 + 16 * lo3)
      (s := 1 * byteOf w 0 + 256 * byteOf w 1 + 65536 * lo2) (k := 2 ^ 20) (by omega) (by omega)
    refine bytes_rotateRight w hn (by omega) (by omega) (by omega) (by omega) ?_
    rw [hq, hs]; omega
  | 21, hn =>
    simp only [Nat.reduceMod, Nat.reducePow, Nat.reduceSub] at *
    obtain ⟨hq, hs⟩ := div_mod_of (w := w.toNat) (q := 1 * hi2 + 256 * hi3 + 8 * lo3)
      (s := 1 * byteOf w 0 + 256 * byteOf w 1 + 65536 * lo2) (k := 2 ^ 21) (by omega) (by omega)
    refine bytes_rotateRight w hn (by omega) (by omega) (by omega) (by omega) ?_
    rw [hq, hs]; omega
  | 22, hn =>
    simp only [Nat.reduceMod, Nat.reducePow, Nat.reduceSub] at *
    obtain ⟨hq, hs⟩ := div_mod_of (w := w.toNat) (q := 1 * hi2 + 256 * hi3 + 4 * lo3)
      (s := 1 * byteOf w 0 + 256 * byteOf w 1 + 65536 * lo2) (k := 2 ^ 22) (by omega) (by omega)
    refine bytes_rotateRight w hn (by omega) (by omega) (by omega) (by omega) ?_
    rw [hq, hs]; omega
  | 23, hn =>
    simp only [Nat.reduceMod, Nat.reducePow, Nat.reduceSub] at *
    obtain ⟨hq, hs⟩ := div_mod_of (w := w.toNat) (q := 1 * hi2 + 256 * hi3 + 2 * lo3)
      (s := 1 * byteOf w 0 + 256 * byteOf w 1 + 65536 * lo2) (k := 2 ^ 23) (by omega) (by omega)
    refine bytes_rotateRight w hn (by omega) (by omega) (by omega) (by omega) ?_
    rw [hq, hs]; omega
  | 24, hn =>
    simp only [Nat.reduceMod, Nat.reducePow, Nat.reduceSub] at *
    obtain ⟨hq, hs⟩ := div_mod_of (w := w.toNat) (q := 1 * hi3)
      (s := 1 * byteOf w 0 + 256 * byteOf w 1 + 65536 * byteOf w 2 + 16777216 * lo3) (k := 2 ^ 24) (by omega) (by omega)
    refine bytes_rotateRight w hn (by omega) (by omega) (by omega) (by omega) ?_
    rw [hq, hs]; omega
  | 25, hn =>
    simp only [Nat.reduceMod, Nat.reducePow, Nat.reduceSub] at *
    obtain ⟨hq, hs⟩ := div_mod_of (w := w.toNat) (q := 1 * hi3)
      (s := 1 * byteOf w 0 + 256 * byteOf w 1 + 65536 * byteOf w 2 + 16777216 * lo3) (k := 2 ^ 25) (by omega) (by omega)
    refine bytes_rotateRight w hn (by omega) (by omega) (by omega) (by omega) ?_
    rw [hq, hs]; omega
  | 26, hn =>
    simp only [Nat.reduceMod, Nat.reducePow, Nat.reduceSub] at *
    obtain ⟨hq, hs⟩ := div_mod_of (w := w.toNat) (q := 1 * hi3)
      (s := 1 * byteOf w 0 + 256 * byteOf w 1 + 65536 * byteOf w 2 + 16777216 * lo3) (k := 2 ^ 26) (by omega) (by omega)
    refine bytes_rotateRight w hn (by omega) (by omega) (by omega) (by omega) ?_
    rw [hq, hs]; omega
  | 27, hn =>
    simp only [Nat.reduceMod, Nat.reducePow, Nat.reduceSub] at *
    obtain ⟨hq, hs⟩ := div_mod_of (w := w.toNat) (q := 1 * hi3)
      (s := 1 * byteOf w 0 + 256 * byteOf w 1 + 65536 * byteOf w 2 + 16777216 * lo3) (k := 2 ^ 27) (by omega) (by omega)
    refine bytes_rotateRight w hn (by omega) (by omega) (by omega) (by omega) ?_
    rw [hq, hs]; omega
  | 28, hn =>
    simp only [Nat.reduceMod, Nat.reducePow, Nat.reduceSub] at *
    obtain ⟨hq, hs⟩ := div_mod_of (w := w.toNat) (q := 1 * hi3)
      (s := 1 * byteOf w 0 + 256 * byteOf w 1 + 65536 * byteOf w 2 + 16777216 * lo3) (k := 2 ^ 28) (by omega) (by omega)
    refine bytes_rotateRight w hn (by omega) (by omega) (by omega) (by omega) ?_
    rw [hq, hs]; omega
  | 29, hn =>
    simp only [Nat.reduceMod, Nat.reducePow, Nat.reduceSub] at *
    obtain ⟨hq, hs⟩ := div_mod_of (w := w.toNat) (q := 1 * hi3)
      (s := 1 * byteOf w 0 + 256 * byteOf w 1 + 65536 * byteOf w 2 + 16777216 * lo3) (k := 2 ^ 29) (by omega) (by omega)
    refine bytes_rotateRight w hn (by omega) (by omega) (by omega) (by omega) ?_
    rw [hq, hs]; omega
  | 30, hn =>
    simp only [Nat.reduceMod, Nat.reducePow, Nat.reduceSub] at *
    obtain ⟨hq, hs⟩ := div_mod_of (w := w.toNat) (q := 1 * hi3)
      (s := 1 * byteOf w 0 + 256 * byteOf w 1 + 65536 * byteOf w 2 + 16777216 * lo3) (k := 2 ^ 30) (by omega) (by omega)
    refine bytes_rotateRight w hn (by omega) (by omega) (by omega) (by omega) ?_
    rw [hq, hs]; omega
  | 31, hn =>
    simp only [Nat.reduceMod, Nat.reducePow, Nat.reduceSub] at *
    obtain ⟨hq, hs⟩ := div_mod_of (w := w.toNat) (q := 1 * hi3)
      (s := 1 * byteOf w 0 + 256 * byteOf w 1 + 65536 * byteOf w 2 + 16777216 * lo3) (k := 2 ^ 31) (by omega) (by omega)
    refine bytes_rotateRight w hn (by omega) (by omega) (by omega) (by omega) ?_
    rw [hq, hs]; omega
  | n + 32, hn => exact absurd hn (by omega)

theorem run_rrotGeneral {n hb o : Nat} {ex re : List Op} (w : BitVec 32)
    (he : u8ExtractHbit hb = some ex) (hr : byteReorder o = some re) (h : live c = true)
    (heq : wordElems (w.rotateRight n) =
      [num (rotByte w (8 - hb) 0), num (rotByte w (8 - hb) 1), num (rotByte w (8 - hb) 2),
       num (rotByte w (8 - hb) 3)].rotateLeft o) (hb8 : hb ≤ 8) :
    run cfg ((rrotBody ex ++ re) ++ ops) ⟨wordElems w ++ m, a, c⟩ =
      run cfg ops ⟨wordElems (w.rotateRight n) ++ m, a, c⟩ := by
  rw [List.append_assoc]
  rw [show wordElems w ++ m = num (byteOf w 0) :: num (byteOf w 1) :: num (byteOf w 2) ::
    num (byteOf w 3) :: m from rfl]
  rw [run_rrotBody he h (byteOf_lt w 0) (byteOf_lt w 1) (byteOf_lt w 2) (byteOf_lt w 3)]
  rw [run_byteReorder hr h, heq]
  simp only [rotByte, Nat.reduceAdd, Nat.reduceMod, show 8 - (8 - hb) = hb by omega]

/-- Word-level effect of `u32_rrot(n)`. -/
theorem run_u32Rrot {n : Nat} {p : List Op} (w : BitVec 32) (hp : u32Rrot n = some p)
    (h : live c = true) :
    run cfg (p ++ ops) ⟨wordElems w ++ m, a, c⟩ =
      run cfg ops ⟨wordElems (w.rotateRight n) ++ m, a, c⟩ := by
  have hn : n < 32 := by
    unfold u32Rrot at hp
    by_cases hh : n < 32
    · exact hh
    · rw [if_pos hh] at hp; exact absurd hp (by simp)
  have w0 := byteOf_lt w 0; have w1 := byteOf_lt w 1
  have w2 := byteOf_lt w 2; have w3 := byteOf_lt w 3
  have hrot := elems_rotateRight w hn
  have hs : wordElems w ++ m = num (byteOf w 0) :: num (byteOf w 1) :: num (byteOf w 2) ::
      num (byteOf w 3) :: m := rfl
  have r0 : ∀ i, byteOf w i / 2 ^ 0 + byteOf w ((i + 1) % 4) * 2 ^ (8 - 0) % 256 = byteOf w i := by
    intro i; omega
  have r7 : ∀ i, num (byteOf w i / 2 ^ 7 + byteOf w ((i + 1) % 4) * 2 ^ (8 - 7) % 256 : Nat) =
      num (byteOf w ((i + 1) % 4) % 128 * 2 + byteOf w i / 128) := by
    intro i; rw [num_inj]; omega
  match n, hn, hp, hrot with
  | 0, _, hp, hrot =>
    obtain rfl := Option.some.inj hp
    simp only [Nat.reduceMod, rotByte, r0] at hrot
    rw [hrot, hs]
    simp only [List.rotateLeft]
    sexec
    rfl
  | 8, _, hp, hrot =>
    obtain rfl := Option.some.inj hp
    simp only [Nat.reduceMod, rotByte, r0] at hrot
    rw [hrot, hs]
    unfold u32Rrot8
    simp only [List.rotateLeft]
    sexec
    rfl
  | 16, _, hp, hrot =>
    obtain rfl := Option.some.inj hp
    simp only [Nat.reduceMod, rotByte, r0] at hrot
    rw [hrot, hs]
    unfold u32Rrot16
    simp only [List.rotateLeft]
    sexec
    rfl
  | 24, _, hp, hrot =>
    obtain rfl := Option.some.inj hp
    simp only [Nat.reduceMod, rotByte, r0] at hrot
    rw [hrot, hs]
    simp only [List.rotateLeft]
    sexec
    rfl
  | 7, _, hp, hrot =>
    obtain rfl := Option.some.inj hp
    simp only [Nat.reduceMod, rotByte, r7] at hrot
    rw [hrot, hs]
    rw [run_u32Rrot7_bytes h (by omega) (by omega) (by omega) (by omega) (by omega) (by omega)
        (by omega) (by omega)]
    rfl
  | 23, _, hp, hrot =>
    obtain rfl := Option.some.inj hp
    simp only [Nat.reduceMod, rotByte, r7] at hrot
    rw [hrot, hs]
    unfold u32Rrot16
    simp only [List.cons_append, List.nil_append]
    rw [run_swap2 _ _ _ _ h]
    rw [run_u32Rrot7_bytes h (by omega) (by omega) (by omega) (by omega) (by omega) (by omega)
        (by omega) (by omega)]
    rfl
  | 1, hn, hp, hrot =>
    obtain rfl := Option.some.inj hp
    exact run_rrotGeneral (hb := 7) (o := 0) w rfl rfl h hrot (by decide)
  | 2, hn, hp, hrot =>
    obtain rfl := Option.some.inj hp
    exact run_rrotGeneral (hb := 6) (o := 0) w rfl rfl h hrot (by decide)
  | 3, hn, hp, hrot =>
    obtain rfl := Option.some.inj hp
    exact run_rrotGeneral (hb := 5) (o := 0) w rfl rfl h hrot (by decide)
  | 4, hn, hp, hrot =>
    obtain rfl := Option.some.inj hp
    exact run_rrotGeneral (hb := 4) (o := 0) w rfl rfl h hrot (by decide)
  | 5, hn, hp, hrot =>
    obtain rfl := Option.some.inj hp
    exact run_rrotGeneral (hb := 3) (o := 0) w rfl rfl h hrot (by decide)
  | 6, hn, hp, hrot =>
    obtain rfl := Option.some.inj hp
    exact run_rrotGeneral (hb := 2) (o := 0) w rfl rfl h hrot (by decide)
  | 9, hn, hp, hrot =>
    obtain rfl := Option.some.inj hp
    exact run_rrotGeneral (hb := 7) (o := 1) w rfl rfl h hrot (by decide)
  | 10, hn, hp, hrot =>
    obtain rfl := Option.some.inj hp
    exact run_rrotGeneral (hb := 6) (o := 1) w rfl rfl h hrot (by decide)
  | 11, hn, hp, hrot =>
    obtain rfl := Option.some.inj hp
    exact run_rrotGeneral (hb := 5) (o := 1) w rfl rfl h hrot (by decide)
  | 12, hn, hp, hrot =>
    obtain rfl := Option.some.inj hp
    exact run_rrotGeneral (hb := 4) (o := 1) w rfl rfl h hrot (by decide)
  | 13, hn, hp, hrot =>
    obtain rfl := Option.some.inj hp
    exact run_rrotGeneral (hb := 3) (o := 1) w rfl rfl h hrot (by decide)
  | 14, hn, hp, hrot =>
    obtain rfl := Option.some.inj hp
    exact run_rrotGeneral (hb := 2) (o := 1) w rfl rfl h hrot (by decide)
  | 15, hn, hp, hrot =>
    obtain rfl := Option.some.inj hp
    exact run_rrotGeneral (hb := 1) (o := 1) w rfl rfl h hrot (by decide)
  | 17, hn, hp, hrot =>
    obtain rfl := Option.some.inj hp
    exact run_rrotGeneral (hb := 7) (o := 2) w rfl rfl h hrot (by decide)
  | 18, hn, hp, hrot =>
    obtain rfl := Option.some.inj hp
    exact run_rrotGeneral (hb := 6) (o := 2) w rfl rfl h hrot (by decide)
  | 19, hn, hp, hrot =>
    obtain rfl := Option.some.inj hp
    exact run_rrotGeneral (hb := 5) (o := 2) w rfl rfl h hrot (by decide)
  | 20, hn, hp, hrot =>
    obtain rfl := Option.some.inj hp
    exact run_rrotGeneral (hb := 4) (o := 2) w rfl rfl h hrot (by decide)
  | 21, hn, hp, hrot =>
    obtain rfl := Option.some.inj hp
    exact run_rrotGeneral (hb := 3) (o := 2) w rfl rfl h hrot (by decide)
  | 22, hn, hp, hrot =>
    obtain rfl := Option.some.inj hp
    exact run_rrotGeneral (hb := 2) (o := 2) w rfl rfl h hrot (by decide)
  | 25, hn, hp, hrot =>
    obtain rfl := Option.some.inj hp
    exact run_rrotGeneral (hb := 7) (o := 3) w rfl rfl h hrot (by decide)
  | 26, hn, hp, hrot =>
    obtain rfl := Option.some.inj hp
    exact run_rrotGeneral (hb := 6) (o := 3) w rfl rfl h hrot (by decide)
  | 27, hn, hp, hrot =>
    obtain rfl := Option.some.inj hp
    exact run_rrotGeneral (hb := 5) (o := 3) w rfl rfl h hrot (by decide)
  | 28, hn, hp, hrot =>
    obtain rfl := Option.some.inj hp
    exact run_rrotGeneral (hb := 4) (o := 3) w rfl rfl h hrot (by decide)
  | 29, hn, hp, hrot =>
    obtain rfl := Option.some.inj hp
    exact run_rrotGeneral (hb := 3) (o := 3) w rfl rfl h hrot (by decide)
  | 30, hn, hp, hrot =>
    obtain rfl := Option.some.inj hp
    exact run_rrotGeneral (hb := 2) (o := 3) w rfl rfl h hrot (by decide)
  | 31, hn, hp, hrot =>
    obtain rfl := Option.some.inj hp
    exact run_rrotGeneral (hb := 1) (o := 3) w rfl rfl h hrot (by decide)

end TapStark
