import Verif.Proofs.ScriptHelper
import Verif.Spec.Does
import Verif.Model.Challenger
import Verif.Model.Fri
import Mathlib.Data.Finset.Card
import Mathlib.Data.List.Dedup

/-
Properties C56, C58, C60 and C61: bit scripts, reduction of sampled words, table look-up, value counter.
-/

namespace TapStark

/-! ### C56 -/

/-- C56: the bits of a value, highest on top. -/
theorem C56_bits (cfg : Cfg) (n x : Nat) (m a : List Elem) (hn : n ≤ 31) (hx : x < 2 ^ n) :
    ∃ p, valueToBits n = some p ∧
      run cfg p ⟨num x :: m, a, []⟩ =
        some ⟨((List.range n).map fun k => num (x / 2 ^ k % 2 : Nat)).reverse ++ m, a, []⟩ := by
  have hp : valueToBits n = some (valueBits n ++ [.drop] ++ emitN n [.fromAlt]) := by
    unfold valueToBits; rw [if_neg (by omega)]
  refine ⟨_, hp, ?_⟩
  have := run_valueToBits (cfg := cfg) (ops := []) (m := m) (a := a) (c := []) hp hx rfl
  rw [List.append_nil] at this
  exact this

theorem indexToReverseIndex_some {n : Nat} (h1 : 1 ≤ n) (hn : n ≤ 31) : ∃ p, indexToReverseIndex n = some p := by
  unfold indexToReverseIndex valueToBits compressBits
  rw [if_neg (by omega), if_neg (by omega)]
  exact ⟨_, rfl⟩

/-- C56: bit reversal of an index, for every accepted length: bit `k` of the result is bit `n-1-k` of the index. -/
theorem C56_reverse (cfg : Cfg) (n x : Nat) (m a : List Elem) (h1 : 1 ≤ n) (hn : n ≤ 31) (hx : x < 2 ^ n) :
    ∃ p r, indexToReverseIndex n = some p ∧
      run cfg p ⟨num x :: m, a, []⟩ = some ⟨num (r : Nat) :: m, a, []⟩ ∧
      r < 2 ^ n ∧ ∀ k < n, r.testBit k = x.testBit (n - 1 - k) := by
  obtain ⟨p, hp⟩ := indexToReverseIndex_some h1 hn
  refine ⟨p, revN x n, hp, ?_, revN_lt x n, revN_testBit x n⟩
  have := run_indexToReverseIndex (cfg := cfg) (ops := []) (m := m) (a := a) (c := []) hp hx rfl
  rw [List.append_nil] at this
  exact this

theorem Fri_revBits_lt : ∀ (n x : Nat), Fri.revBits n x < 2 ^ n := by
  intro n
  induction n with
  | zero => intro x; simp [Fri.revBits]
  | succ n ih =>
    intro x
    have := ih (x / 2)
    rw [Fri.revBits, Nat.pow_succ]
    rcases Nat.mod_two_eq_zero_or_one x with h | h <;> rw [h] <;> omega

theorem Fri_revBits_testBit : ∀ (n x k : Nat), k < n → (Fri.revBits n x).testBit k = x.testBit (n - 1 - k) := by
  intro n
  induction n with
  | zero => intro x k hk; omega
  | succ n ih =>
    intro x k hk
    rw [Fri.revBits]
    by_cases hkn : k = n
    · subst hkn
      rw [Nat.add_sub_cancel, Nat.sub_self]
      rcases Nat.mod_two_eq_zero_or_one x with h | h
      · rw [h, Nat.zero_mul, Nat.zero_add, Nat.testBit_lt_two_pow (Fri_revBits_lt k _)]
        simp [Nat.testBit_zero, h]
      · rw [h, Nat.one_mul, Nat.testBit_two_pow_add_eq, Nat.testBit_lt_two_pow (Fri_revBits_lt k _)]
        simp [Nat.testBit_zero, h]
    · have hk' : k < n := by omega
      rw [show n + 1 - 1 - k = (n - 1 - k) + 1 by omega, Nat.testBit_succ, ← ih (x / 2) k hk']
      rcases Nat.mod_two_eq_zero_or_one x with h | h
      · rw [h, Nat.zero_mul, Nat.zero_add]
      · rw [h, Nat.one_mul, Nat.testBit_two_pow_add_gt hk']

theorem revN_eq_revBits (x n : Nat) : revN x n = Fri.revBits n x := by
  refine Nat.eq_of_testBit_eq fun k => ?_
  by_cases hk : k < n
  · rw [revN_testBit x n k hk, Fri_revBits_testBit n x k hk]
  · have h2 : 2 ^ n ≤ 2 ^ k := Nat.pow_le_pow_right Nat.zero_lt_two (by omega)
    rw [Nat.testBit_lt_two_pow (Nat.lt_of_lt_of_le (revN_lt x n) h2),
      Nat.testBit_lt_two_pow (Nat.lt_of_lt_of_le (Fri_revBits_lt n x) h2)]

/-- C56: the reversal script computes what the native `reverse_bits_len` computes. -/
theorem C56_reverse_native (cfg : Cfg) (n x : Nat) (m a : List Elem) (h1 : 1 ≤ n) (hn : n ≤ 31) (hx : x < 2 ^ n) :
    ∃ p, indexToReverseIndex n = some p ∧
      run cfg p ⟨num x :: m, a, []⟩ = some ⟨num (Fri.revBits n x : Nat) :: m, a, []⟩ := by
  obtain ⟨p, hp⟩ := indexToReverseIndex_some h1 hn
  refine ⟨p, hp, ?_⟩
  have := run_indexToReverseIndex (cfg := cfg) (ops := []) (m := m) (a := a) (c := []) hp hx rfl
  rw [List.append_nil, revN_eq_revBits] at this
  exact this

/-- C56 for six bits: 0b000110 becomes 0b011000. -/
theorem C56_instance (cfg : Cfg) : ∃ p, indexToReverseIndex 6 = some p ∧
    run cfg p ⟨[num 6], [], []⟩ = some ⟨[num 24], [], []⟩ :=
  C56_reverse_native cfg 6 6 [] [] (by decide) (by decide) (by decide)

/-- C56 is not checked by the script: an index that does not fit is accepted and becomes the all-ones index, where
the native function would take the low bits only. -/
theorem C56_violated_out_of_range (cfg : Cfg) (n x : Nat) (m a : List Elem) (h1 : 1 ≤ n) (hn : n ≤ 31)
    (hx : 2 ^ n ≤ x) (hx2 : x < 2 ^ 31) :
    ∃ p, indexToReverseIndex n = some p ∧
      run cfg p ⟨num x :: m, a, []⟩ = some ⟨num (2 ^ n - 1 : Nat) :: m, a, []⟩ := by
  obtain ⟨p, hp⟩ := indexToReverseIndex_some h1 hn
  refine ⟨p, hp, ?_⟩
  have := run_indexToReverseIndex_big (cfg := cfg) (ops := []) (m := m) (a := a) (c := []) hp hx hx2 rfl
  rw [List.append_nil] at this
  exact this

/-- C56: length 0 is refused at generation, as is a length above 31. -/
theorem C56_lengths (n : Nat) : (∃ p, indexToReverseIndex n = some p) ↔ 1 ≤ n ∧ n ≤ 31 := by
  constructor
  · rintro ⟨p, hp⟩
    unfold indexToReverseIndex at hp
    obtain ⟨v, hv, hp⟩ := Option.bind_eq_some_iff.1 hp
    obtain ⟨cb, hc, hp⟩ := Option.bind_eq_some_iff.1 hp
    have := compressBits_le hc
    omega
  · rintro ⟨h1, hn⟩; exact indexToReverseIndex_some h1 hn

/-- C56: the script that checks a claimed bit decomposition accepts exactly the right index, and leaves the
reversed index. -/
theorem C56_checked_reverse (cfg : Cfg) (n x idx : Nat) (m a : List Elem) (h1 : 1 ≤ n) (hn : n ≤ 31) (hx : x < 2 ^ n) :
    ∃ p, reverseBitsLenWithInput x n = some p ∧
      run cfg p ⟨num idx :: m, a, []⟩ =
        if idx = x then some ⟨num (Fri.revBits n x : Nat) :: m, a, []⟩ else none := by
  have hc : compressBits n = some (emitN (n - 1) compressStep) := by
    unfold compressBits; rw [if_neg (by omega)]
  have h0 : live ([] : List Bool) = true := rfl
  refine ⟨_, by unfold reverseBitsLenWithInput reverseBitsLenScript; rw [hc]; rfl, ?_⟩
  have hpush : ∀ (l : List Nat) (ops : List Op) (m : List Elem),
      run cfg (l.map (fun (b : Nat) => Op.num b) ++ ops) ⟨m, a, []⟩ =
        run cfg ops ⟨(l.map (fun b => num (b : Nat))).reverse ++ m, a, []⟩ := by
    intro l
    induction l with
    | nil => intro ops m; rfl
    | cons v l ih => intro ops m; rw [List.map_cons, List.cons_append, run_num _ h0, ih]; simp
  have hd : decompressNum x n = bitNats x n := by
    unfold decompressNum bitNats
    apply List.map_congr_left
    intro k _
    rw [Nat.and_one_is_mod, Nat.shiftRight_eq_div_pow]
  rw [hpush, hd, ← bitElems_eq_map]
  simp only [List.append_assoc]
  rw [run_pickReverse (by simp [length_bitElems]) hn h0, List.reverse_reverse, run_compressBits_rev hc h0,
    List.cons_append, run_toAlt _ h0, List.nil_append, run_compressBits hc h0, run_equalverify _ _ h0,
    Nat.mod_eq_of_lt hx, revN_eq_revBits]
  by_cases e : idx = x
  · rw [if_pos (by rw [e]), if_pos e, run_fromAlt _ h0]; rfl
  · rw [if_neg (by rw [num_inj]; omega), if_neg e]

/-- C56: the high bits of a value below `2^31`, read as a 32-bit number: a right shift. -/
theorem C56_high_bits (cfg : Cfg) (len x : Nat) (m a : List Elem) (h1 : 1 ≤ len) (hl : len ≤ 31) (hx : x < 2 ^ 31) :
    ∃ p, extractHighBits len = some p ∧
      run cfg p ⟨num x :: m, a, []⟩ = some ⟨num (x >>> (32 - len) : Nat) :: m, a, []⟩ := by
  have hc : ∃ p, compressCustomBits 32 len = some p := by
    unfold compressCustomBits; rw [if_neg (by omega)]; exact ⟨_, rfl⟩
  obtain ⟨p, hp⟩ := hc
  refine ⟨valueTo32Bits ++ p, by unfold extractHighBits; rw [hp]; rfl, ?_⟩
  rw [run_valueTo32Bits_pos hx rfl]
  have := run_compressCustomBits (cfg := cfg) (ops := []) (m := m) (a := a) (c := []) (x := x) hp rfl
  rw [List.append_nil] at this
  rw [this, Nat.mod_eq_of_lt (by omega), Nat.shiftRight_eq_div_pow]
  rfl

/-- C56: a negative number is read as a two's complement 32-bit number. -/
theorem C56_high_bits_negative (cfg : Cfg) (len x : Nat) (m a : List Elem) (h1 : 1 ≤ len) (hl : len ≤ 31)
    (hx0 : 0 < x) (hx : x < 2 ^ 31) :
    ∃ p, extractHighBits len = some p ∧
      run cfg p ⟨num (-(x : Int)) :: m, a, []⟩ = some ⟨num ((2 ^ 32 - x) >>> (32 - len) : Nat) :: m, a, []⟩ := by
  have hc : ∃ p, compressCustomBits 32 len = some p := by
    unfold compressCustomBits; rw [if_neg (by omega)]; exact ⟨_, rfl⟩
  obtain ⟨p, hp⟩ := hc
  refine ⟨valueTo32Bits ++ p, by unfold extractHighBits; rw [hp]; rfl, ?_⟩
  rw [run_valueTo32Bits_neg hx0 hx rfl]
  have := run_compressCustomBits (cfg := cfg) (ops := []) (m := m) (a := a) (c := []) (x := 4294967296 - x) hp rfl
  rw [List.append_nil] at this
  rw [this, Nat.mod_eq_of_lt (by omega), Nat.shiftRight_eq_div_pow]
  rfl

/-- C56 is violated for compressed words with the top bit set: compression writes sign and magnitude, extraction
reads two's complement.  The single high bit pattern of `0xC0000001`, two bits, comes out as 2 instead of 3. -/
theorem C56_violated_compressed (cfg : Cfg) (m a : List Elem) :
    ∃ p, extractHighBits 2 = some p ∧
      run cfg (u32Compress ++ p) ⟨wordElems 0xC0000001#32 ++ m, a, []⟩ = some ⟨num 2 :: m, a, []⟩ ∧
      0xC0000001 >>> (32 - 2) = 3 := by
  obtain ⟨p, hp, hr⟩ := C56_high_bits_negative cfg 2 0x40000001 m a (by decide) (by decide) (by decide) (by decide)
  refine ⟨p, hp, ?_, rfl⟩
  rw [run_u32Compress _ rfl]
  exact hr

/-! ### C58 -/

/-- What the reduction needs of the subtraction script: `v` minus the modulus, brought back into range. -/
def SubReduces (cfg : Cfg) (M : Nat) (sub : List Op) : Prop :=
  ∀ (x : Nat) (m a : List Elem) (c : List Bool) (ops : List Op), x < 2 ^ 31 → live c = true →
    run cfg (sub ++ ops) ⟨num M :: num x :: m, a, c⟩ = run cfg ops ⟨num (x % M : Nat) :: m, a, c⟩

/-- The subtraction script of the repository does so for moduli between `2^30` and `2^31`. -/
theorem subReduces_u31 (cfg : Cfg) (M : Nat) (h1 : 2 ^ 30 ≤ M) (h2 : M < 2 ^ 31) : SubReduces cfg M (u31Sub M) := by
  intro x m a c ops hx h
  rw [run_u31Sub_raw h2 hx (Nat.le_refl M) h]
  congr 3
  congr 1
  split
  · rw [Nat.mod_eq_of_lt (by assumption)]; omega
  · rw [Nat.mod_eq_sub_mod (by omega), Nat.mod_eq_of_lt (by omega)]

theorem run_u32ToU31 {cfg : Cfg} {sub ops : List Op} {m a : List Elem} {c : List Bool}
    (hs : SubReduces cfg 0x78000001 sub) {x : Nat} (hx : x < 2147483648) (h : live c = true)
    (hdead : SkipsDead cfg sub) :
    run cfg (u32ToU31 0x78000001 sub ++ ops) ⟨num x :: m, a, c⟩ =
      run cfg ops ⟨num (x % 0x78000001 : Nat) :: m, a, c⟩ := by
  unfold u32ToU31
  have e : decide ((x : Int) < 0) = false := by simp
  have hd : live (false :: c) = false := rfl
  sexec [e]
  rw [hdead _ _ _ _ hd]
  sexec
  rw [hs x _ _ _ _ hx h]

theorem run_u32ToU31_neg {cfg : Cfg} {sub ops : List Op} {m a : List Elem} {c : List Bool}
    (hs : SubReduces cfg 0x78000001 sub) {x : Nat} (hx0 : 0 < x) (hx : x < 2147483648) (h : live c = true) :
    run cfg (u32ToU31 0x78000001 sub ++ ops) ⟨num (-(x : Int)) :: m, a, c⟩ =
      run cfg ops ⟨num ((2147483648 + x) % 0x78000001 : Nat) :: m, a, c⟩ := by
  unfold u32ToU31
  have e : decide (-(x : Int) < 0) = true := by simp; omega
  have hl : live (true :: c) = true := h
  sexec [e, Int.natAbs_neg, Int.natAbs_natCast]
  have := hs x m a (true :: c) (.num (0x80000000 - 0x78000001 : Nat) :: .add :: .opendif ::
    .num (0x78000001 : Nat) :: (sub ++ ops)) hx hl
  refine this.trans ?_
  have hm : x % 0x78000001 < 0x78000001 := Nat.mod_lt _ (by decide)
  sexec
  rw [show ((x % 0x78000001 : Nat) : Int) + (0x80000000 - 0x78000001 : Nat) =
    (x % 0x78000001 + (0x80000000 - 0x78000001) : Nat) by omega]
  have := hs (x % 0x78000001 + (0x80000000 - 0x78000001)) m a c ops (by omega) h
  refine this.trans ?_
  have e3 : (x % 0x78000001 + (0x80000000 - 0x78000001)) % 0x78000001 = (2147483648 + x) % 0x78000001 := by omega
  rw [e3]

theorem skipsDead_u31Sub (cfg : Cfg) (M : Nat) : SkipsDead cfg (u31Sub M) := by
  intro m a c ops h
  unfold u31Sub u31Adjust
  have hl : live (false :: c) = false := rfl
  simp only [List.cons_append, List.nil_append, run_cons, step, h, hl, Op.num, Bool.false_eq_true, if_false,
    Option.bind_some]

/-- C58: every word but `0x80000000`, compressed and reduced, becomes the canonical residue that the native
conversion gives for the same four bytes. -/
theorem C58_reduce_partial (cfg : Cfg) (sub : List Op) (hs : SubReduces cfg 0x78000001 sub) (hd : SkipsDead cfg sub)
    (w : BitVec 32) (hw : w ≠ 0x80000000#32) (m a : List Elem) :
    run cfg (u32Compress ++ u32ToU31 0x78000001 sub) ⟨wordElems w ++ m, a, []⟩ =
      some ⟨num (w.toNat % 0x78000001 : Nat) :: m, a, []⟩ := by
  rw [run_u32Compress w rfl]
  have hlt : w.toNat < 4294967296 := w.isLt
  unfold signMag
  split
  · have := run_u32ToU31 (m := m) (a := a) (c := []) (ops := []) hs (x := w.toNat) (by assumption) rfl hd
    rw [List.append_nil] at this
    exact this
  · rename_i hge
    have hne : w.toNat ≠ 2147483648 := by
      intro h; apply hw; exact BitVec.eq_of_toNat_eq h
    have := run_u32ToU31_neg (m := m) (a := a) (c := []) (ops := []) hs (x := w.toNat - 2147483648) (by omega)
      (by omega) rfl
    rw [List.append_nil, show 2147483648 + (w.toNat - 2147483648) = w.toNat by omega] at this
    rw [show (w.toNat : Int) - 2147483648 = (w.toNat - 2147483648 : Nat) by omega]
    exact this

theorem wordElems_leValue (x : FS.U32) :
    wordElems (BitVec.ofNat 32 (FS.leValue x)) = bytesElems x.toList := by
  obtain ⟨⟨l⟩, hl⟩ := x
  match l, hl with
  | [b0, b1, b2, b3], _ =>
    have h0 := b0.toNat_lt; have h1 := b1.toNat_lt; have h2 := b2.toNat_lt; have h3 := b3.toNat_lt
    have hv : FS.leValue ⟨⟨[b0, b1, b2, b3]⟩, by assumption⟩ =
      b0.toNat + 256 * b1.toNat + 65536 * b2.toNat + 16777216 * b3.toNat := rfl
    rw [hv]
    simp only [wordElems, bytesElems, byteOf, BitVec.toNat_ofNat, Vector.toList_mk, List.map_cons, List.map_nil,
      List.cons.injEq, num_inj, and_true]
    generalize b0.toNat = n0 at *
    generalize b1.toNat = n1 at *
    generalize b2.toNat = n2 at *
    generalize b3.toNat = n3 at *
    refine ⟨?_, ?_, ?_, ?_⟩ <;> norm_cast <;> omega

/-- C58 against the native conversion `from_pf` of four bytes, byte 0 on top of the stack. -/
theorem C58_native_partial (cfg : Cfg) (sub : List Op) (hs : SubReduces cfg 0x78000001 sub) (hd : SkipsDead cfg sub)
    (x : FS.U32) (hx : FS.leValue x ≠ 0x80000000) (m a : List Elem) :
    run cfg (u32Compress ++ u32ToU31 0x78000001 sub) ⟨bytesElems x.toList ++ m, a, []⟩ =
      some ⟨num (FS.fromPf x : Nat) :: m, a, []⟩ := by
  have hlt : FS.leValue x < 4294967296 := by
    unfold FS.leValue
    have h0 := x[0].toNat_lt; have h1 := x[1].toNat_lt; have h2 := x[2].toNat_lt; have h3 := x[3].toNat_lt
    omega
  have := C58_reduce_partial cfg sub hs hd (BitVec.ofNat 32 (FS.leValue x)) (by
    intro h
    have := congrArg BitVec.toNat h
    rw [BitVec.toNat_ofNat, Nat.mod_eq_of_lt hlt] at this
    exact hx this) m a
  rw [wordElems_leValue, BitVec.toNat_ofNat, Nat.mod_eq_of_lt hlt] at this
  exact this

/-- C58 is violated at the one remaining word: compression turns `0x80000000` into 0, the native conversion
into `2^31 - p`. -/
theorem C58_violated_min_word (cfg : Cfg) (sub : List Op) (hs : SubReduces cfg 0x78000001 sub) (hd : SkipsDead cfg sub)
    (m a : List Elem) :
    run cfg (u32Compress ++ u32ToU31 0x78000001 sub) ⟨bytesElems [0, 0, 0, 0x80] ++ m, a, []⟩ =
      some ⟨num 0 :: m, a, []⟩ ∧ FS.fromPf #v[0, 0, 0, 0x80] = 134217727 := by
  refine ⟨?_, by decide⟩
  rw [show bytesElems [0, 0, 0, 0x80] = wordElems 0x80000000#32 by decide +kernel, run_u32Compress _ rfl,
    show signMag 0x80000000#32 = (0 : Nat) by decide]
  have := run_u32ToU31 (m := m) (a := a) (c := []) (ops := []) hs (x := 0) (by decide) rfl hd
  rw [List.append_nil] at this
  exact this

/-- C58 with the subtraction script of the repository, on the word of all ones. -/
theorem C58_instance (cfg : Cfg) (m a : List Elem) :
    run cfg (u32Compress ++ u32ToU31 0x78000001 (u31Sub 0x78000001)) ⟨bytesElems [255, 255, 255, 255] ++ m, a, []⟩ =
      some ⟨num 268435453 :: m, a, []⟩ :=
  C58_native_partial cfg _ (subReduces_u31 cfg _ (by decide) (by decide)) (skipsDead_u31Sub cfg _)
    #v[255, 255, 255, 255] (by decide) m a

/-! ### C60 -/

/-- C60: pushing a table and looking up index `i` below its length leaves entry `i` and the rest of the stack. -/
theorem C60_lookup (cfg : Cfg) (t : List Nat) (i : Nat) (m a : List Elem) (hi : i < t.length)
    (hlen : t.length ≤ 2 ^ 31) :
    run cfg (opTable t ++ [.num i] ++ opLookup t.length) ⟨m, a, []⟩ = some ⟨num (t[i] : Nat) :: m, a, []⟩ := by
  rw [List.append_assoc, run_opTable rfl, List.cons_append, run_num _ rfl]
  have := run_opLookup (cfg := cfg) (ops := []) (t := t.map (fun v => num (v : Nat))) (m := m) (a := a) (c := [])
    (i := i) (e := num (t[i] : Nat)) (by omega) (by
      rw [List.getElem?_append_left (by simpa using hi), List.getElem?_map, List.getElem?_eq_getElem hi]; rfl) rfl
  rw [List.append_nil, List.length_map] at this
  exact this

/-- C60: a three-entry table. -/
theorem C60_instance (cfg : Cfg) (m a : List Elem) :
    run cfg (opTable [7, 8, 9] ++ [.num 1] ++ opLookup 3) ⟨m, a, []⟩ = some ⟨num 8 :: m, a, []⟩ :=
  C60_lookup cfg [7, 8, 9] 1 m a (by decide) (by decide)

/-- C60 is not checked by the script: an index past the end of the table returns whatever lies below it. -/
theorem C60_violated_out_of_range (cfg : Cfg) (t : List Nat) (j : Nat) (e : Elem) (m a : List Elem)
    (he : m[j]? = some e) (hlen : t.length + j < 2 ^ 31) :
    run cfg (opTable t ++ [.num (t.length + j : Nat)] ++ opLookup t.length) ⟨m, a, []⟩ = some ⟨e :: m, a, []⟩ := by
  rw [List.append_assoc, run_opTable rfl, List.cons_append, run_num _ rfl]
  have := run_opLookup (cfg := cfg) (ops := []) (t := t.map (fun v => num (v : Nat))) (m := m) (a := a) (c := [])
    (i := t.length + j) (e := e) hlen (by
      rw [List.getElem?_append_right (by simp), List.length_map, Nat.add_sub_cancel_left]; exact he) rfl
  rw [List.append_nil, List.length_map] at this
  exact this

/-- C60: index 3 of a three-entry table returns the element under the table. -/
theorem C60_violated_instance (cfg : Cfg) :
    run cfg (opTable [7, 8, 9] ++ [.num 3] ++ opLookup 3) ⟨[num 42], [], []⟩ = some ⟨[num 42, num 42], [], []⟩ :=
  C60_violated_out_of_range cfg [7, 8, 9] 0 (num 42) [num 42] [] rfl (by decide)

/-! ### C61 -/

namespace ValueCounter

/-- What a counter knows after the values `seen`. -/
structure Knows (c : ValueCounter) (seen : Finset Nat) : Prop where
  keys : ∀ v b, (v, b) ∈ c.register → b = true ∧ v ∈ seen
  all : ∀ v ∈ seen, (v, true) ∈ c.register
  card : c.num = seen.card

theorem get_of_mem {c : ValueCounter} {seen : Finset Nat} (h : c.Knows seen) {v : Nat} (hv : v ∈ seen) :
    c.get v = some true := by
  have : (c.register.find? (·.1 == v)).isSome := by
    rw [List.find?_isSome]; exact ⟨_, h.all v hv, by simp⟩
  obtain ⟨⟨w, b⟩, e⟩ := Option.isSome_iff_exists.1 this
  have hm := List.mem_of_find?_eq_some e
  rw [get, e, Option.map_some, (h.keys w b hm).1]

theorem get_of_not_mem {c : ValueCounter} {seen : Finset Nat} (h : c.Knows seen) {v : Nat} (hv : v ∉ seen) :
    c.get v = none := by
  rw [get, Option.map_eq_none_iff, List.find?_eq_none]
  rintro ⟨w, b⟩ hm
  have := (h.keys w b hm).2
  intro e
  simp at e
  exact hv (e ▸ this)

theorem calls_knows : ∀ (vs : List Nat) (c : ValueCounter) (seen : Finset Nat), c.Knows seen →
    (seen ∪ vs.toFinset).card < 2 ^ 32 →
    ∃ c', c.calls vs = some (vs.map fun _ => true, c') ∧ c'.Knows (seen ∪ vs.toFinset) := by
  intro vs
  induction vs with
  | nil => intro c seen h _; exact ⟨c, rfl, by simpa using h⟩
  | cons v vs ih =>
    intro c seen h hcard
    by_cases hv : v ∈ seen
    · have hu : seen ∪ (v :: vs).toFinset = seen ∪ vs.toFinset := by
        ext w; simp only [List.toFinset_cons, Finset.mem_union, Finset.mem_insert]
        constructor
        · rintro (h | rfl | h) <;> simp_all
        · rintro (h | h) <;> simp_all
      rw [hu] at hcard ⊢
      obtain ⟨c', hc', hk⟩ := ih c seen h hcard
      refine ⟨c', ?_, hk⟩
      have hg : c.getOrSet v = some (true, c) := by rw [getOrSet, get_of_mem h hv]
      rw [calls, hg]
      simp only [Option.bind_eq_bind, Option.bind_some, hc', List.map_cons]
    · have hu : seen ∪ (v :: vs).toFinset = insert v seen ∪ vs.toFinset := by
        ext w; simp only [List.toFinset_cons, Finset.mem_union, Finset.mem_insert]; tauto
      rw [hu] at hcard ⊢
      have hle : (insert v seen).card ≤ (insert v seen ∪ vs.toFinset).card :=
        Finset.card_le_card Finset.subset_union_left
      have hci : (insert v seen).card = seen.card + 1 := Finset.card_insert_of_notMem hv
      have hs : c.set v = some ⟨c.num + 1, (v, true) :: c.register⟩ := by
        rw [set, if_neg (by rw [h.card]; omega), get_of_not_mem h hv]; rfl
      have hk : Knows ⟨c.num + 1, (v, true) :: c.register⟩ (insert v seen) := by
        refine ⟨?_, ?_, ?_⟩
        · intro w b hm
          rcases List.mem_cons.1 hm with e | hm
          · cases e; exact ⟨rfl, Finset.mem_insert_self ..⟩
          · exact ⟨(h.keys w b hm).1, Finset.mem_insert_of_mem (h.keys w b hm).2⟩
        · intro w hw
          rcases Finset.mem_insert.1 hw with rfl | hw
          · exact List.mem_cons_self ..
          · exact List.mem_cons_of_mem _ (h.all w hw)
        · show c.num + 1 = _
          rw [hci, h.card]
      obtain ⟨c', hc', hk'⟩ := ih _ _ hk hcard
      refine ⟨c', ?_, hk'⟩
      have hg : c.getOrSet v = some (true, ⟨c.num + 1, (v, true) :: c.register⟩) := by
        rw [getOrSet, get_of_not_mem h hv]
        simp only [Option.bind_eq_bind, hs, Option.bind_some]
      rw [calls, hg]
      simp only [Option.bind_eq_bind, Option.bind_some, hc', List.map_cons]

end ValueCounter

/-- C61: after any sequence of calls with fewer than `2^32` different values the counter reports the number of
different values, and every call answered `true`. -/
theorem C61_counts_distinct (vs : List Nat) (h : vs.dedup.length < 2 ^ 32) :
    ∃ c, ValueCounter.new.calls vs = some (vs.map fun _ => true, c) ∧ c.num = vs.dedup.length := by
  have hk : ValueCounter.new.Knows ∅ := ⟨by simp [ValueCounter.new], by simp, rfl⟩
  have e : vs.toFinset.card = vs.dedup.length := List.card_toFinset vs
  obtain ⟨c, hc, hkc⟩ := ValueCounter.calls_knows vs _ _ hk (by rw [Finset.empty_union, e]; exact h)
  refine ⟨c, hc, ?_⟩
  rw [hkc.card, Finset.empty_union, e]

/-- C61: five calls, three values. -/
theorem C61_instance : ∃ c, ValueCounter.new.calls [5, 7, 5, 5, 9] = some ([true, true, true, true, true], c) ∧
    c.num = 3 := C61_counts_distinct [5, 7, 5, 5, 9] (by decide)

end TapStark
