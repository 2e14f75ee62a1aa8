import Verif.Model.ScriptHelper
import Verif.Proofs.U31
import Verif.Proofs.U32Std

/- Lemmas about the bit scripts of script_helper.rs. -/

namespace TapStark

variable {cfg : Cfg} {ops : List Op} {m a : List Elem} {c : List Bool}

/-! ### Splitting a value into bits -/

theorem run_valueBit {x k : Nat} (hk : k ≤ 30) (hx : x < 2 * 2 ^ k) (h : live c = true) :
    run cfg (valueBit k ++ ops) ⟨num x :: m, a, c⟩ =
      run cfg ops ⟨num (x % 2 ^ k : Nat) :: m, bitElem x k :: a, c⟩ := by
  have hp := pow_le_31 hk
  have h0 : 0 < 2 ^ k := Nat.two_pow_pos k
  rw [bitElem_of_lt hx]
  unfold valueBit
  generalize 2 ^ k = p at *
  by_cases hs : p ≤ x
  · have e : decide ((x : Int) > (p - 1 : Nat)) = true := by simp; omega
    sexec [e]
    have e2 : (x : Int) - p = (x % p : Nat) := by
      rw [Nat.mod_eq_sub_mod hs, Nat.mod_eq_of_lt (by omega)]; omega
    rw [e2, decide_eq_true hs]; rfl
  · have e : decide ((x : Int) > (p - 1 : Nat)) = false := by simp; omega
    sexec [e]
    rw [Nat.mod_eq_of_lt (by omega), decide_eq_false hs]; rfl

theorem run_valueBits : ∀ {n : Nat} (_ : n ≤ 31) {x : Nat} {a : List Elem}, x < 2 ^ n → live c = true →
    run cfg (valueBits n ++ ops) ⟨num x :: m, a, c⟩ =
      run cfg ops ⟨num 0 :: m, bitElems x n ++ a, c⟩ := by
  intro n
  induction n with
  | zero => intro _ x a hx h; obtain rfl : x = 0 := by simpa using hx
            rfl
  | succ k ih =>
    intro hk x a hx h
    rw [valueBits, List.append_assoc, run_valueBit (by omega) (by rw [Nat.pow_succ] at hx; omega) h,
      ih (by omega) (Nat.mod_lt _ (Nat.two_pow_pos k)) h, bitElems_mod (Nat.le_refl k), bitElems_succ]
    simp

theorem length_bitElems (x n : Nat) : (bitElems x n).length = n := by simp [bitElems]

theorem run_valueToBits {n x : Nat} {p : List Op} (hp : valueToBits n = some p) (hx : x < 2 ^ n) (h : live c = true) :
    run cfg (p ++ ops) ⟨num x :: m, a, c⟩ = run cfg ops ⟨(bitElems x n).reverse ++ m, a, c⟩ := by
  unfold valueToBits at hp
  split at hp
  · cases hp
  rename_i hn
  cases hp
  rw [List.append_assoc, List.append_assoc, run_valueBits (by omega) hx h]
  sexec
  rw [run_u31fromAlts (length_bitElems x n) h]

/-! ### Out of range values -/

theorem run_valueBit_big {x : Nat} {k : Nat} (hk : k ≤ 30) (hx : 2 ^ k ≤ x) (hx2 : x < 2147483648) (h : live c = true) :
    run cfg (valueBit k ++ ops) ⟨num x :: m, a, c⟩ =
      run cfg ops ⟨num (x - 2 ^ k : Nat) :: m, num 1 :: a, c⟩ := by
  have hp := pow_le_31 hk
  have h0 : 0 < 2 ^ k := Nat.two_pow_pos k
  unfold valueBit
  generalize 2 ^ k = p at *
  have e : decide ((x : Int) > (p - 1 : Nat)) = true := by simp; omega
  sexec [e]
  rw [show (x : Int) - p = (x - p : Nat) by omega]

theorem run_valueBits_big : ∀ {n : Nat} (_ : n ≤ 31) {x : Nat} {a : List Elem}, 2 ^ n ≤ x + 1 → x < 2147483648 →
    live c = true → run cfg (valueBits n ++ ops) ⟨num x :: m, a, c⟩ =
      run cfg ops ⟨num (x + 1 - 2 ^ n : Nat) :: m, List.replicate n (num 1) ++ a, c⟩ := by
  intro n
  induction n with
  | zero => intro _ x a hx _ h; simp [valueBits]
  | succ k ih =>
    intro hk x a hx hx2 h
    have h0 : 0 < 2 ^ k := Nat.two_pow_pos k
    rw [Nat.pow_succ] at hx ⊢
    rw [valueBits, List.append_assoc, run_valueBit_big (by omega) (by omega) hx2 h,
      ih (by omega) (by omega) (by omega) h]
    rw [show x - 2 ^ k + 1 - 2 ^ k = x + 1 - 2 ^ k * 2 by omega, List.replicate_succ']
    simp

theorem run_valueToBits_big {n x : Nat} {p : List Op} (hp : valueToBits n = some p) (hx : 2 ^ n ≤ x + 1)
    (hx2 : x < 2147483648) (h : live c = true) :
    run cfg (p ++ ops) ⟨num x :: m, a, c⟩ = run cfg ops ⟨List.replicate n (num 1) ++ m, a, c⟩ := by
  unfold valueToBits at hp
  split at hp
  · cases hp
  rename_i hn
  cases hp
  rw [List.append_assoc, List.append_assoc, run_valueBits_big (by omega) hx hx2 h]
  sexec
  rw [run_u31fromAlts (by simp) h]
  simp

/-! ### Putting bits together -/

/-- The number with binary digits `bs`, highest first, after the digits of `v`. -/
def digits (v : Nat) (bs : List Nat) : Nat := bs.foldl (fun v b => 2 * v + b) v

theorem run_compressSteps : ∀ {bs : List Nat} {v : Nat} {m : List Elem}, (∀ b ∈ bs, b ≤ 1) →
    (v + 1) * 2 ^ bs.length ≤ 2147483648 → live c = true →
    run cfg (emitN bs.length compressStep ++ ops) ⟨num v :: (bs.map (fun b => num (b : Nat)) ++ m), a, c⟩ =
      run cfg ops ⟨num (digits v bs : Nat) :: m, a, c⟩ := by
  intro bs
  induction bs with
  | nil => intro v m _ _ _; rfl
  | cons b bs ih =>
    intro v m hb hv h
    have hb0 := hb b (List.mem_cons_self ..)
    have hp : 0 < 2 ^ bs.length := Nat.two_pow_pos _
    rw [List.length_cons, Nat.pow_succ] at hv
    have h1 : (v + 1) * 2 ≤ 2147483648 :=
      Nat.le_trans (by rw [Nat.mul_comm (2 ^ _), ← Nat.mul_assoc]; exact Nat.le_mul_of_pos_right _ hp) hv
    rw [List.length_cons, emitN_succ, List.append_assoc, compressStep]
    simp only [List.map_cons]
    sexec
    rw [show (b : Int) + (v + v) = (2 * v + b : Nat) by omega]
    have := ih (v := 2 * v + b) (m := m) (fun b hb' => hb b (List.mem_cons_of_mem _ hb')) (by
      refine Nat.le_trans (Nat.mul_le_mul_right _ (show 2 * v + b + 1 ≤ (v + 1) * 2 by omega)) ?_
      rw [Nat.mul_assoc, Nat.mul_comm 2]; exact hv) h
    rw [compressStep] at this
    rw [this]; rfl

/-- The bits of `x` below `n`, lowest first. -/
def bitNats (x n : Nat) : List Nat := (List.range n).map fun k => x / 2 ^ k % 2

theorem bitNats_le {x n b : Nat} (h : b ∈ bitNats x n) : b ≤ 1 := by
  simp [bitNats] at h
  obtain ⟨k, _, rfl⟩ := h
  have := Nat.mod_lt (x / 2 ^ k) Nat.zero_lt_two
  omega

theorem bitElems_eq_map (x n : Nat) : bitElems x n = (bitNats x n).map (fun b => num (b : Nat)) := by
  simp only [bitElems, bitNats, List.map_map]; rfl

theorem length_bitNats (x n : Nat) : (bitNats x n).length = n := by simp [bitNats]

theorem bitNats_succ (x n : Nat) : bitNats x (n + 1) = bitNats x n ++ [x / 2 ^ n % 2] := by
  simp [bitNats, List.range_succ]

theorem digits_append (v : Nat) (bs cs : List Nat) : digits v (bs ++ cs) = digits (digits v bs) cs := by
  simp [digits, List.foldl_append]

theorem digits_high (x : Nat) : ∀ (n v : Nat), digits v (bitNats x n).reverse = v * 2 ^ n + x % 2 ^ n := by
  intro n
  induction n with
  | zero => intro v; simp [digits, bitNats, Nat.mod_one]
  | succ n ih =>
    intro v
    rw [bitNats_succ, List.reverse_append]
    show digits (2 * v + x / 2 ^ n % 2) (bitNats x n).reverse = _
    rw [ih, Nat.pow_succ, Nat.mod_mul, Nat.add_mul]
    rw [Nat.mul_comm 2 v, Nat.mul_assoc, Nat.mul_comm 2, Nat.mul_comm (x / 2 ^ n % 2)]
    omega

/-- Bit reversal of the lowest `n` bits. -/
def revN (x n : Nat) : Nat := digits 0 (bitNats x n)

theorem revN_succ (x n : Nat) : revN x (n + 1) = 2 * revN x n + x / 2 ^ n % 2 := by
  rw [revN, bitNats_succ, digits_append]; rfl

theorem revN_lt (x : Nat) : ∀ n, revN x n < 2 ^ n := by
  intro n
  induction n with
  | zero => simp [revN, digits, bitNats]
  | succ n ih =>
    rw [revN_succ, Nat.pow_succ]
    have := Nat.mod_lt (x / 2 ^ n) Nat.zero_lt_two
    omega

theorem revN_testBit (x : Nat) : ∀ n k, k < n → (revN x n).testBit k = x.testBit (n - 1 - k) := by
  intro n
  induction n with
  | zero => intro k hk; omega
  | succ n ih =>
    intro k hk
    rw [revN_succ]
    have hb := Nat.mod_lt (x / 2 ^ n) Nat.zero_lt_two
    cases k with
    | zero =>
      rw [Nat.testBit_zero, Nat.testBit_eq_decide_div_mod_eq]
      congr 1
      simp only [Nat.add_sub_cancel, Nat.sub_zero]
      apply propext
      omega
    | succ k =>
      rw [Nat.testBit_succ, show (2 * revN x n + x / 2 ^ n % 2) / 2 = revN x n by omega, ih k (by omega)]
      congr 1
      omega

/-- The highest bit is on top of `num` of it, and the others follow. -/
theorem run_compressBits {x n : Nat} {p : List Op} (hp : compressBits n = some p) (h : live c = true) :
    run cfg (p ++ ops) ⟨(bitElems x n).reverse ++ m, a, c⟩ = run cfg ops ⟨num (x % 2 ^ n : Nat) :: m, a, c⟩ := by
  unfold compressBits at hp
  split at hp
  · cases hp
  rename_i hn
  cases hp
  obtain ⟨k, rfl⟩ : ∃ k, n = k + 1 := ⟨n - 1, by omega⟩
  rw [bitElems_eq_map, bitNats_succ, List.map_append, List.reverse_append,
    ← List.map_reverse (l := bitNats x k)]
  have hb := Nat.mod_lt (x / 2 ^ k) Nat.zero_lt_two
  have hk : 2 ^ k ≤ 2 ^ 30 := Nat.pow_le_pow_right Nat.zero_lt_two (by omega)
  have := run_compressSteps (cfg := cfg) (ops := ops) (a := a) (c := c) (bs := (bitNats x k).reverse)
    (v := x / 2 ^ k % 2) (m := m) (fun b hb => bitNats_le (List.mem_reverse.1 hb)) (by
      rw [List.length_reverse, length_bitNats]
      exact Nat.le_trans (Nat.mul_le_mul (show _ ≤ 2 by omega) hk) (by decide)) h
  rw [List.length_reverse, length_bitNats, digits_high] at this
  have e : x / 2 ^ k % 2 * 2 ^ k + x % 2 ^ k = x % 2 ^ (k + 1) := by
    rw [Nat.pow_succ, Nat.mod_mul, Nat.mul_comm]; omega
  rw [e] at this
  exact this

theorem run_compressBits_rev {x n : Nat} {p : List Op} (hp : compressBits n = some p) (h : live c = true) :
    run cfg (p ++ ops) ⟨bitElems x n ++ m, a, c⟩ = run cfg ops ⟨num (revN x n : Nat) :: m, a, c⟩ := by
  unfold compressBits at hp
  split at hp
  · cases hp
  rename_i hn
  cases hp
  obtain ⟨k, rfl⟩ : ∃ k, n = k + 1 := ⟨n - 1, by omega⟩
  have hl : bitNats x (k + 1) = x % 2 :: (List.range k).map (fun j => x / 2 ^ (j + 1) % 2) := by
    simp [bitNats, List.range_succ_eq_map, Function.comp_def]
  have hle : ∀ b ∈ (List.range k).map (fun j => x / 2 ^ (j + 1) % 2), b ≤ 1 := fun b hb =>
    bitNats_le (x := x) (n := k + 1) (by rw [hl]; exact List.mem_cons_of_mem _ hb)
  have hb := Nat.mod_lt x Nat.zero_lt_two
  have hk : 2 ^ k ≤ 2 ^ 30 := Nat.pow_le_pow_right Nat.zero_lt_two (by omega)
  have := run_compressSteps (cfg := cfg) (ops := ops) (a := a) (c := c)
    (bs := (List.range k).map (fun j => x / 2 ^ (j + 1) % 2))
    (v := x % 2) (m := m) hle (by
      rw [List.length_map, List.length_range]
      exact Nat.le_trans (Nat.mul_le_mul (show _ ≤ 2 by omega) hk) (by decide)) h
  rw [List.length_map, List.length_range] at this
  rw [bitElems_eq_map, revN, hl]
  have e : digits 0 (x % 2 :: (List.range k).map (fun j => x / 2 ^ (j + 1) % 2)) =
      digits (x % 2) ((List.range k).map (fun j => x / 2 ^ (j + 1) % 2)) := by
    show digits (2 * 0 + x % 2) _ = _
    rw [Nat.mul_zero, Nat.zero_add]
  rw [e]
  exact this

theorem run_pickReverse_aux {l : List Elem} : ∀ {n : Nat} {ops : List Op}, n ≤ l.length → n ≤ 31 → live c = true →
    run cfg (pickReverse n ++ ops) ⟨l ++ m, a, c⟩ = run cfg ops ⟨(l.take n).reverse ++ (l ++ m), a, c⟩ := by
  intro n
  induction n with
  | zero => intro ops _ _ h; simp [pickReverse]
  | succ n ih =>
    intro ops hn h31 h
    have e : pickReverse (n + 1) = pickReverse n ++ [.num (n * 2 : Nat), .pick] := by
      simp [pickReverse, List.range_succ]
    rw [e, List.append_assoc, ih (by omega) (by omega) h]
    have hg : ((l.take n).reverse ++ (l ++ m))[n * 2]? = some l[n] := by
      rw [List.getElem?_append_right (by simp; omega), List.getElem?_append_left (by simp; omega)]
      simp only [List.length_reverse, List.length_take]
      rw [show n * 2 - min n l.length = n by omega]
      exact List.getElem?_eq_getElem (by omega)
    rw [List.cons_append, run_num _ h, List.cons_append, run_pick h (by omega)]
    rw [Int.toNat_natCast, hg, List.take_succ_eq_append_getElem (by omega), List.reverse_append]
    rfl

theorem run_pickReverse {l : List Elem} {n : Nat} (hn : l.length = n) (h31 : n ≤ 31) (h : live c = true) :
    run cfg (pickReverse n ++ ops) ⟨l ++ m, a, c⟩ = run cfg ops ⟨l.reverse ++ (l ++ m), a, c⟩ := by
  rw [run_pickReverse_aux (by omega) h31 h, List.take_of_length_le (by omega)]

theorem compressBits_le {n : Nat} {p : List Op} (hp : compressBits n = some p) : 0 < n ∧ n ≤ 31 := by
  unfold compressBits at hp
  split at hp
  · cases hp
  · omega

theorem run_indexToReverseIndex {n x : Nat} {p : List Op} (hp : indexToReverseIndex n = some p) (hx : x < 2 ^ n)
    (h : live c = true) :
    run cfg (p ++ ops) ⟨num x :: m, a, c⟩ = run cfg ops ⟨num (revN x n : Nat) :: m, a, c⟩ := by
  unfold indexToReverseIndex at hp
  obtain ⟨v, hv, hp⟩ := Option.bind_eq_some_iff.1 hp
  obtain ⟨cb, hc, hp⟩ := Option.bind_eq_some_iff.1 hp
  cases hp
  simp only [List.append_assoc]
  have hn := compressBits_le hc
  rw [run_valueToBits hv hx h, run_pickReverse (by simp [length_bitElems]) hn.2 h, List.reverse_reverse,
    run_compressBits_rev hc h]
  sexec
  rw [run_u31drops (l := (bitElems x n).reverse) (by simp [length_bitElems]) h]
  sexec

theorem digits_ones : ∀ (n v : Nat), digits v (List.replicate n 1) = (v + 1) * 2 ^ n - 1 := by
  intro n
  induction n with
  | zero => intro v; simp [digits]
  | succ n ih =>
    intro v
    rw [List.replicate_succ]
    show digits (2 * v + 1) (List.replicate n 1) = _
    rw [ih, Nat.pow_succ, show 2 * v + 1 + 1 = (v + 1) * 2 by omega, Nat.mul_assoc, Nat.mul_comm 2]

theorem run_indexToReverseIndex_big {n x : Nat} {p : List Op} (hp : indexToReverseIndex n = some p)
    (hx : 2 ^ n ≤ x) (hx2 : x < 2147483648) (h : live c = true) :
    run cfg (p ++ ops) ⟨num x :: m, a, c⟩ = run cfg ops ⟨num (2 ^ n - 1 : Nat) :: m, a, c⟩ := by
  unfold indexToReverseIndex at hp
  obtain ⟨v, hv, hp⟩ := Option.bind_eq_some_iff.1 hp
  obtain ⟨cb, hc, hp⟩ := Option.bind_eq_some_iff.1 hp
  cases hp
  simp only [List.append_assoc]
  have hn := compressBits_le hc
  rw [run_valueToBits_big hv (by omega) hx2 h, run_pickReverse (by simp) hn.2 h, List.reverse_replicate]
  unfold compressBits at hc
  rw [if_neg (by omega)] at hc
  cases hc
  obtain ⟨k, rfl⟩ : ∃ k, n = k + 1 := ⟨n - 1, by omega⟩
  have hk : 2 ^ k ≤ 2 ^ 30 := Nat.pow_le_pow_right Nat.zero_lt_two (by omega)
  have hr := run_compressSteps (cfg := cfg) (a := a) (c := c) (bs := List.replicate k 1)
    (ops := .toAlt :: (emitN (k + 1) [.drop] ++ .fromAlt :: ops))
    (v := 1) (m := List.replicate (k + 1) (num 1) ++ m)
    (fun b hb => by rw [(List.mem_replicate.1 hb).2]; exact Nat.le_refl 1)
    (by rw [List.length_replicate]; omega) h
  rw [List.length_replicate, List.map_replicate, digits_ones] at hr
  rw [List.replicate_succ, List.cons_append]
  rw [List.replicate_succ, List.cons_append] at hr
  show run cfg (emitN k compressStep ++ .toAlt :: (emitN (k + 1) [.drop] ++ .fromAlt :: ops)) _ = _
  refine hr.trans ?_
  rw [run_toAlt _ h, ← List.cons_append, ← List.replicate_succ,
    run_u31drops (l := List.replicate (k + 1) (num 1)) (by simp) h]
  sexec
  rw [Nat.pow_succ, Nat.mul_comm]

/-! ### High bits -/

theorem run_valueTo32Bits_pos {x : Nat} (hx : x < 2147483648) (h : live c = true) :
    run cfg (valueTo32Bits ++ ops) ⟨num x :: m, a, c⟩ =
      run cfg ops ⟨(bitElems x 32).reverse ++ m, a, c⟩ := by
  unfold valueTo32Bits value32Bit
  simp only [List.append_assoc]
  have e : decide ((x : Int) < 0) = false := by simp
  sexec [e]
  rw [run_valueBits (by omega) (by omega) h]
  sexec
  have e2 : bitElems x 31 ++ num 0 :: a = bitElems x 32 ++ a := by
    rw [bitElems_succ x 31, List.append_assoc]
    congr 2
    unfold bitElem
    rw [Nat.div_eq_of_lt (by omega)]; rfl
  rw [e2, run_u31fromAlts (length_bitElems x 32) h]

theorem run_valueTo32Bits_neg {x : Nat} (hx0 : 0 < x) (hx : x < 2147483648) (h : live c = true) :
    run cfg (valueTo32Bits ++ ops) ⟨num (-(x : Int)) :: m, a, c⟩ =
      run cfg ops ⟨(bitElems (4294967296 - x) 32).reverse ++ m, a, c⟩ := by
  unfold valueTo32Bits value32Bit
  simp only [List.append_assoc]
  have e : decide (-(x : Int) < 0) = true := by simp; omega
  sexec [e]
  rw [show -(x : Int) - -2147483647 + 1 = (2147483648 - x : Nat) by omega, run_valueBits (by omega) (by omega) h]
  sexec
  have e2 : bitElems (2147483648 - x) 31 ++ num 1 :: a = bitElems (4294967296 - x) 32 ++ a := by
    rw [bitElems_succ _ 31, List.append_assoc]
    congr 1
    · rw [← bitElems_mod (x := 4294967296 - x) (Nat.le_refl 31)]
      congr 1
      rw [show (2 : Nat) ^ 31 = 2147483648 from rfl]
      omega
    · congr 1
      unfold bitElem
      rw [show (4294967296 - x) / 2 ^ 31 % 2 = 1 by rw [show (2 : Nat) ^ 31 = 2147483648 from rfl]; omega]; rfl
  rw [e2, run_u31fromAlts (length_bitElems _ 32) h]

theorem run_compressCustomBits {x len : Nat} {p : List Op} (hp : compressCustomBits 32 len = some p)
    (h : live c = true) :
    run cfg (p ++ ops) ⟨(bitElems x 32).reverse ++ m, a, c⟩ =
      run cfg ops ⟨num (x % 2 ^ 32 / 2 ^ (32 - len) : Nat) :: m, a, c⟩ := by
  unfold compressCustomBits at hp
  split at hp
  · cases hp
  rename_i hn
  cases hp
  have hb : compressBits len = some (emitN (len - 1) compressStep) := by
    unfold compressBits; rw [if_neg (by omega)]
  have hsplit : (bitElems x 32).reverse =
      (bitElems (x / 2 ^ (32 - len)) len).reverse ++ (bitElems x (32 - len)).reverse := by
    rw [← List.reverse_append]
    congr 1
    have : List.range 32 = List.range (32 - len) ++ (List.range len).map (fun i => 32 - len + i) := by
      rw [← List.range_add]; congr 1; omega
    unfold bitElems
    rw [this, List.map_append, List.map_map]
    congr 1
    apply List.map_congr_left
    intro i _
    show bitElem x (32 - len + i) = _
    unfold bitElem
    rw [Nat.pow_add, Nat.div_div_eq_div_mul]
  rw [hsplit]
  simp only [List.append_assoc]
  rw [run_compressBits hb h]
  sexec
  rw [run_u31drops (l := (bitElems x (32 - len)).reverse) (by simp [length_bitElems]) h]
  sexec
  have e : x / 2 ^ (32 - len) % 2 ^ len = x % 2 ^ 32 / 2 ^ (32 - len) := by
    have h32 : (2 : Nat) ^ 32 = 2 ^ (32 - len) * 2 ^ len := by rw [← Nat.pow_add]; congr 1; omega
    rw [h32, Nat.mod_mul_right_div_self]
  rw [e]

/-! ### Tables -/

theorem run_opTable {t : List Nat} (h : live c = true) :
    run cfg (opTable t ++ ops) ⟨m, a, c⟩ = run cfg ops ⟨t.map (fun v => num (v : Nat)) ++ m, a, c⟩ := by
  unfold opTable
  suffices ∀ (l : List Nat) (m : List Elem), run cfg (l.map (fun (v : Nat) => Op.num v) ++ ops) ⟨m, a, c⟩ =
      run cfg ops ⟨(l.map (fun v => num (v : Nat))).reverse ++ m, a, c⟩ by
    rw [this]; simp
  intro l
  induction l with
  | nil => intro m; rfl
  | cons v l ih => intro m; rw [List.map_cons, List.cons_append, run_num _ h, ih]; simp

theorem run_opLookup {t : List Elem} {i : Nat} {e : Elem} (hi : i < 2147483648) (he : (t ++ m)[i]? = some e)
    (h : live c = true) :
    run cfg (opLookup t.length ++ ops) ⟨num i :: (t ++ m), a, c⟩ = run cfg ops ⟨e :: m, a, c⟩ := by
  unfold opLookup
  simp only [List.append_assoc, List.cons_append, List.nil_append]
  rw [run_pick h (by omega), Int.toNat_natCast, he]
  simp only
  rw [run_toAlt _ h, run_u31drops (l := t) rfl h]
  sexec

end TapStark
