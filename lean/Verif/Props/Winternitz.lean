import Verif.Proofs.Winternitz
import Verif.Props.Words

/-
Properties C13-C18 and C67: Winternitz signatures and bit commitments.

`ValidSig h minimal pk e x d` (Verif/Spec/Winternitz.lean) says that the ten stack pairs
`(e j, x j)` open the digits `d j` under the public key `pk` and that the checksum digits match.
-/

namespace TapStark

/-! ### C14 -/

/-- C14: the verification script for a ten-element public key accepts a stack exactly when its top
twenty elements are a valid signature of some digits, and then replaces them by the four bytes of
the signed value.  `m` is any stack whatsoever. -/
theorem C14_exact (cfg : Cfg) (pk : List Elem) (hpk : pk.length = 10) (p : List Op)
    (hp : checksigVerify pk = some p) (m a : List Elem) (s' : St) :
    run cfg p ⟨m, a, []⟩ = some s' ↔
      ∃ (e x : Nat → Elem) (d : Nat → Nat) (rest : List Elem),
        m = sigStack e x ++ rest ∧
        ValidSig cfg.hash160 cfg.minimal (fun i => pk.getD i []) e x d ∧
        s' = ⟨wordElems (BitVec.ofNat 32 (messageValue d)) ++ rest, a, []⟩ := by
  match pk, hpk with
  | [p0, p1, p2, p3, p4, p5, p6, p7, p8, p9], _ =>
    rw [checksigVerify_eq] at hp
    obtain rfl := Option.some.inj hp
    rw [List.append_assoc, run_checkDigits _ rfl]
    constructor
    · intro h
      cases ht : takeDigits cfg [p9, p8, p7, p6, p5, p4, p3, p2, p1, p0] m with
      | none => rw [ht] at h; simp at h
      | some q =>
        obtain ⟨ds, r⟩ := q
        obtain ⟨es, xs, he, hx, hds, hm, ho⟩ := takeDigits_iff.mp ht
        rw [ht] at h
        simp only [List.length_cons, List.length_nil, Nat.zero_add, Nat.reduceAdd] at he hx hds ho
        match es, he with
        | [e0, e1, e2, e3, e4, e5, e6, e7, e8, e9], _ =>
        match xs, hx with
        | [x0, x1, x2, x3, x4, x5, x6, x7, x8, x9], _ =>
        match ds, hds with
        | [d0, d1, d2, d3, d4, d5, d6, d7, d8, d9], _ =>
          have hle : ∀ j, j < 10 → [d0, d1, d2, d3, d4, d5, d6, d7, d8, d9].getD j 0 ≤ 15 :=
            fun j hj => digitOf_le (opensDigit_iff.mp (ho j hj)).1
          have l0 := hle 0 (by decide); have l1 := hle 1 (by decide); have l2 := hle 2 (by decide)
          have l3 := hle 3 (by decide); have l4 := hle 4 (by decide); have l5 := hle 5 (by decide)
          have l6 := hle 6 (by decide); have l7 := hle 7 (by decide); have l8 := hle 8 (by decide)
          have l9 := hle 9 (by decide)
          simp only [List.getD_cons_zero, List.getD_cons_succ] at l0 l1 l2 l3 l4 l5 l6 l7 l8 l9
          simp only [List.map_cons, List.map_nil, List.reverse_cons, List.reverse_nil, List.nil_append,
            List.cons_append] at h
          rw [run_checkChecksum d0 d1 d2 d3 d4 d5 d6 d7 d8 d9 l0 l1 l2 l3 l4 l5 l6 l7 l8 l9 rfl] at h
          split at h
          · rename_i hsum
            rw [← List.append_nil digitsToBytes,
              run_digitsToBytes d2 d3 d4 d5 d6 d7 d8 d9 l2 l3 l4 l5 l6 l7 l8 l9 rfl, run_nil] at h
            refine ⟨fun j => [e0, e1, e2, e3, e4, e5, e6, e7, e8, e9].getD j [],
              fun j => [x0, x1, x2, x3, x4, x5, x6, x7, x8, x9].getD j [],
              fun j => [d0, d1, d2, d3, d4, d5, d6, d7, d8, d9].getD j 0, r, hm, ⟨?_, hsum⟩, ?_⟩
            · intro j hj
              have := ho j hj
              match j, hj with
              | 0, _ | 1, _ | 2, _ | 3, _ | 4, _ | 5, _ | 6, _ | 7, _ | 8, _ | 9, _ => exact this
            · rw [messageWord _ hle]
              exact (Option.some.inj h).symm
          · simp at h
    · rintro ⟨e, x, d, rest, rfl, hv, rfl⟩
      have hle : ∀ j, j < 10 → d j ≤ 15 :=
        fun j hj => digitOf_le (opensDigit_iff.mp (hv.opens j hj)).1
      have ht : takeDigits cfg [p9, p8, p7, p6, p5, p4, p3, p2, p1, p0] (sigStack e x ++ rest) =
          some ([d 0, d 1, d 2, d 3, d 4, d 5, d 6, d 7, d 8, d 9], rest) := by
        refine takeDigits_iff.mpr ⟨[e 0, e 1, e 2, e 3, e 4, e 5, e 6, e 7, e 8, e 9],
          [x 0, x 1, x 2, x 3, x 4, x 5, x 6, x 7, x 8, x 9], rfl, rfl, rfl, rfl, ?_⟩
        intro j hj
        have := hv.opens j hj
        match j, hj with
        | 0, _ | 1, _ | 2, _ | 3, _ | 4, _ | 5, _ | 6, _ | 7, _ | 8, _ | 9, _ => exact this
      rw [ht]
      simp only [List.map_cons, List.map_nil, List.reverse_cons, List.reverse_nil, List.nil_append,
        List.cons_append]
      rw [run_checkChecksum _ _ _ _ _ _ _ _ _ _ (hle 0 (by decide)) (hle 1 (by decide))
        (hle 2 (by decide)) (hle 3 (by decide)) (hle 4 (by decide)) (hle 5 (by decide))
        (hle 6 (by decide)) (hle 7 (by decide)) (hle 8 (by decide)) (hle 9 (by decide)) rfl,
        if_pos (by have := hv.checksum; unfold ChecksumOk messageSum at this; exact this), ← List.append_nil digitsToBytes,
        run_digitsToBytes _ _ _ _ _ _ _ _ (hle 2 (by decide)) (hle 3 (by decide)) (hle 4 (by decide))
        (hle 5 (by decide)) (hle 6 (by decide)) (hle 7 (by decide)) (hle 8 (by decide))
        (hle 9 (by decide)) rfl, messageWord _ hle]
      rfl

/-- C14: digits of a valid signature are between 0 and 15. -/
theorem C14_digit_range {h : Elem → Elem} {minimal : Bool} {pk e x : Nat → Elem} {d : Nat → Nat}
    (hv : ValidSig h minimal pk e x d) (j : Nat) (hj : j < 10) : d j ≤ 15 := by
  obtain ⟨v, _, _, h3, _⟩ := hv.opens j hj
  omega

/-! ### C16 -/

/-- C16: `to_digits(v, n)` has `n` digits below 16. -/
theorem C16_digits_range (v n : Nat) : (toDigits v n).length = n ∧ ∀ d ∈ toDigits v n, d < 16 := by
  induction n generalizing v with
  | zero => simp [toDigits]
  | succ n ih =>
    simp only [toDigits, List.length_cons, List.mem_cons, (ih _).1, true_and]
    rintro d (rfl | hd)
    · exact Nat.mod_lt _ (by decide)
    · exact (ih _).2 d hd

/-- Base-16 value of a digit list, least significant first. -/
def ofDigits16 : List Nat → Nat
  | [] => 0
  | d :: ds => d + 16 * ofDigits16 ds

/-- C16: the digits write the number back, modulo what does not fit. -/
theorem C16_digits_value (v n : Nat) : ofDigits16 (toDigits v n) = v % 16 ^ n := by
  induction n generalizing v with
  | zero => simp [toDigits, ofDigits16, Nat.mod_one]
  | succ n ih =>
    simp only [toDigits, ofDigits16, ih, wDigits]
    have : (v - v % (15 + 1)) / (15 + 1) = v / 16 := by omega
    rw [this, Nat.pow_succ, Nat.mul_comm (16 ^ n) 16, Nat.mod_mul]

/-- C16 for 32-bit words: eight digits are lossless. -/
theorem C16_word (v : BitVec 32) : ofDigits16 (toDigits v.toNat wN0) = v.toNat := by
  rw [C16_digits_value]
  exact Nat.mod_eq_of_lt v.isLt

/-- C16: the checksum of eight digits below 16 exists, is at most 120, complements the digit sum, and
its two digits hold it exactly. -/
theorem C16_checksum (ds : List Nat) (hl : ds.length = 8) (hd : ∀ d ∈ ds, d < 16) :
    ∃ c, wChecksum ds = some c ∧ c ≤ 120 ∧ c + ds.sum = 120 ∧ ofDigits16 (toDigits c wN1) = c := by
  have hs : ds.sum ≤ 15 * 8 := by
    rw [← hl]
    clear hl
    induction ds with
    | nil => simp
    | cons d ds ih =>
      have h1 := hd d (by simp)
      have h2 := ih (fun x hx => hd x (by simp [hx]))
      simp only [List.sum_cons, List.length_cons]
      omega
  refine ⟨120 - ds.sum, ?_, by omega, by omega, ?_⟩
  · unfold wChecksum
    rw [if_neg (by simpa [wN0] using hl), if_pos (by simpa [wDigits, wN0] using hs)]
    rfl
  · rw [C16_digits_value]
    exact Nat.mod_eq_of_lt (by simp [wN1]; omega)

/-- C16: any other number of digits is refused. -/
theorem C16_checksum_length (ds : List Nat) (hl : ds.length ≠ 8) : wChecksum ds = none := by
  unfold wChecksum; rw [if_pos (by simpa [wN0] using hl)]

example : toDigits 0x87654321 8 = [1, 2, 3, 4, 5, 6, 7, 8] ∧
    wChecksum [1, 2, 3, 4, 5, 6, 7, 8] = some 84 ∧ toDigits 84 2 = [4, 5] := by decide

/-! ### C13 -/

/-- The ten digits the code signs for a value: two checksum digits, then eight message digits. -/
def valueDigits (v : BitVec 32) (j : Nat) : Nat :=
  if j < 2 then (120 - (toDigits v.toNat 8).sum) / 16 ^ j % 16 else v.toNat / 16 ^ (j - 2) % 16

theorem toDigits8 (v : Nat) : toDigits v 8 = [v % 16, v / 16 % 16, v / 16 ^ 2 % 16, v / 16 ^ 3 % 16,
    v / 16 ^ 4 % 16, v / 16 ^ 5 % 16, v / 16 ^ 6 % 16, v / 16 ^ 7 % 16] := by
  have e : ∀ u : Nat, (u - u % (15 + 1)) / (15 + 1) = u / 16 := by intro u; omega
  simp only [toDigits, wDigits, e, Nat.div_div_eq_div_mul, Nat.reduceMul, Nat.reducePow, Nat.reduceAdd]

theorem toDigits2 (v : Nat) : toDigits v 2 = [v % 16, v / 16 % 16] := by
  have e : ∀ u : Nat, (u - u % (15 + 1)) / (15 + 1) = u / 16 := by intro u; omega
  simp only [toDigits, wDigits, e, Nat.reduceAdd]

theorem signedDigits_value (v : BitVec 32) :
    signedDigits (toDigits v.toNat wN0) = some ((List.range 10).map (valueDigits v)) := by
  obtain ⟨c, h1, h2, h3, h4⟩ := C16_checksum (toDigits v.toNat 8) (C16_digits_range _ 8).1
    (C16_digits_range _ 8).2
  have hc : c = 120 - (toDigits v.toNat 8).sum := by omega
  unfold signedDigits
  rw [show wN0 = 8 from rfl, h1]
  simp only [Option.bind_eq_bind, Option.bind_some]
  rw [show wN1 = 2 from rfl, toDigits2, hc]
  congr 1
  conv => lhs; arg 2; rw [toDigits8]
  simp [List.range, List.range.loop, valueDigits]

theorem valueDigits_checksum (v : BitVec 32) : ChecksumOk (valueDigits v) := by
  obtain ⟨c, h1, h2, h3, h4⟩ := C16_checksum (toDigits v.toNat 8) (C16_digits_range _ 8).1
    (C16_digits_range _ 8).2
  have hc : 120 - (toDigits v.toNat 8).sum = c := by omega
  have hs : messageSum (valueDigits v) = (toDigits v.toNat 8).sum := by
    rw [toDigits8]
    simp [messageSum, valueDigits]
    omega
  unfold ChecksumOk
  rw [hs]
  have h0 : valueDigits v 0 = c % 16 := by simp [valueDigits, hc]
  have h1' : valueDigits v 1 = c / 16 % 16 := by simp [valueDigits, hc]
  rw [h0, h1']
  omega

theorem valueDigits_value (v : BitVec 32) : messageValue (valueDigits v) = v.toNat := by
  have h := C16_word v
  rw [show wN0 = 8 from rfl, toDigits8] at h
  simp only [ofDigits16] at h
  simp only [messageValue, valueDigits, Nat.reduceLT, if_false, Nat.reduceSub, Nat.pow_zero, Nat.div_one,
    Nat.pow_one]
  omega

theorem valueDigits_le (v : BitVec 32) (j : Nat) : valueDigits v j ≤ 15 := by
  unfold valueDigits
  split <;> omega

theorem new_pubKey {cfg : Cfg} {key : List Char} {secret : List UInt8} (hk : hexDecode key = some secret) :
    Winternitz.new cfg key =
      some ⟨key, (List.range 10).map fun i => hashTimes cfg 15 (chainStart cfg secret i)⟩ := by
  unfold Winternitz.new
  have : generatePublicKey cfg key = fun i => some (hashTimes cfg 15 (chainStart cfg secret i)) := by
    funext i; unfold generatePublicKey; rw [hk]; rfl
  rw [this]
  rfl

theorem new_invalid {cfg : Cfg} {key : List Char} (hk : hexDecode key = none) :
    Winternitz.new cfg key = none := by
  unfold Winternitz.new
  have : generatePublicKey cfg key = fun _ => none := by
    funext i; unfold generatePublicKey; rw [hk]; rfl
  rw [this]
  rfl

theorem commitNew {cfg : Cfg} {key : List Char} {secret : List UInt8} (hk : hexDecode key = some secret)
    (v : BitVec 32) :
    BitCommU32.new cfg key v = some ⟨v, ⟨key, (List.range 10).map fun i =>
      hashTimes cfg 15 (chainStart cfg secret i)⟩, toDigits v.toNat wN0⟩ := by
  unfold BitCommU32.new
  rw [new_pubKey hk]; rfl

/-- The chain value the signer reveals at position `j` from the top. -/
def revealed (cfg : Cfg) (secret : List UInt8) (v : BitVec 32) (j : Nat) : Elem :=
  hashIter cfg.hash160 (valueDigits v j) (chainStart cfg secret (9 - j))

theorem honest_valid (cfg : Cfg) (secret : List UInt8) (v : BitVec 32) :
    ValidSig cfg.hash160 cfg.minimal
      (fun i => ((List.range 10).map fun i => hashTimes cfg 15 (chainStart cfg secret i)).getD i [])
      (fun j => num (valueDigits v j)) (revealed cfg secret v) (valueDigits v) := by
  refine ⟨fun j hj => ⟨valueDigits v j, decodeNum_num ?_, by omega, ?_, ?_⟩, valueDigits_checksum v⟩
  · have := valueDigits_le v j; unfold InRange; omega
  · have := valueDigits_le v j; omega
  · have h1 := valueDigits_le v j
    rw [revealed, ← hashIter_add, show 15 - valueDigits v j + valueDigits v j = 15 by omega]
    simp only [List.getD_eq_getElem?_getD, List.getElem?_map]
    rw [List.getElem?_range (by omega)]
    simp [hashTimes_eq]

theorem sign_eq {cfg : Cfg} {key : List Char} {secret : List UInt8} (hk : hexDecode key = some secret)
    (pk : List Elem) (v : BitVec 32) :
    (Winternitz.mk key pk).sign cfg (toDigits v.toNat wN0) =
      some ((List.range 10).flatMap fun i =>
        [revealed cfg secret v (9 - i), [UInt8.ofNat (valueDigits v (9 - i))]]) := by
  unfold Winternitz.sign
  rw [signedDigits_value]
  have : (Winternitz.mk key pk).digitSignature cfg = fun i d =>
      some (hashTimes cfg d (chainStart cfg secret i), d) := by
    funext i d; unfold Winternitz.digitSignature; rw [hk]; rfl
  rw [this]
  simp only [wN, hashTimes_eq]
  rfl

theorem signScript_eq {cfg : Cfg} {key : List Char} {secret : List UInt8}
    (hk : hexDecode key = some secret) (pk : List Elem) (v : BitVec 32) :
    (Winternitz.mk key pk).signScript cfg (toDigits v.toNat wN0) =
      some ((List.range 10).flatMap fun i =>
        [Op.push (revealed cfg secret v (9 - i)), Op.num (valueDigits v (9 - i))]) := by
  unfold Winternitz.signScript
  rw [signedDigits_value]
  have : (Winternitz.mk key pk).digitSignatureScript cfg = fun i d =>
      some [Op.push (hashTimes cfg d (chainStart cfg secret i)), Op.num d] := by
    funext i d; unfold Winternitz.digitSignatureScript Winternitz.digitSignature; rw [hk]; rfl
  rw [this]
  simp only [wN, hashTimes_eq]
  rfl

theorem digitElem {d : Nat} (h : d ≤ 15) :
    (if [UInt8.ofNat d] = [0] then ([] : Elem) else [UInt8.ofNat d]) = num d := by
  have h16 : ∀ d : Fin 16, (if [UInt8.ofNat d.val] = [0] then ([] : Elem) else [UInt8.ofNat d.val]) =
      num d.val := by decide +kernel
  exact h16 ⟨d, by omega⟩

/-- The elements of the witness `signature()`, top of stack first. -/
theorem signature_eq {cfg : Cfg} (h20 : ∀ x, (cfg.hash160 x).length = 20) {key : List Char}
    {secret : List UInt8} (hk : hexDecode key = some secret) (pk : List Elem) (u v : BitVec 32) :
    ∃ sig, (BitCommU32.mk u ⟨key, pk⟩ (toDigits v.toNat wN0)).signature cfg = some sig ∧
      sig.reverse = sigStack (fun j => num (valueDigits v j)) (revealed cfg secret v) := by
  have hr : ∀ j, (if revealed cfg secret v j = [0] then ([] : Elem) else revealed cfg secret v j) =
      revealed cfg secret v j := by
    intro j
    rw [if_neg]
    intro h
    have : (revealed cfg secret v j).length = 20 := by
      unfold revealed
      cases valueDigits v j with
      | zero => exact h20 _
      | succ n => exact h20 _
    rw [h] at this
    simp at this
  refine ⟨_, by unfold BitCommU32.signature; rw [sign_eq hk]; rfl, ?_⟩
  have hd : ∀ j, (if [UInt8.ofNat (valueDigits v j)] = [0] then ([] : Elem)
      else [UInt8.ofNat (valueDigits v j)]) = num (valueDigits v j) := fun j => digitElem (valueDigits_le v j)
  simp only [List.range, List.range.loop, List.flatMap_cons, List.flatMap_nil, List.cons_append,
    List.nil_append, List.map_cons, List.map_nil, List.reverse_cons, List.reverse_nil, sigStack, hr, hd,
    Nat.sub_self, Nat.reduceSub]

/-- C13: for every valid hex key and every value, a commitment can be made; its signature, run as a
script or supplied as a witness, is accepted by its verification script, which leaves exactly the
bytes of the value. -/
theorem C13_complete (cfg : Cfg) (h20 : ∀ x, (cfg.hash160 x).length = 20) (key : List Char)
    (hk : (hexDecode key).isSome) (v : BitVec 32) :
    ∃ b p s sig, BitCommU32.new cfg key v = some b ∧ b.checksigVerifyScript = some p ∧
      b.signatureScript cfg = some s ∧ b.signature cfg = some sig ∧ ∀ m a,
        run cfg (s ++ p) ⟨m, a, []⟩ = some ⟨wordElems v ++ m, a, []⟩ ∧
        run cfg p ⟨sig.reverse ++ m, a, []⟩ = some ⟨wordElems v ++ m, a, []⟩ := by
  obtain ⟨secret, hs⟩ := Option.isSome_iff_exists.mp hk
  obtain ⟨p, hp⟩ := checksigVerify_exists
    (pk := (List.range 10).map fun i => hashTimes cfg 15 (chainStart cfg secret i)) (by simp)
  obtain ⟨sig, hsig, hrev⟩ := signature_eq h20 hs
    ((List.range 10).map fun i => hashTimes cfg 15 (chainStart cfg secret i)) v v
  have hrun : ∀ m a, run cfg p ⟨sigStack (fun j => num (valueDigits v j)) (revealed cfg secret v) ++ m,
      a, []⟩ = some ⟨wordElems v ++ m, a, []⟩ := by
    intro m a
    refine (C14_exact cfg _ (by simp) p hp _ a _).mpr ⟨_, _, _, m, rfl, honest_valid cfg secret v, ?_⟩
    rw [valueDigits_value, BitVec.ofNat_toNat, BitVec.setWidth_eq]
  refine ⟨_, p, _, sig, commitNew hs v, hp, signScript_eq hs _ v, hsig, fun m a => ⟨?_, ?_⟩⟩
  · have : run cfg ((List.range 10).flatMap fun i =>
        [Op.push (revealed cfg secret v (9 - i)), Op.num (valueDigits v (9 - i))]) ⟨m, a, []⟩ =
        some ⟨sigStack (fun j => num (valueDigits v j)) (revealed cfg secret v) ++ m, a, []⟩ := by
      have hl : live [] = true := rfl
      simp only [List.range, List.range.loop, List.flatMap_cons, List.flatMap_nil, List.cons_append,
        List.nil_append, sigStack, run_push _ hl, run_num _ hl, run_nil, Nat.reduceSub, Nat.sub_self]
    rw [run_append_of this, hrun]
  · rw [hrev, hrun]

/-- C13: an invalid hex key is refused (the code panics). -/
theorem C13_bad_key (cfg : Cfg) (key : List Char) (hk : hexDecode key = none) (v : BitVec 32) :
    BitCommU32.new cfg key v = none := by
  unfold BitCommU32.new; rw [new_invalid hk]; rfl

/-- The raw `sign` output is not accepted when a digit is zero and numbers must be minimal: the
digit element is the byte 0.  `signature` repairs this. -/
theorem C13_raw_sign_zero : ∃ (key : List Char) (v : BitVec 32), ∀ cfg : Cfg, cfg.minimal = true →
    ∃ w p sig, Winternitz.new cfg key = some w ∧ checksigVerify w.pubKey = some p ∧
      w.sign cfg (toDigits v.toNat wN0) = some sig ∧ ∀ m a, run cfg p ⟨sig.reverse ++ m, a, []⟩ = none := by
  refine ⟨['0', '0'], 0#32, fun cfg hm => ?_⟩
  have hk : hexDecode ['0', '0'] = some [0] := by decide
  obtain ⟨p, hp⟩ := checksigVerify_exists
    (pk := (List.range 10).map fun i => hashTimes cfg 15 (chainStart cfg [0] i)) (by simp)
  refine ⟨_, p, _, new_pubKey hk, hp, sign_eq hk _ (0#32), fun m a => ?_⟩
  generalize hst : List.reverse _ ++ m = st
  cases hr : run cfg p ⟨st, a, []⟩ with
  | none => rfl
  | some s' =>
    exfalso
    obtain ⟨e, x, d, rest, h1, h2, h3⟩ := (C14_exact cfg _ (by simp) p hp _ a s').mp hr
    have he : e 2 = [UInt8.ofNat (valueDigits 0#32 2)] := by
      rw [← hst] at h1
      simp only [List.range, List.range.loop, List.flatMap_cons, List.flatMap_nil, List.cons_append,
        List.nil_append, List.reverse_cons, List.reverse_nil, sigStack, List.cons.injEq] at h1
      exact h1.2.2.2.2.1.symm
    obtain ⟨v, hv, _⟩ := h2.opens 2 (by decide)
    rw [he, hm] at hv
    revert hv
    have hz : valueDigits 0#32 2 = 0 := by simp [valueDigits]
    rw [hz]
    simp [decodeNum, isMinimal]

/-! ### C15 -/

/-- C15: the checksum makes digit vectors domination free: if two digit vectors both satisfy the
checksum and differ in a signed position, the second is smaller than the first somewhere. -/
theorem C15_domination (d d' : Nat → Nat) (h : ChecksumOk d) (h' : ChecksumOk d')
    (hne : ∃ j, j < 10 ∧ d j ≠ d' j) : ∃ j, j < 10 ∧ d' j < d j := by
  refine Classical.byContradiction fun hcon => ?_
  have hge : ∀ j, j < 10 → d j ≤ d' j := fun j hj =>
    Nat.le_of_not_lt fun hlt => hcon ⟨j, hj, hlt⟩
  obtain ⟨j, hj, hne⟩ := hne
  have g0 := hge 0 (by decide); have g1 := hge 1 (by decide); have g2 := hge 2 (by decide)
  have g3 := hge 3 (by decide); have g4 := hge 4 (by decide); have g5 := hge 5 (by decide)
  have g6 := hge 6 (by decide); have g7 := hge 7 (by decide); have g8 := hge 8 (by decide)
  have g9 := hge 9 (by decide)
  unfold ChecksumOk messageSum at h h'
  match j, hj with
  | 0, _ | 1, _ | 2, _ | 3, _ | 4, _ | 5, _ | 6, _ | 7, _ | 8, _ | 9, _ => omega

theorem collision_of_iter {h : Elem → Elem} (n : Nat) (u v : Elem) (hne : u ≠ v)
    (heq : hashIter h n u = hashIter h n v) :
    ∃ k, k < n ∧ hashIter h k u ≠ hashIter h k v ∧ h (hashIter h k u) = h (hashIter h k v) := by
  induction n with
  | zero => exact absurd heq hne
  | succ n ih =>
    by_cases hn : hashIter h n u = hashIter h n v
    · obtain ⟨k, hk, h1⟩ := ih hn
      exact ⟨k, by omega, h1⟩
    · exact ⟨n, by omega, hn, heq⟩

/-- C15: let `v` be signed with a key.  If the verification script of that key accepts any witness
and leaves a value other than `v`, then the witness contains a chain value that is a proper
preimage (one or more hashes back) of a value revealed by the signature, or hashing it on the way to
the public key collides with the chain of the revealed value. -/
theorem C15_forgery_needs_preimage (cfg : Cfg) (key : List Char) (secret : List UInt8)
    (hk : hexDecode key = some secret) (v v' : BitVec 32) (b : BitCommU32)
    (hb : BitCommU32.new cfg key v = some b) (p : List Op) (hp : b.checksigVerifyScript = some p)
    (w rest a a' : List Elem) (hacc : run cfg p ⟨w, a, []⟩ = some ⟨wordElems v' ++ rest, a', []⟩)
    (hne : v' ≠ v) :
    ∃ j k x, j < 10 ∧ 0 < k ∧ k ≤ 15 ∧ x ∈ w ∧ (hashIter cfg.hash160 k x = revealed cfg secret v j ∨
      ∃ n, n < 15 ∧ hashIter cfg.hash160 (n + k) x ≠ hashIter cfg.hash160 n (revealed cfg secret v j) ∧
        cfg.hash160 (hashIter cfg.hash160 (n + k) x) =
          cfg.hash160 (hashIter cfg.hash160 n (revealed cfg secret v j))) := by
  rw [commitNew hk] at hb
  obtain rfl := Option.some.inj hb
  obtain ⟨e, x, d, r, h1, h2, h3⟩ := (C14_exact cfg _ (by simp) p hp w a _).mp hacc
  have hw : v' = BitVec.ofNat 32 (messageValue d) := by
    have := congrArg St.main h3
    exact wordElems_injective (List.append_inj this rfl).1
  have hd : ∃ j, j < 10 ∧ valueDigits v j ≠ d j := by
    refine Classical.byContradiction fun hcon => hne ?_
    have heq : ∀ j, j < 10 → valueDigits v j = d j := fun j hj =>
      Classical.byContradiction fun h => hcon ⟨j, hj, h⟩
    have : messageValue d = v.toNat := by
      rw [← valueDigits_value v]
      unfold messageValue
      rw [heq 2 (by decide), heq 3 (by decide), heq 4 (by decide), heq 5 (by decide),
        heq 6 (by decide), heq 7 (by decide), heq 8 (by decide), heq 9 (by decide)]
    rw [hw, this, BitVec.ofNat_toNat, BitVec.setWidth_eq]
  obtain ⟨j, hj, hlt⟩ := C15_domination _ _ (valueDigits_checksum v) h2.checksum hd
  obtain ⟨n, _, _, hdn, hpk⟩ := h2.opens j hj
  obtain ⟨n', _, _, _, hpk'⟩ := (honest_valid cfg secret v).opens j hj
  have hle := valueDigits_le v j
  have hx : x j ∈ w := by
    rw [h1]
    refine List.mem_append_left _ ?_
    unfold sigStack
    rw [List.mem_flatMap]
    exact ⟨j, List.mem_range.mpr hj, by simp⟩
  have heq : hashIter cfg.hash160 (15 - valueDigits v j)
      (hashIter cfg.hash160 (valueDigits v j - d j) (x j)) =
      hashIter cfg.hash160 (15 - valueDigits v j) (revealed cfg secret v j) := by
    rw [← hashIter_add, show 15 - valueDigits v j + (valueDigits v j - d j) = 15 - d j by omega, hpk, hpk']
  refine ⟨j, valueDigits v j - d j, x j, hj, by omega, by omega, hx, ?_⟩
  by_cases hsame : hashIter cfg.hash160 (valueDigits v j - d j) (x j) = revealed cfg secret v j
  · exact .inl hsame
  · obtain ⟨n, hn, h4, h5⟩ := collision_of_iter _ _ _ hsame heq
    rw [← hashIter_add] at h4 h5
    exact .inr ⟨n, by omega, h4, h5⟩

/-- The hypotheses of the previous theorem have instances: a toy hash for which a second value is
accepted. -/
example : ∃ cfg key v v' b p w,
    BitCommU32.new cfg key v = some b ∧ b.checksigVerifyScript = some p ∧
    run cfg p ⟨w, [], []⟩ = some ⟨wordElems v' ++ [], [], []⟩ ∧ v' ≠ v := by
  obtain ⟨b, p, s, sig, h1, h2, h3, h4, h5⟩ := C13_complete ⟨fun _ => List.replicate 20 7, true⟩
    (by simp) ['0', '0'] (by decide) 0#32
  obtain ⟨b', p', s', sig', h1', h2', h3', h4', h5'⟩ :=
    C13_complete ⟨fun _ => List.replicate 20 7, true⟩ (by simp) ['0', '0'] (by decide) 1#32
  have hk : hexDecode ['0', '0'] = some [0] := by decide
  have hpp : p = p' := by
    rw [commitNew hk] at h1 h1'
    obtain rfl := Option.some.inj h1
    obtain rfl := Option.some.inj h1'
    have := h2.symm.trans h2'
    exact Option.some.inj this
  subst hpp
  exact ⟨_, _, 0#32, 1#32, b, p, sig'.reverse, h1, h2, by simpa using (h5' [] []).2, by decide⟩

/-! ### C17 -/

theorem recoverAtStack_honest (cfg : Cfg) (h20 : ∀ x, (cfg.hash160 x).length = 20) (key : List Char)
    (hk : (hexDecode key).isSome) (u v : BitVec 32) :
    ∃ b q sig, BitCommU32.new cfg key u = some b ∧ b.recoverAtStack = some q ∧
      (b.changeValue v).signature cfg = some sig ∧ ∀ m a ops,
        run cfg (q ++ ops) ⟨sig.reverse ++ m, a, []⟩ = run cfg ops ⟨num (signMag v) :: m, a, []⟩ := by
  obtain ⟨secret, hs⟩ := Option.isSome_iff_exists.mp hk
  obtain ⟨p, hp⟩ := checksigVerify_exists
    (pk := (List.range 10).map fun i => hashTimes cfg 15 (chainStart cfg secret i)) (by simp)
  obtain ⟨sig, hsig, hrev⟩ := signature_eq h20 hs
    ((List.range 10).map fun i => hashTimes cfg 15 (chainStart cfg secret i)) v v
  refine ⟨_, p ++ u32Compress, sig, commitNew hs u, ?_, hsig, fun m a ops => ?_⟩
  · unfold BitCommU32.recoverAtStack BitCommU32.checksigVerifyScript
    rw [hp]; rfl
  · have hrun : run cfg p ⟨sig.reverse ++ m, a, []⟩ = some ⟨wordElems v ++ m, a, []⟩ := by
      rw [hrev]
      refine (C14_exact cfg _ (by simp) p hp _ a _).mpr ⟨_, _, _, m, rfl, honest_valid cfg secret v, ?_⟩
      rw [valueDigits_value, BitVec.ofNat_toNat, BitVec.setWidth_eq]
    rw [List.append_assoc, run_append_of hrun, run_u32Compress v rfl]

/-- What `recover_message_euqal_to_commit_message` of a commitment with current value `u` does on a
signature of `v` under the same key: it succeeds exactly when the sign-and-magnitude reading of `v`
is `u`. -/
theorem C17_exact (cfg : Cfg) (h20 : ∀ x, (cfg.hash160 x).length = 20) (key : List Char)
    (hk : (hexDecode key).isSome) (u v : BitVec 32) :
    ∃ b q sig, BitCommU32.new cfg key u = some b ∧ b.recoverEqual = some q ∧
      (b.changeValue v).signature cfg = some sig ∧ ∀ m a,
        run cfg q ⟨sig.reverse ++ m, a, []⟩ =
          if (if v.toNat < 2 ^ 31 then (v.toNat : Int) else 2 ^ 31 - v.toNat) = u.toNat
          then some ⟨m, a, []⟩ else none := by
  obtain ⟨b, q, sig, h1, h2, h3, h4⟩ := recoverAtStack_honest cfg h20 key hk u v
  have hu : b.value = u := by
    unfold BitCommU32.new at h1
    cases hw : Winternitz.new cfg key with
    | none => rw [hw] at h1; simp at h1
    | some w => rw [hw] at h1; obtain rfl := Option.some.inj h1; rfl
  refine ⟨b, q ++ [.num u.toNat, .equalverify], sig, h1, ?_, h3, fun m a => ?_⟩
  · unfold BitCommU32.recoverEqual
    rw [h2, hu]; rfl
  · rw [h4, run_num _ rfl, run_equalverify _ _ rfl]
    have hsm : signMag v = if v.toNat < 2 ^ 31 then (v.toNat : Int) else 2 ^ 31 - v.toNat := by
      unfold signMag
      split <;> omega
    rw [hsm]
    simp only [num_inj, run_nil]
    generalize (if v.toNat < 2 ^ 31 then (v.toNat : Int) else 2 ^ 31 - v.toNat) = z
    by_cases hz : z = u.toNat
    · rw [if_pos hz, if_pos hz.symm]
    · rw [if_neg hz, if_neg (fun h => hz h.symm)]

/-- C17 (the part that holds): below 2^31 and for signed values other than 2^31, the check accepts
exactly the committed value. -/
theorem C17_check_partial (cfg : Cfg) (h20 : ∀ x, (cfg.hash160 x).length = 20) (key : List Char)
    (hk : (hexDecode key).isSome) (u v : BitVec 32) (hu : u.toNat < 2 ^ 31)
    (hv : v ≠ 0x80000000#32) :
    ∃ b q sig, BitCommU32.new cfg key u = some b ∧ b.recoverEqual = some q ∧
      (b.changeValue v).signature cfg = some sig ∧ ∀ m a,
        run cfg q ⟨sig.reverse ++ m, a, []⟩ = if u = v then some ⟨m, a, []⟩ else none := by
  obtain ⟨b, q, sig, h1, h2, h3, h4⟩ := C17_exact cfg h20 key hk u v
  refine ⟨b, q, sig, h1, h2, h3, fun m a => ?_⟩
  rw [h4]
  have hiff : ((if v.toNat < 2 ^ 31 then (v.toNat : Int) else 2 ^ 31 - v.toNat) = u.toNat) ↔ u = v := by
    constructor
    · intro h
      apply BitVec.eq_of_toNat_eq
      split at h
      · omega
      · have : v.toNat ≠ 2147483648 := fun hh => hv (BitVec.eq_of_toNat_eq (by simpa using hh))
        omega
    · rintro rfl; rw [if_pos hu]
  by_cases h : u = v
  · rw [if_pos h, if_pos (hiff.mpr h)]
  · rw [if_neg h, if_neg (fun hh => h (hiff.mp hh))]

/-- C17 is violated: for a committed value of 2^31 or more, no honest signature passes, not even that
of the value itself. -/
theorem C17_rejects_large (cfg : Cfg) (h20 : ∀ x, (cfg.hash160 x).length = 20) (key : List Char)
    (hk : (hexDecode key).isSome) (u v : BitVec 32) (hu : 2 ^ 31 ≤ u.toNat) :
    ∃ b q sig, BitCommU32.new cfg key u = some b ∧ b.recoverEqual = some q ∧
      (b.changeValue v).signature cfg = some sig ∧ ∀ m a,
        run cfg q ⟨sig.reverse ++ m, a, []⟩ = none := by
  obtain ⟨b, q, sig, h1, h2, h3, h4⟩ := C17_exact cfg h20 key hk u v
  refine ⟨b, q, sig, h1, h2, h3, fun m a => ?_⟩
  rw [h4, if_neg]
  split <;> omega

/-- C17 is violated: a signature of 2^31 passes the check of a commitment to 0. -/
theorem C17_accepts_other (cfg : Cfg) (h20 : ∀ x, (cfg.hash160 x).length = 20) (key : List Char)
    (hk : (hexDecode key).isSome) :
    ∃ b q sig, BitCommU32.new cfg key 0#32 = some b ∧ b.recoverEqual = some q ∧
      (b.changeValue 0x80000000#32).signature cfg = some sig ∧ ∀ m a,
        run cfg q ⟨sig.reverse ++ m, a, []⟩ = some ⟨m, a, []⟩ := by
  obtain ⟨b, q, sig, h1, h2, h3, h4⟩ := C17_exact cfg h20 key hk 0#32 0x80000000#32
  exact ⟨b, q, sig, h1, h2, h3, fun m a => by rw [h4, if_pos (by decide)]⟩

/-- A hash function and a key as the theorems above assume. -/
example : (∀ x : Elem, ((fun _ => List.replicate 20 (0 : UInt8)) x).length = 20) ∧
    (hexDecode ['b', '1', '3', '8']).isSome := ⟨fun _ => rfl, by decide⟩

/-! ### C18 -/

theorem nibbles {lo hi : Nat} (h1 : lo < 16) (h2 : hi < 16) : lo ^^^ (hi * 16 % 256) = lo + 16 * hi := by
  have : ∀ lo hi : Fin 16, lo.val ^^^ (hi.val * 16 % 256) = lo.val + 16 * hi.val := by decide +kernel
  exact this ⟨lo, h1⟩ ⟨hi, h2⟩

theorem as4Bytes_eq (w : Winternitz) (u v : BitVec 32) :
    (BitCommU32.mk u w (toDigits v.toNat wN0)).as4Bytes =
      some [byteOf v 3, byteOf v 2, byteOf v 1, byteOf v 0] := by
  unfold BitCommU32.as4Bytes
  rw [show wN0 = 8 from rfl, toDigits8]
  have e : ∀ k, v.toNat / 16 ^ k % 16 ^^^ (v.toNat / 16 ^ (k + 1) % 16 * 16 % 256) =
      v.toNat / 16 ^ k % 256 := by
    intro k
    rw [nibbles (Nat.mod_lt _ (by decide)) (Nat.mod_lt _ (by decide)), Nat.pow_succ,
      ← Nat.div_div_eq_div_mul]
    omega
  have e0 := e 0; have e2 := e 2; have e4 := e 4; have e6 := e 6
  simp only [Nat.pow_zero, Nat.div_one, Nat.zero_add, Nat.pow_one, Nat.reducePow, Nat.reduceAdd] at e0 e2 e4 e6
  simp [List.range, List.range.loop, byteOf, e0, e2, e4, e6]

/-- C13/C17: `commit_u32_as_4bytes_script` of a commitment to `u` accepts a word exactly when it is
`u`. -/
theorem C17_four_bytes (cfg : Cfg) (w : Winternitz) (u v : BitVec 32) (m a : List Elem) :
    ∃ q, (BitCommU32.mk u w (toDigits u.toNat wN0)).as4BytesScript = some q ∧
      run cfg q ⟨wordElems v ++ m, a, []⟩ = if v = u then some ⟨m, a, []⟩ else none := by
  refine ⟨[.num (byteOf u 0), .equalverify, .num (byteOf u 1), .equalverify, .num (byteOf u 2),
    .equalverify, .num (byteOf u 3), .equalverify], ?_, ?_⟩
  · unfold BitCommU32.as4BytesScript
    rw [as4Bytes_eq]; rfl
  · have hl : live [] = true := rfl
    unfold wordElems
    simp only [List.cons_append, List.nil_append, run_num _ hl, run_equalverify _ _ hl, num_inj,
      run_nil, Int.natCast_inj]
    by_cases h : v = u
    · subst h; simp
    · rw [if_neg h]
      by_cases h0 : byteOf u 0 = byteOf v 0
      · rw [if_pos h0]
        by_cases h1 : byteOf u 1 = byteOf v 1
        · rw [if_pos h1]
          by_cases h2 : byteOf u 2 = byteOf v 2
          · rw [if_pos h2]
            by_cases h3 : byteOf u 3 = byteOf v 3
            · exfalso
              refine h (word_ext_bytes fun i hi => ?_)
              match i, hi with
              | 0, _ => exact h0.symm
              | 1, _ => exact h1.symm
              | 2, _ => exact h2.symm
              | 3, _ => exact h3.symm
            · rw [if_neg h3]
          · rw [if_neg h2]
        · rw [if_neg h1]
      · rw [if_neg h0]

/-- One byte of the x-or-minus-x check: exactly one of the two comparisons must hold. -/
def byteMatch (b x n : Nat) : Prop := (b = x ∧ b ≠ n) ∨ (b ≠ x ∧ b = n)

theorem run_xStep {cfg : Cfg} {ops : List Op} {m a : List Elem} (b x n : Nat) :
    run cfg (.dup :: .num x :: .equal :: .swap :: .num n :: .equal :: .add :: .num 1 :: .equalverify :: ops)
        ⟨num b :: m, a, []⟩ =
      open Classical in if byteMatch b x n then run cfg ops ⟨m, a, []⟩ else none := by
  have hl : live [] = true := rfl
  rw [run_dup _ hl, run_num _ hl, run_equal _ _ hl, run_swap _ _ hl, run_num _ hl, run_equal _ _ hl]
  unfold ofBool
  rw [run_add hl (inRange_bool _) (inRange_bool _), run_num _ hl, run_equalverify _ _ hl]
  have e1 : (num (x : Int) = num (b : Int)) ↔ b = x := by rw [num_inj]; omega
  have e2 : (num (n : Int) = num (b : Int)) ↔ b = n := by rw [num_inj]; omega
  simp only [e1, e2, num_inj, byteMatch]
  by_cases h1 : b = x
  · by_cases h2 : b = n
    · simp [eq_true h1, eq_true h2]
    · simp [eq_true h1, eq_false h2]
  · by_cases h2 : b = n
    · simp [eq_false h1, eq_true h2]
    · simp [eq_false h1, eq_false h2]

/-- C18 (what holds): the script of `check_equal_x_or_neg_x_script` for commitments to `x` and `n`
accepts a word exactly when every byte equals the byte of `x` or the byte of `n` but not both. -/
theorem C18_exact_partial (cfg : Cfg) (w w' : Winternitz) (x n v : BitVec 32) (m a : List Elem) :
    ∃ q, (BitCommU32.mk x w (toDigits x.toNat wN0)).checkXOrNegX
        (BitCommU32.mk n w' (toDigits n.toNat wN0)) = some q ∧
      (run cfg q ⟨wordElems v ++ m, a, []⟩ = some ⟨m, a, []⟩ ↔
        ∀ i, i < 4 → byteMatch (byteOf v i) (byteOf x i) (byteOf n i)) ∧
      (run cfg q ⟨wordElems v ++ m, a, []⟩ = none ↔
        ¬ ∀ i, i < 4 → byteMatch (byteOf v i) (byteOf x i) (byteOf n i)) := by
  refine ⟨[.dup, .num (byteOf x 0), .equal, .swap, .num (byteOf n 0), .equal, .add, .num 1, .equalverify,
    .dup, .num (byteOf x 1), .equal, .swap, .num (byteOf n 1), .equal, .add, .num 1, .equalverify,
    .dup, .num (byteOf x 2), .equal, .swap, .num (byteOf n 2), .equal, .add, .num 1, .equalverify,
    .dup, .num (byteOf x 3), .equal, .swap, .num (byteOf n 3), .equal, .add, .num 1, .equalverify],
    ?_, ?_⟩
  · unfold BitCommU32.checkXOrNegX
    rw [as4Bytes_eq, as4Bytes_eq]; rfl
  · unfold wordElems
    simp only [List.cons_append, List.nil_append]
    rw [run_xStep, run_xStep, run_xStep, run_xStep, run_nil]
    have hall : (∀ i, i < 4 → byteMatch (byteOf v i) (byteOf x i) (byteOf n i)) ↔
        byteMatch (byteOf v 0) (byteOf x 0) (byteOf n 0) ∧
        byteMatch (byteOf v 1) (byteOf x 1) (byteOf n 1) ∧
        byteMatch (byteOf v 2) (byteOf x 2) (byteOf n 2) ∧
        byteMatch (byteOf v 3) (byteOf x 3) (byteOf n 3) := by
      constructor
      · intro h; exact ⟨h 0 (by decide), h 1 (by decide), h 2 (by decide), h 3 (by decide)⟩
      · rintro ⟨h0, h1, h2, h3⟩ i hi
        match i, hi with
        | 0, _ => exact h0
        | 1, _ => exact h1
        | 2, _ => exact h2
        | 3, _ => exact h3
    rw [hall]
    generalize byteMatch (byteOf v 0) (byteOf x 0) (byteOf n 0) = b0
    generalize byteMatch (byteOf v 1) (byteOf x 1) (byteOf n 1) = b1
    generalize byteMatch (byteOf v 2) (byteOf x 2) (byteOf n 2) = b2
    generalize byteMatch (byteOf v 3) (byteOf x 3) (byteOf n 3) = b3
    by_cases h0 : b0 <;> by_cases h1 : b1 <;> by_cases h2 : b2 <;> by_cases h3 : b3 <;>
      simp [h0, h1, h2, h3]

/-- C18 is violated: with x = 5 and its negation 0x77fffffc in the field of order 0x78000001, the
word 0xfc is neither but is accepted. -/
theorem C18_accepts_mixture (cfg : Cfg) (w w' : Winternitz) (m a : List Elem) :
    ∃ (x n v : BitVec 32) (q : List Op), (x.toNat + n.toNat) % 0x78000001 = 0 ∧ v ≠ x ∧ v ≠ n ∧
      (BitCommU32.mk x w (toDigits x.toNat wN0)).checkXOrNegX
        (BitCommU32.mk n w' (toDigits n.toNat wN0)) = some q ∧
      run cfg q ⟨wordElems v ++ m, a, []⟩ = some ⟨m, a, []⟩ := by
  obtain ⟨q, h1, h2, _⟩ := C18_exact_partial cfg w w' 5#32 0x77fffffc#32 0xfc#32 m a
  refine ⟨5#32, 0x77fffffc#32, 0xfc#32, q, by decide, by decide, by decide, h1, h2.mpr ?_⟩
  intro i hi
  match i, hi with
  | 0, _ => exact .inr (by decide)
  | 1, _ => exact .inl (by decide)
  | 2, _ => exact .inl (by decide)
  | 3, _ => exact .inl (by decide)

/-- C18 is violated: with x = 0x3c000000 and its negation 0x3c000001, both x and its negation are
rejected because they share a byte. -/
theorem C18_rejects_x (cfg : Cfg) (w w' : Winternitz) (m a : List Elem) :
    ∃ (x n : BitVec 32) (q : List Op), (x.toNat + n.toNat) % 0x78000001 = 0 ∧
      (BitCommU32.mk x w (toDigits x.toNat wN0)).checkXOrNegX
        (BitCommU32.mk n w' (toDigits n.toNat wN0)) = some q ∧
      run cfg q ⟨wordElems x ++ m, a, []⟩ = none ∧ run cfg q ⟨wordElems n ++ m, a, []⟩ = none := by
  obtain ⟨q, h1, _, h2⟩ := C18_exact_partial cfg w w' 0x3c000000#32 0x3c000001#32 0x3c000000#32 m a
  obtain ⟨q', h1', _, h2'⟩ := C18_exact_partial cfg w w' 0x3c000000#32 0x3c000001#32 0x3c000001#32 m a
  obtain rfl : q = q' := Option.some.inj (h1.symm.trans h1')
  refine ⟨0x3c000000#32, 0x3c000001#32, q, by decide, h1, h2.mpr fun h => ?_, h2'.mpr fun h => ?_⟩
  · rcases h 3 (by decide) with h | h <;> revert h <;> decide
  · rcases h 3 (by decide) with h | h <;> revert h <;> decide

/-! ### C67 -/

theorem mapM_map_of {α β γ : Type} (g : α → β) (f : β → Option γ) (l : List α) :
    (l.map g).mapM f = l.mapM fun x => f (g x) := by
  induction l with
  | nil => rfl
  | cons x l ih => simp only [List.map_cons, List.mapM_cons, ih]

theorem mapM_some_of {α γ : Type} (f : α → Option γ) (g : α → γ) (l : List α) (h : ∀ x ∈ l, f x = some (g x)) :
    l.mapM f = some (l.map g) := by
  induction l with
  | nil => rfl
  | cons x l ih =>
    rw [List.mapM_cons, h x (by simp), ih (fun y hy => h y (by simp [hy]))]; rfl

theorem map_range_get {α : Type} (l : List α) : (List.range l.length).map (l[·]?) = l.map some := by
  apply List.ext_getElem?
  intro i
  by_cases h : i < l.length
  · simp [h]
  · simp [Nat.le_of_not_lt h]

theorem mapM_range {α γ : Type} (l : List α) (f : α → Option γ) :
    ((List.range l.length).mapM fun i => l[i]?.bind f) = l.mapM f := by
  have := mapM_map_of (l[·]?) (fun o => o.bind f) (List.range l.length)
  rw [map_range_get, mapM_map_of] at this
  exact this.symm

theorem mapM_range_reverse {α γ : Type} (l : List α) (f : α → Option γ) :
    ((List.range l.length).reverse.mapM fun i => l[i]?.bind f) = l.reverse.mapM f := by
  have := mapM_map_of (l[·]?) (fun o => o.bind f) (List.range l.length).reverse
  rw [List.map_reverse, map_range_get, ← List.map_reverse, mapM_map_of] at this
  exact this.symm

/-- The script number `u32_compress` leaves for a word. -/
def signMagElem (v : BitVec 32) : Elem :=
  num (if v.toNat < 2 ^ 31 then (v.toNat : Int) else 2 ^ 31 - v.toNat)

theorem run_fromAlts_elems {cfg : Cfg} {ops : List Op} {m a : List Elem} (es : List Elem) :
    run cfg (emitN es.length [.fromAlt] ++ ops) ⟨m, es ++ a, []⟩ =
      run cfg ops ⟨es.reverse ++ m, a, []⟩ := by
  induction es generalizing m with
  | nil => rfl
  | cons e es ih =>
    rw [show emitN (e :: es).length [Op.fromAlt] = .fromAlt :: emitN es.length [.fromAlt] from by
      simp [emitN, List.replicate_succ]]
    rw [List.cons_append, List.cons_append, run_fromAlt _ rfl, ih]
    simp

theorem run_recoverAll {cfg : Cfg} (cs : List (BitVec 32 × List Op × List Elem))
    (h : ∀ t ∈ cs, ∀ m a ops, run cfg (t.2.1 ++ ops) ⟨t.2.2.reverse ++ m, a, []⟩ =
      run cfg ops ⟨num (signMag t.1) :: m, a, []⟩) (m a : List Elem) (ops : List Op) :
    run cfg ((cs.map fun t => t.2.1 ++ [Op.toAlt]).flatten ++ ops)
        ⟨(cs.reverse.map fun t => t.2.2).flatten.reverse ++ m, a, []⟩ =
      run cfg ops ⟨m, (cs.map fun t => num (signMag t.1)).reverse ++ a, []⟩ := by
  induction cs generalizing a with
  | nil => rfl
  | cons t cs ih =>
    simp only [List.map_cons, List.flatten_cons, List.reverse_cons, List.map_append, List.flatten_append,
      List.map_nil, List.flatten_nil, List.append_nil, List.reverse_append, List.append_assoc,
      List.nil_append, List.cons_append]
    rw [h t (by simp), run_toAlt _ rfl, ih (fun t' ht' => h t' (by simp [ht']))]

/-- C67: a commitment to any list of words with valid keys can be made, and its witness run through
`check_and_recover` leaves exactly the words, first word on top, as script numbers (sign-and-magnitude
readings; the word itself below 2^31). -/
theorem C67_check_and_recover (cfg : Cfg) (h20 : ∀ x, (cfg.hash160 x).length = 20)
    (values : List (BitVec 32)) (keys : List (List Char)) (hlen : keys.length = values.length)
    (hk : ∀ k ∈ keys, (hexDecode k).isSome) :
    ∃ b q sig, BitComm.new cfg values keys = some b ∧ b.checkAndRecover = some q ∧
      b.signature cfg = some sig ∧ ∀ m a,
        run cfg q ⟨sig.reverse ++ m, a, []⟩ =
          some ⟨values.map signMagElem ++ m, a, []⟩ := by
  -- one commitment, script and signature per word
  have hone : ∀ t ∈ values.zip keys, ∃ r : BitCommU32 × List Op × List Elem,
      BitCommU32.new cfg t.2 t.1 = some r.1 ∧ r.1.recoverAtStack = some r.2.1 ∧
      r.1.signature cfg = some r.2.2 ∧ ∀ m a ops,
        run cfg (r.2.1 ++ ops) ⟨r.2.2.reverse ++ m, a, []⟩ = run cfg ops ⟨num (signMag t.1) :: m, a, []⟩ := by
    intro t ht
    have hkt : t.2 ∈ keys := (List.of_mem_zip ht).2
    obtain ⟨b, q, sig, h1, h2, h3, h4⟩ := recoverAtStack_honest cfg h20 t.2 (hk _ hkt) t.1 t.1
    refine ⟨⟨b, q, sig⟩, h1, h2, ?_, h4⟩
    have : b.changeValue t.1 = b := by
      unfold BitCommU32.new at h1
      cases hw : Winternitz.new cfg t.2 with
      | none => rw [hw] at h1; simp at h1
      | some w => rw [hw] at h1; obtain rfl := Option.some.inj h1; rfl
    rw [← this]; exact h3
  have hall : ∃ rs : List (BitCommU32 × List Op × List Elem), rs.length = (values.zip keys).length ∧
      ∀ x ∈ (values.zip keys).zip rs, BitCommU32.new cfg x.1.2 x.1.1 = some x.2.1 ∧
        x.2.1.recoverAtStack = some x.2.2.1 ∧ x.2.1.signature cfg = some x.2.2.2 ∧ ∀ m a ops,
        run cfg (x.2.2.1 ++ ops) ⟨x.2.2.2.reverse ++ m, a, []⟩ =
          run cfg ops ⟨num (signMag x.1.1) :: m, a, []⟩ := by
    generalize values.zip keys = vk at hone
    induction vk with
    | nil => exact ⟨[], rfl, by simp⟩
    | cons t vk ih =>
      obtain ⟨rs, hl, hrs⟩ := ih (fun t' ht' => hone t' (by simp [ht']))
      obtain ⟨r, hr⟩ := hone t (by simp)
      refine ⟨r :: rs, by simp [hl], ?_⟩
      rintro x hx
      rw [List.zip_cons_cons, List.mem_cons] at hx
      rcases hx with rfl | hx
      · exact hr
      · exact hrs x hx
  obtain ⟨rs, hrl, hrs⟩ := hall
  have hvk : (values.zip keys).length = values.length := by simp [hlen]
  obtain ⟨z, hz⟩ : ∃ z, z = (values.zip keys).zip rs := ⟨_, rfl⟩
  have hz1 : z.map (·.1) = values.zip keys := by
    rw [hz]; exact List.map_fst_zip (by omega)
  have hz2 : z.map (·.2) = rs := by rw [hz]; exact List.map_snd_zip (by omega)
  have hzv : z.map (fun x => x.1.1) = values := by
    have : z.map (fun x => x.1.1) = (z.map (·.1)).map (·.1) := by simp
    rw [this, hz1]; exact List.map_fst_zip (by omega)
  have hzl : z.length = values.length := by rw [← hzv]; simp
  rw [← hz] at hrs
  refine ⟨⟨values, z.map (·.2.1)⟩, (z.map fun x => x.2.2.1 ++ [Op.toAlt]).flatten ++
    emitN values.length [.fromAlt], (z.reverse.map fun x => x.2.2.2).flatten, ?_, ?_, ?_, ?_⟩
  · unfold BitComm.new
    rw [← hz1, mapM_map_of, mapM_some_of _ (fun x => x.2.1) z (fun x hx => (hrs x hx).1)]
    simp [hzl]
  · have hrec : BitComm.recoverAtAlt ⟨values, z.map (·.2.1)⟩ =
        some (z.map fun x => x.2.2.1 ++ [Op.toAlt]).flatten := by
      unfold BitComm.recoverAtAlt
      have hl : values.length = (z.map (·.2.1)).length := by simp [hzl]
      simp only [Option.bind_eq_bind]
      rw [hl, mapM_range (z.map (·.2.1)) (fun c => c.recoverAtStack.bind fun p => some (p ++ [Op.toAlt])),
        mapM_map_of, mapM_some_of _ (fun x => x.2.2.1 ++ [Op.toAlt]) z
          (fun x hx => by rw [(hrs x hx).2.1]; rfl)]
      rfl
    unfold BitComm.checkAndRecover BitComm.messageFromAlt
    rw [hrec]; rfl
  · unfold BitComm.signature
    have hl : values.length = (z.map (·.2.1)).length := by simp [hzl]
    simp only [Option.bind_eq_bind]
    rw [hl, mapM_range_reverse (z.map (·.2.1)) (fun c => c.signature cfg), ← List.map_reverse,
      mapM_map_of, mapM_some_of _ (fun x => x.2.2.2) z.reverse
        (fun x hx => (hrs x (List.mem_reverse.mp hx)).2.2.1)]
    rfl
  · intro m a
    have h := run_recoverAll (cfg := cfg) (z.map fun x => (x.1.1, x.2.2.1, x.2.2.2))
      (by
        intro t ht
        obtain ⟨x, hx, rfl⟩ := List.mem_map.mp ht
        exact (hrs x hx).2.2.2) m a (emitN values.length [.fromAlt] ++ [])
    simp only [List.map_map, ← List.map_reverse, Function.comp_def] at h
    rw [List.append_nil] at h
    rw [h]
    have hl : values.length = (z.reverse.map fun x => num (signMag x.1.1)).length := by simp [hzl]
    rw [hl, ← List.append_nil (emitN _ _), run_fromAlts_elems, run_nil]
    have : (z.reverse.map fun x => num (signMag x.1.1)).reverse = values.map signMagElem := by
      rw [← List.map_reverse, List.reverse_reverse, ← hzv, List.map_map]
      apply List.map_congr_left
      intro x _
      simp only [Function.comp_def, signMagElem, num_inj, signMag]
      split <;> omega
    rw [this]

/-- Two words under two keys, as C67 assumes. -/
example : [['0', '0'], ['a', 'b']].length = [7#32, 9#32].length ∧
    ∀ k ∈ [['0', '0'], ['a', 'b']], (hexDecode k).isSome := by decide

/-! ### C68 -/

/-- C68 (the code allows it): `change_value` and `new_with_commits` sign another value with the same
one-time key.  Whoever sees the signatures of 0 and of 2^32 - 1 can, by hashing revealed values only
and without the secret, make a witness that the verification script accepts for any value `v`. -/
theorem C68_key_reuse_forges_any_value (cfg : Cfg) (h20 : ∀ x, (cfg.hash160 x).length = 20)
    (key : List Char) (hk : (hexDecode key).isSome) (v : BitVec 32) :
    ∃ b p sig0 sig1 w, BitCommU32.new cfg key 0#32 = some b ∧ b.checksigVerifyScript = some p ∧
      b.signature cfg = some sig0 ∧ (b.changeValue 0xffffffff#32).signature cfg = some sig1 ∧
      (∃ e x : Nat → Elem, w = sigStack e x ∧
        ∀ j, j < 10 → e j = num (valueDigits v j) ∧
          ∃ k y, (y ∈ sig0 ∨ y ∈ sig1) ∧ x j = hashIter cfg.hash160 k y) ∧
      ∀ m a, run cfg p ⟨w ++ m, a, []⟩ = some ⟨wordElems v ++ m, a, []⟩ := by
  obtain ⟨secret, hs⟩ := Option.isSome_iff_exists.mp hk
  let pk := (List.range 10).map fun i => hashTimes cfg 15 (chainStart cfg secret i)
  obtain ⟨p, hp⟩ := checksigVerify_exists (pk := pk) (by simp [pk])
  obtain ⟨sig0, hsig0, hrev0⟩ := signature_eq h20 hs pk 0#32 0#32
  obtain ⟨sig1, hsig1, hrev1⟩ := signature_eq h20 hs pk 0xffffffff#32 0xffffffff#32
  have hmem : ∀ (u : BitVec 32) (sig : List Elem),
      sig.reverse = sigStack (fun j => num (valueDigits u j)) (revealed cfg secret u) →
      ∀ j, j < 10 → revealed cfg secret u j ∈ sig := by
    intro u sig hrev j hj
    rw [← List.mem_reverse, hrev, sigStack, List.mem_flatMap]
    exact ⟨j, List.mem_range.mpr hj, by simp⟩
  refine ⟨_, p, sig0, sig1, sigStack (fun j => num (valueDigits v j)) (revealed cfg secret v),
    commitNew hs 0#32, hp, hsig0, hsig1, ⟨_, _, rfl, fun j hj => ⟨rfl, ?_⟩⟩, fun m a => ?_⟩
  · -- at each position one of the two signatures reveals the start of the chain
    by_cases h2 : 2 ≤ j
    · have hz : valueDigits 0#32 j = 0 := by
        unfold valueDigits; rw [if_neg (by omega)]; simp
      refine ⟨valueDigits v j, revealed cfg secret 0#32 j, .inl (hmem _ _ hrev0 j hj), ?_⟩
      unfold revealed
      rw [hz]; rfl
    · have hz : valueDigits 0xffffffff#32 j = 0 := by
        have : j = 0 ∨ j = 1 := by omega
        rcases this with rfl | rfl <;> decide +kernel
      refine ⟨valueDigits v j, revealed cfg secret 0xffffffff#32 j, .inr (hmem _ _ hrev1 j hj), ?_⟩
      unfold revealed
      rw [hz]; rfl
  · refine (C14_exact cfg _ (by simp [pk]) p hp _ a _).mpr ⟨_, _, _, m, rfl, honest_valid cfg secret v, ?_⟩
    rw [valueDigits_value, BitVec.ofNat_toNat, BitVec.setWidth_eq]

end TapStark
