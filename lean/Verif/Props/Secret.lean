import Verif.Model.Secret
import Verif.Props.MultiComm

/-!
C104: secrets.

A key is accepted exactly when it is a hex string of even length.  Both secret generators return such strings.  Different
random characters give different secrets, and different chain starts unless the hash function has a collision.  The
constant generator gives every word of every commitment one public secret: anyone signs any words.
-/

namespace TapStark

/-- The hex digits of both cases. -/
def hexChars : List Char := "0123456789abcdefABCDEF".toList

theorem hexVal_isSome (c : Char) : (hexVal c).isSome ↔ c ∈ hexChars := by
  have hv : ∀ {d : Char}, d.val.toNat < 128 → (c = d ↔ c.val.toNat = d.val.toNat) := by
    intro d _
    constructor
    · rintro rfl; rfl
    · intro h; exact Char.ext (UInt32.toNat_inj.1 h)
  have hc : c ∈ hexChars ↔ (48 ≤ c.val.toNat ∧ c.val.toNat ≤ 57) ∨ (97 ≤ c.val.toNat ∧ c.val.toNat ≤ 102) ∨
      (65 ≤ c.val.toNat ∧ c.val.toNat ≤ 70) := by
    have : hexChars = ['0', '1', '2', '3', '4', '5', '6', '7', '8', '9', 'a', 'b', 'c', 'd', 'e', 'f', 'A', 'B', 'C', 'D',
      'E', 'F'] := by decide
    rw [this]
    simp only [List.mem_cons, List.not_mem_nil, or_false]
    rw [hv (d := '0') (by decide), hv (d := '1') (by decide), hv (d := '2') (by decide), hv (d := '3') (by decide),
      hv (d := '4') (by decide), hv (d := '5') (by decide), hv (d := '6') (by decide), hv (d := '7') (by decide),
      hv (d := '8') (by decide), hv (d := '9') (by decide), hv (d := 'a') (by decide), hv (d := 'b') (by decide),
      hv (d := 'c') (by decide), hv (d := 'd') (by decide), hv (d := 'e') (by decide), hv (d := 'f') (by decide),
      hv (d := 'A') (by decide), hv (d := 'B') (by decide), hv (d := 'C') (by decide), hv (d := 'D') (by decide),
      hv (d := 'E') (by decide), hv (d := 'F') (by decide)]
    simp only [show '0'.val.toNat = 48 from rfl, show '1'.val.toNat = 49 from rfl, show '2'.val.toNat = 50 from rfl,
      show '3'.val.toNat = 51 from rfl, show '4'.val.toNat = 52 from rfl, show '5'.val.toNat = 53 from rfl,
      show '6'.val.toNat = 54 from rfl, show '7'.val.toNat = 55 from rfl, show '8'.val.toNat = 56 from rfl,
      show '9'.val.toNat = 57 from rfl, show 'a'.val.toNat = 97 from rfl, show 'b'.val.toNat = 98 from rfl,
      show 'c'.val.toNat = 99 from rfl, show 'd'.val.toNat = 100 from rfl, show 'e'.val.toNat = 101 from rfl,
      show 'f'.val.toNat = 102 from rfl, show 'A'.val.toNat = 65 from rfl, show 'B'.val.toNat = 66 from rfl,
      show 'C'.val.toNat = 67 from rfl, show 'D'.val.toNat = 68 from rfl, show 'E'.val.toNat = 69 from rfl,
      show 'F'.val.toNat = 70 from rfl]
    omega
  have hle : ∀ d e : Char, d ≤ e ↔ d.val.toNat ≤ e.val.toNat := fun d e => Iff.rfl
  rw [hc]
  unfold hexVal
  simp only [hle, show '0'.val.toNat = 48 from rfl, show '9'.val.toNat = 57 from rfl, show 'a'.val.toNat = 97 from rfl,
    show 'f'.val.toNat = 102 from rfl, show 'A'.val.toNat = 65 from rfl, show 'F'.val.toNat = 70 from rfl]
  split
  · simp only [Option.isSome_some, true_iff]; omega
  · split
    · simp only [Option.isSome_some, true_iff]; omega
    · split
      · simp only [Option.isSome_some, true_iff]; omega
      · simp only [Option.isSome_none, Bool.false_eq_true, false_iff]; omega

theorem hexDecode_isSome : ∀ key : List Char,
    (hexDecode key).isSome ↔ key.length % 2 = 0 ∧ ∀ c ∈ key, c ∈ hexChars
  | [] => by simp [hexDecode]
  | [_] => by simp [hexDecode]
  | a :: b :: r => by
    have ih := hexDecode_isSome r
    have ha := hexVal_isSome a
    have hb := hexVal_isSome b
    rw [hexDecode]
    have e : (a :: b :: r).length % 2 = r.length % 2 := by simp only [List.length_cons]; omega
    rw [e]
    cases h1 : hexVal a with
    | none =>
      rw [h1] at ha
      simp only [Option.isSome_none, Bool.false_eq_true, false_iff] at ha
      simp [ha]
    | some x =>
      cases h2 : hexVal b with
      | none =>
        rw [h2] at hb
        simp only [Option.isSome_none, Bool.false_eq_true, false_iff] at hb
        simp [hb]
      | some y =>
        rw [h1] at ha
        rw [h2] at hb
        simp only [Option.isSome_some, true_iff] at ha hb
        cases h3 : hexDecode r with
        | none => rw [h3] at ih; simp at ih; simp [ha, hb]; exact ih
        | some z => rw [h3] at ih; simp at ih; simp [ha, hb]; exact ih

/-- C104: a commitment to a word is made exactly when the key is a hex string of even length; otherwise the code panics. -/
theorem C104_key (cfg : Cfg) (key : List Char) (v : BitVec 32) :
    (BitCommU32.new cfg key v).isSome ↔ key.length % 2 = 0 ∧ ∀ c ∈ key, c ∈ hexChars := by
  rw [← hexDecode_isSome]
  cases h : hexDecode key with
  | none => rw [C13_bad_key cfg key h v]; simp
  | some s => rw [commitNew h]; simp

theorem hexVal_digit : ∀ n : Fin 16, hexVal (hexDigit n) = some n.val := by decide +kernel

theorem hexDecode_toLowerHex (bs : List UInt8) : hexDecode (toLowerHex bs) = some bs := by
  induction bs with
  | nil => rfl
  | cons b bs ih =>
    have hb := b.toNat_lt
    have h1 := hexVal_digit ⟨b.toNat / 16, by omega⟩
    have h2 := hexVal_digit ⟨b.toNat % 16, by omega⟩
    simp only at h1 h2
    have : toLowerHex (b :: bs) = hexDigit (b.toNat / 16) :: hexDigit (b.toNat % 16) :: toLowerHex bs := by
      simp [toLowerHex]
    rw [this, hexDecode, h1, h2, ih]
    simp only [Option.bind_eq_bind, Option.bind_some]
    rw [show 16 * (b.toNat / 16) + b.toNat % 16 = b.toNat by omega, UInt8.ofNat_toNat]

theorem hexVal_toLower (c : Char) (n : Nat) (hn : n < 16) : hexVal c = some n ↔ c.toLower = hexDigit n := by
  constructor
  · intro h
    have hc := (hexVal_isSome c).1 (by rw [h]; rfl)
    have : ∀ c ∈ hexChars, (hexVal c).all fun n => c.toLower == hexDigit n := by decide +kernel
    have := this c hc
    rw [h] at this
    simpa using this
  · intro h
    by_cases hu : 65 ≤ c.toNat ∧ c.toNat ≤ 90
    · have key : ∀ k : Fin 26, ∀ n : Fin 16, (Char.ofNat (65 + k.val)).toLower = hexDigit n.val →
          hexVal (Char.ofNat (65 + k.val)) = some n.val := by decide +kernel
      have hk := key ⟨c.toNat - 65, by omega⟩ ⟨n, hn⟩
      simp only at hk
      rw [show 65 + (c.toNat - 65) = c.toNat by omega, Char.ofNat_toNat] at hk
      exact hk h
    · have : c.toLower = c := by
        unfold Char.toLower
        rw [dif_neg]
        rintro ⟨h1, h2⟩
        exact hu ⟨h1, h2⟩
      rw [this] at h
      rw [h]
      exact hexVal_digit ⟨n, hn⟩

/-- C104: a key decodes to the bytes whose hexadecimal digits it spells, two per byte with the high half first, in
either case of the letters. -/
theorem C104_decode (key : List Char) (bytes : List UInt8) :
    hexDecode key = some bytes ↔
      key.map Char.toLower = bytes.flatMap fun b =>
        ["0123456789abcdef".toList.getD (b.toNat / 16) '0', "0123456789abcdef".toList.getD (b.toNat % 16) '0'] := by
  induction key using hexDecode.induct generalizing bytes with
  | case1 => cases bytes <;> simp [hexDecode]
  | case2 a => cases bytes <;> simp [hexDecode]
  | case3 a b r ih =>
    cases bytes with
    | nil =>
      simp only [hexDecode, Option.bind_eq_bind, Option.bind_eq_some_iff, Option.some.injEq, List.map_cons,
        List.flatMap_nil, reduceCtorEq, and_false, exists_false]
    | cons x bytes =>
      have hx := x.toNat_lt
      have h1 := hexVal_toLower a (x.toNat / 16) (by omega)
      have h2 := hexVal_toLower b (x.toNat % 16) (by omega)
      rw [List.flatMap_cons, List.map_cons, List.map_cons, List.cons_append, List.cons_append, List.nil_append,
        List.cons.injEq, List.cons.injEq, ← ih bytes]
      change _ ↔ a.toLower = hexDigit _ ∧ b.toLower = hexDigit _ ∧ _
      rw [← h1, ← h2, hexDecode]
      simp only [Option.bind_eq_bind, Option.bind_eq_some_iff, Option.some.injEq, List.cons.injEq]
      have lt : ∀ c v, hexVal c = some v → v < 16 := by
        intro c v hv
        have hc := (hexVal_isSome c).1 (by rw [hv]; rfl)
        have : ∀ c ∈ hexChars, (hexVal c).all fun n => decide (n < 16) := by decide +kernel
        have := this c hc
        rw [hv] at this
        simpa using this
      constructor
      · rintro ⟨u, hu, v, hv, rest, hr, he, rfl⟩
        have := lt _ _ hu
        have := lt _ _ hv
        have hx' : x.toNat = 16 * u + v := by
          rw [← he, UInt8.toNat_ofNat']
          omega
        rw [hx', show (16 * u + v) / 16 = u by omega, show (16 * u + v) % 16 = v by omega]
        exact ⟨hu, hv, hr⟩
      · rintro ⟨hu, hv, hr⟩
        refine ⟨_, hu, _, hv, _, hr, ?_, rfl⟩
        rw [show 16 * (x.toNat / 16) + x.toNat % 16 = x.toNat by omega, UInt8.ofNat_toNat]

/-- C104: the secret drawn by the thread generator decodes to the UTF-8 bytes of the twenty characters, whatever they are. -/
theorem C104_thread (stream : Nat → Char) :
    hexDecode (threadSecret stream) = some (String.ofList ((List.range 20).map stream)).toUTF8.data.toList := by
  rw [threadSecret, hexDecode_toLowerHex]
  congr 1
  simp [utf8Bytes, List.utf8Encode]

theorem utf8Bytes_inj {l l' : List Char} (h : utf8Bytes l = utf8Bytes l') : l = l' := by
  apply String.ofList_injective
  rw [← String.toByteArray_inj, String.toByteArray_ofList, String.toByteArray_ofList]
  unfold utf8Bytes at h
  unfold List.utf8Encode
  rw [h]

/-- C104: two draws of the thread generator are the same secret only if all twenty characters agree; otherwise no two
chains of the two keys start at the same value, unless the hash function collides on the two secrets with the numbers of
the chains appended. -/
theorem C104_thread_distinct (cfg : Cfg) (s s' : Nat → Char) (h : ∃ i < 20, s i ≠ s' i) (b b' : List UInt8)
    (hb : hexDecode (threadSecret s) = some b) (hb' : hexDecode (threadSecret s') = some b') (i j : Nat) :
    threadSecret s ≠ threadSecret s' ∧
      (chainStart cfg b i ≠ chainStart cfg b' j ∨
        (b ++ [UInt8.ofNat i] ≠ b' ++ [UInt8.ofNat j] ∧
          cfg.hash160 (b ++ [UInt8.ofNat i]) = cfg.hash160 (b' ++ [UInt8.ofNat j]))) := by
  rw [threadSecret, hexDecode_toLowerHex] at hb hb'
  obtain rfl := Option.some.inj hb
  obtain rfl := Option.some.inj hb'
  have hne : utf8Bytes ((List.range 20).map s) ≠ utf8Bytes ((List.range 20).map s') := by
    intro he
    obtain ⟨i, hi, hs⟩ := h
    have := congrArg (·[i]?) (utf8Bytes_inj he)
    simp [hi] at this
    exact hs this
  refine ⟨fun he => hne ?_, ?_⟩
  · have := congrArg hexDecode he
    rwa [threadSecret, threadSecret, hexDecode_toLowerHex, hexDecode_toLowerHex, Option.some.injEq] at this
  · by_cases hc : chainStart cfg (utf8Bytes ((List.range 20).map s)) i = chainStart cfg (utf8Bytes ((List.range 20).map s')) j
    · refine .inr ⟨fun he => hne ?_, hc⟩
      exact (List.append_inj' he rfl).1
    · exact .inl hc

/-- The key of a commitment is left alone by re-binding: re-binding the words is committing to them afresh. -/
theorem newWithCommits_new {cfg : Cfg} {us vs : List (BitVec 32)} {keys : List (List Char)} {b : BitComm}
    (hl : us.length = vs.length) (hb : BitComm.new cfg us keys = some b) :
    BitComm.newWithCommits vs b.commitments = BitComm.new cfg vs keys := by
  have key : ∀ (us vs : List (BitVec 32)) (keys : List (List Char)) (cs : List BitCommU32), us.length = vs.length →
      ((us.zip keys).mapM fun (v, k) => BitCommU32.new cfg k v) = some cs →
      ((vs.zip keys).mapM fun (v, k) => BitCommU32.new cfg k v) = some ((cs.zip vs).map fun (c, v) => c.changeValue v) := by
    intro us
    induction us with
    | nil =>
      intro vs keys cs hl h
      obtain rfl : vs = [] := by simpa using hl.symm
      simp at h ⊢
    | cons u us ih =>
      intro vs keys cs hl h
      cases vs with
      | nil => simp at hl
      | cons v vs =>
        cases keys with
        | nil => simp at h; subst h; simp
        | cons k keys =>
          rw [List.zip_cons_cons, List.mapM_cons] at h
          simp only [Option.bind_eq_bind, Option.bind_eq_some_iff] at h
          obtain ⟨c, hc, cs', hcs, h⟩ := h
          obtain rfl : c :: cs' = cs := Option.some.inj h
          rw [List.zip_cons_cons, List.mapM_cons, ih vs keys cs' (by simpa using hl) hcs]
          have : BitCommU32.new cfg k v = some (c.changeValue v) := by
            cases hk : hexDecode k with
            | none => rw [C13_bad_key cfg k hk] at hc; cases hc
            | some s =>
              rw [commitNew hk] at hc ⊢
              obtain rfl := Option.some.inj hc
              rfl
          simp only [this]
          rfl
  unfold BitComm.new at hb ⊢
  simp only [Option.bind_eq_bind, Option.bind_eq_some_iff] at hb
  obtain ⟨cs, hcs, h⟩ := hb
  split at h
  · next hlen =>
    obtain rfl := Option.some.inj h
    have := key us vs keys cs hl hcs
    simp only at this
    rw [this]
    simp only [BitComm.newWithCommits]
    rw [if_pos (by omega)]
    simp only [Option.bind_eq_bind, Option.bind_some]
    rw [if_pos (by simp; omega)]
  · cases h

/-- C104: with either generator a commitment to any words is made, and its own signature is accepted and leaves the
words. -/
theorem C104_complete (cfg : Cfg) (h20 : ∀ x, (cfg.hash160 x).length = 20) (us : List (BitVec 32))
    (keys : List (List Char)) (hl : keys.length = us.length)
    (hk : ∀ k ∈ keys, k = constantSecret ∨ ∃ s, k = threadSecret s) :
    ∃ b q sig, BitComm.new cfg us keys = some b ∧ b.checkAndRecover = some q ∧ b.signature cfg = some sig ∧ ∀ m a,
      run cfg q ⟨sig.reverse ++ m, a, []⟩ = some ⟨us.map signMagElem ++ m, a, []⟩ := by
  obtain ⟨b, b', q, sig, h1, -, h3, h4, h5, h6⟩ := recover_other cfg h20 us us keys hl hl (by
    intro k hk'
    rcases hk k hk' with rfl | ⟨s, rfl⟩
    · decide
    · rw [C104_thread]; rfl)
  rw [newWithCommits_new rfl h1, h1] at h4
  obtain rfl := Option.some.inj h4
  refine ⟨b, q, sig, h1, h3, h5, fun m a => ?_⟩
  have := h6 m a []
  rwa [List.append_nil, run_nil] at this

/-- C104, violated by the constant generator: commitments do not vouch for their words.  Whatever words `us` are committed
to, a signature of any other words `vs`, made by someone who knows nothing but the number of words, is accepted and leaves
`vs`. -/
theorem C104_violated_constant (cfg : Cfg) (h20 : ∀ x, (cfg.hash160 x).length = 20) (us vs : List (BitVec 32))
    (hl : us.length = vs.length) :
    ∃ b forger q sig, BitComm.new cfg us (List.replicate us.length constantSecret) = some b ∧
      BitComm.new cfg vs (List.replicate vs.length constantSecret) = some forger ∧ b.checkAndRecover = some q ∧
      forger.signature cfg = some sig ∧ ∀ m a,
        run cfg q ⟨sig.reverse ++ m, a, []⟩ = some ⟨vs.map signMagElem ++ m, a, []⟩ := by
  obtain ⟨b, b', q, sig, h1, -, h3, h4, h5, h6⟩ := recover_other cfg h20 us vs
    (List.replicate us.length constantSecret) (by simp) (by simpa using hl) (by
    intro k hk
    rw [List.eq_of_mem_replicate hk]
    decide)
  rw [newWithCommits_new hl h1, hl] at h4
  refine ⟨b, b', q, sig, h1, h4, h3, h5, fun m a => ?_⟩
  have := h6 m a []
  rwa [List.append_nil, run_nil] at this

/-- The hypotheses have instances: a random stream with characters of one to four bytes, two streams that differ, and
words of different values under the constant secret. -/
theorem C104_instance :
    hexDecode (threadSecret fun i => if i = 3 then 'é' else if i = 5 then '€' else if i = 7 then '😀' else 'a') =
      some [97, 97, 97, 0xc3, 0xa9, 97, 0xe2, 0x82, 0xac, 97, 0xf0, 0x9f, 0x98, 0x80, 97, 97, 97, 97, 97, 97, 97, 97, 97,
        97, 97, 97] ∧
    (∃ i < 20, (fun _ : Nat => 'a') i ≠ (fun i : Nat => if i = 19 then 'b' else 'a') i) ∧
    [1#32, 2#32].length = [3#32, 4#32].length ∧ [1#32, 2#32].map signMagElem ≠ [3#32, 4#32].map signMagElem ∧
    hexDecode "b138982CE17ac813".toList = some [0xb1, 0x38, 0x98, 0x2c, 0xe1, 0x7a, 0xc8, 0x13] := by
  refine ⟨by decide +kernel, ⟨19, by decide, by decide⟩, rfl, by decide +kernel, by decide +kernel⟩

end TapStark
