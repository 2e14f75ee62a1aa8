import Verif.Spec.Limits
import Verif.Proofs.Limits
import Verif.Props.Blake3
import Verif.Props.Winternitz
import Verif.Model.ScriptHelper
import Verif.Model.FieldOps

/-
C88: how much room the generated scripts need under the limit of 1000 stack elements.
-/

namespace TapStark

theorem Eff.room {p : List Op} {n o d : Nat} (h : Eff p n o (n + d) (n + d)) : NeedsRoom p n d := by
  intro cfg s hc hn hs
  obtain ⟨h1, h2, -⟩ := h.runs cfg (lim := stackLimit) hc (j := s.size - n) (by omega)
  split
  · exact h1 (by omega) hs
  · exact h2 hs (by omega)

/-- C88 (words): the room the scripts on 32-bit words need. -/
theorem C88_words (v : BitVec 32) (k : Nat) :
    NeedsRoom (u32Push v) 0 4 ∧ NeedsRoom u32Compress 4 2 ∧ NeedsRoom u32Equalverify 8 1 ∧ NeedsRoom u32Equal 8 1 ∧
    NeedsRoom u32Notequal 8 1 ∧ NeedsRoom (u32Roll k) 0 1 ∧ NeedsRoom (u32Pick k) 0 4 ∧
    NeedsRoom u8PushXorTable 0 256 ∧
    (∀ a b p, u32Add a b = some p → NeedsRoom p 1 5) ∧ (∀ a b p, u32AddDrop a b = some p → NeedsRoom p 5 1) ∧
    (∀ a b c p, u32Xor a b c = some p → NeedsRoom p 1 8) ∧
    (∀ r p, r < 32 → u32Rrot r = some p → NeedsRoom p 4 (rrotRoom r)) := by
  refine ⟨Eff.room (eff_u32Push v), Eff.room (d := 2) eff_u32Compress,
    Eff.room (n := 8) (o := 0) (.of_scan (by decide +kernel)),
    Eff.room (n := 8) (o := 1) (.of_scan (by decide +kernel)),
    Eff.room (n := 8) (o := 1) (.of_scan (by decide +kernel)), Eff.room (d := 1) (eff_u32Roll k),
    Eff.room (d := 4) (eff_u32Pick k), Eff.room (d := 256) eff_table,
    fun a b p h => Eff.room (d := 5) (eff_u32Add h), fun a b p h => Eff.room (d := 1) (eff_u32AddDrop h),
    fun a b c p h => Eff.room (d := 8) (eff_u32Xor h), fun r p hr h => Eff.room (eff_rrot_eq hr h)⟩

/-- C88 (hash): `blake3()` needs room for 328 elements besides its message, `blake3_160()` for 352, and
`blake3_var_length(n)` for 328 and the padding to whole blocks. -/
theorem C88_hash :
    (∃ p, blake3Script = some p ∧ NeedsRoom p 64 328) ∧ (∃ p, blake3Script160 = some p ∧ NeedsRoom p 40 352) ∧
    ∀ n, 0 < n → n ≤ 512 → ∃ p, blake3VarLength n = some p ∧ NeedsRoom p n (64 * ((n + 63) / 64) - n + 328) := by
  refine ⟨?_, ?_, ?_⟩
  · obtain ⟨p, hp, -⟩ := C10_blake3
    exact ⟨p, hp, Eff.room (d := 328) (eff_blake3 hp)⟩
  · obtain ⟨p, hp, -⟩ := C65_blake3_160
    exact ⟨p, hp, Eff.room (d := 352) (eff_blake3_160 hp)⟩
  · intro n h0 h1
    obtain ⟨p, hp, -⟩ := C11_var_length n h0 h1
    refine ⟨p, hp, Eff.room (o := 32) ((eff_varLength hp h0).cast rfl rfl ?_ ?_)⟩ <;> omega

/-- C88 (hash): a message of 1 to 512 bytes is hashed correctly under the limit, also with up to 160 other elements on
the stacks. -/
theorem C88_hash_fits (n : Nat) (h0 : 0 < n) (h1 : n ≤ 512) :
    ∃ p, blake3VarLength n = some p ∧ ∀ (cfg : Cfg) (bs : List UInt8) (m a : List Elem), bs.length = n →
      m.length + a.length ≤ 160 → runL cfg stackLimit p ⟨bytesElems bs ++ m, a, []⟩ =
        some ⟨wordsElems (Blake3.hash bs).reverse ++ m, a, []⟩ := by
  obtain ⟨p, hp, hr⟩ := C11_var_length n h0 h1
  refine ⟨p, hp, fun cfg bs m a hl hm => ?_⟩
  obtain ⟨-, -, h⟩ := C88_hash
  obtain ⟨p', hp', h⟩ := h n h0 h1
  rw [hp] at hp'
  cases hp'
  have hb : (bytesElems bs).length = n := by rw [← hl]; simp [bytesElems]
  have e : St.size ⟨bytesElems bs ++ m, a, []⟩ = n + (m.length + a.length) := by
    simp only [St.size, List.length_append, hb]; omega
  rw [h cfg _ rfl (by rw [e]; omega) (by rw [e, stackLimit]; omega), if_pos (by rw [e, stackLimit]; omega), hr cfg bs m a hl]

/-- C88 (hash): with 161 other elements a message of 512 bytes cannot be hashed. -/
theorem C88_hash_full : ∃ p, blake3VarLength 512 = some p ∧ ∀ (cfg : Cfg) (bs : List UInt8) (m a : List Elem),
    bs.length = 512 → m.length + a.length = 161 → runL cfg stackLimit p ⟨bytesElems bs ++ m, a, []⟩ = none := by
  obtain ⟨-, -, h⟩ := C88_hash
  obtain ⟨p, hp, h⟩ := h 512 (by omega) (by omega)
  refine ⟨p, hp, fun cfg bs m a hl hm => ?_⟩
  have hb : (bytesElems bs).length = 512 := by rw [← hl]; simp [bytesElems]
  have e : St.size ⟨bytesElems bs ++ m, a, []⟩ = 673 := by
    simp only [St.size, List.length_append, hb]; omega
  rw [h cfg _ rfl (by rw [e]; omega) (by rw [e, stackLimit]; omega), if_neg (by rw [e, stackLimit]; omega)]

/-- C88 (field): the room the arithmetic modulo the BabyBear prime and on bits needs. -/
theorem C88_field :
    NeedsRoom (u31Add 2013265921) 2 1 ∧ NeedsRoom (u31Sub 2013265921) 2 1 ∧ NeedsRoom (u31Double 2013265921) 1 2 ∧
    NeedsRoom (u31Mul 2013265921) 2 35 ∧ NeedsRoom (u31extAdd 2013265921) 8 1 ∧ NeedsRoom (u31extSub 2013265921) 8 1 ∧
    NeedsRoom (u31extDouble 2013265921) 4 2 ∧ NeedsRoom u31extEqualverify 8 1 ∧
    (∀ b p, 0 < b → valueToBits b = some p → NeedsRoom p 1 (b + 1)) ∧
    (∀ b p, extractHighBits b = some p → NeedsRoom p 1 33) ∧
    (∀ b p, indexToReverseIndex b = some p → NeedsRoom p 1 (2 * b)) := by
  have bits : ∀ b, b ≤ 31 → 0 < b → ∀ p, valueToBits b = some p → scan p ⟨1, 1, 1, []⟩ = some ⟨b, 1 + (b + 1), 1 + (b + 1), []⟩ := by
    decide +kernel
  have high : ∀ b, b ≤ 31 → ∀ p, extractHighBits b = some p → scan p ⟨1, 1, 1, []⟩ = some ⟨1, 34, 34, []⟩ := by
    decide +kernel
  have rev : ∀ b, b ≤ 31 → ∀ p, indexToReverseIndex b = some p →
      scan p ⟨1, 1, 1, []⟩ = some ⟨1, 1 + 2 * b, 1 + 2 * b, []⟩ := by
    decide +kernel
  refine ⟨Eff.room (n := 2) (o := 1) (.of_scan (by decide +kernel)), Eff.room (n := 2) (o := 1) (.of_scan (by decide +kernel)),
    Eff.room (n := 1) (o := 1) (.of_scan (by decide +kernel)), Eff.room (n := 2) (o := 1) (.of_scan (by decide +kernel)),
    Eff.room (n := 8) (o := 4) (.of_scan (by decide +kernel)), Eff.room (n := 8) (o := 4) (.of_scan (by decide +kernel)),
    Eff.room (n := 4) (o := 4) (.of_scan (by decide +kernel)), Eff.room (n := 8) (o := 0) (.of_scan (by decide +kernel)),
    ?_, ?_, ?_⟩
  · intro b p h0 h
    have hb : b ≤ 31 := by
      unfold valueToBits at h
      split at h
      · cases h
      · omega
    exact Eff.room (.of_scan (bits b hb h0 p h))
  · intro b p h
    have hb : b ≤ 31 := by
      simp only [extractHighBits, compressCustomBits, Option.bind_eq_bind, Option.bind_eq_some_iff] at h
      obtain ⟨c, hc, -⟩ := h
      split at hc
      · cases hc
      · omega
    exact Eff.room (n := 1) (o := 1) (d := 33) (.of_scan (high b hb p h))
  · intro b p h
    have hb : b ≤ 31 := by
      simp only [indexToReverseIndex, valueToBits, Option.bind_eq_bind, Option.bind_eq_some_iff] at h
      obtain ⟨c, hc, -⟩ := h
      split at hc
      · cases hc
      · omega
    exact Eff.room (n := 1) (o := 1) (.of_scan (rev b hb p h))

/-! ### Bit commitments -/

theorem eff_recover {b : BitCommU32} {p : List Op} (h : b.recoverAtStack = some p) : Eff p 20 1 37 37 := by
  simp only [BitCommU32.recoverAtStack, BitCommU32.checksigVerifyScript, Option.bind_eq_bind,
    Option.bind_eq_some_iff] at h
  obtain ⟨q, hq, h⟩ := h
  cases h
  exact (eff_checksigVerify hq).seq eff_u32Compress 0 0 rfl rfl rfl (by omega) (by omega)

theorem eff_recoverAll : ∀ (ps : List (List Op)), (∀ p ∈ ps, Eff p 20 1 37 37) → ps ≠ [] →
    Eff (ps.map (· ++ [Op.toAlt])).flatten (20 * ps.length) ps.length (20 * ps.length + 17) (20 * ps.length + 17) := by
  intro ps
  induction ps with
  | nil => intro _ h; exact absurd rfl h
  | cons p ps ih =>
    intro hp _
    have h1 : Eff (p ++ [Op.toAlt]) 20 1 37 37 := by
      have e : Eff [Op.toAlt] 1 1 1 1 := .of_scan (by decide +kernel)
      exact (hp p (by simp)).seq e 0 0 rfl rfl rfl (by omega) (by omega)
    cases ps with
    | nil => simpa using h1
    | cons q ps =>
      have h2 := ih (fun x hx => hp x (by simp [hx])) (by simp)
      rw [List.map_cons, List.flatten_cons, List.length_cons]
      exact h1.seq h2 (20 * (q :: ps).length) 1 (by omega) (by omega) (by omega) (by simp only [List.length_cons]; omega)
        (by simp only [List.length_cons]; omega)

theorem eff_checkAndRecover {b : BitComm} {q : List Op} (h : b.checkAndRecover = some q) (h0 : 0 < b.u32Values.length) :
    Eff q (20 * b.u32Values.length) b.u32Values.length (20 * b.u32Values.length + 17) (20 * b.u32Values.length + 17) := by
  simp only [BitComm.checkAndRecover, BitComm.recoverAtAlt, Option.bind_eq_bind, Option.bind_eq_some_iff] at h
  obtain ⟨r, ⟨parts, hp, hr⟩, h⟩ := h
  cases h
  cases hr
  have key : ∀ (r : List Nat) (parts : List (List Op)),
      (r.mapM fun i => b.commitments[i]?.bind fun c => c.recoverAtStack.bind fun x => some (x ++ [Op.toAlt])) =
        some parts → ∃ ps : List (List Op), ps.length = r.length ∧ parts = ps.map (· ++ [Op.toAlt]) ∧
        ∀ p ∈ ps, Eff p 20 1 37 37 := by
    intro r
    induction r with
    | nil => intro parts h; simp at h; exact ⟨[], rfl, h, by simp⟩
    | cons i r ih =>
      intro parts h
      simp only [List.mapM_cons, Option.bind_eq_bind, Option.bind_eq_some_iff] at h
      obtain ⟨x, ⟨c, -, y, hy, hx⟩, xs, hxs, h⟩ := h
      obtain ⟨ps, hl, rfl, hps⟩ := ih xs hxs
      simp only [Option.some.injEq] at hx
      simp only [Option.pure_def, Option.some.injEq] at h
      refine ⟨y :: ps, by simp [hl], by rw [← h, ← hx]; rfl, ?_⟩
      intro p hp
      rcases List.mem_cons.1 hp with rfl | hp
      · exact eff_recover hy
      · exact hps p hp
  obtain ⟨ps, hl, e, hps⟩ := key _ _ hp
  rw [List.length_range] at hl
  subst e
  have h1 := eff_recoverAll ps hps (by rintro rfl; simp at hl; omega)
  have h2 : Eff b.messageFromAlt b.u32Values.length b.u32Values.length b.u32Values.length b.u32Values.length := by
    have e : Eff [Op.fromAlt] b.u32Values.length b.u32Values.length b.u32Values.length b.u32Values.length :=
      (Eff.of_scan (n := 1) (o := 1) (k := 1) (t := 1) (by decide +kernel)).frame (b.u32Values.length - 1) |>.cast
        (by omega) (by omega) (by omega) (by omega)
    exact e.emitN (by omega) (by omega) h0
  rw [hl] at h1
  exact h1.seq h2 0 0 rfl rfl rfl (by omega) (by omega)

/-- C88 (bit commitments): a commitment to `n` words of 32 bits has an honest witness of `20 n` elements.  Run under the
limit with nothing else on the stacks, `check_and_recover` recovers the words iff `20 n + 17 ≤ 1000`, that is for at most
49 words; for 50 words or more it fails. -/
theorem C88_bit_commitment (cfg : Cfg) (h20 : ∀ x, (cfg.hash160 x).length = 20)
    (values : List (BitVec 32)) (keys : List (List Char)) (hlen : keys.length = values.length)
    (hk : ∀ k ∈ keys, (hexDecode k).isSome) :
    ∃ b q sig, BitComm.new cfg values keys = some b ∧ b.checkAndRecover = some q ∧ b.signature cfg = some sig ∧
      sig.length = 20 * values.length ∧
      (values.length ≤ 49 → runWitness cfg q sig.reverse = some ⟨values.map signMagElem, [], []⟩) ∧
      (50 ≤ values.length → runWitness cfg q sig.reverse = none) := by
  obtain ⟨b, q, sig, h1, h2, h3, h4⟩ := C67_check_and_recover cfg h20 values keys hlen hk
  have hv : b.u32Values = values := by
    simp only [BitComm.new, Option.bind_eq_bind, Option.bind_eq_some_iff] at h1
    obtain ⟨cs, -, h1⟩ := h1
    split at h1
    · cases h1; rfl
    · cases h1
  rcases Nat.eq_zero_or_pos values.length with h0 | h0
  · obtain rfl := List.length_eq_zero_iff.1 h0
    have hq : q = [] := by
      simp only [BitComm.checkAndRecover, BitComm.recoverAtAlt, BitComm.messageFromAlt, hv, List.length_nil,
        List.range_zero, List.mapM_nil] at h2
      simpa [emitN] using h2.symm
    have hs : sig = [] := by
      simp only [BitComm.signature, hv, List.length_nil, List.range_zero, List.reverse_nil, List.mapM_nil] at h3
      simpa using h3.symm
    subst hq hs
    exact ⟨b, [], [], h1, h2, h3, rfl, fun _ => rfl, fun h => by simp at h⟩
  · have he := eff_checkAndRecover h2 (by rw [hv]; exact h0)
    rw [hv] at he
    have hsl : sig.length = 20 * values.length := by
      have hr := (he.runs cfg (lim := 0) (s := ⟨sig.reverse ++ List.replicate (20 * values.length) [], [], []⟩) rfl
        (j := sig.length) (by simp [St.size]; omega)).2.2 _ (h4 _ _)
      simp [St.size] at hr
      omega
    have hsz : St.size ⟨sig.reverse, [], []⟩ = 20 * values.length := by simp [St.size, hsl]
    obtain ⟨r1, r2, -⟩ := he.runs cfg (lim := stackLimit) (s := ⟨sig.reverse, [], []⟩) rfl (j := 0) (by simp [hsz])
    refine ⟨b, q, sig, h1, h2, h3, hsl, fun hn => ?_, fun hn => ?_⟩
    · rw [runWitness, if_pos (by rw [List.length_reverse, hsl, stackLimit]; omega),
        r1 (by rw [stackLimit]; omega) (by rw [hsz, stackLimit]; omega)]
      simpa using h4 [] []
    · rw [runWitness]
      split
      · rename_i hw
        rw [List.length_reverse, hsl] at hw
        exact r2 (by rw [hsz]; exact hw) (by rw [stackLimit]; omega)
      · rfl

/-- Two keys, and a commitment to 49 words and one to 50. -/
example : (∀ k ∈ List.replicate 50 ['b', '1', '3', '8'], (hexDecode k).isSome) ∧
    (List.replicate 50 ['b', '1', '3', '8']).length = (List.replicate 50 (5 : BitVec 32)).length := by
  refine ⟨?_, by simp⟩
  intro k hk
  rw [List.eq_of_mem_replicate hk]
  decide

/-- The states the room is about: the smallest and the largest number of elements at which 64 message bytes are hashed,
and the next number, at which it fails. -/
example : ∃ p, blake3Script = some p ∧ ∀ (cfg : Cfg) (bs : List UInt8), bs.length = 64 →
    (∀ n, n ≤ 608 → runL cfg stackLimit p ⟨bytesElems bs ++ List.replicate n [], [], []⟩ =
      some ⟨wordsElems (Blake3.hash bs).reverse ++ List.replicate n [], [], []⟩) ∧
    runL cfg stackLimit p ⟨bytesElems bs ++ List.replicate 609 [], [], []⟩ = none := by
  obtain ⟨p, hp, hr⟩ := C10_blake3
  obtain ⟨⟨p', hp', h⟩, -⟩ := C88_hash
  rw [hp] at hp'
  cases hp'
  refine ⟨p, hp, fun cfg bs hl => ?_⟩
  have e : ∀ n, St.size ⟨bytesElems bs ++ List.replicate n [], [], []⟩ = 64 + n := by
    intro n
    simp [St.size, bytesElems, hl]
  refine ⟨fun n hn => ?_, ?_⟩
  · rw [h cfg _ rfl (by rw [e]; omega) (by rw [e, stackLimit]; omega), if_pos (by rw [e, stackLimit]; omega), hr cfg bs _ _ hl]
  · rw [h cfg _ rfl (by rw [e]; omega) (by rw [e, stackLimit]; omega), if_neg (by rw [e, stackLimit]; omega)]

end TapStark
