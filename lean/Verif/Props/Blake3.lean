import Verif.Proofs.Blake3Top
import Verif.Props.Words

/-
Properties C10, C11, C12, C65, C66: the BLAKE3 scripts.

A message is on the stack as `bytesElems bs` (first byte on top).  A digest is left as its eight
words, last word on top, each word with its least significant byte on top:
`wordsElems (hash bs).reverse`.  `Blake3.hash` is the specification in Verif/Spec/Blake3.lean.
-/

namespace TapStark
open Blake3 (Word)

/-! ### C10 -/

/-- C10: the script of `blake3()` exists, consumes exactly the 64 message bytes and leaves exactly
the BLAKE3 digest. -/
theorem C10_blake3 : ∃ p, blake3Script = some p ∧
    ∀ (cfg : Cfg) (bs : List UInt8) (m a : List Elem), bs.length = 64 →
      run cfg p ⟨bytesElems bs ++ m, a, []⟩ =
        some ⟨wordsElems (Blake3.hash bs).reverse ++ m, a, []⟩ := by
  obtain ⟨p, hp⟩ := blake3Script_exists
  refine ⟨p, hp, fun cfg bs m a hl => ?_⟩
  have h1 : Blake3.hash bs = Blake3.compress Blake3.iv (Blake3.blockWords bs) 64 11 := by
    have hn : Blake3.numBlocks bs.length = 0 + 1 := by rw [hl]; rfl
    unfold Blake3.hash
    rw [hn, Blake3.chain, hn]
    simp only [Nat.mul_zero, List.drop_zero, List.take_of_length_le (by omega : bs.length ≤ 64), hl]
    rfl
  have h2 : bytesElems bs = wordsElems (Blake3.blockWords bs) := by
    rw [wordsElems_blockWords bs 0 (by omega)]; simp
  rw [h1, h2]
  exact run_done (run_blake3 hp _ (blockWords_length _) rfl)

/-- A 64-byte message to which the theorem applies. -/
example : (List.replicate 16 [1, 0, 0, 0]).flatten.length = 64 := rfl

/-! ### C11 -/

/-- C11: for every length from 1 to 512 the script of `blake3_var_length` exists and leaves exactly
the digest of every message of that length. -/
theorem C11_var_length (n : Nat) (h0 : 0 < n) (h1 : n ≤ 512) :
    ∃ p, blake3VarLength n = some p ∧
      ∀ (cfg : Cfg) (bs : List UInt8) (m a : List Elem), bs.length = n →
        run cfg p ⟨bytesElems bs ++ m, a, []⟩ =
          some ⟨wordsElems (Blake3.hash bs).reverse ++ m, a, []⟩ := by
  obtain ⟨comp, hc⟩ := b3CompressionScript_exists
  have hex : ∃ p, blake3VarLength n = some p := by
    unfold blake3VarLength; rw [if_neg (by omega), hc]; exact ⟨_, rfl⟩
  obtain ⟨p, hp⟩ := hex
  refine ⟨p, hp, fun cfg bs m a hl => ?_⟩
  subst hl
  exact run_done (run_blake3VarLength bs h0 hp rfl)

/-- C11: longer messages are refused when the script is generated. -/
theorem C11_too_long (n : Nat) (h : 512 < n) : blake3VarLength n = none := by
  unfold blake3VarLength; rw [if_pos (by omega)]

/-- Outside the supported range: `blake3_var_length(0)` is not the hash of the empty message.  It
consumes sixteen words that are not part of the message and hashes them with block length 0. -/
theorem C11_zero_length : ∃ p, blake3VarLength 0 = some p ∧
    ∀ (cfg : Cfg) (mv : List Word) (m a : List Elem), mv.length = 16 →
      run cfg p ⟨wordsElems mv ++ m, a, []⟩ =
        some ⟨wordsElems (Blake3.compress Blake3.iv mv 0 11).reverse ++ m, a, []⟩ := by
  obtain ⟨comp, hc⟩ := b3CompressionScript_exists
  refine ⟨_, by unfold blake3VarLength; rw [if_neg (by omega), hc]; rfl, fun cfg mv m a hm => ?_⟩
  apply run_done
  have h : live [] = true := rfl
  simp only [List.append_assoc, List.nil_append]
  rw [run_pushToStack _ _ h]
  simp only [Nat.reduceAdd, Nat.reduceDiv, Nat.zero_mul, Nat.sub_self, List.replicate_zero,
    List.nil_append, ne_eq, not_true_eq_false, if_false]
  rw [run_u8PushXorTable h, b3VarInit, run_pushWordsRev _ h]
  have := run_compressionScript (cfg := cfg) (ops := b3VarLoop comp (0 - 1) 0 ++
    (u8DropXorTable ++ (emitN 8 u32FromAlt ++ []))) (m := m) (a := a) hc Blake3.iv mv 0 11 rfl hm h
  have e : Blake3.initState Blake3.iv 0 11 = b3IV ++ b3IV.take 4 ++
    [0#32, 0#32, BitVec.ofNat 32 (if 0 < 64 then 0 else 64),
     if 0 > 64 then 0b00000001#32 else 0b00001011#32] := rfl
  rw [← e, this]
  rw [show b3VarLoop comp (0 - 1) 0 = [] from rfl, List.nil_append, run_u8DropXorTable h,
    run_fromAlts _ 8 (by simp [compress_length]) h]

/-! ### C12 -/

/-- What the generator can do between the start and the end of a compression: emit a quarter-round
on four distinct state words and two message words, or permute the message names. -/
inductive GenStep where
  | g (a b c d m0 m1 : Nat)
  | permute

/-- Legal quarter-round arguments. -/
def GenStep.Ok : GenStep → Prop
  | .g a b c d m0 m1 =>
    (a < 16 ∧ b < 16 ∧ c < 16 ∧ d < 16 ∧ m0 < 16 ∧ m1 < 16) ∧
    (a ≠ b ∧ a ≠ c ∧ a ≠ d ∧ b ≠ c ∧ b ≠ d ∧ c ≠ d)
  | .permute => True

/-- The generator run on a sequence of steps: the script emitted and the pointer map left. -/
def genSteps : List GenStep → Env → Option (List Op × Env)
  | [], env => some ([], env)
  | .g a b c d m0 m1 :: rest, env => do
    let (p, env) ← b3G env 16 (.state a) (.state b) (.state c) (.state d) (.message m0) (.message m1)
    let (q, env) ← genSteps rest env
    some (p ++ q, env)
  | .permute :: rest, env => do
    let env ← b3Permute env
    genSteps rest env

/-- What those steps mean for the BLAKE3 state and message. -/
def specSteps : List GenStep → List Word × List Word → List Word × List Word
  | [], s => s
  | .g a b c d m0 m1 :: rest, (s, mv) =>
    specSteps rest (Blake3.mix s a b c d (mv.getD m0 0) (mv.getD m1 0), mv)
  | .permute :: rest, (s, mv) => specSteps rest (s, Blake3.permute mv)

theorem genSteps_correct (cfg : Cfg) (steps : List GenStep) (hok : ∀ x ∈ steps, x.Ok) {env : Env}
    {ab sv mv ms : List Word} (t : Tracks env (ptrVal sv mv) ab (tableWords ++ ms)) (f : Full env)
    (hab : ab.length = 16) (hms : ms.length < 1000) (hsv : sv.length = 16) :
    ∃ p env' ab', genSteps steps env = some (p, env') ∧ Full env' ∧ ab'.length = 16 ∧
      Tracks env' (ptrVal (specSteps steps (sv, mv)).1 (specSteps steps (sv, mv)).2) ab'
        (tableWords ++ ms) ∧
      WRun cfg p (ab ++ (tableWords ++ ms)) (ab' ++ (tableWords ++ ms)) := by
  induction steps generalizing env ab sv mv with
  | nil => exact ⟨[], env, ab, rfl, f, hab, t, WRun.nil _⟩
  | cons x rest ih =>
    have hok' : ∀ x ∈ rest, x.Ok := fun x hx => hok x (by simp [hx])
    cases x with
    | g a b c d m0 m1 =>
      obtain ⟨⟨h1, h2, h3, h4, h5, h6⟩, h7, h8, h9, h10, h11, h12⟩ :=
        hok (.g a b c d m0 m1) (by simp)
      obtain ⟨p, env1, ab1, e1, f1, l1, t1, r1⟩ :=
        b3G_correct (cfg := cfg) t f hab hms hsv h1 h2 h3 h4 h5 h6 h7 h8 h9 h10 h11 h12
      obtain ⟨q, env2, ab2, e2, f2, l2, t2, r2⟩ := ih hok' t1 f1 l1 (by rw [mix_length, hsv])
      exact ⟨p ++ q, env2, ab2, by simp [genSteps, e1, e2], f2, l2, t2, r1.trans r2⟩
    | permute =>
      obtain ⟨env1, e1, f1, t1⟩ := b3Permute_correct t f
      obtain ⟨q, env2, ab2, e2, f2, l2, t2, r2⟩ := ih hok' t1 f1 hab hsv
      exact ⟨q, env2, ab2, by simp [genSteps, e1, e2], f2, l2, t2, r2⟩

/-- C12: start from the initial pointer map with state words `sv` above the table and message words
`mv` below it, and let the generator take any sequence of legal steps.  It does not panic; the
script runs; and on the stack it leaves, the depth recorded for each of the 32 pointers is the
depth of that word's current value, with different pointers at different depths. -/
theorem C12_pointer_map (cfg : Cfg) (steps : List GenStep) (hok : ∀ x ∈ steps, x.Ok)
    (sv mv : List Word) (hs : sv.length = 16) (hm : mv.length = 16) :
    ∃ p env ws, genSteps steps ptrInit = some (p, env) ∧
      (∀ m a, run cfg p ⟨wordsElems sv ++ xorTable ++ wordsElems mv ++ m, a, []⟩ =
        some ⟨wordsElems ws ++ m, a, []⟩) ∧
      (∀ i, i < 16 → ∃ k, env (.state i) = some k ∧
        ws[k]? = some ((specSteps steps (sv, mv)).1.getD i 0)) ∧
      (∀ i, i < 16 → ∃ k, env (.message i) = some k ∧
        ws[k]? = some ((specSteps steps (sv, mv)).2.getD i 0)) ∧
      (∀ p q k, env p = some k → env q = some k → p = q) := by
  obtain ⟨p, env, ab, e, f, l, t, r⟩ :=
    genSteps_correct cfg steps hok (ptrInit_tracks hs hm) ptrInit_full hs (by omega) hs
  refine ⟨p, env, ab ++ (tableWords ++ mv), e, fun m a => ?_, fun i hi => ?_, fun i hi => ?_, t.inj⟩
  · apply run_done
    rw [← r [] m a [] rfl]
    simp [tableWords_elems]
  · obtain ⟨k, hk⟩ := f.some_st hi
    exact ⟨k, hk, t.sound _ _ hk⟩
  · obtain ⟨k, hk⟩ := f.some_ms hi
    exact ⟨k, hk, t.sound _ _ hk⟩

/-- The steps of one compression: eight quarter-rounds, then six times a permutation and eight
quarter-rounds. -/
def compressSteps : List GenStep :=
  let r := b3RoundCalls.map fun (a, b, c, d, m0, m1) => GenStep.g a b c d m0 m1
  r ++ (List.replicate 6 (.permute :: r)).flatten

/-- Every prefix of a compression is covered by `C12_pointer_map`. -/
theorem C12_compress_prefix_ok (n : Nat) : ∀ x ∈ compressSteps.take n, x.Ok := by
  have h : ∀ x ∈ compressSteps, x.Ok := by
    intro x hx
    have hx' : x = .permute ∨
        x ∈ b3RoundCalls.map fun (a, b, c, d, m0, m1) => GenStep.g a b c d m0 m1 := by
      simp only [compressSteps, List.mem_append, List.mem_flatten, List.mem_replicate] at hx
      rcases hx with hx | ⟨l, ⟨_, rfl⟩, hx⟩
      · exact .inr hx
      · simpa using hx
    rcases hx' with rfl | hx'
    · trivial
    · simp only [b3RoundCalls, List.map_cons, List.map_nil, List.mem_cons, List.not_mem_nil,
        or_false] at hx'
      rcases hx' with rfl | rfl | rfl | rfl | rfl | rfl | rfl | rfl <;> simp [GenStep.Ok]
  exact fun x hx => h x (List.mem_of_mem_take hx)

/-- The steps of one compression are the rounds of the code. -/
theorem C12_compress_steps (env : Env) : genSteps compressSteps env = (do
    let (p, env) ← b3Round env 16
    let (q, env) ← b3PermRounds 16 6 env
    some (p ++ q, env)) := by
  have hr : ∀ (rest : List GenStep) (calls : List (Nat × Nat × Nat × Nat × Nat × Nat)) (env : Env),
      genSteps ((calls.map fun (a, b, c, d, m0, m1) => GenStep.g a b c d m0 m1) ++ rest) env = (do
        let (p, env) ← b3Gs 16 calls env
        let (q, env) ← genSteps rest env
        some (p ++ q, env)) := by
    intro rest calls
    induction calls with
    | nil => intro env; cases h : genSteps rest env <;> simp [b3Gs, h]
    | cons x calls ih =>
      intro env
      obtain ⟨a, b, c, d, m0, m1⟩ := x
      simp only [List.map_cons, List.cons_append, genSteps, b3Gs, Option.bind_eq_bind]
      cases b3G env 16 (.state a) (.state b) (.state c) (.state d) (.message m0) (.message m1) with
      | none => rfl
      | some r =>
        simp only [Option.bind_some, ih, Option.bind_eq_bind, Option.bind_assoc]
        cases b3Gs 16 calls r.2 with
        | none => rfl
        | some r' =>
          simp only [Option.bind_some]
          cases genSteps rest r'.2 <;> simp
  have hp : ∀ (n : Nat) (env : Env), genSteps ((List.replicate n (GenStep.permute ::
      b3RoundCalls.map fun (a, b, c, d, m0, m1) => GenStep.g a b c d m0 m1)).flatten) env =
      b3PermRounds 16 n env := by
    intro n
    induction n with
    | zero => intro env; rfl
    | succ n ih =>
      intro env
      rw [List.replicate_succ, List.flatten_cons, List.cons_append, genSteps, b3PermRounds]
      cases b3Permute env with
      | none => rfl
      | some env1 =>
        simp only [Option.bind_eq_bind, Option.bind_some, hr, b3Round]
        cases b3Gs 16 b3RoundCalls env1 with
        | none => rfl
        | some r => simp only [Option.bind_some, ih]
  unfold compressSteps
  simp only
  rw [hr, b3Round]
  cases b3Gs 16 b3RoundCalls env with
  | none => rfl
  | some r => simp only [Option.bind_eq_bind, Option.bind_some, hp]

/-! ### C65 -/

/-- C65: `blake3_160` leaves exactly the first five words (20 bytes) of the BLAKE3 digest of the
40-byte message. -/
theorem C65_blake3_160 : ∃ p, blake3Script160 = some p ∧
    ∀ (cfg : Cfg) (bs : List UInt8) (m a : List Elem), bs.length = 40 →
      run cfg p ⟨bytesElems bs ++ m, a, []⟩ =
        some ⟨wordsElems ((Blake3.hash bs).take 5).reverse ++ m, a, []⟩ := by
  obtain ⟨p, hp⟩ := blake3Script160_exists
  refine ⟨p, hp, fun cfg bs m a hl => ?_⟩
  have h1 : Blake3.hash bs = Blake3.compress Blake3.iv (Blake3.blockWords bs) 40 11 := by
    have hn : Blake3.numBlocks bs.length = 0 + 1 := by rw [hl]; rfl
    unfold Blake3.hash
    rw [hn, Blake3.chain, hn]
    simp only [Nat.mul_zero, List.drop_zero, List.take_of_length_le (by omega : bs.length ≤ 64), hl]
    rfl
  have h2 : Blake3.blockWords bs =
      (List.range 10).map (Blake3.wordAt bs) ++ List.replicate 6 0#32 := by
    unfold Blake3.blockWords
    rw [show List.range 16 = List.range 10 ++ [10, 11, 12, 13, 14, 15] from rfl, List.map_append]
    have hb : ∀ i, 40 ≤ i → Blake3.byteAt bs i = 0 := by
      intro i hi
      simp [Blake3.byteAt, List.getD_eq_getElem?_getD, List.getElem?_eq_none (by omega : bs.length ≤ i)]
    have hw : ∀ i, 10 ≤ i → Blake3.wordAt bs i = 0#32 := by
      intro i hi
      unfold Blake3.wordAt
      rw [hb _ (by omega), hb _ (by omega), hb _ (by omega), hb _ (by omega)]
    rw [List.map_cons, List.map_cons, List.map_cons, List.map_cons, List.map_cons, List.map_cons,
      List.map_nil, hw 10 (by omega), hw 11 (by omega), hw 12 (by omega), hw 13 (by omega),
      hw 14 (by omega), hw 15 (by omega)]
    rfl
  have h3 : bytesElems bs = wordsElems ((List.range 10).map (Blake3.wordAt bs)) :=
    (wordsElems_wordAt 10 bs (by omega)).symm
  rw [h1, h2, h3]
  exact run_done (run_blake3_160 hp _ (by simp) rfl)

example : (List.replicate 10 [1, 0, 0, 0]).flatten.length = 40 := rfl

/-! ### C66 -/

/-- A byte string of `4 k` bytes as words, and the words as bytes again. -/
theorem digest_bytes_iff (k : Nat) (es : List UInt8) (rs : List Word) (he : es.length = 4 * k)
    (hr : rs.length = k) :
    (List.range k).map (Blake3.wordAt es) = rs ↔
      es.map (·.toNat) = rs.flatMap fun w => [byteOf w 0, byteOf w 1, byteOf w 2, byteOf w 3] := by
  have h1 : wordsElems rs = (rs.flatMap fun w => [byteOf w 0, byteOf w 1, byteOf w 2, byteOf w 3]).map
      (fun n => num (n : Nat)) := by
    simp [wordsElems, List.map_flatMap]
    rfl
  have h2 : bytesElems es = (es.map (·.toNat)).map (fun n => num (n : Nat)) := by
    simp [bytesElems]
  have hinj : Function.Injective (fun n : Nat => num (n : Nat)) := by
    intro x y h
    have h' : (x : Int) = y := by simpa using h
    omega
  constructor
  · intro h
    have h3 := wordsElems_wordAt k es he
    rw [h, h1, h2] at h3
    exact ((List.map_inj_right hinj).mp h3).symm
  · intro h
    have h3 := wordsElems_wordAt k es he
    rw [h2, h, ← h1] at h3
    have hlen : ((List.range k).map (Blake3.wordAt es)).length = rs.length := by simp [hr]
    clear h h1 h2
    generalize (List.range k).map (Blake3.wordAt es) = ws at h3 hlen
    clear he hr
    induction ws generalizing rs with
    | nil =>
      cases rs with
      | nil => rfl
      | cons r rs => simp at hlen
    | cons w ws ih =>
      cases rs with
      | nil => simp at hlen
      | cons r rs =>
        rw [wordsElems_cons, wordsElems_cons] at h3
        have := List.append_inj h3 rfl
        rw [wordElems_injective this.1, ih rs this.2 (by simpa using hlen)]

/-- C66: hashing a 64-byte message, pushing 32 expected bytes with `push_bytes_hex` and running
`blake3_hash_equalverify` succeeds exactly when the expected bytes are the digest, and then leaves
the stack as it was before the message. -/
theorem C66_hash_equalverify (p : List Op) (hp : blake3Script = some p) (cfg : Cfg)
    (bs expected : List UInt8) (m a : List Elem) (hb : bs.length = 64) (he : expected.length = 32) :
    run cfg (p ++ pushBytesHex expected ++ blake3HashEqualverify) ⟨bytesElems bs ++ m, a, []⟩ =
      if expected.map (·.toNat) = Blake3.hashBytes bs then some ⟨m, a, []⟩ else none := by
  obtain ⟨p', hp', hrun⟩ := C10_blake3
  obtain rfl : p = p' := by rw [hp] at hp'; exact Option.some.inj hp'
  rw [List.append_assoc, run_append_of (hrun cfg bs m a hb), run_pushBytesHex _ rfl,
    ← wordsElems_wordAt 8 expected (by omega)]
  have hl : (Blake3.hash bs).length = 8 := chain_length _ _
  have := run_hashEqualverify (cfg := cfg) (ops := []) (m := m) (a := a) (c := []) 7
    ((List.range 8).map (Blake3.wordAt expected)) (Blake3.hash bs) (by simp) hl rfl
  rw [List.append_nil] at this
  unfold blake3HashEqualverify
  rw [List.append_assoc]
  rw [this]
  have := digest_bytes_iff 8 expected (Blake3.hash bs) (by omega) hl
  unfold Blake3.hashBytes
  simp only [this]
  rfl

/-- C66 for the 20-byte variant. -/
theorem C66_hash_equalverify_160 (p : List Op) (hp : blake3Script160 = some p) (cfg : Cfg)
    (bs expected : List UInt8) (m a : List Elem) (hb : bs.length = 40) (he : expected.length = 20) :
    run cfg (p ++ pushBytesHex expected ++ blake3160HashEqualverify) ⟨bytesElems bs ++ m, a, []⟩ =
      if expected.map (·.toNat) = (Blake3.hashBytes bs).take 20 then some ⟨m, a, []⟩ else none := by
  obtain ⟨p', hp', hrun⟩ := C65_blake3_160
  obtain rfl : p = p' := by rw [hp] at hp'; exact Option.some.inj hp'
  rw [List.append_assoc, run_append_of (hrun cfg bs m a hb), run_pushBytesHex _ rfl,
    ← wordsElems_wordAt 5 expected (by omega)]
  have hl : (Blake3.hash bs).length = 8 := chain_length _ _
  have hl5 : ((Blake3.hash bs).take 5).length = 5 := by simp [hl]
  have := run_hashEqualverify (cfg := cfg) (ops := []) (m := m) (a := a) (c := []) 4
    ((List.range 5).map (Blake3.wordAt expected)) ((Blake3.hash bs).take 5) (by simp) hl5 rfl
  rw [List.append_nil] at this
  unfold blake3160HashEqualverify
  rw [List.append_assoc]
  rw [this]
  have := digest_bytes_iff 5 expected ((Blake3.hash bs).take 5) (by omega) hl5
  have e : (Blake3.hashBytes bs).take 20 = ((Blake3.hash bs).take 5).flatMap fun w =>
      [byteOf w 0, byteOf w 1, byteOf w 2, byteOf w 3] := by
    unfold Blake3.hashBytes
    match Blake3.hash bs, hl with
    | [w0, w1, w2, w3, w4, w5, w6, w7], _ => rfl
  rw [e]
  simp only [this]
  rfl

end TapStark
