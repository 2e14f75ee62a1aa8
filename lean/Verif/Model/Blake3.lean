import Verif.Model.U32

/-
Model of /repo/scripts/src/hashes/blake3.rs: the BLAKE3 script generators.  A generator that panics
(missing pointer, failed assertion) returns `none`.
-/

namespace TapStark

/-- `Ptr`, /repo/scripts/src/hashes/blake3.rs:20-32. -/
inductive Ptr where
  | state (i : Nat)
  | message (i : Nat)
deriving DecidableEq, Repr

/-- `Env = HashMap<Ptr, u32>`, /repo/scripts/src/hashes/blake3.rs:35, as a partial function.  Nothing
in the code depends on the iteration order of the map. -/
abbrev Env := Ptr → Option Nat

/-- `HashMap::insert`. -/
def Env.set (env : Env) (p : Ptr) (v : Nat) : Env := fun q => if q = p then some v else env q

/-- `ptr_init`, /repo/scripts/src/hashes/blake3.rs:37-47. -/
def ptrInit : Env
  | .state i => if i < 16 then some i else none
  | .message i => if i < 16 then some (i + 16 + 256 / 4) else none

/-- `ptr_init_160`, /repo/scripts/src/hashes/blake3.rs:49-66. -/
def ptrInit160 : Env
  | .state i => if i < 16 then some i else none
  | .message i =>
    if i < 16 then
      some (i + 16 + 256 / 4 + (if i < 10 then 6 else 0) - (if i < 10 then 0 else 10))
    else none

/-- `ptr_insert`, /repo/scripts/src/hashes/blake3.rs:79-85. -/
def Env.insert (env : Env) (p : Ptr) : Env :=
  Env.set (fun q => (env q).map (· + 1)) p 0

/-- `ptr_extract`, /repo/scripts/src/hashes/blake3.rs:87-99: `none` when the pointer is absent. -/
def Env.extract (env : Env) (p : Ptr) : Option (Nat × Env) :=
  match env p with
  | none => none
  | some index =>
    some (index, fun q =>
      if q = p then none else (env q).map fun v => if index < v then v - 1 else v)

/-- `IV`, /repo/scripts/src/hashes/blake3.rs:110-112. -/
def b3IV : List (BitVec 32) :=
  [0x6A09E667#32, 0xBB67AE85#32, 0x3C6EF372#32, 0xA54FF53A#32,
   0x510E527F#32, 0x9B05688C#32, 0x1F83D9AB#32, 0x5BE0CD19#32]

/-- `MSG_PERMUTATION`, /repo/scripts/src/hashes/blake3.rs:114. -/
def b3Perm : List Nat := [2, 6, 3, 10, 7, 0, 4, 13, 1, 11, 12, 5, 9, 14, 15, 8]

/-- The loop `for word in state.iter().rev() { u32_push(word) }`. -/
def pushWordsRev (ws : List (BitVec 32)) : List Op := ws.reverse.flatMap u32Push

/-- `initial_state`, /repo/scripts/src/hashes/blake3.rs:116-123. -/
def b3InitialState (blockLen : Nat) : List Op :=
  pushWordsRev (b3IV ++ b3IV.take 4 ++ [0#32, 0#32, BitVec.ofNat 32 blockLen, 0b1011#32])

/-- `G`, /repo/scripts/src/hashes/blake3.rs:125-173.  The `script!` macro evaluates its blocks in
order and Rust evaluates call arguments left to right, so the pointer map is threaded in that
order. -/
def b3G (env : Env) (ap : Nat) (a b c d m0 m1 : Ptr) : Option (List Op × Env) := do
  -- z = a+b+m0
  let ib ← env b
  let (ia, env) ← env.extract a
  let p1 ← u32Add ib ia
  let im0 ← env m0
  let p2 ← u32Add (im0 + 1) 0
  -- y = (d^z) >>> 16
  let (id, env) ← env.extract d
  let p3 ← u32Xor 0 (id + 1) (ap + 1)
  let p4 ← u32Rrot 16
  -- x = y+c
  let (ic, env) ← env.extract c
  let p5 ← u32Add 0 (ic + 2)
  -- w = (b^x) >>> 12
  let (ib, env) ← env.extract b
  let p6 ← u32Xor 0 (ib + 3) (ap + 1)
  let p7 ← u32Rrot 12
  -- v = z+w+m1
  let p8 ← u32Add 0 3
  let im1 ← env m1
  let p9 ← u32Add (im1 + 4) 0
  -- u = (y^v) >>> 8
  let p10 ← u32Xor 0 3 (ap + 1)
  let p11 ← u32Rrot 8
  -- t = x+u
  let p12 ← u32Add 0 3
  -- s = (w^t) >>> 7
  let p13 ← u32Xor 0 3 (ap + 1)
  let p14 ← u32Rrot 7
  some (p1 ++ (p2 ++ (p3 ++ (p4 ++ (p5 ++ (p6 ++ (p7 ++ (p8 ++ (p9 ++ (p10 ++ (p11 ++ (p12 ++
    (p13 ++ p14)))))))))))),
    (((env.insert a).insert d).insert c).insert b)

/-- The eight `G` calls of `round`, /repo/scripts/src/hashes/blake3.rs:175-187. -/
def b3RoundCalls : List (Nat × Nat × Nat × Nat × Nat × Nat) :=
  [(0, 4, 8, 12, 0, 1), (1, 5, 9, 13, 2, 3), (2, 6, 10, 14, 4, 5), (3, 7, 11, 15, 6, 7),
   (0, 5, 10, 15, 8, 9), (1, 6, 11, 12, 10, 11), (2, 7, 8, 13, 12, 13), (3, 4, 9, 14, 14, 15)]

/-- A sequence of `G` calls. -/
def b3Gs (ap : Nat) : List (Nat × Nat × Nat × Nat × Nat × Nat) → Env → Option (List Op × Env)
  | [], env => some ([], env)
  | (a, b, c, d, m0, m1) :: rest, env => do
    let (p, env) ← b3G env ap (.state a) (.state b) (.state c) (.state d) (.message m0) (.message m1)
    let (q, env) ← b3Gs ap rest env
    some (p ++ q, env)

/-- `round`, /repo/scripts/src/hashes/blake3.rs:175-187. -/
def b3Round (env : Env) (ap : Nat) : Option (List Op × Env) := b3Gs ap b3RoundCalls env

/-- `permute`, /repo/scripts/src/hashes/blake3.rs:190-201: emits no script. -/
def b3Permute (env : Env) : Option Env := do
  let prev ← (List.range 16).mapM fun i => env (.message i)
  some ((List.range 16).foldl
    (fun (e : Env) i => e.set (.message i) (prev.getD (b3Perm.getD i 0) 0)) env)

/-- The loop `for _ in 0..n { permute; round }` of `compress`,
/repo/scripts/src/hashes/blake3.rs:207-211. -/
def b3PermRounds (ap : Nat) : Nat → Env → Option (List Op × Env)
  | 0, env => some ([], env)
  | n + 1, env => do
    let env ← b3Permute env
    let (p, env) ← b3Round env ap
    let (q, env) ← b3PermRounds ap n env
    some (p ++ q, env)

/-- The loop `for i in from..from+n { u32_xor(ptr(S(i)) + i, ptr_extract(S(i+8)) + i, ap + 1) }` of
`compress`, /repo/scripts/src/hashes/blake3.rs:214-217 and 231-234. -/
def b3Finish (ap : Nat) : Nat → Nat → Env → Option (List Op)
  | _, 0, _ => some []
  | i, n + 1, env => do
    let x ← env (.state i)
    let (y, env) ← env.extract (.state (i + 8))
    let p ← u32Xor (x + i) (y + i) (ap + 1)
    let q ← b3Finish ap (i + 1) n env
    some (p ++ q)

/-- `compress` (k = 8) and `compress_160` (k = 5), /repo/scripts/src/hashes/blake3.rs:203-236.  The
two functions differ only in the number of output words. -/
def b3Compress (k : Nat) (env : Env) (ap : Nat) : Option (List Op) := do
  let (p, env) ← b3Round env ap
  let (q, env) ← b3PermRounds ap 6 env
  let r ← b3Finish ap 0 k env
  some (p ++ (q ++ r))

/-- `blake3`, /repo/scripts/src/hashes/blake3.rs:239-270. -/
def blake3Script : Option (List Op) := do
  let comp ← b3Compress 8 ptrInit 16
  some (u8PushXorTable ++ (b3InitialState 64 ++ (comp ++ (emitN 8 u32ToAlt ++
    (emitN 24 u32Drop ++ (u8DropXorTable ++ emitN 8 u32FromAlt))))))

/-- The block state pushed before the first compression of `blake3_var_length`,
/repo/scripts/src/hashes/blake3.rs:296-321. -/
def b3VarInit (numBytes : Nat) : List Op :=
  pushWordsRev (b3IV ++ b3IV.take 4 ++
    [0#32, 0#32, BitVec.ofNat 32 (if numBytes < 64 then numBytes else 64),
     if numBytes > 64 then 0b00000001#32 else 0b00001011#32])

/-- `compression_script` of `blake3_var_length`, /repo/scripts/src/hashes/blake3.rs:324-349: compress
with a fresh pointer map, remove the 64 message elements below, move the result to the alt stack
and drop the rest of the state. -/
def b3CompressionScript : Option (List Op) := do
  let comp ← b3Compress 8 ptrInit 16
  some (comp ++ ([.num 321] ++ (emitN 63 [.dup, .roll, .drop] ++ ([.sub1, .roll, .drop] ++
    (emitN 8 u32ToAlt ++ emitN 8 u32Drop)))))

/-- Iterations of the block loop of `blake3_var_length`, /repo/scripts/src/hashes/blake3.rs:356-402,
with `blocks` iterations left and `numBytes` bytes not yet processed before the subtraction. -/
def b3VarLoop (comp : List Op) : Nat → Nat → List Op
  | 0, _ => []
  | blocks + 1, numBytes =>
    let numBytes := numBytes - 64
    pushWordsRev (b3IV.take 4 ++
      [0#32, 0#32, BitVec.ofNat 32 (if numBytes < 64 then numBytes else 64),
       if blocks = 0 then 0b00001010#32 else 0b00000000#32]) ++
    (emitN 8 u32FromAlt ++ ((List.range 7).flatMap (fun i => u32Roll (i + 1)) ++
      (comp ++ b3VarLoop comp blocks numBytes)))

/-- `blake3_var_length`, /repo/scripts/src/hashes/blake3.rs:272-412; `none` when
`assert!(num_bytes <= 512)` fails. -/
def blake3VarLength (numBytes : Nat) : Option (List Op) :=
  if ¬ numBytes ≤ 512 then none
  else do
    let numBlocks := (numBytes + 63) / 64
    let padding := numBlocks * 64 - numBytes
    let comp ← b3CompressionScript
    some (pushToStack 0 padding ++
      ((if padding ≠ 0 then emitN numBytes [.num (numBytes + padding - 1 : Nat), .roll] else []) ++
       (u8PushXorTable ++ (b3VarInit numBytes ++ (comp ++
        (b3VarLoop comp (numBlocks - 1) numBytes ++
         (u8DropXorTable ++ emitN 8 u32FromAlt)))))))

/-- `blake3_160`, /repo/scripts/src/hashes/blake3.rs:415-452. -/
def blake3Script160 : Option (List Op) := do
  let comp ← b3Compress 5 ptrInit160 16
  some (pushToStack 0 24 ++ (u8PushXorTable ++ (b3InitialState 40 ++ (comp ++ (emitN 5 u32ToAlt ++
    (emitN 27 u32Drop ++ (u8DropXorTable ++ emitN 5 u32FromAlt)))))))

/-- `push_bytes_hex`, /repo/scripts/src/hashes/blake3.rs:454-470, after hex decoding: the bytes are
pushed in reverse, so the first byte ends on top. -/
def pushBytesHex (bs : List UInt8) : List Op := bs.reverse.map fun b => .num (b.toNat : Nat)

/-- `blake3_hash_equalverify`, /repo/scripts/src/hashes/blake3.rs:472-483. -/
def blake3HashEqualverify : List Op :=
  emitN 28 [.toAlt] ++ u32Equalverify ++
    emitN 7 ([.fromAlt, .fromAlt, .fromAlt, .fromAlt] ++ u32Equalverify)

/-- `blake3_160_hash_equalverify`, /repo/scripts/src/hashes/blake3.rs:485-496. -/
def blake3160HashEqualverify : List Op :=
  emitN 16 [.toAlt] ++ u32Equalverify ++
    emitN 4 ([.fromAlt, .fromAlt, .fromAlt, .fromAlt] ++ u32Equalverify)

end TapStark
