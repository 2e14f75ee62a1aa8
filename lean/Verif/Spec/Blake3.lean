import Verif.Spec.Word

/-
Specification of BLAKE3 for messages of at most one chunk (1024 bytes), written from the BLAKE3
paper (sections 2.1-2.4), not from the code.  Words are `BitVec 32`; a message is a list of bytes.
The state of the compression function is a list of 16 words.
-/

namespace TapStark.Blake3

abbrev Word := BitVec 32

/-- The initialization vector (the SHA-256 constants). -/
def iv : List Word :=
  [0x6A09E667#32, 0xBB67AE85#32, 0x3C6EF372#32, 0xA54FF53A#32,
   0x510E527F#32, 0x9B05688C#32, 0x1F83D9AB#32, 0x5BE0CD19#32]

/-- The message word permutation applied between rounds: new word `i` is old word `perm i`. -/
def perm : List Nat := [2, 6, 3, 10, 7, 0, 4, 13, 1, 11, 12, 5, 9, 14, 15, 8]

/-- The quarter-round on positions `a b c d` with message words `mx my`. -/
def mix (s : List Word) (a b c d : Nat) (mx my : Word) : List Word :=
  let va := s.getD a 0 + s.getD b 0 + mx
  let vd := (s.getD d 0 ^^^ va).rotateRight 16
  let vc := s.getD c 0 + vd
  let vb := (s.getD b 0 ^^^ vc).rotateRight 12
  let va' := va + vb + my
  let vd' := (vd ^^^ va').rotateRight 8
  let vc' := vc + vd'
  let vb' := (vb ^^^ vc').rotateRight 7
  (((s.set a va').set b vb').set c vc').set d vd'

/-- One round: four column mixes then four diagonal mixes. -/
def round (s m : List Word) : List Word :=
  let s := mix s 0 4 8 12 (m.getD 0 0) (m.getD 1 0)
  let s := mix s 1 5 9 13 (m.getD 2 0) (m.getD 3 0)
  let s := mix s 2 6 10 14 (m.getD 4 0) (m.getD 5 0)
  let s := mix s 3 7 11 15 (m.getD 6 0) (m.getD 7 0)
  let s := mix s 0 5 10 15 (m.getD 8 0) (m.getD 9 0)
  let s := mix s 1 6 11 12 (m.getD 10 0) (m.getD 11 0)
  let s := mix s 2 7 8 13 (m.getD 12 0) (m.getD 13 0)
  mix s 3 4 9 14 (m.getD 14 0) (m.getD 15 0)

/-- The permuted message. -/
def permute (m : List Word) : List Word := perm.map fun i => m.getD i 0

/-- `n + 1` rounds with the message permuted between rounds. -/
def rounds : Nat → List Word → List Word → List Word
  | 0, s, m => round s m
  | n + 1, s, m => rounds n (round s m) (permute m)

/-- The initial state for chaining value `cv`, counter 0, block length and flags. -/
def initState (cv : List Word) (blockLen flags : Nat) : List Word :=
  cv ++ iv.take 4 ++ [0#32, 0#32, BitVec.ofNat 32 blockLen, BitVec.ofNat 32 flags]

/-- The first eight output words of the compression function (seven rounds). -/
def compress (cv m : List Word) (blockLen flags : Nat) : List Word :=
  let s := rounds 6 (initState cv blockLen flags) m
  (List.range 8).map fun i => s.getD i 0 ^^^ s.getD (i + 8) 0

/-- Byte `i` of a byte string padded with zeros. -/
def byteAt (bs : List UInt8) (i : Nat) : Nat := (bs.getD i 0).toNat

/-- Little-endian word `i` of a zero-padded byte string. -/
def wordAt (bs : List UInt8) (i : Nat) : Word :=
  BitVec.ofNat 32 (byteAt bs (4 * i) + 256 * byteAt bs (4 * i + 1) +
    65536 * byteAt bs (4 * i + 2) + 16777216 * byteAt bs (4 * i + 3))

/-- The 16 words of a block of at most 64 bytes, zero padded. -/
def blockWords (bs : List UInt8) : List Word := (List.range 16).map (wordAt bs)

/-- Number of blocks of a chunk: at least one. -/
def numBlocks (len : Nat) : Nat := max 1 ((len + 63) / 64)

/-- Flags of block `i` of `n`: CHUNK_START = 1, CHUNK_END = 2, ROOT = 8. -/
def flagsOf (i n : Nat) : Nat :=
  (if i = 0 then 1 else 0) + (if i + 1 = n then 2 + 8 else 0)

/-- Chaining value after the first `k` of the message's blocks. -/
def chain (bs : List UInt8) : Nat → List Word
  | 0 => iv
  | k + 1 =>
    let block := (bs.drop (64 * k)).take 64
    compress (chain bs k) (blockWords block) block.length (flagsOf k (numBlocks bs.length))

/-- The digest of a message of at most 1024 bytes as eight words. -/
def hash (bs : List UInt8) : List Word := chain bs (numBlocks bs.length)

/-- The digest as 32 bytes: each word little-endian. -/
def hashBytes (bs : List UInt8) : List Nat :=
  (hash bs).flatMap fun w => [byteOf w 0, byteOf w 1, byteOf w 2, byteOf w 3]

/-- Published digest of the empty message. -/
example : hash [] = [0xb94913af#32, 0xa6a1f9f5#32, 0xea4d40a0#32, 0x49c9dc36#32,
    0xc925cb9b#32, 0xb712c1ad#32, 0xca939acc#32, 0x62321fe4#32] := by
  decide +kernel

/-- The digests used in the repository's own tests, /repo/scripts/src/hashes/blake3.rs:537 and
:555 (sixteen and fifteen words equal to 1). -/
example : hash (List.replicate 16 [1, 0, 0, 0]).flatten = [0xae95ca86#32, 0x963deefd#32, 0xc7bcf99a#32, 0xc1a5488b#32,
    0xd6e55b11#32, 0xfcc2af6c#32, 0x98bd6b10#32, 0x700e822d#32] := by
  decide +kernel

example : hash (List.replicate 15 [1, 0, 0, 0]).flatten = [0x7b16b411#32, 0x9f4b18d0#32, 0x4a47b3c8#32, 0x8ed0294c#32,
    0x15bc1c80#32, 0x5a3ab696#32, 0x0fce80b3#32, 0xcd153ac8#32] := by
  decide +kernel

end TapStark.Blake3
