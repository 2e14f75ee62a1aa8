import Mathlib.Data.List.Basic

/-!
Model of the Fiat-Shamir challenger, basic/src/challenger/mod.rs and chan_field.rs.

`PF` is a word type, `W` the sponge width (16 in the code) and `perm` the permutation.  A Rust panic
is `none`.  Field elements are represented by their canonical coefficients: one for the base field,
four for the extension field (`deg`).
-/

namespace TapStark.FS

/-! ### chan_field.rs -/

/-- `U32 = [u8; 4]` (chan_field.rs:61). -/
abbrev U32 := Vector UInt8 4

/-- `U256 = [u8; 32]` (chan_field.rs:74). -/
abbrev U256 := Vector UInt8 32

/-- `BabyBear::ORDER_U32` of p3-baby-bear. -/
def babyBearP : Nat := 0x78000001

/-- `u32::from_le_bytes`. -/
def leValue (x : U32) : Nat :=
  x[0].toNat + 256 * x[1].toNat + 65536 * x[2].toNat + 16777216 * x[3].toNat

/-- `BabyBear::from_pf` (chan_field.rs:12-19), as a canonical representative. -/
def fromPf (x : U32) : Nat := leValue x % babyBearP

/-- `U32::from_u8_array` (chan_field.rs:67-71): panics unless the slice has exactly four bytes
(longer slices fail the assertion, shorter ones an index). -/
def fromU8Array (a : List UInt8) : Option U32 :=
  if h : a.length = 4 then some ⟨a.toArray, by simpa using h⟩ else none

/-- `PermutationField<4>::mod_p` (chan_field.rs:35-42) as written: `1 << (4 * 3)`. -/
def modP : Nat := 1 <<< (4 * 3)

/-- `U32::from_u64` (chan_field.rs:44-46): the four low little-endian bytes. -/
def fromU64 (v : Nat) : U32 :=
  #v[UInt8.ofNat v, UInt8.ofNat (v / 256), UInt8.ofNat (v / 65536), UInt8.ofNat (v / 16777216)]

/-- `u256_to_u32` (chan_field.rs:87-95). -/
def u256ToU32 (d : U256) : Vector U32 8 :=
  Vector.ofFn fun i => Vector.ofFn fun j => d[i.val * 4 + j.val]

/-- `u32_to_u256` (chan_field.rs:97-105): the words are copied one after the other into a zeroed
array. -/
def u32ToU256 (d : Vector U32 8) : U256 :=
  Vector.ofFn fun k => d[k.val / 4][k.val % 4]

/-! ### The challenger -/

/-- `BfChallenger` (mod.rs:66-84).  Sample outputs are recorded as the words they came from;
`grind_output` is a sample output. -/
structure Chal (PF : Type) where
  sponge : List PF
  input : List PF
  output : List PF
  inRecords : List (List PF)
  outRecords : List (List PF)
  grindBits : Option Nat
  grindOutput : Option (List PF)
  samples : List (List PF)
  deriving DecidableEq, Repr

variable {PF : Type}

/-- `new` (mod.rs:123-137); `z` is `PF::default()`. -/
def Chal.new (W : Nat) (z : PF) : Chal PF :=
  ⟨List.replicate W z, [], [], [], [], none, none, []⟩

/-- `duplexing` (mod.rs:151-174). -/
def Chal.duplexing (W : Nat) (perm : List PF → List PF) (c : Chal PF) : Option (Chal PF) :=
  if c.input.length ≤ W then
    let s := c.input ++ c.sponge.drop c.input.length
    let s' := perm s
    let out := (s'.drop (W / 2)).take (W - W / 2)
    some { c with
      sponge := s', input := [], output := out,
      inRecords := c.inRecords ++ [s], outRecords := c.outRecords ++ [out] }
  else none

/-- `observe` of one word (mod.rs:183-194). -/
def Chal.observe (W : Nat) (perm : List PF → List PF) (c : Chal PF) (v : PF) : Option (Chal PF) :=
  let c := { c with output := [], input := c.input ++ [v] }
  if c.input.length = W / 2 then c.duplexing W perm else some c

/-- `observe` of an array, of a hash (mod.rs:204-208, 232-236). -/
def Chal.observeAll (W : Nat) (perm : List PF → List PF) (c : Chal PF) (vs : List PF) :
    Option (Chal PF) :=
  vs.foldlM (Chal.observe W perm) c

/-- `observe` of a vector of arrays or of vectors (mod.rs:218-222, 246-252). -/
def Chal.observeNested (W : Nat) (perm : List PF → List PF) (c : Chal PF) (vss : List (List PF)) :
    Option (Chal PF) :=
  vss.foldlM (Chal.observeAll W perm) c

/-- Drawing one output word (mod.rs:270-277 and 289-297); words are popped from the end. -/
def Chal.sampleWord (W : Nat) (perm : List PF → List PF) (c : Chal PF) : Option (PF × Chal PF) := do
  let c ← if !c.input.isEmpty || c.output.isEmpty then c.duplexing W perm else some c
  let v ← c.output.getLast?
  some (v, { c with output := c.output.dropLast })

/-- The loop of `sample` over the coefficients. -/
def Chal.sampleWords (W : Nat) (perm : List PF → List PF) : Nat → Chal PF →
    Option (List PF × Chal PF)
  | 0, c => some ([], c)
  | n + 1, c => do
    let (v, c) ← c.sampleWord W perm
    let (vs, c) ← Chal.sampleWords W perm n c
    some (v :: vs, c)

/-- `sample` with `record_sample` (mod.rs:139-142, 261-313): the words of a challenge, first
coefficient first.  `deg` is 1 for the base field and 4 for the extension; other types panic. -/
def Chal.sample (W : Nat) (perm : List PF → List PF) (deg : Nat) (c : Chal PF) :
    Option (List PF × Chal PF) := do
  if deg = 1 ∨ deg = 4 then
    let (vs, c) ← c.sampleWords W perm deg
    some (vs, { c with samples := c.samples ++ [vs] })
  else none

/-- `Blake3Permutation::permute_mut` (mod.rs:34-48): hash the 64 bytes, zero the first eight words,
put the digest in the last eight.  `hash` is the external BLAKE3 crate. -/
def blake3Perm (hash : List UInt8 → U256) (s : List U32) : List U32 :=
  List.replicate 8 (fromU64 0) ++ (u256ToU32 (hash (s.flatMap Vector.toList))).toList

/-- `as_usize` (mod.rs:316-333): the first coefficient. -/
def asUsize (vs : List U32) : Option Nat := vs.head?.map fromPf

/-- `sample_bits` (mod.rs:341-348).  `32 - bits` underflows above 32 (a panic in a debug build). -/
def sampleBits (perm : List U32 → List U32) (deg bits : Nat) (c : Chal U32) :
    Option (Nat × Chal U32) := do
  let (vs, c) ← c.sample 16 perm deg
  let r ← asUsize vs
  if bits ≤ 32 then some (r >>> (32 - bits), c) else none

/-- `check_witness` (mod.rs:107-114). -/
def checkWitness (perm : List U32 → List U32) (deg bits : Nat) (w : U32) (c : Chal U32) :
    Option (Bool × Chal U32) := do
  let c ← c.observe 16 perm w
  let c ← c.observeAll 16 perm (List.replicate 7 (fromU64 0))
  let (r, c) ← sampleBits perm deg bits c
  some (decide (r = 0), c)

/-- `grind` (mod.rs:95-105).  `find_any` may return any of the accepted candidates, so the result is
a relation. -/
def Grinds (perm : List U32 → List U32) (deg bits : Nat) (c : Chal U32) (w : U32) (c' : Chal U32) :
    Prop :=
  (∃ i < modP, w = fromU64 i) ∧
    ∃ c1, checkWitness perm deg bits w c = some (true, c1) ∧
      c' = { c1 with grindBits := some bits, grindOutput := c1.samples.getLast? }

/-- `grind` panics: every candidate was rejected, so `expect` fails (or a check itself panics). -/
def GrindPanics (perm : List U32 → List U32) (deg bits : Nat) (c : Chal U32) : Prop :=
  ∀ i < modP, ∀ c1, checkWitness perm deg bits (fromU64 i) c ≠ some (true, c1)

end TapStark.FS
