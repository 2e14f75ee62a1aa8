import Verif.Spec.Dsl
import Verif.Spec.Challenger
import Verif.Model.ChallengerExpr

/-
Transcripts of the challenger that builds expressions, and what the sampled words stand for.
-/

namespace TapStark

open Stark (BB4 mk4)
open FS (U32 U256 Chal Cmd leValue fromPf)

/-- The external hash function is BLAKE3, on blocks of 64 bytes. -/
def IsBlake3 (hash : List UInt8 → U256) : Prop :=
  ∀ bs, bs.length = 64 → (hash bs).toList.map UInt8.toNat = Blake3.hashBytes bs

/-- BLAKE3 as a function to 32 bytes. -/
def specHash (bs : List UInt8) : U256 := Vector.ofFn fun i => UInt8.ofNat ((Blake3.hashBytes bs).getD i.val 0)

/-- The expressions sampled in a history of commands, with the final challenger. -/
def ChalExpr.exec (fs : Nat) : List (Cmd U32) → ChalExpr × Nat → Option (List Expr × ChalExpr × Nat)
  | [], r => some ([], r)
  | .observe v :: h, (c, n) => do
    let r ← c.observe fs v n
    exec fs h r
  | .sample :: h, (c, n) => do
    let (e, r) ← c.sample fs n
    let (es, r) ← exec fs h r
    some (e :: es, r)

/-- A native challenger that throws away the rest of its output block after every sample. -/
def execForget (perm : List U32 → List U32) (deg : Nat) (c : Chal U32) : Cmd U32 → Option (Chal U32)
  | .observe v => c.observe 16 perm v
  | .sample => (c.sample 16 perm deg).map fun r => { r.2 with output := [] }

/-- The field element of a sampled word in the script: the word `2^31` gives 0. -/
def scriptWord (w : U32) : BB := sampleValue (leValue w)

/-- The field element of a sampled word in the native challenger. -/
def nativeWord (w : U32) : BB := (fromPf w : BB)

/-- The value of a sample: a base field element made of one word, or an extension field element made of four. -/
noncomputable def wordsVal (f : U32 → BB) : List U32 → Val
  | [a, b, c, d] => .ext (mk4 (f a) (f b) (f c) (f d))
  | ws => .nat ((ws.map f).headD 0).val

/-- No sample directly follows another one. -/
def NoRepeat (h : List (Cmd U32)) : Prop := h.IsChain fun a b => ¬ (a = .sample ∧ b = .sample)

end TapStark
