import Verif.Spec.ChallengerExpr
import Verif.Model.ScriptChallenges

/-
The two transcripts of the script verifier: the native one, and the one its expressions compute.
-/

namespace TapStark.Stark

open TapStark.FS TapStark.Fri

/-- The challenger of the expressions: after every sample the rest of the block is thrown away, and the word `2^31` counts
as 0. -/
noncomputable def scriptChall (perm : List U32 → List U32) : Chall (Chal U32) Roots BB4 U32 where
  observe ch c := ch.observeNested 16 perm (c.map Vector.toList)
  sample ch := do
    let (vs, ch) ← ch.sample 16 perm 4
    some (fromBase4 (vs.map scriptWord), { ch with output := [] })
  sampleBits ch bits := do
    let (vs, ch) ← ch.sample 16 perm 4
    some (((vs.map scriptWord).headD 0).val >>> (32 - bits), { ch with output := [] })
  checkWitness ch bits w := do
    let ch ← ch.observe 16 perm w
    let ch ← ch.observeAll 16 perm (List.replicate 7 (fromU64 0))
    let (vs, ch) ← ch.sample 16 perm 4
    some (decide (((vs.map scriptWord).headD 0).val >>> (32 - bits) = 0), { ch with output := [] })

/-- The challenges of the native verifier, in order: `alpha`, `zeta`, the combination challenge of the opening proof, and
those of the FRI protocol. -/
noncomputable def nativeTranscript (perm : List U32 → List U32) (cfg : Config) {P IP : Type} (trace quotient : Roots)
    (proof : FriProof BB4 Roots P U32 IP) (c : Chal U32) : Res ((BB4 × BB4 × BB4 × FriChallenges BB4) × Chal U32) := do
  let c ← Res.ofOption ((bb4Chall perm).observe c trace)
  let (alpha, c) ← Res.ofOption ((bb4Chall perm).sample c)
  let c ← Res.ofOption ((bb4Chall perm).observe c quotient)
  let (zeta, c) ← Res.ofOption ((bb4Chall perm).sample c)
  let (batch, c) ← Res.ofOption ((bb4Chall perm).sample c)
  let (fc, c) ← verifyShapeAndSampleChallenges (bb4Chall perm) cfg proof c
  Res.ok ((alpha, zeta, batch, fc), c)

/-- What the script computes: `alpha`, `zeta`, the folding challenges, the outcome of the proof-of-work check and the
query indices. -/
structure ScriptChallenges where
  alpha : BB4
  zeta : BB4
  betas : List BB4
  pow : Bool
  indices : List (Nat × Nat)

/-- The transcript of the script. -/
noncomputable def scriptTranscript (perm : List U32 → List U32) (cfg : Config) {P IP : Type} (trace quotient : Roots)
    (proof : FriProof BB4 Roots P U32 IP) (c : Chal U32) : Option ScriptChallenges := do
  let c ← (scriptChall perm).observe c trace
  let (alpha, c) ← (scriptChall perm).sample c
  let c ← (scriptChall perm).observe c quotient
  let (zeta, c) ← (scriptChall perm).sample c
  let (betas, c) ← sampleBetas (scriptChall perm) proof.commitPhaseCommits c
  let (pow, c) ← (scriptChall perm).checkWitness c cfg.powBits proof.powWitness
  let (indices, _) ← sampleIndices (scriptChall perm) (proof.commitPhaseCommits.length + cfg.logBlowup) cfg.numQueries 0 c
  some ⟨alpha, zeta, betas, pow, indices⟩

/-- The number of positions where two lists differ. -/
def differing {α : Type} [DecidableEq α] (as bs : List α) : Nat := (as.zip bs).countP fun p => decide (p.1 ≠ p.2)

end TapStark.Stark
