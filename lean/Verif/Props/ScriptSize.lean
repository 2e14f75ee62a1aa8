import Verif.Proofs.ChallengeSize
import Verif.Props.ScriptChallenges
import Verif.Props.LimitLeaf

/-
C94: sizes of the scripts against Bitcoin's limits.
-/

namespace TapStark.Size

open TapStark TapStark.Stark TapStark.FS TapStark.Fri TapStark.Tcs TapStark.Tap

/-! ### The script of the challenges -/

variable {L : U31Lib} {T : TrackerLib} {perm : List U32 → List U32} {cfg : Config} {P IP : Type} {d n0 w N N' : Nat}
  {trace quotient : Roots} {proof : FriProof BB4 Roots P U32 IP} {c : Chal U32}
  {r : (BB4 × BB4 × BB4 × FriChallenges BB4) × Expr × List Expr × Chal U32 × ChalExpr × Nat} {m m' : InputManager}
  {e : Expr} {p : List Op}

/-- **C94**, how long the script of the challenges is at least: every check hashes the transcript from the beginning again,
89000 opcodes for each hash. -/
theorem C94_challenges (h1 : w ≤ trace.length) (h2 : w ≤ quotient.length) (h3 : ∀ r ∈ proof.commitPhaseCommits, w ≤ r.length)
    (hd : allChallenges perm cfg d trace quotient proof c (ChalExpr.new n0).1 (ChalExpr.new n0).2 = .ok r)
    (hm : challengerManager r.2.2.1 = some m) (hN : r.2.2.2.2.2 ≤ N) (he : m.embedHintVerify N = some (m', N'))
    (hx : m'.exec = some e) (hp : m'.script L T e = some p) :
    89000 * challengeHashes w proof.commitPhaseCommits.length cfg.numQueries ≤ p.length := by
  obtain ⟨Q, hQ, ht⟩ := allChallenges_tot h1 h2 h3 hd
  exact manager_length hQ ht hm hN he hx hp

theorem challengeHashes_eq (w r q : Nat) : challengeHashes w r q =
    w + upto (fun i => (i + 3) * w) r + ((r + 2) * w + 1) + upto (fun i => (r + 2) * w + 1 + (i + 1)) q := by
  rw [upto_eq, upto_eq]; rfl

theorem upto_add (f : Nat → Nat) (k : Nat) : ∀ j, upto f (j + k) = upto f j + upto (fun i => f (j + i)) k := by
  intro j
  induction j generalizing f with
  | zero => simp [upto]
  | succ j ih =>
    rw [Nat.add_right_comm, upto, upto, ih]
    have : (fun i => f (j + i + 1)) = fun i => f (j + 1 + i) := funext fun i => by congr 1; omega
    rw [this]; omega

/-- **C94 violated**: with at least four queries, and as many roots in every commitment as the scheme makes (one for
every query), the script of the challenges is larger than a block. -/
theorem C94_violated_four_queries (hq : 4 ≤ cfg.numQueries) (h1 : cfg.numQueries ≤ trace.length)
    (h2 : cfg.numQueries ≤ quotient.length) (h3 : ∀ r ∈ proof.commitPhaseCommits, cfg.numQueries ≤ r.length)
    (hd : allChallenges perm cfg d trace quotient proof c (ChalExpr.new n0).1 (ChalExpr.new n0).2 = .ok r)
    (hm : challengerManager r.2.2.1 = some m) (hN : r.2.2.2.2.2 ≤ N) (he : m.embedHintVerify N = some (m', N'))
    (hx : m'.exec = some e) (hp : m'.script L T e = some p) : blockLimit < p.length := by
  have h := C94_challenges (hq.trans h1) (hq.trans h2) (fun r hr => hq.trans (h3 r hr)) hd hm hN he hx hp
  refine lt_of_lt_of_le ?_ h
  obtain ⟨k, hk⟩ : ∃ k, cfg.numQueries = 4 + k := ⟨_, (Nat.add_sub_cancel' hq).symm⟩
  rw [challengeHashes_eq, hk, upto_add]
  simp only [upto, blockLimit]
  omega

/-- **C94 violated** with any commitments at all, if there are seven rounds and queries together. -/
theorem C94_violated_seven (hq : 7 ≤ proof.commitPhaseCommits.length + cfg.numQueries) (h1 : trace ≠ [])
    (h2 : quotient ≠ []) (h3 : ∀ r ∈ proof.commitPhaseCommits, r ≠ [])
    (hd : allChallenges perm cfg d trace quotient proof c (ChalExpr.new n0).1 (ChalExpr.new n0).2 = .ok r)
    (hm : challengerManager r.2.2.1 = some m) (hN : r.2.2.2.2.2 ≤ N) (he : m.embedHintVerify N = some (m', N'))
    (hx : m'.exec = some e) (hp : m'.script L T e = some p) : blockLimit < p.length := by
  have h := C94_challenges (w := 1) (List.length_pos_iff.2 h1) (List.length_pos_iff.2 h2)
    (fun r hr => List.length_pos_iff.2 (h3 r hr)) hd hm hN he hx hp
  refine lt_of_lt_of_le ?_ h
  generalize proof.commitPhaseCommits.length = a at hq
  generalize cfg.numQueries = b at hq
  have e : upto (fun i => (i + 3) * 1) a + (a + 2) * 1 + 1 + upto (fun i => (a + 2) * 1 + 1 + (i + 1)) b =
      upto (fun i => i + 3) (a + (1 + b)) := by
    rw [upto_add, upto_add _ _ 1]
    simp only [upto, Nat.mul_one, Nat.add_zero]
    have : (fun i => a + (1 + i) + 3) = fun i => a + 2 + 1 + (i + 1) := funext fun i => by omega
    rw [this]; omega
  obtain ⟨k, hk⟩ : ∃ k, a + (1 + b) = 8 + k := ⟨a + b - 7, by omega⟩
  rw [hk, upto_add] at e
  rw [challengeHashes_eq]
  simp only [upto, blockLimit] at e ⊢
  omega

/-- **C94 violated** by the repository's own example (uni-stark/tests/fib_air.rs:153-190): six queries, and three rounds
for its eight rows. -/
theorem C94_violated_test (hq : cfg.numQueries = 6) (hr : proof.commitPhaseCommits.length = 3) (h1 : trace.length = 6)
    (h2 : quotient.length = 6) (h3 : ∀ r ∈ proof.commitPhaseCommits, r.length = 6)
    (hd : allChallenges perm cfg d trace quotient proof c (ChalExpr.new n0).1 (ChalExpr.new n0).2 = .ok r)
    (hm : challengerManager r.2.2.1 = some m) (hN : r.2.2.2.2.2 ≤ N) (he : m.embedHintVerify N = some (m', N'))
    (hx : m'.exec = some e) (hp : m'.script L T e = some p) : 7 * blockLimit < p.length := by
  have h := C94_challenges h1.ge h2.ge (fun r hr => (h3 r hr).ge) hd hm hN he hx hp
  rw [hq, hr] at h
  exact lt_of_lt_of_le (by decide) h

/-! #### A case -/

/-- A commitment with four roots. -/
def roots4 : Roots := List.replicate 4 (Vector.replicate 8 #v[1, 2, 3, 4])

/-- A FRI proof with one round and four queries. -/
noncomputable def fri4 : FriProof BB4 Roots Unit U32 Unit := ⟨[roots4], List.replicate 4 ⟨(), []⟩, 0, fromU64 4⟩

/-- Blowup 4, four queries, one bit of work. -/
def cfg4 : Config := ⟨2, 4, 1, true⟩

/-- All words are below or above `2^31`, and an even number of indices differ. -/
def passes4 (a : Res ((BB4 × BB4 × BB4 × FriChallenges BB4) × Chal U32)) (b : Option ScriptChallenges) : Bool :=
  match indicesOf a, b with
  | some (is, true), some s => differing s.indices is % 2 == 0
  | _, _ => false

theorem passes4_true : passes4 (nativeTranscript (blake3Perm specHash) cfg4 roots4 roots4 fri4 (Chal.new 16 (fromU64 0)))
    (scriptTranscript (blake3Perm specHash) cfg4 roots4 roots4 fri4 (Chal.new 16 (fromU64 0))) = true := by decide +kernel

/-- With BLAKE3 itself, four queries and four roots in every commitment, the manager of the challenges runs successfully
with a script larger than a block. -/
theorem C94_instance {scfg : Cfg} (hL : L.Ok scfg) (hT : T.Ok scfg) : ∃ r m m' N' e p,
    allChallenges (blake3Perm specHash) cfg4 1 roots4 roots4 fri4 (Chal.new 16 (fromU64 0)) (ChalExpr.new 0).1
      (ChalExpr.new 0).2 = .ok r ∧ challengerManager r.2.2.1 = some m ∧
    m.embedHintVerify r.2.2.2.2.2 = some (m', N') ∧ m'.run scfg L T = some () ∧ m'.exec = some e ∧
    m'.script L T e = some p ∧ blockLimit < p.length := by
  have h0 := passes4_true
  unfold passes4 at h0
  split at h0
  · rename_i is s hi hs
    obtain ⟨alpha, zeta, batch, betas, c', h1, h2⟩ := indicesOf_some hi
    obtain ⟨s', zetaE, checks, e', n', m, h3, h4, h5, h6⟩ := C77_accepts hL hT specHash_ok (bits := 1) (by decide) (by decide)
      (by decide) (by decide) (by decide) (by decide) (by simp [roots4]) (by simp [roots4])
      (by simp [fri4, roots4]) h1 h2 0
    obtain ⟨m', N', h7, h8⟩ := h6 n' (le_refl _)
    have h9 : m'.run scfg L T = some () := h8.mpr (by
      rw [hs] at h3
      cases h3
      simpa using h0)
    have hr := h9
    unfold InputManager.run at hr
    cases hx : m'.exec with
    | none =>
      exfalso
      unfold challengerManager at h5
      rw [Option.map_eq_some_iff] at h5
      obtain ⟨last, -, rfl⟩ := h5
      simp only [InputManager.embedHintVerify, Option.some.injEq, Prod.mk.injEq] at h7
      rw [← h7.1] at hx
      cases hx
    | some e =>
      rw [hx] at hr
      simp only [Option.bind_eq_bind, Option.bind_eq_some_iff] at hr
      obtain ⟨p, hp, -⟩ := hr
      exact ⟨_, m, m', N', e, p, h4, h5, h7, h9, hx, hp,
        C94_violated_four_queries (by decide) (by decide) (by decide) (by simp [fri4, roots4, cfg4]) h4 h5 (le_refl _) h7 hx hp⟩
  · cases h0

end TapStark.Size
