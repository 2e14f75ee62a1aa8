import Verif.Props.CasesWords
import Verif.Props.U31
import Verif.Props.ScriptHelper
import Verif.Props.Dsl
import Verif.Props.Challenger
import Verif.Props.ChallengerExpr
import Verif.Props.Fri
import Verif.Props.FriScript

/-!
Concrete cases of the theorems about field scripts, index scripts, checks, the challenger and the low degree test: each
theorem is applied to data that meet its hypotheses.
-/

namespace TapStark

/-! ### Field and index scripts -/

example : run caseCfg (u31Add 2013265921) ⟨[num 2013265920, num 5, num 9], [], []⟩ = some ⟨[num 4, num 9], [], []⟩ :=
  C62_add caseCfg 2013265921 5 2013265920 [num 9] [] (by decide) (by decide) (by decide)

example : run caseCfg (u31Double 2013265921) ⟨[num 2013265920], [], []⟩ = some ⟨[num 2013265919], [], []⟩ :=
  C62_double caseCfg 2013265921 2013265920 [] [] (by decide) (by decide)

example : ∃ r : Nat, r < 2013265921 ∧ (r + 6) % 2013265921 = 5 ∧
    run caseCfg (u31Sub 2013265921) ⟨[num 6, num 5], [], []⟩ = some ⟨[num r], [], []⟩ :=
  C62_sub caseCfg 2013265921 5 6 [] [] (by decide) (by decide) (by decide)

example := C62_to_bits caseCfg 2013265920 [num 9] [] (by decide)

example := C62_ext caseCfg 2013265921 1 2 3 2013265920 5 6 7 8 [num 9] [] (by decide) (by decide) (by decide)

/-- Six with three bits. -/
example : ∃ p, valueToBits 3 = some p ∧ run caseCfg p ⟨[num 6, num 9], [], []⟩ =
    some ⟨[num 1, num 1, num 0, num 9], [], []⟩ :=
  C56_bits caseCfg 3 6 [num 9] [] (by decide) (by decide)

example := C56_reverse caseCfg 5 6 [num 9] [] (by decide) (by decide) (by decide)

/-- The reversal of 6 with five bits is 12; a witness with another index is refused. -/
example : ∃ p, reverseBitsLenWithInput 6 5 = some p ∧ run caseCfg p ⟨[num (6 : Nat), num 9], [], []⟩ =
    some ⟨[num (12 : Nat), num 9], [], []⟩ := by
  obtain ⟨p, h1, h2⟩ := C56_checked_reverse caseCfg 5 6 6 [num 9] [] (by decide) (by decide) (by decide)
  exact ⟨p, h1, by rw [h2, if_pos rfl]; rfl⟩

example : ∃ p, reverseBitsLenWithInput 6 5 = some p ∧ run caseCfg p ⟨[num (7 : Nat), num 9], [], []⟩ = none := by
  obtain ⟨p, h1, h2⟩ := C56_checked_reverse caseCfg 5 6 7 [num 9] [] (by decide) (by decide) (by decide)
  exact ⟨p, h1, by rw [h2, if_neg (by decide)]⟩

example : ∃ p, extractHighBits 4 = some p ∧ run caseCfg p ⟨[num (0x7fffffff : Nat)], [], []⟩ = some ⟨[num (7 : Nat)], [], []⟩ :=
  C56_high_bits caseCfg 4 0x7fffffff [] [] (by decide) (by decide) (by decide)

example : ∃ p, extractHighBits 4 = some p ∧ run caseCfg p ⟨[num (-(5 : Int))], [], []⟩ = some ⟨[num (15 : Nat)], [], []⟩ :=
  C56_high_bits_negative caseCfg 4 5 [] [] (by decide) (by decide) (by decide) (by decide)

example : ∃ p, indexToReverseIndex 3 = some p ∧ run caseCfg p ⟨[num (8 : Nat)], [], []⟩ = some ⟨[num (7 : Nat)], [], []⟩ :=
  C56_violated_out_of_range caseCfg 3 8 [] [] (by decide) (by decide) (by decide) (by decide)

/-! ### Checks -/

/-- Two failing comparisons of base field elements pass. -/
example : ∃ m' n', (twoChecks bbField (5 : BB) 6 7 8).1.embedHintVerify (twoChecks bbField (5 : BB) 6 7 8).2 = some (m', n') ∧
    m'.run caseCfg (repoLib 2013265921) refTracker = some () :=
  C59_violated_two_failures (repoLib_ok caseCfg) (refTracker_ok caseCfg) (by decide +kernel) (by decide +kernel)

example (a b c d : Stark.BB4) := C59_ext_checks (repoLib_ok caseCfg) (refTracker_ok caseCfg) a b c d

example (n : Nat) := C34_violated_consecutive (repoLib_ok caseCfg) (refTracker_ok caseCfg) n

end TapStark

namespace TapStark.FS

example := C30_onto_partial 4 10 (.inr rfl) (by decide) 400 (by decide)

example (perm : List U32 → List U32) (c : Chal U32) : sampleBits perm 4 33 c = none :=
  C30_more_than_32_panics perm 4 33 (by decide) c

/-- 400 can be drawn with ten bits, so 512 and above cannot. -/
example : ∃ (perm : List U32 → List U32) (c c' : Chal U32), sampleBits perm 4 10 c = some (400, c') ∧ 400 < 2 ^ (10 - 1) := by
  obtain ⟨perm, c', -, h⟩ := C30_onto_partial 4 10 (.inr rfl) (by decide) 400 (by decide)
  exact ⟨perm, _, c', h, (C30_upper_half_never perm 4 10 _ c' 400 (by decide) h).2⟩

/-- With one bit every word passes, so the first witness tried is found and accepted. -/
example : ∃ (w : U32) (c' cv : Chal U32), Grinds (blake3Perm specHash) 4 1 (Chal.new 16 (fromU64 0)) w c' ∧
    checkWitness (blake3Perm specHash) 4 1 w (Chal.new 16 (fromU64 0)) = some (true, cv) ∧ SameState c' cv := by
  obtain ⟨last, c', h1, h2, -⟩ := C71_pow_block (blake3Perm specHash) 4 (.inr rfl) 1 (by decide) (fromU64 0)
    (Chal.new 16 (fromU64 0)) rfl (fun s _ => blake3Perm_length specHash s) rfl
  have hlt : fromPf last / 2 ^ (32 - 1) = 0 := Nat.div_eq_of_lt (by
    exact lt_trans (fromPf_lt last) (by decide))
  rw [hlt] at h2
  obtain ⟨-, w, d, hg⟩ := C32_small_partial _ 4 1 _ _ 0 (by decide) h2
  obtain ⟨cv, e1, e2, -⟩ := C31_grind_accepted _ 4 1 _ _ w hg
  exact ⟨w, d, cv, hg, e1, e2⟩

example : leValue (fromU64 0xdeadbeef) = 0xdeadbeef := C33_u64_roundtrip 0xdeadbeef (by decide)

example (hash : List UInt8 → U256) := C70_transcript_binding_partial hash 4 (.inr rfl)
  [.observe (fromU64 1), .sample, .observe (fromU64 2)] [.observe (fromU64 1), .sample, .observe (fromU64 3)] rfl

end TapStark.FS

namespace TapStark.Fri

open Polynomial

example (β : ℚ) : (foldPoly β (X ^ 7 : ℚ[X])).natDegree < 4 := C36_degree β _ 4 (by simp)

example : pairs ([10, 11, 12, 13] : List ℚ) = some [[10, 11], [12, 13]] ∧
    (([[10, 11], [12, 13]] : List (List ℚ))[3 >>> 1]?.bind fun r => r[(3 ^^^ 1) % 2]?) = ([10, 11, 12, 13] : List ℚ)[3 ^^^ 1]? :=
  have h : pairs ([10, 11, 12, 13] : List ℚ) = some [[10, 11], [12, 13]] := rfl
  ⟨h, (C64_pair _ _ h 3).2⟩

/-- Three rounds are answered by the rows at the index halved once, twice and three times. -/
example : ∃ (M : Mmcs ℚ Unit Unit Nat Nat) (openings : List (List (List ℚ) × Nat)),
    answerQuery M [100, 200, 300] (13 >>> 0) 0 = some openings ∧ openings.map Prod.snd = [106, 203, 301] ∧
    openings.length = 3 :=
  have h : answerQuery (F := ℚ) (S := Unit) (C := Unit) ⟨fun _ _ => none, fun _ => none,
      fun _ i d => some ([[1, 2]], d + i), fun _ _ _ _ => none⟩ [100, 200, 300] (13 >>> 0) 0 =
        some [([[1, 2]], 106), ([[1, 2]], 203), ([[1, 2]], 301)] := rfl
  ⟨_, _, h, rfl, (C64_opened_rows _ 13 0 _ _ 0 h).1⟩

example {gen : Nat → ℚ} {M : Mmcs ℚ Unit Unit Unit Unit} {cfg : Config} (β : ℚ) :
    verifyQuery gen M cfg [()] 5 0 [([[1, 2], [3, 4]], ())] [β] [] 3 = .panic :=
  C41_violated_row_count_panics (by decide)

example {gen : Nat → ℚ} {M : Mmcs ℚ Unit Unit Unit Unit} {cfg : Config} (β : ℚ) :
    verifyQuery gen M cfg [()] 5 0 [([[1]], ())] [β] [] 3 = .panic :=
  C41_violated_short_row_panics (by decide)

example (w : BB) := C43_violated_no_blowup (repoLib_ok caseCfg) (refTracker_ok caseCfg) w

end TapStark.Fri
