import Verif.Props.CasesTree
import Verif.Props.CasesScripts
import Verif.Props.WrongTrace
import Verif.Props.ProverExact
import Verif.Props.MalleableScript
import Verif.Props.DegreeBits
import Verif.Props.PcsRelease
import Verif.Props.OpenSound
import Verif.Props.TraceScript
import Verif.Props.UniScripts
import Verif.Props.LeafSize
import Verif.Props.Limits
import Verif.Props.LimitLeaf
import Verif.Props.MultiComm
import Verif.Props.AirProgram

/-!
Concrete cases of the theorems about the proof system, resource limits and commitments to several words: each theorem is
applied to data that meet its hypotheses.
-/

namespace TapStark

/-! ### Limits and commitments to several words -/

example : ∃ p, blake3VarLength 100 = some p ∧
    runL caseCfg stackLimit p ⟨bytesElems (List.replicate 100 3) ++ [num 1], [num 2], []⟩ =
      some ⟨wordsElems (Blake3.hash (List.replicate 100 3)).reverse ++ [num 1], [num 2], []⟩ :=
  let ⟨p, h, hr⟩ := C88_hash_fits 100 (by decide) (by decide)
  ⟨p, h, hr caseCfg _ _ _ rfl (by decide)⟩

example : ∃ p, blake3VarLength 512 = some p ∧
    runL caseCfg stackLimit p ⟨bytesElems (List.replicate 512 3) ++ List.replicate 161 (num 1), [], []⟩ = none :=
  let ⟨p, h, hr⟩ := C88_hash_full
  ⟨p, h, hr caseCfg _ _ _ List.length_replicate (by rw [List.length_replicate]; rfl)⟩

example : ∃ p, u32Rrot 7 = some p ∧ NeedsRoom p 4 (rrotRoom 7) := by
  obtain ⟨p, hp, -⟩ := C04_rrot caseCfg [] [] 7 (by decide) 1#32
  exact ⟨p, hp, (C88_words 0#32 0).2.2.2.2.2.2.2.2.2.2.2 7 p (by decide) hp⟩

example := C88_bit_commitment caseCfg caseCfg_length [7#32, 0x80000009#32] ["00".toList, "ab".toList] rfl (by decide)

example := C95_exact caseCfg caseCfg_length [1#32, 2#32] [3#32, 4#32] ["00".toList, "ab".toList] rfl rfl (by decide)

example := C95_one_or_four_partial caseCfg caseCfg_length [7#32] [0x80000007#32] ["ab".toList] (.inl rfl) rfl rfl (by decide)
  (by simp) (by simp)

example := C95_violated_two caseCfg caseCfg_length 1#32 2#32 1#32 2#32 "00".toList "ab".toList (by decide) (by decide)

example := C95_violated_eight caseCfg caseCfg_length 1#32 2#32 3#32 4#32 1#32 2#32 3#32 4#32 (List.replicate 8 9#32)
  List.length_replicate (List.replicate 8 "ab".toList) rfl (fun k hk => by rw [List.eq_of_mem_replicate hk]; decide)

end TapStark

namespace TapStark.Size

open TapStark.Tap TapStark.Tcs

variable {H : Type} [LinearOrder H]

/-- The matrices of C24: every leaf is spendable, of standard size. -/
example (th : TapHash (List Op) H) : ∃ mgr : Manager, ∃ (d : Committed (Fin 0x78000001) H) (n' : Nat),
    commitPolys th babyBearRep mgr 0 fieldMats = some (d, n') ∧ ∀ i, i < 2 ^ 2 →
      ∃ proof p w, openAt d i = some (proof, leafRow fieldMats 2 i) ∧ proof.leaf.script? = some p ∧
        CommittedLeaf.witness ⟨proof.useBcs, proof.queryIndex, (leafRow fieldMats 2 i).map babyBearRep.words⟩ = some w ∧
        acceptsL caseCfg p w.reverse = true ∧ 4 * (scriptBytes p + witnessBytes w) < standardLimit ∧
        PushesAtMost elementLimit p ∧ ∀ x ∈ w, x.length ≤ elementLimit := by
  obtain ⟨mgr, ok, room, size⟩ := C94_winternitz_manager caseCfg caseCfg_length ['b', '1'] (by decide) babyBearRep_ok
  exact ⟨mgr, C94_leaf_fits th babyBearRep_ok mgr 0 fieldMats 2 fieldMats_heights (by decide) (by decide) (ok 0) room size
    (by decide +kernel)⟩

example (th : TapHash (List Op) H) := C89_violated_wide caseCfg caseCfg_length th

end TapStark.Size

namespace TapStark.Pcs

open TapStark.Fri

example {genV : Nat → BB} {g : BB} {MI : InMmcs BB Unit Unit Unit Unit} {M : Mmcs BB Unit Unit Unit Unit} (β z : BB) :
    verify genV g MI M (constChall β) ⟨1, 2, 0, true⟩ [((), [claimLow z 5])] (zeroProof 3 4) () = .panic :=
  C74_violated_shape_panics _ _ _ (by decide)

/-- Without overflow checks the value 5 or 6 of the low matrix makes no difference, next to the claim of a tall one. -/
example (genV : Nat → BB) (g : BB) (β z u : BB) :
    verifyR 27 genV g (anyInK BB) (anyLayerF BB) (constChall β) ⟨1, 1, 0, true⟩ [((), [claimLow z 5, claimTall z u])]
        (zeroProof 3 4) () =
      verifyR 27 genV g (anyInK BB) (anyLayerF BB) (constChall β) ⟨1, 1, 0, true⟩ [((), [claimLow z 6, claimTall z u])]
        (zeroProof 3 4) () := by
  refine C101_violated_release _ _ _ () ?_ ?_
  · simp [SameButValues, claimLow, claimTall]
  · intro qp hqp
    simp only [zeroProof, List.mem_singleton] at hqp
    subst hqp
    exact ⟨4, by simp [openedHeights, claimLow, claimTall], by simp [zeroProof]⟩

end TapStark.Pcs

namespace TapStark.Fri

open Polynomial

/-- Three rounds with blowup 8: a prover with constant polynomial 7 passes. -/
example (M : Mmcs BB Unit Unit Unit Unit) (hM : ∀ q rows π c, M.verifyBatch q rows π c = some true) (a b c : BB) :=
  C109_honest_passes bbGen_twoAdic hM () () (cfg := ⟨3, 1, 1, true⟩)
    (fun h => if h = 6 then X ^ 7 else 0) (by simp) (by
      intro h hh
      by_cases h6 : h = 6
      · subst h6; simp
      · simp [h6]) (betas := [a, b, c]) (by simp) (by show 3 + 3 ≤ 27; decide) (idx := 13)
    (by show 13 < 2 ^ (3 + 3); decide)

example (M : Mmcs BB Unit Unit Unit Unit) (hM : ∀ q rows π c, M.verifyBatch q rows π c = some true) (w : Nat → BB) :=
  C109_violated_any_word bbGen_twoAdic hM () () (cfg := ⟨3, 1, 1, true⟩) w 3 (by decide) (by decide)

end TapStark.Fri

namespace TapStark.Uni

open TapStark.Fri

example := C93_table (5 : BB) 4 6 (by decide) (.inl (by decide +kernel)) (by decide)

/-- An index past the table reads the stack below it. -/
example : ∃ p, getGenerator bbField (5 : BB) 2 = some p ∧
    run caseCfg p ⟨[num (2 * 2 - 1 + 1 : Nat), num 8, num 9], [], []⟩ = some ⟨[num 9, num 8, num 9], [], []⟩ :=
  C93_violated_out_of_range caseCfg 5 2 1 (num 9) [num 8, num 9] [] (by decide) (.inl (by decide +kernel)) (by decide) rfl

end TapStark.Uni

namespace TapStark.Stark

open Polynomial TapStark.Fri TapStark.Pcs TapStark.FS TapStark.Tap

example := C45_degree_is_max (fibAir BB)

example := C49_selectors (F := BB4) bbGen_twoAdic (k := 5) (by decide)

example : ((polyMeaning bbGen 5 [] []).first).eval 1 = ((2 ^ 5 : Nat) : BB) := C49_not_normalised 5

/-- Columns `X ^ 3` and 1 over eight rows, constraint `loc 0 * loc 1 - nxt 0`. -/
example : ∃ s : SymExpr BB, (AExpr.sub (.mul (.loc 0) (.loc 1)) (.nxt 0) : AExpr BB).symbolic 2 0 = some s ∧
    ((AExpr.sub (.mul (.loc 0) (.loc 1)) (.nxt 0) : AExpr BB).value Polynomial.C
      (polyMeaning bbGen 3 [X ^ 3, 1] [])).natDegree ≤ s.degreeMultiple * (2 ^ 3 - 1) + 0 :=
  have h : (AExpr.sub (.mul (.loc 0) (.loc 1)) (.nxt 0) : AExpr BB).symbolic 2 0 = some _ := rfl
  ⟨_, h, C44_symbolic_degree (ps := [X ^ 3, 1]) (pub := []) (by simp) h⟩

/-- Two chunks of degree below four. -/
example := C47_recombine (F := BB) bbGen_twoAdic (k := 2) (q := 1) (by decide) (s := (31 : BB)) (by decide +kernel)
  (deg := bbDeg) [[X ^ 3], [1 + X]] rfl (by
    intro c hc p hp
    simp only [List.mem_cons, List.not_mem_nil, or_false] at hc
    rcases hc with rfl | rfl <;> simp only [List.mem_singleton] at hp <;> subst hp
    · rw [natDegree_X_pow]; decide
    · exact lt_of_le_of_lt (natDegree_add_le _ _) (by simp))

example := C53_zerofier bbGen_twoAdic (n := 3) (r := 2) (by decide) (s := (31 : BB)) (by decide +kernel)

example : ZerofierOnCoset.new bbGen 3 2 (1 : BB) = none :=
  C53_panics bbGen_twoAdic (by decide) (i := 0) (by simp)

section
variable [LinearOrder U256]

/-- A committed trace for the claim that the fourth Fibonacci number is 7: few points pass. -/
example (th : TapHash (List Op) U256) (ps : List BB[X]) (hpw : ps.length = 2) (hps : ∀ p ∈ ps, p.natDegree < 2 ^ 2) :
    ∃ mgr : Tcs.Manager,
      let u := deployed caseCfg th mgr mgr bbRep (lagrangeExt bbGen : Ext BB BB) (bbChall (blake3Perm fiveHash))
        ⟨1, 2, 0, false⟩ bbDeg
      ∃ bad : Set BB, bad.Finite ∧ bad.ncard ≤ 4 ∧ ∀ alpha ∉ bad, ∀ cps : List (List BB[X]), cps.length = 1 →
        (∀ c ∈ cps, ∀ p ∈ c, p.natDegree < 2 ^ 2) →
          {zeta | Accepts u (fibAir BB) [0, 1, 7] 2 0 ps cps alpha zeta}.Finite ∧
          {zeta | Accepts u (fibAir BB) [0, 1, 7] 2 0 ps cps alpha zeta}.ncard ≤ 7 := by
  obtain ⟨mgr, hu, -⟩ := C119_instance caseCfg caseCfg_length th (fromU64 0)
  exact ⟨mgr, C48_sound_partial hu fibAir_filtered fibAir_transitions (pub := [0, 1, 7]) (q := 0) (fibAir_degree 3 le_rfl)
    (k := 2) (by show 2 + 0 ≤ 27; decide) hpw hps (fib_seven _ (by simp [evalRows]))⟩

/-- Arithmetic on row flags. -/
example (th : TapHash (List Op) U256) (alpha : BB) : ∃ mgr : Tcs.Manager,
    let u := deployed caseCfg th mgr mgr bbRep (lagrangeExt bbGen : Ext BB BB) (bbChall (blake3Perm fiveHash))
      ⟨1, 2, 0, false⟩ bbDeg
    checkConstraints (flagAir BB) (evalRows bbGen [(X : BB[X])] 1 2) [] = some () ∧
    ∀ c : List BB[X], (∀ p ∈ c, p.natDegree < 2 ^ 2) →
      {zeta | Accepts u (flagAir BB) [] 2 0 [(X : BB[X])] [c] alpha zeta}.Finite ∧
      {zeta | Accepts u (flagAir BB) [] 2 0 [(X : BB[X])] [c] alpha zeta}.ncard ≤ 2 * 2 ^ 2 - 1 := by
  obtain ⟨mgr, hu, -⟩ := C119_instance caseCfg caseCfg_length th (fromU64 0)
  exact ⟨mgr, C48_violated_flag_arithmetic hu (k := 2) (by decide) (by show 2 ≤ 27; decide) (by decide +kernel) rfl (by simp) alpha⟩

/-- With overflow checks a proof for `2 ^ 66` rows panics. -/
example (th : TapHash (List Op) U256) (mgr : Tcs.Manager) (w : U32) (c1 c2 : List (Vector U32 8)) :
    verifyMachine true (deployed caseCfg th mgr mgr bbRep (lagrangeExt bbGen : Ext BB BB) (bbChall (blake3Perm fiveHash))
      ⟨1, 2, 0, true⟩ bbDeg) (fibAir BB) (Chal.new 16 (fromU64 0)) ⟨c1, c2, [0, 0], [0, 0], [[0]], emptyOpening 2 w, 66⟩
      [0, 0, 0] = .panic :=
  C98_checked _ _ _ (q := 0) (fibAir_degree 3 le_rfl) (by show 64 ≤ 66 + 0; decide)

/-- An accepted proof that the second Fibonacci number is 1: with another claim it ends in acceptance or in the reported
mismatch, and proofs with another number of queries are not accepted. -/
example {L : U31Lib} {T : TrackerLib} (hL : L.Ok caseCfg) (hT : T.Ok caseCfg) {drops : Nat → List Op} (n : Nat)
    (hD : ∀ x : List Elem, x.length ≤ 4 → Does caseCfg (drops x.length) x []) :
    ∃ bc proof ch', verify (fibSetup caseCfg bc 2) (fibAir BB) (Chal.new 16 (fromU64 0)) proof [0, 1, 1] = .ok ch' ∧
      (verify (fibSetup caseCfg bc 2) (fibAir BB) (Chal.new 16 (fromU64 0)) proof [0, 1, 7] = .ok ch' ∨
        verify (fibSetup caseCfg bc 2) (fibAir BB) (Chal.new 16 (fromU64 0)) proof [0, 1, 7] =
          .err .oodEvaluationMismatch) ∧
      ∀ proof' c, verify (fibSetup caseCfg bc 2) (fibAir BB) (Chal.new 16 (fromU64 0)) proof' [0, 1, 1] = .ok c →
        proof'.openingProof.queryProofs.length = proof.openingProof.queryProofs.length := by
  obtain ⟨b, c, -, -, h⟩ := Tcs.winternitz_ok caseCfg caseCfg_length ['b', '1', '3', '8'] (by decide) 0
  generalize Tcs.winternitzBc caseCfg b c = bc at h
  obtain ⟨proof, ch', h1, h2, -⟩ := fib_run hL hT hD h (by omega : 0 < 2) zetaWords2
    zeta2_outside.1 zeta2_outside.2 fib_native28 fib_script28 n
  have hu := fibSetup_ok h (by omega : 0 < 2)
  have h3 := C52_violated_only_final hu (pub := [0, 1, 1]) (pub' := [0, 1, 7]) rfl h2
  refine ⟨bc, proof, ch', h2, h3, fun proof' c hc =>
    by_contra fun hne => C121_query_count_partial h2 hne c hc⟩

/-- An AIR without public values accepts the same proofs whatever they are. -/
example (u : Setup BB BB Nat (List (Vector U32 8)) Nat Nat Nat Nat Nat Nat U32) (ch : Nat)
    (proof : ProofOf BB BB (List (Vector U32 8)) Nat U32 Nat) :
    verify u quartic ch proof [1, 2] = verify u quartic ch proof [3, 4] :=
  C52_violated_verifier (by simp [quartic, Assertion.expr, AExpr.NoPublic]) ch proof rfl

end

end TapStark.Stark
