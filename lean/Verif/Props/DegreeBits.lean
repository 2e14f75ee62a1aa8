import Verif.Model.DegreeBits
import Verif.Props.EmptyProof

/-!
C98: the size of the trace a proof speaks of.
-/

set_option linter.unusedSectionVars false

namespace TapStark.Stark

open TapStark.Fri TapStark.Pcs Polynomial

variable {K F : Type} [Field K] [Field F] [DecidableEq K] [DecidableEq F] [Algebra K F]
variable {SI DI PI S C D P Ch W : Type}

/-- A size the machine can hold is taken as it is: `verify` and its version with machine arithmetic agree. -/
theorem C98_small (checks : Bool) (u : Setup K F SI C DI PI S D P Ch W) {air : Air K} (ch : Ch)
    (proof : ProofOf K F C P W PI) {pub : List K} {q : Nat} (hq : getLogQuotientDegree air pub.length = some q)
    (h : proof.degreeBits + q < 64) :
    verifyMachine checks u air ch proof pub = verify u air ch proof pub := by
  have h1 : proof.degreeBits < 64 := by omega
  cases checks <;>
    simp [verifyMachine, hq, shlOne, h, h1, Nat.mod_eq_of_lt h, Nat.mod_eq_of_lt h1, pow_add, Nat.log2_two_pow]

/-- With overflow checks a proof of a larger size is not accepted: the verifier panics. -/
theorem C98_checked (u : Setup K F SI C DI PI S D P Ch W) {air : Air K} (ch : Ch)
    (proof : ProofOf K F C P W PI) {pub : List K} {q : Nat} (hq : getLogQuotientDegree air pub.length = some q)
    (h : 64 ≤ proof.degreeBits + q) : verifyMachine true u air ch proof pub = .panic := by
  have h1 : ¬ proof.degreeBits + q < 64 := by omega
  simp only [verifyMachine, hq, shlOne, h1, if_true, if_false]
  split_ifs <;> rfl

/-- **C98 is violated without overflow checks**: 64 can be added to the size any number of times.  Every accepted proof
stays accepted, and a refused one stays refused for the same reason. -/
theorem C98_violated_release (u : Setup K F SI C DI PI S D P Ch W) {air : Air K} (ch : Ch)
    (proof : ProofOf K F C P W PI) {pub : List K} {q : Nat} (hq : getLogQuotientDegree air pub.length = some q)
    (h : proof.degreeBits + q < 64) (n : Nat) :
    verifyMachine false u air ch { proof with degreeBits := proof.degreeBits + 64 * n } pub =
      verify u air ch proof pub := by
  have h1 : proof.degreeBits < 64 := by omega
  have e1 : (proof.degreeBits + 64 * n) % 64 = proof.degreeBits := by omega
  have e2 : (proof.degreeBits + 64 * n + q) % 64 = proof.degreeBits + q := by omega
  simp [verifyMachine, hq, shlOne, e1, e2, pow_add, Nat.log2_two_pow]

/-- Without overflow checks nothing else is possible: an accepted proof is accepted for the low six bits of its size. -/
theorem C98_release_exact (u : Setup K F SI C DI PI S D P Ch W) {air : Air K} (ch ch' : Ch)
    (proof : ProofOf K F C P W PI) {pub : List K} (h : verifyMachine false u air ch proof pub = .ok ch') :
    verify u air ch { proof with degreeBits := proof.degreeBits % 64 } pub = .ok ch' := by
  unfold verifyMachine at h
  cases hq : getLogQuotientDegree air pub.length with
  | none => simp [hq] at h
  | some q =>
    simp only [hq, shlOne, Bool.false_eq_true, if_false, Nat.log2_two_pow] at h
    split_ifs at h
    exact h

/-- **C98 is violated in every build**: the size is bound neither by the transcript nor by the checks.  When the
assertions of an AIR hold of rows of zeros, one proof (rows of zeros, quotient 0, no openings) is accepted for traces of
all sizes whose domain does not contain the challenge point. -/
theorem C98_violated_sizes (checks : Bool) {u : Setup K F SI C DI PI S D P Ch W} (hu : u.Ok) {Good : Ch → Prop}
    (hK : u.chall.Total Good u.twoAdicity) {air : Air K} {pub : List K} {q : Nat}
    (hq : getLogQuotientDegree air pub.length = some q) (h64 : u.twoAdicity < 64)
    (hb : u.cfg.logBlowup ≤ u.twoAdicity)
    (hzero : ∀ a ∈ air.asserts, ∀ s1 s2 s3 : F, a.residue (algebraMap K F)
      (⟨List.replicate air.width 0, List.replicate air.width 0, pub.map (algebraMap K F), s1, s2, s3⟩ :
        Window F).meaning = 0)
    {ch : Ch} (hch : Good ch) (traceCommit quotientCommit : C) :
    ∃ alpha zeta chz, challenges u ch traceCommit quotientCommit = some (alpha, zeta, chz) ∧
      ∃ batch chPow, u.chall.sample chz = some (batch, chPow) ∧ Good chPow ∧
        ∀ w ch1, u.chall.checkWitness chPow u.cfg.powBits w = some (true, ch1) → ∃ ch',
          ∀ k, k + q ≤ u.twoAdicity → zeta ^ 2 ^ k ≠ 1 →
            verifyMachine checks u air ch ⟨traceCommit, quotientCommit, List.replicate air.width 0,
              List.replicate air.width 0, List.replicate (2 ^ q) (List.replicate u.deg.D 0),
              emptyOpening u.cfg.numQueries w, k⟩ pub = .ok ch' := by
  obtain ⟨ch1, e1, g1⟩ := hK.observe ch traceCommit hch
  obtain ⟨alpha, ch2, e2, g2⟩ := hK.sample ch1 g1
  obtain ⟨ch3, e3, g3⟩ := hK.observe ch2 quotientCommit g2
  obtain ⟨zeta, chz, e4, g4⟩ := hK.sample ch3 g3
  have hc : challenges u ch traceCommit quotientCommit = some (alpha, zeta, chz) := by
    simp [challenges, e1, e2, e3, e4]
  refine ⟨alpha, zeta, chz, hc, ?_⟩
  obtain ⟨batch, chPow, hbatch, hpow, hopen⟩ := C84_violated_empty_opening (genV := u.genV) (g := u.g) (MI := u.mi) (M := u.m) hK hb
    hu.bits g4
  refine ⟨batch, chPow, hbatch, hpow, fun w ch6 hw => ?_⟩
  obtain ⟨ch', hopen⟩ := hopen w ch6 hw
  refine ⟨ch', fun k hkq hz => ?_⟩
  have hr := ((C45_least_power_of_two air _ q).1 hq).1
  have hpos := Nat.two_pow_pos q
  rw [C98_small checks u ch _ hq (by simp only; omega), verify_eq hu hq (k := k) rfl hkq]
  · simp only [hc, hopen]
    rw [oodCheck_eq hu hr hkq (by simp) (by simp) hz]
    simp only
    have hf : List.replicate (2 ^ q) (List.replicate u.deg.D (0 : F)) = forgedChunks u.deg.D (2 ^ q) 0 := by
      have hD := hu.deg.pos
      obtain ⟨n, hn⟩ : ∃ n, 2 ^ q = n + 1 := ⟨2 ^ q - 1, by omega⟩
      obtain ⟨d, hd⟩ : ∃ d, u.deg.D = d + 1 := ⟨u.deg.D - 1, by omega⟩
      rw [forgedChunks, hn, hd]
      rfl
    rw [hf, recombine_forged hu.deg hpos (by simp), Option.map_some]
    have hall : (air.asserts.map fun a => a.residue (algebraMap K F)
        (⟨List.replicate air.width 0, List.replicate air.width 0, pub.map (algebraMap K F),
          aeval zeta (selPoly (1 : K) (2 ^ k)), aeval zeta (selPoly (u.genV k)⁻¹ (2 ^ k)),
          zeta - algebraMap K F (u.genV k)⁻¹⟩ : Window F).meaning) = List.replicate air.asserts.length 0 := by
      rw [List.eq_replicate_iff]
      refine ⟨by simp, fun x hx => ?_⟩
      obtain ⟨a, ha, rfl⟩ := List.mem_map.1 hx
      exact hzero a ha _ _ _
    rw [hall]
    have hcomb : ∀ n, combine alpha (List.replicate n (0 : F)) = 0 := by
      intro n
      simp [combine]
    simp [hcomb]
  · refine ⟨by simp, by simp, by simp, ?_⟩
    intro qc hqc
    rw [List.eq_of_mem_replicate hqc, List.length_replicate]

section
variable [LinearOrder U256]

open TapStark.Tap TapStark.FS

/-- C98 has no unmet hypotheses: one proof that the Fibonacci numbers from 0, 0 end in 0 is accepted for 4 rows, for 8
rows, and, without overflow checks, for `2 ^ 66` rows. -/
theorem C98_instance (scfg : TapStark.Cfg) (h20 : ∀ x, (scfg.hash160 x).length = 20)
    (th : TapHash (List Op) U256) (w : U32) (c1 c2 : List (Vector U32 8)) :
    ∃ mgr : Tcs.Manager,
    let u := deployed scfg th mgr mgr bbRep (lagrangeExt bbGen : Ext BB BB) (bbChall (blake3Perm fiveHash))
      ⟨1, 2, 0, true⟩ bbDeg
    ∃ ch', (∀ checks, ∀ k ∈ [2, 3], verifyMachine checks u (fibAir BB) (Chal.new 16 (fromU64 0))
      ⟨c1, c2, [0, 0], [0, 0], [[0]], emptyOpening 2 w, k⟩ [0, 0, 0] = .ok ch') ∧
      verifyMachine false u (fibAir BB) (Chal.new 16 (fromU64 0))
        ⟨c1, c2, [0, 0], [0, 0], [[0]], emptyOpening 2 w, 66⟩ [0, 0, 0] = .ok ch' := by
  obtain ⟨b, c, -, -, h⟩ := Tcs.winternitz_ok scfg h20 ['b', '1', '3', '8'] (by decide) 0
  have ok : ∀ n w, Tcs.BcsOk scfg 1 20 20 (Tcs.assigned bbRep (fun _ _ => Tcs.winternitzBc scfg b c) n w) := by
    intro n w
    refine ⟨h, ?_⟩
    intro bc hbc
    obtain ⟨-, -, rfl⟩ := List.mem_map.1 hbc
    exact h
  refine ⟨fun _ _ => Tcs.winternitzBc scfg b c, ?_⟩
  intro u
  have hp := fun s (_ : s.length = 16) => blake3Perm_length fiveHash s
  have hu : u.Ok := deployed_ok th ok bbRep_ok ok (lagrangeExt_width _) (lagrangeExt_correct bbGen_twoAdic)
    (by decide) (by decide) (bbChall_bits _) bbDeg_ok
  have hch : GoodChal (blake3Perm fiveHash) (Chal.new 16 (fromU64 0)) := ⟨_, _, inv_new (by omega)⟩
  have hq : getLogQuotientDegree (fibAir BB) 3 = some 0 := fibAir_degree 3 le_rfl
  have hz2 : (5 : BB) ^ 2 ^ 2 ≠ 1 := by decide +kernel
  have hz3 : (5 : BB) ^ 2 ^ 3 ≠ 1 := by decide +kernel
  have hzero : ∀ a ∈ (fibAir BB).asserts, ∀ s1 s2 s3 : BB, a.residue (algebraMap BB BB)
      (⟨List.replicate (fibAir BB).width 0, List.replicate (fibAir BB).width 0,
        [(0 : BB), 0, 0].map (algebraMap BB BB), s1, s2, s3⟩ : Window BB).meaning = 0 := by
    intro a ha s1 s2 s3
    simp only [fibAir, List.mem_cons, List.not_mem_nil, or_false] at ha
    rcases ha with rfl | rfl | rfl | rfl | rfl <;>
      simp [Assertion.residue, Assertion.sides, AExpr.value, Window.meaning, fibAir]
  obtain ⟨alpha, zeta, chz, e1, -, chPow, -, hgood, e3⟩ := C98_violated_sizes true hu (bbChall_total _ hp)
    (air := fibAir BB) (pub := [0, 0, 0]) hq (by decide : 27 < 64) (by decide : 1 ≤ 27) hzero hch c1 c2
  obtain ⟨rfl, rfl⟩ := fiveHash_challenges rfl hch e1
  obtain ⟨chw, hw⟩ := checkWitness_zero hp chPow hgood w
  obtain ⟨ch', e4⟩ := e3 w chw hw
  have h2 := e4 2 (by decide : 2 + 0 ≤ 27) hz2
  have h3 := e4 3 (by decide : 3 + 0 ≤ 27) hz3
  rw [C98_small _ _ _ _ hq (by simp only; omega)] at h2 h3
  refine ⟨ch', ?_, ?_⟩
  · intro checks k hk
    simp only [List.mem_cons, List.not_mem_nil, or_false] at hk
    rcases hk with rfl | rfl
    · rw [C98_small _ _ _ _ hq (by simp only; omega)]
      exact h2
    · rw [C98_small _ _ _ _ hq (by simp only; omega)]
      exact h3
  · exact (C98_violated_release u _ ⟨c1, c2, [0, 0], [0, 0], [[0]], emptyOpening 2 w, 2⟩ hq (by simp only; omega) 1).trans h2

end

end TapStark.Stark
