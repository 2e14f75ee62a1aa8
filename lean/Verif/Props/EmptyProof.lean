import Verif.Spec.EmptyProof
import Verif.Props.StarkInst

/-!
C84: proofs without content.
-/

set_option linter.unusedSectionVars false

namespace TapStark.Pcs

open TapStark.Fri Polynomial

variable {K F : Type} [Field K] [Field F] [DecidableEq K] [DecidableEq F] [Algebra K F]
variable {SI CI DI PI S C D P Ch W : Type}

theorem sampleIndices_total {Kc : Chall Ch C F W} {Good : Ch → Prop} {N : Nat} (hK : Kc.Total Good N) {bits : Nat}
    (hb : bits ≤ N) : ∀ (n k : Nat) (ch : Ch), Good ch → ∃ is ch', sampleIndices Kc bits n k ch = some (is, ch')
  | 0, _, ch, _ => ⟨_, ch, rfl⟩
  | n + 1, k, ch, h => by
    obtain ⟨i, ch1, h1, h2⟩ := hK.bits ch bits h hb
    obtain ⟨is, ch', h3⟩ := sampleIndices_total hK hb n (k + 1) ch1 h2
    exact ⟨(k, i) :: is, ch', by simp [sampleIndices, h1, h3]⟩

theorem sampleIndices_lt {Kc : Chall Ch C F W} {bits : Nat}
    (hbits : ∀ ch n i ch', Kc.sampleBits ch n = some (i, ch') → i < 2 ^ n) : ∀ (n k : Nat) (ch ch' : Ch)
    (is : List (Nat × Nat)), sampleIndices Kc bits n k ch = some (is, ch') → ∀ x ∈ is, x.2 < 2 ^ bits
  | 0, _, ch, ch', is, h => by
    simp only [sampleIndices, Option.some.injEq, Prod.mk.injEq] at h
    simp [← h.1]
  | n + 1, k, ch, ch', is, h => by
    simp only [sampleIndices, Option.bind_eq_bind, Option.bind_eq_some_iff, Option.some.injEq, Prod.mk.injEq,
      Prod.exists] at h
    obtain ⟨i, ch1, h1, is', ch2, h2, rfl, -⟩ := h
    intro x hx
    rcases List.mem_cons.1 hx with rfl | hx
    · exact hbits _ _ _ _ h1
    · exact sampleIndices_lt hbits n (k + 1) ch1 ch2 is' h2 x hx

/-- **C84 is violated**: an opening proof that opens nothing is accepted for all commitments, domains, points and claimed
values.  Only the proof of work is asked for.  This holds with debug assertions too. -/
theorem C84_violated_empty_opening {genV : Nat → K} {g : K} {MI : InMmcs K SI CI DI PI} {M : Mmcs F S C D P}
    {Kc : Chall Ch C F W} {cfg : Config} {Good : Ch → Prop} {N : Nat} (hK : Kc.Total Good N) (hN : cfg.logBlowup ≤ N)
    (hbits : ∀ ch n i ch', Kc.sampleBits ch n = some (i, ch') → i < 2 ^ n) {ch : Ch} (hch : Good ch) :
    ∃ batch chPow, Kc.sample ch = some (batch, chPow) ∧ Good chPow ∧ ∀ w ch1, Kc.checkWitness chPow cfg.powBits w = some (true, ch1) →
      ∃ ch', ∀ rounds : List (VerifierRound K F CI),
        verify genV g MI M Kc cfg rounds (emptyOpening cfg.numQueries w) ch = .ok ch' := by
  obtain ⟨alpha, ch0, h0, hg0⟩ := hK.sample ch hch
  refine ⟨alpha, ch0, h0, hg0, fun w ch1 hw => ?_⟩
  obtain ⟨is, ch', hi⟩ := sampleIndices_total hK hN cfg.numQueries 0 ch1 (hK.check _ _ _ _ _ hg0 hw)
  refine ⟨ch', fun rounds => ?_⟩
  have hlt := sampleIndices_lt hbits _ _ _ _ _ hi
  unfold verify
  simp only [h0, Res.ofOption, Res.bind_ok, verifyShapeAndSampleChallenges, emptyOpening, sampleBetas,
    List.length_replicate, ne_eq, not_true_eq_false, if_false, hw, Bool.not_true, Bool.false_eq_true, List.length_nil,
    Nat.zero_add, hi, expect]
  have key : verifyChallenges (fun b => algebraMap K F (genV b)) M cfg
      (emptyOpening cfg.numQueries w : FriProof F C P W (List (List (List K) × PI))) ⟨is, []⟩
      (verifyInput MI genV g cfg alpha rounds cfg.logBlowup) = .ok () := by
    unfold verifyChallenges
    simp only [emptyOpening]
    have : ∀ l : List ((Nat × Nat) × QueryProof F P (List (List (List K) × PI))),
        (∀ x ∈ l, x.1.2 < 2 ^ cfg.logBlowup ∧ x.2 = ⟨[], []⟩) →
        (l.forM fun ((queryTimesIndex, queryIndex), qp) => do
          let ro ← verifyInput MI genV g cfg alpha rounds cfg.logBlowup queryTimesIndex queryIndex qp.inputProof
          let foldedEval ← verifyQuery (fun b => algebraMap K F (genV b)) M cfg ([] : List C) queryIndex queryTimesIndex
            qp.commitPhaseOpenings [] ro (([] : List C).length + cfg.logBlowup)
          if foldedEval ≠ 0 then Res.err .finalPoly else Res.ok ()) = Res.ok () := by
      intro l
      induction l with
      | nil => intro _; rfl
      | cons x l ih =>
        intro h
        obtain ⟨⟨q, i⟩, qp⟩ := x
        obtain ⟨hx, rfl⟩ := h _ List.mem_cons_self
        have e1 : verifyInput MI genV g cfg alpha rounds cfg.logBlowup q i [] = .ok ((List.range
            (cfg.logBlowup + 1)).reverse.filterMap fun h => ((fun _ => none : VerifyState F) h).map fun r => (h, r.2)) := by
          simp only [verifyInput, List.zip_nil_left, roundLoop, Res.bind_ok]
        have e2 : ∀ ros, verifyQuery (fun b => algebraMap K F (genV b)) M cfg ([] : List C) i q [] [] ros
            (([] : List C).length + cfg.logBlowup) = .ok 0 := by
          intro ros
          simp only [verifyQuery, queryLoop, List.zip_nil_right, Res.bind_ok]
          rw [if_neg (by intro hc; exact hc.2 hx)]
        rw [List.forM_eq_forM, List.forM_cons]
        simp only [e1, e2, Res.bind_ok, ne_eq, not_true_eq_false, if_false]
        exact ih fun y hy => h y (List.mem_cons_of_mem _ hy)
    refine this _ fun x hx => ⟨hlt _ (List.of_mem_zip hx).1, List.eq_of_mem_replicate (List.of_mem_zip hx).2⟩
  simp only [emptyOpening] at key
  rw [key]
  rfl

end TapStark.Pcs

namespace TapStark.Stark

open TapStark.Fri TapStark.Pcs Polynomial

variable {K F : Type} [Field K] [Field F] [DecidableEq K] [DecidableEq F] [Algebra K F]
variable {SI DI PI S C D P Ch W : Type}

/-- **C84 is violated**: the verifier accepts a proof of every statement that was made from nothing.  For every AIR and
public values, whatever the two commitments and the opened trace values are, some quotient values make it accept a proof
that opens nothing.  The quotient values are computed from the challenges, which depend on the commitments only.  The
challenge point must not lie on the trace domain or the quotient domain, and the proof of work must be done. -/
theorem C84_violated_empty_proof {u : Setup K F SI C DI PI S D P Ch W} (hu : u.Ok) {Good : Ch → Prop}
    (hK : u.chall.Total Good u.twoAdicity) {air : Air K} {pub : List K} {k q : Nat}
    (hq : getLogQuotientDegree air pub.length = some q) (hkq : k + q ≤ u.twoAdicity)
    (hb : u.cfg.logBlowup ≤ u.twoAdicity) {ch : Ch} (hch : Good ch) (traceCommit quotientCommit : C)
    {traceLocal traceNext : List F} (h1 : traceLocal.length = air.width) (h2 : traceNext.length = air.width) :
    ∃ alpha zeta chz, challenges u ch traceCommit quotientCommit = some (alpha, zeta, chz) ∧
      (zeta ^ 2 ^ k ≠ 1 → zeta ^ 2 ^ (k + q) ≠ algebraMap K F u.g ^ 2 ^ (k + q) →
        ∃ batch chPow, u.chall.sample chz = some (batch, chPow) ∧ Good chPow ∧
        ∀ w ch1, u.chall.checkWitness chPow u.cfg.powBits w = some (true, ch1) →
          ∃ quotientChunks ch', verify u air ch
            ⟨traceCommit, quotientCommit, traceLocal, traceNext, quotientChunks, emptyOpening u.cfg.numQueries w, k⟩ pub =
              .ok ch') := by
  obtain ⟨ch1, e1, g1⟩ := hK.observe ch traceCommit hch
  obtain ⟨alpha, ch2, e2, g2⟩ := hK.sample ch1 g1
  obtain ⟨ch3, e3, g3⟩ := hK.observe ch2 quotientCommit g2
  obtain ⟨zeta, chz, e4, g4⟩ := hK.sample ch3 g3
  have hc : challenges u ch traceCommit quotientCommit = some (alpha, zeta, chz) := by
    simp [challenges, e1, e2, e3, e4]
  refine ⟨alpha, zeta, chz, hc, fun hz1 hz2 => ?_⟩
  obtain ⟨batch, chPow, hbatch, hpow, hopen⟩ := C84_violated_empty_opening (genV := u.genV) (g := u.g) (MI := u.mi) (M := u.m) hK hb
    hu.bits g4
  refine ⟨batch, chPow, hbatch, hpow, fun w ch6 hw => ?_⟩
  obtain ⟨ch', hopen⟩ := hopen w ch6 hw
  have hr := ((C45_least_power_of_two air _ q).1 hq).1
  have hw := weight_zero_ne hu.twoAdic hkq hu.g0 hz2
  have hpos := Nat.two_pow_pos q
  -- the value the quotient must have
  obtain ⟨v, hv⟩ : ∃ v, v = combine alpha (air.asserts.map fun a => a.residue (algebraMap K F)
        (⟨traceLocal, traceNext, pub.map (algebraMap K F),
          aeval zeta (selPoly (1 : K) (2 ^ k)), aeval zeta (selPoly (u.genV k)⁻¹ (2 ^ k)),
          zeta - algebraMap K F (u.genV k)⁻¹⟩ : Window F).meaning) * (zeta ^ 2 ^ k - 1)⁻¹ := ⟨_, rfl⟩
  refine ⟨forgedChunks u.deg.D (2 ^ q) (((weightPoly hu.twoAdic F k q u.g 0).eval zeta)⁻¹ * v), ch', ?_⟩
  have hlen : ∀ x : F, (forgedChunks u.deg.D (2 ^ q) x).length = 2 ^ q := by
    intro x
    simp only [forgedChunks, List.length_cons, List.length_replicate]
    omega
  rw [verify_eq hu hq (k := k) rfl hkq]
  · simp only [hc, hopen]
    rw [oodCheck_eq hu hr hkq h1 h2 hz1]
    simp only
    rw [recombine_forged hu.deg hpos (by simp), Option.map_some]
    have e : ((List.range (2 ^ q)).map fun i => (weightPoly hu.twoAdic F k q u.g i).eval zeta).getD 0 0 =
        (weightPoly hu.twoAdic F k q u.g 0).eval zeta := by
      rw [List.getD_eq_getElem?_getD, List.getElem?_map, List.getElem?_range hpos]
      rfl
    rw [e, mul_inv_cancel_left₀ hw, hv, decide_eq_true rfl]
  · refine ⟨h1, h2, hlen _, ?_⟩
    intro qc hqc
    have hD := hu.deg.pos
    simp only [forgedChunks, List.mem_cons, List.mem_replicate] at hqc
    rcases hqc with rfl | ⟨-, rfl⟩
    · simp only [List.length_cons, List.length_replicate]
      omega
    · simp

section
variable [LinearOrder U256]

open TapStark.Tap TapStark.FS

/-- C84 has no unmet hypotheses: with a hash function that makes every challenge 5, a proof from nothing that the fourth
Fibonacci number is 7, which no trace shows (`fib_seven`), is accepted for all pairs of commitments. -/
theorem C84_instance (scfg : TapStark.Cfg) (h20 : ∀ x, (scfg.hash160 x).length = 20)
    (th : TapHash (List Op) U256) (w : U32) (c1 c2 : List (Vector U32 8)) :
    ∃ mgr : Tcs.Manager,
    let u := deployed scfg th mgr mgr bbRep (lagrangeExt bbGen : Ext BB BB) (bbChall (blake3Perm fiveHash))
      ⟨1, 2, 0, true⟩ bbDeg
    ∃ quotientChunks ch', verify u (fibAir BB) (Chal.new 16 (fromU64 0))
      ⟨c1, c2, [8, 9], [10, 11], quotientChunks, emptyOpening 2 w, 2⟩ [0, 1, 7] = .ok ch' := by
  obtain ⟨b, c, -, -, h⟩ := Tcs.winternitz_ok scfg h20 ['b', '1', '3', '8'] (by decide) 0
  have ok : ∀ n w, Tcs.BcsOk scfg 1 20 20 (Tcs.assigned bbRep (fun _ _ => Tcs.winternitzBc scfg b c) n w) := by
    intro n w
    refine ⟨h, ?_⟩
    intro bc hbc
    obtain ⟨-, -, rfl⟩ := List.mem_map.1 hbc
    exact h
  refine ⟨fun _ _ => Tcs.winternitzBc scfg b c, ?_⟩
  intro u
  have hp := fun s (_ : s.length = 16) => blake3Perm_length fiveHash s
  have hu : u.Ok := deployed_ok th ok bbRep_ok ok (lagrangeExt_width _) (lagrangeExt_correct bbGen_twoAdic)
    (by decide) (by decide) (bbChall_bits _) bbDeg_ok
  have hch : GoodChal (blake3Perm fiveHash) (Chal.new 16 (fromU64 0)) := ⟨_, _, inv_new (by omega)⟩
  have hq : getLogQuotientDegree (fibAir BB) 3 = some 0 := fibAir_degree 3 le_rfl
  have hz1 : (5 : BB) ^ 2 ^ 2 ≠ 1 := by decide +kernel
  have hz2 : (5 : BB) ^ 2 ^ 2 ≠ 31 ^ 2 ^ 2 := by decide +kernel
  obtain ⟨alpha, zeta, chz, e1, e2⟩ := C84_violated_empty_proof hu (bbChall_total _ hp) (air := fibAir BB)
    (pub := [0, 1, 7]) (k := 2) hq (by decide : 2 + 0 ≤ 27) (by decide : 1 ≤ 27) hch c1 c2
    (traceLocal := [8, 9]) (traceNext := [10, 11]) rfl rfl
  obtain ⟨rfl, rfl⟩ := fiveHash_challenges rfl hch e1
  obtain ⟨-, chPow, -, hgood, e3⟩ := e2 hz1 hz2
  obtain ⟨chw, hw⟩ := checkWitness_zero hp chPow hgood w
  exact e3 w chw hw

end

end TapStark.Stark
