import Verif.Props.ScriptVerifierInst

/-
Runs with two and four quotient chunks: the prover makes a proof, the native verifier accepts it, the script verifier
never succeeds on it.
-/

namespace TapStark.Stark

open TapStark.Tap TapStark.FS TapStark.Fri TapStark.Pcs TapStark.Tcs Polynomial

section
variable [LinearOrder U256]

/-- A run with the setup of `C82_instance`, for any algebraic system with up to four chunks and any trace of two rows. -/
theorem native_run {scfg : Cfg} {bc : Bc} (h : BcOk scfg 1 20 bc) {q w : Nat}
    (hq : 0 < q) {x : BB × BB × BB × BB} (hx : zetaWords q = some [x.1, x.2.1, x.2.2.1, x.2.2.2])
    (hx1 : sq4 x ≠ (1, 0, 0, 0)) (hx2 : sq4 (sq4 (sq4 x)) ≠ (31 ^ 8, 0, 0, 0)) {is : List (Nat × Nat)}
    (hn : indicesOf (nativeTranscript (blake3Perm specHash) (demoCfg q) (List.replicate q (u256ToU32 demoRoot))
      (List.replicate q (u256ToU32 demoRoot)) (fibFri q w) (Chal.new 16 (fromU64 0))) = some (is, true))
    {air : Air BB} (hwidth : 0 < air.width) (hf : air.Filtered) (ht : air.FewTransitions) {pub : List BB} {d : Nat}
    (hdeg : getLogQuotientDegree air pub.length = some d) (hd : d ≤ 2) {trace : Pcs.Mat BB} (hl : trace.length = 2)
    (hrect : Rect trace air.width) (hsat : Satisfies air trace pub) :
    ∃ proof ch', prove (fibSetup scfg bc q) air (Chal.new 16 (fromU64 0)) trace pub 0 0 (fromU64 w) = some (proof, ch') ∧
      verify (fibSetup scfg bc q) air (Chal.new 16 (fromU64 0)) proof pub = .ok ch' ∧ proof.degreeBits = 1 := by
  obtain ⟨alpha, zeta, batch, betas, c', hn, htop⟩ := indicesOf_some hn
  obtain ⟨hz, t1, t2, t3, chz, ch1, betas', chPow, chw, k1, k2, k3, k4, k5, k6, k7⟩ := transcript_steps rfl hx hn
  obtain ⟨z1, z2⟩ := zeta_outside hx1 hx2
  rw [← hz] at z1 z2
  have hu := fibSetup_ok h hq
  have hp := fun s (_ : s.length = 16) => blake3Perm_length specHash s
  have hch : GoodChal (blake3Perm specHash) (Chal.new 16 (fromU64 0)) := ⟨_, _, inv_new (by omega)⟩
  obtain ⟨c1, c2, a, z, cz, ⟨_, _, _, _, e1⟩, ⟨_, _, _, _, e2⟩, e3, e4⟩ := C48_honest_run hu (by decide : (27 : Nat) < 32)
    (bb4Chall_total _ hp) (air := air) hwidth (pub := pub) hdeg hd (k := 1) (by decide : 1 + 2 ≤ 27) hl hrect (fun _ => hsat) hch 0 0
  have e1 := inCommit_const e1
  have e2 := inCommit_const e2
  have e1 : c1 = List.replicate q (u256ToU32 demoRoot) := e1
  have e2 : c2 = List.replicate q (u256ToU32 demoRoot) := e2
  subst e1
  subst e2
  have e3' : challenges (fibSetup scfg bc q) (Chal.new 16 (fromU64 0)) (List.replicate q (u256ToU32 demoRoot))
      (List.replicate q (u256ToU32 demoRoot)) = some (alpha, zeta, chz) := by
    unfold challenges
    have k1 : (fibSetup scfg bc q).chall.observe _ _ = _ := k1
    have k2 : (fibSetup scfg bc q).chall.sample _ = _ := k2
    have k3 : (fibSetup scfg bc q).chall.observe _ _ = _ := k3
    have k4 : (fibSetup scfg bc q).chall.sample _ = _ := k4
    simp only [k1, k2, k3, k4, Option.bind_eq_bind, Option.bind_some]
  have e5 := e3.symm.trans e3'
  have e5 := Option.some.inj e5
  cases e5
  obtain ⟨b, d1, commits, bs, cp, f1, f2, f3, f4, -, f5⟩ := e4.2 z2
  have f6 := f1.symm.trans k5
  have f6 := Option.some.inj f6
  cases f6
  obtain ⟨c, rfl⟩ := List.length_eq_one_iff.1 f3
  obtain ⟨_, _, _, _, f7⟩ := f4 c (List.mem_singleton.2 rfl)
  have f7 : c = List.replicate q (u256ToU32 demoRoot) := commitMatrix_const f7
  subst f7
  have f8 := f2.symm.trans k6
  have f8 := Option.some.inj f8
  cases f8
  obtain ⟨proof, ch', g1, g2, g3, g4, g5, g6, g7⟩ := f5 _ _ k7
  refine ⟨proof, ch', g1, C48_complete_partial hu hwidth hf ht hdeg hd (k := 1) (by decide : 1 + 2 ≤ 27) hl hrect hsat
    g1 ?_, g7⟩
  intro a z cz hc
  rw [g2, g3, e3] at hc
  have hc := Option.some.inj hc
  cases hc
  exact z1

end

/-- The first row is the first public value, every row is a power of the one before, and the last row is the second
public value. -/
def powAir (K : Type) (power : AExpr K) : Air K :=
  ⟨1, [.zero (.mul .isFirstRow (.sub (.loc 0) (.pub 0))), .zero (.mul .isTransition (.sub (.nxt 0) power)),
    .zero (.mul .isLastRow (.sub (.loc 0) (.pub 1)))]⟩

/-- The third power. -/
def cube (K : Type) : AExpr K := .mul (.loc 0) (.mul (.loc 0) (.loc 0))

/-- The fifth power. -/
def fifth (K : Type) : AExpr K := .mul (.mul (.loc 0) (.loc 0)) (cube K)

theorem powAir_filtered {K : Type} {p : AExpr K} (hp : p.NoFlags) : (powAir K p).Filtered := by
  intro a ha
  simp only [powAir, List.mem_cons, List.not_mem_nil, or_false] at ha
  rcases ha with rfl | rfl | rfl
  · exact .first _ (.plain _ ⟨trivial, trivial⟩)
  · exact .trans _ (.plain _ ⟨trivial, hp⟩)
  · exact .last _ (.plain _ ⟨trivial, trivial⟩)

section
variable [LinearOrder U256]

/-- C82, C48: with two chunks (third powers) and with four (fifth powers) the native verifier accepts the proof of the
prover, and the script verifier does not succeed on it. -/
theorem C82_violated_many_chunks (scfg : Cfg) (h20 : ∀ x, (scfg.hash160 x).length = 20) (L : U31Lib) (T : TrackerLib)
    (drops : Nat → List Op) (n : Nat) :
    ∃ bc, ∀ pt ∈ [(cube BB, (8 : BB), 1), (fifth BB, 32, 2)],
      getLogQuotientDegree (powAir BB pt.1) 2 = some pt.2.2 ∧
      ∃ proof ch', prove (fibSetup scfg bc 2) (powAir BB pt.1) (Chal.new 16 (fromU64 0)) [[2], [pt.2.1]] [2, pt.2.1] 0 0
          (fromU64 28) = some (proof, ch') ∧
        verify (fibSetup scfg bc 2) (powAir BB pt.1) (Chal.new 16 (fromU64 0)) proof [2, pt.2.1] = .ok ch' ∧
        proof.quotientChunks.length = 2 ^ pt.2.2 ∧
        ∀ out, generateScriptVerifier scfg L T drops (fibSetup scfg bc 2).mi (fibSetup scfg bc 2).m (blake3Perm specHash)
          (demoCfg 2) (powAir BB pt.1) (Chal.new 16 (fromU64 0)) (ChalExpr.new n).1 proof [2, pt.2.1] (ChalExpr.new n).2 ≠
            .ok out := by
  obtain ⟨b, c, -, -, h⟩ := Tcs.winternitz_ok scfg h20 ['b', '1', '3', '8'] (by decide) 0
  refine ⟨Tcs.winternitzBc scfg b c, fun pt hpt => ?_⟩
  have key : pt.1.NoFlags ∧ (powAir BB pt.1).FewTransitions ∧ getLogQuotientDegree (powAir BB pt.1) 2 = some pt.2.2 ∧
      1 ≤ pt.2.2 ∧ pt.2.2 ≤ 2 ∧ Satisfies (powAir BB pt.1) [[2], [pt.2.1]] [2, pt.2.1] := by
    simp only [List.mem_cons, List.not_mem_nil, or_false] at hpt
    have few : ∀ p : AExpr BB, p.transitions = 0 → (powAir BB p).FewTransitions := by
      intro p hp a ha
      simp only [powAir, List.mem_cons, List.not_mem_nil, or_false] at ha
      rcases ha with rfl | rfl | rfl <;>
        simp [Assertion.transitions, Assertion.degree, AExpr.degree, AExpr.transitions, hp]
    have sat : ∀ (p : AExpr BB) (v : BB), p.value id (rowMeaning [[2], [v]] [2, v] 0) = v →
        Satisfies (powAir BB p) [[2], [v]] [2, v] := by
      intro p v hv i hi a ha
      simp only [powAir, List.mem_cons, List.not_mem_nil, or_false] at ha
      have hi : i < 2 := hi
      interval_cases i <;> rcases ha with rfl | rfl | rfl <;>
        simp [Assertion.Holds, Assertion.sides, AExpr.value, rowMeaning] at hv ⊢
      rw [hv, sub_self]
    rcases hpt with rfl | rfl
    · refine ⟨⟨trivial, trivial, trivial⟩, few _ rfl, ?_, by decide, by decide, sat _ _ (by decide +kernel)⟩
      rw [C45_least_power_of_two]
      refine ⟨?_, ?_, ?_⟩
      · simp [powAir, cube, Air.InRange, Assertion.InRange, AExpr.InRange]
      · simp [powAir, cube, Air.degree, Assertion.degree, AExpr.degree]
      · simp [powAir, cube, Air.degree, Assertion.degree, AExpr.degree]
        intro q hq
        by_contra h0
        obtain rfl : q = 0 := by omega
        simp at hq
    · refine ⟨⟨⟨trivial, trivial⟩, trivial, trivial, trivial⟩, few _ rfl, ?_, by decide, by decide, sat _ _ (by decide +kernel)⟩
      rw [C45_least_power_of_two]
      refine ⟨?_, ?_, ?_⟩
      · simp [powAir, fifth, cube, Air.InRange, Assertion.InRange, AExpr.InRange]
      · simp [powAir, fifth, cube, Air.degree, Assertion.degree, AExpr.degree]
      · simp [powAir, fifth, cube, Air.degree, Assertion.degree, AExpr.degree]
        intro q hq
        by_contra h0
        have : q < 2 := by omega
        interval_cases q <;> simp at hq
  obtain ⟨k1, k2, k3, k4, k5, k6⟩ := key
  refine ⟨k3, ?_⟩
  obtain ⟨proof, ch', h1, h2, h5⟩ := native_run h (by omega : 0 < 2) zetaWords2 zeta2_outside.1 zeta2_outside.2 fib_native28
    (air := powAir BB pt.1) (by decide : 0 < 1) (powAir_filtered k1) k2 (pub := [2, pt.2.1]) k3 k5 (trace := [[2], [pt.2.1]]) rfl
    (by intro r hr; simp at hr; rcases hr with rfl | rfl <;> rfl) k6
  refine ⟨proof, ch', h1, h2, ?_, fun out => C82_violated_two_chunks k4 k3 _ _ _ _⟩
  by_contra h0
  have h3 : ¬ _ := mt ((C51_shape_partial (fibSetup_ok h (by omega : 0 < 2)) (air := powAir BB pt.1) (pub := [2, pt.2.1]) k3
    (Chal.new 16 (fromU64 0)) (proof := proof) ?_).1.2) (by rw [h2]; simp)
  · exact h3 fun h4 => h0 h4.2.2.1
  · rw [h5]
    exact Nat.le_trans (Nat.add_le_add_left k5 1) (show 1 + 2 ≤ 27 by decide)

end

end TapStark.Stark
