import Verif.Proofs.HonestTop
import Verif.Spec.ProverExact
import Verif.Props.WrongTrace

/-
When the prover makes a proof and when it panics.
-/

namespace TapStark.Stark

open TapStark.Fri TapStark.Pcs Polynomial

variable {K F SI C DI PI S D P Ch W : Type} [Field K] [DecidableEq K] [Field F] [DecidableEq F] [Algebra K F]

theorem degree_fits {air : Air K} {numPublic q b : Nat} (hq : getLogQuotientDegree air numPublic = some q) :
    q ≤ b ↔ air.degree ≤ 2 ^ b + 1 := by
  obtain ⟨-, h1, h2⟩ := (C45_least_power_of_two air _ q).1 hq
  have h1 : max air.degree 2 - 1 ≤ 2 ^ q := h1
  constructor
  · intro h
    have := Nat.pow_le_pow_right (by omega : 0 < 2) h
    omega
  · intro h
    refine h2 (show max air.degree 2 - 1 ≤ 2 ^ b from ?_)
    have := Nat.two_pow_pos b
    omega

/-- If the degree does not fit the blowup, the quotient cannot be evaluated. -/
theorem prove_degree {u : Setup K F SI C DI PI S D P Ch W} (hu : u.Ok) {air : Air K} (hwidth : 0 < air.width)
    {pub : List K} {q : Nat} (hq : getLogQuotientDegree air pub.length = some q) (hqb : u.cfg.logBlowup < q)
    {k : Nat} (hkb : k + u.cfg.logBlowup ≤ u.twoAdicity) {trace : Mat K}
    (hl : trace.length = 2 ^ k) (hrect : Rect trace air.width) (ch : Ch) (si : SI) (s : S) (w : W) :
    prove u air ch trace pub si s w = none := by
  obtain ⟨ps, hpw, rfl, hps⟩ := trace_polys hu (k := k) (by omega) hl hrect
  have hb := hu.blowup
  obtain ⟨c1, d1, s1, hc1, ho1⟩ := hu.mi si [evalRowsRev u.genV ps u.g (k + u.cfg.logBlowup)] (by simp)
    (by
      intro m hm
      obtain rfl := List.mem_singleton.1 hm
      exact ⟨k + u.cfg.logBlowup, ps.length, by omega, hkb, by omega, by simp [evalRowsRev], rect_evalRowsRev _ _ _ _⟩)
    (by simp)
  have hcommit1 : Pcs.commit u.ext u.mi u.g u.cfg si [(⟨k, 1⟩, evalRows u.genV ps 1 k)] = some (c1, d1, s1) := by
    have := C72_commit (MI := u.mi) (g := u.g) (cfg := u.cfg) hu.extCorrect si [((⟨k, 1⟩ : Dom K), ps)] (by
      intro x hx
      obtain rfl := List.mem_singleton.1 hx
      exact ⟨one_ne_zero, (by omega : k ≤ u.twoAdicity), hps⟩)
    simpa [hc1] using this
  have hev : getEvaluationsOnDomain u.mi u.g d1 0 ⟨k + q, u.g⟩ = none := by
    unfold getEvaluationsOnDomain
    rw [if_pos rfl, ho1.1]
    simp only [Option.bind_eq_bind, Option.bind_some, List.getElem?_cons_zero]
    rw [if_neg]
    simp only [evalRowsRev, List.length_map, List.length_range, Dom.size, not_le]
    exact Nat.pow_lt_pow_right (by omega) (by omega)
  have hdom : createDisjointDomain u.g (⟨k, 1⟩ : Dom K) (2 ^ (k + q)) = ⟨k + q, u.g⟩ := by
    simp [createDisjointDomain, Tcs.log2Ceil_pow]
  have hnat : naturalDomainForDegree (2 ^ k) = some (⟨k, 1⟩ : Dom K) := by
    simp only [naturalDomainForDegree, log2Strict_pow, Option.bind_eq_bind, Option.bind_some]
  unfold prove
  simp only [hl, log2Strict_pow, hnat, Option.bind_eq_bind, Option.bind_some, hq, hcommit1, quotientPhase, hdom, hev,
    Option.bind_none, Option.bind_fun_none]

/-- **C120** The prover panics if its inputs are not servable: another number of rows, an assertion about a column or public
value that does not exist, a degree above the blowup, or, with debug assertions, a trace that does not satisfy the system. -/
theorem C120_refuses {u : Setup K F SI C DI PI S D P Ch W} (hu : u.Ok) {air : Air K} (hwidth : 0 < air.width)
    {pub : List K} {trace : Mat K} (hrect : Rect trace air.width)
    (hsize : trace.length * 2 ^ u.cfg.logBlowup ≤ 2 ^ u.twoAdicity)
    (hs : ¬ Servable u.cfg.logBlowup u.cfg.debug air trace pub) (ch : Ch) (si : SI) (s : S) (w : W) :
    prove u air ch trace pub si s w = none := by
  by_cases hd : u.cfg.debug = true → Satisfies air trace pub
  swap
  · rw [Classical.not_imp] at hd
    exact C119_debug hd.1 hrect hd.2 ch si s w
  by_cases hk : ∃ k, trace.length = 2 ^ k
  swap
  · have : log2Strict trace.length = none := by
      cases h : log2Strict trace.length with
      | none => rfl
      | some k => exact absurd ⟨k, log2Strict_eq h⟩ hk
    unfold prove
    simp only [this, Option.bind_eq_bind, Option.bind_none, Option.bind_fun_none]
  obtain ⟨k, hk⟩ := hk
  cases hq : getLogQuotientDegree air pub.length with
  | none =>
    unfold prove
    simp only [hq, Option.bind_eq_bind, Option.bind_none, Option.bind_fun_none]
  | some q =>
    have hb : ¬ q ≤ u.cfg.logBlowup := fun h =>
      hs ⟨⟨k, hk⟩, ((C45_least_power_of_two air _ q).1 hq).1, (degree_fits hq).1 h, hd⟩
    rw [hk, ← pow_add] at hsize
    exact prove_degree hu hwidth hq (by omega) ((Nat.pow_le_pow_iff_right (by omega)).1 hsize) hk hrect ch si s w

/-- **C120** If its inputs are servable, the prover commits and draws its challenges; it panics if the second challenge is on
the coset it evaluates on, and else makes a proof exactly if the witness passes the proof-of-work check in the state reached,
which does not depend on the witness. -/
theorem C120_serves {u : Setup K F SI C DI PI S D P Ch W} (hu : u.Ok) (hN : u.twoAdicity < 32)
    {Good : Ch → Prop} (hK : u.chall.Total Good u.twoAdicity) {air : Air K} (hwidth : 0 < air.width)
    {pub : List K} {trace : Mat K} (hrect : Rect trace air.width)
    (hsize : trace.length * 2 ^ u.cfg.logBlowup ≤ 2 ^ u.twoAdicity)
    (hs : Servable u.cfg.logBlowup u.cfg.debug air trace pub) {ch : Ch} (hch : Good ch) (si : SI) (s : S) :
    ∃ c1 c2 alpha zeta chz, challenges u ch c1 c2 = some (alpha, zeta, chz) ∧
      (zeta ^ (trace.length * 2 ^ u.cfg.logBlowup) = algebraMap K F u.g ^ (trace.length * 2 ^ u.cfg.logBlowup) →
        ∀ w, prove u air ch trace pub si s w = none) ∧
      (zeta ^ (trace.length * 2 ^ u.cfg.logBlowup) ≠ algebraMap K F u.g ^ (trace.length * 2 ^ u.cfg.logBlowup) →
        ∃ chPow, Good chPow ∧ ∀ w, (∃ proof ch', prove u air ch trace pub si s w = some (proof, ch')) ↔
          ∃ ch', u.chall.checkWitness chPow u.cfg.powBits w = some (true, ch')) := by
  obtain ⟨⟨k, hl⟩, hr, hdeg, hsat⟩ := hs
  rw [hl, ← pow_add] at hsize
  have hkb : k + u.cfg.logBlowup ≤ u.twoAdicity := (Nat.pow_le_pow_iff_right (by omega)).1 hsize
  obtain ⟨q, hq⟩ : ∃ q, getLogQuotientDegree air pub.length = some q := by
    cases hq : getLogQuotientDegree air pub.length with
    | some q => exact ⟨q, rfl⟩
    | none =>
      have := (C45_least_power_of_two air pub.length (Tcs.log2Ceil (max air.degree 2 - 1))).2 ⟨hr, log2Ceil_least _⟩
      rw [hq] at this
      cases this
  have hqb := (degree_fits hq).2 hdeg
  obtain ⟨c1, c2, alpha, zeta, chz, -, -, hc, hcom, hrun⟩ :=
    C48_honest_run hu hN hK hwidth hq hqb hkb hl hrect hsat hch si s
  refine ⟨c1, c2, alpha, zeta, chz, hc, ?_, ?_⟩
  · rw [hl, ← pow_add]
    intro hz w
    cases hp : prove u air ch trace pub si s w with
    | none => rfl
    | some r =>
      obtain ⟨proof, ch'⟩ := r
      obtain ⟨rfl, rfl⟩ := hcom w proof ch' hp
      obtain ⟨ps, hpw, rfl, hps⟩ := trace_polys hu (k := k) (by omega) hl hrect
      exact absurd hz (produced_off_coset hu hwidth hq hqb hkb hpw hps hp hc)
  · rw [hl, ← pow_add]
    intro hz
    obtain ⟨_, _, _, _, chPow, -, -, -, -, ⟨hg, h1⟩, h2⟩ := hrun hz
    refine ⟨chPow, hg, fun w => ⟨?_, ?_⟩⟩
    · rintro ⟨proof, ch', hp⟩
      exact h1 w _ hp
    · rintro ⟨ch', hw⟩
      obtain ⟨proof, ch'', hp, -⟩ := h2 w ch' hw
      exact ⟨proof, ch'', hp⟩

end TapStark.Stark

namespace TapStark.Stark

open TapStark.Tap TapStark.FS TapStark.Fri TapStark.Pcs Polynomial

section
variable [LinearOrder U256]

/-- A system of degree four: one column that is 0 or 1 or 2 or 3. -/
def quartic : Air BB :=
  ⟨1, [.zero (.mul (.mul (.loc 0) (.sub (.loc 0) (.const 1))) (.mul (.sub (.loc 0) (.const 2)) (.sub (.loc 0) (.const 3))))]⟩

/-- C120 has no unmet hypotheses, and all the reasons to refuse occur.  In the setting of C48's example (blowup two, debug
assertions) the prover serves the four correct rows, and a single row, whose proof is accepted; it refuses three rows, a missing public value, a wrong result, and a
system of degree four although the trace satisfies it. -/
theorem C120_instance (scfg : TapStark.Cfg) (h20 : ∀ x, (scfg.hash160 x).length = 20)
    (th : TapHash (List Op) U256) (w : U32) :
    ∃ mgr : Tcs.Manager,
    let u := deployed scfg th mgr mgr bbRep (lagrangeExt bbGen : Ext BB BB) (bbChall (blake3Perm fiveHash))
      ⟨1, 2, 0, true⟩ bbDeg
    let ch := Chal.new 16 (fromU64 0)
    u.Ok ∧ Servable 1 true (fibAir BB) (fibTrace 4 0 1) [0, 1, 3] ∧
      (∃ proof ch', prove u (fibAir BB) ch (fibTrace 4 0 1) [0, 1, 3] 0 0 w = some (proof, ch')) ∧
      (∃ proof ch', prove u (fibAir BB) ch [[0, 1]] [0, 1, 1] 0 0 w = some (proof, ch') ∧
        proof.openingProof.commitPhaseCommits = [] ∧ verify u (fibAir BB) ch proof [0, 1, 1] = .ok ch') ∧
      prove u (fibAir BB) ch (fibTrace 3 0 1) [0, 1, 2] 0 0 w = none ∧
      prove u (fibAir BB) ch (fibTrace 4 0 1) [0, 1] 0 0 w = none ∧
      prove u (fibAir BB) ch (fibTrace 4 0 1) [0, 1, 7] 0 0 w = none ∧
      Satisfies quartic [[2], [3]] [] ∧ prove u quartic ch [[2], [3]] [] 0 0 w = none := by
  obtain ⟨b, c, -, -, h⟩ := Tcs.winternitz_ok scfg h20 ['b', '1', '3', '8'] (by decide) 0
  have ok : ∀ n w, Tcs.BcsOk scfg 1 20 20 (Tcs.assigned bbRep (fun _ _ => Tcs.winternitzBc scfg b c) n w) := by
    intro n w
    refine ⟨h, ?_⟩
    intro bc hbc
    obtain ⟨-, -, rfl⟩ := List.mem_map.1 hbc
    exact h
  refine ⟨fun _ _ => Tcs.winternitzBc scfg b c, ?_⟩
  intro u ch
  have hp := fun s (_ : s.length = 16) => blake3Perm_length fiveHash s
  have hu : u.Ok := deployed_ok th ok bbRep_ok ok (lagrangeExt_width _) (lagrangeExt_correct bbGen_twoAdic)
    (by decide) (by decide) (bbChall_bits _) bbDeg_ok
  have hch : GoodChal (blake3Perm fiveHash) ch := ⟨_, _, inv_new (by omega)⟩
  have hq : getLogQuotientDegree (fibAir BB) 3 = some 0 := fibAir_degree 3 le_rfl
  have hpub : [0, 1, ((fibTrace 4 (0 : BB) 1).getD (4 - 1) []).getD 1 0] = [0, 1, 3] := by decide +kernel
  have hsat := fibTrace_satisfies 4 (by omega) (0 : BB) 1
  rw [hpub] at hsat
  have hz3 : (5 : BB) ^ 2 ^ 3 ≠ 31 ^ 2 ^ 3 := by decide +kernel
  have hserve : Servable 1 true (fibAir BB) (fibTrace 4 0 1) [0, 1, 3] :=
    ⟨⟨2, fibTrace_length 4 0 1⟩, ((C45_least_power_of_two _ _ _).1 hq).1, (degree_fits hq).1 (Nat.zero_le _), fun _ => hsat⟩
  have hl4 : (fibTrace 4 (0 : BB) 1).length = 4 := fibTrace_length 4 0 1
  have hsize : ∀ n, n ≤ 4 → n * 2 ^ u.cfg.logBlowup ≤ 2 ^ u.twoAdicity := by
    intro n hn
    show n * 2 ^ 1 ≤ 2 ^ 27
    omega
  refine ⟨hu, hserve, ?_, ?_, ?_, ?_, ?_, ?_⟩
  · obtain ⟨c1, c2, alpha, zeta, chz, h1, -, h2⟩ := C120_serves hu (by decide : (27 : Nat) < 32)
      (bbChall_total _ hp) (air := fibAir BB) (by decide : 0 < 2) (pub := [0, 1, 3]) (fibTrace_rect 4 0 1)
      (by rw [hl4]; exact hsize 4 le_rfl) hserve hch 0 0
    obtain ⟨rfl, rfl⟩ := fiveHash_challenges rfl hch h1
    obtain ⟨chPow, hgood, h3⟩ := h2 (by rw [hl4]; exact hz3)
    obtain ⟨chw, hw⟩ := checkWitness_zero hp chPow hgood w
    exact (h3 w).2 ⟨chw, hw⟩
  · have hone : [[0, 1]] = fibTrace 1 (0 : BB) 1 := by decide +kernel
    have hsat1 : Satisfies (fibAir BB) [[0, 1]] [0, 1, 1] := by
      have := fibTrace_satisfies 1 (by omega) (0 : BB) 1
      rw [← hone] at this
      exact this
    have hrect : Rect [[(0 : BB), 1]] (fibAir BB).width := by rw [hone]; exact fibTrace_rect 1 0 1
    have hz0 : (5 : BB) ^ 2 ^ 0 ≠ 1 := by decide +kernel
    have hz1 : (5 : BB) ^ (1 * 2 ^ 1) ≠ 31 ^ (1 * 2 ^ 1) := by decide +kernel
    have hs1 : Servable 1 true (fibAir BB) [[0, 1]] [0, 1, 1] :=
      ⟨⟨0, rfl⟩, ((C45_least_power_of_two _ _ _).1 hq).1, (degree_fits hq).1 (Nat.zero_le _), fun _ => hsat1⟩
    obtain ⟨c1, c2, alpha, zeta, chz, h1, -, h2⟩ := C120_serves hu (by decide : (27 : Nat) < 32)
      (bbChall_total _ hp) (air := fibAir BB) (by decide : 0 < 2) (pub := [0, 1, 1]) hrect
      (hsize 1 (by omega)) hs1 hch 0 0
    obtain ⟨rfl, rfl⟩ := fiveHash_challenges rfl hch h1
    obtain ⟨chPow, hgood, h3⟩ := h2 hz1
    obtain ⟨chw, hw⟩ := checkWitness_zero hp chPow hgood w
    obtain ⟨proof, ch', h4⟩ := (h3 w).2 ⟨chw, hw⟩
    refine ⟨proof, ch', h4, ?_, ?_⟩
    · obtain ⟨ps, hpw, hev, hps⟩ := trace_polys hu (k := 0) (Nat.zero_le _) rfl hrect
      have := (produced_top hu (by decide : 0 < 2) hs1.inRange hq (Nat.zero_le _) (k := 0) (by decide : 0 + 1 ≤ 27) hpw hps
        (hev ▸ h4)).2.1
      exact List.length_eq_zero_iff.1 this
    · refine C48_complete_partial hu (by decide : 0 < 2) fibAir_filtered fibAir_transitions (pub := [0, 1, 1]) hq (Nat.zero_le _)
        (k := 0) (by decide : 0 + 1 ≤ 27) rfl hrect hsat1 h4 ?_
      intro alpha' zeta' chz' hc
      obtain ⟨-, rfl⟩ := fiveHash_challenges rfl hch hc
      exact hz0
  · refine C120_refuses hu (by decide : 0 < 2) (fibTrace_rect 3 0 1) (by rw [fibTrace_length]; exact hsize 3 (by omega)) ?_ _ _ _ _
    rintro ⟨⟨k, hk⟩, -⟩
    rw [fibTrace_length] at hk
    rcases k with _ | k
    · omega
    · rw [pow_succ] at hk; omega
  · refine C120_refuses hu (by decide : 0 < 2) (fibTrace_rect 4 0 1) (by rw [hl4]; exact hsize 4 le_rfl) ?_ _ _ _ _
    rintro ⟨-, hr, -⟩
    have : (2 : Nat) < 2 := (hr (.zero (.mul .isLastRow (.sub (.loc 1) (.pub 2)))) (by simp [fibAir])).2.2
    exact absurd this (by decide)
  · refine C120_refuses hu (by decide : 0 < 2) (fibTrace_rect 4 0 1) (by rw [hl4]; exact hsize 4 le_rfl) ?_ _ _ _ _
    rintro ⟨-, -, -, hs⟩
    have := hs rfl 3 (by rw [fibTrace_length]; omega) (.zero (.mul .isLastRow (.sub (.loc 1) (.pub 2)))) (by simp [fibAir])
    revert this
    show ¬ ((_ : BB) = _)
    decide +kernel
  · refine ⟨?_, C120_refuses (trace := [[2], [3]]) hu (by decide : 0 < 1) ?_ (hsize 2 (by omega)) ?_ _ _ _ _⟩
    · intro i hi a ha
      obtain rfl := List.mem_singleton.1 ha
      have : i = 0 ∨ i = 1 := by simp at hi; omega
      rcases this with rfl | rfl <;> simp [Assertion.Holds, Assertion.sides, AExpr.value, rowMeaning]
    · intro row hrow
      simp only [List.mem_cons, List.not_mem_nil, or_false] at hrow
      rcases hrow with rfl | rfl <;> rfl
    · rintro ⟨-, -, hd, -⟩
      have hd : quartic.degree ≤ 2 ^ 1 + 1 := hd
      exact absurd hd (by decide)

end

end TapStark.Stark
