import Verif.Model.StarkInst
import Verif.Props.Stark
import Verif.Props.PcsInst

/-!
The theorems on the STARK prover and verifier at the parameters of the code base.
-/

set_option linter.unusedSectionVars false

namespace TapStark.Stark

open TapStark.Tap TapStark.FS TapStark.Fri TapStark.Pcs Polynomial

/-! ### The parameters are as assumed -/

theorem asBase4_sum (x : BB4) :
    ∑ e ∈ Finset.range 4, AdjoinRoot.root ext4Poly ^ e * algebraMap BB BB4 ((asBase4 x).getD e 0) = x := by
  have hdeg : (AdjoinRoot.modByMonicHom ext4Poly_monic x).natDegree < 4 := by
    obtain ⟨p, rfl⟩ := AdjoinRoot.mk_surjective x
    rw [AdjoinRoot.modByMonicHom_mk]
    have h4 : ext4Poly.natDegree = 4 := natDegree_X_pow_sub_C
    rw [← h4]
    exact natDegree_modByMonic_lt _ ext4Poly_monic (by
      intro h
      rw [h, natDegree_one] at h4
      omega)
  conv_rhs => rw [← AdjoinRoot.mk_leftInverse ext4Poly_monic x,
    as_sum_range' (AdjoinRoot.modByMonicHom ext4Poly_monic x) 4 hdeg, map_sum]
  refine Finset.sum_congr rfl fun e he => ?_
  have he := Finset.mem_range.1 he
  rw [← C_mul_X_pow_eq_monomial, map_mul, map_pow, AdjoinRoot.mk_X, AdjoinRoot.mk_C, mul_comm]
  congr 2
  rw [asBase4, List.getD_eq_getElem?_getD, List.getElem?_map, List.getElem?_range he]
  rfl

theorem bb4Deg_ok : bb4Deg.Ok := ⟨by decide, fun x => by simp [bb4Deg, asBase4], asBase4_sum, pow_zero _⟩

theorem bbDeg_ok : bbDeg.Ok := ⟨by decide, fun _ => rfl, fun x => by simp [bbDeg], rfl⟩

section
variable [LinearOrder U256]

theorem bb4Rep_ok : Tcs.FieldOk bb4Rep := by
  refine ⟨.inr rfl, fun x => by simp [bb4Rep, asBase4], ?_, ?_⟩
  · intro x w hw
    obtain ⟨c, -, rfl⟩ := List.mem_map.1 hw
    have : c.val < bbP := ZMod.val_lt c
    unfold bbP at this
    omega
  · intro x y h
    have := List.map_injective_iff.2 (ZMod.val_injective bbP) h
    rw [← asBase4_sum x, ← asBase4_sum y, this]

theorem sample_good4 {perm : List U32 → List U32}
    (hp : ∀ s : List U32, s.length = 16 → (perm s).length = 16) (c : Chal U32) (h : GoodChal perm c) :
    ∃ v v1 v2 v3 c', c.sample 16 perm 4 = some ([v, v1, v2, v3], c') ∧ GoodChal perm c' := by
  obtain ⟨obs, blocks, h⟩ := h
  obtain ⟨vs, c', b', h1, h2, -, -, h3, -⟩ := h.sample hp (by omega) (.inr rfl)
  match vs, h3 with
  | [v, v1, v2, v3], _ => exact ⟨v, v1, v2, v3, c', h1, _, _, h2⟩

/-- The BLAKE3 challenger over the extension field never panics from a reachable state. -/
theorem bb4Chall_total (perm : List U32 → List U32)
    (hp : ∀ s : List U32, s.length = 16 → (perm s).length = 16) :
    (bb4Chall perm).Total (GoodChal perm) 27 where
  observe := (bbChall_total perm hp).observe
  sample := by
    intro ch h
    obtain ⟨v, v1, v2, v3, c', h1, h2⟩ := sample_good4 hp ch h
    exact ⟨fromBase4 [fromPf v, fromPf v1, fromPf v2, fromPf v3], c', by simp [bb4Chall, h1], h2⟩
  check := by
    intro ch b w r ch' h hc
    obtain ⟨c1, h1, h2⟩ := observeAll_good hp [w] ch h
    obtain ⟨c2, h3, h4⟩ := observeAll_good hp (List.replicate 7 (fromU64 0)) c1 h2
    obtain ⟨v, v1, v2, v3, c3, h5, h6⟩ := sample_good4 hp c2 h4
    have h1' : ch.observe 16 perm w = some c1 := by
      rw [Chal.observeAll, List.foldlM_cons] at h1
      cases ho : ch.observe 16 perm w with
      | none => rw [ho] at h1; cases h1
      | some x => rw [ho] at h1; exact h1
    simp only [bb4Chall, FS.checkWitness, FS.sampleBits, h1', h3, h5, asUsize, Option.bind_eq_bind,
      Option.bind_some, List.head?_cons, Option.map_some] at hc
    split at hc
    case isFalse => cases hc
    case isTrue =>
      simp only [Option.bind_some, Option.some.injEq, Prod.mk.injEq] at hc
      rw [← hc.2]; exact h6
  bits := by
    intro ch n h hn
    obtain ⟨v, v1, v2, v3, c', h1, h2⟩ := sample_good4 hp ch h
    refine ⟨fromPf v >>> (32 - n), c', ?_, h2⟩
    show FS.sampleBits perm 4 n ch = _
    rw [FS.sampleBits, h1]
    simp only [Option.bind_eq_bind, Option.bind_some, asUsize, List.head?_cons, Option.map_some]
    rw [if_pos (by omega)]

theorem bb4Chall_bits (perm : List U32 → List U32) (ch : Chal U32) (n i : Nat) (ch' : Chal U32)
    (h : (bb4Chall perm).sampleBits ch n = some (i, ch')) : i < 2 ^ n :=
  C30_range_partial perm 4 n ch ch' i h

end

theorem generator_outside (j : Nat) (hj : j ≤ 27) : (31 : BB) ^ 2 ^ j ≠ 1 := by
  intro h
  have h27 : (31 : BB) ^ 134217728 = 1 := by
    have e : (134217728 : Nat) = 2 ^ j * 2 ^ (27 - j) := by rw [← pow_add, Nat.add_sub_cancel' hj]; rfl
    rw [e, pow_mul, h, one_pow]
  have : (31 : ZMod 2013265921) ^ 134217728 = 1995471372 := by reduce_mod_char
  have := this.symm.trans h27
  revert this
  decide

section
variable [LinearOrder U256] {F : Type} [Field F] [DecidableEq F] [Algebra BB F]

theorem matOk_of_rect {m : Pcs.Mat BB} {h w : Nat} (hw : 0 < w) (hl : m.length = 2 ^ h) (hr : Rect m w) :
    MatOk m h := by
  have hpos := Nat.two_pow_pos h
  obtain ⟨r, rs, rfl⟩ := List.exists_cons_of_length_pos (by omega : 0 < m.length)
  have h0 : r.length = w := hr r List.mem_cons_self
  refine ⟨hl, ?_, ?_⟩
  · intro row hrow
    rw [List.headD_cons, h0]
    exact hr row hrow
  · rw [List.headD_cons, h0]
    exact hw

/-- What is assumed of prover and verifier holds for the deployed parameters. -/
theorem deployed_ok {scfg : TapStark.Cfg} (th : TapHash (List Op) U256) {mgr mgrF : Tcs.Manager}
    {isize esize isizeF esizeF : Nat}
    (ok : ∀ n w, Tcs.BcsOk scfg 1 isize esize (Tcs.assigned bbRep mgr n w))
    {fr : Tcs.FieldRep F} (fok : Tcs.FieldOk fr)
    (okF : ∀ n w, Tcs.BcsOk scfg fr.u32Size isizeF esizeF (Tcs.assigned fr mgrF n w))
    {ext : Ext BB F} (hX : ext.Width) (hXc : ext.Correct bbGen 27) {cfg : Config} (hb : 1 ≤ cfg.logBlowup)
    (hq : 0 < cfg.numQueries) {Ch W : Type} {chall : Chall Ch (List (Vector U32 8)) F W}
    (hbits : ∀ ch n i ch', chall.sampleBits ch n = some (i, ch') → i < 2 ^ n)
    {deg : ExtDeg BB F} (hd : deg.Ok) :
    (deployed scfg th mgr mgrF fr ext chall cfg deg).Ok where
  extWidth := hX
  extCorrect := hXc
  twoAdic := bbGen_twoAdic
  g0 := (by decide +kernel : (31 : BB) ≠ 0)
  gOut := generator_outside
  mi := by
    intro n mats hne hm hs
    exact tcsInMmcs_opens th bbRep_ok mgr isize esize ok cfg.numQueries hq mats hne (by
      intro m hmm
      obtain ⟨h, w, h1, h2, h3, h4, h5⟩ := hm m hmm
      exact ⟨h, h1, lt_of_le_of_lt h2 (by decide : (27 : Nat) < 32), matOk_of_rect h3 h4 h5⟩) hs n
  m := (tcsMmcs_honest th fok mgrF isizeF esizeF okF cfg.numQueries hq).mono (by decide : (27 : Nat) ≤ 31)
  blowup := hb
  bits := hbits
  deg := hd

end

/-! ### Completeness -/

section
variable [LinearOrder U256]

/-- **C48** for the code base: BabyBear with challenges in its extension of degree four, taptree commitments
with any bit commitment operators that work, and the BLAKE3 challenger over any hash function.  For every AIR
in range and every trace that satisfies it, the prover draws its challenges; unless `zeta` lies on the trace
domain or the evaluation domain, every witness that passes the proof-of-work check leads to a proof, and the
verifier accepts it. -/
theorem C48_deployed (scfg : TapStark.Cfg) (th : TapHash (List Op) U256) (mgr mgrF : Tcs.Manager)
    {isize esize isizeF esizeF : Nat}
    (ok : ∀ n w, Tcs.BcsOk scfg 1 isize esize (Tcs.assigned bbRep mgr n w))
    (okF : ∀ n w, Tcs.BcsOk scfg 4 isizeF esizeF (Tcs.assigned bb4Rep mgrF n w))
    {ext : Ext BB BB4} (hX : ext.Width) (hXc : ext.Correct bbGen 27) (cfg : Config) (hb : 1 ≤ cfg.logBlowup)
    (hn : 0 < cfg.numQueries) (hash : List UInt8 → U256) {air : Air BB} (hwidth : 0 < air.width)
    (hf : air.Filtered) (ht : air.FewTransitions) {pub : List BB} {q : Nat}
    (hq : getLogQuotientDegree air pub.length = some q) (hqb : q ≤ cfg.logBlowup)
    {trace : Pcs.Mat BB} {k : Nat} (hkb : k + cfg.logBlowup ≤ 27)
    (hl : trace.length = 2 ^ k) (hrect : Rect trace air.width) (hsat : Satisfies air trace pub) (n n' : Nat) :
    let u := deployed scfg th mgr mgrF bb4Rep ext (bb4Chall (blake3Perm hash)) cfg bb4Deg
    let ch := Chal.new 16 (fromU64 0)
    ∃ c1 c2 alpha zeta chz, challenges u ch c1 c2 = some (alpha, zeta, chz) ∧
      (zeta ^ 2 ^ k ≠ 1 → zeta ^ 2 ^ (k + cfg.logBlowup) ≠ 31 ^ 2 ^ (k + cfg.logBlowup) →
        ∃ chPow, ∀ w chw, FS.checkWitness (blake3Perm hash) 4 cfg.powBits w chPow = some (true, chw) →
          ∃ proof ch', prove u air ch trace pub n n' w = some (proof, ch') ∧
            verify u air ch proof pub = .ok ch') := by
  intro u ch
  have hp := fun s (_ : s.length = 16) => blake3Perm_length hash s
  have hu : u.Ok := deployed_ok th ok bb4Rep_ok okF hX hXc hb hn (bb4Chall_bits _) bb4Deg_ok
  obtain ⟨c1, c2, alpha, zeta, chz, h1, h2⟩ := C48_no_panic hu (by decide : (27 : Nat) < 32) (bb4Chall_total _ hp) hwidth hq hqb hkb
    hl hrect (fun _ => hsat) (ch := ch) ⟨_, _, inv_new (by omega)⟩ n n'
  refine ⟨c1, c2, alpha, zeta, chz, h1, fun hz1 hz2 => ?_⟩
  obtain ⟨chPow, -, h3⟩ := h2 (by
    have e : algebraMap BB BB4 u.g = 31 := map_ofNat (algebraMap BB BB4) 31
    rw [e]
    exact hz2)
  refine ⟨chPow, fun w chw hw => ?_⟩
  obtain ⟨proof, ch', h4, rfl, rfl⟩ := h3 w chw hw
  refine ⟨proof, ch', h4, ?_⟩
  refine C48_complete_partial hu hwidth hf ht hq hqb hkb hl hrect hsat h4 ?_
  intro alpha' zeta' chz' h
  rw [h1] at h
  obtain ⟨rfl, rfl, rfl⟩ : alpha = alpha' ∧ zeta = zeta' ∧ chz = chz' := by simpa using h
  exact hz1

end

/-! ### The Fibonacci AIR -/

section
variable {K : Type} [Field K] [DecidableEq K]

theorem fibAir_degree (n : Nat) (hn : 3 ≤ n) : getLogQuotientDegree (fibAir K) n = some 0 := by
  rw [C45_least_power_of_two]
  refine ⟨?_, ?_, fun _ _ => Nat.zero_le _⟩
  · simp [fibAir, Air.InRange, Assertion.InRange, AExpr.InRange]
    omega
  · simp [fibAir, Air.degree, Assertion.degree, AExpr.degree]

theorem fibAir_filtered : (fibAir K).Filtered := by
  intro a ha
  simp only [fibAir, List.mem_cons, List.not_mem_nil, or_false] at ha
  rcases ha with rfl | rfl | rfl | rfl | rfl
  · exact .first _ (.plain _ ⟨trivial, trivial⟩)
  · exact .first _ (.plain _ ⟨trivial, trivial⟩)
  · exact .trans _ (.plain _ ⟨trivial, trivial⟩)
  · exact .trans _ (.plain _ ⟨⟨trivial, trivial⟩, trivial⟩)
  · exact .last _ (.plain _ ⟨trivial, trivial⟩)

theorem fibAir_transitions : (fibAir K).FewTransitions := by
  intro a ha
  simp only [fibAir, List.mem_cons, List.not_mem_nil, or_false] at ha
  rcases ha with rfl | rfl | rfl | rfl | rfl <;>
    simp [Assertion.transitions, Assertion.degree, AExpr.degree, AExpr.transitions]

theorem fibTrace_length : ∀ (n : Nat) (a b : K), (fibTrace n a b).length = n
  | 0, _, _ => rfl
  | n + 1, a, b => by rw [fibTrace, List.length_cons, fibTrace_length]

theorem fibTrace_rect : ∀ (n : Nat) (a b : K), Rect (fibTrace n a b) 2
  | 0, _, _ => by intro r hr; cases hr
  | n + 1, a, b => by
    intro r hr
    rcases List.mem_cons.1 hr with rfl | hr
    · rfl
    · exact fibTrace_rect n _ _ r hr

theorem fibTrace_step : ∀ (n : Nat) (a b : K) (i : Nat), i + 1 < n →
    (((fibTrace n a b).getD (i + 1) []).getD 0 0 = ((fibTrace n a b).getD i []).getD 1 0) ∧
    (((fibTrace n a b).getD (i + 1) []).getD 1 0 =
      ((fibTrace n a b).getD i []).getD 0 0 + ((fibTrace n a b).getD i []).getD 1 0)
  | 0, _, _, _, h => by omega
  | 1, _, _, _, h => by omega
  | n + 2, a, b, 0, _ => by simp [fibTrace]
  | n + 2, a, b, i + 1, h => by
    have := fibTrace_step (n + 1) b (a + b) i (by omega)
    rw [fibTrace]
    simpa only [List.getD_cons_succ] using this

/-- The Fibonacci trace satisfies the Fibonacci AIR, for every number of rows. -/
theorem fibTrace_satisfies (n : Nat) (hn : 0 < n) (a b : K) :
    Satisfies (fibAir K) (fibTrace n a b) [a, b, ((fibTrace n a b).getD (n - 1) []).getD 1 0] := by
  intro i hi x hx
  rw [fibTrace_length] at hi
  obtain ⟨m, rfl⟩ : ∃ m, n = m + 1 := ⟨n - 1, by omega⟩
  have h0 : ((fibTrace (m + 1) a b).getD 0 []) = [a, b] := rfl
  simp only [fibAir, List.mem_cons, List.not_mem_nil, or_false] at hx
  rcases hx with rfl | rfl | rfl | rfl | rfl
  · by_cases h : i = 0
    · subst h
      simp [Assertion.Holds, Assertion.sides, AExpr.value, rowMeaning, fibTrace]
    · simp [Assertion.Holds, Assertion.sides, AExpr.value, rowMeaning, h]
  · by_cases h : i = 0
    · subst h
      simp [Assertion.Holds, Assertion.sides, AExpr.value, rowMeaning, fibTrace]
    · simp [Assertion.Holds, Assertion.sides, AExpr.value, rowMeaning, h]
  · by_cases h : i = m
    · simp [Assertion.Holds, Assertion.sides, AExpr.value, rowMeaning, fibTrace_length, h]
    · have := (fibTrace_step (m + 1) a b i (by omega)).1
      simp only [Assertion.Holds, Assertion.sides, AExpr.value, rowMeaning, fibTrace_length,
        Nat.mod_eq_of_lt (show i + 1 < m + 1 by omega), this, sub_self, mul_zero]
  · by_cases h : i = m
    · simp [Assertion.Holds, Assertion.sides, AExpr.value, rowMeaning, fibTrace_length, h]
    · have := (fibTrace_step (m + 1) a b i (by omega)).2
      simp only [Assertion.Holds, Assertion.sides, AExpr.value, rowMeaning, fibTrace_length,
        Nat.mod_eq_of_lt (show i + 1 < m + 1 by omega), this, sub_self, mul_zero]
  · by_cases h : i = m
    · subst h
      simp [Assertion.Holds, Assertion.sides, AExpr.value, rowMeaning]
    · simp [Assertion.Holds, Assertion.sides, AExpr.value, rowMeaning, fibTrace_length, h]

end

/-! ### Instances -/

section
variable [LinearOrder U256]

/-- A hash function with constant output: every word of the digest is 5. -/
def fiveHash (_ : List UInt8) : U256 := Vector.ofFn fun i => if i.val % 4 = 0 then 5 else 0

theorem fiveHash_sample (c : Chal U32) (h : GoodChal (blake3Perm fiveHash) c) {x : BB} {c' : Chal U32}
    (hs : (bbChall (blake3Perm fiveHash)).sample c = some (x, c')) :
    x = 5 ∧ GoodChal (blake3Perm fiveHash) c' := by
  obtain ⟨obs, blocks, h⟩ := h
  obtain ⟨vs, c1, b', h1, h2, -, -, h3, -, -, h4⟩ :=
    h.sample (fun s _ => blake3Perm_length fiveHash s) (by omega) (.inl rfl)
  match vs, h3 with
  | [v], _ =>
    simp only [bbChall, h1, Option.bind_eq_bind, Option.bind_some, List.head?_cons, Option.some.injEq,
      Prod.mk.injEq] at hs
    obtain ⟨rfl, rfl⟩ := hs
    refine ⟨?_, _, _, h2⟩
    obtain ⟨r, hr, -, hv⟩ := h4 v List.mem_cons_self
    have hw : ∀ s : List U32, (blake3Perm fiveHash s).drop (16 / 2) =
        (u256ToU32 (Vector.ofFn fun i : Fin 32 => if i.val % 4 = 0 then 5 else 0)).toList := fun s => rfl
    rw [hw] at hv
    have h5 : ∀ v ∈ (u256ToU32 (Vector.ofFn fun i : Fin 32 => if i.val % 4 = 0 then 5 else 0)).toList,
        v = #v[5, 0, 0, 0] := by decide +kernel
    have := h5 v hv
    subst this
    decide +kernel

theorem fiveHash_challenges {SI DI PI S D P : Type}
    {u : Setup BB BB SI (List (Vector U32 8)) DI PI S D P (Chal U32) U32}
    (hu : u.chall = bbChall (blake3Perm fiveHash)) {ch chz : Chal U32} (h : GoodChal (blake3Perm fiveHash) ch)
    {c1 c2 : List (Vector U32 8)} {alpha zeta : BB} (hc : challenges u ch c1 c2 = some (alpha, zeta, chz)) :
    alpha = 5 ∧ zeta = 5 := by
  have hK := bbChall_total (blake3Perm fiveHash) (fun s _ => blake3Perm_length fiveHash s)
  unfold challenges at hc
  rw [hu] at hc
  obtain ⟨ch1, e1, hc⟩ := Option.bind_eq_some_iff.1 hc
  obtain ⟨⟨a, ch2⟩, e2, hc⟩ := Option.bind_eq_some_iff.1 hc
  obtain ⟨ch3, e3, hc⟩ := Option.bind_eq_some_iff.1 hc
  obtain ⟨⟨z, ch4⟩, e4, hc⟩ := Option.bind_eq_some_iff.1 hc
  obtain ⟨x1, f1, g1⟩ := hK.observe ch c1 h
  obtain rfl := Option.some.inj (f1.symm.trans e1)
  obtain ⟨rfl, g2⟩ := fiveHash_sample _ g1 e2
  obtain ⟨x3, f3, g3⟩ := hK.observe ch2 c2 g2
  obtain rfl := Option.some.inj (f3.symm.trans e3)
  obtain ⟨rfl, -⟩ := fiveHash_sample _ g3 e4
  simp only [Option.some.injEq, Prod.mk.injEq] at hc
  exact ⟨hc.1.symm, hc.2.1.symm⟩

/-- No trace of four rows shows that the fourth Fibonacci number after 0, 1 is 7. -/
theorem fib_seven (trace : Pcs.Mat BB) (hl : trace.length = 4) : ¬ Satisfies (fibAir BB) trace [0, 1, 7] := by
  intro h
  have h00 := h 0 (by omega) _ (List.mem_cons_self)
  have h01 := h 0 (by omega) _ (List.mem_cons_of_mem _ List.mem_cons_self)
  have t : ∀ i < 3, ((trace.getD (i + 1) []).getD 0 0 = (trace.getD i []).getD 1 0) ∧
      ((trace.getD (i + 1) []).getD 1 0 = (trace.getD i []).getD 0 0 + (trace.getD i []).getD 1 0) := by
    intro i hi
    have a := h i (by omega) (.zero (.mul .isTransition (.sub (.loc 1) (.nxt 0)))) (by simp [fibAir])
    have b := h i (by omega) (.zero (.mul .isTransition (.sub (.add (.loc 0) (.loc 1)) (.nxt 1))))
      (by simp [fibAir])
    simp only [Assertion.Holds, Assertion.sides, AExpr.value, rowMeaning, hl,
      Nat.mod_eq_of_lt (show i + 1 < 4 by omega), if_neg (show ¬ i + 1 = 4 by omega), one_mul,
      sub_eq_zero] at a b
    exact ⟨a.symm, b.symm⟩
  have h3 := h 3 (by omega) (.zero (.mul .isLastRow (.sub (.loc 1) (.pub 2)))) (by simp [fibAir])
  simp only [Assertion.Holds, Assertion.sides, AExpr.value, rowMeaning, hl, if_true, one_mul,
    sub_eq_zero, List.getD_cons_zero, List.getD_cons_succ] at h00 h01 h3
  obtain ⟨a1, b1⟩ := t 0 (by omega)
  obtain ⟨a2, b2⟩ := t 1 (by omega)
  obtain ⟨a3, b3⟩ := t 2 (by omega)
  rw [h3, a2, b2, b1, a1, h00, h01] at b3
  revert b3
  decide +kernel

/-- C48, C75 have no unmet hypotheses.  With Winternitz commitments, interpolation by Lagrange's formula and a
hash function that makes every challenge 5, there is a proof that the fourth Fibonacci number is 3, which is
accepted; with other opened values it is accepted as a proof that it is 7, which no trace shows. -/
theorem C48_C75_instance (scfg : TapStark.Cfg) (h20 : ∀ x, (scfg.hash160 x).length = 20)
    (th : TapHash (List Op) U256) (w : U32) :
    ∃ mgr : Tcs.Manager,
    let u := deployed scfg th mgr mgr bbRep (lagrangeExt bbGen : Ext BB BB) (bbChall (blake3Perm fiveHash))
      ⟨1, 2, 0, true⟩ bbDeg
    let ch := Chal.new 16 (fromU64 0)
    ∃ proof ch', prove u (fibAir BB) ch [[0, 1], [1, 1], [1, 2], [2, 3]] [0, 1, 3] 0 0 w = some (proof, ch') ∧
      verify u (fibAir BB) ch proof [0, 1, 3] = .ok ch' ∧
      ∃ quotientChunks, verify u (fibAir BB) ch { proof with
        traceLocal := [8, 9], traceNext := [10, 11], quotientChunks := quotientChunks } [0, 1, 7] = .ok ch' := by
  obtain ⟨b, c, -, -, h⟩ := Tcs.winternitz_ok scfg h20 ['b', '1', '3', '8'] (by decide) 0
  have ok : ∀ n w, Tcs.BcsOk scfg 1 20 20 (Tcs.assigned bbRep (fun _ _ => Tcs.winternitzBc scfg b c) n w) := by
    intro n w
    refine ⟨h, ?_⟩
    intro bc hbc
    obtain ⟨-, -, rfl⟩ := List.mem_map.1 hbc
    exact h
  refine ⟨fun _ _ => Tcs.winternitzBc scfg b c, ?_⟩
  intro u ch
  have hp := fun s (_ : s.length = 16) => blake3Perm_length fiveHash s
  have hu : u.Ok := deployed_ok th ok bbRep_ok ok (lagrangeExt_width _) (lagrangeExt_correct bbGen_twoAdic)
    (by decide) (by decide) (bbChall_bits _) bbDeg_ok
  have hch : GoodChal (blake3Perm fiveHash) ch := ⟨_, _, inv_new (by omega)⟩
  have hq : getLogQuotientDegree (fibAir BB) 3 = some 0 := fibAir_degree 3 le_rfl
  have htr : ([[0, 1], [1, 1], [1, 2], [2, 3]] : Pcs.Mat BB) = fibTrace 4 0 1 := by decide +kernel
  have hpub : [0, 1, ((fibTrace 4 (0 : BB) 1).getD (4 - 1) []).getD 1 0] = [0, 1, 3] := by decide +kernel
  have hsat := fibTrace_satisfies 4 (by omega) (0 : BB) 1
  rw [hpub] at hsat
  rw [htr]
  have hz1 : (5 : BB) ^ 2 ^ 2 ≠ 1 := by decide +kernel
  have hz2 : (5 : BB) ^ 2 ^ 2 ≠ 31 ^ 2 ^ 2 := by decide +kernel
  have hz3 : (5 : BB) ^ 2 ^ 3 ≠ 31 ^ 2 ^ 3 := by decide +kernel
  obtain ⟨c1, c2, alpha, zeta, chz, h1, h2⟩ := C48_no_panic hu (by decide : (27 : Nat) < 32)
    (bbChall_total _ hp) (air := fibAir BB) (by decide : 0 < 2) (pub := [0, 1, 3]) hq (Nat.zero_le _)
    (k := 2) (by decide : 2 + 1 ≤ 27) (fibTrace_length 4 0 1) (fibTrace_rect 4 0 1) (fun _ => hsat)
    hch 0 0
  obtain ⟨rfl, rfl⟩ := fiveHash_challenges rfl hch h1
  obtain ⟨chPow, hgood, h3⟩ := h2 hz3
  obtain ⟨chw, hw⟩ := checkWitness_zero hp chPow hgood w
  obtain ⟨proof, ch', h4, rfl, rfl⟩ := h3 w chw hw
  refine ⟨proof, ch', h4, ?_, ?_⟩
  · refine C48_complete_partial hu (by decide : 0 < 2) fibAir_filtered fibAir_transitions (pub := [0, 1, 3]) hq (Nat.zero_le _)
      (k := 2) (by decide : 2 + 1 ≤ 27) (fibTrace_length 4 0 1) (fibTrace_rect 4 0 1) hsat h4 ?_
    intro alpha' zeta' chz' hc
    obtain ⟨-, rfl⟩ := fiveHash_challenges rfl hch hc
    exact hz1
  · refine C75_violated_forged_proof hu (by decide : 0 < 2) (pub := [0, 1, 3]) hq (Nat.zero_le _) (k := 2) (by decide : 2 + 1 ≤ 27) (fibTrace_length 4 0 1) (fibTrace_rect 4 0 1) h4 ?_ (air' := fibAir BB)
      (pub' := [0, 1, 7]) hq rfl rfl
    intro alpha' zeta' chz' hc
    obtain ⟨-, rfl⟩ := fiveHash_challenges rfl hch hc
    exact ⟨hz1, hz2⟩

end

end TapStark.Stark
