import Verif.Props.ScriptVerifier
import Verif.Props.StarkInst
import Verif.Props.WideBc

/-!
Concrete runs of prover, native verifier and script verifier, with BLAKE3 as the hash of the challenger and the taptree
commitments of the code base.  The two hash functions of the taptree are constant, so that the roots are known.
-/

namespace TapStark.Stark

open TapStark.Fri TapStark.Pcs TapStark.FS TapStark.Tap TapStark.Tcs

section
variable [LinearOrder U256]

/-! ### Constant tree hashes -/

/-- Tree hashes that are always `r`. -/
def constTap (r : U256) : TapHash (List Op) U256 := ⟨fun _ _ => r, fun _ _ => r⟩

theorem pairLoop_const {r : U256} : ∀ (nodes : List (Node (List Op) U256)) (start : Nat) (idx : List Nat)
    (out : List (Node (List Op) U256) × List Nat), pairLoop (constTap r) nodes start idx = some out →
      ∀ n ∈ out.1, n.hash = r
  | [], _, _, out, h => by
    have h := Option.some.inj h
    subst h
    simp
  | [_], _, _, out, h => by
    have h := Option.some.inj h
    subst h
    simp
  | a :: b :: rest, start, idx, out, h => by
    rw [pairLoop] at h
    have key : ∀ n idx', n.hash = r → ((pairLoop (constTap r) rest (start + a.leaves.length + b.leaves.length) idx').bind
        fun x => some (n :: x.1, x.2)) = some out → ∀ n ∈ out.1, n.hash = r := by
      intro n idx' hn h
      simp only [Option.bind_eq_some_iff] at h
      obtain ⟨x, h2, h3⟩ := h
      have h3 := Option.some.inj h3
      subst h3
      intro y hy
      rcases List.mem_cons.mp hy with rfl | hy
      · exact hn
      · exact pairLoop_const rest _ _ _ h2 y hy
    simp only [Option.bind_eq_bind, Option.bind_eq_some_iff, Prod.exists] at h
    obtain ⟨n, lf, h1, h⟩ := h
    have hn : n.hash = r := by
      rw [(combine_some h1).2.1]
      simp [nodeHashes, constTap]
    split at h
    · exact key n _ hn h
    · split at h
      · exact key n _ hn h
      · cases h

theorem buildLoop_const {r : U256} : ∀ (fuel : Nat) (nodes : List (Node (List Op) U256)) (idx : List Nat)
    (out : List (Node (List Op) U256) × List Nat), (∀ n ∈ nodes, n.hash = r) →
      buildLoop (constTap r) fuel nodes idx = some out → ∀ n ∈ out.1, n.hash = r := by
  intro fuel
  induction fuel with
  | zero =>
    intro nodes idx out hn h
    rw [buildLoop] at h
    split at h
    · have h := Option.some.inj h
      subst h
      exact hn
    · cases h
  | succ fuel ih =>
    intro nodes idx out hn h
    rw [buildLoop] at h
    split at h
    · have h := Option.some.inj h
      subst h
      exact hn
    · simp only [Option.bind_eq_bind, Option.bind_eq_some_iff, Prod.exists] at h
      obtain ⟨todo, idx', h1, h2⟩ := h
      exact ih _ _ _ (pairLoop_const _ _ _ _ h1) h2

theorem tree_const {r : U256} {scripts : List (List Op)} {t : Tree (List Op) U256}
    (h : Tree.newWithScripts (constTap r) scripts = some t) : t.root.hash = r := by
  unfold Tree.newWithScripts at h
  rw [foldl_addLeaf (constTap r) scripts Builder.new rfl] at h
  unfold Builder.buildTree at h
  split at h
  swap
  · cases h
  simp only [Option.bind_eq_bind, Option.bind_eq_some_iff, Prod.exists] at h
  obtain ⟨nodes, idx, h1, root, h2, rev, -, h3⟩ := h
  have h3 := Option.some.inj h3
  subst h3
  refine buildLoop_const _ _ _ _ ?_ h1 root (List.mem_of_mem_head? h2)
  intro n hn
  simp only [Builder.new, List.nil_append, List.mem_map] at hn
  obtain ⟨s, -, rfl⟩ := hn
  rfl

theorem mmcsCommit_const {F : Type} {r : U256} {fr : FieldRep F} {mgr : Manager} {n q : Nat} {inputs : List (Tcs.Mat F)}
    {roots : List U256} {ds : List (Committed F U256)} {n' : Nat}
    (h : mmcsCommit (constTap r) fr mgr n q inputs = some ((roots, ds), n')) : roots = List.replicate q r := by
  have key : ∀ (q n : Nat) (ds : List (Committed F U256)) (n' : Nat),
      commitPolyWithQueryTimes (constTap r) fr mgr inputs n q = some (ds, n') →
        ds.map (fun d => d.tree.root.hash) = List.replicate q r := by
    intro q
    induction q with
    | zero =>
      intro n ds n' h
      have h := Option.some.inj h
      cases h
      rfl
    | succ q ih =>
      intro n ds n' h
      rw [commitPolyWithQueryTimes] at h
      simp only [Option.bind_eq_bind, Option.bind_eq_some_iff, Prod.exists] at h
      obtain ⟨d, n1, h1, ds', n2, h2, h3⟩ := h
      have h3 := Option.some.inj h3
      cases h3
      rw [List.map_cons, ih _ _ _ h2, List.replicate_succ]
      congr 1
      unfold commitPolys at h1
      split at h1
      · simp only [Option.bind_eq_bind, Option.bind_eq_some_iff] at h1
        obtain ⟨ys, -, y, -, scripts, -, tree, h4, h5⟩ := h1
        have h5 := Option.some.inj h5
        cases h5
        exact tree_const h4
      · cases h1
  unfold mmcsCommit at h
  simp only [Option.bind_eq_bind, Option.bind_eq_some_iff, Prod.exists] at h
  obtain ⟨ds', n1, h1, h2⟩ := h
  have h2 := Option.some.inj h2
  cases h2
  exact key _ _ _ _ h1

theorem inCommit_const {F : Type} [DecidableEq F] {scfg : Cfg} {r : U256} {fr : FieldRep F} {mgr : Manager} {q : Nat} {s s' : Nat}
    {mats : List (Pcs.Mat F)} {c : Roots} {d : List (Committed F U256)}
    (h : (tcsInMmcs scfg (constTap r) fr mgr q).commit s mats = some (c, d, s')) :
    c = List.replicate q (u256ToU32 r) := by
  simp only [tcsInMmcs, Option.bind_eq_bind, Option.bind_eq_some_iff, Prod.exists] at h
  obtain ⟨roots, ds, n', h1, h2⟩ := h
  have h2 := Option.some.inj h2
  cases h2
  rw [mmcsCommit_const h1, List.map_replicate]

theorem commitMatrix_const {F : Type} [DecidableEq F] {scfg : Cfg} {r : U256} {fr : FieldRep F} {mgr : Manager} {q : Nat} {s s' : Nat}
    {rows : List (List F)} {c : Roots} {d : List (Committed F U256)}
    (h : (tcsMmcs scfg (constTap r) fr mgr q).commitMatrix s rows = some (c, d, s')) :
    c = List.replicate q (u256ToU32 r) := by
  simp only [tcsMmcs, Option.bind_eq_bind, Option.bind_eq_some_iff, Prod.exists] at h
  obtain ⟨roots, ds, n', h1, h2⟩ := h
  have h2 := Option.some.inj h2
  cases h2
  rw [mmcsCommit_const h1, List.map_replicate]

end

/-! ### Transcripts depend on little of the proof -/

theorem nativeTranscript_congr {perm : List U32 → List U32} {cfg : Config} {P IP P' IP' : Type} {r r' : Roots}
    {p : FriProof BB4 Roots P U32 IP} {p' : FriProof BB4 Roots P' U32 IP'} {c : Chal U32}
    (h1 : p.commitPhaseCommits = p'.commitPhaseCommits) (h2 : p.queryProofs.length = p'.queryProofs.length)
    (h3 : p.powWitness = p'.powWitness) :
    nativeTranscript perm cfg r r' p c = nativeTranscript perm cfg r r' p' c := by
  simp only [nativeTranscript, verifyShapeAndSampleChallenges, h1, h2, h3]

theorem scriptTranscript_congr {perm : List U32 → List U32} {cfg : Config} {P IP P' IP' : Type} {r r' : Roots}
    {p : FriProof BB4 Roots P U32 IP} {p' : FriProof BB4 Roots P' U32 IP'} {c : Chal U32}
    (h1 : p.commitPhaseCommits = p'.commitPhaseCommits) (h3 : p.powWitness = p'.powWitness) :
    scriptTranscript perm cfg r r' p c = scriptTranscript perm cfg r r' p' c := by
  simp only [scriptTranscript, h1, h3]

/-! ### The transcripts -/

/-- The words of every root. -/
def demoRoot : U256 := u32ToU256 (Vector.replicate 8 #v[1, 2, 3, 4])

/-- The transcript part of a proof with one folding round and `q` queries. -/
noncomputable def fibFri (q w : Nat) : FriProof BB4 Roots Unit U32 Unit :=
  ⟨[List.replicate q (u256ToU32 demoRoot)], List.replicate q ⟨(), []⟩, 0, fromU64 w⟩

/-- The coordinates of `zeta`. -/
def zetaWords (q : Nat) : Option (List BB) := do
  let r := (List.replicate q (u256ToU32 demoRoot)).map Vector.toList
  let c ← (Chal.new 16 (fromU64 0)).observeNested 16 (blake3Perm specHash) r
  let (_, c) ← c.sample 16 (blake3Perm specHash) 4
  let c ← c.observeNested 16 (blake3Perm specHash) r
  let (ws, _) ← c.sample 16 (blake3Perm specHash) 4
  some (ws.map fun v => (fromPf v : BB))

theorem zetaWords1 : zetaWords 1 = some [415069755, 341899111, 1119415342, 597115666] := by decide +kernel

theorem zetaWords2 : zetaWords 2 = some [1555898603, 1708800541, 209366584, 1310215901] := by decide +kernel

theorem fib_native1 : indicesOf (nativeTranscript (blake3Perm specHash) (demoCfg 1) (List.replicate 1 (u256ToU32 demoRoot))
    (List.replicate 1 (u256ToU32 demoRoot)) (fibFri 1 0) (Chal.new 16 (fromU64 0))) = some ([(0, 1)], true) := by
  decide +kernel

theorem fib_native22 : indicesOf (nativeTranscript (blake3Perm specHash) (demoCfg 2) (List.replicate 2 (u256ToU32 demoRoot))
    (List.replicate 2 (u256ToU32 demoRoot)) (fibFri 2 22) (Chal.new 16 (fromU64 0))) = some ([(0, 0), (1, 1)], true) := by
  decide +kernel

theorem fib_native28 : indicesOf (nativeTranscript (blake3Perm specHash) (demoCfg 2) (List.replicate 2 (u256ToU32 demoRoot))
    (List.replicate 2 (u256ToU32 demoRoot)) (fibFri 2 28) (Chal.new 16 (fromU64 0))) = some ([(0, 3), (1, 3)], true) := by
  decide +kernel

theorem fib_script1 : (scriptTranscript (blake3Perm specHash) (demoCfg 1) (List.replicate 1 (u256ToU32 demoRoot))
    (List.replicate 1 (u256ToU32 demoRoot)) (fibFri 1 0) (Chal.new 16 (fromU64 0))).map (·.indices) = some [(0, 2)] := by
  decide +kernel

theorem fib_script22 : (scriptTranscript (blake3Perm specHash) (demoCfg 2) (List.replicate 2 (u256ToU32 demoRoot))
    (List.replicate 2 (u256ToU32 demoRoot)) (fibFri 2 22) (Chal.new 16 (fromU64 0))).map (·.indices) =
      some [(0, 1), (1, 0)] := by decide +kernel

theorem fib_script28 : (scriptTranscript (blake3Perm specHash) (demoCfg 2) (List.replicate 2 (u256ToU32 demoRoot))
    (List.replicate 2 (u256ToU32 demoRoot)) (fibFri 2 28) (Chal.new 16 (fromU64 0))).map (·.indices) =
      some [(0, 3), (1, 3)] := by decide +kernel

/-! ### `zeta` -/

/-- Coordinates of the square. -/
def sq4 (x : BB × BB × BB × BB) : BB × BB × BB × BB :=
  let (a, b, c, d) := x
  (a * a + 11 * (b * d + c * c + d * b), a * b + b * a + 11 * (c * d + d * c),
    a * c + b * b + c * a + 11 * (d * d), a * d + b * c + c * b + d * a)

/-- The element with the given coordinates. -/
noncomputable def of4 (x : BB × BB × BB × BB) : BB4 := mk4 x.1 x.2.1 x.2.2.1 x.2.2.2

theorem of4_sq (x : BB × BB × BB × BB) : of4 x ^ 2 = of4 (sq4 x) := by
  obtain ⟨a, b, c, d⟩ := x
  rw [sq]
  exact mk4_mul a b c d a b c d

theorem of4_inj {x y : BB × BB × BB × BB} (h : of4 x = of4 y) : x = y := by
  obtain ⟨a, b, c, d⟩ := x
  obtain ⟨a', b', c', d'⟩ := y
  obtain ⟨rfl, rfl, rfl, rfl⟩ := mk4_inj h
  rfl

theorem zeta_outside {x : BB × BB × BB × BB} (h1 : sq4 x ≠ (1, 0, 0, 0)) (h2 : sq4 (sq4 (sq4 x)) ≠ (31 ^ 8, 0, 0, 0)) :
    of4 x ^ 2 ^ 1 ≠ 1 ∧ of4 x ^ 2 ^ 3 ≠ algebraMap BB BB4 31 ^ 2 ^ 3 := by
  have base : ∀ a : BB, algebraMap BB BB4 a = of4 (a, 0, 0, 0) := mk4_base
  constructor
  · intro h
    apply h1
    apply of4_inj
    rw [← of4_sq, ← base, map_one]
    exact h
  · intro h
    apply h2
    apply of4_inj
    rw [← of4_sq, ← of4_sq, ← of4_sq, ← base, map_pow, ← pow_mul, ← pow_mul]
    exact h

/-- The facts about a transcript that the run of the prover needs. -/
theorem transcript_steps {q w : Nat} {r : Roots} {alpha zeta batch : BB4} {fc : FriChallenges BB4} {c' : Chal U32}
    {x : BB × BB × BB × BB} (hr : r = List.replicate q (u256ToU32 demoRoot))
    (hx : zetaWords q = some [x.1, x.2.1, x.2.2.1, x.2.2.2])
    (h : nativeTranscript (blake3Perm specHash) (demoCfg q) r r (fibFri q w) (Chal.new 16 (fromU64 0)) =
      .ok ((alpha, zeta, batch, fc), c')) :
    zeta = of4 x ∧ ∃ c1 c2 c3 chz ch1 betas chPow chw,
      (bb4Chall (blake3Perm specHash)).observe (Chal.new 16 (fromU64 0)) r = some c1 ∧
      (bb4Chall (blake3Perm specHash)).sample c1 = some (alpha, c2) ∧
      (bb4Chall (blake3Perm specHash)).observe c2 r = some c3 ∧
      (bb4Chall (blake3Perm specHash)).sample c3 = some (zeta, chz) ∧
      (bb4Chall (blake3Perm specHash)).sample chz = some (batch, ch1) ∧
      sampleBetas (bb4Chall (blake3Perm specHash)) [r] ch1 = some (betas, chPow) ∧
      (bb4Chall (blake3Perm specHash)).checkWitness chPow 4 (fromU64 w) = some (true, chw) := by
  subst hr
  unfold nativeTranscript verifyShapeAndSampleChallenges at h
  simp only [Res.bind_eq_ok, Res.ofOption_eq_ok, Prod.exists] at h
  obtain ⟨c1, k1, a, c2, k2, c3, k3, z, chz, k4, b, ch1, k5, fc', c5, ⟨betas, chPow, k6, k7⟩, k8⟩ := h
  have k8 := Res.ok.inj k8
  cases k8
  have hz : zeta = of4 x := by
    have k4' := k4
    have k2' := k2
    have k1' : (Chal.new 16 (fromU64 0)).observeNested 16 (blake3Perm specHash)
      ((List.replicate q (u256ToU32 demoRoot)).map Vector.toList) = some c1 := k1
    have k3' : c2.observeNested 16 (blake3Perm specHash)
      ((List.replicate q (u256ToU32 demoRoot)).map Vector.toList) = some c3 := k3
    simp only [bb4Chall, Option.bind_eq_bind, Option.bind_eq_some_iff, Prod.exists] at k2' k4'
    obtain ⟨v2, d2, m2, n2⟩ := k2'
    obtain ⟨v4, d4, m4, n4⟩ := k4'
    have n2 := (Prod.mk.inj (Option.some.inj n2)).2
    have n4 := (Prod.mk.inj (Option.some.inj n4)).1
    subst n2
    unfold zetaWords at hx
    simp only [k1', m2, k3', m4, Option.bind_eq_bind, Option.bind_some] at hx
    have hx := Option.some.inj hx
    rw [← n4, hx]
    rfl
  split at k7
  · cases k7
  simp only [Res.bind_eq_ok, Res.ofOption_eq_ok, Prod.exists] at k7
  obtain ⟨acc, chw, k9, k10⟩ := k7
  split at k10
  · cases k10
  rename_i hacc
  simp only [Bool.not_eq_true, Bool.not_eq_false'] at hacc
  subst hacc
  exact ⟨hz, c1, c2, c3, chz, ch1, betas, chPow, chw, k1, k2, k3, k4, k5, k6, k9⟩

section
variable [LinearOrder U256]

/-- The configuration of the code base with `q` queries and constant tree hashes. -/
noncomputable def fibSetup (scfg : Cfg) (bc : Bc) (q : Nat) :=
  deployed scfg (constTap demoRoot) (wideManager bc) (wideManager bc) bb4Rep (lagrangeExt bbGen)
    (bb4Chall (blake3Perm specHash)) (demoCfg q) bb4Deg

theorem fibSetup_ok {scfg : Cfg} {bc : Bc} (h : BcOk scfg 1 20 bc) {q : Nat} (hq : 0 < q) : (fibSetup scfg bc q).Ok := by
  refine deployed_ok _ (isize := 20) (esize := 20) ?_ bb4Rep_ok (wideManager_ok h bb4Rep rfl) (lagrangeExt_width _)
    (lagrangeExt_correct bbGen_twoAdic) (show 1 ≤ 2 by decide) hq (bb4Chall_bits _) bb4Deg_ok
  intro n w
  refine ⟨h, ?_⟩
  intro b hb
  obtain ⟨-, -, rfl⟩ := List.mem_map.1 hb
  exact h

/-- A run for the trace with the two rows (0, 1) and (1, 1): the prover makes a proof, the native verifier accepts it, and
the script verifier accepts iff the transcripts agree up to an even number of query indices. -/
theorem fib_run {L : U31Lib} {T : TrackerLib} {scfg : Cfg} {drops : Nat → List Op} (hL : L.Ok scfg) (hT : T.Ok scfg)
    (hD : ∀ x : List Elem, x.length ≤ 4 → Does scfg (drops x.length) x []) {bc : Bc} (h : BcOk scfg 1 20 bc) {q w : Nat}
    (hq : 0 < q) {x : BB × BB × BB × BB} (hx : zetaWords q = some [x.1, x.2.1, x.2.2.1, x.2.2.2])
    (hx1 : sq4 x ≠ (1, 0, 0, 0)) (hx2 : sq4 (sq4 (sq4 x)) ≠ (31 ^ 8, 0, 0, 0)) {is js : List (Nat × Nat)}
    (hn : indicesOf (nativeTranscript (blake3Perm specHash) (demoCfg q) (List.replicate q (u256ToU32 demoRoot))
      (List.replicate q (u256ToU32 demoRoot)) (fibFri q w) (Chal.new 16 (fromU64 0))) = some (is, true))
    (hs : (scriptTranscript (blake3Perm specHash) (demoCfg q) (List.replicate q (u256ToU32 demoRoot))
      (List.replicate q (u256ToU32 demoRoot)) (fibFri q w) (Chal.new 16 (fromU64 0))).map (·.indices) = some js) (n : Nat) :
    ∃ proof ch', prove (fibSetup scfg bc q) (fibAir BB) (Chal.new 16 (fromU64 0)) [[0, 1], [1, 1]] [0, 1, 1] 0 0 (fromU64 w) =
        some (proof, ch') ∧
      verify (fibSetup scfg bc q) (fibAir BB) (Chal.new 16 (fromU64 0)) proof [0, 1, 1] = .ok ch' ∧
      ((∃ out, generateScriptVerifier scfg L T drops (fibSetup scfg bc q).mi (fibSetup scfg bc q).m (blake3Perm specHash)
          (demoCfg q) (fibAir BB) (Chal.new 16 (fromU64 0)) (ChalExpr.new n).1 proof [0, 1, 1] (ChalExpr.new n).2 = .ok out) ↔
        differing js is % 2 = 0) ∧
      nativeTranscript (blake3Perm specHash) (demoCfg q) proof.traceCommit proof.quotientCommit proof.openingProof
          (Chal.new 16 (fromU64 0)) = nativeTranscript (blake3Perm specHash) (demoCfg q)
          (List.replicate q (u256ToU32 demoRoot)) (List.replicate q (u256ToU32 demoRoot)) (fibFri q w)
          (Chal.new 16 (fromU64 0)) ∧
      scriptTranscript (blake3Perm specHash) (demoCfg q) proof.traceCommit proof.quotientCommit proof.openingProof
          (Chal.new 16 (fromU64 0)) = scriptTranscript (blake3Perm specHash) (demoCfg q)
          (List.replicate q (u256ToU32 demoRoot)) (List.replicate q (u256ToU32 demoRoot)) (fibFri q w)
          (Chal.new 16 (fromU64 0)) := by
  obtain ⟨alpha, zeta, batch, betas, c', hn, htop⟩ := indicesOf_some hn
  obtain ⟨hz, t1, t2, t3, chz, ch1, betas', chPow, chw, k1, k2, k3, k4, k5, k6, k7⟩ := transcript_steps rfl hx hn
  obtain ⟨z1, z2⟩ := zeta_outside hx1 hx2
  rw [← hz] at z1 z2
  have hu := fibSetup_ok h hq
  have hp := fun s (_ : s.length = 16) => blake3Perm_length specHash s
  have hdeg : getLogQuotientDegree (fibAir BB) 3 = some 0 := fibAir_degree 3 le_rfl
  have htr : ([[0, 1], [1, 1]] : Pcs.Mat BB) = fibTrace 2 0 1 := by decide +kernel
  have hpub : [0, 1, ((fibTrace 2 (0 : BB) 1).getD (2 - 1) []).getD 1 0] = [0, 1, 1] := by decide +kernel
  have hsat := fibTrace_satisfies 2 (by omega) (0 : BB) 1
  rw [hpub] at hsat
  rw [htr]
  have hch : GoodChal (blake3Perm specHash) (Chal.new 16 (fromU64 0)) := ⟨_, _, inv_new (by omega)⟩
  obtain ⟨c1, c2, a, z, cz, ⟨_, _, _, _, e1⟩, ⟨_, _, _, _, e2⟩, e3, e4⟩ := C48_honest_run hu (by decide : (27 : Nat) < 32)
    (bb4Chall_total _ hp) (air := fibAir BB) (by decide : 0 < 2) (pub := [0, 1, 1]) hdeg (Nat.zero_le _) (k := 1) (by decide : 1 + 2 ≤ 27) (fibTrace_length 2 0 1) (fibTrace_rect 2 0 1) (fun _ => hsat) hch 0 0
  have e1 := inCommit_const e1
  have e2 := inCommit_const e2
  have e1 : c1 = List.replicate q (u256ToU32 demoRoot) := e1
  have e2 : c2 = List.replicate q (u256ToU32 demoRoot) := e2
  subst e1
  subst e2
  have e3' : challenges (fibSetup scfg bc q) (Chal.new 16 (fromU64 0)) (List.replicate q (u256ToU32 demoRoot))
      (List.replicate q (u256ToU32 demoRoot)) = some (alpha, zeta, chz) := by
    unfold challenges
    have k1 : (fibSetup scfg bc q).chall.observe _ _ = _ := k1
    have k2 : (fibSetup scfg bc q).chall.sample _ = _ := k2
    have k3 : (fibSetup scfg bc q).chall.observe _ _ = _ := k3
    have k4 : (fibSetup scfg bc q).chall.sample _ = _ := k4
    simp only [k1, k2, k3, k4, Option.bind_eq_bind, Option.bind_some]
  have e5 := e3.symm.trans e3'
  have e5 := Option.some.inj e5
  cases e5
  obtain ⟨b, d1, commits, bs, cp, f1, f2, f3, f4, -, f5⟩ := e4.2 z2
  have f6 := f1.symm.trans k5
  have f6 := Option.some.inj f6
  cases f6
  obtain ⟨c, rfl⟩ := List.length_eq_one_iff.1 f3
  obtain ⟨_, _, _, _, f7⟩ := f4 c (List.mem_singleton.2 rfl)
  have f7 : c = List.replicate q (u256ToU32 demoRoot) := commitMatrix_const f7
  subst f7
  have f8 := f2.symm.trans k6
  have f8 := Option.some.inj f8
  cases f8
  obtain ⟨proof, ch', g1, g2, g3, g4, g5, g6, g7⟩ := f5 _ _ k7
  have hproof : nativeTranscript (blake3Perm specHash) (demoCfg q) proof.traceCommit proof.quotientCommit proof.openingProof
      (Chal.new 16 (fromU64 0)) = .ok ((alpha, zeta, batch, ⟨is, betas⟩), c') := by
    rw [g2, g3, ← hn]
    refine nativeTranscript_congr g4 ?_ g5
    rw [g6]
    simp [fibFri, fibSetup, deployed, demoCfg]
  have hscript : scriptTranscript (blake3Perm specHash) (demoCfg q) proof.traceCommit proof.quotientCommit proof.openingProof
      (Chal.new 16 (fromU64 0)) = scriptTranscript (blake3Perm specHash) (demoCfg q) (List.replicate q (u256ToU32 demoRoot))
      (List.replicate q (u256ToU32 demoRoot)) (fibFri q w) (Chal.new 16 (fromU64 0)) := by
    rw [g2, g3]
    exact scriptTranscript_congr g4 g5
  have hzz : ∀ a z cz, challenges (fibSetup scfg bc q) (Chal.new 16 (fromU64 0)) proof.traceCommit proof.quotientCommit =
      some (a, z, cz) → z ^ 2 ^ 1 ≠ 1 := by
    intro a z cz hc
    rw [g2, g3, e3] at hc
    have hc := Option.some.inj hc
    cases hc
    exact z1
  have hv := C48_complete_partial hu (by decide : 0 < 2) fibAir_filtered fibAir_transitions (pub := [0, 1, 1]) hdeg (Nat.zero_le _)
    (k := 1) (by decide : 1 + 2 ≤ 27) (fibTrace_length 2 0 1) (fibTrace_rect 2 0 1) hsat g1 hzz
  have hdb : proof.degreeBits ≤ 27 := by rw [g7]; decide
  obtain ⟨-, a, z, b, fc, m1, -, -⟩ := (verify_one (ext := lagrangeExt bbGen) (mi := (fibSetup scfg bc q).mi)
    (m := (fibSetup scfg bc q).m) (cfg := demoCfg q) (air := fibAir BB) (pub := [0, 1, 1]) hdb hdeg).mp hv
  have m2 := m1.symm.trans hproof
  cases m2
  have hne : List.replicate q (u256ToU32 demoRoot) ≠ [] := by
    intro h0
    have := congrArg List.length h0
    simp at this
    omega
  obtain ⟨-, a, z, b, fc, sc, m3, m4, m5⟩ := C82_honest_partial hL hT hD specHash_ok (ext := lagrangeExt bbGen)
    (mi := (fibSetup scfg bc q).mi) (m := (fibSetup scfg bc q).m) (cfg := demoCfg q) hu (show 1 ≤ 4 by decide)
    (show 4 ≤ 31 by decide) (air := fibAir BB) (by decide : 0 < 2) fibAir_filtered fibAir_transitions (by simp [fibAir])
    (pub := [0, 1, 1]) hdeg (k := 1) le_rfl (show 1 + 2 ≤ 27 by decide) (fibTrace_length 2 0 1) (fibTrace_rect 2 0 1) hsat g1
    hzz (by rw [g2]; exact hne) (by rw [g3]; exact hne) (by
      intro r hr
      rw [g4] at hr
      obtain rfl := List.mem_singleton.1 hr
      exact hne) htop n
  have m6 := m3.symm.trans hproof
  cases m6
  refine ⟨proof, _, g1, hv, ?_, hproof.trans hn.symm, hscript⟩
  rw [hscript] at m4
  rw [m4] at hs
  have hs : sc.indices = js := Option.some.inj hs
  rw [m5, hs]

omit [LinearOrder U256] in
theorem zeta1_outside : sq4 (415069755, 341899111, 1119415342, 597115666) ≠ (1, 0, 0, 0) ∧
    sq4 (sq4 (sq4 (415069755, 341899111, 1119415342, 597115666))) ≠ (31 ^ 8, 0, 0, 0) := by decide +kernel

omit [LinearOrder U256] in
theorem zeta2_outside : sq4 (1555898603, 1708800541, 209366584, 1310215901) ≠ (1, 0, 0, 0) ∧
    sq4 (sq4 (sq4 (1555898603, 1708800541, 209366584, 1310215901))) ≠ (31 ^ 8, 0, 0, 0) := by decide +kernel

/-- **C82** A run in which both verifiers accept an honest proof: BLAKE3, the taptree commitments with Winternitz
operators, two queries. -/
theorem C82_instance (scfg : Cfg) (h20 : ∀ x, (scfg.hash160 x).length = 20) {L : U31Lib} {T : TrackerLib}
    {drops : Nat → List Op} (hL : L.Ok scfg) (hT : T.Ok scfg)
    (hD : ∀ x : List Elem, x.length ≤ 4 → Does scfg (drops x.length) x []) (n : Nat) :
    ∃ bc proof ch' out,
      prove (fibSetup scfg bc 2) (fibAir BB) (Chal.new 16 (fromU64 0)) [[0, 1], [1, 1]] [0, 1, 1] 0 0 (fromU64 28) =
        some (proof, ch') ∧
      verify (fibSetup scfg bc 2) (fibAir BB) (Chal.new 16 (fromU64 0)) proof [0, 1, 1] = .ok ch' ∧
      generateScriptVerifier scfg L T drops (fibSetup scfg bc 2).mi (fibSetup scfg bc 2).m (blake3Perm specHash) (demoCfg 2)
          (fibAir BB) (Chal.new 16 (fromU64 0)) (ChalExpr.new n).1 proof [0, 1, 1] (ChalExpr.new n).2 = .ok out := by
  obtain ⟨b, c, -, -, h⟩ := Tcs.winternitz_ok scfg h20 ['b', '1', '3', '8'] (by decide) 0
  obtain ⟨proof, ch', h1, h2, h3, -⟩ := fib_run hL hT hD h (by omega : 0 < 2) zetaWords2 zeta2_outside.1 zeta2_outside.2
    fib_native28 fib_script28 n
  obtain ⟨out, h4⟩ := h3.mpr (by decide)
  exact ⟨_, proof, ch', out, h1, h2, h4⟩

/-- C82 fails for honest proofs: with one query, the prover's proof is accepted by the native verifier, and the script
verifier does not succeed on it. -/
theorem C82_violated_one_query (scfg : Cfg) (h20 : ∀ x, (scfg.hash160 x).length = 20) {L : U31Lib} {T : TrackerLib}
    {drops : Nat → List Op} (hL : L.Ok scfg) (hT : T.Ok scfg)
    (hD : ∀ x : List Elem, x.length ≤ 4 → Does scfg (drops x.length) x []) (n : Nat) :
    ∃ bc proof ch',
      prove (fibSetup scfg bc 1) (fibAir BB) (Chal.new 16 (fromU64 0)) [[0, 1], [1, 1]] [0, 1, 1] 0 0 (fromU64 0) =
        some (proof, ch') ∧
      verify (fibSetup scfg bc 1) (fibAir BB) (Chal.new 16 (fromU64 0)) proof [0, 1, 1] = .ok ch' ∧
      ∀ out, generateScriptVerifier scfg L T drops (fibSetup scfg bc 1).mi (fibSetup scfg bc 1).m (blake3Perm specHash)
          (demoCfg 1) (fibAir BB) (Chal.new 16 (fromU64 0)) (ChalExpr.new n).1 proof [0, 1, 1] (ChalExpr.new n).2 ≠ .ok out := by
  obtain ⟨b, c, -, -, h⟩ := Tcs.winternitz_ok scfg h20 ['b', '1', '3', '8'] (by decide) 0
  obtain ⟨proof, ch', h1, h2, h3, -⟩ := fib_run hL hT hD h (by omega : 0 < 1) zetaWords1 zeta1_outside.1 zeta1_outside.2
    fib_native1 fib_script1 n
  refine ⟨_, proof, ch', h1, h2, fun out h4 => ?_⟩
  have := h3.mp ⟨out, h4⟩
  revert this
  decide

/-- C82: the script verifier succeeds although both query indices it is run with differ from those it computes. -/
theorem C82_violated_two_indices (scfg : Cfg) (h20 : ∀ x, (scfg.hash160 x).length = 20) {L : U31Lib} {T : TrackerLib}
    {drops : Nat → List Op} (hL : L.Ok scfg) (hT : T.Ok scfg)
    (hD : ∀ x : List Elem, x.length ≤ 4 → Does scfg (drops x.length) x []) (n : Nat) :
    ∃ bc proof ch' out,
      prove (fibSetup scfg bc 2) (fibAir BB) (Chal.new 16 (fromU64 0)) [[0, 1], [1, 1]] [0, 1, 1] 0 0 (fromU64 22) =
        some (proof, ch') ∧
      generateScriptVerifier scfg L T drops (fibSetup scfg bc 2).mi (fibSetup scfg bc 2).m (blake3Perm specHash) (demoCfg 2)
          (fibAir BB) (Chal.new 16 (fromU64 0)) (ChalExpr.new n).1 proof [0, 1, 1] (ChalExpr.new n).2 = .ok out ∧
      indicesOf (nativeTranscript (blake3Perm specHash) (demoCfg 2) proof.traceCommit proof.quotientCommit proof.openingProof
        (Chal.new 16 (fromU64 0))) = some ([(0, 0), (1, 1)], true) ∧
      (scriptTranscript (blake3Perm specHash) (demoCfg 2) proof.traceCommit proof.quotientCommit proof.openingProof
        (Chal.new 16 (fromU64 0))).map (·.indices) = some [(0, 1), (1, 0)] := by
  obtain ⟨b, c, -, -, h⟩ := Tcs.winternitz_ok scfg h20 ['b', '1', '3', '8'] (by decide) 0
  obtain ⟨proof, ch', h1, -, h3, h5, h6⟩ := fib_run hL hT hD h (by omega : 0 < 2) zetaWords2 zeta2_outside.1 zeta2_outside.2
    fib_native22 fib_script22 n
  obtain ⟨out, h4⟩ := h3.mpr (by decide)
  exact ⟨_, proof, ch', out, h1, h4, by rw [h5]; exact fib_native22, by rw [h6]; exact fib_script22⟩

/-- With the scripts of the repository and the reference tracker. -/
example (scfg : Cfg) (h20 : ∀ x, (scfg.hash160 x).length = 20) :=
  C82_instance scfg h20 (drops := fun k => List.replicate k Op.drop) (repoLib_ok scfg) (refTracker_ok scfg)
    (C80_instance (cfg := scfg)).2.2.2.2.2.2 0

end

end TapStark.Stark
