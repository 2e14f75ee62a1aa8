import Verif.Model.FriInst
import Verif.Props.Fri
import Verif.Props.Tcs
import Verif.Props.Challenger

/-!
The FRI theorems at the parameters of the code base: taptree commitments, BLAKE3 challenger, BabyBear.
Every hypothesis of C37 to C40 is discharged here.
-/

set_option linter.unusedSectionVars false

namespace TapStark.Fri

open TapStark.Tap TapStark.Tcs TapStark.FS Polynomial

variable {F : Type} [LinearOrder U256]

theorem flatten_rows2 : ∀ (rows : List (List F)), (∀ r ∈ rows, r.length = 2) →
    rows.flatten.length = rows.length * 2 ∧
      ∀ i (hi : i < rows.length), (rows.flatten.drop (i * 2)).take 2 = rows[i] := by
  intro rows
  induction rows with
  | nil => simp
  | cons r rows ih =>
    intro h
    obtain ⟨h1, h2⟩ := ih (fun x hx => h x (List.mem_cons_of_mem _ hx))
    have hr := h r List.mem_cons_self
    refine ⟨by simp [h1, hr]; omega, ?_⟩
    intro i hi
    cases i with
    | zero =>
      simp only [Nat.zero_mul, List.drop_zero, List.flatten_cons, List.getElem_cons_zero]
      rw [← hr, List.take_left]
    | succ i =>
      simp only [List.length_cons, Nat.add_lt_add_iff_right] at hi
      rw [List.flatten_cons, show (i + 1) * 2 = r.length + i * 2 by omega, List.drop_append,
        List.getElem_cons_succ, ← h2 i hi]
      have : r.drop (r.length + i * 2) = [] := List.drop_eq_nil_of_le (by omega)
      rw [this, List.nil_append, Nat.add_sub_cancel_left]

theorem log2Ceil_pow (h : Nat) : log2Ceil (2 ^ h) = h := by
  unfold log2Ceil
  cases h with
  | zero => simp
  | succ h =>
    have h1 : ¬ 2 ^ (h + 1) ≤ 1 := by
      have := Nat.two_pow_pos h
      rw [pow_succ]; omega
    rw [if_neg h1]
    congr 1
    rw [Nat.log2_eq_iff (by have := Nat.two_pow_pos h; rw [pow_succ]; omega)]
    have := Nat.two_pow_pos h
    rw [pow_succ]
    omega

theorem mmcsCommit_leaves {H : Type} [LinearOrder H] (th : TapHash (List Op) H) {fr : FieldRep F}
    (fok : FieldOk fr) (mgr : Manager) (mats : List (Mat F)) (L : Nat)
    (hh : Heights mats L) (hL : L < 32) (q n n' : Nat) (roots : List H) (ds : List (Committed F H))
    (h : mmcsCommit th fr mgr n q mats = some ((roots, ds), n')) :
    ds.length = q ∧ ∀ d ∈ ds, d.leaves = mats := by
  obtain ⟨ds', n'', c1, c2, c3⟩ := C24_commit_query_times th fok mgr mats L hh hL q n
  simp only [mmcsCommit, c1, Option.bind_eq_bind, Option.bind_some, Option.some.injEq,
    Prod.mk.injEq] at h
  obtain ⟨⟨-, rfl⟩, -⟩ := h
  refine ⟨c2, fun d hd => ?_⟩
  obtain ⟨m, m', hm⟩ := c3 d hd
  obtain ⟨d', scripts, hc, hl, -⟩ := commit_spec th fok mgr m hh hL
  rw [hm] at hc
  injection hc with hc
  injection hc with hc _
  rw [hc]; exact hl

theorem roots_roundtrip : ∀ roots : List U256, (roots.map u256ToU32).map u32ToU256 = roots
  | [] => rfl
  | r :: rs => by
    rw [List.map_cons, List.map_cons, C33_digest_roundtrip, roots_roundtrip rs]

/-- The taptree commitment scheme opens what was committed (from C24 and C33). -/
theorem tcsMmcs_honest [DecidableEq F] {cfg : Cfg} (th : TapHash (List Op) U256) {fr : FieldRep F}
    (fok : FieldOk fr) (mgr : Manager) (isize esize : Nat)
    (ok : ∀ n w, BcsOk cfg fr.u32Size isize esize (assigned fr mgr n w)) (Q : Nat) (hQ : 0 < Q) :
    (tcsMmcs cfg th fr mgr Q).Honest Q 31 := by
  intro n h rows h1 hN hl h2
  obtain ⟨f1, f2⟩ := flatten_rows2 rows h2
  set m : Mat F := ⟨rows.flatten, 2⟩ with hm
  have hh : m.height = 2 ^ h := by
    simp only [Mat.height, hm, f1, hl]
    exact Nat.mul_div_cancel _ (by omega)
  have hH : Heights [m] h := by
    constructor
    · intro x hx
      obtain rfl := List.mem_singleton.1 hx
      exact ⟨h, le_rfl, hh⟩
    · exact ⟨m, List.mem_singleton_self _, hh⟩
  obtain ⟨roots, ds, n', c1, c2⟩ := C24_batch (cfg := cfg) th fok mgr [m] h hH h1 (by omega)
    (by simp) isize esize ok n Q
  obtain ⟨l1, l2⟩ := mmcsCommit_leaves th fok mgr [m] h hH (by omega) Q n n' roots ds c1
  have hd : ds[0]? = some ds[0] := List.getElem?_eq_getElem (by omega)
  have hlv := l2 ds[0] (List.getElem_mem (by omega))
  refine ⟨roots.map u256ToU32, ds, n', ?_, ?_, ?_⟩
  · show (mmcsCommit th fr mgr n Q [m]).bind _ = _
    rw [c1]; rfl
  · show (ds[0]?).bind _ = _
    rw [hd, Option.bind_some, hlv]
    show some (Mat.rows m) = _
    congr 1
    apply List.ext_getElem
    · simp [Mat.rows, hh, hl]
    · intro i hi1 hi2
      simp only [Mat.rows, List.getElem_map, List.getElem_range]
      exact f2 i hi2
  · intro q i hq hi
    obtain ⟨π, o1, o2⟩ := c2 q i hq (by omega)
    have hrow : ([m].map fun m => rowOf m (i / 2 ^ (h - log2Ceil m.height))) = [rows[i]] := by
      simp only [List.map_cons, List.map_nil, hh, log2Ceil_pow, Nat.sub_self, pow_zero, Nat.div_one]
      congr 1
      exact f2 i hi
    rw [hrow] at o1 o2
    refine ⟨π, o1, ?_⟩
    show verifyBatch cfg th fr q [rows[i]] π ((roots.map u256ToU32).map u32ToU256) = some true
    rw [roots_roundtrip, o2]

/-- States the BLAKE3 challenger reaches from its initial state. -/
def GoodChal (perm : List U32 → List U32) (c : Chal U32) : Prop :=
  ∃ obs blocks, Inv 16 perm (fromU64 0) c obs blocks

theorem observeAll_good {perm : List U32 → List U32}
    (hp : ∀ s : List U32, s.length = 16 → (perm s).length = 16) :
    ∀ (vs : List U32) (c : Chal U32), GoodChal perm c →
      ∃ c', c.observeAll 16 perm vs = some c' ∧ GoodChal perm c' := by
  intro vs
  induction vs with
  | nil => intro c h; exact ⟨c, rfl, h⟩
  | cons v vs ih =>
    rintro c ⟨obs, blocks, h⟩
    obtain ⟨c1, b1, h1, h2, -⟩ := h.observe hp (by omega) v
    obtain ⟨c2, h3, h4⟩ := ih c1 ⟨_, _, h2⟩
    exact ⟨c2, by rw [Chal.observeAll, List.foldlM_cons, h1]; exact h3, h4⟩

theorem sample_good {perm : List U32 → List U32}
    (hp : ∀ s : List U32, s.length = 16 → (perm s).length = 16) (c : Chal U32) (h : GoodChal perm c) :
    ∃ v c', c.sample 16 perm 1 = some ([v], c') ∧ GoodChal perm c' := by
  obtain ⟨obs, blocks, h⟩ := h
  obtain ⟨vs, c', b', h1, h2, -, -, h3, -⟩ := h.sample hp (by omega) (.inl rfl)
  match vs, h3 with
  | [v], _ => exact ⟨v, c', h1, _, _, h2⟩

/-- The BLAKE3 challenger never panics from a reachable state. -/
theorem bbChall_total (perm : List U32 → List U32)
    (hp : ∀ s : List U32, s.length = 16 → (perm s).length = 16) :
    (bbChall perm).Total (GoodChal perm) 27 where
  observe := by
    intro ch c h
    obtain ⟨c', h1, h2⟩ := observeAll_good hp (c.map Vector.toList).flatten ch h
    exact ⟨c', by rw [← h1]; exact observeNested_eq 16 perm ch _, h2⟩
  sample := by
    intro ch h
    obtain ⟨v, c', h1, h2⟩ := sample_good hp ch h
    exact ⟨(fromPf v : BB), c', by simp [bbChall, h1], h2⟩
  check := by
    intro ch b w r ch' h hc
    obtain ⟨c1, h1, h2⟩ := observeAll_good hp [w] ch h
    obtain ⟨c2, h3, h4⟩ := observeAll_good hp (List.replicate 7 (fromU64 0)) c1 h2
    obtain ⟨v, c3, h5, h6⟩ := sample_good hp c2 h4
    have h1' : ch.observe 16 perm w = some c1 := by
      rw [Chal.observeAll, List.foldlM_cons] at h1
      cases ho : ch.observe 16 perm w with
      | none => rw [ho] at h1; cases h1
      | some x => rw [ho] at h1; exact h1
    simp only [bbChall, FS.checkWitness, FS.sampleBits, h1', h3, h5, asUsize, Option.bind_eq_bind,
      Option.bind_some, List.head?_cons, Option.map_some] at hc
    split at hc
    case isFalse => cases hc
    case isTrue =>
      simp only [Option.bind_some, Option.some.injEq, Prod.mk.injEq] at hc
      rw [← hc.2]; exact h6
  bits := by
    intro ch n h hn
    obtain ⟨v, c', h1, h2⟩ := sample_good hp ch h
    refine ⟨fromPf v >>> (32 - n), c', ?_, h2⟩
    show FS.sampleBits perm 1 n ch = _
    rw [FS.sampleBits, h1]
    simp only [Option.bind_eq_bind, Option.bind_some, asUsize, List.head?_cons, Option.map_some]
    rw [if_pos (by omega)]

theorem bbChall_bits (perm : List U32 → List U32) (ch : Chal U32) (n i : Nat) (ch' : Chal U32)
    (h : (bbChall perm).sampleBits ch n = some (i, ch')) : i < 2 ^ n :=
  C30_range_partial perm 1 n ch ch' i h

theorem checkWitness_zero {perm : List U32 → List U32}
    (hp : ∀ s : List U32, s.length = 16 → (perm s).length = 16) (c : Chal U32) (h : GoodChal perm c)
    (w : U32) : ∃ c', FS.checkWitness perm 1 0 w c = some (true, c') := by
  obtain ⟨c1, h1, h2⟩ := observeAll_good hp [w] c h
  obtain ⟨c2, h3, h4⟩ := observeAll_good hp (List.replicate 7 (fromU64 0)) c1 h2
  obtain ⟨v, c3, h5, h6⟩ := sample_good hp c2 h4
  have h1' : c.observe 16 perm w = some c1 := by
    rw [Chal.observeAll, List.foldlM_cons] at h1
    cases ho : c.observe 16 perm w with
    | none => rw [ho] at h1; cases h1
    | some x => rw [ho] at h1; exact h1
  refine ⟨c3, ?_⟩
  simp only [FS.checkWitness, FS.sampleBits, h1', h3, h5, asUsize, Option.bind_eq_bind,
    Option.bind_some, List.head?_cons, Option.map_some]
  have hlt := fromPf_lt v
  have : fromPf v >>> 32 = 0 := by
    rw [Nat.shiftRight_eq_div_pow]
    exact Nat.div_eq_of_lt (by unfold babyBearP at hlt; omega)
  simp [this]

theorem bbRep_ok : FieldOk bbRep := by
  refine ⟨.inl rfl, fun _ => rfl, ?_, ?_⟩
  · intro x w hw
    simp only [bbRep, List.mem_singleton] at hw
    have : x.val < bbP := ZMod.val_lt x
    unfold bbP at this
    omega
  · intro x y h
    simp only [bbRep, List.cons.injEq, and_true] at h
    exact ZMod.val_injective bbP h

theorem Mmcs.Honest.mono {S C D P : Type} [Field F] [DecidableEq F] {M : Mmcs F S C D P} {Q N N' : Nat}
    (h : M.Honest Q N') (hN : N ≤ N') : M.Honest Q N :=
  fun s k rows h1 h2 => h s k rows h1 (h2.trans hN)

/-- **C37** at the parameters of the code base: BabyBear, taptree commitments with any bit commitment
operators that work, the challenger over any hash.  From any reachable challenger state the prover does
not panic, and the verifier, started from the same state, accepts the proof.  `openInput` is the layer
above, see C42. -/
theorem C37_deployed (scfg : Cfg) (th : TapHash (List Op) U256) (mgr : Manager) (isize esize : Nat)
    (ok : ∀ n w, BcsOk scfg 1 isize esize (assigned bbRep mgr n w)) (hash : List UInt8 → U256)
    (cfg : Config) (hb : 1 ≤ cfg.logBlowup) (hq : 0 < cfg.numQueries)
    {h0 : Nat} {p0 : BB[X]} {polys : List (Nat × BB[X])} (hin : HonestInputs cfg 27 h0 p0 polys)
    {IP : Type} {openInputP : Nat → Nat → Option IP} {openInputV : Nat → Nat → IP → Res (List (Nat × BB))}
    (hopen : ∀ q idx, q < cfg.numQueries → idx < 2 ^ h0 → ∃ ip, openInputP q idx = some ip ∧
      openInputV q idx ip = .ok (rosOf bbGen h0 idx ((h0, p0) :: polys)))
    (n : Nat) (ch : Chal U32) (hch : GoodChal (blake3Perm hash) ch) :
    let M := tcsMmcs scfg th bbRep mgr cfg.numQueries
    let K := bbChall (blake3Perm hash)
    let inputs := evalVec bbGen h0 p0 :: polys.map fun x => evalVec bbGen x.1 x.2
    ∃ r, commitPhase bbGen M K cfg n ch inputs = some r ∧ GoodChal (blake3Perm hash) r.chall ∧
      ∀ w ch1, K.checkWitness r.chall cfg.powBits w = some (true, ch1) →
        ∃ proof n' ch', bfProve bbGen M K cfg inputs n ch w openInputP = some (proof, n', ch') ∧
          ∃ challenges, verifyShapeAndSampleChallenges K cfg proof ch = .ok (challenges, ch') ∧
            verifyChallenges bbGen M cfg proof challenges openInputV = .ok () := by
  intro M K inputs
  have hM : M.Honest cfg.numQueries 27 :=
    (tcsMmcs_honest th bbRep_ok mgr isize esize ok cfg.numQueries hq).mono (by omega)
  have hK := bbChall_total (blake3Perm hash) (fun s _ => blake3Perm_length hash s)
  obtain ⟨r, h1, hgr, h2⟩ := C37_honest_no_panic bbGen_twoAdic hM hb (bbChall_bits _) hK hin
    (openInputP := openInputP) (fun q idx hq hi => (hopen q idx hq hi).imp fun _ h => h.1) n ch hch
  refine ⟨r, h1, hgr, ?_⟩
  intro w ch1 hw
  obtain ⟨⟨proof, n', ch'⟩, hp⟩ := h2 w ch1 hw
  refine ⟨proof, n', ch', hp, ?_⟩
  refine C37_honest_accepted bbGen_twoAdic hM hb (bbChall_bits _) hin (openInputV := openInputV) ?_ hp
  intro q idx ip hq hi hip
  obtain ⟨ip', e1, e2⟩ := hopen q idx hq hi
  rw [hip] at e1
  obtain rfl := Option.some.inj e1
  exact e2

/-- Inputs of two heights as C37 requires them, for blowup 2 and two queries. -/
theorem C37_inputs_instance : HonestInputs ⟨1, 2, 0, true⟩ 27 4 (X ^ 5 + 3 * X : BB[X]) [(3, X ^ 2), (2, X)] := by
  refine ⟨by decide, by decide, ?_, fun h => absurd h (by decide), by decide, ?_⟩
  · have : (X ^ 5 + 3 * X : BB[X]).natDegree ≤ 5 := by compute_degree
    simp only [Nat.reduceSub, Nat.reducePow]
    omega
  · intro x hx
    simp only [List.mem_cons, List.not_mem_nil, or_false] at hx
    rcases hx with rfl | rfl
    · simp
    · simp

/-- The initial challenger is reachable, and without proof of work every witness is accepted, so
C37_deployed gives an accepted proof for these inputs, for every hash and every commitment operators. -/
theorem C37_instance (scfg : Cfg) (h20 : ∀ x, (scfg.hash160 x).length = 20)
    (th : TapHash (List Op) U256) (hash : List UInt8 → U256) (w : U32) :
    ∃ mgr : Manager,
    let M := tcsMmcs scfg th bbRep mgr 2
    let K := bbChall (blake3Perm hash)
    let ch := Chal.new 16 (fromU64 0)
    let inputs := [evalVec bbGen 4 (X ^ 5 + 3 * X : BB[X]), evalVec bbGen 3 (X ^ 2), evalVec bbGen 2 X]
    ∃ (proof : FriProof BB _ _ _ Unit) (n' : Nat) (ch' : Chal U32),
      bfProve bbGen M K ⟨1, 2, 0, true⟩ inputs 0 ch w (fun _ _ => some ()) = some (proof, n', ch') ∧
      ∃ challenges, verifyShapeAndSampleChallenges K ⟨1, 2, 0, true⟩ proof ch = .ok (challenges, ch') ∧
        verifyChallenges bbGen M ⟨1, 2, 0, true⟩ proof challenges (fun _ idx _ =>
          .ok (rosOf bbGen 4 idx [(4, X ^ 5 + 3 * X), (3, X ^ 2), (2, X)])) = .ok () := by
  obtain ⟨b, c, -, -, h⟩ := winternitz_ok scfg h20 ['b', '1', '3', '8'] (by decide) 0
  have ok : ∀ n w, BcsOk scfg 1 20 20 (assigned bbRep (fun _ _ => winternitzBc scfg b c) n w) := by
    intro n w
    refine ⟨h, ?_⟩
    intro bc hbc
    obtain ⟨-, -, rfl⟩ := List.mem_map.1 hbc
    exact h
  refine ⟨fun _ _ => winternitzBc scfg b c, ?_⟩
  have hch : GoodChal (blake3Perm hash) (Chal.new 16 (fromU64 0)) := ⟨_, _, inv_new (by omega)⟩
  obtain ⟨r, h1, hgr, h2⟩ := C37_deployed scfg th (fun _ _ => winternitzBc scfg b c) 20 20 ok hash
    ⟨1, 2, 0, true⟩ (by decide) (by decide) C37_inputs_instance (IP := Unit)
    (openInputP := fun _ _ => some ()) (openInputV := fun _ idx _ =>
      .ok (rosOf bbGen 4 idx [(4, X ^ 5 + 3 * X), (3, X ^ 2), (2, X)])) (fun _ _ _ _ => ⟨(), rfl, rfl⟩)
    0 _ hch
  obtain ⟨ch1, hw⟩ := checkWitness_zero (perm := blake3Perm hash)
    (fun s _ => blake3Perm_length hash s) r.chall hgr w
  exact h2 w ch1 hw

/-- C39 at the parameters of the code base: the commitments are arbitrary roots, nothing is opened, and
the query check passes whatever the reduced openings are. -/
example (scfg : Cfg) (th : TapHash (List Op) U256) (mgr : Manager) (commits : List (List (Vector U32 8)))
    (w : U32) (challenges : FriChallenges BB) (ros : List (Nat × BB)) :
    verifyChallenges bbGen (tcsMmcs scfg th bbRep mgr 2) ⟨1, 2, 0, false⟩
      ⟨commits, [⟨(), []⟩, ⟨(), []⟩], 0, w⟩ challenges (fun _ _ _ => .ok ros) = .ok () := by
  refine C39_violated_no_rounds rfl _ _ rfl ?_ _ (fun _ _ _ => ⟨ros, rfl⟩)
  intro qp hqp
  simp only [List.mem_cons, List.not_mem_nil, or_false, or_self] at hqp
  rw [hqp]

/-- C38 at the parameters of the code base: the proof of `C37_instance`, made for `X^5 + 3X`, is
accepted when the verifier's own value at the largest height is 7 at every index. -/
theorem C38_instance (scfg : Cfg) (h20 : ∀ x, (scfg.hash160 x).length = 20)
    (th : TapHash (List Op) U256) (hash : List UInt8 → U256) (w : U32) :
    ∃ mgr : Manager,
    let M := tcsMmcs scfg th bbRep mgr 2
    let K := bbChall (blake3Perm hash)
    let ch := Chal.new 16 (fromU64 0)
    let inputs := [evalVec bbGen 4 (X ^ 5 + 3 * X : BB[X]), evalVec bbGen 3 (X ^ 2), evalVec bbGen 2 X]
    ∃ (proof : FriProof BB _ _ _ Unit) (n' : Nat) (ch' : Chal U32),
      bfProve bbGen M K ⟨1, 2, 0, true⟩ inputs 0 ch w (fun _ _ => some ()) = some (proof, n', ch') ∧
      ∃ challenges, verifyShapeAndSampleChallenges K ⟨1, 2, 0, true⟩ proof ch = .ok (challenges, ch') ∧
        verifyChallenges bbGen M ⟨1, 2, 0, true⟩ proof challenges (fun _ idx _ =>
          .ok ((4, 7) :: rosOf bbGen 4 idx [(3, X ^ 2), (2, X)])) = .ok () := by
  obtain ⟨b, c, -, -, h⟩ := winternitz_ok scfg h20 ['b', '1', '3', '8'] (by decide) 0
  have ok : ∀ n w, BcsOk scfg 1 20 20 (assigned bbRep (fun _ _ => winternitzBc scfg b c) n w) := by
    intro n w
    refine ⟨h, ?_⟩
    intro bc hbc
    obtain ⟨-, -, rfl⟩ := List.mem_map.1 hbc
    exact h
  refine ⟨fun _ _ => winternitzBc scfg b c, ?_⟩
  have hch : GoodChal (blake3Perm hash) (Chal.new 16 (fromU64 0)) := ⟨_, _, inv_new (by omega)⟩
  obtain ⟨r, h1, hgr, h2⟩ := C37_deployed scfg th (fun _ _ => winternitzBc scfg b c) 20 20 ok hash
    ⟨1, 2, 0, true⟩ (by decide) (by decide) C37_inputs_instance (IP := Unit)
    (openInputP := fun _ _ => some ()) (openInputV := fun _ idx _ =>
      .ok (rosOf bbGen 4 idx [(4, X ^ 5 + 3 * X), (3, X ^ 2), (2, X)])) (fun _ _ _ _ => ⟨(), rfl, rfl⟩)
    0 _ hch
  obtain ⟨ch1, hw⟩ := checkWitness_zero (perm := blake3Perm hash)
    (fun s _ => blake3Perm_length hash s) r.chall hgr w
  obtain ⟨proof, n', ch', hp, -⟩ := h2 w ch1 hw
  refine ⟨proof, n', ch', hp, ?_⟩
  exact C38_violated_wrong_top_accepted bbGen_twoAdic
    ((tcsMmcs_honest th bbRep_ok _ 20 20 ok 2 (by omega)).mono (by omega)) (by decide) (bbChall_bits _)
    C37_inputs_instance (fun _ _ => 7) hp

/-- C35 and C36 over BabyBear. -/
example (β : BB) (p : BB[X]) :
    (pairs (evalVec bbGen 3 p)).bind (foldMatrix bbGen β) = some (evalVec bbGen 2 (foldPoly β p)) :=
  (C36_folds_polynomial bbGen_twoAdic (by omega) β p).1

example (β : BB) : ∃ v, foldMatrix bbGen β [[1, 2], [3, 4]] = some v ∧ v.length = 2 ^ 1 ∧
    ∀ i (hi : i < [[1, 2], [3, 4]].length), foldRow bbGen i 1 β ([[1, 2], [3, 4]][i]) = v[i]? :=
  C35_row_eq_matrix bbGen_twoAdic (by omega) β _ rfl (by simp)

end TapStark.Fri
