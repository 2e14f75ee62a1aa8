import Verif.Proofs.Tcs
import Verif.Props.Winternitz

/-!
Properties C23 to C27: the taptree commitment scheme and the matrix commitment built on it.

`cfg` fixes the script interpreter options, `th` the taproot hashes, `fr` the field representation
and `mgr` the assigned bit commitment operators, all arbitrary up to the stated assumptions
(`FieldOk`, `BcsOk`).
-/

namespace TapStark.Tcs

open TapStark.Tap

variable {F H : Type} [LinearOrder H]

/-! ### C23 -/

/-- **C23** Padding any list of matrices of power-of-two heights (the tallest `2^L`) succeeds, gives
`2^L` rows, and row `i` is the concatenation, tallest matrices first and ties in input order, of row
`i / 2^(L - h)` of each matrix of height `2^h`. -/
theorem C23_padding (mats : List (Mat F)) (L : Nat) (hh : Heights mats L) :
    ∃ ys, paddingMatrix mats = some ys ∧ ys.length = 2 ^ L ∧
      ∀ i, i < 2 ^ L → ys[i]? = some (leafRow mats L i) :=
  ⟨_, paddingMatrix_eq hh, rows_length _ _, fun _ hi => rows_get _ _ hi⟩

/-- **C23** Every column of every matrix appears: the width of a leaf row is the sum of the matrix
widths. -/
theorem C23_width (mats : List (Mat F)) (L : Nat) (hh : Heights mats L) (i : Nat)
    (hi : i < 2 ^ L) : (leafRow mats L i).length = (mats.map Mat.width).sum := by
  have hsorted := List.pairwise_mergeSort taller_trans taller_total mats
  have hperm := List.mergeSort_perm mats taller
  have e : leafRow mats L i = leafRow (mats.mergeSort taller) L i := by
    unfold leafRow; apply List.flatMap_congr; intro h _; rw [filter_mergeSort]
  rw [e, leafRow_sorted (hsorted.imp fun h => by simpa [taller] using h)
    (fun m hm => hh.pow m ((hperm.mem_iff).1 hm)), List.length_flatMap]
  rw [show ((mats.mergeSort taller).map fun m =>
      (rowOf m (i / 2 ^ (L - log2Ceil m.height))).length) =
      (mats.mergeSort taller).map Mat.width by
    apply List.map_congr_left
    intro m hm
    obtain ⟨h, h1, h2⟩ := hh.pow m ((hperm.mem_iff).1 hm)
    apply rowOf_length
    rw [h2, log2Ceil_pow, Nat.div_lt_iff_lt_mul (by positivity), ← Nat.pow_add,
      show h + (L - h) = L by omega]
    exact hi]
  exact (hperm.map _).sum_eq

/-- The matrices of the code's own example: heights 4, 4 and 8. -/
def exampleMats : List (Mat Nat) :=
  [⟨[0, 1, 2, 1, 2, 2, 1, 0], 2⟩, ⟨[0, 1, 2, 1, 2, 2, 1, 0, 0, 1, 2, 1, 2, 2, 1, 0], 4⟩,
    ⟨[0, 1, 2, 1, 2, 2, 1, 0], 1⟩]

theorem exampleMats_heights : Heights exampleMats 3 := by
  constructor
  · intro m hm
    simp only [exampleMats, List.mem_cons, List.not_mem_nil, or_false] at hm
    rcases hm with rfl | rfl | rfl
    · exact ⟨2, by decide, by decide⟩
    · exact ⟨2, by decide, by decide⟩
    · exact ⟨3, by decide, by decide⟩
  · exact ⟨⟨[0, 1, 2, 1, 2, 2, 1, 0], 1⟩, by simp [exampleMats], by decide⟩

/-- The row listed in the comment of the code's test (basic/src/tcs/mod.rs, index 3). -/
example : leafRow exampleMats 3 3 = [1, 2, 1, 2, 2, 1, 0] := by decide +kernel

/-- **C23 needs power-of-two heights**: with heights 3 and 4 padding panics. -/
theorem C23_other_heights_panic :
    paddingMatrix [(⟨[0, 1, 2, 3], 1⟩ : Mat Nat), ⟨[0, 1, 2], 1⟩] = none := by
  unfold paddingMatrix
  rw [List.mergeSort_of_pairwise (by decide)]
  rfl

/-! ### C27 -/

/-- **C27** Exactness of the leaf script.  The script of a leaf accepts a witness stack exactly when
the stack splits into a piece that opens the index operator to the leaf's index and, in order, one
piece per evaluation that opens its operator to the words of that evaluation. -/
theorem C27_exact {cfg : Cfg} {words isize esize : Nat} (u : UseBcs) (index : Nat)
    (evals : List (List Nat)) (ok : BcsOk cfg words isize esize u)
    (hlen : u.evals.length = evals.length) (hw : ∀ v ∈ evals, v.length = words) :
    ∃ p, CommittedLeaf.script ⟨u, index, evals⟩ = some p ∧ ∀ w : List Elem,
      accepts cfg p w = true ↔
        ∃ (wi : List Elem) (ws : List (List Elem)), w = wi ++ ws.flatten ∧
          Opens cfg u.index wi [(index : Int)] ∧ ws.length = evals.length ∧
          ∀ (i : Nat) (h1 : i < u.evals.length) (h2 : i < evals.length) (h3 : i < ws.length),
            Opens cfg u.evals[i] ws[i] (evals[i].map fun v : Nat => (v : Int)) := by
  refine ⟨_, script_of (l := ⟨u, index, evals⟩) (by simp [hlen]), fun w => ?_⟩
  rw [accepts_script (l := ⟨u, index, evals⟩) ok (by simp [hlen]) hw
    (script_of (l := ⟨u, index, evals⟩) (by simp [hlen]))]
  have piece_len : ∀ {bc : Bc} {n : Nat} {vs : List Int} {x : List Elem}, BcOk cfg n esize bc →
      vs.length = n → Opens cfg bc x vs → x.length = esize := by
    intro bc n vs x hok hvs ho
    obtain ⟨x1, rest, vs', h1, h2, h3, h4⟩ := hok.sound x [] _ ho
    have := hok.frame x1 vs' h4 rest []
    rw [← h1] at this
    unfold Opens at ho
    rw [ho] at this
    simp only [Option.some.injEq, St.mk.injEq, and_true] at this
    have hl := congrArg List.length this
    simp only [List.length_append, List.length_map, List.length_reverse] at hl
    have : rest = [] := List.length_eq_zero_iff.1 (by omega)
    rw [h1, this]; simpa using h2
  have index_len : ∀ {x : List Elem} {vs : List Int}, vs.length = 1 → Opens cfg u.index x vs →
      x.length = isize := by
    intro x vs hvs ho
    obtain ⟨x1, rest, vs', h1, h2, h3, h4⟩ := ok.index.sound x [] _ ho
    have := ok.index.frame x1 vs' h4 rest []
    rw [← h1] at this
    unfold Opens at ho
    rw [ho] at this
    simp only [Option.some.injEq, St.mk.injEq, and_true] at this
    have hl := congrArg List.length this
    simp only [List.length_append, List.length_map, List.length_reverse] at hl
    have : rest = [] := List.length_eq_zero_iff.1 (by omega)
    rw [h1, this]; simpa using h2
  constructor
  · rintro ⟨wi, ws, h1, h2, h3, h4, h5⟩
    unfold Pieces at h5
    refine ⟨wi, ws, h1, h4, ?_, ?_⟩
    · have := h5.length_eq; simp only [List.length_zip] at this; omega
    · intro i a1 a2 a3
      have := (List.forall₂_iff_get.1 h5).2 i (by simp; omega) a3
      simpa using this
  · rintro ⟨wi, ws, h1, h4, hl, h5⟩
    have hp : Pieces cfg u.evals evals ws := by
      unfold Pieces
      rw [List.forall₂_iff_get]
      refine ⟨by simp; omega, ?_⟩
      intro i a1 a2
      simp only [List.length_zip] at a1
      simpa using h5 i (by omega) (by omega) a2
    refine ⟨wi, ws, h1, index_len rfl h4, ?_, h4, hp⟩
    intro x hx
    obtain ⟨i, hi, rfl⟩ := List.getElem_of_mem hx
    refine piece_len (ok.evals _ (List.getElem_mem (by omega : i < u.evals.length))) ?_
      (h5 i (by omega) (by omega) hi)
    simpa using hw _ (List.getElem_mem (by omega : i < evals.length))

/-- **C27** The generated witness for the same index and evaluations is accepted. -/
theorem C27_honest_witness {cfg : Cfg} {fr : FieldRep F} (fok : FieldOk fr) (u : UseBcs)
    {isize esize : Nat} (ok : BcsOk cfg fr.u32Size isize esize u) (i : Nat) (hi : i < 2 ^ 31)
    (row : List F) (hlen : u.evals.length = row.length) :
    ∃ p w, CommittedLeaf.script ⟨u, i, row.map fr.words⟩ = some p ∧
      CommittedLeaf.witness ⟨u, i, row.map fr.words⟩ = some w ∧
      accepts cfg p w.reverse = true := by
  have hs := script_of (l := ⟨u, i, row.map fr.words⟩) (by simp [hlen])
  obtain ⟨w, h1, h2⟩ := honest_accepts fok ok hi hlen (List.prefix_refl row) hs
  exact ⟨_, w, hs, h1, h2⟩

/-! #### The assumption on bit commitments is met by the Winternitz commitment of scripts/ -/

/-- The 32-bit Winternitz commitment of scripts/src/bit_comm used as an operator. -/
def winternitzBc (cfg : Cfg) (b : BitCommU32) (lock : List Op) : Bc :=
  { lock := lock
    wit := fun vs => ((b.changeValue (BitVec.ofNat 32 (vs.getD 0 0))).signature cfg).getD [] }

theorem recover_exact (cfg : Cfg) (pk : List Elem) (hpkl : pk.length = 10) (p : List Op)
    (hp : checksigVerify pk = some p) (m a : List Elem) (s' : St) :
    run cfg (p ++ u32Compress) ⟨m, a, []⟩ = some s' ↔
      ∃ e x d rest, m = sigStack e x ++ rest ∧
        ValidSig cfg.hash160 cfg.minimal (fun i => pk.getD i []) e x d ∧
        s' = ⟨num (signMag (BitVec.ofNat 32 (messageValue d))) :: rest, a, []⟩ := by
  have hc : ∀ v rest, run cfg u32Compress ⟨wordElems v ++ rest, a, []⟩ =
      some ⟨num (signMag v) :: rest, a, []⟩ := by
    intro v rest
    rw [← List.append_nil u32Compress, run_u32Compress _ rfl]; rfl
  constructor
  · intro h
    rw [run_append] at h
    cases hr : run cfg p ⟨m, a, []⟩ with
    | none => rw [hr] at h; cases h
    | some s1 =>
      rw [hr] at h
      obtain ⟨e, x, d, rest, h1, h2, rfl⟩ := (C14_exact cfg pk hpkl p hp m a s1).mp hr
      rw [Option.bind_some, hc] at h
      exact ⟨e, x, d, rest, h1, h2, (Option.some.inj h).symm⟩
  · rintro ⟨e, x, d, rest, h1, h2, rfl⟩
    rw [run_append_of ((C14_exact cfg pk hpkl p hp m a _).mpr ⟨e, x, d, rest, h1, h2, rfl⟩), hc]

theorem sigStack_length (e x : Nat → Elem) : (sigStack e x).length = 20 := by
  simp [sigStack, List.length_flatMap]

theorem signMag_small {v : Nat} (hv : v < 2 ^ 31) : signMag (BitVec.ofNat 32 v) = (v : Int) := by
  have e : (BitVec.ofNat 32 v).toNat = v := by
    rw [BitVec.toNat_ofNat]; exact Nat.mod_eq_of_lt (by omega)
  unfold signMag; rw [e, if_pos (by omega)]

theorem winternitzBc_ok (cfg : Cfg) (h20 : ∀ x, (cfg.hash160 x).length = 20) (key : List Char)
    (secret : List UInt8) (hs : hexDecode key = some secret) (pk : List Elem)
    (hpk : pk = (List.range 10).map fun i => hashTimes cfg 15 (chainStart cfg secret i))
    (p : List Op) (hp : checksigVerify pk = some p) (b : BitCommU32)
    (hb : b.winternitz = ⟨key, pk⟩) : BcOk cfg 1 20 (winternitzBc cfg b (p ++ u32Compress)) := by
  have hpkl : pk.length = 10 := by simp [hpk]
  refine ⟨?_, ?_, ?_⟩
  · intro w vs ho rest a
    obtain ⟨e, x, d, rest', h1, h2, h3⟩ := (recover_exact cfg pk hpkl p hp w [] _).mp ho
    refine (recover_exact cfg pk hpkl p hp (w ++ rest) a _).mpr
      ⟨e, x, d, rest' ++ rest, by rw [h1, List.append_assoc], h2, ?_⟩
    rw [(St.mk.inj h3).1]; rfl
  · intro m a s' h
    obtain ⟨e, x, d, rest, h1, h2, -⟩ := (recover_exact cfg pk hpkl p hp m a s').mp h
    refine ⟨sigStack e x, rest, [signMag (BitVec.ofNat 32 (messageValue d))], h1,
      sigStack_length e x, rfl, ?_⟩
    exact (recover_exact cfg pk hpkl p hp _ [] _).mpr
      ⟨e, x, d, [], (List.append_nil _).symm, h2, rfl⟩
  · intro vs hvs hb'
    obtain ⟨v, rfl⟩ := List.length_eq_one_iff.1 hvs
    have hv : v < 2 ^ 31 := hb' v (by simp)
    obtain ⟨sig, hsig, hrev⟩ := signature_eq h20 hs pk (BitVec.ofNat 32 v) (BitVec.ofNat 32 v)
    have hw : (winternitzBc cfg b (p ++ u32Compress)).wit [v] = sig := by
      simp only [winternitzBc, List.getD_cons_zero, BitCommU32.changeValue, hb]
      rw [hsig]; rfl
    rw [hw]
    refine ⟨by rw [← List.length_reverse, hrev, sigStack_length], ?_⟩
    have hval : signMag (BitVec.ofNat 32 (messageValue (valueDigits (BitVec.ofNat 32 v)))) =
        (v : Int) := by
      rw [valueDigits_value, BitVec.ofNat_toNat, BitVec.setWidth_eq, signMag_small hv]
    have hvalid := honest_valid cfg secret (BitVec.ofNat 32 v)
    rw [← hpk] at hvalid
    refine (recover_exact cfg pk hpkl p hp _ [] _).mpr ⟨_, _, _, [],
      by rw [hrev, List.append_nil], hvalid, ?_⟩
    rw [hval]; rfl

theorem winternitz_ok (cfg : Cfg) (h20 : ∀ x, (cfg.hash160 x).length = 20) (key : List Char)
    (hk : (hexDecode key).isSome) (v : BitVec 32) : ∃ b q, BitCommU32.new cfg key v = some b ∧
      b.recoverAtStack = some q ∧ BcOk cfg 1 20 (winternitzBc cfg b q) := by
  obtain ⟨secret, hs⟩ := Option.isSome_iff_exists.mp hk
  obtain ⟨p, hp⟩ := checksigVerify_exists
    (pk := (List.range 10).map fun i => hashTimes cfg 15 (chainStart cfg secret i)) (by simp)
  refine ⟨_, p ++ u32Compress, commitNew hs v, ?_, winternitzBc_ok cfg h20 key secret hs _ rfl p hp _ rfl⟩
  unfold BitCommU32.recoverAtStack BitCommU32.checksigVerifyScript
  rw [hp]; rfl

/-- Hence the hypotheses of C24 to C27 can be met: operators for any manager, here one Winternitz
commitment for every purpose and one-word field elements. -/
example (cfg : Cfg) (h20 : ∀ x, (cfg.hash160 x).length = 20) :
    ∃ bc, BcOk cfg 1 20 bc ∧ ∀ n, BcsOk cfg 1 20 20 ⟨bc, List.replicate n bc⟩ := by
  obtain ⟨b, q, -, -, h⟩ := winternitz_ok cfg h20 ['b', '1', '3', '8'] (by decide) 0
  exact ⟨_, h, fun n => ⟨h, fun bc hbc => by rw [List.eq_of_mem_replicate hbc]; exact h⟩⟩

/-- Canonical representatives below the BabyBear modulus, one word each. -/
def babyBearRep : FieldRep (Fin 0x78000001) := ⟨1, fun x => [x.val]⟩

theorem babyBearRep_ok : FieldOk babyBearRep := by
  refine ⟨.inl rfl, fun _ => rfl, ?_, ?_⟩
  · intro x w hw
    simp only [babyBearRep, List.mem_singleton] at hw
    have := x.isLt; omega
  · intro x y h
    simp only [babyBearRep, List.cons.injEq, and_true] at h
    exact Fin.ext h

/-! ### C24 -/

/-- **C24** (scheme level) After committing to matrices of power-of-two heights with at least two
leaves, opening any index returns the committed row of that index and a proof that verifies. -/
theorem C24_open_verify {cfg : Cfg} (th : TapHash (List Op) H) {fr : FieldRep F}
    (fok : FieldOk fr) (mgr : Manager) (n : Nat) (mats : List (Mat F)) (L : Nat)
    (hh : Heights mats L) (h1 : 1 ≤ L) (hL : L < 32) (isize esize : Nat)
    (ok : ∀ w, BcsOk cfg fr.u32Size isize esize (assigned fr mgr n w)) :
    ∃ d n', commitPolys th fr mgr n mats = some (d, n') ∧ ∀ i, i < 2 ^ L →
      ∃ proof, openAt d i = some (proof, leafRow mats L i) ∧ proof.queryIndex = i ∧
        verify cfg th fr d.tree.root.hash proof (leafRow mats L i) = some true := by
  obtain ⟨d, scripts, hc, hm, hu, hs, hob, hsc⟩ := commit_spec th fok mgr n hh hL
  refine ⟨d, _, hc, fun i hi => ?_⟩
  have h2 : 2 ≤ scripts.length := by
    rw [hs]; calc 2 = 2 ^ 1 := rfl
      _ ≤ 2 ^ L := Nat.pow_le_pow_right (by omega) h1
  have hi' : i < scripts.length := by omega
  obtain ⟨leaf, e1, e2, e3⟩ := getTapleaf_of_obtained hob h2 hi'
  refine ⟨⟨leaf, d.useBcs, i⟩, ?_, rfl, ?_⟩
  · simp [openAt, hm, paddingMatrix_eq hh, Committed.queryProof, e1, rows_get _ _ hi]
  · have hlen : d.useBcs.evals.length = (leafRow mats L i).length := by
      rw [hu, leafRow_length_eq hi]; simp [assigned]
    have hi31 : i < 2 ^ 31 := lt_of_lt_of_le hi (Nat.pow_le_pow_right (by omega) (by omega))
    obtain ⟨w, w1, w2⟩ := honest_accepts fok (u := d.useBcs) (by rw [hu]; exact ok _) hi31 hlen
      (List.prefix_refl _) (hsc i hi')
    simp [verify, w1, verifyProof, e2, e3, w2]

/-- **C24** Every one of the per-query commitments has the same property. -/
theorem C24_commit_query_times (th : TapHash (List Op) H) {fr : FieldRep F}
    (fok : FieldOk fr) (mgr : Manager) (mats : List (Mat F)) (L : Nat)
    (hh : Heights mats L) (hL : L < 32) (q n : Nat) :
    ∃ ds n', commitPolyWithQueryTimes th fr mgr mats n q = some (ds, n') ∧ ds.length = q ∧
      ∀ d ∈ ds, ∃ m m', commitPolys th fr mgr m mats = some (d, m') := by
  induction q generalizing n with
  | zero => exact ⟨[], n, rfl, rfl, by simp⟩
  | succ q ih =>
    obtain ⟨d, scripts, hc, -⟩ := commit_spec th fok mgr n hh hL
    obtain ⟨ds, n', h1, h2, h3⟩ := ih (n + 1 + (leafRow mats L 0).length)
    refine ⟨d :: ds, n', by simp [commitPolyWithQueryTimes, hc, h1], by simp [h2], ?_⟩
    intro x hx
    rcases List.mem_cons.1 hx with rfl | hx
    · exact ⟨n, _, hc⟩
    · exact h3 x hx

/-- **C69** Which operators each commitment uses: with `w` values per leaf, the `k`-th of the `q`
commitments uses operator number `n + k(1+w)` for the index and the following `w` for the values, and
`q(1+w)` operators are assigned in all. -/
theorem C69_operator_numbers (th : TapHash (List Op) H) {fr : FieldRep F}
    (fok : FieldOk fr) (mgr : Manager) (mats : List (Mat F)) (L : Nat)
    (hh : Heights mats L) (hL : L < 32) (q n : Nat) :
    ∃ ds, commitPolyWithQueryTimes th fr mgr mats n q =
        some (ds, n + q * (1 + (leafRow mats L 0).length)) ∧ ds.length = q ∧
      ds.map Committed.useBcs = (List.range q).map fun k =>
        { index := mgr (n + k * (1 + (leafRow mats L 0).length)) 1
          evals := (List.range (leafRow mats L 0).length).map fun i =>
            mgr (n + k * (1 + (leafRow mats L 0).length) + 1 + i) fr.u32Size } := by
  induction q generalizing n with
  | zero => exact ⟨[], by simp [commitPolyWithQueryTimes], rfl, rfl⟩
  | succ q ih =>
    obtain ⟨d, scripts, hc, -, hu, -⟩ := commit_spec th fok mgr n hh hL
    obtain ⟨ds, h1, h2, h3⟩ := ih (n + 1 + (leafRow mats L 0).length)
    refine ⟨d :: ds, ?_, by simp [h2], ?_⟩
    · simp only [commitPolyWithQueryTimes, hc, h1, Option.bind_eq_bind, Option.bind_some]
      congr 2
      ring
    · rw [List.map_cons, h3, List.range_succ_eq_map, List.map_cons, List.map_map, hu]
      congr 1
      · simp [assigned]
      · apply List.map_congr_left
        intro k _
        have : n + 1 + (leafRow mats L 0).length + k * (1 + (leafRow mats L 0).length) =
            n + (k + 1) * (1 + (leafRow mats L 0).length) := by ring
        simp only [Function.comp_apply, Nat.succ_eq_add_one, this]

/-- **C69** If the manager never hands out an operator twice, no operator is used twice: not within a
commitment and not in two of the per-query commitments. -/
theorem C69_never_reused (th : TapHash (List Op) H) {fr : FieldRep F}
    (fok : FieldOk fr) (mgr : Manager) (mats : List (Mat F)) (L : Nat)
    (hh : Heights mats L) (hL : L < 32) (q n : Nat)
    (inj : ∀ a b v w, mgr a v = mgr b w → a = b) :
    ∃ ds n', commitPolyWithQueryTimes th fr mgr mats n q = some (ds, n') ∧ ds.length = q ∧
      (ds.flatMap fun d => d.useBcs.index :: d.useBcs.evals).Nodup := by
  obtain ⟨ds, h1, h2, h3⟩ := C69_operator_numbers th fok mgr mats L hh hL q n
  refine ⟨ds, _, h1, h2, ?_⟩
  have e : (ds.flatMap fun d => d.useBcs.index :: d.useBcs.evals) =
      (ds.map Committed.useBcs).flatMap fun u => u.index :: u.evals := by
    rw [List.flatMap_map]
  rw [e, h3, List.flatMap_map, List.nodup_flatMap]
  set w := (leafRow mats L 0).length
  constructor
  · intro k _
    rw [List.nodup_cons]
    constructor
    · intro h
      obtain ⟨i, -, hi⟩ := List.mem_map.1 h
      have := inj _ _ _ _ hi
      omega
    · refine List.Nodup.map_on ?_ List.nodup_range
      intro i _ j _ hij
      have := inj _ _ _ _ hij
      omega
  · refine List.Pairwise.imp (R := (· < ·)) ?_ List.pairwise_lt_range
    intro a b hab x hx hy
    have hab' : a * (1 + w) + (1 + w) ≤ b * (1 + w) := by
      calc a * (1 + w) + (1 + w) = (a + 1) * (1 + w) := by ring
        _ ≤ b * (1 + w) := Nat.mul_le_mul_right _ hab
    have hxn : ∃ m v, x = mgr m v ∧ m < n + a * (1 + w) + (1 + w) := by
      rcases List.mem_cons.1 hx with rfl | hx
      · exact ⟨_, _, rfl, by omega⟩
      · obtain ⟨i, hi, rfl⟩ := List.mem_map.1 hx
        have := List.mem_range.1 hi
        exact ⟨_, _, rfl, by omega⟩
    have hyn : ∃ m v, x = mgr m v ∧ n + b * (1 + w) ≤ m := by
      rcases List.mem_cons.1 hy with rfl | hy
      · exact ⟨_, _, rfl, by omega⟩
      · obtain ⟨i, hi, rfl⟩ := List.mem_map.1 hy
        exact ⟨_, _, rfl, by omega⟩
    obtain ⟨m, v, rfl, hm⟩ := hxn
    obtain ⟨m', v', hxy, hm'⟩ := hyn
    have := inj _ _ _ _ hxy
    omega

/-- A manager that never repeats an operator exists. -/
example : ∃ mgr : Manager, ∀ a b v w, mgr a v = mgr b w → a = b :=
  ⟨fun n _ => ⟨List.replicate n .dup, fun _ => []⟩, by
    intro a b v w h
    injection h with h _
    simpa using congrArg List.length h⟩

theorem foldl_max_height (mats : List (Mat F)) (L : Nat) (hh : Heights mats L) :
    mats.foldl (fun m x => max m x.height) 0 = 2 ^ L := by
  have hle : ∀ m ∈ mats, m.height ≤ 2 ^ L := by
    intro m hm; obtain ⟨h, h1, h2⟩ := hh.pow m hm
    rw [h2]; exact Nat.pow_le_pow_right (by omega) h1
  have gen : ∀ (l : List (Mat F)) (a : Nat), (∀ m ∈ l, m.height ≤ 2 ^ L) → a ≤ 2 ^ L →
      l.foldl (fun m x => max m x.height) a ≤ 2 ^ L ∧
      a ≤ l.foldl (fun m x => max m x.height) a ∧
      ∀ m ∈ l, m.height ≤ l.foldl (fun m x => max m x.height) a := by
    intro l
    induction l with
    | nil => intro a _ h; exact ⟨h, le_rfl, by simp⟩
    | cons x l ih =>
      intro a hl ha
      obtain ⟨i1, i2, i3⟩ := ih (max a x.height) (fun m hm => hl m (by simp [hm]))
        (max_le ha (hl x (by simp)))
      refine ⟨i1, le_trans (le_max_left _ _) i2, ?_⟩
      intro m hm
      rcases List.mem_cons.1 hm with rfl | hm
      · exact le_trans (le_max_right _ _) i2
      · exact i3 m hm
  obtain ⟨g1, -, g3⟩ := gen mats 0 hle (by positivity)
  obtain ⟨m, hm, e⟩ := hh.top
  exact le_antisymm g1 (e ▸ g3 m hm)

/-- **C24** (matrix commitment) For matrices of power-of-two heights given tallest first, `commit`
followed by `open_batch` of any query number and index returns row `index >> (log max height - log
height)` of each matrix, and `verify_batch` of the result against the commitment succeeds. -/
theorem C24_batch [DecidableEq F] {cfg : Cfg} (th : TapHash (List Op) H) {fr : FieldRep F}
    (fok : FieldOk fr) (mgr : Manager) (mats : List (Mat F)) (L : Nat)
    (hh : Heights mats L) (h1 : 1 ≤ L) (hL : L < 32)
    (hs : mats.Pairwise fun a b => b.height ≤ a.height) (isize esize : Nat)
    (ok : ∀ n w, BcsOk cfg fr.u32Size isize esize (assigned fr mgr n w)) (n q : Nat) :
    ∃ roots ds n', mmcsCommit th fr mgr n q mats = some ((roots, ds), n') ∧
      ∀ k i, k < q → i < 2 ^ L → ∃ proof,
        openBatch q k i ds =
          some (mats.map fun m => rowOf m (i / 2 ^ (L - log2Ceil m.height)), proof) ∧
        verifyBatch cfg th fr k (mats.map fun m => rowOf m (i / 2 ^ (L - log2Ceil m.height)))
          proof roots = some true := by
  obtain ⟨ds, n', c1, c2, c3⟩ := C24_commit_query_times th fok mgr mats L hh hL q n
  refine ⟨ds.map fun d => d.tree.root.hash, ds, n', by simp [mmcsCommit, c1], ?_⟩
  intro k i hk hi
  have hkd : k < ds.length := by omega
  obtain ⟨m, m', hm⟩ := c3 ds[k] (List.getElem_mem hkd)
  obtain ⟨d', n'', e1, e2⟩ := C24_open_verify (cfg := cfg) th fok mgr m mats L hh h1 hL isize esize
    (ok m)
  rw [hm] at e1
  injection e1 with e1
  injection e1 with e1 _
  subst e1
  obtain ⟨proof, o1, o2, o3⟩ := e2 i hi
  have hflat : (mats.map fun m => rowOf m (i / 2 ^ (L - log2Ceil m.height))).flatten =
      leafRow mats L i := by
    rw [leafRow_sorted hs hh.pow, List.flatMap_def]
  have h0 : 0 < ds.length := by omega
  obtain ⟨m0, m0', hm0⟩ := c3 ds[0] (List.getElem_mem h0)
  have hleaves : ds[0].leaves = mats := by
    obtain ⟨d, scripts, hc, hl, -⟩ := commit_spec th fok mgr m0 hh hL
    rw [hm0] at hc
    injection hc with hc
    injection hc with hc _
    rw [hc]; exact hl
  refine ⟨proof, ?_, ?_⟩
  · unfold openBatch
    have hrows : (ds[0].leaves.mapM fun m => m.row
        (i >>> (log2Ceil ds[0].maxHeight - log2Ceil m.height))) =
        some (mats.map fun m => rowOf m (i / 2 ^ (L - log2Ceil m.height))) := by
      rw [hleaves]
      apply mapM_ok
      intro x hx
      obtain ⟨h, g1, g2⟩ := hh.pow x hx
      have hmx : ds[0].maxHeight = 2 ^ L := by
        unfold Committed.maxHeight; rw [hleaves]; exact foldl_max_height mats L hh
      rw [hmx, log2Ceil_pow, Nat.shiftRight_eq_div_pow]
      unfold Mat.row
      rw [if_pos]
      · rfl
      · have hlt : i / 2 ^ (L - log2Ceil x.height) < x.height := by
          rw [g2, log2Ceil_pow, Nat.div_lt_iff_lt_mul (by positivity), ← Nat.pow_add,
            show h + (L - h) = L by omega]
          exact hi
        exact le_trans (Nat.mul_le_mul_right _ hlt) (Nat.div_mul_le_self _ _)
    simp only [List.getElem?_eq_getElem h0, Option.bind_eq_bind, Option.bind_some, hrows,
      openWithOneQuery, c2, if_true, List.getElem?_eq_getElem hkd, o1, hflat]
  · simp [verifyBatch, List.getElem?_map, List.getElem?_eq_getElem hkd, hflat, o3]

/-- Three matrices of heights 4, 2 and 2 over the base field. -/
def fieldMats : List (Mat (Fin 0x78000001)) :=
  [⟨[10, 11, 12, 13], 1⟩, ⟨[20, 21, 22, 23], 2⟩, ⟨[30, 31], 1⟩]

theorem fieldMats_heights : Heights fieldMats 2 := by
  constructor
  · intro m hm
    simp only [fieldMats, List.mem_cons, List.not_mem_nil, or_false] at hm
    rcases hm with rfl | rfl | rfl
    · exact ⟨2, by decide, by decide⟩
    · exact ⟨1, by decide, by decide⟩
    · exact ⟨1, by decide, by decide⟩
  · exact ⟨⟨[10, 11, 12, 13], 1⟩, by simp [fieldMats], by decide⟩

/-- Every hypothesis of C24 (and of C25, C26) holds for these matrices, BabyBear words and Winternitz
operators; the rows at indices 1 and 2 differ. -/
theorem C24_instance (cfg : Cfg) (h20 : ∀ x, (cfg.hash160 x).length = 20)
    (th : TapHash (List Op) H) (q : Nat) :
    leafRow fieldMats 2 1 = [11, 20, 21, 30] ∧ leafRow fieldMats 2 2 = [12, 22, 23, 31] ∧
    ∃ mgr : Manager, (∀ n w, BcsOk cfg babyBearRep.u32Size 20 20 (assigned babyBearRep mgr n w)) ∧
      ∃ roots ds n', mmcsCommit th babyBearRep mgr 0 q fieldMats = some ((roots, ds), n') ∧
        ∀ k, k < q → ∃ proof,
          openBatch q k 2 ds = some ([[12], [22, 23], [31]], proof) ∧
          verifyBatch cfg th babyBearRep k [[12], [22, 23], [31]] proof roots = some true := by
  obtain ⟨b, c, -, -, h⟩ := winternitz_ok cfg h20 ['b', '1', '3', '8'] (by decide) 0
  have ok : ∀ n w, BcsOk cfg babyBearRep.u32Size 20 20
      (assigned babyBearRep (fun _ _ => winternitzBc cfg b c) n w) := by
    intro n w
    refine ⟨h, ?_⟩
    intro bc hbc
    obtain ⟨-, -, rfl⟩ := List.mem_map.1 hbc
    exact h
  refine ⟨by decide +kernel, by decide +kernel, fun _ _ => winternitzBc cfg b c, ok, ?_⟩
  obtain ⟨roots, ds, n', h1, h2⟩ := C24_batch th babyBearRep_ok (fun _ _ => winternitzBc cfg b c)
    fieldMats 2 fieldMats_heights (by omega) (by omega) (by decide) 20 20 ok 0 q
  refine ⟨roots, ds, n', h1, fun k hk => ?_⟩
  have := h2 k 2 hk (by decide)
  rwa [show (fieldMats.map fun m => rowOf m (2 / 2 ^ (2 - log2Ceil m.height))) =
    [[12], [22, 23], [31]] by decide +kernel] at this

/-- **C24 needs tallest first**: with a shorter matrix first, opening panics although the commitment
is accepted. -/
theorem C24_unsorted_panics : ∃ mats : List (Mat Nat), Heights mats 1 ∧
    ∀ (useBcs : UseBcs) (tree : Tree (List Op) Nat), openBatch 1 0 0 [⟨mats, tree, useBcs⟩] = none := by
  refine ⟨[⟨[7], 1⟩, ⟨[8, 9], 1⟩], ?_, ?_⟩
  · constructor
    · intro m hm
      simp only [List.mem_cons, List.not_mem_nil, or_false] at hm
      rcases hm with rfl | rfl
      · exact ⟨0, by decide, by decide⟩
      · exact ⟨1, by decide, by decide⟩
    · exact ⟨⟨[8, 9], 1⟩, by simp, by decide⟩
  · intro u t
    have hp : paddingMatrix [(⟨[7], 1⟩ : Mat Nat), ⟨[8, 9], 1⟩] = some [[8, 7], [9, 7]] := by
      unfold paddingMatrix
      rw [show [(⟨[7], 1⟩ : Mat Nat), ⟨[8, 9], 1⟩].mergeSort
        (fun a b => decide (b.height ≤ a.height)) = [⟨[8, 9], 1⟩, ⟨[7], 1⟩] by
          simp [List.mergeSort, List.MergeSort.Internal.splitInTwo, Mat.height]]
      rfl
    have hrow1 : (⟨[7], 1⟩ : Mat Nat).row 0 = some [7] := by decide
    have hrow2 : (⟨[8, 9], 1⟩ : Mat Nat).row 0 = some [8] := by decide
    have hopen : openAt (⟨[⟨[7], 1⟩, ⟨[8, 9], 1⟩], t, u⟩ : Committed Nat Nat) 0 =
        (Committed.queryProof (⟨[⟨[7], 1⟩, ⟨[8, 9], 1⟩], t, u⟩ : Committed Nat Nat) 0).bind
          fun p => some (p, [8, 7]) := by
      unfold openAt
      simp only [Option.bind_eq_bind, hp, Option.bind_some]
      rfl
    unfold openBatch openWithOneQuery
    simp only [List.getElem?_cons_zero, Option.bind_eq_bind, Option.bind_some,
      List.mapM_cons, List.mapM_nil, Nat.zero_shiftRight, hrow1, hrow2, List.length_singleton,
      if_true, Option.pure_def, hopen]
    cases Committed.queryProof (⟨[⟨[7], 1⟩, ⟨[8, 9], 1⟩], t, u⟩ : Committed Nat Nat) 0 with
    | none => rfl
    | some p => rfl

/-- **C24 excludes single-leaf commitments**: their openings make the verifier panic. -/
theorem C24_single_leaf_panics (cfg : Cfg) (th : TapHash (List Op) H) {fr : FieldRep F} (root : H)
    (s : List Op) (u : UseBcs) (i : Nat) (values : List F) :
    verify cfg th fr root ⟨⟨.script tapScript s, []⟩, u, i⟩ values = none := by
  unfold verify
  cases CommittedLeaf.witness ⟨u, i, values.map fr.words⟩ with
  | none => rfl
  | some w => rfl

/-! ### C25 and C26 -/

/-- **C25 fails.** The verifier has no way to tell which index an opening is for: for any commitment
and any two indices whose rows differ, the honest opening of one is accepted by the very call made
for the other, and shows values that are not those committed at the queried index.  (`verify_batch`
receives the query number, the opened values, the proof and the roots, but not the queried
index.) -/
theorem C25_not_bound_to_index {cfg : Cfg} (th : TapHash (List Op) H) {fr : FieldRep F}
    (fok : FieldOk fr) (mgr : Manager) (n : Nat) (mats : List (Mat F)) (L : Nat)
    (hh : Heights mats L) (h1 : 1 ≤ L) (hL : L < 32) (isize esize : Nat)
    (ok : ∀ w, BcsOk cfg fr.u32Size isize esize (assigned fr mgr n w))
    (queried other : Nat) (ho : other < 2 ^ L) (hne : leafRow mats L queried ≠ leafRow mats L other) :
    ∃ d n', commitPolys th fr mgr n mats = some (d, n') ∧
      ∃ (proof : Proof H) (values : List F), verifyBatch cfg th fr 0 [values] proof [d.tree.root.hash] = some true ∧
        values ≠ leafRow mats L queried := by
  obtain ⟨d, n', hc, h⟩ := C24_open_verify (cfg := cfg) th fok mgr n mats L hh h1 hL isize esize ok
  obtain ⟨proof, -, -, hv⟩ := h other ho
  exact ⟨d, n', hc, proof, _, by simpa [verifyBatch] using hv, fun e => hne e.symm⟩

/-- **C25, the part that holds.**  If a proof carrying the commitment's own operators is accepted for
some values, then (unless the proof exhibits a hash collision with the tree) the index *in the
proof* is a leaf index and the values begin with the row committed there. -/
theorem C25_bound_to_proof_index_partial {cfg : Cfg} (th : TapHash (List Op) H) {fr : FieldRep F}
    (fok : FieldOk fr) (mgr : Manager) (n n' : Nat) (mats : List (Mat F)) (L : Nat)
    (hh : Heights mats L) (hL : L < 32) (isize esize : Nat)
    (ok : ∀ w, BcsOk cfg fr.u32Size isize esize (assigned fr mgr n w)) (d : Committed F H)
    (hc : commitPolys th fr mgr n mats = some (d, n')) (proof : Proof H) (values : List F)
    (hu : proof.useBcs = d.useBcs) (hq : proof.queryIndex < 2 ^ 31)
    (hv : verify cfg th fr d.tree.root.hash proof values = some true) :
    (proof.queryIndex < 2 ^ L ∧ leafRow mats L proof.queryIndex <+: values) ∨
      ∃ ver s, proof.leaf.kind = .script ver s ∧
        ∃ q ∈ leafQueries th ver s proof.leaf.branch, ∃ q' ∈ treeQueries th d.tree,
          q ≠ q' ∧ q.eval th = q'.eval th := by
  obtain ⟨d', scripts, hc', hm, hdu, hs, hob, hsc⟩ := commit_spec th fok mgr n hh hL
  rw [hc] at hc'
  injection hc' with hc'
  injection hc' with hc' _
  subst hc'
  have hok : BcsOk cfg fr.u32Size isize esize d.useBcs := by rw [hdu]; exact ok _
  unfold verify at hv
  simp only [Option.bind_eq_bind, Option.bind_eq_some_iff] at hv
  obtain ⟨w, hw, hv⟩ := hv
  unfold verifyProof at hv
  simp only [Option.bind_eq_bind, Option.bind_eq_some_iff, Option.some.injEq,
    Bool.and_eq_true] at hv
  obtain ⟨inc, hinc, s, hscr, rfl, hacc⟩ := hv
  cases hk : proof.leaf.kind with
  | hidden h => unfold Leaf.script? at hscr; rw [hk] at hscr; cases hscr
  | script ver s' =>
    unfold Leaf.script? at hscr; rw [hk] at hscr
    obtain rfl := Option.some.inj hscr
    have hleaf : proof.leaf = ⟨.script ver s', proof.leaf.branch⟩ := by
      cases hpl : proof.leaf with
      | mk k b => rw [hpl] at hk; simp only at hk; rw [hk]
    have hne : proof.leaf.branch ≠ [] := by
      intro e
      rw [hleaf, e] at hinc
      simp [verifyInclusion, pathRoot] at hinc
    have ha := hob.addresses
    rw [hleaf] at hinc
    unfold verifyInclusion at hinc
    simp only at hinc
    rw [pathRoot_eq th _ hne] at hinc
    have hr : climb th (th.leafHash ver s') proof.leaf.branch = d.tree.root.hash := by
      simpa [Leaf.nodeHash] using hinc
    rcases binding ha.built ver s' proof.leaf.branch hr with ⟨l, hl, hlk⟩ | hcol
    · left
      -- find the index of the leaf
      obtain ⟨j, hj, hlj⟩ := List.getElem_of_mem hl
      rw [ha.leaves] at hj
      have hmem : j ∈ d.tree.leafIndices := (ha.perm.mem_iff).2 (by simpa using hj)
      obtain ⟨i, hi, e⟩ := List.getElem_of_mem hmem
      have hi' : i < scripts.length := by
        have : d.tree.leafIndices.length = scripts.length := by simpa using ha.perm.length_eq
        omega
      obtain ⟨j', e1, e2⟩ := ha.at_index i hi'
      rw [List.getElem?_eq_getElem hi, e] at e1
      cases e1
      rw [List.getElem?_eq_getElem (by rw [ha.leaves]; exact hj), hlj] at e2
      simp only [Option.map_some, hlk, Option.some.injEq, LeafKind.script.injEq] at e2
      obtain ⟨-, rfl⟩ := e2
      have hi2 : i < 2 ^ L := by omega
      have hlen : d.useBcs.evals.length = (leafRow mats L i).length := by
        rw [hdu, leafRow_length_eq hi2]; simp [assigned]
      obtain ⟨wi, ws, g1, g2, g3, g4, g5⟩ := (accepts_script
        (l := ⟨d.useBcs, i, (leafRow mats L i).map fr.words⟩) hok (by simp [hlen])
        (words_lengths fok _) (hsc i hi') _).1 hacc
      rw [hu] at hw
      have hvl : d.useBcs.evals.length ≤ values.length := by
        by_contra hcon
        rw [witness_short (l := ⟨d.useBcs, proof.queryIndex, values.map fr.words⟩)
          (by simp; omega)] at hw
        cases hw
      obtain ⟨w', hw', hrev⟩ := witness_of
        (l := ⟨d.useBcs, proof.queryIndex, values.map fr.words⟩) (by simpa using hvl)
      rw [hw] at hw'
      obtain rfl := Option.some.inj hw'
      have hmod : proof.queryIndex % 2 ^ 32 = proof.queryIndex := Nat.mod_eq_of_lt (by omega)
      simp only [hmod] at hrev
      obtain ⟨f1, f2⟩ := hok.index.honest [proof.queryIndex] rfl (by simpa using hq)
      obtain ⟨p1, p2⟩ := honest_pieces (cfg := cfg) (words := fr.u32Size) (esize := esize)
        (d.useBcs.evals.zip (values.map fr.words)) (by
          intro q hq
          obtain ⟨h1, h2⟩ := List.of_mem_zip hq
          obtain ⟨x, -, hx⟩ := List.mem_map.1 h2
          exact ⟨hok.evals _ h1, by rw [← hx]; exact fok.length x,
            by rw [← hx]; exact fok.bound x⟩)
      rw [hrev] at g1
      obtain ⟨k1, k2⟩ := List.append_inj g1 (by rw [List.length_reverse, f1, g2])
      have hii : proof.queryIndex = i := by
        rw [← k1] at g4
        have := opens_unique f2 g4
        simpa using this
      unfold Pieces at g5
      have hws := flatten_inj _ _ p2 g3 (by
        have := g5.length_eq
        simp only [List.length_zip, List.length_map] at this ⊢
        omega) k2
      refine ⟨by omega, ?_⟩
      rw [hii]
      -- pointwise equality of the words
      rw [← hws] at g5
      have hpt : ∀ t (ht : t < (leafRow mats L i).length), values[t]? = some (leafRow mats L i)[t] := by
        intro t ht
        have hte : t < d.useBcs.evals.length := by omega
        have htv : t < values.length := by omega
        have a1 := (List.forall₂_iff_get.1 g5).2 t (by simp; omega) (by simp; omega)
        have a2 := (List.forall₂_iff_get.1 p1).2 t (by simp; omega) (by simp; omega)
        simp only [List.get_eq_getElem, List.getElem_map, List.getElem_zip] at a1 a2
        have := opens_unique a2 a1
        have hw : fr.words values[t] = fr.words (leafRow mats L i)[t] := by
          exact (List.map_inj_right fun x y hxy => by exact_mod_cast hxy).1 this
        rw [List.getElem?_eq_getElem htv, fok.inj _ _ hw]
      rw [List.prefix_iff_eq_take]
      apply List.ext_getElem?
      intro t
      by_cases ht : t < (leafRow mats L i).length
      · rw [List.getElem?_take_of_lt ht, hpt t ht, List.getElem?_eq_getElem ht]
      · rw [List.getElem?_eq_none (by omega), List.getElem?_eq_none (by simp; omega)]
    · right
      exact ⟨ver, s', rfl, hcol⟩

/-- **C26 fails.** Surplus opened values are accepted: after the honest row any further values may
follow. -/
theorem C26_surplus_accepted {cfg : Cfg} (th : TapHash (List Op) H) {fr : FieldRep F}
    (fok : FieldOk fr) (mgr : Manager) (n : Nat) (mats : List (Mat F)) (L : Nat)
    (hh : Heights mats L) (h1 : 1 ≤ L) (hL : L < 32) (isize esize : Nat)
    (ok : ∀ w, BcsOk cfg fr.u32Size isize esize (assigned fr mgr n w)) (i : Nat) (hi : i < 2 ^ L)
    (extra : List F) :
    ∃ d n' proof, commitPolys th fr mgr n mats = some (d, n') ∧
      openAt d i = some (proof, leafRow mats L i) ∧
      verify cfg th fr d.tree.root.hash proof (leafRow mats L i ++ extra) = some true := by
  obtain ⟨d, scripts, hc, hm, hu, hs, hob, hsc⟩ := commit_spec th fok mgr n hh hL
  have h2 : 2 ≤ scripts.length := by
    rw [hs]; calc 2 = 2 ^ 1 := rfl
      _ ≤ 2 ^ L := Nat.pow_le_pow_right (by omega) h1
  have hi' : i < scripts.length := by omega
  obtain ⟨leaf, e1, e2, e3⟩ := getTapleaf_of_obtained hob h2 hi'
  refine ⟨d, _, ⟨leaf, d.useBcs, i⟩, hc, ?_, ?_⟩
  · simp [openAt, hm, paddingMatrix_eq hh, Committed.queryProof, e1, rows_get _ _ hi]
  · have hlen : d.useBcs.evals.length = (leafRow mats L i).length := by
      rw [hu, leafRow_length_eq hi]; simp [assigned]
    have hi31 : i < 2 ^ 31 := lt_of_lt_of_le hi (Nat.pow_le_pow_right (by omega) (by omega))
    obtain ⟨w, w1, w2⟩ := honest_accepts fok (u := d.useBcs) (by rw [hu]; exact ok _) hi31 hlen
      (List.prefix_append _ extra) (hsc i hi')
    simp only [List.map_append] at w1
    simp [verify, w1, verifyProof, e2, e3, w2]

/-- **C26 fails.** Missing opened values are not rejected with `false`: the verifier panics. -/
theorem C26_missing_panics (cfg : Cfg) (th : TapHash (List Op) H) (fr : FieldRep F) (root : H)
    (p : Proof H) (values : List F) (h : values.length < p.useBcs.evals.length) :
    verify cfg th fr root p values = none := by
  unfold verify
  rw [witness_short (l := ⟨p.useBcs, p.queryIndex, values.map fr.words⟩) (by simpa using h)]; rfl

/-- **C26 fails.** A multi-query verification with zero queries accepts anything. -/
theorem C26_zero_queries_accept (cfg : Cfg) (th : TapHash (List Op) H) (fr : FieldRep F)
    (roots : List H) (ps : List (Proof H)) (values : List (List F)) :
    verifyWithQueryTimes cfg th fr roots ps values 0 = some true := rfl

/-- **C26, the part that holds.**  An accepted multi-query verification means every query was
accepted on its own. -/
theorem C26_every_query_partial (cfg : Cfg) (th : TapHash (List Op) H) (fr : FieldRep F)
    (roots : List H) (ps : List (Proof H)) (values : List (List F)) (q : Nat)
    (h : verifyWithQueryTimes cfg th fr roots ps values q = some true) (k : Nat) (hk : k < q) :
    ∃ r p v, roots[k]? = some r ∧ ps[k]? = some p ∧ values[k]? = some v ∧
      verify cfg th fr r p v = some true := by
  unfold verifyWithQueryTimes at h
  induction q with
  | zero => omega
  | succ q ih =>
    rw [List.range_succ, List.foldlM_append] at h
    simp only [Option.bind_eq_bind, Option.bind_eq_some_iff, List.foldlM_cons, List.foldlM_nil,
      Option.pure_def] at h
    obtain ⟨b, hb, c, hc, hct⟩ := h
    cases b with
    | false =>
      simp only [Bool.not_false, if_true, Option.some.injEq] at hc hct
      rw [← hc] at hct; cases hct
    | true =>
      by_cases hkq : k < q
      · exact ih hb hkq
      · obtain rfl : k = q := by omega
        simp only [Bool.not_true, Bool.false_eq_true, if_false, Option.bind_eq_some_iff] at hc
        obtain ⟨r, hr, p, hp, v, hv, hver⟩ := hc
        injection hct with hct
        subst hct
        exact ⟨r, p, v, hr, hp, hv, hver⟩

end TapStark.Tcs
