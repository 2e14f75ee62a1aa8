import Verif.Proofs.PcsTotal
import Verif.Props.Fri

/-!
Properties C42, C72 to C74: the polynomial commitment scheme on top of FRI.
-/

set_option linter.unusedSectionVars false

namespace TapStark.Pcs

open Polynomial TapStark.Fri

variable {K F : Type} [Field K] [Field F] [DecidableEq K] [DecidableEq F] [Algebra K F]
variable {SI CI DI PI S C D P Ch W : Type}

/-! ### C42 -/

/-- What the reduced openings of the prover say about query index `idx` below `2^G`: for every height
with an entry, tallest first, the value at the index scaled to the height. -/
def expectedRos (G idx : Nat) (ro : Nat → Option (List F)) : List (Nat × F) :=
  (List.range (G + 1)).reverse.filterMap fun h =>
    (ro h).map fun l => (h, l.getD (idx / 2 ^ (G - h)) 0)

theorem invOk_of {genV : Nat → K} {N : Nat} (hg : TwoAdic genV N) {g : K} {b G : Nat} (hGN : G ≤ N)
    {rounds : List (Round K F CI DI)} {inv : List (F × List F)}
    (hh : ∀ r ∈ rounds, ∀ e ∈ r.entries, e.1.length = 2 ^ entryHeight b e ∧ entryHeight b e ≤ G)
    (h : inverseDenominators genV (rounds.map Round.mats) g = some inv) :
    ∀ r ∈ rounds, ∀ e ∈ r.entries, InvOk genV g inv (entryHeight b e) e.2.2 := by
  intro r hr e he z hz
  refine inverseDenominators_spec hg ?_ h r.mats (List.mem_map.2 ⟨r, hr, rfl⟩) (e.1, e.2.2) ?_
    (entryHeight b e) (hh r hr e he).1 z hz
  · intro r' hr' x hx
    obtain ⟨r, hr, rfl⟩ := List.mem_map.1 hr'
    simp only [Round.mats, List.zip_map'] at hx
    obtain ⟨e, he, rfl⟩ := List.mem_map.1 hx
    rw [(hh r hr e he).1]
    exact Nat.pow_le_pow_right (by omega) ((hh r hr e he).2.trans hGN)
  · simp only [Round.mats, List.zip_map']
    exact List.mem_map.2 ⟨e, he, rfl⟩

theorem verifyInput_spec {X : Ext K F} (hX : X.Width) {genV : Nat → K} {N : Nat} (hg : TwoAdic genV N)
    {g : K} {cfg : Config} {MI : InMmcs K SI CI DI PI} {Q G : Nat} (hGN : G ≤ N) {alpha : F}
    {rounds : List (Round K F CI DI)}
    (hr : ∀ r ∈ rounds, r.Ok MI Q cfg.logBlowup ∧ ∀ e ∈ r.entries, entryHeight cfg.logBlowup e ≤ G)
    {st : ReduceState F} {values : List (List (List (List F)))}
    (hp : reduceOpenings X genV g cfg alpha (rounds.map Round.mats) = some (st, values))
    {q idx : Nat} (hq : q < Q) (hidx : idx < 2 ^ G) :
    ∃ ip, openInput MI G (rounds.map fun r => r.data) q idx = some ip ∧
      ip.length = rounds.length ∧ values.length = rounds.length ∧
      verifyInput MI genV g cfg alpha (List.zipWith (fun r v => r.verifier v) rounds values) G q idx ip =
        .ok (expectedRos G idx st.ro) := by
  unfold reduceOpenings at hp
  simp only [Option.bind_eq_bind, Option.bind_eq_some_iff] at hp
  obtain ⟨inv, hinv, hp⟩ := hp
  have hI := invOk_of (b := cfg.logBlowup) hg hGN (fun r h e he => ⟨(hr r h).1.height e he, (hr r h).2 e he⟩) hinv
  obtain ⟨ip, vs, h1, h2, h3, h4, h5⟩ := roundLoop_spec hX hq hidx rounds _ st values (fun _ => none)
    (fun r h => ⟨(hr r h).1, fun e he => ⟨(hr r h).2 e he, hI r h e he⟩⟩)
    (by intro h; exact ⟨rfl, rfl⟩) hp
  refine ⟨ip, h1, h2, h3, ?_⟩
  unfold verifyInput
  rw [h5]
  simp only [Res.bind_ok]
  unfold expectedRos
  congr 1
  apply List.filterMap_congr
  intro h _
  have := h4 h
  unfold RelAt at this
  match hs : st.ro h, this with
  | none, this => rw [this.1]; rfl
  | some l, this => rw [this.2.2]; rfl

/-- **C42** For every list of batches, every challenge `alpha`, every query number and index: if the
prover's reduction succeeds, then its input opening succeeds, and the verifier, given this opening and
the values the prover returned, computes at every height exactly the entry of the prover's FRI input at
the queried position, in the order of the prover's FRI inputs.  The interpolation may return any values,
one per column. -/
theorem C42_same_reduced_openings {X : Ext K F} (hX : X.Width) {genV : Nat → K} {N : Nat}
    (hg : TwoAdic genV N) {g : K} {cfg : Config} {MI : InMmcs K SI CI DI PI} {Q G : Nat} (hGN : G ≤ N)
    {alpha : F} {rounds : List (Round K F CI DI)}
    (hr : ∀ r ∈ rounds, r.Ok MI Q cfg.logBlowup ∧ ∀ e ∈ r.entries, entryHeight cfg.logBlowup e ≤ G)
    {st : ReduceState F} {values : List (List (List (List F)))}
    (hp : reduceOpenings X genV g cfg alpha (rounds.map Round.mats) = some (st, values))
    {q idx : Nat} (hq : q < Q) (hidx : idx < 2 ^ G) :
    ∃ ip, openInput MI G (rounds.map fun r => r.data) q idx = some ip ∧
      verifyInput MI genV g cfg alpha (List.zipWith (fun r v => r.verifier v) rounds values) G q idx ip =
        .ok (expectedRos G idx st.ro) := by
  obtain ⟨ip, h1, -, -, h2⟩ := verifyInput_spec hX hg hGN hr hp hq hidx
  exact ⟨ip, h1, h2⟩

/-! ### C72 -/

theorem twoAdic_map {genV : Nat → K} {N : Nat} (hg : TwoAdic genV N) :
    TwoAdic (fun b => algebraMap K F (genV b)) N where
  two_ne := by
    rw [← map_ofNat (algebraMap K F) 2, Ne, map_eq_zero]
    exact hg.two_ne
  zero := by simp [hg.zero]
  one := by simp [hg.one]
  sq := by
    intro b hb
    rw [← map_pow, hg.sq b hb]

/-- The FRI input of an honest prover as polynomials: tallest first, low degree. -/
theorem friInput_polys {genV : Nat → K} {b G : Nat} {st : ReduceState F} (hlow : LowDeg genV b G st)
    (hG : st.ro G ≠ none) (hG32 : G < 32) :
    ∃ (p0 : F[X]) (polys : List (Nat × F[X])),
      friInput st = evalVec (fun k => algebraMap K F (genV k)) G p0 ::
        polys.map (fun x => evalVec (fun k => algebraMap K F (genV k)) x.1 x.2) ∧
      b ≤ G ∧ p0.natDegree < 2 ^ (G - b) ∧ (G = b → p0 = 0) ∧ Inputs b G polys ∧
      ∀ idx, idx < 2 ^ G → expectedRos G idx st.ro =
        rosOf (fun k => algebraMap K F (genV k)) G idx ((G, p0) :: polys) := by
  classical
  have hch : ∀ h, ∃ P : F[X], ∀ l, st.ro h = some l → b ≤ h ∧ h ≤ G ∧
      l = evalVec (fun k => algebraMap K F (genV k)) h P ∧ P.natDegree < 2 ^ (h - b) ∧ (h = b → P = 0) := by
    intro h
    cases hs : st.ro h with
    | none => exact ⟨0, by simp⟩
    | some l =>
      obtain ⟨h1, h2, P, h3, h4⟩ := hlow h l hs
      exact ⟨P, fun l' hl => by obtain rfl := Option.some.inj hl; exact ⟨h1, h2, h3, h4⟩⟩
  choose Pl hPl using hch
  have hro : ∀ h, st.ro h = if (st.ro h).isSome then
      some (evalVec (fun k => algebraMap K F (genV k)) h (Pl h)) else none := by
    intro h
    cases hs : st.ro h with
    | none => rfl
    | some l => simp only [Option.isSome_some, if_true, (hPl h l hs).2.2.1.symm]
  obtain ⟨lG, hlG⟩ := Option.ne_none_iff_exists'.1 hG
  set polys : List (Nat × F[X]) := (List.range G).reverse.filterMap fun h =>
    if (st.ro h).isSome then some (h, Pl h) else none with hpolys
  have hhigh : ∀ m, (downList (G + 1) m).filterMap st.ro = [] := by
    intro m
    rw [List.filterMap_eq_nil_iff]
    intro h hh
    have hge : G + 1 ≤ h := by
      induction m with
      | zero => simp [downList] at hh
      | succ m ih =>
        simp only [downList, List.mem_cons] at hh
        rcases hh with rfl | hh
        · omega
        · exact ih hh
    cases hs : st.ro h with
    | none => rfl
    | some l => have := (hlow h l hs).2.1; omega
  have hsucc : (List.range (G + 1)).reverse = G :: (List.range G).reverse := by
    rw [List.range_succ, List.reverse_append]; rfl
  refine ⟨Pl G, polys, ?_, (hPl G lG hlG).1, (hPl G lG hlG).2.2.2.1, (hPl G lG hlG).2.2.2.2, ⟨?_, ?_⟩, ?_⟩
  · unfold friInput
    obtain ⟨m, hm⟩ : ∃ m, 32 = G + 1 + m := ⟨32 - (G + 1), by omega⟩
    rw [hm, range_reverse_down, List.filterMap_append, hhigh, List.nil_append, hsucc,
      List.filterMap_cons, hlG]
    simp only
    rw [← (hPl G lG hlG).2.2.1, hpolys, List.map_filterMap]
    congr 1
    apply List.filterMap_congr
    intro h _
    rw [hro h]
    split <;> simp
  · rw [hpolys]
    refine List.Pairwise.filterMap _ (R := fun a b => b < a) ?_ ?_
    · intro x y hxy x' hx' y' hy'
      split at hx' <;> split at hy' <;> simp at hx' hy'
      rw [← hx', ← hy']
      exact hxy
    · rw [List.pairwise_reverse]; exact List.pairwise_lt_range
  · intro x hx
    rw [hpolys, List.mem_filterMap] at hx
    obtain ⟨h, hh, hx⟩ := hx
    split at hx
    case isFalse => cases hx
    case isTrue hs =>
      obtain rfl := Option.some.inj hx
      obtain ⟨l, hl⟩ := Option.isSome_iff_exists.1 hs
      obtain ⟨a1, a2, a3, a4⟩ := hPl h l hl
      refine ⟨a1, ?_, a4⟩
      simpa using hh
  · intro idx hidx
    have hval : ∀ h, h ≤ G → ((evalVec (fun k => algebraMap K F (genV k)) h (Pl h)).getD
        (idx / 2 ^ (G - h)) 0) = (Pl h).eval (algebraMap K F (genV h) ^ revBits h (idx / 2 ^ (G - h))) := by
      intro h hh
      have := shr_lt hh hidx
      simp [evalVec, List.getD_eq_getElem?_getD, List.getElem?_range this]
    unfold expectedRos rosOf
    rw [hsucc, List.filterMap_cons, hlG]
    simp only [Option.map_some, List.map_cons]
    rw [(hPl G lG hlG).2.2.1, hval G le_rfl, hpolys, List.map_filterMap]
    congr 1
    apply List.filterMap_congr
    intro h hh
    have hh' : h < G := by simpa using hh
    rw [hro h]
    split
    case isTrue hs =>
      have hv := hval h hh'.le
      rw [List.getD_eq_getElem?_getD] at hv
      simp [hv]
    case isFalse hs => simp

/-- A list of batches committed honestly: every matrix is the evaluation of low-degree columns on the
shifted larger subgroup and can be opened. -/
structure HonestRounds (genV : Nat → K) (g : K) (MI : InMmcs K SI CI DI PI) (cfg : Config) (N : Nat)
    (rounds : List (Round K F CI DI)) : Prop where
  nonempty : rounds ≠ []
  ok : ∀ r ∈ rounds, r.Ok MI cfg.numQueries cfg.logBlowup
  lde : ∀ r ∈ rounds, ∀ e ∈ r.entries, ∃ ps, IsLde genV g cfg.logBlowup e ps
  size : ∀ r ∈ rounds, ∀ e ∈ r.entries, entryHeight cfg.logBlowup e ≤ N

theorem global_height {genV : Nat → K} {g : K} {MI : InMmcs K SI CI DI PI} {cfg : Config} {N : Nat}
    {rounds : List (Round K F CI DI)} (hr : HonestRounds genV g MI cfg N rounds) :
    ∃ G, (((rounds.map Round.mats).flatMap Prod.fst).map List.length).max? = some (2 ^ G) ∧ G ≤ N ∧
      (∀ r ∈ rounds, ∀ e ∈ r.entries, entryHeight cfg.logBlowup e ≤ G) ∧
      ∃ r ∈ rounds, ∃ e ∈ r.entries, entryHeight cfg.logBlowup e = G := by
  have hne : rounds.flatMap (fun r => r.entries.map (entryHeight cfg.logBlowup)) ≠ [] := by
    obtain ⟨r, hrm⟩ := List.exists_mem_of_ne_nil _ hr.nonempty
    obtain ⟨e, he⟩ := List.exists_mem_of_ne_nil _ (hr.ok r hrm).nonempty
    intro h
    have : entryHeight cfg.logBlowup e ∈ rounds.flatMap
        (fun r => r.entries.map (entryHeight cfg.logBlowup)) :=
      List.mem_flatMap.2 ⟨r, hrm, List.mem_map.2 ⟨e, he, rfl⟩⟩
    rw [h] at this
    cases this
  obtain ⟨G, t1, t2, t3⟩ := maxHeight_pow hne
  obtain ⟨r, hrm, hG⟩ := List.mem_flatMap.1 t2
  obtain ⟨e, he, hGe⟩ := List.mem_map.1 hG
  refine ⟨G, ?_, hGe ▸ (hr.size r hrm e he), ?_, r, hrm, e, he, hGe⟩
  · rw [← t1, List.map_flatMap, List.flatMap_map, List.map_flatMap]
    congr 1
    apply List.flatMap_congr
    intro r hrm
    simp only [Round.mats, List.map_map]
    apply List.map_congr_left
    intro e he
    exact (hr.ok r hrm).height e he
  · intro r hrm e he
    exact t3 _ (List.mem_flatMap.2 ⟨r, hrm, List.mem_map.2 ⟨e, he, rfl⟩⟩)

theorem mapM_mats {MI : InMmcs K SI CI DI PI} {Q b : Nat} : ∀ (rounds : List (Round K F CI DI)),
    (∀ r ∈ rounds, r.Ok MI Q b) →
    ((rounds.map Round.prover).mapM fun (data, points) => do
      let mats ← MI.getMatrices data
      some (mats, points)) = some (rounds.map Round.mats)
  | [], _ => rfl
  | r :: rounds, h => by
    rw [List.map_cons, List.mapM_cons, mapM_mats rounds fun x hx => h x (List.mem_cons_of_mem _ hx)]
    simp only [Round.prover, (h r List.mem_cons_self).opens.1, Option.bind_eq_bind, Option.bind_some]
    rfl

theorem honest_opening_core {X : Ext K F} (hX : X.Width) {genV : Nat → K} {N : Nat}
    (hXc : X.Correct genV N) (hg : TwoAdic genV N) {g : K} (hg0 : g ≠ 0)
    {cfg : Config} {MI : InMmcs K SI CI DI PI}
    {M : Mmcs F S C D P} {Kc : Chall Ch C F W} (hM : M.Honest cfg.numQueries N) (hb : 1 ≤ cfg.logBlowup)
    (hbits : ∀ ch n i ch', Kc.sampleBits ch n = some (i, ch') → i < 2 ^ n)
    {rounds : List (Round K F CI DI)} (hr : HonestRounds genV g MI cfg N rounds)
    {s s' : S} {ch ch' : Ch} {w : W} {values : List (List (List (List F)))}
    {proof : FriProof F C P W (List (List (List K) × PI))}
    (hp : Pcs.open X genV g MI M Kc cfg (rounds.map Round.prover) s ch w = some (values, proof, s', ch')) :
    List.Forall₂ (fun r v => List.Forall₂ (fun e yss => ∀ ps, IsLde genV g cfg.logBlowup e ps →
      yss = e.2.2.map fun z => ps.map fun p => aeval z p) r.entries v) rounds values ∧
    verify genV g MI M Kc cfg (List.zipWith (fun r v => r.verifier v) rounds values) proof ch = .ok ch' ∧
    (∃ r ∈ rounds, ∃ e ∈ r.entries,
      entryHeight cfg.logBlowup e = proof.commitPhaseCommits.length + cfg.logBlowup) ∧
    (∀ r ∈ rounds, ∀ e ∈ r.entries,
      entryHeight cfg.logBlowup e ≤ proof.commitPhaseCommits.length + cfg.logBlowup) := by
  obtain ⟨G, hmax, hGN, hle, rG, hrG, eG, heG, hG⟩ := global_height hr
  unfold Pcs.open at hp
  rw [mapM_mats rounds hr.ok] at hp
  simp only [Option.bind_eq_bind, Option.bind_some, hmax, log2Strict_pow, Option.bind_eq_some_iff] at hp
  obtain ⟨⟨alpha, ch1⟩, hs, ⟨st, vals⟩, hred, ⟨pf, s1, ch2⟩, hfri, hp⟩ := hp
  simp only [Option.some.injEq, Prod.mk.injEq] at hp
  obtain ⟨rfl, rfl, rfl, rfl⟩ := hp
  have hred' := hred
  unfold reduceOpenings at hred'
  simp only [Option.bind_eq_bind, Option.bind_eq_some_iff] at hred'
  obtain ⟨inv, hinv, hrounds⟩ := hred'
  have hI := invOk_of (b := cfg.logBlowup) hg hGN
    (fun r h e he => ⟨(hr.ok r h).height e he, hle r h e he⟩) hinv
  obtain ⟨c1, -, c3, c4⟩ := openRounds_poly hXc hg hg0 hGN rounds _ st vals
    (fun r h e he => ⟨hr.lde r h e he, hle r h e he, hI r h e he⟩)
    (by intro h l hl; cases hl) hrounds
  have hG' := c3 rG hrG eG heG
  rw [hG] at hG'
  obtain ⟨p0, polys, f1, f2, f3, fz, f4, f5⟩ := friInput_polys c1 hG'.1 hG'.2
  rw [f1] at hfri
  have hdata : (rounds.map Round.prover).map Prod.fst = rounds.map fun r => r.data := by
    rw [List.map_map]; rfl
  rw [hdata] at hfri
  have hin : HonestInputs cfg N G p0 polys := ⟨f2, hGN, f3, fz, f4⟩
  obtain ⟨challenges, v1, v2⟩ := C37_honest_accepted (twoAdic_map hg) hM hb hbits hin
    (openInputV := verifyInput MI genV g cfg alpha
      (List.zipWith (fun r v => r.verifier v) rounds vals) G) (by
      intro q idx ip hq hidx hip
      obtain ⟨ip', i1, i2⟩ := C42_same_reduced_openings hX hg hGN
        (fun r h => ⟨hr.ok r h, hle r h⟩) hred hq hidx
      rw [hip] at i1
      obtain rfl := Option.some.inj i1
      rw [i2, f5 idx hidx]) hfri
  have hlen : pf.commitPhaseCommits.length + cfg.logBlowup = G := by
    unfold bfProve at hfri
    split at hfri
    case isFalse => cases hfri
    case isTrue =>
      simp only [List.getElem?_cons_zero, evalVec_length, log2Strict_pow, Option.bind_eq_bind,
        Option.bind_some, Option.bind_eq_some_iff] at hfri
      obtain ⟨r, hr1, ⟨acc, ch3⟩, -, hfri⟩ := hfri
      split at hfri
      case isFalse => cases hfri
      case isTrue =>
        simp only [Option.bind_eq_some_iff, Option.some.injEq, Prod.mk.injEq] at hfri
        obtain ⟨x, -, rfl, -⟩ := hfri
        exact (honest_core (twoAdic_map hg) hM hb hin hr1).1
  refine ⟨c4, ?_, ⟨rG, hrG, eG, heG, hG.trans hlen.symm⟩, by rw [hlen]; exact hle⟩
  unfold verify
  simp only [hs, Res.ofOption_some, Res.bind_ok, v1, expect, hlen, v2]

/-- **C72** Opening and verification fit together.  If honestly committed batches are opened, then
the values returned are the values of the committed polynomials at the requested points, and the
verifier, starting from the same challenger state with these values, accepts and ends in the prover's
challenger state. -/
theorem C72_honest_opening_accepted {X : Ext K F} (hX : X.Width) {genV : Nat → K} {N : Nat}
    (hXc : X.Correct genV N) (hg : TwoAdic genV N) {g : K} (hg0 : g ≠ 0)
    {cfg : Config} {MI : InMmcs K SI CI DI PI}
    {M : Mmcs F S C D P} {Kc : Chall Ch C F W} (hM : M.Honest cfg.numQueries N) (hb : 1 ≤ cfg.logBlowup)
    (hbits : ∀ ch n i ch', Kc.sampleBits ch n = some (i, ch') → i < 2 ^ n)
    {rounds : List (Round K F CI DI)} (hr : HonestRounds genV g MI cfg N rounds)
    {s s' : S} {ch ch' : Ch} {w : W} {values : List (List (List (List F)))}
    {proof : FriProof F C P W (List (List (List K) × PI))}
    (hp : Pcs.open X genV g MI M Kc cfg (rounds.map Round.prover) s ch w = some (values, proof, s', ch')) :
    List.Forall₂ (fun r v => List.Forall₂ (fun e yss => ∀ ps, IsLde genV g cfg.logBlowup e ps →
      yss = e.2.2.map fun z => ps.map fun p => aeval z p) r.entries v) rounds values ∧
    verify genV g MI M Kc cfg (List.zipWith (fun r v => r.verifier v) rounds values) proof ch = .ok ch' := by
  obtain ⟨h1, h2, -⟩ := honest_opening_core hX hXc hg hg0 hM hb hbits hr hp
  exact ⟨h1, h2⟩

/-- **C72** An honest run step by step: the batching challenge is drawn, then the folding challenges from commitments
the scheme has made, one for each halving of the tallest matrix; every witness that passes the proof-of-work check in the
state reached leads to a proof with these commitments, this witness and the configured number of queries. -/
theorem C72_honest_run {X : Ext K F} (hX : X.Width) {genV : Nat → K} {N : Nat}
    (hXc : X.Correct genV N) (hg : TwoAdic genV N) (hN : N < 32) {g : K} (hg0 : g ≠ 0)
    {cfg : Config} {MI : InMmcs K SI CI DI PI}
    {M : Mmcs F S C D P} {Kc : Chall Ch C F W} (hM : M.Honest cfg.numQueries N) (hb : 1 ≤ cfg.logBlowup)
    (hbits : ∀ ch n i ch', Kc.sampleBits ch n = some (i, ch') → i < 2 ^ n)
    {Good : Ch → Prop} (hK : Kc.Total Good N)
    {rounds : List (Round K F CI DI)} (hr : HonestRounds genV g MI cfg N rounds)
    (hpts : ∃ r ∈ rounds, ∃ e ∈ r.entries, e.2.2 ≠ [])
    (hout : ∀ r ∈ rounds, ∀ e ∈ r.entries, ∀ z ∈ e.2.2, ∀ i,
      algebraMap K F (g * genV (entryHeight cfg.logBlowup e) ^ i) ≠ z)
    (s : S) (ch : Ch) (hch : Good ch) :
    ∃ batch ch1 commits betas chPow, Kc.sample ch = some (batch, ch1) ∧
      sampleBetas Kc commits ch1 = some (betas, chPow) ∧
      (∃ r ∈ rounds, ∃ e ∈ r.entries, entryHeight cfg.logBlowup e = commits.length + cfg.logBlowup) ∧
      (∀ c ∈ commits, ∃ s rows d s', M.commitMatrix s rows = some (c, d, s')) ∧
      (Good chPow ∧ ∀ w result, Pcs.open X genV g MI M Kc cfg (rounds.map Round.prover) s ch w = some result →
        ∃ ch', Kc.checkWitness chPow cfg.powBits w = some (true, ch')) ∧
      ∀ w ch', Kc.checkWitness chPow cfg.powBits w = some (true, ch') →
        ∃ values pf s' ch'', Pcs.open X genV g MI M Kc cfg (rounds.map Round.prover) s ch w =
            some (values, pf, s', ch'') ∧
          pf.commitPhaseCommits = commits ∧ pf.powWitness = w ∧ pf.queryProofs.length = cfg.numQueries := by
  obtain ⟨G, hmax, hGN, hle, rG, hrG, eG, heG, hG⟩ := global_height hr
  obtain ⟨alpha, ch1, hs, hch1⟩ := hK.sample ch hch
  obtain ⟨inv, hinv⟩ : ∃ inv, inverseDenominators genV (rounds.map Round.mats) g = some inv := by
    apply inverseDenominators_total (F := F) hg
    · intro r' hr' x hx
      obtain ⟨r, hrm, rfl⟩ := List.mem_map.1 hr'
      simp only [Round.mats, List.zip_map'] at hx
      obtain ⟨e, he, rfl⟩ := List.mem_map.1 hx
      exact ⟨_, (hr.ok r hrm).height e he, (hr.size r hrm e he), hout r hrm e he⟩
    · obtain ⟨r, hrm, e, he, hne⟩ := hpts
      refine ⟨r.mats, List.mem_map.2 ⟨r, hrm, rfl⟩, (e.1, e.2.2), ?_, hne⟩
      simp only [Round.mats, List.zip_map']
      exact List.mem_map.2 ⟨e, he, rfl⟩
  have hI := invOk_of (b := cfg.logBlowup) hg hGN
    (fun r h e he => ⟨(hr.ok r h).height e he, hle r h e he⟩) hinv
  have hall : ∀ r ∈ rounds, ∀ e ∈ r.entries, (∃ ps, IsLde genV g cfg.logBlowup e ps) ∧
      entryHeight cfg.logBlowup e ≤ G ∧
        InvOk genV g inv (entryHeight cfg.logBlowup e) e.2.2 :=
    fun r h e he => ⟨hr.lde r h e he, hle r h e he, hI r h e he⟩
  obtain ⟨⟨st, vals⟩, hrounds⟩ := openRounds_total (alpha := alpha) (cfg := cfg) hXc hg hg0 hGN
    (by omega) rounds ⟨fun _ => none, fun _ => 0⟩ hall (by intro h l hl; cases hl)
  have hred : reduceOpenings X genV g cfg alpha (rounds.map Round.mats) = some (st, vals) := by
    simp only [reduceOpenings, hinv, Option.bind_eq_bind, Option.bind_some, hrounds]
  obtain ⟨c1, -, c3, -⟩ := openRounds_poly hXc hg hg0 hGN rounds _ st vals hall
    (by intro h l hl; cases hl) hrounds
  have hG' := c3 rG hrG eG heG
  rw [hG] at hG'
  obtain ⟨p0, polys, f1, f2, f3, fz, f4, f5⟩ := friInput_polys c1 hG'.1 hG'.2
  have hin : HonestInputs cfg N G p0 polys := ⟨f2, hGN, f3, fz, f4⟩
  have hdata : (rounds.map Round.prover).map Prod.fst = rounds.map fun r => r.data := by
    rw [List.map_map]; rfl
  obtain ⟨r, h1, h2, h3⟩ := C37_honest_no_panic (twoAdic_map hg) hM hb hbits hK hin
    (openInputP := openInput MI G (rounds.map fun r => r.data)) (by
      intro q idx hq hidx
      obtain ⟨ip', i1, -⟩ := C42_same_reduced_openings hX hg hGN
        (fun r h => ⟨hr.ok r h, hle r h⟩) hred hq hidx
      exact ⟨ip', i1⟩) s ch1 hch1
  obtain ⟨b1, betas, b2, -, -⟩ := honest_core (twoAdic_map hg) hM hb hin h1
  refine ⟨alpha, ch1, r.commits, betas, r.chall, hs, b2, ⟨rG, hrG, eG, heG, hG.trans b1.symm⟩, ?_, ⟨h2, fun w result hw => ?_⟩,
    fun w ch' hw => ?_⟩
  · refine commitLoop_commits (Q := fun c => ∃ s rows d s', M.commitMatrix s rows = some (c, d, s'))
      (fun s rows c d s' h => ⟨s, rows, d, s', h⟩) _ _ _ _ _ r (by rw [commitPhase] at h1; exact h1)
  · unfold Pcs.open at hw
    rw [mapM_mats rounds hr.ok] at hw
    simp only [Option.bind_eq_bind, Option.bind_some, hs, hmax, log2Strict_pow, hred, f1, Option.bind_eq_some_iff] at hw
    obtain ⟨_, hw, -⟩ := hw
    unfold bfProve at hw
    split at hw
    case isFalse => cases hw
    case isTrue =>
      simp only [List.getElem?_cons_zero, evalVec_length, log2Strict_pow, Option.bind_eq_bind, Option.bind_some, h1,
        Option.bind_eq_some_iff] at hw
      obtain ⟨⟨acc, ch2⟩, hc, hw⟩ := hw
      split at hw
      case isFalse => cases hw
      case isTrue hacc =>
        obtain rfl : acc = true := hacc
        exact ⟨ch2, hc⟩
  obtain ⟨⟨pf, s', ch''⟩, hres⟩ := h3 w ch' hw
  refine ⟨vals, pf, s', ch'', ?_, bfProve_parts h1 hres⟩
  unfold Pcs.open
  rw [mapM_mats rounds hr.ok]
  simp only [Option.bind_eq_bind, Option.bind_some, hs, hmax, log2Strict_pow, hred, f1, hdata, hres]

/-- **C72** Opening does not panic: for honest batches, points outside the cosets of their matrices (at
least one point in all) and a challenger that does not panic, there is a challenger state such that
`open` succeeds with every witness which passes the proof-of-work check in that state. -/
theorem C72_honest_no_panic {X : Ext K F} (hX : X.Width) {genV : Nat → K} {N : Nat}
    (hXc : X.Correct genV N) (hg : TwoAdic genV N) (hN : N < 32) {g : K} (hg0 : g ≠ 0)
    {cfg : Config} {MI : InMmcs K SI CI DI PI}
    {M : Mmcs F S C D P} {Kc : Chall Ch C F W} (hM : M.Honest cfg.numQueries N) (hb : 1 ≤ cfg.logBlowup)
    (hbits : ∀ ch n i ch', Kc.sampleBits ch n = some (i, ch') → i < 2 ^ n)
    {Good : Ch → Prop} (hK : Kc.Total Good N)
    {rounds : List (Round K F CI DI)} (hr : HonestRounds genV g MI cfg N rounds)
    (hpts : ∃ r ∈ rounds, ∃ e ∈ r.entries, e.2.2 ≠ [])
    (hout : ∀ r ∈ rounds, ∀ e ∈ r.entries, ∀ z ∈ e.2.2, ∀ i,
      algebraMap K F (g * genV (entryHeight cfg.logBlowup e) ^ i) ≠ z)
    (s : S) (ch : Ch) (hch : Good ch) :
    ∃ chPow, Good chPow ∧ ∀ w ch', Kc.checkWitness chPow cfg.powBits w = some (true, ch') →
      ∃ result, Pcs.open X genV g MI M Kc cfg (rounds.map Round.prover) s ch w = some result := by
  obtain ⟨_, _, _, _, chPow, _, _, _, _, h1, h2⟩ := C72_honest_run hX hXc hg hN hg0 hM hb hbits hK hr hpts hout s ch hch
  refine ⟨chPow, h1.1, fun w ch' hw => ?_⟩
  obtain ⟨_, _, _, _, h3, -⟩ := h2 w ch' hw
  exact ⟨_, h3⟩

/-- **C72** What `commit` commits to: for evaluations of polynomials of degree below the size of their
domain, on a domain with any nonzero shift, the committed matrix holds their evaluations on the fixed
coset of the larger subgroup, in bit-reversed order. -/
theorem C72_commit {X : Ext K F} {genV : Nat → K} {N : Nat} (hXc : X.Correct genV N) {g : K} {cfg : Config}
    {MI : InMmcs K SI CI DI PI} (s : SI) (batch : List (Dom K × List K[X]))
    (hb : ∀ x ∈ batch, x.1.shift ≠ 0 ∧ x.1.logN ≤ N ∧ ∀ p ∈ x.2, p.natDegree < 2 ^ x.1.logN) :
    commit X MI g cfg s (batch.map fun x => (x.1, evalRows genV x.2 x.1.shift x.1.logN)) =
      MI.commit s (batch.map fun x => evalRowsRev genV x.2 g (x.1.logN + cfg.logBlowup)) := by
  unfold commit
  have hall : ((batch.map fun x => (x.1, evalRows genV x.2 x.1.shift x.1.logN)).mapM
      fun (domain, evals) => if domain.size = evals.length ∧ domain.shift ≠ 0 then
        bitReverseRows (X.cosetLde evals cfg.logBlowup (g / domain.shift)) else none) =
      some (batch.map fun x => evalRowsRev genV x.2 g (x.1.logN + cfg.logBlowup)) := by
    induction batch with
    | nil => rfl
    | cons x batch ih =>
      obtain ⟨hs, hN, hd⟩ := hb x List.mem_cons_self
      rw [List.map_cons, List.mapM_cons, ih fun y hy => hb y (List.mem_cons_of_mem _ hy)]
      simp only
      rw [if_pos ⟨by simp [Dom.size, evalRows], hs⟩]
      have h1 : evalRows genV x.2 x.1.shift x.1.logN =
          evalRows genV (x.2.map fun p => p.comp (Polynomial.C x.1.shift * Polynomial.X)) 1 x.1.logN := by
        unfold evalRows
        apply List.map_congr_left
        intro i _
        simp
      have h2 : bitReverseRows (X.cosetLde (evalRows genV x.2 x.1.shift x.1.logN) cfg.logBlowup
          (g / x.1.shift)) = some (evalRowsRev genV x.2 g (x.1.logN + cfg.logBlowup)) := by
        rw [h1, hXc.lde _ _ _ _ hN]
        · unfold bitReverseRows evalRowsRev evalRows
          simp only [List.length_map, List.length_range, log2Strict_pow, Option.bind_eq_bind,
            Option.bind_some, Option.some.injEq]
          apply List.map_congr_left
          intro i _
          rw [List.getD_eq_getElem?_getD, List.getElem?_map, List.getElem?_range (revBits_lt _ _)]
          simp only [Option.map_some, Option.getD_some, List.map_map]
          apply List.map_congr_left
          intro p _
          simp only [Function.comp, eval_comp, eval_mul, eval_C, eval_X]
          congr 1
          field_simp
        · intro p hp
          obtain ⟨p', hp', rfl⟩ := List.mem_map.1 hp
          refine lt_of_le_of_lt natDegree_comp_le ?_
          refine lt_of_le_of_lt (Nat.mul_le_mul_left _ (le_trans (natDegree_C_mul_le _ _) natDegree_X_le)) ?_
          rw [mul_one]
          exact hd p' hp'
      rw [h2]
      rfl
  rw [hall]
  rfl

/-! ### C73 -/

/-- Two lists of batches as the verifier sees them that differ at most in the values claimed for
matrices of height `2^top`. -/
def SameExceptTop (b top : Nat) (rounds rounds' : List (VerifierRound K F CI)) : Prop :=
  List.Forall₂ (fun r r' => r.1 = r'.1 ∧ List.Forall₂ (fun m m' =>
    m.1 = m'.1 ∧ m.2.map Prod.fst = m'.2.map Prod.fst ∧ (m.1.logN + b ≠ top → m.2 = m'.2)) r.2 r'.2)
    rounds rounds'

theorem pointLoop_some {alpha : F} {x : K} {row : List K} : ∀ (l l' : List (F × List F)) (a r a' r' : F),
    l.map Prod.fst = l'.map Prod.fst →
    (pointLoop alpha x row l a r = none ∧ pointLoop alpha x row l' a' r' = none) ∨
      ∃ y y', pointLoop alpha x row l a r = some y ∧ pointLoop alpha x row l' a' r' = some y'
  | [], [], a, r, a', r', _ => .inr ⟨_, _, rfl, rfl⟩
  | (z, ps) :: l, (z', ps') :: l', a, r, a', r', h => by
    simp only [List.map_cons, List.cons.injEq] at h
    obtain ⟨rfl, h⟩ := h
    simp only [pointLoop]
    by_cases hz : -z + algebraMap K F x = 0
    · simp [hz]
    · simp only [hz, if_false]
      exact pointLoop_some l l' _ _ _ _ h

/-- The states agree below the top and have the same entry at the top. -/
def SameState (top : Nat) (vs vs' : VerifyState F) : Prop :=
  ∀ h, (h ≠ top → vs h = vs' h) ∧ (vs h = none ↔ vs' h = none)

theorem matLoop_top {genV : Nat → K} {g : K} {cfg : Config} {alpha : F} {top idx : Nat} :
    ∀ (rows : List (List K)) (ms ms' : List (Dom K × List (F × List F))) (vs vs' : VerifyState F),
      SameState top vs vs' →
      List.Forall₂ (fun m m' => m.1 = m'.1 ∧ m.2.map Prod.fst = m'.2.map Prod.fst ∧
        (m.1.logN + cfg.logBlowup ≠ top → m.2 = m'.2)) ms ms' →
      (matLoop genV g cfg alpha top idx (rows.zip ms) vs = none ∧
        matLoop genV g cfg alpha top idx (rows.zip ms') vs' = none) ∨
      ∃ w w', matLoop genV g cfg alpha top idx (rows.zip ms) vs = some w ∧
        matLoop genV g cfg alpha top idx (rows.zip ms') vs' = some w' ∧ SameState top w w'
  | [], _, _, vs, vs', h, _ => .inr ⟨vs, vs', by simp [matLoop], by simp [matLoop], h⟩
  | _ :: _, [], [], vs, vs', h, _ => .inr ⟨vs, vs', by simp [matLoop], by simp [matLoop], h⟩
  | row :: rows, (d, l) :: ms, (d', l') :: ms', vs, vs', h, hm => by
    obtain ⟨⟨hd, hf, hl⟩, hms⟩ := List.forall₂_cons.1 hm
    simp only at hd hf hl
    subst hd
    rw [List.zip_cons_cons, List.zip_cons_cons, matLoop, matLoop]
    simp only [Dom.size, log2Strict_pow, Option.bind_eq_bind, Option.bind_some]
    split
    case isFalse => exact .inl ⟨rfl, rfl⟩
    case isTrue hle =>
      by_cases ht : d.logN + cfg.logBlowup = top
      · rcases pointLoop_some (alpha := alpha)
          (x := g * genV (d.logN + cfg.logBlowup) ^ revBits (d.logN + cfg.logBlowup)
            (idx >>> (top - (d.logN + cfg.logBlowup)))) (row := row) l l'
          ((vs (d.logN + cfg.logBlowup)).getD (1, 0)).1 ((vs (d.logN + cfg.logBlowup)).getD (1, 0)).2
          ((vs' (d.logN + cfg.logBlowup)).getD (1, 0)).1 ((vs' (d.logN + cfg.logBlowup)).getD (1, 0)).2 hf
          with ⟨h1, h2⟩ | ⟨y, y', h1, h2⟩
        · left
          rw [h1, h2]
          exact ⟨rfl, rfl⟩
        · rw [h1, h2]
          simp only [Option.bind_some]
          apply matLoop_top rows ms ms' _ _ _ hms
          intro h'
          by_cases hh : h' = d.logN + cfg.logBlowup
          · subst hh
            exact ⟨fun hne => absurd ht hne, by simp⟩
          · simpa only [Function.update_of_ne hh] using h h'
      · obtain rfl := hl ht
        rw [← (h _).1 ht]
        cases hpl : pointLoop alpha (g * genV (d.logN + cfg.logBlowup) ^ revBits (d.logN + cfg.logBlowup)
            (idx >>> (top - (d.logN + cfg.logBlowup)))) row l
            ((vs (d.logN + cfg.logBlowup)).getD (1, 0)).1 ((vs (d.logN + cfg.logBlowup)).getD (1, 0)).2 with
        | none => exact .inl ⟨rfl, rfl⟩
        | some y =>
          simp only [Option.bind_some]
          apply matLoop_top rows ms ms' _ _ _ hms
          intro h'
          by_cases hh : h' = d.logN + cfg.logBlowup
          · subst hh
            simp
          · simpa only [Function.update_of_ne hh] using h h'

theorem forall2_map_eq {α β : Type} {R : α → α → Prop} {f : α → β} (hf : ∀ a b, R a b → f a = f b) :
    ∀ {l l' : List α}, List.Forall₂ R l l' → l.map f = l'.map f
  | [], [], _ => rfl
  | a :: l, b :: l', h => by
    obtain ⟨h1, h2⟩ := List.forall₂_cons.1 h
    rw [List.map_cons, List.map_cons, hf a b h1, forall2_map_eq hf h2]

theorem roundLoop_top {MI : InMmcs K SI CI DI PI} {genV : Nat → K} {g : K} {cfg : Config} {alpha : F}
    {top q idx : Nat} :
    ∀ (ips : List (List (List K) × PI)) (rs rs' : List (VerifierRound K F CI)) (vs vs' : VerifyState F),
      SameState top vs vs' → SameExceptTop cfg.logBlowup top rs rs' →
      (roundLoop MI genV g cfg alpha top q idx (ips.zip rs) vs = .panic ∧
        roundLoop MI genV g cfg alpha top q idx (ips.zip rs') vs' = .panic) ∨
      (∃ e, roundLoop MI genV g cfg alpha top q idx (ips.zip rs) vs = .err e ∧
        roundLoop MI genV g cfg alpha top q idx (ips.zip rs') vs' = .err e) ∨
      ∃ w w', roundLoop MI genV g cfg alpha top q idx (ips.zip rs) vs = .ok w ∧
        roundLoop MI genV g cfg alpha top q idx (ips.zip rs') vs' = .ok w' ∧ SameState top w w'
  | [], _, _, vs, vs', h, _ => .inr (.inr ⟨vs, vs', by simp [roundLoop], by simp [roundLoop], h⟩)
  | _ :: _, [], [], vs, vs', h, _ => .inr (.inr ⟨vs, vs', by simp [roundLoop], by simp [roundLoop], h⟩)
  | ip :: ips, (c, ms) :: rs, (c', ms') :: rs', vs, vs', h, hr => by
    obtain ⟨⟨hc, hms⟩, hrs⟩ := List.forall₂_cons.1 hr
    simp only at hc hms
    subst hc
    rw [List.zip_cons_cons, List.zip_cons_cons, roundLoop, roundLoop]
    have hsz : (ms.map fun m => m.1.size <<< cfg.logBlowup) = ms'.map fun m => m.1.size <<< cfg.logBlowup :=
      forall2_map_eq (fun a b hab => by rw [hab.1]) hms
    rw [hsz]
    cases (ms'.map fun m => m.1.size <<< cfg.logBlowup).max? with
    | none => exact .inl ⟨rfl, rfl⟩
    | some mh =>
    simp only [Res.ofOption_some, Res.bind_ok]
    cases log2Strict mh with
    | none => exact .inl ⟨rfl, rfl⟩
    | some lm =>
    simp only [Res.ofOption_some, Res.bind_ok]
    split
    case isFalse => exact .inl ⟨rfl, rfl⟩
    case isTrue =>
    cases MI.verifyBatch q ip.1 ip.2 c with
    | none => exact .inl ⟨rfl, rfl⟩
    | some acc =>
    simp only [Res.ofOption_some, Res.bind_ok]
    cases acc with
    | false => exact .inr (.inl ⟨_, rfl, rfl⟩)
    | true =>
    simp only [if_true]
    rcases matLoop_top (genV := genV) (g := g) (alpha := alpha) (idx := idx) ip.1 ms ms' vs vs' h hms with
      ⟨h1, h2⟩ | ⟨w, w', h1, h2, h3⟩
    · rw [h1, h2]; exact .inl ⟨rfl, rfl⟩
    · rw [h1, h2]
      simp only [Res.ofOption_some, Res.bind_ok]
      exact roundLoop_top ips rs rs' w w' h3 hrs

/-- **C73 is violated**: the values claimed for the matrices of the largest height are never checked.  For
every proof, every commitment scheme and every challenger, the verdict is the same for any other claimed
values (even any other number of values) at these matrices. -/
theorem C73_violated_top_values_ignored {genV : Nat → K} {g : K} {MI : InMmcs K SI CI DI PI}
    {M : Mmcs F S C D P} {Kc : Chall Ch C F W} {cfg : Config}
    (rounds rounds' : List (VerifierRound K F CI))
    (proof : FriProof F C P W (List (List (List K) × PI))) (ch : Ch)
    (h : SameExceptTop cfg.logBlowup (proof.commitPhaseCommits.length + cfg.logBlowup) rounds rounds') :
    verify genV g MI M Kc cfg rounds proof ch = verify genV g MI M Kc cfg rounds' proof ch := by
  unfold verify
  congr 1
  funext ⟨alpha, ch1⟩
  simp only
  congr 1
  funext ⟨challenges, ch2⟩
  simp only
  rw [C38_violated_top_ignored proof challenges _ (verifyInput MI genV g cfg alpha rounds'
    (proof.commitPhaseCommits.length + cfg.logBlowup))]
  intro q idx ip
  set top := proof.commitPhaseCommits.length + cfg.logBlowup
  unfold verifyInput
  rcases roundLoop_top (MI := MI) (genV := genV) (g := g) (alpha := alpha) (q := q) (idx := idx) ip
    rounds rounds' (fun _ => none) (fun _ => none) (fun _ => ⟨fun _ => rfl, Iff.rfl⟩) h with
    ⟨h1, h2⟩ | ⟨e, h1, h2⟩ | ⟨w, w', h1, h2, h3⟩
  · rw [h1, h2]; exact .inl rfl
  · rw [h1, h2]; exact .inl rfl
  · rw [h1, h2]
    simp only [Res.bind_ok]
    have hrest : (List.range top).reverse.filterMap (fun h => (w h).map fun r => (h, r.2)) =
        (List.range top).reverse.filterMap (fun h => (w' h).map fun r => (h, r.2)) := by
      apply List.filterMap_congr
      intro x hx
      have : x < top := by simpa using hx
      rw [(h3 x).1 (by omega)]
    rw [List.range_succ, List.reverse_append, List.reverse_singleton, List.singleton_append,
      List.filterMap_cons, List.filterMap_cons, hrest]
    have ht := (h3 top).2
    cases hw : w top with
    | none =>
      rw [ht.1 hw]
      exact .inl rfl
    | some y =>
      cases hw' : w' top with
      | none => rw [ht.2 hw'] at hw; cases hw
      | some y' => exact .inr ⟨y.2, y'.2, _, rfl, rfl⟩

/-- **C73 is violated**, as an attack: an honest opening of batches of one common height is accepted for
any claimed values whatsoever. -/
theorem C73_violated_any_values_accepted {X : Ext K F} (hX : X.Width) {genV : Nat → K} {N : Nat}
    (hXc : X.Correct genV N) (hg : TwoAdic genV N) {g : K} (hg0 : g ≠ 0)
    {cfg : Config} {MI : InMmcs K SI CI DI PI}
    {M : Mmcs F S C D P} {Kc : Chall Ch C F W} (hM : M.Honest cfg.numQueries N) (hb : 1 ≤ cfg.logBlowup)
    (hbits : ∀ ch n i ch', Kc.sampleBits ch n = some (i, ch') → i < 2 ^ n)
    {rounds : List (Round K F CI DI)} (hr : HonestRounds genV g MI cfg N rounds) {k : Nat}
    (hk : ∀ r ∈ rounds, ∀ e ∈ r.entries, e.2.1.logN = k)
    {s s' : S} {ch ch' : Ch} {w : W} {values : List (List (List (List F)))}
    {proof : FriProof F C P W (List (List (List K) × PI))}
    (hp : Pcs.open X genV g MI M Kc cfg (rounds.map Round.prover) s ch w = some (values, proof, s', ch'))
    (forged : List (List (List (List F))))
    (hshape : List.Forall₂ (fun v v' => List.Forall₂ (fun y y' => y.length = y'.length) v v') values forged) :
    verify genV g MI M Kc cfg (List.zipWith (fun r v => r.verifier v) rounds forged) proof ch =
      .ok ch' := by
  obtain ⟨hv, hacc, ⟨rG, hrG, eG, heG, hG⟩, -⟩ := honest_opening_core hX hXc hg hg0 hM hb hbits hr hp
  rw [← hacc]
  symm
  apply C73_violated_top_values_ignored
  rw [← hG]
  simp only [entryHeight, hk rG hrG eG heG]
  have hlde := hr.lde
  clear hacc hr hp hrG hb
  unfold SameExceptTop
  induction hv generalizing forged with
  | nil => simp
  | @cons r v rs vs hrv _ ih =>
    cases forged with
    | nil => cases hshape
    | cons v' vs' =>
      obtain ⟨hs1, hs2⟩ := List.forall₂_cons.1 hshape
      rw [List.zipWith_cons_cons, List.zipWith_cons_cons]
      refine .cons ⟨rfl, ?_⟩ (ih (fun x hx => hk x (List.mem_cons_of_mem _ hx)) vs' hs2
        fun x hx => hlde x (List.mem_cons_of_mem _ hx))
      have hk' := hk r List.mem_cons_self
      have hl' := hlde r List.mem_cons_self
      clear ih hk hlde hs2 hshape
      simp only [Round.verifier]
      generalize r.entries = es at *
      induction hrv generalizing v' with
      | nil => simp
      | @cons e ys es yss he _ ih =>
        cases v' with
        | nil => cases hs1
        | cons ys' yss' =>
          obtain ⟨hl, hs1⟩ := List.forall₂_cons.1 hs1
          rw [List.zipWith_cons_cons, List.zipWith_cons_cons]
          refine .cons ⟨rfl, ?_, ?_⟩ (ih yss' hs1 (fun x hx => hk' x (List.mem_cons_of_mem _ hx))
            fun x hx => hl' x (List.mem_cons_of_mem _ hx))
          · obtain ⟨ps, hps⟩ := hl' e List.mem_cons_self
            have hy : ys.length = e.2.2.length := by rw [he ps hps, List.length_map]
            simp only
            rw [List.map_fst_zip (by omega), List.map_fst_zip (by omega)]
          · intro hne
            exact absurd (by rw [hk' e List.mem_cons_self]) hne

/-! ### C74 -/

/-- **C74 is violated**: `verify` never returns an error.  Whatever the proof, the result is acceptance or
a panic. -/
theorem C74_violated_never_err {genV : Nat → K} {g : K} {MI : InMmcs K SI CI DI PI}
    {M : Mmcs F S C D P} {Kc : Chall Ch C F W} {cfg : Config} (rounds : List (VerifierRound K F CI))
    (proof : FriProof F C P W (List (List (List K) × PI))) (ch : Ch) (e : FriErr) :
    verify genV g MI M Kc cfg rounds proof ch ≠ .err e := by
  unfold verify
  cases Kc.sample ch with
  | none => simp
  | some a =>
    obtain ⟨alpha, ch1⟩ := a
    simp only [Res.ofOption_some, Res.bind_ok]
    cases verifyShapeAndSampleChallenges Kc cfg proof ch1 with
    | err => simp [expect]
    | panic => simp [expect]
    | ok c =>
      simp only [expect, Res.bind_ok]
      cases verifyChallenges (fun b => algebraMap K F (genV b)) M cfg proof c.1
        (verifyInput MI genV g cfg alpha rounds (proof.commitPhaseCommits.length + cfg.logBlowup)) with
      | err => simp [expect]
      | panic => simp [expect]
      | ok _ => simp [expect]

/-- **C74 is violated**, a case: a proof with the wrong number of queries makes the verifier panic. -/
theorem C74_violated_shape_panics {genV : Nat → K} {g : K} {MI : InMmcs K SI CI DI PI}
    {M : Mmcs F S C D P} {Kc : Chall Ch C F W} {cfg : Config} (rounds : List (VerifierRound K F CI))
    (proof : FriProof F C P W (List (List (List K) × PI))) (ch : Ch)
    (h : proof.queryProofs.length ≠ cfg.numQueries) :
    verify genV g MI M Kc cfg rounds proof ch = .panic := by
  unfold verify
  cases Kc.sample ch with
  | none => simp
  | some a =>
    simp only [Res.ofOption_some, Res.bind_ok]
    unfold verifyShapeAndSampleChallenges
    cases sampleBetas Kc proof.commitPhaseCommits a.2 with
    | none => simp [expect]
    | some y => simp [h, expect]

end TapStark.Pcs
